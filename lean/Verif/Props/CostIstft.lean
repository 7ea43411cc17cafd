import Verif.Props.CostNd
import Verif.Props.IstftStream
/-
C111, continued: operations of the inverse short-time transform.
-/
namespace Kofft.Props
open Spec
variable [Formal]

private theorem frame_cost (cfg : Cfg) (x : List (Cx Expr)) (n : ℕ) (hx : x.length = n) (h0 : 0 < n)
    (hr : fftRes cfg n = .ok ()) : Cost (parts x) (250 * (n * n.log2)) (parts (ifftBuf cfg Planner.new x)) := by
  obtain ⟨q, e, -⟩ := (ifft_opOk cfg).run (Planner.new : Planner Expr) x (inv_new cfg)
  rw [hx, hr] at e
  exact ifft_operations_pos cfg [] Planner.new q x _ n hx h0 .new (by simp) e

/-- All samples and all norms after `m` frames. -/
private theorem ola_cost {A : Expr → Prop} (window : List Expr) (hop N : ℕ) (ys : List (List (Cx Expr))) (o : List Expr)
    (hy : ∀ k < ys.length, ∀ i, Avail A [] ((ys.getD k []).getD i Cx.zero).re) (hw : ∀ e ∈ window, Avail A [] e)
    (ho : ∀ e ∈ o, Avail A [] e) :
    ∀ m ≤ ys.length, Cost A (m * (4 * window.length)) fun e => ∃ t < N,
      e = olaK window hop ys m (o.getD t Flt.zero) t ∨ e = normAt window hop m t
  | 0, _ => (cost_has fun e ⟨t, _, he⟩ => by
      rcases he with rfl | rfl
      · rw [olaK_zero]; exact getD_avail ho t
      · exact avail_const).le (Nat.zero_le _)
  | m + 1, hm => by
    set B : Expr → Prop := fun e => ∃ t < N,
      e = olaK window hop ys m (o.getD t Flt.zero) t ∨ e = normAt window hop m t with hB
    have ih : Cost A (m * (4 * window.length)) B := ola_cost window hop N ys o hy hw ho m (by omega)
    have up : ∀ {e : Expr}, Avail A [] e → Avail (fun e => A e ∨ B e) [] e := fun h => avail_more h
    have hnew : Cost (fun e => A e ∨ B e) (window.length * 4) fun e => ∃ i < window.length, m * hop + i < N ∧
        (e = olaK window hop ys (m + 1) (o.getD (m * hop + i) Flt.zero) (m * hop + i) ∨
          e = normAt window hop (m + 1) (m * hop + i)) := by
      refine Cost.all fun i hi => ?_
      by_cases hN : m * hop + i < N
      · have c1 : Cost (fun e => A e ∨ B e) 2 fun e =>
            e = olaK window hop ys (m + 1) (o.getD (m * hop + i) Flt.zero) (m * hop + i) := by
          rw [olaK_succ, olaStep, if_pos (by omega)]
          exact bin_cost .add (at_hand (Or.inl (Or.inr ⟨_, hN, Or.inl rfl⟩)))
            (Cost.bin .mul (up (hy m (by omega) _)) (up (getD_avail hw _)))
        have c2 : Cost (fun e => A e ∨ B e) 2 fun e => e = normAt window hop (m + 1) (m * hop + i) := by
          rw [normAt_succ, if_pos (by omega)]
          exact bin_cost .add (at_hand (Or.inl (Or.inr ⟨_, hN, Or.inr rfl⟩)))
            (Cost.bin .mul (up (getD_avail hw _)) (up (getD_avail hw _)))
        exact (c1.union c2).weaken le_rfl fun e he => he.2
      · exact (cost_has fun e he => absurd he.1 hN).le (Nat.zero_le _)
    refine (ih.both hnew).weaken (by rw [Nat.add_mul]; omega) ?_
    rintro e ⟨t, ht, he⟩
    by_cases hc : m * hop ≤ t ∧ t < m * hop + window.length
    · obtain ⟨i, rfl⟩ := Nat.exists_eq_add_of_le hc.1
      exact Or.inr ⟨i, by omega, ht, he⟩
    · refine Or.inl ⟨t, ht, ?_⟩
      rwa [olaK_succ, olaStep, if_neg hc, normAt_succ, if_neg hc] at he

/-- C111o. The inverse short-time transform of `F` frames with a window of `n` into `N` samples takes at most
`F (250 n log₂ n + 4 n) + N` operations. -/
theorem istft_operations (cfg : Cfg) (p p' : Planner Expr) (frames ys : List (List (Cx Expr))) (window : List Expr) (hop : ℕ)
    (output scratch out sc : List Expr) (hp : ReachVia cfg (fun m => workSize m ≤ workSize window.length) p)
    (hw : window ≠ []) (hn : cfg.std = true ∨ ∃ k, window.length = 2 ^ k)
    (h : istft (ifft cfg) p frames window hop output scratch = .ok (p', ys, out, sc, .ok ())) :
    Cost (fun e => (∃ f ∈ frames, parts f e) ∨ elems window e ∨ elems output e)
      (frames.length * (250 * (window.length * window.length.log2) + 4 * window.length) + output.length)
      (fun e => elems out e ∨ elems sc e ∨ ∃ f ∈ ys, parts f e) := by
  have hwl : 0 < window.length := List.length_pos_iff.2 hw
  have hr := fftRes_ok (cfg := cfg) hwl hn
  obtain ⟨q1, f1, o1, s1, r1, e1, -, -, -, -, -, hok, -⟩ := istft_total cfg p
    (Kofft.ReachVia.mono (fun _ _ => trivial) hp) frames window hop output scratch
  rw [h] at e1
  obtain ⟨-, e2⟩ := Prod.mk.inj (Outcome.ok.inj e1)
  obtain ⟨-, e2⟩ := Prod.mk.inj e2
  obtain ⟨-, e2⟩ := Prod.mk.inj e2
  obtain ⟨-, e2⟩ := Prod.mk.inj e2
  obtain ⟨hh, hs, hf, -⟩ := hok.1 e2.symm
  obtain ⟨q2, e3⟩ := runAll_ifft_fresh cfg window.length hr frames p hf hp
  obtain ⟨o2, s2, e4, lo, ls, hv⟩ := istft_bit_exact (ifft cfg) (keeps_ifft_reach cfg) p q2
    (Kofft.ReachVia.mono (fun _ _ => trivial) hp) frames _ window hop output scratch (by omega) hs hf e3
  rw [h] at e4
  simp only [Outcome.ok.injEq, Prod.mk.injEq, and_true] at e4
  obtain ⟨-, hy0, rfl, rfl⟩ := e4
  subst hy0
  set A : Expr → Prop := fun e => (∃ f ∈ frames, parts f e) ∨ elems window e ∨ elems output e with hA
  set ys := frames.map (ifftBuf cfg Planner.new) with hys
  have hyl : ys.length = frames.length := by simp [hys]
  have hyk : ∀ k (hk : k < frames.length), ys.getD k [] = ifftBuf cfg Planner.new frames[k] := by
    intro k hk
    simp [hys, List.getD_eq_getElem?_getD, hk]
  set B : Expr → Prop := fun e => ∃ k < frames.length, parts (ys.getD k []) e with hB
  have c1 : Cost A (frames.length * (250 * (window.length * window.length.log2))) B := by
    refine Cost.all fun k hk => ?_
    rw [hyk k hk]
    exact (frame_cost cfg frames[k] window.length (hf _ (List.getElem_mem hk)) hwl hr).more
      fun e he => Or.inl ⟨_, List.getElem_mem hk, he⟩
  have c2 := ola_cost (A := fun e => A e ∨ B e) window hop output.length ys output (fun k hk i => by
      by_cases hi : i < (ys.getD k []).length
      · refine Or.inl (Or.inr ⟨k, by omega, ?_⟩)
        exact parts_of_getD hi rfl (Or.inl rfl)
      · rw [List.getD_eq_default _ _ (by omega)]; exact avail_const)
    (fun e he => Or.inl (Or.inl (Or.inr (Or.inl he)))) (fun e he => Or.inl (Or.inl (Or.inr (Or.inr he)))) ys.length le_rfl
  set D : Expr → Prop := fun e => ∃ t < output.length,
      e = olaK window hop ys ys.length (output.getD t Flt.zero) t ∨ e = normAt window hop ys.length t with hD
  have c3 : Cost (fun e => (A e ∨ B e) ∨ D e) (output.length * 1) fun e => ∃ t < output.length, e = out.getD t Flt.zero := by
    refine Cost.all fun t ht => ?_
    rw [(hv t ht).2, divNorm]
    split
    · exact Cost.bin .div (Or.inl (Or.inr ⟨t, ht, Or.inl rfl⟩)) (Or.inl (Or.inr ⟨t, ht, Or.inr (by rw [hyl])⟩))
    · exact (at_hand (Or.inl (Or.inr ⟨t, ht, Or.inl rfl⟩))).le (Nat.zero_le _)
  refine (c1.both (c2.both c3)).weaken (by rw [hyl]; nlinarith) ?_
  rintro e (he | he | ⟨f, hfm, he⟩)
  · obtain ⟨t, ht, rfl⟩ := List.getElem_of_mem he
    exact Or.inr (Or.inr ⟨t, by omega, by rw [List.getD_eq_getElem _ _ ht]⟩)
  · obtain ⟨t, ht, rfl⟩ := List.getElem_of_mem he
    refine Or.inr (Or.inl ⟨t, by omega, Or.inr ?_⟩)
    rw [← List.getD_eq_getElem _ Flt.zero ht, (hv t (by omega)).1, hyl]
  · obtain ⟨k, hk, rfl⟩ := List.getElem_of_mem hfm
    exact Or.inl ⟨k, by omega, by rw [List.getD_eq_getElem _ _ hk]; exact he⟩

/-- 32 frames of 256 with a hop of 128 back into 4096 samples: at most 16,420,864 operations. -/
example (cfg : Cfg) (frames : List (List (Cx Expr))) (hF : frames.length = 32) (hf : ∀ f ∈ frames, f.length = 256) :
    ∃ p' ys out sc, istft (ifft cfg) .new frames (reInputs 256) 128 (List.replicate 4096 Flt.zero) (List.replicate 4096 Flt.zero) =
        .ok (p', ys, out, sc, .ok ()) ∧
      Cost (fun e => (∃ f ∈ frames, parts f e) ∨ elems (reInputs 256) e ∨ elems (List.replicate 4096 Flt.zero) e) 16420864
        (fun e => elems out e ∨ elems sc e ∨ ∃ f ∈ ys, parts f e) := by
  have hl : (reInputs 256).length = 256 := by simp [reInputs]
  have hn : cfg.std = true ∨ ∃ k, (reInputs 256).length = 2 ^ k := Or.inr ⟨8, by rw [hl]; norm_num⟩
  have hw : reInputs 256 ≠ [] := List.length_pos_iff.1 (by omega)
  obtain ⟨p', ys, out, sc, r, e, -, -, -, -, -, hok, -⟩ := istft_total cfg (Planner.new : Planner Expr) .new frames (reInputs 256) 128
    (List.replicate 4096 Flt.zero) (List.replicate 4096 Flt.zero)
  obtain rfl := hok.2 ⟨by decide, by rw [List.length_replicate], fun f h => by rw [hf f h, hl], Or.inr ⟨hw, hn⟩⟩
  refine ⟨p', ys, out, sc, e, (istft_operations cfg _ _ _ _ _ _ _ _ _ _ .new hw hn e).le ?_⟩
  have h1 : Nat.log2 256 = 8 := by decide
  rw [hl, hF, List.length_replicate, h1]

end Kofft.Props
