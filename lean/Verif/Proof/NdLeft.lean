import Verif.Proof.Later
import Verif.Proof.NdFft
/-
What a pass of transforms of one length leaves in the transformer.
-/
namespace Kofft
open Spec

variable {T : Type} [Flt T]

theorem stale_nil' {p : Planner T} {n : Nat} (h : p.splitRe.length ≤ n) : stale p n = [] := by
  unfold stale; rw [List.drop_eq_nil_of_le h]; rfl

theorem powOut_short (cfg : Cfg) (p : Planner T) (x : List (Cx T)) (h : p.splitRe.length ≤ x.length) :
    powOut cfg p x = powOut cfg Planner.new x := by
  unfold powOut bigOut
  rw [stale_nil' h, stale_nil' (p := (Planner.new : Planner T)) (Nat.zero_le _)]

theorem powNext_short (cfg : Cfg) (hk : cfg.kind = .f32 ∨ cfg.kind = .f64) (p : Planner T) (x : List (Cx T))
    (h : p.splitRe.length ≤ x.length) (h16 : 16 < x.length) : powNext cfg p x = powNext cfg Planner.new x := by
  unfold powNext splitNext
  rw [if_pos h16, if_pos h16, if_pos hk, if_pos hk, stale_nil' h, stale_nil' (p := (Planner.new : Planner T)) (Nat.zero_le _)]

theorem powNext_length_short (cfg : Cfg) (p : Planner T) (x : List (Cx T))
    (h : p.splitRe.length ≤ x.length) : (powNext cfg p x).1.length ≤ x.length := by
  unfold powNext splitNext
  split
  · split
    · simp [stkOut_length, stale_nil' h]
    · rw [grow_length]; simp; omega
  · exact h

/-- With short leftovers, the new leftovers depend on the input only. -/
theorem fftOut_left_short (cfg : Cfg) (hk : cfg.kind = .f32 ∨ cfg.kind = .f64) (p : Planner T) (x : List (Cx T))
    (hb : Bnd (need x.length) p) (h16 : 16 < need x.length) :
    (fftOut cfg p x).2.1 = (fftOut cfg Planner.new x).2.1 := by
  obtain ⟨h1, h2⟩ := hb
  unfold fftOut
  by_cases hp : isPow2 x.length = true
  · rw [need, if_pos hp] at h1 h2 h16
    rw [if_pos hp, if_pos hp]
    exact powNext_short cfg hk p x h1 h16
  · rw [need, if_neg hp] at h1 h2 h16
    rw [if_neg hp, if_neg hp]
    unfold bluRun
    simp only
    have e1 : max p.bluScratch.length (bluM x.length) = bluM x.length := Nat.max_eq_right h2
    have e2 : max (Planner.new : Planner T).bluScratch.length (bluM x.length) = bluM x.length := Nat.max_eq_right (Nat.zero_le _)
    rw [e1, e2]
    have e3 : ∀ st st' : Nat → Cx T, bluA x.length (bluM x.length) (bluM x.length) (fun i => x.getD i Cx.zero) st =
        bluA x.length (bluM x.length) (bluM x.length) (fun i => x.getD i Cx.zero) st' := by
      intro st st'
      unfold bluA
      apply tab_congr
      intro i hi
      simp [hi]
    rw [e3 _ (fun i => (grow (Planner.new : Planner T).bluScratch (bluM x.length) Cx.zero).getD i Cx.zero)]
    generalize ha : bluA x.length (bluM x.length) (bluM x.length) (fun i => x.getD i Cx.zero)
      (fun i => (grow (Planner.new : Planner T).bluScratch (bluM x.length) Cx.zero).getD i Cx.zero) = a0
    have hl : a0.length = bluM x.length := by rw [← ha, bluA, tab_length]
    have hl2 : (bluMid (powOut cfg Planner.new a0) (bluPair cfg x.length).2).length = bluM x.length := by
      rw [bluMid_length, powOut_length cfg _ _ (by rw [hl]; exact bluM_pow2 _), hl]
    rw [powOut_short cfg p a0 (by omega)]
    have f1 := powNext_length_short cfg p a0 (by omega)
    have f2 := powNext_length_short cfg (Planner.new : Planner T) a0 (Nat.zero_le _)
    rw [powNext_short cfg hk _ _ (by simp only; omega) (by omega)]
    conv_rhs => rw [powNext_short cfg hk _ _ (by simp only; omega) (by omega)]

theorem fft_left_short (cfg : Cfg) (hk : cfg.kind = .f32 ∨ cfg.kind = .f64) {p q p' q' : Planner T} {x y z : List (Cx T)}
    (hp : Inv cfg p) (hq : Inv cfg q) (hbp : Bnd (need x.length) p) (hbq : Bnd (need x.length) q) (h16 : 16 < need x.length)
    (e1 : fft cfg p x = .ok (p', y, .ok ())) (e2 : fft cfg q x = .ok (q', z, .ok ())) :
    p'.splitRe = q'.splitRe ∧ p'.splitIm = q'.splitIm := by
  obtain ⟨p1, y1, f1, -, -, -, -, -, h1, -⟩ := fft_run cfg p x hp
  obtain ⟨q1, z1, f2, -, -, -, -, -, h2, -⟩ := fft_run cfg q x hq
  rw [e1] at f1
  rw [e2] at f2
  simp only [Outcome.ok.injEq, Prod.mk.injEq] at f1 f2
  obtain ⟨g1, g2, g3⟩ := f1
  obtain ⟨k1, k2, k3⟩ := f2
  subst g1 g2 k1 k2
  have a := congrArg (fun v => v.2.1) (h1 g3.symm)
  have b := congrArg (fun v => v.2.1) (h2 g3.symm)
  simp only at a b
  rw [fftOut_left_short cfg hk p x hbp h16, ← fftOut_left_short cfg hk q x hbq h16, ← b] at a
  simpa using a

/-- The rows not yet transformed are untouched. -/
theorem slice_frame (cfg : Cfg) {C N : Nat} (hr : fftRes cfg C = .ok ()) (cnt : Nat) :
    ∀ (j : Nat) (t : NdSt T), Inv cfg t.p → t.data.length = N → (j + cnt) * C ≤ N →
      ∃ st', loopRes cnt j t (fun q s => sliceFft cfg (q * C) C s) = .ok (st', .ok ()) ∧
        ∀ k, (j + cnt) * C ≤ k → st'.data.getD k Cx.zero = t.data.getD k Cx.zero := by
  induction cnt with
  | zero => intro j t _ _ _; exact ⟨t, rfl, fun _ _ => rfl⟩
  | succ cnt ih =>
    intro j t hI hl hN
    have hj : (j + 1) * C ≤ (j + (cnt + 1)) * C := Nat.mul_le_mul_right _ (by omega)
    have hj1 : (j + 1) * C = j * C + C := by ring
    obtain ⟨t1, e1, a1, a2, -, -, -, a6⟩ := (sliceFft_line (T := T) cfg (N := N) (b := j * C) (n := C) t.sc.length (by omega)).run t hI hl rfl
    obtain ⟨-, a7⟩ := a6 hr
    obtain ⟨st', e2, h2⟩ := ih (j + 1) t1 a1 a2 (by rw [show j + 1 + cnt = j + (cnt + 1) by omega]; exact hN)
    refine ⟨st', ?_, fun k hk => ?_⟩
    · unfold loopRes
      simp only []
      rw [e1, hr]
      exact e2
    · rw [h2 k (by rw [show j + 1 + cnt = j + (cnt + 1) by omega]; exact hk), a7 k (fun i hi => by omega)]

/-- After the row pass of a 2D transform on a transformer with short leftovers, the leftovers are those of a new transformer that
has transformed the last row only. -/
theorem slice_pass_left (cfg : Cfg) (hk : cfg.kind = .f32 ∨ cfg.kind = .f64) {R C : Nat} (hr : fftRes cfg C = .ok ()) (hR : 0 < R)
    (h16 : 16 < need C) (st s1 : NdSt T) (hI : Inv cfg st.p) (hb : Bnd (need C) st.p) (hl : st.data.length = R * C)
    (e : loopRes R 0 st (fun q s => sliceFft cfg (q * C) C s) = .ok (s1, .ok ())) (x : List (Cx T)) (hx : x.length = C)
    (hx2 : ∀ i, i < C → st.data.getD ((R - 1) * C + i) Cx.zero = x.getD i Cx.zero) (q : Planner T) (y : List (Cx T))
    (eq : fft cfg Planner.new x = .ok (q, y, .ok ())) :
    s1.p.splitRe = q.splitRe ∧ s1.p.splitIm = q.splitIm := by
  obtain ⟨R, rfl⟩ : ∃ R', R = R' + 1 := ⟨R - 1, by omega⟩
  rw [Nat.add_sub_cancel] at hx2
  have hRC : (R + 1) * C = R * C + C := by ring
  obtain ⟨t, f1, f2⟩ := slice_frame (T := T) cfg (N := (R + 1) * C) hr R 0 st hI hl (by rw [Nat.zero_add]; omega)
  -- invariant and bound after the first rows
  have ht : Inv cfg t.p ∧ t.data.length = (R + 1) * C ∧ Bnd (need C) t.p := by
    by_cases hR0 : R = 0
    · subst hR0
      simp only [loopRes, Outcome.ok.injEq, Prod.mk.injEq, and_true] at f1
      rw [← f1]; exact ⟨hI, hl, hb⟩
    · obtain ⟨t', g1, g2, g3, -, g4, -⟩ := slice_pass (T := T) cfg (Q := R) (C := C) (N := (R + 1) * C) (m := st.sc.length) (by omega)
        (by omega) st hI hl rfl
      rw [f1] at g1
      simp only [Outcome.ok.injEq, Prod.mk.injEq] at g1
      rw [g1.1]
      exact ⟨g2, g3, g4 _ le_rfl hb⟩
  obtain ⟨t1, t2, t3⟩ := ht
  have hline : (t.data.drop (R * C)).take C = x := by
    apply List.ext_getElem?
    intro i
    by_cases hi : i < C
    · have := f2 (R * C + i) (by rw [Nat.zero_add]; omega)
      rw [hx2 i hi] at this
      rw [List.getElem?_take_of_lt hi, List.getElem?_drop]
      rw [List.getD_eq_getElem _ _ (by omega), List.getD_eq_getElem _ _ (by omega)] at this
      rw [List.getElem?_eq_getElem (by omega), List.getElem?_eq_getElem (by omega), this]
    · rw [List.getElem?_eq_none (by simp; omega), List.getElem?_eq_none (by omega)]
  obtain ⟨p', e3, -⟩ := (fft_opOk cfg).run t.p x t1
  rw [hx, hr] at e3
  have e4 : sliceFft cfg (R * C) C t = .ok (⟨p', t.data.take (R * C) ++ fftBuf cfg t.p x ++ t.data.drop (R * C + C), t.sc⟩, .ok ()) := by
    unfold sliceFft
    rw [if_pos (by omega), hline, e3]; rfl
  have h := loopRes_add (f := fun q s => sliceFft (T := T) cfg (q * C) C s) R 1 0 st
  rw [e, f1] at h
  simp only [Outcome.bind_ok, Nat.zero_add, loopRes_succ, e4] at h
  have h' : Outcome.ok (s1, Except.ok ()) = Outcome.ok ((⟨p', t.data.take (R * C) ++ fftBuf cfg t.p x ++ t.data.drop (R * C + C), t.sc⟩ : NdSt T), (Except.ok () : Res)) := h
  simp only [Outcome.ok.injEq, Prod.mk.injEq] at h'
  rw [h'.1]
  exact fft_left_short cfg hk t1 (inv_new cfg) (by rw [hx]; exact t3) ⟨Nat.zero_le _, Nat.zero_le _⟩ (by rw [hx]; exact h16) e3 eq

end Kofft
