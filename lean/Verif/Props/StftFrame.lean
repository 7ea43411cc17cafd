import Verif.Props.IstftStream
/-
Property C62: the single-frame helpers `frame` and `inverse_frame`.
-/
namespace Kofft.Props
open Spec Finset

/-- C62a. `frame` hands the transformer the windowed, zero-padded segment at `start`, for every transformer and
arithmetic; samples of a longer buffer past the window are passed on unchanged. -/
theorem frame_transforms_segment {T : Type} [Flt T] {S : Type} (op : StOp S T) (s : S) (signal window : List T)
    (start : ℕ) (out : List (Cx T)) (h : window.length ≤ out.length) :
    stftFrame op s signal window start out =
      op s (Spec.segment signal window start ++ out.drop window.length) := by
  unfold stftFrame
  rw [fillFrame_eq _ _ _ _ h, Outcome.bind_ok]

/-- C62b. A buffer shorter than the window makes `frame` panic (its length is not checked). -/
theorem frame_short_panics {T : Type} [Flt T] {S : Type} (op : StOp S T) (s : S) (signal window : List T)
    (start : ℕ) (out : List (Cx T)) (h : out.length < window.length) :
    stftFrame op s signal window start out = .panic := by
  have hbody : ∀ i (fr : List (Cx T)), i < window.length →
      (do
        let x ← if start + i < signal.length then do
            let a ← rd signal (start + i)
            let w ← rd window i
            pure (a *. w)
          else pure Flt.zero
        wr fr i ⟨x, Flt.zero⟩ : Outcome (List (Cx T))) =
      wr fr i ⟨if start + i < signal.length then signal.getD (start + i) Flt.zero *. window.getD i Flt.zero
        else Flt.zero, Flt.zero⟩ := by
    intro i fr hi
    by_cases h1 : start + i < signal.length
    · rw [if_pos h1, if_pos h1, rd_getD Flt.zero h1, Outcome.bind_ok, rd_getD Flt.zero hi, Outcome.bind_ok]
      rfl
    · rw [if_neg h1, if_neg h1]; rfl
  have key : ∀ c, out.length + 1 + c ≤ window.length → forRange 0 (out.length + 1 + c) out (fun i fr => do
        let x ← if start + i < signal.length then do
            let a ← rd signal (start + i)
            let w ← rd window i
            pure (a *. w)
          else pure Flt.zero
        wr fr i ⟨x, Flt.zero⟩) = .panic := by
    intro c
    induction c with
    | zero =>
      intro hc
      rw [Nat.add_zero, forRange_succ_last (Nat.zero_le _)]
      have e := fillFrame_eq signal (window.take out.length) start out (by simp)
      obtain ⟨v, ev, hv⟩ := forRange_ok (f := fun i (fr : List (Cx T)) => do
        let x ← if start + i < signal.length then do
            let a ← rd signal (start + i)
            let w ← rd window i
            pure (a *. w)
          else pure Flt.zero
        wr fr i ⟨x, Flt.zero⟩) (fun _ (fr : List (Cx T)) => fr.length = out.length) (lo := 0) (hi := out.length)
        (s := out) (Nat.zero_le _) rfl (by
          intro i fr _ hi hfr
          simp only [hbody i fr (by omega)]
          exact ⟨_, wr_ok (by omega), by simpa using hfr⟩)
      rw [ev, Outcome.bind_ok, hbody _ _ (by omega)]
      simp [wr, hv]
    | succ c ih =>
      intro hc
      rw [show out.length + 1 + (c + 1) = out.length + 1 + c + 1 by omega, forRange_succ_last (by omega),
        ih (by omega)]
      rfl
  obtain ⟨c, hc⟩ : ∃ c, window.length = out.length + 1 + c := ⟨window.length - (out.length + 1), by omega⟩
  unfold stftFrame fillFrame
  have := key c (by omega)
  rw [← hc] at this
  rw [this]; rfl

/-- C62c. `inverse_frame` adds the windowed real part of the inverse transform to the output at `start`,
ignoring what falls past the end, and touches nothing else; on a transform error the output is unchanged. -/
theorem inverse_frame_adds {T : Type} [Flt T] {S : Type} (iop : StOp S T) (s s' : S) (frame y : List (Cx T))
    (window : List T) (start : ℕ) (output : List T) (r : Res) (hi : iop s frame = .ok (s', y, r))
    (hy : window.length ≤ y.length) :
    ∃ o, istftFrame iop s frame window start output = .ok (s', y, o, r) ∧ o.length = output.length ∧
      (r ≠ .ok () → o = output) ∧
      (r = .ok () → ∀ p, p < output.length → o.getD p Flt.zero =
        if start ≤ p ∧ p < start + window.length then
          output.getD p Flt.zero +. ((y.getD (p - start) Cx.zero).re *. window.getD (p - start) Flt.zero)
        else output.getD p Flt.zero) := by
  unfold istftFrame
  rw [hi, Outcome.bind_ok]
  cases r with
  | error e => exact ⟨output, rfl, rfl, fun _ => rfl, fun h => by simp at h⟩
  | ok u =>
    simp only
    let N := output.length
    have e : (forRange 0 window.length output fun i o =>
        if start + i < o.length then do
          let c ← rd y i
          let w ← rd window i
          let a ← rd o (start + i)
          wr o (start + i) (a +. (c.re *. w))
        else pure o) = .ok (tab N (fun p => if start ≤ p ∧ p < start + window.length then
          output.getD p Flt.zero +. ((y.getD (p - start) Cx.zero).re *. window.getD (p - start) Flt.zero)
          else output.getD p Flt.zero)) := by
      rw [forRange_eq (fun k => tab N (fun p => if start ≤ p ∧ p < start + k then
          output.getD p Flt.zero +. ((y.getD (p - start) Cx.zero).re *. window.getD (p - start) Flt.zero)
          else output.getD p Flt.zero)) (Nat.zero_le _)]
      · conv_lhs => rw [eq_tab_getD output Flt.zero]
        apply tab_congr
        intro p _; rw [if_neg (by omega)]
      · intro k _ hk
        simp only [tab_length]
        by_cases hs : start + k < N
        · rw [if_pos hs, rd_getD Cx.zero (by omega), Outcome.bind_ok, rd_getD Flt.zero hk, Outcome.bind_ok,
            rd_tab hs, Outcome.bind_ok, wr_tab hs]
          congr 1
          apply tab_congr
          intro p _
          by_cases hp : p = start + k
          · subst hp
            rw [if_pos rfl, if_neg (by omega), if_pos (by omega), show start + k - start = k by omega]
          · rw [if_neg hp]
            by_cases h : start ≤ p ∧ p < start + k
            · rw [if_pos h, if_pos (by omega)]
            · rw [if_neg h, if_neg (by omega)]
        · rw [if_neg hs, Outcome.pure_eq]
          congr 1
          apply tab_congr
          intro p hp
          by_cases h : start ≤ p ∧ p < start + k
          · rw [if_pos h, if_pos (by omega)]
          · rw [if_neg h, if_neg (by omega)]
    rw [e, Outcome.bind_ok]
    exact ⟨_, rfl, by simp [N], fun h => absurd rfl h, fun _ p hp => by rw [tab_getD hp]⟩

theorem inverse_frame_fold {T : Type} [Flt T] {S : Type} (iop : StOp S T) {P : S → Prop} (hP : Keeps iop P)
    (window : List T) (hop : ℕ) (ys : List (List (Cx T))) (init : List T) :
    ∀ (frames : List (List (Cx T))) (k : ℕ) (s s' : S) (output : List T), P s →
      (∀ fr ∈ frames, fr.length = window.length) → k + frames.length = ys.length →
      runAll iop s frames = .ok (s', ys.drop k, .ok ()) → output.length = init.length →
      (∀ p, p < init.length → output.getD p Flt.zero = olaK window hop ys k (init.getD p Flt.zero) p) →
      ∃ out, (List.range frames.length).foldlM (m := Outcome) (fun (st : S × List T) f => do
          let (s, _, o, _) ← istftFrame iop st.1 (frames.getD f []) window ((k + f) * hop) st.2
          .ok (s, o)) (s, output) = .ok (s', out) ∧ out.length = init.length ∧
        ∀ p, p < init.length → out.getD p Flt.zero = olaAt window hop ys (init.getD p Flt.zero) p := by
  intro frames
  induction frames with
  | nil =>
    intro k s s' output _ _ hk hr hl ho
    simp only [runAll, Outcome.ok.injEq, Prod.mk.injEq] at hr
    refine ⟨output, by simp [hr.1], hl, ?_⟩
    intro p hp
    rw [ho p hp, olaAt_eq, show k = ys.length by simpa using hk]
  | cons x xs ih =>
    intro k s s' output hs hf hk hr hl ho
    rw [List.length_cons] at hk
    rw [List.drop_eq_getElem_cons (by omega), runAll] at hr
    obtain ⟨⟨s1, y, r⟩, h1, h2⟩ := ok_of_bind hr
    cases r with
    | error e => simp at h2
    | ok u =>
      obtain ⟨⟨s2, ys2, r2⟩, h3, h4⟩ := ok_of_bind h2
      simp only [Outcome.ok.injEq, Prod.mk.injEq, List.cons.injEq] at h4
      obtain ⟨rfl, ⟨rfl, rfl⟩, rfl⟩ := h4
      obtain ⟨hy, hs1⟩ := hP _ _ _ _ _ hs h1
      have hxl := hf x (by simp)
      obtain ⟨o, e1, hol, -, hov⟩ := inverse_frame_adds iop s s1 x ys[k] window (k * hop) output (.ok u) h1 (by omega)
      obtain ⟨out, e2, c1, c2⟩ := ih (k + 1) s1 s2 o hs1 (fun fr h => hf fr (by simp [h])) (by omega) h3 (by omega) (by
        intro p hp
        rw [hov rfl p (by omega), ho p hp, olaK_succ, olaStep]
        simp [List.getD_eq_getElem?_getD, show k < ys.length by omega])
      refine ⟨out, ?_, c1, c2⟩
      rw [List.length_cons, List.range_succ_eq_map, List.foldlM_cons]
      simp only [List.getD_cons_zero, Nat.add_zero, e1, Outcome.bind_ok]
      rw [List.foldlM_map]
      simp only [List.getD_cons_succ]
      rw [← e2]
      congr 1
      funext st f
      rw [show k + f.succ = k + 1 + f by omega]

/-- C62d. `inverse_frame` on all frames in order into one buffer, and then the division by the accumulated squared
window, is `istft` bit for bit, with any transformer that has been used for transforms no larger. -/
theorem inverse_frame_accumulates {T : Type} [Flt T] (cfg : Cfg) (q : Planner T) (window : List T) (hop : ℕ)
    (hq : ReachVia cfg (fun m => workSize m ≤ workSize window.length) q)
    (frames : List (List (Cx T))) (output scratch : List T) (hh : 0 < hop) (hs : scratch.length = output.length)
    (hw : window ≠ []) (hn : cfg.std = true ∨ ∃ k, window.length = 2 ^ k)
    (hf : ∀ fr ∈ frames, fr.length = window.length) :
    ∃ q' num ys out sc, (List.range frames.length).foldlM (m := Outcome) (fun (st : Planner T × List T) f => do
          let (s, _, o, _) ← istftFrame (ifft cfg) st.1 (frames.getD f []) window (f * hop) st.2
          .ok (s, o)) (q, output) = .ok (q', num) ∧ num.length = output.length ∧
      istft (ifft cfg) q frames window hop output scratch = .ok (q', ys, out, sc, .ok ()) ∧
      out.length = output.length ∧
      ∀ p, p < output.length → out.getD p Flt.zero =
        divNorm (num.getD p Flt.zero) (normAt window hop frames.length p) := by
  have hwl : window.length ≠ 0 := fun h => hw (List.length_eq_zero_iff.mp h)
  obtain ⟨q', e⟩ := runAll_ifft_fresh cfg window.length (fftRes_ok (by omega) hn) frames q hf hq
  have hr : Reach cfg q := Kofft.ReachVia.mono (fun _ _ => trivial) hq
  obtain ⟨out, sc, e1, hol, -, h1⟩ := istft_bit_exact (ifft cfg) (keeps_ifft_reach cfg) q q' hr frames _ window
    hop output scratch hh hs hf e
  obtain ⟨num, e2, hl, h2⟩ := inverse_frame_fold (ifft cfg) (keeps_ifft_reach cfg) window hop
    (frames.map (ifftBuf cfg Planner.new)) output frames 0 q q' output hr hf (by simp) (by simpa using e) rfl
    (fun p _ => rfl)
  simp only [Nat.zero_add] at e2
  refine ⟨q', num, _, out, sc, e2, hl, e1, hol, ?_⟩
  intro p hp
  rw [(h1 p hp).2, h2 p hp]

/-- C62 is not vacuous: the second half of a signal, partly past its end. -/
example [Flt ℝ] (cfg : Cfg) (p : Planner ℝ) (a b : Cx ℝ) :
    stftFrame (fft cfg) p ([1, 2, 3] : List ℝ) [1, 1] 2 [a, b] =
      fft cfg p (Spec.segment [1, 2, 3] [1, 1] 2) :=
  (frame_transforms_segment (fft cfg) p [1, 2, 3] [1, 1] 2 [a, b] le_rfl).trans (by simp)

end Kofft.Props
