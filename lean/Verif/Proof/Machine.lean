import Verif.Model.Machine
import Verif.Proof.Stft
import Verif.Lib.Loop2
import Verif.Proof.NdFft
/-
Machine words: the functions of `Model/Machine.lean` agree with their unbounded versions as long as nothing overflows.
-/
namespace Kofft

variable {T : Type} [Flt T]

theorem Word.val_ok (w : Word) {v : Nat} (h : v < 2 ^ w.bits) : w.val v = .ok v := by
  unfold Word.val; rw [if_pos h]

theorem Word.mul_ok (w : Word) {a b : Nat} (h : a * b < 2 ^ w.bits) : w.mul a b = .ok (a * b) := w.val_ok h

theorem Word.add_ok (w : Word) {a b : Nat} (h : a + b < 2 ^ w.bits) : w.add a b = .ok (a + b) := w.val_ok h

theorem gatherW_ok (w : Word) (src : List (Cx T)) (stride n : Nat) (dst : List (Cx T))
    (h : (n - 1) * stride < 2 ^ w.bits) : gatherW w src stride n dst = gather src stride n dst := by
  unfold gatherW gather
  refine forRange_congr fun i s _ hi => ?_
  have : i * stride ≤ (n - 1) * stride := Nat.mul_le_mul_right _ (by omega)
  rw [w.mul_ok (by omega), Outcome.bind_ok]

theorem scatterW_ok (w : Word) (src : List (Cx T)) (stride n : Nat) (dst : List (Cx T))
    (h : (n - 1) * stride < 2 ^ w.bits) : scatterW w src stride n dst = scatter src stride n dst := by
  unfold scatterW scatter
  refine forRange_congr fun i s _ hi => ?_
  have : i * stride ≤ (n - 1) * stride := Nat.mul_le_mul_right _ (by omega)
  rw [w.mul_ok (by omega)]
  rfl

theorem stridedW_ok (w : Word) (op : FftOp T) (p : Planner T) (x : List (Cx T)) (stride : Nat) (sc : List (Cx T))
    (h : (sc.length - 1) * stride + 1 < 2 ^ w.bits) :
    stridedW w op p x stride sc = strided op p x stride sc := by
  unfold stridedW strided
  by_cases h0 : stride = 0
  · rw [if_pos h0, if_pos h0]
  · rw [if_neg h0, if_neg h0]
    by_cases h1 : sc.length = 0
    · simp only [h1, if_true]
    · simp only [h1, if_false]
      rw [w.mul_ok (by omega), Outcome.bind_ok, w.add_ok h, Outcome.bind_ok, gatherW_ok w _ _ _ _ (by omega)]
      split
      · rfl
      · congr 1
        funext s
        congr 1
        funext v
        obtain ⟨p', s', r⟩ := v
        cases r with
        | error e => rfl
        | ok u => simp only [scatterW_ok w _ _ _ _ (show (sc.length - 1) * stride < 2 ^ w.bits by omega)]

/-- gathering beyond the end of the buffer -/
theorem gatherW_panic (w : Word) (src : List (Cx T)) (stride n : Nat) (dst : List (Cx T)) (hB : 0 < w.bits)
    (hd : dst.length = n) (hs : 0 < stride) (hs2 : stride < 2 ^ w.bits) (hl : src.length < 2 ^ (w.bits - 1))
    (h : src.length ≤ (n - 1) * stride) (hn : 0 < n) : gatherW w src stride n dst = .panic := by
  have hpow : 2 ^ w.bits = 2 * 2 ^ (w.bits - 1) := by
    rw [← pow_succ', show w.bits - 1 + 1 = w.bits by omega]
  have hex : ∃ i, src.length ≤ i * stride := ⟨n - 1, h⟩
  classical
  set i0 := Nat.find hex with hi0
  have h1 : src.length ≤ i0 * stride := Nat.find_spec hex
  have h2 : i0 ≤ n - 1 := Nat.find_min' hex h
  have h3 : ∀ i, i < i0 → i * stride < src.length := fun i hi => by
    have := Nat.find_min hex hi; omega
  have h4 : i0 * stride < 2 ^ w.bits := by
    rcases Nat.eq_zero_or_pos i0 with h | h
    · rw [h, Nat.zero_mul]; positivity
    · have h5 := h3 (i0 - 1) (by omega)
      have h6 : i0 * stride = (i0 - 1) * stride + stride := by
        rw [← Nat.succ_mul, Nat.succ_eq_add_one, show i0 - 1 + 1 = i0 by omega]
      rcases Nat.lt_or_ge stride src.length with h7 | h7
      · omega
      · have : i0 - 1 = 0 := by
          by_contra hne
          have : stride ≤ (i0 - 1) * stride := Nat.le_mul_of_pos_left _ (by omega)
          omega
        rw [h6, this]; omega
  unfold gatherW
  refine forRange_panic_at (fun d => d.length = n) (k := i0) (by omega) 0 dst (Nat.zero_le _) hd ?_ ?_
  · intro i d _ hi hdl
    have h5 := h3 i hi
    refine ⟨d.set i (src.getD (i * stride) Cx.zero), ?_, by simpa using hdl⟩
    rw [w.mul_ok (by omega), Outcome.bind_ok, rd_getD Cx.zero h5, Outcome.bind_ok, wr_ok (by omega)]
  · intro d hdl
    rw [w.mul_ok h4, Outcome.bind_ok, rd_panic h1]
    rfl

/-! ### Loops with an invariant -/

theorem loopRes_congr_inv {σ : Type} {f g : Nat → σ → Outcome (σ × Res)} (P : σ → Prop) :
    ∀ (cnt i : Nat) (s : σ), P s →
      (∀ j s, i ≤ j → j < i + cnt → P s → f j s = g j s ∧ ∀ s' r, g j s = .ok (s', r) → P s') →
      loopRes cnt i s f = loopRes cnt i s g ∧ ∀ s' r, loopRes cnt i s g = .ok (s', r) → P s'
  | 0, _, s, hs, _ => ⟨rfl, fun s' r e => by cases e; exact hs⟩
  | cnt + 1, i, s, hs, h => by
    obtain ⟨e1, e2⟩ := h i s le_rfl (by omega) hs
    unfold loopRes
    rw [e1]
    cases hg : g i s with
    | panic => exact ⟨rfl, fun s' r e => by cases e⟩
    | hang => exact ⟨rfl, fun s' r e => by cases e⟩
    | ok v =>
      obtain ⟨s1, r1⟩ := v
      have hP := e2 s1 r1 hg
      cases r1 with
      | error e => exact ⟨rfl, fun s' r e => by cases e; exact hP⟩
      | ok u =>
        simp only [Outcome.bind_ok]
        exact loopRes_congr_inv P cnt (i + 1) s1 hP (fun j s h1 h2 => h j s (by omega) (by omega))

theorem loopRes_panic_at {σ : Type} {f : Nat → σ → Outcome (σ × Res)} (P : σ → Prop) (k : Nat) :
    ∀ (cnt i : Nat) (s : σ), P s → i ≤ k → k < i + cnt →
      (∀ j s, i ≤ j → j < k → P s → ∃ s', f j s = .ok (s', .ok ()) ∧ P s') →
      (∀ s, P s → f k s = .panic) → loopRes cnt i s f = .panic
  | 0, _, _, _, h1, h2, _, _ => by omega
  | cnt + 1, i, s, hs, h1, h2, h3, h4 => by
    unfold loopRes
    by_cases e : i = k
    · subst e
      rw [h4 s hs]; rfl
    · obtain ⟨s', e1, e2⟩ := h3 i s le_rfl (by omega) hs
      rw [e1]
      exact loopRes_panic_at P k cnt (i + 1) s' e2 (by omega) (by omega) (fun j s a b => h3 j s (by omega) b) h4

/-- What the passes keep. -/
def NdOk (cfg : Cfg) (N m : Nat) (s : NdSt T) : Prop := Inv cfg s.p ∧ s.data.length = N ∧ s.sc.length = m

theorem LineStep.keeps {cfg : Cfg} {N b s n m : Nat} {step : NdSt T → Outcome (NdSt T × Res)}
    (h : LineStep cfg N b s n m step) (st : NdSt T) (hs : NdOk cfg N m st) :
    ∀ s' r, step st = .ok (s', r) → NdOk cfg N m s' := by
  intro s' r e
  obtain ⟨st', e', h1, h2, h3, -⟩ := h.run st hs.1 hs.2.1 hs.2.2
  rw [e] at e'
  cases e'
  exact ⟨h1, h2, h3⟩

theorem sliceFftW_ok (w : Word) (cfg : Cfg) (start len : Nat) (s : NdSt T) (h : start + len < 2 ^ w.bits) :
    sliceFftW w cfg start len s = sliceFft cfg start len s := by
  unfold sliceFftW sliceFft
  rw [w.add_ok h, Outcome.bind_ok]
  by_cases h1 : start + len ≤ s.data.length
  · rw [if_pos h1, if_pos ⟨by omega, h1⟩, Nat.add_sub_cancel_left]
  · rw [if_neg h1, if_neg (by omega)]

theorem stridedAtW_ok (w : Word) (cfg : Cfg) (start stride : Nat) (s : NdSt T)
    (h : (s.sc.length - 1) * stride + 1 < 2 ^ w.bits) :
    stridedAtW w cfg start stride s = stridedAt cfg start stride s := by
  unfold stridedAtW stridedAt
  rw [stridedW_ok w _ _ _ _ _ h]

/-! ### Short-time transforms -/

theorem fillFrameW_ok (w : Word) (signal window : List T) (start : Nat) (frame : List (Cx T))
    (h : start + window.length ≤ 2 ^ w.bits) :
    fillFrameW w signal window start frame = fillFrame signal window start frame := by
  unfold fillFrameW fillFrame
  refine forRange_congr fun i s _ hi => ?_
  rw [w.add_ok (by omega), Outcome.bind_ok]

theorem olaFrameW_ok (w : Word) (window : List T) (start : Nat) (frame : List (Cx T)) (o n : List T)
    (h : start + window.length ≤ 2 ^ w.bits) :
    olaFrameW w window start frame o n = olaFrame window start frame o n := by
  unfold olaFrameW olaFrame
  refine forRange_congr fun i s _ hi => ?_
  rw [w.add_ok (by omega), Outcome.bind_ok]

end Kofft
