import Verif.Proof.RoundTrig
import Verif.Proof.RoundFft
import Verif.Proof.Stft
/-
Short-time transforms in rounding arithmetic: windowing, overlap-add, normalisation.
-/
namespace Kofft
open Spec Complex Finset

variable [F : Flt ℝ] {u v t : ℝ}

omit F in
theorem Apx.re {g : ℝ} {a z : ℂ} {A : ℝ} (H : Apx g a z A) : RApx g a.re z.re A :=
  RApx.mk' H.one (by rw [← Complex.sub_re]; exact (Complex.abs_re_le_norm _).trans H.err)
    ((Complex.abs_re_le_norm _).trans H.bd)

/-- the windowed sample at `t` of the segment starting at `start` -/
def segAt (signal window : List ℝ) (start s : ℕ) : ℝ := signal.getD (start + s) 0 * window.getD s 0

theorem segment_rnd (h : Rounding F u v t) (signal window : List ℝ) (start s : ℕ) (hs : s < window.length) :
    Apx (1 + u) (toC ((Spec.segment signal window start).getD s Cx.zero)) (segAt signal window start s : ℝ)
      |segAt signal window start s| := by
  rw [segment_tab, tab_getD hs]
  have hu := h.u_nonneg
  have : toC ⟨if start + s < signal.length then F.mul (signal.getD (start + s) F.zero) (window.getD s F.zero)
      else F.zero, F.zero⟩ = ((F.mul (signal.getD (start + s) 0) (window.getD s 0) : ℝ) : ℂ) := by
    rw [h.zero]
    split
    · apply Complex.ext <;> simp [toC]
    · rename_i h1
      have h2 := h.mul (signal.getD (start + s) 0) (window.getD s 0)
      rw [List.getD_eq_default signal _ (by omega), zero_mul, abs_zero, mul_zero, sub_zero] at h2
      have h3 := abs_eq_zero.mp (le_antisymm h2 (abs_nonneg _))
      rw [List.getD_eq_default signal _ (by omega), h3]
      apply Complex.ext <;> simp [toC]
  rw [this]
  exact RApx.rel (by linarith) (by rw [add_sub_cancel_left]; exact h.mul _ _)

/-- the exact accumulated squared window -/
noncomputable def normR (window : List ℝ) (hop c p : ℕ) : ℝ := ∑ f ∈ range c,
  if f * hop ≤ p ∧ p < f * hop + window.length then window.getD (p - f * hop) 0 ^ 2 else 0

theorem normAt_rnd (h : Rounding F u v t) (window : List ℝ) (hop p : ℕ) : ∀ c,
    RApx (normGrowth u c) (normAt window hop c p) (normR window hop c p) (normR window hop c p) := by
  have hu := h.u_nonneg
  intro c
  induction c with
  | zero =>
    simp only [normAt, normR, List.range_zero, List.foldl_nil, range_zero, sum_empty, h.zero, normGrowth]
    exact RApx.mk' (one_le_pow₀ (by linarith)) (by simp) (by simp)
  | succ c ih =>
    have hg : normGrowth u c ≤ normGrowth u (c + 1) := pow_le_pow_right₀ (by linarith) (by omega)
    rw [normAt_succ, normR, sum_range_succ, ← normR]
    split
    · have h1 := (RApx.refl (window.getD (p - c * hop) 0)).mul (RApx.refl (window.getD (p - c * hop) 0)) hu
        (h.mul (window.getD (p - c * hop) 0) (window.getD (p - c * hop) 0))
      rw [abs_mul_abs_self, one_mul, ← sq (window.getD (p - c * hop) 0)] at h1
      have h2 : RApx (normGrowth u c) _ _ _ := Apx.mono h1 (by
        rw [one_mul]; exact le_self_pow₀ (by linarith) (by omega))
      have := ih.add h2 hu (h.add _ _)
      rw [h.zero]
      exact Apx.mono this (le_of_eq (by unfold normGrowth; ring))
    · rw [add_zero]
      exact Apx.mono ih hg

theorem olaK_rnd (h : Rounding F u v t) (window : List ℝ) (hop p : ℕ) (ys : List (List (Cx ℝ))) {g : ℝ} (hg : 1 ≤ g)
    (z A : ℕ → ℕ → ℝ) (c : ℕ)
    (hy : ∀ f, f < c → ∀ s, s < window.length → RApx g ((ys.getD f []).getD s Cx.zero).re (z f s) (A f s)) :
    RApx (g * (1 + u) ^ (c + 1)) (olaK window hop ys c 0 p)
      (∑ f ∈ range c, if f * hop ≤ p ∧ p < f * hop + window.length then
        z f (p - f * hop) * window.getD (p - f * hop) 0 else 0)
      (∑ f ∈ range c, if f * hop ≤ p ∧ p < f * hop + window.length then
        A f (p - f * hop) * |window.getD (p - f * hop) 0| else 0) := by
  have hu := h.u_nonneg
  induction c with
  | zero =>
    simp only [olaK, List.range_zero, List.foldl_nil, range_zero, sum_empty]
    exact RApx.mk' (one_le_mul_of_one_le_of_one_le hg (one_le_pow₀ (by linarith))) (by simp) (by simp)
  | succ c ih =>
    have ih := ih fun f hf => hy f (by omega)
    rw [olaK_succ, olaStep, sum_range_succ, sum_range_succ]
    split
    · rename_i hc
      have h1 := (hy c (by omega) (p - c * hop) (by omega)).mul (RApx.refl (window.getD (p - c * hop) 0)) hu (h.mul _ _)
      rw [mul_one] at h1
      have h2 : RApx (g * (1 + u) ^ (c + 1)) _ _ _ := Apx.mono h1
        (mul_le_mul_of_nonneg_left (le_self_pow₀ (by linarith) (by omega)) (by linarith))
      have := ih.add h2 hu (h.add _ _)
      rw [h.zero]
      exact Apx.mono this (le_of_eq (by ring))
    · rw [add_zero, add_zero]
      exact Apx.mono ih (mul_le_mul_of_nonneg_left (pow_le_pow_right₀ (by linarith) (by omega)) (by linarith))

/-- the division by the accumulated window -/
theorem divNorm_rnd (h : Rounding F u v t) {o n O N g k A : ℝ} (ho : RApx g o O A) (hn : RApx k n N N) (hk : k < 2)
    (hN : (1 + u) / 10 ^ 8 < (2 - k) * N) :
    RApx (g * (1 + u) / (2 - k)) (divNorm o n) (O / N) (A / N) := by
  have hu := h.u_nonneg
  have hk1 := Apx.one hn
  have hN0 : 0 < N := by
    have h1 : 0 < (2 - k) * N := lt_of_le_of_lt (by positivity) hN
    exact pos_of_mul_pos_right h1 (by linarith)
  have e := hn.abs_err
  have hlt : F.lit 1 8 < n := by
    have h1 := h.lit 1 8
    push_cast at h1
    rw [abs_of_nonneg (show (0:ℝ) ≤ 1 / 10 ^ 8 by positivity)] at h1
    have h2 := (abs_le.mp h1).2
    have h3 := (abs_le.mp e).1
    have h4 : (1 + u) / 10 ^ 8 = 1 / 10 ^ 8 + u * (1 / 10 ^ 8) := by ring
    nlinarith
  unfold divNorm
  rw [if_pos ((h.lt _ _).mpr hlt)]
  obtain ⟨hn0, i⟩ := RApx.inv hN0.ne' (by linarith : 0 ≤ k - 1) (by linarith) (by rw [abs_of_pos hN0]; exact e)
  have := ho.mul i hu (c := F.div o n) (by rw [← div_eq_mul_inv]; exact h.div _ _ hn0)
  rw [abs_of_pos (inv_pos.mpr hN0), ← div_eq_mul_inv, ← div_eq_mul_inv, show 1 - (k - 1) = 2 - k by ring] at this
  convert this using 1
  ring

end Kofft
