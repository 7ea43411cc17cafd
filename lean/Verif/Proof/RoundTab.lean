import Verif.Lib.Apx
import Verif.Proof.Exact
/-
Rounding errors of the twiddle tables, the Stockham stages and the small kernels.
-/
namespace Kofft

open Spec Complex Finset

variable [F : Flt ℝ] {u v t : ℝ}

theorem W_norm (n k : ℕ) : ‖W n k‖ = 1 := by
  rw [W, show -(2 * (Real.pi : ℂ) * I * k / n) = ((-(2 * Real.pi * k / n) : ℝ) : ℂ) * I by push_cast; ring]
  exact Complex.norm_exp_ofReal_mul_I _

theorem W_eq_exp (n k : ℕ) : W n k = exp (((-2 * Real.pi * k / n : ℝ) : ℂ) * I) := by
  rw [W]; congr 1; push_cast; ring

/-! ### Real growth -/

/-- relative error of a real quantity -/
theorem rel_mul {p P q Q g h r : ℝ} (hu : 0 ≤ u) (hg : 1 ≤ g) (hh : 1 ≤ h) (hp : |p - P| ≤ (g - 1) * |P|)
    (hq : |q - Q| ≤ (h - 1) * |Q|) (hr : |r - p * q| ≤ u * |p * q|) :
    |r - P * Q| ≤ (g * h * (1 + u) - 1) * |P * Q| := by
  have H : Apx g (p : ℂ) P |P| := ⟨hg, by
    rw [← ofReal_sub, Complex.norm_real]; exact hp, by rw [Complex.norm_real]; rfl⟩
  have K : Apx h (q : ℂ) Q |Q| := ⟨hh, by
    rw [← ofReal_sub, Complex.norm_real]; exact hq, by rw [Complex.norm_real]; rfl⟩
  have := (H.mul K hu (c := (r : ℂ)) (by
    rw [← ofReal_mul, ← ofReal_sub, Complex.norm_real, ← norm_mul, ← ofReal_mul, Complex.norm_real]; exact hr)).err
  rw [← ofReal_mul, ← ofReal_sub, Complex.norm_real, ← abs_mul] at this
  exact this

/-! ### Twiddle tables -/

theorem rnd_rot (h : Rounding F u v t) (w c : Cx ℝ) :
    ‖toC (⟨F.mulAdd w.re c.re (F.neg (F.mul w.im c.im)), F.mulAdd w.im c.re (F.mul w.re c.im)⟩ : Cx ℝ)
      - toC w * toC c‖ ≤ mulErr u * (‖toC w‖ * ‖toC c‖) := by
  have hu := h.u_nonneg
  obtain ⟨c1, c2⟩ := cross_le (toC w) (toC c)
  simp only [toC_re, toC_im] at c1 c2
  rw [mulErr, mul_assoc]
  apply norm_le_sqrt2
  · have := rnd_fma h w.re c.re (q := F.neg (F.mul w.im c.im)) (Q := -(w.im * c.im))
      (by rw [h.neg, ← neg_sub', abs_neg, abs_neg]; exact h.mul w.im c.im)
    rw [abs_neg, ← sub_eq_add_neg] at this
    simpa using this.trans (mul_le_mul_of_nonneg_left c1 (by positivity))
  · have := rnd_fma h w.im c.re (h.mul w.re c.im)
    rw [add_comm |_|, add_comm (w.im * c.re)] at this
    simpa using this.trans (mul_le_mul_of_nonneg_left c2 (by positivity))

theorem twLoop_rnd (h : Rounding F u v t) (c : Cx ℝ) {ω : ℂ} {ε : ℝ} (hω : Apx (1 + ε) (toC c) ω 1) :
    ∀ (half : Nat) (w : Cx ℝ) (z : ℂ) (g : ℝ) (_ : Apx g (toC w) z 1) (k : Nat), k < half →
    Apx (g * ((1 + mulErr u) * (1 + ε)) ^ k) (toC ((twLoop c.re c.im half w).getD k Cx.zero)) (z * ω ^ k) 1
  | 0, _, _, _, _, _, hk => by omega
  | half + 1, w, z, g, hw, 0, _ => by simpa [twLoop] using hw
  | half + 1, w, z, g, hw, k + 1, hk => by
    have hs := hw.mul hω (mulErr_nonneg h.u_nonneg) (rnd_rot h w c)
    rw [one_mul] at hs
    have := twLoop_rnd h c hω half _ _ _ hs k (by omega)
    simp only [twLoop, List.getD_cons_succ]
    rw [pow_succ', pow_succ' ω]
    have e1 : g * ((1 + mulErr u) * (1 + ε) * ((1 + mulErr u) * (1 + ε)) ^ k) =
      g * (1 + ε) * (1 + mulErr u) * ((1 + mulErr u) * (1 + ε)) ^ k := by ring
    rw [e1, ← mul_assoc]
    exact this

theorem rnd_angle (h : Rounding F u v t) :
    |F.mul (F.neg (F.lit 2 0)) F.pi - -2 * Real.pi| ≤ ((1 + u) ^ 2 - 1) * |-2 * Real.pi| := by
  have := rel_mul h.u_nonneg le_rfl (g := 1) (h := 1 + u) (by linarith [h.u_nonneg]) (p := -2) (P := -2) (by simp)
    (q := F.pi) (Q := Real.pi) (by rw [add_sub_cancel_left, abs_of_pos Real.pi_pos]; exact h.pi)
    (r := F.mul (F.neg (F.lit 2 0)) F.pi) (by rw [h.neg, h.two]; exact h.mul _ _)
  rw [one_mul, ← sq] at this
  exact this

theorem rnd_rotation (h : Rounding F u v t) (K : Nat) :
    ‖toC (Cx.expi (F.div (F.mul (F.neg (F.lit 2 0)) F.pi) (F.ofNat (2 ^ K)))) - W (2 ^ K) 1‖ ≤
      rotErr u t (2 ^ K) := by
  have hu := h.u_nonneg
  have hK : (2 : ℝ) ^ K ≠ 0 := by positivity
  refine (W_eq_exp (2 ^ K) 1 ▸ rnd_expi h _ _).trans ?_
  rw [rotErr]
  gcongr
  have h1 := rnd_angle h
  have h2 := h.div (F.mul (F.neg (F.lit 2 0)) F.pi) (2 ^ K) hK
  rw [h.ofNat_pow]
  have := rel_mul hu (one_le_pow₀ (by linarith)) le_rfl h1 (q := ((2 : ℝ) ^ K)⁻¹) (Q := ((2 : ℝ) ^ K)⁻¹)
    (by simp) (r := F.div (F.mul (F.neg (F.lit 2 0)) F.pi) (2 ^ K)) (by rw [← div_eq_mul_inv]; exact h2)
  rw [← div_eq_mul_inv, mul_one, ← pow_succ, abs_div, abs_mul, abs_neg, abs_two, abs_of_pos Real.pi_pos,
    abs_of_pos (by positivity : (0:ℝ) < 2 ^ K)] at this
  push_cast
  rw [mul_one]
  exact this

theorem rotErr_nonneg (h : Rounding F u v t) (n : ℕ) : 0 ≤ rotErr u t n := by
  have : 1 ≤ (1 + u) ^ 3 := one_le_pow₀ (by linarith [h.u_nonneg])
  have := h.t_nonneg
  have := Real.pi_pos
  unfold rotErr
  have h2 : 0 ≤ ((1 + u) ^ 3 - 1) * (2 * Real.pi / n) := mul_nonneg (by linarith) (by positivity)
  have h3 : 0 ≤ Real.sqrt 2 * t := by positivity
  linarith

theorem twTable_rnd (h : Rounding F u v t) (K k : Nat) (hk : k < 2 ^ K / 2) :
    Apx (tableGrowth u t (2 ^ K)) (toC ((twTable (2 ^ K)).getD k Cx.zero)) (W (2 ^ K) k) 1 := by
  have h1 : toC ⟨F.one, F.zero⟩ = 1 := by apply Complex.ext <;> simp [h.one, h.zero]
  have := twLoop_rnd h (Cx.expi (F.div (F.mul (F.neg (F.lit 2 0)) F.pi) (F.ofNat (2 ^ K))))
    (Apx.unit (W_norm _ _).le (rnd_rotation h K)) (2 ^ K / 2) ⟨F.one, F.zero⟩ 1 1
    (by rw [h1]; simpa using Apx.refl 1) k hk
  rw [one_mul, one_mul, ← W_mul_pow, one_mul] at this
  refine Apx.mono this ?_
  have h2 := mulErr_nonneg h.u_nonneg
  have h3 := rotErr_nonneg h (2 ^ K)
  exact pow_le_pow_right₀ (by nlinarith) hk.le

theorem preTable_rnd (h : Rounding F u v t) (n k : Nat) (hn : n ≤ 1024) (hk : k < n / 2) :
    Apx (preGrowth u t) (toC ((preTable n).getD k Cx.zero)) (W n k) 1 := by
  have hu := h.u_nonneg
  have ht := h.t_nonneg
  have hn0 : (n : ℝ) ≠ 0 := by exact_mod_cast (by omega : n ≠ 0)
  have hn1 : (0 : ℝ) < n := by exact_mod_cast (by omega : 0 < n)
  unfold preTable
  rw [show (List.range (n / 2)).map _ = tab (n / 2) _ from rfl, tab_getD hk]
  simp only []
  set θ' : ℝ := F.div (F.mul (F.mul (F.neg (F.lit 2 0)) F.pi) (F.ofNatD k)) (F.ofNatD n) with hθ'
  have h1 := rnd_angle h
  have h2 := rel_mul hu (one_le_pow₀ (by linarith)) le_rfl h1 (q := (k : ℝ)) (Q := k) (by simp)
    (h.mul (F.mul (F.neg (F.lit 2 0)) F.pi) k)
  rw [mul_one, ← pow_succ] at h2
  have h3 := rel_mul hu (one_le_pow₀ (by linarith)) le_rfl h2 (q := (n : ℝ)⁻¹) (Q := (n : ℝ)⁻¹) (by simp)
    (r := θ') (by
      rw [hθ', h.ofNatD n hn, h.ofNatD k (by omega), ← div_eq_mul_inv]; exact h.div _ _ hn0)
  rw [mul_one, ← pow_succ, ← div_eq_mul_inv] at h3
  have h4 : |-2 * Real.pi * k / n| ≤ Real.pi := by
    rw [abs_div, abs_mul, abs_mul, abs_neg, abs_two, abs_of_pos Real.pi_pos, Nat.abs_cast, Nat.abs_cast,
      div_le_iff₀ hn1]
    have : (2 * k : ℝ) ≤ n := by exact_mod_cast (by omega : 2 * k ≤ n)
    nlinarith [Real.pi_pos]
  have h5 : |θ' - -2 * Real.pi * k / n| ≤ ((1 + u) ^ 4 - 1) * Real.pi :=
    h3.trans (mul_le_mul_of_nonneg_left h4 (sub_nonneg.mpr (one_le_pow₀ (by linarith))))
  rw [preGrowth, add_comm]
  have pp : ∀ a b : ℝ, |a - b| ≤ t → |b| ≤ 1 → |F.printParse a - a| ≤ t + t ^ 2 := by
    intro a b hab hb
    refine (h.printParse a).trans ?_
    have : |a| ≤ 1 + t := by
      rw [show a = (a - b) + b by ring]
      exact (abs_add_le _ _).trans (by linarith)
    have : max 1 |a| ≤ 1 + t := max_le (by linarith) this
    nlinarith
  have e0 : ‖toC (⟨F.printParse (F.cos θ'), F.printParse (F.sin θ')⟩ : Cx ℝ) - toC (Cx.expi θ')‖ ≤
      Real.sqrt 2 * (t + t ^ 2) := by
    apply norm_le_sqrt2
    · simpa [Cx.expi] using pp _ _ (h.cos θ') (Real.abs_cos_le_one _)
    · simpa [Cx.expi] using pp _ _ (h.sin θ') (Real.abs_sin_le_one _)
  rw [add_comm]
  apply Apx.unit (W_norm _ _).le
  have e1 := W_eq_exp n k ▸ rnd_expi h θ' (-2 * Real.pi * k / n)
  have e2 := norm_add_le (toC (⟨F.printParse (F.cos θ'), F.printParse (F.sin θ')⟩ : Cx ℝ) - toC (Cx.expi θ'))
    (toC (Cx.expi θ') - W n k)
  rw [sub_add_sub_cancel] at e2
  nlinarith

end Kofft
