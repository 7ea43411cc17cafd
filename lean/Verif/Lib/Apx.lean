import Verif.Spec.Rounding
import Verif.Lib.Root
import Mathlib.Analysis.SpecialFunctions.Trigonometric.Bounds
/-
A calculus of relative errors: `Apx g a z A` says the computed `a` approximates the exact `z`, whose
size is at most the weight `A`, with error at most `(g - 1) A`. Growth factors multiply.
-/
namespace Kofft

open Spec Complex Finset

structure Apx (g : ℝ) (a z : ℂ) (A : ℝ) : Prop where
  one : 1 ≤ g
  err : ‖a - z‖ ≤ (g - 1) * A
  bd : ‖z‖ ≤ A

namespace Apx

variable {g h u : ℝ} {a b c z w : ℂ} {A B : ℝ}

theorem nonneg (H : Apx g a z A) : 0 ≤ A := le_trans (norm_nonneg _) H.bd

theorem refl (z : ℂ) : Apx 1 z z ‖z‖ := ⟨le_rfl, by simp, le_rfl⟩

theorem norm_le (H : Apx g a z A) : ‖a‖ ≤ g * A := by
  have := norm_add_le (a - z) z
  rw [sub_add_cancel] at this
  nlinarith [H.err, H.bd]

theorem mono (H : Apx g a z A) (hg : g ≤ h) : Apx h a z A :=
  ⟨H.one.trans hg, H.err.trans (mul_le_mul_of_nonneg_right (by linarith) H.nonneg), H.bd⟩

theorem weight (H : Apx g a z A) (hA : A ≤ B) : Apx g a z B :=
  ⟨H.one, H.err.trans (mul_le_mul_of_nonneg_left hA (by linarith [H.one])), H.bd.trans hA⟩

/-- one more rounding -/
theorem round (H : Apx g a z A) (hu : 0 ≤ u) (hc : ‖c - a‖ ≤ u * ‖a‖) : Apx (g * (1 + u)) c z A := by
  refine ⟨by nlinarith [H.one], ?_, H.bd⟩
  have h1 := norm_add_le (c - a) (a - z)
  rw [sub_add_sub_cancel] at h1
  have h2 := mul_le_mul_of_nonneg_left H.norm_le hu
  nlinarith [H.err]

theorem add' (H : Apx g a z A) (K : Apx g b w B) : Apx g (a + b) (z + w) (A + B) := by
  refine ⟨H.one, ?_, (norm_add_le _ _).trans (add_le_add H.bd K.bd)⟩
  have h1 := norm_add_le (a - z) (b - w)
  rw [show a + b - (z + w) = (a - z) + (b - w) by ring]
  nlinarith [H.err, K.err]

theorem neg' (H : Apx g a z A) : Apx g (-a) (-z) A :=
  ⟨H.one, by rw [show -a - -z = -(a - z) by ring, norm_neg]; exact H.err, by rw [norm_neg]; exact H.bd⟩

theorem conj' (H : Apx g a z A) : Apx g ((starRingEnd ℂ) a) ((starRingEnd ℂ) z) A :=
  ⟨H.one, by rw [← map_sub, RCLike.norm_conj]; exact H.err, by rw [RCLike.norm_conj]; exact H.bd⟩

theorem sub' (H : Apx g a z A) (K : Apx g b w B) : Apx g (a - b) (z - w) (A + B) := by
  rw [sub_eq_add_neg, sub_eq_add_neg]; exact H.add' K.neg'

theorem mul' (H : Apx g a z A) (K : Apx h b w B) : Apx (g * h) (a * b) (z * w) (A * B) := by
  have hA := H.nonneg
  have hB := K.nonneg
  have hg := H.one
  have hh := K.one
  refine ⟨by nlinarith, ?_, by rw [norm_mul]; exact mul_le_mul H.bd K.bd (norm_nonneg _) hA⟩
  rw [show a * b - z * w = (a - z) * b + z * (b - w) by ring]
  refine (norm_add_le _ _).trans ?_
  rw [norm_mul, norm_mul]
  have h1 := mul_le_mul H.err K.norm_le (norm_nonneg _) (mul_nonneg (by linarith) hA)
  have h2 := mul_le_mul H.bd K.err (norm_nonneg _) hA
  nlinarith

theorem mul (H : Apx g a z A) (K : Apx h b w B) (hu : 0 ≤ u) (hc : ‖c - a * b‖ ≤ u * (‖a‖ * ‖b‖)) :
    Apx (g * h * (1 + u)) c (z * w) (A * B) :=
  (H.mul' K).round hu (by rwa [norm_mul])

theorem add (H : Apx g a z A) (K : Apx g b w B) (hu : 0 ≤ u) (hc : ‖c - (a + b)‖ ≤ u * ‖a + b‖) :
    Apx (g * (1 + u)) c (z + w) (A + B) := (H.add' K).round hu hc

theorem sub (H : Apx g a z A) (K : Apx g b w B) (hu : 0 ≤ u) (hc : ‖c - (a - b)‖ ≤ u * ‖a - b‖) :
    Apx (g * (1 + u)) c (z - w) (A + B) := (H.sub' K).round hu hc

/-- an approximate unit number -/
theorem unit {τ : ℝ} (hz : ‖z‖ ≤ 1) (ha : ‖a - z‖ ≤ τ) : Apx (1 + τ) a z 1 :=
  ⟨by linarith [norm_nonneg (a - z)], by linarith, hz⟩

theorem pow (H : Apx g a z 1) (k : ℕ) : Apx (g ^ k) (a ^ k) (z ^ k) 1 := by
  induction k with
  | zero => simpa using refl 1
  | succ k ih => simpa [pow_succ] using ih.mul' H

end Apx

/-! ### Complex operations under rounding -/

theorem norm_le_of_parts {z w : ℂ} {u : ℝ} (hu : 0 ≤ u) (h1 : |z.re| ≤ u * |w.re|)
    (h2 : |z.im| ≤ u * |w.im|) : ‖z‖ ≤ u * ‖w‖ := by
  rw [Complex.norm_eq_sqrt_sq_add_sq, Complex.norm_eq_sqrt_sq_add_sq,
    ← Real.sqrt_sq hu, ← Real.sqrt_mul (sq_nonneg u)]
  apply Real.sqrt_le_sqrt
  have a1 := pow_le_pow_left₀ (abs_nonneg _) h1 2
  have a2 := pow_le_pow_left₀ (abs_nonneg _) h2 2
  rw [mul_pow, sq_abs, sq_abs] at a1 a2
  linarith

theorem norm_le_sqrt2 {z : ℂ} {m : ℝ} (h1 : |z.re| ≤ m) (h2 : |z.im| ≤ m) : ‖z‖ ≤ Real.sqrt 2 * m := by
  have hm : 0 ≤ m := (abs_nonneg _).trans h1
  rw [Complex.norm_eq_sqrt_sq_add_sq]
  rw [show Real.sqrt 2 * m = Real.sqrt (2 * m ^ 2) by
    rw [Real.sqrt_mul (by norm_num), Real.sqrt_sq hm]]
  apply Real.sqrt_le_sqrt
  have a1 := pow_le_pow_left₀ (abs_nonneg _) h1 2
  have a2 := pow_le_pow_left₀ (abs_nonneg _) h2 2
  rw [sq_abs] at a1 a2
  linarith

theorem cross_le (a b : ℂ) : |a.re * b.re| + |a.im * b.im| ≤ ‖a‖ * ‖b‖ ∧
    |a.re * b.im| + |a.im * b.re| ≤ ‖a‖ * ‖b‖ := by
  have key : ∀ p q r s : ℝ, |p * r| + |q * s| ≤ Real.sqrt (p ^ 2 + q ^ 2) * Real.sqrt (r ^ 2 + s ^ 2) := by
    intro p q r s
    rw [← Real.sqrt_mul (by positivity)]
    apply Real.le_sqrt_of_sq_le
    rw [abs_mul, abs_mul, ← sq_abs p, ← sq_abs q, ← sq_abs r, ← sq_abs s]
    nlinarith [sq_nonneg (|p| * |s| - |q| * |r|)]
  rw [Complex.norm_eq_sqrt_sq_add_sq a, Complex.norm_eq_sqrt_sq_add_sq b]
  refine ⟨key _ _ _ _, ?_⟩
  rw [add_comm (b.re ^ 2)]
  exact key _ _ _ _

theorem mulErr_nonneg {u : ℝ} (hu : 0 ≤ u) : 0 ≤ mulErr u :=
  mul_nonneg (Real.sqrt_nonneg _) (by positivity)

variable [F : Flt ℝ] {u v t : ℝ}

theorem rnd_add (h : Rounding F u v t) (a b : Cx ℝ) :
    ‖toC (a.add b) - (toC a + toC b)‖ ≤ u * ‖toC a + toC b‖ :=
  norm_le_of_parts h.u_nonneg (by simpa [Cx.add] using h.add a.re b.re)
    (by simpa [Cx.add] using h.add a.im b.im)

theorem rnd_sub (h : Rounding F u v t) (a b : Cx ℝ) :
    ‖toC (a.sub b) - (toC a - toC b)‖ ≤ u * ‖toC a - toC b‖ :=
  norm_le_of_parts h.u_nonneg (by simpa [Cx.sub] using h.sub a.re b.re)
    (by simpa [Cx.sub] using h.sub a.im b.im)

/-- product difference with three roundings -/
theorem rnd_pair (h : Rounding F u v t) {P Q p q r : ℝ} (hp : |p - P| ≤ u * |P|) (hq : |q - Q| ≤ u * |Q|)
    (hr : |r - (p + q)| ≤ u * |p + q|) : |r - (P + Q)| ≤ (2 * u + u ^ 2) * (|P| + |Q|) := by
  have hu := h.u_nonneg
  have e1 : |r - (P + Q)| ≤ |r - (p + q)| + (|p - P| + |q - Q|) := by
    rw [show r - (P + Q) = (r - (p + q)) + ((p - P) + (q - Q)) by ring]
    exact (abs_add_le _ _).trans (by linarith [abs_add_le (p - P) (q - Q)])
  have e2 : |p + q| ≤ (1 + u) * (|P| + |Q|) := by
    rw [show p + q = (p - P) + (q - Q) + (P + Q) by ring]
    refine (abs_add_le _ _).trans ?_
    have := abs_add_le (p - P) (q - Q)
    have := abs_add_le P Q
    nlinarith
  nlinarith [mul_le_mul_of_nonneg_left e2 hu]

theorem rnd_mulPlain (h : Rounding F u v t) (a b : Cx ℝ) :
    ‖toC (a.mulPlain b) - toC a * toC b‖ ≤ mulErr u * (‖toC a‖ * ‖toC b‖) := by
  have hu := h.u_nonneg
  obtain ⟨c1, c2⟩ := cross_le (toC a) (toC b)
  simp only [toC_re, toC_im] at c1 c2
  rw [mulErr, mul_assoc]
  apply norm_le_sqrt2
  · have := rnd_pair h (h.mul a.re b.re) (q := -(F.mul a.im b.im)) (Q := -(a.im * b.im))
      (by rw [← neg_sub', abs_neg, abs_neg]; exact h.mul a.im b.im)
      (r := F.sub (F.mul a.re b.re) (F.mul a.im b.im)) (by rw [← sub_eq_add_neg]; exact h.sub _ _)
    rw [abs_neg, ← sub_eq_add_neg] at this
    simpa [Cx.mulPlain] using this.trans (mul_le_mul_of_nonneg_left c1 (by positivity))
  · have := rnd_pair h (h.mul a.re b.im) (h.mul a.im b.re) (h.add (F.mul a.re b.im) (F.mul a.im b.re))
    simpa [Cx.mulPlain] using this.trans (mul_le_mul_of_nonneg_left c2 (by positivity))

theorem rnd_fma (h : Rounding F u v t) (a b : ℝ) {q Q : ℝ} (hq : |q - Q| ≤ u * |Q|) :
    |F.mulAdd a b q - (a * b + Q)| ≤ (2 * u + u ^ 2) * (|a * b| + |Q|) := by
  have hu := h.u_nonneg
  have h1 := h.mulAdd a b q
  have e1 : |F.mulAdd a b q - (a * b + Q)| ≤ |F.mulAdd a b q - (a * b + q)| + |q - Q| := by
    rw [show F.mulAdd a b q - (a * b + Q) = (F.mulAdd a b q - (a * b + q)) + (q - Q) by ring]
    exact abs_add_le _ _
  have e2 : |a * b + q| ≤ |a * b| + (1 + u) * |Q| := by
    rw [show a * b + q = a * b + ((q - Q) + Q) by ring]
    refine (abs_add_le _ _).trans ?_
    have := abs_add_le (q - Q) Q
    linarith
  nlinarith [mul_le_mul_of_nonneg_left e2 hu, abs_nonneg (a * b), abs_nonneg Q]

theorem rnd_mulFma (h : Rounding F u v t) (a b : Cx ℝ) :
    ‖toC (a.mulFma b) - toC a * toC b‖ ≤ mulErr u * (‖toC a‖ * ‖toC b‖) := by
  have hu := h.u_nonneg
  obtain ⟨c1, c2⟩ := cross_le (toC a) (toC b)
  simp only [toC_re, toC_im] at c1 c2
  rw [mulErr, mul_assoc]
  apply norm_le_sqrt2
  · have := rnd_fma h a.re b.re (q := F.neg (F.mul a.im b.im)) (Q := -(a.im * b.im))
      (by rw [h.neg, ← neg_sub', abs_neg, abs_neg]; exact h.mul a.im b.im)
    rw [abs_neg, ← sub_eq_add_neg] at this
    simpa [Cx.mulFma] using this.trans (mul_le_mul_of_nonneg_left c1 (by positivity))
  · have := rnd_fma h a.re b.im (h.mul a.im b.re)
    simpa [Cx.mulFma] using this.trans (mul_le_mul_of_nonneg_left c2 (by positivity))

theorem rnd_mul (h : Rounding F u v t) (a b : Cx ℝ) :
    ‖toC (a.mul b) - toC a * toC b‖ ≤ mulErr u * (‖toC a‖ * ‖toC b‖) := by
  unfold Cx.mul
  split
  · exact rnd_mulFma h a b
  · exact rnd_mulPlain h a b

theorem rnd_conj (h : Rounding F u v t) (a : Cx ℝ) : toC a.conj = (starRingEnd ℂ) (toC a) := by
  apply Complex.ext <;> simp [Cx.conj, h.neg]

theorem rnd_zero (h : Rounding F u v t) : toC Cx.zero = 0 := by
  apply Complex.ext <;> simp [Cx.zero, h.zero]

/-- The computed exponential of a computed angle. -/
theorem rnd_expi (h : Rounding F u v t) (θ' θ : ℝ) :
    ‖toC (Cx.expi θ') - exp (θ * I)‖ ≤ Real.sqrt 2 * t + |θ' - θ| := by
  have e1 : ‖toC (Cx.expi θ') - exp (θ' * I)‖ ≤ Real.sqrt 2 * t := by
    apply norm_le_sqrt2
    · simpa [Cx.expi, Complex.exp_ofReal_mul_I_re] using h.cos θ'
    · simpa [Cx.expi, Complex.exp_ofReal_mul_I_im] using h.sin θ'
  have e2 : ‖exp (θ' * I) - exp (θ * I)‖ ≤ |θ' - θ| := by
    have : exp (θ' * I) - exp (θ * I) = exp (θ * I) * (exp (I * ((θ' - θ : ℝ) : ℂ)) - 1) := by
      rw [mul_sub, ← exp_add, mul_one]; congr 2; push_cast; ring
    rw [this, norm_mul, Complex.norm_exp_ofReal_mul_I, one_mul]
    have := Real.norm_exp_I_mul_ofReal_sub_one_le (x := θ' - θ)
    simpa using this
  calc _ = ‖(toC (Cx.expi θ') - exp (θ' * I)) + (exp (θ' * I) - exp (θ * I))‖ := by rw [sub_add_sub_cancel]
    _ ≤ _ := (norm_add_le _ _).trans (add_le_add e1 e2)

end Kofft
