import Verif.Model.Spectral
import Verif.Proof.Trig
import Verif.Proof.Dft
/-
Properties C44 (chirp Z-transform) and C45 (Goertzel).
-/
namespace Kofft.Props
open Spec Finset

section czt

theorem cztPow_exact [F : Flt ℝ] (hF : Lawful F) (w : Cx ℝ) (k : ℕ) : toC (cztPow w k) = toC w ^ k := by
  unfold cztPow
  induction k with
  | zero => simp [toC, hF.one, hF.zero]; rfl
  | succ k ih => rw [List.range_succ, List.foldl_append, List.foldl_cons, List.foldl_nil, toC_mulPlain hF, ih, pow_succ]

theorem cztAinv_exact [F : Flt ℝ] (hF : Lawful F) (a : Cx ℝ) : toC (cztAinv a) = (toC a)⁻¹ := by
  unfold cztAinv
  simp only [hF.zero, hF.add, hF.mul, hF.div, hF.neg]
  by_cases h : a.re * a.re + a.im * a.im = 0
  · have hz : toC a = 0 := Complex.normSq_eq_zero.1 (by rw [Complex.normSq_apply]; exact h)
    have := (hF.feq (a.re * a.re + a.im * a.im) 0).2 h
    rw [this, hz, inv_zero]
    rfl
  · have : F.feq (a.re * a.re + a.im * a.im) 0 = false := by
      rw [Bool.eq_false_iff]; exact fun hh => h ((hF.feq _ _).1 hh)
    rw [this]
    apply Complex.ext
    · rw [Complex.inv_re, Complex.normSq_apply]; rfl
    · rw [Complex.inv_im, Complex.normSq_apply]; rfl

theorem cztFold [F : Flt ℝ] (hF : Lawful F) (wk ai : Cx ℝ) (x : List ℝ) (s : CztSt ℝ) :
    toC (x.foldl (cztStep wk ai) s).out = toC s.out +
      ∑ t ∈ range x.length, ((x.getD t 0 : ℝ) : ℂ) * (toC s.apow * toC ai ^ t) * (toC s.wnk * toC wk ^ t) := by
  induction x generalizing s with
  | nil => simp
  | cons a x ih =>
    rw [List.foldl_cons, ih, List.length_cons, sum_range_succ']
    have h1 : toC (cztStep wk ai s a).out = toC s.out + (a : ℂ) * (toC s.apow * toC s.wnk) := by
      unfold cztStep
      rw [← toC_mulPlain hF]
      apply Complex.ext <;> simp [toC, hF.add, hF.mul]
    have h2 : toC (cztStep wk ai s a).apow = toC s.apow * toC ai := toC_mulPlain hF _ _
    have h3 : toC (cztStep wk ai s a).wnk = toC s.wnk * toC wk := toC_mulPlain hF _ _
    rw [h1, h2, h3, add_assoc]
    congr 1
    rw [add_comm]
    congr 1
    · refine sum_congr rfl fun t _ => ?_
      rw [List.getD_cons_succ]; ring
    · rw [List.getD_cons_zero]; ring

/-- C44: `czt` evaluates the z-transform of the signal at the points `a w^(-k)` of the spiral:
`X_k = Σ_t x_t a^(-t) w^(k t)`, for every signal, output count, ratio and starting point `a ≠ 0`. -/
theorem czt_spec [F : Flt ℝ] (hF : Lawful F) (x : List ℝ) (m : ℕ) (w a : Cx ℝ) (ha : toC a ≠ 0) :
    (czt x m w a).length = m ∧ ∀ k, k < m → sig (czt x m w a) k =
      ∑ t ∈ range x.length, ((x.getD t 0 : ℝ) : ℂ) * toC a ^ (-(t : ℤ)) * toC w ^ (k * t) := by
  refine ⟨by simp [czt], fun k hk => ?_⟩
  have e : sig (czt x m w a) k = toC (cztAt x w a k) := by
    rw [sig_get _ _ (by simpa [czt] using hk)]; simp [czt]
  rw [e]
  unfold cztAt
  rw [cztFold hF, cztPow_exact hF, cztAinv_exact hF, toC_zero hF, zero_add]
  have h1 : toC (⟨Flt.one, Flt.zero⟩ : Cx ℝ) = 1 := by simp [toC, hF.one, hF.zero]; rfl
  simp only [h1, one_mul]
  refine sum_congr rfl fun t _ => ?_
  rw [zpow_neg, zpow_natCast, ← pow_mul, inv_pow]

/-- C44: at the excluded starting point `a = 0` the code does not fail: every output is the first sample. -/
theorem czt_zero_start [F : Flt ℝ] (hF : Lawful F) (x : List ℝ) (m : ℕ) (w a : Cx ℝ) (ha : toC a = 0) :
    (czt x m w a).length = m ∧ ∀ k, k < m → sig (czt x m w a) k = ((x.getD 0 0 : ℝ) : ℂ) := by
  refine ⟨by simp [czt], fun k hk => ?_⟩
  have e : sig (czt x m w a) k = toC (cztAt x w a k) := by
    rw [sig_get _ _ (by simpa [czt] using hk)]; simp [czt]
  rw [e]
  unfold cztAt
  rw [cztFold hF, cztPow_exact hF, cztAinv_exact hF, toC_zero hF, zero_add, ha, inv_zero]
  have h1 : toC (⟨Flt.one, Flt.zero⟩ : Cx ℝ) = 1 := by simp [toC, hF.one, hF.zero]; rfl
  simp only [h1, one_mul]
  cases x with
  | nil => simp
  | cons b x =>
    rw [List.length_cons, sum_range_succ', sum_eq_zero]
    · simp
    · intro t _; rw [pow_succ]; simp

/-- C44: with `m = n`, `a = 1` and `w = exp(-2πi/n)` the chirp transform is the DFT. -/
theorem czt_dft [F : Flt ℝ] (hF : Lawful F) (x : List ℝ) (w a : Cx ℝ) (ha : toC a = 1)
    (hw : toC w = Complex.exp (-(2 * Real.pi / x.length) * Complex.I)) :
    (czt x x.length w a).length = x.length ∧
    ∀ k, k < x.length → sig (czt x x.length w a) k = dft x.length (fun t => ((x.getD t 0 : ℝ) : ℂ)) k := by
  obtain ⟨h1, h2⟩ := czt_spec hF x x.length w a (by rw [ha]; exact one_ne_zero)
  refine ⟨h1, fun k hk => ?_⟩
  rw [h2 k hk]
  unfold dft
  refine sum_congr rfl fun t _ => ?_
  rw [ha, one_zpow, mul_one, hw, ← Complex.exp_nat_mul]
  unfold W
  congr 2
  push_cast
  ring

/-- Non-vacuity: a spiral that is neither the unit circle nor starts at 1. -/
example [F : Flt ℝ] (hF : Lawful F) : sig (czt [1, 2, 3] 4 ⟨1 / 2, 1⟩ ⟨0, 2⟩) 1 =
    1 + 2 * (2 * Complex.I)⁻¹ * (1 / 2 + Complex.I) + 3 * ((2 * Complex.I) ^ 2)⁻¹ * (1 / 2 + Complex.I) ^ 2 := by
  have ha : toC (⟨0, 2⟩ : Cx ℝ) = 2 * Complex.I := by apply Complex.ext <;> simp [toC]
  have hw : toC (⟨1 / 2, 1⟩ : Cx ℝ) = 1 / 2 + Complex.I := by apply Complex.ext <;> simp [toC]
  rw [(czt_spec hF [1, 2, 3] 4 ⟨1 / 2, 1⟩ ⟨0, 2⟩ (by rw [ha]; simp)).2 1 (by norm_num), ha, hw]
  simp [sum_range_succ, zpow_neg]

end czt

section goertzel

theorem goertzel_fold [F : Flt ℝ] (hF : Lawful F) (w : ℝ) (x : List ℝ) (s : ℝ × ℝ) :
    (((x.foldl (goertzelStep (2 * Real.cos w)) s).1 : ℝ) : ℂ) -
        Complex.exp (-(w * Complex.I)) * ((x.foldl (goertzelStep (2 * Real.cos w)) s).2 : ℝ) =
      Complex.exp (w * Complex.I) ^ x.length * ((s.1 : ℂ) - Complex.exp (-(w * Complex.I)) * s.2) +
      Complex.exp (w * Complex.I) ^ (x.length - 1 : ℤ) *
        ∑ t ∈ range x.length, ((x.getD t 0 : ℝ) : ℂ) * Complex.exp (-(w * Complex.I)) ^ t := by
  have he : Complex.exp (w * Complex.I) ≠ 0 := Complex.exp_ne_zero _
  have hei : Complex.exp (-(w * Complex.I)) = (Complex.exp (w * Complex.I))⁻¹ := Complex.exp_neg _
  have hc : ((2 * Real.cos w : ℝ) : ℂ) = Complex.exp (w * Complex.I) + (Complex.exp (w * Complex.I))⁻¹ := by
    rw [← hei, Complex.ofReal_mul, Complex.ofReal_cos, Complex.cos]
    push_cast
    rw [neg_mul]; ring
  rw [hei]
  generalize Complex.exp (w * Complex.I) = e at he hc ⊢
  induction x generalizing s with
  | nil => simp
  | cons a x ih =>
    rw [List.foldl_cons, ih, List.length_cons, sum_range_succ']
    simp only [goertzelStep, hF.add, hF.sub, hF.mul, List.getD_cons_succ, List.getD_cons_zero, pow_zero, mul_one]
    rw [Complex.ofReal_sub, Complex.ofReal_add, Complex.ofReal_mul _ s.1, hc, mul_add,
      show ((x.length + 1 : ℕ) : ℤ) - 1 = x.length by push_cast; ring, zpow_natCast,
      zpow_sub_one₀ he, zpow_natCast, mul_sum, mul_sum]
    have : ∑ i ∈ range x.length, e ^ x.length * e⁻¹ * (((x.getD i 0 : ℝ) : ℂ) * e⁻¹ ^ i) =
        ∑ i ∈ range x.length, e ^ x.length * (((x.getD i 0 : ℝ) : ℂ) * e⁻¹ ^ (i + 1)) :=
      sum_congr rfl fun t _ => by rw [pow_succ]; ring
    rw [this, pow_succ]
    field_simp
    ring

theorem goertzelPower_eq [F : Flt ℝ] (hF : Lawful F) (x : List ℝ) (sr f : ℝ) :
    goertzelPower x sr f = ‖∑ t ∈ range x.length, ((x.getD t 0 : ℝ) : ℂ) *
      Complex.exp (-(2 * Real.pi * Complex.I * (⌊f * x.length / sr⌋ : ℤ) * t / x.length))‖ ^ 2 := by
  unfold goertzelPower goertzelCoeff
  simp only [hF.zero, hF.add, hF.sub, hF.mul, hF.div, hF.ofNat, hF.pi, hF.cos, hF.floor, two_real hF]
  set w : ℝ := 2 * Real.pi * (⌊f * x.length / sr⌋ : ℤ) / x.length with hw
  have h := goertzel_fold hF w x (0, 0)
  set s := x.foldl (goertzelStep (2 * Real.cos w)) (0, 0) with hs
  have h1 : s.2 * s.2 + s.1 * s.1 - 2 * Real.cos w * s.1 * s.2 =
      ‖(s.1 : ℂ) - Complex.exp (-(w * Complex.I)) * s.2‖ ^ 2 := by
    rw [← Complex.normSq_eq_norm_sq, Complex.normSq_apply,
      show -((w : ℂ) * Complex.I) = ((-w : ℝ) : ℂ) * Complex.I by push_cast; ring]
    simp only [Complex.sub_re, Complex.sub_im, Complex.ofReal_re, Complex.ofReal_im, Complex.mul_re, Complex.mul_im,
      Complex.exp_ofReal_mul_I_re, Complex.exp_ofReal_mul_I_im, Real.cos_neg, Real.sin_neg]
    have := Real.sin_sq_add_cos_sq w
    linear_combination (-(s.2 * s.2)) * this
  rw [h1, h]
  simp only [Complex.ofReal_zero, mul_zero, sub_zero, zero_add]
  rw [norm_mul, norm_zpow, Complex.norm_exp_ofReal_mul_I, one_zpow, one_mul]
  congr 2
  refine sum_congr rfl fun t _ => ?_
  rw [← Complex.exp_nat_mul]
  congr 2
  rw [hw]
  push_cast
  ring

/-- C45: the result is the magnitude of the DFT of the signal at the bin `⌊f n / rate⌋`, for every real signal,
every positive rate and every target frequency, also negative or above the rate. -/
theorem goertzel_spec [F : Flt ℝ] (hF : Lawful F) (x : List ℝ) (sr f : ℝ) (hx : x ≠ []) (hsr : 0 < sr) :
    goertzel x sr f = .ok ‖∑ t ∈ range x.length, ((x.getD t 0 : ℝ) : ℂ) *
      Complex.exp (-(2 * Real.pi * Complex.I * (⌊f * x.length / sr⌋ : ℤ) * t / x.length))‖ := by
  have hn : x.length ≠ 0 := by simpa using hx
  have hle : F.le sr 0 = false := by
    rw [Bool.eq_false_iff]; exact fun h => absurd ((hF.le _ _).1 h) (not_le.2 hsr)
  unfold goertzel
  simp only [hF.zero, hle, if_neg hn, Bool.false_eq_true, if_false, hF.sqrt]
  rw [goertzelPower_eq hF, Real.sqrt_sq (norm_nonneg _)]

/-- C45: in exact arithmetic the value under the square root is never negative, so `sqrtf` is not applied outside its domain. -/
theorem goertzel_radicand_nonneg [F : Flt ℝ] (hF : Lawful F) (x : List ℝ) (sr f : ℝ) :
    0 ≤ goertzelPower x sr f := by
  rw [goertzelPower_eq hF]; positivity

/-- C45, for a non-negative frequency in terms of the DFT: bin `⌊f n / rate⌋`. -/
theorem goertzel_dft [F : Flt ℝ] (hF : Lawful F) (x : List ℝ) (sr f : ℝ) (hx : x ≠ []) (hsr : 0 < sr) (hf : 0 ≤ f) :
    goertzel x sr f = .ok ‖dft x.length (fun t => ((x.getD t 0 : ℝ) : ℂ)) ⌊f * x.length / sr⌋₊‖ := by
  rw [goertzel_spec hF x sr f hx hsr]
  congr 2
  unfold dft W
  refine sum_congr rfl fun t _ => ?_
  have hpos : 0 ≤ f * x.length / sr := by positivity
  have hfl : (⌊f * x.length / sr⌋ : ℤ) = ((⌊f * x.length / sr⌋₊ : ℕ) : ℤ) := (Int.natCast_floor_eq_floor hpos).symm
  rw [hfl]
  congr 3
  push_cast
  ring

/-- C45: the errors, any arithmetic: `EmptyInput` exactly for an empty signal, `InvalidValue` exactly for a
rate that is `<= 0`, a value otherwise. -/
theorem goertzel_errors {T : Type} [Flt T] (x : List T) (sr f : T) :
    (goertzel x sr f = .error .EmptyInput ↔ x = []) ∧
    (goertzel x sr f = .error .InvalidValue ↔ x ≠ [] ∧ Flt.le sr Flt.zero = true) ∧
    ((∃ v, goertzel x sr f = .ok v) ↔ x ≠ [] ∧ Flt.le sr Flt.zero = false) := by
  unfold goertzel
  by_cases h : x = []
  · subst h; simp
  · have h' : ¬ x.length = 0 := by simpa using h
    by_cases h2 : Flt.le sr Flt.zero = true
    · simp [h, h2]
    · simp only [Bool.not_eq_true] at h2
      simp [h, h2]

/-- Non-vacuity: three samples, rate 3, frequency 1: bin 1. -/
example [F : Flt ℝ] (hF : Lawful F) :
    goertzel [1, 2, 4] 3 1 = .ok ‖dft 3 (fun t => ((([1, 2, 4] : List ℝ).getD t 0 : ℝ) : ℂ)) 1‖ := by
  rw [goertzel_dft hF _ _ _ (by simp) (by norm_num) (by norm_num)]
  norm_num

end goertzel

end Kofft.Props
