import Verif.Model.Window
import Verif.Lib.Loop
import Verif.Lib.Lawful
import Mathlib.Algebra.BigOperators.Intervals
import Mathlib.Algebra.Order.Floor.Semiring
import Mathlib.Tactic.LinearCombination
import Mathlib.Tactic.Linarith
import Mathlib.Tactic.Positivity
/-
C53, C54: window functions.
-/
namespace Kofft.Props
open Finset

section generic
variable {T : Type} [Flt T]

/-- C53: every window has the requested length, in any arithmetic. -/
theorem window_lengths (len : Nat) (alpha beta : T) (w : List T) (checks : Bool) :
    (hann (T := T) len).length = len ∧ (hamming (T := T) len).length = len ∧ (blackman (T := T) len).length = len ∧
    (tukey len alpha).length = len ∧ (bartlett (T := T) len).length = len ∧ (bohman (T := T) len).length = len ∧
    (nuttall (T := T) len).length = len ∧ (kaiser checks len beta = .ok w → w.length = len) := by
  refine ⟨by simp [hann], by simp [hamming], by simp [blackman], by simp [tukey], by simp [bartlett], by simp [bohman],
    by simp [nuttall], ?_⟩
  unfold kaiser
  split
  · intro h; cases h
  · intro h; cases h; simp

/-- C53: `kaiser` fails exactly for an empty window in a build with overflow checks. -/
theorem kaiser_total (checks : Bool) (len : Nat) (beta : T) :
    (kaiser checks len beta = .panic ↔ checks = true ∧ len = 0) ∧ kaiser checks len beta ≠ .hang := by
  unfold kaiser
  split
  · rename_i h; exact ⟨⟨fun _ => h, fun _ => rfl⟩, by simp⟩
  · rename_i h; exact ⟨⟨fun h' => (by cases h'), fun h' => absurd h' h⟩, by simp⟩

/-- C53: the in-place variants produce the same window bit for bit, whatever was in the buffer. -/
theorem window_stack_eq (out : List T) : hannStack out = hann out.length ∧ hammingStack out = hamming out.length ∧
    blackmanStack out = blackman out.length := by
  refine ⟨?_, ?_, ?_⟩ <;>
  · apply List.ext_getElem
    · simp [hannStack, hammingStack, blackmanStack, hann, hamming, blackman]
    · intro i h1 h2
      simp [hannStack, hammingStack, blackmanStack, hann, hamming, blackman]

/-- C53: an `alpha` outside `[0, 1]` is treated as the nearer end point. -/
theorem tukey_clamp (len : Nat) (alpha : T) (h01 : Flt.lt (Flt.one : T) Flt.zero = false)
    (h00 : Flt.lt (Flt.zero : T) Flt.zero = false) (h11 : Flt.lt (Flt.one : T) Flt.one = false) :
    (Flt.lt alpha Flt.zero = true → tukey len alpha = tukey len Flt.zero) ∧
    (Flt.lt alpha Flt.zero = false → Flt.lt Flt.one alpha = true → tukey len alpha = tukey len Flt.one) := by
  refine ⟨fun h => ?_, fun h h' => ?_⟩
  · have e : clampF alpha Flt.zero Flt.one = clampF (Flt.zero : T) Flt.zero Flt.one := by
      unfold clampF; rw [if_pos h, h00, h01]; simp
    unfold tukey; rw [e]
  · have e : clampF alpha Flt.zero Flt.one = clampF (Flt.one : T) Flt.zero Flt.one := by
      unfold clampF; rw [h, if_pos h', h01, h11]; simp
    unfold tukey; rw [e]

end generic

section exact
variable [F : Flt ℝ]

theorem hannAt_real (hF : Lawful F) (len i : Nat) : hannAt len i = 1 / 2 - 1 / 2 * Real.cos (2 * Real.pi * i / len) := by
  simp only [hannAt, two, hF.sub, hF.lit, hF.mul, hF.cos, hF.div, hF.pi, hF.ofNatD]; norm_num

theorem hannAt_sq (hF : Lawful F) (len i : Nat) : hannAt len i = Real.sin (Real.pi * i / len) ^ 2 := by
  rw [hannAt_real hF, Real.sin_sq_eq_half_sub,
    show 2 * (Real.pi * i / len) = 2 * Real.pi * i / len by ring]; ring

omit F in
theorem getD_range_map {n : Nat} {f : Nat → ℝ} {i : Nat} (h : i < n) : ((List.range n).map f).getD i 0 = f i :=
  tab_getD h

omit F in
theorem cos_period (len i : Nat) (h : i ≤ len) (h0 : 0 < len) :
    Real.cos (2 * Real.pi * ((len - i : Nat) : ℝ) / len) = Real.cos (2 * Real.pi * i / len) := by
  have hl : (len : ℝ) ≠ 0 := by positivity
  rw [Nat.cast_sub h, ← Real.cos_two_pi_sub]; congr 1; field_simp; ring

/-- C53: the Hann window is `sin²(π i / len)`: between 0 and 1, 0 at the first sample, periodically symmetric, and 1 in the
middle of an even length. -/
theorem hann_spec (hF : Lawful F) (len i : Nat) (hi : i < len) :
    (hann len).getD i 0 = Real.sin (Real.pi * i / len) ^ 2 ∧
    0 ≤ (hann len).getD i (0 : ℝ) ∧ (hann len).getD i (0 : ℝ) ≤ 1 ∧
    (0 < i → (hann len).getD (len - i) (0 : ℝ) = (hann len).getD i 0) ∧
    (hann len).getD 0 (0 : ℝ) = 0 ∧ (2 * i = len → (hann len).getD i (0 : ℝ) = 1) := by
  have hl : (len : ℝ) ≠ 0 := by have : 0 < len := by omega
                                positivity
  unfold hann
  rw [getD_range_map hi, hannAt_sq hF]
  refine ⟨rfl, sq_nonneg _, Real.sin_sq_le_one _, ?_, ?_, ?_⟩
  · intro h
    rw [getD_range_map (by omega), ← hannAt_sq hF, hannAt_real hF, hannAt_real hF, cos_period len i hi.le (by omega)]
  · rw [getD_range_map (by omega), hannAt_sq hF]; simp
  · intro h
    have : Real.pi * i / len = Real.pi / 2 := by
      rw [div_eq_div_iff hl (by norm_num), ← h]; push_cast; ring
    rw [this]; simp

/-- C53: the Hamming window is `0.54 - 0.46 cos(2π i / len)`: between 0.08 and 1 and periodically symmetric. -/
theorem hamming_spec (hF : Lawful F) (len i : Nat) (hi : i < len) :
    (hamming len).getD i 0 = 0.54 - 0.46 * Real.cos (2 * Real.pi * i / len) ∧
    0.08 ≤ (hamming len).getD i (0 : ℝ) ∧ (hamming len).getD i (0 : ℝ) ≤ 1 ∧
    (0 < i → (hamming len).getD (len - i) (0 : ℝ) = (hamming len).getD i 0) := by
  have e : ∀ k, hammingAt len k = (0.54 : ℝ) - 0.46 * Real.cos (2 * Real.pi * k / len) := by
    intro k
    simp only [hammingAt, two, hF.sub, hF.lit, hF.mul, hF.cos, hF.div, hF.pi, hF.ofNatD]; norm_num
  unfold hamming
  rw [getD_range_map hi, e]
  have h1 := Real.neg_one_le_cos (2 * Real.pi * i / len)
  have h2 := Real.cos_le_one (2 * Real.pi * i / len)
  refine ⟨rfl, by linarith, by linarith, ?_⟩
  intro h
  rw [getD_range_map (by omega), e, cos_period len i hi.le (by omega)]

/-- C53: the Blackman window is `0.42 - 0.5 cos(2π i / len) + 0.08 cos(4π i / len)`: between 0 and 1, 0 at the first sample,
periodically symmetric. -/
theorem blackman_spec (hF : Lawful F) (len i : Nat) (hi : i < len) :
    (blackman len).getD i 0 = 0.42 - 0.5 * Real.cos (2 * Real.pi * i / len) + 0.08 * Real.cos (4 * Real.pi * i / len) ∧
    0 ≤ (blackman len).getD i (0 : ℝ) ∧ (blackman len).getD i (0 : ℝ) ≤ 1 ∧
    (0 < i → (blackman len).getD (len - i) (0 : ℝ) = (blackman len).getD i 0) ∧ (blackman len).getD 0 (0 : ℝ) = 0 := by
  have e : ∀ k, blackmanAt len k = (0.42 : ℝ) - 0.5 * Real.cos (2 * Real.pi * k / len) +
      0.08 * Real.cos (2 * (2 * Real.pi * k / len)) := by
    intro k
    simp only [blackmanAt, two, hF.sub, hF.add, hF.lit, hF.mul, hF.cos, hF.div, hF.pi, hF.ofNatD]; norm_num
    rw [mul_div_assoc, show 4 * Real.pi * ((k : ℝ) / len) = 2 * (2 * Real.pi * (k / len)) by ring]
  unfold blackman
  rw [getD_range_map hi, e]
  have h1 := Real.neg_one_le_cos (2 * Real.pi * i / len)
  have h2 := Real.cos_le_one (2 * Real.pi * i / len)
  have h4 : 4 * Real.pi * i / len = 2 * (2 * Real.pi * i / len) := by ring
  rw [h4]
  refine ⟨rfl, ?_, ?_, ?_, ?_⟩
  · rw [Real.cos_two_mul]
    nlinarith
  · rw [Real.cos_two_mul]
    nlinarith
  · intro h
    rw [getD_range_map (by omega), e, Real.cos_two_mul, cos_period len i hi.le (by omega), Real.cos_two_mul]
  · rw [getD_range_map (by omega), e]; norm_num

/-- C53: the Nuttall window (symmetric form, at least two samples) has the documented coefficients, lies between 0 and 1,
starts at 0 and is symmetric. -/
theorem nuttall_spec (hF : Lawful F) (len i : Nat) (hi : i < len) (h2 : 2 ≤ len) :
    (let x := 2 * Real.pi * i / (len - 1)
     (nuttall len).getD i 0 = 0.355768 - 0.487396 * Real.cos x + 0.144232 * Real.cos (2 * x) - 0.012604 * Real.cos (3 * x)) ∧
    0 ≤ (nuttall len).getD i (0 : ℝ) ∧ (nuttall len).getD i (0 : ℝ) ≤ 1 ∧
    (nuttall len).getD (len - 1 - i) (0 : ℝ) = (nuttall len).getD i 0 ∧ (nuttall len).getD 0 (0 : ℝ) = 0 := by
  have e : ∀ k, k < len → (nuttall len).getD k 0 = (0.355768 : ℝ) - 0.487396 * Real.cos (2 * Real.pi * k / (len - 1)) +
      0.144232 * Real.cos (2 * (2 * Real.pi * k / (len - 1))) - 0.012604 * Real.cos (3 * (2 * Real.pi * k / (len - 1))) := by
    intro k hk
    unfold nuttall
    rw [getD_range_map hk]
    simp only [two, hF.sub, hF.add, hF.lit, hF.mul, hF.cos, hF.div, hF.pi, hF.ofNatD, hF.one]; norm_num
  have hl : (len : ℝ) - 1 ≠ 0 := by
    have : (2 : ℝ) ≤ len := by exact_mod_cast h2
    linarith
  rw [e i hi]
  have b1 := Real.neg_one_le_cos (2 * Real.pi * i / (len - 1))
  have b2 := Real.cos_le_one (2 * Real.pi * i / (len - 1))
  refine ⟨rfl, ?_, ?_, ?_, ?_⟩
  · rw [Real.cos_two_mul, Real.cos_three_mul]
    set c := Real.cos (2 * Real.pi * i / (len - 1))
    nlinarith [mul_nonneg (sub_nonneg.2 b2) (sub_nonneg.2 b2), sq_nonneg c, sq_nonneg (c - 1),
      mul_nonneg (mul_nonneg (sub_nonneg.2 b2) (sub_nonneg.2 b2)) (show 0 ≤ c + 1 by linarith)]
  · rw [Real.cos_two_mul, Real.cos_three_mul]
    set c := Real.cos (2 * Real.pi * i / (len - 1))
    nlinarith [mul_nonneg (sub_nonneg.2 b2) (sub_nonneg.2 b2), sq_nonneg c, sq_nonneg (c - 1),
      mul_nonneg (mul_nonneg (sub_nonneg.2 b2) (show 0 ≤ c + 1 by linarith)) (show 0 ≤ c + 1 by linarith),
      mul_nonneg (mul_nonneg (sub_nonneg.2 b2) (sub_nonneg.2 b2)) (show 0 ≤ c + 1 by linarith)]
  · have hx : 2 * Real.pi * ((len - 1 - i : Nat) : ℝ) / (len - 1) = 2 * Real.pi - 2 * Real.pi * i / (len - 1) := by
      rw [Nat.cast_sub (by omega), Nat.cast_sub (by omega)]; push_cast; field_simp
    have hc : Real.cos (2 * Real.pi * ((len - 1 - i : Nat) : ℝ) / (len - 1)) = Real.cos (2 * Real.pi * i / (len - 1)) := by
      rw [hx, Real.cos_two_pi_sub]
    rw [e _ (by omega), Real.cos_two_mul, Real.cos_three_mul, hc, Real.cos_two_mul, Real.cos_three_mul]
  · rw [e 0 (by omega)]; norm_num

/-- C53: the Bartlett window (at least two samples) is the triangle `2 min(i, len-1-i) / (len-1)`, so it lies between 0
and 1, is symmetric, and 0 at both ends. -/
theorem bartlett_spec (hF : Lawful F) (len i : Nat) (hi : i < len) (h2 : 2 ≤ len) :
    (bartlett len).getD i 0 = 2 * ((min i (len - 1 - i) : Nat) : ℝ) / (len - 1) ∧
    0 ≤ (bartlett len).getD i (0 : ℝ) ∧ (bartlett len).getD i (0 : ℝ) ≤ 1 ∧
    (bartlett len).getD (len - 1 - i) (0 : ℝ) = (bartlett len).getD i 0 := by
  have h1 : (0 : ℝ) < (len : ℝ) - 1 := by
    have : (2 : ℝ) ≤ len := by exact_mod_cast h2
    linarith
  have e : ∀ k, k < len → (bartlett len).getD k 0 = 2 * ((min k (len - 1 - k) : Nat) : ℝ) / ((len : ℝ) - 1) := by
    intro k hk
    unfold bartlett
    simp only []
    rw [getD_range_map hk]
    simp only [two, hF.sub, hF.add, hF.lit, hF.mul, hF.div, hF.ofNatD, hF.one, hF.abs]
    have hc : (((len - 1 - k : Nat) : ℝ)) = (len : ℝ) - 1 - k := by
      rw [Nat.cast_sub (by omega), Nat.cast_sub (by omega)]; push_cast; ring
    have hx : ((k : ℝ) - ((len : ℝ) - 1) / ((2 : ℤ) / 10 ^ 0)) / (((len : ℝ) - 1) / ((2 : ℤ) / 10 ^ 0)) =
        (2 * k - (len - 1)) / (len - 1) := by push_cast; field_simp
    rw [hx, abs_div, abs_of_pos h1]
    rcases Nat.le_total k (len - 1 - k) with h | h
    · rw [Nat.min_eq_left h, abs_of_nonpos]
      · field_simp; ring
      · have : (k : ℝ) ≤ ((len - 1 - k : Nat) : ℝ) := by exact_mod_cast h
        rw [hc] at this; linarith
    · rw [Nat.min_eq_right h, hc, abs_of_nonneg]
      · field_simp; ring
      · have : ((len - 1 - k : Nat) : ℝ) ≤ (k : ℝ) := by exact_mod_cast h
        rw [hc] at this; linarith
  rw [e i hi]
  refine ⟨rfl, by positivity, ?_, ?_⟩
  · rw [div_le_one h1]
    have : 2 * min i (len - 1 - i) ≤ len - 1 := by omega
    have h3 : ((2 * min i (len - 1 - i) : Nat) : ℝ) ≤ ((len - 1 : Nat) : ℝ) := by exact_mod_cast this
    rw [Nat.cast_sub (by omega)] at h3; push_cast at h3 ⊢; exact h3
  · rw [e _ (by omega), show len - 1 - (len - 1 - i) = i by omega, Nat.min_comm]

/-- C53 is false for `bohman`: for every length of at least two, the first sample is `-1/π` and the last is `1/π`, so the
window is neither non-negative nor symmetric. -/
theorem bohman_false (hF : Lawful F) (len : Nat) (h2 : 2 ≤ len) :
    (bohman len).getD 0 0 = -(1 / Real.pi) ∧ (bohman len).getD (len - 1) 0 = 1 / Real.pi ∧
    (bohman len).getD 0 (0 : ℝ) < 0 ∧ (bohman len).getD 0 (0 : ℝ) ≠ (bohman len).getD (len - 1) 0 := by
  have h1 : (len : ℝ) - 1 ≠ 0 := by
    have : (2 : ℝ) ≤ len := by exact_mod_cast h2
    linarith
  have hp := Real.pi_pos
  have e0 : (bohman len).getD 0 0 = -(1 / Real.pi) := by
    unfold bohman
    simp only []
    rw [getD_range_map (by omega)]
    simp only [hF.sub, hF.add, hF.lit, hF.mul, hF.div, hF.ofNatD, hF.one, hF.abs, hF.cos, hF.sin, hF.pi]
    have : Real.pi * (((0 : ℕ) : ℝ) / ((len : ℝ) - 1) - (5 : ℤ) / 10 ^ 1) = -(Real.pi / 2) := by norm_num; ring
    rw [this]; simp
  have e1 : (bohman len).getD (len - 1) 0 = 1 / Real.pi := by
    unfold bohman
    simp only []
    rw [getD_range_map (by omega)]
    simp only [hF.sub, hF.add, hF.lit, hF.mul, hF.div, hF.ofNatD, hF.one, hF.abs, hF.cos, hF.sin, hF.pi]
    have : Real.pi * (((len - 1 : ℕ) : ℝ) / ((len : ℝ) - 1) - (5 : ℤ) / 10 ^ 1) = Real.pi / 2 := by
      rw [Nat.cast_sub (by omega), Nat.cast_one, div_self h1]; norm_num; ring
    rw [this]; simp
  rw [e0, e1]
  refine ⟨rfl, rfl, by rw [neg_lt_zero]; positivity, ?_⟩
  intro h
  have : 0 < 1 / Real.pi := by positivity
  linarith

/-- C53, what holds of `bohman` (at least two samples): with `x = i / (len - 1) - 1/2` the sample is
`(1 - |x|) cos(π x) + sin(π x) / π`, and it stays within `[-1/π, 1 + 1/π]`. What is missing: the documented range and the
symmetry are false, see `bohman_false`. -/
theorem bohman_values_partial (hF : Lawful F) (len i : Nat) (hi : i < len) (h2 : 2 ≤ len) :
    (let x : ℝ := i / (len - 1) - 1 / 2
     (bohman len).getD i 0 = (1 - |x|) * Real.cos (Real.pi * x) + Real.sin (Real.pi * x) / Real.pi) ∧
    -(1 / Real.pi) ≤ (bohman len).getD i (0 : ℝ) ∧ (bohman len).getD i (0 : ℝ) ≤ 1 + 1 / Real.pi := by
  have h1 : (0 : ℝ) < (len : ℝ) - 1 := by
    have : (2 : ℝ) ≤ len := by exact_mod_cast h2
    linarith
  have hp := Real.pi_pos
  have hi' : (i : ℝ) ≤ (len : ℝ) - 1 := by
    have : ((i + 1 : Nat) : ℝ) ≤ len := by exact_mod_cast hi
    push_cast at this; linarith
  have e : (bohman len).getD i 0 = (1 - |(i : ℝ) / ((len : ℝ) - 1) - 1 / 2|) *
      Real.cos (Real.pi * ((i : ℝ) / ((len : ℝ) - 1) - 1 / 2)) +
      Real.sin (Real.pi * ((i : ℝ) / ((len : ℝ) - 1) - 1 / 2)) / Real.pi := by
    unfold bohman
    simp only []
    rw [getD_range_map hi]
    simp only [hF.sub, hF.add, hF.lit, hF.mul, hF.div, hF.ofNatD, hF.one, hF.abs, hF.cos, hF.sin, hF.pi]
    have h5 : (((5 : ℤ) : ℝ) / 10 ^ 1) = 1 / 2 := by norm_num
    rw [h5]; ring
  rw [e]
  refine ⟨rfl, ?_⟩
  have hx0 : 0 - 1 / 2 ≤ (i : ℝ) / ((len : ℝ) - 1) - 1 / 2 := sub_le_sub_right (by positivity) _
  have hx1 : (i : ℝ) / ((len : ℝ) - 1) - 1 / 2 ≤ 1 - 1 / 2 := sub_le_sub_right ((div_le_one h1).2 hi') _
  generalize (i : ℝ) / ((len : ℝ) - 1) - 1 / 2 = x at *
  have hxa : |x| ≤ 1 / 2 := abs_le.2 ⟨by linarith, by linarith⟩
  have hxb := abs_le.1 hxa
  have hc0 : 0 ≤ Real.cos (Real.pi * x) := Real.cos_nonneg_of_mem_Icc ⟨by nlinarith, by nlinarith⟩
  have hc1 := Real.cos_le_one (Real.pi * x)
  have hs0 := Real.neg_one_le_sin (Real.pi * x)
  have hs1 := Real.sin_le_one (Real.pi * x)
  have hd0 : -(1 / Real.pi) ≤ Real.sin (Real.pi * x) / Real.pi := by
    rw [← neg_div]; exact div_le_div_of_nonneg_right hs0 hp.le
  have hd1 : Real.sin (Real.pi * x) / Real.pi ≤ 1 / Real.pi := div_le_div_of_nonneg_right hs1 hp.le
  have hm0 : 0 ≤ (1 - |x|) * Real.cos (Real.pi * x) := mul_nonneg (by linarith) hc0
  have hm1 : (1 - |x|) * Real.cos (Real.pi * x) ≤ 1 := mul_le_one₀ (by linarith [abs_nonneg x]) hc0 hc1
  constructor <;> linarith

/-- The partial sum of the series of the modified Bessel function `I₀` that the source uses (its first 20 terms). -/
noncomputable def besselI (x : ℝ) : ℝ := ∑ k ∈ range 20, (x ^ 2 / 4) ^ k / ((k.factorial : ℝ)) ^ 2

theorem bessel0_fold (hF : Lawful F) (y : ℝ) (n : Nat) : (List.range' 1 n).foldl (bessel0Step y) (Flt.one, y, Flt.one) =
    (∑ k ∈ range (n + 1), y ^ k / ((k.factorial : ℝ)) ^ 2, y ^ (n + 1), (n.factorial : ℝ)) := by
  induction n with
  | zero => simp [hF.one]
  | succ n ih =>
    rw [List.range'_concat, List.foldl_append, ih]
    simp only [List.foldl_cons, List.foldl_nil, bessel0Step, hF.mul, hF.add, hF.div, hF.ofNatD, Prod.mk.injEq]
    refine ⟨?_, by ring, ?_⟩
    · rw [sum_range_succ _ (n + 1), Nat.factorial_succ]; push_cast; ring
    · rw [Nat.factorial_succ]; push_cast; ring

theorem bessel0_real (hF : Lawful F) (x : ℝ) : bessel0 x = besselI x := by
  unfold bessel0 besselI
  simp only []
  rw [bessel0_fold hF]
  simp only [hF.mul, hF.div, hF.lit]
  apply sum_congr rfl
  intro k _
  norm_num
  ring

omit F in
theorem besselI_pos (x : ℝ) : 1 ≤ besselI x := by
  unfold besselI
  rw [sum_range_succ']
  simp
  apply sum_nonneg
  intro k _
  positivity

omit F in
theorem besselI_zero : besselI 0 = 1 := by
  unfold besselI
  rw [sum_range_succ']
  simp

omit F in
theorem besselI_mono {x y : ℝ} (h : x ^ 2 ≤ y ^ 2) : besselI x ≤ besselI y := by
  unfold besselI
  apply sum_le_sum
  intro k _
  apply div_le_div_of_nonneg_right _ (by positivity)
  exact pow_le_pow_left₀ (by positivity) (by linarith) k

/-- C53: the Kaiser window (at least two samples) is `I₀(β √(1 - r²)) / I₀(β)` with `r = 2 i / (len - 1) - 1`, so it is
positive, at most 1, symmetric, `1 / I₀(β)` at the ends and 1 in the middle of an odd length. -/
theorem kaiser_spec (hF : Lawful F) (checks : Bool) (len : Nat) (beta : ℝ) (h2 : 2 ≤ len) :
    ∃ w, kaiser checks len beta = .ok w ∧ w.length = len ∧
      (∀ i, i < len → (let r : ℝ := 2 * i / (len - 1) - 1
        w.getD i 0 = besselI (beta * Real.sqrt (1 - r ^ 2)) / besselI beta) ∧
        0 < w.getD i 0 ∧ w.getD i 0 ≤ 1 ∧ w.getD (len - 1 - i) 0 = w.getD i 0 ∧ (2 * i = len - 1 → w.getD i 0 = 1)) ∧
      w.getD 0 0 = 1 / besselI beta := by
  have h1 : (0 : ℝ) < (len : ℝ) - 1 := by
    have : (2 : ℝ) ≤ len := by exact_mod_cast h2
    linarith
  have e : ∀ i, kaiserAt beta len i = besselI (beta * Real.sqrt (1 - (2 * i / ((len : ℝ) - 1) - 1) ^ 2)) / besselI beta := by
    intro i
    unfold kaiserAt
    simp only [hF.div, hF.mul, hF.sub, hF.one, hF.sqrt, hF.ofNatD, two, hF.lit, bessel0_real hF]
    rw [Nat.cast_sub (by omega), Nat.cast_one]
    have : ((i : ℝ) - ((len : ℝ) - 1) / ((2 : ℤ) / 10 ^ 0)) / (((len : ℝ) - 1) / ((2 : ℤ) / 10 ^ 0)) =
        2 * i / ((len : ℝ) - 1) - 1 := by push_cast; field_simp
    rw [this, sq]
  have hb := besselI_pos beta
  refine ⟨_, by unfold kaiser; rw [if_neg (by omega)], by simp, ?_, ?_⟩
  · intro i hi
    rw [getD_range_map hi, getD_range_map (by omega), e i, e]
    have hc : (((len - 1 - i : Nat) : ℝ)) = (len : ℝ) - 1 - i := by
      rw [Nat.cast_sub (by omega), Nat.cast_sub (by omega)]; push_cast; ring
    have hi' : (i : ℝ) ≤ (len : ℝ) - 1 := by
      have : ((i + 1 : Nat) : ℝ) ≤ len := by exact_mod_cast hi
      push_cast at this; linarith
    refine ⟨rfl, ?_, ?_, ?_, ?_⟩
    · exact div_pos (by linarith [besselI_pos (beta * Real.sqrt (1 - (2 * i / ((len : ℝ) - 1) - 1) ^ 2))]) (by linarith)
    · rw [div_le_one (by linarith)]
      apply besselI_mono
      rw [mul_pow]
      have hs : Real.sqrt (1 - (2 * i / ((len : ℝ) - 1) - 1) ^ 2) ^ 2 ≤ 1 := by
        have hle : Real.sqrt (1 - (2 * i / ((len : ℝ) - 1) - 1) ^ 2) ≤ 1 := by
          refine Real.sqrt_le_iff.2 ⟨zero_le_one, ?_⟩; linarith [sq_nonneg (2 * i / ((len : ℝ) - 1) - 1)]
        exact pow_le_one₀ (Real.sqrt_nonneg _) hle
      nlinarith [sq_nonneg beta]
    · have : (2 * (((len - 1 - i : Nat) : ℝ)) / ((len : ℝ) - 1) - 1) = -(2 * i / ((len : ℝ) - 1) - 1) := by
        rw [hc]; field_simp; ring
      rw [this, neg_sq]
    · intro hm
      have : 2 * (i : ℝ) / ((len : ℝ) - 1) - 1 = 0 := by
        have h3 : ((2 * i : Nat) : ℝ) = ((len - 1 : Nat) : ℝ) := by rw [hm]
        rw [Nat.cast_sub (by omega)] at h3; push_cast at h3
        rw [h3, div_self h1.ne', sub_self]
      rw [this]; norm_num
      exact (lt_of_lt_of_le one_pos hb).ne'
  · rw [getD_range_map (by omega), e]
    have h0 : Real.sqrt (1 - (2 * ((0 : Nat) : ℝ) / ((len : ℝ) - 1) - 1) ^ 2) = 0 := by simp
    rw [h0, mul_zero, besselI_zero]

/-- C53: the Tukey window (at least two samples): with `c` the clamped `alpha` and `m` the distance to the nearer end, it is
`sin²(π m / (c (len-1)))` while `m + 1 ≤ c (len-1) / 2`, and 1 otherwise; hence between 0 and 1 and symmetric. -/
theorem tukey_spec (hF : Lawful F) (len i : Nat) (alpha : ℝ) (hi : i < len) :
    (let c := max 0 (min alpha 1)
     let m := min i (len - 1 - i)
     (((m : ℝ) + 1 ≤ c * (len - 1) / 2 → (tukey len alpha).getD i 0 = Real.sin (Real.pi * m / (c * (len - 1))) ^ 2) ∧
      (c * (len - 1) / 2 < (m : ℝ) + 1 → (tukey len alpha).getD i 0 = 1))) ∧
    0 ≤ (tukey len alpha).getD i (0 : ℝ) ∧ (tukey len alpha).getD i (0 : ℝ) ≤ 1 ∧
    (tukey len alpha).getD (len - 1 - i) (0 : ℝ) = (tukey len alpha).getD i 0 := by
  set c := max 0 (min alpha 1) with hc
  have hc0 : 0 ≤ c := le_max_left _ _
  have hc1 : c ≤ 1 := max_le zero_le_one (min_le_right _ _)
  have hcl : clampF alpha Flt.zero Flt.one = c := by
    unfold clampF
    rw [hF.zero, hF.one]
    by_cases h0 : alpha < 0
    · rw [if_pos ((hF.lt _ _).2 h0), hc, max_eq_left]
      exact (min_le_left _ _).trans h0.le
    · rw [if_neg (fun h => h0 ((hF.lt _ _).1 h))]
      push Not at h0
      by_cases h1 : 1 < alpha
      · rw [if_pos ((hF.lt _ _).2 h1), hc, min_eq_right h1.le, max_eq_right zero_le_one]
      · rw [if_neg (fun h => h1 ((hF.lt _ _).1 h))]
        push Not at h1
        rw [hc, min_eq_left h1, max_eq_right h0]
  have hlen : (1 : ℝ) ≤ len := by exact_mod_cast (show 1 ≤ len by omega)
  have hedge : tukeyEdge len c = ⌊c * ((len : ℝ) - 1) / 2⌋₊ := by
    unfold tukeyEdge
    rw [hF.toNat, hF.floor, hF.div, hF.mul, hF.sub, hF.ofNatD, hF.one, two, hF.lit]
    have h2 : (((2 : ℤ) : ℝ) / 10 ^ 0) = 2 := by norm_num
    rw [h2, ← Int.floor_toNat, Int.floor_intCast, Int.floor_toNat]
  have hX : 0 ≤ c * ((len : ℝ) - 1) / 2 := by
    have : 0 ≤ (len : ℝ) - 1 := by linarith
    positivity
  have hlt : ∀ m : Nat, m < ⌊c * ((len : ℝ) - 1) / 2⌋₊ ↔ (m : ℝ) + 1 ≤ c * (len - 1) / 2 := by
    intro m
    rw [← Nat.add_one_le_iff, Nat.le_floor_iff hX]; push_cast; rfl
  have hE : 2 * ⌊c * ((len : ℝ) - 1) / 2⌋₊ ≤ len - 1 := by
    have h3 : (⌊c * ((len : ℝ) - 1) / 2⌋₊ : ℝ) ≤ c * ((len : ℝ) - 1) / 2 := Nat.floor_le hX
    have h4 : c * ((len : ℝ) - 1) ≤ (len : ℝ) - 1 := by nlinarith
    have h5 : ((2 * ⌊c * ((len : ℝ) - 1) / 2⌋₊ : Nat) : ℝ) ≤ ((len - 1 : Nat) : ℝ) := by
      rw [Nat.cast_sub (by omega)]; push_cast; linarith
    exact_mod_cast h5
  have hcos : ∀ x : ℝ, Real.cos (Real.pi * (2 * x - 1)) = -Real.cos (2 * (Real.pi * x)) := by
    intro x
    rw [show Real.pi * (2 * x - 1) = 2 * (Real.pi * x) - Real.pi by ring, Real.cos_sub_pi]
  have hv : ∀ k, k < len → (tukey len alpha).getD k 0 =
      if min k (len - 1 - k) < ⌊c * ((len : ℝ) - 1) / 2⌋₊ then
        Real.sin (Real.pi * ((min k (len - 1 - k) : Nat) : ℝ) / (c * (len - 1))) ^ 2 else 1 := by
    intro k hk
    unfold tukey
    rw [getD_range_map hk, hcl, tukeyAt, hedge]
    simp only [hF.div, hF.mul, hF.sub, hF.add, hF.one, hF.ofNatD, two, hF.lit, hF.cos, hF.pi]
    have h2 : (((2 : ℤ) : ℝ) / 10 ^ 0) = 2 := by norm_num
    have h5 : (((5 : ℤ) : ℝ) / 10 ^ 1) = 1 / 2 := by norm_num
    rw [h2, h5]
    by_cases hk1 : k < ⌊c * ((len : ℝ) - 1) / 2⌋₊
    · rw [if_pos hk1, Nat.min_eq_left (by omega), if_pos hk1, Real.sin_sq_eq_half_sub,
        show (2 * (k : ℝ) / (c * ((len : ℝ) - 1)) - 1) = 2 * (k / (c * (len - 1))) - 1 by ring, hcos,
        show Real.pi * (k / (c * ((len : ℝ) - 1))) = Real.pi * k / (c * (len - 1)) by ring]
      ring
    · rw [if_neg hk1]
      by_cases hk2 : k < len - ⌊c * ((len : ℝ) - 1) / 2⌋₊
      · rw [if_pos hk2, if_neg (by omega)]
      · rw [if_neg hk2, if_pos (by omega), Nat.min_eq_right (by omega), Real.sin_sq_eq_half_sub]
        have hp : 0 < c * ((len : ℝ) - 1) / 2 := by
          have : 0 < ⌊c * ((len : ℝ) - 1) / 2⌋₊ := by omega
          have := Nat.floor_pos.1 this
          linarith
        have hcn : c ≠ 0 := by rintro h; rw [h] at hp; simp at hp
        have hln : (len : ℝ) - 1 ≠ 0 := by rintro h; rw [h] at hp; simp at hp
        have hm : (((len - 1 - k : Nat) : ℝ)) = (len : ℝ) - 1 - k := by
          rw [Nat.cast_sub (by omega), Nat.cast_sub (by omega)]; push_cast; ring
        have harg : Real.pi * (2 * (k : ℝ) / (c * ((len : ℝ) - 1)) - 2 / c + 1) =
            -(Real.pi * (2 * (((len - 1 - k : Nat) : ℝ) / (c * ((len : ℝ) - 1))) - 1)) := by
          rw [hm]; field_simp; ring
        rw [harg, Real.cos_neg, hcos,
          show Real.pi * (((len - 1 - k : Nat) : ℝ) / (c * ((len : ℝ) - 1))) =
            Real.pi * ((len - 1 - k : Nat) : ℝ) / (c * (len - 1)) by ring]
        ring
  refine ⟨⟨?_, ?_⟩, ?_, ?_, ?_⟩
  · intro h; rw [hv i hi, if_pos ((hlt _).2 h)]
  · intro h; rw [hv i hi, if_neg (fun h' => absurd ((hlt _).1 h') (not_le.2 h))]
  · rw [hv i hi]; split
    · exact sq_nonneg _
    · exact zero_le_one
  · rw [hv i hi]; split
    · exact Real.sin_sq_le_one _
    · exact le_refl _
  · rw [hv i hi, hv _ (by omega), show len - 1 - (len - 1 - i) = i by omega, Nat.min_comm]

/-! ### C54 -/

omit F in
theorem sum_cos_shift (R : Nat) (q : ℤ) (hR : 0 < R) (hq : ¬ (R : ℤ) ∣ q) (φ : ℝ) :
    ∑ r ∈ range R, Real.cos (φ + 2 * Real.pi * q * r / R) = 0 := by
  have hR' : (R : ℝ) ≠ 0 := by positivity
  have tel : ∀ n : Nat, 2 * Real.sin (Real.pi * q / R) * ∑ r ∈ range n, Real.cos (φ + 2 * Real.pi * q * r / R) =
      Real.sin (φ - Real.pi * q / R + 2 * Real.pi * q * n / R) - Real.sin (φ - Real.pi * q / R) := by
    intro n
    induction n with
    | zero => simp
    | succ n ih =>
      rw [sum_range_succ, mul_add, ih]
      have e1 : φ - Real.pi * q / R + 2 * Real.pi * q * ((n + 1 : Nat) : ℝ) / R =
          (φ + 2 * Real.pi * q * n / R) + Real.pi * q / R := by push_cast; ring
      have e2 : φ - Real.pi * q / R + 2 * Real.pi * q * n / R = (φ + 2 * Real.pi * q * n / R) - Real.pi * q / R := by ring
      rw [e1, e2, Real.sin_add, Real.sin_sub]; ring
  have h := tel R
  rw [show φ - Real.pi * q / R + 2 * Real.pi * q * R / R = (φ - Real.pi * q / R) + q * (2 * Real.pi) by field_simp,
    Real.sin_add_int_mul_two_pi, sub_self] at h
  rcases mul_eq_zero.1 h with h | h
  · exfalso
    have hs : Real.sin (Real.pi * q / R) = 0 := by linarith
    rw [Real.sin_eq_zero_iff] at hs
    obtain ⟨m, hm⟩ := hs
    apply hq
    refine ⟨m, ?_⟩
    have hp := Real.pi_ne_zero
    have : (q : ℝ) = R * m := by
      field_simp at hm
      linarith
    exact_mod_cast this
  · exact h

/-- C54 (and more overlap): `R ≥ 2` periodic Hann windows at distance `hop`, where `len = R * hop`, add up to `R / 2` at
every position that all the overlapping frames cover. With `R = 2` this is C54. -/
theorem hann_cola (hF : Lawful F) (R hop frames t : Nat) (hR : 2 ≤ R) (ht0 : (R - 1) * hop ≤ t) (ht : t < frames * hop) :
    ∑ f ∈ range frames, (if f * hop ≤ t ∧ t < f * hop + R * hop then (hann (R * hop)).getD (t - f * hop) 0 else 0) =
      (R : ℝ) / 2 := by
  have hh : 0 < hop := by
    rcases Nat.eq_zero_or_pos hop with h | h
    · subst h; simp at ht
    · exact h
  -- the frame containing `t` last, and the offset in its hop
  set q := t / hop with hq
  set o := t % hop with ho
  have hdm : t = q * hop + o := by rw [hq, ho, Nat.mul_comm, Nat.div_add_mod]
  have hol : o < hop := Nat.mod_lt _ hh
  have hqR : R - 1 ≤ q := (Nat.le_div_iff_mul_le hh).2 ht0
  have hqf : q < frames := (Nat.div_lt_iff_lt_mul hh).2 ht
  have hsub : ∑ f ∈ range frames, (if f * hop ≤ t ∧ t < f * hop + R * hop then (hann (R * hop)).getD (t - f * hop) (0 : ℝ) else 0)
      = ∑ f ∈ Ico (q + 1 - R) (q + 1), (hann (R * hop)).getD (t - f * hop) (0 : ℝ) := by
    rw [← sum_filter]
    apply sum_congr
    · ext f
      simp only [mem_filter, mem_range, mem_Ico]
      constructor
      · rintro ⟨_, h1, h2⟩
        have h1' : f ≤ q := (Nat.le_div_iff_mul_le hh).2 h1
        have h2' : q < f + R := by
          rw [← Nat.add_mul] at h2
          exact (Nat.div_lt_iff_lt_mul hh).2 h2
        omega
      · rintro ⟨h1, h2⟩
        refine ⟨by omega, ?_, ?_⟩
        · exact (Nat.le_div_iff_mul_le hh).1 (show f ≤ q by omega)
        · rw [← Nat.add_mul]
          exact (Nat.div_lt_iff_lt_mul hh).1 (show q < f + R by omega)
    · intros; rfl
  rw [hsub, sum_Ico_eq_sum_range, show q + 1 - (q + 1 - R) = R by omega, ← sum_range_reflect]
  have hv : ∀ r ∈ range R, (hann (R * hop)).getD (t - (q + 1 - R + (R - 1 - r)) * hop) (0 : ℝ) =
      1 / 2 - 1 / 2 * Real.cos (2 * Real.pi * o / (R * hop : Nat) + 2 * Real.pi * (1 : ℤ) * r / R) := by
    intro r hr
    rw [mem_range] at hr
    have hidx : t - (q + 1 - R + (R - 1 - r)) * hop = o + r * hop := by
      rw [show q + 1 - R + (R - 1 - r) = q - r by omega, hdm, Nat.sub_mul]
      have : r * hop ≤ q * hop := Nat.mul_le_mul_right _ (by omega)
      omega
    have hlt : o + r * hop < R * hop := by
      calc o + r * hop < hop + r * hop := by omega
        _ = (r + 1) * hop := by ring
        _ ≤ R * hop := Nat.mul_le_mul_right _ (by omega)
    unfold hann
    rw [hidx, getD_range_map hlt, hannAt_real hF]
    congr 3
    have h1 : (hop : ℝ) ≠ 0 := by positivity
    have h2 : (R : ℝ) ≠ 0 := by have : 0 < R := by omega
                                positivity
    push_cast
    field_simp
  rw [sum_congr rfl hv, sum_sub_distrib, ← mul_sum, sum_cos_shift R 1 (by omega) (by
    intro h
    have := Int.le_of_dvd one_pos h
    omega)]
  simp; ring

/-- C54: periodic Hann windows of even length shifted by half their length sum to 1 at every covered position. -/
theorem hann_half_overlap (hF : Lawful F) (hop frames t : Nat) (ht0 : hop ≤ t) (ht : t < frames * hop) :
    ∑ f ∈ range frames, (if f * hop ≤ t ∧ t < f * hop + 2 * hop then (hann (2 * hop)).getD (t - f * hop) 0 else 0) =
      (1 : ℝ) := by
  rw [hann_cola hF 2 hop frames t (le_refl _) (by simpa using ht0) ht]; norm_num

example : (3 : ℕ) ≤ 7 ∧ 7 < 4 * 3 := by decide

end exact
end Kofft.Props
