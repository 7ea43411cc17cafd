import Verif.Spec.Trig
import Mathlib.Tactic.Ring
import Mathlib.Algebra.BigOperators.Field
import Mathlib.Tactic.FieldSimp
import Mathlib.Tactic.Linarith
/-
Orthogonality of sampled cosines and sines.
-/
namespace Kofft.Spec
open Finset Real

theorem sin_half_mul_sum (n : ℕ) (θ : ℝ) :
    2 * sin (θ / 2) * ∑ k ∈ range n, cos (θ * (k + 1 / 2)) = sin (n * θ) := by
  induction n with
  | zero => simp
  | succ n ih =>
    rw [sum_range_succ, mul_add, ih]
    have h1 : ((n + 1 : ℕ) : ℝ) * θ = θ * (n + 1 / 2) + θ / 2 := by push_cast; ring
    have h2 : (n : ℝ) * θ = θ * (n + 1 / 2) - θ / 2 := by ring
    rw [h1, h2, sin_add, sin_sub]; ring

theorem sin_half_mul_sum' (n : ℕ) (hn : 0 < n) (θ : ℝ) :
    2 * sin (θ / 2) * ∑ k ∈ Ico 1 n, cos (θ * k) = sin ((n - 1 / 2) * θ) - sin (θ / 2) := by
  obtain ⟨m, rfl⟩ : ∃ m, n = m + 1 := ⟨n - 1, by omega⟩
  clear hn
  induction m with
  | zero => simp only [zero_add, Ico_self, sum_empty, mul_zero]; rw [show (((1 : ℕ) : ℝ) - 1 / 2) * θ = θ / 2 by push_cast; ring]; ring
  | succ n ih =>
    rw [sum_Ico_succ_top (by omega), mul_add, ih]
    have h1 : (((n + 1 + 1 : ℕ) : ℝ) - 1 / 2) * θ = θ * ((n + 1 : ℕ) : ℝ) + θ / 2 := by push_cast; ring
    have h2 : (((n + 1 : ℕ) : ℝ) - 1 / 2) * θ = θ * ((n + 1 : ℕ) : ℝ) - θ / 2 := by push_cast; ring
    rw [h1, h2, sin_add, sin_sub]; ring

theorem sin_half_ne {n : ℕ} (hn : 0 < n) {a : ℤ} (ha : ¬ (2 * n : ℤ) ∣ a) : sin (π * a / n / 2) ≠ 0 := by
  intro h
  rw [sin_eq_zero_iff] at h
  obtain ⟨m, hm⟩ := h
  have hn' : (n : ℝ) ≠ 0 := by positivity
  have : (m : ℝ) * (2 * n) = a := by
    field_simp at hm
    linarith
  apply ha
  refine ⟨m, ?_⟩
  have h3 : ((m * (2 * n) : ℤ) : ℝ) = ((a : ℤ) : ℝ) := by push_cast; exact this
  have h4 := Int.cast_injective (α := ℝ) h3
  linarith

/-- `Σ_{k<n} cos(π a (k+1/2) / n) = 0` unless `2n ∣ a`. -/
theorem sum_cos_half {n : ℕ} (hn : 0 < n) {a : ℤ} (ha : ¬ (2 * n : ℤ) ∣ a) :
    ∑ k ∈ range n, cos (π * a / n * (k + 1 / 2)) = 0 := by
  have h := sin_half_mul_sum n (π * a / n)
  have hn' : (n : ℝ) ≠ 0 := by positivity
  rw [show (n : ℝ) * (π * a / n) = a * π by field_simp, sin_int_mul_pi] at h
  have h2 := sin_half_ne hn ha
  rcases mul_eq_zero.1 h with h | h
  · exact absurd (by linarith) h2
  · exact h

/-- `Σ_{1≤k<n} cos(π a k / n) = -(1 + (-1)^a)/2` unless `2n ∣ a`. -/
theorem sum_cos_int {n : ℕ} (hn : 0 < n) {a : ℤ} (ha : ¬ (2 * n : ℤ) ∣ a) :
    ∑ k ∈ Ico 1 n, cos (π * a / n * k) = -(1 + (-1) ^ a) / 2 := by
  have h := sin_half_mul_sum' n hn (π * a / n)
  have hn' : (n : ℝ) ≠ 0 := by positivity
  rw [show ((n : ℝ) - 1 / 2) * (π * a / n) = a * π - π * a / n / 2 by field_simp,
    sin_sub, sin_int_mul_pi, zero_mul, zero_sub, cos_int_mul_pi] at h
  have h2 := sin_half_ne hn ha
  have h3 : sin (π * a / n / 2) * (2 * ∑ k ∈ Ico 1 n, cos (π * a / n * k) + 1 + (-1) ^ a) = 0 := by
    linear_combination h
  rcases mul_eq_zero.1 h3 with h | h
  · exact absurd h h2
  · linarith

/-- The same sum when `2n ∣ a`. -/
theorem sum_cos_int' {n : ℕ} (hn : 0 < n) {a : ℤ} (ha : (2 * n : ℤ) ∣ a) :
    ∑ k ∈ Ico 1 n, cos (π * a / n * k) = n - 1 := by
  obtain ⟨m, rfl⟩ := ha
  have hn' : (n : ℝ) ≠ 0 := by positivity
  have : ∀ k ∈ Ico 1 n, cos (π * ((2 * n * m : ℤ) : ℝ) / n * k) = 1 := by
    intro k _
    rw [show π * ((2 * n * m : ℤ) : ℝ) / n * k = ((m * k : ℤ) : ℝ) * (2 * π) by push_cast; field_simp]
    exact cos_int_mul_two_pi _
  rw [sum_congr rfl this]
  simp [Nat.cast_sub hn]

theorem cos_mul_cos' (a b : ℝ) : cos a * cos b = (cos (a - b) + cos (a + b)) / 2 := by
  rw [cos_add, cos_sub]; ring

theorem sin_mul_sin' (a b : ℝ) : sin a * sin b = (cos (a - b) - cos (a + b)) / 2 := by
  rw [cos_add, cos_sub]; ring

theorem not_dvd_small {n : ℕ} {a : ℤ} (h0 : a ≠ 0) (h1 : |a| < 2 * n) : ¬ (2 * n : ℤ) ∣ a := by
  intro h
  have := Int.eq_zero_of_abs_lt_dvd h h1
  exact h0 this

theorem neg_one_zpow_add_odd (a b : ℤ) (h : (a + b) % 2 = 1) : ((-1 : ℝ) ^ a + (-1) ^ b) = 0 := by
  rcases Int.even_or_odd a with ha | ha
  · have hb : Odd b := by rw [Int.odd_iff]; rw [Int.even_iff] at ha; omega
    rw [ha.neg_one_zpow, hb.neg_one_zpow]; ring
  · have hb : Even b := by rw [Int.even_iff]; rw [Int.odd_iff] at ha; omega
    rw [ha.neg_one_zpow, hb.neg_one_zpow]; ring

theorem neg_one_zpow_eq (a b : ℤ) (h : (a + b) % 2 = 0) : ((-1 : ℝ) ^ a) = (-1) ^ b := by
  rcases Int.even_or_odd a with ha | ha
  · have hb : Even b := by rw [Int.even_iff]; rw [Int.even_iff] at ha; omega
    rw [ha.neg_one_zpow, hb.neg_one_zpow]
  · have hb : Odd b := by rw [Int.odd_iff]; rw [Int.odd_iff] at ha; omega
    rw [ha.neg_one_zpow, hb.neg_one_zpow]

/-! ### Kernels -/

/-- DCT-II then DCT-III. -/
theorem ker23 {n : ℕ} (hn : 0 < n) (i j : ℕ) (hi : i < n) (hj : j < n) :
    1 / 2 + ∑ k ∈ Ico 1 n, cos (π * (i + 1 / 2) * k / n) * cos (π * k * (j + 1 / 2) / n) =
      if i = j then (n : ℝ) / 2 else 0 := by
  have e : ∀ k ∈ Ico 1 n, cos (π * (i + 1 / 2) * k / n) * cos (π * k * (j + 1 / 2) / n) =
      (cos (π * ((i - j : ℤ) : ℝ) / n * k) + cos (π * ((i + j + 1 : ℤ) : ℝ) / n * k)) / 2 := by
    intro k _
    rw [cos_mul_cos']
    congr 3 <;> · push_cast; ring
  rw [sum_congr rfl e, ← sum_div, sum_add_distrib,
    sum_cos_int hn (a := i + j + 1) (not_dvd_small (by omega) (by rw [abs_of_nonneg (by omega)]; omega))]
  by_cases h : i = j
  · subst h
    rw [if_pos rfl, sum_cos_int' hn (by simp),
      show ((-1 : ℝ) ^ ((i : ℤ) + i + 1)) = -1 from Odd.neg_one_zpow (by rw [Int.odd_iff]; omega)]
    ring
  · rw [if_neg h, sum_cos_int hn (not_dvd_small (by omega) (by rw [abs_lt]; omega))]
    have := neg_one_zpow_add_odd (i - j) (i + j + 1) (by omega)
    linarith

/-- Shifted cosines summed over the half-integer grid. -/
theorem kerS {n : ℕ} (hn : 0 < n) (a b : ℤ) (hs : |a + b| < 2 * n) (hd : |a - b| < 2 * n) :
    ∑ k ∈ range n, cos (π * a / n * (k + 1 / 2)) * cos (π * b / n * (k + 1 / 2)) =
      ((if a = b then (n : ℝ) else 0) + (if a = -b then (n : ℝ) else 0)) / 2 := by
  have e : ∀ k ∈ range n, cos (π * a / n * (k + 1 / 2)) * cos (π * b / n * (k + 1 / 2)) =
      (cos (π * ((a - b : ℤ) : ℝ) / n * (k + 1 / 2)) + cos (π * ((a + b : ℤ) : ℝ) / n * (k + 1 / 2))) / 2 := by
    intro k _
    rw [cos_mul_cos']
    congr 3 <;> · push_cast; ring
  have g : ∀ c : ℤ, |c| < 2 * n → ∑ k ∈ range n, cos (π * (c : ℝ) / n * (k + 1 / 2)) = if c = 0 then (n : ℝ) else 0 := by
    intro c hc
    split
    · rename_i h; subst h; simp
    · rename_i h; exact sum_cos_half hn (not_dvd_small h hc)
  rw [sum_congr rfl e, ← sum_div, sum_add_distrib, g _ hd, g _ hs]
  congr 2
  · exact if_congr sub_eq_zero rfl rfl
  · exact if_congr add_eq_zero_iff_eq_neg rfl rfl

theorem kerSs {n : ℕ} (hn : 0 < n) (a b : ℤ) (hs : |a + b| < 2 * n) (hd : |a - b| < 2 * n) :
    ∑ k ∈ range n, sin (π * a / n * (k + 1 / 2)) * sin (π * b / n * (k + 1 / 2)) =
      ((if a = b then (n : ℝ) else 0) - (if a = -b then (n : ℝ) else 0)) / 2 := by
  have e : ∀ k ∈ range n, sin (π * a / n * (k + 1 / 2)) * sin (π * b / n * (k + 1 / 2)) =
      (cos (π * ((a - b : ℤ) : ℝ) / n * (k + 1 / 2)) - cos (π * ((a + b : ℤ) : ℝ) / n * (k + 1 / 2))) / 2 := by
    intro k _
    rw [sin_mul_sin']
    congr 3 <;> · push_cast; ring
  have g : ∀ c : ℤ, |c| < 2 * n → ∑ k ∈ range n, cos (π * (c : ℝ) / n * (k + 1 / 2)) = if c = 0 then (n : ℝ) else 0 := by
    intro c hc
    split
    · rename_i h; subst h; simp
    · rename_i h; exact sum_cos_half hn (not_dvd_small h hc)
  rw [sum_congr rfl e, ← sum_div, sum_sub_distrib, g _ hd, g _ hs]
  congr 2
  · exact if_congr sub_eq_zero rfl rfl
  · exact if_congr add_eq_zero_iff_eq_neg rfl rfl

theorem sumS {n : ℕ} (hn : 0 < n) (c : ℤ) (hc : |c| < 2 * n) :
    ∑ k ∈ range n, cos (π * (c : ℝ) / n * (k + 1 / 2)) = if c = 0 then (n : ℝ) else 0 := by
  split
  · rename_i h; subst h; simp
  · rename_i h; exact sum_cos_half hn (not_dvd_small h hc)

theorem ker4 {n : ℕ} (hn : 0 < n) (i j : ℕ) (hi : i < n) (hj : j < n) :
    ∑ k ∈ range n, cos (π * (i + 1 / 2) * (k + 1 / 2) / n) * cos (π * (k + 1 / 2) * (j + 1 / 2) / n) =
      if i = j then (n : ℝ) / 2 else 0 := by
  have e : ∀ k ∈ range n, cos (π * (i + 1 / 2) * (k + 1 / 2) / n) * cos (π * (k + 1 / 2) * (j + 1 / 2) / n) =
      (cos (π * ((i - j : ℤ) : ℝ) / n * (k + 1 / 2)) + cos (π * ((i + j + 1 : ℤ) : ℝ) / n * (k + 1 / 2))) / 2 := by
    intro k _
    rw [cos_mul_cos']
    congr 3 <;> · push_cast; ring
  rw [sum_congr rfl e, ← sum_div, sum_add_distrib, sumS hn _ (by rw [abs_lt]; omega),
    sumS hn _ (by rw [abs_lt]; omega), if_neg (show ¬ (i + j + 1 : ℤ) = 0 by omega)]
  by_cases h : i = j
  · subst h; simp
  · rw [if_neg (by omega), if_neg h]; simp

theorem ker4s {n : ℕ} (hn : 0 < n) (i j : ℕ) (hi : i < n) (hj : j < n) :
    ∑ k ∈ range n, sin (π * (i + 1 / 2) * (k + 1 / 2) / n) * sin (π * (k + 1 / 2) * (j + 1 / 2) / n) =
      if i = j then (n : ℝ) / 2 else 0 := by
  have e : ∀ k ∈ range n, sin (π * (i + 1 / 2) * (k + 1 / 2) / n) * sin (π * (k + 1 / 2) * (j + 1 / 2) / n) =
      (cos (π * ((i - j : ℤ) : ℝ) / n * (k + 1 / 2)) - cos (π * ((i + j + 1 : ℤ) : ℝ) / n * (k + 1 / 2))) / 2 := by
    intro k _
    rw [sin_mul_sin']
    congr 3 <;> · push_cast; ring
  rw [sum_congr rfl e, ← sum_div, sum_sub_distrib, sumS hn _ (by rw [abs_lt]; omega),
    sumS hn _ (by rw [abs_lt]; omega), if_neg (show ¬ (i + j + 1 : ℤ) = 0 by omega)]
  by_cases h : i = j
  · subst h; simp
  · rw [if_neg (by omega), if_neg h]; simp

/-- Swapping the sums of two transforms with kernels `A`, `B`. -/
theorem sum_kernel {n : ℕ} (s : Finset ℕ) (x : ℕ → ℝ) (A B : ℕ → ℕ → ℝ) (c : ℝ) (j : ℕ) (hj : j < n)
    (h : ∀ i, i < n → ∑ k ∈ s, A i k * B k j = if i = j then c else 0) :
    ∑ k ∈ s, (∑ i ∈ range n, x i * A i k) * B k j = c * x j := by
  have : ∀ k ∈ s, (∑ i ∈ range n, x i * A i k) * B k j = ∑ i ∈ range n, x i * (A i k * B k j) := by
    intro k _
    rw [sum_mul]; exact sum_congr rfl fun i _ => by ring
  rw [sum_congr rfl this, sum_comm]
  have : ∀ i ∈ range n, ∑ k ∈ s, x i * (A i k * B k j) = if i = j then c * x i else 0 := by
    intro i hi
    rw [← mul_sum, h i (mem_range.1 hi)]
    split <;> ring
  rw [sum_congr rfl this, sum_ite_eq' (range n) j, if_pos (mem_range.2 hj)]

/-! ### The transforms invert each other -/

theorem dctIII_dctII (n : ℕ) (x : ℕ → ℝ) (j : ℕ) (hj : j < n) :
    dctIII n (dctII n x) j = n / 2 * x j := by
  have hn : 0 < n := by omega
  unfold dctIII
  have e0 : dctII n x 0 / 2 = ∑ i ∈ range n, x i * (1 / 2) := by
    unfold dctII
    rw [sum_div]; exact sum_congr rfl fun i _ => by simp; ring
  have e1 : ∑ k ∈ Ico 1 n, dctII n x k * cos (π * k * (j + 1 / 2) / n) =
      ∑ i ∈ range n, x i * ∑ k ∈ Ico 1 n, cos (π * (i + 1 / 2) * k / n) * cos (π * k * (j + 1 / 2) / n) := by
    unfold dctII
    simp only [sum_mul, mul_sum]
    rw [sum_comm]
    exact sum_congr rfl fun i _ => sum_congr rfl fun k _ => by ring
  rw [e0, e1, ← sum_add_distrib]
  have : ∀ i ∈ range n, x i * (1 / 2) + x i * ∑ k ∈ Ico 1 n,
      cos (π * (i + 1 / 2) * k / n) * cos (π * k * (j + 1 / 2) / n) = if i = j then n / 2 * x i else 0 := by
    intro i hi
    rw [← mul_add, ker23 hn i j (mem_range.1 hi) hj]
    split <;> ring
  rw [sum_congr rfl this, sum_ite_eq' (range n) j, if_pos (mem_range.2 hj)]

theorem dctII_dctIII (n : ℕ) (x : ℕ → ℝ) (k : ℕ) (hk : k < n) :
    dctII n (dctIII n x) k = n / 2 * x k := by
  have hn : 0 < n := by omega
  unfold dctII dctIII
  have e : ∀ i ∈ range n, (x 0 / 2 + ∑ l ∈ Ico 1 n, x l * cos (π * l * (i + 1 / 2) / n)) *
      cos (π * (i + 1 / 2) * k / n) = x 0 / 2 * cos (π * ((k : ℤ) : ℝ) / n * (i + 1 / 2)) +
        ∑ l ∈ Ico 1 n, x l * (cos (π * ((l : ℤ) : ℝ) / n * (i + 1 / 2)) * cos (π * ((k : ℤ) : ℝ) / n * (i + 1 / 2))) := by
    intro i _
    have hc : ∀ l : ℕ, cos (π * ((l : ℤ) : ℝ) / n * (i + 1 / 2)) = cos (π * l * (i + 1 / 2) / n) := by
      intro l; congr 1; push_cast; ring
    have hk' : cos (π * (i + 1 / 2) * k / n) = cos (π * ((k : ℤ) : ℝ) / n * (i + 1 / 2)) := by
      congr 1; push_cast; ring
    rw [add_mul, sum_mul, hk']
    congr 1
    exact sum_congr rfl fun l _ => by rw [hc l]; ring
  rw [sum_congr rfl e, sum_add_distrib, ← mul_sum, sumS hn _ (by rw [abs_lt]; omega), sum_comm]
  have e2 : ∀ l ∈ Ico 1 n, ∑ i ∈ range n,
      x l * (cos (π * ((l : ℤ) : ℝ) / n * (i + 1 / 2)) * cos (π * ((k : ℤ) : ℝ) / n * (i + 1 / 2))) =
      if l = k then n / 2 * x l else 0 := by
    intro l hl
    rw [mem_Ico] at hl
    rw [← mul_sum, kerS hn _ _ (by rw [abs_lt]; omega) (by rw [abs_lt]; omega),
      if_neg (show ¬ (l : ℤ) = -k by omega), add_zero]
    by_cases h : l = k
    · rw [if_pos (by omega), if_pos h]; ring
    · rw [if_neg (by omega), if_neg h]; ring
  rw [sum_congr rfl e2, sum_ite_eq' (Ico 1 n) k]
  by_cases h : k = 0
  · subst h; simp; ring
  · rw [if_neg (by omega), if_pos (mem_Ico.2 ⟨by omega, hk⟩)]; ring

theorem dctIV_dctIV (n : ℕ) (x : ℕ → ℝ) (j : ℕ) (hj : j < n) : dctIV n (dctIV n x) j = n / 2 * x j := by
  unfold dctIV
  exact sum_kernel (range n) x (fun i k => cos (π * (i + 1 / 2) * (k + 1 / 2) / n))
    (fun k j => cos (π * (k + 1 / 2) * (j + 1 / 2) / n)) _ j hj
    fun i hi => ker4 (by omega) i j hi hj

theorem dstIV_dstIV (n : ℕ) (x : ℕ → ℝ) (j : ℕ) (hj : j < n) : dstIV n (dstIV n x) j = n / 2 * x j := by
  unfold dstIV
  exact sum_kernel (range n) x (fun i k => sin (π * (i + 1 / 2) * (k + 1 / 2) / n))
    (fun k j => sin (π * (k + 1 / 2) * (j + 1 / 2) / n)) _ j hj
    fun i hi => ker4s (by omega) i j hi hj

theorem sum_Ico_eq_sum_range_shift {n : ℕ} (i j : ℕ) :
    ∑ k ∈ range n, sin (π * (i + 1) * (k + 1) / (n + 1)) * sin (π * (k + 1) * (j + 1) / (n + 1)) =
    ∑ k ∈ Ico 1 (n + 1), sin (π * (i + 1) * k / (n + 1)) * sin (π * k * (j + 1) / (n + 1)) := by
  rw [sum_Ico_eq_sum_range]
  exact sum_congr rfl fun k _ => by congr 2 <;> · push_cast; ring

theorem ker1s {n : ℕ} (i j : ℕ) (hi : i < n) (hj : j < n) :
    ∑ k ∈ range n, sin (π * (i + 1) * (k + 1) / (n + 1)) * sin (π * (k + 1) * (j + 1) / (n + 1)) =
      if i = j then ((n : ℝ) + 1) / 2 else 0 := by
  have hn : 0 < n + 1 := by omega
  rw [sum_Ico_eq_sum_range_shift]
  have e : ∀ k ∈ Ico 1 (n + 1), sin (π * (i + 1) * k / (n + 1)) * sin (π * k * (j + 1) / (n + 1)) =
      (cos (π * ((i - j : ℤ) : ℝ) / (n + 1 : ℕ) * k) - cos (π * ((i + j + 2 : ℤ) : ℝ) / (n + 1 : ℕ) * k)) / 2 := by
    intro k _
    rw [sin_mul_sin']
    congr 3 <;> · push_cast; ring
  rw [sum_congr rfl e, ← sum_div, sum_sub_distrib,
    sum_cos_int hn (a := i + j + 2) (not_dvd_small (by omega) (by rw [abs_lt]; omega))]
  by_cases h : i = j
  · subst h
    rw [if_pos rfl, sum_cos_int' hn (by simp),
      show ((-1 : ℝ) ^ ((i : ℤ) + i + 2)) = 1 from Even.neg_one_zpow (by rw [Int.even_iff]; omega)]
    push_cast; ring
  · rw [if_neg h, sum_cos_int hn (not_dvd_small (by omega) (by rw [abs_lt]; omega)),
      neg_one_zpow_eq (i - j) (i + j + 2) (by omega)]
    ring

theorem dstI_dstI (n : ℕ) (x : ℕ → ℝ) (j : ℕ) (hj : j < n) : dstI n (dstI n x) j = (n + 1) / 2 * x j := by
  unfold dstI
  exact sum_kernel (range n) x (fun i k => sin (π * (i + 1) * (k + 1) / (n + 1)))
    (fun k j => sin (π * (k + 1) * (j + 1) / (n + 1))) _ j hj fun i hi => ker1s i j hi hj

/-! ### DCT-I -/

/-- Weights of DCT-I with `N + 1` samples. -/
noncomputable def w1 (N i : ℕ) : ℝ := if i = 0 ∨ i = N then 1 else 2

theorem sum_w1 {N : ℕ} (hN : 0 < N) (g : ℕ → ℝ) :
    ∑ i ∈ range (N + 1), w1 N i * g i = g 0 + g N + 2 * ∑ i ∈ Ico 1 N, g i := by
  rw [range_eq_Ico, sum_Ico_succ_top (by omega), sum_eq_sum_Ico_succ_bot hN, mul_sum]
  have : ∀ i ∈ Ico (0 + 1) N, w1 N i * g i = 2 * g i := by
    intro i hi
    rw [mem_Ico] at hi
    rw [w1, if_neg (by omega)]
  rw [sum_congr rfl this]
  simp only [w1, true_or, or_true, if_true]
  ring

theorem cos_end {N : ℕ} (hN : 0 < N) (a : ℤ) : cos (π * a / N * N) = (-1) ^ a := by
  have hn' : (N : ℝ) ≠ 0 := by positivity
  rw [show π * a / N * N = a * π by field_simp, cos_int_mul_pi]

theorem sum_w1_cos {N : ℕ} (hN : 0 < N) (a : ℤ) :
    ∑ k ∈ range (N + 1), w1 N k * cos (π * a / N * k) = if (2 * N : ℤ) ∣ a then (2 * N : ℝ) else 0 := by
  rw [sum_w1 hN (fun k => cos (π * a / N * k)), cos_end hN]
  split
  · rename_i h
    rw [sum_cos_int' hN h]
    have : Even a := by
      obtain ⟨m, rfl⟩ := h
      exact ⟨N * m, by ring⟩
    rw [this.neg_one_zpow]; simp; ring
  · rename_i h
    rw [sum_cos_int hN h]; simp; ring

theorem dctI_eq {N : ℕ} (hN : 0 < N) (x : ℕ → ℝ) (k : ℕ) :
    dctI (N + 1) x k = ∑ i ∈ range (N + 1), x i * (w1 N i * cos (π * i * k / N)) := by
  have e : ∀ i ∈ range (N + 1), x i * (w1 N i * cos (π * i * k / N)) =
      w1 N i * (x i * cos (π * i * k / N)) := fun i _ => by ring
  rw [sum_congr rfl e, sum_w1 hN (fun i => x i * cos (π * i * k / N))]
  unfold dctI
  have h := cos_end hN k
  rw [show π * ((k : ℤ) : ℝ) / N * N = π * N * k / N by push_cast; ring, zpow_natCast] at h
  rw [h]
  simp only [Nat.add_sub_cancel, Nat.cast_add, Nat.cast_one, add_sub_cancel_right]
  simp; ring

theorem ker1 {N : ℕ} (hN : 0 < N) (i j : ℕ) (hi : i < N + 1) (hj : j < N + 1) :
    ∑ k ∈ range (N + 1), (w1 N i * cos (π * i * k / N)) * (w1 N k * cos (π * k * j / N)) =
      if i = j then 2 * (N : ℝ) else 0 := by
  have e : ∀ k ∈ range (N + 1), (w1 N i * cos (π * i * k / N)) * (w1 N k * cos (π * k * j / N)) =
      w1 N i / 2 * (w1 N k * cos (π * ((i - j : ℤ) : ℝ) / N * k)) +
      w1 N i / 2 * (w1 N k * cos (π * ((i + j : ℤ) : ℝ) / N * k)) := by
    intro k _
    have := cos_mul_cos' (π * i * k / N) (π * k * j / N)
    rw [show π * i * k / N - π * k * j / N = π * ((i - j : ℤ) : ℝ) / N * k by push_cast; ring,
      show π * i * k / N + π * k * j / N = π * ((i + j : ℤ) : ℝ) / N * k by push_cast; ring] at this
    linear_combination (w1 N i * w1 N k) * this
  rw [sum_congr rfl e, sum_add_distrib, ← mul_sum, ← mul_sum, sum_w1_cos hN, sum_w1_cos hN]
  by_cases h : i = j
  · subst h
    rw [if_pos (by simp), if_pos rfl]
    by_cases h0 : i = 0 ∨ i = N
    · rw [if_pos (by rcases h0 with h | h <;> subst h <;> [simp; exact ⟨1, by ring⟩]), w1, if_pos h0]; ring
    · rw [if_neg (not_dvd_small (by omega) (by rw [abs_lt]; omega)), w1, if_neg h0]; ring
  · rw [if_neg (not_dvd_small (by omega) (by rw [abs_lt]; omega)),
      if_neg (not_dvd_small (by omega) (by rw [abs_lt]; omega)), if_neg h]
    ring

theorem dctI_dctI (n : ℕ) (hn : 2 ≤ n) (x : ℕ → ℝ) (j : ℕ) (hj : j < n) :
    dctI n (dctI n x) j = 2 * (n - 1) * x j := by
  obtain ⟨N, rfl⟩ : ∃ N, n = N + 1 := ⟨n - 1, by omega⟩
  have hN : 0 < N := by omega
  rw [dctI_eq hN]
  have e : ∀ k ∈ range (N + 1), dctI (N + 1) x k * (w1 N k * cos (π * k * j / N)) =
      (∑ i ∈ range (N + 1), x i * (w1 N i * cos (π * i * k / N))) * (w1 N k * cos (π * k * j / N)) := by
    intro k _; rw [dctI_eq hN]
  rw [sum_congr rfl e, sum_kernel (range (N + 1)) x (fun i k => w1 N i * cos (π * i * k / N))
    (fun k j => w1 N k * cos (π * k * j / N)) _ j hj fun i hi => ker1 hN i j hi hj]
  push_cast; ring

/-! ### DST-II and the textbook DST-III -/

/-- The textbook DST-III kernel evaluated on the last coefficient. -/
theorem sin_last {n : ℕ} (hn : 0 < n) (k : ℕ) : sin (π * n * (k + 1 / 2) / n) = (-1) ^ k := by
  have hn' : (n : ℝ) ≠ 0 := by positivity
  rw [show π * n * (k + 1 / 2) / n = k * π + π / 2 by field_simp, sin_add_pi_div_two, cos_nat_mul_pi]

theorem ker23s {n : ℕ} (hn : 0 < n) (i j : ℕ) (hi : i < n) (hj : j < n) :
    (-1) ^ i * (-1) ^ j / 2 + ∑ k ∈ Ico 1 n, sin (π * (i + 1 / 2) * k / n) * sin (π * k * (j + 1 / 2) / n) =
      if i = j then (n : ℝ) / 2 else 0 := by
  have e : ∀ k ∈ Ico 1 n, sin (π * (i + 1 / 2) * k / n) * sin (π * k * (j + 1 / 2) / n) =
      (cos (π * ((i - j : ℤ) : ℝ) / n * k) - cos (π * ((i + j + 1 : ℤ) : ℝ) / n * k)) / 2 := by
    intro k _
    rw [sin_mul_sin']
    congr 3 <;> · push_cast; ring
  rw [sum_congr rfl e, ← sum_div, sum_sub_distrib,
    sum_cos_int hn (a := i + j + 1) (not_dvd_small (by omega) (by rw [abs_of_nonneg (by omega)]; omega))]
  by_cases h : i = j
  · subst h
    rw [if_pos rfl, sum_cos_int' hn (by simp),
      show ((-1 : ℝ) ^ ((i : ℤ) + i + 1)) = -1 from Odd.neg_one_zpow (by rw [Int.odd_iff]; omega), ← mul_pow]
    norm_num; ring
  · rw [if_neg h, sum_cos_int hn (not_dvd_small (by omega) (by rw [abs_lt]; omega))]
    have h1 := neg_one_zpow_add_odd (i - j) (i + j + 1) (by omega)
    have h2 : ((-1 : ℝ) ^ i * (-1) ^ j) = (-1) ^ ((i : ℤ) - j) := by
      rw [← pow_add, ← zpow_natCast]
      exact neg_one_zpow_eq _ _ (by push_cast; omega)
    rw [h2]; linarith

theorem dstIII_dstII (n : ℕ) (x : ℕ → ℝ) (j : ℕ) (hj : j < n) :
    dstIII n (dstII n x) j = n / 2 * x j := by
  have hn : 0 < n := by omega
  unfold dstIII
  have e0 : (-1) ^ j * dstII n x (n - 1) / 2 = ∑ i ∈ range n, x i * ((-1) ^ i * (-1) ^ j / 2) := by
    unfold dstII
    rw [mul_sum, sum_div]
    refine sum_congr rfl fun i _ => ?_
    have := sin_last hn i
    rw [show π * (i + 1 / 2) * (((n - 1 : ℕ) : ℝ) + 1) / n = π * n * (i + 1 / 2) / n by
      rw [Nat.cast_sub (by omega)]; push_cast; ring, this]
    ring
  have e1 : ∑ k ∈ range (n - 1), dstII n x k * sin (π * (k + 1) * (j + 1 / 2) / n) =
      ∑ i ∈ range n, x i * ∑ k ∈ Ico 1 n, sin (π * (i + 1 / 2) * k / n) * sin (π * k * (j + 1 / 2) / n) := by
    unfold dstII
    simp only [sum_mul, mul_sum, sum_Ico_eq_sum_range]
    rw [sum_comm]
    exact sum_congr rfl fun i _ => sum_congr rfl fun k _ => by push_cast; rw [add_comm (1 : ℝ)]; ring
  rw [e0, e1, ← sum_add_distrib]
  have : ∀ i ∈ range n, x i * ((-1) ^ i * (-1) ^ j / 2) + x i * ∑ k ∈ Ico 1 n,
      sin (π * (i + 1 / 2) * k / n) * sin (π * k * (j + 1 / 2) / n) = if i = j then n / 2 * x i else 0 := by
    intro i hi
    rw [← mul_add, ker23s hn i j (mem_range.1 hi) hj]
    split <;> ring
  rw [sum_congr rfl this, sum_ite_eq' (range n) j, if_pos (mem_range.2 hj)]

end Kofft.Spec
