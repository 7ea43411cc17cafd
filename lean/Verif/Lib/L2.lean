import Verif.Lib.Root
import Verif.Spec.Norm
import Mathlib.Analysis.InnerProductSpace.PiL2
/-
Euclidean norm of the first `n` entries of a complex sequence, and its behaviour under the levels of a radix-2
transform.
-/
namespace Kofft
open Spec Complex Finset

theorem l2_nonneg (n : ℕ) (v : ℕ → ℂ) : 0 ≤ l2 n v := Real.sqrt_nonneg _

theorem l2_sq (n : ℕ) (v : ℕ → ℂ) : l2 n v ^ 2 = ∑ i ∈ range n, ‖v i‖ ^ 2 :=
  Real.sq_sqrt (sum_nonneg fun _ _ => by positivity)

theorem l2_congr {n : ℕ} {v w : ℕ → ℂ} (h : ∀ i, i < n → v i = w i) : l2 n v = l2 n w := by
  unfold l2
  rw [sum_congr rfl fun i hi => by rw [h i (mem_range.mp hi)]]

theorem l2_le {n : ℕ} {v : ℕ → ℂ} {c : ℝ} (hc : 0 ≤ c) (h : ∑ i ∈ range n, ‖v i‖ ^ 2 ≤ c ^ 2) : l2 n v ≤ c := by
  unfold l2
  rw [Real.sqrt_le_left hc]; exact h

theorem l2_eq_norm (n : ℕ) (v : ℕ → ℂ) : l2 n v = ‖(WithLp.toLp 2 fun i : Fin n => v i : EuclideanSpace ℂ (Fin n))‖ := by
  rw [EuclideanSpace.norm_eq, l2, Finset.sum_range]

theorem l2_add (n : ℕ) (v w : ℕ → ℂ) : l2 n (fun i => v i + w i) ≤ l2 n v + l2 n w := by
  rw [l2_eq_norm, l2_eq_norm, l2_eq_norm]
  exact norm_add_le (WithLp.toLp 2 fun i : Fin n => v i : EuclideanSpace ℂ (Fin n)) (WithLp.toLp 2 fun i : Fin n => w i)

theorem l2_mul (n : ℕ) (c : ℂ) (v : ℕ → ℂ) : l2 n (fun i => c * v i) = ‖c‖ * l2 n v := by
  unfold l2
  simp only [norm_mul, mul_pow]
  rw [← mul_sum, Real.sqrt_mul (by positivity), Real.sqrt_sq (norm_nonneg _)]

theorem l2_scale_bound {n : ℕ} {v w : ℕ → ℂ} {c : ℝ} (hc : 0 ≤ c) (h : ∀ i, i < n → ‖v i‖ ≤ c * ‖w i‖) :
    l2 n v ≤ c * l2 n w := by
  apply l2_le (mul_nonneg hc (l2_nonneg _ _))
  rw [mul_pow, l2_sq, mul_sum]
  apply sum_le_sum
  intro i hi
  rw [← mul_pow]
  exact pow_le_pow_left₀ (norm_nonneg _) (h i (mem_range.mp hi)) 2

theorem l2_conj (n : ℕ) (v : ℕ → ℂ) : l2 n (fun i => (starRingEnd ℂ) (v i)) = l2 n v := by
  unfold l2; simp

theorem coord_le_l2 {n : ℕ} (v : ℕ → ℂ) {i : ℕ} (hi : i < n) : ‖v i‖ ≤ l2 n v := by
  unfold l2
  apply Real.le_sqrt_of_sq_le
  exact single_le_sum (f := fun i => ‖v i‖ ^ 2) (fun _ _ => by positivity) (mem_range.mpr hi)

theorem sum_range_mul {M : Type*} [AddCommMonoid M] (m n : ℕ) (f : ℕ → M) :
    ∑ i ∈ range (m * n), f i = ∑ k ∈ range m, ∑ j ∈ range n, f (k * n + j) := by
  induction m with
  | zero => simp
  | succ m ih => rw [Nat.succ_mul, sum_range_add, ih, sum_range_succ]

/-- The output positions of a level. -/
theorem sum_out (n1 n2 : ℕ) (f : ℕ → ℝ) : ∑ i ∈ range (2 * n1 * n2), f i =
    ∑ k ∈ range n1, ∑ j ∈ range n2, (f (k * n2 + j) + f ((k + n1) * n2 + j)) := by
  rw [sum_range_mul, two_mul, sum_range_add]
  simp only [sum_add_distrib]
  congr 1
  exact sum_congr rfl fun k _ => by rw [add_comm]

/-- The input positions of a level. -/
theorem sum_in (n1 n2 : ℕ) (f : ℕ → ℝ) : ∑ i ∈ range (2 * n1 * n2), f i =
    ∑ k ∈ range n1, ∑ j ∈ range n2, (f (2 * k * n2 + j) + f (2 * k * n2 + n2 + j)) := by
  rw [show 2 * n1 * n2 = n1 * (n2 + n2) by ring, sum_range_mul]
  apply sum_congr rfl
  intro k _
  rw [sum_range_add, ← sum_add_distrib]
  apply sum_congr rfl
  intro j _
  rw [show k * (n2 + n2) + j = 2 * k * n2 + j by ring, show k * (n2 + n2) + (n2 + j) = 2 * k * n2 + n2 + j by ring]

/-- One exact level: butterflies of `v (2k·n2 + j)` and `v (2k·n2 + n2 + j)`. -/
noncomputable def cstage (n1 n2 : ℕ) (tw v : ℕ → ℂ) (i : ℕ) : ℂ :=
  if i / n2 < n1 then v (2 * (i / n2) * n2 + i % n2) + v (2 * (i / n2) * n2 + n2 + i % n2) * tw (i / n2 * n2)
  else v (2 * (i / n2 - n1) * n2 + i % n2) - v (2 * (i / n2 - n1) * n2 + n2 + i % n2) * tw ((i / n2 - n1) * n2)

theorem idx {n2 j : ℕ} (k : ℕ) (hj : j < n2) : (k * n2 + j) / n2 = k ∧ (k * n2 + j) % n2 = j := by
  have h : 0 < n2 := by omega
  constructor
  · rw [mul_comm, Nat.mul_add_div h, Nat.div_eq_of_lt hj, add_zero]
  · rw [mul_comm, Nat.mul_add_mod, Nat.mod_eq_of_lt hj]

theorem cstage_lo {n1 n2 : ℕ} {tw v : ℕ → ℂ} {k j : ℕ} (hk : k < n1) (hj : j < n2) :
    cstage n1 n2 tw v (k * n2 + j) = v (2 * k * n2 + j) + v (2 * k * n2 + n2 + j) * tw (k * n2) := by
  obtain ⟨h1, h2⟩ := idx k hj
  unfold cstage
  rw [h1, h2, if_pos hk]

theorem cstage_hi {n1 n2 : ℕ} {tw v : ℕ → ℂ} {k j : ℕ} (hj : j < n2) :
    cstage n1 n2 tw v ((k + n1) * n2 + j) = v (2 * k * n2 + j) - v (2 * k * n2 + n2 + j) * tw (k * n2) := by
  obtain ⟨h1, h2⟩ := idx (k + n1) hj
  unfold cstage
  rw [h1, h2, if_neg (by omega), Nat.add_sub_cancel]

theorem cstage_sub (n1 n2 : ℕ) (tw v w : ℕ → ℂ) (i : ℕ) :
    cstage n1 n2 tw (fun i => v i - w i) i = cstage n1 n2 tw v i - cstage n1 n2 tw w i := by
  unfold cstage
  split <;> ring

theorem parallelogram (a b : ℂ) : ‖a + b‖ ^ 2 + ‖a - b‖ ^ 2 = 2 * (‖a‖ ^ 2 + ‖b‖ ^ 2) := by
  have := parallelogram_law_with_norm ℝ a b
  nlinarith [this]

/-- An exact level doubles the energy. -/
theorem cstage_l2 (n1 n2 : ℕ) (tw v : ℕ → ℂ) (htw : ∀ k, k < n1 → ‖tw (k * n2)‖ = 1) :
    l2 (2 * n1 * n2) (cstage n1 n2 tw v) = Real.sqrt 2 * l2 (2 * n1 * n2) v := by
  unfold l2
  rw [← Real.sqrt_mul (by norm_num), sum_out, sum_in, mul_sum]
  congr 1
  apply sum_congr rfl
  intro k hk
  rw [mul_sum]
  apply sum_congr rfl
  intro j hj
  rw [mem_range] at hk hj
  rw [cstage_lo hk hj, cstage_hi hj, parallelogram, norm_mul, htw k hk, mul_one]

/-- Error of one butterfly: `δ` bounds the relative error of the product, `u` that of the additions. -/
theorem butterfly_err {a b c d p ω : ℂ} {u δ : ℝ} (hu : 0 ≤ u) (hδ : 0 ≤ δ) (hω : ‖ω‖ = 1)
    (hp : ‖p - b * ω‖ ≤ δ * ‖b‖) (hc : ‖c - (a + p)‖ ≤ u * ‖a + p‖) (hd : ‖d - (a - p)‖ ≤ u * ‖a - p‖) :
    ‖c - (a + b * ω)‖ ^ 2 + ‖d - (a - b * ω)‖ ^ 2 ≤ 2 * ((1 + u) * (1 + δ) - 1) ^ 2 * (‖a‖ ^ 2 + ‖b‖ ^ 2) := by
  have hpn : ‖p‖ ≤ (1 + δ) * ‖b‖ := by
    have : ‖p‖ ≤ ‖p - b * ω‖ + ‖b * ω‖ := by simpa using norm_add_le (p - b * ω) (b * ω)
    rw [norm_mul, hω, mul_one] at this
    linarith
  have h1 : ‖c - (a + b * ω)‖ ≤ u * ‖a + p‖ + δ * ‖b‖ := by
    have := norm_add_le (c - (a + p)) (p - b * ω)
    rw [show c - (a + p) + (p - b * ω) = c - (a + b * ω) by ring] at this
    linarith
  have h2 : ‖d - (a - b * ω)‖ ≤ u * ‖a - p‖ + δ * ‖b‖ := by
    have := norm_sub_le (d - (a - p)) (p - b * ω)
    rw [show d - (a - p) - (p - b * ω) = d - (a - b * ω) by ring] at this
    linarith
  have hpar := parallelogram a p
  set P := ‖a + p‖
  set Q := ‖a - p‖
  set β := ‖b‖
  set R := Real.sqrt (‖a‖ ^ 2 + β ^ 2) with hR
  have hR2 : R ^ 2 = ‖a‖ ^ 2 + β ^ 2 := Real.sq_sqrt (by positivity)
  have hR0 : 0 ≤ R := Real.sqrt_nonneg _
  have hβ0 : 0 ≤ β := norm_nonneg _
  have hβR : β ≤ R := Real.le_sqrt_of_sq_le (by nlinarith [sq_nonneg ‖a‖])
  have hP0 : 0 ≤ P := norm_nonneg _
  have hQ0 : 0 ≤ Q := norm_nonneg _
  have hPQ : P ^ 2 + Q ^ 2 ≤ 2 * ((1 + δ) * R) ^ 2 := by
    rw [hpar, mul_pow, hR2]
    have e1 : ‖p‖ ^ 2 ≤ ((1 + δ) * β) ^ 2 := pow_le_pow_left₀ (norm_nonneg _) hpn 2
    have e2 : ‖a‖ ^ 2 ≤ (1 + δ) ^ 2 * ‖a‖ ^ 2 := by
      have : 1 ≤ (1 + δ) ^ 2 := one_le_pow₀ (by linarith)
      nlinarith [sq_nonneg ‖a‖]
    rw [mul_pow] at e1
    linarith
  have hsum : P + Q ≤ 2 * ((1 + δ) * R) := by
    apply le_of_sq_le_sq _ (by positivity)
    nlinarith [sq_nonneg (P - Q)]
  have e1 : ‖c - (a + b * ω)‖ ^ 2 ≤ (u * P + δ * β) ^ 2 := pow_le_pow_left₀ (norm_nonneg _) h1 2
  have e2 : ‖d - (a - b * ω)‖ ^ 2 ≤ (u * Q + δ * β) ^ 2 := pow_le_pow_left₀ (norm_nonneg _) h2 2
  have e3 : (u * P + δ * β) ^ 2 + (u * Q + δ * β) ^ 2 =
      u ^ 2 * (P ^ 2 + Q ^ 2) + 2 * (u * δ) * (β * (P + Q)) + 2 * δ ^ 2 * β ^ 2 := by ring
  have e4 : β * (P + Q) ≤ R * (2 * ((1 + δ) * R)) := mul_le_mul hβR hsum (by positivity) hR0
  have e5 : β ^ 2 ≤ R ^ 2 := pow_le_pow_left₀ hβ0 hβR 2
  have e6 : u ^ 2 * (P ^ 2 + Q ^ 2) ≤ u ^ 2 * (2 * ((1 + δ) * R) ^ 2) := mul_le_mul_of_nonneg_left hPQ (by positivity)
  have e7 : 2 * (u * δ) * (β * (P + Q)) ≤ 2 * (u * δ) * (R * (2 * ((1 + δ) * R))) :=
    mul_le_mul_of_nonneg_left e4 (by positivity)
  have e8 : 2 * δ ^ 2 * β ^ 2 ≤ 2 * δ ^ 2 * R ^ 2 := mul_le_mul_of_nonneg_left e5 (by positivity)
  rw [← hR2]
  nlinarith

end Kofft
