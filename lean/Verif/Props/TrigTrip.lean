import Verif.Props.RoundingTrig
/-
C113: cosine, sine and Hartley transforms there and back in rounded arithmetic.
-/
namespace Kofft.Props
open Spec Finset

/-- A transform given by coefficients of at most `κ`. -/
def Moderate (κ : ℝ) (f : ℕ → (ℕ → ℝ) → ℕ → ℝ) (n : ℕ) : Prop :=
  ∀ (x y : ℕ → ℝ) (k : ℕ), k < n → |f n x k - f n y k| ≤ κ * ∑ i ∈ range n, |x i - y i|

theorem moderate_sum {κ : ℝ} {n : ℕ} (c : ℕ → ℕ → ℝ) (hc : ∀ i k, |c i k| ≤ κ) :
    Moderate κ (fun n x k => ∑ i ∈ range n, x i * c i k) n := by
  intro x y k _
  simp only []
  rw [← sum_sub_distrib, mul_sum]
  refine (abs_sum_le_sum_abs _ _).trans (sum_le_sum fun i _ => ?_)
  rw [← sub_mul, abs_mul, mul_comm]
  exact mul_le_mul_of_nonneg_right (hc i k) (abs_nonneg _)

theorem dctII_moderate (n : ℕ) : Moderate 1 dctII n := fun x y k hk =>
  moderate_sum (n := n) (fun i k => Real.cos (Real.pi * (i + 1 / 2) * k / n)) (fun _ _ => Real.abs_cos_le_one _) x y k hk

theorem dctIV_moderate (n : ℕ) : Moderate 1 dctIV n := fun x y k hk =>
  moderate_sum (n := n) (fun i k => Real.cos (Real.pi * (i + 1 / 2) * (k + 1 / 2) / n)) (fun _ _ => Real.abs_cos_le_one _) x y k hk

theorem dstI_moderate (n : ℕ) : Moderate 1 dstI n := fun x y k hk =>
  moderate_sum (n := n) (fun i k => Real.sin (Real.pi * (i + 1) * (k + 1) / (n + 1))) (fun _ _ => Real.abs_sin_le_one _) x y k hk

theorem dstIV_moderate (n : ℕ) : Moderate 1 dstIV n := fun x y k hk =>
  moderate_sum (n := n) (fun i k => Real.sin (Real.pi * (i + 1 / 2) * (k + 1 / 2) / n)) (fun _ _ => Real.abs_sin_le_one _) x y k hk

theorem hartley_moderate (n : ℕ) : Moderate 2 hartley n := fun x y k hk =>
  moderate_sum (n := n) (fun i k => Real.cos (2 * Real.pi * i * k / n) + Real.sin (2 * Real.pi * i * k / n))
    (fun i k => (abs_add_le _ _).trans (by linarith [Real.abs_cos_le_one (2 * Real.pi * i * k / n), Real.abs_sin_le_one (2 * Real.pi * i * k / n)])) x y k hk

theorem dctIII_moderate (n : ℕ) : Moderate 1 dctIII n := by
  intro x y k hk
  unfold dctIII
  rw [one_mul, sum_range_eq_add_Ico _ (by omega), show ∀ a b c d : ℝ, a / 2 + b - (c / 2 + d) = (a - c) / 2 + (b - d) by intros; ring, ← sum_sub_distrib]
  refine (abs_add_le _ _).trans (add_le_add ?_ ((abs_sum_le_sum_abs _ _).trans (sum_le_sum fun i _ => ?_)))
  · rw [abs_div, abs_of_pos (show (0 : ℝ) < 2 by norm_num)]; linarith [abs_nonneg (x 0 - y 0)]
  · rw [← sub_mul, abs_mul]
    exact mul_le_of_le_one_right (abs_nonneg _) (Real.abs_cos_le_one _)

theorem dctI_moderate (n : ℕ) (hn : 2 ≤ n) : Moderate 2 dctI n := by
  intro x y k hk
  unfold dctI
  obtain ⟨m, rfl⟩ : ∃ m, n = m + 2 := ⟨n - 2, by omega⟩
  rw [show m + 2 - 1 = m + 1 by omega, sum_range_succ, sum_range_eq_add_Ico _ (by omega),
    show ∀ a b c d e f g : ℝ, a + g * b + 2 * c - (d + g * e + 2 * f) = (a - d) + g * (b - e) + 2 * (c - f) by intros; ring, ← sum_sub_distrib]
  have h3 : |∑ i ∈ Ico 1 (m + 1), (x i * Real.cos (Real.pi * i * k / (((m + 2 : ℕ) : ℝ) - 1)) - y i * Real.cos (Real.pi * i * k / (((m + 2 : ℕ) : ℝ) - 1)))| ≤
      ∑ i ∈ Ico 1 (m + 1), |x i - y i| := by
    refine (abs_sum_le_sum_abs _ _).trans (sum_le_sum fun i _ => ?_)
    rw [← sub_mul, abs_mul]
    exact mul_le_of_le_one_right (abs_nonneg _) (Real.abs_cos_le_one _)
  refine (abs_add_le _ _).trans ?_
  have h1 := abs_add_le (x 0 - y 0) ((-1) ^ k * (x (m + 1) - y (m + 1)))
  rw [abs_mul, abs_pow, abs_neg, abs_one, one_pow, one_mul] at h1
  rw [abs_mul, abs_of_pos (show (0 : ℝ) < 2 by norm_num)]
  linarith [abs_nonneg (x 0 - y 0), abs_nonneg (x (m + 1) - y (m + 1))]

/-- two transforms, each with its error, against a multiple of the data -/
theorem trip_error {f h : ℕ → (ℕ → ℝ) → ℕ → ℝ} {c g κ μ : ℝ} {x y z : List ℝ} (hg : 1 ≤ g) (hκ : 0 ≤ κ) (hμ : 0 ≤ μ)
    (hfh : ∀ j, j < x.length → h x.length (f x.length (fun t => x.getD t 0)) j = c * x.getD j 0)
    (hf0 : ∀ k < x.length, |f x.length (fun t => x.getD t 0) k| ≤ κ * ∑ i ∈ range x.length, |x.getD i 0|)
    (mh : Moderate μ h x.length)
    (h1 : ComputesWithin ((g - 1) * (κ * ∑ i ∈ range x.length, |x.getD i 0|)) f x y)
    (h2 : ComputesWithin ((g - 1) * (μ * ∑ i ∈ range y.length, |y.getD i 0|)) h y z) :
    z.length = x.length ∧ ∀ k < x.length,
      |z.getD k 0 - c * x.getD k 0| ≤ (g ^ 2 - 1) * (κ * μ * x.length * ∑ i ∈ range x.length, |x.getD i 0|) := by
  obtain ⟨l1, e1⟩ := h1
  obtain ⟨l2, e2⟩ := h2
  rw [l1] at l2 e2
  refine ⟨l2, fun k hk => ?_⟩
  set n := x.length with hn
  set S := ∑ i ∈ range n, |x.getD i 0| with hS
  have hS0 : 0 ≤ S := sum_nonneg fun _ _ => abs_nonneg _
  have b1 : ∑ i ∈ range n, |y.getD i 0| ≤ n * (g * (κ * S)) := by
    have : ∀ i ∈ range n, |y.getD i 0| ≤ g * (κ * S) := fun i hi => by
      have h3 := e1 i (mem_range.1 hi)
      have h4 := hf0 i (mem_range.1 hi)
      have := abs_sub_abs_le_abs_sub (y.getD i 0) (f n (fun t => x.getD t 0) i)
      linarith
    have := sum_le_card_nsmul _ _ _ this
    rwa [card_range, nsmul_eq_mul] at this
  have b2 : ∑ i ∈ range n, |y.getD i 0 - f n (fun t => x.getD t 0) i| ≤ n * ((g - 1) * (κ * S)) := by
    have := sum_le_card_nsmul (range n) _ _ (fun i hi => e1 i (mem_range.1 hi))
    rwa [card_range, nsmul_eq_mul] at this
  have c1 := e2 k hk
  have c2 := mh (fun t => y.getD t 0) (f n fun t => x.getD t 0) k hk
  rw [hfh k hk] at c2
  have := abs_sub_le (z.getD k 0) (h n (fun t => y.getD t 0) k) (c * x.getD k 0)
  have d1 := mul_le_mul_of_nonneg_left (mul_le_mul_of_nonneg_left b1 hμ) (show 0 ≤ g - 1 by linarith)
  have d2 := mul_le_mul_of_nonneg_left b2 hμ
  have d3 : (g ^ 2 - 1) * (κ * μ * n * S) = (g - 1) * (μ * (n * (g * (κ * S)))) + μ * (n * ((g - 1) * (κ * S))) := by ring
  linarith

theorem moderate_size {κ : ℝ} {f : ℕ → (ℕ → ℝ) → ℕ → ℝ} {n : ℕ} (m : Moderate κ f n) (h0 : ∀ k < n, f n (fun _ => 0) k = 0) (x : ℕ → ℝ) :
    ∀ k < n, |f n x k| ≤ κ * ∑ i ∈ range n, |x i| := by
  intro k hk
  have := m x (fun _ => 0) k hk
  simpa [h0 k hk] using this

theorem directGrowth_one {u v t : ℝ} (hu : 0 ≤ u) (hu1 : u < 1) (hv0 : 0 ≤ v) (hv : v < 1 / 2) (ht : 0 ≤ t) (n : ℕ) : 1 ≤ directGrowth u v t n := by
  have ha : 1 ≤ angleGrowth u v := by
    unfold angleGrowth
    rw [one_le_div (mul_pos (by linarith) (by linarith))]
    have h1 : 1 ≤ (1 + u) ^ 6 := one_le_pow₀ (by linarith)
    have h2 : 1 ≤ (1 + v) ^ 2 := one_le_pow₀ (by linarith)
    nlinarith
  unfold directGrowth
  have h1 : 1 ≤ (1 + u) ^ (n + 2) := one_le_pow₀ (by linarith)
  have h2 : 0 ≤ (angleGrowth u v - 1) * (2 * Real.pi * n) := mul_nonneg (by linarith) (by positivity)
  nlinarith

section trips
variable [F : Flt ℝ] {u v t : ℝ} (hF : Rounding F u v t) (hu : u < 1) (hv : v < 1 / 2) (x : List ℝ)
include hF hu hv

/-- C113a. `dct3` after `dct2`, and `dct2` after `dct3`, return `n/2` times every sample within `(g² - 1) n Σ|x|`. -/
theorem dct2_dct3_trip : (∃ y z, dct2 x = .ok y ∧ dct3 y = .ok z ∧ z.length = x.length ∧ ∀ k < x.length, |z.getD k 0 - x.length / 2 * x.getD k 0| ≤
      (directGrowth u v t x.length ^ 2 - 1) * (x.length * ∑ i ∈ range x.length, |x.getD i 0|)) ∧
    ∃ y z, dct3 x = .ok y ∧ dct2 y = .ok z ∧ z.length = x.length ∧ ∀ k < x.length, |z.getD k 0 - x.length / 2 * x.getD k 0| ≤
      (directGrowth u v t x.length ^ 2 - 1) * (x.length * ∑ i ∈ range x.length, |x.getD i 0|) := by
  have hg := directGrowth_one hF.u_nonneg hu hF.v_nonneg hv hF.t_nonneg x.length
  constructor
  · obtain ⟨y, e1, h1⟩ := dct2_error hF hu hv x
    obtain ⟨z, e2, h2⟩ := dct3_error hF hu hv y
    have := trip_error (κ := 1) (μ := 1) hg zero_le_one zero_le_one (dctIII_dctII x.length _) (moderate_size (dctII_moderate _) (fun k _ => by simp [dctII]) _)
      (dctIII_moderate _) (by rwa [one_mul]) (by rw [one_mul]; rwa [h1.1] at h2 ⊢)
    exact ⟨y, z, e1, e2, this.1, fun k hk => by have := this.2 k hk; rwa [one_mul, one_mul] at this⟩
  · obtain ⟨y, e1, h1⟩ := dct3_error hF hu hv x
    obtain ⟨z, e2, h2⟩ := dct2_error hF hu hv y
    have := trip_error (κ := 1) (μ := 1) hg zero_le_one zero_le_one (dctII_dctIII x.length _) (moderate_size (dctIII_moderate _) (fun k _ => by simp [dctIII]) _)
      (dctII_moderate _) (by rwa [one_mul]) (by rw [one_mul]; rwa [h1.1] at h2 ⊢)
    exact ⟨y, z, e1, e2, this.1, fun k hk => by have := this.2 k hk; rwa [one_mul, one_mul] at this⟩

/-- C113b. `dct4` twice. -/
theorem dct4_trip : ∃ y z, dct4 x = .ok y ∧ dct4 y = .ok z ∧ z.length = x.length ∧ ∀ k < x.length, |z.getD k 0 - x.length / 2 * x.getD k 0| ≤
      (directGrowth u v t x.length ^ 2 - 1) * (x.length * ∑ i ∈ range x.length, |x.getD i 0|) := by
  have hg := directGrowth_one hF.u_nonneg hu hF.v_nonneg hv hF.t_nonneg x.length
  obtain ⟨y, e1, h1⟩ := dct4_error hF hu hv x
  obtain ⟨z, e2, h2⟩ := dct4_error hF hu hv y
  have := trip_error (κ := 1) (μ := 1) hg zero_le_one zero_le_one (dctIV_dctIV x.length _) (moderate_size (dctIV_moderate _) (fun k _ => by simp [dctIV]) _)
    (dctIV_moderate _) (by rwa [one_mul]) (by rw [one_mul]; rwa [h1.1] at h2 ⊢)
  exact ⟨y, z, e1, e2, this.1, fun k hk => by have := this.2 k hk; rwa [one_mul, one_mul] at this⟩

/-- C113c. `dct1` twice. -/
theorem dct1_trip (hx : 2 ≤ x.length) : ∃ y z, dct1 x = .ok y ∧ dct1 y = .ok z ∧ z.length = x.length ∧
    ∀ k < x.length, |z.getD k 0 - 2 * (x.length - 1) * x.getD k 0| ≤
      (directGrowth u v t x.length ^ 2 - 1) * (4 * x.length * ∑ i ∈ range x.length, |x.getD i 0|) := by
  have hg := directGrowth_one hF.u_nonneg hu hF.v_nonneg hv hF.t_nonneg x.length
  obtain ⟨y, e1, h1⟩ := dct1_error hF hu hv x hx
  obtain ⟨z, e2, h2⟩ := dct1_error hF hu hv y (by rw [h1.1]; exact hx)
  have := trip_error (κ := 2) (μ := 2) hg zero_le_two zero_le_two (dctI_dctI x.length hx _) (moderate_size (dctI_moderate _ hx) (fun k _ => by simp [dctI]) _)
    (dctI_moderate _ hx) h1 (by rwa [h1.1] at h2 ⊢)
  exact ⟨y, z, e1, e2, this.1, fun k hk => (this.2 k hk).trans (le_of_eq (by ring))⟩

/-- C113d. `dst1` twice. -/
theorem dst1_trip : ∃ y z, dst1 x = .ok y ∧ dst1 y = .ok z ∧ z.length = x.length ∧ ∀ k < x.length, |z.getD k 0 - (x.length + 1) / 2 * x.getD k 0| ≤
      (directGrowth u v t x.length ^ 2 - 1) * (x.length * ∑ i ∈ range x.length, |x.getD i 0|) := by
  have hg := directGrowth_one hF.u_nonneg hu hF.v_nonneg hv hF.t_nonneg x.length
  obtain ⟨y, e1, h1⟩ := dst1_error hF hu hv x
  obtain ⟨z, e2, h2⟩ := dst1_error hF hu hv y
  have := trip_error (κ := 1) (μ := 1) hg zero_le_one zero_le_one (dstI_dstI x.length _) (moderate_size (dstI_moderate _) (fun k _ => by simp [dstI]) _)
    (dstI_moderate _) (by rwa [one_mul]) (by rw [one_mul]; rwa [h1.1] at h2 ⊢)
  exact ⟨y, z, e1, e2, this.1, fun k hk => by have := this.2 k hk; rwa [one_mul, one_mul] at this⟩

/-- C113e. `dst4` twice. -/
theorem dst4_trip : ∃ y z, dst4 x = .ok y ∧ dst4 y = .ok z ∧ z.length = x.length ∧ ∀ k < x.length, |z.getD k 0 - x.length / 2 * x.getD k 0| ≤
      (directGrowth u v t x.length ^ 2 - 1) * (x.length * ∑ i ∈ range x.length, |x.getD i 0|) := by
  have hg := directGrowth_one hF.u_nonneg hu hF.v_nonneg hv hF.t_nonneg x.length
  obtain ⟨y, e1, h1⟩ := dst4_error hF hu hv x
  obtain ⟨z, e2, h2⟩ := dst4_error hF hu hv y
  have := trip_error (κ := 1) (μ := 1) hg zero_le_one zero_le_one (dstIV_dstIV x.length _) (moderate_size (dstIV_moderate _) (fun k _ => by simp [dstIV]) _)
    (dstIV_moderate _) (by rwa [one_mul]) (by rw [one_mul]; rwa [h1.1] at h2 ⊢)
  exact ⟨y, z, e1, e2, this.1, fun k hk => by have := this.2 k hk; rwa [one_mul, one_mul] at this⟩

/-- C113f. `dht` twice. -/
theorem dht_trip : ∃ y z, dht x = .ok y ∧ dht y = .ok z ∧ z.length = x.length ∧ ∀ k < x.length, |z.getD k 0 - x.length * x.getD k 0| ≤
      (directGrowth u v t x.length ^ 2 - 1) * (4 * x.length * ∑ i ∈ range x.length, |x.getD i 0|) := by
  have hg := directGrowth_one hF.u_nonneg hu hF.v_nonneg hv hF.t_nonneg x.length
  obtain ⟨y, e1, h1⟩ := dht_error hF hu hv x
  obtain ⟨z, e2, h2⟩ := dht_error hF hu hv y
  have := trip_error (κ := 2) (μ := 2) hg zero_le_two zero_le_two (hartley_hartley x.length _) (moderate_size (hartley_moderate _) (fun k _ => by simp [hartley]) _)
    (hartley_moderate _) h1 (by rwa [h1.1] at h2 ⊢)
  exact ⟨y, z, e1, e2, this.1, fun k hk => (this.2 k hk).trans (le_of_eq (by ring))⟩

end trips

/-- The bound to first order: with all operations accurate to `ε` and `n ε ≤ 1/1000`, dividing by `n/2` returns every sample within
`420 n ε` times the sum of the sizes of the samples. -/
theorem tripGrowth_linear {ε : ℝ} {n : ℕ} (hn : 0 < n) (hε : 0 ≤ ε) (hs : n * ε ≤ 1 / 1000) :
    directGrowth ε ε ε n ^ 2 - 1 ≤ 210 * (n * ε) := by
  have h1 := directGrowth_linear hn hε hs
  have h0 : 0 ≤ (n : ℝ) * ε := by positivity
  have hn' : (1 : ℝ) ≤ n := by exact_mod_cast hn
  have he : ε ≤ 1 / 1000 := le_trans (by nlinarith) hs
  have hg := directGrowth_one hε (by linarith) hε (by linarith) hε n
  nlinarith

example (x : List ℝ) : letI := rndFlt 24 24 true true
    ∃ y z, dct4 x = .ok y ∧ dct4 y = .ok z ∧ z.length = x.length ∧ ∀ k < x.length, |z.getD k 0 - x.length / 2 * x.getD k 0| ≤
      (directGrowth (1 / 2 ^ 24) (1 / 2 ^ 24) (1 / 2 ^ 24) x.length ^ 2 - 1) * (x.length * ∑ i ∈ range x.length, |x.getD i 0|) :=
  letI := rndFlt 24 24 true true
  dct4_trip (rndFlt_rounding 24 24 (by norm_num) (by norm_num) true true) (by norm_num) (by norm_num) x

end Kofft.Props
