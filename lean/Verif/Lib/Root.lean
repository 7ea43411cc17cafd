import Verif.Spec.Dft
import Mathlib.Algebra.Field.GeomSum
import Mathlib.Algebra.BigOperators.Intervals
import Mathlib.Algebra.BigOperators.Field
/- Facts about roots of unity and the specification DFT. -/
namespace Kofft.Spec

open Complex Finset

theorem W_zero (n : ℕ) : W n 0 = 1 := by simp [W]

theorem W_add (n a b : ℕ) : W n (a + b) = W n a * W n b := by
  rw [W, W, W, ← exp_add]; congr 1; push_cast; ring

theorem W_mul_pow (n a b : ℕ) : W n (a * b) = W n a ^ b := by
  rw [W, W, ← exp_nat_mul]; congr 1; push_cast; ring

theorem W_scale {c : ℕ} (hc : c ≠ 0) (n a : ℕ) : W (c * n) (c * a) = W n a := by
  unfold W
  congr 2
  push_cast
  have : (c : ℂ) ≠ 0 := by exact_mod_cast hc
  rw [show 2 * (Real.pi : ℂ) * I * (c * a) = c * (2 * Real.pi * I * a) by ring,
    mul_div_mul_left _ _ this]

theorem W_self {n : ℕ} (hn : n ≠ 0) : W n n = 1 := by
  have : (n : ℂ) ≠ 0 := by exact_mod_cast hn
  rw [W, mul_div_assoc, div_self this, mul_one, exp_neg, exp_two_pi_mul_I, inv_one]

theorem W_mul_self {n : ℕ} (hn : n ≠ 0) (k : ℕ) : W n (k * n) = 1 := by
  rw [mul_comm, W_mul_pow, W_self hn, one_pow]

theorem W_mod {n : ℕ} (hn : n ≠ 0) (a : ℕ) : W n (a % n) = W n a := by
  conv_rhs => rw [← Nat.mod_add_div a n]
  rw [W_add, mul_comm n, W_mul_self hn, mul_one]

theorem W_half {m : ℕ} (hm : m ≠ 0) : W (2 * m) m = -1 := by
  have : (m : ℂ) ≠ 0 := by exact_mod_cast hm
  rw [W, show -(2 * (Real.pi : ℂ) * I * m / ((2 * m : ℕ) : ℂ)) = -(Real.pi * I) by
    push_cast; field_simp, exp_neg, exp_pi_mul_I]; norm_num

theorem W_ne_zero (n a : ℕ) : W n a ≠ 0 := exp_ne_zero _

theorem W_conj (n a : ℕ) : (starRingEnd ℂ) (W n a) = (W n a)⁻¹ := by
  rw [W, ← exp_conj, ← exp_neg]
  congr 1
  simp only [map_neg, map_div₀, map_mul, conj_ofReal, conj_I, map_natCast, map_ofNat]
  ring

theorem W_inv (n a : ℕ) : (W n a)⁻¹ = exp (2 * Real.pi * I * a / n) := by
  rw [W, ← exp_neg, neg_neg]

theorem W_one_primitive {n : ℕ} (hn : n ≠ 0) {k : ℕ} (h : W n k = 1) : n ∣ k := by
  rw [W, exp_eq_one_iff] at h
  obtain ⟨z, hz⟩ := h
  have hn' : (n : ℂ) ≠ 0 := by exact_mod_cast hn
  have hpi : (2 * Real.pi * I : ℂ) ≠ 0 := two_pi_I_ne_zero
  have : (k : ℂ) = ((-z * n : ℤ) : ℂ) := by
    push_cast
    have h1 : -(2 * Real.pi * I) * k = z * n * (2 * Real.pi * I) := by
      field_simp at hz
      linear_combination (2 * Real.pi * I) * hz
    apply mul_left_cancel₀ hpi
    linear_combination -h1
  have h2 : (k : ℤ) = -z * n := by exact_mod_cast this
  have : (n : ℤ) ∣ (k : ℤ) := ⟨-z, by rw [h2]; ring⟩
  exact_mod_cast this

/-- Orthogonality. -/
theorem sum_W {n : ℕ} (hn : n ≠ 0) (d : ℕ) :
    ∑ k ∈ range n, W n (d * k) = if n ∣ d then (n : ℂ) else 0 := by
  split
  · rename_i h
    obtain ⟨c, rfl⟩ := h
    rw [sum_congr rfl (g := fun _ => (1 : ℂ))]
    · simp
    · intro k _
      rw [show n * c * k = (c * k) * n by ring, W_mul_self hn]
  · rename_i h
    simp_rw [W_mul_pow]
    have h1 : W n d ≠ 1 := fun e => h (W_one_primitive hn e)
    have := geom_sum_eq h1 n
    rw [this, ← W_mul_pow, W_mul_self hn]
    simp

/-- Splitting a range of even length into even and odd positions. -/
theorem sum_range_even_odd {M : Type*} [AddCommMonoid M] (m : ℕ) (f : ℕ → M) :
    ∑ t ∈ range (2 * m), f t = ∑ t ∈ range m, f (2 * t) + ∑ t ∈ range m, f (2 * t + 1) := by
  induction m with
  | zero => simp
  | succ m ih =>
    rw [show 2 * (m + 1) = 2 * m + 1 + 1 by ring, sum_range_succ, sum_range_succ, ih,
      sum_range_succ, sum_range_succ]
    abel

/-- Decimation in time. -/
theorem dft_double {m : ℕ} (x : ℕ → ℂ) (k : ℕ) :
    dft (2 * m) x k = dft m (fun t => x (2 * t)) k +
      W (2 * m) k * dft m (fun t => x (2 * t + 1)) k := by
  unfold dft
  rw [sum_range_even_odd, mul_sum]
  congr 1
  · apply sum_congr rfl
    intro t _
    rw [show k * (2 * t) = 2 * (k * t) by ring, W_scale (by norm_num)]
  · apply sum_congr rfl
    intro t _
    rw [show k * (2 * t + 1) = 2 * (k * t) + k by ring, W_add, W_scale (by norm_num)]
    ring

theorem dft_periodic {n : ℕ} (hn : n ≠ 0) (x : ℕ → ℂ) (k : ℕ) : dft n x (k + n) = dft n x k := by
  unfold dft
  apply sum_congr rfl
  intro t _
  rw [add_mul, W_add, mul_comm n t, W_mul_self hn, mul_one]

theorem dft_congr {n : ℕ} {x y : ℕ → ℂ} (h : ∀ t, t < n → x t = y t) (k : ℕ) :
    dft n x k = dft n y k :=
  sum_congr rfl fun t ht => by rw [h t (mem_range.mp ht)]

theorem idft_eq (n : ℕ) (X : ℕ → ℂ) (t : ℕ) :
    idft n X t = (∑ k ∈ range n, X k * (W n (k * t))⁻¹) / n := by
  unfold idft
  congr 1
  apply sum_congr rfl
  intro k _
  rw [W_inv]

theorem idft_congr {n : ℕ} {x y : ℕ → ℂ} (h : ∀ t, t < n → x t = y t) (k : ℕ) :
    idft n x k = idft n y k := by
  unfold idft
  congr 1
  exact sum_congr rfl fun t ht => by rw [h t (mem_range.mp ht)]

/-- `idft = conj ∘ dft ∘ conj / n`. -/
theorem idft_conj (n : ℕ) (X : ℕ → ℂ) (t : ℕ) :
    idft n X t = (starRingEnd ℂ) (dft n (fun k => (starRingEnd ℂ) (X k)) t) / n := by
  rw [idft_eq, dft, map_sum]
  congr 1
  apply sum_congr rfl
  intro k _
  rw [map_mul, conj_conj, W_conj, mul_comm t k]

/-- Column orthogonality in the form used by the inversion theorems. -/
theorem sum_W_inv {n : ℕ} {t s : ℕ} (ht : t < n) (hs : s < n) :
    ∑ k ∈ range n, W n (k * t) * (W n (k * s))⁻¹ = if t = s then (n : ℂ) else 0 := by
  have hn : n ≠ 0 := by omega
  have key : ∀ k, W n (k * t) * (W n (k * s))⁻¹ = W n ((t + (n - s)) * k) := by
    intro k
    have h1 : W n (k * s) * W n (k * (n - s)) = 1 := by
      rw [← W_add, ← mul_add, Nat.add_sub_cancel' hs.le, W_mul_self hn]
    rw [show (t + (n - s)) * k = k * t + k * (n - s) by ring, W_add]
    congr 1
    exact (eq_inv_of_mul_eq_one_right h1).symm
  simp_rw [key]
  rw [sum_W hn]
  by_cases h : t = s
  · subst h
    rw [if_pos (by rw [Nat.add_sub_cancel' ht.le]), if_pos rfl]
  · rw [if_neg h, if_neg]
    rintro ⟨c, hc⟩
    have : t + (n - s) = n * c := hc
    rcases Nat.lt_trichotomy c 1 with h1 | h1 | h1
    · have : c = 0 := by omega
      subst this; omega
    · subst h1; omega
    · have : n * 2 ≤ n * c := Nat.mul_le_mul_left _ h1
      omega

/-- The inverse DFT inverts the DFT. -/
theorem idft_dft {n : ℕ} (x : ℕ → ℂ) {s : ℕ} (hs : s < n) : idft n (dft n x) s = x s := by
  have hn : (n : ℂ) ≠ 0 := by exact_mod_cast (by omega : n ≠ 0)
  rw [idft_eq]
  have : ∑ k ∈ range n, dft n x k * (W n (k * s))⁻¹ = x s * n := by
    unfold dft
    simp_rw [sum_mul]
    rw [sum_comm]
    have : ∀ t ∈ range n, ∑ k ∈ range n, x t * W n (k * t) * (W n (k * s))⁻¹ =
        if t = s then x t * n else 0 := by
      intro t ht
      simp_rw [mul_assoc]
      rw [← mul_sum, sum_W_inv (mem_range.mp ht) hs]
      split <;> simp
    rw [sum_congr rfl this, sum_ite_eq' (range n) s]
    simp [hs]
  rw [this, mul_div_assoc, div_self hn, mul_one]

/-- The DFT inverts the inverse DFT. -/
theorem dft_idft {n : ℕ} (X : ℕ → ℂ) {k : ℕ} (hk : k < n) : dft n (idft n X) k = X k := by
  have hn : (n : ℂ) ≠ 0 := by exact_mod_cast (by omega : n ≠ 0)
  have e : dft n (idft n X) k = (∑ j ∈ range n, ∑ t ∈ range n, X j * (W n (t * k) * (W n (t * j))⁻¹)) / n := by
    unfold dft
    simp_rw [idft_eq, div_mul_eq_mul_div]
    rw [← sum_div, sum_comm]
    congr 1
    apply sum_congr rfl
    intro t _
    rw [sum_mul]
    apply sum_congr rfl
    intro j _
    rw [mul_comm k t, mul_comm j t]; ring
  rw [e]
  have : ∀ j ∈ range n, ∑ t ∈ range n, X j * (W n (t * k) * (W n (t * j))⁻¹) =
      if j = k then X j * n else 0 := by
    intro j hj
    rw [← mul_sum, sum_W_inv hk (mem_range.mp hj)]
    by_cases h : k = j
    · simp [h]
    · rw [if_neg h, if_neg (fun e => h e.symm), mul_zero]
  rw [sum_congr rfl this, sum_ite_eq' (range n) k]
  simp only [mem_range, hk, if_true]
  rw [mul_div_assoc, div_self hn, mul_one]

theorem W_mul_mod {n : ℕ} (hn : n ≠ 0) (k a : ℕ) : W n (k * (a % n)) = W n (k * a) := by
  rw [mul_comm k, mul_comm k, W_mul_pow, W_mul_pow, W_mod hn]

/-- Circular convolution theorem. -/
theorem idft_mul {m : ℕ} (a b : ℕ → ℂ) {s : ℕ} (hs : s < m) :
    idft m (fun k => dft m a k * dft m b k) s = ∑ t ∈ range m, a t * b ((s + (m - t)) % m) := by
  have hm : m ≠ 0 := by omega
  have hmC : (m : ℂ) ≠ 0 := by exact_mod_cast hm
  rw [idft_eq]
  have e1 : ∑ k ∈ range m, dft m a k * dft m b k * (W m (k * s))⁻¹ =
      ∑ t ∈ range m, ∑ u ∈ range m, a t * b u * ∑ k ∈ range m,
        W m (k * ((t + u) % m)) * (W m (k * s))⁻¹ := by
    have : ∀ k ∈ range m, dft m a k * dft m b k * (W m (k * s))⁻¹ =
        ∑ t ∈ range m, ∑ u ∈ range m, a t * b u * (W m (k * ((t + u) % m)) * (W m (k * s))⁻¹) := by
      intro k _
      unfold dft
      rw [sum_mul_sum, sum_mul]
      apply sum_congr rfl
      intro t _
      rw [sum_mul]
      apply sum_congr rfl
      intro u _
      rw [W_mul_mod hm, mul_add, W_add]
      ring
    rw [sum_congr rfl this, sum_comm]
    apply sum_congr rfl
    intro t _
    rw [sum_comm]
    apply sum_congr rfl
    intro u _
    rw [mul_sum]
  rw [e1, sum_div]
  apply sum_congr rfl
  intro t ht
  have ht' := mem_range.mp ht
  have e2 : ∀ u ∈ range m, a t * b u * ∑ k ∈ range m, W m (k * ((t + u) % m)) * (W m (k * s))⁻¹ =
      if u = (s + (m - t)) % m then a t * b u * m else 0 := by
    intro u hu
    have hu' := mem_range.mp hu
    rw [sum_W_inv (Nat.mod_lt _ (by omega)) hs]
    have : (t + u) % m = s ↔ u = (s + (m - t)) % m := by
      have h1 : (t + u) % m = if t + u < m then t + u else t + u - m := by
        split
        · exact Nat.mod_eq_of_lt (by assumption)
        · rw [Nat.mod_eq_sub_mod (by omega), Nat.mod_eq_of_lt (by omega)]
      have h2 : (s + (m - t)) % m = if s < t then s + (m - t) else s - t := by
        split
        · exact Nat.mod_eq_of_lt (by omega)
        · rw [Nat.mod_eq_sub_mod (by omega), Nat.mod_eq_of_lt (by omega)]; omega
      rw [h1, h2]
      split <;> split <;> omega
    by_cases h : u = (s + (m - t)) % m
    · rw [if_pos h, if_pos (this.mpr h)]
    · rw [if_neg h, if_neg (fun e => h (this.mp e)), mul_zero]
  rw [sum_congr rfl e2, sum_ite_eq' (range m)]
  rw [if_pos (mem_range.mpr (Nat.mod_lt _ (by omega))), mul_div_assoc, div_self hmC, mul_one]

/-! ### Small sizes -/

theorem W_eq_cos (n j : ℕ) :
    W n j = ⟨Real.cos (-2 * Real.pi * j / n), Real.sin (-2 * Real.pi * j / n)⟩ := by
  rw [W, show (-(2 * (Real.pi : ℂ) * I * j / n)) = ((-2 * Real.pi * j / n : ℝ) : ℂ) * I by
    push_cast; ring]
  apply Complex.ext
  · rw [exp_ofReal_mul_I_re]
  · rw [exp_ofReal_mul_I_im]

theorem W2_1 : W 2 1 = -1 := W_half (m := 1) (by norm_num)

theorem W4_1 : W 4 1 = -I := by
  rw [W_eq_cos, show (-2 * Real.pi * (1 : ℕ) / (4 : ℕ)) = -(Real.pi / 2) by push_cast; ring]
  apply Complex.ext <;> simp

theorem W8_1 : W 8 1 = ⟨Real.sqrt 2 / 2, -(Real.sqrt 2 / 2)⟩ := by
  rw [W_eq_cos, show (-2 * Real.pi * (1 : ℕ) / (8 : ℕ)) = -(Real.pi / 4) by push_cast; ring]
  apply Complex.ext <;> simp

theorem W16_1 : W 16 1 = ⟨Real.cos (Real.pi / 8), -Real.sin (Real.pi / 8)⟩ := by
  rw [W_eq_cos, show (-2 * Real.pi * (1 : ℕ) / (16 : ℕ)) = -(Real.pi / 8) by push_cast; ring]
  apply Complex.ext <;> simp

theorem dft_two (x : ℕ → ℂ) : dft 2 x 0 = x 0 + x 1 ∧ dft 2 x 1 = x 0 - x 1 := by
  simp [dft, sum_range_succ, W_zero, W2_1, sub_eq_add_neg]

theorem dft_four (x : ℕ → ℂ) :
    dft 4 x 0 = (x 0 + x 2) + (x 1 + x 3) ∧ dft 4 x 1 = (x 0 - x 2) + (x 1 - x 3) * (-I) ∧
    dft 4 x 2 = (x 0 + x 2) - (x 1 + x 3) ∧ dft 4 x 3 = (x 0 - x 2) - (x 1 - x 3) * (-I) := by
  have h := fun k => dft_double (m := 2) x k
  have p := fun y k => dft_periodic (n := 2) (by norm_num) y k
  have w2 : W 4 2 = -1 := W_half (m := 2) (by norm_num)
  have w3 : W 4 3 = I := by rw [show 3 = 2 + 1 from rfl, W_add, w2, W4_1]; ring
  have e2 := p (fun t => x (2 * t)) 0
  have e3 := p (fun t => x (2 * t)) 1
  have o2 := p (fun t => x (2 * t + 1)) 0
  have o3 := p (fun t => x (2 * t + 1)) 1
  norm_num at h e2 e3 o2 o3
  refine ⟨?_, ?_, ?_, ?_⟩
  · rw [h 0, (dft_two _).1, (dft_two _).1, W_zero]; ring
  · rw [h 1, (dft_two _).2, (dft_two _).2, W4_1]; ring
  · rw [h 2, e2, o2, (dft_two _).1, (dft_two _).1, w2]; ring
  · rw [h 3, e3, o3, (dft_two _).2, (dft_two _).2, w3]; ring

theorem W8_2 : W 8 2 = -I := by
  rw [show W 8 2 = W (2 * 4) (2 * 1) from rfl, W_scale (by norm_num), W4_1]

theorem W8_3 : W 8 3 = ⟨-(Real.sqrt 2 / 2), -(Real.sqrt 2 / 2)⟩ := by
  rw [show 3 = 2 + 1 from rfl, W_add, W8_2, W8_1]
  apply Complex.ext <;> simp

theorem W16_2 : W 16 2 = ⟨Real.sqrt 2 / 2, -(Real.sqrt 2 / 2)⟩ := by
  rw [show W 16 2 = W (2 * 8) (2 * 1) from rfl, W_scale (by norm_num), W8_1]

theorem W16_4 : W 16 4 = -I := by
  rw [show W 16 4 = W (4 * 4) (4 * 1) from rfl, W_scale (by norm_num), W4_1]

theorem W16_6 : W 16 6 = ⟨-(Real.sqrt 2 / 2), -(Real.sqrt 2 / 2)⟩ := by
  rw [show W 16 6 = W (2 * 8) (2 * 3) from rfl, W_scale (by norm_num), W8_3]

theorem W16_3 : W 16 3 = ⟨Real.sin (Real.pi / 8), -Real.cos (Real.pi / 8)⟩ := by
  rw [W_eq_cos, show (-2 * Real.pi * (3 : ℕ) / (16 : ℕ)) = -(Real.pi / 2 - Real.pi / 8) by
    push_cast; ring, Real.cos_neg, Real.sin_neg, Real.cos_pi_div_two_sub, Real.sin_pi_div_two_sub]

theorem W16_5 : W 16 5 = ⟨-Real.sin (Real.pi / 8), -Real.cos (Real.pi / 8)⟩ := by
  rw [show 5 = 4 + 1 from rfl, W_add, W16_4, W16_1]
  apply Complex.ext <;> simp

theorem W16_7 : W 16 7 = ⟨-Real.cos (Real.pi / 8), -Real.sin (Real.pi / 8)⟩ := by
  rw [show W 16 7 = W 16 (4 + 3) from rfl, W_add, W16_4, W16_3]
  apply Complex.ext <;> simp

theorem dft_eight (x : ℕ → ℂ) :
    let E := dft 4 (fun t => x (2 * t))
    let O := dft 4 (fun t => x (2 * t + 1))
    dft 8 x 0 = E 0 + O 0 ∧ dft 8 x 1 = E 1 + O 1 * W 8 1 ∧
    dft 8 x 2 = E 2 + O 2 * (-I) ∧ dft 8 x 3 = E 3 + O 3 * W 8 3 ∧
    dft 8 x 4 = E 0 - O 0 ∧ dft 8 x 5 = E 1 - O 1 * W 8 1 ∧
    dft 8 x 6 = E 2 - O 2 * (-I) ∧ dft 8 x 7 = E 3 - O 3 * W 8 3 := by
  intro E O
  have hd : ∀ k, dft 8 x k = E k + W 8 k * O k := fun k => dft_double (m := 4) x k
  have hw : ∀ k, W 8 (k + 4) = - W 8 k := by
    intro k; rw [W_add, W_half (m := 4) (by norm_num)]; ring
  have hd2 : ∀ k, dft 8 x (k + 4) = E k - W 8 k * O k := by
    intro k
    rw [hd, hw, show E (k + 4) = E k from dft_periodic (by norm_num) _ _,
      show O (k + 4) = O k from dft_periodic (by norm_num) _ _]; ring
  refine ⟨?_, ?_, ?_, ?_, ?_, ?_, ?_, ?_⟩
  · rw [hd, W_zero]; ring
  · rw [hd]; ring
  · rw [hd, W8_2]; ring
  · rw [hd]; ring
  · rw [hd2 0, W_zero]; ring
  · rw [hd2 1]; ring
  · rw [hd2 2, W8_2]; ring
  · rw [hd2 3]; ring

end Kofft.Spec
