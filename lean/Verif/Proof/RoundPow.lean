import Verif.Proof.RoundTab
/-
Rounding error of the power-of-two transforms.
-/
namespace Kofft

open Spec Complex Finset

variable [F : Flt ℝ] {u v t : ℝ}

theorem preGrowth_ge (h : Rounding F u v t) : 1 ≤ preGrowth u t := by
  have hu := h.u_nonneg
  have ht := h.t_nonneg
  have h4 : 1 ≤ (1 + u) ^ 4 := one_le_pow₀ (by linarith)
  have h1 : 0 ≤ ((1 + u) ^ 4 - 1) * Real.pi := mul_nonneg (by linarith) Real.pi_pos.le
  have h2 : 0 ≤ Real.sqrt 2 * (2 * t + t ^ 2) := mul_nonneg (Real.sqrt_nonneg _) (by positivity)
  unfold preGrowth
  linarith

theorem tableGrowth_ge (h : Rounding F u v t) (n : ℕ) : 1 ≤ tableGrowth u t n := by
  have h2 := mulErr_nonneg h.u_nonneg
  have h3 := rotErr_nonneg h n
  exact one_le_pow₀ (by nlinarith)

theorem twGrowth_ge (h : Rounding F u v t) (cfg : Cfg) (n : ℕ) : 1 ≤ twGrowth cfg u v t n := by
  unfold twGrowth
  split
  · have := mul_nonneg (Real.sqrt_nonneg 2) h.v_nonneg; linarith
  split
  · exact preGrowth_ge h
  · exact tableGrowth_ge h n

theorem preSizes_pow {K : Nat} (h1 : 1 ≤ K) (h : 2 ^ K ≤ 1024) : preSizes.contains (2 ^ K) = true := by
  have : K ≤ 10 := by
    by_contra hc
    have : 2 ^ 11 ≤ 2 ^ K := Nat.pow_le_pow_right (by norm_num) (by omega)
    omega
  interval_cases K <;> decide

theorem preSizes_le {n : Nat} (h : preSizes.contains n = true) : n ≤ 1024 := by
  simp [preSizes] at h; omega

theorem twAt_rnd (h : Rounding F u v t) (cfg : Cfg) (K k : Nat) (hK : 16 < 2 ^ K) (hk : k < 2 ^ K / 2) :
    Apx (twGrowth cfg u v t (2 ^ K)) (toC (twAt cfg (2 ^ K) k)) (W (2 ^ K) k) 1 := by
  have hK1 : 1 ≤ K := by
    rcases K with _ | K
    · norm_num at hK
    · omega
  unfold twAt twiddles preLookup twGrowth
  rw [if_neg (by omega)]
  by_cases hc : cfg.precomputed = true ∧ (cfg.kind = .f32 ∨ cfg.kind = .f64) ∧ 2 ^ K ≤ 1024
  · rw [if_pos hc, if_pos]
    · exact preTable_rnd h _ _ hc.2.2 hk
    · simp only [Bool.and_eq_true, Bool.or_eq_true, beq_iff_eq]
      exact ⟨⟨hc.1, hc.2.1⟩, preSizes_pow hK1 hc.2.2⟩
  · rw [if_neg hc, if_neg]
    · exact twTable_rnd h K k hk
    · simp only [Bool.and_eq_true, Bool.or_eq_true, beq_iff_eq]
      rintro ⟨⟨a, b⟩, c⟩
      exact hc ⟨a, b, preSizes_le c⟩

/-! ### Butterflies -/

/-- One level: addition, multiplication, factor. -/
noncomputable def lvl (u Θ : ℝ) : ℝ := (1 + u) * (1 + mulErr u) * Θ

theorem lvl_ge (hu : 0 ≤ u) {Θ : ℝ} (hΘ : 1 ≤ Θ) : 1 ≤ lvl u Θ := by
  have := mulErr_nonneg hu
  have h1 : 1 ≤ (1 + u) * (1 + mulErr u) := by nlinarith
  unfold lvl; nlinarith

section
variable {Θ g : ℝ} {a b c : Cx ℝ} {z w ω : ℂ} {A B : ℝ} {m : Cx ℝ → Cx ℝ → Cx ℝ}

theorem g_le (hu : 0 ≤ u) (hΘ : 1 ≤ Θ) (hg : 1 ≤ g) : g * (1 + u) ≤ g * lvl u Θ := by
  have := mulErr_nonneg hu
  have h1 : 1 ≤ (1 + mulErr u) * Θ := by nlinarith
  have : 1 + u ≤ lvl u Θ := by unfold lvl; rw [mul_assoc]; nlinarith
  nlinarith

theorem bf_add (h : Rounding F u v t) (hΘ : 1 ≤ Θ) (H : Apx g (toC a) z A) (K : Apx g (toC b) w B) :
    Apx (g * lvl u Θ) (toC (a.add b)) (z + w) (A + B) :=
  (H.add K h.u_nonneg (rnd_add h a b)).mono (g_le h.u_nonneg hΘ H.one)

theorem bf_sub (h : Rounding F u v t) (hΘ : 1 ≤ Θ) (H : Apx g (toC a) z A) (K : Apx g (toC b) w B) :
    Apx (g * lvl u Θ) (toC (a.sub b)) (z - w) (A + B) :=
  (H.sub K h.u_nonneg (rnd_sub h a b)).mono (g_le h.u_nonneg hΘ H.one)

theorem bf_aux (h : Rounding F u v t) (hm : ∀ a b, ‖toC (m a b) - toC a * toC b‖ ≤ mulErr u * (‖toC a‖ * ‖toC b‖))
    (H : Apx g (toC a) z A) (K : Apx g (toC b) w B) (L : Apx Θ (toC c) ω 1) :
    Apx (g * Θ * (1 + mulErr u)) (toC a) z A ∧ Apx (g * Θ * (1 + mulErr u)) (toC (m b c)) (w * ω) B := by
  have hμ := mulErr_nonneg h.u_nonneg
  have hΘ := L.one
  have hg := H.one
  refine ⟨H.mono ?_, ?_⟩
  · have : 1 ≤ Θ * (1 + mulErr u) := by nlinarith
    rw [mul_assoc]; nlinarith
  · have := K.mul L hμ (hm b c)
    rwa [mul_one] at this

theorem bf_addm (h : Rounding F u v t) (hm : ∀ a b, ‖toC (m a b) - toC a * toC b‖ ≤ mulErr u * (‖toC a‖ * ‖toC b‖))
    (H : Apx g (toC a) z A) (K : Apx g (toC b) w B) (L : Apx Θ (toC c) ω 1) :
    Apx (g * lvl u Θ) (toC (a.add (m b c))) (z + w * ω) (A + B) := by
  obtain ⟨h1, h2⟩ := bf_aux h hm H K L
  have := h1.add h2 h.u_nonneg (rnd_add h a _)
  rwa [show g * Θ * (1 + mulErr u) * (1 + u) = g * lvl u Θ by unfold lvl; ring] at this

theorem bf_subm (h : Rounding F u v t) (hm : ∀ a b, ‖toC (m a b) - toC a * toC b‖ ≤ mulErr u * (‖toC a‖ * ‖toC b‖))
    (H : Apx g (toC a) z A) (K : Apx g (toC b) w B) (L : Apx Θ (toC c) ω 1) :
    Apx (g * lvl u Θ) (toC (a.sub (m b c))) (z - w * ω) (A + B) := by
  obtain ⟨h1, h2⟩ := bf_aux h hm H K L
  have := h1.sub h2 h.u_nonneg (rnd_sub h a _)
  rwa [show g * Θ * (1 + mulErr u) * (1 + u) = g * lvl u Θ by unfold lvl; ring] at this

end

/-! ### Stockham stages -/

set_option maxHeartbeats 1000000 in
/-- Partial sums of `s` stages, with inputs that are themselves approximations. -/
theorem stk_rnd (h : Rounding F u v t) (mul : Cx ℝ → Cx ℝ → Cx ℝ)
    (hm : ∀ a b, ‖toC (mul a b) - toC a * toC b‖ ≤ mulErr u * (‖toC a‖ * ‖toC b‖)) (K : Nat)
    (tw x : Nat → Cx ℝ) (X : ℕ → ℂ) (A : ℕ → ℝ) (g Θ : ℝ)
    (hx : ∀ i, i < 2 ^ K → Apx g (toC (x i)) (X i) (A i))
    (htw : ∀ k, k < 2 ^ K / 2 → Apx Θ (toC (tw k)) (W (2 ^ K) k) 1) :
    ∀ s, s ≤ K → ∀ q j, q < 2 ^ s → j < 2 ^ K / 2 ^ s →
      Apx (g * lvl u Θ ^ s) (toC (stk mul (2 ^ K) tw x s (q * (2 ^ K / 2 ^ s) + j)))
        (∑ r ∈ range (2 ^ s), X (j + (2 ^ K / 2 ^ s) * r) * W (2 ^ s) (q * r))
        (∑ r ∈ range (2 ^ s), A (j + (2 ^ K / 2 ^ s) * r))
  | 0, _, q, j, hq, hj => by
    have : q = 0 := by simpa using hq
    subst this
    simpa [stk, W_zero] using hx j (by simpa using hj)
  | s + 1, hs, q, j, hq, hj => by
    set n2 := 2 ^ K / 2 ^ (s + 1) with hn2
    have hK : 2 * 2 ^ s * n2 = 2 ^ K := by
      rw [show 2 * 2 ^ s = 2 ^ (s + 1) by ring]
      exact Nat.mul_div_cancel' (pow_dvd_pow 2 hs)
    have hpos : 0 < n2 := by omega
    have h2s : 0 < 2 ^ s := Nat.pow_pos (by norm_num)
    have hN : 2 ^ K / 2 ^ s = 2 * n2 := by
      rw [← hK]; rw [show 2 * 2 ^ s * n2 = 2 ^ s * (2 * n2) by ring]; exact Nat.mul_div_cancel_left _ h2s
    have ih := stk_rnd h mul hm K tw x X A g Θ hx htw s (by omega)
    rw [hN] at ih
    have heven : ∀ k, k < 2 ^ s → Apx (g * lvl u Θ ^ s) (toC (stk mul (2 ^ K) tw x s (2 * k * n2 + j)))
        (∑ r ∈ range (2 ^ s), X (j + n2 * (2 * r)) * W (2 ^ (s + 1)) (k * (2 * r)))
        (∑ r ∈ range (2 ^ s), A (j + n2 * (2 * r))) := by
      intro k hk
      have := ih k j hk (by omega)
      rw [show k * (2 * n2) + j = 2 * k * n2 + j by ring] at this
      convert this using 1
      · apply sum_congr rfl
        intro r _
        rw [show 2 * n2 * r = n2 * (2 * r) by ring, show k * (2 * r) = 2 * (k * r) by ring,
          show 2 ^ (s + 1) = 2 * 2 ^ s by ring, W_scale (by norm_num)]
      · apply sum_congr rfl
        intro r _
        rw [show 2 * n2 * r = n2 * (2 * r) by ring]
    have hodd : ∀ k, k < 2 ^ s →
        Apx (g * lvl u Θ ^ s) (toC (stk mul (2 ^ K) tw x s (2 * k * n2 + n2 + j)))
        (∑ r ∈ range (2 ^ s), X (j + n2 * (2 * r + 1)) * W (2 ^ s) (k * r))
        (∑ r ∈ range (2 ^ s), A (j + n2 * (2 * r + 1))) := by
      intro k hk
      have := ih k (n2 + j) hk (by omega)
      rw [show k * (2 * n2) + (n2 + j) = 2 * k * n2 + n2 + j by ring] at this
      convert this using 1
      · apply sum_congr rfl
        intro r _
        rw [show n2 + j + 2 * n2 * r = j + n2 * (2 * r + 1) by ring]
      · apply sum_congr rfl
        intro r _
        rw [show n2 + j + 2 * n2 * r = j + n2 * (2 * r + 1) by ring]
    have hT : ∀ k, k < 2 ^ s → Apx Θ (toC (tw (k * n2))) (W (2 ^ (s + 1)) k) 1 := by
      intro k hk
      have hkn : k * n2 < 2 ^ K / 2 := by
        have : (k + 1) * n2 ≤ 2 ^ s * n2 := Nat.mul_le_mul_right _ hk
        have e : 2 ^ K / 2 = 2 ^ s * n2 := by rw [← hK, Nat.mul_assoc]; simp
        rw [e]; nlinarith
      have := htw _ hkn
      rwa [← hK, show 2 * 2 ^ s * n2 = n2 * 2 ^ (s + 1) by ring,
          show k * n2 = n2 * k by ring, W_scale (by omega), show n2 * k = k * n2 by ring] at this
    have hodd' : ∀ k, (∑ r ∈ range (2 ^ s), X (j + n2 * (2 * r + 1)) * W (2 ^ s) (k * r)) * W (2 ^ (s + 1)) k =
        ∑ r ∈ range (2 ^ s), X (j + n2 * (2 * r + 1)) * W (2 ^ (s + 1)) (k * (2 * r + 1)) := by
      intro k
      rw [sum_mul]
      apply sum_congr rfl
      intro r _
      rw [show k * (2 * r + 1) = 2 * (k * r) + k by ring, W_add,
        show W (2 ^ (s + 1)) (2 * (k * r)) = W (2 ^ s) (k * r) by
          rw [show 2 ^ (s + 1) = 2 * 2 ^ s by ring, W_scale (by norm_num)]]
      ring
    rw [show range (2 ^ (s + 1)) = range (2 * 2 ^ s) by congr 1; ring, sum_range_even_odd, sum_range_even_odd]
    show Apx _ (toC (stageF mul (2 ^ s) n2 tw (stk mul (2 ^ K) tw x s) (q * n2 + j))) _ _
    rw [show g * lvl u Θ ^ (s + 1) = g * lvl u Θ ^ s * lvl u Θ by ring]
    by_cases hq2 : q < 2 ^ s
    · rw [stageF_lo hq2 hj, ← hodd']
      exact bf_addm h hm (heven q hq2) (hodd q hq2) (hT q hq2)
    · obtain ⟨k, rfl⟩ : ∃ k, q = k + 2 ^ s := ⟨q - 2 ^ s, by omega⟩
      have hk : k < 2 ^ s := by rw [pow_succ] at hq; omega
      rw [stageF_hi hj]
      have := bf_subm h hm (heven k hk) (hodd k hk) (hT k hk)
      rw [hodd', sub_eq_add_neg, ← sum_neg_distrib] at this
      convert this using 2
      · apply sum_congr rfl
        intro r _
        rw [show (k + 2 ^ s) * (2 * r) = k * (2 * r) + r * 2 ^ (s + 1) by ring, W_add,
          W_mul_self (by positivity), mul_one]
      · apply sum_congr rfl
        intro r _
        rw [show (k + 2 ^ s) * (2 * r + 1) = k * (2 * r + 1) + (r * 2 ^ (s + 1) + 2 ^ s) by ring, W_add,
          W_add, W_mul_self (by positivity),
          show W (2 ^ (s + 1)) (2 ^ s) = -1 by
            rw [show 2 ^ (s + 1) = 2 * 2 ^ s by ring]; exact W_half (by omega)]
        ring

theorem stkOut_rnd (h : Rounding F u v t) (cfg : Cfg) (mul : Cx ℝ → Cx ℝ → Cx ℝ)
    (hm : ∀ a b, ‖toC (mul a b) - toC a * toC b‖ ≤ mulErr u * (‖toC a‖ * ‖toC b‖)) (z : List (Cx ℝ))
    (hp : isPow2 z.length = true) (h16 : 16 < z.length) (X : ℕ → ℂ) (A : ℕ → ℝ) (g : ℝ)
    (hx : ∀ i, i < z.length → Apx g (toC (z.getD i Cx.zero)) (X i) (A i)) (k : Nat) (hk : k < z.length) :
    Apx (g * powGrowth cfg u v t z.length) (toC ((stkOut cfg mul z).getD k Cx.zero))
      (dft z.length X k) (∑ i ∈ range z.length, A i) := by
  obtain ⟨K, hK⟩ := isPow2_iff.mp hp
  unfold stkOut powGrowth
  rw [tab_getD hk, hK, log2_pow']
  rw [hK] at h16 hx hk
  have := stk_rnd h mul hm K (twAt cfg (2 ^ K)) (fun i => z.getD i Cx.zero) X A g _ hx
    (fun k hk => twAt_rnd h cfg K k h16 hk) K le_rfl k 0 (by omega)
    (by rw [Nat.div_self (Nat.pow_pos (by norm_num))]; norm_num)
  rw [Nat.div_self (Nat.pow_pos (by norm_num))] at this
  simp only [mul_one, add_zero, one_mul, zero_add] at this
  exact this

end Kofft
