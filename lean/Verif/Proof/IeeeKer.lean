import Verif.Proof.IeeePow
import Verif.Proof.RoundKer
/-
The fixed-size kernels and the fresh power-of-two transform in arithmetic with a bounded exponent range.
-/
namespace Kofft

open Spec Complex Finset

variable {T : Type} [F : Flt T] {N : Denote T} {u η Ω v t D : ℝ}

local notation "U" => effErr u η D

theorem ie_kc (h : Env F N u η Ω v t D) {c : Cx T} {ω : ℂ} (hω : ‖ω‖ ≤ 1) (hf : N.cfin c) (h1 : |N.val c.re - ω.re| ≤ v)
    (h2 : |N.val c.im - ω.im| ≤ v) : IAp N D (1 + Real.sqrt 2 * v) c ω 1 :=
  IAp.unit h hf hω (norm_le_sqrt2 (by simpa using h1) (by simpa using h2))

theorem ie_neg_close (h : Env F N u η Ω v t D) {a : T} {b : ℝ} (hf : N.fin a ∧ |N.val a - b| ≤ v) :
    N.fin (F.neg a) ∧ |N.val (F.neg a) - -b| ≤ v := by
  obtain ⟨h1, h2⟩ := h.neg a hf.1
  exact ⟨h1, by rw [h2, ← neg_sub', abs_neg]; exact hf.2⟩

theorem ie_kI (h : Env F N u η Ω v t D) : IAp N D (1 + Real.sqrt 2 * v) (cxMinusI : Cx T) (-I) 1 := by
  have h1 := h.neg _ h.one.1
  refine ie_kc h (by simp) ⟨h.zero.1, h1.1⟩ ?_ ?_
  · simpa [cxMinusI, h.zero.2] using h.v_nonneg
  · simpa [cxMinusI, h1.2, h.one.2] using h.v_nonneg

/-- room for a partial sum at an earlier level -/
theorem ie_fit {q Q P S : ℝ} (hΩ : Q * S ≤ Ω) (hq : 0 ≤ q) (hq' : q ≤ Q) (hS : 0 ≤ S) (hP : P ≤ S) : q * P ≤ Ω :=
  (mul_le_mul_of_nonneg_left hP hq).trans ((mul_le_mul_of_nonneg_right hq' hS).trans hΩ)

/-- room at every level -/
theorem ie_fits {g l S : ℝ} {K : ℕ} (hg : 1 ≤ g) (hl : 1 ≤ l) (hS : 0 ≤ S) (hΩ : g * l ^ K * S ≤ Ω) (j : ℕ)
    (hj : j ≤ K) (P : ℝ) (hP : P ≤ S) : g * l ^ j * P ≤ Ω :=
  ie_fit hΩ (by positivity) (mul_le_mul_of_nonneg_left (pow_le_pow_right₀ hl hj) (by linarith)) hS hP

section
variable {g : ℝ} {X : ℕ → ℂ} {A : ℕ → ℝ} {x : ℕ → Cx T}

local notation "Θ" => (1 + Real.sqrt 2 * v)

theorem ie_fft2 (h : Env F N u η Ω v t D) (dbg : Bool) (hx : ∀ i, i < 2 → IAp N D g (x i) (X i) (A i))
    (hΩ : g * lvl U Θ ^ 1 * (∑ i ∈ range 2, A i) ≤ Ω) :
    ∃ y, fft2 dbg [x 0, x 1] = .ok y ∧ y.length = 2 ∧
      ∀ k < 2, IAp N D (g * lvl U Θ ^ 1) ((y.getD k Cx.zero)) (dft 2 X k) (∑ i ∈ range 2, A i) := by
  have hΘ := (ie_kI h).one
  simp only [sum_range_succ, range_zero, sum_empty, zero_add] at hΩ
  have hg := (hx 0 (by norm_num)).one
  have hl := ie_lvl h hΘ
  have n0 := (hx 0 (by norm_num)).nonneg
  have n1 := (hx 1 (by norm_num)).nonneg
  have hS : 0 ≤ A 0 + A 1 := by linarith
  have R1 : ∀ P, P ≤ A 0 + A 1 → g * lvl U Θ * P ≤ Ω := by
    intro P hP
    have := ie_fits hg hl hS hΩ 1 (by norm_num) P hP
    rwa [show g * lvl U Θ ^ 1 = g * lvl U Θ by ring] at this
  refine ⟨[(x 0).add (x 1), (x 0).sub (x 1)], by cases dbg <;> rfl, rfl, ?_⟩
  intro k hk
  have := dft_two X
  rw [pow_one]
  simp only [sum_range_succ, range_zero, sum_empty, zero_add]
  interval_cases k
  · rw [this.1]; exact ie_bf_add h hΘ (hx 0 (by norm_num)) (hx 1 (by norm_num)) (R1 _ (by linarith))
  · rw [this.2]; exact ie_bf_sub h hΘ (hx 0 (by norm_num)) (hx 1 (by norm_num)) (R1 _ (by linarith))

theorem ie_fft4 (h : Env F N u η Ω v t D) (dbg : Bool) (hx : ∀ i, i < 4 → IAp N D g (x i) (X i) (A i))
    (hΩ : g * lvl U Θ ^ 2 * (∑ i ∈ range 4, A i) ≤ Ω) :
    ∃ y, fft4 dbg [x 0, x 1, x 2, x 3] = .ok y ∧ y.length = 4 ∧
      ∀ k < 4, IAp N D (g * lvl U Θ ^ 2) ((y.getD k Cx.zero)) (dft 4 X k) (∑ i ∈ range 4, A i) := by
  have hΘ := (ie_kI h).one
  simp only [sum_range_succ, range_zero, sum_empty, zero_add] at hΩ
  have hg := (hx 0 (by norm_num)).one
  have hl := ie_lvl h hΘ
  have n0 := (hx 0 (by norm_num)).nonneg
  have n1 := (hx 1 (by norm_num)).nonneg
  have n2 := (hx 2 (by norm_num)).nonneg
  have n3 := (hx 3 (by norm_num)).nonneg
  have hS : 0 ≤ A 0 + A 1 + A 2 + A 3 := by linarith
  have R1 : ∀ P, P ≤ A 0 + A 1 + A 2 + A 3 → g * lvl U Θ * P ≤ Ω := by
    intro P hP
    have := ie_fits hg hl hS hΩ 1 (by norm_num) P hP
    rwa [show g * lvl U Θ ^ 1 = g * lvl U Θ by ring] at this
  have R2 : ∀ P, P ≤ A 0 + A 1 + A 2 + A 3 → g * lvl U Θ * lvl U Θ * P ≤ Ω := by
    intro P hP
    have := ie_fits hg hl hS hΩ 2 (by norm_num) P hP
    rwa [show g * lvl U Θ ^ 2 = g * lvl U Θ * lvl U Θ by ring] at this
  refine ⟨_, by cases dbg <;> rfl, rfl, ?_⟩
  intro k hk
  obtain ⟨h0, h1, h2, h3⟩ := dft_four X
  rw [show g * lvl U Θ ^ 2 = g * lvl U Θ * lvl U Θ by ring]
  simp only [sum_range_succ, range_zero, sum_empty, zero_add]
  have x0 := hx 0 (by norm_num)
  have x1 := hx 1 (by norm_num)
  have x2 := hx 2 (by norm_num)
  have x3 := hx 3 (by norm_num)
  have e0 := ie_bf_add h hΘ x0 x2 (R1 _ (by linarith))
  have e1 := ie_bf_sub h hΘ x0 x2 (R1 _ (by linarith))
  have o0 := ie_bf_add h hΘ x1 x3 (R1 _ (by linarith))
  have o1 := ie_bf_sub h hΘ x1 x3 (R1 _ (by linarith))
  rw [show A 0 + A 1 + A 2 + A 3 = A 0 + A 2 + (A 1 + A 3) by ring]
  interval_cases k
  · rw [h0]; exact ie_bf_add h hΘ e0 o0 (R2 _ (by linarith))
  · rw [h1]; exact ie_bf_addm h (ie_mul h) e1 o1 (ie_kI h) (R2 _ (by linarith))
  · rw [h2]; exact ie_bf_sub h hΘ e0 o0 (R2 _ (by linarith))
  · rw [h3]; exact ie_bf_subm h (ie_mul h) e1 o1 (ie_kI h) (R2 _ (by linarith))

set_option maxHeartbeats 1000000 in
theorem ie_fft16Half (h : Env F N u η Ω v t D) (hx : ∀ i, i < 8 → IAp N D g (x i) (X i) (A i))
    (hΩ : g * lvl U Θ ^ 3 * (A 0 + A 1 + A 2 + A 3 + A 4 + A 5 + A 6 + A 7) ≤ Ω) :
    let r := fft16Half (x 0) (x 1) (x 2) (x 3) (x 4) (x 5) (x 6) (x 7)
    let G := g * lvl U Θ * lvl U Θ * lvl U Θ
    let S := A 0 + A 1 + A 2 + A 3 + A 4 + A 5 + A 6 + A 7
    IAp N D G (r.1) (dft 8 X 0) S ∧ IAp N D G (r.2.1) (dft 8 X 1) S ∧ IAp N D G (r.2.2.1) (dft 8 X 2) S ∧
    IAp N D G (r.2.2.2.1) (dft 8 X 3) S ∧ IAp N D G (r.2.2.2.2.1) (dft 8 X 4) S ∧
    IAp N D G (r.2.2.2.2.2.1) (dft 8 X 5) S ∧ IAp N D G (r.2.2.2.2.2.2.1) (dft 8 X 6) S ∧
    IAp N D G (r.2.2.2.2.2.2.2) (dft 8 X 7) S := by
  have hΘ := (ie_kI h).one
  have hg := (hx 0 (by norm_num)).one
  have hl := ie_lvl h hΘ
  have n0 := (hx 0 (by norm_num)).nonneg
  have n1 := (hx 1 (by norm_num)).nonneg
  have n2 := (hx 2 (by norm_num)).nonneg
  have n3 := (hx 3 (by norm_num)).nonneg
  have n4 := (hx 4 (by norm_num)).nonneg
  have n5 := (hx 5 (by norm_num)).nonneg
  have n6 := (hx 6 (by norm_num)).nonneg
  have n7 := (hx 7 (by norm_num)).nonneg
  have hS : 0 ≤ A 0 + A 1 + A 2 + A 3 + A 4 + A 5 + A 6 + A 7 := by linarith
  have R1 : ∀ P, P ≤ A 0 + A 1 + A 2 + A 3 + A 4 + A 5 + A 6 + A 7 → g * lvl U Θ * P ≤ Ω := by
    intro P hP
    have := ie_fits hg hl hS hΩ 1 (by norm_num) P hP
    rwa [show g * lvl U Θ ^ 1 = g * lvl U Θ by ring] at this
  have R2 : ∀ P, P ≤ A 0 + A 1 + A 2 + A 3 + A 4 + A 5 + A 6 + A 7 → g * lvl U Θ * lvl U Θ * P ≤ Ω := by
    intro P hP
    have := ie_fits hg hl hS hΩ 2 (by norm_num) P hP
    rwa [show g * lvl U Θ ^ 2 = g * lvl U Θ * lvl U Θ by ring] at this
  have R3 : ∀ P, P ≤ A 0 + A 1 + A 2 + A 3 + A 4 + A 5 + A 6 + A 7 → g * lvl U Θ * lvl U Θ * lvl U Θ * P ≤ Ω := by
    intro P hP
    have := ie_fits hg hl hS hΩ 3 (by norm_num) P hP
    rwa [show g * lvl U Θ ^ 3 = g * lvl U Θ * lvl U Θ * lvl U Θ by ring] at this
  have hd := fun k => dft_double (m := 4) X k
  obtain ⟨e0, e1, e2, e3⟩ := dft_four (fun t => X (2 * t))
  obtain ⟨o0, o1, o2, o3⟩ := dft_four (fun t => X (2 * t + 1))
  simp only [Nat.mul_zero, Nat.mul_one, Nat.zero_add, Nat.reduceMul, Nat.reduceAdd] at e0 e1 e2 e3 o0 o1 o2 o3
  obtain ⟨d0, d1, d2, d3, d4, d5, d6, d7⟩ := dft_eight X
  have s1 : IAp N D Θ ((⟨F.sqrtHalf, F.neg F.sqrtHalf⟩ : Cx T)) (W 8 1) 1 :=
    ie_kc h (ie_Wnorm _ _).le ⟨(h.sqrtHalf).1, (ie_neg_close h h.sqrtHalf).1⟩ (by rw [W8_1]; exact (h.sqrtHalf).2)
      (by rw [W8_1]; exact (ie_neg_close h h.sqrtHalf).2)
  have s3 : IAp N D Θ ((⟨F.neg F.sqrtHalf, F.neg F.sqrtHalf⟩ : Cx T)) (W 8 3) 1 :=
    ie_kc h (ie_Wnorm _ _).le ⟨(ie_neg_close h h.sqrtHalf).1, (ie_neg_close h h.sqrtHalf).1⟩ (by rw [W8_3]; exact (ie_neg_close h h.sqrtHalf).2)
      (by rw [W8_3]; exact (ie_neg_close h h.sqrtHalf).2)
  have x0 := hx 0 (by norm_num)
  have x1 := hx 1 (by norm_num)
  have x2 := hx 2 (by norm_num)
  have x3 := hx 3 (by norm_num)
  have x4 := hx 4 (by norm_num)
  have x5 := hx 5 (by norm_num)
  have x6 := hx 6 (by norm_num)
  have x7 := hx 7 (by norm_num)
  have a0 := ie_bf_add h hΘ x0 x4 (R1 _ (by linarith))
  have a1 := ie_bf_sub h hΘ x0 x4 (R1 _ (by linarith))
  have a2 := ie_bf_add h hΘ x2 x6 (R1 _ (by linarith))
  have a3 := ie_bf_sub h hΘ x2 x6 (R1 _ (by linarith))
  have ea0 := ie_bf_add h hΘ a0 a2 (R2 _ (by linarith))
  have ea2 := ie_bf_sub h hΘ a0 a2 (R2 _ (by linarith))
  have ea1 := ie_bf_addm h (ie_mul h) a1 a3 (ie_kI h) (R2 _ (by linarith))
  have ea3 := ie_bf_subm h (ie_mul h) a1 a3 (ie_kI h) (R2 _ (by linarith))
  have b0 := ie_bf_add h hΘ x1 x5 (R1 _ (by linarith))
  have b1 := ie_bf_sub h hΘ x1 x5 (R1 _ (by linarith))
  have b2 := ie_bf_add h hΘ x3 x7 (R1 _ (by linarith))
  have b3 := ie_bf_sub h hΘ x3 x7 (R1 _ (by linarith))
  have eb0 := ie_bf_add h hΘ b0 b2 (R2 _ (by linarith))
  have eb2 := ie_bf_sub h hΘ b0 b2 (R2 _ (by linarith))
  have eb1 := ie_bf_addm h (ie_mul h) b1 b3 (ie_kI h) (R2 _ (by linarith))
  have eb3 := ie_bf_subm h (ie_mul h) b1 b3 (ie_kI h) (R2 _ (by linarith))
  intro r G S
  have hS : S = (A 0 + A 4 + (A 2 + A 6)) + (A 1 + A 5 + (A 3 + A 7)) := by simp only [S]; ring
  simp only [hS, G, r]
  refine ⟨?_, ?_, ?_, ?_, ?_, ?_, ?_, ?_⟩
  · rw [d0, e0, o0]; exact ie_bf_add h hΘ ea0 eb0 (R3 _ (by linarith))
  · rw [d1, e1, o1]; exact ie_bf_addm h (ie_mul h) ea1 eb1 s1 (R3 _ (by linarith))
  · rw [d2, e2, o2]; exact ie_bf_addm h (ie_mul h) ea2 eb2 (ie_kI h) (R3 _ (by linarith))
  · rw [d3, e3, o3]; exact ie_bf_addm h (ie_mul h) ea3 eb3 s3 (R3 _ (by linarith))
  · rw [d4, e0, o0]; exact ie_bf_sub h hΘ ea0 eb0 (R3 _ (by linarith))
  · rw [d5, e1, o1]; exact ie_bf_subm h (ie_mul h) ea1 eb1 s1 (R3 _ (by linarith))
  · rw [d6, e2, o2]; exact ie_bf_subm h (ie_mul h) ea2 eb2 (ie_kI h) (R3 _ (by linarith))
  · rw [d7, e3, o3]; exact ie_bf_subm h (ie_mul h) ea3 eb3 s3 (R3 _ (by linarith))

theorem ie_fft8 (h : Env F N u η Ω v t D) (dbg : Bool) (hx : ∀ i, i < 8 → IAp N D g (x i) (X i) (A i))
    (hΩ : g * lvl U Θ ^ 3 * (∑ i ∈ range 8, A i) ≤ Ω) :
    ∃ y, fft8 dbg [x 0, x 1, x 2, x 3, x 4, x 5, x 6, x 7] = .ok y ∧ y.length = 8 ∧
      ∀ k < 8, IAp N D (g * lvl U Θ ^ 3) ((y.getD k Cx.zero)) (dft 8 X k) (∑ i ∈ range 8, A i) := by
  refine ⟨_, by cases dbg <;> rfl, rfl, ?_⟩
  intro k hk
  obtain ⟨h0, h1, h2, h3, h4, h5, h6, h7⟩ := ie_fft16Half h hx (by
    simp only [sum_range_succ, range_zero, sum_empty, zero_add] at hΩ; exact hΩ)
  rw [show g * lvl U Θ ^ 3 = g * lvl U Θ * lvl U Θ * lvl U Θ by ring]
  simp only [sum_range_succ, range_zero, sum_empty, zero_add]
  interval_cases k
  · exact h0
  · exact h1
  · exact h2
  · exact h3
  · exact h4
  · exact h5
  · exact h6
  · exact h7

set_option maxHeartbeats 1000000 in
theorem ie_fft16 (h : Env F N u η Ω v t D) (dbg : Bool) (hx : ∀ i, i < 16 → IAp N D g (x i) (X i) (A i))
    (hΩ : g * lvl U Θ ^ 4 * (∑ i ∈ range 16, A i) ≤ Ω) :
    ∃ y, fft16 dbg [x 0, x 1, x 2, x 3, x 4, x 5, x 6, x 7, x 8, x 9, x 10, x 11, x 12, x 13,
      x 14, x 15] = .ok y ∧ y.length = 16 ∧
      ∀ k < 16, IAp N D (g * lvl U Θ ^ 4) ((y.getD k Cx.zero)) (dft 16 X k) (∑ i ∈ range 16, A i) := by
  have hΘ := (ie_kI h).one
  simp only [sum_range_succ, range_zero, sum_empty, zero_add] at hΩ
  have hg := (hx 0 (by norm_num)).one
  have hl := ie_lvl h hΘ
  have n0 := (hx 0 (by norm_num)).nonneg
  have n1 := (hx 1 (by norm_num)).nonneg
  have n2 := (hx 2 (by norm_num)).nonneg
  have n3 := (hx 3 (by norm_num)).nonneg
  have n4 := (hx 4 (by norm_num)).nonneg
  have n5 := (hx 5 (by norm_num)).nonneg
  have n6 := (hx 6 (by norm_num)).nonneg
  have n7 := (hx 7 (by norm_num)).nonneg
  have n8 := (hx 8 (by norm_num)).nonneg
  have n9 := (hx 9 (by norm_num)).nonneg
  have n10 := (hx 10 (by norm_num)).nonneg
  have n11 := (hx 11 (by norm_num)).nonneg
  have n12 := (hx 12 (by norm_num)).nonneg
  have n13 := (hx 13 (by norm_num)).nonneg
  have n14 := (hx 14 (by norm_num)).nonneg
  have n15 := (hx 15 (by norm_num)).nonneg
  have hS : 0 ≤ A 0 + A 1 + A 2 + A 3 + A 4 + A 5 + A 6 + A 7 + A 8 + A 9 + A 10 + A 11 + A 12 + A 13 + A 14 + A 15 := by linarith
  have R1 : ∀ P, P ≤ A 0 + A 1 + A 2 + A 3 + A 4 + A 5 + A 6 + A 7 + A 8 + A 9 + A 10 + A 11 + A 12 + A 13 + A 14 + A 15 → g * lvl U Θ * P ≤ Ω := by
    intro P hP
    have := ie_fits hg hl hS hΩ 1 (by norm_num) P hP
    rwa [show g * lvl U Θ ^ 1 = g * lvl U Θ by ring] at this
  have R2 : ∀ P, P ≤ A 0 + A 1 + A 2 + A 3 + A 4 + A 5 + A 6 + A 7 + A 8 + A 9 + A 10 + A 11 + A 12 + A 13 + A 14 + A 15 → g * lvl U Θ * lvl U Θ * P ≤ Ω := by
    intro P hP
    have := ie_fits hg hl hS hΩ 2 (by norm_num) P hP
    rwa [show g * lvl U Θ ^ 2 = g * lvl U Θ * lvl U Θ by ring] at this
  have R3 : ∀ P, P ≤ A 0 + A 1 + A 2 + A 3 + A 4 + A 5 + A 6 + A 7 + A 8 + A 9 + A 10 + A 11 + A 12 + A 13 + A 14 + A 15 → g * lvl U Θ * lvl U Θ * lvl U Θ * P ≤ Ω := by
    intro P hP
    have := ie_fits hg hl hS hΩ 3 (by norm_num) P hP
    rwa [show g * lvl U Θ ^ 3 = g * lvl U Θ * lvl U Θ * lvl U Θ by ring] at this
  have R4 : ∀ P, P ≤ A 0 + A 1 + A 2 + A 3 + A 4 + A 5 + A 6 + A 7 + A 8 + A 9 + A 10 + A 11 + A 12 + A 13 + A 14 + A 15 → g * lvl U Θ * lvl U Θ * lvl U Θ * lvl U Θ * P ≤ Ω := by
    intro P hP
    have := ie_fits hg hl hS hΩ 4 (by norm_num) P hP
    rwa [show g * lvl U Θ ^ 4 = g * lvl U Θ * lvl U Θ * lvl U Θ * lvl U Θ by ring] at this
  set e := fft16Half (x 0) (x 2) (x 4) (x 6) (x 8) (x 10) (x 12) (x 14) with he
  set o := fft16Half (x 1) (x 3) (x 5) (x 7) (x 9) (x 11) (x 13) (x 15) with ho
  refine ⟨[e.1.add o.1, e.2.1.add (o.2.1.mul ⟨F.cosPi8, F.neg F.sinPi8⟩),
    e.2.2.1.add (o.2.2.1.mul ⟨F.sqrtHalf, F.neg F.sqrtHalf⟩),
    e.2.2.2.1.add (o.2.2.2.1.mul ⟨F.sinPi8, F.neg F.cosPi8⟩),
    e.2.2.2.2.1.add (o.2.2.2.2.1.mul ⟨F.zero, F.neg F.one⟩),
    e.2.2.2.2.2.1.add (o.2.2.2.2.2.1.mul ⟨F.neg F.sinPi8, F.neg F.cosPi8⟩),
    e.2.2.2.2.2.2.1.add (o.2.2.2.2.2.2.1.mul ⟨F.neg F.sqrtHalf, F.neg F.sqrtHalf⟩),
    e.2.2.2.2.2.2.2.add (o.2.2.2.2.2.2.2.mul ⟨F.neg F.cosPi8, F.neg F.sinPi8⟩),
    e.1.sub o.1, e.2.1.sub (o.2.1.mul ⟨F.cosPi8, F.neg F.sinPi8⟩),
    e.2.2.1.sub (o.2.2.1.mul ⟨F.sqrtHalf, F.neg F.sqrtHalf⟩),
    e.2.2.2.1.sub (o.2.2.2.1.mul ⟨F.sinPi8, F.neg F.cosPi8⟩),
    e.2.2.2.2.1.sub (o.2.2.2.2.1.mul ⟨F.zero, F.neg F.one⟩),
    e.2.2.2.2.2.1.sub (o.2.2.2.2.2.1.mul ⟨F.neg F.sinPi8, F.neg F.cosPi8⟩),
    e.2.2.2.2.2.2.1.sub (o.2.2.2.2.2.2.1.mul ⟨F.neg F.sqrtHalf, F.neg F.sqrtHalf⟩),
    e.2.2.2.2.2.2.2.sub (o.2.2.2.2.2.2.2.mul ⟨F.neg F.cosPi8, F.neg F.sinPi8⟩)],
    by cases dbg <;> rfl, rfl, ?_⟩
  intro k hk
  obtain ⟨e0, e1, e2, e3, e4, e5, e6, e7⟩ := ie_fft16Half h (x := fun i => x (2 * i)) (X := fun i => X (2 * i))
    (A := fun i => A (2 * i)) (fun i hi => hx (2 * i) (by omega))
    (by rw [show g * lvl U Θ ^ 3 = g * lvl U Θ * lvl U Θ * lvl U Θ by ring]; exact R3 _ (by norm_num; linarith))
  obtain ⟨o0, o1, o2, o3, o4, o5, o6, o7⟩ := ie_fft16Half h (x := fun i => x (2 * i + 1))
    (X := fun i => X (2 * i + 1)) (A := fun i => A (2 * i + 1)) (fun i hi => hx (2 * i + 1) (by omega))
    (by rw [show g * lvl U Θ ^ 3 = g * lvl U Θ * lvl U Θ * lvl U Θ by ring]; exact R3 _ (by norm_num; linarith))
  simp only [Nat.mul_zero, Nat.mul_one, Nat.zero_add, Nat.reduceMul, Nat.reduceAdd, ← he, ← ho] at e0 e1 e2 e3 e4 e5 e6 e7 o0 o1 o2 o3 o4 o5 o6 o7
  have hd := fun k => dft_double (m := 8) X k
  have pe := fun k => dft_periodic (n := 8) (by norm_num) (fun t => X (2 * t)) k
  have po := fun k => dft_periodic (n := 8) (by norm_num) (fun t => X (2 * t + 1)) k
  have hw : ∀ k, W 16 (k + 8) = - W 16 k := by
    intro k; rw [W_add, W_half (m := 8) (by norm_num)]; ring
  have hd2 : ∀ k, dft 16 X (k + 8) =
      dft 8 (fun t => X (2 * t)) k - dft 8 (fun t => X (2 * t + 1)) k * W 16 k := by
    intro k
    have := hd (k + 8)
    rw [pe, po, hw] at this
    rw [this]; ring
  have hd1 : ∀ k, dft 16 X k =
      dft 8 (fun t => X (2 * t)) k + dft 8 (fun t => X (2 * t + 1)) k * W 16 k := by
    intro k
    rw [show (16 : ℕ) = 2 * 8 from rfl, hd k]; ring
  have hv := h.v_nonneg
  have c1 : IAp N D Θ ((⟨F.cosPi8, F.neg F.sinPi8⟩ : Cx T)) (W 16 1) 1 :=
    ie_kc h (ie_Wnorm _ _).le ⟨(h.cosPi8).1, (ie_neg_close h h.sinPi8).1⟩ (by rw [W16_1]; exact (h.cosPi8).2)
      (by rw [W16_1]; exact (ie_neg_close h h.sinPi8).2)
  have c2 : IAp N D Θ ((⟨F.sqrtHalf, F.neg F.sqrtHalf⟩ : Cx T)) (W 16 2) 1 :=
    ie_kc h (ie_Wnorm _ _).le ⟨(h.sqrtHalf).1, (ie_neg_close h h.sqrtHalf).1⟩ (by rw [W16_2]; exact (h.sqrtHalf).2)
      (by rw [W16_2]; exact (ie_neg_close h h.sqrtHalf).2)
  have c3 : IAp N D Θ ((⟨F.sinPi8, F.neg F.cosPi8⟩ : Cx T)) (W 16 3) 1 :=
    ie_kc h (ie_Wnorm _ _).le ⟨(h.sinPi8).1, (ie_neg_close h h.cosPi8).1⟩ (by rw [W16_3]; exact (h.sinPi8).2)
      (by rw [W16_3]; exact (ie_neg_close h h.cosPi8).2)
  have c4 : IAp N D Θ ((⟨F.zero, F.neg F.one⟩ : Cx T)) (W 16 4) 1 := by
    rw [W16_4]; exact ie_kI h
  have c5 : IAp N D Θ ((⟨F.neg F.sinPi8, F.neg F.cosPi8⟩ : Cx T)) (W 16 5) 1 :=
    ie_kc h (ie_Wnorm _ _).le ⟨(ie_neg_close h h.sinPi8).1, (ie_neg_close h h.cosPi8).1⟩ (by rw [W16_5]; exact (ie_neg_close h h.sinPi8).2)
      (by rw [W16_5]; exact (ie_neg_close h h.cosPi8).2)
  have c6 : IAp N D Θ ((⟨F.neg F.sqrtHalf, F.neg F.sqrtHalf⟩ : Cx T)) (W 16 6) 1 :=
    ie_kc h (ie_Wnorm _ _).le ⟨(ie_neg_close h h.sqrtHalf).1, (ie_neg_close h h.sqrtHalf).1⟩ (by rw [W16_6]; exact (ie_neg_close h h.sqrtHalf).2)
      (by rw [W16_6]; exact (ie_neg_close h h.sqrtHalf).2)
  have c7 : IAp N D Θ ((⟨F.neg F.cosPi8, F.neg F.sinPi8⟩ : Cx T)) (W 16 7) 1 :=
    ie_kc h (ie_Wnorm _ _).le ⟨(ie_neg_close h h.cosPi8).1, (ie_neg_close h h.sinPi8).1⟩ (by rw [W16_7]; exact (ie_neg_close h h.cosPi8).2)
      (by rw [W16_7]; exact (ie_neg_close h h.sinPi8).2)
  rw [show g * lvl U Θ ^ 4 = g * lvl U Θ * lvl U Θ * lvl U Θ * lvl U Θ by ring]
  simp only [sum_range_succ, range_zero, sum_empty, zero_add]
  rw [show A 0 + A 1 + A 2 + A 3 + A 4 + A 5 + A 6 + A 7 + A 8 + A 9 + A 10 + A 11 + A 12 + A 13 + A 14 + A 15 =
    (A 0 + A 2 + A 4 + A 6 + A 8 + A 10 + A 12 + A 14) + (A 1 + A 3 + A 5 + A 7 + A 9 + A 11 + A 13 + A 15) by ring]
  interval_cases k
  · rw [hd1 0, W_zero, mul_one]; exact ie_bf_add h hΘ e0 o0 (R4 _ (by linarith))
  · rw [hd1 1]; exact ie_bf_addm h (ie_mul h) e1 o1 c1 (R4 _ (by linarith))
  · rw [hd1 2]; exact ie_bf_addm h (ie_mul h) e2 o2 c2 (R4 _ (by linarith))
  · rw [hd1 3]; exact ie_bf_addm h (ie_mul h) e3 o3 c3 (R4 _ (by linarith))
  · rw [hd1 4]; exact ie_bf_addm h (ie_mul h) e4 o4 c4 (R4 _ (by linarith))
  · rw [hd1 5]; exact ie_bf_addm h (ie_mul h) e5 o5 c5 (R4 _ (by linarith))
  · rw [hd1 6]; exact ie_bf_addm h (ie_mul h) e6 o6 c6 (R4 _ (by linarith))
  · rw [hd1 7]; exact ie_bf_addm h (ie_mul h) e7 o7 c7 (R4 _ (by linarith))
  · rw [hd2 0, W_zero, mul_one]; exact ie_bf_sub h hΘ e0 o0 (R4 _ (by linarith))
  · rw [hd2 1]; exact ie_bf_subm h (ie_mul h) e1 o1 c1 (R4 _ (by linarith))
  · rw [hd2 2]; exact ie_bf_subm h (ie_mul h) e2 o2 c2 (R4 _ (by linarith))
  · rw [hd2 3]; exact ie_bf_subm h (ie_mul h) e3 o3 c3 (R4 _ (by linarith))
  · rw [hd2 4]; exact ie_bf_subm h (ie_mul h) e4 o4 c4 (R4 _ (by linarith))
  · rw [hd2 5]; exact ie_bf_subm h (ie_mul h) e5 o5 c5 (R4 _ (by linarith))
  · rw [hd2 6]; exact ie_bf_subm h (ie_mul h) e6 o6 c6 (R4 _ (by linarith))
  · rw [hd2 7]; exact ie_bf_subm h (ie_mul h) e7 o7 c7 (R4 _ (by linarith))

end

theorem ie_smallOut (h : Env F N u η Ω v t D) (cfg : Cfg) (x : List (Cx T))
    (hl : x.length = 2 ∨ x.length = 4 ∨ x.length = 8 ∨ x.length = 16) (X : ℕ → ℂ) (A : ℕ → ℝ) (g : ℝ)
    (hx : ∀ i, i < x.length → IAp N D g (x.getD i Cx.zero) (X i) (A i))
    (hΩ : g * powGrowth cfg U v t x.length * (∑ i ∈ range x.length, A i) ≤ Ω) (k : Nat) (hk : k < x.length) :
    IAp N D (g * powGrowth cfg U v t x.length) ((smallOut cfg x).getD k Cx.zero)
      (dft x.length X k) (∑ i ∈ range x.length, A i) := by
  obtain ⟨y, e, -⟩ := smallKernel_ok cfg x hl
  have hy : smallOut cfg x = y := by simp [smallOut, e]
  rw [hy]
  have hx' := eq_tab_getD x Cx.zero
  obtain ⟨f, hf⟩ : ∃ f : ℕ → Cx T, ∀ i, x.getD i Cx.zero = f i := ⟨_, fun _ => rfl⟩
  simp only [hf] at hx hx'
  unfold powGrowth twGrowth at hΩ ⊢
  rw [if_pos (by omega)] at hΩ ⊢
  rcases hl with hl | hl | hl | hl <;> rw [hl] at hk hx hx' hΩ ⊢
  · have e' : fft2 cfg.debug [f 0, f 1] = .ok y := by
      rw [← e, hx']; rfl
    obtain ⟨y', e2, -, hy'⟩ := ie_fft2 h cfg.debug hx hΩ
    rw [e'] at e2
    cases e2
    exact hy' k hk
  · have e' : fft4 cfg.debug [f 0, f 1, f 2, f 3] = .ok y := by
      rw [← e, hx']; rfl
    obtain ⟨y', e2, -, hy'⟩ := ie_fft4 h cfg.debug hx hΩ
    rw [e'] at e2
    cases e2
    exact hy' k hk
  · have e' : fft8 cfg.debug [f 0, f 1, f 2, f 3, f 4, f 5, f 6, f 7] = .ok y := by
      rw [← e, hx']; rfl
    obtain ⟨y', e2, -, hy'⟩ := ie_fft8 h cfg.debug hx hΩ
    rw [e'] at e2
    cases e2
    exact hy' k hk
  · have e' : fft16 cfg.debug [f 0, f 1, f 2, f 3, f 4, f 5, f 6, f 7, f 8, f 9, f 10, f 11, f 12, f 13, f 14, f 15] = .ok y := by
      rw [← e, hx']; rfl
    obtain ⟨y', e2, -, hy'⟩ := ie_fft16 h cfg.debug hx hΩ
    rw [e'] at e2
    cases e2
    exact hy' k hk

theorem ie_freshPow (h : Env F N u η Ω v t D) (cfg : Cfg) (x : List (Cx T)) (hp : isPow2 x.length = true)
    (X : ℕ → ℂ) (A : ℕ → ℝ) (g : ℝ)
    (hx : ∀ i, i < x.length → IAp N D g (x.getD i Cx.zero) (X i) (A i)) (hn : x.length < 2 ^ 64)
    (hD : x.length * D ≤ 1) (hw : powGrowth cfg U v t x.length ≤ Ω)
    (hΩ : g * powGrowth cfg U v t x.length * (∑ i ∈ range x.length, A i) ≤ Ω) (k : Nat) (hk : k < x.length) :
    IAp N D (g * powGrowth cfg U v t x.length) ((freshPow cfg x).getD k Cx.zero)
      (dft x.length X k) (∑ i ∈ range x.length, A i) := by
  unfold freshPow powOut
  split
  · rename_i h1
    rw [h1] at hk hx ⊢
    have : k = 0 := by omega
    subst this
    simpa [dft, W_zero, powGrowth, show Nat.log2 1 = 0 from log2_pow' 0] using hx 0 (by omega)
  split
  · rename_i h1 h2
    exact ie_smallOut h cfg x (by have := pow2_le16 hp h2; omega) X A g hx hΩ k hk
  unfold bigOut
  split
  · rw [stale_nil Planner.new _ (by simp [Planner.new]), List.append_nil,
      List.take_of_length_le (by rw [stkOut_length])]
    exact ie_stkOut h cfg _ (ie_mulPlain h) x hp (by omega) X A g hx hn hD hw hΩ k hk
  · exact ie_stkOut h cfg _ (ie_mul h) x hp (by omega) X A g hx hn hD hw hΩ k hk

end Kofft
