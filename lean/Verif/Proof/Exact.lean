import Verif.Proof.RunFft
import Verif.Lib.Lawful
import Verif.Lib.Root
import Mathlib.Tactic.IntervalCases
/-
In exact arithmetic the explicit results of `RunFft.lean` are the DFT.
-/
namespace Kofft

open Spec Complex Finset

variable [F : Flt ℝ]

/-! ### Twiddle tables -/

theorem twLoop_exact (h : Lawful F) (c s : ℝ) : ∀ (half : Nat) (w : Cx ℝ) (k : Nat), k < half →
    toC ((twLoop c s half w).getD k Cx.zero) = toC w * (⟨c, s⟩ : ℂ) ^ k
  | 0, _, _, hk => by omega
  | half + 1, w, 0, _ => by simp [twLoop]
  | half + 1, w, k + 1, hk => by
    have := twLoop_exact h c s half
      ⟨F.mulAdd w.re c (F.neg (F.mul w.im s)), F.mulAdd w.im c (F.mul w.re s)⟩ k (by omega)
    simp only [twLoop, List.getD_cons_succ]
    rw [this, pow_succ', ← mul_assoc]
    congr 1
    apply Complex.ext <;> simp [toC, h.mulAdd, h.neg, h.mul]
    · ring
    · ring

theorem twTable_exact (h : Lawful F) (n k : Nat) (hk : k < n / 2) :
    toC ((twTable n).getD k Cx.zero) = W n k := by
  unfold twTable
  simp only
  rw [twLoop_exact h _ _ _ _ _ hk]
  have h1 : toC ⟨F.one, F.zero⟩ = 1 := by apply Complex.ext <;> simp [toC, h.one, h.zero]
  rw [h1, one_mul, show W n k = W n 1 ^ k by rw [← W_mul_pow, one_mul], W_eq_cos]
  have h2 : F.div (F.mul (F.neg (F.lit 2 0)) F.pi) (F.ofNat n) = -2 * Real.pi * (1 : ℕ) / n := by
    rw [h.div, h.mul, h.neg, h.lit, h.pi, h.ofNat]; simp
  rw [h2, h.cos, h.sin]

theorem preTable_exact (h : Lawful F) (n k : Nat) (hk : k < n / 2) :
    toC ((preTable n).getD k Cx.zero) = W n k := by
  unfold preTable
  rw [show (List.range (n / 2)).map _ = tab (n / 2) _ from rfl, tab_getD hk, W_eq_cos]
  have h2 : F.div (F.mul (F.mul (F.neg (F.lit 2 0)) F.pi) (F.ofNatD k)) (F.ofNatD n) =
      -2 * Real.pi * k / n := by
    rw [h.div, h.mul, h.mul, h.neg, h.lit, h.pi, h.ofNatD, h.ofNatD]; simp
  simp only [h.printParse, h2, h.cos, h.sin]
  rfl

theorem twAt_exact (h : Lawful F) (cfg : Cfg) (n k : Nat) (hk : k < n / 2) :
    toC (twAt cfg n k) = W n k := by
  unfold twAt twiddles preLookup
  split
  · simpa using preTable_exact h n k hk
  · simpa using twTable_exact h n k hk

/-! ### Stockham stages -/

theorem stk_exact (h : Lawful F) (mul : Cx ℝ → Cx ℝ → Cx ℝ)
    (hmul : ∀ a b, toC (mul a b) = toC a * toC b) (K : Nat) (tw x : Nat → Cx ℝ)
    (htw : ∀ k, k < 2 ^ K / 2 → toC (tw k) = W (2 ^ K) k) :
    ∀ s, s ≤ K → ∀ q j, q < 2 ^ s → j < 2 ^ K / 2 ^ s →
      toC (stk mul (2 ^ K) tw x s (q * (2 ^ K / 2 ^ s) + j)) =
        ∑ t ∈ range (2 ^ s), toC (x (j + (2 ^ K / 2 ^ s) * t)) * W (2 ^ s) (q * t)
  | 0, _, q, j, hq, hj => by
    have : q = 0 := by simpa using hq
    subst this
    simp [stk, W_zero]
  | s + 1, hs, q, j, hq, hj => by
    set n2 := 2 ^ K / 2 ^ (s + 1) with hn2
    have hK : 2 * 2 ^ s * n2 = 2 ^ K := by
      rw [show 2 * 2 ^ s = 2 ^ (s + 1) by ring]
      exact Nat.mul_div_cancel' (pow_dvd_pow 2 hs)
    have hpos : 0 < n2 := by omega
    have h2s : 0 < 2 ^ s := Nat.pow_pos (by norm_num)
    have hN : 2 ^ K / 2 ^ s = 2 * n2 := by
      rw [← hK]; rw [show 2 * 2 ^ s * n2 = 2 ^ s * (2 * n2) by ring]; exact Nat.mul_div_cancel_left _ h2s
    have ih := stk_exact h mul hmul K tw x htw s (by omega)
    rw [hN] at ih
    have heven : ∀ k, k < 2 ^ s → toC (stk mul (2 ^ K) tw x s (2 * k * n2 + j)) =
        ∑ t ∈ range (2 ^ s), toC (x (j + n2 * (2 * t))) * W (2 ^ (s + 1)) (k * (2 * t)) := by
      intro k hk
      have := ih k j hk (by omega)
      rw [show k * (2 * n2) + j = 2 * k * n2 + j by ring] at this
      rw [this]
      apply sum_congr rfl
      intro t _
      rw [show 2 * n2 * t = n2 * (2 * t) by ring, show k * (2 * t) = 2 * (k * t) by ring,
        show 2 ^ (s + 1) = 2 * 2 ^ s by ring, W_scale (by norm_num)]
    have hodd : ∀ k, k < 2 ^ s →
        toC (stk mul (2 ^ K) tw x s (2 * k * n2 + n2 + j)) * toC (tw (k * n2)) =
        ∑ t ∈ range (2 ^ s), toC (x (j + n2 * (2 * t + 1))) * W (2 ^ (s + 1)) (k * (2 * t + 1)) := by
      intro k hk
      have := ih k (n2 + j) hk (by omega)
      rw [show k * (2 * n2) + (n2 + j) = 2 * k * n2 + n2 + j by ring] at this
      have hkn : k * n2 < 2 ^ K / 2 := by
        have : (k + 1) * n2 ≤ 2 ^ s * n2 := Nat.mul_le_mul_right _ hk
        have e : 2 ^ K / 2 = 2 ^ s * n2 := by rw [← hK, Nat.mul_assoc]; simp
        rw [e]; nlinarith
      have hw : toC (tw (k * n2)) = W (2 ^ (s + 1)) k := by
        rw [htw _ hkn, ← hK, show 2 * 2 ^ s * n2 = n2 * 2 ^ (s + 1) by ring,
          show k * n2 = n2 * k by ring, W_scale (by omega)]
      rw [this, hw, sum_mul]
      apply sum_congr rfl
      intro t _
      rw [show n2 + j + 2 * n2 * t = j + n2 * (2 * t + 1) by ring,
        show k * (2 * t + 1) = 2 * (k * t) + k by ring, W_add,
        show W (2 ^ (s + 1)) (2 * (k * t)) = W (2 ^ s) (k * t) by
          rw [show 2 ^ (s + 1) = 2 * 2 ^ s by ring, W_scale (by norm_num)]]
      ring
    rw [show range (2 ^ (s + 1)) = range (2 * 2 ^ s) by congr 1; ring, sum_range_even_odd]
    show toC (stageF mul (2 ^ s) n2 tw (stk mul (2 ^ K) tw x s) (q * n2 + j)) = _
    by_cases hq2 : q < 2 ^ s
    · rw [stageF_lo hq2 hj, toC_add h, hmul, heven q hq2, hodd q hq2]
    · obtain ⟨k, rfl⟩ : ∃ k, q = k + 2 ^ s := ⟨q - 2 ^ s, by omega⟩
      have hk : k < 2 ^ s := by rw [pow_succ] at hq; omega
      rw [stageF_hi hj, toC_sub h, hmul, heven k hk, hodd k hk, sub_eq_add_neg, ← sum_neg_distrib]
      congr 1
      · apply sum_congr rfl
        intro t _
        rw [show (k + 2 ^ s) * (2 * t) = k * (2 * t) + t * 2 ^ (s + 1) by ring, W_add,
          W_mul_self (by positivity), mul_one]
      · apply sum_congr rfl
        intro t _
        rw [show (k + 2 ^ s) * (2 * t + 1) = k * (2 * t + 1) + (t * 2 ^ (s + 1) + 2 ^ s) by ring, W_add,
          W_add, W_mul_self (by positivity),
          show W (2 ^ (s + 1)) (2 ^ s) = -1 by
            rw [show 2 ^ (s + 1) = 2 * 2 ^ s by ring]; exact W_half (by omega)]
        ring

/-- All stages together: the DFT. -/
theorem stkOut_exact (h : Lawful F) (cfg : Cfg) (mul : Cx ℝ → Cx ℝ → Cx ℝ)
    (hmul : ∀ a b, toC (mul a b) = toC a * toC b) (z : List (Cx ℝ)) (hp : isPow2 z.length = true)
    (k : Nat) (hk : k < z.length) :
    toC ((stkOut cfg mul z).getD k Cx.zero) =
      dft z.length (fun t => toC (z.getD t Cx.zero)) k := by
  obtain ⟨K, hK⟩ := isPow2_iff.mp hp
  unfold stkOut
  rw [tab_getD hk, hK, log2_pow']
  have := stk_exact h mul hmul K (twAt cfg (2 ^ K)) (fun i => z.getD i Cx.zero)
    (fun k hk => twAt_exact h cfg _ k hk) K le_rfl k 0 (by omega)
    (by rw [Nat.div_self (Nat.pow_pos (by norm_num))]; norm_num)
  rw [Nat.div_self (Nat.pow_pos (by norm_num))] at this
  simp only [mul_one, add_zero, one_mul, zero_add] at this
  rw [this]
  rfl

/-! ### Kernels -/

theorem toC_minusI (h : Lawful F) : toC (cxMinusI : Cx ℝ) = -I := by
  apply Complex.ext <;> simp [toC, cxMinusI, h.zero, h.neg, h.one]

/-- `fft2` is the 2-point DFT. -/
theorem fft2_exact (h : Lawful F) (dbg : Bool) (a b : Cx ℝ) :
    ∃ y, fft2 dbg [a, b] = .ok y ∧ y.length = 2 ∧
      ∀ k < 2, toC (y.getD k Cx.zero) = dft 2 (fun t => toC ([a, b].getD t Cx.zero)) k := by
  refine ⟨[a.add b, a.sub b], by cases dbg <;> rfl, rfl, ?_⟩
  intro k hk
  have := dft_two (fun t => toC ([a, b].getD t Cx.zero))
  interval_cases k
  · rw [this.1]; simp [toC_add h]
  · rw [this.2]; simp [toC_sub h]

/-- `fft4` is the 4-point DFT. -/
theorem fft4_exact (h : Lawful F) (dbg : Bool) (a b c d : Cx ℝ) :
    ∃ y, fft4 dbg [a, b, c, d] = .ok y ∧ y.length = 4 ∧
      ∀ k < 4, toC (y.getD k Cx.zero) = dft 4 (fun t => toC ([a, b, c, d].getD t Cx.zero)) k := by
  refine ⟨_, by cases dbg <;> rfl, rfl, ?_⟩
  intro k hk
  obtain ⟨h0, h1, h2, h3⟩ := dft_four (fun t => toC ([a, b, c, d].getD t Cx.zero))
  interval_cases k
  · rw [h0]; simp [toC_add h]
  · rw [h1]; simp [toC_add h, toC_sub h, toC_mul h, toC_minusI h]
  · rw [h2]; simp [toC_add h, toC_sub h]
  · rw [h3]; simp [toC_sub h, toC_mul h, toC_minusI h]

/-- The 8-point block. -/
theorem fft16Half_exact (h : Lawful F) (x : ℕ → Cx ℝ) :
    let r := fft16Half (x 0) (x 1) (x 2) (x 3) (x 4) (x 5) (x 6) (x 7)
    let X := dft 8 (fun t => toC (x t))
    toC r.1 = X 0 ∧ toC r.2.1 = X 1 ∧ toC r.2.2.1 = X 2 ∧ toC r.2.2.2.1 = X 3 ∧
    toC r.2.2.2.2.1 = X 4 ∧ toC r.2.2.2.2.2.1 = X 5 ∧ toC r.2.2.2.2.2.2.1 = X 6 ∧
    toC r.2.2.2.2.2.2.2 = X 7 := by
  obtain ⟨h0, h1, h2, h3, h4, h5, h6, h7⟩ := dft_eight (fun t => toC (x t))
  have s1 : toC (⟨F.sqrtHalf, F.neg F.sqrtHalf⟩ : Cx ℝ) = W 8 1 := by
    rw [W8_1]; simp only [toC, h.neg, h.sqrtHalf]
  have s3 : toC (⟨F.neg F.sqrtHalf, F.neg F.sqrtHalf⟩ : Cx ℝ) = W 8 3 := by
    rw [W8_3]; simp only [toC, h.neg, h.sqrtHalf]
  simp only [fft16Half, toC_add h, toC_sub h, toC_mul h, toC_minusI h, s1, s3]
  obtain ⟨e0, e1, e2, e3⟩ := dft_four (fun t => toC (x (2 * t)))
  obtain ⟨o0, o1, o2, o3⟩ := dft_four (fun t => toC (x (2 * t + 1)))
  norm_num at e0 e1 e2 e3 o0 o1 o2 o3
  rw [h0, h1, h2, h3, h4, h5, h6, h7, e0, e1, e2, e3, o0, o1, o2, o3]
  refine ⟨?_, ?_, ?_, ?_, ?_, ?_, ?_, ?_⟩ <;> ring

/-- `fft8` is the 8-point DFT. -/
theorem fft8_exact (h : Lawful F) (dbg : Bool) (x : ℕ → Cx ℝ) :
    ∃ y, fft8 dbg [x 0, x 1, x 2, x 3, x 4, x 5, x 6, x 7] = .ok y ∧ y.length = 8 ∧
      ∀ k < 8, toC (y.getD k Cx.zero) = dft 8 (fun t => toC (x t)) k := by
  refine ⟨_, by cases dbg <;> rfl, rfl, ?_⟩
  intro k hk
  obtain ⟨h0, h1, h2, h3, h4, h5, h6, h7⟩ := fft16Half_exact h x
  interval_cases k
  · exact h0
  · exact h1
  · exact h2
  · exact h3
  · exact h4
  · exact h5
  · exact h6
  · exact h7

/-- `fft16` is the 16-point DFT. -/
theorem fft16_exact (h : Lawful F) (dbg : Bool) (x : ℕ → Cx ℝ) :
    ∃ y, fft16 dbg [x 0, x 1, x 2, x 3, x 4, x 5, x 6, x 7, x 8, x 9, x 10, x 11, x 12, x 13,
      x 14, x 15] = .ok y ∧ y.length = 16 ∧
      ∀ k < 16, toC (y.getD k Cx.zero) = dft 16 (fun t => toC (x t)) k := by
  set e := fft16Half (x 0) (x 2) (x 4) (x 6) (x 8) (x 10) (x 12) (x 14) with he
  set o := fft16Half (x 1) (x 3) (x 5) (x 7) (x 9) (x 11) (x 13) (x 15) with ho
  let t1 := o.2.1.mul ⟨F.cosPi8, F.neg F.sinPi8⟩
  let t2 := o.2.2.1.mul ⟨F.sqrtHalf, F.neg F.sqrtHalf⟩
  let t3 := o.2.2.2.1.mul ⟨F.sinPi8, F.neg F.cosPi8⟩
  let t4 := o.2.2.2.2.1.mul ⟨F.zero, F.neg F.one⟩
  let t5 := o.2.2.2.2.2.1.mul ⟨F.neg F.sinPi8, F.neg F.cosPi8⟩
  let t6 := o.2.2.2.2.2.2.1.mul ⟨F.neg F.sqrtHalf, F.neg F.sqrtHalf⟩
  let t7 := o.2.2.2.2.2.2.2.mul ⟨F.neg F.cosPi8, F.neg F.sinPi8⟩
  refine ⟨[e.1.add o.1, e.2.1.add t1, e.2.2.1.add t2, e.2.2.2.1.add t3, e.2.2.2.2.1.add t4,
    e.2.2.2.2.2.1.add t5, e.2.2.2.2.2.2.1.add t6, e.2.2.2.2.2.2.2.add t7,
    e.1.sub o.1, e.2.1.sub t1, e.2.2.1.sub t2, e.2.2.2.1.sub t3, e.2.2.2.2.1.sub t4,
    e.2.2.2.2.2.1.sub t5, e.2.2.2.2.2.2.1.sub t6, e.2.2.2.2.2.2.2.sub t7],
    by cases dbg <;> rfl, rfl, ?_⟩
  intro k hk
  obtain ⟨e0, e1, e2, e3, e4, e5, e6, e7⟩ := fft16Half_exact h (fun t => x (2 * t))
  obtain ⟨o0, o1, o2, o3, o4, o5, o6, o7⟩ := fft16Half_exact h (fun t => x (2 * t + 1))
  norm_num [← he, ← ho] at e0 e1 e2 e3 e4 e5 e6 e7 o0 o1 o2 o3 o4 o5 o6 o7
  have hd := fun k => dft_double (m := 8) (fun t => toC (x t)) k
  have pe := fun k => dft_periodic (n := 8) (by norm_num) (fun t => toC (x (2 * t))) k
  have po := fun k => dft_periodic (n := 8) (by norm_num) (fun t => toC (x (2 * t + 1))) k
  have hw : ∀ k, W 16 (k + 8) = - W 16 k := by
    intro k; rw [W_add, W_half (m := 8) (by norm_num)]; ring
  have hd2 : ∀ k, dft 16 (fun t => toC (x t)) (k + 8) =
      dft 8 (fun t => toC (x (2 * t))) k - W 16 k * dft 8 (fun t => toC (x (2 * t + 1))) k := by
    intro k
    have := hd (k + 8)
    rw [pe, po, hw] at this
    rw [this]; ring
  norm_num at hd
  have c1 : toC (⟨F.cosPi8, F.neg F.sinPi8⟩ : Cx ℝ) = W 16 1 := by
    rw [W16_1]; simp only [toC, h.neg, h.cosPi8, h.sinPi8]
  have c2 : toC (⟨F.sqrtHalf, F.neg F.sqrtHalf⟩ : Cx ℝ) = W 16 2 := by
    rw [W16_2]; simp only [toC, h.neg, h.sqrtHalf]
  have c3 : toC (⟨F.sinPi8, F.neg F.cosPi8⟩ : Cx ℝ) = W 16 3 := by
    rw [W16_3]; simp only [toC, h.neg, h.cosPi8, h.sinPi8]
  have c4 : toC (⟨F.zero, F.neg F.one⟩ : Cx ℝ) = W 16 4 := by
    rw [W16_4]; exact toC_minusI h
  have c5 : toC (⟨F.neg F.sinPi8, F.neg F.cosPi8⟩ : Cx ℝ) = W 16 5 := by
    rw [W16_5]; simp only [toC, h.neg, h.cosPi8, h.sinPi8]
  have c6 : toC (⟨F.neg F.sqrtHalf, F.neg F.sqrtHalf⟩ : Cx ℝ) = W 16 6 := by
    rw [W16_6]; simp only [toC, h.neg, h.sqrtHalf]
  have c7 : toC (⟨F.neg F.cosPi8, F.neg F.sinPi8⟩ : Cx ℝ) = W 16 7 := by
    rw [W16_7]; simp only [toC, h.neg, h.cosPi8, h.sinPi8]
  interval_cases k
  · rw [hd 0, W_zero]; simp only [List.getD_cons_zero, toC_add h, e0, o0]; ring
  · rw [hd 1]; simp only [List.getD_cons_succ, List.getD_cons_zero, toC_add h, t1, toC_mul h, c1, e1, o1]; ring
  · rw [hd 2]; simp only [List.getD_cons_succ, List.getD_cons_zero, toC_add h, t2, toC_mul h, c2, e2, o2]; ring
  · rw [hd 3]; simp only [List.getD_cons_succ, List.getD_cons_zero, toC_add h, t3, toC_mul h, c3, e3, o3]; ring
  · rw [hd 4]; simp only [List.getD_cons_succ, List.getD_cons_zero, toC_add h, t4, toC_mul h, c4, e4, o4]; ring
  · rw [hd 5]; simp only [List.getD_cons_succ, List.getD_cons_zero, toC_add h, t5, toC_mul h, c5, e5, o5]; ring
  · rw [hd 6]; simp only [List.getD_cons_succ, List.getD_cons_zero, toC_add h, t6, toC_mul h, c6, e6, o6]; ring
  · rw [hd 7]; simp only [List.getD_cons_succ, List.getD_cons_zero, toC_add h, t7, toC_mul h, c7, e7, o7]; ring
  · rw [hd2 0, W_zero]; simp only [List.getD_cons_succ, List.getD_cons_zero, toC_sub h, e0, o0]; ring
  · rw [hd2 1]; simp only [List.getD_cons_succ, List.getD_cons_zero, toC_sub h, t1, toC_mul h, c1, e1, o1]; ring
  · rw [hd2 2]; simp only [List.getD_cons_succ, List.getD_cons_zero, toC_sub h, t2, toC_mul h, c2, e2, o2]; ring
  · rw [hd2 3]; simp only [List.getD_cons_succ, List.getD_cons_zero, toC_sub h, t3, toC_mul h, c3, e3, o3]; ring
  · rw [hd2 4]; simp only [List.getD_cons_succ, List.getD_cons_zero, toC_sub h, t4, toC_mul h, c4, e4, o4]; ring
  · rw [hd2 5]; simp only [List.getD_cons_succ, List.getD_cons_zero, toC_sub h, t5, toC_mul h, c5, e5, o5]; ring
  · rw [hd2 6]; simp only [List.getD_cons_succ, List.getD_cons_zero, toC_sub h, t6, toC_mul h, c6, e6, o6]; ring
  · rw [hd2 7]; simp only [List.getD_cons_succ, List.getD_cons_zero, toC_sub h, t7, toC_mul h, c7, e7, o7]; ring

/-! ### Power-of-two lengths -/

theorem smallOut_exact (h : Lawful F) (cfg : Cfg) (x : List (Cx ℝ))
    (hx : x.length = 2 ∨ x.length = 4 ∨ x.length = 8 ∨ x.length = 16) (k : Nat) (hk : k < x.length) :
    toC ((smallOut cfg x).getD k Cx.zero) = dft x.length (fun t => toC (x.getD t Cx.zero)) k := by
  obtain ⟨y, e, -⟩ := smallKernel_ok cfg x hx
  have hy : smallOut cfg x = y := by simp [smallOut, e]
  rw [hy]
  have hx' := eq_tab_getD x Cx.zero
  generalize hg : (fun i => x.getD i Cx.zero) = g at hx'
  have hg' : (fun t => toC (x.getD t Cx.zero)) = fun t => toC (g t) := by rw [← hg]
  rw [hg']
  rcases hx with hl | hl | hl | hl
  · have hx2 : x = [g 0, g 1] := by rw [hx', hl]; rfl
    have e' : fft2 cfg.debug [g 0, g 1] = .ok y := by
      rw [← e, hx2]; rfl
    obtain ⟨y', e2, -, hy'⟩ := fft2_exact h cfg.debug (g 0) (g 1)
    rw [e'] at e2
    cases e2
    rw [hl] at hk ⊢
    rw [hy' k hk]
    apply dft_congr
    intro t ht
    interval_cases t <;> rfl
  · have hx2 : x = [g 0, g 1, g 2, g 3] := by rw [hx', hl]; rfl
    have e' : fft4 cfg.debug [g 0, g 1, g 2, g 3] = .ok y := by
      rw [← e, hx2]; rfl
    obtain ⟨y', e2, -, hy'⟩ := fft4_exact h cfg.debug (g 0) (g 1) (g 2) (g 3)
    rw [e'] at e2
    cases e2
    rw [hl] at hk ⊢
    rw [hy' k hk]
    apply dft_congr
    intro t ht
    interval_cases t <;> rfl
  · have hx2 : x = [g 0, g 1, g 2, g 3, g 4, g 5, g 6, g 7] := by rw [hx', hl]; rfl
    have e' : fft8 cfg.debug [g 0, g 1, g 2, g 3, g 4, g 5, g 6, g 7] = .ok y := by
      rw [← e, hx2]; rfl
    obtain ⟨y', e2, -, hy'⟩ := fft8_exact h cfg.debug g
    rw [e'] at e2
    cases e2
    rw [hl] at hk ⊢
    exact hy' k hk
  · have hx2 : x = [g 0, g 1, g 2, g 3, g 4, g 5, g 6, g 7, g 8, g 9, g 10, g 11, g 12, g 13, g 14,
        g 15] := by rw [hx', hl]; rfl
    have e' : fft16 cfg.debug [g 0, g 1, g 2, g 3, g 4, g 5, g 6, g 7, g 8, g 9, g 10, g 11, g 12,
        g 13, g 14, g 15] = .ok y := by
      rw [← e, hx2]; rfl
    obtain ⟨y', e2, -, hy'⟩ := fft16_exact h cfg.debug g
    rw [e'] at e2
    cases e2
    rw [hl] at hk ⊢
    exact hy' k hk

theorem freshPow_exact (h : Lawful F) (cfg : Cfg) (x : List (Cx ℝ)) (hp : isPow2 x.length = true)
    (k : Nat) (hk : k < x.length) :
    toC ((freshPow cfg x).getD k Cx.zero) = dft x.length (fun t => toC (x.getD t Cx.zero)) k := by
  unfold freshPow powOut
  split
  · rename_i h1
    rw [h1] at hk ⊢
    have : k = 0 := by omega
    subst this
    simp [dft, W_zero]
  split
  · rename_i h1 h2
    exact smallOut_exact h cfg x (by have := pow2_le16 hp h2; omega) k hk
  unfold bigOut
  split
  · rw [stale_nil Planner.new _ (by simp [Planner.new]), List.append_nil,
      List.take_of_length_le (by rw [stkOut_length])]
    exact stkOut_exact h cfg _ (toC_mulPlain h) x hp k hk
  · exact stkOut_exact h cfg _ (toC_mul h) x hp k hk

theorem freshPow_length (cfg : Cfg) (x : List (Cx ℝ)) (hp : isPow2 x.length = true) :
    (freshPow cfg x).length = x.length := powOut_length cfg _ x hp

/-! ### Bluestein -/

theorem bluAngle_exact (h : Lawful F) (n i : Nat) : (bluAngle n i : ℝ) = Real.pi * (i * i : ℕ) / n := by
  simp only [bluAngle, h.div, h.mul, h.pi, h.ofNat]

theorem chirpAt_exact (h : Lawful F) (n i : Nat) :
    toC (chirpAt n i) = exp (-(Real.pi * (i * i : ℕ) / n * I)) := by
  rw [chirpAt, toC_expi h, h.neg, bluAngle_exact h]
  congr 1; push_cast; ring

theorem bAt_exact (h : Lawful F) (n i : Nat) :
    toC (Cx.expi (bluAngle n i)) = exp (Real.pi * (i * i : ℕ) / n * I) := by
  rw [toC_expi h, bluAngle_exact h]; push_cast; rfl

theorem getD_map {α β : Type} (l : List α) (f : α → β) (i : Nat) (d : α) (d' : β) (h : i < l.length) :
    (l.map f).getD i d' = f (l.getD i d) := by
  simp [List.getD_eq_getElem?_getD, h]

set_option maxHeartbeats 2000000 in
theorem bluOut_exact (h : Lawful F) (cfg : Cfg) (x : List (Cx ℝ)) (hn : 0 < x.length)
    (k : Nat) (hk : k < x.length) :
    toC ((bluOut cfg x).getD k Cx.zero) = dft x.length (fun t => toC (x.getD t Cx.zero)) k := by
  set n := x.length with hnx
  set m := bluM n with hm
  have hmge : 2 * n - 1 ≤ m := bluM_ge n
  have hmp : isPow2 m = true := bluM_pow2 n
  have hm0 : 0 < m := isPow2_pos hmp
  set A := bluA n m m (fun i => x.getD i Cx.zero) (fun _ => Cx.zero) with hA
  have hAl : A.length = m := by simp [hA, bluA]
  set B := tab m (bAt (T := ℝ) n) with hB
  have hBl : B.length = m := by simp [hB]
  let a : ℕ → ℂ := fun t => toC (A.getD t Cx.zero)
  let b : ℕ → ℂ := fun t => toC (B.getD t Cx.zero)
  set FA := freshPow cfg A with hFA
  set FB := freshPow cfg B with hFB
  have hFAl : FA.length = m := by rw [hFA, freshPow_length cfg A (by rw [hAl]; exact hmp), hAl]
  have hFBl : FB.length = m := by rw [hFB, freshPow_length cfg B (by rw [hBl]; exact hmp), hBl]
  have eFA : ∀ j, j < m → toC (FA.getD j Cx.zero) = dft m a j := by
    intro j hj
    have := freshPow_exact h cfg A (by rw [hAl]; exact hmp) j (by omega)
    rwa [hAl] at this
  have eFB : ∀ j, j < m → toC (FB.getD j Cx.zero) = dft m b j := by
    intro j hj
    have := freshPow_exact h cfg B (by rw [hBl]; exact hmp) j (by omega)
    rwa [hBl] at this
  set M := bluMid FA FB with hM
  have hMtab : M = tab m (fun i => ((FA.getD i Cx.zero).mul (FB.getD i Cx.zero)).conj) := by
    have t1 : FA = tab m (fun i => FA.getD i Cx.zero) := by
      conv_lhs => rw [eq_tab_getD FA Cx.zero, hFAl]
    have t2 : FB = tab m (fun i => FB.getD i Cx.zero) := by
      conv_lhs => rw [eq_tab_getD FB Cx.zero, hFBl]
    have : M = (copyPrefix (List.zipWith Cx.mul (tab m fun i => FA.getD i Cx.zero)
        (tab m fun i => FB.getD i Cx.zero)) (tab m fun i => FA.getD i Cx.zero)).map Cx.conj := by
      rw [← t1, ← t2, hM]; rfl
    rw [this, tab_zipWith, (copyN_tab (m := m) le_rfl le_rfl).1, tab_map]
    apply tab_congr
    intro i hi
    simp [hi]
  have hMl : M.length = m := by rw [hMtab]; simp
  have eM : ∀ j, j < m → toC (M.getD j Cx.zero) = (starRingEnd ℂ) (dft m a j * dft m b j) := by
    intro j hj
    rw [hMtab, tab_getD hj, toC_conj h, toC_mul h, eFA j hj, eFB j hj]
  set R := freshPow cfg M with hR
  have eR : ∀ j, j < m → toC (R.getD j Cx.zero) =
      dft m (fun i => (starRingEnd ℂ) (dft m a i * dft m b i)) j := by
    intro j hj
    have := freshPow_exact h cfg M (by rw [hMl]; exact hmp) j (by omega)
    rw [hMl] at this
    rw [hR, this]
    exact dft_congr (fun t ht => eM t ht) j
  have hout : bluOut cfg x = bluPost n m R := rfl
  rw [hout, bluPost, tab_getD hk, toC_mul h, toC_scale h, toC_conj h, eR k (by omega)]
  have hconv : (starRingEnd ℂ) (dft m (fun i => (starRingEnd ℂ) (dft m a i * dft m b i)) k) *
      ((F.div F.one (F.ofNat m) : ℝ) : ℂ) = ∑ t ∈ range m, a t * b ((k + (m - t)) % m) := by
    rw [← idft_mul a b (show k < m by omega), idft_conj, h.div, h.one, h.ofNat]
    push_cast; ring
  rw [hconv]
  -- only t < n contributes
  have hsub : ∑ t ∈ range m, a t * b ((k + (m - t)) % m) = ∑ t ∈ range n, a t * b ((k + (m - t)) % m) := by
    symm
    apply sum_subset
    · intro t ht; rw [mem_range] at *; omega
    · intro t ht1 ht2
      rw [mem_range] at *
      have : a t = 0 := by
        show toC (A.getD t Cx.zero) = 0
        rw [hA, bluA, tab_getD ht1, if_neg (by omega), if_pos ht1, toC_zero h]
      rw [this, zero_mul]
  rw [hsub, sum_mul]
  unfold dft
  apply sum_congr rfl
  intro t ht
  rw [mem_range] at ht
  have ea : a t = toC (x.getD t Cx.zero) * toC (chirpAt n t) := by
    show toC (A.getD t Cx.zero) = _
    rw [hA, bluA, tab_getD (by omega), if_pos ht, toC_mul h]
  have eb : b ((k + (m - t)) % m) = exp (Real.pi * (((k : ℝ) - t) * (k - t) : ℝ) / n * I) := by
    show toC (B.getD _ Cx.zero) = _
    rw [hB, tab_getD (Nat.mod_lt _ hm0)]
    by_cases htk : t ≤ k
    · have : (k + (m - t)) % m = k - t := by
        rw [Nat.mod_eq_sub_mod (by omega), Nat.mod_eq_of_lt (by omega)]; omega
      rw [this, bAt, if_pos (by omega), bAt_exact h]
      push_cast [Nat.cast_sub htk]
      rfl
    · have : (k + (m - t)) % m = m - (t - k) := by
        rw [Nat.mod_eq_of_lt (by omega)]; omega
      rw [this, bAt, if_neg (by omega), if_pos (by rw [← hm]; omega), ← hm,
        show m - (m - (t - k)) = t - k by omega, bAt_exact h]
      push_cast [Nat.cast_sub (show k ≤ t by omega)]
      congr 1; ring
  rw [ea, eb, chirpAt_exact h, chirpAt_exact h, W, mul_assoc, mul_assoc, ← exp_add, ← exp_add]
  congr 2
  have : (n : ℂ) ≠ 0 := by exact_mod_cast (by omega : n ≠ 0)
  push_cast
  field_simp
  ring

theorem freshOut_exact (h : Lawful F) (cfg : Cfg) (x : List (Cx ℝ)) (k : Nat) (hk : k < x.length) :
    toC ((freshOut cfg x).getD k Cx.zero) = dft x.length (fun t => toC (x.getD t Cx.zero)) k := by
  unfold freshOut
  split
  · rename_i hp; exact freshPow_exact h cfg x hp k hk
  · exact bluOut_exact h cfg x (by omega) k hk

end Kofft
