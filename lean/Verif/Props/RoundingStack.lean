import Verif.Proof.RoundStack
import Verif.Proof.RfftStack
import Verif.Proof.RoundStft
import Verif.Props.Rounding
/-
Property C76: accuracy of the stack-only transforms in floating-point arithmetic.
-/
namespace Kofft.Props
open Spec Complex Finset

variable [F : Flt ℝ] {u v t : ℝ}

/-- C76a. `fft_inplace_stack` in rounding arithmetic: every bin of a `2^K`-point transform is within the stated bound of
the DFT. -/
theorem fft_stack_error (hF : Rounding F u v t) (K : ℕ) (x : List (Cx ℝ)) (hx : x.length = 2 ^ K) :
    ∃ y, fftStack x = .ok (y, .ok ()) ∧ y.length = x.length ∧ ∀ k, k < x.length →
      ‖sig y k - dft x.length (sig x) k‖ ≤ (stackGrowth u t K - 1) * ∑ i ∈ range x.length, ‖sig x i‖ := by
  obtain ⟨y, e, hy, hb⟩ := fftStack_rnd hF K x hx (sig x) (fun i => ‖sig x i‖) 1 (fun i hi => sig_apx x i (by omega))
  refine ⟨y, e, by omega, ?_⟩
  intro k hk
  have := (hb k (by omega)).err
  rw [one_mul, ← sig_getD _ _ (by omega), ← hx] at this
  exact this

/-- C76b. `ifft_inplace_stack`. -/
theorem ifft_stack_error (hF : Rounding F u v t) (K : ℕ) (x : List (Cx ℝ)) (hx : x.length = 2 ^ K) :
    ∃ y, ifftStack x = .ok (y, .ok ()) ∧ y.length = x.length ∧ ∀ k, k < x.length →
      ‖sig y k - idft x.length (sig x) k‖ ≤
        (stackGrowth u t K * (1 + u) ^ 2 - 1) * ((∑ i ∈ range x.length, ‖sig x i‖) / x.length) := by
  obtain ⟨y, e, hy, hb⟩ := ifftStack_rnd hF K x hx (sig x) (fun i => ‖sig x i‖) 1 (fun i hi => sig_apx x i (by omega))
  refine ⟨y, e, by omega, ?_⟩
  intro k hk
  have := (hb k (by omega)).err
  rw [one_mul, ← sig_getD _ _ (by omega), ← hx] at this
  rw [hx] at this ⊢
  push_cast
  exact this

/-- C76c. Forward and back: every sample of `2^K` is returned within the stated bound. -/
theorem stack_round_trip_error (hF : Rounding F u v t) (K : ℕ) (x : List (Cx ℝ)) (hx : x.length = 2 ^ K) :
    ∃ y z, fftStack x = .ok (y, .ok ()) ∧ ifftStack y = .ok (z, .ok ()) ∧ z.length = x.length ∧ ∀ k, k < x.length →
      ‖sig z k - sig x k‖ ≤ (stackGrowth u t K ^ 2 * (1 + u) ^ 2 - 1) * ∑ i ∈ range x.length, ‖sig x i‖ := by
  obtain ⟨y, e, hy, hb⟩ := fftStack_rnd hF K x hx (sig x) (fun i => ‖sig x i‖) 1 (fun i hi => sig_apx x i (by omega))
  obtain ⟨z, e', hz, hc⟩ := ifftStack_rnd hF K y hy (dft (2 ^ K) (sig x)) (fun _ => ∑ i ∈ range (2 ^ K), ‖sig x i‖) _ hb
  refine ⟨y, z, e, e', by omega, ?_⟩
  intro k hk
  have := (hc k (by omega)).err
  have hne : ((2 : ℝ) ^ K) ≠ 0 := by positivity
  rw [one_mul, ← sig_getD _ _ (by omega), idft_dft _ (by omega), sum_const, card_range, nsmul_eq_mul, ← sq] at this
  push_cast at this
  rw [mul_div_cancel_left₀ _ hne, ← hx] at this
  exact this

omit F in
private theorem sum_mirror (A : ℕ → ℝ) (h : ∀ k, 0 ≤ A k) (K : ℕ) :
    ∑ k ∈ range (2 ^ K), (if 2 ^ K / 2 < k then A (2 ^ K - k) else A k) ≤ 2 * ∑ k ∈ range (2 ^ K / 2 + 1), A k := by
  obtain ⟨N, hN⟩ : ∃ N, 2 ^ K = N := ⟨_, rfl⟩
  rw [hN]
  have e := sum_filter_add_sum_filter_not (range N) (fun k => N / 2 < k) (fun k => if N / 2 < k then A (N - k) else A k)
  rw [← e, two_mul]
  apply add_le_add
  · calc _ = ∑ k ∈ (range N).filter (fun k => N / 2 < k), A (N - k) :=
        sum_congr rfl fun k hk => if_pos (mem_filter.mp hk).2
      _ = ∑ k ∈ ((range N).filter (fun k => N / 2 < k)).image (fun k => N - k), A k := by
        rw [sum_image]
        intro a ha b hb hab
        simp only [coe_filter, mem_range, Set.mem_setOf_eq] at ha hb
        simp only at hab
        omega
      _ ≤ _ := by
        apply sum_le_sum_of_subset_of_nonneg
        · intro k hk
          simp only [mem_image, mem_filter, mem_range] at hk ⊢
          obtain ⟨a, ha, rfl⟩ := hk
          omega
        · exact fun k _ _ => h k
  · calc _ = ∑ k ∈ (range N).filter (fun k => ¬ N / 2 < k), A k :=
        sum_congr rfl fun k hk => if_neg (mem_filter.mp hk).2
      _ ≤ _ := by
        apply sum_le_sum_of_subset_of_nonneg
        · intro k hk
          simp only [mem_filter, mem_range] at hk ⊢
          omega
        · exact fun k _ _ => h k

/-- C76e. `rfft_stack` of `2^K` real samples, `K ≥ 1`: bins `0 ..= N/2` of the DFT. -/
theorem rfft_stack_error (hF : Rounding F u v t) (K : ℕ) (hK : 0 < K) (x : List ℝ) (hx : x.length = 2 ^ K)
    (out : List (Cx ℝ)) (ho : out.length = x.length / 2 + 1) :
    ∃ y, rfftStack x out = .ok (y, .ok ()) ∧ y.length = x.length / 2 + 1 ∧ ∀ k, k ≤ x.length / 2 →
      ‖sig y k - dft x.length (rsig x) k‖ ≤ (stackGrowth u t K - 1) * ∑ i ∈ range x.length, ‖rsig x i‖ := by
  have h2 : 2 ≤ x.length := by
    rw [hx]
    calc 2 = 2 ^ 1 := by norm_num
      _ ≤ 2 ^ K := Nat.pow_le_pow_right (by norm_num) hK
  obtain ⟨y, e, hy, hb⟩ := fftStack_rnd hF K (x.map fun v => (⟨v, F.zero⟩ : Cx ℝ)) (by simpa using hx) (rsig x)
    (fun i => ‖rsig x i‖) 1 (by
      intro i hi
      have : toC ((x.map fun v => (⟨v, F.zero⟩ : Cx ℝ)).getD i Cx.zero) = rsig x i := by
        rw [getD_map x _ i 0 Cx.zero (by omega)]
        apply Complex.ext <;> simp [rsig, hF.zero]
      rw [this]
      exact Apx.refl _)
  refine ⟨_, rfftStack_eq x out (by omega) ho e (by omega), ?_, ?_⟩
  · simp only [resCase, List.length_take]; omega
  · intro k hk
    have := (hb k (by omega)).err
    rw [one_mul, ← hx] at this
    rw [sig_getD _ _ (by simp only [resCase, List.length_take]; omega)]
    have e2 : (resCase (.ok ()) out (y.take (x.length / 2 + 1))).getD k Cx.zero = y.getD k Cx.zero := by
      simp only [resCase, List.getD_eq_getElem?_getD, List.getElem?_take, show k < x.length / 2 + 1 by omega, if_true]
    rw [e2]
    exact this

/-- C76f. `irfft_stack` of a half spectrum, against the inverse DFT of its conjugate-symmetric extension. -/
theorem irfft_stack_error (hF : Rounding F u v t) (K : ℕ) (hK : 0 < K) (X : List (Cx ℝ)) (out : List ℝ)
    (ho : out.length = 2 ^ K) (hX : X.length = out.length / 2 + 1) :
    ∃ y, irfftStack X out = .ok (y, .ok ()) ∧ y.length = out.length ∧ ∀ s, s < out.length →
      ‖rsig y s - idft out.length (hermitian out.length (sig X)) s‖ ≤
        (stackGrowth u t K * (1 + u) ^ 2 - 1) * (2 * (∑ k ∈ range X.length, ‖sig X k‖) / out.length) := by
  have hu := hF.u_nonneg
  have hev : 2 ^ K % 2 = 0 := by
    obtain ⟨j, rfl⟩ : ∃ j, K = j + 1 := ⟨K - 1, by omega⟩
    rw [pow_succ]; omega
  have hpos : 0 < 2 ^ K := by positivity
  set A : ℕ → ℝ := fun k => if 2 ^ K / 2 < k then ‖sig X (2 ^ K - k)‖ else ‖sig X k‖ with hA
  obtain ⟨y, e, hy, hb⟩ := ifftStack_rnd hF K (hermBuf out.length X) (by simpa [hermBuf] using ho)
    (fun k => if 2 ^ K / 2 < k then (starRingEnd ℂ) (sig X (2 ^ K - k)) else sig X k) A 1 (by
      intro i hi
      rw [hermBuf, tab_getD (by omega), ho]
      simp only [hA]
      by_cases c : 2 ^ K / 2 < i
      · simp only [if_pos c]
        rw [rnd_conj hF]
        exact (sig_apx X _ (by omega)).conj'
      · simp only [if_neg c]
        exact sig_apx X _ (by omega))
  refine ⟨_, irfftStack_eq X out (by omega) hX (Or.inr (by omega)) e (by omega), by simp [resCase]; omega, ?_⟩
  intro s hs
  have h1 := (hb s (by omega)).err
  rw [one_mul] at h1
  have h2 := (Complex.abs_re_le_norm _).trans h1
  have hr : rsig (resCase (.ok ()) out (y.map Cx.re)) s = (((toC (y.getD s Cx.zero)).re : ℝ) : ℂ) := by
    rw [rsig]
    simp only [resCase]
    rw [getD_map y _ s Cx.zero 0 (by omega)]; rfl
  rw [hr, ho, ← idft_mirror_re (Or.inr hev) hpos, ← ofReal_sub, Complex.norm_real, Real.norm_eq_abs, ← Complex.sub_re]
  refine h2.trans ?_
  have hg : 1 ≤ stackGrowth u t K * (1 + u) ^ 2 :=
    one_le_mul_of_one_le_of_one_le (stackGrowth_ge hF K) (one_le_pow₀ (by linarith))
  apply mul_le_mul_of_nonneg_left _ (by linarith)
  push_cast
  gcongr
  rw [hX, ho]
  exact sum_mirror (fun k => ‖sig X k‖) (fun _ => norm_nonneg _) K

omit F in
private theorem stack_exp {ε : ℝ} (hu : 0 ≤ u) (ht : 0 ≤ t) (hu' : u ≤ ε) (ht' : t ≤ ε) (hs : ε ≤ 1 / 20) (K : ℕ) :
    stackGrowth u t K ≤ Real.exp (K * (14 * ε) + 2 ^ K * (5 * ε)) := by
  have he : 0 ≤ ε := hu.trans hu'
  have hμ : mulErr u ≤ 3 * ε := by
    unfold mulErr
    have h2 : 2 * u + u ^ 2 ≤ 2.05 * ε := by nlinarith
    calc _ ≤ 1.415 * (2.05 * ε) := mul_le_mul sqrt2_le h2 (by positivity) (by norm_num)
      _ ≤ _ := by linarith
  have hμ0 := mulErr_nonneg hu
  induction K with
  | zero =>
    rw [stackGrowth, range_zero, prod_empty]
    apply Real.one_le_exp; push_cast; positivity
  | succ K ih =>
    rw [stackGrowth, prod_range_succ, ← stackGrowth]
    have hK : (0 : ℝ) < 2 ^ K := by positivity
    have hpi := Real.pi_pos
    have h3 : (1 + u) ^ 3 - 1 ≤ 3.16 * ε := by
      have : (1 + u) ^ 3 ≤ (1 + ε) ^ 3 := pow_le_pow_left₀ (by linarith) (by linarith) 3
      nlinarith [sq_nonneg ε]
    have h30 : 0 ≤ (1 + u) ^ 3 - 1 := by linarith [one_le_pow₀ (by linarith : 1 ≤ 1 + u) (n := 3)]
    have hr : 2 ^ K * rotErr u t (2 ^ (K + 1)) ≤ 2 ^ K * (1.415 * ε) + 10 * ε := by
      unfold rotErr
      have e1 : (2 : ℝ) ^ K * (Real.sqrt 2 * t + ((1 + u) ^ 3 - 1) * (2 * Real.pi / ((2 ^ (K + 1) : ℕ) : ℝ))) =
          2 ^ K * (Real.sqrt 2 * t) + ((1 + u) ^ 3 - 1) * Real.pi := by
        push_cast; field_simp; ring
      rw [e1]
      have e2 : Real.sqrt 2 * t ≤ 1.415 * ε := mul_le_mul sqrt2_le ht' ht (by norm_num)
      have e3 : ((1 + u) ^ 3 - 1) * Real.pi ≤ 3.16 * ε * 3.15 :=
        mul_le_mul h3 Real.pi_lt_d2.le hpi.le (by positivity)
      have := mul_le_mul_of_nonneg_left e2 hK.le
      linarith
    have hr0 : 0 ≤ rotErr u t (2 ^ (K + 1)) := by unfold rotErr; positivity
    have hf : (1 + u) * (1 + mulErr u) * tableGrowth u t (2 ^ (K + 1)) ≤
        Real.exp (14 * ε + 2 ^ K * (5 * ε)) := by
      have a1 : 1 + u ≤ Real.exp u := by linarith [Real.add_one_le_exp u]
      have a2 : 1 + mulErr u ≤ Real.exp (mulErr u) := by linarith [Real.add_one_le_exp (mulErr u)]
      have a3 : 1 + rotErr u t (2 ^ (K + 1)) ≤ Real.exp (rotErr u t (2 ^ (K + 1))) := by
        linarith [Real.add_one_le_exp (rotErr u t (2 ^ (K + 1)))]
      have hh : 2 ^ (K + 1) / 2 = 2 ^ K := by rw [pow_succ]; omega
      unfold tableGrowth
      rw [hh]
      calc _ ≤ Real.exp u * Real.exp (mulErr u) *
            (Real.exp (mulErr u) * Real.exp (rotErr u t (2 ^ (K + 1)))) ^ 2 ^ K := by gcongr
        _ = Real.exp (u + mulErr u + 2 ^ K * (mulErr u + rotErr u t (2 ^ (K + 1)))) := by
          rw [← Real.exp_add, ← Real.exp_add, ← Real.exp_nat_mul, ← Real.exp_add]; push_cast; rfl
        _ ≤ _ := by
          apply Real.exp_le_exp.mpr
          have := mul_le_mul_of_nonneg_left hμ hK.le
          have := mul_nonneg hK.le he
          nlinarith
    have h0 : 0 ≤ (1 + u) * (1 + mulErr u) * tableGrowth u t (2 ^ (K + 1)) := by
      unfold tableGrowth; positivity
    refine (mul_le_mul ih hf h0 (Real.exp_pos _).le).trans ?_
    rw [← Real.exp_add]
    apply Real.exp_le_exp.mpr
    push_cast; rw [pow_succ]; nlinarith

omit F in
/-- C76d. To first order the error is linear in the length: if every unit error is at most `ε` and `n ε ≤ 1/20`, the
growth is at most `1 + 40 n ε`. -/
theorem stackGrowth_linear {ε : ℝ} (K : ℕ) (hu : 0 ≤ u) (ht : 0 ≤ t) (hu' : u ≤ ε) (ht' : t ≤ ε)
    (hs : 20 * 2 ^ K * ε ≤ 1) : stackGrowth u t K - 1 ≤ 40 * 2 ^ K * ε := by
  have he : 0 ≤ ε := hu.trans hu'
  have h1 : (1 : ℝ) ≤ 2 ^ K := one_le_pow₀ (by norm_num)
  have hk : (K : ℝ) + 1 ≤ 2 ^ K := by exact_mod_cast Nat.lt_two_pow_self (n := K)
  have h2 := stack_exp hu ht hu' ht' (by nlinarith) K
  have h3 : (K : ℝ) * (14 * ε) + 2 ^ K * (5 * ε) ≤ 20 * 2 ^ K * ε := by nlinarith
  have h4 : 0 ≤ 20 * 2 ^ K * ε := by positivity
  have h5 := Real.abs_exp_sub_one_le (x := 20 * 2 ^ K * ε) (by rw [abs_of_nonneg h4]; exact hs)
  rw [abs_of_nonneg h4] at h5
  have h6 := Real.exp_le_exp.mpr h3
  have := le_abs_self (Real.exp (20 * 2 ^ K * ε) - 1)
  linarith

/-- Non-vacuity: single precision; in exact arithmetic the bound is 0, and for 4096 points it is below 1%. -/
example : Rounding (rndFlt 24 24 true true) (1 / 2 ^ 24) (1 / 2 ^ 24) (1 / 2 ^ 24) ∧ stackGrowth 0 0 10 = 1 ∧
    stackGrowth (1 / 2 ^ 24) (1 / 2 ^ 24) 12 - 1 ≤ 1 / 100 := by
  refine ⟨rndFlt_rounding 24 24 (by norm_num) (by norm_num) true true, ?_, ?_⟩
  · simp [stackGrowth, mulErr, tableGrowth, rotErr]
  · exact (stackGrowth_linear (ε := 1 / 2 ^ 24) 12 (by norm_num) (by norm_num) le_rfl le_rfl (by norm_num)).trans (by norm_num)

end Kofft.Props
