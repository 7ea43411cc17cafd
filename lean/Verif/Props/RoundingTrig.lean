import Verif.Proof.RoundTrig
import Verif.Lib.RndFlt
import Verif.Props.Trig
import Verif.Props.Rounding
import Mathlib.Analysis.Real.Pi.Bounds
/-
Property C73: accuracy of the direct cosine, sine and Hartley transforms in floating-point arithmetic.
-/
namespace Kofft.Props
open Spec Finset

section spec
variable [F : Flt ℝ] {u v t : ℝ}

omit F in
private theorem within_of (x : List ℝ) [Flt ℝ] (out : List ℝ) (ho : out.length = x.length) (f : ℕ → Outcome ℝ)
    (S : ℕ → (ℕ → ℝ) → ℕ → ℝ) (g A : ℝ)
    (H : ∀ k, k < x.length → ∃ y, f k = .ok y ∧ RApx g y (S x.length (fun t => x.getD t 0) k) A) :
    ∃ y, fillOut out f = .ok y ∧ ComputesWithin ((g - 1) * A) S x y := by
  classical
  choose w hw using H
  refine ⟨_, fillOut_ok out f (fun k => if h : k < x.length then w k h else 0) ?_, ?_, ?_⟩
  · intro k hk
    rw [ho] at hk
    rw [dif_pos hk]
    exact (hw k hk).1
  · rw [tab_length, ho]
  · intro k hk
    rw [ho, tab_getD hk, dif_pos hk]
    exact (hw k hk).2.abs_err

variable (hF : Rounding F u v t) (hu : u < 1) (hv : v < 1 / 2) (x : List ℝ)
include hF hu hv

/-- C73a. `dct1` of at least two samples. -/
theorem dct1_error (h : 2 ≤ x.length) : ∃ y, dct1 x = .ok y ∧
    ComputesWithin ((directGrowth u v t x.length - 1) * (2 * ∑ i ∈ range x.length, |x.getD i 0|)) dctI x y := by
  unfold dct1
  simp only [show ¬ x.length = 0 by omega, show ¬ x.length = 1 by omega, if_false]
  exact within_of x _ (by simp) _ _ _ _ fun k hk => dct1At_rnd hF hu hv x rfl k hk h

/-- C73b. `dct2`. -/
theorem dct2_error : ∃ y, dct2 x = .ok y ∧
    ComputesWithin ((directGrowth u v t x.length - 1) * ∑ i ∈ range x.length, |x.getD i 0|) dctII x y :=
  within_of x _ (by simp) _ _ _ _ fun k hk => dct2At_rnd hF hu hv x rfl k hk

/-- C73c. `dct3`. -/
theorem dct3_error : ∃ y, dct3 x = .ok y ∧
    ComputesWithin ((directGrowth u v t x.length - 1) * ∑ i ∈ range x.length, |x.getD i 0|) dctIII x y :=
  within_of x _ (by simp) _ _ _ _ fun k hk => dct3At_rnd hF hu hv x rfl k hk

/-- C73d. `dct4`. -/
theorem dct4_error : ∃ y, dct4 x = .ok y ∧
    ComputesWithin ((directGrowth u v t x.length - 1) * ∑ i ∈ range x.length, |x.getD i 0|) dctIV x y :=
  within_of x _ (by simp) _ _ _ _ fun k hk => dct4At_rnd hF hu hv x rfl k hk

/-- C73e. `dst1`. -/
theorem dst1_error : ∃ y, dst1 x = .ok y ∧
    ComputesWithin ((directGrowth u v t x.length - 1) * ∑ i ∈ range x.length, |x.getD i 0|) dstI x y :=
  within_of x _ (by simp) _ _ _ _ fun k hk => dst1At_rnd hF hu hv x rfl k hk

/-- C73f. `dst2`. -/
theorem dst2_error : ∃ y, dst2 x = .ok y ∧
    ComputesWithin ((directGrowth u v t x.length - 1) * ∑ i ∈ range x.length, |x.getD i 0|) dstII x y :=
  within_of x _ (by simp) _ _ _ _ fun k hk => dst2At_rnd hF hu hv x rfl k hk

/-- C73g. `dst3`: the sum the code evaluates, which is not the textbook DST-III (C41). -/
theorem dst3_error : ∃ y, dst3 x = .ok y ∧
    ComputesWithin ((directGrowth u v t x.length - 1) * ∑ i ∈ range x.length, |x.getD i 0|) (fun n x k =>
      x 0 / 2 + ∑ i ∈ Ico 1 n, x i * Real.sin (Real.pi * i * (k + 1 / 2) / n)) x y :=
  within_of x _ (by simp) _ _ _ _ fun k hk => dst3At_rnd hF hu hv x rfl k hk

/-- C73h. `dst4`. -/
theorem dst4_error : ∃ y, dst4 x = .ok y ∧
    ComputesWithin ((directGrowth u v t x.length - 1) * ∑ i ∈ range x.length, |x.getD i 0|) dstIV x y :=
  within_of x _ (by simp) _ _ _ _ fun k hk => dst4At_rnd hF hu hv x rfl k hk

/-- C73i. `dht`. -/
theorem dht_error : ∃ y, dht x = .ok y ∧
    ComputesWithin ((directGrowth u v t x.length - 1) * (2 * ∑ i ∈ range x.length, |x.getD i 0|)) hartley x y :=
  within_of x _ (by simp) _ _ _ _ fun k hk => dhtAt_rnd hF hu hv x rfl k hk

end spec

/-- C73j. The growth factor to first order: if every operation is accurate to `ε` and `n ε ≤ 1/1000`, the error
factor of the direct transforms is at most `100 n ε`. -/
theorem directGrowth_linear {ε : ℝ} {n : ℕ} (hn : 0 < n) (hε : 0 ≤ ε) (hs : n * ε ≤ 1 / 1000) :
    directGrowth ε ε ε n - 1 ≤ 100 * (n * ε) := by
  have hn' : (1 : ℝ) ≤ n := by exact_mod_cast hn
  have h1 : ε ≤ n * ε := by nlinarith
  have ha : angleGrowth ε ε - 1 ≤ 12 * ε := by
    unfold angleGrowth
    have hd : 0 < (1 - 2 * ε) * (1 - ε) := by apply mul_pos <;> linarith
    have hp : (1 + ε) ^ 6 * (1 + ε) ^ 2 ≤ 1 + 8 * ε + 29 * ε ^ 2 := by
      have e : (1 + ε) ^ 6 * (1 + ε) ^ 2 = 1 + 8 * ε + 28 * ε ^ 2 + ε ^ 2 * (ε * (56 + 70 * ε + 56 * ε ^ 2 + 28 * ε ^ 3 + 8 * ε ^ 4 + ε ^ 5)) := by ring
      rw [e]
      have h6 : ε ≤ 1 / 1000 := h1.trans hs
      have q : ∀ k : ℕ, ε ^ k ≤ 1 := fun k => pow_le_one₀ hε (by linarith)
      have : ε * (56 + 70 * ε + 56 * ε ^ 2 + 28 * ε ^ 3 + 8 * ε ^ 4 + ε ^ 5) ≤ 1 / 1000 * 219 :=
        mul_le_mul h6 (by linarith [q 1, q 2, q 3, q 4, q 5, pow_one ε]) (by positivity) (by norm_num)
      nlinarith [mul_le_mul_of_nonneg_left this (sq_nonneg ε)]
    rw [sub_le_iff_le_add, div_le_iff₀ hd]
    have h6 : ε ≤ 1 / 1000 := h1.trans hs
    nlinarith [mul_nonneg hε hε, mul_nonneg hε (mul_nonneg hε hε)]
  have hg : (1 + ε) ^ (n + 2) - 1 ≤ 6 * (n * ε) := by
    have := pow_growth_le hε (n + 2) (by push_cast; nlinarith)
    push_cast at this
    nlinarith
  have h0 : 0 ≤ n * ε := by positivity
  have hb : ε + (angleGrowth ε ε - 1) * (2 * Real.pi * n) ≤ 77 * (n * ε) := by
    have hpi : 2 * Real.pi * n ≤ 6.2832 * n := by nlinarith [Real.pi_lt_d4]
    calc ε + (angleGrowth ε ε - 1) * (2 * Real.pi * n) ≤ n * ε + 12 * ε * (6.2832 * n) :=
          add_le_add h1 (mul_le_mul ha hpi (by positivity) (by positivity))
      _ ≤ 77 * (n * ε) := by nlinarith
  unfold directGrowth
  have h2 : (1 + (ε + (angleGrowth ε ε - 1) * (2 * Real.pi * n))) * (1 + ε) ^ (n + 2) ≤
      (1 + 77 * (n * ε)) * (1 + 6 * (n * ε)) :=
    mul_le_mul (by linarith) (by linarith) (by positivity) (by positivity)
  nlinarith

/-- The bounds are 0 in exact arithmetic, and the hypotheses hold for arithmetics that really round. -/
example (n : ℕ) (fused fma : Bool) : directGrowth 0 0 0 n = 1 ∧
    Rounding (rndFlt 24 24 fused fma) (1 / 2 ^ 24) (1 / 2 ^ 24) (1 / 2 ^ 24) ∧ ((1 : ℝ) / 2 ^ 24 < 1 / 2) :=
  ⟨by simp [directGrowth, angleGrowth], rndFlt_rounding 24 24 (by norm_num) (by norm_num) fused fma, by norm_num⟩

end Kofft.Props
