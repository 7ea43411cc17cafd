import Verif.Model.Trig
import Verif.Lib.Loop
import Verif.Lib.TrigSum
import Verif.Lib.Root
import Verif.Lib.Lawful
import Verif.Lib.Pow2
import Verif.Spec.Real
/-
Evaluating the DCT / DST / DHT loops.
-/
namespace Kofft
open Spec Finset

section generic
variable {T : Type} [Flt T]

/-- The value of an accumulation loop. -/
def accV (input : List T) (lo : Nat) (g : Nat → T → T) (init : T) : Nat → T
  | 0 => init
  | c + 1 => accV input lo g init c +. g (lo + c) (input.getD (lo + c) Flt.zero)

theorem accum_ok (input : List T) (lo hi : Nat) (init : T) (g : Nat → T → T) (h : hi ≤ input.length) :
    accum input lo hi init g = .ok (accV input lo g init (hi - lo)) := by
  unfold accum
  by_cases hle : lo ≤ hi
  · rw [forRange_eq (fun i => accV input lo g init (i - lo)) hle (by simp [accV])]
    intro i h1 h2
    rw [rd_getD Flt.zero (by omega), Outcome.bind_ok, Outcome.pure_eq, show i + 1 - lo = (i - lo) + 1 by omega]
    simp only [accV]
    rw [show lo + (i - lo) = i by omega]
  · rw [forRange_empty (by omega), show hi - lo = 0 by omega]; rfl

theorem fillOut_ok (output : List T) (f : Nat → Outcome T) (v : Nat → T)
    (h : ∀ k, k < output.length → f k = .ok (v k)) : fillOut output f = .ok (tab output.length v) := by
  unfold fillOut
  conv_lhs => rw [eq_tab_getD output Flt.zero]
  rw [tab_length, fill_tab (v := v) (Nat.zero_le _)]
  · congr 1; exact tab_congr fun k hk => by rw [if_pos (by omega)]
  · intro i s _ h2 hs
    rw [h i h2, Outcome.bind_ok, wr_ok (by omega)]

theorem fillOut_congr (o1 o2 : List T) (f : Nat → Outcome T) (v : Nat → T) (hl : o1.length = o2.length)
    (h : ∀ k, k < o1.length → f k = .ok (v k)) : fillOut o1 f = fillOut o2 f := by
  rw [fillOut_ok o1 f v h, fillOut_ok o2 f v (by rwa [← hl]), hl]

end generic

section exact
variable [F : Flt ℝ]

theorem accV_real (hF : Lawful F) (input : List ℝ) (lo : Nat) (g : Nat → ℝ → ℝ) (init : ℝ) (c : Nat) :
    accV input lo g init c = init + ∑ i ∈ Ico lo (lo + c), g i (input.getD i 0) := by
  induction c with
  | zero => simp [accV]
  | succ c ih =>
    rw [accV, ih, hF.add, hF.zero, ← Nat.add_assoc, sum_Ico_succ_top (by omega)]; ring

theorem accum_real (hF : Lawful F) (input : List ℝ) (lo hi : Nat) (init : ℝ) (g : Nat → ℝ → ℝ)
    (hle : lo ≤ hi) (h : hi ≤ input.length) :
    accum input lo hi init g = .ok (init + ∑ i ∈ Ico lo hi, g i (input.getD i 0)) := by
  rw [accum_ok _ _ _ _ _ h, accV_real hF, show lo + (hi - lo) = hi by omega]

theorem half_real (hF : Lawful F) : (half : ℝ) = 1 / 2 := by rw [half, hF.lit]; norm_num
theorem two_real (hF : Lawful F) : (two : ℝ) = 2 := by rw [two, hF.lit]; norm_num

theorem computes_of (hF : Lawful F) (x : List ℝ) (f : Nat → Outcome ℝ) (g : ℕ → (ℕ → ℝ) → ℕ → ℝ)
    (h : ∀ k, k < x.length → f k = .ok (g x.length (fun t => x.getD t 0) k)) (output : List ℝ)
    (hl : output.length = x.length) :
    ∃ y, fillOut output f = .ok y ∧ Computes g x y := by
  refine ⟨_, fillOut_ok output f (g x.length (fun t => x.getD t 0)) (by rwa [hl]), by simp [hl], ?_⟩
  intro k hk
  rw [tab_getD (by omega)]

theorem dct1At_real (hF : Lawful F) (x : List ℝ) (h : 2 ≤ x.length) (k : ℕ) :
    dct1At x k = .ok (dctI x.length (fun t => x.getD t 0) k) := by
  unfold dct1At
  simp only []
  rw [rd_getD 0 (by omega), rd_getD 0 (show x.length - 1 < x.length by omega)]
  simp only [Outcome.bind_ok]
  rw [accum_real hF _ _ _ _ _ (by omega) (by omega)]
  congr 1
  unfold dctI
  rw [mul_sum]
  congr 1
  · rw [hF.add]
    congr 1
    split
    · rename_i h0; rw [Even.neg_one_pow (Nat.even_iff.2 h0), one_mul]
    · rename_i h0; rw [Odd.neg_one_pow (Nat.odd_iff.2 (by omega)), hF.neg]; ring
  · refine sum_congr rfl fun i _ => ?_
    simp only [hF.mul, hF.cos, hF.div, hF.sub, hF.one, hF.pi, hF.ofNat, two_real hF]
    rw [show Real.pi / ((x.length : ℝ) - 1) * i * k = Real.pi * i * k / (x.length - 1) by ring]; ring

theorem dct2At_real (hF : Lawful F) (x : List ℝ) (k : ℕ) :
    dct2At x k = .ok (dctII x.length (fun t => x.getD t 0) k) := by
  unfold dct2At
  rw [accum_real hF _ _ _ _ _ (by omega) (by omega), hF.zero, zero_add]
  congr 1
  unfold dctII
  rw [range_eq_Ico]
  refine sum_congr rfl fun i _ => ?_
  simp only [hF.mul, hF.cos, hF.div, hF.add, hF.pi, hF.ofNat, half_real hF]
  rw [show Real.pi / (x.length : ℝ) * (i + 1 / 2) * k = Real.pi * (i + 1 / 2) * k / x.length by ring]

theorem dct3At_real (hF : Lawful F) (x : List ℝ) (h : 0 < x.length) (k : ℕ) :
    dct3At x k = .ok (dctIII x.length (fun t => x.getD t 0) k) := by
  unfold dct3At
  rw [rd_getD 0 (by omega)]
  simp only [Outcome.bind_ok]
  rw [accum_real hF _ _ _ _ _ (by omega) (by omega), hF.div, two_real hF]
  congr 1
  unfold dctIII
  congr 1
  refine sum_congr rfl fun i _ => ?_
  simp only [hF.mul, hF.cos, hF.div, hF.add, hF.pi, hF.ofNat, half_real hF]
  rw [show Real.pi / (x.length : ℝ) * i * (k + 1 / 2) = Real.pi * i * (k + 1 / 2) / x.length by ring]

theorem dct4At_real (hF : Lawful F) (x : List ℝ) (k : ℕ) :
    dct4At x k = .ok (dctIV x.length (fun t => x.getD t 0) k) := by
  unfold dct4At
  rw [accum_real hF _ _ _ _ _ (by omega) (by omega), hF.zero, zero_add]
  congr 1
  unfold dctIV
  rw [range_eq_Ico]
  refine sum_congr rfl fun i _ => ?_
  simp only [hF.mul, hF.cos, hF.div, hF.add, hF.pi, hF.ofNat, half_real hF]
  rw [show Real.pi / (x.length : ℝ) * (i + 1 / 2) * (k + 1 / 2) =
    Real.pi * (i + 1 / 2) * (k + 1 / 2) / x.length by ring]

theorem dst1At_real (hF : Lawful F) (x : List ℝ) (k : ℕ) :
    dst1At x k = .ok (dstI x.length (fun t => x.getD t 0) k) := by
  unfold dst1At
  rw [accum_real hF _ _ _ _ _ (by omega) (by omega), hF.zero, zero_add]
  congr 1
  unfold dstI
  rw [range_eq_Ico]
  refine sum_congr rfl fun i _ => ?_
  simp only [hF.mul, hF.sin, hF.div, hF.add, hF.pi, hF.ofNat, hF.one]
  rw [show ((i : ℝ) + 1) * (k + 1) * (Real.pi / (x.length + 1)) =
    Real.pi * (i + 1) * (k + 1) / (x.length + 1) by ring]

theorem dst2At_real (hF : Lawful F) (x : List ℝ) (k : ℕ) :
    dst2At x k = .ok (dstII x.length (fun t => x.getD t 0) k) := by
  unfold dst2At
  rw [accum_real hF _ _ _ _ _ (by omega) (by omega), hF.zero, zero_add]
  congr 1
  unfold dstII
  rw [range_eq_Ico]
  refine sum_congr rfl fun i _ => ?_
  simp only [hF.mul, hF.sin, hF.div, hF.add, hF.pi, hF.ofNat, hF.one, half_real hF]
  rw [show Real.pi / (x.length : ℝ) * (i + 1 / 2) * (k + 1) =
    Real.pi * (i + 1 / 2) * (k + 1) / x.length by ring]

/-- What the code's DST-III computes: the first sample halved and *not* multiplied by a sine. -/
theorem dst3At_real (hF : Lawful F) (x : List ℝ) (h : 0 < x.length) (k : ℕ) :
    dst3At x k = .ok (x.getD 0 0 / 2 +
      ∑ i ∈ Ico 1 x.length, x.getD i 0 * Real.sin (Real.pi * i * (k + 1 / 2) / x.length)) := by
  unfold dst3At
  rw [rd_getD 0 (by omega)]
  simp only [Outcome.bind_ok]
  rw [accum_real hF _ _ _ _ _ (by omega) (by omega), hF.div, two_real hF]
  congr 2
  refine sum_congr rfl fun i _ => ?_
  simp only [hF.mul, hF.sin, hF.div, hF.add, hF.pi, hF.ofNat, half_real hF]
  rw [show Real.pi / (x.length : ℝ) * (k + 1 / 2) * i = Real.pi * i * (k + 1 / 2) / x.length by ring]

theorem dst4At_real (hF : Lawful F) (x : List ℝ) (k : ℕ) :
    dst4At x k = .ok (dstIV x.length (fun t => x.getD t 0) k) := by
  unfold dst4At
  rw [accum_real hF _ _ _ _ _ (by omega) (by omega), hF.zero, zero_add]
  congr 1
  unfold dstIV
  rw [range_eq_Ico]
  refine sum_congr rfl fun i _ => ?_
  simp only [hF.mul, hF.sin, hF.div, hF.add, hF.pi, hF.ofNat, half_real hF]
  rw [show Real.pi / (x.length : ℝ) * (i + 1 / 2) * (k + 1 / 2) =
    Real.pi * (i + 1 / 2) * (k + 1 / 2) / x.length by ring]

theorem dhtAt_real (hF : Lawful F) (x : List ℝ) (k : ℕ) :
    dhtAt x k = .ok (hartley x.length (fun t => x.getD t 0) k) := by
  unfold dhtAt
  rw [accum_real hF _ _ _ _ _ (by omega) (by omega), hF.zero, zero_add]
  congr 1
  unfold hartley
  rw [range_eq_Ico]
  refine sum_congr rfl fun i _ => ?_
  simp only [hF.mul, hF.sin, hF.cos, hF.div, hF.add, hF.pi, hF.ofNat, two_real hF]
  rw [show 2 * Real.pi / (x.length : ℝ) * ((i * k : ℕ) : ℝ) = 2 * Real.pi * i * k / x.length by push_cast; ring]

end exact

/-! ### Hartley transform and DFT -/

theorem W_trig (n j : ℕ) :
    W n j = ⟨Real.cos (2 * Real.pi * j / n), -Real.sin (2 * Real.pi * j / n)⟩ := by
  rw [W_eq_cos, show (-2 * Real.pi * j / n) = -(2 * Real.pi * j / n) by ring, Real.cos_neg, Real.sin_neg]

theorem hartley_eq_dft (n : ℕ) (x : ℕ → ℝ) (k : ℕ) :
    hartley n x k = (dft n (fun t => (x t : ℂ)) k).re - (dft n (fun t => (x t : ℂ)) k).im := by
  unfold hartley dft
  rw [Complex.re_sum, Complex.im_sum, ← sum_sub_distrib]
  refine sum_congr rfl fun i _ => ?_
  rw [W_trig, Complex.re_ofReal_mul, Complex.im_ofReal_mul,
    show 2 * Real.pi * ((k * i : ℕ) : ℝ) / n = 2 * Real.pi * i * k / n by push_cast; ring]
  ring

theorem kerH {n : ℕ} (i j : ℕ) (hi : i < n) (hj : j < n) :
    ∑ k ∈ range n, (Real.cos (2 * Real.pi * i * k / n) + Real.sin (2 * Real.pi * i * k / n)) *
      (Real.cos (2 * Real.pi * k * j / n) + Real.sin (2 * Real.pi * k * j / n)) =
      if i = j then (n : ℝ) else 0 := by
  have hn : n ≠ 0 := by omega
  have h1 := congrArg Complex.re (sum_W_inv hi hj)
  have h2 := congrArg Complex.im (sum_W hn (i + j))
  rw [Complex.re_sum] at h1
  rw [Complex.im_sum] at h2
  have e : ∀ k ∈ range n, (Real.cos (2 * Real.pi * i * k / n) + Real.sin (2 * Real.pi * i * k / n)) *
      (Real.cos (2 * Real.pi * k * j / n) + Real.sin (2 * Real.pi * k * j / n)) =
      (W n (k * i) * (W n (k * j))⁻¹).re - (W n ((i + j) * k)).im := by
    intro k _
    rw [← W_conj, Nat.add_mul, W_add, W_trig n (k * i), W_trig n (k * j), W_trig n (i * k), W_trig n (j * k)]
    simp only [Complex.mul_re, Complex.mul_im, Complex.conj_re, Complex.conj_im]
    rw [show 2 * Real.pi * ((k * i : ℕ) : ℝ) / n = 2 * Real.pi * i * k / n by push_cast; ring,
      show 2 * Real.pi * ((i * k : ℕ) : ℝ) / n = 2 * Real.pi * i * k / n by push_cast; ring,
      show 2 * Real.pi * ((k * j : ℕ) : ℝ) / n = 2 * Real.pi * k * j / n by push_cast; ring,
      show 2 * Real.pi * ((j * k : ℕ) : ℝ) / n = 2 * Real.pi * k * j / n by push_cast; ring]
    ring
  rw [sum_congr rfl e, sum_sub_distrib, h1, h2]
  have : (if n ∣ i + j then (n : ℂ) else 0).im = 0 := by split <;> simp
  rw [this, sub_zero]
  split <;> simp

theorem hartley_hartley (n : ℕ) (x : ℕ → ℝ) (j : ℕ) (hj : j < n) : hartley n (hartley n x) j = n * x j := by
  unfold hartley
  exact sum_kernel (range n) x
    (fun i k => Real.cos (2 * Real.pi * i * k / n) + Real.sin (2 * Real.pi * i * k / n))
    (fun k j => Real.cos (2 * Real.pi * k * j / n) + Real.sin (2 * Real.pi * k * j / n)) _ j hj
    fun i hi => kerH i j hi hj

end Kofft
