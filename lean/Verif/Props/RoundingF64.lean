import Verif.Props.Rounding
import Verif.Proof.ChirpSum
/-
Property C65: accuracy of the double-precision transforms. The `f64` code converts integers and kernel
constants through `f32`; this is what those conversions alone cost, all other arithmetic being exact.
-/
namespace Kofft
open Spec Complex Finset

open Classical in
/-- Exact arithmetic, except that integers and the constants of the 8- and 16-point kernels go through
binary32, as in the `f64` instances (`src/num.rs` `from_f32`, `n as f32`). -/
noncomputable def idealF64 (fma : Bool) : Flt ℝ :=
  { realFlt fma with
    ofNat := fun n => rnd 24 n
    sqrtHalf := rnd 24 (Real.sqrt 2 / 2)
    cosPi8 := rnd 24 (Real.cos (Real.pi / 8))
    sinPi8 := rnd 24 (Real.sin (Real.pi / 8)) }

theorem idealF64_rounding (fma : Bool) : Rounding (idealF64 fma) 0 (1 / 2 ^ 24) 0 where
  u_nonneg := le_rfl
  v_nonneg := by positivity
  v_lt_one := by norm_num
  t_nonneg := le_rfl
  add := (rounding_of_lawful (realFlt_lawful fma)).add
  sub := (rounding_of_lawful (realFlt_lawful fma)).sub
  mul := (rounding_of_lawful (realFlt_lawful fma)).mul
  div := (rounding_of_lawful (realFlt_lawful fma)).div
  mulAdd := (rounding_of_lawful (realFlt_lawful fma)).mulAdd
  neg := (rounding_of_lawful (realFlt_lawful fma)).neg
  zero := (rounding_of_lawful (realFlt_lawful fma)).zero
  one := (rounding_of_lawful (realFlt_lawful fma)).one
  two := (rounding_of_lawful (realFlt_lawful fma)).two
  half := (rounding_of_lawful (realFlt_lawful fma)).half
  lit := (rounding_of_lawful (realFlt_lawful fma)).lit
  lt := (rounding_of_lawful (realFlt_lawful fma)).lt
  ofNat := fun n => by
    have := rnd_close 24 (n : ℝ)
    rw [Nat.abs_cast] at this
    exact this
  ofNat_pow := fun k => by
    show rnd 24 ((2 ^ k : ℕ) : ℝ) = _
    push_cast; exact rnd_pow 24 k (by norm_num)
  ofNatD := (rounding_of_lawful (realFlt_lawful fma)).ofNatD
  pi := (rounding_of_lawful (realFlt_lawful fma)).pi
  cos := (rounding_of_lawful (realFlt_lawful fma)).cos
  sin := (rounding_of_lawful (realFlt_lawful fma)).sin
  printParse := (rounding_of_lawful (realFlt_lawful fma)).printParse
  sqrtHalf := by
    apply rnd_small
    rw [abs_of_nonneg (by positivity), div_le_one (by norm_num), Real.sqrt_le_left (by norm_num)]
    norm_num
  cosPi8 := rnd_small 24 (Real.abs_cos_le_one _)
  sinPi8 := rnd_small 24 (Real.abs_sin_le_one _)

theorem Apx.eq {a z : ℂ} {A : ℝ} (h : Apx 1 a z A) : a = z := by
  have := h.err
  rw [sub_self, zero_mul] at this
  exact sub_eq_zero.mp (norm_le_zero_iff.mp this)

theorem powGrowth_zero (cfg : Cfg) (v : ℝ) {n : ℕ} (h : 16 < n) : powGrowth cfg 0 v 0 n = 1 := by
  unfold powGrowth twGrowth
  rw [if_neg (by omega)]
  simp [mulErr, preGrowth, tableGrowth, rotErr]

variable [F : Flt ℝ] {v : ℝ}

theorem freshPow_zero (h : Rounding F 0 v 0) (cfg : Cfg) (x : List (Cx ℝ)) (hp : isPow2 x.length = true)
    (h16 : 16 < x.length) (k : Nat) (hk : k < x.length) :
    toC ((freshPow cfg x).getD k Cx.zero) = dft x.length (fun t => toC (x.getD t Cx.zero)) k := by
  have := freshPow_rnd h cfg x hp (fun t => toC (x.getD t Cx.zero)) (fun t => ‖toC (x.getD t Cx.zero)‖) 1
    (fun i _ => Apx.refl _) k hk
  rw [powGrowth_zero cfg v h16, mul_one] at this
  exact this.eq

theorem mul_zero_err (h : Rounding F 0 v 0) (a b : Cx ℝ) : toC (a.mul b) = toC a * toC b := by
  have := rnd_mul h a b
  rw [show mulErr 0 = 0 by simp [mulErr], zero_mul] at this
  exact sub_eq_zero.mp (norm_le_zero_iff.mp this)

/-- The chirp transform as a sum over the computed chirps, when everything else is exact. -/
theorem bluOut_chirps (h : Rounding F 0 v 0) (cfg : Cfg) (x : List (Cx ℝ)) (h16 : 16 < x.length)
    (k : Nat) (hk : k < x.length) :
    toC ((bluOut cfg x).getD k Cx.zero) = (∑ r ∈ range x.length, toC (x.getD r Cx.zero) * toC (chirpAt x.length r) *
      toC (bAt x.length ((k + (bluM x.length - r)) % bluM x.length))) * toC (chirpAt x.length k) := by
  have hmp : isPow2 (bluM x.length) = true := bluM_pow2 _
  have hge := bluM_ge x.length
  refine bluOut_chirps_gen cfg x ?_ (mul_zero_err h) (rnd_conj h) (rnd_zero h) ?_ ?_ k hk
  · intro y hy j hj
    exact freshPow_zero h cfg y (by rw [hy]; exact hmp) (by omega) j hj
  · intro a b
    have := h.mul a b
    rw [zero_mul] at this
    exact sub_eq_zero.mp (abs_nonpos_iff.mp this)
  · have := (rnd_recip h (isPow2_pos hmp)).1
    rw [scaleGrowth, if_pos hmp] at this
    simp only [add_zero, one_pow, div_one, sub_self, zero_mul] at this
    exact sub_eq_zero.mp (abs_nonpos_iff.mp this)

end Kofft

namespace Kofft.Props
open Spec Complex Finset

theorem rnd24_sq : rnd 24 33558849 = 33558848 := by
  unfold rnd
  have h0 : Int.log 2 |(33558849 : ℝ)| = 25 := by
    rw [abs_of_pos (by norm_num)]
    have := Int.log_natCast (R := ℝ) 2 33558849
    rw [show ((33558849 : ℕ) : ℝ) = 33558849 by norm_num] at this
    rw [this]
    have : Nat.log 2 33558849 = 25 := by
      rw [Nat.log_eq_iff (by norm_num)]; norm_num
    rw [this]; rfl
  rw [h0, show ((25 : ℤ) - (24 : ℕ) + 1) = 2 by norm_num]
  have : round ((33558849 : ℝ) / 2 ^ (2 : ℤ)) = 8389712 := by
    rw [round_eq, Int.floor_eq_iff]
    norm_num
  rw [this]; norm_num

/-- The unit impulse at the last of 5794 positions. -/
noncomputable def lastImpulse : List (Cx ℝ) :=
  (List.range 5794).map fun r => if r = 5793 then ⟨1, 0⟩ else ⟨0, 0⟩

theorem lastImpulse_length : lastImpulse.length = 5794 := by
  rw [lastImpulse, List.length_map, List.length_range]

theorem lastImpulse_getD [Flt ℝ] (r : ℕ) (hr : r < 5794) :
    toC (lastImpulse.getD r Cx.zero) = if r = 5793 then 1 else 0 := by
  have : lastImpulse = tab 5794 fun r => if r = 5793 then ⟨1, 0⟩ else ⟨0, 0⟩ := rfl
  rw [this, tab_getD hr]
  by_cases h : r = 5793
  · rw [if_pos h, if_pos h]; rfl
  · rw [if_neg h, if_neg h]; rfl

/-- C65a. Negative: with all arithmetic exact except the conversions of the `f64` code through `f32`, the
5794-point `fft` of the impulse at the last position is wrong by more than `10⁻³` in the last bin, for every
configuration with `std`: the bin comes out as exactly 1. -/
theorem fft_f64_not_double_precision (fma : Bool) (cfg : Cfg) (hstd : cfg.std = true) :
    letI := idealF64 fma
    ∃ p y, fft cfg Planner.new lastImpulse = .ok (p, y, .ok ()) ∧ sig y 5793 = 1 ∧
      1 / 1000 < ‖sig y 5793 - dft 5794 (sig lastImpulse) 5793‖ := by
  letI F := idealF64 fma
  have hF := idealF64_rounding fma
  have hl := lastImpulse_length
  have hr : fftRes cfg lastImpulse.length = .ok () := fftRes_std hstd (by rw [hl]; norm_num)
  obtain ⟨p', e, h1, hly, -⟩ := (fft_opOk cfg).run Planner.new lastImpulse (inv_new cfg)
  rw [hr, fftBuf_fresh cfg _ _ (inv_new cfg) hr (compat_new cfg _)] at e
  rw [fftBuf_fresh cfg _ _ (inv_new cfg) hr (compat_new cfg _)] at hly
  have hm : bluM 5794 = 16384 := by
    unfold bluM nextPow2
    have h1 : Nat.clog 2 (2 * 5794 - 1) ≤ 14 := Nat.clog_le_of_le_pow (by norm_num)
    have h2 : 13 < Nat.clog 2 (2 * 5794 - 1) := (Nat.lt_clog_iff_pow_lt (by norm_num)).mpr (by norm_num)
    rw [show Nat.clog 2 (2 * 5794 - 1) = 14 by omega]
  have hnp : isPow2 5794 = false := by decide
  have hang : bluAngle (T := ℝ) 5794 5793 = Real.pi * 5792 := by
    show (realFlt fma).div ((realFlt fma).mul Real.pi (rnd 24 ((5793 * 5793 : ℕ) : ℝ))) (rnd 24 ((5794 : ℕ) : ℝ)) = _
    rw [rnd_nat 24 5794 (by norm_num), show ((5793 * 5793 : ℕ) : ℝ) = 33558849 by norm_num, rnd24_sq]
    show Real.pi * 33558848 / ((5794 : ℕ) : ℝ) = _
    norm_num
    ring
  have hch : toC (chirpAt (T := ℝ) 5794 5793) = 1 := by
    have e1 : (chirpAt 5794 5793 : Cx ℝ) = ⟨Real.cos (-(Real.pi * 5792)), Real.sin (-(Real.pi * 5792))⟩ := by
      rw [chirpAt, hang]; rfl
    rw [e1]
    have c : Real.cos (-(Real.pi * 5792)) = 1 := by
      rw [Real.cos_neg, show Real.pi * 5792 = (2896 : ℕ) * (2 * Real.pi) by push_cast; ring]
      exact Real.cos_nat_mul_two_pi 2896
    have s : Real.sin (-(Real.pi * 5792)) = 0 := by
      rw [Real.sin_neg, show Real.pi * 5792 = (5792 : ℕ) * Real.pi by push_cast; ring, Real.sin_nat_mul_pi, neg_zero]
    apply Complex.ext <;> simp [c, s]
  have hb0 : toC (bAt (T := ℝ) 5794 0) = 1 := by
    rw [bAt, if_pos (by norm_num)]
    have : (bluAngle (T := ℝ) 5794 0) = 0 := by
      show (realFlt fma).div ((realFlt fma).mul Real.pi (rnd 24 ((0 * 0 : ℕ) : ℝ))) (rnd 24 ((5794 : ℕ) : ℝ)) = _
      rw [show ((0 * 0 : ℕ) : ℝ) = ((0 : ℕ) : ℝ) by norm_num, rnd_nat 24 0 (by norm_num)]
      show Real.pi * ((0 : ℕ) : ℝ) / _ = _
      simp
    rw [this]
    show toC ⟨Real.cos 0, Real.sin 0⟩ = 1
    apply Complex.ext <;> simp
  have hy : sig (freshOut cfg lastImpulse) 5793 = 1 := by
    rw [sig_getD _ _ (by rw [hly, hl]; norm_num), freshOut, hl, if_neg (by rw [hnp]; simp)]
    have := bluOut_chirps hF cfg lastImpulse (by rw [hl]; norm_num) 5793 (by rw [hl]; norm_num)
    rw [hl, hm] at this
    rw [this, hch, mul_one, sum_eq_single 5793]
    · rw [lastImpulse_getD _ (by norm_num), if_pos rfl, hch]
      rw [show (5793 + (16384 - 5793)) % 16384 = 0 by norm_num, hb0]; norm_num
    · intro r hr hne
      rw [lastImpulse_getD _ (mem_range.mp hr), if_neg hne]; ring
    · intro h; simp at h
  refine ⟨p', _, e, hy, ?_⟩
  rw [hy]
  have hd : dft 5794 (sig lastImpulse) 5793 = W 5794 1 := by
    unfold dft
    rw [sum_eq_single 5793]
    · rw [sig_getD _ _ (by rw [hl]; norm_num), lastImpulse_getD _ (by norm_num), if_pos rfl, one_mul,
        ← W_mod (by norm_num) (5793 * 5793)]
    · intro r hr hne
      rw [mem_range] at hr
      rw [sig_getD _ _ (by rw [hl]; exact hr), lastImpulse_getD _ hr, if_neg hne, zero_mul]
    · intro h; simp at h
  rw [hd]
  have him : |(1 - W 5794 1).im| ≤ ‖1 - W 5794 1‖ := Complex.abs_im_le_norm _
  refine lt_of_lt_of_le ?_ him
  rw [W_eq_cos]
  have e1 : -2 * Real.pi * (1 : ℕ) / ((5794 : ℕ) : ℝ) = -(Real.pi / 2897) := by push_cast; ring
  simp only [e1, Complex.sub_im, Complex.one_im, Real.sin_neg, zero_sub, neg_neg]
  have hpi := Real.pi_gt_three
  have hpi2 := Real.pi_lt_d2
  have hs := Real.sin_gt_sub_cube (x := Real.pi / 2897) (by positivity)
  have hx1 : 3 / 2897 < Real.pi / 2897 := by gcongr
  have hx2 : Real.pi / 2897 < 1 / 900 := by rw [div_lt_div_iff₀ (by norm_num) (by norm_num)]; linarith
  generalize Real.pi / 2897 = z at *
  have hz : 0 < z := by linarith [show (0:ℝ) < 3 / 2897 by norm_num]
  have hz3 : z ^ 3 < 1 / 900 ^ 3 := by
    calc z ^ 3 < (1 / 900) ^ 3 := pow_lt_pow_left₀ hx2 hz.le (by norm_num)
      _ = _ := by norm_num
  have : 1 / 1000 < Real.sin z := by
    have : (1 : ℝ) / 1000 < 3 / 2897 - 1 / 900 ^ 3 / 6 := by norm_num
    linarith
  exact lt_of_lt_of_le this (le_abs_self _)

theorem sqrt2_bounds : 1.41421356237 < Real.sqrt 2 ∧ Real.sqrt 2 < 1.41421356238 := by
  constructor
  · rw [Real.lt_sqrt (by norm_num)]; norm_num
  · rw [Real.sqrt_lt' (by norm_num)]; norm_num

theorem rnd24_sqrtHalf : rnd 24 (Real.sqrt 2 / 2) = 11863283 / 16777216 := by
  obtain ⟨h1, h2⟩ := sqrt2_bounds
  have hpos : 0 < Real.sqrt 2 / 2 := by positivity
  unfold rnd
  have h0 : Int.log 2 |Real.sqrt 2 / 2| = -1 := by
    rw [abs_of_pos hpos]
    apply le_antisymm
    · have : ¬ (0 ≤ Int.log 2 (Real.sqrt 2 / 2)) := by
        rw [← Int.zpow_le_iff_le_log (by norm_num) hpos]
        push_cast
        rw [zpow_zero]; linarith
      omega
    · rw [← Int.zpow_le_iff_le_log (by norm_num) hpos]
      push_cast
      rw [zpow_neg_one]; linarith
  rw [h0, show ((-1 : ℤ) - (24 : ℕ) + 1) = -24 by norm_num]
  have e : (2 : ℝ) ^ (-24 : ℤ) = 1 / 16777216 := by
    rw [zpow_neg]; norm_num
  rw [e]
  have : round (Real.sqrt 2 / 2 / (1 / 16777216)) = 11863283 := by
    rw [round_eq, Int.floor_eq_iff]
    constructor
    · push_cast; linarith
    · push_cast; linarith
  rw [this]; norm_num

/-- C65b. Negative: with all arithmetic exact except the `f32` constants, bin 1 of the 8-point `fft` of the
impulse at position 1 is wrong by more than `10⁻⁸`, eight decimal digits above `f64` precision. -/
theorem fft8_f64_not_double_precision (fma : Bool) (cfg : Cfg) :
    letI := idealF64 fma
    ∃ p y, fft cfg Planner.new [⟨0, 0⟩, ⟨1, 0⟩, ⟨0, 0⟩, ⟨0, 0⟩, ⟨0, 0⟩, ⟨0, 0⟩, ⟨0, 0⟩, ⟨0, 0⟩] =
        .ok (p, y, .ok ()) ∧
      1 / 10 ^ 8 < ‖sig y 1 -
        dft 8 (sig [⟨0, 0⟩, ⟨1, 0⟩, ⟨0, 0⟩, ⟨0, 0⟩, ⟨0, 0⟩, ⟨0, 0⟩, ⟨0, 0⟩, ⟨0, 0⟩]) 1‖ := by
  letI F := idealF64 fma
  have hF := idealF64_rounding fma
  set x : List (Cx ℝ) := [⟨0, 0⟩, ⟨1, 0⟩, ⟨0, 0⟩, ⟨0, 0⟩, ⟨0, 0⟩, ⟨0, 0⟩, ⟨0, 0⟩, ⟨0, 0⟩] with hx
  have hl : x.length = 8 := rfl
  have hp8 : isPow2 8 = true := by decide
  have hr : fftRes cfg x.length = .ok () := fftRes_pow2 cfg (by rw [hl]; exact hp8)
  obtain ⟨p', e, h1, hly, -⟩ := (fft_opOk cfg).run Planner.new x (inv_new cfg)
  rw [hr, fftBuf_fresh cfg _ _ (inv_new cfg) hr (compat_new cfg _)] at e
  rw [fftBuf_fresh cfg _ _ (inv_new cfg) hr (compat_new cfg _)] at hly
  refine ⟨p', _, e, ?_⟩
  have hd : dft 8 (sig x) 1 = W 8 1 := by
    unfold dft
    rw [sum_eq_single 1]
    · have : sig x 1 = 1 := rfl
      rw [this, one_mul]
    · intro r hr hne
      rw [mem_range] at hr
      have : sig x r = 0 := by interval_cases r <;> first | rfl | omega
      rw [this, zero_mul]
    · intro h; simp at h
  have hy : (sig (freshOut cfg x) 1).re = 11863283 / 16777216 := by
    rw [sig_getD _ _ (by rw [hly, hl]; norm_num), freshOut, if_pos (by rw [hl]; exact hp8), freshPow, powOut,
      if_neg (by rw [hl]; norm_num), if_pos (by rw [hl]; norm_num), ← rnd24_sqrtHalf]
    have e2 : ∃ y, smallKernel cfg x = .ok y ∧ y.getD 1 Cx.zero = (fft16Half (T := ℝ) ⟨0, 0⟩ ⟨1, 0⟩ ⟨0, 0⟩ ⟨0, 0⟩
        ⟨0, 0⟩ ⟨0, 0⟩ ⟨0, 0⟩ ⟨0, 0⟩).2.1 := by
      have e0 : fft8 cfg.debug x = fft8 false x := by cases cfg.debug <;> rfl
      have e1 : smallKernel cfg x = fft8 cfg.debug x := rfl
      rw [e1, e0]
      exact ⟨_, rfl, rfl⟩
    obtain ⟨y, e3, e4⟩ := e2
    rw [smallOut, e3]
    show (toC (y.getD 1 Cx.zero)).re = _
    rw [e4]
    have ha : ∀ a b : ℝ, F.add a b = a + b := fun _ _ => rfl
    have hs : ∀ a b : ℝ, F.sub a b = a - b := fun _ _ => rfl
    have hm : ∀ a b : ℝ, F.mul a b = a * b := fun _ _ => rfl
    have hma : ∀ a b c : ℝ, F.mulAdd a b c = a * b + c := fun _ _ _ => rfl
    have hn : ∀ a : ℝ, F.neg a = -a := fun _ => rfl
    have hc : F.sqrtHalf = rnd 24 (Real.sqrt 2 / 2) := rfl
    have hz : F.zero = 0 := rfl
    have ho : F.one = 1 := rfl
    simp only [fft16Half, Cx.mul]
    split <;> simp [Cx.mulFma, Cx.mulPlain, Cx.add, Cx.sub, ha, hs, hm, hma, hn, hc, hz, ho, cxMinusI]
  rw [hd]
  refine lt_of_lt_of_le ?_ (Complex.abs_re_le_norm _)
  rw [Complex.sub_re, hy, W8_1]
  obtain ⟨b1, b2⟩ := sqrt2_bounds
  rw [abs_sub_comm]
  refine lt_of_lt_of_le ?_ (le_abs_self _)
  simp only
  norm_num
  linarith

/-- C65, partial: with 53-bit arithmetic and the conversions through `f32`, power-of-two transforms of 32 to
`2^40` points do have double-precision accuracy. Missing from the full claim: 8 and 16 points and lengths
that are not powers of two, where it is false (`fft8_f64_not_double_precision`,
`fft_f64_not_double_precision`). -/
theorem fft_f64_pow2_accuracy_partial (fused fma : Bool) (cfg : Cfg) (hc : cfg.precomputed = false) (K : ℕ)
    (hK : 5 ≤ K) (hK40 : K ≤ 40) (x : List (Cx ℝ)) (hx : x.length = 2 ^ K) :
    letI := rndFlt 53 24 fused fma
    ∃ p y, fft cfg Planner.new x = .ok (p, y, .ok ()) ∧ y.length = x.length ∧
      ∀ k, k < x.length → ‖sig y k - dft x.length (sig x) k‖ ≤
        16 * K * 2 ^ K * (1 / 2 ^ 53) * ∑ s ∈ range x.length, ‖sig x s‖ := by
  letI := rndFlt 53 24 fused fma
  refine fft_error_rotation_tables (rndFlt_rounding 53 24 (by norm_num) (by norm_num) fused fma)
    (by norm_num) (by norm_num) cfg hc K hK ?_ x hx
  have h1 : (K : ℝ) ≤ 40 := by exact_mod_cast hK40
  have h2 : (2 : ℝ) ^ K ≤ 2 ^ 40 := pow_le_pow_right₀ (by norm_num) hK40
  have h3 : (K : ℝ) * 2 ^ K ≤ 40 * 2 ^ 40 := mul_le_mul h1 h2 (by positivity) (by norm_num)
  have h4 : 8 * (K * 2 ^ K) * (1 / 2 ^ 53) ≤ 8 * (40 * 2 ^ 40) * (1 / (2 : ℝ) ^ 53) := by gcongr
  calc 8 * (K : ℝ) * 2 ^ K * (1 / 2 ^ 53) = 8 * (K * 2 ^ K) * (1 / 2 ^ 53) := by ring
    _ ≤ _ := h4
    _ ≤ 1 := by norm_num

end Kofft.Props
