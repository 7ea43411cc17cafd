import Verif.Props.RoundingLaws
import Verif.Props.RoundingStack
/-
Property C120: integer samples survive a transform there and back: rounding the result to the nearest integers gives
the samples again, bit by bit, as long as the error bound stays below one half.
-/
namespace Kofft.Spec

/-- The samples are (complex) integers of absolute value at most `M`. -/
structure IntegerSamples (x : List (Cx ℝ)) (re im : ℕ → ℤ) (M : ℝ) : Prop where
  re_eq : ∀ s, s < x.length → (sig x s).re = re s
  im_eq : ∀ s, s < x.length → (sig x s).im = im s
  bound : ∀ s, s < x.length → ‖sig x s‖ ≤ M
  nonneg : 0 ≤ M

/-- Rounded to the nearest integers, `z` is exactly the given integer signal. -/
def RoundsTo (z : List (Cx ℝ)) (n : ℕ) (re im : ℕ → ℤ) : Prop :=
  z.length = n ∧ ∀ s, s < n → round (sig z s).re = re s ∧ round (sig z s).im = im s

end Kofft.Spec

namespace Kofft.Props
open Spec Complex Finset

theorem round_of_close {y : ℝ} {k : ℤ} (h : |y - k| < 1 / 2) : round y = k := by
  rw [round_eq, Int.floor_eq_iff]
  rw [abs_lt] at h
  constructor <;> linarith

theorem roundsTo_of_close {x z : List (Cx ℝ)} {re im : ℕ → ℤ} {M : ℝ} (hi : IntegerSamples x re im M)
    (hl : z.length = x.length) (h : ∀ s, s < x.length → ‖sig z s - sig x s‖ < 1 / 2) :
    RoundsTo z x.length re im := by
  refine ⟨hl, fun s hs => ?_⟩
  have h1 := lt_of_le_of_lt (Complex.abs_re_le_norm (sig z s - sig x s)) (h s hs)
  have h2 := lt_of_le_of_lt (Complex.abs_im_le_norm (sig z s - sig x s)) (h s hs)
  rw [Complex.sub_re, hi.re_eq s hs] at h1
  rw [Complex.sub_im, hi.im_eq s hs] at h2
  exact ⟨round_of_close h1, round_of_close h2⟩

variable [F : Flt ℝ] {u v t : ℝ}

/-- C120a. `fft` and `ifft` on integer samples, every supported length: exact after rounding if the error bound is
below one half. -/
theorem integer_round_trip (hF : Rounding F u v t) (cfg : Cfg) (n : ℕ) (p : Planner ℝ) (hp : Usable F cfg n p)
    (x : List (Cx ℝ)) (hx : x.length = n) (re im : ℕ → ℤ) (M : ℝ) (hi : IntegerSamples x re im M)
    (hsmall : (l2Growth cfg u v t n ^ 2 * scaleGrowth u v n - 1) * (Real.sqrt n * M) < 1 / 2) :
    ∃ p1 y p2 z, fft cfg p x = .ok (p1, y, .ok ()) ∧ ifft cfg p1 y = .ok (p2, z, .ok ()) ∧ RoundsTo z n re im := by
  subst hx
  obtain ⟨p1, y, p2, z, e1, e2, hl, hb⟩ := round_trip_error_l2 hF cfg x hp.pos hp.len p hp.hist
  refine ⟨p1, y, p2, z, e1, e2, roundsTo_of_close hi hl fun s hs => ?_⟩
  have hg := l2Growth_ge hF cfg x.length hp.pos
  have hsc := scaleGrowth_ge hF hp.pos
  have h0 : 0 ≤ l2Growth cfg u v t x.length ^ 2 * scaleGrowth u v x.length - 1 := by nlinarith
  refine lt_of_le_of_lt ?_ hsmall
  refine (coord_le_l2 (fun s => sig z s - sig x s) hs).trans (hb.trans (mul_le_mul_of_nonneg_left ?_ h0))
  exact l2_of_pointwise _ _ hi.nonneg hi.bound

/-- Error factor of one round trip. -/
theorem tripGrowth_precomputed (hF : Rounding F u v t) (hu : u ≤ 1 / 100000) (htu : t ≤ 2 * u) (cfg : Cfg)
    (hc : cfg.precomputed = true) (hk : cfg.kind = .f32 ∨ cfg.kind = .f64) (K : ℕ) (hK : 5 ≤ K) (hK10 : K ≤ 10) :
    l2Growth cfg u v t (2 ^ K) ^ 2 * scaleGrowth u v (2 ^ K) - 1 ≤ 102 * K * u := by
  have hg0 : 1 ≤ l2Growth cfg u v t (2 ^ K) := l2Growth_ge hF cfg _ (by positivity)
  have h16 : 16 < 2 ^ K := by
    have : 2 ^ 5 ≤ 2 ^ K := Nat.pow_le_pow_right (by norm_num) hK
    omega
  have hg : l2Growth cfg u v t (2 ^ K) ≤ 1 + 50 * (K * u) := by
    have := fftGrowth_precomputed (F := F) hF (by linarith) htu cfg hc hk K hK hK10
    rw [l2Growth, if_pos ⟨isPow2_pow K, h16⟩]
    linarith
  rw [scaleGrowth, if_pos (isPow2_pow K)]
  have hu0 := hF.u_nonneg
  have hK5 : (5 : ℝ) ≤ K := by exact_mod_cast hK
  have hKK : (K : ℝ) ≤ 10 := by exact_mod_cast hK10
  rw [show 102 * (K : ℝ) * u = 102 * (K * u) by ring]
  set y : ℝ := K * u
  have hy5 : 5 * u ≤ y := mul_le_mul_of_nonneg_right hK5 hu0
  have hy1 : y ≤ 1 / 10000 := by
    calc y ≤ 10 * u := mul_le_mul_of_nonneg_right hKK hu0
      _ ≤ _ := by linarith
  have hy0 : 0 ≤ y := by positivity
  have h1 : (1 + u) ^ 2 ≤ 1 + 0.41 * y := by nlinarith
  have h2 : l2Growth cfg u v t (2 ^ K) ^ 2 ≤ 1 + 100.3 * y := by
    refine (pow_le_pow_left₀ (by linarith) hg 2).trans ?_
    nlinarith
  have h3 : l2Growth cfg u v t (2 ^ K) ^ 2 * (1 + u) ^ 2 ≤ (1 + 100.3 * y) * (1 + 0.41 * y) :=
    mul_le_mul h2 h1 (by positivity) (by positivity)
  nlinarith

/-- C120b. Closed form with build-time tables, 32 to 1024 points. -/
theorem integer_round_trip_precomputed (hF : Rounding F u v t) (hu : u ≤ 1 / 100000) (htu : t ≤ 2 * u) (cfg : Cfg)
    (hc : cfg.precomputed = true) (hk : cfg.kind = .f32 ∨ cfg.kind = .f64) (K : ℕ) (hK : 5 ≤ K) (hK10 : K ≤ 10)
    (p : Planner ℝ) (hp : Usable F cfg (2 ^ K) p) (x : List (Cx ℝ)) (hx : x.length = 2 ^ K) (re im : ℕ → ℤ) (M : ℝ)
    (hi : IntegerSamples x re im M) (hsmall : 102 * K * u * (Real.sqrt (2 ^ K) * M) < 1 / 2) :
    ∃ p1 y p2 z, fft cfg p x = .ok (p1, y, .ok ()) ∧ ifft cfg p1 y = .ok (p2, z, .ok ()) ∧
      RoundsTo z (2 ^ K) re im := by
  refine integer_round_trip hF cfg _ p hp x hx re im M hi (lt_of_le_of_lt ?_ hsmall)
  push_cast
  exact mul_le_mul_of_nonneg_right (tripGrowth_precomputed hF hu htu cfg hc hk K hK hK10) (mul_nonneg (Real.sqrt_nonneg _) hi.nonneg)

/-- Error factor of one round trip. -/
theorem tripGrowth_rotation (hF : Rounding F u v t) (hu : u ≤ 1 / 100000) (htu : t ≤ 2 * u) (cfg : Cfg)
    (hc : cfg.precomputed = false) (K : ℕ) (hK : 5 ≤ K) (hs1 : 1000 * (K * 2 ^ K * u) ≤ 1) :
    l2Growth cfg u v t (2 ^ K) ^ 2 * scaleGrowth u v (2 ^ K) - 1 ≤ 33 * K * 2 ^ K * u := by
  have hu0 := hF.u_nonneg
  have hK5 : (5 : ℝ) ≤ K := by exact_mod_cast hK
  have hg0 : 1 ≤ l2Growth cfg u v t (2 ^ K) := l2Growth_ge hF cfg _ (by positivity)
  have h32n : 2 ^ 5 ≤ 2 ^ K := Nat.pow_le_pow_right (by norm_num) hK
  have h16 : 16 < 2 ^ K := by omega
  have h32 : (32 : ℝ) ≤ 2 ^ K := by
    calc (32 : ℝ) = 2 ^ 5 := by norm_num
      _ ≤ 2 ^ K := pow_le_pow_right₀ (by norm_num) hK
  have hy0 : 0 ≤ K * 2 ^ K * u := by positivity
  have hg : l2Growth cfg u v t (2 ^ K) ≤ 1 + 16 * (K * 2 ^ K * u) := by
    have := fftGrowth_rotation (F := F) hF (by linarith) htu cfg hc K hK
      (by rw [show 8 * (K : ℝ) * 2 ^ K * u = 8 * (K * 2 ^ K * u) by ring]; linarith)
    rw [l2Growth, if_pos ⟨isPow2_pow K, h16⟩]
    linarith
  rw [scaleGrowth, if_pos (isPow2_pow K)]
  have hy5 : 160 * u ≤ K * 2 ^ K * u := by
    apply mul_le_mul_of_nonneg_right _ hu0
    nlinarith
  rw [show 33 * (K : ℝ) * 2 ^ K * u = 33 * (K * 2 ^ K * u) by ring]
  generalize (K : ℝ) * 2 ^ K * u = y at *
  have h1 : (1 + u) ^ 2 ≤ 1 + 0.02 * y := by nlinarith
  have h2 : l2Growth cfg u v t (2 ^ K) ^ 2 ≤ 1 + 32.3 * y := by
    refine (pow_le_pow_left₀ (by linarith) hg 2).trans ?_
    nlinarith
  have h3 : l2Growth cfg u v t (2 ^ K) ^ 2 * (1 + u) ^ 2 ≤ (1 + 32.3 * y) * (1 + 0.02 * y) :=
    mul_le_mul h2 h1 (by positivity) (by positivity)
  nlinarith

/-- C120c. Closed form with tables built by rotation, at least 32 points. -/
theorem integer_round_trip_rotation (hF : Rounding F u v t) (hu : u ≤ 1 / 100000) (htu : t ≤ 2 * u) (cfg : Cfg)
    (hc : cfg.precomputed = false) (K : ℕ) (hK : 5 ≤ K) (hs1 : 1000 * (K * 2 ^ K * u) ≤ 1)
    (p : Planner ℝ) (hp : Usable F cfg (2 ^ K) p) (x : List (Cx ℝ)) (hx : x.length = 2 ^ K) (re im : ℕ → ℤ) (M : ℝ)
    (hi : IntegerSamples x re im M) (hsmall : 33 * K * 2 ^ K * u * (Real.sqrt (2 ^ K) * M) < 1 / 2) :
    ∃ p1 y p2 z, fft cfg p x = .ok (p1, y, .ok ()) ∧ ifft cfg p1 y = .ok (p2, z, .ok ()) ∧
      RoundsTo z (2 ^ K) re im := by
  refine integer_round_trip hF cfg _ p hp x hx re im M hi (lt_of_le_of_lt ?_ hsmall)
  push_cast
  exact mul_le_mul_of_nonneg_right (tripGrowth_rotation hF hu htu cfg hc K hK hs1) (mul_nonneg (Real.sqrt_nonneg _) hi.nonneg)

/-- C120d. The stack-only transforms (binary32 only in the source), every power of two. -/
theorem stack_integer_round_trip (hF : Rounding F u v t) {ε : ℝ} (hu : u ≤ ε) (ht : t ≤ ε) (K : ℕ)
    (hs : 1000 * (2 ^ K * ε) ≤ 1) (x : List (Cx ℝ)) (hx : x.length = 2 ^ K) (re im : ℕ → ℤ) (M : ℝ)
    (hi : IntegerSamples x re im M) (hsmall : 90 * 2 ^ K * ε * (2 ^ K * M) < 1 / 2) :
    ∃ y z, fftStack x = .ok (y, .ok ()) ∧ ifftStack y = .ok (z, .ok ()) ∧ RoundsTo z (2 ^ K) re im := by
  obtain ⟨y, z, e1, e2, hl, hb⟩ := stack_round_trip_error hF K x hx
  refine ⟨y, z, e1, e2, ?_⟩
  rw [← hx]
  refine roundsTo_of_close hi hl fun s hs' => lt_of_le_of_lt ((hb s hs').trans ?_) hsmall
  have hu0 := hF.u_nonneg
  have hε : 0 ≤ ε := hu0.trans hu
  have hM : 0 ≤ M := hi.nonneg
  have hsum : ∑ i ∈ range x.length, ‖sig x i‖ ≤ 2 ^ K * M := by
    calc _ ≤ ∑ i ∈ range x.length, M := sum_le_sum fun i h => hi.bound i (mem_range.mp h)
      _ = _ := by rw [sum_const, card_range, nsmul_eq_mul, hx]; push_cast; ring
  have hg := stackGrowth_linear (u := u) (t := t) (ε := ε) K hu0 hF.t_nonneg hu ht
    (by have : 0 ≤ 2 ^ K * ε := by positivity
        nlinarith)
  have hμ := mulErr_nonneg hu0
  have hg1 : 1 ≤ stackGrowth u t K := stackGrowth_ge hF K
  have h1 : (1 : ℝ) ≤ 2 ^ K := one_le_pow₀ (by norm_num)
  have hy0 : 0 ≤ 2 ^ K * ε := by positivity
  have hyu : u ≤ 2 ^ K * ε := hu.trans (by nlinarith)
  have hc : stackGrowth u t K ^ 2 * (1 + u) ^ 2 - 1 ≤ 90 * 2 ^ K * ε := by
    rw [show 90 * (2 : ℝ) ^ K * ε = 90 * (2 ^ K * ε) by ring]
    rw [show 40 * (2 : ℝ) ^ K * ε = 40 * (2 ^ K * ε) by ring] at hg
    generalize (2 : ℝ) ^ K * ε = y at *
    have a1 : (1 + u) ^ 2 ≤ 1 + 2.1 * y := by nlinarith
    have a2 : stackGrowth u t K ^ 2 ≤ 1 + 82 * y := by
      refine (pow_le_pow_left₀ (by linarith) (show stackGrowth u t K ≤ 1 + 40 * y by linarith) 2).trans ?_
      nlinarith
    have a3 : stackGrowth u t K ^ 2 * (1 + u) ^ 2 ≤ (1 + 82 * y) * (1 + 2.1 * y) :=
      mul_le_mul a2 a1 (by positivity) (by positivity)
    nlinarith
  exact mul_le_mul hc hsum (sum_nonneg fun _ _ => norm_nonneg _) (by positivity)

/-- 8-bit samples through a 1024-point transform in binary32 with build-time tables. -/
example (fused fma : Bool) (cfg : Cfg) (hc : cfg.precomputed = true) (hk : cfg.kind = .f32) (x : List (Cx ℝ))
    (hx : x.length = 2 ^ 10) (re im : ℕ → ℤ) (hi : IntegerSamples x re im 128) :
    letI := rndFlt 24 24 fused fma
    ∃ p1 y p2 z, fft cfg Planner.new x = .ok (p1, y, .ok ()) ∧ ifft cfg p1 y = .ok (p2, z, .ok ()) ∧
      RoundsTo z (2 ^ 10) re im := by
  letI := rndFlt 24 24 fused fma
  refine integer_round_trip_precomputed (rndFlt_rounding 24 24 (by norm_num) (by norm_num) fused fma) (by norm_num)
    (by norm_num) cfg hc (Or.inl hk) 10 (by norm_num) (by norm_num) Planner.new ⟨by norm_num, Or.inr ⟨10, rfl⟩, .new⟩
    x hx re im 128 hi ?_
  have : Real.sqrt (2 ^ 10) = 32 := by
    rw [Real.sqrt_eq_iff_mul_self_eq (by positivity) (by positivity)]; norm_num
  rw [this]
  norm_num

/-- 16-bit samples through a 65536-point transform in binary64, tables built by rotation. -/
example (fused fma : Bool) (cfg : Cfg) (hc : cfg.precomputed = false) (x : List (Cx ℝ))
    (hx : x.length = 2 ^ 16) (re im : ℕ → ℤ) (hi : IntegerSamples x re im 32768) :
    letI := rndFlt 53 24 fused fma
    ∃ p1 y p2 z, fft cfg Planner.new x = .ok (p1, y, .ok ()) ∧ ifft cfg p1 y = .ok (p2, z, .ok ()) ∧
      RoundsTo z (2 ^ 16) re im := by
  letI := rndFlt 53 24 fused fma
  refine integer_round_trip_rotation (rndFlt_rounding 53 24 (by norm_num) (by norm_num) fused fma) (by norm_num)
    (by norm_num) cfg hc 16 (by norm_num) (by norm_num) Planner.new ⟨by norm_num, Or.inr ⟨16, rfl⟩, .new⟩
    x hx re im 32768 hi ?_
  have : Real.sqrt (2 ^ 16) = 256 := by
    rw [Real.sqrt_eq_iff_mul_self_eq (by positivity) (by positivity)]; norm_num
  rw [this]
  norm_num

/-- 8-bit samples through a 16-point stack transform, which exists for binary32 only. -/
example (fused fma : Bool) (x : List (Cx ℝ)) (hx : x.length = 2 ^ 4) (re im : ℕ → ℤ)
    (hi : IntegerSamples x re im 128) :
    letI := rndFlt 24 24 fused fma
    ∃ y z, fftStack x = .ok (y, .ok ()) ∧ ifftStack y = .ok (z, .ok ()) ∧ RoundsTo z (2 ^ 4) re im := by
  letI := rndFlt 24 24 fused fma
  exact stack_integer_round_trip (rndFlt_rounding 24 24 (by norm_num) (by norm_num) fused fma) (ε := 1 / 2 ^ 24)
    (by norm_num) (by norm_num) 4 (by norm_num) x hx re im 128 hi (by norm_num)

/-- A signal of this kind. -/
example : IntegerSamples [⟨3, -4⟩, ⟨0, 1⟩] (fun s => [3, 0].getD s 0) (fun s => [-4, 1].getD s 0) 5 := by
  refine ⟨?_, ?_, ?_, by norm_num⟩
  · intro s hs
    have : s < 2 := hs
    interval_cases s <;> simp [sig]
  · intro s hs
    have : s < 2 := hs
    interval_cases s <;> simp [sig]
  · intro s hs
    have : s < 2 := hs
    rw [← sq_le_sq₀ (norm_nonneg _) (by norm_num), ← Complex.normSq_eq_norm_sq, Complex.normSq_apply]
    interval_cases s <;> simp [sig] <;> norm_num

end Kofft.Props
