import Verif.Proof.RoundFft
import Verif.Spec.Reach
import Verif.Lib.RndFlt
import Verif.Proof.Reach
import Mathlib.Analysis.Real.Pi.Bounds
/-
Property C64: accuracy of the transforms in floating-point arithmetic.

The arithmetic is any arithmetic in which every operation is exact up to a relative error (`Rounding`);
the bounds are explicit functions of the error parameters and the length.
-/
namespace Kofft.Props
open Spec Complex Finset

variable [F : Flt ℝ] {u v t : ℝ}

omit F in
theorem sig_getD [Flt ℝ] (x : List (Cx ℝ)) (i : ℕ) (hi : i < x.length) : sig x i = toC (x.getD i Cx.zero) := by
  rw [sig_get _ _ hi]; simp [hi]

theorem sig_apx (x : List (Cx ℝ)) (i : ℕ) (hi : i < x.length) :
    Apx 1 (toC (x.getD i Cx.zero)) (sig x i) ‖sig x i‖ := by
  rw [← sig_getD _ _ hi]; exact Apx.refl _

/-- C64a. `fft` in rounding arithmetic, on a transformer used before only with transforms no larger:
every output is within `(fftGrowth - 1) · fftWeight · Σ |x_t|` of the exact DFT. -/
theorem fft_error (hF : Rounding F u v t) (cfg : Cfg) (x : List (Cx ℝ))
    (hx : 0 < x.length) (hn : cfg.std = true ∨ ∃ k, x.length = 2 ^ k) (p : Planner ℝ)
    (hp : ReachVia cfg (fun m => workSize m ≤ workSize x.length) p) :
    ∃ p' y, fft cfg p x = .ok (p', y, .ok ()) ∧ y.length = x.length ∧
      ∀ k, k < x.length → ‖sig y k - dft x.length (sig x) k‖ ≤
        (fftGrowth cfg u v t x.length - 1) * (fftWeight x.length * ∑ s ∈ range x.length, ‖sig x s‖) := by
  have hr : fftRes cfg x.length = .ok () := by
    rcases hn with h | h
    · exact fftRes_std h hx
    · exact fftRes_pow2 cfg (isPow2_iff.mpr h)
  obtain ⟨p', e, h1, hl, -⟩ := (fft_opOk cfg).run p x (reachVia_inv hp)
  rw [hr, fftBuf_fresh cfg p x (reachVia_inv hp) hr (compat_of_reach hp)] at e
  rw [fftBuf_fresh cfg p x (reachVia_inv hp) hr (compat_of_reach hp)] at hl
  refine ⟨p', _, e, hl, ?_⟩
  intro k hk
  have := freshOut_rnd hF cfg x (sig x) (fun i => ‖sig x i‖) 1 (sig_apx x) k hk
  rw [one_mul] at this
  rw [sig_getD _ _ (by rw [hl]; exact hk)]
  exact this.err

/-- C64b. The same for `ifft` and the inverse DFT. -/
theorem ifft_error (hF : Rounding F u v t) (cfg : Cfg) (x : List (Cx ℝ))
    (hx : 0 < x.length) (hn : cfg.std = true ∨ ∃ k, x.length = 2 ^ k) (p : Planner ℝ)
    (hp : ReachVia cfg (fun m => workSize m ≤ workSize x.length) p) :
    ∃ p' y, ifft cfg p x = .ok (p', y, .ok ()) ∧ y.length = x.length ∧
      ∀ s, s < x.length → ‖sig y s - idft x.length (sig x) s‖ ≤
        (fftGrowth cfg u v t x.length * scaleGrowth u v x.length - 1) *
          (fftWeight x.length * (∑ k ∈ range x.length, ‖sig x k‖) / x.length) := by
  have hr : fftRes cfg x.length = .ok () := by
    rcases hn with h | h
    · exact fftRes_std h hx
    · exact fftRes_pow2 cfg (isPow2_iff.mpr h)
  obtain ⟨p', e, h1, hl, -⟩ := (ifft_opOk cfg).run p x (reachVia_inv hp)
  rw [hr] at e
  refine ⟨p', _, e, hl, ?_⟩
  intro s hs
  have := ifftBuf_rnd hF cfg p x (reachVia_inv hp) hr (compat_of_reach hp) (sig x) (fun i => ‖sig x i‖) 1
    (sig_apx x) s hs
  rw [one_mul] at this
  rw [sig_getD _ _ (by rw [hl]; exact hs)]
  exact this.err

/-- C64c. `fft` followed by `ifft` on the same transformer returns the signal up to rounding. -/
theorem round_trip_error (hF : Rounding F u v t) (cfg : Cfg) (x : List (Cx ℝ))
    (hx : 0 < x.length) (hn : cfg.std = true ∨ ∃ k, x.length = 2 ^ k) (p : Planner ℝ)
    (hp : ReachVia cfg (fun m => workSize m ≤ workSize x.length) p) :
    ∃ p1 y p2 z, fft cfg p x = .ok (p1, y, .ok ()) ∧ ifft cfg p1 y = .ok (p2, z, .ok ()) ∧
      z.length = x.length ∧
      ∀ s, s < x.length → ‖sig z s - sig x s‖ ≤
        (fftGrowth cfg u v t x.length ^ 2 * scaleGrowth u v x.length - 1) *
          (fftWeight x.length ^ 2 * ∑ k ∈ range x.length, ‖sig x k‖) := by
  have hr : fftRes cfg x.length = .ok () := by
    rcases hn with h | h
    · exact fftRes_std h hx
    · exact fftRes_pow2 cfg (isPow2_iff.mpr h)
  obtain ⟨p1, e, h1, hl, -⟩ := (fft_opOk cfg).run p x (reachVia_inv hp)
  rw [hr, fftBuf_fresh cfg p x (reachVia_inv hp) hr (compat_of_reach hp)] at e
  rw [fftBuf_fresh cfg p x (reachVia_inv hp) hr (compat_of_reach hp)] at hl
  have hp1 : ReachVia cfg (fun m => workSize m ≤ workSize x.length) p1 := .fft hp le_rfl e
  set y := freshOut cfg x with hy
  obtain ⟨p2, e2, -, hl2, -⟩ := (ifft_opOk cfg).run p1 y (reachVia_inv hp1)
  rw [hl] at e2
  rw [hr] at e2
  refine ⟨p1, y, p2, _, e, e2, by rw [hl2, hl], ?_⟩
  intro s hs
  have a1 := fun k hk => freshOut_rnd hF cfg x (sig x) (fun i => ‖sig x i‖) 1 (sig_apx x) k hk
  have a2 := ifftBuf_rnd hF cfg p1 y (reachVia_inv hp1) (by rw [hl]; exact hr)
    (by rw [hl]; exact compat_of_reach hp1) (dft x.length (sig x)) _ _
    (by rw [hl]; exact a1) s (by rw [hl]; exact hs)
  rw [hl, idft_dft _ hs] at a2
  rw [sig_getD _ _ (by rw [hl2, hl]; exact hs)]
  have hn' : (x.length : ℝ) ≠ 0 := by exact_mod_cast (by omega : x.length ≠ 0)
  have e3 := a2.err
  rw [sum_const, card_range, nsmul_eq_mul] at e3
  refine e3.trans (le_of_eq ?_)
  field_simp

/-- The hypotheses are met by arithmetics that really round: 24 and 53 significant bits, fused or unfused
multiply-add, integers converted through 24 bits; and by exact arithmetic, where the bounds are 0. -/
example (fused fma : Bool) : Rounding (rndFlt 24 24 fused fma) (1 / 2 ^ 24) (1 / 2 ^ 24) (1 / 2 ^ 24) ∧
    Rounding (rndFlt 53 24 fused fma) (1 / 2 ^ 53) (1 / 2 ^ 24) (1 / 2 ^ 53) ∧
    Rounding (realFlt fma) 0 0 0 ∧ (∀ cfg n, fftGrowth cfg 0 0 0 n = 1) :=
  ⟨rndFlt_rounding 24 24 (by norm_num) (by norm_num) fused fma,
    rndFlt_rounding 53 24 (by norm_num) (by norm_num) fused fma, rounding_of_lawful (realFlt_lawful fma), by
    intro cfg n
    simp [fftGrowth, powGrowth, bluGrowth, mulErr, twGrowth, preGrowth, tableGrowth, rotErr, chirpErr]⟩

/-- The 24-bit arithmetic is not exact. -/
example (fused fma : Bool) : (rndFlt 24 24 fused fma).div 1 3 ≠ 1 / 3 := by
  show rnd 24 (1 / 3) ≠ 1 / 3
  unfold rnd
  intro h
  generalize round ((1 / 3 : ℝ) / 2 ^ (Int.log 2 |(1 / 3 : ℝ)| - (24 : ℕ) + 1)) = r at h
  generalize Int.log 2 |(1 / 3 : ℝ)| - (24 : ℕ) + 1 = e at h
  have h3 : (3 : ℝ) * r * 2 ^ e = 1 := by linarith
  obtain ⟨k, hk | hk⟩ := Int.eq_nat_or_neg e
  · rw [hk, zpow_natCast] at h3
    have : (3 * r * 2 ^ k : ℤ) = 1 := by exact_mod_cast h3
    have : (3 : ℤ) ∣ 1 := ⟨r * 2 ^ k, by rw [← this]; ring⟩
    norm_num at this
  · rw [hk, zpow_neg, zpow_natCast] at h3
    have h4 : (3 : ℝ) * r = 2 ^ k := by field_simp at h3; linarith
    have h5 : (3 * r : ℤ) = 2 ^ k := by exact_mod_cast h4
    have h6 : (3 : ℤ) ∣ 2 ^ k := ⟨r, h5.symm⟩
    have := (Nat.prime_three).dvd_of_dvd_pow (by exact_mod_cast h6 : 3 ∣ 2 ^ k)
    norm_num at this

/-! ### How large the bound is -/

omit F in
theorem pow_growth_le {a : ℝ} (ha : 0 ≤ a) (k : ℕ) (h : k * a ≤ 1) : (1 + a) ^ k - 1 ≤ 2 * (k * a) := by
  have h1 : (1 + a) ^ k ≤ Real.exp (k * a) := by
    rw [Real.exp_nat_mul]
    exact pow_le_pow_left₀ (by linarith) (by linarith [Real.add_one_le_exp a]) k
  have h0 : 0 ≤ k * a := by positivity
  have h2 := Real.abs_exp_sub_one_le (x := k * a) (by rw [abs_of_nonneg h0]; exact h)
  rw [abs_of_nonneg h0] at h2
  have := le_abs_self (Real.exp (k * a) - 1)
  linarith

theorem powGrowth_linear (hF : Rounding F u v t) (cfg : Cfg) (K : ℕ) {ε : ℝ} (h0 : 0 ≤ ε)
    (hε : (1 + u) * (1 + mulErr u) * twGrowth cfg u v t (2 ^ K) ≤ 1 + ε) (hK : K * ε ≤ 1) :
    fftGrowth cfg u v t (2 ^ K) - 1 ≤ 2 * (K * ε) := by
  have hp : isPow2 (2 ^ K) = true := isPow2_pow K
  rw [fftGrowth, if_pos hp, powGrowth, log2_pow']
  have := lvl_ge hF.u_nonneg (twGrowth_ge hF cfg (2 ^ K))
  have h1 := pow_le_pow_left₀ (by unfold lvl at this; linarith) hε K
  linarith [pow_growth_le h0 K hK]

omit F in
theorem sqrt2_le : Real.sqrt 2 ≤ 1.415 := by
  rw [Real.sqrt_le_left (by norm_num)]; norm_num

omit F in
theorem mulErr_le (hu : 0 ≤ u) (h : u ≤ 1 / 1000) : mulErr u ≤ 3 * u := by
  have := sqrt2_le
  unfold mulErr
  have h2 : 2 * u + u ^ 2 ≤ 2.001 * u := by nlinarith
  calc _ ≤ 1.415 * (2.001 * u) := mul_le_mul this h2 (by positivity) (by norm_num)
    _ ≤ _ := by linarith

omit F in
theorem tableGrowth_le (hu : 0 ≤ u) (ht : 0 ≤ t) (h : u ≤ 1 / 1000) (htu : t ≤ 2 * u) (K : ℕ) (hK : 5 ≤ K)
    (hn : 8 * 2 ^ K * u ≤ 1) : tableGrowth u t (2 ^ K) ≤ 1 + 7 * 2 ^ K * u := by
  have hμ := mulErr_le hu h
  have hμ0 := mulErr_nonneg hu
  have h32 : (32 : ℝ) ≤ 2 ^ K := by
    calc (32 : ℝ) = 2 ^ 5 := by norm_num
      _ ≤ 2 ^ K := pow_le_pow_right₀ (by norm_num) hK
  have hrot : rotErr u t (2 ^ K) ≤ 3.5 * u := by
    unfold rotErr
    have h1 : Real.sqrt 2 * t ≤ 1.415 * (2 * u) := mul_le_mul sqrt2_le htu ht (by norm_num)
    have h2 : (1 + u) ^ 3 - 1 ≤ 3.1 * u := by nlinarith [sq_nonneg u, mul_nonneg hu hu]
    have h3 : 2 * Real.pi / ((2 ^ K : ℕ) : ℝ) ≤ 0.2 := by
      push_cast
      rw [div_le_iff₀ (by positivity)]
      nlinarith [Real.pi_lt_d2]
    have h4 : 0 ≤ 2 * Real.pi / ((2 ^ K : ℕ) : ℝ) := by have := Real.pi_pos; positivity
    have h5 : ((1 + u) ^ 3 - 1) * (2 * Real.pi / ((2 ^ K : ℕ) : ℝ)) ≤ 3.1 * u * 0.2 :=
      mul_le_mul h2 h3 h4 (by positivity)
    linarith
  have hr0 : 0 ≤ rotErr u t (2 ^ K) := by
    unfold rotErr
    have : 1 ≤ (1 + u) ^ 3 := one_le_pow₀ (by linarith)
    have := Real.pi_pos
    have h2 : 0 ≤ ((1 + u) ^ 3 - 1) * (2 * Real.pi / ((2 ^ K : ℕ) : ℝ)) := mul_nonneg (by linarith) (by positivity)
    have h3 : 0 ≤ Real.sqrt 2 * t := by positivity
    linarith
  have hb : (1 + mulErr u) * (1 + rotErr u t (2 ^ K)) ≤ 1 + 7 * u := by
    calc _ ≤ (1 + 3 * u) * (1 + 3.5 * u) := by gcongr
      _ ≤ _ := by nlinarith
  have hhalf : ((2 ^ K / 2 : ℕ) : ℝ) = 2 ^ K / 2 := by
    obtain ⟨J, rfl⟩ : ∃ J, K = J + 1 := ⟨K - 1, by omega⟩
    rw [pow_succ, Nat.mul_div_cancel _ (by norm_num)]
    push_cast; ring
  have h6 := pow_growth_le (a := 7 * u) (by positivity) (2 ^ K / 2) (by rw [hhalf]; nlinarith)
  rw [hhalf] at h6
  unfold tableGrowth
  have h7 := pow_le_pow_left₀ (by positivity) hb (2 ^ K / 2)
  linarith

theorem fftGrowth_rotation (hF : Rounding F u v t) (hu : u ≤ 1 / 1000) (htu : t ≤ 2 * u) (cfg : Cfg)
    (hc : cfg.precomputed = false) (K : ℕ) (hK : 5 ≤ K) (hsmall : 8 * K * 2 ^ K * u ≤ 1) :
    fftGrowth cfg u v t (2 ^ K) - 1 ≤ 16 * K * 2 ^ K * u := by
  have hu0 := hF.u_nonneg
  have h32 : (32 : ℝ) ≤ 2 ^ K := by
    calc (32 : ℝ) = 2 ^ 5 := by norm_num
      _ ≤ 2 ^ K := pow_le_pow_right₀ (by norm_num) hK
  have hK' : (5 : ℝ) ≤ K := by exact_mod_cast hK
  have hpu : 0 ≤ 2 ^ K * u := by positivity
  have h32u : 32 * u ≤ 2 ^ K * u := mul_le_mul_of_nonneg_right h32 hu0
  have hs1 : 8 * 2 ^ K * u ≤ 1 := by nlinarith
  have h16 : ¬ 2 ^ K ≤ 16 := by
    have : 2 ^ 5 ≤ 2 ^ K := Nat.pow_le_pow_right (by norm_num) hK
    omega
  have htw : twGrowth cfg u v t (2 ^ K) ≤ 1 + 7 * 2 ^ K * u := by
    rw [twGrowth, if_neg h16, if_neg (by rw [hc]; simp)]
    exact tableGrowth_le hu0 hF.t_nonneg hu htu K hK hs1
  have htw1 := twGrowth_ge hF cfg (2 ^ K)
  have hμ := mulErr_le hu0 hu
  have hμ0 := mulErr_nonneg hu0
  have hlev : (1 + u) * (1 + mulErr u) * twGrowth cfg u v t (2 ^ K) ≤ 1 + 8 * 2 ^ K * u := by
    calc _ ≤ (1 + u) * (1 + 3 * u) * (1 + 7 * 2 ^ K * u) := by gcongr
      _ ≤ (1 + 4.01 * u) * (1 + 7 * 2 ^ K * u) := by
          apply mul_le_mul_of_nonneg_right _ (by positivity)
          nlinarith
      _ ≤ _ := by
          have : 4.01 * u * (7 * 2 ^ K * u) ≤ 4.01 * u := by
            have : 7 * 2 ^ K * u ≤ 1 := by linarith
            nlinarith
          nlinarith
  have := powGrowth_linear hF cfg K (ε := 8 * 2 ^ K * u) (by positivity) hlev (by nlinarith)
  linarith

/-- C64d. Closed form, tables built by rotation (`get_twiddles`): for `2^K ≥ 32` points the error is at most
`16 · K · 2^K · u · Σ |x_t|`, as long as `8 · K · 2^K · u ≤ 1` and `sin`, `cos` are accurate to `2u`. -/
theorem fft_error_rotation_tables (hF : Rounding F u v t) (hu : u ≤ 1 / 1000) (htu : t ≤ 2 * u) (cfg : Cfg)
    (hc : cfg.precomputed = false) (K : ℕ) (hK : 5 ≤ K) (hsmall : 8 * K * 2 ^ K * u ≤ 1)
    (x : List (Cx ℝ)) (hx : x.length = 2 ^ K) :
    ∃ p y, fft cfg Planner.new x = .ok (p, y, .ok ()) ∧ y.length = x.length ∧
      ∀ k, k < x.length → ‖sig y k - dft x.length (sig x) k‖ ≤
        16 * K * 2 ^ K * u * ∑ s ∈ range x.length, ‖sig x s‖ := by
  obtain ⟨p, y, e, hl, hb⟩ := fft_error hF cfg x (by rw [hx]; positivity) (Or.inr ⟨K, hx⟩) Planner.new .new
  refine ⟨p, y, e, hl, ?_⟩
  intro k hk
  refine (hb k hk).trans ?_
  have hp : isPow2 x.length = true := by rw [hx]; exact isPow2_pow K
  rw [fftWeight, if_pos hp, one_mul]
  apply mul_le_mul_of_nonneg_right _ (sum_nonneg fun _ _ => norm_nonneg _)
  rw [hx]
  exact fftGrowth_rotation hF hu htu cfg hc K hK hsmall

/-- Its hypotheses for binary32 and 1024 points: the error is below `0.01 Σ |x_t|`. -/
example (fused fma : Bool) (cfg : Cfg) (hc : cfg.precomputed = false) (x : List (Cx ℝ)) (hx : x.length = 1024) :
    letI := rndFlt 24 24 fused fma
    ∃ p y, fft cfg Planner.new x = .ok (p, y, .ok ()) ∧ y.length = x.length ∧
      ∀ k, k < x.length → ‖sig y k - dft x.length (sig x) k‖ ≤ 0.01 * ∑ s ∈ range x.length, ‖sig x s‖ := by
  letI := rndFlt 24 24 fused fma
  obtain ⟨p, y, e, hl, hb⟩ := fft_error_rotation_tables (rndFlt_rounding 24 24 (by norm_num) (by norm_num) fused fma)
    (by norm_num) (by norm_num) cfg hc 10 (by norm_num) (by norm_num) x (by rw [hx]; norm_num)
  refine ⟨p, y, e, hl, fun k hk => (hb k hk).trans ?_⟩
  apply mul_le_mul_of_nonneg_right _ (sum_nonneg fun _ _ => norm_nonneg _)
  norm_num

theorem fftGrowth_precomputed (hF : Rounding F u v t) (hu : u ≤ 1 / 1000) (htu : t ≤ 2 * u) (cfg : Cfg)
    (hc : cfg.precomputed = true) (hk : cfg.kind = .f32 ∨ cfg.kind = .f64) (K : ℕ) (hK : 5 ≤ K) (hK10 : K ≤ 10) :
    fftGrowth cfg u v t (2 ^ K) - 1 ≤ 50 * K * u := by
  have hu0 := hF.u_nonneg
  have ht0 := hF.t_nonneg
  have hK' : (K : ℝ) ≤ 10 := by exact_mod_cast hK10
  have h16 : ¬ 2 ^ K ≤ 16 := by
    have : 2 ^ 5 ≤ 2 ^ K := Nat.pow_le_pow_right (by norm_num) hK
    omega
  have h1024 : 2 ^ K ≤ 1024 := by
    calc 2 ^ K ≤ 2 ^ 10 := Nat.pow_le_pow_right (by norm_num) hK10
      _ = 1024 := by norm_num
  have htw : twGrowth cfg u v t (2 ^ K) ≤ 1 + 20 * u := by
    rw [twGrowth, if_neg h16, if_pos ⟨hc, hk, h1024⟩, preGrowth]
    have h1 : Real.sqrt 2 * (2 * t + t ^ 2) ≤ 1.415 * (4.01 * u) :=
      mul_le_mul sqrt2_le (by nlinarith) (by positivity) (by norm_num)
    have h2 : (1 + u) ^ 4 - 1 ≤ 4.02 * u := by
      have hu2 : u ^ 2 ≤ u / 1000 := by nlinarith
      have hu3 : u ^ 3 ≤ u / 1000 := by nlinarith [sq_nonneg u]
      have hu4 : u ^ 4 ≤ u / 1000 := by nlinarith [sq_nonneg u, pow_nonneg hu0 3]
      nlinarith
    have h3 : ((1 + u) ^ 4 - 1) * Real.pi ≤ 4.02 * u * 3.15 :=
      mul_le_mul h2 Real.pi_lt_d2.le Real.pi_pos.le (by positivity)
    linarith
  have hμ := mulErr_le hu0 hu
  have hμ0 := mulErr_nonneg hu0
  have htw1 := twGrowth_ge hF cfg (2 ^ K)
  have hlev : (1 + u) * (1 + mulErr u) * twGrowth cfg u v t (2 ^ K) ≤ 1 + 25 * u := by
    calc _ ≤ (1 + u) * (1 + 3 * u) * (1 + 20 * u) := by gcongr
      _ ≤ (1 + 4.01 * u) * (1 + 20 * u) := by
          apply mul_le_mul_of_nonneg_right _ (by positivity)
          nlinarith
      _ ≤ _ := by nlinarith
  have := powGrowth_linear hF cfg K (ε := 25 * u) (by positivity) hlev (by nlinarith)
  linarith

/-- C64e. Closed form with the tables generated at build time: at most `50 · K · u · Σ |x_t|` for
`2^5 ≤ 2^K ≤ 2^10` points. -/
theorem fft_error_precomputed (hF : Rounding F u v t) (hu : u ≤ 1 / 1000) (htu : t ≤ 2 * u) (cfg : Cfg)
    (hc : cfg.precomputed = true) (hk : cfg.kind = .f32 ∨ cfg.kind = .f64) (K : ℕ) (hK : 5 ≤ K) (hK10 : K ≤ 10)
    (x : List (Cx ℝ)) (hx : x.length = 2 ^ K) :
    ∃ p y, fft cfg Planner.new x = .ok (p, y, .ok ()) ∧ y.length = x.length ∧
      ∀ k, k < x.length → ‖sig y k - dft x.length (sig x) k‖ ≤
        50 * K * u * ∑ s ∈ range x.length, ‖sig x s‖ := by
  obtain ⟨p, y, e, hl, hb⟩ := fft_error hF cfg x (by rw [hx]; positivity) (Or.inr ⟨K, hx⟩) Planner.new .new
  refine ⟨p, y, e, hl, ?_⟩
  intro k hk'
  refine (hb k hk').trans ?_
  have hp : isPow2 x.length = true := by rw [hx]; exact isPow2_pow K
  rw [fftWeight, if_pos hp, one_mul]
  apply mul_le_mul_of_nonneg_right _ (sum_nonneg fun _ _ => norm_nonneg _)
  rw [hx]
  exact fftGrowth_precomputed hF hu htu cfg hc hk K hK hK10

end Kofft.Props
