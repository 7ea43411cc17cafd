import Verif.Props.RoundingF64
import Verif.Proof.Conv24
/-
Property C65, positive half: the lengths at which the conversions of the `f64` code through `f32` do no harm.
-/
namespace Kofft
open Spec Complex Finset

/-- The lengths at which no conversion through `f32` loses anything. -/
def Spec.F64Safe (n : ℕ) : Prop :=
  n = 1 ∨ n = 2 ∨ n = 4 ∨ (∃ K, 5 ≤ K ∧ n = 2 ^ K) ∨ (9 ≤ n ∧ n ≤ 4097 ∧ ¬ ∃ K, n = 2 ^ K)

theorem rnd24_nat_le {n : ℕ} (h : n ≤ 2 ^ 24) : rnd 24 n = n := by
  rcases Nat.lt_or_eq_of_le h with h | h
  · exact rnd_nat 24 n h
  · have := rnd_pow 24 24 (by norm_num)
    rw [h, Nat.cast_pow, Nat.cast_ofNat]
    exact this

theorem rnd24_isPow2 {n : ℕ} (h : isPow2 n = true) : rnd 24 n = n := by
  obtain ⟨k, rfl⟩ := isPow2_iff.mp h
  push_cast; exact rnd_pow 24 k (by norm_num)

/-- At a safe length the conversions and constants do not show. -/
theorem freshOut_conv24 (F : Flt ℝ) (h1 : ∀ n, n ≤ 2 ^ 24 → F.ofNat n = n)
    (h2 : ∀ n, isPow2 n = true → F.ofNat n = n) (s c d : ℝ) (cfg : Cfg) (x : List (Cx ℝ))
    (hx : F64Safe x.length) :
    @freshOut ℝ (reConst F (fun n => rnd 24 n) s c d) cfg x = @freshOut ℝ F cfg x := by
  have ho : ∀ n, n ≤ 2 ^ 24 → (fun n : ℕ => rnd 24 n) n = F.ofNat n := fun n hn => by
    show rnd 24 n = _
    rw [h1 n hn, rnd24_nat_le hn]
  have ho2 : ∀ n, isPow2 n = true → (fun n : ℕ => rnd 24 n) n = F.ofNat n := fun n hn => by
    show rnd 24 n = _
    rw [h2 n hn, rnd24_isPow2 hn]
  have small : (x.length = 1 ∨ x.length = 2 ∨ x.length = 4) → isPow2 x.length = true →
      @freshOut ℝ (reConst F (fun n => rnd 24 n) s c d) cfg x = @freshOut ℝ F cfg x := by
    intro h hp
    unfold freshOut
    rw [if_pos hp, if_pos hp]
    exact freshPow_re_small F _ s c d cfg x h
  rcases hx with h | h | h | ⟨K, hK, h⟩ | ⟨h9, h4097, hnp⟩
  · exact small (by tauto) (by rw [h]; decide)
  · exact small (by tauto) (by rw [h]; decide)
  · exact small (by tauto) (by rw [h]; decide)
  · have hp : isPow2 x.length = true := isPow2_iff.mpr ⟨K, h⟩
    unfold freshOut
    rw [if_pos hp, if_pos hp]
    refine freshPow_re F _ s c d cfg x ?_ (ho2 _ hp)
    have : 2 ^ 5 ≤ 2 ^ K := Nat.pow_le_pow_right (by norm_num) hK
    omega
  · have hp : ¬ isPow2 x.length = true := fun h => hnp (isPow2_iff.mp h)
    unfold freshOut
    rw [if_neg hp, if_neg hp]
    have := bluM_ge x.length
    refine bluOut_re F _ s c d cfg x (by omega) (by omega) (ho _ (by omega)) (ho2 _ (bluM_pow2 _)) ?_
    intro i hi
    refine ho _ ?_
    calc i * i ≤ 4096 * 4096 := Nat.mul_le_mul (by omega) (by omega)
      _ = 2 ^ 24 := by norm_num

theorem idealF64_re (fma : Bool) : idealF64 fma = reConst (realFlt fma) (fun n => rnd 24 n)
    (rnd 24 (Real.sqrt 2 / 2)) (rnd 24 (Real.cos (Real.pi / 8))) (rnd 24 (Real.sin (Real.pi / 8))) := rfl

theorem rndFlt_re (fused fma : Bool) : rndFlt 53 24 fused fma = reConst (rndFlt 53 53 fused fma) (fun n => rnd 24 n)
    (rnd 24 (Real.sqrt 2 / 2)) (rnd 24 (Real.cos (Real.pi / 8))) (rnd 24 (Real.sin (Real.pi / 8))) := rfl

section growth
variable [F : Flt ℝ] {u v t : ℝ}

/-- The bound of C64 for tables built by rotation holds for every configuration. -/
theorem fftGrowth_any (hF : Rounding F u v t) (hu : u ≤ 1 / 1000) (htu : t ≤ 2 * u) (cfg : Cfg)
    (K : ℕ) (hK : 5 ≤ K) (hsmall : 8 * K * 2 ^ K * u ≤ 1) :
    fftGrowth cfg u v t (2 ^ K) - 1 ≤ 16 * K * 2 ^ K * u := by
  have hu0 := hF.u_nonneg
  by_cases hc : cfg.precomputed = true ∧ (cfg.kind = .f32 ∨ cfg.kind = .f64) ∧ 2 ^ K ≤ 1024
  · have hK10 : K ≤ 10 := by
      have := hc.2.2
      rw [show 1024 = 2 ^ 10 by norm_num] at this
      exact (Nat.pow_le_pow_iff_right (by norm_num)).mp this
    have := Props.fftGrowth_precomputed hF hu htu cfg hc.1 hc.2.1 K hK hK10
    have h32 : (32 : ℝ) ≤ 2 ^ K := by
      calc (32 : ℝ) = 2 ^ 5 := by norm_num
        _ ≤ 2 ^ K := pow_le_pow_right₀ (by norm_num) hK
    have h0 : 0 ≤ (K : ℝ) * u := by positivity
    have : (K : ℝ) * u * 32 ≤ K * u * 2 ^ K := mul_le_mul_of_nonneg_left h32 h0
    linarith
  · have e : fftGrowth cfg u v t (2 ^ K) = fftGrowth { cfg with precomputed := false } u v t (2 ^ K) := by
      simp only [fftGrowth, isPow2_pow, if_true, powGrowth, twGrowth]
      rw [if_neg hc, if_neg (c := false = true ∧ _) (by simp)]
    rw [e]
    exact Props.fftGrowth_rotation hF hu htu _ rfl K hK hsmall

/-- The same for the lengths that go through the chirp transform. -/
theorem bluGrowth_le (hF : Rounding F u u t) (hu : u ≤ 1 / 1000) (htu : t ≤ u) (cfg : Cfg)
    (n K : ℕ) (hK : 5 ≤ K) (hn : n ≤ 2 ^ K) (hsmall : 1000 * (K * 2 ^ K * u) ≤ 1) :
    bluGrowth cfg u u t n (2 ^ K) - 1 ≤ 64 * K * 2 ^ K * u := by
  have hu0 := hF.u_nonneg
  have ht0 := hF.t_nonneg
  have hp := fftGrowth_any hF hu (by linarith) cfg K hK (by nlinarith)
  rw [fftGrowth, if_pos (isPow2_pow K)] at hp
  have h32 : (32 : ℝ) ≤ 2 ^ K := by
    calc (32 : ℝ) = 2 ^ 5 := by norm_num
      _ ≤ 2 ^ K := pow_le_pow_right₀ (by norm_num) hK
  have hK' : (5 : ℝ) ≤ K := by exact_mod_cast hK
  have hn' : (n : ℝ) ≤ 2 ^ K := by exact_mod_cast hn
  have hμ := Props.mulErr_le hu0 hu
  have hμ0 := mulErr_nonneg hu0
  have hp1 := powGrowth_ge hF cfg (2 ^ K)
  set a : ℝ := K * 2 ^ K * u with ha
  have ha0 : 0 ≤ a := by positivity
  have hpu : 5 * (2 ^ K * u) ≤ a := by
    rw [ha, mul_assoc]
    exact mul_le_mul_of_nonneg_right hK' (by positivity)
  have hu160 : 160 * u ≤ a := by
    have : 32 * u ≤ 2 ^ K * u := mul_le_mul_of_nonneg_right h32 hu0
    linarith
  have hr : (1 + u) ^ 3 * ((1 + u) / (1 - u)) - 1 ≤ 5.1 * u := by
    have h1 : 0 < 1 - u := by linarith
    have : (1 + u) ^ 3 * ((1 + u) / (1 - u)) ≤ 1 + 5.1 * u := by
      rw [← mul_div_assoc, div_le_iff₀ h1]
      have hu2 : u ^ 2 ≤ u / 1000 := by nlinarith
      have hu3 : u ^ 3 ≤ u / 1000 := by nlinarith [sq_nonneg u]
      have hu4 : u ^ 4 ≤ u / 1000 := by nlinarith [sq_nonneg u, pow_nonneg hu0 3]
      nlinarith
    linarith
  have hch : chirpErr u u t n ≤ 3.3 * a := by
    unfold chirpErr
    have h1 : Real.sqrt 2 * t ≤ 1.415 * u := mul_le_mul Props.sqrt2_le htu ht0 (by norm_num)
    have h2 : ((1 + u) ^ 3 * ((1 + u) / (1 - u)) - 1) * (Real.pi * n) ≤ 5.1 * u * (3.15 * 2 ^ K) := by
      apply mul_le_mul hr _ (by positivity) (by positivity)
      exact mul_le_mul Real.pi_lt_d2.le hn' (by positivity) (by norm_num)
    nlinarith
  have hch0 : 0 ≤ chirpErr u u t n := chirpErr_nonneg hF n
  have hp' : powGrowth cfg u u t (2 ^ K) ≤ 1 + 16 * a := by rw [ha]; nlinarith
  have h2 : a ^ 2 ≤ a / 1000 := by nlinarith
  have h3 : a ^ 3 ≤ a / 1000000 := by nlinarith
  unfold bluGrowth
  have hprod : (1 + mulErr u) * (1 + chirpErr u u t n) * powGrowth cfg u u t (2 ^ K) ≤ 1 + 20 * a := by
    calc _ ≤ (1 + 0.02 * a) * (1 + 3.3 * a) * (1 + 16 * a) := by
          gcongr
          · linarith
      _ ≤ _ := by nlinarith
  have h20 : (1 + 20 * a) ^ 3 ≤ 1 + 63 * a := by
    nlinarith
  have hu2 : (1 + u) ^ 2 ≤ 1 + 0.02 * a := by nlinarith
  have h0 : 0 ≤ (1 + mulErr u) * (1 + chirpErr u u t n) * powGrowth cfg u u t (2 ^ K) := by positivity
  have : ((1 + mulErr u) * (1 + chirpErr u u t n) * powGrowth cfg u u t (2 ^ K)) ^ 3 * (1 + u) ^ 2 ≤
      (1 + 63 * a) * (1 + 0.02 * a) := by
    apply mul_le_mul ((pow_le_pow_left₀ h0 hprod 3).trans h20) hu2 (by positivity) (by positivity)
  have : 64 * (K : ℝ) * 2 ^ K * u = 64 * a := by rw [ha]; ring
  rw [this]
  nlinarith

end growth

namespace Props

/-- A successful `fft` returns the output of a new planner's transform. -/
theorem fft_run_fresh [F : Flt ℝ] (cfg : Cfg) (x : List (Cx ℝ)) (hx : 0 < x.length)
    (hn : cfg.std = true ∨ ∃ k, x.length = 2 ^ k) (p : Planner ℝ)
    (hp : ReachVia cfg (fun m => workSize m ≤ workSize x.length) p) :
    ∃ p', fft cfg p x = .ok (p', freshOut cfg x, .ok ()) := by
  have hr : fftRes cfg x.length = .ok () := by
    rcases hn with h | h
    · exact fftRes_std h hx
    · exact fftRes_pow2 cfg (isPow2_iff.mpr h)
  obtain ⟨p', e, h1, hl, -⟩ := (fft_opOk cfg).run p x (reachVia_inv hp)
  rw [hr, fftBuf_fresh cfg p x (reachVia_inv hp) hr (compat_of_reach hp)] at e
  exact ⟨p', e⟩

/-- C65d. At the safe lengths the conversions through `f32` cost nothing: with all other arithmetic exact,
`fft` is exactly the DFT, on every planner not used for anything larger. -/
theorem fft_f64_safe_exact (fma : Bool) (cfg : Cfg) (x : List (Cx ℝ)) (hx : F64Safe x.length)
    (hn : cfg.std = true ∨ ∃ k, x.length = 2 ^ k) (p : Planner ℝ) :
    letI := idealF64 fma
    ReachVia cfg (fun m => workSize m ≤ workSize x.length) p →
    ∃ p' y, fft cfg p x = .ok (p', y, .ok ()) ∧ IsDft x y := by
  intro hp
  have h0 : 0 < x.length := by
    rcases hx with h | h | h | ⟨K, -, h⟩ | h
    · omega
    · omega
    · omega
    · rw [h]; positivity
    · omega
  obtain ⟨p', e⟩ := @fft_run_fresh (idealF64 fma) cfg x h0 hn p hp
  refine ⟨p', _, e, ?_⟩
  have e1 := freshOut_conv24 (realFlt fma) (fun _ _ => rfl) (fun _ _ => rfl) (rnd 24 (Real.sqrt 2 / 2))
    (rnd 24 (Real.cos (Real.pi / 8))) (rnd 24 (Real.sin (Real.pi / 8))) cfg x hx
  rw [← idealF64_re] at e1
  rw [e1]
  exact @freshOut_isDft (realFlt fma) (realFlt_lawful fma) cfg x h0

theorem rndFlt53_nat {n : ℕ} (h : n ≤ 2 ^ 24) : rnd 53 n = n :=
  rnd_nat 53 n (lt_of_le_of_lt h (by norm_num))

/-- C65, partial: the `f64` transform (53-bit arithmetic, conversions through 24 bits) has double-precision
accuracy at every safe length up to `2^36`, for every configuration and on every planner not used for anything
larger; `m` is the length of the power-of-two transform actually run. Missing from the full claim: the other
lengths, where it is false (`fft_f64_exact_iff`). -/
theorem fft_f64_safe_accuracy_partial (fused fma : Bool) (cfg : Cfg) (x : List (Cx ℝ)) (hx : F64Safe x.length)
    (hmax : x.length ≤ 2 ^ 36) (hn : cfg.std = true ∨ ∃ k, x.length = 2 ^ k) (p : Planner ℝ) :
    letI := rndFlt 53 24 fused fma
    ReachVia cfg (fun m => workSize m ≤ workSize x.length) p →
    ∃ p' y, fft cfg p x = .ok (p', y, .ok ()) ∧ y.length = x.length ∧
      ∀ k, k < x.length → ‖sig y k - dft x.length (sig x) k‖ ≤
        64 * Nat.log2 (workSize x.length) * workSize x.length * (1 / 2 ^ 53) *
          (fftWeight x.length * ∑ s ∈ range x.length, ‖sig x s‖) := by
  intro hp
  have h0 : 0 < x.length := by
    rcases hx with h | h | h | ⟨K, -, h⟩ | h
    · omega
    · omega
    · omega
    · rw [h]; positivity
    · omega
  obtain ⟨p', e⟩ := @fft_run_fresh (rndFlt 53 24 fused fma) cfg x h0 hn p hp
  have e1 := freshOut_conv24 (rndFlt 53 53 fused fma) (fun _ h => rndFlt53_nat h) (fun n h => by
      obtain ⟨k, rfl⟩ := isPow2_iff.mp h
      show rnd 53 _ = _
      push_cast; exact rnd_pow 53 k (by norm_num)) (rnd 24 (Real.sqrt 2 / 2))
    (rnd 24 (Real.cos (Real.pi / 8))) (rnd 24 (Real.sin (Real.pi / 8))) cfg x hx
  rw [← rndFlt_re] at e1
  have hF := rndFlt_rounding 53 53 (by norm_num) (by norm_num) fused fma
  letI := rndFlt 53 53 fused fma
  obtain ⟨p2, y, e2, hl, hb⟩ := fft_error hF cfg x h0 hn Planner.new .new
  obtain ⟨p3, e3⟩ := fft_run_fresh cfg x h0 hn Planner.new .new
  rw [e3] at e2
  cases e2
  refine ⟨p', _, e, by rw [e1]; exact hl, ?_⟩
  intro k hk
  rw [e1]
  refine (hb k hk).trans ?_
  have hw : 0 ≤ fftWeight x.length := by
    unfold fftWeight
    have : (1 : ℝ) ≤ x.length := by exact_mod_cast h0
    split <;> linarith
  apply mul_le_mul_of_nonneg_right _ (mul_nonneg hw (sum_nonneg fun _ _ => norm_nonneg _))
  have hμ := mulErr_le (u := 1 / 2 ^ 53) (by positivity) (by norm_num)
  have hμ0 := mulErr_nonneg (u := 1 / 2 ^ 53) (by positivity)
  have hs2 := sqrt2_le
  have hs20 := Real.sqrt_nonneg 2
  have small : ∀ K, K ≤ 2 → x.length = 2 ^ K → fftGrowth cfg (1 / 2 ^ 53) (1 / 2 ^ 53) (1 / 2 ^ 53) x.length - 1 ≤
      64 * Nat.log2 (workSize x.length) * workSize x.length * (1 / 2 ^ 53) := by
    intro K hK h
    rw [h, fftGrowth, if_pos (isPow2_pow K), workSize, if_pos (isPow2_pow K), powGrowth, log2_pow', twGrowth,
      if_pos (by interval_cases K <;> norm_num)]
    have hb : (1 + 1 / 2 ^ 53) * (1 + mulErr (1 / 2 ^ 53)) * (1 + Real.sqrt 2 * (1 / 2 ^ 53)) ≤ 1 + 8 * (1 / (2 : ℝ) ^ 53) := by
      calc _ ≤ (1 + 1 / 2 ^ 53) * (1 + 3 * (1 / 2 ^ 53)) * (1 + 1.415 * (1 / (2 : ℝ) ^ 53)) := by gcongr
        _ ≤ _ := by norm_num
    have h1 := pow_le_pow_left₀ (by positivity) hb K
    refine (sub_le_sub_right h1 1).trans ?_
    interval_cases K <;> norm_num
  rcases hx with h | h | h | ⟨K, hK, h⟩ | ⟨h9, h4097, hnp⟩
  · exact small 0 (by norm_num) h
  · exact small 1 (by norm_num) h
  · exact small 2 (by norm_num) h
  · have hK36 : K ≤ 36 := by
      rw [h] at hmax
      exact (Nat.pow_le_pow_iff_right (by norm_num)).mp hmax
    rw [h, workSize, if_pos (isPow2_pow K), log2_pow']
    have hKr : (K : ℝ) ≤ 36 := by exact_mod_cast hK36
    have hpr : (2 : ℝ) ^ K ≤ 2 ^ 36 := pow_le_pow_right₀ (by norm_num) hK36
    have hkp : (K : ℝ) * 2 ^ K ≤ 36 * 2 ^ 36 := mul_le_mul hKr hpr (by positivity) (by norm_num)
    have := fftGrowth_any hF (by norm_num) (by norm_num) cfg K hK (by
      calc 8 * (K : ℝ) * 2 ^ K * (1 / 2 ^ 53) = 8 * (K * 2 ^ K) * (1 / 2 ^ 53) := by ring
        _ ≤ 8 * (36 * 2 ^ 36) * (1 / 2 ^ 53) := by gcongr
        _ ≤ 1 := by norm_num)
    refine this.trans ?_
    push_cast
    gcongr
    norm_num
  · have hp' : ¬ isPow2 x.length = true := fun h => hnp (isPow2_iff.mp h)
    rw [fftGrowth, if_neg hp', workSize, if_neg hp']
    obtain ⟨K, hK⟩ := isPow2_iff.mp (bluM_pow2 x.length)
    have hge := bluM_ge x.length
    have hm : nextPow2 (2 * x.length - 1) = 2 ^ K := hK
    rw [hm, log2_pow']
    rw [hK] at hge
    have hK5 : 5 ≤ K := by
      by_contra hcon
      have : 2 ^ K ≤ 2 ^ 4 := Nat.pow_le_pow_right (by norm_num) (by omega)
      omega
    have hK14 : K ≤ 14 := by
      have h1 : Nat.clog 2 (2 * x.length - 1) ≤ 14 := Nat.clog_le_of_le_pow (by omega)
      have h2 : nextPow2 (2 * x.length - 1) ≤ 2 ^ 14 := by
        unfold nextPow2
        exact Nat.pow_le_pow_right (by norm_num) h1
      rw [hm] at h2
      exact (Nat.pow_le_pow_iff_right (by norm_num)).mp h2
    have hKr : (K : ℝ) ≤ 14 := by exact_mod_cast hK14
    have hpr : (2 : ℝ) ^ K ≤ 2 ^ 14 := pow_le_pow_right₀ (by norm_num) hK14
    have hkp : (K : ℝ) * 2 ^ K ≤ 14 * 2 ^ 14 := mul_le_mul hKr hpr (by positivity) (by norm_num)
    have := bluGrowth_le hF (by norm_num) le_rfl cfg x.length K hK5 (by omega) (by
      calc 1000 * ((K : ℝ) * 2 ^ K * (1 / 2 ^ 53)) = 1000 * (K * 2 ^ K) * (1 / 2 ^ 53) := by ring
        _ ≤ 1000 * (14 * 2 ^ 14) * (1 / 2 ^ 53) := by gcongr
        _ ≤ 1 := by norm_num)
    refine this.trans ?_
    push_cast
    exact le_rfl

/-- Safe lengths of each sort. -/
example : F64Safe 4 ∧ F64Safe 1024 ∧ F64Safe 1000 :=
  ⟨by unfold F64Safe; omega, Or.inr (Or.inr (Or.inr (Or.inl ⟨10, by norm_num, by norm_num⟩))),
    Or.inr (Or.inr (Or.inr (Or.inr ⟨by norm_num, by norm_num, fun h => by
      have := isPow2_iff.mpr h
      revert this; decide⟩)))⟩

end Props

end Kofft
