import Verif.Proof.Overflow
import Verif.Props.Sticky
/-
Property C85, the other direction: without room the output is lost, even where the exact transform is far below the
largest number.
-/
namespace Kofft.Props
open Spec Complex Finset

variable {T : Type} [F : Flt T] {N : Denote T} {num : T → Prop} {u η Ω Ω' v t : ℝ}

/-- C85d. Two samples whose sum is too large: the first output is lost, any history. -/
theorem fft_pair_overflows (hO : Overflows F N num Ω') (cfg : Cfg) (p : Planner T) (hp : Reach cfg p) (a b : Cx T)
    (ha : N.cfin a) (hb : N.cfin b) (hbig : Ω' < |N.val a.re + N.val b.re|) :
    ∃ p' y0 y1, fft cfg p [a, b] = .ok (p', [y0, y1], .ok ()) ∧ ¬ CFin num y0 := by
  obtain ⟨p', e, h1, hl, -⟩ := (fft_opOk cfg).run p [a, b] (reach_inv hp)
  have hp2 : isPow2 2 = true := by decide
  have hr : fftRes cfg 2 = .ok () := fftRes_pow2 cfg hp2
  rw [show [a, b].length = 2 from rfl, hr] at e
  have h2 : fftBuf cfg p [a, b] = [a.add b, a.sub b] := by
    simp [fftBuf, hr, fftOut, hp2, powOut, smallOut, smallKernel, fft2, rd, wr]
  rw [h2] at e
  refine ⟨p', _, _, e, fun H => ?_⟩
  have := hO.add _ _ ha.1 hb.1 H.1
  linarith

/-- C85e. Every length that is not a power of two: `fft` of an impulse of height `r` with `0.7 Ω ≤ |r| ≤ 0.9 Ω`, whose exact transform is `r` in every bin, returns Ok, and
no output is a number: the chirp transform multiplies `r` by a chirp spectrum that exceeds `1.5` somewhere. Any history of
transforms no larger. The last hypothesis bounds the rounding error of the two transforms before the multiplication. -/
theorem fft_impulse_overflows (hF : Ieee F N u η Ω v t) (hO : Overflows F N num Ω') (hΩ' : Ω' ≤ 1.01 * Ω) (cfg : Cfg)
    (hstd : cfg.std = true) (x : List (Cx T)) (hn : ¬ ∃ k, x.length = 2 ^ k) (hpos : 0 < x.length)
    (hlen : x.length ≤ 2 ^ 31) (r : ℝ) (hx : Impulse N r x)
    (hr : 0.7 * Ω ≤ |r|) (hr1 : |r| ≤ 0.9 * Ω) (p : Planner T)
    (hp : ReachVia cfg (fun m => workSize m ≤ workSize x.length) p)
    (D : ℝ) (hD0 : 0 < D) (hD : workSize x.length * D ≤ 1) (hU : effErr u η D ≤ 1)
    (hΩ : 38 * (x.length : ℝ) ^ 2 ≤ Ω)
    (hsm : ((1 + mulErr (effErr u η D)) * (1 + chirpErr (effErr u η D) v t x.length) *
      powGrowth cfg (effErr u η D) v t (workSize x.length) - 1) * (2 * x.length) ≤ 1 / 100) :
    ∃ p' y, fft cfg p x = .ok (p', y, .ok ()) ∧ y.length = x.length ∧ (∀ c ∈ y, ¬ CFin num c) ∧
      ∀ k, k < x.length → dft x.length (N.csig x) k = r := by
  have h := ie_env hF hD0 hpos hD hU
  have hr' : fftRes cfg x.length = .ok () := fftRes_std hstd hpos
  have hp2 : isPow2 x.length = false := by
    rw [← Bool.not_eq_true]; exact fun q => hn (isPow2_iff.mp q)
  have hn3 : 3 ≤ x.length := by
    by_contra hc
    have : x.length = 1 ∨ x.length = 2 := by omega
    rcases this with h | h
    · exact hn ⟨0, by simpa using h⟩
    · exact hn ⟨1, by simpa using h⟩
  have hw : workSize x.length = bluM x.length := by rw [workSize, hp2, if_neg (by simp)]; rfl
  obtain ⟨p', e, h1, hl, -⟩ := (fft_opOk cfg).run p x (reachVia_inv hp)
  rw [hr', fftBuf_fresh cfg p x (reachVia_inv hp) hr' (compat_of_reach hp)] at e
  rw [fftBuf_fresh cfg p x (reachVia_inv hp) hr' (compat_of_reach hp)] at hl
  refine ⟨p', _, e, hl, ?_, ?_⟩
  · rw [freshOut, hp2, if_neg (by simp)]
    rw [hw] at hD hsm
    exact ov_impulse h hO hΩ' cfg x hn3 hlen hx hr hr1 hD hΩ hsm
  · intro k _
    unfold dft
    rw [sum_eq_single 0]
    · rw [hx.2.1]; simp [W_zero]
    · intro b _ hb
      rw [hx.2.2 b (by omega)]; simp
    · intro h; rw [mem_range, not_lt] at h; omega

/-! ### The hypotheses are met -/

omit F in
/-- The arithmetic of `Lib/IeeeFlt` loses results that are too large. -/
theorem binFlt_overflows (p r : ℕ) (q : ℤ) (Ω : ℝ) (hp : 7 ≤ p) (hq : q ≤ 0) (hΩ : 1000 ≤ Ω) (fused fma : Bool) :
    Overflows (binFlt p r q Ω fused fma) (binDen q) (fun a => a ≠ none) (1.01 * Ω) := by
  refine ⟨binFlt_sticky p r q Ω fused fma, ?_, ?_, ?_⟩
  · rintro _ _ ⟨a, rfl, -⟩ ⟨b, rfl, -⟩ h
    show |a + b| ≤ _
    by_contra hc
    apply h
    show (if |a + b| ≤ Ω then some (grd p q (a + b)) else none) = none
    rw [if_neg (by linarith)]
  · rintro _ _ ⟨a, rfl, -⟩ ⟨b, rfl, -⟩ h
    show |a * b| ≤ _
    by_contra hc
    apply h
    show (if |a * b| ≤ Ω then some (grd p q (a * b)) else none) = none
    rw [if_neg (by linarith)]
  · rintro _ _ _ ⟨a, rfl, -⟩ ⟨b, rfl, -⟩ ⟨c, rfl, -⟩ h
    show |a * b + c| ≤ _
    by_contra hc
    apply h
    cases fused
    · show (if |a * b| ≤ Ω then some (grd p q (a * b)) else none).bind (fun m => if |m + c| ≤ Ω then
        some (grd p q (m + c)) else none) = none
      by_cases h1 : |a * b| ≤ Ω
      · rw [if_pos h1]
        show (if |grd p q (a * b) + c| ≤ Ω then _ else none) = none
        refine if_neg fun h2 => hc ?_
        have h3 := grd_close p q (a * b)
        have h4 : |a * b + c| ≤ |grd p q (a * b) + c| + |grd p q (a * b) - a * b| := by
          rw [show a * b + c = (grd p q (a * b) + c) - (grd p q (a * b) - a * b) by ring]
          exact abs_sub _ _
        have h5 : (2 : ℝ) ^ (q - 1) ≤ 1 := by
          have := zpow_le_zpow_right₀ (by norm_num : (1 : ℝ) ≤ 2) (by omega : q - 1 ≤ 0)
          simpa using this
        have h6 : 1 / (2 : ℝ) ^ p ≤ 1 / 128 := by
          have : (2 : ℝ) ^ 7 ≤ 2 ^ p := pow_le_pow_right₀ (by norm_num) hp
          rw [div_le_div_iff₀ (by positivity) (by norm_num)]
          linarith
        have h7 : 1 / 2 ^ p * |a * b| ≤ 1 / 128 * Ω := mul_le_mul h6 h1 (abs_nonneg _) (by norm_num)
        linarith
      · rw [if_neg h1]; rfl
    · show (if |a * b + c| ≤ Ω then some (grd p q (a * b + c)) else none) = none
      rw [if_neg (by linarith)]

omit F in
/-- The error before the multiplication, for three points. -/
theorem growth_three_small (cfg : Cfg) {e v t : ℝ} (he : 0 ≤ e) (he' : e ≤ 1 / 1000000) (hv : 0 ≤ v)
    (hv' : v ≤ 1 / 1000000) (ht : 0 ≤ t) (ht' : t ≤ 1 / 1000000) :
    ((1 + mulErr e) * (1 + chirpErr e v t 3) * powGrowth cfg e v t 8 - 1) * (2 * (3 : ℕ)) ≤ 1 / 100 := by
  have hs := sqrt2_le
  have hs0 := Real.sqrt_nonneg 2
  have hpi := Real.pi_lt_d2
  have hpi0 := Real.pi_pos
  have hmu : mulErr e ≤ 0.000003 := by
    unfold mulErr
    calc _ ≤ 1.415 * (0.0000021 : ℝ) := mul_le_mul hs (by nlinarith) (by positivity) (by norm_num)
      _ ≤ _ := by norm_num
  have hmu0 := mulErr_nonneg he
  have h1 : (1 + e) ^ 3 ≤ 1.000004 := by
    calc (1 + e) ^ 3 ≤ (1.000001 : ℝ) ^ 3 := pow_le_pow_left₀ (by linarith) (by linarith) 3
      _ ≤ _ := by norm_num
  have h10 : 1 ≤ (1 + e) ^ 3 := one_le_pow₀ (by linarith)
  have h2 : (1 + v) / (1 - v) ≤ 1.000003 := by
    rw [div_le_iff₀ (by linarith)]; linarith
  have h20 : 1 ≤ (1 + v) / (1 - v) := by rw [le_div_iff₀ (by linarith)]; linarith
  have hch : chirpErr e v t 3 ≤ 0.0001 := by
    unfold chirpErr
    have a1 : Real.sqrt 2 * t ≤ 1.415 * 0.000001 := mul_le_mul hs (by linarith) ht (by norm_num)
    have a2 : (1 + e) ^ 3 * ((1 + v) / (1 - v)) ≤ 1.000004 * 1.000003 := mul_le_mul h1 h2 (by linarith) (by norm_num)
    have a3 : ((1 + e) ^ 3 * ((1 + v) / (1 - v)) - 1) * (Real.pi * (3 : ℕ)) ≤ (1.000004 * 1.000003 - 1) * (3.15 * 3) := by
      apply mul_le_mul (by linarith) _ (by positivity) (by norm_num)
      push_cast
      nlinarith
    norm_num at a1 a3 ⊢
    linarith
  have hch0 : 0 ≤ chirpErr e v t 3 := by
    unfold chirpErr
    have : 1 ≤ (1 + e) ^ 3 * ((1 + v) / (1 - v)) := one_le_mul_of_one_le_of_one_le h10 h20
    have := mul_nonneg (sub_nonneg.mpr this) (by positivity : 0 ≤ Real.pi * ((3 : ℕ) : ℝ))
    have := mul_nonneg hs0 ht
    linarith
  have hpow : powGrowth cfg e v t 8 ≤ 1.0001 := by
    rw [powGrowth, show Nat.log2 8 = 3 from log2_pow' 3, twGrowth, if_pos (by norm_num)]
    have a1 : 1 + Real.sqrt 2 * v ≤ 1.0000015 := by
      have : Real.sqrt 2 * v ≤ 1.415 * 0.000001 := mul_le_mul hs (by linarith) hv (by norm_num)
      norm_num at this ⊢; linarith
    have a0 : 0 ≤ Real.sqrt 2 * v := mul_nonneg hs0 hv
    have a2 : (1 + e) * (1 + mulErr e) ≤ 1.000001 * 1.000003 :=
      mul_le_mul (by linarith) (by linarith) (by linarith) (by norm_num)
    have a3 : (1 + e) * (1 + mulErr e) * (1 + Real.sqrt 2 * v) ≤ 1.000001 * 1.000003 * 1.0000015 :=
      mul_le_mul a2 a1 (by linarith) (by norm_num)
    calc _ ≤ (1.000001 * 1.000003 * 1.0000015 : ℝ) ^ 3 := pow_le_pow_left₀ (by positivity) a3 3
      _ ≤ _ := by norm_num
  have hpow0 : 0 ≤ powGrowth cfg e v t 8 := by
    rw [powGrowth, twGrowth, if_pos (by norm_num)]
    positivity
  have b1 : (1 + mulErr e) * (1 + chirpErr e v t 3) ≤ 1.000003 * 1.0001 :=
    mul_le_mul (by linarith) (by linarith) (by linarith) (by norm_num)
  have b2 : (1 + mulErr e) * (1 + chirpErr e v t 3) * powGrowth cfg e v t 8 ≤ 1.000003 * 1.0001 * 1.0001 :=
    mul_le_mul b1 hpow hpow0 (by norm_num)
  push_cast
  norm_num at b2 ⊢
  linarith

omit F in
/-- C85e in binary32: three samples `3 · 2^126, 0, 0`. The transform is `3 · 2^126` in each bin, a finite number; `fft`
returns Ok with three outputs, none of them finite. -/
example (fused fma : Bool) :
    let _ := binFlt 24 24 (-149) (2 ^ 128 - 2 ^ 104) fused fma
    ∃ p y, fft (T := Option ℝ) ⟨true, .f32, false, 4, false⟩ Planner.new
        [⟨some (3 * 2 ^ 126), some 0⟩, ⟨some 0, some 0⟩, ⟨some 0, some 0⟩] = .ok (p, y, .ok ()) ∧ y.length = 3 ∧
      ∀ c ∈ y, ¬ CFin (fun a => a ≠ none) c := by
  let _ := binFlt 24 24 (-149) (2 ^ 128 - 2 ^ 104) fused fma
  have hU : effErr (1 / 2 ^ 24) (1 / 2 ^ 150) (1 / 2 ^ 100) = 1 / 2 ^ 24 + 1 / 2 ^ 49 := by
    rw [effErr]; norm_num
  have g := growth_three_small ⟨true, .f32, false, 4, false⟩ (e := 1 / 2 ^ 24 + 1 / 2 ^ 49) (v := 1 / 2 ^ 24)
    (t := 1 / 2 ^ 23) (by positivity) (by norm_num) (by positivity) (by norm_num) (by positivity) (by norm_num)
  obtain ⟨-, -, g3⟩ := growth_three ⟨true, .f32, false, 4, false⟩ (e := 1 / 2 ^ 24 + 1 / 2 ^ 49) (v := 1 / 2 ^ 24)
    (t := 1 / 2 ^ 23) (by positivity) (by norm_num) (by positivity) (by norm_num) (by positivity) (by norm_num)
  have z : (binDen (-149)).fin (some 0) := ⟨0, rfl, 0, by simp⟩
  have big : (binDen (-149)).fin (some (3 * 2 ^ 126)) := by
    refine ⟨_, rfl, ?_⟩
    have := onGrid_zpow (q := -149) (e := 126) (by norm_num) 3
    convert this using 1
    norm_num
  have hx : Impulse (binDen (-149)) (3 * 2 ^ 126)
      [⟨some (3 * 2 ^ 126), some 0⟩, ⟨some 0, some 0⟩, ⟨some 0, some 0⟩] := by
    generalize (3 * 2 ^ 126 : ℝ) = w at *
    refine ⟨?_, ?_, ?_⟩
    · intro c hc
      simp only [List.mem_cons, List.not_mem_nil, or_false] at hc
      rcases hc with rfl | rfl | rfl
      · exact ⟨big, z⟩
      · exact ⟨z, z⟩
      · exact ⟨z, z⟩
    · apply Complex.ext <;> simp [Denote.csig, Denote.cval, binDen]
    · intro i hi
      obtain _ | _ | _ | i := i
      · omega
      · apply Complex.ext <;> simp [Denote.csig, Denote.cval, binDen]
      · apply Complex.ext <;> simp [Denote.csig, Denote.cval, binDen]
      · simp [Denote.csig]
  have hp2 : ¬ ∃ k, 3 = 2 ^ k := by
    rintro ⟨k, hk⟩
    have : isPow2 3 = true := isPow2_iff.mpr ⟨k, hk⟩
    exact absurd this (by decide)
  obtain ⟨p, y, e, hl, hf, -⟩ := fft_impulse_overflows (binary32 fused fma)
    (binFlt_overflows 24 24 (-149) (2 ^ 128 - 2 ^ 104) (by norm_num) (by norm_num) (by norm_num) fused fma) le_rfl
    ⟨true, .f32, false, 4, false⟩ rfl [⟨some (3 * 2 ^ 126), some 0⟩, ⟨some 0, some 0⟩, ⟨some 0, some 0⟩]
    hp2 (by simp) (by simp) (3 * 2 ^ 126) hx (by rw [abs_of_pos (by positivity)]; norm_num)
    (by rw [abs_of_pos (by positivity)]; norm_num) Planner.new .new (1 / 2 ^ 100) (by positivity)
    (by
      show ((workSize 3 : ℕ) : ℝ) * _ ≤ _
      rw [g3]; norm_num)
    (by rw [hU]; norm_num) (by
      show 38 * ((3 : ℕ) : ℝ) ^ 2 ≤ _
      norm_num) (by
      show ((1 + mulErr _) * (1 + chirpErr _ _ _ 3) * powGrowth _ _ _ _ (workSize 3) - 1) * (2 * ((3 : ℕ) : ℝ)) ≤ _
      rw [hU, g3]; exact g)
  exact ⟨p, y, e, by simpa using hl, hf⟩

end Kofft.Props
