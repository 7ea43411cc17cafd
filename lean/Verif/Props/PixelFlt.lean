import Verif.Spec.PixelLog
import Verif.Props.WindowFlt
import Verif.Props.Visual
import Verif.Props.Sanity
import Mathlib.Analysis.SpecialFunctions.Log.Deriv
import Mathlib.Analysis.Complex.ExponentialBounds
/-
C106: the logarithmic frequency axis in floating point.
-/
namespace Kofft.Props

open Spec

variable {p : ℕ}

/-- the relative error of rounding to nearest -/
theorem nearest_close (hp : 1 ≤ p) {x y : ℝ} (h : Nearest p x y) : |y - x| ≤ 1 / 2 ^ p * |x| :=
  (h.2 _ (rnd_nearest hp x).1).trans (rnd_close p x)

theorem repr_nat (n : ℕ) (h : n < 2 ^ p) : IsRepr p n := by
  have : |(n : ℤ)| < 2 ^ p := by rw [Nat.abs_cast]; exact_mod_cast h
  simpa using repr_int (n : ℤ) this

variable [F : Flt ℝ]

theorem ofNatD_succ (h : RoundsToNearest p F) (n : ℕ) (hn : n + 1 < 2 ^ p) :
    F.ofNatD n = n ∧ F.add (F.ofNatD n) F.one = n + 1 := by
  have e : F.ofNatD n = n := nearest_exact (repr_nat n (by omega)) (h.ofNatD n)
  refine ⟨e, ?_⟩
  rw [e, h.one]
  have := nearest_exact (y := F.add n 1) (repr_nat (n + 1) hn) (by
    have := h.add n 1
    push_cast
    exact this)
  rw [this]; push_cast; ring

/-- C106: in any arithmetic that rounds to nearest with `p` bits and whose logarithm grows up to a relative error `w`, the
pixel of a bin `b ≤ max_bin` is at most `max_bin`; bin 0 is on pixel 0, and the top bin on the top pixel or the one
below. -/
theorem map_bin_in_range {w : ℝ} (hp : 1 ≤ p) (h : RoundsToNearest p F) (hlog : LogGrows F w) (maxBin : ℕ)
    (hM : 2 * (maxBin + 1) < 2 ^ p) (hw : maxBin * ((1 + w) * (1 + 1 / 2 ^ p) - 1) ≤ 1 / 2) :
    (∀ b, b ≤ maxBin → mapBinToPixel ℝ b maxBin ≤ maxBin) ∧ mapBinToPixel ℝ 0 maxBin = 0 ∧
    maxBin ≤ mapBinToPixel ℝ maxBin maxBin + 1 := by
  by_cases h0 : maxBin = 0
  · subst h0; simp [mapBinToPixel]
  have hw0 := hlog.w_nonneg
  have hM0 : (0 : ℝ) < maxBin := by exact_mod_cast Nat.pos_of_ne_zero h0
  obtain ⟨eM, eM1⟩ := ofNatD_succ h maxBin (by omega)
  have hL : 0 < F.log (maxBin + 1) := hlog.pos _ (by linarith)
  have hu : (0 : ℝ) < 1 / 2 ^ p := by positivity
  have hval : ∀ b, b ≤ maxBin → mapBinToPixel ℝ b maxBin =
      ⌊F.div (F.mul maxBin (F.log (b + 1))) (F.log (maxBin + 1))⌋₊ := by
    intro b hb
    obtain ⟨-, eb1⟩ := ofNatD_succ h b (by omega)
    unfold mapBinToPixel
    rw [if_neg h0]
    simp only []
    rw [eM1, eb1, eM, h.toNat, h.floor, ← Int.floor_toNat, Int.floor_intCast, Int.floor_toNat]
  refine ⟨fun b hb => ?_, ?_, ?_⟩
  · rw [hval b hb]
    set L := F.log (maxBin + 1)
    have hb' : (b : ℝ) ≤ maxBin := by exact_mod_cast hb
    have hP : F.log (b + 1) ≤ (1 + w) * L := hlog.grows _ _ (by linarith [(Nat.cast_nonneg b : (0 : ℝ) ≤ b)]) (by linarith)
    have hP0 : 0 ≤ F.log (b + 1) := by
      rcases Nat.eq_zero_or_pos b with e | e
      · subst e; rw [Nat.cast_zero, zero_add, hlog.one]
      · exact (hlog.pos _ (by have : (1 : ℝ) ≤ b := by exact_mod_cast e
                              linarith)).le
    set P := F.log (b + 1)
    have hA := (abs_le.mp (nearest_close hp (h.mul (maxBin : ℝ) P))).2
    rw [abs_of_nonneg (by positivity)] at hA
    have hA2 : F.mul maxBin P ≤ (maxBin + 1 / 2) * L := by
      have h1 : maxBin * P ≤ maxBin * ((1 + w) * L) := mul_le_mul_of_nonneg_left hP hM0.le
      have h2 : (1 + 1 / 2 ^ p) * (maxBin * P) ≤ (1 + 1 / 2 ^ p) * (maxBin * ((1 + w) * L)) :=
        mul_le_mul_of_nonneg_left h1 (by positivity)
      have h3 := mul_le_mul_of_nonneg_right hw hL.le
      linarith
    have hr : IsRepr p ((maxBin : ℝ) + 1 / 2) := by
      have := (repr_nat (p := p) (2 * maxBin + 1) (by omega)).half
      push_cast at this
      rwa [show (2 * (maxBin : ℝ) + 1) / 2 = maxBin + 1 / 2 by ring] at this
    have hQ := nearest_le (h.div (F.mul maxBin P) L hL.ne') hr (by rw [div_le_iff₀ hL]; exact hA2)
    have : ⌊F.div (F.mul maxBin P) L⌋₊ < maxBin + 1 := by
      rw [Nat.floor_lt']
      · push_cast; linarith
      · omega
    omega
  · rw [hval 0 (Nat.zero_le _), Nat.cast_zero, zero_add, hlog.one]
    have e1 : F.mul (maxBin : ℝ) 0 = 0 := nearest_exact repr_zero (by simpa using h.mul (maxBin : ℝ) 0)
    have e2 : F.div 0 (F.log (maxBin + 1)) = 0 := nearest_exact repr_zero (by simpa using h.div 0 _ hL.ne')
    rw [e1, e2]; simp
  · rw [hval maxBin le_rfl]
    set L := F.log (maxBin + 1)
    have hA := (abs_le.mp (nearest_close hp (h.mul (maxBin : ℝ) L))).1
    rw [abs_of_nonneg (by positivity)] at hA
    have hMu : (maxBin : ℝ) * (1 / 2 ^ p) ≤ 1 := by
      rw [mul_one_div, div_le_one (by positivity)]
      exact_mod_cast (by omega : maxBin ≤ 2 ^ p)
    have hQ := le_nearest (h.div (F.mul maxBin L) L hL.ne') (repr_nat (maxBin - 1) (by omega)) (by
      rw [le_div_iff₀ hL, Nat.cast_sub (by omega)]
      push_cast
      nlinarith)
    have := Nat.le_floor hQ
    omega

/-- C106: so `log_scale_bins` does not panic on up to `max_bin + 1` values. -/
theorem log_scale_bins_no_panic {w : ℝ} (hp : 1 ≤ p) (h : RoundsToNearest p F) (hlog : LogGrows F w) (maxBin : ℕ)
    (hM : 2 * (maxBin + 1) < 2 ^ p) (hw : maxBin * ((1 + w) * (1 + 1 / 2 ^ p) - 1) ≤ 1 / 2) (values : List ℝ)
    (hv : values.length ≤ maxBin + 1) : ∃ out, logScaleBins values maxBin = .ok out ∧ out.length = maxBin + 1 := by
  obtain ⟨out, e, hl, -⟩ := (log_scale_bins_spec values maxBin).1 fun b hb =>
    (map_bin_in_range hp h hlog maxBin hM hw).1 b (by omega)
  exact ⟨out, e, hl⟩

/-- C106: **the top row of 128 bins stays empty.** With the 24 bits of `f32`, a logarithm that is correctly rounded at 128 and
monotone, the top bin 127 of a 256-point spectrum is drawn on pixel 126, and nothing on pixel 127: the last value is 0
whatever the spectrum. -/
theorem log_scale_top_empty (h : RoundsToNearest 24 F) (hlog : LogGrows F 0) (h128 : Nearest 24 (Real.log 128) (F.log 128)) :
    mapBinToPixel ℝ 127 127 = 126 ∧
    ∀ values : List ℝ, values.length = 128 → ∃ out, logScaleBins values 127 = .ok out ∧ out.getD 127 1 = 0 := by
  have l128 : Real.log 128 = 7 * Real.log 2 := by
    rw [show (128 : ℝ) = 2 ^ 7 by norm_num, Real.log_pow]; norm_num
  have g1 := Real.log_two_gt_d9
  have g2 := Real.log_two_lt_d9
  have eL := nearest_unique (m := 10175445) (e := -21) (by norm_num) (by norm_num) (by
    rw [l128]
    norm_num
    rw [← lt_div_iff₀' (by norm_num), abs_lt]
    constructor <;> norm_num <;> linarith) h128
  have eA := nearest_unique (m := 10095949) (e := -14) (by norm_num) (by norm_num) (by norm_num [abs_lt])
    (h.mul 127 (10175445 * 2 ^ (-21 : ℤ)))
  have eQ := nearest_unique (m := 16646143) (e := -17) (by norm_num) (by norm_num) (by norm_num [abs_lt])
    (h.div (10095949 * 2 ^ (-14 : ℤ)) (10175445 * 2 ^ (-21 : ℤ)) (by norm_num))
  have hval : ∀ b, b ≤ 127 → mapBinToPixel ℝ b 127 = ⌊F.div (F.mul 127 (F.log (b + 1))) (F.log 128)⌋₊ := by
    intro b hb
    obtain ⟨-, eb1⟩ := ofNatD_succ h b (by omega)
    obtain ⟨e1, e2⟩ := ofNatD_succ h 127 (by norm_num)
    have e127 : ((127 : ℕ) : ℝ) + 1 = 128 := by norm_num
    rw [e127] at e2
    unfold mapBinToPixel
    rw [if_neg (by norm_num)]
    simp only []
    rw [e2, eb1, e1, h.toNat, h.floor, ← Int.floor_toNat, Int.floor_intCast, Int.floor_toNat]
    norm_num
  have hL0 : 0 < F.log 128 := hlog.pos _ (by norm_num)
  have htop : F.div (F.mul 127 (F.log 128)) (F.log 128) = 16646143 / 131072 := by
    norm_num at eL eA eQ
    rw [eL, eA, eQ]
  have hbelow : ∀ b, b ≤ 127 → mapBinToPixel ℝ b 127 ≤ 126 := by
    intro b hb
    rw [hval b hb]
    have hmono : F.log (b + 1) ≤ F.log 128 := by
      have hb' : (b : ℝ) ≤ 127 := by exact_mod_cast hb
      have := hlog.grows (b + 1) 128 (by linarith [(Nat.cast_nonneg b : (0 : ℝ) ≤ b)]) (by linarith)
      linarith
    have hle : F.div (F.mul 127 (F.log (b + 1))) (F.log 128) ≤ 16646143 / 131072 := by
      rw [← htop]
      rcases eq_or_lt_of_le hmono with e | e
      · rw [e]
      · rcases eq_or_lt_of_le (nearest_mono (h.mul 127 (F.log (b + 1))) (h.mul 127 (F.log 128)) (by linarith)) with e' | e'
        · rw [e']
        · exact nearest_mono (h.div _ _ hL0.ne') (h.div _ _ hL0.ne') (div_lt_div_of_pos_right e' hL0)
    have : ⌊F.div (F.mul 127 (F.log (b + 1))) (F.log 128)⌋₊ < 127 := by
      rw [Nat.floor_lt' (by norm_num)]
      refine hle.trans_lt ?_
      norm_num
    omega
  refine ⟨?_, ?_⟩
  · rw [hval 127 le_rfl, show ((127 : ℕ) : ℝ) + 1 = 128 by norm_num, htop]
    rw [Nat.floor_eq_iff (by norm_num)]
    norm_num
  · intro values hv
    obtain ⟨out, e, hl, hout⟩ := (log_scale_bins_spec values 127).1 fun b hb => (hbelow b (by omega)).trans (by norm_num)
    refine ⟨out, e, ?_⟩
    have h1 := hout 127 le_rfl
    have hemp : binsAt (fun b => mapBinToPixel ℝ b 127) values.length 127 = [] := by
      unfold binsAt
      rw [List.filter_eq_nil_iff]
      intro b hb
      have := hbelow b (by have := List.mem_range.mp hb; omega)
      simp
      omega
    rw [hemp] at h1
    rw [List.getD_eq_getElem _ _ (by omega)] at h1 ⊢
    rw [h1]
    simp [pixelMean, h.zero]

/-- C106: the image tool in log mode with a window of 256 samples, in that arithmetic: the top row of the image has the
colour of magnitude 0 in every column, whatever the sound. -/
theorem sanity_image_top_empty (h : RoundsToNearest 24 F) (hlog : LogGrows F 0)
    (h128 : Nearest 24 (Real.log 128) (F.log 128)) (cfg : Cfg) (par : Option (List ℕ)) (ext : Colormap → ℝ → Rgb)
    (hext : ∀ c t, (ext c t).r ≤ 255 ∧ (ext c t).g ≤ 255 ∧ (ext c t).b ≤ 255) (dr : ℝ) (cmap : Colormap)
    (samples : List ℝ) (hpar : Spec.validOrder par (divCeil samples.length 128)) :
    ∃ mags mx img, stftMagnitudes cfg par samples 256 128 = .ok (.ok (mags, mx)) ∧
      Sanity.render cfg par ext 256 .log dr cmap samples = .ok (.ok img) ∧ img.w = divCeil samples.length 128 ∧
      img.h = 128 ∧ ∀ x, x < img.w → img.get? x 0 = some (colorFromMagnitude16 ext 0 mx (-. dr) cmap) := by
  obtain ⟨mags, mx, img, e1, e2, e3, e4, e5⟩ := sanity_image cfg par ext hext 256 (by norm_num) (Or.inr ⟨8, by norm_num⟩)
    .log (fun _ b hb => (map_bin_in_range (p := 24) (by norm_num) h hlog 127 (by norm_num) (by norm_num)).1 b (by omega))
    dr cmap samples hpar
  obtain ⟨mags', mx', e1', h1, h2, h3⟩ := stft_magnitudes_spec cfg par samples 256 128 (by norm_num) (by norm_num)
    (Or.inr ⟨8, by norm_num⟩) hpar
  rw [show 256 / 2 = 128 by norm_num] at e1 e3 e4 e5
  rw [e1] at e1'
  simp only [Outcome.ok.injEq, Except.ok.injEq, Prod.mk.injEq] at e1'
  obtain ⟨rfl, rfl⟩ := e1'
  refine ⟨mags, mx, img, e1, e2, e3, e4, fun x hx => ?_⟩
  obtain ⟨bins, hs, hl, hb⟩ := e5 x hx
  have hfl : (mags.getD x []).length = 128 := (h2 x (by rw [h1]; rw [e3] at hx; exact hx)).1
  obtain ⟨out, ho, ho'⟩ := (log_scale_top_empty h hlog h128).2 _ hfl
  have : bins = out := by
    have := hs.symm.trans ho
    simpa using this
  subst this
  have := (hb 127 (by norm_num)).1
  rw [List.getD_eq_getElem _ _ (by omega)] at this ho'
  rw [ho'] at this
  exact this

/-- C106: the image tool in log mode does not panic for any window from 2 samples up to the bound: the image is the one
described by `sanity_image` (C67). -/
theorem sanity_image_log_no_panic {w : ℝ} (hp : 1 ≤ p) (h : RoundsToNearest p F) (hlog : LogGrows F w) (cfg : Cfg)
    (par : Option (List ℕ)) (ext : Colormap → ℝ → Rgb)
    (hext : ∀ c t, (ext c t).r ≤ 255 ∧ (ext c t).g ≤ 255 ∧ (ext c t).b ≤ 255) (winLen : ℕ) (hwin : 2 ≤ winLen)
    (hn : cfg.std = true ∨ ∃ k, winLen = 2 ^ k) (hM : winLen < 2 ^ p)
    (hw : ((winLen / 2 - 1 : ℕ) : ℝ) * ((1 + w) * (1 + 1 / 2 ^ p) - 1) ≤ 1 / 2) (dr : ℝ) (cmap : Colormap)
    (samples : List ℝ) (hpar : Spec.validOrder par (divCeil samples.length (winLen / 2))) :
    ∃ img, Sanity.render cfg par ext winLen .log dr cmap samples = .ok (.ok img) ∧
      img.w = divCeil samples.length (winLen / 2) ∧ img.h = winLen / 2 := by
  obtain ⟨mags, mx, img, e1, e2, e3, e4, e5⟩ := sanity_image cfg par ext hext winLen hwin hn
    .log (fun _ b hb => (map_bin_in_range hp h hlog (winLen / 2 - 1) (by omega) hw).1 b (by omega))
    dr cmap samples hpar
  exact ⟨img, e2, e3, e4⟩

theorem rnd_mono (hp : 1 ≤ p) {a b : ℝ} (h : a ≤ b) : rnd p a ≤ rnd p b := by
  rcases eq_or_lt_of_le h with e | e
  · rw [e]
  · exact nearest_mono (rnd_nearest hp a) (rnd_nearest hp b) e

/-- the logarithm rounded to nearest is monotone -/
theorem rndFlt_logGrows (hp : 1 ≤ p) (fused fma : Bool) : LogGrows (rndFlt p p fused fma) 0 where
  w_nonneg := le_rfl
  one := by
    show rnd p (Real.log 1) = 0
    rw [Real.log_one]
    simpa using rnd_nat p 0 (by positivity)
  pos := fun a ha => by
    show 0 < rnd p (Real.log a)
    have h0 : 0 < Real.log a := Real.log_pos ha
    have h1 := (abs_le.mp (rnd_close p (Real.log a))).1
    rw [abs_of_pos h0] at h1
    have h2 : (1 : ℝ) / 2 ^ p < 1 := by
      rw [div_lt_one (by positivity)]
      exact one_lt_pow₀ (by norm_num) (by omega)
    nlinarith
  grows := fun a b ha hab => by
    show rnd p (Real.log a) ≤ (1 + 0) * rnd p (Real.log b)
    rw [add_zero, one_mul]
    exact rnd_mono hp (Real.log_le_log (by linarith) hab)

/-- Non-vacuity: with 24 bits and correctly rounded logarithms, 129 bins do not panic, and the top of 128 is empty. -/
example (values : List ℝ) (hv : values.length = 129) : letI := rndFlt 24 24 true true
    ∃ out, logScaleBins values 128 = .ok out ∧ out.length = 129 :=
  letI := rndFlt 24 24 true true
  log_scale_bins_no_panic (by norm_num) (rndFlt_nearest (by norm_num) true true) (rndFlt_logGrows (by norm_num) true true) 128
    (by norm_num) (by norm_num) values (by omega)

example (values : List ℝ) (hv : values.length = 128) : letI := rndFlt 24 24 true true
    ∃ out, logScaleBins values 127 = .ok out ∧ out.getD 127 1 = 0 :=
  letI := rndFlt 24 24 true true
  (log_scale_top_empty (rndFlt_nearest (by norm_num) true true) (rndFlt_logGrows (by norm_num) true true)
    (rnd_nearest (by norm_num) _)).2 values hv

end Kofft.Props
