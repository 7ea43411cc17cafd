import Verif.Props.ColorErr
import Verif.Props.MelEdge
/-
C109: decibels and the colours made of them in floating point.
-/
namespace Kofft.Props

open Spec

variable {p : ℕ} {w : ℝ} [F : Flt ℝ]

theorem maxF_rnd (h : Display p F w) (a b : ℝ) : maxF a b = max a b := by
  unfold maxF
  have e : F.feq a a = true := (h.feq a a).2 rfl
  rw [e]
  by_cases hab : a < b
  · rw [if_pos (Or.inl ((h.lt _ _).2 hab)), max_eq_right hab.le]
  · rw [if_neg (by rw [h.lt]; simp [hab]), max_eq_left (not_lt.mp hab)]

/-- `20 log₁₀` of a ratio known up to one rounding -/
theorem db_core (hp : 20 ≤ p) (h : Display p F w) (hw : w ≤ 1 / 100000) {q q' : ℝ} (hq : 0 < q)
    (hq' : |q' - q| ≤ 1 / 2 ^ p * q) :
    |F.mul (F.lit 20 0) (F.log10 q') - 20 * (Real.log q / Real.log 10)| ≤
      42 / 2 ^ p + (1 / 2 ^ p + 2 * w) * |20 * (Real.log q / Real.log 10)| := by
  have hu := eps_le hp
  have hu0 : (0 : ℝ) < 1 / 2 ^ p := by positivity
  have hl := one_le_log_ten
  have hw0 := h.w_nonneg
  obtain ⟨hs, h2⟩ := log_close hq hu0.le (by linarith) hq'
  have e20 : F.lit 20 0 = 20 := by simpa using int_lit hp h 20 (by norm_num)
  rw [e20]
  have h3 := h.log10 q' hs
  have h4 := nearest_close (by omega) (h.mul 20 (F.log10 q'))
  have e42 : (42 : ℝ) / 2 ^ p = 42 * (1 / 2 ^ p) := by ring
  rw [e42]
  generalize (1 : ℝ) / 2 ^ p = u at *
  have h5 : |Real.log q' / Real.log 10 - Real.log q / Real.log 10| ≤ u / (1 - u) := by
    rw [← sub_div, abs_div, abs_of_pos (by linarith : (0 : ℝ) < Real.log 10)]
    exact (div_le_self (abs_nonneg _) hl).trans h2
  have h6 : u / (1 - u) ≤ 1.01 * u := by
    rw [div_le_iff₀ (by linarith)]
    nlinarith
  generalize Real.log q' / Real.log 10 = l' at *
  generalize Real.log q / Real.log 10 = l at *
  generalize F.mul 20 (F.log10 q') = y at *
  generalize F.log10 q' = g at *
  have a1 : |l'| ≤ |l| + 1.01 * u := by
    have := abs_sub_abs_le_abs_sub l' l
    linarith
  have a2 : |g - l| ≤ w * (|l| + 1.01 * u) + 1.01 * u := by
    have : |g - l| ≤ |g - l'| + |l' - l| := abs_sub_le _ _ _
    have := mul_le_mul_of_nonneg_left a1 hw0
    linarith
  have a3 : |g| ≤ |l| + (w * (|l| + 1.01 * u) + 1.01 * u) := by
    have := abs_sub_abs_le_abs_sub g l
    linarith
  have a4 : |y - 20 * l| ≤ |y - 20 * g| + |20 * g - 20 * l| := abs_sub_le _ _ _
  rw [← mul_sub, abs_mul, abs_of_pos (show (0 : ℝ) < 20 by norm_num)] at a4
  rw [abs_mul, abs_of_pos (show (0 : ℝ) < 20 by norm_num)] at h4 ⊢
  have a5 := mul_le_mul_of_nonneg_left a3 hu0.le
  have l0 := abs_nonneg l
  have wu : w * u ≤ 1 / 100000 * u := mul_le_mul_of_nonneg_right hw hu0.le
  have uu : u * u ≤ 1 / 1000000 * u := mul_le_mul_of_nonneg_right hu hu0.le
  have wl : 0 ≤ w * |l| := mul_nonneg hw0 l0
  have uwl : u * (w * |l|) ≤ 1 / 1000000 * (w * |l|) := mul_le_mul_of_nonneg_right hu wl
  have uwu : u * (w * u) ≤ 1 / 1000000 * (1 / 100000 * u) := mul_le_mul hu wu (by positivity) (by norm_num)
  nlinarith

omit F in
/-- clamped position in the range `r` -/
theorem clamp_close {d d' r E e : ℝ} (hr : 0 < r) (hE : 0 ≤ E) (he : 0 ≤ e) (he1 : e ≤ 1) (h : |d' - d| ≤ E + e * |d|) :
    |max 0 (min ((d' + r) / r) 1) - max 0 (min ((d + r) / r) 1)| ≤ E / r + e := by
  obtain ⟨l, u⟩ := abs_le.mp h
  have hb : 0 ≤ E / r + e := by positivity
  rcases le_total 0 d with h0 | h0
  · rw [abs_of_nonneg h0] at l u
    have e1 : max 0 (min ((d + r) / r) 1) = 1 := by
      rw [min_eq_right ((one_le_div hr).mpr (by linarith))]; norm_num
    rw [e1]
    have h1 : 1 - E / r ≤ (d' + r) / r := by
      rw [le_div_iff₀ hr, sub_mul, div_mul_cancel₀ _ hr.ne']
      nlinarith
    have h2 : max 0 (min ((d' + r) / r) 1) ≤ 1 := max_le zero_le_one (min_le_right _ _)
    have h3 : 1 - E / r ≤ max 0 (min ((d' + r) / r) 1) :=
      (le_min h1 (by have : 0 ≤ E / r := by positivity
                     linarith)).trans (le_max_right _ _)
    rw [abs_le]; constructor <;> linarith
  rw [abs_of_nonpos h0] at l u
  rcases le_total (-r) d with h1 | h1
  · have key : |(d' + r) / r - (d + r) / r| ≤ E / r + e := by
      rw [← sub_div, abs_div, abs_of_pos hr, div_le_iff₀ hr, add_mul, div_mul_cancel₀ _ hr.ne']
      rw [show d' + r - (d + r) = d' - d by ring, abs_le]
      have : e * -d ≤ e * r := mul_le_mul_of_nonneg_left (by linarith) he
      constructor <;> linarith
    refine le_trans ?_ key
    exact ((abs_max_sub_max_le_max 0 _ 0 _).trans (max_le (by simp) le_rfl)).trans
      ((abs_min_sub_min_le_max _ 1 _ 1).trans (max_le le_rfl (by simp)))
  · have e1 : max 0 (min ((d + r) / r) 1) = 0 :=
      max_eq_left ((min_le_left _ _).trans (div_nonpos_of_nonpos_of_nonneg (by linarith) hr.le))
    rw [e1, sub_zero, abs_of_nonneg (le_max_left _ _)]
    refine max_le hb ((min_le_left _ _).trans ?_)
    rw [div_le_iff₀ hr, add_mul, div_mul_cancel₀ _ hr.ne']
    nlinarith

omit F in
/-- a relative error before clamping -/
theorem clamp_rel {x y ε : ℝ} (h0 : 0 ≤ ε) (h1 : ε ≤ 1) (h : |y - x| ≤ ε * |x|) :
    |max 0 (min y 1) - max 0 (min x 1)| ≤ ε := by
  obtain ⟨l, u⟩ := abs_le.mp h
  rcases le_total x 0 with hx | hx
  · rw [abs_of_nonpos hx] at l u
    have : y ≤ 0 := by nlinarith
    rw [max_eq_left ((min_le_left _ _).trans hx), max_eq_left ((min_le_left _ _).trans this)]
    simpa using h0
  rw [abs_of_nonneg hx] at l u
  rcases le_total x 1 with h2 | h2
  · have key : |y - x| ≤ ε := by
      rw [abs_le]
      have := mul_le_of_le_one_right h0 h2
      constructor <;> linarith
    refine le_trans ?_ key
    exact ((abs_max_sub_max_le_max 0 _ 0 _).trans (max_le (by simp) le_rfl)).trans
      ((abs_min_sub_min_le_max _ 1 _ 1).trans (max_le le_rfl (by simp)))
  · have e1 : max 0 (min x 1) = 1 := by rw [min_eq_right h2]; norm_num
    have h3 : 1 - ε ≤ y := by nlinarith
    have h4 : max 0 (min y 1) ≤ 1 := max_le zero_le_one (min_le_right _ _)
    have h5 : 1 - ε ≤ max 0 (min y 1) := (le_min h3 (by linarith)).trans (le_max_right _ _)
    rw [e1, abs_le]; constructor <;> linarith

omit F in
/-- two roundings -/
theorem two_rnd (hp : 20 ≤ p) {s s' r y : ℝ} (hr : 0 < r) (h1 : Nearest p s s') (h2 : Nearest p (s' / r) y) :
    |y - s / r| ≤ 3 / 2 ^ p * |s / r| := by
  have c1 := nearest_close (by omega) h1
  have c2 := nearest_close (by omega) h2
  have hu := eps_le hp
  have hu0 : (0 : ℝ) < 1 / 2 ^ p := by positivity
  rw [show (3 : ℝ) / 2 ^ p = 3 * (1 / 2 ^ p) by ring]
  generalize (1 : ℝ) / 2 ^ p = u at *
  have c3 : |s' / r - s / r| ≤ u * |s / r| := by
    rw [← sub_div, abs_div, abs_div, abs_of_pos hr, ← mul_div_assoc]
    gcongr
  have c4 : |s' / r| ≤ |s / r| + u * |s / r| := by
    have := abs_sub_abs_le_abs_sub (s' / r) (s / r)
    linarith
  have c5 : |y - s / r| ≤ |y - s' / r| + |s' / r - s / r| := abs_sub_le _ _ _
  have c6 := mul_le_mul_of_nonneg_left c4 hu0.le
  have c7 := abs_nonneg (s / r)
  have c8 : u * (u * |s / r|) ≤ 1 * (u * |s / r|) := by
    apply mul_le_mul_of_nonneg_right _ (by positivity); linarith
  linarith


theorem ratio_rnd (hp : 20 ≤ p) (h : Display p F w) {mag maxMag : ℝ} (hm : maxMag ≠ 0) (hq : 0 ≤ mag / maxMag) :
    |F.div mag maxMag - mag / maxMag| ≤ 1 / 2 ^ p * (mag / maxMag) := by
  have := nearest_close (by omega) (h.div mag maxMag hm)
  rwa [abs_of_nonneg hq] at this

/-- C109b. `magnitude_to_db` in floating point is within `42 u` decibels, plus a relative error of `u + 2 w`, of the exact
value. -/
theorem magnitude_to_db_error (hp : 20 ≤ p) (h : Display p F w) (hw : w ≤ 1 / 100000) (mag maxMag floorDb : ℝ)
    (hf : floorDb ≤ 0) (D : ℝ) (hD : D = if maxMag ≤ 0 ∨ mag ≤ 0 then floorDb
      else max (20 * (Real.log (mag / maxMag) / Real.log 10)) floorDb) :
    |magnitudeToDb mag maxMag floorDb - D| ≤ 42 / 2 ^ p + (1 / 2 ^ p + 2 * w) * |D| := by
  have hw0 := h.w_nonneg
  have hu0 : (0 : ℝ) < 1 / 2 ^ p := by positivity
  have hu := eps_le hp
  have le' : ∀ a b : ℝ, (Flt.le a b = true) = (a ≤ b) := fun a b => propext (h.le a b)
  subst hD
  unfold magnitudeToDb
  simp only [h.zero, le', maxF_rnd h]
  split
  · rw [sub_self, abs_zero]; positivity
  · rename_i hc
    push Not at hc
    obtain ⟨c1, c2⟩ := hc
    have hq : 0 < mag / maxMag := by positivity
    have := db_core hp h hw hq (ratio_rnd hp h c1.ne' hq.le)
    rw [show (42 : ℝ) / 2 ^ p = 42 * (1 / 2 ^ p) by ring] at this ⊢
    generalize (1 : ℝ) / 2 ^ p = u at *
    generalize F.mul (F.lit 20 0) (F.log10 (F.div mag maxMag)) = y at *
    generalize 20 * (Real.log (mag / maxMag) / Real.log 10) = a at *
    obtain ⟨l, r⟩ := abs_le.mp this
    rcases le_total floorDb a with g | g
    · rw [max_eq_left g]
      have h1 := (abs_max_sub_max_le_max y floorDb a floorDb).trans (max_le le_rfl (by simp))
      rw [max_eq_left g] at h1
      exact h1.trans this
    · rw [max_eq_right g, abs_of_nonpos hf]
      rw [abs_of_nonpos (g.trans hf)] at l r
      have h2 : 0 ≤ max y floorDb - floorDb := by linarith [le_max_right y floorDb]
      rw [abs_of_nonneg h2]
      have h3 : 0 ≤ 42 * u + (u + 2 * w) * -floorDb := by
        have := mul_nonneg (by linarith : (0 : ℝ) ≤ u + 2 * w) (by linarith : (0 : ℝ) ≤ -floorDb)
        linarith
      rcases le_total y floorDb with g2 | g2
      · rw [max_eq_right g2]; linarith
      · rw [max_eq_left g2]
        have : (u + 2 * w) * -a - (u + 2 * w) * -floorDb = (u + 2 * w) * (floorDb - a) := by ring
        have : (u + 2 * w) * (floorDb - a) ≤ 1 * (floorDb - a) :=
          mul_le_mul_of_nonneg_right (by linarith) (by linarith)
        linarith

/-- C109b. `db_scale` in floating point, against its formula. -/
theorem db_scale_error (hp : 20 ≤ p) (h : Display p F w) (hw : w ≤ 1 / 100000) {maxMag dr : ℝ} (hm : 0 < maxMag)
    (hr : 0 < dr) (mag : ℝ) :
    |dbScale mag maxMag dr -
      max 0 (min ((20 * (Real.log (max (mag / maxMag) (1 / 10 ^ 10)) / Real.log 10) + dr) / dr) 1)| ≤
      42 / 2 ^ p / dr + 4 / 2 ^ p + 2 * w ∧ 0 ≤ dbScale mag maxMag dr ∧ dbScale mag maxMag dr ≤ 1 := by
  have hw0 := h.w_nonneg
  have hu0 : (0 : ℝ) < 1 / 2 ^ p := by positivity
  have hu := eps_le hp
  have hq : (0 : ℝ) < max (mag / maxMag) (1 / 10 ^ 10) := lt_max_of_lt_right (by norm_num)
  have hl : |F.lit 1 10 - 1 / 10 ^ 10| ≤ 1 / 2 ^ p * (1 / 10 ^ 10) := by
    have := nearest_close (by omega) (h.lit 1 10)
    simpa using this
  have hq' : |max (F.div mag maxMag) (F.lit 1 10) - max (mag / maxMag) (1 / 10 ^ 10)| ≤
      1 / 2 ^ p * max (mag / maxMag) (1 / 10 ^ 10) := by
    rcases le_total 0 (mag / maxMag) with g | g
    · refine (abs_max_sub_max_le_max _ _ _ _).trans (max_le ?_ ?_)
      · refine (ratio_rnd hp h hm.ne' g).trans ?_
        exact mul_le_mul_of_nonneg_left (le_max_left _ _) hu0.le
      · refine hl.trans ?_
        exact mul_le_mul_of_nonneg_left (le_max_right _ _) hu0.le
    · have g1 : F.div mag maxMag ≤ 0 := nearest_le (h.div mag maxMag hm.ne') repr_zero g
      have g2 : 0 ≤ F.lit 1 10 := le_nearest (h.lit 1 10) repr_zero (by norm_num)
      rw [max_eq_right (g1.trans g2), max_eq_right (g.trans (by norm_num))]
      exact hl
  have key := db_core hp h hw hq hq'
  unfold dbScale
  simp only []
  rw [clampF_rnd h, maxF_rnd h]
  refine ⟨?_, le_max_left _ _, max_le zero_le_one (min_le_right _ _)⟩
  generalize F.mul (F.lit 20 0) (F.log10 (max (F.div mag maxMag) (F.lit 1 10))) = y at *
  generalize 20 * (Real.log (max (mag / maxMag) (1 / 10 ^ 10)) / Real.log 10) = a at *
  have k1 := clamp_close (r := dr) hr (by positivity) (by linarith) (by linarith) key
  have k2 := clamp_rel (by positivity) (by linarith [show (3 : ℝ) / 2 ^ p = 3 * (1 / 2 ^ p) by ring])
    (two_rnd hp hr (h.add y dr) (h.div (F.add y dr) dr hr.ne'))
  have k3 := abs_sub_le (max 0 (min (F.div (F.add y dr) dr) 1)) (max 0 (min ((y + dr) / dr) 1))
    (max 0 (min ((a + dr) / dr) 1))
  have e : (4 : ℝ) / 2 ^ p = 3 / 2 ^ p + 1 / 2 ^ p := by ring
  rw [e]
  linarith

/-- the position on the palette -/
theorem position_error (hp : 20 ≤ p) (h : Display p F w) (hw : w ≤ 1 / 100000) (mag maxMag floorDb : ℝ)
    (hf : floorDb < 0) (D : ℝ) (hD : D = if maxMag ≤ 0 ∨ mag ≤ 0 then floorDb
      else max (20 * (Real.log (mag / maxMag) / Real.log 10)) floorDb) :
    |max 0 (min (F.div (F.sub (magnitudeToDb mag maxMag floorDb) floorDb) (F.neg floorDb)) 1) -
      max 0 (min ((D - floorDb) / -floorDb) 1)| ≤ 42 / 2 ^ p / -floorDb + 4 / 2 ^ p + 2 * w := by
  have hw0 := h.w_nonneg
  have hu0 : (0 : ℝ) < 1 / 2 ^ p := by positivity
  have hu := eps_le hp
  have key := magnitude_to_db_error hp h hw mag maxMag floorDb hf.le D hD
  rw [h.neg]
  generalize magnitudeToDb mag maxMag floorDb = y at *
  have hr : 0 < -floorDb := by linarith
  have k1 := clamp_close hr (by positivity) (by linarith) (by linarith) key
  have k2 := clamp_rel (by positivity) (by linarith [show (3 : ℝ) / 2 ^ p = 3 * (1 / 2 ^ p) by ring])
    (two_rnd hp hr (h.sub y floorDb) (h.div (F.sub y floorDb) (-floorDb) hr.ne'))
  rw [sub_eq_add_neg y, sub_eq_add_neg D] at *
  have k3 := abs_sub_le (max 0 (min (F.div (F.sub y floorDb) (-floorDb)) 1)) (max 0 (min ((y + -floorDb) / -floorDb) 1))
    (max 0 (min ((D + -floorDb) / -floorDb) 1))
  have e : (4 : ℝ) / 2 ^ p = 3 / 2 ^ p + 1 / 2 ^ p := by ring
  rw [e]
  linarith

omit F in
theorem small_enough (hp : 20 ≤ p) (hw : w ≤ 1 / 100000) {r : ℝ} (hr : 1 ≤ r) :
    42 / 2 ^ p / r + 4 / 2 ^ p + 2 * w ≤ 1 / 10000 := by
  have hu := eps_le hp
  have h1 : (42 : ℝ) / 2 ^ p / r ≤ 42 / 2 ^ p := div_le_self (by positivity) hr
  have e1 : (4 : ℝ) / 2 ^ p = 4 * (1 / 2 ^ p) := by ring
  have e2 : (42 : ℝ) / 2 ^ p = 42 * (1 / 2 ^ p) := by ring
  rw [e1]
  rw [e2] at h1 ⊢
  linarith

omit F in
/-- C109c. `color_from_magnitude_u8` in floating point returns the exact colour, up to one unit in each component, for every
magnitude and reference and every floor of at most -1 dB. -/
theorem magnitude_colour_error {G : Flt ℝ} (hG : Lawful G) [F : Flt ℝ] (hp : 20 ≤ p) (h : Display p F w)
    (hw : w ≤ 1 / 100000) (ext : Colormap → ℝ → Rgb) (cmap : Colormap)
    (hc : cmap = .fire ∨ cmap = .legacy ∨ cmap = .gray ∨ cmap = .rainbow) (mag maxMag floorDb : ℝ) (hf : floorDb ≤ -1) :
    SameColour (colorFromMagnitude8 ext mag maxMag floorDb cmap) (@colorFromMagnitude8 ℝ G ext mag maxMag floorDb cmap) := by
  unfold colorFromMagnitude8
  simp only []
  refine colour_close hG hp h ext cmap hc _ _ ?_
  rw [hG.div, hG.sub, hG.neg]
  refine (position_error hp h hw mag maxMag floorDb (by linarith) _ (magnitudeToDb_real (F := G) hG _ _ _)).trans ?_
  exact small_enough hp hw (by linarith)

omit F in
/-- C109c. A pixel of the spectrogram image (`db_scale`, then the palette) is the exact colour, up to one unit in each
component. -/
theorem scaled_colour_error {G : Flt ℝ} (hG : Lawful G) [F : Flt ℝ] (hp : 20 ≤ p) (h : Display p F w)
    (hw : w ≤ 1 / 100000) (ext : Colormap → ℝ → Rgb) (cmap : Colormap)
    (hc : cmap = .fire ∨ cmap = .legacy ∨ cmap = .gray ∨ cmap = .rainbow) (mag : ℝ) {maxMag dr : ℝ} (hm : 0 < maxMag)
    (hr : 1 ≤ dr) :
    SameColour (mapColor8 ext (dbScale mag maxMag dr) cmap) (@mapColor8 ℝ G ext (@dbScale ℝ G mag maxMag dr) cmap) := by
  obtain ⟨h1, h2, h3⟩ := db_scale_error hp h hw hm (by linarith : 0 < dr) mag
  refine colour_close hG hp h ext cmap hc _ _ ?_
  rw [dbScale_real (F := G) hG]
  have b0 : (0 : ℝ) ≤ max 0 (min ((20 * (Real.log (max (mag / maxMag) (1 / 10 ^ 10)) / Real.log 10) + dr) / dr) 1) :=
    le_max_left _ _
  have b1 : max 0 (min ((20 * (Real.log (max (mag / maxMag) (1 / 10 ^ 10)) / Real.log 10) + dr) / dr) 1) ≤ (1 : ℝ) :=
    max_le zero_le_one (min_le_right _ _)
  rw [min_eq_left b1, max_eq_right b0, min_eq_left h3, max_eq_right h2]
  exact h1.trans (small_enough hp hw hr)


/-! ### The ends of the palettes, and brightness -/

theorem castU8_nat (h : RoundsToNearest p F) (n : ℕ) (hn : n ≤ 255) : castU8 (n : ℝ) = n := by
  unfold castU8
  rw [h.toNat, Nat.floor_natCast]
  exact Nat.min_eq_right hn

theorem lerp_zero (hp : 20 ≤ p) (h : RoundsToNearest p F) (a b : ℕ) (ha : a ≤ 255) (hb : b ≤ 255) :
    lerpU8 a b (0 : ℝ) = a ∧ lerpU8 a b (1 : ℝ) = b := by
  have p8 : (1024 : ℤ) ≤ 2 ^ p := two_pow_8 hp
  have p8' : 1024 ≤ 2 ^ p := by exact_mod_cast p8
  have ra : IsRepr p (a : ℝ) := repr_nat a (by omega)
  have rb : IsRepr p (b : ℝ) := repr_nat b (by omega)
  have ea : F.ofNatD a = a := nearest_exact ra (h.ofNatD a)
  have eb : F.ofNatD b = b := nearest_exact rb (h.ofNatD b)
  have rs : IsRepr p ((b : ℝ) - a) := by
    have : |((b : ℤ) - a)| < 2 ^ p := by rw [abs_lt]; constructor <;> omega
    simpa using repr_int ((b : ℤ) - a) this
  have es : F.sub (b : ℝ) a = (b : ℝ) - a := nearest_exact rs (h.sub _ _)
  have m0 : F.mul ((b : ℝ) - a) 0 = 0 := nearest_exact repr_zero (by simpa using h.mul ((b : ℝ) - a) 0)
  have m1 : F.mul ((b : ℝ) - a) 1 = (b : ℝ) - a := nearest_exact rs (by simpa using h.mul ((b : ℝ) - a) 1)
  have a0 : F.add (a : ℝ) 0 = a := nearest_exact ra (by simpa using h.add (a : ℝ) 0)
  have a1 : F.add (a : ℝ) ((b : ℝ) - a) = b := nearest_exact rb (by simpa using h.add (a : ℝ) ((b : ℝ) - a))
  unfold lerpU8
  rw [ea, eb, es, m0, m1, a0, a1]
  exact ⟨castU8_nat h a ha, castU8_nat h b hb⟩

/-- C109d. In floating point too, the palettes start and end with exactly their first and last colours. -/
theorem palette_ends_rounded (hp : 20 ≤ p) (h : Display p F w) (ext : Colormap → ℝ → Rgb) :
    (∀ t, t ≤ 0 → mapColor8 ext t .fire = ⟨0, 0, 0⟩ ∧ mapColor8 ext t .gray = ⟨0, 0, 0⟩ ∧
      mapColor8 ext t .rainbow = ⟨0, 0, 0⟩ ∧ mapColor8 ext t .legacy = ⟨64, 0, 64⟩) ∧
    (∀ t, 1 ≤ t → mapColor8 ext t .fire = ⟨255, 255, 255⟩ ∧ mapColor8 ext t .gray = ⟨255, 255, 255⟩ ∧
      mapColor8 ext t .rainbow = ⟨255, 255, 255⟩ ∧ mapColor8 ext t .legacy = ⟨255, 255, 224⟩) := by
  have hR := h.toRoundsToNearest
  have p8 : (1024 : ℤ) ≤ 2 ^ p := two_pow_8 hp
  have r1 : IsRepr p 1 := repr_one (by omega)
  have rq : IsRepr p (1 / 4) := ⟨1, -2, by norm_num; omega, by norm_num⟩
  obtain ⟨q1, q2, q3⟩ := quarter_lits hp h
  have le' : ∀ a b : ℝ, (Flt.le a b = true) = (a ≤ b) := fun a b => propext (h.le a b)
  have lt' : ∀ a b : ℝ, (Flt.lt a b = true) = (a < b) := fun a b => propext (h.lt a b)
  have L := fun a b ha hb => lerp_zero hp hR a b ha hb
  have fst : (fireStops : List (ℝ × Rgb)) =
      [(0, ⟨0, 0, 0⟩), (1 / 4, ⟨128, 0, 128⟩), (1 / 2, ⟨255, 165, 0⟩), (3 / 4, ⟨255, 255, 0⟩), (1, ⟨255, 255, 255⟩)] := by
    simp only [fireStops, h.zero, h.one, q1, q2, q3]
  have hq := near6 hp (h.lit 9 1) (M := 1) (by norm_num [abs_le])
  have rst : (rainbowStops : List (ℝ × Rgb)) =
      [(0, ⟨0, 0, 0⟩), (1 / 4, ⟨0, 0, 255⟩), (1 / 2, ⟨0, 255, 255⟩), (3 / 4, ⟨255, 255, 0⟩), (F.lit 9 1, ⟨255, 0, 0⟩),
      (1, ⟨255, 255, 255⟩)] := by
    simp only [rainbowStops, h.zero, h.one, q1, q2, q3]
  have nz : ∀ {a b : ℝ}, a ≠ 0 → b = a → F.div b a = 1 := by
    intro a b ha e
    subst e
    exact nearest_exact r1 (by simpa [div_self ha] using h.div b b ha)
  have sz : F.sub (0 : ℝ) 0 = 0 := nearest_exact repr_zero (by simpa using h.sub 0 0)
  have e255 : F.lit 255 0 = 255 := by simpa using int_lit hp h 255 (by norm_num)
  have e224 : F.lit 224 0 = 224 := by simpa using int_lit hp h 224 (by norm_num)
  have e64 : F.lit 64 0 = 64 := by simpa using int_lit hp h 64 (by norm_num)
  have rn : ∀ n : ℕ, n ≤ 255 → IsRepr p (n : ℝ) := fun n hn => repr_nat n (by
    have : (1024 : ℕ) ≤ 2 ^ p := by exact_mod_cast p8
    omega)
  have mz : ∀ a : ℝ, F.mul a 0 = 0 ∧ F.mul 0 a = 0 := fun a =>
    ⟨nearest_exact repr_zero (by simpa using h.mul a 0), nearest_exact repr_zero (by simpa using h.mul 0 a)⟩
  have m1 : ∀ n : ℕ, n ≤ 255 → F.mul (n : ℝ) 1 = n ∧ F.mul 1 (n : ℝ) = n := fun n hn =>
    ⟨nearest_exact (rn n hn) (by simpa using h.mul (n : ℝ) 1), nearest_exact (rn n hn) (by simpa using h.mul 1 (n : ℝ))⟩
  have az : ∀ n : ℕ, n ≤ 255 → F.add (n : ℝ) 0 = n ∧ F.add 0 (n : ℝ) = n := fun n hn =>
    ⟨nearest_exact (rn n hn) (by simpa using h.add (n : ℝ) 0), nearest_exact (rn n hn) (by simpa using h.add 0 (n : ℝ))⟩
  have rd : ∀ n : ℕ, F.round (n : ℝ) = n := by
    intro n
    rw [h.round _ (Nat.cast_nonneg n)]
    have : ⌊(n : ℝ) + 1 / 2⌋ = (n : ℤ) := by rw [Int.floor_eq_iff]; push_cast; constructor <;> linarith
    rw [this]; simp
  have c8 := fun n hn => castU8_nat hR n hn
  obtain ⟨ql, qr⟩ := abs_le.mp hq
  constructor
  · intro t ht
    have cs : clampF t F.zero F.one = 0 := by
      rw [clampF_rnd h, max_eq_left ((min_le_left _ _).trans ht)]
    simp only [mapColor8, cs]
    refine ⟨?_, ?_, ?_, ?_⟩
    · unfold fireColor
      rw [fst, findStop]
      simp only [le']
      rw [if_pos (by norm_num)]
      simp only [Option.getD_some]
      have d0 : F.div (F.sub 0 0) (F.sub (1 / 4) 0) = (0 : ℝ) := by
        have e : F.sub (1 / 4 : ℝ) 0 = 1 / 4 := nearest_exact rq (by
          simpa using h.sub (1 / 4 : ℝ) 0)
        rw [sz, e]
        exact nearest_exact repr_zero (by simpa using h.div 0 (1 / 4 : ℝ) (by norm_num))
      rw [d0]
      unfold lerpRgb
      rw [(L 0 128 (by norm_num) (by norm_num)).1, (L 0 0 (by norm_num) (by norm_num)).1]
    · rw [e255, (mz 255).2]
      have := rd 0
      have := c8 0 (by norm_num)
      simp only [Nat.cast_zero] at *
      simp [*]
    · unfold rainbowColor
      rw [rst, rainbowFind]
      simp only [lt']
      rw [if_neg (by norm_num)]
      simp only []
      rw [if_pos (by norm_num)]
      have d0 : F.div (F.sub 0 0) (F.sub (1 / 4) 0) = (0 : ℝ) := by
        have e : F.sub (1 / 4 : ℝ) 0 = 1 / 4 := nearest_exact rq (by
          simpa using h.sub (1 / 4 : ℝ) 0)
        rw [sz, e]
        exact nearest_exact repr_zero (by simpa using h.div 0 (1 / 4 : ℝ) (by norm_num))
      rw [d0]
      unfold lerpRgb
      rw [(L 0 255 (by norm_num) (by norm_num)).1, (L 0 0 (by norm_num) (by norm_num)).1]
    · have s1 : F.sub F.one (0 : ℝ) = 1 := by
        rw [h.one]; exact nearest_exact r1 (by simpa using h.sub 1 0)
      rw [e64, e255, e224, s1, (mz 255).1, (mz 224).1]
      have a1 := (m1 64 (by norm_num)).1
      have a2 := (az 64 (by norm_num)).1
      have a3 := c8 64 (by norm_num)
      have a4 := c8 0 (by norm_num)
      simp only [Nat.cast_zero, Nat.cast_ofNat] at *
      rw [a1, a2, a3, a4]
  · intro t ht
    have cs : clampF t F.zero F.one = 1 := by
      rw [clampF_rnd h, min_eq_right ht]; norm_num
    simp only [mapColor8, cs]
    refine ⟨?_, ?_, ?_, ?_⟩
    · unfold fireColor
      rw [fst, findStop, findStop, findStop, findStop]
      simp only [le']
      rw [if_neg (by norm_num), if_neg (by norm_num), if_neg (by norm_num), if_pos (by norm_num)]
      simp only [Option.getD_some]
      have e : F.sub (1 : ℝ) (3 / 4) = 1 / 4 := nearest_exact rq (by
        have := h.sub (1 : ℝ) (3 / 4)
        norm_num at this ⊢; exact this)
      rw [e, nz (by norm_num) rfl]
      unfold lerpRgb
      rw [(L 255 255 (by norm_num) (by norm_num)).2, (L 0 255 (by norm_num) (by norm_num)).2]
    · rw [e255]
      have a1 := (m1 255 (by norm_num)).2
      have a2 := rd 255
      have a3 := c8 255 (by norm_num)
      simp only [Nat.cast_ofNat] at *
      rw [a1, a2, a3]
    · unfold rainbowColor
      rw [rst]
      generalize F.lit 9 1 = q at ql qr ⊢
      norm_num at ql qr
      rw [rainbowFind, rainbowFind, rainbowFind, rainbowFind, rainbowFind]
      simp only [lt']
      rw [if_pos (by norm_num), if_pos (by norm_num), if_pos (by norm_num), if_pos (by linarith), if_neg (by norm_num)]
      simp only []
      rw [if_pos (by linarith)]
      have hne : F.sub 1 q ≠ 0 := by
        have := nearest_close (by omega) (h.sub 1 q)
        intro h0
        rw [h0, zero_sub, abs_neg] at this
        have hp1 : 0 < |1 - q| := abs_pos.mpr (by linarith)
        have := eps_le hp
        nlinarith
      rw [nz hne rfl]
      unfold lerpRgb
      rw [(L 255 255 (by norm_num) (by norm_num)).2, (L 0 255 (by norm_num) (by norm_num)).2]
    · have s1 : F.sub F.one (1 : ℝ) = 0 := by
        rw [h.one]; exact nearest_exact repr_zero (by simpa using h.sub 1 1)
      rw [e64, e255, e224, s1, (mz 64).1]
      have a1 := (m1 255 (by norm_num)).1
      have a2 := (m1 224 (by norm_num)).1
      have a3 := (az 255 (by norm_num)).2
      have a4 := (az 224 (by norm_num)).2
      have a5 := c8 255 (by norm_num)
      have a6 := c8 224 (by norm_num)
      simp only [Nat.cast_ofNat] at *
      rw [a1, a2, a3, a4, a5, a6]


theorem mapColor8_clamp (h : Display p F w) (ext : Colormap → ℝ → Rgb) (cmap : Colormap) (t : ℝ) :
    (t ≤ 0 → mapColor8 ext t cmap = mapColor8 ext 0 cmap) ∧ (1 ≤ t → mapColor8 ext t cmap = mapColor8 ext 1 cmap) := by
  constructor
  · intro ht
    unfold mapColor8
    rw [clampF_rnd h, clampF_rnd h, max_eq_left ((min_le_left _ _).trans ht)]; norm_num
  · intro ht
    unfold mapColor8
    rw [clampF_rnd h, clampF_rnd h, min_eq_right ht]; norm_num

theorem log10_sign (h : Display p F w) (hw : w ≤ 1) {a : ℝ} (ha : 1 ≤ a) : 0 ≤ F.log10 a := by
  have h1 := h.log10 a (by linarith)
  have h2 : 0 ≤ Real.log a / Real.log 10 := div_nonneg (Real.log_nonneg ha) (by linarith [one_le_log_ten])
  rw [abs_of_nonneg h2] at h1
  have := (abs_le.mp h1).1
  have := mul_le_mul_of_nonneg_right hw h2
  linarith

/-- C109d. In floating point too: from the reference magnitude upwards exactly the last colour, at magnitude zero exactly the
first. -/
theorem magnitude_colour_ends (hp : 20 ≤ p) (h : Display p F w) (hw : w ≤ 1) (ext : Colormap → ℝ → Rgb) (cmap : Colormap)
    {maxMag floorDb : ℝ} (hm : 0 < maxMag) (hf : floorDb < 0) (hfr : IsRepr p floorDb) :
    (∀ mag, maxMag ≤ mag → colorFromMagnitude8 ext mag maxMag floorDb cmap = mapColor8 ext 1 cmap) ∧
    (∀ mag, mag ≤ 0 → colorFromMagnitude8 ext mag maxMag floorDb cmap = mapColor8 ext 0 cmap) := by
  have le' : ∀ a b : ℝ, (Flt.le a b = true) = (a ≤ b) := fun a b => propext (h.le a b)
  have r1 : IsRepr p 1 := repr_one (by omega)
  have e20 : F.lit 20 0 = 20 := by simpa using int_lit hp h 20 (by norm_num)
  constructor
  · intro mag hmag
    unfold colorFromMagnitude8 magnitudeToDb
    simp only [h.zero, le', maxF_rnd h, h.neg, e20]
    rw [if_neg (by push Not; exact ⟨hm, by linarith⟩)]
    refine (mapColor8_clamp h ext cmap _).2 ?_
    have d1 : 1 ≤ F.div mag maxMag := le_nearest (h.div mag maxMag hm.ne') r1 ((one_le_div hm).mpr hmag)
    have d2 := log10_sign h hw d1
    have d3 : 0 ≤ F.mul 20 (F.log10 (F.div mag maxMag)) := le_nearest (h.mul _ _) repr_zero (by positivity)
    generalize F.mul 20 (F.log10 (F.div mag maxMag)) = y at *
    rw [max_eq_left (by linarith)]
    have d4 : -floorDb ≤ F.sub y floorDb := le_nearest (h.sub _ _) hfr.neg (by linarith)
    exact le_nearest (h.div _ _ (by linarith)) r1 ((one_le_div (by linarith)).mpr d4)
  · intro mag hmag
    unfold colorFromMagnitude8 magnitudeToDb
    simp only [h.zero, le', h.neg]
    rw [if_pos (Or.inr hmag)]
    refine (mapColor8_clamp h ext cmap _).1 ?_
    have e : F.sub floorDb floorDb = 0 := nearest_exact repr_zero (by simpa using h.sub floorDb floorDb)
    rw [e]
    exact nearest_le (h.div 0 (-floorDb) (by linarith)) repr_zero (by simp)

/-- C109d. `db_scale` in floating point is exactly 1 from the reference upwards, and exactly 0 at magnitude zero for a range
of at most 199 dB. -/
theorem db_scale_ends (hp : 20 ≤ p) (h : Display p F w) (hw : w ≤ 1 / 100000) {maxMag dr : ℝ} (hm : 0 < maxMag)
    (hr : 0 < dr) (hdr : IsRepr p dr) :
    (∀ mag, maxMag ≤ mag → dbScale mag maxMag dr = 1) ∧ (dr ≤ 199 → ∀ mag, mag ≤ 0 → dbScale mag maxMag dr = 0) := by
  have r1 : IsRepr p 1 := repr_one (by omega)
  have e20 : F.lit 20 0 = 20 := by simpa using int_lit hp h 20 (by norm_num)
  have hu0 : (0 : ℝ) < 1 / 2 ^ p := by positivity
  have hu := eps_le hp
  constructor
  · intro mag hmag
    unfold dbScale
    simp only []
    rw [clampF_rnd h, maxF_rnd h, e20]
    have d1 : 1 ≤ F.div mag maxMag := le_nearest (h.div mag maxMag hm.ne') r1 ((one_le_div hm).mpr hmag)
    have d2 := log10_sign h (by linarith) (d1.trans (le_max_left _ (F.lit 1 10)))
    have d3 : 0 ≤ F.mul 20 (F.log10 (max (F.div mag maxMag) (F.lit 1 10))) :=
      le_nearest (h.mul _ _) repr_zero (by positivity)
    generalize F.mul 20 (F.log10 (max (F.div mag maxMag) (F.lit 1 10))) = y at *
    have d4 : dr ≤ F.add y dr := le_nearest (h.add _ _) hdr (by linarith)
    have d5 : 1 ≤ F.div (F.add y dr) dr := le_nearest (h.div _ _ hr.ne') r1 ((one_le_div hr).mpr d4)
    rw [min_eq_right d5]; norm_num
  · intro h199 mag hmag
    unfold dbScale
    simp only []
    rw [clampF_rnd h, maxF_rnd h]
    have g1 : F.div mag maxMag ≤ 0 :=
      nearest_le (h.div mag maxMag hm.ne') repr_zero (div_nonpos_of_nonpos_of_nonneg hmag hm.le)
    have g2 : 0 ≤ F.lit 1 10 := le_nearest (h.lit 1 10) repr_zero (by norm_num)
    rw [max_eq_right (g1.trans g2)]
    have hl : |F.lit 1 10 - 1 / 10 ^ 10| ≤ 1 / 2 ^ p * (1 / 10 ^ 10) := by
      have := nearest_close (by omega) (h.lit 1 10)
      simpa using this
    have key := db_core hp h hw (by norm_num) hl
    have e : Real.log (1 / 10 ^ 10) / Real.log 10 = -10 := by
      rw [one_div, Real.log_inv, Real.log_pow, neg_div, mul_div_assoc, div_self (by linarith [one_le_log_ten])]; norm_num
    rw [e, show (42 : ℝ) / 2 ^ p = 42 * (1 / 2 ^ p) by ring, show |(20 : ℝ) * -10| = 200 by norm_num] at key
    generalize F.mul (F.lit 20 0) (F.log10 (F.lit 1 10)) = y at *
    have hy := (abs_le.mp key).2
    have d4 : F.add y dr ≤ 0 := nearest_le (h.add _ _) repr_zero (by linarith)
    have d5 : F.div (F.add y dr) dr ≤ 0 :=
      nearest_le (h.div _ _ hr.ne') repr_zero (div_nonpos_of_nonpos_of_nonneg d4 hr.le)
    exact max_eq_left ((min_le_left _ _).trans d5)

omit F in
theorem nearest_monotone {f g : ℝ → ℝ} (hg : StrictMono g) (hn : ∀ x, Nearest p (g x) (f x)) : Monotone f := by
  intro x y hxy
  rcases eq_or_lt_of_le hxy with rfl | hl
  · exact le_rfl
  · exact nearest_mono (hn x) (hn y) (hg hl)

theorem gray_mono (hp : 20 ≤ p) (h : Display p F w) (ext : Colormap → ℝ → Rgb) {t t' : ℝ} (ht : t ≤ t') :
    (mapColor8 ext t .gray).r ≤ (mapColor8 ext t' .gray).r := by
  simp only [mapColor8]
  rw [clampF_rnd h, clampF_rnd h]
  have hm : max 0 (min t 1) ≤ max 0 (min t' 1) := max_le_max_left _ (min_le_min_right _ ht)
  have a0 : (0 : ℝ) ≤ max 0 (min t 1) := le_max_left _ _
  generalize max 0 (min t 1) = s at *
  generalize max 0 (min t' 1) = s' at *
  have e255 : F.lit 255 0 = 255 := by simpa using int_lit hp h 255 (by norm_num)
  rw [e255]
  have h1 : F.mul s 255 ≤ F.mul s' 255 :=
    nearest_monotone (g := fun x => x * 255) (fun x y hxy => by show x * 255 < y * 255; linarith) (fun x => h.mul x 255) hm
  have h0 : 0 ≤ F.mul s 255 := le_nearest (h.mul _ _) repr_zero (by positivity)
  rw [h.round _ h0, h.round _ (h0.trans h1)]
  unfold castU8
  rw [h.toNat, h.toNat]
  refine min_le_min_left _ (Nat.floor_le_floor ?_)
  exact_mod_cast Int.floor_le_floor (by linarith)

/-- C109e. On the grey palette a larger magnitude is never darker, in floating point: monotone rounding makes it so, if the
library's `log10` is monotone. -/
theorem brightness_monotone (hp : 20 ≤ p) (h : Display p F w) (hlog : ∀ a b, 0 < a → a ≤ b → F.log10 a ≤ F.log10 b)
    (ext : Colormap → ℝ → Rgb) {maxMag r : ℝ} (hm : 0 < maxMag) (hr : 0 < r) {m m' : ℝ} (hmm : m ≤ m') :
    (mapColor8 ext (dbScale m maxMag r) .gray).r ≤ (mapColor8 ext (dbScale m' maxMag r) .gray).r ∧
    (colorFromMagnitude8 ext m maxMag (-r) .gray).r ≤ (colorFromMagnitude8 ext m' maxMag (-r) .gray).r := by
  have le' : ∀ a b : ℝ, (Flt.le a b = true) = (a ≤ b) := fun a b => propext (h.le a b)
  have e20 : F.lit 20 0 = 20 := by simpa using int_lit hp h 20 (by norm_num)
  have hdiv : F.div m maxMag ≤ F.div m' maxMag :=
    nearest_monotone (g := fun x => x / maxMag) (fun x y hxy => div_lt_div_of_pos_right hxy hm)
      (fun x => h.div x maxMag hm.ne') hmm
  have hmul : Monotone (F.mul 20) :=
    nearest_monotone (g := fun x => 20 * x) (fun x y hxy => by show 20 * x < 20 * y; linarith) (fun x => h.mul 20 x)
  have hdr : Monotone (fun x => F.div x r) :=
    nearest_monotone (g := fun x => x / r) (fun x y hxy => div_lt_div_of_pos_right hxy hr) (fun x => h.div x r hr.ne')
  constructor
  · apply gray_mono hp h
    unfold dbScale
    simp only []
    rw [clampF_rnd h, clampF_rnd h, maxF_rnd h, maxF_rnd h, e20]
    apply max_le_max_left
    apply min_le_min_right
    apply hdr
    have hadd : Monotone (fun x => F.add x r) :=
      nearest_monotone (g := fun x => x + r) (fun x y hxy => by show x + r < y + r; linarith) (fun x => h.add x r)
    apply hadd
    apply hmul
    have hl : 0 < F.lit 1 10 := by
      have := nearest_close (by omega) (h.lit 1 10)
      have hu := eps_le hp
      have := (abs_le.mp this).1
      norm_num at this hu ⊢
      nlinarith
    exact hlog _ _ (lt_max_of_lt_right hl) (max_le_max_right _ hdiv)
  · refine gray_mono hp h ext ?_
    rw [h.neg, neg_neg]
    apply hdr
    have hsub : Monotone (fun x => F.sub x (-r)) :=
      nearest_monotone (g := fun x => x - -r) (fun x y hxy => by show x - -r < y - -r; linarith) (fun x => h.sub x (-r))
    apply hsub
    unfold magnitudeToDb
    simp only [h.zero, le', maxF_rnd h, e20]
    by_cases hm0 : m ≤ 0
    · rw [if_pos (Or.inr hm0)]
      split
      · exact le_rfl
      · exact le_max_right _ _
    · rw [if_neg (by push Not; exact ⟨hm, not_le.mp hm0⟩), if_neg (by push Not; exact ⟨hm, by linarith [not_le.mp hm0]⟩)]
      apply max_le_max_right
      apply hmul
      refine hlog _ _ ?_ hdiv
      have hq : 0 < m / maxMag := div_pos (not_le.mp hm0) hm
      have := (abs_le.mp (ratio_rnd hp h hm.ne' hq.le)).1
      have := mul_le_mul_of_nonneg_right (eps_le hp) hq.le
      linarith


omit F in
/-- The rounding arithmetic with a correctly rounded logarithm meets the hypotheses, at 24 bits as at any other number. -/
theorem rndFlt_display (hp : 11 ≤ p) (fused fma : Bool) : Display p (rndFlt p p fused fma) (1 / 2 ^ p) where
  toRoundsToNearest := rndFlt_nearest hp fused fma
  w_nonneg := by positivity
  neg := fun _ => rfl
  lt := fun a b => by show decide (a < b) = true ↔ _; simp
  feq := fun a b => by show decide (a = b) = true ↔ _; simp
  lit := fun m e => rnd_nearest (by omega) _
  round := fun a ha => if_pos ha
  log10 := fun a _ => rnd_close p _

omit F in
/-- Concrete case: binary32, 60 dB below the reference on a scale of 80 dB. -/
example (fused fma : Bool) (ext : Colormap → ℝ → Rgb) :
    SameColour (@colorFromMagnitude8 ℝ (rndFlt 24 24 fused fma) ext 1 1000 (-80) .fire)
      (@colorFromMagnitude8 ℝ (realFlt true) ext 1 1000 (-80) .fire) :=
  @magnitude_colour_error 24 _ (realFlt true) (realFlt_lawful true) (rndFlt 24 24 fused fma) (by norm_num)
    (rndFlt_display (by norm_num) fused fma) (by norm_num) ext .fire (Or.inl rfl) 1 1000 (-80) (by norm_num)

end Kofft.Props
