import Verif.Model.Visual
import Verif.Props.Stft
import Verif.Props.Window
import Verif.Lib.Loop2
import Mathlib.Analysis.Convex.SpecificFunctions.Basic
/-
C55-C57: decibels, colours, logarithmic bins.
-/
namespace Kofft.Props
open Finset

section exact
variable [F : Flt ℝ]

theorem clampF_real (hF : Lawful F) (x : ℝ) : clampF x Flt.zero Flt.one = max 0 (min x 1) := by
  unfold clampF
  rw [hF.zero, hF.one]
  by_cases h0 : x < 0
  · rw [if_pos ((hF.lt _ _).2 h0), max_eq_left]
    exact (min_le_left _ _).trans h0.le
  · rw [if_neg (fun h => h0 ((hF.lt _ _).1 h))]
    push Not at h0
    by_cases h1 : 1 < x
    · rw [if_pos ((hF.lt _ _).2 h1), min_eq_right h1.le, max_eq_right zero_le_one]
    · rw [if_neg (fun h => h1 ((hF.lt _ _).1 h))]
      push Not at h1
      rw [min_eq_left h1, max_eq_right h0]

theorem clampF_id (hF : Lawful F) {x : ℝ} (h0 : 0 ≤ x) (h1 : x ≤ 1) : clampF x Flt.zero Flt.one = x := by
  rw [clampF_real hF, min_eq_left h1, max_eq_right h0]

theorem maxF_real (hF : Lawful F) (a b : ℝ) : maxF a b = max a b := by
  unfold maxF
  have hf : ¬ Flt.feq a a = false := by rw [(hF.feq a a).2 rfl]; simp
  by_cases h : a < b
  · rw [if_pos (Or.inl ((hF.lt _ _).2 h)), max_eq_right h.le]
  · rw [if_neg (fun h' => h'.elim (fun h'' => h ((hF.lt _ _).1 h'')) hf), max_eq_left (not_lt.1 h)]

/-! ### C55 -/

theorem magnitudeToDb_real (hF : Lawful F) (mag maxMag floorDb : ℝ) : magnitudeToDb mag maxMag floorDb =
    if maxMag ≤ 0 ∨ mag ≤ 0 then floorDb else max (20 * (Real.log (mag / maxMag) / Real.log 10)) floorDb := by
  have le' : ∀ a b : ℝ, (Flt.le a b = true) = (a ≤ b) := fun a b => propext (hF.le a b)
  unfold magnitudeToDb
  simp only [hF.zero, le', maxF_real hF, hF.mul, hF.lit, hF.log10, hF.div]
  norm_num

omit F in
theorem log10_pos : 0 < Real.log 10 := Real.log_pos (by norm_num)

/-- C55: `magnitude_to_db` returns the floor for a non-positive magnitude or reference, otherwise
`max(20 log₁₀(mag / max), floor)`; it is never below the floor, grows with the magnitude, is 0 at the reference for a
floor `≤ 0`, and `d` decibels exactly at `max · 10^(d/20)` for `d` at or above the floor. -/
theorem magnitude_to_db_spec (hF : Lawful F) (maxMag floorDb : ℝ) :
    (∀ mag, magnitudeToDb mag maxMag floorDb = if maxMag ≤ 0 ∨ mag ≤ 0 then floorDb
      else max (20 * (Real.log (mag / maxMag) / Real.log 10)) floorDb) ∧
    (∀ mag, floorDb ≤ magnitudeToDb mag maxMag floorDb) ∧
    (∀ m m', m ≤ m' → magnitudeToDb m maxMag floorDb ≤ magnitudeToDb m' maxMag floorDb) ∧
    (0 < maxMag → floorDb ≤ 0 → magnitudeToDb maxMag maxMag floorDb = 0) ∧
    (0 < maxMag → ∀ d, floorDb ≤ d → magnitudeToDb (maxMag * 10 ^ (d / 20)) maxMag floorDb = d) := by
  have hl := log10_pos
  refine ⟨fun mag => magnitudeToDb_real hF mag _ _, ?_, ?_, ?_, ?_⟩
  · intro mag
    rw [magnitudeToDb_real hF]
    split
    · exact le_refl _
    · exact le_max_right _ _
  · intro m m' h
    rw [magnitudeToDb_real hF, magnitudeToDb_real hF]
    by_cases h0 : maxMag ≤ 0
    · rw [if_pos (Or.inl h0), if_pos (Or.inl h0)]
    · push Not at h0
      by_cases h1 : m ≤ 0
      · rw [if_pos (Or.inr h1)]
        split
        · exact le_refl _
        · exact le_max_right _ _
      · push Not at h1
        rw [if_neg (by push Not; exact ⟨h0, h1⟩), if_neg (by push Not; exact ⟨h0, h1.trans_le h⟩)]
        apply max_le_max_right
        have : Real.log (m / maxMag) ≤ Real.log (m' / maxMag) :=
          Real.log_le_log (div_pos h1 h0) (div_le_div_of_nonneg_right h h0.le)
        have := div_le_div_of_nonneg_right this hl.le
        linarith
  · intro h0 h1
    rw [magnitudeToDb_real hF, if_neg (by push Not; exact ⟨h0, h0⟩), div_self h0.ne', Real.log_one]
    simp [h1]
  · intro h0 d hd
    have hp : 0 < maxMag * 10 ^ (d / 20) := by positivity
    rw [magnitudeToDb_real hF, if_neg (by push Not; exact ⟨h0, hp⟩), mul_div_cancel_left₀ _ h0.ne',
      Real.log_rpow (by norm_num), mul_div_assoc, div_self hl.ne']
    rw [max_eq_left (by linarith)]; ring

theorem dbScale_real (hF : Lawful F) (mag maxMag dr : ℝ) : dbScale mag maxMag dr =
    max 0 (min ((20 * (Real.log (max (mag / maxMag) (1 / 10 ^ 10)) / Real.log 10) + dr) / dr) 1) := by
  unfold dbScale
  simp only []
  rw [clampF_real hF, maxF_real hF, hF.mul, hF.lit, hF.lit, hF.log10, hF.div, hF.div, hF.add]
  norm_num

/-- C55: `db_scale` lies in `[0, 1]` for every range but 0; for a positive reference and range it grows with the magnitude, is 1 from the
reference upwards and, for a range of at most 200 dB, 0 from `max · 10^(-range/20)` downwards. -/
theorem db_scale_spec (hF : Lawful F) (maxMag dr : ℝ) :
    (dr ≠ 0 → ∀ mag, 0 ≤ dbScale mag maxMag dr ∧ dbScale mag maxMag dr ≤ 1) ∧
    (0 < maxMag → 0 < dr → ∀ m m', m ≤ m' → dbScale m maxMag dr ≤ dbScale m' maxMag dr) ∧
    (0 < maxMag → 0 < dr → ∀ m, maxMag ≤ m → dbScale m maxMag dr = 1) ∧
    (0 < maxMag → 0 < dr → dr ≤ 200 → ∀ m, m ≤ maxMag * 10 ^ (-dr / 20) → dbScale m maxMag dr = 0) := by
  have hl := log10_pos
  have mono : 0 < maxMag → 0 < dr → ∀ m m', m ≤ m' → dbScale m maxMag dr ≤ dbScale m' maxMag dr := by
    intro h0 h1 m m' h
    rw [dbScale_real hF, dbScale_real hF]
    apply max_le_max_left
    apply min_le_min_right
    apply div_le_div_of_nonneg_right _ h1.le
    have hm : max (m / maxMag) (1 / 10 ^ 10) ≤ max (m' / maxMag) (1 / 10 ^ 10) :=
      max_le_max_right _ (div_le_div_of_nonneg_right h h0.le)
    have := div_le_div_of_nonneg_right (Real.log_le_log (lt_max_of_lt_right (by norm_num)) hm) hl.le
    linarith
  have bd : ∀ mag, 0 ≤ dbScale mag maxMag dr ∧ dbScale mag maxMag dr ≤ 1 := by
    intro mag
    rw [dbScale_real hF]
    exact ⟨le_max_left _ _, max_le zero_le_one (min_le_right _ _)⟩
  refine ⟨fun _ => bd, mono, ?_, ?_⟩
  · intro h0 h1 m hm
    apply le_antisymm (bd m).2
    refine le_trans (le_of_eq ?_) (mono h0 h1 maxMag m hm)
    have h10 : max (1 : ℝ) (1 / 10 ^ 10) = 1 := max_eq_left (by norm_num)
    rw [dbScale_real hF, div_self h0.ne', h10, Real.log_one]
    rw [zero_div, mul_zero, zero_add, div_self h1.ne']; norm_num
  · intro h0 h1 h2 m hm
    apply le_antisymm _ (bd m).1
    refine le_trans (mono h0 h1 m _ hm) (le_of_eq ?_)
    have h3 : (1 : ℝ) / 10 ^ 10 ≤ 10 ^ (-dr / 20) := by
      rw [show (1 : ℝ) / 10 ^ 10 = 10 ^ (-10 : ℝ) by
        rw [Real.rpow_neg (by norm_num), show (10 : ℝ) ^ (10 : ℝ) = 10 ^ (10 : ℕ) by
          rw [← Real.rpow_natCast]; norm_num]; norm_num]
      exact Real.rpow_le_rpow_of_exponent_le (by norm_num) (by linarith)
    rw [dbScale_real hF, mul_div_cancel_left₀ _ h0.ne', max_eq_left h3, Real.log_rpow (by norm_num), mul_div_assoc,
      div_self hl.ne']
    have : 20 * (-dr / 20 * 1) + dr = 0 := by ring
    rw [this, zero_div]; norm_num

example : (0 : ℝ) < 1 ∧ (0 : ℝ) < 80 ∧ (80 : ℝ) ≤ 200 := by norm_num

omit F in
/-- C55: with the range 0 the result at the reference is `0/0`: clamping does not remove a NaN. The hypotheses are facts of
IEEE 754: a number divided by itself is 1, the logarithm of 1 is 0, a NaN compares false with everything. -/
theorem db_scale_zero_range {T : Type} [F : Flt T] (m nan : T) (hm : F.div m m = F.one)
    (hmax : F.lt F.one (F.lit 1 10) = false) (hone : F.feq F.one F.one = true) (hlog : F.log10 F.one = F.zero)
    (hmul : F.mul (F.lit 20 0) F.zero = F.zero) (hadd : F.add F.zero F.zero = F.zero)
    (hnan : F.div F.zero F.zero = nan) (hcmp : ∀ a, F.lt nan a = false ∧ F.lt a nan = false) :
    dbScale m m F.zero = nan := by
  unfold dbScale maxF clampF
  simp only []
  rw [hm, hmax, hone]
  simp only [Bool.false_eq_true, Bool.true_eq_false, or_self, if_false]
  rw [hlog, hmul, hadd, hnan, (hcmp F.zero).1, (hcmp F.one).2]
  simp

/-! ### C56 -/

theorem castU8_real (hF : Lawful F) {x : ℝ} (h1 : x ≤ 255) : castU8 x = ⌊x⌋₊ := by
  unfold castU8
  rw [hF.toNat]
  apply Nat.min_eq_right
  exact Nat.floor_le_of_le (by exact_mod_cast h1)

theorem lerpU8_real (hF : Lawful F) (a b : Nat) (u : ℝ) (ha : a ≤ 255) (hb : b ≤ 255) (h0 : 0 ≤ u) (h1 : u ≤ 1) :
    lerpU8 a b u = ⌊(a : ℝ) + (b - a) * u⌋₊ := by
  unfold lerpU8
  rw [hF.add, hF.mul, hF.sub, hF.ofNatD, hF.ofNatD]
  apply castU8_real hF
  have ha' : (a : ℝ) ≤ 255 := by exact_mod_cast ha
  have hb' : (b : ℝ) ≤ 255 := by exact_mod_cast hb
  nlinarith

end exact

/-- C56: `Colormap::parse` recognises exactly the six names, ignoring ASCII case; everything else is `Fire`. -/
theorem colormap_parse_spec (s : String) :
    (Colormap.parse s = .legacy ↔ s.map Char.toLower = "legacy") ∧
    (Colormap.parse s = .gray ↔ s.map Char.toLower = "gray") ∧
    (Colormap.parse s = .viridis ↔ s.map Char.toLower = "viridis") ∧
    (Colormap.parse s = .plasma ↔ s.map Char.toLower = "plasma") ∧
    (Colormap.parse s = .inferno ↔ s.map Char.toLower = "inferno") ∧
    (Colormap.parse s = .rainbow ↔ s.map Char.toLower = "rainbow") ∧
    (Colormap.parse s = .fire ↔ ∀ n ∈ ["legacy", "gray", "viridis", "plasma", "inferno", "rainbow"],
      s.map Char.toLower ≠ n) := by
  unfold Colormap.parse
  generalize s.map Char.toLower = t
  split <;> simp_all

section generic
variable {T : Type} [Flt T]

theorem castU8_le (x : T) : castU8 x ≤ 255 := Nat.min_le_left _ _

theorem lerpRgb_le (a b : Rgb) (t : T) : (lerpRgb a b t).r ≤ 255 ∧ (lerpRgb a b t).g ≤ 255 ∧ (lerpRgb a b t).b ≤ 255 :=
  ⟨castU8_le _, castU8_le _, castU8_le _⟩

/-- C56: in any arithmetic and for any parameter (also NaN), the colour components are bytes, provided those of the external
palettes are. -/
theorem map_color_bytes (ext : Colormap → T → Rgb) (hext : ∀ c t, (ext c t).r ≤ 255 ∧ (ext c t).g ≤ 255 ∧ (ext c t).b ≤ 255)
    (t : T) (cmap : Colormap) : (mapColor8 ext t cmap).r ≤ 255 ∧ (mapColor8 ext t cmap).g ≤ 255 ∧
      (mapColor8 ext t cmap).b ≤ 255 := by
  unfold mapColor8
  cases cmap
  · exact lerpRgb_le _ _ _
  · exact ⟨castU8_le _, castU8_le _, castU8_le _⟩
  · exact ⟨castU8_le _, castU8_le _, castU8_le _⟩
  · exact hext _ _
  · exact hext _ _
  · exact hext _ _
  · simp only [rainbowColor]
    split
    · exact lerpRgb_le _ _ _
    · exact lerpRgb_le _ _ _
    · simp

/-- C56: 16-bit colours are 257 times the 8-bit ones and fit in 16 bits, so the multiplication does not overflow. -/
theorem map_color_u16_spec (ext : Colormap → T → Rgb)
    (hext : ∀ c t, (ext c t).r ≤ 255 ∧ (ext c t).g ≤ 255 ∧ (ext c t).b ≤ 255) (t m mx fl : T) (cmap : Colormap) :
    (let c := mapColor8 ext t cmap
     mapColor16 ext t cmap = ⟨257 * c.r, 257 * c.g, 257 * c.b⟩ ∧ 257 * c.r < 2 ^ 16 ∧ 257 * c.g < 2 ^ 16 ∧
      257 * c.b < 2 ^ 16) ∧
    (let c := colorFromMagnitude8 ext m mx fl cmap
     colorFromMagnitude16 ext m mx fl cmap = ⟨257 * c.r, 257 * c.g, 257 * c.b⟩ ∧ 257 * c.r < 2 ^ 16 ∧
      257 * c.g < 2 ^ 16 ∧ 257 * c.b < 2 ^ 16) := by
  have h1 := map_color_bytes ext hext t cmap
  have h2 := map_color_bytes ext hext ((magnitudeToDb m mx fl -. fl) /. (-. fl)) cmap
  refine ⟨⟨?_, by omega, by omega, by omega⟩, ⟨?_, ?_, ?_, ?_⟩⟩
  · simp only [mapColor16, Nat.mul_comm]
  · simp only [colorFromMagnitude16, Nat.mul_comm]
  · simp only [colorFromMagnitude8]; omega
  · simp only [colorFromMagnitude8]; omega
  · simp only [colorFromMagnitude8]; omega

/-- C56: the bytes hypothesis is satisfiable. -/
example : ∀ (c : Colormap) (t : T), ((fun _ _ => ⟨68, 1, 84⟩ : Colormap → T → Rgb) c t).r ≤ 255 := by
  intro c t; show 68 ≤ 255; decide

end generic

section exact
variable [F : Flt ℝ]

/-- C56: parameters outside `[0, 1]` give the colour of the nearer end. -/
theorem map_color_clamp (hF : Lawful F) (ext : Colormap → ℝ → Rgb) (t : ℝ) (cmap : Colormap) :
    (t ≤ 0 → mapColor8 ext t cmap = mapColor8 ext 0 cmap) ∧ (1 ≤ t → mapColor8 ext t cmap = mapColor8 ext 1 cmap) := by
  constructor
  · intro h
    have : clampF t Flt.zero Flt.one = clampF (0 : ℝ) Flt.zero Flt.one := by
      rw [clampF_real hF, clampF_real hF, max_eq_left ((min_le_left _ _).trans h)]; simp
    unfold mapColor8; rw [this]
  · intro h
    have : clampF t Flt.zero Flt.one = clampF (1 : ℝ) Flt.zero Flt.one := by
      rw [clampF_real hF, clampF_real hF, min_eq_right h]; simp
    unfold mapColor8; rw [this]

/-- C56: the greyscale palette is `255 t` rounded to the nearest integer. -/
theorem gray_spec (hF : Lawful F) (ext : Colormap → ℝ → Rgb) (t : ℝ) (h0 : 0 ≤ t) (h1 : t ≤ 1) :
    mapColor8 ext t .gray = ⟨⌊255 * t + 1 / 2⌋₊, ⌊255 * t + 1 / 2⌋₊, ⌊255 * t + 1 / 2⌋₊⟩ := by
  have e : castU8 (Flt.round (t *. Flt.lit 255 0)) = ⌊255 * t + 1 / 2⌋₊ := by
    rw [hF.mul, hF.lit, hF.round _ (by positivity)]
    have h : (t * ((255 : ℤ) / 10 ^ 0) : ℝ) = 255 * t := by push_cast; ring
    rw [h, castU8_real hF]
    · rw [← Int.floor_toNat, Int.floor_intCast, Int.floor_toNat]
    · have : ⌊255 * t + 1 / 2⌋ < 256 := by
        rw [Int.floor_lt]; push_cast; linarith
      have : ⌊255 * t + 1 / 2⌋ ≤ 255 := by omega
      exact_mod_cast this
  simp only [mapColor8, clampF_id hF h0 h1, e]

/-- C56: the legacy palette. -/
theorem legacy_spec (hF : Lawful F) (ext : Colormap → ℝ → Rgb) (t : ℝ) (h0 : 0 ≤ t) (h1 : t ≤ 1) :
    mapColor8 ext t .legacy = ⟨⌊64 + 191 * t⌋₊, ⌊255 * t⌋₊, ⌊64 + 160 * t⌋₊⟩ := by
  simp only [mapColor8, clampF_id hF h0 h1]
  rw [castU8_real hF, castU8_real hF, castU8_real hF]
  all_goals simp only [hF.add, hF.mul, hF.sub, hF.lit, hF.one]
  · congr 2 <;> (push_cast; ring)
  · push_cast; linarith
  · push_cast; linarith
  · push_cast; linarith

/-- C56: greyscale and legacy colours never get darker as `t` grows, over all reals. -/
theorem palettes_monotone (hF : Lawful F) (ext : Colormap → ℝ → Rgb) (t t' : ℝ) (h : t ≤ t') (cmap : Colormap)
    (hc : cmap = .gray ∨ cmap = .legacy) :
    (mapColor8 ext t cmap).r ≤ (mapColor8 ext t' cmap).r ∧ (mapColor8 ext t cmap).g ≤ (mapColor8 ext t' cmap).g ∧
      (mapColor8 ext t cmap).b ≤ (mapColor8 ext t' cmap).b := by
  have key : ∀ c, mapColor8 ext t c = mapColor8 ext (max 0 (min t 1)) c := by
    intro c
    unfold mapColor8
    rw [clampF_real hF, clampF_real hF]; simp
  have key' : ∀ c, mapColor8 ext t' c = mapColor8 ext (max 0 (min t' 1)) c := by
    intro c
    unfold mapColor8
    rw [clampF_real hF, clampF_real hF]; simp
  rw [key, key']
  have hm : max 0 (min t 1) ≤ max 0 (min t' 1) := max_le_max_left _ (min_le_min_right _ h)
  have a0 : (0 : ℝ) ≤ max 0 (min t 1) := le_max_left _ _
  have a1 : max 0 (min t 1) ≤ (1 : ℝ) := max_le zero_le_one (min_le_right _ _)
  have b0 : (0 : ℝ) ≤ max 0 (min t' 1) := le_max_left _ _
  have b1 : max 0 (min t' 1) ≤ (1 : ℝ) := max_le zero_le_one (min_le_right _ _)
  generalize max 0 (min t 1) = u at *
  generalize max 0 (min t' 1) = v at *
  rcases hc with rfl | rfl
  · rw [gray_spec hF ext u a0 a1, gray_spec hF ext v b0 b1]
    have := Nat.floor_le_floor (show 255 * u + 1 / 2 ≤ 255 * v + 1 / 2 by linarith)
    exact ⟨this, this, this⟩
  · rw [legacy_spec hF ext u a0 a1, legacy_spec hF ext v b0 b1]
    exact ⟨Nat.floor_le_floor (by linarith), Nat.floor_le_floor (by linarith), Nat.floor_le_floor (by linarith)⟩

theorem lerpRgb_real (hF : Lawful F) (a b : Rgb) (u : ℝ) (ha : a.r ≤ 255 ∧ a.g ≤ 255 ∧ a.b ≤ 255)
    (hb : b.r ≤ 255 ∧ b.g ≤ 255 ∧ b.b ≤ 255) (h0 : 0 ≤ u) (h1 : u ≤ 1) : lerpRgb a b u =
    ⟨⌊(a.r : ℝ) + (b.r - a.r) * u⌋₊, ⌊(a.g : ℝ) + (b.g - a.g) * u⌋₊, ⌊(a.b : ℝ) + (b.b - a.b) * u⌋₊⟩ := by
  unfold lerpRgb
  rw [lerpU8_real hF _ _ _ ha.1 hb.1 h0 h1, lerpU8_real hF _ _ _ ha.2.1 hb.2.1 h0 h1,
    lerpU8_real hF _ _ _ ha.2.2 hb.2.2 h0 h1]

/-- The stops of the palette as real numbers. -/
theorem fireStops_real (hF : Lawful F) : (fireStops : List (ℝ × Rgb)) =
    [(0, ⟨0, 0, 0⟩), (1 / 4, ⟨128, 0, 128⟩), (1 / 2, ⟨255, 165, 0⟩), (3 / 4, ⟨255, 255, 0⟩), (1, ⟨255, 255, 255⟩)] := by
  simp only [fireStops, hF.zero, hF.one, hF.lit]; norm_num

theorem rainbowStops_real (hF : Lawful F) : (rainbowStops : List (ℝ × Rgb)) =
    [(0, ⟨0, 0, 0⟩), (1 / 4, ⟨0, 0, 255⟩), (1 / 2, ⟨0, 255, 255⟩), (3 / 4, ⟨255, 255, 0⟩), (9 / 10, ⟨255, 0, 0⟩),
      (1, ⟨255, 255, 255⟩)] := by
  simp only [rainbowStops, hF.zero, hF.one, hF.lit]; norm_num

/-- C56: the fire palette interpolates linearly between black, purple, orange, yellow and white, rounding down. -/
theorem fire_spec (hF : Lawful F) (ext : Colormap → ℝ → Rgb) (t : ℝ) :
    (0 ≤ t → t ≤ 1 / 4 → mapColor8 ext t .fire = ⟨⌊512 * t⌋₊, 0, ⌊512 * t⌋₊⟩) ∧
    (1 / 4 ≤ t → t ≤ 1 / 2 → mapColor8 ext t .fire = ⟨⌊128 + 127 * (4 * t - 1)⌋₊, ⌊165 * (4 * t - 1)⌋₊,
      ⌊128 - 128 * (4 * t - 1)⌋₊⟩) ∧
    (1 / 2 ≤ t → t ≤ 3 / 4 → mapColor8 ext t .fire = ⟨255, ⌊165 + 90 * (4 * t - 2)⌋₊, 0⟩) ∧
    (3 / 4 ≤ t → t ≤ 1 → mapColor8 ext t .fire = ⟨255, 255, ⌊255 * (4 * t - 3)⌋₊⟩) := by
  have le' : ∀ a b : ℝ, (Flt.le a b = true) = (a ≤ b) := fun a b => propext (hF.le a b)
  have seg : ∀ (a b : ℝ × Rgb), 0 ≤ t → t ≤ 1 → findStop t fireStops = some (a, b) → mapColor8 ext t .fire =
      lerpRgb a.2 b.2 ((t - a.1) / (b.1 - a.1)) := by
    intro a b h0 h1 h
    simp only [mapColor8, clampF_id hF h0 h1, fireColor, h, Option.getD_some, hF.div, hF.sub]
  have f1 : 0 ≤ t → t ≤ 1 / 4 → findStop t fireStops = some ((0, ⟨0, 0, 0⟩), (1 / 4, ⟨128, 0, 128⟩)) := by
    intro h0 h1
    rw [fireStops_real hF, findStop]; simp only [le']; rw [if_pos ⟨h0, h1⟩]
  have f2 : 1 / 4 < t → t ≤ 1 / 2 → findStop t fireStops = some ((1 / 4, ⟨128, 0, 128⟩), (1 / 2, ⟨255, 165, 0⟩)) := by
    intro h0 h1
    rw [fireStops_real hF, findStop, findStop]; simp only [le']
    rw [if_neg (by push Not; intro; linarith), if_pos ⟨by linarith, h1⟩]
  have f3 : 1 / 2 < t → t ≤ 3 / 4 → findStop t fireStops = some ((1 / 2, ⟨255, 165, 0⟩), (3 / 4, ⟨255, 255, 0⟩)) := by
    intro h0 h1
    rw [fireStops_real hF, findStop, findStop, findStop]; simp only [le']
    rw [if_neg (by push Not; intro; linarith), if_neg (by push Not; intro; linarith), if_pos ⟨by linarith, h1⟩]
  have f4 : 3 / 4 < t → t ≤ 1 → findStop t fireStops = some ((3 / 4, ⟨255, 255, 0⟩), (1, ⟨255, 255, 255⟩)) := by
    intro h0 h1
    rw [fireStops_real hF, findStop, findStop, findStop, findStop]; simp only [le']
    rw [if_neg (by push Not; intro; linarith), if_neg (by push Not; intro; linarith),
      if_neg (by push Not; intro; linarith), if_pos ⟨by linarith, h1⟩]
  have g1 : 0 ≤ t → t ≤ 1 / 4 → mapColor8 ext t .fire = ⟨⌊512 * t⌋₊, 0, ⌊512 * t⌋₊⟩ := by
    intro h0 h1
    rw [seg _ _ h0 (by linarith) (f1 h0 h1), lerpRgb_real hF _ _ _ (by simp) (by simp)
      (div_nonneg (by linarith) (by norm_num)) ((div_le_one (by norm_num)).2 (by simpa using h1))]
    have : ((0 : ℝ) + (128 - 0) * ((t - 0) / (1 / 4 - 0))) = 512 * t := by ring
    norm_num
    congr 1
    ring
  have g2 : 1 / 4 < t → t ≤ 1 / 2 → mapColor8 ext t .fire = ⟨⌊128 + 127 * (4 * t - 1)⌋₊, ⌊165 * (4 * t - 1)⌋₊,
      ⌊128 - 128 * (4 * t - 1)⌋₊⟩ := by
    intro h0 h1
    rw [seg _ _ (by linarith) (by linarith) (f2 h0 h1), lerpRgb_real hF _ _ _ (by simp) (by simp)
      (div_nonneg (by simp; linarith) (by norm_num)) ((div_le_one (by norm_num)).2 (by simp; linarith))]
    simp only [Rgb.mk.injEq]
    refine ⟨?_, ?_, ?_⟩ <;> (congr 1; push_cast; ring)
  have g3 : 1 / 2 < t → t ≤ 3 / 4 → mapColor8 ext t .fire = ⟨255, ⌊165 + 90 * (4 * t - 2)⌋₊, 0⟩ := by
    intro h0 h1
    rw [seg _ _ (by linarith) (by linarith) (f3 h0 h1), lerpRgb_real hF _ _ _ (by simp) (by simp)
      (div_nonneg (by simp; linarith) (by norm_num)) ((div_le_one (by norm_num)).2 (by simp; linarith))]
    simp only [Rgb.mk.injEq]
    refine ⟨by norm_num, ?_, by norm_num⟩
    congr 1; push_cast; ring
  have g4 : 3 / 4 < t → t ≤ 1 → mapColor8 ext t .fire = ⟨255, 255, ⌊255 * (4 * t - 3)⌋₊⟩ := by
    intro h0 h1
    rw [seg _ _ (by linarith) (by linarith) (f4 h0 h1), lerpRgb_real hF _ _ _ (by simp) (by simp)
      (div_nonneg (by simp; linarith) (by norm_num)) ((div_le_one (by norm_num)).2 (by simp; linarith))]
    simp only [Rgb.mk.injEq]
    refine ⟨by norm_num, by norm_num, ?_⟩
    congr 1; push_cast; ring
  refine ⟨g1, ?_, ?_, ?_⟩
  · intro h0 h1
    rcases eq_or_lt_of_le h0 with h | h
    · rw [g1 (by linarith) (by linarith), ← h]; norm_num
    · exact g2 h h1
  · intro h0 h1
    rcases eq_or_lt_of_le h0 with h | h
    · rw [g2 (by linarith) (by linarith), ← h]; norm_num
    · exact g3 h h1
  · intro h0 h1
    rcases eq_or_lt_of_le h0 with h | h
    · rw [g3 (by linarith) (by linarith), ← h]; norm_num
    · exact g4 h h1

/-- C56: the rainbow palette interpolates linearly between black, blue, cyan, yellow, red and white, rounding down. -/
theorem rainbow_spec (hF : Lawful F) (ext : Colormap → ℝ → Rgb) (t : ℝ) :
    (0 ≤ t → t ≤ 1 / 4 → mapColor8 ext t .rainbow = ⟨0, 0, ⌊1020 * t⌋₊⟩) ∧
    (1 / 4 ≤ t → t ≤ 1 / 2 → mapColor8 ext t .rainbow = ⟨0, ⌊255 * (4 * t - 1)⌋₊, 255⟩) ∧
    (1 / 2 ≤ t → t ≤ 3 / 4 → mapColor8 ext t .rainbow = ⟨⌊255 * (4 * t - 2)⌋₊, 255, ⌊255 - 255 * (4 * t - 2)⌋₊⟩) ∧
    (3 / 4 ≤ t → t ≤ 9 / 10 → mapColor8 ext t .rainbow = ⟨255, ⌊255 - 1700 * (t - 3 / 4)⌋₊, 0⟩) ∧
    (9 / 10 ≤ t → t ≤ 1 → mapColor8 ext t .rainbow = ⟨255, ⌊2550 * (t - 9 / 10)⌋₊, ⌊2550 * (t - 9 / 10)⌋₊⟩) := by
  have lt' : ∀ a b : ℝ, (Flt.lt a b = true) = (a < b) := fun a b => propext (hF.lt a b)
  have seg : ∀ (a b : ℝ × Rgb) (l : List (ℝ × Rgb)), 0 ≤ t → t ≤ 1 → a.1 < b.1 → rainbowFind t rainbowStops = a :: b :: l →
      mapColor8 ext t .rainbow = lerpRgb a.2 b.2 ((t - a.1) / (b.1 - a.1)) := by
    intro a b l h0 h1 hab h
    simp only [mapColor8, clampF_id hF h0 h1, rainbowColor, h, hF.div, hF.sub, lt', if_pos hab]
  have f1 : t ≤ 1 / 4 → ∃ l, rainbowFind t rainbowStops = (0, ⟨0, 0, 0⟩) :: (1 / 4, ⟨0, 0, 255⟩) :: l := by
    intro h1
    rw [rainbowStops_real hF, rainbowFind]; simp only [lt']; rw [if_neg (by linarith)]
    exact ⟨_, rfl⟩
  have f2 : 1 / 4 < t → t ≤ 1 / 2 → ∃ l, rainbowFind t rainbowStops = (1 / 4, ⟨0, 0, 255⟩) :: (1 / 2, ⟨0, 255, 255⟩) :: l := by
    intro h0 h1
    rw [rainbowStops_real hF, rainbowFind, rainbowFind]; simp only [lt']; rw [if_pos h0, if_neg (by linarith)]
    exact ⟨_, rfl⟩
  have f3 : 1 / 2 < t → t ≤ 3 / 4 → ∃ l, rainbowFind t rainbowStops =
      (1 / 2, ⟨0, 255, 255⟩) :: (3 / 4, ⟨255, 255, 0⟩) :: l := by
    intro h0 h1
    rw [rainbowStops_real hF, rainbowFind, rainbowFind, rainbowFind]; simp only [lt']
    rw [if_pos (by linarith), if_pos h0, if_neg (by linarith)]
    exact ⟨_, rfl⟩
  have f4 : 3 / 4 < t → t ≤ 9 / 10 → ∃ l, rainbowFind t rainbowStops =
      (3 / 4, ⟨255, 255, 0⟩) :: (9 / 10, ⟨255, 0, 0⟩) :: l := by
    intro h0 h1
    rw [rainbowStops_real hF, rainbowFind, rainbowFind, rainbowFind, rainbowFind]; simp only [lt']
    rw [if_pos (by linarith), if_pos (by linarith), if_pos h0, if_neg (by linarith)]
    exact ⟨_, rfl⟩
  have f5 : 9 / 10 < t → t ≤ 1 → ∃ l, rainbowFind t rainbowStops =
      (9 / 10, ⟨255, 0, 0⟩) :: (1, ⟨255, 255, 255⟩) :: l := by
    intro h0 h1
    rw [rainbowStops_real hF, rainbowFind, rainbowFind, rainbowFind, rainbowFind, rainbowFind]; simp only [lt']
    rw [if_pos (by linarith), if_pos (by linarith), if_pos (by linarith), if_pos h0, if_neg (by linarith)]
    exact ⟨_, rfl⟩
  have g1 : 0 ≤ t → t ≤ 1 / 4 → mapColor8 ext t .rainbow = ⟨0, 0, ⌊1020 * t⌋₊⟩ := by
    intro h0 h1
    obtain ⟨l, e⟩ := f1 h1
    rw [seg _ _ l h0 (by linarith) (by norm_num) e, lerpRgb_real hF _ _ _ (by simp) (by simp)
      (div_nonneg (by simp; linarith) (by norm_num)) ((div_le_one (by norm_num)).2 (by simp; linarith))]
    simp only [Rgb.mk.injEq]
    refine ⟨by norm_num, by norm_num, ?_⟩
    congr 1; push_cast; ring
  have g2 : 1 / 4 < t → t ≤ 1 / 2 → mapColor8 ext t .rainbow = ⟨0, ⌊255 * (4 * t - 1)⌋₊, 255⟩ := by
    intro h0 h1
    obtain ⟨l, e⟩ := f2 h0 h1
    rw [seg _ _ l (by linarith) (by linarith) (by norm_num) e, lerpRgb_real hF _ _ _ (by simp) (by simp)
      (div_nonneg (by simp; linarith) (by norm_num)) ((div_le_one (by norm_num)).2 (by simp; linarith))]
    simp only [Rgb.mk.injEq]
    refine ⟨by norm_num, ?_, by norm_num⟩
    congr 1; push_cast; ring
  have g3 : 1 / 2 < t → t ≤ 3 / 4 → mapColor8 ext t .rainbow = ⟨⌊255 * (4 * t - 2)⌋₊, 255, ⌊255 - 255 * (4 * t - 2)⌋₊⟩ := by
    intro h0 h1
    obtain ⟨l, e⟩ := f3 h0 h1
    rw [seg _ _ l (by linarith) (by linarith) (by norm_num) e, lerpRgb_real hF _ _ _ (by simp) (by simp)
      (div_nonneg (by simp; linarith) (by norm_num)) ((div_le_one (by norm_num)).2 (by simp; linarith))]
    simp only [Rgb.mk.injEq]
    refine ⟨?_, by norm_num, ?_⟩ <;> (congr 1; push_cast; ring)
  have g4 : 3 / 4 < t → t ≤ 9 / 10 → mapColor8 ext t .rainbow = ⟨255, ⌊255 - 1700 * (t - 3 / 4)⌋₊, 0⟩ := by
    intro h0 h1
    obtain ⟨l, e⟩ := f4 h0 h1
    rw [seg _ _ l (by linarith) (by linarith) (by norm_num) e, lerpRgb_real hF _ _ _ (by simp) (by simp)
      (div_nonneg (by simp; linarith) (by norm_num)) ((div_le_one (by norm_num)).2 (by simp; linarith))]
    simp only [Rgb.mk.injEq]
    refine ⟨by norm_num, ?_, by norm_num⟩
    congr 1; push_cast; ring
  have g5 : 9 / 10 < t → t ≤ 1 → mapColor8 ext t .rainbow = ⟨255, ⌊2550 * (t - 9 / 10)⌋₊, ⌊2550 * (t - 9 / 10)⌋₊⟩ := by
    intro h0 h1
    obtain ⟨l, e⟩ := f5 h0 h1
    rw [seg _ _ l (by linarith) (by linarith) (by norm_num) e, lerpRgb_real hF _ _ _ (by simp) (by simp)
      (div_nonneg (by simp; linarith) (by norm_num)) ((div_le_one (by norm_num)).2 (by simp; linarith))]
    simp only [Rgb.mk.injEq]
    refine ⟨by norm_num, ?_, ?_⟩ <;> (congr 1; push_cast; ring)
  refine ⟨g1, ?_, ?_, ?_, ?_⟩
  · intro h0 h1
    rcases eq_or_lt_of_le h0 with h | h
    · rw [g1 (by linarith) (by linarith), ← h]; norm_num
    · exact g2 h h1
  · intro h0 h1
    rcases eq_or_lt_of_le h0 with h | h
    · rw [g2 (by linarith) (by linarith), ← h]; norm_num
    · exact g3 h h1
  · intro h0 h1
    rcases eq_or_lt_of_le h0 with h | h
    · rw [g3 (by linarith) (by linarith), ← h]; norm_num
    · exact g4 h h1
  · intro h0 h1
    rcases eq_or_lt_of_le h0 with h | h
    · rw [g4 (by linarith) (by linarith), ← h]; norm_num
    · exact g5 h h1

/-- C56: the colours at the two ends, also for all parameters beyond them. -/
theorem palette_ends (hF : Lawful F) (ext : Colormap → ℝ → Rgb) :
    (∀ t, t ≤ 0 → mapColor8 ext t .fire = ⟨0, 0, 0⟩ ∧ mapColor8 ext t .gray = ⟨0, 0, 0⟩ ∧
      mapColor8 ext t .rainbow = ⟨0, 0, 0⟩ ∧ mapColor8 ext t .legacy = ⟨64, 0, 64⟩) ∧
    (∀ t, 1 ≤ t → mapColor8 ext t .fire = ⟨255, 255, 255⟩ ∧ mapColor8 ext t .gray = ⟨255, 255, 255⟩ ∧
      mapColor8 ext t .rainbow = ⟨255, 255, 255⟩ ∧ mapColor8 ext t .legacy = ⟨255, 255, 224⟩) := by
  constructor
  · intro t ht
    simp only [(map_color_clamp hF ext t _).1 ht]
    rw [(fire_spec hF ext 0).1 (by norm_num) (by norm_num), gray_spec hF ext 0 (by norm_num) (by norm_num),
      (rainbow_spec hF ext 0).1 (by norm_num) (by norm_num), legacy_spec hF ext 0 (by norm_num) (by norm_num)]
    norm_num
  · intro t ht
    simp only [(map_color_clamp hF ext t _).2 ht]
    rw [(fire_spec hF ext 1).2.2.2 (by norm_num) (by norm_num), gray_spec hF ext 1 (by norm_num) (by norm_num),
      (rainbow_spec hF ext 1).2.2.2.2 (by norm_num) (by norm_num), legacy_spec hF ext 1 (by norm_num) (by norm_num)]
    norm_num
    rw [Nat.floor_eq_iff (by norm_num)]
    norm_num

/-- C56: `color_from_magnitude_u8` with a negative floor shows the palette linearly over the decibel range: the last colour
at (and above) the reference magnitude, the first at or below the floor, and the colour at `1 - d / floor` at `d` decibels. -/
theorem color_from_magnitude_spec (hF : Lawful F) (ext : Colormap → ℝ → Rgb) (maxMag floorDb : ℝ) (hm : 0 < maxMag)
    (hf : floorDb < 0) (cmap : Colormap) :
    (∀ mag, maxMag ≤ mag → colorFromMagnitude8 ext mag maxMag floorDb cmap = mapColor8 ext 1 cmap) ∧
    (∀ mag, mag ≤ maxMag * 10 ^ (floorDb / 20) → colorFromMagnitude8 ext mag maxMag floorDb cmap = mapColor8 ext 0 cmap) ∧
    (∀ d, floorDb ≤ d → colorFromMagnitude8 ext (maxMag * 10 ^ (d / 20)) maxMag floorDb cmap =
      mapColor8 ext (1 - d / floorDb) cmap) := by
  obtain ⟨h1, h2, h3, h4, h5⟩ := magnitude_to_db_spec hF maxMag floorDb
  have hne : floorDb ≠ 0 := hf.ne
  refine ⟨?_, ?_, ?_⟩
  · intro mag h
    have := h3 _ _ h
    rw [h4 hm hf.le] at this
    unfold colorFromMagnitude8
    apply (map_color_clamp hF ext _ cmap).2
    rw [hF.div, hF.sub, hF.neg, le_div_iff₀ (by linarith)]
    linarith
  · intro mag h
    have a := h3 _ _ h
    rw [h5 hm _ le_rfl] at a
    have : magnitudeToDb mag maxMag floorDb = floorDb := le_antisymm a (h2 _)
    unfold colorFromMagnitude8
    rw [this]
    simp only []
    rw [hF.div, hF.sub, sub_self, zero_div]
  · intro d hd
    unfold colorFromMagnitude8
    rw [h5 hm d hd]
    simp only []
    rw [hF.div, hF.sub, hF.neg]
    congr 1
    field_simp
    ring

example : (0 : ℝ) < 1 ∧ (-120 : ℝ) < 0 := by norm_num

/-! ### C57 -/

theorem mapBinToPixel_real (hF : Lawful F) (bin maxBin : ℕ) (hm : maxBin ≠ 0) : mapBinToPixel ℝ bin maxBin =
    ⌊(maxBin : ℝ) * Real.log (bin + 1) / Real.log (maxBin + 1)⌋₊ := by
  unfold mapBinToPixel
  rw [if_neg hm]
  simp only []
  rw [hF.toNat, hF.floor, hF.div, hF.mul, hF.log, hF.log, hF.add, hF.add, hF.ofNatD, hF.ofNatD, hF.one,
    ← Int.floor_toNat, Int.floor_intCast, Int.floor_toNat]

/-- C57: `map_bin_to_pixel` keeps both ends fixed, is monotone, and maps the bins `0..=max_bin` into `0..=max_bin`; inside
that range no pixel lies below its bin. -/
theorem map_bin_to_pixel_spec (hF : Lawful F) (maxBin : ℕ) :
    mapBinToPixel ℝ 0 maxBin = 0 ∧ mapBinToPixel ℝ maxBin maxBin = maxBin ∧
    (∀ b b', b ≤ b' → mapBinToPixel ℝ b maxBin ≤ mapBinToPixel ℝ b' maxBin) ∧
    (∀ b, b ≤ maxBin → b ≤ mapBinToPixel ℝ b maxBin ∧ mapBinToPixel ℝ b maxBin ≤ maxBin) := by
  by_cases hm : maxBin = 0
  · subst hm; simp [mapBinToPixel]
  · have hp : (0 : ℝ) < maxBin := by exact_mod_cast Nat.pos_of_ne_zero hm
    have hl : 0 < Real.log ((maxBin : ℝ) + 1) := Real.log_pos (by linarith)
    have end1 : mapBinToPixel ℝ maxBin maxBin = maxBin := by
      rw [mapBinToPixel_real hF _ _ hm, mul_div_assoc, div_self hl.ne', mul_one, Nat.floor_natCast]
    have mono : ∀ b b', b ≤ b' → mapBinToPixel ℝ b maxBin ≤ mapBinToPixel ℝ b' maxBin := by
      intro b b' h
      rw [mapBinToPixel_real hF _ _ hm, mapBinToPixel_real hF _ _ hm]
      apply Nat.floor_le_floor
      apply div_le_div_of_nonneg_right _ hl.le
      apply mul_le_mul_of_nonneg_left _ hp.le
      apply Real.log_le_log (by positivity)
      have : (b : ℝ) ≤ b' := by exact_mod_cast h
      linarith
    refine ⟨?_, end1, mono, ?_⟩
    · rw [mapBinToPixel_real hF _ _ hm]; simp
    · intro b h
      refine ⟨?_, (mono _ _ h).trans end1.le⟩
      rw [mapBinToPixel_real hF _ _ hm]
      apply Nat.le_floor
      rw [le_div_iff₀ hl]
      have hb : (b : ℝ) ≤ maxBin := by exact_mod_cast h
      have h1 := rpow_one_add_le_one_add_mul_self (s := (maxBin : ℝ)) (by linarith) (p := b / maxBin)
        (by positivity) ((div_le_one hp).2 hb)
      have h2 := Real.log_le_log (by positivity) h1
      rw [Real.log_rpow (by positivity), div_mul_cancel₀ _ hp.ne', div_mul_eq_mul_div, div_le_iff₀ hp] at h2
      rw [add_comm (maxBin : ℝ) 1, add_comm (b : ℝ) 1]
      linarith

end exact

section generic
variable {T : Type} [Flt T]

/-- The bins below `len` shown on pixel `y`, in increasing order. -/
def _root_.Kofft.Spec.binsAt (pixel : ℕ → ℕ) (len y : ℕ) : List ℕ := (List.range len).filter (fun b => pixel b = y)

/-- The value of a pixel: 0 without bins, otherwise the bins' values added in order from 0, divided by their number. -/
def _root_.Kofft.Spec.pixelMean (values : List T) (bins : List ℕ) : T :=
  if bins = [] then Flt.zero
  else (bins.map (fun b => values.getD b Flt.zero)).foldl (fun a v => a +. v) Flt.zero /. Flt.ofNatD bins.length

theorem binsAt_succ (pixel : ℕ → ℕ) (len y : ℕ) : Spec.binsAt pixel (len + 1) y =
    Spec.binsAt pixel len y ++ if y = pixel len then [len] else [] := by
  unfold Spec.binsAt
  rw [List.range_succ, List.filter_append]
  congr 1
  by_cases h : pixel len = y
  · simp [h]
  · simp [h, Ne.symm h]

theorem binStep_ok (values : List T) (maxBin i : ℕ) (f : ℕ → T) (c : ℕ → ℕ) (hi : i < values.length)
    (hp : mapBinToPixel T i maxBin ≤ maxBin) :
    binStep values maxBin i (tab (maxBin + 1) f, tab (maxBin + 1) c) = .ok
      (tab (maxBin + 1) (fun y => if y = mapBinToPixel T i maxBin then f (mapBinToPixel T i maxBin) +. values.getD i Flt.zero else f y),
       tab (maxBin + 1) (fun y => if y = mapBinToPixel T i maxBin then c (mapBinToPixel T i maxBin) + 1 else c y)) := by
  unfold binStep
  have h : mapBinToPixel T i maxBin < maxBin + 1 := by omega
  rw [rd_getD Flt.zero hi, Outcome.bind_ok]
  simp only []
  rw [rd_tab h, Outcome.bind_ok, wr_tab h, Outcome.bind_ok, rd_tab h, Outcome.bind_ok, wr_tab h]
  rfl

theorem binLoop_ok (values : List T) (maxBin n : ℕ) (hn : n ≤ values.length)
    (hp : ∀ b, b < n → mapBinToPixel T b maxBin ≤ maxBin) :
    forRange 0 n (List.replicate (maxBin + 1) Flt.zero, List.replicate (maxBin + 1) 0) (binStep values maxBin) = .ok
      (tab (maxBin + 1) (fun y => ((Spec.binsAt (mapBinToPixel T · maxBin) n y).map (fun b => values.getD b Flt.zero)).foldl
          (fun a v => a +. v) Flt.zero),
       tab (maxBin + 1) (fun y => (Spec.binsAt (mapBinToPixel T · maxBin) n y).length)) := by
  rw [replicate_eq_tab, replicate_eq_tab]
  refine forRange_eq (fun i => (tab (maxBin + 1) (fun y => ((Spec.binsAt (mapBinToPixel T · maxBin) i y).map
      (fun b => values.getD b Flt.zero)).foldl (fun a v => a +. v) Flt.zero),
       tab (maxBin + 1) (fun y => (Spec.binsAt (mapBinToPixel T · maxBin) i y).length))) (Nat.zero_le _) rfl ?_
  intro i _ hi
  rw [binStep_ok _ _ _ _ _ (by omega) (hp i hi)]
  congr 2
  · apply tab_congr
    intro y _
    rw [binsAt_succ]
    by_cases h : y = mapBinToPixel T i maxBin
    · subst h; simp
    · simp [h]
  · apply tab_congr
    intro y _
    rw [binsAt_succ]
    by_cases h : y = mapBinToPixel T i maxBin
    · subst h; simp
    · simp [h]

/-- C57: in any arithmetic, `log_scale_bins` returns `max_bin + 1` values, each the mean of the values of the bins shown on
it, when every bin has a pixel `≤ max_bin`; otherwise it panics. -/
theorem log_scale_bins_spec (values : List T) (maxBin : ℕ) :
    ((∀ b, b < values.length → mapBinToPixel T b maxBin ≤ maxBin) → ∃ out, logScaleBins values maxBin = .ok out ∧
      out.length = maxBin + 1 ∧ ∀ y, y ≤ maxBin →
        out.getD y Flt.zero = Spec.pixelMean values (Spec.binsAt (fun b => mapBinToPixel T b maxBin) values.length y)) ∧
    ((∃ b, b < values.length ∧ maxBin < mapBinToPixel T b maxBin) → logScaleBins values maxBin = .panic) := by
  constructor
  · intro hp
    have e := binLoop_ok values maxBin values.length le_rfl hp
    unfold logScaleBins
    rw [e, Outcome.bind_ok]
    refine ⟨_, rfl, ?_, ?_⟩
    · simp
    · intro y hy
      simp only []
      rw [tab_zipWith, tab_getD (by omega)]
      unfold Spec.pixelMean
      by_cases h : Spec.binsAt (fun b => mapBinToPixel T b maxBin) values.length y = []
      · rw [if_pos h, h]; rfl
      · rw [if_neg h, if_pos (List.length_pos_iff.2 h)]
  · rintro hex
    classical
    obtain ⟨k, ⟨hk, hkp⟩, hmin⟩ : ∃ k, (k < values.length ∧ maxBin < mapBinToPixel T k maxBin) ∧
        ∀ m, m < k → ¬ (m < values.length ∧ maxBin < mapBinToPixel T m maxBin) :=
      ⟨Nat.find hex, Nat.find_spec hex, fun m hm => Nat.find_min hex hm⟩
    have : forRange 0 values.length (List.replicate (maxBin + 1) Flt.zero, List.replicate (maxBin + 1) 0)
        (binStep values maxBin) = .panic := by
      refine forRange_panic_at (fun s : List T × List ℕ => s.1.length = maxBin + 1 ∧ s.2.length = maxBin + 1) hk 0 _
        (Nat.zero_le _) (by simp) ?_ ?_
      · rintro i ⟨a, c⟩ _ hik ⟨ha, hc⟩
        simp only at ha hc
        have hpi : mapBinToPixel T i maxBin ≤ maxBin := by
          have := hmin i hik; by_contra hcon; exact this ⟨by omega, by omega⟩
        rw [eq_tab_getD a Flt.zero, eq_tab_getD c 0, ha, hc, binStep_ok _ _ _ _ _ (by omega) hpi]
        exact ⟨_, rfl, by simp⟩
      · rintro ⟨a, c⟩ ⟨ha, hc⟩
        simp only at ha hc
        unfold binStep
        rw [rd_getD Flt.zero hk, Outcome.bind_ok]
        simp only []
        rw [rd_panic (by omega)]; rfl
    unfold logScaleBins
    rw [this]; rfl

end generic

section exact
variable [F : Flt ℝ]

/-- C57: with exact arithmetic `log_scale_bins` never panics for up to `max_bin + 1` values, and each of the `max_bin + 1`
results is the arithmetic mean of the values on that pixel, or 0 if there is none. -/
theorem log_scale_bins_mean (hF : Lawful F) (values : List ℝ) (maxBin : ℕ) (hl : values.length ≤ maxBin + 1) :
    ∃ out, logScaleBins values maxBin = .ok out ∧ out.length = maxBin + 1 ∧ ∀ y, y ≤ maxBin →
      let S := (range values.length).filter (fun b => mapBinToPixel ℝ b maxBin = y)
      out.getD y 0 = (∑ b ∈ S, values.getD b 0) / S.card := by
  obtain ⟨out, e, h1, h2⟩ := (log_scale_bins_spec values maxBin).1
    (fun b hb => ((map_bin_to_pixel_spec hF maxBin).2.2.2 b (by omega)).2)
  refine ⟨out, e, h1, ?_⟩
  intro y hy S
  have := h2 y hy
  rw [hF.zero] at this
  rw [this]
  obtain ⟨bs, hbs⟩ : ∃ bs, Spec.binsAt (fun b => mapBinToPixel ℝ b maxBin) values.length y = bs := ⟨_, rfl⟩
  have hS : S = bs.toFinset := by
    ext b; simp [S, ← hbs, Spec.binsAt]
  have hnd : bs.Nodup := by rw [← hbs]; exact List.Nodup.filter _ List.nodup_range
  rw [hbs, hS, List.toFinset_card_of_nodup hnd, List.sum_toFinset _ hnd]
  unfold Spec.pixelMean
  have hfold : ∀ (l : List ℝ) (a : ℝ), l.foldl (fun a v => a +. v) a = a + l.sum := by
    intro l
    induction l with
    | nil => simp
    | cons x l ih => intro a; rw [List.foldl_cons, ih, hF.add, List.sum_cons]; ring
  split
  · rename_i h; rw [h, hF.zero]; simp
  · rw [hfold, hF.div, hF.ofNatD, hF.zero, zero_add]

example : ([1, 2, 3] : List ℝ).length ≤ 2 + 1 := by simp

end exact
end Kofft.Props
