import Verif.Spec.Image
import Verif.Props.DbErr
import Verif.Props.StftMagErr
import Verif.Props.Sanity
/-
C110: the spectrogram image in floating point.
-/
namespace Kofft.Props

open Spec Finset

variable {p : ℕ} {w : ℝ}

/-! ### The palettes are Lipschitz -/

theorem sg_mono (a b : ℝ) {t t' : ℝ} (h : t ≤ t') : sg a b t ≤ sg a b t' := by
  unfold sg
  have : max a (min t b) ≤ max a (min t' b) := max_le_max le_rfl (min_le_min h le_rfl)
  linarith

theorem sg_add {a b c : ℝ} (hab : a ≤ b) (hbc : b ≤ c) (t : ℝ) : sg a b t + sg b c t = sg a c t := by
  rcases le_total t b with h | h
  · rw [sg_below (a := b) h, add_zero]
    unfold sg
    rw [min_eq_left h, min_eq_left (h.trans hbc)]
  · rw [sg_above hab h]
    rcases le_total t c with h2 | h2
    · rw [sg_in h h2, sg_in (hab.trans h) h2]; ring
    · rw [sg_above hbc h2, sg_above (hab.trans hbc) h2]; ring

theorem curve_lip {f : ℝ → ℝ} {K : ℝ} (hf : ∀ s s', s ≤ s' → 0 ≤ s → s' ≤ 1 → |f s' - f s| ≤ K * (s' - s)) {s s' : ℝ}
    (a0 : 0 ≤ s) (a1 : s ≤ 1) (b0 : 0 ≤ s') (b1 : s' ≤ 1) : |f s - f s'| ≤ K * |s - s'| := by
  rcases le_total s s' with h | h
  · rw [abs_sub_comm (f s), abs_sub_comm s, abs_of_nonneg (a := s' - s) (by linarith)]
    exact hf s s' h a0 b1
  · rw [abs_of_nonneg (a := s - s') (by linarith)]
    exact hf s' s h b0 a1

/-- the pieces of `[0, 1]` -/
theorem pieces {s s' : ℝ} (h : s ≤ s') (h0 : 0 ≤ s) (h1 : s' ≤ 1) :
    ∃ d1 d2 d3 d4 d5 : ℝ, 0 ≤ d1 ∧ 0 ≤ d2 ∧ 0 ≤ d3 ∧ 0 ≤ d4 ∧ 0 ≤ d5 ∧ d1 + d2 + d3 + d4 + d5 = s' - s ∧
      sg 0 (1 / 4) s' = sg 0 (1 / 4) s + d1 ∧ sg (1 / 4) (1 / 2) s' = sg (1 / 4) (1 / 2) s + d2 ∧
      sg (1 / 2) (3 / 4) s' = sg (1 / 2) (3 / 4) s + d3 ∧ sg (3 / 4) (9 / 10) s' = sg (3 / 4) (9 / 10) s + d4 ∧
      sg (9 / 10) 1 s' = sg (9 / 10) 1 s + d5 ∧ sg (3 / 4) 1 s' = sg (3 / 4) 1 s + (d4 + d5) := by
  refine ⟨_, _, _, _, _, sub_nonneg.mpr (sg_mono 0 (1 / 4) h), sub_nonneg.mpr (sg_mono (1 / 4) (1 / 2) h),
    sub_nonneg.mpr (sg_mono (1 / 2) (3 / 4) h), sub_nonneg.mpr (sg_mono (3 / 4) (9 / 10) h),
    sub_nonneg.mpr (sg_mono (9 / 10) 1 h), ?_, by ring, by ring, by ring, by ring, by ring, ?_⟩
  · have T : ∀ t : ℝ, 0 ≤ t → t ≤ 1 → sg 0 (1 / 4) t + sg (1 / 4) (1 / 2) t + sg (1 / 2) (3 / 4) t + sg (3 / 4) (9 / 10) t +
        sg (9 / 10) 1 t = t := by
      intro t t0 t1
      rw [sg_add (by norm_num) (by norm_num), sg_add (by norm_num) (by norm_num), sg_add (by norm_num) (by norm_num),
        sg_add (by norm_num) (by norm_num), sg_in t0 t1, sub_zero]
    have := T s h0 (h.trans h1)
    have := T s' (h0.trans h) h1
    linarith
  · have e := fun t : ℝ => sg_add (a := 3 / 4) (b := 9 / 10) (c := 1) (by norm_num) (by norm_num) t
    rw [← e s, ← e s']; ring

theorem curves_lip {s s' : ℝ} (a0 : 0 ≤ s) (a1 : s ≤ 1) (b0 : 0 ≤ s') (b1 : s' ≤ 1) :
    |fireR s - fireR s'| ≤ 2550 * |s - s'| ∧ |fireG s - fireG s'| ≤ 2550 * |s - s'| ∧ |fireB s - fireB s'| ≤ 2550 * |s - s'| ∧
    |rainR s - rainR s'| ≤ 2550 * |s - s'| ∧ |rainG s - rainG s'| ≤ 2550 * |s - s'| ∧ |rainB s - rainB s'| ≤ 2550 * |s - s'| := by
  refine ⟨curve_lip ?_ a0 a1 b0 b1, curve_lip ?_ a0 a1 b0 b1, curve_lip ?_ a0 a1 b0 b1, curve_lip ?_ a0 a1 b0 b1,
    curve_lip ?_ a0 a1 b0 b1, curve_lip ?_ a0 a1 b0 b1⟩ <;>
  · intro s s' h h0 h1
    obtain ⟨d1, d2, d3, d4, d5, p1, p2, p3, p4, p5, hs, e1, e2, e3, e4, e5, e6⟩ := pieces h h0 h1
    simp only [fireR, fireG, fireB, rainR, rainG, rainB, e1, e2, e3, e4, e5, e6, ← hs]
    rw [abs_le]; constructor <;> linarith

theorem floor_lip {y c : ℝ} (hc : 0 ≤ c) : |((⌊y⌋₊ : ℕ) : ℝ) - (⌊c⌋₊ : ℕ)| ≤ |y - c| + 1 := by
  have c1 := Nat.floor_le hc
  have c2 := Nat.lt_floor_add_one c
  have := neg_abs_le (y - c)
  have := le_abs_self (y - c)
  rcases le_total 0 y with hy | hy
  · have y1 := Nat.floor_le hy
    have y2 := Nat.lt_floor_add_one y
    rw [abs_le]; constructor <;> linarith
  · rw [Nat.floor_of_nonpos hy, Nat.cast_zero, zero_sub, abs_neg, abs_of_nonneg (Nat.cast_nonneg _)]
    linarith

theorem near_lip [F : Flt ℝ] (h : RoundsToNearest p F) {y c c' K : ℝ} (hb : Byte c') (hy : |y - c| ≤ 1 / 20) (hc : |c - c'| ≤ K) :
    |((castU8 y : ℕ) : ℝ) - (⌊c'⌋₊ : ℕ)| ≤ K + 11 / 10 := by
  rw [castU8_floor h]
  refine (floor_lip hb.1).trans ?_
  have h1 := (abs_min_sub_min_le_max y 255 c' 255).trans (max_le le_rfl (by simp))
  rw [min_eq_left hb.2] at h1
  have := abs_sub_le y c c'
  linarith

/-- C110a. A palette computed in floating point at `t` and the exact palette at `t'`: every component within 1.1 plus ten times
the distance in units. -/
theorem colour_within {G : Flt ℝ} (hG : Lawful G) [F : Flt ℝ] (hp : 20 ≤ p) (h : Display p F w) (ext : Colormap → ℝ → Rgb)
    (cmap : Colormap) (hc : cmap = .fire ∨ cmap = .legacy ∨ cmap = .gray ∨ cmap = .rainbow) (t t' : ℝ) :
    ColourWithin (2550 * |max 0 (min t 1) - max 0 (min t' 1)| + 11 / 10) (mapColor8 ext t cmap)
      (@mapColor8 ℝ G ext t' cmap) := by
  have key' : @mapColor8 ℝ G ext t' cmap = @mapColor8 ℝ G ext (max 0 (min t' 1)) cmap := by
    unfold mapColor8
    rw [clampF_real (F := G) hG, clampF_real (F := G) hG]; simp
  have key : mapColor8 ext t cmap = mapColor8 ext (max 0 (min t 1)) cmap := by
    unfold mapColor8
    rw [clampF_rnd h, clampF_rnd h]; simp
  rw [key, key']
  have a0 : (0 : ℝ) ≤ max 0 (min t 1) := le_max_left _ _
  have a1 : max 0 (min t 1) ≤ (1 : ℝ) := max_le zero_le_one (min_le_right _ _)
  have b0 : (0 : ℝ) ≤ max 0 (min t' 1) := le_max_left _ _
  have b1 : max 0 (min t' 1) ≤ (1 : ℝ) := max_le zero_le_one (min_le_right _ _)
  generalize max 0 (min t 1) = s at *
  generalize max 0 (min t' 1) = s' at *
  have cs : clampF s F.zero F.one = s := by rw [clampF_rnd h, min_eq_left a1, max_eq_right a0]
  have hR := h.toRoundsToNearest
  obtain ⟨l1, l2, l3, l4, l5, l6⟩ := curves_lip a0 a1 b0 b1
  rcases hc with rfl | rfl | rfl | rfl
  · obtain ⟨e, w1, w2, w3⟩ := fire_exact hG ext b0 b1
    obtain ⟨y1, y2, y3, e', n1, n2, n3⟩ := fire_near hp h a0 a1
    have e2 : mapColor8 ext s .fire = fireColor s := by simp only [mapColor8, cs]
    rw [e, e2, e']
    exact ⟨near_lip hR w1 n1 l1, near_lip hR w2 n2 l2, near_lip hR w3 n3 l3⟩
  · rw [legacy_spec (F := G) hG ext s' b0 b1]
    simp only [mapColor8, cs]
    obtain ⟨q1, q2⟩ := legacy_near hp h a0 a1 255 (by norm_num)
    obtain ⟨q3, -⟩ := legacy_near hp h a0 a1 224 (by norm_num)
    have i1 := neg_abs_le (s - s')
    have i2 := le_abs_self (s - s')
    have i3 := abs_nonneg (s - s')
    refine ⟨near_lip hR ⟨by linarith, by linarith⟩ q1 ?_, near_lip hR ⟨by linarith, by linarith⟩ q2 ?_,
      near_lip hR ⟨by linarith, by linarith⟩ q3 ?_⟩ <;>
      (rw [abs_le]; constructor <;> norm_num <;> linarith)
  · rw [gray_spec (F := G) hG ext s' b0 b1]
    simp only [mapColor8, cs]
    obtain ⟨y, e, q⟩ := gray_near hp h a0 a1
    rw [e]
    have hh : |((castU8 y : ℕ) : ℝ) - (⌊255 * s' + 1 / 2⌋₊ : ℕ)| ≤ 2550 * |s - s'| + 11 / 10 := by
      rw [castU8_floor hR]
      have q2 : ⌊min (255 * s' + 1 / 2) 255⌋₊ = ⌊255 * s' + 1 / 2⌋₊ := by
        rcases le_total (255 * s' + 1 / 2) 255 with o | o
        · rw [min_eq_left o]
        · rw [min_eq_right o]
          symm
          rw [Nat.floor_eq_iff (by linarith)]
          norm_num
          constructor <;> linarith
      rw [← q2]
      refine (floor_lip (le_min (by linarith) (by norm_num))).trans ?_
      have q1 := (abs_min_sub_min_le_max y 255 (255 * s' + 1 / 2) 255).trans (max_le le_rfl (by simp))
      have q3 := abs_sub_le y (255 * s + 1 / 2) (255 * s' + 1 / 2)
      have q4 : |255 * s + 1 / 2 - (255 * s' + 1 / 2)| = 255 * |s - s'| := by
        rw [show 255 * s + 1 / 2 - (255 * s' + 1 / 2) = 255 * (s - s') by ring, abs_mul]; norm_num
      have i3 := abs_nonneg (s - s')
      linarith
    exact ⟨hh, hh, hh⟩
  · obtain ⟨e, w1, w2, w3⟩ := rainbow_exact hG ext b0 b1
    obtain ⟨y1, y2, y3, e', n1, n2, n3⟩ := rainbow_near hp h a0 a1
    have e2 : mapColor8 ext s .rainbow = rainbowColor s := by simp only [mapColor8, cs]
    rw [e, e2, e']
    exact ⟨near_lip hR w1 n1 l4, near_lip hR w2 n2 l5, near_lip hR w3 n3 l6⟩

/-! ### Decibels of perturbed magnitudes -/

theorem two_le_log_ten : (2 : ℝ) ≤ Real.log 10 := by
  rw [Real.le_log_iff_exp_le (by norm_num)]
  have h := Real.exp_one_lt_d9
  have h0 := Real.exp_pos 1
  rw [show (2 : ℝ) = 1 + 1 by norm_num, Real.exp_add]
  nlinarith

theorem floorRatio_pos (dr : ℝ) : 0 < floorRatio dr := Real.exp_pos _

theorem floorRatio_le_one {dr : ℝ} (h : 0 ≤ dr) : floorRatio dr ≤ 1 := by
  unfold floorRatio
  rw [Real.exp_le_one_iff]
  have := mul_nonneg h (by linarith [two_le_log_ten] : (0 : ℝ) ≤ Real.log 10)
  linarith

/-- the decibel value shown, in one formula -/
theorem shown_db {m M dr : ℝ} (hM : 0 < M) :
    (if M ≤ 0 ∨ m ≤ 0 then -dr else max (20 * (Real.log (m / M) / Real.log 10)) (-dr)) =
      20 * ((Real.log (max m (floorRatio dr * M)) - Real.log M) / Real.log 10) := by
  have hl := two_le_log_ten
  have hφ := floorRatio_pos dr
  have hlog : 20 * ((Real.log (floorRatio dr * M) - Real.log M) / Real.log 10) = -dr := by
    rw [Real.log_mul hφ.ne' hM.ne', add_sub_cancel_right]
    unfold floorRatio
    rw [Real.log_exp]; field_simp
  by_cases hm : m ≤ 0
  · rw [if_pos (Or.inr hm), max_eq_right (hm.trans (mul_pos hφ hM).le), hlog]
  · rw [if_neg (by push Not; exact ⟨hM, by linarith⟩)]
    push Not at hm
    rw [Real.log_div hm.ne' hM.ne']
    rcases le_total m (floorRatio dr * M) with h | h
    · rw [max_eq_right h, hlog, max_eq_right]
      rw [← hlog]
      have := Real.log_le_log hm h
      gcongr
    · rw [max_eq_left h, max_eq_left]
      rw [← hlog]
      have := Real.log_le_log (mul_pos hφ hM) h
      gcongr

/-- an error of magnitude and reference, in decibels -/
theorem shown_db_close {m M m' M' dr E ε : ℝ} (hdr : 0 ≤ dr) (hM : 0 < M) (hm : m ≤ M) (h1 : |m' - m| ≤ E) (h2 : |M' - M| ≤ E)
    (hε0 : 0 ≤ ε) (hε : ε ≤ 1 / 4) (hE : E ≤ ε * max m (floorRatio dr * M)) :
    0 < M' ∧ |20 * ((Real.log (max m' (floorRatio dr * M')) - Real.log M') / Real.log 10) -
      20 * ((Real.log (max m (floorRatio dr * M)) - Real.log M) / Real.log 10)| ≤ 27 * ε := by
  have hl := two_le_log_ten
  have hφ := floorRatio_pos dr
  have hφ1 := floorRatio_le_one hdr
  have hE0 : 0 ≤ E := (abs_nonneg _).trans h1
  have hb : 0 < max m (floorRatio dr * M) := lt_max_of_lt_right (mul_pos hφ hM)
  have hbM : max m (floorRatio dr * M) ≤ M := max_le hm (mul_le_of_le_one_left hM.le hφ1)
  have hEM : E ≤ ε * M := hE.trans (mul_le_mul_of_nonneg_left hbM hε0)
  obtain ⟨hM', c2⟩ := log_close hM hε0 (by linarith) (h2.trans hEM)
  have h3 : |max m' (floorRatio dr * M') - max m (floorRatio dr * M)| ≤ E := by
    refine (abs_max_sub_max_le_max _ _ _ _).trans (max_le h1 ?_)
    rw [← mul_sub, abs_mul, abs_of_pos hφ]
    exact (mul_le_of_le_one_left (abs_nonneg _) hφ1).trans h2
  obtain ⟨hb', c1⟩ := log_close hb hε0 (by linarith) (h3.trans hE)
  refine ⟨hM', ?_⟩
  have hq : ε / (1 - ε) ≤ 4 / 3 * ε := by
    rw [div_le_iff₀ (by linarith)]; nlinarith
  generalize Real.log (max m' (floorRatio dr * M')) = a' at *
  generalize Real.log (max m (floorRatio dr * M)) = a at *
  generalize Real.log M' = b' at *
  generalize Real.log M = b at *
  rw [← mul_sub, ← sub_div, abs_mul, abs_div, abs_of_pos (a := Real.log 10) (by linarith), abs_of_pos (show (0 : ℝ) < 20 by norm_num)]
  have h4 : |a' - b' - (a - b)| ≤ 8 / 3 * ε := by
    obtain ⟨x1, x2⟩ := abs_le.mp c1
    obtain ⟨y1, y2⟩ := abs_le.mp c2
    rw [abs_le]; constructor <;> linarith
  have h5 : |a' - b' - (a - b)| / Real.log 10 ≤ 8 / 3 * ε / 2 := by
    apply div_le_div₀ (by positivity) h4 (by norm_num) hl
  linarith

/-- C110b. The colour of a bin in floating point, from a magnitude and a reference with errors up to `E`, against the exact colour:
the error counts relative to the magnitude or, for what is below it, to the floor. -/
theorem colour_of_perturbed {G : Flt ℝ} (hG : Lawful G) [F : Flt ℝ] (hp : 20 ≤ p) (h : Display p F w) (hw : w ≤ 1 / 100000)
    (ext : Colormap → ℝ → Rgb) (cmap : Colormap) (hc : cmap = .fire ∨ cmap = .legacy ∨ cmap = .gray ∨ cmap = .rainbow)
    {m M m' M' dr E ε : ℝ} (hdr : 1 ≤ dr) (hM : 0 < M) (hm : m ≤ M) (h1 : |m' - m| ≤ E) (h2 : |M' - M| ≤ E) (hε0 : 0 ≤ ε)
    (hε : ε ≤ 1 / 4) (hE : E ≤ ε * max m (floorRatio dr * M)) :
    ColourWithin (3 / 2 + 70000 * (ε / dr)) (colorFromMagnitude8 ext m' M' (-dr) cmap)
      (@colorFromMagnitude8 ℝ G ext m M (-dr) cmap) := by
  obtain ⟨hM', hd⟩ := shown_db_close (by linarith : 0 ≤ dr) hM hm h1 h2 hε0 hε hE
  have hpos := position_error hp h hw m' M' (-dr) (by linarith) _ rfl
  rw [shown_db hM', neg_neg] at hpos
  have hs := small_enough hp hw hdr
  have e' := magnitudeToDb_real (F := G) hG m M (-dr)
  rw [shown_db hM] at e'
  unfold colorFromMagnitude8
  simp only []
  rw [e', hG.div, hG.sub, hG.neg, neg_neg]
  generalize 20 * ((Real.log (max m' (floorRatio dr * M')) - Real.log M') / Real.log 10) = D' at *
  generalize 20 * ((Real.log (max m (floorRatio dr * M)) - Real.log M) / Real.log 10) = D at *
  have hcl := colour_within hG hp h ext cmap hc
    (F.div (F.sub (magnitudeToDb m' M' (-dr)) (-dr)) (F.neg (-dr))) ((D - -dr) / dr)
  generalize max 0 (min (F.div (F.sub (magnitudeToDb m' M' (-dr)) (-dr)) (F.neg (-dr))) 1) = q at *
  have hdr0 : 0 < dr := by linarith
  have h3 : |max 0 (min ((D' - -dr) / dr) 1) - max 0 (min ((D - -dr) / dr) 1)| ≤ 27 * ε / dr := by
    refine le_trans (((abs_max_sub_max_le_max 0 _ 0 _).trans (max_le (by simp) le_rfl)).trans
      ((abs_min_sub_min_le_max _ 1 _ 1).trans (max_le le_rfl (by simp)))) ?_
    rw [← sub_div, abs_div, abs_of_pos hdr0, sub_sub_sub_cancel_right]
    gcongr
  have h4 := abs_sub_le q (max 0 (min ((D' - -dr) / dr) 1)) (max 0 (min ((D - -dr) / dr) 1))
  have h5 : |q - max 0 (min ((D - -dr) / dr) 1)| ≤ 1 / 10000 + 27 * (ε / dr) := by
    rw [mul_div_assoc] at h3
    linarith
  have h6 : 0 ≤ ε / dr := by positivity
  have hk : 2550 * |q - max 0 (min ((D - -dr) / dr) 1)| + 11 / 10 ≤ 3 / 2 + 70000 * (ε / dr) := by linarith
  obtain ⟨r1, r2, r3⟩ := hcl
  exact ⟨r1.trans hk, r2.trans hk, r3.trans hk⟩

/-! ### The image -/

open Sanity

theorem max_close {ι : Type} {f g : ι → ℝ} {E M M' : ℝ} (hE : 0 ≤ E) (h : ∀ i, |g i - f i| ≤ E) (hf : ∀ i, f i ≤ M) (hg : ∀ i, g i ≤ M')
    (h0 : 0 ≤ M) (h0' : 0 ≤ M') (hM : M = 0 ∨ ∃ i, f i = M) (hM' : M' = 0 ∨ ∃ i, g i = M') : |M' - M| ≤ E := by
  have a : M' ≤ M + E := by
    rcases hM' with e | ⟨i, e⟩
    · linarith
    · have := (abs_le.mp (h i)).2
      have := hf i
      linarith
  have b : M ≤ M' + E := by
    rcases hM with e | ⟨i, e⟩
    · linarith
    · have := (abs_le.mp (h i)).1
      have := hg i
      linarith
  rw [abs_le]; constructor <;> linarith

theorem stftMagErr_nonneg [F : Flt ℝ] {u v t w' : ℝ} (hF : Rounding F u v t) (hD : ∀ n, |F.ofNatD n - n| ≤ v * n) (hL : Libm F w')
    (hu4 : u ≤ 1 / 4) (cfg : Cfg) {winLen : ℕ} (hwl : 2 ≤ winLen) (hn : cfg.std = true ∨ ∃ k, winLen = 2 ^ k) :
    0 ≤ stftMagErr cfg u v t w' winLen := by
  obtain ⟨mags, mx, -, ml, me, -⟩ := stft_magnitudes_error hF hD hL hu4 cfg none [1] winLen 1 (by norm_num) (by omega) hn
    (fun _ h => by cases h)
  have h1 : mags.length = 1 := by rw [ml]; rfl
  have a := ((me 0 (by omega)).2 0 (by omega)).1
  have a1 := (abs_nonneg _).trans a
  have h2 : (0 : ℝ) < ∑ s ∈ range winLen, |([1] : List ℝ).getD (0 * 1 + s) 0| :=
    Finset.sum_pos' (fun i _ => abs_nonneg _) ⟨0, Finset.mem_range.mpr (by omega), by simp⟩
  exact nonneg_of_mul_nonneg_left a1 h2

/-- C110c. The image (linear scale) computed in floating point and the image computed in exact arithmetic have the same size, and
the pixel of frame `x` and bin `y` differs by at most `3/2 + 70000 · ε / range` in each component, where `ε` is the error of the
magnitudes (C109) relative to the magnitude of the bin or, for fainter bins, to the smallest magnitude that is not drawn in the
first colour. `M` is the largest magnitude, `B` a bound for the sum of the absolute values of the samples under a window. -/
theorem image_error {G : Flt ℝ} (hG : Lawful G) [F : Flt ℝ] {u v t w' : ℝ} (hp : 20 ≤ p) (h : Display p F w)
    (hw : w ≤ 1 / 100000) (hF : Rounding F u v t) (hD : ∀ n, |F.ofNatD n - n| ≤ v * n) (hL : Libm F w') (hu4 : u ≤ 1 / 4)
    (cfg : Cfg) (par par' : Option (List ℕ)) (ext : Colormap → ℝ → Rgb)
    (hext : ∀ c t, (ext c t).r ≤ 255 ∧ (ext c t).g ≤ 255 ∧ (ext c t).b ≤ 255) (winLen : ℕ) (hwl : 2 ≤ winLen)
    (hn : cfg.std = true ∨ ∃ k, winLen = 2 ^ k) (cmap : Colormap)
    (hc : cmap = .fire ∨ cmap = .legacy ∨ cmap = .gray ∨ cmap = .rainbow) (samples : List ℝ)
    (hpar : Spec.validOrder par (divCeil samples.length (winLen / 2)))
    (hpar' : Spec.validOrder par' (divCeil samples.length (winLen / 2)))
    {dr B M : ℝ} (hdr : 1 ≤ dr) (hB : ∀ x, ∑ s ∈ range winLen, |samples.getD (x * (winLen / 2) + s) 0| ≤ B)
    (hM : 0 < M)
    (hmax : IsGreatest {m | ∃ x y, x < divCeil samples.length (winLen / 2) ∧ y < winLen / 2 ∧
      binMag samples winLen (winLen / 2) x y = m} M) :
    ∃ img img', render cfg par ext winLen .linear dr cmap samples = .ok (.ok img) ∧
      @render ℝ G cfg par' ext winLen .linear dr cmap samples = .ok (.ok img') ∧
      (img.w = divCeil samples.length (winLen / 2) ∧ img.h = winLen / 2) ∧ (img'.w = img.w ∧ img'.h = img.h) ∧
      ∀ x y ε, x < img.w → y < winLen / 2 → ε ≤ 1 / 4 →
        stftMagErr cfg u v t w' winLen * B ≤ ε * max (binMag samples winLen (winLen / 2) x y) (floorRatio dr * M) →
        ∃ c c', (to8 img).get? x (winLen / 2 - 1 - y) = some c ∧ (to8 img').get? x (winLen / 2 - 1 - y) = some c' ∧
          ColourWithin (3 / 2 + 70000 * (ε / dr)) c c' := by
  have hh : 0 < winLen / 2 := by omega
  obtain ⟨mags, mx, em, ml, me, mx0, mxe⟩ := stft_magnitudes_error hF hD hL hu4 cfg par samples winLen (winLen / 2) hh (by omega) hn hpar
  obtain ⟨mags', mx', em', ml', me', mx0', mxe'⟩ :=
    stft_magnitudes_exact_partial (F := G) hG cfg par' samples winLen (winLen / 2) hh (by omega) hn hpar'
  obtain ⟨mags1, mx1, img, e1, r1, iw, ih, px⟩ := sanity_image cfg par ext hext winLen hwl hn .linear (fun h => by cases h) dr cmap
    samples hpar
  obtain ⟨mags2, mx2, img', e2, r2, iw', ih', px'⟩ := @sanity_image ℝ G cfg par' ext hext winLen hwl hn .linear
    (fun h => by cases h) dr cmap samples hpar'
  rw [em] at e1
  rw [em'] at e2
  simp only [Outcome.ok.injEq, Except.ok.injEq, Prod.mk.injEq] at e1 e2
  obtain ⟨rfl, rfl⟩ := e1
  obtain ⟨rfl, rfl⟩ := e2
  have hB0 : 0 ≤ B := (Finset.sum_nonneg fun i _ => abs_nonneg _).trans (hB 0)
  have hη := stftMagErr_nonneg hF hD hL hu4 cfg hwl hn
  set E := stftMagErr cfg u v t w' winLen * B with hEd
  have hE0 : 0 ≤ E := mul_nonneg hη hB0
  set W0 := divCeil samples.length (winLen / 2) with hW0
  have hval : ∀ x y, x < W0 → y < winLen / 2 → (mags'.getD x []).getD y 0 = binMag samples winLen (winLen / 2) x y :=
    fun x y hx hy => ((me' x (by omega)).2 y hy).1
  have herr : ∀ x y, x < W0 → y < winLen / 2 →
      |(mags.getD x []).getD y 0 - binMag samples winLen (winLen / 2) x y| ≤ E := by
    intro x y hx hy
    exact ((me x (by omega)).2 y hy).1.trans (mul_le_mul_of_nonneg_left (hB x) hη)
  have hMx : mx' = M := by
    apply le_antisymm
    · rcases mxe' with e | ⟨x, y, hx, hy, e⟩
      · rw [e]; exact hM.le
      · rw [← e, hval x y (by omega) hy]
        exact hmax.2 ⟨x, y, by omega, hy, rfl⟩
    · obtain ⟨x, y, hx, hy, e⟩ := hmax.1
      rw [← e, ← hval x y hx hy]
      exact ((me' x (by omega)).2 y hy).2.2
  subst hMx
  have hMM : |mx - mx'| ≤ E := by
    refine max_close (ι := {q : ℕ × ℕ // q.1 < W0 ∧ q.2 < winLen / 2}) (f := fun q => binMag samples winLen (winLen / 2) q.1.1 q.1.2)
      (g := fun q => (mags.getD q.1.1 []).getD q.1.2 0) hE0 (fun q => herr _ _ q.2.1 q.2.2) ?_ ?_ hM.le mx0 ?_ ?_
    · exact fun q => hmax.2 ⟨_, _, q.2.1, q.2.2, rfl⟩
    · exact fun q => ((me q.1.1 (by have := q.2.1; omega)).2 _ q.2.2).2
    · right
      obtain ⟨x, y, hx, hy, e⟩ := hmax.1
      exact ⟨⟨(x, y), hx, hy⟩, e⟩
    · rcases mxe with e | ⟨x, y, hx, hy, e⟩
      · left; exact e
      · right; exact ⟨⟨(x, y), by omega, hy⟩, e⟩
  refine ⟨img, img', r1, r2, ⟨iw, ih⟩, ⟨iw'.trans iw.symm, ih'.trans ih.symm⟩, ?_⟩
  intro x y ε hx hy hε hEε
  obtain ⟨bins, sb, bl, pb⟩ := px x hx
  obtain ⟨bins', sb', bl', pb'⟩ := px' x (by omega)
  have eb : bins = mags.getD x [] := sb
  have eb' : bins' = mags'.getD x [] := sb'
  refine ⟨_, _, (pb y hy).2, (pb' y hy).2, ?_⟩
  rw [eb, eb', hF.zero, hG.zero, h.neg, hG.neg, hval x y (by omega) hy]
  have hb : 0 < max (binMag samples winLen (winLen / 2) x y) (floorRatio dr * mx') :=
    lt_max_of_lt_right (mul_pos (floorRatio_pos dr) hM)
  have hε0 : 0 ≤ ε := by
    by_contra hneg
    push Not at hneg
    have := mul_neg_of_neg_of_pos hneg hb
    linarith
  exact colour_of_perturbed hG hp h hw ext cmap hc hdr hM (hmax.2 ⟨x, y, by omega, hy, rfl⟩) (herr x y (by omega) hy) hMM hε0 hε hEε

theorem within_same {k : ℝ} (hk : k < 2) {a b : Rgb} (h : ColourWithin k a b) : SameColour a b := by
  have key : ∀ i j : ℕ, |(i : ℝ) - j| ≤ k → i ≤ j + 1 ∧ j ≤ i + 1 := by
    intro i j hij
    obtain ⟨l, r⟩ := abs_le.mp hij
    have h1 : (i : ℝ) < j + 2 := by linarith
    have h2 : (j : ℝ) < i + 2 := by linarith
    have h3 : i < j + 2 := by exact_mod_cast h1
    have h4 : j < i + 2 := by exact_mod_cast h2
    omega
  exact ⟨key _ _ h.1, key _ _ h.2.1, key _ _ h.2.2⟩

/-- the magnitudes in binary32, windows of 32 to 1024 samples -/
theorem stftMagErr_binary32 [F : Flt ℝ] (hF : Rounding F (1 / 2 ^ 24) (1 / 2 ^ 24) (1 / 2 ^ 24)) (cfg : Cfg)
    (hpre : cfg.precomputed = true) (hk : cfg.kind = .f32) (K : ℕ) (hK : 5 ≤ K) (hK' : K ≤ 10) :
    stftMagErr cfg (1 / 2 ^ 24) (1 / 2 ^ 24) (1 / 2 ^ 24) (1 / 2 ^ 24) (2 ^ K) ≤ 1 / 25000 := by
  have h1 := fftGrowth_precomputed hF (by norm_num) (by norm_num) cfg hpre (Or.inl hk) K hK hK'
  have h2 := windowGrowth_f32
  have hK2 : (K : ℝ) ≤ 10 := by exact_mod_cast hK'
  have hw : fftWeight (2 ^ K) = 1 := by unfold fftWeight; rw [if_pos (isPow2_pow K)]
  unfold stftMagErr
  rw [hw]
  have h1' : fftGrowth cfg (1 / 2 ^ 24) (1 / 2 ^ 24) (1 / 2 ^ 24) (2 ^ K) ≤ 1 + 500 / 2 ^ 24 := by linarith
  have h2' : windowGrowth (1 / 2 ^ 24) (1 / 2 ^ 24) (1 / 2 ^ 24) ≤ 1 + 1 / 2 ^ 18 := by linarith
  have w0 : (0 : ℝ) ≤ windowGrowth (1 / 2 ^ 24) (1 / 2 ^ 24) (1 / 2 ^ 24) := by
    unfold windowGrowth
    have := Real.pi_pos
    have : (0 : ℝ) ≤ ((1 + 1 / 2 ^ 24) ^ 4 * (1 + 1 / 2 ^ 24) / (1 - 1 / 2 ^ 24) - 1) := by norm_num
    positivity
  generalize fftGrowth cfg (1 / 2 ^ 24) (1 / 2 ^ 24) (1 / 2 ^ 24) (2 ^ K) = g at *
  generalize windowGrowth (1 / 2 ^ 24) (1 / 2 ^ 24) (1 / 2 ^ 24) = q at *
  have h3 : q * g ≤ (1 + 1 / 2 ^ 18) * (1 + 500 / 2 ^ 24) := by
    calc q * g ≤ q * (1 + 500 / 2 ^ 24) := mul_le_mul_of_nonneg_left h1' w0
      _ ≤ _ := mul_le_mul_of_nonneg_right h2' (by norm_num)
  rw [mul_assoc (1 + 1 / 2 ^ 24) q g]
  generalize q * g = r at *
  norm_num at h3 ⊢
  linarith

omit w in
/-- C110d. In single precision, with the precomputed tables, a window of 32 to 1024 samples (a power of two) and a range of at
least 50 dB: every pixel whose magnitude is at least an eighth of `B` - the largest sum of the absolute values of the samples
under a window - has its exact colour, up to one unit in each component. -/
theorem image_binary32 {G : Flt ℝ} (hG : Lawful G) [F : Flt ℝ] (h : Display 24 F (1 / 2 ^ 24))
    (hF : Rounding F (1 / 2 ^ 24) (1 / 2 ^ 24) (1 / 2 ^ 24)) (hL : Libm F (1 / 2 ^ 24)) (cfg : Cfg)
    (hpre : cfg.precomputed = true) (hk : cfg.kind = .f32) (par par' : Option (List ℕ)) (ext : Colormap → ℝ → Rgb)
    (hext : ∀ c t, (ext c t).r ≤ 255 ∧ (ext c t).g ≤ 255 ∧ (ext c t).b ≤ 255) (winLen K : ℕ) (hwl : winLen = 2 ^ K) (hK : 5 ≤ K)
    (hK' : K ≤ 10) (cmap : Colormap) (hc : cmap = .fire ∨ cmap = .legacy ∨ cmap = .gray ∨ cmap = .rainbow) (samples : List ℝ)
    (hpar : Spec.validOrder par (divCeil samples.length (winLen / 2)))
    (hpar' : Spec.validOrder par' (divCeil samples.length (winLen / 2)))
    {dr B M : ℝ} (hdr : 50 ≤ dr) (hB : ∀ x, ∑ s ∈ range winLen, |samples.getD (x * (winLen / 2) + s) 0| ≤ B)
    (hM : 0 < M)
    (hmax : IsGreatest {m | ∃ x y, x < divCeil samples.length (winLen / 2) ∧ y < winLen / 2 ∧
      binMag samples winLen (winLen / 2) x y = m} M) :
    ∃ img img', render cfg par ext winLen .linear dr cmap samples = .ok (.ok img) ∧
      @render ℝ G cfg par' ext winLen .linear dr cmap samples = .ok (.ok img') ∧
      (img.w = divCeil samples.length (winLen / 2) ∧ img.h = winLen / 2) ∧ (img'.w = img.w ∧ img'.h = img.h) ∧
      ∀ x y, x < img.w → y < winLen / 2 → B ≤ 8 * binMag samples winLen (winLen / 2) x y →
        ∃ c c', (to8 img).get? x (winLen / 2 - 1 - y) = some c ∧ (to8 img').get? x (winLen / 2 - 1 - y) = some c' ∧
          SameColour c c' := by
  have hwl2 : 2 ≤ winLen := by
    rw [hwl]
    calc 2 = 2 ^ 1 := rfl
      _ ≤ 2 ^ K := Nat.pow_le_pow_right (by norm_num) (by omega)
  have hD : ∀ n : ℕ, |F.ofNatD n - n| ≤ 1 / 2 ^ 24 * (n : ℝ) := by
    intro n
    have := nearest_close (by norm_num) (h.ofNatD n)
    rwa [abs_of_nonneg (a := (n : ℝ)) (Nat.cast_nonneg n)] at this
  have hη := stftMagErr_binary32 hF cfg hpre hk K hK hK'
  have hη0 := stftMagErr_nonneg hF hD hL (by norm_num) cfg hwl2 (Or.inr ⟨K, hwl⟩)
  rw [← hwl] at hη
  obtain ⟨img, img', r1, r2, r3, r4, r5⟩ := image_error hG (p := 24) (by norm_num) h (by norm_num) hF hD hL (by norm_num) cfg par par' ext
    hext winLen hwl2 (Or.inr ⟨K, hwl⟩) cmap hc samples hpar hpar' (by linarith : 1 ≤ dr) hB hM hmax
  refine ⟨img, img', r1, r2, r3, r4, ?_⟩
  intro x y hx hy hb
  have hm0 : 0 ≤ binMag samples winLen (winLen / 2) x y := norm_nonneg _
  obtain ⟨c, c', e, e', hcc⟩ := r5 x y (8 / 25000) hx hy (by norm_num) (by
    have h1 : binMag samples winLen (winLen / 2) x y ≤ max (binMag samples winLen (winLen / 2) x y) (floorRatio dr * M) :=
      le_max_left _ _
    have h2 : stftMagErr cfg (1 / 2 ^ 24) (1 / 2 ^ 24) (1 / 2 ^ 24) (1 / 2 ^ 24) winLen * B ≤ 1 / 25000 *
        (8 * binMag samples winLen (winLen / 2) x y) := by
      calc _ ≤ stftMagErr cfg (1 / 2 ^ 24) (1 / 2 ^ 24) (1 / 2 ^ 24) (1 / 2 ^ 24) winLen *
            (8 * binMag samples winLen (winLen / 2) x y) := mul_le_mul_of_nonneg_left hb hη0
        _ ≤ _ := mul_le_mul_of_nonneg_right hη (by positivity)
    linarith)
  refine ⟨c, c', e, e', within_same ?_ hcc⟩
  have : (8 / 25000 : ℝ) / dr ≤ 8 / 25000 / 50 := by gcongr
  linarith

/-! ### The brightest pixel; silence -/

/-- C110e. Some pixel is drawn in exactly the last colour of the palette, if the largest magnitude exceeds the error bound. -/
theorem image_peak [F : Flt ℝ] {u v t w' : ℝ} (hp : 20 ≤ p) (h : Display p F w)
    (hw : w ≤ 1) (hF : Rounding F u v t) (hD : ∀ n, |F.ofNatD n - n| ≤ v * n) (hL : Libm F w') (hu4 : u ≤ 1 / 4)
    (cfg : Cfg) (par : Option (List ℕ)) (ext : Colormap → ℝ → Rgb)
    (hext : ∀ c t, (ext c t).r ≤ 255 ∧ (ext c t).g ≤ 255 ∧ (ext c t).b ≤ 255) (winLen : ℕ) (hwl : 2 ≤ winLen)
    (hn : cfg.std = true ∨ ∃ k, winLen = 2 ^ k) (cmap : Colormap) (samples : List ℝ)
    (hpar : Spec.validOrder par (divCeil samples.length (winLen / 2))) {dr : ℝ} (hdr : 0 < dr) (hdr' : IsRepr p dr)
    (hloud : ∃ x y, x < divCeil samples.length (winLen / 2) ∧ y < winLen / 2 ∧
      stftMagErr cfg u v t w' winLen * ∑ s ∈ range winLen, |samples.getD (x * (winLen / 2) + s) 0| <
        binMag samples winLen (winLen / 2) x y) :
    ∃ img, render cfg par ext winLen .linear dr cmap samples = .ok (.ok img) ∧
      ∃ x y, x < img.w ∧ y < img.h ∧ (to8 img).get? x y = some (mapColor8 ext 1 cmap) := by
  have hh : 0 < winLen / 2 := by omega
  obtain ⟨mags, mx, em, ml, me, mx0, mxe⟩ := stft_magnitudes_error hF hD hL hu4 cfg par samples winLen (winLen / 2) hh (by omega) hn hpar
  obtain ⟨mags1, mx1, img, e1, r1, iw, ih, px⟩ := sanity_image cfg par ext hext winLen hwl hn .linear (fun h => by cases h) dr cmap
    samples hpar
  rw [em] at e1
  simp only [Outcome.ok.injEq, Except.ok.injEq, Prod.mk.injEq] at e1
  obtain ⟨rfl, rfl⟩ := e1
  have hpos : 0 < mx := by
    obtain ⟨x, y, hx, hy, hlt⟩ := hloud
    obtain ⟨a1, a2⟩ := (me x (by omega)).2 y hy
    have := (abs_le.mp a1).1
    unfold binMag at hlt
    linarith
  refine ⟨img, r1, ?_⟩
  rcases mxe with e | ⟨x, y, hx, hy, e⟩
  · linarith
  obtain ⟨bins, sb, bl, pb⟩ := px x (by omega)
  have eb : bins = mags.getD x [] := sb
  refine ⟨x, winLen / 2 - 1 - y, by omega, by omega, ?_⟩
  rw [(pb y hy).2, eb, hF.zero, h.neg, e]
  have hneg : IsRepr p (-dr) := by
    obtain ⟨k, j, hk, rfl⟩ := hdr'
    exact ⟨-k, j, by rwa [abs_neg], by push_cast; ring⟩
  rw [(magnitude_colour_ends hp h hw ext cmap hpos (by linarith : -dr < 0) hneg).1 mx le_rfl]

/-- C110e. Silence: every pixel of the image of a file of zeros is drawn in exactly the first colour, on either scale. -/
theorem image_silent [F : Flt ℝ] {u v t w' : ℝ} (h : Display p F w)
    (hF : Rounding F u v t) (hD : ∀ n, |F.ofNatD n - n| ≤ v * n) (hL : Libm F w') (hu4 : u ≤ 1 / 4)
    (cfg : Cfg) (par : Option (List ℕ)) (ext : Colormap → ℝ → Rgb)
    (hext : ∀ c t, (ext c t).r ≤ 255 ∧ (ext c t).g ≤ 255 ∧ (ext c t).b ≤ 255) (winLen : ℕ) (hwl : 2 ≤ winLen)
    (hn : cfg.std = true ∨ ∃ k, winLen = 2 ^ k) (mode : ScaleMode)
    (hlog : mode = .log → ∀ b, b < winLen / 2 → mapBinToPixel ℝ b (winLen / 2 - 1) ≤ winLen / 2 - 1) (cmap : Colormap)
    (samples : List ℝ) (hs : ∀ s ∈ samples, s = 0)
    (hpar : Spec.validOrder par (divCeil samples.length (winLen / 2))) {dr : ℝ} (hdr : 0 < dr) :
    ∃ img, render cfg par ext winLen mode dr cmap samples = .ok (.ok img) ∧
      img.w = divCeil samples.length (winLen / 2) ∧ img.h = winLen / 2 ∧
      ∀ x y, x < img.w → y < img.h → (to8 img).get? x y = some (mapColor8 ext 0 cmap) := by
  have hh : 0 < winLen / 2 := by omega
  obtain ⟨mags, mx, em, ml, me, mx0, mxe⟩ := stft_magnitudes_error hF hD hL hu4 cfg par samples winLen (winLen / 2) hh (by omega) hn hpar
  obtain ⟨mags1, mx1, img, e1, r1, iw, ih, px⟩ := sanity_image cfg par ext hext winLen hwl hn mode hlog dr cmap samples hpar
  rw [em] at e1
  simp only [Outcome.ok.injEq, Except.ok.injEq, Prod.mk.injEq] at e1
  obtain ⟨rfl, rfl⟩ := e1
  have z : ∀ i, samples.getD i 0 = 0 := by
    intro i
    by_cases hi : i < samples.length
    · rw [List.getD_eq_getElem _ _ hi]; exact hs _ (List.getElem_mem _)
    · rw [List.getD_eq_default _ _ (by omega)]
  have hz : mx = 0 := by
    rcases mxe with e | ⟨x, y, hx, hy, e⟩
    · exact e
    · have := ((me x hx).2 y hy).1
      simp only [z, zero_mul, Complex.ofReal_zero, abs_zero, sum_const_zero, norm_zero, sub_zero, mul_zero] at this
      rw [← e]
      exact abs_nonpos_iff.mp this
  subst hz
  refine ⟨img, r1, iw, ih, ?_⟩
  intro x y hx hy
  obtain ⟨bins, -, bl, pb⟩ := px x hx
  have := (pb (winLen / 2 - 1 - y) (by omega)).2
  rw [show winLen / 2 - 1 - (winLen / 2 - 1 - y) = y by omega] at this
  rw [this]
  unfold colorFromMagnitude8 magnitudeToDb
  have e0 : Flt.le (0 : ℝ) Flt.zero = true := by rw [h.zero, h.le]
  rw [if_pos (Or.inl e0)]
  simp only []
  rw [h.neg, h.neg, neg_neg]
  have e1 : F.sub (-dr) (-dr) = 0 := nearest_exact repr_zero (by simpa using h.sub (-dr) (-dr))
  have e2 : F.div 0 dr = 0 := nearest_exact repr_zero (by simpa using h.div 0 dr hdr.ne')
  rw [e1, e2]

/-! ### A concrete case: a click -/

/-- sixteen zeros and a one -/
def click : List ℝ := List.replicate 16 0 ++ [1]

theorem click_at (i : ℕ) : click.getD i 0 = if i = 16 then 1 else 0 := by
  unfold click
  by_cases h : i < 16
  · rw [List.getD_append _ _ _ _ (by simpa using h), if_neg (by omega)]
    rw [List.getD_eq_getElem _ _ (by simpa using h), List.getElem_replicate]
  · rw [List.getD_append_right _ _ _ _ (by simpa using h)]
    simp only [List.length_replicate]
    by_cases h2 : i = 16
    · subst h2; simp
    · rw [if_neg h2, List.getD_eq_default]
      simp; omega

theorem click_mag (y : ℕ) : binMag click 32 16 0 y = 1 ∧ binMag click 32 16 1 y = 0 := by
  unfold binMag
  constructor
  · rw [sum_eq_single 16]
    · rw [click_at, if_pos (by norm_num)]
      have : (2 * Real.pi * (16 : ℕ) / (32 : ℕ) : ℝ) = Real.pi := by push_cast; ring
      rw [this, Real.cos_pi, norm_mul, ie_Wnorm]
      norm_num
    · intro s _ hs
      rw [click_at, if_neg (by omega)]
      simp
    · intro hs
      exact absurd (mem_range.mpr (by norm_num)) hs
  · rw [norm_eq_zero]
    apply sum_eq_zero
    intro s hs
    rw [click_at]
    by_cases h : s = 0
    · subst h; simp
    · rw [if_neg (by omega)]; simp

/-- Concrete case: a click in single precision, window of 32: every pixel of the first column has the exact colour, up to one
unit. -/
example (fused fma : Bool) (ext : Colormap → ℝ → Rgb) (hext : ∀ c t, (ext c t).r ≤ 255 ∧ (ext c t).g ≤ 255 ∧ (ext c t).b ≤ 255) :
    letI := rndFlt 24 24 fused fma
    ∃ img img', render ⟨true, .f32, true, 4, false⟩ none ext 32 .linear 80 .fire click = .ok (.ok img) ∧
      @render ℝ (realFlt true) ⟨true, .f32, true, 4, false⟩ none ext 32 .linear 80 .fire click = .ok (.ok img') ∧
      ∀ y, y < 16 → ∃ c c', (to8 img).get? 0 (15 - y) = some c ∧ (to8 img').get? 0 (15 - y) = some c' ∧ SameColour c c' := by
  letI := rndFlt 24 24 fused fma
  have hl : divCeil click.length (32 / 2) = 2 := by simp [click, divCeil]
  obtain ⟨img, img', r1, r2, ⟨r3, -⟩, -, r5⟩ := image_binary32 (realFlt_lawful true) (rndFlt_display (by norm_num) fused fma)
    (rndFlt_rounding 24 24 (by norm_num) (by norm_num) fused fma) (rndFlt_libm 24 24 (by norm_num) fused fma)
    ⟨true, .f32, true, 4, false⟩ rfl rfl none none ext hext 32 5 (by norm_num) le_rfl (by norm_num) .fire (Or.inl rfl) click
    (fun _ h => by cases h) (fun _ h => by cases h) (dr := 80) (B := 1) (M := 1) (by norm_num)
    (by
      intro x
      simp only [click_at]
      rcases le_or_gt x 1 with hx | hx
      · rw [sum_eq_single (16 - 16 * x)]
        · split <;> simp
        · intro s _ hs
          rw [if_neg (by omega), abs_zero]
        · intro hs
          exact absurd (mem_range.mpr (by omega)) hs
      · rw [sum_eq_zero]
        · norm_num
        · intro s _
          rw [if_neg (by omega), abs_zero])
    one_pos
    (by
      rw [hl]
      constructor
      · exact ⟨0, 0, by norm_num, by norm_num, (click_mag 0).1⟩
      · rintro m ⟨x, y, hx, hy, rfl⟩
        rcases (show x = 0 ∨ x = 1 by omega) with rfl | rfl
        · exact (click_mag y).1.le
        · rw [(click_mag y).2]; norm_num)
  refine ⟨img, img', r1, r2, ?_⟩
  intro y hy
  exact r5 0 y (by rw [r3, hl]; norm_num) (by omega) (by rw [(click_mag y).1]; norm_num)

/-- Concrete cases: the image of the click has a pixel in exactly the last colour; three zeros give black pixels only. -/
example (fused fma : Bool) (ext : Colormap → ℝ → Rgb) (hext : ∀ c t, (ext c t).r ≤ 255 ∧ (ext c t).g ≤ 255 ∧ (ext c t).b ≤ 255) :
    letI := rndFlt 24 24 fused fma
    (∃ img, render ⟨true, .f32, true, 4, false⟩ none ext 32 .linear 80 .fire click = .ok (.ok img) ∧
      ∃ x y, x < img.w ∧ y < img.h ∧ (to8 img).get? x y = some ⟨255, 255, 255⟩) ∧
    (∃ img, render ⟨true, .f32, true, 4, false⟩ none ext 2 .linear 80 .fire [0, 0, 0] = .ok (.ok img) ∧ img.w = 3 ∧ img.h = 1 ∧
      ∀ x y, x < img.w → y < img.h → (to8 img).get? x y = some ⟨0, 0, 0⟩) := by
  let F := rndFlt 24 24 fused fma
  have hd : Display 24 F (1 / 2 ^ 24) := rndFlt_display (by norm_num) fused fma
  have hF : Rounding F (1 / 2 ^ 24) (1 / 2 ^ 24) (1 / 2 ^ 24) := rndFlt_rounding 24 24 (by norm_num) (by norm_num) fused fma
  have hL : Libm F (1 / 2 ^ 24) := rndFlt_libm 24 24 (by norm_num) fused fma
  have hD : ∀ n : ℕ, |F.ofNatD n - n| ≤ 1 / 2 ^ 24 * (n : ℝ) := by
    intro n
    have := rnd_close 24 (n : ℝ)
    rwa [abs_of_nonneg (a := (n : ℝ)) (Nat.cast_nonneg n)] at this
  have ends := palette_ends_rounded (p := 24) (by norm_num) hd ext
  have hl : divCeil click.length (32 / 2) = 2 := by simp [click, divCeil]
  constructor
  · obtain ⟨img, e, x, y, hx, hy, hc⟩ := image_peak (p := 24) (by norm_num) hd (by norm_num) hF hD hL (by norm_num)
      ⟨true, .f32, true, 4, false⟩ none ext hext 32 (by norm_num) (Or.inl rfl) .fire click (fun _ h => by cases h) (dr := 80)
      (by norm_num) (by simpa using repr_nat (p := 24) 80 (by norm_num))
      ⟨0, 0, by rw [hl]; norm_num, by norm_num, by
        rw [(click_mag 0).1]
        have h1 := stftMagErr_binary32 hF ⟨true, .f32, true, 4, false⟩ rfl rfl 5 le_rfl (by norm_num)
        norm_num only at h1 ⊢
        simp only [click_at]
        rw [sum_eq_single 16]
        · norm_num
          linarith
        · intro s _ hs
          rw [if_neg (by omega), abs_zero]
        · intro hs
          exact absurd (mem_range.mpr (by norm_num)) hs⟩
    rw [(ends.2 1 le_rfl).1] at hc
    exact ⟨img, e, x, y, hx, hy, hc⟩
  · obtain ⟨img, e, h1, h2, h3⟩ := image_silent hd hF hD hL (by norm_num) ⟨true, .f32, true, 4, false⟩ none ext hext 2
      le_rfl (Or.inl rfl) .linear (fun h => by cases h) .fire [0, 0, 0] (by simp) (fun _ h => by cases h) (dr := 80) (by norm_num)
    simp only [(ends.1 0 le_rfl).1] at h3
    exact ⟨img, e, h1, h2, h3⟩

end Kofft.Props
