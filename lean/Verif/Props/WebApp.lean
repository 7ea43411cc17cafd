import Verif.Model.WebApp
import Verif.Props.Web
import Verif.Props.Visual
import Mathlib.Analysis.Complex.ExponentialBounds
/-
Properties C121 (canvas), C122 (WebGL against canvas) and C123 (service worker): `app.mjs` and `sw.js`.
-/
namespace Kofft.Props
open WebApp Web

section fold
variable {α β : Type}

theorem foldl_inv (f : β → α → β) (P : β → Prop) (l : List α) (hP : ∀ b a, a ∈ l → P b → P (f b a)) (b : β) (h : P b) :
    P (l.foldl f b) := by
  induction l generalizing b with
  | nil => exact h
  | cons a l ih =>
    exact ih (fun b a' ha => hP b a' (List.mem_cons_of_mem _ ha)) _ (hP b a List.mem_cons_self h)

/-- One step establishes `Q`, the others keep it. -/
theorem foldl_hit (f : β → α → β) (P Q : β → Prop) (l : List α) (a : α) (ha : a ∈ l)
    (hP : ∀ b a', a' ∈ l → P b → P (f b a')) (hit : ∀ b, P b → Q (f b a))
    (keep : ∀ b a', a' ∈ l → P b → Q b → Q (f b a')) (b : β) (h : P b) : Q (l.foldl f b) := by
  induction l generalizing b with
  | nil => cases ha
  | cons c l ih =>
    rcases List.mem_cons.mp ha with rfl | hm
    · exact (foldl_inv f (fun b => P b ∧ Q b) l (fun b a' ha' hb => ⟨hP b a' (List.mem_cons_of_mem _ ha') hb.1,
        keep b a' (List.mem_cons_of_mem _ ha') hb.1 hb.2⟩) _ ⟨hP b a List.mem_cons_self h, hit b h⟩).2
    · exact ih hm (fun b a' h' => hP b a' (List.mem_cons_of_mem _ h')) (fun b a' h' => keep b a' (List.mem_cons_of_mem _ h'))
        _ (hP b c List.mem_cons_self h)

end fold

section canvas
variable {T : Type}

/-- The four bytes of pixel `(x, y)` of an image of the given width. -/
def pixelBytes (data : List ℕ) (width x y : ℕ) : List (Option ℕ) :=
  [data[4 * (y * width + x)]?, data[4 * (y * width + x) + 1]?, data[4 * (y * width + x) + 2]?,
    data[4 * (y * width + x) + 3]?]

theorem setPixel_length (w x y : ℕ) (c : Rgb) (d : List ℕ) : (setPixel w x y c d).length = d.length := by
  simp [setPixel]

theorem setPixel_hit (w h x y : ℕ) (c : Rgb) (d : List ℕ) (hx : x < w) (hy : y < h) (hd : d.length = 4 * (w * h)) :
    pixelBytes (setPixel w x y c d) w x y = [some c.r, some c.g, some c.b, some 255] := by
  have hi : y * w + x < w * h := by
    calc y * w + x < y * w + w := by omega
      _ = (y + 1) * w := by ring
      _ ≤ h * w := Nat.mul_le_mul_right _ hy
      _ = w * h := by ring
  generalize hj : y * w + x = j at *
  simp only [pixelBytes, setPixel, hj]
  simp [List.getElem?_set, hd]
  omega

theorem setPixel_other (w x y x' y' : ℕ) (c : Rgb) (d : List ℕ) (hx : x < w) (hx' : x' < w) (hne : (x, y) ≠ (x', y')) :
    pixelBytes (setPixel w x' y' c d) w x y = pixelBytes d w x y := by
  have hj : y * w + x ≠ y' * w + x' := by
    intro e
    apply hne
    have h1 : (y * w + x) / w = (y' * w + x') / w := by rw [e]
    have hw : 0 < w := by omega
    rw [Nat.mul_comm y, Nat.mul_comm y', Nat.mul_add_div hw, Nat.mul_add_div hw, Nat.div_eq_of_lt hx,
      Nat.div_eq_of_lt hx'] at h1
    have h2 : y = y' := by omega
    subst h2
    have : x = x' := by omega
    rw [this]
  generalize hl : y * w + x = j at *
  generalize hk : y' * w + x' = k at *
  have g : ∀ b, b < 4 → ((((d.set (4 * k) c.r).set (4 * k + 1) c.g).set (4 * k + 2) c.b).set (4 * k + 3) 255)[4 * j + b]? =
      d[4 * j + b]? := by
    intro b hb
    rw [List.getElem?_set_ne (by omega), List.getElem?_set_ne (by omega), List.getElem?_set_ne (by omega),
      List.getElem?_set_ne (by omega)]
  simp only [pixelBytes, setPixel, hk, hl]
  have g0 := g 0 (by omega)
  simp only [Nat.add_zero] at g0
  rw [g0, g 1 (by omega), g 2 (by omega), g 3 (by omega)]

/-- C121a. On a canvas without WebGL every pixel is written, opaque, and the pixel in column `x`, row `y` from the top has
the colour of value `y` of frame `x`; for every size, data and colour function. -/
theorem canvas_pixels (color : T → Rgb) (und : T) (mags : List T) (w h : ℕ) :
    (drawCanvas color und mags w h).length = 4 * (w * h) ∧
    ∀ x y, x < w → y < h →
      let c := color (mags.getD (x * h + y) und)
      pixelBytes (drawCanvas color und mags w h) w x y = [some c.r, some c.g, some c.b, some 255] := by
  have inner : ∀ x d, d.length = 4 * (w * h) → ((List.range h).foldl (fun data y =>
      setPixel w x y (color (mags.getD (x * h + y) und)) data) d).length = 4 * (w * h) := by
    intro x d hd
    exact foldl_inv _ (fun d : List ℕ => d.length = 4 * (w * h)) _ (fun b a _ hb => by rw [setPixel_length, hb]) d hd
  have h0 : (List.replicate (4 * (w * h)) 0).length = 4 * (w * h) := List.length_replicate
  refine ⟨foldl_inv _ (fun d : List ℕ => d.length = 4 * (w * h)) _ (fun b a _ hb => inner a b hb) _ h0, ?_⟩
  intro x y hx hy c
  refine foldl_hit _ (fun d : List ℕ => d.length = 4 * (w * h))
    (fun d => pixelBytes d w x y = [some c.r, some c.g, some c.b, some 255]) (List.range w) x (List.mem_range.mpr hx)
    (fun b a _ hb => inner a b hb) ?_ ?_ _ h0
  · intro d hd
    refine foldl_hit _ (fun d : List ℕ => d.length = 4 * (w * h))
      (fun d => pixelBytes d w x y = [some c.r, some c.g, some c.b, some 255]) (List.range h) y (List.mem_range.mpr hy)
      (fun b a _ hb => by rw [setPixel_length, hb]) (fun b hb => setPixel_hit w h x y c b hx hy hb) ?_ d hd
    intro b y' _ _ hq
    by_cases e : y = y'
    · subst e
      exact setPixel_hit w h x y c b hx hy ‹_›
    · rw [setPixel_other w x y x y' _ b hx hx (by simp [e]), hq]
  · intro d x' hx' hd hq
    rw [List.mem_range] at hx'
    by_cases e : x = x'
    · subst e
      refine foldl_hit _ (fun d : List ℕ => d.length = 4 * (w * h))
        (fun d => pixelBytes d w x y = [some c.r, some c.g, some c.b, some 255]) (List.range h) y (List.mem_range.mpr hy)
        (fun b a _ hb => by rw [setPixel_length, hb]) (fun b hb => setPixel_hit w h x y c b hx hy hb) ?_ d hd
      intro b y' _ _ hq
      by_cases e : y = y'
      · subst e
        exact setPixel_hit w h x y c b hx hy ‹_›
      · rw [setPixel_other w x y x y' _ b hx hx (by simp [e]), hq]
    · refine foldl_inv _ (fun d => pixelBytes d w x y = [some c.r, some c.g, some c.b, some 255]) _ ?_ d hq
      intro b y' _ hb
      rw [setPixel_other w x y x' y' _ b hx hx' (by simp [e]), hb]

/-- C121b. The page: for every file the canvas gets one column per frame and 512 rows, the row `y` from the top showing
bin `y` (low frequencies at the top), in the colour the library gives its magnitude relative to the loudest one. -/
theorem page_shows_frames [Flt T] (cfg : Cfg) (par : Option (List ℕ)) (ext : Colormap → T → Rgb) (und : T)
    (samples : List T) (hpar : Spec.validOrder par (divCeil samples.length 512)) :
    ∃ mags mx data, stftMagnitudes cfg par samples 1024 512 = .ok (.ok (mags, mx)) ∧
      showCanvas cfg par ext und samples = some (mags.length, 512, data) ∧ data.length = 4 * (mags.length * 512) ∧
      ∀ x y, x < mags.length → y < 512 →
        let c := colorFromMagnitude8 ext ((mags[x]?.getD []).getD y und) mx (-. Flt.lit 80 0) .rainbow
        pixelBytes data mags.length x y = [some c.r, some c.g, some c.b, some 255] := by
  obtain ⟨mags, mx, flat, e, e2, hl, hv⟩ := (web_stft_flat cfg par samples 1024 512).2.2 (by norm_num) (by norm_num)
    (Or.inr ⟨10, by norm_num⟩) hpar
  obtain ⟨c1, c2⟩ := canvas_pixels (fun m => colorFromMagnitude8 ext m mx (-. Flt.lit 80 0) .rainbow) und flat
    mags.length 512
  refine ⟨mags, mx, _, e, ?_, c1, ?_⟩
  · unfold showCanvas
    rw [e2]
  · intro x y hx hy
    have := c2 x y hx hy
    have e3 : flat.getD (x * 512 + y) und = (mags[x]?.getD []).getD y und := by
      rw [List.getD_eq_getElem?_getD, List.getD_eq_getElem?_getD]
      have := hv x y hx hy
      norm_num at this
      rw [this]
    rw [← e3]
    exact this

end canvas

section webgl
open Spec

/-- C122a. The WebGL renderer: the pixel in column `x`, row `y` from the top shows the value at position
`(height - 1 - y) · width + x` of the array. -/
theorem webgl_pixel (mags : List ℝ) (w h x y : ℕ) (hx : x < w) (hy : y < h) :
    glMag mags w h x y = mags.getD ((h - 1 - y) * w + x) 0 := by
  have hw : (0 : ℝ) < w := by exact_mod_cast (by omega : 0 < w)
  have hh : (0 : ℝ) < h := by exact_mod_cast (by omega : 0 < h)
  unfold glMag texel pixelPos
  have e1 : (2 * ((x : ℝ) + 1 / 2) / w - 1 + 1) / 2 * w = x + 1 / 2 := by field_simp; ring
  have e2 : (1 - 2 * ((y : ℝ) + 1 / 2) / h + 1) / 2 * h = ((h - 1 - y : ℕ) : ℝ) + 1 / 2 := by
    rw [Nat.cast_sub (by omega), Nat.cast_sub (by omega)]
    field_simp
    push_cast
    ring
  have fl : ∀ n : ℕ, ⌊(n : ℝ) + 1 / 2⌋₊ = n := fun n => by
    rw [Nat.floor_eq_iff (by positivity)]
    constructor <;> linarith
  simp only [e1, e2, fl]

/-- C122b. The two renderers show the same values in the same places, for all data, exactly for images of a single
row. (The page uses 512 rows.) -/
theorem renderers_agree_iff (w h : ℕ) (hw : 0 < w) (hh : 0 < h) :
    (∀ mags : List ℝ, mags.length = w * h → ∀ x y, x < w → y < h → glMag mags w h x y = mags.getD (x * h + y) 0) ↔
      h = 1 := by
  constructor
  · intro H
    by_contra hne
    have hlt : (h - 1 - 0) * w + 0 < w * h := by
      have : h - 1 < h := by omega
      calc (h - 1 - 0) * w + 0 = (h - 1) * w := by simp
        _ < h * w := Nat.mul_lt_mul_of_pos_right this hw
        _ = w * h := Nat.mul_comm _ _
    have hpos : 0 < (h - 1 - 0) * w + 0 := by
      have : 0 < h - 1 := by omega
      simpa using Nat.mul_pos this hw
    have := H (List.map (fun i : ℕ => (i : ℝ)) (List.range (w * h))) (by simp) 0 0 hw hh
    rw [webgl_pixel _ _ _ _ _ hw hh] at this
    rw [List.getD_eq_getElem _ _ (by simpa using hlt), List.getD_eq_getElem _ _ (by simp; omega)] at this
    simp only [List.getElem_map, List.getElem_range] at this
    have e : (h - 1 - 0) * w + 0 = 0 * h + 0 := by exact_mod_cast this
    omega
  · rintro rfl mags _ x y hx hy
    rw [webgl_pixel _ _ _ _ _ hx hy]
    have : y = 0 := by omega
    subst this
    simp

variable [F : Flt ℝ]

/-- C122c. For the same level the shader and the library give the same rainbow colour: the library's bytes are the
shader's components times 255, rounded down. -/
theorem shader_rainbow_partial (hF : Lawful F) (ext : Colormap → ℝ → Rgb) (t : ℝ) (h0 : 0 ≤ t) (h1 : t ≤ 1) :
    mapColor8 ext t .rainbow =
      ⟨⌊255 * (glRainbow t).1⌋₊, ⌊255 * (glRainbow t).2.1⌋₊, ⌊255 * (glRainbow t).2.2⌋₊⟩ := by
  obtain ⟨s1, s2, s3, s4, s5⟩ := rainbow_spec hF ext t
  unfold glRainbow mix
  by_cases c1 : t < 1 / 4
  · rw [if_pos c1, s1 h0 c1.le]
    simp only [Rgb.mk.injEq]
    refine ⟨by norm_num, by norm_num, by congr 1; ring⟩
  · rw [if_neg c1]
    by_cases c2 : t < 1 / 2
    · rw [if_pos c2, s2 (by linarith) c2.le]
      simp only [Rgb.mk.injEq]
      refine ⟨by norm_num, by congr 1; ring, ?_⟩
      rw [show 255 * (1 * (1 - (t - 1 / 4) / (1 / 4)) + 1 * ((t - 1 / 4) / (1 / 4))) = ((255 : ℕ) : ℝ) by push_cast; ring,
        Nat.floor_natCast]
    · rw [if_neg c2]
      by_cases c3 : t < 3 / 4
      · rw [if_pos c3, s3 (by linarith) c3.le]
        simp only [Rgb.mk.injEq]
        refine ⟨by congr 1; ring, ?_, by congr 1; ring⟩
        rw [show 255 * (1 * (1 - (t - 1 / 2) / (1 / 4)) + 1 * ((t - 1 / 2) / (1 / 4))) = ((255 : ℕ) : ℝ) by push_cast; ring,
          Nat.floor_natCast]
      · rw [if_neg c3]
        by_cases c4 : t < 9 / 10
        · rw [if_pos c4, s4 (by linarith) c4.le]
          simp only [Rgb.mk.injEq]
          refine ⟨?_, by congr 1; ring, by norm_num⟩
          rw [show 255 * (1 * (1 - (t - 3 / 4) / (15 / 100)) + 1 * ((t - 3 / 4) / (15 / 100))) = ((255 : ℕ) : ℝ) by
            push_cast; ring, Nat.floor_natCast]
        · rw [if_neg c4, s5 (by linarith) h1]
          simp only [Rgb.mk.injEq]
          refine ⟨?_, by congr 1; ring, by congr 1; ring⟩
          rw [show 255 * (1 * (1 - (t - 9 / 10) / (1 / 10)) + 1 * ((t - 9 / 10) / (1 / 10))) = ((255 : ℕ) : ℝ) by
            push_cast; ring, Nat.floor_natCast]

/-- The level at which the library looks up the colour of a magnitude, floor at -80 dB: `1 + (dB / 80)`, between 0
and 1. -/
noncomputable def canvasLevel (mag maxMag : ℝ) : ℝ := max 0 (min (1 + Real.log (mag / maxMag) / Real.log 10 / 4) 1)

/-- ... and it does. -/
theorem canvas_level (hF : Lawful F) (ext : Colormap → ℝ → Rgb) (cmap : Colormap) (mag maxMag : ℝ) (hm : 0 < mag)
    (hx : 0 < maxMag) :
    colorFromMagnitude8 ext mag maxMag (-. Flt.lit 80 0) cmap = mapColor8 ext (canvasLevel mag maxMag) cmap := by
  have key : clampF (F.div (F.sub (magnitudeToDb mag maxMag (F.neg (F.lit 80 0))) (F.neg (F.lit 80 0)))
      (F.neg (F.neg (F.lit 80 0)))) F.zero F.one = canvasLevel mag maxMag := by
    have := clampF_real hF (F.div (F.sub (magnitudeToDb mag maxMag (F.neg (F.lit 80 0))) (F.neg (F.lit 80 0)))
      (F.neg (F.neg (F.lit 80 0))))
    refine this.trans ?_
    rw [magnitudeToDb_real hF, hF.div, hF.sub, hF.neg, hF.neg, hF.lit, if_neg (by push Not; exact ⟨hx, hm⟩)]
    unfold canvasLevel
    generalize Real.log (mag / maxMag) / Real.log 10 = l
    norm_num
    rcases le_total (20 * l) (-80) with h | h
    · rw [max_eq_right h]
      norm_num
      linarith
    · rw [max_eq_left h]
      congr 2
      ring
  have hc : canvasLevel mag maxMag = clampF (canvasLevel mag maxMag) F.zero F.one := by
    have := clampF_real hF (canvasLevel mag maxMag)
    rw [show clampF (canvasLevel mag maxMag) F.zero F.one = _ from this]
    have h0 : 0 ≤ canvasLevel mag maxMag := le_max_left _ _
    have h1 : canvasLevel mag maxMag ≤ 1 := max_le (by norm_num) (min_le_right _ _)
    rw [min_eq_left h1, max_eq_right h0]
  unfold colorFromMagnitude8 mapColor8
  simp only []
  rw [show clampF (canvasLevel mag maxMag) (Flt.zero : ℝ) Flt.one = canvasLevel mag maxMag from hc.symm]
  rw [show clampF ((magnitudeToDb mag maxMag (-. Flt.lit 80 0) -. (-. Flt.lit 80 0)) /. (-. (-. Flt.lit 80 0)))
    (Flt.zero : ℝ) Flt.one = canvasLevel mag maxMag from key]

/-- C121c. The page's own `magnitudeToDb` is the library's with a floor of -240 dB. -/
theorem page_db (hF : Lawful F) (mag maxMag : ℝ) (hm : 0 < mag) (hx : 0 < maxMag) :
    pageDb mag maxMag = magnitudeToDb mag maxMag (-240) := by
  have hr : 0 < mag / maxMag := div_pos hm hx
  have h10 := log10_pos
  have e : Real.log (1 / 10 ^ 12) / Real.log 10 = -12 := by
    rw [Real.log_div (by norm_num) (by norm_num), Real.log_pow, Real.log_one]
    field_simp
    push_cast
    ring
  rw [magnitudeToDb_real hF, if_neg (by push Not; exact ⟨hx, hm⟩), pageDb]
  rcases le_total (mag / maxMag) (1 / 10 ^ 12) with h | h
  · have := div_le_div_of_nonneg_right (Real.log_le_log hr h) h10.le
    rw [max_eq_right h, e, max_eq_right (by linarith)]
    norm_num
  · have := div_le_div_of_nonneg_right (Real.log_le_log (by positivity) h) h10.le
    rw [max_eq_left h, max_eq_left (by linarith)]

omit F in
/-- C122d. The shader takes the natural logarithm where decibels need the decimal one: the levels agree exactly at full
scale and at 80 dB below and under, and everything in between is shown darker. -/
theorem levels_agree_iff (mag maxMag : ℝ) (hm : 0 < mag) (hx : 0 < maxMag) :
    (glLevel mag maxMag = canvasLevel mag maxMag ↔ maxMag ≤ mag ∨ mag ≤ maxMag / 10 ^ 4) ∧
    glLevel mag maxMag ≤ canvasLevel mag maxMag := by
  have hr : 0 < mag / maxMag := div_pos hm hx
  have h10 : 2 < Real.log 10 := by
    have h1 : Real.exp 1 < 2.7182818286 := Real.exp_one_lt_d9
    rw [Real.lt_log_iff_exp_lt (by norm_num), show (2 : ℝ) = 1 + 1 by norm_num, Real.exp_add]
    nlinarith [Real.exp_pos 1]
  have c1 : maxMag ≤ mag ↔ 0 ≤ Real.log (mag / maxMag) := by
    rw [Real.le_log_iff_exp_le hr, Real.exp_zero, one_le_div hx]
  have c2 : mag ≤ maxMag / 10 ^ 4 ↔ Real.log (mag / maxMag) ≤ -4 * Real.log 10 := by
    rw [show -4 * Real.log 10 = Real.log (1 / 10 ^ 4) by
      rw [Real.log_div (by norm_num) (by norm_num), Real.log_pow]; simp]
    rw [Real.log_le_log_iff hr (by positivity), div_le_iff₀ hx]
    constructor <;> intro h <;> (ring_nf at h ⊢; linarith)
  have hlog : Real.log (max (mag / maxMag) (1 / 10 ^ 12)) = max (Real.log (mag / maxMag)) (-12 * Real.log 10) := by
    have e : Real.log (1 / 10 ^ 12) = -12 * Real.log 10 := by
      rw [Real.log_div (by norm_num) (by norm_num), Real.log_pow]; simp
    rcases le_total (mag / maxMag) (1 / 10 ^ 12) with h | h
    · rw [max_eq_right h, e, max_eq_right]
      rw [← e]; exact Real.log_le_log hr h
    · rw [max_eq_left h, max_eq_left]
      rw [← e]; exact Real.log_le_log (by positivity) h
  rw [c1, c2]
  unfold glLevel canvasLevel
  simp only []
  rw [hlog]
  generalize Real.log (mag / maxMag) = L at *
  generalize Real.log 10 = q at *
  have hq : 0 < q := by linarith
  have e1 : (20 * max L (-12 * q) + 80) / 80 = 1 + max L (-12 * q) / 4 := by ring
  rw [e1]
  by_cases hL : 0 ≤ L
  · have m1 : max L (-12 * q) = L := max_eq_left (by linarith)
    have n1 : min (1 + L / 4) 1 = 1 := min_eq_right (by linarith)
    have n2 : min (1 + L / q / 4) 1 = 1 := min_eq_right (by have : 0 ≤ L / q / 4 := by positivity
                                                            linarith)
    rw [m1, n1, n2]
    simp [hL]
  · have hL' : L < 0 := by linarith
    have n2 : min (1 + L / q / 4) 1 = 1 + L / q / 4 := min_eq_left (by
      have : L / q / 4 ≤ 0 := by
        apply div_nonpos_of_nonpos_of_nonneg _ (by norm_num)
        exact div_nonpos_of_nonpos_of_nonneg hL'.le hq.le
      linarith)
    have n1 : min (1 + max L (-12 * q) / 4) 1 = 1 + max L (-12 * q) / 4 := min_eq_left (by
      have : max L (-12 * q) ≤ 0 := max_le hL'.le (by linarith)
      linarith)
    rw [n1, n2]
    have s : L / q * q = L := div_mul_cancel₀ _ hq.ne'
    by_cases h4 : L ≤ -4 * q
    · have a1 : 1 + L / q / 4 ≤ 0 := by
        have : L / q ≤ -4 := by rw [div_le_iff₀ hq]; linarith
        linarith
      have a2 : 1 + max L (-12 * q) / 4 ≤ 0 := by
        have : max L (-12 * q) ≤ -4 := max_le (by linarith) (by linarith)
        linarith
      rw [max_eq_left a1, max_eq_left a2]
      exact ⟨⟨fun _ => Or.inr h4, fun _ => rfl⟩, le_rfl⟩
    · have h4' : -4 * q < L := by linarith
      have b : -4 < L / q := by rw [lt_div_iff₀ hq]; exact h4'
      have a1 : 0 < 1 + L / q / 4 := by linarith
      have m1 : max L (-12 * q) = L := max_eq_left (by linarith)
      have lt : L < L / q := by
        rw [lt_div_iff₀ hq]
        nlinarith
      rw [m1, max_eq_right a1.le]
      have lt2 : max 0 (1 + L / 4) < 1 + L / q / 4 := max_lt a1 (by linarith)
      refine ⟨⟨fun h => absurd h lt2.ne, fun h => ?_⟩, lt2.le⟩
      rcases h with h | h <;> linarith

end webgl

/-! ### Service worker -/
section sw
variable {B : Type}

/-- The most recent `install` event whose requests all succeeded, if any: what the network answered then. -/
def lastInstall : List (Sw.Event B) → Option (String → Option B)
  | [] => none
  | .install net :: es => (lastInstall es).orElse fun _ =>
      if ∀ u, u ∈ Sw.precached → (net u).isSome = true then some net else none
  | .fetch _ _ :: es => lastInstall es

theorem sw_run (c : Sw.Cache B) (h : List (Sw.Event B)) :
    Sw.run c h = match lastInstall h with
      | some net => fun u => if u ∈ Sw.precached then net u else c u
      | none => c := by
  induction h generalizing c with
  | nil => rfl
  | cons e es ih =>
    cases e with
    | fetch url net => exact ih c
    | install net =>
      rw [Sw.run, Sw.step, ih]
      simp only [lastInstall]
      cases hl : lastInstall es with
      | some net' =>
        simp only [Option.orElse_some]
        funext u
        by_cases hu : u ∈ Sw.precached
        · simp [hu]
        · simp only [hu, if_false, Sw.install]
          split <;> simp [hu]
      | none =>
        simp only [Option.orElse_none, Sw.install, List.all_eq_true]
        split <;> rfl

/-- C123a. After any history, starting without a cache: the four files of the page are answered from the last successful
installation, whatever the server has now and whether or not it can be reached; every other address is passed on. -/
theorem sw_answers (h : List (Sw.Event B)) (url : String) (net : String → Option B) :
    (Sw.step (Sw.run (fun _ => none) h) (.fetch url net)).2 =
      match lastInstall h with
      | some inst => if url ∈ Sw.precached then inst url else net url
      | none => net url := by
  simp only [Sw.step, Sw.respond, sw_run]
  cases hl : lastInstall h with
  | none => rfl
  | some inst =>
    simp only []
    by_cases hu : url ∈ Sw.precached
    · have hs : ∀ h : List (Sw.Event B), lastInstall h = some inst → (inst url).isSome := by
        intro h
        induction h with
        | nil => intro e; cases e
        | cons e es ih =>
          cases e with
          | fetch _ _ => exact ih
          | install n =>
            intro e
            simp only [lastInstall] at e
            cases hl : lastInstall es with
            | some n' => rw [hl, Option.orElse_some] at e; exact ih (hl.trans e)
            | none =>
              rw [hl, Option.orElse_none] at e
              split at e
              · rename_i hall
                cases e
                exact hall url hu
              · cases e
      obtain ⟨b, hb⟩ := Option.isSome_iff_exists.mp (hs h hl)
      simp [hu, hb]
    · simp [hu]

/-- C123b. Updates are not seen: fetching never changes the cache, so once installed, the page gets the installed files for
ever unless the worker is installed again. -/
theorem sw_stale (inst : String → Option B) (hall : ∀ u, u ∈ Sw.precached → (inst u).isSome = true)
    (fetches : List (String × (String → Option B))) (url : String) (hu : url ∈ Sw.precached)
    (net : String → Option B) :
    (Sw.step (Sw.run (fun _ => none) (.install inst :: fetches.map fun q => .fetch q.1 q.2)) (.fetch url net)).2 =
      inst url := by
  rw [sw_answers]
  have hf : ∀ l : List (String × (String → Option B)), lastInstall (l.map fun q => Sw.Event.fetch q.1 q.2) = none := by
    intro l
    induction l with
    | nil => rfl
    | cons a l ih => exact ih
  simp only [lastInstall, hf, Option.orElse_none, if_pos hall, if_pos hu]

/-- C123c. The page does not work off line: whatever happened before, the WebAssembly module is not available without the
network. -/
theorem sw_offline_false (h : List (Sw.Event B)) :
    (Sw.step (Sw.run (fun _ => none) h) (.fetch "/pkg/web_spectrogram.js" (fun _ => none))).2 = none := by
  rw [sw_answers]
  cases lastInstall h with
  | none => rfl
  | some inst =>
    simp only []
    rw [if_neg (by decide)]

/-- C123d. What does: after a successful installation the four listed files are available off line. -/
theorem sw_offline_partial (h : List (Sw.Event B)) (inst : String → Option B) (hl : lastInstall h = some inst)
    (url : String) (hu : url ∈ Sw.precached) :
    (Sw.step (Sw.run (fun _ => none) h) (.fetch url (fun _ => none))).2 = inst url := by
  rw [sw_answers, hl]
  simp only [if_pos hu]

/-- A history: an installation, a newer server, a failed second installation. -/
example : (Sw.step (Sw.run (B := ℕ) (fun _ => none) [.install (fun _ => some 1), .fetch "/app.mjs" (fun _ => some 2),
    .install (fun u => if u = "/" then none else some 3)]) (.fetch "/app.mjs" (fun _ => some 4))).2 = some 1 := by
  decide

end sw

/-- A canvas of one frame of two values: two pixels, top to bottom. -/
example : drawCanvas (fun n : ℕ => ⟨n, n + 1, n + 2⟩) 0 [10, 20] 1 2 = [10, 11, 12, 255, 20, 21, 22, 255] := by decide

end Kofft.Props
