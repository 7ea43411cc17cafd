import Verif.Spec.Display
import Verif.Props.PixelFlt
import Verif.Props.MelErr
/-
C109: spectrogram colours in floating point.
-/
namespace Kofft.Props

open Spec

variable {p : ℕ} {w : ℝ}

/-! ### Piecewise linear curves -/

/-- how far `t` has come between `a` and `b` -/
noncomputable def sg (a b t : ℝ) : ℝ := max a (min t b) - a

theorem sg_lip (a b t t' : ℝ) : |sg a b t - sg a b t'| ≤ |t - t'| := by
  unfold sg
  rw [sub_sub_sub_cancel_right]
  exact ((abs_max_sub_max_le_max a (min t b) a (min t' b)).trans (max_le (by simp) le_rfl)).trans
    ((abs_min_sub_min_le_max t b t' b).trans (max_le le_rfl (by simp)))

theorem sg_below {a b t : ℝ} (h : t ≤ a) : sg a b t = 0 := by
  unfold sg; rw [max_eq_left ((min_le_left _ _).trans h), sub_self]

theorem sg_above {a b t : ℝ} (hab : a ≤ b) (h : b ≤ t) : sg a b t = b - a := by
  unfold sg; rw [min_eq_right h, max_eq_right hab]

theorem sg_in {a b t : ℝ} (h1 : a ≤ t) (h2 : t ≤ b) : sg a b t = t - a := by
  unfold sg; rw [min_eq_left h2, max_eq_right h1]

noncomputable def fireR (t : ℝ) : ℝ := 512 * sg 0 (1 / 4) t + 508 * sg (1 / 4) (1 / 2) t
noncomputable def fireG (t : ℝ) : ℝ := 660 * sg (1 / 4) (1 / 2) t + 360 * sg (1 / 2) (3 / 4) t
noncomputable def fireB (t : ℝ) : ℝ := 512 * sg 0 (1 / 4) t - 512 * sg (1 / 4) (1 / 2) t + 1020 * sg (3 / 4) 1 t
noncomputable def rainR (t : ℝ) : ℝ := 1020 * sg (1 / 2) (3 / 4) t
noncomputable def rainG (t : ℝ) : ℝ :=
  1020 * sg (1 / 4) (1 / 2) t - 1700 * sg (3 / 4) (9 / 10) t + 2550 * sg (9 / 10) 1 t
noncomputable def rainB (t : ℝ) : ℝ := 1020 * sg 0 (1 / 4) t - 1020 * sg (1 / 2) (3 / 4) t + 2550 * sg (9 / 10) 1 t

/-! ### Neighbouring integers -/

theorem floor_near {y c : ℝ} (hc : 0 ≤ c) (h : |y - c| < 1) : ⌊y⌋₊ ≤ ⌊c⌋₊ + 1 ∧ ⌊c⌋₊ ≤ ⌊y⌋₊ + 1 := by
  obtain ⟨l, r⟩ := abs_lt.mp h
  constructor
  · rw [← Nat.floor_add_one hc]; exact Nat.floor_le_floor (by linarith)
  · by_cases hy : 0 ≤ y
    · rw [← Nat.floor_add_one hy]; exact Nat.floor_le_floor (by linarith)
    · have : ⌊c⌋₊ = 0 := Nat.floor_eq_zero.mpr (by linarith)
      omega

variable [F : Flt ℝ]

theorem castU8_floor (h : RoundsToNearest p F) (y : ℝ) : castU8 y = ⌊min y 255⌋₊ := by
  unfold castU8
  rw [h.toNat]
  rcases le_total y 255 with h1 | h1
  · rw [min_eq_left h1]
    exact Nat.min_eq_right (Nat.floor_le_of_le (by exact_mod_cast h1))
  · rw [min_eq_right h1, Nat.min_eq_left (Nat.le_floor (by exact_mod_cast h1))]
    norm_num

/-- the byte of a computed value and of an exact one -/
theorem castU8_near (h : RoundsToNearest p F) {y c : ℝ} (h0 : 0 ≤ c) (h1 : c ≤ 255) (hy : |y - c| < 1) :
    castU8 y ≤ ⌊c⌋₊ + 1 ∧ ⌊c⌋₊ ≤ castU8 y + 1 := by
  rw [castU8_floor h]
  refine floor_near h0 (lt_of_le_of_lt ?_ hy)
  have := abs_min_sub_min_le_max y 255 c 255
  rw [min_eq_left h1] at this
  simpa using this

omit F in
theorem eps_le (hp : 20 ≤ p) : (1 : ℝ) / 2 ^ p ≤ 1 / 1000000 := by
  have : (1 : ℝ) / 2 ^ p ≤ 1 / 2 ^ 20 := by
    apply one_div_le_one_div_of_le (by positivity)
    exact pow_le_pow_right₀ (by norm_num) hp
  exact this.trans (by norm_num)

omit F in
/-- an operation, in units of one millionth -/
theorem near6 (hp : 20 ≤ p) {x y M : ℝ} (h : Nearest p x y) (hM : |x| ≤ M) : |y - x| ≤ 1 / 1000000 * M := by
  have h1 := nearest_close (by omega) h
  have h0 := abs_nonneg x
  have := mul_le_mul (eps_le hp) hM h0 (by norm_num)
  linarith

theorem lerp_close (hp : 20 ≤ p) (h : RoundsToNearest p F) (a b : ℕ) (ha : a ≤ 255) (hb : b ≤ 255) {x x' η : ℝ}
    (hx0 : 0 ≤ x) (hx1 : x ≤ 1) (hη : η ≤ 1) (hx : |x' - x| ≤ η) :
    ∃ y, lerpU8 a b x' = castU8 y ∧ |y - (a + (b - a) * x)| ≤ 255 * η + 1 / 100 := by
  have p8 : 256 ≤ 2 ^ p := le_trans (by norm_num) (Nat.pow_le_pow_right (by norm_num) (show 8 ≤ p by omega))
  have ea : F.ofNatD a = a := nearest_exact (repr_nat a (by omega)) (h.ofNatD a)
  have eb : F.ofNatD b = b := nearest_exact (repr_nat b (by omega)) (h.ofNatD b)
  have es : F.sub b a = (b : ℝ) - a := by
    have hr : IsRepr p ((b : ℝ) - a) := by
      have : |((b : ℤ) - a)| < 2 ^ p := by
        have e : (256 : ℤ) ≤ 2 ^ p := by exact_mod_cast p8
        rw [abs_lt]; constructor <;> omega
      simpa using repr_int ((b : ℤ) - a) this
    exact nearest_exact hr (h.sub _ _)
  refine ⟨_, by unfold lerpU8; rfl, ?_⟩
  rw [ea, eb, es]
  have ha' : (a : ℝ) ≤ 255 := by exact_mod_cast ha
  have hb' : (b : ℝ) ≤ 255 := by exact_mod_cast hb
  have ha0 : (0 : ℝ) ≤ a := Nat.cast_nonneg a
  have hb0 : (0 : ℝ) ≤ b := Nat.cast_nonneg b
  set D : ℝ := (b : ℝ) - a
  have hD : |D| ≤ 255 := abs_le.mpr ⟨by simp only [D]; linarith, by simp only [D]; linarith⟩
  have hη0 : 0 ≤ η := (abs_nonneg _).trans hx
  have hx' : |x'| ≤ 2 := by
    obtain ⟨l, r⟩ := abs_le.mp hx
    exact abs_le.mpr ⟨by linarith, by linarith⟩
  have m1 : |D * x'| ≤ 510 := by
    rw [abs_mul]
    calc |D| * |x'| ≤ 255 * 2 := mul_le_mul hD hx' (abs_nonneg _) (by norm_num)
      _ = 510 := by norm_num
  have e1 := near6 hp (h.mul D x') m1
  have m2 : |(a : ℝ) + F.mul D x'| ≤ 1000 := by
    have := abs_le.mp m1
    have := abs_le.mp e1
    rw [abs_le]; constructor <;> linarith
  have e2 := near6 hp (h.add a (F.mul D x')) m2
  have e3 : |D * x' - D * x| ≤ 255 * η := by
    rw [← mul_sub, abs_mul]
    exact mul_le_mul hD hx (abs_nonneg _) (by norm_num)
  have := abs_le.mp e1
  have := abs_le.mp e2
  have := abs_le.mp e3
  show |F.add a (F.mul D x') - (a + D * x)| ≤ _
  rw [abs_le]; constructor <;> linarith

/-- the position inside a segment -/
theorem loc_close (hp : 20 ≤ p) (h : RoundsToNearest p F) {s e t : ℝ} (hse : 1 / 11 ≤ e - s) (hs : s ≤ t)
    (ht : t ≤ e) : |F.div (F.sub t s) (F.sub e s) - (t - s) / (e - s)| ≤ 4 / 1000000 := by
  have hd : 0 < e - s := by linarith
  have c1 := nearest_close (by omega) (h.sub t s)
  have c2 := nearest_close (by omega) (h.sub e s)
  rw [abs_of_nonneg (a := t - s) (by linarith)] at c1
  rw [abs_of_pos (a := e - s) hd] at c2
  have hu := eps_le hp
  have hu0 : (0 : ℝ) ≤ 1 / 2 ^ p := by positivity
  generalize (1 : ℝ) / 2 ^ p = u at *
  set A := F.sub t s
  set B := F.sub e s
  obtain ⟨l1, r1⟩ := abs_le.mp c1
  obtain ⟨l2, r2⟩ := abs_le.mp c2
  have ts0 : 0 ≤ t - s := by linarith
  have ts : t - s ≤ e - s := by linarith
  have hB : (1 - u) * (e - s) ≤ B := by linarith
  have hB0 : 0 < B := lt_of_lt_of_le (mul_pos (by linarith) hd) hB
  have hA0 : 0 ≤ A := by nlinarith
  have key : |A / B - (t - s) / (e - s)| ≤ 5 / 2000000 := by
    rw [div_sub_div _ _ hB0.ne' hd.ne', abs_div, abs_of_pos (mul_pos hB0 hd), div_le_iff₀ (mul_pos hB0 hd)]
    have e1 : A * (e - s) - B * (t - s) = (A - (t - s)) * (e - s) - (B - (e - s)) * (t - s) := by ring
    have b1 : |A * (e - s) - B * (t - s)| ≤ 2 * u * (e - s) * (e - s) := by
      rw [e1]
      refine (abs_sub _ _).trans ?_
      rw [abs_mul, abs_mul, abs_of_pos hd, abs_of_nonneg ts0]
      have q1 := mul_le_mul_of_nonneg_right c1 hd.le
      have q2 := mul_le_mul c2 ts ts0 (mul_nonneg hu0 hd.le)
      have q3 : u * (t - s) * (e - s) ≤ u * (e - s) * (e - s) := by gcongr
      linarith
    refine b1.trans ?_
    have q : 2 * u ≤ 5 / 2000000 * (1 - u) := by linarith
    calc 2 * u * (e - s) * (e - s) ≤ 5 / 2000000 * (1 - u) * (e - s) * (e - s) := by gcongr
      _ = 5 / 2000000 * (((1 - u) * (e - s)) * (e - s)) := by ring
      _ ≤ 5 / 2000000 * (B * (e - s)) := by gcongr
  have bd : |A / B| ≤ 11 / 10 := by
    have : (t - s) / (e - s) ≤ 1 := (div_le_one hd).mpr ts
    have := abs_le.mp key
    have h3 : 0 ≤ A / B := div_nonneg hA0 hB0.le
    rw [abs_of_nonneg h3]
    linarith
  have e3 := near6 hp (h.div A B hB0.ne') bd
  have := abs_le.mp key
  have := abs_le.mp e3
  rw [abs_le]; constructor <;> linarith


theorem clampF_rnd (h : Display p F w) (x : ℝ) : clampF x Flt.zero Flt.one = max 0 (min x 1) := by
  unfold clampF
  rw [h.zero, h.one]
  by_cases h0 : x < 0
  · rw [if_pos ((h.lt _ _).2 h0), max_eq_left]
    exact (min_le_left _ _).trans h0.le
  · rw [if_neg (by rw [h.lt]; exact h0)]
    by_cases h1 : 1 < x
    · rw [if_pos ((h.lt _ _).2 h1), min_eq_right h1.le]; norm_num
    · rw [if_neg (by rw [h.lt]; exact h1), min_eq_left (not_lt.mp h1), max_eq_right (not_lt.mp h0)]

theorem lit_exact (h : Display p F w) {m : ℤ} {e : ℕ} (k j : ℤ) (hk : |k| < 2 ^ p) (hv : (m : ℝ) / 10 ^ e = k * (2 : ℝ) ^ j) :
    F.lit m e = k * (2 : ℝ) ^ j := by
  have := h.lit m e
  rw [hv] at this
  exact nearest_exact ⟨k, j, hk, rfl⟩ this

theorem two_pow_8 (hp : 20 ≤ p) : (1024 : ℤ) ≤ 2 ^ p := by
  have := Nat.pow_le_pow_right (show 0 < 2 by norm_num) (show 10 ≤ p by omega)
  exact_mod_cast this

theorem quarter_lits (hp : 20 ≤ p) (h : Display p F w) : F.lit 25 2 = 1 / 4 ∧ F.lit 5 1 = 1 / 2 ∧ F.lit 75 2 = 3 / 4 := by
  have hb := two_pow_8 hp
  refine ⟨?_, ?_, ?_⟩
  · rw [lit_exact h 1 (-2) (by norm_num; omega) (by norm_num)]; norm_num
  · rw [lit_exact h 1 (-1) (by norm_num; omega) (by norm_num)]; norm_num
  · rw [lit_exact h 3 (-2) (by norm_num; omega) (by norm_num)]; norm_num

theorem int_lit (hp : 20 ≤ p) (h : Display p F w) (m : ℕ) (hm : m ≤ 255) : F.lit (m : ℤ) 0 = m := by
  have hb := two_pow_8 hp
  rw [lit_exact h (m : ℤ) 0 (by rw [abs_of_nonneg (by omega)]; omega) (by norm_num)]; simp

/-- one component of a segment -/
theorem seg_close (hp : 20 ≤ p) (h : RoundsToNearest p F) {s e t : ℝ} (hse : 1 / 11 ≤ e - s) (hs : s ≤ t) (ht : t ≤ e)
    (a b : ℕ) (ha : a ≤ 255) (hb : b ≤ 255) {c : ℝ} (hc : |a + (b - a) * ((t - s) / (e - s)) - c| ≤ 1 / 50) :
    ∃ y, lerpU8 a b (F.div (F.sub t s) (F.sub e s)) = castU8 y ∧ |y - c| ≤ 1 / 20 := by
  have hd : 0 < e - s := by linarith
  obtain ⟨y, hy, hy'⟩ := lerp_close hp h a b ha hb (x := (t - s) / (e - s)) (div_nonneg (by linarith) hd.le)
    ((div_le_one hd).mpr (by linarith)) (η := 4 / 1000000) (by norm_num) (loc_close hp h hse hs ht)
  refine ⟨y, hy, ?_⟩
  have := abs_le.mp hy'
  have := abs_le.mp hc
  rw [abs_le]; constructor <;> linarith

/-- What a rounded palette returns: three values near the curves, cast to bytes. -/
def Near3 (c : Rgb) (r g b : ℝ) : Prop :=
  ∃ y1 y2 y3 : ℝ, c = ⟨castU8 y1, castU8 y2, castU8 y3⟩ ∧ |y1 - r| ≤ 1 / 20 ∧ |y2 - g| ≤ 1 / 20 ∧ |y3 - b| ≤ 1 / 20

theorem lerpRgb_near (hp : 20 ≤ p) (h : RoundsToNearest p F) {s e t : ℝ} (hse : 1 / 11 ≤ e - s) (hs : s ≤ t) (ht : t ≤ e)
    (a b : Rgb) (ha : a.r ≤ 255 ∧ a.g ≤ 255 ∧ a.b ≤ 255) (hb : b.r ≤ 255 ∧ b.g ≤ 255 ∧ b.b ≤ 255) {r g l : ℝ}
    (hr : |a.r + ((b.r : ℝ) - a.r) * ((t - s) / (e - s)) - r| ≤ 1 / 50)
    (hg : |a.g + ((b.g : ℝ) - a.g) * ((t - s) / (e - s)) - g| ≤ 1 / 50)
    (hl : |a.b + ((b.b : ℝ) - a.b) * ((t - s) / (e - s)) - l| ≤ 1 / 50) :
    Near3 (lerpRgb a b (F.div (F.sub t s) (F.sub e s))) r g l := by
  obtain ⟨y1, e1, h1⟩ := seg_close hp h hse hs ht _ _ ha.1 hb.1 hr
  obtain ⟨y2, e2, h2⟩ := seg_close hp h hse hs ht _ _ ha.2.1 hb.2.1 hg
  obtain ⟨y3, e3, h3⟩ := seg_close hp h hse hs ht _ _ ha.2.2 hb.2.2 hl
  exact ⟨y1, y2, y3, by unfold lerpRgb; rw [e1, e2, e3], h1, h2, h3⟩

theorem fire_near (hp : 20 ≤ p) (h : Display p F w) {t : ℝ} (h0 : 0 ≤ t) (h1 : t ≤ 1) :
    Near3 (fireColor t) (fireR t) (fireG t) (fireB t) := by
  obtain ⟨q1, q2, q3⟩ := quarter_lits hp h
  have le' : ∀ a b : ℝ, (Flt.le a b = true) = (a ≤ b) := fun a b => propext (h.le a b)
  have st : (fireStops : List (ℝ × Rgb)) =
      [(0, ⟨0, 0, 0⟩), (1 / 4, ⟨128, 0, 128⟩), (1 / 2, ⟨255, 165, 0⟩), (3 / 4, ⟨255, 255, 0⟩), (1, ⟨255, 255, 255⟩)] := by
    simp only [fireStops, h.zero, h.one, q1, q2, q3]
  unfold fireColor fireR fireG fireB
  rw [st]
  rcases le_or_gt t (1 / 4) with c1 | c1
  · rw [show findStop t _ = some ((0, ⟨0, 0, 0⟩), (1 / 4, ⟨128, 0, 128⟩)) by
      rw [findStop]; simp only [le']; rw [if_pos ⟨h0, c1⟩]]
    rw [sg_in h0 c1, sg_below c1, sg_below (a := 1 / 2) (by linarith), sg_below (a := 3 / 4) (by linarith)]
    refine lerpRgb_near hp h.toRoundsToNearest (by norm_num) h0 c1 _ _ (by simp) (by simp) ?_ ?_ ?_ <;>
      (refine abs_le.mpr ⟨?_, ?_⟩ <;> norm_num <;> linarith)
  rcases le_or_gt t (1 / 2) with c2 | c2
  · rw [show findStop t _ = some ((1 / 4, ⟨128, 0, 128⟩), (1 / 2, ⟨255, 165, 0⟩)) by
      rw [findStop, findStop]; simp only [le']; rw [if_neg (by push Not; intro; linarith), if_pos ⟨c1.le, c2⟩]]
    rw [sg_above (a := 0) (b := 1 / 4) (by norm_num) c1.le, sg_in c1.le c2, sg_below (a := 1 / 2) c2,
      sg_below (a := 3 / 4) (by linarith)]
    refine lerpRgb_near hp h.toRoundsToNearest (by norm_num) c1.le c2 _ _ (by simp) (by simp) ?_ ?_ ?_ <;>
      (refine abs_le.mpr ⟨?_, ?_⟩ <;> norm_num <;> linarith)
  rcases le_or_gt t (3 / 4) with c3 | c3
  · rw [show findStop t _ = some ((1 / 2, ⟨255, 165, 0⟩), (3 / 4, ⟨255, 255, 0⟩)) by
      rw [findStop, findStop, findStop]; simp only [le']
      rw [if_neg (by push Not; intro; linarith), if_neg (by push Not; intro; linarith), if_pos ⟨c2.le, c3⟩]]
    rw [sg_above (a := 0) (b := 1 / 4) (by norm_num) c1.le, sg_above (a := 1 / 4) (b := 1 / 2) (by norm_num) c2.le,
      sg_in c2.le c3, sg_below (a := 3 / 4) c3]
    refine lerpRgb_near hp h.toRoundsToNearest (by norm_num) c2.le c3 _ _ (by simp) (by simp) ?_ ?_ ?_ <;>
      (refine abs_le.mpr ⟨?_, ?_⟩ <;> norm_num <;> linarith)
  · rw [show findStop t _ = some ((3 / 4, ⟨255, 255, 0⟩), (1, ⟨255, 255, 255⟩)) by
      rw [findStop, findStop, findStop, findStop]; simp only [le']
      rw [if_neg (by push Not; intro; linarith), if_neg (by push Not; intro; linarith),
        if_neg (by push Not; intro; linarith), if_pos ⟨c3.le, h1⟩]]
    rw [sg_above (a := 0) (b := 1 / 4) (by norm_num) c1.le, sg_above (a := 1 / 4) (b := 1 / 2) (by norm_num) c2.le,
      sg_above (a := 1 / 2) (b := 3 / 4) (by norm_num) c3.le, sg_in c3.le h1]
    refine lerpRgb_near hp h.toRoundsToNearest (by norm_num) c3.le h1 _ _ (by simp) (by simp) ?_ ?_ ?_ <;>
      (refine abs_le.mpr ⟨?_, ?_⟩ <;> norm_num <;> linarith)

theorem legacy_near (hp : 20 ≤ p) (h : Display p F w) {t : ℝ} (h0 : 0 ≤ t) (h1 : t ≤ 1) (a : ℕ) (ha : a ≤ 255) :
    |F.add (F.mul (F.lit 64 0) (F.sub F.one t)) (F.mul (F.lit a 0) t) - (64 + (a - 64) * t)| ≤ 1 / 20 ∧
    |F.mul (F.lit a 0) t - a * t| ≤ 1 / 20 := by
  have e64 : F.lit 64 0 = 64 := by simpa using int_lit hp h 64 (by norm_num)
  rw [e64, int_lit hp h a ha, h.one]
  have ha' : (a : ℝ) ≤ 255 := by exact_mod_cast ha
  have ha0 : (0 : ℝ) ≤ a := Nat.cast_nonneg a
  have m0 : |1 - t| ≤ 1 := abs_le.mpr ⟨by linarith, by linarith⟩
  have e0 := abs_le.mp (near6 hp (h.sub 1 t) m0)
  have m1 : |64 * F.sub 1 t| ≤ 100 := abs_le.mpr ⟨by linarith [abs_le.mp m0], by linarith [abs_le.mp m0]⟩
  have e1 := abs_le.mp (near6 hp (h.mul 64 (F.sub 1 t)) m1)
  have at0 : 0 ≤ a * t := mul_nonneg ha0 h0
  have at1 : a * t ≤ 255 := by nlinarith
  have m2 : |a * t| ≤ 255 := abs_le.mpr ⟨by linarith, at1⟩
  have e2 := abs_le.mp (near6 hp (h.mul a t) m2)
  have m3 : |F.mul 64 (F.sub 1 t) + F.mul a t| ≤ 400 :=
    abs_le.mpr ⟨by linarith [abs_le.mp m0], by linarith [abs_le.mp m0]⟩
  have e3 := abs_le.mp (near6 hp (h.add (F.mul 64 (F.sub 1 t)) (F.mul a t)) m3)
  constructor <;> rw [abs_le] <;> constructor <;> linarith

theorem gray_near (hp : 20 ≤ p) (h : Display p F w) {t : ℝ} (h0 : 0 ≤ t) (h1 : t ≤ 1) :
    ∃ y, castU8 (F.round (F.mul t (F.lit 255 0))) = castU8 y ∧ |y - (255 * t + 1 / 2)| ≤ 1 / 20 := by
  have e : F.lit 255 0 = 255 := by simpa using int_lit hp h 255 (by norm_num)
  rw [e]
  have hm : 0 ≤ F.mul t 255 := le_nearest (h.mul t 255) repr_zero (by positivity)
  have m : |t * 255| ≤ 255 := abs_le.mpr ⟨by linarith, by linarith⟩
  have e2 := abs_le.mp (near6 hp (h.mul t 255) m)
  refine ⟨F.mul t 255 + 1 / 2, ?_, ?_⟩
  · rw [h.round _ hm]
    unfold castU8
    rw [h.toNat, h.toNat, ← Int.floor_toNat, Int.floor_intCast, Int.floor_toNat]
  · rw [abs_le]; constructor <;> linarith


theorem rainbow_near (hp : 20 ≤ p) (h : Display p F w) {t : ℝ} (h0 : 0 ≤ t) (h1 : t ≤ 1) :
    Near3 (rainbowColor t) (rainR t) (rainG t) (rainB t) := by
  obtain ⟨q1, q2, q3⟩ := quarter_lits hp h
  have lt' : ∀ a b : ℝ, (Flt.lt a b = true) = (a < b) := fun a b => propext (h.lt a b)
  have hq := near6 hp (h.lit 9 1) (M := 1) (by norm_num [abs_le])
  have st : (rainbowStops : List (ℝ × Rgb)) =
      [(0, ⟨0, 0, 0⟩), (1 / 4, ⟨0, 0, 255⟩), (1 / 2, ⟨0, 255, 255⟩), (3 / 4, ⟨255, 255, 0⟩), (F.lit 9 1, ⟨255, 0, 0⟩),
      (1, ⟨255, 255, 255⟩)] := by
    simp only [rainbowStops, h.zero, h.one, q1, q2, q3]
  unfold rainbowColor rainR rainG rainB
  rw [st]
  generalize F.lit 9 1 = q at hq ⊢
  obtain ⟨ql, qr⟩ := abs_le.mp hq
  norm_num at ql qr
  clear st hq
  rcases le_or_gt t (1 / 4) with c1 | c1
  · rw [rainbowFind]; simp only [lt']; rw [if_neg (by linarith)]
    simp only []
    rw [if_pos (by norm_num)]
    rw [sg_in h0 c1, sg_below (a := 1 / 4) c1, sg_below (a := 1 / 2) (by linarith), sg_below (a := 3 / 4) (by linarith),
      sg_below (a := 9 / 10) (by linarith)]
    refine lerpRgb_near hp h.toRoundsToNearest (by norm_num) h0 c1 _ _ (by simp) (by simp) ?_ ?_ ?_ <;>
      (refine abs_le.mpr ⟨?_, ?_⟩ <;> norm_num <;> linarith)
  rcases le_or_gt t (1 / 2) with c2 | c2
  · rw [rainbowFind, rainbowFind]; simp only [lt']; rw [if_pos c1, if_neg (by linarith)]
    simp only []
    rw [if_pos (by norm_num)]
    rw [sg_above (a := 0) (b := 1 / 4) (by norm_num) c1.le, sg_in c1.le c2, sg_below (a := 1 / 2) c2,
      sg_below (a := 3 / 4) (by linarith), sg_below (a := 9 / 10) (by linarith)]
    refine lerpRgb_near hp h.toRoundsToNearest (by norm_num) c1.le c2 _ _ (by simp) (by simp) ?_ ?_ ?_ <;>
      (refine abs_le.mpr ⟨?_, ?_⟩ <;> norm_num <;> linarith)
  rcases le_or_gt t (3 / 4) with c3 | c3
  · rw [rainbowFind, rainbowFind, rainbowFind]; simp only [lt']
    rw [if_pos c1, if_pos c2, if_neg (by linarith)]
    simp only []
    rw [if_pos (by norm_num)]
    rw [sg_above (a := 0) (b := 1 / 4) (by norm_num) c1.le, sg_above (a := 1 / 4) (b := 1 / 2) (by norm_num) c2.le,
      sg_in c2.le c3, sg_below (a := 3 / 4) c3, sg_below (a := 9 / 10) (by linarith)]
    refine lerpRgb_near hp h.toRoundsToNearest (by norm_num) c2.le c3 _ _ (by simp) (by simp) ?_ ?_ ?_ <;>
      (refine abs_le.mpr ⟨?_, ?_⟩ <;> norm_num <;> linarith)
  rw [sg_above (a := 0) (b := 1 / 4) (by norm_num) c1.le, sg_above (a := 1 / 4) (b := 1 / 2) (by norm_num) c2.le,
    sg_above (a := 1 / 2) (b := 3 / 4) (by norm_num) c3.le]
  rcases le_or_gt t q with c4 | c4
  · rw [rainbowFind, rainbowFind, rainbowFind, rainbowFind]; simp only [lt']
    rw [if_pos c1, if_pos c2, if_pos c3, if_neg (by linarith)]
    simp only []
    rw [if_pos (by linarith)]
    have hz : (t - 3 / 4) / (q - 3 / 4) * (q - 3 / 4) = t - 3 / 4 := div_mul_cancel₀ _ (by linarith)
    have z0 : 0 ≤ (t - 3 / 4) / (q - 3 / 4) := div_nonneg (by linarith) (by linarith)
    have z1 : (t - 3 / 4) / (q - 3 / 4) ≤ 1 := (div_le_one (by linarith)).mpr (by linarith)
    have hG : |255 - 255 * ((t - 3 / 4) / (q - 3 / 4)) -
        (1020 * (1 / 2 - 1 / 4) - 1700 * sg (3 / 4) (9 / 10) t + 2550 * sg (9 / 10) 1 t)| ≤ 1 / 50 ∧
        sg (9 / 10) 1 t ≤ 1 / 1000000 ∧ 0 ≤ sg (9 / 10) 1 t := by
      generalize (t - 3 / 4) / (q - 3 / 4) = z at *
      rcases le_or_gt t (9 / 10) with c5 | c5
      · rw [sg_in c3.le c5, sg_below c5]
        refine ⟨?_, by norm_num, le_rfl⟩
        have d1 : z * (q - 9 / 10) ≤ 1 / 1000000 := by nlinarith
        have d2 : -(1 / 1000000) ≤ z * (q - 9 / 10) := by nlinarith
        rw [abs_le]; constructor <;> linarith
      · rw [sg_above (by norm_num) c5.le, sg_in c5.le h1]
        refine ⟨?_, by linarith, by linarith⟩
        have d1 : 1 - z ≤ 1 / 100000 := by nlinarith
        rw [abs_le]; constructor <;> linarith
    obtain ⟨hG, s1, s2⟩ := hG
    refine lerpRgb_near hp h.toRoundsToNearest (by linarith) c3.le c4 _ _ (by simp) (by simp) ?_ ?_ ?_
    · refine abs_le.mpr ⟨?_, ?_⟩ <;> norm_num
    · refine le_trans (le_of_eq ?_) hG
      congr 1; push_cast; ring
    · refine abs_le.mpr ⟨?_, ?_⟩ <;> norm_num <;> linarith
  · rw [rainbowFind, rainbowFind, rainbowFind, rainbowFind, rainbowFind]; simp only [lt']
    rw [if_pos c1, if_pos c2, if_pos c3, if_pos c4, if_neg (by linarith)]
    simp only []
    rw [if_pos (by linarith)]
    have hz : (t - q) / (1 - q) * (1 - q) = t - q := div_mul_cancel₀ _ (by linarith)
    have z0 : 0 ≤ (t - q) / (1 - q) := div_nonneg (by linarith) (by linarith)
    have z1 : (t - q) / (1 - q) ≤ 1 := (div_le_one (by linarith)).mpr (by linarith)
    have hG : |255 * ((t - q) / (1 - q)) -
        (1020 * (1 / 2 - 1 / 4) - 1700 * sg (3 / 4) (9 / 10) t + 2550 * sg (9 / 10) 1 t)| ≤ 1 / 50 ∧
        |255 * ((t - q) / (1 - q)) - 2550 * sg (9 / 10) 1 t| ≤ 1 / 50 := by
      generalize (t - q) / (1 - q) = z at *
      rcases le_or_gt t (9 / 10) with c5 | c5
      · rw [sg_in c3.le c5, sg_below c5]
        have d1 : z ≤ 1 / 50000 := by nlinarith
        constructor <;> rw [abs_le] <;> constructor <;> linarith
      · rw [sg_above (by norm_num) c5.le, sg_in c5.le h1]
        have d1 : z * (q - 9 / 10) ≤ 1 / 1000000 := by nlinarith
        have d2 : -(1 / 1000000) ≤ z * (q - 9 / 10) := by nlinarith
        constructor <;> rw [abs_le] <;> constructor <;> linarith
    refine lerpRgb_near hp h.toRoundsToNearest (by linarith) c4.le h1 _ _ (by simp) (by simp) ?_ ?_ ?_
    · refine abs_le.mpr ⟨?_, ?_⟩ <;> norm_num
    · refine le_trans (le_of_eq ?_) hG.1
      congr 1; push_cast; ring
    · refine le_trans (le_of_eq ?_) hG.2
      congr 1; push_cast; ring


/-! ### The exact colours -/

def Byte (x : ℝ) : Prop := 0 ≤ x ∧ x ≤ 255

omit F in
theorem fire_exact {G : Flt ℝ} (hG : Lawful G) (ext : Colormap → ℝ → Rgb) {t : ℝ} (h0 : 0 ≤ t) (h1 : t ≤ 1) :
    @mapColor8 ℝ G ext t .fire = ⟨⌊fireR t⌋₊, ⌊fireG t⌋₊, ⌊fireB t⌋₊⟩ ∧ Byte (fireR t) ∧ Byte (fireG t) ∧ Byte (fireB t) := by
  obtain ⟨s1, s2, s3, s4⟩ := fire_spec (F := G) hG ext t
  unfold fireR fireG fireB Byte
  rcases le_total t (1 / 4) with c1 | c1
  · rw [s1 h0 c1, sg_in h0 c1, sg_below c1, sg_below (a := 1 / 2) (by linarith), sg_below (a := 3 / 4) (by linarith)]
    refine ⟨?_, ⟨by linarith, by linarith⟩, ⟨by linarith, by linarith⟩, ⟨by linarith, by linarith⟩⟩
    simp
  rcases le_total t (1 / 2) with c2 | c2
  · rw [s2 c1 c2, sg_above (a := 0) (b := 1 / 4) (by norm_num) c1, sg_in c1 c2, sg_below (a := 1 / 2) c2,
      sg_below (a := 3 / 4) (by linarith)]
    refine ⟨?_, ⟨by linarith, by linarith⟩, ⟨by linarith, by linarith⟩, ⟨by linarith, by linarith⟩⟩
    simp only [Rgb.mk.injEq]
    refine ⟨by congr 1; ring, by congr 1; ring, by congr 1; ring⟩
  rcases le_total t (3 / 4) with c3 | c3
  · rw [s3 c2 c3, sg_above (a := 0) (b := 1 / 4) (by norm_num) c1, sg_above (a := 1 / 4) (b := 1 / 2) (by norm_num) c2,
      sg_in c2 c3, sg_below (a := 3 / 4) c3]
    refine ⟨?_, ⟨by linarith, by linarith⟩, ⟨by linarith, by linarith⟩, ⟨by linarith, by linarith⟩⟩
    simp only [Rgb.mk.injEq]
    refine ⟨by norm_num, by congr 1; ring, by norm_num⟩
  · rw [s4 c3 h1, sg_above (a := 0) (b := 1 / 4) (by norm_num) c1, sg_above (a := 1 / 4) (b := 1 / 2) (by norm_num) c2,
      sg_above (a := 1 / 2) (b := 3 / 4) (by norm_num) c3, sg_in c3 h1]
    refine ⟨?_, ⟨by linarith, by linarith⟩, ⟨by linarith, by linarith⟩, ⟨by linarith, by linarith⟩⟩
    simp only [Rgb.mk.injEq]
    refine ⟨by norm_num, by norm_num, by congr 1; ring⟩

omit F in
theorem rainbow_exact {G : Flt ℝ} (hG : Lawful G) (ext : Colormap → ℝ → Rgb) {t : ℝ} (h0 : 0 ≤ t) (h1 : t ≤ 1) :
    @mapColor8 ℝ G ext t .rainbow = ⟨⌊rainR t⌋₊, ⌊rainG t⌋₊, ⌊rainB t⌋₊⟩ ∧ Byte (rainR t) ∧ Byte (rainG t) ∧
      Byte (rainB t) := by
  obtain ⟨s1, s2, s3, s4, s5⟩ := rainbow_spec (F := G) hG ext t
  unfold rainR rainG rainB Byte
  rcases le_total t (1 / 4) with c1 | c1
  · rw [s1 h0 c1, sg_in h0 c1, sg_below (a := 1 / 4) c1, sg_below (a := 1 / 2) (by linarith),
      sg_below (a := 3 / 4) (by linarith), sg_below (a := 9 / 10) (by linarith)]
    refine ⟨?_, ⟨by linarith, by linarith⟩, ⟨by linarith, by linarith⟩, ⟨by linarith, by linarith⟩⟩
    simp
  rcases le_total t (1 / 2) with c2 | c2
  · rw [s2 c1 c2, sg_above (a := 0) (b := 1 / 4) (by norm_num) c1, sg_in c1 c2, sg_below (a := 1 / 2) c2,
      sg_below (a := 3 / 4) (by linarith), sg_below (a := 9 / 10) (by linarith)]
    refine ⟨?_, ⟨by linarith, by linarith⟩, ⟨by linarith, by linarith⟩, ⟨by linarith, by linarith⟩⟩
    simp only [Rgb.mk.injEq]
    refine ⟨by norm_num, by congr 1; ring, by norm_num⟩
  rcases le_total t (3 / 4) with c3 | c3
  · rw [s3 c2 c3, sg_above (a := 0) (b := 1 / 4) (by norm_num) c1, sg_above (a := 1 / 4) (b := 1 / 2) (by norm_num) c2,
      sg_in c2 c3, sg_below (a := 3 / 4) c3, sg_below (a := 9 / 10) (by linarith)]
    refine ⟨?_, ⟨by linarith, by linarith⟩, ⟨by linarith, by linarith⟩, ⟨by linarith, by linarith⟩⟩
    simp only [Rgb.mk.injEq]
    refine ⟨by congr 1; ring, by norm_num, by congr 1; ring⟩
  rw [sg_above (a := 0) (b := 1 / 4) (by norm_num) c1, sg_above (a := 1 / 4) (b := 1 / 2) (by norm_num) c2,
    sg_above (a := 1 / 2) (b := 3 / 4) (by norm_num) c3]
  rcases le_total t (9 / 10) with c4 | c4
  · rw [s4 c3 c4, sg_in c3 c4, sg_below (a := 9 / 10) c4]
    refine ⟨?_, ⟨by linarith, by linarith⟩, ⟨by linarith, by linarith⟩, ⟨by linarith, by linarith⟩⟩
    simp only [Rgb.mk.injEq]
    refine ⟨by norm_num, by congr 1; ring, by norm_num⟩
  · rw [s5 c4 h1, sg_above (a := 3 / 4) (b := 9 / 10) (by norm_num) c4, sg_in c4 h1]
    refine ⟨?_, ⟨by linarith, by linarith⟩, ⟨by linarith, by linarith⟩, ⟨by linarith, by linarith⟩⟩
    simp only [Rgb.mk.injEq]
    refine ⟨by norm_num, by congr 1; ring, by congr 1; ring⟩

theorem near_floor (h : RoundsToNearest p F) {y c c' : ℝ} (hb : Byte c') (hy : |y - c| ≤ 1 / 20) (hc : |c - c'| ≤ 9 / 10) :
    castU8 y ≤ ⌊c'⌋₊ + 1 ∧ ⌊c'⌋₊ ≤ castU8 y + 1 := by
  refine castU8_near h hb.1 hb.2 ?_
  have := abs_le.mp hy
  have := abs_le.mp hc
  rw [abs_lt]; constructor <;> linarith

omit F in
/-- C109a. A palette computed in floating point, at a position off by at most a ten-thousandth of the range, gives
each component of the exact colour up to one unit. -/
theorem colour_close {G : Flt ℝ} (hG : Lawful G) [F : Flt ℝ] (hp : 20 ≤ p) (h : Display p F w) (ext : Colormap → ℝ → Rgb)
    (cmap : Colormap) (hc : cmap = .fire ∨ cmap = .legacy ∨ cmap = .gray ∨ cmap = .rainbow) (t t' : ℝ)
    (ht : |max 0 (min t 1) - max 0 (min t' 1)| ≤ 1 / 10000) :
    SameColour (mapColor8 ext t cmap) (@mapColor8 ℝ G ext t' cmap) := by
  have key' : @mapColor8 ℝ G ext t' cmap = @mapColor8 ℝ G ext (max 0 (min t' 1)) cmap := by
    unfold mapColor8
    rw [clampF_real (F := G) hG, clampF_real (F := G) hG]; simp
  have key : mapColor8 ext t cmap = mapColor8 ext (max 0 (min t 1)) cmap := by
    unfold mapColor8
    rw [clampF_rnd h, clampF_rnd h]; simp
  rw [key, key']
  have a0 : (0 : ℝ) ≤ max 0 (min t 1) := le_max_left _ _
  have a1 : max 0 (min t 1) ≤ (1 : ℝ) := max_le zero_le_one (min_le_right _ _)
  have b0 : (0 : ℝ) ≤ max 0 (min t' 1) := le_max_left _ _
  have b1 : max 0 (min t' 1) ≤ (1 : ℝ) := max_le zero_le_one (min_le_right _ _)
  generalize max 0 (min t 1) = s at *
  generalize max 0 (min t' 1) = s' at *
  have cs : clampF s F.zero F.one = s := by rw [clampF_rnd h, min_eq_left a1, max_eq_right a0]
  have L : ∀ a b, |sg a b s - sg a b s'| ≤ 1 / 10000 := fun a b => (sg_lip a b s s').trans ht
  have hR := h.toRoundsToNearest
  obtain ⟨hl, hr⟩ := abs_le.mp ht
  rcases hc with rfl | rfl | rfl | rfl
  · obtain ⟨e, w1, w2, w3⟩ := fire_exact hG ext b0 b1
    obtain ⟨y1, y2, y3, e', n1, n2, n3⟩ := fire_near hp h a0 a1
    have e2 : mapColor8 ext s .fire = fireColor s := by simp only [mapColor8, cs]
    rw [e, e2, e']
    have l1 := abs_le.mp (L 0 (1 / 4))
    have l2 := abs_le.mp (L (1 / 4) (1 / 2))
    have l3 := abs_le.mp (L (1 / 2) (3 / 4))
    have l4 := abs_le.mp (L (3 / 4) 1)
    refine ⟨near_floor hR w1 n1 ?_, near_floor hR w2 n2 ?_, near_floor hR w3 n3 ?_⟩ <;>
      (simp only [fireR, fireG, fireB]; rw [abs_le]; constructor <;> linarith)
  · rw [legacy_spec (F := G) hG ext s' b0 b1]
    simp only [mapColor8, cs]
    obtain ⟨q1, q2⟩ := legacy_near hp h a0 a1 255 (by norm_num)
    obtain ⟨q3, -⟩ := legacy_near hp h a0 a1 224 (by norm_num)
    refine ⟨near_floor hR ⟨by linarith, by linarith⟩ q1 ?_, near_floor hR ⟨by linarith, by linarith⟩ q2 ?_,
      near_floor hR ⟨by linarith, by linarith⟩ q3 ?_⟩ <;>
      (rw [abs_le]; constructor <;> norm_num <;> linarith)
  · rw [gray_spec (F := G) hG ext s' b0 b1]
    simp only [mapColor8, cs]
    obtain ⟨y, e, q⟩ := gray_near hp h a0 a1
    rw [e]
    have hh : castU8 y ≤ ⌊255 * s' + 1 / 2⌋₊ + 1 ∧ ⌊255 * s' + 1 / 2⌋₊ ≤ castU8 y + 1 := by
      rw [castU8_floor hR]
      have q1 : |min y 255 - min (255 * s' + 1 / 2) 255| < 1 := by
        refine lt_of_le_of_lt (abs_min_sub_min_le_max _ _ _ _) ?_
        rw [sub_self, abs_zero, max_eq_left (abs_nonneg _)]
        obtain ⟨x1, x2⟩ := abs_le.mp q
        rw [abs_lt]; constructor <;> linarith
      have q2 : ⌊min (255 * s' + 1 / 2) 255⌋₊ = ⌊255 * s' + 1 / 2⌋₊ := by
        rcases le_total (255 * s' + 1 / 2) 255 with o | o
        · rw [min_eq_left o]
        · rw [min_eq_right o]
          symm
          rw [Nat.floor_eq_iff (by linarith)]
          norm_num
          constructor <;> linarith
      rw [← q2]
      exact floor_near (le_min (by linarith) (by norm_num)) q1
    exact ⟨hh, hh, hh⟩
  · obtain ⟨e, w1, w2, w3⟩ := rainbow_exact hG ext b0 b1
    obtain ⟨y1, y2, y3, e', n1, n2, n3⟩ := rainbow_near hp h a0 a1
    have e2 : mapColor8 ext s .rainbow = rainbowColor s := by simp only [mapColor8, cs]
    rw [e, e2, e']
    have l1 := abs_le.mp (L 0 (1 / 4))
    have l2 := abs_le.mp (L (1 / 4) (1 / 2))
    have l3 := abs_le.mp (L (1 / 2) (3 / 4))
    have l4 := abs_le.mp (L (3 / 4) (9 / 10))
    have l5 := abs_le.mp (L (9 / 10) 1)
    refine ⟨near_floor hR w1 n1 ?_, near_floor hR w2 n2 ?_, near_floor hR w3 n3 ?_⟩ <;>
      (simp only [rainR, rainG, rainB]; rw [abs_le]; constructor <;> linarith)

end Kofft.Props
