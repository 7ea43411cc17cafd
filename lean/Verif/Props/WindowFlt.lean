import Verif.Props.GoertzelFlt
import Verif.Props.Sticky
import Verif.Props.Visual
import Verif.Model.Window
/-
C105: windows in floating point: the square root of the Kaiser window, the range of the Bartlett window, windows of one
sample.
-/
namespace Kofft.Props

open Spec

section nearest

variable {p : ℕ} {x y x' y' b : ℝ}

theorem _root_.Kofft.Spec.IsRepr.neg (h : IsRepr p b) : IsRepr p (-b) := by
  obtain ⟨m, e, hm, rfl⟩ := h
  exact ⟨-m, e, by rwa [abs_neg], by push_cast; ring⟩

theorem _root_.Kofft.Spec.IsRepr.half (h : IsRepr p b) : IsRepr p (b / 2) := by
  obtain ⟨m, e, hm, rfl⟩ := h
  refine ⟨m, e - 1, hm, ?_⟩
  rw [zpow_sub₀ (by norm_num)]; ring

/-- rounding does not cross representable numbers -/
theorem nearest_le (h : Nearest p x y) (hb : IsRepr p b) (hx : x ≤ b) : y ≤ b := by
  by_contra hc
  push Not at hc
  have := h.2 b hb
  rw [abs_of_nonneg (by linarith), abs_of_nonneg (by linarith)] at this
  linarith

theorem le_nearest (h : Nearest p x y) (hb : IsRepr p b) (hx : b ≤ x) : b ≤ y := by
  by_contra hc
  push Not at hc
  have := h.2 b hb
  rw [abs_of_nonpos (by linarith), abs_of_nonpos (by linarith)] at this
  linarith

/-- rounding is monotone -/
theorem nearest_mono (h : Nearest p x y) (h' : Nearest p x' y') (hx : x < x') : y ≤ y' := by
  by_contra hc
  push Not at hc
  have h1 := h.2 y' h'.1
  have h2 := h'.2 y h.1
  rcases le_or_gt x y' with hs | hs
  · rw [abs_of_nonneg (by linarith), abs_of_nonneg (by linarith)] at h1
    linarith
  · rcases le_or_gt y x' with ht | ht
    · rw [abs_of_nonpos (by linarith), abs_of_nonpos (by linarith)] at h2
      linarith
    · rcases le_or_gt y x with hu | hu
      · linarith
      · rw [abs_of_nonneg (by linarith), abs_of_neg (by linarith)] at h1
        rw [abs_of_neg (by linarith), abs_of_pos (by linarith)] at h2
        linarith

theorem repr_one (hp : 1 ≤ p) : IsRepr p 1 := by
  refine ⟨1, 0, ?_, by simp⟩
  rw [abs_one]
  exact one_lt_pow₀ (by norm_num) (by omega)

theorem repr_zero : IsRepr p 0 := ⟨0, 0, by simp, by simp⟩

/-- positions relative to the middle are at most one, after rounding -/
theorem nearest_position [F : Flt ℝ] (hp : 1 ≤ p) (h : RoundsToNearest p F) {m a : ℝ} (hm : 0 < m) (hmr : IsRepr p m)
    (ha0 : 0 ≤ a) (ha : a ≤ 2 * m) : |F.div (F.sub a m) m| ≤ 1 := by
  have h1 := h.sub a m
  have b1 := nearest_le h1 hmr (by linarith)
  have b2 := le_nearest h1 hmr.neg (by linarith)
  have h2 := h.div (F.sub a m) m hm.ne'
  rw [abs_le]
  constructor
  · exact le_nearest h2 (repr_one hp).neg (by rw [le_div_iff₀ hm]; linarith)
  · exact nearest_le h2 (repr_one hp) (by rw [div_le_one hm]; exact b1)

end nearest

section windows

variable [F : Flt ℝ] {p : ℕ}

theorem kaiser_radicand (hp : 1 ≤ p) (h : RoundsToNearest p F) (len i : ℕ) (h2 : 2 ≤ len) (hi : i < len) :
    let m : ℝ := Flt.ofNatD (len - 1) /. two
    let r : ℝ := (Flt.ofNatD i -. m) /. m
    0 ≤ Flt.one -. (r *. r) ∧ Flt.one -. (r *. r) ≤ 1 := by
  intro m r
  have hN := h.ofNatD (len - 1)
  have hm : m = F.ofNatD (len - 1) / 2 := by
    have := h.div (F.ofNatD (len - 1)) 2 (by norm_num)
    show F.div _ (F.lit 2 0) = _
    rw [h.two]
    exact nearest_exact hN.1.half this
  have h1N : 1 ≤ F.ofNatD (len - 1) := le_nearest hN (repr_one hp) (by exact_mod_cast (by omega : 1 ≤ len - 1))
  have hm0 : 0 < m := by rw [hm]; linarith
  have hmr : IsRepr p m := hm ▸ hN.1.half
  have hi0 : 0 ≤ F.ofNatD i := le_nearest (h.ofNatD i) repr_zero (by positivity)
  have hiN : F.ofNatD i ≤ 2 * m := by
    rw [hm]
    have : F.ofNatD i ≤ F.ofNatD (len - 1) := by
      rcases Nat.lt_or_ge i (len - 1) with hlt | hge
      · exact nearest_mono (h.ofNatD i) hN (by exact_mod_cast hlt)
      · rw [show i = len - 1 by omega]
    linarith
  have hr : |r| ≤ 1 := nearest_position hp h hm0 hmr hi0 hiN
  have hrr : r * r ≤ 1 := by rw [← sq]; exact (sq_le_one_iff_abs_le_one r).mpr hr
  have q1 := h.mul r r
  have q2 := nearest_le q1 (repr_one hp) hrr
  have q3 := le_nearest q1 repr_zero (mul_self_nonneg r)
  have q4 := h.sub F.one (F.mul r r)
  exact ⟨le_nearest q4 repr_zero (by rw [h.one]; linarith), nearest_le q4 (repr_one hp) (by rw [h.one]; linarith)⟩

/-- C105: the Kaiser window never takes the square root of a negative number, whatever its length (also beyond the
integers the arithmetic represents), in any arithmetic that rounds to nearest: the window does not change if the square
root of negative numbers is replaced by anything else. -/
theorem kaiser_radicand_nonneg (hp : 1 ≤ p) (h : RoundsToNearest p F) (s : ℝ → ℝ) (hs : ∀ a, 0 ≤ a → s a = F.sqrt a)
    (checks : Bool) (len : ℕ) (h2 : 2 ≤ len) (beta : ℝ) :
    @kaiser ℝ { F with sqrt := s } checks len beta = @kaiser ℝ F checks len beta := by
  have key : ∀ i, i < len → @kaiserAt ℝ { F with sqrt := s } beta len i = @kaiserAt ℝ F beta len i := by
    intro i hi
    have := hs _ (kaiser_radicand hp h len i h2 hi).1
    unfold kaiserAt
    simp only []
    show F.div (bessel0 (F.mul beta (s _))) (bessel0 beta) = F.div (bessel0 (F.mul beta (F.sqrt _))) (bessel0 beta)
    rw [← this]
    rfl
  unfold kaiser
  split
  · rfl
  · congr 1
    exact List.map_congr_left fun i hi => key i (List.mem_range.mp hi)

/-- C105: the Bartlett window stays between 0 and 1 after rounding, as long as the length is exactly representable. -/
theorem bartlett_range_rounded (hp : 1 ≤ p) (h : RoundsToNearest p F) (len : ℕ) (h2 : 2 ≤ len) (hl : len < 2 ^ p) :
    ∀ w ∈ bartlett (T := ℝ) len, 0 ≤ w ∧ w ≤ 1 := by
  have nat : ∀ n, n < 2 ^ p → F.ofNatD n = n := fun n hn =>
    nearest_exact (by
      have : |(n : ℤ)| < 2 ^ p := by rw [Nat.abs_cast]; exact_mod_cast hn
      simpa using repr_int (n : ℤ) this) (h.ofNatD n)
  intro w hw
  obtain ⟨i, hi, rfl⟩ := List.mem_map.mp hw
  rw [List.mem_range] at hi
  have hl1 : IsRepr p ((len - 1 : ℕ) : ℝ) := by
    have := h.ofNatD (len - 1)
    rw [nat (len - 1) (by omega)] at this
    exact this.1
  have e1 : F.sub (F.ofNatD len) F.one = ((len - 1 : ℕ) : ℝ) := by
    have := h.sub (F.ofNatD len) F.one
    rw [nat len hl, h.one] at this
    rw [nat len hl, h.one]
    have e : (len : ℝ) - 1 = ((len - 1 : ℕ) : ℝ) := by rw [Nat.cast_sub (by omega)]; simp
    rw [e] at this
    exact nearest_exact hl1 this
  have e2 : F.div ((len - 1 : ℕ) : ℝ) (F.lit 2 0) = ((len - 1 : ℕ) : ℝ) / 2 := by
    rw [h.two]
    exact nearest_exact hl1.half (h.div _ 2 (by norm_num))
  have hpos : (1 : ℝ) ≤ ((len - 1 : ℕ) : ℝ) := by exact_mod_cast (by omega : 1 ≤ len - 1)
  have hx := nearest_position hp h (m := ((len - 1 : ℕ) : ℝ) / 2) (a := (i : ℝ)) (by linarith) hl1.half (by positivity)
    (by have : (i : ℝ) ≤ ((len - 1 : ℕ) : ℝ) := by exact_mod_cast (by omega : i ≤ len - 1)
        linarith)
  simp only [two]
  rw [e1, e2, nat i (by omega), h.abs, h.one]
  set x := F.div (F.sub (i : ℝ) (((len - 1 : ℕ) : ℝ) / 2)) (((len - 1 : ℕ) : ℝ) / 2)
  have q := h.sub 1 |x|
  exact ⟨le_nearest q repr_zero (by linarith), nearest_le q (repr_one hp) (by linarith [abs_nonneg x])⟩

/-- The hypotheses are met by 24-bit rounding: the Kaiser window is the same with a square root that returns 7 for negative
numbers. -/
example : @kaiser ℝ { rndFlt 24 24 true true with sqrt := fun a => if a < 0 then 7 else rnd 24 (Real.sqrt a) } true 9 5 =
    @kaiser ℝ (rndFlt 24 24 true true) true 9 5 :=
  letI := rndFlt 24 24 true true
  kaiser_radicand_nonneg (by norm_num) (rndFlt_nearest (by norm_num) true true) _
    (fun a ha => if_neg (not_lt.mpr ha)) true 9 (by norm_num) 5

end windows

section one

variable {T : Type} [F : Flt T] {fin : T → Prop}

theorem bessel0_not_finite (hF : Sticky F fin) {x : T} (hx : ¬ fin x) : ¬ fin (bessel0 x) := by
  unfold bessel0
  have hy : ¬ fin (F.div (F.mul x x) (F.lit 4 0)) := fun h => hx (hF.mul _ _ (hF.div _ _ h)).1
  generalize F.div (F.mul x x) (F.lit 4 0) = y at *
  -- once the sum is not finite it stays so
  have key : ∀ (l : List ℕ) (s : T × T × T), ¬ fin s.1 → ¬ fin (l.foldl (bessel0Step y) s).1 := by
    intro l
    induction l with
    | nil => exact fun s hs => hs
    | cons n l ih => exact fun s hs => ih _ fun h => hs (hF.add _ _ h).1
  show ¬ fin ((List.range' 1 19).foldl (bessel0Step y) (F.one, y, F.one)).1
  rw [show List.range' 1 19 = 1 :: List.range' 2 18 from rfl, List.foldl_cons]
  exact key _ _ fun h => hy (hF.div _ _ (hF.add _ _ h).2)

/-- C105: **windows of one sample.** The Bartlett, Bohman, Nuttall and Kaiser windows of length 1 consist of one value that
is not finite (`0/0`). -/
theorem window_one_not_finite (hF : Sticky F fin) (hZ : ZeroDivision F fin) (beta : T) (checks : Bool) :
    (∃ w, bartlett 1 = [w] ∧ ¬ fin w) ∧ (∃ w, bohman 1 = [w] ∧ ¬ fin w) ∧ (∃ w, nuttall 1 = [w] ∧ ¬ fin w) ∧
    ∃ w, kaiser checks 1 beta = .ok [w] ∧ ¬ fin w := by
  have e0 : F.sub (F.ofNatD 1) F.one = F.zero := by rw [hZ.ofNatD_one, hZ.one_sub_one]
  refine ⟨⟨_, rfl, ?_⟩, ⟨_, rfl, ?_⟩, ⟨_, rfl, ?_⟩, ⟨_, if_neg (by simp), ?_⟩⟩
  · simp only [two]
    rw [e0, hZ.zero_div_two]
    exact fun h => hZ.div_zero _ (hZ.abs _ (hF.sub _ _ h).2)
  · rw [e0]
    intro h
    exact hZ.div_zero _ (hF.sub _ _ (hZ.abs _ (hF.sub _ _ (hF.mul _ _ (hF.add _ _ h).1).1).2)).1
  · rw [e0]
    intro h
    exact hZ.div_zero _ (hZ.cos _ (hF.mul _ _ (hF.sub _ _ (hF.add _ _ (hF.sub _ _ h).1).1).2).2)
  · have em : F.div (F.ofNatD (1 - 1)) (F.lit 2 0) = F.zero := by
      show F.div (F.ofNatD 0) _ = _
      rw [hZ.ofNatD_zero, hZ.zero_div_two]
    show ¬ fin (kaiserAt beta 1 0)
    unfold kaiserAt
    simp only [two]
    rw [em]
    intro h
    refine bessel0_not_finite hF (fun h' => ?_) (hF.div _ _ h)
    exact hZ.div_zero _ (hF.mul _ _ (hF.sub _ _ (hZ.sqrt _ (hF.mul _ _ h').2)).2).1

/-- The hypotheses are met by the arithmetic of binary32, where `none` stands for infinities and NaN. -/
theorem binFlt_zeroDivision (p r : ℕ) (q : ℤ) (Ω : ℝ) (hp : 11 ≤ p) (hq : q ≤ 0) (hΩ : 0 ≤ Ω) (fused fma : Bool) :
    ZeroDivision (binFlt p r q Ω fused fma) (fun a => a ≠ none) where
  div_zero := by
    intro a
    cases a with
    | none => exact fun h => h rfl
    | some a =>
      show ¬ ((if (0 : ℝ) = 0 then none else _) ≠ none)
      simp
  abs := by
    intro a h; cases a
    · exact absurd rfl h
    · simp
  cos := by
    intro a h; cases a
    · exact absurd rfl h
    · simp
  sin := by
    intro a h; cases a
    · exact absurd rfl h
    · simp
  sqrt := by
    intro a h; cases a
    · exact absurd rfl h
    · simp
  ofNatD_zero := by
    show some (grd p q ((0 : ℕ) : ℝ)) = some 0
    rw [grd_nat p hq 0 (by positivity)]; simp
  ofNatD_one := by
    show some (grd p q ((1 : ℕ) : ℝ)) = some 1
    rw [grd_nat p hq 1 (Nat.one_lt_two_pow (by omega))]; simp
  one_sub_one := by
    show (if |(1 : ℝ) - 1| ≤ Ω then some (grd p q (1 - 1)) else none) = some 0
    have := grd_nat p hq 0 (by positivity)
    rw [sub_self, abs_zero, if_pos hΩ]
    simpa using this
  zero_div_two := by
    have e2 : (binFlt p r q Ω fused fma).lit 2 0 = some 2 := by
      show some (grd p q (((2 : ℤ) : ℝ) / 10 ^ 0)) = _
      have := grd_pow p (by omega) hq 1
      norm_num at this ⊢
      exact this
    rw [e2]
    show (if (2 : ℝ) = 0 then none else (if |(0 : ℝ) / 2| ≤ Ω then some (grd p q (0 / 2)) else none)) = some 0
    have := grd_nat p hq 0 (by positivity)
    rw [if_neg (by norm_num), zero_div, abs_zero, if_pos hΩ]
    simpa using this

example : letI := binFlt 24 24 (-149) 340000000000000000000000000000000000000 true true
    bartlett (T := Option ℝ) 1 = [none] := by
  letI := binFlt 24 24 (-149) 340000000000000000000000000000000000000 true true
  obtain ⟨⟨w, hw, h⟩, -⟩ := window_one_not_finite (binFlt_sticky _ _ _ _ _ _)
    (binFlt_zeroDivision 24 24 (-149) 340000000000000000000000000000000000000 (by norm_num) (by norm_num) (by norm_num)
      true true) none true
  rw [hw, not_not.mp h]

/-- C55: the case of `db_scale_zero_range` in binary32: a magnitude 1 with the reference 1 and the range 0. -/
example : letI := binFlt 24 24 (-149) 340000000000000000000000000000000000000 true true
    dbScale (some 1) (some 1) (some 0) = (none : Option ℝ) := by
  have g0 : grd 24 (-149) 0 = 0 := by simpa using grd_nat 24 (q := -149) (by norm_num) 0 (by norm_num)
  have g1 : grd 24 (-149) 1 = 1 := by simpa using grd_nat 24 (q := -149) (by norm_num) 1 (by norm_num)
  have gs : grd 24 (-149) (1 / 10 ^ 10) < 1 := by
    have h := (abs_le.mp (grd_close 24 (-149) (1 / 10 ^ 10))).2
    rw [abs_of_pos (by positivity)] at h
    have h2 : (2 : ℝ) ^ ((-149 : ℤ) - 1) ≤ 1 / 2 := by
      rw [show (1 / 2 : ℝ) = 2 ^ (-1 : ℤ) by norm_num]
      exact zpow_le_zpow_right₀ (by norm_num) (by norm_num)
    have h3 : (1 / 2 ^ 24 * (1 / 10 ^ 10) + 1 / 10 ^ 10 : ℝ) < 1 / 2 := by norm_num
    linarith
  generalize hΩ : (340000000000000000000000000000000000000 : ℝ) = Ω
  have hΩ1 : (1 : ℝ) ≤ Ω := by rw [← hΩ]; norm_num
  letI := binFlt 24 24 (-149) Ω true true
  refine db_scale_zero_range (F := binFlt 24 24 (-149) Ω true true) (some 1) none ?_ ?_ ?_ ?_ ?_ ?_ ?_ ?_
  · show (if (1 : ℝ) = 0 then none else (if |(1 : ℝ) / 1| ≤ Ω then some (grd 24 (-149) (1 / 1)) else none)) = some 1
    rw [if_neg (by norm_num), div_one, abs_one, if_pos hΩ1, g1]
  · show decide ((1 : ℝ) < grd 24 (-149) (((1 : ℤ) : ℝ) / 10 ^ 10)) = false
    rw [Int.cast_one]
    exact decide_eq_false (by linarith)
  · show decide ((1 : ℝ) = 1) = true
    simp
  · show (if (1 : ℝ) ≤ 0 then none else some (grd 24 (-149) (Real.log 1 / Real.log 10))) = some 0
    rw [if_neg (by norm_num), Real.log_one, zero_div, g0]
  · show (if |grd 24 (-149) (((20 : ℤ) : ℝ) / 10 ^ 0) * 0| ≤ Ω then
      some (grd 24 (-149) (grd 24 (-149) (((20 : ℤ) : ℝ) / 10 ^ 0) * 0)) else none) = some 0
    rw [mul_zero, abs_zero, if_pos (by linarith), g0]
  · show (if |(0 : ℝ) + 0| ≤ Ω then some (grd 24 (-149) (0 + 0)) else none) = some 0
    rw [add_zero, abs_zero, if_pos (by linarith), g0]
  · show (if (0 : ℝ) = 0 then none else _) = none
    simp
  · intro a
    constructor
    · rfl
    · cases a <;> rfl

end one

end Kofft.Props
