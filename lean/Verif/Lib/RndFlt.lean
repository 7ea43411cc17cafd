import Verif.Spec.Rounding
import Mathlib.Data.Int.Log
import Mathlib.Algebra.Order.Round
/-
A rounding arithmetic: every operation is computed exactly and rounded to `p` significant binary digits
(nearest), with unbounded exponents. Shows that the hypotheses `Rounding` are met by an arithmetic that
really rounds; `p = 24` and `p = 53` are binary32 and binary64 away from overflow and underflow.
-/
namespace Kofft

open Spec

/-- `x` rounded to `p` significant bits. -/
noncomputable def rnd (p : ℕ) (x : ℝ) : ℝ :=
  (round (x / (2 : ℝ) ^ (Int.log 2 |x| - p + 1)) : ℤ) * (2 : ℝ) ^ (Int.log 2 |x| - p + 1)

theorem rnd_close (p : ℕ) (x : ℝ) : |rnd p x - x| ≤ (1 / 2 ^ p) * |x| := by
  by_cases hx : x = 0
  · subst hx; simp [rnd]
  have hx' : 0 < |x| := abs_pos.mpr hx
  set e := Int.log 2 |x| - p + 1 with he
  have h2 : (0 : ℝ) < 2 ^ e := zpow_pos (by norm_num) _
  have h1 : rnd p x - x = ((round (x / (2 : ℝ) ^ e) : ℤ) - x / (2 : ℝ) ^ e) * (2 : ℝ) ^ e := by
    rw [sub_mul, div_mul_cancel₀ _ h2.ne']; rfl
  rw [h1, abs_mul, abs_of_pos h2, abs_sub_comm]
  have h3 := abs_sub_round (x / (2 : ℝ) ^ e)
  have h4 : ((2 : ℕ) : ℝ) ^ Int.log 2 |x| ≤ |x| := Int.zpow_log_le_self (by norm_num) hx'
  have h5 : (2 : ℝ) ^ e = 2 * (1 / 2 ^ p) * 2 ^ Int.log 2 |x| := by
    rw [he, zpow_add₀ (by norm_num), zpow_sub₀ (by norm_num), zpow_natCast]
    field_simp
  calc _ ≤ 1 / 2 * (2 : ℝ) ^ e := mul_le_mul_of_nonneg_right h3 h2.le
    _ = (1 / 2 ^ p) * 2 ^ Int.log 2 |x| := by rw [h5]; ring
    _ ≤ _ := mul_le_mul_of_nonneg_left (by simpa using h4) (by positivity)

/-- Integers below `2^p` are representable. -/
theorem rnd_nat (p n : ℕ) (h : n < 2 ^ p) : rnd p n = n := by
  by_cases hn : n = 0
  · subst hn; simp [rnd]
  unfold rnd
  rw [Nat.abs_cast, Int.log_natCast]
  have h1 : Nat.log 2 n < p := Nat.log_lt_of_lt_pow hn h
  have e1 : ((Nat.log 2 n : ℕ) : ℤ) - p + 1 = -((p - 1 - Nat.log 2 n : ℕ) : ℤ) := by omega
  rw [e1, zpow_neg, div_inv_eq_mul, zpow_natCast]
  have e2 : (n : ℝ) * 2 ^ (p - 1 - Nat.log 2 n) = ((n * 2 ^ (p - 1 - Nat.log 2 n) : ℕ) : ℝ) := by push_cast; ring
  rw [e2, round_natCast]
  push_cast
  field_simp

/-- Powers of two are representable. -/
theorem rnd_pow (p k : ℕ) (hp : 1 ≤ p) : rnd p (2 ^ k) = 2 ^ k := by
  unfold rnd
  rw [abs_of_pos (by positivity)]
  have h0 : Int.log 2 ((2 : ℝ) ^ k) = k := by
    have := Int.log_zpow (R := ℝ) (b := 2) (by norm_num) (k : ℤ)
    simpa using this
  rw [h0]
  have h2 : (2 : ℝ) ^ ((k : ℤ) - p + 1) ≠ 0 := (zpow_pos (by norm_num) _).ne'
  have e : (2 : ℝ) ^ k / 2 ^ ((k : ℤ) - p + 1) = ((2 ^ (p - 1) : ℕ) : ℝ) := by
    rw [div_eq_iff h2]
    push_cast
    rw [← zpow_natCast, ← zpow_natCast, ← zpow_add₀ (by norm_num)]
    congr 1
    omega
  rw [e, round_natCast, Int.cast_natCast, ← e, div_mul_cancel₀ _ h2]

theorem rnd_half (p : ℕ) (hp : 1 ≤ p) : rnd p (1 / 2) = 1 / 2 := by
  unfold rnd
  rw [abs_of_pos (by positivity)]
  have h0 : Int.log 2 ((1 : ℝ) / 2) = -1 := by
    have := Int.log_zpow (R := ℝ) (b := 2) (by norm_num) (-1 : ℤ)
    rw [← this]; norm_num
  rw [h0]
  have h2 : (2 : ℝ) ^ ((-1 : ℤ) - p + 1) ≠ 0 := (zpow_pos (by norm_num) _).ne'
  have e : (1 / 2 : ℝ) / 2 ^ ((-1 : ℤ) - p + 1) = ((2 ^ (p - 1) : ℕ) : ℝ) := by
    rw [div_eq_iff h2, show (1 / 2 : ℝ) = 2 ^ (-1 : ℤ) by norm_num]
    push_cast
    rw [← zpow_natCast, ← zpow_add₀ (by norm_num)]
    congr 1
    omega
  rw [e, round_natCast, Int.cast_natCast, ← e, div_mul_cancel₀ _ h2]

open Classical in
/-- Arithmetic with `p` significant bits; conversions through `q` bits; fused or unfused multiply-add. -/
noncomputable def rndFlt (p q : ℕ) (fused fma : Bool) : Flt ℝ where
  add := fun a b => rnd p (a + b)
  sub := fun a b => rnd p (a - b)
  mul := fun a b => rnd p (a * b)
  div := fun a b => rnd p (a / b)
  neg := fun a => -a
  zero := 0
  one := 1
  ofNat := fun n => rnd q n
  ofNatD := fun n => rnd p n
  lit := fun m e => rnd p (m / 10 ^ e)
  pi := rnd p Real.pi
  sin := fun a => rnd p (Real.sin a)
  cos := fun a => rnd p (Real.cos a)
  mulAdd := fun a b c => if fused then rnd p (a * b + c) else rnd p (rnd p (a * b) + c)
  sqrt := fun a => rnd p (Real.sqrt a)
  abs := fun a => |a|
  log := fun a => rnd p (Real.log a)
  log10 := fun a => rnd p (Real.log a / Real.log 10)
  pow := fun a b => rnd p (a ^ b)
  floor := fun a => (⌊a⌋ : ℤ)
  round := fun a => if 0 ≤ a then (⌊a + 1 / 2⌋ : ℤ) else -(⌊-a + 1 / 2⌋ : ℤ)
  toNat := fun a => ⌊a⌋₊
  lt := fun a b => decide (a < b)
  le := fun a b => decide (a ≤ b)
  feq := fun a b => decide (a = b)
  sqrtHalf := rnd q (Real.sqrt 2 / 2)
  cosPi8 := rnd q (Real.cos (Real.pi / 8))
  sinPi8 := rnd q (Real.sin (Real.pi / 8))
  printParse := fun a => rnd p a
  fma := fma

theorem rnd_small (p : ℕ) {x : ℝ} (h : |x| ≤ 1) : |rnd p x - x| ≤ 1 / 2 ^ p :=
  (rnd_close p x).trans (mul_le_of_le_one_right (by positivity) h)

/-- The rounding arithmetic meets the hypotheses. -/
theorem rndFlt_rounding (p q : ℕ) (hp : 11 ≤ p) (hq : 1 ≤ q) (fused fma : Bool) :
    Rounding (rndFlt p q fused fma) (1 / 2 ^ p) (1 / 2 ^ q) (1 / 2 ^ p) where
  u_nonneg := by positivity
  v_nonneg := by positivity
  v_lt_one := by
    rw [div_lt_one (by positivity)]
    exact one_lt_pow₀ (by norm_num) (by omega)
  t_nonneg := by positivity
  add := fun a b => rnd_close p _
  sub := fun a b => rnd_close p _
  mul := fun a b => rnd_close p _
  div := fun a b _ => rnd_close p _
  mulAdd := fun a b c => by
    have hu : (0 : ℝ) ≤ 1 / 2 ^ p := by positivity
    generalize hg : (1 : ℝ) / 2 ^ p = u at hu ⊢
    have hr : ∀ x, |rnd p x - x| ≤ u * |x| := fun x => hg ▸ rnd_close p x
    show |(if fused = true then rnd p (a * b + c) else rnd p (rnd p (a * b) + c)) - (a * b + c)| ≤ _
    have hab := abs_nonneg (a * b)
    have hs : 0 ≤ u ^ 2 * |a * b| := by positivity
    split
    · have := hr (a * b + c)
      nlinarith [mul_nonneg hu hab]
    · have h1 := hr (a * b)
      have h2 := hr (rnd p (a * b) + c)
      have h3 : |rnd p (a * b) + c| ≤ |a * b + c| + u * |a * b| := by
        rw [show rnd p (a * b) + c = (a * b + c) + (rnd p (a * b) - a * b) by ring]
        exact (abs_add_le _ _).trans (by linarith)
      rw [show rnd p (rnd p (a * b) + c) - (a * b + c) =
        (rnd p (rnd p (a * b) + c) - (rnd p (a * b) + c)) + (rnd p (a * b) - a * b) by ring]
      refine (abs_add_le _ _).trans ?_
      nlinarith [mul_le_mul_of_nonneg_left h3 hu]
  neg := fun _ => rfl
  zero := rfl
  one := rfl
  two := by
    show rnd p (((2 : ℤ) : ℝ) / 10 ^ 0) = 2
    have := rnd_pow p 1 (by omega)
    simpa using this
  half := by
    show rnd p (((5 : ℤ) : ℝ) / 10 ^ 1) = 1 / 2
    rw [show (((5 : ℤ) : ℝ) / 10 ^ 1) = 1 / 2 by norm_num]
    exact rnd_half p (by omega)
  lit := fun m e => rnd_close p _
  lt := fun a b => decide_eq_true_iff
  ofNat := fun n => by
    have := rnd_close q (n : ℝ)
    rw [Nat.abs_cast] at this
    exact this
  ofNat_pow := fun k => by
    show rnd q ((2 ^ k : ℕ) : ℝ) = _
    push_cast; exact rnd_pow q k hq
  ofNatD := fun n hn => by
    have : 2 ^ 11 ≤ 2 ^ p := Nat.pow_le_pow_right (by norm_num) hp
    exact rnd_nat p n (by omega)
  pi := by
    have := rnd_close p Real.pi
    rw [abs_of_pos Real.pi_pos] at this
    exact this
  cos := fun a => rnd_small p (Real.abs_cos_le_one a)
  sin := fun a => rnd_small p (Real.abs_sin_le_one a)
  printParse := fun a => (rnd_close p a).trans (mul_le_mul_of_nonneg_left (le_max_right _ _) (by positivity))
  sqrtHalf := by
    apply rnd_small
    rw [abs_of_nonneg (by positivity), div_le_one (by norm_num), Real.sqrt_le_left (by norm_num)]
    norm_num
  cosPi8 := rnd_small q (Real.abs_cos_le_one _)
  sinPi8 := rnd_small q (Real.abs_sin_le_one _)

/-- Exact arithmetic is the special case without errors. -/
theorem rounding_of_lawful {F : Flt ℝ} (h : Lawful F) : Rounding F 0 0 0 where
  u_nonneg := le_rfl
  v_nonneg := le_rfl
  v_lt_one := by norm_num
  t_nonneg := le_rfl
  add := by simp [h.add]
  sub := by simp [h.sub]
  mul := by simp [h.mul]
  div := by simp [h.div]
  mulAdd := by simp [h.mulAdd]
  neg := h.neg
  zero := h.zero
  one := h.one
  two := by simp [h.lit]
  half := by rw [h.lit]; norm_num
  lit := by simp [h.lit]
  lt := h.lt
  ofNat := by simp [h.ofNat]
  ofNat_pow := by simp [h.ofNat]
  ofNatD := by simp [h.ofNatD]
  pi := by simp [h.pi]
  cos := by simp [h.cos]
  sin := by simp [h.sin]
  printParse := by simp [h.printParse]
  sqrtHalf := by simp [h.sqrtHalf]
  cosPi8 := by simp [h.cosPi8]
  sinPi8 := by simp [h.sinPi8]

end Kofft
