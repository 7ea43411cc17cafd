import Verif.Spec.Ieee
import Verif.Lib.RndFlt
import Mathlib.Analysis.SpecialFunctions.Trigonometric.Bounds
import Mathlib.Analysis.Real.Pi.Bounds
/-
An arithmetic with a bounded exponent range: numbers are multiples of `2^q` (the smallest subnormal) with `p` significant
bits, results above `Ω` are lost (`none`). Shows that the hypotheses `Ieee` are met by an arithmetic that rounds,
underflows and overflows; `p = 24`, `q = -149` is binary32, `p = 53`, `q = -1074` is binary64.
-/
namespace Kofft

open Spec

/-- `x` rounded to `p` significant bits, but not below the grid `2^q`. -/
noncomputable def grd (p : ℕ) (q : ℤ) (x : ℝ) : ℝ :=
  (round (x / (2 : ℝ) ^ max (Int.log 2 |x| - p + 1) q) : ℤ) * (2 : ℝ) ^ max (Int.log 2 |x| - p + 1) q

/-- multiples of `2^q` -/
def OnGrid (q : ℤ) (x : ℝ) : Prop := ∃ m : ℤ, x = m * (2 : ℝ) ^ q

theorem onGrid_zpow {q e : ℤ} (h : q ≤ e) (m : ℤ) : OnGrid q (m * (2 : ℝ) ^ e) := by
  obtain ⟨k, hk⟩ := Int.eq_ofNat_of_zero_le (sub_nonneg.mpr h)
  refine ⟨m * 2 ^ k, ?_⟩
  have : e = k + q := by omega
  rw [this, zpow_add₀ (by norm_num), zpow_natCast]
  push_cast; ring

theorem onGrid_grd (p : ℕ) (q : ℤ) (x : ℝ) : OnGrid q (grd p q x) := onGrid_zpow (le_max_right _ _) _

theorem OnGrid.add {q : ℤ} {x y : ℝ} (hx : OnGrid q x) (hy : OnGrid q y) : OnGrid q (x + y) := by
  obtain ⟨a, rfl⟩ := hx
  obtain ⟨b, rfl⟩ := hy
  exact ⟨a + b, by push_cast; ring⟩

theorem OnGrid.neg {q : ℤ} {x : ℝ} (hx : OnGrid q x) : OnGrid q (-x) := by
  obtain ⟨a, rfl⟩ := hx
  exact ⟨-a, by push_cast; ring⟩

theorem onGrid_nat {q : ℤ} (hq : q ≤ 0) (n : ℕ) : OnGrid q n := by
  have := onGrid_zpow hq n
  simpa using this

/-- numbers that are multiples of the spacing are not changed -/
theorem grd_exact (p : ℕ) (q : ℤ) (x : ℝ) (m : ℤ) (h : x = m * (2 : ℝ) ^ max (Int.log 2 |x| - p + 1) q) :
    grd p q x = x := by
  unfold grd
  have h2 : (2 : ℝ) ^ max (Int.log 2 |x| - p + 1) q ≠ 0 := (zpow_pos (by norm_num) _).ne'
  have : x / (2 : ℝ) ^ max (Int.log 2 |x| - p + 1) q = m := by
    rw [div_eq_iff h2]; exact h
  rw [this, round_intCast]
  exact h.symm

/-- error of rounding a number of the grid: relative -/
theorem grd_grid (p : ℕ) (q : ℤ) {x : ℝ} (hx : OnGrid q x) : |grd p q x - x| ≤ (1 / 2 ^ p) * |x| := by
  by_cases h : q ≤ Int.log 2 |x| - p + 1
  · have : grd p q x = rnd p x := by unfold grd rnd; rw [max_eq_left h]
    rw [this]; exact rnd_close p x
  · obtain ⟨m, hm⟩ := hx
    rw [grd_exact p q x m (by rw [max_eq_right (by omega)]; exact hm)]
    simp

/-- error of rounding any number: relative, or half the grid -/
theorem grd_close (p : ℕ) (q : ℤ) (x : ℝ) : |grd p q x - x| ≤ (1 / 2 ^ p) * |x| + 2 ^ (q - 1) := by
  have hpos : (0 : ℝ) < 2 ^ (q - 1) := zpow_pos (by norm_num) _
  have h0 : 0 ≤ (1 / 2 ^ p) * |x| := by positivity
  by_cases h : q ≤ Int.log 2 |x| - p + 1
  · have : grd p q x = rnd p x := by unfold grd rnd; rw [max_eq_left h]
    rw [this]; linarith [rnd_close p x]
  · unfold grd
    rw [max_eq_right (by omega)]
    have h2 : (0 : ℝ) < 2 ^ q := zpow_pos (by norm_num) _
    have e : (round (x / (2 : ℝ) ^ q) : ℤ) * (2 : ℝ) ^ q - x =
        ((round (x / (2 : ℝ) ^ q) : ℤ) - x / (2 : ℝ) ^ q) * (2 : ℝ) ^ q := by
      rw [sub_mul, div_mul_cancel₀ _ h2.ne']
    rw [e, abs_mul, abs_of_pos h2, abs_sub_comm]
    have h3 := abs_sub_round (x / (2 : ℝ) ^ q)
    have h4 : (2 : ℝ) ^ (q - 1) = 1 / 2 * 2 ^ q := by rw [zpow_sub₀ (by norm_num)]; ring
    rw [h4]
    nlinarith

theorem grd_nat (p : ℕ) {q : ℤ} (hq : q ≤ 0) (n : ℕ) (h : n < 2 ^ p) : grd p q n = n := by
  by_cases hn : n = 0
  · subst hn; simp [grd]
  have h1 : Nat.log 2 n < p := Nat.log_lt_of_lt_pow hn h
  have hle : max (Int.log 2 |(n : ℝ)| - p + 1) q ≤ 0 := by
    rw [Nat.abs_cast, Int.log_natCast]
    exact max_le (by omega) hq
  obtain ⟨m, hm⟩ := onGrid_nat hle n
  exact grd_exact p q n m hm

theorem grd_pow (p : ℕ) (hp : 1 ≤ p) {q : ℤ} (hq : q ≤ 0) (k : ℕ) : grd p q (2 ^ k) = 2 ^ k := by
  have h0 : Int.log 2 |(2 : ℝ) ^ k| = k := by
    rw [abs_of_pos (by positivity)]
    have := Int.log_zpow (R := ℝ) (b := 2) (by norm_num) (k : ℤ)
    simpa using this
  have hle : max (Int.log 2 |(2 : ℝ) ^ k| - p + 1) q ≤ (k : ℤ) := by
    rw [h0]
    exact max_le (by omega) (by omega)
  obtain ⟨m, hm⟩ := onGrid_zpow hle 1
  refine grd_exact p q _ m ?_
  rw [← hm]; simp

theorem grd_half (p : ℕ) (hp : 1 ≤ p) {q : ℤ} (hq : q ≤ -1) : grd p q (1 / 2) = 1 / 2 := by
  have e : (1 / 2 : ℝ) = 2 ^ (-1 : ℤ) := by norm_num
  have h0 : Int.log 2 |(1 / 2 : ℝ)| = -1 := by
    rw [abs_of_pos (by positivity), e]
    exact Int.log_zpow (R := ℝ) (b := 2) (by norm_num) (-1)
  have hle : max (Int.log 2 |(1 / 2 : ℝ)| - p + 1) q ≤ -1 := by
    rw [h0]
    exact max_le (by omega) hq
  obtain ⟨m, hm⟩ := onGrid_zpow hle 1
  refine grd_exact p q _ m ?_
  rw [← hm, ← e]; simp

/-- numbers that are not tiny: relative error only -/
theorem grd_big (p : ℕ) {q : ℤ} (hq : q ≤ -1 - p) {x : ℝ} (hx : 1 / 4 ≤ |x|) : |grd p q x - x| ≤ (1 / 2 ^ p) * |x| := by
  have hx0 : 0 < |x| := by linarith
  have hl : -2 ≤ Int.log 2 |x| := by
    apply (Int.zpow_le_iff_le_log (R := ℝ) (b := 2) (by norm_num) hx0).mp
    norm_num at hx ⊢
    exact hx
  have : grd p q x = rnd p x := by unfold grd rnd; rw [max_eq_left (by omega)]
  rw [this]; exact rnd_close p x

open Classical in
/-- Arithmetic with `p` significant bits, smallest number `2^q`, results up to `Ω`; conversions through `r` bits; fused or
unfused multiply-add. `none` stands for infinities and NaN. -/
@[instance_reducible] noncomputable def binFlt (p r : ℕ) (q : ℤ) (Ω : ℝ) (fused fma : Bool) : Flt (Option ℝ) :=
  let fit : ℝ → Option ℝ := fun x => if |x| ≤ Ω then some (grd p q x) else none
  { add := fun a b => a.bind fun a => b.bind fun b => fit (a + b)
    sub := fun a b => a.bind fun a => b.bind fun b => fit (a - b)
    mul := fun a b => a.bind fun a => b.bind fun b => fit (a * b)
    div := fun a b => a.bind fun a => b.bind fun b => if b = 0 then none else fit (a / b)
    neg := fun a => a.map fun a => -a
    zero := some 0
    one := some 1
    ofNat := fun n => some (grd r q n)
    ofNatD := fun n => some (grd p q n)
    lit := fun m e => some (grd p q (m / 10 ^ e))
    pi := some (grd p q Real.pi)
    sin := fun a => a.map fun a => grd p q (Real.sin a)
    cos := fun a => a.map fun a => grd p q (Real.cos a)
    mulAdd := fun a b c => a.bind fun a => b.bind fun b => c.bind fun c =>
      if fused then fit (a * b + c) else (fit (a * b)).bind fun m => fit (m + c)
    sqrt := fun a => a.bind fun a => if a < 0 then none else some (grd p q (Real.sqrt a))
    abs := fun a => a.map fun a => |a|
    log := fun a => a.bind fun a => if a ≤ 0 then none else some (grd p q (Real.log a))
    log10 := fun a => a.bind fun a => if a ≤ 0 then none else some (grd p q (Real.log a / Real.log 10))
    pow := fun a b => a.bind fun a => b.bind fun b => fit (a ^ b)
    floor := fun a => a.map fun a => ((⌊a⌋ : ℤ) : ℝ)
    round := fun a => a.map fun a => if 0 ≤ a then ((⌊a + 1 / 2⌋ : ℤ) : ℝ) else -((⌊-a + 1 / 2⌋ : ℤ) : ℝ)
    toNat := fun a => a.elim 0 fun a => min ⌊a⌋₊ (2 ^ 64 - 1)
    lt := fun a b => a.elim false fun a => b.elim false fun b => decide (a < b)
    le := fun a b => a.elim false fun a => b.elim false fun b => decide (a ≤ b)
    feq := fun a b => a.elim false fun a => b.elim false fun b => decide (a = b)
    sqrtHalf := some (grd r q (Real.sqrt 2 / 2))
    cosPi8 := some (grd r q (Real.cos (Real.pi / 8)))
    sinPi8 := some (grd r q (Real.sin (Real.pi / 8)))
    printParse := fun a => a.map fun a => grd p q a
    fma := fma }

/-- Finite numbers are the multiples of `2^q`. -/
noncomputable def binDen (q : ℤ) : Denote (Option ℝ) where
  fin := fun a => ∃ x, a = some x ∧ OnGrid q x
  val := fun a => a.getD 0

theorem bin_fit (p : ℕ) (q : ℤ) {Ω x : ℝ} (h : |x| ≤ Ω) :
    (if |x| ≤ Ω then some (grd p q x) else none) = some (grd p q x) := if_pos h

set_option maxHeartbeats 1000000 in
/-- The arithmetic meets the hypotheses. -/
theorem binFlt_ieee (p r : ℕ) (q : ℤ) (Ω : ℝ) (hp : 11 ≤ p) (hr : 1 ≤ r) (hrp : r ≤ p) (hq : q ≤ -1 - p)
    (hΩ : 1000000 ≤ Ω) (fused fma : Bool) :
    Ieee (binFlt p r q Ω fused fma) (binDen q) (1 / 2 ^ p) (2 ^ (q - 1)) Ω (1 / 2 ^ r) (2 / 2 ^ p) := by
  have hq0 : q ≤ 0 := by omega
  have hη : (0 : ℝ) < 2 ^ (q - 1) := zpow_pos (by norm_num) _
  have hη1 : (2 : ℝ) ^ (q - 1) ≤ 1 / 2 ^ p := by
    rw [one_div, ← zpow_natCast, ← zpow_neg]
    exact zpow_le_zpow_right₀ (by norm_num) (by omega)
  have hpp : (0 : ℝ) < 1 / 2 ^ p := by positivity
  have h2p : (2 : ℝ) / 2 ^ p = 2 * (1 / 2 ^ p) := by ring
  have hqr : q ≤ -1 - r := by omega
  have trig : ∀ x : ℝ, |x| ≤ 1 → |grd p q x - x| ≤ 2 / 2 ^ p := by
    intro x hx
    have := grd_close p q x
    rw [h2p]
    nlinarith
  have small : ∀ x : ℝ, 1 / 4 ≤ x → x ≤ 1 → |grd r q x - x| ≤ 1 / 2 ^ r := by
    intro x h1 h2
    have h3 := grd_big r hqr (x := x) (by rw [abs_of_nonneg (by linarith)]; exact h1)
    rw [abs_of_nonneg (by linarith : 0 ≤ x)] at h3
    exact h3.trans (mul_le_of_le_one_right (by positivity) h2)
  have hpi := Real.pi_gt_three
  have hpi' := Real.pi_le_four
  exact {
    u_nonneg := hpp.le
    eta_nonneg := hη.le
    v_nonneg := by positivity
    v_le := by
      apply one_div_le_one_div_of_le (by norm_num)
      calc (2 : ℝ) = 2 ^ 1 := by norm_num
        _ ≤ 2 ^ r := pow_le_pow_right₀ (by norm_num) hr
    t_nonneg := by positivity
    t_le := by
      rw [div_le_one (by positivity)]
      calc (2 : ℝ) = 2 ^ 1 := by norm_num
        _ ≤ 2 ^ p := pow_le_pow_right₀ (by norm_num) (by omega)
    big := hΩ
    add := by
      rintro _ _ ⟨a, rfl, ha⟩ ⟨b, rfl, hb⟩ h
      change |a + b| ≤ Ω at h
      have e : (binFlt p r q Ω fused fma).add (some a) (some b) = some (grd p q (a + b)) := bin_fit p q h
      rw [e]
      exact ⟨⟨_, rfl, onGrid_grd p q _⟩, grd_grid p q (ha.add hb)⟩
    sub := by
      rintro _ _ ⟨a, rfl, ha⟩ ⟨b, rfl, hb⟩ h
      change |a - b| ≤ Ω at h
      have e : (binFlt p r q Ω fused fma).sub (some a) (some b) = some (grd p q (a - b)) := bin_fit p q h
      rw [e]
      exact ⟨⟨_, rfl, onGrid_grd p q _⟩, grd_grid p q (by rw [sub_eq_add_neg]; exact ha.add hb.neg)⟩
    mul := by
      rintro _ _ ⟨a, rfl, ha⟩ ⟨b, rfl, hb⟩ h
      change |a * b| ≤ Ω at h
      have e : (binFlt p r q Ω fused fma).mul (some a) (some b) = some (grd p q (a * b)) := bin_fit p q h
      rw [e]
      exact ⟨⟨_, rfl, onGrid_grd p q _⟩, grd_close p q _⟩
    div := by
      rintro _ _ ⟨a, rfl, ha⟩ ⟨b, rfl, hb⟩ h0 h
      change |a / b| ≤ Ω at h
      change b ≠ 0 at h0
      have e : (binFlt p r q Ω fused fma).div (some a) (some b) = some (grd p q (a / b)) := by
        show (if b = 0 then none else _) = _
        rw [if_neg h0]; exact bin_fit p q h
      rw [e]
      exact ⟨⟨_, rfl, onGrid_grd p q _⟩, grd_close p q _⟩
    mulAdd := by
      rintro _ _ _ ⟨a, rfl, ha⟩ ⟨b, rfl, hb⟩ ⟨c, rfl, hc⟩ h
      change (1 + 1 / 2 ^ p) * |a * b| + 2 ^ (q - 1) + |c| ≤ Ω at h
      show _ ∧ |_ - (a * b + c)| ≤ 1 / 2 ^ p * |a * b| + 1 / 2 ^ p * |a * b + c| + (1 / 2 ^ p) ^ 2 * |a * b| +
        (1 + 1 / 2 ^ p) * 2 ^ (q - 1)
      have hab := abs_nonneg (a * b)
      have habc := abs_add_le (a * b) c
      have h0 : 0 ≤ 1 / 2 ^ p * |a * b| := by positivity
      have h00 : 0 ≤ (1 / 2 ^ p) ^ 2 * |a * b| := by positivity
      have h000 : 0 ≤ 1 / 2 ^ p * (2 : ℝ) ^ (q - 1) := by positivity
      cases fused
      · have hab1 : |a * b| ≤ Ω := by nlinarith [abs_nonneg c]
        have h1 := grd_close p q (a * b)
        have h2 : |grd p q (a * b)| ≤ (1 + 1 / 2 ^ p) * |a * b| + 2 ^ (q - 1) := by
          have := abs_add_le (grd p q (a * b) - a * b) (a * b)
          rw [sub_add_cancel] at this
          nlinarith
        have h3 : |grd p q (a * b) + c| ≤ Ω := (abs_add_le _ _).trans (by linarith)
        have e : (binFlt p r q Ω false fma).mulAdd (some a) (some b) (some c) =
            some (grd p q (grd p q (a * b) + c)) := by
          show (if |a * b| ≤ Ω then some (grd p q (a * b)) else none).bind _ = _
          rw [bin_fit p q hab1]
          exact bin_fit p q h3
        rw [e]
        refine ⟨⟨_, rfl, onGrid_grd p q _⟩, ?_⟩
        show |grd p q (grd p q (a * b) + c) - (a * b + c)| ≤ _
        have h4 := grd_grid p q ((onGrid_grd p q (a * b)).add hc)
        generalize grd p q (a * b) = m at *
        have h5 : |m + c| ≤ |a * b + c| + |m - a * b| := by
          rw [show m + c = (a * b + c) + (m - a * b) by ring]; exact abs_add_le _ _
        have h6 : |grd p q (m + c) - (a * b + c)| ≤ |grd p q (m + c) - (m + c)| + |m - a * b| := by
          rw [show grd p q (m + c) - (a * b + c) = (grd p q (m + c) - (m + c)) + (m - a * b) by ring]
          exact abs_add_le _ _
        have h7 := mul_le_mul_of_nonneg_left (h5.trans (add_le_add_right h1 _)) hpp.le
        generalize (1 : ℝ) / 2 ^ p = w at *
        nlinarith
      · have h3 : |a * b + c| ≤ Ω := by nlinarith
        have e : (binFlt p r q Ω true fma).mulAdd (some a) (some b) (some c) = some (grd p q (a * b + c)) :=
          bin_fit p q h3
        rw [e]
        refine ⟨⟨_, rfl, onGrid_grd p q _⟩, ?_⟩
        have := grd_close p q (a * b + c)
        show |grd p q (a * b + c) - (a * b + c)| ≤ _
        nlinarith
    neg := by
      rintro _ ⟨a, rfl, ha⟩
      exact ⟨⟨_, rfl, ha.neg⟩, rfl⟩
    zero := ⟨⟨0, rfl, 0, by simp⟩, rfl⟩
    one := ⟨⟨1, rfl, by simpa using onGrid_nat hq0 1⟩, rfl⟩
    two := by
      have e : (binFlt p r q Ω fused fma).lit 2 0 = some 2 := by
        show some (grd p q (((2 : ℤ) : ℝ) / 10 ^ 0)) = _
        have := grd_pow p (by omega) hq0 1
        norm_num at this ⊢
        exact this
      rw [e]
      exact ⟨⟨2, rfl, by simpa using onGrid_nat hq0 2⟩, rfl⟩
    half := by
      have e : (binFlt p r q Ω fused fma).lit 5 1 = some (1 / 2) := by
        show some (grd p q (((5 : ℤ) : ℝ) / 10 ^ 1)) = _
        rw [show (((5 : ℤ) : ℝ) / 10 ^ 1) = 1 / 2 by norm_num, grd_half p (by omega) (by omega)]
      rw [e]
      refine ⟨⟨1 / 2, rfl, ?_⟩, rfl⟩
      rw [← grd_half p (by omega) (by omega : q ≤ -1)]
      exact onGrid_grd p q _
    ofNat := fun n _ => ⟨⟨_, rfl, onGrid_grd r q _⟩, by
      have := grd_grid r q (onGrid_nat hq0 n)
      rw [Nat.abs_cast] at this
      exact this⟩
    ofNat_pow := fun k _ => by
      show grd r q ((2 ^ k : ℕ) : ℝ) = _
      have := grd_pow r hr hq0 k
      push_cast
      exact this
    ofNatD := fun n hn => ⟨⟨_, rfl, onGrid_grd p q _⟩, grd_nat p hq0 n (by
      calc n < 2 ^ 11 := by omega
        _ ≤ 2 ^ p := Nat.pow_le_pow_right (by norm_num) hp)⟩
    pi := ⟨⟨_, rfl, onGrid_grd p q _⟩, by
      have := grd_big p hq (x := Real.pi) (by rw [abs_of_pos Real.pi_pos]; linarith)
      rw [abs_of_pos Real.pi_pos] at this
      exact this⟩
    cos := by
      rintro _ ⟨a, rfl, ha⟩
      exact ⟨⟨_, rfl, onGrid_grd p q _⟩, trig _ (Real.abs_cos_le_one _)⟩
    sin := by
      rintro _ ⟨a, rfl, ha⟩
      exact ⟨⟨_, rfl, onGrid_grd p q _⟩, trig _ (Real.abs_sin_le_one _)⟩
    printParse := by
      rintro _ ⟨a, rfl, ha⟩ _
      refine ⟨⟨_, rfl, onGrid_grd p q _⟩, ?_⟩
      show |grd p q a - a| ≤ 2 / 2 ^ p * max 1 |a|
      have h1 := grd_grid p q ha
      have h2 := le_max_right 1 |a|
      have h3 := abs_nonneg a
      rw [h2p]
      nlinarith
    sqrtHalf := ⟨⟨_, rfl, onGrid_grd r q _⟩, small _ (by
      have : (1 : ℝ) ≤ Real.sqrt 2 := Real.one_le_sqrt.mpr (by norm_num)
      linarith) (by
      have : Real.sqrt 2 ≤ 2 := by rw [Real.sqrt_le_left (by norm_num)]; norm_num
      linarith)⟩
    cosPi8 := ⟨⟨_, rfl, onGrid_grd r q _⟩, small _ (by
      have := Real.one_sub_sq_div_two_le_cos (x := Real.pi / 8)
      nlinarith) (Real.cos_le_one _)⟩
    sinPi8 := ⟨⟨_, rfl, onGrid_grd r q _⟩, small _ (by
      have := Real.mul_le_sin (x := Real.pi / 8) (by positivity) (by linarith)
      have e : 2 / Real.pi * (Real.pi / 8) = 1 / 4 := by field_simp; norm_num
      linarith) (Real.sin_le_one _)⟩ }

end Kofft
