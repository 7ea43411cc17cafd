import Verif.Model.Num
import Mathlib.Analysis.SpecialFunctions.Trigonometric.Basic
import Mathlib.Analysis.SpecialFunctions.Log.Basic
import Mathlib.Analysis.SpecialFunctions.Pow.Real
import Mathlib.Analysis.Complex.Basic
/-
Exact arithmetic: a floating-point back end over `ℝ` whose operations are the real ones and whose
constants are ideal. Both values of the FMA flag occur.
-/
namespace Kofft

/-- `F` computes exactly. -/
structure Lawful (F : Flt ℝ) : Prop where
  add : ∀ a b, F.add a b = a + b
  sub : ∀ a b, F.sub a b = a - b
  mul : ∀ a b, F.mul a b = a * b
  div : ∀ a b, F.div a b = a / b
  neg : ∀ a, F.neg a = -a
  zero : F.zero = 0
  one : F.one = 1
  ofNat : ∀ n, F.ofNat n = n
  ofNatD : ∀ n, F.ofNatD n = n
  lit : ∀ m e, F.lit m e = m / 10 ^ e
  pi : F.pi = Real.pi
  sin : ∀ a, F.sin a = Real.sin a
  cos : ∀ a, F.cos a = Real.cos a
  mulAdd : ∀ a b c, F.mulAdd a b c = a * b + c
  sqrt : ∀ a, F.sqrt a = Real.sqrt a
  abs : ∀ a, F.abs a = |a|
  log : ∀ a, F.log a = Real.log a
  log10 : ∀ a, F.log10 a = Real.log a / Real.log 10
  pow : ∀ a b, F.pow a b = a ^ b
  floor : ∀ a, F.floor a = (⌊a⌋ : ℤ)
  round : ∀ a, 0 ≤ a → F.round a = (⌊a + 1 / 2⌋ : ℤ)
  toNat : ∀ a, F.toNat a = ⌊a⌋₊
  lt : ∀ a b, F.lt a b = true ↔ a < b
  le : ∀ a b, F.le a b = true ↔ a ≤ b
  feq : ∀ a b, F.feq a b = true ↔ a = b
  sqrtHalf : F.sqrtHalf = Real.sqrt 2 / 2
  cosPi8 : F.cosPi8 = Real.cos (Real.pi / 8)
  sinPi8 : F.sinPi8 = Real.sin (Real.pi / 8)
  printParse : ∀ a, F.printParse a = a

open Classical in
/-- The exact back end, for either FMA flag. -/
noncomputable def realFlt (fma : Bool) : Flt ℝ where
  add := (· + ·)
  sub := (· - ·)
  mul := (· * ·)
  div := (· / ·)
  neg := (- ·)
  zero := 0
  one := 1
  ofNat := fun n => n
  ofNatD := fun n => n
  lit := fun m e => m / 10 ^ e
  pi := Real.pi
  sin := Real.sin
  cos := Real.cos
  mulAdd := fun a b c => a * b + c
  sqrt := Real.sqrt
  abs := fun a => |a|
  log := Real.log
  log10 := fun a => Real.log a / Real.log 10
  pow := fun a b => a ^ b
  floor := fun a => (⌊a⌋ : ℤ)
  round := fun a => if 0 ≤ a then (⌊a + 1 / 2⌋ : ℤ) else -(⌊-a + 1 / 2⌋ : ℤ)
  toNat := fun a => ⌊a⌋₊
  lt := fun a b => decide (a < b)
  le := fun a b => decide (a ≤ b)
  feq := fun a b => decide (a = b)
  sqrtHalf := Real.sqrt 2 / 2
  cosPi8 := Real.cos (Real.pi / 8)
  sinPi8 := Real.sin (Real.pi / 8)
  printParse := fun a => a
  fma := fma

/-- The laws are satisfiable, with and without FMA. -/
theorem realFlt_lawful (fma : Bool) : Lawful (realFlt fma) := by
  constructor <;> first
    | (intros; rfl)
    | rfl
    | (intro a h; exact if_pos h)
    | (intro a b; exact decide_eq_true_iff)

/-- The complex number a pair denotes. -/
noncomputable def toC (a : Cx ℝ) : ℂ := ⟨a.re, a.im⟩

theorem toC_inj {a b : Cx ℝ} (h : toC a = toC b) : a = b := by
  cases a; cases b
  simp only [toC, Complex.mk.injEq] at h
  simp [h.1, h.2]

@[simp] theorem toC_re (a : Cx ℝ) : (toC a).re = a.re := rfl
@[simp] theorem toC_im (a : Cx ℝ) : (toC a).im = a.im := rfl

/-- The pair denoting a complex number. -/
def ofC (z : ℂ) : Cx ℝ := ⟨z.re, z.im⟩

@[simp] theorem toC_ofC (z : ℂ) : toC (ofC z) = z := rfl
@[simp] theorem ofC_toC (a : Cx ℝ) : ofC (toC a) = a := rfl

variable [F : Flt ℝ]

theorem toC_zero (h : Lawful F) : toC Cx.zero = 0 := by
  apply Complex.ext <;> simp [toC, Cx.zero, h.zero]

theorem toC_add (h : Lawful F) (a b : Cx ℝ) : toC (a.add b) = toC a + toC b := by
  apply Complex.ext <;> simp [toC, Cx.add, h.add]

theorem toC_sub (h : Lawful F) (a b : Cx ℝ) : toC (a.sub b) = toC a - toC b := by
  apply Complex.ext <;> simp [toC, Cx.sub, h.sub]

theorem toC_mulPlain (h : Lawful F) (a b : Cx ℝ) : toC (a.mulPlain b) = toC a * toC b := by
  apply Complex.ext <;> simp [toC, Cx.mulPlain, h.add, h.sub, h.mul]

theorem toC_mulFma (h : Lawful F) (a b : Cx ℝ) : toC (a.mulFma b) = toC a * toC b := by
  apply Complex.ext <;> simp [toC, Cx.mulFma, h.mul, h.mulAdd, h.neg]
  ring

theorem toC_mul (h : Lawful F) (a b : Cx ℝ) : toC (a.mul b) = toC a * toC b := by
  unfold Cx.mul
  split
  · exact toC_mulFma h a b
  · exact toC_mulPlain h a b

theorem toC_neg (h : Lawful F) (a : Cx ℝ) : toC a.neg = - toC a := by
  apply Complex.ext <;> simp [toC, Cx.neg, h.neg]

theorem toC_conj (h : Lawful F) (a : Cx ℝ) : toC a.conj = (starRingEnd ℂ) (toC a) := by
  apply Complex.ext <;> simp [toC, Cx.conj, h.neg]

theorem toC_expi (h : Lawful F) (t : ℝ) : toC (Cx.expi t) = Complex.exp (t * Complex.I) := by
  rw [Complex.exp_mul_I]
  apply Complex.ext <;>
    simp [toC, Cx.expi, h.cos, h.sin, Complex.cos_ofReal_re, Complex.sin_ofReal_re]

theorem toC_scale (h : Lawful F) (a : Cx ℝ) (s : ℝ) : toC ⟨F.mul a.re s, F.mul a.im s⟩ = toC a * s := by
  apply Complex.ext <;> simp [toC, h.mul]

end Kofft
