import Verif.Lib.Lawful
/-
Specification: floating-point arithmetic with `p` significant bits that rounds every result to a nearest
representable number. How ties are broken is left open.
-/
namespace Kofft.Spec

/-- Numbers with `p` significant binary digits. -/
def IsRepr (p : ℕ) (x : ℝ) : Prop := ∃ m e : ℤ, |m| < 2 ^ p ∧ x = m * (2 : ℝ) ^ e

/-- `y` is a representable number, and none is closer to `x`. -/
def Nearest (p : ℕ) (x y : ℝ) : Prop := IsRepr p y ∧ ∀ z, IsRepr p z → |y - x| ≤ |z - x|

/-- Every elementary operation returns a nearest representable number (as IEEE 754 requires of every rounding to
nearest; overflow and underflow are left out). -/
structure RoundsToNearest (p : ℕ) (F : Flt ℝ) : Prop where
  add : ∀ a b, Nearest p (a + b) (F.add a b)
  sub : ∀ a b, Nearest p (a - b) (F.sub a b)
  mul : ∀ a b, Nearest p (a * b) (F.mul a b)
  div : ∀ a b, b ≠ 0 → Nearest p (a / b) (F.div a b)
  zero : F.zero = 0
  one : F.one = 1
  abs : ∀ a, F.abs a = |a|
  ofNatD : ∀ n : ℕ, Nearest p n (F.ofNatD n)
  two : F.lit 2 0 = 2
  ofNat : ∀ n : ℕ, Nearest p n (F.ofNat n)
  floor : ∀ a, F.floor a = (⌊a⌋ : ℤ)
  toNat : ∀ a, F.toNat a = ⌊a⌋₊
  cos_zero : F.cos 0 = 1
  le : ∀ a b, F.le a b = true ↔ a ≤ b

end Kofft.Spec
