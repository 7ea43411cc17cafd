import Verif.Spec.Nearest
/-
Specification for C116: arithmetic in which an operation whose exact result is representable returns that result.
-/
namespace Kofft.Spec

/-- An elementary operation whose exact result has at most `p` significant bits returns it (true of IEEE 754 arithmetic in
every rounding direction, overflow and underflow left out, numbers compared by value so that the two zeros are equal).
Powers of two convert exactly, `cos 0 = 1`, `sin 0 = 0`, and 0 and 1 survive being printed and parsed. A multiply-add, fused
or not, is exact when both the product and the result are representable. -/
structure ExactWhereRepresentable (p : ℕ) (F : Flt ℝ) : Prop where
  add : ∀ a b, IsRepr p (a + b) → F.add a b = a + b
  sub : ∀ a b, IsRepr p (a - b) → F.sub a b = a - b
  mul : ∀ a b, IsRepr p (a * b) → F.mul a b = a * b
  div : ∀ a b, b ≠ 0 → IsRepr p (a / b) → F.div a b = a / b
  mulAdd : ∀ a b c, IsRepr p (a * b) → IsRepr p (a * b + c) → F.mulAdd a b c = a * b + c
  neg : ∀ a, F.neg a = -a
  zero : F.zero = 0
  one : F.one = 1
  ofNat : ∀ k : ℕ, F.ofNat (2 ^ k) = 2 ^ k
  ofNatD : ∀ k : ℕ, F.ofNatD (2 ^ k) = 2 ^ k
  ofNatD_zero : F.ofNatD 0 = 0
  cos_zero : F.cos 0 = 1
  sin_zero : F.sin 0 = 0
  print_zero : F.printParse 0 = 0
  print_one : F.printParse 1 = 1

/-- Both parts are representable. -/
def CRepr (p : ℕ) (c : Cx ℝ) : Prop := IsRepr p c.re ∧ IsRepr p c.im

/-- One sample `r` followed by zeros, `n` samples in all. -/
def impulse (n : ℕ) (r : Cx ℝ) : List (Cx ℝ) := r :: List.replicate (n - 1) ⟨0, 0⟩

/-- `k` times a complex number. -/
def times (k : ℝ) (c : Cx ℝ) : Cx ℝ := ⟨k * c.re, k * c.im⟩

end Kofft.Spec
