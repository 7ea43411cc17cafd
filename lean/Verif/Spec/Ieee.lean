import Verif.Spec.Rounding
import Verif.Spec.Reach
import Verif.Spec.Signal
/-
Specification: floating-point arithmetic with a bounded exponent range. Results too large for the range are not finite
(overflow), results near zero are subnormal (gradual underflow), as in IEEE 754. No code is used here except the
interface `Flt`.
-/
namespace Kofft.Spec

/-- How the numbers of a floating-point type denote real numbers: `fin a` says `a` is finite (neither an infinity nor a
NaN), and then `val a` is its value. -/
structure Denote (T : Type) where
  fin : T → Prop
  val : T → ℝ

/-- `F` is a floating-point arithmetic with numbers of magnitude up to `Ω`: as long as the operands are finite and the
exact result does not exceed `Ω`, the result is finite and correct up to a relative error `u` plus, for multiplication
and division, an absolute error `η` (half the smallest subnormal). Additions have no absolute error: sums of subnormal
numbers are exact. Nothing is assumed about operations on numbers that are not finite, or whose result is too large.
`v` bounds the relative error of a conversion through `f32`, `t` the absolute error of `sin`, `cos` and of printing a
table entry in decimal. For `f32`: `u = v = 2⁻²⁴`, `η = 2⁻¹⁵⁰`, `Ω = 2¹²⁸ - 2¹⁰⁴`; for `f64`: `u = 2⁻⁵³`, `v = 2⁻²⁴`,
`η = 2⁻¹⁰⁷⁵`, `Ω = 2¹⁰²⁴ - 2⁹⁷¹`. -/
structure Ieee {T : Type} (F : Flt T) (N : Denote T) (u η Ω v t : ℝ) : Prop where
  u_nonneg : 0 ≤ u
  eta_nonneg : 0 ≤ η
  v_nonneg : 0 ≤ v
  v_le : v ≤ 1 / 2
  t_nonneg : 0 ≤ t
  t_le : t ≤ 1
  big : 1000000 ≤ Ω
  add : ∀ a b, N.fin a → N.fin b → |N.val a + N.val b| ≤ Ω →
    N.fin (F.add a b) ∧ |N.val (F.add a b) - (N.val a + N.val b)| ≤ u * |N.val a + N.val b|
  sub : ∀ a b, N.fin a → N.fin b → |N.val a - N.val b| ≤ Ω →
    N.fin (F.sub a b) ∧ |N.val (F.sub a b) - (N.val a - N.val b)| ≤ u * |N.val a - N.val b|
  mul : ∀ a b, N.fin a → N.fin b → |N.val a * N.val b| ≤ Ω →
    N.fin (F.mul a b) ∧ |N.val (F.mul a b) - N.val a * N.val b| ≤ u * |N.val a * N.val b| + η
  div : ∀ a b, N.fin a → N.fin b → N.val b ≠ 0 → |N.val a / N.val b| ≤ Ω →
    N.fin (F.div a b) ∧ |N.val (F.div a b) - N.val a / N.val b| ≤ u * |N.val a / N.val b| + η
  /-- one or two roundings -/
  mulAdd : ∀ a b c, N.fin a → N.fin b → N.fin c → (1 + u) * |N.val a * N.val b| + η + |N.val c| ≤ Ω →
    N.fin (F.mulAdd a b c) ∧ |N.val (F.mulAdd a b c) - (N.val a * N.val b + N.val c)| ≤
      u * |N.val a * N.val b| + u * |N.val a * N.val b + N.val c| + u ^ 2 * |N.val a * N.val b| + (1 + u) * η
  neg : ∀ a, N.fin a → N.fin (F.neg a) ∧ N.val (F.neg a) = - N.val a
  zero : N.fin F.zero ∧ N.val F.zero = 0
  one : N.fin F.one ∧ N.val F.one = 1
  two : N.fin (F.lit 2 0) ∧ N.val (F.lit 2 0) = 2
  /-- the literal `0.5` -/
  half : N.fin (F.lit 5 1) ∧ N.val (F.lit 5 1) = 1 / 2
  /-- conversion of a `usize` (through `f32`) -/
  ofNat : ∀ n : ℕ, n < 2 ^ 64 → N.fin (F.ofNat n) ∧ |N.val (F.ofNat n) - n| ≤ v * n
  ofNat_pow : ∀ k : ℕ, k < 64 → N.val (F.ofNat (2 ^ k)) = 2 ^ k
  ofNatD : ∀ n, n ≤ 1024 → N.fin (F.ofNatD n) ∧ N.val (F.ofNatD n) = n
  pi : N.fin F.pi ∧ |N.val F.pi - Real.pi| ≤ u * Real.pi
  cos : ∀ a, N.fin a → N.fin (F.cos a) ∧ |N.val (F.cos a) - Real.cos (N.val a)| ≤ t
  sin : ∀ a, N.fin a → N.fin (F.sin a) ∧ |N.val (F.sin a) - Real.sin (N.val a)| ≤ t
  printParse : ∀ a, N.fin a → |N.val a| ≤ 2 →
    N.fin (F.printParse a) ∧ |N.val (F.printParse a) - N.val a| ≤ t * max 1 |N.val a|
  sqrtHalf : N.fin F.sqrtHalf ∧ |N.val F.sqrtHalf - Real.sqrt 2 / 2| ≤ v
  cosPi8 : N.fin F.cosPi8 ∧ |N.val F.cosPi8 - Real.cos (Real.pi / 8)| ≤ v
  sinPi8 : N.fin F.sinPi8 ∧ |N.val F.sinPi8 - Real.sin (Real.pi / 8)| ≤ v

namespace Denote
variable {T : Type} (N : Denote T)

/-- A complex number is finite if both parts are. -/
def cfin (a : Cx T) : Prop := N.fin a.re ∧ N.fin a.im

/-- The complex number denoted. -/
def cval (a : Cx T) : ℂ := ⟨N.val a.re, N.val a.im⟩

/-- The signal denoted by a buffer, zero outside. -/
noncomputable def csig (x : List (Cx T)) (i : ℕ) : ℂ := (x[i]?.map N.cval).getD 0

end Denote

/-- The effective relative error when quantities below `D` count as `D`: the absolute error `η` of an underflow is at
most `η / D` of any of them. -/
noncomputable def effErr (u η D : ℝ) : ℝ := u + 2 * η / D

/-- What the relative error refers to: the sum of the magnitudes, times `2n` for the lengths that go through a
convolution with the chirp. -/
noncomputable def ieeeWeight (n : ℕ) : ℝ := if isPow2 n then 1 else 2 * n

/-- How much larger than the result the intermediate values can be: the unscaled convolution is `m` times larger. -/
noncomputable def ieeeRoom (n : ℕ) : ℝ := if isPow2 n then 1 else 2 * n * workSize n

end Kofft.Spec
