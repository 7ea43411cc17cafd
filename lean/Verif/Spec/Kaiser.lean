import Mathlib.Analysis.Real.Sqrt
import Mathlib.Data.Nat.Factorial.Basic
import Mathlib.Topology.Algebra.InfiniteSum.Real
import Mathlib.Topology.Algebra.InfiniteSum.Basic
import Verif.Spec.Sticky
import Verif.Spec.Ieee
/-
Specification for C114: the modified Bessel function of the first kind of order zero, the Kaiser window, and an
arithmetic that loses results which are too large.
-/
namespace Kofft.Spec

/-- The modified Bessel function `I₀(x) = ∑ (x²/4)ⁿ / (n!)²`. -/
noncomputable def I0 (x : ℝ) : ℝ := ∑' n : ℕ, (x ^ 2 / 4) ^ n / ((n.factorial : ℝ)) ^ 2

/-- The textbook Kaiser window of length `len` and shape `beta`: `I₀(β √(1 - r²)) / I₀(β)`, `r = 2 i / (len - 1) - 1`. -/
noncomputable def kaiserWindow (len : ℕ) (beta : ℝ) (i : ℕ) : ℝ :=
  I0 (beta * Real.sqrt (1 - (2 * i / ((len : ℝ) - 1) - 1) ^ 2)) / I0 beta

/-- An arithmetic (`num`: not an infinity or NaN) in which a lost operand loses the result (`Sticky`), a product beyond
`Ω'` is lost, and every result that is not lost has relative error `u` (plus `η` for underflow). IEEE 754 binary32 is one,
with `Ω' = 2^128`, `u = 2^-24`, `η = 2^-150`. -/
structure Loses {T : Type} (F : Flt T) (N : Denote T) (num : T → Prop) (u η Ω' : ℝ) : Prop where
  sticky : Sticky F num
  sub : ∀ a b, N.fin a → N.fin b → num (F.sub a b) →
    N.fin (F.sub a b) ∧ |N.val (F.sub a b) - (N.val a - N.val b)| ≤ u * |N.val a - N.val b|
  mul : ∀ a b, N.fin a → N.fin b → num (F.mul a b) →
    |N.val a * N.val b| ≤ Ω' ∧ N.fin (F.mul a b) ∧ |N.val (F.mul a b) - N.val a * N.val b| ≤ u * |N.val a * N.val b| + η
  div : ∀ a b, N.fin a → N.fin b → N.val b ≠ 0 → num (F.div a b) →
    N.fin (F.div a b) ∧ |N.val (F.div a b) - N.val a / N.val b| ≤ u * |N.val a / N.val b| + η
  sqrt : ∀ a, N.fin a → 0 ≤ N.val a → num (F.sqrt a) →
    N.fin (F.sqrt a) ∧ |N.val (F.sqrt a) - Real.sqrt (N.val a)| ≤ u * Real.sqrt (N.val a) + η
  sqrt_num : ∀ a, num (F.sqrt a) → num a
  one : N.fin F.one ∧ N.val F.one = 1
  two : N.fin (F.lit 2 0) ∧ N.val (F.lit 2 0) = 2
  four : N.fin (F.lit 4 0) ∧ N.val (F.lit 4 0) = 4
  ofNatD : ∀ n, n ≤ 1024 → N.fin (F.ofNatD n) ∧ N.val (F.ofNatD n) = n

end Kofft.Spec
