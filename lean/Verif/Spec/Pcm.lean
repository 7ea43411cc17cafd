import Mathlib.Data.Real.Basic
import Mathlib.Algebra.BigOperators.Intervals
/-
Integer samples at a common scale, and the Haar coefficients they should have.
-/
namespace Kofft.Spec
open Finset

/-- `x` is an integer of at most `B` units of `2^s`: 16-bit audio has `B = 2^15`, with `s = 0` or (scaled to `[-1, 1]`) `s = -15`. -/
def Pcm (s : ℤ) (B : ℕ) (x : ℝ) : Prop := ∃ m : ℤ, |m| ≤ B ∧ x = m * (2 : ℝ) ^ s

/-- The sum of the `n` samples from index `i` on. -/
noncomputable def sumFrom (x : List ℝ) (i n : ℕ) : ℝ := ∑ k ∈ range n, x.getD (i + k) 0

end Kofft.Spec
