import Mathlib.Analysis.Complex.Norm
/-
Specification: the Euclidean norm of a complex signal.
-/
namespace Kofft.Spec
open Finset

/-- Euclidean norm (root of the energy) of `v 0, …, v (n-1)`. -/
noncomputable def l2 (n : ℕ) (v : ℕ → ℂ) : ℝ := Real.sqrt (∑ i ∈ range n, ‖v i‖ ^ 2)

end Kofft.Spec
