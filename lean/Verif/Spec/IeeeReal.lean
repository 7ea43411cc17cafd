import Verif.Spec.Ieee
/-
Specification: the real signal denoted by a buffer of floating-point numbers.
-/
namespace Kofft.Spec.Denote

variable {T : Type} (N : Denote T)

/-- The real signal denoted by a buffer, zero outside, as complex numbers. -/
noncomputable def rsig (x : List T) (i : ℕ) : ℂ := (((x[i]?.map N.val).getD 0 : ℝ) : ℂ)

end Kofft.Spec.Denote
