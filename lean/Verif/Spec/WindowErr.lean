import Mathlib.Analysis.Real.Pi.Bounds
/-
Specification for C115: the error bounds of the remaining windows.
-/
namespace Kofft.Spec

/-- `1 +` the error of a cosine (accurate to `t`) of an angle of at most `6π` that was computed with eight roundings, times
six roundings. -/
noncomputable def windowsGrowth (u t : ℝ) : ℝ :=
  (1 / (1 - u)) ^ 6 * (1 + (t + ((1 / (1 - u)) ^ 8 - 1) * (6 * Real.pi)))

end Kofft.Spec
