import Mathlib.Analysis.SpecialFunctions.Complex.Circle
import Mathlib.Analysis.SpecialFunctions.Trigonometric.Basic
/-
Specification: the discrete Fourier transform over the complex numbers. Independent of the model.
-/
namespace Kofft.Spec

open Complex Finset

/-- `exp(-2πi j / n)`. -/
noncomputable def W (n j : ℕ) : ℂ := exp (-(2 * Real.pi * I * j / n))

/-- The `n`-point DFT of `x`, bin `k`: `Σ_{t<n} x t * exp(-2πi k t / n)`. -/
noncomputable def dft (n : ℕ) (x : ℕ → ℂ) (k : ℕ) : ℂ := ∑ t ∈ range n, x t * W n (k * t)

/-- The inverse: `(1/n) Σ_{k<n} X k * exp(+2πi k t / n)`. -/
noncomputable def idft (n : ℕ) (X : ℕ → ℂ) (t : ℕ) : ℂ :=
  (∑ k ∈ range n, X k * exp (2 * Real.pi * I * (k * t : ℕ) / n)) / n

end Kofft.Spec
