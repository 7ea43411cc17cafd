import Mathlib.Analysis.SpecialFunctions.Trigonometric.Basic
import Mathlib.Algebra.BigOperators.Intervals
/-
Specification: the textbook formulas of the cosine, sine and Hartley transforms of a real signal `x` of `n`
samples (`x t` is sample `t`).
-/
namespace Kofft.Spec
open Finset Real

/-- DCT-I: the end samples count once, the others twice. -/
noncomputable def dctI (n : ℕ) (x : ℕ → ℝ) (k : ℕ) : ℝ :=
  x 0 + (-1) ^ k * x (n - 1) + 2 * ∑ i ∈ Ico 1 (n - 1), x i * cos (π * i * k / (n - 1))

/-- DCT-II. -/
noncomputable def dctII (n : ℕ) (x : ℕ → ℝ) (k : ℕ) : ℝ :=
  ∑ i ∈ range n, x i * cos (π * (i + 1 / 2) * k / n)

/-- DCT-III. -/
noncomputable def dctIII (n : ℕ) (x : ℕ → ℝ) (k : ℕ) : ℝ :=
  x 0 / 2 + ∑ i ∈ Ico 1 n, x i * cos (π * i * (k + 1 / 2) / n)

/-- DCT-IV. -/
noncomputable def dctIV (n : ℕ) (x : ℕ → ℝ) (k : ℕ) : ℝ :=
  ∑ i ∈ range n, x i * cos (π * (i + 1 / 2) * (k + 1 / 2) / n)

/-- DST-I. -/
noncomputable def dstI (n : ℕ) (x : ℕ → ℝ) (k : ℕ) : ℝ :=
  ∑ i ∈ range n, x i * sin (π * (i + 1) * (k + 1) / (n + 1))

/-- DST-II. -/
noncomputable def dstII (n : ℕ) (x : ℕ → ℝ) (k : ℕ) : ℝ :=
  ∑ i ∈ range n, x i * sin (π * (i + 1 / 2) * (k + 1) / n)

/-- DST-III, textbook: the last sample counts half, with alternating sign. -/
noncomputable def dstIII (n : ℕ) (x : ℕ → ℝ) (k : ℕ) : ℝ :=
  (-1) ^ k * x (n - 1) / 2 + ∑ i ∈ range (n - 1), x i * sin (π * (i + 1) * (k + 1 / 2) / n)

/-- DST-IV. -/
noncomputable def dstIV (n : ℕ) (x : ℕ → ℝ) (k : ℕ) : ℝ :=
  ∑ i ∈ range n, x i * sin (π * (i + 1 / 2) * (k + 1 / 2) / n)

/-- Hartley transform, `cas θ = cos θ + sin θ`. -/
noncomputable def hartley (n : ℕ) (x : ℕ → ℝ) (k : ℕ) : ℝ :=
  ∑ i ∈ range n, x i * (cos (2 * π * i * k / n) + sin (2 * π * i * k / n))

/-- `y` is what transform `f` makes of `x`: same length, every sample given by the formula. -/
def Computes (f : ℕ → (ℕ → ℝ) → ℕ → ℝ) (x y : List ℝ) : Prop :=
  y.length = x.length ∧ ∀ k, k < x.length → y.getD k 0 = f x.length (fun t => x.getD t 0) k

/-- `y` is what transform `f` makes of `x`, up to an error `ε` in every sample. -/
def ComputesWithin (ε : ℝ) (f : ℕ → (ℕ → ℝ) → ℕ → ℝ) (x y : List ℝ) : Prop :=
  y.length = x.length ∧ ∀ k, k < x.length → |y.getD k 0 - f x.length (fun t => x.getD t 0) k| ≤ ε

end Kofft.Spec
