import Verif.Spec.StftMagErr
import Verif.Spec.Display
import Verif.Spec.Dft
/-
Specification: the picture of a sound.
-/
namespace Kofft.Spec

/-- The absolute value of bin `y` of the Fourier transform of the `n` samples from `x · hop`, under the periodic Hann window;
the samples are continued by zeros. -/
noncomputable def binMag (samples : List ℝ) (n hop x y : ℕ) : ℝ :=
  ‖∑ s ∈ Finset.range n, ((samples.getD (x * hop + s) 0 * (1 / 2 - 1 / 2 * Real.cos (2 * Real.pi * s / n)) : ℝ) : ℂ) *
    W n (y * s)‖

/-- No component of the two colours differs by more than `k`. -/
def ColourWithin (k : ℝ) (a b : Rgb) : Prop :=
  |(a.r : ℝ) - b.r| ≤ k ∧ |(a.g : ℝ) - b.g| ≤ k ∧ |(a.b : ℝ) - b.b| ≤ k

/-- The ratio of amplitudes that is `dr` decibels down. -/
noncomputable def floorRatio (dr : ℝ) : ℝ := Real.exp (-(dr * Real.log 10 / 20))

end Kofft.Spec
