import Verif.Spec.Rounding
/-
Specification: error bound of the magnitudes of a spectrogram.
-/
namespace Kofft.Spec

/-- Error of one value of `stft_magnitudes` relative to the sum of the absolute values of the samples under the window:
window, multiplication by it, transform, and modulus. -/
noncomputable def stftMagErr (cfg : Cfg) (u v t w : ℝ) (n : ℕ) : ℝ :=
  (1 + u) ^ 2 * (1 + w) * (1 + fftWeight n * ((1 + u) * windowGrowth u v t * fftGrowth cfg u v t n - 1)) - 1

end Kofft.Spec
