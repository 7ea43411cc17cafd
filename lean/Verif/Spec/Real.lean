import Verif.Spec.Signal
/-
Specification vocabulary for real signals and half spectra.
-/
namespace Kofft.Spec

/-- The real sample at position `t`, as a complex number (0 outside the buffer). -/
noncomputable def rsig (x : List ℝ) (t : ℕ) : ℂ := ((x.getD t 0 : ℝ) : ℂ)

/-- `y` holds bins `0 ..= N/2` of the `N`-point DFT of the real signal `x`. -/
def IsRdft (x : List ℝ) (y : List (Cx ℝ)) : Prop :=
  y.length = x.length / 2 + 1 ∧ ∀ k, k ≤ x.length / 2 → sig y k = dft x.length (rsig x) k

/-- The conjugate-symmetric `n`-bin spectrum whose bins `0 ..= n/2` are given by `X`; bins `0` and `n/2`
must be real in such a spectrum, so only their real parts count. -/
noncomputable def hermitian (n : ℕ) (X : ℕ → ℂ) (k : ℕ) : ℂ :=
  if k = 0 ∨ 2 * k = n then ((X k).re : ℂ)
  else if 2 * k < n then X k
  else (starRingEnd ℂ) (X (n - k))

/-- `y` is the real inverse DFT of the half spectrum `X`. -/
def IsIrdft (X : List (Cx ℝ)) (y : List ℝ) : Prop :=
  ∀ t, t < y.length → rsig y t = idft y.length (hermitian y.length (sig X)) t

end Kofft.Spec
