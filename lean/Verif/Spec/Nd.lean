import Verif.Spec.Signal
import Verif.Spec.Reach
/-
Specification: two- and three-dimensional discrete Fourier transforms of row-major arrays.
-/
namespace Kofft.Spec
open Finset

/-- `Σ_{r'<R} Σ_{c'<C} x[r'·C+c'] · exp(-2πi r r'/R) · exp(-2πi c c'/C)`. -/
noncomputable def dft2 (R C : ℕ) (x : ℕ → ℂ) (r c : ℕ) : ℂ :=
  ∑ r' ∈ range R, ∑ c' ∈ range C, x (r' * C + c') * W R (r * r') * W C (c * c')

/-- `y` is the 2D DFT of the `R × C` row-major array `x`. -/
def IsDft2 (R C : ℕ) (x y : List (Cx ℝ)) : Prop :=
  y.length = x.length ∧ ∀ r c, r < R → c < C → sig y (r * C + c) = dft2 R C (sig x) r c

/-- The three-dimensional sum, `x[(d'·R+r')·C+c']`. -/
noncomputable def dft3 (D R C : ℕ) (x : ℕ → ℂ) (d r c : ℕ) : ℂ :=
  ∑ d' ∈ range D, ∑ r' ∈ range R, ∑ c' ∈ range C,
    x ((d' * R + r') * C + c') * W D (d * d') * W R (r * r') * W C (c * c')

/-- `y` is the 3D DFT of the `D × R × C` row-major array `x`. -/
def IsDft3 (D R C : ℕ) (x y : List (Cx ℝ)) : Prop :=
  y.length = x.length ∧
    ∀ d r c, d < D → r < R → c < C → sig y ((d * R + r) * C + c) = dft3 D R C (sig x) d r c

/-- With everything computed so far no larger than internal size `B`, a transform of length `n` is
unaffected by leftovers: its internal size is at least `B`, or it is a power of two that is at most 16
or computed for an element type other than f32/f64. -/
def Unaffected (cfg : Cfg) (B n : ℕ) : Prop :=
  B ≤ workSize n ∨ ((∃ k, n = 2 ^ k) ∧ (n ≤ 16 ∨ cfg.kind = .other))

end Kofft.Spec
