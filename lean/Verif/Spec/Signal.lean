import Verif.Spec.Dft
import Verif.Lib.Lawful
/-
Specification vocabulary: what it means for one complex buffer to be the DFT of another.
-/
namespace Kofft.Spec

/-- The complex number stored at position `t` (0 outside the buffer). -/
noncomputable def sig (x : List (Cx ℝ)) (t : ℕ) : ℂ :=
  match x[t]? with
  | some c => ⟨c.re, c.im⟩
  | none => 0

/-- `y` is the forward DFT of `x`: same length, `y[k] = Σ_{t<n} x[t]·exp(-2πi k t / n)`. -/
def IsDft (x y : List (Cx ℝ)) : Prop :=
  y.length = x.length ∧ ∀ k, k < x.length → sig y k = dft x.length (sig x) k

/-- `y` is the inverse DFT of `x`: `y[t] = (1/n) Σ_{k<n} x[k]·exp(+2πi k t / n)`. -/
def IsIdft (x y : List (Cx ℝ)) : Prop :=
  y.length = x.length ∧ ∀ t, t < x.length → sig y t = idft x.length (sig x) t

end Kofft.Spec
