import Verif.Model.Wavelet
/-
What the wavelet properties refer to.
-/
namespace Kofft.Spec

/-- How a single-level transform pair treats lengths: analysis always returns two halves; synthesis needs at least as many
details as averages and then returns two samples per average; with fewer details it panics. -/
structure HalfBank {T : Type} (fwd : List T → Outcome (List T × List T)) (inv : List T → List T → Outcome (List T)) :
    Prop where
  fwd_ok : ∀ x, ∃ a d, fwd x = .ok (a, d) ∧ a.length = x.length / 2 ∧ d.length = x.length / 2
  inv_ok : ∀ a d : List T, a.length ≤ d.length → ∃ y, inv a d = .ok y ∧ y.length = 2 * a.length
  inv_panic : ∀ a d : List T, d.length < a.length → inv a d = .panic

/-- Every length that occurs strictly between the first and the last level is even. -/
def EvenLevels (levels len : Nat) : Prop := levels = 0 ∨ 2 ^ (levels - 1) ∣ (len + 1) / 2

/-- Mirroring at the two end samples: the value at any integer position of a signal of `len ≥ 2` samples continued with
period `2 (len - 1)`. -/
def mirrorAt (len : Nat) (idx : Int) (r : Nat) : Prop :=
  r < len ∧ ((2 * ((len : Int) - 1)) ∣ ((r : Int) - idx) ∨ (2 * ((len : Int) - 1)) ∣ ((r : Int) + idx))

end Kofft.Spec
