import Verif.Lib.Lawful
/-
Specification: what the logarithm of the arithmetic must satisfy for the logarithmic frequency axis.
-/
namespace Kofft.Spec

/-- The logarithm of the arithmetic is zero at one, positive above, and grows up to a relative error `w` (`w = 0`: it is
monotone). -/
structure LogGrows (F : Flt ℝ) (w : ℝ) : Prop where
  w_nonneg : 0 ≤ w
  one : F.log 1 = 0
  pos : ∀ a, 1 < a → 0 < F.log a
  grows : ∀ a b, 1 ≤ a → a ≤ b → F.log a ≤ (1 + w) * F.log b

end Kofft.Spec
