import Verif.Spec.Nearest
import Verif.Model.Visual
/-
Specification: what the spectrogram colours need of the floating-point arithmetic.
-/
namespace Kofft.Spec

/-- Rounding to nearest with `p` bits (`RoundsToNearest`); comparisons, negation and rounding to an integer are exact;
constants of the source are correctly rounded; `log10` has a relative error of at most `w`. -/
structure Display (p : ℕ) (F : Flt ℝ) (w : ℝ) : Prop extends RoundsToNearest p F where
  w_nonneg : 0 ≤ w
  neg : ∀ a, F.neg a = -a
  lt : ∀ a b, F.lt a b = true ↔ a < b
  feq : ∀ a b, F.feq a b = true ↔ a = b
  lit : ∀ (m : ℤ) (e : ℕ), Nearest p (m / 10 ^ e) (F.lit m e)
  round : ∀ a, 0 ≤ a → F.round a = (⌊a + 1 / 2⌋ : ℤ)
  log10 : ∀ a, 0 < a → |F.log10 a - Real.log a / Real.log 10| ≤ w * |Real.log a / Real.log 10|

/-- No component of the two colours differs by more than one. -/
def SameColour (a b : Rgb) : Prop :=
  (a.r ≤ b.r + 1 ∧ b.r ≤ a.r + 1) ∧ (a.g ≤ b.g + 1 ∧ b.g ≤ a.g + 1) ∧ (a.b ≤ b.b + 1 ∧ b.b ≤ a.b + 1)

end Kofft.Spec
