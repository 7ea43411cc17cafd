import Verif.Spec.Ieee
import Verif.Spec.Sticky
/-
Specification: arithmetic in which results that are too large are lost.
-/
namespace Kofft.Spec

/-- `num` says a number is neither an infinity nor a NaN. A number that is lost stays lost (`Sticky`), and a sum, product
or multiply-add of finite numbers whose exact value exceeds `Ω'` is lost. (With separate roundings in a multiply-add,
`Ω'` is slightly larger than the largest number.) -/
structure Overflows {T : Type} (F : Flt T) (N : Denote T) (num : T → Prop) (Ω' : ℝ) : Prop where
  sticky : Sticky F num
  add : ∀ a b, N.fin a → N.fin b → num (F.add a b) → |N.val a + N.val b| ≤ Ω'
  mul : ∀ a b, N.fin a → N.fin b → num (F.mul a b) → |N.val a * N.val b| ≤ Ω'
  mulAdd : ∀ a b c, N.fin a → N.fin b → N.fin c → num (F.mulAdd a b c) → |N.val a * N.val b + N.val c| ≤ Ω'

/-- The buffer holds an impulse: the real number `r` first, then zeros. -/
def Impulse {T : Type} (N : Denote T) (r : ℝ) (x : List (Cx T)) : Prop :=
  (∀ c ∈ x, N.cfin c) ∧ N.csig x 0 = r ∧ ∀ i, 0 < i → N.csig x i = 0

end Kofft.Spec
