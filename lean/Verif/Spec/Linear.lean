import Verif.Model.Num
import Mathlib.Data.List.Forall2
/-
Relations between numbers that linear operations preserve.
-/
namespace Kofft.Spec

/-- A relation between numbers that the operations of a linear computation preserve: it relates zero to itself, and goes
through addition, subtraction, negation, multiplication of the data by any constant (on either side), fused multiply-add,
halving, and division by a number above the threshold `1e-8` below which overlap-add does not divide.
Examples, in an arithmetic where they are exact: `b = -a`; `b = 2^k · a`; `a = b = 0`. -/
structure LinRel {T : Type} [F : Flt T] (R : T → T → Prop) : Prop where
  zero : R Flt.zero Flt.zero
  add : ∀ {a b a' b'}, R a a' → R b b' → R (a +. b) (a' +. b')
  sub : ∀ {a b a' b'}, R a a' → R b b' → R (a -. b) (a' -. b')
  neg : ∀ {a a'}, R a a' → R (-. a) (-. a')
  mul : ∀ {a a'} (c : T), R a a' → R (a *. c) (a' *. c)
  mulLeft : ∀ {a a'} (c : T), R a a' → R (c *. a) (c *. a')
  mulAdd : ∀ {a a' b b'} (c : T), R a a' → R b b' → R (Flt.mulAdd a c b) (Flt.mulAdd a' c b')
  mulAddLeft : ∀ {a a' b b'} (c : T), R a a' → R b b' → R (Flt.mulAdd c a b) (Flt.mulAdd c a' b')
  halve : ∀ {a a'}, R a a' → R (a /. Flt.lit 2 0) (a' /. Flt.lit 2 0)
  div : ∀ {a a'} (c : T), Flt.lt (Flt.lit 1 8) c = true → R a a' → R (a /. c) (a' /. c)

/-- The relation on complex numbers, component by component. -/
def CxRel {T : Type} (R : T → T → Prop) (a b : Cx T) : Prop := R a.re b.re ∧ R a.im b.im

/-- The relation on buffers: same length, related element by element. -/
abbrev BufRel {T : Type} (R : T → T → Prop) : List (Cx T) → List (Cx T) → Prop := List.Forall₂ (CxRel R)

end Kofft.Spec
