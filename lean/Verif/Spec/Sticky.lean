import Verif.Model.Num
/-
Specification: arithmetics in which a number that is not finite never turns into a finite one.
-/
namespace Kofft.Spec

/-- `fin` says a number is finite (neither an infinity nor a NaN). As in IEEE 754, a finite sum, difference, product,
negation or fused multiply-add has finite operands, a finite quotient a finite dividend. (`inf * 0` and `inf - inf` are
NaN; but `1 / inf` is finite.) -/
structure Sticky {T : Type} (F : Flt T) (fin : T → Prop) : Prop where
  add : ∀ a b, fin (F.add a b) → fin a ∧ fin b
  sub : ∀ a b, fin (F.sub a b) → fin a ∧ fin b
  mul : ∀ a b, fin (F.mul a b) → fin a ∧ fin b
  div : ∀ a b, fin (F.div a b) → fin a
  neg : ∀ a, fin (F.neg a) → fin a
  mulAdd : ∀ a b c, fin (F.mulAdd a b c) → fin a ∧ fin b ∧ fin c

/-- Division by zero gives an infinity or a NaN, and the functions of a number that is not finite are not finite, as in
IEEE 754 (`cos`, `sin` of an infinity and `sqrt` of `-inf` are NaN); small integers are exact. -/
structure ZeroDivision {T : Type} (F : Flt T) (fin : T → Prop) : Prop where
  div_zero : ∀ a, ¬ fin (F.div a F.zero)
  abs : ∀ a, fin (F.abs a) → fin a
  cos : ∀ a, fin (F.cos a) → fin a
  sin : ∀ a, fin (F.sin a) → fin a
  sqrt : ∀ a, fin (F.sqrt a) → fin a
  ofNatD_zero : F.ofNatD 0 = F.zero
  ofNatD_one : F.ofNatD 1 = F.one
  one_sub_one : F.sub F.one F.one = F.zero
  zero_div_two : F.div F.zero (F.lit 2 0) = F.zero

/-- Both parts are finite. -/
def CFin {T : Type} (fin : T → Prop) (c : Cx T) : Prop := fin c.re ∧ fin c.im

end Kofft.Spec
