import Mathlib.Data.List.Basic
/-
Specification: CSS colours `#rrggbb`.
-/
namespace Kofft.Spec

/-- The value of a hexadecimal digit, upper or lower case. -/
def hexVal (c : Char) : Option Nat :=
  if '0' ≤ c ∧ c ≤ '9' then some (c.toNat - 48)
  else if 'a' ≤ c ∧ c ≤ 'f' then some (c.toNat - 87)
  else if 'A' ≤ c ∧ c ≤ 'F' then some (c.toNat - 55)
  else none

/-- Two hexadecimal digits. -/
def hexByte (a b : Char) : Option Nat :=
  match hexVal a, hexVal b with
  | some x, some y => some (16 * x + y)
  | _, _ => none

/-- The colour denoted by `#rrggbb`: red, green and blue, each from 0 to 255. Anything else is no colour. -/
def cssColor : List Char → Option (Nat × Nat × Nat)
  | ['#', a, b, c, d, e, f] =>
    match hexByte a b, hexByte c d, hexByte e f with
    | some r, some g, some bl => some (r, g, bl)
    | _, _, _ => none
  | _ => none

end Kofft.Spec
