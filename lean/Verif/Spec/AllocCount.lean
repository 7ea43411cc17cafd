import Verif.Model.AllocCount
import Mathlib.Order.Bounds.Defs
import Mathlib.Data.List.Infix
/-
What the numbers of the benchmark's allocation counter should mean, for C97.
-/
namespace Kofft.Spec
open AllocCount

/-- Bytes allocated minus bytes freed. -/
def liveBytes : List Act → Int
  | [] => 0
  | .add _ s :: es => s + liveBytes es
  | .free _ s :: es => -s + liveBytes es
  | _ :: es => liveBytes es

/-- The number of blocks allocated. -/
def blocks : List Act → Nat
  | [] => 0
  | .add _ _ :: es => 1 + blocks es
  | _ :: es => blocks es

/-- No thread is inside the allocator. -/
def Quiet (a : St) : Prop := ∀ i, a.pc i = .idle

/-- The step is by thread `i`. -/
def isBy (i : Nat) : Act → Bool
  | .null j | .count j _ | .add j _ | .load j | .exit j | .raise j | .fail j | .free j _ => i == j

/-- The step is a failed `compare_exchange` by thread `i`. -/
def isFail (i : Nat) : Act → Bool
  | .fail j => i == j
  | _ => false

/-- The step is a successful `compare_exchange` by a thread other than `i`. -/
def isRaiseNot (i : Nat) : Act → Bool
  | .raise j => i != j
  | _ => false

/-- The step begins an allocation by thread `i`. -/
def isCount (i : Nat) : Act → Bool
  | .count j _ => i == j
  | _ => false

/-- The step is a deallocation, or an allocation that failed, by thread `i`. -/
def isOther (i : Nat) : Act → Bool
  | .free j _ | .null j => i == j
  | _ => false

end Kofft.Spec
