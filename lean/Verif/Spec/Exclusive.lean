import Mathlib.Data.List.Infix
/-
References to planners: a trace is the list of the instants at which a call makes a mutable reference to the planner of a
transformer (`planner_mut`), lets go of it, and runs operations of the element type.
-/
namespace Kofft.Spec

/-- What happens during a call. Transformers are numbered. -/
inductive RefEv
  /-- a mutable reference to the planner of transformer `o` is made -/
  | acquire (o : Nat)
  /-- … and is used for the last time -/
  | release (o : Nat)
  /-- operations of the element type (code the user may have written) run -/
  | work
  deriving DecidableEq

/-- How many references to the planner of `o` are alive after the events. -/
def alive (o : Nat) : List RefEv → Int
  | [] => 0
  | .acquire a :: t => (if a = o then 1 else 0) + alive o t
  | .release a :: t => (if a = o then -1 else 0) + alive o t
  | .work :: t => alive o t

/-- At no instant two references to the same planner are alive. -/
def Exclusive (t : List RefEv) : Prop := ∀ s, s <+: t → ∀ o, alive o s ≤ 1

/-- No operation of the element type runs while a reference to the planner of `o` is alive. -/
def NoWorkInside (o : Nat) (t : List RefEv) : Prop := ∀ pre post, t = pre ++ .work :: post → alive o pre = 0

end Kofft.Spec
