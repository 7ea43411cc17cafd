import Mathlib.Data.List.Basic
/-
The rules for pointers that Rust's `unsafe` code has to follow, in the two forms in which they have been published:
Stacked Borrows (R. Jung et al., POPL 2020) and Tree Borrows (N. Villani et al., PLDI 2025). Independent of the library.

Both are given for one allocation (an array), location by location. A program is the list of the things it does with the
pointers into that array: making a pointer from another one, reading and writing through a pointer. A program is valid when no
location sees a violation. Pointers are named by program variables (`τ`); making a pointer gives it a new tag, so that a
variable that is assigned again is a new pointer.

Simplifications: the array is one range (a reborrow covers all of it); there are no protectors (which only forbid more), no
`UnsafeCell` inside the elements, and no deallocation.
-/
namespace Kofft.Spec.Borrow

/-- What a program does with pointers into one array. -/
inductive Ev (τ : Type)
  /-- `child = &mut *parent` -/
  | mut (parent child : τ)
  /-- `child = &*parent` -/
  | shr (parent child : τ)
  /-- `child = parent as *mut _`: a raw pointer from a mutable reference -/
  | raw (parent child : τ)
  /-- a read of element `i` through `p` -/
  | read (p : τ) (i : Nat)
  /-- a write of element `i` through `p` -/
  | write (p : τ) (i : Nat)

variable {τ : Type}

/-- The elements read, in order. -/
def reads : List (Ev τ) → List Nat
  | [] => []
  | .read _ i :: es => i :: reads es
  | _ :: es => reads es

/-- The elements written, in order. -/
def writes : List (Ev τ) → List Nat
  | [] => []
  | .write _ i :: es => i :: writes es
  | _ :: es => writes es

/-- Every access lies inside the array. -/
def InBounds (n : Nat) (es : List (Ev τ)) : Prop := ∀ i, i ∈ reads es ∨ i ∈ writes es → i < n

variable [DecidableEq τ]

/-- The variables: every variable that has been assigned has a tag. -/
abbrev Env (τ : Type) := τ → Option Nat

def Env.set (e : Env τ) (v : τ) (t : Nat) : Env τ := fun w => if w = v then some t else e w

/-- At the start only `owner` (the pointer the program is given) is assigned. -/
def Env.start (owner : τ) : Env τ := fun w => if w = owner then some 0 else none

/-! ### Stacked Borrows -/
namespace Stacked

/-- The permissions of Stacked Borrows: a mutable reference, a raw pointer, a shared reference. -/
inductive Perm | unique | sharedRW | sharedRO
  deriving DecidableEq

structure Item where
  perm : Perm
  tag : Nat

/-- An item allows an access by its own tag: reads always, writes unless it is a shared reference. -/
def Item.grants (write : Bool) (t : Nat) (it : Item) : Bool :=
  it.tag == t && (!write || it.perm != .sharedRO)

/-- The items above the topmost one that allows the access, that item, and the ones below it. -/
def split (write : Bool) (t : Nat) : List Item → Option (List Item × Item × List Item)
  | [] => none
  | it :: s =>
    if it.grants write t then some ([], it, s) else (split write t s).map fun r => (it :: r.1, r.2)

/-- What a write through `it` leaves of the items above it: nothing, except that the raw pointers directly on top of a raw
pointer stay. -/
def afterWrite (it : Item) (above : List Item) : List Item :=
  if it.perm = .sharedRW then (above.reverse.takeWhile fun x => x.perm = .sharedRW).reverse else []

/-- What a read through any item leaves of the items above it: mutable references are dropped. -/
def afterRead (above : List Item) : List Item := above.filter fun x => x.perm ≠ .unique

/-- An access by tag `t` (topmost item first); `none` is undefined behaviour. -/
def access (write : Bool) (t : Nat) (s : List Item) : Option (List Item) :=
  (split write t s).map fun r => (if write then afterWrite r.2.1 r.1 else afterRead r.1) ++ r.2.1 :: r.2.2

/-- `child = &mut *parent` is a write by the parent; the new item goes on top. -/
def retagMut (t new : Nat) (s : List Item) : Option (List Item) :=
  (access true t s).map fun s' => ⟨.unique, new⟩ :: s'

/-- `child = &*parent` is a read by the parent; the new item goes on top. -/
def retagShr (t new : Nat) (s : List Item) : Option (List Item) :=
  (access false t s).map fun s' => ⟨.sharedRO, new⟩ :: s'

/-- `child = parent as *mut _` puts the new item directly on top of the parent's (and of the raw pointers next to it). -/
def retagRaw (t new : Nat) (s : List Item) : Option (List Item) :=
  (split true t s).map fun r =>
    r.1.take (r.1.length - (afterWrite r.2.1 r.1).length) ++ ⟨.sharedRW, new⟩ :: afterWrite r.2.1 r.1 ++ r.2.1 :: r.2.2

/-- The variables, the next new tag, and the borrow stack of the location. -/
structure State (τ : Type) where
  env : Env τ
  next : Nat
  stack : List Item

/-- One event, as location `i` sees it. -/
def step (i : Nat) (st : State τ) : Ev τ → Option (State τ)
  | .mut p c => do
    let t ← st.env p
    let s ← retagMut t st.next st.stack
    some ⟨st.env.set c st.next, st.next + 1, s⟩
  | .shr p c => do
    let t ← st.env p
    let s ← retagShr t st.next st.stack
    some ⟨st.env.set c st.next, st.next + 1, s⟩
  | .raw p c => do
    let t ← st.env p
    let s ← retagRaw t st.next st.stack
    some ⟨st.env.set c st.next, st.next + 1, s⟩
  | .read p j => do
    let t ← st.env p
    if j = i then
      let s ← access false t st.stack
      some { st with stack := s }
    else some st
  | .write p j => do
    let t ← st.env p
    if j = i then
      let s ← access true t st.stack
      some { st with stack := s }
    else some st

/-- All the events, one after the other. -/
def run (i : Nat) : State τ → List (Ev τ) → Option (State τ)
  | st, [] => some st
  | st, e :: es => (step i st e).bind fun st' => run i st' es

def start (owner : τ) : State τ := ⟨Env.start owner, 1, [⟨.unique, 0⟩]⟩

/-- No location of an array of length `n` sees a violation of Stacked Borrows. -/
def Valid (n : Nat) (owner : τ) (es : List (Ev τ)) : Prop := ∀ i < n, (run i (start owner) es).isSome

end Stacked

/-! ### Tree Borrows -/
namespace Tree

/-- The permissions of Tree Borrows. -/
inductive Perm | reserved | active | frozen | disabled
  deriving DecidableEq

/-- A pointer with the tags of the pointers it was made from, and its permission for the location. -/
structure Node where
  tag : Nat
  above : List Nat
  perm : Perm

/-- An access through the pointer itself or one made from it. -/
def child (write : Bool) : Perm → Option Perm
  | .reserved => some (if write then .active else .reserved)
  | .active => some .active
  | .frozen => if write then none else some .frozen
  | .disabled => none

/-- An access through any other pointer. -/
def foreign (write : Bool) : Perm → Perm
  | .reserved => if write then .disabled else .reserved
  | .active => if write then .disabled else .frozen
  | .frozen => if write then .disabled else .frozen
  | .disabled => .disabled

/-- An access through the pointer `chain.head` made from the ones in `chain.tail`, as one node sees it. -/
def touch (write : Bool) (chain : List Nat) (nd : Node) : Option Node :=
  if nd.tag ∈ chain then (child write nd.perm).map fun q => { nd with perm := q }
  else some { nd with perm := foreign write nd.perm }

/-- The pointer with tag `t` and all it was made from. -/
def chainOf (t : Nat) (ns : List Node) : Option (List Nat) :=
  (ns.find? fun nd => nd.tag == t).map fun nd => nd.tag :: nd.above

/-- An access through tag `t`; `none` is undefined behaviour. -/
def access (write : Bool) (t : Nat) (ns : List Node) : Option (List Node) := do
  let ch ← chainOf t ns
  ns.mapM (touch write ch)

/-- Making a reference is a read through the parent; a mutable one is reserved, a shared one frozen. -/
def retag (p : Perm) (t new : Nat) (ns : List Node) : Option (List Node) := do
  let ch ← chainOf t ns
  let ns' ← access false t ns
  some (⟨new, ch, p⟩ :: ns')

/-- The variables, the next new tag, and the tree of the location. -/
structure State (τ : Type) where
  env : Env τ
  next : Nat
  nodes : List Node

/-- One event, as location `i` sees it. A raw pointer is the same pointer as the reference it is made from. -/
def step (i : Nat) (st : State τ) : Ev τ → Option (State τ)
  | .mut p c => do
    let t ← st.env p
    let s ← retag .reserved t st.next st.nodes
    some ⟨st.env.set c st.next, st.next + 1, s⟩
  | .shr p c => do
    let t ← st.env p
    let s ← retag .frozen t st.next st.nodes
    some ⟨st.env.set c st.next, st.next + 1, s⟩
  | .raw p c => do
    let t ← st.env p
    some ⟨st.env.set c t, st.next, st.nodes⟩
  | .read p j => do
    let t ← st.env p
    if j = i then
      let s ← access false t st.nodes
      some { st with nodes := s }
    else some st
  | .write p j => do
    let t ← st.env p
    if j = i then
      let s ← access true t st.nodes
      some { st with nodes := s }
    else some st

/-- All the events, one after the other. -/
def run (i : Nat) : State τ → List (Ev τ) → Option (State τ)
  | st, [] => some st
  | st, e :: es => (step i st e).bind fun st' => run i st' es

def start (owner : τ) : State τ := ⟨Env.start owner, 1, [⟨0, [], .active⟩]⟩

/-- No location of an array of length `n` sees a violation of Tree Borrows. -/
def Valid (n : Nat) (owner : τ) (es : List (Ev τ)) : Prop := ∀ i < n, (run i (start owner) es).isSome

end Tree

/-! Two small programs, to see the definitions at work: a reference made from a raw pointer made from the owner may be used
and so may the owner afterwards, but then the reference may not be used again. -/

example : (Stacked.run 0 (Stacked.start "x")
    [.raw "x" "p", .mut "p" "y", .write "y" 0, .write "x" 0] : Option (Stacked.State String)).isSome = true := by decide +kernel
example : (Stacked.run 0 (Stacked.start "x")
    [.raw "x" "p", .mut "p" "y", .write "y" 0, .write "x" 0, .write "y" 0] : Option (Stacked.State String)).isSome = false := by
  decide +kernel
example : (Tree.run 0 (Tree.start "x")
    [.raw "x" "p", .mut "p" "y", .write "y" 0, .write "x" 0] : Option (Tree.State String)).isSome = true := by decide +kernel
example : (Tree.run 0 (Tree.start "x")
    [.raw "x" "p", .mut "p" "y", .write "y" 0, .write "x" 0, .write "y" 0] : Option (Tree.State String)).isSome = false := by
  decide +kernel
/-- Two mutable pointers to one array used for different halves: Stacked Borrows forbids it, Tree Borrows does not. -/
example : (Stacked.run 0 (Stacked.start "x")
    [.mut "x" "p", .mut "x" "q", .write "p" 0, .write "q" 1] : Option (Stacked.State String)).isSome = false ∧
    (Tree.run 0 (Tree.start "x")
    [.mut "x" "p", .mut "x" "q", .write "p" 0, .write "q" 1] : Option (Tree.State String)).isSome = true ∧
    (Tree.run 1 (Tree.start "x")
    [.mut "x" "p", .mut "x" "q", .write "p" 0, .write "q" 1] : Option (Tree.State String)).isSome = true := by decide +kernel

end Kofft.Spec.Borrow
