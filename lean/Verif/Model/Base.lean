/-
Effects of the modelled Rust code: panics, non-termination, checked buffer accesses, loops.
Nothing here is specific to one file of /repo; it fixes how Rust control flow is read.
-/
namespace Kofft

universe u v

/-- What running a piece of Rust code can lead to.
`ok a`: it returned `a`; `panic`: it panicked or accessed memory out of bounds (safe index
panics and raw-pointer accesses outside the slice are both mapped here); `hang`: it ran out of
fuel, i.e. the modelled loop or recursion exceeded the bound given to it. -/
inductive Outcome (α : Type u) : Type u
  | ok (a : α)
  | panic
  | hang
  deriving Repr, DecidableEq

namespace Outcome

/-- Sequencing: a panic or a hang aborts the rest. -/
def bind {α : Type u} {β : Type v} (x : Outcome α) (f : α → Outcome β) : Outcome β :=
  match x with
  | ok a => f a
  | panic => panic
  | hang => hang

instance : Monad Outcome where
  pure := Outcome.ok
  bind := Outcome.bind

@[simp] theorem pure_eq {α : Type u} (a : α) : (pure a : Outcome α) = ok a := rfl
@[simp] theorem bind_ok {α β : Type u} (a : α) (f : α → Outcome β) : (ok a >>= f) = f a := rfl
@[simp] theorem bind_panic {α β : Type u} (f : α → Outcome β) :
    ((panic : Outcome α) >>= f) = panic := rfl
@[simp] theorem bind_hang {α β : Type u} (f : α → Outcome β) :
    ((hang : Outcome α) >>= f) = hang := rfl

instance : LawfulMonad Outcome := LawfulMonad.mk'
  (id_map := by intro α x; cases x <;> rfl)
  (pure_bind := by intros; rfl)
  (bind_assoc := by intro α β γ x f g; cases x <;> rfl)

end Outcome

/-- Read `l[i]` (safe indexing or `*ptr.add(i)`): panics when out of bounds. -/
def rd {α : Type u} (l : List α) (i : Nat) : Outcome α :=
  match l[i]? with
  | some a => .ok a
  | none => .panic

/-- Write `l[i] = v`: panics when out of bounds. -/
def wr {α : Type u} (l : List α) (i : Nat) (v : α) : Outcome (List α) :=
  if i < l.length then .ok (l.set i v) else .panic

/-- Vector load of `w` consecutive lanes starting at `i`. -/
def rdN {α : Type u} (l : List α) (i w : Nat) : Outcome (List α) :=
  if i + w ≤ l.length then .ok ((l.drop i).take w) else .panic

/-- Vector store of the lanes `vs` starting at `i`. -/
def wrN {α : Type u} (l : List α) (i : Nat) (vs : List α) : Outcome (List α) :=
  if i + vs.length ≤ l.length then .ok (l.take i ++ vs ++ l.drop (i + vs.length)) else .panic

/-- `cnt` iterations of a loop body, the index starting at `i`. -/
def loopN {σ : Type u} : Nat → Nat → σ → (Nat → σ → Outcome σ) → Outcome σ
  | 0, _, s, _ => .ok s
  | cnt + 1, i, s, f => f i s >>= fun s' => loopN cnt (i + 1) s' f

/-- `for i in lo..hi { body }` with the mutable variables as state `σ`. -/
def forRange {σ : Type u} (lo hi : Nat) (s : σ) (f : Nat → σ → Outcome σ) : Outcome σ :=
  loopN (hi - lo) lo s f

/-- `while cond { body }`, at most `fuel` evaluations of the condition. -/
def whileF {σ : Type u} : Nat → (σ → Bool) → (σ → Outcome σ) → σ → Outcome σ
  | 0, _, _, _ => .hang
  | fuel + 1, cond, body, s =>
    if cond s then body s >>= fun s' => whileF fuel cond body s' else .ok s

/-- `Vec::resize` guarded by `if v.len() < n`: only ever grows. -/
def grow {α : Type u} (l : List α) (n : Nat) (z : α) : List α :=
  l ++ List.replicate (n - l.length) z

/-- `for (d, s) in dst.iter_mut().zip(src) { *d = *s }`: overwrite the common prefix. -/
def copyPrefix {α : Type u} : List α → List α → List α
  | a :: src, _ :: dst => a :: copyPrefix src dst
  | [], dst => dst
  | _ :: _, [] => []

/-- `debug_assert!(c)`: active only in debug builds. -/
def debugAssert (debug : Bool) (c : Bool) : Outcome Unit :=
  if debug && !c then .panic else .ok ()

/-- `src/fft.rs:445-454` `enum FftError`. -/
inductive FftError
  | EmptyInput
  | NonPowerOfTwoNoStd
  | MismatchedLengths
  | InvalidStride
  | InvalidHopSize
  | InvalidValue
  deriving Repr, DecidableEq

/-- `Result<(), FftError>`. -/
abbrev Res := Except FftError Unit

end Kofft
