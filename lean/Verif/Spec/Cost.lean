import Verif.Model.Num
/-
How many arithmetic operations a computation needs. Instead of numbers the model is run on formal expressions: the result of
`a + b` is the expression `a + b` itself. The outputs then show exactly which operations were carried out on what, and any way of
obtaining them from the inputs has to carry out all of these operations.
-/
namespace Kofft.Spec

/-- Literals and constants of the source. -/
inductive Const
  | zero | one | pi | sqrtHalf | cosPi8 | sinPi8
  | ofNat (n : Nat) | ofNatD (n : Nat) | lit (a : Int) (b : Nat)
  deriving DecidableEq

/-- Operations of one operand. -/
inductive Op1 | neg | sin | cos | sqrt | abs | log | log10 | floor | round | printParse
  deriving DecidableEq

/-- Operations of two operands. -/
inductive Op2 | add | sub | mul | div | pow
  deriving DecidableEq

/-- Formal expressions over the inputs `input 0`, `input 1`, … -/
inductive Expr
  | input (i : Nat)
  | const (c : Const)
  | un (o : Op1) (a : Expr)
  | bin (o : Op2) (a b : Expr)
  | mulAdd (a b c : Expr)
  deriving DecidableEq

/-- What formal expressions leave open: comparisons, conversions to integers, and whether the complex product uses fused
operations. -/
class Formal where
  toNat : Expr → Nat
  lt : Expr → Expr → Bool
  le : Expr → Expr → Bool
  feq : Expr → Expr → Bool
  fma : Bool

/-- Arithmetic on formal expressions. -/
instance [K : Formal] : Flt Expr where
  add := .bin .add
  sub := .bin .sub
  mul := .bin .mul
  div := .bin .div
  neg := .un .neg
  zero := .const .zero
  one := .const .one
  ofNat n := .const (.ofNat n)
  ofNatD n := .const (.ofNatD n)
  lit a b := .const (.lit a b)
  pi := .const .pi
  sin := .un .sin
  cos := .un .cos
  mulAdd := .mulAdd
  sqrt := .un .sqrt
  abs := .un .abs
  log := .un .log
  log10 := .un .log10
  pow := .bin .pow
  floor := .un .floor
  round := .un .round
  toNat := K.toNat
  lt := K.lt
  le := K.le
  feq := K.feq
  sqrtHalf := .const .sqrtHalf
  cosPi8 := .const .cosPi8
  sinPi8 := .const .sinPi8
  printParse := .un .printParse
  fma := K.fma

/-- An operand that can be used after the operations `p`: given, a constant, or the result of one of them. -/
def Avail (given : Expr → Prop) (p : List Expr) (e : Expr) : Prop := given e ∨ (∃ c, e = .const c) ∨ e ∈ p

/-- `p` (last operation first) is a straight-line program: each operation uses only what is available before it. -/
inductive Straight (given : Expr → Prop) : List Expr → Prop
  | nil : Straight given []
  | un {p : List Expr} {o : Op1} {a : Expr} : Straight given p → Avail given p a → Straight given (.un o a :: p)
  | bin {p : List Expr} {o : Op2} {a b : Expr} : Straight given p → Avail given p a → Avail given p b →
      Straight given (.bin o a b :: p)
  | mulAdd {p : List Expr} {a b c : Expr} : Straight given p → Avail given p a → Avail given p b → Avail given p c →
      Straight given (.mulAdd a b c :: p)

/-- All of `wanted` can be computed from `given` with at most `k` operations. -/
def Cost (given : Expr → Prop) (k : Nat) (wanted : Expr → Prop) : Prop :=
  ∃ p, Straight given p ∧ p.length ≤ k ∧ ∀ e, wanted e → Avail given p e

/-- The real and imaginary parts of the elements of a buffer. -/
def parts (x : List (Cx Expr)) (e : Expr) : Prop := ∃ c ∈ x, e = c.re ∨ e = c.im

/-- The elements of a real buffer. -/
def elems (x : List Expr) (e : Expr) : Prop := e ∈ x

/-- A buffer of `n` independent complex inputs. -/
def cxInputs (n : Nat) : List (Cx Expr) := (List.range n).map fun i => ⟨.input (2 * i), .input (2 * i + 1)⟩

/-- A buffer of `n` independent real inputs. -/
def reInputs (n : Nat) : List Expr := (List.range n).map .input

end Kofft.Spec
