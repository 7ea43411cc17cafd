import Verif.Model.Base
/-
Numbers: `src/num.rs`.
-/
namespace Kofft

/-- The floating-point back end, as a signature without laws: `trait Float` (`src/num.rs:5-29`)
together with the `f32` operations (std / libm) that the non-generic modules call.
`lit m e` is the decimal literal `m * 10^(-e)` converted to the type.
`sqrtHalf`, `cosPi8`, `sinPi8` are the literals `0.70710677`, `0.9238795`, `0.38268343`
(`src/fft_kernels.rs:35,110,181-186`); their negations in the source are exact negations.
`fma` is the compile-time `target_feature = "fma"` flag selecting the body of `Complex::mul`
(`src/num.rs:145-166`). `printParse` is "print with a fixed number of decimals, then parse",
what `build.rs:26-35,50-59` does to the precomputed twiddles. -/
class Flt (T : Type) where
  add : T → T → T
  sub : T → T → T
  mul : T → T → T
  div : T → T → T
  neg : T → T
  zero : T
  one : T
  /-- `T::from_f32(n as f32)` -/
  ofNat : Nat → T
  /-- `n as f32` for f32 code, `n as f64` for f64 code (no detour through f32) -/
  ofNatD : Nat → T
  lit : Int → Nat → T
  pi : T
  sin : T → T
  cos : T → T
  mulAdd : T → T → T → T
  sqrt : T → T
  abs : T → T
  log : T → T
  log10 : T → T
  pow : T → T → T
  floor : T → T
  /-- `x.round()`: to the nearest integer, ties away from zero -/
  round : T → T
  /-- `x as usize` (saturating cast, truncating toward zero). -/
  toNat : T → Nat
  /-- `x < y` -/
  lt : T → T → Bool
  /-- `x <= y` -/
  le : T → T → Bool
  /-- `x == y` -/
  feq : T → T → Bool
  sqrtHalf : T
  cosPi8 : T
  sinPi8 : T
  printParse : T → T
  fma : Bool

infixl:65 " +. " => Flt.add
infixl:65 " -. " => Flt.sub
infixl:70 " *. " => Flt.mul
infixl:70 " /. " => Flt.div
prefix:75 "-. " => Flt.neg

variable {T : Type} [Flt T]

/-- `src/num.rs:105-110` `struct Complex<T>`. -/
structure Cx (T : Type) where
  re : T
  im : T
  deriving Repr, DecidableEq

namespace Cx

/-- `src/num.rs:116-121` `Complex::zero`. -/
def zero : Cx T := ⟨Flt.zero, Flt.zero⟩

/-- `src/num.rs:122-126` `Complex::expi`. -/
def expi (theta : T) : Cx T := ⟨Flt.cos theta, Flt.sin theta⟩

/-- `src/num.rs:127-134` `Complex::add`. -/
def add (a b : Cx T) : Cx T := ⟨a.re +. b.re, a.im +. b.im⟩

/-- `src/num.rs:135-142` `Complex::sub`. -/
def sub (a b : Cx T) : Cx T := ⟨a.re -. b.re, a.im -. b.im⟩

/-- The body of `Complex::mul` without FMA (`src/num.rs:157-166`). The split-complex butterflies
(`src/fft.rs:854-855,886-887,1025-1026`) spell out the same expression. -/
def mulPlain (a b : Cx T) : Cx T :=
  ⟨(a.re *. b.re) -. (a.im *. b.im), (a.re *. b.im) +. (a.im *. b.re)⟩

/-- `src/num.rs:169-189` `mul_fma_x86` / `mul_fma_aarch64`. -/
def mulFma (a b : Cx T) : Cx T :=
  ⟨Flt.mulAdd a.re b.re (-. (a.im *. b.im)), Flt.mulAdd a.re b.im (a.im *. b.re)⟩

/-- `src/num.rs:143-166` `Complex::mul`. -/
def mul (a b : Cx T) : Cx T := if Flt.fma T then mulFma a b else mulPlain a b

/-- `src/num.rs:191-200` `impl Neg`. -/
def neg (a : Cx T) : Cx T := ⟨-. a.re, -. a.im⟩

/-- `c.im = -c.im`. -/
def conj (a : Cx T) : Cx T := ⟨a.re, -. a.im⟩

end Cx

/-- Rust `usize::is_power_of_two`. -/
def isPow2 (n : Nat) : Bool := n == 2 ^ n.log2

/-- `src/num.rs:242-245` `SplitComplex::new`: asserts equal lengths. -/
def splitNew (re im : List T) : Outcome (List T × List T) :=
  if re.length = im.length then .ok (re, im) else .panic

/-- `src/num.rs:332-339` `copy_from_complex`. -/
def copyFromComplex (input : List (Cx T)) (re im : List T) : Outcome (List T × List T) :=
  if input.length = re.length then
    if input.length = im.length then
      forRange 0 input.length (re, im) fun i s => do
        let c ← rd input i
        let r ← wr s.1 i c.re
        let m ← wr s.2 i c.im
        pure (r, m)
    else .panic
  else .panic

/-- `src/num.rs:341-348` `copy_to_complex`. -/
def copyToComplex (re im : List T) (out : List (Cx T)) : Outcome (List (Cx T)) :=
  if re.length = im.length then
    if re.length = out.length then
      forRange 0 re.length out fun i s => do
        let r ← rd re i
        let m ← rd im i
        wr s i ⟨r, m⟩
    else .panic
  else .panic

/-- `src/num.rs:264-268` `struct ComplexVec`. -/
structure ComplexVec (T : Type) where
  re : List T
  im : List T
  deriving Repr, DecidableEq

/-- `src/num.rs:271-274` `ComplexVec::new`. -/
def ComplexVec.new (re im : List T) : Outcome (ComplexVec T) :=
  if re.length = im.length then .ok ⟨re, im⟩ else .panic

/-- `src/num.rs:283-291`, `src/num.rs:310-320` `from_complex_vec`, `From<Vec<Complex32>>`. -/
def ComplexVec.fromComplex (v : List (Cx T)) : ComplexVec T :=
  v.foldl (fun s c => ⟨s.re ++ [c.re], s.im ++ [c.im]⟩) ⟨[], []⟩

/-- `src/num.rs:293-299`, `src/num.rs:322-330` `to_complex_vec`, `From<ComplexVec>`. -/
def ComplexVec.toComplex (v : ComplexVec T) : Outcome (List (Cx T)) :=
  forRange 0 v.re.length [] fun i out => do
    let r ← rd v.re i
    let m ← rd v.im i
    pure (out ++ [⟨r, m⟩])

end Kofft
