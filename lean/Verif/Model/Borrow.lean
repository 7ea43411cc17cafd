import Verif.Spec.Borrow
import Verif.Model.Fft
/-
The pointers of the `unsafe` code in `src/fft.rs`: for every array a call touches, the list of the references and raw pointers
made into it and of the accesses through them, in program order. The values are in `Model/Fft.lean`; here only the pointers.

Simplifications, besides those of `Spec/Borrow.lean`: the copies of references that `core::mem::swap` makes keep their tag; a
vector load or store of several elements is one access per element, each with its own `as_ptr()`; safe code that reads or writes a
slice through one reference is one read or write of every element through it.
-/
namespace Kofft.Borrow
open Kofft.Spec.Borrow

/-- The pointer variables of `src/fft.rs:642-787`, `789-1050`, `1134-1171`, `1365-1435`. `owner` is the array itself or the
reference the caller holds; `tmp0`, `tmp1` are the results of `as_ptr()`/`as_mut_ptr()`/`iter()` calls used at once. -/
inductive Ptr
  | owner | arg | input32 | inner32 | re32 | slice | rawSlice | outRef | outPtr | cur | tmp0 | tmp1
  deriving DecidableEq

abbrev Evs := List (Ev Ptr)

/-- A call's arrays: their lengths and what is done with pointers into them. -/
abbrev Prog := List (Nat × Evs)

/-- `for c in p.iter() { … }`: all elements read through one shared reference. -/
def iter (p : Ptr) (n : Nat) : Evs := .shr p .tmp0 :: (List.range n).map fun i => .read .tmp0 i

/-- `for c in p.iter_mut() { … }`: all elements written through one mutable reference. -/
def iterMut (p : Ptr) (n : Nat) : Evs := .mut p .tmp0 :: (List.range n).map fun i => .write .tmp0 i

/-- The values of `n1` and `n2` in the passes of `while n1 < n { n2 >>= 1; …; n1 <<= 1 }`
(`src/fft.rs:736-771`, `829-898`, `951-1037`). -/
def passList (n : Nat) : Nat → Nat → Nat → List (Nat × Nat)
  | 0, _, _ => []
  | fuel + 1, n1, n2 => if n1 < n then (n1, n2 / 2) :: passList n fuel (n1 * 2) (n2 / 2) else []

def passes (n : Nat) : List (Nat × Nat) := passList n (n + 1) 1 n

/-- The passes as an array sees them that is the source in the first one (`isSrc`), the destination in the second, and so on
(`core::mem::swap`, `src/fft.rs:770`, `896-897`, `1035-1036`). -/
def alternate (srcEvs dstEvs : Nat × Nat → Evs) : Bool → List (Nat × Nat) → Evs
  | _, [] => []
  | isSrc, p :: ps => (if isSrc then srcEvs p else dstEvs p) ++ alternate srcEvs dstEvs (!isSrc) ps

/-- Whether the array is the source after the passes. -/
def srcAfter (isSrc : Bool) (ps : List (Nat × Nat)) : Bool := if ps.length % 2 = 0 then isSrc else !isSrc

/-- A read of element `i` in iteration `j`: in the vector loop through `src_re.as_ptr()`, in the scalar loop through `src_re`
itself (`src/fft.rs:848-852`, `882-886`, `972-978`, `1021-1025`). `lanes = 0`: no vector loop. -/
def readAt (lanes n2 j i : Nat) : Evs :=
  if j < n2 / lanes * lanes then [.shr .cur .tmp0, .read .tmp0 i] else [.read .cur i]

/-- A write of element `i` in iteration `j` (`src/fft.rs:855-858`, `888-891`, `993-1000`, `1027-1030`). -/
def writeAt (lanes n2 j i : Nat) : Evs :=
  if j < n2 / lanes * lanes then [.mut .cur .tmp0, .write .tmp0 i] else [.write .cur i]

/-- A pass of `fft_split_simd` over its source (`src/fft.rs:833-894`, `955-1033`). -/
def simdSrc (lanes : Nat) (p : Nat × Nat) : Evs :=
  (List.range p.1).flatMap fun k => (List.range p.2).flatMap fun j =>
    readAt lanes p.2 j (2 * k * p.2 + j) ++ readAt lanes p.2 j (2 * k * p.2 + p.2 + j)

/-- A pass of `fft_split_simd` over its destination (`src/fft.rs:833-894`, `955-1033`). -/
def simdDst (lanes : Nat) (p : Nat × Nat) : Evs :=
  (List.range p.1).flatMap fun k => (List.range p.2).flatMap fun j =>
    writeAt lanes p.2 j (k * p.2 + j) ++ writeAt lanes p.2 j ((k + p.1) * p.2 + j)

/-- What `fft_split_simd` does with its argument `re` (and likewise `im`) when its length `n` is a power of two above 16, the
caller passing `from` (`src/fft.rs:789-911`, `914-1050`): `let out_re_ptr = re.as_mut_ptr()` (792, 917), `let mut src_re: &mut
[f32] = re` (826, 948: a reborrow), the passes, the comparison `src_re.as_ptr() != out_re_ptr` (899, 1038), and, if the
result is in the scratch buffer, the copy through `out_re_ptr` (901, 1040). -/
def simdArg (lanes : Nat) (caller : Ptr) (n : Nat) : Evs :=
  [.mut caller .arg, .mut .arg .outRef, .raw .outRef .outPtr, .mut .arg .cur] ++
  alternate (simdSrc lanes) (simdDst lanes) true (passes n) ++
  (if srcAfter true (passes n) then [.shr .cur .tmp0] else (List.range n).map fun i => .write .outPtr i)

/-- What it does with the scratch buffer `scratch_re` (`src/fft.rs:828`, `950`, and as above). -/
def simdScratch (lanes n : Nat) : Evs :=
  [.mut .owner .cur] ++
  alternate (simdSrc lanes) (simdDst lanes) false (passes n) ++
  (if srcAfter false (passes n) then .shr .cur .tmp0 :: .shr .cur .tmp1 :: (List.range n).map fun i => .read .tmp1 i else [])

/-- A pass of the interleaved code over its source: `base0_ptr` and `base1_ptr` (`src/fft.rs:741-769`). -/
def cxSrc (p : Nat × Nat) : Evs :=
  (List.range p.1).flatMap fun k =>
    [.shr .cur .tmp0, .shr .cur .tmp1] ++
    (List.range p.2).flatMap fun j => [.read .tmp0 (2 * k * p.2 + j), .read .tmp1 (2 * k * p.2 + p.2 + j)]

/-- A pass of the interleaved code over its destination: `dst0_ptr` and `dst1_ptr` (`src/fft.rs:754-764`). -/
def cxDst (p : Nat × Nat) : Evs :=
  (List.range p.1).flatMap fun k =>
    [.mut .cur .tmp0, .mut .cur .tmp1] ++
    (List.range p.2).flatMap fun j => [.write .tmp0 (k * p.2 + j), .write .tmp1 ((k + p.1) * p.2 + j)]

/-- `stockham_fft_with_threshold` for element types other than `f32` and `f64`, on its argument (`src/fft.rs:642`, `730-775`):
`input_ptr`, then `src`. -/
def cxArg (caller : Ptr) (n : Nat) : Evs :=
  [.mut caller .arg, .mut .arg .outRef, .raw .outRef .outPtr, .mut .arg .cur] ++
  alternate cxSrc cxDst true (passes n) ++
  (if srcAfter true (passes n) then [.shr .cur .tmp0] else (List.range n).map fun i => .write .outPtr i)

/-- … and on its scratch buffer (`src/fft.rs:732`). -/
def cxScratch (n : Nat) : Evs :=
  [.mut .owner .cur] ++
  alternate cxSrc cxDst false (passes n) ++
  (if srcAfter false (passes n) then .shr .cur .tmp0 :: .shr .cur .tmp1 :: (List.range n).map fun i => .read .tmp1 i else [])

/-- `stockham_fft_with_threshold` for `f32` and `f64`, on its argument: its `input32`, here
`inner32` because `ifft` has an `input32` too (`src/fft.rs:687-699`, `709-721`). -/
def stockhamArg (caller : Ptr) (n : Nat) : Evs :=
  [.mut caller .arg, .raw .arg .rawSlice, .mut .rawSlice .inner32] ++ iter .inner32 n ++ iterMut .inner32 n

/-- … and on the split buffer `split_re` (likewise `split_im`), through `re32` (`src/fft.rs:688-699`, `710-721`). -/
def stockhamSplit (lanes n : Nat) : Evs :=
  [.mut .owner .slice, .raw .slice .rawSlice, .mut .rawSlice .re32] ++ iterMut .re32 n ++ simdArg lanes .re32 n ++
  iter .re32 n

/-- The element type, as the code distinguishes it: `f32`/`f64`, or any other. -/
inductive Elem | float | other
  deriving DecidableEq

/-- `fft` on its argument, for a power of two or a length below 2; small sizes are safe code
(`src/fft.rs:1054-1083`; `stockham_fft` for lengths above 16). -/
def powArg (el : Elem) (caller : Ptr) (n : Nat) : Evs :=
  if n ≤ 1 then [.mut caller .arg]
  else if n ≤ 16 then [.mut caller .arg] ++ iter .arg n ++ iterMut .arg n
  else match el with
    | .float => stockhamArg caller n
    | .other => cxArg caller n

/-- The buffers `fft` takes from a planner that has been used for nothing larger, for a power of two or a length below 2
(`src/fft.rs:666-684`, `815-829`): `split_re`, `split_im`, `split_scratch_re`, `split_scratch_im`, or `scratch`. -/
def powOwn (el : Elem) (lanes n : Nat) : Prog :=
  if n ≤ 16 then []
  else match el with
    | .float => [(n, stockhamSplit lanes n), (n, stockhamSplit lanes n), (n, simdScratch lanes n), (n, simdScratch lanes n)]
    | .other => [(n, cxScratch n)]

/-- `fft` on a transformer that has been used for nothing larger: the argument and the transformer's buffers. For a length that is
not a power of two (`src/fft.rs:1085-1131`, `get_bluestein` 411-432) the argument is only touched by safe code, and `m` =
`(2n-1).next_power_of_two()` elements are transformed three times: `b` once, `a` twice. -/
def fftProg (el : Elem) (lanes n : Nat) : Prog :=
  if isPow2 n || n ≤ 1 then (n, powArg el .owner n) :: powOwn el lanes n
  else
    let m := nextPow2 (2 * n - 1)
    [(n, [.mut .owner .arg] ++ iter .arg n ++ iterMut .arg n),
     (m, powArg el .owner m)] ++ powOwn el lanes m ++
    [(m, iterMut .owner m ++ powArg el .owner m ++ iterMut .owner m ++ powArg el .owner m ++ iterMut .owner m ++ iter .owner m)] ++
    powOwn el lanes m ++ powOwn el lanes m

/-- `fft_split` and `ifft_split` for `f32` and `f64` on a power of two above 16: `re32` (likewise `im32`) is made from the
argument, (for the inverse) changed in place, passed on, and (for the inverse) scaled (`src/fft.rs:1365-1380`, `1394-1429`). -/
def splitProg (inverse : Bool) (lanes n : Nat) : Prog :=
  let arg : Evs := [.mut .owner .slice, .raw .slice .rawSlice, .mut .rawSlice .re32] ++
    (if inverse then iterMut .re32 n else []) ++ simdArg lanes .re32 n ++ (if inverse then iterMut .re32 n else [])
  [(n, arg), (n, arg), (n, simdScratch lanes n), (n, simdScratch lanes n)]

/-- The argument of `ifft` of a length above 1 in the sequential case (`src/fft.rs:1161-1170`): everything goes through
`input`; `self.fft(input)` reborrows it. The transform inside is the one of `fft` on `n` elements. -/
def ifftSeqArg (inner : Ptr → Evs) (n : Nat) : Evs :=
  [.mut .owner .slice] ++ iterMut .slice n ++ inner .slice ++ iterMut .slice n

/-- The argument of `ifft` in the parallel case for `f32` (`src/fft.rs:1151-1159`): `input32` is made from `input`, used,
`self.fft(input)` is called, and `input32` is used again. -/
def ifftParArg (inner : Ptr → Evs) (n : Nat) : Evs :=
  [.mut .owner .slice, .raw .slice .rawSlice, .mut .rawSlice .input32] ++ iterMut .input32 n ++ inner .slice ++
  iterMut .input32 n

/-- `fft`'s use of its argument when called with the pointer `caller` (`src/fft.rs:1053-1133`). -/
def fftArg (el : Elem) (n : Nat) (caller : Ptr) : Evs :=
  if isPow2 n || n ≤ 1 then powArg el caller n else [.mut caller .arg] ++ iter .arg n ++ iterMut .arg n

/-- `ifft` of a length above 1 (`src/fft.rs:1134-1171`). `par` says whether the parallel branch is taken. The first array is
the argument; the others are the transformer's. -/
def ifftProg (par : Bool) (el : Elem) (lanes n : Nat) : Prog :=
  (n, if par then ifftParArg (fftArg el n) n else ifftSeqArg (fftArg el n) n) :: (fftProg el lanes n).tail

/-- No array of the call sees a violation. -/
def Prog.Stacked (p : Prog) : Prop := ∀ a ∈ p, Stacked.Valid a.1 .owner a.2
/-- Every access of the call lies inside the array it is made to. -/
def Prog.InBounds (p : Prog) : Prop := ∀ a ∈ p, Spec.Borrow.InBounds a.1 a.2
def Prog.Tree (p : Prog) : Prop := ∀ a ∈ p, Tree.Valid a.1 .owner a.2

end Kofft.Borrow
