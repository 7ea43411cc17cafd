import Verif.Model.Api
import Verif.Spec.Rfft
import Verif.Model.Trig
import Mathlib.Algebra.BigOperators.Group.Finset.Basic
/-
How much a transformer keeps between calls.
-/
namespace Kofft.Spec
open Finset

variable {T : Type} [Flt T]

/-- One call of a public method of `FftPlanner` or `ScalarFftImpl` on data of transform length `n`, taking the
planner from `p` to `p'`. -/
inductive PCall (cfg : Cfg) : Nat → Planner T → Planner T → Prop
  | fft {p p' x y r} : fft cfg p x = .ok (p', y, r) → PCall cfg x.length p p'
  | ifft {p p' x y r} : ifft cfg p x = .ok (p', y, r) → PCall cfg x.length p p'
  | stockham {p p' x y r} : stockhamFft cfg p x = .ok (p', y, r) → PCall cfg x.length p p'
  | radix4 {p p' x y r} : fftRadix4 cfg p x = .ok (p', y, r) → PCall cfg x.length p p'
  | strategy {p p' x y r} (st : Strategy) : fftWithStrategy cfg st p x = .ok (p', y, r) → PCall cfg x.length p p'
  | split {p p' re im re' im' r} : fftSplit cfg p re im = .ok (p', re', im', r) → PCall cfg re.length p p'
  | isplit {p p' re im re' im' r} : ifftSplit cfg p re im = .ok (p', re', im', r) → PCall cfg re.length p p'
  | strided {p p' x sc y s r} (stride : Nat) :
      strided (Kofft.fft cfg) p x stride sc = .ok (p', y, s, r) → PCall cfg sc.length p p'
  | istrided {p p' x sc y s r} (stride : Nat) :
      strided (Kofft.ifft cfg) p x stride sc = .ok (p', y, s, r) → PCall cfg sc.length p p'
  | stridedAlloc {p p' x y r} (stride : Nat) :
      stridedAlloc (Kofft.fft cfg) p x stride = .ok (p', y, r) → PCall cfg (x.length / stride) p p'
  | istridedAlloc {p p' x y r} (stride : Nat) :
      stridedAlloc (Kofft.ifft cfg) p x stride = .ok (p', y, r) → PCall cfg (x.length / stride) p p'
  | oop {p p' x o y r} (si so : Nat) :
      oopStrided (Kofft.fft cfg) p x si o so = .ok (p', y, r) → PCall cfg (x.length / si) p p'
  | ioop {p p' x o y r} (si so : Nat) :
      oopStrided (Kofft.ifft cfg) p x si o so = .ok (p', y, r) → PCall cfg (x.length / si) p p'
  | twiddles {p} (n : Nat) : PCall cfg n p (p.getTwiddles cfg n).1
  | bluestein {p p' a b} (n : Nat) : p.getBluestein (Kofft.fft cfg) n = .ok (p', a, b) → PCall cfg n p p'

/-- The planners that have served any number of calls, in any order, whose lengths all lie in `S`. -/
inductive Served (cfg : Cfg) (S : Finset Nat) : Planner T → Prop
  | new : Served cfg S Planner.new
  | call {n p p'} : Served cfg S p → n ∈ S → PCall cfg n p p' → Served cfg S p'

/-- The number of scalars a planner keeps in its buffers, and in its tables for lengths up to `K`. -/
def held (p : Planner T) (K : Nat) : Nat :=
  2 * p.scratch.length + 2 * p.bluScratch.length + p.splitRe.length + p.splitIm.length +
    p.splitScratchRe.length + p.splitScratchIm.length +
  ∑ m ∈ range (K + 1), (2 * ((p.cache m).getD []).length +
    2 * (((p.blu m).getD ([], [])).1.length + ((p.blu m).getD ([], [])).2.length))

/-- One call of a public method of `RfftPlanner`, on real data of length `2·m` or `2·m + 1` (or asking for tables of
size `m`), with any transformer that keeps buffer lengths. -/
inductive RCall (simd : Bool) : Nat → RfftPlanner T → RfftPlanner T → Prop
  | getTwiddles {rp rp' t} (m : Nat) : rp.getTwiddles m = .ok (rp', t) → RCall simd m rp rp'
  | getPackTwiddles {rp rp' t} (m : Nat) : rp.getPackTwiddles m = .ok (rp', t) → RCall simd m rp rp'
  | rfft {rp rp'} {S : Type} {op : StOp S T} {s input output v} : OpLen op s →
      rp.rfft simd op s input output = .ok (rp', v) → RCall simd (input.length / 2) rp rp'
  | irfft {rp rp'} {S : Type} {op : StOp S T} {s input output v} : OpLen op s →
      rp.irfft simd op s input output = .ok (rp', v) → RCall simd (output.length / 2) rp rp'
  | rfftWithScratch {rp rp'} {S : Type} {op : StOp S T} {s input output scratch v} :
      rp.rfftWithScratch simd op s input output scratch = .ok (rp', v) → RCall simd (input.length / 2) rp rp'
  | irfftWithScratch {rp rp'} {S : Type} {op : StOp S T} {s input output scratch v} :
      rp.irfftWithScratch simd op s input output scratch = .ok (rp', v) → RCall simd (output.length / 2) rp rp'
  | rfftPacked {rp rp'} {S : Type} {op : StOp S T} {s input output scratch v} :
      rfftPacked rp op s input output scratch = .ok (rp', v) → RCall simd (input.length / 2) rp rp'
  | irfftPacked {rp rp'} {S : Type} {op : StOp S T} {s input output scratch v} :
      irfftPacked rp op s input output scratch = .ok (rp', v) → RCall simd (output.length / 2) rp rp'

/-- The real planners that have served any number of calls whose half lengths all lie in `S`. -/
inductive RServed (simd : Bool) (S : Finset Nat) : RfftPlanner T → Prop
  | new {rp} : RfftPlanner.new = .ok rp → RServed simd S rp
  | call {m rp rp'} : RServed simd S rp → m ∈ S → RCall simd m rp rp' → RServed simd S rp'

/-- The number of scalars a real planner keeps in its buffer, and in its tables of sizes up to `K`. -/
def rheld (rp : RfftPlanner T) (K : Nat) : Nat :=
  2 * rp.scratch.length +
  ∑ m ∈ range (K + 1), (2 * ((rp.cache m).getD []).length + 2 * ((rp.packCache m).getD []).length)

/-- The DCT planners that have planned lengths in `S` and run planned transforms on inputs whose lengths lie in `S`, any
number of times. -/
inductive DctServed (cfg : Cfg) (simd : Bool) (S : Finset Nat) : DctPlanner T → Prop
  | new {st} : DctPlanner.new = .ok st → DctServed cfg simd S st
  | plan {st} (n : Nat) : DctServed cfg simd S st → n ∈ S → DctServed cfg simd S (st.getCos n).1
  | call {st st' input output cosT v} : DctServed cfg simd S st → input.length ∈ S →
      st.dct2WithTable cfg simd input output cosT = .ok (st', v) → DctServed cfg simd S st'

/-- The number of scalars a DCT planner keeps. -/
def dheld (st : DctPlanner T) (K : Nat) : Nat :=
  rheld st.rfft K + st.buf.length + 2 * st.spectrum.length + ∑ m ∈ range (K + 1), ((st.cache m).getD []).length

/-- The DST planners that have planned lengths, and handed out scratch of lengths, in `S`. -/
inductive DstServed (S : Finset Nat) : DstPlanner T → Prop
  | new : DstServed S DstPlanner.new
  | plan2 {st} (n : Nat) : DstServed S st → n ∈ S → DstServed S (st.plan2 n).1
  | plan3 {st} (n : Nat) : DstServed S st → n ∈ S → DstServed S (st.plan3 n).1
  | plan4 {st} (n : Nat) : DstServed S st → n ∈ S → DstServed S (st.plan4 n).1
  | scratch {st} (n : Nat) : DstServed S st → n ∈ S → DstServed S (st.getScratch n).1

/-- The number of scalars a DST planner keeps. -/
def sheld (st : DstPlanner T) (K : Nat) : Nat :=
  st.scratch.length + ∑ m ∈ range (K + 1), (((st.cache2 m).getD []).length + ((st.cache3 m).getD []).length +
    ((st.cache4 m).getD []).length)

end Kofft.Spec
