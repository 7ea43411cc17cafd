import Verif.Model.Rfft
/-
Which real-FFT planners can occur.
-/
namespace Kofft
variable {T : Type} [Flt T]

/-- In state `s` the transform keeps the buffer length (in Rust: it is given `&mut [Complex<T>]`). -/
def OpLen {S : Type} (op : StOp S T) (s : S) : Prop :=
  ∀ x s' y r, op s x = .ok (s', y, r) → y.length = x.length

/-- The planners a program can hold: created by `new`, then used in any order by any of the public
entry points, with any transformer, any buffers and any scratch, whatever the calls returned. -/
inductive RReach (simd : Bool) : RfftPlanner T → Prop
  | new {rp} : RfftPlanner.new = .ok rp → RReach simd rp
  | getTwiddles {rp rp' m t} : RReach simd rp → rp.getTwiddles m = .ok (rp', t) → RReach simd rp'
  | getPackTwiddles {rp rp' m t} : RReach simd rp → rp.getPackTwiddles m = .ok (rp', t) → RReach simd rp'
  | rfft {rp rp'} {S : Type} {op : StOp S T} {s input output v} : RReach simd rp →
      rp.rfft simd op s input output = .ok (rp', v) → RReach simd rp'
  | irfft {rp rp'} {S : Type} {op : StOp S T} {s input output v} : RReach simd rp →
      rp.irfft simd op s input output = .ok (rp', v) → RReach simd rp'
  | rfftWithScratch {rp rp'} {S : Type} {op : StOp S T} {s input output scratch v} : RReach simd rp →
      rp.rfftWithScratch simd op s input output scratch = .ok (rp', v) → RReach simd rp'
  | irfftWithScratch {rp rp'} {S : Type} {op : StOp S T} {s input output scratch v} : RReach simd rp →
      rp.irfftWithScratch simd op s input output scratch = .ok (rp', v) → RReach simd rp'
  | rfftPacked {rp rp'} {S : Type} {op : StOp S T} {s input output scratch v} : RReach simd rp →
      rfftPacked rp op s input output scratch = .ok (rp', v) → RReach simd rp'
  | irfftPacked {rp rp'} {S : Type} {op : StOp S T} {s input output scratch v} : RReach simd rp →
      irfftPacked rp op s input output scratch = .ok (rp', v) → RReach simd rp'

end Kofft
