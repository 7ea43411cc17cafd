import Verif.Spec.Reach
/-
Histories that start at a given transformer.
-/
namespace Kofft.Spec

variable {T : Type} [Flt T]

/-- Planner states reachable from the state `p0` by any sequence of calls of the public methods of `FftPlanner` and
`ScalarFftImpl` (the calls of `ReachVia`). -/
inductive Later (cfg : Cfg) (p0 : Planner T) : Planner T → Prop
  | refl : Later cfg p0 p0
  | fft {p p' x y r} : Later cfg p0 p → fft cfg p x = .ok (p', y, r) → Later cfg p0 p'
  | ifft {p p' x y r} : Later cfg p0 p → ifft cfg p x = .ok (p', y, r) → Later cfg p0 p'
  | stockham {p p' x y r} : Later cfg p0 p → stockhamFft cfg p x = .ok (p', y, r) → Later cfg p0 p'
  | radix4 {p p' x y r} : Later cfg p0 p → fftRadix4 cfg p x = .ok (p', y, r) → Later cfg p0 p'
  | strategy {p p' x y r} (st : Strategy) : Later cfg p0 p → fftWithStrategy cfg st p x = .ok (p', y, r) → Later cfg p0 p'
  | split {p p' re im re' im' r} : Later cfg p0 p → fftSplit cfg p re im = .ok (p', re', im', r) → Later cfg p0 p'
  | isplit {p p' re im re' im' r} : Later cfg p0 p → ifftSplit cfg p re im = .ok (p', re', im', r) → Later cfg p0 p'
  | strided {p p' x sc y s r} (stride : Nat) : Later cfg p0 p →
      strided (Kofft.fft cfg) p x stride sc = .ok (p', y, s, r) → Later cfg p0 p'
  | istrided {p p' x sc y s r} (stride : Nat) : Later cfg p0 p →
      strided (Kofft.ifft cfg) p x stride sc = .ok (p', y, s, r) → Later cfg p0 p'
  | stridedAlloc {p p' x y r} (stride : Nat) : Later cfg p0 p →
      stridedAlloc (Kofft.fft cfg) p x stride = .ok (p', y, r) → Later cfg p0 p'
  | istridedAlloc {p p' x y r} (stride : Nat) : Later cfg p0 p →
      stridedAlloc (Kofft.ifft cfg) p x stride = .ok (p', y, r) → Later cfg p0 p'
  | oop {p p' x o y r} (si so : Nat) : Later cfg p0 p →
      oopStrided (Kofft.fft cfg) p x si o so = .ok (p', y, r) → Later cfg p0 p'
  | ioop {p p' x o y r} (si so : Nat) : Later cfg p0 p →
      oopStrided (Kofft.ifft cfg) p x si o so = .ok (p', y, r) → Later cfg p0 p'
  | twiddles {p} (n : Nat) : Later cfg p0 p → Later cfg p0 (p.getTwiddles cfg n).1
  | bluestein {p p' a b} (n : Nat) : Later cfg p0 p →
      p.getBluestein (Kofft.fft cfg) n = .ok (p', a, b) → Later cfg p0 p'

end Kofft.Spec
