import Verif.Model.Api
/-
Which planner states a user can produce.
-/
namespace Kofft.Spec

variable {T : Type} [Flt T]

/-- Planner states reachable from `FftPlanner::new` by any sequence of calls of the public methods
of `FftPlanner` and `ScalarFftImpl`, where every transform length satisfies `L`.
(A call that panics leaves no planner behind and is not a step.) -/
inductive ReachVia (cfg : Cfg) (L : Nat → Prop) : Planner T → Prop
  | new : ReachVia cfg L Planner.new
  | fft {p p' x y r} : ReachVia cfg L p → L x.length →
      fft cfg p x = .ok (p', y, r) → ReachVia cfg L p'
  | ifft {p p' x y r} : ReachVia cfg L p → L x.length →
      ifft cfg p x = .ok (p', y, r) → ReachVia cfg L p'
  | stockham {p p' x y r} : ReachVia cfg L p → L x.length →
      stockhamFft cfg p x = .ok (p', y, r) → ReachVia cfg L p'
  | radix4 {p p' x y r} : ReachVia cfg L p → L x.length →
      fftRadix4 cfg p x = .ok (p', y, r) → ReachVia cfg L p'
  | strategy {p p' x y r} (st : Strategy) : ReachVia cfg L p → L x.length →
      fftWithStrategy cfg st p x = .ok (p', y, r) → ReachVia cfg L p'
  | split {p p' re im re' im' r} : ReachVia cfg L p → L re.length →
      fftSplit cfg p re im = .ok (p', re', im', r) → ReachVia cfg L p'
  | isplit {p p' re im re' im' r} : ReachVia cfg L p → L re.length →
      ifftSplit cfg p re im = .ok (p', re', im', r) → ReachVia cfg L p'
  | strided {p p' x sc y s r} (stride : Nat) : ReachVia cfg L p → L sc.length →
      strided (Kofft.fft cfg) p x stride sc = .ok (p', y, s, r) → ReachVia cfg L p'
  | istrided {p p' x sc y s r} (stride : Nat) : ReachVia cfg L p → L sc.length →
      strided (Kofft.ifft cfg) p x stride sc = .ok (p', y, s, r) → ReachVia cfg L p'
  | stridedAlloc {p p' x y r} (stride : Nat) : ReachVia cfg L p → L (x.length / stride) →
      stridedAlloc (Kofft.fft cfg) p x stride = .ok (p', y, r) → ReachVia cfg L p'
  | istridedAlloc {p p' x y r} (stride : Nat) : ReachVia cfg L p → L (x.length / stride) →
      stridedAlloc (Kofft.ifft cfg) p x stride = .ok (p', y, r) → ReachVia cfg L p'
  | oop {p p' x o y r} (si so : Nat) : ReachVia cfg L p → L (x.length / si) →
      oopStrided (Kofft.fft cfg) p x si o so = .ok (p', y, r) → ReachVia cfg L p'
  | ioop {p p' x o y r} (si so : Nat) : ReachVia cfg L p → L (x.length / si) →
      oopStrided (Kofft.ifft cfg) p x si o so = .ok (p', y, r) → ReachVia cfg L p'
  | twiddles {p} (n : Nat) : ReachVia cfg L p → ReachVia cfg L (p.getTwiddles cfg n).1
  | bluestein {p p' a b} (n : Nat) : ReachVia cfg L p →
      p.getBluestein (Kofft.fft cfg) n = .ok (p', a, b) → ReachVia cfg L p'

/-- Any history at all. -/
def Reach (cfg : Cfg) : Planner T → Prop := ReachVia cfg (fun _ => True)

/-- The size of the internal power-of-two transform used for a length-`n` transform: `n` itself
for powers of two, the Bluestein convolution length (least power of two `≥ 2n-1`) otherwise. -/
def workSize (n : Nat) : Nat := if isPow2 n then n else nextPow2 (2 * n - 1)

end Kofft.Spec
