import Verif.Model.Crash
/-
Sessions in which calls may be abandoned half way.
-/
namespace Kofft.Spec

/-- A call of a method of the transformer, with what the caller passes; `inverse` chooses the inverse transform. -/
inductive Method (T : Type)
  | plain (inverse : Bool) (x : List (Cx T))
  | stockham (x : List (Cx T))
  | radix4 (x : List (Cx T))
  | strategy (st : Strategy) (x : List (Cx T))
  | split (inverse : Bool) (re im : List T)
  | strided (inverse : Bool) (x : List (Cx T)) (stride : Nat) (scratch : List (Cx T))
  | stridedAlloc (inverse : Bool) (x : List (Cx T)) (stride : Nat)
  | oopStrided (inverse : Bool) (x : List (Cx T)) (inStride : Nat) (out : List (Cx T)) (outStride : Nat)

variable {T : Type}

/-- The length of the transform the call asks for. -/
def Method.size : Method T → Nat
  | .plain _ x | .stockham x | .radix4 x | .strategy _ x => x.length
  | .split _ re _ => re.length
  | .strided _ _ _ sc => sc.length
  | .stridedAlloc _ x stride => x.length / stride
  | .oopStrided _ x si _ _ => x.length / si

variable [Flt T]

/-- The transformer after the call, if the call returns. -/
def Method.after (cfg : Cfg) (p : Planner T) : Method T → Outcome (Planner T)
  | .plain inv x => (if inv then ifft cfg p x else fft cfg p x) >>= fun v => .ok v.1
  | .stockham x => stockhamFft cfg p x >>= fun v => .ok v.1
  | .radix4 x => fftRadix4 cfg p x >>= fun v => .ok v.1
  | .strategy st x => fftWithStrategy cfg st p x >>= fun v => .ok v.1
  | .split inv re im => (if inv then ifftSplit cfg p re im else fftSplit cfg p re im) >>= fun v => .ok v.1
  | .strided inv x stride sc => Kofft.strided (if inv then ifft cfg else fft cfg) p x stride sc >>= fun v => .ok v.1
  | .stridedAlloc inv x stride => Kofft.stridedAlloc (if inv then ifft cfg else fft cfg) p x stride >>= fun v => .ok v.1
  | .oopStrided inv x si o so => Kofft.oopStrided (if inv then ifft cfg else fft cfg) p x si o so >>= fun v => .ok v.1

/-- The transformer at every instant during the call. -/
def Method.during (cfg : Cfg) (p : Planner T) : Method T → List (Planner T)
  | .plain inv x => if inv then ifftSeen cfg p x else fftSeen cfg p x
  | .stockham x => stockhamSeen cfg (fft cfg) (fftSeen cfg) p x
  | .radix4 x => radix4Seen cfg p x
  | .strategy st x => strategySeen cfg st p x
  | .split inv re im => if inv then ifftSplitSeen cfg p re im else fftSplitSeen cfg p re im
  | .strided inv x stride sc => stridedSeen (if inv then ifftSeen cfg else fftSeen cfg) p x stride sc
  | .stridedAlloc inv x stride =>
    stridedAllocSeen (if inv then ifft cfg else fft cfg) (if inv then ifftSeen cfg else fftSeen cfg) p x stride
  | .oopStrided inv x si o so =>
    oopStridedSeen (if inv then ifft cfg else fft cfg) (if inv then ifftSeen cfg else fftSeen cfg) p x si o so

/-- Transformers left by a session, from a new transformer, of calls whose transform lengths satisfy `L`, each of which either
returned or was abandoned at some instant. (Batches, two- and three-dimensional and short-time transforms are sequences of
such calls.) -/
inductive Survives (cfg : Cfg) (L : Nat → Prop) : Planner T → Prop
  | new : Survives cfg L Planner.new
  | returned {p q} (c : Method T) : Survives cfg L p → L c.size → c.after cfg p = .ok q → Survives cfg L q
  | abandoned {p q} (c : Method T) : Survives cfg L p → L c.size → q ∈ c.during cfg p → Survives cfg L q

end Kofft.Spec
