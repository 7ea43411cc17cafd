import Verif.Spec.Linear
import Verif.Spec.Stft
import Verif.Model.Plan
/-
A user's session with one transformer: the calls he makes, one after the other, with their data, and what he gets to see.
-/
namespace Kofft.Spec

/-- A call on a transformer, with everything the caller passes. `inverse` chooses between the forward and the inverse
transform. Windows, strides, sizes and the sum-of-squares scratch of `istft` are parameters; the rest is data. -/
inductive Call (T : Type)
  | plain (inverse : Bool) (x : List (Cx T))
  | split (inverse : Bool) (re im : List T)
  | radix4 (x : List (Cx T))
  | strategy (st : Strategy) (x : List (Cx T))
  | strided (inverse : Bool) (x : List (Cx T)) (stride : Nat) (scratch : List (Cx T))
  | stridedAlloc (inverse : Bool) (x : List (Cx T)) (stride : Nat)
  | oopStrided (inverse : Bool) (x : List (Cx T)) (si : Nat) (out : List (Cx T)) (so : Nat)
  | batch (inverse : Bool) (xs : List (List (Cx T)))
  | fft2d (x : List (Cx T)) (rows cols : Nat) (scratch : List (Cx T))
  | fft3d (x : List (Cx T)) (depth rows cols : Nat) (tube row col : List (Cx T))
  | rfft (simd : Bool) (x : List T) (out scratch : List (Cx T))
  | irfft (simd : Bool) (x : List (Cx T)) (out : List T) (scratch : List (Cx T))
  | stft (signal window : List T) (hop : Nat) (frames : List (List (Cx T)))
  | istft (frames : List (List (Cx T))) (window : List T) (hop : Nat) (out scratch : List T)
  | frame (signal window : List T) (start : Nat) (out : List (Cx T))
  | inverseFrame (frame : List (Cx T)) (window : List T) (start : Nat) (out : List T)

/-- What the caller sees after a call: the complex and the real buffers it passed, as the call left them, and the result. -/
structure Reply (T : Type) where
  complex : List (List (Cx T))
  real : List (List T)
  res : Res

section
variable {T : Type} [Flt T]

/-- `fft` or `ifft`. -/
def transform (cfg : Cfg) (inverse : Bool) : FftOp T := if inverse then Kofft.ifft cfg else Kofft.fft cfg

/-- One call. -/
def Call.run (cfg : Cfg) (p : Planner T) : Call T → Outcome (Planner T × Reply T)
  | .plain inv x => do
    let (p, y, r) ← transform cfg inv p x
    pure (p, ⟨[y], [], r⟩)
  | .split inv re im => do
    let (p, a, b, r) ← if inv then ifftSplit cfg p re im else fftSplit cfg p re im
    pure (p, ⟨[], [a, b], r⟩)
  | .radix4 x => do
    let (p, y, r) ← fftRadix4 cfg p x
    pure (p, ⟨[y], [], r⟩)
  | .strategy st x => do
    let (p, y, r) ← fftWithStrategy cfg st p x
    pure (p, ⟨[y], [], r⟩)
  | .strided inv x stride sc => do
    let (p, y, sc, r) ← Kofft.strided (transform cfg inv) p x stride sc
    pure (p, ⟨[y, sc], [], r⟩)
  | .stridedAlloc inv x stride => do
    let (p, y, r) ← Kofft.stridedAlloc (transform cfg inv) p x stride
    pure (p, ⟨[y], [], r⟩)
  | .oopStrided inv x si o so => do
    let (p, y, r) ← Kofft.oopStrided (transform cfg inv) p x si o so
    pure (p, ⟨[x, y], [], r⟩)
  | .batch inv xs => do
    let (p, ys, r) ← Kofft.batch (transform cfg inv) p xs
    pure (p, ⟨ys, [], r⟩)
  | .fft2d x rows cols sc => do
    let (p, y, sc, r) ← Kofft.fft2d cfg p x rows cols sc
    pure (p, ⟨[y, sc], [], r⟩)
  | .fft3d x depth rows cols tb rw cl => do
    let (p, y, tb, rw, cl, r) ← Kofft.fft3d cfg p x depth rows cols tb rw cl
    pure (p, ⟨[y, tb, rw, cl], [], r⟩)
  | .rfft simd x o sc => do
    let (p, y, sc, r) ← rfftWithScratch simd (Kofft.fft cfg) p x o sc
    pure (p, ⟨[y, sc], [x], r⟩)
  | .irfft simd x o sc => do
    let (p, y, sc, r) ← irfftWithScratch simd (Kofft.ifft cfg) p x o sc
    pure (p, ⟨[x, sc], [y], r⟩)
  | .stft signal window hop frames => do
    let (p, fs, r) ← Kofft.stft (Kofft.fft cfg) p signal window hop frames
    pure (p, ⟨fs, [signal], r⟩)
  | .istft frames window hop o sc => do
    let (p, fs, y, _, r) ← Kofft.istft (Kofft.ifft cfg) p frames window hop o sc
    pure (p, ⟨fs, [y], r⟩)
  | .frame signal window start o => do
    let (p, y, r) ← stftFrame (Kofft.fft cfg) p signal window start o
    pure (p, ⟨[y], [signal], r⟩)
  | .inverseFrame f window start o => do
    let (p, f, y, r) ← istftFrame (Kofft.ifft cfg) p f window start o
    pure (p, ⟨[f], [y], r⟩)

/-- A session: all the replies, if it gets to the end. -/
def session (cfg : Cfg) : Planner T → List (Call T) → Outcome (List (Reply T))
  | _, [] => .ok []
  | p, c :: cs => do
    let (p, a) ← c.run cfg p
    let as ← session cfg p cs
    pure (a :: as)

end

section
variable {T : Type} (R : T → T → Prop)

/-- The same call with related data. -/
inductive CallRel : Call T → Call T → Prop
  | plain {inv x x'} (hx : BufRel R x x') : CallRel (.plain inv x) (.plain inv x')
  | split {inv re im re' im'} (h1 : List.Forall₂ R re re') (h2 : List.Forall₂ R im im') :
    CallRel (.split inv re im) (.split inv re' im')
  | radix4 {x x'} (hx : BufRel R x x') : CallRel (.radix4 x) (.radix4 x')
  | strategy {st x x'} (hx : BufRel R x x') : CallRel (.strategy st x) (.strategy st x')
  | strided {inv x x' stride s s'} (hx : BufRel R x x') (hs : BufRel R s s') :
    CallRel (.strided inv x stride s) (.strided inv x' stride s')
  | stridedAlloc {inv x x' stride} (hx : BufRel R x x') :
    CallRel (.stridedAlloc inv x stride) (.stridedAlloc inv x' stride)
  | oopStrided {inv x x' si o o' so} (hx : BufRel R x x') (ho : BufRel R o o') :
    CallRel (.oopStrided inv x si o so) (.oopStrided inv x' si o' so)
  | batch {inv xs xs'} (hx : List.Forall₂ (BufRel R) xs xs') : CallRel (.batch inv xs) (.batch inv xs')
  | fft2d {x x' rows cols s s'} (hx : BufRel R x x') (hs : BufRel R s s') :
    CallRel (.fft2d x rows cols s) (.fft2d x' rows cols s')
  | fft3d {x x' d r c t t' u u' v v'} (hx : BufRel R x x') (ht : BufRel R t t') (hu : BufRel R u u') (hv : BufRel R v v') :
    CallRel (.fft3d x d r c t u v) (.fft3d x' d r c t' u' v')
  | rfft {simd x x' o o' s s'} (hx : List.Forall₂ R x x') (ho : BufRel R o o') (hs : BufRel R s s') :
    CallRel (.rfft simd x o s) (.rfft simd x' o' s')
  | irfft {simd x x' o o' s s'} (hx : BufRel R x x') (ho : List.Forall₂ R o o') (hs : BufRel R s s') :
    CallRel (.irfft simd x o s) (.irfft simd x' o' s')
  | stft {x x' w hop f f'} (hx : List.Forall₂ R x x') (hf : List.Forall₂ (BufRel R) f f') :
    CallRel (.stft x w hop f) (.stft x' w hop f')
  | istft {f f' w hop o o' s} (hf : List.Forall₂ (BufRel R) f f') (ho : List.Forall₂ R o o') :
    CallRel (.istft f w hop o s) (.istft f' w hop o' s)
  | frame {x x' w start o o'} (hx : List.Forall₂ R x x') (ho : BufRel R o o') :
    CallRel (.frame x w start o) (.frame x' w start o')
  | inverseFrame {f f' w start o o'} (hf : BufRel R f f') (ho : List.Forall₂ R o o') :
    CallRel (.inverseFrame f w start o) (.inverseFrame f' w start o')

/-- The same result, related data. -/
structure ReplyRel (a b : Reply T) : Prop where
  complex : List.Forall₂ (BufRel R) a.complex b.complex
  real : List.Forall₂ (List.Forall₂ R) a.real b.real
  res : a.res = b.res

end

section
variable {T : Type}

/-- A function on every component. -/
def Cx.each (f : T → T) (z : Cx T) : Cx T := ⟨f z.re, f z.im⟩

/-- The same call with `f` applied to every number of its data. -/
def Call.map (f : T → T) : Call T → Call T
  | .plain inv x => .plain inv (x.map (Cx.each f))
  | .split inv re im => .split inv (re.map f) (im.map f)
  | .radix4 x => .radix4 (x.map (Cx.each f))
  | .strategy st x => .strategy st (x.map (Cx.each f))
  | .strided inv x stride s => .strided inv (x.map (Cx.each f)) stride (s.map (Cx.each f))
  | .stridedAlloc inv x stride => .stridedAlloc inv (x.map (Cx.each f)) stride
  | .oopStrided inv x si o so => .oopStrided inv (x.map (Cx.each f)) si (o.map (Cx.each f)) so
  | .batch inv xs => .batch inv (xs.map (List.map (Cx.each f)))
  | .fft2d x rows cols s => .fft2d (x.map (Cx.each f)) rows cols (s.map (Cx.each f))
  | .fft3d x d r c t u v =>
    .fft3d (x.map (Cx.each f)) d r c (t.map (Cx.each f)) (u.map (Cx.each f)) (v.map (Cx.each f))
  | .rfft simd x o s => .rfft simd (x.map f) (o.map (Cx.each f)) (s.map (Cx.each f))
  | .irfft simd x o s => .irfft simd (x.map (Cx.each f)) (o.map f) (s.map (Cx.each f))
  | .stft x w hop fr => .stft (x.map f) w hop (fr.map (List.map (Cx.each f)))
  | .istft fr w hop o s => .istft (fr.map (List.map (Cx.each f))) w hop (o.map f) s
  | .frame x w start o => .frame (x.map f) w start (o.map (Cx.each f))
  | .inverseFrame fr w start o => .inverseFrame (fr.map (Cx.each f)) w start (o.map f)

/-- The same reply with `f` applied to every number. -/
def Reply.map (f : T → T) (a : Reply T) : Reply T :=
  ⟨a.complex.map (List.map (Cx.each f)), a.real.map (List.map f), a.res⟩

end

/-- The two sessions end the same way (both reach the end, both panic at some call, or both never return), and if they
reach the end their replies are related. -/
def SameEnding {α β : Type} (P : α → β → Prop) (x : Outcome α) (y : Outcome β) : Prop :=
  (∃ a b, x = .ok a ∧ y = .ok b ∧ P a b) ∨ (x = .panic ∧ y = .panic) ∨ (x = .hang ∧ y = .hang)

/-- What a computation returns, changed by `f`; its ending is kept. -/
def onResult {α β : Type} (f : α → β) : Outcome α → Outcome β
  | .ok a => .ok (f a)
  | .panic => .panic
  | .hang => .hang

end Kofft.Spec
