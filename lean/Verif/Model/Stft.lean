import Verif.Model.Rfft
import Verif.Model.NdFft
import Verif.Model.Parallel
/-
Short-time transforms: `src/stft.rs`. The source is written for `f32`; here for any element type.
The transformer is any `FftImpl`, i.e. any stateful `op : StOp S T`.
-/
namespace Kofft

variable {T : Type} [Flt T]

/-- `Vec::resize(n, z)`: truncates or extends. -/
def resize {α : Type} (l : List α) (n : Nat) (z : α) : List α :=
  l.take n ++ List.replicate (n - l.length) z

/-- `usize::div_ceil`; division by zero panics in Rust, all callers below exclude it. -/
def divCeil (a b : Nat) : Nat := (a + b - 1) / b

/-- The loop `for i in 0..win_len { let x = if start + i < signal.len() {signal[start+i]*window[i]} else {0.0};
frame[i] = Complex32::new(x, 0.0) }` (`src/stft.rs:94-101`, `194-201`, `363-370`; with `push` into a cleared
vector at `252-259`). -/
def fillFrame (signal window : List T) (start : Nat) (frame : List (Cx T)) : Outcome (List (Cx T)) :=
  forRange 0 window.length frame fun i fr => do
    let x ← if start + i < signal.length then do
        let a ← rd signal (start + i)
        let w ← rd window i
        pure (a *. w)
      else pure Flt.zero
    wr fr i ⟨x, Flt.zero⟩

/-- `src/stft.rs:76-106` `stft`. Returns transformer, frames, result. -/
def stft {S : Type} (op : StOp S T) (s : S) (signal window : List T) (hop : Nat)
    (output : List (List (Cx T))) : Outcome (S × List (List (Cx T)) × Res) :=
  if hop = 0 then .ok (s, output, .error .InvalidHopSize)
  else if output.length < divCeil signal.length hop then .ok (s, output, .error .MismatchedLengths)
  else do
    let (st, r) ← loopRes output.length 0 (s, output) fun idx st => do
      let frame ← rd st.2 idx
      let frame := resize frame window.length Cx.zero
      let frame ← fillFrame signal window (idx * hop) frame
      let (s, y, r) ← op st.1 frame
      let o ← wr st.2 idx y
      .ok ((s, o), r)
    .ok (st.1, st.2, r)

/-- `if scratch[i] > 1e-8 { output[i] /= scratch[i] }`, one sample (`src/stft.rs:151-153`, `473-475`,
`512-514`). -/
def normSample (o n : T) : T := if Flt.lt (Flt.lit 1 8) n then o /. n else o

/-- The state of the overlap-add loop of `istft`. -/
structure OlaSt (S T : Type) where
  s : S
  frames : List (List (Cx T))
  output : List T
  scratch : List T

/-- The inner loop `src/stft.rs:142-147`: overlap-add of one frame. -/
def olaFrame (window : List T) (start : Nat) (frame : List (Cx T)) (o n : List T) :
    Outcome (List T × List T) :=
  forRange 0 window.length (o, n) fun i st =>
    if start + i < st.1.length then do
      let c ← rd frame i
      let w ← rd window i
      let a ← rd st.1 (start + i)
      let o ← wr st.1 (start + i) (a +. (c.re *. w))
      let b ← rd st.2 (start + i)
      let n ← wr st.2 (start + i) (b +. (w *. w))
      pure (o, n)
    else pure st

/-- The loop `src/stft.rs:150-154`. -/
def normalize (output scratch : List T) : Outcome (List T) :=
  forRange 0 output.length output fun i o => do
    let a ← rd o i
    let n ← rd scratch i
    wr o i (normSample a n)

/-- One frame of `istft` (`src/stft.rs:134-148`). -/
def istftStep {S : Type} (iop : StOp S T) (window : List T) (hop idx : Nat) (st : OlaSt S T) :
    Outcome (OlaSt S T × Res) := do
  let frame ← rd st.frames idx
  if frame.length ≠ window.length then .ok (st, .error .MismatchedLengths)
  else do
    let (s, y, r) ← iop st.s frame
    let fs ← wr st.frames idx y
    match r with
    | .error e => .ok (⟨s, fs, st.output, st.scratch⟩, .error e)
    | .ok _ => do
      let (o, n) ← olaFrame window (idx * hop) y st.output st.scratch
      .ok (⟨s, fs, o, n⟩, .ok ())

/-- `src/stft.rs:117-156` `istft`. Returns transformer, frames, output, scratch, result. -/
def istft {S : Type} (iop : StOp S T) (s : S) (frames : List (List (Cx T))) (window : List T) (hop : Nat)
    (output scratch : List T) :
    Outcome (S × List (List (Cx T)) × List T × List T × Res) :=
  if hop = 0 then .ok (s, frames, output, scratch, .error .InvalidHopSize)
  else if scratch.length ≠ output.length then .ok (s, frames, output, scratch, .error .MismatchedLengths)
  else do
    let scratch := scratch.map fun _ => (Flt.zero : T)
    let (st, r) ← loopRes frames.length 0 (⟨s, frames, output, scratch⟩ : OlaSt S T) (istftStep iop window hop)
    match r with
    | .error e => .ok (st.s, st.frames, st.output, st.scratch, .error e)
    | .ok _ => do
      let o ← normalize st.output st.scratch
      .ok (st.s, st.frames, o, st.scratch, .ok ())

/-- `src/stft.rs:160-166` `struct StftStream` (the transformer is threaded separately). -/
structure StftStream (T : Type) where
  signal : List T
  window : List T
  hop : Nat
  pos : Nat

/-- `src/stft.rs:169-185` `StftStream::new`. -/
def StftStream.new (signal window : List T) (hop : Nat) : Except FftError (StftStream T) :=
  if hop = 0 then .error .InvalidHopSize else .ok ⟨signal, window, hop, 0⟩

/-- `src/stft.rs:186-206` `StftStream::next_frame`. Returns stream, transformer, buffer, result. -/
def StftStream.nextFrame {S : Type} (op : StOp S T) (st : StftStream T) (s : S) (out : List (Cx T)) :
    Outcome (StftStream T × S × List (Cx T) × Except FftError Bool) :=
  if out.length ≠ st.window.length then .ok (st, s, out, .error .MismatchedLengths)
  else if st.pos ≥ st.signal.length then .ok (st, s, out, .ok false)
  else do
    let out ← fillFrame st.signal st.window st.pos out
    let (s, y, r) ← op s out
    match r with
    | .error e => .ok (st, s, y, .error e)
    | .ok _ => .ok ({ st with pos := st.pos + st.hop }, s, y, .ok true)

/-- One frame of `parallel` (`src/stft.rs:249-263`): a fresh transformer per frame. -/
def parFrame (cfg : Cfg) (signal window : List T) (hop idx : Nat) :
    Outcome (List (Cx T) × Res) := do
  let frame ← fillFrame signal window (idx * hop) (List.replicate window.length Cx.zero)
  let (_, y, r) ← fft cfg Planner.new frame
  .ok (y, r)

/-- One step of `parallel`: frame `idx` is overwritten; an earlier error is kept. -/
def parStep (cfg : Cfg) (signal window : List T) (hop : Nat) (st : List (List (Cx T)) × Res) (idx : Nat) :
    Outcome (List (List (Cx T)) × Res) := do
  let (y, r) ← parFrame cfg signal window hop idx
  let o ← wr st.1 idx y
  match st.2 with
  | .error e => .ok (o, .error e)
  | .ok _ => .ok (o, r)

/-- `src/stft.rs:232-264` `parallel`. `order` lists the frames the worker threads get to, in the order in
which they finish; rayon's `try_for_each` processes every frame unless one fails, and then may skip any
of the others; the result is some error if there was one (all frames have the same length, so all errors
are equal: the first one is reported here). -/
def stftParallel (cfg : Cfg) (order : List Nat) (signal window : List T) (hop : Nat)
    (output : List (List (Cx T))) : Outcome (List (List (Cx T)) × Res) :=
  if hop = 0 then .ok (output, .error .InvalidHopSize)
  else order.foldlM (m := Outcome) (parStep cfg signal window hop) (output, .ok ())

/-- One frame of `inverse_parallel` (`src/stft.rs:308-323`): windowed samples and squared window. -/
def invParFrame (cfg : Cfg) (window : List T) (frame : List (Cx T)) :
    Outcome ((List T × List T) × Res) := do
  let (_, y, r) ← ifft cfg Planner.new frame
  match r with
  | .error e => .ok (([], []), .error e)
  | .ok _ => do
    let v ← forRange 0 window.length
      (List.replicate window.length (Flt.zero : T), List.replicate window.length (Flt.zero : T))
      fun i st => do
        let c ← rd y i
        let w ← rd window i
        let a ← wr st.1 i (c.re *. w)
        let n ← wr st.2 i (w *. w)
        pure (a, n)
    .ok (v, .ok ())

/-- The inner loop `src/stft.rs:328-333`. -/
def addPartial (winLen start : Nat) (part : List T × List T) (o n : List T) : Outcome (List T × List T) :=
  forRange 0 winLen (o, n) fun i st =>
    if start + i < st.1.length then do
      let a ← rd st.1 (start + i)
      let x ← rd part.1 i
      let o ← wr st.1 (start + i) (a +. x)
      let b ← rd st.2 (start + i)
      let y ← rd part.2 i
      let n ← wr st.2 (start + i) (b +. y)
      pure (o, n)
    else pure st

/-- The sequential combination `src/stft.rs:325-334`, frames in index order. -/
def combine (winLen hop : Nat) : Nat → List (List T × List T) → List T → List T → Outcome (List T × List T)
  | _, [], o, n => .ok (o, n)
  | idx, part :: rest, o, n => do
    let (o, n) ← addPartial winLen (idx * hop) part o n
    combine winLen hop (idx + 1) rest o n

/-- `Result::is_err`. -/
def isErr : Res → Bool
  | .error _ => true
  | .ok _ => false

/-- `src/stft.rs:289-343` `inverse_parallel`. `collect` keeps the frame order whatever the schedule, and
every frame has its own transformer, so the schedule cannot be observed except in which error is reported
when frames of different lengths fail differently; the first one is reported here. Returns output, result. -/
def istftParallel (cfg : Cfg) (frames : List (List (Cx T))) (window : List T) (hop : Nat) (output : List T) :
    Outcome (List T × Res) :=
  if hop = 0 then .ok (output, .error .InvalidHopSize)
  else do
    let parts ← frames.mapM (m := Outcome) (invParFrame cfg window)
    match parts.find? (fun p => isErr p.2) with
    | some (_, r) => .ok (output, r)
    | none => do
      let (o, n) ← combine window.length hop 0 (parts.map Prod.fst) output
        (List.replicate output.length (Flt.zero : T))
      let o ← forRange 0 o.length o fun i o => do
        let a ← rd o i
        let v ← rd n i
        wr o i (if Flt.lt (Flt.lit 1 8) v then a /. v else Flt.zero)
      .ok (o, .ok ())

/-- One finished task of `inverse_parallel` (`src/stft.rs:305-324`): the worker writes its part into the slot of its frame, or
records its error if no other task failed before. A task only touches its own clone of the frame, its own transformer and its own
slot, so tasks are taken one at a time in the order in which they finish. -/
def invParStep (cfg : Cfg) (frames : List (List (Cx T))) (window : List T)
    (st : List (Option (List T × List T)) × Res) (idx : Nat) : Outcome (List (Option (List T × List T)) × Res) := do
  let frame ← rd frames idx
  let (v, r) ← invParFrame cfg window frame
  match r with
  | .error e =>
    match st.2 with
    | .error e0 => .ok (st.1, .error e0)
    | .ok _ => .ok (st.1, .error e)
  | .ok _ => do
    let sl ← wr st.1 idx (some v)
    .ok (sl, st.2)

/-- `src/stft.rs:289-343` `inverse_parallel` with the schedule made explicit: `order` lists the frames the worker threads finish,
in that order. Without an error rayon finishes every frame; after an error it may skip any of the others. `collect` reads the slots
in frame order. -/
def istftParallelSched (cfg : Cfg) (order : List Nat) (frames : List (List (Cx T))) (window : List T) (hop : Nat)
    (output : List T) : Outcome (List T × Res) :=
  if hop = 0 then .ok (output, .error .InvalidHopSize)
  else do
    let (slots, r) ← order.foldlM (m := Outcome) (invParStep cfg frames window) (List.replicate frames.length none, .ok ())
    match r with
    | .error e => .ok (output, .error e)
    | .ok _ => do
      let (o, n) ← combine window.length hop 0 (slots.filterMap id) output
        (List.replicate output.length (Flt.zero : T))
      let o ← forRange 0 o.length o fun i o => do
        let a ← rd o i
        let v ← rd n i
        wr o i (if Flt.lt (Flt.lit 1 8) v then a /. v else Flt.zero)
      .ok (o, .ok ())

/-- `src/stft.rs:355-372` `frame`. -/
def stftFrame {S : Type} (op : StOp S T) (s : S) (signal window : List T) (start : Nat)
    (out : List (Cx T)) : Outcome (S × List (Cx T) × Res) := do
  let out ← fillFrame signal window start out
  op s out

/-- `src/stft.rs:384-399` `inverse_frame`. -/
def istftFrame {S : Type} (iop : StOp S T) (s : S) (frame : List (Cx T)) (window : List T) (start : Nat)
    (output : List T) : Outcome (S × List (Cx T) × List T × Res) := do
  let (s, y, r) ← iop s frame
  match r with
  | .error e => .ok (s, y, output, .error e)
  | .ok _ => do
    let o ← forRange 0 window.length output fun i o =>
      if start + i < o.length then do
        let c ← rd y i
        let w ← rd window i
        let a ← rd o (start + i)
        wr o (start + i) (a +. (c.re *. w))
      else pure o
    .ok (s, y, o, .ok ())

/-- `src/stft.rs:407-419` `struct IstftStream` (transformer threaded separately). -/
structure IstftStream (T : Type) where
  winLen : Nat
  hop : Nat
  window : List T
  buffer : List T
  norm : List T
  timeBuf : List (Cx T)
  bufPos : Nat
  outPos : Nat
  frameCount : Nat

/-- `src/stft.rs:422-446` `IstftStream::new`. -/
def IstftStream.new (winLen hop : Nat) (window : List T) : Except FftError (IstftStream T) :=
  if hop = 0 then .error .InvalidHopSize
  else .ok ⟨winLen, hop, window, List.replicate (winLen + hop * 2) Flt.zero,
    List.replicate (winLen + hop * 2) Flt.zero, List.replicate winLen Cx.zero, 0, 0, 0⟩

/-- `for i in lo..hi { if norm[i] > 1e-8 { buffer[i] /= norm[i] } norm[i] = 0.0 }`
(`src/stft.rs:472-477`, `511-516`). -/
def emit (lo hi : Nat) (b n : List T) : Outcome (List T × List T) :=
  forRange lo hi (b, n) fun i st => do
    let v ← rd st.2 i
    let a ← rd st.1 i
    let b ← wr st.1 i (normSample a v)
    let n ← wr st.2 i Flt.zero
    pure (b, n)

/-- `src/stft.rs:453-493` `IstftStream::push_frame`. On success the returned samples are
`buffer[out_start..out_end]`. -/
def IstftStream.push {S : Type} (iop : StOp S T) (st : IstftStream T) (s : S) (frame : List (Cx T)) :
    Outcome (IstftStream T × S × Except FftError (List T)) :=
  if frame.length ≠ st.winLen then .ok (st, s, .error .MismatchedLengths)
  else do
    let (s, y, r) ← iop s frame
    let st := { st with timeBuf := y }
    match r with
    | .error e => .ok (st, s, .error e)
    | .ok _ => do
      let (b, n) ← forRange 0 st.winLen (st.buffer, st.norm) fun i bn => do
        let w ← rd st.window i
        let c ← rd st.timeBuf i
        let a ← rd bn.1 (st.bufPos + i)
        let b ← wr bn.1 (st.bufPos + i) (a +. (c.re *. w))
        let v ← rd bn.2 (st.bufPos + i)
        let n ← wr bn.2 (st.bufPos + i) (v +. (w *. w))
        pure (b, n)
      let outStart := st.outPos
      let outEnd := st.outPos + st.hop
      let (b, n) ← emit outStart outEnd b n
      let bufPos := st.bufPos + st.hop
      let newLen := bufPos + st.winLen
      let big := newLen > b.length
      let b := if big then resize b newLen Flt.zero else b
      let n := if big then resize n newLen Flt.zero else n
      let (b, n) ← forRange 0 st.hop (b, n) fun i bn => do
        let idx := bufPos + st.winLen - st.hop + i
        let b ← wr bn.1 idx Flt.zero
        let n ← wr bn.2 idx Flt.zero
        pure (b, n)
      let st := { st with buffer := b, norm := n, bufPos := bufPos, outPos := outEnd,
                          frameCount := st.frameCount + 1 }
      if outEnd ≤ b.length then .ok (st, s, .ok ((b.drop outStart).take (outEnd - outStart)))
      else .panic

/-- `src/stft.rs:502-519` `IstftStream::flush`. `buf_pos + win_len - hop` cannot underflow once a frame has
been pushed (`buf_pos ≥ hop`). -/
def IstftStream.flush (st : IstftStream T) : Outcome (IstftStream T × List T) :=
  if st.frameCount = 0 then .ok (st, [])
  else
    let outStart := st.outPos
    let outEnd := st.bufPos + st.winLen - st.hop
    if outStart ≥ outEnd then .ok (st, [])
    else do
      let (b, n) ← emit outStart outEnd st.buffer st.norm
      .ok ({ st with buffer := b, norm := n, outPos := outEnd }, (b.drop outStart).take (outEnd - outStart))

end Kofft
