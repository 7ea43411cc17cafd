import Verif.Model.Stft
/-
Calls whose sizes come near the limit of `usize`. The other model files read `usize` as unbounded naturals; here the
index arithmetic of the functions that multiply or add caller-supplied sizes is done on machine words: with overflow
checks (debug profile) an overflowing operation panics, without (release profile) it wraps.
-/
namespace Kofft

variable {T : Type} [Flt T]

/-- A target: number of bits of `usize`, and whether overflow checks are compiled in. -/
structure Word where
  bits : Nat
  checks : Bool

/-- The value of an overflowing or non-overflowing `usize` operation whose true result is `v`. -/
def Word.val (w : Word) (v : Nat) : Outcome Nat :=
  if v < 2 ^ w.bits then .ok v else if w.checks then .panic else .ok (v % 2 ^ w.bits)

/-- `a * b` on `usize`. -/
def Word.mul (w : Word) (a b : Nat) : Outcome Nat := w.val (a * b)

/-- `a + b` on `usize`. -/
def Word.add (w : Word) (a b : Nat) : Outcome Nat := w.val (a + b)

/-! ### Strided transforms -/

/-- `for i in 0..n { dst[i] = src[i * stride] }` (`src/fft.rs:1191-1193`, `1252-1254`). -/
def gatherW (w : Word) (src : List (Cx T)) (stride n : Nat) (dst : List (Cx T)) : Outcome (List (Cx T)) :=
  forRange 0 n dst fun i d => do
    let j ← w.mul i stride
    let v ← rd src j
    wr d i v

/-- `for i in 0..n { dst[i * stride] = src[i] }` (`src/fft.rs:1195-1197`, `1256-1258`). -/
def scatterW (w : Word) (src : List (Cx T)) (stride n : Nat) (dst : List (Cx T)) : Outcome (List (Cx T)) :=
  forRange 0 n dst fun i d => do
    let v ← rd src i
    let j ← w.mul i stride
    wr d j v

/-- `src/fft.rs:1175-1200` `fft_strided`, `src/fft.rs:1236-1260` `ifft_strided` on machine words. -/
def stridedW (w : Word) (op : FftOp T) (p : Planner T) (input : List (Cx T)) (stride : Nat)
    (scratch : List (Cx T)) : Outcome (Planner T × List (Cx T) × List (Cx T) × Res) :=
  if stride = 0 then .ok (p, input, scratch, .error .InvalidStride)
  else
    let n := scratch.length
    if n = 0 then .ok (p, input, scratch, .ok ())
    else do
      let m ← w.mul (n - 1) stride
      let need ← w.add m 1
      if input.length < need then .ok (p, input, scratch, .error .MismatchedLengths)
      else do
        let scratch ← gatherW w input stride n scratch
        let (p, scratch, r) ← op p scratch
        match r with
        | .error e => .ok (p, input, scratch, .error e)
        | .ok _ => do
          let input ← scatterW w scratch stride n input
          .ok (p, input, scratch, .ok ())

/-! ### Two and three dimensions -/

/-- `fft.fft(&mut data[start..start + len])` (`src/ndfft.rs:93`, `149`): the slicing panics unless
`start ≤ end ≤ data.len()`. -/
def sliceFftW (w : Word) (cfg : Cfg) (start len : Nat) (s : NdSt T) : Outcome (NdSt T × Res) := do
  let stop ← w.add start len
  if start ≤ stop ∧ stop ≤ s.data.length then do
    let (p, y, r) ← fft cfg s.p ((s.data.drop start).take (stop - start))
    .ok (⟨p, s.data.take start ++ y ++ s.data.drop stop, s.sc⟩, r)
  else .panic

/-- `fft.fft_strided(&mut data[start..], stride, scratch)` (`src/ndfft.rs:97`, `135`, `142`). -/
def stridedAtW (w : Word) (cfg : Cfg) (start stride : Nat) (s : NdSt T) : Outcome (NdSt T × Res) :=
  if start ≤ s.data.length then do
    let (p, y, sc, r) ← stridedW w (fft cfg) s.p (s.data.drop start) stride s.sc
    .ok (⟨p, s.data.take start ++ y, sc⟩, r)
  else .panic

/-- One row (`src/ndfft.rs:91-94`). -/
def row2dW (w : Word) (cfg : Cfg) (cols r : Nat) (s : NdSt T) : Outcome (NdSt T × Res) := do
  let start ← w.mul r cols
  sliceFftW w cfg start cols s

/-- `src/ndfft.rs:74-100` `fft2d_inplace` on machine words. -/
def fft2dW (w : Word) (cfg : Cfg) (p : Planner T) (data : List (Cx T)) (rows cols : Nat) (sc : List (Cx T)) :
    Outcome (Planner T × List (Cx T) × List (Cx T) × Res) := do
  let size ← w.mul rows cols
  if size ≠ data.length then .ok (p, data, sc, .error .MismatchedLengths)
  else if rows = 0 ∨ cols = 0 then .ok (p, data, sc, .ok ())
  else if sc.length ≠ rows then .ok (p, data, sc, .error .MismatchedLengths)
  else do
    let (s, r) ← loopRes rows 0 (⟨p, data, sc⟩ : NdSt T) (row2dW w cfg cols)
    match r with
    | .error e => .ok (s.p, s.data, s.sc, .error e)
    | .ok _ => do
      let (s, r) ← loopRes cols 0 s fun c s => stridedAtW w cfg c cols s
      .ok (s.p, s.data, s.sc, r)

/-- One tube (`src/ndfft.rs:134-135`). -/
def tube3dW (w : Word) (cfg : Cfg) (rows cols r c : Nat) (s : NdSt T) : Outcome (NdSt T × Res) := do
  let a ← w.mul r cols
  let start ← w.add a c
  let stride ← w.mul rows cols
  stridedAtW w cfg start stride s

/-- One column of a plane (`src/ndfft.rs:141-142`). -/
def col3dW (w : Word) (cfg : Cfg) (rows cols d c : Nat) (s : NdSt T) : Outcome (NdSt T × Res) := do
  let a ← w.mul d rows
  let b ← w.mul a cols
  let start ← w.add b c
  stridedAtW w cfg start cols s

/-- One row of a plane (`src/ndfft.rs:148-149`). -/
def row3dW (w : Word) (cfg : Cfg) (rows cols d r : Nat) (s : NdSt T) : Outcome (NdSt T × Res) := do
  let a ← w.mul d rows
  let b ← w.mul a cols
  let c ← w.mul r cols
  let start ← w.add b c
  sliceFftW w cfg start cols s

/-- `src/ndfft.rs:115-153` `fft3d_inplace` on machine words. -/
def fft3dW (w : Word) (cfg : Cfg) (p : Planner T) (data : List (Cx T)) (depth rows cols : Nat)
    (tube row col : List (Cx T)) :
    Outcome (Planner T × List (Cx T) × List (Cx T) × List (Cx T) × List (Cx T) × Res) := do
  let a ← w.mul depth rows
  let size ← w.mul a cols
  if size ≠ data.length then .ok (p, data, tube, row, col, .error .MismatchedLengths)
  else if depth = 0 ∨ rows = 0 ∨ cols = 0 then .ok (p, data, tube, row, col, .ok ())
  else if tube.length ≠ depth ∨ row.length ≠ rows ∨ col.length ≠ cols then
    .ok (p, data, tube, row, col, .error .MismatchedLengths)
  else do
    let (s, r) ← loopRes rows 0 (⟨p, data, tube⟩ : NdSt T) fun r s =>
      loopRes cols 0 s fun c s => tube3dW w cfg rows cols r c s
    match r with
    | .error e => .ok (s.p, s.data, s.sc, row, col, .error e)
    | .ok _ => do
      let tube := s.sc
      let (s, r) ← loopRes depth 0 (⟨s.p, s.data, row⟩ : NdSt T) fun d s =>
        loopRes cols 0 s fun c s => col3dW w cfg rows cols d c s
      match r with
      | .error e => .ok (s.p, s.data, tube, s.sc, col, .error e)
      | .ok _ => do
        let (s, r) ← loopRes depth 0 s fun d s =>
          loopRes rows 0 s fun r s => row3dW w cfg rows cols d r s
        .ok (s.p, s.data, tube, s.sc, col, r)

/-! ### Short-time transforms -/

/-- The loop `src/stft.rs:94-101` on machine words. -/
def fillFrameW (w : Word) (signal window : List T) (start : Nat) (frame : List (Cx T)) : Outcome (List (Cx T)) :=
  forRange 0 window.length frame fun i fr => do
    let j ← w.add start i
    let x ← if j < signal.length then do
        let a ← rd signal j
        let v ← rd window i
        pure (a *. v)
      else pure Flt.zero
    wr fr i ⟨x, Flt.zero⟩

/-- One frame of `stft` (`src/stft.rs:91-103`). -/
def stftStepW {S : Type} (w : Word) (op : StOp S T) (signal window : List T) (hop idx : Nat)
    (st : S × List (List (Cx T))) : Outcome ((S × List (List (Cx T))) × Res) := do
  let frame ← rd st.2 idx
  let start ← w.mul idx hop
  let frame := resize frame window.length Cx.zero
  let frame ← fillFrameW w signal window start frame
  let (s, y, r) ← op st.1 frame
  let o ← wr st.2 idx y
  .ok ((s, o), r)

/-- `src/stft.rs:76-106` `stft` on machine words (`div_ceil` does not overflow). -/
def stftW {S : Type} (w : Word) (op : StOp S T) (s : S) (signal window : List T) (hop : Nat)
    (output : List (List (Cx T))) : Outcome (S × List (List (Cx T)) × Res) :=
  if hop = 0 then .ok (s, output, .error .InvalidHopSize)
  else if output.length < divCeil signal.length hop then .ok (s, output, .error .MismatchedLengths)
  else do
    let (st, r) ← loopRes output.length 0 (s, output) (stftStepW w op signal window hop)
    .ok (st.1, st.2, r)

/-- The inner loop `src/stft.rs:142-147` on machine words. -/
def olaFrameW (w : Word) (window : List T) (start : Nat) (frame : List (Cx T)) (o n : List T) :
    Outcome (List T × List T) :=
  forRange 0 window.length (o, n) fun i st => do
    let j ← w.add start i
    if j < st.1.length then do
      let c ← rd frame i
      let v ← rd window i
      let a ← rd st.1 j
      let o ← wr st.1 j (a +. (c.re *. v))
      let b ← rd st.2 j
      let n ← wr st.2 j (b +. (v *. v))
      pure (o, n)
    else pure st

/-- One frame of `istft` (`src/stft.rs:136-148`) on machine words. -/
def istftStepW {S : Type} (w : Word) (iop : StOp S T) (window : List T) (hop idx : Nat) (st : OlaSt S T) :
    Outcome (OlaSt S T × Res) := do
  let frame ← rd st.frames idx
  let start ← w.mul idx hop
  if frame.length ≠ window.length then .ok (st, .error .MismatchedLengths)
  else do
    let (s, y, r) ← iop st.s frame
    let fs ← wr st.frames idx y
    match r with
    | .error e => .ok (⟨s, fs, st.output, st.scratch⟩, .error e)
    | .ok _ => do
      let (o, n) ← olaFrameW w window start y st.output st.scratch
      .ok (⟨s, fs, o, n⟩, .ok ())

/-- `src/stft.rs:117-156` `istft` on machine words. -/
def istftW {S : Type} (w : Word) (iop : StOp S T) (s : S) (frames : List (List (Cx T))) (window : List T)
    (hop : Nat) (output scratch : List T) :
    Outcome (S × List (List (Cx T)) × List T × List T × Res) :=
  if hop = 0 then .ok (s, frames, output, scratch, .error .InvalidHopSize)
  else if scratch.length ≠ output.length then .ok (s, frames, output, scratch, .error .MismatchedLengths)
  else do
    let scratch := scratch.map fun _ => (Flt.zero : T)
    let (st, r) ← loopRes frames.length 0 (⟨s, frames, output, scratch⟩ : OlaSt S T) (istftStepW w iop window hop)
    match r with
    | .error e => .ok (st.s, st.frames, st.output, st.scratch, .error e)
    | .ok _ => do
      let o ← normalize st.output st.scratch
      .ok (st.s, st.frames, o, st.scratch, .ok ())

/-- `src/stft.rs:186-206` `StftStream::next_frame` on machine words. -/
def StftStream.nextFrameW {S : Type} (w : Word) (op : StOp S T) (st : StftStream T) (s : S) (out : List (Cx T)) :
    Outcome (StftStream T × S × List (Cx T) × Except FftError Bool) :=
  if out.length ≠ st.window.length then .ok (st, s, out, .error .MismatchedLengths)
  else if st.pos ≥ st.signal.length then .ok (st, s, out, .ok false)
  else do
    let out ← fillFrameW w st.signal st.window st.pos out
    let (s, y, r) ← op s out
    match r with
    | .error e => .ok (st, s, y, .error e)
    | .ok _ => do
      let pos ← w.add st.pos st.hop
      .ok ({ st with pos := pos }, s, y, .ok true)

end Kofft
