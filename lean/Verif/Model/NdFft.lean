import Verif.Model.Api
/-
Two- and three-dimensional transforms: `src/ndfft.rs`.
`rows * cols` is a `usize` product in the source, here unbounded; `Model/Machine.lean` has the versions on machine words
(C82).
-/
namespace Kofft

variable {T : Type} [Flt T]

/-- `for row in data { flat.extend(row) }` after the shape check (`src/ndfft.rs:21-37` `flatten_2d`). -/
def flatten2d {α : Type} (data : List (List α)) : Except FftError (List α × Nat × Nat) :=
  let rows := data.length
  match data with
  | [] => .ok ([], 0, 0)
  | first :: _ =>
    let cols := first.length
    if data.any (fun row => row.length != cols) then .error .MismatchedLengths
    else .ok (data.foldl (fun flat row => flat ++ row) [], rows, cols)

/-- `if rows > 0 { data[0][0].len() } else { 0 }`: the column count read off the first plane
(`src/ndfft.rs:41-67` `flatten_3d`). -/
def rowLen0 {α : Type} : List (List α) → Nat
  | [] => 0
  | row0 :: _ => row0.length

/-- `src/ndfft.rs:41-67` `flatten_3d`. The nested validation loops only return `MismatchedLengths`, so their
order is irrelevant; they are read as nested `any`. -/
def flatten3d {α : Type} (data : List (List (List α))) : Except FftError (List α × Nat × Nat × Nat) :=
  let depth := data.length
  match data with
  | [] => .ok ([], 0, 0, 0)
  | plane0 :: _ =>
    let rows := plane0.length
    let cols := rowLen0 plane0
    if data.any (fun plane => plane.length != rows || plane.any (fun row => row.length != cols)) then
      .error .MismatchedLengths
    else
      .ok (data.foldl (fun flat plane => plane.foldl (fun flat row => flat ++ row) flat) [], depth, rows, cols)

/-- `for i in lo..lo+cnt { body?; }`: stops at the first error. -/
def loopRes {σ : Type} : Nat → Nat → σ → (Nat → σ → Outcome (σ × Res)) → Outcome (σ × Res)
  | 0, _, s, _ => .ok (s, .ok ())
  | cnt + 1, i, s, f => f i s >>= fun v => match v with
    | (s', .error e) => .ok (s', .error e)
    | (s', .ok _) => loopRes cnt (i + 1) s' f

/-- The state the loops of `src/ndfft.rs` change: transformer, data, one scratch buffer. -/
structure NdSt (T : Type) where
  p : Planner T
  data : List (Cx T)
  sc : List (Cx T)

/-- `fft.fft(&mut data[start..start + len])` (`src/ndfft.rs:93`, `149`); the slicing panics out of bounds. -/
def sliceFft (cfg : Cfg) (start len : Nat) (s : NdSt T) : Outcome (NdSt T × Res) :=
  if start + len ≤ s.data.length then do
    let (p, y, r) ← fft cfg s.p ((s.data.drop start).take len)
    .ok (⟨p, s.data.take start ++ y ++ s.data.drop (start + len), s.sc⟩, r)
  else .panic

/-- `fft.fft_strided(&mut data[start..], stride, scratch)` (`src/ndfft.rs:97`, `135`, `142`). -/
def stridedAt (cfg : Cfg) (start stride : Nat) (s : NdSt T) : Outcome (NdSt T × Res) :=
  if start ≤ s.data.length then do
    let (p, y, sc, r) ← strided (fft cfg) s.p (s.data.drop start) stride s.sc
    .ok (⟨p, s.data.take start ++ y, sc⟩, r)
  else .panic

/-- `src/ndfft.rs:74-100` `fft2d_inplace`. Returns transformer, data, scratch, result. -/
def fft2d (cfg : Cfg) (p : Planner T) (data : List (Cx T)) (rows cols : Nat) (sc : List (Cx T)) :
    Outcome (Planner T × List (Cx T) × List (Cx T) × Res) :=
  if rows * cols ≠ data.length then .ok (p, data, sc, .error .MismatchedLengths)
  else if rows = 0 ∨ cols = 0 then .ok (p, data, sc, .ok ())
  else if sc.length ≠ rows then .ok (p, data, sc, .error .MismatchedLengths)
  else do
    let (s, r) ← loopRes rows 0 (⟨p, data, sc⟩ : NdSt T) fun r s => sliceFft cfg (r * cols) cols s
    match r with
    | .error e => .ok (s.p, s.data, s.sc, .error e)
    | .ok _ => do
      let (s, r) ← loopRes cols 0 s fun c s => stridedAt cfg c cols s
      .ok (s.p, s.data, s.sc, r)

/-- `src/ndfft.rs:115-153` `fft3d_inplace`. Returns transformer, data, the tube, row and column scratch,
result. -/
def fft3d (cfg : Cfg) (p : Planner T) (data : List (Cx T)) (depth rows cols : Nat)
    (tube row col : List (Cx T)) :
    Outcome (Planner T × List (Cx T) × List (Cx T) × List (Cx T) × List (Cx T) × Res) :=
  if depth * rows * cols ≠ data.length then .ok (p, data, tube, row, col, .error .MismatchedLengths)
  else if depth = 0 ∨ rows = 0 ∨ cols = 0 then .ok (p, data, tube, row, col, .ok ())
  else if tube.length ≠ depth ∨ row.length ≠ rows ∨ col.length ≠ cols then
    .ok (p, data, tube, row, col, .error .MismatchedLengths)
  else do
    let (s, r) ← loopRes rows 0 (⟨p, data, tube⟩ : NdSt T) fun r s =>
      loopRes cols 0 s fun c s => stridedAt cfg (r * cols + c) (rows * cols) s
    match r with
    | .error e => .ok (s.p, s.data, s.sc, row, col, .error e)
    | .ok _ => do
      let tube := s.sc
      let (s, r) ← loopRes depth 0 (⟨s.p, s.data, row⟩ : NdSt T) fun d s =>
        loopRes cols 0 s fun c s => stridedAt cfg (d * rows * cols + c) cols s
      match r with
      | .error e => .ok (s.p, s.data, tube, s.sc, col, .error e)
      | .ok _ => do
        let (s, r) ← loopRes depth 0 s fun d s =>
          loopRes rows 0 s fun r s => sliceFft cfg (d * rows * cols + r * cols) cols s
        .ok (s.p, s.data, tube, s.sc, col, r)

end Kofft
