import Verif.Model.Stft
/-
Specification vocabulary for short-time transforms.
-/
namespace Kofft.Spec

variable {T : Type} [Flt T]

/-- The windowed segment starting at `start`, zero padded past the end of the signal. -/
def segment (signal window : List T) (start : Nat) : List (Cx T) :=
  (List.range window.length).map fun i =>
    ⟨if start + i < signal.length then signal.getD (start + i) Flt.zero *. window.getD i Flt.zero
     else Flt.zero, Flt.zero⟩

/-- The first `count` segments at distance `hop`. -/
def segments (signal window : List T) (hop count : Nat) : List (List (Cx T)) :=
  (List.range count).map fun f => segment signal window (f * hop)

/-- Apply a transformer to one buffer after the other; stop at the first error. Returns the transformer,
the buffers processed, and the result. -/
def runAll {S : Type} (op : StOp S T) : S → List (List (Cx T)) → Outcome (S × List (List (Cx T)) × Res)
  | s, [] => .ok (s, [], .ok ())
  | s, x :: xs => op s x >>= fun v =>
    match v with
    | (s, y, .error e) => .ok (s, [y], .error e)
    | (s, y, .ok _) => runAll op s xs >>= fun w => .ok (w.1, y :: w.2.1, w.2.2)

/-- Transformer `op` keeps the buffer length and stays within the states `P`. (In Rust the length cannot
change: the transformer gets `&mut [Complex32]`.) -/
def Keeps {S : Type} (op : StOp S T) (P : S → Prop) : Prop :=
  ∀ s x s' y r, P s → op s x = .ok (s', y, r) → y.length = x.length ∧ P s'

/-- Read a stream to its end (`while stream.next_frame(&mut buf)? { frames.push(buf.clone()) }`), with at
most `fuel` calls. -/
def streamAll {S : Type} (op : StOp S T) : Nat → StftStream T → S → List (Cx T) →
    Outcome (S × List (List (Cx T)) × Res)
  | 0, _, _, _ => .hang
  | fuel + 1, st, s, buf => st.nextFrame op s buf >>= fun v =>
    match v with
    | (_, s, y, .error e) => .ok (s, [y], .error e)
    | (_, s, _, .ok false) => .ok (s, [], .ok ())
    | (st, s, y, .ok true) => streamAll op fuel st s y >>= fun w => .ok (w.1, y :: w.2.1, w.2.2)

/-- Overlap-add at position `p`: starting from `init`, add in frame order the windowed real part of every
time-domain frame that covers `p`. -/
def olaAt (window : List T) (hop : Nat) (ys : List (List (Cx T))) (init : T) (p : Nat) : T :=
  (List.range ys.length).foldl (fun acc f =>
    if f * hop ≤ p ∧ p < f * hop + window.length then
      acc +. (((ys.getD f []).getD (p - f * hop) Cx.zero).re *. window.getD (p - f * hop) Flt.zero)
    else acc) init

/-- The accumulated squared window of `count` frames at position `p`. -/
def normAt (window : List T) (hop count : Nat) (p : Nat) : T :=
  (List.range count).foldl (fun acc f =>
    if f * hop ≤ p ∧ p < f * hop + window.length then
      acc +. (window.getD (p - f * hop) Flt.zero *. window.getD (p - f * hop) Flt.zero)
    else acc) Flt.zero

/-- Divide by the accumulated squared window where it exceeds 1e-8. -/
def divNorm (o n : T) : T := if Flt.lt (Flt.lit 1 8) n then o /. n else o

/-- Push frames one by one into a streaming inverse and collect the returned chunks. -/
def pushAll {S : Type} (iop : StOp S T) : IstftStream T → S → List (List (Cx T)) →
    Outcome (IstftStream T × S × Except FftError (List (List T)))
  | st, s, [] => .ok (st, s, .ok [])
  | st, s, x :: xs => st.push iop s x >>= fun v =>
    match v with
    | (st, s, .error e) => .ok (st, s, .error e)
    | (st, s, .ok c) => pushAll iop st s xs >>= fun w =>
      match w with
      | (st, s, .error e) => .ok (st, s, .error e)
      | (st, s, .ok cs) => .ok (st, s, .ok (c :: cs))

end Kofft.Spec
