import Verif.Model.Plan
import Verif.Model.Visual
/-
`web-spectrogram/src/lib.rs`: the WebAssembly bindings. At the pinned commit that file has a merge accident in
the getters `FftResult::im` and `HaarResult::diff` (lines 122-131, 166-175: a second `re`/`avg` getter is nested
in them), which are not modelled; the functions below are read as written.
-/
namespace Kofft.Web
variable {T : Type} [Flt T]

/-- `web-spectrogram/src/lib.rs:9` `WIN_LEN`. -/
def winLen : Nat := 1024

/-- `web-spectrogram/src/lib.rs:10` `HOP`. -/
def hop : Nat := winLen / 2

/-- `web-spectrogram/src/lib.rs:11` `FLOOR_DB`. -/
def floorDb : T := -. Flt.lit 80 0

/-- `web-spectrogram/src/lib.rs:192-198` `struct State`; the boxed transformer is its state, a planner (the SIMD
structs have none). -/
structure State (T : Type) where
  buf : List T
  planner : Planner T
  window : List T
  cmap : Colormap
  maxMag : T

/-- `web-spectrogram/src/lib.rs:201-209` `State::new`. -/
def State.new : State T where
  buf := []
  planner := Planner.new
  window := hann winLen
  cmap := .rainbow
  maxMag := Flt.lit 1 12

/-- One iteration of `web-spectrogram/src/lib.rs:223-231`: the running maximum and the row so far. -/
def pixelStep (ext : Colormap → T → Rgb) (cmap : Colormap) (s : T × List Nat) (c : Cx T) : T × List Nat :=
  let mag := Flt.sqrt ((c.re *. c.re) +. (c.im *. c.im))
  let maxMag := if Flt.lt s.1 mag then mag else s.1
  let rgb := colorFromMagnitude8 ext mag maxMag floorDb cmap
  (maxMag, s.2 ++ [rgb.r, rgb.g, rgb.b, 255])

/-- `web-spectrogram/src/lib.rs:211-234` `State::compute_frame`. The error of the transform is dropped (`let _ =`);
`t` is the target `new_fft_impl` looks at. -/
def State.computeFrame (cfg : Cfg) (t : Target) (ext : Colormap → T → Rgb) (st : State T) (samples : List T) :
    Outcome (State T × List Nat) :=
  let buf := st.buf ++ samples
  if buf.length < winLen then .ok ({ st with buf := buf }, [])
  else do
    let frame := copyPrefix (List.zipWith (fun s w => (⟨s *. w, Flt.zero⟩ : Cx T)) buf st.window)
      (List.replicate winLen Cx.zero)
    let (p, frame, _) ← (newFftImpl t).fft cfg st.planner frame
    let half := winLen / 2
    -- `&frame[..half]`, `self.buf.drain(0..HOP)`
    if half ≤ frame.length ∧ hop ≤ buf.length then
      let r := (frame.take half).foldl (pixelStep ext st.cmap) (st.maxMag, [])
      .ok ({ st with buf := buf.drop hop, planner := p, maxMag := r.1 }, r.2)
    else .panic

/-- What a page can do with the module: `compute_frame`, `set_colormap`, `reset_state`
(`web-spectrogram/src/lib.rs:237-252`). -/
inductive Op (T : Type)
  | frame (samples : List T)
  | colormap (name : String)
  | reset

/-- `web-spectrogram/src/lib.rs:237-252`: new state and returned bytes (nothing for the two setters). The
thread-local `RefCell` is never borrowed twice, as no callback runs inside. -/
def State.step (cfg : Cfg) (t : Target) (ext : Colormap → T → Rgb) (st : State T) : Op T → Outcome (State T × List Nat)
  | .frame samples => st.computeFrame cfg t ext samples
  | .colormap name => .ok ({ st with cmap := Colormap.parse name }, [])
  | .reset => .ok (State.new, [])

/-- A sequence of calls: final state and the bytes returned by each call. -/
def State.run (cfg : Cfg) (t : Target) (ext : Colormap → T → Rgb) (st : State T) :
    List (Op T) → Outcome (State T × List (List Nat))
  | [] => .ok (st, [])
  | op :: ops => do
    let (st, o) ← st.step cfg t ext op
    let (st, os) ← st.run cfg t ext ops
    .ok (st, o :: os)

/-- `web-spectrogram/src/lib.rs:39-45` `StftResult`. -/
structure StftResult (T : Type) where
  mags : List T
  width : Nat
  height : Nat
  maxMag : T

/-- The loop `web-spectrogram/src/lib.rs:77-79`; `&frame[..height]` panics on a shorter frame. -/
def flattenMags (height : Nat) : List (List T) → Outcome (List T)
  | [] => .ok []
  | f :: fs => if height ≤ f.length then do
      let r ← flattenMags height fs
      .ok (f.take height ++ r)
    else .panic

/-- `web-spectrogram/src/lib.rs:71-86` `stft_magnitudes`. -/
def stftMagnitudesJs (cfg : Cfg) (par : Option (List Nat)) (samples : List T) (winLen hop : Nat) :
    Outcome (Except FftError (StftResult T)) := do
  let r ← stftMagnitudes cfg par samples winLen hop
  match r with
  | .error e => pure (.error e)
  | .ok (mags, mx) => do
    let flat ← flattenMags (winLen / 2) mags
    pure (.ok ⟨flat, mags.length, winLen / 2, mx⟩)

end Kofft.Web
