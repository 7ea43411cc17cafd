import Verif.Model.Sanity
/-
`examples/spectrogram.rs`: the example program that renders a WAV file as a spectrogram. Decoding (`hound`) and PNG
encoding (`image`) are external crates: the decoder is a parameter, the image that is handed to the encoder is the
result.
-/
namespace Kofft.SpecExample
open Kofft.Sanity
variable {T : Type} [Flt T]

/-- The mutable locals of `examples/spectrogram.rs:20-24`. -/
structure Args (T : Type) where
  input : Option String
  output : Option String
  floorDb : T
  palette : Colormap

/-- The loop `examples/spectrogram.rs:25-47`. `none`: the usage message and `exit(1)`. `parseF` is `str::parse::<f32>`
(core library, a parameter). -/
def argLoop (parseF : String → Option T) : List String → Args T → Option (Args T)
  | [], a => some a
  | [arg], a =>
    if arg = "--floor" then some a
    else if arg = "--palette" then some a
    else match a.input, a.output with
      | none, _ => some { a with input := some arg }
      | some _, none => some { a with output := some arg }
      | some _, some _ => none
  | arg :: v :: rest, a =>
    if arg = "--floor" then argLoop parseF rest { a with floorDb := (parseF v).getD a.floorDb }
    else if arg = "--palette" then argLoop parseF rest { a with palette := Colormap.parse v }
    else match a.input, a.output with
      | none, _ => argLoop parseF (v :: rest) { a with input := some arg }
      | some _, none => argLoop parseF (v :: rest) { a with output := some arg }
      | some _, some _ => none

/-- How a run ends (`examples/spectrogram.rs:19-83`): usage message and `exit(1)`; an error returned from `main`
(unreadable file, unreadable sample, error of the transform); or the image handed to `img.save(output)`. -/
inductive End
  | usage
  | error
  | save (path : String) (img : Img)

/-- One column (`examples/spectrogram.rs:74-77`); `height - 1 - y` underflows for `y ≥ height`. -/
def column (ext : Colormap → T → Rgb) (cmap : Colormap) (maxMag floorDb : T) (height x : Nat) (frame : List T)
    (img : Img) : Outcome Img :=
  forRange 0 frame.length img fun y img => do
    let mag ← rd frame y
    if y < height then img.put x (height - 1 - y) (colorFromMagnitude8 ext mag maxMag floorDb cmap) else .panic

/-- `examples/spectrogram.rs:66-79`: the image of the samples, `win_len = 1024` and `hop = win_len / 2`. (`width as u32`:
a 16-bit WAV file has fewer than 2³² samples, so the number of frames fits.) -/
def draw (cfg : Cfg) (par : Option (List Nat)) (ext : Colormap → T → Rgb) (floorDb : T) (cmap : Colormap)
    (samples : List T) : Outcome (Except FftError Img) := do
  let r ← stftMagnitudes cfg par samples 1024 512
  match r with
  | .error e => pure (.error e)
  | .ok (mags, maxMag) => do
    let img ← forRange 0 mags.length (Img.new mags.length 512) fun x img => do
      let frame ← rd mags x
      column ext cmap maxMag floorDb 512 x frame img
    pure (.ok img)

/-- `main` (`examples/spectrogram.rs:19-83`). `wav` is the decoder: `none` when the file cannot be opened, otherwise
the 16-bit samples in file order, `none` for an undecodable one (`collect::<Result<_, _>>()?` gives up at the first). -/
def main (cfg : Cfg) (par : Option (List Nat)) (ext : Colormap → T → Rgb) (parseF : String → Option T)
    (ofI16 : Int → T) (wav : String → Option (List (Option Int))) (args : List String) : Outcome End :=
  match argLoop parseF args ⟨none, none, -. Flt.ofNatD 120, .fire⟩ with
  | none => .ok .usage
  | some a =>
    match a.input, a.output with
    | none, _ => .ok .usage
    | some _, none => .ok .usage
    | some input, some output =>
      match wav input with
      | none => .ok .error
      | some raw =>
        match raw.mapM id with
        | none => .ok .error
        | some vals => do
          let r ← draw cfg par ext a.floorDb a.palette (readWav ofI16 vals)
          match r with
          | .error _ => pure .error
          | .ok img => pure (.save output img)

end Kofft.SpecExample
