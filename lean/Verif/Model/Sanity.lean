import Verif.Model.Visual
/-
`sanity-check`: the command line tool that renders an audio file as a spectrogram image. Decoding (`hound`,
`symphonia`), PNG and SVG encoding are external crates and not modelled; the samples and the pixels are.
-/
namespace Kofft.Sanity
variable {T : Type} [Flt T]

/-- `image::ImageBuffer<Rgb<u16>, _>`: width, height and the pixels row by row. -/
structure Img where
  w : Nat
  h : Nat
  px : List Rgb

/-- `ImageBuffer::new`: black. -/
def Img.new (w h : Nat) : Img := ⟨w, h, List.replicate (w * h) ⟨0, 0, 0⟩⟩

/-- `put_pixel`: panics out of bounds. -/
def Img.put (img : Img) (x y : Nat) (c : Rgb) : Outcome Img :=
  if x < img.w ∧ y < img.h then do
    let px ← wr img.px (y * img.w + x) c
    .ok { img with px := px }
  else .panic

/-- `get_pixel`. -/
def Img.get? (img : Img) (x y : Nat) : Option Rgb :=
  if x < img.w ∧ y < img.h then img.px[y * img.w + x]? else none

/-- `sanity-check/src/main.rs:13-17` `ScaleMode`. -/
inductive ScaleMode
  | linear | log
  deriving Repr, DecidableEq

/-- `sanity-check/src/main.rs:76-79`; `frame[..height]` panics on a shorter frame, `height - 1` underflows for 0. -/
def binsOf (mode : ScaleMode) (height : Nat) (frame : List T) : Outcome (List T) :=
  match mode with
  | .linear => .ok frame
  | .log => if height ≤ frame.length ∧ 0 < height then logScaleBins (frame.take height) (height - 1) else .panic

/-- `sanity-check/src/main.rs:80-83`: one column; `height - 1 - y` underflows for `y ≥ height`. -/
def column (ext : Colormap → T → Rgb) (cmap : Colormap) (maxMag dynRange : T) (height x : Nat) (bins : List T)
    (img : Img) : Outcome Img :=
  forRange 0 bins.length img fun y img => do
    let v ← rd bins y
    if y < height then img.put x (height - 1 - y) (colorFromMagnitude16 ext v maxMag (-. dynRange) cmap) else .panic

/-- `sanity-check/src/main.rs:65-87` `main` between reading the samples and saving the image: the arguments are
`win_len`, `scale_mode`, `dynamic_range` and `colormap`. `par`: order in which the frames are finished with the
feature `parallel`. -/
def render (cfg : Cfg) (par : Option (List Nat)) (ext : Colormap → T → Rgb) (winLen : Nat) (mode : ScaleMode)
    (dynRange : T) (cmap : Colormap) (samples : List T) : Outcome (Except FftError Img) := do
  let r ← stftMagnitudes cfg par samples winLen (winLen / 2)
  match r with
  | .error e => pure (.error e)
  | .ok (mags, maxMag) => do
    let height := winLen / 2
    let img ← forRange 0 mags.length (Img.new mags.length height) fun x img => do
      let frame ← rd mags x
      let bins ← binsOf mode height frame
      column ext cmap maxMag dynRange height x bins img
    pure (.ok img)

/-- The 8-bit image of `save_png` (`sanity-check/src/lib.rs:118-125`): `(c >> 8) as u8`. -/
def to8 (img : Img) : Img :=
  { img with px := img.px.map fun c => ⟨c.r / 256 % 256, c.g / 256 % 256, c.b / 256 % 256⟩ }

/-- `slice.chunks(n)`: pieces of `n` elements, the last may be shorter. -/
def chunks {α : Type} (n : Nat) (l : List α) : List (List α) :=
  (List.range (divCeil l.length n)).map fun i => (l.drop (i * n)).take n

/-- `sanity-check/src/lib.rs:69-77`: the samples of one decoded packet, mixed down to mono; `chunks(0)` panics. -/
def mixDown (channels : Nat) (slice : List T) : Outcome (List T) :=
  if channels = 1 then .ok slice
  else if channels = 0 then .panic
  else .ok ((chunks channels slice).map fun frame =>
    frame.foldl Flt.add Flt.zero /. Flt.ofNatD channels)

/-- The decoding loop `sanity-check/src/lib.rs:59-95` on the interleaved sample packets, with the frame count
announced by the container; `&buf.samples()[..frames * channels]` is the packet. -/
def readPackets (channels : Nat) (nFrames : Option Nat) (packets : List (List T)) : Outcome (List T) := do
  let samples ← packets.foldlM (fun acc p => do
    let m ← mixDown channels p
    Outcome.ok (acc ++ m)) []
  match nFrames with
  | some n => pure (samples.take n)
  | none => pure samples

/-- `sanity-check/src/lib.rs:99-107` `read_wav`: the 16-bit samples of the file in file order, whatever the number of
channels. `ofI16` is `v as f32`. -/
def readWav (ofI16 : Int → T) (samples : List Int) : List T :=
  samples.map fun v => ofI16 v /. ofI16 32767

end Kofft.Sanity
