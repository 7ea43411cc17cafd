import Verif.Model.Sanity
/-
`sanity-check/src/lib.rs`: the SVG export and the whole of `read_audio`. The crates `svg`, `symphonia`, `hound` and `image`
are external: the SVG document is the list of elements handed to the `svg` crate (its serialisation is not modelled), an
audio container is the sequence of answers its reader and decoder give.
-/
namespace Kofft.Sanity
variable {T : Type} [Flt T]

/-! ### SVG -/

/-- One digit of Rust's `{:x}` formatting. -/
def hexDigit (d : Nat) : Char := if d < 10 then Char.ofNat (48 + d) else Char.ofNat (87 + d)

/-- Rust's `{:x}`: the hexadecimal digits of a number, without leading zeros. -/
def hex (v : Nat) : List Char := if v < 16 then [hexDigit v] else hex (v / 16) ++ [hexDigit (v % 16)]
termination_by v

/-- Rust's `{:02x}`: padded with zeros to two digits. -/
def hex02 (v : Nat) : List Char := List.replicate (2 - (hex v).length) '0' ++ hex v

/-- A `svg::node::element::Rectangle` with the attributes `save_svg` sets (`sanity-check/src/lib.rs:148-153`). -/
structure Rect where
  x : Nat
  y : Nat
  width : Nat
  height : Nat
  fill : List Char

/-- A `svg::Document`: its `viewBox` and its children in drawing order. -/
structure Doc where
  viewBox : Nat × Nat × Nat × Nat
  rects : List Rect

/-- `enumerate_pixels` of the `image` crate: two counters run along the pixels, the column is reset at the width. -/
def enumPixels (w : Nat) : Nat → Nat → List Rgb → List (Nat × Nat × Rgb)
  | _, _, [] => []
  | x, y, c :: cs =>
    if w ≤ x then (0, y + 1, c) :: enumPixels w 1 (y + 1) cs else (x, y, c) :: enumPixels w (x + 1) y cs

/-- The colour string (`sanity-check/src/lib.rs:142-147`). -/
def fillOf (c : Rgb) : List Char := '#' :: (hex02 (c.r / 256) ++ hex02 (c.g / 256) ++ hex02 (c.b / 256))

/-- `sanity-check/src/lib.rs:136-158` `save_svg`, up to the call of `svg::save`. -/
def saveSvg (img : Img) : Doc :=
  (enumPixels img.w 0 0 img.px).foldl
    (fun doc p => { doc with rects := doc.rects ++ [⟨p.1, p.2.1, 1, 1, fillOf p.2.2⟩] })
    ⟨(0, 0, img.w, img.h), []⟩

/-! ### Audio -/

/-- `str::eq_ignore_ascii_case` compares after lowering `A` to `Z`. -/
def lowerAscii (c : Char) : Char := if 'A' ≤ c ∧ c ≤ 'Z' then Char.ofNat (c.toNat + 32) else c

/-- `sanity-check/src/lib.rs:27-31`: does the extension of the path (if it has one) read `wav`? -/
def isWav (ext : Option (List Char)) : Bool :=
  match ext with
  | some e => e.map lowerAscii = ['w', 'a', 'v']
  | none => false

/-- A decoded packet (`symphonia::core::audio::AudioBufferRef`): number of frames, room in frames and number of channels of
the decoder's buffer, and the samples, interleaved. -/
structure Packet (T : Type) where
  frames : Nat
  capacity : Nat
  channels : Nat
  data : List T

/-- What `format.next_packet()`, and for a packet `decoder.decode(&packet)`, answers: `packet` a decoded packet, `bad` a
packet that cannot be decoded, `eof` an I/O error of kind `UnexpectedEof`, `reset` the error `ResetRequired`, `fail` any
other error. -/
inductive Event (T : Type)
  | packet (p : Packet T)
  | bad
  | eof
  | reset
  | fail

/-- The loop `sanity-check/src/lib.rs:62-91`. `s`: the samples so far; `buf`: how many samples fit into the intermediate
buffer, created at the first packet. `copy_interleaved_ref` asserts that the packet fits into that buffer;
`buf.samples()[..frames * channels]` panics if the packet has fewer channels than the container announced. A list that
ends without `eof` or an error stands for a reader that has not answered yet. -/
def decodeLoop (channels : Nat) : List (Event T) → List T → Option Nat → Outcome (Except Unit (List T))
  | [], _, _ => .hang
  | .eof :: _, s, _ => .ok (.ok s)
  | .reset :: es, s, buf => decodeLoop channels es s buf
  | .bad :: _, _, _ => .ok (.error ())
  | .fail :: _, _, _ => .ok (.error ())
  | .packet p :: es, s, buf =>
    let cap := buf.getD (p.capacity * p.channels)
    if p.frames * p.channels ≤ cap ∧ p.frames * channels ≤ p.frames * p.channels then do
      let m ← mixDown channels (p.data.take (p.frames * channels))
      decodeLoop channels es (s ++ m) (some cap)
    else .panic

/-- The parameters of the default track (`sanity-check/src/lib.rs:48-60`). -/
structure Track where
  nFrames : Option Nat
  sampleRate : Option Nat
  channels : Option Nat

/-- `sanity-check/src/lib.rs:26-97` `read_audio`. `wav`: the samples of the file if `hound` can read it all, with the sample
rate (`sanity-check/src/lib.rs:99-107`); `track`: the default track, if the file can be opened and probed, has one and its
decoder can be made; `events`: what the reader answers. Errors carry no information in the model. -/
def readAudio (ofI16 : Int → T) (ext : Option (List Char)) (wav : Except Unit (List Int × Nat))
    (track : Except Unit Track) (events : List (Event T)) : Outcome (Except Unit (List T × Nat)) :=
  if isWav ext then
    match wav with
    | .error e => .ok (.error e)
    | .ok (s, rate) => .ok (.ok (readWav ofI16 s, rate))
  else
    match track with
    | .error e => .ok (.error e)
    | .ok t =>
      match t.sampleRate, t.channels with
      | some rate, some channels => do
        match ← decodeLoop channels events [] none with
        | .error e => pure (.error e)
        | .ok s => pure (.ok (match t.nFrames with | some n => s.take n | none => s, rate))
      | _, _ => .ok (.error ())

end Kofft.Sanity
