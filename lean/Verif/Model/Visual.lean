import Verif.Model.Stft
import Verif.Model.Window
/-
`src/visual/spectrogram.rs`. The source is written for `f32`; here for any element type.
-/
namespace Kofft
variable {T : Type} [Flt T]

/-- `src/visual/spectrogram.rs:15-31` `enum Colormap`. -/
inductive Colormap
  | fire | legacy | gray | viridis | plasma | inferno | rainbow
  deriving Repr, DecidableEq

/-- `src/visual/spectrogram.rs:35-45` `Colormap::parse`. -/
def Colormap.parse (s : String) : Colormap :=
  match s.map Char.toLower with
  | "legacy" => .legacy
  | "gray" => .gray
  | "viridis" => .viridis
  | "plasma" => .plasma
  | "inferno" => .inferno
  | "rainbow" => .rainbow
  | _ => .fire

/-- `f32::max` (core): if one argument is NaN, the other. -/
def maxF (a b : T) : T := if Flt.lt a b ∨ Flt.feq a a = false then b else a

/-- `x as u8` (saturating cast). -/
def castU8 (x : T) : Nat := min 255 (Flt.toNat x)

/-- An `[u8; 3]` or `[u16; 3]`. -/
structure Rgb where
  r : Nat
  g : Nat
  b : Nat
  deriving Repr, DecidableEq

/-- `src/visual/spectrogram.rs:96-102` `magnitude_to_db`. -/
def magnitudeToDb (mag maxMag floorDb : T) : T :=
  if Flt.le maxMag Flt.zero ∨ Flt.le mag Flt.zero then floorDb
  else maxF (Flt.lit 20 0 *. Flt.log10 (mag /. maxMag)) floorDb

/-- `src/visual/spectrogram.rs:107-110` `db_scale`. -/
def dbScale (mag maxMag dynamicRange : T) : T :=
  let db := Flt.lit 20 0 *. Flt.log10 (maxF (mag /. maxMag) (Flt.lit 1 10))
  clampF ((db +. dynamicRange) /. dynamicRange) Flt.zero Flt.one

/-- `src/visual/spectrogram.rs:162-164` `lerp_u8`. -/
def lerpU8 (a b : Nat) (t : T) : Nat :=
  castU8 (Flt.ofNatD a +. ((Flt.ofNatD b -. Flt.ofNatD a) *. t))

/-- The three components `[lerp_u8(..), lerp_u8(..), lerp_u8(..)]` (`src/visual/spectrogram.rs:129-133`, `181-185`). -/
def lerpRgb (a b : Rgb) (t : T) : Rgb := ⟨lerpU8 a.r b.r t, lerpU8 a.g b.g t, lerpU8 a.b b.b t⟩

/-- `src/visual/spectrogram.rs:117-123` `STOPS` of `Fire`. -/
def fireStops : List (T × Rgb) :=
  [(Flt.zero, ⟨0, 0, 0⟩), (Flt.lit 25 2, ⟨128, 0, 128⟩), (Flt.lit 5 1, ⟨255, 165, 0⟩), (Flt.lit 75 2, ⟨255, 255, 0⟩),
    (Flt.one, ⟨255, 255, 255⟩)]

/-- `STOPS.windows(2).find(|w| t >= w[0].0 && t <= w[1].0)` (`src/visual/spectrogram.rs:124-126`). -/
def findStop (t : T) : List (T × Rgb) → Option ((T × Rgb) × (T × Rgb))
  | a :: b :: rest => if Flt.le a.1 t ∧ Flt.le t b.1 then some (a, b) else findStop t (b :: rest)
  | _ => none

/-- `Colormap::Fire` (`src/visual/spectrogram.rs:116-134`). The `unwrap_or` pair is the last one. -/
def fireColor (t : T) : Rgb :=
  let (start, stop) := (findStop t fireStops).getD ((Flt.lit 75 2, ⟨255, 255, 0⟩), (Flt.one, ⟨255, 255, 255⟩))
  lerpRgb start.2 stop.2 ((t -. start.1) /. (stop.1 -. start.1))

/-- `src/visual/spectrogram.rs:167-174` `STOPS` of the rainbow. -/
def rainbowStops : List (T × Rgb) :=
  [(Flt.zero, ⟨0, 0, 0⟩), (Flt.lit 25 2, ⟨0, 0, 255⟩), (Flt.lit 5 1, ⟨0, 255, 255⟩), (Flt.lit 75 2, ⟨255, 255, 0⟩),
    (Flt.lit 9 1, ⟨255, 0, 0⟩), (Flt.one, ⟨255, 255, 255⟩)]

/-- The loop `while i + 1 < STOPS.len() && t > STOPS[i + 1].0 { i += 1 }` (`src/visual/spectrogram.rs:176-178`), structurally:
the position and the remaining stops `STOPS[i..]`. -/
def rainbowFind (t : T) : List (T × Rgb) → List (T × Rgb)
  | a :: b :: rest => if Flt.lt b.1 t then rainbowFind t (b :: rest) else a :: b :: rest
  | l => l

/-- `src/visual/spectrogram.rs:166-186` `rainbow_color_u8`. `STOPS[(i + 1).min(len - 1)]` is the last stop itself when the loop
ran to the end. -/
def rainbowColor (t : T) : Rgb :=
  match rainbowFind t rainbowStops with
  | (t0, c0) :: (t1, c1) :: _ => lerpRgb c0 c1 (if Flt.lt t0 t1 then (t -. t0) /. (t1 -. t0) else Flt.zero)
  | [(t0, c0)] => lerpRgb c0 c0 (if Flt.lt t0 t0 then (t -. t0) /. (t0 -. t0) else Flt.zero)
  | [] => ⟨0, 0, 0⟩

/-- `src/visual/spectrogram.rs:113-160` `map_color_u8`. The three `colorous` palettes are an external crate: `ext` is whatever
it returns. -/
def mapColor8 (ext : Colormap → T → Rgb) (t : T) (cmap : Colormap) : Rgb :=
  let t := clampF t Flt.zero Flt.one
  match cmap with
  | .fire => fireColor t
  | .legacy =>
    ⟨castU8 ((Flt.lit 64 0 *. (Flt.one -. t)) +. (Flt.lit 255 0 *. t)), castU8 (Flt.lit 255 0 *. t),
      castU8 ((Flt.lit 64 0 *. (Flt.one -. t)) +. (Flt.lit 224 0 *. t))⟩
  | .gray => let g := castU8 (Flt.round (t *. Flt.lit 255 0)); ⟨g, g, g⟩
  | .rainbow => rainbowColor t
  | c => ext c t

/-- `src/visual/spectrogram.rs:190-193` `map_color_u16`. -/
def mapColor16 (ext : Colormap → T → Rgb) (t : T) (cmap : Colormap) : Rgb :=
  let c := mapColor8 ext t cmap
  ⟨c.r * 257, c.g * 257, c.b * 257⟩

/-- `src/visual/spectrogram.rs:196-200` `color_from_magnitude_u8`. -/
def colorFromMagnitude8 (ext : Colormap → T → Rgb) (mag maxMag floorDb : T) (cmap : Colormap) : Rgb :=
  let db := magnitudeToDb mag maxMag floorDb
  mapColor8 ext ((db -. floorDb) /. (-. floorDb)) cmap

/-- `src/visual/spectrogram.rs:203-206` `color_from_magnitude_u16`. -/
def colorFromMagnitude16 (ext : Colormap → T → Rgb) (mag maxMag floorDb : T) (cmap : Colormap) : Rgb :=
  let c := colorFromMagnitude8 ext mag maxMag floorDb cmap
  ⟨c.r * 257, c.g * 257, c.b * 257⟩

/-- `src/visual/spectrogram.rs:209-217` `map_bin_to_pixel`; the type `T` is the arithmetic used. -/
def mapBinToPixel (T : Type) [Flt T] (bin maxBin : Nat) : Nat :=
  if maxBin = 0 then 0
  else
    let logMax : T := Flt.log (Flt.ofNatD maxBin +. Flt.one)
    let pos : T := Flt.log (Flt.ofNatD bin +. Flt.one)
    Flt.toNat (Flt.floor ((Flt.ofNatD maxBin *. pos) /. logMax))

/-- The loop `src/visual/spectrogram.rs:223-227`. -/
def binStep (values : List T) (maxBin : Nat) (bin : Nat) (s : List T × List Nat) : Outcome (List T × List Nat) := do
  let v ← rd values bin
  let y := mapBinToPixel T bin maxBin
  let a ← rd s.1 y
  let accum ← wr s.1 y (a +. v)
  let c ← rd s.2 y
  let counts ← wr s.2 y (c + 1)
  pure (accum, counts)

/-- `src/visual/spectrogram.rs:220-234` `log_scale_bins`. -/
def logScaleBins (values : List T) (maxBin : Nat) : Outcome (List T) := do
  let s ← forRange 0 values.length (List.replicate (maxBin + 1) Flt.zero, List.replicate (maxBin + 1) 0)
    (binStep values maxBin)
  pure (List.zipWith (fun a c => if 0 < c then a /. Flt.ofNatD c else a) s.1 s.2)

/-- `src/visual/spectrogram.rs:78-93` `compute_stft`: `none` without the feature `parallel`, otherwise the order in which the
frames are finished. -/
def computeStft (cfg : Cfg) (par : Option (List Nat)) (signal window : List T) (hop : Nat) (frames : List (List (Cx T))) :
    Outcome (List (List (Cx T)) × Res) :=
  match par with
  | some order => stftParallel cfg order signal window hop frames
  | none => do
    let (_, o, r) ← stft (fft cfg) Planner.new signal window hop frames
    pure (o, r)

/-- One magnitude (`src/visual/spectrogram.rs:68-72`): stored, and the maximum updated. -/
def magStep (frame : List (Cx T)) (x y : Nat) (s : List (List T) × T) : Outcome (List (List T) × T) := do
  let c ← rd frame y
  let mag := Flt.sqrt ((c.re *. c.re) +. (c.im *. c.im))
  let row ← rd s.1 x
  let row ← wr row y mag
  let mags ← wr s.1 x row
  pure (mags, if Flt.lt s.2 mag then mag else s.2)

/-- The loops `src/visual/spectrogram.rs:66-74`. -/
def magLoop (frames : List (List (Cx T))) (height : Nat) (s : List (List T) × T) : Outcome (List (List T) × T) :=
  forRange 0 frames.length s fun x s => do
    let frame ← rd frames x
    forRange 0 (min height frame.length) s (magStep frame x)

/-- `src/visual/spectrogram.rs:52-76` `stft_magnitudes`. `div_ceil` by zero panics. -/
def stftMagnitudes (cfg : Cfg) (par : Option (List Nat)) (samples : List T) (winLen hop : Nat) :
    Outcome (Except FftError (List (List T) × T)) :=
  if hop = 0 then .panic
  else do
    let (frames, r) ← computeStft cfg par samples (hann winLen) hop (List.replicate (divCeil samples.length hop) [])
    match r with
    | .error e => pure (.error e)
    | .ok _ => do
      let s ← magLoop frames (winLen / 2)
        (List.replicate frames.length (List.replicate (winLen / 2) Flt.zero), Flt.zero)
      pure (.ok s)

end Kofft
