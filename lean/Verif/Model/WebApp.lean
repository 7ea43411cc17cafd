import Verif.Model.Web
import Mathlib.Analysis.SpecialFunctions.Log.Basic
/-
`web-spectrogram/app.mjs` and `web-spectrogram/sw.js`: the page that draws the spectrogram and its service worker.

At the pinned commit `app.mjs` is not valid JavaScript (lines 69-71 start a call `gl.shaderSource(` that is never closed,
and the `if` of line 162 has no closing brace), so the page as committed does nothing; modelled is the program with the
leftover lines 69-70 removed and the brace added. The decoding of audio files, the DOM and the set-up of the WebGL
program (lines 61-68, 106-129, 142-149) are not modelled; uploading the texture is assumed to succeed. `sw.js` is not
registered by the page; modelled is what it does where it is installed.
-/
namespace Kofft.WebApp
open Kofft.Web

section canvas
variable {T : Type}

/-- `web-spectrogram/app.mjs:46-50`: the four assignments to `img.data`. Assignments beyond the end of a
`Uint8ClampedArray` are ignored, as in `List.set`. -/
def setPixel (width x y : Nat) (c : Rgb) (data : List Nat) : List Nat :=
  let idx := 4 * (y * width + x)
  (((data.set idx c.r).set (idx + 1) c.g).set (idx + 2) c.b).set (idx + 3) 255

/-- `web-spectrogram/app.mjs:36-54` `drawSpectrogramCanvas`: the bytes given to `putImageData`. `color` is
`(mag) => colorFn(mag, max_mag, -80, colormap)`; `und` is what a missing array element becomes as a number. A new image
is transparent black (`createImageData`). -/
def drawCanvas (color : T → Rgb) (und : T) (mags : List T) (width height : Nat) : List Nat :=
  (List.range width).foldl (fun data x =>
    (List.range height).foldl (fun data y => setPixel width x y (color (mags.getD (x * height + y) und)) data) data)
    (List.replicate (4 * (width * height)) 0)

/-- `web-spectrogram/app.mjs:188-189` with `166`/`169`: the spectrogram of the selected file on a canvas without WebGL;
the colour map is the default `Rainbow` (line 155). `none`: an exception is thrown, nothing is drawn. -/
def showCanvas [Flt T] (cfg : Cfg) (par : Option (List Nat)) (ext : Colormap → T → Rgb) (und : T) (samples : List T) :
    Option (Nat × Nat × List Nat) :=
  match stftMagnitudesJs cfg par samples 1024 512 with
  | .ok (.ok r) => some (r.width, r.height, drawCanvas
      (fun m => colorFromMagnitude8 ext m r.maxMag (-. Flt.lit 80 0) .rainbow) und r.mags r.width r.height)
  | _ => none

end canvas

section webgl

/-- `texture2D(m, v).r` (`web-spectrogram/app.mjs:95`) of the texture of lines 128-140: one component, row by row,
row 0 at `v.y = 0`, nearest texel. Real arithmetic. -/
noncomputable def texel (mags : List ℝ) (width height : Nat) (vx vy : ℝ) : ℝ :=
  mags.getD (⌊vy * height⌋₊ * width + ⌊vx * width⌋₊) 0

/-- `web-spectrogram/app.mjs:64`, `118`, `147-148`: the position at which the pixel in column `x`, row `y` from the top of
the canvas samples the texture: its centre in clip coordinates `p`, then `v = (p + 1) / 2`. Clip coordinates grow
upwards. -/
noncomputable def pixelPos (width height x y : Nat) : ℝ × ℝ :=
  let px : ℝ := 2 * ((x : ℝ) + 1 / 2) / width - 1
  let py : ℝ := 1 - 2 * ((y : ℝ) + 1 / 2) / height
  ((px + 1) / 2, (py + 1) / 2)

/-- The magnitude a WebGL pixel shows (`web-spectrogram/app.mjs:95`). -/
noncomputable def glMag (mags : List ℝ) (width height x y : Nat) : ℝ :=
  let v := pixelPos width height x y
  texel mags width height v.1 v.2

/-- `web-spectrogram/app.mjs:96-99`: the level, clamped. `log` in GLSL is the natural logarithm. -/
noncomputable def glLevel (mag maxMag : ℝ) : ℝ :=
  let db := 20 * Real.log (max (mag / maxMag) (1 / 10 ^ 12))
  max 0 (min ((db + 80) / 80) 1)

/-- `mix` of GLSL. -/
noncomputable def mix (a b s : ℝ) : ℝ := a * (1 - s) + b * s

/-- `web-spectrogram/app.mjs:77-93` `rainbow`: red, green, blue between 0 and 1. -/
noncomputable def glRainbow (t : ℝ) : ℝ × ℝ × ℝ :=
  if t < 1 / 4 then (mix 0 0 (t / (1 / 4)), mix 0 0 (t / (1 / 4)), mix 0 1 (t / (1 / 4)))
  else if t < 1 / 2 then
    (mix 0 0 ((t - 1 / 4) / (1 / 4)), mix 0 1 ((t - 1 / 4) / (1 / 4)), mix 1 1 ((t - 1 / 4) / (1 / 4)))
  else if t < 3 / 4 then
    (mix 0 1 ((t - 1 / 2) / (1 / 4)), mix 1 1 ((t - 1 / 2) / (1 / 4)), mix 1 0 ((t - 1 / 2) / (1 / 4)))
  else if t < 9 / 10 then
    (mix 1 1 ((t - 3 / 4) / (15 / 100)), mix 1 0 ((t - 3 / 4) / (15 / 100)), mix 0 0 ((t - 3 / 4) / (15 / 100)))
  else (mix 1 1 ((t - 9 / 10) / (1 / 10)), mix 0 1 ((t - 9 / 10) / (1 / 10)), mix 0 1 ((t - 9 / 10) / (1 / 10)))

/-- `web-spectrogram/app.mjs:31-34` `magnitudeToDb` of the page (real arithmetic). -/
noncomputable def pageDb (mag maxMag : ℝ) : ℝ := 20 * (Real.log (max (mag / maxMag) (1 / 10 ^ 12)) / Real.log 10)

end webgl

/-! ### Service worker -/
namespace Sw
variable {B : Type}

/-- `web-spectrogram/sw.js:5-10`: the list given to `addAll`. -/
def precached : List String := ["/", "/index.html", "/app.mjs", "/manifest.json"]

/-- What happens to the worker. Each event carries what the network would answer at that time, `none` for a request that
fails. -/
inductive Event (B : Type)
  | install (net : String → Option B)
  | fetch (url : String) (net : String → Option B)

/-- The cache `spectrogram-cache-v1` (`web-spectrogram/sw.js:1`); no other cache exists. -/
abbrev Cache (B : Type) := String → Option B

/-- `web-spectrogram/sw.js:2-12`: `addAll` stores all answers or, if one request fails, none. -/
def install (net : String → Option B) (c : Cache B) : Cache B :=
  if precached.all (fun u => (net u).isSome) then fun u => if u ∈ precached then net u else c u else c

/-- `web-spectrogram/sw.js:14-18`: `caches.match(request).then(resp => resp || fetch(request))`. Nothing is stored. -/
def respond (url : String) (net : String → Option B) (c : Cache B) : Option B := (c url).orElse fun _ => net url

/-- One event: the cache afterwards and the answer given to the page. -/
def step (c : Cache B) : Event B → Cache B × Option B
  | .install net => (install net c, none)
  | .fetch url net => (c, respond url net c)

/-- A history of events. -/
def run (c : Cache B) : List (Event B) → Cache B
  | [] => c
  | e :: es => run (step c e).1 es

end Sw
end Kofft.WebApp
