import Verif.Model.Web
/-
Specification of the streaming spectrogram: what the next call of `compute_frame` returns, as a function of the
calls made before. Only the operation type, `fft` of one buffer on a fresh transformer, the Hann window and the
colour of a magnitude are taken from the model.
-/
namespace Kofft.Spec.Web
open Kofft.Web

variable {T : Type} [Flt T]

/-- The calls after the last `reset_state`. -/
def sinceReset (h : List (Op T)) : List (Op T) :=
  (h.reverse.takeWhile fun | .reset => false | _ => true).reverse

/-- All samples received, in order. -/
def samplesOf (h : List (Op T)) : List T :=
  (h.map fun | .frame s => s | _ => []).flatten

/-- The colour map set last, `Rainbow` if none was. -/
def cmapOf (h : List (Op T)) : Colormap :=
  (h.reverse.findSome? fun | .colormap n => some (Colormap.parse n) | _ => none).getD .rainbow

/-- After `n` samples and `r` rows, is the next row complete? Row `r` covers the samples `[512 r, 512 r + 1024)`. -/
def ready (n r : Nat) : Prop := 512 * r + 1024 ≤ n

instance (n r : Nat) : Decidable (ready n r) := inferInstanceAs (Decidable (_ ≤ _))

/-- Samples received and rows returned: a call returns at most one row. -/
def progress (h : List (Op T)) : Nat × Nat :=
  h.foldl (fun s op => match op with
    | .frame x => (s.1 + x.length, if ready (s.1 + x.length) s.2 then s.2 + 1 else s.2)
    | _ => s) (0, 0)

/-- Rows returned. -/
def rowsOf (h : List (Op T)) : Nat := (progress h).2

/-- The magnitude `sqrt(re² + im²)`. -/
def mag (c : Cx T) : T := Flt.sqrt ((c.re *. c.re) +. (c.im *. c.im))

/-- The 512 magnitudes of row `i`: lower half of the transform of the Hann-windowed samples. -/
def mags (cfg : Cfg) (all : List T) (i : Nat) : List T :=
  match fft cfg Planner.new ((List.range 1024).map fun j =>
      (⟨all.getD (512 * i + j) Flt.zero *. hannAt 1024 j, Flt.zero⟩ : Cx T)) with
  | .ok (_, y, _) => (y.take 512).map mag
  | _ => []

/-- The largest magnitude seen, at least `10⁻¹²`. -/
def peak (l : List T) : T := l.foldl (fun m v => if Flt.lt m v then v else m) (Flt.lit 1 12)

/-- The RGBA bytes of row `r`: bin `k` is coloured relative to the largest magnitude among all earlier rows and
the bins `0..k` of this row, over 80 dB. -/
def row (cfg : Cfg) (ext : Colormap → T → Rgb) (cmap : Colormap) (all : List T) (r : Nat) : List Nat :=
  ((List.range 512).map fun k =>
    let m := (mags cfg all r).getD k Flt.zero
    let top := peak (((List.range r).map (mags cfg all)).flatten ++ (mags cfg all r).take (k + 1))
    let c := colorFromMagnitude8 ext m top (-. Flt.lit 80 0) cmap
    [c.r, c.g, c.b, 255]).flatten

end Kofft.Spec.Web
