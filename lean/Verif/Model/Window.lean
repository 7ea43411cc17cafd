import Verif.Model.Wavelet
/-
`src/window.rs`, `src/window_more.rs`. The source is written for `f32`; here for any element type.
-/
namespace Kofft
variable {T : Type} [Flt T]

/-- `f32::clamp(lo, hi)` (core): a NaN is returned as it is. -/
def clampF (x lo hi : T) : T := if Flt.lt x lo then lo else if Flt.lt hi x then hi else x

/-- `src/window.rs:24-28` the sample `i` of `hann`. -/
def hannAt (len i : Nat) : T :=
  Flt.lit 5 1 -. (Flt.lit 5 1 *. Flt.cos (((two *. Flt.pi) *. Flt.ofNatD i) /. Flt.ofNatD len))

/-- `src/window.rs:24-28` `hann`. -/
def hann (len : Nat) : List T := (List.range len).map (hannAt len)

/-- `src/window.rs:31-35` the sample `i` of `hamming`. -/
def hammingAt (len i : Nat) : T :=
  Flt.lit 54 2 -. (Flt.lit 46 2 *. Flt.cos (((two *. Flt.pi) *. Flt.ofNatD i) /. Flt.ofNatD len))

/-- `src/window.rs:31-35` `hamming`. -/
def hamming (len : Nat) : List T := (List.range len).map (hammingAt len)

/-- `src/window.rs:38-48` the sample `i` of `blackman`. -/
def blackmanAt (len i : Nat) : T :=
  let x := Flt.ofNatD i /. Flt.ofNatD len
  (Flt.lit 42 2 -. (Flt.lit 5 1 *. Flt.cos ((two *. Flt.pi) *. x))) +.
    (Flt.lit 8 2 *. Flt.cos ((Flt.lit 4 0 *. Flt.pi) *. x))

/-- `src/window.rs:38-48` `blackman`. -/
def blackman (len : Nat) : List T := (List.range len).map (blackmanAt len)

/-- The loop body `src/window.rs:16-18`; the state is `(sum, t, k)`. -/
def bessel0Step (y : T) (s : T × T × T) (n : Nat) : T × T × T :=
  let k := s.2.2 *. Flt.ofNatD n
  (s.1 +. (s.2.1 /. (k *. k)), s.2.1 *. y, k)

/-- `src/window.rs:9-21` `bessel0`. -/
def bessel0 (x : T) : T :=
  let y := (x *. x) /. Flt.lit 4 0
  ((List.range' 1 19).foldl (bessel0Step y) (Flt.one, y, Flt.one)).1

/-- `src/window.rs:56-58`, `68-70`: the sample `i` of `kaiser`. -/
def kaiserAt (beta : T) (len i : Nat) : T :=
  let m := Flt.ofNatD (len - 1) /. two
  let r := (Flt.ofNatD i -. m) /. m
  bessel0 (beta *. Flt.sqrt (Flt.one -. (r *. r))) /. bessel0 beta

/-- `src/window.rs:52-73` `kaiser` (both `cfg` variants are the same code). `len - 1` underflows for an empty window: a panic
with overflow checks (`checks`), an unused value otherwise. -/
def kaiser (checks : Bool) (len : Nat) (beta : T) : Outcome (List T) :=
  if checks ∧ len = 0 then .panic else .ok ((List.range len).map (kaiserAt beta len))

/-- `src/window.rs:76-80` `hann_inplace_stack`: every slot is overwritten. -/
def hannStack (out : List T) : List T := out.mapIdx fun i _ => hannAt out.length i

/-- `src/window.rs:83-87` `hamming_inplace_stack`. -/
def hammingStack (out : List T) : List T := out.mapIdx fun i _ => hammingAt out.length i

/-- `src/window.rs:90-98` `blackman_inplace_stack`. -/
def blackmanStack (out : List T) : List T := out.mapIdx fun i _ => blackmanAt out.length i

/-- `src/window_more.rs:16` `edge`. -/
def tukeyEdge (len : Nat) (alpha : T) : Nat :=
  Flt.toNat (Flt.floor ((alpha *. (Flt.ofNatD len -. Flt.one)) /. two))

/-- `src/window_more.rs:18-25`: the sample `n` of `tukey` for a clamped `alpha`. `len - edge` is only evaluated for
`edge ≤ n < len`, so it cannot underflow. -/
def tukeyAt (len : Nat) (alpha : T) (n : Nat) : T :=
  let edge := tukeyEdge len alpha
  let q := (two *. Flt.ofNatD n) /. (alpha *. (Flt.ofNatD len -. Flt.one))
  if n < edge then Flt.lit 5 1 *. (Flt.one +. Flt.cos (Flt.pi *. (q -. Flt.one)))
  else if n < len - edge then Flt.one
  else Flt.lit 5 1 *. (Flt.one +. Flt.cos (Flt.pi *. ((q -. (two /. alpha)) +. Flt.one)))

/-- `src/window_more.rs:13-28` `tukey`. -/
def tukey (len : Nat) (alpha : T) : List T :=
  (List.range len).map (tukeyAt len (clampF alpha Flt.zero Flt.one))

/-- `src/window_more.rs:31-39` `bartlett`. -/
def bartlett (len : Nat) : List T :=
  let n : T := Flt.ofNatD len
  (List.range len).map fun i =>
    let x := (Flt.ofNatD i -. ((n -. Flt.one) /. two)) /. ((n -. Flt.one) /. two)
    Flt.one -. Flt.abs x

/-- `src/window_more.rs:42-50` `bohman`. -/
def bohman (len : Nat) : List T :=
  let n : T := Flt.ofNatD len
  (List.range len).map fun i =>
    let x := (Flt.ofNatD i /. (n -. Flt.one)) -. Flt.lit 5 1
    ((Flt.one -. Flt.abs x) *. Flt.cos (Flt.pi *. x)) +. ((Flt.one /. Flt.pi) *. Flt.sin (Flt.pi *. x))

/-- `src/window_more.rs:53-64` `nuttall`. -/
def nuttall (len : Nat) : List T :=
  (List.range len).map fun n =>
    let x := ((two *. Flt.pi) *. Flt.ofNatD n) /. (Flt.ofNatD len -. Flt.one)
    ((Flt.lit 355768 6 -. (Flt.lit 487396 6 *. Flt.cos x)) +. (Flt.lit 144232 6 *. Flt.cos (two *. x))) -.
      (Flt.lit 12604 6 *. Flt.cos (Flt.lit 3 0 *. x))

end Kofft
