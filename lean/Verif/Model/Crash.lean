import Verif.Model.Api
/-
What a transformer's planner contains at every instant of a call. The planner sits behind a shared reference (`UnsafeCell`,
`src/fft.rs:591-632`), so if a call is abandoned half way - a panic unwinds out of it - the planner stays as it is at that instant.
Vectors taken out of the planner (`core::mem::take`) are local variables of the call and are dropped. The definitions list the
successive contents; the values that come back at the end of each function are those of the functions modelled elsewhere.
The statements inside one `planner_mut` block that follow each other without anything that can panic in between are one step.
-/
namespace Kofft

variable {T : Type} [Flt T]

/-- The planner after a call that returned. -/
def leftBy {β : Type} : Outcome (Planner T × β) → List (Planner T)
  | .ok v => [v.1]
  | _ => []

/-- The contents of the planner during a call, for functions of the type of `fft`. -/
abbrev SeenOp (T : Type) := Planner T → List (Cx T) → List (Planner T)

/-- `fft_split_simd` (`src/fft.rs:790-911`, `915-1050`): as on entry; the twiddle table inserted (`812-815`); the scratch pair taken
out (`817-822`); put back at the end (`905-909`). Below 17 and for lengths that are not powers of two, `self.fft` on a temporary. -/
def splitSimdSeen (cfg : Cfg) (fft : FftOp T) (seen : SeenOp T) (p : Planner T) (re im : List T) : List (Planner T) :=
  let n := re.length
  if n = 0 then [p]
  else if !isPow2 n || decide (n ≤ 16) then seen p (List.zipWith Cx.mk re im)
  else
    let p1 := (p.getTwiddles cfg n).1
    p :: p1 :: { p1 with splitScratchRe := [], splitScratchIm := [] } :: leftBy (splitSimd cfg fft p re im)

/-- `stockham_fft_with_threshold` (`src/fft.rs:642-786`): as on entry; the twiddle table inserted (`668`); `scratch`, `split_re` and
`split_im` taken out (`669-671`); for `f32`/`f64` the steps of `fft_split_simd`; everything put back (`700-704`, `722-726`,
`779-783`). -/
def stockhamSeen (cfg : Cfg) (fft : FftOp T) (seen : SeenOp T) (p : Planner T) (x : List (Cx T)) : List (Planner T) :=
  let n := x.length
  if n = 0 then [p]
  else if !isPow2 n then seen p x
  else if n ≤ 16 then [p]
  else
    let p1 := (p.getTwiddles cfg n).1
    let p2 := { p1 with scratch := [], splitRe := [], splitIm := [] }
    p :: p1 :: p2 ::
      ((if cfg.kind = .f32 ∨ cfg.kind = .f64 then
          splitSimdSeen cfg fft seen p2 (copyPrefix (x.map Cx.re) (grow p1.splitRe n Flt.zero))
            (copyPrefix (x.map Cx.im) (grow p1.splitIm n Flt.zero))
        else []) ++ leftBy (stockham cfg fft p x))

/-- The work buffer handed to the first inner transform of Bluestein's algorithm (`src/fft.rs:1098-1107`). -/
def bluFill (x chirp : List (Cx T)) (m : Nat) (a : List (Cx T)) : Outcome (List (Cx T)) := do
  let a := grow a m Cx.zero
  let a ← forRange 0 x.length a fun i a => do
    let v ← rd x i
    let c ← rd chirp i
    wr a i (v.mul c)
  if x.length ≤ m ∧ m ≤ a.length then forRange x.length m a (fun i a => wr a i Cx.zero) else .panic

/-- The Bluestein branch of `fft` (`src/fft.rs:1087-1131`): as on entry; the tables inserted (`1092`; their spectrum is computed
on another, temporary transformer); the work buffer taken out (`1093`); the steps of the first inner transform (`1108`) and of the
second (`1115`); the work buffer put back (`1128-1129`). -/
def bluesteinSeen (fft : FftOp T) (seen : SeenOp T) (p : Planner T) (x : List (Cx T)) : List (Planner T) :=
  p :: ((match p.getBluestein fft x.length with
    | .ok (p1, chirp, fftB) =>
      let p2 := { p1 with bluScratch := [] }
      p1 :: p2 :: (match bluFill x chirp fftB.length p1.bluScratch with
        | .ok a => seen p2 a ++ (match fft p2 a with
          | .ok (p3, a, .ok _) => seen p3 ((copyPrefix (List.zipWith Cx.mul a fftB) a).map Cx.conj)
          | _ => [])
        | _ => [])
    | _ => []) ++ leftBy (bluestein fft p x))

/-- `ScalarFftImpl::fft` (`src/fft.rs:1054-1133`). -/
def fftSeenBody (cfg : Cfg) (fft : FftOp T) (seen : SeenOp T) (p : Planner T) (x : List (Cx T)) : List (Planner T) :=
  let n := x.length
  if n = 0 then [p]
  else if n = 1 then [p]
  else if n ≤ 16 && isPow2 n then [p]
  else if n &&& (n - 1) = 0 then stockhamSeen cfg fft seen p x
  else if !cfg.std then [p]
  else bluesteinSeen fft seen p x

/-- `fft` with at most `fuel` nested calls of itself (as `fftF`). -/
def fftSeenF (cfg : Cfg) : Nat → SeenOp T
  | 0, p, _ => [p]
  | fuel + 1, p, x => fftSeenBody cfg (fftF cfg fuel) (fftSeenF cfg fuel) p x

/-- `ScalarFftImpl::fft` (`src/fft.rs:1054-1133`). -/
def fftSeen (cfg : Cfg) : SeenOp T := fftSeenF cfg fftDepth

/-- `ScalarFftImpl::ifft` (`src/fft.rs:1134-1174`), sequential or parallel: the planner is used by the inner `fft` only. -/
def ifftSeen (cfg : Cfg) (p : Planner T) (x : List (Cx T)) : List (Planner T) :=
  if x.length = 0 ∨ x.length = 1 then [p] else fftSeen cfg p (x.map Cx.conj)

/-- The successive contents while twiddle tables for the lengths `ls` are requested. -/
def twSeen (cfg : Cfg) (p : Planner T) : List Nat → List (Planner T)
  | [] => [p]
  | l :: ls => p :: twSeen cfg (p.getTwiddles cfg l).1 ls

/-- `fft_radix4` (`src/fft.rs:1455-1548`): the passes `len = 16, 64, ...` up to `n` ask for a table each (`1488-1492`). -/
def radix4Seen (cfg : Cfg) (p : Planner T) (x : List (Cx T)) : List (Planner T) :=
  let n := x.length
  if !isPow2 n || n.log2 % 2 ≠ 0 then fftSeen cfg p x
  else twSeen cfg p ((List.range (n.log2 / 2 - 1)).map fun k => 4 ^ (k + 2)) ++ leftBy (fftRadix4 cfg p x)

/-- `fft_with_strategy` (`src/fft.rs:1337-1364`); `plan_strategy` does not change the planner. -/
def strategySeen (cfg : Cfg) (st : Strategy) (p : Planner T) (x : List (Cx T)) : List (Planner T) :=
  let n := x.length
  if n = 0 then [p]
  else if n = 1 then [p]
  else
    let chosen := if st = .Auto then planStrategy n else st
    match chosen with
    | .Radix2 => fftSeen cfg p x
    | .Radix4 => if cfg.std then radix4Seen cfg p x else fftSeen cfg p x
    | .SplitRadix => stockhamSeen cfg (fft cfg) (fftSeen cfg) p x
    | .Auto => fftSeen cfg p x

/-- `fft_split` (`src/fft.rs:1365-1392`). -/
def fftSplitSeen (cfg : Cfg) (p : Planner T) (re im : List T) : List (Planner T) :=
  if re.length ≠ im.length then [p]
  else if cfg.kind = .f32 ∨ cfg.kind = .f64 then splitSimdSeen cfg (fft cfg) (fftSeen cfg) p re im
  else fftSeen cfg p (List.zipWith Cx.mk re im)

/-- `ifft_split` (`src/fft.rs:1393-1440`). -/
def ifftSplitSeen (cfg : Cfg) (p : Planner T) (re im : List T) : List (Planner T) :=
  if re.length ≠ im.length then [p]
  else if cfg.kind = .f32 ∨ cfg.kind = .f64 then splitSimdSeen cfg (fft cfg) (fftSeen cfg) p re (im.map Flt.neg)
  else ifftSeen cfg p (List.zipWith Cx.mk re im)

/-- `fft_strided`, `ifft_strided` (`src/fft.rs:1175-1200`, `1236-1260`): only the inner transform touches the planner. -/
def stridedSeen (seen : SeenOp T) (p : Planner T) (input : List (Cx T)) (stride : Nat) (scratch : List (Cx T)) :
    List (Planner T) :=
  if stride = 0 then [p]
  else
    let n := scratch.length
    if n = 0 then [p]
    else if input.length < (n - 1) * stride + 1 then [p]
    else p :: (match gather input stride n scratch with
      | .ok s => seen p s
      | _ => [])

/-- `fft_strided_alloc`, `ifft_strided_alloc` (`src/fft.rs:1201-1235`): `scratch` taken out, the strided transform, put back. -/
def stridedAllocSeen (op : FftOp T) (seen : SeenOp T) (p : Planner T) (input : List (Cx T)) (stride : Nat) :
    List (Planner T) :=
  let n := if stride = 0 then 0 else input.length / stride
  let p1 := { p with scratch := [] }
  p :: p1 :: (stridedSeen seen p1 input stride ((grow p.scratch n Cx.zero).take n) ++
    leftBy (stridedAlloc op p input stride))

/-- `fft_out_of_place_strided`, `ifft_out_of_place_strided` (`src/fft.rs:1261-1336`). -/
def oopStridedSeen (op : FftOp T) (seen : SeenOp T) (p : Planner T) (input : List (Cx T)) (inStride : Nat)
    (output : List (Cx T)) (outStride : Nat) : List (Planner T) :=
  if inStride = 0 ∨ outStride = 0 then [p]
  else if input.length % inStride ≠ 0 ∨ output.length % outStride ≠ 0 then [p]
  else
    let n := input.length / inStride
    if output.length / outStride ≠ n then [p]
    else
      let p1 := { p with scratch := [] }
      p :: p1 :: ((match gather input inStride n (grow p.scratch n Cx.zero) with
        | .ok s => seen p1 (s.take n)
        | _ => []) ++ leftBy (oopStrided op p input inStride output outStride))

end Kofft
