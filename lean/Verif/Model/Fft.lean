import Verif.Model.Kernels
import Mathlib.Data.Nat.Log
/-
The scalar FFT: `FftPlanner` and `ScalarFftImpl` of `src/fft.rs`.
-/
namespace Kofft

/-- Which concrete type `T` is, as seen by the `TypeId` tests
(`src/fft.rs:374,382,686,708,1371,1377`). -/
inductive Kind
  | f32
  | f64
  | other
  deriving Repr, DecidableEq

/-- Build-time configuration: cargo features, element type, vector width of the split loop
(`0` = no vector block compiled in; `4` for f32 on x86_64/aarch64, `4`/`2` for f64 with AVX/NEON),
and whether `debug_assert!` is active. -/
structure Cfg where
  std : Bool
  kind : Kind
  precomputed : Bool
  lanes : Nat
  debug : Bool
  deriving Repr, DecidableEq

variable {T : Type} [Flt T]

/-! ### `FftPlanner` (`src/fft.rs:332-443`) -/

/-- `src/fft.rs:332-346` `struct FftPlanner`; the hash maps are partial functions. -/
structure Planner (T : Type) where
  cache : Nat → Option (List (Cx T))
  blu : Nat → Option (List (Cx T) × List (Cx T))
  scratch : List (Cx T)
  bluScratch : List (Cx T)
  splitRe : List T
  splitIm : List T
  splitScratchRe : List T
  splitScratchIm : List T

/-- `src/fft.rs:355-366` `FftPlanner::new`. -/
def Planner.new : Planner T where
  cache := fun _ => none
  blu := fun _ => none
  scratch := []
  bluScratch := []
  splitRe := []
  splitIm := []
  splitScratchRe := []
  splitScratchIm := []

/-- The table-filling loop of `get_twiddles` (`src/fft.rs:398-403`):
`half` more entries, current factor `w`, rotation `(cos_step, sin_step)`. -/
def twLoop (cosStep sinStep : T) : Nat → Cx T → List (Cx T)
  | 0, _ => []
  | half + 1, w =>
    w :: twLoop cosStep sinStep half
      ⟨Flt.mulAdd w.re cosStep (-. (w.im *. sinStep)), Flt.mulAdd w.im cosStep (w.re *. sinStep)⟩

/-- The table computed by `get_twiddles` for size `n` (`src/fft.rs:390-404`). -/
def twTable (n : Nat) : List (Cx T) :=
  let half := n / 2
  let angle : T := ((-. Flt.lit 2 0) *. Flt.pi) /. Flt.ofNat n
  twLoop (Flt.cos angle) (Flt.sin angle) half ⟨Flt.one, Flt.zero⟩

/-- `build.rs:7` `SIZES`. -/
def preSizes : List Nat := [2, 4, 8, 16, 32, 64, 128, 256, 512, 1024]

/-- One generated table of `build.rs:16-68`: entry `k` is `cos/sin(-2π k / n)` printed and parsed. -/
def preTable (n : Nat) : List (Cx T) :=
  (List.range (n / 2)).map fun k =>
    let angle : T := (((-. Flt.lit 2 0) *. Flt.pi) *. Flt.ofNatD k) /. Flt.ofNatD n
    ⟨Flt.printParse (Flt.cos angle), Flt.printParse (Flt.sin angle)⟩

/-- `lookup_f32` / `lookup_f64` generated by `build.rs:71-94`, and the feature/type guard of
`src/fft.rs:371-388`. -/
def preLookup (cfg : Cfg) (n : Nat) : Option (List (Cx T)) :=
  if cfg.precomputed && (cfg.kind == .f32 || cfg.kind == .f64) && preSizes.contains n then
    some (preTable n)
  else none

/-- `src/fft.rs:370-408` `get_twiddles`. -/
def Planner.getTwiddles (cfg : Cfg) (p : Planner T) (n : Nat) : Planner T × List (Cx T) :=
  match preLookup cfg n with
  | some tab => (p, tab)
  | none =>
    match p.cache n with
    | some tab => (p, tab)
    | none =>
      let tab := twTable n
      ({ p with cache := fun k => if k = n then some tab else p.cache k }, tab)

/-- `usize::next_power_of_two`. -/
def nextPow2 (n : Nat) : Nat := 2 ^ Nat.clog 2 n

/-- The type of `fft`-like operations: planner and buffer in, planner, buffer and result out. -/
abbrev FftOp (T : Type) :=
  Planner T → List (Cx T) → Outcome (Planner T × List (Cx T) × Res)

/-- `src/fft.rs:411-435` `get_bluestein`. `fft` is the transform used for the cached spectrum
(`ScalarFftImpl::default().fft`, i.e. run on a fresh planner); its error is `unwrap`ped.
`2 * n - 1` underflows for `n = 0`: panic. -/
def Planner.getBluestein (fft : FftOp T) (p : Planner T) (n : Nat) :
    Outcome (Planner T × List (Cx T) × List (Cx T)) :=
  match p.blu n with
  | some pr => .ok (p, pr.1, pr.2)
  | none =>
    if n = 0 then .panic else do
      let m := nextPow2 (2 * n - 1)
      let angle : Nat → T := fun i => (Flt.pi *. Flt.ofNat (i * i)) /. Flt.ofNat n
      let chirp := (List.range n).map fun i => Cx.expi (-. angle i)
      let b0 := grow ((List.range n).map fun i => Cx.expi (angle i)) m Cx.zero
      let b ← forRange 1 n b0 fun i b => do
        let v ← rd b i
        wr b (m - i) v
      let (_, bf, r) ← fft Planner.new b
      match r with
      | .error _ => .panic
      | .ok _ =>
        .ok ({ p with blu := fun k => if k = n then some (chirp, bf) else p.blu k }, chirp, bf)

/-! ### Split-complex Stockham stages (`fft_split_simd`, `src/fft.rs:790-911` and `915-1050`) -/

/-- One vector block at lane offset `j`: four loads, the butterfly on each lane, four stores
(`src/fft.rs:849-860`, `867-878`, `972-998`, `1006-1017`). -/
def simdBlock (W : Nat) (tw : Cx T) (sre sim : List T) (even odd dst0 dst1 j : Nat)
    (d : List T × List T) : Outcome (List T × List T) := do
  let er ← rdN sre (even + j) W
  let ei ← rdN sim (even + j) W
  let or ← rdN sre (odd + j) W
  let oi ← rdN sim (odd + j) W
  let tre := List.zipWith Flt.sub (or.map (· *. tw.re)) (oi.map (· *. tw.im))
  let tim := List.zipWith Flt.add (or.map (· *. tw.im)) (oi.map (· *. tw.re))
  let dre ← wrN d.1 (dst0 + j) (List.zipWith Flt.add er tre)
  let dim ← wrN d.2 (dst0 + j) (List.zipWith Flt.add ei tim)
  let dre ← wrN dre (dst1 + j) (List.zipWith Flt.sub er tre)
  let dim ← wrN dim (dst1 + j) (List.zipWith Flt.sub ei tim)
  pure (dre, dim)

/-- One scalar iteration (`src/fft.rs:882-891`, `1021-1030`). -/
def scalarButterfly (tw : Cx T) (sre sim : List T) (even odd dst0 dst1 j : Nat)
    (d : List T × List T) : Outcome (List T × List T) := do
  let er ← rd sre (even + j)
  let ei ← rd sim (even + j)
  let or ← rd sre (odd + j)
  let oi ← rd sim (odd + j)
  let tre := (or *. tw.re) -. (oi *. tw.im)
  let tim := (or *. tw.im) +. (oi *. tw.re)
  let dre ← wr d.1 (dst0 + j) (er +. tre)
  let dim ← wr d.2 (dst0 + j) (ei +. tim)
  let dre ← wr dre (dst1 + j) (er -. tre)
  let dim ← wr dim (dst1 + j) (ei -. tim)
  pure (dre, dim)

/-- The vector loop `while j + W <= n2` followed by the scalar tail `while j < n2`
(`src/fft.rs:842-892`, `964-1031`); `W = 0` means no vector loop was compiled in. -/
def splitGroup (W : Nat) (tw : Cx T) (sre sim : List T) (even odd dst0 dst1 n2 : Nat)
    (d : List T × List T) : Outcome (List T × List T) := do
  let (j, d) ←
    if W = 0 then pure (0, d) else
      whileF (n2 + 1) (fun s : Nat × (List T × List T) => decide (s.1 + W ≤ n2))
        (fun s => do
          let d ← simdBlock W tw sre sim even odd dst0 dst1 s.1 s.2
          pure (s.1 + W, d)) (0, d)
  forRange j n2 d (fun j d => scalarButterfly tw sre sim even odd dst0 dst1 j d)

/-- One pass over all groups (`src/fft.rs:835-894`, `957-1033`). -/
def splitStage (W : Nat) (tws : List (Cx T)) (sre sim : List T) (n1 n2 : Nat)
    (d : List T × List T) : Outcome (List T × List T) :=
  forRange 0 n1 d fun k d => do
    let tw ← rd tws (k * n2)
    splitGroup W tw sre sim (2 * k * n2) (2 * k * n2 + n2) (k * n2) ((k + n1) * n2) n2 d

/-- State of the double-buffered stage loops: current source and destination, whether the source
is the caller's buffer (`src_re.as_ptr() == out_re_ptr`), and `n1`, `n2`. -/
structure StageSt (B : Type) where
  src : B
  dst : B
  srcIsInput : Bool
  n1 : Nat
  n2 : Nat

/-- `while n1 < n { n2 >>= 1; stage; swap; n1 <<= 1 }` (`src/fft.rs:831-898`, `953-1037`,
`738-772`), with a generic stage. -/
def stageLoop {B : Type} (n : Nat) (stage : B → Nat → Nat → B → Outcome B) (s : StageSt B) :
    Outcome (StageSt B) :=
  whileF (n + 1) (fun s => decide (s.n1 < n))
    (fun s => do
      let n2 := s.n2 / 2
      let d ← stage s.src s.n1 n2 s.dst
      pure { src := d, dst := s.src, srcIsInput := !s.srcIsInput, n1 := s.n1 * 2, n2 := n2 }) s

/-- `for (c, (r, i)) in input.iter_mut().zip(re.iter().zip(im.iter())) { c.re = *r; c.im = *i }`
(`src/fft.rs:696-699`, `718-721`). -/
def zipBack : List (Cx T) → List T → List T → List (Cx T)
  | _ :: x, r :: re, i :: im => ⟨r, i⟩ :: zipBack x re im
  | x, _, _ => x

/-- `core::ptr::copy_nonoverlapping(src, dst, n)` on whole buffers. -/
def copyN {α : Type} (src dst : List α) (n : Nat) : Outcome (List α) :=
  if n ≤ src.length ∧ n ≤ dst.length then .ok (src.take n ++ dst.drop n) else .panic

/-- `src/fft.rs:790-911`, `src/fft.rs:915-1050` `fft_split_simd` (f32 and f64 instances:
same control flow, vector width `cfg.lanes`). `fft` is `self.fft`. -/
def splitSimd (cfg : Cfg) (fft : FftOp T) (p : Planner T) (re im : List T) :
    Outcome (Planner T × List T × List T × Res) :=
  let n := re.length
  if n = 0 then .ok (p, re, im, .error .EmptyInput)
  else if !isPow2 n || decide (n ≤ 16) then do
    let buf := List.zipWith Cx.mk re im
    let (p, buf, r) ← fft p buf
    match r with
    | .error e => .ok (p, re, im, .error e)
    | .ok _ => do
      let (re, im) ← forRange 0 n (re, im) fun i s => do
        let c ← rd buf i
        let re ← wr s.1 i c.re
        let im ← wr s.2 i c.im
        pure (re, im)
      pure (p, re, im, .ok ())
  else do
    let (p, tws) := p.getTwiddles cfg n
    let sr := grow p.splitScratchRe n Flt.zero
    let si := grow p.splitScratchIm n Flt.zero
    let p := { p with splitScratchRe := [], splitScratchIm := [] }
    let s ← stageLoop n
      (fun (src : List T × List T) n1 n2 dst => splitStage cfg.lanes tws src.1 src.2 n1 n2 dst)
      { src := (re, im), dst := (sr, si), srcIsInput := true, n1 := 1, n2 := n }
    if s.srcIsInput then
      .ok ({ p with splitScratchRe := s.dst.1, splitScratchIm := s.dst.2 }, s.src.1, s.src.2, .ok ())
    else do
      let re ← copyN s.src.1 s.dst.1 n
      let im ← copyN s.src.2 s.dst.2 n
      .ok ({ p with splitScratchRe := s.src.1, splitScratchIm := s.src.2 }, re, im, .ok ())

/-! ### Interleaved Stockham stages (`src/fft.rs:729-777`, types other than f32/f64) -/

/-- One pass over all groups on interleaved buffers (`src/fft.rs:741-769`). -/
def cxStage (debug : Bool) (tws : List (Cx T)) (src : List (Cx T)) (n1 n2 : Nat)
    (dst : List (Cx T)) : Outcome (List (Cx T)) :=
  forRange 0 n1 dst fun k dst => do
    let w ← rd tws (k * n2)
    let base0 := 2 * k * n2
    let base1 := base0 + n2
    debugAssert debug (decide (base1 + n2 ≤ src.length))
    debugAssert debug (decide ((k + 1) * n2 ≤ dst.length))
    debugAssert debug (decide ((k + n1 + 1) * n2 ≤ dst.length))
    forRange 0 n2 dst fun j dst => do
      let u ← rd src (base0 + j)
      let v0 ← rd src (base1 + j)
      let v := v0.mul w
      let dst ← wr dst (k * n2 + j) (u.add v)
      wr dst ((k + n1) * n2 + j) (u.sub v)

/-- `match n { 2 => fft2, 4 => fft4, 8 => fft8, 16 => fft16, _ => unreachable!() }`
(`src/fft.rs:656-662`, `1063-1069`). -/
def smallKernel (cfg : Cfg) (x : List (Cx T)) : Outcome (List (Cx T)) :=
  if x.length = 2 then fft2 cfg.debug x
  else if x.length = 4 then fft4 cfg.debug x
  else if x.length = 8 then fft8 cfg.debug x
  else if x.length = 16 then fft16 cfg.debug x
  else .panic

/-- `src/fft.rs:642-786` `stockham_fft_with_threshold` (the threshold argument is ignored by the
source). `fft` is `self.fft`. -/
def stockham (cfg : Cfg) (fft : FftOp T) (p : Planner T) (x : List (Cx T)) :
    Outcome (Planner T × List (Cx T) × Res) :=
  let n := x.length
  if n = 0 then .ok (p, x, .error .EmptyInput)
  else if !isPow2 n then fft p x
  else if n ≤ 16 then do
    let y ← smallKernel cfg x
    pure (p, y, .ok ())
  else do
    let (p, tws) := p.getTwiddles cfg n
    let scratch := grow p.scratch n Cx.zero
    let sre := grow p.splitRe n Flt.zero
    let sim := grow p.splitIm n Flt.zero
    let p := { p with scratch := [], splitRe := [], splitIm := [] }
    if cfg.kind = .f32 ∨ cfg.kind = .f64 then do
      let sre := copyPrefix (x.map Cx.re) sre
      let sim := copyPrefix (x.map Cx.im) sim
      let (p, sre, sim, r) ← splitSimd cfg fft p sre sim
      match r with
      | .error e => .ok (p, x, .error e)
      | .ok _ =>
        .ok ({ p with scratch := scratch, splitRe := sre, splitIm := sim },
             zipBack x sre sim, .ok ())
    else do
      let s ← stageLoop n (fun src n1 n2 dst => cxStage cfg.debug tws src n1 n2 dst)
        { src := x, dst := scratch.take n, srcIsInput := true, n1 := 1, n2 := n }
      let rest := scratch.drop n
      if s.srcIsInput then
        .ok ({ p with scratch := s.dst ++ rest, splitRe := sre, splitIm := sim }, s.src, .ok ())
      else do
        let y ← copyN s.src s.dst n
        .ok ({ p with scratch := s.src ++ rest, splitRe := sre, splitIm := sim }, y, .ok ())

/-! ### `fft`, `ifft` (`src/fft.rs:1054-1174`) -/

/-- The Bluestein branch of `fft` (`src/fft.rs:1087-1131`), `std` only. `fft` is `self.fft`. -/
def bluestein (fft : FftOp T) (p : Planner T) (x : List (Cx T)) :
    Outcome (Planner T × List (Cx T) × Res) := do
  let n := x.length
  let (p, chirp, fftB) ← p.getBluestein fft n
  let a := p.bluScratch
  let p := { p with bluScratch := [] }
  let m := fftB.length
  let a := grow a m Cx.zero
  let a ← forRange 0 n a fun i a => do
    let v ← rd x i
    let c ← rd chirp i
    wr a i (v.mul c)
  -- `&mut a[n..m]` panics unless n <= m <= a.len()
  let a ← if n ≤ m ∧ m ≤ a.length then
      forRange n m a (fun i a => wr a i Cx.zero) else .panic
  let (p, a, r) ← fft p a
  match r with
  | .error e => .ok (p, x, .error e)
  | .ok _ => do
    let a := copyPrefix (List.zipWith Cx.mul a fftB) a
    let a := a.map Cx.conj
    let (p, a, r) ← fft p a
    match r with
    | .error e => .ok (p, x, .error e)
    | .ok _ => do
      let a := a.map Cx.conj
      let scale : T := Flt.one /. Flt.ofNat m
      let a := a.map fun c => ⟨c.re *. scale, c.im *. scale⟩
      let y ← forRange 0 n x fun i y => do
        let v ← rd a i
        let c ← rd chirp i
        wr y i (v.mul c)
      .ok ({ p with bluScratch := a }, y, .ok ())

/-- `src/fft.rs:1054-1133` `ScalarFftImpl::fft`, `rec` being the recursive `self.fft`. -/
def fftBody (cfg : Cfg) (rec : FftOp T) (p : Planner T) (x : List (Cx T)) :
    Outcome (Planner T × List (Cx T) × Res) :=
  let n := x.length
  if n = 0 then .ok (p, x, .error .EmptyInput)
  else if n = 1 then .ok (p, x, .ok ())
  else if n ≤ 16 && isPow2 n then do
    let y ← smallKernel cfg x
    pure (p, y, .ok ())
  else if n &&& (n - 1) = 0 then stockham cfg rec p x
  else if !cfg.std then .ok (p, x, .error .NonPowerOfTwoNoStd)
  else bluestein rec p x

/-- `fft` with at most `fuel` nested calls of itself. -/
def fftF (cfg : Cfg) : Nat → FftOp T
  | 0, _, _ => .hang
  | fuel + 1, p, x => fftBody cfg (fftF cfg fuel) p x

/-- Nesting depth allowed in the model: Bluestein calls `fft` once more (depth 2); the fallback
of `fft_split_simd` could nest further but is never reached. Proved never to be exhausted. -/
def fftDepth : Nat := 4

/-- `src/fft.rs:1054-1133` `ScalarFftImpl::fft`. -/
def fft (cfg : Cfg) : FftOp T := fftF cfg fftDepth

/-- `src/fft.rs:634-640` `ScalarFftImpl::stockham_fft`. -/
def stockhamFft (cfg : Cfg) : FftOp T := stockham cfg (fft cfg)

/-- The per-element update after the inner `fft` of `ifft` (`src/fft.rs:1168-1172`). -/
def ifftPost (scale : T) (c : Cx T) : Cx T :=
  let im := -. c.im
  ⟨c.re *. scale, im *. scale⟩

/-- `src/fft.rs:1134-1174` `ScalarFftImpl::ifft`, sequential path (the parallel path is
`ifftPar` in `Model/Parallel.lean`). Generic in the inner transform, `fft` is `self.fft`. -/
def ifftWith (fft : FftOp T) (p : Planner T) (x : List (Cx T)) :
    Outcome (Planner T × List (Cx T) × Res) :=
  let n := x.length
  if n = 0 then .ok (p, x, .error .EmptyInput)
  else if n = 1 then .ok (p, x, .ok ())
  else do
    let x := x.map Cx.conj
    let (p, y, r) ← fft p x
    match r with
    | .error e => .ok (p, y, .error e)
    | .ok _ =>
      let scale : T := Flt.one /. Flt.ofNat n
      .ok (p, y.map (ifftPost scale), .ok ())

/-- `src/fft.rs:1134-1174` `ScalarFftImpl::ifft`. -/
def ifft (cfg : Cfg) : FftOp T := ifftWith (fft cfg)

end Kofft
