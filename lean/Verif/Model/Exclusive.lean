import Verif.Spec.Exclusive
import Verif.Spec.Crash
/-
Where the methods of `ScalarFftImpl` hold a mutable reference to their planner (`planner_mut`, `src/fft.rs:620-632`), and where
they run operations of the element type. The planner is threaded as in the other models, because whether a table is computed
depends on what the planner has cached.

Simplification: a stretch of operations of the element type is one `work`. Copies of elements (`T: Copy`) and the reference
counting of the cached tables are not operations of the element type.
-/
namespace Kofft
open Spec

variable {T : Type} [Flt T]

/-- `{ let planner = unsafe { self.planner_mut() }; … }` -/
def block (o : Nat) (body : List RefEv) : List RefEv := .acquire o :: (body ++ [.release o])

/-- Traces of functions of the type of `fft`, for a transformer with a given number. -/
abbrev TraceOp (T : Type) := Nat → Planner T → List (Cx T) → List RefEv

/-- `get_twiddles` (`src/fft.rs:370-408`): the table is computed on a cache miss. -/
def twTrace (cfg : Cfg) (p : Planner T) (n : Nat) : List RefEv :=
  match (preLookup cfg n : Option (List (Cx T))), p.cache n with
  | none, none => [.work]
  | _, _ => []

/-- `get_bluestein` (`src/fft.rs:411-432`): on a cache miss the tables are computed and a new transformer (424), number `o + 1`,
transforms one of them. (What it does with references depends only on the length, not on the values.) -/
def bluTrace (tr : TraceOp T) (o : Nat) (p : Planner T) (n : Nat) : List RefEv :=
  match p.blu n with
  | none => .work :: tr (o + 1) Planner.new (List.replicate (nextPow2 (2 * n - 1)) Cx.zero)
  | some _ => []

/-- `scratch.resize(n, Complex::zero())` if it is shorter (`src/fft.rs:1206-1208`, `1224-1226`, `1281-1283`, `1319-1321`). -/
def growTrace (have_ n : Nat) : List RefEv := if have_ < n then [.work] else []

/-- `fft_split_simd` (`src/fft.rs:789-911`, `914-1050`): blocks at 811-814, 817-822, 905-909. For `f32` and `f64` the operations
are not the user's, but they are counted all the same. -/
def splitSimdTrace (cfg : Cfg) (tr : TraceOp T) (o : Nat) (p : Planner T) (re im : List T) : List RefEv :=
  let n := re.length
  if n = 0 then []
  else if !isPow2 n || decide (n ≤ 16) then tr o p (List.zipWith Cx.mk re im)
  else block o (twTrace cfg p n) ++ block o [] ++ [.work] ++ block o []

/-- `stockham_fft_with_threshold` (`src/fft.rs:642-787`): blocks at 666-673, 700-704, 722-726, 779-783. -/
def stockhamTrace (cfg : Cfg) (tr : TraceOp T) (o : Nat) (p : Planner T) (x : List (Cx T)) : List RefEv :=
  let n := x.length
  if n = 0 then []
  else if !isPow2 n then tr o p x
  else if n ≤ 16 then [.work]
  else
    let p1 := (p.getTwiddles cfg n).1
    let p2 := { p1 with scratch := [], splitRe := [], splitIm := [] }
    block o (twTrace cfg p n) ++ [.work] ++
    (if cfg.kind = .f32 ∨ cfg.kind = .f64 then
      splitSimdTrace cfg tr o p2 (copyPrefix (x.map Cx.re) (grow p1.splitRe n Flt.zero))
        (copyPrefix (x.map Cx.im) (grow p1.splitIm n Flt.zero))
     else []) ++
    block o []

/-- The Bluestein branch of `fft` (`src/fft.rs:1087-1131`): blocks at 1090-1095 and 1127-1130. -/
def bluesteinTrace (fft : FftOp T) (tr : TraceOp T) (o : Nat) (p : Planner T) (x : List (Cx T)) : List RefEv :=
  block o (bluTrace tr o p x.length) ++ [.work] ++
  (match p.getBluestein fft x.length with
    | .ok (p1, chirp, fftB) =>
      let p2 := { p1 with bluScratch := [] }
      (match bluFill x chirp fftB.length p1.bluScratch with
        | .ok a => tr o p2 a ++ [.work] ++ (match fft p2 a with
          | .ok (p3, a, .ok _) => tr o p3 ((copyPrefix (List.zipWith Cx.mul a fftB) a).map Cx.conj) ++ [.work]
          | _ => [])
        | _ => [])
    | _ => []) ++
  block o []

/-- `ScalarFftImpl::fft` (`src/fft.rs:1054-1133`). -/
def fftTraceBody (cfg : Cfg) (fft : FftOp T) (tr : TraceOp T) (o : Nat) (p : Planner T) (x : List (Cx T)) : List RefEv :=
  let n := x.length
  if n = 0 then []
  else if n = 1 then []
  else if n ≤ 16 && isPow2 n then [.work]
  else if n &&& (n - 1) = 0 then stockhamTrace cfg tr o p x
  else if !cfg.std then []
  else bluesteinTrace fft tr o p x

/-- `fft` with at most `fuel` nested calls of itself (as `fftF`). -/
def fftTraceF (cfg : Cfg) : Nat → TraceOp T
  | 0, _, _, _ => []
  | fuel + 1, o, p, x => fftTraceBody cfg (fftF cfg fuel) (fftTraceF cfg fuel) o p x

/-- `ScalarFftImpl::fft` (`src/fft.rs:1054-1133`). -/
def fftTrace (cfg : Cfg) : TraceOp T := fftTraceF cfg fftDepth

/-- `ScalarFftImpl::ifft` (`src/fft.rs:1134-1174`). -/
def ifftTrace (cfg : Cfg) : TraceOp T := fun o p x =>
  if x.length = 0 ∨ x.length = 1 then [] else [.work] ++ fftTrace cfg o p (x.map Cx.conj) ++ [.work]

/-- The blocks of the passes of `fft_radix4` (`src/fft.rs:1488-1492`) for the lengths `ls`. -/
def twBlocks (cfg : Cfg) (o : Nat) (p : Planner T) : List Nat → List RefEv
  | [] => []
  | l :: ls => block o (twTrace cfg p l) ++ [.work] ++ twBlocks cfg o (p.getTwiddles cfg l).1 ls

/-- `fft_radix4` (`src/fft.rs:1455-1548`). -/
def radix4Trace (cfg : Cfg) : TraceOp T := fun o p x =>
  let n := x.length
  if !isPow2 n || n.log2 % 2 ≠ 0 then fftTrace cfg o p x
  else [.work] ++ twBlocks cfg o p ((List.range (n.log2 / 2 - 1)).map fun k => 4 ^ (k + 2))

/-- `fft_with_strategy` (`src/fft.rs:1337-1364`): block at 1350. -/
def strategyTrace (cfg : Cfg) (st : Strategy) : TraceOp T := fun o p x =>
  let n := x.length
  if n = 0 then []
  else if n = 1 then []
  else
    (if st = .Auto then block o [] else []) ++
    match (if st = .Auto then planStrategy n else st) with
    | .Radix2 => fftTrace cfg o p x
    | .Radix4 => if cfg.std then radix4Trace cfg o p x else fftTrace cfg o p x
    | .SplitRadix => stockhamTrace cfg (fftTrace cfg) o p x
    | .Auto => fftTrace cfg o p x

/-- `fft_split`, `ifft_split` (`src/fft.rs:1365-1440`). -/
def splitTrace (cfg : Cfg) (inverse : Bool) (o : Nat) (p : Planner T) (re im : List T) : List RefEv :=
  if re.length ≠ im.length then []
  else if cfg.kind = .f32 ∨ cfg.kind = .f64 then
    if inverse then [.work] ++ splitSimdTrace cfg (fftTrace cfg) o p re (im.map Flt.neg) ++ [.work]
    else splitSimdTrace cfg (fftTrace cfg) o p re im
  else (if inverse then ifftTrace cfg else fftTrace cfg) o p (List.zipWith Cx.mk re im)

/-- `fft_strided`, `ifft_strided` (`src/fft.rs:1175-1200`, `1236-1260`). -/
def stridedTrace (tr : TraceOp T) (o : Nat) (p : Planner T) (input : List (Cx T)) (stride : Nat) (scratch : List (Cx T)) :
    List RefEv :=
  if stride = 0 then []
  else
    let n := scratch.length
    if n = 0 then []
    else if input.length < (n - 1) * stride + 1 then []
    else match gather input stride n scratch with
      | .ok s => tr o p s
      | _ => []

/-- `fft_strided_alloc`, `ifft_strided_alloc` (`src/fft.rs:1201-1235`): blocks at 1203-1210, 1212-1215, 1221-1228, 1230-1233. -/
def stridedAllocTrace (tr : TraceOp T) (o : Nat) (p : Planner T) (input : List (Cx T)) (stride : Nat) : List RefEv :=
  let n := if stride = 0 then 0 else input.length / stride
  block o (growTrace p.scratch.length n) ++
  stridedTrace tr o { p with scratch := [] } input stride ((grow p.scratch n Cx.zero).take n) ++
  block o []

/-- `fft_out_of_place_strided`, `ifft_out_of_place_strided` (`src/fft.rs:1261-1336`): blocks at 1278-1288, 1293-1296, 1316-1326,
1331-1334 (the second one not after an error). -/
def oopStridedTrace (op : FftOp T) (tr : TraceOp T) (o : Nat) (p : Planner T) (input : List (Cx T)) (inStride : Nat)
    (output : List (Cx T)) (outStride : Nat) : List RefEv :=
  if inStride = 0 ∨ outStride = 0 then []
  else if input.length % inStride ≠ 0 ∨ output.length % outStride ≠ 0 then []
  else
    let n := input.length / inStride
    if output.length / outStride ≠ n then []
    else
      block o (growTrace p.scratch.length n) ++
      (match gather input inStride n (grow p.scratch n Cx.zero) with
        | .ok s => tr o { p with scratch := [] } (s.take n) ++
          (match op { p with scratch := [] } (s.take n) with
            | .ok (_, _, .ok _) => block o []
            | _ => [])
        | _ => [])

/-- The trace of a method call on transformer number `o`. -/
def Spec.Method.trace (cfg : Cfg) (o : Nat) (p : Planner T) : Method T → List RefEv
  | .plain inv x => if inv then ifftTrace cfg o p x else fftTrace cfg o p x
  | .stockham x => stockhamTrace cfg (fftTrace cfg) o p x
  | .radix4 x => radix4Trace cfg o p x
  | .strategy st x => strategyTrace cfg st o p x
  | .split inv re im => splitTrace cfg inv o p re im
  | .strided inv x stride sc => stridedTrace (if inv then ifftTrace cfg else fftTrace cfg) o p x stride sc
  | .stridedAlloc inv x stride => stridedAllocTrace (if inv then ifftTrace cfg else fftTrace cfg) o p x stride
  | .oopStrided inv x si out so =>
    oopStridedTrace (if inv then ifft cfg else fft cfg) (if inv then ifftTrace cfg else fftTrace cfg) o p x si out so

end Kofft
