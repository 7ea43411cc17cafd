import Verif.Model.Fft
/-
The rest of the scalar FFT interface: `trait FftImpl` defaults and the other methods of
`ScalarFftImpl` (`src/fft.rs:466-588`, `1175-1550`).
-/
namespace Kofft

variable {T : Type} [Flt T]

/-- `src/fft.rs:469-491` `fft_out_of_place` / `ifft_out_of_place`; `op` is `self.fft`/`self.ifft`.
Returns the planner, the output buffer and the result (the input is only borrowed). -/
def outOfPlace (op : FftOp T) (p : Planner T) (input output : List (Cx T)) :
    Outcome (Planner T × List (Cx T) × Res) :=
  if input.length ≠ output.length then .ok (p, output, .error .MismatchedLengths)
  else op p input

/-- `src/fft.rs:1444-1453` `fft_vec` / `ifft_vec`. -/
def opVec (op : FftOp T) (p : Planner T) (input : List (Cx T)) :
    Outcome (Planner T × Except FftError (List (Cx T))) := do
  let (p, out, r) ← op p input
  match r with
  | .error e => .ok (p, .error e)
  | .ok _ => .ok (p, .ok out)

/-- `for i in 0..n { dst[i] = src[i * stride] }` (`src/fft.rs:1191-1193`, `1254-1256`, ...). -/
def gather (src : List (Cx T)) (stride n : Nat) (dst : List (Cx T)) : Outcome (List (Cx T)) :=
  forRange 0 n dst fun i d => do
    let v ← rd src (i * stride)
    wr d i v

/-- `for i in 0..n { dst[i * stride] = src[i] }` (`src/fft.rs:1195-1197`, `1258-1260`, ...). -/
def scatter (src : List (Cx T)) (stride n : Nat) (dst : List (Cx T)) : Outcome (List (Cx T)) :=
  forRange 0 n dst fun i d => do
    let v ← rd src i
    wr d (i * stride) v

/-- `src/fft.rs:1175-1200` `fft_strided`, `src/fft.rs:1236-1260` `ifft_strided` (`op` = `self.fft`
or `self.ifft`). Returns planner, input, scratch, result. -/
def strided (op : FftOp T) (p : Planner T) (input : List (Cx T)) (stride : Nat)
    (scratch : List (Cx T)) : Outcome (Planner T × List (Cx T) × List (Cx T) × Res) :=
  if stride = 0 then .ok (p, input, scratch, .error .InvalidStride)
  else
    let n := scratch.length
    if n = 0 then .ok (p, input, scratch, .ok ())
    else if input.length < (n - 1) * stride + 1 then
      .ok (p, input, scratch, .error .MismatchedLengths)
    else do
      let scratch ← gather input stride n scratch
      let (p, scratch, r) ← op p scratch
      match r with
      | .error e => .ok (p, input, scratch, .error e)
      | .ok _ => do
        let input ← scatter scratch stride n input
        .ok (p, input, scratch, .ok ())

/-- `src/fft.rs:1201-1235` `fft_strided_alloc` / `ifft_strided_alloc` of `ScalarFftImpl`.
The planner's scratch vector is taken out (so it is empty during the inner call) and put back. -/
def stridedAlloc (op : FftOp T) (p : Planner T) (input : List (Cx T)) (stride : Nat) :
    Outcome (Planner T × List (Cx T) × Res) := do
  let n := if stride = 0 then 0 else input.length / stride
  let scratch := grow p.scratch n Cx.zero
  let p := { p with scratch := [] }
  let (p, input, s, r) ← strided op p input stride (scratch.take n)
  .ok ({ p with scratch := s ++ scratch.drop n }, input, r)

/-- `src/fft.rs:1261-1336` `fft_out_of_place_strided` / `ifft_out_of_place_strided`.
On an error of the inner transform the scratch vector is dropped. Returns planner, output, result. -/
def oopStrided (op : FftOp T) (p : Planner T) (input : List (Cx T)) (inStride : Nat)
    (output : List (Cx T)) (outStride : Nat) : Outcome (Planner T × List (Cx T) × Res) :=
  if inStride = 0 ∨ outStride = 0 then .ok (p, output, .error .InvalidStride)
  else if input.length % inStride ≠ 0 ∨ output.length % outStride ≠ 0 then
    .ok (p, output, .error .InvalidStride)
  else
    let n := input.length / inStride
    if output.length / outStride ≠ n then .ok (p, output, .error .MismatchedLengths)
    else do
      let scratch := grow p.scratch n Cx.zero
      let p := { p with scratch := [] }
      let scratch ← gather input inStride n scratch
      let (p, s, r) ← op p (scratch.take n)
      match r with
      | .error e => .ok (p, output, .error e)
      | .ok _ => do
        let output ← scatter s outStride n output
        .ok ({ p with scratch := s ++ scratch.drop n }, output, .ok ())

/-- `src/fft.rs:456-463` `enum FftStrategy`. -/
inductive Strategy
  | Radix2
  | Radix4
  | SplitRadix
  | Auto
  deriving Repr, DecidableEq

/-- `src/fft.rs:438-444` `plan_strategy`. -/
def planStrategy (n : Nat) : Strategy :=
  if isPow2 n && decide (n > 1) then .SplitRadix else .Auto

/-! ### `fft_radix4` (`src/fft.rs:1455-1548`) -/

/-- `slice::swap`. -/
def swapAt {α : Type} (l : List α) (i j : Nat) : Outcome (List α) := do
  let a ← rd l i
  let b ← rd l j
  let l ← wr l i b
  wr l j a

/-- The index update `bit = n >> sh; while j & bit != 0 { j ^= bit; bit >>= sh }; j ^= bit`
(`src/fft.rs:1465-1470` with `sh = 2`, `2211-2216` with `sh = 1`). -/
def revStep (sh n j : Nat) : Outcome Nat := do
  let s ← whileF (n + 2) (fun s : Nat × Nat => decide (s.1 &&& s.2 ≠ 0))
    (fun s => pure (s.1 ^^^ s.2, s.2 >>> sh)) (j, n >>> sh)
  pure (s.1 ^^^ s.2)

/-- The permutation loop (`src/fft.rs:1463-1474` with `sh = 2`, `2209-2220` with `sh = 1`). -/
def revLoop {α : Type} (sh : Nat) (x : List α) : Outcome (List α) := do
  let n := x.length
  let s ← forRange 1 n (0, x) fun i s => do
    let j ← revStep sh n s.1
    if i < j then do
      let x ← swapAt s.2 i j
      pure (j, x)
    else pure (j, s.2)
  pure s.2

/-- One radix-4 butterfly at offsets `i`, `i + q`, `i + h`, `i + 3 * q` with factors `w1 w2 w3`
(`src/fft.rs:1500-1508`, `1515-1523`, `1532-1540`). -/
def r4At (x : List (Cx T)) (b q h : Nat) (w1 w2 w3 : Cx T) : Outcome (List (Cx T)) := do
  let a0 ← rd x b
  let b0 ← rd x (b + q)
  let c0 ← rd x (b + h)
  let d0 ← rd x (b + 3 * q)
  let (x0, x1, x2, x3) := butterfly4 a0 (b0.mul w1) (c0.mul w2) (d0.mul w3)
  let x ← wr x b x0
  let x ← wr x (b + q) x1
  let x ← wr x (b + h) x2
  wr x (b + 3 * q) x3

/-- State of the inner loop of `fft_radix4`: `j`, the three running factors, the buffer. -/
structure R4St (T : Type) where
  j : Nat
  w1 : Cx T
  w2 : Cx T
  w3 : Cx T
  x : List (Cx T)

/-- One group of a radix-4 pass with `len > 4` (`src/fft.rs:1495-1541`), unrolled by two. -/
def r4Group (len i : Nat) (s1 s2 s3 : Cx T) (x : List (Cx T)) : Outcome (List (Cx T)) := do
  let q := len / 4
  let one : Cx T := ⟨Flt.one, Flt.zero⟩
  let s ← whileF (q + 1) (fun s : R4St T => decide (s.j + 1 < q))
    (fun s => do
      let x ← r4At s.x (i + s.j) q (len / 2) s.w1 s.w2 s.w3
      let w1 := s.w1.mul s1
      let w2 := s.w2.mul s2
      let w3 := s.w3.mul s3
      let x ← r4At x (i + (s.j + 1)) q (len / 2) w1 w2 w3
      pure { j := s.j + 2, w1 := w1.mul s1, w2 := w2.mul s2, w3 := w3.mul s3, x := x })
    { j := 0, w1 := one, w2 := one, w3 := one, x := x }
  if s.j < q then r4At s.x (i + s.j) q (len / 2) s.w1 s.w2 s.w3 else pure s.x

/-- One group of the first pass, `len == 4` (`src/fft.rs:1478-1486`). -/
def r4First (i : Nat) (x : List (Cx T)) : Outcome (List (Cx T)) := do
  let a ← rd x i
  let b ← rd x (i + 1)
  let c ← rd x (i + 2)
  let d ← rd x (i + 3)
  let (x0, x1, x2, x3) := butterfly4 a b c d
  let x ← wr x i x0
  let x ← wr x (i + 1) x1
  let x ← wr x (i + 2) x2
  wr x (i + 3) x3

/-- `let mut i = 0; while i < n { f i; i += len }`. -/
def stepLoop {σ : Type} (n len : Nat) (s : σ) (f : Nat → σ → Outcome σ) : Outcome σ := do
  let r ← whileF (n + 1) (fun s : Nat × σ => decide (s.1 < n))
    (fun s => do
      let y ← f s.1 s.2
      pure (s.1 + len, y)) (0, s)
  pure r.2

/-- `src/fft.rs:1455-1548` `fft_radix4` (std only). -/
def fftRadix4 (cfg : Cfg) (p : Planner T) (x : List (Cx T)) :
    Outcome (Planner T × List (Cx T) × Res) :=
  let n := x.length
  if !isPow2 n || n.log2 % 2 ≠ 0 then fft cfg p x
  else do
    let x ← revLoop 2 x
    let s ← whileF (n + 1) (fun s : Nat × Planner T × List (Cx T) => decide (s.1 ≤ n))
      (fun s => do
        let (len, p, x) := s
        if len = 4 then do
          let x ← stepLoop n len x r4First
          pure (len * 4, p, x)
        else do
          let (p, tws) := p.getTwiddles cfg len
          let s1 ← rd tws 1
          let s2 ← rd tws 2
          let s3 ← rd tws 3
          let x ← stepLoop n len x fun i x => r4Group len i s1 s2 s3 x
          pure (len * 4, p, x))
      (4, p, x)
    .ok (s.2.1, s.2.2, .ok ())

/-- `src/fft.rs:1337-1364` `fft_with_strategy`. -/
def fftWithStrategy (cfg : Cfg) (st : Strategy) (p : Planner T) (x : List (Cx T)) :
    Outcome (Planner T × List (Cx T) × Res) :=
  let n := x.length
  if n = 0 then .ok (p, x, .error .EmptyInput)
  else if n = 1 then .ok (p, x, .ok ())
  else
    let chosen := if st = .Auto then planStrategy n else st
    match chosen with
    | .Radix2 => fft cfg p x
    | .Radix4 => if cfg.std then fftRadix4 cfg p x else fft cfg p x
    | .SplitRadix => stockhamFft cfg p x
    | .Auto => fft cfg p x

/-! ### Split-complex interface (`src/fft.rs:1365-1440`) -/

/-- The interleave / transform / de-interleave body shared by the trait defaults
(`src/fft.rs:554-587`) and the generic tail of `ScalarFftImpl` (`src/fft.rs:1383-1391`,
`1430-1438`). `re[i]`, `im[i]` with `i < re.len()`. -/
def splitVia (op : FftOp T) (p : Planner T) (re im : List T) :
    Outcome (Planner T × List T × List T × Res) := do
  let n := re.length
  let buf ← forRange 0 n ([] : List (Cx T)) fun i b => do
    let r ← rd re i
    let m ← rd im i
    pure (b ++ [⟨r, m⟩])
  let (p, buf, r) ← op p buf
  match r with
  | .error e => .ok (p, re, im, .error e)
  | .ok _ => do
    let (re, im) ← forRange 0 n (re, im) fun i s => do
      let c ← rd buf i
      let re ← wr s.1 i c.re
      let im ← wr s.2 i c.im
      pure (re, im)
    pure (p, re, im, .ok ())

/-- `src/fft.rs:554-587` default `fft_split` / `ifft_split` of the trait. -/
def splitDefault (op : FftOp T) (p : Planner T) (re im : List T) :
    Outcome (Planner T × List T × List T × Res) :=
  if re.length ≠ im.length then .ok (p, re, im, .error .MismatchedLengths)
  else splitVia op p re im

/-- `src/fft.rs:1365-1392` `ScalarFftImpl::fft_split`. -/
def fftSplit (cfg : Cfg) (p : Planner T) (re im : List T) :
    Outcome (Planner T × List T × List T × Res) :=
  if re.length ≠ im.length then .ok (p, re, im, .error .MismatchedLengths)
  else if cfg.kind = .f32 ∨ cfg.kind = .f64 then splitSimd cfg (fft cfg) p re im
  else splitVia (fft cfg) p re im

/-- `src/fft.rs:1393-1440` `ScalarFftImpl::ifft_split`. For f32/f64 the imaginary part is negated
first and stays negated when the inner transform reports an error. -/
def ifftSplit (cfg : Cfg) (p : Planner T) (re im : List T) :
    Outcome (Planner T × List T × List T × Res) :=
  if re.length ≠ im.length then .ok (p, re, im, .error .MismatchedLengths)
  else if cfg.kind = .f32 ∨ cfg.kind = .f64 then do
    let im := im.map Flt.neg
    let (p, re, im, r) ← splitSimd cfg (fft cfg) p re im
    match r with
    | .error e => .ok (p, re, im, .error e)
    | .ok _ =>
      let scale : T := Flt.one /. Flt.ofNatD re.length
      .ok (p, re.map (· *. scale), im.map (fun i => (-. i) *. scale), .ok ())
  else splitVia (ifft cfg) p re im

end Kofft
