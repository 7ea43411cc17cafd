import Verif.Model.Api
/-
Plans, mixed radix, SIMD back ends, batches: `src/fft.rs:1551-2191`.
-/
namespace Kofft

variable {T : Type} [Flt T]

/-! ### `TwiddleFactorBuffer` (`src/fft.rs:1551-1571`) -/

/-- `src/fft.rs:1553-1556` `struct TwiddleFactorBuffer`. -/
structure TwBuf (T : Type) where
  n : Nat
  tw : List (Cx T)

/-- `src/fft.rs:1560-1567` `TwiddleFactorBuffer::new`. -/
def TwBuf.new (n : Nat) : TwBuf T where
  n := n
  tw := (List.range (n / 2)).map fun k =>
    Cx.expi ((((-. Flt.lit 2 0) *. Flt.pi) *. Flt.ofNat k) /. Flt.ofNat n)

/-- `src/fft.rs:1568-1570` `TwiddleFactorBuffer::get`: remainder by zero panics. -/
def TwBuf.get (b : TwBuf T) (k : Nat) : Outcome (Cx T) :=
  if b.n / 2 = 0 then .panic else rd b.tw (k % (b.n / 2))

/-! ### `factorize` (`src/fft.rs:1573-1593`) -/

/-- `while n.is_multiple_of(p) { factors.push(p); n /= p }` (`src/fft.rs:1576-1579`, `1583-1586`);
state: factors so far, remaining `n`. -/
def divLoop (fuel p : Nat) (s : List Nat × Nat) : Outcome (List Nat × Nat) :=
  whileF fuel (fun s : List Nat × Nat => decide (s.2 % p = 0))
    (fun s => pure (s.1 ++ [p], s.2 / p)) s

/-- `src/fft.rs:1573-1593` `factorize`, every loop limited to `fuel` iterations. -/
def factorizeF (fuel n : Nat) : Outcome (List Nat) := do
  let s ← divLoop fuel 2 ([], n)
  let s ← divLoop fuel 3 s
  let s ← divLoop fuel 5 s
  let r ← whileF fuel (fun s : Nat × (List Nat × Nat) => decide (s.1 * s.1 ≤ s.2.2))
    (fun s => do
      let t ← divLoop fuel s.1 s.2
      pure (s.1 + 2, t)) (7, s)
  pure (if r.2.2 > 1 then r.2.1 ++ [r.2.2] else r.2.1)

/-- `factorize` with enough fuel for every `n ≥ 1` (proved). -/
def factorize (n : Nat) : Outcome (List Nat) := factorizeF (n + 2) n

/-- `src/fft.rs:1642-1660` `fft_radix2_with_twiddles`, `fft_radix4_with_twiddles`: the table is
ignored. -/
def fftRadixTw (cfg : Cfg) (_tw : TwBuf T) (p : Planner T) (x : List (Cx T)) :
    Outcome (Planner T × List (Cx T) × Res) := stockhamFft cfg p x

/-- `src/fft.rs:1661-1679` `fft_mixed_radix_with_twiddles`. -/
def fftMixedTw (cfg : Cfg) (tw : TwBuf T) (p : Planner T) (x : List (Cx T)) :
    Outcome (Planner T × List (Cx T) × Res) := do
  let fs ← factorize x.length
  if fs.all (fun f => f == 2 || f == 4) then
    if fs.all (fun f => f == 4) then fftRadixTw cfg tw p x else fftRadixTw cfg tw p x
  else fft cfg p x

/-- `src/fft.rs:1680-1707` `fft_mixed_radix`. -/
def fftMixed (cfg : Cfg) (p : Planner T) (x : List (Cx T)) :
    Outcome (Planner T × List (Cx T) × Res) :=
  let n := x.length
  if n = 0 then .ok (p, x, .error .EmptyInput)
  else if n = 1 then .ok (p, x, .ok ())
  else do
    let fs ← factorize n
    if fs.all (fun f => f == 2 || f == 4) then
      if cfg.std then
        if fs.all (fun f => f == 4) then fftRadix4 cfg p x else stockhamFft cfg p x
      else stockhamFft cfg p x
    else fft cfg p x

/-! ### SIMD back ends (`src/fft.rs:1714-1985`) -/

/-- `src/fft.rs:1714-1951`: the scalar transformer, or one of the stateless SIMD structs
(`SimdFftX86_64Impl`, `SimdFftAarch64Impl`, `SimdFftWasmImpl`, whose bodies are identical);
`feat`: was the vector target feature enabled at compile time. -/
inductive Backend
  | scalar
  | simd (feat : Bool)
  deriving Repr, DecidableEq

/-- `src/fft.rs:1730-1744`, `1808-1822`, `1886-1900` `fft` of the back ends. The SIMD structs create
a transformer per call, so their state is not threaded. -/
def Backend.fft (cfg : Cfg) (b : Backend) (p : Planner T) (x : List (Cx T)) :
    Outcome (Planner T × List (Cx T) × Res) :=
  match b with
  | .scalar => Kofft.fft cfg p x
  | .simd true => do
    let r ← stockhamFft cfg Planner.new x
    pure (p, r.2.1, r.2.2)
  | .simd false => do
    let r ← if isPow2 x.length then stockhamFft cfg Planner.new x else Kofft.fft cfg Planner.new x
    pure (p, r.2.1, r.2.2)

/-- `src/fft.rs:1745-1747`, `1823-1825`, `1901-1903` `ifft` of the back ends. -/
def Backend.ifft (cfg : Cfg) (b : Backend) (p : Planner T) (x : List (Cx T)) :
    Outcome (Planner T × List (Cx T) × Res) :=
  match b with
  | .scalar => Kofft.ifft cfg p x
  | .simd _ => do
    let r ← Kofft.ifft cfg Planner.new x
    pure (p, r.2.1, r.2.2)

/-- `fft_split` of the back ends: `src/fft.rs:1365-1392` for the scalar one; the SIMD structs do not override the default of the
trait (`src/fft.rs:556-570`). -/
def Backend.fftSplit (cfg : Cfg) (b : Backend) (p : Planner T) (re im : List T) :
    Outcome (Planner T × List T × List T × Res) :=
  match b with
  | .scalar => Kofft.fftSplit cfg p re im
  | .simd _ => splitDefault (b.fft cfg) p re im

/-- `ifft_split` of the back ends: `src/fft.rs:1393-1440`, default `src/fft.rs:572-586`. -/
def Backend.ifftSplit (cfg : Cfg) (b : Backend) (p : Planner T) (re im : List T) :
    Outcome (Planner T × List T × List T × Res) :=
  match b with
  | .scalar => Kofft.ifftSplit cfg p re im
  | .simd _ => splitDefault (b.ifft cfg) p re im

/-- `src/fft.rs:1748-1763`, `1826-1841`, `1904-1919` `fft_strided` (`inv = false`) and `ifft_strided` of the back ends: the SIMD
structs create a scalar transformer per call. -/
def Backend.strided (cfg : Cfg) (b : Backend) (inv : Bool) (p : Planner T) (x : List (Cx T)) (stride : Nat)
    (sc : List (Cx T)) : Outcome (Planner T × List (Cx T) × List (Cx T) × Res) :=
  let op := if inv then Kofft.ifft cfg else Kofft.fft cfg
  match b with
  | .scalar => Kofft.strided op p x stride sc
  | .simd _ => do
    let r ← Kofft.strided op Planner.new x stride sc
    pure (p, r.2.1, r.2.2.1, r.2.2.2)

/-- The trait's `fft_strided_alloc` and `ifft_strided_alloc` (`src/fft.rs:530-542`, `543-555`): the scratch buffer for the strided
transform is uninitialised memory, `uninit`. -/
def stridedAllocDefault {S : Type} (op : S → List (Cx T) → Nat → List (Cx T) → Outcome (S × List (Cx T) × List (Cx T) × Res))
    (uninit : Nat → Cx T) (s : S) (x : List (Cx T)) (stride : Nat) : Outcome (S × List (Cx T) × Res) := do
  let n := if stride = 0 then 0 else x.length / stride
  let (s, x, _, r) ← op s x stride ((List.range n).map uninit)
  pure (s, x, r)

/-- `fft_strided_alloc` and `ifft_strided_alloc` of the back ends: `src/fft.rs:1201-1235` for the scalar one; the SIMD structs do
not override the default of the trait. -/
def Backend.stridedAlloc (cfg : Cfg) (b : Backend) (inv : Bool) (uninit : Nat → Cx T) (p : Planner T) (x : List (Cx T))
    (stride : Nat) : Outcome (Planner T × List (Cx T) × Res) :=
  match b with
  | .scalar => Kofft.stridedAlloc (if inv then Kofft.ifft cfg else Kofft.fft cfg) p x stride
  | .simd _ => stridedAllocDefault (b.strided cfg inv) uninit p x stride

/-- `src/fft.rs:1764-1783`, `1842-1861`, `1920-1939` `fft_out_of_place_strided` and its inverse. -/
def Backend.oopStrided (cfg : Cfg) (b : Backend) (inv : Bool) (p : Planner T) (x : List (Cx T)) (si : Nat)
    (o : List (Cx T)) (so : Nat) : Outcome (Planner T × List (Cx T) × Res) :=
  let op := if inv then Kofft.ifft cfg else Kofft.fft cfg
  match b with
  | .scalar => Kofft.oopStrided op p x si o so
  | .simd _ => do
    let r ← Kofft.oopStrided op Planner.new x si o so
    pure (p, r.2.1, r.2.2)

/-- `src/fft.rs:1784-1790`, `1862-1868`, `1940-1946` `fft_with_strategy`. -/
def Backend.fftWithStrategy (cfg : Cfg) (b : Backend) (st : Strategy) (p : Planner T) (x : List (Cx T)) :
    Outcome (Planner T × List (Cx T) × Res) :=
  match b with
  | .scalar => Kofft.fftWithStrategy cfg st p x
  | .simd _ => do
    let r ← Kofft.fftWithStrategy cfg st Planner.new x
    pure (p, r.2.1, r.2.2)

/-- Build target and run-time detection, as far as `new_fft_impl` looks at them. -/
structure Target where
  arch : String
  std : Bool
  avx512Feature : Bool
  detAvx512 : Bool
  detAvx2 : Bool
  detFma : Bool
  detSse2 : Bool
  detNeon : Bool
  /-- compile-time `target_feature`: avx2/avx512f, neon, simd128 respectively -/
  vec : Bool

/-- `src/fft.rs:1954-1985` `new_fft_impl`. -/
def newFftImpl (t : Target) : Backend :=
  if t.arch = "x86_64" ∧ t.std = true ∧
      ((t.avx512Feature = true ∧ t.detAvx512 = true) ∨ (t.detAvx2 = true ∧ t.detFma = true) ∨
        t.detSse2 = true) then .simd t.vec
  else if t.arch = "aarch64" ∧ t.std = true ∧ t.detNeon = true then .simd t.vec
  else if t.arch = "aarch64" ∧ t.std = false ∧ t.vec = true then .simd t.vec
  else if t.arch = "wasm32" ∧ t.vec = true then .simd t.vec
  else .scalar

/-! ### `FftPlan` (`src/fft.rs:1989-2117`) -/

/-- `src/fft.rs:1990-1995` `struct FftPlan`. -/
structure Plan (T : Type) where
  n : Nat
  strategy : Strategy
  twiddles : Option (TwBuf T)
  planner : Planner T

/-- `src/fft.rs:2000-2012` `FftPlan::new`. -/
def Plan.new (cfg : Cfg) (n : Nat) (st : Strategy) : Plan T where
  n := n
  strategy := st
  twiddles := if cfg.kind = .f32 then some (TwBuf.new n) else none
  planner := Planner.new

/-- `src/fft.rs:2014-2039` `FftPlan::fft`. -/
def Plan.fft (cfg : Cfg) (pl : Plan T) (x : List (Cx T)) : Outcome (Plan T × List (Cx T) × Res) :=
  if x.length ≠ pl.n then .ok (pl, x, .error .MismatchedLengths)
  else
    let slow := do
      let r ← fftWithStrategy cfg pl.strategy pl.planner x
      pure ({ pl with planner := r.1 }, r.2.1, r.2.2)
    if cfg.kind = .f32 then
      match pl.strategy, pl.twiddles with
      | .Radix2, some tw => do
        let r ← fftRadixTw cfg tw Planner.new x
        pure (pl, r.2.1, r.2.2)
      | .Radix4, some tw => do
        let r ← fftRadixTw cfg tw Planner.new x
        pure (pl, r.2.1, r.2.2)
      | _, _ => slow
    else slow

/-- `src/fft.rs:2041-2056` `FftPlan::ifft`. -/
def Plan.ifft (cfg : Cfg) (pl : Plan T) (x : List (Cx T)) : Outcome (Plan T × List (Cx T) × Res) :=
  if x.length ≠ pl.n then .ok (pl, x, .error .MismatchedLengths)
  else do
    let x := x.map Cx.conj
    let (pl, y, r) ← pl.fft cfg x
    match r with
    | .error e => .ok (pl, y, .error e)
    | .ok _ =>
      let scale : T := Flt.one /. Flt.ofNat pl.n
      .ok (pl, y.map (ifftPost scale), .ok ())

/-- `src/fft.rs:2058-2080` `FftPlan::fft_out_of_place` / `ifft_out_of_place`. -/
def Plan.outOfPlace (op : Plan T → List (Cx T) → Outcome (Plan T × List (Cx T) × Res))
    (pl : Plan T) (x o : List (Cx T)) : Outcome (Plan T × List (Cx T) × Res) :=
  if x.length ≠ pl.n ∨ o.length ≠ pl.n then .ok (pl, o, .error .MismatchedLengths)
  else op pl x

/-- `src/fft.rs:2082-2094` `FftPlan::fft_split` / `ifft_split`; also `fft_complex_vec` /
`ifft_complex_vec` (`src/fft.rs:2096-2117`), which compare only the length of `re` with `n` and leave it to `fft_split` to refuse vectors of
different lengths, with the same error. -/
def Plan.split (op : Planner T → List T → List T → Outcome (Planner T × List T × List T × Res))
    (pl : Plan T) (re im : List T) : Outcome (Plan T × List T × List T × Res) :=
  if re.length ≠ pl.n ∨ im.length ≠ pl.n then .ok (pl, re, im, .error .MismatchedLengths)
  else do
    let (p, re, im, r) ← op pl.planner re im
    .ok ({ pl with planner := p }, re, im, r)

/-! ### Batches (`src/fft.rs:2156-2191`) -/

/-- `src/fft.rs:2156-2165` `batch`, `2167-2176` `batch_inverse`; `multi_channel` and
`multi_channel_inverse` (`2178-2191`) call them. Stops at the first error. -/
def batch (op : FftOp T) : Planner T → List (List (Cx T)) →
    Outcome (Planner T × List (List (Cx T)) × Res)
  | p, [] => .ok (p, [], .ok ())
  | p, x :: xs => do
    let (p, y, r) ← op p x
    match r with
    | .error e => .ok (p, y :: xs, .error e)
    | .ok _ => do
      let (p, ys, r) ← batch op p xs
      .ok (p, y :: ys, r)

end Kofft
