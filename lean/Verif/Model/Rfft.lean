import Verif.Model.Stack
/-
Real FFT: `src/rfft.rs`. The real input of the forward transform and the complex input of the inverse
are `&mut` in the source but never written; the model does not return them.
-/
namespace Kofft

variable {T : Type} [Flt T]

/-- A transform with state: `FftImpl::fft` / `FftImpl::ifft` of any implementation (`self` is `&self`
with interior mutability, so the state is threaded). `FftOp T` is the case of `ScalarFftImpl`. -/
abbrev StOp (S T : Type) := S → List (Cx T) → Outcome (S × List (Cx T) × Res)

/-- `src/rfft.rs:172-183` `build_twiddle_table`. -/
def rfftTable (m : Nat) : Outcome (List (Cx T)) := do
  let angle : T := (-. Flt.pi) /. Flt.ofNat m
  let w : Cx T := ⟨Flt.cos angle, Flt.sin angle⟩
  let r ← forRange 0 m (([] : List (Cx T)), (⟨Flt.one, Flt.zero⟩ : Cx T)) fun _ st =>
    pure (st.1 ++ [st.2], st.2.mul w)
  pure r.1

/-- `src/rfft.rs:194-201` `struct RfftPlanner`. -/
structure RfftPlanner (T : Type) where
  cache : Nat → Option (List (Cx T))
  packCache : Nat → Option (List (Cx T))
  scratch : List (Cx T)

/-- `HashMap::insert`. -/
def mapInsert {V : Type} (c : Nat → Option V) (k : Nat) (v : V) : Nat → Option V :=
  fun i => if i = k then some v else c i

/-- `if !cache.contains_key(&m) { cache.insert(m, build(m)) }; cache.get(&m).unwrap()`
(`src/rfft.rs:246-252`, `255-261`), also `entry(m).or_insert_with` (`src/rfft.rs:224-236`). -/
def cacheGet (c : Nat → Option (List (Cx T))) (m : Nat) :
    Outcome ((Nat → Option (List (Cx T))) × List (Cx T)) :=
  match c m with
  | some t => .ok (c, t)
  | none => do
    let t ← rfftTable m
    pure (mapInsert c m t, t)

/-- `src/rfft.rs:246-252` `RfftPlanner::get_twiddles`. -/
def RfftPlanner.getTwiddles (rp : RfftPlanner T) (m : Nat) : Outcome (RfftPlanner T × List (Cx T)) := do
  let (c, t) ← cacheGet rp.cache m
  pure ({ rp with cache := c }, t)

/-- `src/rfft.rs:255-261` `RfftPlanner::get_pack_twiddles`. -/
def RfftPlanner.getPackTwiddles (rp : RfftPlanner T) (m : Nat) :
    Outcome (RfftPlanner T × List (Cx T)) := do
  let (c, t) ← cacheGet rp.packCache m
  pure ({ rp with packCache := c }, t)

/-- `src/rfft.rs:214-243` `RfftPlanner::new`. The `compile-time-rfft` tables are empty constants
(`src/rfft.rs:164-169`), so loading them inserts nothing. -/
def RfftPlanner.new : Outcome (RfftPlanner T) :=
  [2, 4, 8, 16, 32, 64, 128, 256].foldlM
    (fun (rp : RfftPlanner T) m => do
      let (rp, _) ← rp.getTwiddles m
      let (rp, _) ← rp.getPackTwiddles m
      pure rp)
    ⟨fun _ => none, fun _ => none, []⟩

/-- The forward post-processing of one bin (`src/rfft.rs:454-463`, same text in `rfft_packed`
`src/rfft.rs:368-377`); `a = scratch[k]`, `c = scratch[m-k]`, `w = twiddles[k]`. -/
def rBin (w a c : Cx T) : Cx T :=
  let b : Cx T := ⟨c.re, -. c.im⟩
  let sum := a.add b
  let diff := a.sub b
  let t := w.mul diff
  let temp := sum.add ⟨t.im, -. t.re⟩
  ⟨temp.re *. Flt.lit 5 1, temp.im *. Flt.lit 5 1⟩

/-- The same in the AVX and NEON kernels (`src/rfft.rs:546-573`, `src/rfft.rs:678-705`): one lane. -/
def rBinSimd (w a c : Cx T) : Cx T :=
  let b : Cx T := ⟨c.re, -. c.im⟩
  let sumRe := a.re +. b.re
  let sumIm := a.im +. b.im
  let diffRe := a.re -. b.re
  let diffIm := a.im -. b.im
  let tRe := (diffRe *. w.re) -. (diffIm *. w.im)
  let tIm := (diffRe *. w.im) +. (diffIm *. w.re)
  let tempRe := sumRe +. tIm
  let tempIm := sumIm -. tRe
  ⟨tempRe *. Flt.lit 5 1, tempIm *. Flt.lit 5 1⟩

/-- The inverse pre-processing of one bin (`src/rfft.rs:492-501`, `src/rfft.rs:406-415`);
`a = input[k]`, `c = input[m-k]`, `tw = twiddles[k]`. -/
def irBin (tw a c : Cx T) : Cx T :=
  let b : Cx T := ⟨c.re, -. c.im⟩
  let sum := a.add b
  let diff := a.sub b
  let w : Cx T := ⟨tw.re, -. tw.im⟩
  let t := w.mul diff
  let temp := sum.sub ⟨t.im, -. t.re⟩
  ⟨temp.re *. Flt.lit 5 1, temp.im *. Flt.lit 5 1⟩

/-- The same in the AVX and NEON kernels (`src/rfft.rs:607-634`, `src/rfft.rs:739-766`). -/
def irBinSimd (tw a c : Cx T) : Cx T :=
  let b : Cx T := ⟨c.re, -. c.im⟩
  let sumRe := a.re +. b.re
  let sumIm := a.im +. b.im
  let diffRe := a.re -. b.re
  let diffIm := a.im -. b.im
  let w : Cx T := ⟨tw.re, -. tw.im⟩
  let tRe := (diffRe *. w.re) -. (diffIm *. w.im)
  let tIm := (diffRe *. w.im) +. (diffIm *. w.re)
  let tempRe := sumRe -. tIm
  let tempIm := sumIm +. tRe
  ⟨tempRe *. Flt.lit 5 1, tempIm *. Flt.lit 5 1⟩

/-- `for i in 0..m { dst[i] = Complex::new(input[2*i], input[2*i+1]) }`
(`src/rfft.rs:444-446`, `359-361`). -/
def packReal (input : List T) (m : Nat) (dst : List (Cx T)) : Outcome (List (Cx T)) :=
  forRange 0 m dst fun i d => do
    let a ← rd input (2 * i)
    let b ← rd input (2 * i + 1)
    wr d i ⟨a, b⟩

/-- `for i in 0..m { output[2*i] = scratch[i].re; output[2*i+1] = scratch[i].im }`
(`src/rfft.rs:503-506`, `417-420`). -/
def unpackReal (scratch : List (Cx T)) (m : Nat) (output : List T) : Outcome (List T) :=
  forRange 0 m output fun i o => do
    let c ← rd scratch i
    let o ← wr o (2 * i) c.re
    wr o (2 * i + 1) c.im

/-- `src/rfft.rs:425-465` `rfft_direct` (`bin = rBin`), and `rfft_direct_f32_avx`
(`src/rfft.rs:515-575`), `rfft_direct_f32_neon` (`src/rfft.rs:647-707`) with `bin = rBinSimd`; the pack
twiddles are not used. Returns transformer, output, scratch, result. -/
def rfftDirect {S : Type} (bin : Cx T → Cx T → Cx T → Cx T) (op : StOp S T) (s : S) (input : List T)
    (output scratch tw : List (Cx T)) : Outcome (S × List (Cx T) × List (Cx T) × Res) :=
  let n := input.length
  if n = 0 then .ok (s, output, scratch, .error .EmptyInput)
  else if n % 2 ≠ 0 then .ok (s, output, scratch, .error .InvalidValue)
  else
    let m := n / 2
    if output.length ≠ m + 1 ∨ scratch.length < m then
      .ok (s, output, scratch, .error .MismatchedLengths)
    else do
      let output ← packReal input m output
      let (s, y, r) ← op s (output.take m)
      let output := y ++ output.drop m
      match r with
      | .error e => .ok (s, output, scratch, .error e)
      | .ok _ => do
        let scratch := output.take m ++ scratch.drop m
        let y0 ← rd scratch 0
        let output ← wr output 0 ⟨y0.re +. y0.im, Flt.zero⟩
        let output ← wr output m ⟨y0.re -. y0.im, Flt.zero⟩
        let output ← forRange 1 m output fun k o => do
          let a ← rd scratch k
          let c ← rd scratch (m - k)
          let w ← rd tw k
          wr o k (bin w a c)
        .ok (s, output, scratch, .ok ())

/-- `src/rfft.rs:468-508` `irfft_direct` (`bin = irBin`), `irfft_direct_f32_avx`
(`src/rfft.rs:578-641`), `irfft_direct_f32_neon` (`src/rfft.rs:710-773`) with `bin = irBinSimd`.
Returns transformer, output, scratch, result. -/
def irfftDirect {S : Type} (bin : Cx T → Cx T → Cx T → Cx T) (op : StOp S T) (s : S)
    (input : List (Cx T)) (output : List T) (scratch tw : List (Cx T)) :
    Outcome (S × List T × List (Cx T) × Res) :=
  let n := output.length
  if n = 0 then .ok (s, output, scratch, .error .EmptyInput)
  else if n % 2 ≠ 0 then .ok (s, output, scratch, .error .InvalidValue)
  else
    let m := n / 2
    if input.length ≠ m + 1 ∨ scratch.length < m then
      .ok (s, output, scratch, .error .MismatchedLengths)
    else do
      let i0 ← rd input 0
      let im ← rd input m
      let scratch ← wr scratch 0 ⟨(i0.re +. im.re) *. Flt.lit 5 1, (i0.re -. im.re) *. Flt.lit 5 1⟩
      let scratch ← forRange 1 m scratch fun k sc => do
        let a ← rd input k
        let c ← rd input (m - k)
        let w ← rd tw k
        wr sc k (bin w a c)
      let (s, y, r) ← op s (scratch.take m)
      let scratch := y ++ scratch.drop m
      match r with
      | .error e => .ok (s, output, scratch, .error e)
      | .ok _ => do
        let output ← unpackReal scratch m output
        .ok (s, output, scratch, .ok ())

/-- `src/rfft.rs:341-379` `rfft_packed`. Returns planner, transformer, output, scratch, result. -/
def rfftPacked {S : Type} (rp : RfftPlanner T) (op : StOp S T) (s : S) (input : List T)
    (output scratch : List (Cx T)) :
    Outcome (RfftPlanner T × S × List (Cx T) × List (Cx T) × Res) :=
  let n := input.length
  if n = 0 then .ok (rp, s, output, scratch, .error .EmptyInput)
  else if n % 2 ≠ 0 then .ok (rp, s, output, scratch, .error .InvalidValue)
  else
    let m := n / 2
    if output.length ≠ m + 1 ∨ scratch.length < m then
      .ok (rp, s, output, scratch, .error .MismatchedLengths)
    else do
      let scratch ← packReal input m scratch
      let (s, y, r) ← op s (scratch.take m)
      let scratch := y ++ scratch.drop m
      match r with
      | .error e => .ok (rp, s, output, scratch, .error e)
      | .ok _ => do
        let y0 ← rd scratch 0
        let output ← wr output 0 ⟨y0.re +. y0.im, Flt.zero⟩
        let output ← wr output m ⟨y0.re -. y0.im, Flt.zero⟩
        let (rp, tw) ← rp.getTwiddles m
        let output ← forRange 1 m output fun k o => do
          let a ← rd scratch k
          let c ← rd scratch (m - k)
          let w ← rd tw k
          wr o k (rBin w a c)
        .ok (rp, s, output, scratch, .ok ())

/-- `src/rfft.rs:382-422` `irfft_packed`. Returns planner, transformer, output, scratch, result. -/
def irfftPacked {S : Type} (rp : RfftPlanner T) (op : StOp S T) (s : S) (input : List (Cx T))
    (output : List T) (scratch : List (Cx T)) :
    Outcome (RfftPlanner T × S × List T × List (Cx T) × Res) :=
  let n := output.length
  if n = 0 then .ok (rp, s, output, scratch, .error .EmptyInput)
  else if n % 2 ≠ 0 then .ok (rp, s, output, scratch, .error .InvalidValue)
  else
    let m := n / 2
    if input.length ≠ m + 1 ∨ scratch.length < m then
      .ok (rp, s, output, scratch, .error .MismatchedLengths)
    else do
      let i0 ← rd input 0
      let im ← rd input m
      let scratch ← wr scratch 0 ⟨(i0.re +. im.re) *. Flt.lit 5 1, (i0.re -. im.re) *. Flt.lit 5 1⟩
      let (rp, tw) ← rp.getTwiddles m
      let scratch ← forRange 1 m scratch fun k sc => do
        let a ← rd input k
        let c ← rd input (m - k)
        let w ← rd tw k
        wr sc k (irBin w a c)
      let (s, y, r) ← op s (scratch.take m)
      let scratch := y ++ scratch.drop m
      match r with
      | .error e => .ok (rp, s, output, scratch, .error e)
      | .ok _ => do
        let output ← unpackReal scratch m output
        .ok (rp, s, output, scratch, .ok ())

/-- `RealFftNum::rfft_with_scratch_impl` / `irfft_with_scratch_impl` (`src/rfft.rs:44-162`): the SIMD
kernel for `f32` when its cargo feature and architecture are on, the direct one otherwise. -/
def rBinOf (simd : Bool) : Cx T → Cx T → Cx T → Cx T := if simd then rBinSimd else rBin
/-- See `rBinOf` (`src/rfft.rs:92-131`, `155-162`). -/
def irBinOf (simd : Bool) : Cx T → Cx T → Cx T → Cx T := if simd then irBinSimd else irBin

/-- `src/rfft.rs:264-282` `RfftPlanner::rfft_with_scratch`.
Returns planner, transformer, output, scratch, result. -/
def RfftPlanner.rfftWithScratch {S : Type} (simd : Bool) (rp : RfftPlanner T) (op : StOp S T) (s : S)
    (input : List T) (output scratch : List (Cx T)) :
    Outcome (RfftPlanner T × S × List (Cx T) × List (Cx T) × Res) := do
  let m := input.length / 2
  let (rp, tw) ← rp.getTwiddles m
  let (rp, _) ← rp.getPackTwiddles m
  let (s, o, sc, r) ← rfftDirect (rBinOf simd) op s input output scratch tw
  pure (rp, s, o, sc, r)

/-- `src/rfft.rs:285-299` `RfftPlanner::rfft`. -/
def RfftPlanner.rfft {S : Type} (simd : Bool) (rp : RfftPlanner T) (op : StOp S T) (s : S)
    (input : List T) (output : List (Cx T)) : Outcome (RfftPlanner T × S × List (Cx T) × Res) := do
  let sl := input.length / 2
  let scratch := grow rp.scratch sl Cx.zero
  let (rp, s, o, sc, r) ←
    RfftPlanner.rfftWithScratch simd { rp with scratch := [] } op s input output (scratch.take sl)
  pure ({ rp with scratch := sc ++ scratch.drop sl }, s, o, r)

/-- `src/rfft.rs:302-320` `RfftPlanner::irfft_with_scratch`. -/
def RfftPlanner.irfftWithScratch {S : Type} (simd : Bool) (rp : RfftPlanner T) (op : StOp S T) (s : S)
    (input : List (Cx T)) (output : List T) (scratch : List (Cx T)) :
    Outcome (RfftPlanner T × S × List T × List (Cx T) × Res) := do
  let m := output.length / 2
  let (rp, tw) ← rp.getTwiddles m
  let (rp, _) ← rp.getPackTwiddles m
  let (s, o, sc, r) ← irfftDirect (irBinOf simd) op s input output scratch tw
  pure (rp, s, o, sc, r)

/-- `src/rfft.rs:323-337` `RfftPlanner::irfft`. -/
def RfftPlanner.irfft {S : Type} (simd : Bool) (rp : RfftPlanner T) (op : StOp S T) (s : S)
    (input : List (Cx T)) (output : List T) : Outcome (RfftPlanner T × S × List T × Res) := do
  let sl := output.length / 2
  let scratch := grow rp.scratch sl Cx.zero
  let (rp, s, o, sc, r) ←
    RfftPlanner.irfftWithScratch simd { rp with scratch := [] } op s input output (scratch.take sl)
  pure ({ rp with scratch := sc ++ scratch.drop sl }, s, o, r)

/-- `src/rfft.rs:780-788` `RealFftImpl::rfft_with_scratch`: a fresh planner each time.
Returns transformer, output, scratch, result. -/
def rfftWithScratch {S : Type} (simd : Bool) (op : StOp S T) (s : S)
    (input : List T) (output scratch : List (Cx T)) : Outcome (S × List (Cx T) × List (Cx T) × Res) := do
  let rp ← RfftPlanner.new
  let (_, s, o, sc, r) ← rp.rfftWithScratch simd op s input output scratch
  pure (s, o, sc, r)

/-- `src/rfft.rs:791-804` `RealFftImpl::rfft`. `uninit` is the uninitialised scratch memory: any
contents (its length is `input.len() / 2`). -/
def rfft {S : Type} (simd : Bool) (op : StOp S T) (uninit : Nat → Cx T) (s : S)
    (input : List T) (output : List (Cx T)) : Outcome (S × List (Cx T) × Res) := do
  let scratch := (List.range (input.length / 2)).map uninit
  let (s, o, _, r) ← rfftWithScratch simd op s input output scratch
  pure (s, o, r)

/-- `src/rfft.rs:809-817` `RealFftImpl::irfft_with_scratch`. -/
def irfftWithScratch {S : Type} (simd : Bool) (op : StOp S T) (s : S)
    (input : List (Cx T)) (output : List T) (scratch : List (Cx T)) :
    Outcome (S × List T × List (Cx T) × Res) := do
  let rp ← RfftPlanner.new
  let (_, s, o, sc, r) ← rp.irfftWithScratch simd op s input output scratch
  pure (s, o, sc, r)

/-- `src/rfft.rs:820-833` `RealFftImpl::irfft`. -/
def irfft {S : Type} (simd : Bool) (op : StOp S T) (uninit : Nat → Cx T) (s : S)
    (input : List (Cx T)) (output : List T) : Outcome (S × List T × Res) := do
  let scratch := (List.range (output.length / 2)).map uninit
  let (s, o, _, r) ← irfftWithScratch simd op s input output scratch
  pure (s, o, r)

/-- `src/rfft.rs:842-859` `rfft_stack`; `N = input.length`, `M = output.length`. -/
def rfftStack (input : List T) (output : List (Cx T)) : Outcome (List (Cx T) × Res) :=
  let N := input.length
  if N = 0 then .ok (output, .error .EmptyInput)
  else if output.length ≠ N / 2 + 1 then .ok (output, .error .MismatchedLengths)
  else do
    let buf : List (Cx T) := List.replicate N ⟨Flt.zero, Flt.zero⟩
    let buf := copyPrefix (input.map fun x => ⟨x, Flt.zero⟩) buf
    let (buf, r) ← fftStack buf
    match r with
    | .error e => .ok (output, .error e)
    | .ok _ =>
      -- `copy_from_slice` of two ranges of length `N/2+1`; `buf[..N/2+1]` panics if `N/2+1 > N`
      if N / 2 + 1 ≤ buf.length then
        .ok (buf.take (N / 2 + 1) ++ output.drop (N / 2 + 1), .ok ())
      else .panic

/-- `src/rfft.rs:864-884` `irfft_stack`; `M = input.length`, `N = output.length`. -/
def irfftStack (input : List (Cx T)) (output : List T) : Outcome (List T × Res) :=
  let N := output.length
  if N = 0 then .ok (output, .error .EmptyInput)
  else if input.length ≠ N / 2 + 1 then .ok (output, .error .MismatchedLengths)
  else do
    let buf : List (Cx T) := List.replicate N ⟨Flt.zero, Flt.zero⟩
    -- `buf[..N/2+1].copy_from_slice(&input[..N/2+1])`
    let buf ← wrN buf 0 (input.take (N / 2 + 1))
    let buf ← forRange 1 (N / 2) buf fun k b => do
      let c ← rd input k
      wr b (N - k) ⟨c.re, -. c.im⟩
    let (buf, r) ← ifftStack buf
    match r with
    | .error e => .ok (output, .error e)
    | .ok _ => .ok (copyPrefix (buf.map Cx.re) output, .ok ())

end Kofft
