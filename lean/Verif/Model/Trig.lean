import Verif.Model.Rfft
/-
Cosine, sine and Hartley transforms: `src/dct.rs`, `src/dst.rs`, `src/hartley.rs`. The source is written for
`f32`; here for any element type. `i as f32` is read as `Flt.ofNat i`.
-/
namespace Kofft

variable {T : Type} [Flt T]

/-- `for (k, out) in output.iter_mut().enumerate() { *out = f(k) }`. -/
def fillOut (output : List T) (f : Nat → Outcome T) : Outcome (List T) :=
  forRange 0 output.length output fun k o => do
    let v ← f k
    wr o k v

/-- `let mut sum = init; for (i, &x) in input.iter().take(hi).enumerate().skip(lo) { sum += g(i, x) }`. -/
def accum (input : List T) (lo hi : Nat) (init : T) (g : Nat → T → T) : Outcome T :=
  forRange lo hi init fun i s => do
    let x ← rd input i
    pure (s +. g i x)

/-- `0.5`. -/
def half : T := Flt.lit 5 1
/-- `2.0`. -/
def two : T := Flt.lit 2 0

/-! ### DCT (`src/dct.rs`) -/

/-- One output of DCT-I (`src/dct.rs:117-127`): `n ≥ 2`. -/
def dct1At (input : List T) (k : Nat) : Outcome T := do
  let n := input.length
  let factor : T := Flt.pi /. (Flt.ofNat n -. Flt.one)
  let a ← rd input 0
  let b ← rd input (n - 1)
  accum input 1 (n - 1) (a +. (if k % 2 = 0 then b else -. b)) fun i x =>
    (two *. x) *. Flt.cos ((factor *. Flt.ofNat i) *. Flt.ofNat k)

/-- `src/dct.rs:108-131` `dct1`. -/
def dct1 (input : List T) : Outcome (List T) :=
  let n := input.length
  if n = 0 then .ok []
  else if n = 1 then do
    let a ← rd input 0
    pure [a *. two]
  else fillOut (List.replicate n Flt.zero) (dct1At input)

/-- One output of DCT-II (`src/dct.rs:139-143`). -/
def dct2At (input : List T) (k : Nat) : Outcome T :=
  let factor : T := Flt.pi /. Flt.ofNat input.length
  accum input 0 input.length Flt.zero fun i x =>
    x *. Flt.cos ((factor *. (Flt.ofNat i +. half)) *. Flt.ofNat k)

/-- `src/dct.rs:134-146` `dct2`. -/
def dct2 (input : List T) : Outcome (List T) :=
  fillOut (List.replicate input.length Flt.zero) (dct2At input)

/-- One output of DCT-III (`src/dct.rs:154-158`). -/
def dct3At (input : List T) (k : Nat) : Outcome T := do
  let factor : T := Flt.pi /. Flt.ofNat input.length
  let a ← rd input 0
  accum input 1 input.length (a /. two) fun i x =>
    x *. Flt.cos ((factor *. Flt.ofNat i) *. (Flt.ofNat k +. half))

/-- `src/dct.rs:149-161` `dct3`. -/
def dct3 (input : List T) : Outcome (List T) :=
  fillOut (List.replicate input.length Flt.zero) (dct3At input)

/-- One output of DCT-IV (`src/dct.rs:169-173`). -/
def dct4At (input : List T) (k : Nat) : Outcome T :=
  let factor : T := Flt.pi /. Flt.ofNat input.length
  accum input 0 input.length Flt.zero fun i x =>
    x *. Flt.cos ((factor *. (Flt.ofNat i +. half)) *. (Flt.ofNat k +. half))

/-- `src/dct.rs:164-176` `dct4`. -/
def dct4 (input : List T) : Outcome (List T) :=
  fillOut (List.replicate input.length Flt.zero) (dct4At input)

/-- `src/dct.rs:218-239` `dct1_inplace_stack`; `N` is the length of both arrays. Returns output, result. -/
def dct1Stack (input output : List T) : Outcome (List T × Res) :=
  let N := input.length
  if N < 2 ∨ N % 2 ≠ 0 ∨ isPow2 N = false then .ok (output, .error .NonPowerOfTwoNoStd)
  else do
    let factor : T := Flt.pi /. (Flt.ofNat N -. Flt.one)
    let o ← forRange 0 output.length output fun k o => do
      let a ← rd input 0
      let b ← rd input (N - 1)
      let sum ← forRange 1 (N - 1) (a +. (if k % 2 = 0 then b else -. b)) fun i s => do
        let x ← rd input i
        pure (s +. ((two *. x) *. Flt.cos ((factor *. Flt.ofNat i) *. Flt.ofNat k)))
      wr o k sum
    .ok (o, .ok ())

/-- The size check shared by `dct2_inplace_stack` and the DST stack functions (`src/dct.rs:248-250`,
`src/dst.rs:200-202`, `221-223`, `242-244`, `264-266`). -/
def stackSizeBad (N : Nat) : Bool := decide (N = 0 ∨ N % 2 ≠ 0 ∨ isPow2 N = false)

/-- `src/dct.rs:244-260` `dct2_inplace_stack`. -/
def dct2Stack (input output : List T) : Outcome (List T × Res) :=
  let N := input.length
  if stackSizeBad N then .ok (output, .error .NonPowerOfTwoNoStd)
  else do
    let factor : T := Flt.pi /. Flt.ofNat N
    let o ← forRange 0 output.length output fun k o => do
      let sum ← forRange 0 N (Flt.zero : T) fun i s => do
        let x ← rd input i
        pure (s +. (x *. Flt.cos ((factor *. (Flt.ofNat i +. half)) *. Flt.ofNat k)))
      wr o k sum
    .ok (o, .ok ())

/-- `for batch in batches.iter_mut() { let out = f(batch); batch.copy_from_slice(&out) }`
(`src/dct.rs:262-305`, `src/dst.rs:148-191`, `src/hartley.rs:47-57`); `copy_from_slice` panics when the lengths
differ. -/
def batchMap (f : List T → Outcome (List T)) : List (List T) → Outcome (List (List T))
  | [] => .ok []
  | x :: xs => do
    let out ← f x
    if out.length ≠ x.length then .panic
    else do
      let ys ← batchMap f xs
      pure (out :: ys)

/-! ### DCT planner (`src/dct.rs:16-104`) -/

/-- `src/dct.rs:22-30` `struct DctPlanner`. -/
structure DctPlanner (T : Type) where
  cache : Nat → Option (List T)
  rfft : RfftPlanner T
  buf : List T
  spectrum : List (Cx T)

/-- `src/dct.rs:39-47` `DctPlanner::new`. -/
def DctPlanner.new : Outcome (DctPlanner T) := do
  let rp ← RfftPlanner.new
  pure ⟨fun _ => none, rp, [], []⟩

/-- The table loop `src/dct.rs:52-55`. -/
def cosTable (n : Nat) : List T :=
  (List.range n).map fun k => Flt.cos ((Flt.pi *. Flt.ofNat k) /. (two *. Flt.ofNat n))

/-- `src/dct.rs:50-60` `get_cos_table`. -/
def DctPlanner.getCos (st : DctPlanner T) (n : Nat) : DctPlanner T × List T :=
  match st.cache n with
  | some t => (st, t)
  | none => ({ st with cache := mapInsert st.cache n (cosTable n) }, cosTable n)

/-- `src/dct.rs:64-93` `dct2_with_table`. Returns planner, output, result. -/
def DctPlanner.dct2WithTable (cfg : Cfg) (simd : Bool) (st : DctPlanner T) (input output cosT : List T) :
    Outcome (DctPlanner T × List T × Res) :=
  let n := input.length
  if output.length ≠ n then .ok (st, output, .error .MismatchedLengths)
  else do
    let m := 2 * n
    let all := grow st.buf m Flt.zero
    let buf ← forRange 0 n (all.take m) fun i b => do
      let x ← rd input i
      let b ← wr b i x
      wr b (m - 1 - i) x
    let allSpec := grow st.spectrum (n + 1) Cx.zero
    let (rp, _, spec, r) ← st.rfft.rfft simd (fft cfg) Planner.new buf (allSpec.take (n + 1))
    let st : DctPlanner T := ⟨st.cache, rp, buf ++ all.drop m, spec ++ allSpec.drop (n + 1)⟩
    match r with
    | .error e => .ok (st, output, .error e)
    | .ok _ => do
      let o ← forRange 0 n output fun k o => do
        let angle : T := (Flt.pi *. Flt.ofNat k) /. (two *. Flt.ofNat n)
        let c ← rd spec k
        let t ← rd cosT k
        wr o k (half *. ((c.re *. t) +. (c.im *. Flt.sin angle)))
      .ok (st, o, .ok ())

/-! ### DST (`src/dst.rs`) -/

/-- One output of DST-I (`src/dst.rs:94-98`). -/
def dst1At (input : List T) (k : Nat) : Outcome T :=
  let factor : T := Flt.pi /. (Flt.ofNat input.length +. Flt.one)
  accum input 0 input.length Flt.zero fun i x =>
    x *. Flt.sin (((Flt.ofNat i +. Flt.one) *. (Flt.ofNat k +. Flt.one)) *. factor)

/-- `src/dst.rs:89-101` `dst1`. -/
def dst1 (input : List T) : Outcome (List T) :=
  fillOut (List.replicate input.length Flt.zero) (dst1At input)

/-- One output of DST-II (`src/dst.rs:109-113`). -/
def dst2At (input : List T) (k : Nat) : Outcome T :=
  let factor : T := Flt.pi /. Flt.ofNat input.length
  accum input 0 input.length Flt.zero fun i x =>
    x *. Flt.sin ((factor *. (Flt.ofNat i +. half)) *. (Flt.ofNat k +. Flt.one))

/-- `src/dst.rs:104-116` `dst2`. -/
def dst2 (input : List T) : Outcome (List T) :=
  fillOut (List.replicate input.length Flt.zero) (dst2At input)

/-- One output of DST-III (`src/dst.rs:124-128`). -/
def dst3At (input : List T) (k : Nat) : Outcome T := do
  let factor : T := Flt.pi /. Flt.ofNat input.length
  let a ← rd input 0
  accum input 1 input.length (a /. two) fun i x =>
    x *. Flt.sin ((factor *. (Flt.ofNat k +. half)) *. Flt.ofNat i)

/-- `src/dst.rs:119-131` `dst3`. -/
def dst3 (input : List T) : Outcome (List T) :=
  fillOut (List.replicate input.length Flt.zero) (dst3At input)

/-- One output of DST-IV (`src/dst.rs:139-143`). -/
def dst4At (input : List T) (k : Nat) : Outcome T :=
  let factor : T := Flt.pi /. Flt.ofNat input.length
  accum input 0 input.length Flt.zero fun i x =>
    x *. Flt.sin ((factor *. (Flt.ofNat i +. half)) *. (Flt.ofNat k +. half))

/-- `src/dst.rs:134-146` `dst4`. -/
def dst4 (input : List T) : Outcome (List T) :=
  fillOut (List.replicate input.length Flt.zero) (dst4At input)

/-- `src/dst.rs:196-212` `dst2_inplace_stack`, `src/dst.rs:217-233` `dst2_inplace_stack_fft` (same body). -/
def dst2Stack (input output : List T) : Outcome (List T × Res) :=
  let N := input.length
  if stackSizeBad N then .ok (output, .error .NonPowerOfTwoNoStd)
  else do
    let factor : T := Flt.pi /. Flt.ofNat N
    let o ← forRange 0 output.length output fun k o => do
      let sum ← forRange 0 N (Flt.zero : T) fun i s => do
        let x ← rd input i
        pure (s +. (x *. Flt.sin ((factor *. (Flt.ofNat i +. half)) *. (Flt.ofNat k +. Flt.one))))
      wr o k sum
    .ok (o, .ok ())

/-- `src/dst.rs:238-255` `dst3_inplace_stack_fft`. -/
def dst3Stack (input output : List T) : Outcome (List T × Res) :=
  let N := input.length
  if stackSizeBad N then .ok (output, .error .NonPowerOfTwoNoStd)
  else do
    let factor : T := Flt.pi /. Flt.ofNat N
    let o ← forRange 0 output.length output fun k o => do
      let a ← rd input 0
      let sum ← forRange 1 N (a /. two) fun n s => do
        let x ← rd input n
        pure (s +. (x *. Flt.sin ((factor *. (Flt.ofNat k +. half)) *. Flt.ofNat n)))
      wr o k sum
    .ok (o, .ok ())

/-- `src/dst.rs:260-276` `dst4_inplace_stack`. -/
def dst4Stack (input output : List T) : Outcome (List T × Res) :=
  let N := input.length
  if stackSizeBad N then .ok (output, .error .NonPowerOfTwoNoStd)
  else do
    let factor : T := Flt.pi /. Flt.ofNat N
    let o ← forRange 0 output.length output fun k o => do
      let sum ← forRange 0 N (Flt.zero : T) fun i s => do
        let x ← rd input i
        pure (s +. (x *. Flt.sin ((factor *. (Flt.ofNat i +. half)) *. (Flt.ofNat k +. half))))
      wr o k sum
    .ok (o, .ok ())

/-- `src/dst.rs:41-50` `build_table_offset`. -/
def dstTable (n : Nat) (off : T) : List T :=
  (List.range n).map fun i => Flt.sin ((Flt.pi /. Flt.ofNat n) *. (Flt.ofNat i +. off))

/-- `src/dst.rs:18-28` `struct DstPlanner`. -/
structure DstPlanner (T : Type) where
  cache2 : Nat → Option (List T)
  cache3 : Nat → Option (List T)
  cache4 : Nat → Option (List T)
  scratch : List T

/-- `src/dst.rs:32-39` `DstPlanner::new`. -/
def DstPlanner.new : DstPlanner T := ⟨fun _ => none, fun _ => none, fun _ => none, []⟩

/-- `if !cache.contains_key(&n) { insert }; get` of the three plan functions (`src/dst.rs:52-77`). -/
def tableGet (c : Nat → Option (List T)) (n : Nat) (t : List T) : (Nat → Option (List T)) × List T :=
  match c n with
  | some v => (c, v)
  | none => (mapInsert c n t, t)

/-- `src/dst.rs:53-59` `plan_dst2`. -/
def DstPlanner.plan2 (st : DstPlanner T) (n : Nat) : DstPlanner T × List T :=
  let v := tableGet st.cache2 n (dstTable n half)
  ({ st with cache2 := v.1 }, v.2)

/-- `src/dst.rs:62-68` `plan_dst3` (offset `0.0`). -/
def DstPlanner.plan3 (st : DstPlanner T) (n : Nat) : DstPlanner T × List T :=
  let v := tableGet st.cache3 n (dstTable n Flt.zero)
  ({ st with cache3 := v.1 }, v.2)

/-- `src/dst.rs:71-77` `plan_dst4`. -/
def DstPlanner.plan4 (st : DstPlanner T) (n : Nat) : DstPlanner T × List T :=
  let v := tableGet st.cache4 n (dstTable n half)
  ({ st with cache4 := v.1 }, v.2)

/-- `src/dst.rs:80-85` `scratch`: the slice handed out (its contents are whatever was left there). -/
def DstPlanner.getScratch (st : DstPlanner T) (len : Nat) : DstPlanner T × List T :=
  let s := grow st.scratch len Flt.zero
  ({ st with scratch := s }, s.take len)

/-! ### DHT (`src/hartley.rs`) -/

/-- One output of the DHT (`src/hartley.rs:18-24`, `36-42`). -/
def dhtAt (input : List T) (k : Nat) : Outcome T :=
  let factor : T := (two *. Flt.pi) /. Flt.ofNat input.length
  accum input 0 input.length Flt.zero fun i x =>
    let angle := factor *. Flt.ofNat (i * k)
    x *. (Flt.cos angle +. Flt.sin angle)

/-- `src/hartley.rs:12-28`, `31-47` `dht` (both feature variants have the same body). -/
def dht (input : List T) : Outcome (List T) :=
  fillOut (List.replicate input.length Flt.zero) (dhtAt input)

end Kofft
