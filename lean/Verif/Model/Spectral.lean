import Verif.Model.Trig
import Verif.Model.Fft
/-
`src/czt.rs`, `src/goertzel.rs`, `src/hilbert.rs`, `src/cepstrum.rs`. The source is written for `f32`;
here for any element type. Pairs `(f32, f32)` are read as `Cx T`. Loops `for &x in input` that only read
the elements in order are left folds.
-/
namespace Kofft
variable {T : Type} [Flt T]

/-! ### Chirp Z-transform -/

/-- `src/czt.rs:20-22`: `(a_inv_r, a_inv_i)`. -/
def cztAinv (a : Cx T) : Cx T :=
  let denom := (a.re *. a.re) +. (a.im *. a.im)
  ⟨if Flt.feq denom Flt.zero then Flt.zero else a.re /. denom,
   if Flt.feq denom Flt.zero then Flt.zero else (-. a.im) /. denom⟩

/-- `src/czt.rs:26-33`: the loop computing `w^k`. -/
def cztPow (w : Cx T) (k : Nat) : Cx T :=
  (List.range k).foldl (fun p _ => p.mulPlain w) ⟨Flt.one, Flt.zero⟩

/-- The mutable variables of the inner loop `src/czt.rs:34-51`: `out`, `wnk`, `a_pow`. -/
structure CztSt (T : Type) where
  out : Cx T
  wnk : Cx T
  apow : Cx T

/-- One iteration of the inner loop (`src/czt.rs:38-51`). -/
def cztStep (wk ainv : Cx T) (s : CztSt T) (x : T) : CztSt T :=
  let t := s.apow.mulPlain s.wnk
  { out := ⟨s.out.re +. (x *. t.re), s.out.im +. (x *. t.im)⟩
    wnk := s.wnk.mulPlain wk
    apow := s.apow.mulPlain ainv }

/-- One output bin (`src/czt.rs:24-52`). -/
def cztAt (input : List T) (w a : Cx T) (k : Nat) : Cx T :=
  (input.foldl (cztStep (cztPow w k) (cztAinv a))
    ⟨Cx.zero, ⟨Flt.one, Flt.zero⟩, ⟨Flt.one, Flt.zero⟩⟩).out

/-- `src/czt.rs:16-54` `czt_f32`. -/
def czt (input : List T) (m : Nat) (w a : Cx T) : List (Cx T) :=
  (List.range m).map (cztAt input w a)

/-! ### Goertzel -/

/-- One iteration of `src/goertzel.rs:30-34`; the pair is `(s_prev, s_prev2)`. -/
def goertzelStep (coeff : T) (s : T × T) (x : T) : T × T :=
  ((x +. (coeff *. s.1)) -. s.2, s.1)

/-- `src/goertzel.rs:23-26`: `coeff` for `n` samples. -/
def goertzelCoeff (len : Nat) (sampleRate targetFreq : T) : T :=
  let n : T := Flt.ofNat len
  let k := Flt.floor ((targetFreq *. n) /. sampleRate)
  let omega := ((two *. Flt.pi) *. k) /. n
  two *. Flt.cos omega

/-- `src/goertzel.rs:23-35`: `power`, the value under the square root. -/
def goertzelPower (input : List T) (sampleRate targetFreq : T) : T :=
  let coeff := goertzelCoeff input.length sampleRate targetFreq
  let s := input.foldl (goertzelStep coeff) (Flt.zero, Flt.zero)
  ((s.2 *. s.2) +. (s.1 *. s.1)) -. ((coeff *. s.1) *. s.2)

/-- `src/goertzel.rs:15-37` `goertzel_f32` (the `no_std` body `:39-60` is the same text up to the
name of the cosine). -/
def goertzel (input : List T) (sampleRate targetFreq : T) : Except FftError T :=
  if input.length = 0 then .error .EmptyInput
  else if Flt.le sampleRate Flt.zero then .error .InvalidValue
  else .ok (Flt.sqrt (goertzelPower input sampleRate targetFreq))

/-! ### Hilbert transform -/

/-- `for f in freq.iter_mut().take(hi).skip(lo) { f.re *= 2.0; f.im *= 2.0 }` (`src/hilbert.rs:28-31,36-39`). -/
def doubleRange (freq : List (Cx T)) (lo hi : Nat) : List (Cx T) :=
  freq.mapIdx fun i c => if lo ≤ i ∧ i < hi then ⟨c.re *. two, c.im *. two⟩ else c

/-- `for f in freq.iter_mut().take(hi).skip(lo) { *f = zero }` (`src/hilbert.rs:32-34,41-43`). -/
def zeroRange (freq : List (Cx T)) (lo hi : Nat) : List (Cx T) :=
  freq.mapIdx fun i c => if lo ≤ i ∧ i < hi then Cx.zero else c

/-- `src/hilbert.rs:27-44`: the spectrum update. -/
def hilbertMask (freq : List (Cx T)) : List (Cx T) :=
  let n := freq.length
  if n % 2 = 0 then zeroRange (doubleRange freq 1 (n / 2)) (n / 2 + 1) n
  else zeroRange (doubleRange freq 1 ((n - 1) / 2 + 1)) ((n + 1) / 2) n

/-- `src/hilbert.rs:13-47` `hilbert_analytic`. -/
def hilbertAnalytic (cfg : Cfg) (input : List T) : Outcome (Except FftError (List (Cx T))) :=
  if input.length = 0 then .ok (.error .EmptyInput)
  else if !isPow2 input.length then .ok (.error .NonPowerOfTwoNoStd)
  else do
    let freq : List (Cx T) := input.map fun x => ⟨x, Flt.zero⟩
    let (p, freq, r) ← fft cfg Planner.new freq
    match r with
    | .error e => .ok (.error e)
    | .ok _ => do
      let (_, freq, r) ← ifft cfg p (hilbertMask freq)
      match r with
      | .error e => .ok (.error e)
      | .ok _ => .ok (.ok freq)

/-! ### Cepstrum and mel filters -/

/-- `1e-12`. -/
def tiny : T := Flt.lit 1 12

/-- `src/cepstrum.rs:27-29`: the log magnitude of one bin. -/
def logMag (c : Cx T) : Cx T :=
  ⟨Flt.log (Flt.sqrt ((c.re *. c.re) +. (c.im *. c.im)) +. tiny), Flt.zero⟩

/-- `src/cepstrum.rs:12-34` `real_cepstrum`. -/
def realCepstrum (cfg : Cfg) (input : List T) : Outcome (Except FftError (List T)) :=
  if input.length = 0 then .ok (.error .EmptyInput)
  else if !isPow2 input.length then .ok (.error .NonPowerOfTwoNoStd)
  else do
    let freq : List (Cx T) := input.map fun x => ⟨x, Flt.zero⟩
    let (p, freq, r) ← fft cfg Planner.new freq
    match r with
    | .error e => .ok (.error e)
    | .ok _ => do
      let (_, freq, r) ← ifft cfg p (freq.map logMag)
      match r with
      | .error e => .ok (.error e)
      | .ok _ => .ok (.ok (freq.map Cx.re))

/-- `src/cepstrum.rs:38-46`: the filter edge frequency number `i`. -/
def melPoint (sampleRate : T) (numFilters i : Nat) : T :=
  let fMin : T := Flt.zero
  let fMax := sampleRate /. two
  let c2595 : T := Flt.lit 2595 0
  let c700 : T := Flt.lit 700 0
  let melMin := c2595 *. Flt.log10 (Flt.one +. (fMin /. c700))
  let melMax := c2595 *. Flt.log10 (Flt.one +. (fMax /. c700))
  let mel := melMin +. (((melMax -. melMin) *. Flt.ofNat i) /. Flt.ofNat (numFilters + 1))
  c700 *. (Flt.pow (Flt.lit 10 0) (mel /. c2595) -. Flt.one)

/-- `src/cepstrum.rs:47-50`: the table `bins`. -/
def melBins (nFft : Nat) (sampleRate : T) (numFilters : Nat) : List Nat :=
  (List.range (numFilters + 2)).map fun i =>
    Flt.toNat (Flt.floor ((melPoint sampleRate numFilters i *. (Flt.ofNat nFft +. Flt.one)) /. sampleRate))

/-- One rising-slope step (`src/cepstrum.rs:58-60`). -/
def melRise (mags : List T) (lo mid k : Nat) (e : T) : T :=
  match mags[k]? with
  | some v => e +. ((Flt.ofNat (k - lo) /. Flt.ofNat (mid - lo)) *. v)
  | none => e

/-- One falling-slope step (`src/cepstrum.rs:63-65`). -/
def melFall (mags : List T) (mid hi k : Nat) (e : T) : T :=
  match mags[k]? with
  | some v => e +. ((Flt.ofNat (hi - k) /. Flt.ofNat (hi - mid)) *. v)
  | none => e

/-- One filter (`src/cepstrum.rs:52-67`), `m = m_idx + 1`. -/
def melEnergy (mags : List T) (bins : List Nat) (mIdx : Nat) : Outcome T := do
  let m := mIdx + 1
  let lo ← rd bins (m - 1)
  let mid ← rd bins m
  let hi ← rd bins (m + 1)
  if mid = lo ∨ hi = mid then pure Flt.zero
  else do
    let e ← forRange lo mid Flt.zero fun k e => pure (melRise mags lo mid k e)
    forRange mid hi e fun k e => pure (melFall mags mid hi k e)

/-- `src/cepstrum.rs:36-70` `mel_filterbank`. -/
def melFilterbank (mags : List T) (sampleRate : T) (numFilters : Nat) : Outcome (List T) :=
  fillOut (List.replicate numFilters Flt.zero) (melEnergy mags (melBins mags.length sampleRate numFilters))

/-- `src/cepstrum.rs:72-85` `mfcc`. -/
def mfcc (mags : List T) (sampleRate : T) (numMel numCoeffs : Nat) : Outcome (Except FftError (List T)) := do
  let mel ← melFilterbank mags sampleRate numMel
  if mel.length < numCoeffs then pure (.error .InvalidValue)
  else do
    let dct ← dct2 (mel.map fun x => Flt.log (x +. tiny))
    if numCoeffs ≤ dct.length then pure (.ok (dct.take numCoeffs)) else .panic

/-- `src/cepstrum.rs:88-98` `mfcc_batch`: `collect` into a `Result` stops at the first error. -/
def mfccBatch (sampleRate : T) (numMel numCoeffs : Nat) :
    List (List T) → Outcome (Except FftError (List (List T)))
  | [] => .ok (.ok [])
  | f :: fs => do
    match ← mfcc f sampleRate numMel numCoeffs with
    | .error e => pure (.error e)
    | .ok c =>
      match ← mfccBatch sampleRate numMel numCoeffs fs with
      | .error e => pure (.error e)
      | .ok cs => pure (.ok (c :: cs))

end Kofft
