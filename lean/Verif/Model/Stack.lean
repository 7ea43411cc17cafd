import Verif.Model.Api
/-
Stack-only transforms: `src/fft.rs:2193-2271`.
-/
namespace Kofft

variable {T : Type} [Flt T]

/-- One step of the running twiddle factor: `w_re = w_re.mul_add(cos, -(w_im*sin))`,
`w_im = w_im.mul_add(cos, tmp*sin)` (`src/fft.rs:2234-2236`). -/
def wRot (c s : T) (w : Cx T) : Cx T :=
  ⟨Flt.mulAdd w.re c (-. (w.im *. s)), Flt.mulAdd w.im c (w.re *. s)⟩

/-- One group of butterflies (`src/fft.rs:2225-2237`): state is the running factor and the buffer. -/
def ditGroup (len : Nat) (c s : T) (i : Nat) (x : List (Cx T)) : Outcome (List (Cx T)) := do
  let r ← forRange 0 (len / 2) ((⟨Flt.one, Flt.zero⟩ : Cx T), x) fun j st => do
    let u ← rd st.2 (i + j)
    let b ← rd st.2 (i + j + len / 2)
    let v := b.mul st.1
    let y ← wr st.2 (i + j) (u.add v)
    let y ← wr y (i + j + len / 2) (u.sub v)
    pure (wRot c s st.1, y)
  pure r.2

/-- `src/fft.rs:2197-2244` `fft_inplace_stack` (f32 only). `N.count_ones() != 1` is read as "not a power of
two". -/
def fftStack (x : List (Cx T)) : Outcome (List (Cx T) × Res) :=
  let n := x.length
  if n = 0 then .ok (x, .error .EmptyInput)
  else if n = 1 then .ok (x, .ok ())
  else if !isPow2 n then .ok (x, .error .NonPowerOfTwoNoStd)
  else do
    let x ← revLoop 1 x
    let s ← whileF (n + 1) (fun s : Nat × List (Cx T) => decide (s.1 ≤ n))
      (fun s => do
        let ang : T := ((-. Flt.lit 2 0) *. Flt.pi) /. Flt.ofNat s.1
        let y ← stepLoop n s.1 s.2 (ditGroup s.1 (Flt.cos ang) (Flt.sin ang))
        pure (s.1 * 2, y)) (2, x)
    .ok (s.2, .ok ())

/-- `src/fft.rs:2247-2271` `ifft_inplace_stack`. -/
def ifftStack (x : List (Cx T)) : Outcome (List (Cx T) × Res) :=
  let n := x.length
  if n = 0 then .ok (x, .error .EmptyInput)
  else if n = 1 then .ok (x, .ok ())
  else if !isPow2 n then .ok (x, .error .NonPowerOfTwoNoStd)
  else do
    let (y, r) ← fftStack (x.map Cx.conj)
    match r with
    | .error e => .ok (y, .error e)
    | .ok _ =>
      let scale : T := Flt.one /. Flt.ofNat n
      .ok (y.map (ifftPost scale), .ok ())

end Kofft
