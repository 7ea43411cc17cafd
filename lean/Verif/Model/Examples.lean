import Verif.Model.Trig
import Verif.Model.Stack
/-
`examples/dct_usage.rs` and the signal-processing pipeline of `examples/embedded_example.rs`. The other examples call
library functions on literals and print the results.
-/
namespace Kofft.Examples
variable {T : Type} [Flt T]

/-- `examples/dct_usage.rs:13-25` `dct2_naive`: `input.iter().enumerate()` as a fold over the positions. -/
def dct2Naive (input : List T) : List T :=
  let factor : T := Flt.pi /. Flt.ofNat input.length
  (List.range input.length).map fun k =>
    (input.zipIdx).foldl (fun s (v, i) => s +. (v *. Flt.cos ((factor *. (Flt.ofNat i +. half)) *. Flt.ofNat k))) Flt.zero

/-- `examples/dct_usage.rs:33-42` `Dct2Planner::new`: the table `cos_table[k][i]`. -/
def dct2Table (n : Nat) : List (List T) :=
  let factor : T := Flt.pi /. Flt.ofNat n
  (List.range n).map fun k => (List.range n).map fun i => Flt.cos ((factor *. (Flt.ofNat i +. half)) *. Flt.ofNat k)

/-- `examples/dct_usage.rs:44-55` `Dct2Planner::dct2`: rows zipped with the outputs, samples zipped with the entries of a
row. Outputs without a row keep their initial zero. -/
def dct2Planned (table : List (List T)) (input : List T) : List T :=
  (List.range input.length).map fun k =>
    match table[k]? with
    | some row => (input.zip row).foldl (fun s (v, c) => s +. (v *. c)) Flt.zero
    | none => Flt.zero

/-- `examples/embedded_example.rs:119-122`: bins 4 and above times `0.1`. -/
def attenuate (x : List (Cx T)) : List (Cx T) :=
  x.take 4 ++ (x.drop 4).map fun c => ⟨c.re *. Flt.lit 1 1, c.im *. Flt.lit 1 1⟩

/-- `examples/embedded_example.rs:111-113`: real parts times the window, as far as both reach. -/
def applyWindow (window : List T) (signal : List (Cx T)) : List (Cx T) :=
  signal.zipIdx.map fun (c, i) =>
    match window[i]? with
    | some w => ⟨c.re *. w, c.im⟩
    | none => c

/-- `examples/embedded_example.rs:110-128`: window, transform, attenuate, "Compute IFFT" (line 124), which is a second
`fft_inplace_stack`. Any length. -/
def pipeline (window : List T) (signal : List (Cx T)) : Outcome (List (Cx T)) := do
  let (signal, r) ← fftStack (applyWindow window signal)
  match r with
  | .error _ => .ok signal
  | .ok () => do
    let (signal, _) ← fftStack (attenuate signal)
    .ok signal

end Kofft.Examples
