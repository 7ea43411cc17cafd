import Verif.Model.Readme
import Mathlib.Data.String.Basic
import Mathlib.Algebra.Order.Field.Basic
import Mathlib.Data.Prod.Lex
/-
What happens to the results of a benchmark run: `save_results` (`kofft-bench/benches/bench_fft.rs:69-101`, `439-542`) and the
program that puts them into a README (`kofft-bench/examples/update_bench_readme.rs`).

Measured times are elements of an ordered field `K` (they are finite: a duration divided by a positive number of iterations);
`none` stands for an `f64` that is infinite or not a number. JSON is modelled as values: `print`ing and `parse`ing text is a
parameter. Strings that describe the machine are parameters. A `#[derive(Deserialize)]` structure is read from an object; that
`serde` also accepts an array of the fields in order is left out.
-/
namespace Kofft.Bench

/-- JSON values. Numbers written without and with a fraction are told apart, as `serde_json` does. -/
inductive Json (K : Type)
  | null
  | bool (b : Bool)
  | int (n : Nat)
  | num (x : K)
  | str (s : String)
  | arr (l : List (Json K))
  | obj (l : List (String × Json K))

/-- `BenchRecord` (`kofft-bench/benches/bench_fft.rs:71-85`). `change` is `some none` when the quotient is not a finite number. -/
structure Rec (K : Type) where
  library : String
  transform : String
  size : Nat
  mode : String
  time : K
  ops : Option K
  allocs : Nat
  peak : Nat
  prev : Option K
  change : Option (Option K)
  best : Bool

/-- `EnvInfo` (`kofft-bench/benches/bench_fft.rs:93-101`). -/
structure Env where
  cpu : String
  os : String
  rustc : String
  flags : String
  date : String
  runner : String

/-- `BenchFile` (`kofft-bench/benches/bench_fft.rs:87-91`). -/
structure File (K : Type) where
  env : Env
  results : List (Rec K)

variable {K : Type}

/-! ### Writing -/

/-- `serde_json` writes an `f64` that is not finite as `null`. -/
def encF : Option K → Json K
  | some x => .num x
  | none => .null

/-- `Serialize` of an optional field with `skip_serializing_if = "Option::is_none"`
(`kofft-bench/benches/bench_fft.rs:80-83`). -/
def encOpt (k : String) : Option (Json K) → List (String × Json K)
  | some j => [(k, j)]
  | none => []

/-- `Serialize` of `BenchRecord` (`kofft-bench/benches/bench_fft.rs:70-85`). -/
def encRec (r : Rec K) : Json K :=
  .obj ([("library", .str r.library), ("transform", .str r.transform), ("size", .int r.size), ("mode", .str r.mode),
    ("time_per_op_ns", .num r.time), ("ops_per_sec", encF r.ops), ("allocations", .int r.allocs), ("peak_bytes", .int r.peak)] ++
    encOpt "prev_time_per_op_ns" (r.prev.map .num) ++ encOpt "change_vs_prev" (r.change.map encF) ++
    [("best", .bool r.best)])

/-- `Serialize` of `EnvInfo` (`kofft-bench/benches/bench_fft.rs:93-101`). -/
def encEnv (e : Env) : Json K :=
  .obj [("cpu", .str e.cpu), ("os", .str e.os), ("rustc", .str e.rustc), ("flags", .str e.flags), ("date", .str e.date),
    ("runner", .str e.runner)]

/-- `Serialize` of `BenchFile` (`kofft-bench/benches/bench_fft.rs:87-91`). -/
def encFile (f : File K) : Json K := .obj [("env", encEnv f.env), ("results", .arr (f.results.map encRec))]

/-! ### Reading -/

/-- A required field: unknown keys are ignored, a missing or repeated key is an error. -/
def req {α : Type} (l : List (String × Json K)) (k : String) (d : Json K → Option α) : Option α :=
  match l.filter (fun p => p.1 == k) with
  | [p] => d p.2
  | _ => none

/-- A field of type `Option`: a missing key and `null` are `None`. -/
def opt {α : Type} (l : List (String × Json K)) (k : String) (d : Json K → Option α) : Option (Option α) :=
  match l.filter (fun p => p.1 == k) with
  | [] => some none
  | [(_, .null)] => some none
  | [p] => (d p.2).map some
  | _ => none

/-- Reading a `String`. -/
def decStr : Json K → Option String
  | .str s => some s
  | _ => none

/-- Reading a `usize`. -/
def decNat : Json K → Option Nat
  | .int n => some n
  | _ => none

/-- Reading an `f64`; whole numbers are accepted. -/
def decF [NatCast K] : Json K → Option K
  | .num x => some x
  | .int n => some n
  | _ => none

/-- Reading a `bool`. -/
def decBool : Json K → Option Bool
  | .bool b => some b
  | _ => none

/-- `Deserialize` of `BenchRecord` (`kofft-bench/benches/bench_fft.rs:70-85`). -/
def decRec [NatCast K] : Json K → Option (Rec K)
  | .obj l => do
    let library ← req l "library" decStr
    let transform ← req l "transform" decStr
    let size ← req l "size" decNat
    let mode ← req l "mode" decStr
    let time ← req l "time_per_op_ns" decF
    let ops ← req l "ops_per_sec" decF
    let allocs ← req l "allocations" decNat
    let peak ← req l "peak_bytes" decNat
    let prev ← opt l "prev_time_per_op_ns" decF
    let change ← opt l "change_vs_prev" decF
    let best ← req l "best" decBool
    some { library, transform, size, mode, time, ops := some ops, allocs, peak, prev, change := change.map some, best }
  | _ => none

/-- `Deserialize` of `EnvInfo` (`kofft-bench/benches/bench_fft.rs:93-101`). -/
def decEnv : Json K → Option Env
  | .obj l => do
    let cpu ← req l "cpu" decStr
    let os ← req l "os" decStr
    let rustc ← req l "rustc" decStr
    let flags ← req l "flags" decStr
    let date ← req l "date" decStr
    let runner ← req l "runner" decStr
    some { cpu, os, rustc, flags, date, runner }
  | _ => none

/-- `Deserialize` of a `Vec`. -/
def decList {α : Type} (d : Json K → Option α) : Json K → Option (List α)
  | .arr l => l.mapM d
  | _ => none

/-- `Deserialize` of `BenchFile` (`kofft-bench/benches/bench_fft.rs:87-91`). -/
def decFile [NatCast K] : Json K → Option (File K)
  | .obj l => do
    let env ← req l "env" decEnv
    let results ← req l "results" (decList decRec)
    some { env, results }
  | _ => none

/-! ### Preparing the report -/
section report
variable [Field K] [LinearOrder K]

/-- The record of a measurement (`kofft-bench/benches/bench_fft.rs:132-148` and the same lines of the other benchmarks): `t` is
the mean duration in seconds. `1.0 / t` is infinite when no time was measured. -/
def measured (library transform : String) (size : Nat) (mode : String) (t : K) (allocTotal iters peak : Nat) : Rec K :=
  { library, transform, size, mode, time := t * 1000000000, ops := if t = 0 then none else some (1 / t),
    allocs := allocTotal / iters, peak, prev := none, change := none, best := false }

/-- What identifies a measurement (`kofft-bench/benches/bench_fft.rs:477-485`). -/
def Rec.key (r : Rec K) : String × String × Nat × String := (r.library, r.transform, r.size, r.mode)

/-- `prev_map` (`kofft-bench/benches/bench_fft.rs:474-489`); `HashMap::insert` overwrites. -/
def prevMap (old : List (Rec K)) : String × String × Nat × String → Option K :=
  old.foldl (fun m r => fun k => if k = r.key then some r.time else m k) (fun _ => none)

/-- `kofft-bench/benches/bench_fft.rs:491-501`: the previous time and the change in percent. A division by zero gives no
finite number. -/
def fillPrev (m : String × String × Nat × String → Option K) (r : Rec K) : Rec K :=
  match m r.key with
  | some p => { r with prev := some p, change := some (if p = 0 then none else some ((p - r.time) / p * 100)) }
  | none => r

/-- `best_map` (`kofft-bench/benches/bench_fft.rs:503-510`). -/
def bestMap (rs : List (Rec K)) : String × Nat → Option K :=
  rs.foldl (fun m r =>
    let entry := (m (r.transform, r.size)).getD r.time
    let entry := if r.time < entry then r.time else entry
    fun k => if k = (r.transform, r.size) then some entry else m k) (fun _ => none)

/-- `kofft-bench/benches/bench_fft.rs:511-518`; `eps` is `f64::EPSILON`. -/
def markBest (eps : K) (m : String × Nat → Option K) (r : Rec K) : Rec K :=
  match m (r.transform, r.size) with
  | some b => if |r.time - b| < eps then { r with best := true } else r
  | none => r

/-- The order of the report (`kofft-bench/benches/bench_fft.rs:520-525`): by transform, then size, then time. -/
def recLe (a b : Rec K) : Bool :=
  if a.transform = b.transform then
    if a.size = b.size then decide (a.time ≤ b.time) else decide (a.size < b.size)
  else decide (a.transform < b.transform)

/-- The times of the previous run, if its file could be read (`kofft-bench/benches/bench_fft.rs:474-476`). -/
def oldTimes : Option (File K) → String × String × Nat × String → Option K
  | some f => prevMap f.results
  | none => fun _ => none

/-- The records that are written (`kofft-bench/benches/bench_fft.rs:473-525`), given those of the previous run, if they could
be read, and those measured in this one. `sort_by` is stable. -/
def report (eps : K) (old : Option (File K)) (rs : List (Rec K)) : List (Rec K) :=
  let rs := rs.map (fillPrev (oldTimes old))
  let rs := rs.map (markBest eps (bestMap rs))
  rs.mergeSort recLe

end report

/-! ### The files -/

/-- The two files, as far as they exist (`../benchmarks/latest.json` and `../benchmarks/previous.json`). -/
structure Disk where
  latest : Option (List Char)
  previous : Option (List Char)

/-- Writing and reading JSON text (`serde_json::to_string_pretty`, `from_slice`). -/
structure Codec (K : Type) where
  print : Json K → List Char
  parse : List Char → Option (Json K)

/-- `serde_json::from_slice::<BenchFile>(&fs::read(..)?)` (`kofft-bench/benches/bench_fft.rs:469-471`). -/
def Codec.read [NatCast K] (c : Codec K) (t : Option (List Char)) : Option (File K) :=
  t.bind fun t => (c.parse t).bind decFile

/-- The rotation (`kofft-bench/benches/bench_fft.rs:538-540`): the old results, if they could be read, are renamed; an error
(`ok = false`) is ignored. -/
def rotate (ok : Bool) (readable : Bool) (d : Disk) : Disk :=
  if readable && ok then { latest := none, previous := d.latest } else d

/-- The states of the disk that `save_results` goes through (`kofft-bench/benches/bench_fft.rs:437-542`), each of which may be
the last one if the machine or the process stops: nothing done; renamed; `fs::write` has emptied or created the file and
written some of the text. -/
inductive During [Field K] [LinearOrder K] (c : Codec K) (eps : K) (env : Env) (rs : List (Rec K)) (ok : Bool) (d : Disk) :
    Disk → Prop
  | start : During c eps env rs ok d d
  | renamed : During c eps env rs ok d (rotate ok (c.read d.latest).isSome d)
  | writing (t : List Char) :
      t <+: c.print (encFile { env, results := report eps (c.read d.latest) rs }) →
      During c eps env rs ok d { rotate ok (c.read d.latest).isSome d with latest := some t }

/-- The state of the disk after `save_results` has returned. -/
def saved [Field K] [LinearOrder K] (c : Codec K) (eps : K) (env : Env) (rs : List (Rec K)) (ok : Bool) (d : Disk) : Disk :=
  { rotate ok (c.read d.latest).isSome d with
    latest := some (c.print (encFile { env, results := report eps (c.read d.latest) rs })) }

/-- One run of the benchmark to its end, or until it is stopped inside `save_results`. -/
structure Run (K : Type) where
  env : Env
  results : List (Rec K)

/-- Any history of runs, each of which may stop at any point; the renames succeed. -/
inductive Runs [Field K] [LinearOrder K] (c : Codec K) (eps : K) : Disk → Disk → Prop
  | nil {d} : Runs c eps d d
  | snoc {d d' d''} (r : Run K) : Runs c eps d d' → During c eps r.env r.results true d' d'' → Runs c eps d d''

/-! ### The README -/

/-- `EnvInfo` of the updater (`kofft-bench/examples/update_bench_readme.rs:11-19`): its field for the operating system is called
`_os`, and so is the key it wants. -/
def decEnvU : Json K → Option Env
  | .obj l => do
    let cpu ← req l "cpu" decStr
    let os ← req l "_os" decStr
    let rustc ← req l "rustc" decStr
    let flags ← req l "flags" decStr
    let date ← req l "date" decStr
    let runner ← req l "runner" decStr
    some { cpu, os, rustc, flags, date, runner }
  | _ => none

/-- `BenchRecord` of the updater (`kofft-bench/examples/update_bench_readme.rs:21-31`), with a field `_peak_bytes`. The fields it
does not have are set to nothing. -/
def decRecU [NatCast K] : Json K → Option (Rec K)
  | .obj l => do
    let library ← req l "library" decStr
    let transform ← req l "transform" decStr
    let size ← req l "size" decNat
    let mode ← req l "mode" decStr
    let time ← req l "time_per_op_ns" decF
    let ops ← req l "ops_per_sec" decF
    let allocs ← req l "allocations" decNat
    let peak ← req l "_peak_bytes" decNat
    some { library, transform, size, mode, time, ops := some ops, allocs, peak, prev := none, change := none, best := false }
  | _ => none

/-- `BenchFile` of the updater (`kofft-bench/examples/update_bench_readme.rs:5-9`). -/
def decFileU [NatCast K] : Json K → Option (File K)
  | .obj l => do
    let env ← req l "env" decEnvU
    let results ← req l "results" (decList decRecU)
    some { env, results }
  | _ => none

/-- How the updater formats text and numbers: `trim`, `{:.3}`, `{:.2}` and `{}` of a `usize`. -/
structure Fmt (K : Type) where
  trim : String → List Char
  dec3 : K → List Char
  dec2 : K → List Char
  nat : Nat → List Char

/-- One row (`kofft-bench/examples/update_bench_readme.rs:50-63`). -/
def row [Field K] (φ : Fmt K) (dateShort : List Char) (runner : String) (r : Rec K) : List Char :=
  "| ".toList ++ r.library.toList ++ " | ".toList ++ r.transform.toList ++ " | ".toList ++ φ.nat r.size ++ " | ".toList ++
    r.mode.toList ++ " | ".toList ++ φ.dec3 (r.time / 1000000) ++ " ms | ".toList ++ φ.dec2 (r.ops.getD 0) ++ " | ".toList ++
    φ.nat r.allocs ++ " | ".toList ++ dateShort ++ " ".toList ++ runner.toList ++ " |".toList

/-- The first line (`kofft-bench/examples/update_bench_readme.rs:38-45`). -/
def runLine (φ : Fmt K) (e : Env) : List Char :=
  "Last run: ".toList ++ e.date.toList ++ " on ".toList ++ e.runner.toList ++ " (".toList ++ φ.trim e.cpu ++ "; ".toList ++
    e.rustc.toList ++ "; flags: `".toList ++ e.flags.toList ++ "`)".toList

/-- The heading of the table (line 46). -/
def heading : List Char :=
  "| Library | Transform | Size (N) | Mode | Time/op | Ops/sec | Allocations | Date/Runner |".toList

/-- The line below the heading (line 47). -/
def rule : List Char := "| --- | --- | --- | --- | --- | --- | --- | --- |".toList

/-- The text for the README (`kofft-bench/examples/update_bench_readme.rs:37-64`). `split('T').next()` is the part before the
first `T`. -/
def table [Field K] (φ : Fmt K) (f : File K) : List Char :=
  runLine φ f.env ++ ['\n', '\n'] ++ heading ++ ['\n'] ++ rule ++ ['\n'] ++
    (f.results.map fun r => row φ (f.env.date.toList.takeWhile (· ≠ 'T')) f.env.runner r ++ ['\n']).flatten

/-- `main` of the updater (`kofft-bench/examples/update_bench_readme.rs:33-82`): whether it returned `Ok`, and the README
afterwards. -/
def updater [Field K] (c : Codec K) (φ : Fmt K) (latest : Option (List Char)) (readme : Option (List Char)) :
    Bool × Option (List Char) :=
  match latest.bind fun t => (c.parse t).bind decFileU with
  | none => (false, readme)
  | some f =>
    match readme with
    | none => (false, none)
    | some text =>
      match Readme.updateReadme Readme.startMarker Readme.endMarker (table φ f) text with
      | some new => (true, some new)
      | none => (true, some text)

end Kofft.Bench
