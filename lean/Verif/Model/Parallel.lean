import Verif.Model.Fft
/-
Parallel settings and the Rayon path of `ifft`: `src/fft.rs:42-306`, `1142-1160`.
-/
namespace Kofft

variable {T : Type} [Flt T]

/-- The process-wide override cells (`src/fft.rs:46-58`), all initially 0. -/
structure ParOv where
  threshold : Nat := 0
  cacheBytes : Nat := 0
  perCoreWork : Nat := 0
  blockSize : Nat := 0
  threads : Nat := 0
  deriving Repr, DecidableEq

/-- Values fixed once per process (`src/fft.rs:60-137`): the environment variables after parsing
(`threshold` 0 when unset or unparsable, the others with their defaults filled in) and the
calibration result, which is at least 4096 (`src/fft.rs:135`). -/
structure ParEnv where
  threshold : Nat
  cacheBytes : Nat
  perCoreWork : Nat
  blockSize : Nat
  threads : Nat
  calibrated : Nat
  calibrated_ge : 4096 ≤ calibrated

/-- `src/fft.rs:139-157` `parallel_fft_threshold` (`size_of::<Complex32>()` = 8). -/
def parThreshold (e : ParEnv) : Nat :=
  if e.threshold ≠ 0 then e.threshold
  else
    let cacheElems := e.cacheBytes / 8
    let perCoreWork := max e.perCoreWork e.calibrated
    let perCoreMin := max cacheElems (max perCoreWork e.blockSize)
    perCoreMin * e.threads

/-- `src/fft.rs:175-177` `set_parallel_fft_threshold`. -/
def setThreshold (o : ParOv) (v : Nat) : ParOv := { o with threshold := v }
/-- `src/fft.rs:183-185` `set_parallel_fft_l1_cache`. -/
def setL1Cache (o : ParOv) (v : Nat) : ParOv := { o with cacheBytes := v }
/-- `src/fft.rs:192-194` `set_parallel_fft_per_core_work`. -/
def setPerCoreWork (o : ParOv) (v : Nat) : ParOv := { o with perCoreWork := v }
/-- `src/fft.rs:199-201` `set_parallel_fft_threads`. -/
def setThreads (o : ParOv) (v : Nat) : ParOv := { o with threads := v }
/-- `src/fft.rs:206-208` `set_parallel_fft_block_size`. -/
def setBlockSize (o : ParOv) (v : Nat) : ParOv := { o with blockSize := v }

/-- `src/fft.rs:211-240` `parallel_fft_threads`, `parallel_fft_block_size` (std): the override unless
it is zero. -/
def orEnv (ov env : Nat) : Nat := if ov ≠ 0 then ov else env

/-- `src/fft.rs:243-305` `should_parallelize_fft` with `std` (products in unbounded arithmetic;
on machine words: `Model/ParWord`). -/
def shouldParallelize (e : ParEnv) (o : ParOv) (n base : Nat) : Bool :=
  let threshold := if o.threshold ≠ 0 then o.threshold else base
  if threshold ≠ 0 then decide (n ≥ threshold)
  else
    let cacheBytes := orEnv o.cacheBytes e.cacheBytes
    let perCoreWork := max (orEnv o.perCoreWork e.perCoreWork) e.calibrated
    let cacheElems := cacheBytes / 8
    let perCoreMin := max cacheElems (max perCoreWork (orEnv o.blockSize e.blockSize))
    decide (n ≥ perCoreMin * orEnv o.threads e.threads)

/-- The five `KOFFT_PAR_FFT_*` environment variables after `parse::<usize>().ok()` (`none`: unset or unparsable), the number of
processors `num_cpus::get()` reports, and the quotient measured by the calibration copy (`src/fft.rs:78-136`). -/
structure ParVars where
  threshold : Option Nat
  cacheBytes : Option Nat
  perCoreWork : Option Nat
  blockSize : Option Nat
  threads : Option Nat
  cpus : Nat
  measured : Nat

/-- `src/fft.rs:77-137` `env_parallel_fft_threshold`, `env_parallel_fft_cache_bytes`, `env_parallel_fft_per_core_work`,
`env_parallel_fft_block_size`, `env_parallel_fft_threads`, `calibrated_per_core_work`. -/
def ParEnv.of (v : ParVars) : ParEnv where
  threshold := v.threshold.getD 0
  cacheBytes := v.cacheBytes.getD (32 * 1024)
  perCoreWork := v.perCoreWork.getD 4096
  blockSize := v.blockSize.getD 1024
  threads := v.threads.getD (max v.cpus 1)
  calibrated := max v.measured 4096
  calibrated_ge := le_max_right _ _

/-- `src/fft.rs:243-253`, `281-304` `should_parallelize_fft` without `std`. -/
def shouldParallelizeNoStd (o : ParOv) (n base : Nat) : Bool :=
  let threshold := if o.threshold ≠ 0 then o.threshold else base
  if threshold ≠ 0 then decide (n ≥ threshold)
  else
    let cacheBytes := orEnv o.cacheBytes (32 * 1024)
    let perCoreWork := orEnv o.perCoreWork 4096
    let cacheElems := cacheBytes / 8
    let perCoreMin := max cacheElems (max perCoreWork (orEnv o.blockSize 1024))
    decide (n ≥ perCoreMin * orEnv o.threads 1)

/-- `src/fft.rs:1142-1148`: the decision made by `ifft`; without `std` the base threshold is 0. -/
def ifftParallel (std : Bool) (v : ParVars) (o : ParOv) (n : Nat) : Bool :=
  if std then shouldParallelize (ParEnv.of v) o n (parThreshold (ParEnv.of v)) else shouldParallelizeNoStd o n 0

/-- `par_iter_mut().for_each(f)`: the elements are updated one after the other in the order in which
the worker threads happen to get to them. Elements are disjoint, so a schedule is an order. -/
def parForEach {α : Type} (order : List Nat) (f : α → α) (l : List α) : List α :=
  order.foldl (fun l i => l.modify i f) l

/-- `src/fft.rs:1134-1174` `ifft` with the `parallel` feature: `par` is the outcome of
`should_parallelize_fft`, `o1`, `o2` the schedules of the two parallel loops. In the f32 path the
scale is `1.0 / n as f32`, the same value as `T::one() / T::from_f32(n as f32)`. -/
def ifftPar (cfg : Cfg) (par : Bool) (o1 o2 : List Nat) (p : Planner T) (x : List (Cx T)) :
    Outcome (Planner T × List (Cx T) × Res) :=
  let n := x.length
  if n = 0 then .ok (p, x, .error .EmptyInput)
  else if n = 1 then .ok (p, x, .ok ())
  else if par && cfg.kind == .f32 then do
    let x := parForEach o1 Cx.conj x
    let (p, y, r) ← fft cfg p x
    match r with
    | .error e => .ok (p, y, .error e)
    | .ok _ =>
      let scale : T := Flt.one /. Flt.ofNat n
      .ok (p, parForEach o2 (ifftPost scale) y, .ok ())
  else do
    let x := x.map Cx.conj
    let (p, y, r) ← fft cfg p x
    match r with
    | .error e => .ok (p, y, .error e)
    | .ok _ =>
      let scale : T := Flt.one /. Flt.ofNat n
      .ok (p, y.map (ifftPost scale), .ok ())

end Kofft
