import Verif.Model.Parallel
import Verif.Model.Machine
/-
The decision about the parallel path (`src/fft.rs:77-306`) on machine words. `Model/Parallel` reads `usize` as unbounded
naturals; here products and conversions are those of the target: with overflow checks (debug profile) an overflowing product
panics, without (release profile) it wraps.

Simplification: `fft` computes the threshold in the middle of a transform by Bluestein's algorithm (when it calls itself with
the padded length); the model computes it first. A `OnceLock` whose closure panics stays empty, so the next call tries again.
-/
namespace Kofft

variable {T : Type} [Flt T]

/-- The environment variables after `parse::<usize>().ok()`, the processor count, and the time the calibration copy takes, in
nanoseconds (`src/fft.rs:77-140`). -/
structure ParHost where
  threshold : Option Nat
  cacheBytes : Option Nat
  perCoreWork : Option Nat
  blockSize : Option Nat
  threads : Option Nat
  cpus : Nat
  nanos : Nat

/-- `src/fft.rs:127-140` `calibrated_per_core_work`: `n = 1 << 20`, `elems = n / 8`; `as_nanos()` is a `u128`, `.max(1) as usize`
keeps its low bits. -/
def calibratedW (w : Word) (nanos : Nat) : Outcome Nat :=
  w.mul (2 ^ 20 / 8) 1000000000 >>= fun v =>
    if max nanos 1 % 2 ^ w.bits = 0 then .panic else .ok (max (v / (max nanos 1 % 2 ^ w.bits)) 4096)

/-- `src/fft.rs:142-161` `parallel_fft_threshold`. -/
def parThresholdW (w : Word) (h : ParHost) : Outcome Nat :=
  if h.threshold.getD 0 ≠ 0 then .ok (h.threshold.getD 0)
  else calibratedW w h.nanos >>= fun c =>
    w.mul (max (h.cacheBytes.getD (32 * 1024) / 8) (max (max (h.perCoreWork.getD 4096) c) (h.blockSize.getD 1024)))
      (h.threads.getD (max h.cpus 1))

/-- `src/fft.rs:244-280` `should_parallelize_fft` with `std`. -/
def shouldParallelizeW (w : Word) (h : ParHost) (o : ParOv) (n base : Nat) : Outcome Bool :=
  let threshold := if o.threshold ≠ 0 then o.threshold else base
  if threshold ≠ 0 then .ok (decide (n ≥ threshold))
  else calibratedW w h.nanos >>= fun c =>
    w.mul (max (orEnv o.cacheBytes (h.cacheBytes.getD (32 * 1024)) / 8)
        (max (max (orEnv o.perCoreWork (h.perCoreWork.getD 4096)) c) (orEnv o.blockSize (h.blockSize.getD 1024))))
      (orEnv o.threads (h.threads.getD (max h.cpus 1))) >>= fun p => .ok (decide (n ≥ p))

/-- `src/fft.rs:244-253`, `281-306` `should_parallelize_fft` without `std`. -/
def shouldParallelizeNoStdW (w : Word) (o : ParOv) (n : Nat) : Outcome Bool :=
  if o.threshold ≠ 0 then .ok (decide (n ≥ o.threshold))
  else w.mul (max (orEnv o.cacheBytes (32 * 1024) / 8) (max (orEnv o.perCoreWork 4096) (orEnv o.blockSize 1024)))
      (orEnv o.threads 1) >>= fun p => .ok (decide (n ≥ p))

/-- The decision of `ifft` (`src/fft.rs:1142-1149`). -/
def ifftDecideW (std : Bool) (w : Word) (h : ParHost) (o : ParOv) (n : Nat) : Outcome Bool :=
  if std then parThresholdW w h >>= fun base => shouldParallelizeW w h o n base
  else shouldParallelizeNoStdW w o n

/-- `fft` asks for the threshold (and ignores it): for powers of two above 16 (`src/fft.rs:1072-1077`), and for other lengths when
the padded length is above 16 (`src/fft.rs:1108`, `1115`, and `get_bluestein`). -/
def asksThreshold (n : Nat) : Bool :=
  if isPow2 n then decide (16 < n) else decide (16 < nextPow2 (2 * n - 1))

/-- `ScalarFftImpl::fft` in a build with the `parallel` feature (`src/fft.rs:1053-1132`). -/
def fftHost (w : Word) (h : ParHost) (cfg : Cfg) (p : Planner T) (x : List (Cx T)) :
    Outcome (Planner T × List (Cx T) × Res) :=
  if cfg.std = true ∧ asksThreshold x.length = true ∧ x.length ≠ 0 then parThresholdW w h >>= fun _ => fft cfg p x
  else fft cfg p x

/-- `ScalarFftImpl::ifft` in a build with the `parallel` feature (`src/fft.rs:1134-1174`); `o1`, `o2` are the schedules of the
two parallel loops. With `std`, once the decision has been made the threshold is known and the inner `fft` cannot panic on it. -/
def ifftHost (w : Word) (h : ParHost) (o : ParOv) (o1 o2 : List Nat) (cfg : Cfg) (p : Planner T) (x : List (Cx T)) :
    Outcome (Planner T × List (Cx T) × Res) :=
  if x.length ≤ 1 then ifft cfg p x
  else ifftDecideW cfg.std w h o x.length >>= fun par => ifftPar cfg par o1 o2 p x

end Kofft
