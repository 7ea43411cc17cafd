import Verif.Model.Parallel
/-
The process-wide settings of the parallel path (`src/fft.rs:47-306`) when several threads use them at once: five atomic cells
with the overrides and seven `OnceLock`s. A call of `ifft` of two or more elements reads them one after the other; between any
two of its reads other threads may call the setters, change the environment variables of the process, or advance calls of their
own.

Simplifications: accesses are interleaved (`Relaxed` stores to different cells may in addition become visible to different
threads in different orders). A `OnceLock` that holds a parsed environment variable or the calibration is read or filled in one
step. The one that holds the threshold computed from them (`PARALLEL_FFT_THRESHOLD`) lets several threads compute a value and
keeps the first; the real one makes them wait for the first, which gives fewer behaviours.
-/
namespace Kofft

/-- The override cells (`src/fft.rs:51-60`). -/
inductive OvCell | threshold | cacheBytes | perCoreWork | blockSize | threads
  deriving DecidableEq

/-- The `OnceLock`s that are filled in one step (`src/fft.rs:62-73`). -/
inductive EnvCell | threshold | cacheBytes | perCoreWork | blockSize | threads | calibrated
  deriving DecidableEq

/-- The rest of a call's decision: its accesses to the shared cells, in order. -/
inductive Decision
  | done (par : Bool)
  | load (c : OvCell) (k : Nat → Decision)
  | env (c : EnvCell) (k : Nat → Decision)
  | getBase (k : Option Nat → Decision)
  | putBase (v : Nat) (k : Nat → Decision)

/-- `let o = CELL.load(Relaxed); if o != 0 { o } else { env_…() }` (`src/fft.rs:212-240`, `256-271`). -/
def Decision.orEnv (c : OvCell) (e : EnvCell) (k : Nat → Decision) : Decision :=
  .load c fun o => if o ≠ 0 then k o else .env e k

/-- `parallel_fft_threshold` (`src/fft.rs:139-160`). -/
def baseThreshold (k : Nat → Decision) : Decision :=
  .getBase fun
    | some v => k v
    | none => .env .threshold fun thr =>
      if thr ≠ 0 then .putBase thr k
      else .env .cacheBytes fun cb => .env .perCoreWork fun w => .env .calibrated fun c => .env .blockSize fun b =>
        .env .threads fun t => .putBase (max (cb / 8) (max (max w c) b) * t) k

/-- `should_parallelize_fft` with `std` (`src/fft.rs:244-280`). -/
def shouldDecide (n base : Nat) : Decision :=
  .load .threshold fun o =>
    if (if o ≠ 0 then o else base) ≠ 0 then .done (decide (n ≥ if o ≠ 0 then o else base))
    else .orEnv .cacheBytes .cacheBytes fun cb => .orEnv .perCoreWork .perCoreWork fun w => .env .calibrated fun c =>
      .orEnv .blockSize .blockSize fun b => .orEnv .threads .threads fun t =>
        .done (decide (n ≥ max (cb / 8) (max (max w c) b) * t))

/-- The decision of `ifft` on `n` elements with `std` (`src/fft.rs:1142-1148`). -/
def ifftDecision (n : Nat) : Decision := baseThreshold (shouldDecide n)

/-- `let o = CELL.load(Relaxed); if o != 0 { o } else { default }` (`src/fft.rs:212-240`, `283-298`, without `std`). -/
def Decision.orDefault (c : OvCell) (d : Nat) (k : Nat → Decision) : Decision :=
  .load c fun o => if o ≠ 0 then k o else k d

/-- The decision of `ifft` on `n` elements without `std` (`src/fft.rs:244-254`, `281-306`, `1142-1148`). -/
def ifftDecisionNoStd (n : Nat) : Decision :=
  .load .threshold fun o =>
    if o ≠ 0 then .done (decide (n ≥ o))
    else .orDefault .cacheBytes (32 * 1024) fun cb => .orDefault .perCoreWork 4096 fun w =>
      .orDefault .blockSize 1024 fun b => .orDefault .threads 1 fun t =>
        .done (decide (n ≥ max (cb / 8) (max w b) * t))

/-- The shared cells, and the environment variables, processor count and clock of the process. -/
structure Shared where
  ov : ParOv
  once : EnvCell → Option Nat
  base : Option Nat
  vars : ParVars

/-- The value of an override cell. -/
def ovGet (o : ParOv) : OvCell → Nat
  | .threshold => o.threshold
  | .cacheBytes => o.cacheBytes
  | .perCoreWork => o.perCoreWork
  | .blockSize => o.blockSize
  | .threads => o.threads

/-- The setters (`src/fft.rs:175-208`). -/
def ovSet (o : ParOv) : OvCell → Nat → ParOv
  | .threshold, v => setThreshold o v
  | .cacheBytes, v => setL1Cache o v
  | .perCoreWork, v => setPerCoreWork o v
  | .blockSize, v => setBlockSize o v
  | .threads, v => setThreads o v

/-- What the closure of a `OnceLock` computes at a given instant (`src/fft.rs:77-137`). -/
def readVar (v : ParVars) : EnvCell → Nat
  | .threshold => v.threshold.getD 0
  | .cacheBytes => v.cacheBytes.getD (32 * 1024)
  | .perCoreWork => v.perCoreWork.getD 4096
  | .blockSize => v.blockSize.getD 1024
  | .threads => v.threads.getD (max v.cpus 1)
  | .calibrated => max v.measured 4096

/-- One access of a call. -/
def Decision.step (s : Shared) : Decision → Shared × Decision
  | .done b => (s, .done b)
  | .load c k => (s, k (ovGet s.ov c))
  | .env c k => match s.once c with
    | some v => (s, k v)
    | none => ({ s with once := fun d => if d = c then some (readVar s.vars c) else s.once d }, k (readVar s.vars c))
  | .getBase k => (s, k s.base)
  | .putBase v k => match s.base with
    | some w => (s, k w)
    | none => ({ s with base := some v }, k v)

/-- A call under way: `ifft` on `n` elements, or `fft` on `n` elements. A call of `fft` takes part only when it asks for the threshold
(`asksThreshold` of `Model/ParWord`: more than eight elements other than sixteen); other calls touch no shared cell. -/
inductive Job | ifft (n : Nat) | fft (n : Nat)
  deriving DecidableEq

/-- The accesses of a call with `std`: `fft` computes the threshold and ignores it (`src/fft.rs:1072-1077`, and `stockham_fft`, which always asks, `src/fft.rs:634-640`). The `fft`
inside `ifft` (`src/fft.rs:1153`, `1166`) finds it computed. -/
def jobStd : Job → Decision
  | .ifft n => ifftDecision n
  | .fft _ => baseThreshold fun _ => .done false

/-- Without `std`, `fft` touches no shared cell (`src/fft.rs:637-638`, `1078-1081`). -/
def jobNoStd : Job → Decision
  | .ifft n => ifftDecisionNoStd n
  | .fft _ => .done false

/-- What can happen next in the process. -/
inductive SetEv
  /-- some thread calls a setter -/
  | store (c : OvCell) (v : Nat)
  /-- the environment variables change (or the clock and the processors would now give other values) -/
  | setenv (v : ParVars)
  /-- a call begins; `id` names it -/
  | start (id : Nat) (job : Job)
  /-- the next access of a call -/
  | step (id : Nat)

/-- The process: the shared cells, and the calls with what is left of their accesses. -/
structure Process where
  sh : Shared
  calls : Nat → Option (Job × Decision)

/-- A process at its start (`src/fft.rs:51-75`): no override, nothing read yet. -/
def Process.init (v : ParVars) : Process := ⟨⟨{}, fun _ => none, none, v⟩, fun _ => none⟩

/-- One event; `dec` is the decision of a build (with or without `std`). -/
def Process.apply (dec : Job → Decision) (p : Process) : SetEv → Process
  | .store c v => { p with sh := { p.sh with ov := ovSet p.sh.ov c v } }
  | .setenv v => { p with sh := { p.sh with vars := v } }
  | .start id n => match p.calls id with
    | some _ => p
    | none => { p with calls := fun j => if j = id then some (n, dec n) else p.calls j }
  | .step id => match p.calls id with
    | none => p
    | some (n, d) =>
      ⟨(d.step p.sh).1, fun j => if j = id then some (n, (d.step p.sh).2) else p.calls j⟩

/-- A whole run: any events in any order. -/
def Process.run (dec : Job → Decision) (p : Process) (es : List SetEv) : Process := es.foldl (Process.apply dec) p

/-- Call `id` has decided (calls of `fft` always decide for `false`). -/
def Process.decided (p : Process) (id : Nat) (job : Job) (par : Bool) : Prop := p.calls id = some (job, .done par)

end Kofft
