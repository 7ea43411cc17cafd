import Mathlib.Logic.Function.Basic
/-
The counting allocator of the benchmark (`kofft-bench/benches/bench_fft.rs:19-67`) under concurrency: every thread of the
process allocates and frees through it, and the three counters are `Relaxed` atomics.

The memory model is that of one atomic cell at a time. Read-modify-write operations (`fetch_add`, `fetch_sub`, a successful
`compare_exchange`) act on the newest value. A plain load and a failed `compare_exchange` may return any value of the
cell's modification order that is not older than what the thread has read or written before. Only `PEAK_BYTES` is ever read by
a plain load while threads are running, so only its modification order is kept.

Counters are machine words: arithmetic wraps at `M` (the benchmark profile has no overflow checks). Outside the model: the
system allocator (an allocation may fail at any time), and the addresses it returns.
-/
namespace Kofft.AllocCount

/-- Where a thread is in `alloc` (`kofft-bench/benches/bench_fft.rs:27-35`, `46-54`): outside; after counting the allocation;
after adding its size, with the new total; in the loop of `update_peak`, with the new total and the value of `peak`. -/
inductive Pc
  | idle
  | counted (s : Nat)
  | load (new : Nat)
  | loop (new peak : Nat)

/-- The counters (`kofft-bench/benches/bench_fft.rs:22-24`) and the threads. `peaks` is the modification order of `PEAK_BYTES`,
oldest value first; `seen i` the position in it up to which thread `i` has seen. -/
structure St where
  allocs : Nat
  cur : Nat
  peaks : List Nat
  seen : Nat → Nat
  pc : Nat → Pc

/-- One atomic step of a thread. -/
inductive Act
  | null (i : Nat)
  | count (i s : Nat)
  | add (i s : Nat)
  | load (i : Nat)
  | exit (i : Nat)
  | raise (i : Nat)
  | fail (i : Nat)
  | free (i s : Nat)

/-- The state after `reset_alloc` (`kofft-bench/benches/bench_fft.rs:56-60`) while no other thread is inside the allocator. That
the reset is visible to all threads is a simplification: the benchmark hands work to other threads only afterwards. -/
def reset : St := { allocs := 0, cur := 0, peaks := [0], seen := fun _ => 0, pc := fun _ => .idle }

/-- What `alloc_stats` returns (`kofft-bench/benches/bench_fft.rs:62-67`): number of allocations and peak. -/
def stats (a : St) : Nat × Nat := (a.allocs, a.peaks.getLastD 0)

open Function in
/-- One step of thread `i` (`kofft-bench/benches/bench_fft.rs:27-54`).
`null`: `System.alloc` failed. `count`: `ALLOCATIONS.fetch_add(1)`. `add`: `CURRENT_BYTES.fetch_add(size) + size`.
`load`: `PEAK_BYTES.load()`. `exit`: `new > peak` is false. `raise`: `compare_exchange` succeeded. `fail`: it failed, and
returned another value. `free`: `CURRENT_BYTES.fetch_sub(size)`. -/
inductive Step (M : Nat) : St → Act → St → Prop
  | null {a i} : a.pc i = .idle → Step M a (.null i) a
  | count {a i} (s : Nat) : a.pc i = .idle →
      Step M a (.count i s) { a with allocs := (a.allocs + 1) % M, pc := update a.pc i (.counted s) }
  | add {a i s} : a.pc i = .counted s →
      Step M a (.add i s) { a with cur := (a.cur + s) % M, pc := update a.pc i (.load ((a.cur + s) % M)) }
  | load {a i new} (k : Nat) (v : Nat) : a.pc i = .load new → a.seen i ≤ k → a.peaks[k]? = some v →
      Step M a (.load i) { a with seen := update a.seen i k, pc := update a.pc i (.loop new v) }
  | exit {a i new peak} : a.pc i = .loop new peak → ¬ new > peak →
      Step M a (.exit i) { a with pc := update a.pc i .idle }
  | raise {a i new peak} : a.pc i = .loop new peak → new > peak → a.peaks.getLast? = some peak →
      Step M a (.raise i) { a with peaks := a.peaks ++ [new], seen := update a.seen i a.peaks.length,
                                   pc := update a.pc i .idle }
  | fail {a i new peak} (k : Nat) (v : Nat) : a.pc i = .loop new peak → new > peak → a.seen i ≤ k →
      a.peaks[k]? = some v → v ≠ peak →
      Step M a (.fail i) { a with seen := update a.seen i k, pc := update a.pc i (.loop new v) }
  | free {a i} (s : Nat) : a.pc i = .idle →
      Step M a (.free i s) { a with cur := (a.cur + (M - s % M)) % M }

/-- Any schedule of the threads: the atomic steps taken, in order. -/
inductive Exec (M : Nat) (a : St) : List Act → St → Prop
  | nil : Exec M a [] a
  | snoc {es b e c} : Exec M a es b → Step M b e c → Exec M a (es ++ [e]) c

end Kofft.AllocCount
