import Verif.Model.Plan
/-
Which `FftPlan` states a user can produce.
-/
namespace Kofft.Spec

variable {T : Type} [Flt T]

/-- States of a plan created by `FftPlan::new(n, st)` after any sequence of calls of its public methods
on buffers of any lengths. -/
inductive PlanReach (cfg : Cfg) (n : Nat) (st : Strategy) : Plan T → Prop
  | new : PlanReach cfg n st (Plan.new cfg n st)
  | fft {pl pl' x y r} : PlanReach cfg n st pl → pl.fft cfg x = .ok (pl', y, r) → PlanReach cfg n st pl'
  | ifft {pl pl' x y r} : PlanReach cfg n st pl → pl.ifft cfg x = .ok (pl', y, r) → PlanReach cfg n st pl'
  | oop {pl pl' x o y r} : PlanReach cfg n st pl → pl.outOfPlace (Plan.fft cfg) x o = .ok (pl', y, r) →
      PlanReach cfg n st pl'
  | ioop {pl pl' x o y r} : PlanReach cfg n st pl → pl.outOfPlace (Plan.ifft cfg) x o = .ok (pl', y, r) →
      PlanReach cfg n st pl'
  | split {pl pl' re im re' im' r} : PlanReach cfg n st pl →
      pl.split (fftSplit cfg) re im = .ok (pl', re', im', r) → PlanReach cfg n st pl'
  | isplit {pl pl' re im re' im' r} : PlanReach cfg n st pl →
      pl.split (ifftSplit cfg) re im = .ok (pl', re', im', r) → PlanReach cfg n st pl'

end Kofft.Spec
