import Verif.Spec.Reach
/-
Specification vocabulary for C79: sequences of transforms on one transformer.
-/
namespace Kofft.Spec

variable {T : Type} [Flt T]

/-- `Performed cfg ms p`: `p` is a transformer that was new and has since performed, successfully, forward or inverse transforms
of the lengths `ms` (latest first), on whatever data. -/
inductive Performed (cfg : Cfg) : List ℕ → Planner T → Prop
  | new : Performed cfg [] Planner.new
  | fft {ms p p' x y} : Performed cfg ms p → Kofft.fft cfg p x = .ok (p', y, .ok ()) → Performed cfg (x.length :: ms) p'
  | ifft {ms p p' x y} : Performed cfg ms p → Kofft.ifft cfg p x = .ok (p', y, .ok ()) → Performed cfg (x.length :: ms) p'

/-- An earlier transform of length `m` does not spoil length `n`: its internal size is no larger, or one of the two lengths is a
power of two and the internal size for `n` is at most 16 or the element type is not `f32`/`f64`. -/
def Unspoilt (cfg : Cfg) (n m : ℕ) : Prop :=
  workSize m ≤ workSize n ∨
    (((∃ k, n = 2 ^ k) ∨ ∃ k, m = 2 ^ k) ∧ (workSize n ≤ 16 ∨ cfg.kind = .other))

end Kofft.Spec
