import Verif.Spec.Ieee
/-
Specification: how large a signal may be so that a trigonometric transform cannot overflow.
-/
namespace Kofft.Spec

/-- The sum of the magnitudes of a real signal. -/
noncomputable def Denote.absSum {T : Type} (N : Denote T) (x : List T) : ℝ := (x.map fun a => |N.val a|).sum

/-- A bound for every value, final or intermediate, of a trigonometric transform of `n` samples whose magnitudes sum to
`S`, in arithmetic with relative error `u`. -/
noncomputable def trigBound (u : ℝ) (n : ℕ) (S : ℝ) : ℝ := (1 + u) ^ n * (7 * S + 4 * n)

/-- What the cepstral functions need of the remaining operations: products and quotients of numbers of equal sign are not
negative, the square root of a number that is not negative is finite and not negative, the logarithm of a positive
number is finite, with magnitude up to `L`; the literal `1e-12` is positive; a conversion to `usize` saturates. For
`f32`, `L = 200` (the logarithms range from `-104` to `89`). -/
structure Elementary {T : Type} (F : Flt T) (N : Denote T) (Ω L : ℝ) : Prop where
  mul_nonneg : ∀ a b, N.fin a → N.fin b → 0 ≤ N.val a * N.val b → |N.val a * N.val b| ≤ Ω → 0 ≤ N.val (F.mul a b)
  div_nonneg : ∀ a b, N.fin a → N.fin b → N.val b ≠ 0 → 0 ≤ N.val a / N.val b → |N.val a / N.val b| ≤ Ω →
    0 ≤ N.val (F.div a b)
  sqrt : ∀ a, N.fin a → 0 ≤ N.val a → N.fin (F.sqrt a) ∧ 0 ≤ N.val (F.sqrt a) ∧ N.val (F.sqrt a) ≤ 1 + N.val a
  log : ∀ a, N.fin a → 0 < N.val a → N.val a ≤ Ω → N.fin (F.log a) ∧ |N.val (F.log a)| ≤ L
  tiny : N.fin (F.lit 1 12) ∧ 0 < N.val (F.lit 1 12) ∧ N.val (F.lit 1 12) ≤ 1
  toNat : ∀ a, F.toNat a < 2 ^ 64

/-- A bound for every mel energy of `n` magnitudes that sum to `S`. -/
noncomputable def melBound (u : ℝ) (n : ℕ) (S : ℝ) : ℝ := (1 + u) ^ n * (5 * S + n)

/-- A bound for the spectrum of a real signal whose magnitudes sum to `S`: the DFT is at most `S`, the rest is rounding. -/
noncomputable def specBound (cfg : Cfg) (e v t : ℝ) (n : ℕ) (S : ℝ) : ℝ := fftGrowth cfg e v t n * (S + 1)

end Kofft.Spec
