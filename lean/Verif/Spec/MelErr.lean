import Verif.Spec.Mel
import Verif.Spec.Rounding
/-
Specification: accuracy of the mathematical library functions, and the error bounds claimed for mel energies, mel filter
edges, mel-frequency cepstral coefficients and the real cepstrum.
-/
namespace Kofft.Spec

/-- The library functions have a relative error of at most `w` (below a few units in the last place in every usual
library); rounding down and converting to an integer are exact. -/
structure Libm (F : Flt ℝ) (w : ℝ) : Prop where
  w_nonneg : 0 ≤ w
  sqrt : ∀ a, 0 ≤ a → |F.sqrt a - Real.sqrt a| ≤ w * Real.sqrt a
  log : ∀ a, 0 < a → |F.log a - Real.log a| ≤ w * |Real.log a|
  log10 : ∀ a, 0 < a → |F.log10 a - Real.log a / Real.log 10| ≤ w * |Real.log a / Real.log 10|
  pow : ∀ a b, 0 < a → |F.pow a b - a ^ b| ≤ w * a ^ b
  ten : F.lit 10 0 = 10
  bin : ∀ a, F.toNat (F.floor a) = ⌊a⌋₊

/-- The energy of filter `m` when filter `m` spans the bins `b m`, `b (m + 1)`, `b (m + 2)`. -/
noncomputable def triSum (b : ℕ → ℕ) (mags : List ℝ) (m : ℕ) : ℝ :=
  ∑ k ∈ Finset.range mags.length, triangle (b m) (b (m + 1)) (b (m + 2)) k * mags.getD k 0

/-- `1 +` the relative error of one energy: two conversions, a division, a multiplication, and at most `n` additions. -/
noncomputable def melGrowth (u v : ℝ) (n : ℕ) : ℝ := (1 + v) / (1 - v) * (1 + u) ^ (n + 2)

/-- Error of a computed logarithm, of exact value `L`, of a positive number that is itself known up to a relative error
`ε`. -/
noncomputable def logErr (w ε L : ℝ) : ℝ := ε / (1 - ε) + w * (|L| + ε / (1 - ε))

/-- `1 +` the relative error of a magnitude plus `10⁻¹²`: two products, a sum, a square root and a sum; and an error `d` in
the number, relative to its magnitude. -/
noncomputable def magGrowth (u w d : ℝ) : ℝ := (1 + u) ^ 3 * (1 + w) * (1 + d)

/-- Error of the exponent `x` in the edge frequency `700 (10^x - 1)`: the highest exponent is the logarithm of a number with four
roundings; then come six roundings and two conversions. -/
noncomputable def melExpErr (u v w sr : ℝ) : ℝ :=
  (1 / (2 - (1 + u) ^ 3 / (1 - u)) * (1 + w) * (1 + u) ^ 6 * ((1 + v) / (1 - v)) - 1) *
    (Real.log (1 + sr / 1400) / Real.log 10 + 3)

/-- Error of an edge, in bins, before rounding down. -/
noncomputable def melEdgeErr (u v w sr : ℝ) (n : ℕ) : ℝ :=
  (10 ^ melExpErr u v w sr * (1 + w) * (1 + u) ^ 6 * (1 + v) - 1) * ((n + 1) * (1400 / sr + 1 / 2))

end Kofft.Spec
