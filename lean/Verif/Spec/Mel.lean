import Mathlib.Analysis.SpecialFunctions.Pow.Real
import Mathlib.Analysis.SpecialFunctions.Log.Basic
/-
Specification of triangular mel filters. Independent of the model.
-/
namespace Kofft.Spec

/-- `2595 log₁₀(1 + f / 700)`. -/
noncomputable def melOf (f : ℝ) : ℝ := 2595 * (Real.log (1 + f / 700) / Real.log 10)

/-- The inverse of `melOf`. -/
noncomputable def hzOf (m : ℝ) : ℝ := 700 * ((10 : ℝ) ^ (m / 2595) - 1)

/-- Edge number `i` of a bank of `F` filters: equally spaced on the mel scale between 0 and half the rate. -/
noncomputable def melEdge (sr : ℝ) (F i : ℕ) : ℝ := hzOf (melOf (sr / 2) * i / (F + 1 : ℕ))

/-- The spectrum bin of an edge. -/
noncomputable def melBin (n : ℕ) (sr : ℝ) (F i : ℕ) : ℕ := ⌊melEdge sr F i * (n + 1) / sr⌋₊

/-- The triangle that rises from `lo` to 1 at `mid` and falls to 0 at `hi`, zero if one slope is empty. -/
noncomputable def triangle (lo mid hi k : ℕ) : ℝ :=
  if mid = lo ∨ hi = mid then 0
  else if lo ≤ k ∧ k < mid then (k - lo : ℝ) / (mid - lo)
  else if mid ≤ k ∧ k < hi then (hi - k : ℝ) / (hi - mid)
  else 0

/-- The energy of filter `m` (counted from 0). -/
noncomputable def melEnergySum (mags : List ℝ) (sr : ℝ) (F m : ℕ) : ℝ :=
  ∑ k ∈ Finset.range mags.length,
    triangle (melBin mags.length sr F m) (melBin mags.length sr F (m + 1)) (melBin mags.length sr F (m + 2)) k *
      mags.getD k 0

end Kofft.Spec
