import Verif.Spec.Rounding
/-
Specification: the error bound claimed for `goertzel_f32`.
-/
namespace Kofft.Spec

/-- Error of the coefficient `2 cos(2π k / n)` for a bin `|k| ≤ n`: the angle has four roundings and a conversion, the
cosine an error `t`, and the product is rounded. -/
noncomputable def goertzelCoefErr (u v t : ℝ) : ℝ :=
  2 * (t + ((1 + u) ^ 4 / (1 - v) - 1) * (2 * Real.pi)) + 2 * u * (1 + t)

/-- Error of one step relative to the largest value of the recurrence. -/
noncomputable def goertzelErr (u v t : ℝ) : ℝ := 16 * u + goertzelCoefErr u v t

end Kofft.Spec
