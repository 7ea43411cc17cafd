import Verif.Lib.Lawful
import Verif.Model.Fft
/-
Specification: the standard model of floating-point arithmetic (every operation returns the exact
result up to a relative error), and the error bounds claimed for the transforms. No code is used here
except the interface `Flt`.
-/
namespace Kofft.Spec

/-- `F` is a rounding arithmetic on the reals:
`u` bounds the relative error of one operation, `v` that of a conversion through `f32` (integers and the
kernel constants, which the code writes as `f32`), `t` the absolute error of `sin`, `cos` and of
printing a table entry in decimal. Overflow and underflow are outside this model.
For `f32`: `u = v = 2⁻²⁴`; for `f64`: `u = 2⁻⁵³`, `v = 2⁻²⁴`. -/
structure Rounding (F : Flt ℝ) (u v t : ℝ) : Prop where
  u_nonneg : 0 ≤ u
  v_nonneg : 0 ≤ v
  v_lt_one : v < 1
  t_nonneg : 0 ≤ t
  add : ∀ a b, |F.add a b - (a + b)| ≤ u * |a + b|
  sub : ∀ a b, |F.sub a b - (a - b)| ≤ u * |a - b|
  mul : ∀ a b, |F.mul a b - a * b| ≤ u * |a * b|
  div : ∀ a b, b ≠ 0 → |F.div a b - a / b| ≤ u * |a / b|
  /-- one or two roundings -/
  mulAdd : ∀ a b c, |F.mulAdd a b c - (a * b + c)| ≤ u * |a * b| + u * |a * b + c| + u ^ 2 * |a * b|
  neg : ∀ a, F.neg a = -a
  zero : F.zero = 0
  one : F.one = 1
  two : F.lit 2 0 = 2
  half : F.lit 5 1 = 1 / 2
  /-- other decimal constants in the source -/
  lit : ∀ (m : ℤ) (e : ℕ), |F.lit m e - m / 10 ^ e| ≤ u * |(m : ℝ) / 10 ^ e|
  lt : ∀ a b, F.lt a b = true ↔ a < b
  ofNat : ∀ n, |F.ofNat n - n| ≤ v * n
  ofNat_pow : ∀ k, F.ofNat (2 ^ k) = 2 ^ k
  ofNatD : ∀ n, n ≤ 1024 → F.ofNatD n = n
  pi : |F.pi - Real.pi| ≤ u * Real.pi
  cos : ∀ a, |F.cos a - Real.cos a| ≤ t
  sin : ∀ a, |F.sin a - Real.sin a| ≤ t
  printParse : ∀ a, |F.printParse a - a| ≤ t * max 1 |a|
  sqrtHalf : |F.sqrtHalf - Real.sqrt 2 / 2| ≤ v
  cosPi8 : |F.cosPi8 - Real.cos (Real.pi / 8)| ≤ v
  sinPi8 : |F.sinPi8 - Real.sin (Real.pi / 8)| ≤ v

/-- Relative error of one complex multiplication. -/
noncomputable def mulErr (u : ℝ) : ℝ := Real.sqrt 2 * (2 * u + u ^ 2)

/-- Error of the rotation `exp(-2πi/n)` from which `get_twiddles` starts. -/
noncomputable def rotErr (u t : ℝ) (n : ℕ) : ℝ :=
  Real.sqrt 2 * t + ((1 + u) ^ 3 - 1) * (2 * Real.pi / n)

/-- `1 +` the error of the worst entry of the twiddle table built by repeated rotation. -/
noncomputable def tableGrowth (u t : ℝ) (n : ℕ) : ℝ :=
  ((1 + mulErr u) * (1 + rotErr u t n)) ^ (n / 2)

/-- The same for the tables generated at build time. -/
noncomputable def preGrowth (u t : ℝ) : ℝ :=
  1 + (Real.sqrt 2 * (2 * t + t ^ 2) + ((1 + u) ^ 4 - 1) * Real.pi)

/-- `1 +` the error of the factors used by an `n`-point power-of-two transform: kernel constants up to
16 points, else the table. -/
noncomputable def twGrowth (cfg : Cfg) (u v t : ℝ) (n : ℕ) : ℝ :=
  if n ≤ 16 then 1 + Real.sqrt 2 * v
  else if cfg.precomputed = true ∧ (cfg.kind = .f32 ∨ cfg.kind = .f64) ∧ n ≤ 1024 then preGrowth u t
  else tableGrowth u t n

/-- `1 +` the error of an `n`-point power-of-two transform: one addition, one multiplication and one
factor per level, `log₂ n` levels. -/
noncomputable def powGrowth (cfg : Cfg) (u v t : ℝ) (n : ℕ) : ℝ :=
  ((1 + u) * (1 + mulErr u) * twGrowth cfg u v t n) ^ Nat.log2 n

/-- Error of the chirp `exp(∓πi j²/n)` for `j < n`: the code forms `j²` as a floating-point number and does
not reduce the angle, so the error grows with `n`. -/
noncomputable def chirpErr (u v t : ℝ) (n : ℕ) : ℝ :=
  Real.sqrt 2 * t + ((1 + u) ^ 3 * ((1 + v) / (1 - v)) - 1) * (Real.pi * n)

/-- `1 +` the error of a transform of any length; `m` is the convolution length of the chirp transform. -/
noncomputable def bluGrowth (cfg : Cfg) (u v t : ℝ) (n m : ℕ) : ℝ :=
  ((1 + mulErr u) * (1 + chirpErr u v t n) * powGrowth cfg u v t m) ^ 3 * (1 + u) ^ 2

/-- `1 +` the relative error of an `n`-point forward transform. -/
noncomputable def fftGrowth (cfg : Cfg) (u v t : ℝ) (n : ℕ) : ℝ :=
  if isPow2 n then powGrowth cfg u v t n else bluGrowth cfg u v t n (nextPow2 (2 * n - 1))

/-- What the relative error refers to: the sum of the magnitudes of the inputs, times `2n - 1` for the
lengths that go through a convolution with the chirp. -/
noncomputable def fftWeight (n : ℕ) : ℝ := if isPow2 n then 1 else 2 * n - 1

/-- Error of the rotation `exp(-πi/m)` from which the real-FFT table starts. -/
noncomputable def rrotErr (u v t : ℝ) (m : ℕ) : ℝ :=
  Real.sqrt 2 * t + ((1 + u) ^ 2 / (1 - v) - 1) * (Real.pi / m)

/-- `1 +` the error of combining two bins of the packed transform of length `m` into one of the real
transform: a factor from a table built by repeated rotation, one product, three roundings. -/
noncomputable def binGrowth (u v t : ℝ) (m : ℕ) : ℝ :=
  (1 + u) ^ 3 * (1 + mulErr u) * ((1 + mulErr u) * (1 + rrotErr u v t m)) ^ m

/-- The scaling of the inverse transform: `1/n` rounded, and one multiplication. -/
noncomputable def scaleGrowth (u v : ℝ) (n : ℕ) : ℝ :=
  if isPow2 n then (1 + u) ^ 2 else (1 + u) ^ 2 / (1 - v)

/-- `1 +` the error of the `2^K`-point stack transform: pass `s` uses factors obtained by repeated rotation from
`exp(-2πi/2^(s+1))`. -/
noncomputable def stackGrowth (u t : ℝ) (K : ℕ) : ℝ :=
  ∏ s ∈ Finset.range K, ((1 + u) * (1 + mulErr u) * tableGrowth u t (2 ^ (s + 1)))

/-! ### Direct cosine, sine and Hartley transforms -/

/-- `1 +` the relative error of a computed angle such as `π (i + 1/2) (k + 1/2) / n`. -/
noncomputable def angleGrowth (u v : ℝ) : ℝ := (1 + u) ^ 6 * (1 + v) ^ 2 / ((1 - 2 * v) * (1 - u))

/-- `1 +` the error of a sum of `n` terms `x cos θ` with computed angles `θ ≤ 2πn` (not reduced). -/
noncomputable def directGrowth (u v t : ℝ) (n : ℕ) : ℝ :=
  (1 + (t + (angleGrowth u v - 1) * (2 * Real.pi * n))) * (1 + u) ^ (n + 2)

/-! ### Short-time transforms -/

/-- `1 +` the relative error of the squared window accumulated over `c` frames. -/
noncomputable def normGrowth (u : ℝ) (c : ℕ) : ℝ := (1 + u) ^ (c + 1)

/-- `1 +` the error of analysis and resynthesis with `c` frames of `n` samples: two transforms, the scaling, the two
windowings, the accumulation and the division by the accumulated squared window. -/
noncomputable def resynthGrowth (cfg : Cfg) (u v t : ℝ) (n c : ℕ) : ℝ :=
  fftGrowth cfg u v t n ^ 2 * scaleGrowth u v n * (1 + u) ^ (c + 3) / (2 - normGrowth u c)

/-! ### Chirp Z-transform -/

/-- `1 +` the relative error of the computed reciprocal `1/a`: two roundings in `|a|²`, one division. -/
noncomputable def ainvGrowth (u : ℝ) : ℝ := (1 + u) / (2 - (1 + u) ^ 2)

/-- `1 +` the error of bin `k` of the chirp Z-transform of `n` samples: `w^k` by `k` products, then per sample one
product each for `w^(kt)` and `a^(-t)`, their product, and the accumulation. -/
noncomputable def cztGrowth (u : ℝ) (n k : ℕ) : ℝ :=
  ((1 + mulErr u) ^ (k + 2) * ainvGrowth u) ^ n * (1 + mulErr u) * (1 + u) ^ (n + 1)

/-! ### Other functions -/

/-- `1 +` the error of `cos` and `sin` of the computed angle `πk/(2n) ≤ π/2` of the planned DCT-II. -/
noncomputable def rotGrowth (u v t : ℝ) : ℝ :=
  1 + (t + ((1 + u) ^ 3 * (1 + v) / (2 - (1 + v) * (1 + u)) - 1) * (Real.pi / 2))

/-- `1 +` the error of a sample of the Hann or Hamming window: the cosine of a computed angle `≤ 2π`, a rounded
constant, one product and one subtraction. -/
noncomputable def windowGrowth (u v t : ℝ) : ℝ :=
  (1 + (t + ((1 + u) ^ 4 * (1 + v) / (1 - v) - 1) * (2 * Real.pi))) * (1 + u) ^ 3

end Kofft.Spec
