import Verif.Spec.Kaiser
import Verif.Props.Window
import Verif.Props.WindowFlt
import Verif.Props.MelEdge
import Verif.Lib.IeeeFlt
import Verif.Props.Sticky
import Mathlib.Analysis.SpecificLimits.Basic
import Mathlib.Analysis.SpecificLimits.Normed
/-
C114: the Kaiser window against the true modified Bessel function: truncation, rounding, overflow.
-/
namespace Kofft.Props
open Spec Finset

/-! ### Truncation of the series -/

/-- the first twenty terms -/
noncomputable def bes (y : ℝ) : ℝ := ∑ k ∈ range 20, y ^ k / ((k.factorial : ℝ)) ^ 2

theorem besselI_eq (x : ℝ) : besselI x = bes (x ^ 2 / 4) := rfl

theorem bes_one_le {y : ℝ} (hy : 0 ≤ y) : 1 ≤ bes y := by
  unfold bes
  rw [sum_range_succ']
  simp
  apply sum_nonneg
  intro k _
  positivity

theorem geometric_bound (f : ℕ → ℝ) (h : ∀ n, f (n + 1) ≤ f n * (1 / 9)) (n : ℕ) : f n ≤ f 0 * (1 / 9) ^ n := by
  induction n with
  | zero => simp
  | succ n ih =>
    calc f (n + 1) ≤ f n * (1 / 9) := h n
      _ ≤ f 0 * (1 / 9) ^ n * (1 / 9) := by linarith
      _ = _ := by ring

theorem tail_step {y : ℝ} (hy : 0 ≤ y) (hy' : y ≤ 49) (k : ℕ) (hk : 20 ≤ k) :
    y ^ (k + 1) / (((k + 1).factorial : ℝ)) ^ 2 ≤ y ^ k / ((k.factorial : ℝ)) ^ 2 * (1 / 9) := by
  have h2 : y ^ (k + 1) / (((k + 1).factorial : ℝ)) ^ 2 = y ^ k / ((k.factorial : ℝ)) ^ 2 * (y / ((k : ℝ) + 1) ^ 2) := by
    rw [Nat.factorial_succ]; push_cast
    have : (k.factorial : ℝ) ≠ 0 := by positivity
    field_simp
    ring
  rw [h2]
  have hk' : (20 : ℝ) ≤ k := by exact_mod_cast hk
  apply mul_le_mul_of_nonneg_left _ (by positivity)
  rw [div_le_div_iff₀ (by positivity) (by norm_num)]
  nlinarith

theorem tail_term {y : ℝ} (hy : 0 ≤ y) (hy' : y ≤ 49) (n : ℕ) :
    y ^ (n + 20) / (((n + 20).factorial : ℝ)) ^ 2 ≤ y ^ 20 / ((Nat.factorial 20 : ℝ)) ^ 2 * (1 / 9) ^ n := by
  have := geometric_bound (fun n => y ^ (n + 20) / (((n + 20).factorial : ℝ)) ^ 2)
    (fun n => by
      have := tail_step hy hy' (n + 20) (by omega)
      rwa [show n + 20 + 1 = n + 1 + 20 by ring] at this) n
  rwa [Nat.zero_add] at this

theorem summable_bes {y : ℝ} (hy : 0 ≤ y) (hy' : y ≤ 49) : Summable fun n : ℕ => y ^ n / ((n.factorial : ℝ)) ^ 2 := by
  rw [← summable_nat_add_iff 20]
  apply Summable.of_nonneg_of_le (fun n => by positivity) (tail_term hy hy')
  exact (summable_geometric_of_lt_one (by norm_num) (by norm_num)).mul_left _

theorem tail_le {y : ℝ} (hy : 0 ≤ y) (hy' : y ≤ 49) :
    bes y ≤ ∑' n : ℕ, y ^ n / ((n.factorial : ℝ)) ^ 2 ∧
    ∑' n : ℕ, y ^ n / ((n.factorial : ℝ)) ^ 2 ≤ (1 + 1 / 2 ^ 24) * bes y := by
  have hs := summable_bes hy hy'
  have e := hs.sum_add_tsum_nat_add 20
  have h0 : 0 ≤ ∑' n : ℕ, y ^ (n + 20) / (((n + 20).factorial : ℝ)) ^ 2 := tsum_nonneg fun n => by positivity
  have hg : Summable fun n : ℕ => ((1 : ℝ) / 9) ^ n := summable_geometric_of_lt_one (by norm_num) (by norm_num)
  have h1 : ∑' n : ℕ, y ^ (n + 20) / (((n + 20).factorial : ℝ)) ^ 2 ≤
      ∑' n : ℕ, y ^ 20 / ((Nat.factorial 20 : ℝ)) ^ 2 * (1 / 9) ^ n :=
    Summable.tsum_le_tsum (tail_term hy hy') ((summable_nat_add_iff 20).mpr hs) (hg.mul_left _)
  rw [tsum_mul_left, tsum_geometric_of_lt_one (by norm_num) (by norm_num)] at h1
  have h7 : y ^ 7 / ((Nat.factorial 7 : ℝ)) ^ 2 ≤ bes y :=
    single_le_sum (f := fun k => y ^ k / ((k.factorial : ℝ)) ^ 2) (fun k _ => by positivity) (by simp : 7 ∈ range 20)
  have h8 : y ^ 20 / ((Nat.factorial 20 : ℝ)) ^ 2 * (1 - 1 / 9 : ℝ)⁻¹ ≤ 1 / 2 ^ 24 * (y ^ 7 / ((Nat.factorial 7 : ℝ)) ^ 2) := by
    have : y ^ 20 ≤ y ^ 7 * 49 ^ 13 := by
      rw [show y ^ 20 = y ^ 7 * y ^ 13 by ring]
      exact mul_le_mul_of_nonneg_left (pow_le_pow_left₀ hy hy' 13) (by positivity)
    have h9 : 0 ≤ y ^ 7 := by positivity
    norm_num [Nat.factorial]
    norm_num at this
    generalize y ^ 20 = A at *
    generalize y ^ 7 = B at *
    linarith
  change bes y + _ = _ at e
  constructor <;> linarith

/-- C114a. The twenty terms the source sums give `I₀(x)` to a relative `2⁻²⁴` from below, for `|x| ≤ 14`, in exact
arithmetic. -/
theorem bessel0_series [F : Flt ℝ] (hF : Lawful F) (x : ℝ) (hx : |x| ≤ 14) :
    bessel0 x ≤ I0 x ∧ I0 x ≤ (1 + 1 / 2 ^ 24) * bessel0 x := by
  have : x ^ 2 ≤ 14 ^ 2 := sq_le_sq' (by linarith [neg_abs_le x]) (by linarith [le_abs_self x])
  rw [bessel0_real hF]
  exact tail_le (by positivity) (by linarith)

/-! ### Relative closeness of positive numbers -/

/-- `a` is within a factor `g` of `z` -/
def Rel (g a z : ℝ) : Prop := 1 ≤ g ∧ 0 ≤ z ∧ z ≤ g * a ∧ a ≤ g * z

namespace Rel
variable {g h a b z w : ℝ}

theorem refl (hz : 0 ≤ z) : Rel 1 z z := ⟨le_rfl, hz, by simp, by simp⟩

theorem nonneg (H : Rel g a z) : 0 ≤ a := by
  obtain ⟨h1, h2, h3, h4⟩ := H
  by_contra hc
  push Not at hc
  nlinarith

theorem mono (H : Rel g a z) (hg : g ≤ h) : Rel h a z := by
  have ha := H.nonneg
  obtain ⟨h1, h2, h3, h4⟩ := H
  exact ⟨h1.trans hg, h2, h3.trans (mul_le_mul_of_nonneg_right hg ha), h4.trans (mul_le_mul_of_nonneg_right hg h2)⟩

theorem trans (H : Rel g a b) (K : Rel h b z) : Rel (g * h) a z := by
  obtain ⟨h1, h2, h3, h4⟩ := H
  obtain ⟨k1, k2, k3, k4⟩ := K
  refine ⟨one_le_mul_of_one_le_of_one_le h1 k1, k2, ?_, ?_⟩
  · calc z ≤ h * b := k3
      _ ≤ h * (g * a) := mul_le_mul_of_nonneg_left h3 (by linarith)
      _ = _ := by ring
  · calc a ≤ g * b := h4
      _ ≤ g * (h * z) := mul_le_mul_of_nonneg_left k4 (by linarith)
      _ = _ := by ring

theorem add (H : Rel g a z) (K : Rel g b w) : Rel g (a + b) (z + w) := by
  obtain ⟨h1, h2, h3, h4⟩ := H
  obtain ⟨k1, k2, k3, k4⟩ := K
  refine ⟨h1, by linarith, by linarith, by linarith⟩

theorem mul (H : Rel g a z) (K : Rel h b w) : Rel (g * h) (a * b) (z * w) := by
  have ha := H.nonneg
  have hb := K.nonneg
  obtain ⟨h1, h2, h3, h4⟩ := H
  obtain ⟨k1, k2, k3, k4⟩ := K
  refine ⟨one_le_mul_of_one_le_of_one_le h1 k1, mul_nonneg h2 k2, ?_, ?_⟩
  · calc z * w ≤ (g * a) * (h * b) := mul_le_mul h3 k3 k2 (by positivity)
      _ = _ := by ring
  · calc a * b ≤ (g * z) * (h * w) := mul_le_mul h4 k4 hb (by positivity)
      _ = _ := by ring

theorem inv (H : Rel g a z) (hz : 0 < z) : Rel g a⁻¹ z⁻¹ := by
  obtain ⟨h1, h2, h3, h4⟩ := H
  have ha : 0 < a := by
    by_contra hc
    push Not at hc
    nlinarith
  refine ⟨h1, by positivity, ?_, ?_⟩
  · rw [← div_eq_mul_inv, le_div_iff₀ ha, inv_mul_le_iff₀ hz]; linarith
  · rw [← div_eq_mul_inv, le_div_iff₀ hz, inv_mul_le_iff₀ ha]; linarith

theorem div (H : Rel g a z) (K : Rel h b w) (hw : 0 < w) : Rel (g * h) (a / b) (z / w) := by
  rw [div_eq_mul_inv, div_eq_mul_inv]
  exact H.mul (K.inv hw)

theorem pow (H : Rel g a z) (n : ℕ) : Rel (g ^ n) (a ^ n) (z ^ n) := by
  induction n with
  | zero => simpa using refl zero_le_one
  | succ n ih => rw [pow_succ, pow_succ, pow_succ]; exact ih.mul H

theorem sum {f k : ℕ → ℝ} {n : ℕ} (hg : 1 ≤ g) (H : ∀ i, i < n → Rel g (f i) (k i)) : Rel g (∑ i ∈ range n, f i) (∑ i ∈ range n, k i) := by
  induction n with
  | zero => simpa using (refl le_rfl).mono hg
  | succ n ih =>
    rw [sum_range_succ, sum_range_succ]
    exact (ih fun i hi => H i (by omega)).add (H n (by omega))

/-- one rounding -/
theorem rnd {u : ℝ} (hu0 : 0 ≤ u) (hu : u < 1) (H : Rel g a z) (hb : |b - a| ≤ u * |a|) : Rel (g * (1 / (1 - u))) b z := by
  have ha := H.nonneg
  rw [abs_of_nonneg ha, abs_le] at hb
  have : Rel (1 / (1 - u)) b a := by
    have h1 : (1 : ℝ) ≤ 1 / (1 - u) := by rw [le_div_iff₀ (by linarith)]; linarith
    refine ⟨h1, ha, ?_, ?_⟩
    · rw [div_mul_eq_mul_div, le_div_iff₀ (by linarith)]; linarith
    · rw [div_mul_eq_mul_div, le_div_iff₀ (by linarith)]
      nlinarith [mul_nonneg hu0 ha, mul_nonneg hu0 (mul_nonneg hu0 ha)]
  rw [mul_comm]
  exact this.trans H

/-- the relative error -/
theorem err (H : Rel g a z) : |a - z| ≤ (g - 1) * z := by
  obtain ⟨h1, h2, h3, h4⟩ := H
  rw [abs_le]
  constructor
  · have : a ≥ z / g := by rw [ge_iff_le, div_le_iff₀ (by linarith)]; linarith
    have h5 : z / g ≥ (2 - g) * z := by
      rw [ge_iff_le, le_div_iff₀ (by linarith)]
      nlinarith [mul_nonneg h2 (sq_nonneg (g - 1))]
    linarith
  · linarith

end Rel

/-- the partial sums vary slowly -/
theorem bes_sub_le {a b : ℝ} (hb : 0 ≤ b) (hab : b ≤ a) : bes a - bes b ≤ (a - b) * bes a := by
  unfold bes
  rw [← sum_sub_distrib, sum_range_succ', mul_sum]
  simp only [pow_zero, sub_self, add_zero]
  calc ∑ k ∈ range 19, (a ^ (k + 1) / (((k + 1).factorial : ℝ)) ^ 2 - b ^ (k + 1) / (((k + 1).factorial : ℝ)) ^ 2)
      ≤ ∑ k ∈ range 19, (a - b) * (a ^ k / ((k.factorial : ℝ)) ^ 2) := by
        apply sum_le_sum
        intro k _
        have h1 : a ^ (k + 1) - b ^ (k + 1) ≤ ((k : ℝ) + 1) * (a - b) * a ^ k := by
          have ha : 0 ≤ a := hb.trans hab
          induction k with
          | zero => simp
          | succ k ih =>
            have h2 : b ^ (k + 1) ≤ a ^ (k + 1) := pow_le_pow_left₀ hb hab _
            have h3 : a ^ (k + 1 + 1) - b ^ (k + 1 + 1) = a * (a ^ (k + 1) - b ^ (k + 1)) + (a - b) * b ^ (k + 1) := by ring
            have h4 := mul_le_mul_of_nonneg_left (ih (by simp at *; omega)) ha
            have h5 := mul_le_mul_of_nonneg_left h2 (sub_nonneg.mpr hab)
            rw [h3]; push_cast
            calc _ ≤ a * (((k : ℝ) + 1) * (a - b) * a ^ k) + (a - b) * a ^ (k + 1) := by linarith
              _ = _ := by ring
        rw [← sub_div, Nat.factorial_succ]; push_cast
        have hf : (0 : ℝ) < (k.factorial : ℝ) := by positivity
        have h2 : 0 ≤ (a - b) * a ^ k := mul_nonneg (by linarith) (pow_nonneg (hb.trans hab) _)
        rw [div_le_iff₀ (by positivity), mul_pow]
        have h3 : (a - b) * (a ^ k / (k.factorial : ℝ) ^ 2) * (((k : ℝ) + 1) ^ 2 * (k.factorial : ℝ) ^ 2) =
            ((k : ℝ) + 1) ^ 2 * ((a - b) * a ^ k) := by field_simp
        rw [h3]
        have hk : (0 : ℝ) ≤ k := Nat.cast_nonneg k
        nlinarith [mul_nonneg hk h2, mul_nonneg hk (mul_nonneg hk h2)]
    _ ≤ ∑ k ∈ range 20, (a - b) * (a ^ k / ((k.factorial : ℝ)) ^ 2) := by
        rw [sum_range_succ _ 19]
        have : 0 ≤ (a - b) * (a ^ 19 / ((Nat.factorial 19 : ℝ)) ^ 2) :=
          mul_nonneg (by linarith) (div_nonneg (pow_nonneg (hb.trans hab) _) (by positivity))
        linarith

theorem bes_near {a b d : ℝ} (ha : 0 ≤ a) (hb : 0 ≤ b) (h : |a - b| ≤ d) (hd : d < 1) : Rel (1 / (1 - d)) (bes a) (bes b) := by
  have hd0 : 0 ≤ d := (abs_nonneg _).trans h
  have h1 : (1 : ℝ) ≤ 1 / (1 - d) := by rw [le_div_iff₀ (by linarith)]; linarith
  have pa := bes_one_le ha
  have pb := bes_one_le hb
  rw [abs_le] at h
  refine ⟨h1, by linarith, ?_, ?_⟩
  · rw [div_mul_eq_mul_div, le_div_iff₀ (by linarith)]
    rcases le_total a b with hab | hab
    · have := bes_sub_le ha hab
      nlinarith
    · have : bes b ≤ bes a := by
        unfold bes
        exact sum_le_sum fun k _ => div_le_div_of_nonneg_right (pow_le_pow_left₀ hb hab k) (by positivity)
      nlinarith
  · rw [div_mul_eq_mul_div, le_div_iff₀ (by linarith)]
    rcases le_total b a with hab | hab
    · have := bes_sub_le hb hab
      nlinarith
    · have : bes a ≤ bes b := by
        unfold bes
        exact sum_le_sum fun k _ => div_le_div_of_nonneg_right (pow_le_pow_left₀ ha hab k) (by positivity)
      nlinarith

theorem bes_rel {g a z : ℝ} (H : Rel g a z) : Rel (g ^ 19) (bes a) (bes z) := by
  apply Rel.sum (one_le_pow₀ H.1)
  intro k hk
  have := (H.pow k).div (Rel.refl (z := ((k.factorial : ℝ)) ^ 2) (by positivity)) (by positivity)
  rw [mul_one] at this
  exact this.mono (pow_le_pow_right₀ H.1 (by omega))

theorem I0_rel {x : ℝ} (hx : |x| ≤ 14) : Rel (1 + 1 / 2 ^ 24) (bes (x ^ 2 / 4)) (I0 x) := by
  have h1 : x ^ 2 ≤ 14 ^ 2 := sq_le_sq' (by linarith [neg_abs_le x]) (by linarith [le_abs_self x])
  have h := tail_le (y := x ^ 2 / 4) (by positivity) (by linarith)
  have hp := bes_one_le (y := x ^ 2 / 4) (by positivity)
  refine ⟨by norm_num, ?_, h.2, ?_⟩
  · exact (by linarith : (0 : ℝ) ≤ bes (x ^ 2 / 4)).trans h.1
  · have h2 : bes (x ^ 2 / 4) ≤ I0 x := h.1
    nlinarith

/-- quotient of the two partial sums: the truncation errors do not add up -/
theorem quotient_rel {x b : ℝ} (hx : |x| ≤ 14) (hb : |b| ≤ 14) :
    Rel (1 + 1 / 2 ^ 24) (bes (x ^ 2 / 4) / bes (b ^ 2 / 4)) (I0 x / I0 b) := by
  have sq : ∀ z : ℝ, |z| ≤ 14 → z ^ 2 / 4 ≤ 49 := fun z hz => by
    have h1 : z ^ 2 ≤ 14 ^ 2 := sq_le_sq' (by linarith [neg_abs_le z]) (by linarith [le_abs_self z])
    linarith
  have h := tail_le (y := x ^ 2 / 4) (by positivity) (sq x hx)
  have k := tail_le (y := b ^ 2 / 4) (by positivity) (sq b hb)
  change _ ≤ I0 x ∧ I0 x ≤ _ at h
  change _ ≤ I0 b ∧ I0 b ≤ _ at k
  have hp := bes_one_le (y := x ^ 2 / 4) (by positivity)
  have kp := bes_one_le (y := b ^ 2 / 4) (by positivity)
  generalize bes (x ^ 2 / 4) = A at *
  generalize bes (b ^ 2 / 4) = B at *
  generalize I0 x = P at *
  generalize I0 b = Q at *
  have hP : 0 < P := by linarith
  have hQ : 0 < Q := by linarith
  refine ⟨by norm_num, by positivity, ?_, ?_⟩
  · rw [← mul_div_assoc]
    exact div_le_div₀ (by nlinarith) h.2 (by linarith) k.1
  · rw [← mul_div_assoc, div_le_div_iff₀ (by linarith) hQ]
    calc A * Q ≤ P * ((1 + 1 / 2 ^ 24) * B) := mul_le_mul h.1 k.2 hQ.le hP.le
      _ = _ := by ring

/-- the argument of the numerator -/
theorem kaiser_arg_le {len i : ℕ} {beta : ℝ} (hb : |beta| ≤ 14) :
    |beta * Real.sqrt (1 - (2 * i / ((len : ℝ) - 1) - 1) ^ 2)| ≤ 14 := by
  rw [abs_mul, abs_of_nonneg (Real.sqrt_nonneg _)]
  have : Real.sqrt (1 - (2 * i / ((len : ℝ) - 1) - 1) ^ 2) ≤ 1 := by
    refine Real.sqrt_le_iff.2 ⟨zero_le_one, ?_⟩; linarith [sq_nonneg (2 * i / ((len : ℝ) - 1) - 1)]
  nlinarith [abs_nonneg beta, Real.sqrt_nonneg (1 - (2 * i / ((len : ℝ) - 1) - 1) ^ 2)]

/-- C114b. In exact arithmetic the Kaiser window of the source, of any length and shape `|β| ≤ 14`, is the textbook
window with the true `I₀`, to a relative `2⁻²⁴` (a rounding error of binary32): the truncation of the series is invisible. -/
theorem kaiser_truncation [F : Flt ℝ] (hF : Lawful F) (checks : Bool) (len : ℕ) (beta : ℝ) (h2 : 2 ≤ len) (hb : |beta| ≤ 14) :
    ∃ w, kaiser checks len beta = .ok w ∧ w.length = len ∧
      ∀ i, i < len → |w.getD i 0 - kaiserWindow len beta i| ≤ 1 / 2 ^ 24 * kaiserWindow len beta i := by
  obtain ⟨w, h, hl, hw, -⟩ := kaiser_spec hF checks len beta h2
  refine ⟨w, h, hl, fun i hi => ?_⟩
  rw [(hw i hi).1, besselI_eq, besselI_eq]
  have := (quotient_rel (kaiser_arg_le (len := len) (i := i) hb) hb).err
  have e : (1 : ℝ) + 1 / 2 ^ 24 - 1 = 1 / 2 ^ 24 := by ring
  rw [e] at this
  exact this

/-! ### Rounding -/

section rounding

variable [F : Flt ℝ] {u v t w : ℝ} {p : ℕ}

theorem bessel0_fold_rel (hF : Rounding F u v t) (hu : u < 1) {y : ℝ} (hy : 0 ≤ y) (n : ℕ) (hn : n ≤ 1024) :
    let s := (List.range' 1 n).foldl (bessel0Step y) (Flt.one, y, Flt.one)
    let q := 1 / (1 - u)
    Rel (q ^ (4 * n + 1)) s.1 (∑ k ∈ range (n + 1), y ^ k / ((k.factorial : ℝ)) ^ 2) ∧
      Rel (q ^ n) s.2.1 (y ^ (n + 1)) ∧ Rel (q ^ n) s.2.2 (n.factorial : ℝ) := by
  intro s q
  have hu0 := hF.u_nonneg
  have hq : 1 ≤ q := by rw [le_div_iff₀ (by linarith)]; linarith
  induction n with
  | zero =>
    refine ⟨?_, ?_, ?_⟩
    · simpa [s, hF.one] using (Rel.refl zero_le_one).mono hq
    · simpa [s] using Rel.refl hy
    · simpa [s, hF.one] using Rel.refl zero_le_one
  | succ n ih =>
    obtain ⟨i1, i2, i3⟩ := ih (by omega)
    have hs : s = bessel0Step y ((List.range' 1 n).foldl (bessel0Step y) (Flt.one, y, Flt.one)) (1 + n) := by
      simp only [s]
      rw [List.range'_concat, List.foldl_append]
      simp
    rw [hs]
    generalize (List.range' 1 n).foldl (bessel0Step y) (Flt.one, y, Flt.one) = z at *
    have hk : Rel (q ^ n * q) (F.mul z.2.2 (F.ofNatD (1 + n))) ((n + 1).factorial : ℝ) := by
      have h1 : Rel (q ^ n) (z.2.2 * ((1 + n : ℕ) : ℝ)) ((n + 1).factorial : ℝ) := by
        have := i3.mul (Rel.refl (z := ((1 + n : ℕ) : ℝ)) (Nat.cast_nonneg _))
        rw [mul_one] at this
        rwa [show ((n + 1).factorial : ℝ) = (n.factorial : ℝ) * ((1 + n : ℕ) : ℝ) by
          rw [Nat.factorial_succ]; push_cast; ring]
      rw [hF.ofNatD _ (by omega)]
      exact h1.rnd hu0 hu (hF.mul _ _)
    have hkk := (hk.mul hk).rnd hu0 hu (hF.mul _ _)
    have hfp : (0 : ℝ) < ((n + 1).factorial : ℝ) := by positivity
    have hkp : F.mul (F.mul z.2.2 (F.ofNatD (1 + n))) (F.mul z.2.2 (F.ofNatD (1 + n))) ≠ 0 := by
      intro h0
      have := hkk.2.2.1
      rw [h0, mul_zero] at this
      nlinarith
    have hd := (i2.div hkk (by positivity)).rnd hu0 hu (hF.div _ _ hkp)
    have ht := (i2.mul (Rel.refl hy)).rnd hu0 hu (hF.mul _ _)
    have ha : Rel (q ^ (4 * n + 4)) (z.1 + F.div z.2.1 (F.mul (F.mul z.2.2 (F.ofNatD (1 + n))) (F.mul z.2.2 (F.ofNatD (1 + n)))))
        (∑ k ∈ range (n + 1 + 1), y ^ k / ((k.factorial : ℝ)) ^ 2) := by
      rw [sum_range_succ _ (n + 1)]
      apply (i1.mono (pow_le_pow_right₀ hq (by omega))).add
      have := hd.mono (h := q ^ (4 * n + 4)) (by
        change q ^ n * (q ^ n * q * (q ^ n * q) * q) * q ≤ _
        rw [show q ^ n * (q ^ n * q * (q ^ n * q) * q) * q = q ^ (3 * n + 4) by ring]
        exact pow_le_pow_right₀ hq (by omega))
      rwa [← sq] at this
    refine ⟨?_, ?_, ?_⟩
    · have := ha.rnd hu0 hu (hF.add _ _)
      rw [show 4 * (n + 1) + 1 = 4 * n + 4 + 1 by ring, pow_succ]
      exact this
    · rw [mul_one] at ht
      rw [pow_succ, pow_succ y]
      exact ht
    · rw [pow_succ]
      exact hk

/-- one evaluation of the source's `bessel0` -/
theorem bessel0_rel (hF : Rounding F u v t) (hu : u < 1) {g x z : ℝ} (hx : Rel g |x| z) :
    Rel ((g ^ 2 * (1 / (1 - u)) ^ 3) ^ 19 * (1 / (1 - u)) ^ 77) (bessel0 x) (bes (z ^ 2 / 4)) := by
  have hu0 := hF.u_nonneg
  have hz := hx.2.1
  have h4 : Rel (1 * (1 / (1 - u))) (F.lit 4 0) 4 := by
    have := (Rel.refl (z := (4 : ℝ)) (by norm_num)).rnd hu0 hu (b := F.lit 4 0) (by
      have := hF.lit 4 0
      norm_num at this ⊢
      exact this)
    exact this
  have h4p : F.lit 4 0 ≠ 0 := by
    intro h0
    have := h4.2.2.1
    rw [h0] at this; norm_num at this
  have hxx : Rel (g ^ 2 * (1 / (1 - u))) (F.mul x x) (z ^ 2) := by
    have h1 := hx.pow 2
    rw [sq_abs] at h1
    exact h1.rnd hu0 hu (by rw [sq]; exact hF.mul x x)
  have hy : Rel (g ^ 2 * (1 / (1 - u)) ^ 3) (F.div (F.mul x x) (F.lit 4 0)) (z ^ 2 / 4) := by
    have := (hxx.div h4 (by norm_num)).rnd hu0 hu (hF.div _ _ h4p)
    rwa [show g ^ 2 * (1 / (1 - u)) * (1 * (1 / (1 - u))) * (1 / (1 - u)) = g ^ 2 * (1 / (1 - u)) ^ 3 by ring] at this
  have h := (bessel0_fold_rel hF hu hy.nonneg 19 (by norm_num)).1
  rw [mul_comm]
  exact h.trans (bes_rel hy)

/-- The relative error bound of C114c. -/
noncomputable def kaiserGrowth (u w beta : ℝ) : ℝ :=
  (1 / (1 - u)) ^ 307 * (1 / (1 - w)) ^ 38 * (1 / (1 - beta ^ 2 / 4 * ((1 + u) ^ 6 - 1))) * (1 + 1 / 2 ^ 24)

/-- the radicand, rounded -/
theorem kaiser_radicand_close (hp : 1 ≤ p) (h : RoundsToNearest p F) (hF : Rounding F u v t) (len i : ℕ) (h2 : 2 ≤ len)
    (hl : len ≤ 1025) (hi : i < len) :
    let m : ℝ := Flt.ofNatD (len - 1) /. two
    let r : ℝ := (Flt.ofNatD i -. m) /. m
    |(Flt.one -. (r *. r)) - (1 - (2 * i / ((len : ℝ) - 1) - 1) ^ 2)| ≤ (1 + u) ^ 6 - 1 := by
  intro m r
  obtain ⟨hs0, hs1⟩ := kaiser_radicand hp h len i h2 hi
  change 0 ≤ F.sub F.one (F.mul r r) at hs0
  change F.sub F.one (F.mul r r) ≤ 1 at hs1
  have hu := hF.u_nonneg
  have hlen : (2 : ℝ) ≤ len := by exact_mod_cast h2
  have hN : F.ofNatD (len - 1) = (len : ℝ) - 1 := by
    rw [hF.ofNatD _ (by omega), Nat.cast_sub (by omega), Nat.cast_one]
  have hm : m = ((len : ℝ) - 1) / 2 := by
    have h1 := h.div (F.ofNatD (len - 1)) 2 (by norm_num)
    show F.div _ (F.lit 2 0) = _
    rw [h.two, nearest_exact (h.ofNatD (len - 1)).1.half h1, hN]
  have hm0 : 0 < m := by rw [hm]; linarith
  set ρ : ℝ := 2 * i / ((len : ℝ) - 1) - 1 with hρ
  have hi' : (i : ℝ) ≤ (len : ℝ) - 1 := by
    have : ((i + 1 : Nat) : ℝ) ≤ len := by exact_mod_cast hi
    push_cast at this; linarith
  have hρe : ((i : ℝ) - m) / m = ρ := by 
    have hne : (len : ℝ) - 1 ≠ 0 := by linarith
    rw [hm, hρ]; field_simp
  have hρ1 : |ρ| ≤ 1 := by
    rw [← hρe, abs_div, abs_of_pos hm0, div_le_one hm0, abs_le]
    have : (0 : ℝ) ≤ i := Nat.cast_nonneg i
    constructor <;> linarith
  -- the position
  have d1 := hF.sub (F.ofNatD i) m
  rw [hF.ofNatD i (by omega)] at d1
  have d2 := hF.div (F.sub (F.ofNatD i) m) m hm0.ne'
  have hr : |r - ρ| ≤ (1 + u) ^ 2 - 1 := by
    change |F.div (F.sub (F.ofNatD i) m) m - ρ| ≤ _
    rw [hF.ofNatD i (by omega)] at d2 ⊢
    have e1 : |F.sub (i : ℝ) m / m - ρ| ≤ u := by
      rw [← hρe, ← sub_div, abs_div, abs_of_pos hm0, div_le_iff₀ hm0]
      refine d1.trans (mul_le_mul_of_nonneg_left ?_ hu)
      rw [← hρe, abs_div, abs_of_pos hm0, div_le_one hm0] at hρ1
      exact hρ1
    have e2 : |F.sub (i : ℝ) m / m| ≤ 1 + u := by
      have := abs_sub_abs_le_abs_sub (F.sub (i : ℝ) m / m) ρ
      linarith
    have e3 := abs_add_le (F.div (F.sub (i : ℝ) m) m - F.sub (i : ℝ) m / m) (F.sub (i : ℝ) m / m - ρ)
    rw [sub_add_sub_cancel] at e3
    nlinarith [mul_le_mul_of_nonneg_left e2 hu]
  have hr1 : |r| ≤ (1 + u) ^ 2 := by
    have := abs_sub_abs_le_abs_sub r ρ
    linarith
  have hrr : |r * r - ρ ^ 2| ≤ (1 + u) ^ 4 - 1 := by
    rw [show r * r - ρ ^ 2 = (r - ρ) * (r + ρ) by ring, abs_mul]
    have : |r + ρ| ≤ (1 + u) ^ 2 + 1 := (abs_add_le _ _).trans (by linarith)
    calc _ ≤ ((1 + u) ^ 2 - 1) * ((1 + u) ^ 2 + 1) := mul_le_mul hr this (abs_nonneg _) ((abs_nonneg _).trans hr)
      _ = _ := by ring
  have hrr1 : |r * r| ≤ (1 + u) ^ 4 := by
    rw [abs_mul]
    calc |r| * |r| ≤ (1 + u) ^ 2 * (1 + u) ^ 2 := mul_le_mul hr1 hr1 (abs_nonneg _) (by positivity)
      _ = _ := by ring
  have d3 := hF.mul r r
  have h5 : |F.mul r r - ρ ^ 2| ≤ (1 + u) ^ 5 - 1 := by
    have e3 := abs_add_le (F.mul r r - r * r) (r * r - ρ ^ 2)
    rw [sub_add_sub_cancel] at e3
    have := mul_le_mul_of_nonneg_left hrr1 hu
    calc _ ≤ u * (1 + u) ^ 4 + ((1 + u) ^ 4 - 1) := by linarith
      _ = _ := by ring
  have d4 := hF.sub F.one (F.mul r r)
  rw [hF.one] at d4
  have h6 : |1 - F.mul r r| ≤ (1 + u) ^ 5 := by
    have e1 : |(1 : ℝ) - ρ ^ 2| ≤ 1 := by
      have := (sq_le_one_iff_abs_le_one ρ).mpr hρ1
      rw [abs_of_nonneg (by linarith)]; linarith [sq_nonneg ρ]
    have e2 := abs_add_le (1 - ρ ^ 2) (ρ ^ 2 - F.mul r r)
    rw [sub_add_sub_cancel, abs_sub_comm (ρ ^ 2)] at e2
    linarith
  change |F.sub F.one (F.mul r r) - (1 - ρ ^ 2)| ≤ _
  rw [hF.one]
  have e3 := abs_add_le (F.sub 1 (F.mul r r) - (1 - F.mul r r)) ((1 - F.mul r r) - (1 - ρ ^ 2))
  rw [sub_add_sub_cancel, show (1 - F.mul r r) - (1 - ρ ^ 2) = -(F.mul r r - ρ ^ 2) by ring, abs_neg] at e3
  have := mul_le_mul_of_nonneg_left h6 hu
  calc _ ≤ u * (1 + u) ^ 5 + ((1 + u) ^ 5 - 1) := by linarith
    _ = _ := by ring

/-- C114c. In rounded arithmetic (any rounding to nearest, any accuracy `u` of the operations and `w` of the square root)
the Kaiser window of the source, of up to 1025 samples and `|β| ≤ 14`, is the textbook window with the true `I₀`, to a
relative error of `kaiserGrowth u w β - 1`: about `2⁻¹⁴` in binary32, see `kaiserGrowth_binary32`. -/
theorem kaiser_error (hp : 1 ≤ p) (h : RoundsToNearest p F) (hF : Rounding F u v t) (hL : Libm F w) (hu : u < 1) (hw : w < 1)
    (checks : Bool) (len : ℕ) (h2 : 2 ≤ len) (hl : len ≤ 1025) (beta : ℝ) (hb : |beta| ≤ 14)
    (hd : beta ^ 2 / 4 * ((1 + u) ^ 6 - 1) < 1) :
    ∃ a, kaiser checks len beta = .ok a ∧ a.length = len ∧
      ∀ i, i < len → |a.getD i 0 - kaiserWindow len beta i| ≤ (kaiserGrowth u w beta - 1) * kaiserWindow len beta i := by
  refine ⟨_, by unfold kaiser; rw [if_neg (by omega)], by simp, fun i hi => ?_⟩
  rw [getD_range_map hi]
  have hu0 := hF.u_nonneg
  have hrad := kaiser_radicand hp h len i h2 hi
  have hclose := kaiser_radicand_close hp h hF len i h2 hl hi
  unfold kaiserAt
  simp only [] at hrad hclose ⊢
  set r : ℝ := (Flt.ofNatD i -. (Flt.ofNatD (len - 1) /. two)) /. (Flt.ofNatD (len - 1) /. two) with hr
  set s : ℝ := Flt.one -. (r *. r) with hs
  set ρ : ℝ := 2 * i / ((len : ℝ) - 1) - 1 with hρ
  have hρ1 : ρ ^ 2 ≤ 1 := by
    have hlen : (2 : ℝ) ≤ len := by exact_mod_cast h2
    have hi' : (i : ℝ) ≤ (len : ℝ) - 1 := by
      have : ((i + 1 : Nat) : ℝ) ≤ len := by exact_mod_cast hi
      push_cast at this; linarith
    have hi0 : (0 : ℝ) ≤ i := Nat.cast_nonneg i
    rw [sq_le_one_iff_abs_le_one, abs_le, hρ]
    have h3 : 2 * (i : ℝ) / ((len : ℝ) - 1) ≤ 2 := by rw [div_le_iff₀ (by linarith)]; linarith
    have h4 : 0 ≤ 2 * (i : ℝ) / ((len : ℝ) - 1) := div_nonneg (by linarith) (by linarith)
    constructor <;> linarith
  -- numerator
  have hsq : Rel (1 * (1 / (1 - w))) (F.sqrt s) (Real.sqrt s) :=
    (Rel.refl (Real.sqrt_nonneg s)).rnd hL.w_nonneg hw (by rw [abs_of_nonneg (a := Real.sqrt s) (Real.sqrt_nonneg s)]; exact hL.sqrt s hrad.1)
  have hx : Rel ((1 / (1 - w)) * (1 / (1 - u))) |F.mul beta (F.sqrt s)| (|beta| * Real.sqrt s) := by
    have h1 := (Rel.refl (abs_nonneg beta)).mul hsq
    rw [one_mul, one_mul] at h1
    refine h1.rnd hu0 hu ?_
    have h3 : |beta| * F.sqrt s = |beta * F.sqrt s| := by rw [abs_mul, abs_of_nonneg (a := F.sqrt s) hsq.nonneg]
    rw [h3, abs_abs]
    exact (abs_abs_sub_abs_le_abs_sub _ _).trans (hF.mul beta (F.sqrt s))
  have hnum := bessel0_rel hF hu hx
  have hden := bessel0_rel hF hu (Rel.refl (abs_nonneg beta))
  have e1 : (|beta| * Real.sqrt s) ^ 2 / 4 = beta ^ 2 / 4 * s := by
    rw [mul_pow, sq_abs, Real.sq_sqrt hrad.1]; ring
  have e2 : (beta * Real.sqrt (1 - ρ ^ 2)) ^ 2 / 4 = beta ^ 2 / 4 * (1 - ρ ^ 2) := by
    rw [mul_pow, Real.sq_sqrt (by linarith)]; ring
  have hnear : Rel (1 / (1 - beta ^ 2 / 4 * ((1 + u) ^ 6 - 1))) (bes (beta ^ 2 / 4 * s)) (bes (beta ^ 2 / 4 * (1 - ρ ^ 2))) := by
    refine bes_near (mul_nonneg (by positivity) hrad.1) (mul_nonneg (by positivity) (by linarith)) ?_ hd
    rw [← mul_sub, abs_mul, abs_of_nonneg (a := beta ^ 2 / 4) (by positivity)]
    exact mul_le_mul_of_nonneg_left hclose (by positivity)
  rw [e1] at hnum
  rw [sq_abs] at hden
  have hB := bes_one_le (y := beta ^ 2 / 4) (by positivity)
  have hbp : bessel0 beta ≠ 0 := by
    intro h0
    have := hden.2.2.1
    rw [h0, mul_zero] at this
    linarith
  have hq := ((hnum.trans hnear).div hden (by linarith)).rnd hu0 hu (hF.div _ _ hbp)
  have hI := quotient_rel (kaiser_arg_le (len := len) (i := i) hb) hb
  rw [← hρ, e2] at hI
  have := (hq.trans hI).err
  refine this.trans (le_of_eq ?_)
  unfold kaiserWindow kaiserGrowth
  rw [← hρ]
  congr 1
  ring

/-- In binary32 (`u = w = 2⁻²⁴`) the bound of `kaiser_error` is below `5·10⁻⁵`, for all `|β| ≤ 14`. -/
theorem kaiserGrowth_binary32 (beta : ℝ) (hb : |beta| ≤ 14) :
    beta ^ 2 / 4 * ((1 + 1 / 2 ^ 24) ^ 6 - 1) < 1 ∧ kaiserGrowth (1 / 2 ^ 24) (1 / 2 ^ 24) beta - 1 ≤ 1 / 20000 := by
  have h1 : beta ^ 2 ≤ 14 ^ 2 := sq_le_sq' (by linarith [neg_abs_le beta]) (by linarith [le_abs_self beta])
  have hd : beta ^ 2 / 4 * ((1 + 1 / 2 ^ 24) ^ 6 - 1) ≤ 295 / 2 ^ 24 := by
    calc _ ≤ (49 : ℝ) * ((1 + 1 / 2 ^ 24) ^ 6 - 1) := mul_le_mul_of_nonneg_right (by linarith) (by norm_num)
      _ ≤ _ := by norm_num
  refine ⟨lt_of_le_of_lt hd (by norm_num), ?_⟩
  unfold kaiserGrowth
  have hb1 : (1 - 345 / 2 ^ 24 : ℝ) ≤ (1 - 1 / 2 ^ 24) ^ 345 := by
    have := one_add_mul_le_pow (a := -(1 / 2 ^ 24 : ℝ)) (by norm_num) 345
    rw [← sub_eq_add_neg] at this
    refine le_trans ?_ this
    norm_num
  have hq : (1 / (1 - 1 / 2 ^ 24 : ℝ)) ^ 307 * (1 / (1 - 1 / 2 ^ 24)) ^ 38 ≤ 1 / (1 - 345 / 2 ^ 24) := by
    rw [← pow_add, show 307 + 38 = 345 by rfl, one_div_pow]
    exact one_div_le_one_div_of_le (by norm_num) hb1
  have hd' : 1 / (1 - beta ^ 2 / 4 * ((1 + 1 / 2 ^ 24) ^ 6 - 1)) ≤ 1 / (1 - 295 / 2 ^ 24) :=
    one_div_le_one_div_of_le (by norm_num) (by linarith)
  have hp0 : 0 ≤ 1 / (1 - beta ^ 2 / 4 * ((1 + 1 / 2 ^ 24) ^ 6 - 1)) :=
    div_nonneg zero_le_one (by linarith [hd, (by norm_num : (295 : ℝ) / 2 ^ 24 ≤ 1)])
  have := mul_le_mul_of_nonneg_right (mul_le_mul hq hd' hp0 (by norm_num)) (by norm_num : (0 : ℝ) ≤ 1 + 1 / 2 ^ 24)
  have h9 : (1 / (1 - 345 / 2 ^ 24) * (1 / (1 - 295 / 2 ^ 24)) * (1 + 1 / 2 ^ 24) : ℝ) ≤ 1 + 1 / 20000 := by norm_num
  exact sub_le_iff_le_add'.mpr (this.trans h9)

end rounding

/-- not vacuous: binary32 rounding, 512 samples, `β = 8.6` -/
example : ∃ a, @kaiser ℝ (rndFlt 24 24 true true) true 512 8.6 = .ok a ∧ a.length = 512 ∧
    ∀ i, i < 512 → |a.getD i 0 - kaiserWindow 512 8.6 i| ≤ 1 / 20000 * kaiserWindow 512 8.6 i := by
  letI := rndFlt 24 24 true true
  have hb : |(8.6 : ℝ)| ≤ 14 := by rw [abs_of_pos] <;> norm_num
  obtain ⟨h1, h2⟩ := kaiserGrowth_binary32 8.6 hb
  obtain ⟨a, ha, hl, h⟩ := kaiser_error (by norm_num) (rndFlt_nearest (by norm_num) true true)
    (rndFlt_rounding 24 24 (by norm_num) (by norm_num) true true) (rndFlt_libm 24 24 (by norm_num) true true)
    (by norm_num) (by norm_num) true 512 (by norm_num) (by norm_num) 8.6 hb h1
  refine ⟨a, ha, hl, fun i hi => (h i hi).trans (mul_le_mul_of_nonneg_right h2 ?_)⟩
  unfold kaiserWindow
  exact div_nonneg (I0_rel (kaiser_arg_le hb)).2.1 (I0_rel hb).2.1

/-! ### Overflow -/

section overflow

variable {T : Type} [F : Flt T] {N : Denote T} {num : T → Prop} {u η Ω' : ℝ}

theorem bessel0_fold_t (hL : Loses F N num u η Ω') (hu : u ≤ 1 / 10000) (hη : η ≤ 1 / 10000) {y : T} (hy : N.fin y)
    (hy1 : 109.6 ≤ N.val y) (n : ℕ) :
    let s := (List.range' 1 n).foldl (bessel0Step y) (Flt.one, y, Flt.one)
    num s.2.1 → N.fin s.2.1 ∧ 109.5 ^ (n + 1) ≤ N.val s.2.1 ∧ (0 < n → 109.5 ^ (n + 1) ≤ Ω') := by
  induction n with
  | zero =>
    intro s _
    refine ⟨hy, ?_, by simp⟩
    show 109.5 ^ (0 + 1) ≤ N.val y
    norm_num at hy1 ⊢; linarith
  | succ n ih =>
    intro s hs
    have e : s.2.1 = F.mul ((List.range' 1 n).foldl (bessel0Step y) (Flt.one, y, Flt.one)).2.1 y := by
      simp only [s]
      rw [List.range'_concat, List.foldl_append]
      rfl
    rw [e] at hs ⊢
    obtain ⟨h1, h2, -⟩ := ih (hL.sticky.mul _ _ hs).1
    obtain ⟨h3, h4, h5⟩ := hL.mul _ _ h1 hy hs
    generalize N.val ((List.range' 1 n).foldl (bessel0Step y) (Flt.one, y, Flt.one)).2.1 = A at *
    generalize N.val y = B at *
    have hA : 1 ≤ A := le_trans (one_le_pow₀ (by norm_num)) h2
    have hAB : 109.6 * A ≤ A * B := by nlinarith
    have h6 : (109.5 : ℝ) ^ (n + 1 + 1) ≤ 109.5 * A := by rw [pow_succ, mul_comm]; nlinarith
    rw [abs_of_nonneg (by nlinarith : 0 ≤ A * B)] at h3 h5
    have h7 := (abs_le.mp h5).1
    have h8 : u * (A * B) ≤ 1 / 10000 * (A * B) := mul_le_mul_of_nonneg_right hu (by nlinarith)
    refine ⟨h4, ?_, fun _ => by linarith⟩
    linarith

/-- a number of modulus at least 20.95 loses `bessel0` -/
theorem bessel0_lost (hL : Loses F N num u η Ω') (hu : u ≤ 1 / 10000) (hη : η ≤ 1 / 10000)
    (hΩ : Ω' ≤ 3.5 * 10 ^ 38) {x : T} (hx : N.fin x) (hx1 : 20.95 ≤ |N.val x|) : ¬ num (bessel0 x) := by
  intro hn
  unfold bessel0 at hn
  simp only [] at hn
  -- the last step
  set y : T := (x *. x) /. Flt.lit 4 0 with hy
  have e : ∀ n, (List.range' 1 (n + 1)).foldl (bessel0Step y) (Flt.one, y, Flt.one) =
      bessel0Step y ((List.range' 1 n).foldl (bessel0Step y) (Flt.one, y, Flt.one)) (1 + n) := by
    intro n
    rw [List.range'_concat, List.foldl_append]
    simp
  rw [e 18] at hn
  have h18 : num ((List.range' 1 18).foldl (bessel0Step y) (Flt.one, y, Flt.one)).2.1 :=
    hL.sticky.div _ _ (hL.sticky.add _ _ hn).2
  have hyn : ∀ n, num ((List.range' 1 n).foldl (bessel0Step y) (Flt.one, y, Flt.one)).2.1 → num y := by
    intro n
    induction n with
    | zero => exact id
    | succ n ih => rw [e n]; exact fun h => (hL.sticky.mul _ _ h).2
  have hyn' := hyn 18 h18
  have hxx := hL.sticky.div _ _ hyn'
  obtain ⟨-, f1, a1⟩ := hL.mul _ _ hx hx hxx
  obtain ⟨f2, a2⟩ := hL.div _ _ f1 hL.four.1 (by rw [hL.four.2]; norm_num) hyn'
  rw [hL.four.2] at a2
  have hs : 20.95 ^ 2 ≤ N.val x * N.val x := by rw [← abs_mul_abs_self (N.val x), ← sq]; exact pow_le_pow_left₀ (by norm_num) hx1 2
  generalize N.val x * N.val x = A at *
  generalize hB : N.val (F.mul x x) = B at *
  have hs' : (438 : ℝ) ≤ A := le_trans (by norm_num) hs
  rw [abs_of_nonneg (a := A) (by linarith)] at a1
  have b1 := (abs_le.mp a1).1
  have b2 : u * A ≤ 1 / 10000 * A := mul_le_mul_of_nonneg_right hu (by linarith)
  norm_num at hs
  have hB0 : 438.8 ≤ B := by norm_num; linarith
  rw [abs_of_nonneg (a := B / 4) (by linarith)] at a2
  have b3 := (abs_le.mp a2).1
  have b4 : u * (B / 4) ≤ 1 / 10000 * (B / 4) := mul_le_mul_of_nonneg_right hu (by linarith)
  have hyv : 109.6 ≤ N.val y := by norm_num at hB0 ⊢; change _ ≤ N.val (F.div (F.mul x x) (F.lit 4 0)); linarith
  obtain ⟨-, -, h3⟩ := bessel0_fold_t hL hu hη f2 hyv 18 h18
  have := (h3 (by norm_num)).trans hΩ
  norm_num at this

/-- C114d. Binary32 and every arithmetic that loses products beyond `3.5·10³⁸`: for a shape `|β| ≥ 21` and any odd length
from 3 to 1025, `kaiser` returns a window whose middle sample (exactly 1 in exact arithmetic) is not a number: the powers
`(β²/4)¹⁹` in the series overflow. -/
theorem kaiser_centre_lost (hL : Loses F N num u η Ω') (hu : u ≤ 1 / 10000) (hη : η ≤ 1 / 10000)
    (hΩ : Ω' ≤ 3.5 * 10 ^ 38) (checks : Bool) (i : ℕ) (hi : 1 ≤ i) (hi' : i ≤ 512) (beta : T) (hb : N.fin beta)
    (hb1 : 21 ≤ |N.val beta|) :
    ∃ w, kaiser checks (2 * i + 1) beta = .ok w ∧ w.length = 2 * i + 1 ∧ ∃ c, w[i]? = some c ∧ ¬ num c := by
  refine ⟨_, by unfold kaiser; rw [if_neg (by omega)], by simp, kaiserAt beta (2 * i + 1) i,
    by rw [List.getElem?_map, List.getElem?_range (by omega)]; rfl, fun hn => ?_⟩
  unfold kaiserAt at hn
  simp only [Nat.add_sub_cancel] at hn
  have hB := hL.sticky.div _ _ hn
  set m : T := Flt.ofNatD (2 * i) /. two with hm
  set r : T := (Flt.ofNatD i -. m) /. m with hr
  set s : T := Flt.one -. (r *. r) with hs
  have ri : (1 : ℝ) ≤ i := by exact_mod_cast hi
  -- everything before is a number
  have nx : num (beta *. Flt.sqrt s) := by
    have := hB
    unfold bessel0 at this
    simp only [] at this
    generalize beta *. Flt.sqrt s = x at *
    set y : T := (x *. x) /. Flt.lit 4 0 with hy
    have e : ∀ n, (List.range' 1 (n + 1)).foldl (bessel0Step y) (Flt.one, y, Flt.one) =
        bessel0Step y ((List.range' 1 n).foldl (bessel0Step y) (Flt.one, y, Flt.one)) (1 + n) := by
      intro n
      rw [List.range'_concat, List.foldl_append]
      simp
    rw [e 18] at this
    have h18 := hL.sticky.div _ _ (hL.sticky.add _ _ this).2
    rw [e 17] at h18
    exact (hL.sticky.mul _ _ (hL.sticky.div _ _ (hL.sticky.mul _ _ h18).2)).1
  have nq : num (F.sqrt s) := (hL.sticky.mul _ _ nx).2
  have ns : num (F.sub F.one (F.mul r r)) := hL.sqrt_num _ nq
  have nrr : num (F.mul r r) := (hL.sticky.sub _ _ ns).2
  have nr : num (F.div (F.sub (F.ofNatD i) m) m) := (hL.sticky.mul _ _ nrr).1
  have na : num (F.sub (F.ofNatD i) m) := hL.sticky.div _ _ nr
  have nm : num (F.div (F.ofNatD (2 * i)) (F.lit 2 0)) := (hL.sticky.sub _ _ na).2
  -- values
  obtain ⟨fi, vi⟩ := hL.ofNatD i (by omega)
  obtain ⟨fN, vN⟩ := hL.ofNatD (2 * i) (by omega)
  obtain ⟨fm, am⟩ := hL.div _ _ fN hL.two.1 (by rw [hL.two.2]; norm_num) nm
  change |N.val m - _| ≤ _ at am
  rw [vN, hL.two.2, show ((2 * i : ℕ) : ℝ) / 2 = i by push_cast; ring, abs_of_nonneg (a := (i : ℝ)) (by linarith)] at am
  have ui : u * (i : ℝ) ≤ 1 / 10000 * i := mul_le_mul_of_nonneg_right hu (by linarith)
  have am' : |N.val m - i| ≤ 2 / 10000 * i := by linarith
  have am2 := abs_le.mp am'
  change N.fin m at fm
  obtain ⟨fa, aa⟩ := hL.sub _ _ fi fm na
  rw [vi, abs_sub_comm (i : ℝ)] at aa
  have aa' : |N.val (F.sub (F.ofNatD i) m)| ≤ 3 / 10000 * i := by
    have h1 := abs_sub_abs_le_abs_sub (N.val (F.sub (F.ofNatD i) m)) ((i : ℝ) - N.val m)
    rw [abs_sub_comm (i : ℝ)] at h1
    have h2 : u * |N.val m - i| ≤ 1 / 10000 * (2 / 10000 * i) := mul_le_mul hu am' (abs_nonneg _) (by norm_num)
    linarith
  have hm0 : N.val m ≠ 0 := by intro h; rw [h] at am2; linarith [am2.1]
  have hmp : 0 < N.val m := by linarith
  obtain ⟨fr, ar⟩ := hL.div _ _ fa fm hm0 nr
  have q1 : |N.val (F.sub (F.ofNatD i) m) / N.val m| ≤ 4 / 10000 := by
    rw [abs_div, abs_of_pos hmp, div_le_iff₀ hmp]
    linarith
  have ar' : |N.val r| ≤ 6 / 10000 := by
    change |N.val r - N.val (F.sub (F.ofNatD i) m) / N.val m| ≤ _ at ar
    have h1 := abs_sub_abs_le_abs_sub (N.val r) (N.val (F.sub (F.ofNatD i) m) / N.val m)
    have h2 := mul_le_mul hu q1 (abs_nonneg _) (by norm_num)
    linarith
  change N.fin r at fr
  obtain ⟨-, frr, arr⟩ := hL.mul _ _ fr fr nrr
  have q2 : |N.val r * N.val r| ≤ 36 / 100000000 := by
    rw [abs_mul]
    calc _ ≤ (6 / 10000 : ℝ) * (6 / 10000) := mul_le_mul ar' ar' (abs_nonneg _) (by norm_num)
      _ = _ := by norm_num
  have arr' : |N.val (F.mul r r)| ≤ 2 / 10000 := by
    have h1 := abs_sub_abs_le_abs_sub (N.val (F.mul r r)) (N.val r * N.val r)
    have h2 := mul_le_mul hu q2 (abs_nonneg _) (by norm_num)
    linarith
  obtain ⟨fs, as⟩ := hL.sub _ _ hL.one.1 frr ns
  change |N.val s - _| ≤ _ at as
  rw [hL.one.2] at as
  have arr2 := abs_le.mp arr'
  have as' : 999 / 1000 ≤ N.val s := by
    rw [abs_of_nonneg (a := 1 - N.val (F.mul r r)) (by linarith)] at as
    have h2 := mul_le_mul_of_nonneg_right hu (by linarith : 0 ≤ 1 - N.val (F.mul r r))
    have := (abs_le.mp as).1
    linarith
  change N.fin s at fs
  obtain ⟨fq, aq⟩ := hL.sqrt _ fs (by linarith) nq
  have hq : 999 / 1000 ≤ Real.sqrt (N.val s) := by
    apply Real.le_sqrt_of_sq_le
    refine le_trans (by norm_num) as'
  have aq' : 998 / 1000 ≤ N.val (F.sqrt s) := by
    have h2 := mul_le_mul_of_nonneg_right hu (by linarith : 0 ≤ Real.sqrt (N.val s))
    have := (abs_le.mp aq).1
    linarith
  obtain ⟨-, fx, ax⟩ := hL.mul _ _ hb fq nx
  refine bessel0_lost hL hu hη hΩ fx ?_ hB
  have hprod : 21 * (998 / 1000) ≤ |N.val beta * N.val (F.sqrt s)| := by
    rw [abs_mul, abs_of_nonneg (a := N.val (F.sqrt s)) (by linarith)]
    exact mul_le_mul hb1 aq' (by norm_num) (abs_nonneg _)
  have h1 := abs_sub_abs_le_abs_sub (N.val beta * N.val (F.sqrt s)) (N.val (F.mul beta (F.sqrt s)))
  rw [abs_sub_comm] at h1
  have h2 := mul_le_mul_of_nonneg_right hu (abs_nonneg (N.val beta * N.val (F.sqrt s)))
  rw [show (20.95 : ℝ) = 419 / 20 by norm_num]
  change _ ≤ |N.val (F.mul beta (F.sqrt s))|
  linarith

end overflow

/-- the arithmetic of `Lib/IeeeFlt` -/
theorem binFlt_loses (p r : ℕ) (q : ℤ) (Ω : ℝ) (hp : 11 ≤ p) (hr : 1 ≤ r) (hrp : r ≤ p) (hq : q ≤ -1 - p)
    (hΩ : 1000000 ≤ Ω) (fused fma : Bool) :
    Loses (binFlt p r q Ω fused fma) (binDen q) (fun a => a ≠ none) (1 / 2 ^ p) (2 ^ (q - 1)) Ω := by
  have hI := binFlt_ieee p r q Ω hp hr hrp hq hΩ fused fma
  have fit : ∀ x : ℝ, (if |x| ≤ Ω then some (grd p q x) else none) ≠ none → |x| ≤ Ω := by
    intro x h
    by_contra hc
    exact h (if_neg hc)
  refine ⟨binFlt_sticky p r q Ω fused fma, ?_, ?_, ?_, ?_, ?_, hI.one, hI.two, ?_, hI.ofNatD⟩
  · rintro _ _ ⟨a, rfl, ha⟩ ⟨b, rfl, hb⟩ h
    exact hI.sub _ _ ⟨a, rfl, ha⟩ ⟨b, rfl, hb⟩ (fit _ h)
  · rintro _ _ ⟨a, rfl, ha⟩ ⟨b, rfl, hb⟩ h
    exact ⟨fit _ h, hI.mul _ _ ⟨a, rfl, ha⟩ ⟨b, rfl, hb⟩ (fit _ h)⟩
  · rintro _ _ ⟨a, rfl, ha⟩ ⟨b, rfl, hb⟩ h0 h
    refine hI.div _ _ ⟨a, rfl, ha⟩ ⟨b, rfl, hb⟩ h0 (fit (a / b) ?_)
    change b ≠ 0 at h0
    change (if b = 0 then none else if |a / b| ≤ Ω then some (grd p q (a / b)) else none) ≠ none at h
    rwa [if_neg h0] at h
  · rintro _ ⟨a, rfl, ha⟩ h0 _
    change 0 ≤ a at h0
    have e : (binFlt p r q Ω fused fma).sqrt (some a) = some (grd p q (Real.sqrt a)) := by
      show (if a < 0 then none else some (grd p q (Real.sqrt a))) = _
      rw [if_neg (by linarith)]
    rw [e]
    refine ⟨⟨_, rfl, onGrid_grd p q _⟩, ?_⟩
    have := grd_close p q (Real.sqrt a)
    rwa [abs_of_nonneg (a := Real.sqrt a) (Real.sqrt_nonneg a)] at this
  · rintro (_ | a) h
    · exact absurd rfl h
    · simp
  · have h4 : grd p q (4 : ℝ) = 4 := by
      have := grd_nat p (q := q) (by omega) 4 (by
        calc 4 < 2 ^ 11 := by norm_num
          _ ≤ 2 ^ p := Nat.pow_le_pow_right (by norm_num) hp)
      exact_mod_cast this
    have e : (binFlt p r q Ω fused fma).lit 4 0 = some 4 := by
      show some (grd p q (((4 : ℤ) : ℝ) / 10 ^ 0)) = _
      norm_num
      exact h4
    rw [e]
    refine ⟨⟨4, rfl, ?_⟩, rfl⟩
    rw [← h4]
    exact onGrid_grd p q _

/-- not vacuous: binary32, 65 samples, `β = 24` -/
example (checks : Bool) : ∃ w, @kaiser (Option ℝ) (binFlt 24 24 (-149) (2 ^ 128) true true) checks 65 (some 24) = .ok w ∧ w.length = 65 ∧
    ∃ c, w[32]? = some c ∧ ¬ c ≠ none := by
  letI := binFlt 24 24 (-149) (2 ^ 128) true true
  have hfin : (binDen (-149)).fin (some 24) := ⟨24, rfl, 24 * 2 ^ 149, by norm_num [zpow_neg]⟩
  refine kaiser_centre_lost (F := binFlt 24 24 (-149) (2 ^ 128) true true)
    (binFlt_loses 24 24 (-149) (2 ^ 128) (by norm_num) (by norm_num) (by norm_num) (by norm_num) (by norm_num) true true)
    (by norm_num) ?_ (by norm_num) checks 32 (by norm_num) (by norm_num) (some 24) hfin ?_
  · have h1 : (2 : ℝ) ^ (-149 - 1 : ℤ) ≤ 2 ^ (-14 : ℤ) := zpow_le_zpow_right₀ (by norm_num) (by norm_num)
    refine h1.trans ?_
    norm_num [zpow_neg]
    
  · show (21 : ℝ) ≤ |24|
    rw [abs_of_pos] <;> norm_num

end Kofft.Props
