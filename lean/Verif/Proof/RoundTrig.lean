import Verif.Lib.Apx
import Verif.Proof.Trig
import Verif.Proof.RoundBlu
/-
Rounding errors of the direct cosine, sine and Hartley transforms.
-/
namespace Kofft

open Spec Finset

/-- `Apx` for real numbers. -/
abbrev RApx (g a z A : ℝ) : Prop := Apx g (a : ℂ) (z : ℂ) A

namespace RApx
variable {g h u a b c z w A B ε : ℝ}

theorem abs_err (H : RApx g a z A) : |a - z| ≤ (g - 1) * A := by
  have := Apx.err H
  rwa [← Complex.ofReal_sub, Complex.norm_real] at this

theorem abs_bd (H : RApx g a z A) : |z| ≤ A := by
  have := Apx.bd H
  rwa [Complex.norm_real] at this

theorem mk' (hg : 1 ≤ g) (h1 : |a - z| ≤ (g - 1) * A) (h2 : |z| ≤ A) : RApx g a z A :=
  ⟨hg, by rw [← Complex.ofReal_sub, Complex.norm_real]; exact h1, by rw [Complex.norm_real]; exact h2⟩

theorem rel (hg : 1 ≤ g) (h1 : |a - z| ≤ (g - 1) * |z|) : RApx g a z |z| := mk' hg h1 le_rfl

theorem mul (H : RApx g a z A) (K : RApx h b w B) (hu : 0 ≤ u) (hc : |c - a * b| ≤ u * |a * b|) :
    RApx (g * h * (1 + u)) c (z * w) (A * B) := by
  have := Apx.mul H K hu (c := (c : ℂ)) (by
    rw [← Complex.ofReal_mul, ← Complex.ofReal_sub, Complex.norm_real, Complex.norm_real, Complex.norm_real]
    simpa [abs_mul] using hc)
  rwa [← Complex.ofReal_mul] at this

theorem add (H : RApx g a z A) (K : RApx g b w B) (hu : 0 ≤ u) (hc : |c - (a + b)| ≤ u * |a + b|) :
    RApx (g * (1 + u)) c (z + w) (A + B) := by
  have := Apx.add H K hu (c := (c : ℂ)) (by
    rw [← Complex.ofReal_add, ← Complex.ofReal_sub, Complex.norm_real, Complex.norm_real]
    exact hc)
  rwa [← Complex.ofReal_add] at this

theorem neg (H : RApx g a z A) : RApx g (-a) (-z) A := by
  have := Apx.neg' H
  rwa [← Complex.ofReal_neg, ← Complex.ofReal_neg] at this

theorem round (H : RApx g a z A) (hu : 0 ≤ u) (hc : |c - a| ≤ u * |a|) : RApx (g * (1 + u)) c z A :=
  Apx.round H hu (by rw [← Complex.ofReal_sub, Complex.norm_real, Complex.norm_real]; exact hc)

theorem refl (z : ℝ) : RApx 1 z z |z| := rel le_rfl (by simp)

/-- reciprocal -/
theorem inv (hz : z ≠ 0) (hε0 : 0 ≤ ε) (hε : ε < 1) (h : |a - z| ≤ ε * |z|) :
    a ≠ 0 ∧ RApx (1 / (1 - ε)) a⁻¹ z⁻¹ |z⁻¹| := by
  have hz' : 0 < |z| := abs_pos.mpr hz
  have h1 : (1 - ε) * |z| ≤ |a| := by
    have := abs_sub_abs_le_abs_sub z a
    rw [abs_sub_comm] at this
    nlinarith
  have hpos : 0 < (1 - ε) * |z| := mul_pos (by linarith) hz'
  have ha : 0 < |a| := by linarith
  have ha' : a ≠ 0 := abs_pos.mp ha
  refine ⟨ha', rel (by rw [le_div_iff₀ (by linarith)]; linarith) ?_⟩
  have e1 : a⁻¹ - z⁻¹ = (z - a) * a⁻¹ * z⁻¹ := by field_simp
  rw [e1, abs_mul]
  gcongr
  rw [abs_mul, abs_inv, abs_sub_comm]
  have e2 : 1 / (1 - ε) - 1 = ε * |z| * ((1 - ε) * |z|)⁻¹ := by
    have : 1 - ε ≠ 0 := by linarith
    field_simp; ring
  rw [e2]
  exact mul_le_mul h (inv_anti₀ hpos h1) (by positivity) (by positivity)

end RApx

variable [F : Flt ℝ] {u v t : ℝ}

/-! ### Sums -/

theorem accV_rnd (h : Rounding F u v t) (x : List ℝ) (lo : ℕ) (f : ℕ → ℝ → ℝ) (init : ℝ) {g i0 A0 : ℝ} (z A : ℕ → ℝ)
    (h0 : RApx g init i0 A0) (n : ℕ) (c : ℕ) (hc : lo + c ≤ n)
    (hz : ∀ i, lo ≤ i → i < n → RApx g (f i (x.getD i 0)) (z i) (A i)) :
    RApx (g * (1 + u) ^ c) (accV x lo f init c) (i0 + ∑ i ∈ Ico lo (lo + c), z i) (A0 + ∑ i ∈ Ico lo (lo + c), A i) := by
  have hu := h.u_nonneg
  induction c with
  | zero => simpa [accV] using h0
  | succ c ih =>
    have h1 := ih (by omega)
    have h2 := hz (lo + c) (by omega) (by omega)
    have h3 : RApx (g * (1 + u) ^ c) _ _ _ := Apx.mono h2
      (le_mul_of_one_le_right (by linarith [Apx.one h2]) (one_le_pow₀ (by linarith)))
    have := h1.add h3 hu (h.add _ _)
    rw [pow_succ, ← mul_assoc, ← Nat.add_assoc, sum_Ico_succ_top (by omega), sum_Ico_succ_top (by omega), ← add_assoc,
      ← add_assoc, accV, h.zero]
    exact this

/-! ### Angles -/

theorem nat_rnd (h : Rounding F u v t) (i : ℕ) : RApx (1 + v) (F.ofNat i) i (i : ℝ) := by
  have := RApx.rel (g := 1 + v) (a := F.ofNat i) (z := (i : ℝ)) (by linarith [h.v_nonneg])
    (by rw [Nat.abs_cast, add_sub_cancel_left]; exact h.ofNat i)
  rwa [Nat.abs_cast] at this

/-- an index -/
theorem idx_rnd (h : Rounding F u v t) (i : ℕ) : RApx ((1 + v) * (1 + u)) (F.ofNat i) i (i : ℝ) :=
  Apx.mono (nat_rnd h i) (le_mul_of_one_le_right (by linarith [h.v_nonneg]) (by linarith [h.u_nonneg]))

/-- an index plus one half or one -/
theorem idxo_rnd (h : Rounding F u v t) (i : ℕ) {o : ℝ} (ho : 0 ≤ o) :
    RApx ((1 + v) * (1 + u)) (F.add (F.ofNat i) o) (i + o) (i + o) := by
  have h1 : RApx (1 + v) o o o := by
    have := RApx.refl o
    rw [abs_of_nonneg ho] at this
    exact Apx.mono this (by linarith [h.v_nonneg])
  exact (nat_rnd h i).add h1 h.u_nonneg (h.add _ _)

/-- `π / D` for a computed denominator -/
theorem factor_rnd (h : Rounding F u v t) (hu1 : u < 1) (hv2 : v < 1 / 2) {b d D : ℝ} (hD : 0 < D)
    (hb : |b - D| ≤ 2 * v * D) (hd : |d - b| ≤ u * |b|) {p P g : ℝ} (hp : RApx g p P P) :
    RApx (g * (1 + u) / ((1 - 2 * v) * (1 - u))) (F.div p d) (P / D) (P / D) := by
  have hu := h.u_nonneg
  have hv := h.v_nonneg
  obtain ⟨hb0, i1⟩ := RApx.inv hD.ne' (by linarith : 0 ≤ 2 * v) (by linarith) (by rw [abs_of_pos hD]; exact hb)
  obtain ⟨hd0, i2⟩ := RApx.inv hb0 hu hu1 hd
  have e := i2.abs_err
  have hr : 1 ≤ 1 / (1 - u) := by rw [le_div_iff₀ (by linarith)]; linarith
  have i3 := i1.round (by linarith) e
  have := hp.mul i3 hu (c := F.div p d) (by rw [← div_eq_mul_inv]; exact h.div _ _ hd0)
  rw [abs_of_pos (inv_pos.mpr hD), ← div_eq_mul_inv] at this
  convert this using 1
  have n1 : 1 - u ≠ 0 := by linarith
  have n2 : 1 - 2 * v ≠ 0 := by linarith
  field_simp
  ring

theorem pi_rnd (h : Rounding F u v t) : RApx (1 + u) F.pi Real.pi Real.pi := by
  have := RApx.rel (g := 1 + u) (a := F.pi) (z := Real.pi) (by linarith [h.u_nonneg])
    (by rw [add_sub_cancel_left, abs_of_pos Real.pi_pos]; exact h.pi)
  rwa [abs_of_pos Real.pi_pos] at this

/-- the factor of the transforms -/
noncomputable def facGrowth (u v : ℝ) : ℝ := (1 + u) ^ 2 / ((1 - 2 * v) * (1 - u))

theorem facN (h : Rounding F u v t) (hu1 : u < 1) (hv2 : v < 1 / 2) {n : ℕ} (hn : 0 < n) :
    RApx (facGrowth u v) (F.div F.pi (F.ofNat n)) (Real.pi / n) (Real.pi / n) := by
  have hv := h.v_nonneg
  have hn' : (0 : ℝ) < n := by exact_mod_cast hn
  have := factor_rnd h hu1 hv2 hn' (b := F.ofNat n) (d := F.ofNat n)
    ((h.ofNat n).trans (by nlinarith)) (by simp [h.u_nonneg, mul_nonneg]) (pi_rnd h)
  rwa [← sq] at this

theorem facN1 (h : Rounding F u v t) (hu1 : u < 1) (hv2 : v < 1 / 2) (n : ℕ) :
    RApx (facGrowth u v) (F.div F.pi (F.add (F.ofNat n) F.one)) (Real.pi / (n + 1)) (Real.pi / (n + 1)) := by
  have hv := h.v_nonneg
  have hn' : (0 : ℝ) ≤ n := by positivity
  have := factor_rnd h hu1 hv2 (D := n + 1) (by positivity) (b := F.ofNat n + 1) (d := F.add (F.ofNat n) 1)
    (by rw [add_sub_add_right_eq_sub]; exact (h.ofNat n).trans (by nlinarith)) (h.add _ _) (pi_rnd h)
  rw [h.one]
  rwa [← sq] at this

theorem facNm1 (h : Rounding F u v t) (hu1 : u < 1) (hv2 : v < 1 / 2) {n : ℕ} (hn : 2 ≤ n) :
    RApx (facGrowth u v) (F.div F.pi (F.sub (F.ofNat n) F.one)) (Real.pi / (n - 1)) (Real.pi / (n - 1)) := by
  have hv := h.v_nonneg
  have hn' : (2 : ℝ) ≤ n := by exact_mod_cast hn
  have := factor_rnd h hu1 hv2 (D := n - 1) (by linarith) (b := F.ofNat n - 1) (d := F.sub (F.ofNat n) 1)
    (by rw [sub_sub_sub_cancel_right]; exact (h.ofNat n).trans (by nlinarith)) (h.sub _ _) (pi_rnd h)
  rw [h.one]
  rwa [← sq] at this

theorem angle_rnd (h : Rounding F u v t) {f p q P Q R : ℝ} (hf : RApx (facGrowth u v) f R R)
    (hp : RApx ((1 + v) * (1 + u)) p P P) (hq : RApx ((1 + v) * (1 + u)) q Q Q) :
    RApx (angleGrowth u v) (F.mul (F.mul f p) q) (R * P * Q) (R * P * Q) := by
  have := (hf.mul hp h.u_nonneg (h.mul f p)).mul hq h.u_nonneg (h.mul _ q)
  convert this using 1
  unfold angleGrowth facGrowth
  ring

theorem angle_rnd' (h : Rounding F u v t) {f p q P Q R : ℝ} (hf : RApx (facGrowth u v) f R R)
    (hp : RApx ((1 + v) * (1 + u)) p P P) (hq : RApx ((1 + v) * (1 + u)) q Q Q) :
    RApx (angleGrowth u v) (F.mul (F.mul p q) f) (P * Q * R) (P * Q * R) := by
  have := (hp.mul hq h.u_nonneg (h.mul p q)).mul hf h.u_nonneg (h.mul _ f)
  convert this using 1
  unfold angleGrowth facGrowth
  ring

/-! ### One term -/

/-- growth of a computed cosine -/
noncomputable def trigGrowth (u v t : ℝ) (n : ℕ) : ℝ := 1 + (t + (angleGrowth u v - 1) * (2 * Real.pi * n))

omit F in
private theorem trig_lip {θ' θ a : ℝ} {n : ℕ} {f : ℝ → ℝ} (hl : |f θ' - f θ| ≤ |θ' - θ|) (hf : |f θ| ≤ 1) (ht : |a - f θ'| ≤ t)
    (H : RApx (angleGrowth u v) θ' θ θ) (hθ : θ ≤ 2 * Real.pi * n) (h0 : 0 ≤ t) :
    RApx (trigGrowth u v t n) a (f θ) 1 := by
  have g1 := Apx.one H
  have h1 := H.abs_err
  have h2 : (angleGrowth u v - 1) * θ ≤ (angleGrowth u v - 1) * (2 * Real.pi * n) :=
    mul_le_mul_of_nonneg_left hθ (by linarith)
  have h3 := abs_sub_le a (f θ') (f θ)
  have h4 : 0 ≤ (angleGrowth u v - 1) * (2 * Real.pi * n) := mul_nonneg (by linarith) (by have := Real.pi_pos; positivity)
  refine RApx.mk' ?_ ?_ hf
  · unfold trigGrowth; linarith
  · unfold trigGrowth; linarith

theorem cos_lip (x y : ℝ) : |Real.cos x - Real.cos y| ≤ |x - y| := by
  rw [Real.cos_sub_cos, abs_mul, abs_mul, abs_neg]
  have h1 := Real.abs_sin_le_one ((x + y) / 2)
  have h2 : |Real.sin ((x - y) / 2)| ≤ |(x - y) / 2| := Real.abs_sin_le_abs
  rw [abs_div, abs_two] at h2
  rw [abs_two]
  nlinarith [abs_nonneg (Real.sin ((x + y) / 2)), abs_nonneg (Real.sin ((x - y) / 2)), abs_nonneg (x - y)]

theorem sin_lip (x y : ℝ) : |Real.sin x - Real.sin y| ≤ |x - y| := by
  have := cos_lip (Real.pi / 2 - x) (Real.pi / 2 - y)
  rw [Real.cos_pi_div_two_sub, Real.cos_pi_div_two_sub] at this
  rwa [show Real.pi / 2 - x - (Real.pi / 2 - y) = -(x - y) by ring, abs_neg] at this

theorem cos_rnd (h : Rounding F u v t) {θ' θ : ℝ} {n : ℕ} (H : RApx (angleGrowth u v) θ' θ θ) (hθ : θ ≤ 2 * Real.pi * n) :
    RApx (trigGrowth u v t n) (F.cos θ') (Real.cos θ) 1 :=
  trig_lip (cos_lip _ _) (Real.abs_cos_le_one θ) (h.cos θ') H hθ h.t_nonneg

theorem sin_rnd (h : Rounding F u v t) {θ' θ : ℝ} {n : ℕ} (H : RApx (angleGrowth u v) θ' θ θ) (hθ : θ ≤ 2 * Real.pi * n) :
    RApx (trigGrowth u v t n) (F.sin θ') (Real.sin θ) 1 :=
  trig_lip (sin_lip _ _) (Real.abs_sin_le_one θ) (h.sin θ') H hθ h.t_nonneg

/-- `x · trig` -/
theorem term_rnd (h : Rounding F u v t) {n : ℕ} {c C x : ℝ} (hc : RApx (trigGrowth u v t n) c C 1) :
    RApx (trigGrowth u v t n * (1 + u) ^ 2) (F.mul x c) (x * C) |x| := by
  have hu := h.u_nonneg
  have := (RApx.refl x).mul hc hu (h.mul x c)
  rw [one_mul, mul_one] at this
  refine Apx.mono this ?_
  have g := Apx.one hc
  nlinarith [sq_nonneg u, mul_nonneg hu hu]

/-- A whole sum. -/
theorem accum_rnd (h : Rounding F u v t) (x : List ℝ) {n : ℕ} (hn : x.length = n) (lo : ℕ) (hlo : lo ≤ n) (f : ℕ → ℝ → ℝ)
    {init i0 A0 : ℝ} (z A : ℕ → ℝ)
    (h0 : RApx (trigGrowth u v t n * (1 + u) ^ 2) init i0 A0) (hi : ℕ) (hl : lo ≤ hi) (hh : hi ≤ n)
    (hz : ∀ i, lo ≤ i → i < hi → RApx (trigGrowth u v t n * (1 + u) ^ 2) (f i (x.getD i 0)) (z i) (A i)) :
    ∃ y, accum x lo hi init f = .ok y ∧
      RApx (directGrowth u v t n) y (i0 + ∑ i ∈ Ico lo hi, z i) (A0 + ∑ i ∈ Ico lo hi, A i) := by
  have hu := h.u_nonneg
  refine ⟨_, accum_ok x lo hi init f (by omega), ?_⟩
  have := accV_rnd h x lo f init z A h0 hi (hi - lo) (by omega) hz
  rw [show lo + (hi - lo) = hi by omega] at this
  refine Apx.mono this ?_
  have g := Apx.one h0
  have e : directGrowth u v t n = trigGrowth u v t n * (1 + u) ^ 2 * (1 + u) ^ n := by
    unfold directGrowth trigGrowth; ring
  rw [e]
  exact mul_le_mul_of_nonneg_left (pow_le_pow_right₀ (by linarith) (by omega)) (by linarith)

/-- A sum over all samples from zero. -/
theorem accum0_rnd (h : Rounding F u v t) (x : List ℝ) {n : ℕ} (hn : x.length = n) (hpos : 0 < n) (f : ℕ → ℝ → ℝ)
    (C : ℕ → ℝ) (w : ℝ)
    (hz : ∀ i, i < n → RApx (trigGrowth u v t n * (1 + u) ^ 2) (f i (x.getD i 0)) (x.getD i 0 * C i) (w * |x.getD i 0|)) :
    ∃ y, accum x 0 n F.zero f = .ok y ∧
      RApx (directGrowth u v t n) y (∑ i ∈ range n, x.getD i 0 * C i) (w * ∑ i ∈ range n, |x.getD i 0|) := by
  have h0 : RApx (trigGrowth u v t n * (1 + u) ^ 2) F.zero 0 0 := by
    rw [h.zero]; exact RApx.mk' (Apx.one (hz 0 hpos)) (by simp) (by simp)
  obtain ⟨y, e, H⟩ := accum_rnd h x hn 0 (by omega) f _ _ h0 n (by omega) le_rfl (fun i _ hi => hz i hi)
  refine ⟨y, e, ?_⟩
  rw [zero_add, zero_add, ← range_eq_Ico, ← mul_sum] at H
  exact H

theorem half_eq (h : Rounding F u v t) : (half : ℝ) = 1 / 2 := h.half
theorem two_eq (h : Rounding F u v t) : (two : ℝ) = 2 := h.two

theorem theta_le {c p q n : ℝ} (hc : c ≤ 2 * Real.pi) (hc0 : 0 ≤ c) (hp : 0 ≤ p) (hq : 0 ≤ q) (h1 : p ≤ n) (h2 : q ≤ n) :
    c * p * q ≤ 2 * Real.pi * n * n := by
  have := mul_le_mul hc h1 hp (by linarith)
  exact mul_le_mul this h2 hq (mul_nonneg (by linarith) (by linarith))

section at_
variable (h : Rounding F u v t) (hu1 : u < 1) (hv2 : v < 1 / 2) (x : List ℝ) {n : ℕ} (hn : x.length = n) (k : ℕ) (hk : k < n)
include h hu1 hv2 hn hk

theorem dct2At_rnd : ∃ y, dct2At x k = .ok y ∧
    RApx (directGrowth u v t n) y (dctII n (fun t => x.getD t 0) k) (∑ i ∈ range n, |x.getD i 0|) := by
  have hn' : (0 : ℝ) < n := by exact_mod_cast (by omega : 0 < n)
  obtain ⟨y, e, H⟩ := accum0_rnd h x hn (by omega) (fun i a =>
    F.mul a (F.cos (F.mul (F.mul (F.div F.pi (F.ofNat n)) (F.add (F.ofNat i) half)) (F.ofNat k))))
    (fun i => Real.cos (Real.pi * (i + 1 / 2) * k / n)) 1 (by
      intro i hi
      have a := angle_rnd h (facN h hu1 hv2 (by omega : 0 < n)) (idxo_rnd h i (by norm_num : (0:ℝ) ≤ 1 / 2)) (idx_rnd h k)
      rw [show Real.pi / n * (i + 1 / 2) * k = Real.pi * (i + 1 / 2) * k / n by ring] at a
      rw [half_eq h, one_mul]
      refine term_rnd h (cos_rnd h a ?_)
      rw [div_le_iff₀ hn']
      have h1 : (i : ℝ) + 1 / 2 ≤ n := by
        have : (i : ℝ) + 1 ≤ n := by exact_mod_cast hi
        linarith
      have h2 : (k : ℝ) ≤ n := by exact_mod_cast hk.le
      exact theta_le (by linarith [Real.pi_pos]) Real.pi_pos.le (by positivity) (by positivity) h1 h2)
  unfold dct2At
  rw [hn]
  rw [one_mul] at H
  exact ⟨y, e, H⟩

theorem dct4At_rnd : ∃ y, dct4At x k = .ok y ∧
    RApx (directGrowth u v t n) y (dctIV n (fun t => x.getD t 0) k) (∑ i ∈ range n, |x.getD i 0|) := by
  have hn' : (0 : ℝ) < n := by exact_mod_cast (by omega : 0 < n)
  obtain ⟨y, e, H⟩ := accum0_rnd h x hn (by omega) (fun i a =>
    F.mul a (F.cos (F.mul (F.mul (F.div F.pi (F.ofNat n)) (F.add (F.ofNat i) half)) (F.add (F.ofNat k) half))))
    (fun i => Real.cos (Real.pi * (i + 1 / 2) * (k + 1 / 2) / n)) 1 (by
      intro i hi
      have a := angle_rnd h (facN h hu1 hv2 (by omega : 0 < n)) (idxo_rnd h i (by norm_num : (0:ℝ) ≤ 1 / 2))
        (idxo_rnd h k (by norm_num : (0:ℝ) ≤ 1 / 2))
      rw [show Real.pi / n * (i + 1 / 2) * (k + 1 / 2) = Real.pi * (i + 1 / 2) * (k + 1 / 2) / n by ring] at a
      rw [half_eq h, one_mul]
      refine term_rnd h (cos_rnd h a ?_)
      rw [div_le_iff₀ hn']
      have h1 : (i : ℝ) + 1 / 2 ≤ n := by
        have : (i : ℝ) + 1 ≤ n := by exact_mod_cast hi
        linarith
      have h2 : (k : ℝ) + 1 / 2 ≤ n := by
        have : (k : ℝ) + 1 ≤ n := by exact_mod_cast hk
        linarith
      exact theta_le (by linarith [Real.pi_pos]) Real.pi_pos.le (by positivity) (by positivity) h1 h2)
  unfold dct4At
  rw [hn]
  rw [one_mul] at H
  exact ⟨y, e, H⟩

theorem dst1At_rnd : ∃ y, dst1At x k = .ok y ∧
    RApx (directGrowth u v t n) y (dstI n (fun t => x.getD t 0) k) (∑ i ∈ range n, |x.getD i 0|) := by
  have hn' : (0 : ℝ) < n := by exact_mod_cast (by omega : 0 < n)
  obtain ⟨y, e, H⟩ := accum0_rnd h x hn (by omega) (fun i a =>
    F.mul a (F.sin (F.mul (F.mul (F.add (F.ofNat i) F.one) (F.add (F.ofNat k) F.one)) (F.div F.pi (F.add (F.ofNat n) F.one)))))
    (fun i => Real.sin (Real.pi * (i + 1) * (k + 1) / (n + 1))) 1 (by
      intro i hi
      have a := angle_rnd' h (facN1 h hu1 hv2 n) (idxo_rnd h i (by norm_num : (0:ℝ) ≤ 1))
        (idxo_rnd h k (by norm_num : (0:ℝ) ≤ 1))
      rw [show ((i : ℝ) + 1) * (k + 1) * (Real.pi / (n + 1)) = Real.pi * (i + 1) * (k + 1) / (n + 1) by ring] at a
      rw [one_mul]
      rw [h.one] at a ⊢
      refine term_rnd h (sin_rnd h a ?_)
      rw [div_le_iff₀ (by positivity)]
      have h1 : (i : ℝ) + 1 ≤ n := by exact_mod_cast hi
      have h2 : (k : ℝ) + 1 ≤ n := by exact_mod_cast hk
      refine le_trans ?_ (mul_le_mul_of_nonneg_left (by linarith : (n : ℝ) ≤ n + 1) (by positivity))
      exact theta_le (by linarith [Real.pi_pos]) Real.pi_pos.le (by positivity) (by positivity) h1 h2)
  unfold dst1At
  rw [hn]
  rw [one_mul] at H
  exact ⟨y, e, H⟩

theorem dst2At_rnd : ∃ y, dst2At x k = .ok y ∧
    RApx (directGrowth u v t n) y (dstII n (fun t => x.getD t 0) k) (∑ i ∈ range n, |x.getD i 0|) := by
  have hn' : (0 : ℝ) < n := by exact_mod_cast (by omega : 0 < n)
  obtain ⟨y, e, H⟩ := accum0_rnd h x hn (by omega) (fun i a =>
    F.mul a (F.sin (F.mul (F.mul (F.div F.pi (F.ofNat n)) (F.add (F.ofNat i) half)) (F.add (F.ofNat k) F.one))))
    (fun i => Real.sin (Real.pi * (i + 1 / 2) * (k + 1) / n)) 1 (by
      intro i hi
      have a := angle_rnd h (facN h hu1 hv2 (by omega : 0 < n)) (idxo_rnd h i (by norm_num : (0:ℝ) ≤ 1 / 2))
        (idxo_rnd h k (by norm_num : (0:ℝ) ≤ 1))
      rw [show Real.pi / n * (i + 1 / 2) * (k + 1) = Real.pi * (i + 1 / 2) * (k + 1) / n by ring] at a
      rw [half_eq h, h.one, one_mul]
      refine term_rnd h (sin_rnd h a ?_)
      rw [div_le_iff₀ hn']
      have h1 : (i : ℝ) + 1 / 2 ≤ n := by
        have : (i : ℝ) + 1 ≤ n := by exact_mod_cast hi
        linarith
      have h2 : (k : ℝ) + 1 ≤ n := by exact_mod_cast hk
      exact theta_le (by linarith [Real.pi_pos]) Real.pi_pos.le (by positivity) (by positivity) h1 h2)
  unfold dst2At
  rw [hn]
  rw [one_mul] at H
  exact ⟨y, e, H⟩

theorem dst4At_rnd : ∃ y, dst4At x k = .ok y ∧
    RApx (directGrowth u v t n) y (dstIV n (fun t => x.getD t 0) k) (∑ i ∈ range n, |x.getD i 0|) := by
  have hn' : (0 : ℝ) < n := by exact_mod_cast (by omega : 0 < n)
  obtain ⟨y, e, H⟩ := accum0_rnd h x hn (by omega) (fun i a =>
    F.mul a (F.sin (F.mul (F.mul (F.div F.pi (F.ofNat n)) (F.add (F.ofNat i) half)) (F.add (F.ofNat k) half))))
    (fun i => Real.sin (Real.pi * (i + 1 / 2) * (k + 1 / 2) / n)) 1 (by
      intro i hi
      have a := angle_rnd h (facN h hu1 hv2 (by omega : 0 < n)) (idxo_rnd h i (by norm_num : (0:ℝ) ≤ 1 / 2))
        (idxo_rnd h k (by norm_num : (0:ℝ) ≤ 1 / 2))
      rw [show Real.pi / n * (i + 1 / 2) * (k + 1 / 2) = Real.pi * (i + 1 / 2) * (k + 1 / 2) / n by ring] at a
      rw [half_eq h, one_mul]
      refine term_rnd h (sin_rnd h a ?_)
      rw [div_le_iff₀ hn']
      have h1 : (i : ℝ) + 1 / 2 ≤ n := by
        have : (i : ℝ) + 1 ≤ n := by exact_mod_cast hi
        linarith
      have h2 : (k : ℝ) + 1 / 2 ≤ n := by
        have : (k : ℝ) + 1 ≤ n := by exact_mod_cast hk
        linarith
      exact theta_le (by linarith [Real.pi_pos]) Real.pi_pos.le (by positivity) (by positivity) h1 h2)
  unfold dst4At
  rw [hn]
  rw [one_mul] at H
  exact ⟨y, e, H⟩

/-- the first sample, halved -/
theorem init_half (hg : 1 ≤ trigGrowth u v t n) : RApx (trigGrowth u v t n * (1 + u) ^ 2) (F.div (x.getD 0 0) two)
    (x.getD 0 0 / 2) |x.getD 0 0| := by
  have hu := h.u_nonneg
  have h1 := (RApx.refl (x.getD 0 0 / 2)).round hu (h.div (x.getD 0 0) 2 (by norm_num))
  rw [two_eq h]
  rw [one_mul] at h1
  refine Apx.mono (Apx.weight h1 ?_) ?_
  · rw [abs_div, abs_two]
    linarith [abs_nonneg (x.getD 0 0)]
  · nlinarith [sq_nonneg u, mul_nonneg hu hu]

theorem trigGrowth_ge : 1 ≤ trigGrowth u v t n := by
  have hn' : (0 : ℝ) < n := by exact_mod_cast (by omega : 0 < n)
  have a := angle_rnd h (facN h hu1 hv2 (by omega : 0 < n)) (idx_rnd h 0) (idx_rnd h 0)
  refine Apx.one (cos_rnd h a ?_)
  have := Real.pi_pos
  simp
  positivity

theorem dct3At_rnd : ∃ y, dct3At x k = .ok y ∧
    RApx (directGrowth u v t n) y (dctIII n (fun t => x.getD t 0) k) (∑ i ∈ range n, |x.getD i 0|) := by
  have hn' : (0 : ℝ) < n := by exact_mod_cast (by omega : 0 < n)
  obtain ⟨y, e, H⟩ := accum_rnd h x hn 1 (by omega) (fun i a =>
    F.mul a (F.cos (F.mul (F.mul (F.div F.pi (F.ofNat n)) (F.ofNat i)) (F.add (F.ofNat k) half))))
    (fun i => x.getD i 0 * Real.cos (Real.pi * i * (k + 1 / 2) / n)) (fun i => |x.getD i 0|)
    (init_half h hu1 hv2 x hn k hk (trigGrowth_ge h hu1 hv2 x hn k hk)) n (by omega) le_rfl (by
      intro i h1 hi
      have a := angle_rnd h (facN h hu1 hv2 (by omega : 0 < n)) (idx_rnd h i) (idxo_rnd h k (by norm_num : (0:ℝ) ≤ 1 / 2))
      rw [show Real.pi / n * i * (k + 1 / 2) = Real.pi * i * (k + 1 / 2) / n by ring] at a
      rw [half_eq h]
      refine term_rnd h (cos_rnd h a ?_)
      rw [div_le_iff₀ hn']
      have h1 : (i : ℝ) ≤ n := by exact_mod_cast hi.le
      have h2 : (k : ℝ) + 1 / 2 ≤ n := by
        have : (k : ℝ) + 1 ≤ n := by exact_mod_cast hk
        linarith
      exact theta_le (by linarith [Real.pi_pos]) Real.pi_pos.le (by positivity) (by positivity) h1 h2)
  unfold dct3At
  rw [hn, rd_getD 0 (by omega)]
  have ew : ∑ i ∈ range n, |x.getD i 0| = |x.getD 0 0| + ∑ i ∈ Ico 1 n, |x.getD i 0| := by
    rw [range_eq_Ico, sum_eq_sum_Ico_succ_bot (by omega)]
  rw [ew]
  exact ⟨y, e, H⟩

theorem dst3At_rnd : ∃ y, dst3At x k = .ok y ∧
    RApx (directGrowth u v t n) y
      (x.getD 0 0 / 2 + ∑ i ∈ Ico 1 n, x.getD i 0 * Real.sin (Real.pi * i * (k + 1 / 2) / n))
      (∑ i ∈ range n, |x.getD i 0|) := by
  have hn' : (0 : ℝ) < n := by exact_mod_cast (by omega : 0 < n)
  obtain ⟨y, e, H⟩ := accum_rnd h x hn 1 (by omega) (fun i a =>
    F.mul a (F.sin (F.mul (F.mul (F.div F.pi (F.ofNat n)) (F.add (F.ofNat k) half)) (F.ofNat i))))
    (fun i => x.getD i 0 * Real.sin (Real.pi * i * (k + 1 / 2) / n)) (fun i => |x.getD i 0|)
    (init_half h hu1 hv2 x hn k hk (trigGrowth_ge h hu1 hv2 x hn k hk)) n (by omega) le_rfl (by
      intro i h1 hi
      have a := angle_rnd h (facN h hu1 hv2 (by omega : 0 < n)) (idxo_rnd h k (by norm_num : (0:ℝ) ≤ 1 / 2)) (idx_rnd h i)
      rw [show Real.pi / n * (k + 1 / 2) * i = Real.pi * i * (k + 1 / 2) / n by ring] at a
      rw [half_eq h]
      refine term_rnd h (sin_rnd h a ?_)
      rw [div_le_iff₀ hn']
      have h1 : (i : ℝ) ≤ n := by exact_mod_cast hi.le
      have h2 : (k : ℝ) + 1 / 2 ≤ n := by
        have : (k : ℝ) + 1 ≤ n := by exact_mod_cast hk
        linarith
      exact theta_le (by linarith [Real.pi_pos]) Real.pi_pos.le (by positivity) (by positivity) h1 h2)
  unfold dst3At
  rw [hn, rd_getD 0 (by omega)]
  have ew : ∑ i ∈ range n, |x.getD i 0| = |x.getD 0 0| + ∑ i ∈ Ico 1 n, |x.getD i 0| := by
    rw [range_eq_Ico, sum_eq_sum_Ico_succ_bot (by omega)]
  rw [ew]
  exact ⟨y, e, H⟩

theorem dct1At_rnd (h2n : 2 ≤ n) : ∃ y, dct1At x k = .ok y ∧
    RApx (directGrowth u v t n) y (dctI n (fun t => x.getD t 0) k) (2 * ∑ i ∈ range n, |x.getD i 0|) := by
  have hu := h.u_nonneg
  have hn' : (2 : ℝ) ≤ n := by exact_mod_cast h2n
  have tg := trigGrowth_ge h hu1 hv2 x hn k hk
  have hinit : RApx (trigGrowth u v t n * (1 + u) ^ 2)
      (F.add (x.getD 0 0) (if k % 2 = 0 then x.getD (n - 1) 0 else F.neg (x.getD (n - 1) 0)))
      (x.getD 0 0 + (-1) ^ k * x.getD (n - 1) 0) (|x.getD 0 0| + |x.getD (n - 1) 0|) := by
    have e : (if k % 2 = 0 then x.getD (n - 1) 0 else F.neg (x.getD (n - 1) 0)) = (-1) ^ k * x.getD (n - 1) 0 := by
      split
      · rename_i h0; rw [Even.neg_one_pow (Nat.even_iff.2 h0), one_mul]
      · rename_i h0; rw [Odd.neg_one_pow (Nat.odd_iff.2 (by omega)), h.neg]; ring
    rw [e]
    have r := RApx.refl ((-1) ^ k * x.getD (n - 1) 0)
    rw [abs_mul, abs_pow, abs_neg, abs_one, one_pow, one_mul] at r
    have := (RApx.refl (x.getD 0 0)).add r hu (h.add _ _)
    rw [one_mul] at this
    refine Apx.mono this ?_
    nlinarith [sq_nonneg u, mul_nonneg hu hu]
  obtain ⟨y, e, H⟩ := accum_rnd h x hn 1 (by omega) (fun i a =>
    F.mul (F.mul two a) (F.cos (F.mul (F.mul (F.div F.pi (F.sub (F.ofNat n) F.one)) (F.ofNat i)) (F.ofNat k))))
    (fun i => 2 * (x.getD i 0 * Real.cos (Real.pi * i * k / (n - 1)))) (fun i => 2 * |x.getD i 0|)
    hinit (n - 1) (by omega) (by omega) (by
      intro i h1 hi
      have a := angle_rnd h (facNm1 h hu1 hv2 h2n) (idx_rnd h i) (idx_rnd h k)
      rw [show Real.pi / ((n : ℝ) - 1) * i * k = Real.pi * i * k / (n - 1) by ring] at a
      have hc := cos_rnd h (n := n) a (by
        rw [div_le_iff₀ (by linarith)]
        have h1 : (i : ℝ) ≤ n - 1 := by
          have : (i : ℝ) + 1 ≤ (n - 1 : ℕ) := by exact_mod_cast hi
          rw [Nat.cast_sub (by omega)] at this
          push_cast at this; linarith
        have h2 : (k : ℝ) ≤ n := by exact_mod_cast hk.le
        have h3 := mul_le_mul h1 h2 (by positivity) (by linarith)
        have h4 := mul_le_mul_of_nonneg_left h3 Real.pi_pos.le
        have h5 : 0 ≤ Real.pi * ((n - 1) * n) := mul_nonneg Real.pi_pos.le (mul_nonneg (by linarith) (by linarith))
        calc Real.pi * i * k = Real.pi * (i * k) := by ring
          _ ≤ Real.pi * ((n - 1) * n) := h4
          _ ≤ 2 * (Real.pi * ((n - 1) * n)) := by linarith
          _ = 2 * Real.pi * n * (n - 1) := by ring)
      have m2 := (RApx.refl (2 : ℝ)).mul (RApx.refl (x.getD i 0)) hu (h.mul 2 (x.getD i 0))
      have m3 := m2.mul hc hu (h.mul _ _)
      rw [two_eq h, ← mul_assoc]
      rw [show |(2:ℝ)| * |x.getD i 0| * 1 = 2 * |x.getD i 0| by rw [abs_two]; ring] at m3
      refine Apx.mono m3 (le_of_eq ?_)
      ring)
  unfold dct1At
  simp only []
  rw [hn, rd_getD 0 (by omega), rd_getD 0 (show n - 1 < x.length by omega)]
  refine ⟨y, e, ?_⟩
  have H' : RApx (directGrowth u v t n) y (dctI n (fun t => x.getD t 0) k)
      (|x.getD 0 0| + |x.getD (n - 1) 0| + ∑ i ∈ Ico 1 (n - 1), 2 * |x.getD i 0|) := by
    unfold dctI; rw [mul_sum]; exact H
  refine Apx.weight H' ?_
  obtain ⟨m, rfl⟩ : ∃ m, n = m + 1 := ⟨n - 1, by omega⟩
  rw [Nat.add_sub_cancel, sum_range_succ, range_eq_Ico, sum_eq_sum_Ico_succ_bot (show 0 < m by omega), ← mul_sum]
  have := abs_nonneg (x.getD 0 0)
  have := abs_nonneg (x.getD m 0)
  linarith

theorem dhtAt_rnd : ∃ y, dhtAt x k = .ok y ∧
    RApx (directGrowth u v t n) y (hartley n (fun t => x.getD t 0) k) (2 * ∑ i ∈ range n, |x.getD i 0|) := by
  have hu := h.u_nonneg
  have hv := h.v_nonneg
  have hn' : (0 : ℝ) < n := by exact_mod_cast (by omega : 0 < n)
  have hfac : RApx (facGrowth u v * (1 + u)) (F.div (F.mul two F.pi) (F.ofNat n)) (2 * Real.pi / n) (2 * Real.pi / n) := by
    have p2 := (RApx.refl (2 : ℝ)).mul (pi_rnd h) hu (h.mul 2 F.pi)
    rw [abs_two, one_mul] at p2
    have := factor_rnd h hu1 hv2 hn' (b := F.ofNat n) (d := F.ofNat n)
      ((h.ofNat n).trans (by nlinarith)) (by simp [h.u_nonneg, mul_nonneg]) p2
    rw [two_eq h]
    convert this using 1
    unfold facGrowth; ring
  obtain ⟨y, e, H⟩ := accum0_rnd h x hn (by omega) (fun i a =>
    F.mul a (F.add (F.cos (F.mul (F.div (F.mul two F.pi) (F.ofNat n)) (F.ofNat (i * k))))
      (F.sin (F.mul (F.div (F.mul two F.pi) (F.ofNat n)) (F.ofNat (i * k))))))
    (fun i => Real.cos (2 * Real.pi * i * k / n) + Real.sin (2 * Real.pi * i * k / n)) 2 (by
      intro i hi
      have a := hfac.mul (nat_rnd h (i * k)) hu (h.mul _ _)
      rw [show 2 * Real.pi / n * ((i * k : ℕ) : ℝ) = 2 * Real.pi * i * k / n by push_cast; ring] at a
      have a' : RApx (angleGrowth u v) _ _ _ := Apx.mono a (by
        have e : angleGrowth u v = facGrowth u v * (1 + u) * (1 + v) * (1 + u) * ((1 + u) ^ 2 * (1 + v)) := by
          unfold angleGrowth facGrowth; ring
        rw [e]
        apply le_mul_of_one_le_right
        · linarith [Apx.one a]
        · have : 1 ≤ (1 + u) ^ 2 := one_le_pow₀ (by linarith)
          nlinarith)
      have hθ : 2 * Real.pi * i * k / n ≤ 2 * Real.pi * n := by
        rw [div_le_iff₀ hn']
        have h1 : (i : ℝ) ≤ n := by exact_mod_cast hi.le
        have h2 : (k : ℝ) ≤ n := by exact_mod_cast hk.le
        exact theta_le le_rfl (by linarith [Real.pi_pos]) (by positivity) (by positivity) h1 h2
      have s := (cos_rnd h a' hθ).add (sin_rnd h a' hθ) hu (h.add _ _)
      have m := (RApx.refl (x.getD i 0)).mul s hu (h.mul _ _)
      rw [show |x.getD i 0| * (1 + 1) = 2 * |x.getD i 0| by ring] at m
      refine Apx.mono m (le_of_eq ?_)
      ring)
  unfold dhtAt
  rw [hn]
  exact ⟨y, e, H⟩

end at_

end Kofft
