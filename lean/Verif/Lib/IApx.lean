import Verif.Spec.Ieee
import Verif.Lib.Apx
/-
The calculus of errors for arithmetic with a bounded exponent range: as `Apx`, but the computed value is a number of the
floating-point type, shown to be finite, weights are at least `D`, and every step needs room below `Ω`.
-/
namespace Kofft

open Spec Complex Finset

variable {T : Type}

structure RAp (N : Denote T) (D g : ℝ) (a : T) (z A : ℝ) : Prop where
  fin : N.fin a
  one : 1 ≤ g
  err : |N.val a - z| ≤ (g - 1) * A
  bd : |z| ≤ A
  floor : D ≤ A

structure IAp (N : Denote T) (D g : ℝ) (a : Cx T) (z : ℂ) (A : ℝ) : Prop where
  fin : N.cfin a
  one : 1 ≤ g
  err : ‖N.cval a - z‖ ≤ (g - 1) * A
  bd : ‖z‖ ≤ A
  floor : D ≤ A

/-- Everything assumed of the arithmetic. -/
structure Env {T : Type} (F : Flt T) (N : Denote T) (u η Ω v t D : ℝ) : Prop extends Ieee F N u η Ω v t where
  D_pos : 0 < D
  D_le : D ≤ 1
  U_le : effErr u η D ≤ 1

variable [F : Flt T] {N : Denote T} {u η Ω v t D : ℝ}

local notation "U" => effErr u η D

namespace Env

theorem U_nonneg (h : Env F N u η Ω v t D) : 0 ≤ U := by
  have := h.u_nonneg; have := h.eta_nonneg; have := h.D_pos
  unfold effErr; positivity

theorem u_le (h : Env F N u η Ω v t D) : u ≤ U := by
  have := h.eta_nonneg; have := h.D_pos
  unfold effErr
  have : 0 ≤ 2 * η / D := by positivity
  linarith

/-- relative plus absolute error -/
theorem abs_err (h : Env F N u η Ω v t D) {W : ℝ} (hW : D ≤ W) : u * W + 2 * η ≤ U * W := by
  have := h.eta_nonneg; have := h.D_pos
  have e : 2 * η = 2 * η / D * D := by field_simp
  have : 2 * η / D * D ≤ 2 * η / D * W := mul_le_mul_of_nonneg_left hW (by positivity)
  unfold effErr
  nlinarith

/-- the growth functions are those of a rounding arithmetic with the effective error -/
theorem rounding (h : Env F N u η Ω v t D) : Rounding (realFlt true) U v t := by
  have hU := h.U_nonneg
  have hv := h.v_nonneg
  have ht := h.t_nonneg
  have hl := realFlt_lawful true
  exact {
    u_nonneg := hU
    v_nonneg := hv
    v_lt_one := by linarith [h.v_le]
    t_nonneg := ht
    add := fun a b => by rw [hl.add]; simp; positivity
    sub := fun a b => by rw [hl.sub]; simp; positivity
    mul := fun a b => by rw [hl.mul]; simp; positivity
    div := fun a b _ => by rw [hl.div]; simp; positivity
    mulAdd := fun a b c => by rw [hl.mulAdd]; simp; positivity
    neg := hl.neg
    zero := hl.zero
    one := hl.one
    two := by simp [hl.lit]
    half := by rw [hl.lit]; norm_num
    lit := fun m e => by rw [hl.lit]; simp; positivity
    lt := hl.lt
    ofNat := fun n => by rw [hl.ofNat]; simp; positivity
    ofNat_pow := by simp [hl.ofNat]
    ofNatD := by simp [hl.ofNatD]
    pi := by rw [hl.pi]; have := Real.pi_pos; simp; positivity
    cos := fun a => by rw [hl.cos]; simpa
    sin := fun a => by rw [hl.sin]; simpa
    printParse := fun a => by rw [hl.printParse]; simp; positivity
    sqrtHalf := by rw [hl.sqrtHalf]; simpa
    cosPi8 := by rw [hl.cosPi8]; simpa
    sinPi8 := by rw [hl.sinPi8]; simpa }

end Env

/-! ### Real quantities -/

namespace RAp

variable {g h' : ℝ} {a b c : T} {z w A B : ℝ}

omit F in
theorem nonneg (H : RAp N D g a z A) : 0 ≤ A := le_trans (abs_nonneg _) H.bd

omit F in
theorem abs_le (H : RAp N D g a z A) : |N.val a| ≤ g * A := by
  have := abs_add_le (N.val a - z) z
  rw [sub_add_cancel] at this
  nlinarith [H.err, H.bd]

omit F in
theorem mono (H : RAp N D g a z A) (hg : g ≤ h') : RAp N D h' a z A :=
  ⟨H.fin, H.one.trans hg, H.err.trans (mul_le_mul_of_nonneg_right (by linarith) H.nonneg), H.bd, H.floor⟩

omit F in
theorem weight (H : RAp N D g a z A) (hA : A ≤ B) : RAp N D g a z B :=
  ⟨H.fin, H.one, H.err.trans (mul_le_mul_of_nonneg_left hA (by linarith [H.one])), H.bd.trans hA, H.floor.trans hA⟩

omit F in
/-- an exactly represented number -/
theorem exact (hf : N.fin a) (hv : N.val a = z) (hb : |z| ≤ A) (hD : D ≤ A) : RAp N D 1 a z A :=
  ⟨hf, le_rfl, by simp [hv], hb, hD⟩

/-- one rounding after an exact operation with result `e` -/
theorem step (h : Env F N u η Ω v t D) {e : ℝ} (hg : 1 ≤ g) (he : |e - z| ≤ (g - 1) * A) (hz : |z| ≤ A) (hD : D ≤ A)
    (hf : N.fin c) (hc : |N.val c - e| ≤ u * |e| + 2 * η) : RAp N D (g * (1 + U)) c z A := by
  have hU := h.U_nonneg
  have hu := h.u_nonneg
  refine ⟨hf, by nlinarith, ?_, hz, hD⟩
  have hA : 0 ≤ A := (abs_nonneg _).trans hz
  have h1 : |e| ≤ g * A := by
    have := abs_add_le (e - z) z
    rw [sub_add_cancel] at this
    nlinarith
  have h2 : D ≤ g * A := hD.trans (by nlinarith)
  have h3 := h.abs_err h2
  have h4 := mul_le_mul_of_nonneg_left h1 hu
  have h5 := abs_add_le (N.val c - e) (e - z)
  rw [sub_add_sub_cancel] at h5
  nlinarith

omit F in
theorem mul_aux (H : RAp N D g a z A) (K : RAp N D h' b w B) :
    |N.val a * N.val b - z * w| ≤ (g * h' - 1) * (A * B) ∧ |z * w| ≤ A * B := by
  have hA := H.nonneg
  have hB := K.nonneg
  have hg := H.one
  have hh := K.one
  refine ⟨?_, by rw [abs_mul]; exact mul_le_mul H.bd K.bd (abs_nonneg _) hA⟩
  rw [show N.val a * N.val b - z * w = (N.val a - z) * N.val b + z * (N.val b - w) by ring]
  refine (abs_add_le _ _).trans ?_
  rw [abs_mul, abs_mul]
  have h1 := mul_le_mul H.err K.abs_le (abs_nonneg _) (mul_nonneg (by linarith) hA)
  have h2 := mul_le_mul H.bd K.err (abs_nonneg _) hA
  nlinarith

theorem mul (h : Env F N u η Ω v t D) (H : RAp N D g a z A) (K : RAp N D h' b w B) (hD : D ≤ A * B)
    (hΩ : g * h' * (A * B) ≤ Ω) : RAp N D (g * h' * (1 + U)) (F.mul a b) (z * w) (A * B) := by
  obtain ⟨h1, h2⟩ := mul_aux H K
  have h3 : |N.val a * N.val b| ≤ g * h' * (A * B) := by
    rw [abs_mul]
    have := mul_le_mul H.abs_le K.abs_le (abs_nonneg _) (by nlinarith [H.one, H.nonneg])
    linarith [show g * A * (h' * B) = g * h' * (A * B) by ring]
  obtain ⟨h4, h5⟩ := h.mul a b H.fin K.fin (h3.trans hΩ)
  exact step h (by nlinarith [H.one, K.one]) h1 h2 hD h4 (by linarith [h.eta_nonneg])

theorem neg (h : Env F N u η Ω v t D) (H : RAp N D g a z A) : RAp N D g (F.neg a) (-z) A := by
  obtain ⟨h1, h2⟩ := h.neg a H.fin
  exact ⟨h1, H.one, by rw [h2, ← neg_sub', abs_neg]; exact H.err, by rw [abs_neg]; exact H.bd, H.floor⟩

/-- division by a number whose reciprocal is known up to a factor -/
theorem div (h : Env F N u η Ω v t D) (H : RAp N D g a z A) (hb : N.fin b) (hb0 : N.val b ≠ 0) (hw : 0 < w)
    (hh : 1 ≤ h') (hinv : |(N.val b)⁻¹ - w⁻¹| ≤ (h' - 1) * w⁻¹) (hD : D ≤ A / w)
    (hΩ : g * h' * (A / w) ≤ Ω) : RAp N D (g * h' * (1 + U)) (F.div a b) (z / w) (A / w) := by
  have hA := H.nonneg
  have hg := H.one
  have hw' : 0 < w⁻¹ := inv_pos.mpr hw
  have hbi : |(N.val b)⁻¹| ≤ h' * w⁻¹ := by
    have := abs_add_le ((N.val b)⁻¹ - w⁻¹) w⁻¹
    rw [sub_add_cancel, abs_of_pos hw'] at this
    nlinarith
  have h1 : |N.val a / N.val b - z / w| ≤ (g * h' - 1) * (A / w) := by
    rw [div_eq_mul_inv, div_eq_mul_inv, div_eq_mul_inv,
      show N.val a * (N.val b)⁻¹ - z * w⁻¹ = (N.val a - z) * (N.val b)⁻¹ + z * ((N.val b)⁻¹ - w⁻¹) by ring]
    refine (abs_add_le _ _).trans ?_
    rw [abs_mul, abs_mul]
    have h1 := mul_le_mul H.err hbi (abs_nonneg _) (mul_nonneg (by linarith) hA)
    have h2 := mul_le_mul H.bd hinv (abs_nonneg _) hA
    nlinarith
  have h2 : |z / w| ≤ A / w := by
    rw [abs_div, abs_of_pos hw]; exact div_le_div_of_nonneg_right H.bd hw.le
  have h3 : |N.val a / N.val b| ≤ g * h' * (A / w) := by
    rw [div_eq_mul_inv, abs_mul, div_eq_mul_inv]
    have := mul_le_mul H.abs_le hbi (abs_nonneg _) (by nlinarith)
    linarith [show g * A * (h' * w⁻¹) = g * h' * (A * w⁻¹) by ring]
  obtain ⟨h4, h5⟩ := h.div a b H.fin hb hb0 (h3.trans hΩ)
  exact step h (by nlinarith) h1 h2 hD h4 (by linarith [h.eta_nonneg])

end RAp

/-! ### Complex quantities -/

omit F in
@[simp] theorem cval_re (a : Cx T) : (N.cval a).re = N.val a.re := rfl
omit F in
@[simp] theorem cval_im (a : Cx T) : (N.cval a).im = N.val a.im := rfl

omit F in
theorem re_le (a : Cx T) : |N.val a.re| ≤ ‖N.cval a‖ := Complex.abs_re_le_norm (N.cval a)
omit F in
theorem im_le (a : Cx T) : |N.val a.im| ≤ ‖N.cval a‖ := Complex.abs_im_le_norm (N.cval a)

theorem ie_zero (h : Env F N u η Ω v t D) : N.cfin (Cx.zero : Cx T) ∧ N.cval (Cx.zero : Cx T) = 0 :=
  ⟨⟨h.zero.1, h.zero.1⟩, by apply Complex.ext <;> simp [Cx.zero, h.zero.2]⟩

theorem ie_conj (h : Env F N u η Ω v t D) {a : Cx T} (ha : N.cfin a) :
    N.cfin a.conj ∧ N.cval a.conj = (starRingEnd ℂ) (N.cval a) :=
  ⟨⟨ha.1, (h.neg _ ha.2).1⟩, by apply Complex.ext <;> simp [Cx.conj, (h.neg _ ha.2).2]⟩

theorem ie_add (h : Env F N u η Ω v t D) {a b : Cx T} (ha : N.cfin a) (hb : N.cfin b)
    (hΩ : ‖N.cval a + N.cval b‖ ≤ Ω) :
    N.cfin (a.add b) ∧ ‖N.cval (a.add b) - (N.cval a + N.cval b)‖ ≤ u * ‖N.cval a + N.cval b‖ := by
  have h1 := h.add a.re b.re ha.1 hb.1 ((by simpa using Complex.abs_re_le_norm (N.cval a + N.cval b) :
    |N.val a.re + N.val b.re| ≤ ‖N.cval a + N.cval b‖).trans hΩ)
  have h2 := h.add a.im b.im ha.2 hb.2 ((by simpa using Complex.abs_im_le_norm (N.cval a + N.cval b) :
    |N.val a.im + N.val b.im| ≤ ‖N.cval a + N.cval b‖).trans hΩ)
  exact ⟨⟨h1.1, h2.1⟩, norm_le_of_parts h.u_nonneg (by simpa [Cx.add] using h1.2) (by simpa [Cx.add] using h2.2)⟩

theorem ie_sub (h : Env F N u η Ω v t D) {a b : Cx T} (ha : N.cfin a) (hb : N.cfin b)
    (hΩ : ‖N.cval a - N.cval b‖ ≤ Ω) :
    N.cfin (a.sub b) ∧ ‖N.cval (a.sub b) - (N.cval a - N.cval b)‖ ≤ u * ‖N.cval a - N.cval b‖ := by
  have h1 := h.sub a.re b.re ha.1 hb.1 ((by simpa using Complex.abs_re_le_norm (N.cval a - N.cval b) :
    |N.val a.re - N.val b.re| ≤ ‖N.cval a - N.cval b‖).trans hΩ)
  have h2 := h.sub a.im b.im ha.2 hb.2 ((by simpa using Complex.abs_im_le_norm (N.cval a - N.cval b) :
    |N.val a.im - N.val b.im| ≤ ‖N.cval a - N.cval b‖).trans hΩ)
  exact ⟨⟨h1.1, h2.1⟩, norm_le_of_parts h.u_nonneg (by simpa [Cx.sub] using h1.2) (by simpa [Cx.sub] using h2.2)⟩

theorem two_U_le (hU : 0 ≤ U) : 2 * U ≤ mulErr U := by
  unfold mulErr
  have : (1 : ℝ) ≤ Real.sqrt 2 := Real.one_le_sqrt.mpr (by norm_num)
  nlinarith [sq_nonneg U]

/-- part of a product: two rounded products `p`, `q` of sizes at most `P`, `Q`, then one rounded sum -/
theorem ie_pair (h : Env F N u η Ω v t D) {P Q p q W : ℝ} (hW : |P| + |Q| ≤ W) (hDW : D ≤ W)
    (hp : |p - P| ≤ u * |P| + η) (hq : |q - Q| ≤ u * |Q| + η) :
    |p| + |q| ≤ (1 + mulErr U) * W ∧
    ∀ r, |r - (p + q)| ≤ u * |p + q| → |r - (P + Q)| ≤ (2 * U + U ^ 2) * W := by
  have hu := h.u_nonneg
  have hη := h.eta_nonneg
  have hU := h.U_nonneg
  have huU := h.u_le
  have hW0 : 0 ≤ W := h.D_pos.le.trans hDW
  have e0 := h.abs_err hDW
  have a1 : |p| ≤ |p - P| + |P| := by have := abs_add_le (p - P) P; rwa [sub_add_cancel] at this
  have a2 : |q| ≤ |q - Q| + |Q| := by have := abs_add_le (q - Q) Q; rwa [sub_add_cancel] at this
  have a3 : |p| + |q| ≤ (1 + U) * W := by nlinarith [mul_le_mul_of_nonneg_left hW hu]
  refine ⟨a3.trans (mul_le_mul_of_nonneg_right (by linarith [two_U_le hU]) hW0), ?_⟩
  intro r hr
  have e1 : |r - (P + Q)| ≤ |r - (p + q)| + (|p - P| + |q - Q|) := by
    rw [show r - (P + Q) = (r - (p + q)) + ((p - P) + (q - Q)) by ring]
    exact (abs_add_le _ _).trans (by linarith [abs_add_le (p - P) (q - Q)])
  have e2 : |p + q| ≤ (1 + U) * W := (abs_add_le _ _).trans a3
  have e3 : u * |p + q| ≤ U * ((1 + U) * W) := mul_le_mul huU e2 (abs_nonneg _) hU
  nlinarith [mul_le_mul_of_nonneg_left hW hu]

/-- the same with a fused multiply-add -/
theorem ie_fma (h : Env F N u η Ω v t D) {P q Q W : ℝ} (hW : |P| + |Q| ≤ W) (hDW : D ≤ W)
    (hq : |q - Q| ≤ u * |Q| + η) :
    (1 + u) * |P| + η + |q| ≤ (1 + mulErr U) * W ∧
    ∀ r, |r - (P + q)| ≤ u * |P| + u * |P + q| + u ^ 2 * |P| + (1 + u) * η → |r - (P + Q)| ≤ (2 * U + U ^ 2) * W := by
  have hu := h.u_nonneg
  have hη := h.eta_nonneg
  have hU := h.U_nonneg
  have huU := h.u_le
  have hW0 : 0 ≤ W := h.D_pos.le.trans hDW
  have e0 := h.abs_err hDW
  have a2 : |q| ≤ |q - Q| + |Q| := by have := abs_add_le (q - Q) Q; rwa [sub_add_cancel] at this
  have b0 := mul_le_mul_of_nonneg_left hW hu
  have a3 : (1 + u) * |P| + η + |q| ≤ (1 + U) * W := by nlinarith
  refine ⟨a3.trans (mul_le_mul_of_nonneg_right (by linarith [two_U_le hU]) hW0), ?_⟩
  intro r hr
  have e1 : |r - (P + Q)| ≤ |r - (P + q)| + |q - Q| := by
    rw [show r - (P + Q) = (r - (P + q)) + (q - Q) by ring]
    exact abs_add_le _ _
  have e2 : |P + q| ≤ |P| + ((1 + u) * |Q| + η) := (abs_add_le _ _).trans (by linarith)
  have e3 : u * |P + q| ≤ u * (|P| + ((1 + u) * |Q| + η)) := mul_le_mul_of_nonneg_left e2 hu
  have e4 : u * (u * (|P| + |Q|)) ≤ u * (u * W) := mul_le_mul_of_nonneg_left b0 hu
  have e5 : u * (u * W + 2 * η) ≤ U * (U * W) := mul_le_mul huU e0 (by positivity) hU
  nlinarith

/-- what a product of complex numbers is required to do -/
def MulOk (N : Denote T) (e Ω D : ℝ) (m : Cx T → Cx T → Cx T) : Prop :=
  ∀ a b W, N.cfin a → N.cfin b → ‖N.cval a‖ * ‖N.cval b‖ ≤ W → D ≤ W → (1 + mulErr e) * W ≤ Ω →
    N.cfin (m a b) ∧ ‖N.cval (m a b) - N.cval a * N.cval b‖ ≤ mulErr e * W

theorem ie_small (h : Env F N u η Ω v t D) {W x : ℝ} (hx : x ≤ W) (hDW : D ≤ W) (hΩ : (1 + mulErr U) * W ≤ Ω) :
    x ≤ Ω := by
  have := mulErr_nonneg h.U_nonneg
  have : 0 ≤ W := h.D_pos.le.trans hDW
  nlinarith

theorem ie_mulPlain (h : Env F N u η Ω v t D) : MulOk N U Ω D Cx.mulPlain := by
  intro a b W ha hb hW hDW hΩ
  obtain ⟨c1, c2⟩ := cross_le (N.cval a) (N.cval b)
  simp only [cval_re, cval_im] at c1 c2
  have n1 := abs_nonneg (N.val a.re * N.val b.re)
  have n2 := abs_nonneg (N.val a.im * N.val b.im)
  have n3 := abs_nonneg (N.val a.re * N.val b.im)
  have n4 := abs_nonneg (N.val a.im * N.val b.re)
  obtain ⟨f1, m1⟩ := h.mul a.re b.re ha.1 hb.1 (ie_small h (by linarith) hDW hΩ)
  obtain ⟨f2, m2⟩ := h.mul a.im b.im ha.2 hb.2 (ie_small h (by linarith) hDW hΩ)
  obtain ⟨f3, m3⟩ := h.mul a.re b.im ha.1 hb.2 (ie_small h (by linarith) hDW hΩ)
  obtain ⟨f4, m4⟩ := h.mul a.im b.re ha.2 hb.1 (ie_small h (by linarith) hDW hΩ)
  obtain ⟨s1, s2⟩ := ie_pair h (P := N.val a.re * N.val b.re) (Q := -(N.val a.im * N.val b.im))
    (by rw [abs_neg]; linarith) hDW m1 (q := -(N.val (F.mul a.im b.im)))
    (by rw [← neg_sub', abs_neg, abs_neg]; exact m2)
  obtain ⟨s3, s4⟩ := ie_pair h (P := N.val a.re * N.val b.im) (Q := N.val a.im * N.val b.re) (by linarith) hDW m3 m4
  obtain ⟨g1, k1⟩ := h.sub _ _ f1 f2 (by
    have := abs_add_le (N.val (F.mul a.re b.re)) (-(N.val (F.mul a.im b.im)))
    rw [← sub_eq_add_neg] at this
    linarith)
  obtain ⟨g2, k2⟩ := h.add _ _ f3 f4 (by
    have := abs_add_le (N.val (F.mul a.re b.im)) (N.val (F.mul a.im b.re))
    linarith)
  refine ⟨⟨g1, g2⟩, ?_⟩
  rw [mulErr, mul_assoc]
  apply norm_le_sqrt2
  · have := s2 _ (by rw [← sub_eq_add_neg]; exact k1)
    rw [← sub_eq_add_neg] at this
    simpa [Cx.mulPlain] using this
  · simpa [Cx.mulPlain] using s4 _ k2

theorem ie_mulFma (h : Env F N u η Ω v t D) : MulOk N U Ω D Cx.mulFma := by
  intro a b W ha hb hW hDW hΩ
  obtain ⟨c1, c2⟩ := cross_le (N.cval a) (N.cval b)
  simp only [cval_re, cval_im] at c1 c2
  have n1 := abs_nonneg (N.val a.re * N.val b.re)
  have n2 := abs_nonneg (N.val a.im * N.val b.im)
  have n3 := abs_nonneg (N.val a.re * N.val b.im)
  have n4 := abs_nonneg (N.val a.im * N.val b.re)
  obtain ⟨f2, m2⟩ := h.mul a.im b.im ha.2 hb.2 (ie_small h (by linarith) hDW hΩ)
  obtain ⟨f4, m4⟩ := h.mul a.im b.re ha.2 hb.1 (ie_small h (by linarith) hDW hΩ)
  obtain ⟨f5, m5⟩ := h.neg _ f2
  obtain ⟨s1, s2⟩ := ie_fma h (P := N.val a.re * N.val b.re) (Q := -(N.val a.im * N.val b.im))
    (by rw [abs_neg]; linarith) hDW (q := N.val (F.neg (F.mul a.im b.im)))
    (by rw [m5, ← neg_sub', abs_neg, abs_neg]; exact m2)
  obtain ⟨s3, s4⟩ := ie_fma h (P := N.val a.re * N.val b.im) (Q := N.val a.im * N.val b.re) (by linarith) hDW m4
  obtain ⟨g1, k1⟩ := h.mulAdd _ _ _ ha.1 hb.1 f5 (s1.trans hΩ)
  obtain ⟨g2, k2⟩ := h.mulAdd _ _ _ ha.1 hb.2 f4 (s3.trans hΩ)
  refine ⟨⟨g1, g2⟩, ?_⟩
  rw [mulErr, mul_assoc]
  apply norm_le_sqrt2
  · have := s2 _ k1
    rw [← sub_eq_add_neg] at this
    simpa [Cx.mulFma] using this
  · simpa [Cx.mulFma] using s4 _ k2

theorem ie_mul (h : Env F N u η Ω v t D) : MulOk N U Ω D Cx.mul := by
  intro a b
  unfold Cx.mul
  split
  · exact ie_mulFma h a b
  · exact ie_mulPlain h a b

/-- the rotation step of `get_twiddles` -/
theorem ie_rot (h : Env F N u η Ω v t D) : MulOk N U Ω D
    (fun w c => ⟨F.mulAdd w.re c.re (F.neg (F.mul w.im c.im)), F.mulAdd w.im c.re (F.mul w.re c.im)⟩) := by
  intro a b W ha hb hW hDW hΩ
  obtain ⟨c1, c2⟩ := cross_le (N.cval a) (N.cval b)
  simp only [cval_re, cval_im] at c1 c2
  have n1 := abs_nonneg (N.val a.re * N.val b.re)
  have n2 := abs_nonneg (N.val a.im * N.val b.im)
  have n3 := abs_nonneg (N.val a.re * N.val b.im)
  have n4 := abs_nonneg (N.val a.im * N.val b.re)
  obtain ⟨f2, m2⟩ := h.mul a.im b.im ha.2 hb.2 (ie_small h (by linarith) hDW hΩ)
  obtain ⟨f4, m4⟩ := h.mul a.re b.im ha.1 hb.2 (ie_small h (by linarith) hDW hΩ)
  obtain ⟨f5, m5⟩ := h.neg _ f2
  obtain ⟨s1, s2⟩ := ie_fma h (P := N.val a.re * N.val b.re) (Q := -(N.val a.im * N.val b.im))
    (by rw [abs_neg]; linarith) hDW (q := N.val (F.neg (F.mul a.im b.im)))
    (by rw [m5, ← neg_sub', abs_neg, abs_neg]; exact m2)
  obtain ⟨s3, s4⟩ := ie_fma h (P := N.val a.im * N.val b.re) (Q := N.val a.re * N.val b.im) (by linarith) hDW m4
  obtain ⟨g1, k1⟩ := h.mulAdd _ _ _ ha.1 hb.1 f5 (s1.trans hΩ)
  obtain ⟨g2, k2⟩ := h.mulAdd _ _ _ ha.2 hb.1 f4 (s3.trans hΩ)
  refine ⟨⟨g1, g2⟩, ?_⟩
  rw [mulErr, mul_assoc]
  apply norm_le_sqrt2
  · have := s2 _ k1
    rw [← sub_eq_add_neg] at this
    simpa using this
  · have := s4 _ k2
    rw [add_comm (N.val a.im * N.val b.re)] at this
    simpa using this

namespace IAp

variable {g h' G : ℝ} {a b c : Cx T} {z w : ℂ} {A B : ℝ}

omit F in
theorem nonneg (H : IAp N D g a z A) : 0 ≤ A := le_trans (norm_nonneg _) H.bd

omit F in
theorem norm_le (H : IAp N D g a z A) : ‖N.cval a‖ ≤ g * A := by
  have := norm_add_le (N.cval a - z) z
  rw [sub_add_cancel] at this
  nlinarith [H.err, H.bd]

omit F in
theorem mono (H : IAp N D g a z A) (hg : g ≤ h') : IAp N D h' a z A :=
  ⟨H.fin, H.one.trans hg, H.err.trans (mul_le_mul_of_nonneg_right (by linarith) H.nonneg), H.bd, H.floor⟩

omit F in
theorem weight (H : IAp N D g a z A) (hA : A ≤ B) : IAp N D g a z B :=
  ⟨H.fin, H.one, H.err.trans (mul_le_mul_of_nonneg_left hA (by linarith [H.one])), H.bd.trans hA, H.floor.trans hA⟩

omit F in
theorem exact (hf : N.cfin a) (hb : ‖N.cval a‖ ≤ A) (hD : D ≤ A) : IAp N D 1 a (N.cval a) A :=
  ⟨hf, le_rfl, by simp, hb, hD⟩

theorem zero (h : Env F N u η Ω v t D) (hg : 1 ≤ g) (hD : D ≤ A) : IAp N D g (Cx.zero : Cx T) 0 A := by
  obtain ⟨h1, h2⟩ := ie_zero h
  have : 0 ≤ A := h.D_pos.le.trans hD
  exact ⟨h1, hg, by rw [h2]; simpa using mul_nonneg (by linarith) this, by simpa, hD⟩

/-- an approximate unit number -/
theorem unit (h : Env F N u η Ω v t D) {τ : ℝ} (hf : N.cfin a) (hz : ‖z‖ ≤ 1) (ha : ‖N.cval a - z‖ ≤ τ) :
    IAp N D (1 + τ) a z 1 :=
  ⟨hf, by linarith [norm_nonneg (N.cval a - z)], by linarith, hz, h.D_le⟩

theorem conj (h : Env F N u η Ω v t D) (H : IAp N D g a z A) : IAp N D g a.conj ((starRingEnd ℂ) z) A := by
  obtain ⟨h1, h2⟩ := ie_conj h H.fin
  exact ⟨h1, H.one, by rw [h2, ← map_sub, RCLike.norm_conj]; exact H.err, by rw [RCLike.norm_conj]; exact H.bd, H.floor⟩

/-- one rounding -/
theorem round (h : Env F N u η Ω v t D) {e : ℂ} (hg : 1 ≤ g) (he : ‖e - z‖ ≤ (g - 1) * A) (hz : ‖z‖ ≤ A)
    (hD : D ≤ A) (hf : N.cfin c) (hc : ‖N.cval c - e‖ ≤ u * ‖e‖ + 2 * η) : IAp N D (g * (1 + U)) c z A := by
  have hU := h.U_nonneg
  have hu := h.u_nonneg
  refine ⟨hf, by nlinarith, ?_, hz, hD⟩
  have hA : 0 ≤ A := (norm_nonneg _).trans hz
  have h1 : ‖e‖ ≤ g * A := by
    have := norm_add_le (e - z) z
    rw [sub_add_cancel] at this
    nlinarith
  have h2 : D ≤ g * A := hD.trans (by nlinarith)
  have h3 := h.abs_err h2
  have h4 := mul_le_mul_of_nonneg_left h1 hu
  have h5 := norm_add_le (N.cval c - e) (e - z)
  rw [sub_add_sub_cancel] at h5
  nlinarith

theorem add (h : Env F N u η Ω v t D) (H : IAp N D g a z A) (K : IAp N D g b w B) (hΩ : g * (A + B) ≤ Ω) :
    IAp N D (g * (1 + U)) (a.add b) (z + w) (A + B) := by
  have h1 : ‖N.cval a + N.cval b - (z + w)‖ ≤ (g - 1) * (A + B) := by
    have h1 := norm_add_le (N.cval a - z) (N.cval b - w)
    rw [show N.cval a + N.cval b - (z + w) = (N.cval a - z) + (N.cval b - w) by ring]
    nlinarith [H.err, K.err]
  have h2 : ‖z + w‖ ≤ A + B := (norm_add_le _ _).trans (add_le_add H.bd K.bd)
  have h3 : ‖N.cval a + N.cval b‖ ≤ g * (A + B) := by
    have := norm_add_le (N.cval a + N.cval b - (z + w)) (z + w)
    rw [sub_add_cancel] at this
    nlinarith
  obtain ⟨f, e⟩ := ie_add h H.fin K.fin (h3.trans hΩ)
  exact round h H.one h1 h2 (by linarith [H.floor, K.nonneg]) f (by linarith [h.eta_nonneg])

theorem sub (h : Env F N u η Ω v t D) (H : IAp N D g a z A) (K : IAp N D g b w B) (hΩ : g * (A + B) ≤ Ω) :
    IAp N D (g * (1 + U)) (a.sub b) (z - w) (A + B) := by
  have h1 : ‖N.cval a - N.cval b - (z - w)‖ ≤ (g - 1) * (A + B) := by
    have h1 := norm_sub_le (N.cval a - z) (N.cval b - w)
    rw [show N.cval a - N.cval b - (z - w) = (N.cval a - z) - (N.cval b - w) by ring]
    nlinarith [H.err, K.err]
  have h2 : ‖z - w‖ ≤ A + B := (norm_sub_le _ _).trans (add_le_add H.bd K.bd)
  have h3 : ‖N.cval a - N.cval b‖ ≤ g * (A + B) := by
    have := norm_add_le (N.cval a - N.cval b - (z - w)) (z - w)
    rw [sub_add_cancel] at this
    nlinarith
  obtain ⟨f, e⟩ := ie_sub h H.fin K.fin (h3.trans hΩ)
  exact round h H.one h1 h2 (by linarith [H.floor, K.nonneg]) f (by linarith [h.eta_nonneg])

omit F in
theorem mul_aux {a' b' : ℂ} (hg : 1 ≤ g) (hh : 1 ≤ h') (he : ‖a' - z‖ ≤ (g - 1) * A) (hz : ‖z‖ ≤ A)
    (he' : ‖b' - w‖ ≤ (h' - 1) * B) (hw : ‖w‖ ≤ B) :
    ‖a' * b' - z * w‖ ≤ (g * h' - 1) * (A * B) ∧ ‖z * w‖ ≤ A * B ∧ ‖a'‖ * ‖b'‖ ≤ g * h' * (A * B) := by
  have H : Apx g a' z A := ⟨hg, he, hz⟩
  have K : Apx h' b' w B := ⟨hh, he', hw⟩
  have := H.mul' K
  refine ⟨this.err, this.bd, ?_⟩
  have := mul_le_mul H.norm_le K.norm_le (norm_nonneg _) (by nlinarith [H.nonneg])
  linarith [show g * A * (h' * B) = g * h' * (A * B) by ring]

theorem mul (h : Env F N u η Ω v t D) {m : Cx T → Cx T → Cx T} (hm : MulOk N U Ω D m) (H : IAp N D g a z A)
    (K : IAp N D h' b w B) (hD : D ≤ A * B) (hΩ : g * h' * (1 + mulErr U) * (A * B) ≤ Ω) :
    IAp N D (g * h' * (1 + mulErr U)) (m a b) (z * w) (A * B) := by
  have hμ := mulErr_nonneg h.U_nonneg
  have hg := H.one
  have hh := K.one
  have hgh : 1 ≤ g * h' := by nlinarith
  obtain ⟨h1, h2, h3⟩ := mul_aux H.one K.one H.err H.bd K.err K.bd
  have hAB : 0 ≤ A * B := h.D_pos.le.trans hD
  obtain ⟨f, e⟩ := hm a b _ H.fin K.fin h3 (hD.trans (by nlinarith)) (by
    linarith [show g * h' * (1 + mulErr U) * (A * B) = (1 + mulErr U) * (g * h' * (A * B)) by ring])
  refine ⟨f, by nlinarith, ?_, h2, hD⟩
  have h5 := norm_add_le (N.cval (m a b) - N.cval a * N.cval b) (N.cval a * N.cval b - z * w)
  rw [sub_add_sub_cancel] at h5
  nlinarith

/-- scaling by a computed real factor -/
theorem scale (h : Env F N u η Ω v t D) (H : IAp N D g a z A) {r : T} {R B : ℝ} (K : RAp N D h' r R B)
    (hD : D ≤ A * B) (hΩ : g * h' * (A * B) ≤ Ω) :
    IAp N D (g * h' * (1 + U)) ⟨F.mul a.re r, F.mul a.im r⟩ (z * R) (A * B) := by
  have hη := h.eta_nonneg
  obtain ⟨h1, h2, h3⟩ := mul_aux (b' := (N.val r : ℂ)) (w := (R : ℂ)) H.one K.one H.err H.bd
    (by rw [← ofReal_sub, Complex.norm_real]; exact K.err) (by rw [Complex.norm_real]; exact K.bd)
  rw [Complex.norm_real] at h3
  have r1 : |N.val a.re * N.val r| ≤ Ω := by
    rw [abs_mul]
    exact (mul_le_mul_of_nonneg_right (re_le a) (abs_nonneg _)).trans (h3.trans hΩ)
  have r2 : |N.val a.im * N.val r| ≤ Ω := by
    rw [abs_mul]
    exact (mul_le_mul_of_nonneg_right (im_le a) (abs_nonneg _)).trans (h3.trans hΩ)
  obtain ⟨f1, e1⟩ := h.mul a.re r H.fin.1 K.fin r1
  obtain ⟨f2, e2⟩ := h.mul a.im r H.fin.2 K.fin r2
  refine round h (by nlinarith [H.one, K.one]) h1 h2 hD ⟨f1, f2⟩ ?_
  set d : ℂ := N.cval ⟨F.mul a.re r, F.mul a.im r⟩ - N.cval a * (N.val r : ℂ) with hd
  -- split the error into a relative and an absolute part
  have split : ∀ e p : ℝ, |e| ≤ u * |p| + η → ∃ x y, e = x + y ∧ |x| ≤ u * |p| ∧ |y| ≤ η := by
    intro e p he
    have hup : 0 ≤ u * |p| := mul_nonneg h.u_nonneg (abs_nonneg _)
    by_cases hc : |e| ≤ u * |p|
    · exact ⟨e, 0, by ring, hc, by simpa⟩
    · rcases le_total 0 e with h0 | h0
      · rw [abs_of_nonneg h0] at he hc
        exact ⟨u * |p|, e - u * |p|, by ring, by rw [abs_of_nonneg hup], by
          rw [abs_of_nonneg (by linarith)]; linarith⟩
      · rw [abs_of_nonpos h0] at he hc
        exact ⟨-(u * |p|), e + u * |p|, by ring, by rw [abs_neg, abs_of_nonneg hup], by
          rw [abs_of_nonpos (by linarith)]; linarith⟩
  have d1 : d.re = N.val (F.mul a.re r) - N.val a.re * N.val r := by simp [hd]
  have d2 : d.im = N.val (F.mul a.im r) - N.val a.im * N.val r := by simp [hd]
  obtain ⟨x1, y1, q1, q2, q3⟩ := split d.re (N.val a.re * N.val r) (by rw [d1]; exact e1)
  obtain ⟨x2, y2, q4, q5, q6⟩ := split d.im (N.val a.im * N.val r) (by rw [d2]; exact e2)
  have hsum : d = (⟨x1, x2⟩ : ℂ) + ⟨y1, y2⟩ := Complex.ext q1 q4
  rw [hsum]
  refine (norm_add_le _ _).trans (add_le_add ?_ ?_)
  · apply norm_le_of_parts h.u_nonneg
    · simpa using q2
    · simpa using q5
  · refine (norm_le_sqrt2 q3 q6).trans ?_
    have : Real.sqrt 2 ≤ 2 := by rw [Real.sqrt_le_left (by norm_num)]; norm_num
    nlinarith

end IAp

/-- The computed exponential of a computed angle. -/
theorem ie_expi (h : Env F N u η Ω v t D) {θ' : T} (hf : N.fin θ') (θ : ℝ) :
    N.cfin (Cx.expi θ') ∧ ‖N.cval (Cx.expi θ') - exp (θ * I)‖ ≤ Real.sqrt 2 * t + |N.val θ' - θ| := by
  obtain ⟨c1, c2⟩ := h.cos θ' hf
  obtain ⟨s1, s2⟩ := h.sin θ' hf
  refine ⟨⟨c1, s1⟩, ?_⟩
  have e1 : ‖N.cval (Cx.expi θ') - exp (N.val θ' * I)‖ ≤ Real.sqrt 2 * t := by
    apply norm_le_sqrt2
    · simpa [Cx.expi, Complex.exp_ofReal_mul_I_re] using c2
    · simpa [Cx.expi, Complex.exp_ofReal_mul_I_im] using s2
  have e2 : ‖exp (N.val θ' * I) - exp (θ * I)‖ ≤ |N.val θ' - θ| := by
    have : exp (N.val θ' * I) - exp (θ * I) = exp (θ * I) * (exp (I * ((N.val θ' - θ : ℝ) : ℂ)) - 1) := by
      rw [mul_sub, ← exp_add, mul_one]; congr 2; push_cast; ring
    rw [this, norm_mul, Complex.norm_exp_ofReal_mul_I, one_mul]
    have := Real.norm_exp_I_mul_ofReal_sub_one_le (x := N.val θ' - θ)
    simpa using this
  calc _ = ‖(N.cval (Cx.expi θ') - exp (N.val θ' * I)) + (exp (N.val θ' * I) - exp (θ * I))‖ := by
        rw [sub_add_sub_cancel]
    _ ≤ _ := (norm_add_le _ _).trans (add_le_add e1 e2)

end Kofft
