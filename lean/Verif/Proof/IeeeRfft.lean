import Verif.Proof.IeeeFft
import Verif.Proof.RoundRfft
/-
The real-FFT kernels in arithmetic with a bounded exponent range.
-/
namespace Kofft

open Spec Complex Finset

variable {T : Type} [F : Flt T] {N : Denote T} {u η Ω v t D : ℝ}

local notation "U" => effErr u η D

/-! ### The table -/

theorem ie_rrot (h : Env F N u η Ω v t D) {m : ℕ} (hm : 0 < m) (hm31 : m ≤ 2 ^ 31) (hD : m * D ≤ 1) :
    IAp N D (1 + rrotErr U v t m)
      (⟨F.cos (F.div (F.neg F.pi) (F.ofNat m)), F.sin (F.div (F.neg F.pi) (F.ofNat m))⟩ : Cx T) (W (2 * m) 1) 1 := by
  have hU := h.U_nonneg
  have hU1 := h.U_le
  have hv := h.v_nonneg
  have hv1 := h.v_le
  have hm' : (0 : ℝ) < m := by exact_mod_cast hm
  have hm1 : (1 : ℝ) ≤ m := by exact_mod_cast hm
  have hp := Real.pi_gt_three
  have hp' := Real.pi_lt_d2
  obtain ⟨hh1, hh2⟩ := ie_half h
  obtain ⟨f, e1, e2⟩ := ie_inv h hm (by omega)
  have hle : Real.pi / m ≤ Real.pi := div_le_self (by positivity) hm1
  have h0 : 0 ≤ Real.pi / m := by positivity
  have hbig := h.big
  have a := ((ie_pi h).neg h).div h (b := F.ofNat m) (w := m) f e2 hm' hh1 e1 (by
    rw [le_div_iff₀ hm']; linarith) (by
    have e3 : (1 + U) * (1 / (1 - v)) ≤ 2 * 2 := mul_le_mul (by linarith) hh2 (by linarith) (by norm_num)
    have e4 := mul_le_mul e3 hle h0 (by norm_num)
    linarith)
  obtain ⟨f3, e3⟩ := ie_expi h a.fin (-Real.pi / m)
  have e' : ((-Real.pi / m : ℝ) : ℂ) = ((-2 * Real.pi * (1 : ℕ) / (2 * m : ℕ) : ℝ) : ℂ) := by
    congr 1; push_cast; field_simp
  rw [e', ← ie_Wexp] at e3
  refine IAp.unit h f3 (ie_Wnorm _ _).le (e3.trans ?_)
  rw [rrotErr]
  have := a.err
  rw [show (1 + U) * (1 / (1 - v)) * (1 + U) = (1 + U) ^ 2 / (1 - v) by ring] at this
  linarith

theorem ie_rtw (h : Env F N u η Ω v t D) {m : ℕ} (hm : 0 < m) (hm31 : m ≤ 2 ^ 31) (hD : m * D ≤ 1) (k : ℕ)
    (hΩ : ((1 + mulErr U) * (1 + rrotErr U v t m)) ^ k ≤ Ω) :
    IAp N D (((1 + mulErr U) * (1 + rrotErr U v t m)) ^ k) (rtw m k : Cx T) (W (2 * m) k) 1 := by
  have hμ := mulErr_nonneg h.U_nonneg
  have hr := rrotErr_nonneg (F := realFlt true) h.rounding m
  have hq : 1 ≤ (1 + mulErr U) * (1 + rrotErr U v t m) := by nlinarith
  induction k with
  | zero => rw [W_zero, pow_zero]; exact ie_one h
  | succ k ih =>
    have i := ih ((pow_le_pow_right₀ hq (by omega)).trans hΩ)
    have e : ((1 + mulErr U) * (1 + rrotErr U v t m)) ^ k * (1 + rrotErr U v t m) * (1 + mulErr U) =
      ((1 + mulErr U) * (1 + rrotErr U v t m)) ^ (k + 1) := by ring
    have := i.mul h (ie_mul h) (ie_rrot h hm hm31 hD) (by rw [one_mul]; exact h.D_le)
      (by rw [e, one_mul, mul_one]; exact hΩ)
    rw [e, one_mul, ← W_add] at this
    exact this

/-! ### One bin -/

variable {g ω : ℝ} {w a c s d : Cx T} {zw za zc : ℂ} {A B : ℝ}

theorem ie_halve (h : Env F N u η Ω v t D) (hD : D ≤ 1 / 2) (H : IAp N D g a za A) (hA : 2 * D ≤ A)
    (hΩ : g * A ≤ Ω) :
    IAp N D (g * (1 + U)) ⟨F.mul a.re (F.lit 5 1), F.mul a.im (F.lit 5 1)⟩ (za / 2) (A / 2) := by
  have hg := H.one
  have hA0 := H.nonneg
  have := H.scale h (R := 1 / 2) (B := 1 / 2) (h' := 1) (r := F.lit 5 1)
    (RAp.exact h.half.1 h.half.2 (by norm_num) hD) (by linarith) (by nlinarith)
  rw [mul_one] at this
  have e : za * ((1 / 2 : ℝ) : ℂ) = za / 2 := by push_cast; ring
  rw [e, ← div_eq_mul_one_div] at this
  exact this

/-- exchanging parts -/
theorem ie_rotI (h : Env F N u η Ω v t D) (H : IAp N D g a za A) :
    IAp N D g ⟨a.im, F.neg a.re⟩ (-I * za) A := by
  obtain ⟨f, e⟩ := h.neg _ H.fin.1
  have e2 : N.cval (⟨a.im, F.neg a.re⟩ : Cx T) = -I * N.cval a := by apply Complex.ext <;> simp [e]
  refine ⟨⟨H.fin.2, f⟩, H.one, ?_, ?_, H.floor⟩
  · rw [e2, ← mul_sub, norm_mul, norm_neg, norm_I, one_mul]; exact H.err
  · rw [norm_mul, norm_neg, norm_I, one_mul]; exact H.bd

/-- a complex sum given by its parts -/
theorem ie_sum2 (h : Env F N u η Ω v t D) {σ : ℂ} {r : Cx T} (hσ : ‖σ‖ = 1) (H : IAp N D g a za A) (K : IAp N D g c zc B)
    (hf : ‖N.cval a + σ * N.cval c‖ ≤ Ω →
      N.cfin r ∧ ‖N.cval r - (N.cval a + σ * N.cval c)‖ ≤ u * ‖N.cval a + σ * N.cval c‖)
    (hΩ : g * (A + B) ≤ Ω) : IAp N D (g * (1 + U)) r (za + σ * zc) (A + B) := by
  have h1 : ‖N.cval a + σ * N.cval c - (za + σ * zc)‖ ≤ (g - 1) * (A + B) := by
    have h1 := norm_add_le (N.cval a - za) (σ * (N.cval c - zc))
    rw [norm_mul, hσ, one_mul] at h1
    rw [show N.cval a + σ * N.cval c - (za + σ * zc) = (N.cval a - za) + σ * (N.cval c - zc) by ring]
    nlinarith [H.err, K.err]
  have h2 : ‖za + σ * zc‖ ≤ A + B := by
    refine (norm_add_le _ _).trans ?_
    rw [norm_mul, hσ, one_mul]
    exact add_le_add H.bd K.bd
  have h3 : ‖N.cval a + σ * N.cval c‖ ≤ g * (A + B) := by
    have := norm_add_le (N.cval a + σ * N.cval c - (za + σ * zc)) (za + σ * zc)
    rw [sub_add_cancel] at this
    nlinarith
  obtain ⟨f, e⟩ := hf (h3.trans hΩ)
  exact IAp.round h H.one h1 h2 (by linarith [H.floor, K.nonneg]) f (by linarith [h.eta_nonneg])

theorem ie_subI (h : Env F N u η Ω v t D) (H : IAp N D g a za A) (K : IAp N D g c zc B) (hΩ : g * (A + B) ≤ Ω) :
    IAp N D (g * (1 + U)) ⟨F.add a.re c.im, F.sub a.im c.re⟩ (za + (-I) * zc) (A + B) := by
  refine ie_sum2 h (by simp) H K ?_ hΩ
  intro hl
  obtain ⟨f1, e1⟩ := h.add a.re c.im H.fin.1 K.fin.2 ((by simpa using Complex.abs_re_le_norm (N.cval a + -I * N.cval c) :
    |N.val a.re + N.val c.im| ≤ ‖N.cval a + -I * N.cval c‖).trans hl)
  obtain ⟨f2, e2⟩ := h.sub a.im c.re H.fin.2 K.fin.1 ((by
    simpa [← sub_eq_add_neg] using Complex.abs_im_le_norm (N.cval a + -I * N.cval c) :
    |N.val a.im - N.val c.re| ≤ ‖N.cval a + -I * N.cval c‖).trans hl)
  refine ⟨⟨f1, f2⟩, norm_le_of_parts h.u_nonneg ?_ ?_⟩
  · simpa using e1
  · simpa [← sub_eq_add_neg] using e2

theorem ie_addI (h : Env F N u η Ω v t D) (H : IAp N D g a za A) (K : IAp N D g c zc B) (hΩ : g * (A + B) ≤ Ω) :
    IAp N D (g * (1 + U)) ⟨F.sub a.re c.im, F.add a.im c.re⟩ (za + I * zc) (A + B) := by
  refine ie_sum2 h (by simp) H K ?_ hΩ
  intro hl
  obtain ⟨f1, e1⟩ := h.sub a.re c.im H.fin.1 K.fin.2 ((by
    simpa [← sub_eq_add_neg] using Complex.abs_re_le_norm (N.cval a + I * N.cval c) :
    |N.val a.re - N.val c.im| ≤ ‖N.cval a + I * N.cval c‖).trans hl)
  obtain ⟨f2, e2⟩ := h.add a.im c.re H.fin.2 K.fin.1 ((by simpa using Complex.abs_im_le_norm (N.cval a + I * N.cval c) :
    |N.val a.im + N.val c.re| ≤ ‖N.cval a + I * N.cval c‖).trans hl)
  refine ⟨⟨f1, f2⟩, norm_le_of_parts h.u_nonneg ?_ ?_⟩
  · simpa [← sub_eq_add_neg] using e1
  · simpa using e2

/-- sum, difference and rotated difference of one bin, with room for all of them -/
theorem ie_bin (h : Env F N u η Ω v t D) (hw : IAp N D ω w zw 1) (ha : IAp N D g a za A) (hc : IAp N D g c zc B)
    (hΩ : g * ((1 + U) ^ 3 * (1 + mulErr U) * ω) * (2 * (A + B)) ≤ Ω) :
    let G := g * ((1 + U) * (1 + mulErr U) * ω)
    IAp N D G (a.add c.conj) (za + (starRingEnd ℂ) zc) (A + B) ∧
    IAp N D G (w.mul (a.sub c.conj)) (zw * (za - (starRingEnd ℂ) zc)) (A + B) ∧
    IAp N D G ((a.sub c.conj).mulPlain w) (zw * (za - (starRingEnd ℂ) zc)) (A + B) ∧
    G * (A + B + (A + B)) ≤ Ω ∧ G * (1 + U) * (A + B + (A + B)) ≤ Ω := by
  intro G
  have hU := h.U_nonneg
  have hμ := mulErr_nonneg hU
  have hg := ha.one
  have hω := hw.one
  have hA := ha.nonneg
  have hB := hc.nonneg
  have hAB : 0 ≤ A + B := by linarith
  have q1 : 1 ≤ (1 + mulErr U) * ω := by nlinarith
  have q2 : g ≤ g * ((1 + mulErr U) * ω) := by nlinarith
  have eG : G = g * ((1 + mulErr U) * ω) * (1 + U) := by simp only [G]; ring
  have eG3 : g * ((1 + U) ^ 3 * (1 + mulErr U) * ω) = G * (1 + U) * (1 + U) := by simp only [G]; ring
  have q3 : g * (1 + U) ≤ G := by rw [eG]; exact mul_le_mul_of_nonneg_right q2 (by linarith)
  have hgG : g ≤ G := by nlinarith
  have hG : 1 ≤ G := hg.trans hgG
  have r0 : G * (1 + U) * (A + B + (A + B)) ≤ Ω := by
    refine le_trans ?_ hΩ
    rw [eG3, ← two_mul]
    apply mul_le_mul_of_nonneg_right _ (by linarith)
    have : 0 ≤ G * (1 + U) := by positivity
    nlinarith
  have r1 : G * (A + B + (A + B)) ≤ Ω := by
    refine le_trans (mul_le_mul_of_nonneg_right ?_ (by linarith)) r0
    nlinarith
  have r2 : G * (A + B) ≤ Ω := le_trans (mul_le_mul_of_nonneg_left (by linarith) (by linarith)) r1
  have r3 : g * (A + B) ≤ Ω := (mul_le_mul_of_nonneg_right hgG hAB).trans r2
  have hs := ha.add h (hc.conj h) r3
  have hd := ha.sub h (hc.conj h) r3
  have hDAB : D ≤ A + B := by linarith [ha.floor]
  have e1 : ω * (g * (1 + U)) * (1 + mulErr U) = G := by simp only [G]; ring
  have e2 : g * (1 + U) * ω * (1 + mulErr U) = G := by simp only [G]; ring
  have t1 := hw.mul h (ie_mul h) hd (by rw [one_mul]; exact hDAB) (by rw [e1, one_mul]; exact r2)
  have t2 := hd.mul h (ie_mulPlain h) hw (by rw [mul_one]; exact hDAB) (by rw [e2, mul_one]; exact r2)
  rw [e1, one_mul] at t1
  rw [e2, mul_one, mul_comm _ zw] at t2
  exact ⟨hs.mono q3, t1, t2, r1, r0⟩

theorem ie_finish (h : Env F N u η Ω v t D) (hD : D ≤ 1 / 2) {r : Cx T} {z : ℂ} {G : ℝ} (hDA : D ≤ A)
    (H : IAp N D (G * (1 + U)) r z (A + A)) (hΩ : G * (1 + U) * (A + A) ≤ Ω) :
    IAp N D (G * (1 + U) * (1 + U)) ⟨F.mul r.re (F.lit 5 1), F.mul r.im (F.lit 5 1)⟩ (z / 2) A := by
  have := ie_halve h hD H (by linarith) hΩ
  rwa [show (A + A) / 2 = A by ring] at this

theorem ie_rBinOf (h : Env F N u η Ω v t D) (hD : D ≤ 1 / 2) (simd : Bool) (hw : IAp N D ω w zw 1)
    (ha : IAp N D g a za A) (hc : IAp N D g c zc B)
    (hΩ : g * ((1 + U) ^ 3 * (1 + mulErr U) * ω) * (2 * (A + B)) ≤ Ω) :
    IAp N D (g * ((1 + U) ^ 3 * (1 + mulErr U) * ω)) (rBinOf simd w a c) (rBinC zw za zc) (A + B) := by
  obtain ⟨hs, t1, t2, r1, r2⟩ := ie_bin h hw ha hc hΩ
  have e : rBinC zw za zc = ((za + (starRingEnd ℂ) zc) + (-I) * (zw * (za - (starRingEnd ℂ) zc))) / 2 := by
    unfold rBinC; ring
  have eG : g * ((1 + U) ^ 3 * (1 + mulErr U) * ω) = g * ((1 + U) * (1 + mulErr U) * ω) * (1 + U) * (1 + U) := by ring
  rw [e, eG]
  have hDA : D ≤ A + B := by linarith [ha.floor, hc.nonneg]
  cases simd
  · exact ie_finish h hD hDA (hs.add h (ie_rotI h t1) r1) r2
  · exact ie_finish h hD hDA (ie_subI h hs t2 r1) r2

theorem ie_irBinOf (h : Env F N u η Ω v t D) (hD : D ≤ 1 / 2) (simd : Bool) (hw : IAp N D ω w zw 1)
    (ha : IAp N D g a za A) (hc : IAp N D g c zc B)
    (hΩ : g * ((1 + U) ^ 3 * (1 + mulErr U) * ω) * (2 * (A + B)) ≤ Ω) :
    IAp N D (g * ((1 + U) ^ 3 * (1 + mulErr U) * ω)) (irBinOf simd w a c) (irBinC zw za zc) (A + B) := by
  obtain ⟨hs, t1, t2, r1, r2⟩ := ie_bin h (hw.conj h) ha hc hΩ
  have eG : g * ((1 + U) ^ 3 * (1 + mulErr U) * ω) = g * ((1 + U) * (1 + mulErr U) * ω) * (1 + U) * (1 + U) := by ring
  unfold irBinC
  rw [eG]
  have hDA : D ≤ A + B := by linarith [ha.floor, hc.nonneg]
  cases simd
  · have := hs.sub h (ie_rotI h t1) r1
    rw [neg_mul, sub_neg_eq_add] at this
    exact ie_finish h hD hDA this r2
  · exact ie_finish h hD hDA (ie_addI h hs t2 r1) r2

/-! ### Whole half spectra -/

theorem ie_re_add_im (h : Env F N u η Ω v t D) (H : IAp N D g a za A) (hΩ : g * (2 * A) ≤ Ω) :
    IAp N D (g * (1 + U)) ⟨F.add a.re a.im, F.zero⟩ ((za.re + za.im : ℝ)) (2 * A) := by
  have k := re_add_im_apx (⟨H.one, H.err, H.bd⟩ : Apx g (N.cval a) za A)
  have hle : |N.val a.re + N.val a.im| ≤ Ω := by
    have := k.norm_le
    rw [Complex.norm_real, Real.norm_eq_abs] at this
    exact this.trans hΩ
  obtain ⟨f, e⟩ := h.add a.re a.im H.fin.1 H.fin.2 hle
  refine IAp.round h H.one k.err k.bd (by linarith [H.floor, H.nonneg]) ⟨f, h.zero.1⟩ ?_
  have e2 : N.cval (⟨F.add a.re a.im, F.zero⟩ : Cx T) = (N.val (F.add a.re a.im) : ℝ) := by
    apply Complex.ext <;> simp [h.zero.2]
  rw [e2, ← ofReal_sub, Complex.norm_real, Complex.norm_real]
  have := h.eta_nonneg
  simp only [cval_re, cval_im, Real.norm_eq_abs]
  linarith

theorem ie_re_sub_im (h : Env F N u η Ω v t D) (H : IAp N D g a za A) (hΩ : g * (2 * A) ≤ Ω) :
    IAp N D (g * (1 + U)) ⟨F.sub a.re a.im, F.zero⟩ ((za.re - za.im : ℝ)) (2 * A) := by
  have k := re_sub_im_apx (⟨H.one, H.err, H.bd⟩ : Apx g (N.cval a) za A)
  have hle : |N.val a.re - N.val a.im| ≤ Ω := by
    have := k.norm_le
    rw [Complex.norm_real, Real.norm_eq_abs] at this
    exact this.trans hΩ
  obtain ⟨f, e⟩ := h.sub a.re a.im H.fin.1 H.fin.2 hle
  refine IAp.round h H.one k.err k.bd (by linarith [H.floor, H.nonneg]) ⟨f, h.zero.1⟩ ?_
  have e2 : N.cval (⟨F.sub a.re a.im, F.zero⟩ : Cx T) = (N.val (F.sub a.re a.im) : ℝ) := by
    apply Complex.ext <;> simp [h.zero.2]
  rw [e2, ← ofReal_sub, Complex.norm_real, Complex.norm_real]
  have := h.eta_nonneg
  simp only [cval_re, cval_im, Real.norm_eq_abs]
  linarith

theorem ie_binG (h : Env F N u η Ω v t D) (m : ℕ) : (1 + U) ^ 3 ≤ binGrowth U v t m :=
  binGrowth_ge (F := realFlt true) h.rounding m

theorem ie_binG1 (h : Env F N u η Ω v t D) (m : ℕ) : 1 + U ≤ binGrowth U v t m := by
  have hU := h.U_nonneg
  refine le_trans ?_ (ie_binG h m)
  nlinarith [sq_nonneg (effErr u η D), mul_nonneg hU hU, pow_nonneg hU 3]

/-- room for one table entry and one bin -/
theorem ie_bin_room (h : Env F N u η Ω v t D) {m k : ℕ} (hk : k ≤ m) {A : ℝ} (hg : 1 ≤ g) (hA : 0 ≤ A)
    (hΩ : g * binGrowth U v t m * A ≤ Ω) (hΩ' : binGrowth U v t m ≤ Ω) :
    ((1 + mulErr U) * (1 + rrotErr U v t m)) ^ k ≤ Ω ∧
    g * ((1 + U) ^ 3 * (1 + mulErr U) * ((1 + mulErr U) * (1 + rrotErr U v t m)) ^ k) ≤ g * binGrowth U v t m ∧
    g * ((1 + U) ^ 3 * (1 + mulErr U) * ((1 + mulErr U) * (1 + rrotErr U v t m)) ^ k) * A ≤ Ω := by
  have hU := h.U_nonneg
  have hμ := mulErr_nonneg hU
  have hr := rrotErr_nonneg (F := realFlt true) h.rounding m
  have hq : 1 ≤ (1 + mulErr U) * (1 + rrotErr U v t m) := by nlinarith
  have hg' := rtw_growth (F := realFlt true) h.rounding hk
  have hp := one_le_pow₀ hq (n := k)
  have h2 := mul_le_mul_of_nonneg_left hg' (by linarith : 0 ≤ g)
  refine ⟨le_trans ?_ (hg'.trans hΩ'), h2, (mul_le_mul_of_nonneg_right h2 hA).trans hΩ⟩
  have h3 : 1 ≤ (1 + U) ^ 3 := one_le_pow₀ (by linarith)
  have h4 : 1 ≤ (1 + U) ^ 3 * (1 + mulErr U) := by nlinarith
  nlinarith

theorem ie_rfftPost (h : Env F N u η Ω v t D) (hD2 : D ≤ 1 / 2) (simd : Bool) {m : ℕ} (hm : 0 < m) (hm31 : m ≤ 2 ^ 31)
    (hD : m * D ≤ 1) (x : List ℝ) (y : List (Cx T)) (hy : y.length = m) (g S : ℝ)
    (hZ : ∀ k, k < m → IAp N D g (y.getD k Cx.zero)
      (dft m (fun t => rsig x (2 * t) + I * rsig x (2 * t + 1)) k) S)
    (hΩ : g * binGrowth U v t m * (4 * S) ≤ Ω) (hΩ' : binGrowth U v t m ≤ Ω) (k : ℕ) (hk : k ≤ m) :
    IAp N D (g * binGrowth U v t m) ((rfftPost (rBinOf simd) y).getD k Cx.zero) (dft (2 * m) (rsig x) k) (2 * S) := by
  obtain ⟨a', b', c'⟩ := rdft_split hm x _ (fun k => rfl)
  have hU := h.U_nonneg
  have hg := (hZ 0 hm).one
  have hS := (hZ 0 hm).nonneg
  have hb := ie_binG1 h m
  have hmono : g * (1 + U) ≤ g * binGrowth U v t m := mul_le_mul_of_nonneg_left hb (by linarith)
  have hΩ1 : g * (2 * S) ≤ Ω := by
    refine le_trans ?_ hΩ
    have : g ≤ g * binGrowth U v t m := by nlinarith
    nlinarith
  rcases Nat.eq_zero_or_pos k with rfl | h0
  · rw [rfftPost, tab_getD (by omega), if_pos rfl, ← a']
    exact (ie_re_add_im h (hZ 0 hm) hΩ1).mono hmono
  rcases hk.eq_or_lt with rfl | hk
  · rw [rfftPost, tab_getD (by omega), if_neg (by omega), if_pos hy.symm, ← b']
    exact (ie_re_sub_im h (hZ 0 hm) hΩ1).mono hmono
  · rw [rfftPost, tab_getD (by omega), if_neg (by omega), if_neg (by omega), hy, two_mul S, ← c' k h0 hk]
    obtain ⟨q1, q2, q3⟩ := ie_bin_room h hk.le hg (by linarith) hΩ hΩ'
    refine (ie_rBinOf h hD2 simd (ie_rtw h hm hm31 hD k q1) (hZ k hk) (hZ (m - k) (by omega)) ?_).mono q2
    rw [show 2 * (S + S) = 4 * S by ring]
    exact q3

omit F in
theorem ie_getD_rsig [Flt T] (x : List T) (i : ℕ) (hi : i < x.length) :
    rsig (x.map N.val) i = ((N.val (x.getD i Flt.zero) : ℝ) : ℂ) := by
  simp [rsig, hi]

/-- The packed samples weigh no more than the samples. -/
theorem ie_packed {D : ℝ} (hD0 : 0 < D) (x : List T) {m : ℕ} (hx : x.length = 2 * m) (hfin : ∀ c ∈ x, N.fin c) (i : ℕ) (hi : i < m) :
    IAp N D 1 ((packed x).getD i Cx.zero) (rsig (x.map N.val) (2 * i) + I * rsig (x.map N.val) (2 * i + 1))
      (‖rsig (x.map N.val) (2 * i)‖ + ‖rsig (x.map N.val) (2 * i + 1)‖ + D) := by
  have hm : ∀ j, j < x.length → N.fin (x.getD j Flt.zero) := by
    intro j hj
    have : x.getD j Flt.zero = x[j] := by simp [hj]
    rw [this]; exact hfin _ (List.getElem_mem hj)
  rw [packed, tab_getD (by omega)]
  have e : rsig (x.map N.val) (2 * i) + I * rsig (x.map N.val) (2 * i + 1) =
      N.cval ⟨x.getD (2 * i) Flt.zero, x.getD (2 * i + 1) Flt.zero⟩ := by
    rw [ie_getD_rsig x _ (by omega), ie_getD_rsig x _ (by omega)]
    apply Complex.ext <;> simp
  have hn : ‖N.cval ⟨x.getD (2 * i) Flt.zero, x.getD (2 * i + 1) Flt.zero⟩‖ ≤
      ‖rsig (x.map N.val) (2 * i)‖ + ‖rsig (x.map N.val) (2 * i + 1)‖ := by
    rw [← e]
    refine (norm_add_le _ _).trans ?_
    rw [norm_mul, norm_I, one_mul]
  rw [e]
  have := norm_nonneg (rsig (x.map N.val) (2 * i))
  have := norm_nonneg (rsig (x.map N.val) (2 * i + 1))
  exact IAp.exact ⟨hm _ (by omega), hm _ (by omega)⟩ (by linarith) (by linarith)

theorem ie_irfftPre (h : Env F N u η Ω v t D) (hD2 : D ≤ 1 / 2) (simd : Bool) {m : ℕ} (hm : 0 < m) (hm31 : m ≤ 2 ^ 31)
    (hD : m * D ≤ 1) (X : List (Cx T))
    (Z : ℕ → ℂ) (g : ℝ) (A : ℕ → ℝ) (hZ : ∀ k, k ≤ m → IAp N D g (X.getD k Cx.zero) (Z k) (A k))
    (hΩ : ∀ k, k ≤ m → g * binGrowth U v t m * (2 * (A k + A (m - k))) ≤ Ω) (hΩ' : binGrowth U v t m ≤ Ω)
    (k : ℕ) (hk : k < m) :
    IAp N D (g * binGrowth U v t m) ((irfftPre (irBinOf simd) m X).getD k Cx.zero)
      (dft m (fun t => idft (2 * m) (hermitian (2 * m) Z) (2 * t) +
      I * idft (2 * m) (hermitian (2 * m) Z) (2 * t + 1)) k) (A k + A (m - k)) := by
  have hU := h.U_nonneg
  have hu := h.u_nonneg
  have hb := ie_binG h m
  have hg := (hZ 0 (by omega)).one
  obtain ⟨e0, ek⟩ := irdft_split hm Z _ (fun k => rfl)
  rcases Nat.eq_zero_or_pos k with rfl | h0
  · rw [irfftPre, tab_getD hk, if_pos rfl, e0, Nat.sub_zero]
    have H0 := hZ 0 (by omega)
    have Hm := hZ m le_rfl
    have hA0 := H0.nonneg
    have hAm := Hm.nonneg
    have hΩ0 := hΩ 0 (by omega)
    rw [Nat.sub_zero] at hΩ0
    have hb1 := ie_binG1 h m
    have gb : g * (1 + U) ≤ g * binGrowth U v t m := mul_le_mul_of_nonneg_left hb1 (by linarith)
    have hΩ1 : g * (1 + U) * (A 0 + A m + (A 0 + A m)) ≤ Ω := by
      refine le_trans ?_ hΩ0
      rw [← two_mul]
      exact mul_le_mul_of_nonneg_right gb (by linarith)
    have hΩ2 : g * (A 0 + A m) ≤ Ω := by
      refine le_trans ?_ hΩ1
      have : g ≤ g * (1 + U) := by nlinarith
      nlinarith
    have hre : ∀ {a z : ℂ} {A : ℝ}, Apx g a z A → Apx g (a.re : ℂ) (z.re : ℂ) A := fun {a z A} H =>
      ⟨H.one, by
        rw [← ofReal_sub, Complex.norm_real, Real.norm_eq_abs, ← sub_re]
        exact (Complex.abs_re_le_norm _).trans H.err, by
        rw [Complex.norm_real, Real.norm_eq_abs]; exact (Complex.abs_re_le_norm _).trans H.bd⟩
    have a0 := hre (⟨H0.one, H0.err, H0.bd⟩ : Apx g (N.cval (X.getD 0 Cx.zero)) (Z 0) (A 0))
    have am := hre (⟨Hm.one, Hm.err, Hm.bd⟩ : Apx g (N.cval (X.getD m Cx.zero)) (Z m) (A m))
    have kI : Apx 1 I I 1 := ⟨le_rfl, by simp, by simp⟩
    have s1 := a0.add' am
    have s2 := a0.sub' am
    have hd := kI.mul' s2
    rw [one_mul, one_mul] at hd
    have h1 := s1.add' hd
    have n1 := s1.norm_le
    have n2 := s2.norm_le
    rw [← ofReal_add, Complex.norm_real, Real.norm_eq_abs] at n1
    rw [← ofReal_sub, Complex.norm_real, Real.norm_eq_abs] at n2
    obtain ⟨f1, r1⟩ := h.add _ _ H0.fin.1 Hm.fin.1 (n1.trans hΩ2)
    obtain ⟨f2, r2⟩ := h.sub _ _ H0.fin.1 Hm.fin.1 (n2.trans hΩ2)
    have hDA : D ≤ A 0 + A m := by linarith [H0.floor]
    have h3 := IAp.round h h1.one h1.err h1.bd (by linarith) (c := ⟨F.add (X.getD 0 Cx.zero).re (X.getD m Cx.zero).re,
      F.sub (X.getD 0 Cx.zero).re (X.getD m Cx.zero).re⟩) ⟨f1, f2⟩ (by
        have := h.eta_nonneg
        refine le_trans ?_ (le_add_of_nonneg_right (by linarith))
        apply norm_le_of_parts hu
        · simpa using r1
        · simpa using r2)
    have h2 := ie_finish h hD2 hDA h3 hΩ1
    push_cast
    refine h2.mono ?_
    have : (1 + U) * (1 + U) ≤ (1 + U) ^ 3 := by nlinarith [sq_nonneg (effErr u η D), mul_nonneg hU hU, pow_nonneg hU 3]
    rw [mul_assoc]
    exact mul_le_mul_of_nonneg_left (this.trans hb) (by linarith)
  · rw [irfftPre, tab_getD hk, if_neg (by omega), ek k h0 hk]
    have n1 := (hZ k hk.le).nonneg
    have n2 := (hZ (m - k) (by omega)).nonneg
    obtain ⟨q1, q2, q3⟩ := ie_bin_room h hk.le hg (by linarith) (hΩ k hk.le) hΩ'
    exact (ie_irBinOf h hD2 simd (ie_rtw h hm hm31 hD k q1) (hZ k hk.le) (hZ (m - k) (by omega)) q3).mono q2

/-- The samples from the packed ones. -/
theorem ie_unpacked {m : ℕ} (hm : 0 < m) (y : List (Cx T)) (hy : y.length = m) (Z : ℕ → ℂ) (g S : ℝ)
    (hZ : ∀ s, s < m → IAp N D g (y.getD s Cx.zero) (idft (2 * m) (hermitian (2 * m) Z) (2 * s) +
      I * idft (2 * m) (hermitian (2 * m) Z) (2 * s + 1)) S) :
    (unpacked y).length = 2 * m ∧ (∀ c ∈ unpacked y, N.fin c) ∧ ∀ j, j < 2 * m →
      ‖rsig ((unpacked y).map N.val) j - idft (2 * m) (hermitian (2 * m) Z) j‖ ≤ (g - 1) * S := by
  have hlen : (unpacked y).length = 2 * m := by rw [unpacked, tab_length, hy]
  refine ⟨hlen, ?_, ?_⟩
  · intro c hc
    obtain ⟨j, hj, rfl⟩ := List.mem_iff_getElem.mp hc
    rw [hlen] at hj
    have hf := (hZ (j / 2) (by omega)).fin
    have e : (unpacked y)[j] = (unpacked y).getD j Flt.zero := by simp [hlen, hj]
    rw [e, unpacked, tab_getD (by omega)]
    split
    · exact hf.1
    · exact hf.2
  intro j hj
  have hr := idft_hermitian_real (n := 2 * m) (by omega) Z
  have i1 := conj_eq_iff_im.mp (hr (2 * (j / 2)))
  have i2 := conj_eq_iff_im.mp (hr (2 * (j / 2) + 1))
  have hk := (hZ (j / 2) (by omega)).err
  have hre := (Complex.abs_re_le_norm _).trans hk
  have him := (Complex.abs_im_le_norm _).trans hk
  simp only [sub_re, sub_im, cval_re, cval_im, add_re, add_im, mul_re, mul_im, I_re, I_im, i1, i2] at hre him
  rw [ie_getD_rsig _ _ (by omega), unpacked, tab_getD (by omega)]
  by_cases hp : j % 2 = 0
  · rw [if_pos hp]
    have ej : 2 * (j / 2) = j := by omega
    rw [ej] at hre i1
    rw [← conj_eq_iff_re.mp (hr j), ← ofReal_sub, Complex.norm_real, Real.norm_eq_abs]
    refine le_trans (le_of_eq ?_) hre
    congr 1
    simp
  · rw [if_neg hp]
    have ej : 2 * (j / 2) + 1 = j := by omega
    rw [ej] at him i2
    rw [← conj_eq_iff_re.mp (hr j), ← ofReal_sub, Complex.norm_real, Real.norm_eq_abs]
    refine le_trans (le_of_eq ?_) him
    congr 1
    simp

end Kofft
