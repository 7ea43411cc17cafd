import Verif.Proof.RoundFft
import Verif.Proof.RfftExact
/-
Rounding errors of the real-FFT kernels.
-/
namespace Kofft

open Spec Complex Finset

/-! ### Exact identities -/

/-- The half spectrum of a real signal from the transform of its packed samples. -/
theorem rdft_split {m : ℕ} (hm : 0 < m) (x : List ℝ) (Z : ℕ → ℂ)
    (hZ : ∀ k, Z k = dft m (fun t => rsig x (2 * t) + I * rsig x (2 * t + 1)) k) :
    (((Z 0).re + (Z 0).im : ℝ) : ℂ) = dft (2 * m) (rsig x) 0 ∧
    (((Z 0).re - (Z 0).im : ℝ) : ℂ) = dft (2 * m) (rsig x) m ∧
    ∀ k, 0 < k → k < m → rBinC (W (2 * m) k) (Z k) (Z (m - k)) = dft (2 * m) (rsig x) k := by
  have hre : ∀ t, (starRingEnd ℂ) (rsig x (2 * t)) = rsig x (2 * t) := fun t => rsig_real _ _
  have hro : ∀ t, (starRingEnd ℂ) (rsig x (2 * t + 1)) = rsig x (2 * t + 1) := fun t => rsig_real _ _
  have hz1 := dft_zero_real (n := m) hre
  have hz2 := dft_zero_real (n := m) hro
  have hY : ∀ k, Z k = dft m (fun t => rsig x (2 * t)) k + I * dft m (fun t => rsig x (2 * t + 1)) k := by
    intro k; rw [hZ, dft_linI]
  have hre0 : (Z 0).re = (dft m (fun t => rsig x (2 * t)) 0).re := by
    have := congrArg Complex.re (hY 0)
    simpa [hz2] using this
  have him0 : (Z 0).im = (dft m (fun t => rsig x (2 * t + 1)) 0).re := by
    have := congrArg Complex.im (hY 0)
    simpa [hz1] using this
  refine ⟨?_, ?_, ?_⟩
  · rw [dft_double, W_zero, hre0, him0]
    apply Complex.ext <;> simp [hz1, hz2]
  · have p := fun r => dft_periodic (n := m) (by omega) r 0
    simp only [Nat.zero_add] at p
    rw [dft_double, W_half (by omega), p, p, hre0, him0]
    apply Complex.ext <;> simp [hz1, hz2, sub_eq_add_neg]
  · intro k h0 hk
    rw [dft_double, hY k, hY (m - k)]
    unfold rBinC
    rw [map_add, map_mul, conj_I, dft_reflect (by omega) hre (by omega), dft_reflect (by omega) hro (by omega)]
    have hI : I * I = -1 := I_mul_I
    linear_combination (-(W (2 * m) k) * (dft m (fun t => rsig x (2 * t + 1)) k)) * hI

/-- The packed spectrum from a half spectrum. -/
theorem irdft_split {m : ℕ} (hm : 0 < m) (X : ℕ → ℂ) (Y : ℕ → ℂ)
    (hY : ∀ k, Y k = dft m (fun t => idft (2 * m) (hermitian (2 * m) X) (2 * t) +
      I * idft (2 * m) (hermitian (2 * m) X) (2 * t + 1)) k) :
    Y 0 = (((X 0).re + (X m).re : ℝ) + I * ((X 0).re - (X m).re : ℝ)) / 2 ∧
    ∀ k, 0 < k → k < m → Y k = irBinC (W (2 * m) k) (X k) (X (m - k)) := by
  obtain ⟨x, hx⟩ : ∃ x, x = idft (2 * m) (hermitian (2 * m) X) := ⟨_, rfl⟩
  rw [← hx] at hY
  have hd : ∀ j, j < 2 * m → dft (2 * m) x j = hermitian (2 * m) X j := by
    intro j hj; rw [hx, dft_idft _ hj]
  have key : ∀ k, k < m → Y k = dft m (fun t => x (2 * t)) k + I * dft m (fun t => x (2 * t + 1)) k ∧
      dft m (fun t => x (2 * t)) k + W (2 * m) k * dft m (fun t => x (2 * t + 1)) k = hermitian (2 * m) X k ∧
      dft m (fun t => x (2 * t)) k - W (2 * m) k * dft m (fun t => x (2 * t + 1)) k =
        hermitian (2 * m) X (k + m) := by
    intro k hk
    refine ⟨by rw [hY, dft_linI], ?_, ?_⟩
    · have := hd k (by omega)
      rwa [dft_double] at this
    · have := hd (k + m) (by omega)
      rw [dft_double, dft_periodic (by omega), dft_periodic (by omega), W_add, W_half (by omega)] at this
      rw [← this]; ring
  constructor
  · obtain ⟨e0, e1, e2⟩ := key 0 hm
    rw [W_zero, one_mul] at e1 e2
    have g1 : hermitian (2 * m) X 0 = ((X 0).re : ℂ) := by
      unfold hermitian; rw [if_pos (Or.inl rfl)]
    have g2 : hermitian (2 * m) X (0 + m) = ((X m).re : ℂ) := by
      unfold hermitian; rw [if_pos (Or.inr (by omega)), Nat.zero_add]
    rw [g1] at e1; rw [g2] at e2
    push_cast
    rw [e0, ← e1, ← e2]
    ring
  · intro k k0 hk
    obtain ⟨e0, e1, e2⟩ := key k hk
    have g1 : hermitian (2 * m) X k = X k := by
      unfold hermitian; rw [if_neg (by omega), if_pos (by omega)]
    have g2 : hermitian (2 * m) X (k + m) = (starRingEnd ℂ) (X (m - k)) := by
      unfold hermitian; rw [if_neg (by omega), if_neg (by omega), show 2 * m - (k + m) = m - k by omega]
    rw [g1] at e1; rw [g2] at e2
    unfold irBinC
    have hw := W_ne_zero (2 * m) k
    rw [← e1, ← e2, W_conj, e0]
    field_simp
    ring

/-! ### The table -/

variable [F : Flt ℝ] {u v t : ℝ}

theorem rrotErr_nonneg (h : Rounding F u v t) (m : ℕ) : 0 ≤ rrotErr u v t m := by
  have hu := h.u_nonneg
  have hv := h.v_nonneg
  have hv1 := h.v_lt_one
  have h1 : 1 ≤ (1 + u) ^ 2 / (1 - v) := by rw [le_div_iff₀ (by linarith)]; nlinarith
  have h2 : 0 ≤ ((1 + u) ^ 2 / (1 - v) - 1) * (Real.pi / m) :=
    mul_nonneg (by linarith) (by have := Real.pi_pos; positivity)
  have h3 : 0 ≤ Real.sqrt 2 * t := mul_nonneg (Real.sqrt_nonneg _) h.t_nonneg
  unfold rrotErr; linarith

theorem rrot_rnd (h : Rounding F u v t) {m : ℕ} (hm : 0 < m) :
    Apx (1 + rrotErr u v t m) (toC ⟨F.cos (F.div (F.neg F.pi) (F.ofNat m)), F.sin (F.div (F.neg F.pi) (F.ofNat m))⟩)
      (W (2 * m) 1) 1 := by
  have hu := h.u_nonneg
  have hv := h.v_nonneg
  have hv1 := h.v_lt_one
  have hm' : (m : ℝ) ≠ 0 := by exact_mod_cast hm.ne'
  rw [W_eq_exp]
  apply Apx.unit (expi_unit _)
  refine (rnd_expi h _ _).trans ?_
  unfold rrotErr
  gcongr
  obtain ⟨hinv, hne⟩ := rnd_inv h hm
  have hr : 1 ≤ 1 / (1 - v) := by rw [le_div_iff₀ (by linarith)]; linarith
  have h2 := rel_mul hu (g := 1 + u) (h := 1 / (1 - v)) (by linarith) hr
    (p := F.neg F.pi) (P := -Real.pi) (by
      rw [add_sub_cancel_left, h.neg, abs_neg, abs_of_pos Real.pi_pos, ← neg_sub', abs_neg]; exact h.pi)
    hinv (r := F.div (F.neg F.pi) (F.ofNat m))
    (by rw [← div_eq_mul_inv]; exact h.div _ _ hne)
  have e1 : -2 * Real.pi * (1 : ℕ) / ((2 * m : ℕ) : ℝ) = -Real.pi * (m : ℝ)⁻¹ := by push_cast; field_simp
  rw [e1]
  refine h2.trans (le_of_eq ?_)
  rw [abs_mul, abs_neg, abs_of_pos Real.pi_pos, abs_of_pos (by positivity), ← div_eq_mul_inv]
  congr 1
  field_simp

theorem rtw_rnd (h : Rounding F u v t) {m : ℕ} (hm : 0 < m) (k : ℕ) :
    Apx (((1 + mulErr u) * (1 + rrotErr u v t m)) ^ k) (toC (rtw m k)) (W (2 * m) k) 1 := by
  induction k with
  | zero =>
    have : toC (rtw m 0) = 1 := by apply Complex.ext <;> simp [rtw, toC, h.one, h.zero]
    rw [this, W_zero, pow_zero]
    simpa using Apx.refl 1
  | succ k ih =>
    have := ih.mul (rrot_rnd h hm) (mulErr_nonneg h.u_nonneg) (rnd_mul h (rtw m k) _)
    rw [rtw, W_add, pow_succ]
    rw [one_mul] at this
    convert this using 1
    ring

/-- `binGrowth` with an actual table entry -/
theorem rtw_growth (h : Rounding F u v t) {m k : ℕ} (hk : k ≤ m) :
    (1 + u) ^ 3 * (1 + mulErr u) * ((1 + mulErr u) * (1 + rrotErr u v t m)) ^ k ≤ binGrowth u v t m := by
  have hu := h.u_nonneg
  have h1 := mulErr_nonneg hu
  have h2 := rrotErr_nonneg h m
  unfold binGrowth
  apply mul_le_mul_of_nonneg_left _ (by positivity)
  exact pow_le_pow_right₀ (by nlinarith) hk

theorem binGrowth_ge (h : Rounding F u v t) (m : ℕ) : (1 + u) ^ 3 ≤ binGrowth u v t m := by
  have hu := h.u_nonneg
  have h1 := mulErr_nonneg hu
  have h2 := rtw_growth h (m := m) (k := 0) (by omega)
  rw [pow_zero, mul_one] at h2
  have : 0 ≤ (1 + u) ^ 3 := by positivity
  nlinarith

/-! ### One bin -/

theorem half_rnd (h : Rounding F u v t) {g : ℝ} {a : Cx ℝ} {z : ℂ} {A : ℝ} (H : Apx g (toC a) z A) :
    Apx (g * (1 + u)) (toC ⟨F.mul a.re (F.lit 5 1), F.mul a.im (F.lit 5 1)⟩) (z / 2) (A / 2) := by
  have := rnd_scale h H (R := 1 / 2) (a' := 1) (r := F.lit 5 1) (by norm_num) le_rfl (by rw [h.half]; simp)
  rw [mul_one] at this
  have e : z * ((1 / 2 : ℝ) : ℂ) = z / 2 := by push_cast; ring
  rw [e] at this
  rw [div_eq_mul_one_div A]; exact this

/-- sum minus (or plus) `i` times a product, halved -/
theorem bin_rnd (h : Rounding F u v t) {g ω : ℝ} {w a c s d T : Cx ℝ} {zw za zc σ : ℂ} {A B : ℝ} {r : Cx ℝ}
    (hσ : ‖σ‖ ≤ 1) (hw : Apx ω (toC w) zw 1) (ha : Apx g (toC a) za A) (hc : Apx g (toC c) zc B)
    (hs : ‖toC s - (toC a + (starRingEnd ℂ) (toC c))‖ ≤ u * ‖toC a + (starRingEnd ℂ) (toC c)‖)
    (hd : ‖toC d - (toC a - (starRingEnd ℂ) (toC c))‖ ≤ u * ‖toC a - (starRingEnd ℂ) (toC c)‖)
    (hT : ‖toC T - toC w * toC d‖ ≤ mulErr u * (‖toC w‖ * ‖toC d‖))
    (hr : ‖toC r - (toC s + σ * toC T)‖ ≤ u * ‖toC s + σ * toC T‖) :
    Apx (g * ((1 + u) ^ 3 * (1 + mulErr u) * ω)) (toC ⟨F.mul r.re (F.lit 5 1), F.mul r.im (F.lit 5 1)⟩)
      (((za + (starRingEnd ℂ) zc) + σ * (zw * (za - (starRingEnd ℂ) zc))) / 2) (A + B) := by
  have hu := h.u_nonneg
  have hm := mulErr_nonneg hu
  have h1 := ha.add hc.conj' hu hs
  have h2 := ha.sub hc.conj' hu hd
  have h3 := hw.mul h2 hm hT
  rw [one_mul] at h3
  have h1' : Apx (ω * (g * (1 + u)) * (1 + mulErr u)) (toC s) (za + (starRingEnd ℂ) zc) (A + B) := by
    apply h1.mono
    have o1 := h1.one
    have o2 := hw.one
    have : g * (1 + u) ≤ ω * (g * (1 + u)) := by nlinarith
    nlinarith
  have hσT : Apx (ω * (g * (1 + u)) * (1 + mulErr u)) (σ * toC T) (σ * (zw * (za - (starRingEnd ℂ) zc))) (A + B) := by
    have k : Apx 1 σ σ 1 := ⟨le_rfl, by simp, hσ⟩
    have := k.mul' h3
    rwa [one_mul, one_mul] at this
  have h4 := half_rnd h (h1'.add hσT hu hr)
  have e1 : (A + B + (A + B)) / 2 = A + B := by ring
  have e2 : ω * (g * (1 + u)) * (1 + mulErr u) * (1 + u) * (1 + u) = g * ((1 + u) ^ 3 * (1 + mulErr u) * ω) := by ring
  rw [e1, e2] at h4
  exact h4

theorem rBinOf_rnd (h : Rounding F u v t) (simd : Bool) {g ω : ℝ} {w a c : Cx ℝ} {zw za zc : ℂ} {A B : ℝ}
    (hw : Apx ω (toC w) zw 1) (ha : Apx g (toC a) za A) (hc : Apx g (toC c) zc B) :
    Apx (g * ((1 + u) ^ 3 * (1 + mulErr u) * ω)) (toC (rBinOf simd w a c)) (rBinC zw za zc) (A + B) := by
  have hu := h.u_nonneg
  have e : rBinC zw za zc = ((za + (starRingEnd ℂ) zc) + (-I) * (zw * (za - (starRingEnd ℂ) zc))) / 2 := by
    unfold rBinC; ring
  rw [e]
  have hs := rnd_add h a c.conj
  have hd := rnd_sub h a c.conj
  rw [rnd_conj h] at hs hd
  cases simd
  · have hT := rnd_mul h w (a.sub c.conj)
    refine bin_rnd h (r := (a.add c.conj).add ⟨(w.mul (a.sub c.conj)).im, F.neg (w.mul (a.sub c.conj)).re⟩)
      (by simp) hw ha hc hs hd hT ?_
    have := rnd_add h (a.add c.conj) ⟨(w.mul (a.sub c.conj)).im, F.neg (w.mul (a.sub c.conj)).re⟩
    have e2 : toC (⟨(w.mul (a.sub c.conj)).im, F.neg (w.mul (a.sub c.conj)).re⟩ : Cx ℝ) =
      -I * toC (w.mul (a.sub c.conj)) := by apply Complex.ext <;> simp [h.neg]
    rwa [e2] at this
  · have hT := rnd_mulPlain h (a.sub c.conj) w
    rw [mul_comm (toC _) (toC w), mul_comm ‖toC _‖ ‖toC w‖] at hT
    refine bin_rnd h (r := ⟨F.add (a.add c.conj).re ((a.sub c.conj).mulPlain w).im,
      F.sub (a.add c.conj).im ((a.sub c.conj).mulPlain w).re⟩)
      (by simp) hw ha hc hs hd hT ?_
    apply norm_le_of_parts hu
    · simpa using h.add (a.add c.conj).re ((a.sub c.conj).mulPlain w).im
    · simpa [← sub_eq_add_neg] using h.sub (a.add c.conj).im ((a.sub c.conj).mulPlain w).re

theorem irBinOf_rnd (h : Rounding F u v t) (simd : Bool) {g ω : ℝ} {w a c : Cx ℝ} {zw za zc : ℂ} {A B : ℝ}
    (hw : Apx ω (toC w) zw 1) (ha : Apx g (toC a) za A) (hc : Apx g (toC c) zc B) :
    Apx (g * ((1 + u) ^ 3 * (1 + mulErr u) * ω)) (toC (irBinOf simd w a c)) (irBinC zw za zc) (A + B) := by
  have hu := h.u_nonneg
  have hs := rnd_add h a c.conj
  have hd := rnd_sub h a c.conj
  rw [rnd_conj h] at hs hd
  have hw' := hw.conj'
  rw [← rnd_conj h] at hw'
  unfold irBinC
  cases simd
  · have hT := rnd_mul h w.conj (a.sub c.conj)
    refine bin_rnd h (σ := I)
      (r := (a.add c.conj).sub ⟨(w.conj.mul (a.sub c.conj)).im, F.neg (w.conj.mul (a.sub c.conj)).re⟩)
      (by simp) hw' ha hc hs hd hT ?_
    have := rnd_sub h (a.add c.conj) ⟨(w.conj.mul (a.sub c.conj)).im, F.neg (w.conj.mul (a.sub c.conj)).re⟩
    have e2 : toC (⟨(w.conj.mul (a.sub c.conj)).im, F.neg (w.conj.mul (a.sub c.conj)).re⟩ : Cx ℝ) =
      -(I * toC (w.conj.mul (a.sub c.conj))) := by apply Complex.ext <;> simp [h.neg]
    rwa [e2, sub_neg_eq_add] at this
  · have hT := rnd_mulPlain h (a.sub c.conj) w.conj
    rw [mul_comm (toC _) (toC w.conj), mul_comm ‖toC _‖ ‖toC w.conj‖] at hT
    refine bin_rnd h (σ := I) (r := ⟨F.sub (a.add c.conj).re ((a.sub c.conj).mulPlain w.conj).im,
      F.add (a.add c.conj).im ((a.sub c.conj).mulPlain w.conj).re⟩)
      (by simp) hw' ha hc hs hd hT ?_
    apply norm_le_of_parts hu
    · simpa [← sub_eq_add_neg] using h.sub (a.add c.conj).re ((a.sub c.conj).mulPlain w.conj).im
    · simpa using h.add (a.add c.conj).im ((a.sub c.conj).mulPlain w.conj).re

/-! ### Whole half spectra -/

omit F in
theorem re_add_im_apx {g : ℝ} {a z : ℂ} {A : ℝ} (H : Apx g a z A) :
    Apx g (((a.re + a.im : ℝ)) : ℂ) ((z.re + z.im : ℝ)) (2 * A) := by
  refine ⟨H.one, ?_, ?_⟩
  · rw [← ofReal_sub, Complex.norm_real, Real.norm_eq_abs]
    have h1 := (Complex.abs_re_le_norm (a - z)).trans H.err
    have h2 := (Complex.abs_im_le_norm (a - z)).trans H.err
    rw [sub_re] at h1; rw [sub_im] at h2
    rw [show a.re + a.im - (z.re + z.im) = (a.re - z.re) + (a.im - z.im) by ring]
    have := abs_add_le (a.re - z.re) (a.im - z.im)
    linarith
  · rw [Complex.norm_real, Real.norm_eq_abs]
    have h1 := (Complex.abs_re_le_norm z).trans H.bd
    have h2 := (Complex.abs_im_le_norm z).trans H.bd
    have := abs_add_le z.re z.im
    linarith

omit F in
theorem re_sub_im_apx {g : ℝ} {a z : ℂ} {A : ℝ} (H : Apx g a z A) :
    Apx g (((a.re - a.im : ℝ)) : ℂ) ((z.re - z.im : ℝ)) (2 * A) := by
  have := re_add_im_apx H.conj'
  simpa [← sub_eq_add_neg] using this

theorem rfftPost_rnd (h : Rounding F u v t) (simd : Bool) {m : ℕ} (hm : 0 < m) (y : List (Cx ℝ)) (hy : y.length = m)
    (Z : ℕ → ℂ) (g S : ℝ) (hZ : ∀ k, k < m → Apx g (toC (y.getD k Cx.zero)) (Z k) S) :
    (rfftPost (rBinOf simd) y).length = m + 1 ∧
    Apx (g * binGrowth u v t m) (toC ((rfftPost (rBinOf simd) y).getD 0 Cx.zero)) (((Z 0).re + (Z 0).im : ℝ)) (2 * S) ∧
    Apx (g * binGrowth u v t m) (toC ((rfftPost (rBinOf simd) y).getD m Cx.zero)) (((Z 0).re - (Z 0).im : ℝ)) (2 * S) ∧
    ∀ k, 0 < k → k < m → Apx (g * binGrowth u v t m) (toC ((rfftPost (rBinOf simd) y).getD k Cx.zero))
      (rBinC (W (2 * m) k) (Z k) (Z (m - k))) (2 * S) := by
  have hu := h.u_nonneg
  have hb := binGrowth_ge h m
  have hg := (hZ 0 hm).one
  have hmono : g * (1 + u) ≤ g * binGrowth u v t m := by
    have : 1 + u ≤ (1 + u) ^ 3 := by nlinarith [sq_nonneg u, mul_nonneg hu hu, pow_nonneg hu 3]
    nlinarith
  refine ⟨by rw [rfftPost, tab_length, hy], ?_, ?_, ?_⟩
  · rw [rfftPost, tab_getD (by omega), if_pos rfl]
    refine ((re_add_im_apx (hZ 0 hm)).round hu ?_).mono hmono
    have e : toC (⟨F.add (y.getD 0 Cx.zero).re (y.getD 0 Cx.zero).im, F.zero⟩ : Cx ℝ) =
      (F.add (y.getD 0 Cx.zero).re (y.getD 0 Cx.zero).im : ℝ) := by apply Complex.ext <;> simp [h.zero]
    rw [e, ← ofReal_sub, Complex.norm_real, Complex.norm_real]
    exact h.add _ _
  · rw [rfftPost, tab_getD (by omega), if_neg (by omega), if_pos hy.symm]
    refine ((re_sub_im_apx (hZ 0 hm)).round hu ?_).mono hmono
    have e : toC (⟨F.sub (y.getD 0 Cx.zero).re (y.getD 0 Cx.zero).im, F.zero⟩ : Cx ℝ) =
      (F.sub (y.getD 0 Cx.zero).re (y.getD 0 Cx.zero).im : ℝ) := by apply Complex.ext <;> simp [h.zero]
    rw [e, ← ofReal_sub, Complex.norm_real, Complex.norm_real]
    exact h.sub _ _
  · intro k h0 hk
    rw [rfftPost, tab_getD (by omega), if_neg (by omega), if_neg (by omega), hy, two_mul S]
    refine (rBinOf_rnd h simd (rtw_rnd h hm k) (hZ k hk) (hZ (m - k) (by omega))).mono ?_
    exact mul_le_mul_of_nonneg_left (rtw_growth h hk.le) (by linarith)

/-- All bins of the half spectrum. -/
theorem rfftPost_rdft (h : Rounding F u v t) (simd : Bool) {m : ℕ} (hm : 0 < m) (x : List ℝ) (y : List (Cx ℝ))
    (hy : y.length = m) (g S : ℝ)
    (hZ : ∀ k, k < m → Apx g (toC (y.getD k Cx.zero))
      (dft m (fun t => rsig x (2 * t) + I * rsig x (2 * t + 1)) k) S) (k : ℕ) (hk : k ≤ m) :
    Apx (g * binGrowth u v t m) (toC ((rfftPost (rBinOf simd) y).getD k Cx.zero)) (dft (2 * m) (rsig x) k) (2 * S) := by
  obtain ⟨-, a, b, c⟩ := rfftPost_rnd h simd hm y hy _ g S hZ
  obtain ⟨a', b', c'⟩ := rdft_split hm x _ (fun k => rfl)
  rw [a'] at a
  rw [b'] at b
  rcases Nat.eq_zero_or_pos k with rfl | h0
  · exact a
  rcases hk.eq_or_lt with rfl | hk
  · exact b
  · rw [← c' k h0 hk]; exact c k h0 hk

theorem irfftPre_rnd (h : Rounding F u v t) (simd : Bool) {m : ℕ} (hm : 0 < m) (X : List (Cx ℝ))
    (Z : ℕ → ℂ) (g : ℝ) (A : ℕ → ℝ) (hZ : ∀ k, k ≤ m → Apx g (toC (X.getD k Cx.zero)) (Z k) (A k)) (k : ℕ) (hk : k < m) :
    Apx (g * binGrowth u v t m) (toC ((irfftPre (irBinOf simd) m X).getD k Cx.zero))
      (dft m (fun t => idft (2 * m) (hermitian (2 * m) Z) (2 * t) +
      I * idft (2 * m) (hermitian (2 * m) Z) (2 * t + 1)) k) (A k + A (m - k)) := by
  have hu := h.u_nonneg
  have hb := binGrowth_ge h m
  have hg := (hZ 0 (by omega)).one
  obtain ⟨e0, ek⟩ := irdft_split hm Z _ (fun k => rfl)
  rcases Nat.eq_zero_or_pos k with rfl | h0
  · rw [irfftPre, tab_getD hk, if_pos rfl, e0, Nat.sub_zero]
    have hre : ∀ {a z : ℂ} {A : ℝ}, Apx g a z A → Apx g (a.re : ℂ) (z.re : ℂ) A := fun {a z A} H =>
      ⟨H.one, by
        rw [← ofReal_sub, Complex.norm_real, Real.norm_eq_abs, ← sub_re]
        exact (Complex.abs_re_le_norm _).trans H.err, by
        rw [Complex.norm_real, Real.norm_eq_abs]; exact (Complex.abs_re_le_norm _).trans H.bd⟩
    have a0 := hre (hZ 0 (by omega))
    have am := hre (hZ m le_rfl)
    have kI : Apx 1 I I 1 := ⟨le_rfl, by simp, by simp⟩
    have hd := kI.mul' (a0.sub' am)
    rw [one_mul, one_mul] at hd
    have h1 := (a0.add' am).add' hd
    have h2 := half_rnd h (a := ⟨F.add (X.getD 0 Cx.zero).re (X.getD m Cx.zero).re,
      F.sub (X.getD 0 Cx.zero).re (X.getD m Cx.zero).re⟩) (h1.round hu (by
        apply norm_le_of_parts hu
        · simpa using h.add (X.getD 0 Cx.zero).re (X.getD m Cx.zero).re
        · simpa using h.sub (X.getD 0 Cx.zero).re (X.getD m Cx.zero).re))
    rw [show (A 0 + A m + (A 0 + A m)) / 2 = A 0 + A m by ring] at h2
    push_cast
    refine h2.mono ?_
    have : (1 + u) * (1 + u) ≤ (1 + u) ^ 3 := by nlinarith [sq_nonneg u, mul_nonneg hu hu, pow_nonneg hu 3]
    rw [mul_assoc]
    exact mul_le_mul_of_nonneg_left (this.trans hb) (by linarith)
  · rw [irfftPre, tab_getD hk, if_neg (by omega), ek k h0 hk]
    refine (irBinOf_rnd h simd (rtw_rnd h hm k) (hZ k hk.le) (hZ (m - k) (by omega))).mono ?_
    exact mul_le_mul_of_nonneg_left (rtw_growth h hk.le) (by linarith)

/-- The samples from the packed ones. -/
theorem unpacked_rnd {m : ℕ} (hm : 0 < m) (y : List (Cx ℝ)) (hy : y.length = m) (Z : ℕ → ℂ) (g S : ℝ)
    (hZ : ∀ s, s < m → Apx g (toC (y.getD s Cx.zero)) (idft (2 * m) (hermitian (2 * m) Z) (2 * s) +
      I * idft (2 * m) (hermitian (2 * m) Z) (2 * s + 1)) S) :
    (unpacked y).length = 2 * m ∧ ∀ j, j < 2 * m →
      ‖rsig (unpacked y) j - idft (2 * m) (hermitian (2 * m) Z) j‖ ≤ (g - 1) * S := by
  refine ⟨by rw [unpacked, tab_length, hy], ?_⟩
  intro j hj
  have hr := idft_hermitian_real (n := 2 * m) (by omega) Z
  have i1 := conj_eq_iff_im.mp (hr (2 * (j / 2)))
  have i2 := conj_eq_iff_im.mp (hr (2 * (j / 2) + 1))
  have hk := (hZ (j / 2) (by omega)).err
  have hre := (Complex.abs_re_le_norm _).trans hk
  have him := (Complex.abs_im_le_norm _).trans hk
  simp only [sub_re, sub_im, toC_re, toC_im, add_re, add_im, mul_re, mul_im, I_re, I_im, i1, i2] at hre him
  unfold rsig unpacked
  rw [tab_getD (by omega)]
  by_cases hp : j % 2 = 0
  · rw [if_pos hp]
    have ej : 2 * (j / 2) = j := by omega
    rw [ej] at hre i1
    rw [← conj_eq_iff_re.mp (hr j), ← ofReal_sub, Complex.norm_real, Real.norm_eq_abs]
    refine le_trans (le_of_eq ?_) hre
    congr 1
    simp
  · rw [if_neg hp]
    have ej : 2 * (j / 2) + 1 = j := by omega
    rw [ej] at him i2
    rw [← conj_eq_iff_re.mp (hr j), ← ofReal_sub, Complex.norm_real, Real.norm_eq_abs]
    refine le_trans (le_of_eq ?_) him
    congr 1
    simp

/-- The packed samples weigh no more than the samples. -/
theorem packed_rnd (h : Rounding F u v t) (x : List ℝ) {m : ℕ} (hx : x.length = 2 * m) :
    (packed x).length = m ∧
    (∀ i, i < m → Apx 1 (toC ((packed x).getD i Cx.zero)) (rsig x (2 * i) + I * rsig x (2 * i + 1))
      (‖rsig x (2 * i)‖ + ‖rsig x (2 * i + 1)‖)) ∧
    ∑ i ∈ range m, (‖rsig x (2 * i)‖ + ‖rsig x (2 * i + 1)‖) = ∑ i ∈ range (2 * m), ‖rsig x i‖ := by
  refine ⟨by rw [packed, tab_length]; omega, ?_, ?_⟩
  · intro i hi
    have e : toC ((packed x).getD i Cx.zero) = rsig x (2 * i) + I * rsig x (2 * i + 1) := by
      rw [packed, tab_getD (by omega)]
      apply Complex.ext <;> simp [toC, rsig, h.zero]
    rw [e]
    refine (Apx.refl _).weight ?_
    refine (norm_add_le _ _).trans ?_
    rw [norm_mul, norm_I, one_mul]
  · clear hx
    induction m with
    | zero => simp
    | succ m ih => rw [sum_range_succ, ih, show 2 * (m + 1) = 2 * m + 1 + 1 by ring, sum_range_succ, sum_range_succ,
        add_assoc]

end Kofft
