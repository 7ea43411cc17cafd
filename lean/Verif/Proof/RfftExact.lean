import Verif.Proof.Rfft
import Verif.Proof.Dft
import Verif.Spec.Real
/-
Exactness of the real-FFT kernels.
-/
namespace Kofft
open Spec Complex Finset
variable [F : Flt ℝ]

omit F in
/-- DFT of a real signal: conjugate symmetry. -/
theorem dft_reflect {n : ℕ} (hn : n ≠ 0) {r : ℕ → ℂ} (hr : ∀ t, (starRingEnd ℂ) (r t) = r t) {k : ℕ} (hk : k ≤ n) :
    (starRingEnd ℂ) (dft n r (n - k)) = dft n r k := by
  unfold dft
  rw [map_sum]
  apply sum_congr rfl
  intro t _
  rw [map_mul, hr, W_conj]
  congr 1
  rw [inv_eq_iff_eq_inv, ← mul_eq_one_iff_eq_inv₀ (W_ne_zero _ _), ← W_add, ← Nat.add_mul,
    Nat.sub_add_cancel hk, mul_comm, W_mul_self hn]

theorem rtw_exact (h : Lawful F) {m : ℕ} (hm : m ≠ 0) (k : ℕ) : toC (rtw m k) = W (2 * m) k := by
  have h1 : toC ⟨F.cos (F.div (F.neg F.pi) (F.ofNat m)), F.sin (F.div (F.neg F.pi) (F.ofNat m))⟩ = W (2 * m) 1 := by
    have : (m : ℝ) ≠ 0 := by exact_mod_cast hm
    rw [W_eq_cos, h.cos, h.sin, h.div, h.neg, h.pi, h.ofNat]
    have e : -2 * Real.pi * (1 : ℕ) / ((2 * m : ℕ) : ℝ) = -Real.pi / m := by
      push_cast; field_simp
    rw [e]; rfl
  induction k with
  | zero => rw [W_zero]; apply Complex.ext <;> simp [rtw, toC, h.one, h.zero]
  | succ k ih => rw [rtw, toC_mul h, ih, h1, W_add]

/-- The common value of the two forward kernels. -/
noncomputable def rBinC (w a c : ℂ) : ℂ :=
  ((a + (starRingEnd ℂ) c) - I * (w * (a - (starRingEnd ℂ) c))) / 2

/-- The common value of the two inverse kernels. -/
noncomputable def irBinC (w a c : ℂ) : ℂ :=
  ((a + (starRingEnd ℂ) c) + I * ((starRingEnd ℂ) w * (a - (starRingEnd ℂ) c))) / 2

theorem half_exact (h : Lawful F) : F.lit 5 1 = 1 / 2 := by rw [h.lit]; norm_num

theorem toC_mul_half (h : Lawful F) (a b : ℝ) : toC ⟨F.mul a (F.lit 5 1), F.mul b (F.lit 5 1)⟩ = (⟨a, b⟩ : ℂ) / 2 := by
  rw [half_exact h]
  apply Complex.ext <;> simp [toC, h.mul, div_eq_mul_inv]

theorem rBin_exact (h : Lawful F) (w a c : Cx ℝ) : toC (rBin w a c) = rBinC (toC w) (toC a) (toC c) := by
  unfold rBin
  simp only
  rw [toC_mul_half h]
  unfold rBinC
  congr 1
  have e : ∀ t : Cx ℝ, toC (⟨t.im, F.neg t.re⟩ : Cx ℝ) = - (I * toC t) := by
    intro t; apply Complex.ext <;> simp [toC, h.neg]
  show toC _ = _
  rw [toC_add h, toC_add h, e, toC_mul h, toC_sub h, show (⟨c.re, F.neg c.im⟩ : Cx ℝ) = c.conj from rfl,
    toC_conj h]
  ring

theorem rBinSimd_exact (h : Lawful F) (w a c : Cx ℝ) : toC (rBinSimd w a c) = rBinC (toC w) (toC a) (toC c) := by
  unfold rBinSimd
  simp only
  rw [toC_mul_half h]
  unfold rBinC
  congr 1
  simp only [h.add, h.sub, h.mul, h.neg]
  apply Complex.ext <;> simp [toC] <;> ring

theorem irBin_exact (h : Lawful F) (w a c : Cx ℝ) : toC (irBin w a c) = irBinC (toC w) (toC a) (toC c) := by
  unfold irBin
  simp only
  rw [toC_mul_half h]
  unfold irBinC
  congr 1
  have e : ∀ t : Cx ℝ, toC (⟨t.im, F.neg t.re⟩ : Cx ℝ) = - (I * toC t) := by
    intro t; apply Complex.ext <;> simp [toC, h.neg]
  show toC _ = _
  rw [toC_sub h, toC_add h, e, toC_mul h, toC_sub h, show (⟨c.re, F.neg c.im⟩ : Cx ℝ) = c.conj from rfl,
    show (⟨w.re, F.neg w.im⟩ : Cx ℝ) = w.conj from rfl, toC_conj h, toC_conj h]
  ring

theorem irBinSimd_exact (h : Lawful F) (w a c : Cx ℝ) : toC (irBinSimd w a c) = irBinC (toC w) (toC a) (toC c) := by
  unfold irBinSimd
  simp only
  rw [toC_mul_half h]
  unfold irBinC
  congr 1
  simp only [h.add, h.sub, h.mul, h.neg]
  apply Complex.ext <;> simp [toC] <;> ring

theorem rBinOf_exact (h : Lawful F) (simd : Bool) (w a c : Cx ℝ) :
    toC (rBinOf simd w a c) = rBinC (toC w) (toC a) (toC c) := by
  cases simd
  · exact rBin_exact h w a c
  · exact rBinSimd_exact h w a c

theorem irBinOf_exact (h : Lawful F) (simd : Bool) (w a c : Cx ℝ) :
    toC (irBinOf simd w a c) = irBinC (toC w) (toC a) (toC c) := by
  cases simd
  · exact irBin_exact h w a c
  · exact irBinSimd_exact h w a c

omit F in
theorem dft_linI (n : ℕ) (a b : ℕ → ℂ) (k : ℕ) :
    dft n (fun t => a t + I * b t) k = dft n a k + I * dft n b k := by
  unfold dft
  rw [mul_sum, ← sum_add_distrib]
  apply sum_congr rfl
  intro t _
  ring

omit F in
theorem rsig_real (x : List ℝ) (t : ℕ) : (starRingEnd ℂ) (rsig x t) = rsig x t := by
  unfold rsig; exact conj_ofReal _

omit F in
theorem dft_zero_real {n : ℕ} {r : ℕ → ℂ} (hr : ∀ t, (starRingEnd ℂ) (r t) = r t) :
    (dft n r 0).im = 0 := by
  rw [← conj_eq_iff_im]
  unfold dft
  rw [map_sum]
  apply sum_congr rfl
  intro t _
  rw [map_mul, hr, Nat.zero_mul, W_zero, map_one]

theorem rfftPost_isRdft (h : Lawful F) (bin : Cx ℝ → Cx ℝ → Cx ℝ → Cx ℝ)
    (hb : ∀ w a c, toC (bin w a c) = rBinC (toC w) (toC a) (toC c))
    (x : List ℝ) (m : ℕ) (hm : 0 < m) (hx : x.length = 2 * m) (y : List (Cx ℝ))
    (hy : IsDft (packed x) y) : IsRdft x (rfftPost bin y) := by
  obtain ⟨hl, hy⟩ := hy
  have hpl : (packed x).length = m := by unfold packed; rw [tab_length]; omega
  rw [hpl] at hl hy
  refine ⟨by unfold rfftPost; rw [tab_length]; omega, ?_⟩
  intro k hk
  have hk' : k ≤ m := by omega
  have hsig : ∀ t, t < m → sig (packed x) t = rsig x (2 * t) + I * rsig x (2 * t + 1) := by
    intro t ht
    rw [sig_get _ _ (by omega)]
    simp only [packed, tab_getElem]
    apply Complex.ext <;> simp [toC, rsig, h.zero]
  have hY : ∀ j, j < m → toC (y.getD j Cx.zero) =
      dft m (fun t => rsig x (2 * t)) j + I * dft m (fun t => rsig x (2 * t + 1)) j := by
    intro j hj
    have := hy j hj
    rw [dft_congr hsig, dft_linI, sig_get _ _ (by omega)] at this
    rw [← this, List.getD_eq_getElem?_getD, List.getElem?_eq_getElem (by omega), Option.getD_some]
  have hre : ∀ t, (starRingEnd ℂ) (rsig x (2 * t)) = rsig x (2 * t) := fun t => rsig_real _ _
  have hro : ∀ t, (starRingEnd ℂ) (rsig x (2 * t + 1)) = rsig x (2 * t + 1) := fun t => rsig_real _ _
  have hz1 := dft_zero_real (n := m) hre
  have hz2 := dft_zero_real (n := m) hro
  have h0 := hY 0 hm
  have hre0 : (y.getD 0 Cx.zero).re = (dft m (fun t => rsig x (2 * t)) 0).re := by
    have := congrArg Complex.re h0
    simpa [hz2] using this
  have him0 : (y.getD 0 Cx.zero).im = (dft m (fun t => rsig x (2 * t + 1)) 0).re := by
    have := congrArg Complex.im h0
    simpa [hz1] using this
  rw [hx, dft_double, sig_get _ _ (by unfold rfftPost; rw [tab_length]; omega)]
  simp only [rfftPost, tab_getElem, hl]
  by_cases k0 : k = 0
  · subst k0
    rw [if_pos rfl, W_zero, hre0, him0]
    apply Complex.ext <;> simp [toC, h.add, h.zero, hz1, hz2]
  rw [if_neg k0]
  by_cases km : k = m
  · subst km
    have p := fun r => dft_periodic (n := k) (by omega) r 0
    simp only [Nat.zero_add] at p
    rw [if_pos rfl, W_half (by omega), p, p, hre0, him0]
    apply Complex.ext <;> simp [toC, h.sub, h.zero, hz1, hz2, sub_eq_add_neg]
  · rw [if_neg km, hb, rtw_exact h (by omega), hY k (by omega), hY (m - k) (by omega)]
    unfold rBinC
    rw [map_add, map_mul, conj_I, dft_reflect (by omega) hre (by omega), dft_reflect (by omega) hro (by omega)]
    have hI : I * I = -1 := I_mul_I
    linear_combination (-(W (2 * m) k) * (dft m (fun t => rsig x (2 * t + 1)) k)) * hI

/-! ### Inverse -/

omit F in
theorem hermitian_conj {n : ℕ} (X : ℕ → ℂ) {k : ℕ} (hk : 0 < k) (hkn : k < n) :
    (starRingEnd ℂ) (hermitian n X k) = hermitian n X (n - k) := by
  unfold hermitian
  by_cases h1 : 2 * k = n
  · rw [if_pos (Or.inr h1), if_pos (Or.inr (by omega)), show n - k = k by omega, conj_ofReal]
  · rw [if_neg (by omega)]
    by_cases h2 : 2 * k < n
    · rw [if_pos h2, if_neg (by omega), if_neg (by omega), show n - (n - k) = k by omega]
    · rw [if_neg h2, if_neg (by omega), if_pos (by omega), conj_conj]

omit F in
/-- A conjugate-symmetric spectrum has a real inverse DFT. -/
theorem idft_hermitian_real {n : ℕ} (hn : 0 < n) (X : ℕ → ℂ) (t : ℕ) :
    (starRingEnd ℂ) (idft n (hermitian n X) t) = idft n (hermitian n X) t := by
  rw [idft_eq, map_div₀, map_natCast, map_sum]
  congr 1
  obtain ⟨m, rfl⟩ : ∃ m, n = m + 1 := ⟨n - 1, by omega⟩
  rw [sum_range_succ', sum_range_succ']
  congr 1
  · rw [← sum_range_reflect]
    apply sum_congr rfl
    intro j hj
    have hj := mem_range.mp hj
    rw [show m - 1 - j + 1 = m + 1 - (j + 1) by omega, map_mul, ← hermitian_conj X (by omega) (by omega),
      conj_conj]
    congr 1
    rw [map_inv₀, W_conj, inv_inv, ← mul_eq_one_iff_eq_inv₀ (W_ne_zero _ _), ← W_add, ← Nat.add_mul,
      Nat.sub_add_cancel (by omega), mul_comm, W_mul_self (by omega)]
  · rw [Nat.zero_mul, W_zero, inv_one, mul_one]
    unfold hermitian
    rw [if_pos (Or.inl rfl), conj_ofReal]

theorem irfftPre_exact (h : Lawful F) (bin : Cx ℝ → Cx ℝ → Cx ℝ → Cx ℝ)
    (hb : ∀ w a c, toC (bin w a c) = irBinC (toC w) (toC a) (toC c))
    (m : ℕ) (hm : 0 < m) (X : List (Cx ℝ)) (hX : X.length = m + 1) (k : ℕ) (hk : k < m) :
    sig (irfftPre bin m X) k = dft m (fun t => idft (2 * m) (hermitian (2 * m) (sig X)) (2 * t) +
      I * idft (2 * m) (hermitian (2 * m) (sig X)) (2 * t + 1)) k := by
  obtain ⟨x, hx⟩ : ∃ x, x = idft (2 * m) (hermitian (2 * m) (sig X)) := ⟨_, rfl⟩
  rw [← hx, dft_linI]
  have hd : ∀ j, j < 2 * m → dft (2 * m) x j = hermitian (2 * m) (sig X) j := by
    intro j hj; rw [hx, dft_idft _ hj]
  have e1 := hd k (by omega)
  have e2 := hd (k + m) (by omega)
  rw [dft_double] at e1 e2
  rw [dft_periodic (by omega), dft_periodic (by omega), W_add, W_half (by omega)] at e2
  set E := dft m (fun t => x (2 * t)) k
  set O := dft m (fun t => x (2 * t + 1)) k
  have hg : ∀ j, j ≤ m → toC (X.getD j Cx.zero) = sig X j := by
    intro j hj
    rw [sig_get _ _ (by omega), List.getD_eq_getElem?_getD, List.getElem?_eq_getElem (by omega), Option.getD_some]
  rw [sig_get _ _ (by unfold irfftPre; rw [tab_length]; exact hk)]
  simp only [irfftPre, tab_getElem]
  have hw := W_ne_zero (2 * m) k
  by_cases k0 : k = 0
  · subst k0
    rw [if_pos rfl, toC_mul_half h, h.add, h.sub]
    rw [W_zero] at e1 e2
    have g1 : hermitian (2 * m) (sig X) 0 = ((X.getD 0 Cx.zero).re : ℂ) := by
      unfold hermitian; rw [if_pos (Or.inl rfl), ← hg 0 (by omega)]; rfl
    have g2 : hermitian (2 * m) (sig X) (0 + m) = ((X.getD m Cx.zero).re : ℂ) := by
      unfold hermitian; rw [if_pos (Or.inr (by omega)), Nat.zero_add, ← hg m (by omega)]; rfl
    rw [g1] at e1; rw [g2] at e2
    have : ((⟨(X.getD 0 Cx.zero).re + (X.getD m Cx.zero).re, (X.getD 0 Cx.zero).re - (X.getD m Cx.zero).re⟩ : ℂ)) =
      ((X.getD 0 Cx.zero).re + (X.getD m Cx.zero).re) + I * ((X.getD 0 Cx.zero).re - (X.getD m Cx.zero).re) := by
      apply Complex.ext <;> simp
    rw [this, ← e1, ← e2]
    ring
  · rw [if_neg k0, hb, rtw_exact h (by omega), hg k (by omega), hg (m - k) (by omega)]
    have g1 : hermitian (2 * m) (sig X) k = sig X k := by
      unfold hermitian; rw [if_neg (by omega), if_pos (by omega)]
    have g2 : hermitian (2 * m) (sig X) (k + m) = (starRingEnd ℂ) (sig X (m - k)) := by
      unfold hermitian; rw [if_neg (by omega), if_neg (by omega), show 2 * m - (k + m) = m - k by omega]
    rw [g1] at e1; rw [g2] at e2
    unfold irBinC
    rw [← e1, ← e2, W_conj]
    field_simp
    ring

theorem unpacked_isIrdft (h : Lawful F) (bin : Cx ℝ → Cx ℝ → Cx ℝ → Cx ℝ)
    (hb : ∀ w a c, toC (bin w a c) = irBinC (toC w) (toC a) (toC c))
    (m : ℕ) (hm : 0 < m) (X : List (Cx ℝ)) (hX : X.length = m + 1) (y : List (Cx ℝ))
    (hy : IsIdft (irfftPre bin m X) y) : (unpacked y).length = 2 * m ∧ IsIrdft X (unpacked y) := by
  obtain ⟨hl, hy⟩ := hy
  rw [irfftPre_length] at hl hy
  have hul : (unpacked y).length = 2 * m := by unfold unpacked; rw [tab_length, hl]
  refine ⟨hul, ?_⟩
  intro j hj
  rw [hul] at hj ⊢
  have hr := idft_hermitian_real (n := 2 * m) (by omega) (sig X)
  have key : ∀ t, t < m → toC (y.getD t Cx.zero) = idft (2 * m) (hermitian (2 * m) (sig X)) (2 * t) +
      I * idft (2 * m) (hermitian (2 * m) (sig X)) (2 * t + 1) := by
    intro t ht
    have := hy t ht
    rw [idft_congr (irfftPre_exact h bin hb m hm X hX), idft_dft _ ht, sig_get _ _ (by omega)] at this
    rw [← this, List.getD_eq_getElem?_getD, List.getElem?_eq_getElem (by omega), Option.getD_some]
  have hk := key (j / 2) (by omega)
  have i1 := conj_eq_iff_im.mp (hr (2 * (j / 2)))
  have i2 := conj_eq_iff_im.mp (hr (2 * (j / 2) + 1))
  have hre := congrArg Complex.re hk
  have him := congrArg Complex.im hk
  simp only [toC_re, toC_im, add_re, add_im, mul_re, mul_im, I_re, I_im, i1, i2] at hre him
  unfold rsig unpacked
  rw [tab_getD (by omega)]
  by_cases hp : j % 2 = 0
  · rw [if_pos hp]
    have ej : 2 * (j / 2) = j := by omega
    rw [ej] at hre i1
    apply Complex.ext
    · rw [ofReal_re, hre]; ring
    · rw [ofReal_im, i1]
  · rw [if_neg hp]
    have ej : 2 * (j / 2) + 1 = j := by omega
    rw [ej] at him i2
    apply Complex.ext
    · rw [ofReal_re, him]; ring
    · rw [ofReal_im, i2]

omit F in
/-- The half spectrum of a real signal determines it. -/
theorem rdft_irdft {x : List ℝ} {X : List (Cx ℝ)} {y : List ℝ} (h1 : IsRdft x X) (h2 : IsIrdft X y)
    (hl : y.length = x.length) : y = x := by
  have key : ∀ k, k < x.length → hermitian x.length (sig X) k = dft x.length (rsig x) k := by
    intro k hk
    have hn : x.length ≠ 0 := by omega
    unfold hermitian
    by_cases c1 : k = 0 ∨ 2 * k = x.length
    · rw [if_pos c1, h1.2 k (by omega)]
      apply conj_eq_iff_re.mp
      rcases c1 with rfl | c1
      · exact conj_eq_iff_im.mpr (dft_zero_real (rsig_real x))
      · have := dft_reflect (k := k) hn (rsig_real x) (by omega)
        rwa [show x.length - k = k by omega] at this
    · rw [if_neg c1]
      by_cases c2 : 2 * k < x.length
      · rw [if_pos c2, h1.2 k (by omega)]
      · rw [if_neg c2, h1.2 (x.length - k) (by omega), dft_reflect hn (rsig_real x) (by omega)]
  apply List.ext_getElem hl
  intro t ht ht'
  have := h2 t ht
  rw [hl, idft_congr key, idft_dft _ (by omega)] at this
  unfold rsig at this
  have := Complex.ofReal_injective this
  simpa [List.getD_eq_getElem?_getD, ht, ht'] using this

end Kofft
