import Verif.Proof.IeeeBlu
/-
The fresh forward and inverse transform in arithmetic with a bounded exponent range.
-/
namespace Kofft

open Spec Complex Finset

variable {T : Type} [F : Flt T] {N : Denote T} {u η Ω v t D : ℝ}

local notation "U" => effErr u η D

theorem workSize_ge (n : ℕ) : n ≤ workSize n := by
  unfold workSize
  split
  · exact le_rfl
  · have := le_nextPow2 (2 * n - 1); omega

theorem ieeeWeight_ge {n : ℕ} (hn : 0 < n) : 1 ≤ ieeeWeight n := by
  unfold ieeeWeight
  split
  · exact le_rfl
  · have : (1 : ℝ) ≤ n := by exact_mod_cast hn
    linarith

theorem ieeeWeight_le_room {n : ℕ} (hn : 0 < n) : ieeeWeight n ≤ ieeeRoom n := by
  unfold ieeeWeight ieeeRoom
  split
  · exact le_rfl
  · have h1 : (1 : ℝ) ≤ n := by exact_mod_cast hn
    have h2 : (1 : ℝ) ≤ workSize n := by exact_mod_cast hn.trans_le (workSize_ge n)
    nlinarith

theorem ie_getD_map (x : List (Cx T)) (f : Cx T → Cx T) (i : Nat) (d d' : Cx T) (hi : i < x.length) :
    (x.map f).getD i d' = f (x.getD i d) := by
  simp [hi]

theorem ie_freshOut (h : Env F N u η Ω v t D) (cfg : Cfg) (x : List (Cx T)) (hn0 : 0 < x.length)
    (hn31 : x.length ≤ 2 ^ 31) (X : ℕ → ℂ) (A : ℕ → ℝ) (g : ℝ)
    (hx : ∀ i, i < x.length → IAp N D g (x.getD i Cx.zero) (X i) (A i)) (hD : workSize x.length * D ≤ 1)
    (hΩ1 : fftGrowth cfg U v t x.length * (ieeeRoom x.length * 19) ≤ Ω)
    (hΩ2 : g * fftGrowth cfg U v t x.length * (ieeeRoom x.length *
      (∑ i ∈ range x.length, A i + (workSize x.length - x.length) * D)) ≤ Ω) (k : Nat) (hk : k < x.length) :
    IAp N D (g * fftGrowth cfg U v t x.length) ((freshOut cfg x).getD k Cx.zero)
      (dft x.length X k) (ieeeWeight x.length * (∑ i ∈ range x.length, A i + (workSize x.length - x.length) * D)) := by
  have hG := ie_fftG h cfg x.length
  unfold freshOut
  by_cases hp : isPow2 x.length = true
  · rw [if_pos hp]
    unfold fftGrowth ieeeRoom ieeeWeight workSize at *
    have hp' := hp
    simp only [hp', if_true, one_mul, sub_self, zero_mul, add_zero] at hD hΩ1 hΩ2 hG ⊢
    exact ie_freshPow h cfg x hp X A g hx (by omega) hD (by linarith) hΩ2 k hk
  · rw [if_neg hp]
    have h2 : 2 ≤ x.length := by
      by_contra hc
      have : x.length = 1 := by omega
      rw [this] at hp
      exact hp (by decide)
    unfold fftGrowth ieeeRoom ieeeWeight workSize at *
    simp only [hp, if_false, Bool.false_eq_true] at hD hΩ1 hΩ2 hG ⊢
    exact ie_bluOut h cfg x h2 hn31 X A g hx hD (by
      unfold bluM
      refine le_trans (le_of_eq ?_) hΩ1
      ring) hΩ2 k hk

theorem ie_scale_ge (h : Env F N u η Ω v t D) {n : ℕ} (hn : 0 < n) : 1 ≤ scaleGrowth U v n :=
  scaleGrowth_ge (F := realFlt true) h.rounding hn

/-- the factor `1/n` as computed -/
theorem ie_recip (h : Env F N u η Ω v t D) {n : ℕ} (hn : 0 < n) (hn31 : n ≤ 2 ^ 31) (hD : n * D ≤ 1) :
    RAp N D (scaleGrowth U v n / (1 + U)) (F.div F.one (F.ofNat n)) (1 / (n : ℝ)) (1 / (n : ℝ)) := by
  have hU := h.U_nonneg
  have hv := h.v_nonneg
  have hv1 := h.v_le
  have hn' : (0 : ℝ) < n := by exact_mod_cast hn
  have hn1 : (1 : ℝ) ≤ n := by exact_mod_cast hn
  have hne : (1 + U) ≠ 0 := by linarith
  have hne2 : (1 - v) ≠ 0 := by linarith
  have o : RAp N D 1 F.one 1 1 := RAp.exact h.one.1 h.one.2 (by simp) h.D_le
  have hle : 1 / (n : ℝ) ≤ 1 := by rw [div_le_one hn']; exact hn1
  have h0 : 0 ≤ 1 / (n : ℝ) := by positivity
  have hbig := h.big
  have hDn : D ≤ 1 / (n : ℝ) := by rw [le_div_iff₀ hn']; linarith
  unfold scaleGrowth
  split
  · rename_i hp
    rw [show (1 + U) ^ 2 / (1 + U) = 1 + U by field_simp]
    obtain ⟨K, hK⟩ := isPow2_iff.mp hp
    have hK64 : K < 64 := by
      rw [hK] at hn31
      have := (Nat.pow_le_pow_iff_right (by norm_num)).mp hn31
      omega
    have hv := h.ofNat_pow K hK64
    rw [show (2 : ℝ) ^ K = (n : ℝ) by rw [hK]; push_cast; rfl, ← hK] at hv
    have := o.div h (b := F.ofNat n) (w := n) (h' := 1) (h.ofNat n (by omega)).1 (by rw [hv]; exact hn'.ne') hn' le_rfl
      (by rw [hv]; simp) hDn (by
        rw [one_mul, one_mul]
        linarith)
    rwa [one_mul, one_mul] at this
  · rw [show (1 + U) ^ 2 / (1 - v) / (1 + U) = 1 / (1 - v) * (1 + U) by field_simp]
    obtain ⟨hh1, hh2⟩ := ie_half h
    obtain ⟨f, e1, e2⟩ := ie_inv h hn (by omega)
    have := o.div h (b := F.ofNat n) (w := n) f e2 hn' hh1 e1 hDn (by
      rw [one_mul]
      nlinarith)
    rwa [one_mul] at this

set_option maxHeartbeats 1000000 in
/-- `ifft` on a planner in a compatible state. -/
theorem ie_ifftBuf (h : Env F N u η Ω v t D) (cfg : Cfg) (p : Planner T) (x : List (Cx T)) (hI : Inv cfg p)
    (hr : fftRes cfg x.length = .ok ()) (hc : Compat cfg p x.length) (hn31 : x.length ≤ 2 ^ 31)
    (X : ℕ → ℂ) (A : ℕ → ℝ) (g : ℝ)
    (hx : ∀ i, i < x.length → IAp N D g (x.getD i Cx.zero) (X i) (A i)) (hD : workSize x.length * D ≤ 1)
    (hΩ1 : fftGrowth cfg U v t x.length * (ieeeRoom x.length * 19) ≤ Ω)
    (hΩ2 : g * fftGrowth cfg U v t x.length * scaleGrowth U v x.length * (ieeeRoom x.length *
      (∑ i ∈ range x.length, A i + (workSize x.length - x.length) * D)) ≤ Ω) (s : Nat) (hs : s < x.length) :
    IAp N D (g * fftGrowth cfg U v t x.length * scaleGrowth U v x.length)
      ((ifftBuf cfg p x).getD s Cx.zero) (idft x.length X s)
      (ieeeWeight x.length * (∑ i ∈ range x.length, A i + (workSize x.length - x.length) * D) / x.length) := by
  have hn : x.length ≠ 0 := by omega
  have hn0 : 0 < x.length := by omega
  have hU := h.U_nonneg
  have hDp := h.D_pos
  have hG := ie_fftG h cfg x.length
  have hSc := ie_scale_ge h hn0
  have hg := (hx s hs).one
  unfold ifftBuf
  by_cases h1 : x.length = 1
  · rw [if_pos (Or.inr h1)]
    rw [h1] at hs hx hG hSc ⊢
    have : s = 0 := by omega
    subst this
    have h0 := hx 0 (by omega)
    have e1 : idft 1 X 0 = X 0 := by simp [idft]
    have hp : isPow2 1 = true := by decide
    have e2 : ieeeWeight 1 * (∑ i ∈ range 1, A i + (workSize 1 - (1 : ℕ)) * D) / (1 : ℕ) = A 0 := by
      simp [ieeeWeight, workSize, hp]
    rw [e1, e2]
    apply h0.mono
    rw [mul_assoc]
    nlinarith [mul_le_mul hG hSc (by norm_num) (by linarith)]
  · rw [if_neg (by tauto), hr]
    simp only
    have hl : (x.map Cx.conj).length = x.length := by simp
    rw [fftBuf_fresh cfg p (x.map Cx.conj) hI (by rw [hl]; exact hr) (by rw [hl]; exact hc)]
    have d1 : (freshOut cfg (x.map Cx.conj)).length = x.length := by
      unfold freshOut
      split
      · rename_i hp; rw [ie_freshPow_length cfg _ hp, hl]
      · simp [bluOut, bluPost]
    have hn1 : (1 : ℝ) ≤ x.length := by exact_mod_cast hn0
    have hn' : (0 : ℝ) < x.length := by linarith
    have hws : (x.length : ℝ) ≤ workSize x.length := by exact_mod_cast workSize_ge _
    have hnD : (x.length : ℝ) * D ≤ 1 := (mul_le_mul_of_nonneg_right hws hDp.le).trans hD
    have hSum : (x.length : ℝ) * D ≤ ∑ i ∈ range x.length, A i := by
      have : ∑ i ∈ range x.length, D ≤ ∑ i ∈ range x.length, A i :=
        sum_le_sum fun i hi => (hx i (by simpa using hi)).floor
      simpa using this
    set S := ∑ i ∈ range x.length, A i + (workSize x.length - x.length) * D with hS
    have hSn : (x.length : ℝ) * D ≤ S := by
      have : 0 ≤ (workSize x.length - x.length) * D := mul_nonneg (by linarith) hDp.le
      linarith
    have hS0 : 0 ≤ S := le_trans (by positivity) hSn
    have hW1 := ieeeWeight_ge hn0
    have hWR := ieeeWeight_le_room hn0
    have hgG : 1 ≤ g * fftGrowth cfg U v t x.length := by nlinarith
    have hRS : 0 ≤ ieeeRoom x.length * S := mul_nonneg (by linarith) hS0
    have d2 := ie_freshOut h cfg (x.map Cx.conj) (by rw [hl]; exact hn0) (by rw [hl]; exact hn31)
      (fun i => (starRingEnd ℂ) (X i)) A g (by
      intro i hi
      rw [hl] at hi
      rw [ie_getD_map x Cx.conj i Cx.zero Cx.zero hi]
      exact (hx i hi).conj h) (by rw [hl]; exact hD) (by rw [hl]; exact hΩ1) (by
        rw [hl]
        refine le_trans (mul_le_mul_of_nonneg_right ?_ hRS) hΩ2
        exact le_mul_of_one_le_right (by linarith) hSc) s (by rw [hl]; exact hs)
    rw [hl, ← hS] at d2
    rw [ie_getD_map _ _ s Cx.zero Cx.zero (by omega)]
    have e1 := d2.conj h
    have r1 := ie_recip h hn0 hn31 hnD
    have e3 : ieeeWeight x.length * S * (1 / (x.length : ℝ)) = ieeeWeight x.length * S / x.length := by ring
    have hWS : 0 ≤ ieeeWeight x.length * S := mul_nonneg (by linarith) hS0
    have e2 := e1.scale h r1 (by
      rw [e3, le_div_iff₀ hn', mul_comm]
      nlinarith) (by
      rw [e3]
      refine le_trans ?_ hΩ2
      refine mul_le_mul ?_ ?_ (by positivity) (by nlinarith)
      · apply mul_le_mul_of_nonneg_left _ (by linarith)
        exact div_le_self (by linarith) (by linarith)
      · exact (div_le_self hWS hn1).trans (mul_le_mul_of_nonneg_right hWR hS0))
    rw [e3] at e2
    have e4 : g * fftGrowth cfg U v t x.length * (scaleGrowth U v x.length / (1 + U)) * (1 + U) =
        g * fftGrowth cfg U v t x.length * scaleGrowth U v x.length := by
      have : (1 + U) ≠ 0 := by linarith
      field_simp
    rw [e4] at e2
    rw [idft_conj]
    have e5 : ((1 / (x.length : ℝ) : ℝ) : ℂ) = 1 / (x.length : ℂ) := by push_cast; ring
    rw [e5, ← div_eq_mul_one_div] at e2
    exact e2

end Kofft
