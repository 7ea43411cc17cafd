import Verif.Proof.RoundBlu
import Verif.Proof.Dft
/-
Rounding error of the fresh forward and inverse transform, in calculus form.
-/
namespace Kofft

open Spec Complex Finset

variable [F : Flt ℝ] {u v t : ℝ}

theorem bluGrowth_ge (h : Rounding F u v t) (cfg : Cfg) (n m : ℕ) : 1 ≤ bluGrowth cfg u v t n m := by
  have hu := h.u_nonneg
  have h1 := mulErr_nonneg hu
  have h2 := chirpErr_nonneg h n
  have h3 := powGrowth_ge h cfg m
  have h4 : 1 ≤ (1 + mulErr u) * (1 + chirpErr u v t n) := by nlinarith
  have h5 : 1 ≤ (1 + mulErr u) * (1 + chirpErr u v t n) * powGrowth cfg u v t m := by nlinarith
  have h6 := one_le_pow₀ h5 (n := 3)
  have h7 : 1 ≤ (1 + u) ^ 2 := one_le_pow₀ (by linarith)
  unfold bluGrowth
  nlinarith

theorem fftGrowth_ge (h : Rounding F u v t) (cfg : Cfg) (n : ℕ) : 1 ≤ fftGrowth cfg u v t n := by
  unfold fftGrowth
  split
  · exact powGrowth_ge h cfg n
  · exact bluGrowth_ge h cfg n _

theorem freshOut_rnd (h : Rounding F u v t) (cfg : Cfg) (x : List (Cx ℝ))
    (X : ℕ → ℂ) (A : ℕ → ℝ) (g : ℝ)
    (hx : ∀ i, i < x.length → Apx g (toC (x.getD i Cx.zero)) (X i) (A i)) (k : Nat) (hk : k < x.length) :
    Apx (g * fftGrowth cfg u v t x.length) (toC ((freshOut cfg x).getD k Cx.zero))
      (dft x.length X k) (fftWeight x.length * ∑ i ∈ range x.length, A i) := by
  unfold freshOut fftGrowth fftWeight
  split
  · rename_i hp
    rw [one_mul]; exact freshPow_rnd h cfg x hp X A g hx k hk
  · exact bluOut_rnd h cfg x (by omega) X A g hx k hk

/-- the factor `1/n` as computed -/
theorem rnd_recip (h : Rounding F u v t) {n : ℕ} (hn : 0 < n) :
    |F.div F.one (F.ofNat n) - 1 / (n : ℝ)| ≤ (scaleGrowth u v n / (1 + u) - 1) * (1 / (n : ℝ)) ∧
      1 ≤ scaleGrowth u v n / (1 + u) := by
  have hu := h.u_nonneg
  have hv := h.v_nonneg
  have hv1 := h.v_lt_one
  have hn' : (0 : ℝ) < n := by exact_mod_cast hn
  have hne : (1 + u) ≠ 0 := by linarith
  have hne2 : (1 - v) ≠ 0 := by linarith
  unfold scaleGrowth
  split
  · rename_i hp
    rw [show (1 + u) ^ 2 / (1 + u) = 1 + u by field_simp]
    refine ⟨?_, by linarith⟩
    obtain ⟨K, hK⟩ := isPow2_iff.mp hp
    rw [hK, h.ofNat_pow, h.one, add_sub_cancel_left]
    have := h.div 1 (2 ^ K) (by positivity)
    push_cast
    rwa [abs_of_pos (show (0:ℝ) < 1 / 2 ^ K by positivity)] at this
  · rw [show (1 + u) ^ 2 / (1 - v) / (1 + u) = 1 / (1 - v) * (1 + u) by field_simp]
    have hr : 1 ≤ 1 / (1 - v) := by rw [le_div_iff₀ (by linarith)]; linarith
    refine ⟨?_, by nlinarith⟩
    obtain ⟨hinv, hne⟩ := rnd_inv h hn
    have := rel_mul hu le_rfl hr (p := 1) (P := 1) (by simp) hinv (r := F.div F.one (F.ofNat n))
      (by rw [← div_eq_mul_inv, h.one]; exact h.div _ _ hne)
    rw [one_mul, one_mul, abs_of_pos (inv_pos.mpr hn'), inv_eq_one_div] at this
    exact this

theorem scaleGrowth_ge (h : Rounding F u v t) {n : ℕ} (hn : 0 < n) : 1 ≤ scaleGrowth u v n := by
  have := (rnd_recip h hn).2
  have hu := h.u_nonneg
  rw [le_div_iff₀ (by linarith)] at this
  linarith

/-- `ifft` on a planner in a compatible state. -/
theorem ifftBuf_rnd (h : Rounding F u v t) (cfg : Cfg) (p : Planner ℝ) (x : List (Cx ℝ)) (hI : Inv cfg p)
    (hr : fftRes cfg x.length = .ok ()) (hc : Compat cfg p x.length)
    (X : ℕ → ℂ) (A : ℕ → ℝ) (g : ℝ)
    (hx : ∀ i, i < x.length → Apx g (toC (x.getD i Cx.zero)) (X i) (A i)) (s : Nat) (hs : s < x.length) :
    Apx (g * fftGrowth cfg u v t x.length * scaleGrowth u v x.length)
      (toC ((ifftBuf cfg p x).getD s Cx.zero)) (idft x.length X s)
      (fftWeight x.length * (∑ i ∈ range x.length, A i) / x.length) := by
  have hn : x.length ≠ 0 := by omega
  have hu := h.u_nonneg
  unfold ifftBuf
  by_cases h1 : x.length = 1
  · rw [if_pos (Or.inr h1)]
    rw [h1] at hs hx ⊢
    have : s = 0 := by omega
    subst this
    have h0 := hx 0 (by omega)
    have e1 : idft 1 X 0 = X 0 := by simp [idft]
    have hp : isPow2 1 = true := by decide
    have e2 : fftWeight 1 * (∑ i ∈ range 1, A i) / (1 : ℕ) = A 0 := by simp [fftWeight, hp]
    rw [e1, e2]
    apply h0.mono
    have g1 := fftGrowth_ge h cfg 1
    have g2 := scaleGrowth_ge h (n := 1) (by norm_num)
    have g3 := h0.one
    rw [mul_assoc]
    nlinarith [mul_le_mul g1 g2 (by norm_num) (by linarith)]
  · rw [if_neg (by tauto), hr]
    simp only
    have hl : (x.map Cx.conj).length = x.length := by simp
    rw [fftBuf_fresh cfg p (x.map Cx.conj) hI (by rw [hl]; exact hr) (by rw [hl]; exact hc)]
    have d1 : (freshOut cfg (x.map Cx.conj)).length = x.length := by
      unfold freshOut
      split
      · rename_i hp; rw [freshPow_length cfg _ hp, hl]
      · simp [bluOut, bluPost]
    have d2 := freshOut_rnd h cfg (x.map Cx.conj) (fun i => (starRingEnd ℂ) (X i)) A g (by
      intro i hi
      rw [hl] at hi
      rw [getD_map x Cx.conj i Cx.zero Cx.zero hi, rnd_conj h]
      exact (hx i hi).conj') s (by rw [hl]; exact hs)
    rw [hl] at d2
    rw [getD_map _ _ s Cx.zero Cx.zero (by omega)]
    have e1 := d2.conj'
    rw [← rnd_conj h] at e1
    obtain ⟨r1, r2⟩ := rnd_recip h (by omega : 0 < x.length)
    have e2 := rnd_scale h e1 (by positivity) r2 r1
    have e3 : fftWeight x.length * (∑ i ∈ range x.length, A i) * (1 / (x.length : ℝ)) =
      fftWeight x.length * (∑ i ∈ range x.length, A i) / x.length := by ring
    rw [e3] at e2
    have e4 : g * fftGrowth cfg u v t x.length * (scaleGrowth u v x.length / (1 + u)) * (1 + u) =
        g * fftGrowth cfg u v t x.length * scaleGrowth u v x.length := by
      have : (1 + u) ≠ 0 := by linarith
      field_simp
    rw [e4] at e2
    rw [idft_conj]
    have e5 : ((1 / (x.length : ℝ) : ℝ) : ℂ) = 1 / (x.length : ℂ) := by push_cast; ring
    rw [e5, ← div_eq_mul_one_div] at e2
    exact e2

end Kofft
