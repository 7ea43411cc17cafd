import Verif.Proof.RoundRfft
import Verif.Props.Rounding
import Verif.Props.Rfft
/-
Property C72: accuracy of the real transforms in floating-point arithmetic.
-/
namespace Kofft.Props
open Spec Complex Finset

variable [F : Flt ℝ] {u v t : ℝ}

private theorem res_ok (cfg : Cfg) {m : ℕ} (hm : 0 < m) (hn : cfg.std = true ∨ ∃ k, m = 2 ^ k) :
    fftRes cfg m = .ok () := by
  rcases hn with h | h
  · exact fftRes_std h hm
  · exact fftRes_pow2 cfg (isPow2_iff.mpr h)

theorem rfft_apx (hF : Rounding F u v t) (cfg : Cfg) (simd : Bool) (un : ℕ → Cx ℝ)
    (x : List ℝ) (m : ℕ) (hm : 0 < m) (hx : x.length = 2 * m)
    (hn : cfg.std = true ∨ ∃ k, m = 2 ^ k) (p : Planner ℝ)
    (hp : ReachVia cfg (fun l => workSize l ≤ workSize m) p) (out : List (Cx ℝ)) (ho : out.length = m + 1) :
    ∃ p' y, rfft simd (fft cfg) un p x out = .ok (p', y, .ok ()) ∧ y.length = m + 1 ∧
      ReachVia cfg (fun l => workSize l ≤ workSize m) p' ∧
      ∀ k, k ≤ m → Apx (fftGrowth cfg u v t m * binGrowth u v t m) (toC (y.getD k Cx.zero))
        (dft (2 * m) (rsig x) k) (2 * (fftWeight m * ∑ s ∈ range (2 * m), ‖rsig x s‖)) := by
  obtain ⟨hl, hA, hS⟩ := packed_rnd hF x hx
  have hr := res_ok cfg hm hn
  obtain ⟨p', e, -, hlen, -⟩ := (fft_opOk cfg).run p (packed x) (reachVia_inv hp)
  rw [hl, hr, fftBuf_fresh cfg p (packed x) (reachVia_inv hp) (by rw [hl]; exact hr)
    (by rw [hl]; exact compat_of_reach hp)] at e
  rw [fftBuf_fresh cfg p (packed x) (reachVia_inv hp) (by rw [hl]; exact hr)
    (by rw [hl]; exact compat_of_reach hp), hl] at hlen
  have hf := fun k hk => freshOut_rnd hF cfg (packed x) _ _ 1 (by rw [hl]; exact hA) k hk
  rw [hl, one_mul, hS] at hf
  refine ⟨p', rfftPost (rBinOf simd) (freshOut cfg (packed x)), ?_, ?_, .fft hp (by rw [hl]) e, ?_⟩
  · rw [rfft_val simd (fft cfg) un p (opLen_fft (Kofft.ReachVia.mono (fun _ _ => trivial) hp)) x out]
    unfold rfftVal
    simp only [show ¬ x.length = 0 by omega, show ¬ x.length % 2 ≠ 0 by omega,
      show ¬ out.length ≠ x.length / 2 + 1 by omega, if_false, e, Outcome.bind_ok]
  · exact (rfftPost_rnd hF simd hm _ hlen _ _ _ hf).1
  · exact fun k hk => rfftPost_rdft hF simd hm x _ hlen _ _ hf k hk

/-- C72a. `rfft` of a real signal in rounding arithmetic: every bin `0 ..= N/2` is within the stated bound of
the bin of the exact DFT; either kernel, any uninitialised scratch. -/
theorem rfft_error (hF : Rounding F u v t) (cfg : Cfg) (simd : Bool) (un : ℕ → Cx ℝ)
    (x : List ℝ) (m : ℕ) (hm : 0 < m) (hx : x.length = 2 * m)
    (hn : cfg.std = true ∨ ∃ k, m = 2 ^ k) (p : Planner ℝ)
    (hp : ReachVia cfg (fun l => workSize l ≤ workSize m) p) (out : List (Cx ℝ)) (ho : out.length = m + 1) :
    ∃ p' y, rfft simd (fft cfg) un p x out = .ok (p', y, .ok ()) ∧ y.length = m + 1 ∧
      ∀ k, k ≤ m → ‖sig y k - dft (2 * m) (rsig x) k‖ ≤
        (fftGrowth cfg u v t m * binGrowth u v t m - 1) *
          (2 * (fftWeight m * ∑ s ∈ range (2 * m), ‖rsig x s‖)) := by
  obtain ⟨p', y, e, hl, -, H⟩ := rfft_apx hF cfg simd un x m hm hx hn p hp out ho
  refine ⟨p', y, e, hl, fun k hk => ?_⟩
  rw [sig_getD _ _ (by omega)]
  exact (H k hk).err

private theorem irfft_apx (hF : Rounding F u v t) (cfg : Cfg) (simd : Bool) (un : ℕ → Cx ℝ)
    (X : List (Cx ℝ)) (m : ℕ) (hm : 0 < m) (hX : X.length = m + 1)
    (hn : cfg.std = true ∨ ∃ k, m = 2 ^ k) (p : Planner ℝ)
    (hp : ReachVia cfg (fun l => workSize l ≤ workSize m) p) (out : List ℝ) (ho : out.length = 2 * m)
    (Z : ℕ → ℂ) (g : ℝ) (A : ℕ → ℝ) (hZ : ∀ k, k ≤ m → Apx g (toC (X.getD k Cx.zero)) (Z k) (A k)) :
    ∃ p' y, irfft simd (ifft cfg) un p X out = .ok (p', y, .ok ()) ∧ y.length = 2 * m ∧
      ReachVia cfg (fun l => workSize l ≤ workSize m) p' ∧
      ∀ s, s < 2 * m → ‖rsig y s - idft (2 * m) (hermitian (2 * m) Z) s‖ ≤
        (g * binGrowth u v t m * fftGrowth cfg u v t m * scaleGrowth u v m - 1) *
          (fftWeight m * (∑ k ∈ range m, (A k + A (m - k))) / m) := by
  have hl := irfftPre_length (irBinOf simd) m X
  have hr := res_ok cfg hm hn
  obtain ⟨p', e, -, hlen, -⟩ := (ifft_opOk cfg).run p (irfftPre (irBinOf simd) m X) (reachVia_inv hp)
  rw [hl, hr] at e
  have hb := fun s hs => ifftBuf_rnd hF cfg p (irfftPre (irBinOf simd) m X) (reachVia_inv hp) (by rw [hl]; exact hr)
    (by rw [hl]; exact compat_of_reach hp) _ _ _
    (by rw [hl]; exact irfftPre_rnd hF simd hm X Z g A hZ) s hs
  rw [hl] at hb
  obtain ⟨h1, h2⟩ := unpacked_rnd hm (ifftBuf cfg p (irfftPre (irBinOf simd) m X)) (by rw [hlen, hl]) Z _ _
    (fun s hs => by have := hb s hs; rw [idft_dft _ hs] at this; exact this)
  refine ⟨p', _, ?_, h1, .ifft hp (by rw [hl]) e, h2⟩
  rw [irfft_val simd (ifft cfg) un p (opLen_ifft (Kofft.ReachVia.mono (fun _ _ => trivial) hp)) X out]
  unfold irfftVal
  simp only [show ¬ out.length = 0 by omega, show ¬ out.length % 2 ≠ 0 by omega,
      show ¬ X.length ≠ m + 1 by omega, if_false, show out.length / 2 = m by omega, e,
      Outcome.bind_ok]

omit F in
private theorem sum_fold (A : ℕ → ℝ) (h : ∀ k, 0 ≤ A k) (m : ℕ) :
    ∑ k ∈ range m, (A k + A (m - k)) ≤ 2 * ∑ k ∈ range (m + 1), A k := by
  rw [sum_add_distrib, two_mul]
  have e : ∑ k ∈ range m, A (m - k) = ∑ k ∈ range m, A (k + 1) := by
    rw [← sum_range_reflect]
    apply sum_congr rfl
    intro k hk
    rw [mem_range] at hk
    congr 1; omega
  rw [e]
  have h1 := sum_range_succ A m
  have h2 := sum_range_succ' A m
  have := h 0
  have := h m
  linarith

/-- C72b. `irfft` of any half spectrum in rounding arithmetic, against the inverse DFT of its
conjugate-symmetric extension. -/
theorem irfft_error (hF : Rounding F u v t) (cfg : Cfg) (simd : Bool) (un : ℕ → Cx ℝ)
    (X : List (Cx ℝ)) (m : ℕ) (hm : 0 < m) (hX : X.length = m + 1)
    (hn : cfg.std = true ∨ ∃ k, m = 2 ^ k) (p : Planner ℝ)
    (hp : ReachVia cfg (fun l => workSize l ≤ workSize m) p) (out : List ℝ) (ho : out.length = 2 * m) :
    ∃ p' y, irfft simd (ifft cfg) un p X out = .ok (p', y, .ok ()) ∧ y.length = 2 * m ∧
      ∀ s, s < 2 * m → ‖rsig y s - idft (2 * m) (hermitian (2 * m) (sig X)) s‖ ≤
        (binGrowth u v t m * fftGrowth cfg u v t m * scaleGrowth u v m - 1) *
          (fftWeight m * (2 * ∑ k ∈ range (m + 1), ‖sig X k‖) / m) := by
  obtain ⟨p', y, e, hl, -, H⟩ := irfft_apx hF cfg simd un X m hm hX hn p hp out ho (sig X) 1 (fun k => ‖sig X k‖)
    (fun k hk => sig_apx X k (by omega))
  refine ⟨p', y, e, hl, fun s hs => (H s hs).trans ?_⟩
  rw [one_mul]
  have g1 : 1 ≤ binGrowth u v t m := le_trans (one_le_pow₀ (by linarith [hF.u_nonneg])) (binGrowth_ge hF m)
  have g2 := fftGrowth_ge hF cfg m
  have g3 := scaleGrowth_ge hF hm
  have g4 : 1 ≤ binGrowth u v t m * fftGrowth cfg u v t m := by nlinarith
  have g5 : 1 ≤ binGrowth u v t m * fftGrowth cfg u v t m * scaleGrowth u v m := by nlinarith
  have w : 0 ≤ fftWeight m := by
    unfold fftWeight
    split
    · norm_num
    · have : (1 : ℝ) ≤ m := by exact_mod_cast hm
      linarith
  apply mul_le_mul_of_nonneg_left _ (by linarith)
  gcongr
  exact sum_fold _ (fun _ => norm_nonneg _) m

/-- C72c with the history of the transformer after the two calls. -/
theorem rfft_round_trip_hist (hF : Rounding F u v t) (cfg : Cfg) (simd : Bool) (un un' : ℕ → Cx ℝ)
    (x : List ℝ) (m : ℕ) (hm : 0 < m) (hx : x.length = 2 * m)
    (hn : cfg.std = true ∨ ∃ k, m = 2 ^ k) (p : Planner ℝ)
    (hp : ReachVia cfg (fun l => workSize l ≤ workSize m) p) (out : List (Cx ℝ)) (ho : out.length = m + 1)
    (out' : List ℝ) (ho' : out'.length = 2 * m) :
    ∃ p1 X p2 y, rfft simd (fft cfg) un p x out = .ok (p1, X, .ok ()) ∧
      irfft simd (ifft cfg) un' p1 X out' = .ok (p2, y, .ok ()) ∧ y.length = 2 * m ∧ ReachVia cfg (fun l => workSize l ≤ workSize m) p2 ∧
      ∀ s, s < 2 * m → |y.getD s 0 - x.getD s 0| ≤
        ((fftGrowth cfg u v t m * binGrowth u v t m) ^ 2 * scaleGrowth u v m - 1) *
          (4 * fftWeight m ^ 2 * ∑ s ∈ range (2 * m), |x.getD s 0|) := by
  obtain ⟨p1, X, e, hl, hp1, H⟩ := rfft_apx hF cfg simd un x m hm hx hn p hp out ho
  obtain ⟨p2, y, e2, hl2, hp2, H2⟩ := irfft_apx hF cfg simd un' X m hm hl hn p1 hp1 out' ho' _ _ _ H
  refine ⟨p1, X, p2, y, e, e2, hl2, hp2, fun s hs => ?_⟩
  have h3 := H2 s hs
  have key : ∀ k, k < 2 * m → hermitian (2 * m) (dft (2 * m) (rsig x)) k = dft (2 * m) (rsig x) k := by
    intro k hk
    have hn : 2 * m ≠ 0 := by omega
    unfold hermitian
    by_cases c1 : k = 0 ∨ 2 * k = 2 * m
    · rw [if_pos c1]
      apply conj_eq_iff_re.mp
      rcases c1 with rfl | c1
      · exact conj_eq_iff_im.mpr (dft_zero_real (rsig_real x))
      · have := dft_reflect (k := k) hn (rsig_real x) (by omega)
        rwa [show 2 * m - k = k by omega] at this
    · rw [if_neg c1]
      by_cases c2 : 2 * k < 2 * m
      · rw [if_pos c2]
      · rw [if_neg c2, dft_reflect hn (rsig_real x) (by omega)]
  rw [idft_congr key, idft_dft _ hs] at h3
  have e1 : ‖rsig y s - rsig x s‖ = |y.getD s 0 - x.getD s 0| := by
    unfold rsig; rw [← ofReal_sub, Complex.norm_real, Real.norm_eq_abs]
  have e3 : ∀ s, ‖rsig x s‖ = |x.getD s 0| := fun s => by
    unfold rsig; rw [Complex.norm_real, Real.norm_eq_abs]
  rw [e1] at h3
  simp only [e3] at h3
  refine h3.trans (le_of_eq ?_)
  have hm' : (m : ℝ) ≠ 0 := by exact_mod_cast hm.ne'
  rw [sum_const, card_range, nsmul_eq_mul]
  field_simp
  ring

/-- C72c. `rfft` followed by `irfft` on the same transformer returns the signal up to rounding. -/
theorem rfft_round_trip_error (hF : Rounding F u v t) (cfg : Cfg) (simd : Bool) (un un' : ℕ → Cx ℝ)
    (x : List ℝ) (m : ℕ) (hm : 0 < m) (hx : x.length = 2 * m)
    (hn : cfg.std = true ∨ ∃ k, m = 2 ^ k) (p : Planner ℝ)
    (hp : ReachVia cfg (fun l => workSize l ≤ workSize m) p) (out : List (Cx ℝ)) (ho : out.length = m + 1)
    (out' : List ℝ) (ho' : out'.length = 2 * m) :
    ∃ p1 X p2 y, rfft simd (fft cfg) un p x out = .ok (p1, X, .ok ()) ∧
      irfft simd (ifft cfg) un' p1 X out' = .ok (p2, y, .ok ()) ∧ y.length = 2 * m ∧
      ∀ s, s < 2 * m → |y.getD s 0 - x.getD s 0| ≤
        ((fftGrowth cfg u v t m * binGrowth u v t m) ^ 2 * scaleGrowth u v m - 1) *
          (4 * fftWeight m ^ 2 * ∑ s ∈ range (2 * m), |x.getD s 0|) := by
  obtain ⟨p1, X, p2, y, e, e2, hl, -, H⟩ := rfft_round_trip_hist hF cfg simd un un' x m hm hx hn p hp out ho out' ho'
  exact ⟨p1, X, p2, y, e, e2, hl, H⟩

/-- The bounds are 0 in exact arithmetic, and the hypotheses hold for arithmetics that really round. -/
example (cfg : Cfg) (m : ℕ) (fused fma : Bool) : (fftGrowth cfg 0 0 0 m * binGrowth 0 0 0 m = 1) ∧
    Rounding (rndFlt 24 24 fused fma) (1 / 2 ^ 24) (1 / 2 ^ 24) (1 / 2 ^ 24) :=
  ⟨by simp [fftGrowth, powGrowth, bluGrowth, mulErr, twGrowth, preGrowth, tableGrowth, rotErr, chirpErr, binGrowth,
    rrotErr], rndFlt_rounding 24 24 (by norm_num) (by norm_num) fused fma⟩

/-- Non-vacuity: a fresh transformer and a six-sample signal. -/
example (cfg : Cfg) : ReachVia cfg (fun l => workSize l ≤ workSize 3) (Planner.new : Planner ℝ) ∧
    ([1, 2, 3, 4, 5, 6] : List ℝ).length = 2 * 3 := ⟨.new, rfl⟩

end Kofft.Props
