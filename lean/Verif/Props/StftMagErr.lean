import Verif.Spec.StftMagErr
import Verif.Props.StftMag
import Verif.Props.MelErr
import Verif.Props.RoundingStft
import Verif.Props.RangeCepstrum
import Verif.Props.MelEdge
/-
C109: the magnitudes of a spectrogram in floating point.
-/
namespace Kofft.Props

open Spec Finset

variable [F : Flt ℝ] {u v t w : ℝ}

/-- the modulus -/
theorem mag_rnd (hF : Rounding F u v t) (hL : Libm F w) (hu4 : u ≤ 1 / 4) (c : Cx ℝ) :
    |Spec.mag c - ‖toC c‖| ≤ ((1 + u) ^ 2 * (1 + w) - 1) * ‖toC c‖ := by
  have hu := hF.u_nonneg
  have hw := hL.w_nonneg
  have a1 : RApx (1 + u) (F.mul c.re c.re) (c.re * c.re) (c.re * c.re) := by
    have := RApx.rel (g := 1 + u) (a := F.mul c.re c.re) (z := c.re * c.re) (by linarith)
      (by rw [add_sub_cancel_left]; exact hF.mul c.re c.re)
    rwa [abs_of_nonneg (mul_self_nonneg _)] at this
  have a2 : RApx (1 + u) (F.mul c.im c.im) (c.im * c.im) (c.im * c.im) := by
    have := RApx.rel (g := 1 + u) (a := F.mul c.im c.im) (z := c.im * c.im) (by linarith)
      (by rw [add_sub_cancel_left]; exact hF.mul c.im c.im)
    rwa [abs_of_nonneg (mul_self_nonneg _)] at this
  have a3 := RApx.add a1 a2 hu (hF.add _ _)
  have e1 := a3.abs_err
  set R := c.re * c.re + c.im * c.im with hR
  have hR0 : 0 ≤ R := by rw [hR]; nlinarith [mul_self_nonneg c.re, mul_self_nonneg c.im]
  have hsq : Real.sqrt R = ‖toC c‖ := by
    rw [Complex.norm_def, Complex.normSq_apply, hR]
    rfl
  obtain ⟨r0, s1⟩ := sqrt_close hR0 (by nlinarith) (by nlinarith) e1
  have s2 := hL.sqrt _ r0
  have b1 : RApx ((1 + u) * (1 + u)) (Real.sqrt (F.add (F.mul c.re c.re) (F.mul c.im c.im))) (Real.sqrt R) (Real.sqrt R) :=
    RApx.mk' (by nlinarith) s1 (by rw [abs_of_nonneg (Real.sqrt_nonneg _)])
  have b2 := RApx.round b1 hw (by rw [abs_of_nonneg (Real.sqrt_nonneg _)]; exact s2)
  have e2 := b2.abs_err
  rw [hsq] at e2
  rw [pow_two]
  exact e2

theorem runMax_rnd (hF : Rounding F u v t) (l : List ℝ) (m : ℝ) : m ≤ Spec.runMax m l ∧ (∀ v ∈ l, v ≤ Spec.runMax m l) ∧
    (Spec.runMax m l = m ∨ Spec.runMax m l ∈ l) := by
  induction l generalizing m with
  | nil => simp [Spec.runMax]
  | cons v l ih =>
    have e : Spec.runMax m (v :: l) = Spec.runMax (if Flt.lt m v then v else m) l := rfl
    rw [e]
    obtain ⟨h1, h2, h3⟩ := ih (if Flt.lt m v then v else m)
    by_cases h : m < v
    · rw [if_pos ((hF.lt _ _).2 h)] at h1 h2 h3 ⊢
      refine ⟨h.le.trans h1, ?_, ?_⟩
      · intro u hu
        rcases List.mem_cons.1 hu with rfl | hu
        · exact h1
        · exact h2 u hu
      · rcases h3 with h3 | h3
        · rw [h3]; right; simp
        · right; simp [h3]
    · rw [if_neg (fun h' => h ((hF.lt _ _).1 h'))] at h1 h2 h3 ⊢
      push Not at h
      refine ⟨h1, ?_, ?_⟩
      · intro u hu
        rcases List.mem_cons.1 hu with rfl | hu
        · exact h.trans h1
        · exact h2 u hu
      · rcases h3 with h3 | h3
        · left; exact h3
        · right; simp [h3]

/-- a windowed sample, relative to the sample -/
theorem windowed_rnd (hF : Rounding F u v t) (hD : ∀ n, |F.ofNatD n - n| ≤ v * n) (samples : List ℝ) (n start i : ℕ)
    (hi : i < n) :
    Apx ((1 + u) * windowGrowth u v t) (toC ((Spec.segment samples (hann n) start).getD i Cx.zero))
      ((samples.getD (start + i) 0 * (1 / 2 - 1 / 2 * Real.cos (2 * Real.pi * i / n)) : ℝ) : ℂ) |samples.getD (start + i) 0| := by
  have hl := hann_length (T := ℝ) n
  have hu := hF.u_nonneg
  have h1 := segment_rnd hF samples (hann n) start i (by omega)
  have h2 := (window_error hF hD n i hi).1
  have e1 := h1.err
  unfold segAt at e1
  generalize toC ((Spec.segment samples (hann n) start).getD i Cx.zero) = z at *
  generalize (hann n : List ℝ).getD i 0 = ŵ at *
  generalize samples.getD (start + i) 0 = s at *
  have hc : |(1 / 2 - 1 / 2 * Real.cos (2 * Real.pi * i / n) : ℝ)| ≤ 1 := by
    have := Real.neg_one_le_cos (2 * Real.pi * i / n)
    have := Real.cos_le_one (2 * Real.pi * i / n)
    rw [abs_le]; constructor <;> linarith
  generalize (1 / 2 - 1 / 2 * Real.cos (2 * Real.pi * i / n) : ℝ) = c at *
  have hs := abs_nonneg s
  have g1 : 1 ≤ windowGrowth u v t := by
    have := (abs_nonneg _).trans h2
    linarith
  have hŵ : |ŵ| ≤ windowGrowth u v t := by
    have := abs_sub_abs_le_abs_sub ŵ c
    linarith
  have e2 : ‖((s * ŵ : ℝ) : ℂ) - ((s * c : ℝ) : ℂ)‖ ≤ (windowGrowth u v t - 1) * |s| := by
    rw [← Complex.ofReal_sub, Complex.norm_real, Real.norm_eq_abs, ← mul_sub, abs_mul, mul_comm]
    exact mul_le_mul_of_nonneg_right h2 hs
  have e3 : |s * ŵ| ≤ windowGrowth u v t * |s| := by
    rw [abs_mul, mul_comm]
    exact mul_le_mul_of_nonneg_right hŵ hs
  refine ⟨by nlinarith, ?_, ?_⟩
  · have e4 := norm_sub_le_norm_sub_add_norm_sub z ((s * ŵ : ℝ) : ℂ) ((s * c : ℝ) : ℂ)
    have e5 := mul_le_mul_of_nonneg_left e3 hu
    have e6 : ‖z - ((s * ŵ : ℝ) : ℂ)‖ ≤ u * |s * ŵ| := by simpa using e1
    nlinarith
  · rw [Complex.norm_real, Real.norm_eq_abs, abs_mul]
    exact mul_le_of_le_one_right hs hc

/-- C109f. Value `(x, y)` of `stft_magnitudes` is the absolute value of bin `y` of the Hann-windowed Fourier transform of the
samples from `x · hop`, up to the stated multiple of the sum of their absolute values; the second result is the largest of the
values (0 if there is none). -/
theorem stft_magnitudes_error (hF : Rounding F u v t) (hD : ∀ n, |F.ofNatD n - n| ≤ v * n) (hL : Libm F w) (hu4 : u ≤ 1 / 4)
    (cfg : Cfg) (par : Option (List ℕ)) (samples : List ℝ) (winLen hop : ℕ)
    (hh : 0 < hop) (hw : 0 < winLen) (hn : cfg.std = true ∨ ∃ k, winLen = 2 ^ k)
    (hpar : Spec.validOrder par (divCeil samples.length hop)) :
    ∃ mags mx, stftMagnitudes cfg par samples winLen hop = .ok (.ok (mags, mx)) ∧
      mags.length = divCeil samples.length hop ∧
      (∀ x, x < mags.length → (mags.getD x []).length = winLen / 2 ∧ ∀ y, y < winLen / 2 →
        |(mags.getD x []).getD y 0 - ‖∑ s ∈ range winLen, ((samples.getD (x * hop + s) 0 *
          (1 / 2 - 1 / 2 * Real.cos (2 * Real.pi * s / winLen)) : ℝ) : ℂ) * W winLen (y * s)‖| ≤
          stftMagErr cfg u v t w winLen * ∑ s ∈ range winLen, |samples.getD (x * hop + s) 0| ∧
        (mags.getD x []).getD y 0 ≤ mx) ∧
      0 ≤ mx ∧ (mx = 0 ∨ ∃ x y, x < mags.length ∧ y < winLen / 2 ∧ (mags.getD x []).getD y 0 = mx) := by
  have hu := hF.u_nonneg
  have hw0 := hL.w_nonneg
  have hl := hann_length (T := ℝ) winLen
  obtain ⟨mags, mx, e, h1, h2, h3⟩ := stft_magnitudes_spec cfg par samples winLen hop hh hw hn hpar
  obtain ⟨m1, m2, m3⟩ := runMax_rnd hF mags.flatten Flt.zero
  rw [← h3, hF.zero] at m1 m3
  rw [← h3] at m2
  have hr := fftRes_ok hw hn
  refine ⟨mags, mx, e, h1, ?_, m1, ?_⟩
  · intro x hx
    obtain ⟨hrow, q, frame, ef, hfl, hv⟩ := h2 x hx
    refine ⟨hrow, ?_⟩
    intro y hy
    refine ⟨?_, ?_⟩
    · set g := Spec.segment samples (hann (T := ℝ) winLen) (x * hop) with hg
      have hsl : g.length = winLen := by rw [hg, segment_length, hl]
      have hp0 : ReachVia cfg (fun m => workSize m ≤ workSize winLen) (Planner.new : Planner ℝ) := .new
      obtain ⟨p1, e1, -⟩ := (fft_opOk cfg).run Planner.new g (reachVia_inv hp0)
      have hfr := fftBuf_fresh cfg Planner.new g (reachVia_inv hp0) (by rw [hsl]; exact hr)
        (by rw [hsl]; exact compat_of_reach hp0)
      rw [hfr, ef] at e1
      simp only [Outcome.ok.injEq, Prod.mk.injEq] at e1
      obtain ⟨-, ef', -⟩ := e1
      have a1 := freshOut_rnd hF cfg g
        (fun s => ((samples.getD (x * hop + s) 0 * (1 / 2 - 1 / 2 * Real.cos (2 * Real.pi * s / winLen)) : ℝ) : ℂ))
        (fun s => |samples.getD (x * hop + s) 0|) ((1 + u) * windowGrowth u v t)
        (fun i hi => windowed_rnd hF hD samples winLen (x * hop) i (by omega)) y (by omega)
      rw [hsl, ← ef'] at a1
      have hb : ‖dft winLen (fun s => ((samples.getD (x * hop + s) 0 *
          (1 / 2 - 1 / 2 * Real.cos (2 * Real.pi * s / winLen)) : ℝ) : ℂ)) y‖ ≤
          ∑ s ∈ range winLen, |samples.getD (x * hop + s) 0| := by
        refine (dft_norm_le winLen _ y).trans (sum_le_sum fun s _ => ?_)
        rw [Complex.norm_real, Real.norm_eq_abs, abs_mul]
        refine mul_le_of_le_one_right (abs_nonneg _) ?_
        have := Real.neg_one_le_cos (2 * Real.pi * s / winLen)
        have := Real.cos_le_one (2 * Real.pi * s / winLen)
        rw [abs_le]; constructor <;> linarith
      have a2 := a1.err
      have hone := a1.one
      have hv' := hv y hy
      rw [hF.zero] at hv'
      rw [hv']
      have a3 := mag_rnd hF hL hu4 (frame.getD y ⟨0, 0⟩)
      have ez : (Cx.zero : Cx ℝ) = ⟨0, 0⟩ := by
        show (⟨F.zero, F.zero⟩ : Cx ℝ) = _
        rw [hF.zero]
      rw [ez] at a2
      have hd : (∑ s ∈ range winLen, ((samples.getD (x * hop + s) 0 *
          (1 / 2 - 1 / 2 * Real.cos (2 * Real.pi * s / winLen)) : ℝ) : ℂ) * W winLen (y * s)) =
        dft winLen (fun s => ((samples.getD (x * hop + s) 0 *
          (1 / 2 - 1 / 2 * Real.cos (2 * Real.pi * s / winLen)) : ℝ) : ℂ)) y := rfl
      rw [hd]
      generalize dft winLen (fun s => ((samples.getD (x * hop + s) 0 *
          (1 / 2 - 1 / 2 * Real.cos (2 * Real.pi * s / winLen)) : ℝ) : ℂ)) y = S at *
      generalize frame.getD y ⟨0, 0⟩ = c at *
      generalize (∑ s ∈ range winLen, |samples.getD (x * hop + s) 0|) = B at *
      have c1 : |‖toC c‖ - ‖S‖| ≤ ‖toC c - S‖ := abs_norm_sub_norm_le _ _
      have c2 := abs_sub_le (Spec.mag c) ‖toC c‖ ‖S‖
      have c3 : ‖toC c‖ ≤ B + ((1 + u) * windowGrowth u v t * fftGrowth cfg u v t winLen - 1) * (fftWeight winLen * B) := by
        have := (abs_le.mp c1).2
        linarith
      have c4 : 0 ≤ (1 + u) ^ 2 * (1 + w) - 1 := by nlinarith [mul_nonneg hu hw0]
      have c5 := mul_le_mul_of_nonneg_left c3 c4
      unfold stftMagErr
      nlinarith
    · apply m2
      rw [List.mem_flatten]
      refine ⟨mags.getD x [], ?_, ?_⟩
      · rw [List.getD_eq_getElem _ _ hx]; exact List.getElem_mem _
      · rw [List.getD_eq_getElem (mags.getD x []) _ (by rw [hrow]; exact hy)]; exact List.getElem_mem _
  · rcases m3 with m3 | m3
    · left; exact m3
    · right
      rw [List.mem_flatten] at m3
      obtain ⟨row, hr, hm⟩ := m3
      obtain ⟨x, hx, rfl⟩ := List.getElem_of_mem hr
      obtain ⟨y, hy, hm⟩ := List.getElem_of_mem hm
      have hxr := (h2 x hx).1
      rw [List.getD_eq_getElem _ _ hx] at hxr
      refine ⟨x, y, hx, by omega, ?_⟩
      rw [List.getD_eq_getElem _ _ hx, List.getD_eq_getElem _ _ hy, hm]

omit F in
/-- Concrete case: five samples, window of four, hop two, binary32. -/
example (fused fma : Bool) : letI := rndFlt 24 24 fused fma
    ∃ mags mx, stftMagnitudes ⟨true, .f32, false, 4, false⟩ none [1, -2, 3, 0.5, (4 : ℝ)] 4 2 = .ok (.ok (mags, mx)) ∧
      mags.length = 3 := by
  letI := rndFlt 24 24 fused fma
  obtain ⟨m, x, e, h, -⟩ := stft_magnitudes_error (rndFlt_rounding 24 24 (by norm_num) (by norm_num) fused fma)
    (fun n => by
      have := rnd_close 24 (n : ℝ)
      rwa [abs_of_nonneg (a := (n : ℝ)) (Nat.cast_nonneg n)] at this) (rndFlt_libm 24 24 (by norm_num) fused fma) (by norm_num)
    ⟨true, .f32, false, 4, false⟩ none [1, -2, 3, 0.5, (4 : ℝ)] 4 2 (by norm_num) (by norm_num) (Or.inl rfl)
    (fun _ h => by cases h)
  exact ⟨m, x, e, h⟩

end Kofft.Props
