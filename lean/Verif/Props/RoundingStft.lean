import Verif.Proof.RoundStft
import Verif.Props.Rounding
import Verif.Props.Istft
/-
Property C74: accuracy of the short-time transforms in floating-point arithmetic.
-/
namespace Kofft.Props
open Spec Complex Finset

variable [F : Flt ℝ] {u v t : ℝ}

private theorem frame_rnd (hF : Rounding F u v t) (cfg : Cfg) (signal window : List ℝ) (start : ℕ) (k : ℕ)
    (hk : k < window.length) :
    Apx ((1 + u) * fftGrowth cfg u v t window.length)
      (toC ((freshOut cfg (Spec.segment signal window start)).getD k Cx.zero))
      (dft window.length (fun s => ((signal.getD (start + s) 0 * window.getD s 0 : ℝ) : ℂ)) k)
      (fftWeight window.length * ∑ s ∈ range window.length, |signal.getD (start + s) 0 * window.getD s 0|) := by
  have hl := segment_length signal window start
  have := freshOut_rnd hF cfg (Spec.segment signal window start) _ _ (1 + u)
    (fun i hi => segment_rnd hF signal window start i (by omega)) k (by omega)
  rw [hl] at this
  exact this

/-- C74a. `stft` in rounding arithmetic, on a transformer used before only with transforms no larger: bin `k` of frame
`f` is within the stated bound of `Σ_t signal[f·hop+t] · window[t] · exp(-2πi k t / n)`. -/
theorem stft_error (hF : Rounding F u v t) (cfg : Cfg) (p : Planner ℝ) (signal window : List ℝ)
    (hop : ℕ) (output : List (List (Cx ℝ))) (hh : 0 < hop) (ho : signal.length ≤ output.length * hop)
    (hw : 0 < window.length) (hn : cfg.std = true ∨ ∃ k, window.length = 2 ^ k)
    (hp : ReachVia cfg (fun m => workSize m ≤ workSize window.length) p) :
    ∃ p' o, stft (fft cfg) p signal window hop output = .ok (p', o, .ok ()) ∧ o.length = output.length ∧
      ∀ f, f < output.length → (o.getD f []).length = window.length ∧
        ∀ k, k < window.length → ‖sig (o.getD f []) k -
          ∑ t ∈ range window.length,
            ((signal.getD (f * hop + t) 0 * window.getD t 0 : ℝ) : ℂ) * W window.length (k * t)‖ ≤
          ((1 + u) * fftGrowth cfg u v t window.length - 1) *
            (fftWeight window.length * ∑ t ∈ range window.length, |signal.getD (f * hop + t) 0 * window.getD t 0|) := by
  have hr := fftRes_ok hw hn
  obtain ⟨p', e, -⟩ := runAll_fft cfg window.length hr (segments signal window hop output.length) p
    (segments_mem _ _ _ _) hp
  refine ⟨p', (segments signal window hop output.length).map (freshOut cfg), ?_, by simp [segments_length], ?_⟩
  · rw [stft_transforms_segments _ _ _ _ _ _ hh ho, e]
    simp [segments_length]
  intro f hf
  have : ((segments signal window hop output.length).map (freshOut cfg)).getD f [] =
      freshOut cfg (Spec.segment signal window (f * hop)) := by
    simp [segments, List.getD_eq_getElem?_getD, hf]
  rw [this]
  have hl : (freshOut cfg (Spec.segment signal window (f * hop))).length = window.length := by
    rw [freshOut_length, segment_length]
  refine ⟨hl, fun k hk => ?_⟩
  rw [sig_getD _ _ (by omega)]
  exact (frame_rnd hF cfg signal window (f * hop) k hk).err

private theorem runAll_ifft_rnd (hF : Rounding F u v t) (cfg : Cfg) (n : ℕ) (hr : fftRes cfg n = .ok ()) {g : ℝ} :
    ∀ (xs : List (List (Cx ℝ))) (Z : ℕ → ℕ → ℂ) (A : ℕ → ℕ → ℝ) (p : Planner ℝ), (∀ x ∈ xs, x.length = n) →
      (∀ f, f < xs.length → ∀ i, i < n → Apx g (toC ((xs.getD f []).getD i Cx.zero)) (Z f i) (A f i)) →
      ReachVia cfg (fun m => workSize m ≤ workSize n) p →
      ∃ p' ys, runAll (ifft cfg) p xs = .ok (p', ys, .ok ()) ∧ ys.length = xs.length ∧
        ∀ f, f < xs.length → ∀ s, s < n → Apx (g * fftGrowth cfg u v t n * scaleGrowth u v n)
          (toC ((ys.getD f []).getD s Cx.zero)) (idft n (Z f) s) (fftWeight n * (∑ i ∈ range n, A f i) / n) := by
  intro xs
  induction xs with
  | nil => intro Z A p _ _ _; exact ⟨p, [], rfl, rfl, by simp⟩
  | cons x xs ih =>
    intro Z A p hx hA hp
    have hxn : x.length = n := hx x (by simp)
    obtain ⟨p1, e, -⟩ := (ifft_opOk cfg).run p x (reachVia_inv hp)
    have hd := fun s hs => ifftBuf_rnd hF cfg p x (reachVia_inv hp) (by rw [hxn]; exact hr)
      (by rw [hxn]; exact compat_of_reach hp) (Z 0) (A 0) g (fun i hi => hA 0 (by simp) i (by omega)) s hs
    rw [hxn] at hd
    rw [hxn, hr] at e
    have hp1 : ReachVia cfg (fun m => workSize m ≤ workSize n) p1 := .ifft hp (by rw [hxn]) e
    obtain ⟨p2, ys, e2, h2, h3⟩ := ih (fun f => Z (f + 1)) (fun f => A (f + 1)) p1 (fun x hx' => hx x (by simp [hx']))
      (fun f hf i hi => by have := hA (f + 1) (by simpa using hf) i hi; simpa using this) hp1
    refine ⟨p2, ifftBuf cfg p x :: ys, by rw [runAll, e, Outcome.bind_ok]; simp only; rw [e2]; rfl, by simp [h2], ?_⟩
    intro f hf s hs
    cases f with
    | zero => simpa using hd s hs
    | succ f => simpa using h3 f (by simpa using hf) s hs

/-- C74b. `stft` followed by `istft` with the same window and hop, into a zeroed buffer: at every position where the
accumulated squared window `D` is safely above 1e-8, the sample comes back within the stated bound. -/
theorem istft_stft_error (hF : Rounding F u v t) (cfg : Cfg) (p : Planner ℝ) (signal window : List ℝ)
    (hop : ℕ) (output : List (List (Cx ℝ))) (hh : 0 < hop) (ho : signal.length ≤ output.length * hop)
    (hw : 0 < window.length) (hn : cfg.std = true ∨ ∃ k, window.length = 2 ^ k)
    (hp : ReachVia cfg (fun m => workSize m ≤ workSize window.length) p)
    (N : ℕ) (scratch : List ℝ) (hs : scratch.length = N) (hc : normGrowth u output.length < 2) :
    ∃ p1 frames p2 ys out sc,
      stft (fft cfg) p signal window hop output = .ok (p1, frames, .ok ()) ∧
      istft (ifft cfg) p1 frames window hop (List.replicate N 0) scratch = .ok (p2, ys, out, sc, .ok ()) ∧
      out.length = N ∧
      ∀ i, i < N →
        let D := ∑ f ∈ range output.length,
          if f * hop ≤ i ∧ i < f * hop + window.length then window.getD (i - f * hop) 0 ^ 2 else 0
        let S := ∑ f ∈ range output.length, if f * hop ≤ i ∧ i < f * hop + window.length then
          (∑ t ∈ range window.length, |signal.getD (f * hop + t) 0 * window.getD t 0|) * |window.getD (i - f * hop) 0|
          else 0
        (1 + u) / 10 ^ 8 < (2 - normGrowth u output.length) * D →
        |out.getD i 0 - signal.getD i 0| ≤
          (resynthGrowth cfg u v t window.length output.length - 1) * (fftWeight window.length ^ 2 * S / D) := by
  have hr := fftRes_ok hw hn
  have hu := hF.u_nonneg
  obtain ⟨p1, e1, hp1⟩ := runAll_fft cfg window.length hr (segments signal window hop output.length) p
    (segments_mem _ _ _ _) hp
  have hst : stft (fft cfg) p signal window hop output =
      .ok (p1, (segments signal window hop output.length).map (freshOut cfg), .ok ()) := by
    rw [stft_transforms_segments _ _ _ _ _ _ hh ho, e1]
    simp [segments_length]
  have hlen : ∀ fr ∈ (segments signal window hop output.length).map (freshOut cfg), fr.length = window.length := by
    intro fr hfr
    obtain ⟨x, hx, rfl⟩ := List.mem_map.mp hfr
    rw [freshOut_length, segments_mem _ _ _ _ x hx]
  obtain ⟨p2, ys, e2, hyl, hy⟩ := runAll_ifft_rnd hF cfg window.length hr
    ((segments signal window hop output.length).map (freshOut cfg))
    (fun f => dft window.length (fun s => ((signal.getD (f * hop + s) 0 * window.getD s 0 : ℝ) : ℂ)))
    (fun f _ => fftWeight window.length * ∑ s ∈ range window.length, |signal.getD (f * hop + s) 0 * window.getD s 0|)
    p1 hlen (by
      intro f hf i hi
      simp only [List.length_map, segments_length] at hf
      have : ((segments signal window hop output.length).map (freshOut cfg)).getD f [] =
          freshOut cfg (Spec.segment signal window (f * hop)) := by
        simp [segments, List.getD_eq_getElem?_getD, hf]
      rw [this]
      exact frame_rnd hF cfg signal window (f * hop) i hi) hp1
  simp only [List.length_map, segments_length] at hyl hy
  obtain ⟨out, sc, e3, h1, -, h3⟩ := istft_bit_exact (ifft cfg) (keeps_ifft_reach cfg) p1 p2
    (Kofft.ReachVia.mono (fun _ _ => trivial) hp1) _ ys window hop (List.replicate N 0) scratch hh (by simpa using hs) hlen e2
  refine ⟨p1, _, p2, ys, out, sc, hst, e3, by simpa using h1, ?_⟩
  intro i hi D S hD
  have h4 := (h3 i (by simpa using hi)).2
  simp only [List.length_map, segments_length] at h4
  rw [hF.zero, List.getD_replicate _ hi, olaAt_eq, hyl] at h4
  rw [h4]
  have hwn : (window.length : ℝ) ≠ 0 := by exact_mod_cast hw.ne'
  have ho := olaK_rnd hF window hop i ys (g := (1 + u) * fftGrowth cfg u v t window.length *
      fftGrowth cfg u v t window.length * scaleGrowth u v window.length) (by
        have a1 := fftGrowth_ge hF cfg window.length
        have a2 := scaleGrowth_ge hF hw
        exact one_le_mul_of_one_le_of_one_le (one_le_mul_of_one_le_of_one_le
          (one_le_mul_of_one_le_of_one_le (by linarith) a1) a1) a2)
    (fun f s => signal.getD (f * hop + s) 0 * window.getD s 0)
    (fun f _ => fftWeight window.length ^ 2 * ∑ s ∈ range window.length, |signal.getD (f * hop + s) 0 * window.getD s 0|)
    output.length (by
      intro f hf s hs
      have := (hy f hf s hs).re
      rw [idft_dft _ hs] at this
      refine Apx.weight this (le_of_eq ?_)
      rw [sum_const, card_range, nsmul_eq_mul]
      field_simp)
  have := (divNorm_rnd hF ho (normAt_rnd hF window hop i output.length) hc hD).abs_err
  have hD0 : D ≠ 0 := by
    rintro h0
    rw [h0, mul_zero] at hD
    have : 0 ≤ (1 + u) / 10 ^ 8 := by positivity
    linarith
  have q1 : (∑ f ∈ range output.length, if f * hop ≤ i ∧ i < f * hop + window.length then
      signal.getD (f * hop + (i - f * hop)) 0 * window.getD (i - f * hop) 0 * window.getD (i - f * hop) 0 else 0) /
      normR window hop output.length i = signal.getD i 0 := by
    rw [div_eq_iff (show normR window hop output.length i ≠ 0 from hD0), normR, mul_sum]
    apply sum_congr rfl
    intro f _
    split
    · rename_i hc
      rw [show f * hop + (i - f * hop) = i by omega]; ring
    · rw [mul_zero]
  have q2 : (∑ f ∈ range output.length, if f * hop ≤ i ∧ i < f * hop + window.length then
      fftWeight window.length ^ 2 * (∑ s ∈ range window.length, |signal.getD (f * hop + s) 0 * window.getD s 0|) *
        |window.getD (i - f * hop) 0| else 0) = fftWeight window.length ^ 2 * S := by
    rw [mul_sum]
    apply sum_congr rfl
    intro f _
    split
    · ring
    · rw [mul_zero]
  rw [q1, q2] at this
  refine this.trans (le_of_eq ?_)
  congr 2
  unfold resynthGrowth
  ring

/-- Non-vacuity: single precision, two windows of ones over three samples; the conditions hold at sample 1. -/
example : Rounding (rndFlt 24 24 true true) (1 / 2 ^ 24) (1 / 2 ^ 24) (1 / 2 ^ 24) ∧
    normGrowth (1 / 2 ^ 24) 3 < 2 ∧
    (1 + 1 / 2 ^ 24 : ℝ) / 10 ^ 8 < (2 - normGrowth (1 / 2 ^ 24) 3) * (∑ f ∈ range 3,
      if f * 1 ≤ 1 ∧ 1 < f * 1 + ([1, 1] : List ℝ).length then ([1, 1] : List ℝ).getD (1 - f * 1) 0 ^ 2 else 0) := by
  refine ⟨rndFlt_rounding 24 24 (by norm_num) (by norm_num) true true, by unfold normGrowth; norm_num, ?_⟩
  unfold normGrowth
  simp [sum_range_succ]
  norm_num

/-- In exact arithmetic the bounds are 0. -/
example (cfg : Cfg) (n c : ℕ) : (1 + 0) * fftGrowth cfg 0 0 0 n = 1 ∧ resynthGrowth cfg 0 0 0 n c = 1 := by
  have h1 : fftGrowth cfg 0 0 0 n = 1 := by
    simp [fftGrowth, powGrowth, bluGrowth, mulErr, twGrowth, preGrowth, tableGrowth, rotErr, chirpErr]
  refine ⟨by rw [h1]; norm_num, ?_⟩
  simp [resynthGrowth, h1, scaleGrowth, normGrowth]
  norm_num

end Kofft.Props
