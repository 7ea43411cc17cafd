import Verif.Proof.IeeeRfft
import Verif.Spec.IeeeReal
import Verif.Props.Ieee
import Verif.Props.Rfft
/-
Property C100: the real transforms of finite data of moderate size stay finite and accurate in arithmetic with a bounded
exponent range.
-/
namespace Kofft.Props
open Spec Complex Finset

variable {T : Type} [F : Flt T] {N : Denote T} {u η Ω v t : ℝ}

omit F in
private theorem rsig_eq (x : List T) : N.rsig x = rsig (x.map N.val) := by
  funext i
  simp [Denote.rsig, rsig, List.getD_eq_getElem?_getD]

omit F in
private theorem sum_pairs (f : ℕ → ℝ) (m : ℕ) :
    ∑ i ∈ range m, (f (2 * i) + f (2 * i + 1)) = ∑ i ∈ range (2 * m), f i := by
  induction m with
  | zero => simp
  | succ m ih => rw [sum_range_succ, ih, show 2 * (m + 1) = 2 * m + 1 + 1 by ring, sum_range_succ, sum_range_succ,
      add_assoc]

private theorem res_ok' (cfg : Cfg) {m : ℕ} (hm : 0 < m) (hn : cfg.std = true ∨ ∃ k, m = 2 ^ k) :
    fftRes cfg m = .ok () := by
  rcases hn with h | h
  · exact fftRes_std h hm
  · exact fftRes_pow2 cfg (isPow2_iff.mpr h)

omit F in
private theorem m_D {m : ℕ} {D : ℝ} (hm : 0 < m) (hD0 : 0 < D) (hD : 2 * (workSize m * D) ≤ 1) :
    workSize m * D ≤ 1 ∧ m * D ≤ 1 ∧ D ≤ 1 / 2 := by
  have h1 : (m : ℝ) ≤ workSize m := by exact_mod_cast workSize_ge m
  have h2 : (1 : ℝ) ≤ m := by exact_mod_cast hm
  have h3 : m * D ≤ workSize m * D := mul_le_mul_of_nonneg_right h1 hD0.le
  have h4 : 1 * D ≤ m * D := mul_le_mul_of_nonneg_right h2 hD0.le
  have h5 : 0 ≤ workSize m * D := by positivity
  refine ⟨by linarith, by linarith, by linarith⟩

/-- C100a. `rfft` of `2m` finite real samples, in arithmetic with numbers up to `Ω`, either kernel, any uninitialised
scratch, on a transformer used before only with transforms no larger: with room below `Ω` every one of the `m + 1` bins
is finite, and within a relative error, plus `D` per sample, of the bin of the exact DFT. -/
theorem rfft_ieee (hF : Ieee F N u η Ω v t) (cfg : Cfg) (simd : Bool) (un : ℕ → Cx T)
    (x : List T) (m : ℕ) (hm : 0 < m) (hm31 : m ≤ 2 ^ 31) (hx : x.length = 2 * m) (hfin : ∀ c ∈ x, N.fin c)
    (hn : cfg.std = true ∨ ∃ k, m = 2 ^ k) (p : Planner T)
    (hp : ReachVia cfg (fun l => workSize l ≤ workSize m) p) (out : List (Cx T)) (ho : out.length = m + 1)
    (D : ℝ) (hD0 : 0 < D) (hD : 2 * (workSize m * D) ≤ 1) (hU : effErr u η D ≤ 1)
    (hΩ : fftGrowth cfg (effErr u η D) v t m * binGrowth (effErr u η D) v t m *
      (4 * ieeeRoom m * (20 + ∑ s ∈ range (2 * m), ‖N.rsig x s‖)) ≤ Ω) :
    ∃ p' y, rfft simd (fft cfg) un p x out = .ok (p', y, .ok ()) ∧ y.length = m + 1 ∧ (∀ c ∈ y, N.cfin c) ∧
      ∀ k, k ≤ m → ‖N.csig y k - dft (2 * m) (N.rsig x) k‖ ≤
        (fftGrowth cfg (effErr u η D) v t m * binGrowth (effErr u η D) v t m - 1) *
          (2 * (ieeeWeight m * (∑ s ∈ range (2 * m), ‖N.rsig x s‖ + workSize m * D))) := by
  obtain ⟨hD1, hDm, hD2⟩ := m_D hm hD0 hD
  have h := ie_env hF hD0 hm hD1 hU
  rw [rsig_eq] at *
  have hl : (packed x).length = m := by rw [packed, tab_length]; omega
  have hr := res_ok' cfg hm hn
  obtain ⟨p', e, -, hlen, -⟩ := (fft_opOk cfg).run p (packed x) (reachVia_inv hp)
  rw [hl, hr, fftBuf_fresh cfg p (packed x) (reachVia_inv hp) (by rw [hl]; exact hr)
    (by rw [hl]; exact compat_of_reach hp)] at e
  rw [fftBuf_fresh cfg p (packed x) (reachVia_inv hp) (by rw [hl]; exact hr)
    (by rw [hl]; exact compat_of_reach hp), hl] at hlen
  have hS0 : 0 ≤ ∑ s ∈ range (2 * m), ‖rsig (x.map N.val) s‖ := sum_nonneg fun _ _ => norm_nonneg _
  have hb := (show 1 ≤ 1 + effErr u η D by linarith [h.U_nonneg]).trans (ie_binG1 h m)
  have hG := ie_fftG h cfg m
  have hR := ieeeRoom_ge hm
  have hWR := ieeeWeight_le_room hm
  have hW := ieeeWeight_ge hm
  have hwD : 0 ≤ workSize m * D := by positivity
  have hsum : ∑ i ∈ range m, (‖rsig (x.map N.val) (2 * i)‖ + ‖rsig (x.map N.val) (2 * i + 1)‖ + D) +
      (workSize m - m) * D = ∑ s ∈ range (2 * m), ‖rsig (x.map N.val) s‖ + workSize m * D := by
    rw [ie_sum (fun i => ‖rsig (x.map N.val) (2 * i)‖ + ‖rsig (x.map N.val) (2 * i + 1)‖),
      sum_pairs (fun i => ‖rsig (x.map N.val) i‖)]
  generalize hgS : ∑ s ∈ range (2 * m), ‖rsig (x.map N.val) s‖ = S at *
  generalize hgG : fftGrowth cfg (effErr u η D) v t m = G at *
  generalize hgB : binGrowth (effErr u η D) v t m = B at *
  have hGB : 1 ≤ G * B := one_le_mul_of_one_le_of_one_le hG hb
  have hle : ∀ {a b : ℝ}, 0 ≤ b → a ≤ G * B → b ≤ 4 * ieeeRoom m * (20 + S) → a * b ≤ Ω := by
    intro a b h0 h1 h2
    exact (mul_le_mul h1 h2 h0 (by linarith)).trans hΩ
  have hGle : G ≤ G * B := le_mul_of_one_le_right (by linarith) hb
  have hf : ∀ k, k < m → IAp N D G ((freshOut cfg (packed x)).getD k Cx.zero)
      (dft m (fun i => rsig (x.map N.val) (2 * i) + I * rsig (x.map N.val) (2 * i + 1)) k)
      (ieeeWeight m * (S + workSize m * D)) := by
    intro k hk
    have := ie_freshOut h cfg (packed x) (by omega) (by omega)
      (fun i => rsig (x.map N.val) (2 * i) + I * rsig (x.map N.val) (2 * i + 1))
      (fun i => ‖rsig (x.map N.val) (2 * i)‖ + ‖rsig (x.map N.val) (2 * i + 1)‖ + D) 1
      (fun i hi => ie_packed hD0 x hx hfin i (by omega)) (by rw [hl]; exact hD1)
      (by rw [hl, hgG]; exact hle (by positivity) hGle (by nlinarith))
      (by rw [hl, hgG, hsum, one_mul]; exact hle (by positivity) hGle (by nlinarith)) k (by omega)
    rw [hl, hsum, hgG, one_mul] at this
    exact this
  have hΩ4 : G * B * (4 * (ieeeWeight m * (S + workSize m * D))) ≤ Ω :=
    hle (by positivity) le_rfl (by
      have := mul_le_mul hWR (by linarith : S + workSize m * D ≤ 20 + S) (by linarith) (by linarith)
      linarith)
  have hΩB : B ≤ Ω := by
    have := hle (a := B) (b := 1) (by norm_num) (le_mul_of_one_le_left (by linarith) hG) (by nlinarith)
    linarith
  have key : ∀ k, k ≤ m → IAp N D (G * B) ((rfftPost (rBinOf simd) (freshOut cfg (packed x))).getD k Cx.zero)
      (dft (2 * m) (rsig (x.map N.val)) k) (2 * (ieeeWeight m * (S + workSize m * D))) := by
    intro k hk
    have := ie_rfftPost h hD2 simd hm hm31 hDm (x.map N.val) _ hlen G _ hf (by rw [hgB]; exact hΩ4)
      (by rw [hgB]; exact hΩB) k hk
    rw [hgB] at this
    exact this
  have hly : (rfftPost (rBinOf simd) (freshOut cfg (packed x))).length = m + 1 := by rw [rfftPost, tab_length, hlen]
  refine ⟨p', rfftPost (rBinOf simd) (freshOut cfg (packed x)), ?_, hly, ?_, ?_⟩
  · rw [rfft_val simd (fft cfg) un p (opLen_fft (Kofft.ReachVia.mono (fun _ _ => trivial) hp)) x out]
    unfold rfftVal
    simp only [show ¬ x.length = 0 by omega, show ¬ x.length % 2 ≠ 0 by omega,
      show ¬ out.length ≠ x.length / 2 + 1 by omega, if_false, e, Outcome.bind_ok]
  · exact all_fin _ fun k hk => (key k (by omega)).fin
  · intro k hk
    rw [csig_get _ _ (by omega)]
    exact (key k hk).err

omit F in
private theorem sum_fold' (A : ℕ → ℝ) (h : ∀ k, 0 ≤ A k) (m : ℕ) :
    ∑ k ∈ range m, (A k + A (m - k)) ≤ 2 * ∑ k ∈ range (m + 1), A k := by
  rw [sum_add_distrib, two_mul]
  have e : ∑ k ∈ range m, A (m - k) = ∑ k ∈ range m, A (k + 1) := by
    rw [← sum_range_reflect]
    apply sum_congr rfl
    intro k hk
    rw [mem_range] at hk
    congr 1; omega
  rw [e]
  have h1 := sum_range_succ A m
  have h2 := sum_range_succ' A m
  have := h 0
  have := h m
  linarith

/-- C100b. `irfft` of a finite half spectrum `X` of `m + 1` bins: with room below `Ω` every one of the `2m` samples is
finite, and within a relative error, plus `D` per bin, of the inverse DFT of the conjugate-symmetric extension. -/
theorem irfft_ieee (hF : Ieee F N u η Ω v t) (cfg : Cfg) (simd : Bool) (un : ℕ → Cx T)
    (X : List (Cx T)) (m : ℕ) (hm : 0 < m) (hm31 : m ≤ 2 ^ 31) (hX : X.length = m + 1) (hfin : ∀ c ∈ X, N.cfin c)
    (hn : cfg.std = true ∨ ∃ k, m = 2 ^ k) (p : Planner T)
    (hp : ReachVia cfg (fun l => workSize l ≤ workSize m) p) (out : List T) (ho : out.length = 2 * m)
    (D : ℝ) (hD0 : 0 < D) (hD : 2 * (workSize m * D) ≤ 1) (hU : effErr u η D ≤ 1)
    (hΩ : binGrowth (effErr u η D) v t m * fftGrowth cfg (effErr u η D) v t m * scaleGrowth (effErr u η D) v m *
      (4 * ieeeRoom m * (20 + ∑ k ∈ range (m + 1), ‖N.csig X k‖)) ≤ Ω) :
    ∃ p' y, irfft simd (ifft cfg) un p X out = .ok (p', y, .ok ()) ∧ y.length = 2 * m ∧ (∀ c ∈ y, N.fin c) ∧
      ∀ s, s < 2 * m → ‖N.rsig y s - idft (2 * m) (hermitian (2 * m) (N.csig X)) s‖ ≤
        (binGrowth (effErr u η D) v t m * fftGrowth cfg (effErr u η D) v t m * scaleGrowth (effErr u η D) v m - 1) *
          (ieeeWeight m * (2 * (∑ k ∈ range (m + 1), ‖N.csig X k‖ + workSize m * D)) / m) := by
  obtain ⟨hD1, hDm, hD2⟩ := m_D hm hD0 hD
  have h := ie_env hF hD0 hm hD1 hU
  have hl := irfftPre_length (irBinOf simd) m X
  have hr := res_ok' cfg hm hn
  have hm0 : (0 : ℝ) < m := by exact_mod_cast hm
  obtain ⟨p', e, -, hlen, -⟩ := (ifft_opOk cfg).run p (irfftPre (irBinOf simd) m X) (reachVia_inv hp)
  rw [hl, hr] at e
  rw [hl] at hlen
  have hS0 : 0 ≤ ∑ k ∈ range (m + 1), ‖N.csig X k‖ := sum_nonneg fun _ _ => norm_nonneg _
  have hb := (show 1 ≤ 1 + effErr u η D by linarith [h.U_nonneg]).trans (ie_binG1 h m)
  have hG := ie_fftG h cfg m
  have hSc := ie_scale_ge h hm
  have hR := ieeeRoom_ge hm
  have hW := ieeeWeight_ge hm
  have hwD : 0 ≤ workSize m * D := by positivity
  have hmw : (m : ℝ) * D ≤ workSize m * D := mul_le_mul_of_nonneg_right (by exact_mod_cast workSize_ge m) hD0.le
  have hfold := sum_fold' (fun k => ‖N.csig X k‖) (fun _ => norm_nonneg _) m
  have hone : ∀ k, k ≤ m → ‖N.csig X k‖ + ‖N.csig X (m - k)‖ ≤ 2 * ∑ k ∈ range (m + 1), ‖N.csig X k‖ := by
    intro k hk
    have h1 := single_le_sum (f := fun k => ‖N.csig X k‖) (fun i _ => norm_nonneg _) (mem_range.mpr (by omega : k < m + 1))
    have h2 := single_le_sum (f := fun k => ‖N.csig X k‖) (fun i _ => norm_nonneg _)
      (mem_range.mpr (by omega : m - k < m + 1))
    linarith
  have hsum : ∑ k ∈ range m, ((‖N.csig X k‖ + D) + (‖N.csig X (m - k)‖ + D)) + (workSize m - m) * D ≤
      2 * (∑ k ∈ range (m + 1), ‖N.csig X k‖ + workSize m * D) := by
    have e1 : ∑ k ∈ range m, ((‖N.csig X k‖ + D) + (‖N.csig X (m - k)‖ + D)) =
        ∑ k ∈ range m, (‖N.csig X k‖ + ‖N.csig X (m - k)‖) + 2 * (m * D) := by
      rw [show (fun k => (‖N.csig X k‖ + D) + (‖N.csig X (m - k)‖ + D)) =
        fun k => (‖N.csig X k‖ + ‖N.csig X (m - k)‖) + 2 * D by funext k; ring, sum_add_distrib, sum_const, card_range,
        nsmul_eq_mul]
      ring
    rw [e1]
    linarith
  have hge : D ≤ ∑ k ∈ range m, ((‖N.csig X k‖ + D) + (‖N.csig X (m - k)‖ + D)) + (workSize m - m) * D := by
    have h1 := single_le_sum (f := fun k => (‖N.csig X k‖ + D) + (‖N.csig X (m - k)‖ + D)) (fun i _ => by positivity)
      (mem_range.mpr hm)
    have := norm_nonneg (N.csig X 0)
    have := norm_nonneg (N.csig X (m - 0))
    linarith
  generalize hgS : ∑ k ∈ range (m + 1), ‖N.csig X k‖ = S at *
  generalize hgT : ∑ k ∈ range m, ((‖N.csig X k‖ + D) + (‖N.csig X (m - k)‖ + D)) + (workSize m - m) * D = V at *
  generalize hgG : fftGrowth cfg (effErr u η D) v t m = G at *
  generalize hgB : binGrowth (effErr u η D) v t m = B at *
  generalize hgC : scaleGrowth (effErr u η D) v m = C at *
  have hBG : 1 ≤ B * G := one_le_mul_of_one_le_of_one_le hb hG
  have hBGC : 1 ≤ B * G * C := one_le_mul_of_one_le_of_one_le hBG hSc
  have hle : ∀ {a b : ℝ}, 0 ≤ b → a ≤ B * G * C → b ≤ 4 * ieeeRoom m * (20 + S) → a * b ≤ Ω := by
    intro a b h0 h1 h2
    exact (mul_le_mul h1 h2 h0 (by linarith)).trans hΩ
  have hBGle : B * G ≤ B * G * C := le_mul_of_one_le_right (by linarith) hSc
  have hGle : G ≤ B * G * C := (le_mul_of_one_le_left (by linarith) hb).trans hBGle
  have hBle : B ≤ B * G * C := (le_mul_of_one_le_right (by linarith) hG).trans hBGle
  have hΩB : B ≤ Ω := by
    have := hle (a := B) (b := 1) (by norm_num) hBle (by nlinarith)
    linarith
  have hpre := ie_irfftPre h hD2 simd hm hm31 hDm X (N.csig X) 1 (fun k => ‖N.csig X k‖ + D)
    (fun k hk => ie_input hD0 X hfin k (by omega)) (fun k hk => by
      rw [hgB, one_mul]
      have h1 := hone k hk
      have := norm_nonneg (N.csig X k)
      have := norm_nonneg (N.csig X (m - k))
      exact hle (by positivity) hBle (by nlinarith)) (by rw [hgB]; exact hΩB)
  rw [hgB, one_mul] at hpre
  have hbuf : ∀ s, s < m → IAp N D (B * G * C) ((ifftBuf cfg p (irfftPre (irBinOf simd) m X)).getD s Cx.zero)
      (idft (2 * m) (hermitian (2 * m) (N.csig X)) (2 * s) +
        I * idft (2 * m) (hermitian (2 * m) (N.csig X)) (2 * s + 1)) (ieeeWeight m * V / m) := by
    intro s hs
    have := ie_ifftBuf h cfg p (irfftPre (irBinOf simd) m X) (reachVia_inv hp) (by rw [hl]; exact hr)
      (by rw [hl]; exact compat_of_reach hp) (by omega) _ _ B (by rw [hl]; exact hpre) (by rw [hl]; exact hD1)
      (by rw [hl, hgG]; exact hle (by positivity) hGle (by nlinarith))
      (by
        rw [hl, hgG, hgC, hgT]
        refine hle (by nlinarith) le_rfl ?_
        have : ieeeRoom m * V ≤ ieeeRoom m * (2 * (S + workSize m * D)) := mul_le_mul_of_nonneg_left hsum (by linarith)
        nlinarith) s (by omega)
    rw [hl, hgG, hgC, hgT, idft_dft _ hs] at this
    exact this
  obtain ⟨h1, h2, h3⟩ := ie_unpacked hm (ifftBuf cfg p (irfftPre (irBinOf simd) m X)) hlen (N.csig X) _ _ hbuf
  refine ⟨p', _, ?_, h1, h2, ?_⟩
  · rw [irfft_val simd (ifft cfg) un p (opLen_ifft (Kofft.ReachVia.mono (fun _ _ => trivial) hp)) X out]
    unfold irfftVal
    simp only [show ¬ out.length = 0 by omega, show ¬ out.length % 2 ≠ 0 by omega,
      show ¬ X.length ≠ m + 1 by omega, if_false, show out.length / 2 = m by omega, e,
      Outcome.bind_ok]
  · intro s hs
    rw [rsig_eq]
    refine (h3 s hs).trans (mul_le_mul_of_nonneg_left ?_ (by linarith))
    exact div_le_div_of_nonneg_right (mul_le_mul_of_nonneg_left hsum (by linarith)) hm0.le


omit F in
/-- the combination of bins, in closed form -/
theorem binGrowth_le {e v t : ℝ} (he : 0 ≤ e) (hv : 0 ≤ v) (ht : 0 ≤ t) (h : e ≤ 1 / 1000) (hve : v ≤ e) (hte : t ≤ 2 * e)
    (m : ℕ) (hm : 32 ≤ m) (hsm : 7 * m * e ≤ 1) : binGrowth e v t m ≤ 1 + 15 * m * e := by
  have hμ := mulErr_le he h
  have hμ0 := mulErr_nonneg he
  have h32 : (32 : ℝ) ≤ m := by exact_mod_cast hm
  have hpi := Real.pi_pos
  have hq : (1 + e) ^ 2 / (1 - v) ≤ 1 + 4 * e := by
    rw [div_le_iff₀ (by linarith)]
    nlinarith
  have hq1 : 1 ≤ (1 + e) ^ 2 / (1 - v) := by
    rw [le_div_iff₀ (by linarith)]
    nlinarith
  have h3 : Real.pi / m ≤ 0.1 := by
    rw [div_le_iff₀ (by linarith)]
    nlinarith [Real.pi_lt_d2]
  have h30 : 0 ≤ Real.pi / m := by positivity
  have hrot : rrotErr e v t m ≤ 3.5 * e := by
    unfold rrotErr
    have h1 : Real.sqrt 2 * t ≤ 1.415 * (2 * e) := mul_le_mul sqrt2_le hte ht (by norm_num)
    have h5 : ((1 + e) ^ 2 / (1 - v) - 1) * (Real.pi / m) ≤ 4 * e * 0.1 :=
      mul_le_mul (by linarith) h3 h30 (by positivity)
    linarith
  have hr0 : 0 ≤ rrotErr e v t m := by
    unfold rrotErr
    have h2 : 0 ≤ ((1 + e) ^ 2 / (1 - v) - 1) * (Real.pi / m) := mul_nonneg (by linarith) h30
    have h3 : 0 ≤ Real.sqrt 2 * t := by positivity
    linarith
  have hb : (1 + mulErr e) * (1 + rrotErr e v t m) ≤ 1 + 7 * e := by
    calc _ ≤ (1 + 3 * e) * (1 + 3.5 * e) := by gcongr
      _ ≤ _ := by nlinarith
  have h6 := pow_growth_le (a := 7 * e) (by positivity) m (by nlinarith)
  have h7 := pow_le_pow_left₀ (by positivity) hb m
  have h8 : (1 + e) ^ 3 * (1 + mulErr e) ≤ 1 + 7 * e := by
    calc _ ≤ (1 + e) ^ 3 * (1 + 3 * e) := by gcongr
      _ ≤ (1 + 3.1 * e) * (1 + 3 * e) := by
        gcongr
        nlinarith [sq_nonneg e, mul_nonneg he he]
      _ ≤ _ := by nlinarith
  unfold binGrowth
  have h9 : 32 * e ≤ m * e := mul_le_mul_of_nonneg_right h32 he
  calc _ ≤ (1 + 7 * e) * (1 + 2 * (m * (7 * e))) := mul_le_mul h8 (by linarith) (by positivity) (by positivity)
    _ ≤ _ := by nlinarith

/-- C100c. Binary32, `2 · 2^K` real samples with `5 ≤ K ≤ 16`, tables built by rotation, `sin` and `cos` accurate to
`2⁻²³`: as long as the magnitudes sum to at most `2¹²³`, every bin of `rfft` on a new transformer is finite and within
`50 K 2^K 2⁻²³ (Σ |x_t| + 2^K 2⁻¹⁰⁰)` of the DFT. -/
theorem rfft_binary32 (hF : Ieee F N (1 / 2 ^ 24) (1 / 2 ^ 150) (2 ^ 128 - 2 ^ 104) (1 / 2 ^ 24) (1 / 2 ^ 23)) (cfg : Cfg)
    (hc : cfg.precomputed = false) (simd : Bool) (un : ℕ → Cx T) (K : ℕ) (hK : 5 ≤ K) (hK' : K ≤ 16) (x : List T)
    (hx : x.length = 2 * 2 ^ K) (hfin : ∀ c ∈ x, N.fin c) (hS : ∑ s ∈ range (2 * 2 ^ K), ‖N.rsig x s‖ ≤ 2 ^ 123)
    (out : List (Cx T)) (ho : out.length = 2 ^ K + 1) :
    ∃ p y, rfft simd (fft cfg) un Planner.new x out = .ok (p, y, .ok ()) ∧ y.length = 2 ^ K + 1 ∧ (∀ c ∈ y, N.cfin c) ∧
      ∀ k, k ≤ 2 ^ K → ‖N.csig y k - dft (2 * 2 ^ K) (N.rsig x) k‖ ≤
        50 * K * 2 ^ K / 2 ^ 23 * (∑ s ∈ range (2 * 2 ^ K), ‖N.rsig x s‖ + 2 ^ K / 2 ^ 100) := by
  have hp : isPow2 (2 ^ K) = true := isPow2_pow K
  have hK2 : (2 : ℝ) ^ K ≤ 65536 := by
    calc (2 : ℝ) ^ K ≤ 2 ^ 16 := pow_le_pow_right₀ (by norm_num) hK'
      _ = 65536 := by norm_num
  have h32 : 32 ≤ 2 ^ K := by
    calc 32 = 2 ^ 5 := by norm_num
      _ ≤ 2 ^ K := Nat.pow_le_pow_right (by norm_num) hK
  have hKr : (K : ℝ) ≤ 16 := by exact_mod_cast hK'
  have hK5 : (5 : ℝ) ≤ K := by exact_mod_cast hK
  have hKN : 2 ^ K ≤ 65536 := by
    calc 2 ^ K ≤ 2 ^ 16 := Nat.pow_le_pow_right (by norm_num) hK'
      _ = 65536 := by norm_num
  have hw : (workSize (2 ^ K) : ℝ) = 2 ^ K := by rw [workSize, if_pos hp]; push_cast; rfl
  have hpos : 0 < 2 ^ K := by positivity
  set D : ℝ := 1 / 2 ^ 100 with hDdef
  have hD0 : 0 < D := by rw [hDdef]; positivity
  have hU : effErr (1 / 2 ^ 24) (1 / 2 ^ 150) D = 1 / 2 ^ 24 + 1 / 2 ^ 49 := by
    rw [effErr, hDdef]; norm_num
  have hUle : effErr (1 / 2 ^ 24) (1 / 2 ^ 150) D ≤ 1 / 2 ^ 23 := by rw [hU]; norm_num
  have hU0 : 0 ≤ effErr (1 / 2 ^ 24) (1 / 2 ^ 150) D := by rw [hU]; norm_num
  have hwD : 2 * (workSize (2 ^ K) * D) ≤ 1 := by
    rw [hw, hDdef]
    calc _ ≤ 2 * (65536 * (1 / 2 ^ 100 : ℝ)) := by gcongr
      _ ≤ 1 := by norm_num
  have hU1 : effErr (1 / 2 ^ 24) (1 / 2 ^ 150) D ≤ 1 := hUle.trans (by norm_num)
  have h := ie_env hF hD0 hpos (m_D hpos hD0 hwD).1 hU1
  have hround := h.rounding
  generalize hUe : effErr (1 / 2 ^ 24) (1 / 2 ^ 150) D = e at *
  have hKK : (K : ℝ) * 2 ^ K ≤ 16 * 65536 := mul_le_mul hKr hK2 (by positivity) (by norm_num)
  have hKK0 : 0 ≤ (K : ℝ) * 2 ^ K := by positivity
  have hsm : (K : ℝ) * 2 ^ K * e ≤ 16 * 65536 * (1 / 2 ^ 23) := mul_le_mul hKK hUle hU0 (by norm_num)
  have hg := fftGrowth_rotation (F := realFlt true) hround (hUle.trans (by norm_num))
    (by rw [hU]; norm_num) cfg hc K hK (by
      rw [show 8 * (K : ℝ) * 2 ^ K * e = 8 * (K * 2 ^ K * e) by ring]
      norm_num at hsm ⊢; linarith)
  have hme : (2 : ℝ) ^ K * e ≤ 65536 * (1 / 2 ^ 23) := mul_le_mul hK2 hUle hU0 (by norm_num)
  have hb := binGrowth_le hU0 (by norm_num) (by norm_num) (hUle.trans (by norm_num)) (v := 1 / 2 ^ 24) (t := 1 / 2 ^ 23)
    (by rw [hU]; norm_num) (by rw [hU]; norm_num) (2 ^ K) h32 (by
      push_cast
      rw [show 7 * (2 : ℝ) ^ K * e = 7 * (2 ^ K * e) by ring]
      norm_num at hme ⊢; linarith)
  push_cast at hb
  have hg1 := ie_fftG h cfg (2 ^ K)
  have hb1 := (show 1 ≤ 1 + effErr (1 / 2 ^ 24) (1 / 2 ^ 150) D by linarith [h.U_nonneg]).trans (ie_binG1 h (2 ^ K))
  rw [hUe] at hg1 hb1
  generalize hGe : fftGrowth cfg e (1 / 2 ^ 24) (1 / 2 ^ 23) (2 ^ K) = G at *
  generalize hBe : binGrowth e (1 / 2 ^ 24) (1 / 2 ^ 23) (2 ^ K) = B at *
  have hg3 : G ≤ 3 := by
    have : 16 * (K : ℝ) * 2 ^ K * e = 16 * (K * 2 ^ K * e) := by ring
    norm_num at hsm
    linarith
  have hb2 : B ≤ 2 := by
    norm_num at hme
    linarith
  have hme0 : 0 ≤ (2 : ℝ) ^ K * e := by positivity
  have hGB : G * B - 1 ≤ 25 * K * 2 ^ K / 2 ^ 23 := by
    have e1 : G * B - 1 ≤ (G - 1) + 3 * (B - 1) := by nlinarith
    have e2 : 45 * ((2 : ℝ) ^ K * e) ≤ 9 * K * (2 ^ K * e) := mul_le_mul_of_nonneg_right (by linarith) hme0
    have e3 : 25 * (K : ℝ) * 2 ^ K * e ≤ 25 * K * 2 ^ K / 2 ^ 23 := by
      rw [div_eq_mul_one_div]
      exact mul_le_mul_of_nonneg_left hUle (by positivity)
    linarith
  have hS0 : 0 ≤ ∑ s ∈ range (2 * 2 ^ K), ‖N.rsig x s‖ := sum_nonneg fun _ _ => norm_nonneg _
  obtain ⟨p, y, r1, r2, r3, r4⟩ := rfft_ieee hF cfg simd un x (2 ^ K) hpos (hKN.trans (by norm_num)) hx hfin
    (Or.inr ⟨K, rfl⟩) Planner.new .new out ho D hD0 hwD (by rw [hUe]; exact hU1) (by
      rw [hUe, hGe, hBe, ieeeRoom, if_pos hp, mul_one]
      calc _ ≤ 3 * 2 * (4 * (20 + 2 ^ 123) : ℝ) :=
            mul_le_mul (mul_le_mul hg3 hb2 (by linarith) (by norm_num)) (by linarith) (by linarith) (by norm_num)
        _ ≤ _ := by norm_num)
  refine ⟨p, y, r1, r2, r3, ?_⟩
  intro k hk
  refine (r4 k hk).trans ?_
  rw [hUe, hGe, hBe, ieeeWeight, if_pos hp, one_mul, hw, hDdef, mul_one_div, ← mul_assoc]
  refine mul_le_mul_of_nonneg_right ?_ (by positivity)
  linarith [show 50 * (K : ℝ) * 2 ^ K / 2 ^ 23 = 25 * K * 2 ^ K / 2 ^ 23 * 2 by ring]

omit F in
/-- A concrete signal: 64 samples of value `2^100` in binary32. -/
example (fused fma simd : Bool) (un : ℕ → Cx (Option ℝ)) :
    let _ := binFlt 24 24 (-149) (2 ^ 128 - 2 ^ 104) fused fma
    ∃ p y, rfft (T := Option ℝ) simd (fft ⟨true, .f32, false, 4, false⟩) un Planner.new (List.replicate 64 (some (2 ^ 100)))
      (List.replicate 33 ⟨none, none⟩) = .ok (p, y, .ok ()) ∧ y.length = 33 ∧ ∀ c ∈ y, (binDen (-149)).cfin c := by
  let _ := binFlt 24 24 (-149) (2 ^ 128 - 2 ^ 104) fused fma
  obtain ⟨p, y, e, hl, hf, -⟩ := rfft_binary32 (binary32 fused fma) ⟨true, .f32, false, 4, false⟩ rfl simd un 5 le_rfl
    (by norm_num) (List.replicate 64 (some (2 ^ 100))) (by simp) (by
      intro c hc
      rw [List.eq_of_mem_replicate hc]
      refine ⟨_, rfl, ?_⟩
      have := onGrid_zpow (q := -149) (e := 100) (by norm_num) 1
      simpa using this) (by
      have : ∀ s ∈ range (2 * 2 ^ 5), ‖(binDen (-149)).rsig (List.replicate 64 (some (2 ^ 100 : ℝ))) s‖ = 2 ^ 100 := by
        intro s hs
        rw [mem_range] at hs
        rw [Denote.rsig, List.getElem?_replicate, if_pos (by omega)]
        have hb : (0 : ℝ) ≤ 2 ^ 100 := by positivity
        generalize (2 ^ 100 : ℝ) = b at *
        rw [Complex.norm_real, Real.norm_eq_abs]
        exact abs_of_nonneg hb
      rw [sum_congr rfl this]
      simp only [sum_const, card_range, nsmul_eq_mul]
      norm_num) (List.replicate 33 ⟨none, none⟩) (by simp)
  exact ⟨p, y, e, by simpa using hl, hf⟩

end Kofft.Props
