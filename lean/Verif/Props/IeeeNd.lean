import Verif.Props.IeeeRfft
import Verif.Props.NdFft
import Verif.Props.Istft
/-
Property C101: the short-time transform and the two- and three-dimensional transforms of finite data of moderate size stay
finite and accurate in arithmetic with a bounded exponent range.
-/
namespace Kofft.Props
open Spec Complex Finset

variable {T : Type} [F : Flt T] {N : Denote T} {u η Ω v t : ℝ}

private theorem res_ok'' (cfg : Cfg) {m : ℕ} (hm : 0 < m) (hn : cfg.std = true ∨ ∃ k, m = 2 ^ k) :
    fftRes cfg m = .ok () := by
  rcases hn with h | h
  · exact fftRes_std h hm
  · exact fftRes_pow2 cfg (isPow2_iff.mpr h)

/-! ### The short-time transform -/

/-- one windowed sample -/
private theorem ie_windowed {D : ℝ} (h : Env F N u η Ω v t D) (signal window : List T) (hs : ∀ c ∈ signal, N.fin c)
    (hw : ∀ c ∈ window, N.fin c) (start s : ℕ) (hs' : s < window.length)
    (hΩ : ‖N.rsig signal (start + s) * N.rsig window s‖ ≤ Ω) :
    IAp N D (1 + effErr u η D) ((Spec.segment signal window start).getD s Cx.zero) (N.rsig signal (start + s) * N.rsig window s)
      (‖N.rsig signal (start + s) * N.rsig window s‖ + D) := by
  have hU := h.U_nonneg
  have hD := h.D_pos
  rw [segment_tab, tab_getD hs']
  by_cases hi : start + s < signal.length
  · simp only [hi, if_true]
    have e1 : N.rsig signal (start + s) = (N.val (signal.getD (start + s) F.zero) : ℂ) := by
      simp [Denote.rsig, hi]
    have e2 : N.rsig window s = (N.val (window.getD s F.zero) : ℂ) := by
      simp [Denote.rsig, hs']
    have f1 : N.fin (signal.getD (start + s) F.zero) := by
      rw [show signal.getD (start + s) F.zero = signal[start + s] by simp [hi]]
      exact hs _ (List.getElem_mem hi)
    have f2 : N.fin (window.getD s F.zero) := by
      rw [show window.getD s F.zero = window[s] by simp [hs']]
      exact hw _ (List.getElem_mem hs')
    rw [e1, e2, ← Complex.ofReal_mul, Complex.norm_real, Real.norm_eq_abs] at hΩ ⊢
    clear e1 e2
    generalize signal.getD (start + s) F.zero = a at *
    generalize window.getD s F.zero = b at *
    obtain ⟨g1, g2⟩ := h.mul a b f1 f2 hΩ
    have r := RAp.step h (g := 1) (c := F.mul a b) (e := N.val a * N.val b) (z := N.val a * N.val b)
      (A := |N.val a * N.val b| + D) le_rfl (by simp) (by linarith) (by linarith [abs_nonneg (N.val a * N.val b)]) g1
      (by linarith [h.eta_nonneg])
    rw [one_mul] at r
    refine ⟨⟨r.fin, h.zero.1⟩, r.one, ?_, ?_, r.floor⟩
    · have : N.cval ⟨F.mul a b, F.zero⟩ - ((N.val a * N.val b : ℝ) : ℂ) = ((N.val (F.mul a b) - N.val a * N.val b : ℝ) : ℂ) := by
        apply Complex.ext <;> simp [h.zero.2]
      show ‖N.cval ⟨F.mul a b, F.zero⟩ - _‖ ≤ _
      rw [this, Complex.norm_real, Real.norm_eq_abs]
      exact r.err
    · rw [Complex.norm_real, Real.norm_eq_abs]; linarith
  · simp only [hi, if_false]
    have e1 : N.rsig signal (start + s) = 0 := by
      simp [Denote.rsig, List.getElem?_eq_none (Nat.le_of_not_lt hi)]
    rw [e1, zero_mul, norm_zero, zero_add]
    exact IAp.zero h (by linarith) le_rfl

/-- C101a. `stft` of a finite signal with a finite window, in arithmetic with numbers up to `Ω`, on a transformer used
before only with transforms no larger: the call succeeds; every frame whose windowed samples leave room below `Ω` is
finite, and each of its bins is within a relative error, plus `D` per sample, of
`Σ_t signal[f·hop+t] · window[t] · exp(-2πi k t / n)`. -/
theorem stft_ieee (hF : Ieee F N u η Ω v t) (cfg : Cfg) (p : Planner T) (signal window : List T)
    (hsf : ∀ c ∈ signal, N.fin c) (hwf : ∀ c ∈ window, N.fin c)
    (hop : ℕ) (output : List (List (Cx T))) (hh : 0 < hop) (ho : signal.length ≤ output.length * hop)
    (hw : 0 < window.length) (hw31 : window.length ≤ 2 ^ 31) (hn : cfg.std = true ∨ ∃ k, window.length = 2 ^ k)
    (hp : ReachVia cfg (fun m => workSize m ≤ workSize window.length) p)
    (D : ℝ) (hD0 : 0 < D) (hD : workSize window.length * D ≤ 1) (hU : effErr u η D ≤ 1) :
    ∃ p' o, stft (fft cfg) p signal window hop output = .ok (p', o, .ok ()) ∧ o.length = output.length ∧
      ∀ f, f < output.length → (o.getD f []).length = window.length ∧
        let S := ∑ s ∈ range window.length, ‖N.rsig signal (f * hop + s) * N.rsig window s‖
        ((1 + effErr u η D) * fftGrowth cfg (effErr u η D) v t window.length *
          (ieeeRoom window.length * (20 + S)) ≤ Ω →
        (∀ c ∈ o.getD f [], N.cfin c) ∧
        ∀ k, k < window.length → ‖N.csig (o.getD f []) k -
            ∑ s ∈ range window.length, N.rsig signal (f * hop + s) * N.rsig window s * W window.length (k * s)‖ ≤
          ((1 + effErr u η D) * fftGrowth cfg (effErr u η D) v t window.length - 1) *
            (ieeeWeight window.length * (S + workSize window.length * D))) := by
  have h := ie_env hF hD0 hw hD hU
  have hr := res_ok'' cfg hw hn
  obtain ⟨p', e, -⟩ := runAll_fft cfg window.length hr (segments signal window hop output.length) p
    (segments_mem _ _ _ _) hp
  refine ⟨p', (segments signal window hop output.length).map (freshOut cfg), ?_, by simp [segments_length], ?_⟩
  · rw [stft_transforms_segments _ _ _ _ _ _ hh ho, e]
    simp [segments_length]
  intro f hf
  have : ((segments signal window hop output.length).map (freshOut cfg)).getD f [] =
      freshOut cfg (Spec.segment signal window (f * hop)) := by
    simp [segments, List.getD_eq_getElem?_getD, hf]
  rw [this]
  have hl : (Spec.segment signal window (f * hop)).length = window.length := by simp [Spec.segment]
  have hl' : (freshOut cfg (Spec.segment signal window (f * hop))).length = window.length := by
    obtain ⟨-, -, -, h4, -⟩ := (fft_opOk cfg).run Planner.new (Spec.segment signal window (f * hop)) (inv_new _)
    rw [fftBuf_fresh cfg _ _ (inv_new _) (by rw [hl]; exact hr) (compat_new _ _), hl] at h4
    exact h4
  refine ⟨hl', ?_⟩
  intro S hΩ
  have hUn := h.U_nonneg
  have hG := ie_fftG h cfg window.length
  have hR := ieeeRoom_ge hw
  have hS0 : 0 ≤ S := sum_nonneg fun _ _ => norm_nonneg _
  obtain ⟨r1, r2⟩ := ie_room_of (one_le_mul_of_one_le_of_one_le (by linarith : 1 ≤ 1 + effErr u η D) hG) hR hS0 hD hΩ
  have r1' : fftGrowth cfg (effErr u η D) v t window.length * (ieeeRoom window.length * 19) ≤ Ω := by
    refine le_trans (mul_le_mul_of_nonneg_right ?_ (by linarith)) r1
    exact le_mul_of_one_le_left (by linarith) (by linarith)
  have hSΩ : S ≤ Ω := by
    refine le_trans ?_ hΩ
    have a1 : 1 ≤ (1 + effErr u η D) * fftGrowth cfg (effErr u η D) v t window.length :=
      one_le_mul_of_one_le_of_one_le (by linarith) hG
    have a2 : S ≤ ieeeRoom window.length * (20 + S) := by nlinarith
    nlinarith
  have key : ∀ k, k < window.length → _ := fun k hk =>
    ie_freshOut h cfg (Spec.segment signal window (f * hop)) (by omega) (by omega)
      (fun s => N.rsig signal (f * hop + s) * N.rsig window s)
      (fun s => ‖N.rsig signal (f * hop + s) * N.rsig window s‖ + D) (1 + effErr u η D)
      (fun i hi => ie_windowed h signal window hsf hwf (f * hop) i (by omega)
        ((single_le_sum (f := fun s => ‖N.rsig signal (f * hop + s) * N.rsig window s‖) (fun _ _ => norm_nonneg _)
          (mem_range.mpr (by omega : i < window.length))).trans hSΩ))
      (by rw [hl]; exact hD) (by rw [hl]; exact r1') (by rw [hl, ie_sum]; exact r2) k (by omega)
  refine ⟨all_fin _ fun k hk => (key k (by omega)).fin, ?_⟩
  intro k hk
  have := (key k hk).err
  rw [hl, ie_sum] at this
  rw [csig_get _ _ (by omega)]
  exact this

/-! ### Several dimensions -/

private theorem line_ie {D : ℝ} (h : Env F N u η Ω v t D) (cfg : Cfg) (x : List (Cx T)) (b s n : ℕ) (hn : 0 < n)
    (hn31 : n ≤ 2 ^ 31) {g V : ℝ} (X : ℕ → ℂ) (A : ℕ → ℝ)
    (hx : ∀ i, i < n → IAp N D g (x.getD (b + i * s) Cx.zero) (X i) (A i)) (hD : workSize n * D ≤ 1)
    (hV : ∑ i ∈ range n, A i + (workSize n - n) * D ≤ V)
    (hΩ1 : fftGrowth cfg (effErr u η D) v t n * (ieeeRoom n * 19) ≤ Ω) (hΩ2 : g * fftGrowth cfg (effErr u η D) v t n * (ieeeRoom n * V) ≤ Ω)
    (i : ℕ) (hi : i < n) :
    IAp N D (g * fftGrowth cfg (effErr u η D) v t n) ((freshOut cfg (lineOf x b s n)).getD i Cx.zero)
      (∑ j ∈ range n, X j * W n (i * j)) (ieeeWeight n * V) := by
  have hl : (lineOf x b s n).length = n := by simp [lineOf]
  have hg := (hx i hi).one
  have hG := ie_fftG h cfg n
  have hR := ieeeRoom_ge hn
  have hW := ieeeWeight_ge hn
  have := ie_freshOut h cfg (lineOf x b s n) (by omega) (by omega) X A g (by
    intro j hj
    rw [hl] at hj
    rw [lineOf, tab_getD hj]
    exact hx j hj) (by rw [hl]; exact hD) (by rw [hl]; exact hΩ1) (by
    rw [hl]
    refine le_trans (mul_le_mul_of_nonneg_left (mul_le_mul_of_nonneg_left hV (by linarith)) ?_) hΩ2
    exact mul_nonneg (by linarith) (by linarith)) i (by omega)
  rw [hl] at this
  exact this.weight (mul_le_mul_of_nonneg_left hV (by linarith))

omit F in
/-- the weights handed from one pass to the next -/
private theorem pass_sum (s : ℕ → ℝ) (n w : ℕ) (hnw : n ≤ w) {K w' D : ℝ} (hK : 1 ≤ K) (hw' : 1 ≤ w') (hD : 0 ≤ D) :
    ∑ i ∈ range n, K * (s i + w' * D) + (w - n) * D ≤ K * (∑ i ∈ range n, s i + w * w' * D) := by
  rw [← mul_sum, sum_add_distrib, sum_const, card_range, nsmul_eq_mul]
  have h1 : (0 : ℝ) ≤ w - n := by
    have : (n : ℝ) ≤ w := by exact_mod_cast hnw
    linarith
  have h2 : 1 ≤ K * w' := one_le_mul_of_one_le_of_one_le hK hw'
  have h3 : (w - n : ℝ) * D ≤ K * w' * ((w - n) * D) := le_mul_of_one_le_left (mul_nonneg h1 hD) h2
  linarith [show K * (∑ i ∈ range n, s i + ↑w * w' * D) = K * (∑ i ∈ range n, s i + ↑n * (w' * D)) + K * w' * ((↑w - ↑n) * D)
    by ring]

/-- C101b. `fft2d` of finite data, in arithmetic with numbers up to `Ω` (under the size conditions of C29): with room
below `Ω` every bin is finite, and within a relative error, plus `D` per sample, of the two-dimensional DFT. -/
theorem fft2d_ieee (hF : Ieee F N u η Ω v t) (cfg : Cfg) (p : Planner T) (data : List (Cx T))
    (hfin : ∀ c ∈ data, N.cfin c)
    (rows cols : ℕ) (sc : List (Cx T)) (hl : data.length = rows * cols) (hr : 0 < rows) (hc : 0 < cols)
    (hr31 : rows ≤ 2 ^ 31) (hc31 : cols ≤ 2 ^ 31) (hs : sc.length = rows)
    (hp : ReachVia cfg (fun m => workSize m ≤ workSize cols) p)
    (hn : cfg.std = true ∨ ((∃ k, rows = 2 ^ k) ∧ ∃ k, cols = 2 ^ k))
    (hsz : Unaffected cfg (workSize cols) rows)
    (D : ℝ) (hD0 : 0 < D) (hD : workSize rows * workSize cols * D ≤ 1) (hU : effErr u η D ≤ 1)
    (hΩ : fftGrowth cfg (effErr u η D) v t cols * fftGrowth cfg (effErr u η D) v t rows *
      (ieeeRoom rows * ieeeRoom cols * (20 + ∑ r ∈ range rows, ∑ c ∈ range cols, ‖N.csig data (r * cols + c)‖)) ≤ Ω) :
    ∃ p' y sc', fft2d cfg p data rows cols sc = .ok (p', y, sc', .ok ()) ∧ y.length = rows * cols ∧
      (∀ c ∈ y, N.cfin c) ∧
      ∀ r c, r < rows → c < cols → ‖N.csig y (r * cols + c) - dft2 rows cols (N.csig data) r c‖ ≤
        (fftGrowth cfg (effErr u η D) v t cols * fftGrowth cfg (effErr u η D) v t rows - 1) *
          (ieeeWeight rows * ieeeWeight cols *
            (∑ r' ∈ range rows, ∑ c' ∈ range cols, ‖N.csig data (r' * cols + c')‖ +
              workSize rows * workSize cols * D)) := by
  have hw1 : (1 : ℝ) ≤ workSize rows := by exact_mod_cast hr.trans_le (workSize_ge rows)
  have hw2 : (1 : ℝ) ≤ workSize cols := by exact_mod_cast hc.trans_le (workSize_ge cols)
  have hDr : workSize rows * D ≤ 1 := by
    refine le_trans ?_ hD
    rw [show (workSize rows : ℝ) * workSize cols * D = workSize cols * (workSize rows * D) by ring]
    exact le_mul_of_one_le_left (by positivity) hw2
  have hDc : workSize cols * D ≤ 1 := by
    refine le_trans ?_ hD
    rw [mul_assoc]
    exact le_mul_of_one_le_left (by positivity) hw1
  have h := ie_env hF hD0 hr hDr hU
  have hrr : fftRes cfg rows = .ok () := res_ok'' cfg hr (by tauto)
  have hrc : fftRes cfg cols = .ok () := res_ok'' cfg hc (by tauto)
  obtain ⟨s1, s2, e, b1, b2, b3, b4, -, b6⟩ := fft2d_run cfg p (reachVia_inv hp) data rows cols sc hl hr hc hs
  rw [if_pos hrc, hrr] at e
  have hb := reachVia_invB (B := need cols) (fun m hm => hm) hp
  obtain ⟨c1, c2⟩ := b6 (need cols) le_rfl hb.2 (Or.inl le_rfl) hrc
  have hsafe : SafeAt cfg (max (need cols) (need rows)) rows := by
    rcases safeAt_of hsz with h | h
    · exact Or.inl (max_le h le_rfl)
    · exact Or.inr h
  have hin : ∀ r' c', r' < rows → c' < cols → r' * cols + c' < data.length := by
    intro r' c' h1 h2
    rw [hl, Nat.add_comm]; exact line_lt h2 h1
  have hG1 := ie_fftG h cfg cols
  have hG2 := ie_fftG h cfg rows
  have hR1 := ieeeRoom_ge hc
  have hR2 := ieeeRoom_ge hr
  have hW1 := ieeeWeight_ge hc
  have hWR1 := ieeeWeight_le_room hc
  set S : ℝ := ∑ r ∈ range rows, ∑ c ∈ range cols, ‖N.csig data (r * cols + c)‖ with hSd
  have hrow : ∀ r', r' < rows → ∑ c' ∈ range cols, ‖N.csig data (r' * cols + c')‖ ≤ S := fun r' hr' =>
    single_le_sum (f := fun r => ∑ c ∈ range cols, ‖N.csig data (r * cols + c)‖)
      (fun _ _ => sum_nonneg fun _ _ => norm_nonneg _) (mem_range.mpr hr')
  have hS0 : 0 ≤ S := sum_nonneg fun _ _ => sum_nonneg fun _ _ => norm_nonneg _
  generalize hg1 : fftGrowth cfg (effErr u η D) v t cols = G1 at *
  generalize hg2 : fftGrowth cfg (effErr u η D) v t rows = G2 at *
  have hGG : 1 ≤ G1 * G2 := one_le_mul_of_one_le_of_one_le hG1 hG2
  have hRR : 1 ≤ ieeeRoom rows * ieeeRoom cols := one_le_mul_of_one_le_of_one_le hR2 hR1
  have hle : ∀ {a b : ℝ}, 0 ≤ b → a ≤ G1 * G2 → b ≤ ieeeRoom rows * ieeeRoom cols * (20 + S) → a * b ≤ Ω := by
    intro a b h0 h1 h2
    exact (mul_le_mul h1 h2 h0 (by linarith)).trans hΩ
  have hG1le : G1 ≤ G1 * G2 := le_mul_of_one_le_right (by linarith) hG2
  have hG2le : G2 ≤ G1 * G2 := le_mul_of_one_le_left (by linarith) hG1
  have hR1le : ieeeRoom cols ≤ ieeeRoom rows * ieeeRoom cols := le_mul_of_one_le_left (by linarith) hR2
  have hR2le : ieeeRoom rows ≤ ieeeRoom rows * ieeeRoom cols := le_mul_of_one_le_right (by linarith) hR1
  have hRW : ieeeRoom rows * ieeeWeight cols ≤ ieeeRoom rows * ieeeRoom cols := mul_le_mul_of_nonneg_left hWR1 (by linarith)
  have key : ∀ r c, r < rows → c < cols → IAp N D (G1 * G2) (s2.data.getD (r * cols + c) Cx.zero)
      (dft2 rows cols (N.csig data) r c)
      (ieeeWeight rows * (ieeeWeight cols * (S + workSize rows * workSize cols * D))) := by
    intro r c hr' hc'
    have c3 := c2 (max (need cols) (need rows)) (le_max_left _ _) (le_max_right _ _) hsafe hrr c r hc' hr'
    have r1 : ∀ r', r' < rows → IAp N D G1 (s1.data.getD (c + r' * cols) Cx.zero)
        (∑ c' ∈ range cols, N.csig data (r' * cols + c') * W cols (c * c'))
        (ieeeWeight cols * (∑ c' ∈ range cols, ‖N.csig data (r' * cols + c')‖ + workSize cols * D)) := by
      intro r' hr'
      rw [Nat.add_comm c, c1 r' c hr' hc']
      have hrw := hrow r' hr'
      have := line_ie h cfg data (r' * cols) 1 cols hc hc31 (g := 1) (fun c' => N.csig data (r' * cols + c'))
        (fun c' => ‖N.csig data (r' * cols + c')‖ + D)
        (fun i hi => by rw [Nat.mul_one]; exact ie_input hD0 data hfin _ (hin r' i hr' hi)) hDc
        (le_of_eq (ie_sum _ _ _ _)) (by
          rw [hg1]
          exact hle (by positivity) hG1le (mul_le_mul hR1le (by linarith) (by norm_num) (by linarith))) (by
          rw [hg1, one_mul]
          refine hle ?_ hG1le (mul_le_mul hR1le (by linarith) ?_ (by linarith)) <;>
          positivity) c hc'
      rw [hg1, one_mul] at this
      exact this
    have hps := pass_sum (fun r' => ∑ c' ∈ range cols, ‖N.csig data (r' * cols + c')‖) rows (workSize rows)
      (workSize_ge rows) (K := ieeeWeight cols) (w' := workSize cols) (D := D) hW1 hw2 hD0.le
    have r2 := line_ie h cfg s1.data c cols rows hr hr31 _ _ r1 hDr hps (by
        rw [hg2]
        exact hle (by positivity) hG2le (mul_le_mul hR2le (by linarith) (by norm_num) (by linarith))) (by
        rw [hg2]
        rw [← mul_assoc (ieeeRoom rows)]
        refine hle ?_ le_rfl (mul_le_mul hRW (by linarith) ?_ (by linarith)) <;>
        positivity) r hr'
    rw [← c3, Nat.add_comm c, hg2] at r2
    have e1 : (∑ r' ∈ range rows, (∑ c' ∈ range cols, N.csig data (r' * cols + c') * W cols (c * c')) * W rows (r * r')) =
        dft2 rows cols (N.csig data) r c := by
      rw [dft2]
      apply sum_congr rfl
      intro r' _
      rw [sum_mul]
      exact sum_congr rfl fun c' _ => by ring
    rw [e1] at r2
    exact r2
  refine ⟨_, _, _, e, b2.trans hl, ?_, ?_⟩
  · refine all_fin _ fun k hk => ?_
    rw [b2, hl] at hk
    have h1 : k / cols < rows := Nat.div_lt_of_lt_mul (by rw [Nat.mul_comm]; exact hk)
    have := key (k / cols) (k % cols) h1 (Nat.mod_lt _ hc)
    rw [Nat.mul_comm, Nat.div_add_mod] at this
    exact this.fin
  · intro r c hr' hc'
    rw [csig_get _ _ (by rw [b2]; exact hin r c hr' hc')]
    have := (key r c hr' hc').err
    rw [← mul_assoc (ieeeWeight rows)] at this
    exact this

/-- C101c. `fft3d` of finite data (under the size conditions of C30). -/
theorem fft3d_ieee (hF : Ieee F N u η Ω v t) (cfg : Cfg) (p : Planner T) (data : List (Cx T))
    (hfin : ∀ c ∈ data, N.cfin c)
    (A B C : ℕ) (tube row col : List (Cx T)) (hl : data.length = A * B * C) (hA : 0 < A) (hB : 0 < B)
    (hC : 0 < C) (hA31 : A ≤ 2 ^ 31) (hB31 : B ≤ 2 ^ 31) (hC31 : C ≤ 2 ^ 31)
    (ht : tube.length = A) (hr : row.length = B) (hc : col.length = C)
    (hp : ReachVia cfg (fun m => workSize m ≤ workSize A) p)
    (hn : cfg.std = true ∨ ((∃ k, A = 2 ^ k) ∧ (∃ k, B = 2 ^ k) ∧ ∃ k, C = 2 ^ k))
    (h1 : Unaffected cfg (workSize A) B) (h2 : Unaffected cfg (max (workSize A) (workSize B)) C)
    (D : ℝ) (hD0 : 0 < D) (hD : workSize A * workSize B * workSize C * D ≤ 1) (hU : effErr u η D ≤ 1)
    (hΩ : fftGrowth cfg (effErr u η D) v t A * fftGrowth cfg (effErr u η D) v t B *
        fftGrowth cfg (effErr u η D) v t C *
      (ieeeRoom A * ieeeRoom B * ieeeRoom C *
        (20 + ∑ d ∈ range A, ∑ r ∈ range B, ∑ c ∈ range C, ‖N.csig data ((d * B + r) * C + c)‖)) ≤ Ω) :
    ∃ p' y t' r' c', fft3d cfg p data A B C tube row col = .ok (p', y, t', r', c', .ok ()) ∧ y.length = A * B * C ∧
      (∀ c ∈ y, N.cfin c) ∧
      ∀ d r c, d < A → r < B → c < C → ‖N.csig y ((d * B + r) * C + c) - dft3 A B C (N.csig data) d r c‖ ≤
        (fftGrowth cfg (effErr u η D) v t A * fftGrowth cfg (effErr u η D) v t B *
            fftGrowth cfg (effErr u η D) v t C - 1) *
          (ieeeWeight A * ieeeWeight B * ieeeWeight C *
            (∑ d' ∈ range A, ∑ r' ∈ range B, ∑ c' ∈ range C, ‖N.csig data ((d' * B + r') * C + c')‖ +
              workSize A * workSize B * workSize C * D)) := by
  have hw1 : (1 : ℝ) ≤ workSize A := by exact_mod_cast hA.trans_le (workSize_ge A)
  have hw2 : (1 : ℝ) ≤ workSize B := by exact_mod_cast hB.trans_le (workSize_ge B)
  have hw3 : (1 : ℝ) ≤ workSize C := by exact_mod_cast hC.trans_le (workSize_ge C)
  have hw12 : (1 : ℝ) ≤ workSize A * workSize B := one_le_mul_of_one_le_of_one_le hw1 hw2
  have hD12 : workSize A * workSize B * D ≤ 1 := by
    refine le_trans ?_ hD
    rw [show (workSize A : ℝ) * workSize B * workSize C * D = workSize C * (workSize A * workSize B * D) by ring]
    exact le_mul_of_one_le_left (by positivity) hw3
  have hD3 : workSize C * D ≤ 1 := by
    refine le_trans ?_ hD
    rw [mul_assoc]
    exact le_mul_of_one_le_left (by positivity) hw12
  have hD1 : workSize A * D ≤ 1 := by
    refine le_trans ?_ hD12
    rw [show (workSize A : ℝ) * workSize B * D = workSize B * (workSize A * D) by ring]
    exact le_mul_of_one_le_left (by positivity) hw2
  have hD2 : workSize B * D ≤ 1 := by
    refine le_trans ?_ hD12
    rw [mul_assoc]
    exact le_mul_of_one_le_left (by positivity) hw1
  have h := ie_env hF hD0 hA hD1 hU
  have e1 : fftRes cfg A = .ok () := res_ok'' cfg hA (by tauto)
  have e2 : fftRes cfg B = .ok () := res_ok'' cfg hB (by tauto)
  have e3 : fftRes cfg C = .ok () := res_ok'' cfg hC (by tauto)
  obtain ⟨s1, s2, s3, t', r', e, b1, b2, b3, b4, -, b6⟩ := fft3d_run cfg p (reachVia_inv hp) data A B C
    tube row col hl hA hB hC ht hr hc
  rw [fst3, e1, e2, e3, if_pos rfl, if_pos rfl] at e
  have hb := reachVia_invB (B := need A) (fun m hm => hm) hp
  have k1 : SafeAt cfg (max (need A) (need B)) B := by
    rcases safeAt_of h1 with h | h
    · exact Or.inl (max_le h le_rfl)
    · exact Or.inr h
  have k2 : SafeAt cfg (max (max (need A) (need B)) (need C)) C := by
    rcases safeAt_of h2 with h | h
    · exact Or.inl (max_le h le_rfl)
    · exact Or.inr h
  obtain ⟨c1, c2, c3⟩ := b6 (need A) (max (need A) (need B)) (max (max (need A) (need B)) (need C)) hb.2 le_rfl
    (Or.inl le_rfl) e1 (le_max_left _ _) (le_max_right _ _) k1 e2 (le_max_left _ _) (le_max_right _ _) k2 e3
  have hq : ∀ d r, d < A → r < B → d * B + r < A * B := by
    intro d r hd hr; rw [Nat.add_comm]; exact line_lt hr hd
  have hin : ∀ d' r' c', d' < A → r' < B → c' < C → (d' * B + r') * C + c' < data.length := by
    intro d' r' c' q1 q2 q3
    rw [hl, Nat.add_comm]; exact line_lt q3 (hq d' r' q1 q2)
  have hG1 := ie_fftG h cfg A
  have hG2 := ie_fftG h cfg B
  have hG3 := ie_fftG h cfg C
  have hR1 := ieeeRoom_ge hA
  have hR2 := ieeeRoom_ge hB
  have hR3 := ieeeRoom_ge hC
  have hW1 := ieeeWeight_ge hA
  have hW2 := ieeeWeight_ge hB
  have hWR1 := ieeeWeight_le_room hA
  have hWR2 := ieeeWeight_le_room hB
  set X : ℕ → ℕ → ℕ → ℝ := fun d r c => ‖N.csig data ((d * B + r) * C + c)‖ with hX
  have hX0 : ∀ d r c, 0 ≤ X d r c := fun _ _ _ => norm_nonneg _
  set S : ℝ := ∑ d ∈ range A, ∑ r ∈ range B, ∑ c ∈ range C, X d r c with hSd
  have hS0 : 0 ≤ S := sum_nonneg fun _ _ => sum_nonneg fun _ _ => sum_nonneg fun _ _ => hX0 _ _ _
  have hswap : S = ∑ c ∈ range C, ∑ r ∈ range B, ∑ d ∈ range A, X d r c := by
    rw [hSd, sum_comm, sum_congr rfl (fun r' _ => sum_comm), sum_comm]
  have hS2 : ∀ c', c' < C → ∑ r ∈ range B, ∑ d ∈ range A, X d r c' ≤ S := fun c' hc' => by
    rw [hswap]
    exact single_le_sum (f := fun c => ∑ r ∈ range B, ∑ d ∈ range A, X d r c)
      (fun _ _ => sum_nonneg fun _ _ => sum_nonneg fun _ _ => hX0 _ _ _) (mem_range.mpr hc')
  have hS1 : ∀ r' c', r' < B → c' < C → ∑ d ∈ range A, X d r' c' ≤ S := fun r' c' hr' hc' =>
    (single_le_sum (f := fun r => ∑ d ∈ range A, X d r c') (fun _ _ => sum_nonneg fun _ _ => hX0 _ _ _)
      (mem_range.mpr hr')).trans (hS2 c' hc')
  generalize hg1 : fftGrowth cfg (effErr u η D) v t A = G1 at *
  generalize hg2 : fftGrowth cfg (effErr u η D) v t B = G2 at *
  generalize hg3 : fftGrowth cfg (effErr u η D) v t C = G3 at *
  generalize hr1 : ieeeRoom A = R1 at *
  generalize hr2 : ieeeRoom B = R2 at *
  generalize hr3 : ieeeRoom C = R3 at *
  generalize hv1 : ieeeWeight A = V1 at *
  generalize hv2 : ieeeWeight B = V2 at *
  have hG12 : 1 ≤ G1 * G2 := one_le_mul_of_one_le_of_one_le hG1 hG2
  have hGG : 1 ≤ G1 * G2 * G3 := one_le_mul_of_one_le_of_one_le hG12 hG3
  have hR12 : 1 ≤ R1 * R2 := one_le_mul_of_one_le_of_one_le hR1 hR2
  have hRR : 1 ≤ R1 * R2 * R3 := one_le_mul_of_one_le_of_one_le hR12 hR3
  have hle : ∀ {a b : ℝ}, 0 ≤ b → a ≤ G1 * G2 * G3 → b ≤ R1 * R2 * R3 * (20 + S) → a * b ≤ Ω := by
    intro a b h0 h1 h2
    exact (mul_le_mul h1 h2 h0 (by linarith)).trans hΩ
  have q12 : G1 * G2 ≤ G1 * G2 * G3 := le_mul_of_one_le_right (by linarith) hG3
  have q1 : G1 ≤ G1 * G2 * G3 := (le_mul_of_one_le_right (by linarith) hG2).trans q12
  have q2 : G2 ≤ G1 * G2 * G3 := (le_mul_of_one_le_left (by linarith) hG1).trans q12
  have q3 : G3 ≤ G1 * G2 * G3 := le_mul_of_one_le_left (by linarith) hG12
  have z12 : R1 * R2 ≤ R1 * R2 * R3 := le_mul_of_one_le_right (by linarith) hR3
  have z1 : R1 ≤ R1 * R2 * R3 := (le_mul_of_one_le_right (by linarith) hR2).trans z12
  have z2 : R2 ≤ R1 * R2 * R3 := (le_mul_of_one_le_left (by linarith) hR1).trans z12
  have z3 : R3 ≤ R1 * R2 * R3 := le_mul_of_one_le_left (by linarith) hR12
  have y2 : R2 * V1 ≤ R1 * R2 * R3 := by
    refine le_trans ?_ z12
    rw [mul_comm R1]; exact mul_le_mul_of_nonneg_left hWR1 (by linarith)
  have y3 : R3 * (V2 * V1) ≤ R1 * R2 * R3 := by
    rw [mul_comm _ R3, mul_comm R1]
    exact mul_le_mul_of_nonneg_left (mul_le_mul hWR2 hWR1 (by linarith) (by linarith)) (by linarith)
  have key : ∀ d r c, d < A → r < B → c < C → IAp N D (G1 * G2 * G3) (s3.data.getD ((d * B + r) * C + c) Cx.zero)
      (dft3 A B C (N.csig data) d r c)
      (ieeeWeight C * (V2 * V1 * (S + workSize C * (workSize B * workSize A) * D))) := by
    intro d r c hd hr' hc'
    have f1 : ∀ r' c', r' < B → c' < C → IAp N D G1
        (s1.data.getD ((d * B + r') * C + c') Cx.zero)
        (∑ d' ∈ range A, N.csig data ((d' * B + r') * C + c') * W A (d * d'))
        (V1 * (∑ d' ∈ range A, X d' r' c' + workSize A * D)) := by
      intro r' c' hr' hc'
      have hx1 := hS1 r' c' hr' hc'
      have hx0 : 0 ≤ ∑ d' ∈ range A, X d' r' c' := sum_nonneg fun _ _ => hX0 _ _ _
      rw [show (d * B + r') * C + c' = (c' + r' * C) + d * (B * C) by ring, c1 _ d (line_lt hc' hr') hd]
      have := line_ie h cfg data (c' + r' * C) (B * C) A hA hA31 (g := 1) (fun d' => N.csig data ((d' * B + r') * C + c'))
        (fun d' => X d' r' c' + D)
        (fun i hi => by
          rw [show c' + r' * C + i * (B * C) = (i * B + r') * C + c' by ring]
          exact ie_input hD0 data hfin _ (hin i r' c' hi hr' hc')) hD1
        (le_of_eq (ie_sum _ _ _ _)) (by
          rw [hg1, hr1]
          exact hle (by linarith) q1 (mul_le_mul z1 (by linarith) (by norm_num) (by linarith))) (by
          rw [hg1, hr1, one_mul]
          refine hle ?_ q1 (mul_le_mul z1 (by linarith) ?_ (by linarith)) <;>
          positivity) d hd
      rw [hg1, hv1, one_mul] at this
      exact this
    have f2 : ∀ c', c' < C → IAp N D (G1 * G2)
        (s2.data.getD ((d * B + r) * C + c') Cx.zero)
        (∑ r' ∈ range B, (∑ d' ∈ range A, N.csig data ((d' * B + r') * C + c') * W A (d * d')) * W B (r * r'))
        (V2 * V1 * (∑ r' ∈ range B, ∑ d' ∈ range A, X d' r' c' + workSize B * workSize A * D)) := by
      intro c' hc'
      have hx1 := hS2 c' hc'
      have hx0 : 0 ≤ ∑ r' ∈ range B, ∑ d' ∈ range A, X d' r' c' := sum_nonneg fun _ _ => sum_nonneg fun _ _ => hX0 _ _ _
      rw [show (d * B + r) * C + c' = d * B * C + c' + r * C by ring, c2 d c' r hd hc' hr']
      have hps := pass_sum (fun r' => ∑ d' ∈ range A, X d' r' c') B (workSize B)
        (workSize_ge B) (K := V1) (w' := workSize A) (D := D) hW1 hw1 hD0.le
      have := line_ie h cfg s1.data (d * B * C + c') C B hB hB31 _ _ (fun i hi => by
        rw [show d * B * C + c' + i * C = (d * B + i) * C + c' by ring]
        exact f1 i c' hi hc') hD2 hps (by
          rw [hg2, hr2]
          exact hle (by linarith) q2 (mul_le_mul z2 (by linarith) (by norm_num) (by linarith))) (by
          rw [hg2, hr2, ← mul_assoc R2]
          refine hle ?_ q12 (mul_le_mul y2 (by linarith) ?_ (by linarith)) <;>
          positivity) r hr'
      rw [hg2, hv2, ← mul_assoc V2] at this
      exact this
    have hps := pass_sum (fun c' => ∑ r' ∈ range B, ∑ d' ∈ range A, X d' r' c') C (workSize C)
      (workSize_ge C) (K := V2 * V1) (w' := workSize B * workSize A) (D := D) (one_le_mul_of_one_le_of_one_le hW2 hW1)
      (one_le_mul_of_one_le_of_one_le hw2 hw1) hD0.le
    rw [← hswap] at hps
    have f3 := line_ie h cfg s2.data ((d * B + r) * C) 1 C hC hC31 _ _ (fun i hi => by
        rw [Nat.mul_one]; exact f2 i hi) hD3 hps (by
          rw [hg3, hr3]
          exact hle (by linarith) q3 (mul_le_mul z3 (by linarith) (by norm_num) (by linarith))) (by
          rw [hg3, hr3, ← mul_assoc R3]
          refine hle ?_ le_rfl (mul_le_mul y3 ?_ ?_ (by linarith))
          · positivity
          · linarith [show (workSize C : ℝ) * (workSize B * workSize A) * D = workSize A * workSize B * workSize C * D by ring]
          · positivity) c hc'
    rw [← c3 _ _ (hq d r hd hr') hc', hg3] at f3
    have z1 : (∑ c' ∈ range C, (∑ r' ∈ range B, (∑ d' ∈ range A, N.csig data ((d' * B + r') * C + c') * W A (d * d')) *
        W B (r * r')) * W C (c * c')) = dft3 A B C (N.csig data) d r c := by
      rw [dft3]
      simp only [sum_mul]
      rw [sum_comm, sum_congr rfl (fun r' _ => sum_comm), sum_comm]
    rw [z1] at f3
    exact f3
  refine ⟨_, _, _, _, _, e, b2.trans hl, ?_, ?_⟩
  · refine all_fin _ fun k hk => ?_
    rw [b2, hl] at hk
    have g1 : k / C < A * B := Nat.div_lt_of_lt_mul (by rw [Nat.mul_comm]; exact hk)
    have g2 : k / C / B < A := Nat.div_lt_of_lt_mul (by rw [Nat.mul_comm]; exact g1)
    have := key (k / C / B) (k / C % B) (k % C) g2 (Nat.mod_lt _ hB) (Nat.mod_lt _ hC)
    rw [Nat.mul_comm _ B, Nat.div_add_mod, Nat.mul_comm _ C, Nat.div_add_mod] at this
    exact this.fin
  · intro d r c hd hr' hc'
    rw [csig_get _ _ (by rw [b2]; exact hin d r c hd hr' hc')]
    refine (key d r c hd hr' hc').err.trans (le_of_eq ?_)
    ring

omit F in
private theorem growth_two (cfg : Cfg) (hc : cfg.precomputed = false) (K : ℕ) (hK : 5 ≤ K) (hK' : K ≤ 6) :
    fftGrowth cfg (1 / 2 ^ 24 + 1 / 2 ^ 49) (1 / 2 ^ 24) (1 / 2 ^ 23) (2 ^ K) ≤ 2 ∧ ieeeRoom (2 ^ K) = 1 ∧
      workSize (2 ^ K) = 2 ^ K := by
  have hp : isPow2 (2 ^ K) = true := isPow2_pow K
  refine ⟨?_, by rw [ieeeRoom, if_pos hp], by rw [workSize, if_pos hp]⟩
  have hU : effErr (1 / 2 ^ 24) (1 / 2 ^ 150) (1 / 2 ^ 100) = 1 / 2 ^ 24 + 1 / 2 ^ 49 := by
    rw [effErr]; norm_num
  let _ := binFlt 24 24 (-149) (2 ^ 128 - 2 ^ 104) true true
  have h := ie_env (binary32 true true) (D := 1 / 2 ^ 100) (n := 1) (by positivity) (by norm_num)
    (by rw [show workSize 1 = 1 by rw [workSize, if_pos (by decide)]]; norm_num) (by rw [hU]; norm_num)
  have := h.rounding
  rw [hU] at this
  have h5 := fftGrowth_rotation (F := realFlt true) this (by norm_num) (by norm_num) cfg hc K hK (by
    have : K = 5 ∨ K = 6 := by omega
    rcases this with rfl | rfl <;> norm_num)
  have : K = 5 ∨ K = 6 := by omega
  rcases this with rfl | rfl <;> norm_num at h5 ⊢ <;> linarith

omit F in
/-- Binary32, 64 rows of 32 columns on a transformer that has seen nothing: as long as the magnitudes sum to at most
`2^125` nothing overflows. -/
example (fused fma : Bool) (x sc : List (Cx (Option ℝ))) (hx : x.length = 64 * 32) (hs : sc.length = 64)
    (hfin : ∀ c ∈ x, (binDen (-149)).cfin c)
    (hS : ∑ r ∈ range 64, ∑ c ∈ range 32, ‖(binDen (-149)).csig x (r * 32 + c)‖ ≤ 2 ^ 125) :
    let _ := binFlt 24 24 (-149) (2 ^ 128 - 2 ^ 104) fused fma
    ∃ p y sc', fft2d (T := Option ℝ) ⟨true, .f32, false, 4, false⟩ Planner.new x 64 32 sc = .ok (p, y, sc', .ok ()) ∧
      y.length = 64 * 32 ∧ ∀ c ∈ y, (binDen (-149)).cfin c := by
  let _ := binFlt 24 24 (-149) (2 ^ 128 - 2 ^ 104) fused fma
  have hU : effErr (1 / 2 ^ 24) (1 / 2 ^ 150) (1 / 2 ^ 100) = 1 / 2 ^ 24 + 1 / 2 ^ 49 := by
    rw [effErr]; norm_num
  obtain ⟨a1, a2, a3⟩ := growth_two ⟨true, .f32, false, 4, false⟩ rfl 5 (by norm_num) (by norm_num)
  obtain ⟨b1, b2, b3⟩ := growth_two ⟨true, .f32, false, 4, false⟩ rfl 6 (by norm_num) (by norm_num)
  rw [show 2 ^ 5 = 32 by norm_num] at a1 a2 a3
  rw [show 2 ^ 6 = 64 by norm_num] at b1 b2 b3
  obtain ⟨p, y, s, e, hl, hf, -⟩ := fft2d_ieee (binary32 fused fma) ⟨true, .f32, false, 4, false⟩ Planner.new x hfin 64 32
    sc hx (by norm_num) (by norm_num) (by norm_num) (by norm_num) hs .new (Or.inl rfl)
    (Or.inl (by rw [a3, b3]; norm_num)) (1 / 2 ^ 100) (by positivity)
    (by rw [a3, b3]; norm_num) (by rw [hU]; norm_num) (by
      rw [hU, a2, b2]
      have h0 : 0 ≤ ∑ r ∈ range 64, ∑ c ∈ range 32, ‖(binDen (-149)).csig x (r * 32 + c)‖ :=
        sum_nonneg fun _ _ => sum_nonneg fun _ _ => norm_nonneg _
      have hg0 := ie_fftG (ie_env (binary32 fused fma) (D := 1 / 2 ^ 100) (n := 64) (by positivity) (by norm_num)
        (by rw [b3]; norm_num) (by rw [hU]; norm_num)) ⟨true, .f32, false, 4, false⟩ 64
      rw [hU] at hg0
      calc _ ≤ 2 * 2 * (1 * 1 * (20 + 2 ^ 125) : ℝ) :=
            mul_le_mul (mul_le_mul a1 b1 (by linarith) (by norm_num)) (by linarith) (by positivity) (by norm_num)
        _ ≤ _ := by norm_num)
  exact ⟨p, y, s, e, hl, hf⟩

omit F in
/-- Binary32, a block of 32 × 32 × 64: as long as the magnitudes sum to at most `2^124` nothing overflows. -/
example (fused fma : Bool) (x tube row col : List (Cx (Option ℝ))) (hx : x.length = 32 * 32 * 64) (ht : tube.length = 32)
    (hr : row.length = 32) (hc : col.length = 64) (hfin : ∀ c ∈ x, (binDen (-149)).cfin c)
    (hS : ∑ d ∈ range 32, ∑ r ∈ range 32, ∑ c ∈ range 64, ‖(binDen (-149)).csig x ((d * 32 + r) * 64 + c)‖ ≤ 2 ^ 124) :
    let _ := binFlt 24 24 (-149) (2 ^ 128 - 2 ^ 104) fused fma
    ∃ p y t' r' c', fft3d (T := Option ℝ) ⟨true, .f32, false, 4, false⟩ Planner.new x 32 32 64 tube row col =
      .ok (p, y, t', r', c', .ok ()) ∧ y.length = 32 * 32 * 64 ∧ ∀ c ∈ y, (binDen (-149)).cfin c := by
  let _ := binFlt 24 24 (-149) (2 ^ 128 - 2 ^ 104) fused fma
  have hU : effErr (1 / 2 ^ 24) (1 / 2 ^ 150) (1 / 2 ^ 100) = 1 / 2 ^ 24 + 1 / 2 ^ 49 := by
    rw [effErr]; norm_num
  obtain ⟨a1, a2, a3⟩ := growth_two ⟨true, .f32, false, 4, false⟩ rfl 5 (by norm_num) (by norm_num)
  obtain ⟨b1, b2, b3⟩ := growth_two ⟨true, .f32, false, 4, false⟩ rfl 6 (by norm_num) (by norm_num)
  rw [show 2 ^ 5 = 32 by norm_num] at a1 a2 a3
  rw [show 2 ^ 6 = 64 by norm_num] at b1 b2 b3
  have henv := ie_env (binary32 fused fma) (D := 1 / 2 ^ 100) (n := 64) (by positivity) (by norm_num)
    (by rw [b3]; norm_num) (by rw [hU]; norm_num)
  obtain ⟨p, y, t', r', c', e, hl, hf, -⟩ := fft3d_ieee (binary32 fused fma) ⟨true, .f32, false, 4, false⟩ Planner.new x hfin
    32 32 64 tube row col hx (by norm_num) (by norm_num) (by norm_num) (by norm_num) (by norm_num) (by norm_num) ht hr hc .new
    (Or.inl rfl) (Or.inl le_rfl) (Or.inl (by rw [a3, b3]; norm_num)) (1 / 2 ^ 100) (by positivity)
    (by rw [a3, b3]; norm_num) (by rw [hU]; norm_num) (by
      rw [hU, a2, b2]
      have h0 : 0 ≤ ∑ d ∈ range 32, ∑ r ∈ range 32, ∑ c ∈ range 64, ‖(binDen (-149)).csig x ((d * 32 + r) * 64 + c)‖ :=
        sum_nonneg fun _ _ => sum_nonneg fun _ _ => sum_nonneg fun _ _ => norm_nonneg _
      have hg1 := ie_fftG henv ⟨true, .f32, false, 4, false⟩ 32
      have hg2 := ie_fftG henv ⟨true, .f32, false, 4, false⟩ 64
      rw [hU] at hg1 hg2
      calc _ ≤ 2 * 2 * 2 * (1 * 1 * 1 * (20 + 2 ^ 124) : ℝ) :=
            mul_le_mul (mul_le_mul (mul_le_mul a1 a1 (by linarith) (by norm_num)) b1 (by linarith) (by norm_num))
              (by linarith) (by positivity) (by norm_num)
        _ ≤ _ := by norm_num)
  exact ⟨p, y, t', r', c', e, hl, hf⟩

omit F in
/-- Binary32, windows of 32 points at distance 16 over any finite signal of 64 samples: every frame whose windowed
samples sum to at most `2^125` is finite. -/
example (fused fma : Bool) (x w : List (Option ℝ)) (hx : x.length = 64) (hw : w.length = 32)
    (hxf : ∀ c ∈ x, (binDen (-149)).fin c) (hwf : ∀ c ∈ w, (binDen (-149)).fin c) :
    let _ := binFlt 24 24 (-149) (2 ^ 128 - 2 ^ 104) fused fma
    ∃ p o, stft (T := Option ℝ) (fft ⟨true, .f32, false, 4, false⟩) Planner.new x w 16 (List.replicate 4 []) =
      .ok (p, o, .ok ()) ∧ o.length = 4 ∧ ∀ f, f < 4 →
        ∑ s ∈ range 32, ‖(binDen (-149)).rsig x (f * 16 + s) * (binDen (-149)).rsig w s‖ ≤ 2 ^ 125 →
        ∀ c ∈ o.getD f [], (binDen (-149)).cfin c := by
  let _ := binFlt 24 24 (-149) (2 ^ 128 - 2 ^ 104) fused fma
  have hU : effErr (1 / 2 ^ 24) (1 / 2 ^ 150) (1 / 2 ^ 100) = 1 / 2 ^ 24 + 1 / 2 ^ 49 := by
    rw [effErr]; norm_num
  obtain ⟨a1, a2, a3⟩ := growth_two ⟨true, .f32, false, 4, false⟩ rfl 5 (by norm_num) (by norm_num)
  rw [show 2 ^ 5 = 32 by norm_num] at a1 a2 a3
  have henv := ie_env (binary32 fused fma) (D := 1 / 2 ^ 100) (n := 32) (by positivity) (by norm_num)
    (by rw [a3]; norm_num) (by rw [hU]; norm_num)
  have hg1 := ie_fftG henv ⟨true, .f32, false, 4, false⟩ 32
  rw [hU] at hg1
  obtain ⟨p, o, e, hl, hf⟩ := stft_ieee (binary32 fused fma) ⟨true, .f32, false, 4, false⟩ Planner.new x w hxf hwf 16
    (List.replicate 4 []) (by norm_num) (by simp [hx]) (by omega) (by rw [hw]; norm_num) (Or.inl rfl) .new (1 / 2 ^ 100)
    (by positivity) (by rw [hw, a3]; norm_num) (by rw [hU]; norm_num)
  refine ⟨p, o, e, by simpa using hl, ?_⟩
  intro f hf4 hS
  refine ((hf f (by simpa using hf4)).2 ?_).1
  rw [hU, hw, a2]
  have h0 : 0 ≤ ∑ s ∈ range 32, ‖(binDen (-149)).rsig x (f * 16 + s) * (binDen (-149)).rsig w s‖ :=
    sum_nonneg fun _ _ => norm_nonneg _
  calc _ ≤ (1 + 1) * 2 * (1 * (20 + 2 ^ 125) : ℝ) :=
        mul_le_mul (mul_le_mul (by norm_num) a1 (by linarith) (by norm_num)) (by linarith) (by linarith) (by norm_num)
    _ ≤ _ := by norm_num

end Kofft.Props
