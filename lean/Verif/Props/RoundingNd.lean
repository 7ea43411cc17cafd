import Verif.Proof.RoundFft
import Verif.Props.Rounding
import Verif.Props.NdFft
/-
Property C75: accuracy of the two- and three-dimensional transforms in floating-point arithmetic.
-/
namespace Kofft.Props
open Spec Complex Finset

variable [F : Flt ℝ] {u v t : ℝ}

private theorem line_rnd (hF : Rounding F u v t) (cfg : Cfg) (x : List (Cx ℝ)) (b s n : ℕ) {g : ℝ} (X : ℕ → ℂ) (A : ℕ → ℝ)
    (hx : ∀ i, i < n → Apx g (toC (x.getD (b + i * s) Cx.zero)) (X i) (A i)) (i : ℕ) (hi : i < n) :
    Apx (g * fftGrowth cfg u v t n) (toC ((freshOut cfg (lineOf x b s n)).getD i Cx.zero))
      (∑ j ∈ range n, X j * W n (i * j)) (fftWeight n * ∑ j ∈ range n, A j) := by
  have hl : (lineOf x b s n).length = n := by simp [lineOf]
  have := freshOut_rnd hF cfg (lineOf x b s n) X A g (by
    intro j hj
    rw [hl] at hj
    rw [lineOf, tab_getD hj]
    exact hx j hj) i (by omega)
  rw [hl] at this
  exact this

/-- C75a. `fft2d` in rounding arithmetic (under the size conditions of C29): every bin is within the stated bound of the
two-dimensional DFT. -/
theorem fft2d_error (hF : Rounding F u v t) (cfg : Cfg) (p : Planner ℝ) (data : List (Cx ℝ))
    (rows cols : ℕ) (sc : List (Cx ℝ)) (hl : data.length = rows * cols) (hr : 0 < rows) (hc : 0 < cols)
    (hs : sc.length = rows)
    (hp : ReachVia cfg (fun m => workSize m ≤ workSize cols) p)
    (hn : cfg.std = true ∨ ((∃ k, rows = 2 ^ k) ∧ ∃ k, cols = 2 ^ k))
    (hsz : Unaffected cfg (workSize cols) rows) :
    ∃ p' y sc', fft2d cfg p data rows cols sc = .ok (p', y, sc', .ok ()) ∧ y.length = rows * cols ∧
      ∀ r c, r < rows → c < cols → ‖sig y (r * cols + c) - dft2 rows cols (sig data) r c‖ ≤
        (fftGrowth cfg u v t cols * fftGrowth cfg u v t rows - 1) *
          (fftWeight rows * fftWeight cols * ∑ r' ∈ range rows, ∑ c' ∈ range cols, ‖sig data (r' * cols + c')‖) := by
  have hrr : fftRes cfg rows = .ok () := fftRes_ok hr (by tauto)
  have hrc : fftRes cfg cols = .ok () := fftRes_ok hc (by tauto)
  obtain ⟨s1, s2, e, b1, b2, b3, b4, -, b6⟩ := fft2d_run cfg p (reachVia_inv hp) data rows cols sc hl hr hc hs
  rw [if_pos hrc, hrr] at e
  refine ⟨_, _, _, e, b2.trans hl, ?_⟩
  intro r c hr' hc'
  have hb := reachVia_invB (B := need cols) (fun m hm => hm) hp
  obtain ⟨c1, c2⟩ := b6 (need cols) le_rfl hb.2 (Or.inl le_rfl) hrc
  have hsafe : SafeAt cfg (max (need cols) (need rows)) rows := by
    rcases safeAt_of hsz with h | h
    · exact Or.inl (max_le h le_rfl)
    · exact Or.inr h
  have c3 := c2 (max (need cols) (need rows)) (le_max_left _ _) (le_max_right _ _) hsafe hrr c r hc' hr'
  have hin : ∀ r' c', r' < rows → c' < cols → r' * cols + c' < data.length := by
    intro r' c' h1 h2
    rw [hl, Nat.add_comm]; exact line_lt h2 h1
  have r1 : ∀ r', r' < rows → Apx (1 * fftGrowth cfg u v t cols) (toC (s1.data.getD (c + r' * cols) Cx.zero))
      (∑ c' ∈ range cols, sig data (r' * cols + c') * W cols (c * c'))
      (fftWeight cols * ∑ c' ∈ range cols, ‖sig data (r' * cols + c')‖) := by
    intro r' hr'
    rw [Nat.add_comm c, c1 r' c hr' hc']
    exact line_rnd hF cfg data (r' * cols) 1 cols (fun c' => sig data (r' * cols + c'))
      (fun c' => ‖sig data (r' * cols + c')‖)
      (fun i hi => by rw [Nat.mul_one]; exact sig_apx _ _ (hin r' i hr' hi)) c hc'
  have r2 := line_rnd hF cfg s1.data c cols rows _ _ r1 r hr'
  rw [← c3, Nat.add_comm c, ← sig_getD _ _ (by rw [b2]; exact hin r c hr' hc'), one_mul] at r2
  have e1 : (∑ r' ∈ range rows, (∑ c' ∈ range cols, sig data (r' * cols + c') * W cols (c * c')) * W rows (r * r')) =
      dft2 rows cols (sig data) r c := by
    rw [dft2]
    apply sum_congr rfl
    intro r' _
    rw [sum_mul]
    exact sum_congr rfl fun c' _ => by ring
  rw [e1, ← mul_sum, ← mul_assoc] at r2
  exact r2.err

/-- C75b. `fft3d` in rounding arithmetic (under the size conditions of C30). -/
theorem fft3d_error (hF : Rounding F u v t) (cfg : Cfg) (p : Planner ℝ) (data : List (Cx ℝ))
    (D R C : ℕ) (tube row col : List (Cx ℝ)) (hl : data.length = D * R * C) (hD : 0 < D) (hR : 0 < R)
    (hC : 0 < C) (ht : tube.length = D) (hr : row.length = R) (hc : col.length = C)
    (hp : ReachVia cfg (fun m => workSize m ≤ workSize D) p)
    (hn : cfg.std = true ∨ ((∃ k, D = 2 ^ k) ∧ (∃ k, R = 2 ^ k) ∧ ∃ k, C = 2 ^ k))
    (h1 : Unaffected cfg (workSize D) R) (h2 : Unaffected cfg (max (workSize D) (workSize R)) C) :
    ∃ p' y t' r' c', fft3d cfg p data D R C tube row col = .ok (p', y, t', r', c', .ok ()) ∧ y.length = D * R * C ∧
      ∀ d r c, d < D → r < R → c < C → ‖sig y ((d * R + r) * C + c) - dft3 D R C (sig data) d r c‖ ≤
        (fftGrowth cfg u v t D * fftGrowth cfg u v t R * fftGrowth cfg u v t C - 1) *
          (fftWeight D * fftWeight R * fftWeight C *
            ∑ d' ∈ range D, ∑ r' ∈ range R, ∑ c' ∈ range C, ‖sig data ((d' * R + r') * C + c')‖) := by
  have e1 : fftRes cfg D = .ok () := fftRes_ok hD (by tauto)
  have e2 : fftRes cfg R = .ok () := fftRes_ok hR (by tauto)
  have e3 : fftRes cfg C = .ok () := fftRes_ok hC (by tauto)
  obtain ⟨s1, s2, s3, t', r', e, b1, b2, b3, b4, -, b6⟩ := fft3d_run cfg p (reachVia_inv hp) data D R C
    tube row col hl hD hR hC ht hr hc
  rw [fst3, e1, e2, e3, if_pos rfl, if_pos rfl] at e
  refine ⟨_, _, _, _, _, e, b2.trans hl, ?_⟩
  intro d r c hd hr' hc'
  have hb := reachVia_invB (B := need D) (fun m hm => hm) hp
  have k1 : SafeAt cfg (max (need D) (need R)) R := by
    rcases safeAt_of h1 with h | h
    · exact Or.inl (max_le h le_rfl)
    · exact Or.inr h
  have k2 : SafeAt cfg (max (max (need D) (need R)) (need C)) C := by
    rcases safeAt_of h2 with h | h
    · exact Or.inl (max_le h le_rfl)
    · exact Or.inr h
  obtain ⟨c1, c2, c3⟩ := b6 (need D) (max (need D) (need R)) (max (max (need D) (need R)) (need C)) hb.2 le_rfl
    (Or.inl le_rfl) e1 (le_max_left _ _) (le_max_right _ _) k1 e2 (le_max_left _ _) (le_max_right _ _) k2 e3
  have hq : ∀ d r, d < D → r < R → d * R + r < D * R := by
    intro d r hd hr; rw [Nat.add_comm]; exact line_lt hr hd
  have hin : ∀ d' r' c', d' < D → r' < R → c' < C → (d' * R + r') * C + c' < data.length := by
    intro d' r' c' q1 q2 q3
    rw [hl, Nat.add_comm]; exact line_lt q3 (hq d' r' q1 q2)
  have f1 : ∀ r' c', r' < R → c' < C → Apx (1 * fftGrowth cfg u v t D)
      (toC (s1.data.getD ((d * R + r') * C + c') Cx.zero))
      (∑ d' ∈ range D, sig data ((d' * R + r') * C + c') * W D (d * d'))
      (fftWeight D * ∑ d' ∈ range D, ‖sig data ((d' * R + r') * C + c')‖) := by
    intro r' c' hr' hc'
    rw [show (d * R + r') * C + c' = (c' + r' * C) + d * (R * C) by ring, c1 _ d (line_lt hc' hr') hd]
    exact line_rnd hF cfg data (c' + r' * C) (R * C) D (fun d' => sig data ((d' * R + r') * C + c'))
      (fun d' => ‖sig data ((d' * R + r') * C + c')‖)
      (fun i hi => by
        rw [show c' + r' * C + i * (R * C) = (i * R + r') * C + c' by ring]
        exact sig_apx _ _ (hin i r' c' hi hr' hc')) d hd
  have f2 : ∀ c', c' < C → Apx (1 * fftGrowth cfg u v t D * fftGrowth cfg u v t R)
      (toC (s2.data.getD ((d * R + r) * C + c') Cx.zero))
      (∑ r' ∈ range R, (∑ d' ∈ range D, sig data ((d' * R + r') * C + c') * W D (d * d')) * W R (r * r'))
      (fftWeight R * ∑ r' ∈ range R, fftWeight D * ∑ d' ∈ range D, ‖sig data ((d' * R + r') * C + c')‖) := by
    intro c' hc'
    rw [show (d * R + r) * C + c' = d * R * C + c' + r * C by ring, c2 d c' r hd hc' hr']
    exact line_rnd hF cfg s1.data (d * R * C + c') C R _ _ (fun i hi => by
      rw [show d * R * C + c' + i * C = (d * R + i) * C + c' by ring]
      exact f1 i c' hi hc') r hr'
  have f3 := line_rnd hF cfg s2.data ((d * R + r) * C) 1 C _ _ (fun i hi => by
      rw [Nat.mul_one]; exact f2 i hi) c hc'
  rw [← c3 _ _ (hq d r hd hr') hc', ← sig_getD _ _ (by rw [b2]; exact hin d r c hd hr' hc'), one_mul] at f3
  have z1 : (∑ c' ∈ range C, (∑ r' ∈ range R, (∑ d' ∈ range D, sig data ((d' * R + r') * C + c') * W D (d * d')) *
      W R (r * r')) * W C (c * c')) = dft3 D R C (sig data) d r c := by
    rw [dft3]
    simp only [sum_mul]
    rw [sum_comm, sum_congr rfl (fun r' _ => sum_comm), sum_comm]
  have z2 : (∑ c' ∈ range C, fftWeight R * ∑ r' ∈ range R, fftWeight D *
      ∑ d' ∈ range D, ‖sig data ((d' * R + r') * C + c')‖) =
      fftWeight R * (fftWeight D * ∑ d' ∈ range D, ∑ r' ∈ range R, ∑ c' ∈ range C, ‖sig data ((d' * R + r') * C + c')‖) := by
    rw [← mul_sum, sum_congr rfl (fun c' _ => (mul_sum _ _ _).symm), ← mul_sum]
    congr 2
    rw [sum_comm, sum_congr rfl (fun r' _ => sum_comm), sum_comm]
  rw [z1, z2] at f3
  refine f3.err.trans (le_of_eq ?_)
  ring

/-- Non-vacuity: single precision, 64 rows of 32 columns; the bound is 0 in exact arithmetic. -/
example : let cfg : Cfg := ⟨true, .f32, false, 4, false⟩
    Rounding (rndFlt 24 24 true true) (1 / 2 ^ 24) (1 / 2 ^ 24) (1 / 2 ^ 24) ∧
    Unaffected cfg (workSize 32) 64 ∧ fftGrowth cfg 0 0 0 32 * fftGrowth cfg 0 0 0 64 = 1 := by
  refine ⟨rndFlt_rounding 24 24 (by norm_num) (by norm_num) true true, Or.inl ?_, ?_⟩
  · have h1 : isPow2 32 = true := by decide
    have h2 : isPow2 64 = true := by decide
    simp [workSize, h1, h2]
  · simp [fftGrowth, powGrowth, bluGrowth, mulErr, twGrowth, preGrowth, tableGrowth, rotErr, chirpErr]

end Kofft.Props
