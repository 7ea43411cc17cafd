import Verif.Proof.IeeeKer
import Verif.Proof.RoundFft
/-
The chirp (Bluestein) transform in arithmetic with a bounded exponent range.
-/
namespace Kofft

open Spec Complex Finset

variable {T : Type} [F : Flt T] {N : Denote T} {u η Ω v t D : ℝ}

local notation "U" => effErr u η D

theorem ie_freshPow_length (cfg : Cfg) (x : List (Cx T)) (hp : isPow2 x.length = true) :
    (freshPow cfg x).length = x.length := powOut_length cfg _ x hp

theorem bluM_lt {n : ℕ} (hn : 2 ≤ n) : bluM n < 4 * n := by
  unfold bluM nextPow2
  have h1 := Nat.pow_pred_clog_lt_self (b := 2) (by norm_num) (x := 2 * n - 1) (by omega)
  have h2 : Nat.clog 2 (2 * n - 1) ≠ 0 := (Nat.clog_pos (by norm_num) (by omega)).ne'
  obtain ⟨k, hk⟩ := Nat.exists_eq_succ_of_ne_zero h2
  rw [hk] at h1 ⊢
  rw [Nat.pred_succ] at h1
  rw [Nat.pow_succ]
  omega

/-- reciprocal of a converted integer -/
theorem ie_inv (h : Env F N u η Ω v t D) {n : ℕ} (hn : 0 < n) (hn64 : n < 2 ^ 64) :
    N.fin (F.ofNat n) ∧ |(N.val (F.ofNat n))⁻¹ - (n : ℝ)⁻¹| ≤ (1 / (1 - v) - 1) * (n : ℝ)⁻¹ ∧ N.val (F.ofNat n) ≠ 0 := by
  have hv := h.v_nonneg
  have hv1 := h.v_le
  have hn' : (0 : ℝ) < n := by exact_mod_cast hn
  obtain ⟨hf, h0⟩ := h.ofNat n hn64
  have h1 := h0
  rw [abs_le] at h1
  have hpos : 0 < (1 - v) * (n : ℝ) := by nlinarith
  have h2 : (1 - v) * (n : ℝ) ≤ N.val (F.ofNat n) := by nlinarith
  have h3 : (0 : ℝ) < N.val (F.ofNat n) := by linarith
  refine ⟨hf, ?_, h3.ne'⟩
  generalize N.val (F.ofNat n) = q at *
  have e1 : q⁻¹ - (n : ℝ)⁻¹ = (n - q) * (q⁻¹ * (n : ℝ)⁻¹) := by
    field_simp
  rw [e1, abs_mul, abs_mul, ← mul_assoc, abs_of_pos (inv_pos.mpr hn')]
  gcongr
  have e2 : |(n : ℝ) - q| ≤ v * n := by rw [abs_sub_comm]; exact h0
  have e3 : |q⁻¹| ≤ ((1 - v) * n)⁻¹ := by
    rw [abs_of_pos (inv_pos.mpr h3)]
    exact inv_anti₀ hpos h2
  have e4 : 1 / (1 - v) - 1 = v * n * ((1 - v) * n)⁻¹ := by
    have : 1 - v ≠ 0 := by linarith
    field_simp; ring
  rw [e4]
  exact mul_le_mul e2 e3 (abs_nonneg _) (by positivity)

theorem ie_half (h : Env F N u η Ω v t D) : 1 ≤ 1 / (1 - v) ∧ 1 / (1 - v) ≤ 2 := by
  have hv := h.v_nonneg
  have hv1 := h.v_le
  exact ⟨by rw [le_div_iff₀ (by linarith)]; linarith, by rw [div_le_iff₀ (by linarith)]; linarith⟩

/-- an angle of the chirp -/
theorem ie_bluAngle (h : Env F N u η Ω v t D) {n i : ℕ} (hi : i < n) (hn31 : n ≤ 2 ^ 31) (hΩ : 38 * (n : ℝ) ^ 2 ≤ Ω) :
    RAp N D ((1 + U) ^ 3 * ((1 + v) / (1 - v))) (bluAngle n i : T) (Real.pi * (i * i : ℕ) / n) (Real.pi * n) := by
  have hU := h.U_nonneg
  have hU1 := h.U_le
  have hv := h.v_nonneg
  have hv1 := h.v_le
  have hD := h.D_le
  have hp := Real.pi_gt_three
  have hp' := Real.pi_lt_d2
  have hn0 : (0 : ℝ) < n := by exact_mod_cast (by omega : 0 < n)
  have hn1 : (1 : ℝ) ≤ n := by exact_mod_cast (by omega : 1 ≤ n)
  have hnn : (n : ℝ) ≤ (n : ℝ) ^ 2 := by nlinarith
  have hii : ((i * i : ℕ) : ℝ) ≤ (n : ℝ) ^ 2 := by
    rw [sq]; exact_mod_cast Nat.mul_le_mul hi.le hi.le
  have hii0 : (0 : ℝ) ≤ ((i * i : ℕ) : ℝ) := by positivity
  obtain ⟨hh1, hh2⟩ := ie_half h
  obtain ⟨f1, e1⟩ := h.ofNat (i * i) (by have := Nat.mul_lt_mul_of_lt_of_le (lt_of_lt_of_le hi hn31) (hi.le.trans hn31) (by norm_num); omega)
  have K : RAp N D (1 + v) (F.ofNat (i * i)) ((i * i : ℕ) : ℝ) ((n : ℝ) ^ 2) :=
    ⟨f1, by linarith, by rw [add_sub_cancel_left]; exact e1.trans (by gcongr), by rw [Nat.abs_cast]; exact hii,
      by nlinarith⟩
  have a1 := (ie_pi h).mul h K (by nlinarith) (by
    have e1 : (1 + U) * (1 + v) ≤ 2 * 2 := mul_le_mul (by linarith) (by linarith) (by linarith) (by norm_num)
    have e2 : Real.pi * (n : ℝ) ^ 2 ≤ 3.15 * (n : ℝ) ^ 2 := mul_le_mul_of_nonneg_right hp'.le (by positivity)
    have e3 := mul_le_mul e1 e2 (by positivity) (by norm_num)
    nlinarith)
  obtain ⟨f2, e2, e3⟩ := ie_inv h (by omega : 0 < n) (by omega)
  have ew : Real.pi * (n : ℝ) ^ 2 / n = Real.pi * n := by field_simp
  have a2 := a1.div h (w := n) f2 e3 hn0 hh1 e2 (by rw [ew]; nlinarith) (by
    rw [ew]
    have e1 : (1 + U) * (1 + v) ≤ 2 * (3 / 2) := mul_le_mul (by linarith) (by linarith) (by linarith) (by norm_num)
    have e2 : (1 + U) * (1 + v) * (1 + U) ≤ 2 * (3 / 2) * 2 := mul_le_mul e1 (by linarith) (by linarith) (by norm_num)
    have e4 : (1 + U) * (1 + v) * (1 + U) * (1 / (1 - v)) ≤ 2 * (3 / 2) * 2 * 2 :=
      mul_le_mul e2 hh2 (by linarith) (by norm_num)
    have e5 : Real.pi * (n : ℝ) ≤ 3.15 * (n : ℝ) := mul_le_mul_of_nonneg_right hp'.le (by positivity)
    have e6 := mul_le_mul e4 e5 (by positivity) (by norm_num)
    nlinarith)
  rw [ew, show (1 + U) * (1 + v) * (1 + U) * (1 / (1 - v)) * (1 + U) =
    (1 + U) ^ 3 * ((1 + v) / (1 - v)) by ring] at a2
  exact a2

theorem ie_chirpErr (h : Env F N u η Ω v t D) (n : ℕ) : 0 ≤ chirpErr U v t n :=
  chirpErr_nonneg (F := realFlt true) h.rounding n

theorem ie_chirpAt (h : Env F N u η Ω v t D) {n i : ℕ} (hi : i < n) (hn31 : n ≤ 2 ^ 31) (hΩ : 38 * (n : ℝ) ^ 2 ≤ Ω) :
    IAp N D (1 + chirpErr U v t n) (chirpAt n i : Cx T) (exp (-(Real.pi * (i * i : ℕ) / n * I))) 1 := by
  have e : -((Real.pi : ℂ) * (i * i : ℕ) / n * I) = ((-(Real.pi * (i * i : ℕ) / n) : ℝ) : ℂ) * I := by
    push_cast; ring
  rw [e]
  have a := (ie_bluAngle h hi hn31 hΩ).neg h
  obtain ⟨f, b⟩ := ie_expi h a.fin (-(Real.pi * (i * i : ℕ) / n))
  refine IAp.unit h f (expi_unit (F := realFlt true) _) (b.trans ?_)
  rw [chirpErr]
  linarith [a.err]

theorem ie_bExp (h : Env F N u η Ω v t D) {n i : ℕ} (hi : i < n) (hn31 : n ≤ 2 ^ 31) (hΩ : 38 * (n : ℝ) ^ 2 ≤ Ω) :
    IAp N D (1 + chirpErr U v t n) (Cx.expi (bluAngle n i) : Cx T) (exp (Real.pi * (i * i : ℕ) / n * I)) 1 := by
  have e : (Real.pi : ℂ) * (i * i : ℕ) / n * I = ((Real.pi * (i * i : ℕ) / n : ℝ) : ℂ) * I := by
    push_cast; ring
  rw [e]
  have a := ie_bluAngle h hi hn31 hΩ
  obtain ⟨f, b⟩ := ie_expi h a.fin (Real.pi * (i * i : ℕ) / n)
  refine IAp.unit h f (expi_unit (F := realFlt true) _) (b.trans ?_)
  rw [chirpErr]
  linarith [a.err]

theorem ie_bAt (h : Env F N u η Ω v t D) {n i : ℕ} (hi : i < bluM n) (hn31 : n ≤ 2 ^ 31) (hΩ : 38 * (n : ℝ) ^ 2 ≤ Ω) :
    IAp N D (1 + chirpErr U v t n) (bAt n i : Cx T) (bExact n i) (bWeight n i + D) := by
  have hD := h.D_pos.le
  unfold bAt bExact bWeight
  split
  · rename_i h1; exact (ie_bExp h h1 hn31 hΩ).weight (by linarith)
  split
  · exact (ie_bExp h (by omega) hn31 hΩ).weight (by linarith)
  · have := ie_chirpErr h n
    exact IAp.zero h (by linarith) (by linarith)

theorem ie_fftG (h : Env F N u η Ω v t D) (cfg : Cfg) (n : ℕ) : 1 ≤ fftGrowth cfg U v t n :=
  fftGrowth_ge (F := realFlt true) h.rounding cfg n

set_option maxHeartbeats 4000000 in
theorem ie_bluOut (h : Env F N u η Ω v t D) (cfg : Cfg) (x : List (Cx T)) (hn : 2 ≤ x.length)
    (hn31 : x.length ≤ 2 ^ 31)
    (X : ℕ → ℂ) (Aw : ℕ → ℝ) (g : ℝ)
    (hx : ∀ i, i < x.length → IAp N D g (x.getD i Cx.zero) (X i) (Aw i)) (hmD : bluM x.length * D ≤ 1)
    (hΩ1 : bluGrowth cfg U v t x.length (bluM x.length) * (38 * x.length * bluM x.length) ≤ Ω)
    (hΩ2 : g * bluGrowth cfg U v t x.length (bluM x.length) * (2 * x.length * bluM x.length *
      (∑ i ∈ range x.length, Aw i + (bluM x.length - x.length) * D)) ≤ Ω)
    (k : Nat) (hk : k < x.length) :
    IAp N D (g * bluGrowth cfg U v t x.length (bluM x.length)) ((bluOut cfg x).getD k Cx.zero)
      (dft x.length X k) (2 * x.length * (∑ i ∈ range x.length, Aw i + (bluM x.length - x.length) * D)) := by
  have hU := h.U_nonneg
  have hμ := mulErr_nonneg hU
  have hDp := h.D_pos
  have hD1 := h.D_le
  have hg := (hx k hk).one
  have hbG := bluGrowth_ge (F := realFlt true) h.rounding cfg x.length (bluM x.length)
  set n := x.length with hnx
  set m := bluM n with hm
  have hmge : 2 * n - 1 ≤ m := bluM_ge n
  have hmp : isPow2 m = true := bluM_pow2 n
  have hm0 : 0 < m := isPow2_pos hmp
  have hm' : (0 : ℝ) < m := by exact_mod_cast hm0
  have hm1 : (1 : ℝ) ≤ m := by exact_mod_cast hm0
  have hn2 : (2 : ℝ) ≤ n := by exact_mod_cast hn
  have hnm : (n : ℝ) ≤ m := by exact_mod_cast (by omega : n ≤ m)
  set c := 1 + chirpErr U v t n with hc
  have hc1 : 1 ≤ c := by have := ie_chirpErr h n; linarith
  set P := powGrowth cfg U v t m with hP
  have hP1 := ie_powG h cfg m
  rw [← hP] at hP1
  set S := ∑ i ∈ range n, Aw i + (m - n) * D with hS
  have hAw : ∀ i, i < n → D ≤ Aw i := fun i hi => (hx i hi).floor
  have hSum : (n : ℝ) * D ≤ ∑ i ∈ range n, Aw i := by
    have : ∑ i ∈ range n, D ≤ ∑ i ∈ range n, Aw i := sum_le_sum fun i hi => hAw i (by simpa using hi)
    simpa using this
  have hSD : D ≤ S := by
    rw [hS]
    have h1 : 0 ≤ (m - n) * D := mul_nonneg (by linarith) hDp.le
    nlinarith
  have hS0 : 0 ≤ S := hDp.le.trans hSD
  -- the growth factors
  set E := bluGrowth cfg U v t n m with hE
  have eE : E = c * (1 + mulErr U) * P * (c * P) * (1 + mulErr U) * P * (1 + U) * (1 + U) * c * (1 + mulErr U) := by
    rw [hE]; unfold bluGrowth; rw [← hP, ← hc]; ring
  have hgE1 : 1 ≤ g * E := by nlinarith
  have room : ∀ q W : ℝ, 0 ≤ W → q ≤ g * E → W ≤ 2 * n * m * S → q * W ≤ Ω := fun q W h1 h2 h3 =>
    (mul_le_mul_of_nonneg_right h2 h1).trans ((mul_le_mul_of_nonneg_left h3 (by linarith)).trans hΩ2)
  have room1 : ∀ q W : ℝ, 0 ≤ W → q ≤ E → W ≤ 38 * n * m → q * W ≤ Ω := fun q W h1 h2 h3 =>
    (mul_le_mul_of_nonneg_right h2 h1).trans ((mul_le_mul_of_nonneg_left h3 (by linarith)).trans hΩ1)
  have hnm2 : 2 * (n : ℝ) ≤ 2 * n * m := by nlinarith
  have hSw : S ≤ 2 * n * m * S := by
    have : 1 ≤ 2 * (n : ℝ) * m := by nlinarith
    nlinarith
  have hSw2 : S * (2 * n) ≤ 2 * n * m * S := by nlinarith [mul_le_mul_of_nonneg_right hnm2 hS0]
  have hmu1 : 1 ≤ 1 + mulErr U := by linarith
  have hU1 : 1 ≤ 1 + U := by linarith
  have o1 : 1 ≤ c * (1 + mulErr U) := one_le_mul_of_one_le_of_one_le hc1 hmu1
  have o2 : 1 ≤ c * (1 + mulErr U) * P := one_le_mul_of_one_le_of_one_le o1 hP1
  have o3 : 1 ≤ c * P := one_le_mul_of_one_le_of_one_le hc1 hP1
  have o4 : 1 ≤ c * (1 + mulErr U) * P * (c * P) := one_le_mul_of_one_le_of_one_le o2 o3
  have o5 : 1 ≤ c * (1 + mulErr U) * P * (c * P) * (1 + mulErr U) := one_le_mul_of_one_le_of_one_le o4 hmu1
  have o6 : 1 ≤ c * (1 + mulErr U) * P * (c * P) * (1 + mulErr U) * P := one_le_mul_of_one_le_of_one_le o5 hP1
  have o7 : 1 ≤ c * (1 + mulErr U) * P * (c * P) * (1 + mulErr U) * P * (1 + U) := one_le_mul_of_one_le_of_one_le o6 hU1
  have o8 : 1 ≤ c * (1 + mulErr U) * P * (c * P) * (1 + mulErr U) * P * (1 + U) * (1 + U) := one_le_mul_of_one_le_of_one_le o7 hU1
  have o9 : 1 ≤ c * (1 + mulErr U) * P * (c * P) * (1 + mulErr U) * P * (1 + U) * (1 + U) * c := one_le_mul_of_one_le_of_one_le o8 hc1
  have l9 : c * (1 + mulErr U) * P * (c * P) * (1 + mulErr U) * P * (1 + U) * (1 + U) * c ≤ E := by
    rw [eE]; exact le_mul_of_one_le_right (by linarith) hmu1
  have l8 := (le_mul_of_one_le_right (by linarith) hc1).trans l9
  have l7 := (le_mul_of_one_le_right (by linarith) hU1).trans l8
  have l6 := (le_mul_of_one_le_right (by linarith) hU1).trans l7
  have l5 := (le_mul_of_one_le_right (by linarith) hP1).trans l6
  have l4 := (le_mul_of_one_le_right (by linarith) hmu1).trans l5
  have l2 := (le_mul_of_one_le_right (by linarith) o3).trans l4
  have l1 := (le_mul_of_one_le_right (by linarith) hP1).trans l2
  have l3 : c * P ≤ E := (le_mul_of_one_le_left (by linarith) o2).trans l4
  have lP : P ≤ E := (le_mul_of_one_le_left (by linarith) o1).trans l2
  have gl : ∀ q, q ≤ E → g * q ≤ g * E := fun q hq => mul_le_mul_of_nonneg_left hq (by linarith)
  have hmΩ : m < 2 ^ 64 := by
    have := bluM_lt (n := n) (by omega)
    rw [← hm] at this
    omega
  have hPΩ : P ≤ Ω := by have := room1 P 1 (by norm_num) lP (by nlinarith); linarith
  have h38 : 38 * (n : ℝ) ^ 2 ≤ Ω := by
    have := room1 1 (38 * (n : ℝ) ^ 2) (by positivity) hbG (by nlinarith)
    linarith
  set A := bluA n m m (fun i => x.getD i Cx.zero) (fun _ => Cx.zero) with hA
  have hAl : A.length = m := by simp [hA, bluA]
  set B := tab m (bAt (T := T) n) with hB
  have hBl : B.length = m := by simp [hB]
  let a : ℕ → ℂ := fun r => if r < n then X r * exp (-(Real.pi * (r * r : ℕ) / n * I)) else 0
  let aw : ℕ → ℝ := fun r => if r < n then Aw r else D
  have haw : ∑ i ∈ range m, aw i = S := by
    simp only [aw, hS]
    have hle : n ≤ m := by omega
    rw [← sum_range_add_sum_Ico _ hle]
    congr 1
    · exact sum_congr rfl fun i hi => if_pos (by simpa using hi)
    · rw [sum_congr rfl (g := fun _ => D) fun i hi => if_neg (by rw [mem_Ico] at hi; omega)]
      rw [sum_const, Nat.card_Ico, nsmul_eq_mul, Nat.cast_sub hle]
  have hawS : ∀ i, i < m → aw i ≤ S := by
    intro i hi
    rw [← haw]
    refine single_le_sum (f := aw) (fun j hj => ?_) (by simpa using hi)
    simp only [aw]
    split
    · rename_i hj; exact hDp.le.trans (hAw j hj)
    · exact hDp.le
  have hAa : ∀ i, i < m → IAp N D (g * c * (1 + mulErr U)) (A.getD i Cx.zero) (a i) (aw i) := by
    intro i hi
    have hsi := hawS i hi
    rw [hA, bluA, tab_getD hi]
    simp only [a, aw] at hsi ⊢
    by_cases h1 : i < n
    · rw [if_pos h1] at hsi
      rw [if_pos h1, if_pos h1, if_pos h1]
      have := (hx i h1).mul h (ie_mul h) (ie_chirpAt h h1 hn31 h38) (by rw [mul_one]; exact hAw i h1)
        (room _ _ (by rw [mul_one]; exact (hx i h1).nonneg) (by
          rw [mul_assoc g]; exact gl _ l1) (by rw [mul_one]; exact hsi.trans hSw))
      rwa [mul_one] at this
    · rw [if_neg h1, if_pos hi, if_neg h1, if_neg h1]
      have : 1 ≤ g * c * (1 + mulErr U) := by rw [mul_assoc]; exact one_le_mul_of_one_le_of_one_le hg o1
      exact IAp.zero h this le_rfl
  have hBb : ∀ i, i < m → IAp N D c (B.getD i Cx.zero) (bExact n i) (bWeight n i + D) := by
    intro i hi
    rw [hB, tab_getD hi]; exact ie_bAt h hi hn31 h38
  have hbw : ∑ i ∈ range m, (bWeight n i + D) ≤ 2 * n := by
    rw [sum_add_distrib, bWeight_sum (F := realFlt true) (by omega : 0 < n)]
    simp only [sum_const, card_range, nsmul_eq_mul]
    linarith
  set FA := freshPow cfg A with hFA
  set FB := freshPow cfg B with hFB
  have hFAl : FA.length = m := by rw [hFA, ie_freshPow_length cfg A (by rw [hAl]; exact hmp), hAl]
  have hFBl : FB.length = m := by rw [hFB, ie_freshPow_length cfg B (by rw [hBl]; exact hmp), hBl]
  have eFA : ∀ j, j < m → IAp N D (g * c * (1 + mulErr U) * P) (FA.getD j Cx.zero) (dft m a j) S := by
    intro j hj
    have := ie_freshPow h cfg A (by rw [hAl]; exact hmp) a aw _ (by rw [hAl]; exact hAa) (by rw [hAl]; exact hmΩ)
      (by rw [hAl]; exact hmD) (by rw [hAl]; exact hPΩ) (by
        rw [hAl, haw]
        exact room _ _ hS0 (by
          rw [show g * c * (1 + mulErr U) * P = g * (c * (1 + mulErr U) * P) by ring]; exact gl _ l2) hSw) j (by omega)
    rwa [hAl, haw] at this
  have eFB : ∀ j, j < m → IAp N D (c * P) (FB.getD j Cx.zero) (dft m (bExact n) j) (2 * n) := by
    intro j hj
    have := ie_freshPow h cfg B (by rw [hBl]; exact hmp) (bExact n) (fun i => bWeight n i + D) _
      (by rw [hBl]; exact hBb) (by rw [hBl]; exact hmΩ)
      (by rw [hBl]; exact hmD) (by rw [hBl]; exact hPΩ) (by
        rw [hBl]
        exact (mul_le_mul_of_nonneg_left hbw (by linarith)).trans
          (room1 _ _ (by linarith) l3 (by nlinarith))) j (by omega)
    rw [hBl] at this
    exact this.weight hbw
  set M := bluMid FA FB with hM
  have hMtab : M = tab m (fun i => ((FA.getD i Cx.zero).mul (FB.getD i Cx.zero)).conj) := by
    have t1 : FA = tab m (fun i => FA.getD i Cx.zero) := by
      conv_lhs => rw [eq_tab_getD FA Cx.zero, hFAl]
    have t2 : FB = tab m (fun i => FB.getD i Cx.zero) := by
      conv_lhs => rw [eq_tab_getD FB Cx.zero, hFBl]
    have : M = (copyPrefix (List.zipWith Cx.mul (tab m fun i => FA.getD i Cx.zero)
        (tab m fun i => FB.getD i Cx.zero)) (tab m fun i => FA.getD i Cx.zero)).map Cx.conj := by
      rw [← t1, ← t2, hM]; rfl
    rw [this, tab_zipWith, (copyN_tab (m := m) le_rfl le_rfl).1, tab_map]
    apply tab_congr
    intro i hi
    simp [hi]
  have hMl : M.length = m := by rw [hMtab]; simp
  have hSn : D ≤ S * (2 * n) := by nlinarith
  have eM : ∀ j, j < m → IAp N D (g * c * (1 + mulErr U) * P * (c * P) * (1 + mulErr U)) (M.getD j Cx.zero)
      ((starRingEnd ℂ) (dft m a j * dft m (bExact n) j)) (S * (2 * n)) := by
    intro j hj
    rw [hMtab, tab_getD hj]
    exact ((eFA j hj).mul h (ie_mul h) (eFB j hj) hSn (room _ _ (by linarith) (by
      rw [show g * c * (1 + mulErr U) * P * (c * P) * (1 + mulErr U) =
        g * (c * (1 + mulErr U) * P * (c * P) * (1 + mulErr U)) by ring]; exact gl _ l5) hSw2)).conj h
  set R := freshPow cfg M with hR
  have ems : ∑ i ∈ range m, (fun _ => S * (2 * n)) i = m * (S * (2 * n)) := by simp
  have eR : ∀ j, j < m → IAp N D (g * c * (1 + mulErr U) * P * (c * P) * (1 + mulErr U) * P) (R.getD j Cx.zero)
      (dft m (fun i => (starRingEnd ℂ) (dft m a i * dft m (bExact n) i)) j) (m * (S * (2 * n))) := by
    intro j hj
    have := ie_freshPow h cfg M (by rw [hMl]; exact hmp) _ (fun _ => S * (2 * n)) _ (by rw [hMl]; exact eM)
      (by rw [hMl]; exact hmΩ) (by rw [hMl]; exact hmD) (by rw [hMl]; exact hPΩ) (by
        rw [hMl, ems]
        exact room _ _ (by positivity) (by
          rw [show g * c * (1 + mulErr U) * P * (c * P) * (1 + mulErr U) * P =
            g * (c * (1 + mulErr U) * P * (c * P) * (1 + mulErr U) * P) by ring]; exact gl _ l6)
          (le_of_eq (by ring))) j (by omega)
    rwa [hMl, ems] at this
  have hout : bluOut cfg x = bluPost n m R := rfl
  rw [hout, bluPost, tab_getD hk]
  simp only []
  have hscale : RAp N D (1 + U) (F.div F.one (F.ofNat m)) (1 / (m : ℝ)) (1 / (m : ℝ)) := by
    obtain ⟨K, hK⟩ := isPow2_iff.mp hmp
    have o : RAp N D 1 F.one 1 1 := RAp.exact h.one.1 h.one.2 (by simp) hD1
    have hv := h.ofNat_pow K (by rw [hK] at hmΩ; exact (Nat.pow_lt_pow_iff_right (by norm_num)).mp hmΩ)
    rw [show (2 : ℝ) ^ K = (m : ℝ) by rw [hK]; push_cast; rfl, ← hK] at hv
    have := o.div h (b := F.ofNat m) (w := m) (h' := 1) (h.ofNat m hmΩ).1 (by rw [hv]; exact hm'.ne') hm' le_rfl
      (by rw [hv]; simp) (by rw [le_div_iff₀ hm']; linarith) (by
        rw [one_mul, one_mul]
        have : 1 / (m : ℝ) ≤ 1 := by rw [div_le_one hm']; exact hm1
        linarith)
    rwa [one_mul, one_mul] at this
  have eC := eR k (by omega)
  have e1 := eC.conj h
  have ew : (m : ℝ) * (S * (2 * n)) * (1 / m) = S * (2 * n) := by field_simp
  have e2 := e1.scale h hscale (by rw [ew]; exact hSn) (by
    rw [ew]
    exact room _ _ (by linarith) (by
      rw [show g * c * (1 + mulErr U) * P * (c * P) * (1 + mulErr U) * P * (1 + U) =
        g * (c * (1 + mulErr U) * P * (c * P) * (1 + mulErr U) * P * (1 + U)) by ring]; exact gl _ l7) hSw2)
  rw [ew] at e2
  have e3 := e2.mul h (ie_mul h) (ie_chirpAt h hk hn31 h38) (by rw [mul_one]; exact hSn) (by
    rw [mul_one]
    exact room _ _ (by linarith) (by
      rw [← hc, eE]
      exact le_of_eq (by ring)) hSw2)
  have eg : g * E =
      g * c * (1 + mulErr U) * P * (c * P) * (1 + mulErr U) * P * (1 + U) * (1 + U) * (1 + chirpErr U v t n) * (1 + mulErr U) := by
    rw [eE, ← hc]; ring
  rw [eg]
  rw [mul_one, show S * (2 * (n : ℝ)) = 2 * n * S by ring] at e3
  convert e3 using 1
  have hconv : (starRingEnd ℂ) (dft m (fun i => (starRingEnd ℂ) (dft m a i * dft m (bExact n) i)) k) *
      ((1 / (m : ℝ) : ℝ) : ℂ) = ∑ r ∈ range m, a r * bExact n ((k + (m - r)) % m) := by
    rw [← idft_mul a (bExact n) (show k < m by omega), idft_conj]
    push_cast; ring
  rw [hconv]
  have hsub : ∑ r ∈ range m, a r * bExact n ((k + (m - r)) % m) = ∑ r ∈ range n, a r * bExact n ((k + (m - r)) % m) := by
    symm
    apply sum_subset
    · intro r hr; rw [mem_range] at *; omega
    · intro r h1 h2
      rw [mem_range] at *
      have : a r = 0 := by simp only [a]; rw [if_neg h2]
      rw [this, zero_mul]
  rw [hsub, sum_mul]
  unfold dft
  apply sum_congr rfl
  intro r hr
  rw [mem_range] at hr
  have ea : a r = X r * exp (-(Real.pi * (r * r : ℕ) / n * I)) := by simp only [a]; rw [if_pos hr]
  have eb : bExact n ((k + (m - r)) % m) = exp (Real.pi * (((k : ℝ) - r) * (k - r) : ℝ) / n * I) := by
    by_cases htk : r ≤ k
    · have : (k + (m - r)) % m = k - r := by
        rw [Nat.mod_eq_sub_mod (by omega), Nat.mod_eq_of_lt (by omega)]; omega
      rw [this, bExact, if_pos (by omega)]
      push_cast [Nat.cast_sub htk]
      rfl
    · have : (k + (m - r)) % m = m - (r - k) := by
        rw [Nat.mod_eq_of_lt (by omega)]; omega
      rw [this, bExact, if_neg (by omega), if_pos (by rw [← hm]; omega), ← hm,
        show m - (m - (r - k)) = r - k by omega]
      push_cast [Nat.cast_sub (show k ≤ r by omega)]
      congr 1; ring
  rw [ea, eb, W, mul_assoc (X r), mul_assoc (X r), ← exp_add, ← exp_add]
  congr 2
  have : (n : ℂ) ≠ 0 := by exact_mod_cast (by omega : n ≠ 0)
  push_cast
  field_simp
  ring

end Kofft
