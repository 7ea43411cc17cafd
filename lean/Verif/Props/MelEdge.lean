import Verif.Props.MelErr
/-
Property C108, continued: the edges of the mel filters in floating-point arithmetic.
-/
namespace Kofft.Props
open Spec Finset

variable [F : Flt ℝ] {u v t w : ℝ}

omit F in
theorem one_le_log_ten : 1 ≤ Real.log 10 := by
  rw [Real.le_log_iff_exp_le (by norm_num)]
  have := Real.exp_one_lt_d9
  linarith

omit F in
/-- A decimal logarithm of a number known up to a relative error. -/
theorem log10_close {s S ε : ℝ} (hS : 0 < S) (h0 : 0 ≤ ε) (h1 : ε < 1) (h : |s - S| ≤ ε * S) :
    0 < s ∧ |Real.log s / Real.log 10 - Real.log S / Real.log 10| ≤ 1 / (1 - ε) - 1 := by
  obtain ⟨hs, h2⟩ := log_close hS h0 h1 h
  refine ⟨hs, ?_⟩
  rw [← sub_div, abs_div, abs_of_pos (by linarith [one_le_log_ten] : 0 < Real.log 10)]
  have h3 : 1 / (1 - ε) - 1 = ε / (1 - ε) := by
    have : 1 - ε ≠ 0 := by linarith
    field_simp
    ring
  rw [h3]
  exact (div_le_self (abs_nonneg _) one_le_log_ten).trans h2

theorem lit_rnd (h : Rounding F u v t) (m : ℕ) : RApx (1 + u) (F.lit m 0) m (m : ℝ) := by
  have h1 := h.lit m 0
  simp only [Int.cast_natCast, pow_zero, div_one, Nat.abs_cast] at h1
  exact RApx.mk' (by linarith [h.u_nonneg]) (by rw [add_sub_cancel_left]; exact h1) (by rw [Nat.abs_cast])

omit F in
theorem pow_close {x' x Δ : ℝ} (h : |x' - x| ≤ Δ) : RApx ((10 : ℝ) ^ Δ) ((10 : ℝ) ^ x') (10 ^ x) (10 ^ x) := by
  have hΔ : 0 ≤ Δ := (abs_nonneg _).trans h
  have p : (0 : ℝ) < 10 ^ x := by positivity
  have g1 : (1 : ℝ) ≤ 10 ^ Δ := Real.one_le_rpow (by norm_num) hΔ
  refine RApx.mk' g1 ?_ (by rw [abs_of_pos p])
  obtain ⟨l, r⟩ := abs_le.mp h
  have e : (10 : ℝ) ^ x' = 10 ^ x * 10 ^ (x' - x) := by rw [← Real.rpow_add (by norm_num)]; congr 1; ring
  have hi : (10 : ℝ) ^ (x' - x) ≤ 10 ^ Δ := Real.rpow_le_rpow_of_exponent_le (by norm_num) r
  have lo : (10 : ℝ) ^ (-Δ) ≤ 10 ^ (x' - x) := Real.rpow_le_rpow_of_exponent_le (by norm_num) l
  have hm : (10 : ℝ) ^ (-Δ) * 10 ^ Δ = 1 := by rw [← Real.rpow_add (by norm_num)]; simp
  have hp : (0 : ℝ) < 10 ^ (-Δ) := by positivity
  have lo2 : 2 - (10 : ℝ) ^ Δ ≤ 10 ^ (-Δ) := by nlinarith [sq_nonneg ((10 : ℝ) ^ Δ - 1)]
  rw [e, abs_le]
  constructor <;> nlinarith

/-- The exponent of an edge frequency from the computed logarithms `l0`, `l1` of its ends. -/
theorem melExp_core (h : Rounding F u v t) {c G l0 l1 L : ℝ} (hc : 0 < c) (hL0 : 0 ≤ L) (A0 : RApx G l0 0 1)
    (A1 : RApx G l1 L (L + 1)) (N i : ℕ) (hi : i ≤ N + 1) :
    |F.div (F.add (F.mul c l0) (F.div (F.mul (F.sub (F.mul c l1) (F.mul c l0)) (F.ofNat i)) (F.ofNat (N + 1)))) c -
      L * i / (N + 1 : ℕ)| ≤ (G * (1 + u) ^ 6 * ((1 + v) / (1 - v)) - 1) * (L + 3) := by
  have hu0 := h.u_nonneg
  have hv0 := h.v_nonneg
  have hv1 := h.v_lt_one
  have hcA : RApx 1 c c c := by simpa [abs_of_pos hc] using RApx.refl c
  have a2 := RApx.mul hcA A0 hu0 (h.mul c l0)
  rw [one_mul, mul_zero, mul_one] at a2
  have b7 := RApx.mul hcA A1 hu0 (h.mul c l1)
  rw [one_mul] at b7
  have d1 := RApx.add b7 (RApx.neg a2) hu0 (c := F.sub (F.mul c l1) (F.mul c l0)) (by
    rw [← sub_eq_add_neg]; exact h.sub _ _)
  rw [neg_zero, add_zero] at d1
  have d2 := RApx.mul d1 (nat_rnd h i) hu0 (h.mul (F.sub (F.mul c l1) (F.mul c l0)) (F.ofNat i))
  have hN : (0 : ℝ) < (N + 1 : ℕ) := by positivity
  have d3 := div_rnd h d2 (w := ((N + 1 : ℕ) : ℝ)) hN.ne' hv0 hv1 (by rw [Nat.abs_cast]; exact h.ofNat _)
  have hG := Apx.one A0
  have a3 : RApx (G * (1 + u) * (1 + u) * (1 + v) * (1 + u) * (1 / (1 - v)) * (1 + u)) (F.mul c l0) 0 c := by
    refine Apx.mono a2 ?_
    have k1 : 1 ≤ (1 + u) * (1 + v) * (1 + u) * (1 / (1 - v)) * (1 + u) := by
      have : 1 ≤ 1 / (1 - v) := by rw [le_div_iff₀ (by linarith)]; linarith
      refine one_le_mul_of_one_le_of_one_le (one_le_mul_of_one_le_of_one_le (one_le_mul_of_one_le_of_one_le
        (one_le_mul_of_one_le_of_one_le ?_ ?_) ?_) this) ?_ <;> linarith
    rw [show G * (1 + u) * (1 + u) * (1 + v) * (1 + u) * (1 / (1 - v)) * (1 + u) =
      G * (1 + u) * ((1 + u) * (1 + v) * (1 + u) * (1 / (1 - v)) * (1 + u)) by ring]
    exact le_mul_of_one_le_right (by linarith [Apx.one a2]) k1
  have d4 := RApx.add a3 d3 hu0 (h.add _ _)
  have d5 := RApx.mul d4 ((RApx.inv hc.ne' le_rfl one_pos (a := c) (by simp)).2) hu0
    (c := F.div (F.add (F.mul c l0) (F.div (F.mul (F.sub (F.mul c l1) (F.mul c l0)) (F.ofNat i)) (F.ofNat (N + 1)))) c) (by
    rw [← div_eq_mul_inv]; exact h.div _ _ hc.ne')
  have d6 := d5.abs_err
  have e1 : (0 + c * L * (i : ℝ) / ((N + 1 : ℕ) : ℝ)) * c⁻¹ = L * i / (N + 1 : ℕ) := by
    field_simp; ring
  rw [e1] at d6
  refine d6.trans ?_
  have hi' : (i : ℝ) * ((N + 1 : ℕ) : ℝ)⁻¹ ≤ 1 := by
    rw [← div_eq_mul_inv, div_le_one hN]
    exact_mod_cast hi
  have e2 : G * (1 + u) * (1 + u) * (1 + v) * (1 + u) * (1 / (1 - v)) * (1 + u) * (1 + u) *
      (1 / (1 - 0)) * (1 + u) = G * (1 + u) ^ 6 * ((1 + v) / (1 - v)) := by ring
  rw [e2]
  have hone := Apx.one d5
  rw [e2] at hone
  refine mul_le_mul_of_nonneg_left ?_ (by linarith)
  rw [abs_of_pos (inv_pos.mpr hc), abs_of_pos (inv_pos.mpr hN)]
  have e3 : (c + (c * (L + 1) + c) * (i : ℝ) * ((N + 1 : ℕ) : ℝ)⁻¹) * c⁻¹ =
      1 + (L + 2) * ((i : ℝ) * ((N + 1 : ℕ) : ℝ)⁻¹) := by
    field_simp; ring
  rw [e3]
  nlinarith

/-- The exponent of an edge frequency. -/
theorem melExp_rnd (h : Rounding F u v t) (hL : Libm F w) (h2 : (1 + u) ^ 3 / (1 - u) < 2) (hu : u < 1 / 2)
    {sr : ℝ} (hsr : 0 < sr) (N i : ℕ) (hi : i ≤ N + 1) :
    |F.div (F.add (F.mul (F.lit 2595 0) (F.log10 (F.add F.one (F.div F.zero (F.lit 700 0)))))
        (F.div (F.mul (F.sub (F.mul (F.lit 2595 0) (F.log10 (F.add F.one (F.div (F.div sr two) (F.lit 700 0)))))
            (F.mul (F.lit 2595 0) (F.log10 (F.add F.one (F.div F.zero (F.lit 700 0)))))) (F.ofNat i)) (F.ofNat (N + 1))))
        (F.lit 2595 0) -
      Real.log (1 + sr / 1400) / Real.log 10 * i / (N + 1 : ℕ)| ≤ melExpErr u v w sr := by
  have hu0 := h.u_nonneg
  have hv0 := h.v_nonneg
  have hv1 := h.v_lt_one
  have hw := hL.w_nonneg
  set L := Real.log (1 + sr / 1400) / Real.log 10 with hLd
  have hL0 : 0 ≤ L := div_nonneg (Real.log_nonneg (by have : 0 < sr / 1400 := by positivity
                                                      linarith)) (by linarith [one_le_log_ten])
  -- 700
  have c7 := lit_rnd h 700
  have c7' : |F.lit 700 0 - 700| ≤ u * |(700 : ℝ)| := by
    have := c7.abs_err
    rw [add_sub_cancel_left] at this
    simpa using this
  have c7pos : F.lit 700 0 ≠ 0 := (RApx.inv (by norm_num) hu0 (by linarith) c7').1
  -- the constant 2595
  have c25 := (lit_rnd h 2595).abs_err
  rw [add_sub_cancel_left] at c25
  have hc : 0 < F.lit 2595 0 := by
    have := (abs_le.mp c25).1
    push_cast at this
    nlinarith
  -- the lowest edge
  set g1 := (1 + u) ^ 3 / (1 - u) with hg1
  have hg1u : 1 + u ≤ g1 := by
    rw [hg1, le_div_iff₀ (by linarith)]
    nlinarith [mul_nonneg hu0 hu0, mul_nonneg (mul_nonneg hu0 hu0) hu0]
  have z0 : F.div F.zero (F.lit 700 0) = 0 := by
    have := h.div F.zero (F.lit 700 0) c7pos
    rw [h.zero, zero_div, sub_zero, abs_zero, mul_zero] at this
    rw [h.zero]
    exact abs_eq_zero.mp (le_antisymm this (abs_nonneg _))
  have y0 : |F.add F.one (F.div F.zero (F.lit 700 0)) - 1| ≤ u * 1 := by
    have := h.add F.one 0
    rw [z0]
    rw [h.one, add_zero, abs_one] at this
    rwa [h.one]
  obtain ⟨p0, q0⟩ := log10_close one_pos hu0 (by linarith) y0
  rw [Real.log_one, zero_div, sub_zero] at q0
  have hgu : 1 / (1 - u) ≤ 1 / (2 - g1) := one_div_le_one_div_of_le (by linarith) (by linarith)
  have one_u : 1 ≤ 1 / (1 - u) := by rw [le_div_iff₀ (by linarith)]; linarith
  have a0 : RApx (1 / (2 - g1)) (Real.log (F.add F.one (F.div F.zero (F.lit 700 0))) / Real.log 10) 0 1 :=
    RApx.mk' (by linarith) (by rw [sub_zero, mul_one]; linarith) (by simp)
  have a1 := RApx.round a0 hw (hL.log10 _ p0)
  -- the highest edge
  have b1 : RApx (1 + u) (F.div sr two) (sr / 2) (sr / 2) := by
    have := h.div sr two (by rw [two_eq h]; norm_num)
    rw [two_eq h, abs_of_pos (by positivity : 0 < sr / 2)] at this
    rw [two_eq h]
    exact RApx.mk' (by linarith) (by rw [add_sub_cancel_left]; exact this) (by rw [abs_of_pos (by positivity)])
  have b2 := div_rnd h b1 (w := 700) (by norm_num) hu0 (by linarith) c7'
  rw [abs_of_pos (by norm_num : (0 : ℝ) < 700⁻¹), ← div_eq_mul_inv, div_div,
    show (2 : ℝ) * 700 = 1400 by norm_num] at b2
  have b3 : RApx ((1 + u) * (1 / (1 - u)) * (1 + u)) F.one 1 1 := by
    rw [h.one]; exact RApx.mk' (Apx.one b2) (by rw [sub_self, abs_zero, mul_one]; linarith [Apx.one b2]) (by simp)
  have b4 := RApx.add b3 b2 hu0 (h.add _ _)
  rw [show (1 + u) * (1 / (1 - u)) * (1 + u) * (1 + u) = g1 by rw [hg1]; ring] at b4
  have hS : 0 < 1 + sr / 1400 := by positivity
  obtain ⟨p1, q1⟩ := log10_close hS (by linarith : 0 ≤ g1 - 1) (by linarith) b4.abs_err
  rw [show 1 - (g1 - 1) = 2 - g1 by ring, ← hLd] at q1
  have b5 : RApx (1 / (2 - g1))
      (Real.log (F.add F.one (F.div (F.div sr two) (F.lit 700 0))) / Real.log 10) L (L + 1) :=
    RApx.mk' (by linarith) (q1.trans (le_mul_of_one_le_right (by linarith) (by linarith)))
      (by rw [abs_of_nonneg hL0]; linarith)
  have b6 := RApx.round b5 hw (hL.log10 _ p1)
  exact melExp_core h hc hL0 a1 b6 N i hi

/-- An edge before rounding down. -/
theorem melEdge_rnd (h : Rounding F u v t) (hL : Libm F w) (h2 : (1 + u) ^ 3 / (1 - u) < 2) (hu : u < 1 / 2)
    {sr : ℝ} (hsr : 0 < sr) (n N i : ℕ) (hi : i ≤ N + 1) :
    |F.div (F.mul (melPoint sr N i) (F.add (F.ofNat n) F.one)) sr - melEdge sr N i * (n + 1) / sr| ≤
      melEdgeErr u v w sr n := by
  have hu0 := h.u_nonneg
  have hw := hL.w_nonneg
  have H := melExp_rnd h hL h2 hu hsr N i hi
  set L := Real.log (1 + sr / 1400) / Real.log 10 with hLd
  have hL0 : 0 ≤ L := div_nonneg (Real.log_nonneg (by have : 0 < sr / 1400 := by positivity
                                                      linarith)) (by linarith [one_le_log_ten])
  set x := L * i / (N + 1 : ℕ) with hx
  have hN : (0 : ℝ) < (N + 1 : ℕ) := by positivity
  have hxL : x ≤ L := by
    rw [hx, div_le_iff₀ hN]
    exact mul_le_mul_of_nonneg_left (by exact_mod_cast hi) hL0
  have h10 : (10 : ℝ) ^ L = 1 + sr / 1400 := by
    rw [hLd, Real.rpow_def_of_pos (by norm_num), mul_div_cancel₀ _ (by linarith [one_le_log_ten]),
      Real.exp_log (by positivity)]
  have hpx : (10 : ℝ) ^ x ≤ 1 + sr / 1400 := by
    rw [← h10]; exact Real.rpow_le_rpow_of_exponent_le (by norm_num) hxL
  have hedge : melEdge sr N i = 700 * (10 ^ x - 1) := by
    unfold melEdge hzOf melOf
    rw [hx, hLd]
    congr 3
    rw [show sr / 2 / 700 = sr / 1400 by ring]
    field_simp
  have a1 := pow_close H
  have e0 : melPoint sr N i = F.mul (F.lit 700 0) (F.sub (F.pow 10
      (F.div (F.add (F.mul (F.lit 2595 0) (F.log10 (F.add F.one (F.div F.zero (F.lit 700 0)))))
        (F.div (F.mul (F.sub (F.mul (F.lit 2595 0) (F.log10 (F.add F.one (F.div (F.div sr two) (F.lit 700 0)))))
            (F.mul (F.lit 2595 0) (F.log10 (F.add F.one (F.div F.zero (F.lit 700 0)))))) (F.ofNat i)) (F.ofNat (N + 1))))
        (F.lit 2595 0))) F.one) := by
    rw [← hL.ten]; rfl
  rw [e0]
  clear e0 H
  generalize F.div (F.add (F.mul (F.lit 2595 0) (F.log10 (F.add F.one (F.div F.zero (F.lit 700 0)))))
        (F.div (F.mul (F.sub (F.mul (F.lit 2595 0) (F.log10 (F.add F.one (F.div (F.div sr two) (F.lit 700 0)))))
            (F.mul (F.lit 2595 0) (F.log10 (F.add F.one (F.div F.zero (F.lit 700 0)))))) (F.ofNat i)) (F.ofNat (N + 1))))
        (F.lit 2595 0) = x' at a1 ⊢
  have a2 := RApx.round a1 hw (c := F.pow 10 x') (by
    rw [abs_of_pos (Real.rpow_pos_of_pos (by norm_num) x')]
    exact hL.pow 10 x' (by norm_num))
  have one : RApx ((10 : ℝ) ^ melExpErr u v w sr * (1 + w)) F.one 1 1 := by
    rw [h.one]; exact RApx.mk' (Apx.one a2) (by simp; linarith [Apx.one a2]) (by simp)
  have a3 := RApx.add a2 (RApx.neg one) hu0 (c := F.sub (F.pow 10 x') F.one) (by
    rw [← sub_eq_add_neg]; exact h.sub _ _)
  have a4 := RApx.mul (lit_rnd h 700) a3 hu0 (h.mul _ _)
  have a5 := RApx.mul a4 (idxo_rnd h n (by rw [h.one]; norm_num : (0 : ℝ) ≤ F.one)) hu0 (h.mul _ _)
  have a6 := RApx.mul a5 ((RApx.inv hsr.ne' le_rfl one_pos (a := sr) (by simp)).2) hu0 (c := F.div _ sr) (by
    rw [← div_eq_mul_inv]; exact h.div _ _ hsr.ne')
  have a7 := a6.abs_err
  have e1 : ((700 : ℕ) : ℝ) * (10 ^ x + -1) * ((n : ℝ) + F.one) * sr⁻¹ = melEdge sr N i * (n + 1) / sr := by
    rw [hedge, h.one]; push_cast; ring
  rw [e1] at a7
  refine a7.trans ?_
  unfold melEdgeErr
  have e2 : (1 + u) * ((10 : ℝ) ^ melExpErr u v w sr * (1 + w) * (1 + u)) * (1 + u) * ((1 + v) * (1 + u)) * (1 + u) *
      (1 / (1 - 0)) * (1 + u) = 10 ^ melExpErr u v w sr * (1 + w) * (1 + u) ^ 6 * (1 + v) := by ring
  have hone := Apx.one a6
  rw [e2] at hone ⊢
  refine mul_le_mul_of_nonneg_left ?_ (by linarith)
  rw [abs_of_pos (inv_pos.mpr hsr), h.one]
  have e3 : ((n : ℝ) + 1) * (1400 / sr + 1 / 2) = ((700 : ℕ) : ℝ) * ((1 + sr / 1400) + 1) * (n + 1) * sr⁻¹ := by
    push_cast; field_simp; ring
  rw [e3]
  have : 0 < sr⁻¹ := inv_pos.mpr hsr
  gcongr

/-- C108d. The edges of the mel filters in rounding arithmetic: the bin the function computes for edge `i` is the
exact edge frequency in bins rounded down, with the stated uncertainty before rounding down. -/
theorem mel_bins_error (hF : Rounding F u v t) (hL : Libm F w) (h2 : (1 + u) ^ 3 / (1 - u) < 2) (hu : u < 1 / 2)
    {sr : ℝ} (hsr : 0 < sr) (n N i : ℕ) (hi : i ≤ N + 1) :
    melEdge sr N i * (n + 1) / sr - melEdgeErr u v w sr n - 1 < (melBins n sr N).getD i 0 ∧
    ((melBins n sr N).getD i 0 : ℝ) ≤ melEdge sr N i * (n + 1) / sr + melEdgeErr u v w sr n := by
  have hl := melBins_length (T := ℝ) n sr N
  have H := melEdge_rnd hF hL h2 hu hsr n N i hi
  obtain ⟨l, r⟩ := abs_le.mp H
  have e : (melBins n sr N).getD i 0 = ⌊F.div (F.mul (melPoint sr N i) (F.add (F.ofNat n) F.one)) sr⌋₊ := by
    rw [List.getD_eq_getElem _ _ (by omega), ← hL.bin]
    simp [melBins]
  rw [e]
  set a := F.div (F.mul (melPoint sr N i) (F.add (F.ofNat n) F.one)) sr
  have h0 : 0 ≤ melEdgeErr u v w sr n := (abs_nonneg _).trans H
  constructor
  · have := Nat.lt_floor_add_one a
    linarith
  · rcases le_or_gt 0 a with ha | ha
    · have := Nat.floor_le ha
      linarith
    · rw [Nat.floor_of_nonpos ha.le]
      have hE : 0 ≤ melEdge sr N i := by
        have := hzOf_mono (a := 0) (b := melOf (sr / 2) * i / (N + 1 : ℕ)) (by
          have := melOf_nonneg (f := sr / 2) (by positivity)
          positivity)
        have z : hzOf 0 = 0 := by simp [hzOf]
        rw [z] at this
        exact this
      push_cast
      positivity

/-- C108e. While the uncertainty is below one bin, every computed edge bin is the exact one or a neighbour. -/
theorem mel_bins_neighbour (hF : Rounding F u v t) (hL : Libm F w) (h2 : (1 + u) ^ 3 / (1 - u) < 2) (hu : u < 1 / 2)
    {sr : ℝ} (hsr : 0 < sr) (n N i : ℕ) (hi : i ≤ N + 1) (hε : melEdgeErr u v w sr n ≤ 1) :
    (melBins n sr N).getD i 0 ≤ melBin n sr N i + 1 ∧ melBin n sr N i ≤ (melBins n sr N).getD i 0 + 1 := by
  obtain ⟨h3, h4⟩ := mel_bins_error hF hL h2 hu hsr n N i hi
  have hE : 0 ≤ melEdge sr N i * (n + 1) / sr := by
    have := hzOf_mono (a := 0) (b := melOf (sr / 2) * i / (N + 1 : ℕ)) (by
      have := melOf_nonneg (f := sr / 2) (by positivity)
      positivity)
    have z : hzOf 0 = 0 := by simp [hzOf]
    rw [z] at this
    have : 0 ≤ melEdge sr N i := this
    positivity
  have h5 := Nat.floor_le hE
  have h6 := Nat.lt_floor_add_one (melEdge sr N i * (n + 1) / sr)
  unfold melBin
  constructor
  · have : ((melBins n sr N).getD i 0 : ℝ) < ⌊melEdge sr N i * (n + 1) / sr⌋₊ + 2 := by linarith
    have : (melBins n sr N).getD i 0 < ⌊melEdge sr N i * (n + 1) / sr⌋₊ + 2 := by exact_mod_cast this
    omega
  · have : (⌊melEdge sr N i * (n + 1) / sr⌋₊ : ℝ) < (melBins n sr N).getD i 0 + 2 := by linarith
    have : ⌊melEdge sr N i * (n + 1) / sr⌋₊ < (melBins n sr N).getD i 0 + 2 := by exact_mod_cast this
    omega

/-! ### Concrete bounds -/

omit F in
theorem log10_le {y : ℝ} (h0 : 0 < y) (h : y ≤ 1000) : Real.log y / Real.log 10 ≤ 3 := by
  have h10 := one_le_log_ten
  rw [div_le_iff₀ (by linarith)]
  have := Real.log_le_log h0 h
  rw [show (1000 : ℝ) = 10 ^ 3 by norm_num, Real.log_pow] at this
  simpa using this

omit F in
theorem ten_pow_le {Δ : ℝ} (h0 : 0 ≤ Δ) (h : Δ ≤ 102 / 2 ^ 24) : (10 : ℝ) ^ Δ ≤ 1 + 285 / 2 ^ 24 := by
  have h10 : Real.log 10 ≤ 2.78 := by
    have h1 : Real.log 10 ≤ Real.log (2 ^ 4) := Real.log_le_log (by norm_num) (by norm_num)
    rw [Real.log_pow] at h1
    have := Real.log_two_lt_d9
    push_cast at h1
    linarith
  have hl := one_le_log_ten
  rw [Real.rpow_def_of_pos (by norm_num)]
  have hb : Real.log 10 * Δ ≤ 284 / 2 ^ 24 := by
    calc Real.log 10 * Δ ≤ 2.78 * (102 / 2 ^ 24) := mul_le_mul h10 h h0 (by norm_num)
      _ ≤ _ := by norm_num
  have hb0 : 0 ≤ Real.log 10 * Δ := mul_nonneg (by linarith) h0
  generalize Real.log 10 * Δ = y at hb hb0
  have h1 : |y| ≤ 1 := by rw [abs_of_nonneg hb0]; refine hb.trans (by norm_num)
  have h2 := (abs_le.mp (Real.abs_exp_sub_one_sub_id_le h1)).2
  have h3 : y ^ 2 ≤ (284 / 2 ^ 24) ^ 2 := pow_le_pow_left₀ hb0 hb 2
  have h4 : ((284 : ℝ) / 2 ^ 24) ^ 2 ≤ 1 / 2 ^ 24 := by norm_num
  have h5 : (284 : ℝ) / 2 ^ 24 + 1 / 2 ^ 24 = 285 / 2 ^ 24 := by norm_num
  linarith

/-- C108f. In binary32, with library functions good to two units in the last place, a sample rate of 8 to 192 kHz and
up to 65536 magnitudes, no filter edge is off by more than one bin. -/
theorem mel_bins_binary32 (hF : Rounding F (1 / 2 ^ 24) (1 / 2 ^ 24) t) (hL : Libm F (1 / 2 ^ 22)) {sr : ℝ}
    (h8 : 8000 ≤ sr) (h192 : sr ≤ 192000) (n N i : ℕ) (hn : n ≤ 65536) (hi : i ≤ N + 1) :
    (melBins n sr N).getD i 0 ≤ melBin n sr N i + 1 ∧ melBin n sr N i ≤ (melBins n sr N).getD i 0 + 1 := by
  refine mel_bins_neighbour hF hL (by norm_num) (by norm_num) (by linarith) n N i hi ?_
  have hd : melExpErr (1 / 2 ^ 24) (1 / 2 ^ 24) (1 / 2 ^ 22) sr ≤ 102 / 2 ^ 24 ∧
      0 ≤ melExpErr (1 / 2 ^ 24) (1 / 2 ^ 24) (1 / 2 ^ 22) sr := by
    unfold melExpErr
    have hq : (1 : ℝ) / (2 - (1 + 1 / 2 ^ 24) ^ 3 / (1 - 1 / 2 ^ 24)) * (1 + 1 / 2 ^ 22) * (1 + 1 / 2 ^ 24) ^ 6 *
        ((1 + 1 / 2 ^ 24) / (1 - 1 / 2 ^ 24)) - 1 ≤ 17 / 2 ^ 24 ∧
      0 ≤ (1 : ℝ) / (2 - (1 + 1 / 2 ^ 24) ^ 3 / (1 - 1 / 2 ^ 24)) * (1 + 1 / 2 ^ 22) * (1 + 1 / 2 ^ 24) ^ 6 *
        ((1 + 1 / 2 ^ 24) / (1 - 1 / 2 ^ 24)) - 1 := by
      constructor <;> norm_num
    have hl : Real.log (1 + sr / 1400) / Real.log 10 ≤ 3 := log10_le (by positivity) (by
      have : sr / 1400 ≤ 192000 / 1400 := by gcongr
      linarith [(by norm_num : (192000 : ℝ) / 1400 ≤ 999)])
    have hl0 : 0 ≤ Real.log (1 + sr / 1400) / Real.log 10 :=
      div_nonneg (Real.log_nonneg (by
        have : 0 < sr / 1400 := by positivity
        linarith)) (by linarith [one_le_log_ten])
    generalize Real.log (1 + sr / 1400) / Real.log 10 = l at hl hl0
    obtain ⟨q1, q2⟩ := hq
    refine ⟨?_, mul_nonneg q2 (by linarith)⟩
    calc _ ≤ (17 : ℝ) / 2 ^ 24 * 6 := mul_le_mul q1 (by linarith) (by linarith) (by norm_num)
      _ = _ := by norm_num
  unfold melEdgeErr
  have hp := ten_pow_le hd.2 hd.1
  have hp1 : (1 : ℝ) ≤ 10 ^ melExpErr (1 / 2 ^ 24) (1 / 2 ^ 24) (1 / 2 ^ 22) sr :=
    Real.one_le_rpow (by norm_num) hd.2
  generalize (10 : ℝ) ^ melExpErr (1 / 2 ^ 24) (1 / 2 ^ 24) (1 / 2 ^ 22) sr = P at hp hp1
  have hn' : (n : ℝ) + 1 ≤ 65537 := by
    have : (n : ℝ) ≤ 65536 := by exact_mod_cast hn
    linarith
  have hs : 1400 / sr + 1 / 2 ≤ 0.675 := by
    have : 1400 / sr ≤ 1400 / 8000 := by gcongr
    linarith [(by norm_num : (1400 : ℝ) / 8000 + 1 / 2 = 0.675)]
  have hs0 : 0 ≤ 1400 / sr + 1 / 2 := by positivity
  have h1 : P * (1 + 1 / 2 ^ 22) * (1 + 1 / 2 ^ 24) ^ 6 * (1 + 1 / 2 ^ 24) - 1 ≤ 297 / 2 ^ 24 := by
    have : P * (1 + 1 / 2 ^ 22) * (1 + 1 / 2 ^ 24) ^ 6 * (1 + 1 / 2 ^ 24) ≤
        (1 + 285 / 2 ^ 24) * (1 + 1 / 2 ^ 22) * (1 + 1 / 2 ^ 24) ^ 6 * (1 + 1 / 2 ^ 24) := by gcongr
    refine (sub_le_sub_right this 1).trans (by norm_num)
  have h2 : ((n : ℝ) + 1) * (1400 / sr + 1 / 2) ≤ 65537 * 0.675 := mul_le_mul hn' hs hs0 (by norm_num)
  calc _ ≤ (297 : ℝ) / 2 ^ 24 * (65537 * 0.675) := mul_le_mul h1 h2 (by positivity) (by norm_num)
    _ ≤ 1 := by norm_num

omit F in
/-- In readable form: the relative error of an energy is about `n` roundings. -/
theorem melGrowth_linear (hu : 0 ≤ u) (n : ℕ) (h : (n + 5) * u ≤ 1) : melGrowth u u n ≤ 1 + 2 * (n + 5) * u := by
  have hn : (0 : ℝ) ≤ n := Nat.cast_nonneg n
  have hu5 : 5 * u ≤ 1 := by nlinarith
  have h1 : (1 + u) / (1 - u) ≤ (1 + u) ^ 3 := by
    rw [div_le_iff₀ (by linarith)]
    have : 0 ≤ (1 + u) * (u * (1 - u - u ^ 2)) := by
      refine mul_nonneg (by linarith) (mul_nonneg hu ?_)
      nlinarith
    nlinarith
  have h2 : melGrowth u u n ≤ (1 + u) ^ (n + 5) := by
    unfold melGrowth
    calc _ ≤ (1 + u) ^ 3 * (1 + u) ^ (n + 2) := mul_le_mul_of_nonneg_right h1 (by positivity)
      _ = _ := by rw [← pow_add]; congr 1; omega
  refine h2.trans ?_
  have h3 : (1 + u) ^ (n + 5) ≤ Real.exp ((n + 5) * u) := by
    have := Real.add_one_le_exp u
    calc (1 + u) ^ (n + 5) ≤ Real.exp u ^ (n + 5) := pow_le_pow_left₀ (by linarith) (by linarith) _
      _ = _ := by rw [← Real.exp_nat_mul]; push_cast; rfl
  refine h3.trans ?_
  have h0 : 0 ≤ (n + 5) * u := by positivity
  have h4 := (abs_le.mp (Real.abs_exp_sub_one_sub_id_le (by rw [abs_of_nonneg h0]; exact h))).2
  nlinarith

omit F in
/-- The rounding arithmetic with correctly rounded library functions meets the hypotheses. -/
theorem rndFlt_libm (p q : ℕ) (hp : 11 ≤ p) (fused fma : Bool) : Libm (rndFlt p q fused fma) (1 / 2 ^ p) where
  w_nonneg := by positivity
  sqrt := fun a _ => by
    have := rnd_close p (Real.sqrt a)
    rwa [abs_of_nonneg (Real.sqrt_nonneg a)] at this
  log := fun a _ => rnd_close p _
  log10 := fun a _ => rnd_close p _
  pow := fun a b h => by
    have := rnd_close p (a ^ b)
    rwa [abs_of_pos (Real.rpow_pos_of_pos h b)] at this
  ten := by
    show rnd p (((10 : ℤ) : ℝ) / 10 ^ 0) = 10
    have h : 2 ^ 11 ≤ 2 ^ p := Nat.pow_le_pow_right (by norm_num) hp
    have := rnd_nat p 10 (by omega)
    simpa using this
  bin := fun a => by
    show ⌊((⌊a⌋ : ℤ) : ℝ)⌋₊ = ⌊a⌋₊
    rw [← Int.floor_toNat, Int.floor_intCast, Int.floor_toNat]

omit F in
/-- Concrete cases: 13 coefficients of three magnitudes, and the cepstrum of an impulse, whose spectrum has magnitude one
everywhere (so that `M = 1`). -/
example (fused fma : Bool) : letI := rndFlt 24 24 fused fma
    (∃ y, mfcc [1, 2, (3 : ℝ)] 44100 26 13 = .ok (.ok y) ∧ y.length = 13) ∧
    (∃ y, realCepstrum ⟨true, .f32, false, 4, false⟩ [1, 0, 0, (0 : ℝ)] = .ok (.ok y) ∧ y.length = 4) := by
  letI := rndFlt 24 24 fused fma
  have hF := rndFlt_rounding 24 24 (by norm_num) (by norm_num) fused fma
  have hL := rndFlt_libm 24 24 (by norm_num) fused fma
  constructor
  · obtain ⟨y, h1, h2, -⟩ := mfcc_error hF hL (by norm_num) (by norm_num) [1, 2, (3 : ℝ)] (by simp) 44100 26 13
      (by norm_num) (by unfold melGrowth; norm_num) _ (fun _ => rfl)
    exact ⟨y, h1, h2⟩
  · obtain ⟨y, h1, h2, -⟩ := cepstrum_error hF hL ⟨true, .f32, false, 4, false⟩ [1, 0, 0, (0 : ℝ)] ⟨2, rfl⟩ (M := 1)
      one_pos (by
        intro k hk
        have e : dft [1, 0, 0, (0 : ℝ)].length (rsig [1, 0, 0, (0 : ℝ)]) k = 1 := by
          simp [dft, rsig, Finset.sum_range_succ, W_zero]
        rw [e]; norm_num) rfl (by
        have e : isPow2 4 = true := by decide
        simp [magGrowth, fftGrowth, powGrowth, twGrowth, e, Finset.sum_range_succ]
        have e2 : Nat.log2 4 = 2 := by decide
        have hs : Real.sqrt 2 ≤ 3 / 2 := by rw [Real.sqrt_le_iff]; norm_num
        have hs0 := Real.sqrt_nonneg 2
        have hm : mulErr ((2 : ℝ) ^ 24)⁻¹ ≤ 3 / 2 * (2 * ((2 : ℝ) ^ 24)⁻¹ + ((2 : ℝ) ^ 24)⁻¹ ^ 2) := by
          unfold mulErr; gcongr
        have hm0 : 0 ≤ mulErr ((2 : ℝ) ^ 24)⁻¹ := by unfold mulErr; positivity
        rw [e2]
        refine lt_of_le_of_lt (b := (1 + ((2 : ℝ) ^ 24)⁻¹) ^ 3 * (1 + (2 ^ 24)⁻¹) * ((1 + (2 ^ 24)⁻¹) *
          (1 + 3 / 2 * (2 * ((2 : ℝ) ^ 24)⁻¹ + ((2 : ℝ) ^ 24)⁻¹ ^ 2)) * (1 + 3 / 2 * (2 ^ 24)⁻¹)) ^ 2) ?_ (by norm_num)
        gcongr) _ (fun _ => rfl)
    exact ⟨y, h1, h2⟩

end Kofft.Props
