import Verif.Spec.MelErr
import Verif.Props.Mel
import Verif.Props.RangeCepstrum
import Verif.Props.RoundingTrig
import Verif.Props.RoundingSpectral
/-
Property C108: accuracy of mel energies, mel-frequency cepstral coefficients and real cepstra in floating-point arithmetic.
-/
namespace Kofft.Props
open Spec Finset

variable [F : Flt ℝ] {u v t w : ℝ}

/-! ### Energies -/

/-- A slope weight. -/
theorem slope_rnd (h : Rounding F u v t) (a b : ℕ) (hb : 0 < b) :
    RApx ((1 + v) * (1 / (1 - v)) * (1 + u)) (F.div (F.ofNat a) (F.ofNat b)) ((a : ℝ) / b) ((a : ℝ) / b) := by
  have hb' : (0 : ℝ) < b := by exact_mod_cast hb
  have := div_rnd h (nat_rnd h a) (w := (b : ℝ)) hb'.ne' h.v_nonneg h.v_lt_one (by rw [Nat.abs_cast]; exact h.ofNat b)
  rwa [abs_of_pos (inv_pos.mpr hb'), ← div_eq_mul_inv] at this

/-- One step of an energy loop. -/
theorem melStep_rnd (h : Rounding F u v t) {n k : ℕ} (hk : k < n) {p q e z A x : ℝ} (hq : 0 ≤ q)
    (hp : RApx ((1 + v) * (1 / (1 - v)) * (1 + u)) p q q)
    (he : RApx ((1 + v) * (1 / (1 - v)) * (1 + u) ^ 2 * (1 + u) ^ min k n) e z A) :
    RApx ((1 + v) * (1 / (1 - v)) * (1 + u) ^ 2 * (1 + u) ^ min (k + 1) n) (F.add e (F.mul p x)) (z + q * x)
      (A + q * |x|) := by
  have hu := h.u_nonneg
  have h1 := RApx.mul hp (RApx.refl x) hu (h.mul p x)
  rw [mul_one] at h1
  have h1' : RApx ((1 + v) * (1 / (1 - v)) * (1 + u) ^ 2 * (1 + u) ^ min k n) (F.mul p x) (q * x) (q * |x|) := by
    refine Apx.mono h1 ?_
    have g := Apx.one h1
    rw [show (1 + v) * (1 / (1 - v)) * (1 + u) ^ 2 = (1 + v) * (1 / (1 - v)) * (1 + u) * (1 + u) by ring]
    exact le_mul_of_one_le_right (by linarith) (one_le_pow₀ (by linarith))
  have h2 := RApx.add he h1' hu (h.add _ _)
  rw [min_eq_left hk.le] at h2
  rw [min_eq_left (by omega), pow_succ (1 + u) k, ← mul_assoc]
  exact h2

theorem rise_rnd (h : Rounding F u v t) (mags : List ℝ) (lo mid : ℕ) {e z A : ℝ}
    (he : RApx ((1 + v) * (1 / (1 - v)) * (1 + u) ^ 2 * (1 + u) ^ min lo mags.length) e z A) :
    ∃ e', (forRange lo mid e fun k e => (pure (melRise mags lo mid k e) : Outcome ℝ)) = .ok e' ∧
      RApx ((1 + v) * (1 / (1 - v)) * (1 + u) ^ 2 * (1 + u) ^ min (max lo mid) mags.length) e'
        (z + ∑ k ∈ Ico lo mid, (k - lo : ℝ) / (mid - lo) * mags.getD k 0)
        (A + ∑ k ∈ Ico lo mid, (k - lo : ℝ) / (mid - lo) * |mags.getD k 0|) := by
  by_cases hle : lo ≤ mid
  · obtain ⟨e', h1, h2⟩ := forRange_ok (f := fun k e => (pure (melRise mags lo mid k e) : Outcome ℝ))
      (fun i e => RApx ((1 + v) * (1 / (1 - v)) * (1 + u) ^ 2 * (1 + u) ^ min i mags.length) e
        (z + ∑ k ∈ Ico lo i, (k - lo : ℝ) / (mid - lo) * mags.getD k 0)
        (A + ∑ k ∈ Ico lo i, (k - lo : ℝ) / (mid - lo) * |mags.getD k 0|)) (lo := lo) (hi := mid) (s := e) hle
      (by simpa using he) (by
        intro k s h1 h2 hs
        refine ⟨_, rfl, ?_⟩
        rw [sum_Ico_succ_top h1, sum_Ico_succ_top h1, ← add_assoc, ← add_assoc]
        unfold melRise
        rw [List.getD_eq_getElem?_getD]
        by_cases hk : k < mags.length
        · rw [List.getElem?_eq_getElem hk]
          have hs1 := slope_rnd h (k - lo) (mid - lo) (by omega)
          rw [Nat.cast_sub h1, Nat.cast_sub hle] at hs1
          exact melStep_rnd h hk (hs1.nonneg) hs1 hs
        · rw [List.getElem?_eq_none (by omega)]
          simp only [Option.getD_none, mul_zero, abs_zero, add_zero]
          rw [min_eq_right (by omega)] at hs ⊢
          exact hs)
    rw [max_eq_right hle]
    exact ⟨e', h1, h2⟩
  · rw [forRange_empty (by omega), Ico_eq_empty (by omega), max_eq_left (by omega)]
    exact ⟨e, rfl, by simpa using he⟩

theorem fall_rnd (h : Rounding F u v t) (mags : List ℝ) (mid hi : ℕ) {e z A : ℝ}
    (he : RApx ((1 + v) * (1 / (1 - v)) * (1 + u) ^ 2 * (1 + u) ^ min mid mags.length) e z A) :
    ∃ e', (forRange mid hi e fun k e => (pure (melFall mags mid hi k e) : Outcome ℝ)) = .ok e' ∧
      RApx ((1 + v) * (1 / (1 - v)) * (1 + u) ^ 2 * (1 + u) ^ min (max mid hi) mags.length) e'
        (z + ∑ k ∈ Ico mid hi, (hi - k : ℝ) / (hi - mid) * mags.getD k 0)
        (A + ∑ k ∈ Ico mid hi, (hi - k : ℝ) / (hi - mid) * |mags.getD k 0|) := by
  by_cases hle : mid ≤ hi
  · obtain ⟨e', h1, h2⟩ := forRange_ok (f := fun k e => (pure (melFall mags mid hi k e) : Outcome ℝ))
      (fun i e => RApx ((1 + v) * (1 / (1 - v)) * (1 + u) ^ 2 * (1 + u) ^ min i mags.length) e
        (z + ∑ k ∈ Ico mid i, (hi - k : ℝ) / (hi - mid) * mags.getD k 0)
        (A + ∑ k ∈ Ico mid i, (hi - k : ℝ) / (hi - mid) * |mags.getD k 0|)) (lo := mid) (hi := hi) (s := e) hle
      (by simpa using he) (by
        intro k s h1 h2 hs
        refine ⟨_, rfl, ?_⟩
        rw [sum_Ico_succ_top h1, sum_Ico_succ_top h1, ← add_assoc, ← add_assoc]
        unfold melFall
        rw [List.getD_eq_getElem?_getD]
        by_cases hk : k < mags.length
        · rw [List.getElem?_eq_getElem hk]
          have hs1 := slope_rnd h (hi - k) (hi - mid) (by omega)
          rw [Nat.cast_sub h2.le, Nat.cast_sub hle] at hs1
          exact melStep_rnd h hk (hs1.nonneg) hs1 hs
        · rw [List.getElem?_eq_none (by omega)]
          simp only [Option.getD_none, mul_zero, abs_zero, add_zero]
          rw [min_eq_right (by omega)] at hs ⊢
          exact hs)
    rw [max_eq_right hle]
    exact ⟨e', h1, h2⟩
  · rw [forRange_empty (by omega), Ico_eq_empty (by omega), max_eq_left (by omega)]
    exact ⟨e, rfl, by simpa using he⟩

theorem triSum_abs (b : ℕ → ℕ) (mags : List ℝ) (m : ℕ) :
    triSum b (mags.map fun x => |x|) m =
      ∑ k ∈ range mags.length, triangle (b m) (b (m + 1)) (b (m + 2)) k * |mags.getD k 0| := by
  unfold triSum
  rw [List.length_map]
  refine sum_congr rfl fun k hk => ?_
  rw [mem_range] at hk
  rw [List.getD_eq_getElem _ _ (by simpa using hk), List.getD_eq_getElem _ _ hk, List.getElem_map]

theorem melGrowth_one (h : Rounding F u v t) (n : ℕ) : 1 ≤ melGrowth u v n := by
  have hu := h.u_nonneg
  have hv := h.v_nonneg
  have hv1 := h.v_lt_one
  unfold melGrowth
  refine one_le_mul_of_one_le_of_one_le ?_ (one_le_pow₀ (by linarith))
  rw [le_div_iff₀ (by linarith)]
  linarith

theorem melEnergy_rnd (h : Rounding F u v t) (mags : List ℝ) (bins : List ℕ) (m : ℕ) (hm : m + 2 < bins.length) :
    ∃ e, melEnergy mags bins m = .ok e ∧
      RApx (melGrowth u v mags.length) e (triSum (fun i => bins.getD i 0) mags m)
        (triSum (fun i => bins.getD i 0) (mags.map fun x => |x|) m) := by
  have hu := h.u_nonneg
  have hv := h.v_nonneg
  have hv1 := h.v_lt_one
  unfold melEnergy
  simp only []
  rw [rd_getD 0 (by omega), rd_getD 0 (by omega), rd_getD 0 (by omega)]
  simp only [Outcome.bind_ok]
  rw [show m + 1 - 1 = m by omega]
  by_cases hz : bins.getD (m + 1) 0 = bins.getD m 0 ∨ bins.getD (m + 1 + 1) 0 = bins.getD (m + 1) 0
  · rw [if_pos hz]
    refine ⟨_, rfl, ?_⟩
    have z : ∀ x : List ℝ, triSum (fun i => bins.getD i 0) x m = 0 := fun x =>
      sum_eq_zero fun k _ => by rw [triangle, if_pos hz, zero_mul]
    rw [z, z, h.zero]
    exact RApx.mk' (melGrowth_one h _) (by simp) (by simp)
  · rw [if_neg hz]
    have g0 : 1 ≤ (1 + v) * (1 / (1 - v)) * (1 + u) ^ 2 := by
      have := melGrowth_one h 0
      unfold melGrowth at this
      rw [mul_one_div]; exact this
    have h0 : ∀ k, RApx ((1 + v) * (1 / (1 - v)) * (1 + u) ^ 2 * (1 + u) ^ k) F.zero 0 0 := fun k => by
      rw [h.zero]
      exact RApx.mk' (one_le_mul_of_one_le_of_one_le g0 (one_le_pow₀ (by linarith))) (by simp) (by simp)
    have key : ∃ e1, (forRange (bins.getD m 0) (bins.getD (m + 1) 0) Flt.zero fun k e =>
          (pure (melRise mags (bins.getD m 0) (bins.getD (m + 1) 0) k e) : Outcome ℝ)) = .ok e1 ∧
        RApx ((1 + v) * (1 / (1 - v)) * (1 + u) ^ 2 * (1 + u) ^ min (bins.getD (m + 1) 0) mags.length) e1
          (0 + ∑ k ∈ Ico (bins.getD m 0) (bins.getD (m + 1) 0),
            (k - bins.getD m 0 : ℝ) / (bins.getD (m + 1) 0 - bins.getD m 0) * mags.getD k 0)
          (0 + ∑ k ∈ Ico (bins.getD m 0) (bins.getD (m + 1) 0),
            (k - bins.getD m 0 : ℝ) / (bins.getD (m + 1) 0 - bins.getD m 0) * |mags.getD k 0|) := by
      by_cases hle : bins.getD m 0 ≤ bins.getD (m + 1) 0
      · have := rise_rnd h mags (bins.getD m 0) (bins.getD (m + 1) 0) (h0 _)
        rwa [max_eq_right hle] at this
      · rw [forRange_empty (by omega), Ico_eq_empty (by omega)]
        exact ⟨_, rfl, by simpa using h0 _⟩
    obtain ⟨e1, q1, r1⟩ := key
    obtain ⟨e2, q2, r2⟩ := fall_rnd h mags (bins.getD (m + 1) 0) (bins.getD (m + 1 + 1) 0) r1
    rw [q1, Outcome.bind_ok]
    refine ⟨e2, q2, ?_⟩
    rw [zero_add, zero_add, sum_triangle _ _ _ _ hz] at r2
    have habs := sum_triangle (mags.map fun x => |x|) _ _ _ hz
    have hget : ∀ k, (mags.map fun x => |x|).getD k 0 = |mags.getD k 0| := by
      intro k
      rw [List.getD_eq_getElem?_getD, List.getD_eq_getElem?_getD, List.getElem?_map]
      cases mags[k]? <;> simp
    simp only [hget] at habs
    rw [habs, List.length_map] at r2
    rw [triSum_abs]
    refine Apx.mono r2 ?_
    unfold melGrowth
    rw [show (1 + v) * (1 / (1 - v)) = (1 + v) / (1 - v) by ring, pow_add, mul_assoc, mul_comm ((1 + u) ^ 2)]
    have hq : 0 ≤ (1 + v) / (1 - v) := div_nonneg (by linarith) (by linarith)
    refine mul_le_mul_of_nonneg_left ?_ hq
    exact mul_le_mul_of_nonneg_right (pow_le_pow_right₀ (by linarith) (min_le_right _ _)) (by positivity)

/-- C108a. In rounding arithmetic every energy `mel_filterbank` returns is, up to the stated error relative to the
weighted sum of the magnitudes, the sum of the magnitudes weighted by the triangle that the computed edge bins span. -/
theorem mel_error (hF : Rounding F u v t) (mags : List ℝ) (sr : ℝ) (N : ℕ) :
    ∃ e, melFilterbank mags sr N = .ok e ∧ e.length = N ∧ ∀ m, m < N →
      |e.getD m 0 - triSum (fun i => (melBins mags.length sr N).getD i 0) mags m| ≤
        (melGrowth u v mags.length - 1) *
          triSum (fun i => (melBins mags.length sr N).getD i 0) (mags.map fun x => |x|) m := by
  classical
  have hb := melBins_length (T := ℝ) mags.length sr N
  have H : ∀ m, m < N → _ := fun m hm => melEnergy_rnd hF mags (melBins mags.length sr N) m (by omega)
  choose f hf using H
  unfold melFilterbank
  refine ⟨_, fillOut_ok _ _ (fun k => if h : k < N then f k h else 0) (fun k hk => ?_), by simp, fun m hm => ?_⟩
  · rw [List.length_replicate] at hk
    rw [dif_pos hk]
    exact (hf k hk).1
  · rw [tab_getD (by simpa using hm), dif_pos hm]
    exact (hf m hm).2.abs_err

/-! ### Logarithms -/

omit F in
/-- A logarithm of a number known up to a relative error. -/
theorem log_close {s S ε : ℝ} (hS : 0 < S) (h0 : 0 ≤ ε) (h1 : ε < 1) (h : |s - S| ≤ ε * S) :
    0 < s ∧ |Real.log s - Real.log S| ≤ ε / (1 - ε) := by
  obtain ⟨l, r⟩ := abs_le.mp h
  have h2 : (1 - ε) * S ≤ s := by linarith
  have hs : 0 < s := lt_of_lt_of_le (mul_pos (by linarith) hS) h2
  have he : ε ≤ ε / (1 - ε) := by rw [le_div_iff₀ (by linarith)]; nlinarith
  refine ⟨hs, ?_⟩
  rw [← Real.log_div hs.ne' hS.ne', abs_le]
  constructor
  · have := Real.log_le_sub_one_of_pos (div_pos hS hs)
    rw [← inv_div s S, Real.log_inv, inv_div] at this
    have h3 : S / s ≤ 1 / (1 - ε) := by
      rw [div_le_div_iff₀ hs (by linarith)]; linarith
    have h4 : 1 / (1 - ε) - 1 = ε / (1 - ε) := by
      have hne : 1 - ε ≠ 0 := by linarith
      field_simp
      ring
    linarith
  · have := Real.log_le_sub_one_of_pos (div_pos hs hS)
    have h3 : s / S ≤ 1 + ε := by rw [div_le_iff₀ hS]; linarith
    linarith

theorem log_rnd (hL : Libm F w) {s S ε : ℝ} (hS : 0 < S) (h0 : 0 ≤ ε) (h1 : ε < 1) (h : |s - S| ≤ ε * S) :
    |F.log s - Real.log S| ≤ logErr w ε (Real.log S) := by
  obtain ⟨hs, h2⟩ := log_close hS h0 h1 h
  have h3 := hL.log s hs
  have hw := hL.w_nonneg
  have h4 : |Real.log s| ≤ |Real.log S| + ε / (1 - ε) := by
    have := abs_sub_abs_le_abs_sub (Real.log s) (Real.log S)
    linarith
  have h5 : w * |Real.log s| ≤ w * (|Real.log S| + ε / (1 - ε)) := mul_le_mul_of_nonneg_left h4 hw
  rw [show F.log s - Real.log S = (F.log s - Real.log s) + (Real.log s - Real.log S) by ring]
  refine (abs_add_le _ _).trans ?_
  unfold logErr
  linarith

theorem tiny_rnd (h : Rounding F u v t) : RApx (1 + u) (tiny : ℝ) 1e-12 1e-12 := by
  have h1 := h.lit 1 12
  have e : ((1 : ℤ) : ℝ) / 10 ^ 12 = 1e-12 := by norm_num
  rw [e, abs_of_pos (by norm_num : (0 : ℝ) < 1e-12)] at h1
  exact RApx.mk' (by linarith [h.u_nonneg]) (by rw [add_sub_cancel_left]; exact h1) (by norm_num)

omit F in
theorem dctII_close (n : ℕ) (x y : ℕ → ℝ) (k : ℕ) : |dctII n x k - dctII n y k| ≤ ∑ i ∈ range n, |x i - y i| := by
  unfold dctII
  rw [← sum_sub_distrib]
  refine (abs_sum_le_sum_abs _ _).trans (sum_le_sum fun i _ => ?_)
  rw [← sub_mul, abs_mul]
  exact mul_le_of_le_one_right (abs_nonneg _) (Real.abs_cos_le_one _)

omit F in
theorem triSum_nonneg (b : ℕ → ℕ) {mags : List ℝ} (h : ∀ a ∈ mags, 0 ≤ a) (m : ℕ) : 0 ≤ triSum b mags m := by
  refine sum_nonneg fun k hk => mul_nonneg (triangle_nonneg _ _ _ _) ?_
  rw [mem_range] at hk
  rw [List.getD_eq_getElem _ _ hk]
  exact h _ (List.getElem_mem hk)

omit F in
theorem map_abs_self {mags : List ℝ} (h : ∀ a ∈ mags, 0 ≤ a) : (mags.map fun x => |x|) = mags := by
  conv_rhs => rw [← List.map_id mags]
  exact List.map_congr_left fun a ha => abs_of_nonneg (h a ha)

/-- C108b. Mel-frequency cepstral coefficients of a non-negative spectrum in rounding arithmetic: coefficient `k` is
the DCT-II of the logarithms `L m` of the exact filter energies (for the computed edge bins), up to an error that is relative
to `Σ |L m|` for the transform, plus that of the logarithms. -/
theorem mfcc_error (hF : Rounding F u v t) (hL : Libm F w) (hu : u < 1) (hv : v < 1 / 2) (mags : List ℝ)
    (hm : ∀ a ∈ mags, 0 ≤ a) (sr : ℝ) (N c : ℕ) (hc : c ≤ N) (hε : melGrowth u v mags.length * (1 + u) < 2)
    (L : ℕ → ℝ)
    (hLm : ∀ m, L m = Real.log (triSum (fun i => (melBins mags.length sr N).getD i 0) mags m + 1e-12)) :
    ∃ y, mfcc mags sr N c = .ok (.ok y) ∧ y.length = c ∧ ∀ k, k < c →
      |y.getD k 0 - dctII N L k| ≤
        directGrowth u v t N * ∑ m ∈ range N, (|L m| + logErr w (melGrowth u v mags.length * (1 + u) - 1) (L m)) -
          ∑ m ∈ range N, |L m| := by
  have hu0 := hF.u_nonneg
  obtain ⟨e, he, hel, hee⟩ := mel_error hF mags sr N
  set g := melGrowth u v mags.length with hg
  have hg1 : 1 + u ≤ g := by
    have h0 := melGrowth_one hF 0
    rw [hg]
    unfold melGrowth at h0 ⊢
    have h1 : 1 ≤ (1 + v) / (1 - v) := by
      rw [le_div_iff₀ (by linarith [hF.v_lt_one])]; linarith [hF.v_nonneg]
    calc 1 + u ≤ (1 + u) ^ (mags.length + 2) := le_self_pow₀ (by linarith) (by omega)
      _ ≤ _ := le_mul_of_one_le_left (by positivity) h1
  set b : ℕ → ℕ := fun i => (melBins mags.length sr N).getD i 0 with hb
  set l : List ℝ := e.map fun x => Flt.log (x +. tiny) with hl
  have hll : l.length = N := by rw [hl, List.length_map, hel]
  have hlm : ∀ m, m < N → |l.getD m 0 - L m| ≤ logErr w (g * (1 + u) - 1) (L m) := by
    intro m hmN
    have h1 := hee m hmN
    rw [map_abs_self hm] at h1
    have hE := triSum_nonneg b hm m
    have r1 : RApx g (e.getD m 0) (triSum b mags m) (triSum b mags m) :=
      RApx.mk' (by linarith) h1 (by rw [abs_of_nonneg hE])
    have r2 := RApx.add r1 (Apx.mono (tiny_rnd hF) hg1) hu0 (hF.add _ _)
    have h2 := r2.abs_err
    have := log_rnd hL (s := F.add (e.getD m 0) tiny) (S := triSum b mags m + 1e-12) (ε := g * (1 + u) - 1)
      (by linarith [(by norm_num : (0 : ℝ) < 1e-12)]) (by nlinarith) (by linarith) h2
    rw [← hLm m] at this
    have e1 : l.getD m 0 = F.log (F.add (e.getD m 0) tiny) := by
      rw [hl, List.getD_eq_getElem _ _ (by rw [List.length_map, hel]; exact hmN), List.getElem_map,
        List.getD_eq_getElem _ _ (by rw [hel]; exact hmN)]
    rw [e1]
    exact this
  obtain ⟨d, hd, hdl, hdd⟩ := dct2_error hF hu hv l
  rw [hll] at hdl hdd
  refine ⟨d.take c, ?_, by rw [List.length_take, hdl]; omega, fun k hk => ?_⟩
  · unfold mfcc
    simp only [he, Outcome.bind_ok, hel, Outcome.pure_eq]
    rw [if_neg (by omega)]
    show (dct2 l >>= _) = _
    rw [hd, Outcome.bind_ok, if_pos (by omega)]
  · have h1 := hdd k (by omega)
    have h2 := dctII_close N (fun m => l.getD m 0) L k
    have h3 : ∑ m ∈ range N, |l.getD m 0 - L m| ≤ ∑ m ∈ range N, logErr w (g * (1 + u) - 1) (L m) :=
      sum_le_sum fun m hm => hlm m (mem_range.mp hm)
    have h4 : ∑ m ∈ range N, |l.getD m 0| ≤ ∑ m ∈ range N, (|L m| + logErr w (g * (1 + u) - 1) (L m)) :=
      sum_le_sum fun m hm => by
        have := abs_sub_abs_le_abs_sub (l.getD m 0) (L m)
        linarith [hlm m (mem_range.mp hm)]
    have hD : 1 ≤ directGrowth u v t N := by
      obtain ⟨y, -, r⟩ := dct2At_rnd hF hu hv l hll k (by omega)
      exact Apx.one r
    have h5 := mul_le_mul_of_nonneg_left h4 (by linarith : (0 : ℝ) ≤ directGrowth u v t N - 1)
    have e1 : (d.take c).getD k 0 = d.getD k 0 := by
      rw [List.getD_eq_getElem _ _ (by rw [List.length_take, hdl]; omega), List.getElem_take,
        ← List.getD_eq_getElem _ 0 (by omega)]
    rw [e1]
    have h6 := abs_sub_le (d.getD k 0) (dctII N (fun m => l.getD m 0) k) (dctII N L k)
    rw [sum_add_distrib] at h5 ⊢
    linarith

/-! ### Cepstrum -/

omit F in
theorem sqrt_close {r R ε : ℝ} (hR : 0 ≤ R) (h0 : 0 ≤ ε) (h1 : ε ≤ 1) (h : |r - R| ≤ ε * R) :
    0 ≤ r ∧ |Real.sqrt r - Real.sqrt R| ≤ ε * Real.sqrt R := by
  obtain ⟨l, u⟩ := abs_le.mp h
  have hr : 0 ≤ r := by nlinarith
  have q := Real.sqrt_nonneg R
  have hq := Real.sq_sqrt hR
  refine ⟨hr, abs_le.mpr ⟨?_, ?_⟩⟩
  · have : (1 - ε) * Real.sqrt R ≤ Real.sqrt r := by
      refine Real.le_sqrt_of_sq_le ?_
      rw [mul_pow, hq]
      have : (1 - ε) ^ 2 ≤ 1 - ε := by nlinarith
      nlinarith [mul_le_mul_of_nonneg_right this hR]
    linarith
  · have : Real.sqrt r ≤ (1 + ε) * Real.sqrt R := by
      refine Real.sqrt_le_iff.mpr ⟨mul_nonneg (by linarith) q, ?_⟩
      rw [mul_pow, hq]
      have : 1 + ε ≤ (1 + ε) ^ 2 := by nlinarith
      nlinarith [mul_le_mul_of_nonneg_right this hR]
    linarith

/-- One log magnitude. -/
theorem logMag_rnd (hF : Rounding F u v t) (hL : Libm F w) (c : Cx ℝ) (X : ℂ) {M Δ : ℝ} (hM : 0 < M)
    (hX : M ≤ ‖X‖ + 1e-12) (hc : ‖toC c - X‖ ≤ Δ) (hε : magGrowth u w (Δ / M) < 2) :
    (logMag c).im = 0 ∧
      |(logMag c).re - Real.log (‖X‖ + 1e-12)| ≤ logErr w (magGrowth u w (Δ / M) - 1) (Real.log (‖X‖ + 1e-12)) := by
  have hu := hF.u_nonneg
  have hw := hL.w_nonneg
  have hΔ : 0 ≤ Δ := (norm_nonneg _).trans hc
  have hd : 0 ≤ Δ / M := div_nonneg hΔ hM.le
  refine ⟨hF.zero, ?_⟩
  -- the square of the modulus
  have a1 : RApx (1 + u) (F.mul c.re c.re) (c.re * c.re) (c.re * c.re) := by
    have := RApx.rel (g := 1 + u) (a := F.mul c.re c.re) (z := c.re * c.re) (by linarith)
      (by rw [add_sub_cancel_left]; exact hF.mul c.re c.re)
    rwa [abs_of_nonneg (mul_self_nonneg _)] at this
  have a2 : RApx (1 + u) (F.mul c.im c.im) (c.im * c.im) (c.im * c.im) := by
    have := RApx.rel (g := 1 + u) (a := F.mul c.im c.im) (z := c.im * c.im) (by linarith)
      (by rw [add_sub_cancel_left]; exact hF.mul c.im c.im)
    rwa [abs_of_nonneg (mul_self_nonneg _)] at this
  have a3 := RApx.add a1 a2 hu (hF.add _ _)
  have e1 := a3.abs_err
  set R := c.re * c.re + c.im * c.im with hR
  have hR0 : 0 ≤ R := by rw [hR]; nlinarith [mul_self_nonneg c.re, mul_self_nonneg c.im]
  have hsq : Real.sqrt R = ‖toC c‖ := by
    rw [Complex.norm_def, Complex.normSq_apply, hR]
    rfl
  have hone : ∀ a b c : ℝ, 1 ≤ a → 1 ≤ b → 1 ≤ c → 1 ≤ a * b * c := fun a b c h1 h2 h3 =>
    one_le_mul_of_one_le_of_one_le (one_le_mul_of_one_le_of_one_le h1 h2) h3
  have hG : (1 + u) * (1 + u) ≤ magGrowth u w (Δ / M) := by
    unfold magGrowth
    rw [show (1 + u) ^ 3 * (1 + w) * (1 + Δ / M) = (1 + u) * (1 + u) * ((1 + u) * (1 + w) * (1 + Δ / M)) by ring]
    exact le_mul_of_one_le_right (by positivity) (hone _ _ _ (by linarith) (by linarith) (by linarith))
  obtain ⟨r0, s1⟩ := sqrt_close hR0 (by nlinarith) (by linarith) e1
  have s2 := hL.sqrt _ r0
  have b1 : RApx ((1 + u) * (1 + u)) (Real.sqrt (F.add (F.mul c.re c.re) (F.mul c.im c.im))) (Real.sqrt R) (Real.sqrt R) :=
    RApx.mk' (by nlinarith) s1 (by rw [abs_of_nonneg (Real.sqrt_nonneg _)])
  have b2 := RApx.round b1 hw (by rw [abs_of_nonneg (Real.sqrt_nonneg _)]; exact s2)
  have b3 := RApx.add b2 (Apx.mono (tiny_rnd hF) (by nlinarith [mul_nonneg hu hu, mul_nonneg hu hw, mul_nonneg (mul_nonneg hu hu) hw] :
    1 + u ≤ (1 + u) * (1 + u) * (1 + w))) hu (hF.add _ _)
  have e2 := b3.abs_err
  rw [hsq] at e2
  -- the distance to the exact magnitude
  have hn : |‖toC c‖ - ‖X‖| ≤ Δ / M * (‖X‖ + 1e-12) := by
    refine (abs_norm_sub_norm_le _ _).trans (hc.trans ?_)
    rw [div_mul_eq_mul_div, le_div_iff₀ hM]
    exact mul_le_mul_of_nonneg_left hX hΔ
  have hS : 0 < ‖X‖ + 1e-12 := lt_of_lt_of_le hM hX
  set S := ‖X‖ + 1e-12 with hSd
  set k := (1 + u) * (1 + u) * (1 + w) * (1 + u) with hk
  have hk1 : 1 ≤ k := Apx.one b3
  have hkG : k * (1 + Δ / M) = magGrowth u w (Δ / M) := by rw [hk]; unfold magGrowth; ring
  have e3 : |F.add (F.sqrt (F.add (F.mul c.re c.re) (F.mul c.im c.im))) tiny - S| ≤
      (magGrowth u w (Δ / M) - 1) * S := by
    have h1 := abs_sub_le (F.add (F.sqrt (F.add (F.mul c.re c.re) (F.mul c.im c.im))) tiny) (‖toC c‖ + 1e-12) S
    have h2 : |‖toC c‖ + 1e-12 - S| ≤ Δ / M * S := by
      rw [hSd, add_sub_add_right_eq_sub]; exact hn
    have h3 : ‖toC c‖ + 1e-12 ≤ (1 + Δ / M) * S := by
      have := (abs_le.mp h2).2; linarith
    have h4 := mul_le_mul_of_nonneg_left h3 (by linarith : (0 : ℝ) ≤ k - 1)
    rw [← hkG]
    nlinarith
  exact log_rnd hL hS (by nlinarith) (by linarith) e3

omit F in
theorem idft_close {n : ℕ} (X Y : ℕ → ℂ) (s : ℕ) :
    ‖idft n X s - idft n Y s‖ ≤ (∑ k ∈ range n, ‖X k - Y k‖) / n := by
  unfold idft
  rw [← sub_div, norm_div, Complex.norm_natCast, ← sum_sub_distrib]
  refine div_le_div_of_nonneg_right ((norm_sum_le _ _).trans (sum_le_sum fun k _ => ?_)) (Nat.cast_nonneg _)
  rw [← sub_mul, norm_mul]
  refine mul_le_of_le_one_right (norm_nonneg _) (le_of_eq ?_)
  rw [show 2 * (Real.pi : ℂ) * Complex.I * ((k * s : ℕ) : ℂ) / (n : ℂ) =
    ((2 * Real.pi * ((k * s : ℕ) : ℝ) / (n : ℝ) : ℝ) : ℂ) * Complex.I by push_cast; ring]
  exact Complex.norm_exp_ofReal_mul_I _

/-- C108c. The real cepstrum of a power-of-two block in rounding arithmetic. `L k = log (|X k| + 10⁻¹²)` are the exact log
magnitudes and `M` a lower bound of all `|X k| + 10⁻¹²`: the smaller the weakest bin compared with the rounding error
of the transform, the worse the bound. -/
theorem cepstrum_error (hF : Rounding F u v t) (hL : Libm F w) (cfg : Cfg) (x : List ℝ) (hx : ∃ k, x.length = 2 ^ k)
    {M : ℝ} (hM : 0 < M) (hX : ∀ k, k < x.length → M ≤ ‖dft x.length (rsig x) k‖ + 1e-12) {d : ℝ}
    (hd : d = (fftGrowth cfg u v t x.length - 1) * (∑ i ∈ range x.length, |x.getD i 0|) / M)
    (hε : magGrowth u w d < 2)
    (L : ℕ → ℝ) (hLk : ∀ k, L k = Real.log (‖dft x.length (rsig x) k‖ + 1e-12)) :
    ∃ y, realCepstrum cfg x = .ok (.ok y) ∧ y.length = x.length ∧ ∀ s, s < x.length →
      ‖rsig y s - idft x.length (fun k => (L k : ℂ)) s‖ ≤
        (fftGrowth cfg u v t x.length * scaleGrowth u v x.length *
            ∑ k ∈ range x.length, (|L k| + logErr w (magGrowth u w d - 1) (L k)) -
          ∑ k ∈ range x.length, |L k|) / x.length := by
  have hpos : 0 < x.length := by obtain ⟨k, h⟩ := hx; rw [h]; positivity
  have hw : fftWeight x.length = 1 := by rw [fftWeight, if_pos (isPow2_iff.2 hx)]
  have hr : fftRes cfg x.length = .ok () := fftRes_pow2 cfg (isPow2_iff.mpr hx)
  set c : List (Cx ℝ) := x.map fun v => (⟨v, F.zero⟩ : Cx ℝ) with hc
  have hcl : c.length = x.length := by simp [hc]
  have hp0 : ReachVia cfg (fun m => workSize m ≤ workSize x.length) (Planner.new : Planner ℝ) := .new
  obtain ⟨p1, e, -, hl, -⟩ := (fft_opOk cfg).run Planner.new c (reachVia_inv hp0)
  have hfr := fftBuf_fresh cfg Planner.new c (reachVia_inv hp0) (by rw [hcl]; exact hr)
    (by rw [hcl]; exact compat_of_reach hp0)
  rw [hfr, hcl, hr] at e
  rw [hfr, hcl] at hl
  have hp1 : ReachVia cfg (fun m => workSize m ≤ workSize x.length) p1 := .fft hp0 (by rw [hcl]) e
  set f := freshOut cfg c with hf
  have hml : (f.map logMag).length = x.length := by rw [List.length_map, hl]
  obtain ⟨p2, e2, -, hl2, -⟩ := (ifft_opOk cfg).run p1 (f.map logMag) (reachVia_inv hp1)
  rw [hml, hr] at e2
  have a1 := fun k hk => freshOut_rnd hF cfg c (sig c) (fun i => ‖sig c i‖) 1 (sig_apx c) k hk
  rw [one_mul, hcl, hw, one_mul] at a1
  have hS : ∑ i ∈ range x.length, ‖sig c i‖ = ∑ i ∈ range x.length, |x.getD i 0| :=
    sum_congr rfl fun i _ => by rw [hc, sig_ofReal_rnd hF]; unfold rsig; rw [Complex.norm_real, Real.norm_eq_abs]
  rw [hS] at a1
  have hdft : ∀ k, dft x.length (sig c) k = dft x.length (rsig x) k := fun k =>
    dft_congr (fun t _ => by rw [hc, sig_ofReal_rnd hF]) k
  have a2 : ∀ k, k < x.length → ((f.map logMag).getD k Cx.zero).im = 0 ∧
      |((f.map logMag).getD k Cx.zero).re - L k| ≤ logErr w (magGrowth u w d - 1) (L k) := by
    intro k hk
    have hkf : k < f.length := by rw [hl]; exact hk
    rw [List.getD_eq_getElem _ _ (by rw [hml]; exact hk), List.getElem_map]
    have h1 := (a1 k hk).err
    rw [hdft, List.getD_eq_getElem _ _ hkf] at h1
    have := logMag_rnd hF hL f[k] _ hM (hX k hk) h1 (by rw [← hd]; exact hε)
    rwa [← hd, ← hLk k] at this
  set z := f.map logMag with hz
  have a3 := ifftBuf_rnd hF cfg p1 z (reachVia_inv hp1) (by rw [hml]; exact hr)
    (by rw [hml]; exact compat_of_reach hp1) (fun k => toC (z.getD k Cx.zero)) (fun k => ‖toC (z.getD k Cx.zero)‖) 1
    (fun i _ => Apx.refl _)
  rw [hml, hw, one_mul, one_mul] at a3
  refine ⟨(ifftBuf cfg p1 z).map Cx.re, ?_, by rw [List.length_map, hl2, hml], fun s hs => ?_⟩
  · unfold realCepstrum
    rw [if_neg (by omega), isPow2_iff.2 hx]
    simp only [Bool.not_true, Bool.false_eq_true, if_false]
    show (fft cfg Planner.new c >>= _) = _
    simp only [e, Outcome.bind_ok]
    show (ifft cfg p1 z >>= _) = _
    rw [e2, Outcome.bind_ok]
  · have b1 := (a3 s hs).err
    have hG : 1 ≤ fftGrowth cfg u v t x.length * scaleGrowth u v x.length := Apx.one (a3 s hs)
    set G := fftGrowth cfg u v t x.length * scaleGrowth u v x.length with hGd
    have b2 := idft_close (n := x.length) (fun k => toC (z.getD k Cx.zero)) (fun k => (L k : ℂ)) s
    have hzk : ∀ k, k < x.length → toC (z.getD k Cx.zero) = (((z.getD k Cx.zero).re : ℝ) : ℂ) := by
      intro k hk
      have h0 := (a2 k hk).1
      generalize z.getD k Cx.zero = q at h0 ⊢
      apply Complex.ext
      · simp [toC]
      · simp [toC, h0]
    have b3 : ∑ k ∈ range x.length, ‖toC (z.getD k Cx.zero) - (L k : ℂ)‖ ≤
        ∑ k ∈ range x.length, logErr w (magGrowth u w d - 1) (L k) :=
      sum_le_sum fun k hk => by
        rw [mem_range] at hk
        rw [hzk k hk, ← Complex.ofReal_sub, Complex.norm_real, Real.norm_eq_abs]
        exact (a2 k hk).2
    have b4 : ∑ k ∈ range x.length, ‖toC (z.getD k Cx.zero)‖ ≤
        ∑ k ∈ range x.length, (|L k| + logErr w (magGrowth u w d - 1) (L k)) :=
      sum_le_sum fun k hk => by
        rw [mem_range] at hk
        rw [hzk k hk, Complex.norm_real, Real.norm_eq_abs]
        have := abs_sub_abs_le_abs_sub (z.getD k Cx.zero).re (L k)
        linarith [(a2 k hk).2]
    have hn : (0 : ℝ) < x.length := by exact_mod_cast hpos
    -- the target is real
    have hreal : ∃ r : ℝ, idft x.length (fun k => (L k : ℂ)) s = r := by
      refine ⟨_, (Complex.conj_eq_iff_re.1 ?_).symm⟩
      rw [conj_idft hpos]
      refine idft_congr (fun k hk => ?_) s
      rw [Complex.conj_ofReal, hLk, hLk, ← dft_neg hpos (rsig_real x) hk, Complex.norm_conj]
    obtain ⟨r, hr'⟩ := hreal
    rw [hr'] at b2 ⊢
    have e1 : rsig ((ifftBuf cfg p1 z).map Cx.re) s = (((toC ((ifftBuf cfg p1 z).getD s Cx.zero)).re : ℝ) : ℂ) := by
      unfold rsig
      rw [List.getD_eq_getElem _ _ (by rw [List.length_map, hl2, hml]; exact hs), List.getElem_map,
        List.getD_eq_getElem _ _ (by rw [hl2, hml]; exact hs)]
      rfl
    rw [e1, ← Complex.ofReal_sub, Complex.norm_real, Real.norm_eq_abs]
    have e2 : (toC ((ifftBuf cfg p1 z).getD s Cx.zero)).re - r = (toC ((ifftBuf cfg p1 z).getD s Cx.zero) - (r : ℂ)).re := by
      simp
    rw [e2]
    refine (Complex.abs_re_le_norm _).trans ?_
    have b5 := norm_sub_le_norm_sub_add_norm_sub (toC ((ifftBuf cfg p1 z).getD s Cx.zero))
      (idft x.length (fun k => toC (z.getD k Cx.zero)) s) (r : ℂ)
    refine b5.trans ?_
    have b6 := div_le_div_of_nonneg_right b3 hn.le
    have b7 := mul_le_mul_of_nonneg_left b4 (by linarith : (0 : ℝ) ≤ G - 1)
    have b8 := div_le_div_of_nonneg_right b7 hn.le
    rw [sum_add_distrib] at b8 ⊢
    have e3 : (G * (∑ k ∈ range x.length, |L k| + ∑ k ∈ range x.length, logErr w (magGrowth u w d - 1) (L k)) -
        ∑ k ∈ range x.length, |L k|) / (x.length : ℝ) =
      (G - 1) * (∑ k ∈ range x.length, |L k| + ∑ k ∈ range x.length, logErr w (magGrowth u w d - 1) (L k)) / x.length +
        (∑ k ∈ range x.length, logErr w (magGrowth u w d - 1) (L k)) / x.length := by ring
    rw [e3]
    rw [← mul_div_assoc] at b1
    linarith

end Kofft.Props
