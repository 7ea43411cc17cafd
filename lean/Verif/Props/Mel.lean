import Verif.Model.Spectral
import Verif.Spec.Mel
import Mathlib.Algebra.Order.Floor.Semifield
import Verif.Props.TrigStack
/-
Property C48: mel filter bank and MFCC.
-/
namespace Kofft.Props
open Spec Finset

theorem forRange_pure {σ : Type} (lo hi : Nat) (s : σ) (f : Nat → σ → σ) :
    ∃ v, (forRange lo hi s fun k e => (pure (f k e) : Outcome σ)) = .ok v := by
  unfold forRange
  generalize hi - lo = c
  induction c generalizing lo s with
  | zero => exact ⟨s, rfl⟩
  | succ c ih => exact ih (lo + 1) (f lo s)

theorem melBins_length {T : Type} [Flt T] (n : ℕ) (sr : T) (F : ℕ) : (melBins n sr F).length = F + 2 := by
  simp [melBins]

/-- C48: `mel_filterbank` always returns `num_filters` energies, any arithmetic, any spectrum and rate. -/
theorem mel_total {T : Type} [Flt T] (mags : List T) (sr : T) (F : ℕ) :
    ∃ e, melFilterbank mags sr F = .ok e ∧ e.length = F := by
  unfold melFilterbank
  have h : ∀ i, ∃ v : T, i < F → melEnergy mags (melBins mags.length sr F) i = .ok v := by
    intro i
    by_cases hi : i < F
    · have hb := melBins_length (T := T) mags.length sr F
      unfold melEnergy
      simp only []
      rw [rd_getD 0 (by omega), rd_getD 0 (by omega), rd_getD 0 (by omega)]
      simp only [Outcome.bind_ok]
      split
      · exact ⟨_, fun _ => rfl⟩
      · obtain ⟨v, hv⟩ := forRange_pure ((melBins mags.length sr F).getD (i + 1 - 1) 0)
          ((melBins mags.length sr F).getD (i + 1) 0) (Flt.zero : T) (melRise mags ((melBins mags.length sr F).getD (i + 1 - 1) 0)
            ((melBins mags.length sr F).getD (i + 1) 0))
        rw [hv, Outcome.bind_ok]
        obtain ⟨w, hw⟩ := forRange_pure ((melBins mags.length sr F).getD (i + 1) 0)
          ((melBins mags.length sr F).getD (i + 1 + 1) 0) v (melFall mags ((melBins mags.length sr F).getD (i + 1) 0)
            ((melBins mags.length sr F).getD (i + 1 + 1) 0))
        exact ⟨w, fun _ => hw⟩
    · exact ⟨Flt.zero, fun h => absurd h hi⟩
  choose v hv using h
  rw [fillOut_ok _ _ v (fun k hk => hv k (by simpa using hk))]
  exact ⟨_, rfl, by simp⟩

/-! ### Exact arithmetic -/

theorem melBins_exact [F : Flt ℝ] (hF : Lawful F) (n : ℕ) (sr : ℝ) (N i : ℕ) (hi : i < N + 2) :
    (melBins n sr N).getD i 0 = melBin n sr N i := by
  unfold melBins
  rw [List.getD_eq_getElem _ _ (by simpa using hi), List.getElem_map, List.getElem_range, hF.toNat, hF.floor,
    ← Int.floor_toNat, Int.floor_intCast, Int.floor_toNat]
  unfold melBin melPoint melEdge hzOf melOf
  simp only [hF.zero, hF.one, hF.add, hF.sub, hF.mul, hF.div, hF.ofNat, hF.log10, hF.pow, hF.lit, two_real hF]
  norm_num

theorem riseLoop [F : Flt ℝ] (hF : Lawful F) (mags : List ℝ) (lo mid : ℕ) (e : ℝ) :
    (forRange lo mid e fun k e => (pure (melRise mags lo mid k e) : Outcome ℝ)) =
      .ok (e + ∑ k ∈ Ico lo mid, (k - lo : ℝ) / (mid - lo) * mags.getD k 0) := by
  by_cases hle : lo ≤ mid
  · rw [forRange_eq (fun i => e + ∑ k ∈ Ico lo i, (k - lo : ℝ) / (mid - lo) * mags.getD k 0) hle (by simp)]
    intro i h1 h2
    rw [Outcome.pure_eq, sum_Ico_succ_top h1, ← add_assoc]
    congr 1
    unfold melRise
    rw [List.getD_eq_getElem?_getD]
    cases mags[i]? with
    | none => simp
    | some v =>
      simp only [hF.add, hF.mul, hF.div, hF.ofNat, Option.getD_some]
      rw [Nat.cast_sub h1, Nat.cast_sub hle]
  · rw [forRange_empty (by omega), Ico_eq_empty (by omega)]; simp

theorem fallLoop [F : Flt ℝ] (hF : Lawful F) (mags : List ℝ) (mid hi : ℕ) (e : ℝ) :
    (forRange mid hi e fun k e => (pure (melFall mags mid hi k e) : Outcome ℝ)) =
      .ok (e + ∑ k ∈ Ico mid hi, (hi - k : ℝ) / (hi - mid) * mags.getD k 0) := by
  by_cases hle : mid ≤ hi
  · rw [forRange_eq (fun i => e + ∑ k ∈ Ico mid i, (hi - k : ℝ) / (hi - mid) * mags.getD k 0) hle (by simp)]
    intro i h1 h2
    rw [Outcome.pure_eq, sum_Ico_succ_top h1, ← add_assoc]
    congr 1
    unfold melFall
    rw [List.getD_eq_getElem?_getD]
    cases mags[i]? with
    | none => simp
    | some v =>
      simp only [hF.add, hF.mul, hF.div, hF.ofNat, Option.getD_some]
      rw [Nat.cast_sub h2.le, Nat.cast_sub hle]
  · rw [forRange_empty (by omega), Ico_eq_empty (by omega)]; simp

theorem sum_Ico_ite (lo hi N : ℕ) (h : hi ≤ N) (g : ℕ → ℝ) :
    ∑ k ∈ Ico lo hi, g k = ∑ k ∈ range N, if lo ≤ k ∧ k < hi then g k else 0 := by
  rw [← sum_filter]
  refine sum_congr ?_ fun _ _ => rfl
  ext k; simp only [mem_Ico, mem_filter, mem_range]; omega

theorem sum_triangle (mags : List ℝ) (lo mid hi : ℕ) (h : ¬ (mid = lo ∨ hi = mid)) :
    (∑ k ∈ Ico lo mid, (k - lo : ℝ) / (mid - lo) * mags.getD k 0) +
      ∑ k ∈ Ico mid hi, (hi - k : ℝ) / (hi - mid) * mags.getD k 0 =
    ∑ k ∈ range mags.length, triangle lo mid hi k * mags.getD k 0 := by
  have hN : ∀ g : ℕ → ℝ, ∑ k ∈ range mags.length, g k * mags.getD k 0 =
      ∑ k ∈ range (mags.length + mid + hi), g k * mags.getD k 0 := by
    intro g
    refine sum_subset (fun k hk => ?_) fun k _ hk => ?_
    · rw [mem_range] at hk ⊢; omega
    · rw [mem_range, not_lt] at hk
      rw [List.getD_eq_default _ _ hk, mul_zero]
  rw [hN, sum_Ico_ite lo mid (mags.length + mid + hi) (by omega), sum_Ico_ite mid hi (mags.length + mid + hi) (by omega),
    ← sum_add_distrib]
  refine sum_congr rfl fun k _ => ?_
  unfold triangle
  rw [if_neg h]
  by_cases h1 : lo ≤ k ∧ k < mid
  · rw [if_pos h1, if_pos h1, if_neg (by omega), add_zero]
  · rw [if_neg h1, if_neg h1, zero_add]
    by_cases h2 : mid ≤ k ∧ k < hi
    · rw [if_pos h2, if_pos h2]
    · rw [if_neg h2, if_neg h2, zero_mul]

theorem melEnergy_exact [F : Flt ℝ] (hF : Lawful F) (mags : List ℝ) (sr : ℝ) (N m : ℕ) (hm : m < N) :
    melEnergy mags (melBins mags.length sr N) m = .ok (melEnergySum mags sr N m) := by
  have hb := melBins_length (T := ℝ) mags.length sr N
  unfold melEnergy melEnergySum
  simp only []
  rw [rd_getD 0 (by omega), rd_getD 0 (by omega), rd_getD 0 (by omega)]
  simp only [Outcome.bind_ok]
  rw [melBins_exact hF _ _ _ _ (by omega), melBins_exact hF _ _ _ _ (by omega), melBins_exact hF _ _ _ _ (by omega),
    show m + 1 - 1 = m by omega]
  split
  · rename_i h
    rw [Outcome.pure_eq, hF.zero]
    congr 1
    symm
    refine sum_eq_zero fun k _ => ?_
    unfold triangle
    rw [if_pos h, zero_mul]
  · rename_i h
    rw [riseLoop hF, Outcome.bind_ok, fallLoop hF, hF.zero, zero_add, sum_triangle _ _ _ _ h]

/-- C48: the energies are the sums of the spectrum against the triangular mel filters. -/
theorem mel_spec [F : Flt ℝ] (hF : Lawful F) (mags : List ℝ) (sr : ℝ) (N : ℕ) :
    melFilterbank mags sr N = .ok (tab N (melEnergySum mags sr N)) := by
  unfold melFilterbank
  rw [fillOut_ok _ _ (melEnergySum mags sr N) (fun k hk => melEnergy_exact hF mags sr N k (by simpa using hk))]
  simp

theorem triangle_nonneg (lo mid hi k : ℕ) : 0 ≤ triangle lo mid hi k := by
  unfold triangle
  split_ifs with h h1 h2
  · exact le_rfl
  · have a : (lo : ℝ) ≤ k := by exact_mod_cast h1.1
    have b : (k : ℝ) < mid := by exact_mod_cast h1.2
    exact div_nonneg (by linarith) (by linarith)
  · have a : (mid : ℝ) ≤ k := by exact_mod_cast h2.1
    have b : (k : ℝ) < hi := by exact_mod_cast h2.2
    exact div_nonneg (by linarith) (by linarith)
  · exact le_rfl

/-- C48: non-negative spectra have non-negative energies, so the logarithm in `mfcc` is of a positive number. -/
theorem mel_nonneg [F : Flt ℝ] (hF : Lawful F) (mags : List ℝ) (sr : ℝ) (N : ℕ) (h : ∀ v ∈ mags, 0 ≤ v) :
    ∃ e, melFilterbank mags sr N = .ok e ∧ ∀ v ∈ e, 0 ≤ v := by
  refine ⟨_, mel_spec hF mags sr N, fun v hv => ?_⟩
  obtain ⟨i, hi, rfl⟩ := List.mem_iff_getElem.1 hv
  rw [tab_getElem]
  refine sum_nonneg fun k hk => mul_nonneg (triangle_nonneg _ _ _ _) ?_
  rw [mem_range] at hk
  rw [List.getD_eq_getElem _ _ hk]
  exact h _ (List.getElem_mem hk)

/-- C48: the filter bank is linear in the spectrum. -/
theorem mel_linear [F : Flt ℝ] (hF : Lawful F) (x y : List ℝ) (hl : x.length = y.length) (a b sr : ℝ) (N : ℕ) :
    ∃ ex ey, melFilterbank x sr N = .ok ex ∧ melFilterbank y sr N = .ok ey ∧
      melFilterbank (List.zipWith (fun u v => a * u + b * v) x y) sr N =
        .ok (List.zipWith (fun u v => a * u + b * v) ex ey) := by
  refine ⟨_, _, mel_spec hF x sr N, mel_spec hF y sr N, ?_⟩
  rw [mel_spec hF, tab_zipWith]
  congr 1
  refine tab_congr fun m _ => ?_
  unfold melEnergySum
  rw [show (List.zipWith (fun u v => a * u + b * v) x y).length = x.length by simp [hl], ← hl, mul_sum, mul_sum,
    ← sum_add_distrib]
  refine sum_congr rfl fun k hk => ?_
  rw [mem_range] at hk
  rw [List.getD_eq_getElem _ _ (by simp; omega), List.getElem_zipWith, List.getD_eq_getElem _ _ hk,
    List.getD_eq_getElem _ _ (by omega)]
  ring

/-! ### Where the filters lie -/

theorem melOf_hz {f : ℝ} (hf : 0 < f) : hzOf (melOf f) = f := by
  unfold hzOf melOf
  have h10 : Real.log 10 ≠ 0 := Real.log_ne_zero_of_pos_of_ne_one (by norm_num) (by norm_num)
  have hp : 0 < 1 + f / 700 := by positivity
  have e : 2595 * (Real.log (1 + f / 700) / Real.log 10) / 2595 = Real.log (1 + f / 700) / Real.log 10 := by ring
  rw [e, Real.rpow_def_of_pos (by norm_num), mul_div_cancel₀ _ h10, Real.exp_log hp]
  ring

theorem hzOf_mono : Monotone hzOf := by
  intro a b h
  unfold hzOf
  have : (10 : ℝ) ^ (a / 2595) ≤ (10 : ℝ) ^ (b / 2595) :=
    Real.rpow_le_rpow_of_exponent_le (by norm_num) (by linarith)
  linarith

theorem melOf_nonneg {f : ℝ} (hf : 0 ≤ f) : 0 ≤ melOf f := by
  unfold melOf
  have h1 : 0 ≤ Real.log (1 + f / 700) := Real.log_nonneg (by have : 0 ≤ f / 700 := by positivity
                                                              linarith)
  have h2 : 0 ≤ Real.log 10 := Real.log_nonneg (by norm_num)
  positivity

theorem melBin_mono (n : ℕ) {sr : ℝ} (hsr : 0 < sr) (N : ℕ) : Monotone (melBin n sr N) := by
  intro i j h
  unfold melBin
  refine Nat.floor_le_floor ?_
  have hm : melEdge sr N i ≤ melEdge sr N j := by
    unfold melEdge
    refine hzOf_mono ?_
    have h1 : (i : ℝ) ≤ j := by exact_mod_cast h
    have h2 := melOf_nonneg (f := sr / 2) (by positivity)
    have h3 := mul_le_mul_of_nonneg_left h1 h2
    exact div_le_div_of_nonneg_right h3 (by positivity)
  exact div_le_div_of_nonneg_right (mul_le_mul_of_nonneg_right hm (by positivity)) hsr.le

/-- C48: the first edge is bin 0, the edges increase, and the last one is the middle of the spectrum passed in. -/
theorem mel_edges (n : ℕ) {sr : ℝ} (hsr : 0 < sr) (N : ℕ) :
    melBin n sr N 0 = 0 ∧ Monotone (melBin n sr N) ∧ melBin n sr N (N + 1) = (n + 1) / 2 := by
  refine ⟨?_, melBin_mono n hsr N, ?_⟩
  · simp [melBin, melEdge, hzOf]
  · unfold melBin melEdge
    have hN : ((N + 1 : ℕ) : ℝ) ≠ 0 := by positivity
    rw [mul_div_cancel_right₀ _ hN, melOf_hz (by positivity)]
    have : sr / 2 * (n + 1) / sr = ((n + 1 : ℕ) : ℝ) / (2 : ℕ) := by
      push_cast; field_simp
    rw [this, Nat.floor_div_natCast, Nat.floor_natCast]

/-- C48: values from the middle of the spectrum on do not influence the energies. -/
theorem mel_upper_half_ignored [F : Flt ℝ] (hF : Lawful F) (x y : List ℝ) (hl : x.length = y.length) {sr : ℝ}
    (hsr : 0 < sr) (N : ℕ) (h : ∀ k, k < (x.length + 1) / 2 → x.getD k 0 = y.getD k 0) :
    melFilterbank x sr N = melFilterbank y sr N := by
  rw [mel_spec hF, mel_spec hF]
  congr 1
  refine tab_congr fun m hm => ?_
  unfold melEnergySum
  rw [← hl]
  refine sum_congr rfl fun k _ => ?_
  by_cases hk : k < (x.length + 1) / 2
  · rw [h k hk]
  · obtain ⟨-, hmono, hlast⟩ := mel_edges x.length hsr N
    have h1 := hmono (show m + 2 ≤ N + 1 by omega)
    have h2 := hmono (show m + 1 ≤ m + 2 by omega)
    rw [hlast] at h1
    have : triangle (melBin x.length sr N m) (melBin x.length sr N (m + 1)) (melBin x.length sr N (m + 2)) k = 0 := by
      unfold triangle
      split_ifs <;> first | rfl | omega
    rw [this, zero_mul, zero_mul]

/-! ### MFCC -/

/-- C48: `mfcc` reports `InvalidValue` exactly when more coefficients than filters are asked for; otherwise it
returns `num_coeffs` values, the leading ones of the full vector of `num_mel` coefficients. Any arithmetic. -/
theorem mfcc_total {T : Type} [Flt T] (mags : List T) (sr : T) (N c : ℕ) :
    (N < c → mfcc mags sr N c = .ok (.error .InvalidValue)) ∧
    (c ≤ N → ∃ v full, mfcc mags sr N c = .ok (.ok v) ∧ v.length = c ∧ mfcc mags sr N N = .ok (.ok full) ∧
      full.length = N ∧ v = full.take c) := by
  obtain ⟨e, he, hl⟩ := mel_total mags sr N
  obtain ⟨d, hd, hdl⟩ := (trig_total (T := T)).2.1 (e.map fun x => Flt.log (x +. tiny))
  rw [List.length_map, hl] at hdl
  unfold mfcc
  simp only [he, Outcome.bind_ok, hl, hd, hdl, Outcome.pure_eq]
  refine ⟨fun h => by rw [if_pos h], fun h => ?_⟩
  rw [if_neg (by omega), if_pos h, if_neg (by omega), if_pos le_rfl]
  refine ⟨_, _, rfl, by rw [List.length_take, hdl]; omega, rfl, by rw [List.length_take, hdl]; omega, ?_⟩
  rw [List.take_take]; congr 1; omega

/-- C48: `mfcc` is the start of the DCT-II of the logarithms of the mel energies. -/
theorem mfcc_spec [F : Flt ℝ] (hF : Lawful F) (mags : List ℝ) (sr : ℝ) (N c : ℕ) (h : c ≤ N) :
    ∃ v, mfcc mags sr N c = .ok (.ok v) ∧ v.length = c ∧ ∀ k, k < c →
      v.getD k 0 = dctII N (fun m => Real.log (melEnergySum mags sr N m + 1e-12)) k := by
  obtain ⟨d, hd, hc⟩ := dct2_spec hF ((tab N (melEnergySum mags sr N)).map fun x => Flt.log (x +. tiny))
  have hl : d.length = N := by rw [hc.1]; simp
  unfold mfcc
  simp only [mel_spec hF, Outcome.bind_ok, tab_length, hd, hl, Outcome.pure_eq]
  rw [if_neg (by omega), if_pos h]
  refine ⟨_, rfl, by rw [List.length_take, hl]; omega, fun k hk => ?_⟩
  have h2 := hc.2 k (by simp; omega)
  rw [List.getD_eq_getElem _ _ (by rw [List.length_take, hl]; omega), List.getElem_take,
    ← List.getD_eq_getElem _ 0 (by omega), h2]
  simp only [List.length_map, tab_length]
  refine dctII_congr _ _ _ (fun t ht => ?_) _ (by omega)
  rw [List.getD_eq_getElem _ _ (by simpa using ht), List.getElem_map, tab_getElem, hF.log, hF.add]
  unfold tiny
  rw [hF.lit]
  norm_num

/-- C48: `mfcc_batch` returns the coefficients of every frame in order, or `InvalidValue` if the batch is not
empty and too many coefficients are asked for. -/
theorem mfcc_batch_spec {T : Type} [Flt T] (sr : T) (N c : ℕ) (batch : List (List T)) :
    (N < c → batch ≠ [] → mfccBatch sr N c batch = .ok (.error .InvalidValue)) ∧
    (c ≤ N ∨ batch = [] → ∃ out, mfccBatch sr N c batch = .ok (.ok out) ∧ out.length = batch.length ∧
      ∀ i (h : i < batch.length) (h' : i < out.length), mfcc batch[i] sr N c = .ok (.ok out[i])) := by
  constructor
  · intro h hb
    cases batch with
    | nil => exact absurd rfl hb
    | cons f fs =>
      unfold mfccBatch
      rw [(mfcc_total f sr N c).1 h]
      rfl
  · rintro (h | h)
    · induction batch with
      | nil => exact ⟨[], rfl, rfl, fun i h => absurd h (by simp)⟩
      | cons f fs ih =>
        obtain ⟨v, -, e, -⟩ := (mfcc_total f sr N c).2 h
        obtain ⟨out, e2, hl, hi⟩ := ih
        unfold mfccBatch
        rw [e, Outcome.bind_ok]
        simp only [e2, Outcome.bind_ok]
        refine ⟨v :: out, rfl, by simp [hl], fun i h h' => ?_⟩
        cases i with
        | zero => exact e
        | succ i => exact hi i (by simpa using h) (by simpa using h')
    · subst h
      exact ⟨[], rfl, rfl, fun i h => absurd h (by simp)⟩

/-- Non-vacuity: three filters, two coefficients, five bins. -/
example [F : Flt ℝ] (hF : Lawful F) : ∃ v, mfcc ([1, 2, 3, 4, 5] : List ℝ) 8000 3 2 = .ok (.ok v) ∧ v.length = 2 := by
  obtain ⟨v, e, h, -⟩ := mfcc_spec hF [1, 2, 3, 4, 5] 8000 3 2 (by norm_num)
  exact ⟨v, e, h⟩

end Kofft.Props
