import Verif.Props.RangeTrig
import Verif.Props.Hilbert
import Verif.Props.Mel
import Mathlib.Analysis.Complex.ExponentialBounds
/-
Property C107, continued: mel energies, MFCC and real cepstra of finite data of moderate size are finite.
-/
namespace Kofft.Props
open Spec Finset

variable {T : Type} [F : Flt T] {N : Denote T} {u η Ω v t L : ℝ}

theorem bd_add_nonneg (h : Coarse F N u η Ω v t) {a b : T} (ha : N.fin a) (hb : N.fin b) (ha0 : 0 ≤ N.val a)
    (hb0 : 0 ≤ N.val b) (hΩ : N.val a + N.val b ≤ Ω) :
    N.fin (a +. b) ∧ 3 / 4 * (N.val a + N.val b) ≤ N.val (a +. b) ∧ N.val (a +. b) ≤ (1 + u) * (N.val a + N.val b) := by
  have h0 : 0 ≤ N.val a + N.val b := by linarith
  obtain ⟨r1, r2⟩ := h.add a b ha hb (by rw [abs_of_nonneg h0]; exact hΩ)
  rw [abs_of_nonneg h0] at r2
  obtain ⟨r3, r4⟩ := abs_le.1 r2
  have := mul_le_mul_of_nonneg_right h.u_small h0
  refine ⟨r1, ?_, ?_⟩
  · show _ ≤ N.val (F.add a b)
    linarith
  · show N.val (F.add a b) ≤ _
    linarith

/-- a weight of a triangular filter -/
theorem bd_weight (h : Coarse F N u η Ω v t) (hE : Elementary F N Ω L) {a b : ℕ} (hab : a ≤ b) (hb : 0 < b)
    (hb' : b < 2 ^ 64) : Bd N ((Flt.ofNat a : T) /. Flt.ofNat b) 4 ∧ 0 ≤ N.val ((Flt.ofNat a : T) /. Flt.ofNat b) := by
  obtain ⟨h1, h2⟩ := h.bofNat (n := a) (by omega)
  obtain ⟨h3, h4⟩ := h.bofNat (n := b) hb'
  have hbig := h.big
  have hbr : (0 : ℝ) < b := by exact_mod_cast hb
  have hab' : (a : ℝ) ≤ b := by exact_mod_cast hab
  have ha0 : (0 : ℝ) ≤ a := Nat.cast_nonneg a
  have hq : 5 / 4 * (a : ℝ) / (3 / 4 * b) ≤ 5 / 3 := by
    rw [div_le_iff₀ (by linarith)]; linarith
  have hv0 : 0 < N.val (Flt.ofNat b : T) := by linarith
  have hva : 0 ≤ N.val (Flt.ofNat a : T) := by linarith
  refine ⟨h.bdiv h1 h3.1 (by linarith : (0 : ℝ) < 3 / 4 * b) h4 (by linarith) (by linarith), ?_⟩
  refine hE.div_nonneg _ _ h1.1 h3.1 hv0.ne' (by positivity) ?_
  rw [abs_of_nonneg (by positivity), div_le_iff₀ hv0]
  have := (abs_le.1 h1.2).2
  nlinarith

/-- the value of an energy after the samples below `k` -/
def EnergyOk (N : Denote T) (u : ℝ) (mags : List T) (k : ℕ) (e : T) : Prop :=
  N.fin e ∧ 0 ≤ N.val e ∧ N.val e ≤
    (1 + u) ^ min k mags.length * ∑ i ∈ range (min k mags.length), (5 * |N.val (mags.getD i Flt.zero)| + 1)

theorem energy_step (h : Coarse F N u η Ω v t) (hE : Elementary F N Ω L) {mags : List T}
    (hfin : ∀ a ∈ mags, N.fin a ∧ 0 ≤ N.val a) (hΩ : melBound u mags.length (N.absSum mags) ≤ Ω) {k : ℕ} {e w : T}
    (he : EnergyOk N u mags k e) (hw : Bd N w 4) (hw0 : 0 ≤ N.val w) :
    EnergyOk N u mags (k + 1) (match mags[k]? with | some x => e +. (w *. x) | none => e) := by
  have hS : ∑ i ∈ range mags.length, (5 * |N.val (mags.getD i Flt.zero)| + 1) = 5 * N.absSum mags + mags.length := by
    rw [Denote.absSum, map_sum_range _ Flt.zero, sum_add_distrib, ← mul_sum, sum_const, card_range, nsmul_eq_mul]
    ring
  have hu := h.u_nonneg
  by_cases hk : k < mags.length
  · rw [List.getElem?_eq_getElem hk]
    show EnergyOk N u mags (k + 1) (e +. (w *. mags[k]))
    obtain ⟨hx, hx0⟩ := hfin _ (List.getElem_mem hk)
    obtain ⟨e1, e2, e3⟩ := he
    rw [min_eq_left hk.le] at e3
    have hget : mags.getD k Flt.zero = mags[k] := by simp [hk]
    have h1 : 1 ≤ (1 + u) ^ k := one_le_pow₀ (by linarith)
    have hsucc : ∑ i ∈ range (k + 1), (5 * |N.val (mags.getD i Flt.zero)| + 1) ≤ 5 * N.absSum mags + mags.length := by
      rw [← hS]
      exact sum_le_sum_of_subset_of_nonneg (range_mono (by omega)) fun i _ _ => by positivity
    have hsk : 0 ≤ ∑ i ∈ range k, (5 * |N.val (mags.getD i Flt.zero)| + 1) := by positivity
    rw [sum_range_succ, hget] at hsucc
    have hB : (1 + u) ^ k * (∑ i ∈ range k, (5 * |N.val (mags.getD i Flt.zero)| + 1) + (5 * |N.val mags[k]| + 1)) ≤ Ω := by
      refine le_trans ?_ hΩ
      exact mul_le_mul (pow_le_pow_right₀ (by linarith) hk.le) hsucc (by positivity) (by positivity)
    have hlast : N.val e + (5 * |N.val mags[k]| + 1) ≤
        (1 + u) ^ k * (∑ i ∈ range k, (5 * |N.val (mags.getD i Flt.zero)| + 1) + (5 * |N.val mags[k]| + 1)) := by
      have := abs_nonneg (N.val mags[k])
      nlinarith
    have habs := abs_nonneg (N.val mags[k])
    have hm : Bd N (w *. mags[k]) (5 * |N.val mags[k]| + 1) :=
      h.bmul hw ⟨hx, le_rfl⟩ (by linarith) (by linarith)
    have hm0 : 0 ≤ N.val (w *. mags[k]) := by
      refine hE.mul_nonneg _ _ hw.1 hx (by positivity) ?_
      rw [abs_mul]
      have := mul_le_mul_of_nonneg_right hw.2 habs
      linarith
    have hmle := (abs_le.1 hm.2).2
    obtain ⟨r1, r2, r3⟩ := bd_add_nonneg h e1 hm.1 e2 hm0 (by linarith)
    refine ⟨r1, by linarith, r3.trans ?_⟩
    rw [min_eq_left (by omega : k + 1 ≤ mags.length), sum_range_succ, hget, pow_succ, mul_comm ((1 + u) ^ k), mul_assoc]
    exact mul_le_mul_of_nonneg_left (by linarith) (by linarith)
  · rw [List.getElem?_eq_none (by omega)]
    show EnergyOk N u mags (k + 1) e
    unfold EnergyOk at he ⊢
    rwa [min_eq_right (by omega : mags.length ≤ k + 1), ← min_eq_right (by omega : mags.length ≤ k)]

theorem energy_zero (h : Coarse F N u η Ω v t) (mags : List T) (k : ℕ) : EnergyOk N u mags k (Flt.zero : T) := by
  refine ⟨h.bzero.1, h.toIeee.zero.2.ge, ?_⟩
  rw [h.toIeee.zero.2]
  have := h.u_nonneg
  positivity

theorem energy_bound (h : Coarse F N u η Ω v t) {mags : List T} {k : ℕ} {e : T} (he : EnergyOk N u mags k e) :
    N.fin e ∧ 0 ≤ N.val e ∧ N.val e ≤ melBound u mags.length (N.absSum mags) := by
  obtain ⟨e1, e2, e3⟩ := he
  refine ⟨e1, e2, e3.trans ?_⟩
  have hS : ∑ i ∈ range mags.length, (5 * |N.val (mags.getD i Flt.zero)| + 1) = 5 * N.absSum mags + mags.length := by
    rw [Denote.absSum, map_sum_range _ Flt.zero, sum_add_distrib, ← mul_sum, sum_const, card_range, nsmul_eq_mul]
    ring
  rw [melBound, ← hS]
  have hu := h.u_nonneg
  refine mul_le_mul (pow_le_pow_right₀ (by linarith) (min_le_right _ _)) ?_ (by positivity) (by positivity)
  exact sum_le_sum_of_subset_of_nonneg (range_mono (min_le_right _ _)) fun i _ _ => by positivity

theorem forRange_inv {σ : Type} (P : ℕ → σ → Prop) (f : ℕ → σ → σ) (lo hi : ℕ) (s : σ) (h0 : P lo s)
    (hs : ∀ k s, lo ≤ k → k < hi → P k s → P (k + 1) (f k s)) :
    ∃ v, (forRange lo hi s fun k e => (pure (f k e) : Outcome σ)) = .ok v ∧ P (max lo hi) v := by
  by_cases hle : lo ≤ hi
  · rw [max_eq_right hle]
    unfold forRange
    obtain ⟨c, rfl⟩ : ∃ c, hi = lo + c := ⟨hi - lo, by omega⟩
    rw [show lo + c - lo = c by omega]
    clear hle
    induction c generalizing lo s with
    | zero => exact ⟨s, rfl, h0⟩
    | succ c ih =>
      obtain ⟨w, e, hw⟩ := ih (lo + 1) (f lo s) (hs lo s le_rfl (by omega) h0)
        (fun k s h1 h2 hP => hs k s (by omega) (by omega) hP)
      exact ⟨w, e, by rwa [show lo + (c + 1) = lo + 1 + c by omega]⟩
  · rw [forRange_empty (by omega), max_eq_left (by omega)]
    exact ⟨s, rfl, h0⟩

/-- C107b. `mel_filterbank` of finite magnitudes that are not negative: every energy is finite and not negative, at any
sample rate (even one that is zero, negative, infinite or NaN). -/
theorem mel_finite (hF : Ieee F N u η Ω v t) (hu : u ≤ 1 / 4) (hv : v ≤ 1 / 4) (hη : η ≤ 1) (hE : Elementary F N Ω L)
    (mags : List T) (hfin : ∀ a ∈ mags, N.fin a ∧ 0 ≤ N.val a) (sr : T) (num : ℕ)
    (hΩ : melBound u mags.length (N.absSum mags) ≤ Ω) :
    ∃ y, melFilterbank mags sr num = .ok y ∧ y.length = num ∧
      ∀ a ∈ y, N.fin a ∧ 0 ≤ N.val a ∧ N.val a ≤ melBound u mags.length (N.absSum mags) := by
  have h : Coarse F N u η Ω v t := { hF with u_small := hu, v_small := hv, eta_small := hη }
  have key : ∀ i, ∃ w : T, i < num → melEnergy mags (melBins mags.length sr num) i = .ok w ∧ ∃ k, EnergyOk N u mags k w := by
    intro i
    by_cases hi : i < num
    · have hb := melBins_length (T := T) mags.length sr num
      have hlt : ∀ j, (melBins mags.length sr num).getD j 0 < 2 ^ 64 := by
        intro j
        by_cases hj : j < num + 2
        · rw [List.getD_eq_getElem _ _ (by rw [hb]; exact hj)]
          unfold melBins
          rw [List.getElem_map]
          exact hE.toNat _
        · rw [List.getD_eq_default _ _ (by rw [hb]; omega)]
          positivity
      unfold melEnergy
      simp only []
      rw [rd_getD 0 (by omega), rd_getD 0 (by omega), rd_getD 0 (by omega)]
      simp only [Outcome.bind_ok]
      have hmid := hlt (i + 1)
      have hhi := hlt (i + 1 + 1)
      generalize (melBins mags.length sr num).getD (i + 1 - 1) 0 = lo at *
      generalize (melBins mags.length sr num).getD (i + 1) 0 = mid at *
      generalize (melBins mags.length sr num).getD (i + 1 + 1) 0 = hi' at *
      split
      · exact ⟨_, fun _ => ⟨rfl, 0, energy_zero h mags 0⟩⟩
      · obtain ⟨w1, r1, p1⟩ := forRange_inv (EnergyOk N u mags) (melRise mags lo mid) lo mid (Flt.zero : T)
          (energy_zero h mags lo) (fun k s h1 h2 hP => by
            obtain ⟨b1, b2⟩ := bd_weight h hE (a := k - lo) (b := mid - lo) (by omega) (by omega) (by omega)
            exact energy_step h hE hfin hΩ hP b1 b2)
        rw [r1, Outcome.bind_ok]
        by_cases hcase : lo ≤ mid
        · rw [max_eq_right hcase] at p1
          obtain ⟨w2, r2, p2⟩ := forRange_inv (EnergyOk N u mags) (melFall mags mid hi') mid hi' w1 p1
            (fun k s h1 h2 hP => by
              obtain ⟨b1, b2⟩ := bd_weight h hE (a := hi' - k) (b := hi' - mid) (by omega) (by omega) (by omega)
              exact energy_step h hE hfin hΩ hP b1 b2)
          exact ⟨w2, fun _ => ⟨r2, _, p2⟩⟩
        · have : w1 = Flt.zero := by
            rw [forRange_empty (by omega)] at r1
            exact (Outcome.ok.inj r1).symm
          subst this
          obtain ⟨w2, r2, p2⟩ := forRange_inv (EnergyOk N u mags) (melFall mags mid hi') mid hi' (Flt.zero : T)
            (energy_zero h mags mid) (fun k s h1 h2 hP => by
              obtain ⟨b1, b2⟩ := bd_weight h hE (a := hi' - k) (b := hi' - mid) (by omega) (by omega) (by omega)
              exact energy_step h hE hfin hΩ hP b1 b2)
          exact ⟨w2, fun _ => ⟨r2, _, p2⟩⟩
    · exact ⟨Flt.zero, fun h => absurd h hi⟩
  choose w hw using key
  unfold melFilterbank
  rw [fillOut_ok _ _ w (fun k hk => (hw k (by simpa using hk)).1)]
  refine ⟨_, rfl, by simp, ?_⟩
  intro a ha
  obtain ⟨k, hk, rfl⟩ := List.mem_iff_getElem.mp ha
  rw [tab_getElem]
  obtain ⟨j, hj⟩ := (hw k (by simpa using hk)).2
  exact energy_bound h hj

/-- the logarithm of an energy plus `1e-12` -/
theorem log_tiny (h : Coarse F N u η Ω v t) (hE : Elementary F N Ω L) {e : T} {B : ℝ} (he : N.fin e) (he0 : 0 ≤ N.val e)
    (heB : N.val e ≤ B) (hB : 5 / 4 * (B + 1) ≤ Ω) : Bd N (Flt.log (e +. (tiny : T))) L := by
  obtain ⟨t1, t2, t3⟩ := hE.tiny
  have hB0 : 0 ≤ B := he0.trans heB
  obtain ⟨r1, r2, r3⟩ := bd_add_nonneg h (b := (tiny : T)) he t1 he0 t2.le (by
    have : N.val (tiny : T) ≤ 1 := t3
    linarith)
  have t2' : 0 < N.val (tiny : T) := t2
  have t3' : N.val (tiny : T) ≤ 1 := t3
  have hu := h.u_small
  exact hE.log _ r1 (by linarith) (by nlinarith [h.u_nonneg])

omit F in
theorem absSum_le {x : List T} {B : ℝ} (h : ∀ a ∈ x, |N.val a| ≤ B) : N.absSum x ≤ x.length * B := by
  unfold Denote.absSum
  induction x with
  | nil => simp
  | cons a x ih =>
    rw [List.map_cons, List.sum_cons, List.length_cons]
    have h1 := h a (by simp)
    have h2 := ih fun b hb => h b (by simp [hb])
    push_cast
    linarith

/-- C107c. `mfcc` of finite magnitudes that are not negative, any sample rate: if at least as many filters as coefficients
are asked for, the result is that many finite coefficients. -/
theorem mfcc_finite (hF : Ieee F N u η Ω v t) (hu : u ≤ 1 / 4) (hv : v ≤ 1 / 4) (hη : η ≤ 1) (hE : Elementary F N Ω L)
    (mags : List T) (hfin : ∀ a ∈ mags, N.fin a ∧ 0 ≤ N.val a) (sr : T) (numMel numCoeffs : ℕ) (hc : numCoeffs ≤ numMel)
    (hm : numMel ≤ 2 ^ 31) (hΩ : 5 / 4 * (melBound u mags.length (N.absSum mags) + 1) ≤ Ω)
    (hn : 400 * (numMel : ℝ) ^ 2 ≤ Ω) (hT : trigBound u numMel (numMel * L) ≤ Ω) :
    ∃ y, mfcc mags sr numMel numCoeffs = .ok (.ok y) ∧ y.length = numCoeffs ∧ ∀ a ∈ y, N.fin a := by
  have h : Coarse F N u η Ω v t := { hF with u_small := hu, v_small := hv, eta_small := hη }
  have hmb : 0 ≤ melBound u mags.length (N.absSum mags) := by
    unfold melBound
    have : 0 ≤ N.absSum mags := by
      unfold Denote.absSum
      exact List.sum_nonneg (by simp)
    have := h.u_nonneg
    positivity
  obtain ⟨e, e1, e2, e3⟩ := mel_finite hF hu hv hη hE mags hfin sr numMel (by linarith)
  have hlog : ∀ a ∈ e.map (fun x => Flt.log (x +. (tiny : T))), Bd N a L := by
    intro a ha
    obtain ⟨b, hb, rfl⟩ := List.mem_map.1 ha
    obtain ⟨b1, b2, b3⟩ := e3 b hb
    exact log_tiny h hE b1 b2 b3 hΩ
  have hlen : (e.map (fun x => Flt.log (x +. (tiny : T)))).length = numMel := by rw [List.length_map, e2]
  obtain ⟨d, d1, d2, d3⟩ := trig_finite hF hu hv hη dct2 (by simp) (e.map (fun x => Flt.log (x +. (tiny : T))))
    (by rw [hlen]; exact hm) (fun a ha => (hlog a ha).1) (by rw [hlen]; exact hn) (by
      rw [hlen]
      refine le_trans ?_ hT
      have hs := absSum_le (N := N) (B := L) fun a ha => (hlog a ha).2
      rw [hlen] at hs
      unfold trigBound
      have := h.u_nonneg
      exact mul_le_mul_of_nonneg_left (by linarith) (by positivity))
  rw [hlen] at d2
  unfold mfcc
  rw [e1, Outcome.bind_ok, if_neg (by omega), d1, Outcome.bind_ok, if_pos (by omega)]
  refine ⟨_, rfl, by simp [d2, hc], ?_⟩
  intro a ha
  exact (d3 a (List.mem_of_mem_take ha)).1

/-! ### Transforms of real data and back -/

omit F in
theorem dft_norm_le (n : ℕ) (x : ℕ → ℂ) (k : ℕ) : ‖dft n x k‖ ≤ ∑ s ∈ range n, ‖x s‖ := by
  unfold dft
  refine (norm_sum_le _ _).trans (le_of_eq (sum_congr rfl fun s _ => ?_))
  rw [norm_mul, ie_Wnorm, mul_one]

theorem real_csig (h : Ieee F N u η Ω v t) (x : List T) :
    ∑ s ∈ range (x.map fun a => (⟨a, Flt.zero⟩ : Cx T)).length, ‖N.csig (x.map fun a => (⟨a, Flt.zero⟩ : Cx T)) s‖ =
      N.absSum x := by
  rw [Denote.absSum, map_sum_range _ Flt.zero, List.length_map]
  refine sum_congr rfl fun i hi => ?_
  rw [mem_range] at hi
  have hz := h.zero.2
  rw [csig_get _ _ (by simpa using hi), List.getD_eq_getElem _ _ (by simpa using hi), List.getD_eq_getElem _ _ hi,
    List.getElem_map]
  have : N.cval ⟨x[i], (Flt.zero : T)⟩ = ((N.val x[i] : ℝ) : ℂ) := by
    apply Complex.ext
    · rfl
    · exact hz
  rw [this, Complex.norm_real, Real.norm_eq_abs]

/-- the forward transform of real samples -/
theorem real_fft (hF : Ieee F N u η Ω v t) (cfg : Cfg) (x : List T) (hx : ∃ k, x.length = 2 ^ k)
    (hlen : x.length ≤ 2 ^ 31) (hfin : ∀ a ∈ x, N.fin a) (D : ℝ) (hD0 : 0 < D) (hD : x.length * D ≤ 1)
    (hU : effErr u η D ≤ 1) (hΩ : fftGrowth cfg (effErr u η D) v t x.length * (20 + N.absSum x) ≤ Ω) :
    ∃ p y, fft cfg Planner.new (x.map fun a => (⟨a, Flt.zero⟩ : Cx T)) = .ok (p, y, .ok ()) ∧ y.length = x.length ∧
      ReachVia cfg (fun m => workSize m ≤ workSize x.length) p ∧
      ∀ c ∈ y, Bd N c.re (specBound cfg (effErr u η D) v t x.length (N.absSum x)) ∧
        Bd N c.im (specBound cfg (effErr u η D) v t x.length (N.absSum x)) := by
  have hpos : 0 < x.length := by obtain ⟨k, h⟩ := hx; rw [h]; positivity
  have hp2 : isPow2 x.length = true := isPow2_iff.2 hx
  have hw : workSize x.length = x.length := by rw [workSize, if_pos hp2]
  have hl : (x.map fun a => (⟨a, Flt.zero⟩ : Cx T)).length = x.length := by simp
  have hsum := real_csig hF x
  obtain ⟨p, y, e, hl', hf, herr⟩ := fft_ieee hF cfg (x.map fun a => (⟨a, Flt.zero⟩ : Cx T)) (by rw [hl]; exact hpos)
    (by rw [hl]; exact hlen) (by
      intro c hc
      obtain ⟨a, ha, rfl⟩ := List.mem_map.1 hc
      exact ⟨hfin a ha, hF.zero.1⟩) (.inr (by rw [hl]; exact hx)) Planner.new .new D hD0
    (by rw [hl, hw]; exact hD) hU (by
      rw [hsum, hl, ieeeRoom, if_pos hp2, one_mul]; exact hΩ)
  rw [hl] at hl'
  refine ⟨p, y, e, hl', .fft .new (by rw [hl]) e, ?_⟩
  have henv := ie_env hF hD0 hpos (by rw [hw]; exact hD) hU
  have hG := ie_fftG henv cfg x.length
  have hS0 : 0 ≤ N.absSum x := by
    unfold Denote.absSum
    exact List.sum_nonneg (by simp)
  intro c hc
  obtain ⟨k, hk, rfl⟩ := List.mem_iff_getElem.mp hc
  have h1 := herr k (by rw [hl]; omega)
  rw [hsum, hl, ieeeWeight, if_pos hp2, one_mul, hw, csig_get _ _ hk, List.getD_eq_getElem _ _ hk] at h1
  have h2 : ‖N.cval y[k]‖ ≤ specBound cfg (effErr u η D) v t x.length (N.absSum x) := by
    have h3 := norm_add_le (N.cval y[k] - dft x.length (N.csig (x.map fun a => (⟨a, Flt.zero⟩ : Cx T))) k)
      (dft x.length (N.csig (x.map fun a => (⟨a, Flt.zero⟩ : Cx T))) k)
    rw [sub_add_cancel] at h3
    have h4 := dft_norm_le x.length (N.csig (x.map fun a => (⟨a, Flt.zero⟩ : Cx T))) k
    have hsum' := hsum
    rw [hl] at hsum'
    rw [hsum'] at h4
    unfold specBound
    have h5 : (fftGrowth cfg (effErr u η D) v t x.length - 1) * (N.absSum x + x.length * D) ≤
        (fftGrowth cfg (effErr u η D) v t x.length - 1) * (N.absSum x + 1) :=
      mul_le_mul_of_nonneg_left (by linarith) (by linarith)
    linarith
  have hc := hf _ (List.getElem_mem hk)
  exact ⟨⟨hc.1, (Complex.abs_re_le_norm (N.cval y[k])).trans h2⟩, ⟨hc.2, (Complex.abs_im_le_norm (N.cval y[k])).trans h2⟩⟩

omit F in
theorem csig_sum_le (z : List (Cx T)) (B : ℝ) (hz : ∀ c ∈ z, |N.val c.re| + |N.val c.im| ≤ B) :
    ∑ s ∈ range z.length, ‖N.csig z s‖ ≤ z.length * B := by
  calc ∑ s ∈ range z.length, ‖N.csig z s‖ ≤ ∑ _s ∈ range z.length, B := sum_le_sum fun s hs => by
        rw [mem_range] at hs
        have : N.csig z s = N.cval z[s] := by simp [Denote.csig, hs]
        rw [this]
        exact (Complex.norm_le_abs_re_add_abs_im _).trans (hz _ (List.getElem_mem hs))
    _ = z.length * B := by rw [sum_const, card_range, nsmul_eq_mul]

/-- the inverse transform of a spectrum made from it -/
theorem back_fft (hF : Ieee F N u η Ω v t) (cfg : Cfg) (z : List (Cx T)) (hx : ∃ k, z.length = 2 ^ k)
    (hlen : z.length ≤ 2 ^ 31) (p : Planner T) (hp : ReachVia cfg (fun m => workSize m ≤ workSize z.length) p) (B : ℝ)
    (hz : ∀ c ∈ z, Bd N c.re B ∧ Bd N c.im B) (D : ℝ) (hD0 : 0 < D) (hD : z.length * D ≤ 1)
    (hU : effErr u η D ≤ 1) (hΩ : fftGrowth cfg (effErr u η D) v t z.length * scaleGrowth (effErr u η D) v z.length *
      (20 + z.length * (2 * B)) ≤ Ω) :
    ∃ p' y, ifft cfg p z = .ok (p', y, .ok ()) ∧ y.length = z.length ∧ ∀ c ∈ y, N.cfin c := by
  have hpos : 0 < z.length := by obtain ⟨k, h⟩ := hx; rw [h]; positivity
  have hp2 : isPow2 z.length = true := isPow2_iff.2 hx
  have hw : workSize z.length = z.length := by rw [workSize, if_pos hp2]
  have henv := ie_env hF hD0 hpos (by rw [hw]; exact hD) hU
  have hG := ie_fftG henv cfg z.length
  have hSc := ie_scale_ge henv hpos
  have hs := csig_sum_le (N := N) z (2 * B) (fun c hc => by
    obtain ⟨a, b⟩ := hz c hc
    linarith [a.2, b.2])
  obtain ⟨p', y, e, hl, hf, -⟩ := ifft_ieee hF cfg z hpos hlen (fun c hc => ⟨(hz c hc).1.1, (hz c hc).2.1⟩) (.inr hx) p hp D
    hD0 (by rw [hw]; exact hD) hU (by
      rw [ieeeRoom, if_pos hp2, one_mul]
      refine le_trans (mul_le_mul_of_nonneg_left (by linarith) ?_) hΩ
      exact mul_nonneg (by linarith) (by linarith))
  exact ⟨p', y, e, hl, hf⟩

theorem bd_logMag (h : Coarse F N u η Ω v t) (hE : Elementary F N Ω L) {c : Cx T} {R : ℝ} (h1 : Bd N c.re R)
    (h2 : Bd N c.im R) (hΩ : 4 * R ^ 2 + 6 ≤ Ω) : Bd N (logMag c).re L := by
  have hR := h1.nonneg
  have sq : ∀ {a : T}, Bd N a R → N.fin (a *. a) ∧ 0 ≤ N.val (a *. a) ∧ N.val (a *. a) ≤ 5 / 4 * R ^ 2 + 1 := by
    intro a ha
    have hb := h.bmul (C := 5 / 4 * R ^ 2 + 1) ha ha (by nlinarith) (by rw [sq])
    refine ⟨hb.1, ?_, (abs_le.1 hb.2).2⟩
    refine hE.mul_nonneg a a ha.1 ha.1 (mul_self_nonneg _) ?_
    rw [abs_mul]
    have := mul_le_mul ha.2 ha.2 (abs_nonneg _) hR
    nlinarith
  obtain ⟨a1, a2, a3⟩ := sq h1
  obtain ⟨b1, b2, b3⟩ := sq h2
  obtain ⟨c1, c2, c3⟩ := bd_add_nonneg h a1 b1 a2 b2 (by nlinarith)
  have c4 : N.val ((c.re *. c.re) +. (c.im *. c.im)) ≤ 25 / 8 * R ^ 2 + 5 / 2 := by
    refine c3.trans ?_
    have := mul_le_mul (by linarith [h.u_small] : 1 + u ≤ 5 / 4) (add_le_add a3 b3) (by linarith) (by norm_num)
    linarith
  obtain ⟨d1, d2, d3⟩ := hE.sqrt _ c1 (by linarith)
  unfold logMag
  exact log_tiny h hE (B := 25 / 8 * R ^ 2 + 7 / 2) d1 d2 (by linarith) (by nlinarith)

/-- C107d. `real_cepstrum` of a power of two of finite samples returns finite values, as long as the square of the
spectrum stays below `Ω`. -/
theorem cepstrum_finite (hF : Ieee F N u η Ω v t) (hu : u ≤ 1 / 4) (hv : v ≤ 1 / 4) (hη : η ≤ 1) (hE : Elementary F N Ω L)
    (cfg : Cfg) (x : List T) (hx : ∃ k, x.length = 2 ^ k) (hlen : x.length ≤ 2 ^ 31) (hfin : ∀ a ∈ x, N.fin a)
    (D : ℝ) (hD0 : 0 < D) (hD : x.length * D ≤ 1) (hU : effErr u η D ≤ 1)
    (hΩ : fftGrowth cfg (effErr u η D) v t x.length * (20 + N.absSum x) ≤ Ω)
    (hsq : 4 * specBound cfg (effErr u η D) v t x.length (N.absSum x) ^ 2 + 6 ≤ Ω)
    (hback : fftGrowth cfg (effErr u η D) v t x.length * scaleGrowth (effErr u η D) v x.length *
      (20 + x.length * (2 * L)) ≤ Ω) :
    ∃ y, realCepstrum cfg x = .ok (.ok y) ∧ y.length = x.length ∧ ∀ a ∈ y, N.fin a := by
  have h : Coarse F N u η Ω v t := { hF with u_small := hu, v_small := hv, eta_small := hη }
  have hpos : 0 < x.length := by obtain ⟨k, h⟩ := hx; rw [h]; positivity
  obtain ⟨p, f, e1, hl, hp, hb⟩ := real_fft hF cfg x hx hlen hfin D hD0 hD hU hΩ
  have hml : (f.map logMag).length = x.length := by rw [List.length_map, hl]
  have hz : ∀ c ∈ f.map logMag, Bd N c.re L ∧ Bd N c.im L := by
    intro c hc
    obtain ⟨a, ha, rfl⟩ := List.mem_map.1 hc
    have h1 := bd_logMag h hE (hb a ha).1 (hb a ha).2 hsq
    exact ⟨h1, h.bzero.mono h1.nonneg⟩
  obtain ⟨p', y, e2, hl2, hf⟩ := back_fft hF cfg (f.map logMag) (by rw [hml]; exact hx) (by rw [hml]; exact hlen) p
    (by rw [hml]; exact hp) L hz D hD0 (by rw [hml]; exact hD) hU (by rw [hml]; exact hback)
  refine ⟨y.map Cx.re, ?_, by rw [List.length_map, hl2, hml], ?_⟩
  · unfold realCepstrum
    rw [if_neg (by omega), isPow2_iff.2 hx]
    simp only [Bool.not_true, Bool.false_eq_true, if_false, e1, Outcome.bind_ok, e2]
  · intro a ha
    obtain ⟨c, hc, rfl⟩ := List.mem_map.1 ha
    exact (hf c hc).1

theorem mask_mem (f : List (Cx T)) (c : Cx T) (hc : c ∈ hilbertMask f) :
    c = Cx.zero ∨ ∃ a ∈ f, c = a ∨ c = ⟨a.re *. two, a.im *. two⟩ := by
  have key : ∀ (lo hi lo' hi' : ℕ), c ∈ zeroRange (doubleRange f lo hi) lo' hi' →
      c = Cx.zero ∨ ∃ a ∈ f, c = a ∨ c = ⟨a.re *. two, a.im *. two⟩ := by
    intro lo hi lo' hi' hc
    unfold zeroRange doubleRange at hc
    rw [List.mem_mapIdx] at hc
    obtain ⟨i, hi1, rfl⟩ := hc
    rw [List.getElem_mapIdx]
    have hif : i < f.length := by simpa using hi1
    split
    · exact .inl rfl
    · right
      refine ⟨f[i], List.getElem_mem hif, ?_⟩
      split
      · exact .inr rfl
      · exact .inl rfl
  unfold hilbertMask at hc
  simp only [] at hc
  split at hc
  · exact key _ _ _ _ hc
  · exact key _ _ _ _ hc

/-- C107e. `hilbert_analytic` of a power of two of finite samples returns finite values. -/
theorem hilbert_finite (hF : Ieee F N u η Ω v t) (hu : u ≤ 1 / 4) (hv : v ≤ 1 / 4) (hη : η ≤ 1)
    (cfg : Cfg) (x : List T) (hx : ∃ k, x.length = 2 ^ k) (hlen : x.length ≤ 2 ^ 31) (hfin : ∀ a ∈ x, N.fin a)
    (D : ℝ) (hD0 : 0 < D) (hD : x.length * D ≤ 1) (hU : effErr u η D ≤ 1)
    (hΩ : fftGrowth cfg (effErr u η D) v t x.length * (20 + N.absSum x) ≤ Ω)
    (hback : fftGrowth cfg (effErr u η D) v t x.length * scaleGrowth (effErr u η D) v x.length *
      (20 + x.length * (2 * (5 / 2 * specBound cfg (effErr u η D) v t x.length (N.absSum x) + 1))) ≤ Ω) :
    ∃ y, hilbertAnalytic cfg x = .ok (.ok y) ∧ y.length = x.length ∧ ∀ c ∈ y, N.cfin c := by
  have h : Coarse F N u η Ω v t := { hF with u_small := hu, v_small := hv, eta_small := hη }
  have hpos : 0 < x.length := by obtain ⟨k, h⟩ := hx; rw [h]; positivity
  obtain ⟨p, f, e1, hl, hp, hb⟩ := real_fft hF cfg x hx hlen hfin D hD0 hD hU hΩ
  have hml : (hilbertMask f).length = x.length := by rw [hilbertMask_length, hl]
  have hp2 : isPow2 x.length = true := isPow2_iff.2 hx
  have hw : workSize x.length = x.length := by rw [workSize, if_pos hp2]
  have henv := ie_env hF hD0 hpos (by rw [hw]; exact hD) hU
  have hG := ie_fftG henv cfg x.length
  have hSc := ie_scale_ge henv hpos
  have hGS := one_le_mul_of_one_le_of_one_le hG hSc
  have hn1 : (1 : ℝ) ≤ x.length := by exact_mod_cast hpos
  have hS0 : 0 ≤ N.absSum x := by
    unfold Denote.absSum
    exact List.sum_nonneg (by simp)
  have hR0 : 0 ≤ specBound cfg (effErr u η D) v t x.length (N.absSum x) := by
    unfold specBound
    exact mul_nonneg (by linarith) (by linarith)
  generalize specBound cfg (effErr u η D) v t x.length (N.absSum x) = R at *
  have hRΩ : 5 / 2 * R + 1 ≤ Ω := by
    refine le_trans ?_ hback
    have h1 : 20 + (x.length : ℝ) * (2 * (5 / 2 * R + 1)) ≤
        fftGrowth cfg (effErr u η D) v t x.length * scaleGrowth (effErr u η D) v x.length *
          (20 + x.length * (2 * (5 / 2 * R + 1))) := le_mul_of_one_le_left (by positivity) hGS
    nlinarith
  have hz : ∀ c ∈ hilbertMask f, Bd N c.re (5 / 2 * R + 1) ∧ Bd N c.im (5 / 2 * R + 1) := by
    intro c hc
    rcases mask_mem f c hc with rfl | ⟨a, ha, rfl | rfl⟩
    · exact ⟨h.bzero.mono (by linarith), h.bzero.mono (by linarith)⟩
    · exact ⟨(hb _ ha).1.mono (by linarith), (hb _ ha).2.mono (by linarith)⟩
    · exact ⟨h.bmul (hb _ ha).1 h.btwo (by linarith) (by linarith), h.bmul (hb _ ha).2 h.btwo (by linarith) (by linarith)⟩
  obtain ⟨p', y, e2, hl2, hf⟩ := back_fft hF cfg (hilbertMask f) (by rw [hml]; exact hx) (by rw [hml]; exact hlen) p
    (by rw [hml]; exact hp) (5 / 2 * R + 1) hz D hD0 (by rw [hml]; exact hD) hU (by rw [hml]; exact hback)
  refine ⟨y, ?_, by rw [hl2, hml], hf⟩
  unfold hilbertAnalytic
  rw [if_neg (by omega), hp2]
  simp only [Bool.not_true, Bool.false_eq_true, if_false, e1, Outcome.bind_ok, e2]

/-! ### The hypotheses are met -/

omit F in
theorem grd_nonneg (p : ℕ) (q : ℤ) {x : ℝ} (hx : 0 ≤ x) : 0 ≤ grd p q x := by
  unfold grd
  have h2 : (0 : ℝ) < 2 ^ max (Int.log 2 |x| - p + 1) q := zpow_pos (by norm_num) _
  refine mul_nonneg ?_ h2.le
  have : 0 ≤ round (x / (2 : ℝ) ^ max (Int.log 2 |x| - p + 1) q) := by
    rw [round_eq]
    exact Int.floor_nonneg.mpr (by positivity)
  exact_mod_cast this

omit F in
/-- The arithmetic of `Lib/IeeeFlt` with correctly rounded square root and logarithm. -/
theorem binFlt_elementary (p r : ℕ) (q : ℤ) (Ω : ℝ) (M : ℕ) (hp : 2 ≤ p) (hq : q ≤ -60) (hqM : -q ≤ M) (hΩ : Ω ≤ 2 ^ M)
    (fused fma : Bool) : Elementary (binFlt p r q Ω fused fma) (binDen q) Ω (5 / 4 * M + 1) := by
  have hη : (0 : ℝ) < 2 ^ (q - 1) := zpow_pos (by norm_num) _
  have hη1 : (2 : ℝ) ^ (q - 1) ≤ 1 / 10 ^ 18 := by
    calc (2 : ℝ) ^ (q - 1) ≤ 2 ^ (-61 : ℤ) := zpow_le_zpow_right₀ (by norm_num) (by omega)
      _ ≤ _ := by norm_num
  have hpp : (1 : ℝ) / 2 ^ p ≤ 1 / 4 := by
    apply one_div_le_one_div_of_le (by norm_num)
    calc (4 : ℝ) = 2 ^ 2 := by norm_num
      _ ≤ 2 ^ p := pow_le_pow_right₀ (by norm_num) hp
  have hpp0 : (0 : ℝ) < 1 / 2 ^ p := by positivity
  refine ⟨?_, ?_, ?_, ?_, ?_, ?_⟩
  · rintro _ _ ⟨a, rfl, -⟩ ⟨b, rfl, -⟩ h0 h
    change |a * b| ≤ Ω at h
    change 0 ≤ a * b at h0
    have e : (binFlt p r q Ω fused fma).mul (some a) (some b) = some (grd p q (a * b)) := bin_fit p q h
    rw [e]
    exact grd_nonneg p q h0
  · rintro _ _ ⟨a, rfl, -⟩ ⟨b, rfl, -⟩ hb h0 h
    change |a / b| ≤ Ω at h
    change 0 ≤ a / b at h0
    change b ≠ 0 at hb
    have e : (binFlt p r q Ω fused fma).div (some a) (some b) = some (grd p q (a / b)) := by
      show (if b = 0 then none else _) = _
      rw [if_neg hb]; exact bin_fit p q h
    rw [e]
    exact grd_nonneg p q h0
  · rintro _ ⟨a, rfl, -⟩ h0
    change 0 ≤ a at h0
    have e : (binFlt p r q Ω fused fma).sqrt (some a) = some (grd p q (Real.sqrt a)) := by
      show (if a < 0 then none else some (grd p q (Real.sqrt a))) = _
      rw [if_neg (by linarith)]
    rw [e]
    refine ⟨⟨_, rfl, onGrid_grd p q _⟩, grd_nonneg p q (Real.sqrt_nonneg a), ?_⟩
    show grd p q (Real.sqrt a) ≤ 1 + a
    have h1 := (abs_le.1 (grd_close p q (Real.sqrt a))).2
    rw [abs_of_nonneg (Real.sqrt_nonneg a)] at h1
    have h2 := Real.sq_sqrt h0
    have h3 := Real.sqrt_nonneg a
    have h4 := mul_le_mul_of_nonneg_right hpp h3
    norm_num at hη1
    nlinarith [sq_nonneg (Real.sqrt a - 1)]
  · rintro _ ⟨a, rfl, m, hm⟩ h0 hΩa
    change 0 < a at h0
    change a ≤ Ω at hΩa
    have e : (binFlt p r q Ω fused fma).log (some a) = some (grd p q (Real.log a)) := by
      show (if a ≤ 0 then none else some (grd p q (Real.log a))) = _
      rw [if_neg (by linarith)]
    rw [e]
    refine ⟨⟨_, rfl, onGrid_grd p q _⟩, ?_⟩
    show |grd p q (Real.log a)| ≤ _
    have h2q : (0 : ℝ) < 2 ^ q := zpow_pos (by norm_num) _
    have hm1 : (1 : ℝ) ≤ m := by
      have : 0 < m := by
        by_contra hc
        have : (m : ℝ) ≤ 0 := by exact_mod_cast not_lt.1 hc
        have := mul_nonpos_of_nonpos_of_nonneg this h2q.le
        rw [← hm] at this
        linarith
      exact_mod_cast this
    have hal : (2 : ℝ) ^ q ≤ a := by rw [hm]; exact le_mul_of_one_le_left h2q.le hm1
    have hl2 : Real.log 2 ≤ 1 := by linarith [Real.log_two_lt_d9]
    have hl20 : 0 ≤ Real.log 2 := by linarith [Real.log_two_gt_d9]
    have hlog1 : Real.log a ≤ M := by
      calc Real.log a ≤ Real.log (2 ^ M) := Real.log_le_log h0 (hΩa.trans hΩ)
        _ = M * Real.log 2 := by rw [Real.log_pow]
        _ ≤ M := mul_le_of_le_one_right (Nat.cast_nonneg M) hl2
    have hlog2 : -(M : ℝ) ≤ Real.log a := by
      have h1 : Real.log (2 ^ q) ≤ Real.log a := Real.log_le_log h2q hal
      rw [Real.log_zpow] at h1
      have h3 : -(M : ℝ) ≤ q := by exact_mod_cast (by omega : -(M : ℤ) ≤ q)
      have hM : (0 : ℝ) ≤ M := Nat.cast_nonneg M
      nlinarith
    have habs : |Real.log a| ≤ M := abs_le.2 ⟨hlog2, hlog1⟩
    have h1 := abs_of_err (grd_close p q (Real.log a))
    have h4 := mul_le_mul_of_nonneg_right hpp (abs_nonneg (Real.log a))
    norm_num at hη1
    linarith
  · have e : (binFlt p r q Ω fused fma).lit 1 12 = some (grd p q (1 / 10 ^ 12)) := by
      show some (grd p q (((1 : ℤ) : ℝ) / 10 ^ 12)) = _
      norm_num
    rw [e]
    have h1 := abs_le.1 (grd_close p q (1 / 10 ^ 12))
    rw [abs_of_pos (by positivity)] at h1
    have h2 := mul_le_mul_of_nonneg_right hpp (by positivity : (0 : ℝ) ≤ 1 / 10 ^ 12)
    generalize (1 : ℝ) / 2 ^ p * (1 / 10 ^ 12) = w at *
    refine ⟨⟨_, rfl, onGrid_grd p q _⟩, ?_, ?_⟩
    · show 0 < grd p q (1 / 10 ^ 12)
      norm_num at hη1 h1 ⊢
      linarith
    · show grd p q (1 / 10 ^ 12) ≤ 1
      norm_num at hη1 h1 ⊢
      linarith
  · intro a
    cases a with
    | none => show 0 < 2 ^ 64; norm_num
    | some a => exact lt_of_le_of_lt (min_le_right _ _) (by norm_num)

omit F in
theorem binary32_elementary (fused fma : Bool) :
    Elementary (binFlt 24 24 (-149) (2 ^ 128 - 2 ^ 104) fused fma) (binDen (-149)) (2 ^ 128 - 2 ^ 104) 200 := by
  have h := binFlt_elementary 24 24 (-149) (2 ^ 128 - 2 ^ 104) 149 (by norm_num) (by norm_num) (by norm_num) (by norm_num)
    fused fma
  refine { h with log := fun a h1 h2 h3 => ⟨(h.log a h1 h2 h3).1, (h.log a h1 h2 h3).2.trans (by norm_num)⟩ }

omit F in
theorem pow_le_two {n : ℕ} (hn : n ≤ 2 ^ 16) : (1 + 1 / 2 ^ 24 : ℝ) ^ n ≤ 1.01 := by
  have h1 : (1 + 1 / 2 ^ 24 : ℝ) ^ n ≤ Real.exp (n * (1 / 2 ^ 24)) := by
    rw [Real.exp_nat_mul]
    exact pow_le_pow_left₀ (by positivity) (by linarith [Real.add_one_le_exp (1 / 2 ^ 24 : ℝ)]) n
  have h2 : (n : ℝ) * (1 / 2 ^ 24) ≤ 1 / 256 := by
    have : (n : ℝ) ≤ 65536 := by exact_mod_cast hn
    linarith
  have h3 := Real.exp_bound_div_one_sub_of_interval (x := 1 / 256) (by norm_num) (by norm_num)
  have h4 := Real.exp_le_exp.mpr h2
  refine h1.trans (h4.trans (h3.trans (by norm_num)))

/-- C107f. Binary32, up to 65536 samples whose magnitudes sum to at most `2¹²⁵`: no trigonometric transform overflows. -/
theorem trig_binary32 (hF : Ieee F N (1 / 2 ^ 24) (1 / 2 ^ 150) (2 ^ 128 - 2 ^ 104) (1 / 2 ^ 24) (1 / 2 ^ 23))
    (f : List T → Outcome (List T)) (hf : f ∈ [dct1, dct2, dct3, dct4, dst1, dst2, dst3, dst4, dht]) (x : List T)
    (hlen : x.length ≤ 2 ^ 16) (hfin : ∀ a ∈ x, N.fin a) (hS : N.absSum x ≤ 2 ^ 125) :
    ∃ y, f x = .ok y ∧ y.length = x.length ∧ ∀ a ∈ y, N.fin a := by
  have hlr : (x.length : ℝ) ≤ 65536 := by exact_mod_cast hlen
  have hl0 : (0 : ℝ) ≤ x.length := Nat.cast_nonneg _
  have hS0 : 0 ≤ N.absSum x := by
    unfold Denote.absSum
    exact List.sum_nonneg (by simp)
  obtain ⟨y, e, hl, hy⟩ := trig_finite hF (by norm_num) (by norm_num) (by norm_num) f hf x (hlen.trans (by norm_num)) hfin
    (by
      calc 400 * (x.length : ℝ) ^ 2 ≤ 400 * 65536 ^ 2 := by
            have := pow_le_pow_left₀ hl0 hlr 2
            linarith
        _ ≤ _ := by norm_num) (by
      unfold trigBound
      calc _ ≤ (1.01 : ℝ) * (7 * 2 ^ 125 + 4 * 65536) :=
            mul_le_mul (pow_le_two hlen) (by linarith) (by positivity) (by norm_num)
        _ ≤ _ := by norm_num)
  exact ⟨y, e, hl, fun a ha => (hy a ha).1⟩

/-- C107g. Binary32, up to 65536 magnitudes that are not negative and sum to at most `2¹²⁵`, up to 65536 filters: every
coefficient is finite, at any sample rate. -/
theorem mfcc_binary32 (hF : Ieee F N (1 / 2 ^ 24) (1 / 2 ^ 150) (2 ^ 128 - 2 ^ 104) (1 / 2 ^ 24) (1 / 2 ^ 23))
    (hE : Elementary F N (2 ^ 128 - 2 ^ 104) 200) (mags : List T) (hfin : ∀ a ∈ mags, N.fin a ∧ 0 ≤ N.val a) (sr : T)
    (numMel numCoeffs : ℕ) (hc : numCoeffs ≤ numMel) (hm : numMel ≤ 2 ^ 16) (hlen : mags.length ≤ 2 ^ 16)
    (hS : N.absSum mags ≤ 2 ^ 125) :
    ∃ y, mfcc mags sr numMel numCoeffs = .ok (.ok y) ∧ y.length = numCoeffs ∧ ∀ a ∈ y, N.fin a := by
  have hlr : (mags.length : ℝ) ≤ 65536 := by exact_mod_cast hlen
  have hmr : (numMel : ℝ) ≤ 65536 := by exact_mod_cast hm
  have hm0 : (0 : ℝ) ≤ numMel := Nat.cast_nonneg _
  have hS0 : 0 ≤ N.absSum mags := by
    unfold Denote.absSum
    exact List.sum_nonneg (by simp)
  refine mfcc_finite hF (by norm_num) (by norm_num) (by norm_num) hE mags hfin sr numMel numCoeffs hc
    (hm.trans (by norm_num)) ?_ ?_ ?_
  · have : melBound (1 / 2 ^ 24) mags.length (N.absSum mags) ≤ 1.01 * (5 * 2 ^ 125 + 65536) :=
      mul_le_mul (pow_le_two hlen) (by linarith) (by positivity) (by norm_num)
    refine le_trans (mul_le_mul_of_nonneg_left (add_le_add_left this 1) (by norm_num)) (by norm_num)
  · calc 400 * (numMel : ℝ) ^ 2 ≤ 400 * 65536 ^ 2 := by
          have := pow_le_pow_left₀ hm0 hmr 2
          linarith
      _ ≤ _ := by norm_num
  · unfold trigBound
    calc _ ≤ (1.01 : ℝ) * (7 * (65536 * 200) + 4 * 65536) :=
          mul_le_mul (pow_le_two hm) (by linarith) (by positivity) (by norm_num)
      _ ≤ _ := by norm_num

/-- the growth factor of up to 65536 points in binary32 is below 3 -/
theorem growth_binary32 (hF : Ieee F N (1 / 2 ^ 24) (1 / 2 ^ 150) (2 ^ 128 - 2 ^ 104) (1 / 2 ^ 24) (1 / 2 ^ 23)) (cfg : Cfg)
    (hc : cfg.precomputed = false) (K : ℕ) (hK : 5 ≤ K) (hK' : K ≤ 16) :
    effErr (1 / 2 ^ 24) (1 / 2 ^ 150) (1 / 2 ^ 100) ≤ 1 / 2 ^ 23 ∧
    fftGrowth cfg (effErr (1 / 2 ^ 24) (1 / 2 ^ 150) (1 / 2 ^ 100)) (1 / 2 ^ 24) (1 / 2 ^ 23) (2 ^ K) ≤ 3 ∧
    1 ≤ fftGrowth cfg (effErr (1 / 2 ^ 24) (1 / 2 ^ 150) (1 / 2 ^ 100)) (1 / 2 ^ 24) (1 / 2 ^ 23) (2 ^ K) ∧
    0 ≤ scaleGrowth (effErr (1 / 2 ^ 24) (1 / 2 ^ 150) (1 / 2 ^ 100)) (1 / 2 ^ 24) (2 ^ K) ∧
    scaleGrowth (effErr (1 / 2 ^ 24) (1 / 2 ^ 150) (1 / 2 ^ 100)) (1 / 2 ^ 24) (2 ^ K) ≤ 2 := by
  have hp : isPow2 (2 ^ K) = true := isPow2_pow K
  have hK2 : (2 : ℝ) ^ K ≤ 65536 := by
    calc (2 : ℝ) ^ K ≤ 2 ^ 16 := pow_le_pow_right₀ (by norm_num) hK'
      _ = 65536 := by norm_num
  have hKr : (K : ℝ) ≤ 16 := by exact_mod_cast hK'
  have hw : ((workSize (2 ^ K) : ℕ) : ℝ) = 2 ^ K := by rw [workSize, if_pos hp]; push_cast; rfl
  have hU : effErr (1 / 2 ^ 24) (1 / 2 ^ 150) (1 / 2 ^ 100) = 1 / 2 ^ 24 + 1 / 2 ^ 49 := by
    rw [effErr]; norm_num
  have hUle : effErr (1 / 2 ^ 24) (1 / 2 ^ 150) (1 / 2 ^ 100) ≤ 1 / 2 ^ 23 := by rw [hU]; norm_num
  have hU0 : 0 ≤ effErr (1 / 2 ^ 24) (1 / 2 ^ 150) (1 / 2 ^ 100) := by rw [hU]; norm_num
  have h := ie_env hF (D := 1 / 2 ^ 100) (by positivity) (n := 2 ^ K) (by positivity) (by
    rw [hw]
    calc _ ≤ 65536 * (1 / 2 ^ 100 : ℝ) := mul_le_mul_of_nonneg_right hK2 (by positivity)
      _ ≤ 1 := by norm_num) (hUle.trans (by norm_num))
  have hG := ie_fftG h cfg (2 ^ K)
  have hround := h.rounding
  generalize hUe : effErr (1 / 2 ^ 24) (1 / 2 ^ 150) (1 / 2 ^ 100) = e at *
  have hKK : (K : ℝ) * 2 ^ K ≤ 16 * 65536 := mul_le_mul hKr hK2 (by positivity) (by norm_num)
  have hsm : (K : ℝ) * 2 ^ K * e ≤ 16 * 65536 * (1 / 2 ^ 23) := mul_le_mul hKK hUle hU0 (by norm_num)
  have hg := fftGrowth_rotation (F := realFlt true) hround (hUle.trans (by norm_num))
    (by rw [hU]; norm_num) cfg hc K hK (by
      rw [show 8 * (K : ℝ) * 2 ^ K * e = 8 * (K * 2 ^ K * e) by ring]
      norm_num at hsm ⊢; linarith)
  refine ⟨hUle, ?_, hG, ?_, ?_⟩
  · have : 16 * (K : ℝ) * 2 ^ K * e = 16 * (K * 2 ^ K * e) := by ring
    norm_num at hsm
    linarith
  · rw [scaleGrowth, if_pos hp]; positivity
  · rw [scaleGrowth, if_pos hp]
    calc (1 + e) ^ 2 ≤ (1 + 1 / 2 ^ 23) ^ 2 := pow_le_pow_left₀ (by linarith) (by linarith) 2
      _ ≤ 2 := by norm_num

/-- C107h. Binary32, `2^K` samples with `5 ≤ K ≤ 16`, tables built by rotation, magnitudes summing to at most `2⁶⁰`: the
real cepstrum is finite. -/
theorem cepstrum_binary32 (hF : Ieee F N (1 / 2 ^ 24) (1 / 2 ^ 150) (2 ^ 128 - 2 ^ 104) (1 / 2 ^ 24) (1 / 2 ^ 23))
    (hE : Elementary F N (2 ^ 128 - 2 ^ 104) 200) (cfg : Cfg) (hc : cfg.precomputed = false) (K : ℕ) (hK : 5 ≤ K)
    (hK' : K ≤ 16) (x : List T) (hx : x.length = 2 ^ K) (hfin : ∀ a ∈ x, N.fin a) (hS : N.absSum x ≤ 2 ^ 60) :
    ∃ y, realCepstrum cfg x = .ok (.ok y) ∧ y.length = x.length ∧ ∀ a ∈ y, N.fin a := by
  obtain ⟨g0, g1, g2, g3, g4⟩ := growth_binary32 hF cfg hc K hK hK'
  have hK2 : (2 : ℝ) ^ K ≤ 65536 := by
    calc (2 : ℝ) ^ K ≤ 2 ^ 16 := pow_le_pow_right₀ (by norm_num) hK'
      _ = 65536 := by norm_num
  have hKN : 2 ^ K ≤ 2 ^ 16 := Nat.pow_le_pow_right (by norm_num) hK'
  have hxr : (x.length : ℝ) = 2 ^ K := by rw [hx]; push_cast; rfl
  have hS0 : 0 ≤ N.absSum x := by
    unfold Denote.absSum
    exact List.sum_nonneg (by simp)
  refine cepstrum_finite hF (by norm_num) (by norm_num) (by norm_num) hE cfg x ⟨K, hx⟩ (by rw [hx]; exact hKN.trans (by norm_num))
    hfin (1 / 2 ^ 100) (by positivity) ?_ (g0.trans (by norm_num)) ?_ ?_ ?_
  · rw [hxr]
    calc _ ≤ 65536 * (1 / 2 ^ 100 : ℝ) := mul_le_mul_of_nonneg_right hK2 (by positivity)
      _ ≤ 1 := by norm_num
  · rw [hx]
    calc _ ≤ 3 * (20 + 2 ^ 60 : ℝ) := mul_le_mul g1 (by linarith) (by linarith) (by norm_num)
      _ ≤ _ := by norm_num
  · rw [hx]
    have h1 : specBound cfg (effErr (1 / 2 ^ 24) (1 / 2 ^ 150) (1 / 2 ^ 100)) (1 / 2 ^ 24) (1 / 2 ^ 23) (2 ^ K) (N.absSum x) ≤
        3 * (2 ^ 60 + 1) := mul_le_mul g1 (by linarith) (by linarith) (by norm_num)
    have h0 : 0 ≤ specBound cfg (effErr (1 / 2 ^ 24) (1 / 2 ^ 150) (1 / 2 ^ 100)) (1 / 2 ^ 24) (1 / 2 ^ 23) (2 ^ K) (N.absSum x) :=
      mul_nonneg (by linarith) (by linarith)
    have h2 := pow_le_pow_left₀ h0 h1 2
    calc _ ≤ 4 * (3 * (2 ^ 60 + 1) : ℝ) ^ 2 + 6 := by linarith
      _ ≤ _ := by norm_num
  · rw [hxr, hx]
    have h1 := mul_le_mul g1 g4 g3 (by norm_num : (0 : ℝ) ≤ 3)
    calc _ ≤ (3 * 2 : ℝ) * (20 + 65536 * (2 * 200)) :=
          mul_le_mul h1 (by linarith) (by positivity) (by norm_num)
      _ ≤ _ := by norm_num

/-- C107i. The same for the analytic signal, magnitudes summing to at most `2¹⁰⁰`. -/
theorem hilbert_binary32 (hF : Ieee F N (1 / 2 ^ 24) (1 / 2 ^ 150) (2 ^ 128 - 2 ^ 104) (1 / 2 ^ 24) (1 / 2 ^ 23))
    (cfg : Cfg) (hc : cfg.precomputed = false) (K : ℕ) (hK : 5 ≤ K)
    (hK' : K ≤ 16) (x : List T) (hx : x.length = 2 ^ K) (hfin : ∀ a ∈ x, N.fin a) (hS : N.absSum x ≤ 2 ^ 100) :
    ∃ y, hilbertAnalytic cfg x = .ok (.ok y) ∧ y.length = x.length ∧ ∀ c ∈ y, N.cfin c := by
  obtain ⟨g0, g1, g2, g3, g4⟩ := growth_binary32 hF cfg hc K hK hK'
  have hK2 : (2 : ℝ) ^ K ≤ 65536 := by
    calc (2 : ℝ) ^ K ≤ 2 ^ 16 := pow_le_pow_right₀ (by norm_num) hK'
      _ = 65536 := by norm_num
  have hKN : 2 ^ K ≤ 2 ^ 16 := Nat.pow_le_pow_right (by norm_num) hK'
  have hxr : (x.length : ℝ) = 2 ^ K := by rw [hx]; push_cast; rfl
  have hS0 : 0 ≤ N.absSum x := by
    unfold Denote.absSum
    exact List.sum_nonneg (by simp)
  refine hilbert_finite hF (by norm_num) (by norm_num) (by norm_num) cfg x ⟨K, hx⟩ (by rw [hx]; exact hKN.trans (by norm_num))
    hfin (1 / 2 ^ 100) (by positivity) ?_ (g0.trans (by norm_num)) ?_ ?_
  · rw [hxr]
    calc _ ≤ 65536 * (1 / 2 ^ 100 : ℝ) := mul_le_mul_of_nonneg_right hK2 (by positivity)
      _ ≤ 1 := by norm_num
  · rw [hx]
    calc _ ≤ 3 * (20 + 2 ^ 100 : ℝ) := mul_le_mul g1 (by linarith) (by linarith) (by norm_num)
      _ ≤ _ := by norm_num
  · rw [hxr, hx]
    have h1 : specBound cfg (effErr (1 / 2 ^ 24) (1 / 2 ^ 150) (1 / 2 ^ 100)) (1 / 2 ^ 24) (1 / 2 ^ 23) (2 ^ K) (N.absSum x) ≤
        3 * (2 ^ 100 + 1) := mul_le_mul g1 (by linarith) (by linarith) (by norm_num)
    have h0 : 0 ≤ specBound cfg (effErr (1 / 2 ^ 24) (1 / 2 ^ 150) (1 / 2 ^ 100)) (1 / 2 ^ 24) (1 / 2 ^ 23) (2 ^ K) (N.absSum x) :=
      mul_nonneg (by linarith) (by linarith)
    generalize specBound cfg _ _ _ _ _ = R at *
    have h2 := mul_le_mul g1 g4 g3 (by norm_num : (0 : ℝ) ≤ 3)
    have h3 : (2 : ℝ) ^ K * (2 * (5 / 2 * R + 1)) ≤ 65536 * (2 * (5 / 2 * (3 * (2 ^ 100 + 1)) + 1)) :=
      mul_le_mul hK2 (by linarith) (by linarith) (by norm_num)
    calc _ ≤ (3 * 2 : ℝ) * (20 + 65536 * (2 * (5 / 2 * (3 * (2 ^ 100 + 1)) + 1))) :=
          mul_le_mul h2 (by linarith) (by positivity) (by norm_num)
      _ ≤ _ := by norm_num

omit F in
theorem bin_replicate (n m : ℕ) : (∀ a ∈ List.replicate n (some (m : ℝ)), (binDen (-149)).fin a ∧ 0 ≤ (binDen (-149)).val a) ∧
    (binDen (-149)).absSum (List.replicate n (some (m : ℝ))) = n * m := by
  constructor
  · intro a ha
    rw [List.eq_of_mem_replicate ha]
    exact ⟨⟨_, rfl, onGrid_nat (by norm_num) m⟩, Nat.cast_nonneg m⟩
  · unfold Denote.absSum
    rw [List.map_replicate, List.sum_replicate, nsmul_eq_mul]
    congr 1
    show |(m : ℝ)| = m
    exact abs_of_nonneg (Nat.cast_nonneg m)

omit F in
/-- 32 samples of value 1000 in binary32: a cosine transform, 13 MFCCs of 20 filters at a rate that is not a number,
the cepstrum and the analytic signal are finite. -/
example (fused fma : Bool) :
    let _ := binFlt 24 24 (-149) (2 ^ 128 - 2 ^ 104) fused fma
    (∃ y, dct2 (List.replicate 32 (some (1000 : ℕ) : Option ℝ)) = .ok y ∧ y.length = 32 ∧ ∀ a ∈ y, (binDen (-149)).fin a) ∧
    (∃ y, mfcc (List.replicate 32 (some (1000 : ℕ) : Option ℝ)) none 20 13 = .ok (.ok y) ∧ y.length = 13 ∧
      ∀ a ∈ y, (binDen (-149)).fin a) ∧
    (∃ y, realCepstrum ⟨true, .f32, false, 4, false⟩ (List.replicate 32 (some (1000 : ℕ) : Option ℝ)) = .ok (.ok y) ∧
      y.length = 32 ∧ ∀ a ∈ y, (binDen (-149)).fin a) ∧
    (∃ y, hilbertAnalytic ⟨true, .f32, false, 4, false⟩ (List.replicate 32 (some (1000 : ℕ) : Option ℝ)) = .ok (.ok y) ∧
      y.length = 32 ∧ ∀ c ∈ y, (binDen (-149)).cfin c) := by
  let _ := binFlt 24 24 (-149) (2 ^ 128 - 2 ^ 104) fused fma
  obtain ⟨h1, h2⟩ := bin_replicate 32 1000
  have hl : (List.replicate 32 (some ((1000 : ℕ) : ℝ))).length = 32 := by simp
  have hF := binary32 fused fma
  have hE := binary32_elementary fused fma
  refine ⟨?_, ?_, ?_, ?_⟩
  · obtain ⟨y, e, r1, r2⟩ := trig_binary32 hF dct2 (by simp) _ (by rw [hl]; norm_num) (fun a ha => (h1 a ha).1)
      (by rw [h2]; norm_num)
    exact ⟨y, e, by rw [r1, hl], r2⟩
  · exact mfcc_binary32 hF hE _ h1 none 20 13 (by norm_num) (by norm_num) (by rw [hl]; norm_num) (by rw [h2]; norm_num)
  · obtain ⟨y, e, r1, r2⟩ := cepstrum_binary32 hF hE ⟨true, .f32, false, 4, false⟩ rfl 5 le_rfl (by norm_num) _
      (by rw [hl]; norm_num) (fun a ha => (h1 a ha).1) (by rw [h2]; norm_num)
    exact ⟨y, e, by rw [r1, hl], r2⟩
  · obtain ⟨y, e, r1, r2⟩ := hilbert_binary32 hF ⟨true, .f32, false, 4, false⟩ rfl 5 le_rfl (by norm_num) _
      (by rw [hl]; norm_num) (fun a ha => (h1 a ha).1) (by rw [h2]; norm_num)
    exact ⟨y, e, by rw [r1, hl], r2⟩

end Kofft.Props
