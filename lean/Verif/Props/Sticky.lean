import Verif.Proof.Sticky
import Verif.Props.Rfft
import Verif.Props.Stft
import Verif.Props.Trig
import Verif.Lib.IeeeFlt
/-
Property C86: a number that is not finite in the input cannot be hidden by a transform; and it can spoil later transforms.
-/
namespace Kofft.Props
open Spec

variable {T : Type} [F : Flt T] {fin : T → Prop}

/-- C86a. If one sample is not finite, no output of `fft` is finite (in both parts): a NaN or an infinity in the input
shows in every bin. Any history of the transformer. -/
theorem fft_not_finite (hF : Sticky F fin) (cfg : Cfg) (p : Planner T) (hp : Reach cfg p) (x : List (Cx T))
    {p' : Planner T} {y : List (Cx T)} (e : fft cfg p x = .ok (p', y, .ok ())) (hbad : ∃ a ∈ x, ¬ CFin fin a) :
    ∀ c ∈ y, ¬ CFin fin c := by
  obtain ⟨q, e1, -⟩ := (fft_opOk cfg).run p x (reach_inv hp)
  rw [e] at e1
  have hy : y = fftBuf cfg p x := congrArg (fun v => v.2.1) (Outcome.ok.inj e1)
  have hr : fftRes cfg x.length = .ok () := (congrArg (fun v => v.2.2) (Outcome.ok.inj e1)).symm
  obtain ⟨a, ha, hna⟩ := hbad
  intro c hc H
  rw [hy] at hc
  exact hna (st_fftBuf hF cfg p (reach_inv hp) (List.length_pos_of_mem ha) hr c hc H a ha)

/-- C86b. The same for `ifft`. -/
theorem ifft_not_finite (hF : Sticky F fin) (cfg : Cfg) (p : Planner T) (hp : Reach cfg p) (x : List (Cx T))
    {p' : Planner T} {y : List (Cx T)} (e : ifft cfg p x = .ok (p', y, .ok ())) (hbad : ∃ a ∈ x, ¬ CFin fin a) :
    ∀ c ∈ y, ¬ CFin fin c := by
  obtain ⟨q, e1, -⟩ := (ifft_opOk cfg).run p x (reach_inv hp)
  rw [e] at e1
  have hy : y = ifftBuf cfg p x := congrArg (fun v => v.2.1) (Outcome.ok.inj e1)
  have hr : fftRes cfg x.length = .ok () := (congrArg (fun v => v.2.2) (Outcome.ok.inj e1)).symm
  obtain ⟨a, ha, hna⟩ := hbad
  intro c hc H
  rw [hy] at hc
  exact hna (st_ifftBuf hF cfg p (reach_inv hp) (List.length_pos_of_mem ha) hr c hc H a ha)

/-! ### Real transforms -/

theorem st_rBin (h : Sticky F fin) (simd : Bool) {w a c : Cx T} (H : CFin fin (rBinOf simd w a c)) :
    CFin fin a ∧ CFin fin c := by
  unfold rBinOf at H
  cases simd
  · simp only [Bool.false_eq_true, if_false] at H
    unfold rBin at H
    have h1 := st_scale h H
    have h2 := st_add h h1
    have h3 := st_add h h2.1
    exact ⟨h3.1, h3.2.1, h.neg _ h3.2.2⟩
  · simp only [if_true] at H
    unfold rBinSimd at H
    have h1 := (h.mul _ _ H.1).1
    have h2 := (h.mul _ _ H.2).1
    have h3 := (h.add _ _ h1).1
    have h4 := (h.sub _ _ h2).1
    have h5 := h.add _ _ h3
    have h6 := h.add _ _ h4
    exact ⟨⟨h5.1, h6.1⟩, h5.2, h.neg _ h6.2⟩

theorem st_irBin (h : Sticky F fin) (simd : Bool) {w a c : Cx T} (H : CFin fin (irBinOf simd w a c)) :
    CFin fin a ∧ CFin fin c := by
  unfold irBinOf at H
  cases simd
  · simp only [Bool.false_eq_true, if_false] at H
    unfold irBin at H
    have h1 := st_scale h H
    have h2 := st_sub h h1
    have h3 := st_add h h2.1
    exact ⟨h3.1, h3.2.1, h.neg _ h3.2.2⟩
  · simp only [if_true] at H
    unfold irBinSimd at H
    have h1 := (h.mul _ _ H.1).1
    have h2 := (h.mul _ _ H.2).1
    have h3 := (h.sub _ _ h1).1
    have h4 := (h.add _ _ h2).1
    have h5 := h.add _ _ h3
    have h6 := h.add _ _ h4
    exact ⟨⟨h5.1, h6.1⟩, h5.2, h.neg _ h6.2⟩

/-- C86c. One real sample that is not finite makes every bin of `rfft` not finite. -/
theorem rfft_not_finite (hF : Sticky F fin) (cfg : Cfg) (simd : Bool) (un : ℕ → Cx T) (p : Planner T)
    (hp : Reach cfg p) (x : List T) (out : List (Cx T)) {p' : Planner T} {y : List (Cx T)}
    (e : rfft simd (fft cfg) un p x out = .ok (p', y, .ok ())) (hbad : ∃ a ∈ x, ¬ fin a) :
    ∀ c ∈ y, ¬ CFin fin c := by
  rw [rfft_val simd _ un p (opLen_fft hp)] at e
  unfold rfftVal at e
  simp only at e
  obtain ⟨a, ha, hna⟩ := hbad
  have hx := List.length_pos_of_mem ha
  rw [if_neg (by omega)] at e
  by_cases h1 : x.length % 2 ≠ 0
  · rw [if_pos h1] at e; simp at e
  rw [if_neg h1] at e
  by_cases h2 : out.length ≠ x.length / 2 + 1
  · rw [if_pos h2] at e; simp at e
  rw [if_neg h2] at e
  obtain ⟨q, e1, -, hl, -⟩ := (fft_opOk cfg).run p (packed x) (reach_inv hp)
  rw [e1, Outcome.bind_ok] at e
  cases hr : fftRes cfg (packed x).length with
  | error er => rw [hr] at e; simp at e
  | ok u =>
    rw [hr] at e
    have hy : y = rfftPost (rBinOf simd) (fftBuf cfg p (packed x)) :=
      (congrArg (fun v => v.2.1) (Outcome.ok.inj e)).symm
    have hpl : (packed x).length = x.length / 2 := by simp [packed]
    have hall : ∀ c ∈ fftBuf cfg p (packed x), ¬ CFin fin c := by
      refine fft_not_finite hF cfg p hp (packed x) (p' := q) (by rw [e1, hr]) ?_
      obtain ⟨i, hi, rfl⟩ := List.mem_iff_getElem.mp ha
      refine ⟨⟨x.getD (2 * (i / 2)) Flt.zero, x.getD (2 * (i / 2) + 1) Flt.zero⟩, ?_, ?_⟩
      · unfold packed
        rw [List.mem_iff_getElem]
        exact ⟨i / 2, by simp; omega, by rw [tab_getElem]⟩
      · intro H
        apply hna
        rcases Nat.even_or_odd' i with ⟨c, hc | hc⟩
        · have : fin (x.getD (2 * (i / 2)) Flt.zero) := H.1
          rw [show 2 * (i / 2) = i by omega, List.getD_eq_getElem?_getD, List.getElem?_eq_getElem hi] at this
          exact this
        · have : fin (x.getD (2 * (i / 2) + 1) Flt.zero) := H.2
          rw [show 2 * (i / 2) + 1 = i by omega, List.getD_eq_getElem?_getD, List.getElem?_eq_getElem hi] at this
          exact this
    generalize fftBuf cfg p (packed x) = b at *
    have hb : ∀ i, i < b.length → ¬ CFin fin (b.getD i Cx.zero) := by
      intro i hi
      rw [List.getD_eq_getElem?_getD, List.getElem?_eq_getElem hi]
      exact hall _ (List.getElem_mem hi)
    have hb0 : 0 < b.length := by omega
    intro c hc H
    rw [hy] at hc
    unfold rfftPost at hc
    obtain ⟨k, hk, rfl⟩ := List.mem_iff_getElem.mp hc
    rw [tab_length] at hk
    rw [tab_getElem] at H
    split at H
    · exact hb 0 hb0 (hF.add _ _ H.1)
    · split at H
      · exact hb 0 hb0 (hF.sub _ _ H.1)
      · exact hb k (by omega) (st_rBin hF simd H).1

/-- C86d. If the real part of any bin, or the imaginary part of a bin other than the first and last (which `irfft`
ignores), is not finite, then of each pair of samples `2i`, `2i+1` returned by `irfft` one is not finite. -/
theorem irfft_not_finite (hF : Sticky F fin) (cfg : Cfg) (simd : Bool) (un : ℕ → Cx T) (p : Planner T)
    (hp : Reach cfg p) (X : List (Cx T)) (out : List T) {p' : Planner T} {y : List T}
    (e : irfft simd (ifft cfg) un p X out = .ok (p', y, .ok ()))
    (hbad : ∃ k, ∃ hk : k < X.length, ¬ fin X[k].re ∨ (k ≠ 0 ∧ k ≠ X.length - 1 ∧ ¬ fin X[k].im)) :
    y.length = out.length ∧
      ∀ i, ∀ h : 2 * i + 1 < y.length, ¬ (fin (y[2 * i]'(by omega)) ∧ fin y[2 * i + 1]) := by
  rw [irfft_val simd _ un p (opLen_ifft hp)] at e
  unfold irfftVal at e
  simp only at e
  by_cases h0 : out.length = 0
  · rw [if_pos h0] at e; simp at e
  rw [if_neg h0] at e
  by_cases h1 : out.length % 2 ≠ 0
  · rw [if_pos h1] at e; simp at e
  rw [if_neg h1] at e
  by_cases h2 : X.length ≠ out.length / 2 + 1
  · rw [if_pos h2] at e; simp at e
  rw [if_neg h2] at e
  generalize hm : out.length / 2 = m at *
  have hl0 := irfftPre_length (irBinOf simd) m X
  obtain ⟨q, e1, -, hl, -⟩ := (ifft_opOk cfg).run p (irfftPre (irBinOf simd) m X) (reach_inv hp)
  rw [e1, Outcome.bind_ok] at e
  cases hr : fftRes cfg (irfftPre (irBinOf simd) m X).length with
  | error er => rw [hr] at e; simp at e
  | ok u =>
    rw [hr] at e
    have hy : y = unpacked (ifftBuf cfg p (irfftPre (irBinOf simd) m X)) :=
      (congrArg (fun v => v.2.1) (Outcome.ok.inj e)).symm
    have hall : ∀ c ∈ ifftBuf cfg p (irfftPre (irBinOf simd) m X), ¬ CFin fin c := by
      refine ifft_not_finite hF cfg p hp _ (p' := q) (by rw [e1, hr]) ?_
      obtain ⟨k, hk, hk'⟩ := hbad
      have hg : X.getD k Cx.zero = X[k] := by rw [List.getD_eq_getElem?_getD, List.getElem?_eq_getElem hk]; rfl
      by_cases hk0 : k = 0 ∨ k = m
      · refine ⟨(irfftPre (irBinOf simd) m X)[0]'(by omega), List.getElem_mem _, ?_⟩
        unfold irfftPre
        rw [tab_getElem, if_pos rfl]
        intro H
        have := hF.add _ _ (hF.mul _ _ H.1).1
        have hre : ¬ fin X[k].re := by
          rcases hk' with h | ⟨h3, h4, -⟩
          · exact h
          · omega
        rw [← hg] at hre
        rcases hk0 with rfl | rfl
        · exact hre this.1
        · exact hre this.2
      · push Not at hk0
        refine ⟨(irfftPre (irBinOf simd) m X)[k]'(by omega), List.getElem_mem _, ?_⟩
        unfold irfftPre
        rw [tab_getElem, if_neg hk0.1]
        intro H
        have := (st_irBin hF simd H).1
        rw [hg] at this
        rcases hk' with h | ⟨-, -, h⟩
        · exact h this.1
        · exact h this.2
    generalize ifftBuf cfg p (irfftPre (irBinOf simd) m X) = b at *
    have hyl : y.length = 2 * b.length := by rw [hy]; simp [unpacked]
    refine ⟨by omega, ?_⟩
    intro i h3 H
    have hib : i < b.length := by omega
    apply hall b[i] (List.getElem_mem hib)
    obtain ⟨H1, H2⟩ := H
    have e1 : y[2 * i]'(by omega) = b[i].re := by
      have : y[2 * i]? = (unpacked b)[2 * i]? := by rw [hy]
      rw [List.getElem?_eq_getElem (by omega)] at this
      unfold unpacked at this
      rw [tab_getElem?, if_pos (by omega), if_pos (by omega), show 2 * i / 2 = i by omega,
        List.getD_eq_getElem?_getD, List.getElem?_eq_getElem hib] at this
      exact Option.some.inj this
    have e2 : y[2 * i + 1]'(by omega) = b[i].im := by
      have : y[2 * i + 1]? = (unpacked b)[2 * i + 1]? := by rw [hy]
      rw [List.getElem?_eq_getElem (by omega)] at this
      unfold unpacked at this
      rw [tab_getElem?, if_pos (by omega), if_neg (by omega), show (2 * i + 1) / 2 = i by omega,
        List.getD_eq_getElem?_getD, List.getElem?_eq_getElem hib] at this
      exact Option.some.inj this
    rw [e1] at H1
    rw [e2] at H2
    exact ⟨H1, H2⟩

/-! ### Short-time transforms -/

/-- C86e. A signal sample that is not finite makes every bin of every frame of `stft` that covers it not finite, even
where the window is zero. -/
theorem stft_not_finite (hF : Sticky F fin) (cfg : Cfg) (p : Planner T) (hp : Reach cfg p) (signal window : List T)
    (hop : ℕ) (output : List (List (Cx T))) {p' : Planner T} {y : List (List (Cx T))}
    (hh : 0 < hop) (ho : signal.length ≤ output.length * hop)
    (e : stft (fft cfg) p signal window hop output = .ok (p', y, .ok ()))
    (t : ℕ) (ht : t < signal.length) (hbad : ¬ fin signal[t]) (f : ℕ) (hf : f < output.length)
    (h1 : f * hop ≤ t) (h2 : t < f * hop + window.length) : ∀ c ∈ y.getD f [], ¬ CFin fin c := by
  rw [stft_transforms_segments _ _ _ _ _ _ hh ho] at e
  cases hv : runAll (fft cfg) p (segments signal window hop output.length) with
  | panic => rw [hv] at e; simp at e
  | hang => rw [hv] at e; simp at e
  | ok v =>
    rw [hv, Outcome.bind_ok] at e
    have hv3 : v.2.2 = .ok () := congrArg (fun v => v.2.2) (Outcome.ok.inj e)
    obtain ⟨v1, v2, v3⟩ := v
    simp only at hv3
    subst hv3
    obtain ⟨hl, st, hs0, -, hst⟩ := runAll_ok _ _ _ _ _ hv
    rw [segments_length] at hl hst
    have hy : y = v2 := by
      have : v2 ++ output.drop v2.length = y := congrArg (fun v => v.2.1) (Outcome.ok.inj e)
      rw [← this, hl, List.drop_length, List.append_nil]
    have hreach : ∀ k, k ≤ output.length → Reach cfg (st k) := by
      intro k
      induction k with
      | zero => intro _; rw [hs0]; exact hp
      | succ k ih => intro hk; exact .fft (ih (by omega)) trivial (hst k (by omega))
    rw [hy]
    refine fft_not_finite hF cfg _ (hreach f (by omega)) _ (hst f hf) ?_
    have hseg : (segments signal window hop output.length).getD f [] = Spec.segment signal window (f * hop) := by
      simp [segments, hf]
    rw [hseg]
    have hi : t - f * hop < (Spec.segment signal window (f * hop)).length := by rw [segment_length]; omega
    refine ⟨_, List.getElem_mem hi, ?_⟩
    intro H
    apply hbad
    have := H.1
    simp only [Spec.segment, List.getElem_map, List.getElem_range] at this
    rw [show f * hop + (t - f * hop) = t by omega, if_pos ht] at this
    have := (hF.mul _ _ this).1
    rw [List.getD_eq_getElem?_getD, List.getElem?_eq_getElem ht] at this
    exact this

/-! ### Later transforms -/

/-- the leftovers of a transformer: at least `n` numbers, none finite -/
def Spoilt (fin : T → Prop) (cfg : Cfg) (n : ℕ) (p : Planner T) : Prop :=
  Inv cfg p ∧ n ≤ p.splitRe.length ∧ ∀ c ∈ List.zipWith Cx.mk p.splitRe p.splitIm, ¬ CFin fin c

theorem spoilt_big (hF : Sticky F fin) (cfg : Cfg) (hk : cfg.kind = .f32 ∨ cfg.kind = .f64) {n : ℕ} {p p' : Planner T}
    (hI : Inv cfg p) {x y : List (Cx T)} (e : fft cfg p x = .ok (p', y, .ok ())) (hx : isPow2 x.length = true)
    (h16 : 16 < x.length) (hn : n ≤ max p.splitRe.length x.length)
    (hb : ∃ a ∈ x ++ stale p x.length, ¬ CFin fin a) : Spoilt fin cfg n p' ∧ ∀ c ∈ y, ¬ CFin fin c := by
  obtain ⟨p1, y1, e1, hI1, -, -, -, hy, ho, -⟩ := fft_run cfg p x hI
  rw [fftRes_pow2 cfg hx] at e1 ho
  rw [e1] at e
  have hv := Outcome.ok.inj e
  obtain rfl : p1 = p' := congrArg (fun v => v.1) hv
  obtain rfl : y1 = y := congrArg (fun v => v.2.1) hv
  have ho := ho rfl
  unfold fftOut at ho
  rw [if_pos hx] at ho
  have hs : SplitOk p := hI.split
  obtain ⟨n1, n2, n3⟩ := st_next hF cfg hk hs hx h16 hb
  have h1 : p1.splitRe = (powNext cfg p x).1 := congrArg (fun v => v.2.1.1) ho
  have h2 : p1.splitIm = (powNext cfg p x).2 := congrArg (fun v => v.2.1.2) ho
  refine ⟨⟨hI1, ?_, ?_⟩, ?_⟩
  · rw [h1, n1]; exact hn
  · rw [h1, h2]; exact n2
  · rw [hy hx]; exact n3

theorem spoilt_step (hF : Sticky F fin) (cfg : Cfg) (hk : cfg.kind = .f32 ∨ cfg.kind = .f64) {n : ℕ} {p : Planner T}
    (hp : Spoilt fin cfg n p) {z : List (Cx T)} (hz : isPow2 z.length = true) (hn : z.length < n) :
    ∃ p' y, fft cfg p z = .ok (p', y, .ok ()) ∧ Spoilt fin cfg n p' ∧
      (16 < z.length → ∀ c ∈ y, ¬ CFin fin c) := by
  obtain ⟨hI, hl, hs⟩ := hp
  obtain ⟨p1, y, e1, hI1, -, -, -, hy, ho, -⟩ := fft_run cfg p z hI
  rw [fftRes_pow2 cfg hz] at e1 ho
  refine ⟨p1, y, e1, ?_⟩
  by_cases h16 : 16 < z.length
  · have := spoilt_big hF cfg hk (n := n) hI e1 hz h16 (by omega) (by
      have hlen := hI.split.1
      have h0 : 0 < (stale p z.length).length := by simp [stale]; omega
      refine ⟨(stale p z.length)[0], List.mem_append_right _ (List.getElem_mem _), ?_⟩
      apply hs
      simp only [stale, List.getElem_zipWith, List.getElem_drop]
      rw [List.mem_iff_getElem]
      exact ⟨z.length, by simp; omega, by simp⟩)
    exact ⟨this.1, fun _ => this.2⟩
  · have ho := ho rfl
    unfold fftOut at ho
    rw [if_pos hz] at ho
    unfold powNext at ho
    rw [if_neg h16] at ho
    have h1 : p1.splitRe = p.splitRe := congrArg (fun v => v.2.1.1) ho
    have h2 : p1.splitIm = p.splitIm := congrArg (fun v => v.2.1.2) ho
    exact ⟨⟨hI1, by rw [h1]; exact hl, by rw [h1, h2]; exact hs⟩, fun h => absurd h h16⟩

/-- C86f. And it spoils what comes after: once an `f32` or `f64` transformer has run a power-of-two `fft` of more than 16
samples of which one was not finite, every later `fft` of a smaller power-of-two length above 16 on that transformer
returns no finite number at all, whatever its own input, as long as nothing of at least that size is run in between. -/
theorem fft_poison (hF : Sticky F fin) (cfg : Cfg) (hk : cfg.kind = .f32 ∨ cfg.kind = .f64) (p : Planner T)
    (hp : Reach cfg p) (x : List (Cx T)) (hx : isPow2 x.length = true) (h16 : 16 < x.length)
    (hbad : ∃ a ∈ x, ¬ CFin fin a) {p1 : Planner T} {y : List (Cx T)} (e : fft cfg p x = .ok (p1, y, .ok ()))
    (zs : List (List (Cx T))) (hzs : ∀ z ∈ zs, isPow2 z.length = true ∧ z.length < x.length) :
    ∃ p2 ys, runAll (fft cfg) p1 zs = .ok (p2, ys, .ok ()) ∧ ys.length = zs.length ∧
      ∀ i, 16 < (zs.getD i []).length → ∀ c ∈ ys.getD i [], ¬ CFin fin c := by
  obtain ⟨a, ha, hna⟩ := hbad
  have h0 := (spoilt_big hF cfg hk (n := x.length) (reach_inv hp) e hx h16 (le_max_right _ _)
    ⟨a, List.mem_append_left _ ha, hna⟩).1
  clear e hp y
  induction zs generalizing p1 with
  | nil => exact ⟨p1, [], rfl, rfl, by simp⟩
  | cons z zs ih =>
    obtain ⟨p2, y, e, hs, hy⟩ := spoilt_step hF cfg hk h0 (hzs z (by simp)).1 (hzs z (by simp)).2
    obtain ⟨p3, ys, e2, hl, hys⟩ := ih (p1 := p2) (fun z hz => hzs z (by simp [hz])) hs
    refine ⟨p3, y :: ys, ?_, by simp [hl], ?_⟩
    · simp only [runAll, e, Outcome.bind_ok, e2]
    · intro i hi
      cases i with
      | zero => simpa using hy (by simpa using hi)
      | succ i => simpa using hys i (by simpa using hi)

/-! ### Trigonometric transforms -/

theorem st_accV (hF : Sticky F fin) (input : List T) (lo : ℕ) (g : ℕ → T → T) (hg : ∀ i x, fin (g i x) → fin x)
    (init : T) (c : ℕ) (H : fin (accV input lo g init c)) :
    fin init ∧ ∀ i, lo ≤ i → i < lo + c → fin (input.getD i Flt.zero) := by
  induction c with
  | zero => exact ⟨H, fun i h1 h2 => by omega⟩
  | succ c ih =>
    obtain ⟨h1, h2⟩ := hF.add _ _ H
    obtain ⟨h3, h4⟩ := ih h1
    refine ⟨h3, fun i h5 h6 => ?_⟩
    by_cases hi : i = lo + c
    · rw [hi]; exact hg _ _ h2
    · exact h4 i h5 (by omega)

theorem st_fill {x : List T} {n : ℕ} {f : ℕ → Outcome T} {v : ℕ → T} (hv : ∀ k, f k = .ok (v k))
    (h : ∀ k, fin (v k) → ∀ i, i < x.length → fin (x.getD i Flt.zero)) {y : List T}
    (e : fillOut (List.replicate n Flt.zero) f = .ok y) (hbad : ∃ a ∈ x, ¬ fin a) : ∀ c ∈ y, ¬ fin c := by
  rw [fillOut_ok _ f v (fun k _ => hv k)] at e
  obtain rfl := Outcome.ok.inj e
  intro c hc H
  obtain ⟨k, hk, rfl⟩ := List.mem_iff_getElem.mp hc
  rw [tab_getElem] at H
  obtain ⟨a, ha, hna⟩ := hbad
  obtain ⟨i, hi, rfl⟩ := List.mem_iff_getElem.mp ha
  have := h k H i hi
  rw [List.getD_eq_getElem?_getD, List.getElem?_eq_getElem hi] at this
  exact hna this

/-- C86g. The same for the nine trigonometric transforms: one sample that is not finite leaves no finite output. -/
theorem trig_not_finite (hF : Sticky F fin) (f : List T → Outcome (List T))
    (hf : f ∈ [dct1, dct2, dct3, dct4, dst1, dst2, dst3, dst4, dht]) (x y : List T) (e : f x = .ok y)
    (hbad : ∃ a ∈ x, ¬ fin a) : ∀ c ∈ y, ¬ fin c := by
  have hx : 0 < x.length := by obtain ⟨a, ha, -⟩ := hbad; exact List.length_pos_of_mem ha
  simp only [List.mem_cons, List.not_mem_nil, or_false] at hf
  rcases hf with rfl | rfl | rfl | rfl | rfl | rfl | rfl | rfl | rfl
  · unfold dct1 at e
    simp only [] at e
    rw [if_neg (by omega)] at e
    by_cases h1 : x.length = 1
    · rw [if_pos h1, rd_getD Flt.zero (by omega), Outcome.bind_ok] at e
      obtain rfl := Outcome.ok.inj e
      obtain ⟨a, ha, hna⟩ := hbad
      match x, h1 with
      | [b], _ =>
        simp only [List.mem_singleton] at ha
        subst ha
        intro c hc H
        simp only [List.mem_singleton] at hc
        subst hc
        exact hna (hF.mul _ _ H).1
    · rw [if_neg h1] at e
      refine st_fill (v := fun k => accV x 1 (fun i a => (two *. a) *.
        Flt.cos ((Flt.pi /. ((Flt.ofNat x.length : T) -. Flt.one)) *. Flt.ofNat i *. Flt.ofNat k))
        (x.getD 0 Flt.zero +. (if k % 2 = 0 then x.getD (x.length - 1) Flt.zero else -. x.getD (x.length - 1) Flt.zero))
        (x.length - 1 - 1)) (fun k => ?_) ?_ e hbad
      · unfold dct1At
        simp only []
        rw [rd_getD Flt.zero (by omega), rd_getD Flt.zero (show x.length - 1 < x.length by omega)]
        simp only [Outcome.bind_ok]
        exact accum_ok _ _ _ _ _ (by omega)
      · intro k H i hi
        obtain ⟨h2, h3⟩ := st_accV hF _ _ _ (fun i x h => (hF.mul _ _ (hF.mul _ _ h).1).2) _ _ H
        obtain ⟨h4, h5⟩ := hF.add _ _ h2
        by_cases hi0 : i = 0
        · rw [hi0]; exact h4
        by_cases hi1 : i = x.length - 1
        · rw [hi1]
          split at h5
          · exact h5
          · exact hF.neg _ h5
        · exact h3 i (by omega) (by omega)
  · refine st_fill (fun k => accum_ok _ _ _ _ _ (by omega)) (fun k H i hi => ?_) e hbad
    exact (st_accV hF _ _ _ (fun i x h => (hF.mul _ _ h).1) _ _ H).2 i (by omega) (by omega)
  · refine st_fill (v := fun k => accV x 1 (fun i a => a *. Flt.cos (((Flt.pi : T) /. Flt.ofNat x.length) *. Flt.ofNat i *. (Flt.ofNat k +. half)))
      (x.getD 0 Flt.zero /. two) (x.length - 1)) (fun k => ?_) (fun k H i hi => ?_) e hbad
    · unfold dct3At
      rw [rd_getD Flt.zero (by omega)]
      simp only [Outcome.bind_ok]
      exact accum_ok _ _ _ _ _ (by omega)
    · obtain ⟨h2, h3⟩ := st_accV hF _ _ _ (fun i x h => (hF.mul _ _ h).1) _ _ H
      by_cases hi0 : i = 0
      · rw [hi0]; exact hF.div _ _ h2
      · exact h3 i (by omega) (by omega)
  · refine st_fill (fun k => accum_ok _ _ _ _ _ (by omega)) (fun k H i hi => ?_) e hbad
    exact (st_accV hF _ _ _ (fun i x h => (hF.mul _ _ h).1) _ _ H).2 i (by omega) (by omega)
  · refine st_fill (fun k => accum_ok _ _ _ _ _ (by omega)) (fun k H i hi => ?_) e hbad
    exact (st_accV hF _ _ _ (fun i x h => (hF.mul _ _ h).1) _ _ H).2 i (by omega) (by omega)
  · refine st_fill (fun k => accum_ok _ _ _ _ _ (by omega)) (fun k H i hi => ?_) e hbad
    exact (st_accV hF _ _ _ (fun i x h => (hF.mul _ _ h).1) _ _ H).2 i (by omega) (by omega)
  · refine st_fill (v := fun k => accV x 1 (fun i a => a *. Flt.sin (((Flt.pi : T) /. Flt.ofNat x.length) *. (Flt.ofNat k +. half) *. Flt.ofNat i))
      (x.getD 0 Flt.zero /. two) (x.length - 1)) (fun k => ?_) (fun k H i hi => ?_) e hbad
    · unfold dst3At
      rw [rd_getD Flt.zero (by omega)]
      simp only [Outcome.bind_ok]
      exact accum_ok _ _ _ _ _ (by omega)
    · obtain ⟨h2, h3⟩ := st_accV hF _ _ _ (fun i x h => (hF.mul _ _ h).1) _ _ H
      by_cases hi0 : i = 0
      · rw [hi0]; exact hF.div _ _ h2
      · exact h3 i (by omega) (by omega)
  · refine st_fill (fun k => accum_ok _ _ _ _ _ (by omega)) (fun k H i hi => ?_) e hbad
    exact (st_accV hF _ _ _ (fun i x h => (hF.mul _ _ h).1) _ _ H).2 i (by omega) (by omega)
  · refine st_fill (fun k => accum_ok _ _ _ _ _ (by omega)) (fun k H i hi => ?_) e hbad
    exact (st_accV hF _ _ _ (fun i x h => (hF.mul _ _ h).1) _ _ H).2 i (by omega) (by omega)

/-! ### Concrete cases -/

omit F in
/-- Arithmetics with lost results (`none`) never find them again: the hypothesis is met by binary32 and binary64. -/
theorem binFlt_sticky (p r : ℕ) (q : ℤ) (Ω : ℝ) (fused fma : Bool) :
    Sticky (binFlt p r q Ω fused fma) (fun a => a ≠ none) := by
  constructor
  · intro a b h; cases a <;> cases b <;> first | exact absurd rfl h | simp
  · intro a b h; cases a <;> cases b <;> first | exact absurd rfl h | simp
  · intro a b h; cases a <;> cases b <;> first | exact absurd rfl h | simp
  · intro a b h; cases a <;> cases b <;> first | exact absurd rfl h | simp
  · intro a h; cases a <;> first | exact absurd rfl h | simp
  · intro a b c h; cases a <;> cases b <;> cases c <;> first | exact absurd rfl h | simp

omit F in
/-- C86a, C86f: one lost sample among 64 in binary32 and every bin is lost; and the transform of 32 ones that follows on
the same transformer has no finite bin either. -/
example (fused fma : Bool) :
    let _ := binFlt 24 24 (-149) (2 ^ 128 - 2 ^ 104) fused fma
    ∃ p1 y p2 z, fft (T := Option ℝ) ⟨true, .f32, false, 4, false⟩ Planner.new
        (⟨none, some 0⟩ :: List.replicate 63 ⟨some 1, some 0⟩) = .ok (p1, y, .ok ()) ∧
      (∀ c ∈ y, ¬ CFin (fun a => a ≠ none) c) ∧
      fft ⟨true, .f32, false, 4, false⟩ p1 (List.replicate 32 ⟨some 1, some 0⟩) = .ok (p2, z, .ok ()) ∧
      z.length = 32 ∧ ∀ c ∈ z, ¬ CFin (fun a => a ≠ none) c := by
  let _ := binFlt 24 24 (-149) (2 ^ 128 - 2 ^ 104) fused fma
  have hF := binFlt_sticky 24 24 (-149) (2 ^ 128 - 2 ^ 104) fused fma
  have hbad : ∃ a ∈ (⟨none, some 0⟩ :: List.replicate 63 ⟨some 1, some 0⟩ : List (Cx (Option ℝ))),
      ¬ CFin (fun a => a ≠ none) a := ⟨⟨none, some 0⟩, by simp, fun h => h.1 rfl⟩
  have hl : (⟨none, some 0⟩ :: List.replicate 63 ⟨some 1, some 0⟩ : List (Cx (Option ℝ))).length = 64 := by simp
  generalize (⟨none, some 0⟩ :: List.replicate 63 ⟨some 1, some 0⟩ : List (Cx (Option ℝ))) = x at *
  have hl2 : (List.replicate 32 ⟨some 1, some 0⟩ : List (Cx (Option ℝ))).length = 32 := by simp
  generalize (List.replicate 32 ⟨some 1, some 0⟩ : List (Cx (Option ℝ))) = w at *
  have hpx : isPow2 x.length = true := by rw [hl]; decide
  obtain ⟨p1, y, e, -⟩ := fft_run (T := Option ℝ) ⟨true, .f32, false, 4, false⟩ Planner.new x (inv_new _)
  rw [fftRes_pow2 _ hpx] at e
  obtain ⟨p2, ys, e2, hys, h2⟩ := fft_poison hF ⟨true, .f32, false, 4, false⟩ (Or.inl rfl) Planner.new .new x hpx
    (by omega) hbad e [w] (by simp [hl, hl2]; decide)
  obtain ⟨p3, z, e3, -, hzl, -⟩ := fft_run (T := Option ℝ) ⟨true, .f32, false, 4, false⟩ p1 w
    (reach_inv (.fft .new trivial e))
  rw [fftRes_pow2 _ (by rw [hl2]; decide)] at e3
  refine ⟨p1, y, p3, z, e, fft_not_finite hF _ _ .new x e hbad, e3, by omega, ?_⟩
  have := h2 0 (by simp [hl2])
  simp only [runAll, e3, Outcome.bind_ok] at e2
  have hv : [z] = ys := congrArg (fun v => v.2.1) (Outcome.ok.inj e2)
  rw [← hv] at this
  simpa using this

end Kofft.Props
