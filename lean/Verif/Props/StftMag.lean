import Verif.Props.Visual
/-
C58: `stft_magnitudes`.
-/
namespace Kofft.Props
open Finset Spec

section generic
variable {T : Type} [Flt T]

/-- The magnitude `sqrt(re² + im²)`. -/
def _root_.Kofft.Spec.mag (c : Cx T) : T := Flt.sqrt ((c.re *. c.re) +. (c.im *. c.im))

/-- The running maximum of values, starting from 0 and replaced by strictly larger values only. -/
def _root_.Kofft.Spec.runMax (m : T) (l : List T) : T := l.foldl (fun m v => if Flt.lt m v then v else m) m

theorem magRow_ok (frame : List (Cx T)) (W H x : ℕ) (hx : x < W) (hH : H ≤ frame.length) (f : ℕ → List T) (m : T)
    (hf : f x = List.replicate H Flt.zero) :
    forRange 0 H (tab W f, m) (magStep frame x) = .ok
      (tab W (fun k => if k = x then tab H (fun y => Spec.mag (frame.getD y ⟨Flt.zero, Flt.zero⟩)) else f k),
       Spec.runMax m (tab H (fun y => Spec.mag (frame.getD y ⟨Flt.zero, Flt.zero⟩)))) := by
  have key := forRange_eq (f := magStep frame x) (s := (tab W f, m)) (lo := 0) (hi := H)
    (fun i => (tab W (fun k => if k = x then tab H (fun y => if y < i then
        Spec.mag (frame.getD y ⟨Flt.zero, Flt.zero⟩) else Flt.zero) else f k),
      Spec.runMax m (tab i (fun y => Spec.mag (frame.getD y ⟨Flt.zero, Flt.zero⟩))))) (Nat.zero_le _)
    (by
      simp only [Nat.not_lt_zero, if_false]
      congr 1
      apply tab_congr
      intro k _
      by_cases h : k = x
      · subst h; rw [if_pos rfl, hf, replicate_eq_tab]
      · rw [if_neg h])
    (by
      intro i _ hi
      unfold magStep
      rw [rd_getD ⟨Flt.zero, Flt.zero⟩ (by omega), Outcome.bind_ok]
      simp only []
      rw [rd_tab hx, Outcome.bind_ok, if_pos rfl, wr_tab hi, Outcome.bind_ok, wr_tab hx, Outcome.bind_ok]
      simp only [Outcome.pure_eq]
      congr 2
      · apply tab_congr
        intro k _
        by_cases h : k = x
        · simp only [h, if_true]
          apply tab_congr
          intro y _
          by_cases hy : y = i
          · subst hy; simp [Spec.mag]
          · by_cases hy2 : y < i
            · rw [if_neg hy, if_pos hy2, if_pos (by omega)]
            · rw [if_neg hy, if_neg hy2, if_neg (by omega)]
        · simp only [h, if_false]
      · rw [tab_succ, Spec.runMax, Spec.runMax, List.foldl_append]; rfl)
  rw [key]
  congr 2
  apply tab_congr
  intro k _
  by_cases h : k = x
  · simp only [h, if_true]
    apply tab_congr
    intro y hy
    rw [if_pos hy]
  · simp only [h, if_false]

theorem magLoop_ok (frames : List (List (Cx T))) (H : ℕ) (hH : ∀ x, x < frames.length → H ≤ (frames.getD x []).length) :
    magLoop frames H (List.replicate frames.length (List.replicate H Flt.zero), Flt.zero) = .ok
      (tab frames.length (fun x => tab H (fun y => Spec.mag ((frames.getD x []).getD y ⟨Flt.zero, Flt.zero⟩))),
       Spec.runMax Flt.zero (tab frames.length (fun x => tab H (fun y =>
        Spec.mag ((frames.getD x []).getD y ⟨Flt.zero, Flt.zero⟩)))).flatten) := by
  unfold magLoop
  rw [replicate_eq_tab]
  rw [forRange_eq (fun i => (tab frames.length (fun x => if x < i then
      tab H (fun y => Spec.mag ((frames.getD x []).getD y ⟨Flt.zero, Flt.zero⟩)) else List.replicate H Flt.zero),
    Spec.runMax Flt.zero (tab i (fun x => tab H (fun y =>
        Spec.mag ((frames.getD x []).getD y ⟨Flt.zero, Flt.zero⟩)))).flatten)) (Nat.zero_le _) (by simp [Spec.runMax, tab])]
  · congr 2
    apply tab_congr
    intro x hx
    rw [if_pos hx]
  · intro i _ hi
    rw [rd_getD [] hi, Outcome.bind_ok, Nat.min_eq_left (hH i hi),
      magRow_ok _ _ _ _ hi (hH i hi) _ _ (by rw [if_neg (by omega)])]
    congr 2
    · apply tab_congr
      intro x _
      by_cases h : x = i
      · subst h; simp
      · by_cases h2 : x < i
        · rw [if_neg h, if_pos h2, if_pos (by omega)]
        · rw [if_neg h, if_neg h2, if_neg (by omega)]
    · rw [tab_succ, List.flatten_append, Spec.runMax, Spec.runMax, Spec.runMax, List.foldl_append]
      simp

/-- `hann` as the list used for the segments. -/
theorem hann_length (n : ℕ) : (hann (T := T) n).length = n := by simp [hann]

/-- A valid schedule: `none` for the sequential build, otherwise the frames in any order. -/
def _root_.Kofft.Spec.validOrder (par : Option (List ℕ)) (c : ℕ) : Prop := ∀ o, par = some o → o.Perm (List.range c)

/-- C58: for every hop `≥ 1` and supported window length, in any arithmetic, with or without the feature `parallel` and
whatever the schedule: `stft_magnitudes` returns `⌈len/hop⌉` rows of `win_len / 2` values, value `(x, y)` being
`sqrt(re² + im²)` of bin `y` of the Hann-windowed segment at `x · hop` transformed by a fresh transformer, and their running
maximum. -/
theorem stft_magnitudes_spec (cfg : Cfg) (par : Option (List ℕ)) (samples : List T) (winLen hop : ℕ) (hh : 0 < hop)
    (hw : 0 < winLen) (hn : cfg.std = true ∨ ∃ k, winLen = 2 ^ k)
    (hpar : Spec.validOrder par (divCeil samples.length hop)) :
    ∃ mags mx, stftMagnitudes cfg par samples winLen hop = .ok (.ok (mags, mx)) ∧
      mags.length = divCeil samples.length hop ∧
      (∀ x, x < mags.length → (mags.getD x []).length = winLen / 2 ∧
        ∃ q frame, fft cfg Planner.new (Spec.segment samples (hann winLen) (x * hop)) = .ok (q, frame, .ok ()) ∧
          frame.length = winLen ∧
          ∀ y, y < winLen / 2 → (mags.getD x []).getD y Flt.zero = Spec.mag (frame.getD y ⟨Flt.zero, Flt.zero⟩)) ∧
      mx = Spec.runMax Flt.zero mags.flatten := by
  have hl := hann_length (T := T) winLen
  have hlen : samples.length ≤ (List.replicate (divCeil samples.length hop) ([] : List (Cx T))).length * hop := by
    rw [List.length_replicate]; exact (divCeil_spec hh).1
  obtain ⟨p', o, e, ho, -, hfr⟩ := stft_frames_fresh cfg Planner.new samples (hann (T := T) winLen) hop
    (List.replicate (divCeil samples.length hop) []) hh hlen (by omega) (by rw [hl]; exact hn) .new
  have hcomp : computeStft cfg par samples (hann winLen) hop (List.replicate (divCeil samples.length hop) []) =
      .ok (o, .ok ()) := by
    cases par with
    | none => simp only [computeStft, e, Outcome.bind_ok]; rfl
    | some order =>
      obtain ⟨p2, o2, e2, e3⟩ := parallel_eq_batch cfg order samples (hann (T := T) winLen) hop
        (List.replicate (divCeil samples.length hop) []) (by rw [List.length_replicate]; exact hpar _ rfl) hh hlen
        (by omega) (by rw [hl]; exact hn)
      rw [e] at e2
      simp only [Outcome.ok.injEq, Prod.mk.injEq] at e2
      rw [e2.2.1]
      exact e3
  rw [List.length_replicate] at ho hfr
  have hfl : ∀ x, x < o.length → (o.getD x []).length = winLen := by
    intro x hx
    obtain ⟨q, eq⟩ := hfr x (by omega)
    have := opLen_fft (.new) _ _ _ _ eq
    rw [this, segment_length, hl]
  unfold stftMagnitudes
  rw [if_neg (by omega), hcomp, Outcome.bind_ok]
  simp only []
  rw [magLoop_ok o (winLen / 2) (fun x hx => by rw [hfl x hx]; omega), Outcome.bind_ok]
  refine ⟨_, _, rfl, by simpa using ho, ?_, rfl⟩
  intro x hx
  rw [tab_length] at hx
  rw [tab_getD hx]
  obtain ⟨q, eq⟩ := hfr x (by omega)
  refine ⟨by simp, q, _, eq, hfl x hx, ?_⟩
  intro y hy
  rw [tab_getD hy]

/-- C58: the errors: only for a non-empty signal, and then exactly for an empty window or, without `std`, a window length
that is not a power of two. -/
theorem stft_magnitudes_errors (cfg : Cfg) (par : Option (List ℕ)) (samples : List T) (winLen hop : ℕ) (hh : 0 < hop)
    (hpar : Spec.validOrder par (divCeil samples.length hop)) :
    (samples = [] → stftMagnitudes cfg par samples winLen hop = .ok (.ok ([], Flt.zero))) ∧
    (samples ≠ [] → winLen = 0 → stftMagnitudes cfg par samples winLen hop = .ok (.error .EmptyInput)) ∧
    (samples ≠ [] → 0 < winLen → cfg.std = false → (¬ ∃ k, winLen = 2 ^ k) →
      stftMagnitudes cfg par samples winLen hop = .ok (.error .NonPowerOfTwoNoStd)) := by
  have hl := hann_length (T := T) winLen
  have hlen : samples.length ≤ (List.replicate (divCeil samples.length hop) ([] : List (Cx T))).length * hop := by
    rw [List.length_replicate]; exact (divCeil_spec hh).1
  have hne : samples ≠ [] → divCeil samples.length hop ≠ 0 := by
    intro h h0
    have := (divCeil_spec (n := samples.length) hh).1
    rw [h0] at this
    have : samples.length = 0 := by omega
    exact h (List.length_eq_zero_iff.1 this)
  have hcomp : ∀ er, samples ≠ [] → (er = FftError.EmptyInput ∧ winLen = 0 ∨
      er = FftError.NonPowerOfTwoNoStd ∧ 0 < winLen ∧ cfg.std = false ∧ ¬ ∃ k, winLen = 2 ^ k) →
      stftMagnitudes cfg par samples winLen hop = .ok (.error er) := by
    intro er hs her
    have hex : ∃ o, computeStft cfg par samples (hann winLen) hop (List.replicate (divCeil samples.length hop) []) =
        .ok (o, .error er) := by
      have hwe : winLen = 0 → hann (T := T) winLen = [] := fun h => List.length_eq_zero_iff.1 (by rw [hl, h])
      have hwn : 0 < winLen → hann (T := T) winLen ≠ [] := fun h h' => by rw [h'] at hl; simp at hl; omega
      cases par with
      | none =>
        obtain ⟨p', o, r, e, -, -, -, -, h4, h5, -⟩ := stft_total cfg Planner.new .new samples (hann (T := T) winLen) hop
          (List.replicate (divCeil samples.length hop) [])
        have hr : r = .error er := by
          rcases her with ⟨rfl, h⟩ | ⟨rfl, h, h', h''⟩
          · exact h4.2 ⟨by omega, hlen, by simpa using hne hs, hwe h⟩
          · exact h5.2 ⟨by omega, hlen, by simpa using hne hs, hwn h, h', by rw [hl]; exact h''⟩
        subst hr
        exact ⟨o, by simp only [computeStft, e, Outcome.bind_ok]; rfl⟩
      | some order =>
        have hperm := hpar _ rfl
        obtain ⟨o, r, e, -, -, h⟩ := parallel_total cfg order samples (hann (T := T) winLen) hop
          (List.replicate (divCeil samples.length hop) [])
          (fun i hi => by rw [List.length_replicate]; exact List.mem_range.1 (hperm.mem_iff.1 hi))
        have hone : order ≠ [] := by
          intro h0
          have := hperm.length_eq
          rw [h0] at this; simp at this; exact hne hs this.symm
        obtain ⟨h4, h5, -⟩ := (h (by omega)).2.1 hone
        have hr : r = .error er := by
          rcases her with ⟨rfl, h⟩ | ⟨rfl, h, h', h''⟩
          · exact h4.2 (hwe h)
          · exact h5.2 ⟨hwn h, h', by rw [hl]; exact h''⟩
        subst hr
        exact ⟨o, e⟩
    obtain ⟨o, e⟩ := hex
    unfold stftMagnitudes
    rw [if_neg (by omega), e, Outcome.bind_ok]
    rfl
  refine ⟨?_, fun hs h => hcomp _ hs (Or.inl ⟨rfl, h⟩), fun hs h h' h'' => hcomp _ hs (Or.inr ⟨rfl, h, h', h''⟩)⟩
  rintro rfl
  have hd : divCeil ([] : List T).length hop = 0 := by
    unfold divCeil; simp; omega
  have hc : computeStft cfg par [] (hann (T := T) winLen) hop [] = .ok ([], .ok ()) := by
    cases par with
    | none =>
      simp only [computeStft]
      rw [stft_transforms_segments _ _ _ _ _ _ hh (by simp)]
      rfl
    | some order =>
      have := (hpar _ rfl)
      rw [hd] at this
      have : order = [] := List.Perm.eq_nil (by simpa using this)
      subst this
      simp only [computeStft, stftParallel, if_neg (show ¬ hop = 0 by omega)]
      rfl
  unfold stftMagnitudes
  rw [if_neg (by omega), hd]
  simp only [List.replicate_zero]
  rw [hc, Outcome.bind_ok]
  rfl

/-- C58 (finding): a hop of 0 panics instead of being reported as `InvalidHopSize`. -/
theorem stft_magnitudes_hop_zero_panics (cfg : Cfg) (par : Option (List ℕ)) (samples : List T) (winLen : ℕ) :
    stftMagnitudes cfg par samples winLen 0 = .panic := by
  unfold stftMagnitudes; rw [if_pos rfl]

end generic

section exact
variable [F : Flt ℝ]

theorem runMax_real (hF : Lawful F) (l : List ℝ) (m : ℝ) : m ≤ Spec.runMax m l ∧ (∀ v ∈ l, v ≤ Spec.runMax m l) ∧
    (Spec.runMax m l = m ∨ Spec.runMax m l ∈ l) := by
  induction l generalizing m with
  | nil => simp [Spec.runMax]
  | cons v l ih =>
    have e : Spec.runMax m (v :: l) = Spec.runMax (if Flt.lt m v then v else m) l := rfl
    rw [e]
    obtain ⟨h1, h2, h3⟩ := ih (if Flt.lt m v then v else m)
    by_cases h : m < v
    · rw [if_pos ((hF.lt _ _).2 h)] at h1 h2 h3 ⊢
      refine ⟨h.le.trans h1, ?_, ?_⟩
      · intro u hu
        rcases List.mem_cons.1 hu with rfl | hu
        · exact h1
        · exact h2 u hu
      · rcases h3 with h3 | h3
        · rw [h3]; right; simp
        · right; simp [h3]
    · rw [if_neg (fun h' => h ((hF.lt _ _).1 h'))] at h1 h2 h3 ⊢
      push Not at h
      refine ⟨h1, ?_, ?_⟩
      · intro u hu
        rcases List.mem_cons.1 hu with rfl | hu
        · exact h.trans h1
        · exact h2 u hu
      · rcases h3 with h3 | h3
        · left; exact h3
        · right; simp [h3]

/-- C58, exact arithmetic: value `(x, y)` is the absolute value of bin `y` of the Hann-windowed DFT of the segment at
`x · hop`, all are non-negative, and the second result is their maximum (0 if there is none). Partial: `hop = 0` is not an
error but a panic, see `stft_magnitudes_hop_zero_panics`. -/
theorem stft_magnitudes_exact_partial (hF : Lawful F) (cfg : Cfg) (par : Option (List ℕ)) (samples : List ℝ) (winLen hop : ℕ)
    (hh : 0 < hop) (hw : 0 < winLen) (hn : cfg.std = true ∨ ∃ k, winLen = 2 ^ k)
    (hpar : Spec.validOrder par (divCeil samples.length hop)) :
    ∃ mags mx, stftMagnitudes cfg par samples winLen hop = .ok (.ok (mags, mx)) ∧
      mags.length = divCeil samples.length hop ∧
      (∀ x, x < mags.length → (mags.getD x []).length = winLen / 2 ∧ ∀ y, y < winLen / 2 →
        (mags.getD x []).getD y 0 = ‖∑ t ∈ range winLen, ((samples.getD (x * hop + t) 0 *
          (1 / 2 - 1 / 2 * Real.cos (2 * Real.pi * t / winLen)) : ℝ) : ℂ) * W winLen (y * t)‖ ∧
        0 ≤ (mags.getD x []).getD y 0 ∧ (mags.getD x []).getD y 0 ≤ mx) ∧
      0 ≤ mx ∧ (mx = 0 ∨ ∃ x y, x < mags.length ∧ y < winLen / 2 ∧ (mags.getD x []).getD y 0 = mx) := by
  have hl := hann_length (T := ℝ) winLen
  obtain ⟨mags, mx, e, h1, h2, h3⟩ := stft_magnitudes_spec cfg par samples winLen hop hh hw hn hpar
  obtain ⟨m1, m2, m3⟩ := runMax_real hF mags.flatten Flt.zero
  rw [← h3, hF.zero] at m1 m3
  rw [← h3] at m2
  refine ⟨mags, mx, e, h1, ?_, m1, ?_⟩
  · intro x hx
    obtain ⟨hrow, q, frame, ef, hfl, hv⟩ := h2 x hx
    refine ⟨hrow, ?_⟩
    intro y hy
    have hval : (mags.getD x []).getD y 0 = ‖∑ t ∈ range winLen, ((samples.getD (x * hop + t) 0 *
          (1 / 2 - 1 / 2 * Real.cos (2 * Real.pi * t / winLen)) : ℝ) : ℂ) * W winLen (y * t)‖ := by
      have hsl := segment_length samples (hann (T := ℝ) winLen) (x * hop)
      obtain ⟨q', z, e3, hd⟩ := fft_is_dft_used hF cfg (Spec.segment samples (hann winLen) (x * hop)) (by omega)
        (by rw [hsl, hl]; exact hn) Planner.new .new
      rw [ef] at e3
      simp only [Outcome.ok.injEq, Prod.mk.injEq] at e3
      obtain ⟨-, rfl, -⟩ := e3
      have hb : sig frame y = ∑ t ∈ range winLen, ((samples.getD (x * hop + t) 0 *
          (1 / 2 - 1 / 2 * Real.cos (2 * Real.pi * t / winLen)) : ℝ) : ℂ) * W winLen (y * t) := by
        rw [hd.2 y (by omega), hsl, hl, dft]
        apply Finset.sum_congr rfl
        intro t ht
        have ht' : t < winLen := by simpa using ht
        rw [sig_segment hF _ _ _ _ (by omega)]
        congr 3
        rw [hann, getD_range_map ht', hannAt_real hF]
      rw [← hb, ← hF.zero, hv y hy, sig_eq hF, Spec.mag, hF.sqrt, hF.add, hF.mul, hF.mul, Complex.norm_def,
        show (Cx.zero : Cx ℝ) = ⟨Flt.zero, Flt.zero⟩ from rfl]
      rfl
    refine ⟨hval, by rw [hval]; exact norm_nonneg _, ?_⟩
    apply m2
    rw [List.mem_flatten]
    refine ⟨mags.getD x [], ?_, ?_⟩
    · rw [List.getD_eq_getElem _ _ hx]; exact List.getElem_mem _
    · rw [List.getD_eq_getElem (mags.getD x []) _ (by rw [hrow]; exact hy)]; exact List.getElem_mem _
  · rcases m3 with m3 | m3
    · left; exact m3
    · right
      rw [List.mem_flatten] at m3
      obtain ⟨row, hr, hm⟩ := m3
      obtain ⟨x, hx, rfl⟩ := List.getElem_of_mem hr
      obtain ⟨y, hy, hm⟩ := List.getElem_of_mem hm
      have hxr := (h2 x hx).1
      rw [List.getD_eq_getElem _ _ hx] at hxr
      refine ⟨x, y, hx, by omega, ?_⟩
      rw [List.getD_eq_getElem _ _ hx, List.getD_eq_getElem _ _ hy, hm]

end exact

/-- C58 is not vacuous: 5 samples, window 4, hop 2, in parallel with the frames finishing in the order 2, 0, 1. -/
example [F : Flt ℝ] (hF : Lawful F) (cfg : Cfg) : ∃ mags mx,
    stftMagnitudes cfg (some [2, 0, 1]) ([1, 2, 3, 4, 5] : List ℝ) 4 2 = .ok (.ok (mags, mx)) ∧ mags.length = 3 := by
  obtain ⟨mags, mx, e, h, -⟩ := stft_magnitudes_spec cfg (some [2, 0, 1]) ([1, 2, 3, 4, 5] : List ℝ) 4 2 (by norm_num)
    (by norm_num) (Or.inr ⟨2, rfl⟩) (by intro o ho; injection ho with ho; subst ho; show List.Perm _ (List.range 3); decide)
  exact ⟨mags, mx, e, h⟩

end Kofft.Props
