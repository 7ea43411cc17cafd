import Verif.Props.Stft
/-
Properties C34, C35: inverse short-time Fourier transform and reconstruction.
-/
namespace Kofft.Props
open Spec Finset

/-! ### Helpers -/

theorem foldl_if_sum (P : ℕ → Prop) [DecidablePred P] (g : ℕ → ℝ) (init : ℝ) (n : ℕ) :
    (List.range n).foldl (fun acc f => if P f then acc + g f else acc) init =
      init + ∑ f ∈ range n, if P f then g f else 0 := by
  induction n with
  | zero => simp
  | succ n ih =>
    rw [List.range_succ, List.foldl_append, ih, sum_range_succ]
    simp only [List.foldl_cons, List.foldl_nil]
    split <;> ring

/-- Overlap-add in exact arithmetic. -/
theorem olaAt_sum [F : Flt ℝ] (hF : Lawful F) (window : List ℝ) (hop : ℕ) (ys : List (List (Cx ℝ))) (init : ℝ)
    (p : ℕ) : olaAt window hop ys init p = init + ∑ f ∈ range ys.length,
      if f * hop ≤ p ∧ p < f * hop + window.length then
        (sig (ys.getD f []) (p - f * hop)).re * window.getD (p - f * hop) 0 else 0 := by
  rw [← foldl_if_sum (fun f => f * hop ≤ p ∧ p < f * hop + window.length)
    (fun f => (sig (ys.getD f []) (p - f * hop)).re * window.getD (p - f * hop) 0)]
  unfold olaAt
  congr 1
  funext acc f
  simp only [hF.add, hF.mul, sig_eq hF, toC, hF.zero]

theorem normAt_sum [F : Flt ℝ] (hF : Lawful F) (window : List ℝ) (hop c : ℕ) (p : ℕ) :
    normAt window hop c p = ∑ f ∈ range c,
      if f * hop ≤ p ∧ p < f * hop + window.length then window.getD (p - f * hop) 0 ^ 2 else 0 := by
  rw [← zero_add (∑ f ∈ range c, _), ← foldl_if_sum (fun f => f * hop ≤ p ∧ p < f * hop + window.length)
    (fun f => window.getD (p - f * hop) 0 ^ 2)]
  unfold normAt
  simp only [hF.add, hF.mul, hF.zero, pow_two]

open Classical in
theorem divNorm_real [F : Flt ℝ] (hF : Lawful F) (o n : ℝ) :
    divNorm o n = if 1 / 10 ^ 8 < n then o / n else o := by
  unfold divNorm
  by_cases h : (1 : ℝ) / 10 ^ 8 < n
  · rw [if_pos h, if_pos (by rw [hF.lt, hF.lit]; simpa using h), hF.div]
  · rw [if_neg h, if_neg (by rw [hF.lt, hF.lit]; simpa using h)]

/-! ### C34 -/

/-- C34a. For every transformer and arithmetic: if the transformer succeeds on all frames, `istft` adds to
every output sample, in frame order, the windowed real parts of the frames covering it, and divides by the
accumulated squared window (which it leaves in the scratch buffer) where that exceeds 1e-8. -/
theorem istft_bit_exact {T : Type} [Flt T] {S : Type} (iop : StOp S T) {P : S → Prop} (hP : Keeps iop P) (s s' : S)
    (hPs : P s) (frames ys : List (List (Cx T))) (window : List T) (hop : ℕ) (output scratch : List T)
    (hh : 0 < hop) (hs : scratch.length = output.length) (hf : ∀ fr ∈ frames, fr.length = window.length)
    (hr : runAll iop s frames = .ok (s', ys, .ok ())) :
    ∃ out sc, istft iop s frames window hop output scratch = .ok (s', ys, out, sc, .ok ()) ∧
      out.length = output.length ∧ sc.length = output.length ∧
      ∀ p, p < output.length →
        sc.getD p Flt.zero = normAt window hop frames.length p ∧
        out.getD p Flt.zero = divNorm (olaAt window hop ys (output.getD p Flt.zero) p)
          (normAt window hop frames.length p) := by
  have hl := (runAll_ok iop _ _ _ _ hr).1
  refine ⟨_, _, istft_eq iop hP s s' hPs frames ys window hop output scratch hh hs hf hr, by simp, by simp, ?_⟩
  intro p hp
  rw [tab_getD hp, tab_getD hp, hl]
  exact ⟨rfl, rfl⟩

open Classical in
/-- C34b. Exact arithmetic, scalar transformer: with `y_f` the inverse DFT of frame `f`, output `p` becomes
`(output[p] + Σ_f Re y_f[p-f·hop]·window[p-f·hop]) / Σ_f window[p-f·hop]²` where the denominator exceeds
1e-8, and just the numerator elsewhere (the sums run over the frames covering `p`). -/
theorem istft_is_overlap_add [F : Flt ℝ] (hF : Lawful F) (cfg : Cfg) (p : Planner ℝ)
    (frames : List (List (Cx ℝ))) (window : List ℝ) (hop : ℕ) (output scratch : List ℝ)
    (hh : 0 < hop) (hs : scratch.length = output.length) (hf : ∀ fr ∈ frames, fr.length = window.length)
    (hw : 0 < window.length) (hn : cfg.std = true ∨ ∃ k, window.length = 2 ^ k)
    (hp : ReachVia cfg (fun m => workSize m ≤ workSize window.length) p) :
    ∃ p' ys out sc, istft (ifft cfg) p frames window hop output scratch = .ok (p', ys, out, sc, .ok ()) ∧
      List.Forall₂ IsIdft frames ys ∧ out.length = output.length ∧
      ∀ i, i < output.length →
        let num := output.getD i 0 + ∑ f ∈ range frames.length,
          if f * hop ≤ i ∧ i < f * hop + window.length then
            (sig (ys.getD f []) (i - f * hop)).re * window.getD (i - f * hop) 0 else 0
        let den := ∑ f ∈ range frames.length,
          if f * hop ≤ i ∧ i < f * hop + window.length then window.getD (i - f * hop) 0 ^ 2 else 0
        out.getD i 0 = if 1 / 10 ^ 8 < den then num / den else num := by
  obtain ⟨p', ys, e, hp', hd⟩ := runAll_ifft hF cfg window.length (fftRes_ok hw hn) frames p hf hp
  obtain ⟨out, sc, e2, h1, -, h3⟩ := istft_bit_exact (ifft cfg) (keeps_ifft_reach cfg) p p'
    (Kofft.ReachVia.mono (fun _ _ => trivial) hp) frames ys window hop output scratch hh hs hf e
  refine ⟨p', ys, out, sc, e2, hd, h1, ?_⟩
  intro i hi
  have := (h3 i hi).2
  rw [hF.zero, divNorm_real hF, olaAt_sum hF, normAt_sum hF, ← hd.length_eq] at this
  exact this

/-- The result of the frame loop of `istft` with a scalar transformer. -/
def framesRes (cfg : Cfg) (win : ℕ) {α : Type} : List (List α) → Res
  | [] => .ok ()
  | x :: xs => if x.length ≠ win then .error .MismatchedLengths
    else match fftRes cfg win with
      | .ok _ => framesRes cfg win xs
      | .error e => .error e

theorem framesRes_ok (cfg : Cfg) (win : ℕ) {α : Type} : ∀ xs : List (List α), framesRes cfg win xs = .ok () ↔
    (∀ x ∈ xs, x.length = win) ∧ (xs = [] ∨ fftRes cfg win = .ok ()) := by
  intro xs
  induction xs with
  | nil => simp [framesRes]
  | cons x xs ih =>
    unfold framesRes
    by_cases hx : x.length = win
    · rw [if_neg (by simpa using hx)]
      rcases fftRes_cases cfg win with h | ⟨e, h⟩
      · rw [h]; simp only; rw [ih]; simp [hx, h]
      · rw [h]; simp
    · rw [if_pos hx]; simp [hx]

theorem istft_loop {T : Type} [Flt T] (cfg : Cfg) (window : List T) (hop N : ℕ) :
    ∀ (cnt k : ℕ) (st : OlaSt (Planner T) T), Reach cfg st.s → k + cnt = st.frames.length →
      st.output.length = N → st.scratch.length = N →
      ∃ st', loopRes cnt k st (istftStep (ifft cfg) window hop) = .ok (st', framesRes cfg window.length (st.frames.drop k)) ∧
        Reach cfg st'.s ∧ st'.frames.length = st.frames.length ∧ st'.output.length = N ∧ st'.scratch.length = N := by
  intro cnt
  induction cnt with
  | zero =>
    intro k st hs hk ho hn
    exact ⟨st, by rw [List.drop_eq_nil_of_le (by omega)]; rfl, hs, rfl, ho, hn⟩
  | succ cnt ih =>
    intro k st hs hk ho hn
    have hkl : k < st.frames.length := by omega
    rw [List.drop_eq_getElem_cons hkl, framesRes]
    by_cases hx : st.frames[k].length = window.length
    · rw [if_neg (by simpa using hx)]
      obtain ⟨q, e, -, hl, -⟩ := (ifft_opOk cfg).run st.s st.frames[k] (reach_inv hs)
      have hq : Reach cfg q := .ifft hs trivial e
      rw [hx] at e
      rcases fftRes_cases cfg window.length with h | ⟨er, h⟩
      · rw [h] at e ⊢
        have h1 : st.output = tab N (fun i => st.output.getD i Flt.zero) := by rw [← ho]; exact eq_tab_getD _ _
        have h2 : st.scratch = tab N (fun i => st.scratch.getD i Flt.zero) := by rw [← hn]; exact eq_tab_getD _ _
        have hstep : ∃ f g, istftStep (ifft cfg) window hop k st =
            .ok (⟨q, st.frames.set k (ifftBuf cfg st.s st.frames[k]), tab N f, tab N g⟩, .ok ()) := by
          have e3 := olaFrame_eq window (k * hop) (ifftBuf cfg st.s st.frames[k]) N
            (fun i => st.output.getD i Flt.zero) (fun i => st.scratch.getD i Flt.zero) (by omega)
          rw [← h1, ← h2] at e3
          unfold istftStep
          rw [rd_ok hkl, Outcome.bind_ok, if_neg (by simpa using hx), e]
          simp only [Outcome.bind_ok, wr_ok hkl, e3]
          exact ⟨_, _, rfl⟩
        obtain ⟨f, g, hstep⟩ := hstep
        obtain ⟨st', e', a1, a2, a3, a4⟩ := ih (k + 1) ⟨q, st.frames.set k (ifftBuf cfg st.s st.frames[k]), tab N f,
          tab N g⟩ hq (by simp; omega) (tab_length N _) (tab_length N _)
        refine ⟨st', ?_, a1, by simpa using a2, a3, a4⟩
        rw [loopRes_succ, hstep]
        simp only [Outcome.bind_ok]
        rw [e']
        simp only
        rw [drop_set_lt _ _ _ _ (by omega)]
      · rw [h] at e ⊢
        refine ⟨⟨q, st.frames.set k (ifftBuf cfg st.s st.frames[k]), st.output, st.scratch⟩, ?_, hq, by simp, ho, hn⟩
        rw [loopRes_succ]
        unfold istftStep
        rw [rd_ok hkl, Outcome.bind_ok, if_neg (by simpa using hx), e]
        simp only [Outcome.bind_ok, wr_ok hkl]
    · rw [if_pos (by simpa using hx)]
      refine ⟨st, ?_, hs, rfl, ho, hn⟩
      rw [loopRes_succ]
      unfold istftStep
      rw [rd_ok hkl, Outcome.bind_ok, if_pos (by simpa using hx)]
      rfl

/-- C34c. `istft` never panics, whatever the arguments; lengths are kept; the result is exactly the
documented one. -/
theorem istft_total {T : Type} [Flt T] (cfg : Cfg) (p : Planner T) (hp : Reach cfg p)
    (frames : List (List (Cx T))) (window : List T) (hop : ℕ) (output scratch : List T) :
    ∃ p' fs o sc r, istft (ifft cfg) p frames window hop output scratch = .ok (p', fs, o, sc, r) ∧
      Reach cfg p' ∧ fs.length = frames.length ∧ o.length = output.length ∧ sc.length = scratch.length ∧
      (r = .error .InvalidHopSize ↔ hop = 0) ∧
      (r = .ok () ↔ hop ≠ 0 ∧ scratch.length = output.length ∧ (∀ fr ∈ frames, fr.length = window.length) ∧
        (frames = [] ∨ (window ≠ [] ∧ (cfg.std = true ∨ ∃ k, window.length = 2 ^ k)))) ∧
      (r = .error .EmptyInput ↔ hop ≠ 0 ∧ scratch.length = output.length ∧ window = [] ∧
        ∃ rest, frames = [] :: rest) ∧
      (r = .error .NonPowerOfTwoNoStd ↔ hop ≠ 0 ∧ scratch.length = output.length ∧ window ≠ [] ∧
        cfg.std = false ∧ (¬ ∃ k, window.length = 2 ^ k) ∧
        ∃ fr rest, frames = fr :: rest ∧ fr.length = window.length) ∧
      (r = .ok () ∨ r = .error .InvalidHopSize ∨ r = .error .MismatchedLengths ∨ r = .error .EmptyInput ∨
        r = .error .NonPowerOfTwoNoStd) ∧
      (hop = 0 ∨ scratch.length ≠ output.length → p' = p ∧ fs = frames ∧ o = output ∧ sc = scratch) := by
  by_cases h0 : hop = 0
  · exact ⟨p, frames, output, scratch, .error .InvalidHopSize, by unfold istft; rw [if_pos h0], hp, rfl, rfl, rfl,
      by simp [h0], by simp [h0], by simp [h0], by simp [h0], by simp, fun _ => ⟨rfl, rfl, rfl, rfl⟩⟩
  by_cases h1 : scratch.length = output.length
  swap
  · exact ⟨p, frames, output, scratch, .error .MismatchedLengths, by
      unfold istft; rw [if_neg h0, if_pos h1], hp, rfl, rfl, rfl,
      by simp [h0], by simp [h1], by simp [h1], by simp [h1], by simp, fun _ => ⟨rfl, rfl, rfl, rfl⟩⟩
  obtain ⟨st', e, a1, a2, a3, a4⟩ := istft_loop cfg window hop output.length frames.length 0
    ⟨p, frames, output, scratch.map fun _ => (Flt.zero : T)⟩ hp (by simp) rfl (by simpa using h1)
  have hrun : ∃ p' fs o sc, istft (ifft cfg) p frames window hop output scratch =
      .ok (p', fs, o, sc, framesRes cfg window.length frames) ∧ Reach cfg p' ∧ fs.length = frames.length ∧
      o.length = output.length ∧ sc.length = scratch.length := by
    unfold istft
    rw [if_neg h0, if_neg (by simpa using h1)]
    simp only [e, Outcome.bind_ok, List.drop_zero]
    cases hr : framesRes cfg window.length frames with
    | error er => exact ⟨_, _, _, _, rfl, a1, a2, a3, by rw [a4, h1]⟩
    | ok u =>
      simp only
      have h1 : st'.output = tab output.length (fun i => st'.output.getD i Flt.zero) := by
        rw [← a3]; exact eq_tab_getD _ _
      have h2 : st'.scratch = tab output.length (fun i => st'.scratch.getD i Flt.zero) := by
        rw [← a4]; exact eq_tab_getD _ _
      rw [h1, h2, normalize_eq, Outcome.bind_ok]
      exact ⟨_, _, _, _, rfl, a1, a2, by simp, by simp; omega⟩
  obtain ⟨p', fs, o, sc, e', b1, b2, b3, b4⟩ := hrun
  refine ⟨p', fs, o, sc, _, e', b1, b2, b3, b4, ?_⟩
  rw [framesRes_ok]
  cases frames with
  | nil => simp [framesRes, h0, h1]
  | cons x xs =>
    -- all the other error codes are decided by the first frame
    have hne : ∀ er : FftError, er ≠ .MismatchedLengths →
        (framesRes cfg window.length (x :: xs) = .error er ↔
          x.length = window.length ∧ fftRes cfg window.length = .error er) := by
      intro er her
      rcases fftRes_cases cfg window.length with h | ⟨e1, h⟩
      · have : ∀ l : List (List (Cx T)), framesRes cfg window.length l ≠ .error er := by
          intro l
          induction l with
          | nil => simp [framesRes]
          | cons y ys ih =>
            unfold framesRes
            by_cases hy : y.length = window.length
            · rw [if_neg (by simpa using hy), h]; exact ih
            · rw [if_pos (by simpa using hy)]; simpa using Ne.symm her
        simp [this, h]
      · unfold framesRes
        by_cases hx : x.length = window.length
        · simp [hx, h]
        · simp [hx, Ne.symm her]
    have hany : ∀ l : List (List (Cx T)), framesRes cfg window.length l = .ok () ∨
        framesRes cfg window.length l = .error .MismatchedLengths ∨
        framesRes cfg window.length l = .error .EmptyInput ∨
        framesRes cfg window.length l = .error .NonPowerOfTwoNoStd := by
      intro l
      induction l with
      | nil => simp [framesRes]
      | cons y ys ih =>
        unfold framesRes
        by_cases hy : y.length = window.length
        · rw [if_neg (by simpa using hy)]
          by_cases hw : window.length = 0
          · rw [hw, fftRes_zero]; simp
          · rw [fftRes_pos (by omega)]
            split
            · exact ih
            · rename_i hh; split at hh
              · simp at hh
              · simp only [Except.error.injEq] at hh; subst hh; simp
        · rw [if_pos (by simpa using hy)]; simp
    rw [hne _ (by simp), hne _ (by simp), hne _ (by simp)]
    refine ⟨?_, ?_, ?_, ?_, ?_, ?_⟩
    · simp only [h0, iff_false, not_and]
      intro _
      by_cases hw : window.length = 0
      · rw [hw, fftRes_zero]; simp
      · rw [fftRes_pos (by omega)]; split <;> simp
    · simp only [ne_eq, h0, not_false_eq_true, h1, true_and, reduceCtorEq, false_or, ← isPow2_iff]
      by_cases hw : window = []
      · subst hw; simp [fftRes_zero]
      · have : window.length ≠ 0 := fun h => hw (List.length_eq_zero_iff.mp h)
        rw [fftRes_pos (by omega)]
        by_cases hst : cfg.std = true
        · simp [hst, hw]
        · by_cases hpw : isPow2 window.length = true
          · simp [hpw, hw]
          · simp [hst, hpw, hw]
    · simp only [ne_eq, h0, not_false_eq_true, h1, true_and, List.cons.injEq]
      by_cases hw : window = []
      · subst hw; simp [fftRes_zero]
      · have : window.length ≠ 0 := fun h => hw (List.length_eq_zero_iff.mp h)
        rw [fftRes_pos (by omega)]
        simp only [hw, false_and, iff_false, not_and]
        intro _; split <;> simp
    · simp only [ne_eq, h0, not_false_eq_true, h1, true_and, List.cons.injEq, ← isPow2_iff]
      by_cases hw : window = []
      · subst hw; simp [fftRes_zero]
      · have : window.length ≠ 0 := fun h => hw (List.length_eq_zero_iff.mp h)
        rw [fftRes_pos (by omega)]
        by_cases hst : cfg.std = true
        · simp [hst]
        · by_cases hpw : isPow2 window.length = true
          · simp [hpw]
          · simp [hst, hpw, hw]
    · rcases hany (x :: xs) with h | h | h | h
      · exact Or.inl ((framesRes_ok _ _ _).mp h)
      · exact Or.inr (Or.inr (Or.inl h))
      · exact Or.inr (Or.inr (Or.inr (Or.inl ((hne _ (by simp)).mp h))))
      · exact Or.inr (Or.inr (Or.inr (Or.inr ((hne _ (by simp)).mp h))))
    · intro h; rcases h with h | h
      · exact absurd h h0
      · exact absurd h1 h

/-! ### C35: reconstruction -/

/-- C35. `stft` followed by `istft` with the same window and hop, on any transformer that has only seen
transforms of at most this size, into a zeroed buffer of any length: at every position where the accumulated
squared window exceeds 1e-8 the original sample comes back (zero past the end of the signal). -/
theorem istft_stft_reconstructs [F : Flt ℝ] (hF : Lawful F) (cfg : Cfg) (p : Planner ℝ) (signal window : List ℝ)
    (hop : ℕ) (output : List (List (Cx ℝ))) (hh : 0 < hop) (ho : signal.length ≤ output.length * hop)
    (hw : 0 < window.length) (hn : cfg.std = true ∨ ∃ k, window.length = 2 ^ k)
    (hp : ReachVia cfg (fun m => workSize m ≤ workSize window.length) p)
    (N : ℕ) (scratch : List ℝ) (hs : scratch.length = N) :
    ∃ p1 frames p2 ys out sc,
      stft (fft cfg) p signal window hop output = .ok (p1, frames, .ok ()) ∧
      istft (ifft cfg) p1 frames window hop (List.replicate N 0) scratch = .ok (p2, ys, out, sc, .ok ()) ∧
      out.length = N ∧
      ∀ i, i < N →
        1 / 10 ^ 8 < (∑ f ∈ range output.length,
          if f * hop ≤ i ∧ i < f * hop + window.length then window.getD (i - f * hop) 0 ^ 2 else 0) →
        out.getD i 0 = signal.getD i 0 := by
  have hr := fftRes_ok hw hn
  obtain ⟨p1, e1, hp1⟩ := runAll_fft cfg window.length hr (segments signal window hop output.length) p
    (segments_mem _ _ _ _) hp
  have hst : stft (fft cfg) p signal window hop output =
      .ok (p1, (segments signal window hop output.length).map (freshOut cfg), .ok ()) := by
    rw [stft_transforms_segments _ _ _ _ _ _ hh ho, e1]
    simp [segments_length]
  have hlen : ∀ fr ∈ (segments signal window hop output.length).map (freshOut cfg), fr.length = window.length := by
    intro fr hfr
    obtain ⟨x, hx, rfl⟩ := List.mem_map.mp hfr
    rw [freshOut_length, segments_mem _ _ _ _ x hx]
  obtain ⟨p2, ys, out, sc, e2, hd, hol, h⟩ := istft_is_overlap_add hF cfg p1 _ window hop (List.replicate N 0)
    scratch hh (by simpa using hs) hlen hw hn hp1
  refine ⟨p1, _, p2, ys, out, sc, hst, e2, by simpa using hol, ?_⟩
  have hys : ys = segments signal window hop output.length := by
    have : List.Forall₂ IsIdft ((segments signal window hop output.length).map (freshOut cfg))
        (segments signal window hop output.length) := by
      rw [List.forall₂_map_left_iff, List.forall₂_same]
      intro x hx
      exact idft_of_dft (freshOut_isDft hF cfg x (by rw [segments_mem _ _ _ _ x hx]; exact hw))
    exact List.right_unique_forall₂' (R := IsIdft) (fun _ _ _ h1 h2 => isIdft_unique h1 h2) hd this
  intro i hi hden
  have := h i (by simpa using hi)
  simp only [List.length_map, segments_length] at this
  rw [this, if_pos hden, hys, List.getD_replicate _ hi, zero_add]
  rw [div_eq_iff (by have : (0:ℝ) < 1 / 10 ^ 8 := by positivity
                     linarith), Finset.mul_sum]
  apply Finset.sum_congr rfl
  intro f hf
  rw [Finset.mem_range] at hf
  by_cases hc : f * hop ≤ i ∧ i < f * hop + window.length
  · rw [if_pos hc, if_pos hc, segments_getD _ _ _ _ _ hf, sig_segment hF _ _ _ _ (by omega),
      show f * hop + (i - f * hop) = i by omega, Complex.ofReal_re]
    ring
  · rw [if_neg hc, if_neg hc, mul_zero]

/-- C35 is not vacuous: window `1,1`, hop 1, three samples; every position below 4 is covered. -/
example [F : Flt ℝ] (hF : Lawful F) (cfg : Cfg) : ∃ p1 frames p2 ys out sc,
    stft (fft cfg) Planner.new ([1, 2, 3] : List ℝ) [1, 1] 1 [[], [], []] = .ok (p1, frames, .ok ()) ∧
    istft (ifft cfg) p1 frames [1, 1] 1 (List.replicate 3 0) [0, 0, 0] = .ok (p2, ys, out, sc, .ok ()) ∧
    out.getD 1 0 = 2 := by
  obtain ⟨p1, frames, p2, ys, out, sc, e1, e2, -, h⟩ := istft_stft_reconstructs hF cfg Planner.new ([1, 2, 3] : List ℝ)
    [1, 1] 1 [[], [], []] (by norm_num) (by simp) (by simp) (Or.inr ⟨1, rfl⟩) .new 3 [0, 0, 0] rfl
  refine ⟨p1, frames, p2, ys, out, sc, e1, e2, ?_⟩
  rw [h 1 (by norm_num)]
  · simp
  · simp [Finset.sum_range_succ]; norm_num

end Kofft.Props
