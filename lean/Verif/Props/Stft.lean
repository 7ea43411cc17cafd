import Verif.Proof.Stft
import Verif.Props.NdFft
import Verif.Props.Rfft
/-
Properties C32, C33: short-time Fourier transform, batch, streaming and parallel.
-/
namespace Kofft.Props
open Spec Finset

/-! ### Helpers -/

theorem keeps_fft {T : Type} [Flt T] (cfg : Cfg) (L : ℕ → Prop) (n : ℕ) (hn : L n) :
    ∀ (p : Planner T) x p' y r, ReachVia cfg L p → x.length = n →
      fft cfg p x = .ok (p', y, r) → ReachVia cfg L p' :=
  fun _ _ _ _ _ hp hx e => .fft hp (hx ▸ hn) e

/-- Every reachable scalar transformer keeps buffer lengths and stays reachable. -/
theorem keeps_fft_reach {T : Type} [Flt T] (cfg : Cfg) : Keeps (T := T) (fft cfg) (Reach cfg) :=
  fun _ x _ y r hp e => ⟨opLen_fft hp x _ y r e, .fft hp trivial e⟩

theorem keeps_ifft_reach {T : Type} [Flt T] (cfg : Cfg) : Keeps (T := T) (ifft cfg) (Reach cfg) :=
  fun _ x _ y r hp e => ⟨opLen_ifft hp x _ y r e, .ifft hp trivial e⟩

/-- Buffers of one length through a scalar transformer, bit for bit as on fresh transformers. -/
theorem runAll_fft {T : Type} [Flt T] (cfg : Cfg) (n : ℕ) (hr : fftRes cfg n = .ok ()) :
    ∀ (xs : List (List (Cx T))) (p : Planner T), (∀ x ∈ xs, x.length = n) →
      ReachVia cfg (fun m => workSize m ≤ workSize n) p →
      ∃ p', runAll (fft cfg) p xs = .ok (p', xs.map (freshOut cfg), .ok ()) ∧
        ReachVia cfg (fun m => workSize m ≤ workSize n) p' := by
  intro xs
  induction xs with
  | nil => intro p _ hp; exact ⟨p, rfl, hp⟩
  | cons x xs ih =>
    intro p hx hp
    have hxn : x.length = n := hx x (by simp)
    obtain ⟨p1, e, -⟩ := (fft_opOk cfg).run p x (reachVia_inv hp)
    rw [fftBuf_fresh cfg p x (reachVia_inv hp) (by rw [hxn]; exact hr)
      (by rw [hxn]; exact compat_of_reach hp), hxn, hr] at e
    have hp1 : ReachVia cfg (fun m => workSize m ≤ workSize n) p1 := .fft hp (by rw [hxn]) e
    obtain ⟨p2, e2, h2⟩ := ih p1 (fun x hx' => hx x (by simp [hx'])) hp1
    exact ⟨p2, by rw [runAll, e, Outcome.bind_ok]; simp only; rw [e2]; rfl, h2⟩

theorem runAll_ifft [F : Flt ℝ] (hF : Lawful F) (cfg : Cfg) (n : ℕ) (hr : fftRes cfg n = .ok ()) :
    ∀ (xs : List (List (Cx ℝ))) (p : Planner ℝ), (∀ x ∈ xs, x.length = n) →
      ReachVia cfg (fun m => workSize m ≤ workSize n) p →
      ∃ p' ys, runAll (ifft cfg) p xs = .ok (p', ys, .ok ()) ∧
        ReachVia cfg (fun m => workSize m ≤ workSize n) p' ∧ List.Forall₂ IsIdft xs ys := by
  intro xs
  induction xs with
  | nil => intro p _ hp; exact ⟨p, [], rfl, hp, .nil⟩
  | cons x xs ih =>
    intro p hx hp
    have hxn : x.length = n := hx x (by simp)
    obtain ⟨p1, e, -⟩ := (ifft_opOk cfg).run p x (reachVia_inv hp)
    have hd := ifftBuf_isIdft hF cfg p x (reachVia_inv hp) (by rw [hxn]; exact hr)
      (by rw [hxn]; exact compat_of_reach hp)
    rw [hxn, hr] at e
    have hp1 : ReachVia cfg (fun m => workSize m ≤ workSize n) p1 := .ifft hp (by rw [hxn]) e
    obtain ⟨p2, ys, e2, h2, h3⟩ := ih p1 (fun x hx' => hx x (by simp [hx'])) hp1
    exact ⟨p2, _, by rw [runAll, e, Outcome.bind_ok]; simp only; rw [e2]; rfl, h2, .cons hd h3⟩

theorem segments_length {T : Type} [Flt T] (signal window : List T) (hop c : ℕ) :
    (segments signal window hop c).length = c := by simp [segments]

theorem segments_mem {T : Type} [Flt T] (signal window : List T) (hop c : ℕ) :
    ∀ x ∈ segments signal window hop c, x.length = window.length := by
  intro x hx
  simp only [segments, List.mem_map] at hx
  obtain ⟨f, -, rfl⟩ := hx
  exact segment_length _ _ _

theorem segments_getD {T : Type} [Flt T] (signal window : List T) (hop c f : ℕ) (hf : f < c) :
    (segments signal window hop c).getD f [] = Spec.segment signal window (f * hop) := by
  simp [segments, List.getD_eq_getElem?_getD, hf]

theorem sig_segment [F : Flt ℝ] (hF : Lawful F) (signal window : List ℝ) (start t : ℕ)
    (ht : t < window.length) :
    sig (Spec.segment signal window start) t = ((signal.getD (start + t) 0 * window.getD t 0 : ℝ) : ℂ) := by
  rw [sig_eq hF, segment_tab, tab_getD ht]
  by_cases h : start + t < signal.length
  · rw [if_pos h]; simp [toC, hF.mul, hF.zero, Complex.ext_iff]
  · rw [if_neg h, List.getD_eq_default signal _ (by omega)]; simp [toC, hF.zero, Complex.ext_iff]

/-! ### C32: batch STFT -/

/-- C32a. For every transformer and every arithmetic, `stft` feeds the transformer exactly the windowed,
zero-padded segments in order and stores what it returns; it stops at the first error and leaves the later
frames alone. -/
theorem stft_transforms_segments {T : Type} [Flt T] {S : Type} (op : StOp S T) (s : S) (signal window : List T)
    (hop : ℕ) (output : List (List (Cx T))) (hh : 0 < hop) (ho : signal.length ≤ output.length * hop) :
    stft op s signal window hop output =
      runAll op s (segments signal window hop output.length) >>= fun v =>
        .ok (v.1, v.2.1 ++ output.drop v.2.1.length, v.2.2) :=
  stft_eq op s signal window hop output hh ((divCeil_le hh).mpr ho)

/-- C32b. With a scalar transformer, bit for bit: every frame is what a fresh transformer makes of its
segment. -/
theorem stft_frames_fresh {T : Type} [Flt T] (cfg : Cfg) (p : Planner T) (signal window : List T) (hop : ℕ)
    (output : List (List (Cx T))) (hh : 0 < hop) (ho : signal.length ≤ output.length * hop)
    (hw : 0 < window.length) (hn : cfg.std = true ∨ ∃ k, window.length = 2 ^ k)
    (hp : ReachVia cfg (fun m => workSize m ≤ workSize window.length) p) :
    ∃ p' o, stft (fft cfg) p signal window hop output = .ok (p', o, .ok ()) ∧ o.length = output.length ∧
      ReachVia cfg (fun m => workSize m ≤ workSize window.length) p' ∧
      ∀ f, f < output.length → ∃ q, fft cfg Planner.new (Spec.segment signal window (f * hop)) =
        .ok (q, o.getD f [], .ok ()) := by
  have hr := fftRes_ok hw hn
  obtain ⟨p', e, hp'⟩ := runAll_fft cfg window.length hr (segments signal window hop output.length) p
    (segments_mem _ _ _ _) hp
  refine ⟨p', (segments signal window hop output.length).map (freshOut cfg), ?_, ?_, hp', ?_⟩
  · rw [stft_transforms_segments _ _ _ _ _ _ hh ho, e]
    simp [segments_length]
  · simp [segments_length]
  · intro f hf
    have hl := segment_length signal window (f * hop)
    obtain ⟨q, e, -⟩ := (fft_opOk cfg).run Planner.new (Spec.segment signal window (f * hop)) (inv_new cfg)
    rw [fftBuf_fresh cfg _ _ (inv_new cfg) (by rw [hl]; exact hr) (compat_new cfg _), hl, hr] at e
    refine ⟨q, ?_⟩
    rw [e]
    have : ((segments signal window hop output.length).map (freshOut cfg)).getD f [] =
        freshOut cfg (Spec.segment signal window (f * hop)) := by
      simp [segments, List.getD_eq_getElem?_getD, hf]
    rw [this]

/-- C32c. In exact arithmetic frame `f`, bin `k` is
`Σ_t signal[f·hop+t] · window[t] · exp(-2πi k t / n)`, the signal being zero past its end. -/
theorem stft_is_windowed_dft [F : Flt ℝ] (hF : Lawful F) (cfg : Cfg) (p : Planner ℝ) (signal window : List ℝ)
    (hop : ℕ) (output : List (List (Cx ℝ))) (hh : 0 < hop) (ho : signal.length ≤ output.length * hop)
    (hw : 0 < window.length) (hn : cfg.std = true ∨ ∃ k, window.length = 2 ^ k)
    (hp : ReachVia cfg (fun m => workSize m ≤ workSize window.length) p) :
    ∃ p' o, stft (fft cfg) p signal window hop output = .ok (p', o, .ok ()) ∧ o.length = output.length ∧
      ReachVia cfg (fun m => workSize m ≤ workSize window.length) p' ∧
      ∀ f, f < output.length → (o.getD f []).length = window.length ∧
        ∀ k, k < window.length → sig (o.getD f []) k =
          ∑ t ∈ range window.length,
            ((signal.getD (f * hop + t) 0 * window.getD t 0 : ℝ) : ℂ) * W window.length (k * t) := by
  obtain ⟨p', o, e, hl, hp', h⟩ := stft_frames_fresh cfg p signal window hop output hh ho hw hn hp
  refine ⟨p', o, e, hl, hp', ?_⟩
  intro f hf
  obtain ⟨q, e2⟩ := h f hf
  have hsl := segment_length signal window (f * hop)
  obtain ⟨q', y, e3, hd⟩ := fft_is_dft_used hF cfg (Spec.segment signal window (f * hop)) (by omega)
    (by rw [hsl]; exact hn) Planner.new .new
  rw [e2] at e3
  simp only [Outcome.ok.injEq, Prod.mk.injEq] at e3
  obtain ⟨-, rfl, -⟩ := e3
  refine ⟨by rw [hd.1, hsl], ?_⟩
  intro k hk
  rw [hd.2 k (by omega), hsl, dft]
  apply Finset.sum_congr rfl
  intro t ht
  rw [sig_segment hF _ _ _ _ (by simpa using ht)]

/-- C32d. `stft` never panics; its result is exactly the documented one; on `InvalidHopSize` and
`MismatchedLengths` nothing is touched. -/
theorem stft_total {T : Type} [Flt T] (cfg : Cfg) (p : Planner T) (hp : Reach cfg p) (signal window : List T)
    (hop : ℕ) (output : List (List (Cx T))) :
    ∃ p' o r, stft (fft cfg) p signal window hop output = .ok (p', o, r) ∧ Reach cfg p' ∧
      o.length = output.length ∧
      (r = .error .InvalidHopSize ↔ hop = 0) ∧
      (r = .error .MismatchedLengths ↔ hop ≠ 0 ∧ output.length * hop < signal.length) ∧
      (r = .error .EmptyInput ↔ hop ≠ 0 ∧ signal.length ≤ output.length * hop ∧ output ≠ [] ∧ window = []) ∧
      (r = .error .NonPowerOfTwoNoStd ↔ hop ≠ 0 ∧ signal.length ≤ output.length * hop ∧ output ≠ [] ∧
        window ≠ [] ∧ cfg.std = false ∧ ¬ ∃ k, window.length = 2 ^ k) ∧
      (r = .ok () ∨ r = .error .InvalidHopSize ∨ r = .error .MismatchedLengths ∨ r = .error .EmptyInput ∨
        r = .error .NonPowerOfTwoNoStd) ∧
      (r = .error .InvalidHopSize ∨ r = .error .MismatchedLengths → p' = p ∧ o = output) := by
  by_cases h0 : hop = 0
  · exact ⟨p, output, .error .InvalidHopSize, by unfold stft; rw [if_pos h0], hp, rfl, by simp [h0], by simp [h0],
      by simp [h0], by simp [h0], by simp, fun _ => ⟨rfl, rfl⟩⟩
  by_cases h1 : signal.length ≤ output.length * hop
  swap
  · have hd : output.length < divCeil signal.length hop := by
      by_contra hc
      exact h1 ((divCeil_le (by omega)).mp (not_lt.mp hc))
    have h1' : output.length * hop < signal.length := by omega
    exact ⟨p, output, .error .MismatchedLengths, by unfold stft; rw [if_neg h0, if_pos hd], hp, rfl,
      by simp [h0], by simp [h0, h1'], ⟨fun h => by simp at h, fun h => absurd h.2.1 h1⟩,
      ⟨fun h => by simp at h, fun h => absurd h.2.1 h1⟩, by simp, fun _ => ⟨rfl, rfl⟩⟩
  -- the loop
  have hrun : ∀ (xs : List (List (Cx T))) (q : Planner T), Reach cfg q → (∀ x ∈ xs, x.length = window.length) →
      ∃ q' ys, runAll (fft cfg) q xs = .ok (q', ys, if xs = [] then .ok () else fftRes cfg window.length) ∧
        Reach cfg q' ∧ ys.length ≤ xs.length := by
    intro xs
    induction xs with
    | nil => intro q hq _; exact ⟨q, [], rfl, hq, le_rfl⟩
    | cons x xs ih =>
      intro q hq hx
      have hxn := hx x (by simp)
      obtain ⟨q1, e, -⟩ := (fft_opOk cfg).run q x (reach_inv hq)
      have hq1 : Reach cfg q1 := .fft hq trivial e
      rw [hxn] at e
      rw [runAll, e, Outcome.bind_ok]
      rcases fftRes_cases cfg window.length with hr | ⟨er, hr⟩
      · obtain ⟨q2, ys, e2, h2, h3⟩ := ih q1 hq1 (fun x hx' => hx x (by simp [hx']))
        rw [hr] at e2 ⊢
        simp only [ite_self] at e2
        refine ⟨q2, fftBuf cfg q x :: ys, ?_, h2, by simpa using h3⟩
        simp only [e2, Outcome.bind_ok, reduceCtorEq, if_false]
      · rw [hr]
        exact ⟨q1, [fftBuf cfg q x], by simp, hq1, by simp⟩
  obtain ⟨q', ys, e, hq', hly⟩ := hrun _ p hp (segments_mem signal window hop output.length)
  rw [segments_length] at hly
  refine ⟨q', ys ++ output.drop ys.length, _, by rw [stft_transforms_segments _ _ _ _ _ _ (by omega) h1, e]; rfl, hq',
    by simp; omega, ?_⟩
  have hse : segments signal window hop output.length = [] ↔ output = [] := by
    rw [← List.length_eq_zero_iff, segments_length, List.length_eq_zero_iff]
  have h1' : ¬ output.length * hop < signal.length := by omega
  simp only [hse]
  by_cases ho : output = []
  · subst ho; simp only [List.length_nil, Nat.zero_mul, Nat.le_zero] at h1; simp [h0, h1]
  by_cases hw : window.length = 0
  · have hw' : window = [] := List.length_eq_zero_iff.mp hw
    rw [hw, fftRes_zero]; simp [ho, hw', h0, h1, h1']
  · have hw' : window ≠ [] := fun h => hw (by simp [h])
    rw [fftRes_pos (by omega)]
    simp only [← isPow2_iff, ho, if_false]
    by_cases hst : cfg.std = true
    · simp [hst, h0, h1', hw']
    · by_cases hpw : isPow2 window.length = true
      · simp [hst, hpw, h0, h1', hw']
      · simp [hst, hpw, h0, h1, h1', hw', ho]

/-- C32 is not vacuous: 5 samples, window 4, hop 2, three frames. -/
example [F : Flt ℝ] (hF : Lawful F) (cfg : Cfg) :
    ∃ p' o, stft (fft cfg) Planner.new ([1, 2, 3, 4, 5] : List ℝ) [1, 1, 1, 1] 2 [[], [], []] = .ok (p', o, .ok ()) ∧
      o.length = 3 := by
  obtain ⟨p', o, e, hl, -⟩ := stft_is_windowed_dft hF cfg Planner.new [1, 2, 3, 4, 5] [1, 1, 1, 1] 2 [[], [], []]
    (by norm_num) (by simp) (by simp) (Or.inr ⟨2, rfl⟩) .new
  exact ⟨p', o, e, hl⟩

/-! ### C33: streaming and parallel STFT -/

/-- The number of frames a signal of length `n` needs. -/
theorem divCeil_spec {n hop : ℕ} (hh : 0 < hop) :
    n ≤ divCeil n hop * hop ∧ ∀ k, n ≤ k * hop → divCeil n hop ≤ k :=
  ⟨(divCeil_le hh).mp le_rfl, fun _ h => (divCeil_le hh).mpr h⟩

/-- C33a. Reading a fresh stream to its end with any transformer produces frame by frame what the
transformer makes of the consecutive windowed segments: exactly `⌈len/hop⌉` of them. Needs no more than
`⌈len/hop⌉ + 1` calls. -/
theorem stream_transforms_segments {T : Type} [Flt T] {S : Type} (op : StOp S T) {P : S → Prop} (hP : Keeps op P)
    (s : S) (hs : P s) (signal window : List T) (hop : ℕ) (st : StftStream T)
    (hn : StftStream.new signal window hop = .ok st) (buf : List (Cx T)) (hb : buf.length = window.length)
    (fuel : ℕ) (hf : divCeil signal.length hop < fuel) :
    streamAll op fuel st s buf = runAll op s (segments signal window hop (divCeil signal.length hop)) := by
  unfold StftStream.new at hn
  by_cases h0 : hop = 0
  · simp [h0] at hn
  · rw [if_neg h0] at hn
    cases hn
    have := streamAll_eq op hP signal window hop (by omega) (divCeil signal.length hop) fuel 0 s buf hs hb hf (by omega)
    rw [Nat.zero_mul] at this
    rw [this, segments]
    simp only [Nat.zero_add]

/-- C33b. The stream yields the same frames as `stft` on the same transformer, with the same result, and
leaves the transformer in the same state. -/
theorem stream_eq_batch {T : Type} [Flt T] {S : Type} (op : StOp S T) {P : S → Prop} (hP : Keeps op P)
    (s : S) (hs : P s) (signal window : List T) (hop : ℕ) (st : StftStream T)
    (hn : StftStream.new signal window hop = .ok st) (buf : List (Cx T)) (hb : buf.length = window.length)
    (fuel : ℕ) (hf : divCeil signal.length hop < fuel) (output : List (List (Cx T)))
    (ho : output.length = divCeil signal.length hop) (s' : S) (frames : List (List (Cx T))) :
    streamAll op fuel st s buf = .ok (s', frames, .ok ()) ↔
      stft op s signal window hop output = .ok (s', frames, .ok ()) := by
  have hh : 0 < hop := by
    by_contra h
    have : hop = 0 := by omega
    subst this; simp [StftStream.new] at hn
  rw [stream_transforms_segments op hP s hs signal window hop st hn buf hb fuel hf,
    stft_transforms_segments op s signal window hop output hh (by rw [ho]; exact (divCeil_spec hh).1), ho]
  constructor
  · intro h
    have hl := (runAll_ok op _ _ _ _ h).1
    rw [segments_length] at hl
    rw [h, Outcome.bind_ok]
    simp [hl, ho]
  · intro h
    obtain ⟨⟨s1, ys, r⟩, h1, h2⟩ := ok_of_bind h
    simp only [Outcome.ok.injEq, Prod.mk.injEq] at h2
    obtain ⟨rfl, h3, rfl⟩ := h2
    have hl := (runAll_ok op _ _ _ _ h1).1
    rw [segments_length] at hl
    rw [h1]
    rw [List.drop_eq_nil_of_le (by omega), List.append_nil] at h3
    rw [h3]

/-- C33c. A call either moves the stream on by one hop, or fails and leaves it where it was, or reports the
end; at the end nothing changes, so all later calls report the end again. Streams are refused exactly for
hop 0. -/
theorem stream_end {T : Type} [Flt T] {S : Type} (op : StOp S T) (st : StftStream T) (s : S) (buf : List (Cx T))
    (hb : buf.length = st.window.length) :
    (st.pos ≥ st.signal.length → st.nextFrame op s buf = .ok (st, s, buf, .ok false)) ∧
    (∀ st' s' y r, st.nextFrame op s buf = .ok (st', s', y, r) →
      (r = .ok false ↔ st.signal.length ≤ st.pos) ∧ (r ≠ .ok true → st' = st) ∧
      (r = .ok true → st' = { st with pos := st.pos + st.hop })) ∧
    (∀ signal window : List T, ∀ hop, (∃ e, StftStream.new signal window hop = .error e) ↔ hop = 0) := by
  refine ⟨?_, ?_, ?_⟩
  · intro h
    unfold StftStream.nextFrame
    rw [if_neg (by omega), if_pos h]
  · intro st' s' y r h
    by_cases hp : st.pos < st.signal.length
    · rw [nextFrame_eq op st s buf hb hp] at h
      obtain ⟨⟨s1, y1, r1⟩, -, h2⟩ := ok_of_bind h
      cases r1 with
      | error e =>
        simp only [Outcome.ok.injEq, Prod.mk.injEq] at h2
        obtain ⟨rfl, rfl, rfl, rfl⟩ := h2
        refine ⟨⟨fun h => by simp at h, fun h => by omega⟩, fun _ => rfl, fun h => by simp at h⟩
      | ok u =>
        simp only [Outcome.ok.injEq, Prod.mk.injEq] at h2
        obtain ⟨rfl, rfl, rfl, rfl⟩ := h2
        exact ⟨⟨fun h => by simp at h, fun h => by omega⟩, fun h => absurd rfl h, fun _ => rfl⟩
    · unfold StftStream.nextFrame at h
      rw [if_neg (by omega), if_pos (by omega)] at h
      simp only [Outcome.ok.injEq, Prod.mk.injEq] at h
      obtain ⟨rfl, rfl, rfl, rfl⟩ := h
      exact ⟨⟨fun _ => by omega, fun _ => rfl⟩, fun _ => rfl, fun h => by simp at h⟩
  · intro signal window hop
    unfold StftStream.new
    by_cases h : hop = 0 <;> simp [h]

theorem parFrame_eq {T : Type} [Flt T] (cfg : Cfg) (signal window : List T) (hop idx : ℕ) :
    parFrame cfg signal window hop idx = .ok
      (fftBuf cfg Planner.new (Spec.segment signal window (idx * hop)), fftRes cfg window.length) := by
  unfold parFrame
  rw [fillFrame_eq' _ _ _ _ (by simp), Outcome.bind_ok]
  obtain ⟨q, e, -⟩ := (fft_opOk cfg).run Planner.new (Spec.segment signal window (idx * hop)) (inv_new cfg)
  rw [e, segment_length]
  rfl

/-- One worker step: the frame is overwritten, the result is kept. -/
theorem parallel_fold {T : Type} [Flt T] (cfg : Cfg) (signal window : List T) (hop : ℕ) :
    ∀ (order : List ℕ) (o : List (List (Cx T))) (r : Res), (∀ i ∈ order, i < o.length) →
      order.foldlM (m := Outcome) (parStep cfg signal window hop) (o, r) =
      .ok (tab o.length (fun f => if f ∈ order then
          fftBuf cfg Planner.new (Spec.segment signal window (f * hop)) else o.getD f []),
        if r = .ok () ∧ order ≠ [] then fftRes cfg window.length else r) := by
  intro order
  induction order with
  | nil =>
    intro o r _
    simp only [List.foldlM_nil, Outcome.pure_eq, List.not_mem_nil, if_false, ne_eq, not_true_eq_false, and_false]
    rw [← eq_tab_getD]
  | cons i order ih =>
    intro o r h
    have hi : i < o.length := h i (by simp)
    have hstep : parStep cfg signal window hop (o, r) i =
        .ok (o.set i (fftBuf cfg Planner.new (Spec.segment signal window (i * hop))),
          if r = .ok () then fftRes cfg window.length else r) := by
      unfold parStep
      rw [parFrame_eq]
      simp only [Outcome.bind_ok, wr_ok hi]
      cases r <;> simp
    rw [List.foldlM_cons]
    rw [hstep, Outcome.bind_ok, ih _ _ (fun j hj => by simpa using h j (by simp [hj]))]
    congr 2
    · rw [List.length_set]
      apply tab_congr
      intro f hf
      by_cases hfo : f ∈ order
      · simp [hfo]
      · by_cases hfi : f = i
        · subst hfi; simp [hfo, List.getD_eq_getElem?_getD, hf]
        · have : i ≠ f := fun h => hfi h.symm
          simp [hfo, hfi, List.getD_eq_getElem?_getD, this]
    · cases r with
      | error e => simp
      | ok u =>
        simp only [if_true, ne_eq, reduceCtorEq, not_false_eq_true, and_self]
        by_cases ho : order = []
        · simp [ho]
        · simp [ho]

/-- C33d. `parallel`, whatever the schedule: when no transform fails it returns bit for bit what `stft`
with a fresh transformer returns. -/
theorem parallel_eq_batch {T : Type} [Flt T] (cfg : Cfg) (order : List ℕ) (signal window : List T) (hop : ℕ)
    (output : List (List (Cx T))) (hord : order.Perm (List.range output.length)) (hh : 0 < hop)
    (ho : signal.length ≤ output.length * hop) (hw : 0 < window.length)
    (hn : cfg.std = true ∨ ∃ k, window.length = 2 ^ k) :
    ∃ p' o, stft (fft cfg) Planner.new signal window hop output = .ok (p', o, .ok ()) ∧
      stftParallel cfg order signal window hop output = .ok (o, .ok ()) := by
  have hr := fftRes_ok hw hn
  obtain ⟨p', e, hp'⟩ := runAll_fft cfg window.length hr (segments signal window hop output.length) Planner.new
    (segments_mem _ _ _ _) .new
  refine ⟨p', (segments signal window hop output.length).map (freshOut cfg), ?_, ?_⟩
  · rw [stft_transforms_segments _ _ _ _ _ _ hh ho, e]
    simp [segments_length]
  · have hmem : ∀ i, i ∈ order ↔ i < output.length := fun i => by rw [hord.mem_iff, List.mem_range]
    unfold stftParallel
    rw [if_neg (by omega), parallel_fold cfg signal window hop order output (.ok ()) (fun i hi => (hmem i).mp hi)]
    congr 2
    · simp only [segments, List.map_map]
      apply tab_congr
      intro f hf
      rw [if_pos ((hmem f).mpr hf)]
      exact fftBuf_fresh cfg _ _ (inv_new cfg) (by rw [segment_length]; exact hr) (compat_new cfg _)
    · rw [hr]; simp

/-- C33e. `parallel` for all arguments and schedules: never panics; which error comes back does not depend
on the schedule (as long as one frame is attempted); each attempted frame holds what a fresh transformer
leaves there, the others are unchanged. `parallel` does not check that there are enough frames. -/
theorem parallel_total {T : Type} [Flt T] (cfg : Cfg) (order : List ℕ) (signal window : List T) (hop : ℕ)
    (output : List (List (Cx T))) (hord : ∀ i ∈ order, i < output.length) :
    ∃ o r, stftParallel cfg order signal window hop output = .ok (o, r) ∧ o.length = output.length ∧
      (hop = 0 → r = .error .InvalidHopSize ∧ o = output) ∧
      (hop ≠ 0 → (order = [] → r = .ok ()) ∧ (order ≠ [] →
        (r = .error .EmptyInput ↔ window = []) ∧
        (r = .error .NonPowerOfTwoNoStd ↔ window ≠ [] ∧ cfg.std = false ∧ ¬ ∃ k, window.length = 2 ^ k) ∧
        (r = .ok () ∨ r = .error .EmptyInput ∨ r = .error .NonPowerOfTwoNoStd)) ∧
        (∀ f, f < output.length → f ∉ order → o.getD f [] = output.getD f []) ∧
        (∀ f ∈ order, ∃ q, fft cfg Planner.new (Spec.segment signal window (f * hop)) = .ok (q, o.getD f [], r))) := by
  by_cases h0 : hop = 0
  · exact ⟨output, .error .InvalidHopSize, by unfold stftParallel; rw [if_pos h0], rfl, fun _ => ⟨rfl, rfl⟩,
      fun h => absurd h0 h⟩
  have e := parallel_fold cfg signal window hop order output (.ok ()) hord
  rw [show order.foldlM (m := Outcome) (parStep cfg signal window hop) (output, .ok ()) =
    stftParallel cfg order signal window hop output by unfold stftParallel; rw [if_neg h0]] at e
  refine ⟨_, _, e, by simp, fun h => absurd h h0, fun _ => ⟨fun h => by simp [h], ?_, ?_, ?_⟩⟩
  · intro ho
    simp only [true_and, ho, ne_eq, not_false_eq_true, if_true, ← isPow2_iff]
    by_cases hw : window = []
    · subst hw; simp [fftRes_zero]
    · have : window.length ≠ 0 := fun h => hw (List.length_eq_zero_iff.mp h)
      rw [fftRes_pos (by omega)]
      by_cases hst : cfg.std = true
      · simp [hst, hw]
      · by_cases hpw : isPow2 window.length = true
        · simp [hst, hpw, hw]
        · simp [hst, hpw, hw]
  · intro f hf hfo
    rw [tab_getD hf, if_neg hfo]
  · intro f hf
    rw [tab_getD (hord f hf), if_pos hf]
    obtain ⟨q, e, -⟩ := (fft_opOk cfg).run Planner.new (Spec.segment signal window (f * hop)) (inv_new cfg)
    rw [segment_length] at e
    have : order ≠ [] := fun h => by simp [h] at hf
    exact ⟨q, by rw [e]; simp [this]⟩

/-- C33 is not vacuous: a schedule finishing the frames in reverse order. -/
example [Flt ℝ] (cfg : Cfg) : ∃ p' o,
    stft (fft cfg) Planner.new ([1, 2, 3, 4, 5] : List ℝ) [1, 1] 2 [[], [], []] = .ok (p', o, .ok ()) ∧
    stftParallel cfg [2, 1, 0] [1, 2, 3, 4, 5] [1, 1] 2 [[], [], []] = .ok (o, .ok ()) :=
  parallel_eq_batch cfg _ _ _ _ _ (by decide) (by norm_num) (by simp) (by simp) (Or.inr ⟨1, rfl⟩)

/-- C33: a stream over 5 samples with hop 2 has 3 frames. -/
example [Flt ℝ] (cfg : Cfg) (st : StftStream ℝ)
    (h : StftStream.new ([1, 2, 3, 4, 5] : List ℝ) [1, 1] 2 = .ok st) (fuel : ℕ) (hf : 3 < fuel) :
    streamAll (fft cfg) fuel st Planner.new [⟨0, 0⟩, ⟨0, 0⟩] =
      runAll (fft cfg) Planner.new (segments [1, 2, 3, 4, 5] [1, 1] 2 3) :=
  stream_transforms_segments (fft cfg) (keeps_fft_reach cfg) Planner.new .new _ _ _ st h _ rfl fuel hf

end Kofft.Props
