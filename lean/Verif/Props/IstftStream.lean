import Verif.Proof.IstftStream
import Verif.Props.Istft
/-
Properties C36, C37: streaming and parallel inverse short-time transforms.
-/
namespace Kofft.Props
open Spec Finset

/-! ### C36: `IstftStream` -/

/-- C36a, partial. For hop ≤ window length, any transformer and any arithmetic: pushing frames one by one
returns chunks of `hop` samples; followed by what `flush` returns, they are bit for bit the samples the
batch `istft` computes from the same frames into a zeroed buffer of `(F-1)·hop + win_len` samples; a second
`flush` returns nothing.
Missing from the full claim: hop > window length, where it is false (`istft_stream_panics`). -/
theorem istft_stream_eq_batch_partial {T : Type} [Flt T] {S : Type} (iop : StOp S T) {P : S → Prop}
    (hP : Keeps iop P) (s s' : S) (hs : P s) (winLen hop : ℕ) (window : List T) (st : IstftStream T)
    (hnew : IstftStream.new winLen hop window = .ok st) (hh : hop ≤ winLen) (hw : winLen ≤ window.length)
    (frames ys : List (List (Cx T))) (hne : frames ≠ []) (hf : ∀ fr ∈ frames, fr.length = winLen)
    (hr : runAll iop s frames = .ok (s', ys, .ok ())) :
    ∃ st1 chunks st2 tail sc,
      pushAll iop st s frames = .ok (st1, s', .ok chunks) ∧
      chunks.length = frames.length ∧ (∀ c ∈ chunks, c.length = hop) ∧
      st1.flush = .ok (st2, tail) ∧ tail.length = winLen - hop ∧ st2.flush = .ok (st2, []) ∧
      istft iop s frames (window.take winLen) hop
        (List.replicate ((frames.length - 1) * hop + winLen) Flt.zero)
        (List.replicate ((frames.length - 1) * hop + winLen) Flt.zero) =
          .ok (s', ys, chunks.flatten ++ tail, sc, .ok ()) := by
  have h0 : 0 < hop := by
    by_contra h
    have : hop = 0 := by omega
    subst this; simp [IstftStream.new] at hnew
  have hl : (window.take winLen).length = winLen := by simp; omega
  have hyl := (runAll_ok iop _ _ _ _ hr).1
  have hF : 0 < frames.length := List.length_pos_iff.mpr hne
  obtain ⟨st1, cs, e1, c1, c2, hI, c3⟩ := pushAll_inv iop hP (window.take winLen) hop (by omega) ys frames 0 st s s' hs
    (by rw [hl]; exact hf) (new_inv winLen hop window st hw hnew ys) (by omega) (by rw [List.drop_zero]; exact hr)
  rw [Nat.zero_add] at hI
  obtain ⟨st2, e2, e3⟩ := flush_inv (window.take winLen) hop (by omega) h0 ys frames.length hF st1 hI
  have e4 := istft_eq iop hP s s' hs frames ys (window.take winLen) hop
    (List.replicate ((frames.length - 1) * hop + winLen) Flt.zero)
    (List.replicate ((frames.length - 1) * hop + winLen) Flt.zero) h0 (by simp) (by rw [hl]; exact hf) hr
  have hN : (frames.length - 1) * hop + winLen = frames.length * hop + (winLen - hop) := by
    obtain ⟨m, hm⟩ : ∃ m, frames.length = m + 1 := ⟨frames.length - 1, by omega⟩
    rw [hm, Nat.add_sub_cancel, Nat.succ_mul]; omega
  refine ⟨st1, cs, st2, _, tab ((frames.length - 1) * hop + winLen) (normAt (window.take winLen) hop ys.length),
    e1, c1, c2, e2, by rw [tab_length, hl], e3, ?_⟩
  rw [e4]
  congr 5
  swap
  · rw [List.length_replicate]
  rw [c3, tab_append, List.length_replicate, hN, hl]
  apply tab_congr
  intro i hi
  rw [List.getD_replicate _ (by omega), olaAt_eq, Nat.zero_mul, Nat.zero_add, ← hyl]
  by_cases h : i < ys.length * hop
  · rw [if_pos h]
  · rw [if_neg h, show ys.length * hop + (i - ys.length * hop) = i by omega]

/-- C36b. Without frames the stream returns nothing. -/
theorem istft_stream_empty {T : Type} [Flt T] (winLen hop : ℕ) (window : List T) (st : IstftStream T)
    (hnew : IstftStream.new winLen hop window = .ok st) : st.flush = .ok (st, []) := by
  unfold IstftStream.new at hnew
  by_cases h : hop = 0
  · simp [h] at hnew
  · rw [if_neg h] at hnew; cases hnew; rfl

/-- The streams a program can hold: created by `new`, then pushed to and flushed in any order, whatever the
calls returned, with a scalar transformer. -/
inductive StreamReach {T : Type} [Flt T] (cfg : Cfg) (winLen hop : ℕ) (window : List T) :
    IstftStream T → Planner T → Prop
  | new {st p} : IstftStream.new winLen hop window = .ok st → Reach cfg p →
      StreamReach cfg winLen hop window st p
  | push {st p st' p' frame r} : StreamReach cfg winLen hop window st p →
      st.push (ifft cfg) p frame = .ok (st', p', r) → StreamReach cfg winLen hop window st' p'
  | flush {st p st' out} : StreamReach cfg winLen hop window st p → st.flush = .ok (st', out) →
      StreamReach cfg winLen hop window st' p

/-- What keeps a stream from panicking. -/
structure StreamOk {T : Type} (winLen hop : ℕ) (window : List T) (st : IstftStream T) : Prop where
  hwin : st.winLen = winLen
  hhop : st.hop = hop
  wnd : st.window = window
  nl : st.norm.length = st.buffer.length
  pos : st.bufPos + winLen ≤ st.buffer.length
  out : st.outPos + hop ≤ st.bufPos + winLen
  cnt : st.frameCount = 0 ∨ hop ≤ st.bufPos

theorem stream_push_ok {T : Type} [Flt T] (cfg : Cfg) (winLen hop : ℕ) (window : List T)
    (hw : winLen ≤ window.length) (st : IstftStream T) (p : Planner T)
    (hp : Reach cfg p) (h : StreamOk winLen hop window st) (frame : List (Cx T)) :
    ∃ st' p' r, st.push (ifft cfg) p frame = .ok (st', p', r) ∧ StreamOk winLen hop window st' ∧ Reach cfg p' ∧
      (∀ c, r = .ok c → c.length = hop) ∧ (frame.length ≠ winLen → r = .error .MismatchedLengths) ∧
      ((∀ c, r ≠ .ok c) → st'.buffer = st.buffer ∧ st'.norm = st.norm ∧ st'.bufPos = st.bufPos ∧
        st'.outPos = st.outPos ∧ st'.frameCount = st.frameCount) ∧
      (frame.length = winLen → ((∃ c, r = .ok c) ↔ fftRes cfg winLen = .ok ())) := by
  obtain ⟨h1, h2, h3, h4, h5, h6, h7⟩ := h
  by_cases hf : frame.length = winLen
  swap
  · exact ⟨st, p, .error .MismatchedLengths, by unfold IstftStream.push; rw [if_pos (by omega)],
      ⟨h1, h2, h3, h4, h5, h6, h7⟩, hp, by simp, by simp, fun _ => ⟨rfl, rfl, rfl, rfl, rfl⟩, fun h => absurd h hf⟩
  obtain ⟨q, e, -, hyl, -⟩ := (ifft_opOk cfg).run p frame (reach_inv hp)
  have hq : Reach cfg q := .ifft hp trivial e
  rw [hf] at e
  rcases fftRes_cases cfg winLen with hr | ⟨er, hr⟩
  · rw [hr] at e
    have hB := eq_tab_getD st.buffer Flt.zero
    have hN := eq_tab_getD st.norm Flt.zero
    rw [h4] at hN
    have e2 := push_eq (ifft cfg) st p q frame _ st.buffer.length _ _ hB hN (by omega) (by omega) (by rw [h3]; omega) e
      (by omega) (by omega)
    refine ⟨_, q, _, e2, ⟨h1, h2, h3, by simp, ?_, ?_, ?_⟩, hq, ?_, fun h => absurd hf h, fun h => absurd rfl (h _),
      fun _ => ⟨fun _ => hr, fun _ => ⟨_, rfl⟩⟩⟩
    · simp only [tab_length]; omega
    · simp only; omega
    · simp only; omega
    · intro c hc
      cases hc; simp [h2]
  · rw [hr] at e
    refine ⟨{ st with timeBuf := ifftBuf cfg p frame }, q, .error er, ?_, ⟨h1, h2, h3, h4, h5, h6, h7⟩, hq, by simp,
      fun h => absurd hf h, fun _ => ⟨rfl, rfl, rfl, rfl, rfl⟩, fun _ => ⟨fun ⟨c, hc⟩ => by simp at hc, fun h => by
        rw [hr] at h; simp at h⟩⟩
    unfold IstftStream.push
    rw [if_neg (by omega), e, Outcome.bind_ok]

theorem stream_flush_ok {T : Type} [Flt T] (winLen hop : ℕ) (window : List T) (st : IstftStream T)
    (h : StreamOk winLen hop window st) :
    ∃ st' out, st.flush = .ok (st', out) ∧ StreamOk winLen hop window st' := by
  obtain ⟨h1, h2, h3, h4, h5, h6, h7⟩ := h
  unfold IstftStream.flush
  by_cases hc : st.frameCount = 0
  · exact ⟨st, [], by rw [if_pos hc], ⟨h1, h2, h3, h4, h5, h6, h7⟩⟩
  rw [if_neg hc]
  simp only
  by_cases ho : st.outPos ≥ st.bufPos + st.winLen - st.hop
  · exact ⟨st, [], by rw [if_pos ho], ⟨h1, h2, h3, h4, h5, h6, h7⟩⟩
  rw [if_neg ho]
  have hB := eq_tab_getD st.buffer Flt.zero
  have hN := eq_tab_getD st.norm Flt.zero
  rw [h4] at hN
  have e := emit_eq (n := st.buffer.length) (lo := st.outPos) (hi := st.bufPos + st.winLen - st.hop)
    (fun i => st.buffer.getD i Flt.zero) (fun i => st.norm.getD i Flt.zero) (by omega) (by omega)
  rw [← hB, ← hN] at e
  rw [e, Outcome.bind_ok]
  refine ⟨_, _, rfl, ⟨h1, h2, h3, by simp, ?_, ?_, h7⟩⟩
  · simp only [tab_length]; omega
  · simp only; omega

theorem streamReach_ok {T : Type} [Flt T] (cfg : Cfg) (winLen hop : ℕ) (window : List T) (hh : hop ≤ winLen)
    (hw : winLen ≤ window.length) {st : IstftStream T} {p : Planner T}
    (h : StreamReach cfg winLen hop window st p) : StreamOk winLen hop window st ∧ Reach cfg p := by
  induction h with
  | new hnew hp =>
    refine ⟨?_, hp⟩
    unfold IstftStream.new at hnew
    by_cases h : hop = 0
    · simp [h] at hnew
    · rw [if_neg h] at hnew; cases hnew
      exact ⟨rfl, rfl, rfl, by simp, by simp, by simpa using hh, Or.inl rfl⟩
  | push _ e ih =>
    obtain ⟨st', p', r, e', h1, h2, -⟩ := stream_push_ok cfg winLen hop window hw _ _ ih.2 ih.1 _
    rw [e] at e'; cases e'; exact ⟨h1, h2⟩
  | flush _ e ih =>
    obtain ⟨st', out, e', h1⟩ := stream_flush_ok winLen hop window _ ih.1
    rw [e] at e'; cases e'; exact ⟨h1, ih.2⟩

/-- C36c. For `hop ≤ win_len ≤ window.len()`, no sequence of `push_frame` and `flush` calls, in whatever
order and with whatever frames, ever panics; a push returns `hop` samples, or `MismatchedLengths` exactly when
the frame has the wrong length, or the transformer's error, and a failed push emits nothing and
keeps the accumulated samples. -/
theorem istft_stream_never_panics {T : Type} [Flt T] (cfg : Cfg) (winLen hop : ℕ) (window : List T)
    (hh : hop ≤ winLen) (hw : winLen ≤ window.length) (st : IstftStream T) (p : Planner T)
    (h : StreamReach cfg winLen hop window st p) :
    (∃ st' out, st.flush = .ok (st', out)) ∧
    ∀ frame, ∃ st' p' r, st.push (ifft cfg) p frame = .ok (st', p', r) ∧
      (∀ c, r = .ok c → c.length = hop) ∧
      (r = .error .MismatchedLengths ↔ frame.length ≠ winLen) ∧
      (frame.length = winLen → winLen ≠ 0 → (cfg.std = true ∨ ∃ k, winLen = 2 ^ k) → ∃ c, r = .ok c) ∧
      ((∀ c, r ≠ .ok c) → st'.buffer = st.buffer ∧ st'.norm = st.norm ∧ st'.bufPos = st.bufPos ∧
        st'.outPos = st.outPos ∧ st'.frameCount = st.frameCount) := by
  obtain ⟨hok, hp⟩ := streamReach_ok cfg winLen hop window hh hw h
  refine ⟨?_, ?_⟩
  · obtain ⟨st', out, e, -⟩ := stream_flush_ok winLen hop window st hok
    exact ⟨st', out, e⟩
  intro frame
  obtain ⟨st', p', r, e, -, -, h1, h2, h3, h4⟩ := stream_push_ok cfg winLen hop window hw st p hp hok frame
  refine ⟨st', p', r, e, h1, ⟨?_, h2⟩, fun hf h0 hn => (h4 hf).mpr (fftRes_ok (by omega) hn), h3⟩
  intro hr hf
  -- with the right length the only errors are those of the transformer
  obtain ⟨q, e1, -⟩ := (ifft_opOk cfg).run p frame (reach_inv hp)
  unfold IstftStream.push at e
  rw [if_neg (by rw [hok.hwin]; omega), e1, Outcome.bind_ok, hf] at e
  rcases fftRes_cases cfg winLen with hc | ⟨er, hc⟩
  · obtain ⟨c, hc'⟩ := (h4 hf).mpr hc
    rw [hc'] at hr; simp at hr
  · rw [hc] at e
    simp only [Outcome.ok.injEq, Prod.mk.injEq] at e
    obtain ⟨-, -, rfl⟩ := e
    simp only [Except.error.injEq] at hr
    subst hr
    by_cases hw0 : winLen = 0
    · rw [hw0, fftRes_zero] at hc; simp at hc
    · rw [fftRes_pos (by omega)] at hc
      split at hc <;> simp at hc

/-- C36d, the negation. For every hop larger than the window length the third push panics, whatever the
frames, the transformer and the arithmetic (as long as the transformer succeeds). -/
theorem istft_stream_panics {T : Type} [Flt T] {S : Type} (iop : StOp S T) {P : S → Prop} (hP : Keeps iop P)
    (s s' : S) (hs : P s) (winLen hop : ℕ) (window : List T) (st : IstftStream T)
    (hnew : IstftStream.new winLen hop window = .ok st) (hh : winLen < hop) (hw : winLen ≤ window.length)
    (x y z : List (Cx T)) (hx : x.length = winLen) (hy : y.length = winLen) (hz : z.length = winLen)
    (ys : List (List (Cx T))) (hr : runAll iop s [x, y, z] = .ok (s', ys, .ok ())) :
    pushAll iop st s [x, y, z] = .panic := by
  obtain ⟨-, f, e0, -, e2⟩ := runAll_ok iop _ _ _ _ hr
  have h1 := e2 0 (by simp)
  have h2 := e2 1 (by simp)
  have h3 := e2 2 (by simp)
  simp only [List.getD_cons_zero, List.getD_cons_succ, e0] at h1 h2 h3
  obtain ⟨l1, p1⟩ := hP _ _ _ _ _ hs h1
  obtain ⟨l2, p2⟩ := hP _ _ _ _ _ p1 h2
  obtain ⟨l3, p3⟩ := hP _ _ _ _ _ p2 h3
  unfold IstftStream.new at hnew
  rw [if_neg (by omega)] at hnew
  cases hnew
  have g1 := push_eq iop (s := s) (s' := f 1) (frame := x) (L := winLen + hop * 2) (B := fun _ => Flt.zero) (N := fun _ => Flt.zero)
    (st := ⟨winLen, hop, window, List.replicate (winLen + hop * 2) Flt.zero,
    List.replicate (winLen + hop * 2) Flt.zero, List.replicate winLen Cx.zero, 0, 0, 0⟩)
    (hB := replicate_eq_tab _ _) (hN := replicate_eq_tab _ _) (y := ys.getD 0 []) hx (by rw [l1, hx]) hw h1 (by simp) (by simp only; omega)
  simp only at g1
  have hm1 : max (winLen + hop * 2) (0 + hop + winLen) = winLen + hop * 2 := by omega
  rw [hm1] at g1
  rw [pushAll, g1, Outcome.bind_ok]
  simp only
  have g2 := push_eq iop (s := f 1) (s' := f 2) (frame := y) (L := winLen + hop * 2)
    (B := pushBuf window (ys.getD 0 []) 0 0 winLen hop (winLen + hop * 2)
      (fun _ => Flt.zero) (fun _ => Flt.zero))
    (N := pushNrm window 0 0 winLen hop (winLen + hop * 2) (fun _ => Flt.zero))
    (st := ⟨winLen, hop, window, tab (winLen + hop * 2) (pushBuf window (ys.getD 0 []) 0 0 winLen hop (winLen + hop * 2)
      (fun _ => Flt.zero) (fun _ => Flt.zero)),
    tab (winLen + hop * 2) (pushNrm window 0 0 winLen hop (winLen + hop * 2) (fun _ => Flt.zero)),
    ys.getD 0 [], 0 + hop, 0 + hop, 0 + 1⟩) (hB := rfl) (hN := rfl) (y := ys.getD 1 []) hy (by rw [l2, hy]) hw h2 (by simp only; omega) (by simp only; omega)
  simp only at g2
  have hm2 : max (winLen + hop * 2) (0 + hop + hop + winLen) = winLen + hop * 2 := by omega
  rw [hm2] at g2
  rw [pushAll, g2, Outcome.bind_ok]
  simp only
  rw [pushAll, push_panic iop _ (f 2) (f 3) z _ (winLen + hop * 2) _ _ rfl rfl hz (by rw [l3, hz]) hw h3
    (by simp only; omega) (by simp only; omega) (by simp only; omega)]
  rfl

/-- The negation applies to the scalar transformer: window length 1, hop 2, three one-sample frames. -/
example [Flt ℝ] (cfg : Cfg) (st : IstftStream ℝ) (h : IstftStream.new 1 2 ([1] : List ℝ) = .ok st)
    (a b c : Cx ℝ) : pushAll (ifft cfg) st Planner.new [[a], [b], [c]] = .panic := by
  have hr : runAll (ifft cfg) (Planner.new : Planner ℝ) [[a], [b], [c]] =
      .ok (Planner.new, [[a], [b], [c]], .ok ()) := by
    simp [runAll, ifft, ifftWith]
  exact istft_stream_panics (ifft cfg) (keeps_ifft_reach cfg) Planner.new _ .new 1 2 [1] st h (by norm_num) (by simp)
    _ _ _ rfl rfl rfl _ hr

/-- C36a is not vacuous: window length 2, hop 1, two frames. -/
example [F : Flt ℝ] (hF : Lawful F) (cfg : Cfg) (st : IstftStream ℝ)
    (h : IstftStream.new 2 1 ([1, 1] : List ℝ) = .ok st) (a b c d : Cx ℝ) :
    ∃ st1 s' chunks st2 tail, pushAll (ifft cfg) st Planner.new [[a, b], [c, d]] = .ok (st1, s', .ok chunks) ∧
      st1.flush = .ok (st2, tail) ∧ (chunks.flatten ++ tail).length = 3 := by
  obtain ⟨p', ys, e, -⟩ := runAll_ifft hF cfg 2 (fftRes_ok (by norm_num) (Or.inr ⟨1, rfl⟩)) [[a, b], [c, d]]
    Planner.new (by simp) .new
  obtain ⟨st1, chunks, st2, tail, sc, e1, c1, c2, e2, t1, -⟩ := istft_stream_eq_batch_partial (ifft cfg)
    (keeps_ifft_reach cfg) Planner.new p' .new 2 1 [1, 1] st h (by norm_num) (by simp) [[a, b], [c, d]] ys (by simp)
    (by simp) e
  refine ⟨st1, p', chunks, st2, tail, e1, e2, ?_⟩
  match chunks, c1, c2 with
  | [x, y], _, c2 => simp [c2 x (by simp), c2 y (by simp), t1]

/-! ### C37: `inverse_parallel` -/

/-- All frames of one length through a scalar transformer's `ifft`: as on fresh transformers. -/
theorem runAll_ifft_fresh {T : Type} [Flt T] (cfg : Cfg) (n : ℕ) (hr : fftRes cfg n = .ok ()) :
    ∀ (xs : List (List (Cx T))) (p : Planner T), (∀ x ∈ xs, x.length = n) →
      ReachVia cfg (fun m => workSize m ≤ workSize n) p →
      ∃ p', runAll (ifft cfg) p xs = .ok (p', xs.map (ifftBuf cfg Planner.new), .ok ()) := by
  intro xs
  induction xs with
  | nil => intro p _ hp; exact ⟨p, rfl⟩
  | cons x xs ih =>
    intro p hx hp
    have hxn : x.length = n := hx x (by simp)
    obtain ⟨p1, e, -⟩ := (ifft_opOk cfg).run p x (reachVia_inv hp)
    have hb : ifftBuf cfg p x = ifftBuf cfg Planner.new x := by
      unfold ifftBuf
      rw [fftBuf_fresh cfg p (x.map Cx.conj) (reachVia_inv hp) (by simpa [hxn] using hr)
        (by rw [List.length_map, hxn]; exact compat_of_reach hp),
        fftBuf_fresh cfg Planner.new (x.map Cx.conj) (inv_new cfg) (by simpa [hxn] using hr) (compat_new cfg _)]
    rw [hb, hxn, hr] at e
    have hp1 : ReachVia cfg (fun m => workSize m ≤ workSize n) p1 := .ifft hp (by rw [hxn]) e
    obtain ⟨p2, e2⟩ := ih p1 (fun x hx' => hx x (by simp [hx'])) hp1
    exact ⟨p2, by rw [runAll, e, Outcome.bind_ok]; simp only; rw [e2]; rfl⟩

/-- The windowed samples and squared window of one frame. -/
def partOf {T : Type} [Flt T] (window : List T) (y : List (Cx T)) : List T × List T :=
  (tab window.length (fun i => (y.getD i Cx.zero).re *. window.getD i Flt.zero),
    tab window.length (fun i => window.getD i Flt.zero *. window.getD i Flt.zero))

theorem invParFrame_eq {T : Type} [Flt T] (cfg : Cfg) (window : List T) (frame : List (Cx T))
    (hl : window.length ≤ frame.length) (hr : fftRes cfg frame.length = .ok ()) :
    invParFrame cfg window frame = .ok (partOf window (ifftBuf cfg Planner.new frame), .ok ()) := by
  obtain ⟨q, e, -, hy, -⟩ := (ifft_opOk cfg).run Planner.new frame (inv_new cfg)
  unfold invParFrame
  rw [e, hr, Outcome.bind_ok]
  simp only
  rw [replicate_eq_tab]
  have := fill2_tab (n := window.length) (lo := 0) (hi := window.length) (off := 0) (f := fun _ => (Flt.zero : T))
    (g := fun _ => (Flt.zero : T))
    (fun i => ((ifftBuf cfg Planner.new frame).getD i Cx.zero).re *. window.getD i Flt.zero)
    (fun i => window.getD i Flt.zero *. window.getD i Flt.zero)
    (body := fun i st => do
        let c ← rd (ifftBuf cfg Planner.new frame) i
        let w ← rd window i
        let a ← wr st.1 i (c.re *. w)
        let n ← wr st.2 i (w *. w)
        pure (a, n)) (Nat.zero_le _) ?_
  · rw [this, Outcome.bind_ok]
    unfold partOf
    congr 3 <;> apply tab_congr <;> intro i hi <;> rw [if_pos (by omega)]
  · intro i F G _ h2 _ _
    rw [rd_getD Cx.zero (by omega), Outcome.bind_ok, rd_getD Flt.zero h2, Outcome.bind_ok, wr_tab h2, Outcome.bind_ok,
      wr_tab h2, Outcome.bind_ok]
    simp only [Nat.zero_add, Outcome.pure_eq]
    congr 2 <;> apply tab_congr <;> intro p _ <;> by_cases hp : p = i <;> simp [hp]

theorem addPartial_eq {T : Type} [Flt T] (window : List T) (start N : ℕ) (y : List (Cx T)) (f g : ℕ → T) :
    addPartial window.length start (partOf window y) (tab N f) (tab N g) = .ok
      (tab N (fun p => if start ≤ p ∧ p < start + window.length then
          f p +. ((y.getD (p - start) Cx.zero).re *. window.getD (p - start) Flt.zero) else f p),
       tab N (fun p => if start ≤ p ∧ p < start + window.length then
          g p +. (window.getD (p - start) Flt.zero *. window.getD (p - start) Flt.zero) else g p)) := by
  unfold addPartial partOf
  rw [forRange_eq (fun k => (tab N (fun p => if start ≤ p ∧ p < start + k then
          f p +. ((y.getD (p - start) Cx.zero).re *. window.getD (p - start) Flt.zero) else f p),
       tab N (fun p => if start ≤ p ∧ p < start + k then
          g p +. (window.getD (p - start) Flt.zero *. window.getD (p - start) Flt.zero) else g p)))
       (Nat.zero_le _)]
  · congr 1 <;> apply tab_congr <;> intro p _ <;> rw [if_neg (by omega)]
  · intro k _ hk
    simp only [tab_length]
    by_cases hs : start + k < N
    · rw [if_pos hs, rd_tab hs, Outcome.bind_ok, rd_tab hk, Outcome.bind_ok, wr_tab hs, Outcome.bind_ok,
        rd_tab hs, Outcome.bind_ok, rd_tab hk, Outcome.bind_ok, wr_tab hs, Outcome.bind_ok, Outcome.pure_eq]
      congr 2 <;> apply tab_congr <;> intro p _ <;> by_cases hp : p = start + k
      · subst hp
        rw [if_pos rfl, if_neg (by omega), if_pos (by omega), show start + k - start = k by omega]
      · rw [if_neg hp]
        by_cases h : start ≤ p ∧ p < start + k
        · rw [if_pos h, if_pos (by omega)]
        · rw [if_neg h, if_neg (by omega)]
      · subst hp
        rw [if_pos rfl, if_neg (by omega), if_pos (by omega), show start + k - start = k by omega]
      · rw [if_neg hp]
        by_cases h : start ≤ p ∧ p < start + k
        · rw [if_pos h, if_pos (by omega)]
        · rw [if_neg h, if_neg (by omega)]
    · rw [if_neg hs, Outcome.pure_eq]
      congr 2 <;> apply tab_congr <;> intro p hp <;> by_cases h : start ≤ p ∧ p < start + k
      · rw [if_pos h, if_pos (by omega)]
      · rw [if_neg h, if_neg (by omega)]
      · rw [if_pos h, if_pos (by omega)]
      · rw [if_neg h, if_neg (by omega)]

theorem combine_eq {T : Type} [Flt T] (window : List T) (hop N : ℕ) (ys : List (List (Cx T))) (init : ℕ → T) :
    ∀ (cnt k : ℕ), k + cnt = ys.length →
      combine window.length hop k ((ys.drop k).map (partOf window))
        (tab N fun p => olaK window hop ys k (init p) p) (tab N fun p => normAt window hop k p) =
      .ok (tab N fun p => olaK window hop ys ys.length (init p) p, tab N fun p => normAt window hop ys.length p) := by
  intro cnt
  induction cnt with
  | zero =>
    intro k hk
    rw [List.drop_eq_nil_of_le (by omega), show k = ys.length by omega]
    rfl
  | succ cnt ih =>
    intro k hk
    have hkl : k < ys.length := by omega
    rw [List.drop_eq_getElem_cons hkl, List.map_cons, combine, addPartial_eq, Outcome.bind_ok]
    simp only
    rw [← ih (k + 1) (by omega)]
    congr 1 <;> apply tab_congr <;> intro p _
    · rw [olaK_succ, olaStep]
      simp [List.getD_eq_getElem?_getD, hkl]
    · rw [normAt_succ]

theorem mapM_invPar {T : Type} [Flt T] (cfg : Cfg) (window : List T) :
    ∀ frames : List (List (Cx T)), (∀ fr ∈ frames, window.length ≤ fr.length ∧ fftRes cfg fr.length = .ok ()) →
      frames.mapM (m := Outcome) (invParFrame cfg window) =
        .ok (frames.map fun fr => (partOf window (ifftBuf cfg Planner.new fr), .ok ())) := by
  intro frames
  induction frames with
  | nil => intro _; rfl
  | cons x xs ih =>
    intro h
    rw [List.mapM_cons, invParFrame_eq cfg window x (h x (by simp)).1 (h x (by simp)).2, Outcome.bind_ok,
      ih (fun fr hfr => h fr (by simp [hfr])), Outcome.bind_ok]
    rfl

theorem istft_parallel_aux {T : Type} [Flt T] (cfg : Cfg) (frames : List (List (Cx T))) (window : List T)
    (hop : ℕ) (output : List T) (hh : 0 < hop)
    (hf : ∀ fr ∈ frames, window.length ≤ fr.length ∧ fr.length ≠ 0 ∧ (cfg.std = true ∨ ∃ k, fr.length = 2 ^ k)) :
    ∃ out, istftParallel cfg frames window hop output = .ok (out, .ok ()) ∧ out.length = output.length ∧
      ∀ p, p < output.length → out.getD p Flt.zero =
        if Flt.lt (Flt.lit 1 8) (normAt window hop frames.length p) then
          olaAt window hop (frames.map (ifftBuf cfg Planner.new)) (output.getD p Flt.zero) p /.
            normAt window hop frames.length p
        else Flt.zero := by
  let ys := frames.map (ifftBuf cfg Planner.new)
  have hyl : ys.length = frames.length := by simp [ys]
  have hm := mapM_invPar cfg window frames (fun fr h => ⟨(hf fr h).1, by
    obtain ⟨-, h2, h3⟩ := hf fr h; exact fftRes_ok (by omega) h3⟩)
  have hc := combine_eq window hop output.length ys (fun p => output.getD p Flt.zero) ys.length 0 (by omega)
  have e : istftParallel cfg frames window hop output = .ok (tab output.length (fun p =>
      if Flt.lt (Flt.lit 1 8) (normAt window hop frames.length p) then
          olaAt window hop ys (output.getD p Flt.zero) p /. normAt window hop frames.length p
        else Flt.zero), .ok ()) := by
    unfold istftParallel
    rw [if_neg (by omega), hm, Outcome.bind_ok]
    have hfind : (frames.map fun fr => (partOf window (ifftBuf cfg Planner.new fr), (Except.ok () : Res))).find?
        (fun p => isErr p.2) = none := by
      rw [List.find?_eq_none]
      intro x hx
      obtain ⟨fr, -, rfl⟩ := List.mem_map.mp hx
      simp [isErr]
    rw [hfind]
    simp only
    have hp : (frames.map fun fr => (partOf window (ifftBuf cfg Planner.new fr), (Except.ok () : Res))).map Prod.fst =
        (ys.drop 0).map (partOf window) := by simp [ys]
    have ho : output = tab output.length (fun p => olaK window hop ys 0 (output.getD p Flt.zero) p) :=
      eq_tab_getD output Flt.zero
    have hz : List.replicate output.length (Flt.zero : T) = tab output.length (fun p => normAt window hop 0 p) :=
      replicate_eq_tab _ _
    rw [hp, hz]
    conv_lhs => rw [ho]
    simp only [tab_length]
    rw [hc, Outcome.bind_ok]
    simp only [tab_length]
    rw [forRange_eq (fun k => tab output.length (fun p => if p < k then
      (if Flt.lt (Flt.lit 1 8) (normAt window hop ys.length p) then
          olaK window hop ys ys.length (output.getD p Flt.zero) p /. normAt window hop ys.length p
        else Flt.zero) else olaK window hop ys ys.length (output.getD p Flt.zero) p)) (Nat.zero_le _)]
    · rw [Outcome.bind_ok]
      congr 2
      apply tab_congr
      intro p hp
      rw [if_pos hp, hyl]
      simp only [olaAt_eq, hyl]
    · apply tab_congr
      intro p _; simp
    · intro k _ hk
      rw [rd_tab hk, Outcome.bind_ok, rd_tab hk, Outcome.bind_ok, wr_tab hk]
      congr 1
      apply tab_congr
      intro p _
      by_cases hp : p = k
      · subst hp; simp
      · rw [if_neg hp]
        by_cases h : p < k
        · rw [if_pos h, if_pos (show p < k + 1 by omega)]
        · rw [if_neg h, if_neg (show ¬ p < k + 1 by omega)]
  refine ⟨_, e, by simp, ?_⟩
  intro p hp
  rw [tab_getD hp]

/-- C37a. `inverse_parallel` (any schedule, any arithmetic), bit for bit: per position the overlap-add of
the frames in index order, divided by the accumulated squared window where that exceeds 1e-8, and zero
elsewhere. Frames may be longer than the window; the extra samples are ignored. -/
theorem istft_parallel_value {T : Type} [Flt T] (cfg : Cfg) (frames : List (List (Cx T))) (window : List T)
    (hop : ℕ) (output : List T) (hh : 0 < hop)
    (hf : ∀ fr ∈ frames, window.length ≤ fr.length ∧ fr.length ≠ 0 ∧ (cfg.std = true ∨ ∃ k, fr.length = 2 ^ k)) :
    ∃ ys out, List.Forall₂ (fun fr y => ∃ q, ifft cfg Planner.new fr = .ok (q, y, .ok ())) frames ys ∧
      istftParallel cfg frames window hop output = .ok (out, .ok ()) ∧ out.length = output.length ∧
      ∀ p, p < output.length → out.getD p Flt.zero =
        if Flt.lt (Flt.lit 1 8) (normAt window hop frames.length p) then
          olaAt window hop ys (output.getD p Flt.zero) p /. normAt window hop frames.length p
        else Flt.zero := by
  obtain ⟨out, h1, h2, h3⟩ := istft_parallel_aux cfg frames window hop output hh hf
  refine ⟨_, out, ?_, h1, h2, h3⟩
  rw [List.forall₂_map_right_iff, List.forall₂_same]
  intro fr hfr
  obtain ⟨-, h4, h5⟩ := hf fr hfr
  obtain ⟨q, e, -⟩ := (ifft_opOk cfg).run Planner.new fr (inv_new cfg)
  rw [fftRes_ok (by omega) h5] at e
  exact ⟨q, e⟩

/-- C37b. Where the accumulated squared window exceeds 1e-8, `inverse_parallel` returns bit for bit what
`istft` with a fresh transformer returns into the same buffer; elsewhere it returns 0. -/
theorem istft_parallel_eq_batch {T : Type} [Flt T] (cfg : Cfg) (frames : List (List (Cx T))) (window : List T)
    (hop : ℕ) (output scratch : List T) (hh : 0 < hop) (hs : scratch.length = output.length)
    (hw : window ≠ []) (hn : cfg.std = true ∨ ∃ k, window.length = 2 ^ k)
    (hf : ∀ fr ∈ frames, fr.length = window.length) :
    ∃ p' ys out sc par, istft (ifft cfg) Planner.new frames window hop output scratch = .ok (p', ys, out, sc, .ok ()) ∧
      istftParallel cfg frames window hop output = .ok (par, .ok ()) ∧ par.length = output.length ∧
      ∀ p, p < output.length → par.getD p Flt.zero =
        if Flt.lt (Flt.lit 1 8) (normAt window hop frames.length p) then out.getD p Flt.zero else Flt.zero := by
  have hwl : window.length ≠ 0 := fun h => hw (List.length_eq_zero_iff.mp h)
  obtain ⟨p', e⟩ := runAll_ifft_fresh cfg window.length (fftRes_ok (by omega) hn) frames Planner.new hf .new
  obtain ⟨out, sc, e1, -, -, h1⟩ := istft_bit_exact (ifft cfg) (keeps_ifft_reach cfg) Planner.new p' .new frames _ window
    hop output scratch hh hs hf e
  obtain ⟨par, e2, hl, h2⟩ := istft_parallel_aux cfg frames window hop output hh
    (fun fr h => ⟨by rw [hf fr h], by rw [hf fr h]; exact hwl, by rw [hf fr h]; exact hn⟩)
  refine ⟨p', _, out, sc, par, e1, e2, hl, ?_⟩
  intro p hp
  rw [h2 p hp, (h1 p hp).2]
  by_cases hlt : Flt.lt (Flt.lit 1 8) (normAt window hop frames.length p) = true
  · rw [if_pos hlt, if_pos hlt, divNorm, if_pos hlt]
  · rw [if_neg hlt, if_neg hlt]

/-- C37d. Errors of `inverse_parallel`: a zero hop is refused, and if a frame is empty (the others being long enough) the
call returns `EmptyInput`. In both cases the output buffer is untouched. -/
theorem istft_parallel_error {T : Type} [Flt T] (cfg : Cfg) (hstd : cfg.std = true) (frames : List (List (Cx T)))
    (window : List T) (hop : ℕ) (output : List T) :
    (hop = 0 → istftParallel cfg frames window hop output = .ok (output, .error .InvalidHopSize)) ∧
    (0 < hop → [] ∈ frames → (∀ fr ∈ frames, fr = [] ∨ window.length ≤ fr.length) →
      istftParallel cfg frames window hop output = .ok (output, .error .EmptyInput)) := by
  constructor
  · intro h0
    unfold istftParallel
    rw [if_pos h0]
  · intro hh hmem hf
    let g : List (Cx T) → (List T × List T) × Res := fun fr =>
      if fr = [] then (([], []), .error .EmptyInput) else (partOf window (ifftBuf cfg Planner.new fr), .ok ())
    have hm : ∀ frs : List (List (Cx T)), (∀ fr ∈ frs, fr = [] ∨ window.length ≤ fr.length) →
        frs.mapM (m := Outcome) (invParFrame cfg window) = .ok (frs.map g) := by
      intro frs
      induction frs with
      | nil => intro _; rfl
      | cons x xs ih =>
        intro h
        have hx : invParFrame cfg window x = .ok (g x) := by
          by_cases hx0 : x = []
          · obtain ⟨q, e, -⟩ := (ifft_opOk cfg).run Planner.new x (inv_new cfg)
            rw [show fftRes cfg x.length = .error .EmptyInput by rw [hx0]; exact fftRes_zero cfg] at e
            unfold invParFrame
            rw [e, Outcome.bind_ok]
            simp only [g, if_pos hx0]
          · have hl : x.length ≠ 0 := fun h => hx0 (List.length_eq_zero_iff.mp h)
            rw [invParFrame_eq cfg window x ((h x (by simp)).resolve_left hx0) (fftRes_ok (by omega) (Or.inl hstd))]
            simp only [g, if_neg hx0]
        rw [List.mapM_cons, hx, Outcome.bind_ok, ih (fun fr hfr => h fr (by simp [hfr])), Outcome.bind_ok]
        rfl
    have hfind : ∃ a, (frames.map g).find? (fun p => isErr p.2) = some (a, .error .EmptyInput) := by
      cases hq : (frames.map g).find? (fun p => isErr p.2) with
      | none =>
        rw [List.find?_eq_none] at hq
        exact absurd (hq (g []) (List.mem_map.mpr ⟨_, hmem, rfl⟩)) (by simp [g, isErr])
      | some v =>
        have h1 := List.find?_some hq
        obtain ⟨fr, -, rfl⟩ := List.mem_map.mp (List.mem_of_find?_eq_some hq)
        by_cases h0 : fr = []
        · exact ⟨([], []), by simp only [g, if_pos h0]⟩
        · simp [g, h0, isErr] at h1
    obtain ⟨a, hfind⟩ := hfind
    unfold istftParallel
    rw [if_neg (by omega), hm frames hf, Outcome.bind_ok, hfind]

example [Flt ℝ] : istftParallel (T := ℝ) ⟨true, .f32, false, 4, false⟩
    [[⟨1, 0⟩, ⟨2, 0⟩], []] [1, 1] 1 [5, 6, 7] = .ok ([5, 6, 7], .error .EmptyInput) :=
  (istft_parallel_error ⟨true, .f32, false, 4, false⟩ rfl _ _ 1 _).2 (by norm_num) (by simp) (by simp)

/-- C37c. `inverse_parallel` does not check frame lengths: a (transformable) frame shorter than the window
makes it panic, where `istft` returns `MismatchedLengths`. -/
theorem istft_parallel_short_frame {T : Type} [Flt T] (cfg : Cfg) (frame : List (Cx T)) (rest : List (List (Cx T)))
    (window : List T) (hop : ℕ) (output : List T) (hh : 0 < hop) (hl : frame.length < window.length)
    (h0 : frame.length ≠ 0) (hn : cfg.std = true ∨ ∃ k, frame.length = 2 ^ k) :
    istftParallel cfg (frame :: rest) window hop output = .panic ∧
    ∀ (p : Planner T) (scratch : List T), scratch.length = output.length →
      istft (ifft cfg) p (frame :: rest) window hop output scratch =
        .ok (p, frame :: rest, output, List.replicate output.length Flt.zero, .error .MismatchedLengths) := by
  constructor
  · have : invParFrame cfg window frame = .panic := by
      obtain ⟨q, e, -, hy, -⟩ := (ifft_opOk cfg).run Planner.new frame (inv_new cfg)
      unfold invParFrame
      rw [e, fftRes_ok (by omega) hn, Outcome.bind_ok]
      simp only
      have hmain : ∀ c, forRange 0 (frame.length + 1 + c)
          (List.replicate window.length (Flt.zero : T), List.replicate window.length (Flt.zero : T)) (fun i st => do
          let c ← rd (ifftBuf cfg Planner.new frame) i
          let w ← rd window i
          let a ← wr st.1 i (c.re *. w)
          let n ← wr st.2 i (w *. w)
          pure (a, n)) = .panic := by
        intro c
        induction c with
        | zero =>
          rw [Nat.add_zero, forRange_succ_last (Nat.zero_le _)]
          obtain ⟨v, ev, -⟩ := forRange_ok (f := fun i (st : List T × List T) => do
              let c ← rd (ifftBuf cfg Planner.new frame) i
              let w ← rd window i
              let a ← wr st.1 i (c.re *. w)
              let n ← wr st.2 i (w *. w)
              pure (a, n)) (fun _ (st : List T × List T) => st.1.length = window.length ∧ st.2.length = window.length)
              (lo := 0) (hi := frame.length)
              (s := (List.replicate window.length (Flt.zero : T), List.replicate window.length (Flt.zero : T)))
              (Nat.zero_le _) (by simp) (by
                intro i st _ hi hst
                refine ⟨(st.1.set i (((ifftBuf cfg Planner.new frame).getD i Cx.zero).re *. window.getD i Flt.zero),
                  st.2.set i (window.getD i Flt.zero *. window.getD i Flt.zero)), ?_, by simpa using hst⟩
                rw [rd_getD Cx.zero (by omega), Outcome.bind_ok, rd_getD Flt.zero (by omega), Outcome.bind_ok,
                  wr_ok (by omega), Outcome.bind_ok, wr_ok (by omega), Outcome.bind_ok]
                rfl)
          rw [ev, Outcome.bind_ok]
          have : rd (ifftBuf cfg Planner.new frame) frame.length = .panic := by simp [rd, hy]
          rw [this]; rfl
        | succ c ih =>
          rw [show frame.length + 1 + (c + 1) = frame.length + 1 + c + 1 by omega, forRange_succ_last (by omega), ih]
          rfl
      obtain ⟨c, hc⟩ : ∃ c, window.length = frame.length + 1 + c := ⟨window.length - (frame.length + 1), by omega⟩
      have := hmain c
      rw [← hc] at this
      rw [this]; rfl
    unfold istftParallel
    rw [if_neg (by omega), List.mapM_cons, this]
    rfl
  · intro p scratch hs
    unfold istft
    rw [if_neg (by omega), if_neg (by omega), List.length_cons]
    simp only [loopRes_succ]
    unfold istftStep
    simp only [rd, List.length_cons, List.getElem?_cons_zero]
    rw [Outcome.bind_ok, if_pos (by omega)]
    simp only [Outcome.bind_ok]
    congr 4
    rw [← hs]
    rw [List.map_const']

/-- C37 is not vacuous. -/
example [Flt ℝ] (cfg : Cfg) (a b c d : Cx ℝ) : ∃ p' ys out sc par,
    istft (ifft cfg) Planner.new [[a, b], [c, d]] ([1, 1] : List ℝ) 1 [0, 0, 0] [0, 0, 0] =
      .ok (p', ys, out, sc, .ok ()) ∧
    istftParallel cfg [[a, b], [c, d]] ([1, 1] : List ℝ) 1 [0, 0, 0] = .ok (par, .ok ()) := by
  obtain ⟨p', ys, out, sc, par, e1, e2, -⟩ := istft_parallel_eq_batch cfg [[a, b], [c, d]] ([1, 1] : List ℝ) 1
    [0, 0, 0] [0, 0, 0] (by norm_num) rfl (by simp) (Or.inr ⟨1, rfl⟩) (by simp)
  exact ⟨p', ys, out, sc, par, e1, e2⟩

end Kofft.Props
