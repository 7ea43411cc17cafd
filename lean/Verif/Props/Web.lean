import Verif.Spec.Web
import Verif.Props.Plan
import Verif.Props.StftMag
/-
C66: the streaming spectrogram of the web module.
-/
namespace Kofft.Props
open Kofft.Web

section generic
variable {T : Type} [Flt T]

/-- The planner only ever saw 1024-point transforms. -/
abbrev WebReach (cfg : Cfg) (p : Planner T) : Prop :=
  Spec.ReachVia cfg (fun m => Spec.workSize m ≤ Spec.workSize 1024) p

theorem web_backend (cfg : Cfg) (t : Target) (p : Planner T) (hp : WebReach cfg p) (x : List (Cx T))
    (hx : x.length = 1024) :
    ∃ p' q y, (newFftImpl t).fft cfg p x = .ok (p', y, .ok ()) ∧ WebReach cfg p' ∧
      fft cfg Planner.new x = .ok (q, y, .ok ()) ∧ y.length = 1024 := by
  have hpow : isPow2 x.length = true := by rw [hx]; decide
  have hr : fftRes cfg x.length = .ok () := fftRes_pow2 cfg hpow
  obtain ⟨p', e, h1, hl, -⟩ := (fft_opOk cfg).run p x (reachVia_inv hp)
  obtain ⟨q, e', h1', hl', -⟩ := (fft_opOk cfg).run (Planner.new : Planner T) x (inv_new cfg)
  have hc : Compat cfg p x.length := by rw [hx]; exact compat_of_reach hp
  rw [hr, fftBuf_fresh cfg p x (reachVia_inv hp) hr hc] at e
  rw [hr, fftBuf_fresh cfg _ x (inv_new cfg) hr (compat_new cfg _)] at e'
  rw [fftBuf_fresh cfg _ x (inv_new cfg) hr (compat_new cfg _), hx] at hl'
  generalize newFftImpl t = b
  have hs : stockhamFft cfg Planner.new x = fft cfg Planner.new x :=
    stockhamFft_eq cfg _ x (inv_new cfg) (by omega)
  match b with
  | .scalar =>
    exact ⟨p', q, _, e, .fft hp (by rw [hx]) e, e', hl'⟩
  | .simd true =>
    refine ⟨p, q, _, ?_, hp, e', hl'⟩
    show (do let r ← stockhamFft cfg Planner.new x; pure (p, r.2.1, r.2.2)) = _
    rw [hs, e']; rfl
  | .simd false =>
    refine ⟨p, q, _, ?_, hp, e', hl'⟩
    show (do
      let r ← if isPow2 x.length then stockhamFft cfg Planner.new x else Kofft.fft cfg Planner.new x
      pure (p, r.2.1, r.2.2)) = _
    rw [hs, ite_self, e']; rfl

/-- The windowed frame of row `i`. -/
def webFrame (all : List T) (i : Nat) : List (Cx T) :=
  (List.range 1024).map fun j => (⟨all.getD (512 * i + j) Flt.zero *. hannAt 1024 j, Flt.zero⟩ : Cx T)

theorem webFrame_eq (all : List T) (r : Nat) (h : Spec.Web.ready all.length r) :
    copyPrefix (List.zipWith (fun s w => (⟨s *. w, Flt.zero⟩ : Cx T)) (all.drop (512 * r)) (hann winLen))
      (List.replicate winLen Cx.zero) = webFrame all r := by
  unfold Spec.Web.ready at h
  have hl : (List.zipWith (fun s w => (⟨s *. w, Flt.zero⟩ : Cx T)) (all.drop (512 * r)) (hann winLen)).length = 1024 := by
    rw [List.length_zipWith, hann_length, List.length_drop]
    show min _ 1024 = 1024
    omega
  rw [copyPrefix_all _ _ (by rw [hl, List.length_replicate]; rfl)]
  apply List.ext_getElem
  · rw [hl]; simp [webFrame]
  · intro j h1 h2
    rw [hl] at h1
    simp only [List.getElem_zipWith, webFrame, List.getElem_map, List.getElem_range, List.getElem_drop, hann]
    rw [List.getD_eq_getElem _ _ (by omega)]
    rfl

theorem webFrame_append (all s : List T) (i : Nat) (h : Spec.Web.ready all.length i) :
    webFrame (all ++ s) i = webFrame all i := by
  unfold Spec.Web.ready at h
  unfold webFrame
  apply List.map_congr_left
  intro j hj
  rw [List.mem_range] at hj
  rw [List.getD_append _ _ _ _ (by omega)]

theorem mags_append (cfg : Cfg) (all s : List T) (i : Nat) (h : Spec.Web.ready all.length i) :
    Spec.Web.mags cfg (all ++ s) i = Spec.Web.mags cfg all i := by
  have := webFrame_append all s i h
  unfold Spec.Web.mags
  unfold webFrame at this
  rw [this]

theorem mags_of_fft (cfg : Cfg) (all : List T) (i : Nat) {q y r} (h : fft cfg Planner.new (webFrame all i) = .ok (q, y, r)) :
    Spec.Web.mags cfg all i = (y.take 512).map Spec.Web.mag := by
  unfold Spec.Web.mags
  unfold webFrame at h
  rw [h]

theorem mags_length (cfg : Cfg) (all : List T) (i : Nat) : (Spec.Web.mags cfg all i).length = 512 := by
  obtain ⟨-, q, y, -, -, e, hl⟩ := web_backend cfg ⟨"", false, false, false, false, false, false, false, false⟩
    (Planner.new : Planner T) .new (webFrame all i) (by simp [webFrame])
  rw [mags_of_fft cfg all i e]
  simp [hl]

/-- The pixel loop. -/
theorem pixel_fold (ext : Colormap → T → Rgb) (cmap : Colormap) (l : List (Cx T)) (before : List T) (out : List Nat) :
    l.foldl (pixelStep ext cmap) (Spec.Web.peak before, out) =
      (Spec.Web.peak (before ++ l.map Spec.Web.mag), out ++ ((List.range l.length).map fun k =>
        let m := (l.map Spec.Web.mag).getD k Flt.zero
        let top := Spec.Web.peak (before ++ (l.map Spec.Web.mag).take (k + 1))
        let c := colorFromMagnitude8 ext m top (-. Flt.lit 80 0) cmap
        [c.r, c.g, c.b, 255]).flatten) := by
  induction l generalizing before out with
  | nil => simp
  | cons c l ih =>
    have hstep : pixelStep ext cmap (Spec.Web.peak before, out) c =
        (Spec.Web.peak (before ++ [Spec.Web.mag c]), out ++
          (let x := colorFromMagnitude8 ext (Spec.Web.mag c) (Spec.Web.peak (before ++ [Spec.Web.mag c]))
            (-. Flt.lit 80 0) cmap
           [x.r, x.g, x.b, 255])) := by
      unfold Spec.Web.peak
      rw [List.foldl_append]
      rfl
    rw [List.foldl_cons, hstep, ih]
    rw [List.map_cons, List.append_assoc, List.length_cons, List.range_succ_eq_map, List.map_cons, List.flatten_cons,
      List.map_map]
    simp only [List.singleton_append, List.append_assoc, List.cons_append, List.nil_append]
    congr 2

/-- What the state is after the calls `g` since the last reset. -/
structure WebInv (cfg : Cfg) (g : List (Op T)) (st : State T) : Prop where
  total : (Spec.Web.progress g).1 = (Spec.Web.samplesOf g).length
  room : ∀ i, i < Spec.Web.rowsOf g → Spec.Web.ready (Spec.Web.samplesOf g).length i
  buf : st.buf = (Spec.Web.samplesOf g).drop (512 * Spec.Web.rowsOf g)
  planner : WebReach cfg st.planner
  window : st.window = hann winLen
  cmap : st.cmap = Spec.Web.cmapOf g
  maxMag : st.maxMag = Spec.Web.peak
    (((List.range (Spec.Web.rowsOf g)).map (Spec.Web.mags cfg (Spec.Web.samplesOf g))).flatten)

theorem webInv_new (cfg : Cfg) : WebInv cfg [] (State.new : State T) where
  total := by simp [Spec.Web.progress, Spec.Web.samplesOf]
  room := fun i hi => absurd hi (by simp [Spec.Web.rowsOf, Spec.Web.progress])
  buf := by rw [State.new]; simp [Spec.Web.samplesOf]
  planner := .new
  window := by rw [State.new]
  cmap := by rw [State.new]; simp [Spec.Web.cmapOf]
  maxMag := by rw [State.new]; simp [Spec.Web.rowsOf, Spec.Web.progress, Spec.Web.peak]

omit [Flt T] in
theorem samplesOf_frame (g : List (Op T)) (s : List T) :
    Spec.Web.samplesOf (g ++ [.frame s]) = Spec.Web.samplesOf g ++ s := by
  simp [Spec.Web.samplesOf]

omit [Flt T] in
theorem samplesOf_cmap (g : List (Op T)) (n : String) :
    Spec.Web.samplesOf (g ++ [.colormap n]) = Spec.Web.samplesOf g := by
  simp [Spec.Web.samplesOf]

omit [Flt T] in
theorem progress_frame (g : List (Op T)) (s : List T) : Spec.Web.progress (g ++ [.frame s]) =
    ((Spec.Web.progress g).1 + s.length, if Spec.Web.ready ((Spec.Web.progress g).1 + s.length) (Spec.Web.progress g).2
      then (Spec.Web.progress g).2 + 1 else (Spec.Web.progress g).2) := by
  unfold Spec.Web.progress; rw [List.foldl_append]; rfl

omit [Flt T] in
theorem progress_cmap (g : List (Op T)) (n : String) : Spec.Web.progress (g ++ [.colormap n]) = Spec.Web.progress g := by
  unfold Spec.Web.progress; rw [List.foldl_append]; rfl

theorem webInv_cmap (cfg : Cfg) (g : List (Op T)) (st : State T) (h : WebInv cfg g st) (n : String) :
    WebInv cfg (g ++ [.colormap n]) { st with cmap := Colormap.parse n } := by
  have hr : Spec.Web.rowsOf (g ++ [.colormap n]) = Spec.Web.rowsOf g := by rw [Spec.Web.rowsOf, progress_cmap]; rfl
  constructor
  · rw [progress_cmap, samplesOf_cmap]; exact h.total
  · rw [hr, samplesOf_cmap]; exact h.room
  · rw [hr, samplesOf_cmap]; exact h.buf
  · exact h.planner
  · exact h.window
  · simp [Spec.Web.cmapOf]
  · rw [hr, samplesOf_cmap]; exact h.maxMag

omit [Flt T] in
theorem cmapOf_frame (g : List (Op T)) (s : List T) : Spec.Web.cmapOf (g ++ [.frame s]) = Spec.Web.cmapOf g := by
  simp [Spec.Web.cmapOf]

theorem webInv_frame (cfg : Cfg) (t : Target) (ext : Colormap → T → Rgb) (g : List (Op T)) (st : State T)
    (h : WebInv cfg g st) (s : List T) :
    ∃ st', st.computeFrame cfg t ext s = .ok (st',
        if Spec.Web.ready (Spec.Web.samplesOf g ++ s).length (Spec.Web.rowsOf g) then
          Spec.Web.row cfg ext (Spec.Web.cmapOf g) (Spec.Web.samplesOf g ++ s) (Spec.Web.rowsOf g) else []) ∧
      WebInv cfg (g ++ [.frame s]) st' := by
  obtain ⟨all, hall⟩ : ∃ all, all = Spec.Web.samplesOf g := ⟨_, rfl⟩
  obtain ⟨r, hr⟩ : ∃ r, r = Spec.Web.rowsOf g := ⟨_, rfl⟩
  have hroom := h.room
  have hbuf := h.buf
  have hmax := h.maxMag
  rw [← hall, ← hr] at hroom hbuf hmax
  have hr1 : (Spec.Web.progress g).2 = r := hr.symm
  have ht1 : (Spec.Web.progress g).1 = all.length := by rw [h.total, hall]
  have hdrop : 512 * r ≤ all.length := by
    by_cases h0 : r = 0
    · subst h0; simp
    · have := hroom (r - 1) (by omega)
      unfold Spec.Web.ready at this
      omega
  have hbuf2 : st.buf ++ s = (all ++ s).drop (512 * r) := by
    rw [hbuf, List.drop_append_of_le_length hdrop]
  have hlen : (st.buf ++ s).length = (all ++ s).length - 512 * r := by rw [hbuf2, List.length_drop]
  rw [← hall, ← hr]
  have hrows : ∀ b, (if Spec.Web.ready (all ++ s).length r then b = r + 1 else b = r) →
      Spec.Web.rowsOf (g ++ [.frame s]) = b := by
    intro b hb
    rw [Spec.Web.rowsOf, progress_frame, hr1, ht1, ← List.length_append]
    by_cases hc : Spec.Web.ready (all ++ s).length r
    · rw [if_pos hc] at hb; rw [if_pos hc, hb]
    · rw [if_neg hc] at hb; rw [if_neg hc, hb]
  have htot : (Spec.Web.progress (g ++ [.frame s])).1 = (Spec.Web.samplesOf (g ++ [.frame s])).length := by
    rw [progress_frame, ht1, samplesOf_frame, hall, List.length_append]
  have hkeep : ∀ i, i < r → Spec.Web.ready (all ++ s).length i := by
    intro i hi
    have := hroom i hi
    unfold Spec.Web.ready at *
    rw [List.length_append]; omega
  have hmags : (List.range r).map (Spec.Web.mags cfg (all ++ s)) = (List.range r).map (Spec.Web.mags cfg all) := by
    apply List.map_congr_left
    intro i hi
    exact mags_append cfg all s i (hroom i (List.mem_range.mp hi))
  by_cases hc : Spec.Web.ready (all ++ s).length r
  · have hrw := hrows (r + 1) (by rw [if_pos hc])
    have hc' := hc
    unfold Spec.Web.ready at hc'
    obtain ⟨p', q, y, e1, e2, e3, e4⟩ := web_backend cfg t st.planner h.planner (webFrame (all ++ s) r)
      (by simp [webFrame])
    have hm := mags_of_fft cfg (all ++ s) r e3
    rw [if_pos hc]
    have hcomp : st.computeFrame cfg t ext s = .ok
        ({ st with buf := (st.buf ++ s).drop hop, planner := p',
                   maxMag := ((y.take 512).foldl (pixelStep ext st.cmap) (st.maxMag, [])).1 },
          ((y.take 512).foldl (pixelStep ext st.cmap) (st.maxMag, [])).2) := by
      unfold State.computeFrame
      simp only []
      rw [if_neg (by rw [hlen]; show ¬ _ < 1024; omega), h.window, hbuf2, webFrame_eq _ _ hc, e1, Outcome.bind_ok]
      simp only []
      rw [if_pos ⟨by rw [e4]; decide, by rw [List.length_drop]; show 512 ≤ _; omega⟩]
      rfl
    rw [hmax, ← hmags, pixel_fold] at hcomp
    have hl512 : (y.take 512).length = 512 := by rw [List.length_take, e4]; norm_num
    simp only [List.nil_append] at hcomp
    rw [hl512, ← hm, h.cmap] at hcomp
    refine ⟨_, hcomp, ?_⟩
    · have hs : Spec.Web.samplesOf (g ++ [.frame s]) = all ++ s := by rw [samplesOf_frame, hall]
      constructor
      · exact htot
      · rw [hrw, hs]
        intro i hi
        rcases Nat.lt_succ_iff_lt_or_eq.mp hi with hi | rfl
        · exact hkeep i hi
        · exact hc
      · rw [hrw, hs, hbuf2, List.drop_drop]
        rfl
      · exact e2
      · exact h.window
      · rw [cmapOf_frame]
      · rw [hrw, hs, List.range_succ, List.map_append, List.flatten_append]
        simp
  · have hrw := hrows r (by rw [if_neg hc])
    rw [if_neg hc]
    unfold Spec.Web.ready at hc
    have hcomp : st.computeFrame cfg t ext s = .ok ({ st with buf := st.buf ++ s }, []) := by
      unfold State.computeFrame
      simp only []
      rw [if_pos (by rw [hlen]; show _ < 1024; omega)]
    refine ⟨_, hcomp, ?_⟩
    have hs : Spec.Web.samplesOf (g ++ [.frame s]) = all ++ s := by rw [samplesOf_frame, hall]
    constructor
    · exact htot
    · rw [hrw, hs]; exact hkeep
    · rw [hrw, hs]; exact hbuf2
    · exact h.planner
    · exact h.window
    · rw [cmapOf_frame]; exact h.cmap
    · rw [hrw, hs, hmags]; exact hmax

omit [Flt T] in
theorem sinceReset_reset (h : List (Op T)) : Spec.Web.sinceReset (h ++ [.reset]) = [] := by
  simp [Spec.Web.sinceReset]

omit [Flt T] in
theorem sinceReset_frame (h : List (Op T)) (s : List T) :
    Spec.Web.sinceReset (h ++ [.frame s]) = Spec.Web.sinceReset h ++ [.frame s] := by
  simp [Spec.Web.sinceReset]

omit [Flt T] in
theorem sinceReset_cmap (h : List (Op T)) (n : String) :
    Spec.Web.sinceReset (h ++ [.colormap n]) = Spec.Web.sinceReset h ++ [.colormap n] := by
  simp [Spec.Web.sinceReset]

theorem run_append (cfg : Cfg) (t : Target) (ext : Colormap → T → Rgb) (st : State T) (h k : List (Op T)) :
    st.run cfg t ext (h ++ k) = (st.run cfg t ext h >>= fun v =>
      v.1.run cfg t ext k >>= fun w => .ok (w.1, v.2 ++ w.2)) := by
  induction h generalizing st with
  | nil =>
    simp only [List.nil_append, State.run, Outcome.bind_ok]
    cases st.run cfg t ext k <;> rfl
  | cons op h ih =>
    simp only [List.cons_append, State.run]
    cases e : st.step cfg t ext op with
    | ok v =>
      simp only [Outcome.bind_ok, ih]
      cases e2 : v.1.run cfg t ext h with
      | ok w =>
        simp only [Outcome.bind_ok]
        cases e3 : w.1.run cfg t ext k <;> rfl
      | panic => rfl
      | hang => rfl
    | panic => rfl
    | hang => rfl

theorem run_frame_last (cfg : Cfg) (t : Target) (ext : Colormap → T → Rgb) (cs : List (List T)) (c : List T)
    {st st' : State T} {outs : List (List Nat)} {o : List Nat}
    (e : State.run cfg t ext State.new (cs.map Op.frame) = .ok (st, outs))
    (e' : st.computeFrame cfg t ext c = .ok (st', o)) :
    State.run cfg t ext State.new ((cs ++ [c]).map Op.frame) = .ok (st', outs ++ [o]) := by
  rw [List.map_append, run_append, e, Outcome.bind_ok]
  simp only [List.map_cons, List.map_nil, State.run, State.step, e', Outcome.bind_ok]

theorem web_run_inv (cfg : Cfg) (t : Target) (ext : Colormap → T → Rgb) (h : List (Op T)) :
    ∃ st outs, State.run cfg t ext State.new h = .ok (st, outs) ∧ outs.length = h.length ∧
      WebInv cfg (Spec.Web.sinceReset h) st := by
  induction h using List.reverseRecOn with
  | nil => exact ⟨_, _, rfl, rfl, webInv_new cfg⟩
  | append_singleton h op ih =>
    obtain ⟨st, outs, e, hl, hi⟩ := ih
    have key : ∃ st' o, st.step cfg t ext op = .ok (st', o) ∧ WebInv cfg (Spec.Web.sinceReset (h ++ [op])) st' := by
      cases op with
      | frame s =>
        obtain ⟨st', e', hi'⟩ := webInv_frame cfg t ext _ st hi s
        exact ⟨st', _, e', by rw [sinceReset_frame]; exact hi'⟩
      | colormap n => exact ⟨_, _, rfl, by rw [sinceReset_cmap]; exact webInv_cmap cfg _ st hi n⟩
      | reset => exact ⟨_, _, rfl, by rw [sinceReset_reset]; exact webInv_new cfg⟩
    obtain ⟨st', o, e', hi'⟩ := key
    refine ⟨st', outs ++ [o], ?_, by simp [hl], hi'⟩
    rw [run_append, e, Outcome.bind_ok]
    simp only [State.run, e', Outcome.bind_ok]

/-- C66a. After any sequence `h` of calls, `compute_frame(s)` does not panic and returns nothing if the samples
received since the last reset do not yet complete row `r` (`r` = rows returned since then), and otherwise row `r`:
a function of the samples received since the last reset, of `r`, and of the colour map in force. It does not depend
on how the samples were split over the calls, on colour maps in force before, or on anything before the reset. -/
theorem web_compute_frame (cfg : Cfg) (t : Target) (ext : Colormap → T → Rgb) (h : List (Op T)) (s : List T) :
    ∃ st outs st' out, State.run cfg t ext State.new h = .ok (st, outs) ∧ st.computeFrame cfg t ext s = .ok (st', out) ∧
      let g := Spec.Web.sinceReset h
      let all := Spec.Web.samplesOf g ++ s
      let r := Spec.Web.rowsOf g
      out = if 512 * r + 1024 ≤ all.length then Spec.Web.row cfg ext (Spec.Web.cmapOf g) all r else [] := by
  obtain ⟨st, outs, e, -, hi⟩ := web_run_inv cfg t ext h
  obtain ⟨st', e', -⟩ := webInv_frame cfg t ext _ st hi s
  exact ⟨st, outs, st', _, e, e', rfl⟩

/-- C66a. A returned row is 512 RGBA pixels, all opaque. -/
theorem web_row_shape (cfg : Cfg) (ext : Colormap → T → Rgb) (cmap : Colormap) (all : List T) (r : Nat) :
    (Spec.Web.row cfg ext cmap all r).length = 2048 ∧
    ∀ k, k < 512 → (Spec.Web.row cfg ext cmap all r)[4 * k + 3]? = some 255 := by
  have gen : ∀ (l : List Nat) (f : Nat → Rgb),
      ((l.map fun k => [(f k).r, (f k).g, (f k).b, 255]).flatten).length = 4 * l.length ∧
      ∀ k, k < l.length → ((l.map fun k => [(f k).r, (f k).g, (f k).b, 255]).flatten)[4 * k + 3]? = some 255 := by
    intro l f
    induction l with
    | nil => exact ⟨rfl, fun k hk => absurd hk (Nat.not_lt_zero _)⟩
    | cons a l ih =>
      constructor
      · simp only [List.map_cons, List.flatten_cons, List.length_append, ih.1, List.length_cons, List.length_nil]; omega
      · intro k hk
        cases k with
        | zero => rfl
        | succ k =>
          have := ih.2 k (by simpa using hk)
          simp only [List.map_cons, List.flatten_cons, List.cons_append, List.nil_append]
          rw [show 4 * (k + 1) + 3 = (4 * k + 3) + 4 by ring]
          simpa using this
  have := gen (List.range 512) (fun k => colorFromMagnitude8 ext ((Spec.Web.mags cfg all r).getD k Flt.zero)
    (Spec.Web.peak (((List.range r).map (Spec.Web.mags cfg all)).flatten ++ (Spec.Web.mags cfg all r).take (k + 1)))
    (-. Flt.lit 80 0) cmap)
  rw [List.length_range] at this
  exact this

theorem row_append (cfg : Cfg) (ext : Colormap → T → Rgb) (cmap : Colormap) (all s : List T) (r : Nat)
    (h : Spec.Web.ready all.length r) :
    Spec.Web.row cfg ext cmap (all ++ s) r = Spec.Web.row cfg ext cmap all r := by
  have h1 : (List.range r).map (Spec.Web.mags cfg (all ++ s)) = (List.range r).map (Spec.Web.mags cfg all) := by
    apply List.map_congr_left
    intro i hi
    rw [List.mem_range] at hi
    exact mags_append cfg all s i (by unfold Spec.Web.ready at *; omega)
  unfold Spec.Web.row
  rw [h1, mags_append cfg all s r h]

attribute [local irreducible] Spec.Web.row Spec.Web.mags webFrame

/-- C66b. If every call passes at most 512 samples, the bytes returned up to any point are the rows of all samples
received, each exactly once and in order, however the samples were split. -/
theorem web_chunks (cfg : Cfg) (t : Target) (ext : Colormap → T → Rgb) (chunks : List (List T))
    (hc : ∀ c ∈ chunks, c.length ≤ 512) :
    ∃ st outs, State.run cfg t ext State.new (chunks.map .frame) = .ok (st, outs) ∧
      outs.flatten = ((List.range (chunks.flatten.length / 512 - 1)).map
        (Spec.Web.row cfg ext .rainbow chunks.flatten)).flatten := by
  have key : ∃ st outs, State.run cfg t ext State.new (chunks.map .frame) = .ok (st, outs) ∧
      WebInv cfg (chunks.map .frame) st ∧ Spec.Web.samplesOf (chunks.map .frame) = chunks.flatten ∧
      Spec.Web.cmapOf (chunks.map Op.frame) = .rainbow ∧
      Spec.Web.rowsOf (chunks.map .frame) = chunks.flatten.length / 512 - 1 ∧
      outs.flatten = ((List.range (chunks.flatten.length / 512 - 1)).map
        (Spec.Web.row cfg ext .rainbow chunks.flatten)).flatten := by
    induction chunks using List.reverseRecOn with
    | nil => exact ⟨_, _, rfl, webInv_new cfg, rfl, rfl, by simp [Spec.Web.rowsOf, Spec.Web.progress], by simp⟩
    | append_singleton cs c ih =>
      obtain ⟨st, outs, e, hi, hs, hm, hr, ho⟩ := ih (fun x hx => hc x (by simp [hx]))
      have hcl := hc c (by simp)
      obtain ⟨st', e', hi'⟩ := webInv_frame cfg t ext _ st hi c
      rw [hs, hm] at e'
      have hfl : (cs ++ [c]).flatten = cs.flatten ++ c := by simp
      have htot := hi.total
      rw [hs] at htot
      refine ⟨st', _, run_frame_last cfg t ext cs c e e', ?_, ?_, ?_, ?_, ?_⟩
      · rw [List.map_append]; exact hi'
      · rw [List.map_append, List.map_singleton, samplesOf_frame, hs, hfl]
      · rw [List.map_append, List.map_singleton, cmapOf_frame, hm]
      all_goals
        rw [hfl]
        clear e' hfl
        generalize cs.flatten = all at *
      · rw [List.map_append, List.map_singleton, Spec.Web.rowsOf, progress_frame]
        have hr' : (Spec.Web.progress (cs.map Op.frame)).2 = all.length / 512 - 1 := hr
        simp only [hr', htot]
        rw [List.length_append]
        by_cases hd : Spec.Web.ready (all.length + c.length) (all.length / 512 - 1)
        · rw [if_pos hd]; unfold Spec.Web.ready at hd; omega
        · rw [if_neg hd]; unfold Spec.Web.ready at hd; omega
      · have hold : ∀ i, i < all.length / 512 - 1 →
            Spec.Web.row cfg ext .rainbow (all ++ c) i = Spec.Web.row cfg ext .rainbow all i := by
          intro i hi
          apply row_append
          unfold Spec.Web.ready; omega
        rw [List.flatten_append, ho, hr]
        by_cases hd : Spec.Web.ready (all ++ c).length (all.length / 512 - 1)
        · rw [if_pos hd]
          unfold Spec.Web.ready at hd
          have : (all ++ c).length / 512 - 1 = all.length / 512 - 1 + 1 := by
            rw [List.length_append] at *; omega
          rw [this, List.range_succ, List.map_append, List.flatten_append]
          congr 2
          · apply List.map_congr_left
            intro i hi
            rw [hold i (List.mem_range.mp hi)]
        · rw [if_neg hd]
          unfold Spec.Web.ready at hd
          have : (all ++ c).length / 512 - 1 = all.length / 512 - 1 := by
            rw [List.length_append] at *; omega
          rw [this]
          simp only [List.flatten_cons, List.flatten_nil, List.append_nil]
          congr 1
          apply List.map_congr_left
          intro i hi
          rw [hold i (List.mem_range.mp hi)]
  obtain ⟨st, outs, e, -, -, -, -, ho⟩ := key
  exact ⟨st, outs, e, ho⟩

/-- C66c (finding). A call returns at most one row: with chunks of at least 1024 samples the display falls behind
without bound. After `n` calls exactly the first `n` rows have been returned, although `n · c / 512 - 1` are
complete. -/
theorem web_backlog (cfg : Cfg) (t : Target) (ext : Colormap → T → Rgb) (chunks : List (List T))
    (hc : ∀ c ∈ chunks, 1024 ≤ c.length) :
    ∃ st outs, State.run cfg t ext State.new (chunks.map .frame) = .ok (st, outs) ∧
      outs = (List.range chunks.length).map (Spec.Web.row cfg ext .rainbow chunks.flatten) := by
  have key : ∃ st outs, State.run cfg t ext State.new (chunks.map .frame) = .ok (st, outs) ∧
      WebInv cfg (chunks.map .frame) st ∧ Spec.Web.samplesOf (chunks.map .frame) = chunks.flatten ∧
      Spec.Web.cmapOf (chunks.map Op.frame) = .rainbow ∧
      Spec.Web.rowsOf (chunks.map .frame) = chunks.length ∧ 1024 * chunks.length ≤ chunks.flatten.length ∧
      outs = (List.range chunks.length).map (Spec.Web.row cfg ext .rainbow chunks.flatten) := by
    induction chunks using List.reverseRecOn with
    | nil => exact ⟨_, _, rfl, webInv_new cfg, rfl, rfl, rfl, le_rfl, rfl⟩
    | append_singleton cs c ih =>
      obtain ⟨st, outs, e, hi, hs, hm, hr, hle, ho⟩ := ih (fun x hx => hc x (by simp [hx]))
      have hcl := hc c (by simp)
      obtain ⟨st', e', hi'⟩ := webInv_frame cfg t ext _ st hi c
      rw [hs, hm, hr] at e'
      have hfl : (cs ++ [c]).flatten = cs.flatten ++ c := by simp
      have htot := hi.total
      rw [hs] at htot
      have hrd : Spec.Web.ready (cs.flatten ++ c).length cs.length := by
        unfold Spec.Web.ready; rw [List.length_append]; omega
      rw [if_pos hrd] at e'
      refine ⟨st', _, run_frame_last cfg t ext cs c e e', ?_, ?_, ?_, ?_, ?_, ?_⟩
      · rw [List.map_append]; exact hi'
      · rw [List.map_append, List.map_singleton, samplesOf_frame, hs, hfl]
      · rw [List.map_append, List.map_singleton, cmapOf_frame, hm]
      · rw [List.map_append, List.map_singleton, Spec.Web.rowsOf, progress_frame]
        have hr' : (Spec.Web.progress (cs.map Op.frame)).2 = cs.length := hr
        simp only [hr', htot]
        rw [List.length_append] at hrd
        rw [if_pos hrd]; simp
      · rw [hfl]; simp only [List.length_append, List.length_singleton]; omega
      · rw [ho, List.length_append, List.length_singleton, List.range_succ, List.map_append, hfl]
        congr 1
        apply List.map_congr_left
        intro i hi
        rw [List.mem_range] at hi
        rw [row_append]
        unfold Spec.Web.ready; omega
  obtain ⟨st, outs, e, -, -, -, -, -, ho⟩ := key
  exact ⟨st, outs, e, ho⟩

/-- C66a-c are not vacuous: 512 samples return nothing, 512 more return the first row; and four chunks of 2048
samples return 4 rows, where 15 are complete. -/
example (cfg : Cfg) (t : Target) (ext : Colormap → T → Rgb) (f : Nat → T) :
    (∃ st outs, State.run cfg t ext State.new
        (((List.range 2).map fun i => (List.range 512).map fun j => f (512 * i + j)).map Op.frame) = .ok (st, outs) ∧
      outs.flatten.length = 2048) ∧
    ∃ st outs, State.run cfg t ext State.new
        (((List.range 4).map fun i => (List.range 2048).map fun j => f (2048 * i + j)).map Op.frame) = .ok (st, outs) ∧
      outs.flatten.length = 4 * 2048 := by
  constructor
  · obtain ⟨st, outs, e, h⟩ := web_chunks cfg t ext
      ((List.range 2).map fun i => (List.range 512).map fun j => f (512 * i + j))
      (by intro c hc; rw [List.mem_map] at hc; obtain ⟨i, -, rfl⟩ := hc; rw [List.length_map, List.length_range])
    refine ⟨st, outs, e, ?_⟩
    have hl : ((List.range 2).map fun i => (List.range 512).map fun j => f (512 * i + j)).flatten.length = 1024 := by
      simp only [List.length_flatten, List.map_map, Function.comp_def, List.length_map, List.length_range]; rfl
    rw [h, hl]
    show ((List.range 1).map _).flatten.length = _
    rw [List.range_one, List.map_singleton, List.flatten_singleton]
    exact (web_row_shape cfg ext _ _ _).1
  · obtain ⟨st, outs, e, h⟩ := web_backlog cfg t ext
      ((List.range 4).map fun i => (List.range 2048).map fun j => f (2048 * i + j))
      (by intro c hc; rw [List.mem_map] at hc; obtain ⟨i, -, rfl⟩ := hc; rw [List.length_map, List.length_range]; norm_num)
    refine ⟨st, outs, e, ?_⟩
    rw [h, List.length_map, List.length_range, List.length_flatten, List.map_map]
    have : (List.length ∘ Spec.Web.row cfg ext Colormap.rainbow
        ((List.range 4).map fun i => (List.range 2048).map fun j => f (2048 * i + j)).flatten) = fun _ => 2048 := by
      funext i; exact (web_row_shape cfg ext _ _ _).1
    rw [this]; rfl

omit [Flt T] in
theorem flattenMags_ok (h : ℕ) (l : List (List T)) (hl : ∀ f ∈ l, f.length = h) :
    flattenMags h l = .ok l.flatten ∧ l.flatten.length = l.length * h ∧
    ∀ x y, x < l.length → y < h → l.flatten[x * h + y]? = (l[x]?.getD [])[y]? := by
  induction l with
  | nil => exact ⟨rfl, by simp, fun x y hx => absurd hx (Nat.not_lt_zero _)⟩
  | cons f l ih =>
    obtain ⟨h1, h2, h3⟩ := ih (fun g hg => hl g (by simp [hg]))
    have hf := hl f (by simp)
    refine ⟨?_, ?_, ?_⟩
    · rw [flattenMags, if_pos (by omega), h1, Outcome.bind_ok, List.take_of_length_le (by omega), List.flatten_cons]
    · rw [List.flatten_cons, List.length_append, h2, hf, List.length_cons]; ring
    · intro x y hx hy
      rw [List.flatten_cons]
      cases x with
      | zero =>
        rw [Nat.zero_mul, Nat.zero_add, List.getElem?_append_left (by omega)]
        rfl
      | succ x =>
        have hx' : x < l.length := by simpa using hx
        rw [List.getElem?_append_right (by rw [hf]; nlinarith), hf,
          show (x + 1) * h + y - h = x * h + y by
            rw [Nat.add_mul, Nat.one_mul]; omega, h3 x y hx' hy]
        rfl

/-- C66e. The `stft_magnitudes` binding: the same error or panic as the library function, and otherwise the same
magnitudes flattened row by row (`width` frames of `height` bins, value `(x, y)` at `x · height + y`) and the same
maximum. -/
theorem web_stft_flat (cfg : Cfg) (par : Option (List ℕ)) (samples : List T) (winLen hop : ℕ) :
    (∀ e, stftMagnitudes cfg par samples winLen hop = .ok (.error e) →
      stftMagnitudesJs cfg par samples winLen hop = .ok (.error e)) ∧
    (stftMagnitudes cfg par samples winLen hop = .panic → stftMagnitudesJs cfg par samples winLen hop = .panic) ∧
    (0 < hop → 0 < winLen → (cfg.std = true ∨ ∃ k, winLen = 2 ^ k) →
      Spec.validOrder par (divCeil samples.length hop) →
      ∃ mags mx flat, stftMagnitudes cfg par samples winLen hop = .ok (.ok (mags, mx)) ∧
        stftMagnitudesJs cfg par samples winLen hop = .ok (.ok ⟨flat, mags.length, winLen / 2, mx⟩) ∧
        flat.length = mags.length * (winLen / 2) ∧
        ∀ x y, x < mags.length → y < winLen / 2 → flat[x * (winLen / 2) + y]? = (mags[x]?.getD [])[y]?) := by
  refine ⟨?_, ?_, ?_⟩
  · intro e he
    rw [stftMagnitudesJs, he, Outcome.bind_ok]; rfl
  · intro he
    rw [stftMagnitudesJs, he]; rfl
  · intro hh hw hn hpar
    obtain ⟨mags, mx, e, h1, h2, h3⟩ := stft_magnitudes_spec cfg par samples winLen hop hh hw hn hpar
    obtain ⟨f1, f2, f3⟩ := flattenMags_ok (winLen / 2) mags (by
      intro f hf
      obtain ⟨x, hx, rfl⟩ := List.getElem_of_mem hf
      have := (h2 x hx).1
      rwa [List.getD_eq_getElem _ _ hx] at this)
    refine ⟨mags, mx, mags.flatten, e, ?_, f2, f3⟩
    rw [stftMagnitudesJs, e, Outcome.bind_ok]
    simp only []
    rw [f1, Outcome.bind_ok]; rfl

end generic

section exact
open Finset Spec
variable [F : Flt ℝ]

omit F in
theorem getD_mem_take {l : List ℝ} {k : ℕ} (h : k < l.length) : l.getD k 0 ∈ l.take (k + 1) := by
  rw [List.mem_take_iff_getElem]
  exact ⟨k, by omega, by rw [List.getD_eq_getElem _ _ h]⟩

omit F in
theorem range_map_getD {α : Type} {n j : ℕ} (f : ℕ → α) {d : α} (h : j < n) : ((List.range n).map f).getD j d = f j :=
  tab_getD h

/-- C66d, exact arithmetic: the magnitude of bin `k` of row `r` is the absolute value of the DFT of the
Hann-windowed samples, and no magnitude exceeds the value its colour is relative to (so the colour is never
computed for a level above 0 dB), which is positive and one of the magnitudes seen so far or `10⁻¹²`. -/
theorem web_row_exact (hF : Lawful F) (cfg : Cfg) (all : List ℝ) (r k : ℕ) (hk : k < 512) :
    let m := (Spec.Web.mags cfg all r).getD k 0
    let seen := ((List.range r).map (Spec.Web.mags cfg all)).flatten ++ (Spec.Web.mags cfg all r).take (k + 1)
    m = ‖∑ t ∈ range 1024, ((all.getD (512 * r + t) 0 * (1 / 2 - 1 / 2 * Real.cos (2 * Real.pi * t / 1024)) : ℝ) : ℂ) *
      W 1024 (k * t)‖ ∧
    m ≤ Spec.Web.peak seen ∧ 0 < Spec.Web.peak seen ∧
    (Spec.Web.peak seen = 1 / 10 ^ 12 ∨ Spec.Web.peak seen ∈ seen) := by
  have hval : (Spec.Web.mags cfg all r).getD k 0 = ‖∑ t ∈ range 1024, ((all.getD (512 * r + t) 0 *
      (1 / 2 - 1 / 2 * Real.cos (2 * Real.pi * t / 1024)) : ℝ) : ℂ) * W 1024 (k * t)‖ := by
    have hsl : (webFrame all r).length = 1024 := by simp [webFrame]
    obtain ⟨q, y, e, hd⟩ := fft_is_dft_used hF cfg (webFrame all r) (by rw [hsl]; norm_num)
      (Or.inr ⟨10, by rw [hsl]; norm_num⟩) Planner.new .new
    have hyl : y.length = 1024 := by rw [hd.1, hsl]
    have hb : sig y k = ∑ t ∈ range 1024, ((all.getD (512 * r + t) 0 *
      (1 / 2 - 1 / 2 * Real.cos (2 * Real.pi * t / 1024)) : ℝ) : ℂ) * W 1024 (k * t) := by
      rw [hd.2 k (by omega), hsl, dft]
      apply Finset.sum_congr rfl
      intro t ht
      have ht' : t < 1024 := by simpa using ht
      refine congrArg (· * W 1024 (k * t)) ?_
      rw [sig_eq hF, webFrame, range_map_getD _ ht', hannAt_real hF]
      simp only [hF.mul, hF.zero]
      rfl
    rw [← hb, mags_of_fft cfg all r e, sig_eq hF, Complex.norm_def]
    have hkl : k < (y.take 512).length := by rw [List.length_take, hyl]; omega
    rw [List.getD_eq_getElem _ _ (by rw [List.length_map]; exact hkl), List.getElem_map, List.getElem_take,
      List.getD_eq_getElem _ _ (by omega), Spec.Web.mag, hF.sqrt, hF.add, hF.mul, hF.mul]
    rfl
  have h12 : (Flt.lit 1 12 : ℝ) = 1 / 10 ^ 12 := by rw [hF.lit]; norm_num
  obtain ⟨m1, m2, m3⟩ := runMax_real hF (((List.range r).map (Spec.Web.mags cfg all)).flatten ++
    (Spec.Web.mags cfg all r).take (k + 1)) (Flt.lit 1 12)
  refine ⟨hval, ?_, ?_, ?_⟩
  · apply m2
    rw [List.mem_append]; right
    exact getD_mem_take (by rw [mags_length]; exact hk)
  · refine lt_of_lt_of_le ?_ m1
    rw [h12]; positivity
  · rcases m3 with m3 | m3
    · left; rw [← h12]; exact m3
    · right; exact m3

end exact
end Kofft.Props
