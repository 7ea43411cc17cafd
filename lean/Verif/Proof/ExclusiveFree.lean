import Verif.Proof.Exclusive
import Verif.Proof.Retain
import Verif.Proof.Later
import Verif.Proof.Crash
/-
Tables are computed once: on a transformer that has served a length, a transform of that length computes no table.
-/
namespace Kofft
open Spec

variable {T : Type} [Flt T]

/-- The planner has the table for `n`. -/
def Has (cfg : Cfg) (p : Planner T) (n : Nat) : Prop := (preLookup cfg n : Option (List (Cx T))) ≠ none ∨ p.cache n ≠ none

/-- Everything cached in `p` is cached in `q`. -/
def More (p q : Planner T) : Prop := (∀ k, p.cache k ≠ none → q.cache k ≠ none) ∧ ∀ k, p.blu k ≠ none → q.blu k ≠ none

omit [Flt T] in
theorem More.rfl {p : Planner T} : More p p := ⟨fun _ h => h, fun _ h => h⟩

omit [Flt T] in
theorem More.trans {p q r : Planner T} (h : More p q) (h' : More q r) : More p r :=
  ⟨fun k hk => h'.1 k (h.1 k hk), fun k hk => h'.2 k (h.2 k hk)⟩

theorem Has.more {cfg : Cfg} {p q : Planner T} {n : Nat} (h : Has cfg p n) (m : More p q) : Has cfg q n := h.imp_right (m.1 n)

/-- The tables for the lengths of the buffers are there. -/
structure Rich (cfg : Cfg) (p : Planner T) : Prop where
  inv : Inv cfg p
  st : cfg.kind = .f32 ∨ cfg.kind = .f64 → 0 < p.splitRe.length → Has cfg p p.splitRe.length
  bt : 16 < p.bluScratch.length → Has cfg p p.bluScratch.length

theorem rich_new (cfg : Cfg) : Rich cfg (Planner.new : Planner T) :=
  ⟨inv_new cfg, fun _ h => by simp [Planner.new] at h, fun h => by simp [Planner.new] at h⟩

/-- The tables for a transform of length `n`. -/
def Ready (cfg : Cfg) (p : Planner T) (n : Nat) : Prop :=
  if isPow2 n then 16 < n → Has cfg p n
  else cfg.std = true → p.blu n ≠ none ∧ (16 < bluM n → bluM n ≤ p.bluScratch.length ∨ Has cfg p (bluM n))

theorem Ready.more {cfg : Cfg} {p q : Planner T} {n : Nat} (h : Ready cfg p n) (m : More p q)
    (hl : p.bluScratch.length ≤ q.bluScratch.length) : Ready cfg q n := by
  unfold Ready at h ⊢
  split
  · rename_i h2; rw [if_pos h2] at h; exact fun h16 => (h h16).more m
  · rename_i h2; rw [if_neg h2] at h
    exact fun hs => ⟨m.2 _ (h hs).1, fun h16 => ((h hs).2 h16).imp (fun h => h.trans hl) fun h => h.more m⟩

theorem tw_has (cfg : Cfg) (p : Planner T) (n : Nat) :
    More p (p.getTwiddles cfg n).1 ∧ Has cfg (p.getTwiddles cfg n).1 n := by
  unfold Planner.getTwiddles Has
  cases h : (preLookup cfg n : Option (List (Cx T))) with
  | some t => exact ⟨More.rfl, Or.inl (by simp)⟩
  | none =>
    simp only
    cases h' : p.cache n with
    | some t => exact ⟨More.rfl, Or.inr (by simp [h'])⟩
    | none =>
      refine ⟨⟨fun k hk => ?_, fun _ hk => hk⟩, Or.inr (by simp)⟩
      simp only
      split <;> simp_all

theorem stageLoop_any {α : Type} (n : Nat) (f) (s : StageSt α) : OPost (fun _ => True) (stageLoop n f s) := fun _ _ => trivial

/-- What stays from the table lookups. -/
theorem splitSimd_more (cfg : Cfg) (op : FftOp T) (p : Planner T) (re im : List T) (h2 : isPow2 re.length = true)
    (h16 : 16 < re.length) :
    OPost (fun v : Planner T × List T × List T × Res => More p v.1 ∧ Has cfg v.1 re.length) (splitSimd cfg op p re im) := by
  unfold splitSimd
  simp only
  rw [if_neg (by omega), if_neg (by simp [h2]; omega)]
  have ht := tw_has cfg p re.length
  generalize p.getTwiddles cfg re.length = q at ht
  obtain ⟨q, tws⟩ := q
  simp only at ht ⊢
  refine OPost.bind' fun s => ?_
  refine OPost.ite (fun _ => OPost.ok ⟨⟨ht.1.1, ht.1.2⟩, ht.2⟩) fun _ => ?_
  exact OPost.bind' fun a => OPost.bind' fun b => OPost.ok ⟨⟨ht.1.1, ht.1.2⟩, ht.2⟩

theorem stockham_more (cfg : Cfg) (op : FftOp T) (p : Planner T) (x : List (Cx T)) (hs : SplitOk p)
    (h2 : isPow2 x.length = true) (h16 : 16 < x.length) :
    OPost (fun v : Planner T × List (Cx T) × Res => More p v.1 ∧ Has cfg v.1 x.length ∧
      (cfg.kind = .f32 ∨ cfg.kind = .f64 → Has cfg v.1 (max p.splitRe.length x.length))) (stockham cfg op p x) := by
  unfold stockham
  simp only
  rw [if_neg (by omega), if_neg (by simp [h2]), if_neg (by omega)]
  have ht := tw_has cfg p x.length
  have hsp : (p.getTwiddles cfg x.length).1.splitRe = p.splitRe := by
    unfold Planner.getTwiddles; split
    · rfl
    split <;> rfl
  generalize p.getTwiddles cfg x.length = q at ht hsp
  obtain ⟨q, tws⟩ := q
  simp only at ht hsp ⊢
  have lr : (copyPrefix (x.map Cx.re) (grow q.splitRe x.length Flt.zero)).length = max p.splitRe.length x.length := by
    rw [copyPrefix_length, grow_length, hsp]
  have lp : isPow2 (max p.splitRe.length x.length) = true := max_isPow2 (hs.2.imp id And.left) h2
  refine OPost.ite (fun hk => ?_) fun hk => ?_
  · refine OPost.bind (splitSimd_more cfg op _ _ _ (by rw [lr]; exact lp) (by rw [lr]; omega)) fun v hv => ?_
    rw [lr] at hv
    obtain ⟨q', sre, sim, r⟩ := v
    simp only at hv
    have m : More p q' := ht.1.trans ⟨hv.1.1, hv.1.2⟩
    have hn : Has cfg q' x.length := ht.2.more ⟨hv.1.1, hv.1.2⟩
    cases r with
    | error e => exact OPost.ok ⟨m, hn, fun _ => hv.2⟩
    | ok u => exact OPost.ok ⟨⟨m.1, m.2⟩, hn, fun _ => hv.2⟩
  · refine OPost.bind' fun s => ?_
    refine OPost.ite (fun _ => OPost.ok ⟨⟨ht.1.1, ht.1.2⟩, ht.2, fun h => absurd h hk⟩) fun _ => ?_
    exact OPost.bind' fun y => OPost.ok ⟨⟨ht.1.1, ht.1.2⟩, ht.2, fun h => absurd h hk⟩

/-- A power of two: everything needed is there afterwards. -/
theorem pow2_rich (cfg : Cfg) (f : Nat) {p : Planner T} (h : Rich cfg p) (x : List (Cx T)) (h2 : isPow2 x.length = true) :
    OPost (fun v : Planner T × List (Cx T) × Res => Rich cfg v.1 ∧ More p v.1 ∧ (16 < x.length → Has cfg v.1 x.length) ∧
      v.1.bluScratch = p.bluScratch ∧ v.2.1.length = x.length) (fftF cfg (f + 1) p x) := by
  intro v e
  obtain ⟨p', e', hc, hs, hb, hbs, hl, -⟩ := fftF_pow2 cfg f p x h.inv.cache h.inv.split h2
  have hout := powOut_length cfg p x h2
  rw [e] at e'
  simp only [Outcome.ok.injEq] at e'
  subst e'
  have hpos := isPow2_pos h2
  have hI : Inv cfg p' := ⟨hc, by rw [hb]; exact h.inv.blu, hs, by rw [hbs]; exact h.inv.scr⟩
  by_cases h16 : 16 < x.length
  · have e2 : stockham cfg (fftF cfg f) p x = .ok (p', powOut cfg p x, .ok ()) := by
      rw [← e]
      show _ = fftBody cfg _ p x
      unfold fftBody
      simp only
      rw [if_neg (by omega), if_neg (by omega), if_neg (by simp; omega), if_pos ((and_pred_eq_zero_iff hpos).mpr h2)]
    obtain ⟨m, hn, hm⟩ := stockham_more cfg _ p x h.inv.split h2 h16 _ e2
    rw [if_pos h16] at hl
    exact ⟨⟨hI, fun hk _ => by simp only [hl]; exact hm hk, fun hb16 => by
      simp only [hbs] at hb16 ⊢; exact (h.bt hb16).more m⟩, m, fun _ => hn, hbs, hout⟩
  · have e2 : p' = p := by
      have e3 : fftBody cfg (fftF cfg f) p x = .ok (p', powOut cfg p x, .ok ()) := e
      unfold fftBody at e3
      simp only at e3
      rw [if_neg (by omega)] at e3
      by_cases h1 : x.length = 1
      · rw [if_pos h1] at e3
        simp only [Outcome.ok.injEq, Prod.mk.injEq] at e3
        exact e3.1.symm
      · rw [if_neg h1, if_pos (by simp [h2]; omega)] at e3
        revert e3
        cases smallKernel cfg x with
        | ok y => intro e3; exact (congrArg (fun v => v.1) (Outcome.ok.inj e3)).symm
        | panic => intro e3; cases e3
        | hang => intro e3; cases e3
    subst e2
    exact ⟨h, More.rfl, fun h => absurd h h16, rfl, hout⟩

theorem getBlu_more (cfg : Cfg) (f : Nat) (p : Planner T) (n : Nat) (hn : 0 < n) (h : BluOk cfg p.blu) :
    ∃ c, BluOk cfg c ∧ p.getBluestein (fftF cfg (f + 1)) n = .ok ({ p with blu := c }, (bluPair cfg n).1, (bluPair cfg n).2) ∧
      c n ≠ none ∧ ∀ k, p.blu k ≠ none → c k ≠ none := by
  obtain ⟨c, hc, hg⟩ := getBluestein_spec cfg f p n hn h
  refine ⟨c, hc, hg, ?_⟩
  have : OPost (fun v : Planner T × List (Cx T) × List (Cx T) => v.1.blu n ≠ none ∧ ∀ k, p.blu k ≠ none → v.1.blu k ≠ none)
      (p.getBluestein (fftF cfg (f + 1)) n) := by
    unfold Planner.getBluestein
    cases hb : p.blu n with
    | some pr => exact OPost.ok ⟨by simp [hb], fun k hk => hk⟩
    | none =>
      simp only
      rw [if_neg (by omega)]
      refine OPost.bind' fun b => OPost.bind' fun v => ?_
      obtain ⟨q, bf, r⟩ := v
      cases r with
      | error e => exact OPost.panic
      | ok u =>
        refine OPost.ok ⟨by simp, fun k hk => ?_⟩
        simp only
        split <;> simp_all
  exact this _ hg

theorem bluPair_snd_length (cfg : Cfg) (n : Nat) : (bluPair (T := T) cfg n).2.length = bluM n := by
  have : (freshPow cfg (tab (bluM n) (bAt (T := T) n))).length = _ :=
    powOut_length cfg Planner.new _ (by simpa using bluM_pow2 n)
  simpa [bluPair] using this

theorem bluestein_rich (cfg : Cfg) (f : Nat) {p : Planner T} (h : Rich cfg p) (x : List (Cx T)) (hpos : 0 < x.length) :
    OPost (fun v : Planner T × List (Cx T) × Res => Rich cfg v.1 ∧ More p v.1 ∧ v.1.blu x.length ≠ none ∧
      v.1.bluScratch.length = max p.bluScratch.length (bluM x.length)) (bluestein (fftF cfg (f + 1)) p x) := by
  intro v e
  obtain ⟨q, y, e', hI, -, -, -, hbl, -⟩ := bluestein_run cfg f p x h.inv hpos
  rw [e] at e'
  simp only [Outcome.ok.injEq] at e'
  subst e'
  obtain ⟨c, hc, hg, hcn, hcm⟩ := getBlu_more cfg f p x.length hpos h.inv.blu
  set M := max p.bluScratch.length (bluM x.length) with hM
  have hM2 : isPow2 M = true := max_isPow2 h.inv.scr (bluM_isPow2 _)
  have hp0 : Rich cfg { p with blu := c, bluScratch := [] } :=
    ⟨⟨h.inv.cache, hc, h.inv.split, Or.inl rfl⟩, h.st, fun h => by simp at h⟩
  have m0 : More p { p with blu := c, bluScratch := [] } := ⟨fun _ h => h, hcm⟩
  have post : OPost (fun v : Planner T × List (Cx T) × Res =>
      (cfg.kind = .f32 ∨ cfg.kind = .f64 → 0 < v.1.splitRe.length → Has cfg v.1 v.1.splitRe.length) ∧
      More { p with blu := c, bluScratch := [] } v.1 ∧ (16 < M → Has cfg v.1 M)) (bluestein (fftF cfg (f + 1)) p x) := by
    unfold bluestein
    simp only [hg, Outcome.bind_ok]
    have la : (grow p.bluScratch (bluPair (T := T) cfg x.length).2.length Cx.zero).length = M := by
      rw [grow_length, bluPair_snd_length]
    refine OPost.bind (P := fun a : List (Cx T) => a.length = M) (OPost.forRange la fun i a ha => OPost.bind' fun v =>
      OPost.bind' fun c => OPost.wr.mono fun b hb => by rw [hb, ha]) fun a ha => ?_
    refine OPost.ite (fun _ => ?_) fun _ => OPost.panic
    refine OPost.bind (P := fun a : List (Cx T) => a.length = M) (OPost.forRange ha fun i a ha =>
      OPost.wr.mono fun b hb => by rw [hb, ha]) fun a ha => ?_
    refine OPost.bind (pow2_rich cfg f hp0 a (by rw [ha]; exact hM2)) fun v hv => ?_
    obtain ⟨q1, b1, r1⟩ := v
    obtain ⟨g1, g2, g3, g4, g5⟩ := hv
    rw [ha] at g3 g5
    cases r1 with
    | error e => exact OPost.ok ⟨g1.st, g2, g3⟩
    | ok u =>
      simp only
      refine OPost.bind (pow2_rich cfg f g1 _ ?_) fun v hv => ?_
      · rw [List.length_map, copyPrefix_length, g5]; exact hM2
      obtain ⟨q2, b2, r2⟩ := v
      obtain ⟨k1, k2, k3, k4, k5⟩ := hv
      cases r2 with
      | error e => exact OPost.ok ⟨k1.st, g2.trans k2, fun h => (g3 h).more k2⟩
      | ok u =>
        refine OPost.bind' fun y => OPost.ok ⟨k1.st, ?_, fun h => (g3 h).more k2⟩
        exact ⟨(g2.trans k2).1, (g2.trans k2).2⟩
  obtain ⟨a1, a2, a3⟩ := post _ e
  have mm := m0.trans a2
  refine ⟨⟨hI, a1, fun h16 => ?_⟩, mm, a2.2 _ hcn, hbl⟩
  simp only [hbl] at h16 ⊢
  exact a3 h16

/-- After a transform everything needed for its length is there, and nothing was lost. -/
theorem fft_rich (cfg : Cfg) {p : Planner T} (h : Rich cfg p) (x : List (Cx T)) :
    OPost (fun v : Planner T × List (Cx T) × Res => Rich cfg v.1 ∧ More p v.1 ∧ p.bluScratch.length ≤ v.1.bluScratch.length ∧
      (0 < x.length → Ready cfg v.1 x.length)) (fft cfg p x) := by
  intro v e
  by_cases h2 : isPow2 x.length = true
  · obtain ⟨a, b, c, d, -⟩ := pow2_rich cfg 3 h x h2 v e
    refine ⟨a, b, by rw [d], fun _ => ?_⟩
    unfold Ready
    rw [if_pos h2]; exact c
  change fftBody cfg _ p x = _ at e
  unfold fftBody at e
  simp only at e
  by_cases h0 : x.length = 0
  · rw [if_pos h0] at e; cases e
    exact ⟨h, More.rfl, le_refl _, fun h => by omega⟩
  have h3 := nonpow2_ge3 (n := x.length) (by omega) (by simpa using h2)
  rw [if_neg h0, if_neg (by omega), if_neg (by simp [h2]), if_neg (by rw [and_pred_eq_zero_iff (by omega)]; exact h2)] at e
  by_cases hs : cfg.std = true
  · rw [if_neg (by simp [hs])] at e
    obtain ⟨a, b, c, d⟩ := bluestein_rich cfg 2 h x (by omega) v e
    refine ⟨a, b, by rw [d]; exact le_max_left _ _, fun _ => ?_⟩
    unfold Ready
    rw [if_neg h2]
    exact fun _ => ⟨c, fun _ => Or.inl (by rw [d]; exact le_max_right _ _)⟩
  · rw [if_pos (by simpa using hs)] at e; cases e
    refine ⟨h, More.rfl, le_refl _, fun _ => ?_⟩
    unfold Ready
    rw [if_neg h2]
    exact fun h => absurd h hs

theorem ifft_rich (cfg : Cfg) {p : Planner T} (h : Rich cfg p) (x : List (Cx T)) :
    OPost (fun v : Planner T × List (Cx T) × Res => Rich cfg v.1 ∧ More p v.1 ∧ p.bluScratch.length ≤ v.1.bluScratch.length ∧
      (1 < x.length → Ready cfg v.1 x.length)) (ifft cfg p x) := by
  unfold ifft ifftWith
  refine OPost.ite (fun h0 => OPost.ok ⟨h, More.rfl, le_refl _, fun h => by omega⟩) fun h0 =>
    OPost.ite (fun h0 => OPost.ok ⟨h, More.rfl, le_refl _, fun h => by omega⟩) fun h1 => ?_
  refine OPost.bind (fft_rich cfg h _) fun v hv => ?_
  rw [List.length_map] at hv
  obtain ⟨q, y, r⟩ := v
  obtain ⟨a, b, c, d⟩ := hv
  cases r <;> exact OPost.ok ⟨a, b, c, fun _ => d (by omega)⟩

/-! ### Traces without table computations -/

/-- Nothing runs inside the brackets of `o`. -/
inductive Idle (o : Nat) : List RefEv → Prop
  | nil : Idle o []
  | work : Idle o [.work]
  | app {s t} : Idle o s → Idle o t → Idle o (s ++ t)
  | block : Idle o (block o [])

theorem app_work_cases {s t pre post : List RefEv} (h : s ++ t = pre ++ .work :: post) :
    (∃ r, s = pre ++ .work :: r) ∨ ∃ u, pre = s ++ u ∧ t = u ++ .work :: post := by
  rcases List.append_eq_append_iff.mp h with ⟨u, rfl, h2⟩ | ⟨u, h1, h2⟩
  · exact Or.inr ⟨u, rfl, h2⟩
  · cases u with
    | nil => exact Or.inr ⟨[], by simpa using h1.symm, by simpa using h2.symm⟩
    | cons e u =>
      simp only [List.cons_append, List.cons.injEq] at h2
      obtain ⟨rfl, -⟩ := h2
      exact Or.inl ⟨u, h1⟩

theorem Idle.zero {o : Nat} {t : List RefEv} (h : Idle o t) : (∀ a, alive a t = 0) ∧ NoWorkInside o t := by
  induction h with
  | nil => exact ⟨fun a => by rfl, fun pre post h => by simp at h⟩
  | work =>
    refine ⟨fun a => by rfl, fun pre post h => ?_⟩
    cases pre with
    | nil => rfl
    | cons e pre => simp at h
  | app _ _ ih1 ih2 =>
    refine ⟨fun a => by rw [alive_append, ih1.1, ih2.1]; rfl, fun pre post h => ?_⟩
    rcases app_work_cases h with ⟨r, h1⟩ | ⟨u, rfl, h2⟩
    · exact ih1.2 _ _ h1
    · rw [alive_append, ih1.1, ih2.2 _ _ h2]; rfl
  | block =>
    refine ⟨fun a => by simp only [Kofft.block, alive, List.nil_append]; split <;> simp, fun pre post h => ?_⟩
    exfalso
    have : RefEv.work ∈ Kofft.block o [] := by rw [h]; simp
    simp [Kofft.block] at this

theorem tw_idle {cfg : Cfg} {p : Planner T} {n : Nat} (h : Has cfg p n) : twTrace cfg p n = [] := by
  unfold twTrace
  rcases h with h | h
  · split
    · contradiction
    · rfl
  · split
    · contradiction
    · rfl

theorem stockham_idle (cfg : Cfg) (tr : TraceOp T) (o : Nat) {p : Planner T} (h : Rich cfg p) (x : List (Cx T))
    (h2 : isPow2 x.length = true) (hn : 16 < x.length → Has cfg p x.length) : Idle o (stockhamTrace cfg tr o p x) := by
  have hpos := isPow2_pos h2
  unfold stockhamTrace
  simp only
  rw [if_neg (by omega), if_neg (by simp [h2])]
  split
  · exact .work
  rename_i h16
  have hn := hn (by omega)
  have hsp : (p.getTwiddles cfg x.length).1 = p := by
    unfold Planner.getTwiddles
    rcases hn with hn | hn
    · split
      · rfl
      · contradiction
    · split
      · rfl
      split
      · rfl
      · contradiction
  rw [tw_idle hn, hsp]
  refine .app (.app (.app .block .work) ?_) .block
  split
  · rename_i hk
    have lr : (copyPrefix (x.map Cx.re) (grow p.splitRe x.length Flt.zero)).length = max p.splitRe.length x.length := by
      rw [copyPrefix_length, grow_length]
    have lp : isPow2 (max p.splitRe.length x.length) = true := max_isPow2 (h.inv.split.2.imp id And.left) h2
    unfold splitSimdTrace
    simp only
    rw [lr, if_neg (by omega), if_neg (by simp [lp]; omega)]
    have hh : Has cfg { p with scratch := [], splitRe := [], splitIm := [] } (max p.splitRe.length x.length) := by
      rcases le_total p.splitRe.length x.length with hl | hl
      · rw [max_eq_right hl]; exact hn
      · rw [max_eq_left hl]; exact h.st hk (by omega)
    rw [tw_idle hh]
    exact .app (.app (.app .block .block) .work) .block
  · exact .nil

theorem pow2_idle (cfg : Cfg) (f o : Nat) {p : Planner T} (h : Rich cfg p) (x : List (Cx T))
    (h2 : isPow2 x.length = true) (hn : 16 < x.length → Has cfg p x.length) : Idle o (fftTraceF cfg f o p x) := by
  cases f with
  | zero => exact .nil
  | succ f =>
    have hpos := isPow2_pos h2
    show Idle o (fftTraceBody cfg _ _ o p x)
    unfold fftTraceBody
    simp only
    rw [if_neg (by omega)]
    split
    · exact .nil
    split
    · exact .work
    rw [if_pos ((and_pred_eq_zero_iff hpos).mpr h2)]
    exact stockham_idle cfg _ o h x h2 hn

theorem fft_idle (cfg : Cfg) (o : Nat) {p : Planner T} (h : Rich cfg p) (x : List (Cx T)) (hr : Ready cfg p x.length) :
    Idle o (fftTrace cfg o p x) := by
  by_cases h2 : isPow2 x.length = true
  · unfold Ready at hr
    rw [if_pos h2] at hr
    exact pow2_idle cfg _ o h x h2 hr
  show Idle o (fftTraceBody cfg _ _ o p x)
  unfold fftTraceBody
  simp only
  by_cases h0 : x.length = 0
  · rw [if_pos h0]; exact .nil
  have h3 := nonpow2_ge3 (n := x.length) (by omega) (by simpa using h2)
  rw [if_neg h0, if_neg (by omega), if_neg (by simp [h2]), if_neg (by rw [and_pred_eq_zero_iff (by omega)]; exact h2)]
  by_cases hs : cfg.std = true
  swap
  · rw [if_pos (by simpa using hs)]; exact .nil
  rw [if_neg (by simp [hs])]
  unfold Ready at hr
  rw [if_neg h2] at hr
  obtain ⟨hb, hm⟩ := hr hs
  unfold bluesteinTrace
  have : bluTrace (fftTraceF cfg 3) o p x.length = [] := by
    unfold bluTrace
    split
    · contradiction
    · rfl
  rw [this]
  obtain ⟨c, hc, hg, hcn, hcm⟩ := getBlu_more cfg 2 p x.length (by omega) h.inv.blu
  refine .app (.app (.app .block .work) ?_) .block
  rw [hg]
  simp only
  set M := max p.bluScratch.length (bluM x.length) with hM
  have hM2 : isPow2 M = true := max_isPow2 h.inv.scr (bluM_isPow2 _)
  have hHas : 16 < M → Has cfg p M := by
    intro h16
    rcases le_or_gt (bluM x.length) p.bluScratch.length with hl | hl
    · have : M = p.bluScratch.length := by omega
      rw [this]; exact h.bt (by omega)
    · have : M = bluM x.length := by omega
      rw [this]
      exact (hm (by omega)).resolve_left (by omega)
  have hp0 : Rich cfg { p with blu := c, bluScratch := [] } :=
    ⟨⟨h.inv.cache, hc, h.inv.split, Or.inl rfl⟩, h.st, fun h => by simp at h⟩
  have hfl := bluFill_length x (bluPair cfg x.length).1 (bluPair (T := T) cfg x.length).2.length p.bluScratch
  revert hfl
  cases bluFill x (bluPair cfg x.length).1 (bluPair (T := T) cfg x.length).2.length p.bluScratch with
  | ok a =>
    intro hfl
    have hal : a.length = M := by rw [hfl a rfl, bluPair_snd_length]
    simp only
    refine .app (.app (pow2_idle cfg 3 o hp0 a (by rw [hal]; exact hM2) (by rw [hal]; exact hHas)) .work) ?_
    have post := pow2_rich cfg 2 hp0 a (by rw [hal]; exact hM2)
    revert post
    cases fftF cfg 3 { p with blu := c, bluScratch := [] } a with
    | ok v =>
      intro post
      obtain ⟨q, b, r⟩ := v
      obtain ⟨k1, k2, -, -, k5⟩ := post _ rfl
      simp only at k1 k2 k5
      cases r with
      | error e => exact .nil
      | ok u =>
        have hl : ((copyPrefix (List.zipWith Cx.mul b (bluPair cfg x.length).2) b).map Cx.conj).length = M := by
          rw [List.length_map, copyPrefix_length, k5, hal]
        exact .app (pow2_idle cfg 3 o k1 _ (by rw [hl]; exact hM2) (by
          rw [hl]; exact fun h16 => (show Has cfg { p with blu := c, bluScratch := [] } M from hHas h16).more k2)) .work
    | panic => intro _; exact .nil
    | hang => intro _; exact .nil
  | panic => intro _; exact .nil
  | hang => intro _; exact .nil

theorem ifft_idle (cfg : Cfg) (o : Nat) {p : Planner T} (h : Rich cfg p) (x : List (Cx T)) (hr : Ready cfg p x.length) :
    Idle o (ifftTrace cfg o p x) := by
  unfold ifftTrace
  split
  · exact .nil
  · exact .app (.app .work (fft_idle cfg o h _ (by simpa using hr))) .work

end Kofft
