import Verif.Lib.OPost
import Verif.Spec.Crash
import Verif.Proof.Reach
/-
The planner invariant holds at every instant of a call.
-/
namespace Kofft
open Spec

variable {T : Type} [Flt T]

section
variable {cfg : Cfg} {B : Nat}

theorem invB_tw {p : Planner T} (h : InvB cfg B p) (n : Nat) : InvB cfg B (p.getTwiddles cfg n).1 := by
  obtain ⟨-, h2, h3⟩ := getTwiddles_inv cfg p n h.1
  exact agree_invB h h2 h3

theorem invB_takeSplitScratch {p : Planner T} (h : InvB cfg B p) :
    InvB cfg B { p with splitScratchRe := [], splitScratchIm := [] } :=
  ⟨⟨h.1.cache, h.1.blu, h.1.split, h.1.scr⟩, h.2⟩

theorem invB_takeSplit {p : Planner T} (h : InvB cfg B p) :
    InvB cfg B { p with scratch := [], splitRe := [], splitIm := [] } :=
  ⟨⟨h.1.cache, h.1.blu, ⟨rfl, Or.inl rfl⟩, h.1.scr⟩, Nat.zero_le _, h.2.2⟩

theorem invB_takeBlu {p : Planner T} (h : InvB cfg B p) : InvB cfg B { p with bluScratch := [] } :=
  ⟨⟨h.1.cache, h.1.blu, h.1.split, Or.inl rfl⟩, h.2.1, Nat.zero_le _⟩

theorem invB_takeScratch {p : Planner T} (h : InvB cfg B p) : InvB cfg B { p with scratch := [] } :=
  ⟨h.1.withScratch [], h.2⟩

omit [Flt T] in
theorem leftBy_forall {β : Type} {P : Planner T → Prop} {o : Outcome (Planner T × β)}
    (h : ∀ v, o = .ok v → P v.1) : ∀ q ∈ leftBy o, P q := by
  intro q hq
  cases o with
  | ok v => simp only [leftBy, List.mem_singleton] at hq; rw [hq]; exact h v rfl
  | panic => simp [leftBy] at hq
  | hang => simp [leftBy] at hq

theorem splitSimd_irrel (g g' : FftOp T) (p : Planner T) (re im : List T) (h2 : isPow2 re.length = true) (h16 : 16 < re.length) :
    splitSimd cfg g p re im = splitSimd cfg g' p re im := by
  unfold splitSimd
  simp only
  rw [if_neg (by omega), if_neg (by simp [h2]; omega), if_neg (by omega), if_neg (by simp [h2]; omega)]

theorem splitSeen_big (g : FftOp T) (seen : SeenOp T) {p : Planner T} (h : InvB cfg B p) (re im : List T)
    (hl : re.length = im.length) (h2 : isPow2 re.length = true) (h16 : 16 < re.length) (hB : re.length ≤ B) :
    ∀ q ∈ splitSimdSeen cfg g seen p re im, InvB cfg B q := by
  unfold splitSimdSeen
  simp only
  rw [if_neg (by omega), if_neg (by simp [h2]; omega)]
  simp only [List.mem_cons, forall_eq_or_imp]
  refine ⟨h, invB_tw h _, invB_takeSplitScratch (invB_tw h _), leftBy_forall fun v e => ?_⟩
  rw [splitSimd_irrel g (fft cfg) p re im h2 h16] at e
  obtain ⟨q, a, b, r⟩ := v
  exact splitSimd_invB h hl (by simpa [need, h2] using hB) e

theorem stockhamSeen_pow2 (g : FftOp T) (seen : SeenOp T) {p : Planner T} (h : InvB cfg B p) (x : List (Cx T))
    (h2 : isPow2 x.length = true) (hB : x.length ≤ B) : ∀ q ∈ stockhamSeen cfg g seen p x, InvB cfg B q := by
  have hpos := isPow2_pos h2
  unfold stockhamSeen
  simp only
  rw [if_neg (by omega), if_neg (by simp [h2])]
  by_cases h16 : x.length ≤ 16
  · rw [if_pos h16]; simpa using h
  rw [if_neg h16]
  have ht := invB_tw (cfg := cfg) h x.length
  have hs := ht.1.split
  simp only [List.mem_cons, List.mem_append, forall_eq_or_imp]
  refine ⟨h, ht, invB_takeSplit ht, fun q hq => ?_⟩
  rcases hq with hq | hq
  · split at hq
    · have l1 : (copyPrefix (x.map Cx.re) (grow (p.getTwiddles cfg x.length).1.splitRe x.length Flt.zero)).length
          = max (p.getTwiddles cfg x.length).1.splitRe.length x.length := by
        rw [copyPrefix_length, grow_length]
      have l2 : (copyPrefix (x.map Cx.im) (grow (p.getTwiddles cfg x.length).1.splitIm x.length Flt.zero)).length
          = max (p.getTwiddles cfg x.length).1.splitRe.length x.length := by
        rw [copyPrefix_length, grow_length, hs.1]
      refine splitSeen_big g seen (invB_takeSplit ht) _ _ (by rw [l1, l2]) ?_ ?_ ?_ q hq
      · rw [l1]
        rcases hs.2 with e | e
        · rw [e]; simpa using h2
        · exact max_pow2 e.1 h2
      · rw [l1]; omega
      · rw [l1]; exact max_le ht.2.1 hB
    · simp at hq
  · revert q
    refine leftBy_forall fun v e => ?_
    obtain ⟨p', e', h1, h3, h4, h5, h6, -⟩ := stockham_big cfg g p x h.1.cache h.1.split h2 (by omega)
    rw [e] at e'
    simp only [Outcome.ok.injEq] at e'
    rw [e']
    exact ⟨⟨h1, by rw [h4]; exact h.1.blu, h3, by rw [h5]; exact h.1.scr⟩, by rw [h6]; exact max_le h.2.1 hB,
      by rw [h5]; exact h.2.2⟩

theorem fftSeen_pow2 (f : Nat) {p : Planner T} (h : InvB cfg B p) (x : List (Cx T))
    (h2 : isPow2 x.length = true) (hB : x.length ≤ B) : ∀ q ∈ fftSeenF cfg (f + 1) p x, InvB cfg B q := by
  have hpos := isPow2_pos h2
  show ∀ q ∈ fftSeenBody cfg _ _ p x, _
  unfold fftSeenBody
  simp only
  rw [if_neg (by omega)]
  by_cases h1 : x.length = 1
  · rw [if_pos h1]; simpa using h
  rw [if_neg h1]
  by_cases h16 : x.length ≤ 16
  · rw [if_pos (by simp [h16, h2])]; simpa using h
  rw [if_neg (by simp [h16]), if_pos ((and_pred_eq_zero_iff hpos).mpr h2)]
  exact stockhamSeen_pow2 _ _ h x h2 hB

theorem bluFill_length (x chirp : List (Cx T)) (m : Nat) (a : List (Cx T)) :
    OPost (fun b : List (Cx T) => b.length = max a.length m) (bluFill x chirp m a) := by
  unfold bluFill
  refine OPost.bind (P := fun b : List (Cx T) => b.length = max a.length m) (OPost.forRange (by rw [grow_length]) fun i b hb => ?_)
    fun b hb => ?_
  · exact OPost.bind' fun v => OPost.bind' fun c => OPost.wr.mono fun l hl => by rw [hl, hb]
  · refine OPost.ite (fun _ => OPost.forRange hb fun i c hc => OPost.wr.mono fun l hl => by rw [hl, hc]) fun _ => OPost.panic

theorem fftSeen_invB (f : Nat) {p : Planner T} (h : InvB cfg B p) (x : List (Cx T)) (hB : need x.length ≤ B) :
    ∀ q ∈ fftSeenF cfg (f + 2) p x, InvB cfg B q := by
  by_cases h0 : x.length = 0
  · show ∀ q ∈ fftSeenBody cfg _ _ p x, _
    unfold fftSeenBody
    simp only
    rw [if_pos h0]; simpa using h
  by_cases h2 : isPow2 x.length = true
  · exact fftSeen_pow2 (f + 1) h x h2 (by simpa [need, h2] using hB)
  have hpos : 0 < x.length := by omega
  have h2' : isPow2 x.length = false := by simpa using h2
  have hB' : bluM x.length ≤ B := by simpa [need, h2'] using hB
  have h3 := nonpow2_ge3 hpos h2'
  show ∀ q ∈ fftSeenBody cfg _ _ p x, _
  unfold fftSeenBody
  simp only
  rw [if_neg h0, if_neg (by omega), if_neg (by simp [h2']), if_neg (by rw [and_pred_eq_zero_iff hpos]; exact h2)]
  split
  · simpa using h
  unfold bluesteinSeen
  obtain ⟨c, hc, hg⟩ := getBluestein_spec cfg f p x.length hpos h.1.blu
  rw [hg]
  simp only [List.mem_cons, List.mem_append, forall_eq_or_imp]
  have hp1 : InvB cfg B { p with blu := c } := ⟨⟨h.1.cache, hc, h.1.split, h.1.scr⟩, h.2⟩
  have hp2 : InvB cfg B { p with blu := c, bluScratch := [] } := invB_takeBlu hp1
  have hfb : (bluPair (T := T) cfg x.length).2.length = bluM x.length := by
    have : (freshPow cfg (tab (bluM x.length) (bAt (T := T) x.length))).length = _ :=
      powOut_length cfg Planner.new _ (by simpa using bluM_pow2 x.length)
    simpa [bluPair] using this
  have hLp : isPow2 (max p.bluScratch.length (bluM x.length)) = true := by
    rcases h.1.scr with e | e
    · rw [e]; simpa using bluM_pow2 x.length
    · exact max_pow2 e (bluM_pow2 x.length)
  refine ⟨h, fun q hq => ?_⟩
  rcases hq with (rfl | rfl | hq) | hq
  · exact hp1
  · exact hp2
  · have hfl := bluFill_length x (bluPair cfg x.length).1 (bluPair (T := T) cfg x.length).2.length p.bluScratch
    revert hq hfl
    cases bluFill x (bluPair cfg x.length).1 (bluPair (T := T) cfg x.length).2.length p.bluScratch with
    | ok a =>
      intro hq hfl
      have hal : a.length = max p.bluScratch.length (bluM x.length) := by
        have := hfl a rfl; rw [this, hfb]
      have hap : isPow2 a.length = true := by rw [hal]; exact hLp
      have haB : a.length ≤ B := by rw [hal]; exact max_le h.2.2 hB'
      simp only [List.mem_append] at hq
      rcases hq with hq | hq
      · exact fftSeen_pow2 f hp2 a hap haB q hq
      · obtain ⟨p3, e, h1, hs, hb, hbs, hsl, -⟩ := fftF_pow2 cfg f _ a hp2.1.cache hp2.1.split hap
        rw [e] at hq
        simp only at hq
        refine fftSeen_pow2 f ?_ _ ?_ ?_ q hq
        · refine ⟨⟨h1, by rw [hb]; exact hc, hs, by rw [hbs]; exact Or.inl rfl⟩, ?_, by rw [hbs]; exact Nat.zero_le _⟩
          rw [hsl]; split
          · exact max_le h.2.1 haB
          · exact h.2.1
        · rw [List.length_map, copyPrefix_length, powOut_length cfg _ _ hap]; exact hap
        · rw [List.length_map, copyPrefix_length, powOut_length cfg _ _ hap]; exact haB
    | panic => intro hq; simp at hq
    | hang => intro hq; simp at hq
  · revert q
    refine leftBy_forall fun v e => ?_
    obtain ⟨p', y, e', h1, -, -, -, h4, h5⟩ := bluestein_run cfg f p x h.1 hpos
    rw [e] at e'
    simp only [Outcome.ok.injEq] at e'
    rw [e']
    refine ⟨h1, h5.trans ?_, by rw [h4]; exact max_le h.2.2 hB'⟩
    exact max_le h.2.1 (max_le h.2.2 hB')

/-- A transform and the contents of the planner during it. -/
structure SeenOk (cfg : Cfg) (seen : SeenOp T) : Prop where
  inv : ∀ {B : Nat} {p : Planner T} (x : List (Cx T)), InvB cfg B p → need x.length ≤ B → ∀ q ∈ seen p x, InvB cfg B q

theorem fft_seenOk (cfg : Cfg) : SeenOk (T := T) cfg (fftSeen cfg) := ⟨fun x h hB => fftSeen_invB 2 h x hB⟩

theorem ifft_seenOk (cfg : Cfg) : SeenOk (T := T) cfg (ifftSeen cfg) := ⟨fun {B p} x h hB => by
  unfold ifftSeen
  split
  · simpa using h
  · exact fftSeen_invB 2 h _ (by simpa using hB)⟩

theorem twSeen_invB (ls : List Nat) : ∀ {p : Planner T}, InvB cfg B p → ∀ q ∈ twSeen cfg p ls, InvB cfg B q := by
  induction ls with
  | nil => intro p h; simpa [twSeen] using h
  | cons l ls ih =>
    intro p h
    simp only [twSeen, List.mem_cons, forall_eq_or_imp]
    exact ⟨h, ih (invB_tw h l)⟩

theorem radix4Seen_invB {p : Planner T} (h : InvB cfg B p) (x : List (Cx T)) (hB : need x.length ≤ B) :
    ∀ q ∈ radix4Seen cfg p x, InvB cfg B q := by
  unfold radix4Seen
  simp only
  split
  · exact (fft_seenOk cfg).inv x h hB
  · intro q hq
    rcases List.mem_append.mp hq with hq | hq
    · exact twSeen_invB _ h q hq
    · exact leftBy_forall (P := InvB cfg B) (fun v e => radix4_invB (p' := v.1) (y := v.2.1) (r := v.2.2) h hB e) q hq

theorem stockhamSeen_invB {p : Planner T} (h : InvB cfg B p) (x : List (Cx T)) (hB : need x.length ≤ B) :
    ∀ q ∈ stockhamSeen cfg (fft cfg) (fftSeen cfg) p x, InvB cfg B q := by
  by_cases h2 : isPow2 x.length = true
  · exact stockhamSeen_pow2 _ _ h x h2 (by simpa [need, h2] using hB)
  · unfold stockhamSeen
    simp only
    split
    · simpa using h
    · rw [if_pos (by simpa using h2)]
      exact (fft_seenOk cfg).inv x h hB

theorem strategySeen_invB (st : Strategy) {p : Planner T} (h : InvB cfg B p) (x : List (Cx T)) (hB : need x.length ≤ B) :
    ∀ q ∈ strategySeen cfg st p x, InvB cfg B q := by
  unfold strategySeen
  simp only
  split
  · simpa using h
  split
  · simpa using h
  split
  · exact (fft_seenOk cfg).inv x h hB
  · split
    · exact radix4Seen_invB h x hB
    · exact (fft_seenOk cfg).inv x h hB
  · exact stockhamSeen_invB h x hB
  · exact (fft_seenOk cfg).inv x h hB

theorem splitSeen_invB {p : Planner T} (h : InvB cfg B p) (re im : List T) (hl : re.length = im.length)
    (hB : need re.length ≤ B) : ∀ q ∈ splitSimdSeen cfg (fft cfg) (fftSeen cfg) p re im, InvB cfg B q := by
  by_cases h2 : isPow2 re.length = true ∧ 16 < re.length
  · exact splitSeen_big _ _ h re im hl h2.1 h2.2 (by simpa [need, h2.1] using hB)
  · unfold splitSimdSeen
    simp only
    split
    · simpa using h
    · rw [if_pos (by
        rcases not_and_or.mp h2 with e | e
        · simp [e]
        · simp [Nat.le_of_not_lt e])]
      exact (fft_seenOk cfg).inv _ h (by simpa [hl] using hB)

omit [Flt T] in
theorem gather_len (src : List (Cx T)) (stride n : Nat) (dst : List (Cx T)) :
    OPost (fun l : List (Cx T) => l.length = dst.length) (gather src stride n dst) := by
  unfold gather
  exact OPost.forRange (I := fun l : List (Cx T) => l.length = dst.length) rfl fun i l hl =>
    OPost.bind' fun v => OPost.wr.mono fun l' h => by rw [h, hl]

theorem stridedSeen_invB {seen : SeenOp T} (hs : SeenOk cfg seen) {p : Planner T} (h : InvB cfg B p) (x : List (Cx T)) (stride : Nat)
    (sc : List (Cx T)) (hB : 0 < stride → need sc.length ≤ B) : ∀ q ∈ stridedSeen seen p x stride sc, InvB cfg B q := by
  unfold stridedSeen
  split
  · simpa using h
  rename_i h0
  simp only
  split
  · simpa using h
  split
  · simpa using h
  simp only [List.mem_cons, forall_eq_or_imp]
  refine ⟨h, ?_⟩
  have hl := gather_len x stride sc.length sc
  revert hl
  cases gather x stride sc.length sc with
  | ok s => intro hl; exact hs.inv s h (by rw [hl s rfl]; exact hB (by omega))
  | panic => simp
  | hang => simp

theorem stridedAllocSeen_invB {op : FftOp T} {out} (ho : OpOk cfg op out) {seen : SeenOp T} (hs : SeenOk cfg seen) {p : Planner T}
    (h : InvB cfg B p) (x : List (Cx T)) (stride : Nat) (hB : need (x.length / stride) ≤ B) :
    ∀ q ∈ stridedAllocSeen op seen p x stride, InvB cfg B q := by
  unfold stridedAllocSeen
  simp only [List.mem_cons, List.mem_append, forall_eq_or_imp]
  refine ⟨h, invB_takeScratch h, fun q hq => ?_⟩
  rcases hq with hq | hq
  · refine stridedSeen_invB hs (invB_takeScratch h) x stride _ (fun hpos => ?_) q hq
    rw [if_neg (by omega), List.length_take, grow_length, Nat.min_eq_left (by omega)]
    exact hB
  · revert q
    exact leftBy_forall fun v e => stridedAlloc_invB ho h hB (p' := v.1) (y := v.2.1) (r := v.2.2) e

theorem oopStridedSeen_invB {op : FftOp T} {out} (ho : OpOk cfg op out) {seen : SeenOp T} (hs : SeenOk cfg seen) {p : Planner T}
    (h : InvB cfg B p) (x : List (Cx T)) (si : Nat) (o : List (Cx T)) (so : Nat) (hB : need (x.length / si) ≤ B) :
    ∀ q ∈ oopStridedSeen op seen p x si o so, InvB cfg B q := by
  unfold oopStridedSeen
  split
  · simpa using h
  split
  · simpa using h
  simp only
  split
  · simpa using h
  simp only [List.mem_cons, List.mem_append, forall_eq_or_imp]
  refine ⟨h, invB_takeScratch h, fun q hq => ?_⟩
  rcases hq with hq | hq
  · have hl := gather_len x si (x.length / si) (grow p.scratch (x.length / si) Cx.zero)
    revert hl hq
    cases gather x si (x.length / si) (grow p.scratch (x.length / si) Cx.zero) with
    | ok s =>
      intro hq hl
      refine hs.inv _ (invB_takeScratch h) ?_ q hq
      rw [List.length_take, hl s rfl, grow_length, Nat.min_eq_left (by omega)]
      exact hB
    | panic => simp
    | hang => simp
  · revert q
    exact leftBy_forall fun v e => oop_invB ho h hB (p' := v.1) (y := v.2.1) (r := v.2.2) e

end

theorem InvB.mono {cfg : Cfg} {B B' : Nat} {p : Planner T} (h : InvB cfg B p) (hB : B ≤ B') : InvB cfg B' p :=
  ⟨h.1, h.2.1.trans hB, h.2.2.trans hB⟩

theorem method_during_invB {cfg : Cfg} {B : Nat} {p : Planner T} (h : InvB cfg B p) (c : Method T) (hB : need c.size ≤ B) :
    ∀ q ∈ c.during cfg p, InvB cfg B q := by
  cases c with
  | plain inv x =>
    cases inv
    · exact (fft_seenOk cfg).inv x h hB
    · exact (ifft_seenOk cfg).inv x h hB
  | stockham x => exact stockhamSeen_invB h x hB
  | radix4 x => exact radix4Seen_invB h x hB
  | strategy st x => exact strategySeen_invB st h x hB
  | split inv re im =>
    cases inv
    · show ∀ q ∈ fftSplitSeen cfg p re im, _
      unfold fftSplitSeen
      split
      · simpa using h
      · rename_i hl
        have hl : re.length = im.length := by simpa using hl
        split
        · exact splitSeen_invB h re im hl hB
        · exact (fft_seenOk cfg).inv _ h (by simpa [hl, Method.size] using hB)
    · show ∀ q ∈ ifftSplitSeen cfg p re im, _
      unfold ifftSplitSeen
      split
      · simpa using h
      · rename_i hl
        have hl : re.length = im.length := by simpa using hl
        split
        · exact splitSeen_invB h re _ (by simpa using hl) hB
        · exact (ifft_seenOk cfg).inv _ h (by simpa [hl, Method.size] using hB)
  | strided inv x stride sc =>
    cases inv
    · exact stridedSeen_invB (fft_seenOk cfg) h x stride sc fun _ => hB
    · exact stridedSeen_invB (ifft_seenOk cfg) h x stride sc fun _ => hB
  | stridedAlloc inv x stride =>
    cases inv
    · exact stridedAllocSeen_invB (fft_opOk cfg) (fft_seenOk cfg) h x stride hB
    · exact stridedAllocSeen_invB (ifft_opOk cfg) (ifft_seenOk cfg) h x stride hB
  | oopStrided inv x si o so =>
    cases inv
    · exact oopStridedSeen_invB (fft_opOk cfg) (fft_seenOk cfg) h x si o so hB
    · exact oopStridedSeen_invB (ifft_opOk cfg) (ifft_seenOk cfg) h x si o so hB

/-! ### The first and the last of the listed contents -/

/-- The list begins with the planner on entry and contains the planner on return. -/
structure Traced (op : FftOp T) (seen : SeenOp T) : Prop where
  entry : ∀ p x, p ∈ seen p x
  exit : ∀ p x v, op p x = .ok v → v.1 ∈ seen p x

omit [Flt T] in
theorem leftBy_ok {β : Type} {o : Outcome (Planner T × β)} {v : Planner T × β} (e : o = .ok v) : v.1 ∈ leftBy o := by
  rw [e]; simp [leftBy]

theorem splitSeen_traced (cfg : Cfg) {op : FftOp T} {seen : SeenOp T} (h : Traced op seen) (p : Planner T) (re im : List T) :
    p ∈ splitSimdSeen cfg op seen p re im ∧
    ∀ v, splitSimd cfg op p re im = .ok v → v.1 ∈ splitSimdSeen cfg op seen p re im := by
  unfold splitSimdSeen
  simp only
  split
  · rename_i h0
    refine ⟨by simp, fun v e => ?_⟩
    unfold splitSimd at e
    simp only at e
    rw [if_pos h0] at e
    cases e; simp
  · rename_i h0
    split
    · rename_i h1
      refine ⟨h.entry _ _, fun v e => ?_⟩
      unfold splitSimd at e
      simp only at e
      rw [if_neg h0, if_pos h1] at e
      cases hq : op p (List.zipWith Cx.mk re im) with
      | ok w =>
        obtain ⟨p', b, r⟩ := w
        have := h.exit _ _ _ hq
        rw [hq] at e
        simp only [Outcome.bind_ok] at e
        cases r with
        | error er => cases e; exact this
        | ok u =>
          simp only at e
          revert e
          generalize forRange 0 re.length (re, im) _ = o
          cases o with
          | ok z => intro e; cases e; exact this
          | panic => intro e; cases e
          | hang => intro e; cases e
      | panic => rw [hq] at e; cases e
      | hang => rw [hq] at e; cases e
    · exact ⟨by simp, fun v e => by simp only [List.mem_cons]; exact Or.inr (Or.inr (Or.inr (leftBy_ok e)))⟩

theorem stockhamSeen_traced (cfg : Cfg) {op : FftOp T} {seen : SeenOp T} (h : Traced op seen) :
    Traced (stockham cfg op) (stockhamSeen cfg op seen) := by
  constructor
  · intro p x
    unfold stockhamSeen
    simp only
    split
    · simp
    split
    · exact h.entry _ _
    split
    · simp
    · simp
  · intro p x v e
    unfold stockhamSeen
    simp only
    have e' := e
    unfold stockham at e
    simp only at e
    split
    · rename_i h0; rw [if_pos h0] at e; cases e; simp
    · rename_i h0
      rw [if_neg h0] at e
      split
      · rename_i h1; rw [if_pos h1] at e; exact h.exit _ _ _ e
      · rename_i h1
        rw [if_neg h1] at e
        split
        · rename_i h2
          rw [if_pos h2] at e
          cases hk : smallKernel cfg x with
          | ok y => rw [hk] at e; cases e; simp
          | panic => rw [hk] at e; cases e
          | hang => rw [hk] at e; cases e
        · simp only [List.mem_cons, List.mem_append]
          exact Or.inr (Or.inr (Or.inr (Or.inr (leftBy_ok e'))))

theorem fftSeen_traced (cfg : Cfg) (f : Nat) : Traced (fftF cfg f) (fftSeenF (T := T) cfg f) := by
  induction f with
  | zero => exact ⟨fun p x => by simp [fftSeenF], fun p x v e => by cases e⟩
  | succ f ih =>
    constructor
    · intro p x
      show p ∈ fftSeenBody cfg _ _ p x
      unfold fftSeenBody
      simp only
      split
      · simp
      split
      · simp
      split
      · simp
      split
      · exact (stockhamSeen_traced cfg ih).entry _ _
      split
      · simp
      · simp [bluesteinSeen]
    · intro p x v e
      show v.1 ∈ fftSeenBody cfg _ _ p x
      change fftBody cfg (fftF cfg f) p x = _ at e
      unfold fftBody at e
      unfold fftSeenBody
      simp only at e ⊢
      split
      · rename_i h0; rw [if_pos h0] at e; cases e; simp
      rename_i h0
      rw [if_neg h0] at e
      split
      · rename_i h1; rw [if_pos h1] at e; cases e; simp
      rename_i h1
      rw [if_neg h1] at e
      split
      · rename_i h2
        rw [if_pos h2] at e
        cases hk : smallKernel cfg x with
        | ok y => rw [hk] at e; cases e; simp
        | panic => rw [hk] at e; cases e
        | hang => rw [hk] at e; cases e
      rename_i h2
      rw [if_neg h2] at e
      split
      · rename_i h3; rw [if_pos h3] at e; exact (stockhamSeen_traced cfg ih).exit _ _ _ e
      rename_i h3
      rw [if_neg h3] at e
      split
      · rename_i h4; rw [if_pos h4] at e; cases e; simp
      rename_i h4
      rw [if_neg h4] at e
      unfold bluesteinSeen
      simp only [List.mem_cons, List.mem_append]
      exact Or.inr (Or.inr (leftBy_ok e))

theorem fft_traced (cfg : Cfg) : Traced (fft cfg) (fftSeen (T := T) cfg) := fftSeen_traced cfg _

theorem ifft_traced (cfg : Cfg) : Traced (ifft cfg) (ifftSeen (T := T) cfg) := by
  constructor
  · intro p x
    unfold ifftSeen
    split
    · simp
    · exact (fft_traced cfg).entry _ _
  · intro p x v e
    unfold ifft ifftWith at e
    unfold ifftSeen
    simp only at e
    by_cases h0 : x.length = 0
    · rw [if_pos h0] at e; rw [if_pos (Or.inl h0)]; cases e; simp
    by_cases h1 : x.length = 1
    · rw [if_neg h0, if_pos h1] at e; rw [if_pos (Or.inr h1)]; cases e; simp
    rw [if_neg h0, if_neg h1] at e
    rw [if_neg (by tauto)]
    cases hq : fft cfg p (x.map Cx.conj) with
    | ok w =>
      have := (fft_traced cfg).exit _ _ _ hq
      obtain ⟨p', b, r⟩ := w
      rw [hq] at e
      cases r <;> · cases e; exact this
    | panic => rw [hq] at e; cases e
    | hang => rw [hq] at e; cases e

theorem radix4_traced (cfg : Cfg) : Traced (fftRadix4 cfg) (radix4Seen (T := T) cfg) := by
  constructor
  · intro p x
    unfold radix4Seen
    simp only
    split
    · exact (fft_traced cfg).entry _ _
    · refine List.mem_append_left _ ?_
      cases (List.range (x.length.log2 / 2 - 1)).map fun k => 4 ^ (k + 2) <;> simp [twSeen]
  · intro p x v e
    unfold radix4Seen
    simp only
    split
    · rename_i h
      unfold fftRadix4 at e
      simp only at e
      rw [if_pos h] at e
      exact (fft_traced cfg).exit _ _ _ e
    · exact List.mem_append_right _ (leftBy_ok e)

theorem strategy_traced (cfg : Cfg) (st : Strategy) : Traced (fftWithStrategy cfg st) (strategySeen (T := T) cfg st) := by
  constructor
  · intro p x
    unfold strategySeen
    simp only
    split
    · simp
    split
    · simp
    split
    · exact (fft_traced cfg).entry _ _
    · split
      · exact (radix4_traced cfg).entry _ _
      · exact (fft_traced cfg).entry _ _
    · exact (stockhamSeen_traced cfg (fft_traced cfg)).entry _ _
    · exact (fft_traced cfg).entry _ _
  · intro p x v e
    unfold fftWithStrategy at e
    unfold strategySeen
    simp only at e ⊢
    split
    · rename_i h0; rw [if_pos h0] at e; cases e; simp
    rename_i h0
    rw [if_neg h0] at e
    split
    · rename_i h1; rw [if_pos h1] at e; cases e; simp
    rename_i h1
    rw [if_neg h1] at e
    revert e
    generalize (if st = Strategy.Auto then planStrategy x.length else st) = ch
    intro e
    cases ch with
    | Radix2 => exact (fft_traced cfg).exit _ _ _ e
    | Radix4 =>
      simp only at e ⊢
      split
      · rename_i hs; rw [if_pos hs] at e; exact (radix4_traced cfg).exit _ _ _ e
      · rename_i hs; rw [if_neg hs] at e; exact (fft_traced cfg).exit _ _ _ e
    | SplitRadix => exact (stockhamSeen_traced cfg (fft_traced cfg)).exit _ _ _ e
    | Auto => exact (fft_traced cfg).exit _ _ _ e

theorem splitVia_traced {op : FftOp T} {seen : SeenOp T} (h : Traced op seen) (p : Planner T) (re im : List T)
    (hl : re.length = im.length) (v) (e : splitVia op p re im = .ok v) : v.1 ∈ seen p (List.zipWith Cx.mk re im) := by
  unfold splitVia at e
  simp only [zip_loop re im hl, Outcome.bind_ok] at e
  cases hq : op p (List.zipWith Cx.mk re im) with
  | ok w =>
    have := h.exit _ _ _ hq
    obtain ⟨p', b, r⟩ := w
    rw [hq] at e
    simp only [Outcome.bind_ok] at e
    cases r with
    | error er => cases e; exact this
    | ok u =>
      simp only at e
      revert e
      generalize forRange 0 re.length (re, im) _ = o
      cases o with
      | ok z => intro e; cases e; exact this
      | panic => intro e; cases e
      | hang => intro e; cases e
  | panic => rw [hq] at e; cases e
  | hang => rw [hq] at e; cases e

theorem strided_traced {op : FftOp T} {seen : SeenOp T} (h : Traced op seen) (p : Planner T) (x : List (Cx T)) (stride : Nat)
    (sc : List (Cx T)) : p ∈ stridedSeen seen p x stride sc ∧
      ∀ v, strided op p x stride sc = .ok v → v.1 ∈ stridedSeen seen p x stride sc := by
  unfold stridedSeen
  refine ⟨?_, fun v e => ?_⟩
  · split
    · simp
    simp only
    split
    · simp
    split
    · simp
    · simp
  · unfold strided at e
    simp only at e ⊢
    split
    · rename_i h0; rw [if_pos h0] at e; cases e; simp
    rename_i h0
    rw [if_neg h0] at e
    split
    · rename_i h1; rw [if_pos h1] at e; cases e; simp
    rename_i h1
    rw [if_neg h1] at e
    split
    · rename_i h2; rw [if_pos h2] at e; cases e; simp
    rename_i h2
    rw [if_neg h2] at e
    refine List.mem_cons_of_mem _ ?_
    cases hg : gather x stride sc.length sc with
    | ok s =>
      rw [hg] at e
      simp only [Outcome.bind_ok] at e ⊢
      cases hq : op p s with
      | ok w =>
        have := h.exit _ _ _ hq
        obtain ⟨p', b, r⟩ := w
        rw [hq] at e
        simp only [Outcome.bind_ok] at e
        cases r with
        | error er => cases e; exact this
        | ok u =>
          simp only at e
          revert e
          cases scatter b stride sc.length x with
          | ok z => intro e; cases e; exact this
          | panic => intro e; cases e
          | hang => intro e; cases e
      | panic => rw [hq] at e; cases e
      | hang => rw [hq] at e; cases e
    | panic => rw [hg] at e; cases e
    | hang => rw [hg] at e; cases e

theorem method_entry (cfg : Cfg) (p : Planner T) (c : Method T) : p ∈ c.during cfg p := by
  cases c with
  | plain inv x =>
    cases inv
    · exact (fft_traced cfg).entry _ _
    · exact (ifft_traced cfg).entry _ _
  | stockham x => exact (stockhamSeen_traced cfg (fft_traced cfg)).entry _ _
  | radix4 x => exact (radix4_traced cfg).entry _ _
  | strategy st x => exact (strategy_traced cfg st).entry _ _
  | split inv re im =>
    cases inv
    · show p ∈ fftSplitSeen cfg p re im
      unfold fftSplitSeen
      split
      · simp
      split
      · exact (splitSeen_traced cfg (fft_traced cfg) _ _ _).1
      · exact (fft_traced cfg).entry _ _
    · show p ∈ ifftSplitSeen cfg p re im
      unfold ifftSplitSeen
      split
      · simp
      split
      · exact (splitSeen_traced cfg (fft_traced cfg) _ _ _).1
      · exact (ifft_traced cfg).entry _ _
  | strided inv x stride sc =>
    cases inv
    · exact (strided_traced (fft_traced cfg) _ _ _ _).1
    · exact (strided_traced (ifft_traced cfg) _ _ _ _).1
  | stridedAlloc inv x stride => cases inv <;> exact List.mem_cons_self ..
  | oopStrided inv x si o so =>
    have : ∀ (op : FftOp T) (seen : SeenOp T), p ∈ oopStridedSeen op seen p x si o so := by
      intro op seen
      unfold oopStridedSeen
      split
      · simp
      split
      · simp
      simp only
      split
      · simp
      · simp
    exact this _ _

theorem after_split {β : Type} {o : Outcome (Planner T × β)} {q : Planner T} (e : (o >>= fun v => Outcome.ok v.1) = .ok q) :
    ∃ v, o = .ok v ∧ v.1 = q := by
  cases o with
  | ok v => exact ⟨v, rfl, by cases e; rfl⟩
  | panic => cases e
  | hang => cases e

theorem method_exit (cfg : Cfg) (p q : Planner T) (c : Method T) (e : c.after cfg p = .ok q) : q ∈ c.during cfg p := by
  cases c with
  | plain inv x =>
    obtain ⟨v, hv, rfl⟩ := after_split e
    cases inv
    · exact (fft_traced cfg).exit _ _ _ hv
    · exact (ifft_traced cfg).exit _ _ _ hv
  | stockham x =>
    obtain ⟨v, hv, rfl⟩ := after_split e
    exact (stockhamSeen_traced cfg (fft_traced cfg)).exit _ _ _ hv
  | radix4 x =>
    obtain ⟨v, hv, rfl⟩ := after_split e
    exact (radix4_traced cfg).exit _ _ _ hv
  | strategy st x =>
    obtain ⟨v, hv, rfl⟩ := after_split e
    exact (strategy_traced cfg st).exit _ _ _ hv
  | split inv re im =>
    obtain ⟨v, hv, rfl⟩ := after_split e
    cases inv
    · change fftSplit cfg p re im = _ at hv
      show _ ∈ fftSplitSeen cfg p re im
      unfold fftSplit at hv
      unfold fftSplitSeen
      split
      · rename_i h; rw [if_pos h] at hv; cases hv; simp
      rename_i h
      rw [if_neg h] at hv
      split
      · rename_i h1; rw [if_pos h1] at hv; exact (splitSeen_traced cfg (fft_traced cfg) _ _ _).2 _ hv
      · rename_i h1; rw [if_neg h1] at hv
        exact splitVia_traced (fft_traced cfg) _ _ _ (by simpa using h) _ hv
    · change ifftSplit cfg p re im = _ at hv
      show _ ∈ ifftSplitSeen cfg p re im
      unfold ifftSplit at hv
      unfold ifftSplitSeen
      split
      · rename_i h; rw [if_pos h] at hv; cases hv; simp
      rename_i h
      rw [if_neg h] at hv
      split
      · rename_i h1
        rw [if_pos h1] at hv
        simp only at hv
        cases hq : splitSimd cfg (fft cfg) p re (im.map Flt.neg) with
        | ok w =>
          have := (splitSeen_traced cfg (fft_traced cfg) _ _ _).2 _ hq
          obtain ⟨p', a, b, r⟩ := w
          rw [hq] at hv
          cases r <;> · cases hv; exact this
        | panic => rw [hq] at hv; cases hv
        | hang => rw [hq] at hv; cases hv
      · rename_i h1; rw [if_neg h1] at hv
        exact splitVia_traced (ifft_traced cfg) _ _ _ (by simpa using h) _ hv
  | strided inv x stride sc =>
    obtain ⟨v, hv, rfl⟩ := after_split e
    cases inv
    · exact (strided_traced (fft_traced cfg) _ _ _ _).2 _ hv
    · exact (strided_traced (ifft_traced cfg) _ _ _ _).2 _ hv
  | stridedAlloc inv x stride =>
    obtain ⟨v, hv, rfl⟩ := after_split e
    exact List.mem_cons_of_mem _ (List.mem_cons_of_mem _ (List.mem_append_right _ (leftBy_ok hv)))
  | oopStrided inv x si o so =>
    obtain ⟨v, hv, rfl⟩ := after_split e
    show _ ∈ oopStridedSeen _ _ p x si o so
    have hv' := hv
    unfold oopStrided at hv
    unfold oopStridedSeen
    simp only at hv ⊢
    split
    · rename_i h; rw [if_pos h] at hv; cases hv; simp
    rename_i h
    rw [if_neg h] at hv
    split
    · rename_i h1; rw [if_pos h1] at hv; cases hv; simp
    rename_i h1
    rw [if_neg h1] at hv
    split
    · rename_i h2; rw [if_pos h2] at hv; cases hv; simp
    · exact List.mem_cons_of_mem _ (List.mem_cons_of_mem _ (List.mem_append_right _ (leftBy_ok hv')))

/-! ### Sessions -/

theorem survives_invB {cfg : Cfg} {L : Nat → Prop} {B : Nat} (hL : ∀ n, L n → need n ≤ B) {p : Planner T}
    (h : Survives cfg L p) : InvB cfg B p := by
  induction h with
  | new => exact ⟨inv_new cfg, Nat.zero_le _, Nat.zero_le _⟩
  | returned c _ hl e ih => exact method_during_invB ih c (hL _ hl) _ (method_exit cfg _ _ c e)
  | abandoned c _ hl e ih => exact method_during_invB ih c (hL _ hl) _ e

theorem survives_inv {cfg : Cfg} {L : Nat → Prop} {p : Planner T} (h : Survives cfg L p) : Inv cfg p := by
  have : ∃ B, InvB cfg B p := by
    induction h with
    | new => exact ⟨0, inv_new cfg, Nat.zero_le _, Nat.zero_le _⟩
    | returned c _ hl e ih =>
      obtain ⟨B, hB⟩ := ih
      exact ⟨max B (need c.size), method_during_invB (hB.mono (le_max_left _ _)) c (le_max_right _ _) _ (method_exit cfg _ _ c e)⟩
    | abandoned c _ hl e ih =>
      obtain ⟨B, hB⟩ := ih
      exact ⟨max B (need c.size), method_during_invB (hB.mono (le_max_left _ _)) c (le_max_right _ _) _ e⟩
  exact this.choose_spec.1

end Kofft
