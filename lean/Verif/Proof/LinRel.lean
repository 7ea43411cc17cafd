import Verif.Spec.Linear
import Verif.Lib.ORel
/-
Linear relations through the transforms, statement by statement.
-/
namespace Kofft
open Spec

variable {T : Type} [F : Flt T] {R : T → T → Prop}

namespace Spec.LinRel

theorem czero (h : LinRel R) : CxRel R Cx.zero Cx.zero := ⟨h.zero, h.zero⟩
theorem cadd (h : LinRel R) {a b a' b' : Cx T} (h1 : CxRel R a a') (h2 : CxRel R b b') :
    CxRel R (a.add b) (a'.add b') := ⟨h.add h1.1 h2.1, h.add h1.2 h2.2⟩
theorem csub (h : LinRel R) {a b a' b' : Cx T} (h1 : CxRel R a a') (h2 : CxRel R b b') :
    CxRel R (a.sub b) (a'.sub b') := ⟨h.sub h1.1 h2.1, h.sub h1.2 h2.2⟩
theorem cconj (h : LinRel R) {a a' : Cx T} (h1 : CxRel R a a') : CxRel R a.conj a'.conj := ⟨h1.1, h.neg h1.2⟩
theorem cmulPlain (h : LinRel R) {a a' : Cx T} (c : Cx T) (h1 : CxRel R a a') :
    CxRel R (a.mulPlain c) (a'.mulPlain c) :=
  ⟨h.sub (h.mul _ h1.1) (h.mul _ h1.2), h.add (h.mul _ h1.1) (h.mul _ h1.2)⟩
theorem cmul (h : LinRel R) {a a' : Cx T} (c : Cx T) (h1 : CxRel R a a') : CxRel R (a.mul c) (a'.mul c) := by
  unfold Cx.mul
  split
  · exact ⟨h.mulAdd _ h1.1 (h.neg (h.mul _ h1.2)), h.mulAdd _ h1.1 (h.mul _ h1.2)⟩
  · exact h.cmulPlain c h1
theorem cmulLeft (h : LinRel R) {a a' : Cx T} (c : Cx T) (h1 : CxRel R a a') : CxRel R (c.mul a) (c.mul a') := by
  unfold Cx.mul
  split
  · exact ⟨h.mulAddLeft _ h1.1 (h.neg (h.mulLeft _ h1.2)), h.mulAddLeft _ h1.2 (h.mulLeft _ h1.1)⟩
  · exact ⟨h.sub (h.mulLeft _ h1.1) (h.mulLeft _ h1.2), h.add (h.mulLeft _ h1.2) (h.mulLeft _ h1.1)⟩
theorem cscale (h : LinRel R) {a b : Cx T} (hab : CxRel R a b) (s : T) :
    CxRel R (Cx.mk (a.re *. s) (a.im *. s)) (Cx.mk (b.re *. s) (b.im *. s)) :=
  ⟨h.mul s hab.1, h.mul s hab.2⟩

end Spec.LinRel

/-- Every number a transformer stores is related to the corresponding one of the other transformer; tables are equal. -/
structure PlRel (R : T → T → Prop) (p q : Planner T) : Prop where
  cache : p.cache = q.cache
  blu : p.blu = q.blu
  scratch : BufRel R p.scratch q.scratch
  bluScratch : BufRel R p.bluScratch q.bluScratch
  splitRe : List.Forall₂ R p.splitRe q.splitRe
  splitIm : List.Forall₂ R p.splitIm q.splitIm
  splitScratchRe : List.Forall₂ R p.splitScratchRe q.splitScratchRe
  splitScratchIm : List.Forall₂ R p.splitScratchIm q.splitScratchIm

omit F in
theorem plRel_new : PlRel R (Planner.new : Planner T) Planner.new :=
  ⟨rfl, rfl, .nil, .nil, .nil, .nil, .nil, .nil⟩

/-- Result of an in-place call. -/
abbrev OpOut (S : Type) (Sr : S → S → Prop) (R : T → T → Prop) (a b : S × List (Cx T) × Res) : Prop :=
  Sr a.1 b.1 ∧ BufRel R a.2.1 b.2.1 ∧ a.2.2 = b.2.2

/-- Result of an in-place call on separate real and imaginary parts. -/
abbrev SplitOut (S : Type) (Sr : S → S → Prop) (R : T → T → Prop) (a b : S × List T × List T × Res) : Prop :=
  Sr a.1 b.1 ∧ List.Forall₂ R a.2.1 b.2.1 ∧ List.Forall₂ R a.2.2.1 b.2.2.1 ∧ a.2.2.2 = b.2.2.2

/-- An operation that respects the relation. -/
def OpRel (S : Type) (Sr : S → S → Prop) (R : T → T → Prop)
    (op : S → List (Cx T) → Outcome (S × List (Cx T) × Res)) : Prop :=
  ∀ s s' x x', Sr s s' → BufRel R x x' → ORel (OpOut S Sr R) (op s x) (op s' x')

/-! ### Small kernels -/

theorem fft2_rel (h : LinRel R) (d : Bool) {x x' : List (Cx T)} (hx : BufRel R x x') :
    ORel (BufRel R) (fft2 d x) (fft2 d x') := by
  rcases hx with _ | ⟨h0, _ | ⟨h1, ht⟩⟩
  · trivial
  · trivial
  · unfold fft2
    have : ∀ l l' : List (Cx T), BufRel R l l' → l.isEmpty = l'.isEmpty := by
      rintro _ _ (_ | _) <;> rfl
    simp only []
    rw [this _ _ ht]
    exact ORel.ite (fun _ => trivial) fun _ => .cons (h.cadd h0 h1) (.cons (h.csub h0 h1) ht)

theorem bufRel_isEmpty {l l' : List (Cx T)} (h : BufRel R l l') : l.isEmpty = l'.isEmpty := by
  rcases h with _ | _ <;> rfl

theorem fft4_rel (h : LinRel R) (d : Bool) {x x' : List (Cx T)} (hx : BufRel R x x') :
    ORel (BufRel R) (fft4 d x) (fft4 d x') := by
  rcases hx with _ | ⟨h0, _ | ⟨h1, _ | ⟨h2, _ | ⟨h3, ht⟩⟩⟩⟩ <;> try trivial
  unfold fft4
  simp only []
  rw [bufRel_isEmpty ht]
  refine ORel.ite (fun _ => trivial) fun _ => .cons ?_ (.cons ?_ (.cons ?_ (.cons ?_ ht))) <;>
    apply_rules [h.cadd, h.csub, h.cmul]

theorem fft8_rel (h : LinRel R) (d : Bool) {x x' : List (Cx T)} (hx : BufRel R x x') :
    ORel (BufRel R) (fft8 d x) (fft8 d x') := by
  rcases hx with _ | ⟨h0, _ | ⟨h1, _ | ⟨h2, _ | ⟨h3, _ | ⟨h4, _ | ⟨h5, _ | ⟨h6, _ | ⟨h7, ht⟩⟩⟩⟩⟩⟩⟩⟩ <;>
    try trivial
  unfold fft8
  simp only []
  rw [bufRel_isEmpty ht]
  refine ORel.ite (fun _ => trivial) fun _ => .cons ?_ (.cons ?_ (.cons ?_ (.cons ?_ (.cons ?_ (.cons ?_
    (.cons ?_ (.cons ?_ ht))))))) <;> apply_rules [h.cadd, h.csub, h.cmul]

theorem fft16Half_rel (h : LinRel R) {x0 x1 x2 x3 x4 x5 x6 x7 y0 y1 y2 y3 y4 y5 y6 y7 : Cx T}
    (h0 : CxRel R x0 y0) (h1 : CxRel R x1 y1) (h2 : CxRel R x2 y2) (h3 : CxRel R x3 y3)
    (h4 : CxRel R x4 y4) (h5 : CxRel R x5 y5) (h6 : CxRel R x6 y6) (h7 : CxRel R x7 y7) :
    let a := fft16Half x0 x1 x2 x3 x4 x5 x6 x7
    let b := fft16Half y0 y1 y2 y3 y4 y5 y6 y7
    CxRel R a.1 b.1 ∧ CxRel R a.2.1 b.2.1 ∧ CxRel R a.2.2.1 b.2.2.1 ∧ CxRel R a.2.2.2.1 b.2.2.2.1 ∧
    CxRel R a.2.2.2.2.1 b.2.2.2.2.1 ∧ CxRel R a.2.2.2.2.2.1 b.2.2.2.2.2.1 ∧
    CxRel R a.2.2.2.2.2.2.1 b.2.2.2.2.2.2.1 ∧ CxRel R a.2.2.2.2.2.2.2 b.2.2.2.2.2.2.2 := by
  simp only [fft16Half]
  refine ⟨?_, ?_, ?_, ?_, ?_, ?_, ?_, ?_⟩ <;> apply_rules [h.cadd, h.csub, h.cmul]

theorem fft16_rel (h : LinRel R) (d : Bool) {x x' : List (Cx T)} (hx : BufRel R x x') :
    ORel (BufRel R) (fft16 d x) (fft16 d x') := by
  rcases hx with _ | @⟨x0, y0, _, _, h0, _ | @⟨x1, y1, _, _, h1, _ | @⟨x2, y2, _, _, h2, _ | @⟨x3, y3, _, _, h3,
    _ | @⟨x4, y4, _, _, h4, _ | @⟨x5, y5, _, _, h5, _ | @⟨x6, y6, _, _, h6, _ | @⟨x7, y7, _, _, h7,
    _ | @⟨x8, y8, _, _, h8, _ | @⟨x9, y9, _, _, h9, _ | @⟨x10, y10, _, _, h10, _ | @⟨x11, y11, _, _, h11,
    _ | @⟨x12, y12, _, _, h12, _ | @⟨x13, y13, _, _, h13, _ | @⟨x14, y14, _, _, h14, _ | @⟨x15, y15, _, _, h15, ht⟩⟩⟩⟩⟩⟩⟩⟩⟩⟩⟩⟩⟩⟩⟩⟩ <;>
    try trivial
  obtain ⟨a0, a1, a2, a3, a4, a5, a6, a7⟩ := fft16Half_rel h h0 h2 h4 h6 h8 h10 h12 h14
  obtain ⟨b0, b1, b2, b3, b4, b5, b6, b7⟩ := fft16Half_rel h h1 h3 h5 h7 h9 h11 h13 h15
  unfold fft16
  simp only []
  rw [bufRel_isEmpty ht]
  refine ORel.ite (fun _ => trivial) fun _ => ?_
  generalize fft16Half x0 x2 x4 x6 x8 x10 x12 x14 = ex at *
  generalize fft16Half y0 y2 y4 y6 y8 y10 y12 y14 = ey at *
  generalize fft16Half x1 x3 x5 x7 x9 x11 x13 x15 = ox at *
  generalize fft16Half y1 y3 y5 y7 y9 y11 y13 y15 = oy at *
  refine .cons ?_ (.cons ?_ (.cons ?_ (.cons ?_ (.cons ?_ (.cons ?_ (.cons ?_ (.cons ?_
    (.cons ?_ (.cons ?_ (.cons ?_ (.cons ?_ (.cons ?_ (.cons ?_ (.cons ?_ (.cons ?_ ht)))))))))))))))
  all_goals first | apply h.cadd | apply h.csub
  all_goals first | assumption | exact h.cmul _ (by assumption)

theorem smallKernel_rel (h : LinRel R) (cfg : Cfg) {x x' : List (Cx T)} (hx : BufRel R x x') :
    ORel (BufRel R) (smallKernel cfg x) (smallKernel cfg x') := by
  unfold smallKernel
  rw [← hx.length_eq]
  refine ORel.ite (fun _ => fft2_rel h _ hx) fun _ => ORel.ite (fun _ => fft4_rel h _ hx) fun _ =>
    ORel.ite (fun _ => fft8_rel h _ hx) fun _ => ORel.ite (fun _ => fft16_rel h _ hx) fun _ => trivial

/-! ### Stages -/

/-- Related pairs of real buffers. -/
abbrev PairRel (R : T → T → Prop) (a b : List T × List T) : Prop := List.Forall₂ R a.1 b.1 ∧ List.Forall₂ R a.2 b.2

theorem scalarButterfly_rel (h : LinRel R) (tw : Cx T) {sre sim sre' sim' : List T} (h1 : List.Forall₂ R sre sre')
    (h2 : List.Forall₂ R sim sim') (even odd dst0 dst1 j : Nat) {d d' : List T × List T} (hd : PairRel R d d') :
    ORel (PairRel R) (scalarButterfly tw sre sim even odd dst0 dst1 j d)
      (scalarButterfly tw sre' sim' even odd dst0 dst1 j d') := by
  unfold scalarButterfly
  refine ORel.bind (ORel.rd h1 _) fun er er' e1 => ORel.bind (ORel.rd h2 _) fun ei ei' e2 =>
    ORel.bind (ORel.rd h1 _) fun or or' e3 => ORel.bind (ORel.rd h2 _) fun oi oi' e4 => ?_
  have t1 : R ((or *. tw.re) -. (oi *. tw.im)) ((or' *. tw.re) -. (oi' *. tw.im)) := h.sub (h.mul _ e3) (h.mul _ e4)
  have t2 : R ((or *. tw.im) +. (oi *. tw.re)) ((or' *. tw.im) +. (oi' *. tw.re)) := h.add (h.mul _ e3) (h.mul _ e4)
  refine ORel.bind (ORel.wr hd.1 _ (h.add e1 t1)) fun _ _ f1 => ORel.bind (ORel.wr hd.2 _ (h.add e2 t2)) fun _ _ f2 =>
    ORel.bind (ORel.wr f1 _ (h.sub e1 t1)) fun _ _ f3 => ORel.bind (ORel.wr f2 _ (h.sub e2 t2)) fun _ _ f4 => ⟨f3, f4⟩

theorem simdBlock_rel (h : LinRel R) (W : Nat) (tw : Cx T) {sre sim sre' sim' : List T} (h1 : List.Forall₂ R sre sre')
    (h2 : List.Forall₂ R sim sim') (even odd dst0 dst1 j : Nat) {d d' : List T × List T} (hd : PairRel R d d') :
    ORel (PairRel R) (simdBlock W tw sre sim even odd dst0 dst1 j d)
      (simdBlock W tw sre' sim' even odd dst0 dst1 j d') := by
  unfold simdBlock
  refine ORel.bind (ORel.rdN h1 _ _) fun er er' e1 => ORel.bind (ORel.rdN h2 _ _) fun ei ei' e2 =>
    ORel.bind (ORel.rdN h1 _ _) fun or or' e3 => ORel.bind (ORel.rdN h2 _ _) fun oi oi' e4 => ?_
  have m3 := fun c : T => forall2_map (Q := R) e3 fun a b (hab : R a b) => h.mul c hab
  have m4 := fun c : T => forall2_map (Q := R) e4 fun a b (hab : R a b) => h.mul c hab
  have t1 := forall2_zipWith (S := R) (m3 tw.re) (m4 tw.im) fun a b c d ha hc => h.sub ha hc
  have t2 := forall2_zipWith (S := R) (m3 tw.im) (m4 tw.re) fun a b c d ha hc => h.add ha hc
  refine ORel.bind (ORel.wrN hd.1 _ (forall2_zipWith e1 t1 fun a b c d ha hc => h.add ha hc)) fun _ _ f1 =>
    ORel.bind (ORel.wrN hd.2 _ (forall2_zipWith e2 t2 fun a b c d ha hc => h.add ha hc)) fun _ _ f2 =>
    ORel.bind (ORel.wrN f1 _ (forall2_zipWith e1 t1 fun a b c d ha hc => h.sub ha hc)) fun _ _ f3 =>
    ORel.bind (ORel.wrN f2 _ (forall2_zipWith e2 t2 fun a b c d ha hc => h.sub ha hc)) fun _ _ f4 => ⟨f3, f4⟩

theorem splitGroup_rel (h : LinRel R) (W : Nat) (tw : Cx T) {sre sim sre' sim' : List T} (h1 : List.Forall₂ R sre sre')
    (h2 : List.Forall₂ R sim sim') (even odd dst0 dst1 n2 : Nat) {d d' : List T × List T} (hd : PairRel R d d') :
    ORel (PairRel R) (splitGroup W tw sre sim even odd dst0 dst1 n2 d)
      (splitGroup W tw sre' sim' even odd dst0 dst1 n2 d') := by
  unfold splitGroup
  simp only []
  have tail : ∀ a b : Nat × (List T × List T), a.1 = b.1 ∧ PairRel R a.2 b.2 → ORel (PairRel R)
      (forRange a.1 n2 a.2 fun j d => scalarButterfly tw sre sim even odd dst0 dst1 j d)
      (forRange b.1 n2 b.2 fun j d => scalarButterfly tw sre' sim' even odd dst0 dst1 j d) := by
    rintro ⟨i, s⟩ ⟨j, t⟩ ⟨e, hs⟩
    simp only at e hs ⊢
    subst e
    exact ORel.forRange hs fun i s t hst => scalarButterfly_rel h _ h1 h2 _ _ _ _ _ hst
  refine ORel.ite (fun _ => tail (0, d) (0, d') ⟨rfl, hd⟩) fun _ => ORel.bind (ORel.whileF ?_ ?_ _ _ _ ⟨rfl, hd⟩) tail
  · rintro ⟨i, s⟩ ⟨j, t⟩ ⟨e, -⟩
    simp only at e
    subst e; rfl
  · rintro ⟨i, s⟩ ⟨j, t⟩ ⟨e, hs⟩
    simp only at e hs ⊢
    subst e
    exact ORel.bind (simdBlock_rel h _ _ h1 h2 _ _ _ _ _ hs) fun a b hab => ⟨rfl, hab⟩

theorem splitStage_rel (h : LinRel R) (W : Nat) (tws : List (Cx T)) {sre sim sre' sim' : List T}
    (h1 : List.Forall₂ R sre sre') (h2 : List.Forall₂ R sim sim') (n1 n2 : Nat) {d d' : List T × List T}
    (hd : PairRel R d d') :
    ORel (PairRel R) (splitStage W tws sre sim n1 n2 d) (splitStage W tws sre' sim' n1 n2 d') := by
  unfold splitStage
  refine ORel.forRange hd fun k s t hst => ORel.bind (ORel.refl (rd tws (k * n2))) fun a b hab => ?_
  subst hab
  exact splitGroup_rel h _ _ h1 h2 _ _ _ _ _ hst

theorem cxStage_rel (h : LinRel R) (debug : Bool) (tws : List (Cx T)) {src src' : List (Cx T)} (h1 : BufRel R src src')
    (n1 n2 : Nat) {d d' : List (Cx T)} (hd : BufRel R d d') :
    ORel (BufRel R) (cxStage debug tws src n1 n2 d) (cxStage debug tws src' n1 n2 d') := by
  unfold cxStage
  refine ORel.forRange hd fun k s t hst => ORel.bind (ORel.refl (rd tws (k * n2))) fun a b hab => ?_
  subst hab
  refine ORel.bind (ORel.debugAssert _ (by rw [h1.length_eq])) fun _ _ _ =>
    ORel.bind (ORel.debugAssert _ (by rw [hst.length_eq])) fun _ _ _ =>
    ORel.bind (ORel.debugAssert _ (by rw [hst.length_eq])) fun _ _ _ => ORel.forRange hst fun j s t hst => ?_
  exact ORel.bind (ORel.rd h1 _) fun u u' hu => ORel.bind (ORel.rd h1 _) fun v v' hv =>
    ORel.bind (ORel.wr hst _ (h.cadd hu (h.cmul _ hv))) fun _ _ hw => ORel.wr hw _ (h.csub hu (h.cmul _ hv))

/-- Related states of the stage loops. -/
structure StRel {B : Type} (P : B → B → Prop) (s t : StageSt B) : Prop where
  src : P s.src t.src
  dst : P s.dst t.dst
  flag : s.srcIsInput = t.srcIsInput
  n1 : s.n1 = t.n1
  n2 : s.n2 = t.n2

theorem stageLoop_rel {B : Type} {P : B → B → Prop} (n : Nat) {f g : B → Nat → Nat → B → Outcome B}
    (h : ∀ src src' n1 n2 d d', P src src' → P d d' → ORel P (f src n1 n2 d) (g src' n1 n2 d')) {s t : StageSt B}
    (hs : StRel P s t) : ORel (StRel P) (stageLoop n f s) (stageLoop n g t) := by
  unfold stageLoop
  refine ORel.whileF (fun s t hst => by rw [hst.n1]) (fun s t hst => ?_) _ _ _ hs
  simp only []
  rw [hst.n1, hst.n2]
  exact ORel.bind (h _ _ _ _ _ _ hst.src hst.dst) fun a b hab => ⟨hab, hst.src, by rw [hst.flag], rfl, rfl⟩

theorem zipMk_rel {a b c d : List T} (h1 : List.Forall₂ R a b) (h2 : List.Forall₂ R c d) :
    BufRel R (List.zipWith Cx.mk a c) (List.zipWith Cx.mk b d) :=
  forall2_zipWith h1 h2 fun _ _ _ _ ha hc => ⟨ha, hc⟩

theorem zipBack_rel {x x' : List (Cx T)} (hx : BufRel R x x') {a b c d : List T} (h1 : List.Forall₂ R a b)
    (h2 : List.Forall₂ R c d) : BufRel R (zipBack x a c) (zipBack x' b d) := by
  induction hx generalizing a b c d with
  | nil => simp [zipBack]
  | cons h0 ht ih =>
    rcases h1 with _ | ⟨e1, t1⟩
    · simp only [zipBack]; exact .cons h0 ht
    · rcases h2 with _ | ⟨e2, t2⟩
      · simp only [zipBack]; exact .cons h0 ht
      · simp only [zipBack]; exact .cons ⟨e1, e2⟩ (ih t1 t2)

/-- The loop that copies a buffer back to separate real and imaginary parts. -/
theorem splitBack_rel {buf buf' : List (Cx T)} (hb : BufRel R buf buf') (n : Nat) {s t : List T × List T}
    (hs : PairRel R s t) :
    ORel (PairRel R) (forRange 0 n s fun i s => do
        let c ← rd buf i
        let re ← wr s.1 i c.re
        let im ← wr s.2 i c.im
        pure (re, im))
      (forRange 0 n t fun i s => do
        let c ← rd buf' i
        let re ← wr s.1 i c.re
        let im ← wr s.2 i c.im
        pure (re, im)) :=
  ORel.forRange hs fun _ _ _ hst => ORel.bind (ORel.rd hb _) fun _ _ hc =>
    ORel.bind (ORel.wr hst.1 _ hc.1) fun _ _ h1 => ORel.bind (ORel.wr hst.2 _ hc.2) fun _ _ h2 => ⟨h1, h2⟩

/-! ### Twiddles -/

theorem getTwiddles_rel (cfg : Cfg) {p q : Planner T} (h : PlRel R p q) (n : Nat) :
    PlRel R (p.getTwiddles cfg n).1 (q.getTwiddles cfg n).1 ∧ (p.getTwiddles cfg n).2 = (q.getTwiddles cfg n).2 := by
  unfold Planner.getTwiddles
  cases preLookup (T := T) cfg n with
  | some t => exact ⟨h, rfl⟩
  | none =>
    simp only []
    rw [h.cache]
    cases q.cache n with
    | some t => exact ⟨h, rfl⟩
    | none => exact ⟨{ h with cache := by simp only [] }, rfl⟩

theorem getBluestein_rel (fft : FftOp T) {p q : Planner T} (h : PlRel R p q) (n : Nat) :
    ORel (fun a b => PlRel R a.1 b.1 ∧ a.2 = b.2) (p.getBluestein fft n) (q.getBluestein fft n) := by
  unfold Planner.getBluestein
  rw [h.blu]
  cases q.blu n with
  | some t => exact ⟨h, rfl⟩
  | none =>
    simp only []
    refine ORel.ite (fun _ => trivial) fun _ => ORel.bind (ORel.refl _) fun a b hab => ?_
    subst hab
    refine ORel.bind (ORel.refl _) fun a b hab => ?_
    subst hab
    obtain ⟨_, bf, r⟩ := a
    cases r with
    | error e => trivial
    | ok u => exact ⟨{ h with blu := by simp only [] }, rfl⟩

/-! ### `fft` -/

theorem splitSimd_rel (h : LinRel R) (cfg : Cfg) {fft : FftOp T} (hf : OpRel _ (PlRel R) R fft) {p q : Planner T}
    (hp : PlRel R p q) {re im re' im' : List T} (h1 : List.Forall₂ R re re') (h2 : List.Forall₂ R im im') :
    ORel (SplitOut _ (PlRel R) R) (splitSimd cfg fft p re im) (splitSimd cfg fft q re' im') := by
  unfold splitSimd
  simp only []
  rw [← h1.length_eq]
  refine ORel.ite (fun _ => ⟨hp, h1, h2, rfl⟩) fun _ => ORel.ite (fun _ => ?_) fun _ => ?_
  · refine ORel.bind (hf _ _ _ _ hp (zipMk_rel h1 h2)) ?_
    rintro ⟨p, b, r⟩ ⟨q, b', r'⟩ ⟨i1, i2, i3⟩
    simp only at i1 i2 i3 ⊢
    subst i3
    cases r with
    | error e => exact ⟨i1, h1, h2, rfl⟩
    | ok u => exact ORel.bind (splitBack_rel i2 _ ⟨h1, h2⟩) fun a b hab => ⟨i1, hab.1, hab.2, rfl⟩
  · obtain ⟨g1, g2⟩ := getTwiddles_rel cfg hp re.length
    generalize p.getTwiddles cfg re.length = a at *
    generalize q.getTwiddles cfg re.length = b at *
    obtain ⟨p, tws⟩ := a
    obtain ⟨q, tws'⟩ := b
    simp only at g1 g2 ⊢
    subst g2
    refine ORel.bind (stageLoop_rel (P := PairRel R) _ (fun src src' n1 n2 d d' hs hd =>
      splitStage_rel h _ _ hs.1 hs.2 n1 n2 hd) ⟨⟨h1, h2⟩, ⟨forall2_grow g1.splitScratchRe h.zero _,
        forall2_grow g1.splitScratchIm h.zero _⟩, rfl, rfl, rfl⟩) fun s t hst => ?_
    rw [hst.flag]
    refine ORel.ite (fun _ => ?_) fun _ => ?_
    · exact ⟨{ g1 with splitScratchRe := hst.dst.1, splitScratchIm := hst.dst.2 }, hst.src.1, hst.src.2, rfl⟩
    · refine ORel.bind (ORel.copyN hst.src.1 hst.dst.1 _) fun a b hab =>
        ORel.bind (ORel.copyN hst.src.2 hst.dst.2 _) fun c d hcd => ?_
      exact ⟨{ g1 with splitScratchRe := hst.src.1, splitScratchIm := hst.src.2 }, hab, hcd, rfl⟩

theorem stockham_rel (h : LinRel R) (cfg : Cfg) {fft : FftOp T} (hf : OpRel _ (PlRel R) R fft) :
    OpRel _ (PlRel R) R (stockham cfg fft) := by
  intro p q x x' hp hx
  unfold stockham
  simp only []
  rw [← hx.length_eq]
  refine ORel.ite (fun _ => ⟨hp, hx, rfl⟩) fun _ => ORel.ite (fun _ => hf _ _ _ _ hp hx) fun _ =>
    ORel.ite (fun _ => ORel.bind (smallKernel_rel h cfg hx) fun a b hab => ⟨hp, hab, rfl⟩) fun _ => ?_
  obtain ⟨g1, g2⟩ := getTwiddles_rel cfg hp x.length
  generalize p.getTwiddles cfg x.length = a at *
  generalize q.getTwiddles cfg x.length = b at *
  obtain ⟨p, tws⟩ := a
  obtain ⟨q, tws'⟩ := b
  simp only at g1 g2 ⊢
  subst g2
  have k1 := forall2_grow g1.scratch h.czero x.length
  have k2 := forall2_grow g1.splitRe h.zero x.length
  have k3 := forall2_grow g1.splitIm h.zero x.length
  refine ORel.ite (fun _ => ?_) fun _ => ?_
  · refine ORel.bind (splitSimd_rel h cfg hf (p := { p with scratch := [], splitRe := [], splitIm := [] })
      (q := { q with scratch := [], splitRe := [], splitIm := [] })
      { g1 with scratch := .nil, splitRe := .nil, splitIm := .nil }
      (forall2_copyPrefix (forall2_map (Q := R) hx fun a b hab => hab.1) k2)
      (forall2_copyPrefix (forall2_map (Q := R) hx fun a b hab => hab.2) k3)) ?_
    rintro ⟨p, sre, sim, r⟩ ⟨q, sre', sim', r'⟩ ⟨i1, i2, i3, i4⟩
    simp only at i1 i2 i3 i4 ⊢
    subst i4
    cases r with
    | error e => exact ⟨i1, hx, rfl⟩
    | ok u => exact ⟨{ i1 with scratch := k1, splitRe := i2, splitIm := i3 }, zipBack_rel hx i2 i3, rfl⟩
  · refine ORel.bind (stageLoop_rel (P := BufRel R) _ (fun src src' n1 n2 d d' hs hd =>
      cxStage_rel h _ _ hs n1 n2 hd) ⟨hx, forall2_take k1 _, rfl, rfl, rfl⟩) fun s t hst => ?_
    rw [hst.flag]
    refine ORel.ite (fun _ => ?_) fun _ => ?_
    · exact ⟨{ g1 with scratch := forall2_append hst.dst (forall2_drop k1 _), splitRe := k2, splitIm := k3 }, hst.src, rfl⟩
    · refine ORel.bind (ORel.copyN hst.src hst.dst _) fun a b hab => ?_
      exact ⟨{ g1 with scratch := forall2_append hst.src (forall2_drop k1 _), splitRe := k2, splitIm := k3 }, hab, rfl⟩

theorem chirpMul_rel (h : LinRel R) {x x' a a' : List (Cx T)} (hx : BufRel R x x') (ha : BufRel R a a') (c : List (Cx T))
    (n : Nat) :
    ORel (BufRel R) (forRange 0 n a fun i a => do
        let v ← rd x i
        let c ← rd c i
        wr a i (v.mul c))
      (forRange 0 n a' fun i a => do
        let v ← rd x' i
        let c ← rd c i
        wr a i (v.mul c)) :=
  ORel.forRange ha fun _ _ _ hst => ORel.bind (ORel.rd hx _) fun _ _ hv => ORel.bind (ORel.refl (rd c _)) fun a b hab => by
    subst hab; exact ORel.wr hst _ (h.cmul _ hv)

theorem bluestein_rel (h : LinRel R) {fft : FftOp T} (hf : OpRel _ (PlRel R) R fft) :
    OpRel _ (PlRel R) R (bluestein fft) := by
  intro p q x x' hp hx
  unfold bluestein
  simp only []
  rw [← hx.length_eq]
  refine ORel.bind (getBluestein_rel fft hp _) ?_
  rintro ⟨p, chirp, fb⟩ ⟨q, chirp', fb'⟩ ⟨g1, g2⟩
  simp only [Prod.mk.injEq] at g1 g2 ⊢
  obtain ⟨rfl, rfl⟩ := g2
  refine ORel.bind (chirpMul_rel h hx (forall2_grow g1.bluScratch h.czero _) chirp _) fun a a' ha => ?_
  rw [← ha.length_eq]
  refine ORel.ite (fun _ => ?_) fun _ => trivial
  refine ORel.bind (ORel.forRange ha fun _ _ _ hst => ORel.wr hst _ h.czero) fun a a' ha => ?_
  refine ORel.bind (hf { p with bluScratch := [] } { q with bluScratch := [] } _ _ { g1 with bluScratch := .nil } ha) ?_
  rintro ⟨p, a, r⟩ ⟨q, a', r'⟩ ⟨i1, i2, i3⟩
  simp only at i1 i2 i3 ⊢
  subst i3
  cases r with
  | error e => exact ⟨i1, hx, rfl⟩
  | ok u =>
    simp only []
    have hm : BufRel R ((copyPrefix (List.zipWith Cx.mul a fb) a).map Cx.conj)
        ((copyPrefix (List.zipWith Cx.mul a' fb) a').map Cx.conj) :=
      forall2_map (forall2_copyPrefix (forall2_zipWith (S := CxRel R) i2 (forall2_refl fb) fun _ _ _ _ hab hcd => by
        subst hcd; exact h.cmul _ hab) i2) fun _ _ => h.cconj
    refine ORel.bind (hf _ _ _ _ i1 hm) ?_
    rintro ⟨p, a, r⟩ ⟨q, a', r'⟩ ⟨i1, i2, i3⟩
    simp only at i1 i2 i3 ⊢
    subst i3
    cases r with
    | error e => exact ⟨i1, hx, rfl⟩
    | ok u =>
      simp only []
      have hs := forall2_map (Q := CxRel R) (forall2_map (Q := CxRel R) i2 fun _ _ => h.cconj) fun _ _ hab =>
        h.cscale hab (Flt.one /. Flt.ofNat fb.length)
      exact ORel.bind (chirpMul_rel h hs hx chirp _) fun y y' hy => ⟨{ i1 with bluScratch := hs }, hy, rfl⟩

theorem fftBody_rel (h : LinRel R) (cfg : Cfg) {fft : FftOp T} (hf : OpRel _ (PlRel R) R fft) :
    OpRel _ (PlRel R) R (fftBody cfg fft) := by
  intro p q x x' hp hx
  unfold fftBody
  simp only []
  rw [← hx.length_eq]
  exact ORel.ite (fun _ => ⟨hp, hx, rfl⟩) fun _ => ORel.ite (fun _ => ⟨hp, hx, rfl⟩) fun _ =>
    ORel.ite (fun _ => ORel.bind (smallKernel_rel h cfg hx) fun a b hab => ⟨hp, hab, rfl⟩) fun _ =>
    ORel.ite (fun _ => stockham_rel h cfg hf _ _ _ _ hp hx) fun _ => ORel.ite (fun _ => ⟨hp, hx, rfl⟩) fun _ =>
    bluestein_rel h hf _ _ _ _ hp hx

theorem fftF_rel (h : LinRel R) (cfg : Cfg) : ∀ fuel, OpRel _ (PlRel R) R (fftF (T := T) cfg fuel)
  | 0 => fun _ _ _ _ _ _ => trivial
  | fuel + 1 => fftBody_rel h cfg (fftF_rel h cfg fuel)

theorem fft_rel (h : LinRel R) (cfg : Cfg) : OpRel _ (PlRel R) R (fft (T := T) cfg) := fftF_rel h cfg _

theorem stockhamFft_rel (h : LinRel R) (cfg : Cfg) : OpRel _ (PlRel R) R (stockhamFft (T := T) cfg) :=
  stockham_rel h cfg (fft_rel h cfg)

theorem ifftWith_rel (h : LinRel R) {op : FftOp T} (hf : OpRel _ (PlRel R) R op) :
    OpRel _ (PlRel R) R (ifftWith op) := by
  intro p q x x' hp hx
  unfold ifftWith
  simp only []
  rw [← hx.length_eq]
  refine ORel.ite (fun _ => ⟨hp, hx, rfl⟩) fun _ => ORel.ite (fun _ => ⟨hp, hx, rfl⟩) fun _ => ?_
  refine ORel.bind (hf _ _ _ _ hp (forall2_map hx fun _ _ => h.cconj)) ?_
  rintro ⟨p, a, r⟩ ⟨q, a', r'⟩ ⟨i1, i2, i3⟩
  simp only at i1 i2 i3 ⊢
  subst i3
  cases r with
  | error e => exact ⟨i1, i2, rfl⟩
  | ok u => exact ⟨i1, forall2_map i2 fun _ _ hab => h.cscale (h.cconj hab) _, rfl⟩

theorem ifft_rel (h : LinRel R) (cfg : Cfg) : OpRel _ (PlRel R) R (ifft (T := T) cfg) := ifftWith_rel h (fft_rel h cfg)

end Kofft
