import Verif.Proof.LinRelTrig
import Verif.Model.Stft
/-
Linear relations through the short-time transforms: the windows, the hops and the sums of squared windows are equal, the
signals and the frames are related.
-/
namespace Kofft
open Spec

variable {T : Type} [F : Flt T] {R : T → T → Prop}
variable {S : Type} {Sr : S → S → Prop} {op : StOp S T}

theorem forall2_resize {α β : Type} {P : α → β → Prop} {x : List α} {y : List β} (h : List.Forall₂ P x y) {z : α} {w : β}
    (hz : P z w) (n : Nat) : List.Forall₂ P (resize x n z) (resize y n w) := by
  unfold resize
  rw [← h.length_eq]
  exact forall2_append (forall2_take h _) (forall2_replicate hz _)

/-- One sample of a frame. -/
def frameSample (signal window : List T) (start i : Nat) : Outcome T :=
  if start + i < signal.length then do
    let a ← rd signal (start + i)
    let w ← rd window i
    pure (a *. w)
  else pure Flt.zero

theorem fillFrame_lin (signal window : List T) (start : Nat) (fr : List (Cx T)) :
    fillFrame signal window start fr = forRange 0 window.length fr fun i fr =>
      frameSample signal window start i >>= fun x => wr fr i ⟨x, Flt.zero⟩ := by
  unfold fillFrame frameSample
  congr 1
  funext i fr
  split <;> simp only [bind_assoc, pure_bind]

theorem fillFrame_rel (h : LinRel R) {x x' : List T} (hx : VecRel R x x') (window : List T) (start : Nat)
    {f f' : List (Cx T)} (hf : BufRel R f f') : ORel (BufRel R) (fillFrame x window start f) (fillFrame x' window start f') := by
  rw [fillFrame_lin, fillFrame_lin]
  refine ORel.forRange hf fun i s t hst => ORel.bind (P := R) ?_ fun _ _ hv => ORel.wr (P := CxRel R) hst _ ⟨hv, h.zero⟩
  unfold frameSample
  rw [← hx.length_eq]
  refine ORel.ite (fun _ => ORel.bind (ORel.rd hx _) fun _ _ ha => ORel.bind (ORel.refl _) fun w _ e => ?_) fun _ => h.zero
  subst e
  exact h.mul _ ha

/-- State, frames, result. -/
abbrev FramesOut (S : Type) (Sr : S → S → Prop) (R : T → T → Prop) (a b : S × List (List (Cx T)) × Res) : Prop :=
  Sr a.1 b.1 ∧ List.Forall₂ (BufRel R) a.2.1 b.2.1 ∧ a.2.2 = b.2.2

theorem stft_rel (h : LinRel R) (hop : OpRel S Sr R op) {s s' : S} (hs : Sr s s') {x x' : List T} (hx : VecRel R x x')
    (window : List T) (hopSize : Nat) {o o' : List (List (Cx T))} (ho : List.Forall₂ (BufRel R) o o') :
    ORel (FramesOut S Sr R) (stft op s x window hopSize o) (stft op s' x' window hopSize o') := by
  unfold stft
  rw [← hx.length_eq, ← ho.length_eq]
  refine ORel.ite (fun _ => ⟨hs, ho, rfl⟩) fun _ => ORel.ite (fun _ => ⟨hs, ho, rfl⟩) fun _ => ?_
  refine ORel.bind (P := fun (a b : (S × List (List (Cx T))) × Res) =>
      (Sr a.1.1 b.1.1 ∧ List.Forall₂ (BufRel R) a.1.2 b.1.2) ∧ a.2 = b.2)
    (ORel.loopRes (P := fun (a b : S × List (List (Cx T))) => Sr a.1 b.1 ∧ List.Forall₂ (BufRel R) a.2 b.2)
      (fun idx s t hst => ?_) _ _ _ _ ⟨hs, ho⟩) fun a b hab => ⟨hab.1.1, hab.1.2, hab.2⟩
  refine ORel.bind (ORel.rd hst.2 _) fun fr fr' hfr => ?_
  refine ORel.bind (fillFrame_rel h hx window _ (forall2_resize hfr h.czero _)) fun g g' hg => ?_
  refine ORel.bind (hop _ _ _ _ hst.1 hg) ?_
  rintro ⟨p, a, r⟩ ⟨q, a', r'⟩ ⟨i1, i2, i3⟩
  exact ORel.bind (ORel.wr hst.2 _ i2) fun o o' ho => ⟨⟨i1, ho⟩, i3⟩

theorem normSample_rel (h : LinRel R) (n : T) {a b : T} (hab : R a b) : R (normSample a n) (normSample b n) := by
  unfold normSample
  split
  · rename_i hl
    exact h.div _ hl hab
  · exact hab

/-- Related data, the same sum of squared windows. -/
abbrev OlaPair (R : T → T → Prop) (a b : List T × List T) : Prop := VecRel R a.1 b.1 ∧ a.2 = b.2

theorem olaFrame_rel (h : LinRel R) (window : List T) (start : Nat) {f f' : List (Cx T)} (hf : BufRel R f f')
    {o o' : List T} (ho : VecRel R o o') (n : List T) :
    ORel (OlaPair R) (olaFrame window start f o n) (olaFrame window start f' o' n) := by
  unfold olaFrame
  refine ORel.forRange ⟨ho, rfl⟩ ?_
  rintro i ⟨o, n⟩ ⟨o', n'⟩ ⟨h1, h2⟩
  simp only at h1 h2 ⊢
  subst h2
  rw [← h1.length_eq]
  refine ORel.ite (fun _ => ORel.bind (ORel.rd hf _) fun _ _ hc => ORel.bind (ORel.refl _) fun w _ e => ?_) fun _ => ⟨h1, rfl⟩
  subst e
  refine ORel.bind (ORel.rd h1 _) fun _ _ ha => ORel.bind (ORel.wr h1 _ (h.add ha (h.mul _ hc.1))) fun _ _ hy => ?_
  refine ORel.bind (ORel.refl _) fun v _ e => ?_
  subst e
  refine ORel.bind (ORel.refl _) fun v _ e => ?_
  subst e
  exact ⟨hy, rfl⟩

theorem normalize_rel (h : LinRel R) {o o' : List T} (ho : VecRel R o o') (n : List T) :
    ORel (VecRel R) (normalize o n) (normalize o' n) := by
  unfold normalize
  rw [← ho.length_eq]
  refine ORel.forRange ho fun i s t hst => ORel.bind (ORel.rd hst _) fun _ _ ha => ORel.bind (ORel.refl _) fun v _ e => ?_
  subst e
  exact ORel.wr hst _ (normSample_rel h _ ha)

/-- Related states of overlap-add. -/
structure OlaRel (Sr : S → S → Prop) (R : T → T → Prop) (a b : OlaSt S T) : Prop where
  s : Sr a.s b.s
  frames : List.Forall₂ (BufRel R) a.frames b.frames
  output : VecRel R a.output b.output
  scratch : a.scratch = b.scratch

theorem istftStep_rel (h : LinRel R) (hop : OpRel S Sr R op) (window : List T) (hopSize idx : Nat) {s t : OlaSt S T}
    (hst : OlaRel Sr R s t) :
    ORel (fun a b => OlaRel Sr R a.1 b.1 ∧ a.2 = b.2) (istftStep op window hopSize idx s) (istftStep op window hopSize idx t) := by
  unfold istftStep
  refine ORel.bind (ORel.rd hst.frames _) fun fr fr' hfr => ?_
  rw [← hfr.length_eq]
  refine ORel.ite (fun _ => ⟨hst, rfl⟩) fun _ => ORel.bind (hop _ _ _ _ hst.s hfr) ?_
  rintro ⟨p, a, r⟩ ⟨q, a', r'⟩ ⟨i1, i2, i3⟩
  simp only at i1 i2 i3 ⊢
  subst i3
  refine ORel.bind (ORel.wr hst.frames _ i2) fun fs fs' hfs => ?_
  cases r with
  | error e => exact ⟨⟨i1, hfs, hst.output, hst.scratch⟩, rfl⟩
  | ok u =>
    simp only []
    rw [← hst.scratch]
    refine ORel.bind (olaFrame_rel h window _ i2 hst.output _) ?_
    rintro ⟨o, n⟩ ⟨o', n'⟩ ⟨j1, j2⟩
    exact ⟨⟨i1, hfs, j1, j2⟩, rfl⟩

/-- State, frames, output, sum of squared windows, result. -/
abbrev IstftOut (S : Type) (Sr : S → S → Prop) (R : T → T → Prop) (a b : S × List (List (Cx T)) × List T × List T × Res) :
    Prop :=
  Sr a.1 b.1 ∧ List.Forall₂ (BufRel R) a.2.1 b.2.1 ∧ VecRel R a.2.2.1 b.2.2.1 ∧ a.2.2.2 = b.2.2.2

theorem istft_rel (h : LinRel R) (hop : OpRel S Sr R op) {s s' : S} (hs : Sr s s') {f f' : List (List (Cx T))}
    (hf : List.Forall₂ (BufRel R) f f') (window : List T) (hopSize : Nat) {o o' : List T} (ho : VecRel R o o') (sc : List T) :
    ORel (IstftOut S Sr R) (istft op s f window hopSize o sc) (istft op s' f' window hopSize o' sc) := by
  unfold istft
  rw [← ho.length_eq, ← hf.length_eq]
  refine ORel.ite (fun _ => ⟨hs, hf, ho, rfl⟩) fun _ => ORel.ite (fun _ => ⟨hs, hf, ho, rfl⟩) fun _ => ?_
  refine ORel.bind (P := fun (a b : OlaSt S T × Res) => OlaRel Sr R a.1 b.1 ∧ a.2 = b.2)
    (ORel.loopRes (fun idx s t hst => istftStep_rel h hop window hopSize idx hst) _ _ _ _ ⟨hs, hf, ho, rfl⟩) ?_
  rintro ⟨a, r⟩ ⟨b, r'⟩ ⟨i1, i2⟩
  simp only at i1 i2 ⊢
  subst i2
  rw [← i1.scratch]
  cases r with
  | error e => exact ⟨i1.s, i1.frames, i1.output, rfl⟩
  | ok u => exact ORel.bind (normalize_rel h i1.output _) fun _ _ hy => ⟨i1.s, i1.frames, hy, rfl⟩

/-! ### Streams -/

/-- Streams over related signals. -/
structure SsRel (R : T → T → Prop) (a b : StftStream T) : Prop where
  signal : VecRel R a.signal b.signal
  window : a.window = b.window
  hop : a.hop = b.hop
  pos : a.pos = b.pos

theorem nextFrame_rel (h : LinRel R) (hop : OpRel S Sr R op) {st st' : StftStream T} (hst : SsRel R st st') {s s' : S}
    (hs : Sr s s') {o o' : List (Cx T)} (ho : BufRel R o o') :
    ORel (fun a b => SsRel R a.1 b.1 ∧ Sr a.2.1 b.2.1 ∧ BufRel R a.2.2.1 b.2.2.1 ∧ a.2.2.2 = b.2.2.2)
      (st.nextFrame op s o) (st'.nextFrame op s' o') := by
  unfold StftStream.nextFrame
  rw [← hst.window, ← hst.signal.length_eq, ← hst.pos, ← ho.length_eq]
  refine ORel.ite (fun _ => ⟨hst, hs, ho, rfl⟩) fun _ => ORel.ite (fun _ => ⟨hst, hs, ho, rfl⟩) fun _ => ?_
  refine ORel.bind (fillFrame_rel h hst.signal _ _ ho) fun g g' hg => ORel.bind (hop _ _ _ _ hs hg) ?_
  rintro ⟨p, a, r⟩ ⟨q, a', r'⟩ ⟨i1, i2, i3⟩
  simp only at i1 i2 i3 ⊢
  subst i3
  cases r with
  | error e => exact ⟨hst, i1, i2, rfl⟩
  | ok u => exact ⟨⟨hst.signal, rfl, hst.hop, by rw [← hst.hop]⟩, i1, i2, rfl⟩

/-- Overlap-add streams that agree on everything except the data. -/
structure IsRel (R : T → T → Prop) (a b : IstftStream T) : Prop where
  winLen : a.winLen = b.winLen
  hop : a.hop = b.hop
  window : a.window = b.window
  buffer : VecRel R a.buffer b.buffer
  norm : a.norm = b.norm
  timeBuf : BufRel R a.timeBuf b.timeBuf
  bufPos : a.bufPos = b.bufPos
  outPos : a.outPos = b.outPos
  frameCount : a.frameCount = b.frameCount

theorem istftNew_rel (h : LinRel R) (winLen hop : Nat) (window : List T) :
    ExRel (IsRel R) (IstftStream.new winLen hop window) (IstftStream.new winLen hop window) := by
  unfold IstftStream.new
  split
  · exact rfl
  · exact ⟨rfl, rfl, rfl, zeros_rel h _, rfl, forall2_replicate h.czero _, rfl, rfl, rfl⟩

theorem emit_rel (h : LinRel R) (lo hi : Nat) {b b' : List T} (hb : VecRel R b b') (n : List T) :
    ORel (OlaPair R) (emit lo hi b n) (emit lo hi b' n) := by
  unfold emit
  refine ORel.forRange ⟨hb, rfl⟩ ?_
  rintro i ⟨o, n⟩ ⟨o', n'⟩ ⟨h1, h2⟩
  simp only at h1 h2 ⊢
  subst h2
  refine ORel.bind (ORel.refl _) fun v _ e => ?_
  subst e
  refine ORel.bind (ORel.rd h1 _) fun _ _ ha => ORel.bind (ORel.wr h1 _ (normSample_rel h _ ha)) fun _ _ hy => ?_
  refine ORel.bind (ORel.refl _) fun v _ e => ?_
  subst e
  exact ⟨hy, rfl⟩

theorem push_rel (h : LinRel R) (hop : OpRel S Sr R op) {st st' : IstftStream T} (hst : IsRel R st st') {s s' : S}
    (hs : Sr s s') {f f' : List (Cx T)} (hf : BufRel R f f') :
    ORel (fun a b => IsRel R a.1 b.1 ∧ Sr a.2.1 b.2.1 ∧ ExRel (VecRel R) a.2.2 b.2.2)
      (st.push op s f) (st'.push op s' f') := by
  unfold IstftStream.push
  rw [← hst.winLen, ← hf.length_eq]
  refine ORel.ite (fun _ => ⟨hst, hs, rfl⟩) fun _ => ORel.bind (hop _ _ _ _ hs hf) ?_
  rintro ⟨p, a, r⟩ ⟨q, a', r'⟩ ⟨i1, i2, i3⟩
  simp only at i1 i2 i3 ⊢
  subst i3
  cases r with
  | error e => exact ⟨⟨rfl, hst.hop, hst.window, hst.buffer, hst.norm, i2, hst.bufPos, hst.outPos, hst.frameCount⟩, i1, rfl⟩
  | ok u =>
    simp only []
    rw [← hst.hop, ← hst.window, ← hst.norm, ← hst.bufPos, ← hst.outPos, ← hst.frameCount]
    refine ORel.bind (P := OlaPair R) (ORel.forRange ⟨hst.buffer, rfl⟩ ?_) ?_
    · rintro i ⟨o, n⟩ ⟨o', n'⟩ ⟨h1, h2⟩
      simp only at h1 h2 ⊢
      subst h2
      refine ORel.bind (ORel.refl _) fun w _ e => ?_
      subst e
      refine ORel.bind (ORel.rd i2 _) fun _ _ hc => ORel.bind (ORel.rd h1 _) fun _ _ ha =>
        ORel.bind (ORel.wr h1 _ (h.add ha (h.mul _ hc.1))) fun _ _ hy => ?_
      refine ORel.bind (ORel.refl _) fun v _ e => ?_
      subst e
      refine ORel.bind (ORel.refl _) fun v _ e => ?_
      subst e
      exact ⟨hy, rfl⟩
    · rintro ⟨o, n⟩ ⟨o', n'⟩ ⟨h1, h2⟩
      simp only at h1 h2 ⊢
      subst h2
      refine ORel.bind (emit_rel h _ _ h1 n) ?_
      rintro ⟨o2, n⟩ ⟨o2', n'⟩ ⟨h1, h2⟩
      simp only at h1 h2 ⊢
      subst h2
      have hb : VecRel R (if st.bufPos + st.hop + st.winLen > o2.length then
            resize o2 (st.bufPos + st.hop + st.winLen) Flt.zero else o2)
          (if st.bufPos + st.hop + st.winLen > o2'.length then
            resize o2' (st.bufPos + st.hop + st.winLen) Flt.zero else o2') := by
        rw [← h1.length_eq]
        split
        · exact forall2_resize h1 h.zero _
        · exact h1
      rw [← h1.length_eq] at hb ⊢
      refine ORel.bind (P := OlaPair R) (ORel.forRange ⟨hb, rfl⟩ ?_) ?_
      · rintro i ⟨o, n⟩ ⟨o', n'⟩ ⟨h1, h2⟩
        simp only at h1 h2 ⊢
        subst h2
        refine ORel.bind (ORel.wr h1 _ h.zero) fun _ _ hy => ORel.bind (ORel.refl _) fun v _ e => ?_
        subst e
        exact ⟨hy, rfl⟩
      · rintro ⟨o3, n⟩ ⟨o3', n'⟩ ⟨h1, h2⟩
        simp only at h1 h2 ⊢
        subst h2
        rw [← h1.length_eq]
        exact ORel.ite (fun _ => ⟨⟨rfl, rfl, rfl, h1, rfl, i2, rfl, rfl, rfl⟩, i1,
          forall2_take (forall2_drop h1 _) _⟩) fun _ => trivial

theorem flush_rel (h : LinRel R) {st st' : IstftStream T} (hst : IsRel R st st') :
    ORel (fun a b => IsRel R a.1 b.1 ∧ VecRel R a.2 b.2) st.flush st'.flush := by
  unfold IstftStream.flush
  simp only []
  rw [← hst.winLen, ← hst.hop, ← hst.norm, ← hst.bufPos, ← hst.outPos, ← hst.frameCount]
  refine ORel.ite (fun _ => ⟨hst, .nil⟩) fun _ => ORel.ite (fun _ => ⟨hst, .nil⟩) fun _ => ?_
  refine ORel.bind (emit_rel h _ _ hst.buffer _) ?_
  rintro ⟨b, n⟩ ⟨b', n'⟩ ⟨h1, h2⟩
  exact ⟨⟨rfl, rfl, hst.window, h1, h2, hst.timeBuf, rfl, rfl, rfl⟩,
    forall2_take (forall2_drop h1 _) _⟩

theorem stftFrame_rel (h : LinRel R) (hop : OpRel S Sr R op) {s s' : S} (hs : Sr s s') {x x' : List T} (hx : VecRel R x x')
    (window : List T) (start : Nat) {o o' : List (Cx T)} (ho : BufRel R o o') :
    ORel (OpOut S Sr R) (stftFrame op s x window start o) (stftFrame op s' x' window start o') :=
  ORel.bind (fillFrame_rel h hx _ _ ho) fun _ _ hg => hop _ _ _ _ hs hg

theorem istftFrame_rel (h : LinRel R) (hop : OpRel S Sr R op) {s s' : S} (hs : Sr s s') {f f' : List (Cx T)}
    (hf : BufRel R f f') (window : List T) (start : Nat) {o o' : List T} (ho : VecRel R o o') :
    ORel (fun a b => Sr a.1 b.1 ∧ BufRel R a.2.1 b.2.1 ∧ VecRel R a.2.2.1 b.2.2.1 ∧ a.2.2.2 = b.2.2.2)
      (istftFrame op s f window start o) (istftFrame op s' f' window start o') := by
  unfold istftFrame
  refine ORel.bind (hop _ _ _ _ hs hf) ?_
  rintro ⟨p, a, r⟩ ⟨q, a', r'⟩ ⟨i1, i2, i3⟩
  simp only at i1 i2 i3 ⊢
  subst i3
  cases r with
  | error e => exact ⟨i1, i2, ho, rfl⟩
  | ok u =>
    refine ORel.bind (P := VecRel R) (ORel.forRange ho fun i s t hst => ?_) fun _ _ hy => ⟨i1, i2, hy, rfl⟩
    rw [← hst.length_eq]
    refine ORel.ite (fun _ => ORel.bind (ORel.rd i2 _) fun _ _ hc => ORel.bind (ORel.refl _) fun w _ e => ?_) fun _ => hst
    subst e
    exact ORel.bind (ORel.rd hst _) fun _ _ ha => ORel.wr hst _ (h.add ha (h.mul _ hc.1))

/-! ### Parallel versions -/

theorem stftParallel_rel (h : LinRel R) (cfg : Cfg) (order : List Nat) {x x' : List T} (hx : VecRel R x x')
    (window : List T) (hopSize : Nat) {o o' : List (List (Cx T))} (ho : List.Forall₂ (BufRel R) o o') :
    ORel (fun a b => List.Forall₂ (BufRel R) a.1 b.1 ∧ a.2 = b.2)
      (stftParallel cfg order x window hopSize o) (stftParallel cfg order x' window hopSize o') := by
  unfold stftParallel
  refine ORel.ite (fun _ => ⟨ho, rfl⟩) fun _ => ?_
  have key : ∀ (r : Res) {o o' : List (List (Cx T))}, List.Forall₂ (BufRel R) o o' →
      ORel (fun a b => List.Forall₂ (BufRel R) a.1 b.1 ∧ a.2 = b.2)
        (order.foldlM (m := Outcome) (parStep cfg x window hopSize) (o, r))
        (order.foldlM (m := Outcome) (parStep cfg x' window hopSize) (o', r)) := by
    induction order with
    | nil => exact fun r o o' ho => ⟨ho, rfl⟩
    | cons idx order ih =>
      intro r o o' ho
      simp only [List.foldlM_cons]
      refine ORel.bind (P := fun (a b : List (List (Cx T)) × Res) => List.Forall₂ (BufRel R) a.1 b.1 ∧ a.2 = b.2) ?_ ?_
      · unfold parStep
        refine ORel.bind (P := fun (a b : List (Cx T) × Res) => BufRel R a.1 b.1 ∧ a.2 = b.2) ?_ ?_
        · unfold parFrame
          refine ORel.bind (fillFrame_rel h hx window _ (forall2_replicate h.czero _)) fun g g' hg => ?_
          exact ORel.bind (fft_rel h cfg _ _ _ _ plRel_new hg) fun a b hab => hab.2
        · rintro ⟨y, r1⟩ ⟨y', r1'⟩ ⟨i1, i2⟩
          simp only at i1 i2 ⊢
          subst i2
          refine ORel.bind (ORel.wr ho _ i1) fun o o' ho => ?_
          cases r with
          | error e => exact ⟨ho, rfl⟩
          | ok u => exact ⟨ho, rfl⟩
      · rintro ⟨y, r1⟩ ⟨y', r1'⟩ ⟨i1, i2⟩
        simp only at i1 i2 ⊢
        subst i2
        exact ih _ i1
  exact key _ ho

/-- One windowed frame: related samples, the same squared window, the same result. -/
abbrev PartRel (R : T → T → Prop) (a b : (List T × List T) × Res) : Prop := OlaPair R a.1 b.1 ∧ a.2 = b.2

theorem invParFrame_rel (h : LinRel R) (cfg : Cfg) (window : List T) {f f' : List (Cx T)} (hf : BufRel R f f') :
    ORel (PartRel R) (invParFrame cfg window f) (invParFrame cfg window f') := by
  unfold invParFrame
  refine ORel.bind (ifft_rel h cfg _ _ _ _ plRel_new hf) ?_
  rintro ⟨p, a, r⟩ ⟨q, a', r'⟩ ⟨i1, i2, i3⟩
  simp only at i1 i2 i3 ⊢
  subst i3
  cases r with
  | error e => exact ⟨⟨.nil, rfl⟩, rfl⟩
  | ok u =>
    refine ORel.bind (P := OlaPair R) (ORel.forRange ⟨zeros_rel h _, rfl⟩ ?_) fun _ _ hy => ⟨hy, rfl⟩
    rintro i ⟨o, n⟩ ⟨o', n'⟩ ⟨h1, h2⟩
    simp only at h1 h2 ⊢
    subst h2
    refine ORel.bind (ORel.rd i2 _) fun _ _ hc => ORel.bind (ORel.refl _) fun w _ e => ?_
    subst e
    refine ORel.bind (ORel.wr h1 _ (h.mul _ hc.1)) fun _ _ hy => ORel.bind (ORel.refl _) fun v _ e => ?_
    subst e
    exact ⟨hy, rfl⟩

theorem addPartial_rel (h : LinRel R) (winLen start : Nat) {p p' : List T × List T} (hp : OlaPair R p p')
    {o o' : List T} (ho : VecRel R o o') (n : List T) :
    ORel (OlaPair R) (addPartial winLen start p o n) (addPartial winLen start p' o' n) := by
  unfold addPartial
  rw [← hp.2]
  refine ORel.forRange ⟨ho, rfl⟩ ?_
  rintro i ⟨o, n⟩ ⟨o', n'⟩ ⟨h1, h2⟩
  simp only at h1 h2 ⊢
  subst h2
  rw [← h1.length_eq]
  refine ORel.ite (fun _ => ORel.bind (ORel.rd h1 _) fun _ _ ha => ORel.bind (ORel.rd hp.1 _) fun _ _ hx =>
    ORel.bind (ORel.wr h1 _ (h.add ha hx)) fun _ _ hy => ORel.bind (ORel.refl _) fun w _ e => ?_) fun _ => ⟨h1, rfl⟩
  subst e
  refine ORel.bind (ORel.refl _) fun v _ e => ?_
  subst e
  refine ORel.bind (ORel.refl _) fun v _ e => ?_
  subst e
  exact ⟨hy, rfl⟩

theorem combine_rel (h : LinRel R) (winLen hop : Nat) {ps ps' : List (List T × List T)} (hp : List.Forall₂ (OlaPair R) ps ps') :
    ∀ (idx : Nat) {o o' : List T}, VecRel R o o' → ∀ n : List T,
      ORel (OlaPair R) (combine winLen hop idx ps o n) (combine winLen hop idx ps' o' n) := by
  induction hp with
  | nil => exact fun idx o o' ho n => ⟨ho, rfl⟩
  | cons h1 _ ih =>
    intro idx o o' ho n
    unfold combine
    refine ORel.bind (addPartial_rel h _ _ h1 ho n) ?_
    rintro ⟨o, n⟩ ⟨o', n'⟩ ⟨h1, h2⟩
    simp only at h1 h2 ⊢
    subst h2
    exact ih _ h1 _

theorem ORel.mapM {α β γ δ : Type} {P : α → β → Prop} {Q : γ → δ → Prop} {f : α → Outcome γ} {g : β → Outcome δ}
    (hf : ∀ a b, P a b → ORel Q (f a) (g b)) {x : List α} {y : List β} (hx : List.Forall₂ P x y) :
    ORel (List.Forall₂ Q) (x.mapM f) (y.mapM g) := by
  induction hx with
  | nil => simpa using (show ORel (List.Forall₂ Q) (.ok []) (.ok []) from .nil)
  | cons h1 _ ih =>
    simp only [List.mapM_cons]
    exact ORel.bind (hf _ _ h1) fun _ _ ha => ORel.bind ih fun _ _ hb => .cons ha hb

omit F in
theorem find_rel {ps ps' : List ((List T × List T) × Res)} (hp : List.Forall₂ (PartRel R) ps ps') :
    (ps.find? (fun p => isErr p.2) = none ∧ ps'.find? (fun p => isErr p.2) = none) ∨
    ∃ a b r, ps.find? (fun p => isErr p.2) = some (a, r) ∧ ps'.find? (fun p => isErr p.2) = some (b, r) := by
  induction hp with
  | nil => left; simp
  | @cons a b _ _ h1 _ ih =>
    obtain ⟨a, r⟩ := a
    obtain ⟨b, r'⟩ := b
    obtain ⟨i1, i2⟩ := h1
    simp only at i2
    subst i2
    simp only [List.find?_cons]
    cases isErr r with
    | true => right; exact ⟨a, b, r, rfl, rfl⟩
    | false => exact ih

theorem istftParallel_rel (h : LinRel R) (cfg : Cfg) {f f' : List (List (Cx T))} (hf : List.Forall₂ (BufRel R) f f')
    (window : List T) (hopSize : Nat) {o o' : List T} (ho : VecRel R o o') :
    ORel (VOut R) (istftParallel cfg f window hopSize o) (istftParallel cfg f' window hopSize o') := by
  unfold istftParallel
  refine ORel.ite (fun _ => ⟨ho, rfl⟩) fun _ => ?_
  refine ORel.bind (ORel.mapM (fun a b hab => invParFrame_rel h cfg window hab) hf) fun ps ps' hps => ?_
  rcases find_rel hps with ⟨e1, e2⟩ | ⟨a, b, r, e1, e2⟩
  · rw [e1, e2]
    simp only []
    rw [← ho.length_eq]
    refine ORel.bind (combine_rel h _ _ (forall2_map hps fun a b hab => hab.1) _ ho _) ?_
    rintro ⟨o, n⟩ ⟨o', n'⟩ ⟨h1, h2⟩
    simp only at h1 h2 ⊢
    subst h2
    rw [← h1.length_eq]
    refine ORel.bind (P := VecRel R) (ORel.forRange h1 fun i s t hst => ORel.bind (ORel.rd hst _) fun _ _ ha =>
      ORel.bind (ORel.refl _) fun v _ e => ?_) fun _ _ hy => ⟨hy, rfl⟩
    subst e
    refine ORel.wr hst _ ?_
    split
    · rename_i hl
      exact h.div _ hl ha
    · exact h.zero
  · rw [e1, e2]
    exact ⟨ho, rfl⟩

end Kofft
