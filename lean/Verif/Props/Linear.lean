import Verif.Spec.Session
import Verif.Proof.LinRelStft
import Verif.Lib.RndFlt
import Verif.Props.Core
/-
C83, C84: relations between inputs that carry over to the outputs, in any arithmetic; scaling by powers of two and
silence; success and failure do not depend on the data.
-/
namespace Kofft.Props
open Kofft Spec

theorem sameEnding_iff {α β : Type} {P : α → β → Prop} {x : Outcome α} {y : Outcome β} : SameEnding P x y ↔ ORel P x y := by
  constructor
  · rintro (⟨a, b, rfl, rfl, h⟩ | ⟨rfl, rfl⟩ | ⟨rfl, rfl⟩)
    · exact h
    · trivial
    · trivial
  · intro h
    cases x <;> cases y <;> first | exact .inl ⟨_, _, rfl, rfl, h⟩ | exact .inr (.inl ⟨rfl, rfl⟩) |
      exact .inr (.inr ⟨rfl, rfl⟩) | exact h.elim

section
variable {T : Type} [F : Flt T] {R : T → T → Prop}

theorem transform_rel (h : LinRel R) (cfg : Cfg) (inv : Bool) : OpRel _ (PlRel R) R (transform (T := T) cfg inv) := by
  cases inv with
  | false => exact fft_rel h cfg
  | true => exact ifft_rel h cfg

attribute [local irreducible] RfftPlanner.new in
theorem call_rel (h : LinRel R) (cfg : Cfg) {p q : Planner T} (hp : PlRel R p q) {c c' : Call T} (hc : CallRel R c c') :
    ORel (fun a b => PlRel R a.1 b.1 ∧ ReplyRel R a.2 b.2) (c.run cfg p) (c'.run cfg q) := by
  have one {x x' : List (Cx T)} (hx : BufRel R x x') : List.Forall₂ (BufRel R) [x] [x'] := .cons hx .nil
  have two {x x' y y' : List (Cx T)} (hx : BufRel R x x') (hy : BufRel R y y') : List.Forall₂ (BufRel R) [x, y] [x', y'] :=
    .cons hx (.cons hy .nil)
  cases hc with
  | plain hx =>
    exact ORel.bind (transform_rel h cfg _ _ _ _ _ hp hx) fun a b hab => ⟨hab.1, one hab.2.1, .nil, hab.2.2⟩
  | @split inv re im re' im' h1 h2 =>
    cases inv with
    | false => exact ORel.bind (fftSplit_rel h cfg hp h1 h2) fun a b hab =>
        ⟨hab.1, .nil, .cons hab.2.1 (.cons hab.2.2.1 .nil), hab.2.2.2⟩
    | true => exact ORel.bind (ifftSplit_rel h cfg hp h1 h2) fun a b hab =>
        ⟨hab.1, .nil, .cons hab.2.1 (.cons hab.2.2.1 .nil), hab.2.2.2⟩
  | radix4 hx =>
    exact ORel.bind (fftRadix4_rel h cfg _ _ _ _ hp hx) fun a b hab => ⟨hab.1, one hab.2.1, .nil, hab.2.2⟩
  | strategy hx =>
    exact ORel.bind (fftWithStrategy_rel h cfg _ _ _ _ _ hp hx) fun a b hab => ⟨hab.1, one hab.2.1, .nil, hab.2.2⟩
  | strided hx hs =>
    exact ORel.bind (strided_rel (transform_rel h cfg _) hp hx hs _) fun a b hab =>
      ⟨hab.1, two hab.2.1 hab.2.2.1, .nil, hab.2.2.2⟩
  | stridedAlloc hx =>
    exact ORel.bind (stridedAlloc_rel h (transform_rel h cfg _) hp hx _) fun a b hab =>
      ⟨hab.1, one hab.2.1, .nil, hab.2.2⟩
  | oopStrided hx ho =>
    exact ORel.bind (oopStrided_rel h (transform_rel h cfg _) hp hx ho _ _) fun a b hab =>
      ⟨hab.1, two hx hab.2.1, .nil, hab.2.2⟩
  | batch hx =>
    exact ORel.bind (batch_rel (transform_rel h cfg _) hx hp) fun a b hab => ⟨hab.1, hab.2.1, .nil, hab.2.2⟩
  | fft2d hx hs =>
    exact ORel.bind (fft2d_rel h cfg hp hx hs _ _) fun a b hab =>
      ⟨hab.1, two hab.2.1 hab.2.2.1, .nil, hab.2.2.2⟩
  | fft3d hx ht hu hv =>
    exact ORel.bind (fft3d_rel h cfg hp hx ht hu hv _ _ _) fun a b hab =>
      ⟨hab.1, .cons hab.2.1 (.cons hab.2.2.1 (two hab.2.2.2.1 hab.2.2.2.2.1)), .nil, hab.2.2.2.2.2⟩
  | rfft hx ho hs =>
    exact ORel.bind (rfftWithScratch_rel h (fft_rel h cfg) _ hp hx ho hs) fun a b hab =>
      ⟨hab.1, two hab.2.1 hab.2.2.1, .cons hx .nil, hab.2.2.2⟩
  | irfft hx ho hs =>
    exact ORel.bind (irfftWithScratch_rel h (ifft_rel h cfg) _ hp hx ho hs) fun a b hab =>
      ⟨hab.1, two hx hab.2.2.1, .cons hab.2.1 .nil, hab.2.2.2⟩
  | stft hx hf =>
    exact ORel.bind (stft_rel h (fft_rel h cfg) hp hx _ _ hf) fun a b hab =>
      ⟨hab.1, hab.2.1, .cons hx .nil, hab.2.2⟩
  | istft hf ho =>
    exact ORel.bind (istft_rel h (ifft_rel h cfg) hp hf _ _ ho _) fun a b hab =>
      ⟨hab.1, hab.2.1, .cons hab.2.2.1 .nil, congrArg Prod.snd hab.2.2.2⟩
  | frame hx ho =>
    exact ORel.bind (stftFrame_rel h (fft_rel h cfg) hp hx _ _ ho) fun a b hab =>
      ⟨hab.1, one hab.2.1, .cons hx .nil, hab.2.2⟩
  | inverseFrame hf ho =>
    exact ORel.bind (istftFrame_rel h (ifft_rel h cfg) hp hf _ _ ho) fun a b hab =>
      ⟨hab.1, one hab.2.1, .cons hab.2.2.1 .nil, hab.2.2.2⟩

theorem session_rel (h : LinRel R) (cfg : Cfg) {cs cs' : List (Call T)} (hc : List.Forall₂ (CallRel R) cs cs') :
    ∀ {p q : Planner T}, PlRel R p q → ORel (List.Forall₂ (ReplyRel R)) (session cfg p cs) (session cfg q cs') := by
  induction hc with
  | nil => exact fun _ => .nil
  | cons h1 _ ih =>
    intro p q hp
    exact ORel.bind (call_rel h cfg hp h1) fun a b hab => ORel.bind (ih hab.1) fun c d hcd => .cons hab.2 hcd

/-- **C83.** Two sessions with new transformers, the same calls, and data related by any relation that linear operations
preserve: they end the same way, every call has the same result in both, and every number in every buffer is related to
the corresponding number in the other session. For every arithmetic, every backend, every history. -/
theorem session_linear (h : LinRel R) (cfg : Cfg) (cs cs' : List (Call T)) (hc : List.Forall₂ (CallRel R) cs cs') :
    SameEnding (List.Forall₂ (ReplyRel R)) (session cfg Planner.new cs) (session cfg Planner.new cs') :=
  sameEnding_iff.mpr (session_rel h cfg hc plRel_new)

/-! ### A function applied to all data -/

theorem forall2_graph {α : Type} {P : α → α → Prop} (f : α → α) (h : ∀ a, P a (f a)) (x : List α) :
    List.Forall₂ P x (x.map f) := by
  induction x with
  | nil => exact .nil
  | cons a x ih => exact .cons (h a) ih

theorem forall2_graph_eq {α : Type} {P : α → α → Prop} {f : α → α} (h : ∀ a b, P a b → b = f a) {x y : List α}
    (hxy : List.Forall₂ P x y) : y = x.map f := by
  induction hxy with
  | nil => rfl
  | cons h1 _ ih => rw [h _ _ h1, ih]; rfl

omit F in
theorem callRel_map (f : T → T) (c : Call T) : CallRel (fun a b => b = f a) c (c.map f) := by
  have hv : ∀ x : List T, List.Forall₂ (fun a b => b = f a) x (x.map f) := forall2_graph f fun _ => rfl
  have hb : ∀ x : List (Cx T), BufRel (fun a b => b = f a) x (x.map (Cx.each f)) :=
    forall2_graph _ fun _ => ⟨rfl, rfl⟩
  have hbb : ∀ x : List (List (Cx T)), List.Forall₂ (BufRel (fun a b => b = f a)) x (x.map (List.map (Cx.each f))) :=
    forall2_graph _ hb
  cases c <;> constructor <;> first | exact hv _ | exact hb _ | exact hbb _

omit F in
theorem replyRel_map {f : T → T} {a b : Reply T} (h : ReplyRel (fun a b => b = f a) a b) : b = a.map f := by
  have h1 := forall2_graph_eq (f := List.map (Cx.each f)) (fun _ _ h => forall2_graph_eq (f := Cx.each f)
    (fun a b hab => by obtain ⟨u, v⟩ := b; obtain ⟨h1, h2⟩ := hab; simp only at h1 h2; subst h1 h2; rfl) h) h.complex
  have h2 := forall2_graph_eq (f := List.map f) (fun _ _ h => forall2_graph_eq (f := f) (fun a b hab => hab) h) h.real
  have h3 := h.res
  obtain ⟨b1, b2, b3⟩ := b
  simp only at h1 h2 h3
  subst h1 h2 h3
  rfl

/-- **C83**, for a function: if `f` commutes with the operations of a linear computation, then applying `f` to every number
that goes into a session applies `f` to every number that comes out, and changes nothing else. -/
theorem session_map (f : T → T) (h : LinRel (fun a b => b = f a)) (cfg : Cfg) (cs : List (Call T)) :
    session cfg Planner.new (cs.map (Call.map f)) = onResult (List.map (Reply.map f)) (session cfg Planner.new cs) := by
  have key := session_rel h cfg (cs := cs) (cs' := cs.map (Call.map f)) (by
    induction cs with
    | nil => exact .nil
    | cons c cs ih => exact .cons (callRel_map f c) ih) (plRel_new)
  generalize session cfg Planner.new cs = u at *
  generalize session cfg Planner.new (cs.map (Call.map f)) = v at *
  cases u <;> cases v <;> first | rfl | exact key.elim | skip
  exact congrArg Outcome.ok (forall2_graph_eq (fun _ _ => replyRel_map) key)

/-! ### Transforms without a transformer -/

/-- The cosine, sine and Hartley transforms. -/
def trigTransforms : List (List T → Outcome (List T)) := [dct1, dct2, dct3, dct4, dst1, dst2, dst3, dst4, dht]

/-- **C83** for the cosine, sine and Hartley transforms. -/
theorem trig_linear (h : LinRel R) (f : List T → Outcome (List T)) (hf : f ∈ trigTransforms) (x x' : List T)
    (hx : List.Forall₂ R x x') : SameEnding (List.Forall₂ R) (f x) (f x') := by
  refine sameEnding_iff.mpr ?_
  simp only [trigTransforms, List.mem_cons, List.not_mem_nil, or_false] at hf
  rcases hf with rfl | rfl | rfl | rfl | rfl | rfl | rfl | rfl | rfl
  · exact dct1_rel h hx
  · exact dct2_rel h hx
  · exact dct3_rel h hx
  · exact dct4_rel h hx
  · exact dst1_rel h hx
  · exact dst2_rel h hx
  · exact dst3_rel h hx
  · exact dst4_rel h hx
  · exact dht_rel h hx

/-- The wavelets: analysis and synthesis. -/
def wavelets : List ((List T → Outcome (List T × List T)) × (List T → List T → Outcome (List T))) :=
  [(haarForward, haarInverse), (db2Forward, db2Inverse), (db4Forward, db4Inverse), (sym4Forward, sym4Inverse),
   (coif1Forward, coif1Inverse)]

/-- **C83** for decompositions and recompositions over any number of levels, with each wavelet. -/
theorem wavelet_linear (h : LinRel R) (w : (List T → Outcome (List T × List T)) × (List T → List T → Outcome (List T)))
    (hw : w ∈ wavelets) :
    (∀ (levels : Nat) (x x' : List T), List.Forall₂ R x x' →
      SameEnding (fun a b => List.Forall₂ R a.1 b.1 ∧ List.Forall₂ (List.Forall₂ R) a.2 b.2)
        (multiForward w.1 levels x) (multiForward w.1 levels x')) ∧
    (∀ (a a' : List T) (ds ds' : List (List T)), List.Forall₂ R a a' → List.Forall₂ (List.Forall₂ R) ds ds' →
      SameEnding (List.Forall₂ R) (multiInverse w.2 a ds) (multiInverse w.2 a' ds')) := by
  have key : (∀ x x', VecRel R x x' → ORel (PairRel R) (w.1 x) (w.1 x')) ∧
      ∀ a a' d d', VecRel R a a' → VecRel R d d' → ORel (VecRel R) (w.2 a d) (w.2 a' d') := by
    simp only [wavelets, List.mem_cons, List.not_mem_nil, or_false] at hw
    rcases hw with rfl | rfl | rfl | rfl | rfl
    · exact ⟨fun _ _ => haarForward_rel h, fun _ _ _ _ => haarInverse_rel h⟩
    · exact ⟨fun _ _ => db2Forward_rel h, fun _ _ _ _ => bankInverse_rel h _ _⟩
    · exact ⟨fun _ _ => bankForward_rel h _ _, fun _ _ _ _ => bankInverse_rel h _ _⟩
    · exact ⟨fun _ _ => bankForward_rel h _ _, fun _ _ _ _ => bankInverse_rel h _ _⟩
    · exact ⟨fun _ _ => bankForward_rel h _ _, fun _ _ _ _ => bankInverse_rel h _ _⟩
  exact ⟨fun n x x' hx => sameEnding_iff.mpr (multiForward_rel key.1 n hx),
    fun a a' ds ds' ha hd => sameEnding_iff.mpr (multiInverse_rel key.2 ha hd)⟩

/-- **C83** for the chirp Z-transform. -/
theorem czt_linear (h : LinRel R) (x x' : List T) (hx : List.Forall₂ R x x') (m : Nat) (w a : Cx T) :
    BufRel R (czt x m w a) (czt x' m w a) := czt_rel h hx m w a

/-- Same error, or related values. -/
def SameResult {α : Type} (P : α → α → Prop) (x y : Except FftError α) : Prop :=
  (∃ a b, x = .ok a ∧ y = .ok b ∧ P a b) ∨ ∃ e, x = .error e ∧ y = .error e

theorem sameResult_of {α : Type} {P : α → α → Prop} {x y : Except FftError α} (h : ExRel P x y) : SameResult P x y := by
  cases x <;> cases y
  · exact .inr ⟨_, rfl, congrArg _ h.symm⟩
  · exact h.elim
  · exact h.elim
  · exact .inl ⟨_, _, rfl, rfl, h⟩

/-- **C83** for the analytic signal. -/
theorem hilbert_linear (h : LinRel R) (cfg : Cfg) (x x' : List T) (hx : List.Forall₂ R x x') :
    SameEnding (SameResult (BufRel R)) (hilbertAnalytic cfg x) (hilbertAnalytic cfg x') :=
  sameEnding_iff.mpr ((hilbertAnalytic_rel h cfg hx).mono fun _ _ => sameResult_of)

/-- **C83** for the parallel short-time transforms, whatever the order in which the frames are processed. -/
theorem parallel_linear (h : LinRel R) (cfg : Cfg) (window : List T) (hop : Nat) :
    (∀ (order : List Nat) (x x' : List T) (f f' : List (List (Cx T))), List.Forall₂ R x x' →
      List.Forall₂ (BufRel R) f f' →
      SameEnding (fun a b => List.Forall₂ (BufRel R) a.1 b.1 ∧ a.2 = b.2)
        (stftParallel cfg order x window hop f) (stftParallel cfg order x' window hop f')) ∧
    (∀ (f f' : List (List (Cx T))) (o o' : List T), List.Forall₂ (BufRel R) f f' → List.Forall₂ R o o' →
      SameEnding (fun a b => List.Forall₂ R a.1 b.1 ∧ a.2 = b.2)
        (istftParallel cfg f window hop o) (istftParallel cfg f' window hop o')) :=
  ⟨fun order _ _ _ _ hx hf => sameEnding_iff.mpr (stftParallel_rel h cfg order hx window hop hf),
   fun _ _ _ _ hf ho => sameEnding_iff.mpr (istftParallel_rel h cfg hf window hop ho)⟩

/-! ### Streams -/

theorem pushAll_rel (h : LinRel R) (cfg : Cfg) {xs xs' : List (List (Cx T))} (hx : List.Forall₂ (BufRel R) xs xs') :
    ∀ {st st' : IstftStream T} {p q : Planner T}, IsRel R st st' → PlRel R p q →
    ORel (fun a b => IsRel R a.1 b.1 ∧ PlRel R a.2.1 b.2.1 ∧ ExRel (List.Forall₂ (List.Forall₂ R)) a.2.2 b.2.2)
      (pushAll (ifft cfg) st p xs) (pushAll (ifft cfg) st' q xs') := by
  induction hx with
  | nil => exact fun h1 h2 => ⟨h1, h2, .nil⟩
  | cons h1 _ ih =>
    intro st st' p q hst hp
    unfold pushAll
    refine ORel.bind (push_rel h (ifft_rel h cfg) hst hp h1) ?_
    rintro ⟨st, p, r⟩ ⟨st', q, r'⟩ ⟨i1, i2, i3⟩
    cases r <;> cases r'
    · exact ⟨i1, i2, i3⟩
    · exact i3.elim
    · exact i3.elim
    · refine ORel.bind (ih i1 i2) ?_
      rintro ⟨st, p, r⟩ ⟨st', q, r'⟩ ⟨j1, j2, j3⟩
      cases r <;> cases r'
      · exact ⟨j1, j2, j3⟩
      · exact j3.elim
      · exact j3.elim
      · exact ⟨j1, j2, .cons i3 j3⟩

/-- A streaming inverse from beginning to end: open it, push the frames, flush; the samples returned by the pushes and by
the flush. -/
def inverseStreamRun (cfg : Cfg) (winLen hop : Nat) (window : List T) (xs : List (List (Cx T))) :
    Outcome (Except FftError (List (List T) × List T)) :=
  match IstftStream.new winLen hop window with
  | .error e => .ok (.error e)
  | .ok st => pushAll (ifft cfg) st Planner.new xs >>= fun v =>
    match v with
    | (_, _, .error e) => .ok (.error e)
    | (st, _, .ok cs) => st.flush >>= fun w => .ok (.ok (cs, w.2))

/-- **C83** for the streaming inverse: opened, fed any number of frames and flushed. -/
theorem stream_linear (h : LinRel R) (cfg : Cfg) (winLen hop : Nat) (window : List T) (xs xs' : List (List (Cx T)))
    (hx : List.Forall₂ (BufRel R) xs xs') :
    SameEnding (SameResult (fun a b => List.Forall₂ (List.Forall₂ R) a.1 b.1 ∧ List.Forall₂ R a.2 b.2))
      (inverseStreamRun cfg winLen hop window xs) (inverseStreamRun cfg winLen hop window xs') := by
  refine sameEnding_iff.mpr ?_
  unfold inverseStreamRun
  have hn := istftNew_rel h winLen hop window
  generalize IstftStream.new winLen hop window = z at hn ⊢
  cases z with
  | error e => exact .inr ⟨e, rfl, rfl⟩
  | ok st =>
    refine ORel.bind (pushAll_rel h cfg hx (show IsRel R st st from hn) plRel_new) ?_
    rintro ⟨st, p, r⟩ ⟨st', q, r'⟩ ⟨j1, j2, j3⟩
    cases r <;> cases r'
    · simp only [ExRel] at j3
      subst j3
      exact .inr ⟨_, rfl, rfl⟩
    · exact j3.elim
    · exact j3.elim
    · exact ORel.bind (flush_rel h j1) fun a b hab => .inl ⟨_, _, rfl, rfl, j3, hab.2⟩

/-- **C83** for the streaming forward transform: reading a stream over related signals, frame by frame, to the end. -/
theorem streamRead_linear (h : LinRel R) (cfg : Cfg) (signal signal' window : List T) (hop : Nat)
    (hx : List.Forall₂ R signal signal') (buf buf' : List (Cx T)) (hb : BufRel R buf buf') (fuel : Nat) :
    ∀ st st', StftStream.new signal window hop = .ok st → StftStream.new signal' window hop = .ok st' →
    SameEnding (fun a b => List.Forall₂ (BufRel R) a.2.1 b.2.1 ∧ a.2.2 = b.2.2)
      (streamAll (fft cfg) fuel st Planner.new buf) (streamAll (fft cfg) fuel st' Planner.new buf') := by
  have key : ∀ (fuel : Nat) {st st' : StftStream T} {p q : Planner T} {b b' : List (Cx T)}, SsRel R st st' → PlRel R p q →
      BufRel R b b' → ORel (fun a b => PlRel R a.1 b.1 ∧ List.Forall₂ (BufRel R) a.2.1 b.2.1 ∧ a.2.2 = b.2.2)
        (streamAll (fft cfg) fuel st p b) (streamAll (fft cfg) fuel st' q b') := by
    intro fuel
    induction fuel with
    | zero => exact fun _ _ _ => trivial
    | succ fuel ih =>
      intro st st' p q b b' hst hp hb
      unfold streamAll
      refine ORel.bind (nextFrame_rel h (fft_rel h cfg) hst hp hb) ?_
      rintro ⟨st, p, y, r⟩ ⟨st', q, y', r'⟩ ⟨i1, i2, i3, i4⟩
      simp only at i1 i2 i3 i4 ⊢
      subst i4
      match r with
      | .error e => exact ⟨i2, .cons i3 .nil, rfl⟩
      | .ok false => exact ⟨i2, .nil, rfl⟩
      | .ok true =>
        exact ORel.bind (ih i1 i2 i3) fun a b hab => ⟨hab.1, .cons i3 hab.2.1, hab.2.2⟩
  intro st st' h1 h2
  unfold StftStream.new at h1 h2
  split at h1
  · cases h1
  · rename_i hh
    rw [if_neg hh] at h2
    cases h1; cases h2
    exact sameEnding_iff.mpr ((key fuel (st := ⟨signal, window, hop, 0⟩)
      (st' := ⟨signal', window, hop, 0⟩) ⟨hx, rfl, rfl, rfl⟩ plRel_new hb).mono fun a b hab => hab.2)

/-! ### Success and failure do not depend on the data -/

theorem linRel_true : LinRel (F := F) (fun _ _ => True) where
  zero := trivial
  add := fun _ _ => trivial
  sub := fun _ _ => trivial
  neg := fun _ => trivial
  mul := fun _ _ => trivial
  mulLeft := fun _ _ => trivial
  mulAdd := fun _ _ _ => trivial
  mulAddLeft := fun _ _ _ => trivial
  halve := fun _ => trivial
  div := fun _ _ _ => trivial

/-- **C84.** Two sessions with the same calls on data of the same lengths — whatever the numbers, infinities and NaNs
included — end the same way, call by call with the same result, and leave buffers of the same lengths: success, failure
and panic are decided by the sizes alone. -/
theorem session_shape (cfg : Cfg) (cs cs' : List (Call T)) (hc : List.Forall₂ (CallRel fun _ _ => True) cs cs') :
    SameEnding (List.Forall₂ (ReplyRel fun _ _ => True)) (session cfg Planner.new cs) (session cfg Planner.new cs') :=
  session_linear linRel_true cfg cs cs' hc

/-- **C84** for the transforms without a transformer. -/
theorem trig_shape (f : List T → Outcome (List T)) (hf : f ∈ trigTransforms) (x x' : List T) (hx : x.length = x'.length) :
    SameEnding (fun a b => a.length = b.length) (f x) (f x') := by
  have k : List.Forall₂ (fun _ _ : T => True) x x' := by
    induction x generalizing x' with
    | nil => cases x' with
      | nil => exact .nil
      | cons => simp at hx
    | cons a x ih => cases x' with
      | nil => simp at hx
      | cons b x' => exact .cons trivial (ih _ (by simpa using hx))
  rcases trig_linear linRel_true f hf x x' k with ⟨a, b, h1, h2, h3⟩ | h | h
  · exact .inl ⟨a, b, h1, h2, h3.length_eq⟩
  · exact .inr (.inl h)
  · exact .inr (.inr h)

end

/-! ### Scaling by powers of two -/

theorem log_scale {x : ℝ} (hx : 0 < x) (k : ℤ) : Int.log 2 (2 ^ k * x) = k + Int.log 2 x := by
  have h2 : (0 : ℝ) < 2 ^ k := zpow_pos (by norm_num) _
  have hp : 0 < 2 ^ k * x := mul_pos h2 hx
  have a1 : ((2 : ℕ) : ℝ) ^ Int.log 2 x ≤ x := Int.zpow_log_le_self (by norm_num) hx
  have a2 : x < ((2 : ℕ) : ℝ) ^ (Int.log 2 x + 1) := Int.lt_zpow_succ_log_self (by norm_num) x
  apply le_antisymm
  · have : Int.log 2 (2 ^ k * x) < k + Int.log 2 x + 1 := by
      rw [← Int.lt_zpow_iff_log_lt (by norm_num) hp]
      push_cast at a2 ⊢
      rw [add_assoc, zpow_add₀ (by norm_num)]
      exact mul_lt_mul_of_pos_left a2 h2
    omega
  · rw [← Int.zpow_le_iff_le_log (by norm_num) hp]
    push_cast at a1 ⊢
    rw [zpow_add₀ (by norm_num)]
    exact mul_le_mul_of_nonneg_left a1 h2.le

/-- Rounding commutes with scaling by a power of two. -/
theorem rnd_zpow_mul (p : ℕ) (k : ℤ) (x : ℝ) : rnd p (2 ^ k * x) = 2 ^ k * rnd p x := by
  by_cases hx : x = 0
  · subst hx; simp [rnd]
  have h2 : (0 : ℝ) < 2 ^ k := zpow_pos (by norm_num) _
  unfold rnd
  rw [abs_mul, abs_of_pos h2, log_scale (abs_pos.mpr hx),
    show k + Int.log 2 |x| - (p : ℤ) + 1 = k + (Int.log 2 |x| - p + 1) by ring, zpow_add₀ (by norm_num),
    mul_div_mul_left _ _ h2.ne']
  ring

/-- Scaling by a power of two commutes with the operations of binary floating point. -/
theorem linRel_scale (p q : ℕ) (fused fma : Bool) (k : ℤ) :
    @LinRel ℝ (rndFlt p q fused fma) (fun a b => b = 2 ^ k * a) := by
  letI := rndFlt p q fused fma
  constructor
  · show (0 : ℝ) = 2 ^ k * 0; ring
  · rintro a b _ _ rfl rfl
    show rnd p _ = _ * rnd p _
    rw [← rnd_zpow_mul]; congr 1; ring
  · rintro a b _ _ rfl rfl
    show rnd p _ = _ * rnd p _
    rw [← rnd_zpow_mul]; congr 1; ring
  · rintro a _ rfl
    show -(2 ^ k * a) = 2 ^ k * -a
    ring
  · rintro a _ c rfl
    show rnd p _ = _ * rnd p _
    rw [← rnd_zpow_mul]; congr 1; ring
  · rintro a _ c rfl
    show rnd p _ = _ * rnd p _
    rw [← rnd_zpow_mul]; congr 1; ring
  · rintro a _ b _ c rfl rfl
    show (if fused then rnd p _ else rnd p (rnd p _ + _)) = _ * (if fused then rnd p _ else rnd p (rnd p _ + _))
    split
    · rw [← rnd_zpow_mul]; congr 1; ring
    · rw [← rnd_zpow_mul, mul_assoc, rnd_zpow_mul]; congr 1; ring
  · rintro a _ b _ c rfl rfl
    show (if fused then rnd p _ else rnd p (rnd p _ + _)) = _ * (if fused then rnd p _ else rnd p (rnd p _ + _))
    split
    · rw [← rnd_zpow_mul]; congr 1; ring
    · rw [← rnd_zpow_mul, mul_left_comm, rnd_zpow_mul]; congr 1; ring
  · rintro a _ rfl
    show rnd p (2 ^ k * a / _) = 2 ^ k * rnd p (a / _)
    rw [mul_div_assoc, rnd_zpow_mul]
  · rintro a _ c - rfl
    show rnd p (2 ^ k * a / _) = 2 ^ k * rnd p (a / _)
    rw [mul_div_assoc, rnd_zpow_mul]

/-- **C83.** In binary floating point with `p` significant digits (away from overflow and underflow), multiplying all data
of a session by a power of two multiplies every output by exactly that power of two: not one rounding differs. -/
theorem session_scale (p q : ℕ) (fused fma : Bool) (k : ℤ) (cfg : Cfg) (cs : List (Call ℝ)) :
    letI := rndFlt p q fused fma
    session cfg Planner.new (cs.map (Call.map fun a => 2 ^ k * a)) =
      onResult (List.map (Reply.map fun a => 2 ^ k * a)) (session cfg Planner.new cs) :=
  letI := rndFlt p q fused fma
  session_map _ (linRel_scale p q fused fma k) cfg cs

/-! ### Silence -/

/-- In a rounding arithmetic, operations on zeros give zero. -/
theorem linRel_silence {F : Flt ℝ} {u v t : ℝ} (hF : Rounding F u v t) (hu : u ≤ 1) :
    LinRel (F := F) (fun a b : ℝ => a = 0 ∧ b = 0) := by
  have z : ∀ x : ℝ, |x - 0| ≤ u * |(0 : ℝ)| → x = 0 := fun x h => by
    rw [abs_zero, mul_zero, sub_zero] at h
    exact abs_eq_zero.mp (le_antisymm h (abs_nonneg _))
  have ha : F.add 0 0 = 0 := z _ (by simpa using hF.add 0 0)
  have hs : F.sub 0 0 = 0 := z _ (by simpa using hF.sub 0 0)
  have hm : ∀ c, F.mul 0 c = 0 := fun c => z _ (by simpa using hF.mul 0 c)
  have hml : ∀ c, F.mul c 0 = 0 := fun c => z _ (by simpa using hF.mul c 0)
  have hma : ∀ c, F.mulAdd 0 c 0 = 0 := fun c => z _ (by simpa using hF.mulAdd 0 c 0)
  have hmal : ∀ c, F.mulAdd c 0 0 = 0 := fun c => z _ (by simpa using hF.mulAdd c 0 0)
  have hd : ∀ c, c ≠ 0 → F.div 0 c = 0 := fun c hc => z _ (by simpa using hF.div 0 c hc)
  have hn : F.neg 0 = 0 := by rw [hF.neg]; simp
  constructor
  · exact ⟨hF.zero, hF.zero⟩
  · rintro _ _ _ _ ⟨rfl, rfl⟩ ⟨rfl, rfl⟩; exact ⟨ha, ha⟩
  · rintro _ _ _ _ ⟨rfl, rfl⟩ ⟨rfl, rfl⟩; exact ⟨hs, hs⟩
  · rintro _ _ ⟨rfl, rfl⟩; exact ⟨hn, hn⟩
  · rintro _ _ c ⟨rfl, rfl⟩; exact ⟨hm c, hm c⟩
  · rintro _ _ c ⟨rfl, rfl⟩; exact ⟨hml c, hml c⟩
  · rintro _ _ _ _ c ⟨rfl, rfl⟩ ⟨rfl, rfl⟩; exact ⟨hma c, hma c⟩
  · rintro _ _ _ _ c ⟨rfl, rfl⟩ ⟨rfl, rfl⟩; exact ⟨hmal c, hmal c⟩
  · rintro _ _ ⟨rfl, rfl⟩
    have := hd (F.lit 2 0) (by rw [hF.two]; norm_num)
    exact ⟨this, this⟩
  · rintro _ _ c hc ⟨rfl, rfl⟩
    have h1 := (hF.lt _ _).mp hc
    have h2 := hF.lit 1 8
    have h3 : u * |((1 : ℤ) : ℝ) / 10 ^ 8| ≤ |((1 : ℤ) : ℝ) / 10 ^ 8| := mul_le_of_le_one_left (abs_nonneg _) hu
    have h4 : |((1 : ℤ) : ℝ) / 10 ^ 8| = ((1 : ℤ) : ℝ) / 10 ^ 8 := abs_of_nonneg (by positivity)
    have h5 := (abs_le.mp (h2.trans h3)).1
    have := hd c (by intro hc0; subst hc0; linarith)
    exact ⟨this, this⟩

theorem silentCall (c : Call ℝ) : CallRel (fun a b : ℝ => a = 0 ∧ b = 0) (c.map fun _ => 0) (c.map fun _ => 0) := by
  have hv : ∀ x : List ℝ, List.Forall₂ (fun a b : ℝ => a = 0 ∧ b = 0) (x.map fun _ => 0) (x.map fun _ => 0) := fun x => by
    induction x with
    | nil => exact .nil
    | cons a x ih => exact .cons ⟨rfl, rfl⟩ ih
  have hb : ∀ x : List (Cx ℝ), BufRel (fun a b : ℝ => a = 0 ∧ b = 0) (x.map (Cx.each fun _ => 0))
      (x.map (Cx.each fun _ => 0)) := fun x => by
    induction x with
    | nil => exact .nil
    | cons a x ih => exact .cons ⟨⟨rfl, rfl⟩, ⟨rfl, rfl⟩⟩ ih
  have hbb : ∀ x : List (List (Cx ℝ)), List.Forall₂ (BufRel fun a b : ℝ => a = 0 ∧ b = 0)
      (x.map (List.map (Cx.each fun _ => 0))) (x.map (List.map (Cx.each fun _ => 0))) := fun x => by
    induction x with
    | nil => exact .nil
    | cons a x ih => exact .cons (hb a) ih
  cases c <;> constructor <;> first | exact hv _ | exact hb _ | exact hbb _

/-- **C83.** Silence stays silence: in every rounding arithmetic, if every number passed to a session is zero, then so is
every number in every buffer afterwards — no residue of the tables, of the chirp or of rounding. -/
theorem session_silence {F : Flt ℝ} {u v t : ℝ} (hF : Rounding F u v t) (hu : u ≤ 1) (cfg : Cfg) (cs : List (Call ℝ))
    (rs : List (Reply ℝ)) (h : session cfg Planner.new (cs.map (Call.map fun _ => (0 : ℝ))) = .ok rs) :
    ∀ r ∈ rs, (∀ b ∈ r.complex, ∀ z ∈ b, z.re = 0 ∧ z.im = 0) ∧ ∀ b ∈ r.real, ∀ a ∈ b, a = 0 := by
  have hc : List.Forall₂ (CallRel fun a b : ℝ => a = 0 ∧ b = 0) (cs.map (Call.map fun _ => (0 : ℝ)))
      (cs.map (Call.map fun _ => (0 : ℝ))) := by
    clear h
    induction cs with
    | nil => exact .nil
    | cons c cs ih => exact .cons (silentCall c) ih
  have key := session_rel (linRel_silence hF hu) cfg hc plRel_new
  rw [h] at key
  have key : List.Forall₂ (ReplyRel fun a b : ℝ => a = 0 ∧ b = 0) rs rs := key
  intro r hr
  have hrr := List.forall₂_same.mp key r hr
  exact ⟨fun b hb z hz =>
      let w := List.forall₂_same.mp (List.forall₂_same.mp hrr.complex b hb) z hz
      ⟨w.1.1, w.2.1⟩,
    fun b hb a ha => (List.forall₂_same.mp (List.forall₂_same.mp hrr.real b hb) a ha).1⟩

/-! ### Exact arithmetic -/

/-- In exact arithmetic every scalar may be taken out. -/
theorem linRel_lawful {F : Flt ℝ} (hF : Lawful F) (c : ℝ) : @LinRel ℝ F (fun a b => b = c * a) := by
  constructor
  · rw [hF.zero]; ring
  · rintro _ _ _ _ rfl rfl; rw [hF.add, hF.add]; ring
  · rintro _ _ _ _ rfl rfl; rw [hF.sub, hF.sub]; ring
  · rintro _ _ rfl; rw [hF.neg, hF.neg]; ring
  · rintro _ _ d rfl; rw [hF.mul, hF.mul]; ring
  · rintro _ _ d rfl; rw [hF.mul, hF.mul]; ring
  · rintro _ _ _ _ d rfl rfl; rw [hF.mulAdd, hF.mulAdd]; ring
  · rintro _ _ _ _ d rfl rfl; rw [hF.mulAdd, hF.mulAdd]; ring
  · rintro _ _ rfl; rw [hF.div, hF.div]; ring
  · rintro _ _ d - rfl; rw [hF.div, hF.div]; ring

/-- **C83**, in exact arithmetic: multiplying all data of a session by any number multiplies all outputs by it. -/
theorem session_homogeneous {F : Flt ℝ} (hF : Lawful F) (c : ℝ) (cfg : Cfg) (cs : List (Call ℝ)) :
    session cfg Planner.new (cs.map (Call.map fun a => c * a)) =
      onResult (List.map (Reply.map fun a => c * a)) (session cfg Planner.new cs) :=
  session_map _ (linRel_lawful hF c) cfg cs

/-! ### The hypotheses are met -/

/-- A session of a forward and an inverse transform with a new transformer runs to its end, in any arithmetic. -/
example {T : Type} [Flt T] (cfg : Cfg) (x y : List (Cx T)) :
    ∃ rs, session cfg Planner.new [.plain false x, .plain true y] = .ok rs ∧ rs.length = 2 := by
  obtain ⟨p1, y1, r1, e1, h1, -⟩ := fft_total cfg Planner.new .new x
  obtain ⟨p2, y2, r2, e2, -⟩ := ifft_total cfg p1 h1 y
  refine ⟨[⟨[y1], [], r1⟩, ⟨[y2], [], r2⟩], ?_, rfl⟩
  simp only [session, Call.run, transform, Bool.false_eq_true, if_false, if_true, e1, e2, Outcome.bind_ok, pure_bind]
  rfl

/-- Arithmetic that really rounds meets the hypotheses of `session_silence`. -/
example : Rounding (rndFlt 24 24 false false) (1 / 2 ^ 24) (1 / 2 ^ 24) (1 / 2 ^ 24) ∧ (1 : ℝ) / 2 ^ 24 ≤ 1 :=
  ⟨rndFlt_rounding 24 24 (by norm_num) (by norm_num) false false, by norm_num⟩

/-- Scaling by a power of two is a non-trivial relation, and not every scaling will do: tripling does not commute with
rounding to one binary digit. -/
example : rnd 1 (3 * 1) ≠ 3 * rnd 1 1 := by
  have h1 : rnd 1 1 = 1 := by simpa using rnd_nat 1 1 (by norm_num)
  have h3 : rnd 1 (3 * 1) = 4 := by
    unfold rnd
    have e : Int.log 2 |(3 * 1 : ℝ)| = 1 := by
      have : |(3 * 1 : ℝ)| = ((3 : ℕ) : ℝ) := by norm_num
      rw [this, Int.log_natCast]
      decide
    have r : round ((3 * 1 : ℝ) / 2 ^ ((1 : ℤ) - (1 : ℕ) + 1)) = 2 := by
      rw [round_eq]
      norm_num
    rw [e, r]
    norm_num
  rw [h1, h3]
  norm_num

end Kofft.Props
