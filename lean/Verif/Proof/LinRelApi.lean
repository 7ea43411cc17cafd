import Verif.Proof.LinRel
import Verif.Model.Plan
import Verif.Model.Stack
/-
Linear relations through the rest of the transform interface: strided, split, batches, two and three dimensions,
radix-4, strategies, stack-only transforms.
-/
namespace Kofft
open Spec

variable {T : Type} [F : Flt T] {R : T → T → Prop}

omit F in
theorem gather_rel {P : T → T → Prop} {x x' d d' : List (Cx T)} (hx : BufRel P x x') (hd : BufRel P d d') (stride n : Nat) :
    ORel (BufRel P) (gather x stride n d) (gather x' stride n d') :=
  ORel.forRange hd fun _ _ _ hst => ORel.bind (ORel.rd hx _) fun _ _ hv => ORel.wr hst _ hv

omit F in
theorem scatter_rel {P : T → T → Prop} {x x' d d' : List (Cx T)} (hx : BufRel P x x') (hd : BufRel P d d') (stride n : Nat) :
    ORel (BufRel P) (scatter x stride n d) (scatter x' stride n d') :=
  ORel.forRange hd fun _ _ _ hst => ORel.bind (ORel.rd hx _) fun _ _ hv => ORel.wr hst _ hv

/-- Planner, data, scratch, result. -/
abbrev StridedOut (R : T → T → Prop) (a b : Planner T × List (Cx T) × List (Cx T) × Res) : Prop :=
  PlRel R a.1 b.1 ∧ BufRel R a.2.1 b.2.1 ∧ BufRel R a.2.2.1 b.2.2.1 ∧ a.2.2.2 = b.2.2.2

omit F in
theorem strided_rel {op : FftOp T} (hf : OpRel _ (PlRel R) R op) {p q : Planner T} (hp : PlRel R p q)
    {x x' s s' : List (Cx T)} (hx : BufRel R x x') (hs : BufRel R s s') (stride : Nat) :
    ORel (StridedOut R) (strided op p x stride s) (strided op q x' stride s') := by
  unfold strided
  simp only []
  rw [← hx.length_eq, ← hs.length_eq]
  refine ORel.ite (fun _ => ⟨hp, hx, hs, rfl⟩) fun _ => ORel.ite (fun _ => ⟨hp, hx, hs, rfl⟩) fun _ =>
    ORel.ite (fun _ => ⟨hp, hx, hs, rfl⟩) fun _ => ORel.bind (gather_rel hx hs _ _) fun s s' hs => ?_
  refine ORel.bind (hf _ _ _ _ hp hs) ?_
  rintro ⟨p, a, r⟩ ⟨q, a', r'⟩ ⟨i1, i2, i3⟩
  simp only at i1 i2 i3 ⊢
  subst i3
  cases r with
  | error e => exact ⟨i1, hx, i2, rfl⟩
  | ok u => exact ORel.bind (scatter_rel i2 hx _ _) fun y y' hy => ⟨i1, hy, i2, rfl⟩

theorem stridedAlloc_rel (h : LinRel R) {op : FftOp T} (hf : OpRel _ (PlRel R) R op) {p q : Planner T} (hp : PlRel R p q)
    {x x' : List (Cx T)} (hx : BufRel R x x') (stride : Nat) :
    ORel (OpOut _ (PlRel R) R) (stridedAlloc op p x stride) (stridedAlloc op q x' stride) := by
  unfold stridedAlloc
  simp only []
  rw [← hx.length_eq]
  generalize (if stride = 0 then 0 else x.length / stride) = n
  have k := forall2_grow hp.scratch h.czero n
  refine ORel.bind (strided_rel hf (p := { p with scratch := [] }) (q := { q with scratch := [] })
    { hp with scratch := .nil } hx (forall2_take k n) stride) ?_
  rintro ⟨p, a, s, r⟩ ⟨q, a', s', r'⟩ ⟨i1, i2, i3, i4⟩
  exact ⟨{ i1 with scratch := forall2_append i3 (forall2_drop k n) }, i2, i4⟩

theorem oopStrided_rel (h : LinRel R) {op : FftOp T} (hf : OpRel _ (PlRel R) R op) {p q : Planner T} (hp : PlRel R p q)
    {x x' o o' : List (Cx T)} (hx : BufRel R x x') (ho : BufRel R o o') (si so : Nat) :
    ORel (OpOut _ (PlRel R) R) (oopStrided op p x si o so) (oopStrided op q x' si o' so) := by
  unfold oopStrided
  simp only []
  rw [← hx.length_eq, ← ho.length_eq]
  refine ORel.ite (fun _ => ⟨hp, ho, rfl⟩) fun _ => ORel.ite (fun _ => ⟨hp, ho, rfl⟩) fun _ =>
    ORel.ite (fun _ => ⟨hp, ho, rfl⟩) fun _ => ?_
  have k := forall2_grow hp.scratch h.czero (x.length / si)
  refine ORel.bind (gather_rel hx k _ _) fun s s' hs => ?_
  refine ORel.bind (hf { p with scratch := [] } { q with scratch := [] } _ _ { hp with scratch := .nil } (forall2_take hs _)) ?_
  rintro ⟨p, a, r⟩ ⟨q, a', r'⟩ ⟨i1, i2, i3⟩
  simp only at i1 i2 i3 ⊢
  subst i3
  cases r with
  | error e => exact ⟨i1, ho, rfl⟩
  | ok u => exact ORel.bind (scatter_rel i2 ho _ _) fun y y' hy =>
      ⟨{ i1 with scratch := forall2_append i2 (forall2_drop hs _) }, hy, rfl⟩

omit F in
theorem outOfPlace_rel {op : FftOp T} (hf : OpRel _ (PlRel R) R op) {p q : Planner T} (hp : PlRel R p q)
    {x x' o o' : List (Cx T)} (hx : BufRel R x x') (ho : BufRel R o o') :
    ORel (OpOut _ (PlRel R) R) (outOfPlace op p x o) (outOfPlace op q x' o') := by
  unfold outOfPlace
  rw [← hx.length_eq, ← ho.length_eq]
  exact ORel.ite (fun _ => ⟨hp, ho, rfl⟩) fun _ => hf _ _ _ _ hp hx

/-! ### Separate real and imaginary parts -/

theorem splitVia_rel {op : FftOp T} (hf : OpRel _ (PlRel R) R op) {p q : Planner T} (hp : PlRel R p q)
    {re im re' im' : List T} (h1 : List.Forall₂ R re re') (h2 : List.Forall₂ R im im') :
    ORel (SplitOut _ (PlRel R) R) (splitVia op p re im) (splitVia op q re' im') := by
  unfold splitVia
  simp only []
  rw [← h1.length_eq]
  refine ORel.bind (P := BufRel R) (ORel.forRange .nil fun _ _ _ hst => ORel.bind (ORel.rd h1 _) fun _ _ ha =>
    ORel.bind (ORel.rd h2 _) fun _ _ hb => forall2_append hst (.cons ⟨ha, hb⟩ .nil)) fun b b' hb => ?_
  refine ORel.bind (hf _ _ _ _ hp hb) ?_
  rintro ⟨p, a, r⟩ ⟨q, a', r'⟩ ⟨i1, i2, i3⟩
  simp only at i1 i2 i3 ⊢
  subst i3
  cases r with
  | error e => exact ⟨i1, h1, h2, rfl⟩
  | ok u => exact ORel.bind (splitBack_rel i2 _ ⟨h1, h2⟩) fun a b hab => ⟨i1, hab.1, hab.2, rfl⟩

theorem fftSplit_rel (h : LinRel R) (cfg : Cfg) {p q : Planner T} (hp : PlRel R p q)
    {re im re' im' : List T} (h1 : List.Forall₂ R re re') (h2 : List.Forall₂ R im im') :
    ORel (SplitOut _ (PlRel R) R) (fftSplit cfg p re im) (fftSplit cfg q re' im') := by
  unfold fftSplit
  rw [← h1.length_eq, ← h2.length_eq]
  exact ORel.ite (fun _ => ⟨hp, h1, h2, rfl⟩) fun _ => ORel.ite
    (fun _ => splitSimd_rel h cfg (fft_rel h cfg) hp h1 h2) fun _ => splitVia_rel (fft_rel h cfg) hp h1 h2

theorem ifftSplit_rel (h : LinRel R) (cfg : Cfg) {p q : Planner T} (hp : PlRel R p q)
    {re im re' im' : List T} (h1 : List.Forall₂ R re re') (h2 : List.Forall₂ R im im') :
    ORel (SplitOut _ (PlRel R) R) (ifftSplit cfg p re im) (ifftSplit cfg q re' im') := by
  unfold ifftSplit
  rw [← h1.length_eq, ← h2.length_eq]
  refine ORel.ite (fun _ => ⟨hp, h1, h2, rfl⟩) fun _ => ORel.ite
    (fun _ => ?_) fun _ => splitVia_rel (ifft_rel h cfg) hp h1 h2
  refine ORel.bind (splitSimd_rel h cfg (fft_rel h cfg) hp h1 (forall2_map (Q := R) h2 fun _ _ => h.neg)) ?_
  rintro ⟨p, a, b, r⟩ ⟨q, a', b', r'⟩ ⟨i1, i2, i3, i4⟩
  simp only at i1 i2 i3 i4 ⊢
  subst i4
  cases r with
  | error e => exact ⟨i1, i2, i3, rfl⟩
  | ok u =>
    simp only []
    rw [← i2.length_eq]
    exact ⟨i1, forall2_map i2 fun _ _ hab => h.mul _ hab, forall2_map i3 fun _ _ hab => h.mul _ (h.neg hab), rfl⟩

/-! ### Radix-4 and strategies -/

theorem swapAt_lin {α : Type} {P : α → α → Prop} {x x' : List α} (hx : List.Forall₂ P x x') (i j : Nat) :
    ORel (List.Forall₂ P) (swapAt x i j) (swapAt x' i j) :=
  ORel.bind (ORel.rd hx _) fun _ _ ha => ORel.bind (ORel.rd hx _) fun _ _ hb =>
    ORel.bind (ORel.wr hx _ hb) fun _ _ hy => ORel.wr hy _ ha

theorem revLoop_lin {α : Type} {P : α → α → Prop} (sh : Nat) {x x' : List α} (hx : List.Forall₂ P x x') :
    ORel (List.Forall₂ P) (revLoop sh x) (revLoop sh x') := by
  unfold revLoop
  simp only []
  rw [← hx.length_eq]
  refine ORel.bind (P := fun a b : Nat × List α => a.1 = b.1 ∧ List.Forall₂ P a.2 b.2)
    (ORel.forRange ⟨rfl, hx⟩ ?_) fun a b hab => hab.2
  rintro i ⟨j, s⟩ ⟨j', t⟩ ⟨e, hst⟩
  simp only at e hst ⊢
  subst e
  refine ORel.bind (ORel.refl _) fun a b hab => ?_
  subst hab
  exact ORel.ite (fun _ => ORel.bind (swapAt_lin hst _ _) fun _ _ hy => ⟨rfl, hy⟩) fun _ => ⟨rfl, hst⟩

theorem butterfly4_rel (h : LinRel R) {a b c d a' b' c' d' : Cx T} (h0 : CxRel R a a') (h1 : CxRel R b b')
    (h2 : CxRel R c c') (h3 : CxRel R d d') :
    let u := butterfly4 a b c d
    let v := butterfly4 a' b' c' d'
    CxRel R u.1 v.1 ∧ CxRel R u.2.1 v.2.1 ∧ CxRel R u.2.2.1 v.2.2.1 ∧ CxRel R u.2.2.2 v.2.2.2 := by
  simp only [butterfly4]
  refine ⟨?_, ?_, ?_, ?_⟩ <;> apply_rules [h.cadd, h.csub, h.cmul]

theorem r4At_rel (h : LinRel R) {x x' : List (Cx T)} (hx : BufRel R x x') (b q hh : Nat) (w1 w2 w3 : Cx T) :
    ORel (BufRel R) (r4At x b q hh w1 w2 w3) (r4At x' b q hh w1 w2 w3) := by
  unfold r4At
  refine ORel.bind (ORel.rd hx _) fun a0 a0' e0 => ORel.bind (ORel.rd hx _) fun b0 b0' e1 =>
    ORel.bind (ORel.rd hx _) fun c0 c0' e2 => ORel.bind (ORel.rd hx _) fun d0 d0' e3 => ?_
  obtain ⟨g0, g1, g2, g3⟩ := butterfly4_rel h e0 (h.cmul w1 e1) (h.cmul w2 e2) (h.cmul w3 e3)
  generalize butterfly4 a0 (b0.mul w1) (c0.mul w2) (d0.mul w3) = u at *
  generalize butterfly4 a0' (b0'.mul w1) (c0'.mul w2) (d0'.mul w3) = v at *
  exact ORel.bind (ORel.wr hx _ g0) fun _ _ k0 => ORel.bind (ORel.wr k0 _ g1) fun _ _ k1 =>
    ORel.bind (ORel.wr k1 _ g2) fun _ _ k2 => ORel.wr k2 _ g3

theorem r4First_rel (h : LinRel R) (i : Nat) {x x' : List (Cx T)} (hx : BufRel R x x') :
    ORel (BufRel R) (r4First i x) (r4First i x') := by
  unfold r4First
  refine ORel.bind (ORel.rd hx _) fun a0 a0' e0 => ORel.bind (ORel.rd hx _) fun b0 b0' e1 =>
    ORel.bind (ORel.rd hx _) fun c0 c0' e2 => ORel.bind (ORel.rd hx _) fun d0 d0' e3 => ?_
  obtain ⟨g0, g1, g2, g3⟩ := butterfly4_rel h e0 e1 e2 e3
  generalize butterfly4 a0 b0 c0 d0 = u at *
  generalize butterfly4 a0' b0' c0' d0' = v at *
  exact ORel.bind (ORel.wr hx _ g0) fun _ _ k0 => ORel.bind (ORel.wr k0 _ g1) fun _ _ k1 =>
    ORel.bind (ORel.wr k1 _ g2) fun _ _ k2 => ORel.wr k2 _ g3

/-- Same position and factors, related buffers. -/
structure R4Rel (R : T → T → Prop) (s t : R4St T) : Prop where
  j : s.j = t.j
  w1 : s.w1 = t.w1
  w2 : s.w2 = t.w2
  w3 : s.w3 = t.w3
  x : BufRel R s.x t.x

theorem r4Group_rel (h : LinRel R) (len i : Nat) (s1 s2 s3 : Cx T) {x x' : List (Cx T)} (hx : BufRel R x x') :
    ORel (BufRel R) (r4Group len i s1 s2 s3 x) (r4Group len i s1 s2 s3 x') := by
  unfold r4Group
  simp only []
  refine ORel.bind (P := R4Rel R) (ORel.whileF (fun s t hst => by rw [hst.j]) (fun s t hst => ?_) _ _ _
    ⟨rfl, rfl, rfl, rfl, hx⟩) fun s t hst => ?_
  · rw [hst.j, hst.w1, hst.w2, hst.w3]
    exact ORel.bind (r4At_rel h hst.x _ _ _ _ _ _) fun _ _ hy => ORel.bind (r4At_rel h hy _ _ _ _ _ _) fun _ _ hz =>
      ⟨rfl, rfl, rfl, rfl, hz⟩
  · rw [hst.j, hst.w1, hst.w2, hst.w3]
    exact ORel.ite (fun _ => r4At_rel h hst.x _ _ _ _ _ _) fun _ => hst.x

theorem fftRadix4_rel (h : LinRel R) (cfg : Cfg) : OpRel _ (PlRel R) R (fftRadix4 (T := T) cfg) := by
  intro p q x x' hp hx
  unfold fftRadix4
  simp only []
  rw [← hx.length_eq]
  refine ORel.ite (fun _ => fft_rel h cfg _ _ _ _ hp hx) fun _ => ORel.bind (revLoop_lin 2 hx) fun x1 x1' hx1 => ?_
  refine ORel.bind (P := fun a b : Nat × Planner T × List (Cx T) => a.1 = b.1 ∧ PlRel R a.2.1 b.2.1 ∧ BufRel R a.2.2 b.2.2)
    (ORel.whileF ?_ ?_ _ _ _ ⟨rfl, hp, hx1⟩) fun a b hab => ⟨hab.2.1, hab.2.2, rfl⟩
  · rintro ⟨i, s⟩ ⟨j, t⟩ ⟨e, -⟩
    simp only at e
    subst e; rfl
  · rintro ⟨len, p, y⟩ ⟨len', q, y'⟩ ⟨e, hp, hy⟩
    simp only at e hp hy ⊢
    subst e
    refine ORel.ite (fun _ => ?_) fun _ => ?_
    · exact ORel.bind (ORel.stepLoop _ _ hy fun i s t hst => r4First_rel h i hst) fun _ _ hz => ⟨rfl, hp, hz⟩
    · obtain ⟨g1, g2⟩ := getTwiddles_rel cfg hp len
      generalize p.getTwiddles cfg len = a at *
      generalize q.getTwiddles cfg len = b at *
      obtain ⟨p, tws⟩ := a
      obtain ⟨q, tws'⟩ := b
      simp only at g1 g2 ⊢
      subst g2
      refine ORel.bind (ORel.refl _) fun a b hab => ?_
      subst hab
      refine ORel.bind (ORel.refl _) fun a b hab => ?_
      subst hab
      refine ORel.bind (ORel.refl _) fun a b hab => ?_
      subst hab
      exact ORel.bind (ORel.stepLoop _ _ hy fun i s t hst => r4Group_rel h _ i _ _ _ hst) fun _ _ hz => ⟨rfl, g1, hz⟩

theorem fftWithStrategy_rel (h : LinRel R) (cfg : Cfg) (st : Strategy) :
    OpRel _ (PlRel R) R (fftWithStrategy (T := T) cfg st) := by
  intro p q x x' hp hx
  unfold fftWithStrategy
  simp only []
  rw [← hx.length_eq]
  refine ORel.ite (fun _ => ⟨hp, hx, rfl⟩) fun _ => ORel.ite (fun _ => ⟨hp, hx, rfl⟩) fun _ => ?_
  generalize (if st = Strategy.Auto then planStrategy x.length else st) = c
  cases c with
  | Radix2 => exact fft_rel h cfg _ _ _ _ hp hx
  | Radix4 => exact ORel.ite (fun _ => fftRadix4_rel h cfg _ _ _ _ hp hx) fun _ => fft_rel h cfg _ _ _ _ hp hx
  | SplitRadix => exact stockhamFft_rel h cfg _ _ _ _ hp hx
  | Auto => exact fft_rel h cfg _ _ _ _ hp hx

/-! ### Batches, two and three dimensions -/

omit F in
theorem batch_rel {op : FftOp T} (hf : OpRel _ (PlRel R) R op) {xs xs' : List (List (Cx T))}
    (hx : List.Forall₂ (BufRel R) xs xs') : ∀ {p q : Planner T}, PlRel R p q →
    ORel (fun a b => PlRel R a.1 b.1 ∧ List.Forall₂ (BufRel R) a.2.1 b.2.1 ∧ a.2.2 = b.2.2) (batch op p xs) (batch op q xs') := by
  induction hx with
  | nil => intro p q hp; exact ⟨hp, .nil, rfl⟩
  | cons h1 ht ih =>
    intro p q hp
    unfold batch
    refine ORel.bind (hf _ _ _ _ hp h1) ?_
    rintro ⟨p, a, r⟩ ⟨q, a', r'⟩ ⟨i1, i2, i3⟩
    simp only at i1 i2 i3 ⊢
    subst i3
    cases r with
    | error e => exact ⟨i1, .cons i2 ht, rfl⟩
    | ok u =>
      refine ORel.bind (ih i1) ?_
      rintro ⟨p, a, r⟩ ⟨q, a', r'⟩ ⟨j1, j2, j3⟩
      exact ⟨j1, .cons i2 j2, j3⟩

/-- Related states of the two- and three-dimensional loops. -/
structure NdRel (R : T → T → Prop) (s t : NdSt T) : Prop where
  p : PlRel R s.p t.p
  data : BufRel R s.data t.data
  sc : BufRel R s.sc t.sc

theorem sliceFft_rel (h : LinRel R) (cfg : Cfg) (start len : Nat) {s t : NdSt T} (hs : NdRel R s t) :
    ORel (fun a b => NdRel R a.1 b.1 ∧ a.2 = b.2) (sliceFft cfg start len s) (sliceFft cfg start len t) := by
  unfold sliceFft
  rw [← hs.data.length_eq]
  refine ORel.ite (fun _ => ORel.bind (fft_rel h cfg _ _ _ _ hs.p (forall2_take (forall2_drop hs.data _) _)) ?_)
    fun _ => trivial
  rintro ⟨p, a, r⟩ ⟨q, a', r'⟩ ⟨i1, i2, i3⟩
  exact ⟨⟨i1, forall2_append (forall2_append (forall2_take hs.data _) i2) (forall2_drop hs.data _), hs.sc⟩, i3⟩

theorem stridedAt_rel (h : LinRel R) (cfg : Cfg) (start stride : Nat) {s t : NdSt T} (hs : NdRel R s t) :
    ORel (fun a b => NdRel R a.1 b.1 ∧ a.2 = b.2) (stridedAt cfg start stride s) (stridedAt cfg start stride t) := by
  unfold stridedAt
  rw [← hs.data.length_eq]
  refine ORel.ite (fun _ => ORel.bind (strided_rel (fft_rel h cfg) hs.p (forall2_drop hs.data _) hs.sc _) ?_)
    fun _ => trivial
  rintro ⟨p, a, b, r⟩ ⟨q, a', b', r'⟩ ⟨i1, i2, i3, i4⟩
  exact ⟨⟨i1, forall2_append (forall2_take hs.data _) i2, i3⟩, i4⟩

theorem fft2d_rel (h : LinRel R) (cfg : Cfg) {p q : Planner T} (hp : PlRel R p q) {x x' s s' : List (Cx T)}
    (hx : BufRel R x x') (hs : BufRel R s s') (rows cols : Nat) :
    ORel (StridedOut R) (fft2d cfg p x rows cols s) (fft2d cfg q x' rows cols s') := by
  unfold fft2d
  rw [← hx.length_eq, ← hs.length_eq]
  refine ORel.ite (fun _ => ⟨hp, hx, hs, rfl⟩) fun _ => ORel.ite (fun _ => ⟨hp, hx, hs, rfl⟩) fun _ =>
    ORel.ite (fun _ => ⟨hp, hx, hs, rfl⟩) fun _ => ?_
  refine ORel.bind (P := fun (a b : NdSt T × Res) => NdRel R a.1 b.1 ∧ a.2 = b.2)
    (ORel.loopRes (fun i s t hst => sliceFft_rel h cfg (i * cols) cols hst) _ _ _ _ ⟨hp, hx, hs⟩) ?_
  rintro ⟨a, r⟩ ⟨b, r'⟩ ⟨i1, i2⟩
  simp only at i1 i2 ⊢
  subst i2
  cases r with
  | error e => exact ⟨i1.p, i1.data, i1.sc, rfl⟩
  | ok u =>
    refine ORel.bind (P := fun (a b : NdSt T × Res) => NdRel R a.1 b.1 ∧ a.2 = b.2)
      (ORel.loopRes (fun i s t hst => stridedAt_rel h cfg i cols hst) _ _ _ _ i1) ?_
    rintro ⟨a, r⟩ ⟨b, r'⟩ ⟨i1, i2⟩
    exact ⟨i1.p, i1.data, i1.sc, i2⟩

theorem fft3d_rel (h : LinRel R) (cfg : Cfg) {p q : Planner T} (hp : PlRel R p q) {x x' t t' r r' c c' : List (Cx T)}
    (hx : BufRel R x x') (ht : BufRel R t t') (hr : BufRel R r r') (hc : BufRel R c c') (depth rows cols : Nat) :
    ORel (fun a b => PlRel R a.1 b.1 ∧ BufRel R a.2.1 b.2.1 ∧ BufRel R a.2.2.1 b.2.2.1 ∧ BufRel R a.2.2.2.1 b.2.2.2.1 ∧
        BufRel R a.2.2.2.2.1 b.2.2.2.2.1 ∧ a.2.2.2.2.2 = b.2.2.2.2.2)
      (fft3d cfg p x depth rows cols t r c) (fft3d cfg q x' depth rows cols t' r' c') := by
  unfold fft3d
  rw [← hx.length_eq, ← ht.length_eq, ← hr.length_eq, ← hc.length_eq]
  refine ORel.ite (fun _ => ⟨hp, hx, ht, hr, hc, rfl⟩) fun _ => ORel.ite (fun _ => ⟨hp, hx, ht, hr, hc, rfl⟩) fun _ =>
    ORel.ite (fun _ => ⟨hp, hx, ht, hr, hc, rfl⟩) fun _ => ?_
  refine ORel.bind (P := fun (a b : NdSt T × Res) => NdRel R a.1 b.1 ∧ a.2 = b.2)
    (ORel.loopRes (fun r s t hst => ORel.loopRes (fun c s t hst => stridedAt_rel h cfg (r * cols + c) (rows * cols) hst)
      cols 0 _ _ hst) _ _ _ _ ⟨hp, hx, ht⟩) ?_
  rintro ⟨a, e1⟩ ⟨b, e1'⟩ ⟨i1, i2⟩
  simp only at i1 i2 ⊢
  subst i2
  cases e1 with
  | error e => exact ⟨i1.p, i1.data, i1.sc, hr, hc, rfl⟩
  | ok u =>
    have hsc := i1.sc
    refine ORel.bind (P := fun (a b : NdSt T × Res) => NdRel R a.1 b.1 ∧ a.2 = b.2)
      (ORel.loopRes (fun d s t hst => ORel.loopRes (fun c s t hst => stridedAt_rel h cfg (d * rows * cols + c) cols hst)
        cols 0 _ _ hst) _ _ _ _ ⟨i1.p, i1.data, hr⟩) ?_
    rintro ⟨a2, e1⟩ ⟨b2, e1'⟩ ⟨i1, i2⟩
    simp only at i1 i2 ⊢
    subst i2
    cases e1 with
    | error e => exact ⟨i1.p, i1.data, hsc, i1.sc, hc, rfl⟩
    | ok u =>
      refine ORel.bind (P := fun (a b : NdSt T × Res) => NdRel R a.1 b.1 ∧ a.2 = b.2)
        (ORel.loopRes (fun d s t hst => ORel.loopRes (fun r s t hst =>
          sliceFft_rel h cfg (d * rows * cols + r * cols) cols hst) rows 0 _ _ hst) _ _ _ _ i1) ?_
      rintro ⟨a3, e1⟩ ⟨b3, e1'⟩ ⟨i1, i2⟩
      exact ⟨i1.p, i1.data, hsc, i1.sc, hc, i2⟩

/-! ### Stack-only transforms -/

theorem ditGroup_rel (h : LinRel R) (len : Nat) (c s : T) (i : Nat) {x x' : List (Cx T)} (hx : BufRel R x x') :
    ORel (BufRel R) (ditGroup len c s i x) (ditGroup len c s i x') := by
  unfold ditGroup
  refine ORel.bind (P := fun a b : Cx T × List (Cx T) => a.1 = b.1 ∧ BufRel R a.2 b.2)
    (ORel.forRange ⟨rfl, hx⟩ ?_) fun a b hab => hab.2
  rintro j ⟨w, y⟩ ⟨w', y'⟩ ⟨e, hy⟩
  simp only at e hy ⊢
  subst e
  exact ORel.bind (ORel.rd hy _) fun _ _ hu => ORel.bind (ORel.rd hy _) fun _ _ hb =>
    ORel.bind (ORel.wr hy _ (h.cadd hu (h.cmul _ hb))) fun _ _ hz =>
    ORel.bind (ORel.wr hz _ (h.csub hu (h.cmul _ hb))) fun _ _ hz => ⟨rfl, hz⟩

theorem fftStack_rel (h : LinRel R) {x x' : List (Cx T)} (hx : BufRel R x x') :
    ORel (fun a b => BufRel R a.1 b.1 ∧ a.2 = b.2) (fftStack x) (fftStack x') := by
  unfold fftStack
  simp only []
  rw [← hx.length_eq]
  refine ORel.ite (fun _ => ⟨hx, rfl⟩) fun _ => ORel.ite (fun _ => ⟨hx, rfl⟩) fun _ => ORel.ite (fun _ => ⟨hx, rfl⟩) fun _ =>
    ORel.bind (revLoop_lin 1 hx) fun x1 x1' hx1 => ?_
  refine ORel.bind (P := fun a b : Nat × List (Cx T) => a.1 = b.1 ∧ BufRel R a.2 b.2)
    (ORel.whileF ?_ ?_ _ _ _ ⟨rfl, hx1⟩) fun a b hab => ⟨hab.2, rfl⟩
  · rintro ⟨i, s⟩ ⟨j, t⟩ ⟨e, -⟩
    simp only at e
    subst e; rfl
  · rintro ⟨i, s⟩ ⟨j, t⟩ ⟨e, hs⟩
    simp only at e hs ⊢
    subst e
    exact ORel.bind (ORel.stepLoop _ _ hs fun i s t hst => ditGroup_rel h _ _ _ i hst) fun _ _ hy => ⟨rfl, hy⟩

theorem ifftStack_rel (h : LinRel R) {x x' : List (Cx T)} (hx : BufRel R x x') :
    ORel (fun a b => BufRel R a.1 b.1 ∧ a.2 = b.2) (ifftStack x) (ifftStack x') := by
  unfold ifftStack
  simp only []
  rw [← hx.length_eq]
  refine ORel.ite (fun _ => ⟨hx, rfl⟩) fun _ => ORel.ite (fun _ => ⟨hx, rfl⟩) fun _ => ORel.ite (fun _ => ⟨hx, rfl⟩) fun _ =>
    ORel.bind (fftStack_rel h (forall2_map (Q := CxRel R) hx fun _ _ => h.cconj)) ?_
  rintro ⟨a, r⟩ ⟨b, r'⟩ ⟨i1, i2⟩
  simp only at i1 i2 ⊢
  subst i2
  cases r with
  | error e => exact ⟨i1, rfl⟩
  | ok u => exact ⟨forall2_map i1 fun _ _ hab => h.cscale (h.cconj hab) _, rfl⟩

end Kofft
