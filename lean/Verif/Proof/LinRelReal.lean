import Verif.Proof.LinRelApi
import Verif.Model.Rfft
/-
Linear relations through the real transforms.
-/
namespace Kofft
open Spec

variable {T : Type} [F : Flt T] {R : T → T → Prop}

theorem rBin_rel (h : LinRel R) (simd : Bool) (w : Cx T) {a a' c c' : Cx T} (ha : CxRel R a a') (hc : CxRel R c c') :
    CxRel R (rBinOf simd w a c) (rBinOf simd w a' c') := by
  cases simd with
  | false =>
    simp only [rBinOf, rBin, Bool.false_eq_true, if_false]
    have k := h.cmulLeft w (h.csub ha (h.cconj hc))
    exact h.cscale (h.cadd (h.cadd ha (h.cconj hc)) ⟨k.2, h.neg k.1⟩) _
  | true =>
    simp only [rBinOf, rBinSimd, if_true]
    constructor <;> simp only [] <;> (try exact ha.1) <;>
      apply_rules [h.mul, h.add, h.sub, h.neg, ha.1, ha.2, hc.1, hc.2]

theorem irBin_rel (h : LinRel R) (simd : Bool) (w : Cx T) {a a' c c' : Cx T} (ha : CxRel R a a') (hc : CxRel R c c') :
    CxRel R (irBinOf simd w a c) (irBinOf simd w a' c') := by
  cases simd with
  | false =>
    simp only [irBinOf, irBin, Bool.false_eq_true, if_false]
    have k := h.cmulLeft ⟨w.re, -. w.im⟩ (h.csub ha (h.cconj hc))
    exact h.cscale (h.csub (h.cadd ha (h.cconj hc)) ⟨k.2, h.neg k.1⟩) _
  | true =>
    simp only [irBinOf, irBinSimd, if_true]
    constructor <;> simp only [] <;>
      apply_rules [h.mul, h.add, h.sub, h.neg, ha.1, ha.2, hc.1, hc.2]

omit F in
theorem packReal_rel {x x' : List T} (hx : List.Forall₂ R x x') (m : Nat) {d d' : List (Cx T)} (hd : BufRel R d d') :
    ORel (BufRel R) (packReal x m d) (packReal x' m d') :=
  ORel.forRange hd fun _ _ _ hst => ORel.bind (ORel.rd hx _) fun _ _ ha => ORel.bind (ORel.rd hx _) fun _ _ hb =>
    ORel.wr hst _ ⟨ha, hb⟩

omit F in
theorem unpackReal_rel {x x' : List (Cx T)} (hx : BufRel R x x') (m : Nat) {d d' : List T} (hd : List.Forall₂ R d d') :
    ORel (List.Forall₂ R) (unpackReal x m d) (unpackReal x' m d') :=
  ORel.forRange hd fun _ _ _ hst => ORel.bind (ORel.rd hx _) fun _ _ ha => ORel.bind (ORel.wr hst _ ha.1) fun _ _ hb =>
    ORel.wr hb _ ha.2

/-- State, complex output, scratch, result. -/
abbrev ROut (S : Type) (Sr : S → S → Prop) (R : T → T → Prop) (a b : S × List (Cx T) × List (Cx T) × Res) : Prop :=
  Sr a.1 b.1 ∧ BufRel R a.2.1 b.2.1 ∧ BufRel R a.2.2.1 b.2.2.1 ∧ a.2.2.2 = b.2.2.2

/-- State, real output, scratch, result. -/
abbrev IrOut (S : Type) (Sr : S → S → Prop) (R : T → T → Prop) (a b : S × List T × List (Cx T) × Res) : Prop :=
  Sr a.1 b.1 ∧ List.Forall₂ R a.2.1 b.2.1 ∧ BufRel R a.2.2.1 b.2.2.1 ∧ a.2.2.2 = b.2.2.2

theorem binLoop_rel (bin : Cx T → Cx T → Cx T → Cx T)
    (hb : ∀ (w : Cx T) {a a' c c' : Cx T}, CxRel R a a' → CxRel R c c' → CxRel R (bin w a c) (bin w a' c'))
    (tw : List (Cx T)) (m : Nat) {x x' o o' : List (Cx T)} (hx : BufRel R x x') (ho : BufRel R o o') :
    ORel (BufRel R)
      (forRange 1 m o fun k o => do
        let a ← rd x k
        let c ← rd x (m - k)
        let w ← rd tw k
        wr o k (bin w a c))
      (forRange 1 m o' fun k o => do
        let a ← rd x' k
        let c ← rd x' (m - k)
        let w ← rd tw k
        wr o k (bin w a c)) := by
  refine ORel.forRange ho fun k s t hst => ORel.bind (ORel.rd hx _) fun _ _ ha => ORel.bind (ORel.rd hx _) fun _ _ hc =>
    ORel.bind (ORel.refl _) fun w w' hw => ?_
  subst hw
  exact ORel.wr hst _ (hb _ ha hc)

variable {S : Type} {Sr : S → S → Prop} {op : StOp S T}

theorem rfftDirect_rel (h : LinRel R) (hop : OpRel S Sr R op) (simd : Bool) (tw : List (Cx T)) {s s' : S} (hs : Sr s s')
    {x x' : List T} (hx : List.Forall₂ R x x') {o o' sc sc' : List (Cx T)} (ho : BufRel R o o') (hsc : BufRel R sc sc') :
    ORel (ROut S Sr R) (rfftDirect (rBinOf simd) op s x o sc tw) (rfftDirect (rBinOf simd) op s' x' o' sc' tw) := by
  unfold rfftDirect
  simp only []
  rw [← hx.length_eq, ← ho.length_eq, ← hsc.length_eq]
  refine ORel.ite (fun _ => ⟨hs, ho, hsc, rfl⟩) fun _ => ORel.ite (fun _ => ⟨hs, ho, hsc, rfl⟩) fun _ =>
    ORel.ite (fun _ => ⟨hs, ho, hsc, rfl⟩) fun _ => ORel.bind (packReal_rel hx _ ho) fun o1 o1' ho1 => ?_
  refine ORel.bind (hop _ _ _ _ hs (forall2_take ho1 _)) ?_
  rintro ⟨p, a, r⟩ ⟨q, a', r'⟩ ⟨i1, i2, i3⟩
  simp only at i1 i2 i3 ⊢
  subst i3
  have ho2 := forall2_append i2 (forall2_drop ho1 (x.length / 2))
  cases r with
  | error e => exact ⟨i1, ho2, hsc, rfl⟩
  | ok u =>
    simp only []
    have hsc2 := forall2_append (forall2_take ho2 (x.length / 2)) (forall2_drop hsc (x.length / 2))
    refine ORel.bind (ORel.rd hsc2 _) fun y0 y0' hy0 => ?_
    refine ORel.bind (ORel.wr (P := CxRel R) ho2 _ ⟨h.add hy0.1 hy0.2, h.zero⟩) fun o3 o3' ho3 => ?_
    refine ORel.bind (ORel.wr (P := CxRel R) ho3 _ ⟨h.sub hy0.1 hy0.2, h.zero⟩) fun o4 o4' ho4 => ?_
    exact ORel.bind (binLoop_rel _ (fun w _ _ _ _ ha hc => rBin_rel h simd w ha hc) tw _ hsc2 ho4) fun o5 o5' ho5 =>
      ⟨i1, ho5, hsc2, rfl⟩

theorem irfftDirect_rel (h : LinRel R) (hop : OpRel S Sr R op) (simd : Bool) (tw : List (Cx T)) {s s' : S} (hs : Sr s s')
    {x x' : List (Cx T)} (hx : BufRel R x x') {o o' : List T} {sc sc' : List (Cx T)} (ho : List.Forall₂ R o o')
    (hsc : BufRel R sc sc') :
    ORel (IrOut S Sr R) (irfftDirect (irBinOf simd) op s x o sc tw) (irfftDirect (irBinOf simd) op s' x' o' sc' tw) := by
  unfold irfftDirect
  simp only []
  rw [← hx.length_eq, ← ho.length_eq, ← hsc.length_eq]
  refine ORel.ite (fun _ => ⟨hs, ho, hsc, rfl⟩) fun _ => ORel.ite (fun _ => ⟨hs, ho, hsc, rfl⟩) fun _ =>
    ORel.ite (fun _ => ⟨hs, ho, hsc, rfl⟩) fun _ => ORel.bind (ORel.rd hx _) fun i0 i0' hi0 =>
    ORel.bind (ORel.rd hx _) fun im im' him => ?_
  refine ORel.bind (ORel.wr (P := CxRel R) hsc _ ⟨h.mul _ (h.add hi0.1 him.1), h.mul _ (h.sub hi0.1 him.1)⟩)
    fun sc1 sc1' hsc1 => ?_
  refine ORel.bind (binLoop_rel _ (fun w _ _ _ _ ha hc => irBin_rel h simd w ha hc) tw _ hx hsc1) fun sc2 sc2' hsc2 => ?_
  refine ORel.bind (hop _ _ _ _ hs (forall2_take hsc2 _)) ?_
  rintro ⟨p, a, r⟩ ⟨q, a', r'⟩ ⟨i1, i2, i3⟩
  simp only at i1 i2 i3 ⊢
  subst i3
  have hsc3 := forall2_append i2 (forall2_drop hsc2 (o.length / 2))
  cases r with
  | error e => exact ⟨i1, ho, hsc3, rfl⟩
  | ok u => exact ORel.bind (unpackReal_rel hsc3 _ ho) fun o5 o5' ho5 => ⟨i1, ho5, hsc3, rfl⟩

/-- Same tables, related scratch. -/
structure RpRel (R : T → T → Prop) (p q : RfftPlanner T) : Prop where
  cache : p.cache = q.cache
  pack : p.packCache = q.packCache
  scratch : BufRel R p.scratch q.scratch

omit F in
theorem RpRel.refl {p : RfftPlanner T} (hp : p.scratch = []) : RpRel R p p := ⟨rfl, rfl, hp ▸ .nil⟩

theorem rp_getTwiddles_rel {p q : RfftPlanner T} (hp : RpRel R p q) (m : Nat) :
    ORel (fun a b => RpRel R a.1 b.1 ∧ a.2 = b.2) (p.getTwiddles m) (q.getTwiddles m) := by
  unfold RfftPlanner.getTwiddles
  rw [← hp.cache]
  refine ORel.bind (ORel.refl _) ?_
  rintro ⟨c, t⟩ _ rfl
  exact ⟨⟨rfl, hp.pack, hp.scratch⟩, rfl⟩

theorem rp_getPackTwiddles_rel {p q : RfftPlanner T} (hp : RpRel R p q) (m : Nat) :
    ORel (fun a b => RpRel R a.1 b.1 ∧ a.2 = b.2) (p.getPackTwiddles m) (q.getPackTwiddles m) := by
  unfold RfftPlanner.getPackTwiddles
  rw [← hp.pack]
  refine ORel.bind (ORel.refl _) ?_
  rintro ⟨c, t⟩ _ rfl
  exact ⟨⟨hp.cache, rfl, hp.scratch⟩, rfl⟩

theorem rpNew_rel : ORel (RpRel R) (RfftPlanner.new (T := T)) RfftPlanner.new := by
  unfold RfftPlanner.new
  generalize [2, 4, 8, 16, 32, 64, 128, 256] = l
  have key : ∀ (l : List Nat) (p q : RfftPlanner T), RpRel R p q →
      ORel (RpRel R)
        (l.foldlM (fun (rp : RfftPlanner T) m => do
          let (rp, _) ← rp.getTwiddles m
          let (rp, _) ← rp.getPackTwiddles m
          pure rp) p)
        (l.foldlM (fun (rp : RfftPlanner T) m => do
          let (rp, _) ← rp.getTwiddles m
          let (rp, _) ← rp.getPackTwiddles m
          pure rp) q) := by
    intro l
    induction l with
    | nil => exact fun p q hpq => hpq
    | cons m l ih =>
      intro p q hpq
      simp only [List.foldlM_cons]
      refine ORel.bind (P := RpRel R) (ORel.bind (rp_getTwiddles_rel hpq m) fun a b hab =>
        ORel.bind (rp_getPackTwiddles_rel hab.1 m) fun c d hcd => hcd.1) fun a b hab => ih a b hab
  exact key l _ _ ⟨rfl, rfl, .nil⟩

/-- Planner, state, complex output, scratch, result. -/
abbrev RpOut (S : Type) (Sr : S → S → Prop) (R : T → T → Prop)
    (a b : RfftPlanner T × S × List (Cx T) × List (Cx T) × Res) : Prop := RpRel R a.1 b.1 ∧ ROut S Sr R a.2 b.2

/-- Planner, state, real output, scratch, result. -/
abbrev IrpOut (S : Type) (Sr : S → S → Prop) (R : T → T → Prop)
    (a b : RfftPlanner T × S × List T × List (Cx T) × Res) : Prop := RpRel R a.1 b.1 ∧ IrOut S Sr R a.2 b.2

theorem rp_rfftWithScratch_rel (h : LinRel R) (hop : OpRel S Sr R op) (simd : Bool) {p q : RfftPlanner T} (hp : RpRel R p q)
    {s s' : S} (hs : Sr s s') {x x' : List T} (hx : List.Forall₂ R x x') {o o' sc sc' : List (Cx T)} (ho : BufRel R o o')
    (hsc : BufRel R sc sc') :
    ORel (RpOut S Sr R) (p.rfftWithScratch simd op s x o sc) (q.rfftWithScratch simd op s' x' o' sc') := by
  unfold RfftPlanner.rfftWithScratch
  simp only []
  rw [← hx.length_eq]
  refine ORel.bind (rp_getTwiddles_rel hp _) ?_
  rintro ⟨p, t⟩ ⟨q, t'⟩ ⟨i1, i2⟩
  simp only at i1 i2 ⊢
  subst i2
  refine ORel.bind (rp_getPackTwiddles_rel i1 _) ?_
  rintro ⟨p, u⟩ ⟨q, u'⟩ ⟨j1, j2⟩
  exact ORel.bind (rfftDirect_rel h hop simd t hs hx ho hsc) fun a b hab => ⟨j1, hab⟩

theorem rp_irfftWithScratch_rel (h : LinRel R) (hop : OpRel S Sr R op) (simd : Bool) {p q : RfftPlanner T} (hp : RpRel R p q)
    {s s' : S} (hs : Sr s s') {x x' : List (Cx T)} (hx : BufRel R x x') {o o' : List T} {sc sc' : List (Cx T)}
    (ho : List.Forall₂ R o o') (hsc : BufRel R sc sc') :
    ORel (IrpOut S Sr R) (p.irfftWithScratch simd op s x o sc) (q.irfftWithScratch simd op s' x' o' sc') := by
  unfold RfftPlanner.irfftWithScratch
  simp only []
  rw [← ho.length_eq]
  refine ORel.bind (rp_getTwiddles_rel hp _) ?_
  rintro ⟨p, t⟩ ⟨q, t'⟩ ⟨i1, i2⟩
  simp only at i1 i2 ⊢
  subst i2
  refine ORel.bind (rp_getPackTwiddles_rel i1 _) ?_
  rintro ⟨p, u⟩ ⟨q, u'⟩ ⟨j1, j2⟩
  exact ORel.bind (irfftDirect_rel h hop simd t hs hx ho hsc) fun a b hab => ⟨j1, hab⟩

theorem rp_rfft_rel (h : LinRel R) (hop : OpRel S Sr R op) (simd : Bool) {p q : RfftPlanner T} (hp : RpRel R p q)
    {s s' : S} (hs : Sr s s') {x x' : List T} (hx : List.Forall₂ R x x') {o o' : List (Cx T)} (ho : BufRel R o o') :
    ORel (fun a b => RpRel R a.1 b.1 ∧ OpOut S Sr R a.2 b.2) (p.rfft simd op s x o) (q.rfft simd op s' x' o') := by
  unfold RfftPlanner.rfft
  simp only []
  rw [← hx.length_eq]
  have k := forall2_grow hp.scratch h.czero (x.length / 2)
  refine ORel.bind (rp_rfftWithScratch_rel h hop simd (p := { p with scratch := [] }) (q := { q with scratch := [] })
    ⟨hp.cache, hp.pack, .nil⟩ hs hx ho (forall2_take k _)) ?_
  rintro ⟨p, s, o, sc, r⟩ ⟨q, s', o', sc', r'⟩ ⟨i0, i1, i2, i3, i4⟩
  exact ⟨⟨i0.cache, i0.pack, forall2_append i3 (forall2_drop k _)⟩, i1, i2, i4⟩

theorem rp_irfft_rel (h : LinRel R) (hop : OpRel S Sr R op) (simd : Bool) {p q : RfftPlanner T} (hp : RpRel R p q)
    {s s' : S} (hs : Sr s s') {x x' : List (Cx T)} (hx : BufRel R x x') {o o' : List T} (ho : List.Forall₂ R o o') :
    ORel (fun a b => RpRel R a.1 b.1 ∧ Sr a.2.1 b.2.1 ∧ List.Forall₂ R a.2.2.1 b.2.2.1 ∧ a.2.2.2 = b.2.2.2)
      (p.irfft simd op s x o) (q.irfft simd op s' x' o') := by
  unfold RfftPlanner.irfft
  simp only []
  rw [← ho.length_eq]
  have k := forall2_grow hp.scratch h.czero (o.length / 2)
  refine ORel.bind (rp_irfftWithScratch_rel h hop simd (p := { p with scratch := [] }) (q := { q with scratch := [] })
    ⟨hp.cache, hp.pack, .nil⟩ hs hx ho (forall2_take k _)) ?_
  rintro ⟨p, s, o, sc, r⟩ ⟨q, s', o', sc', r'⟩ ⟨i0, i1, i2, i3, i4⟩
  exact ⟨⟨i0.cache, i0.pack, forall2_append i3 (forall2_drop k _)⟩, i1, i2, i4⟩

attribute [local irreducible] RfftPlanner.new

theorem rfftWithScratch_rel (h : LinRel R) (hop : OpRel S Sr R op) (simd : Bool)
    {s s' : S} (hs : Sr s s') {x x' : List T} (hx : List.Forall₂ R x x') {o o' sc sc' : List (Cx T)} (ho : BufRel R o o')
    (hsc : BufRel R sc sc') :
    ORel (ROut S Sr R) (rfftWithScratch simd op s x o sc) (rfftWithScratch simd op s' x' o' sc') := by
  unfold rfftWithScratch
  refine ORel.bind (P := RpRel R) rpNew_rel fun p q hp => ?_
  refine ORel.bind (rp_rfftWithScratch_rel h hop simd hp hs hx ho hsc) ?_
  rintro ⟨p, s, o, sc, r⟩ ⟨q, s', o', sc', r'⟩ hab
  exact hab.2

theorem irfftWithScratch_rel (h : LinRel R) (hop : OpRel S Sr R op) (simd : Bool)
    {s s' : S} (hs : Sr s s') {x x' : List (Cx T)} (hx : BufRel R x x') {o o' : List T} {sc sc' : List (Cx T)}
    (ho : List.Forall₂ R o o') (hsc : BufRel R sc sc') :
    ORel (IrOut S Sr R) (irfftWithScratch simd op s x o sc) (irfftWithScratch simd op s' x' o' sc') := by
  unfold irfftWithScratch
  refine ORel.bind (P := RpRel R) rpNew_rel fun p q hp => ?_
  refine ORel.bind (rp_irfftWithScratch_rel h hop simd hp hs hx ho hsc) ?_
  rintro ⟨p, s, o, sc, r⟩ ⟨q, s', o', sc', r'⟩ hab
  exact hab.2

theorem rfftPacked_rel (h : LinRel R) (hop : OpRel S Sr R op) {p q : RfftPlanner T} (hp : RpRel R p q)
    {s s' : S} (hs : Sr s s') {x x' : List T} (hx : List.Forall₂ R x x') {o o' sc sc' : List (Cx T)} (ho : BufRel R o o')
    (hsc : BufRel R sc sc') :
    ORel (RpOut S Sr R) (rfftPacked p op s x o sc) (rfftPacked q op s' x' o' sc') := by
  unfold rfftPacked
  simp only []
  rw [← hx.length_eq, ← ho.length_eq, ← hsc.length_eq]
  refine ORel.ite (fun _ => ⟨hp, hs, ho, hsc, rfl⟩) fun _ => ORel.ite (fun _ => ⟨hp, hs, ho, hsc, rfl⟩) fun _ =>
    ORel.ite (fun _ => ⟨hp, hs, ho, hsc, rfl⟩) fun _ => ORel.bind (packReal_rel hx _ hsc) fun o1 o1' ho1 => ?_
  refine ORel.bind (hop _ _ _ _ hs (forall2_take ho1 _)) ?_
  rintro ⟨s, a, r⟩ ⟨s', a', r'⟩ ⟨i1, i2, i3⟩
  simp only at i1 i2 i3 ⊢
  subst i3
  have hsc2 := forall2_append i2 (forall2_drop ho1 (x.length / 2))
  cases r with
  | error e => exact ⟨hp, i1, ho, hsc2, rfl⟩
  | ok u =>
    simp only []
    refine ORel.bind (ORel.rd hsc2 _) fun y0 y0' hy0 => ?_
    refine ORel.bind (ORel.wr (P := CxRel R) ho _ ⟨h.add hy0.1 hy0.2, h.zero⟩) fun o3 o3' ho3 => ?_
    refine ORel.bind (ORel.wr (P := CxRel R) ho3 _ ⟨h.sub hy0.1 hy0.2, h.zero⟩) fun o4 o4' ho4 => ?_
    refine ORel.bind (rp_getTwiddles_rel hp _) ?_
    rintro ⟨p, t⟩ ⟨q, t'⟩ ⟨j1, j2⟩
    simp only at j1 j2 ⊢
    subst j2
    exact ORel.bind (binLoop_rel rBin (fun w _ _ _ _ ha hc => rBin_rel h false w ha hc) t _ hsc2 ho4) fun o5 o5' ho5 =>
      ⟨j1, i1, ho5, hsc2, rfl⟩

theorem irfftPacked_rel (h : LinRel R) (hop : OpRel S Sr R op) {p q : RfftPlanner T} (hp : RpRel R p q)
    {s s' : S} (hs : Sr s s') {x x' : List (Cx T)} (hx : BufRel R x x') {o o' : List T} {sc sc' : List (Cx T)}
    (ho : List.Forall₂ R o o') (hsc : BufRel R sc sc') :
    ORel (IrpOut S Sr R) (irfftPacked p op s x o sc) (irfftPacked q op s' x' o' sc') := by
  unfold irfftPacked
  simp only []
  rw [← hx.length_eq, ← ho.length_eq, ← hsc.length_eq]
  refine ORel.ite (fun _ => ⟨hp, hs, ho, hsc, rfl⟩) fun _ => ORel.ite (fun _ => ⟨hp, hs, ho, hsc, rfl⟩) fun _ =>
    ORel.ite (fun _ => ⟨hp, hs, ho, hsc, rfl⟩) fun _ => ORel.bind (ORel.rd hx _) fun i0 i0' hi0 =>
    ORel.bind (ORel.rd hx _) fun im im' him => ?_
  refine ORel.bind (ORel.wr (P := CxRel R) hsc _ ⟨h.mul _ (h.add hi0.1 him.1), h.mul _ (h.sub hi0.1 him.1)⟩)
    fun sc1 sc1' hsc1 => ?_
  refine ORel.bind (rp_getTwiddles_rel hp _) ?_
  rintro ⟨p, t⟩ ⟨q, t'⟩ ⟨j1, j2⟩
  simp only at j1 j2 ⊢
  subst j2
  refine ORel.bind (binLoop_rel irBin (fun w _ _ _ _ ha hc => irBin_rel h false w ha hc) t _ hx hsc1) fun sc2 sc2' hsc2 => ?_
  refine ORel.bind (hop _ _ _ _ hs (forall2_take hsc2 _)) ?_
  rintro ⟨s, a, r⟩ ⟨s', a', r'⟩ ⟨i1, i2, i3⟩
  simp only at i1 i2 i3 ⊢
  subst i3
  have hsc3 := forall2_append i2 (forall2_drop hsc2 (o.length / 2))
  cases r with
  | error e => exact ⟨j1, i1, ho, hsc3, rfl⟩
  | ok u => exact ORel.bind (unpackReal_rel hsc3 _ ho) fun o5 o5' ho5 => ⟨j1, i1, ho5, hsc3, rfl⟩

theorem rfftStack_rel (h : LinRel R) {x x' : List T} (hx : List.Forall₂ R x x') {o o' : List (Cx T)} (ho : BufRel R o o') :
    ORel (fun a b => BufRel R a.1 b.1 ∧ a.2 = b.2) (rfftStack x o) (rfftStack x' o') := by
  unfold rfftStack
  simp only []
  rw [← hx.length_eq, ← ho.length_eq]
  refine ORel.ite (fun _ => ⟨ho, rfl⟩) fun _ => ORel.ite (fun _ => ⟨ho, rfl⟩) fun _ => ?_
  refine ORel.bind (fftStack_rel h (forall2_copyPrefix (forall2_map (Q := CxRel R) hx fun _ _ hab => ⟨hab, h.zero⟩)
    (forall2_replicate ⟨h.zero, h.zero⟩ _))) ?_
  rintro ⟨a, r⟩ ⟨b, r'⟩ ⟨i1, i2⟩
  simp only at i1 i2 ⊢
  subst i2
  cases r with
  | error e => exact ⟨ho, rfl⟩
  | ok u =>
    simp only []
    rw [← i1.length_eq]
    exact ORel.ite (fun _ => ⟨forall2_append (forall2_take i1 _) (forall2_drop ho _), rfl⟩) fun _ => trivial

theorem irfftStack_rel (h : LinRel R) {x x' : List (Cx T)} (hx : BufRel R x x') {o o' : List T} (ho : List.Forall₂ R o o') :
    ORel (fun a b => List.Forall₂ R a.1 b.1 ∧ a.2 = b.2) (irfftStack x o) (irfftStack x' o') := by
  unfold irfftStack
  simp only []
  rw [← hx.length_eq, ← ho.length_eq]
  refine ORel.ite (fun _ => ⟨ho, rfl⟩) fun _ => ORel.ite (fun _ => ⟨ho, rfl⟩) fun _ => ?_
  refine ORel.bind (ORel.wrN (P := CxRel R) (forall2_replicate ⟨h.zero, h.zero⟩ _) _ (forall2_take hx _)) fun b b' hb => ?_
  refine ORel.bind (P := BufRel R) (ORel.forRange hb fun k s t hst => ORel.bind (ORel.rd hx _) fun _ _ hc =>
    ORel.wr hst _ (h.cconj hc)) fun b b' hb => ?_
  refine ORel.bind (ifftStack_rel h hb) ?_
  rintro ⟨a, r⟩ ⟨b, r'⟩ ⟨i1, i2⟩
  simp only at i1 i2 ⊢
  subst i2
  cases r with
  | error e => exact ⟨ho, rfl⟩
  | ok u => exact ⟨forall2_copyPrefix (forall2_map i1 fun _ _ hab => hab.1) ho, rfl⟩

end Kofft
