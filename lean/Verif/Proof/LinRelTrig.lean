import Verif.Proof.LinRelReal
import Verif.Model.Wavelet
import Verif.Model.Spectral
/-
Linear relations through the cosine, sine and Hartley transforms, the wavelets, the chirp Z-transform and the analytic
signal.
-/
namespace Kofft
open Spec

variable {T : Type} [F : Flt T] {R : T → T → Prop}

/-- Related lists of real numbers. -/
abbrev VecRel (R : T → T → Prop) : List T → List T → Prop := List.Forall₂ R

omit F in
theorem fillOut_rel {o o' : List T} (ho : VecRel R o o') {f g : Nat → Outcome T} (hf : ∀ k, ORel R (f k) (g k)) :
    ORel (VecRel R) (fillOut o f) (fillOut o' g) := by
  unfold fillOut
  rw [← ho.length_eq]
  exact ORel.forRange ho fun k s t hst => ORel.bind (hf k) fun _ _ hv => ORel.wr hst _ hv

theorem accum_rel (h : LinRel R) {x x' : List T} (hx : VecRel R x x') (lo hi : Nat) {i i' : T} (hi0 : R i i')
    {g : Nat → T → T} (hg : ∀ k a b, R a b → R (g k a) (g k b)) :
    ORel R (accum x lo hi i g) (accum x' lo hi i' g) :=
  ORel.forRange hi0 fun k s t hst => ORel.bind (ORel.rd hx _) fun _ _ ha => h.add hst (hg _ _ _ ha)

theorem zeros_rel (h : LinRel R) (n : Nat) : VecRel R (List.replicate n Flt.zero) (List.replicate n Flt.zero) :=
  forall2_replicate h.zero n

theorem dct1At_rel (h : LinRel R) {x x' : List T} (hx : VecRel R x x') (k : Nat) : ORel R (dct1At x k) (dct1At x' k) := by
  unfold dct1At
  simp only []
  rw [← hx.length_eq]
  refine ORel.bind (ORel.rd hx _) fun a a' ha => ORel.bind (ORel.rd hx _) fun b b' hb => ?_
  refine accum_rel h hx _ _ (h.add ha ?_) fun i a b hab => h.mul _ (h.mulLeft _ hab)
  split
  · exact hb
  · exact h.neg hb

theorem dct1_rel (h : LinRel R) {x x' : List T} (hx : VecRel R x x') : ORel (VecRel R) (dct1 x) (dct1 x') := by
  unfold dct1
  simp only []
  rw [← hx.length_eq]
  exact ORel.ite (fun _ => .nil) fun _ => ORel.ite (fun _ => ORel.bind (ORel.rd hx _) fun _ _ ha => .cons (h.mul _ ha) .nil)
    fun _ => fillOut_rel (zeros_rel h _) (dct1At_rel h hx)

theorem dct2_rel (h : LinRel R) {x x' : List T} (hx : VecRel R x x') : ORel (VecRel R) (dct2 x) (dct2 x') := by
  unfold dct2
  rw [← hx.length_eq]
  refine fillOut_rel (zeros_rel h _) fun k => ?_
  unfold dct2At
  simp only []
  rw [← hx.length_eq]
  exact accum_rel h hx _ _ h.zero fun _ _ _ hab => h.mul _ hab

theorem dct3_rel (h : LinRel R) {x x' : List T} (hx : VecRel R x x') : ORel (VecRel R) (dct3 x) (dct3 x') := by
  unfold dct3
  rw [← hx.length_eq]
  refine fillOut_rel (zeros_rel h _) fun k => ?_
  unfold dct3At
  simp only []
  rw [← hx.length_eq]
  exact ORel.bind (ORel.rd hx _) fun _ _ ha => accum_rel h hx _ _ (h.halve ha) fun _ _ _ hab => h.mul _ hab

theorem dct4_rel (h : LinRel R) {x x' : List T} (hx : VecRel R x x') : ORel (VecRel R) (dct4 x) (dct4 x') := by
  unfold dct4
  rw [← hx.length_eq]
  refine fillOut_rel (zeros_rel h _) fun k => ?_
  unfold dct4At
  simp only []
  rw [← hx.length_eq]
  exact accum_rel h hx _ _ h.zero fun _ _ _ hab => h.mul _ hab

theorem dst1_rel (h : LinRel R) {x x' : List T} (hx : VecRel R x x') : ORel (VecRel R) (dst1 x) (dst1 x') := by
  unfold dst1
  rw [← hx.length_eq]
  refine fillOut_rel (zeros_rel h _) fun k => ?_
  unfold dst1At
  simp only []
  rw [← hx.length_eq]
  exact accum_rel h hx _ _ h.zero fun _ _ _ hab => h.mul _ hab

theorem dst2_rel (h : LinRel R) {x x' : List T} (hx : VecRel R x x') : ORel (VecRel R) (dst2 x) (dst2 x') := by
  unfold dst2
  rw [← hx.length_eq]
  refine fillOut_rel (zeros_rel h _) fun k => ?_
  unfold dst2At
  simp only []
  rw [← hx.length_eq]
  exact accum_rel h hx _ _ h.zero fun _ _ _ hab => h.mul _ hab

theorem dst3_rel (h : LinRel R) {x x' : List T} (hx : VecRel R x x') : ORel (VecRel R) (dst3 x) (dst3 x') := by
  unfold dst3
  rw [← hx.length_eq]
  refine fillOut_rel (zeros_rel h _) fun k => ?_
  unfold dst3At
  simp only []
  rw [← hx.length_eq]
  exact ORel.bind (ORel.rd hx _) fun _ _ ha => accum_rel h hx _ _ (h.halve ha) fun _ _ _ hab => h.mul _ hab

theorem dst4_rel (h : LinRel R) {x x' : List T} (hx : VecRel R x x') : ORel (VecRel R) (dst4 x) (dst4 x') := by
  unfold dst4
  rw [← hx.length_eq]
  refine fillOut_rel (zeros_rel h _) fun k => ?_
  unfold dst4At
  simp only []
  rw [← hx.length_eq]
  exact accum_rel h hx _ _ h.zero fun _ _ _ hab => h.mul _ hab

theorem dht_rel (h : LinRel R) {x x' : List T} (hx : VecRel R x x') : ORel (VecRel R) (dht x) (dht x') := by
  unfold dht
  rw [← hx.length_eq]
  refine fillOut_rel (zeros_rel h _) fun k => ?_
  unfold dhtAt
  simp only []
  rw [← hx.length_eq]
  exact accum_rel h hx _ _ h.zero fun _ _ _ hab => h.mul _ hab

/-- Real output and result. -/
abbrev VOut (R : T → T → Prop) (a b : List T × Res) : Prop := VecRel R a.1 b.1 ∧ a.2 = b.2

theorem dct1Stack_rel (h : LinRel R) {x x' o o' : List T} (hx : VecRel R x x') (ho : VecRel R o o') :
    ORel (VOut R) (dct1Stack x o) (dct1Stack x' o') := by
  unfold dct1Stack
  simp only []
  rw [← hx.length_eq, ← ho.length_eq]
  refine ORel.ite (fun _ => ⟨ho, rfl⟩) fun _ => ORel.bind (P := VecRel R) (ORel.forRange ho fun k s t hst => ?_)
    fun _ _ hy => ⟨hy, rfl⟩
  refine ORel.bind (ORel.rd hx _) fun a a' ha => ORel.bind (ORel.rd hx _) fun b b' hb => ?_
  refine ORel.bind (P := R) (ORel.forRange (h.add ha ?_) fun i s t hst => ORel.bind (ORel.rd hx _) fun _ _ hv =>
    h.add hst (h.mul _ (h.mulLeft _ hv))) fun _ _ hv => ORel.wr hst _ hv
  split
  · exact hb
  · exact h.neg hb

theorem dct2Stack_rel (h : LinRel R) {x x' o o' : List T} (hx : VecRel R x x') (ho : VecRel R o o') :
    ORel (VOut R) (dct2Stack x o) (dct2Stack x' o') := by
  unfold dct2Stack
  simp only []
  rw [← hx.length_eq, ← ho.length_eq]
  refine ORel.ite (fun _ => ⟨ho, rfl⟩) fun _ => ORel.bind (P := VecRel R) (ORel.forRange ho fun k s t hst => ?_)
    fun _ _ hy => ⟨hy, rfl⟩
  exact ORel.bind (P := R) (ORel.forRange h.zero fun i s t hst => ORel.bind (ORel.rd hx _) fun _ _ hv =>
    h.add hst (h.mul _ hv)) fun _ _ hv => ORel.wr hst _ hv

theorem dst2Stack_rel (h : LinRel R) {x x' o o' : List T} (hx : VecRel R x x') (ho : VecRel R o o') :
    ORel (VOut R) (dst2Stack x o) (dst2Stack x' o') := by
  unfold dst2Stack
  simp only []
  rw [← hx.length_eq, ← ho.length_eq]
  refine ORel.ite (fun _ => ⟨ho, rfl⟩) fun _ => ORel.bind (P := VecRel R) (ORel.forRange ho fun k s t hst => ?_)
    fun _ _ hy => ⟨hy, rfl⟩
  exact ORel.bind (P := R) (ORel.forRange h.zero fun i s t hst => ORel.bind (ORel.rd hx _) fun _ _ hv =>
    h.add hst (h.mul _ hv)) fun _ _ hv => ORel.wr hst _ hv

theorem dst3Stack_rel (h : LinRel R) {x x' o o' : List T} (hx : VecRel R x x') (ho : VecRel R o o') :
    ORel (VOut R) (dst3Stack x o) (dst3Stack x' o') := by
  unfold dst3Stack
  simp only []
  rw [← hx.length_eq, ← ho.length_eq]
  refine ORel.ite (fun _ => ⟨ho, rfl⟩) fun _ => ORel.bind (P := VecRel R) (ORel.forRange ho fun k s t hst => ?_)
    fun _ _ hy => ⟨hy, rfl⟩
  refine ORel.bind (ORel.rd hx _) fun a a' ha => ?_
  exact ORel.bind (P := R) (ORel.forRange (h.halve ha) fun i s t hst => ORel.bind (ORel.rd hx _) fun _ _ hv =>
    h.add hst (h.mul _ hv)) fun _ _ hv => ORel.wr hst _ hv

theorem dst4Stack_rel (h : LinRel R) {x x' o o' : List T} (hx : VecRel R x x') (ho : VecRel R o o') :
    ORel (VOut R) (dst4Stack x o) (dst4Stack x' o') := by
  unfold dst4Stack
  simp only []
  rw [← hx.length_eq, ← ho.length_eq]
  refine ORel.ite (fun _ => ⟨ho, rfl⟩) fun _ => ORel.bind (P := VecRel R) (ORel.forRange ho fun k s t hst => ?_)
    fun _ _ hy => ⟨hy, rfl⟩
  exact ORel.bind (P := R) (ORel.forRange h.zero fun i s t hst => ORel.bind (ORel.rd hx _) fun _ _ hv =>
    h.add hst (h.mul _ hv)) fun _ _ hv => ORel.wr hst _ hv

/-- Related DCT planners. -/
structure DpRel (R : T → T → Prop) (p q : DctPlanner T) : Prop where
  cache : p.cache = q.cache
  rfft : RpRel R p.rfft q.rfft
  buf : VecRel R p.buf q.buf
  spec : BufRel R p.spectrum q.spectrum

theorem dct2WithTable_rel (h : LinRel R) (cfg : Cfg) (simd : Bool) {p q : DctPlanner T} (hp : DpRel R p q)
    {x x' o o' : List T} (hx : VecRel R x x') (ho : VecRel R o o') (tab : List T) :
    ORel (fun a b => DpRel R a.1 b.1 ∧ VOut R a.2 b.2) (p.dct2WithTable cfg simd x o tab) (q.dct2WithTable cfg simd x' o' tab) := by
  unfold DctPlanner.dct2WithTable
  simp only []
  rw [← hx.length_eq, ← ho.length_eq]
  refine ORel.ite (fun _ => ⟨hp, ho, rfl⟩) fun _ => ?_
  have k1 := forall2_grow hp.buf h.zero (2 * x.length)
  have k2 := forall2_grow hp.spec h.czero (x.length + 1)
  refine ORel.bind (P := VecRel R) (ORel.forRange (forall2_take k1 _) fun i s t hst => ORel.bind (ORel.rd hx _) fun _ _ ha =>
    ORel.bind (ORel.wr hst _ ha) fun _ _ hb => ORel.wr hb _ ha) fun b b' hb => ?_
  refine ORel.bind (rp_rfft_rel h (fft_rel h cfg) simd hp.rfft plRel_new hb (forall2_take k2 _)) ?_
  rintro ⟨rp, s, sp, r⟩ ⟨rp', s', sp', r'⟩ ⟨i0, i1, i2, i3⟩
  simp only at i0 i1 i2 i3 ⊢
  subst i3
  have kk : DpRel R ⟨p.cache, rp, b ++ (grow p.buf (2 * x.length) Flt.zero).drop (2 * x.length),
      sp ++ (grow p.spectrum (x.length + 1) Cx.zero).drop (x.length + 1)⟩
    ⟨q.cache, rp', b' ++ (grow q.buf (2 * x.length) Flt.zero).drop (2 * x.length),
      sp' ++ (grow q.spectrum (x.length + 1) Cx.zero).drop (x.length + 1)⟩ :=
    ⟨hp.cache, i0, forall2_append hb (forall2_drop k1 _), forall2_append i2 (forall2_drop k2 _)⟩
  cases r with
  | error e => exact ⟨kk, ho, rfl⟩
  | ok u =>
    refine ORel.bind (P := VecRel R) (ORel.forRange ho fun k s t hst => ORel.bind (ORel.rd i2 _) fun c c' hc =>
      ORel.bind (ORel.refl _) fun w w' hw => ?_) fun _ _ hy => ⟨kk, hy, rfl⟩
    subst hw
    exact ORel.wr hst _ (h.mulLeft _ (h.add (h.mul _ hc.1) (h.mul _ hc.2)))

/-! ### Wavelets -/

theorem haarForward_rel (h : LinRel R) {x x' : List T} (hx : VecRel R x x') :
    ORel (PairRel R) (haarForward x) (haarForward x') := by
  unfold haarForward
  simp only []
  rw [← hx.length_eq]
  exact ORel.forRange ⟨zeros_rel h _, zeros_rel h _⟩ fun i s t hst => ORel.bind (ORel.rd hx _) fun _ _ ha =>
    ORel.bind (ORel.rd hx _) fun _ _ hb => ORel.bind (ORel.wr hst.1 _ (h.halve (h.add ha hb))) fun _ _ hu =>
    ORel.bind (ORel.wr hst.2 _ (h.halve (h.sub ha hb))) fun _ _ hv => ⟨hu, hv⟩

theorem haarInverse_rel (h : LinRel R) {a a' d d' : List T} (ha : VecRel R a a') (hd : VecRel R d d') :
    ORel (VecRel R) (haarInverse a d) (haarInverse a' d') := by
  unfold haarInverse
  rw [← ha.length_eq]
  exact ORel.forRange (zeros_rel h _) fun i s t hst => ORel.bind (ORel.rd ha _) fun _ _ h1 =>
    ORel.bind (ORel.rd hd _) fun _ _ h2 => ORel.bind (ORel.wr hst _ (h.add h1 h2)) fun _ _ hu =>
    ORel.wr hu _ (h.sub h1 h2)

omit F in
theorem reflectRd_rel {x x' : List T} (hx : VecRel R x x') (i : Int) : ORel R (reflectRd x i) (reflectRd x' i) := by
  unfold reflectRd
  rw [← hx.length_eq]
  refine ORel.bind (ORel.refl _) fun a b hab => ?_
  subst hab
  exact ORel.rd hx _

theorem dot4_rel (h : LinRel R) (c : List T) {x x' : List T} (hx : VecRel R x x') (j : Int) :
    ORel R (dot4 c x j) (dot4 c x' j) := by
  unfold dot4
  refine ORel.bind (ORel.refl _) fun c0 _ e => ?_
  subst e
  refine ORel.bind (reflectRd_rel hx _) fun _ _ h0 => ORel.bind (ORel.refl _) fun c1 _ e => ?_
  subst e
  refine ORel.bind (reflectRd_rel hx _) fun _ _ h1 => ORel.bind (ORel.refl _) fun c2 _ e => ?_
  subst e
  refine ORel.bind (reflectRd_rel hx _) fun _ _ h2 => ORel.bind (ORel.refl _) fun c3 _ e => ?_
  subst e
  exact ORel.bind (reflectRd_rel hx _) fun _ _ h3 =>
    h.add (h.add (h.add (h.mulLeft _ h0) (h.mulLeft _ h1)) (h.mulLeft _ h2)) (h.mulLeft _ h3)

theorem db2Forward_rel (h : LinRel R) {x x' : List T} (hx : VecRel R x x') :
    ORel (PairRel R) (db2Forward x) (db2Forward x') := by
  unfold db2Forward
  simp only []
  rw [← hx.length_eq]
  exact ORel.forRange ⟨zeros_rel h _, zeros_rel h _⟩ fun i s t hst => ORel.bind (dot4_rel h _ hx _) fun _ _ ha =>
    ORel.bind (ORel.wr hst.1 _ ha) fun _ _ hu => ORel.bind (dot4_rel h _ hx _) fun _ _ hb =>
    ORel.bind (ORel.wr hst.2 _ hb) fun _ _ hv => ⟨hu, hv⟩

theorem bankForward_rel (h : LinRel R) (H G : List T) {x x' : List T} (hx : VecRel R x x') :
    ORel (PairRel R) (bankForward H G x) (bankForward H G x') := by
  unfold bankForward
  simp only []
  rw [← hx.length_eq]
  refine ORel.forRange ⟨zeros_rel h _, zeros_rel h _⟩ fun i s t hst => ORel.forRange hst fun k s t hst => ?_
  refine ORel.bind (reflectRd_rel hx _) fun _ _ hv => ORel.bind (ORel.refl _) fun c1 _ e => ?_
  subst e
  refine ORel.bind (ORel.refl _) fun c2 _ e => ?_
  subst e
  exact ORel.bind (ORel.rd hst.1 _) fun _ _ ha => ORel.bind (ORel.rd hst.2 _) fun _ _ hd =>
    ORel.bind (ORel.wr hst.1 _ (h.add ha (h.mulLeft _ hv))) fun _ _ hu =>
    ORel.bind (ORel.wr hst.2 _ (h.add hd (h.mulLeft _ hv))) fun _ _ hw => ⟨hu, hw⟩

theorem bankInverse_rel (h : LinRel R) (G H : List T) {a a' d d' : List T} (ha : VecRel R a a') (hd : VecRel R d d') :
    ORel (VecRel R) (bankInverse G H a d) (bankInverse G H a' d') := by
  unfold bankInverse
  simp only []
  rw [← ha.length_eq]
  refine ORel.forRange (zeros_rel h _) fun i s t hst => ORel.forRange hst fun k s t hst => ?_
  refine ORel.bind (ORel.refl _) fun c0 _ e => ?_
  subst e
  refine ORel.bind (ORel.refl _) fun c1 _ e => ?_
  subst e
  refine ORel.bind (ORel.refl _) fun c2 _ e => ?_
  subst e
  exact ORel.bind (ORel.rd ha _) fun _ _ h1 => ORel.bind (ORel.rd hd _) fun _ _ h2 =>
    ORel.bind (ORel.rd hst _) fun _ _ hv => ORel.wr hst _ (h.add hv (h.add (h.mulLeft _ h1) (h.mulLeft _ h2)))

omit F in
theorem padEven_rel {x x' : List T} (hx : VecRel R x x') : VecRel R (padEven x) (padEven x') := by
  unfold padEven
  rw [← hx.length_eq]
  split
  · rw [List.getLast?_eq_getElem?, List.getLast?_eq_getElem?, ← hx.length_eq]
    rcases forall2_getElem? hx (x.length - 1) with ⟨h1, h2⟩ | ⟨a, b, h1, h2, h3⟩
    · rw [h1, h2]; exact hx
    · rw [h1, h2]; exact forall2_append hx (.cons h3 .nil)
  · exact hx

omit F in
theorem multiForward_rel {f : List T → Outcome (List T × List T)}
    (hf : ∀ x x', VecRel R x x' → ORel (PairRel R) (f x) (f x')) : ∀ (n : Nat) {x x' : List T}, VecRel R x x' →
    ORel (fun a b => VecRel R a.1 b.1 ∧ List.Forall₂ (VecRel R) a.2 b.2) (multiForward f n x) (multiForward f n x')
  | 0, _, _, hx => ⟨hx, .nil⟩
  | n + 1, _, _, hx => ORel.bind (hf _ _ (padEven_rel hx)) fun _ _ hab =>
      ORel.bind (multiForward_rel hf n hab.1) fun _ _ hcd => ⟨hcd.1, .cons hab.2 hcd.2⟩

omit F in
theorem multiInverse_rel {g : List T → List T → Outcome (List T)}
    (hg : ∀ a a' d d', VecRel R a a' → VecRel R d d' → ORel (VecRel R) (g a d) (g a' d')) {a a' : List T} (ha : VecRel R a a')
    {ds ds' : List (List T)} (hd : List.Forall₂ (VecRel R) ds ds') :
    ORel (VecRel R) (multiInverse g a ds) (multiInverse g a' ds') := by
  unfold multiInverse
  have hd := forall2_reverse hd
  generalize ds.reverse = l at *
  generalize ds'.reverse = l' at *
  induction hd generalizing a a' with
  | nil => exact ha
  | cons h1 _ ih =>
    simp only [List.foldlM_cons]
    exact ORel.bind (hg _ _ _ _ ha h1) fun _ _ hab => ih hab

/-! ### Chirp Z-transform, analytic signal -/

theorem czt_rel (h : LinRel R) {x x' : List T} (hx : VecRel R x x') (m : Nat) (w a : Cx T) :
    BufRel R (czt x m w a) (czt x' m w a) := by
  unfold czt
  refine forall2_map (P := Eq) (forall2_refl _) ?_
  rintro k _ rfl
  unfold cztAt
  have key : ∀ (s t : CztSt T), s.wnk = t.wnk → s.apow = t.apow → CxRel R s.out t.out →
      CxRel R (x.foldl (cztStep (cztPow w k) (cztAinv a)) s).out (x'.foldl (cztStep (cztPow w k) (cztAinv a)) t).out := by
    induction hx with
    | nil => exact fun s t _ _ h3 => h3
    | cons h1 _ ih =>
      intro s t e1 e2 e3
      refine ih _ _ ?_ ?_ ?_
      · simp only [cztStep]; rw [e1]
      · simp only [cztStep]; rw [e2]
      · simp only [cztStep]
        rw [e1, e2]
        exact ⟨h.add e3.1 (h.mul _ h1), h.add e3.2 (h.mul _ h1)⟩
  exact key _ _ rfl rfl h.czero

theorem forall2_mapIdx {α β γ δ : Type} {P : α → β → Prop} {Q : γ → δ → Prop} {f : Nat → α → γ} {g : Nat → β → δ}
    {x : List α} {y : List β} (hx : List.Forall₂ P x y) (hf : ∀ i a b, P a b → Q (f i a) (g i b)) :
    List.Forall₂ Q (x.mapIdx f) (y.mapIdx g) := by
  induction hx generalizing f g with
  | nil => simp
  | cons h1 _ ih =>
    simp only [List.mapIdx_cons]
    exact .cons (hf _ _ _ h1) (ih fun i a b hab => hf _ _ _ hab)

theorem hilbertMask_rel (h : LinRel R) {x x' : List (Cx T)} (hx : BufRel R x x') :
    BufRel R (hilbertMask x) (hilbertMask x') := by
  unfold hilbertMask doubleRange zeroRange
  simp only []
  rw [← hx.length_eq]
  split <;>
  · refine forall2_mapIdx (P := CxRel R) (forall2_mapIdx hx fun i a b hab => ?_) fun i a b hab => ?_
    · split
      · exact h.cscale hab _
      · exact hab
    · split
      · exact h.czero
      · exact hab

/-- Same error, or related spectra. -/
def ExRel {α : Type} (P : α → α → Prop) : Except FftError α → Except FftError α → Prop
  | .ok a, .ok b => P a b
  | .error e, .error e' => e = e'
  | _, _ => False

theorem hilbertAnalytic_rel (h : LinRel R) (cfg : Cfg) {x x' : List T} (hx : VecRel R x x') :
    ORel (ExRel (BufRel R)) (hilbertAnalytic cfg x) (hilbertAnalytic cfg x') := by
  unfold hilbertAnalytic
  rw [← hx.length_eq]
  refine ORel.ite (fun _ => rfl) fun _ => ORel.ite (fun _ => rfl) fun _ => ?_
  refine ORel.bind (fft_rel h cfg _ _ _ _ plRel_new (forall2_map (Q := CxRel R) hx fun _ _ hab => ⟨hab, h.zero⟩)) ?_
  rintro ⟨p, a, r⟩ ⟨q, a', r'⟩ ⟨i1, i2, i3⟩
  simp only at i1 i2 i3 ⊢
  subst i3
  cases r with
  | error e => exact rfl
  | ok u =>
    refine ORel.bind (ifft_rel h cfg _ _ _ _ i1 (hilbertMask_rel h i2)) ?_
    rintro ⟨p, a, r⟩ ⟨q, a', r'⟩ ⟨i1, i2, i3⟩
    simp only at i1 i2 i3 ⊢
    subst i3
    cases r with
    | error e => exact rfl
    | ok u => exact i2

end Kofft
