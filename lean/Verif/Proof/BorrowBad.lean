import Verif.Proof.BorrowRun
/-
The programs of `Model/Borrow.lean` that break the rules: a pointer that has become unusable stays so.
-/
namespace Kofft.Borrow
open Kofft.Spec.Borrow

/-- The variable an event assigns. -/
def assigns : Ev Ptr → Option Ptr
  | .mut _ c => some c
  | .shr _ c => some c
  | .raw _ c => some c
  | .read _ _ => none
  | .write _ _ => none

section
variable {σ : Type} {step : σ → Ev Ptr → Option σ}

theorem runs_inv {P : σ → Prop} {es : Evs} (h : ∀ e ∈ es, ∀ st st', P st → step st e = some st' → P st') :
    ∀ {st st'}, P st → runs step st es = some st' → P st' := by
  induction es with
  | nil =>
    intro st st' hp e
    obtain rfl := Option.some.inj e
    exact hp
  | cons e es ih =>
    intro st st' hp e'
    simp only [runs, Option.bind_eq_some_iff] at e'
    obtain ⟨st1, e1, e2⟩ := e'
    exact ih (fun f hf => h f (List.mem_cons_of_mem _ hf)) (h e (by simp) st st1 hp e1) e2

theorem runs_none {P : σ → Prop} {es fs : Evs} {st : σ} (h : ∀ st', runs step st es = some st' → P st')
    (hf : ∀ st', P st' → runs step st' fs = none) : runs step st (es ++ fs) = none := by
  rw [runs_append]
  cases e : runs step st es with
  | none => rfl
  | some st' => exact hf st' (h st' e)

theorem runs_none_left {es fs : Evs} {st : σ} (h : runs step st es = none) : runs step st (es ++ fs) = none := by
  rw [runs_append, h]; rfl
end

/-! ### Stacked Borrows -/
section
open Stacked

theorem split_some {w : Bool} {t : Nat} : ∀ {s a b : List Item} {it : Item}, split w t s = some (a, it, b) →
    s = a ++ it :: b ∧ it.tag = t
  | [], _, _, _, h => by simp [split] at h
  | x :: s, a, b, it, h => by
    rw [split] at h
    split at h
    · rename_i hg
      obtain ⟨rfl, rfl, rfl⟩ : [] = a ∧ x = it ∧ s = b := by simpa using h
      refine ⟨rfl, ?_⟩
      simp only [Item.grants, Bool.and_eq_true, beq_iff_eq] at hg
      exact hg.1
    · rw [Option.map_eq_some_iff] at h
      obtain ⟨r, hr, e⟩ := h
      obtain ⟨r1, r2, r3⟩ := r
      obtain ⟨rfl, rfl, rfl⟩ : x :: r1 = a ∧ r2 = it ∧ r3 = b := by simpa using e
      obtain ⟨e1, e2⟩ := split_some hr
      exact ⟨by rw [e1]; rfl, e2⟩

theorem split_none {w : Bool} {t : Nat} : ∀ {s : List Item}, (∀ it ∈ s, it.tag ≠ t) → split w t s = none
  | [], _ => rfl
  | x :: s, h => by
    have hx : x.grants w t = false := by simp [Item.grants, h x (by simp)]
    rw [split, if_neg (by simp [hx]), split_none fun it hi => h it (List.mem_cons_of_mem _ hi)]
    rfl

/-- What a step leaves: at most one new item, with a new tag; the rest was there before. -/
theorem sstep_shape {i : Nat} {st st' : Stacked.State Ptr} {e : Ev Ptr} (h : Stacked.step i st e = some st') :
    (st'.env = st.env ∧ st'.next = st.next ∧ List.Sublist st'.stack st.stack ∧ assigns e = none) ∨
    ∃ c p s, assigns e = some c ∧ st'.env = st.env.set c st.next ∧ st'.next = st.next + 1 ∧ List.Sublist s st.stack ∧
      List.Perm st'.stack (⟨p, st.next⟩ :: s) := by
  obtain ⟨env, next, s⟩ := st
  have key : ∀ {w t s'}, Stacked.access w t s = some s' → List.Sublist s' s := by
    intro w t s' ha
    simp only [access, Option.map_eq_some_iff] at ha
    obtain ⟨⟨a, it, b⟩, hs, rfl⟩ := ha
    obtain ⟨rfl, -⟩ := split_some hs
    refine List.Sublist.append ?_ (List.Sublist.refl _)
    split
    · exact afterWrite_sublist _ _
    · exact afterRead_sublist _
  cases e with
  | «mut» p c =>
    simp only [Stacked.step, Option.bind_eq_bind, Option.bind_eq_some_iff, retagMut, Option.map_eq_some_iff] at h
    obtain ⟨t, -, s1, ⟨s2, h2, rfl⟩, e⟩ := h
    obtain rfl := Option.some.inj e
    exact .inr ⟨c, .unique, s2, rfl, rfl, rfl, key h2, List.Perm.refl _⟩
  | shr p c =>
    simp only [Stacked.step, Option.bind_eq_bind, Option.bind_eq_some_iff, retagShr, Option.map_eq_some_iff] at h
    obtain ⟨t, -, s1, ⟨s2, h2, rfl⟩, e⟩ := h
    obtain rfl := Option.some.inj e
    exact .inr ⟨c, .sharedRO, s2, rfl, rfl, rfl, key h2, List.Perm.refl _⟩
  | raw p c =>
    simp only [Stacked.step, Option.bind_eq_bind, Option.bind_eq_some_iff, retagRaw, Option.map_eq_some_iff] at h
    obtain ⟨t, -, s1, ⟨⟨a, it, b⟩, h2, rfl⟩, e⟩ := h
    obtain rfl := Option.some.inj e
    obtain ⟨rfl, -⟩ := split_some h2
    refine .inr ⟨c, .sharedRW, a ++ it :: b, rfl, rfl, rfl, List.Sublist.refl _, ?_⟩
    obtain ⟨X, hX⟩ := afterWrite_suffix it a
    have htake : a.take (a.length - (afterWrite it a).length) = X := by
      have hl := congrArg List.length hX
      rw [List.length_append (as := X)] at hl
      rw [hl, Nat.add_sub_cancel]
      conv_lhs => rw [hX]
      simp
    simp only
    rw [htake]
    conv_rhs => rw [hX]
    rw [List.append_assoc, List.append_assoc]
    exact List.perm_middle
  | read p j =>
    simp only [Stacked.step, Option.bind_eq_bind, Option.bind_eq_some_iff] at h
    obtain ⟨t, -, h⟩ := h
    split at h
    · simp only [Option.bind_eq_some_iff] at h
      obtain ⟨s1, h1, e⟩ := h
      obtain rfl := Option.some.inj e
      exact .inl ⟨rfl, rfl, key h1, rfl⟩
    · obtain rfl := Option.some.inj h
      exact .inl ⟨rfl, rfl, List.Sublist.refl _, rfl⟩
  | write p j =>
    simp only [Stacked.step, Option.bind_eq_bind, Option.bind_eq_some_iff] at h
    obtain ⟨t, -, h⟩ := h
    split at h
    · simp only [Option.bind_eq_some_iff] at h
      obtain ⟨s1, h1, e⟩ := h
      obtain rfl := Option.some.inj e
      exact .inl ⟨rfl, rfl, key h1, rfl⟩
    · obtain rfl := Option.some.inj h
      exact .inl ⟨rfl, rfl, List.Sublist.refl _, rfl⟩

theorem SWF.step {i : Nat} {st st' : Stacked.State Ptr} {e : Ev Ptr} (hw : SWF st) (h : Stacked.step i st e = some st') :
    SWF st' := by
  rcases sstep_shape h with ⟨h1, h2, h3, -⟩ | ⟨c, p, s, -, h1, h2, h3, h4⟩
  · obtain ⟨env, next, stk⟩ := st'
    obtain rfl : next = st.next := h2
    exact SWF.shrink (env := st.env) hw h3 env
  · obtain ⟨env, next, stk⟩ := st'
    obtain rfl : next = st.next + 1 := h2
    exact (SWF.shrink (env := st.env) (next := st.next) hw h3 st.env).push p env h4

/-- The pointer has no item left: any use of it is a violation. -/
def SBad (v : Ptr) (st : Stacked.State Ptr) : Prop :=
  ∃ t, st.env v = some t ∧ t < st.next ∧ ∀ it ∈ st.stack, it.tag ≠ t

theorem SBad.step {i : Nat} {v : Ptr} {st st' : Stacked.State Ptr} {e : Ev Ptr} (hb : SBad v st)
    (h : Stacked.step i st e = some st') (ha : assigns e ≠ some v) : SBad v st' := by
  obtain ⟨t, h1, h2, h3⟩ := hb
  rcases sstep_shape h with ⟨e1, e2, e3, -⟩ | ⟨c, p, s, e0, e1, e2, e3, e4⟩
  · exact ⟨t, by rw [e1]; exact h1, by rw [e2]; exact h2, fun it hi => h3 it (e3.subset hi)⟩
  · refine ⟨t, ?_, by omega, fun it hi => ?_⟩
    · rw [e1, Env.set, if_neg (by rintro rfl; exact ha e0)]; exact h1
    · rcases List.mem_cons.mp (e4.subset hi) with rfl | hi
      · exact h2.ne'
      · exact h3 it (e3.subset hi)

theorem SBad.write {i : Nat} {v : Ptr} {st : Stacked.State Ptr} (hb : SBad v st) : Stacked.step i st (.write v i) = none := by
  obtain ⟨t, h1, h2, h3⟩ := hb
  simp [Stacked.step, h1, access, split_none h3]

theorem SBad.mut {i : Nat} {v c : Ptr} {st : Stacked.State Ptr} (hb : SBad v st) : Stacked.step i st (.mut v c) = none := by
  obtain ⟨t, h1, h2, h3⟩ := hb
  simp [Stacked.step, h1, retagMut, access, split_none h3]

/-- The pointer's item is that of a mutable reference. -/
def SJ (x : Ptr) (st : Stacked.State Ptr) : Prop :=
  SWF st ∧ ∃ t, st.env x = some t ∧ t < st.next ∧ ∀ it ∈ st.stack, it.tag = t → it.perm = .unique

theorem SJ.step {i : Nat} {v : Ptr} {st st' : Stacked.State Ptr} {e : Ev Ptr} (hb : SJ v st)
    (h : Stacked.step i st e = some st') (ha : assigns e ≠ some v) : SJ v st' := by
  obtain ⟨hw, t, h1, h2, h3⟩ := hb
  refine ⟨hw.step h, ?_⟩
  rcases sstep_shape h with ⟨e1, e2, e3, -⟩ | ⟨c, p, s, e0, e1, e2, e3, e4⟩
  · exact ⟨t, by rw [e1]; exact h1, by rw [e2]; exact h2, fun it hi => h3 it (e3.subset hi)⟩
  · refine ⟨t, ?_, by omega, fun it hi he => ?_⟩
    · rw [e1, Env.set, if_neg (by rintro rfl; exact ha e0)]; exact h1
    · rcases List.mem_cons.mp (e4.subset hi) with rfl | hi
      · exact absurd he h2.ne'
      · exact h3 it (e3.subset hi) he

theorem SJ.new {i : Nat} {v c : Ptr} {st st' : Stacked.State Ptr} (hw : SWF st) (h : Stacked.step i st (.mut v c) = some st') :
    SJ c st' := by
  refine ⟨hw.step h, st.next, ?_⟩
  obtain ⟨env, next, s⟩ := st
  simp only [Stacked.step, Option.bind_eq_bind, Option.bind_eq_some_iff, retagMut, Option.map_eq_some_iff] at h
  obtain ⟨t, -, s1, ⟨s2, h2, rfl⟩, e⟩ := h
  obtain rfl := Option.some.inj e
  refine ⟨by simp [Env.set], by simp, fun it hi he => ?_⟩
  rcases List.mem_cons.mp hi with rfl | hi
  · rfl
  · have hsub : List.Sublist s2 s := by
      simp only [access, Option.map_eq_some_iff] at h2
      obtain ⟨⟨a, it, b⟩, hs, rfl⟩ := h2
      obtain ⟨rfl, -⟩ := split_some hs
      exact List.Sublist.append (afterWrite_sublist _ _) (List.Sublist.refl _)
    exact absurd he (hw.lt it (hsub.subset hi)).ne

theorem f2_split {α β : Type} {R : α → β → Prop} : ∀ {l1 l2 : List α} {l : List β}, List.Forall₂ R (l1 ++ l2) l →
    ∃ a b, List.Forall₂ R l1 a ∧ List.Forall₂ R l2 b ∧ l = a ++ b
  | [], _, l, h => ⟨[], l, .nil, h, rfl⟩
  | _ :: _, _, _, .cons h t => by
    obtain ⟨a, b, h1, h2, rfl⟩ := f2_split t
    exact ⟨_ :: a, b, .cons h h1, h2, rfl⟩

/-- A new mutable reference from `x` makes the pointers made from `x` unusable. -/
theorem sbad_pop {i : Nat} {cs l vs : List Ptr} {a x c : Ptr} {st st' : Stacked.State Ptr} (hg : SG cs (l ++ x :: vs) st)
    (ha : a ∈ l) (hj : SJ x st) (hc : c ≠ a) (h : Stacked.step i st (.mut x c) = some st') : SBad a st' := by
  obtain ⟨hw, A, B, items, e, hs, hf, -⟩ := hg
  obtain ⟨il, ir, h1, h2, rfl⟩ := f2_split hf
  cases h2 with
  | @cons _ ix _ ivs hx _ =>
    obtain ⟨l1, l2, rfl⟩ := List.append_of_mem ha
    obtain ⟨i1, i2, h3, h4, rfl⟩ := f2_split h1
    cases h4 with
    | @cons _ ia _ i2 hia _ =>
      have hsub : List.Sublist [ia, ix] st.stack := by
        rw [e]
        refine List.Sublist.trans ?_ (List.sublist_append_right A B)
        refine List.Sublist.trans ?_ hs
        have e1 : List.Sublist [ia] (i1 ++ ia :: i2) :=
          (List.singleton_sublist.mpr (by simp))
        exact e1.append (l₁ := [ia]) (r₁ := [ix]) (List.singleton_sublist.mpr (by simp))
      obtain ⟨r1, r2, e2, m1, m2⟩ := List.cons_sublist_iff.mp hsub
      obtain ⟨u, v, rfl⟩ := List.append_of_mem (List.singleton_sublist.mp m2)
      obtain ⟨-, t, ht, -, hu⟩ := hj
      obtain rfl : ix.tag = t := Option.some.inj (hx.1.symm.trans ht)
      have hstk : st.stack = (r1 ++ u) ++ ix :: v := by simp [e2]
      have hn := hw.nodup
      rw [hstk] at hn
      have hpu : ix.perm = .unique := hu ix (by rw [hstk]; simp) rfl
      have hsp := split_eq (w := true) (B := v) (grants_of (it := ix) hx.2 true) (nodup_ne hn)
      obtain ⟨env, next, s⟩ := st
      obtain rfl : s = (r1 ++ u) ++ ix :: v := hstk
      rw [sstep_mut ht c hsp] at h
      obtain rfl := Option.some.inj h
      have hlt : ia.tag < next := hw.lt ia (by simp [m1])
      refine ⟨ia.tag, ?_, by simp; omega, ?_⟩
      · show (if a = c then _ else env a) = _
        rw [if_neg (Ne.symm hc)]; exact hia.1
      · intro it hi he
        rw [List.map_append, List.nodup_append] at hn
        have hd := hn.2.2 ia.tag (List.mem_map_of_mem (by simp [m1]))
        simp only [afterWrite, hpu] at hi
        rcases List.mem_cons.mp hi with rfl | hi
        · exact absurd he hlt.ne'
        · exact hd it.tag (List.mem_map_of_mem (by simpa using hi)) he.symm

/-- After `out = arg.as_mut_ptr(); cur = &mut *arg`, `out` is unusable. -/
theorem stacked_prologue {i : Nat} {cs vs : List Ptr} {caller : Ptr} (ho : Outside (caller :: vs)) {st : Stacked.State Ptr}
    (hg : SG cs (caller :: vs) st) : ∃ st', runs (Stacked.step i) st
      [.mut caller .arg, .mut .arg .outRef, .raw .outRef .outPtr, .mut .arg .cur] = some st' ∧ SBad .outPtr st' ∧
      SG [] (.cur :: .arg :: caller :: vs) st' ∧ SJ .cur st' := by
  have h1 : Ptr.arg ∉ caller :: vs := ho _ (by simp)
  have h2 : Ptr.outRef ∉ Ptr.arg :: caller :: vs := by simpa using ho .outRef (by simp)
  have h3 : Ptr.outPtr ∉ Ptr.outRef :: Ptr.arg :: caller :: vs := by simpa using ho .outPtr (by simp)
  have h4 : Ptr.cur ∉ Ptr.arg :: caller :: vs := by simpa using ho .cur (by simp)
  let R := stackedRules i
  obtain ⟨s1, e1, g1⟩ := R.mkMut (c := .arg) (show R.G cs (caller :: vs) st from hg) h1
  have j1 : SJ .arg s1 := SJ.new hg.1 e1
  obtain ⟨s2, e2, g2⟩ := R.mkMut (c := .outRef) g1 h2
  have j2 := j1.step e2 (by simp [assigns])
  obtain ⟨s3, e3, g3⟩ := R.mkRaw (c := .outPtr) g2 h3
  have j3 := j2.step e3 (by simp [assigns])
  obtain ⟨s4, e4, g4⟩ := R.mkMut (c := .cur) (R.drop (R.drop g3)) h4
  refine ⟨s4, by simp [runs, e1, e2, e3, e4], ?_, g4, SJ.new j3.1 e4⟩
  exact sbad_pop (l := [.outPtr, .outRef]) (show SG [] _ s3 from g3) (by simp) j3 (by simp) e4

/-- The copy through the stale pointer. -/
theorem stacked_arg_bad {cs vs : List Ptr} {caller : Ptr} (ho : Outside (caller :: vs)) {st : Stacked.State Ptr}
    (hg : SG cs (caller :: vs) st) {mid : Evs} (hm : ∀ e ∈ mid, assigns e ≠ some .outPtr) {n : Nat} (hn : 0 < n) :
    runs (Stacked.step 0) st ([.mut caller .arg, .mut .arg .outRef, .raw .outRef .outPtr, .mut .arg .cur] ++ mid ++
      (List.range n).map fun i => .write .outPtr i) = none := by
  obtain ⟨st', e, hb, -⟩ := stacked_prologue (i := 0) ho hg
  rw [List.append_assoc, runs_append, e]
  refine runs_none (P := SBad .outPtr) (fun st2 h2 => runs_inv (fun e he s s' hb hs => hb.step hs (hm e he)) hb h2) ?_
  intro st2 hb
  obtain ⟨m, rfl⟩ : ∃ m, n = m + 1 := ⟨n - 1, by omega⟩
  rw [List.range_succ_eq_map, List.map_cons, runs, hb.write]
  rfl

/-- Two mutable pointers taken one after the other from the same reference: the first is unusable. -/
theorem stacked_two_bad {cs vs : List Ptr} {x a b : Ptr} {st : Stacked.State Ptr} (hg : SG cs (x :: vs) st) (hj : SJ x st)
    (ha : a ∉ x :: vs) (hab : b ≠ a) (rest : Evs) (i : Nat) :
    runs (Stacked.step i) st (.mut x a :: .mut x b :: .write a i :: rest) = none := by
  obtain ⟨s1, e1, g1⟩ := (stackedRules i).mkMut (c := a) (show (stackedRules i).G cs (x :: vs) st from hg) ha
  have j1 : SJ x s1 := hj.step e1 (by simp only [assigns, ne_eq, Option.some.injEq]; rintro rfl; simp at ha)
  rw [runs, e1]
  show runs _ s1 _ = none
  rw [runs]
  cases e2 : Stacked.step i s1 (.mut x b) with
  | none => rfl
  | some s2 =>
    have hb := sbad_pop (l := [a]) (show SG [] (a :: x :: vs) s1 from g1) (by simp) j1 hab e2
    show runs _ s2 _ = none
    rw [runs, hb.write]
    rfl

end

/-! ### Tree Borrows -/
section
open Tree

/-- What a successful access leaves. -/
theorem mapM_some {w : Bool} {ch : List Nat} : ∀ {ns ns' : List Node}, ns.mapM (touch w ch) = some ns' →
    ns' = ns.map (upd w ch) ∧ ∀ nd ∈ ns, nd.tag ∈ ch → (child w nd.perm).isSome
  | [], ns', h => by
    obtain rfl : [] = ns' := by simpa using h
    simp
  | nd :: ns, ns', h => by
    rw [List.mapM_cons] at h
    simp only [Option.bind_eq_bind, Option.bind_eq_some_iff] at h
    obtain ⟨a, h1, b, h2, e⟩ := h
    obtain rfl : a :: b = ns' := by simpa using e
    obtain ⟨rfl, h3⟩ := mapM_some h2
    have h4 : a = upd w ch nd ∧ (nd.tag ∈ ch → (child w nd.perm).isSome) := by
      rw [touch] at h1
      split at h1
      · rename_i hm
        obtain ⟨q, hq, rfl⟩ := Option.map_eq_some_iff.mp h1
        refine ⟨?_, fun _ => by simp [hq]⟩
        simp [upd, hm, hq]
      · rename_i hm
        obtain rfl := Option.some.inj h1
        exact ⟨by simp [upd, hm], fun h => absurd h hm⟩
    refine ⟨by rw [h4.1]; rfl, fun x hx => ?_⟩
    rcases List.mem_cons.mp hx with rfl | hx
    · exact h4.2
    · exact h3 x hx

theorem chainOf_some {t : Nat} {ns : List Node} {ch : List Nat} (h : chainOf t ns = some ch) :
    ∃ p ∈ sk ns, p.1 = t ∧ ch = p.1 :: p.2 := by
  rw [chainOf, Option.map_eq_some_iff] at h
  obtain ⟨nd, h1, rfl⟩ := h
  exact ⟨(nd.tag, nd.above), List.mem_map_of_mem (f := fun nd : Node => (nd.tag, nd.above)) (List.mem_of_find?_eq_some h1),
    by simpa using List.find?_some h1, rfl⟩

/-- What a step leaves: the nodes that were there, some with other permissions, and at most one new one. -/
theorem tstep_shape {i : Nat} {st st' : Tree.State Ptr} {e : Ev Ptr} (h : Tree.step i st e = some st') :
    (st'.next = st.next ∧ (st'.env = st.env ∨ ∃ v c t, st.env v = some t ∧ e = .raw v c ∧ st'.env = st.env.set c t) ∧
      (st'.nodes = st.nodes ∨ ∃ w ch, st.nodes.mapM (touch w ch) = some st'.nodes)) ∨
    ∃ c p q ch, assigns e = some c ∧ st'.env = st.env.set c st.next ∧ st'.next = st.next + 1 ∧ p ∈ sk st.nodes ∧
      st.nodes.mapM (touch false ch) = some (st.nodes.map (upd false ch)) ∧
      st'.nodes = ⟨st.next, p.1 :: p.2, q⟩ :: st.nodes.map (upd false ch) := by
  obtain ⟨env, next, ns⟩ := st
  have key : ∀ {q t ns'}, retag q t next ns = some ns' → ∃ p ∈ sk ns, ∃ ch,
      ns.mapM (touch false ch) = some (ns.map (upd false ch)) ∧ ns' = ⟨next, p.1 :: p.2, q⟩ :: ns.map (upd false ch) := by
    intro q t ns' hr
    simp only [retag, Tree.access, Option.bind_eq_bind, Option.bind_eq_some_iff] at hr
    obtain ⟨ch, h1, ns1, ⟨ch', h2, h3⟩, e⟩ := hr
    obtain rfl := Option.some.inj e
    obtain ⟨p, hp, -, rfl⟩ := chainOf_some h1
    obtain ⟨rfl, -⟩ := mapM_some h3
    exact ⟨p, hp, ch', h3, rfl⟩
  cases e with
  | «mut» p c =>
    simp only [Tree.step, Option.bind_eq_bind, Option.bind_eq_some_iff] at h
    obtain ⟨t, -, s1, h2, e⟩ := h
    obtain rfl := Option.some.inj e
    obtain ⟨p, hp, ch, h3, rfl⟩ := key h2
    exact .inr ⟨c, p, _, ch, rfl, rfl, rfl, hp, h3, rfl⟩
  | shr p c =>
    simp only [Tree.step, Option.bind_eq_bind, Option.bind_eq_some_iff] at h
    obtain ⟨t, -, s1, h2, e⟩ := h
    obtain rfl := Option.some.inj e
    obtain ⟨p, hp, ch, h3, rfl⟩ := key h2
    exact .inr ⟨c, p, _, ch, rfl, rfl, rfl, hp, h3, rfl⟩
  | raw p c =>
    simp only [Tree.step, Option.bind_eq_bind, Option.bind_eq_some_iff] at h
    obtain ⟨t, ht, e⟩ := h
    obtain rfl := Option.some.inj e
    exact .inl ⟨rfl, .inr ⟨p, c, t, ht, rfl, rfl⟩, .inl rfl⟩
  | read p j =>
    simp only [Tree.step, Option.bind_eq_bind, Option.bind_eq_some_iff] at h
    obtain ⟨t, -, h⟩ := h
    split at h
    · simp only [Option.bind_eq_some_iff, Tree.access, Option.bind_eq_bind] at h
      obtain ⟨s1, ⟨ch, -, h1⟩, e⟩ := h
      obtain rfl := Option.some.inj e
      exact .inl ⟨rfl, .inl rfl, .inr ⟨_, _, h1⟩⟩
    · obtain rfl := Option.some.inj h
      exact .inl ⟨rfl, .inl rfl, .inl rfl⟩
  | write p j =>
    simp only [Tree.step, Option.bind_eq_bind, Option.bind_eq_some_iff] at h
    obtain ⟨t, -, h⟩ := h
    split at h
    · simp only [Option.bind_eq_some_iff, Tree.access, Option.bind_eq_bind] at h
      obtain ⟨s1, ⟨ch, -, h1⟩, e⟩ := h
      obtain rfl := Option.some.inj e
      exact .inl ⟨rfl, .inl rfl, .inr ⟨_, _, h1⟩⟩
    · obtain rfl := Option.some.inj h
      exact .inl ⟨rfl, .inl rfl, .inl rfl⟩

/-- The pointer has lost the permission to write. -/
def TBad (v : Ptr) (st : Tree.State Ptr) : Prop :=
  ∃ t, st.env v = some t ∧ ∃ nd ∈ st.nodes, nd.tag = t ∧ ¬ writable nd.perm

theorem upd_bad {w : Bool} {ch : List Nat} {nd : Node} (h : ¬ writable nd.perm)
    (hc : nd.tag ∈ ch → (child w nd.perm).isSome) : ¬ writable (upd w ch nd).perm := by
  by_cases hm : nd.tag ∈ ch
  · have := hc hm
    simp only [upd, hm, if_true]
    revert h this
    cases nd.perm <;> cases w <;> simp [writable, child]
  · simp only [upd, hm, if_false]
    revert h
    cases nd.perm <;> cases w <;> simp [writable, foreign]

theorem TBad.step {i : Nat} {v : Ptr} {st st' : Tree.State Ptr} {e : Ev Ptr} (hb : TBad v st)
    (h : Tree.step i st e = some st') (ha : assigns e ≠ some v) : TBad v st' := by
  obtain ⟨t, h1, nd, hn, ht, hw⟩ := hb
  have key : ∀ {w ch ns}, st.nodes.mapM (touch w ch) = some ns → ∃ nd ∈ ns, nd.tag = t ∧ ¬ writable nd.perm := by
    intro w ch ns hm
    obtain ⟨rfl, hc⟩ := mapM_some hm
    exact ⟨upd w ch nd, List.mem_map_of_mem hn, ht, upd_bad hw (hc nd hn)⟩
  rcases tstep_shape h with ⟨e1, e2, e3⟩ | ⟨c, p, q, ch, e0, e1, e2, -, e4, e5⟩
  · refine ⟨t, ?_, ?_⟩
    · rcases e2 with e2 | ⟨v', c, t', -, rfl, e2⟩
      · rw [e2]; exact h1
      · rw [e2, Env.set, if_neg (by rintro rfl; exact ha rfl)]; exact h1
    · rcases e3 with e3 | ⟨w, ch, e3⟩
      · rw [e3]; exact ⟨nd, hn, ht, hw⟩
      · exact key e3
  · refine ⟨t, ?_, ?_⟩
    · rw [e1, Env.set, if_neg (by rintro rfl; exact ha e0)]; exact h1
    · obtain ⟨nd', hn', h'⟩ := key e4
      exact ⟨nd', by rw [e5]; exact List.mem_cons_of_mem _ hn', h'⟩

theorem mapM_none {ch : List Nat} {ns : List Node} {nd : Node} (hn : nd ∈ ns) (hc : nd.tag ∈ ch) (hw : ¬ writable nd.perm) :
    ns.mapM (touch true ch) = none := by
  cases h : ns.mapM (touch true ch) with
  | none => rfl
  | some ns' =>
    have := (mapM_some h).2 nd hn hc
    revert hw this
    cases nd.perm <;> simp [writable, child]

theorem TBad.write {i : Nat} {v : Ptr} {st : Tree.State Ptr} (hb : TBad v st) : Tree.step i st (.write v i) = none := by
  obtain ⟨t, h1, nd, hn, ht, hw⟩ := hb
  simp only [Tree.step, h1, Tree.access, Option.bind_eq_bind, Option.bind_some, if_true]
  cases hc : chainOf t st.nodes with
  | none => rfl
  | some ch =>
    obtain ⟨p, -, hp, rfl⟩ := chainOf_some hc
    rw [Option.bind_some, mapM_none hn (by simp [hp, ht]) hw]
    rfl

/-- Nor may a reference made from it be written through. -/
theorem TBad.mutWrite {i : Nat} {v c : Ptr} {st : Tree.State Ptr} (hb : TBad v st) (rest : Evs) : runs (Tree.step i) st (.mut v c :: .write c i :: rest) = none := by
  obtain ⟨t, h1, nd, hn, ht, hw⟩ := hb
  rw [runs]
  cases h : Tree.step i st (.mut v c) with
  | none => rfl
  | some st' =>
    simp only [Tree.step, h1, retag, Tree.access, Option.bind_eq_bind, Option.bind_some, Option.bind_eq_some_iff] at h
    obtain ⟨ns, ⟨ch, hc, ns1, ⟨ch', hc', hm⟩, e⟩, e'⟩ := h
    obtain rfl : ch = ch' := by rw [hc] at hc'; exact Option.some.inj hc'
    obtain rfl := Option.some.inj e
    obtain rfl := Option.some.inj e'
    obtain ⟨rfl, hcc⟩ := mapM_some hm
    obtain ⟨p, -, hp, rfl⟩ := chainOf_some hc
    have hch : chainOf st.next (⟨st.next, p.1 :: p.2, .reserved⟩ :: st.nodes.map (upd false (p.1 :: p.2))) =
        some (st.next :: p.1 :: p.2) := by simp [chainOf]
    simp only [Option.bind_some, runs, Tree.step, Env.set, if_true, Tree.access, Option.bind_eq_bind, hch]
    rw [mapM_none (nd := upd false (p.1 :: p.2) nd) (List.mem_cons_of_mem _ (List.mem_map_of_mem hn)) (by simp [upd, ht, hp])
      (upd_bad hw (hcc nd hn))]
    rfl

/-- Pointer `out` is not among the pointers `x` is made from. -/
def TJ (out x : Ptr) (st : Tree.State Ptr) : Prop :=
  TWF st.next (sk st.nodes) ∧ ∃ t p, st.env out = some t ∧ (∃ nd ∈ st.nodes, nd.tag = t) ∧ st.env x = some p.1 ∧
    p ∈ sk st.nodes ∧ t ∉ p.1 :: p.2

theorem TJ.step {i : Nat} {out x : Ptr} {st st' : Tree.State Ptr} {e : Ev Ptr} (hb : TJ out x st)
    (h : Tree.step i st e = some st') (ha : assigns e ≠ some out) (hx : assigns e ≠ some x) : TJ out x st' := by
  obtain ⟨hw, t, p, h1, ⟨nd, hn, ht⟩, h2, h3, h4⟩ := hb
  rcases tstep_shape h with ⟨e1, e2, e3⟩ | ⟨c, p', q, ch, e0, e1, e2, ep, e4, e5⟩
  · have hsk : sk st'.nodes = sk st.nodes := by
      rcases e3 with e3 | ⟨w, ch, e3⟩
      · rw [e3]
      · rw [(mapM_some e3).1, sk_upd]
    refine ⟨by rw [hsk, e1]; exact hw, t, p, ?_, ?_, ?_, by rw [hsk]; exact h3, h4⟩
    · rcases e2 with e2 | ⟨v', c, t', -, rfl, e2⟩
      · rw [e2]; exact h1
      · rw [e2, Env.set, if_neg (by rintro rfl; exact ha rfl)]; exact h1
    · rcases e3 with e3 | ⟨w, ch, e3⟩
      · rw [e3]; exact ⟨nd, hn, ht⟩
      · rw [(mapM_some e3).1]; exact ⟨_, List.mem_map_of_mem hn, ht⟩
    · rcases e2 with e2 | ⟨v', c, t', -, rfl, e2⟩
      · rw [e2]; exact h2
      · rw [e2, Env.set, if_neg (by rintro rfl; exact hx rfl)]; exact h2
  · have hsk : sk st'.nodes = (st.next, p'.1 :: p'.2) :: sk st.nodes := by
      rw [e5, ← sk_upd false ch st.nodes]; rfl
    refine ⟨by rw [hsk, e2]; exact hw.push ep, t, p, ?_, ?_, ?_, by rw [hsk]; exact List.mem_cons_of_mem _ h3, h4⟩
    · rw [e1, Env.set, if_neg (by rintro rfl; exact ha e0)]; exact h1
    · rw [e5]; exact ⟨_, List.mem_cons_of_mem _ (List.mem_map_of_mem hn), ht⟩
    · rw [e1, Env.set, if_neg (by rintro rfl; exact hx e0)]; exact h2

/-- … nor, then, among those of a reference made from `x`. -/
theorem TJ.mut {i : Nat} {out x c : Ptr} {st st' : Tree.State Ptr} (hb : TJ out x st)
    (h : Tree.step i st (.mut x c) = some st') (ha : c ≠ out) : TJ out c st' := by
  obtain ⟨hw, t, p, h1, ⟨nd, hn, ht⟩, h2, h3, h4⟩ := hb
  simp only [Tree.step, h2, retag, Tree.access, chainOf_eq hw h3, Option.bind_eq_bind, Option.bind_some,
    Option.bind_eq_some_iff] at h
  obtain ⟨ns, ⟨ns1, hm, e⟩, e'⟩ := h
  obtain rfl := Option.some.inj e
  obtain rfl := Option.some.inj e'
  obtain ⟨rfl, -⟩ := mapM_some hm
  have hsk : sk (⟨st.next, p.1 :: p.2, .reserved⟩ :: st.nodes.map (upd false (p.1 :: p.2))) =
      (st.next, p.1 :: p.2) :: sk st.nodes := by
    rw [← sk_upd false (p.1 :: p.2) st.nodes]; rfl
  have htl : t < st.next := by
    rw [← ht]; exact hw.lt (nd.tag, nd.above) (List.mem_map_of_mem (f := fun nd : Node => (nd.tag, nd.above)) hn)
  refine ⟨by rw [hsk]; exact hw.push h3, t, (st.next, p.1 :: p.2), ?_, ?_, by simp [Env.set], by rw [hsk]; simp, ?_⟩
  · show (if out = c then _ else st.env out) = _
    rw [if_neg (Ne.symm ha)]; exact h1
  · exact ⟨_, List.mem_cons_of_mem _ (List.mem_map_of_mem hn), ht⟩
  · intro hm
    rcases List.mem_cons.mp hm with e | hm
    · exact absurd e htl.ne
    · exact h4 hm

/-- A write through `x` takes the permission away from `out`. -/
theorem TJ.write {i : Nat} {out x : Ptr} {st st' : Tree.State Ptr} (hb : TJ out x st)
    (h : Tree.step i st (.write x i) = some st') : TBad out st' := by
  obtain ⟨hw, t, p, h1, ⟨nd, hn, ht⟩, h2, h3, h4⟩ := hb
  simp only [Tree.step, h2, Tree.access, chainOf_eq hw h3, Option.bind_eq_bind, Option.bind_some,
    Option.bind_eq_some_iff, if_true] at h
  obtain ⟨ns1, hm, e⟩ := h
  obtain rfl := Option.some.inj e
  obtain ⟨rfl, -⟩ := mapM_some hm
  refine ⟨t, h1, upd true (p.1 :: p.2) nd, List.mem_map_of_mem hn, ht, ?_⟩
  simp only [upd, show nd.tag ∉ p.1 :: p.2 by rw [ht]; exact h4, if_false]
  cases nd.perm <;> simp [foreign, writable]

/-- A new reference is not among the pointers its parent is made from. -/
theorem TJ.new {i : Nat} {cs vs : List Ptr} {x c : Ptr} {st st' : Tree.State Ptr} (hg : TG cs (x :: vs) st) (hc : c ≠ x)
    (h : Tree.step i st (.mut x c) = some st') : TJ c x st' := by
  obtain ⟨hw, ts, hf, -⟩ := hg
  cases hf with
  | @cons _ p _ ts h1 _ =>
    obtain ⟨h2, h3⟩ := h1
    simp only [Tree.step, h2, retag, Tree.access, chainOf_eq hw h3, Option.bind_eq_bind, Option.bind_some,
      Option.bind_eq_some_iff] at h
    obtain ⟨ns, ⟨ns1, hm, e⟩, e'⟩ := h
    obtain rfl := Option.some.inj e
    obtain rfl := Option.some.inj e'
    obtain ⟨rfl, -⟩ := mapM_some hm
    have hsk : sk (⟨st.next, p.1 :: p.2, .reserved⟩ :: st.nodes.map (upd false (p.1 :: p.2))) =
        (st.next, p.1 :: p.2) :: sk st.nodes := by
      rw [← sk_upd false (p.1 :: p.2) st.nodes]; rfl
    refine ⟨by rw [hsk]; exact hw.push h3, st.next, p, by simp [Env.set], ⟨_, List.mem_cons_self, rfl⟩, ?_,
      by rw [hsk]; exact List.mem_cons_of_mem _ h3, ?_⟩
    · show (if x = c then _ else st.env x) = _
      rw [if_neg (Ne.symm hc)]; exact h2
    · intro hm
      rcases List.mem_cons.mp hm with e | hm
      · exact absurd e (hw.lt p h3).ne'
      · exact absurd (hw.ltAbove p h3 _ hm) (Nat.lt_irrefl _)

theorem tree_prologue {i : Nat} {cs vs : List Ptr} {caller : Ptr} (ho : Outside (caller :: vs)) {st : Tree.State Ptr}
    (hg : TG cs (caller :: vs) st) : ∃ st', runs (Tree.step i) st
      [.mut caller .arg, .mut .arg .outRef, .raw .outRef .outPtr, .mut .arg .cur] = some st' ∧ TJ .outPtr .cur st' := by
  have h1 : Ptr.arg ∉ caller :: vs := ho _ (by simp)
  have h2 : Ptr.outRef ∉ Ptr.arg :: caller :: vs := by simpa using ho .outRef (by simp)
  have h3 : Ptr.outPtr ∉ Ptr.outRef :: Ptr.arg :: caller :: vs := by simpa using ho .outPtr (by simp)
  have h4 : Ptr.cur ∉ Ptr.arg :: caller :: vs := by simpa using ho .cur (by simp)
  let R := treeRules i
  obtain ⟨s1, e1, g1⟩ := R.mkMut (c := .arg) (show R.G cs (caller :: vs) st from hg) h1
  obtain ⟨s2, e2, g2⟩ := R.mkMut (c := .outRef) g1 h2
  have j2 : TJ .outRef .arg s2 := TJ.new g1 (by simp) e2
  obtain ⟨s3, e3, g3⟩ := R.mkRaw (c := .outPtr) g2 h3
  have j3 : TJ .outPtr .arg s3 := by
    obtain ⟨hw, t, p, q1, q2, q3, q4, q5⟩ := j2
    simp only [Tree.step, q1, Option.bind_eq_bind, Option.bind_some] at e3
    obtain rfl := Option.some.inj e3
    exact ⟨hw, t, p, by simp [Env.set], q2, by simp [Env.set, q3], q4, q5⟩
  obtain ⟨s4, e4, g4⟩ := R.mkMut (c := .cur) (R.drop (R.drop g3)) h4
  exact ⟨s4, by simp [runs, e1, e2, e3, e4], j3.mut e4 (by simp)⟩

/-- The copy through the stale pointer, after a write through the other one. -/
theorem tree_arg_bad {cs vs : List Ptr} {caller : Ptr} (ho : Outside (caller :: vs)) {st : Tree.State Ptr}
    (hg : TG cs (caller :: vs) st) {pre w post : Evs} (hp : ∀ e ∈ pre, assigns e ≠ some .outPtr ∧ assigns e ≠ some .cur)
    (hw : ∀ st st', TJ .outPtr .cur st → runs (Tree.step 0) st w = some st' → TBad .outPtr st')
    (hq : ∀ e ∈ post, assigns e ≠ some .outPtr) {n : Nat} (hn : 0 < n) :
    runs (Tree.step 0) st ([.mut caller .arg, .mut .arg .outRef, .raw .outRef .outPtr, .mut .arg .cur] ++ (pre ++ (w ++ post)) ++
      (List.range n).map fun i => .write .outPtr i) = none := by
  obtain ⟨st', e, hj⟩ := tree_prologue (i := 0) ho hg
  rw [List.append_assoc, runs_append, e]
  refine runs_none (P := TBad .outPtr) (fun st2 h2 => ?_) ?_
  · rw [runs_append] at h2
    obtain ⟨st3, h3, h4⟩ := Option.bind_eq_some_iff.mp h2
    have j3 : TJ .outPtr .cur st3 := runs_inv (fun e he s s' hb hs => TJ.step hb hs (hp e he).1 (hp e he).2) hj h3
    rw [runs_append] at h4
    obtain ⟨st5, h5, h6⟩ := Option.bind_eq_some_iff.mp h4
    exact runs_inv (fun e he s s' hb hs => TBad.step hb hs (hq e he)) (hw st3 st5 j3 h5) h6
  · intro st2 hb
    obtain ⟨m, rfl⟩ : ∃ m, n = m + 1 := ⟨n - 1, by omega⟩
    rw [List.range_succ_eq_map, List.map_cons, runs, hb.write]
    rfl

end
end Kofft.Borrow
