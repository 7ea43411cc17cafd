import Verif.Model.Borrow
/-
Reasoning about `Spec/Borrow.lean`: rules that both borrow models satisfy, and what follows from the rules alone.
-/
namespace Kofft.Borrow
open Kofft.Spec.Borrow

/-- What is known of a state: `vs` are pointers in use, each made from the next; `cs` are shared references made from the first
of them. -/
structure Rules {σ : Type} (step : σ → Ev Ptr → Option σ) where
  G : List Ptr → List Ptr → σ → Prop
  weaken : ∀ {cs vs st}, G cs vs st → G [] vs st
  drop : ∀ {cs v vs st}, G cs (v :: vs) st → G [] vs st
  mkMut : ∀ {cs v vs st} {c}, G cs (v :: vs) st → c ∉ v :: vs → ∃ st', step st (.mut v c) = some st' ∧ G [] (c :: v :: vs) st'
  mkRaw : ∀ {cs v vs st} {c}, G cs (v :: vs) st → c ∉ v :: vs → ∃ st', step st (.raw v c) = some st' ∧ G [] (c :: v :: vs) st'
  mkShr : ∀ {cs v vs st} {c}, G cs (v :: vs) st → c ∉ v :: vs → c ∉ cs →
    ∃ st', step st (.shr v c) = some st' ∧ G (c :: cs) (v :: vs) st'
  readS : ∀ {cs v vs st} {c} (j), G cs (v :: vs) st → c ∈ cs → ∃ st', step st (.read c j) = some st' ∧ G cs (v :: vs) st'
  read : ∀ {cs v vs st} (j), G cs (v :: vs) st → ∃ st', step st (.read v j) = some st' ∧ G cs (v :: vs) st'
  write : ∀ {cs v vs st} (j), G cs (v :: vs) st → ∃ st', step st (.write v j) = some st' ∧ G [] (v :: vs) st'

/-! ### Stacked Borrows satisfies the rules -/
section
open Stacked

structure SWF (st : Stacked.State Ptr) : Prop where
  nodup : (st.stack.map Item.tag).Nodup
  lt : ∀ it ∈ st.stack, it.tag < st.next

def SG (cs vs : List Ptr) (st : Stacked.State Ptr) : Prop :=
  SWF st ∧ ∃ A B items, st.stack = A ++ B ∧ List.Sublist items B ∧
    List.Forall₂ (fun v it => st.env v = some it.tag ∧ it.perm ≠ .sharedRO) vs items ∧
    ∀ c ∈ cs, ∃ t, st.env c = some t ∧ (⟨.sharedRO, t⟩ : Item) ∈ A

theorem split_eq {w : Bool} {t : Nat} {A B : List Item} {it : Item} (h : it.grants w t = true)
    (hA : ∀ x ∈ A, x.tag ≠ t) : split w t (A ++ it :: B) = some (A, it, B) := by
  induction A with
  | nil => simp [split, h]
  | cons a A ih =>
    have ha : a.grants w t = false := by simp [Item.grants, hA a (by simp)]
    rw [List.cons_append, split, if_neg (by simp [ha]), ih fun x hx => hA x (by simp [hx])]
    rfl

theorem nodup_ne {A B : List Item} {it : Item} (h : ((A ++ it :: B).map Item.tag).Nodup) : ∀ x ∈ A, x.tag ≠ it.tag := by
  intro x hx e
  rw [List.map_append, List.nodup_append] at h
  exact h.2.2 x.tag (List.mem_map_of_mem hx) it.tag (by simp) e

theorem afterWrite_sublist (it : Item) (above : List Item) : List.Sublist (afterWrite it above) above := by
  rw [afterWrite]
  split
  · have := (List.takeWhile_sublist (fun x : Item => decide (x.perm = .sharedRW)) (l := above.reverse)).reverse
    simpa using this
  · exact List.nil_sublist _

theorem afterWrite_suffix (it : Item) (above : List Item) : ∃ X, above = X ++ afterWrite it above := by
  rw [afterWrite]
  split
  · refine ⟨(above.reverse.dropWhile fun x : Item => decide (x.perm = .sharedRW)).reverse, ?_⟩
    rw [← List.reverse_append, List.takeWhile_append_dropWhile, List.reverse_reverse]
  · exact ⟨above, by simp⟩

theorem afterRead_sublist (above : List Item) : List.Sublist (afterRead above) above := List.filter_sublist

theorem SWF.shrink {env : Env Ptr} {next : Nat} {s s' : List Item} (h : SWF ⟨env, next, s⟩) (hs : List.Sublist s' s) (env') :
    SWF ⟨env', next, s'⟩ :=
  ⟨h.nodup.sublist (hs.map _), fun it hi => h.lt it (hs.subset hi)⟩

theorem SWF.push {env : Env Ptr} {next : Nat} {s : List Item} (h : SWF ⟨env, next, s⟩) (p : Stacked.Perm) (env') {s' : List Item}
    (hp : List.Perm s' (⟨p, next⟩ :: s)) : SWF ⟨env', next + 1, s'⟩ := by
  refine ⟨(hp.map Item.tag).nodup_iff.mpr ?_, fun it hi => ?_⟩
  · rw [List.map_cons, List.nodup_cons]
    refine ⟨fun hm => ?_, h.nodup⟩
    obtain ⟨it, hi, e⟩ := List.mem_map.mp hm
    exact absurd (h.lt it hi) (by simp [e])
  · rcases List.mem_cons.mp (hp.subset hi) with rfl | hi
    · simp
    · exact (h.lt it hi).trans (Nat.lt_succ_self _)

theorem forall₂_set {vs : List Ptr} {items : List Item} {env : Env Ptr} {c : Ptr} {t : Nat} (hc : c ∉ vs)
    (h : List.Forall₂ (fun v it => env v = some it.tag ∧ it.perm ≠ .sharedRO) vs items) :
    List.Forall₂ (fun v it => env.set c t v = some it.tag ∧ it.perm ≠ .sharedRO) vs items := by
  induction h with
  | nil => exact .nil
  | @cons v it vs items h _ ih =>
    refine .cons ⟨?_, h.2⟩ (ih fun hm => hc (by simp [hm]))
    rw [Env.set, if_neg fun e => hc (by simp [e]), h.1]

/-- The pieces of the stack around the first pointer in use. -/
theorem SG.parts {cs v vs st} (h : SG cs (v :: vs) st) : ∃ A C it B items, st.stack = A ++ C ++ it :: B ∧
    st.env v = some it.tag ∧ it.perm ≠ .sharedRO ∧ List.Sublist items B ∧
    List.Forall₂ (fun v it => st.env v = some it.tag ∧ it.perm ≠ .sharedRO) vs items ∧
    (∀ c ∈ cs, ∃ t, st.env c = some t ∧ (⟨.sharedRO, t⟩ : Item) ∈ A) ∧ ∀ x ∈ A ++ C, x.tag ≠ it.tag := by
  obtain ⟨hw, A, B, items, e, hs, hf, hc⟩ := h
  cases hf with
  | @cons _ it _ items h1 h2 =>
    obtain ⟨r1, r2, rfl, hm, hs2⟩ := List.cons_sublist_iff.mp hs
    obtain ⟨C, D, rfl⟩ := List.append_of_mem hm
    refine ⟨A, C, it, D ++ r2, items, by simp [e], h1.1, h1.2, List.Sublist.trans hs2 (List.sublist_append_right _ _), h2, hc, ?_⟩
    have := hw.nodup
    rw [e] at this
    apply nodup_ne (B := D ++ r2)
    simpa using this

theorem grants_of {it : Item} (h : it.perm ≠ .sharedRO) (w : Bool) : it.grants w it.tag = true := by
  cases w <;> simp [Item.grants, h]

section
variable {i : Nat} {env : Env Ptr} {next : Nat} {s a b : List Item} {it : Item} {t : Nat} {p : Ptr} (hv : env p = some t)
include hv

theorem sstep_mut (c : Ptr) (h : split true t s = some (a, it, b)) : Stacked.step i ⟨env, next, s⟩ (.mut p c) =
    some ⟨env.set c next, next + 1, ⟨.unique, next⟩ :: (afterWrite it a ++ it :: b)⟩ := by
  simp [Stacked.step, hv, retagMut, access, h]

theorem sstep_shr (c : Ptr) (h : split false t s = some (a, it, b)) : Stacked.step i ⟨env, next, s⟩ (.shr p c) =
    some ⟨env.set c next, next + 1, ⟨.sharedRO, next⟩ :: (afterRead a ++ it :: b)⟩ := by
  simp [Stacked.step, hv, retagShr, access, h]

theorem sstep_raw (c : Ptr) (h : split true t s = some (a, it, b)) : Stacked.step i ⟨env, next, s⟩ (.raw p c) =
    some ⟨env.set c next, next + 1, a.take (a.length - (afterWrite it a).length) ++
      ⟨.sharedRW, next⟩ :: afterWrite it a ++ it :: b⟩ := by
  simp [Stacked.step, hv, retagRaw, h]

theorem sstep_read (h : split false t s = some (a, it, b)) : Stacked.step i ⟨env, next, s⟩ (.read p i) =
    some ⟨env, next, afterRead a ++ it :: b⟩ := by
  simp [Stacked.step, hv, access, h]

theorem sstep_write (h : split true t s = some (a, it, b)) : Stacked.step i ⟨env, next, s⟩ (.write p i) =
    some ⟨env, next, afterWrite it a ++ it :: b⟩ := by
  simp [Stacked.step, hv, access, h]

theorem sstep_read_other {j : Nat} (h : j ≠ i) : Stacked.step i ⟨env, next, s⟩ (.read p j) = some ⟨env, next, s⟩ := by
  simp [Stacked.step, hv, h]

theorem sstep_write_other {j : Nat} (h : j ≠ i) : Stacked.step i ⟨env, next, s⟩ (.write p j) = some ⟨env, next, s⟩ := by
  simp [Stacked.step, hv, h]
end

def stackedRules (i : Nat) : Rules (Stacked.step (τ := Ptr) i) where
  G := SG
  weaken := by
    rintro cs vs st ⟨hw, A, B, items, e, hs, hf, hc⟩
    exact ⟨hw, A, B, items, e, hs, hf, by simp⟩
  drop := by
    rintro cs v vs st ⟨hw, A, B, items, e, hs, hf, hc⟩
    cases hf with
    | cons h1 h2 => exact ⟨hw, A, B, _, e, (List.sublist_cons_self _ _).trans hs, h2, by simp⟩
  mkMut := by
    intro cs v vs st c h hc
    obtain ⟨A, C, it, B, items, e, hv, hp, hs, hf, -, hne⟩ := h.parts
    obtain ⟨env, next, s⟩ := st
    subst e
    replace hv : env v = some it.tag := hv
    refine ⟨⟨env.set c next, next + 1, ⟨.unique, next⟩ :: (afterWrite it (A ++ C) ++ it :: B)⟩, ?_, ?_, [], _,
      ⟨.unique, next⟩ :: it :: items, rfl, ?_, ?_, by simp⟩
    · exact sstep_mut hv c (split_eq (grants_of hp true) hne)
    · exact (h.1.shrink (((afterWrite_sublist it _)).append (List.Sublist.refl _)) env).push .unique _ (List.Perm.refl _)
    · exact List.Sublist.cons_cons _ ((List.Sublist.cons_cons _ hs).trans (List.sublist_append_right _ _))
    · refine .cons ⟨by simp [Env.set], by simp⟩ (forall₂_set hc (.cons ⟨hv, hp⟩ hf))
  mkRaw := by
    intro cs v vs st c h hc
    obtain ⟨A, C, it, B, items, e, hv, hp, hs, hf, -, hne⟩ := h.parts
    obtain ⟨env, next, s⟩ := st
    subst e
    replace hv : env v = some it.tag := hv
    obtain ⟨X, hX⟩ := afterWrite_suffix it (A ++ C)
    have htake : (A ++ C).take ((A ++ C).length - (afterWrite it (A ++ C)).length) = X := by
      have hl := congrArg List.length hX
      rw [List.length_append (as := X)] at hl
      rw [hl, Nat.add_sub_cancel]
      conv_lhs => rw [hX]
      simp
    refine ⟨⟨env.set c next, next + 1, (A ++ C).take ((A ++ C).length - (afterWrite it (A ++ C)).length) ++
      ⟨.sharedRW, next⟩ :: afterWrite it (A ++ C) ++ it :: B⟩, ?_, ?_, [], _,
      ⟨.sharedRW, next⟩ :: it :: items, rfl, ?_, ?_, by simp⟩
    · exact sstep_raw hv c (split_eq (grants_of hp true) hne)
    · rw [htake]
      refine (SWF.push (s := A ++ C ++ it :: B) h.1 .sharedRW _ ?_)
      conv_rhs => rw [hX]
      rw [List.append_assoc, List.append_assoc]
      exact List.perm_middle
    · rw [htake]
      show List.Sublist _ (X ++ (⟨.sharedRW, next⟩ :: afterWrite it (A ++ C)) ++ it :: B)
      rw [List.append_assoc]
      exact (List.Sublist.cons_cons _ ((List.Sublist.cons_cons _ hs).trans (List.sublist_append_right _ _))).trans
        (List.sublist_append_right _ _)
    · refine .cons ⟨by simp [Env.set], by simp⟩ (forall₂_set hc (.cons ⟨hv, hp⟩ hf))
  mkShr := by
    intro cs v vs st c h hc hcs
    obtain ⟨A, C, it, B, items, e, hv, hp, hs, hf, hr, hne⟩ := h.parts
    obtain ⟨env, next, s⟩ := st
    subst e
    replace hv : env v = some it.tag := hv
    refine ⟨⟨env.set c next, next + 1, ⟨.sharedRO, next⟩ :: (afterRead (A ++ C) ++ it :: B)⟩, ?_, ?_,
      ⟨.sharedRO, next⟩ :: afterRead (A ++ C), it :: B, it :: items, by simp, List.Sublist.cons_cons _ hs, ?_, ?_⟩
    · exact sstep_shr hv c (split_eq (grants_of hp false) hne)
    · exact (h.1.shrink ((afterRead_sublist _).append (List.Sublist.refl _)) env).push .sharedRO _ (List.Perm.refl _)
    · exact forall₂_set hc (.cons ⟨hv, hp⟩ hf)
    · intro d hd
      rcases List.mem_cons.mp hd with rfl | hd'
      · exact ⟨next, by simp [Env.set], by simp⟩
      · obtain ⟨t, h1, h2⟩ := hr d hd'
        refine ⟨t, ?_, ?_⟩
        · show (if d = c then _ else env d) = _
          rw [if_neg (by rintro rfl; exact hcs hd')]; exact h1
        · simp [afterRead, h2]
  readS := by
    intro cs v vs st c j h hc
    obtain ⟨A, C, it, B, items, e, hv, hp, hs, hf, hr, hne⟩ := h.parts
    obtain ⟨env, next, s⟩ := st
    subst e
    replace hv : env v = some it.tag := hv
    obtain ⟨t, h1, h2⟩ := hr c hc
    by_cases hj : j = i
    · subst hj
      obtain ⟨A1, A2, rfl⟩ := List.append_of_mem h2
      have hn := h.1.nodup
      have hne' : ∀ x ∈ A1, x.tag ≠ t := by
        have := @nodup_ne A1 (A2 ++ C ++ it :: B) ⟨.sharedRO, t⟩ (by simpa using hn)
        simpa using this
      refine ⟨⟨env, next, afterRead A1 ++ ⟨.sharedRO, t⟩ :: A2 ++ (C ++ it :: B)⟩, ?_, ?_,
        afterRead A1 ++ ⟨.sharedRO, t⟩ :: A2, C ++ it :: B, it :: items, rfl,
        (List.Sublist.cons_cons _ hs).trans (List.sublist_append_right _ _), .cons ⟨hv, hp⟩ hf, ?_⟩
      · have hsp := @split_eq false t A1 (A2 ++ (C ++ it :: B)) ⟨.sharedRO, t⟩ (by simp [Item.grants]) hne'
        have := sstep_read (i := j) (next := next) h1 hsp
        simpa using this
      · refine h.1.shrink ?_ env
        simp only [List.append_assoc, List.cons_append]
        exact (afterRead_sublist A1).append (List.Sublist.refl _)
      · intro d hd
        obtain ⟨t', h3, h4⟩ := hr d hd
        refine ⟨t', h3, ?_⟩
        rcases List.mem_append.mp h4 with h4 | h4
        · simp [afterRead, h4]
        · exact List.mem_append_right _ h4
    · exact ⟨_, sstep_read_other h1 hj, h⟩
  read := by
    intro cs v vs st j h
    obtain ⟨A, C, it, B, items, e, hv, hp, hs, hf, hr, hne⟩ := h.parts
    obtain ⟨env, next, s⟩ := st
    subst e
    replace hv : env v = some it.tag := hv
    by_cases hj : j = i
    · subst hj
      refine ⟨⟨env, next, afterRead (A ++ C) ++ it :: B⟩, ?_, h.1.shrink ((afterRead_sublist _).append (List.Sublist.refl _)) env,
        afterRead (A ++ C), it :: B, it :: items, rfl, List.Sublist.cons_cons _ hs, .cons ⟨hv, hp⟩ hf, ?_⟩
      · exact sstep_read hv (split_eq (grants_of hp false) hne)
      · intro d hd
        obtain ⟨t, h1, h2⟩ := hr d hd
        exact ⟨t, h1, by simp [afterRead, h2]⟩
    · exact ⟨_, sstep_read_other hv hj, h⟩
  write := by
    intro cs v vs st j h
    obtain ⟨A, C, it, B, items, e, hv, hp, hs, hf, hr, hne⟩ := h.parts
    obtain ⟨env, next, s⟩ := st
    subst e
    replace hv : env v = some it.tag := hv
    by_cases hj : j = i
    · subst hj
      refine ⟨⟨env, next, afterWrite it (A ++ C) ++ it :: B⟩, ?_, h.1.shrink ((afterWrite_sublist it _).append (List.Sublist.refl _)) env,
        [], _, it :: items, rfl, (List.Sublist.cons_cons _ hs).trans (List.sublist_append_right _ _), .cons ⟨hv, hp⟩ hf, by simp⟩
      exact sstep_write hv (split_eq (grants_of hp true) hne)
    · obtain ⟨hw, A', B', items', e, hs', hf', hc'⟩ := h
      exact ⟨_, sstep_write_other hv hj, hw, A', B', items', e, hs', hf', by simp⟩
end

/-! ### Tree Borrows satisfies the rules -/
section
open Tree

def writable : Tree.Perm → Prop
  | .reserved => True
  | .active => True
  | _ => False

/-- The tree without the permissions. -/
def sk (ns : List Node) : List (Nat × List Nat) := ns.map fun nd => (nd.tag, nd.above)

structure TWF (next : Nat) (s : List (Nat × List Nat)) : Prop where
  lt : ∀ p ∈ s, p.1 < next
  ltAbove : ∀ p ∈ s, ∀ t ∈ p.2, t < next
  uniq : ∀ p ∈ s, ∀ q ∈ s, p.1 = q.1 → p.2 = q.2
  trans : ∀ p ∈ s, ∀ q ∈ s, q.1 ∈ p.2 → ∀ t ∈ q.2, t ∈ p.2

theorem TWF.push {next : Nat} {s : List (Nat × List Nat)} (h : TWF next s) {p : Nat × List Nat} (hp : p ∈ s) :
    TWF (next + 1) ((next, p.1 :: p.2) :: s) := by
  have hl : ∀ t ∈ p.1 :: p.2, t < next := by
    intro t ht
    rcases List.mem_cons.mp ht with rfl | ht
    · exact h.lt p hp
    · exact h.ltAbove p hp t ht
  refine ⟨?_, ?_, ?_, ?_⟩
  · intro q hq
    rcases List.mem_cons.mp hq with rfl | hq
    · simp
    · exact (h.lt q hq).trans (Nat.lt_succ_self _)
  · intro q hq t ht
    rcases List.mem_cons.mp hq with rfl | hq
    · exact (hl t ht).trans (Nat.lt_succ_self _)
    · exact (h.ltAbove q hq t ht).trans (Nat.lt_succ_self _)
  · intro q hq r hr e
    rcases List.mem_cons.mp hq with rfl | hq <;> rcases List.mem_cons.mp hr with rfl | hr
    · rfl
    · exact absurd e.symm (h.lt r hr).ne
    · exact absurd e (h.lt q hq).ne
    · exact h.uniq q hq r hr e
  · intro q hq r hr hm t ht
    rcases List.mem_cons.mp hr with rfl | hr
    · rcases List.mem_cons.mp hq with rfl | hq
      · exact absurd (hl _ hm) (Nat.lt_irrefl _)
      · exact absurd (h.ltAbove q hq _ hm) (Nat.lt_irrefl _)
    · rcases List.mem_cons.mp hq with rfl | hq
      · rcases List.mem_cons.mp hm with e | hm
        · rw [h.uniq r hr p hp e] at ht; exact List.mem_cons_of_mem _ ht
        · exact List.mem_cons_of_mem _ (h.trans p hp r hr hm t ht)
      · exact h.trans q hq r hr hm t ht

def TG (cs vs : List Ptr) (st : Tree.State Ptr) : Prop :=
  TWF st.next (sk st.nodes) ∧ ∃ ts : List (Nat × List Nat),
    List.Forall₂ (fun v p => st.env v = some p.1 ∧ p ∈ sk st.nodes) vs ts ∧
    ts.Pairwise (fun p q => q.1 ∈ p.1 :: p.2) ∧
    (∀ p ∈ ts, ∀ nd ∈ st.nodes, nd.tag ∈ p.1 :: p.2 → writable nd.perm) ∧
    ∀ c ∈ cs, ∃ p ∈ ts.head?, ∃ t, st.env c = some t ∧ (t, p.1 :: p.2) ∈ sk st.nodes ∧
      ∀ nd ∈ st.nodes, nd.tag = t → nd.perm = .frozen

theorem chainOf_eq {next : Nat} {ns : List Node} (h : TWF next (sk ns)) {p : Nat × List Nat} (hp : p ∈ sk ns) :
    chainOf p.1 ns = some (p.1 :: p.2) := by
  obtain ⟨nd, hn, rfl⟩ := List.mem_map.mp hp
  rw [chainOf]
  cases hf : ns.find? fun x => x.tag == nd.tag with
  | none =>
    have := List.find?_eq_none.mp hf nd hn
    simp at this
  | some x =>
    have hx := List.mem_of_find?_eq_some hf
    have he : x.tag = nd.tag := by simpa using List.find?_some hf
    have := h.uniq (x.tag, x.above) (List.mem_map_of_mem (f := fun nd : Node => (nd.tag, nd.above)) hx) _ hp he
    simp only at this
    simp [he, this]

/-- The effect of an allowed access on a node. -/
def upd (w : Bool) (ch : List Nat) (nd : Node) : Node :=
  { nd with perm := if nd.tag ∈ ch then (child w nd.perm).getD nd.perm else foreign w nd.perm }

theorem mapM_touch {w : Bool} {ch : List Nat} : ∀ {ns : List Node},
    (∀ nd ∈ ns, nd.tag ∈ ch → (child w nd.perm).isSome) → ns.mapM (touch w ch) = some (ns.map (upd w ch))
  | [], _ => rfl
  | nd :: ns, h => by
    have ih := mapM_touch (ns := ns) fun x hx => h x (List.mem_cons_of_mem _ hx)
    have h1 : touch w ch nd = some (upd w ch nd) := by
      by_cases hm : nd.tag ∈ ch
      · obtain ⟨q, hq⟩ := Option.isSome_iff_exists.mp (h nd (by simp) hm)
        simp [touch, upd, hm, hq]
      · simp [touch, upd, hm]
    rw [List.mapM_cons, h1, ih]
    rfl

theorem sk_upd (w : Bool) (ch : List Nat) (ns : List Node) : sk (ns.map (upd w ch)) = sk ns := by
  simp [sk, upd, Function.comp_def]

theorem writable_child {p : Tree.Perm} (h : writable p) (w : Bool) :
    (child w p).isSome ∧ writable ((child w p).getD p) := by
  cases p <;> cases w <;> simp_all [writable, child]

theorem access_eq {next : Nat} {ns : List Node} (h : TWF next (sk ns)) {p : Nat × List Nat} (hp : p ∈ sk ns) {w : Bool}
    (hc : ∀ nd ∈ ns, nd.tag ∈ p.1 :: p.2 → (child w nd.perm).isSome) :
    Tree.access w p.1 ns = some (ns.map (upd w (p.1 :: p.2))) := by
  rw [Tree.access, chainOf_eq h hp]
  exact mapM_touch hc

theorem mem_right {α β : Type} {R : α → β → Prop} {l : List α} {l' : List β} (h : List.Forall₂ R l l') {b : β} (hb : b ∈ l') :
    ∃ a, R a b := by
  induction h with
  | nil => simp at hb
  | cons h _ ih =>
    rcases List.mem_cons.mp hb with rfl | hb
    · exact ⟨_, h⟩
    · exact ih hb

/-- The pointers in use are made from the first one. -/
theorem chain_sub {next : Nat} {S : List (Nat × List Nat)} (hw : TWF next S) {p q : Nat × List Nat} {ts : List (Nat × List Nat)}
    (hpw : (p :: ts).Pairwise (fun p q => q.1 ∈ p.1 :: p.2)) (hp : p ∈ S) (hq : q ∈ p :: ts) (hqs : q ∈ S) {t : Nat}
    (hm : t ∈ q.1 :: q.2) : t ∈ p.1 :: p.2 := by
  rcases List.mem_cons.mp hq with rfl | hq
  · exact hm
  · have hqp := (List.pairwise_cons.mp hpw).1 q hq
    rcases List.mem_cons.mp hm with e | hm
    · rw [e]; exact hqp
    · rcases List.mem_cons.mp hqp with e | hqp
      · rw [hw.uniq q hqs p hp e] at hm; exact List.mem_cons_of_mem _ hm
      · exact List.mem_cons_of_mem _ (hw.trans p hp q hqs hqp _ hm)

/-- An access through the first pointer in use, or through a shared reference made from it, keeps what is known. -/
theorem TG.access {cs v vs env next ns} (h : TG cs (v :: vs) ⟨env, next, ns⟩) (w : Bool) :
    ∃ p, env v = some p.1 ∧ p ∈ sk ns ∧ Tree.access w p.1 ns = some (ns.map (upd w (p.1 :: p.2))) ∧
      TG (if w then [] else cs) (v :: vs) ⟨env, next, ns.map (upd w (p.1 :: p.2))⟩ := by
  obtain ⟨hw, ts, hf, hpw, hwr, hcs⟩ := h
  cases hf with
  | @cons _ p _ ts h1 h2 =>
    refine ⟨p, h1.1, h1.2, access_eq hw h1.2 fun nd hn hm => (writable_child (hwr p (by simp) nd hn hm) w).1, ?_⟩
    refine ⟨by simpa only [sk_upd] using hw, p :: ts, ?_, hpw, ?_, ?_⟩
    · simp only [sk_upd]
      exact .cons h1 h2
    · intro q hq nd hn hm
      obtain ⟨nd, hn', rfl⟩ := List.mem_map.mp hn
      have hqs : q ∈ sk ns := (List.mem_cons.mp hq).elim (fun e => e ▸ h1.2) fun h => (mem_right h2 h).elim fun _ h => h.2
      have hin : nd.tag ∈ p.1 :: p.2 := chain_sub hw hpw h1.2 hq hqs hm
      simp only [upd, if_pos hin]
      exact (writable_child (hwr p (by simp) nd hn' hin) w).2
    · cases w with
      | true => simp
      | false =>
        intro c hc
        obtain ⟨q, hq, t, e1, e2, e3⟩ := hcs c hc
        refine ⟨q, hq, t, e1, by simpa only [sk_upd] using e2, ?_⟩
        intro nd hn he
        obtain ⟨nd, hn', rfl⟩ := List.mem_map.mp hn
        have := e3 nd hn' he
        by_cases hm : nd.tag ∈ p.1 :: p.2 <;> simp only [upd, hm, if_true, if_false, this, child, foreign] <;> rfl

theorem forall₂_tset {vs : List Ptr} {ts : List (Nat × List Nat)} {env : Env Ptr} {c : Ptr} {t : Nat} {S S' : List (Nat × List Nat)}
    (hc : c ∉ vs) (hS : ∀ p ∈ S, p ∈ S') (h : List.Forall₂ (fun v p => env v = some p.1 ∧ p ∈ S) vs ts) :
    List.Forall₂ (fun v p => env.set c t v = some p.1 ∧ p ∈ S') vs ts := by
  induction h with
  | nil => exact .nil
  | @cons v it vs items h _ ih =>
    refine .cons ⟨?_, hS _ h.2⟩ (ih fun hm => hc (by simp [hm]))
    rw [Env.set, if_neg fun e => hc (by simp [e]), h.1]

/-- A new node made from the first pointer in use. -/
theorem TG.push {cs v vs env next ns} (h : TG cs (v :: vs) ⟨env, next, ns⟩) {c : Ptr} (hc : c ∉ v :: vs) {p : Nat × List Nat}
    (hv : env v = some p.1) (hp : p ∈ sk ns) (q : Tree.Perm) :
    (writable q → TG [] (c :: v :: vs) ⟨env.set c next, next + 1, ⟨next, p.1 :: p.2, q⟩ :: ns⟩) ∧
    (q = .frozen → c ∉ cs → TG (c :: cs) (v :: vs) ⟨env.set c next, next + 1, ⟨next, p.1 :: p.2, q⟩ :: ns⟩) := by
  obtain ⟨hw, ts, hf, hpw, hwr, hcs⟩ := h
  cases hf with
  | @cons _ p' _ ts h1 h2 =>
    have e1 : p'.1 = p.1 := Option.some.inj (h1.1.symm.trans hv)
    obtain rfl : p' = p := Prod.ext e1 (hw.uniq _ h1.2 _ hp e1)
    have hsk : sk (⟨next, p'.1 :: p'.2, q⟩ :: ns) = (next, p'.1 :: p'.2) :: sk ns := rfl
    have hfa : List.Forall₂ (fun v p => env.set c next v = some p.1 ∧ p ∈ sk (⟨next, p'.1 :: p'.2, q⟩ :: ns)) (v :: vs)
        (p' :: ts) := forall₂_tset hc (fun r hr => by rw [hsk]; exact List.mem_cons_of_mem _ hr) (.cons h1 h2)
    have hlt : ∀ r ∈ p' :: ts, ∀ t ∈ r.1 :: r.2, t < next := by
      intro r hr t ht
      have hrs : r ∈ sk ns := (List.mem_cons.mp hr).elim (fun e => e ▸ h1.2) fun h => (mem_right h2 h).elim fun _ h => h.2
      rcases List.mem_cons.mp ht with rfl | ht
      · exact hw.lt r hrs
      · exact hw.ltAbove r hrs t ht
    have hold : ∀ r ∈ p' :: ts, ∀ nd ∈ (⟨next, p'.1 :: p'.2, q⟩ : Node) :: ns, nd.tag ∈ r.1 :: r.2 → writable nd.perm := by
      intro r hr nd hn hm
      rcases List.mem_cons.mp hn with rfl | hn
      · exact absurd (hlt r hr _ hm) (Nat.lt_irrefl _)
      · exact hwr r hr nd hn hm
    constructor
    · intro hq
      refine ⟨hw.push hp, (next, p'.1 :: p'.2) :: p' :: ts, .cons ⟨by simp [Env.set], by simp [hsk]⟩ hfa, ?_, ?_, by simp⟩
      · refine List.pairwise_cons.mpr ⟨fun r hr => List.mem_cons_of_mem _ ?_, hpw⟩
        rcases List.mem_cons.mp hr with rfl | hr
        · simp
        · exact (List.pairwise_cons.mp hpw).1 r hr
      · intro r hr nd hn hm
        rcases List.mem_cons.mp hr with rfl | hr
        · rcases List.mem_cons.mp hn with rfl | hn
          · exact hq
          · rcases List.mem_cons.mp hm with e | hm
            · have := hw.lt (nd.tag, nd.above) (List.mem_map_of_mem (f := fun nd : Node => (nd.tag, nd.above)) hn)
              simp only at e this
              omega
            · exact hwr p' (by simp) nd hn hm
        · exact hold r hr nd hn hm
    · intro hq hcc
      refine ⟨hw.push hp, p' :: ts, hfa, hpw, hold, ?_⟩
      intro d hd
      by_cases hdc : d = c
      · subst hdc
        refine ⟨p', by simp, next, by simp [Env.set], by simp [hsk], ?_⟩
        intro nd hn e
        rcases List.mem_cons.mp hn with rfl | hn
        · exact hq
        · have := hw.lt (nd.tag, nd.above) (List.mem_map_of_mem (f := fun nd : Node => (nd.tag, nd.above)) hn)
          simp only at e this
          omega
      · obtain ⟨r, hr, t, e1, e2, e3⟩ := hcs d ((List.mem_cons.mp hd).resolve_left hdc)
        refine ⟨r, hr, t, ?_, by rw [hsk]; exact List.mem_cons_of_mem _ e2, ?_⟩
        · show (if d = c then _ else env d) = _
          rw [if_neg hdc]; exact e1
        · intro nd hn e
          rcases List.mem_cons.mp hn with rfl | hn
          · have := hw.lt _ e2
            simp only at e this
            omega
          · exact e3 nd hn e

def treeRules (i : Nat) : Rules (Tree.step (τ := Ptr) i) where
  G := TG
  weaken := by
    rintro cs vs st ⟨hw, ts, hf, hpw, hwr, hcs⟩
    exact ⟨hw, ts, hf, hpw, hwr, by simp⟩
  drop := by
    rintro cs v vs st ⟨hw, ts, hf, hpw, hwr, hcs⟩
    cases hf with
    | cons h1 h2 =>
      exact ⟨hw, _, h2, (List.pairwise_cons.mp hpw).2, fun p hp => hwr p (List.mem_cons_of_mem _ hp), by simp⟩
  mkMut := by
    rintro cs v vs ⟨env, next, ns⟩ c h hc
    obtain ⟨p, hv, hp, ha, hg⟩ := h.access false
    refine ⟨_, ?_, (hg.push hc hv (by rw [sk_upd]; exact hp) .reserved).1 trivial⟩
    simp [Tree.step, hv, retag, chainOf_eq h.1 hp, ha]
  mkRaw := by
    rintro cs v vs ⟨env, next, ns⟩ c h hc
    obtain ⟨hw, ts, hf, hpw, hwr, hcs⟩ := h
    cases hf with
    | @cons _ p _ ts h1 h2 =>
      refine ⟨⟨env.set c p.1, next, ns⟩, by simp [Tree.step, show env v = some p.1 from h1.1], hw, p :: p :: ts, ?_, ?_, ?_, by simp⟩
      · exact .cons ⟨by simp [Env.set], h1.2⟩ (forall₂_tset hc (fun _ h => h) (.cons h1 h2))
      · refine List.pairwise_cons.mpr ⟨fun r hr => ?_, hpw⟩
        rcases List.mem_cons.mp hr with rfl | hr
        · simp
        · exact (List.pairwise_cons.mp hpw).1 r hr
      · intro r hr
        exact hwr r (by simpa using hr)
  mkShr := by
    rintro cs v vs ⟨env, next, ns⟩ c h hc hcc
    obtain ⟨p, hv, hp, ha, hg⟩ := h.access false
    refine ⟨_, ?_, (hg.push hc hv (by rw [sk_upd]; exact hp) .frozen).2 rfl (by simpa using hcc)⟩
    simp [Tree.step, hv, retag, chainOf_eq h.1 hp, ha]
  readS := by
    rintro cs v vs ⟨env, next, ns⟩ c j h hc
    obtain ⟨hw, ts, hf, hpw, hwr, hcs⟩ := id h
    obtain ⟨p, hp, t, e1, e2, e3⟩ := hcs c hc
    by_cases hj : j = i
    · subst hj
      cases hf with
      | @cons _ p' _ ts h1 h2 =>
        obtain rfl : p' = p := by simpa using hp
        have hch : ∀ nd ∈ ns, nd.tag ∈ t :: p'.1 :: p'.2 → (child false nd.perm).isSome := by
          intro nd hn hm
          rcases List.mem_cons.mp hm with e | hm
          · rw [e3 nd hn e]; rfl
          · exact (writable_child (hwr p' (by simp) nd hn hm) false).1
        refine ⟨⟨env, next, ns.map (upd false (t :: p'.1 :: p'.2))⟩, ?_, by simpa only [sk_upd] using hw, p' :: ts, ?_, hpw, ?_, ?_⟩
        · have ha := access_eq (p := (t, p'.1 :: p'.2)) hw e2 hch
          simp [Tree.step, show env c = some t from e1, ha]
        · simp only [sk_upd]
          exact .cons h1 h2
        · intro q hq nd hn hm
          obtain ⟨nd, hn', rfl⟩ := List.mem_map.mp hn
          have hqs : q ∈ sk ns := (List.mem_cons.mp hq).elim (fun e => e ▸ h1.2) fun h => (mem_right h2 h).elim fun _ h => h.2
          have hin : nd.tag ∈ p'.1 :: p'.2 := chain_sub hw hpw h1.2 hq hqs hm
          simp only [upd, if_pos (List.mem_cons_of_mem t hin)]
          exact (writable_child (hwr p' (by simp) nd hn' hin) false).2
        · intro d hd
          obtain ⟨q, hq, t', e1', e2', e3'⟩ := hcs d hd
          refine ⟨q, hq, t', e1', by simpa only [sk_upd] using e2', ?_⟩
          intro nd hn he
          obtain ⟨nd, hn', rfl⟩ := List.mem_map.mp hn
          have := e3' nd hn' he
          by_cases hm : nd.tag ∈ t :: p'.1 :: p'.2 <;> simp only [upd, hm, if_true, if_false, this, child, foreign] <;> rfl
    · exact ⟨_, by simp [Tree.step, show env c = some t from e1, hj], h⟩
  read := by
    rintro cs v vs ⟨env, next, ns⟩ j h
    obtain ⟨p, hv, hp, ha, hg⟩ := h.access false
    by_cases hj : j = i
    · subst hj
      exact ⟨_, by simp [Tree.step, hv, ha], hg⟩
    · exact ⟨_, by simp [Tree.step, hv, hj], h⟩
  write := by
    rintro cs v vs ⟨env, next, ns⟩ j h
    obtain ⟨p, hv, hp, ha, hg⟩ := h.access true
    by_cases hj : j = i
    · subst hj
      exact ⟨_, by simp [Tree.step, hv, ha], hg⟩
    · obtain ⟨hw, ts, hf, hpw, hwr, hcs⟩ := h
      exact ⟨_, by simp [Tree.step, hv, hj], hw, ts, hf, hpw, hwr, by simp⟩
end

end Kofft.Borrow
