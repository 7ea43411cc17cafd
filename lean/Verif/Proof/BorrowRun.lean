import Verif.Proof.Borrow
import Verif.Lib.Pow2
import Mathlib.Tactic.Ring
/-
The programs of `Model/Borrow.lean` that follow the rules.
-/
namespace Kofft.Borrow
open Kofft.Spec.Borrow

section
variable {σ : Type} {step : σ → Ev Ptr → Option σ}

/-- Events one after the other. -/
def runs (step : σ → Ev Ptr → Option σ) : σ → Evs → Option σ
  | st, [] => some st
  | st, e :: es => (step st e).bind fun st' => runs step st' es

theorem runs_append (st : σ) (es fs : Evs) : runs step st (es ++ fs) = (runs step st es).bind fun st' => runs step st' fs := by
  induction es generalizing st with
  | nil => rfl
  | cons e es ih =>
    simp only [List.cons_append, runs, Option.bind_assoc]
    congr 1
    funext st'
    exact ih st'

theorem stacked_run_eq (i : Nat) (st : Stacked.State Ptr) (es : Evs) : Stacked.run i st es = runs (Stacked.step i) st es := by
  induction es generalizing st with
  | nil => rfl
  | cons e es ih => simp only [Stacked.run, runs, ih]

theorem tree_run_eq (i : Nat) (st : Tree.State Ptr) (es : Evs) : Tree.run i st es = runs (Tree.step i) st es := by
  induction es generalizing st with
  | nil => rfl
  | cons e es ih => simp only [Tree.run, runs, ih]

variable (R : Rules step)

/-- The events are allowed and leave the pointers `vs` usable. -/
def Keeps (vs : List Ptr) (es : Evs) : Prop := ∀ cs st, R.G cs vs st → ∃ st', runs step st es = some st' ∧ R.G [] vs st'

/-- The same from one list of pointers in use to another. -/
def Goes (vs vs' : List Ptr) (es : Evs) : Prop := ∀ cs st, R.G cs vs st → ∃ st', runs step st es = some st' ∧ R.G [] vs' st'

variable {R} {vs : List Ptr}

theorem Goes.append {vs vs' vs'' : List Ptr} {es fs : Evs} (h : Goes R vs vs' es) (h' : Goes R vs' vs'' fs) :
    Goes R vs vs'' (es ++ fs) := by
  intro cs st g
  obtain ⟨st1, e1, g1⟩ := h cs st g
  obtain ⟨st2, e2, g2⟩ := h' [] st1 g1
  exact ⟨st2, by rw [runs_append, e1]; exact e2, g2⟩

theorem Goes.drop {v : Ptr} {vs vs' : List Ptr} {es : Evs} (h : Goes R vs (v :: vs') es) : Goes R vs vs' es := by
  intro cs st g
  obtain ⟨st1, e1, g1⟩ := h cs st g
  exact ⟨st1, e1, R.drop g1⟩

theorem goes_nil : Goes R vs vs [] := fun _ st g => ⟨st, rfl, R.weaken g⟩

theorem goes_mut {v c : Ptr} (h : c ∉ v :: vs) : Goes R (v :: vs) (c :: v :: vs) [.mut v c] := by
  intro cs st g
  obtain ⟨st', e, g'⟩ := R.mkMut g h
  exact ⟨st', by simp [runs, e], g'⟩

theorem goes_raw {v c : Ptr} (h : c ∉ v :: vs) : Goes R (v :: vs) (c :: v :: vs) [.raw v c] := by
  intro cs st g
  obtain ⟨st', e, g'⟩ := R.mkRaw g h
  exact ⟨st', by simp [runs, e], g'⟩

theorem goes_shr {v c : Ptr} (h : c ∉ v :: vs) : Goes R (v :: vs) (v :: vs) [.shr v c] := by
  intro cs st g
  obtain ⟨st', e, g'⟩ := R.mkShr (R.weaken g) h (by simp)
  exact ⟨st', by simp [runs, e], R.weaken g'⟩

theorem goes_read {v : Ptr} (j : Nat) : Goes R (v :: vs) (v :: vs) [.read v j] := by
  intro cs st g
  obtain ⟨st', e, g'⟩ := R.read j g
  exact ⟨st', by simp [runs, e], R.weaken g'⟩

theorem goes_write {v : Ptr} (j : Nat) : Goes R (v :: vs) (v :: vs) [.write v j] := by
  intro cs st g
  obtain ⟨st', e, g'⟩ := R.write j g
  exact ⟨st', by simp [runs, e], g'⟩

theorem goes_flatMap {α : Type} {l : List α} {f : α → Evs} (h : ∀ a ∈ l, Goes R vs vs (f a)) : Goes R vs vs (l.flatMap f) := by
  induction l with
  | nil => exact goes_nil
  | cons a l ih =>
    rw [List.flatMap_cons]
    exact (h a (by simp)).append (ih fun b hb => h b (List.mem_cons_of_mem _ hb))

theorem map_flatMap {α : Type} (l : List α) (f : α → Ev Ptr) : l.map f = l.flatMap fun a => [f a] := by
  induction l with
  | nil => rfl
  | cons a l ih => simp [ih]

/-- Reads through shared references made from the first pointer in use. -/
theorem reads_ok {cs : List Ptr} {v : Ptr} {es : Evs} (h : ∀ e ∈ es, ∃ c ∈ cs, ∃ j, e = .read c j) :
    ∀ st, R.G cs (v :: vs) st → ∃ st', runs step st es = some st' ∧ R.G cs (v :: vs) st' := by
  induction es with
  | nil => exact fun st g => ⟨st, rfl, g⟩
  | cons e es ih =>
    intro st g
    obtain ⟨c, hc, j, rfl⟩ := h e (by simp)
    obtain ⟨st1, e1, g1⟩ := R.readS j g hc
    obtain ⟨st2, e2, g2⟩ := ih (fun e he => h e (List.mem_cons_of_mem _ he)) st1 g1
    exact ⟨st2, by rw [runs, e1]; exact e2, g2⟩

theorem goes_iter {p : Ptr} (h : Ptr.tmp0 ∉ p :: vs) (n : Nat) : Goes R (p :: vs) (p :: vs) (iter p n) := by
  intro cs st g
  obtain ⟨st1, e1, g1⟩ := R.mkShr (c := .tmp0) (R.weaken g) h (by simp)
  obtain ⟨st2, e2, g2⟩ := reads_ok (R := R) (es := (List.range n).map fun i => .read .tmp0 i) (by simp) st1 g1
  exact ⟨st2, by rw [iter, runs, e1]; exact e2, R.weaken g2⟩

theorem goes_iterMut {p : Ptr} (h : Ptr.tmp0 ∉ p :: vs) (n : Nat) : Goes R (p :: vs) (p :: vs) (iterMut p n) := by
  rw [iterMut, map_flatMap]
  exact ((goes_mut h).append (goes_flatMap fun i _ => goes_write i)).drop

theorem goes_readAt (h : Ptr.tmp0 ∉ Ptr.cur :: vs) (lanes n2 j i : Nat) :
    Goes R (.cur :: vs) (.cur :: vs) (readAt lanes n2 j i) := by
  rw [readAt]
  split
  · intro cs st g
    obtain ⟨st1, e1, g1⟩ := R.mkShr (c := .tmp0) (R.weaken g) h (by simp)
    obtain ⟨st2, e2, g2⟩ := R.readS (c := .tmp0) i g1 (by simp)
    exact ⟨st2, by simp [runs, e1, e2], R.weaken g2⟩
  · exact goes_read i

theorem goes_writeAt (h : Ptr.tmp0 ∉ Ptr.cur :: vs) (lanes n2 j i : Nat) :
    Goes R (.cur :: vs) (.cur :: vs) (writeAt lanes n2 j i) := by
  rw [writeAt]
  split
  · exact ((goes_mut h).append (goes_write i)).drop
  · exact goes_write i

theorem goes_simdSrc (h : Ptr.tmp0 ∉ Ptr.cur :: vs) (lanes : Nat) (p : Nat × Nat) :
    Goes R (.cur :: vs) (.cur :: vs) (simdSrc lanes p) :=
  goes_flatMap fun _ _ => goes_flatMap fun _ _ => (goes_readAt h _ _ _ _).append (goes_readAt h _ _ _ _)

theorem goes_simdDst (h : Ptr.tmp0 ∉ Ptr.cur :: vs) (lanes : Nat) (p : Nat × Nat) :
    Goes R (.cur :: vs) (.cur :: vs) (simdDst lanes p) :=
  goes_flatMap fun _ _ => goes_flatMap fun _ _ => (goes_writeAt h _ _ _ _).append (goes_writeAt h _ _ _ _)

theorem goes_cxSrc (h0 : Ptr.tmp0 ∉ Ptr.cur :: vs) (h1 : Ptr.tmp1 ∉ Ptr.cur :: vs) (p : Nat × Nat) :
    Goes R (.cur :: vs) (.cur :: vs) (cxSrc p) := by
  refine goes_flatMap fun k _ => ?_
  intro cs st g
  obtain ⟨st1, e1, g1⟩ := R.mkShr (c := .tmp0) (R.weaken g) h0 (by simp)
  obtain ⟨st2, e2, g2⟩ := R.mkShr (c := .tmp1) g1 h1 (by simp)
  obtain ⟨st3, e3, g3⟩ := reads_ok (R := R) (es := (List.range p.2).flatMap fun j =>
    [.read .tmp0 (2 * k * p.2 + j), .read .tmp1 (2 * k * p.2 + p.2 + j)]) (by
      intro e he
      obtain ⟨j, -, he⟩ := List.mem_flatMap.mp he
      simp only [List.mem_cons, List.not_mem_nil, or_false] at he
      rcases he with rfl | rfl
      · exact ⟨.tmp0, by simp, _, rfl⟩
      · exact ⟨.tmp1, by simp, _, rfl⟩) st2 g2
  refine ⟨st3, ?_, R.weaken g3⟩
  rw [runs_append, runs, e1]
  simp only [Option.bind_some, runs, e2]
  exact e3

theorem goes_alternate {srcEvs dstEvs : Nat × Nat → Evs} {ps : List (Nat × Nat)} (hs : ∀ p ∈ ps, Goes R vs vs (srcEvs p))
    (hd : ∀ p ∈ ps, Goes R vs vs (dstEvs p)) : ∀ b, Goes R vs vs (alternate srcEvs dstEvs b ps) := by
  induction ps with
  | nil => exact fun b => goes_nil
  | cons p ps ih =>
    intro b
    refine Goes.append ?_ (ih (fun q hq => hs q (List.mem_cons_of_mem _ hq)) (fun q hq => hd q (List.mem_cons_of_mem _ hq)) _)
    cases b
    · exact hd p (by simp)
    · exact hs p (by simp)

/-- The pointers a call makes are not the caller's. -/
def Outside (vs : List Ptr) : Prop :=
  ∀ v ∈ [Ptr.arg, .outRef, .outPtr, .cur, .tmp0, .tmp1], v ∉ vs

theorem goes_arg {caller : Ptr} {mid : Evs} (ho : Outside (caller :: vs)) (hmid : Goes R (.cur :: .arg :: caller :: vs)
    (.cur :: .arg :: caller :: vs) mid) :
    Goes R (caller :: vs) (caller :: vs)
      ([.mut caller .arg, .mut .arg .outRef, .raw .outRef .outPtr, .mut .arg .cur] ++ mid) := by
  have h1 : Ptr.arg ∉ caller :: vs := ho _ (by simp)
  have h2 : Ptr.outRef ∉ Ptr.arg :: caller :: vs := by simpa using ho .outRef (by simp)
  have h3 : Ptr.outPtr ∉ Ptr.outRef :: Ptr.arg :: caller :: vs := by simpa using ho .outPtr (by simp)
  have h4 : Ptr.cur ∉ Ptr.arg :: caller :: vs := by simpa using ho .cur (by simp)
  exact (((((goes_mut h1).append (goes_mut h2)).append (goes_raw h3)).drop.drop.append (goes_mut h4)).append hmid).drop.drop

theorem tmp0_out {caller : Ptr} (ho : Outside (caller :: vs)) : Ptr.tmp0 ∉ Ptr.cur :: Ptr.arg :: caller :: vs := by
  simpa using ho .tmp0 (by simp)

theorem tmp1_out {caller : Ptr} (ho : Outside (caller :: vs)) : Ptr.tmp1 ∉ Ptr.cur :: Ptr.arg :: caller :: vs := by
  simpa using ho .tmp1 (by simp)

theorem goes_simdArg {caller : Ptr} (ho : Outside (caller :: vs)) (lanes n : Nat) (hs : srcAfter true (passes n) = true) :
    Goes R (caller :: vs) (caller :: vs) (simdArg lanes caller n) := by
  rw [simdArg, if_pos hs, List.append_assoc]
  exact goes_arg ho ((goes_alternate (fun p _ => goes_simdSrc (tmp0_out ho) lanes p)
    (fun p _ => goes_simdDst (tmp0_out ho) lanes p) _).append (goes_shr (tmp0_out ho)))

theorem goes_scratch {mid : Evs} {n : Nat} (b : Bool) (h0 : Ptr.tmp0 ∉ Ptr.cur :: Ptr.owner :: vs)
    (h1 : Ptr.tmp1 ∉ Ptr.cur :: Ptr.owner :: vs) (hc : Ptr.cur ∉ Ptr.owner :: vs)
    (hmid : Goes R (.cur :: .owner :: vs) (.cur :: .owner :: vs) mid) :
    Goes R (.owner :: vs) (.owner :: vs) ([.mut .owner .cur] ++ mid ++
      (if b then .shr .cur .tmp0 :: .shr .cur .tmp1 :: (List.range n).map fun i => .read .tmp1 i else [])) := by
  refine Goes.drop (v := .cur) (((goes_mut hc).append hmid).append ?_)
  cases b
  · exact goes_nil
  · intro cs st g
    obtain ⟨st1, e1, g1⟩ := R.mkShr (c := .tmp0) (R.weaken g) h0 (by simp)
    obtain ⟨st2, e2, g2⟩ := R.mkShr (c := .tmp1) g1 h1 (by simp)
    obtain ⟨st3, e3, g3⟩ := reads_ok (R := R) (es := (List.range n).map fun i => .read .tmp1 i) (by simp) st2 g2
    refine ⟨st3, ?_, R.weaken g3⟩
    simp only [if_true, runs, e1, Option.bind_some, e2]
    exact e3

theorem goes_simdScratch (lanes n : Nat) : Goes R [.owner] [.owner] (simdScratch lanes n) :=
  goes_scratch _ (by simp) (by simp) (by simp) (goes_alternate (fun p _ => goes_simdSrc (by simp) lanes p)
    (fun p _ => goes_simdDst (by simp) lanes p) _)

theorem goes_stockhamArg {caller : Ptr} (ho : Outside (caller :: vs)) (hr : Ptr.rawSlice ∉ caller :: vs)
    (hi : Ptr.inner32 ∉ caller :: vs) (n : Nat) :
    Goes R (caller :: vs) (caller :: vs) (stockhamArg caller n) := by
  have h1 : Ptr.arg ∉ caller :: vs := ho _ (by simp)
  have h2 : Ptr.rawSlice ∉ Ptr.arg :: caller :: vs := by simpa using hr
  have h3 : Ptr.inner32 ∉ Ptr.rawSlice :: Ptr.arg :: caller :: vs := by simpa using hi
  have h4 : Ptr.tmp0 ∉ Ptr.inner32 :: Ptr.rawSlice :: Ptr.arg :: caller :: vs := by simpa using ho .tmp0 (by simp)
  exact (((((goes_mut h1).append (goes_raw h2)).append (goes_mut h3)).append (goes_iter h4 n)).append (goes_iterMut h4 n)).drop.drop.drop

/-- `slice`, `rawSlice` and `re32` made from the array, and `re32` in use. -/
theorem goes_re32 {caller : Ptr} (hc : caller = .owner) (last : Ptr) (hl : last = .re32 ∨ last = .input32) :
    Goes R [caller] [last, .rawSlice, .slice, caller] [.mut caller .slice, .raw .slice .rawSlice, .mut .rawSlice last] := by
  subst hc
  have h3 : last ∉ [Ptr.rawSlice, .slice, .owner] := by rcases hl with rfl | rfl <;> simp
  exact ((goes_mut (by simp)).append (goes_raw (by simp))).append (goes_mut h3)

theorem goes_stockhamSplit (lanes n : Nat) (hs : srcAfter true (passes n) = true) :
    Goes R [.owner] [.owner] (stockhamSplit lanes n) := by
  have ho : Outside [.re32, .rawSlice, .slice, .owner] := by simp [Outside]
  exact ((((goes_re32 rfl .re32 (.inl rfl)).append (goes_iterMut (by simp) n)).append (goes_simdArg ho lanes n hs)).append
    (goes_iter (by simp) n)).drop.drop.drop

theorem goes_safe {caller : Ptr} (ho : Outside (caller :: vs)) (n : Nat) :
    Goes R (caller :: vs) (caller :: vs) ([.mut caller .arg] ++ iter .arg n ++ iterMut .arg n) := by
  have h1 : Ptr.arg ∉ caller :: vs := ho _ (by simp)
  have h2 : Ptr.tmp0 ∉ Ptr.arg :: caller :: vs := by simpa using ho .tmp0 (by simp)
  exact (((goes_mut h1).append (goes_iter h2 n)).append (goes_iterMut h2 n)).drop

end
end Kofft.Borrow
