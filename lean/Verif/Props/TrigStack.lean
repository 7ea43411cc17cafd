import Verif.Props.Trig
/-
Properties C42 (stack variants) and the batch functions; C41/C42 planner tables.
-/
namespace Kofft.Props
open Spec

variable {T : Type} [Flt T]

/-! ### Totality: no function panics, every result has the input length (any arithmetic) -/

private theorem at1 (x : List T) (h : 2 ≤ x.length) : ∃ v : Nat → T, ∀ k, dct1At x k = .ok (v k) := by
  apply Classical.axiomOfChoice (r := fun k v => dct1At x k = Outcome.ok v)
  intro k
  unfold dct1At
  simp only []
  rw [rd_getD Flt.zero (by omega), rd_getD Flt.zero (show x.length - 1 < x.length by omega)]
  simp only [Outcome.bind_ok]
  exact ⟨_, accum_ok _ _ _ _ _ (by omega)⟩

private theorem at2 (x : List T) : ∃ v : Nat → T, ∀ k, dct2At x k = .ok (v k) :=
  Classical.axiomOfChoice (r := fun k v => dct2At x k = Outcome.ok v) fun _ =>
    ⟨_, accum_ok _ _ _ _ _ (le_refl _)⟩

private theorem at3 (x : List T) (h : 0 < x.length) : ∃ v : Nat → T, ∀ k, dct3At x k = .ok (v k) := by
  apply Classical.axiomOfChoice (r := fun k v => dct3At x k = Outcome.ok v)
  intro k
  unfold dct3At
  simp only []
  rw [rd_getD Flt.zero (by omega)]
  simp only [Outcome.bind_ok]
  exact ⟨_, accum_ok _ _ _ _ _ (by omega)⟩

private theorem at4 (x : List T) : ∃ v : Nat → T, ∀ k, dct4At x k = .ok (v k) :=
  Classical.axiomOfChoice (r := fun k v => dct4At x k = Outcome.ok v) fun _ =>
    ⟨_, accum_ok _ _ _ _ _ (le_refl _)⟩

private theorem as1 (x : List T) : ∃ v : Nat → T, ∀ k, dst1At x k = .ok (v k) :=
  Classical.axiomOfChoice (r := fun k v => dst1At x k = Outcome.ok v) fun _ =>
    ⟨_, accum_ok _ _ _ _ _ (le_refl _)⟩

private theorem as2 (x : List T) : ∃ v : Nat → T, ∀ k, dst2At x k = .ok (v k) :=
  Classical.axiomOfChoice (r := fun k v => dst2At x k = Outcome.ok v) fun _ =>
    ⟨_, accum_ok _ _ _ _ _ (le_refl _)⟩

private theorem as3 (x : List T) (h : 0 < x.length) : ∃ v : Nat → T, ∀ k, dst3At x k = .ok (v k) := by
  apply Classical.axiomOfChoice (r := fun k v => dst3At x k = Outcome.ok v)
  intro k
  unfold dst3At
  simp only []
  rw [rd_getD Flt.zero (by omega)]
  simp only [Outcome.bind_ok]
  exact ⟨_, accum_ok _ _ _ _ _ (by omega)⟩

private theorem as4 (x : List T) : ∃ v : Nat → T, ∀ k, dst4At x k = .ok (v k) :=
  Classical.axiomOfChoice (r := fun k v => dst4At x k = Outcome.ok v) fun _ =>
    ⟨_, accum_ok _ _ _ _ _ (le_refl _)⟩

private theorem ah (x : List T) : ∃ v : Nat → T, ∀ k, dhtAt x k = .ok (v k) :=
  Classical.axiomOfChoice (r := fun k v => dhtAt x k = Outcome.ok v) fun _ =>
    ⟨_, accum_ok _ _ _ _ _ (le_refl _)⟩

private theorem tot (x : List T) (f : Nat → Outcome T) (h : ∃ v : Nat → T, ∀ k, f k = .ok (v k)) :
    ∃ y, fillOut (List.replicate x.length Flt.zero) f = .ok y ∧ y.length = x.length := by
  obtain ⟨v, hv⟩ := h
  exact ⟨_, fillOut_ok _ f v fun k _ => hv k, by simp⟩

/-- `f` never panics and keeps the length. -/
def TotalLen (f : List T → Outcome (List T)) : Prop := ∀ x, ∃ y, f x = .ok y ∧ y.length = x.length

/-- C38-C43: every transform returns, on every input, a vector of the input length. -/
theorem trig_total : TotalLen (dct1 (T := T)) ∧ TotalLen (dct2 (T := T)) ∧ TotalLen (dct3 (T := T)) ∧
    TotalLen (dct4 (T := T)) ∧ TotalLen (dst1 (T := T)) ∧ TotalLen (dst2 (T := T)) ∧
    TotalLen (dst3 (T := T)) ∧ TotalLen (dst4 (T := T)) ∧ TotalLen (dht (T := T)) := by
  refine ⟨fun x => ?_, fun x => tot x _ (at2 x), fun x => ?_, fun x => tot x _ (at4 x),
    fun x => tot x _ (as1 x), fun x => tot x _ (as2 x), fun x => ?_, fun x => tot x _ (as4 x),
    fun x => tot x _ (ah x)⟩
  · unfold dct1
    simp only []
    split
    · rename_i h; exact ⟨[], rfl, by simp [h]⟩
    · split
      · rename_i h0 h
        rw [rd_getD Flt.zero (by omega)]
        exact ⟨_, rfl, by simp [h]⟩
      · exact tot x _ (at1 x (by omega))
  · rcases Nat.eq_zero_or_pos x.length with h | h
    · rw [List.length_eq_zero_iff] at h; subst h; exact ⟨[], rfl, rfl⟩
    · exact tot x _ (at3 x h)
  · rcases Nat.eq_zero_or_pos x.length with h | h
    · rw [List.length_eq_zero_iff] at h; subst h; exact ⟨[], rfl, rfl⟩
    · exact tot x _ (as3 x h)

/-- C38-C43: the batch and multi-channel functions apply the transform to each channel separately. -/
theorem trig_batch (f : List T → Outcome (List T)) (hf : TotalLen f) (xs : List (List T)) :
    ∃ ys, batchMap f xs = .ok ys ∧ List.Forall₂ (fun x y => f x = .ok y) xs ys := by
  induction xs with
  | nil => exact ⟨[], rfl, .nil⟩
  | cons x xs ih =>
    obtain ⟨ys, e, h⟩ := ih
    obtain ⟨y, e1, hl⟩ := hf x
    exact ⟨y :: ys, by simp [batchMap, e1, hl, e], .cons e1 h⟩

/-! ### C42: the stack variants -/

private theorem sizeBad (n : Nat) : stackSizeBad n = true ↔ ¬ ∃ k, n = 2 ^ (k + 1) := by
  unfold stackSizeBad
  rw [decide_eq_true_iff]
  constructor
  · rintro h ⟨k, rfl⟩
    have := isPow2_pow (k + 1)
    have h2 := Nat.pow_pos (n := k) (show 0 < 2 by norm_num)
    rw [pow_succ] at *
    rcases h with h | h | h
    · omega
    · omega
    · rw [this] at h; cases h
  · intro h
    by_contra hc
    push Not at hc
    obtain ⟨h0, h1, h2⟩ := hc
    obtain ⟨k, hk⟩ := isPow2_iff.1 (by simpa using h2)
    rcases k with _ | k
    · simp at hk; omega
    · exact h ⟨k, hk⟩

private theorem size1 (n : Nat) :
    (n < 2 ∨ n % 2 ≠ 0 ∨ isPow2 n = false) ↔ ¬ ∃ k, n = 2 ^ (k + 1) := by
  rw [← sizeBad, stackSizeBad, decide_eq_true_iff]
  constructor
  · rintro (h | h)
    · by_cases h0 : n = 0
      · exact .inl h0
      · exact .inr (.inl (by omega))
    · exact .inr h
  · rintro (h | h)
    · exact .inl (by omega)
    · exact .inr h

/-- What a stack variant `s` of the heap transform `f` must do: on power-of-two lengths `≥ 2` write exactly what
`f` returns, on all others report `NonPowerOfTwoNoStd` and leave the output alone. -/
def StackOf (f : List T → Outcome (List T)) (s : List T → List T → Outcome (List T × Res)) : Prop :=
  ∀ x out : List T, out.length = x.length →
    ((∃ k, x.length = 2 ^ (k + 1)) → s x out = (f x >>= fun y => .ok (y, .ok ()))) ∧
    ((¬ ∃ k, x.length = 2 ^ (k + 1)) → s x out = .ok (out, .error .NonPowerOfTwoNoStd))

private theorem stk (x out : List T) (hl : out.length = x.length) (f : Nat → Outcome T)
    (h : ∃ v : Nat → T, ∀ k, f k = .ok (v k)) :
    (fillOut out f >>= fun o => Outcome.ok (o, (Except.ok () : Res))) =
      (fillOut (List.replicate x.length Flt.zero) f >>= fun y => .ok (y, .ok ())) := by
  obtain ⟨v, hv⟩ := h
  rw [fillOut_congr out (List.replicate x.length Flt.zero) f v (by simp [hl]) fun k _ => hv k]

/-- C42: bit-for-bit agreement of the stack variants with the heap functions, in any arithmetic. -/
theorem trig_stack : StackOf (T := T) dct1 dct1Stack ∧ StackOf (T := T) dct2 dct2Stack ∧
    StackOf (T := T) dst2 dst2Stack ∧ StackOf (T := T) dst3 dst3Stack ∧ StackOf (T := T) dst4 dst4Stack := by
  refine ⟨?_, ?_, ?_, ?_, ?_⟩ <;> intro x out hl <;> constructor <;> intro h
  · have h2 : ¬ (x.length < 2 ∨ x.length % 2 ≠ 0 ∨ isPow2 x.length = false) := by
      rw [size1]; exact not_not.2 h
    unfold dct1Stack dct1
    simp only [if_neg h2, show ¬ x.length = 0 by omega, show ¬ x.length = 1 by omega, if_false]
    have e := stk x out hl (dct1At x) (at1 x (by omega))
    simp only [fillOut, dct1At, accum, bind_assoc] at e ⊢
    exact e
  · unfold dct1Stack
    simp only [if_pos ((size1 _).2 h)]
  · have h2 : ¬ stackSizeBad x.length = true := by rw [sizeBad]; exact not_not.2 h
    unfold dct2Stack dct2
    simp only [if_neg h2]
    exact stk x out hl (dct2At x) (at2 x)
  · unfold dct2Stack
    simp only [if_pos ((sizeBad _).2 h)]
  · have h2 : ¬ stackSizeBad x.length = true := by rw [sizeBad]; exact not_not.2 h
    unfold dst2Stack dst2
    simp only [if_neg h2]
    exact stk x out hl (dst2At x) (as2 x)
  · unfold dst2Stack
    simp only [if_pos ((sizeBad _).2 h)]
  · have h2 : ¬ stackSizeBad x.length = true := by rw [sizeBad]; exact not_not.2 h
    have h3 : 0 < x.length := by
      obtain ⟨k, hk⟩ := h
      have := Nat.pow_pos (n := k + 1) (show 0 < 2 by norm_num)
      omega
    unfold dst3Stack dst3
    simp only [if_neg h2]
    have e := stk x out hl (dst3At x) (as3 x h3)
    simp only [fillOut, dst3At, accum, bind_assoc] at e ⊢
    exact e
  · unfold dst3Stack
    simp only [if_pos ((sizeBad _).2 h)]
  · have h2 : ¬ stackSizeBad x.length = true := by rw [sizeBad]; exact not_not.2 h
    unfold dst4Stack dst4
    simp only [if_neg h2]
    exact stk x out hl (dst4At x) (as4 x)
  · unfold dst4Stack
    simp only [if_pos ((sizeBad _).2 h)]

/-- Non-vacuity: both branches occur. -/
example (a b c d : T) : ∃ y, dct2Stack [a, b, c, d] [a, a, a, a] = .ok (y, .ok ()) ∧
    dct2Stack [a, b, c] [a, a, a] = .ok ([a, a, a], .error .NonPowerOfTwoNoStd) := by
  obtain ⟨y, e, -⟩ := (trig_total (T := T)).2.1 [a, b, c, d]
  have h := (trig_stack (T := T)).2.1
  refine ⟨y, ?_, ?_⟩
  · have := (h [a, b, c, d] [a, a, a, a] rfl).1 ⟨1, rfl⟩
    rw [e] at this; exact this
  · refine (h [a, b, c] [a, a, a] rfl).2 ?_
    rintro ⟨k, hk⟩
    rw [pow_succ] at hk
    simp at hk; omega

/-! ### Sine tables of `DstPlanner` -/

/-- The planners a program can hold. -/
inductive DReach : DstPlanner T → Prop
  | new : DReach .new
  | plan2 {st} (n) : DReach st → DReach (st.plan2 n).1
  | plan3 {st} (n) : DReach st → DReach (st.plan3 n).1
  | plan4 {st} (n) : DReach st → DReach (st.plan4 n).1
  | scratch {st} (n) (junk : List T) : DReach st → junk.length = (st.getScratch n).1.scratch.length →
      DReach { (st.getScratch n).1 with scratch := junk }

private def DInv (st : DstPlanner T) : Prop :=
  (∀ n t, st.cache2 n = some t → t = dstTable n half) ∧
  (∀ n t, st.cache3 n = some t → t = dstTable n Flt.zero) ∧
  (∀ n t, st.cache4 n = some t → t = dstTable n half)

private theorem tableGet_spec (c : Nat → Option (List T)) (n : Nat) (g : Nat → List T)
    (h : ∀ n t, c n = some t → t = g n) :
    (tableGet c n (g n)).2 = g n ∧ ∀ m t, (tableGet c n (g n)).1 m = some t → t = g m := by
  unfold tableGet
  cases e : c n with
  | some v => exact ⟨h n v e, h⟩
  | none =>
    refine ⟨rfl, fun m t ht => ?_⟩
    simp only [mapInsert] at ht
    split at ht
    · rename_i hm; cases ht; rw [hm]
    · exact h m t ht

private theorem dreach_inv {st : DstPlanner T} (h : DReach st) : DInv st := by
  induction h with
  | new => exact ⟨nofun, nofun, nofun⟩
  | plan2 n _ ih => exact ⟨(tableGet_spec _ n _ ih.1).2, ih.2⟩
  | plan3 n _ ih => exact ⟨ih.1, (tableGet_spec _ n _ ih.2.1).2, ih.2.2⟩
  | plan4 n _ ih => exact ⟨ih.1, ih.2.1, (tableGet_spec _ n _ ih.2.2).2⟩
  | scratch n _ _ _ ih => exact ih

/-- C63: whatever a sine planner was used for, it hands out the same tables as a new one. -/
theorem dst_planner_transparent (st : DstPlanner T) (h : DReach st) (n : Nat) :
    (st.plan2 n).2 = (DstPlanner.new.plan2 n).2 ∧ (st.plan3 n).2 = (DstPlanner.new.plan3 n).2 ∧
    (st.plan4 n).2 = (DstPlanner.new.plan4 n).2 := by
  obtain ⟨h2, h3, h4⟩ := dreach_inv h
  exact ⟨(tableGet_spec _ n _ h2).1, (tableGet_spec _ n _ h3).1, (tableGet_spec _ n _ h4).1⟩

/-- C63: the scratch buffer handed out has exactly the requested length. -/
theorem dst_scratch_length (st : DstPlanner T) (n : Nat) : (st.getScratch n).2.length = n := by
  unfold DstPlanner.getScratch
  simp only []
  rw [List.length_take, grow_length]; omega

/-- C63: the tables hold the documented sines. -/
theorem dst_tables [F : Flt ℝ] (hF : Lawful F) (st : DstPlanner ℝ) (h : DReach st) (n : Nat) :
    (st.plan2 n).2 = tab n (fun i => Real.sin (Real.pi * (i + 1 / 2) / n)) ∧
    (st.plan3 n).2 = tab n (fun i => Real.sin (Real.pi * i / n)) ∧
    (st.plan4 n).2 = tab n (fun i => Real.sin (Real.pi * (i + 1 / 2) / n)) := by
  obtain ⟨h2, h3, h4⟩ := dreach_inv h
  have e : ∀ off : ℝ, dstTable n off = tab n (fun i => Real.sin (Real.pi * (i + off) / n)) := by
    intro off
    unfold dstTable
    rw [show (List.range n) = tab n id by simp [tab], tab_map]
    refine tab_congr fun i _ => ?_
    simp only [hF.sin, hF.mul, hF.div, hF.add, hF.pi, hF.ofNat, id]
    congr 1; ring
  refine ⟨(tableGet_spec _ n _ h2).1.trans ?_, (tableGet_spec _ n _ h3).1.trans ?_,
    (tableGet_spec _ n _ h4).1.trans ?_⟩
  · rw [e, half_real hF]
  · rw [e, hF.zero]; exact tab_congr fun i _ => by rw [add_zero]
  · rw [e, half_real hF]

example : DReach (((DstPlanner.new (T := T)).plan2 4).1.plan3 8).1 := .plan3 8 (.plan2 4 .new)

end Kofft.Props
