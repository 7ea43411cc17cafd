import Verif.Spec.AllocCount
import Mathlib.Data.List.Perm.Basic
import Mathlib.Data.List.Count
import Mathlib.Data.List.GetD
import Mathlib.Tactic.Ring
import Mathlib.Tactic.Push
/-
C97: the counting allocator of the benchmark under every schedule.
-/
namespace Kofft.Props
open AllocCount Spec

theorem liveBytes_append (xs ys : List Act) : liveBytes (xs ++ ys) = liveBytes xs + liveBytes ys := by
  induction xs with
  | nil => simp [liveBytes]
  | cons x xs ih => cases x <;> simp [liveBytes, ih] <;> omega

theorem blocks_append (xs ys : List Act) : blocks (xs ++ ys) = blocks xs + blocks ys := by
  induction xs with
  | nil => simp [blocks]
  | cons x xs ih => cases x <;> simp [blocks, ih] <;> omega

/-- The totals the counter goes through, as machine words: after each allocation. -/
def Totals (M : Nat) (es : List Act) (v : Nat) : Prop :=
  v = 0 ∨ ∃ pre i s, pre ++ [.add i s] <+: es ∧ (v : Int) = liveBytes (pre ++ [.add i s]) % M

/-- A thread still has to compare `v` with the peak. -/
def Pending (a : St) (v : Nat) : Prop := ∃ i, a.pc i = .load v ∨ ∃ p, a.pc i = .loop v p

/-- Invariant of all executions. -/
structure AInv (M : Nat) (es : List Act) (a : St) : Prop where
  cur : (a.cur : Int) = liveBytes es % M
  ne : a.peaks ≠ []
  incr : a.peaks.Pairwise (· < ·)
  real : ∀ v ∈ a.peaks, Totals M es v
  pend : ∀ v, Pending a v → Totals M es v
  cover : ∀ v, Totals M es v → v ≤ a.peaks.getLastD 0 ∨ Pending a v
  seen : ∀ i, a.seen i < a.peaks.length
  loop : ∀ i n p, a.pc i = .loop n p → a.peaks[a.seen i]? = some p

theorem Totals.mono {M es fs v} (h : Totals M es v) : Totals M (es ++ fs) v := by
  rcases h with h | ⟨pre, i, s, hp, hv⟩
  · exact .inl h
  · exact .inr ⟨pre, i, s, hp.trans (List.prefix_append _ _), hv⟩

/-- A step other than `add` gives no new total. -/
theorem Totals.old {M es e v} (h : Totals M (es ++ [e]) v) (he : ∀ i s, e ≠ .add i s) : Totals M es v := by
  rcases h with h | ⟨pre, i, s, hp, hv⟩
  · exact .inl h
  · refine .inr ⟨pre, i, s, ?_, hv⟩
    rcases List.prefix_concat_iff.1 hp with h | h
    · have := (List.append_inj' h rfl).2
      simp at this
      exact absurd this.symm (he i s)
    · exact h

theorem le_last_of_mem {l : List Nat} (h : l.Pairwise (· < ·)) {v : Nat} (hv : v ∈ l) : v ≤ l.getLastD 0 := by
  induction l using List.reverseRecOn with
  | nil => simp at hv
  | append_singleton l x _ =>
    have h2 := List.pairwise_append.1 h
    rw [List.getLastD_eq_getLast?, List.getLast?_concat]
    rcases List.mem_append.1 hv with hv | hv
    · exact (h2.2.2 v hv x (by simp)).le
    · simp at hv; simp [hv]

theorem inv_step {M : Nat} (hM : 0 < M) {es a e c} (I : AInv M es a) (h : Step M a e c) : AInv M (es ++ [e]) c := by
  have keep : ∀ {e : Act}, (∀ i s, e ≠ .add i s) → ∀ v, Totals M (es ++ [e]) v ↔ Totals M es v :=
    fun he v => ⟨fun h => h.old he, Totals.mono⟩
  cases h with
  | @null i hpc =>
    have k := keep (e := .null i) (by simp)
    exact ⟨by rw [I.cur, liveBytes_append]; simp [liveBytes], I.ne, I.incr, fun v hv => (k v).2 (I.real v hv),
      fun v hv => (k v).2 (I.pend v hv), fun v hv => I.cover v ((k v).1 hv), I.seen, I.loop⟩
  | @count i s hpc =>
    have k := keep (e := .count i s) (by simp)
    have pp : ∀ v, Pending { a with allocs := (a.allocs + 1) % M, pc := Function.update a.pc i (.counted s) } v ↔
        Pending a v := by
      intro v
      constructor
      · rintro ⟨j, hj⟩
        by_cases e : j = i
        · subst e; simp at hj
        · exact ⟨j, by simpa [Function.update_of_ne e] using hj⟩
      · rintro ⟨j, hj⟩
        have e : j ≠ i := by rintro rfl; simp [hpc] at hj
        exact ⟨j, by simpa [Function.update_of_ne e] using hj⟩
    refine ⟨by rw [liveBytes_append]; simpa [liveBytes] using I.cur, I.ne, I.incr, fun v hv => (k v).2 (I.real v hv),
      fun v hv => (k v).2 (I.pend v ((pp v).1 hv)), fun v hv => (I.cover v ((k v).1 hv)).imp id (pp v).2, I.seen, ?_⟩
    intro j n p hj
    by_cases e : j = i
    · subst e; simp at hj
    · exact I.loop j n p (by simpa [Function.update_of_ne e] using hj)
  | @add i s hpc =>
    have hcur : (((a.cur + s) % M : Nat) : Int) = liveBytes (es ++ [.add i s]) % M := by
      rw [liveBytes_append]
      push_cast
      rw [I.cur]
      simp [liveBytes]
    have hnew : Totals M (es ++ [.add i s]) ((a.cur + s) % M) := .inr ⟨es, i, s, List.prefix_rfl, hcur⟩
    refine ⟨hcur, I.ne, I.incr, fun v hv => (I.real v hv).mono, ?_, ?_, I.seen, ?_⟩
    · rintro v ⟨j, hj⟩
      by_cases e : j = i
      · subst e
        simp at hj
        rw [← hj]; exact hnew
      · exact (I.pend v ⟨j, by simpa [Function.update_of_ne e] using hj⟩).mono
    · intro v hv
      have : Totals M es v ∨ v = (a.cur + s) % M := by
        rcases hv with h | ⟨pre, i', s', hp, hv⟩
        · exact .inl (.inl h)
        · rcases List.prefix_concat_iff.1 hp with h | h
          · right
            rw [h, ← hcur] at hv
            exact_mod_cast hv
          · exact .inl (.inr ⟨pre, i', s', h, hv⟩)
      rcases this with h | h
      · rcases I.cover v h with h | ⟨j, hj⟩
        · exact .inl h
        · have e : j ≠ i := by rintro rfl; simp [hpc] at hj
          exact .inr ⟨j, by simpa [Function.update_of_ne e] using hj⟩
      · right
        exact ⟨i, by simp [h]⟩
    · intro j n p hj
      by_cases e : j = i
      · subst e; simp at hj
      · exact I.loop j n p (by simpa [Function.update_of_ne e] using hj)
  | @load i new k v hpc hk hv =>
    have kk := keep (e := .load i) (by simp)
    have pp : ∀ w, Pending { a with seen := Function.update a.seen i k, pc := Function.update a.pc i (.loop new v) } w ↔
        Pending a w := by
      intro w
      constructor
      · rintro ⟨j, hj⟩
        by_cases e : j = i
        · subst e; simp at hj; exact ⟨j, .inl (by rw [hpc, hj])⟩
        · exact ⟨j, by simpa [Function.update_of_ne e] using hj⟩
      · rintro ⟨j, hj⟩
        by_cases e : j = i
        · subst e; simp [hpc] at hj; exact ⟨j, .inr ⟨v, by simp [hj]⟩⟩
        · exact ⟨j, by simpa [Function.update_of_ne e] using hj⟩
    refine ⟨by rw [liveBytes_append]; simpa [liveBytes] using I.cur, I.ne, I.incr, fun v hv => (kk v).2 (I.real v hv),
      fun v hv => (kk v).2 (I.pend v ((pp v).1 hv)), fun v hv => (I.cover v ((kk v).1 hv)).imp id (pp v).2, ?_, ?_⟩
    · intro j
      by_cases e : j = i
      · subst e
        simpa using (List.getElem?_eq_some_iff.1 hv).1
      · simpa [Function.update_of_ne e] using I.seen j
    · intro j n p hj
      by_cases e : j = i
      · subst e
        simp at hj
        simp [hv, hj.2]
      · have := I.loop j n p (by simpa [Function.update_of_ne e] using hj)
        simpa [Function.update_of_ne e] using this
  | @exit i new peak hpc hle =>
    have kk := keep (e := .exit i) (by simp)
    have pp : ∀ w, Pending { a with pc := Function.update a.pc i .idle } w → Pending a w := by
      rintro w ⟨j, hj⟩
      by_cases e : j = i
      · subst e; simp at hj
      · exact ⟨j, by simpa [Function.update_of_ne e] using hj⟩
    have hp : peak ≤ a.peaks.getLastD 0 :=
      le_last_of_mem I.incr (List.mem_of_getElem? (I.loop i new peak hpc))
    refine ⟨by rw [liveBytes_append]; simpa [liveBytes] using I.cur, I.ne, I.incr, fun v hv => (kk v).2 (I.real v hv),
      fun v hv => (kk v).2 (I.pend v (pp v hv)), ?_, I.seen, ?_⟩
    · intro v hv
      rcases I.cover v ((kk v).1 hv) with h | ⟨j, hj⟩
      · exact .inl h
      · by_cases e : j = i
        · subst e
          simp [hpc] at hj
          left
          show v ≤ a.peaks.getLastD 0
          omega
        · exact .inr ⟨j, by simpa [Function.update_of_ne e] using hj⟩
    · intro j n p hj
      by_cases e : j = i
      · subst e; simp at hj
      · exact I.loop j n p (by simpa [Function.update_of_ne e] using hj)
  | @raise i new peak hpc hgt hlast =>
    have kk := keep (e := .raise i) (by simp)
    have hl : a.peaks.getLastD 0 = peak := by rw [List.getLastD_eq_getLast?, hlast]; rfl
    have hl' : (a.peaks ++ [new]).getLastD 0 = new := by simp
    have tn : Totals M es new := I.pend new ⟨i, .inr ⟨peak, hpc⟩⟩
    refine ⟨by rw [liveBytes_append]; simpa [liveBytes] using I.cur, by simp, ?_, ?_, ?_, ?_, ?_, ?_⟩
    · refine List.pairwise_append.2 ⟨I.incr, List.pairwise_singleton _ _, ?_⟩
      intro v hv w hw
      have := le_last_of_mem I.incr hv
      simp at hw
      omega
    · intro v hv
      rw [kk]
      rcases List.mem_append.1 hv with h | h
      · exact I.real v h
      · simp at h; rw [h]; exact tn
    · rintro w ⟨j, hj⟩
      rw [kk]
      by_cases e : j = i
      · subst e; simp at hj
      · exact I.pend w ⟨j, by simpa [Function.update_of_ne e] using hj⟩
    · intro v hv
      rcases I.cover v ((kk v).1 hv) with h | ⟨j, hj⟩
      · left
        show v ≤ (a.peaks ++ [new]).getLastD 0
        omega
      · by_cases e : j = i
        · subst e
          simp [hpc] at hj
          left
          show v ≤ (a.peaks ++ [new]).getLastD 0
          omega
        · exact .inr ⟨j, by simpa [Function.update_of_ne e] using hj⟩
    · intro j
      by_cases e : j = i
      · subst e; simp
      · have := I.seen j
        simp [Function.update_of_ne e]
        omega
    · intro j n p hj
      by_cases e : j = i
      · subst e; simp at hj
      · have := I.loop j n p (by simpa [Function.update_of_ne e] using hj)
        have hs := I.seen j
        simp only [Function.update_of_ne e]
        rw [List.getElem?_append_left hs]
        exact this
  | @fail i new peak k v hpc hgt hk hv hne =>
    have kk := keep (e := .fail i) (by simp)
    have pp : ∀ w, Pending { a with seen := Function.update a.seen i k, pc := Function.update a.pc i (.loop new v) } w ↔
        Pending a w := by
      intro w
      constructor
      · rintro ⟨j, hj⟩
        by_cases e : j = i
        · subst e; simp at hj; exact ⟨j, .inr ⟨peak, by rw [hpc, hj]⟩⟩
        · exact ⟨j, by simpa [Function.update_of_ne e] using hj⟩
      · rintro ⟨j, hj⟩
        by_cases e : j = i
        · subst e; simp [hpc] at hj; exact ⟨j, .inr ⟨v, by simp [hj]⟩⟩
        · exact ⟨j, by simpa [Function.update_of_ne e] using hj⟩
    refine ⟨by rw [liveBytes_append]; simpa [liveBytes] using I.cur, I.ne, I.incr, fun v hv => (kk v).2 (I.real v hv),
      fun v hv => (kk v).2 (I.pend v ((pp v).1 hv)), fun v hv => (I.cover v ((kk v).1 hv)).imp id (pp v).2, ?_, ?_⟩
    · intro j
      by_cases e : j = i
      · subst e
        simpa using (List.getElem?_eq_some_iff.1 hv).1
      · simpa [Function.update_of_ne e] using I.seen j
    · intro j n p hj
      by_cases e : j = i
      · subst e
        simp at hj
        simp [hv, hj.2]
      · have := I.loop j n p (by simpa [Function.update_of_ne e] using hj)
        simpa [Function.update_of_ne e] using this
  | @free i s hpc =>
    have kk := keep (e := .free i s) (by simp)
    have hcur : (((a.cur + (M - s % M)) % M : Nat) : Int) = liveBytes (es ++ [.free i s]) % M := by
      rw [liveBytes_append]
      have h1 : s % M < M := Nat.mod_lt _ hM
      push_cast [Nat.cast_sub h1.le]
      rw [I.cur]
      simp only [liveBytes]
      rw [show liveBytes es % M + ((M : Int) - s % M) = (liveBytes es % M - s % M) + M by ring, Int.add_emod_right,
        ← Int.sub_emod]
      congr 1
      omega
    exact ⟨hcur, I.ne, I.incr, fun v hv => (kk v).2 (I.real v hv), fun v hv => (kk v).2 (I.pend v hv),
      fun v hv => I.cover v ((kk v).1 hv), I.seen, I.loop⟩

theorem inv_reset (M : Nat) : AInv M [] reset where
  cur := by simp [reset, liveBytes]
  ne := by simp [reset]
  incr := by simp [reset]
  real := by intro v hv; simp [reset] at hv; exact .inl hv
  pend := by rintro v ⟨i, h⟩; simp [reset] at h
  cover := by
    intro v hv
    rcases hv with h | ⟨pre, i, s, hp, -⟩
    · left; omega
    · simp at hp
  seen := by intro i; simp [reset]
  loop := by intro i n p h; simp [reset] at h

theorem inv_exec {M : Nat} (hM : 0 < M) {es a} (h : Exec M reset es a) : AInv M es a := by
  induction h with
  | nil => exact inv_reset M
  | snoc _ hs ih => exact inv_step hM ih hs

theorem last_mem {l : List Nat} (h : l ≠ []) : l.getLastD 0 ∈ l := by
  rw [List.getLastD_eq_getLast?, List.getLast?_eq_getLast_of_ne_nil h]
  exact List.getLast_mem h

/-- Whatever was allocated before the reset: once no thread is inside the allocator, the reported peak is the largest of the
totals, as machine words, that the counter had after an allocation (0 if there was none). -/
theorem alloc_peak_any {M : Nat} (hM : 0 < M) {es a} (h : Exec M reset es a) (hq : Quiet a) :
    IsGreatest {v : Nat | v = 0 ∨ ∃ pre i s, pre ++ [.add i s] <+: es ∧ (v : Int) = liveBytes (pre ++ [.add i s]) % M}
      (stats a).2 := by
  have I := inv_exec hM h
  refine ⟨I.real _ (last_mem I.ne), ?_⟩
  intro v hv
  rcases I.cover v hv with h | ⟨i, hi⟩
  · exact h
  · simp [hq i] at hi

/-- Even while threads are inside the allocator, the peak is a total that the counter really had. -/
theorem alloc_peak_real {M : Nat} (hM : 0 < M) {es a} (h : Exec M reset es a) :
    (stats a).2 = 0 ∨ ∃ pre i s, pre ++ [.add i s] <+: es ∧ ((stats a).2 : Int) = liveBytes (pre ++ [.add i s]) % M :=
  (inv_exec hM h).real _ (last_mem (inv_exec hM h).ne)

/-- The largest value of `liveBytes` over the prefixes is reached at the start or after an allocation. -/
theorem live_le_add (es : List Act) : ∀ pre, pre <+: es →
    liveBytes pre ≤ 0 ∨ ∃ p i s, p ++ [.add i s] <+: es ∧ liveBytes pre ≤ liveBytes (p ++ [.add i s]) := by
  intro pre
  induction pre using List.reverseRecOn with
  | nil => intro _; left; simp [liveBytes]
  | append_singleton p e ih =>
    intro hp
    by_cases he : ∃ i s, e = .add i s
    · obtain ⟨i, s, rfl⟩ := he
      exact .inr ⟨p, i, s, hp, le_rfl⟩
    · have hle : liveBytes (p ++ [e]) ≤ liveBytes p := by
        rw [liveBytes_append]
        cases e <;> simp [liveBytes] at he ⊢
      rcases ih ((List.prefix_append _ _).trans hp) with h | ⟨q, i, s, hq, h⟩
      · exact .inl (hle.trans h)
      · exact .inr ⟨q, i, s, hq, hle.trans h⟩

/-- **C97.** If whatever is freed after the reset was also allocated after it, and the total fits in a word, then for every
schedule, once no thread is inside the allocator, the reported peak is the largest number of bytes that were in use at the same
time. -/
theorem alloc_peak_partial {M : Nat} {es a} (h : Exec M reset es a) (hq : Quiet a)
    (hlive : ∀ pre, pre <+: es → 0 ≤ liveBytes pre ∧ liveBytes pre < M) :
    IsGreatest {b : Int | ∃ pre, pre <+: es ∧ b = liveBytes pre} ((stats a).2 : Int) := by
  have hM : 0 < M := by
    have := hlive [] List.nil_prefix
    simp [liveBytes] at this
    exact this
  have G := alloc_peak_any hM h hq
  constructor
  · rcases G.1 with h | ⟨pre, i, s, hp, hv⟩
    · exact ⟨[], List.nil_prefix, by rw [h]; rfl⟩
    · refine ⟨_, hp, ?_⟩
      rw [hv, Int.emod_eq_of_lt (hlive _ hp).1 (hlive _ hp).2]
  · rintro b ⟨pre, hp, rfl⟩
    rcases live_le_add es pre hp with h | ⟨p, i, s, hpre, h⟩
    · exact h.trans (by omega)
    · refine h.trans ?_
      have h0 := hlive _ hpre
      have : (liveBytes (p ++ [.add i s])).toNat ≤ (stats a).2 := G.2 (.inr ⟨p, i, s, hpre, by
        rw [Int.toNat_of_nonneg h0.1, Int.emod_eq_of_lt h0.1 h0.2]⟩)
      omega

/-- **C97.** Once no thread is inside the allocator, the reported number of allocations is the number of blocks allocated since
the reset (as a machine word). -/
theorem alloc_count {M : Nat} {es a} (h : Exec M reset es a) (hq : Quiet a) : (stats a).1 = blocks es % M := by
  let cs : Act → Option Nat := fun e => match e with | .count i _ => some i | _ => none
  let as : Act → Option Nat := fun e => match e with | .add i _ => some i | _ => none
  have hb : ∀ es : List Act, blocks es = (es.filterMap as).length := by
    intro es
    induction es with
    | nil => rfl
    | cons e es ih => cases e <;> simp [blocks, ih, as] <;> omega
  have key : ∀ {es a}, Exec M reset es a → a.allocs % M = (es.filterMap cs).length % M ∧
      ∀ i, (es.filterMap cs).count i = (es.filterMap as).count i + (match a.pc i with | .counted _ => 1 | _ => 0) := by
    intro es a h
    induction h with
    | nil => simp [reset]
    | @snoc es b e c _ hs ih =>
      obtain ⟨ih1, ih2⟩ := ih
      cases hs with
      | @null i hpc => simpa [cs, as] using ⟨ih1, ih2⟩
      | @count i s hpc =>
        refine ⟨by simp [cs, Nat.add_mod, ih1], fun j => ?_⟩
        have := ih2 j
        by_cases e : j = i
        · subst e; simp [cs, as, hpc] at this ⊢; omega
        · simp [cs, as, Function.update_of_ne e, Ne.symm e] at this ⊢; omega
      | @add i s hpc =>
        refine ⟨by simpa [cs] using ih1, fun j => ?_⟩
        have := ih2 j
        by_cases e : j = i
        · subst e; simp [cs, as, hpc] at this ⊢; omega
        · simp [cs, as, Function.update_of_ne e, Ne.symm e] at this ⊢; omega
      | @load i new k v hpc hk hv =>
        refine ⟨by simpa [cs] using ih1, fun j => ?_⟩
        have := ih2 j
        by_cases e : j = i
        · subst e; simp [cs, as, hpc] at this ⊢; omega
        · simp [cs, as, Function.update_of_ne e] at this ⊢; omega
      | @exit i new peak hpc hle =>
        refine ⟨by simpa [cs] using ih1, fun j => ?_⟩
        have := ih2 j
        by_cases e : j = i
        · subst e; simp [cs, as, hpc] at this ⊢; omega
        · simp [cs, as, Function.update_of_ne e] at this ⊢; omega
      | @raise i new peak hpc hle _ =>
        refine ⟨by simpa [cs] using ih1, fun j => ?_⟩
        have := ih2 j
        by_cases e : j = i
        · subst e; simp [cs, as, hpc] at this ⊢; omega
        · simp [cs, as, Function.update_of_ne e] at this ⊢; omega
      | @fail i new peak k v hpc hgt hk hv hne =>
        refine ⟨by simpa [cs] using ih1, fun j => ?_⟩
        have := ih2 j
        by_cases e : j = i
        · subst e; simp [cs, as, hpc] at this ⊢; omega
        · simp [cs, as, Function.update_of_ne e] at this ⊢; omega
      | @free i s hpc => simpa [cs, as] using ⟨ih1, ih2⟩
  have small : ∀ {es a}, Exec M reset es a → a.allocs % M = a.allocs := by
    intro es a h
    induction h with
    | nil => simp [reset]
    | snoc _ hs ih => cases hs <;> simp_all
  obtain ⟨k1, k2⟩ := key h
  have hp : (es.filterMap cs).Perm (es.filterMap as) := by
    rw [List.perm_iff_count]
    intro i
    have := k2 i
    simpa [hq i] using this
  show a.allocs = _
  rw [← small h, k1, hp.length_eq, hb]

/-- The positions seen account for the failures and for the thread's own raises. -/
theorem seen_counts {M : Nat} (hM : 0 < M) (i : Nat) {es a} (h : Exec M reset es a) :
    es.countP (isFail i) + es.countP (fun e => match e with | .raise j => i == j | _ => false) ≤ a.seen i ∧
      a.peaks.length = 1 + es.countP (fun e => match e with | .raise _ => true | _ => false) := by
  induction h with
  | nil => simp [reset]
  | @snoc es b e c hx hs ih =>
    have I := inv_exec hM hx
    obtain ⟨ih1, ih2⟩ := ih
    rw [List.countP_append, List.countP_append, List.countP_append]
    cases hs with
    | @null j hpc => simpa [isFail] using ⟨ih1, ih2⟩
    | @count j s hpc => simpa [isFail] using ⟨ih1, ih2⟩
    | @add j s hpc => simpa [isFail] using ⟨ih1, ih2⟩
    | @exit j new peak hpc hle => simpa [isFail] using ⟨ih1, ih2⟩
    | @free j s hpc => simpa [isFail] using ⟨ih1, ih2⟩
    | @load j new k v hpc hk hv =>
      refine ⟨?_, by simpa using ih2⟩
      by_cases e : i = j
      · subst e; simp [isFail]; omega
      · simpa [isFail, Function.update_of_ne e] using ih1
    | @raise j new peak hpc hgt hlast =>
      refine ⟨?_, by simp [ih2]; omega⟩
      by_cases e : i = j
      · subst e
        have := I.seen i
        simp [isFail]; omega
      · simpa [isFail, Function.update_of_ne e, e] using ih1
    | @fail j new peak k v hpc hgt hk hv hne =>
      refine ⟨?_, by simpa using ih2⟩
      by_cases e : i = j
      · subst e
        have : b.seen i ≠ k := by
          rintro rfl
          rw [I.loop i new peak hpc] at hv
          exact hne (by simpa using hv.symm)
        simp [isFail]; omega
      · simpa [isFail, Function.update_of_ne e, e] using ih1

/-- **C97.** A thread repeats the `compare_exchange` only when another thread has raised the peak in the meantime: up to any
point its failed attempts are at most as many as the successful ones of the other threads. -/
theorem alloc_retries {M : Nat} (hM : 0 < M) {es a} (h : Exec M reset es a) (i : Nat) :
    es.countP (isFail i) ≤ es.countP (isRaiseNot i) := by
  obtain ⟨h1, h2⟩ := seen_counts hM i h
  have h3 := (inv_exec hM h).seen i
  have h4 : ∀ es : List Act, es.countP (fun e => match e with | .raise _ => true | _ => false) =
      es.countP (isRaiseNot i) + es.countP (fun e => match e with | .raise j => i == j | _ => false) := by
    intro es
    induction es with
    | nil => rfl
    | cons e es ih =>
      cases e <;> simp only [List.countP_cons, isRaiseNot, ih]
      case raise j => by_cases e : i = j <;> simp [e] <;> omega
      all_goals simp
  have := h4 es
  omega

/-- **C97.** The work of a thread: four atomic operations for each allocation, one for each deallocation, and one for each
failed attempt (bounded by `alloc_retries`). -/
theorem alloc_steps {M : Nat} {es a} (h : Exec M reset es a) (i : Nat) :
    es.countP (isBy i) ≤ 4 * es.countP (isCount i) + es.countP (isOther i) + es.countP (isFail i) := by
  have key : es.countP (isBy i) + (match a.pc i with | .idle => 0 | .counted _ => 3 | .load _ => 2 | .loop _ _ => 1) =
      4 * es.countP (isCount i) + es.countP (isOther i) + es.countP (isFail i) := by
    induction h with
    | nil => simp [reset]
    | @snoc es b e c hx hs ih =>
      simp only [List.countP_append]
      cases hs with
      | @null j hpc =>
        by_cases e : i = j
        · subst e; simp [isBy, isCount, isOther, isFail, hpc] at ih ⊢; omega
        · simpa [isBy, isCount, isOther, isFail, e] using ih
      | @free j s hpc =>
        by_cases e : i = j
        · subst e; simp [isBy, isCount, isOther, isFail, hpc] at ih ⊢; omega
        · simpa [isBy, isCount, isOther, isFail, e] using ih
      | @count j s hpc =>
        by_cases e : i = j
        · subst e; simp [isBy, isCount, isOther, isFail, hpc] at ih ⊢; omega
        · simpa [isBy, isCount, isOther, isFail, e, Function.update_of_ne e] using ih
      | @add j s hpc =>
        by_cases e : i = j
        · subst e; simp [isBy, isCount, isOther, isFail, hpc] at ih ⊢; omega
        · simpa [isBy, isCount, isOther, isFail, e, Function.update_of_ne e] using ih
      | @exit j new peak hpc hle =>
        by_cases e : i = j
        · subst e; simp [isBy, isCount, isOther, isFail, hpc] at ih ⊢; omega
        · simpa [isBy, isCount, isOther, isFail, e, Function.update_of_ne e] using ih
      | @load j new k v hpc hk hv =>
        by_cases e : i = j
        · subst e; simp [isBy, isCount, isOther, isFail, hpc] at ih ⊢; omega
        · simpa [isBy, isCount, isOther, isFail, e, Function.update_of_ne e] using ih
      | @raise j new peak hpc hgt hlast =>
        by_cases e : i = j
        · subst e; simp [isBy, isCount, isOther, isFail, hpc] at ih ⊢; omega
        · simpa [isBy, isCount, isOther, isFail, e, Function.update_of_ne e] using ih
      | @fail j new peak k v hpc hgt hk hv hne =>
        by_cases e : i = j
        · subst e; simp [isBy, isCount, isOther, isFail, hpc] at ih ⊢; omega
        · simpa [isBy, isCount, isOther, isFail, e, Function.update_of_ne e] using ih
  omega

/-- **C97.** No thread is ever blocked inside the allocator: whatever the others have done, it can take a step. -/
theorem alloc_progress {M : Nat} (hM : 0 < M) {es a} (h : Exec M reset es a) (i : Nat) (hi : a.pc i ≠ .idle) :
    ∃ e c, isBy i e ∧ Step M a e c := by
  have I := inv_exec hM h
  cases hpc : a.pc i with
  | idle => exact absurd hpc hi
  | counted s => exact ⟨.add i s, _, by simp [isBy], .add hpc⟩
  | load new =>
    exact ⟨.load i, _, by simp [isBy], .load (a.seen i) _ hpc le_rfl (List.getElem?_eq_getElem (I.seen i))⟩
  | loop new peak =>
    by_cases hgt : new > peak
    · by_cases hl : a.peaks.getLast? = some peak
      · exact ⟨.raise i, _, by simp [isBy], .raise hpc hgt hl⟩
      · have hs := I.seen i
        have hk : a.peaks[a.peaks.length - 1]? = some (a.peaks[a.peaks.length - 1]'(by omega)) :=
          List.getElem?_eq_getElem _
        refine ⟨.fail i, _, by simp [isBy], .fail (a.peaks.length - 1) _ hpc hgt (by omega) hk ?_⟩
        intro e
        apply hl
        rw [List.getLast?_eq_getElem?, hk, e]
    · exact ⟨.exit i, _, by simp [isBy], .exit hpc hgt⟩

/-- **C97, why it is partial.** The reset does not know what is in use. If a block of `p` bytes that was allocated before the
reset is freed after it, and then a smaller one of `q` bytes is allocated, the reported peak is `2^64 - p + q`. -/
theorem alloc_peak_wraps {M p q : Nat} (hq : q < p) (hp : p < M) :
    ∃ es a, Exec M reset es a ∧ Quiet a ∧ liveBytes es = (q : Int) - p ∧ stats a = (1 % M, M - p + q) := by
  have hM : 0 < M := by omega
  have e1 : (0 + (M - p % M)) % M = (M - p) % M := by rw [Nat.mod_eq_of_lt hp]; simp
  let a1 : St := { reset with cur := (0 + (M - p % M)) % M }
  let v := (a1.cur + q) % M
  have hv : v = M - p + q := by
    show ((0 + (M - p % M)) % M + q) % M = _
    rw [e1, Nat.mod_add_mod, Nat.mod_eq_of_lt (by omega)]
  let a2 : St := { a1 with allocs := (a1.allocs + 1) % M, pc := Function.update a1.pc 0 (.counted q) }
  let a3 : St := { a2 with cur := v, pc := Function.update a2.pc 0 (.load v) }
  let a4 : St := { a3 with seen := Function.update a3.seen 0 0, pc := Function.update a3.pc 0 (.loop v 0) }
  let a5 : St := { a4 with peaks := a4.peaks ++ [v], seen := Function.update a4.seen 0 a4.peaks.length,
                           pc := Function.update a4.pc 0 .idle }
  have s1 : Step M reset (.free 0 p) a1 := .free p rfl
  have s2 : Step M a1 (.count 0 q) a2 := .count q rfl
  have s3 : Step M a2 (.add 0 q) a3 := .add (by simp [a2])
  have s4 : Step M a3 (.load 0) a4 := .load 0 0 (by simp [a3]) (by simp [a3, a2, a1, reset]) (by simp [a3, a2, a1, reset])
  have s5 : Step M a4 (.raise 0) a5 := .raise (new := v) (peak := 0) (by simp [a4]) (by omega) (by simp [a4, a3, a2, a1, reset])
  refine ⟨_, a5, ((((Exec.nil.snoc s1).snoc s2).snoc s3).snoc s4).snoc s5, ?_, ?_, ?_⟩
  · intro i
    by_cases e : i = 0
    · subst e; simp [a5]
    · simp [a5, a4, a3, a2, a1, reset, Function.update_of_ne e]
  · simp [liveBytes]; omega
  · simp [stats, a5, a4, a3, a2, a1, reset, hv]

/-- Not vacuous: two threads allocate 100 and 30 bytes; the first fails to raise the peak because the second has done so since
it read it, sees the larger value, and the reported peak is 130. -/
example : ∃ es a, Exec (2 ^ 64) reset es a ∧ Quiet a ∧ es.countP (isFail 0) = 1 ∧ stats a = (2, 130) ∧
    ∀ pre, pre <+: es → 0 ≤ liveBytes pre ∧ liveBytes pre < (2 ^ 64 : Nat) := by
  let a1 : St := { reset with allocs := 1, pc := Function.update reset.pc 0 (.counted 100) }
  let a2 : St := { a1 with cur := 100, pc := Function.update a1.pc 0 (.load 100) }
  let a3 : St := { a2 with allocs := 2, pc := Function.update a2.pc 1 (.counted 30) }
  let a4 : St := { a3 with cur := 130, pc := Function.update a3.pc 1 (.load 130) }
  let a5 : St := { a4 with seen := Function.update a4.seen 0 0, pc := Function.update a4.pc 0 (.loop 100 0) }
  let a6 : St := { a5 with seen := Function.update a5.seen 1 0, pc := Function.update a5.pc 1 (.loop 130 0) }
  let a7 : St := { a6 with peaks := [0, 130], seen := Function.update a6.seen 1 1, pc := Function.update a6.pc 1 .idle }
  let a8 : St := { a7 with seen := Function.update a7.seen 0 1, pc := Function.update a7.pc 0 (.loop 100 130) }
  let a9 : St := { a8 with pc := Function.update a8.pc 0 .idle }
  have s1 : Step (2 ^ 64) reset (.count 0 100) a1 := .count 100 rfl
  have s2 : Step (2 ^ 64) a1 (.add 0 100) a2 := .add (by simp [a1])
  have s3 : Step (2 ^ 64) a2 (.count 1 30) a3 := .count 30 (by simp [a2, a1, reset, Function.update_apply])
  have s4 : Step (2 ^ 64) a3 (.add 1 30) a4 := .add (by simp [a3])
  have s5 : Step (2 ^ 64) a4 (.load 0) a5 :=
    .load 0 0 (by simp [a4, a3, a2, Function.update_apply]) (by simp [a4, a3, a2, a1, reset]) rfl
  have s6 : Step (2 ^ 64) a5 (.load 1) a6 :=
    .load 0 0 (by simp [a5, a4, Function.update_apply]) (by simp [a5, a4, a3, a2, a1, reset, Function.update_apply]) rfl
  have s7 : Step (2 ^ 64) a6 (.raise 1) a7 := .raise (new := 130) (peak := 0) (by simp [a6]) (by omega) rfl
  have s8 : Step (2 ^ 64) a7 (.fail 0) a8 :=
    .fail (new := 100) (peak := 0) 1 130 (by simp [a7, a6, a5, Function.update_apply]) (by omega)
      (by simp [a7, a6, a5, Function.update_apply]) rfl (by omega)
  have s9 : Step (2 ^ 64) a8 (.exit 0) a9 := .exit (new := 100) (peak := 130) (by simp [a8]) (by omega)
  refine ⟨_, a9, ((((((((Exec.nil.snoc s1).snoc s2).snoc s3).snoc s4).snoc s5).snoc s6).snoc s7).snoc s8).snoc s9,
    ?_, by decide, by decide, ?_⟩
  · intro i
    by_cases e : i = 0
    · subst e; simp [a9]
    · by_cases e1 : i = 1
      · subst e1; simp [a9, a8, a7, Function.update_apply]
      · simp [a9, a8, a7, a6, a5, a4, a3, a2, a1, reset, Function.update_of_ne e, Function.update_of_ne e1]
  · intro pre hp
    have : ∀ pre ∈ List.inits [Act.count 0 100, .add 0 100, .count 1 30, .add 1 30, .load 0, .load 1, .raise 1, .fail 0,
        .exit 0], 0 ≤ liveBytes pre ∧ liveBytes pre < (2 ^ 64 : Nat) := by decide
    exact this pre ((List.mem_inits _ _).2 (by simpa using hp))

end Kofft.Props
