import Verif.Model.Base
import Mathlib.Tactic.Ring
import Mathlib.Tactic.Linarith
import Mathlib.Data.List.Basic
/-
Proof rules for the loops of `Model/Base.lean`, and `tab n f`, the buffer holding `f 0 .. f (n-1)`.
-/
namespace Kofft

variable {α β γ σ : Type}

theorem loopN_ok {f : Nat → σ → Outcome σ} (I : Nat → σ → Prop) :
    ∀ (cnt lo : Nat) (s : σ), I lo s →
      (∀ i s, lo ≤ i → i < lo + cnt → I i s → ∃ s', f i s = .ok s' ∧ I (i + 1) s') →
      ∃ s', loopN cnt lo s f = .ok s' ∧ I (lo + cnt) s'
  | 0, lo, s, h0, _ => ⟨s, rfl, h0⟩
  | cnt + 1, lo, s, h0, step => by
    obtain ⟨s1, e1, h1⟩ := step lo s le_rfl (by omega) h0
    obtain ⟨s2, e2, h2⟩ := loopN_ok I cnt (lo + 1) s1 h1
      (fun i s h h' hi => step i s (by omega) (by omega) hi)
    refine ⟨s2, ?_, ?_⟩
    · simp [loopN, e1, e2]
    · rw [show lo + (cnt + 1) = lo + 1 + cnt by omega]; exact h2

/-- Invariant rule for `forRange`. -/
theorem forRange_ok {f : Nat → σ → Outcome σ} (I : Nat → σ → Prop) {lo hi : Nat} {s : σ}
    (hle : lo ≤ hi) (h0 : I lo s)
    (step : ∀ i s, lo ≤ i → i < hi → I i s → ∃ s', f i s = .ok s' ∧ I (i + 1) s') :
    ∃ s', forRange lo hi s f = .ok s' ∧ I hi s' := by
  obtain ⟨s', e, h⟩ := loopN_ok (f := f) I (hi - lo) lo s h0
    (fun i s h h' hi' => step i s h (by omega) hi')
  refine ⟨s', e, ?_⟩
  rwa [show lo + (hi - lo) = hi by omega] at h

/-- Deterministic version: the state after `i` iterations is `g i`. -/
theorem forRange_eq {f : Nat → σ → Outcome σ} (g : Nat → σ) {lo hi : Nat} {s : σ}
    (hle : lo ≤ hi) (h0 : s = g lo)
    (step : ∀ i, lo ≤ i → i < hi → f i (g i) = .ok (g (i + 1))) :
    forRange lo hi s f = .ok (g hi) := by
  obtain ⟨s', e, h⟩ := forRange_ok (f := f) (fun i s => s = g i) hle h0
    (fun i s h h' hs => ⟨g (i + 1), by rw [hs]; exact step i h h', rfl⟩)
  rw [e, h]

theorem forRange_empty {f : Nat → σ → Outcome σ} {lo hi : Nat} {s : σ} (h : hi ≤ lo) :
    forRange lo hi s f = .ok s := by
  unfold forRange; rw [show hi - lo = 0 by omega]; rfl

theorem forRange_succ {f : Nat → σ → Outcome σ} {lo hi : Nat} {s : σ} (h : lo < hi) :
    forRange lo hi s f = f lo s >>= fun s' => forRange (lo + 1) hi s' f := by
  unfold forRange
  obtain ⟨c, hc⟩ : ∃ c, hi - lo = c + 1 := ⟨hi - lo - 1, by omega⟩
  rw [hc, show hi - (lo + 1) = c by omega]; rfl

theorem loopN_succ_last {f : Nat → σ → Outcome σ} :
    ∀ (cnt lo : Nat) (s : σ), loopN (cnt + 1) lo s f = loopN cnt lo s f >>= fun s' => f (lo + cnt) s'
  | 0, lo, s => by
    show (f lo s >>= fun s' => Outcome.ok s') = f (lo + 0) s
    cases f lo s <;> rfl
  | cnt + 1, lo, s => by
    rw [loopN]
    conv_rhs => rw [loopN]
    cases f lo s with
    | ok a =>
      simp only [Outcome.bind_ok]
      rw [loopN_succ_last cnt (lo + 1) a, show lo + 1 + cnt = lo + (cnt + 1) by omega]
    | panic => rfl
    | hang => rfl

theorem forRange_succ_last {f : Nat → σ → Outcome σ} {lo hi : Nat} {s : σ} (h : lo ≤ hi) :
    forRange lo (hi + 1) s f = forRange lo hi s f >>= fun s' => f hi s' := by
  unfold forRange
  rw [show hi + 1 - lo = (hi - lo) + 1 by omega, loopN_succ_last, show lo + (hi - lo) = hi by omega]

/-- Pointwise equal bodies. -/
theorem forRange_congr {f g : Nat → σ → Outcome σ} {lo hi : Nat} {s : σ}
    (h : ∀ i s, lo ≤ i → i < hi → f i s = g i s) : forRange lo hi s f = forRange lo hi s g := by
  unfold forRange
  have : ∀ cnt lo' s, (∀ i s, lo' ≤ i → i < lo' + cnt → f i s = g i s) →
      loopN cnt lo' s f = loopN cnt lo' s g := by
    intro cnt
    induction cnt with
    | zero => intros; rfl
    | succ c ih =>
      intro lo' s hh
      rw [loopN, loopN, hh lo' s le_rfl (by omega)]
      congr 1; funext s'
      exact ih _ _ (fun i s h1 h2 => hh i s (by omega) (by omega))
  exact this _ _ _ (fun i s h1 h2 => h i s h1 (by omega))

/-- Invariant rule for `whileF`: `m` is a decreasing measure. -/
theorem whileF_ok {cond : σ → Bool} {body : σ → Outcome σ} (I : σ → Prop) (m : σ → Nat) :
    ∀ (fuel : Nat) (s : σ), m s < fuel → I s →
      (∀ s, I s → cond s = true → ∃ s', body s = .ok s' ∧ I s' ∧ m s' < m s) →
      ∃ s', whileF fuel cond body s = .ok s' ∧ I s' ∧ cond s' = false
  | 0, s, h, _, _ => by omega
  | fuel + 1, s, h, h0, step => by
    unfold whileF
    by_cases hc : cond s = true
    · obtain ⟨s1, e1, h1, hm⟩ := step s h0 hc
      obtain ⟨s2, e2, h2⟩ := whileF_ok I m fuel s1 (by omega) h1 step
      exact ⟨s2, by simp [hc, e1, e2], h2⟩
    · exact ⟨s, by simp [hc], h0, by simpa using hc⟩

/-! ### `tab` -/

/-- The buffer `[f 0, .., f (n-1)]`. -/
def tab (n : Nat) (f : Nat → α) : List α := (List.range n).map f

@[simp] theorem tab_length (n : Nat) (f : Nat → α) : (tab n f).length = n := by simp [tab]

theorem tab_getElem? (n : Nat) (f : Nat → α) (i : Nat) :
    (tab n f)[i]? = if i < n then some (f i) else none := by
  unfold tab
  by_cases h : i < n
  · simp [h]
  · simp [h]

@[simp] theorem tab_getElem (n : Nat) (f : Nat → α) (i : Nat) (h : i < (tab n f).length) :
    (tab n f)[i] = f i := by
  simp [tab]

theorem tab_congr {n : Nat} {f g : Nat → α} (h : ∀ i, i < n → f i = g i) : tab n f = tab n g := by
  unfold tab
  apply List.map_congr_left
  intro i hi
  exact h i (List.mem_range.mp hi)

theorem tab_inj {n : Nat} {f g : Nat → α} (h : tab n f = tab n g) : ∀ i, i < n → f i = g i := by
  intro i hi
  have := congrArg (fun l => l[i]?) h
  simpa [tab_getElem?, hi] using this

theorem list_eq_tab (l : List α) (f : Nat → α) (h : ∀ i (hi : i < l.length), l[i] = f i) :
    l = tab l.length f := by
  apply List.ext_getElem (by simp)
  intro i h1 h2
  rw [h i h1, tab_getElem]

theorem list_eq_tab' {l : List α} {n : Nat} {f : Nat → α} (hl : l.length = n)
    (h : ∀ i (hi : i < l.length), l[i] = f i) : l = tab n f := by
  subst hl; exact list_eq_tab l f h

theorem eq_tab_getD (l : List α) (d : α) : l = tab l.length (fun i => l.getD i d) := by
  apply list_eq_tab
  intro i hi
  simp [List.getD_eq_getElem?_getD, hi]

theorem tab_getD {n : Nat} {f : Nat → α} {i : Nat} {d : α} (h : i < n) :
    (tab n f).getD i d = f i := by
  simp [List.getD_eq_getElem?_getD, h]

theorem tab_map (n : Nat) (f : Nat → α) (g : α → β) : (tab n f).map g = tab n (fun i => g (f i)) := by
  simp [tab, List.map_map, Function.comp_def]

theorem tab_zipWith (n : Nat) (f : Nat → α) (g : Nat → β) (h : α → β → γ) :
    List.zipWith h (tab n f) (tab n g) = tab n (fun i => h (f i) (g i)) := by
  apply List.ext_getElem (by simp)
  intro i h1 h2
  simp [tab]

theorem tab_take (n w : Nat) (f : Nat → α) : (tab n f).take w = tab (min w n) f := by
  apply List.ext_getElem (by simp)
  intro i h1 h2
  simp [tab]

theorem tab_drop (n w : Nat) (f : Nat → α) : (tab n f).drop w = tab (n - w) (fun i => f (w + i)) := by
  apply List.ext_getElem (by simp)
  intro i h1 h2
  simp [tab]

theorem tab_append (n m : Nat) (f g : Nat → α) :
    tab n f ++ tab m g = tab (n + m) (fun i => if i < n then f i else g (i - n)) := by
  apply List.ext_getElem (by simp)
  intro i h1 h2
  simp only [List.getElem_append, tab_length, tab_getElem]
  split <;> rfl

theorem replicate_eq_tab (n : Nat) (z : α) : List.replicate n z = tab n (fun _ => z) := by
  apply List.ext_getElem (by simp)
  intro i h1 h2
  simp

theorem nil_eq_tab (f : Nat → α) : [] = tab 0 f := rfl

theorem tab_succ (n : Nat) (f : Nat → α) : tab (n + 1) f = tab n f ++ [f n] := by
  simp [tab, List.range_succ]

theorem tab_succ' (n : Nat) (f : Nat → α) : tab (n + 1) f = f 0 :: tab n (fun i => f (i + 1)) := by
  simp [tab, List.range_succ_eq_map, List.map_map, Function.comp_def]

theorem tab_set (n : Nat) (f : Nat → α) (i : Nat) (v : α) :
    (tab n f).set i v = tab n (fun k => if k = i then v else f k) := by
  apply List.ext_getElem (by simp)
  intro k h1 h2
  simp only [List.getElem_set, tab_getElem]
  by_cases h : i = k
  · simp [h]
  · have : ¬ k = i := fun e => h e.symm
    simp [h, this]

theorem rd_tab {n : Nat} {f : Nat → α} {i : Nat} (h : i < n) : rd (tab n f) i = .ok (f i) := by
  simp [rd, h]

theorem rd_ok {l : List α} {i : Nat} (h : i < l.length) : rd l i = .ok l[i] := by
  simp [rd, h]

theorem rd_getD {l : List α} {i : Nat} (d : α) (h : i < l.length) : rd l i = .ok (l.getD i d) := by
  simp [rd, h, List.getD_eq_getElem?_getD]

theorem rd_panic {l : List α} {i : Nat} (h : l.length ≤ i) : rd l i = .panic := by
  simp [rd, h]

theorem wr_tab {n : Nat} {f : Nat → α} {i : Nat} {v : α} (h : i < n) :
    wr (tab n f) i v = .ok (tab n (fun k => if k = i then v else f k)) := by
  simp [wr, h, tab_set]

theorem wr_ok {l : List α} {i : Nat} {v : α} (h : i < l.length) : wr l i v = .ok (l.set i v) := by
  simp [wr, h]

theorem rdN_tab {n : Nat} {f : Nat → α} {i w : Nat} (h : i + w ≤ n) :
    rdN (tab n f) i w = .ok (tab w (fun t => f (i + t))) := by
  simp only [rdN, tab_length, h, if_true, tab_drop, tab_take]
  rw [Nat.min_eq_left (by omega)]

theorem wrN_tab {n : Nat} {f : Nat → α} {i w : Nat} {v : Nat → α} (h : i + w ≤ n) :
    wrN (tab n f) i (tab w v) =
      .ok (tab n (fun k => if i ≤ k ∧ k < i + w then v (k - i) else f k)) := by
  simp only [wrN, tab_length, h, if_true]
  congr 1
  apply List.ext_getElem
  · simp; omega
  intro k h1 h2
  simp only [tab_take, tab_drop, List.getElem_append, tab_length, tab_getElem, List.length_append]
  have hk : k < n := by simpa using h2
  rw [Nat.min_eq_left (by omega : i ≤ n)]
  split
  · split
    · rw [if_neg (by omega)]
    · rw [if_pos (by omega)]
  · rw [if_neg (by omega)]
    congr 1; omega

theorem copyN_tab {n m k : Nat} {f g : Nat → α} (h1 : n ≤ m) (h2 : n ≤ k) :
    copyPrefix (tab n f) (tab k g) = tab k (fun i => if i < n then f i else g i) ∧
    (tab m f).take n ++ (tab k g).drop n = tab k (fun i => if i < n then f i else g i) := by
  constructor
  · clear h1
    induction n generalizing k f g with
    | zero =>
      show copyPrefix [] _ = _
      rw [copyPrefix]; exact tab_congr (by simp)
    | succ n ih =>
      obtain ⟨k, rfl⟩ : ∃ k', k = k' + 1 := ⟨k - 1, by omega⟩
      rw [tab_succ', tab_succ', tab_succ', copyPrefix, ih (by omega)]
      simp
  · rw [tab_take, tab_drop, tab_append, Nat.min_eq_left h1, show n + (k - n) = k by omega]
    apply tab_congr
    intro i hi
    split
    · rfl
    · congr 1; omega

theorem grow_tab {k n : Nat} {g : Nat → α} {z : α} :
    grow (tab k g) n z = tab (max k n) (fun i => if i < k then g i else z) := by
  rw [grow, replicate_eq_tab, tab_append, tab_length, show k + (n - k) = max k n by omega]

theorem grow_length (l : List α) (n : Nat) (z : α) : (grow l n z).length = max l.length n := by
  simp [grow]; omega

theorem copyPrefix_length (a b : List α) : (copyPrefix a b).length = b.length := by
  induction a generalizing b with
  | nil => cases b <;> rfl
  | cons x a ih => cases b with
    | nil => rfl
    | cons y b => simp [copyPrefix, ih]

/-- A loop that writes `v i` at position `i` for `i` in `lo..hi`. -/
theorem fill_tab {α : Type} {n lo hi : Nat} {f v : Nat → α} {body : Nat → List α → Outcome (List α)}
    (hle : lo ≤ hi)
    (hb : ∀ i s, lo ≤ i → i < hi → s.length = n →
      body i s = .ok (s.set i (v i))) :
    forRange lo hi (tab n f) body = .ok (tab n (fun k => if lo ≤ k ∧ k < hi then v k else f k)) := by
  rw [forRange_eq (s := tab n f)
    (fun i => tab n (fun k => if lo ≤ k ∧ k < i then v k else f k)) hle
    (tab_congr fun k _ => by rw [if_neg (by omega)])]
  intro i h1 h2
  rw [hb i _ h1 h2 (by simp), tab_set]
  congr 1
  apply tab_congr
  intro k hk
  by_cases h : k = i
  · subst h; rw [if_pos rfl, if_pos (by omega)]
  · rw [if_neg h]
    by_cases h3 : lo ≤ k ∧ k < i
    · rw [if_pos h3, if_pos (by omega)]
    · rw [if_neg h3, if_neg (by omega)]

end Kofft
