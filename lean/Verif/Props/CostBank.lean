import Verif.Props.CostNd
/-
C111, continued: operations of any number of levels of the filter banks.
-/
namespace Kofft.Props
open Spec
variable [Formal]

/-- Any number of levels of an analysis that halves its input at `c` operations per sample. -/
private theorem levels_cost {Q : Expr → Prop} (c : ℕ) (forward : List Expr → Outcome (List Expr × List Expr))
    (hfw : ∀ (x a d : List Expr), forward x = .ok (a, d) → a.length = x.length / 2 ∧
      Cost (fun e => elems x e ∨ Q e) (c * x.length) (fun e => elems a e ∨ elems d e)) :
    ∀ (levels : ℕ) {A : Expr → Prop} (x cur : List Expr) (ds : List (List Expr)), (∀ e ∈ x, A e) → (∀ e, Q e → A e) →
      multiForward forward levels x = .ok (cur, ds) →
      Cost A (2 * c * (x.length + levels)) (fun e => elems cur e ∨ ∃ d ∈ ds, elems d e)
  | 0, A, x, cur, ds, hx, hq, h => by
    simp only [multiForward, Outcome.ok.injEq, Prod.mk.injEq] at h
    obtain ⟨rfl, rfl⟩ := h
    refine (Cost.given ?_).le (Nat.zero_le _)
    rintro e (he | ⟨d, hd, -⟩)
    · exact hx e he
    · cases hd
  | levels + 1, A, x, cur, ds, hx, hq, h => by
    simp only [multiForward] at h
    cases hf : forward (padEven x) with
    | ok v =>
      obtain ⟨a, d⟩ := v
      rw [hf, Outcome.bind_ok] at h
      cases hm : multiForward forward levels a with
      | ok v =>
        obtain ⟨cur', ds'⟩ := v
        simp only [hm, Outcome.bind_ok] at h
        obtain ⟨rfl, rfl⟩ := Prod.mk.inj (Outcome.ok.inj h)
        obtain ⟨la, c0⟩ := hfw _ _ _ hf
        have c1 : Cost A (c * (padEven x).length) (fun e => elems a e ∨ elems d e) := c0.more fun e he => by
          rcases he with he | he
          · exact hx e (padEven_mem x e he)
          · exact hq e he
        have c2 := levels_cost c forward hfw levels (A := fun e => A e ∨ (elems a e ∨ elems d e)) a cur' ds'
          (fun e he => Or.inr (Or.inl he)) (fun e he => Or.inl (hq e he)) hm
        have hp := padEven_length x
        refine (c1.both c2).weaken ?_ ?_
        · have h1 : a.length + levels + ((x.length + 1) / 2) ≤ x.length + (levels + 1) := by omega
          calc c * (padEven x).length + 2 * c * (a.length + levels)
              = 2 * c * (a.length + levels + (x.length + 1) / 2) := by rw [hp]; ring
            _ ≤ _ := Nat.mul_le_mul_left _ h1
        · rintro e (he | ⟨d', hd, he⟩)
          · right; left; exact he
          · rcases List.mem_cons.1 hd with rfl | hd
            · left; right; exact he
            · right; right; exact ⟨d', hd, he⟩
      | panic => simp only [hm] at h; cases h
      | hang => simp only [hm] at h; cases h
    | panic => rw [hf] at h; cases h
    | hang => rw [hf] at h; cases h

/-- C111p. Any number of levels of analysis with filters of `L` taps takes at most `4 L (n + levels)` operations on `n` samples. -/
theorem bank_multi_operations (h g : List Expr) (hg : h.length ≤ g.length) (levels : ℕ) (x cur : List Expr)
    (ds : List (List Expr)) (e : multiForward (bankForward h g) levels x = .ok (cur, ds)) :
    Cost (fun e => elems x e ∨ elems h e ∨ elems g e) (4 * h.length * (x.length + levels))
      (fun e => elems cur e ∨ ∃ d ∈ ds, elems d e) := by
  refine (levels_cost (Q := fun e => elems h e ∨ elems g e) (2 * h.length) (bankForward h g) ?_ levels x cur ds
    (fun e he => Or.inl he) (fun e he => Or.inr he) e).le (le_of_eq (by ring))
  intro x a d e
  refine ⟨?_, (bank_forward_operations h g x a d hg e).le (le_of_eq (by ring))⟩
  rw [bankForward_ok h g x hg] at e
  rw [← (Prod.mk.inj (Outcome.ok.inj e)).1, tab_length]

/-- C111q. Any number of levels of db2 analysis of `n` samples takes at most `14 (n + levels)` operations. -/
theorem db2_multi_operations (levels : ℕ) (x cur : List Expr) (ds : List (List Expr))
    (e : multiForward db2Forward levels x = .ok (cur, ds)) :
    Cost (elems x) (14 * (x.length + levels)) (fun e => elems cur e ∨ ∃ d ∈ ds, elems d e) := by
  refine (levels_cost (Q := fun _ => False) 7 db2Forward ?_ levels x cur ds (fun e he => he) (fun e he => he.elim) e).le le_rfl
  intro x a d e
  refine ⟨?_, (db2_operations x a d e).1.more fun e he => Or.inl he⟩
  rw [db2Forward_ok] at e
  rw [← (Prod.mk.inj (Outcome.ok.inj e)).1, tab_length]

/-- Any number of levels of a synthesis that doubles its input at `c` operations per pair. -/
private theorem levelsInv_cost {Q : Expr → Prop} (c : ℕ) (inverse : List Expr → List Expr → Outcome (List Expr))
    (hiv : ∀ (a d y : List Expr), inverse a d = .ok y → y.length = 2 * a.length ∧
      Cost (fun e => elems a e ∨ elems d e ∨ Q e) (c * a.length) (elems y)) :
    ∀ (ds : List (List Expr)) {A : Expr → Prop} (cur y : List Expr), (∀ e ∈ cur, A e) → (∀ d ∈ ds, ∀ e ∈ d, A e) →
      (∀ e, Q e → A e) → ds.foldlM (fun cur d => inverse cur d) cur = .ok y →
      cur.length ≤ y.length ∧ Cost A (c * (y.length - cur.length)) (elems y)
  | [], A, cur, y, hc, _, _, h => by
    simp only [List.foldlM_nil] at h
    obtain rfl := Outcome.ok.inj h
    exact ⟨le_rfl, (Cost.given hc).le (Nat.zero_le _)⟩
  | d :: ds, A, cur, y, hc, hd, hq, h => by
    rw [List.foldlM_cons] at h
    cases hi : inverse cur d with
    | ok z =>
      rw [hi] at h
      obtain ⟨lz, c0⟩ := hiv cur d z hi
      have c1 : Cost A (c * cur.length) (elems z) := c0.more fun e he => by
        rcases he with he | he | he
        · exact hc e he
        · exact hd d (by simp) e he
        · exact hq e he
      obtain ⟨l2, c2⟩ := levelsInv_cost c inverse hiv ds (A := fun e => A e ∨ elems z e) z y (fun e he => Or.inr he)
        (fun d' hd' e he => Or.inl (hd d' (by simp [hd']) e he)) (fun e he => Or.inl (hq e he)) h
      refine ⟨by omega, (c1.next c2).le ?_⟩
      rw [← Nat.mul_add]
      exact Nat.mul_le_mul_left _ (by omega)
    | panic => rw [hi] at h; cases h
    | hang => rw [hi] at h; cases h

/-- C111r. The synthesis of `n` samples, through any number of levels, with filters of `L ≥ 1` taps takes at most `4 L n`
operations. -/
theorem bank_multi_inverse_operations (g h approx y : List Expr) (ds : List (List Expr)) (h0 : 0 < g.length)
    (hg : g.length ≤ h.length) (e : multiInverse (bankInverse g h) approx ds = .ok y) :
    Cost (fun e => elems approx e ∨ (∃ d ∈ ds, elems d e) ∨ elems g e ∨ elems h e) (4 * g.length * y.length) (elems y) := by
  have := (levelsInv_cost (Q := fun e => elems g e ∨ elems h e) (4 * g.length) (bankInverse g h) ?_ ds.reverse
    (A := fun e => elems approx e ∨ (∃ d ∈ ds, elems d e) ∨ elems g e ∨ elems h e) approx y (fun e he => Or.inl he)
    (fun d hd e he => Or.inr (Or.inl ⟨d, List.mem_reverse.1 hd, he⟩)) (fun e he => Or.inr (Or.inr he)) e).2
  · exact this.le (Nat.mul_le_mul_left _ (Nat.sub_le _ _))
  intro a d y e
  have hd : a.length ≤ d.length := by
    by_contra hlt
    rw [bankInverse_panic g h a d h0 hg (by omega)] at e
    cases e
  refine ⟨?_, (bank_inverse_operations g h a d y hg hd e).le (le_of_eq (by ring))⟩
  rw [bankInverse_ok g h a d hg hd] at e
  rw [← Outcome.ok.inj e, tab_length]
  omega

/-- Five levels of db2 on 1000 samples: at most 14070 operations (and the decomposition succeeds). -/
example (x : List Expr) (hx : x.length = 1000) : ∃ cur ds, multiForward db2Forward 5 x = .ok (cur, ds) ∧
    Cost (elems x) 14070 (fun e => elems cur e ∨ ∃ d ∈ ds, elems d e) := by
  have ok : ∀ (l : ℕ) (x : List Expr), ∃ cur ds, multiForward db2Forward l x = .ok (cur, ds) := by
    intro l
    induction l with
    | zero => exact fun x => ⟨_, _, rfl⟩
    | succ l ih =>
      intro x
      obtain ⟨a, d, e⟩ : ∃ a d, db2Forward (padEven x) = .ok (a, d) := ⟨_, _, db2Forward_ok _⟩
      obtain ⟨cur, ds, h⟩ := ih a
      refine ⟨cur, d :: ds, ?_⟩
      rw [multiForward, e, Outcome.bind_ok]
      simp only [h, Outcome.bind_ok, Outcome.pure_eq]
  obtain ⟨cur, ds, h⟩ := ok 5 x
  exact ⟨cur, ds, h, (db2_multi_operations 5 x cur ds h).le (by omega)⟩

end Kofft.Props
