import Verif.Proof.CostFft
import Verif.Proof.Trig
import Mathlib.Data.Finset.Prod
import Mathlib.Data.Finset.Card
/-
Lower bounds for numbers of operations, and the direct transforms.
-/
namespace Kofft
open Spec

/-- `s` occurs in an expression. -/
inductive Occurs (s : Expr) : Expr → Prop
  | refl : Occurs s s
  | un {o a} : Occurs s a → Occurs s (.un o a)
  | binL {o a b} : Occurs s a → Occurs s (.bin o a b)
  | binR {o a b} : Occurs s b → Occurs s (.bin o a b)
  | maA {a b c} : Occurs s a → Occurs s (.mulAdd a b c)
  | maB {a b c} : Occurs s b → Occurs s (.mulAdd a b c)
  | maC {a b c} : Occurs s c → Occurs s (.mulAdd a b c)

/-- The result of an operation. -/
def Compound (e : Expr) : Prop := (∀ i, e ≠ .input i) ∧ ∀ c, e ≠ .const c

/-- Only inputs are given. -/
def OnlyInputs (A : Expr → Prop) : Prop := ∀ e, A e → ∃ i, e = .input i

theorem occurs_avail {A : Expr → Prop} {p : List Expr} {s e : Expr} (hA : OnlyInputs A) (hs : Compound s)
    (ih : ∀ e ∈ p, Occurs s e → s ∈ p) (h : Avail A p e) (ho : Occurs s e) : s ∈ p := by
  rcases h with h | ⟨c, rfl⟩ | h
  · obtain ⟨i, rfl⟩ := hA e h
    cases ho
    exact absurd rfl (hs.1 i)
  · cases ho
    exact absurd rfl (hs.2 c)
  · exact ih e h ho

theorem straight_occurs {A : Expr → Prop} {p : List Expr} (hA : OnlyInputs A) (h : Straight A p) {s : Expr} (hs : Compound s) :
    ∀ e ∈ p, Occurs s e → s ∈ p := by
  induction h with
  | nil => exact fun e he => absurd he (by simp)
  | un _ ha ih =>
    intro e he ho
    rcases List.mem_cons.1 he with rfl | he
    · cases ho with
      | refl => exact List.mem_cons_self
      | un ho => exact List.mem_cons_of_mem _ (occurs_avail hA hs ih ha ho)
    · exact List.mem_cons_of_mem _ (ih e he ho)
  | bin _ ha hb ih =>
    intro e he ho
    rcases List.mem_cons.1 he with rfl | he
    · cases ho with
      | refl => exact List.mem_cons_self
      | binL ho => exact List.mem_cons_of_mem _ (occurs_avail hA hs ih ha ho)
      | binR ho => exact List.mem_cons_of_mem _ (occurs_avail hA hs ih hb ho)
    · exact List.mem_cons_of_mem _ (ih e he ho)
  | mulAdd _ ha hb hc ih =>
    intro e he ho
    rcases List.mem_cons.1 he with rfl | he
    · cases ho with
      | refl => exact List.mem_cons_self
      | maA ho => exact List.mem_cons_of_mem _ (occurs_avail hA hs ih ha ho)
      | maB ho => exact List.mem_cons_of_mem _ (occurs_avail hA hs ih hb ho)
      | maC ho => exact List.mem_cons_of_mem _ (occurs_avail hA hs ih hc ho)
    · exact List.mem_cons_of_mem _ (ih e he ho)

/-- Every operation whose result occurs in what is wanted has to be carried out. -/
theorem cost_lower {A W : Expr → Prop} {k : ℕ} (hA : OnlyInputs A) (h : Cost A k W) (S : Finset Expr)
    (hS : ∀ s ∈ S, Compound s ∧ ∃ e, W e ∧ Occurs s e) : S.card ≤ k := by
  obtain ⟨p, h1, h2, h3⟩ := h
  have hsub : S ⊆ p.toFinset := by
    intro s hs
    obtain ⟨hc, e, he, ho⟩ := hS s hs
    rw [List.mem_toFinset]
    exact occurs_avail hA hc (straight_occurs hA h1 hc) (h3 e he) ho
  exact (Finset.card_le_card hsub).trans ((List.toFinset_card_le p).trans h2)

theorem onlyInputs_re (n : ℕ) : OnlyInputs (elems (reInputs n)) := by
  intro e he
  obtain ⟨i, -, rfl⟩ := List.mem_map.1 (show e ∈ (List.range n).map Expr.input from he)
  exact ⟨i, rfl⟩

section direct
variable [Formal]

theorem reInputs_length (n : ℕ) : (reInputs n).length = n := by simp [reInputs]
theorem reInputs_getD {n i : ℕ} (h : i < n) : (reInputs n).getD i Flt.zero = .input i := by
  simp [reInputs, h]

/-- A sum contains its terms. -/
theorem accV_occurs (input : List Expr) (g : ℕ → Expr → Expr) (init : Expr) :
    ∀ {c i : ℕ}, i < c → Occurs (g i (input.getD i Flt.zero)) (accV input 0 g init c)
  | c + 1, i, h => by
    rw [accV]
    rcases Nat.lt_succ_iff_lt_or_eq.1 h with h | rfl
    · exact .binL (accV_occurs input g init h)
    · exact .binR (by rw [Nat.zero_add]; exact .refl)

/-- A sum of terms of `c` operations each. -/
theorem accV_cost {A : Expr → Prop} {c : ℕ} (input : List Expr) (g : ℕ → Expr → Expr) (init : Expr) (hi : Avail A [] init) :
    ∀ {m : ℕ}, (∀ i < m, ∀ {B : Expr → Prop}, (∀ e, A e → B e) → Cost B c (fun e => e = g i (input.getD i Flt.zero))) →
      Cost A (m * (c + 1)) (fun e => e = accV input 0 g init m)
  | 0, _ => (cost_has fun e he => by rw [he]; exact hi).le (Nat.zero_le _)
  | m + 1, h => by
    have ih := accV_cost input g init hi (m := m) fun i hi => h i (by omega)
    have := ih.both (h m (by omega) fun _ => Or.inl)
    rw [accV, Nat.zero_add]
    refine (this.next (Cost.bin .add (Or.inl (Or.inr (Or.inl rfl))) (Or.inl (Or.inr (Or.inr rfl))))).le ?_
    rw [Nat.succ_mul]; omega

/-- A direct transform: each output is a sum of products of the inputs with coefficients of its own. -/
theorem direct_lower {n k : ℕ} (co : ℕ → ℕ → Expr) (hco : ∀ i j i' j', co i j = co i' j' → j = j')
    (h : Cost (elems (reInputs n)) k (elems (tab n fun j => accV (reInputs n) 0 (fun i x => x *. co i j) Flt.zero n))) :
    n * n ≤ k := by
  set G : ℕ × ℕ → Expr := fun q => .bin .mul (.input q.1) (co q.1 q.2) with eG
  have hinj : Function.Injective G := by
    rintro ⟨i, j⟩ ⟨i', j'⟩ e
    simp only [eG, Expr.bin.injEq, Expr.input.injEq, true_and] at e
    obtain ⟨rfl, e⟩ := e
    rw [hco _ _ _ _ e]
  have := cost_lower (onlyInputs_re n) h ((Finset.range n ×ˢ Finset.range n).image G) (by
    intro s hs
    obtain ⟨⟨i, j⟩, hq, rfl⟩ := Finset.mem_image.1 hs
    obtain ⟨hi, hj⟩ := Finset.mem_product.1 hq
    simp only [Finset.mem_range] at hi hj
    refine ⟨⟨fun _ => by simp [eG], fun _ => by simp [eG]⟩, _, List.mem_map.2 ⟨j, List.mem_range.2 hj, rfl⟩, ?_⟩
    have := accV_occurs (reInputs n) (fun i x => x *. co i j) Flt.zero (c := n) (i := i) hi
    simp only [reInputs_getD hi] at this
    exact this)
  rwa [Finset.card_image_of_injective _ hinj, Finset.card_product, Finset.card_range] at this

theorem direct_upper {A : Expr → Prop} {n c : ℕ} (x : List Expr) (hx : ∀ e ∈ x, A e) (hn : x.length = n) (co : ℕ → ℕ → Expr)
    (hc : ∀ i j, ∀ {B : Expr → Prop}, (∀ e, A e → B e) → Cost B c (fun e => e = co i j)) :
    Cost A (n * (n * (c + 2))) (elems (tab n fun j => accV x 0 (fun i x => x *. co i j) Flt.zero n)) := by
  refine (Cost.all (B := fun j e => e = accV x 0 (fun i x => x *. co i j) Flt.zero n) fun j _ => accV_cost x _ _ avail_const ?_).weaken
    le_rfl ?_
  · intro i hi B hB
    refine ((hc i j hB).next (Cost.bin .mul (Or.inl (Or.inl (hB _ (hx _ ?_)))) (Or.inl (Or.inr rfl))))
    rw [List.getD_eq_getElem _ _ (by omega)]
    exact List.getElem_mem _
  · intro e he
    obtain ⟨j, hj, rfl⟩ := List.mem_map.1 (show e ∈ (List.range n).map _ from he)
    exact ⟨j, List.mem_range.1 hj, rfl⟩

end direct
end Kofft
