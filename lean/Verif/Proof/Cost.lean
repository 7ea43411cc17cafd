import Verif.Spec.Cost
import Verif.Lib.Loop
import Mathlib.Tactic.Ring
import Mathlib.Tactic.Linarith
/-
Rules for counting operations.
-/
namespace Kofft
open Spec

theorem Spec.Avail.mono {A B : Expr → Prop} {p q : List Expr} {e : Expr} (h : Avail A p e) (hA : ∀ e, A e → Avail B q e)
    (hp : ∀ e ∈ p, e ∈ q) : Avail B q e := by
  rcases h with h | h | h
  · exact hA e h
  · exact Or.inr (Or.inl h)
  · exact Or.inr (Or.inr (hp e h))

/-- Running a program after another one. -/
theorem Spec.Straight.append {A B : Expr → Prop} {p : List Expr} (hp : Straight A p) (hB : ∀ e, B e → Avail A p e) :
    ∀ {q : List Expr}, Straight B q → Straight A (q ++ p) := by
  intro q hq
  have key : ∀ {q e}, Avail B q e → Avail A (q ++ p) e := fun h =>
    h.mono (fun e he => (hB e he).mono (fun _ h => Or.inl h) (fun _ h => List.mem_append_right _ h))
      (fun _ h => List.mem_append_left _ h)
  induction hq with
  | nil => exact hp
  | un _ ha ih => exact .un ih (key ha)
  | bin _ ha hb ih => exact .bin ih (key ha) (key hb)
  | mulAdd _ ha hb hc ih => exact .mulAdd ih (key ha) (key hb) (key hc)

namespace Spec.Cost
variable {A B C D : Expr → Prop} {k l : ℕ}

theorem weaken (h : Cost A k B) (hk : k ≤ l) (hC : ∀ e, C e → B e) : Cost A l C := by
  obtain ⟨p, h1, h2, h3⟩ := h
  exact ⟨p, h1, h2.trans hk, fun e he => h3 e (hC e he)⟩

theorem le (h : Cost A k B) (hk : k ≤ l) : Cost A l B := weaken h hk (fun _ h => h)

theorem given (h : ∀ e, B e → A e) : Cost A 0 B := ⟨[], .nil, le_rfl, fun e he => Or.inl (h e he)⟩

theorem consts (h : ∀ e, B e → ∃ c, e = .const c) : Cost A 0 B := ⟨[], .nil, le_rfl, fun e he => Or.inr (Or.inl (h e he))⟩

/-- More is given. -/
theorem more (h : Cost A k C) (hA : ∀ e, A e → B e) : Cost B k C := by
  obtain ⟨p, h1, h2, h3⟩ := h
  have := Straight.append (A := B) (B := A) .nil (fun e he => Or.inl (hA e he)) h1
  rw [List.append_nil] at this
  exact ⟨p, this, h2, fun e he => (h3 e he).mono (fun e h => Or.inl (hA e h)) (fun _ h => h)⟩

/-- One computation after another, keeping the results of both. -/
theorem both (h : Cost A k B) (h' : Cost (fun e => A e ∨ B e) l C) : Cost A (k + l) (fun e => B e ∨ C e) := by
  obtain ⟨p, h1, h2, h3⟩ := h
  obtain ⟨q, g1, g2, g3⟩ := h'
  have hB : ∀ e, (A e ∨ B e) → Avail A p e := fun e he => he.elim Or.inl (h3 e)
  refine ⟨q ++ p, h1.append hB g1, by rw [List.length_append]; omega, fun e he => ?_⟩
  rcases he with he | he
  · exact (h3 e he).mono (fun _ h => Or.inl h) (fun _ h => List.mem_append_right _ h)
  · exact (g3 e he).mono (fun e he => (hB e he).mono (fun _ h => Or.inl h) (fun _ h => List.mem_append_right _ h))
      (fun _ h => List.mem_append_left _ h)

/-- One computation after another. -/
theorem next (h : Cost A k B) (h' : Cost (fun e => A e ∨ B e) l C) : Cost A (k + l) C :=
  weaken (both h h') le_rfl (fun _ h => Or.inr h)

/-- Two computations from the same data. -/
theorem union (h : Cost A k B) (h' : Cost A l C) : Cost A (k + l) (fun e => B e ∨ C e) :=
  both h (more h' fun _ h => Or.inl h)

/-- A computation for each of `n` indices. -/
theorem all {B : ℕ → Expr → Prop} : ∀ {n : ℕ}, (∀ i < n, Cost A k (B i)) → Cost A (n * k) (fun e => ∃ i < n, B i e)
  | 0, _ => ⟨[], .nil, by simp, fun e ⟨i, hi, _⟩ => absurd hi (by omega)⟩
  | n + 1, h => by
    have := union (all (n := n) fun i hi => h i (by omega)) (h n (by omega))
    refine weaken this (by rw [Nat.add_mul]; omega) fun e ⟨i, hi, he⟩ => ?_
    rcases Nat.lt_succ_iff_lt_or_eq.mp hi with hi | rfl
    · exact Or.inl ⟨i, hi, he⟩
    · exact Or.inr he

theorem un (o : Op1) {a : Expr} (ha : Avail A [] a) : Cost A 1 (fun e => e = .un o a) :=
  ⟨[.un o a], .un .nil ha, le_rfl, fun e he => Or.inr (Or.inr (by simp [he]))⟩

theorem bin (o : Op2) {a b : Expr} (ha : Avail A [] a) (hb : Avail A [] b) : Cost A 1 (fun e => e = .bin o a b) :=
  ⟨[.bin o a b], .bin .nil ha hb, le_rfl, fun e he => Or.inr (Or.inr (by simp [he]))⟩

theorem mulAdd {a b c : Expr} (ha : Avail A [] a) (hb : Avail A [] b) (hc : Avail A [] c) :
    Cost A 1 (fun e => e = .mulAdd a b c) :=
  ⟨[.mulAdd a b c], .mulAdd .nil ha hb hc, le_rfl, fun e he => Or.inr (Or.inr (by simp [he]))⟩

end Spec.Cost

/-! ### Complex values -/
section cx
variable [Formal] {A B : Expr → Prop} {k : ℕ}

/-- Both parts of a complex value. -/
def Pt (c : Cx Expr) (e : Expr) : Prop := e = c.re ∨ e = c.im

/-- Both parts are at hand. -/
def Hold (A : Expr → Prop) (c : Cx Expr) : Prop := Avail A [] c.re ∧ Avail A [] c.im

omit [Formal] in
theorem Hold.mono {c : Cx Expr} (h : Hold A c) (hA : ∀ e, A e → B e) : Hold B c :=
  ⟨h.1.mono (fun e he => Or.inl (hA e he)) (fun _ h => h), h.2.mono (fun e he => Or.inl (hA e he)) (fun _ h => h)⟩

theorem has_zero : Hold A Cx.zero := ⟨Or.inr (Or.inl ⟨_, rfl⟩), Or.inr (Or.inl ⟨_, rfl⟩)⟩

omit [Formal] in
theorem avail_nil {e : Expr} (h : Avail A [] e) (hA : ∀ e, A e → B e) : Avail B [] e :=
  h.mono (fun e he => Or.inl (hA e he)) (fun _ h => h)

omit [Formal] in
theorem avail_self {e : Expr} (h : A e) : Avail A [] e := Or.inl h

theorem cost_add {a b : Cx Expr} (ha : Hold A a) (hb : Hold A b) : Cost A 2 (Pt (a.add b)) :=
  Cost.union (Cost.bin .add ha.1 hb.1) (Cost.bin .add ha.2 hb.2)

theorem cost_sub {a b : Cx Expr} (ha : Hold A a) (hb : Hold A b) : Cost A 2 (Pt (a.sub b)) :=
  Cost.union (Cost.bin .sub ha.1 hb.1) (Cost.bin .sub ha.2 hb.2)

theorem cost_mulPlain {a b : Cx Expr} (ha : Hold A a) (hb : Hold A b) : Cost A 6 (Pt (a.mulPlain b)) := by
  have h1 := Cost.union (Cost.bin .mul ha.1 hb.1) (Cost.bin .mul ha.2 hb.2)
  have h2 := Cost.union (Cost.bin .mul ha.1 hb.2) (Cost.bin .mul ha.2 hb.1)
  refine (h1.next (Cost.bin .sub ?_ ?_)).union (h2.next (Cost.bin .add ?_ ?_))
  · exact Or.inl (Or.inr (Or.inl rfl))
  · exact Or.inl (Or.inr (Or.inr rfl))
  · exact Or.inl (Or.inr (Or.inl rfl))
  · exact Or.inl (Or.inr (Or.inr rfl))

theorem cost_mulFma {a b : Cx Expr} (ha : Hold A a) (hb : Hold A b) : Cost A 6 (Pt (a.mulFma b)) := by
  have h1 := (Cost.bin .mul ha.2 hb.2).next (Cost.un .neg (a := .bin .mul a.im b.im) (Or.inl (Or.inr rfl)))
  have h2 := h1.next (Cost.mulAdd (a := a.re) (b := b.re) (avail_nil ha.1 fun _ => Or.inl) (avail_nil hb.1 fun _ => Or.inl)
    (Or.inl (Or.inr rfl)))
  have h3 := (Cost.bin .mul ha.2 hb.1).next (Cost.mulAdd (a := a.re) (b := b.im) (c := .bin .mul a.im b.re)
    (avail_nil ha.1 fun _ => Or.inl) (avail_nil hb.2 fun _ => Or.inl) (Or.inl (Or.inr rfl)))
  exact (h2.union h3).le (by omega)

theorem cost_mul {a b : Cx Expr} (ha : Hold A a) (hb : Hold A b) : Cost A 6 (Pt (a.mul b)) := by
  unfold Cx.mul
  split
  · exact cost_mulFma ha hb
  · exact cost_mulPlain ha hb

theorem cost_conj {a : Cx Expr} (ha : Hold A a) : Cost A 1 (Pt a.conj) := by
  obtain ⟨p, h1, h2, h3⟩ := Cost.un .neg ha.2
  refine ⟨p, h1, h2, fun e he => he.elim (fun h => ?_) (h3 e)⟩
  rw [h]
  exact ha.1.mono (fun _ h => Or.inl h) (fun _ h => absurd h (by simp))

/-- A value at hand need not be computed. -/
theorem cost_has {B : Expr → Prop} (h : ∀ e, B e → Avail A [] e) : Cost A 0 B := ⟨[], .nil, le_rfl, h⟩

end cx
end Kofft
