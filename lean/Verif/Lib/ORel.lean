import Verif.Model.NdFft
import Mathlib.Data.List.Forall2
import Mathlib.Tactic.Common
/-
Two runs side by side: `ORel P x y` says that `x` and `y` end the same way and that returned values are related by `P`.
-/
namespace Kofft

universe u v

/-- Same ending, related results. -/
def ORel {α β : Type u} (P : α → β → Prop) : Outcome α → Outcome β → Prop
  | .ok a, .ok b => P a b
  | .panic, .panic => True
  | .hang, .hang => True
  | _, _ => False

section
variable {α β γ δ : Type u} {P : α → β → Prop} {Q : γ → δ → Prop}

theorem ORel.ok {a : α} {b : β} (h : P a b) : ORel P (.ok a) (.ok b) := h
theorem ORel.pure {a : α} {b : β} (h : P a b) : ORel P (Pure.pure a) (Pure.pure b) := h
theorem ORel.panic : ORel P .panic .panic := trivial
theorem ORel.hang : ORel P .hang .hang := trivial

theorem ORel.bind {x : Outcome α} {y : Outcome β} {f : α → Outcome γ} {g : β → Outcome δ} (h : ORel P x y)
    (hf : ∀ a b, P a b → ORel Q (f a) (g b)) : ORel Q (x >>= f) (y >>= g) := by
  cases x <;> cases y <;> first | exact hf _ _ h | exact trivial | exact h.elim

theorem ORel.mono {P' : α → β → Prop} {x : Outcome α} {y : Outcome β} (h : ORel P x y) (hp : ∀ a b, P a b → P' a b) :
    ORel P' x y := by
  cases x <;> cases y <;> first | exact hp _ _ h | exact trivial | exact h.elim

theorem ORel.ite {c : Prop} [Decidable c] {a a' : Outcome α} {b b' : Outcome β} (h1 : c → ORel P a b)
    (h2 : ¬c → ORel P a' b') : ORel P (if c then a else a') (if c then b else b') := by
  split
  · exact h1 ‹_›
  · exact h2 ‹_›

end

theorem ORel.refl {α : Type u} (x : Outcome α) : ORel Eq x x := by cases x <;> first | rfl | trivial

theorem ORel.eq {α : Type u} {x y : Outcome α} (h : ORel Eq x y) : x = y := by
  cases x <;> cases y <;> first | rfl | exact congrArg _ h | exact h.elim

theorem ORel.ok_iff {α β : Type u} {P : α → β → Prop} {x : Outcome α} {y : Outcome β} (h : ORel P x y) {a : α} (hx : x = .ok a) :
    ∃ b, y = .ok b ∧ P a b := by
  subst hx
  cases y with
  | ok b => exact ⟨b, rfl, h⟩
  | panic => exact h.elim
  | hang => exact h.elim

/-! ### Lists -/

section
variable {α β : Type u} {P : α → β → Prop}

theorem forall2_getElem? {x : List α} {y : List β} (h : List.Forall₂ P x y) (i : Nat) :
    (x[i]? = none ∧ y[i]? = none) ∨ ∃ a b, x[i]? = some a ∧ y[i]? = some b ∧ P a b := by
  induction h generalizing i with
  | nil => left; simp
  | cons h1 _ ih =>
    cases i with
    | zero => right; exact ⟨_, _, rfl, rfl, h1⟩
    | succ i => simpa using ih i

theorem ORel.rd {x : List α} {y : List β} (h : List.Forall₂ P x y) (i : Nat) : ORel P (rd x i) (rd y i) := by
  unfold Kofft.rd
  rcases forall2_getElem? h i with ⟨h1, h2⟩ | ⟨a, b, h1, h2, h3⟩
  · rw [h1, h2]; trivial
  · rw [h1, h2]; exact h3

theorem forall2_set {x : List α} {y : List β} (h : List.Forall₂ P x y) (i : Nat) {a : α} {b : β} (hab : P a b) :
    List.Forall₂ P (x.set i a) (y.set i b) := by
  induction h generalizing i with
  | nil => exact .nil
  | cons h1 h2 ih =>
    cases i with
    | zero => exact .cons hab h2
    | succ i => exact .cons h1 (ih i)

theorem ORel.wr {x : List α} {y : List β} (h : List.Forall₂ P x y) (i : Nat) {a : α} {b : β} (hab : P a b) :
    ORel (List.Forall₂ P) (wr x i a) (wr y i b) := by
  unfold Kofft.wr
  rw [h.length_eq]
  split
  · exact forall2_set h i hab
  · trivial

theorem forall2_append {x z : List α} {y w : List β} (h1 : List.Forall₂ P x y)
    (h2 : List.Forall₂ P z w) : List.Forall₂ P (x ++ z) (y ++ w) := by
  induction h1 with
  | nil => exact h2
  | cons h _ ih => exact .cons h ih

theorem forall2_take {x : List α} {y : List β} (h : List.Forall₂ P x y) (n : Nat) :
    List.Forall₂ P (x.take n) (y.take n) := List.forall₂_take n h

theorem forall2_drop {x : List α} {y : List β} (h : List.Forall₂ P x y) (n : Nat) :
    List.Forall₂ P (x.drop n) (y.drop n) := List.forall₂_drop n h

theorem forall2_replicate {a : α} {b : β} (h : P a b) (n : Nat) :
    List.Forall₂ P (List.replicate n a) (List.replicate n b) := by
  induction n with
  | zero => exact .nil
  | succ n ih => exact .cons h ih

theorem forall2_grow {x : List α} {y : List β} (h : List.Forall₂ P x y) {z : α} {w : β} (hz : P z w)
    (n : Nat) : List.Forall₂ P (grow x n z) (grow y n w) := by
  unfold grow
  rw [h.length_eq]
  exact forall2_append h (forall2_replicate hz _)

theorem forall2_copyPrefix {x z : List α} {y w : List β} (h1 : List.Forall₂ P x y)
    (h2 : List.Forall₂ P z w) : List.Forall₂ P (copyPrefix x z) (copyPrefix y w) := by
  induction h1 generalizing z w with
  | nil => simpa [copyPrefix] using h2
  | cons h _ ih =>
    cases h2 with
    | nil => simp [copyPrefix]
    | cons h' t => simpa [copyPrefix] using ⟨h, ih t⟩

theorem ORel.rdN {x : List α} {y : List β} (h : List.Forall₂ P x y) (i w : Nat) :
    ORel (List.Forall₂ P) (rdN x i w) (rdN y i w) := by
  unfold Kofft.rdN
  rw [h.length_eq]
  exact ORel.ite (fun _ => forall2_take (forall2_drop h _) _) fun _ => trivial

theorem ORel.wrN {x v : List α} {y w : List β} (h : List.Forall₂ P x y) (i : Nat) (hv : List.Forall₂ P v w) :
    ORel (List.Forall₂ P) (wrN x i v) (wrN y i w) := by
  unfold Kofft.wrN
  rw [h.length_eq, hv.length_eq]
  exact ORel.ite (fun _ => forall2_append (forall2_append (forall2_take h _) hv) (forall2_drop h _)) fun _ => trivial

end

theorem ORel.copyN {α β : Type} {P : α → β → Prop} {x z : List α} {y w : List β} (h : List.Forall₂ P x y)
    (h2 : List.Forall₂ P z w) (n : Nat) :
    ORel (List.Forall₂ P) (copyN x z n) (copyN y w n) := by
  unfold Kofft.copyN
  rw [h.length_eq, h2.length_eq]
  exact ORel.ite (fun _ => forall2_append (forall2_take h _) (forall2_drop h2 _)) fun _ => trivial

section
variable {α β γ δ ε ζ : Type} {P : α → β → Prop} {Q : γ → δ → Prop} {S : ε → ζ → Prop}

theorem forall2_map {f : α → γ} {g : β → δ} {x : List α} {y : List β}
    (h : List.Forall₂ P x y) (hf : ∀ a b, P a b → Q (f a) (g b)) : List.Forall₂ Q (x.map f) (y.map g) := by
  induction h with
  | nil => exact .nil
  | cons h1 _ ih => exact .cons (hf _ _ h1) ih

theorem forall2_zipWith {f : α → γ → ε} {g : β → δ → ζ} {x : List α} {y : List β} {z : List γ} {w : List δ}
    (h : List.Forall₂ P x y) (h2 : List.Forall₂ Q z w) (hf : ∀ a b c d, P a b → Q c d → S (f a c) (g b d)) :
    List.Forall₂ S (List.zipWith f x z) (List.zipWith g y w) := by
  induction h generalizing z w with
  | nil => exact .nil
  | cons h1 _ ih =>
    cases h2 with
    | nil => exact .nil
    | cons h3 h4 => exact .cons (hf _ _ _ _ h1 h3) (ih h4)

theorem forall2_getD {x : List α} {y : List β} {d : α} {e : β} (h : List.Forall₂ P x y) (hd : P d e)
    (i : Nat) : P (x.getD i d) (y.getD i e) := by
  induction h generalizing i with
  | nil => simpa using hd
  | cons h1 _ ih =>
    cases i with
    | zero => simpa using h1
    | succ i => simpa using ih i

theorem forall2_reverse {x : List α} {y : List β} (h : List.Forall₂ P x y) :
    List.Forall₂ P x.reverse y.reverse := List.rel_reverse h

end

theorem forall2_refl {α : Type u} (x : List α) : List.Forall₂ Eq x x := by
  induction x with
  | nil => exact .nil
  | cons a x ih => exact .cons rfl ih

/-! ### Loops -/

section
variable {σ τ : Type u} {P : σ → τ → Prop}

theorem ORel.loopN {f : Nat → σ → Outcome σ} {g : Nat → τ → Outcome τ}
    (h : ∀ i s t, P s t → ORel P (f i s) (g i t)) : ∀ cnt i s t, P s t → ORel P (loopN cnt i s f) (loopN cnt i t g)
  | 0, _, _, _, hs => hs
  | cnt + 1, i, _, _, hs => ORel.bind (h i _ _ hs) fun _ _ h' => ORel.loopN h cnt (i + 1) _ _ h'

theorem ORel.forRange {f : Nat → σ → Outcome σ} {g : Nat → τ → Outcome τ} {lo hi : Nat} {s : σ} {t : τ} (hs : P s t)
    (h : ∀ i s t, P s t → ORel P (f i s) (g i t)) : ORel P (forRange lo hi s f) (forRange lo hi t g) :=
  ORel.loopN h _ _ _ _ hs

theorem ORel.whileF {c : σ → Bool} {d : τ → Bool} {f : σ → Outcome σ} {g : τ → Outcome τ}
    (hc : ∀ s t, P s t → c s = d t) (h : ∀ s t, P s t → ORel P (f s) (g t)) :
    ∀ fuel s t, P s t → ORel P (whileF fuel c f s) (whileF fuel d g t)
  | 0, _, _, _ => trivial
  | fuel + 1, s, t, hs => by
    unfold Kofft.whileF
    rw [hc s t hs]
    exact ORel.ite (fun _ => ORel.bind (h _ _ hs) fun _ _ h' => ORel.whileF hc h fuel _ _ h') fun _ => hs

end

theorem ORel.loopRes {σ τ : Type} {P : σ → τ → Prop} {f : Nat → σ → Outcome (σ × Res)} {g : Nat → τ → Outcome (τ × Res)}
    (h : ∀ i s t, P s t → ORel (fun a b => P a.1 b.1 ∧ a.2 = b.2) (f i s) (g i t)) :
    ∀ cnt i s t, P s t → ORel (fun a b => P a.1 b.1 ∧ a.2 = b.2) (loopRes cnt i s f) (loopRes cnt i t g)
  | 0, _, _, _, hs => ⟨hs, rfl⟩
  | cnt + 1, i, _, _, hs => by
    refine ORel.bind (h i _ _ hs) ?_
    rintro ⟨a, r⟩ ⟨b, r'⟩ ⟨h1, h2⟩
    simp only at h1 h2
    subst h2
    cases r with
    | error e => exact ⟨h1, rfl⟩
    | ok u => exact ORel.loopRes h cnt (i + 1) _ _ h1

theorem ORel.stepLoop {σ τ : Type} {P : σ → τ → Prop} {f : Nat → σ → Outcome σ} {g : Nat → τ → Outcome τ} (n len : Nat)
    {s : σ} {t : τ} (hs : P s t) (h : ∀ i s t, P s t → ORel P (f i s) (g i t)) :
    ORel P (stepLoop n len s f) (stepLoop n len t g) := by
  unfold Kofft.stepLoop
  refine ORel.bind (P := fun a b : Nat × _ => a.1 = b.1 ∧ P a.2 b.2) ?_ fun a b hab => hab.2
  refine ORel.whileF ?_ ?_ _ _ _ ⟨rfl, hs⟩
  · rintro ⟨i, s⟩ ⟨j, t⟩ ⟨h1, h2⟩
    simp only at h1
    subst h1; rfl
  · rintro ⟨i, s⟩ ⟨j, t⟩ ⟨h1, h2⟩
    simp only at h1 h2 ⊢
    subst h1
    exact ORel.bind (h _ _ _ h2) fun a b hab => ⟨rfl, hab⟩

theorem ORel.debugAssert (debug : Bool) {c d : Bool} (h : c = d) : ORel Eq (debugAssert debug c) (debugAssert debug d) := by
  subst h; exact ORel.refl _

end Kofft
