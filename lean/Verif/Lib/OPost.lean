import Verif.Model.Base
import Mathlib.Tactic.Common
/-
Post-conditions: `OPost P x` says that if `x` returns, the value returned satisfies `P`.
-/
namespace Kofft

universe u v

/-- If `x` returns a value, it satisfies `P`. -/
def OPost {α : Type u} (P : α → Prop) (x : Outcome α) : Prop := ∀ a, x = .ok a → P a

section
variable {α : Type u} {β : Type u} {P : α → Prop} {Q : β → Prop}

theorem OPost.ok {a : α} (h : P a) : OPost P (.ok a) := fun b e => by cases e; exact h
theorem OPost.pure {a : α} (h : P a) : OPost P (Pure.pure a) := fun b e => by cases e; exact h
theorem OPost.panic : OPost P (.panic : Outcome α) := fun b e => by cases e
theorem OPost.hang : OPost P (.hang : Outcome α) := fun b e => by cases e

theorem OPost.bind {x : Outcome α} {f : α → Outcome β} (h : OPost P x) (hf : ∀ a, P a → OPost Q (f a)) :
    OPost Q (x >>= f) := by
  cases x with
  | ok a => exact hf a (h a rfl)
  | panic => exact OPost.panic
  | hang => exact OPost.hang

theorem OPost.bind' {x : Outcome α} {f : α → Outcome β} (hf : ∀ a, OPost Q (f a)) :
    OPost Q (x >>= f) := OPost.bind (P := fun _ => True) (fun _ _ => trivial) (fun a _ => hf a)

theorem OPost.mono {P' : α → Prop} {x : Outcome α} (h : OPost P x) (hp : ∀ a, P a → P' a) : OPost P' x :=
  fun a e => hp a (h a e)

theorem OPost.ite {c : Prop} [Decidable c] {a b : Outcome α} (h1 : c → OPost P a) (h2 : ¬c → OPost P b) :
    OPost P (if c then a else b) := by
  split
  · exact h1 ‹_›
  · exact h2 ‹_›

end

theorem OPost.loopN {σ : Type u} {I : σ → Prop} {f : Nat → σ → Outcome σ} (hf : ∀ i s, I s → OPost I (f i s)) (cnt : Nat) :
    ∀ i s, I s → OPost I (loopN cnt i s f) := by
  induction cnt with
  | zero => intro i s hs; exact OPost.ok hs
  | succ k ih => intro i s hs; exact OPost.bind (hf i s hs) fun s' hs' => ih _ _ hs'

theorem OPost.forRange {σ : Type u} {I : σ → Prop} {f : Nat → σ → Outcome σ} {lo hi : Nat} {s : σ} (hs : I s)
    (hf : ∀ i s, I s → OPost I (f i s)) : OPost I (forRange lo hi s f) := OPost.loopN hf _ _ _ hs

theorem OPost.whileF {σ : Type u} {I : σ → Prop} {c : σ → Bool} {f : σ → Outcome σ} (hf : ∀ s, I s → c s = true → OPost I (f s))
    (fuel : Nat) : ∀ s, I s → OPost I (whileF fuel c f s) := by
  induction fuel with
  | zero => intro s _; exact OPost.hang
  | succ k ih =>
    intro s hs
    unfold Kofft.whileF
    exact OPost.ite (fun h => OPost.bind (hf s hs h) fun s' hs' => ih _ hs') (fun _ => OPost.ok hs)

theorem OPost.wr {α : Type u} {l : List α} {i : Nat} {v : α} : OPost (fun l' => l'.length = l.length) (wr l i v) := by
  unfold Kofft.wr
  exact OPost.ite (fun _ => OPost.ok (by simp)) (fun _ => OPost.panic)

theorem OPost.wrN {α : Type u} {l vs : List α} {i : Nat} : OPost (fun l' => l'.length = l.length) (wrN l i vs) := by
  unfold Kofft.wrN
  refine OPost.ite (fun h => OPost.ok ?_) (fun _ => OPost.panic)
  simp; omega

end Kofft
