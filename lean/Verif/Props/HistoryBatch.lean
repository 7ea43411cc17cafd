import Verif.Props.HistoryBlu
import Verif.Model.Plan
/-
C79, batches: exactly when a batch of buffers on one transformer gives the right transforms of all of them.
-/
namespace Kofft.Props
open Kofft.Spec

private theorem batch_iff [F : Flt ℝ] (cfg : Cfg) (op : FftOp ℝ) (R : List (Cx ℝ) → List (Cx ℝ) → Prop)
    (hstep : ∀ ms p p' x y, Performed cfg ms p → op p x = .ok (p', y, .ok ()) → Performed cfg (x.length :: ms) p')
    (hone : ∀ ms p n, Performed cfg ms p → 0 < n → (cfg.std = true ∨ ∃ k, n = 2 ^ k) →
      ((∀ x : List (Cx ℝ), x.length = n → ∃ p' y, op p x = .ok (p', y, .ok ()) ∧ R x y) ↔ ∀ m ∈ ms, Unspoilt cfg n m))
    (ns : List ℕ) (hok : ∀ n ∈ ns, 0 < n ∧ (cfg.std = true ∨ ∃ k, n = 2 ^ k)) (ms : List ℕ) (p : Planner ℝ)
    (hp : Performed cfg ms p) :
    (∀ xs : List (List (Cx ℝ)), xs.map List.length = ns →
        ∃ p' ys, batch op p xs = .ok (p', ys, .ok ()) ∧ List.Forall₂ R xs ys) ↔
      (∀ n ∈ ns, ∀ m ∈ ms, Unspoilt cfg n m) ∧ ns.Pairwise (fun m n => Unspoilt cfg n m) := by
  induction ns generalizing ms p with
  | nil =>
    refine ⟨fun _ => ⟨by simp, .nil⟩, fun _ xs hx => ?_⟩
    obtain rfl : xs = [] := by simpa using hx
    exact ⟨p, [], rfl, .nil⟩
  | cons n ns ih =>
    have hn := hok n (by simp)
    have hns : ∀ k ∈ ns, 0 < k ∧ (cfg.std = true ∨ ∃ j, k = 2 ^ j) := fun k hk => hok k (by simp [hk])
    constructor
    · intro H
      have split : ∀ x xs, x.length = n → xs.map List.length = ns → ∃ p1 y p' ys, op p x = .ok (p1, y, .ok ()) ∧ R x y ∧
          batch op p1 xs = .ok (p', ys, .ok ()) ∧ List.Forall₂ R xs ys := by
        intro x xs hx hxs
        obtain ⟨p', ys, e, hR⟩ := H (x :: xs) (by simp [hx, hxs])
        cases h1 : op p x with
        | panic => rw [batch, h1] at e; cases e
        | hang => rw [batch, h1] at e; cases e
        | ok v =>
          obtain ⟨p1, y, r⟩ := v
          rw [batch, h1] at e
          cases r with
          | error er =>
            exact absurd (congrArg (fun v => v.2.2) (Outcome.ok.inj e)) (by simp)
          | ok u =>
            cases h2 : batch op p1 xs with
            | panic => simp [h2, bind, Outcome.bind] at e
            | hang => simp [h2, bind, Outcome.bind] at e
            | ok w =>
              obtain ⟨p2, ys', r2⟩ := w
              simp only [h2, bind, Outcome.bind] at e
              have e' := Outcome.ok.inj e
              have a : y :: ys' = ys := congrArg (fun v => v.2.1) e'
              have b : r2 = .ok () := congrArg (fun v => v.2.2) e'
              subst a b
              cases hR with
              | cons ha hb => exact ⟨p1, y, p2, ys', rfl, ha, h2, hb⟩
      have z : (ns.map fun k => List.replicate k (⟨0, 0⟩ : Cx ℝ)).map List.length = ns := by simp [Function.comp_def]
      have hfst := (hone ms p n hp hn.1 hn.2).1 (fun x hx => by
        obtain ⟨p1, y, _, _, a, b, _⟩ := split x _ hx z
        exact ⟨p1, y, a, b⟩)
      obtain ⟨p1, y, _, _, a, _⟩ := split (List.replicate n ⟨0, 0⟩) _ (by simp) z
      have hp1 := hstep ms p p1 _ y hp a
      rw [List.length_replicate] at hp1
      have hrest := (ih hns (n :: ms) p1 hp1).1 (fun xs hxs => by
        obtain ⟨p1', y', p', ys, a', _, c, d⟩ := split (List.replicate n ⟨0, 0⟩) xs (by simp) hxs
        rw [a] at a'
        have : p1 = p1' := congrArg (fun v => v.1) (Outcome.ok.inj a')
        subst this
        exact ⟨p', ys, c, d⟩)
      refine ⟨fun k hk m hm => ?_, List.pairwise_cons.2 ⟨fun k hk => hrest.1 k hk n (by simp), hrest.2⟩⟩
      rcases List.mem_cons.1 hk with rfl | hk
      · exact hfst m hm
      · exact hrest.1 k hk m (by simp [hm])
    · rintro ⟨h1, h2⟩ xs hxs
      rw [List.pairwise_cons] at h2
      cases xs with
      | nil => simp at hxs
      | cons x xs =>
        simp only [List.map_cons, List.cons.injEq] at hxs
        obtain ⟨p1, y, a, b⟩ := (hone ms p n hp hn.1 hn.2).2 (h1 n (by simp)) x hxs.1
        have hp1 := hstep ms p p1 x y hp a
        rw [hxs.1] at hp1
        obtain ⟨p', ys, c, d⟩ := (ih hns (n :: ms) p1 hp1).2 ⟨fun k hk m hm => by
          rcases List.mem_cons.1 hm with rfl | hm
          · exact h2.1 k hk
          · exact h1 k (by simp [hk]) m hm, h2.2⟩ xs hxs.2
        refine ⟨p', y :: ys, ?_, .cons b d⟩
        rw [batch, a]
        simp only [bind, Outcome.bind, c]

/-- C79h. A batch of forward transforms of the lengths `ns` on a transformer that has performed transforms of the lengths `ms`
replaces every buffer by its DFT, whatever the data, exactly if no earlier length and no preceding length of the batch spoils a later
one. -/
theorem batch_history_iff [F : Flt ℝ] (hF : Lawful F) (cfg : Cfg) (ms : List ℕ) (p : Planner ℝ) (hp : Performed cfg ms p)
    (ns : List ℕ) (hok : ∀ n ∈ ns, 0 < n ∧ (cfg.std = true ∨ ∃ k, n = 2 ^ k)) :
    (∀ xs : List (List (Cx ℝ)), xs.map List.length = ns →
        ∃ p' ys, batch (fft cfg) p xs = .ok (p', ys, .ok ()) ∧ List.Forall₂ IsDft xs ys) ↔
      (∀ n ∈ ns, ∀ m ∈ ms, Unspoilt cfg n m) ∧ ns.Pairwise (fun m n => Unspoilt cfg n m) :=
  batch_iff cfg (fft cfg) IsDft (fun _ _ _ _ _ h e => .fft h e)
    (fun ms p n h hn hk => fft_history_iff hF cfg ms p h n hn hk) ns hok ms p hp

/-- C79h. The same for the inverse batch. -/
theorem batch_inverse_history_iff [F : Flt ℝ] (hF : Lawful F) (cfg : Cfg) (ms : List ℕ) (p : Planner ℝ)
    (hp : Performed cfg ms p) (ns : List ℕ) (hok : ∀ n ∈ ns, 0 < n ∧ (cfg.std = true ∨ ∃ k, n = 2 ^ k)) :
    (∀ xs : List (List (Cx ℝ)), xs.map List.length = ns →
        ∃ p' ys, batch (ifft cfg) p xs = .ok (p', ys, .ok ()) ∧ List.Forall₂ IsIdft xs ys) ↔
      (∀ n ∈ ns, ∀ m ∈ ms, Unspoilt cfg n m) ∧ ns.Pairwise (fun m n => Unspoilt cfg n m) :=
  batch_iff cfg (ifft cfg) IsIdft (fun _ _ _ _ _ h e => .ifft h e)
    (fun ms p n h hn hk => ifft_history_iff hF cfg ms p h n hn hk) ns hok ms p hp

/-- A batch of a 32-sample and a 100-sample buffer on a new `f32` transformer is always right; in the other order there are data
for which it is not. -/
example [F : Flt ℝ] (hF : Lawful F) : ∃ cfg : Cfg, cfg.kind = .f32 ∧
    (∀ xs : List (List (Cx ℝ)), xs.map List.length = [32, 100] →
      ∃ p' ys, batch (fft cfg) Planner.new xs = .ok (p', ys, .ok ()) ∧ List.Forall₂ IsDft xs ys) ∧
    ¬ (∀ xs : List (List (Cx ℝ)), xs.map List.length = [100, 32] →
      ∃ p' ys, batch (fft cfg) Planner.new xs = .ok (p', ys, .ok ()) ∧ List.Forall₂ IsDft xs ys) := by
  have h32 : workSize 32 = 32 := by decide
  have h100 : workSize 100 = 256 := by decide
  refine ⟨⟨true, .f32, false, 4, false⟩, rfl, ?_, fun h => ?_⟩
  · refine (batch_history_iff hF _ [] _ .new [32, 100] (by simp)).2 ⟨by simp, ?_⟩
    simp [Unspoilt, h32, h100]
  · have := ((batch_history_iff hF _ [] _ .new [100, 32] (by simp)).1 h).2
    simp [Unspoilt, h32, h100] at this

end Kofft.Props
