import Verif.Lib.Loop
/-
A loop that runs into a panicking iteration.
-/
namespace Kofft

/-- If the iterations before `k` succeed keeping `I`, and iteration `k` panics whenever `I` holds,
the loop panics. -/
theorem forRange_panic_at {σ : Type} {f : Nat → σ → Outcome σ} (I : σ → Prop) {hi k : Nat} (hk : k < hi) :
    ∀ (lo : Nat) (s : σ), lo ≤ k → I s →
      (∀ i s, lo ≤ i → i < k → I s → ∃ s', f i s = .ok s' ∧ I s') →
      (∀ s, I s → f k s = .panic) → forRange lo hi s f = .panic := by
  intro lo s hlo hs hstep hp
  induction hd : k - lo generalizing lo s with
  | zero =>
    have : lo = k := by omega
    subst this
    rw [forRange_succ hk, hp s hs]; rfl
  | succ d ih =>
    obtain ⟨s', e, hs'⟩ := hstep lo s (Nat.le_refl _) (by omega) hs
    rw [forRange_succ (by omega), e, Outcome.bind_ok]
    exact ih (lo + 1) s' (by omega) hs' (fun i s h1 h2 => hstep i s (by omega) h2) (by omega)

end Kofft
