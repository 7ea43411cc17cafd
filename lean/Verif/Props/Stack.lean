import Verif.Proof.Stack
import Verif.Props.Core
/-
Property C20: the stack-only transforms.
-/
namespace Kofft.Props
open Spec

/-- C20: `fft_inplace_stack` on `N = 2^k` elements computes the DFT. -/
theorem fft_stack_is_dft [F : Flt ℝ] (hF : Lawful F) (x : List (Cx ℝ)) (hx : ∃ k, x.length = 2 ^ k) :
    ∃ y, fftStack x = .ok (y, .ok ()) ∧ IsDft x y := by
  obtain ⟨k, hk⟩ := hx
  rcases Nat.eq_zero_or_pos k with rfl | hpos
  · have h1 : x.length = 1 := by simpa using hk
    refine ⟨x, by unfold fftStack; simp [h1], rfl, ?_⟩
    intro t ht
    have : t = 0 := by omega
    subst this
    rw [h1, dft_one]
  · exact fftStack_isDft hF k hpos x hk

/-- C20: `ifft_inplace_stack` on `N = 2^k` elements computes the inverse DFT. -/
theorem ifft_stack_is_idft [F : Flt ℝ] (hF : Lawful F) (x : List (Cx ℝ)) (hx : ∃ k, x.length = 2 ^ k) :
    ∃ y, ifftStack x = .ok (y, .ok ()) ∧ IsIdft x y := by
  obtain ⟨k, hk⟩ := hx
  rcases Nat.eq_zero_or_pos k with rfl | hpos
  · have h1 : x.length = 1 := by simpa using hk
    refine ⟨x, by unfold ifftStack; simp [h1], rfl, ?_⟩
    intro t ht
    have : t = 0 := by omega
    subst this
    rw [h1, idft_one]
  · obtain ⟨y, e, hy⟩ := fftStack_isDft hF k hpos (x.map Cx.conj) (by simpa using hk)
    have h2 : 2 ≤ 2 ^ k := by
      calc 2 = 2 ^ 1 := by norm_num
        _ ≤ 2 ^ k := Nat.pow_le_pow_right (by norm_num) hpos
    have hp : isPow2 x.length = true := isPow2_iff.mpr ⟨k, hk⟩
    refine ⟨_, ?_, conjTrick_isIdft hF x y hy⟩
    unfold ifftStack
    simp only [show ¬ x.length = 0 by omega, show ¬ x.length = 1 by omega, if_false, hp,
      Bool.not_true, Bool.false_eq_true, e, Outcome.bind_ok]

/-- C20: both stack transforms always return, keep the length, report exactly the documented errors,
and leave the buffer alone when they report one. Any arithmetic. -/
theorem stack_errors {T : Type} [Flt T] (x : List (Cx T)) (g : List (Cx T) → Outcome (List (Cx T) × Res))
    (hg : g = fftStack ∨ g = ifftStack) :
    ∃ y r, g x = .ok (y, r) ∧ y.length = x.length ∧
      (r = .error .EmptyInput ↔ x.length = 0) ∧
      (r = .error .NonPowerOfTwoNoStd ↔ x.length ≠ 0 ∧ ¬ ∃ k, x.length = 2 ^ k) ∧
      (r = .ok () ↔ ∃ k, x.length = 2 ^ k) ∧
      (r ≠ .ok () → y = x) := by
  by_cases h0 : x.length = 0
  · refine ⟨x, .error .EmptyInput, ?_, rfl, by simp [h0], by simp [h0], ?_, fun _ => rfl⟩
    · rcases hg with rfl | rfl
      · unfold fftStack; simp [h0]
      · unfold ifftStack; simp [h0]
    · simp only [reduceCtorEq, false_iff, h0]
      rintro ⟨k, hk⟩
      have := Nat.pow_pos (n := k) (show 0 < 2 by norm_num)
      omega
  by_cases hk : ∃ k, x.length = 2 ^ k
  · have main : ∃ y, g x = .ok (y, .ok ()) ∧ y.length = x.length := by
      obtain ⟨k, hk⟩ := hk
      by_cases h1 : x.length = 1
      · refine ⟨x, ?_, rfl⟩
        rcases hg with rfl | rfl
        · unfold fftStack; simp [h1]
        · unfold ifftStack; simp [h1]
      have hpos : 0 < k := by
        rcases Nat.eq_zero_or_pos k with rfl | h
        · simp at hk; omega
        · exact h
      have key : ∀ z : List (Cx T), z.length = x.length →
          ∃ y, fftStack z = .ok (y, .ok ()) ∧ y.length = x.length := by
        intro z hz
        have hzt : z = tab (2 ^ k) (fun i => z.getD i Cx.zero) := by
          have := eq_tab_getD z Cx.zero
          rwa [hz, hk] at this
        have e := fftStack_tab k hpos (fun i => z.getD i Cx.zero)
        rw [← hzt] at e
        exact ⟨_, e, by simp [hk]⟩
      rcases hg with rfl | rfl
      · exact key x rfl
      · obtain ⟨y, e, hy⟩ := key (x.map Cx.conj) (by simp)
        have hp : isPow2 x.length = true := isPow2_iff.mpr ⟨k, hk⟩
        refine ⟨y.map (ifftPost (Flt.one /. Flt.ofNat x.length)), ?_, by simpa using hy⟩
        unfold ifftStack
        simp only [h0, h1, if_false, hp,
          Bool.not_true, Bool.false_eq_true, e, Outcome.bind_ok]
    obtain ⟨y, e, hy⟩ := main
    exact ⟨y, .ok (), e, hy, by simp [h0], by simp [hk], by simp [hk], by simp⟩
  · have hp : isPow2 x.length = false := by
      rw [← Bool.not_eq_true, isPow2_iff]; exact hk
    have h1 : x.length ≠ 1 := fun h => hk ⟨0, by simpa using h⟩
    refine ⟨x, .error .NonPowerOfTwoNoStd, ?_, rfl, by simp [h0], by simp [h0, hk], by simp [hk], fun _ => rfl⟩
    rcases hg with rfl | rfl
    · unfold fftStack; simp [h0, h1, hp]
    · unfold ifftStack; simp [h0, h1, hp]

/-- C20: `ifft_inplace_stack` undoes `fft_inplace_stack`. -/
theorem stack_round_trip [F : Flt ℝ] (hF : Lawful F) (x : List (Cx ℝ)) (hx : ∃ k, x.length = 2 ^ k) :
    ∃ y, fftStack x = .ok (y, .ok ()) ∧ ifftStack y = .ok (x, .ok ()) := by
  obtain ⟨y, e, hy⟩ := fft_stack_is_dft hF x hx
  obtain ⟨z, e', hz⟩ := ifft_stack_is_idft hF y (by rw [hy.1]; exact hx)
  exact ⟨y, e, by rw [e', isIdft_unique hz (idft_of_dft hy)]⟩

/-- Non-vacuity: four samples, and a length that is rejected. -/
example : ∃ k, ([⟨1, 0⟩, ⟨2, 0⟩, ⟨3, -1⟩, ⟨4, 0⟩] : List (Cx ℝ)).length = 2 ^ k := ⟨2, rfl⟩

example {T : Type} [Flt T] (a : Cx T) : fftStack [a, a, a] = .ok ([a, a, a], .error .NonPowerOfTwoNoStd) := by
  have : isPow2 3 = false := by decide
  simp [fftStack, this]

end Kofft.Props
