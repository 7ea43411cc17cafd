import Verif.Proof.DctPlan
/-
Property C40: the planned DCT-II.
-/
namespace Kofft.Props
open Spec Finset

/-- A transform has one result. -/
theorem computes_unique {f : ℕ → (ℕ → ℝ) → ℕ → ℝ} {x y z : List ℝ} (h1 : Computes f x y) (h2 : Computes f x z) :
    y = z := by
  refine List.ext_getElem (h1.1.trans h2.1.symm) fun i hi hi' => ?_
  have := (h1.2 i (h1.1 ▸ hi)).trans (h2.2 i (h1.1 ▸ hi)).symm
  rwa [List.getD_eq_getElem _ _ hi, List.getD_eq_getElem _ _ hi'] at this

/-- C40: the closure `plan_dct2(n)` of a planner with any history, called any number of times (so in any
state the planner reaches afterwards), writes the DCT-II of its input, exact arithmetic. -/
theorem plan_dct2_exact [F : Flt ℝ] (hF : Lawful F) (cfg : Cfg) (simd : Bool) (st st2 : DctPlanner ℝ)
    (h1 : DctReach cfg simd st) (h2 : DctReach cfg simd st2) (input output : List ℝ)
    (hn : 0 < input.length) (ho : output.length = input.length)
    (hstd : cfg.std = true ∨ ∃ k, input.length = 2 ^ k) :
    ∃ st' y, st2.dct2WithTable cfg simd input output (st.getCos input.length).2 = .ok (st', y, .ok ()) ∧
      Computes dctII input y ∧ dct2 input = .ok y := by
  obtain ⟨rp', p', spec, r, -, e, hs, e2⟩ :=
    dct2WithTable_eq cfg simd (fun _ => Cx.zero) (dctReach_inv h2) input output (st.getCos input.length).2 ho
  obtain ⟨p'', y, e', hy⟩ := rfft_is_half_dft hF cfg simd (fun _ => Cx.zero) (mirror input) input.length hn
    (mirror_length input) hstd Planner.new .new
    ((grow st2.spectrum (input.length + 1) Cx.zero).take (input.length + 1))
    (by rw [List.length_take, grow_length]; omega)
  rw [e] at e'
  cases e'
  rw [(getCos_spec (dctReach_inv h1) _).1] at e2 ⊢
  rw [e2, dctFinish_ok _ _ _ _ _ ho hs (by unfold cosTable; simp)]
  have hc : Computes dctII input (tab input.length fun k =>
      half *. (((spec.getD k Cx.zero).re *. (cosTable input.length).getD k Flt.zero) +.
        ((spec.getD k Cx.zero).im *. Flt.sin ((Flt.pi *. Flt.ofNat k) /. (two *. Flt.ofNat input.length))))) := by
    refine ⟨tab_length _ _, fun k hk => ?_⟩
    rw [tab_getD hk, ← mirror_dct2 hF.zero input k hn, ← hy.2 k (by rw [mirror_length]; omega), sig_eq hF]
    have e3 : (cosTable input.length : List ℝ).getD k Flt.zero =
        Real.cos (Real.pi * k / (2 * input.length)) := by
      unfold cosTable
      rw [List.getD_eq_getElem _ _ (by simpa using hk)]
      simp [hF.cos, hF.div, hF.mul, hF.pi, hF.ofNat, two_real hF]
    rw [e3]
    simp [hF.sin, hF.div, hF.mul, hF.pi, hF.ofNat, two_real hF, half_real hF, hF.add, toC]
  refine ⟨_, _, rfl, hc, ?_⟩
  obtain ⟨y, ey, hy'⟩ := dct2_spec hF input
  rw [ey, computes_unique hy' hc]

/-- C40: outcome of the closure for every input and output length, any arithmetic, any history: never a
panic when the input is no longer than planned; and an error leaves the output as it was. -/
theorem plan_dct2_errors {T : Type} [Flt T] (cfg : Cfg) (simd : Bool) (st st2 : DctPlanner T)
    (h1 : DctReach cfg simd st) (h2 : DctReach cfg simd st2) (n : ℕ) (input output : List T)
    (hn : input.length ≤ n) :
    ∃ st' y r, st2.dct2WithTable cfg simd input output (st.getCos n).2 = .ok (st', y, r) ∧
      y.length = output.length ∧
      (r = .error .MismatchedLengths ↔ output.length ≠ input.length) ∧
      (r = .error .EmptyInput ↔ output.length = input.length ∧ input.length = 0) ∧
      (r = .error .NonPowerOfTwoNoStd ↔ output.length = input.length ∧ input.length ≠ 0 ∧ cfg.std = false ∧
        ¬ ∃ k, input.length = 2 ^ k) ∧
      (r = .ok () ∨ r = .error .MismatchedLengths ∨ r = .error .EmptyInput ∨ r = .error .NonPowerOfTwoNoStd) ∧
      (∀ e, r = .error e → y = output) := by
  by_cases ho : output.length = input.length
  · obtain ⟨rp', p', spec, r, -, e, hs, e2⟩ :=
      dct2WithTable_eq cfg simd (fun _ => Cx.zero) (dctReach_inv h2) input output (st.getCos n).2 ho
    obtain ⟨p1, y1, r1, e', -, c1, c2, c3, c4, -, c5⟩ := rfft_total cfg simd (fun _ => Cx.zero) (mirror input)
      (Planner.new : Planner T) .new ((grow st2.spectrum (input.length + 1) Cx.zero).take (input.length + 1))
    rw [e] at e'
    cases e'
    have hol : ((grow st2.spectrum (input.length + 1) Cx.zero).take (input.length + 1)).length =
        input.length + 1 := by rw [List.length_take, grow_length]; omega
    rw [mirror_length, show 2 * input.length / 2 = input.length by omega] at c3 c4
    rw [mirror_length] at c1 c2
    rw [hol] at c3 c4
    rw [(getCos_spec (dctReach_inv h1) _).1] at e2 ⊢
    have c3' : r ≠ .error .MismatchedLengths := fun h => by have := c3.1 h; omega
    have c1' : r = .error .EmptyInput ↔ output.length = input.length ∧ input.length = 0 := by
      rw [c1]; constructor <;> intro h <;> omega
    have c4' : r = .error .NonPowerOfTwoNoStd ↔ output.length = input.length ∧ input.length ≠ 0 ∧
        cfg.std = false ∧ ¬ ∃ k, input.length = 2 ^ k := by
      rw [c4]
      exact ⟨fun ⟨a, _, _, b, c⟩ => ⟨ho, by omega, b, c⟩, fun ⟨_, a, b, c⟩ => ⟨by omega, by omega, rfl, b, c⟩⟩
    have hc5 : r = .ok () ∨ r = .error .MismatchedLengths ∨ r = .error .EmptyInput ∨
        r = .error .NonPowerOfTwoNoStd := by
      rcases c5 with h | h | h | h | h
      · exact .inl h
      · exact .inr (.inr (.inl h))
      · have := c2.1 h; omega
      · exact .inr (.inl h)
      · exact .inr (.inr (.inr h))
    rw [e2]
    cases r with
    | error er =>
      exact ⟨_, _, _, rfl, rfl, ⟨fun h => absurd h c3', fun h => absurd ho h⟩, c1', c4', hc5, fun _ _ => rfl⟩
    | ok u =>
      rw [dctFinish_ok _ _ _ _ _ ho hs (by unfold cosTable; simpa using hn)]
      exact ⟨_, _, _, rfl, by rw [tab_length, ho], ⟨fun h => absurd h c3', fun h => absurd ho h⟩, c1', c4', .inl rfl,
        fun _ h => by cases h⟩
  · refine ⟨st2, output, .error .MismatchedLengths, ?_, rfl, ⟨fun _ => ho, fun _ => rfl⟩,
      ⟨fun h => (by cases h), fun h => absurd h.1 ho⟩, ⟨fun h => (by cases h), fun h => absurd h.1 ho⟩,
      .inr (.inl rfl), fun _ _ => rfl⟩
    unfold DctPlanner.dct2WithTable
    simp only []
    rw [if_pos ho]

/-- C40, a limit of the code: the closure does not compare the input with the planned length, and an
input longer than planned panics. -/
theorem plan_dct2_longer_panics {T : Type} [Flt T] (cfg : Cfg) (simd : Bool) (st st2 : DctPlanner T)
    (h1 : DctReach cfg simd st) (h2 : DctReach cfg simd st2) (n : ℕ) (input output : List T)
    (hn : n < input.length) (ho : output.length = input.length)
    (hstd : cfg.std = true ∨ ∃ k, input.length = 2 ^ k) :
    st2.dct2WithTable cfg simd input output (st.getCos n).2 = .panic := by
  obtain ⟨rp', p', spec, r, -, e, hs, e2⟩ :=
    dct2WithTable_eq cfg simd (fun _ => Cx.zero) (dctReach_inv h2) input output (st.getCos n).2 ho
  obtain ⟨p1, y1, r1, e', -, c1, c2, c3, c4, -, c5⟩ := rfft_total cfg simd (fun _ => Cx.zero) (mirror input)
    (Planner.new : Planner T) .new ((grow st2.spectrum (input.length + 1) Cx.zero).take (input.length + 1))
  rw [e] at e'
  cases e'
  have hol : ((grow st2.spectrum (input.length + 1) Cx.zero).take (input.length + 1)).length =
      input.length + 1 := by rw [List.length_take, grow_length]; omega
  rw [mirror_length] at c1 c2 c3 c4
  rw [hol] at c3 c4
  rw [(getCos_spec (dctReach_inv h1) _).1] at e2 ⊢
  rw [e2]
  cases r with
  | ok u => exact dctFinish_short _ _ _ _ _ ho hs (by unfold cosTable; simpa using hn)
  | error er =>
    exfalso
    rcases c5 with h | h | h | h | h
    · cases h
    · have := c1.1 h; omega
    · have := c2.1 h; omega
    · have := c3.1 h; omega
    · have := c4.1 h
      rw [show 2 * input.length / 2 = input.length by omega] at this
      rcases hstd with hh | hh
      · rw [hh] at this; cases this.2.2.2.1
      · exact this.2.2.2.2 hh

/-- Non-vacuity: a planner that planned length 3 and ran it, then plans length 5 and runs that. -/
example [F : Flt ℝ] (hF : Lawful F) (cfg : Cfg) (hc : cfg.std = true) (simd : Bool) :
    ∃ st0 st1 st2 : DctPlanner ℝ, ∃ v y, DctPlanner.new = .ok st0 ∧
      (st0.getCos 3).1.dct2WithTable cfg simd [1, 2, 3] [0, 0, 0] (st0.getCos 3).2 = .ok (st1, v) ∧
      (st1.getCos 5).1.dct2WithTable cfg simd [1, 4, 1, 5, 9] [0, 0, 0, 0, 0] (st1.getCos 5).2 =
        .ok (st2, y, .ok ()) ∧ dct2 [1, 4, 1, 5, 9] = .ok y := by
  obtain ⟨rp, e, -⟩ := rnew_ok (T := ℝ)
  have e0 : DctPlanner.new = .ok (⟨fun _ => none, rp, [], []⟩ : DctPlanner ℝ) := by
    unfold DctPlanner.new; rw [e]; rfl
  have r0 : DctReach cfg simd _ := .new e0
  obtain ⟨st1, v, h1, -⟩ := plan_dct2_exact hF cfg simd _ _ r0 (r0.plan 3) [1, 2, 3] [0, 0, 0] (by simp) rfl (.inl hc)
  have r1 := (r0.plan 3).call h1
  obtain ⟨st2, y, h2, -, h3⟩ := plan_dct2_exact hF cfg simd _ _ r1 (r1.plan 5) [1, 4, 1, 5, 9] [0, 0, 0, 0, 0]
    (by simp) rfl (.inl hc)
  exact ⟨_, st1, st2, _, y, e0, h1, h2, h3⟩

end Kofft.Props
