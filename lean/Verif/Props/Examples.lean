import Verif.Model.Examples
import Verif.Proof.Trig
import Verif.Props.Stack
/-
Property C124: the examples that contain computations of their own.
-/
namespace Kofft.Props
open Examples Spec

section dct
variable {T : Type} [Flt T]

theorem accV_zipIdx (x : List T) (g : ℕ → T → T) (init : T) : ∀ n, n ≤ x.length →
    accV x 0 g init n = ((x.take n).zipIdx).foldl (fun s (p : T × ℕ) => s +. g p.2 p.1) init := by
  intro n
  induction n with
  | zero => intro _; simp [accV]
  | succ n ih =>
    intro hn
    have hlt : n < x.length := by omega
    rw [accV, ih (by omega), List.take_succ_eq_append_getElem hlt, List.zipIdx_append, List.foldl_append]
    simp [List.length_take, Nat.min_eq_left hlt.le, hlt]

theorem zip_row (x : List T) (f : ℕ → T) : x.zip ((List.range x.length).map f) = x.zipIdx.map fun p => (p.1, f p.2) := by
  apply List.ext_getElem
  · simp
  · intro i h1 h2
    simp

/-- C124a. The DCT example: with a table built for the length of the input, the planned transform, the naive one and
the library's `dct2` give the same numbers, bit for bit, for every arithmetic and input. -/
theorem dct_example_agrees (x : List T) :
    dct2Planned (dct2Table x.length) x = dct2Naive x ∧ dct2 x = .ok (dct2Naive x) := by
  constructor
  · unfold dct2Planned dct2Naive
    apply List.map_congr_left
    intro k hk
    rw [List.mem_range] at hk
    have e : (dct2Table x.length : List (List T))[k]? = some ((List.range x.length).map fun i =>
        Flt.cos (((Flt.pi /. Flt.ofNat x.length) *. (Flt.ofNat i +. half)) *. Flt.ofNat k)) := by
      unfold dct2Table
      simp [hk]
    rw [e]
    simp only []
    rw [zip_row, List.foldl_map]
  · unfold dct2 dct2Naive
    rw [fillOut_ok _ _ (fun k => (x.zipIdx).foldl (fun s (p : T × ℕ) => s +. (p.1 *. Flt.cos
      (((Flt.pi /. Flt.ofNat x.length) *. (Flt.ofNat p.2 +. half)) *. Flt.ofNat k))) Flt.zero)]
    · simp [tab]
    · intro k _
      unfold dct2At
      simp only []
      rw [accum_ok _ _ _ _ _ le_rfl, Nat.sub_zero, accV_zipIdx x _ _ _ le_rfl, List.take_length]

/-- C124b. A table built for another length `n` is not noticed: shorter ones leave the outputs from `n` on at zero. -/
theorem dct_example_short_table (n : ℕ) (x : List T) (hn : n < x.length) :
    (dct2Planned (dct2Table n) x).length = x.length ∧
    ∀ k, n ≤ k → k < x.length → (dct2Planned (dct2Table n) x)[k]? = some Flt.zero := by
  refine ⟨by simp [dct2Planned], ?_⟩
  intro k h1 h2
  have e : (dct2Table n : List (List T))[k]? = none := by
    unfold dct2Table
    simp [h1]
  unfold dct2Planned
  rw [List.getElem?_map, List.getElem?_range h2]
  simp [e]

end dct

section pipeline
open Finset
variable [F : Flt ℝ]

omit F in
/-- A second forward transform instead of an inverse one: `n` times the inverse, in reversed order. -/
theorem dft_eq_idft {n : ℕ} (hn : n ≠ 0) (X : ℕ → ℂ) (s : ℕ) (hs : s < n) :
    dft n X s = n * idft n X ((n - s) % n) := by
  have hnC : (n : ℂ) ≠ 0 := by exact_mod_cast hn
  rw [idft_eq, mul_div_cancel₀ _ hnC]
  unfold dft
  apply sum_congr rfl
  intro k _
  congr 1
  rw [W_mul_mod hn]
  symm
  apply inv_eq_of_mul_eq_one_left
  rw [mul_comm s k, ← W_add, ← mul_add, Nat.add_sub_cancel' hs.le, W_mul_self hn]

/-- The signal after the window, and the spectrum the example wants to transform back. -/
noncomputable def windowed (window : List ℝ) (x : List (Cx ℝ)) (s : ℕ) : ℂ :=
  ⟨(sig x s).re * window.getD s 1, (sig x s).im⟩

noncomputable def lowPassed (n : ℕ) (window : List ℝ) (x : List (Cx ℝ)) (k : ℕ) : ℂ :=
  (if k < 4 then 1 else 1 / 10) * dft n (windowed window x) k

/-- C124c. What the pipeline of the embedded example returns, for every window and signal of a power of two: not the
filtered signal but `n` times it, reversed in time. -/
theorem embedded_pipeline_partial (hF : Lawful F) (window : List ℝ) (x : List (Cx ℝ)) (hx : ∃ k, x.length = 2 ^ k) :
    ∃ out, pipeline window x = .ok out ∧ out.length = x.length ∧ ∀ s, s < x.length →
      sig out s = x.length * idft x.length (lowPassed x.length window x) ((x.length - s) % x.length) := by
  have hn : x.length ≠ 0 := by
    obtain ⟨k, hk⟩ := hx
    rw [hk]; positivity
  set xw : List (Cx ℝ) := applyWindow window x with hxw
  have lw : xw.length = x.length := by simp [hxw, applyWindow]
  have sw : ∀ s, s < x.length → sig xw s = windowed window x s := by
    intro s hs
    rw [sig_get _ _ (by omega)]
    unfold windowed
    rw [sig_get _ _ hs]
    simp only [hxw, applyWindow, List.getElem_map, List.getElem_zipIdx, Nat.zero_add]
    cases h : window[s]? with
    | none => apply Complex.ext <;> simp [List.getD_eq_getElem?_getD, h, toC]
    | some w => apply Complex.ext <;> simp [List.getD_eq_getElem?_getD, h, toC, hF.mul]
  obtain ⟨y, e1, l1, h1⟩ := fft_stack_is_dft hF xw (by rw [lw]; exact hx)
  have la : (attenuate y).length = x.length := by
    unfold attenuate
    simp only [List.length_append, List.length_take, List.length_map, List.length_drop]
    omega
  have sa : ∀ k, k < x.length → sig (attenuate y) k = lowPassed x.length window x k := by
    intro k hk
    have hy : sig y k = dft x.length (windowed window x) k := by
      rw [h1 k (by omega), lw]
      unfold dft
      exact sum_congr rfl fun i hi => by rw [sw i (mem_range.mp hi)]
    unfold lowPassed
    rw [← hy, sig_get _ _ (by omega), sig_get y _ (by omega)]
    unfold attenuate
    by_cases h4 : k < 4
    · rw [List.getElem_append_left (by simp; omega), if_pos h4, one_mul, List.getElem_take]
    · rw [List.getElem_append_right (by simp; omega), if_neg h4]
      have : y.take 4 = y.take 4 := rfl
      have l4 : (y.take 4).length = 4 := by simp; omega
      simp only [List.getElem_map, List.getElem_drop, l4]
      have e : 4 + (k - 4) = k := by omega
      simp only [e]
      apply Complex.ext
      · simp [toC, hF.mul, hF.lit]; ring
      · simp [toC, hF.mul, hF.lit]; ring
  obtain ⟨z, e2, l2, h2⟩ := fft_stack_is_dft hF (attenuate y) (by rw [la]; exact hx)
  refine ⟨z, ?_, by omega, ?_⟩
  · unfold pipeline
    rw [e1, Outcome.bind_ok]
    simp only []
    rw [e2, Outcome.bind_ok]
  · intro s hs
    rw [h2 s (by omega), la, dft_eq_idft hn _ s hs]
    congr 1
    unfold idft
    congr 1
    exact sum_congr rfl fun k hk => by rw [sa k (mem_range.mp hk)]

/-- C124d. Hence the claim of line 124 ("Compute IFFT") fails: the first sample is right only if the filtered signal
starts with zero. -/
theorem embedded_pipeline_inverse_iff (hF : Lawful F) (window : List ℝ) (x : List (Cx ℝ)) (k : ℕ) (hk : 0 < k)
    (hx : x.length = 2 ^ k) : ∃ out, pipeline window x = .ok out ∧
      (sig out 0 = idft x.length (lowPassed x.length window x) 0 ↔
        idft x.length (lowPassed x.length window x) 0 = 0) := by
  obtain ⟨out, e, _, h⟩ := embedded_pipeline_partial hF window x ⟨k, hx⟩
  have h2 : 2 ≤ x.length := by
    rw [hx]
    calc 2 = 2 ^ 1 := rfl
      _ ≤ 2 ^ k := Nat.pow_le_pow_right (by norm_num) hk
  refine ⟨out, e, ?_⟩
  rw [h 0 (by omega), Nat.sub_zero, Nat.mod_self]
  generalize idft x.length (lowPassed x.length window x) 0 = a
  constructor
  · intro h
    have h3 : ((x.length : ℂ) - 1) * a = 0 := by rw [sub_mul, one_mul, h, sub_self]
    rcases mul_eq_zero.mp h3 with h4 | h4
    · exfalso
      have : (x.length : ℂ) = ((1 : ℕ) : ℂ) := by push_cast; exact sub_eq_zero.mp h4
      have := Nat.cast_injective this
      omega
    · exact h4
  · rintro rfl; simp

/-- The hypotheses are met by the signal of the example, and the filtered signal need not start with zero: for one
sample the pipeline returns that sample. -/
example (hF : Lawful F) : ∃ out, pipeline [] [(⟨3, 0⟩ : Cx ℝ)] = .ok out ∧ sig out 0 = 3 := by
  obtain ⟨out, e, _, h⟩ := embedded_pipeline_partial hF [] [(⟨3, 0⟩ : Cx ℝ)] ⟨0, rfl⟩
  refine ⟨out, e, ?_⟩
  rw [h 0 (by simp)]
  simp [idft, lowPassed, dft, windowed, sig, W]
  apply Complex.ext <;> simp

end pipeline
end Kofft.Props
