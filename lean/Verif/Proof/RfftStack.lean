import Verif.Proof.RfftExact
import Verif.Props.Stack
/-
The stack-only real transforms.
-/
namespace Kofft
open Spec Complex

theorem copyPrefix_all {α : Type} : ∀ (a b : List α), a.length = b.length → copyPrefix a b = a
  | [], [], _ => rfl
  | x :: a, y :: b, h => by rw [copyPrefix, copyPrefix_all a b (by simpa using h)]

section
variable {T : Type} [Flt T]

/-- `a` on error, `b` on success. -/
def resCase {A : Type} (r : Res) (a b : A) : A :=
  match r with
  | .error _ => a
  | .ok _ => b

theorem rfftStack_eq (x : List T) (out : List (Cx T)) (h0 : x.length ≠ 0) (ho : out.length = x.length / 2 + 1)
    {y r} (e : fftStack (x.map fun v => (⟨v, Flt.zero⟩ : Cx T)) = .ok (y, r)) (hy : y.length = x.length) :
    rfftStack x out = .ok (resCase r out (y.take (x.length / 2 + 1)), r) := by
  unfold rfftStack
  simp only [h0, if_false, ho, ne_eq, not_true]
  rw [copyPrefix_all _ _ (by simp), e, Outcome.bind_ok]
  cases r with
  | error => rfl
  | ok => simp only; rw [if_pos (by omega), List.drop_eq_nil_of_le (by omega), List.append_nil]; rfl

/-- The full conjugate-symmetric buffer `irfft_stack` builds. -/
def hermBuf (N : Nat) (X : List (Cx T)) : List (Cx T) :=
  tab N fun k => if N / 2 < k then (X.getD (N - k) Cx.zero).conj else X.getD k Cx.zero

theorem irfftStack_eq (X : List (Cx T)) (out : List T) (h0 : out.length ≠ 0) (hX : X.length = out.length / 2 + 1)
    (he : out.length = 1 ∨ out.length % 2 = 0)
    {y r} (e : ifftStack (hermBuf out.length X) = .ok (y, r)) (hy : y.length = out.length) :
    irfftStack X out = .ok (resCase r out (y.map Cx.re), r) := by
  obtain ⟨N, hN⟩ : ∃ N, out.length = N := ⟨_, rfl⟩
  rw [hN] at h0 hX he e hy
  unfold irfftStack
  simp only [hN, h0, if_false, hX, ne_eq, not_true]
  have e1 : wrN (List.replicate N (⟨Flt.zero, Flt.zero⟩ : Cx T)) 0 (X.take (N / 2 + 1)) =
      .ok (tab N fun k => if k < N / 2 + 1 then X.getD k Cx.zero else ⟨Flt.zero, Flt.zero⟩) := by
    rw [List.take_of_length_le (by omega), replicate_eq_tab]
    conv_lhs => rw [eq_tab_getD X Cx.zero, hX]
    rw [wrN_tab (by omega)]
    congr 1
    apply tab_congr
    intro k _
    simp
  rw [e1, Outcome.bind_ok]
  have e2 : (forRange 1 (N / 2)
      (tab N fun k => if k < N / 2 + 1 then X.getD k Cx.zero else (⟨Flt.zero, Flt.zero⟩ : Cx T))
      fun k b => do
        let c ← rd X k
        wr b (N - k) ⟨c.re, -. c.im⟩) = .ok (hermBuf N X) := by
    by_cases h2 : N / 2 ≤ 1
    · rw [forRange_empty h2]
      congr 1
      unfold hermBuf
      apply tab_congr
      intro k hk
      rw [if_pos (by omega), if_neg (by omega)]
    · rw [forRange_eq (s := tab N fun k => if k < N / 2 + 1 then X.getD k Cx.zero else (⟨Flt.zero, Flt.zero⟩ : Cx T))
        (fun i => tab N fun k => if N - i < k ∧ k ≠ N then (X.getD (N - k) Cx.zero).conj
          else if k < N / 2 + 1 then X.getD k Cx.zero else (⟨Flt.zero, Flt.zero⟩ : Cx T)) (by omega)]
      · congr 1
        unfold hermBuf
        apply tab_congr
        intro k hk
        by_cases h3 : N / 2 < k
        · rw [if_pos (by omega), if_pos h3]
        · rw [if_neg (by omega), if_neg h3, if_pos (by omega)]
      · apply tab_congr
        intro k hk
        rw [if_neg (show ¬ (N - 1 < k ∧ k ≠ N) by omega)]
      · intro i h3 h4
        rw [rd_getD Cx.zero (by omega), Outcome.bind_ok, wr_tab (by omega)]
        congr 1
        apply tab_congr
        intro k hk
        by_cases h5 : k = N - i
        · rw [if_pos h5, if_pos (by omega), show N - k = i by omega]; rfl
        · rw [if_neg h5]
          by_cases h6 : N - i < k ∧ k ≠ N
          · rw [if_pos h6, if_pos (show N - (i + 1) < k ∧ k ≠ N by omega)]
          · rw [if_neg h6, if_neg (show ¬ (N - (i + 1) < k ∧ k ≠ N) by omega)]
  rw [e2, Outcome.bind_ok, e, Outcome.bind_ok]
  cases r with
  | error => rfl
  | ok => simp only; rw [copyPrefix_all _ _ (by simp; omega)]; rfl

end

variable [F : Flt ℝ]

theorem sig_hermBuf (h : Lawful F) (N : ℕ) (X : List (Cx ℝ)) {k : ℕ} (hk : k < N) :
    sig (hermBuf N X) k = if N / 2 < k then (starRingEnd ℂ) (sig X (N - k)) else sig X k := by
  rw [sig_get _ _ (by simpa [hermBuf] using hk)]
  simp only [hermBuf, tab_getElem]
  split
  · rw [toC_conj h, sig_eq h]
  · rw [sig_eq h]

omit F in
/-- The real part of the inverse DFT of the mirrored spectrum is the inverse DFT of the conjugate-symmetric one: the
imaginary parts of bins 0 and N/2 contribute only to the imaginary part. -/
theorem idft_mirror_re {N : ℕ} (hN : N = 1 ∨ N % 2 = 0) (h0 : 0 < N) (X : ℕ → ℂ) (t : ℕ) :
    ((idft N (fun k => if N / 2 < k then (starRingEnd ℂ) (X (N - k)) else X k) t).re : ℂ) = idft N (hermitian N X) t := by
  have hr := idft_hermitian_real h0 X t
  rw [← conj_eq_iff_re.mp hr]
  congr 1
  have key : ∀ k ∈ Finset.range N,
      ((if N / 2 < k then (starRingEnd ℂ) (X (N - k)) else X k) * (W N (k * t))⁻¹).re =
        (hermitian N X k * (W N (k * t))⁻¹).re := by
    intro k hk
    have hk := Finset.mem_range.mp hk
    unfold hermitian
    by_cases c1 : k = 0 ∨ 2 * k = N
    · rw [if_pos c1, if_neg (by omega)]
      have hw : ((W N (k * t))⁻¹).im = 0 := by
        rcases c1 with rfl | c1
        · rw [Nat.zero_mul, W_zero]; simp
        · subst c1
          rw [W_mul_pow, W_half (by omega)]
          rcases neg_one_pow_eq_or ℂ t with h | h <;> rw [h] <;> simp
      rw [mul_re, mul_re, hw, mul_zero, mul_zero, ofReal_re]
    · rw [if_neg c1]
      by_cases c2 : N / 2 < k
      · rw [if_pos c2, if_neg (by omega)]
      · rw [if_neg c2, if_pos (by omega)]
  rw [idft_eq, idft_eq, div_natCast_re, div_natCast_re, re_sum, re_sum, Finset.sum_congr rfl key]

/-- The same for the buffer `irfft_stack` builds, in exact arithmetic. -/
theorem idft_hermBuf_re (h : Lawful F) {N : ℕ} (hN : N = 1 ∨ N % 2 = 0) (h0 : 0 < N) (X : List (Cx ℝ)) (t : ℕ) :
    ((idft N (sig (hermBuf N X)) t).re : ℂ) = idft N (hermitian N (sig X)) t := by
  rw [← idft_mirror_re hN h0]
  congr 2
  rw [idft_eq, idft_eq]
  congr 1
  exact Finset.sum_congr rfl fun k hk => by rw [sig_hermBuf h N X (Finset.mem_range.mp hk)]

end Kofft
