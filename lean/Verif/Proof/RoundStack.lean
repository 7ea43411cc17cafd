import Verif.Proof.Stack
import Verif.Proof.RoundFft
/-
Rounding error of the stack transforms.
-/
namespace Kofft

open Spec Complex Finset

variable [F : Flt ℝ] {u v t : ℝ}

theorem wRun_rnd (h : Rounding F u v t) (c : Cx ℝ) {ω : ℂ} {ε : ℝ} (hω : Apx (1 + ε) (toC c) ω 1) (k : ℕ) :
    Apx (((1 + mulErr u) * (1 + ε)) ^ k) (toC (wRun c.re c.im k)) (ω ^ k) 1 := by
  induction k with
  | zero =>
    have h1 : toC ⟨F.one, F.zero⟩ = 1 := by apply Complex.ext <;> simp [h.one, h.zero]
    simpa [wRun, h1] using Apx.refl 1
  | succ k ih =>
    have hs := ih.mul hω (mulErr_nonneg h.u_nonneg) (rnd_rot h (wRun c.re c.im k) c)
    rw [one_mul, ← pow_succ ω] at hs
    refine Apx.mono hs (le_of_eq ?_)
    rw [pow_succ]; ring

theorem ditW_rnd (h : Rounding F u v t) (s k : ℕ) (hk : k < 2 ^ s) :
    Apx (tableGrowth u t (2 ^ (s + 1))) (toC (ditW (2 ^ (s + 1)) k)) (W (2 ^ (s + 1)) k) 1 := by
  have := wRun_rnd h (Cx.expi (F.div (F.mul (F.neg (F.lit 2 0)) F.pi) (F.ofNat (2 ^ (s + 1)))))
    (Apx.unit (W_norm _ _).le (rnd_rotation h (s + 1))) k
  rw [← W_mul_pow, one_mul] at this
  refine Apx.mono this ?_
  have h2 := mulErr_nonneg h.u_nonneg
  have h3 := rotErr_nonneg h (2 ^ (s + 1))
  refine pow_le_pow_right₀ (by nlinarith) ?_
  have : 2 ^ (s + 1) / 2 = 2 ^ s := by rw [pow_succ]; omega
  omega

/-- The sum of the weights of the samples of a block. -/
theorem sum_even_odd (n : ℕ) (f : ℕ → ℝ) :
    ∑ r ∈ range (2 * n), f r = ∑ r ∈ range n, f (2 * r) + ∑ r ∈ range n, f (2 * r + 1) := by
  induction n with
  | zero => simp
  | succ n ih => rw [show 2 * (n + 1) = 2 * n + 1 + 1 by ring, sum_range_succ, sum_range_succ, ih, sum_range_succ,
      sum_range_succ]; ring

/-- Growth after `s` passes. -/
theorem ditRun_rnd (h : Rounding F u v t) (K : ℕ) (f : ℕ → Cx ℝ) (X : ℕ → ℂ) (A : ℕ → ℝ) (g : ℝ)
    (hx : ∀ i, i < 2 ^ K → Apx g (toC (f i)) (X i) (A i)) : ∀ (s : ℕ), s ≤ K → ∀ b, b < 2 ^ (K - s) →
    ∀ j, j < 2 ^ s → Apx (g * stackGrowth u t s) (toC (ditRun s (fun t => f (bitRev K t)) (b * 2 ^ s + j)))
      (dft (2 ^ s) (fun t => X (bitRev (K - s) b + 2 ^ (K - s) * t)) j)
      (∑ t ∈ range (2 ^ s), A (bitRev (K - s) b + 2 ^ (K - s) * t))
  | 0, _, b, hb, j, hj => by
    have : j = 0 := by simpa using hj
    subst this
    have := hx (bitRev K b) (bitRev_lt K b)
    simpa [ditRun, dft, W_zero, stackGrowth] using this
  | s + 1, hs, b, hb, j, hj => by
    have ih := ditRun_rnd h K f X A g hx s (by omega)
    obtain ⟨m, hm⟩ : ∃ m, K - s = m + 1 := ⟨K - s - 1, by omega⟩
    have hm' : K - (s + 1) = m := by omega
    rw [hm'] at hb ⊢
    rw [hm] at ih
    have hpos : 0 < 2 ^ s := Nat.pow_pos (by norm_num)
    have e2 : 2 ^ (s + 1) = 2 * 2 ^ s := by rw [pow_succ, mul_comm]
    have hmod : (b * 2 ^ (s + 1) + j) % (2 * 2 ^ s) = j := by
      rw [e2, Nat.mul_comm b, Nat.mul_add_mod, Nat.mod_eq_of_lt (by omega)]
    have hb1 : 2 * b + 1 < 2 ^ (m + 1) := by rw [pow_succ]; omega
    have E : ∀ j, j < 2 ^ s → Apx (g * stackGrowth u t s)
        (toC (ditRun s (fun t => f (bitRev K t)) (b * 2 ^ (s + 1) + j)))
        (dft (2 ^ s) (fun t => X (bitRev m b + 2 ^ m * (2 * t))) j)
        (∑ t ∈ range (2 ^ s), A (bitRev m b + 2 ^ m * (2 * t))) := by
      intro j hj
      have := ih (2 * b) (by omega) j hj
      rw [bitRev_even, show 2 * b * 2 ^ s = b * 2 ^ (s + 1) by rw [e2]; ring] at this
      simpa only [pow_succ 2 m, mul_assoc] using this
    have O : ∀ j, j < 2 ^ s → Apx (g * stackGrowth u t s)
        (toC (ditRun s (fun t => f (bitRev K t)) (b * 2 ^ (s + 1) + j + 2 ^ s)))
        (dft (2 ^ s) (fun t => X (bitRev m b + 2 ^ m * (2 * t + 1))) j)
        (∑ t ∈ range (2 ^ s), A (bitRev m b + 2 ^ m * (2 * t + 1))) := by
      intro j hj
      have := ih (2 * b + 1) hb1 j hj
      rw [bitRev_odd, show (2 * b + 1) * 2 ^ s + j = b * 2 ^ (s + 1) + j + 2 ^ s by rw [e2]; ring] at this
      have e3 : ∀ t, 2 ^ m + bitRev m b + 2 ^ (m + 1) * t = bitRev m b + 2 ^ m * (2 * t + 1) := by
        intro t; rw [pow_succ]; ring
      simpa only [e3] using this
    have eg : g * stackGrowth u t (s + 1) = g * stackGrowth u t s * lvl u (tableGrowth u t (2 ^ (s + 1))) := by
      rw [stackGrowth, prod_range_succ, ← stackGrowth, lvl]; ring
    rw [eg]
    have hd := dft_double (m := 2 ^ s) (fun t => X (bitRev m b + 2 ^ m * t)) j
    have hw := sum_even_odd (2 ^ s) (fun t => A (bitRev m b + 2 ^ m * t))
    rw [← e2] at hd hw
    rw [hw, hd]
    show Apx _ (toC (ditPass (2 ^ s) (ditRun s _) _)) _ _
    unfold ditPass
    rw [hmod]
    by_cases hlt : j < 2 ^ s
    · rw [if_pos hlt, ← e2]
      have := bf_addm h (rnd_mul h) (E j hlt) (O j hlt) (ditW_rnd h s j hlt)
      rwa [mul_comm _ (W _ _)] at this
    · rw [if_neg hlt, ← e2]
      obtain ⟨i, rfl⟩ : ∃ i, j = i + 2 ^ s := ⟨j - 2 ^ s, by omega⟩
      have hi : i < 2 ^ s := by omega
      have := bf_subm h (rnd_mul h) (E i hi) (O i hi) (ditW_rnd h s i hi)
      rw [show b * 2 ^ (s + 1) + (i + 2 ^ s) - 2 ^ s = b * 2 ^ (s + 1) + i by omega,
        show b * 2 ^ (s + 1) + (i + 2 ^ s) = b * 2 ^ (s + 1) + i + 2 ^ s by omega,
        dft_periodic (by omega), dft_periodic (by omega),
        show i + 2 ^ s - 2 ^ s = i by omega]
      have hW : W (2 ^ (s + 1)) (i + 2 ^ s) = -W (2 ^ (s + 1)) i := by
        rw [e2, W_add, W_half (by omega)]; ring
      rw [hW, neg_mul, ← sub_eq_add_neg, mul_comm (W _ _)]
      exact this

theorem stackGrowth_ge (h : Rounding F u v t) (K : ℕ) : 1 ≤ stackGrowth u t K := by
  induction K with
  | zero => simp [stackGrowth]
  | succ K ih =>
    have := lvl_ge h.u_nonneg (tableGrowth_ge h (2 ^ (K + 1)))
    rw [stackGrowth, prod_range_succ, ← stackGrowth]
    exact one_le_mul_of_one_le_of_one_le ih this

/-- The stack transform of approximate inputs. -/
theorem fftStack_rnd (h : Rounding F u v t) (K : ℕ) (x : List (Cx ℝ)) (hx : x.length = 2 ^ K)
    (X : ℕ → ℂ) (A : ℕ → ℝ) (g : ℝ)
    (ha : ∀ i, i < 2 ^ K → Apx g (toC (x.getD i Cx.zero)) (X i) (A i)) :
    ∃ y, fftStack x = .ok (y, .ok ()) ∧ y.length = 2 ^ K ∧ ∀ k, k < 2 ^ K →
      Apx (g * stackGrowth u t K) (toC (y.getD k Cx.zero)) (dft (2 ^ K) X k) (∑ i ∈ range (2 ^ K), A i) := by
  rcases Nat.eq_zero_or_pos K with rfl | hK
  · have h1 : x.length = 1 := by simpa using hx
    refine ⟨x, by unfold fftStack; simp [h1], hx, ?_⟩
    intro k hk
    have : k = 0 := by simpa using hk
    subst this
    simpa [stackGrowth, dft, W_zero] using ha 0 (by norm_num)
  · have hxt : x = tab (2 ^ K) (fun i => x.getD i Cx.zero) := by
      have := eq_tab_getD x Cx.zero
      rwa [hx] at this
    have e := fftStack_tab K hK (fun i => x.getD i Cx.zero)
    rw [← hxt] at e
    refine ⟨_, e, by simp, ?_⟩
    intro k hk
    have := ditRun_rnd h K (fun i => x.getD i Cx.zero) X A g ha K le_rfl 0 (by simp) k hk
    rw [tab_getD hk]
    simpa [bitRev] using this

theorem ifftStack_rnd (h : Rounding F u v t) (K : ℕ) (x : List (Cx ℝ)) (hx : x.length = 2 ^ K)
    (X : ℕ → ℂ) (A : ℕ → ℝ) (g : ℝ)
    (ha : ∀ i, i < 2 ^ K → Apx g (toC (x.getD i Cx.zero)) (X i) (A i)) :
    ∃ y, ifftStack x = .ok (y, .ok ()) ∧ y.length = 2 ^ K ∧ ∀ k, k < 2 ^ K →
      Apx (g * stackGrowth u t K * (1 + u) ^ 2) (toC (y.getD k Cx.zero)) (idft (2 ^ K) X k)
        ((∑ i ∈ range (2 ^ K), A i) / 2 ^ K) := by
  have hu := h.u_nonneg
  have hp : isPow2 (2 ^ K) = true := isPow2_pow K
  rcases Nat.eq_zero_or_pos K with rfl | hK
  · have h1 : x.length = 1 := by simpa using hx
    refine ⟨x, by unfold ifftStack; simp [h1], hx, ?_⟩
    intro k hk
    have : k = 0 := by simpa using hk
    subst this
    have h0 := ha 0 (by norm_num)
    have e1 : idft 1 X 0 = X 0 := by simp [idft]
    simp only [pow_zero, e1, sum_range_one, div_one]
    refine h0.mono ?_
    have : 1 ≤ (1 + u) ^ 2 := one_le_pow₀ (by linarith)
    simp only [stackGrowth, range_zero, prod_empty, mul_one]
    nlinarith [h0.one]
  · obtain ⟨y, e, hy, hb⟩ := fftStack_rnd h K (x.map Cx.conj) (by simpa using hx) (fun i => (starRingEnd ℂ) (X i)) A g (by
      intro i hi
      rw [getD_map x Cx.conj i Cx.zero Cx.zero (by omega), rnd_conj h]
      exact (ha i hi).conj')
    have h2 : 2 ≤ 2 ^ K := by
      calc 2 = 2 ^ 1 := by norm_num
        _ ≤ 2 ^ K := Nat.pow_le_pow_right (by norm_num) hK
    refine ⟨y.map (ifftPost (F.div F.one (F.ofNat x.length))), ?_, by simpa using hy, ?_⟩
    · unfold ifftStack
      simp only [hx, show ¬ 2 ^ K = 0 by omega, show ¬ 2 ^ K = 1 by omega, if_false, hp,
        Bool.not_true, Bool.false_eq_true, e, Outcome.bind_ok]
    · intro k hk
      rw [getD_map y _ k Cx.zero Cx.zero (by omega)]
      have h3 := (hb k hk).conj'
      rw [← rnd_conj h] at h3
      obtain ⟨r1, r2⟩ := rnd_recip h (n := 2 ^ K) (by omega)
      have h4 := rnd_scale h h3 (R := 1 / ((2 ^ K : ℕ) : ℝ)) (by positivity) r2 r1
      have hs : scaleGrowth u v (2 ^ K) / (1 + u) * (1 + u) = (1 + u) ^ 2 := by
        rw [div_mul_cancel₀ _ (by linarith), scaleGrowth, if_pos hp]
      rw [mul_assoc (g * _), hs] at h4
      rw [hx, idft_conj]
      have e5 : (starRingEnd ℂ) (dft (2 ^ K) (fun i => (starRingEnd ℂ) (X i)) k) * ((1 / ((2 ^ K : ℕ) : ℝ) : ℝ) : ℂ) =
          (starRingEnd ℂ) (dft (2 ^ K) (fun i => (starRingEnd ℂ) (X i)) k) / ((2 ^ K : ℕ) : ℂ) := by
        push_cast; ring
      rw [e5, mul_one_div] at h4
      push_cast at h4 ⊢
      exact h4

end Kofft
