import Verif.Spec.ExactSpectra
import Verif.Proof.Exact
import Verif.Proof.Dft
import Verif.Proof.RunFft
import Verif.Props.WindowFlt
import Verif.Props.GoertzelFlt
/-
C116: impulses and constant signals are transformed without any rounding error.
-/
namespace Kofft.Props
open Spec

section generic

variable {T : Type} [Flt T]

theorem split_index {s q : ℕ} (hq : q < 2 ^ (s + 1)) : q < 2 ^ s ∨ ∃ k, k < 2 ^ s ∧ q = k + 2 ^ s := by
  rcases Nat.lt_or_ge q (2 ^ s) with h | h
  · exact Or.inl h
  · exact Or.inr ⟨q - 2 ^ s, by rw [pow_succ] at hq; omega, by omega⟩

/-- the stages on an impulse -/
theorem stk_impulse {mul : Cx T → Cx T → Cx T} {z r : Cx T} (hz : ∀ w, mul z w = z) (h1 : z.add z = z) (h2 : z.sub z = z)
    (h3 : r.add z = r) (h4 : r.sub z = r) {K : ℕ} (tw x : ℕ → Cx T) (hx0 : x 0 = r) (hx : ∀ i, 0 < i → i < 2 ^ K → x i = z) :
    ∀ s, s ≤ K → ∀ q j, q < 2 ^ s → j < 2 ^ K / 2 ^ s →
      stk mul (2 ^ K) tw x s (q * (2 ^ K / 2 ^ s) + j) = if j = 0 then r else z
  | 0, _, q, j, hq, hj => by
    have : q = 0 := by simpa using hq
    subst this
    simp only [pow_zero, Nat.div_one, Nat.zero_mul, Nat.zero_add] at hj ⊢
    show x j = _
    split
    · rename_i h; rw [h]; exact hx0
    · exact hx j (by omega) hj
  | s + 1, hs, q, j, hq, hj => by
    have hm : 2 ^ K / 2 ^ s = 2 * (2 ^ K / 2 ^ (s + 1)) := by
      rw [Nat.pow_div (by omega) (by norm_num), Nat.pow_div hs (by norm_num), ← pow_succ']
      congr 1; omega
    have ih := stk_impulse hz h1 h2 h3 h4 tw x hx0 hx s (by omega)
    rw [hm] at ih
    have e : stk mul (2 ^ K) tw x (s + 1) = stageF mul (2 ^ s) (2 ^ K / 2 ^ (s + 1)) tw (stk mul (2 ^ K) tw x s) := rfl
    rw [e]
    clear e
    generalize 2 ^ K / 2 ^ (s + 1) = m at *
    have key : ∀ k, k < 2 ^ s → stk mul (2 ^ K) tw x s (2 * k * m + j) = (if j = 0 then r else z) ∧
        stk mul (2 ^ K) tw x s (2 * k * m + m + j) = z := by
      intro k hk
      have e1 := ih k j hk (by omega)
      have e2 := ih k (m + j) hk (by omega)
      rw [if_neg (by omega)] at e2
      rw [show k * (2 * m) + j = 2 * k * m + j by ring] at e1
      rw [show k * (2 * m) + (m + j) = 2 * k * m + m + j by ring] at e2
      exact ⟨e1, e2⟩
    rcases split_index hq with hk | ⟨k, hk, rfl⟩
    · rw [stageF_lo hk hj, (key q hk).1, (key q hk).2, hz]
      split <;> assumption
    · rw [stageF_hi hj, (key k hk).1, (key k hk).2, hz]
      split <;> assumption

/-- the stages on a constant -/
theorem stk_const {mul : Cx T → Cx T → Cx T} {z : Cx T} {C : ℕ → Cx T} (hz : ∀ w, mul z w = z) (h1 : z.add z = z)
    (h2 : z.sub z = z) (h3 : ∀ s, (C s).add (C s) = C (s + 1)) (h4 : ∀ s, (C s).sub (C s) = z) {K : ℕ} (tw x : ℕ → Cx T)
    (h5 : 0 < K → ∀ s, mul (C s) (tw 0) = C s) (hx : ∀ i, i < 2 ^ K → x i = C 0) :
    ∀ s, s ≤ K → ∀ q j, q < 2 ^ s → j < 2 ^ K / 2 ^ s →
      stk mul (2 ^ K) tw x s (q * (2 ^ K / 2 ^ s) + j) = if q = 0 then C s else z
  | 0, _, q, j, hq, hj => by
    have : q = 0 := by simpa using hq
    subst this
    simp only [pow_zero, Nat.div_one, Nat.zero_mul, Nat.zero_add] at hj ⊢
    exact hx j hj
  | s + 1, hs, q, j, hq, hj => by
    have hm : 2 ^ K / 2 ^ s = 2 * (2 ^ K / 2 ^ (s + 1)) := by
      rw [Nat.pow_div (by omega) (by norm_num), Nat.pow_div hs (by norm_num), ← pow_succ']
      congr 1; omega
    have ih := stk_const hz h1 h2 h3 h4 tw x h5 hx s (by omega)
    rw [hm] at ih
    have h5 := h5 (by omega)
    have e : stk mul (2 ^ K) tw x (s + 1) = stageF mul (2 ^ s) (2 ^ K / 2 ^ (s + 1)) tw (stk mul (2 ^ K) tw x s) := rfl
    rw [e]
    clear e
    generalize 2 ^ K / 2 ^ (s + 1) = m at *
    have key : ∀ k, k < 2 ^ s → stk mul (2 ^ K) tw x s (2 * k * m + j) = (if k = 0 then C s else z) ∧
        stk mul (2 ^ K) tw x s (2 * k * m + m + j) = (if k = 0 then C s else z) := by
      intro k hk
      have e1 := ih k j hk (by omega)
      have e2 := ih k (m + j) hk (by omega)
      rw [show k * (2 * m) + j = 2 * k * m + j by ring] at e1
      rw [show k * (2 * m) + (m + j) = 2 * k * m + m + j by ring] at e2
      exact ⟨e1, e2⟩
    have p2 : 0 < 2 ^ s := by positivity
    rcases split_index hq with hk | ⟨k, hk, rfl⟩
    · rw [stageF_lo hk hj, (key q hk).1, (key q hk).2]
      by_cases hq0 : q = 0
      · subst hq0; simp only [if_true, Nat.zero_mul]; rw [h5, h3]
      · simp only [if_neg hq0]; rw [hz, h1]
    · rw [stageF_hi hj, (key k hk).1, (key k hk).2, if_neg (show ¬ k + 2 ^ s = 0 by omega)]
      by_cases hq0 : k = 0
      · subst hq0; simp only [if_true, Nat.zero_mul]; rw [h5, h4]
      · simp only [if_neg hq0]; rw [hz, h2]

/-- the small kernels on an impulse -/
theorem small_impulse {z r : Cx T} (hz : ∀ w, Cx.mul z w = z) (h1 : z.add z = z) (h2 : z.sub z = z)
    (h3 : r.add z = r) (h4 : r.sub z = r) (cfg : Cfg) {n : ℕ} (hn : n = 2 ∨ n = 4 ∨ n = 8 ∨ n = 16) :
    smallOut cfg (r :: List.replicate (n - 1) z) = List.replicate n r := by
  rcases hn with rfl | rfl | rfl | rfl
  · simp [smallOut, smallKernel, fft2, List.replicate_succ, *]
  · simp [smallOut, smallKernel, fft4, List.replicate_succ, *]
  · simp [smallOut, smallKernel, fft8, List.replicate_succ, *]
  · simp [smallOut, smallKernel, fft16, fft16Half, List.replicate_succ, *]

/-- the small kernels on a constant -/
theorem small_const {z : Cx T} {C : ℕ → Cx T} (hz : ∀ w, Cx.mul z w = z) (h1 : z.add z = z)
    (h2 : z.sub z = z) (h3 : ∀ s, (C s).add (C s) = C (s + 1)) (h4 : ∀ s, (C s).sub (C s) = z) (cfg : Cfg) {K : ℕ}
    (hK : 1 ≤ K) (hK4 : K ≤ 4) :
    smallOut cfg (List.replicate (2 ^ K) (C 0)) = C K :: List.replicate (2 ^ K - 1) z := by
  interval_cases K
  · simp [smallOut, smallKernel, fft2, List.replicate_succ, *]
  · simp [smallOut, smallKernel, fft4, List.replicate_succ, *]
  · simp [smallOut, smallKernel, fft8, List.replicate_succ, *]
  · simp [smallOut, smallKernel, fft16, fft16Half, List.replicate_succ, *]

end generic

section exact

variable {p : ℕ} [F : Flt ℝ]

omit F in
theorem repr_double {a : ℝ} (h : IsRepr p a) (k : ℤ) : IsRepr p (2 ^ k * a) := by
  obtain ⟨m, e, hm, rfl⟩ := h
  refine ⟨m, e + k, hm, ?_⟩
  rw [zpow_add₀ (by norm_num)]; ring

/-- the zero of the model -/
theorem ewr_zero (E : ExactWhereRepresentable p F) : (Cx.zero : Cx ℝ) = ⟨0, 0⟩ := by
  show (⟨F.zero, F.zero⟩ : Cx ℝ) = _
  rw [E.zero]

theorem ewr_mulPlain_zero (E : ExactWhereRepresentable p F) (w : Cx ℝ) : Cx.mulPlain (⟨0, 0⟩ : Cx ℝ) w = ⟨0, 0⟩ := by
  have m : ∀ b, F.mul 0 b = 0 := fun b => by rw [E.mul _ _ (by simpa using repr_zero), zero_mul]
  show (⟨F.sub (F.mul 0 w.re) (F.mul 0 w.im), F.add (F.mul 0 w.im) (F.mul 0 w.re)⟩ : Cx ℝ) = _
  rw [m, m, E.sub _ _ (by simpa using repr_zero), E.add _ _ (by simpa using repr_zero), sub_zero, add_zero]

theorem ewr_mul_zero (E : ExactWhereRepresentable p F) (w : Cx ℝ) : Cx.mul (⟨0, 0⟩ : Cx ℝ) w = ⟨0, 0⟩ := by
  have m : ∀ b, F.mul 0 b = 0 := fun b => by rw [E.mul _ _ (by simpa using repr_zero), zero_mul]
  unfold Cx.mul
  split
  · show (⟨F.mulAdd 0 w.re (F.neg (F.mul 0 w.im)), F.mulAdd 0 w.im (F.mul 0 w.re)⟩ : Cx ℝ) = _
    rw [m, m, E.neg, neg_zero, E.mulAdd _ _ _ (by simpa using repr_zero) (by simpa using repr_zero),
      E.mulAdd _ _ _ (by simpa using repr_zero) (by simpa using repr_zero)]
    simp
  · exact ewr_mulPlain_zero E w

theorem ewr_mulPlain_one (E : ExactWhereRepresentable p F) {c : Cx ℝ} (h : CRepr p c) :
    Cx.mulPlain c (⟨1, 0⟩ : Cx ℝ) = c := by
  have m : ∀ b, F.mul b 0 = 0 := fun b => by rw [E.mul _ _ (by simpa using repr_zero), mul_zero]
  have m1 : ∀ b, IsRepr p b → F.mul b 1 = b := fun b hb => by rw [E.mul _ _ (by simpa using hb), mul_one]
  show (⟨F.sub (F.mul c.re 1) (F.mul c.im 0), F.add (F.mul c.re 0) (F.mul c.im 1)⟩ : Cx ℝ) = _
  rw [m, m, m1 _ h.1, m1 _ h.2, E.sub _ _ (by simpa using h.1), E.add _ _ (by simpa using h.2), sub_zero, zero_add]

theorem ewr_mul_one (E : ExactWhereRepresentable p F) {c : Cx ℝ} (h : CRepr p c) : Cx.mul c (⟨1, 0⟩ : Cx ℝ) = c := by
  have m : ∀ b, F.mul b 0 = 0 := fun b => by rw [E.mul _ _ (by simpa using repr_zero), mul_zero]
  have m1 : ∀ b, IsRepr p b → F.mul b 1 = b := fun b hb => by rw [E.mul _ _ (by simpa using hb), mul_one]
  unfold Cx.mul
  split
  · show (⟨F.mulAdd c.re 1 (F.neg (F.mul c.im 0)), F.mulAdd c.re 0 (F.mul c.im 1)⟩ : Cx ℝ) = _
    rw [m, m1 _ h.2, E.neg, E.mulAdd _ _ _ (by simpa using h.1) (by simpa using h.1),
      E.mulAdd _ _ _ (by simpa using repr_zero) (by simpa using h.2)]
    simp
  · exact ewr_mulPlain_one E h

theorem ewr_add (E : ExactWhereRepresentable p F) {a b : Cx ℝ} (h : CRepr p ⟨a.re + b.re, a.im + b.im⟩) :
    a.add b = ⟨a.re + b.re, a.im + b.im⟩ := by
  show (⟨F.add _ _, F.add _ _⟩ : Cx ℝ) = _
  rw [E.add _ _ h.1, E.add _ _ h.2]

theorem ewr_sub (E : ExactWhereRepresentable p F) {a b : Cx ℝ} (h : CRepr p ⟨a.re - b.re, a.im - b.im⟩) :
    a.sub b = ⟨a.re - b.re, a.im - b.im⟩ := by
  show (⟨F.sub _ _, F.sub _ _⟩ : Cx ℝ) = _
  rw [E.sub _ _ h.1, E.sub _ _ h.2]

omit F in
theorem crepr_zero : CRepr p ⟨0, 0⟩ := ⟨repr_zero, repr_zero⟩

omit F in
theorem crepr_times {c : Cx ℝ} (h : CRepr p c) (k : ℕ) : CRepr p (times (2 ^ k) c) := by
  refine ⟨?_, ?_⟩
  · have := repr_double h.1 k
    rwa [zpow_natCast] at this
  · have := repr_double h.2 k
    rwa [zpow_natCast] at this

/-- entry 0 of every table of factors is 1 -/
theorem ewr_twAt (E : ExactWhereRepresentable p F) (cfg : Cfg) {K : ℕ} (hK : 0 < K) : twAt cfg (2 ^ K) 0 = (⟨1, 0⟩ : Cx ℝ) := by
  obtain ⟨k, rfl⟩ : ∃ k, K = k + 1 := ⟨K - 1, by omega⟩
  have h2 : 2 ^ (k + 1) / 2 = (2 ^ k - 1) + 1 := by
    have : 0 < 2 ^ k := by positivity
    rw [pow_succ]; omega
  have nz : ((2 : ℝ) ^ (k + 1)) ≠ 0 := by positivity
  unfold twAt twiddles preLookup
  split
  · simp only [Option.getD_some]
    unfold preTable
    rw [h2, List.range_succ_eq_map]
    simp only [List.map_cons, List.getD_cons_zero]
    have a0 : F.div (F.mul (F.mul (F.neg (F.lit 2 0)) F.pi) (F.ofNatD 0)) (F.ofNatD (2 ^ (k + 1))) = 0 := by
      rw [E.ofNatD_zero, E.ofNatD, E.mul _ _ (by simpa using repr_zero), mul_zero,
        E.div _ _ nz (by simpa using repr_zero), zero_div]
    show (⟨F.printParse (F.cos (F.div _ _)), F.printParse (F.sin (F.div _ _))⟩ : Cx ℝ) = _
    rw [a0, E.cos_zero, E.sin_zero, E.print_zero, E.print_one]
  · unfold twTable
    simp only [Option.getD_none, h2, twLoop, List.getD_cons_zero]
    show (⟨F.one, F.zero⟩ : Cx ℝ) = _
    rw [E.one, E.zero]

theorem pow_log2 (K : ℕ) : (2 ^ K).log2 = K := by simp

/-- a power-of-two transform of an impulse, on a new planner -/
theorem freshPow_impulse (E : ExactWhereRepresentable p F) (cfg : Cfg) (K : ℕ) {r : Cx ℝ} (hr : CRepr p r) :
    freshPow cfg (impulse (2 ^ K) r) = List.replicate (2 ^ K) r := by
  have hlen : (impulse (2 ^ K) r).length = 2 ^ K := by
    have : 0 < 2 ^ K := by positivity
    simp [impulse]; omega
  have z1 : Cx.add (⟨0, 0⟩ : Cx ℝ) ⟨0, 0⟩ = ⟨0, 0⟩ := by rw [ewr_add E (by simpa using crepr_zero)]; simp
  have z2 : Cx.sub (⟨0, 0⟩ : Cx ℝ) ⟨0, 0⟩ = ⟨0, 0⟩ := by rw [ewr_sub E (by simpa using crepr_zero)]; simp
  have z3 : Cx.add r ⟨0, 0⟩ = r := by rw [ewr_add E (by simpa using hr)]; simp
  have z4 : Cx.sub r ⟨0, 0⟩ = r := by rw [ewr_sub E (by simpa using hr)]; simp
  have big : ∀ mul : Cx ℝ → Cx ℝ → Cx ℝ, (∀ w, mul ⟨0, 0⟩ w = ⟨0, 0⟩) →
      stkOut cfg mul (impulse (2 ^ K) r) = List.replicate (2 ^ K) r := by
    intro mul hm
    unfold stkOut
    rw [hlen, pow_log2]
    have := stk_impulse (K := K) hm z1 z2 z3 z4 (twAt cfg (2 ^ K)) (fun i => (impulse (2 ^ K) r).getD i Cx.zero) rfl
      (by
        intro i h0 hi
        obtain ⟨i, rfl⟩ : ∃ j, i = j + 1 := ⟨i - 1, by omega⟩
        have : i < 2 ^ K - 1 := by omega
        simp [impulse, List.getD_eq_getElem?_getD, this])
      K le_rfl
    rw [tab_congr (g := fun _ => r)]
    · simp [tab]
    · intro i hi
      have h1 : 2 ^ K / 2 ^ K = 1 := Nat.div_self (by positivity)
      have := this i 0 hi (by rw [h1]; exact one_pos)
      rwa [h1, mul_one, add_zero, if_pos rfl] at this
  unfold freshPow powOut
  rw [hlen]
  split
  · rename_i h; rw [impulse, h]; rfl
  split
  · rename_i h1 h2
    have hK : K ≤ 4 := by
      by_contra h
      have : 2 ^ 5 ≤ 2 ^ K := Nat.pow_le_pow_right (by norm_num) (by omega)
      omega
    have hK0 : K ≠ 0 := by rintro rfl; exact h1 rfl
    exact small_impulse (ewr_mul_zero E) z1 z2 z3 z4 cfg (by interval_cases K <;> simp at *)
  unfold bigOut
  split
  · rw [stale_nil Planner.new _ (by simp [Planner.new]), List.append_nil,
      List.take_of_length_le (by rw [stkOut_length])]
    exact big _ (ewr_mulPlain_zero E)
  · exact big _ (ewr_mul_zero E)

/-- a power-of-two transform of a constant, on a new planner -/
theorem freshPow_const (E : ExactWhereRepresentable p F) (cfg : Cfg) (K : ℕ) {c : Cx ℝ} (hc : CRepr p c) :
    freshPow cfg (List.replicate (2 ^ K) c) = impulse (2 ^ K) (times (2 ^ K) c) := by
  have hlen : (List.replicate (2 ^ K) c).length = 2 ^ K := by simp
  let C : ℕ → Cx ℝ := fun s => times (2 ^ s) c
  have C0 : C 0 = c := by simp [C, times]
  have z1 : Cx.add (⟨0, 0⟩ : Cx ℝ) ⟨0, 0⟩ = ⟨0, 0⟩ := by rw [ewr_add E (by simpa using crepr_zero)]; simp
  have z2 : Cx.sub (⟨0, 0⟩ : Cx ℝ) ⟨0, 0⟩ = ⟨0, 0⟩ := by rw [ewr_sub E (by simpa using crepr_zero)]; simp
  have z3 : ∀ s, (C s).add (C s) = C (s + 1) := by
    intro s
    have e : (⟨(C s).re + (C s).re, (C s).im + (C s).im⟩ : Cx ℝ) = C (s + 1) := by
      simp only [C, times, pow_succ, Cx.mk.injEq]; constructor <;> ring
    rw [ewr_add E (by rw [e]; exact crepr_times hc _), e]
  have z4 : ∀ s, (C s).sub (C s) = ⟨0, 0⟩ := by
    intro s
    rw [ewr_sub E (by simpa using crepr_zero)]; simp
  have big : ∀ mul : Cx ℝ → Cx ℝ → Cx ℝ, (∀ w, mul ⟨0, 0⟩ w = ⟨0, 0⟩) → (∀ s, mul (C s) ⟨1, 0⟩ = C s) →
      stkOut cfg mul (List.replicate (2 ^ K) c) = impulse (2 ^ K) (C K) := by
    intro mul hm hm1
    unfold stkOut
    rw [hlen, pow_log2]
    have := stk_const (C := C) (K := K) hm z1 z2 z3 z4 (twAt cfg (2 ^ K))
      (fun i => (List.replicate (2 ^ K) c).getD i Cx.zero) (fun h s => by rw [ewr_twAt E cfg h]; exact hm1 s)
      (by
        intro i hi
        rw [C0]
        simp [List.getD_eq_getElem?_getD, hi])
      K le_rfl
    have h1 : 2 ^ K / 2 ^ K = 1 := Nat.div_self (by positivity)
    rw [tab_congr (g := fun i => if i = 0 then C K else ⟨0, 0⟩)]
    · have : 2 ^ K = (2 ^ K - 1) + 1 := by have : 0 < 2 ^ K := by positivity
                                           omega
      rw [impulse]
      rw [this]
      simp [tab, List.range_succ_eq_map, Function.comp_def]
    · intro i hi
      have := this i 0 hi (by rw [h1]; exact one_pos)
      rwa [h1, mul_one, add_zero] at this
  unfold freshPow powOut
  rw [hlen]
  split
  · rename_i h
    have : K = 0 := by
      by_contra h0
      have : 2 ^ 1 ≤ 2 ^ K := Nat.pow_le_pow_right (by norm_num) (by omega)
      omega
    subst this
    simp [impulse, times]
  split
  · rename_i h1 h2
    have hK : K ≤ 4 := by
      by_contra h
      have : 2 ^ 5 ≤ 2 ^ K := Nat.pow_le_pow_right (by norm_num) (by omega)
      omega
    have hK0 : K ≠ 0 := by rintro rfl; exact h1 rfl
    have := small_const (C := C) (ewr_mul_zero E) z1 z2 z3 z4 cfg (by omega) hK
    rwa [C0] at this
  unfold bigOut
  split
  · rw [stale_nil Planner.new _ (by simp [Planner.new]), List.append_nil,
      List.take_of_length_le (by rw [stkOut_length])]
    exact big _ (ewr_mulPlain_zero E) (fun s => ewr_mulPlain_one E (crepr_times hc s))
  · exact big _ (ewr_mul_zero E) (fun s => ewr_mul_one E (crepr_times hc s))

/-- `fft` of a power-of-two length, after transforms that need no more working memory -/
theorem fft_pow_run (cfg : Cfg) {K : ℕ} {x : List (Cx ℝ)} (hx : x.length = 2 ^ K) {pl : Planner ℝ}
    (h : ReachVia cfg (fun m => workSize m ≤ workSize (2 ^ K)) pl) :
    ∃ pl', fft cfg pl x = .ok (pl', freshPow cfg x, .ok ()) ∧
      ReachVia cfg (fun m => workSize m ≤ workSize (2 ^ K)) pl' := by
  have hp : isPow2 x.length = true := isPow2_iff.mpr ⟨K, hx⟩
  obtain ⟨pl', e, -⟩ := (fft_opOk cfg).run pl x (reachVia_inv h)
  have hr := fftRes_pow2 cfg hp
  rw [fftBuf_fresh cfg pl x (reachVia_inv h) hr (by rw [hx]; exact compat_of_reach h), hr, freshOut, if_pos hp] at e
  exact ⟨pl', e, h.fft (by rw [hx]) e⟩

theorem ewr_scale (hp : 1 ≤ p) (E : ExactWhereRepresentable p F) (K : ℕ) :
    Flt.one /. Flt.ofNat (2 ^ K) = (1 / 2 ^ K : ℝ) := by
  show F.div F.one (F.ofNat (2 ^ K)) = _
  rw [E.one, E.ofNat]
  refine E.div _ _ (by positivity) ?_
  have := repr_double (repr_one hp) (-(K : ℤ))
  simpa using this

theorem ewr_conj (E : ExactWhereRepresentable p F) (c : Cx ℝ) : c.conj = ⟨c.re, -c.im⟩ := by
  show (⟨c.re, F.neg c.im⟩ : Cx ℝ) = _
  rw [E.neg]

omit F in
theorem crepr_conj {c : Cx ℝ} (h : CRepr p c) : CRepr p ⟨c.re, -c.im⟩ := ⟨h.1, h.2.neg⟩

/-- the last step of `ifft` undoes the multiplication by the length -/
theorem ewr_post (hp : 1 ≤ p) (E : ExactWhereRepresentable p F) (K : ℕ) {c : Cx ℝ} (h : CRepr p c) :
    ifftPost (Flt.one /. Flt.ofNat (2 ^ K)) (times (2 ^ K) ⟨c.re, -c.im⟩) = c := by
  have nz : ((2 : ℝ) ^ K) ≠ 0 := by positivity
  rw [ewr_scale hp E]
  show (⟨F.mul (2 ^ K * c.re) (1 / 2 ^ K), F.mul (F.neg (2 ^ K * -c.im)) (1 / 2 ^ K)⟩ : Cx ℝ) = c
  have e1 : 2 ^ K * c.re * (1 / 2 ^ K) = c.re := by field_simp
  have e2 : -(2 ^ K * -c.im) * (1 / 2 ^ K) = c.im := by field_simp
  rw [E.neg, E.mul _ _ (by rw [e1]; exact h.1), E.mul _ _ (by rw [e2]; exact h.2), e1, e2]

theorem ewr_post_zero (E : ExactWhereRepresentable p F) (s : ℝ) :
    ifftPost s (⟨0, 0⟩ : Cx ℝ) = ⟨0, 0⟩ := by
  show (⟨F.mul 0 s, F.mul (F.neg 0) s⟩ : Cx ℝ) = _
  rw [E.neg, neg_zero, E.mul _ _ (by simpa using repr_zero), zero_mul]

/-- `ifft` of a constant spectrum -/
theorem ifft_const_run (hp : 1 ≤ p) (E : ExactWhereRepresentable p F) (cfg : Cfg) (K : ℕ) {r : Cx ℝ} (hr : CRepr p r)
    {pl : Planner ℝ} (h : ReachVia cfg (fun m => workSize m ≤ workSize (2 ^ K)) pl) :
    ∃ pl', ifft cfg pl (List.replicate (2 ^ K) r) = .ok (pl', impulse (2 ^ K) r, .ok ()) := by
  have pos : 0 < 2 ^ K := by positivity
  obtain ⟨pl', e, -⟩ := fft_pow_run cfg (x := List.replicate (2 ^ K) (⟨r.re, -r.im⟩ : Cx ℝ)) (by simp) h
  rw [freshPow_const E cfg K (crepr_conj hr)] at e
  unfold ifft ifftWith
  simp only [List.length_replicate, List.map_replicate, ewr_conj E]
  rw [if_neg (by omega)]
  split
  · rename_i h1
    exact ⟨pl, by rw [h1]; rfl⟩
  rw [e]
  refine ⟨pl', ?_⟩
  simp only [Outcome.bind_ok, Outcome.ok.injEq, Prod.mk.injEq, true_and, and_true]
  simp only [impulse, List.map_cons, List.map_replicate, ewr_post hp E K hr, ewr_post_zero E]

/-- `ifft` of a spectrum with only bin 0 -/
theorem ifft_impulse_run (hp : 1 ≤ p) (E : ExactWhereRepresentable p F) (cfg : Cfg) (K : ℕ) {c : Cx ℝ} (hc : CRepr p c)
    {pl : Planner ℝ} (h : ReachVia cfg (fun m => workSize m ≤ workSize (2 ^ K)) pl) :
    ∃ pl', ifft cfg pl (impulse (2 ^ K) (times (2 ^ K) c)) = .ok (pl', List.replicate (2 ^ K) c, .ok ()) := by
  have pos : 0 < 2 ^ K := by positivity
  have hlen : ∀ r : Cx ℝ, (impulse (2 ^ K) r).length = 2 ^ K := by intro r; simp [impulse]; omega
  have hmap : (impulse (2 ^ K) (times (2 ^ K) c)).map Cx.conj = impulse (2 ^ K) (times (2 ^ K) ⟨c.re, -c.im⟩) := by
    simp [impulse, ewr_conj E, times]
  obtain ⟨pl', e, -⟩ := fft_pow_run cfg (x := impulse (2 ^ K) (times (2 ^ K) ⟨c.re, -c.im⟩)) (hlen _) h
  rw [freshPow_impulse E cfg K (crepr_times (crepr_conj hc) K)] at e
  unfold ifft ifftWith
  simp only [hlen]
  rw [if_neg (by omega)]
  split
  · rename_i h1
    refine ⟨pl, ?_⟩
    have : (2 : ℝ) ^ K = 1 := by exact_mod_cast h1
    rw [this, h1]
    simp [impulse, times]
  rw [hmap, e]
  refine ⟨pl', ?_⟩
  simp only [Outcome.bind_ok, Outcome.ok.injEq, Prod.mk.injEq, true_and, and_true]
  simp only [List.map_replicate, ewr_post hp E K hc]

/-- The spectrum of an impulse, in floating-point arithmetic: every bin holds exactly the sample, and the inverse transform
gives back exactly the impulse. -/
theorem fft_impulse_exact (hp : 1 ≤ p) (E : ExactWhereRepresentable p F) (cfg : Cfg) (K : ℕ) {r : Cx ℝ} (hr : CRepr p r)
    {pl : Planner ℝ} (h : ReachVia cfg (fun m => workSize m ≤ workSize (2 ^ K)) pl) :
    ∃ pl', fft cfg pl (impulse (2 ^ K) r) = .ok (pl', List.replicate (2 ^ K) r, .ok ()) ∧
      ∃ pl'', ifft cfg pl' (List.replicate (2 ^ K) r) = .ok (pl'', impulse (2 ^ K) r, .ok ()) := by
  have pos : 0 < 2 ^ K := by positivity
  obtain ⟨pl', e, h'⟩ := fft_pow_run cfg (x := impulse (2 ^ K) r) (by simp [impulse]; omega) h
  rw [freshPow_impulse E cfg K hr] at e
  exact ⟨pl', e, ifft_const_run hp E cfg K hr h'⟩

/-- The spectrum of a constant signal, in floating-point arithmetic: bin 0 holds exactly the sum of the samples, every other
bin exactly zero (no leakage at all), and the inverse transform gives back exactly the signal. -/
theorem fft_constant_exact (hp : 1 ≤ p) (E : ExactWhereRepresentable p F) (cfg : Cfg) (K : ℕ) {c : Cx ℝ} (hc : CRepr p c)
    {pl : Planner ℝ} (h : ReachVia cfg (fun m => workSize m ≤ workSize (2 ^ K)) pl) :
    ∃ pl', fft cfg pl (List.replicate (2 ^ K) c) = .ok (pl', impulse (2 ^ K) (times (2 ^ K) c), .ok ()) ∧
      ∃ pl'', ifft cfg pl' (impulse (2 ^ K) (times (2 ^ K) c)) = .ok (pl'', List.replicate (2 ^ K) c, .ok ()) := by
  obtain ⟨pl', e, h'⟩ := fft_pow_run cfg (x := List.replicate (2 ^ K) c) (by simp) h
  rw [freshPow_const E cfg K hc] at e
  exact ⟨pl', e, ifft_impulse_run hp E cfg K hc h'⟩

end exact

/-- binary floating point with `p` digits (integers converted through `q` digits) is exact where it can be -/
theorem rndFlt_exactWhere {p q : ℕ} (hp : 1 ≤ p) (hq : 1 ≤ q) (fused fma : Bool) :
    ExactWhereRepresentable p (rndFlt p q fused fma) := by
  have e : ∀ {p : ℕ} (_ : 1 ≤ p) {x : ℝ}, IsRepr p x → rnd p x = x := fun hp _ hx => nearest_exact hx (rnd_nearest hp _)
  have e2 : ∀ {p : ℕ} (_ : 1 ≤ p) (k : ℕ), IsRepr p ((2 : ℝ) ^ k) := by
    intro p hp k
    have := repr_double (repr_one hp) (k : ℤ)
    simpa using this
  exact {
    add := fun a b h => e hp h
    sub := fun a b h => e hp h
    mul := fun a b h => e hp h
    div := fun a b _ h => e hp h
    mulAdd := fun a b c h1 h2 => by
      show (if fused = true then rnd p (a * b + c) else rnd p (rnd p (a * b) + c)) = _
      rw [e hp h1]; simp [e hp h2]
    neg := fun _ => rfl
    zero := rfl
    one := rfl
    ofNat := fun k => by
      show rnd q ((2 ^ k : ℕ) : ℝ) = _
      rw [Nat.cast_pow, Nat.cast_ofNat]; exact e hq (e2 hq k)
    ofNatD := fun k => by
      show rnd p ((2 ^ k : ℕ) : ℝ) = _
      rw [Nat.cast_pow, Nat.cast_ofNat]; exact e hp (e2 hp k)
    ofNatD_zero := by show rnd p ((0 : ℕ) : ℝ) = _; rw [Nat.cast_zero]; exact e hp repr_zero
    cos_zero := by show rnd p (Real.cos 0) = _; rw [Real.cos_zero]; exact e hp (repr_one hp)
    sin_zero := by show rnd p (Real.sin 0) = _; rw [Real.sin_zero]; exact e hp repr_zero
    print_zero := e hp repr_zero
    print_one := e hp (repr_one hp) }

-- binary32 and binary64 (whose integers pass through binary32), with and without fused multiply-add, with and without
-- the precomputed tables; the sample 3 - 0.5i
example : ∃ pl', @fft ℝ (rndFlt 24 24 true true) ⟨true, .f32, true, 8, false⟩ Planner.new (impulse (2 ^ 20) ⟨3, -1 / 2⟩) =
    .ok (pl', List.replicate (2 ^ 20) ⟨3, -1 / 2⟩, .ok ()) := by
  letI := rndFlt 24 24 true true
  have hr : CRepr 24 ⟨3, -1 / 2⟩ := ⟨⟨3, 0, by norm_num, by norm_num⟩, ⟨-1, -1, by norm_num, by norm_num⟩⟩
  obtain ⟨pl', e, -⟩ := fft_impulse_exact (p := 24) (by norm_num) (rndFlt_exactWhere (by norm_num) (by norm_num) true true)
    ⟨true, .f32, true, 8, false⟩ 20 hr .new
  exact ⟨pl', e⟩
example : ∃ pl', @fft ℝ (rndFlt 53 24 false false) ⟨true, .f64, false, 4, false⟩ Planner.new
      (List.replicate (2 ^ 10) ⟨3, -1 / 2⟩) =
    .ok (pl', impulse (2 ^ 10) (times (2 ^ 10) ⟨3, -1 / 2⟩), .ok ()) := by
  letI := rndFlt 53 24 false false
  have hr : CRepr 53 ⟨3, -1 / 2⟩ := ⟨⟨3, 0, by norm_num, by norm_num⟩, ⟨-1, -1, by norm_num, by norm_num⟩⟩
  obtain ⟨pl', e, -⟩ := fft_constant_exact (p := 53) (by norm_num) (rndFlt_exactWhere (by norm_num) (by norm_num) false false)
    ⟨true, .f64, false, 4, false⟩ 10 hr .new
  exact ⟨pl', e⟩

end Kofft.Props
