import Verif.Props.ExactSpectra
import Verif.Props.Rfft
/-
C117: bins 0 and n/2 in floating-point arithmetic: exactly real for real signals, without rounding error for integer signals.
-/
namespace Kofft.Props
open Spec

section generic

variable {T : Type} [Flt T]

/-- the tree of additions that leads to bin 0 -/
def tree (n : ℕ) (x : ℕ → Cx T) : ℕ → ℕ → Cx T
  | 0 => x
  | s + 1 => fun j => (tree n x s j).add (tree n x s (n / 2 ^ (s + 1) + j))

theorem half_block {K s : ℕ} (hs : s + 1 ≤ K) : 2 ^ K / 2 ^ s = 2 * (2 ^ K / 2 ^ (s + 1)) := by
  rw [Nat.pow_div (by omega) (by norm_num), Nat.pow_div hs (by norm_num), ← pow_succ']
  congr 1; omega

/-- the first block after each stage holds the tree, if the factor 1 changes nothing -/
theorem stk_tree {mul : Cx T → Cx T → Cx T} {K : ℕ} (tw x : ℕ → Cx T)
    (h : ∀ s, s < K → ∀ j, j < 2 ^ K / 2 ^ s → mul (tree (2 ^ K) x s j) (tw 0) = tree (2 ^ K) x s j) :
    ∀ s, s ≤ K → ∀ j, j < 2 ^ K / 2 ^ s → stk mul (2 ^ K) tw x s j = tree (2 ^ K) x s j
  | 0, _, _, _ => rfl
  | s + 1, hs, j, hj => by
    have hm := half_block hs
    have ih := stk_tree tw x h s (by omega)
    have hs' := h s (by omega)
    have e : stk mul (2 ^ K) tw x (s + 1) = stageF mul (2 ^ s) (2 ^ K / 2 ^ (s + 1)) tw (stk mul (2 ^ K) tw x s) := rfl
    have := stageF_lo (mul := mul) (tw := tw) (src := stk mul (2 ^ K) tw x s) (k := 0) (n1 := 2 ^ s) (by positivity) hj
    simp only [Nat.zero_mul, Nat.mul_zero, Nat.zero_add] at this
    rw [e, this, ih j (by omega), ih (2 ^ K / 2 ^ (s + 1) + j) (by omega), hs' _ (by omega)]
    rfl

/-- bin `n/2` is the difference of the last two -/
theorem stk_nyquist {mul : Cx T → Cx T → Cx T} {K : ℕ} (tw x : ℕ → Cx T)
    (h : ∀ s, s < K + 1 → ∀ j, j < 2 ^ (K + 1) / 2 ^ s → mul (tree (2 ^ (K + 1)) x s j) (tw 0) = tree (2 ^ (K + 1)) x s j) :
    stk mul (2 ^ (K + 1)) tw x (K + 1) (2 ^ K) = (tree (2 ^ (K + 1)) x K 0).sub (tree (2 ^ (K + 1)) x K 1) := by
  have hm := half_block (K := K + 1) (s := K) le_rfl
  have h1 : 2 ^ (K + 1) / 2 ^ (K + 1) = 1 := Nat.div_self (by positivity)
  have e : stk mul (2 ^ (K + 1)) tw x (K + 1) =
    stageF mul (2 ^ K) (2 ^ (K + 1) / 2 ^ (K + 1)) tw (stk mul (2 ^ (K + 1)) tw x K) := rfl
  rw [h1] at hm e
  have := stageF_hi (mul := mul) (tw := tw) (src := stk mul (2 ^ (K + 1)) tw x K) (k := 0) (n1 := 2 ^ K) (n2 := 1) one_pos
  simp only [Nat.zero_mul, Nat.mul_zero, Nat.zero_add, Nat.mul_one, Nat.add_zero] at this
  rw [e, this, stk_tree tw x h K (by omega) 0 (by omega), stk_tree tw x h K (by omega) 1 (by omega),
    h K (by omega) 1 (by omega)]

/-- the small kernels add in the same order -/
theorem small_tree (cfg : Cfg) (x : ℕ → Cx T) {K : ℕ} (hK : K < 4) :
    (smallOut cfg (tab (2 ^ (K + 1)) x)).getD 0 Cx.zero = tree (2 ^ (K + 1)) x (K + 1) 0 ∧
    (smallOut cfg (tab (2 ^ (K + 1)) x)).getD (2 ^ K) Cx.zero =
      (tree (2 ^ (K + 1)) x K 0).sub (tree (2 ^ (K + 1)) x K 1) := by
  interval_cases K
  · constructor
    · simp [smallOut, smallKernel, fft2, tab, List.range_succ_eq_map, tree]
    · simp [smallOut, smallKernel, fft2, tab, List.range_succ_eq_map, tree]; rfl
  · simp [smallOut, smallKernel, fft4, tab, List.range_succ_eq_map, tree]
  · simp [smallOut, smallKernel, fft8, tab, List.range_succ_eq_map, tree]
  · simp [smallOut, smallKernel, fft16, fft16Half, tab, List.range_succ_eq_map, tree]

/-- a predicate kept by the operations that lead to bins 0 and n/2 -/
theorem stk_keeps {P : Cx T → Prop} {mul : Cx T → Cx T → Cx T} {K : ℕ} (tw x : ℕ → Cx T) (hx : ∀ i, i < 2 ^ K → P (x i))
    (ha : ∀ a b, P a → P b → P (a.add (mul b (tw 0)))) :
    ∀ s, s ≤ K → ∀ j, j < 2 ^ K / 2 ^ s → P (stk mul (2 ^ K) tw x s j)
  | 0, _, j, hj => hx j (by simpa using hj)
  | s + 1, hs, j, hj => by
    have hm := half_block hs
    have ih := stk_keeps tw x hx ha s (by omega)
    have e : stk mul (2 ^ K) tw x (s + 1) = stageF mul (2 ^ s) (2 ^ K / 2 ^ (s + 1)) tw (stk mul (2 ^ K) tw x s) := rfl
    have := stageF_lo (mul := mul) (tw := tw) (src := stk mul (2 ^ K) tw x s) (k := 0) (n1 := 2 ^ s) (by positivity) hj
    simp only [Nat.zero_mul, Nat.mul_zero, Nat.zero_add] at this
    rw [e, this]
    exact ha _ _ (ih j (by omega)) (ih (2 ^ K / 2 ^ (s + 1) + j) (by omega))

theorem stk_keeps_nyquist {P : Cx T → Prop} {mul : Cx T → Cx T → Cx T} {K : ℕ} (tw x : ℕ → Cx T)
    (hx : ∀ i, i < 2 ^ (K + 1) → P (x i)) (ha : ∀ a b, P a → P b → P (a.add (mul b (tw 0))))
    (hs : ∀ a b, P a → P b → P (a.sub (mul b (tw 0)))) :
    P (stk mul (2 ^ (K + 1)) tw x (K + 1) (2 ^ K)) := by
  have hm := half_block (K := K + 1) (s := K) le_rfl
  have h1 : 2 ^ (K + 1) / 2 ^ (K + 1) = 1 := Nat.div_self (by positivity)
  have e : stk mul (2 ^ (K + 1)) tw x (K + 1) =
    stageF mul (2 ^ K) (2 ^ (K + 1) / 2 ^ (K + 1)) tw (stk mul (2 ^ (K + 1)) tw x K) := rfl
  rw [h1] at hm e
  have := stageF_hi (mul := mul) (tw := tw) (src := stk mul (2 ^ (K + 1)) tw x K) (k := 0) (n1 := 2 ^ K) (n2 := 1) one_pos
  simp only [Nat.zero_mul, Nat.mul_zero, Nat.zero_add, Nat.mul_one, Nat.add_zero] at this
  rw [e, this]
  exact hs _ _ (stk_keeps tw x hx ha K (by omega) 0 (by omega)) (stk_keeps tw x hx ha K (by omega) 1 (by omega))

theorem tree_keeps {P : Cx T → Prop} (n : ℕ) (x : ℕ → Cx T) (hx : ∀ i, P (x i)) (ha : ∀ a b, P a → P b → P (a.add b)) :
    ∀ s j, P (tree n x s j)
  | 0, j => hx j
  | s + 1, j => ha _ _ (tree_keeps n x hx ha s _) (tree_keeps n x hx ha s _)

end generic

section exact

variable {p : ℕ} [F : Flt ℝ]

/-- what `fft` leaves, one case for the kernels and one for the stages -/
theorem freshPow_cases (cfg : Cfg) (K : ℕ) (x : ℕ → Cx ℝ) :
    (K < 4 ∧ freshPow cfg (tab (2 ^ (K + 1)) x) = smallOut cfg (tab (2 ^ (K + 1)) x)) ∨
    ∃ mul, (mul = Cx.mulPlain ∨ mul = Cx.mul) ∧ ∀ k, k < 2 ^ (K + 1) → (freshPow cfg (tab (2 ^ (K + 1)) x)).getD k Cx.zero =
      stk mul (2 ^ (K + 1)) (twAt cfg (2 ^ (K + 1))) x (K + 1) k := by
  have big : ∀ mul k, k < 2 ^ (K + 1) → (stkOut cfg mul (tab (2 ^ (K + 1)) x)).getD k Cx.zero =
      stk mul (2 ^ (K + 1)) (twAt cfg (2 ^ (K + 1))) x (K + 1) k := by
    intro mul k hk
    unfold stkOut
    rw [tab_length, pow_log2, tab_getD hk]
    exact stk_congr (fun _ _ => rfl) (fun i hi => tab_getD hi) _ le_rfl _ hk
  have h1 : 2 ^ (K + 1) ≠ 1 := by
    have : 2 ^ 1 ≤ 2 ^ (K + 1) := Nat.pow_le_pow_right (by norm_num) (by omega)
    omega
  unfold freshPow powOut
  rw [tab_length, if_neg h1]
  split
  · rename_i h2
    refine Or.inl ⟨?_, rfl⟩
    by_contra h
    have : 2 ^ 5 ≤ 2 ^ (K + 1) := Nat.pow_le_pow_right (by norm_num) (by omega)
    omega
  · right
    unfold bigOut
    split
    · rw [stale_nil Planner.new _ (by simp [Planner.new]), List.append_nil,
        List.take_of_length_le (by rw [stkOut_length])]
      exact ⟨_, Or.inl rfl, big _⟩
    · exact ⟨_, Or.inr rfl, big _⟩

theorem ewr_im_mul (E : ExactWhereRepresentable p F) {mul : Cx ℝ → Cx ℝ → Cx ℝ} (hm : mul = Cx.mulPlain ∨ mul = Cx.mul)
    {b : Cx ℝ} (hb : b.im = 0) : (mul b ⟨1, 0⟩).im = 0 := by
  have m : ∀ b, F.mul b 0 = 0 := fun b => by rw [E.mul _ _ (by simpa using repr_zero), mul_zero]
  have m0 : ∀ b, F.mul 0 b = 0 := fun b => by rw [E.mul _ _ (by simpa using repr_zero), zero_mul]
  have hp : (Cx.mulPlain b ⟨1, 0⟩).im = 0 := by
    show F.add (F.mul b.re 0) (F.mul b.im 1) = 0
    rw [hb, m, m0, E.add _ _ (by simpa using repr_zero), add_zero]
  rcases hm with rfl | rfl
  · exact hp
  · unfold Cx.mul
    split
    · show F.mulAdd b.re 0 (F.mul b.im 1) = 0
      rw [hb, m0, E.mulAdd _ _ _ (by simpa using repr_zero) (by simpa using repr_zero)]
      simp
    · exact hp

theorem ewr_im_add (E : ExactWhereRepresentable p F) {a b : Cx ℝ} (ha : a.im = 0) (hb : b.im = 0) : (a.add b).im = 0 := by
  show F.add a.im b.im = 0
  rw [ha, hb, E.add _ _ (by simpa using repr_zero), add_zero]

theorem ewr_im_sub (E : ExactWhereRepresentable p F) {a b : Cx ℝ} (ha : a.im = 0) (hb : b.im = 0) : (a.sub b).im = 0 := by
  show F.sub a.im b.im = 0
  rw [ha, hb, E.sub _ _ (by simpa using repr_zero), sub_zero]

/-- Bins 0 and n/2 of a real signal are exactly real, in floating-point arithmetic. -/
theorem fft_real_bins (E : ExactWhereRepresentable p F) (cfg : Cfg) (K : ℕ) (x : ℕ → ℝ) {pl : Planner ℝ}
    (h : ReachVia cfg (fun m => workSize m ≤ workSize (2 ^ (K + 1))) pl) :
    ∃ pl' y, fft cfg pl (tab (2 ^ (K + 1)) fun t => ⟨x t, 0⟩) = .ok (pl', y, .ok ()) ∧
      (y.getD 0 Cx.zero).im = 0 ∧ (y.getD (2 ^ K) Cx.zero).im = 0 := by
  obtain ⟨pl', e, -⟩ := fft_pow_run cfg (x := tab (2 ^ (K + 1)) fun t => (⟨x t, 0⟩ : Cx ℝ)) (by simp) h
  refine ⟨pl', _, e, ?_⟩
  have p1 : 2 ^ K < 2 ^ (K + 1) := by rw [pow_succ]; have : 0 < 2 ^ K := by positivity
                                      omega
  rcases freshPow_cases cfg K (fun t => (⟨x t, 0⟩ : Cx ℝ)) with ⟨hK, e⟩ | ⟨mul, hm, e⟩
  · rw [e, (small_tree cfg _ hK).1, (small_tree cfg _ hK).2]
    have := tree_keeps (P := fun c : Cx ℝ => c.im = 0) (2 ^ (K + 1)) (fun t => (⟨x t, 0⟩ : Cx ℝ)) (fun _ => rfl)
      (fun a b => ewr_im_add E)
    exact ⟨this _ _, ewr_im_sub E (this _ _) (this _ _)⟩
  · rw [e 0 (by positivity), e (2 ^ K) p1]
    have ha : ∀ a b : Cx ℝ, a.im = 0 → b.im = 0 → (a.add (mul b (twAt cfg (2 ^ (K + 1)) 0))).im = 0 := by
      intro a b ha hb
      rw [ewr_twAt E cfg (by omega)]
      exact ewr_im_add E ha (ewr_im_mul E hm hb)
    have hs : ∀ a b : Cx ℝ, a.im = 0 → b.im = 0 → (a.sub (mul b (twAt cfg (2 ^ (K + 1)) 0))).im = 0 := by
      intro a b ha hb
      rw [ewr_twAt E cfg (by omega)]
      exact ewr_im_sub E ha (ewr_im_mul E hm hb)
    exact ⟨stk_keeps (P := fun c : Cx ℝ => c.im = 0) _ _ (fun _ _ => rfl) ha _ le_rfl 0 (by
        rw [Nat.div_self (by positivity)]; exact one_pos),
      stk_keeps_nyquist (P := fun c : Cx ℝ => c.im = 0) _ _ (fun _ _ => rfl) ha hs⟩

/-- partial sums of the samples with a given remainder -/
theorem filter_split {n m j : ℕ} (hj : j < m) (X : ℕ → ℤ) :
    ∑ t ∈ (Finset.range n).filter (fun t => t % m = j), X t =
      ∑ t ∈ (Finset.range n).filter (fun t => t % (2 * m) = j), X t +
      ∑ t ∈ (Finset.range n).filter (fun t => t % (2 * m) = m + j), X t := by
  rw [← Finset.sum_union]
  · congr 1
    ext t
    simp only [Finset.mem_filter, Finset.mem_union, Finset.mem_range, ← and_or_left]
    refine and_congr_right fun _ => ?_
    rw [Nat.mul_comm 2 m, Nat.mod_mul]
    have hr : t / m % 2 < 2 := Nat.mod_lt _ (by norm_num)
    have hq : t % m < m := Nat.mod_lt _ (by omega)
    generalize t / m % 2 = r at *
    interval_cases r
    · simp only [Nat.mul_zero, Nat.add_zero]; omega
    · simp only [Nat.mul_one]; omega
  · rw [Finset.disjoint_filter]
    intro t _ h1 h2
    omega

theorem filter_bound {n : ℕ} {X : ℕ → ℤ} (hX : ∑ t ∈ Finset.range n, |X t| < 2 ^ p) (P : ℕ → Prop) [DecidablePred P] :
    |∑ t ∈ (Finset.range n).filter P, X t| < 2 ^ p :=
  (Finset.abs_sum_le_sum_abs _ _).trans_lt
    ((Finset.sum_le_sum_of_subset_of_nonneg (Finset.filter_subset _ _) (fun _ _ _ => abs_nonneg _)).trans_lt hX)

/-- the tree of additions on integers makes no error -/
theorem tree_int (E : ExactWhereRepresentable p F) {K : ℕ} {X Y : ℕ → ℤ} (hX : ∑ t ∈ Finset.range (2 ^ K), |X t| < 2 ^ p)
    (hY : ∑ t ∈ Finset.range (2 ^ K), |Y t| < 2 ^ p) :
    ∀ s, s ≤ K → ∀ j, j < 2 ^ K / 2 ^ s → tree (2 ^ K) (fun t => (⟨X t, Y t⟩ : Cx ℝ)) s j =
      ⟨(∑ t ∈ (Finset.range (2 ^ K)).filter (fun t => t % (2 ^ K / 2 ^ s) = j), X t : ℤ),
        (∑ t ∈ (Finset.range (2 ^ K)).filter (fun t => t % (2 ^ K / 2 ^ s) = j), Y t : ℤ)⟩
  | 0, _, j, hj => by
    simp only [pow_zero, Nat.div_one] at hj ⊢
    have : (Finset.range (2 ^ K)).filter (fun t => t % 2 ^ K = j) = {j} := by
      ext t
      simp only [Finset.mem_filter, Finset.mem_range, Finset.mem_singleton]
      constructor
      · rintro ⟨h1, h2⟩; rwa [Nat.mod_eq_of_lt h1] at h2
      · rintro rfl; exact ⟨hj, Nat.mod_eq_of_lt hj⟩
    rw [this]
    simp [tree]
  | s + 1, hs, j, hj => by
    have hm := half_block hs
    have ih := tree_int E hX hY s (by omega)
    have b1 := fun j : ℕ => filter_bound hX (fun t => t % (2 ^ K / 2 ^ (s + 1)) = j)
    have b2 := fun j : ℕ => filter_bound hY (fun t => t % (2 ^ K / 2 ^ (s + 1)) = j)
    rw [hm] at ih
    unfold tree
    generalize 2 ^ K / 2 ^ (s + 1) = m at *
    rw [ih j (by omega), ih (m + j) (by omega), filter_split hj, filter_split hj]
    have c1 := b1 j
    have c2 := b2 j
    rw [filter_split hj] at c1 c2
    rw [ewr_add E]
    · push_cast; rfl
    · exact ⟨by
        have := repr_int _ c1
        push_cast at this ⊢; exact this, by
        have := repr_int _ c2
        push_cast at this ⊢; exact this⟩

omit F in
theorem crepr_int {a b : ℤ} (ha : |a| < 2 ^ p) (hb : |b| < 2 ^ p) : CRepr p ⟨a, b⟩ := ⟨repr_int _ ha, repr_int _ hb⟩

omit F in
theorem filter_all (n : ℕ) (X : ℕ → ℤ) : ∑ t ∈ (Finset.range n).filter (fun t => t % 1 = 0), X t = ∑ t ∈ Finset.range n, X t := by
  simp [Nat.mod_one]

omit F in
/-- even minus odd -/
theorem filter_alt (n : ℕ) (X : ℕ → ℤ) :
    ∑ t ∈ (Finset.range n).filter (fun t => t % 2 = 0), X t - ∑ t ∈ (Finset.range n).filter (fun t => t % 2 = 1), X t =
      ∑ t ∈ Finset.range n, (-1) ^ t * X t := by
  rw [Finset.sum_filter, Finset.sum_filter, ← Finset.sum_sub_distrib]
  refine Finset.sum_congr rfl fun t _ => ?_
  rcases Nat.even_or_odd t with h | h
  · rw [h.neg_one_pow, if_pos (Nat.even_iff.mp h), if_neg (by rw [Nat.even_iff.mp h]; norm_num)]; ring
  · rw [h.neg_one_pow, if_neg (by rw [Nat.odd_iff.mp h]; norm_num), if_pos (Nat.odd_iff.mp h)]; ring

omit F in
theorem alt_bound {n : ℕ} {X : ℕ → ℤ} (hX : ∑ t ∈ Finset.range n, |X t| < 2 ^ p) :
    |∑ t ∈ Finset.range n, (-1) ^ t * X t| < 2 ^ p := by
  refine (Finset.abs_sum_le_sum_abs _ _).trans_lt (lt_of_le_of_lt (Finset.sum_le_sum fun t _ => ?_) hX)
  rw [abs_mul, abs_pow, abs_neg, abs_one, one_pow, one_mul]

/-- the two bins of what `fft` leaves -/
theorem freshPow_int (E : ExactWhereRepresentable p F) (cfg : Cfg) (K : ℕ) {X Y : ℕ → ℤ}
    (hX : ∑ t ∈ Finset.range (2 ^ (K + 1)), |X t| < 2 ^ p) (hY : ∑ t ∈ Finset.range (2 ^ (K + 1)), |Y t| < 2 ^ p) :
    (freshPow cfg (tab (2 ^ (K + 1)) fun t => (⟨X t, Y t⟩ : Cx ℝ))).getD 0 Cx.zero =
      ⟨(∑ t ∈ Finset.range (2 ^ (K + 1)), X t : ℤ), (∑ t ∈ Finset.range (2 ^ (K + 1)), Y t : ℤ)⟩ ∧
    (freshPow cfg (tab (2 ^ (K + 1)) fun t => (⟨X t, Y t⟩ : Cx ℝ))).getD (2 ^ K) Cx.zero =
      ⟨(∑ t ∈ Finset.range (2 ^ (K + 1)), (-1) ^ t * X t : ℤ), (∑ t ∈ Finset.range (2 ^ (K + 1)), (-1) ^ t * Y t : ℤ)⟩ := by
  have p1 : 2 ^ K < 2 ^ (K + 1) := by rw [pow_succ]; have : 0 < 2 ^ K := by positivity
                                      omega
  have hone : 2 ^ (K + 1) / 2 ^ (K + 1) = 1 := Nat.div_self (by positivity)
  have htwo : 2 ^ (K + 1) / 2 ^ K = 2 := by rw [half_block (K := K + 1) (s := K) le_rfl, hone]
  have t0 := tree_int E hX hY (K + 1) le_rfl 0 (by rw [hone]; exact one_pos)
  have ta := tree_int E hX hY K (by omega) 0 (by rw [htwo]; norm_num)
  have tb := tree_int E hX hY K (by omega) 1 (by rw [htwo]; norm_num)
  rw [hone, filter_all, filter_all] at t0
  rw [htwo] at ta tb
  have ty : (tree (2 ^ (K + 1)) (fun t => (⟨X t, Y t⟩ : Cx ℝ)) K 0).sub (tree (2 ^ (K + 1)) (fun t => (⟨X t, Y t⟩ : Cx ℝ)) K 1) =
      ⟨(∑ t ∈ Finset.range (2 ^ (K + 1)), (-1) ^ t * X t : ℤ), (∑ t ∈ Finset.range (2 ^ (K + 1)), (-1) ^ t * Y t : ℤ)⟩ := by
    rw [ta, tb]
    have := crepr_int (alt_bound hX) (alt_bound hY)
    rw [← filter_alt, ← filter_alt, Int.cast_sub, Int.cast_sub] at this ⊢
    exact ewr_sub E this
  rcases freshPow_cases cfg K (fun t => (⟨X t, Y t⟩ : Cx ℝ)) with ⟨hK, e⟩ | ⟨mul, hm, e⟩
  · rw [e, (small_tree cfg _ hK).1, (small_tree cfg _ hK).2]
    exact ⟨t0, ty⟩
  · have hone' : ∀ s, s < K + 1 → ∀ j, j < 2 ^ (K + 1) / 2 ^ s →
        mul (tree (2 ^ (K + 1)) (fun t => (⟨X t, Y t⟩ : Cx ℝ)) s j) (twAt cfg (2 ^ (K + 1)) 0) =
          tree (2 ^ (K + 1)) (fun t => (⟨X t, Y t⟩ : Cx ℝ)) s j := by
      intro s hs j hj
      rw [ewr_twAt E cfg (by omega), tree_int E hX hY s (by omega) j hj]
      rcases hm with rfl | rfl
      · exact ewr_mulPlain_one E (crepr_int (filter_bound hX _) (filter_bound hY _))
      · exact ewr_mul_one E (crepr_int (filter_bound hX _) (filter_bound hY _))
    rw [e 0 (by positivity), e (2 ^ K) p1, stk_nyquist _ _ hone', stk_tree _ _ hone' (K + 1) le_rfl 0 (by
      rw [hone]; exact one_pos)]
    exact ⟨t0, ty⟩

/-- Bins 0 and n/2 of a signal of integers are the sum and the alternating sum, without rounding error, when the magnitudes of
the samples add up to less than `2^p`. -/
theorem fft_integer_bins (E : ExactWhereRepresentable p F) (cfg : Cfg) (K : ℕ) (X Y : ℕ → ℤ)
    (hX : ∑ t ∈ Finset.range (2 ^ (K + 1)), |X t| < 2 ^ p) (hY : ∑ t ∈ Finset.range (2 ^ (K + 1)), |Y t| < 2 ^ p)
    {pl : Planner ℝ} (h : ReachVia cfg (fun m => workSize m ≤ workSize (2 ^ (K + 1))) pl) :
    ∃ pl' y, fft cfg pl (tab (2 ^ (K + 1)) fun t => ⟨X t, Y t⟩) = .ok (pl', y, .ok ()) ∧
      y.getD 0 Cx.zero = ⟨(∑ t ∈ Finset.range (2 ^ (K + 1)), X t : ℤ), (∑ t ∈ Finset.range (2 ^ (K + 1)), Y t : ℤ)⟩ ∧
      y.getD (2 ^ K) Cx.zero = ⟨(∑ t ∈ Finset.range (2 ^ (K + 1)), (-1) ^ t * X t : ℤ),
        (∑ t ∈ Finset.range (2 ^ (K + 1)), (-1) ^ t * Y t : ℤ)⟩ := by
  obtain ⟨pl', e, -⟩ := fft_pow_run cfg (x := tab (2 ^ (K + 1)) fun t => (⟨X t, Y t⟩ : Cx ℝ)) (by simp) h
  exact ⟨pl', _, e, freshPow_int E cfg K hX hY⟩

omit F in
/-- sums over pairs of samples -/
theorem sum_pairs (m : ℕ) (g : ℕ → ℤ) :
    ∑ t ∈ Finset.range (2 * m), g t = ∑ t ∈ Finset.range m, (g (2 * t) + g (2 * t + 1)) := by
  induction m with
  | zero => simp
  | succ m ih => rw [show 2 * (m + 1) = 2 * m + 1 + 1 by ring, Finset.sum_range_succ, Finset.sum_range_succ, ih,
      Finset.sum_range_succ, add_assoc]

/-- Bins 0 and n/2 of `rfft`: the imaginary parts are exactly zero, and for integer samples whose magnitudes add up to less
than `2^p` the real parts are the sum and the alternating sum, without rounding error. -/
theorem rfft_integer_bins (E : ExactWhereRepresentable p F) (cfg : Cfg) (simd : Bool) (un : ℕ → Cx ℝ) (K : ℕ) (X : ℕ → ℤ)
    (hX : ∑ t ∈ Finset.range (2 ^ (K + 2)), |X t| < 2 ^ p)
    {pl : Planner ℝ} (h : ReachVia cfg (fun m => workSize m ≤ workSize (2 ^ (K + 1))) pl) (out : List (Cx ℝ))
    (ho : out.length = 2 ^ (K + 1) + 1) :
    ∃ pl' y, rfft simd (fft cfg) un pl (tab (2 ^ (K + 2)) fun t => (X t : ℝ)) out = .ok (pl', y, .ok ()) ∧
      y.getD 0 Cx.zero = ⟨(∑ t ∈ Finset.range (2 ^ (K + 2)), X t : ℤ), 0⟩ ∧
      y.getD (2 ^ (K + 1)) Cx.zero = ⟨(∑ t ∈ Finset.range (2 ^ (K + 2)), (-1) ^ t * X t : ℤ), 0⟩ := by
  set x : List ℝ := tab (2 ^ (K + 2)) fun t => (X t : ℝ) with hx
  have h2 : 2 ^ (K + 2) = 2 * 2 ^ (K + 1) := by ring
  have pos : 0 < 2 ^ (K + 1) := by positivity
  have hxl : x.length = 2 * 2 ^ (K + 1) := by rw [hx, tab_length, h2]
  have hpk : packed x = tab (2 ^ (K + 1)) fun i => (⟨(X (2 * i) : ℤ), (X (2 * i + 1) : ℤ)⟩ : Cx ℝ) := by
    unfold packed
    rw [hxl, Nat.mul_div_cancel_left _ (by norm_num)]
    refine tab_congr fun i hi => ?_
    rw [hx, tab_getD (by omega), tab_getD (by omega)]
  have hs : ∑ t ∈ Finset.range (2 ^ (K + 1)), (|X (2 * t)| + |X (2 * t + 1)|) < 2 ^ p := by
    rw [← sum_pairs _ (fun t => |X t|), ← h2]; exact hX
  have ha : ∑ t ∈ Finset.range (2 ^ (K + 1)), |X (2 * t)| < 2 ^ p :=
    lt_of_le_of_lt (Finset.sum_le_sum fun t _ => le_add_of_nonneg_right (abs_nonneg _)) hs
  have hb : ∑ t ∈ Finset.range (2 ^ (K + 1)), |X (2 * t + 1)| < 2 ^ p :=
    lt_of_le_of_lt (Finset.sum_le_sum fun t _ => le_add_of_nonneg_left (abs_nonneg _)) hs
  obtain ⟨pl', y, e, y0, -⟩ := fft_integer_bins E cfg K (fun t => X (2 * t)) (fun t => X (2 * t + 1)) ha hb h
  have hyl : y.length = 2 ^ (K + 1) := by
    have := opLen_fft (Kofft.ReachVia.mono (fun _ _ => trivial) h) _ _ _ _ e
    rw [this, tab_length]
  refine ⟨pl', rfftPost (rBinOf simd) y, ?_, ?_, ?_⟩
  · rw [rfft_val simd (fft cfg) un pl (opLen_fft (Kofft.ReachVia.mono (fun _ _ => trivial) h)) x out]
    unfold rfftVal
    simp only [show ¬ x.length = 0 by omega, show ¬ x.length % 2 ≠ 0 by omega,
      show ¬ out.length ≠ x.length / 2 + 1 by omega, if_false, hpk, e, Outcome.bind_ok]
  · unfold rfftPost
    rw [tab_getD (by omega), if_pos rfl, y0]
    have b := filter_bound hX (fun _ => True)
    rw [Finset.filter_true] at b
    rw [h2, sum_pairs, Finset.sum_add_distrib] at b ⊢
    show (⟨F.add _ _, F.zero⟩ : Cx ℝ) = _
    have r := repr_int _ b
    rw [Int.cast_add] at r ⊢
    rw [E.add _ _ r, E.zero]
  · unfold rfftPost
    rw [tab_getD (by omega), if_neg (by omega), if_pos hyl.symm, y0]
    have b := alt_bound hX
    have e2 : ∑ t ∈ Finset.range (2 ^ (K + 2)), (-1) ^ t * X t =
        ∑ t ∈ Finset.range (2 ^ (K + 1)), X (2 * t) - ∑ t ∈ Finset.range (2 ^ (K + 1)), X (2 * t + 1) := by
      rw [h2, sum_pairs, ← Finset.sum_sub_distrib]
      refine Finset.sum_congr rfl fun t _ => ?_
      rw [pow_succ, pow_mul]; norm_num; ring
    rw [e2] at b ⊢
    show (⟨F.sub _ _, F.zero⟩ : Cx ℝ) = _
    have r := repr_int _ b
    rw [Int.cast_sub] at r ⊢
    rw [E.sub _ _ r, E.zero]

theorem int_add (E : ExactWhereRepresentable p F) {a b c d : ℤ} (h1 : |a + c| < 2 ^ p) (h2 : |b + d| < 2 ^ p) :
    Cx.add (⟨a, b⟩ : Cx ℝ) ⟨c, d⟩ = ⟨(a + c : ℤ), (b + d : ℤ)⟩ := by
  have := crepr_int h1 h2
  rw [Int.cast_add, Int.cast_add] at this ⊢
  exact ewr_add E this

theorem int_sub (E : ExactWhereRepresentable p F) {a b c d : ℤ} (h1 : |a - c| < 2 ^ p) (h2 : |b - d| < 2 ^ p) :
    Cx.sub (⟨a, b⟩ : Cx ℝ) ⟨c, d⟩ = ⟨(a - c : ℤ), (b - d : ℤ)⟩ := by
  have := crepr_int h1 h2
  rw [Int.cast_sub, Int.cast_sub] at this ⊢
  exact ewr_sub E this

/-- multiplication by `-i` is exact -/
theorem int_mulMinusI (E : ExactWhereRepresentable p F) {a b : ℤ} (h1 : |a| < 2 ^ p) (h2 : |b| < 2 ^ p) :
    Cx.mul (⟨a, b⟩ : Cx ℝ) cxMinusI = ⟨(b : ℤ), (-a : ℤ)⟩ := by
  have ra := repr_int _ h1
  have rb := repr_int _ h2
  have m : ∀ b, F.mul b 0 = 0 := fun b => by rw [E.mul _ _ (by simpa using repr_zero), mul_zero]
  have m1 : ∀ b, IsRepr p b → F.mul b (-1) = -b := fun b hb => by
    rw [E.mul _ _ (by simpa using hb.neg), mul_neg, mul_one]
  have hi : (cxMinusI : Cx ℝ) = ⟨0, -1⟩ := by
    show (⟨F.zero, F.neg F.one⟩ : Cx ℝ) = _
    rw [E.neg, E.zero, E.one]
  rw [hi]
  unfold Cx.mul
  push_cast
  split
  · show (⟨F.mulAdd a 0 (F.neg (F.mul b (-1))), F.mulAdd a (-1) (F.mul b 0)⟩ : Cx ℝ) = _
    rw [m, m1 _ rb, E.neg, neg_neg, E.mulAdd _ _ _ (by simpa using repr_zero) (by simpa using rb),
      E.mulAdd _ _ _ (by simpa using ra.neg) (by simpa using ra.neg)]
    simp
  · show (⟨F.sub (F.mul a 0) (F.mul b (-1)), F.add (F.mul a (-1)) (F.mul b 0)⟩ : Cx ℝ) = _
    rw [m, m, m1 _ rb, m1 _ ra, E.sub _ _ (by simpa using rb), E.add _ _ (by simpa using ra.neg)]
    simp

/-- A transform of length 4 of integers makes no rounding error at all (magnitudes adding up to less than `2^p`). -/
theorem fft4_integer (E : ExactWhereRepresentable p F) (cfg : Cfg) (X Y : ℕ → ℤ)
    (hX : ∑ t ∈ Finset.range 4, (|X t| + |Y t|) < 2 ^ p)
    {pl : Planner ℝ} (h : ReachVia cfg (fun m => workSize m ≤ workSize 4) pl) :
    ∃ pl' y, fft cfg pl (tab 4 fun t => ⟨X t, Y t⟩) = .ok (pl', y, .ok ()) ∧ y.length = 4 ∧
      ∀ k, k < 4 → toC (y.getD k Cx.zero) = dft 4 (fun t => X t + Y t * Complex.I) k := by
  have hv : freshPow cfg (tab 4 fun t => (⟨X t, Y t⟩ : Cx ℝ)) =
      [⟨(X 0 + X 2 + (X 1 + X 3) : ℤ), (Y 0 + Y 2 + (Y 1 + Y 3) : ℤ)⟩,
       ⟨(X 0 - X 2 + (Y 1 - Y 3) : ℤ), (Y 0 - Y 2 + -(X 1 - X 3) : ℤ)⟩,
       ⟨(X 0 + X 2 - (X 1 + X 3) : ℤ), (Y 0 + Y 2 - (Y 1 + Y 3) : ℤ)⟩,
       ⟨(X 0 - X 2 - (Y 1 - Y 3) : ℤ), (Y 0 - Y 2 - -(X 1 - X 3) : ℤ)⟩] := by
    simp only [Finset.sum_range_succ, Finset.sum_range_zero, zero_add] at hX
    have bd : ∀ z : ℤ, z ≤ |X 0| + |Y 0| + (|X 1| + |Y 1|) + (|X 2| + |Y 2|) + (|X 3| + |Y 3|) →
        -z ≤ |X 0| + |Y 0| + (|X 1| + |Y 1|) + (|X 2| + |Y 2|) + (|X 3| + |Y 3|) → |z| < 2 ^ p := by
      intro z h1 h2
      exact (abs_le.mpr ⟨by linarith, h1⟩).trans_lt hX
    have x0 := le_abs_self (X 0); have x1 := le_abs_self (X 1); have x2 := le_abs_self (X 2); have x3 := le_abs_self (X 3)
    have y0 := le_abs_self (Y 0); have y1 := le_abs_self (Y 1); have y2 := le_abs_self (Y 2); have y3 := le_abs_self (Y 3)
    have x0' := neg_le_abs (X 0); have x1' := neg_le_abs (X 1); have x2' := neg_le_abs (X 2); have x3' := neg_le_abs (X 3)
    have y0' := neg_le_abs (Y 0); have y1' := neg_le_abs (Y 1); have y2' := neg_le_abs (Y 2); have y3' := neg_le_abs (Y 3)
    have hk : freshPow cfg (tab 4 fun t => (⟨X t, Y t⟩ : Cx ℝ)) = smallOut cfg (tab 4 fun t => (⟨X t, Y t⟩ : Cx ℝ)) := by
      unfold freshPow powOut; rw [tab_length]; rfl
    rw [hk]
    simp only [smallOut, smallKernel, fft4, tab, List.range_succ_eq_map, List.range_zero, List.map_cons, List.map_nil,
      List.length_cons, List.length_nil, List.isEmpty_nil, Bool.not_true, Bool.and_false, Bool.false_eq_true, if_false]
    norm_num only [zero_add, Nat.reduceAdd]
    rw [int_add E (bd _ (by omega) (by omega)) (bd _ (by omega) (by omega)),
      int_sub E (bd _ (by omega) (by omega)) (bd _ (by omega) (by omega)),
      int_add E (bd _ (by omega) (by omega)) (bd _ (by omega) (by omega)),
      int_sub E (bd _ (by omega) (by omega)) (bd _ (by omega) (by omega)),
      int_mulMinusI E (bd _ (by omega) (by omega)) (bd _ (by omega) (by omega)),
      int_add E (bd _ (by omega) (by omega)) (bd _ (by omega) (by omega)),
      int_add E (bd _ (by omega) (by omega)) (bd _ (by omega) (by omega)),
      int_sub E (bd _ (by omega) (by omega)) (bd _ (by omega) (by omega)),
      int_sub E (bd _ (by omega) (by omega)) (bd _ (by omega) (by omega))]
    simp only [if_true, if_false]
  obtain ⟨pl', e, -⟩ := fft_pow_run (K := 2) cfg (x := tab 4 fun t => (⟨X t, Y t⟩ : Cx ℝ)) (by simp) h
  rw [hv] at e
  refine ⟨pl', _, e, rfl, ?_⟩
  intro k hk
  obtain ⟨h0, h1, h2, h3⟩ := dft_four (fun t => ((X t : ℂ) + Y t * Complex.I))
  interval_cases k
  · rw [h0]; apply Complex.ext <;> simp [toC]
  · rw [h1]; apply Complex.ext <;> simp [toC]
  · rw [h2]; apply Complex.ext <;> simp [toC]
  · rw [h3]; apply Complex.ext <;> simp [toC] <;> ring

end exact

-- binary32: 512 samples of 16-bit audio (magnitudes at most 2^15 - 1 add up to less than 2^24)
example (X : ℕ → ℤ) (hX : ∀ t, |X t| ≤ 2 ^ 15 - 1) (out : List (Cx ℝ)) (ho : out.length = 2 ^ 8 + 1) :
    ∃ pl' y, @rfft ℝ (rndFlt 24 24 true true) _ true (@fft ℝ (rndFlt 24 24 true true) ⟨true, .f32, true, 8, false⟩)
      (fun _ => ⟨0, 0⟩) Planner.new (tab (2 ^ 9) fun t => (X t : ℝ)) out = .ok (pl', y, .ok ()) ∧
      y.getD 0 ⟨0, 0⟩ = ⟨(∑ t ∈ Finset.range (2 ^ 9), X t : ℤ), 0⟩ := by
  letI := rndFlt 24 24 true true
  have hs : ∑ t ∈ Finset.range (2 ^ (7 + 2)), |X t| < 2 ^ 24 := by
    have := Finset.sum_le_sum (s := Finset.range (2 ^ (7 + 2))) (fun t (_ : t ∈ _) => hX t)
    rw [Finset.sum_const, Finset.card_range] at this
    exact this.trans_lt (by norm_num)
  obtain ⟨pl', y, e, y0, -⟩ := rfft_integer_bins (p := 24) (rndFlt_exactWhere (by norm_num) (by norm_num) true true)
    ⟨true, .f32, true, 8, false⟩ true (fun _ => ⟨0, 0⟩) 7 X hs .new out ho
  exact ⟨pl', y, e, y0⟩
example : ∃ pl' y, @fft ℝ (rndFlt 53 24 false false) ⟨true, .f64, false, 4, false⟩ Planner.new
      (tab (2 ^ 6) fun t => ⟨(t : ℤ), (-3 : ℤ)⟩) = .ok (pl', y, .ok ()) ∧
    y.getD 0 ⟨0, 0⟩ = ⟨(∑ t ∈ Finset.range (2 ^ 6), (t : ℤ) : ℤ), (∑ t ∈ Finset.range (2 ^ 6), (-3) : ℤ)⟩ := by
  letI := rndFlt 53 24 false false
  obtain ⟨pl', y, e, y0, -⟩ := fft_integer_bins (p := 53) (rndFlt_exactWhere (by norm_num) (by norm_num) false false)
    ⟨true, .f64, false, 4, false⟩ 5 (fun t => (t : ℤ)) (fun _ => -3) (by decide +kernel) (by decide +kernel) .new
  exact ⟨pl', y, e, y0⟩
example : ∑ t ∈ Finset.range 4, (|((t : ℤ) - 2)| + |(5 : ℤ)|) < 2 ^ 24 := by decide +kernel

end Kofft.Props
