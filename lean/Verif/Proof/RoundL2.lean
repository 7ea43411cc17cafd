import Verif.Proof.RoundFft
import Verif.Lib.L2
/-
Rounding error of the power-of-two transform in the Euclidean norm: one level loses at most the factor `lvl`.
-/
namespace Kofft
open Spec Complex Finset

/-- `s` exact levels. -/
noncomputable def cstk (n : ℕ) (tw x : ℕ → ℂ) : ℕ → ℕ → ℂ
  | 0 => x
  | s + 1 => cstage (2 ^ s) (n / 2 ^ (s + 1)) tw (cstk n tw x s)

theorem cstk_stk (n : ℕ) (tw x : ℕ → ℂ) : ∀ s i, cstk n tw x s i =
    toC (@stk ℝ (realFlt false) (@Cx.mul ℝ (realFlt false)) n (fun i => ofC (tw i)) (fun i => ofC (x i)) s i)
  | 0, _ => rfl
  | s + 1, i => by
    letI F := realFlt false
    have h := realFlt_lawful false
    show cstage _ _ _ _ _ = toC (stageF _ _ _ _ _ _)
    unfold cstage stageF
    dsimp only
    split
    · rw [toC_add h, toC_mul h, cstk_stk, cstk_stk, toC_ofC]
    · rw [toC_sub h, toC_mul h, cstk_stk, cstk_stk, toC_ofC]

theorem cstk_dft (K : ℕ) (x : ℕ → ℂ) (k : ℕ) (hk : k < 2 ^ K) : cstk (2 ^ K) (W (2 ^ K)) x K k = dft (2 ^ K) x k := by
  letI F := realFlt false
  have h := realFlt_lawful false
  rw [cstk_stk]
  have := stk_exact h (@Cx.mul ℝ (realFlt false)) (toC_mul h) K (fun i => ofC (W (2 ^ K) i)) (fun i => ofC (x i))
    (fun k _ => toC_ofC _) K le_rfl k 0 hk (by rw [Nat.div_self (Nat.pow_pos (by norm_num))]; norm_num)
  rw [Nat.div_self (Nat.pow_pos (by norm_num))] at this
  simp only [mul_one, add_zero, one_mul, zero_add, toC_ofC] at this
  exact this

variable [F : Flt ℝ] {u v t : ℝ}

/-- A computed level against the exact one on the same data. -/
theorem stage_l2 (h : Rounding F u v t) (mul : Cx ℝ → Cx ℝ → Cx ℝ)
    (hm : ∀ a b, ‖toC (mul a b) - toC a * toC b‖ ≤ mulErr u * (‖toC a‖ * ‖toC b‖)) (n1 n2 : ℕ) (tw src : ℕ → Cx ℝ)
    (ω : ℕ → ℂ) (Θ : ℝ) (hΘ : 1 ≤ Θ) (htw : ∀ k, k < n1 → ‖ω (k * n2)‖ = 1 ∧ ‖toC (tw (k * n2)) - ω (k * n2)‖ ≤ Θ - 1) :
    l2 (2 * n1 * n2) (fun i => toC (stageF mul n1 n2 tw src i) - cstage n1 n2 ω (fun i => toC (src i)) i) ≤
      (lvl u Θ - 1) * (Real.sqrt 2 * l2 (2 * n1 * n2) (fun i => toC (src i))) := by
  have hu := h.u_nonneg
  have hμ := mulErr_nonneg hu
  have hl := lvl_ge hu hΘ
  apply l2_le (mul_nonneg (by linarith) (mul_nonneg (Real.sqrt_nonneg _) (l2_nonneg _ _)))
  rw [mul_pow, mul_pow, Real.sq_sqrt (by norm_num), l2_sq, sum_out, sum_in, ← mul_assoc, mul_sum]
  apply sum_le_sum
  intro k hk
  rw [mul_sum]
  apply sum_le_sum
  intro j hj
  rw [mem_range] at hk hj
  rw [stageF_lo hk hj, stageF_hi hj, cstage_lo hk hj, cstage_hi hj]
  obtain ⟨hω, hε⟩ := htw k hk
  set a := src (2 * k * n2 + j)
  set b := src (2 * k * n2 + n2 + j)
  set w := tw (k * n2)
  have hw : ‖toC w‖ ≤ Θ := by
    have := norm_add_le (toC w - ω (k * n2)) (ω (k * n2))
    rw [sub_add_cancel, hω] at this
    linarith
  have hp : ‖toC (mul b w) - toC b * ω (k * n2)‖ ≤ ((1 + mulErr u) * Θ - 1) * ‖toC b‖ := by
    have e1 := hm b w
    have e2 : ‖toC b * toC w - toC b * ω (k * n2)‖ ≤ ‖toC b‖ * (Θ - 1) := by
      rw [← mul_sub, norm_mul]
      exact mul_le_mul_of_nonneg_left hε (norm_nonneg _)
    have e3 := norm_add_le (toC (mul b w) - toC b * toC w) (toC b * toC w - toC b * ω (k * n2))
    rw [sub_add_sub_cancel] at e3
    have e4 : mulErr u * (‖toC b‖ * ‖toC w‖) ≤ mulErr u * (‖toC b‖ * Θ) :=
      mul_le_mul_of_nonneg_left (mul_le_mul_of_nonneg_left hw (norm_nonneg _)) hμ
    nlinarith
  have := butterfly_err hu (by nlinarith : 0 ≤ (1 + mulErr u) * Θ - 1) hω hp (rnd_add h a (mul b w)) (rnd_sub h a (mul b w))
  refine this.trans (le_of_eq ?_)
  unfold lvl
  ring

/-- `s` computed levels against `s` exact ones. -/
theorem stk_l2 (h : Rounding F u v t) (mul : Cx ℝ → Cx ℝ → Cx ℝ)
    (hm : ∀ a b, ‖toC (mul a b) - toC a * toC b‖ ≤ mulErr u * (‖toC a‖ * ‖toC b‖)) (K : ℕ)
    (tw x : ℕ → Cx ℝ) (Θ : ℝ) (hΘ : 1 ≤ Θ)
    (htw : ∀ k, k < 2 ^ K / 2 → Apx Θ (toC (tw k)) (W (2 ^ K) k) 1) : ∀ s, s ≤ K →
    l2 (2 ^ K) (fun i => toC (stk mul (2 ^ K) tw x s i) - cstk (2 ^ K) (W (2 ^ K)) (fun i => toC (x i)) s i) ≤
      (lvl u Θ ^ s - 1) * (Real.sqrt 2 ^ s * l2 (2 ^ K) (fun i => toC (x i))) ∧
    l2 (2 ^ K) (cstk (2 ^ K) (W (2 ^ K)) (fun i => toC (x i)) s) = Real.sqrt 2 ^ s * l2 (2 ^ K) (fun i => toC (x i))
  | 0, _ => by
    refine ⟨?_, ?_⟩
    · have : l2 (2 ^ K) (fun i => toC (stk mul (2 ^ K) tw x 0 i) - cstk (2 ^ K) (W (2 ^ K)) (fun i => toC (x i)) 0 i) = 0 := by
        simp [l2, stk, cstk]
      rw [this]; simp
    · simp [cstk]
  | s + 1, hs => by
    obtain ⟨ih1, ih2⟩ := stk_l2 h mul hm K tw x Θ hΘ htw s (by omega)
    set n2 := 2 ^ K / 2 ^ (s + 1) with hn2
    have hK : 2 * 2 ^ s * n2 = 2 ^ K := by
      rw [show 2 * 2 ^ s = 2 ^ (s + 1) by ring]
      exact Nat.mul_div_cancel' (pow_dvd_pow 2 hs)
    have hkn : ∀ k, k < 2 ^ s → k * n2 < 2 ^ K / 2 := by
      intro k hk
      have : (k + 1) * n2 ≤ 2 ^ s * n2 := Nat.mul_le_mul_right _ hk
      have e : 2 ^ K / 2 = 2 ^ s * n2 := by rw [← hK, Nat.mul_assoc]; simp
      have : 0 < n2 := by
        rcases Nat.eq_zero_or_pos n2 with h0 | h0
        · rw [h0, Nat.mul_zero] at hK; exact absurd hK.symm (by positivity)
        · exact h0
      rw [e]; nlinarith
    set c : ℕ → ℂ := fun i => toC (stk mul (2 ^ K) tw x s i) with hc
    set e : ℕ → ℂ := cstk (2 ^ K) (W (2 ^ K)) (fun i => toC (x i)) s with he
    set R := l2 (2 ^ K) (fun i => toC (x i)) with hR
    have hR0 : 0 ≤ R := l2_nonneg _ _
    have hl := lvl_ge h.u_nonneg hΘ
    have hex : ∀ f : ℕ → ℂ, l2 (2 ^ K) (cstage (2 ^ s) n2 (W (2 ^ K)) f) = Real.sqrt 2 * l2 (2 ^ K) f := by
      intro f
      have := cstage_l2 (2 ^ s) n2 (W (2 ^ K)) f (fun k _ => W_norm _ _)
      rwa [hK] at this
    have hst := stage_l2 h mul hm (2 ^ s) n2 tw (stk mul (2 ^ K) tw x s) (W (2 ^ K)) Θ hΘ
      (fun k hk => ⟨W_norm _ _, by have := (htw _ (hkn k hk)).err; rwa [mul_one] at this⟩)
    rw [hK] at hst
    have hcn : l2 (2 ^ K) c ≤ lvl u Θ ^ s * (Real.sqrt 2 ^ s * R) := by
      have := l2_add (2 ^ K) (fun i => c i - e i) e
      simp only [sub_add_cancel] at this
      rw [ih2] at this
      have h2 : l2 (2 ^ K) c ≤ l2 (2 ^ K) (fun i => c i - e i) + Real.sqrt 2 ^ s * R := this
      nlinarith
    refine ⟨?_, ?_⟩
    · have hsplit := l2_add (2 ^ K) (fun i => toC (stageF mul (2 ^ s) n2 tw (stk mul (2 ^ K) tw x s) i) -
          cstage (2 ^ s) n2 (W (2 ^ K)) c i) (cstage (2 ^ s) n2 (W (2 ^ K)) (fun i => c i - e i))
      have e1 : l2 (2 ^ K) (fun i => toC (stk mul (2 ^ K) tw x (s + 1) i) -
          cstk (2 ^ K) (W (2 ^ K)) (fun i => toC (x i)) (s + 1) i) ≤
          l2 (2 ^ K) (fun i => toC (stageF mul (2 ^ s) n2 tw (stk mul (2 ^ K) tw x s) i) -
          cstage (2 ^ s) n2 (W (2 ^ K)) c i) + l2 (2 ^ K) (cstage (2 ^ s) n2 (W (2 ^ K)) (fun i => c i - e i)) := by
        refine le_trans (le_of_eq ?_) hsplit
        apply l2_congr
        intro i _
        show toC (stageF mul (2 ^ s) n2 tw (stk mul (2 ^ K) tw x s) i) - cstage (2 ^ s) n2 (W (2 ^ K)) e i = _
        rw [cstage_sub]; ring
      rw [hex] at e1
      have hs0 : 0 ≤ Real.sqrt 2 := Real.sqrt_nonneg 2
      have e2 : (lvl u Θ - 1) * (Real.sqrt 2 * l2 (2 ^ K) c) ≤
          (lvl u Θ - 1) * (Real.sqrt 2 * (lvl u Θ ^ s * (Real.sqrt 2 ^ s * R))) :=
        mul_le_mul_of_nonneg_left (mul_le_mul_of_nonneg_left hcn hs0) (by linarith)
      have e3 : Real.sqrt 2 * l2 (2 ^ K) (fun i => c i - e i) ≤
          Real.sqrt 2 * ((lvl u Θ ^ s - 1) * (Real.sqrt 2 ^ s * R)) := mul_le_mul_of_nonneg_left ih1 hs0
      refine e1.trans ((add_le_add (hst.trans e2) e3).trans (le_of_eq ?_))
      rw [pow_succ (lvl u Θ), pow_succ (Real.sqrt 2)]
      ring
    · show l2 (2 ^ K) (cstage (2 ^ s) n2 (W (2 ^ K)) e) = _
      rw [hex, ih2, pow_succ]; ring

/-- The transform of a power-of-two length above 16. -/
theorem freshPow_l2 (h : Rounding F u v t) (cfg : Cfg) (x : List (Cx ℝ)) (hp : isPow2 x.length = true)
    (h16 : 16 < x.length) :
    l2 x.length (fun k => toC ((freshPow cfg x).getD k Cx.zero) - dft x.length (fun i => toC (x.getD i Cx.zero)) k) ≤
      (powGrowth cfg u v t x.length - 1) * (Real.sqrt x.length * l2 x.length (fun i => toC (x.getD i Cx.zero))) := by
  have key : ∀ mul : Cx ℝ → Cx ℝ → Cx ℝ,
      (∀ a b, ‖toC (mul a b) - toC a * toC b‖ ≤ mulErr u * (‖toC a‖ * ‖toC b‖)) →
      l2 x.length (fun k => toC ((stkOut cfg mul x).getD k Cx.zero) - dft x.length (fun i => toC (x.getD i Cx.zero)) k) ≤
      (powGrowth cfg u v t x.length - 1) * (Real.sqrt x.length * l2 x.length (fun i => toC (x.getD i Cx.zero))) := by
    intro mul hm
    obtain ⟨K, hK⟩ := isPow2_iff.mp hp
    have hΘ := twGrowth_ge h cfg (2 ^ K)
    have := (stk_l2 h mul hm K (twAt cfg (2 ^ K)) (fun i => x.getD i Cx.zero) (twGrowth cfg u v t (2 ^ K)) hΘ
      (fun k hk => twAt_rnd h cfg K k (by rw [← hK]; exact h16) hk) K le_rfl).1
    have hs : Real.sqrt (x.length : ℝ) = Real.sqrt 2 ^ K := by
      rw [hK]; push_cast
      rw [Real.sqrt_eq_iff_mul_self_eq (by positivity) (by positivity), ← mul_pow, Real.mul_self_sqrt (by norm_num)]
    rw [hs, powGrowth, hK, log2_pow']
    refine le_trans (le_of_eq ?_) this
    apply l2_congr
    intro k hk
    rw [cstk_dft K _ k hk, stkOut, tab_getD (by rw [hK]; exact hk), hK, log2_pow']
  unfold freshPow powOut
  rw [if_neg (by omega), if_neg (by omega)]
  unfold bigOut
  split
  · rw [stale_nil Planner.new _ (by simp [Planner.new]), List.append_nil,
      List.take_of_length_le (by rw [stkOut_length])]
    exact key _ (rnd_mulPlain h)
  · exact key _ (rnd_mul h)

end Kofft
