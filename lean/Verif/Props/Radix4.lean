import Verif.Proof.Radix4Exact
import Verif.Props.Strategy
import Verif.Props.Plan
/-
C80: what the radix-4 strategy computes.
-/
namespace Kofft.Props
open Spec

/-- The unit impulse at index `i`, of length `n`. -/
noncomputable def _root_.Kofft.Spec.impulseAt (n i : ℕ) : List (Cx ℝ) := tab n (fun t => if t = i then ⟨1, 0⟩ else ⟨0, 0⟩)

/-- The rearrangement of `4^k` samples: exchanges, then reversal of base-4 digits. -/
theorem radix4_core (k : ℕ) (hk : 0 < k) :
    ∃ σ : ℕ → ℕ, (∀ d, d < 4 ^ k → σ d < 4 ^ k) ∧ (∀ a b, a < 4 ^ k → b < 4 ^ k → σ a = σ b → a = b) ∧
      σ 2 = 4 ^ k / 2 ∧
      ∀ (F : Flt ℝ) (_ : Lawful F) (cfg : Cfg) (p : Planner ℝ) (_ : Inv cfg p) (x : List (Cx ℝ)), x.length = 4 ^ k →
        ∃ p' y, fftRadix4 cfg p x = .ok (p', y, .ok ()) ∧ y.length = 4 ^ k ∧
          ∀ b, b < 4 ^ k → sig y b = dft (4 ^ k) (fun d => sig x (σ d)) b := by
  have h42 : 4 ^ k = 2 ^ (2 * k) := by rw [pow_mul]; norm_num
  obtain ⟨e, he, hfix, hlt⟩ := revLoop_perm (fun t : ℕ => t) (2 * k) (by omega)
  rw [← h42] at he hlt
  refine ⟨fun d => e (rev4 k d), fun d _ => hlt _ (rev4_lt k d), fun a b ha hb h => rev4_inj ha hb (e.injective h), ?_, ?_⟩
  · obtain ⟨j, rfl⟩ : ∃ j, k = j + 1 := ⟨k - 1, by omega⟩
    have r0 : ∀ s, rev4 s 0 = 0 := by
      intro s; induction s with
      | zero => rfl
      | succ s ih => simp [rev4, ih]
    have h2 : rev4 (j + 1) 2 = 4 ^ (j + 1) / 2 := by
      rw [rev4, show 2 % 4 = 2 by norm_num, show 2 / 4 = 0 by norm_num, r0, pow_succ]; omega
    show e (rev4 (j + 1) 2) = _
    rw [h2]
    apply hfix
    have : 2 ^ (2 * (j + 1)) = 2 ^ (2 * (j + 1) - 1) * 2 := by rw [← pow_succ]; congr 1
    omega
  · intro F hF cfg p hI x hx
    have hm := revLoop_map (fun t => x.getD t Cx.zero) 2 he
    have hx' : (tab (4 ^ k) (fun t : ℕ => t)).map (fun t => x.getD t Cx.zero) = x := by
      rw [tab_map, ← hx]; exact (eq_tab_getD x Cx.zero).symm
    rw [hx', tab_map] at hm
    obtain ⟨p', er, -⟩ := fftRadix4_run cfg p x hI k hx _ hm
    refine ⟨p', _, er, tab_length _ _, fun b hb => ?_⟩
    rw [sig_eq hF, tab_getD hb]
    have := r4Run_exact hF cfg (fun t => x.getD (e t) Cx.zero) k 0 b hb
    simp only [Nat.mul_zero, Nat.zero_add] at this
    rw [this]
    unfold dft
    refine Finset.sum_congr rfl (fun d _ => ?_)
    simp only []
    rw [sig_eq hF]

/-- C80a. On every power of four, after any history and with every configuration, `fft_radix4` succeeds and returns the DFT of a
fixed rearrangement of its input: there is one permutation of the indices per length, the same for every input. -/
theorem radix4_rearranged (k : ℕ) :
    ∃ σ : ℕ → ℕ, (∀ d, d < 4 ^ k → σ d < 4 ^ k) ∧ (∀ a b, a < 4 ^ k → b < 4 ^ k → σ a = σ b → a = b) ∧
      ∀ (F : Flt ℝ) (_ : Lawful F) (cfg : Cfg) (p : Planner ℝ) (_ : Reach cfg p) (x : List (Cx ℝ)), x.length = 4 ^ k →
        ∃ p' y, fftRadix4 cfg p x = .ok (p', y, .ok ()) ∧ y.length = 4 ^ k ∧
          ∀ b, b < 4 ^ k → sig y b = dft (4 ^ k) (fun d => sig x (σ d)) b := by
  rcases Nat.eq_zero_or_pos k with rfl | hk
  · refine ⟨fun d => d, fun d h => h, fun a b _ _ h => h, ?_⟩
    intro F hF cfg p hp x hx
    obtain ⟨a, rfl⟩ : ∃ a, x = [a] := List.length_eq_one_iff.mp (by simpa using hx)
    refine ⟨p, [a], ?_, rfl, ?_⟩
    · rw [fftRadix4_one]
      rfl
    · intro b hb
      have : b = 0 := by simpa using hb
      subst this
      simp [dft, W_zero]
  · obtain ⟨σ, h1, h2, -, h3⟩ := radix4_core k hk
    exact ⟨σ, h1, h2, fun F hF cfg p hp x hx => h3 F hF cfg p (reach_inv hp) x hx⟩

/-- C80b. With `std`, the `Radix4` strategy is wrong on every length `4^k`, `k ≥ 2`, whatever happened before: the impulse in the
middle comes back as the spectrum of an impulse at index 2, reported as a success. -/
theorem radix4_always_wrong [F : Flt ℝ] (hF : Lawful F) (cfg : Cfg) (hstd : cfg.std = true) (p : Planner ℝ) (hp : Reach cfg p)
    (k : ℕ) (hk : 2 ≤ k) :
    ∃ p' y, fftWithStrategy cfg .Radix4 p (impulseAt (4 ^ k) (4 ^ k / 2)) = .ok (p', y, .ok ()) ∧
      IsDft (impulseAt (4 ^ k) 2) y ∧ ¬ IsDft (impulseAt (4 ^ k) (4 ^ k / 2)) y := by
  have h16 : 16 ≤ 4 ^ k := Nat.pow_le_pow_right (n := 4) (by norm_num) hk
  have hev : 4 ^ k = 2 * (4 ^ k / 2) := by
    have : 2 ∣ 4 ^ k := dvd_pow (by norm_num) (by omega)
    omega
  obtain ⟨σ, hσ, hinj, h2, run⟩ := radix4_core k (by omega)
  have hl : ∀ i, (impulseAt (4 ^ k) i).length = 4 ^ k := fun i => tab_length _ _
  obtain ⟨p', y, e, hy, hv⟩ := run F hF cfg p (reach_inv hp) _ (hl (4 ^ k / 2))
  have simp1 : ∀ i t, i < 4 ^ k → sig (impulseAt (4 ^ k) i) t = if t = i then 1 else 0 := by
    intro i t hi
    by_cases ht : t < 4 ^ k
    · rw [sig_eq hF]
      unfold impulseAt
      rw [tab_getD ht]
      split <;> rfl
    · rw [if_neg (by omega)]
      unfold sig
      rw [List.getElem?_eq_none (by rw [hl]; omega)]
  have spec : ∀ i b, i < 4 ^ k → dft (4 ^ k) (sig (impulseAt (4 ^ k) i)) b = W (4 ^ k) (b * i) := by
    intro i b hi
    unfold dft
    rw [Finset.sum_eq_single i]
    · rw [simp1 i i hi, if_pos rfl, one_mul]
    · intro t _ ht
      rw [simp1 i t hi, if_neg ht, zero_mul]
    · intro h; simp at h; omega
  have hval : ∀ b, b < 4 ^ k → sig y b = W (4 ^ k) (b * 2) := by
    intro b hb
    rw [hv b hb]
    unfold dft
    rw [Finset.sum_eq_single 2]
    · simp only []
      rw [simp1 _ _ (by omega), if_pos h2, one_mul]
    · intro t ht h
      have ht : t < 4 ^ k := by simpa using ht
      simp only []
      rw [simp1 _ _ (by omega), if_neg, zero_mul]
      intro h'
      exact h (hinj t 2 ht (by omega) (h'.trans h2.symm))
    · intro h; simp at h; omega
  refine ⟨p', y, ?_, ⟨by rw [hy, hl], fun b hb => ?_⟩, fun hd => ?_⟩
  · unfold fftWithStrategy
    simp only [hl, show ¬ 4 ^ k = 0 by omega, show ¬ 4 ^ k = 1 by omega, if_false, reduceCtorEq, hstd, if_true]
    exact e
  · rw [hl] at hb
    rw [hval b hb, hl, spec 2 b (by omega)]
  · have h1 := hd.2 1 (by rw [hl]; omega)
    rw [hval 1 (by omega), hl, spec _ 1 (by omega), Nat.one_mul, Nat.one_mul] at h1
    have h3 : W (4 ^ k) (4 ^ k / 2) = W (4 ^ k) (4 ^ k / 2 - 2) * W (4 ^ k) 2 := by
      rw [← W_add]; congr 1; omega
    rw [← h1] at h3
    have h0 := W_ne_zero (4 ^ k) 2
    have h4 : W (4 ^ k) (4 ^ k / 2 - 2) = 1 := by
      field_simp at h3
      exact h3.symm
    have := Nat.le_of_dvd (by omega) (W_one_primitive (by omega) h4)
    omega

/-- C80c. The same for plans on element types other than f32, of any length `4^k`, `k ≥ 2`. -/
theorem plan_radix4_always_wrong [F : Flt ℝ] (hF : Lawful F) (cfg : Cfg) (hstd : cfg.std = true) (hk : cfg.kind ≠ .f32) (k : ℕ)
    (hk2 : 2 ≤ k) :
    ∃ (x : List (Cx ℝ)) (pl' : Plan ℝ) (y : List (Cx ℝ)), x.length = 4 ^ k ∧
      (Plan.new cfg (4 ^ k) .Radix4).fft cfg x = .ok (pl', y, .ok ()) ∧ ¬ IsDft x y := by
  obtain ⟨p', y, e, -, hy⟩ := radix4_always_wrong hF cfg hstd Planner.new .new k hk2
  have hl : (impulseAt (4 ^ k) (4 ^ k / 2)).length = 4 ^ k := tab_length _ _
  refine ⟨_, ⟨4 ^ k, .Radix4, none, p'⟩, y, hl, ?_, hy⟩
  unfold Plan.fft Plan.new
  simp only [hl, ne_eq, not_true, if_false, hk, e, Outcome.bind_ok, Outcome.pure_eq]

/-- The configurations, lengths and states in question exist. -/
example : (⟨true, .f64, false, 4, false⟩ : Cfg).std = true ∧ (⟨true, .f64, false, 4, false⟩ : Cfg).kind ≠ .f32 ∧
    (4 : ℕ) ^ 3 = 64 ∧ ∃ F : Flt ℝ, Lawful F ∧ @Reach ℝ F ⟨true, .f64, false, 4, false⟩ Planner.new :=
  letI := realFlt true
  ⟨rfl, by decide, rfl, realFlt true, realFlt_lawful true, .new⟩

end Kofft.Props
