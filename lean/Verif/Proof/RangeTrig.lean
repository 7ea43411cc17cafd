import Verif.Proof.Trig
import Verif.Spec.Ieee
import Mathlib.Analysis.Real.Pi.Bounds
/-
Magnitudes of the values in the cosine, sine and Hartley transforms, in arithmetic with a bounded range.
-/
namespace Kofft
open Spec Finset

variable {T : Type} [F : Flt T] {N : Denote T} {u η Ω v t : ℝ}

/-- `a` is finite and at most `B` in magnitude. -/
def Bd (N : Denote T) (a : T) (B : ℝ) : Prop := N.fin a ∧ |N.val a| ≤ B

/-- Arithmetic with at least two correct bits, whose absolute errors are below one. -/
structure Coarse (F : Flt T) (N : Denote T) (u η Ω v t : ℝ) : Prop extends Ieee F N u η Ω v t where
  u_small : u ≤ 1 / 4
  v_small : v ≤ 1 / 4
  eta_small : η ≤ 1

omit F in
theorem Bd.mono {a : T} {A B : ℝ} (h : Bd N a A) (hAB : A ≤ B) : Bd N a B := ⟨h.1, h.2.trans hAB⟩

omit F in
theorem Bd.nonneg {a : T} {A : ℝ} (h : Bd N a A) : 0 ≤ A := (abs_nonneg _).trans h.2

omit F in
theorem abs_of_err {y e r : ℝ} (h : |y - e| ≤ r) : |y| ≤ |e| + r := by
  have := abs_add_le (y - e) e
  rw [sub_add_cancel] at this
  linarith

theorem bd_add (h : Ieee F N u η Ω v t) {a b : T} {A B : ℝ} (ha : Bd N a A) (hb : Bd N b B) (hΩ : A + B ≤ Ω) :
    Bd N (a +. b) ((1 + u) * (A + B)) := by
  have h1 : |N.val a + N.val b| ≤ A + B := (abs_add_le _ _).trans (add_le_add ha.2 hb.2)
  obtain ⟨r1, r2⟩ := h.add a b ha.1 hb.1 (h1.trans hΩ)
  refine ⟨r1, (abs_of_err r2).trans ?_⟩
  have := mul_le_mul_of_nonneg_left h1 h.u_nonneg
  linarith

theorem Coarse.badd (h : Coarse F N u η Ω v t) {a b : T} {A B C : ℝ} (ha : Bd N a A) (hb : Bd N b B) (hΩ : A + B ≤ Ω)
    (hC : 5 / 4 * (A + B) ≤ C) : Bd N (a +. b) C := by
  refine (bd_add h.toIeee ha hb hΩ).mono (le_trans ?_ hC)
  exact mul_le_mul_of_nonneg_right (by linarith [h.u_small]) (add_nonneg ha.nonneg hb.nonneg)

theorem Coarse.bmul (h : Coarse F N u η Ω v t) {a b : T} {A B C : ℝ} (ha : Bd N a A) (hb : Bd N b B) (hΩ : A * B ≤ Ω)
    (hC : 5 / 4 * (A * B) + 1 ≤ C) : Bd N (a *. b) C := by
  have h1 : |N.val a * N.val b| ≤ A * B := by
    rw [abs_mul]; exact mul_le_mul ha.2 hb.2 (abs_nonneg _) ha.nonneg
  obtain ⟨r1, r2⟩ := h.mul a b ha.1 hb.1 (h1.trans hΩ)
  refine ⟨r1, (abs_of_err r2).trans (le_trans ?_ hC)⟩
  have h2 := mul_le_mul_of_nonneg_right h.u_small (abs_nonneg (N.val a * N.val b))
  linarith [h.eta_small]

theorem Coarse.bdiv (h : Coarse F N u η Ω v t) {a b : T} {A c C : ℝ} (ha : Bd N a A) (hb : N.fin b) (hc : 0 < c)
    (hbc : c ≤ N.val b) (hΩ : A / c ≤ Ω) (hC : 5 / 4 * (A / c) + 1 ≤ C) : Bd N (a /. b) C := by
  have hb0 : 0 < N.val b := hc.trans_le hbc
  have h1 : |N.val a / N.val b| ≤ A / c := by
    rw [abs_div, abs_of_pos hb0]; exact div_le_div₀ ha.nonneg ha.2 hc hbc
  obtain ⟨r1, r2⟩ := h.div a b ha.1 hb hb0.ne' (h1.trans hΩ)
  refine ⟨r1, (abs_of_err r2).trans (le_trans ?_ hC)⟩
  have h2 := mul_le_mul_of_nonneg_right h.u_small (abs_nonneg (N.val a / N.val b))
  linarith [h.eta_small]

theorem Coarse.bneg (h : Coarse F N u η Ω v t) {a : T} {A : ℝ} (ha : Bd N a A) : Bd N (-. a) A := by
  obtain ⟨r1, r2⟩ := h.neg a ha.1
  exact ⟨r1, by rw [r2, abs_neg]; exact ha.2⟩

theorem Coarse.bcos (h : Coarse F N u η Ω v t) {a : T} {A : ℝ} (ha : Bd N a A) : Bd N (Flt.cos a) 2 := by
  obtain ⟨r1, r2⟩ := h.toIeee.cos a ha.1
  exact ⟨r1, (abs_of_err r2).trans (by linarith [Real.abs_cos_le_one (N.val a), h.t_le])⟩

theorem Coarse.bsin (h : Coarse F N u η Ω v t) {a : T} {A : ℝ} (ha : Bd N a A) : Bd N (Flt.sin a) 2 := by
  obtain ⟨r1, r2⟩ := h.toIeee.sin a ha.1
  exact ⟨r1, (abs_of_err r2).trans (by linarith [Real.abs_sin_le_one (N.val a), h.t_le])⟩

theorem Coarse.bofNat (h : Coarse F N u η Ω v t) {n : ℕ} (hn : n < 2 ^ 64) :
    Bd N (Flt.ofNat n : T) (5 / 4 * n) ∧ 3 / 4 * n ≤ N.val (Flt.ofNat n : T) := by
  obtain ⟨r1, r2⟩ := h.toIeee.ofNat n hn
  have h0 : (0 : ℝ) ≤ n := Nat.cast_nonneg n
  have h1 := mul_le_mul_of_nonneg_right h.v_small h0
  have h2 := abs_of_err r2
  rw [Nat.abs_cast] at h2
  have h3 := abs_le.1 r2
  exact ⟨⟨r1, by linarith⟩, by linarith⟩

theorem Coarse.bpi (h : Coarse F N u η Ω v t) : Bd N (Flt.pi : T) 4 := by
  obtain ⟨r1, r2⟩ := h.toIeee.pi
  refine ⟨r1, (abs_of_err r2).trans ?_⟩
  have := Real.pi_lt_d2
  have h1 := mul_le_mul_of_nonneg_right h.u_small Real.pi_pos.le
  rw [abs_of_pos Real.pi_pos]
  linarith

theorem Coarse.bhalf (h : Coarse F N u η Ω v t) : Bd N (half : T) (1 / 2) :=
  ⟨h.toIeee.half.1, by unfold Kofft.half; rw [h.toIeee.half.2, abs_of_pos (by norm_num)]⟩

theorem Coarse.btwo (h : Coarse F N u η Ω v t) : Bd N (two : T) 2 :=
  ⟨h.toIeee.two.1, by unfold Kofft.two; rw [h.toIeee.two.2, abs_of_pos (by norm_num)]⟩

theorem Coarse.bone (h : Coarse F N u η Ω v t) : Bd N (Flt.one : T) 1 :=
  ⟨h.toIeee.one.1, by rw [h.toIeee.one.2, abs_one]⟩

theorem Coarse.bzero (h : Coarse F N u η Ω v t) : Bd N (Flt.zero : T) 0 :=
  ⟨h.toIeee.zero.1, by rw [h.toIeee.zero.2, abs_zero]⟩

/-- The accumulation loop: `c` terms bounded by `w i`. -/
theorem bd_accV (h : Coarse F N u η Ω v t) (input : List T) (lo : ℕ) (g : ℕ → T → T) (init : T) (A : ℝ) (w : ℕ → ℝ)
    (hi : Bd N init A) (c : ℕ) (hg : ∀ i, i < c → Bd N (g (lo + i) (input.getD (lo + i) Flt.zero)) (w (lo + i)))
    (hΩ : (1 + u) ^ c * (A + ∑ i ∈ Ico lo (lo + c), w i) ≤ Ω) :
    Bd N (accV input lo g init c) ((1 + u) ^ c * (A + ∑ i ∈ Ico lo (lo + c), w i)) := by
  induction c with
  | zero => simpa [accV] using hi
  | succ c ih =>
    have h1 : 1 ≤ (1 + u) ^ c := one_le_pow₀ (by linarith [h.u_nonneg])
    have hw := (hg c (by omega)).nonneg
    have hs : 0 ≤ ∑ i ∈ Ico lo (lo + c), w i := sum_nonneg fun i hi => by
      rw [mem_Ico] at hi
      have := (hg (i - lo) (by omega)).nonneg
      rwa [show lo + (i - lo) = i by omega] at this
    have hA := hi.nonneg
    rw [← Nat.add_assoc, sum_Ico_succ_top (by omega)] at hΩ ⊢
    have hlast : (1 + u) ^ c * (A + ∑ i ∈ Ico lo (lo + c), w i) + w (lo + c) ≤
        (1 + u) ^ c * (A + (∑ i ∈ Ico lo (lo + c), w i + w (lo + c))) := by nlinarith
    have hΩ' : (1 + u) ^ c * (A + (∑ i ∈ Ico lo (lo + c), w i + w (lo + c))) ≤ Ω := by
      refine le_trans ?_ hΩ
      exact mul_le_mul_of_nonneg_right (pow_le_pow_right₀ (by linarith [h.u_nonneg]) (by omega)) (by linarith)
    have hprev := ih (fun i hi => hg i (by omega)) (le_trans (by linarith) (hlast.trans hΩ'))
    refine (bd_add h.toIeee hprev (hg c (by omega)) (hlast.trans hΩ')).mono ?_
    rw [pow_succ, mul_comm ((1 + u) ^ c) (1 + u), mul_assoc]
    exact mul_le_mul_of_nonneg_left hlast (by linarith [h.u_nonneg])

end Kofft
