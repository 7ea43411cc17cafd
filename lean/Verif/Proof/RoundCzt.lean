import Verif.Model.Spectral
import Verif.Proof.RoundTrig
/-
Rounding errors of the chirp Z-transform.
-/
namespace Kofft
open Spec Finset Complex

variable [F : Flt ℝ] {u v t : ℝ}

theorem unit_apx (h : Rounding F u v t) : Apx 1 (toC (⟨F.one, F.zero⟩ : Cx ℝ)) 1 1 := by
  have : toC (⟨F.one, F.zero⟩ : Cx ℝ) = 1 := by apply Complex.ext <;> simp [h.one, h.zero]
  rw [this]; simpa using Apx.refl 1

theorem cztPow_rnd (h : Rounding F u v t) (w : Cx ℝ) (k : ℕ) :
    Apx ((1 + mulErr u) ^ k) (toC (cztPow w k)) (toC w ^ k) (‖toC w‖ ^ k) := by
  unfold cztPow
  induction k with
  | zero => simpa using unit_apx h
  | succ k ih =>
    rw [List.range_succ, List.foldl_append, List.foldl_cons, List.foldl_nil, pow_succ, pow_succ, pow_succ]
    have := ih.mul (Apx.refl (toC w)) (mulErr_nonneg h.u_nonneg) (rnd_mulPlain h _ _)
    rwa [mul_one] at this

theorem ainvGrowth_ge (hu : 0 ≤ u) (h2 : (1 + u) ^ 2 < 2) : 1 ≤ ainvGrowth u := by
  unfold ainvGrowth
  rw [le_div_iff₀ (by linarith)]
  nlinarith

theorem cztAinv_rnd (h : Rounding F u v t) (hE : ∀ a b, F.feq a b = true ↔ a = b) (h2 : (1 + u) ^ 2 < 2)
    (a : Cx ℝ) (ha : toC a ≠ 0) :
    Apx (ainvGrowth u) (toC (cztAinv a)) ((toC a)⁻¹) (‖toC a‖⁻¹) := by
  have hu := h.u_nonneg
  set D : ℝ := a.re * a.re + a.im * a.im with hD
  have hN : D = Complex.normSq (toC a) := by rw [Complex.normSq_apply]; rfl
  have hD0 : 0 < D := by rw [hN]; exact Complex.normSq_pos.2 ha
  set d : ℝ := F.add (F.mul a.re a.re) (F.mul a.im a.im) with hd
  have r1 : RApx (1 + u) (F.mul a.re a.re) (a.re * a.re) (a.re * a.re) := by
    refine RApx.mk' (by linarith) ?_ (by rw [abs_mul_self])
    have := h.mul a.re a.re
    rw [abs_mul_self] at this
    linarith
  have r2 : RApx (1 + u) (F.mul a.im a.im) (a.im * a.im) (a.im * a.im) := by
    refine RApx.mk' (by linarith) ?_ (by rw [abs_mul_self])
    have := h.mul a.im a.im
    rw [abs_mul_self] at this
    linarith
  have r3 : RApx ((1 + u) * (1 + u)) d D D := r1.add r2 hu (h.add _ _)
  have r4 : |d - D| ≤ ((1 + u) ^ 2 - 1) * |D| := by
    have := r3.abs_err
    rw [abs_of_pos hD0, sq]; exact this
  obtain ⟨d0, r5⟩ := RApx.inv hD0.ne' (by nlinarith) (by linarith) r4
  have hf : F.feq d F.zero = false := by
    rw [Bool.eq_false_iff]; intro hh
    exact d0 (by rw [(hE _ _).1 hh, h.zero])
  have hc : cztAinv a = ⟨F.div a.re d, F.div (-a.im) d⟩ := by
    unfold cztAinv
    show (⟨if F.feq d F.zero = true then F.zero else F.div a.re d,
      if F.feq d F.zero = true then F.zero else F.div (F.neg a.im) d⟩ : Cx ℝ) = _
    rw [hf, h.neg]; rfl
  have e1 : Apx (1 / (1 - ((1 + u) ^ 2 - 1))) ((starRingEnd ℂ) (toC a) * ((d⁻¹ : ℝ) : ℂ))
      ((starRingEnd ℂ) (toC a) * ((D⁻¹ : ℝ) : ℂ)) (‖(starRingEnd ℂ) (toC a)‖ * |D⁻¹|) := by
    have := (Apx.refl ((starRingEnd ℂ) (toC a))).mul' r5
    rwa [one_mul] at this
  have e2 : (starRingEnd ℂ) (toC a) * ((D⁻¹ : ℝ) : ℂ) = (toC a)⁻¹ := by
    rw [Complex.inv_def, hN]
  have e3 : ‖(starRingEnd ℂ) (toC a)‖ * |D⁻¹| = ‖toC a‖⁻¹ := by
    rw [← norm_inv, ← e2, norm_mul, Complex.norm_real, Real.norm_eq_abs]
  rw [e2, e3] at e1
  have e4 : ‖toC (cztAinv a) - (starRingEnd ℂ) (toC a) * ((d⁻¹ : ℝ) : ℂ)‖ ≤
      u * ‖(starRingEnd ℂ) (toC a) * ((d⁻¹ : ℝ) : ℂ)‖ := by
    rw [hc]
    have q1 := h.div a.re d d0
    have q2 := h.div (-a.im) d d0
    rw [div_eq_mul_inv] at q1 q2
    generalize F.div a.re d = p1 at q1
    generalize F.div (-a.im) d = p2 at q2
    generalize d⁻¹ = r at q1 q2
    apply norm_le_of_parts hu
    · simpa using q1
    · simpa using q2
  have := e1.round hu e4
  have e5 : 1 / (1 - ((1 + u) ^ 2 - 1)) * (1 + u) = ainvGrowth u := by
    unfold ainvGrowth
    rw [show 1 - ((1 + u) ^ 2 - 1) = 2 - (1 + u) ^ 2 by ring]; ring
  rwa [e5] at this

theorem cztFold_rnd (h : Rounding F u v t) {gw ga A B : ℝ} {wk ai : Cx ℝ} {w z : ℂ}
    (hw : Apx gw (toC wk) w A) (ha : Apx ga (toC ai) z B) (N : ℕ) (x : List ℝ) (hx : x.length ≤ N) :
    let s := x.foldl (cztStep wk ai) ⟨Cx.zero, ⟨F.one, F.zero⟩, ⟨F.one, F.zero⟩⟩
    Apx ((gw * (1 + mulErr u)) ^ x.length) (toC s.wnk) (w ^ x.length) (A ^ x.length) ∧
    Apx ((ga * (1 + mulErr u)) ^ x.length) (toC s.apow) (z ^ x.length) (B ^ x.length) ∧
    Apx ((gw * (1 + mulErr u) * (ga * (1 + mulErr u))) ^ N * (1 + mulErr u) * (1 + u) * (1 + u) ^ x.length)
      (toC s.out) (∑ i ∈ range x.length, ((x.getD i 0 : ℝ) : ℂ) * z ^ i * w ^ i)
      (∑ i ∈ range x.length, |x.getD i 0| * B ^ i * A ^ i) := by
  have hu := h.u_nonneg
  have hμ := mulErr_nonneg hu
  have hg1 : 1 ≤ gw * (1 + mulErr u) := by nlinarith [hw.one]
  have hg2 : 1 ≤ ga * (1 + mulErr u) := by nlinarith [ha.one]
  induction x using List.reverseRecOn with
  | nil =>
    refine ⟨by simpa using unit_apx h, by simpa using unit_apx h, ?_⟩
    have : toC (Cx.zero : Cx ℝ) = 0 := rnd_zero h
    simp only [List.foldl_nil, this, List.length_nil, range_zero, sum_empty, pow_zero, mul_one]
    refine ⟨?_, by simp, by simp⟩
    have h1 : 1 ≤ (gw * (1 + mulErr u) * (ga * (1 + mulErr u))) ^ N := one_le_pow₀ (by nlinarith)
    nlinarith [mul_nonneg (by linarith : 0 ≤ (gw * (1 + mulErr u) * (ga * (1 + mulErr u))) ^ N) hμ]
  | append_singleton x b ih =>
    have hl : (x ++ [b]).length = x.length + 1 := by simp
    rw [hl] at hx ⊢
    obtain ⟨i1, i2, i3⟩ := ih (by omega)
    rw [List.foldl_append, List.foldl_cons, List.foldl_nil]
    set s := x.foldl (cztStep wk ai) ⟨Cx.zero, ⟨F.one, F.zero⟩, ⟨F.one, F.zero⟩⟩ with hs
    refine ⟨?_, ?_, ?_⟩
    · have := i1.mul hw hμ (rnd_mulPlain h _ _)
      rw [pow_succ, pow_succ, pow_succ]
      rwa [mul_assoc] at this
    · have := i2.mul ha hμ (rnd_mulPlain h _ _)
      rw [pow_succ, pow_succ, pow_succ]
      rwa [mul_assoc] at this
    · have t1 := i2.mul i1 hμ (rnd_mulPlain h s.apow s.wnk)
      have t2 := (Apx.refl ((b : ℝ) : ℂ)).mul' t1
      set q := s.apow.mulPlain s.wnk with hq
      have t3 : ‖toC ⟨F.mul b q.re, F.mul b q.im⟩ - (b : ℂ) * toC q‖ ≤ u * ‖(b : ℂ) * toC q‖ := by
        apply norm_le_of_parts hu
        · simpa using h.mul b q.re
        · simpa using h.mul b q.im
      have t4 := t2.round hu t3
      rw [Complex.norm_real, Real.norm_eq_abs, one_mul] at t4
      have hgr : (ga * (1 + mulErr u)) ^ x.length * (gw * (1 + mulErr u)) ^ x.length * (1 + mulErr u) * (1 + u) ≤
          (gw * (1 + mulErr u) * (ga * (1 + mulErr u))) ^ N * (1 + mulErr u) * (1 + u) * (1 + u) ^ x.length := by
        have e1 : (ga * (1 + mulErr u)) ^ x.length * (gw * (1 + mulErr u)) ^ x.length ≤
            (gw * (1 + mulErr u) * (ga * (1 + mulErr u))) ^ N := by
          rw [← mul_pow, mul_comm (ga * _)]
          exact pow_le_pow_right₀ (by nlinarith) (by omega)
        have e2 : 1 ≤ (1 + u) ^ x.length := one_le_pow₀ (by linarith)
        have e0 : 0 ≤ (gw * (1 + mulErr u) * (ga * (1 + mulErr u))) ^ N := by positivity
        calc _ ≤ (gw * (1 + mulErr u) * (ga * (1 + mulErr u))) ^ N * (1 + mulErr u) * (1 + u) := by gcongr
          _ ≤ _ := le_mul_of_one_le_right (by positivity) e2
      have t5 := t4.mono hgr
      have t6 := i3.add t5 hu (c := toC (cztStep wk ai s b).out) (rnd_add h s.out ⟨F.mul b q.re, F.mul b q.im⟩)
      rw [sum_range_succ, sum_range_succ, pow_succ, ← mul_assoc]
      have g1 : ∀ i ∈ range x.length, (x ++ [b]).getD i 0 = x.getD i 0 := by
        intro i hi
        rw [mem_range] at hi
        rw [List.getD_append _ _ _ _ hi]
      have g2 : (x ++ [b]).getD x.length 0 = b := by simp
      rw [g2]
      have s1 : ∑ i ∈ range x.length, (((x ++ [b]).getD i 0 : ℝ) : ℂ) * z ^ i * w ^ i =
          ∑ i ∈ range x.length, ((x.getD i 0 : ℝ) : ℂ) * z ^ i * w ^ i := sum_congr rfl fun i hi => by rw [g1 i hi]
      have s2 : ∑ i ∈ range x.length, |(x ++ [b]).getD i 0| * B ^ i * A ^ i =
          ∑ i ∈ range x.length, |x.getD i 0| * B ^ i * A ^ i := sum_congr rfl fun i hi => by rw [g1 i hi]
      rw [s1, s2]
      rw [show (b : ℂ) * z ^ x.length * w ^ x.length = (b : ℂ) * (z ^ x.length * w ^ x.length) by ring,
        show |b| * B ^ x.length * A ^ x.length = |b| * (B ^ x.length * A ^ x.length) by ring]
      exact t6

theorem cztAt_rnd (h : Rounding F u v t) (hE : ∀ a b, F.feq a b = true ↔ a = b) (h2 : (1 + u) ^ 2 < 2)
    (x : List ℝ) (w a : Cx ℝ) (ha : toC a ≠ 0) (k : ℕ) :
    Apx (cztGrowth u x.length k) (toC (cztAt x w a k))
      (∑ s ∈ range x.length, ((x.getD s 0 : ℝ) : ℂ) * toC a ^ (-(s : ℤ)) * toC w ^ (k * s))
      (∑ s ∈ range x.length, |x.getD s 0| * ‖toC a‖ ^ (-(s : ℤ)) * ‖toC w‖ ^ (k * s)) := by
  have := (cztFold_rnd h (cztPow_rnd h w k) (cztAinv_rnd h hE h2 a ha) x.length x le_rfl).2.2
  unfold cztAt
  have e1 : ∑ s ∈ range x.length, ((x.getD s 0 : ℝ) : ℂ) * toC a ^ (-(s : ℤ)) * toC w ^ (k * s) =
      ∑ s ∈ range x.length, ((x.getD s 0 : ℝ) : ℂ) * (toC a)⁻¹ ^ s * (toC w ^ k) ^ s :=
    sum_congr rfl fun s _ => by rw [zpow_neg, zpow_natCast, ← pow_mul, inv_pow]
  have e2 : ∑ s ∈ range x.length, |x.getD s 0| * ‖toC a‖ ^ (-(s : ℤ)) * ‖toC w‖ ^ (k * s) =
      ∑ s ∈ range x.length, |x.getD s 0| * ‖toC a‖⁻¹ ^ s * (‖toC w‖ ^ k) ^ s :=
    sum_congr rfl fun s _ => by rw [zpow_neg, zpow_natCast, ← pow_mul, inv_pow]
  rw [e1, e2]
  have e3 : cztGrowth u x.length k = ((1 + mulErr u) ^ k * (1 + mulErr u) * (ainvGrowth u * (1 + mulErr u))) ^ x.length *
      (1 + mulErr u) * (1 + u) * (1 + u) ^ x.length := by
    unfold cztGrowth
    rw [pow_succ (1 + u), show (1 + mulErr u) ^ (k + 2) * ainvGrowth u =
      (1 + mulErr u) ^ k * (1 + mulErr u) * (ainvGrowth u * (1 + mulErr u)) by ring]
    ring
  rw [e3]
  exact this

end Kofft
