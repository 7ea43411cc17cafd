import Verif.Lib.IApx
import Verif.Proof.RoundPow
import Mathlib.Analysis.Real.Pi.Bounds
/-
Twiddle tables in arithmetic with a bounded exponent range.
-/
namespace Kofft

open Spec Complex Finset

variable {T : Type} [F : Flt T] {N : Denote T} {u η Ω v t D : ℝ}

local notation "U" => effErr u η D

omit F in
theorem ie_Wnorm (n k : ℕ) : ‖W n k‖ = 1 := W_norm (F := realFlt true) n k

omit F in
theorem ie_Wexp (n k : ℕ) : W n k = exp (((-2 * Real.pi * k / n : ℝ) : ℂ) * I) := W_eq_exp (F := realFlt true) n k

theorem ie_pi (h : Env F N u η Ω v t D) : RAp N D (1 + U) F.pi Real.pi Real.pi := by
  have hU := h.U_nonneg
  refine ⟨h.pi.1, by linarith, ?_, by rw [abs_of_pos Real.pi_pos], ?_⟩
  · rw [add_sub_cancel_left]
    exact h.pi.2.trans (mul_le_mul_of_nonneg_right h.u_le Real.pi_pos.le)
  · linarith [h.D_le, Real.pi_gt_three]

theorem ie_mtwo (h : Env F N u η Ω v t D) : RAp N D 1 (F.neg (F.lit 2 0)) (-2) 2 := by
  have : RAp N D 1 (F.lit 2 0) 2 2 := RAp.exact h.two.1 h.two.2 (by norm_num) (by linarith [h.D_le])
  exact this.neg h

theorem ie_angle (h : Env F N u η Ω v t D) :
    RAp N D ((1 + U) ^ 2) (F.mul (F.neg (F.lit 2 0)) F.pi) (-2 * Real.pi) (2 * Real.pi) := by
  have hU := h.U_nonneg
  have hU1 := h.U_le
  have hp := Real.pi_gt_three
  have hp' := Real.pi_lt_d2
  have := (ie_mtwo h).mul h (ie_pi h) (by linarith [h.D_le]) (by
    have := h.big
    rw [one_mul]
    nlinarith)
  rw [one_mul, ← sq] at this
  exact this

theorem growth3 (h : Env F N u η Ω v t D) (k : ℕ) : 1 ≤ (1 + U) ^ k ∧ (1 + U) ^ k ≤ 2 ^ k := by
  have hU := h.U_nonneg
  have hU1 := h.U_le
  exact ⟨one_le_pow₀ (by linarith), pow_le_pow_left₀ (by linarith) (by linarith) k⟩

theorem ie_rotation (h : Env F N u η Ω v t D) (K : Nat) (hK : K < 64) (hD : 2 ^ K * D ≤ 1) :
    IAp N D (1 + rotErr U t (2 ^ K)) (Cx.expi (F.div (F.mul (F.neg (F.lit 2 0)) F.pi) (F.ofNat (2 ^ K))))
      (W (2 ^ K) 1) 1 := by
  have hU := h.U_nonneg
  have hU1 := h.U_le
  have hK0 : (0 : ℝ) < 2 ^ K := by positivity
  have hp := Real.pi_gt_three
  have hp' := Real.pi_lt_d2
  have hv := h.ofNat_pow K hK
  have hf := (h.ofNat (2 ^ K) (Nat.pow_lt_pow_right (by norm_num) hK)).1
  have a1 := (ie_angle h).div h (b := F.ofNat (2 ^ K)) (w := 2 ^ K) (h' := 1) hf (by rw [hv]; positivity) hK0 le_rfl
    (by rw [hv]; simp) (by
      rw [le_div_iff₀ hK0]
      linarith) (by
      have h1 : (1 : ℝ) ≤ 2 ^ K := one_le_pow₀ (by norm_num)
      have h2 : 2 * Real.pi / 2 ^ K ≤ 2 * Real.pi := div_le_self (by positivity) h1
      have h4 : 0 ≤ 2 * Real.pi / 2 ^ K := by positivity
      have h3 := (growth3 h 2).2
      have := h.big
      rw [mul_one]
      nlinarith)
  rw [mul_one, ← pow_succ] at a1
  obtain ⟨f, e⟩ := ie_expi h a1.fin (-2 * Real.pi / 2 ^ K)
  have e' : ((-2 * Real.pi / 2 ^ K : ℝ) : ℂ) = ((-2 * Real.pi * (1 : ℕ) / (2 ^ K : ℕ) : ℝ) : ℂ) := by
    push_cast; ring
  rw [e', ← ie_Wexp] at e
  refine IAp.unit h f (ie_Wnorm _ _).le (e.trans ?_)
  rw [rotErr]
  push_cast
  linarith [a1.err]

theorem ie_twLoop (h : Env F N u η Ω v t D) (c : Cx T) {ω : ℂ} {ε : ℝ} (hε : 0 ≤ ε) (hω : IAp N D (1 + ε) c ω 1) :
    ∀ (half : Nat) (w : Cx T) (z : ℂ) (g : ℝ) (_ : IAp N D g w z 1)
      (_ : g * ((1 + mulErr U) * (1 + ε)) ^ half ≤ Ω) (k : Nat), k < half →
    IAp N D (g * ((1 + mulErr U) * (1 + ε)) ^ k) ((twLoop c.re c.im half w).getD k Cx.zero) (z * ω ^ k) 1
  | 0, _, _, _, _, _, _, hk => by omega
  | half + 1, w, z, g, hw, _, 0, _ => by simpa [twLoop] using hw
  | half + 1, w, z, g, hw, hΩ, k + 1, hk => by
    have hμ := mulErr_nonneg h.U_nonneg
    have hq : 1 ≤ (1 + mulErr U) * (1 + ε) := by nlinarith
    have hg := hw.one
    have hpow := one_le_pow₀ hq (n := half)
    have hs := hw.mul h (ie_rot h) hω (by rw [one_mul]; exact h.D_le) (by
      rw [pow_succ'] at hΩ
      have : g * (1 + ε) * (1 + mulErr U) * (1 * 1) ≤ g * ((1 + mulErr U) * (1 + ε) * ((1 + mulErr U) * (1 + ε)) ^ half) := by
        have e : g * (1 + ε) * (1 + mulErr U) * (1 * 1) = g * ((1 + mulErr U) * (1 + ε)) := by ring
        rw [e]
        apply mul_le_mul_of_nonneg_left _ (by linarith)
        nlinarith
      linarith)
    rw [one_mul] at hs
    have := ie_twLoop h c hε hω half _ _ _ hs (by
      rw [pow_succ'] at hΩ
      refine le_trans (le_of_eq ?_) hΩ
      ring) k (by omega)
    simp only [twLoop, List.getD_cons_succ]
    rw [pow_succ', pow_succ' ω]
    have e1 : g * ((1 + mulErr U) * (1 + ε) * ((1 + mulErr U) * (1 + ε)) ^ k) =
      g * (1 + ε) * (1 + mulErr U) * ((1 + mulErr U) * (1 + ε)) ^ k := by ring
    rw [e1, ← mul_assoc]
    exact this

theorem ie_one (h : Env F N u η Ω v t D) : IAp N D 1 (⟨F.one, F.zero⟩ : Cx T) 1 1 := by
  have : N.cval (⟨F.one, F.zero⟩ : Cx T) = 1 := by apply Complex.ext <;> simp [h.one.2, h.zero.2]
  have h2 := IAp.exact (N := N) (D := D) (a := (⟨F.one, F.zero⟩ : Cx T)) (A := 1) ⟨h.one.1, h.zero.1⟩ (by rw [this]; simp) h.D_le
  rwa [this] at h2

theorem ie_twTable (h : Env F N u η Ω v t D) (K k : Nat) (hk : k < 2 ^ K / 2) (hK : K < 64)
    (hD : 2 ^ K * D ≤ 1) (hΩ : tableGrowth U t (2 ^ K) ≤ Ω) :
    IAp N D (tableGrowth U t (2 ^ K)) ((twTable (2 ^ K)).getD k Cx.zero) (W (2 ^ K) k) 1 := by
  have hr := rotErr_nonneg (F := realFlt true) h.rounding (2 ^ K)
  have hμ := mulErr_nonneg h.U_nonneg
  have := ie_twLoop h (Cx.expi (F.div (F.mul (F.neg (F.lit 2 0)) F.pi) (F.ofNat (2 ^ K)))) hr
    (ie_rotation h K hK hD) (2 ^ K / 2) ⟨F.one, F.zero⟩ 1 1 (ie_one h) (by rw [one_mul]; exact hΩ) k hk
  rw [one_mul, one_mul, ← W_mul_pow, one_mul] at this
  refine IAp.mono this ?_
  exact pow_le_pow_right₀ (by nlinarith) hk.le

theorem ie_preTable (h : Env F N u η Ω v t D) (n k : Nat) (hn : n ≤ 1024) (hk : k < n / 2) :
    IAp N D (preGrowth U t) ((preTable n).getD k Cx.zero) (W n k) 1 := by
  have hU := h.U_nonneg
  have hU1 := h.U_le
  have ht := h.t_nonneg
  have hp := Real.pi_gt_three
  have hp' := Real.pi_lt_d2
  have hn1 : (0 : ℝ) < n := by exact_mod_cast (by omega : 0 < n)
  have hn2 : (2 : ℝ) ≤ n := by exact_mod_cast (by omega : 2 ≤ n)
  have hn3 : (n : ℝ) ≤ 1024 := by exact_mod_cast hn
  have hkn : (2 * k : ℝ) ≤ n := by exact_mod_cast (by omega : 2 * k ≤ n)
  unfold preTable
  rw [show (List.range (n / 2)).map _ = tab (n / 2) _ from rfl, tab_getD hk]
  simp only []
  set θ' : T := F.div (F.mul (F.mul (F.neg (F.lit 2 0)) F.pi) (F.ofNatD k)) (F.ofNatD n) with hθ'
  obtain ⟨fk, vk⟩ := h.ofNatD k (by omega)
  obtain ⟨fn, vn⟩ := h.ofNatD n hn
  have Kk : RAp N D 1 (F.ofNatD k) (k : ℝ) (n / 2) :=
    RAp.exact fk vk (by rw [Nat.abs_cast]; linarith) (by linarith [h.D_le])
  have g2 := (growth3 h 2).2
  have g3 := (growth3 h 3).2
  have hbig := h.big
  have hΩ1 : (1 + U) ^ 2 * 1 * (2 * Real.pi * (n / 2)) ≤ Ω := by
    have : 2 * Real.pi * (n / 2) ≤ 3.15 * 1024 := by nlinarith
    have h0 : 0 ≤ 2 * Real.pi * ((n : ℝ) / 2) := by positivity
    nlinarith
  have a1 := (ie_angle h).mul h Kk (by nlinarith [h.D_le]) hΩ1
  rw [mul_one, ← pow_succ] at a1
  have ew : 2 * Real.pi * (n / 2) / (n : ℝ) = Real.pi := by field_simp
  have a2 := a1.div h (b := F.ofNatD n) (w := n) (h' := 1) fn (by rw [vn]; exact hn1.ne') hn1 le_rfl
    (by rw [vn]; simp) (by rw [ew]; linarith [h.D_le]) (by
      rw [ew, mul_one]
      have := Real.pi_pos
      have h1 : (1 + U) ^ (2 + 1) * Real.pi ≤ 2 ^ 3 * 3.15 :=
        mul_le_mul g3 hp'.le (by positivity) (by norm_num)
      exact h1.trans (le_trans (by norm_num) hbig))
  rw [mul_one, ← pow_succ, ew] at a2
  obtain ⟨f, e⟩ := ie_expi h a2.fin (-2 * Real.pi * k / n)
  rw [← ie_Wexp] at e
  have pp : ∀ (a : T) (b : ℝ), N.fin a → |N.val a - b| ≤ t → |b| ≤ 1 →
      N.fin (F.printParse a) ∧ |N.val (F.printParse a) - N.val a| ≤ t + t ^ 2 := by
    intro a b ha hab hb
    have h1 : |N.val a| ≤ 1 + t := by
      rw [show N.val a = (N.val a - b) + b by ring]
      exact (abs_add_le _ _).trans (by linarith)
    obtain ⟨f, e⟩ := h.printParse a ha (by linarith [h.t_le])
    refine ⟨f, e.trans ?_⟩
    have : max 1 |N.val a| ≤ 1 + t := max_le (by linarith) h1
    nlinarith
  obtain ⟨c1, c2⟩ := h.cos θ' a2.fin
  obtain ⟨s1, s2⟩ := h.sin θ' a2.fin
  obtain ⟨p1, p2⟩ := pp _ _ c1 c2 (Real.abs_cos_le_one _)
  obtain ⟨p3, p4⟩ := pp _ _ s1 s2 (Real.abs_sin_le_one _)
  have e0 : ‖N.cval (⟨F.printParse (F.cos θ'), F.printParse (F.sin θ')⟩ : Cx T) - N.cval (Cx.expi θ')‖ ≤
      Real.sqrt 2 * (t + t ^ 2) := by
    apply norm_le_sqrt2
    · simpa [Cx.expi] using p2
    · simpa [Cx.expi] using p4
  rw [preGrowth]
  refine IAp.unit h ⟨p1, p3⟩ (ie_Wnorm _ _).le ?_
  have e2 := norm_add_le (N.cval (⟨F.printParse (F.cos θ'), F.printParse (F.sin θ')⟩ : Cx T) - N.cval (Cx.expi θ'))
    (N.cval (Cx.expi θ') - W n k)
  rw [sub_add_sub_cancel] at e2
  have e3 := a2.err
  nlinarith

theorem ie_twAt (h : Env F N u η Ω v t D) (cfg : Cfg) (K k : Nat) (h16 : 16 < 2 ^ K) (hk : k < 2 ^ K / 2)
    (hK : K < 64) (hD : 2 ^ K * D ≤ 1) (hΩ : twGrowth cfg U v t (2 ^ K) ≤ Ω) :
    IAp N D (twGrowth cfg U v t (2 ^ K)) (twAt cfg (2 ^ K) k) (W (2 ^ K) k) 1 := by
  have hK1 : 1 ≤ K := by
    rcases K with _ | K
    · norm_num at h16
    · omega
  unfold twGrowth at hΩ ⊢
  unfold twAt twiddles preLookup
  rw [if_neg (by omega)] at hΩ ⊢
  by_cases hc : cfg.precomputed = true ∧ (cfg.kind = .f32 ∨ cfg.kind = .f64) ∧ 2 ^ K ≤ 1024
  · rw [if_pos hc, if_pos]
    · exact ie_preTable h _ _ hc.2.2 hk
    · simp only [Bool.and_eq_true, Bool.or_eq_true, beq_iff_eq]
      exact ⟨⟨hc.1, hc.2.1⟩, preSizes_pow (F := realFlt true) hK1 hc.2.2⟩
  · rw [if_neg hc] at hΩ ⊢
    rw [if_neg]
    · exact ie_twTable h K k hk hK hD hΩ
    · simp only [Bool.and_eq_true, Bool.or_eq_true, beq_iff_eq]
      rintro ⟨⟨a, b⟩, c⟩
      exact hc ⟨a, b, preSizes_le (F := realFlt true) c⟩

end Kofft
