import Verif.Proof.IeeeTab
/-
The power-of-two transforms in arithmetic with a bounded exponent range: the Stockham stages.
-/
namespace Kofft

open Spec Complex Finset

variable {T : Type} [F : Flt T] {N : Denote T} {u η Ω v t D : ℝ}

local notation "U" => effErr u η D

/-! ### Butterflies -/

section
variable {Θ g : ℝ} {a b c : Cx T} {z w ω : ℂ} {A B : ℝ} {m : Cx T → Cx T → Cx T}

theorem ie_gle (h : Env F N u η Ω v t D) (hΘ : 1 ≤ Θ) (hg : 1 ≤ g) : g * (1 + U) ≤ g * lvl U Θ :=
  g_le (F := realFlt true) h.U_nonneg hΘ hg

theorem ie_lvl (h : Env F N u η Ω v t D) (hΘ : 1 ≤ Θ) : 1 ≤ lvl U Θ :=
  lvl_ge (F := realFlt true) h.U_nonneg hΘ

theorem ie_room (h : Env F N u η Ω v t D) (hΘ : 1 ≤ Θ) (H : IAp N D g a z A) (K : IAp N D g b w B)
    (hΩ : g * lvl U Θ * (A + B) ≤ Ω) : g * (A + B) ≤ Ω := by
  have h1 := ie_lvl h hΘ
  have h2 := H.one
  have h3 : 0 ≤ A + B := add_nonneg H.nonneg K.nonneg
  refine le_trans (mul_le_mul_of_nonneg_right ?_ h3) hΩ
  nlinarith

theorem ie_bf_add (h : Env F N u η Ω v t D) (hΘ : 1 ≤ Θ) (H : IAp N D g a z A) (K : IAp N D g b w B)
    (hΩ : g * lvl U Θ * (A + B) ≤ Ω) : IAp N D (g * lvl U Θ) (a.add b) (z + w) (A + B) :=
  (H.add h K (ie_room h hΘ H K hΩ)).mono (ie_gle h hΘ H.one)

theorem ie_bf_sub (h : Env F N u η Ω v t D) (hΘ : 1 ≤ Θ) (H : IAp N D g a z A) (K : IAp N D g b w B)
    (hΩ : g * lvl U Θ * (A + B) ≤ Ω) : IAp N D (g * lvl U Θ) (a.sub b) (z - w) (A + B) :=
  (H.sub h K (ie_room h hΘ H K hΩ)).mono (ie_gle h hΘ H.one)

theorem ie_bf_aux (h : Env F N u η Ω v t D) (hm : MulOk N U Ω D m)
    (H : IAp N D g a z A) (K : IAp N D g b w B) (L : IAp N D Θ c ω 1) (hΩ : g * lvl U Θ * (A + B) ≤ Ω) :
    IAp N D (g * Θ * (1 + mulErr U)) a z A ∧ IAp N D (g * Θ * (1 + mulErr U)) (m b c) (w * ω) B ∧
      g * Θ * (1 + mulErr U) * (A + B) ≤ Ω := by
  have hμ := mulErr_nonneg h.U_nonneg
  have hU := h.U_nonneg
  have hΘ := L.one
  have hg := H.one
  have hA := H.nonneg
  have hB := K.nonneg
  have hq : 0 ≤ g * Θ * (1 + mulErr U) := by positivity
  have hq1 : g * Θ * (1 + mulErr U) ≤ g * lvl U Θ := by
    have e : g * lvl U Θ = g * Θ * (1 + mulErr U) * (1 + U) := by unfold lvl; ring
    rw [e]; nlinarith
  have h0 : g * Θ * (1 + mulErr U) * (A + B) ≤ Ω :=
    le_trans (mul_le_mul_of_nonneg_right hq1 (add_nonneg hA hB)) hΩ
  refine ⟨H.mono ?_, ?_, h0⟩
  · have : 1 ≤ Θ * (1 + mulErr U) := by nlinarith
    rw [mul_assoc]; nlinarith
  · have := K.mul h hm L (by rw [mul_one]; exact K.floor) (by rw [mul_one]; nlinarith)
    rwa [mul_one] at this

theorem ie_bf_addm (h : Env F N u η Ω v t D) (hm : MulOk N U Ω D m)
    (H : IAp N D g a z A) (K : IAp N D g b w B) (L : IAp N D Θ c ω 1) (hΩ : g * lvl U Θ * (A + B) ≤ Ω) :
    IAp N D (g * lvl U Θ) (a.add (m b c)) (z + w * ω) (A + B) := by
  obtain ⟨h1, h2, h3⟩ := ie_bf_aux h hm H K L hΩ
  have := h1.add h h2 h3
  rwa [show g * Θ * (1 + mulErr U) * (1 + U) = g * lvl U Θ by unfold lvl; ring] at this

theorem ie_bf_subm (h : Env F N u η Ω v t D) (hm : MulOk N U Ω D m)
    (H : IAp N D g a z A) (K : IAp N D g b w B) (L : IAp N D Θ c ω 1) (hΩ : g * lvl U Θ * (A + B) ≤ Ω) :
    IAp N D (g * lvl U Θ) (a.sub (m b c)) (z - w * ω) (A + B) := by
  obtain ⟨h1, h2, h3⟩ := ie_bf_aux h hm H K L hΩ
  have := h1.sub h h2 h3
  rwa [show g * Θ * (1 + mulErr U) * (1 + U) = g * lvl U Θ by unfold lvl; ring] at this

end

/-- a sum over every `n2`-th index -/
theorem sub_sum (A : ℕ → ℝ) {n2 M j L : ℕ} (hj : j < n2) (hL : n2 * M = L) (hA : ∀ i, i < L → 0 ≤ A i) :
    ∑ r ∈ range M, A (j + n2 * r) ≤ ∑ i ∈ range L, A i := by
  have hinj : Set.InjOn (fun r => j + n2 * r) (range M : Set ℕ) := by
    intro a _ b _ hab
    have : n2 * a = n2 * b := by simpa using hab
    exact Nat.eq_of_mul_eq_mul_left (by omega) this
  rw [← sum_image (f := A) hinj]
  apply sum_le_sum_of_subset_of_nonneg
  · intro i hi
    simp only [mem_image, mem_range] at hi ⊢
    obtain ⟨r, hr, rfl⟩ := hi
    have : n2 * (r + 1) ≤ n2 * M := Nat.mul_le_mul_left _ hr
    rw [← hL]; nlinarith
  · intro i hi _
    exact hA i (by simpa using hi)

/-! ### Stockham stages -/

set_option maxHeartbeats 1000000 in
/-- Partial sums of `s` stages, with inputs that are themselves approximations. -/
theorem ie_stk (h : Env F N u η Ω v t D) (mul : Cx T → Cx T → Cx T)
    (hm : MulOk N U Ω D mul) (K : Nat)
    (tw x : Nat → Cx T) (X : ℕ → ℂ) (A : ℕ → ℝ) (g Θ : ℝ) (hΘ : 1 ≤ Θ)
    (hΩ : g * lvl U Θ ^ K * (∑ i ∈ range (2 ^ K), A i) ≤ Ω)
    (hx : ∀ i, i < 2 ^ K → IAp N D g (x i) (X i) (A i))
    (htw : ∀ k, k < 2 ^ K / 2 → IAp N D Θ (tw k) (W (2 ^ K) k) 1) :
    ∀ s, s ≤ K → ∀ q j, q < 2 ^ s → j < 2 ^ K / 2 ^ s →
      IAp N D (g * lvl U Θ ^ s) (stk mul (2 ^ K) tw x s (q * (2 ^ K / 2 ^ s) + j))
        (∑ r ∈ range (2 ^ s), X (j + (2 ^ K / 2 ^ s) * r) * W (2 ^ s) (q * r))
        (∑ r ∈ range (2 ^ s), A (j + (2 ^ K / 2 ^ s) * r))
  | 0, _, q, j, hq, hj => by
    have : q = 0 := by simpa using hq
    subst this
    simpa [stk, W_zero] using hx j (by simpa using hj)
  | s + 1, hs, q, j, hq, hj => by
    set n2 := 2 ^ K / 2 ^ (s + 1) with hn2
    have hK : 2 * 2 ^ s * n2 = 2 ^ K := by
      rw [show 2 * 2 ^ s = 2 ^ (s + 1) by ring]
      exact Nat.mul_div_cancel' (pow_dvd_pow 2 hs)
    have hpos : 0 < n2 := by omega
    have h2s : 0 < 2 ^ s := Nat.pow_pos (by norm_num)
    have hN : 2 ^ K / 2 ^ s = 2 * n2 := by
      rw [← hK]; rw [show 2 * 2 ^ s * n2 = 2 ^ s * (2 * n2) by ring]; exact Nat.mul_div_cancel_left _ h2s
    have ih := ie_stk h mul hm K tw x X A g Θ hΘ hΩ hx htw s (by omega)
    rw [hN] at ih
    have heven : ∀ k, k < 2 ^ s → IAp N D (g * lvl U Θ ^ s) (stk mul (2 ^ K) tw x s (2 * k * n2 + j))
        (∑ r ∈ range (2 ^ s), X (j + n2 * (2 * r)) * W (2 ^ (s + 1)) (k * (2 * r)))
        (∑ r ∈ range (2 ^ s), A (j + n2 * (2 * r))) := by
      intro k hk
      have := ih k j hk (by omega)
      rw [show k * (2 * n2) + j = 2 * k * n2 + j by ring] at this
      convert this using 1
      · apply sum_congr rfl
        intro r _
        rw [show 2 * n2 * r = n2 * (2 * r) by ring, show k * (2 * r) = 2 * (k * r) by ring,
          show 2 ^ (s + 1) = 2 * 2 ^ s by ring, W_scale (by norm_num)]
      · apply sum_congr rfl
        intro r _
        rw [show 2 * n2 * r = n2 * (2 * r) by ring]
    have hodd : ∀ k, k < 2 ^ s →
        IAp N D (g * lvl U Θ ^ s) (stk mul (2 ^ K) tw x s (2 * k * n2 + n2 + j))
        (∑ r ∈ range (2 ^ s), X (j + n2 * (2 * r + 1)) * W (2 ^ s) (k * r))
        (∑ r ∈ range (2 ^ s), A (j + n2 * (2 * r + 1))) := by
      intro k hk
      have := ih k (n2 + j) hk (by omega)
      rw [show k * (2 * n2) + (n2 + j) = 2 * k * n2 + n2 + j by ring] at this
      convert this using 1
      · apply sum_congr rfl
        intro r _
        rw [show n2 + j + 2 * n2 * r = j + n2 * (2 * r + 1) by ring]
      · apply sum_congr rfl
        intro r _
        rw [show n2 + j + 2 * n2 * r = j + n2 * (2 * r + 1) by ring]
    have hT : ∀ k, k < 2 ^ s → IAp N D Θ (tw (k * n2)) (W (2 ^ (s + 1)) k) 1 := by
      intro k hk
      have hkn : k * n2 < 2 ^ K / 2 := by
        have : (k + 1) * n2 ≤ 2 ^ s * n2 := Nat.mul_le_mul_right _ hk
        have e : 2 ^ K / 2 = 2 ^ s * n2 := by rw [← hK, Nat.mul_assoc]; simp
        rw [e]; nlinarith
      have := htw _ hkn
      rwa [← hK, show 2 * 2 ^ s * n2 = n2 * 2 ^ (s + 1) by ring,
          show k * n2 = n2 * k by ring, W_scale (by omega), show n2 * k = k * n2 by ring] at this
    have hodd' : ∀ k, (∑ r ∈ range (2 ^ s), X (j + n2 * (2 * r + 1)) * W (2 ^ s) (k * r)) * W (2 ^ (s + 1)) k =
        ∑ r ∈ range (2 ^ s), X (j + n2 * (2 * r + 1)) * W (2 ^ (s + 1)) (k * (2 * r + 1)) := by
      intro k
      rw [sum_mul]
      apply sum_congr rfl
      intro r _
      rw [show k * (2 * r + 1) = 2 * (k * r) + k by ring, W_add,
        show W (2 ^ (s + 1)) (2 * (k * r)) = W (2 ^ s) (k * r) by
          rw [show 2 ^ (s + 1) = 2 * 2 ^ s by ring, W_scale (by norm_num)]]
      ring
    rw [show range (2 ^ (s + 1)) = range (2 * 2 ^ s) by congr 1; ring, sum_range_even_odd, sum_range_even_odd]
    show IAp _ _ _ (stageF mul (2 ^ s) n2 tw (stk mul (2 ^ K) tw x s) (q * n2 + j)) _ _
    rw [show g * lvl U Θ ^ (s + 1) = g * lvl U Θ ^ s * lvl U Θ by ring]
    have hx0 := hx 0 (Nat.pow_pos (by norm_num))
    have hroom : g * lvl U Θ ^ s * lvl U Θ * (∑ r ∈ range (2 ^ s), A (j + n2 * (2 * r)) +
        ∑ r ∈ range (2 ^ s), A (j + n2 * (2 * r + 1))) ≤ Ω := by
      rw [← sum_range_even_odd (f := fun r => A (j + n2 * r))]
      have h1 := ie_lvl h hΘ
      have h2 := sub_sum A (M := 2 * 2 ^ s) hj (by rw [← hK]; ring) (fun i hi => (hx i hi).nonneg)
      have h3 : lvl U Θ ^ s * lvl U Θ ≤ lvl U Θ ^ K := by
        rw [← pow_succ]; exact pow_le_pow_right₀ h1 hs
      have hg := hx0.one
      have h4 : 0 ≤ ∑ i ∈ range (2 ^ K), A i := sum_nonneg fun i hi => (hx i (by simpa using hi)).nonneg
      refine le_trans ?_ hΩ
      rw [mul_assoc g]
      exact mul_le_mul (mul_le_mul_of_nonneg_left h3 (by linarith)) h2
        (sum_nonneg fun r hr => (hx _ (by
          rw [mem_range] at hr
          have : n2 * (r + 1) ≤ n2 * (2 * 2 ^ s) := Nat.mul_le_mul_left _ hr
          rw [← hK]; nlinarith)).nonneg) (by positivity)
    by_cases hq2 : q < 2 ^ s
    · rw [stageF_lo hq2 hj, ← hodd']
      exact ie_bf_addm h hm (heven q hq2) (hodd q hq2) (hT q hq2) hroom
    · obtain ⟨k, rfl⟩ : ∃ k, q = k + 2 ^ s := ⟨q - 2 ^ s, by omega⟩
      have hk : k < 2 ^ s := by rw [pow_succ] at hq; omega
      rw [stageF_hi hj]
      have := ie_bf_subm h hm (heven k hk) (hodd k hk) (hT k hk) hroom
      rw [hodd', sub_eq_add_neg, ← sum_neg_distrib] at this
      convert this using 2
      · apply sum_congr rfl
        intro r _
        rw [show (k + 2 ^ s) * (2 * r) = k * (2 * r) + r * 2 ^ (s + 1) by ring, W_add,
          W_mul_self (by positivity), mul_one]
      · apply sum_congr rfl
        intro r _
        rw [show (k + 2 ^ s) * (2 * r + 1) = k * (2 * r + 1) + (r * 2 ^ (s + 1) + 2 ^ s) by ring, W_add,
          W_add, W_mul_self (by positivity),
          show W (2 ^ (s + 1)) (2 ^ s) = -1 by
            rw [show 2 ^ (s + 1) = 2 * 2 ^ s by ring]; exact W_half (by omega)]
        ring

theorem ie_powG (h : Env F N u η Ω v t D) (cfg : Cfg) (n : ℕ) : 1 ≤ powGrowth cfg U v t n :=
  one_le_pow₀ (ie_lvl h (twGrowth_ge (F := realFlt true) h.rounding cfg n))

theorem ie_stkOut (h : Env F N u η Ω v t D) (cfg : Cfg) (mul : Cx T → Cx T → Cx T)
    (hm : MulOk N U Ω D mul) (z : List (Cx T))
    (hp : isPow2 z.length = true) (h16 : 16 < z.length) (X : ℕ → ℂ) (A : ℕ → ℝ) (g : ℝ)
    (hx : ∀ i, i < z.length → IAp N D g (z.getD i Cx.zero) (X i) (A i)) (hn : z.length < 2 ^ 64)
    (hD : z.length * D ≤ 1) (hw : powGrowth cfg U v t z.length ≤ Ω)
    (hΩ : g * powGrowth cfg U v t z.length * (∑ i ∈ range z.length, A i) ≤ Ω) (k : Nat) (hk : k < z.length) :
    IAp N D (g * powGrowth cfg U v t z.length) ((stkOut cfg mul z).getD k Cx.zero)
      (dft z.length X k) (∑ i ∈ range z.length, A i) := by
  obtain ⟨K, hK⟩ := isPow2_iff.mp hp
  unfold stkOut
  rw [tab_getD hk]
  clear hp
  generalize hz : (fun i => z.getD i Cx.zero) = f
  have hx' : ∀ i, i < z.length → IAp N D g (f i) (X i) (A i) := by rw [← hz]; exact hx
  clear hx hz
  generalize z.length = n at *
  subst hK
  rw [powGrowth, log2_pow'] at *
  change (lvl U (twGrowth cfg U v t (2 ^ K))) ^ K ≤ Ω at hw
  change g * (lvl U (twGrowth cfg U v t (2 ^ K))) ^ K * _ ≤ Ω at hΩ
  have hK1 : K ≠ 0 := by rintro rfl; norm_num at h16
  have hΘ := twGrowth_ge (F := realFlt true) h.rounding cfg (2 ^ K)
  have hl := ie_lvl h hΘ
  have hΘl : twGrowth cfg U v t (2 ^ K) ≤ lvl U (twGrowth cfg U v t (2 ^ K)) := by
    have := mulErr_nonneg h.U_nonneg
    have := h.U_nonneg
    have h1 : 1 ≤ (1 + U) * (1 + mulErr U) := by nlinarith
    rw [lvl]; nlinarith
  have hΘΩ : twGrowth cfg U v t (2 ^ K) ≤ Ω :=
    hΘl.trans ((le_self_pow₀ hl hK1).trans hw)
  have := ie_stk h mul hm K (twAt cfg (2 ^ K)) f X A g _ hΘ hΩ hx'
    (fun k hk => ie_twAt h cfg K k h16 hk ((Nat.pow_lt_pow_iff_right (by norm_num)).mp hn) (by simpa using hD) hΘΩ) K le_rfl k 0 (by omega)
    (by rw [Nat.div_self (Nat.pow_pos (by norm_num))]; norm_num)
  rw [Nat.div_self (Nat.pow_pos (by norm_num))] at this
  simp only [mul_one, add_zero, one_mul, zero_add] at this
  exact this

end Kofft
