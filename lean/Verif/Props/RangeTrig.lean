import Verif.Proof.RangeTrig
import Verif.Spec.Range
import Verif.Props.Ieee
/-
Property C107: the cosine, sine and Hartley transforms of finite data of moderate size are finite, in arithmetic with a
bounded exponent range.
-/
namespace Kofft.Props
open Spec Finset

variable {T : Type} [F : Flt T] {N : Denote T} {u η Ω v t : ℝ}

omit F in
theorem map_sum_range (f : T → ℝ) (d : T) (x : List T) : (x.map f).sum = ∑ i ∈ range x.length, f (x.getD i d) := by
  induction x with
  | nil => simp
  | cons a x ih => rw [List.map_cons, List.sum_cons, List.length_cons, sum_range_succ', ih]; simp [add_comm]

/-- the factor `π / n` and its variants -/
theorem bd_factor (h : Coarse F N u η Ω v t) {n : ℕ} (hn : 0 < n) (hn' : n < 2 ^ 64) :
    Bd N ((Flt.pi : T) /. Flt.ofNat n) 20 := by
  obtain ⟨h1, h2⟩ := h.bofNat (n := n) hn'
  have hb := h.big
  have : (1 : ℝ) ≤ n := by exact_mod_cast hn
  exact h.bdiv h.bpi h1.1 (by norm_num : (0 : ℝ) < 3 / 4) (by linarith) (by norm_num; linarith) (by norm_num)

theorem bd_factor_pred (h : Coarse F N u η Ω v t) {n : ℕ} (hn : 2 ≤ n) (hn' : n < 2 ^ 64) (hΩ : 400 * (n : ℝ) ^ 2 ≤ Ω) :
    Bd N ((Flt.pi : T) /. (Flt.ofNat n -. Flt.one)) 20 := by
  obtain ⟨h1, h2⟩ := h.bofNat (n := n) hn'
  have hb := h.big
  have hn2 : (2 : ℝ) ≤ n := by exact_mod_cast hn
  have e1 := h.toIeee.one.2
  have hv := (abs_le.1 h1.2).2
  have habs : |N.val (Flt.ofNat n : T) - N.val (Flt.one : T)| = N.val (Flt.ofNat n : T) - 1 := by
    rw [e1, abs_of_nonneg (by linarith)]
  obtain ⟨r1, r2⟩ := h.sub (Flt.ofNat n) Flt.one h1.1 h.toIeee.one.1 (by rw [habs]; nlinarith)
  rw [habs, e1] at r2
  have h3 := (abs_le.1 r2).1
  have h4 : u * (N.val (Flt.ofNat n : T) - 1) ≤ 1 / 4 * (N.val (Flt.ofNat n : T) - 1) :=
    mul_le_mul_of_nonneg_right h.u_small (by linarith)
  exact h.bdiv h.bpi r1 (by norm_num : (0 : ℝ) < 3 / 8) (by linarith) (by norm_num; linarith) (by norm_num)

theorem bd_factor_succ (h : Coarse F N u η Ω v t) {n : ℕ} (hn : 0 < n) (hn' : n < 2 ^ 64) (hΩ : 400 * (n : ℝ) ^ 2 ≤ Ω) :
    Bd N ((Flt.pi : T) /. (Flt.ofNat n +. Flt.one)) 20 := by
  obtain ⟨h1, h2⟩ := h.bofNat (n := n) hn'
  have hb := h.big
  have hn2 : (1 : ℝ) ≤ n := by exact_mod_cast hn
  have e1 := h.toIeee.one.2
  have hv := (abs_le.1 h1.2).2
  have habs : |N.val (Flt.ofNat n : T) + N.val (Flt.one : T)| = N.val (Flt.ofNat n : T) + 1 := by
    rw [e1, abs_of_nonneg (by linarith)]
  obtain ⟨r1, r2⟩ := h.add (Flt.ofNat n) Flt.one h1.1 h.toIeee.one.1 (by rw [habs]; nlinarith)
  rw [habs, e1] at r2
  have h3 := (abs_le.1 r2).1
  have h4 : u * (N.val (Flt.ofNat n : T) + 1) ≤ 1 / 4 * (N.val (Flt.ofNat n : T) + 1) :=
    mul_le_mul_of_nonneg_right h.u_small (by linarith)
  exact h.bdiv h.bpi r1 (by norm_num : (0 : ℝ) < 3 / 8) (by linarith) (by norm_num; linarith) (by norm_num)

theorem bd_factor_dht (h : Coarse F N u η Ω v t) {n : ℕ} (hn : 0 < n) (hn' : n < 2 ^ 64) :
    Bd N (((two : T) *. Flt.pi) /. Flt.ofNat n) 20 := by
  obtain ⟨h1, h2⟩ := h.bofNat (n := n) hn'
  have hb := h.big
  have : (1 : ℝ) ≤ n := by exact_mod_cast hn
  exact h.bdiv (h.bmul (C := 11) h.btwo h.bpi (by linarith) (by norm_num)) h1.1 (by norm_num : (0 : ℝ) < 3 / 4)
    (by linarith) (by norm_num; linarith) (by norm_num)

/-- an index, or an index plus a half or one -/
theorem bd_index (h : Coarse F N u η Ω v t) {n i : ℕ} (hi : i < n) (hn' : n < 2 ^ 64) (hΩ : 400 * (n : ℝ) ^ 2 ≤ Ω) :
    Bd N (Flt.ofNat i : T) (3 * n) ∧ Bd N ((Flt.ofNat i : T) +. half) (3 * n) ∧
      Bd N ((Flt.ofNat i : T) +. Flt.one) (3 * n) := by
  obtain ⟨h1, -⟩ := h.bofNat (n := i) (by omega)
  have hi' : (i : ℝ) + 1 ≤ n := by exact_mod_cast hi
  have h0 : (0 : ℝ) ≤ i := Nat.cast_nonneg i
  exact ⟨h1.mono (by linarith), h.badd h1 h.bhalf (by nlinarith) (by linarith), h.badd h1 h.bone (by nlinarith) (by linarith)⟩

theorem bd_angle (h : Coarse F N u η Ω v t) {n : ℕ} (hn : 0 < n) (hΩ : 400 * (n : ℝ) ^ 2 ≤ Ω) {f a b : T} (hf : Bd N f 20)
    (ha : Bd N a (3 * n)) (hb : Bd N b (3 * n)) : Bd N ((f *. a) *. b) (400 * n ^ 2) := by
  have hn1 : (1 : ℝ) ≤ n := by exact_mod_cast hn
  exact h.bmul (h.bmul (C := 76 * n) hf ha (by nlinarith) (by nlinarith)) hb (by nlinarith) (by nlinarith)

theorem bd_angle' (h : Coarse F N u η Ω v t) {n : ℕ} (hn : 0 < n) (hΩ : 400 * (n : ℝ) ^ 2 ≤ Ω) {f a b : T} (hf : Bd N f 20)
    (ha : Bd N a (3 * n)) (hb : Bd N b (3 * n)) : Bd N ((a *. b) *. f) (400 * n ^ 2) := by
  have hn1 : (1 : ℝ) ≤ n := by exact_mod_cast hn
  exact h.bmul (h.bmul (C := 13 * n ^ 2) ha hb (by nlinarith) (by nlinarith)) hf (by nlinarith) (by nlinarith)

/-- a sample times a cosine or sine -/
theorem bd_term (h : Coarse F N u η Ω v t) {x c : T} (hx : N.fin x) (hc : Bd N c 5) (hΩ : 7 * |N.val x| + 4 ≤ Ω) :
    Bd N (x *. c) (7 * |N.val x| + 4) := by
  have h0 := abs_nonneg (N.val x)
  exact h.bmul ⟨hx, le_rfl⟩ hc (by linarith) (by linarith)

/-- a whole transform -/
theorem bd_fill (h : Coarse F N u η Ω v t) {x : List T} (hx : 0 < x.length) (hfin : ∀ a ∈ x, N.fin a)
    (hΩ : trigBound u x.length (N.absSum x) ≤ Ω) {f : ℕ → Outcome T} (lo hi : ℕ) (init : ℕ → T) (g : ℕ → ℕ → T → T)
    (hlo : lo ≤ hi) (hhi : hi ≤ x.length) (A : ℝ)
    (he : ∀ k, k < x.length → f k = .ok (accV x lo (g k) (init k) (hi - lo)))
    (hA : A + ∑ i ∈ Ico lo hi, (7 * |N.val (x.getD i Flt.zero)| + 4) ≤
      ∑ i ∈ range x.length, (7 * |N.val (x.getD i Flt.zero)| + 4))
    (hinit : ∀ k, k < x.length → Bd N (init k) A)
    (hg : ∀ k i, k < x.length → i < x.length → lo ≤ i → N.fin (x.getD i Flt.zero) →
      7 * |N.val (x.getD i Flt.zero)| + 4 ≤ Ω →
      Bd N (g k i (x.getD i Flt.zero)) (7 * |N.val (x.getD i Flt.zero)| + 4)) :
    ∃ y, fillOut (List.replicate x.length Flt.zero) f = .ok y ∧ y.length = x.length ∧
      ∀ a ∈ y, N.fin a ∧ |N.val a| ≤ trigBound u x.length (N.absSum x) := by
  refine ⟨_, fillOut_ok _ f _ (fun k hk => he k (by simpa using hk)), by simp, ?_⟩
  intro a ha
  obtain ⟨k, hk, rfl⟩ := List.mem_iff_getElem.mp ha
  rw [tab_getElem]
  have hk' : k < x.length := by simpa using hk
  have hS : ∑ i ∈ range x.length, (7 * |N.val (x.getD i Flt.zero)| + 4) = 7 * N.absSum x + 4 * x.length := by
    rw [Denote.absSum, map_sum_range _ Flt.zero, sum_add_distrib, ← mul_sum, sum_const, card_range, nsmul_eq_mul]
    ring
  have hu := h.u_nonneg
  have h1 : 1 ≤ (1 + u) ^ x.length := one_le_pow₀ (by linarith)
  have hS0 : 0 ≤ 7 * N.absSum x + 4 * x.length := by rw [← hS]; positivity
  have hterm : ∀ i, i < x.length → 7 * |N.val (x.getD i Flt.zero)| + 4 ≤ Ω := by
    intro i hi
    refine le_trans ?_ hΩ
    refine le_trans ?_ (le_mul_of_one_le_left hS0 h1)
    rw [← hS]
    exact single_le_sum (f := fun i => 7 * |N.val (x.getD i Flt.zero)| + 4) (fun i _ => by positivity) (mem_range.mpr hi)
  have hAn : 0 ≤ A := (hinit k hk').nonneg
  have hB : (1 + u) ^ (hi - lo) * (A + ∑ i ∈ Ico lo (lo + (hi - lo)), (7 * |N.val (x.getD i Flt.zero)| + 4)) ≤
      trigBound u x.length (N.absSum x) := by
    rw [show lo + (hi - lo) = hi by omega, trigBound, ← hS]
    exact mul_le_mul (pow_le_pow_right₀ (by linarith) (by omega)) hA (by positivity) (by positivity)
  refine (bd_accV h x lo (g k) (init k) A (fun i => 7 * |N.val (x.getD i Flt.zero)| + 4) (hinit k hk') (hi - lo) ?_
    (hB.trans hΩ)).mono hB
  intro i hi
  have hil : lo + i < x.length := by omega
  refine hg k (lo + i) hk' hil (by omega) ?_ (hterm _ hil)
  have : x.getD (lo + i) Flt.zero = x[lo + i] := by simp [hil]
  rw [this]
  exact hfin _ (List.getElem_mem hil)

/-- C107a. In arithmetic with numbers up to `Ω`, the nine trigonometric transforms of finite samples return, and every
output is finite, as long as `(1+u)^n (7 Σ|x| + 4n)` and `400 n²` (the largest angle) stay below `Ω`. -/
theorem trig_finite (hF : Ieee F N u η Ω v t) (hu : u ≤ 1 / 4) (hv : v ≤ 1 / 4) (hη : η ≤ 1)
    (f : List T → Outcome (List T)) (hf : f ∈ [dct1, dct2, dct3, dct4, dst1, dst2, dst3, dst4, dht]) (x : List T)
    (hlen : x.length ≤ 2 ^ 31) (hfin : ∀ a ∈ x, N.fin a) (hn : 400 * (x.length : ℝ) ^ 2 ≤ Ω)
    (hΩ : trigBound u x.length (N.absSum x) ≤ Ω) :
    ∃ y, f x = .ok y ∧ y.length = x.length ∧
      ∀ a ∈ y, N.fin a ∧ |N.val a| ≤ trigBound u x.length (N.absSum x) := by
  have h : Coarse F N u η Ω v t := { hF with u_small := hu, v_small := hv, eta_small := hη }
  have hl64 : x.length < 2 ^ 64 := lt_of_le_of_lt hlen (by norm_num)
  have hb := h.big
  by_cases hx : x.length = 0
  · obtain rfl := List.length_eq_zero_iff.mp hx
    refine ⟨[], ?_, rfl, by simp⟩
    simp only [List.mem_cons, List.not_mem_nil, or_false] at hf
    rcases hf with rfl | rfl | rfl | rfl | rfl | rfl | rfl | rfl | rfl <;> rfl
  have hpos : 0 < x.length := by omega
  have hget : ∀ i, i < x.length → N.fin (x.getD i Flt.zero) := by
    intro i hi
    have : x.getD i Flt.zero = x[i] := by simp [hi]
    rw [this]; exact hfin _ (List.getElem_mem hi)
  have hsplit : ∀ (w : ℕ → ℝ), ∑ i ∈ range x.length, w i = w 0 + ∑ i ∈ Ico 1 x.length, w i := by
    intro w
    rw [range_eq_Ico, sum_eq_sum_Ico_succ_bot hpos]
  have hS : ∑ i ∈ range x.length, (7 * |N.val (x.getD i Flt.zero)| + 4) = 7 * N.absSum x + 4 * x.length := by
    rw [Denote.absSum, map_sum_range _ Flt.zero, sum_add_distrib, ← mul_sum, sum_const, card_range, nsmul_eq_mul]
    ring
  have h1 : 1 ≤ (1 + u) ^ x.length := one_le_pow₀ (by linarith [h.u_nonneg])
  have hS0 : 0 ≤ 7 * N.absSum x + 4 * x.length := by rw [← hS]; positivity
  have hSΩ : ∑ i ∈ range x.length, (7 * |N.val (x.getD i Flt.zero)| + 4) ≤ Ω := by
    rw [hS]
    exact (le_mul_of_one_le_left hS0 h1).trans hΩ
  have hfirst : 7 * |N.val (x.getD 0 Flt.zero)| + 4 ≤ Ω :=
    (single_le_sum (f := fun i => 7 * |N.val (x.getD i Flt.zero)| + 4) (fun i _ => by positivity)
      (mem_range.mpr hpos)).trans hSΩ
  have full : ∀ (w : ℕ → ℝ), (0 : ℝ) + ∑ i ∈ Ico 0 x.length, w i ≤ ∑ i ∈ range x.length, w i := by
    intro w; rw [zero_add, range_eq_Ico]
  have hfac := bd_factor h hpos hl64
  have hidx : ∀ i, i < x.length → _ := fun i hi => bd_index h hi hl64 hn
  have hdiv : Bd N (x.getD 0 Flt.zero /. two) (7 * |N.val (x.getD 0 Flt.zero)| + 4) := by
    have h0 := abs_nonneg (N.val (x.getD 0 Flt.zero))
    exact h.bdiv ⟨hget 0 hpos, le_rfl⟩ h.toIeee.two.1 (by norm_num : (0 : ℝ) < 2) h.toIeee.two.2.ge
      (by linarith) (by linarith)
  simp only [List.mem_cons, List.not_mem_nil, or_false] at hf
  rcases hf with rfl | rfl | rfl | rfl | rfl | rfl | rfl | rfl | rfl
  · unfold dct1
    simp only []
    rw [if_neg hx]
    by_cases hx1 : x.length = 1
    · rw [if_pos hx1, rd_getD Flt.zero (by omega), Outcome.bind_ok]
      refine ⟨_, rfl, by simp [hx1], ?_⟩
      intro a ha
      simp only [List.mem_singleton] at ha
      subst ha
      have h0 := abs_nonneg (N.val (x.getD 0 Flt.zero))
      have hs := hS
      rw [hx1] at hs
      simp only [sum_range_one] at hs
      refine (h.bmul (C := 7 * |N.val (x.getD 0 Flt.zero)| + 4) ⟨hget 0 hpos, le_rfl⟩ h.btwo (by linarith) (by linarith)).mono ?_
      rw [trigBound, ← hS, hsplit]
      have h2 : 0 ≤ ∑ i ∈ Ico 1 x.length, (7 * |N.val (x.getD i Flt.zero)| + 4) := by positivity
      nlinarith
    · rw [if_neg hx1]
      have hlast := hget (x.length - 1) (by omega)
      have hfac' := bd_factor_pred h (n := x.length) (by omega) hl64 hn
      have hcut : ∀ w : ℕ → ℝ, ∑ i ∈ range x.length, w i = w 0 + ∑ i ∈ Ico 1 (x.length - 1), w i + w (x.length - 1) := by
        intro w
        rw [hsplit]
        obtain ⟨m, hm⟩ : ∃ m, x.length = m + 2 := ⟨x.length - 2, by omega⟩
        rw [hm, show m + 2 - 1 = m + 1 by omega, sum_Ico_succ_top (by omega)]
        ring
      refine bd_fill h hpos hfin hΩ 1 (x.length - 1)
        (fun k => x.getD 0 Flt.zero +. (if k % 2 = 0 then x.getD (x.length - 1) Flt.zero
          else -. x.getD (x.length - 1) Flt.zero))
        (fun k i a => (two *. a) *.
          Flt.cos ((Flt.pi /. ((Flt.ofNat x.length : T) -. Flt.one)) *. Flt.ofNat i *. Flt.ofNat k))
        (by omega) (by omega) (7 * |N.val (x.getD 0 Flt.zero)| + 4 + (7 * |N.val (x.getD (x.length - 1) Flt.zero)| + 4))
        ?_ (by rw [hcut]; linarith) ?_ ?_
      · intro k hk
        unfold dct1At
        simp only []
        rw [rd_getD Flt.zero (by omega), rd_getD Flt.zero (show x.length - 1 < x.length by omega)]
        simp only [Outcome.bind_ok]
        exact accum_ok _ _ _ _ _ (by omega)
      · intro k hk
        have h0 := abs_nonneg (N.val (x.getD 0 Flt.zero))
        have h0' := abs_nonneg (N.val (x.getD (x.length - 1) Flt.zero))
        have hb1 : Bd N (if k % 2 = 0 then x.getD (x.length - 1) Flt.zero else -. x.getD (x.length - 1) Flt.zero)
            |N.val (x.getD (x.length - 1) Flt.zero)| := by
          split
          · exact ⟨hlast, le_rfl⟩
          · exact h.bneg ⟨hlast, le_rfl⟩
        refine h.badd ⟨hget 0 hpos, le_rfl⟩ hb1 ?_ (by linarith)
        have := hcut (fun i => 7 * |N.val (x.getD i Flt.zero)| + 4)
        have h2 : 0 ≤ ∑ i ∈ Ico 1 (x.length - 1), (7 * |N.val (x.getD i Flt.zero)| + 4) := by positivity
        linarith
      · intro k i hk hi _ hfi hw
        have h0 := abs_nonneg (N.val (x.getD i Flt.zero))
        exact h.bmul (h.bmul (C := 5 / 2 * |N.val (x.getD i Flt.zero)| + 1) h.btwo ⟨hfi, le_rfl⟩ (by linarith) (by linarith))
          (h.bcos (bd_angle h hpos hn hfac' (hidx i hi).1 (hidx k hk).1)) (by linarith) (by linarith)
  · exact bd_fill h hpos hfin hΩ 0 x.length (fun _ => Flt.zero) _ (by omega) le_rfl 0
      (fun k _ => accum_ok _ _ _ _ _ le_rfl) (full _) (fun _ _ => h.bzero)
      (fun k i hk hi _ hfi hw => bd_term h hfi
        ((h.bcos (bd_angle h hpos hn hfac (hidx i hi).2.1 (hidx k hk).1)).mono (by norm_num)) hw)
  · refine bd_fill h hpos hfin hΩ 1 x.length (fun _ => x.getD 0 Flt.zero /. two)
      (fun k i a => a *. Flt.cos (((Flt.pi : T) /. Flt.ofNat x.length) *. Flt.ofNat i *. (Flt.ofNat k +. half)))
      (by omega) le_rfl _ ?_ (hsplit _).ge (fun _ _ => hdiv)
      (fun k i hk hi _ hfi hw => bd_term h hfi
        ((h.bcos (bd_angle h hpos hn hfac (hidx i hi).1 (hidx k hk).2.1)).mono (by norm_num)) hw)
    intro k hk
    unfold dct3At
    rw [rd_getD Flt.zero (by omega)]
    simp only [Outcome.bind_ok]
    exact accum_ok _ _ _ _ _ le_rfl
  · exact bd_fill h hpos hfin hΩ 0 x.length (fun _ => Flt.zero) _ (by omega) le_rfl 0
      (fun k _ => accum_ok _ _ _ _ _ le_rfl) (full _) (fun _ _ => h.bzero)
      (fun k i hk hi _ hfi hw => bd_term h hfi
        ((h.bcos (bd_angle h hpos hn hfac (hidx i hi).2.1 (hidx k hk).2.1)).mono (by norm_num)) hw)
  · have hfac' := bd_factor_succ h (n := x.length) hpos hl64 hn
    exact bd_fill h hpos hfin hΩ 0 x.length (fun _ => Flt.zero) _ (by omega) le_rfl 0
      (fun k _ => accum_ok _ _ _ _ _ le_rfl) (full _) (fun _ _ => h.bzero)
      (fun k i hk hi _ hfi hw => bd_term h hfi
        ((h.bsin (bd_angle' h hpos hn hfac' (hidx i hi).2.2 (hidx k hk).2.2)).mono (by norm_num)) hw)
  · exact bd_fill h hpos hfin hΩ 0 x.length (fun _ => Flt.zero) _ (by omega) le_rfl 0
      (fun k _ => accum_ok _ _ _ _ _ le_rfl) (full _) (fun _ _ => h.bzero)
      (fun k i hk hi _ hfi hw => bd_term h hfi
        ((h.bsin (bd_angle h hpos hn hfac (hidx i hi).2.1 (hidx k hk).2.2)).mono (by norm_num)) hw)
  · refine bd_fill h hpos hfin hΩ 1 x.length (fun _ => x.getD 0 Flt.zero /. two)
      (fun k i a => a *. Flt.sin (((Flt.pi : T) /. Flt.ofNat x.length) *. (Flt.ofNat k +. half) *. Flt.ofNat i))
      (by omega) le_rfl _ ?_ (hsplit _).ge (fun _ _ => hdiv)
      (fun k i hk hi _ hfi hw => bd_term h hfi
        ((h.bsin (bd_angle h hpos hn hfac (hidx k hk).2.1 (hidx i hi).1)).mono (by norm_num)) hw)
    intro k hk
    unfold dst3At
    rw [rd_getD Flt.zero (by omega)]
    simp only [Outcome.bind_ok]
    exact accum_ok _ _ _ _ _ le_rfl
  · exact bd_fill h hpos hfin hΩ 0 x.length (fun _ => Flt.zero) _ (by omega) le_rfl 0
      (fun k _ => accum_ok _ _ _ _ _ le_rfl) (full _) (fun _ _ => h.bzero)
      (fun k i hk hi _ hfi hw => bd_term h hfi
        ((h.bsin (bd_angle h hpos hn hfac (hidx i hi).2.1 (hidx k hk).2.1)).mono (by norm_num)) hw)
  · have hfac' := bd_factor_dht h (n := x.length) hpos hl64
    refine bd_fill h hpos hfin hΩ 0 x.length (fun _ => Flt.zero) _ (by omega) le_rfl 0
      (fun k _ => accum_ok _ _ _ _ _ le_rfl) (full _) (fun _ _ => h.bzero) ?_
    intro k i hk hi _ hfi hw
    have hik : i * k < 2 ^ 64 := by
      calc i * k ≤ 2 ^ 31 * 2 ^ 31 := Nat.mul_le_mul (by omega) (by omega)
        _ < 2 ^ 64 := by norm_num
    obtain ⟨hb1, -⟩ := h.bofNat (n := i * k) hik
    have hikr : ((i * k : ℕ) : ℝ) ≤ (x.length : ℝ) ^ 2 := by
      have : i * k ≤ x.length ^ 2 := by rw [sq]; exact Nat.mul_le_mul hi.le hk.le
      exact_mod_cast this
    have hn1 : (1 : ℝ) ≤ x.length := by exact_mod_cast hpos
    have ha : Bd N ((((two : T) *. Flt.pi) /. Flt.ofNat x.length) *. Flt.ofNat (i * k)) (400 * (x.length : ℝ) ^ 2) :=
      h.bmul hfac' hb1 (by nlinarith) (by nlinarith)
    exact bd_term h hfi (h.badd (h.bcos ha) (h.bsin ha) (by linarith) (by norm_num)) hw

end Kofft.Props
