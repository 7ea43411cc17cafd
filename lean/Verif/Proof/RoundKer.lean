import Verif.Proof.RoundPow
/-
Rounding error of the fixed-size kernels and of the fresh power-of-two transform.
-/
namespace Kofft

open Spec Complex Finset

variable [F : Flt ℝ] {u v t : ℝ}

theorem kc (hv : 0 ≤ v) {c : Cx ℝ} {ω : ℂ} (hω : ‖ω‖ ≤ 1) (h1 : |c.re - ω.re| ≤ v)
    (h2 : |c.im - ω.im| ≤ v) : Apx (1 + Real.sqrt 2 * v) (toC c) ω 1 :=
  Apx.unit hω (norm_le_sqrt2 (by simpa using h1) (by simpa using h2))

theorem neg_close (h : Rounding F u v t) {a b : ℝ} (hab : |a - b| ≤ v) : |F.neg a - -b| ≤ v := by
  rw [h.neg, ← neg_sub', abs_neg]; exact hab

theorem minusI_rnd (h : Rounding F u v t) : toC (cxMinusI : Cx ℝ) = -I := by
  apply Complex.ext <;> simp [cxMinusI, h.zero, h.neg, h.one]

theorem kI (h : Rounding F u v t) : Apx (1 + Real.sqrt 2 * v) (toC (cxMinusI : Cx ℝ)) (-I) 1 := by
  rw [minusI_rnd h]
  have := mul_nonneg (Real.sqrt_nonneg 2) h.v_nonneg
  exact (Apx.unit (τ := 0) (by simp) (by simp)).mono (by linarith)

section
variable {g : ℝ} {X : ℕ → ℂ} {A : ℕ → ℝ} {x : ℕ → Cx ℝ}

local notation "Θ" => (1 + Real.sqrt 2 * v)

theorem fft2_rnd (h : Rounding F u v t) (dbg : Bool) (hx : ∀ i, i < 2 → Apx g (toC (x i)) (X i) (A i)) :
    ∃ y, fft2 dbg [x 0, x 1] = .ok y ∧ y.length = 2 ∧
      ∀ k < 2, Apx (g * lvl u Θ ^ 1) (toC (y.getD k Cx.zero)) (dft 2 X k) (∑ i ∈ range 2, A i) := by
  have hΘ := (kI h).one
  refine ⟨[(x 0).add (x 1), (x 0).sub (x 1)], by cases dbg <;> rfl, rfl, ?_⟩
  intro k hk
  have := dft_two X
  rw [pow_one]
  simp only [sum_range_succ, range_zero, sum_empty, zero_add]
  interval_cases k
  · rw [this.1]; exact bf_add h hΘ (hx 0 (by norm_num)) (hx 1 (by norm_num))
  · rw [this.2]; exact bf_sub h hΘ (hx 0 (by norm_num)) (hx 1 (by norm_num))

theorem fft4_rnd (h : Rounding F u v t) (dbg : Bool) (hx : ∀ i, i < 4 → Apx g (toC (x i)) (X i) (A i)) :
    ∃ y, fft4 dbg [x 0, x 1, x 2, x 3] = .ok y ∧ y.length = 4 ∧
      ∀ k < 4, Apx (g * lvl u Θ ^ 2) (toC (y.getD k Cx.zero)) (dft 4 X k) (∑ i ∈ range 4, A i) := by
  have hΘ := (kI h).one
  refine ⟨_, by cases dbg <;> rfl, rfl, ?_⟩
  intro k hk
  obtain ⟨h0, h1, h2, h3⟩ := dft_four X
  rw [show g * lvl u Θ ^ 2 = g * lvl u Θ * lvl u Θ by ring]
  simp only [sum_range_succ, range_zero, sum_empty, zero_add]
  have x0 := hx 0 (by norm_num)
  have x1 := hx 1 (by norm_num)
  have x2 := hx 2 (by norm_num)
  have x3 := hx 3 (by norm_num)
  have e0 := bf_add h hΘ x0 x2
  have e1 := bf_sub h hΘ x0 x2
  have o0 := bf_add h hΘ x1 x3
  have o1 := bf_sub h hΘ x1 x3
  rw [show A 0 + A 1 + A 2 + A 3 = A 0 + A 2 + (A 1 + A 3) by ring]
  interval_cases k
  · rw [h0]; exact bf_add h hΘ e0 o0
  · rw [h1]; exact bf_addm h (rnd_mul h) e1 o1 (kI h)
  · rw [h2]; exact bf_sub h hΘ e0 o0
  · rw [h3]; exact bf_subm h (rnd_mul h) e1 o1 (kI h)

set_option maxHeartbeats 1000000 in
theorem fft16Half_rnd (h : Rounding F u v t) (hx : ∀ i, i < 8 → Apx g (toC (x i)) (X i) (A i)) :
    let r := fft16Half (x 0) (x 1) (x 2) (x 3) (x 4) (x 5) (x 6) (x 7)
    let G := g * lvl u Θ * lvl u Θ * lvl u Θ
    let S := A 0 + A 1 + A 2 + A 3 + A 4 + A 5 + A 6 + A 7
    Apx G (toC r.1) (dft 8 X 0) S ∧ Apx G (toC r.2.1) (dft 8 X 1) S ∧ Apx G (toC r.2.2.1) (dft 8 X 2) S ∧
    Apx G (toC r.2.2.2.1) (dft 8 X 3) S ∧ Apx G (toC r.2.2.2.2.1) (dft 8 X 4) S ∧
    Apx G (toC r.2.2.2.2.2.1) (dft 8 X 5) S ∧ Apx G (toC r.2.2.2.2.2.2.1) (dft 8 X 6) S ∧
    Apx G (toC r.2.2.2.2.2.2.2) (dft 8 X 7) S := by
  have hΘ := (kI h).one
  have hd := fun k => dft_double (m := 4) X k
  obtain ⟨e0, e1, e2, e3⟩ := dft_four (fun t => X (2 * t))
  obtain ⟨o0, o1, o2, o3⟩ := dft_four (fun t => X (2 * t + 1))
  simp only [Nat.mul_zero, Nat.mul_one, Nat.zero_add, Nat.reduceMul, Nat.reduceAdd] at e0 e1 e2 e3 o0 o1 o2 o3
  obtain ⟨d0, d1, d2, d3, d4, d5, d6, d7⟩ := dft_eight X
  have s1 : Apx Θ (toC (⟨F.sqrtHalf, F.neg F.sqrtHalf⟩ : Cx ℝ)) (W 8 1) 1 :=
    kc h.v_nonneg (W_norm _ _).le (by rw [W8_1]; exact h.sqrtHalf)
      (by rw [W8_1]; exact neg_close h h.sqrtHalf)
  have s3 : Apx Θ (toC (⟨F.neg F.sqrtHalf, F.neg F.sqrtHalf⟩ : Cx ℝ)) (W 8 3) 1 :=
    kc h.v_nonneg (W_norm _ _).le (by rw [W8_3]; exact neg_close h h.sqrtHalf)
      (by rw [W8_3]; exact neg_close h h.sqrtHalf)
  have x0 := hx 0 (by norm_num)
  have x1 := hx 1 (by norm_num)
  have x2 := hx 2 (by norm_num)
  have x3 := hx 3 (by norm_num)
  have x4 := hx 4 (by norm_num)
  have x5 := hx 5 (by norm_num)
  have x6 := hx 6 (by norm_num)
  have x7 := hx 7 (by norm_num)
  have a0 := bf_add h hΘ x0 x4
  have a1 := bf_sub h hΘ x0 x4
  have a2 := bf_add h hΘ x2 x6
  have a3 := bf_sub h hΘ x2 x6
  have ea0 := bf_add h hΘ a0 a2
  have ea2 := bf_sub h hΘ a0 a2
  have ea1 := bf_addm h (rnd_mul h) a1 a3 (kI h)
  have ea3 := bf_subm h (rnd_mul h) a1 a3 (kI h)
  have b0 := bf_add h hΘ x1 x5
  have b1 := bf_sub h hΘ x1 x5
  have b2 := bf_add h hΘ x3 x7
  have b3 := bf_sub h hΘ x3 x7
  have eb0 := bf_add h hΘ b0 b2
  have eb2 := bf_sub h hΘ b0 b2
  have eb1 := bf_addm h (rnd_mul h) b1 b3 (kI h)
  have eb3 := bf_subm h (rnd_mul h) b1 b3 (kI h)
  intro r G S
  have hS : S = (A 0 + A 4 + (A 2 + A 6)) + (A 1 + A 5 + (A 3 + A 7)) := by simp only [S]; ring
  simp only [hS, G, r]
  refine ⟨?_, ?_, ?_, ?_, ?_, ?_, ?_, ?_⟩
  · rw [d0, e0, o0]; exact bf_add h hΘ ea0 eb0
  · rw [d1, e1, o1]; exact bf_addm h (rnd_mul h) ea1 eb1 s1
  · rw [d2, e2, o2]; exact bf_addm h (rnd_mul h) ea2 eb2 (kI h)
  · rw [d3, e3, o3]; exact bf_addm h (rnd_mul h) ea3 eb3 s3
  · rw [d4, e0, o0]; exact bf_sub h hΘ ea0 eb0
  · rw [d5, e1, o1]; exact bf_subm h (rnd_mul h) ea1 eb1 s1
  · rw [d6, e2, o2]; exact bf_subm h (rnd_mul h) ea2 eb2 (kI h)
  · rw [d7, e3, o3]; exact bf_subm h (rnd_mul h) ea3 eb3 s3

theorem fft8_rnd (h : Rounding F u v t) (dbg : Bool) (hx : ∀ i, i < 8 → Apx g (toC (x i)) (X i) (A i)) :
    ∃ y, fft8 dbg [x 0, x 1, x 2, x 3, x 4, x 5, x 6, x 7] = .ok y ∧ y.length = 8 ∧
      ∀ k < 8, Apx (g * lvl u Θ ^ 3) (toC (y.getD k Cx.zero)) (dft 8 X k) (∑ i ∈ range 8, A i) := by
  refine ⟨_, by cases dbg <;> rfl, rfl, ?_⟩
  intro k hk
  obtain ⟨h0, h1, h2, h3, h4, h5, h6, h7⟩ := fft16Half_rnd h hx
  rw [show g * lvl u Θ ^ 3 = g * lvl u Θ * lvl u Θ * lvl u Θ by ring]
  simp only [sum_range_succ, range_zero, sum_empty, zero_add]
  interval_cases k
  · exact h0
  · exact h1
  · exact h2
  · exact h3
  · exact h4
  · exact h5
  · exact h6
  · exact h7

set_option maxHeartbeats 1000000 in
theorem fft16_rnd (h : Rounding F u v t) (dbg : Bool) (hx : ∀ i, i < 16 → Apx g (toC (x i)) (X i) (A i)) :
    ∃ y, fft16 dbg [x 0, x 1, x 2, x 3, x 4, x 5, x 6, x 7, x 8, x 9, x 10, x 11, x 12, x 13,
      x 14, x 15] = .ok y ∧ y.length = 16 ∧
      ∀ k < 16, Apx (g * lvl u Θ ^ 4) (toC (y.getD k Cx.zero)) (dft 16 X k) (∑ i ∈ range 16, A i) := by
  have hΘ := (kI h).one
  set e := fft16Half (x 0) (x 2) (x 4) (x 6) (x 8) (x 10) (x 12) (x 14) with he
  set o := fft16Half (x 1) (x 3) (x 5) (x 7) (x 9) (x 11) (x 13) (x 15) with ho
  refine ⟨[e.1.add o.1, e.2.1.add (o.2.1.mul ⟨F.cosPi8, F.neg F.sinPi8⟩),
    e.2.2.1.add (o.2.2.1.mul ⟨F.sqrtHalf, F.neg F.sqrtHalf⟩),
    e.2.2.2.1.add (o.2.2.2.1.mul ⟨F.sinPi8, F.neg F.cosPi8⟩),
    e.2.2.2.2.1.add (o.2.2.2.2.1.mul ⟨F.zero, F.neg F.one⟩),
    e.2.2.2.2.2.1.add (o.2.2.2.2.2.1.mul ⟨F.neg F.sinPi8, F.neg F.cosPi8⟩),
    e.2.2.2.2.2.2.1.add (o.2.2.2.2.2.2.1.mul ⟨F.neg F.sqrtHalf, F.neg F.sqrtHalf⟩),
    e.2.2.2.2.2.2.2.add (o.2.2.2.2.2.2.2.mul ⟨F.neg F.cosPi8, F.neg F.sinPi8⟩),
    e.1.sub o.1, e.2.1.sub (o.2.1.mul ⟨F.cosPi8, F.neg F.sinPi8⟩),
    e.2.2.1.sub (o.2.2.1.mul ⟨F.sqrtHalf, F.neg F.sqrtHalf⟩),
    e.2.2.2.1.sub (o.2.2.2.1.mul ⟨F.sinPi8, F.neg F.cosPi8⟩),
    e.2.2.2.2.1.sub (o.2.2.2.2.1.mul ⟨F.zero, F.neg F.one⟩),
    e.2.2.2.2.2.1.sub (o.2.2.2.2.2.1.mul ⟨F.neg F.sinPi8, F.neg F.cosPi8⟩),
    e.2.2.2.2.2.2.1.sub (o.2.2.2.2.2.2.1.mul ⟨F.neg F.sqrtHalf, F.neg F.sqrtHalf⟩),
    e.2.2.2.2.2.2.2.sub (o.2.2.2.2.2.2.2.mul ⟨F.neg F.cosPi8, F.neg F.sinPi8⟩)],
    by cases dbg <;> rfl, rfl, ?_⟩
  intro k hk
  obtain ⟨e0, e1, e2, e3, e4, e5, e6, e7⟩ := fft16Half_rnd h (x := fun i => x (2 * i)) (X := fun i => X (2 * i))
    (A := fun i => A (2 * i)) (fun i hi => hx (2 * i) (by omega))
  obtain ⟨o0, o1, o2, o3, o4, o5, o6, o7⟩ := fft16Half_rnd h (x := fun i => x (2 * i + 1))
    (X := fun i => X (2 * i + 1)) (A := fun i => A (2 * i + 1)) (fun i hi => hx (2 * i + 1) (by omega))
  simp only [Nat.mul_zero, Nat.mul_one, Nat.zero_add, Nat.reduceMul, Nat.reduceAdd, ← he, ← ho] at e0 e1 e2 e3 e4 e5 e6 e7 o0 o1 o2 o3 o4 o5 o6 o7
  have hd := fun k => dft_double (m := 8) X k
  have pe := fun k => dft_periodic (n := 8) (by norm_num) (fun t => X (2 * t)) k
  have po := fun k => dft_periodic (n := 8) (by norm_num) (fun t => X (2 * t + 1)) k
  have hw : ∀ k, W 16 (k + 8) = - W 16 k := by
    intro k; rw [W_add, W_half (m := 8) (by norm_num)]; ring
  have hd2 : ∀ k, dft 16 X (k + 8) =
      dft 8 (fun t => X (2 * t)) k - dft 8 (fun t => X (2 * t + 1)) k * W 16 k := by
    intro k
    have := hd (k + 8)
    rw [pe, po, hw] at this
    rw [this]; ring
  have hd1 : ∀ k, dft 16 X k =
      dft 8 (fun t => X (2 * t)) k + dft 8 (fun t => X (2 * t + 1)) k * W 16 k := by
    intro k
    rw [show (16 : ℕ) = 2 * 8 from rfl, hd k]; ring
  have hv := h.v_nonneg
  have c1 : Apx Θ (toC (⟨F.cosPi8, F.neg F.sinPi8⟩ : Cx ℝ)) (W 16 1) 1 :=
    kc hv (W_norm _ _).le (by rw [W16_1]; exact h.cosPi8) (by rw [W16_1]; exact neg_close h h.sinPi8)
  have c2 : Apx Θ (toC (⟨F.sqrtHalf, F.neg F.sqrtHalf⟩ : Cx ℝ)) (W 16 2) 1 :=
    kc hv (W_norm _ _).le (by rw [W16_2]; exact h.sqrtHalf) (by rw [W16_2]; exact neg_close h h.sqrtHalf)
  have c3 : Apx Θ (toC (⟨F.sinPi8, F.neg F.cosPi8⟩ : Cx ℝ)) (W 16 3) 1 :=
    kc hv (W_norm _ _).le (by rw [W16_3]; exact h.sinPi8) (by rw [W16_3]; exact neg_close h h.cosPi8)
  have c4 : Apx Θ (toC (⟨F.zero, F.neg F.one⟩ : Cx ℝ)) (W 16 4) 1 := by
    rw [W16_4]; exact kI h
  have c5 : Apx Θ (toC (⟨F.neg F.sinPi8, F.neg F.cosPi8⟩ : Cx ℝ)) (W 16 5) 1 :=
    kc hv (W_norm _ _).le (by rw [W16_5]; exact neg_close h h.sinPi8) (by rw [W16_5]; exact neg_close h h.cosPi8)
  have c6 : Apx Θ (toC (⟨F.neg F.sqrtHalf, F.neg F.sqrtHalf⟩ : Cx ℝ)) (W 16 6) 1 :=
    kc hv (W_norm _ _).le (by rw [W16_6]; exact neg_close h h.sqrtHalf) (by rw [W16_6]; exact neg_close h h.sqrtHalf)
  have c7 : Apx Θ (toC (⟨F.neg F.cosPi8, F.neg F.sinPi8⟩ : Cx ℝ)) (W 16 7) 1 :=
    kc hv (W_norm _ _).le (by rw [W16_7]; exact neg_close h h.cosPi8) (by rw [W16_7]; exact neg_close h h.sinPi8)
  rw [show g * lvl u Θ ^ 4 = g * lvl u Θ * lvl u Θ * lvl u Θ * lvl u Θ by ring]
  simp only [sum_range_succ, range_zero, sum_empty, zero_add]
  rw [show A 0 + A 1 + A 2 + A 3 + A 4 + A 5 + A 6 + A 7 + A 8 + A 9 + A 10 + A 11 + A 12 + A 13 + A 14 + A 15 =
    (A 0 + A 2 + A 4 + A 6 + A 8 + A 10 + A 12 + A 14) + (A 1 + A 3 + A 5 + A 7 + A 9 + A 11 + A 13 + A 15) by ring]
  interval_cases k
  · rw [hd1 0, W_zero, mul_one]; exact bf_add h hΘ e0 o0
  · rw [hd1 1]; exact bf_addm h (rnd_mul h) e1 o1 c1
  · rw [hd1 2]; exact bf_addm h (rnd_mul h) e2 o2 c2
  · rw [hd1 3]; exact bf_addm h (rnd_mul h) e3 o3 c3
  · rw [hd1 4]; exact bf_addm h (rnd_mul h) e4 o4 c4
  · rw [hd1 5]; exact bf_addm h (rnd_mul h) e5 o5 c5
  · rw [hd1 6]; exact bf_addm h (rnd_mul h) e6 o6 c6
  · rw [hd1 7]; exact bf_addm h (rnd_mul h) e7 o7 c7
  · rw [hd2 0, W_zero, mul_one]; exact bf_sub h hΘ e0 o0
  · rw [hd2 1]; exact bf_subm h (rnd_mul h) e1 o1 c1
  · rw [hd2 2]; exact bf_subm h (rnd_mul h) e2 o2 c2
  · rw [hd2 3]; exact bf_subm h (rnd_mul h) e3 o3 c3
  · rw [hd2 4]; exact bf_subm h (rnd_mul h) e4 o4 c4
  · rw [hd2 5]; exact bf_subm h (rnd_mul h) e5 o5 c5
  · rw [hd2 6]; exact bf_subm h (rnd_mul h) e6 o6 c6
  · rw [hd2 7]; exact bf_subm h (rnd_mul h) e7 o7 c7

end

theorem smallOut_rnd (h : Rounding F u v t) (cfg : Cfg) (x : List (Cx ℝ))
    (hl : x.length = 2 ∨ x.length = 4 ∨ x.length = 8 ∨ x.length = 16) (X : ℕ → ℂ) (A : ℕ → ℝ) (g : ℝ)
    (hx : ∀ i, i < x.length → Apx g (toC (x.getD i Cx.zero)) (X i) (A i)) (k : Nat) (hk : k < x.length) :
    Apx (g * powGrowth cfg u v t x.length) (toC ((smallOut cfg x).getD k Cx.zero))
      (dft x.length X k) (∑ i ∈ range x.length, A i) := by
  obtain ⟨y, e, -⟩ := smallKernel_ok cfg x hl
  have hy : smallOut cfg x = y := by simp [smallOut, e]
  rw [hy]
  have hx' := eq_tab_getD x Cx.zero
  obtain ⟨f, hf⟩ : ∃ f : ℕ → Cx ℝ, ∀ i, x.getD i Cx.zero = f i := ⟨_, fun _ => rfl⟩
  simp only [hf] at hx hx'
  unfold powGrowth twGrowth
  rw [if_pos (by omega)]
  rcases hl with hl | hl | hl | hl <;> rw [hl] at hk hx hx' ⊢
  · have e' : fft2 cfg.debug [f 0, f 1] = .ok y := by rw [← e, hx']; rfl
    obtain ⟨y', e2, -, hy'⟩ := fft2_rnd h cfg.debug hx
    rw [e'] at e2
    cases e2
    exact hy' k hk
  · have e' : fft4 cfg.debug [f 0, f 1, f 2, f 3] = .ok y := by rw [← e, hx']; rfl
    obtain ⟨y', e2, -, hy'⟩ := fft4_rnd h cfg.debug hx
    rw [e'] at e2
    cases e2
    exact hy' k hk
  · have e' : fft8 cfg.debug [f 0, f 1, f 2, f 3, f 4, f 5, f 6, f 7] = .ok y := by rw [← e, hx']; rfl
    obtain ⟨y', e2, -, hy'⟩ := fft8_rnd h cfg.debug hx
    rw [e'] at e2
    cases e2
    exact hy' k hk
  · have e' : fft16 cfg.debug [f 0, f 1, f 2, f 3, f 4, f 5, f 6, f 7, f 8, f 9, f 10, f 11, f 12, f 13, f 14,
        f 15] = .ok y := by rw [← e, hx']; rfl
    obtain ⟨y', e2, -, hy'⟩ := fft16_rnd h cfg.debug hx
    rw [e'] at e2
    cases e2
    exact hy' k hk

theorem freshPow_rnd (h : Rounding F u v t) (cfg : Cfg) (x : List (Cx ℝ)) (hp : isPow2 x.length = true)
    (X : ℕ → ℂ) (A : ℕ → ℝ) (g : ℝ)
    (hx : ∀ i, i < x.length → Apx g (toC (x.getD i Cx.zero)) (X i) (A i)) (k : Nat) (hk : k < x.length) :
    Apx (g * powGrowth cfg u v t x.length) (toC ((freshPow cfg x).getD k Cx.zero))
      (dft x.length X k) (∑ i ∈ range x.length, A i) := by
  unfold freshPow powOut
  split
  · rename_i h1
    rw [h1] at hk hx ⊢
    have : k = 0 := by omega
    subst this
    simpa [dft, W_zero, powGrowth, show Nat.log2 1 = 0 from log2_pow' 0] using hx 0 (by omega)
  split
  · rename_i h1 h2
    exact smallOut_rnd h cfg x (by have := pow2_le16 hp h2; omega) X A g hx k hk
  unfold bigOut
  split
  · rw [stale_nil Planner.new _ (by simp [Planner.new]), List.append_nil,
      List.take_of_length_le (by rw [stkOut_length])]
    exact stkOut_rnd h cfg _ (rnd_mulPlain h) x hp (by omega) X A g hx k hk
  · exact stkOut_rnd h cfg _ (rnd_mul h) x hp (by omega) X A g hx k hk

end Kofft
