import Verif.Proof.RoundKer
/-
Rounding error of the chirp (Bluestein) transform and of the fresh transform of any length.
-/
namespace Kofft

open Spec Complex Finset

variable [F : Flt ℝ] {u v t : ℝ}

theorem powGrowth_ge (h : Rounding F u v t) (cfg : Cfg) (n : ℕ) : 1 ≤ powGrowth cfg u v t n :=
  one_le_pow₀ (lvl_ge h.u_nonneg (twGrowth_ge h cfg n))

theorem ratio_ge (h : Rounding F u v t) : 1 ≤ (1 + v) / (1 - v) := by
  have := h.v_nonneg
  have := h.v_lt_one
  rw [le_div_iff₀ (by linarith)]; linarith

theorem chirpErr_nonneg (h : Rounding F u v t) (n : ℕ) : 0 ≤ chirpErr u v t n := by
  have h1 := ratio_ge h
  have h2 : 1 ≤ (1 + u) ^ 3 := one_le_pow₀ (by linarith [h.u_nonneg])
  have h3 := h.t_nonneg
  have h4 := Real.pi_pos
  have h5 : 0 ≤ ((1 + u) ^ 3 * ((1 + v) / (1 - v)) - 1) * (Real.pi * n) :=
    mul_nonneg (by nlinarith) (by positivity)
  have h6 : 0 ≤ Real.sqrt 2 * t := by positivity
  unfold chirpErr; linarith

/-- reciprocal of a converted integer -/
theorem rnd_inv (h : Rounding F u v t) {n : ℕ} (hn : 0 < n) :
    |(F.ofNat n)⁻¹ - (n : ℝ)⁻¹| ≤ (1 / (1 - v) - 1) * |(n : ℝ)⁻¹| ∧ F.ofNat n ≠ 0 := by
  have hv := h.v_nonneg
  have hv1 := h.v_lt_one
  have hn' : (0 : ℝ) < n := by exact_mod_cast hn
  have h1 := h.ofNat n
  rw [abs_le] at h1
  have hpos : 0 < (1 - v) * (n : ℝ) := by nlinarith
  have h2 : (1 - v) * (n : ℝ) ≤ F.ofNat n := by nlinarith
  have h3 : (0 : ℝ) < F.ofNat n := by linarith
  refine ⟨?_, h3.ne'⟩
  have e1 : (F.ofNat n)⁻¹ - (n : ℝ)⁻¹ = (n - F.ofNat n) * ((F.ofNat n)⁻¹ * (n : ℝ)⁻¹) := by
    field_simp
  rw [e1, abs_mul, abs_mul, ← mul_assoc]
  gcongr
  have e2 : |(n : ℝ) - F.ofNat n| ≤ v * n := by rw [abs_sub_comm]; exact h.ofNat n
  have e3 : |(F.ofNat n)⁻¹| ≤ ((1 - v) * n)⁻¹ := by
    rw [abs_of_pos (inv_pos.mpr h3)]
    exact inv_anti₀ hpos h2
  have e4 : 1 / (1 - v) - 1 = v * n * ((1 - v) * n)⁻¹ := by
    have : 1 - v ≠ 0 := by linarith
    field_simp; ring
  rw [e4]
  exact mul_le_mul e2 e3 (abs_nonneg _) (by positivity)

theorem bluAngle_rnd (h : Rounding F u v t) {n i : ℕ} (hi : i < n) :
    |(bluAngle n i : ℝ) - Real.pi * (i * i : ℕ) / n| ≤
      ((1 + u) ^ 3 * ((1 + v) / (1 - v)) - 1) * (Real.pi * n) := by
  have hu := h.u_nonneg
  have hv := h.v_nonneg
  have hv1 := h.v_lt_one
  have hn' : (0 : ℝ) < n := by exact_mod_cast (by omega : 0 < n)
  obtain ⟨hinv, hne⟩ := rnd_inv h (by omega : 0 < n)
  have h1 := rel_mul hu (g := 1 + u) (h := 1 + v) (by linarith) (by linarith)
    (p := F.pi) (P := Real.pi) (by rw [add_sub_cancel_left, abs_of_pos Real.pi_pos]; exact h.pi)
    (q := F.ofNat (i * i)) (Q := ((i * i : ℕ) : ℝ)) (by
      rw [add_sub_cancel_left, Nat.abs_cast]; exact h.ofNat _) (h.mul _ _)
  have hr : 1 ≤ 1 / (1 - v) := by rw [le_div_iff₀ (by linarith)]; linarith
  have h2 := rel_mul hu (by nlinarith [mul_nonneg hu hv]) hr h1 hinv (r := (bluAngle n i : ℝ))
    (by rw [← div_eq_mul_inv]; exact h.div _ _ hne)
  rw [← div_eq_mul_inv, show (1 + u) * (1 + v) * (1 + u) * (1 / (1 - v)) * (1 + u) =
    (1 + u) ^ 3 * ((1 + v) / (1 - v)) by ring] at h2
  refine h2.trans ?_
  have h3 := ratio_ge h
  have h4 : 1 ≤ (1 + u) ^ 3 := one_le_pow₀ (by linarith)
  apply mul_le_mul_of_nonneg_left _ (by nlinarith)
  rw [abs_of_nonneg (by have := Real.pi_pos; positivity), div_le_iff₀ hn']
  have : ((i * i : ℕ) : ℝ) ≤ n * n := by exact_mod_cast Nat.mul_le_mul hi.le hi.le
  nlinarith [Real.pi_pos]

theorem expi_unit (x : ℝ) : ‖exp (x * I)‖ ≤ 1 := (Complex.norm_exp_ofReal_mul_I x).le

theorem chirpAt_rnd (h : Rounding F u v t) {n i : ℕ} (hi : i < n) :
    Apx (1 + chirpErr u v t n) (toC (chirpAt n i)) (exp (-(Real.pi * (i * i : ℕ) / n * I))) 1 := by
  have e : -((Real.pi : ℂ) * (i * i : ℕ) / n * I) = ((-(Real.pi * (i * i : ℕ) / n) : ℝ) : ℂ) * I := by
    push_cast; ring
  rw [e]
  apply Apx.unit (expi_unit _)
  refine (rnd_expi h _ (-(Real.pi * (i * i : ℕ) / n))).trans ?_
  rw [chirpErr, h.neg, ← neg_sub', abs_neg]
  gcongr
  exact bluAngle_rnd h hi

theorem bExp_rnd (h : Rounding F u v t) {n i : ℕ} (hi : i < n) :
    Apx (1 + chirpErr u v t n) (toC (Cx.expi (bluAngle n i))) (exp (Real.pi * (i * i : ℕ) / n * I)) 1 := by
  have e : (Real.pi : ℂ) * (i * i : ℕ) / n * I = ((Real.pi * (i * i : ℕ) / n : ℝ) : ℂ) * I := by
    push_cast; ring
  rw [e]
  apply Apx.unit (expi_unit _)
  refine (rnd_expi h _ (Real.pi * (i * i : ℕ) / n)).trans ?_
  rw [chirpErr]
  gcongr
  exact bluAngle_rnd h hi

/-- the exact wrapped chirp -/
noncomputable def bExact (n i : ℕ) : ℂ :=
  if i < n then exp (Real.pi * (i * i : ℕ) / n * I)
  else if bluM n - n < i then exp (Real.pi * ((bluM n - i) * (bluM n - i) : ℕ) / n * I) else 0

noncomputable def bWeight (n i : ℕ) : ℝ :=
  if i < n then 1 else if bluM n - n < i then 1 else 0

theorem bAt_rnd (h : Rounding F u v t) {n i : ℕ} (hi : i < bluM n) :
    Apx (1 + chirpErr u v t n) (toC (bAt n i)) (bExact n i) (bWeight n i) := by
  unfold bAt bExact bWeight
  split
  · rename_i h1; exact bExp_rnd h h1
  split
  · exact bExp_rnd h (by omega)
  · have := chirpErr_nonneg h n
    rw [rnd_zero h]
    exact ⟨by linarith, by simp, by simp⟩

theorem bWeight_sum {n : ℕ} (hn : 0 < n) : ∑ i ∈ range (bluM n), bWeight n i = 2 * n - 1 := by
  have hge := bluM_ge n
  have e : ∀ i ∈ range (bluM n), bWeight n i =
      (if i < n then (1:ℝ) else 0) + if (bluM n - n < i) then (1 : ℝ) else 0 := by
    intro i hi
    rw [mem_range] at hi
    unfold bWeight
    by_cases h1 : i < n
    · rw [if_pos h1, if_pos h1, if_neg (by omega)]; simp
    · rw [if_neg h1, if_neg h1]; simp
  rw [sum_congr rfl e, sum_add_distrib, sum_ite, sum_ite]
  simp only [sum_const_zero, add_zero, sum_const, nsmul_eq_mul, mul_one]
  have c1 : (filter (fun i => i < n) (range (bluM n))).card = n := by
    rw [show filter (fun i => i < n) (range (bluM n)) = range n by
      ext i; simp only [mem_filter, mem_range]; omega]
    simp
  have c2 : (filter (fun i => bluM n - n < i) (range (bluM n))).card = n - 1 := by
    rw [show filter (fun i => bluM n - n < i) (range (bluM n)) = Ico (bluM n - n + 1) (bluM n) by
      ext i; simp only [mem_filter, mem_range, mem_Ico]; omega]
    simp; omega
  rw [c1, c2, Nat.cast_sub (by omega)]
  push_cast; ring

/-- scaling by a computed real factor -/
theorem rnd_scale (h : Rounding F u v t) {g a' r R : ℝ} {a : Cx ℝ} {z : ℂ} {A : ℝ} (H : Apx g (toC a) z A)
    (hR : 0 ≤ R) (ha : 1 ≤ a') (hr : |r - R| ≤ (a' - 1) * R) :
    Apx (g * a' * (1 + u)) (toC ⟨F.mul a.re r, F.mul a.im r⟩) (z * R) (A * R) := by
  have K : Apx a' (r : ℂ) (R : ℂ) R := ⟨ha, by rw [← ofReal_sub, Complex.norm_real]; exact hr, by
    rw [Complex.norm_real, Real.norm_of_nonneg hR]⟩
  apply H.mul K h.u_nonneg
  rw [← norm_mul]
  apply norm_le_of_parts h.u_nonneg
  · simpa using h.mul a.re r
  · simpa using h.mul a.im r

set_option maxHeartbeats 2000000 in
theorem bluOut_rnd (h : Rounding F u v t) (cfg : Cfg) (x : List (Cx ℝ)) (hn : 0 < x.length)
    (X : ℕ → ℂ) (Aw : ℕ → ℝ) (g : ℝ)
    (hx : ∀ i, i < x.length → Apx g (toC (x.getD i Cx.zero)) (X i) (Aw i))
    (k : Nat) (hk : k < x.length) :
    Apx (g * bluGrowth cfg u v t x.length (bluM x.length)) (toC ((bluOut cfg x).getD k Cx.zero))
      (dft x.length X k) ((2 * x.length - 1) * ∑ i ∈ range x.length, Aw i) := by
  have hu := h.u_nonneg
  have hμ := mulErr_nonneg hu
  have hg := (hx k hk).one
  set n := x.length with hnx
  set m := bluM n with hm
  have hmge : 2 * n - 1 ≤ m := bluM_ge n
  have hmp : isPow2 m = true := bluM_pow2 n
  have hm0 : 0 < m := isPow2_pos hmp
  have hm' : (0 : ℝ) < m := by exact_mod_cast hm0
  set c := 1 + chirpErr u v t n with hc
  have hc1 : 1 ≤ c := by have := chirpErr_nonneg h n; linarith
  set P := powGrowth cfg u v t m with hP
  have hP1 := powGrowth_ge h cfg m
  rw [← hP] at hP1
  set S := ∑ i ∈ range n, Aw i with hS
  set A := bluA n m m (fun i => x.getD i Cx.zero) (fun _ => Cx.zero) with hA
  have hAl : A.length = m := by simp [hA, bluA]
  set B := tab m (bAt (T := ℝ) n) with hB
  have hBl : B.length = m := by simp [hB]
  let a : ℕ → ℂ := fun r => if r < n then X r * exp (-(Real.pi * (r * r : ℕ) / n * I)) else 0
  let aw : ℕ → ℝ := fun r => if r < n then Aw r else 0
  have hAa : ∀ i, i < m → Apx (g * c * (1 + mulErr u)) (toC (A.getD i Cx.zero)) (a i) (aw i) := by
    intro i hi
    rw [hA, bluA, tab_getD hi]
    simp only [a, aw]
    by_cases h1 : i < n
    · rw [if_pos h1, if_pos h1, if_pos h1]
      have := (hx i h1).mul (chirpAt_rnd h h1) hμ (rnd_mul h _ _)
      rwa [mul_one] at this
    · rw [if_neg h1, if_pos hi, if_neg h1, if_neg h1, rnd_zero h]
      have : 1 ≤ g * c * (1 + mulErr u) := by nlinarith [mul_le_mul hg hc1 (by norm_num) (by linarith)]
      exact ⟨this, by simp, by simp⟩
  have haw : ∑ i ∈ range m, aw i = S := by
    simp only [aw, hS]
    rw [← sum_filter]
    congr 1
    ext i; simp only [mem_filter, mem_range]; omega
  have hBb : ∀ i, i < m → Apx c (toC (B.getD i Cx.zero)) (bExact n i) (bWeight n i) := by
    intro i hi
    rw [hB, tab_getD hi]; exact bAt_rnd h hi
  set FA := freshPow cfg A with hFA
  set FB := freshPow cfg B with hFB
  have hFAl : FA.length = m := by rw [hFA, freshPow_length cfg A (by rw [hAl]; exact hmp), hAl]
  have hFBl : FB.length = m := by rw [hFB, freshPow_length cfg B (by rw [hBl]; exact hmp), hBl]
  have eFA : ∀ j, j < m → Apx (g * c * (1 + mulErr u) * P) (toC (FA.getD j Cx.zero)) (dft m a j) S := by
    intro j hj
    have := freshPow_rnd h cfg A (by rw [hAl]; exact hmp) a aw _ (by rw [hAl]; exact hAa) j (by omega)
    rwa [hAl, haw] at this
  have eFB : ∀ j, j < m → Apx (c * P) (toC (FB.getD j Cx.zero)) (dft m (bExact n) j) (2 * n - 1) := by
    intro j hj
    have := freshPow_rnd h cfg B (by rw [hBl]; exact hmp) (bExact n) (bWeight n) _ (by rw [hBl]; exact hBb) j (by omega)
    rwa [hBl, bWeight_sum hn] at this
  set M := bluMid FA FB with hM
  have hMtab : M = tab m (fun i => ((FA.getD i Cx.zero).mul (FB.getD i Cx.zero)).conj) := by
    have t1 : FA = tab m (fun i => FA.getD i Cx.zero) := by
      conv_lhs => rw [eq_tab_getD FA Cx.zero, hFAl]
    have t2 : FB = tab m (fun i => FB.getD i Cx.zero) := by
      conv_lhs => rw [eq_tab_getD FB Cx.zero, hFBl]
    have : M = (copyPrefix (List.zipWith Cx.mul (tab m fun i => FA.getD i Cx.zero)
        (tab m fun i => FB.getD i Cx.zero)) (tab m fun i => FA.getD i Cx.zero)).map Cx.conj := by
      rw [← t1, ← t2, hM]; rfl
    rw [this, tab_zipWith, (copyN_tab (m := m) le_rfl le_rfl).1, tab_map]
    apply tab_congr
    intro i hi
    simp [hi]
  have hMl : M.length = m := by rw [hMtab]; simp
  have eM : ∀ j, j < m → Apx (g * c * (1 + mulErr u) * P * (c * P) * (1 + mulErr u)) (toC (M.getD j Cx.zero))
      ((starRingEnd ℂ) (dft m a j * dft m (bExact n) j)) (S * (2 * n - 1)) := by
    intro j hj
    rw [hMtab, tab_getD hj, rnd_conj h]
    exact ((eFA j hj).mul (eFB j hj) hμ (rnd_mul h _ _)).conj'
  set R := freshPow cfg M with hR
  have eR : ∀ j, j < m → Apx (g * c * (1 + mulErr u) * P * (c * P) * (1 + mulErr u) * P) (toC (R.getD j Cx.zero))
      (dft m (fun i => (starRingEnd ℂ) (dft m a i * dft m (bExact n) i)) j) (m * (S * (2 * n - 1))) := by
    intro j hj
    have := freshPow_rnd h cfg M (by rw [hMl]; exact hmp) _ (fun _ => S * (2 * n - 1)) _ (by rw [hMl]; exact eM) j (by omega)
    rw [hMl] at this
    simpa using this
  have hout : bluOut cfg x = bluPost n m R := rfl
  rw [hout, bluPost, tab_getD hk]
  simp only []
  have hscale : |F.div F.one (F.ofNat m) - 1 / (m : ℝ)| ≤ (1 + u - 1) * (1 / (m : ℝ)) := by
    obtain ⟨K, hK⟩ := isPow2_iff.mp hmp
    rw [hK, h.ofNat_pow, h.one, add_sub_cancel_left]
    have := h.div 1 (2 ^ K) (by positivity)
    push_cast
    rwa [abs_of_pos (show (0:ℝ) < 1 / 2 ^ K by positivity)] at this
  have eC := eR k (by omega)
  have e1 := eC.conj'
  rw [← rnd_conj h] at e1
  have e2 := rnd_scale h e1 (by positivity) (by linarith) hscale
  have e3 := e2.mul (chirpAt_rnd h hk) hμ (rnd_mul h _ _)
  have eg : g * bluGrowth cfg u v t n m =
      g * c * (1 + mulErr u) * P * (c * P) * (1 + mulErr u) * P * (1 + u) * (1 + u) * (1 + chirpErr u v t n) * (1 + mulErr u) := by
    unfold bluGrowth; rw [← hP, ← hc]; ring
  rw [eg]
  have ew : (m : ℝ) * (S * (2 * n - 1)) * (1 / m) * 1 = (2 * n - 1) * S := by
    field_simp
  rw [ew] at e3
  convert e3 using 1
  have hconv : (starRingEnd ℂ) (dft m (fun i => (starRingEnd ℂ) (dft m a i * dft m (bExact n) i)) k) *
      ((1 / (m : ℝ) : ℝ) : ℂ) = ∑ r ∈ range m, a r * bExact n ((k + (m - r)) % m) := by
    rw [← idft_mul a (bExact n) (show k < m by omega), idft_conj]
    push_cast; ring
  rw [hconv]
  have hsub : ∑ r ∈ range m, a r * bExact n ((k + (m - r)) % m) = ∑ r ∈ range n, a r * bExact n ((k + (m - r)) % m) := by
    symm
    apply sum_subset
    · intro r hr; rw [mem_range] at *; omega
    · intro r h1 h2
      rw [mem_range] at *
      have : a r = 0 := by simp only [a]; rw [if_neg h2]
      rw [this, zero_mul]
  rw [hsub, sum_mul]
  unfold dft
  apply sum_congr rfl
  intro r hr
  rw [mem_range] at hr
  have ea : a r = X r * exp (-(Real.pi * (r * r : ℕ) / n * I)) := by simp only [a]; rw [if_pos hr]
  have eb : bExact n ((k + (m - r)) % m) = exp (Real.pi * (((k : ℝ) - r) * (k - r) : ℝ) / n * I) := by
    by_cases htk : r ≤ k
    · have : (k + (m - r)) % m = k - r := by
        rw [Nat.mod_eq_sub_mod (by omega), Nat.mod_eq_of_lt (by omega)]; omega
      rw [this, bExact, if_pos (by omega)]
      push_cast [Nat.cast_sub htk]
      rfl
    · have : (k + (m - r)) % m = m - (r - k) := by
        rw [Nat.mod_eq_of_lt (by omega)]; omega
      rw [this, bExact, if_neg (by omega), if_pos (by rw [← hm]; omega), ← hm,
        show m - (m - (r - k)) = r - k by omega]
      push_cast [Nat.cast_sub (show k ≤ r by omega)]
      congr 1; ring
  rw [ea, eb, W, mul_assoc (X r), mul_assoc (X r), ← exp_add, ← exp_add]
  congr 2
  have : (n : ℂ) ≠ 0 := by exact_mod_cast (by omega : n ≠ 0)
  push_cast
  field_simp
  ring

end Kofft
