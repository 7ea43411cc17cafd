import Verif.Proof.Trig
/-
Properties C38, C39, C41-C43: cosine, sine and Hartley transforms.
-/
namespace Kofft.Props
open Spec Finset

/-! ### What each function computes (exact arithmetic), for every input -/

section spec
variable [F : Flt ℝ] (hF : Lawful F) (x : List ℝ)
include hF

theorem dct1_spec (h : 2 ≤ x.length) : ∃ y, dct1 x = .ok y ∧ Computes dctI x y := by
  unfold dct1
  simp only [show ¬ x.length = 0 by omega, show ¬ x.length = 1 by omega, if_false]
  exact computes_of hF x _ _ (fun k _ => dct1At_real hF x h k) _ (by simp)

theorem dct2_spec : ∃ y, dct2 x = .ok y ∧ Computes dctII x y :=
  computes_of hF x _ _ (fun k _ => dct2At_real hF x k) _ (by simp)

theorem dct3_spec : ∃ y, dct3 x = .ok y ∧ Computes dctIII x y :=
  computes_of hF x _ _ (fun k hk => dct3At_real hF x (by omega) k) _ (by simp)

theorem dct4_spec : ∃ y, dct4 x = .ok y ∧ Computes dctIV x y :=
  computes_of hF x _ _ (fun k _ => dct4At_real hF x k) _ (by simp)

theorem dst1_spec : ∃ y, dst1 x = .ok y ∧ Computes dstI x y :=
  computes_of hF x _ _ (fun k _ => dst1At_real hF x k) _ (by simp)

theorem dst2_spec : ∃ y, dst2 x = .ok y ∧ Computes dstII x y :=
  computes_of hF x _ _ (fun k _ => dst2At_real hF x k) _ (by simp)

/-- C41: the `dst3` of the code is not the textbook DST-III (compare `Spec.dstIII`). -/
theorem dst3_spec : ∃ y, dst3 x = .ok y ∧ Computes (fun n x k =>
    x 0 / 2 + ∑ i ∈ Ico 1 n, x i * Real.sin (Real.pi * i * (k + 1 / 2) / n)) x y :=
  computes_of hF x _ _ (fun k hk => dst3At_real hF x (by omega) k) _ (by simp)

theorem dst4_spec : ∃ y, dst4 x = .ok y ∧ Computes dstIV x y :=
  computes_of hF x _ _ (fun k _ => dst4At_real hF x k) _ (by simp)

theorem dht_spec : ∃ y, dht x = .ok y ∧ Computes hartley x y :=
  computes_of hF x _ _ (fun k _ => dhtAt_real hF x k) _ (by simp)

end spec

/-! ### Round trips -/

/-- Two transforms computed one after the other, as lists. -/
theorem computes_comp {f g : ℕ → (ℕ → ℝ) → ℕ → ℝ} {c : ℝ} {x y z : List ℝ}
    (hfg : ∀ j, j < x.length → g x.length (f x.length (fun t => x.getD t 0)) j = c * x.getD j 0)
    (hg : ∀ n (x y : ℕ → ℝ), (∀ t, t < n → x t = y t) → ∀ k, k < n → g n x k = g n y k)
    (h1 : Computes f x y) (h2 : Computes g y z) : z = x.map (c * ·) := by
  apply List.ext_getElem (by rw [h2.1, h1.1, List.length_map])
  intro i hi hi'
  have hl : i < x.length := by simpa using hi'
  have e := h2.2 i (by rw [h1.1]; exact hl)
  rw [h1.1, hg x.length _ (f x.length (fun t => x.getD t 0)) (fun t ht => h1.2 t ht) i hl, hfg _ hl] at e
  rw [List.getElem_map]
  rw [List.getD_eq_getElem _ _ hi, List.getD_eq_getElem _ _ hl] at e
  exact e

section congr
variable (n : ℕ) (x y : ℕ → ℝ) (h : ∀ t, t < n → x t = y t) (k : ℕ) (hk : k < n)
include h hk

theorem dctI_congr : dctI n x k = dctI n y k := by
  unfold dctI
  rw [h 0 (by omega), h (n - 1) (by omega)]
  congr 2
  exact sum_congr rfl fun i hi => by rw [h i (by rw [mem_Ico] at hi; omega)]

theorem dctII_congr : dctII n x k = dctII n y k :=
  sum_congr rfl fun i hi => by rw [h i (mem_range.1 hi)]

theorem dctIII_congr : dctIII n x k = dctIII n y k := by
  unfold dctIII
  rw [h 0 (by omega)]
  congr 1
  exact sum_congr rfl fun i hi => by rw [h i (by rw [mem_Ico] at hi; omega)]

theorem dctIV_congr : dctIV n x k = dctIV n y k :=
  sum_congr rfl fun i hi => by rw [h i (mem_range.1 hi)]

theorem dstI_congr : dstI n x k = dstI n y k :=
  sum_congr rfl fun i hi => by rw [h i (mem_range.1 hi)]

theorem dstIV_congr : dstIV n x k = dstIV n y k :=
  sum_congr rfl fun i hi => by rw [h i (mem_range.1 hi)]

theorem hartley_congr : hartley n x k = hartley n y k :=
  sum_congr rfl fun i hi => by rw [h i (mem_range.1 hi)]

end congr

section trips
variable [F : Flt ℝ] (hF : Lawful F) (x : List ℝ)
include hF

/-- C38: `dct3` after `dct2` multiplies every sample by `n / 2`. -/
theorem dct3_dct2 : ∃ y, dct2 x = .ok y ∧ dct3 y = .ok (x.map ((x.length : ℝ) / 2 * ·)) := by
  obtain ⟨y, e1, h1⟩ := dct2_spec hF x
  obtain ⟨z, e2, h2⟩ := dct3_spec hF y
  rw [computes_comp (dctIII_dctII x.length _) dctIII_congr h1 h2] at e2
  exact ⟨y, e1, e2⟩

/-- C38: `dct2` after `dct3` multiplies every sample by `n / 2`. -/
theorem dct2_dct3 : ∃ y, dct3 x = .ok y ∧ dct2 y = .ok (x.map ((x.length : ℝ) / 2 * ·)) := by
  obtain ⟨y, e1, h1⟩ := dct3_spec hF x
  obtain ⟨z, e2, h2⟩ := dct2_spec hF y
  rw [computes_comp (dctII_dctIII x.length _) dctII_congr h1 h2] at e2
  exact ⟨y, e1, e2⟩

/-- C39: `dct1` twice multiplies every sample by `2 (n - 1)`, `n ≥ 2`. -/
theorem dct1_dct1 (h : 2 ≤ x.length) :
    ∃ y, dct1 x = .ok y ∧ dct1 y = .ok (x.map (2 * ((x.length : ℝ) - 1) * ·)) := by
  obtain ⟨y, e1, h1⟩ := dct1_spec hF x h
  obtain ⟨z, e2, h2⟩ := dct1_spec hF y (by rw [h1.1]; exact h)
  rw [computes_comp (dctI_dctI x.length h _) dctI_congr h1 h2] at e2
  exact ⟨y, e1, e2⟩

/-- C39: `dct1` on the lengths the formula does not cover. -/
theorem dct1_small (a : ℝ) : dct1 ([] : List ℝ) = .ok [] ∧ dct1 [a] = .ok [2 * a] := by
  constructor
  · rfl
  · simp [dct1, rd, hF.mul, two_real hF, mul_comm]

/-- C39: `dct4` twice multiplies every sample by `n / 2`. -/
theorem dct4_dct4 : ∃ y, dct4 x = .ok y ∧ dct4 y = .ok (x.map ((x.length : ℝ) / 2 * ·)) := by
  obtain ⟨y, e1, h1⟩ := dct4_spec hF x
  obtain ⟨z, e2, h2⟩ := dct4_spec hF y
  rw [computes_comp (dctIV_dctIV x.length _) dctIV_congr h1 h2] at e2
  exact ⟨y, e1, e2⟩

/-- C41: `dst1` twice multiplies every sample by `(n + 1) / 2`. -/
theorem dst1_dst1 : ∃ y, dst1 x = .ok y ∧ dst1 y = .ok (x.map (((x.length : ℝ) + 1) / 2 * ·)) := by
  obtain ⟨y, e1, h1⟩ := dst1_spec hF x
  obtain ⟨z, e2, h2⟩ := dst1_spec hF y
  rw [computes_comp (dstI_dstI x.length _) dstI_congr h1 h2] at e2
  exact ⟨y, e1, e2⟩

/-- C41: `dst4` twice multiplies every sample by `n / 2`. -/
theorem dst4_dst4 : ∃ y, dst4 x = .ok y ∧ dst4 y = .ok (x.map ((x.length : ℝ) / 2 * ·)) := by
  obtain ⟨y, e1, h1⟩ := dst4_spec hF x
  obtain ⟨z, e2, h2⟩ := dst4_spec hF y
  rw [computes_comp (dstIV_dstIV x.length _) dstIV_congr h1 h2] at e2
  exact ⟨y, e1, e2⟩

/-- C43: `dht` twice multiplies every sample by `n`. -/
theorem dht_dht : ∃ y, dht x = .ok y ∧ dht y = .ok (x.map ((x.length : ℝ) * ·)) := by
  obtain ⟨y, e1, h1⟩ := dht_spec hF x
  obtain ⟨z, e2, h2⟩ := dht_spec hF y
  rw [computes_comp (hartley_hartley x.length _) hartley_congr h1 h2] at e2
  exact ⟨y, e1, e2⟩

/-- C43: the DHT is the real part minus the imaginary part of the DFT. -/
theorem dht_dft : ∃ y, dht x = .ok y ∧ y.length = x.length ∧ ∀ k, k < x.length →
    y.getD k 0 = (dft x.length (rsig x) k).re - (dft x.length (rsig x) k).im := by
  obtain ⟨y, e1, h1⟩ := dht_spec hF x
  refine ⟨y, e1, h1.1, fun k hk => ?_⟩
  rw [h1.2 k hk, hartley_eq_dft]
  rfl

/-- C41, the part that holds of `dst3`: fed with the DST-II coefficients moved up by one position, it returns
`(n/2) x` up to the contribution of the last coefficient, which is lost. (Missing for the full claim: `dst3` of
the coefficients themselves, see `dst3_not_inverse`.) -/
theorem dst3_dst2_partial (h : 0 < x.length) :
    ∃ y z, dst2 x = .ok y ∧ dst3 (0 :: y.dropLast) = .ok z ∧ z.length = x.length ∧ ∀ j, j < x.length →
      z.getD j 0 + (-1) ^ j * y.getD (x.length - 1) 0 / 2 = (x.length : ℝ) / 2 * x.getD j 0 := by
  obtain ⟨y, e1, h1⟩ := dst2_spec hF x
  have hl : (0 :: y.dropLast : List ℝ).length = x.length := by simp [h1.1]; omega
  obtain ⟨z, e2, h2⟩ := dst3_spec hF (0 :: y.dropLast)
  refine ⟨y, z, e1, e2, by rw [h2.1, hl], fun j hj => ?_⟩
  have e := h2.2 j (by omega)
  rw [hl] at e
  rw [e, ← dstIII_dstII x.length (fun t => x.getD t 0) j hj]
  unfold dstIII
  rw [h1.2 _ (show x.length - 1 < x.length by omega)]
  simp only [List.getD_cons_zero, zero_div, zero_add]
  rw [add_comm]
  congr 1
  rw [sum_Ico_eq_sum_range]
  refine sum_congr rfl fun i hi => ?_
  rw [mem_range] at hi
  rw [show 1 + i = i + 1 by omega, List.getD_cons_succ, ← h1.2 i (by omega)]
  congr 1
  · rw [List.getD_eq_getElem _ _ (by simp [h1.1]; omega), List.getElem_dropLast,
      List.getD_eq_getElem]
  · push_cast; rfl

end trips

/-- C41, negation of the documented claim: for every length `n ≥ 2` there is a signal on which `dst3` after
`dst2` is not a multiple of the signal, whatever the constant. -/
theorem dst3_not_inverse [F : Flt ℝ] (hF : Lawful F) (n : ℕ) (hn : 2 ≤ n) :
    ∃ x y z : List ℝ, x.length = n ∧ dst2 x = .ok y ∧ dst3 y = .ok z ∧ ∀ c : ℝ, z ≠ x.map (c * ·) := by
  let x : List ℝ := tab n fun j => Real.sin (Real.pi * ((2 : ℤ) : ℝ) / n * (j + 1 / 2))
  have hx : x.length = n := by simp [x]
  have hxg : ∀ j, j < n → x.getD j 0 = Real.sin (Real.pi * ((2 : ℤ) : ℝ) / n * (j + 1 / 2)) :=
    fun j hj => tab_getD hj
  have hn0 : (0 : ℝ) < n := by exact_mod_cast (by omega : 0 < n)
  have hn' : (n : ℝ) ≠ 0 := hn0.ne'
  have hp1 : 0 < Real.sin (Real.pi / n) := Real.sin_pos_of_pos_of_lt_pi (by positivity) (by
    rw [div_lt_iff₀ hn0]
    have : (2 : ℝ) ≤ n := by exact_mod_cast hn
    nlinarith [Real.pi_pos])
  have hp2 : ∀ j, j < n → 0 < Real.sin (Real.pi * ((1 : ℕ) : ℝ) * (j + 1 / 2) / n) := by
    intro j hj
    apply Real.sin_pos_of_pos_of_lt_pi (by positivity)
    rw [div_lt_iff₀ hn0]
    have : (j : ℝ) + 1 ≤ n := by exact_mod_cast hj
    push_cast
    nlinarith [Real.pi_pos]
  obtain ⟨y, e1, h1⟩ := dst2_spec hF x
  obtain ⟨z, e2, h2⟩ := dst3_spec hF y
  have hyl : y.length = n := h1.1.trans hx
  have hker : ∀ k : ℕ, k < n → y.getD k 0 = ∑ i ∈ range n,
      Real.sin (Real.pi * ((2 : ℤ) : ℝ) / n * (i + 1 / 2)) *
      Real.sin (Real.pi * ((k + 1 : ℤ) : ℝ) / n * (i + 1 / 2)) := by
    intro k hk
    rw [h1.2 k (by omega), hx]
    unfold dstII
    refine sum_congr rfl fun i hi => ?_
    rw [mem_range] at hi
    show x.getD i 0 * _ = _
    rw [hxg i hi]
    congr 2
    push_cast; ring
  have hy0 : ∀ k, k < n → k ≠ 1 → y.getD k 0 = 0 := by
    intro k hk hk1
    rw [hker k hk, kerSs (by omega) _ _ (by rw [abs_lt]; omega) (by rw [abs_lt]; omega),
      if_neg (by omega), if_neg (by omega)]
    ring
  have hy1 : 0 < y.getD 1 0 := by
    rw [hker 1 (by omega)]
    have e : ∀ i ∈ range n, Real.sin (Real.pi * ((2 : ℤ) : ℝ) / n * (i + 1 / 2)) *
      Real.sin (Real.pi * ((((1 : ℕ) : ℤ) + 1 : ℤ) : ℝ) / n * (i + 1 / 2)) =
      Real.sin (Real.pi * ((2 : ℤ) : ℝ) / n * (i + 1 / 2)) ^ 2 := by
      intro i _
      rw [show ((((1 : ℕ) : ℤ) + 1 : ℤ) : ℝ) = ((2 : ℤ) : ℝ) by norm_num]; ring
    rw [sum_congr rfl e]
    apply sum_pos' (fun i _ => sq_nonneg _)
    refine ⟨0, mem_range.2 (by omega), ?_⟩
    rw [show Real.pi * ((2 : ℤ) : ℝ) / n * (((0 : ℕ) : ℝ) + 1 / 2) = Real.pi / n by push_cast; ring]
    positivity
  have hz : ∀ j, j < n → 0 < z.getD j 0 := by
    intro j hj
    rw [h2.2 j (by omega), hyl]
    show 0 < y.getD 0 0 / 2 + ∑ i ∈ Ico 1 n, y.getD i 0 * Real.sin (Real.pi * i * (j + 1 / 2) / n)
    rw [hy0 0 (by omega) (by omega), zero_div, zero_add]
    rw [sum_eq_single_of_mem 1 (mem_Ico.2 ⟨le_refl 1, by omega⟩)]
    · exact mul_pos hy1 (hp2 j hj)
    · intro b hb hb1
      rw [mem_Ico] at hb
      rw [hy0 b hb.2 hb1, zero_mul]
  refine ⟨x, y, z, hx, e1, e2, fun c hc => ?_⟩
  have g : ∀ j, j < n → z.getD j 0 = c * x.getD j 0 := by
    intro j hj
    rw [hc, List.getD_eq_getElem _ _ (by simp [hx, hj]), List.getElem_map,
      List.getD_eq_getElem _ _ (by omega)]
  have g0 := g 0 (by omega)
  have g1 := g (n - 1) (by omega)
  have p0 := hz 0 (by omega)
  have p1 := hz (n - 1) (by omega)
  rw [hxg 0 (by omega), show Real.pi * ((2 : ℤ) : ℝ) / n * (((0 : ℕ) : ℝ) + 1 / 2) = Real.pi / n by
    push_cast; ring] at g0
  rw [hxg (n - 1) (by omega), show Real.pi * ((2 : ℤ) : ℝ) / n * (((n - 1 : ℕ) : ℝ) + 1 / 2) =
    2 * Real.pi - Real.pi / n by
      rw [Nat.cast_sub (by omega)]; push_cast; field_simp; ring, Real.sin_two_pi_sub] at g1
  nlinarith

/-- Non-vacuity: the length used in the comment of `dst3`'s documentation test, 4. -/
example [F : Flt ℝ] (hF : Lawful F) :
    ∃ x y z : List ℝ, x.length = 4 ∧ dst2 x = .ok y ∧ dst3 y = .ok z ∧ ∀ c : ℝ, z ≠ x.map (c * ·) :=
  dst3_not_inverse hF 4 (by norm_num)

example [F : Flt ℝ] (hF : Lawful F) : ∃ y, dct2 ([1, 2, 3] : List ℝ) = .ok y ∧
    dct3 y = .ok [3 / 2, 3, 9 / 2] := by
  obtain ⟨y, e, h⟩ := dct3_dct2 hF ([1, 2, 3] : List ℝ)
  refine ⟨y, e, ?_⟩
  rw [h]; norm_num

end Kofft.Props
