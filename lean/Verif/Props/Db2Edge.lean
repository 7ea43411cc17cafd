import Verif.Props.Wavelet
/-
Property C51, continued: what `db2` does at the ends of a signal of even length. The last sample is reconstructed like
the interior ones; positions 0, 1, n-3 and n-2 are not.
-/
namespace Kofft.Props
open Spec Finset

variable [F : Flt ℝ]

omit F in
private theorem mirIdx_eval {len m : ℕ} (h : 2 ≤ len) (hm : m < 2 * (len - 1)) :
    mirIdx len (m : Int) = if m < len then m else 2 * (len - 1) - m := by
  unfold mirIdx
  rw [Int.emod_eq_of_lt (by omega) (by omega)]
  simp

/-- The first filter of `db2`, read off the sum. -/
private noncomputable def lo (X : ℕ → ℝ) (M : ℕ → ℕ) : ℝ :=
  4829629131445341 / 10 ^ 16 * X (M 0) + 8365163037378079 / 10 ^ 16 * X (M 1) + 2241438680420134 / 10 ^ 16 * X (M 2) -
    1294095225512604 / 10 ^ 16 * X (M 3)
private noncomputable def hi (X : ℕ → ℝ) (M : ℕ → ℕ) : ℝ :=
  -(1294095225512604 / 10 ^ 16) * X (M 0) - 2241438680420134 / 10 ^ 16 * X (M 1) + 8365163037378079 / 10 ^ 16 * X (M 2) -
    4829629131445341 / 10 ^ 16 * X (M 3)

private theorem db2_values (hF : Lawful F) (x : List ℝ) :
    ∃ a d y, db2Forward x = .ok (a, d) ∧ db2Inverse a d = .ok y ∧ y.length = 2 * (x.length / 2) ∧
      a.length = x.length / 2 ∧
      (∀ i, i < x.length / 2 → a.getD i 0 = lo (fun j => x.getD j 0) fun j => mirIdx x.length ((2 * i + j : ℕ) : Int)) ∧
      (∀ i, i < x.length / 2 → d.getD i 0 = hi (fun j => x.getD j 0) fun j => mirIdx x.length ((2 * i + j : ℕ) : Int)) ∧
      ∀ t, t < 2 * (x.length / 2) → y.getD t 0 = ∑ i ∈ range (x.length / 2), ∑ k ∈ range 4,
        if mirIdx (2 * (x.length / 2)) ((2 * i + k : ℕ) : Int) = t then
          (db2H : List ℝ).getD k 0 * a.getD i 0 + (db2G : List ℝ).getD k 0 * d.getD i 0 else 0 := by
  refine ⟨_, _, _, db2Forward_ok x, bankInverse_ok db2H db2G _ _ (by simp [db2H, db2G]) (by simp), by simp; omega, by simp,
    ?_, ?_, ?_⟩
  · intro i hi
    rw [tab_getD hi]
    simp only [hF.add, hF.mul, hF.zero, lo]
    simp [db2H, hF.lit]
    ring
  · intro i hi'
    rw [tab_getD hi']
    simp only [hF.add, hF.mul, hF.zero, hi]
    simp [db2G, hF.lit]
    ring
  · intro t ht
    rw [tab_getD (by rw [tab_length]; omega), synV_real hF, tab_length, Nat.mul_comm (x.length / 2) 2]
    rfl

/-- The last three samples, in a signal of `2q+6` samples. -/
private theorem tail_sum (q t : ℕ) (ht : 2 * q + 3 ≤ t) (f : ℕ → ℕ → ℝ) :
    (∑ i ∈ range (q + 3), ∑ k ∈ range 4, if mirIdx (2 * (q + 3)) ((2 * i + k : ℕ) : Int) = t then f i k else 0) =
      (if t = 2 * q + 3 then f q 3 + f (q + 1) 1 + f (q + 2) 3 else 0) +
      (if t = 2 * q + 4 then f (q + 1) 2 + f (q + 2) 0 + f (q + 2) 2 else 0) +
      (if t = 2 * q + 5 then f (q + 1) 3 + f (q + 2) 1 else 0) := by
  have hz : (∑ i ∈ range q, ∑ k ∈ range 4, if mirIdx (2 * (q + 3)) ((2 * i + k : ℕ) : Int) = t then f i k else 0) = 0 := by
    refine sum_eq_zero fun i hi => sum_eq_zero fun k hk => ?_
    rw [mem_range] at hi hk
    rw [mirIdx_self (by omega) (by omega), if_neg (by omega)]
  rw [sum_range_succ, sum_range_succ, sum_range_succ, hz]
  have e : ∀ m, m < 2 * (2 * (q + 3) - 1) → mirIdx (2 * (q + 3)) ((m : ℕ) : Int) =
      if m < 2 * (q + 3) then m else 2 * (2 * (q + 3) - 1) - m := fun m hm => mirIdx_eval (by omega) hm
  simp only [sum_range_succ, sum_range_zero]
  have v0 : mirIdx (2 * (q + 3)) ((2 * q + 0 : ℕ) : Int) = 2 * q := by rw [e _ (by omega)]; split <;> omega
  have v1 : mirIdx (2 * (q + 3)) ((2 * q + 1 : ℕ) : Int) = 2 * q + 1 := by rw [e _ (by omega)]; split <;> omega
  have v2 : mirIdx (2 * (q + 3)) ((2 * q + 2 : ℕ) : Int) = 2 * q + 2 := by rw [e _ (by omega)]; split <;> omega
  have v3 : mirIdx (2 * (q + 3)) ((2 * q + 3 : ℕ) : Int) = 2 * q + 3 := by rw [e _ (by omega)]; split <;> omega
  have v4 : mirIdx (2 * (q + 3)) ((2 * (q + 1) + 0 : ℕ) : Int) = 2 * q + 2 := by rw [e _ (by omega)]; split <;> omega
  have v5 : mirIdx (2 * (q + 3)) ((2 * (q + 1) + 1 : ℕ) : Int) = 2 * q + 3 := by rw [e _ (by omega)]; split <;> omega
  have v6 : mirIdx (2 * (q + 3)) ((2 * (q + 1) + 2 : ℕ) : Int) = 2 * q + 4 := by rw [e _ (by omega)]; split <;> omega
  have v7 : mirIdx (2 * (q + 3)) ((2 * (q + 1) + 3 : ℕ) : Int) = 2 * q + 5 := by rw [e _ (by omega)]; split <;> omega
  have v8 : mirIdx (2 * (q + 3)) ((2 * (q + 2) + 0 : ℕ) : Int) = 2 * q + 4 := by rw [e _ (by omega)]; split <;> omega
  have v9 : mirIdx (2 * (q + 3)) ((2 * (q + 2) + 1 : ℕ) : Int) = 2 * q + 5 := by rw [e _ (by omega)]; split <;> omega
  have v10 : mirIdx (2 * (q + 3)) ((2 * (q + 2) + 2 : ℕ) : Int) = 2 * q + 4 := by rw [e _ (by omega)]; split <;> omega
  have v11 : mirIdx (2 * (q + 3)) ((2 * (q + 2) + 3 : ℕ) : Int) = 2 * q + 3 := by rw [e _ (by omega)]; split <;> omega
  rw [v0, v1, v2, v3, v4, v5, v6, v7, v8, v9, v10, v11]
  by_cases h3 : t = 2 * q + 3
  · subst h3
    simp
  · by_cases h4 : t = 2 * q + 4
    · subst h4
      simp
      try ring
    · by_cases h5 : t = 2 * q + 5
      · subst h5
        simp
      · have n0 : ¬ 2 * q = t := by omega
        have n1 : ¬ 2 * q + 1 = t := by omega
        have n2 : ¬ 2 * q + 2 = t := by omega
        have n3 : ¬ 2 * q + 3 = t := by omega
        have n4 : ¬ 2 * q + 4 = t := by omega
        have n5 : ¬ 2 * q + 5 = t := by omega
        simp only [h3, h4, h5, n0, n1, n2, n3, n4, n5, if_false, add_zero]

/-- The first two samples. -/
private theorem head_sum (q t : ℕ) (ht : t < 2) (f : ℕ → ℕ → ℝ) :
    (∑ i ∈ range (q + 3), ∑ k ∈ range 4, if mirIdx (2 * (q + 3)) ((2 * i + k : ℕ) : Int) = t then f i k else 0) = f 0 t := by
  have e : ∀ i k, i < q + 3 → k < 4 → (mirIdx (2 * (q + 3)) ((2 * i + k : ℕ) : Int) = t ↔ i = 0 ∧ k = t) := by
    intro i k hi hk
    rw [mirIdx_eval (by omega) (by omega)]
    split <;> omega
  rw [sum_eq_single_of_mem 0 (by simp), sum_eq_single_of_mem t (by simp; omega)]
  · rw [if_pos ((e 0 t (by omega) (by omega)).mpr ⟨rfl, rfl⟩)]
  · intro k hk hne
    rw [mem_range] at hk
    rw [if_neg (fun h => hne ((e 0 k (by omega) hk).mp h).2)]
  · intro i hi hne
    rw [mem_range] at hi
    refine sum_eq_zero fun k hk => ?_
    rw [mem_range] at hk
    rw [if_neg (fun h => hne ((e i k hi hk).mp h).1)]

/-- C51: in a signal of even length `≥ 6` the last sample is reconstructed too, up to `10⁻¹⁵` of the largest sample. -/
theorem db2_last_partial (hF : Lawful F) (x : List ℝ) (q : ℕ) (hx : x.length = 2 * q + 6) (B : ℝ) (hB : ∀ v ∈ x, |v| ≤ B) :
    ∃ a d y, db2Forward x = .ok (a, d) ∧ db2Inverse a d = .ok y ∧ y.length = 2 * q + 6 ∧
      |y.getD (2 * q + 5) 0 - x.getD (2 * q + 5) 0| ≤ B / 10 ^ 15 := by
  obtain ⟨a, d, y, e1, e2, e3, -, ha, hd, hy⟩ := db2_values hF x
  have hh : x.length / 2 = q + 3 := by omega
  rw [hh] at ha hd hy e3
  refine ⟨a, d, y, e1, e2, by omega, ?_⟩
  rw [hy (2 * q + 5) (by omega), tail_sum q (2 * q + 5) (by omega)
    (fun i k => (db2H : List ℝ).getD k 0 * a.getD i 0 + (db2G : List ℝ).getD k 0 * d.getD i 0), if_neg (by omega),
    if_neg (by omega), if_pos rfl, ha (q + 1) (by omega), ha (q + 2) (by omega), hd (q + 1) (by omega), hd (q + 2) (by omega)]
  have hBx : ∀ n, n < x.length → |x.getD n 0| ≤ B := by
    intro n hn
    have := hB x[n] (List.getElem_mem hn)
    simpa [List.getD_eq_getElem?_getD, hn] using this
  have m : ∀ k, k < 2 * (x.length - 1) → mirIdx x.length ((k : ℕ) : Int) =
      if k < x.length then k else 2 * (x.length - 1) - k := fun k hk => mirIdx_eval (by omega) hk
  have m2 : mirIdx x.length ((2 * (q + 1) + 0 : ℕ) : Int) = 2 * q + 2 := by rw [m _ (by omega)]; split <;> omega
  have m3 : mirIdx x.length ((2 * (q + 1) + 1 : ℕ) : Int) = 2 * q + 3 := by rw [m _ (by omega)]; split <;> omega
  have m4 : mirIdx x.length ((2 * (q + 1) + 2 : ℕ) : Int) = 2 * q + 4 := by rw [m _ (by omega)]; split <;> omega
  have m5 : mirIdx x.length ((2 * (q + 1) + 3 : ℕ) : Int) = 2 * q + 5 := by rw [m _ (by omega)]; split <;> omega
  have n4 : mirIdx x.length ((2 * (q + 2) + 0 : ℕ) : Int) = 2 * q + 4 := by rw [m _ (by omega)]; split <;> omega
  have n5 : mirIdx x.length ((2 * (q + 2) + 1 : ℕ) : Int) = 2 * q + 5 := by rw [m _ (by omega)]; split <;> omega
  have n6 : mirIdx x.length ((2 * (q + 2) + 2 : ℕ) : Int) = 2 * q + 4 := by rw [m _ (by omega)]; split <;> omega
  have n7 : mirIdx x.length ((2 * (q + 2) + 3 : ℕ) : Int) = 2 * q + 3 := by rw [m _ (by omega)]; split <;> omega
  simp only [lo, hi, m2, m3, m4, m5, n4, n5, n6, n7]
  obtain ⟨X, hX⟩ : ∃ X : ℕ → ℝ, ∀ n, x.getD n 0 = X n := ⟨_, fun _ => rfl⟩
  simp only [hX] at hBx ⊢
  have b2 := abs_le.1 (hBx (2 * q + 2) (by omega))
  have b3 := abs_le.1 (hBx (2 * q + 3) (by omega))
  have b4 := abs_le.1 (hBx (2 * q + 4) (by omega))
  have b5 := abs_le.1 (hBx (2 * q + 5) (by omega))
  simp [db2H, db2G, hF.lit]
  rw [abs_le]
  constructor <;> linarith

/-- C51 is false for `db2` at the ends: in every even length `≥ 6`, at each of the positions `0`, `1`, `n-3` and `n-2`,
the impulse there comes back with an error of more than a fifth of its height. With `db2_interior_partial` and
`db2_last_partial`: the positions reconstructed for every signal are exactly those from `2` to `n-4` and `n-1`. -/
theorem db2_ends_false (hF : Lawful F) (q t : ℕ) (ht : t = 0 ∨ t = 1 ∨ t = 2 * q + 3 ∨ t = 2 * q + 4) :
    ∃ x : List ℝ, x.length = 2 * q + 6 ∧ (∀ v ∈ x, |v| ≤ 1) ∧ ∃ a d y, db2Forward x = .ok (a, d) ∧
      db2Inverse a d = .ok y ∧ y.length = 2 * q + 6 ∧ 1 / 5 < |y.getD t 0 - x.getD t 0| := by
  set x : List ℝ := (List.replicate (2 * q + 6) 0).set t 1 with hxd
  have hx : x.length = 2 * q + 6 := by simp [hxd]
  have hX : ∀ n, n < 2 * q + 6 → x.getD n 0 = if n = t then 1 else 0 := by
    intro n hn
    by_cases h : n = t
    · subst h; simp [hxd, List.getD_eq_getElem?_getD, hn]
    · rw [if_neg h]
      rw [hxd, List.getD_eq_getElem?_getD, List.getElem?_set_ne (Ne.symm h), List.getElem?_replicate, if_pos hn]
      rfl
  obtain ⟨a, d, y, e1, e2, e3, -, ha, hd, hy⟩ := db2_values hF x
  have hh : x.length / 2 = q + 3 := by omega
  rw [hh] at ha hd hy e3
  refine ⟨x, hx, ?_, a, d, y, e1, e2, by omega, ?_⟩
  · intro v hv
    obtain ⟨n, hn, rfl⟩ := List.getElem_of_mem hv
    have := hX n (by omega)
    rw [List.getD_eq_getElem?_getD, List.getElem?_eq_getElem hn, Option.getD_some] at this
    rw [this]
    split <;> norm_num
  rw [hx] at ha hd
  have m : ∀ k, k < 2 * (2 * q + 6 - 1) → mirIdx (2 * q + 6) ((k : ℕ) : Int) =
      if k < 2 * q + 6 then k else 2 * (2 * q + 6 - 1) - k := fun k hk => mirIdx_eval (by omega) hk
  rw [hX t (by omega), if_pos rfl]
  rcases ht with ht | ht | ht | ht
  · subst ht
    rw [hy 0 (by omega), head_sum q 0 (by omega)
      (fun i k => (db2H : List ℝ).getD k 0 * a.getD i 0 + (db2G : List ℝ).getD k 0 * d.getD i 0), ha 0 (by omega),
      hd 0 (by omega)]
    have r : ∀ j, j < 4 → mirIdx (2 * q + 6) ((2 * 0 + j : ℕ) : Int) = j := fun j hj => by
      rw [m _ (by omega), if_pos (by omega)]; omega
    simp only [lo, hi, r 0 (by omega), r 1 (by omega), r 2 (by omega), r 3 (by omega), hX 0 (by omega), hX 1 (by omega),
      hX 2 (by omega), hX 3 (by omega)]
    simp [db2H, db2G, hF.lit]
    norm_num [abs_of_neg]
  · subst ht
    rw [hy 1 (by omega), head_sum q 1 (by omega)
      (fun i k => (db2H : List ℝ).getD k 0 * a.getD i 0 + (db2G : List ℝ).getD k 0 * d.getD i 0), ha 0 (by omega),
      hd 0 (by omega)]
    have r : ∀ j, j < 4 → mirIdx (2 * q + 6) ((2 * 0 + j : ℕ) : Int) = j := fun j hj => by
      rw [m _ (by omega), if_pos (by omega)]; omega
    simp only [lo, hi, r 0 (by omega), r 1 (by omega), r 2 (by omega), r 3 (by omega), hX 0 (by omega), hX 1 (by omega),
      hX 2 (by omega), hX 3 (by omega)]
    simp [db2H, db2G, hF.lit]
    norm_num [abs_of_neg]
  all_goals
    have l0 : mirIdx (2 * q + 6) ((2 * q + 0 : ℕ) : Int) = 2 * q := by rw [m _ (by omega)]; split <;> omega
    have l1 : mirIdx (2 * q + 6) ((2 * q + 1 : ℕ) : Int) = 2 * q + 1 := by rw [m _ (by omega)]; split <;> omega
    have l2 : mirIdx (2 * q + 6) ((2 * q + 2 : ℕ) : Int) = 2 * q + 2 := by rw [m _ (by omega)]; split <;> omega
    have l3 : mirIdx (2 * q + 6) ((2 * q + 3 : ℕ) : Int) = 2 * q + 3 := by rw [m _ (by omega)]; split <;> omega
    have m2 : mirIdx (2 * q + 6) ((2 * (q + 1) + 0 : ℕ) : Int) = 2 * q + 2 := by rw [m _ (by omega)]; split <;> omega
    have m3 : mirIdx (2 * q + 6) ((2 * (q + 1) + 1 : ℕ) : Int) = 2 * q + 3 := by rw [m _ (by omega)]; split <;> omega
    have m4 : mirIdx (2 * q + 6) ((2 * (q + 1) + 2 : ℕ) : Int) = 2 * q + 4 := by rw [m _ (by omega)]; split <;> omega
    have m5 : mirIdx (2 * q + 6) ((2 * (q + 1) + 3 : ℕ) : Int) = 2 * q + 5 := by rw [m _ (by omega)]; split <;> omega
    have n4 : mirIdx (2 * q + 6) ((2 * (q + 2) + 0 : ℕ) : Int) = 2 * q + 4 := by rw [m _ (by omega)]; split <;> omega
    have n5 : mirIdx (2 * q + 6) ((2 * (q + 2) + 1 : ℕ) : Int) = 2 * q + 5 := by rw [m _ (by omega)]; split <;> omega
    have n6 : mirIdx (2 * q + 6) ((2 * (q + 2) + 2 : ℕ) : Int) = 2 * q + 4 := by rw [m _ (by omega)]; split <;> omega
    have n7 : mirIdx (2 * q + 6) ((2 * (q + 2) + 3 : ℕ) : Int) = 2 * q + 3 := by rw [m _ (by omega)]; split <;> omega
    have x0 := hX (2 * q) (by omega)
    have x1 := hX (2 * q + 1) (by omega)
    have x2 := hX (2 * q + 2) (by omega)
    have x3 := hX (2 * q + 3) (by omega)
    have x4 := hX (2 * q + 4) (by omega)
    have x5 := hX (2 * q + 5) (by omega)
    rw [ht] at x0 x1 x2 x3 x4 x5 ⊢
    rw [hy _ (by omega), tail_sum q _ (by omega)
      (fun i k => (db2H : List ℝ).getD k 0 * a.getD i 0 + (db2G : List ℝ).getD k 0 * d.getD i 0),
      ha q (by omega), hd q (by omega), ha (q + 1) (by omega), ha (q + 2) (by omega), hd (q + 1) (by omega), hd (q + 2) (by omega)]
    simp only [lo, hi, l0, l1, l2, l3, m2, m3, m4, m5, n4, n5, n6, n7, x0, x1, x2, x3, x4, x5]
    simp [db2H, db2G, hF.lit]
    norm_num [abs_of_pos]

/-- C51: in a signal of odd length `n ≥ 7` the inverse returns `n-1` samples, and the last of them is reconstructed too, up to `10⁻¹⁵` of the largest sample. -/
theorem db2_odd_last_partial (hF : Lawful F) (x : List ℝ) (q : ℕ) (hx : x.length = 2 * q + 7) (B : ℝ) (hB : ∀ v ∈ x, |v| ≤ B) :
    ∃ a d y, db2Forward x = .ok (a, d) ∧ db2Inverse a d = .ok y ∧ y.length = 2 * q + 6 ∧
      |y.getD (2 * q + 5) 0 - x.getD (2 * q + 5) 0| ≤ B / 10 ^ 15 := by
  obtain ⟨a, d, y, e1, e2, e3, -, ha, hd, hy⟩ := db2_values hF x
  have hh : x.length / 2 = q + 3 := by omega
  rw [hh] at ha hd hy e3
  refine ⟨a, d, y, e1, e2, by omega, ?_⟩
  rw [hy (2 * q + 5) (by omega), tail_sum q (2 * q + 5) (by omega)
    (fun i k => (db2H : List ℝ).getD k 0 * a.getD i 0 + (db2G : List ℝ).getD k 0 * d.getD i 0), if_neg (by omega),
    if_neg (by omega), if_pos rfl, ha (q + 1) (by omega), ha (q + 2) (by omega), hd (q + 1) (by omega), hd (q + 2) (by omega)]
  have hBx : ∀ n, n < x.length → |x.getD n 0| ≤ B := by
    intro n hn
    have := hB x[n] (List.getElem_mem hn)
    simpa [List.getD_eq_getElem?_getD, hn] using this
  have m : ∀ k, k < 2 * (x.length - 1) → mirIdx x.length ((k : ℕ) : Int) =
      if k < x.length then k else 2 * (x.length - 1) - k := fun k hk => mirIdx_eval (by omega) hk
  have m2 : mirIdx x.length ((2 * (q + 1) + 0 : ℕ) : Int) = 2 * q + 2 := by rw [m _ (by omega)]; split <;> omega
  have m3 : mirIdx x.length ((2 * (q + 1) + 1 : ℕ) : Int) = 2 * q + 3 := by rw [m _ (by omega)]; split <;> omega
  have m4 : mirIdx x.length ((2 * (q + 1) + 2 : ℕ) : Int) = 2 * q + 4 := by rw [m _ (by omega)]; split <;> omega
  have m5 : mirIdx x.length ((2 * (q + 1) + 3 : ℕ) : Int) = 2 * q + 5 := by rw [m _ (by omega)]; split <;> omega
  have n4 : mirIdx x.length ((2 * (q + 2) + 0 : ℕ) : Int) = 2 * q + 4 := by rw [m _ (by omega)]; split <;> omega
  have n5 : mirIdx x.length ((2 * (q + 2) + 1 : ℕ) : Int) = 2 * q + 5 := by rw [m _ (by omega)]; split <;> omega
  have n6 : mirIdx x.length ((2 * (q + 2) + 2 : ℕ) : Int) = 2 * q + 6 := by rw [m _ (by omega)]; split <;> omega
  have n7 : mirIdx x.length ((2 * (q + 2) + 3 : ℕ) : Int) = 2 * q + 5 := by rw [m _ (by omega)]; split <;> omega
  simp only [lo, hi, m2, m3, m4, m5, n4, n5, n6, n7]
  obtain ⟨X, hX⟩ : ∃ X : ℕ → ℝ, ∀ n, x.getD n 0 = X n := ⟨_, fun _ => rfl⟩
  simp only [hX] at hBx ⊢
  have b2 := abs_le.1 (hBx (2 * q + 2) (by omega))
  have b3 := abs_le.1 (hBx (2 * q + 3) (by omega))
  have b4 := abs_le.1 (hBx (2 * q + 4) (by omega))
  have b5 := abs_le.1 (hBx (2 * q + 5) (by omega))
  have b6 := abs_le.1 (hBx (2 * q + 6) (by omega))
  simp [db2H, db2G, hF.lit]
  rw [abs_le]
  constructor <;> linarith

/-- C51 is false for `db2` at the ends of odd lengths too: in every odd length `n ≥ 7` the inverse returns `n-1` samples, and at
each of the positions `0`, `1`, `n-4` and `n-3` some impulse comes back with an error of more than a fifth of its height. With
`db2_interior_partial` and `db2_odd_last_partial`: the positions reconstructed for every signal are exactly those from `2` to
`n-5` and `n-2`. -/
theorem db2_odd_ends_false (hF : Lawful F) (q t : ℕ) (ht : t = 0 ∨ t = 1 ∨ t = 2 * q + 3 ∨ t = 2 * q + 4) :
    ∃ x : List ℝ, x.length = 2 * q + 7 ∧ (∀ v ∈ x, |v| ≤ 1) ∧ ∃ a d y, db2Forward x = .ok (a, d) ∧
      db2Inverse a d = .ok y ∧ y.length = 2 * q + 6 ∧ 1 / 5 < |y.getD t 0 - x.getD t 0| := by
  set x : List ℝ := (List.replicate (2 * q + 7) 0).set (if t < 2 then t else 2 * q + 6) 1 with hxd
  have hx : x.length = 2 * q + 7 := by simp [hxd]
  obtain ⟨s, hs⟩ : ∃ s, s = if t < 2 then t else 2 * q + 6 := ⟨_, rfl⟩
  rw [← hs] at hxd
  have hX : ∀ n, n < 2 * q + 7 → x.getD n 0 = if n = s then 1 else 0 := by
    intro n hn
    by_cases h : n = s
    · subst h; simp [hxd, List.getD_eq_getElem?_getD, hn]
    · rw [if_neg h]
      rw [hxd, List.getD_eq_getElem?_getD, List.getElem?_set_ne (Ne.symm h), List.getElem?_replicate, if_pos hn]
      rfl
  obtain ⟨a, d, y, e1, e2, e3, -, ha, hd, hy⟩ := db2_values hF x
  have hh : x.length / 2 = q + 3 := by omega
  rw [hh] at ha hd hy e3
  refine ⟨x, hx, ?_, a, d, y, e1, e2, by omega, ?_⟩
  · intro v hv
    obtain ⟨n, hn, rfl⟩ := List.getElem_of_mem hv
    have := hX n (by omega)
    rw [List.getD_eq_getElem?_getD, List.getElem?_eq_getElem hn, Option.getD_some] at this
    rw [this]
    split <;> norm_num
  rw [hx] at ha hd
  have m : ∀ k, k < 2 * (2 * q + 7 - 1) → mirIdx (2 * q + 7) ((k : ℕ) : Int) =
      if k < 2 * q + 7 then k else 2 * (2 * q + 7 - 1) - k := fun k hk => mirIdx_eval (by omega) hk
  rw [hX t (by omega)]
  rcases ht with ht | ht | ht | ht
  · subst ht
    rw [if_pos (by omega)] at hs
    subst hs
    rw [hy 0 (by omega), head_sum q 0 (by omega)
      (fun i k => (db2H : List ℝ).getD k 0 * a.getD i 0 + (db2G : List ℝ).getD k 0 * d.getD i 0), ha 0 (by omega),
      hd 0 (by omega)]
    have r : ∀ j, j < 4 → mirIdx (2 * q + 7) ((2 * 0 + j : ℕ) : Int) = j := fun j hj => by
      rw [m _ (by omega), if_pos (by omega)]; omega
    simp only [lo, hi, r 0 (by omega), r 1 (by omega), r 2 (by omega), r 3 (by omega), hX 0 (by omega), hX 1 (by omega),
      hX 2 (by omega), hX 3 (by omega)]
    simp [db2H, db2G, hF.lit]
    norm_num [abs_of_neg]
  · subst ht
    rw [if_pos (by omega)] at hs
    subst hs
    rw [hy 1 (by omega), head_sum q 1 (by omega)
      (fun i k => (db2H : List ℝ).getD k 0 * a.getD i 0 + (db2G : List ℝ).getD k 0 * d.getD i 0), ha 0 (by omega),
      hd 0 (by omega)]
    have r : ∀ j, j < 4 → mirIdx (2 * q + 7) ((2 * 0 + j : ℕ) : Int) = j := fun j hj => by
      rw [m _ (by omega), if_pos (by omega)]; omega
    simp only [lo, hi, r 0 (by omega), r 1 (by omega), r 2 (by omega), r 3 (by omega), hX 0 (by omega), hX 1 (by omega),
      hX 2 (by omega), hX 3 (by omega)]
    simp [db2H, db2G, hF.lit]
    norm_num [abs_of_neg]
  all_goals
    rw [if_neg (by omega)] at hs
    have l0 : mirIdx (2 * q + 7) ((2 * q + 0 : ℕ) : Int) = 2 * q := by rw [m _ (by omega)]; split <;> omega
    have l1 : mirIdx (2 * q + 7) ((2 * q + 1 : ℕ) : Int) = 2 * q + 1 := by rw [m _ (by omega)]; split <;> omega
    have l2 : mirIdx (2 * q + 7) ((2 * q + 2 : ℕ) : Int) = 2 * q + 2 := by rw [m _ (by omega)]; split <;> omega
    have l3 : mirIdx (2 * q + 7) ((2 * q + 3 : ℕ) : Int) = 2 * q + 3 := by rw [m _ (by omega)]; split <;> omega
    have m2 : mirIdx (2 * q + 7) ((2 * (q + 1) + 0 : ℕ) : Int) = 2 * q + 2 := by rw [m _ (by omega)]; split <;> omega
    have m3 : mirIdx (2 * q + 7) ((2 * (q + 1) + 1 : ℕ) : Int) = 2 * q + 3 := by rw [m _ (by omega)]; split <;> omega
    have m4 : mirIdx (2 * q + 7) ((2 * (q + 1) + 2 : ℕ) : Int) = 2 * q + 4 := by rw [m _ (by omega)]; split <;> omega
    have m5 : mirIdx (2 * q + 7) ((2 * (q + 1) + 3 : ℕ) : Int) = 2 * q + 5 := by rw [m _ (by omega)]; split <;> omega
    have n4 : mirIdx (2 * q + 7) ((2 * (q + 2) + 0 : ℕ) : Int) = 2 * q + 4 := by rw [m _ (by omega)]; split <;> omega
    have n5 : mirIdx (2 * q + 7) ((2 * (q + 2) + 1 : ℕ) : Int) = 2 * q + 5 := by rw [m _ (by omega)]; split <;> omega
    have n6 : mirIdx (2 * q + 7) ((2 * (q + 2) + 2 : ℕ) : Int) = 2 * q + 6 := by rw [m _ (by omega)]; split <;> omega
    have n7 : mirIdx (2 * q + 7) ((2 * (q + 2) + 3 : ℕ) : Int) = 2 * q + 5 := by rw [m _ (by omega)]; split <;> omega
    have x0 := hX (2 * q) (by omega)
    have x1 := hX (2 * q + 1) (by omega)
    have x2 := hX (2 * q + 2) (by omega)
    have x3 := hX (2 * q + 3) (by omega)
    have x4 := hX (2 * q + 4) (by omega)
    have x5 := hX (2 * q + 5) (by omega)
    have x6 := hX (2 * q + 6) (by omega)
    subst hs
    rw [ht]
    rw [hy _ (by omega), tail_sum q _ (by omega)
      (fun i k => (db2H : List ℝ).getD k 0 * a.getD i 0 + (db2G : List ℝ).getD k 0 * d.getD i 0),
      ha q (by omega), hd q (by omega), ha (q + 1) (by omega), ha (q + 2) (by omega), hd (q + 1) (by omega), hd (q + 2) (by omega)]
    simp only [lo, hi, l0, l1, l2, l3, m2, m3, m4, m5, n4, n5, n6, n7, x0, x1, x2, x3, x4, x5, x6]
    simp [db2H, db2G, hF.lit]
    norm_num [abs_of_pos]

/-- C51: two samples are reconstructed, up to `10⁻¹⁵` of the largest. -/
theorem db2_two_partial (hF : Lawful F) (x : List ℝ) (hx : x.length = 2) (B : ℝ) (hB : ∀ v ∈ x, |v| ≤ B) :
    ∃ a d y, db2Forward x = .ok (a, d) ∧ db2Inverse a d = .ok y ∧ y.length = 2 ∧
      ∀ t, t < 2 → |y.getD t 0 - x.getD t 0| ≤ B / 10 ^ 15 := by
  obtain ⟨a, d, y, e1, e2, e3, -, ha, hd, hy⟩ := db2_values hF x
  rw [hx] at e3 ha hd hy
  refine ⟨a, d, y, e1, e2, e3, ?_⟩
  have hBx : ∀ n, n < x.length → |x.getD n 0| ≤ B := by
    intro n hn
    have := hB x[n] (List.getElem_mem hn)
    simpa [List.getD_eq_getElem?_getD, hn] using this
  have m0 : mirIdx 2 ((2 * 0 + 0 : ℕ) : Int) = 0 := by decide
  have m1 : mirIdx 2 ((2 * 0 + 1 : ℕ) : Int) = 1 := by decide
  have m2 : mirIdx 2 ((2 * 0 + 2 : ℕ) : Int) = 0 := by decide
  have m3 : mirIdx 2 ((2 * 0 + 3 : ℕ) : Int) = 1 := by decide
  have a0 := ha 0 (by decide)
  have d0 := hd 0 (by decide)
  simp only [lo, hi, m0, m1, m2, m3] at a0 d0
  obtain ⟨X, hX⟩ : ∃ X : ℕ → ℝ, ∀ n, x.getD n 0 = X n := ⟨_, fun _ => rfl⟩
  simp only [hX] at hBx a0 d0 ⊢
  have b0 := abs_le.1 (hBx 0 (by omega))
  have b1 := abs_le.1 (hBx 1 (by omega))
  intro t ht
  have h2 : 2 * (2 / 2) = 2 := rfl
  rw [hy t ht, h2, show 2 / 2 = 1 from rfl, sum_range_one, sum_range_succ, sum_range_succ, sum_range_succ, sum_range_one,
    m0, m1, m2, m3, a0, d0]
  rcases (by omega : t = 0 ∨ t = 1) with rfl | rfl
  · simp [db2H, db2G, hF.lit]
    rw [abs_le]
    constructor <;> linarith
  · simp [db2H, db2G, hF.lit]
    rw [abs_le]
    constructor <;> linarith

/-- C51: in four samples the last is reconstructed, up to `10⁻¹⁵` of the largest, and at each of the others some impulse comes
back with an error of more than a fifth of its height. -/
theorem db2_four_partial (hF : Lawful F) :
    (∀ (x : List ℝ) (B : ℝ), x.length = 4 → (∀ v ∈ x, |v| ≤ B) → ∃ a d y, db2Forward x = .ok (a, d) ∧ db2Inverse a d = .ok y ∧
      y.length = 4 ∧ |y.getD 3 0 - x.getD 3 0| ≤ B / 10 ^ 15) ∧
    ∀ t, t < 3 → ∃ x : List ℝ, x.length = 4 ∧ (∀ v ∈ x, |v| ≤ 1) ∧ ∃ a d y, db2Forward x = .ok (a, d) ∧ db2Inverse a d = .ok y ∧
      y.length = 4 ∧ 1 / 5 < |y.getD t 0 - x.getD t 0| := by
  have l0 : mirIdx 4 ((2 * 0 + 0 : ℕ) : Int) = 0 := by decide
  have l1 : mirIdx 4 ((2 * 0 + 1 : ℕ) : Int) = 1 := by decide
  have l2 : mirIdx 4 ((2 * 0 + 2 : ℕ) : Int) = 2 := by decide
  have l3 : mirIdx 4 ((2 * 0 + 3 : ℕ) : Int) = 3 := by decide
  have m0 : mirIdx 4 ((2 * 1 + 0 : ℕ) : Int) = 2 := by decide
  have m1 : mirIdx 4 ((2 * 1 + 1 : ℕ) : Int) = 3 := by decide
  have m2 : mirIdx 4 ((2 * 1 + 2 : ℕ) : Int) = 2 := by decide
  have m3 : mirIdx 4 ((2 * 1 + 3 : ℕ) : Int) = 1 := by decide
  have key : ∀ x : List ℝ, x.length = 4 → ∃ a d y, db2Forward x = .ok (a, d) ∧ db2Inverse a d = .ok y ∧ y.length = 4 ∧
      ∀ t, t < 4 → y.getD t 0 =
        (let X := fun n => x.getD n 0
         let a0 := lo X fun j => j
         let d0 := hi X fun j => j
         let a1 := lo X fun j => if j = 0 then 2 else if j = 1 then 3 else if j = 2 then 2 else 1
         let d1 := hi X fun j => if j = 0 then 2 else if j = 1 then 3 else if j = 2 then 2 else 1
         let f := fun k a d => (db2H : List ℝ).getD k 0 * a + (db2G : List ℝ).getD k 0 * d
         if t = 0 then f 0 a0 d0 else if t = 1 then f 1 a0 d0 + f 3 a1 d1 else
           if t = 2 then f 2 a0 d0 + f 0 a1 d1 + f 2 a1 d1 else f 3 a0 d0 + f 1 a1 d1) := by
    intro x hx
    obtain ⟨a, d, y, e1, e2, e3, -, ha, hd, hy⟩ := db2_values hF x
    rw [hx] at e3 ha hd hy
    refine ⟨a, d, y, e1, e2, e3, ?_⟩
    have a0 := ha 0 (by decide)
    have d0 := hd 0 (by decide)
    have a1 := ha 1 (by decide)
    have d1 := hd 1 (by decide)
    simp only [lo, hi, l0, l1, l2, l3, m0, m1, m2, m3] at a0 d0 a1 d1
    intro t ht
    have h2 : 2 * (4 / 2) = 4 := rfl
    rw [hy t ht, h2, show 4 / 2 = 2 from rfl, sum_range_succ, sum_range_one, sum_range_succ, sum_range_succ, sum_range_succ,
      sum_range_one, sum_range_succ, sum_range_succ, sum_range_succ, sum_range_one, l0, l1, l2, l3, m2, m3, a0, d0, a1, d1]
    rcases (by omega : t = 0 ∨ t = 1 ∨ t = 2 ∨ t = 3) with rfl | rfl | rfl | rfl <;> simp [lo, hi, add_assoc]
  constructor
  · intro x B hx hB
    obtain ⟨a, d, y, e1, e2, e3, h⟩ := key x hx
    refine ⟨a, d, y, e1, e2, e3, ?_⟩
    have hBx : ∀ n, n < x.length → |x.getD n 0| ≤ B := by
      intro n hn
      have := hB x[n] (List.getElem_mem hn)
      simpa [List.getD_eq_getElem?_getD, hn] using this
    rw [h 3 (by decide)]
    obtain ⟨X, hX⟩ : ∃ X : ℕ → ℝ, ∀ n, x.getD n 0 = X n := ⟨_, fun _ => rfl⟩
    simp only [hX] at hBx ⊢
    have b0 := abs_le.1 (hBx 0 (by omega))
    have b1 := abs_le.1 (hBx 1 (by omega))
    have b2 := abs_le.1 (hBx 2 (by omega))
    have b3 := abs_le.1 (hBx 3 (by omega))
    simp [db2H, db2G, hF.lit, lo, hi]
    rw [abs_le]
    constructor <;> linarith
  · intro t ht
    rcases (by omega : t = 0 ∨ t = 1 ∨ t = 2) with rfl | rfl | rfl
    · obtain ⟨a, d, y, e1, e2, e3, h⟩ := key [1, 0, 0, 0] rfl
      refine ⟨[1, 0, 0, 0], rfl, by simp, a, d, y, e1, e2, e3, ?_⟩
      rw [h 0 (by decide)]
      simp [db2H, db2G, hF.lit, lo, hi]
      norm_num [abs_of_neg]
    · obtain ⟨a, d, y, e1, e2, e3, h⟩ := key [1, 0, 0, 0] rfl
      refine ⟨[1, 0, 0, 0], rfl, by simp, a, d, y, e1, e2, e3, ?_⟩
      rw [h 1 (by decide)]
      simp [db2H, db2G, hF.lit, lo, hi]
      norm_num [abs_of_neg]
    · obtain ⟨a, d, y, e1, e2, e3, h⟩ := key [0, 0, 1, 0] rfl
      refine ⟨[0, 0, 1, 0], rfl, by simp, a, d, y, e1, e2, e3, ?_⟩
      rw [h 2 (by decide)]
      simp [db2H, db2G, hF.lit, lo, hi]
      norm_num [abs_of_pos]

end Kofft.Props
