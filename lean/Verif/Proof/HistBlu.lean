import Verif.Proof.Exact
/-
The closed form of a non-power-of-two transform on a used transformer, bin 0, in terms of everything left over.
-/
namespace Kofft
open Spec Complex Finset

variable [F : Flt ℝ]

/-- Element `t` of a buffer as a complex number. -/
noncomputable def at' (z : List (Cx ℝ)) (t : ℕ) : ℂ := toC (z.getD t Cx.zero)

/-- Transforms of this length go through the split buffers. -/
def splitUsed (cfg : Cfg) (M : ℕ) : Prop := 16 < M ∧ (cfg.kind = .f32 ∨ cfg.kind = .f64)

instance (cfg : Cfg) (M : ℕ) : Decidable (splitUsed cfg M) := by unfold splitUsed; infer_instance

/-- Length at which a power-of-two transform of length `M` really runs. -/
def runLen (cfg : Cfg) (p : Planner ℝ) (M : ℕ) : ℕ := if splitUsed cfg M then max p.splitRe.length M else M

/-- What is in the split buffers at position `t`. -/
noncomputable def tailAt (p : Planner ℝ) (t : ℕ) : ℂ := at' (List.zipWith Cx.mk p.splitRe p.splitIm) t

omit F in
theorem runLen_ge (cfg : Cfg) (p : Planner ℝ) (M : ℕ) : M ≤ runLen cfg p M := by
  unfold runLen; split <;> omega

/-- A power-of-two transform on a used transformer is a longer DFT, cut. -/
theorem pow_used (h : Lawful F) (cfg : Cfg) (p : Planner ℝ) (a : List (Cx ℝ)) (M : ℕ) (hM : a.length = M)
    (hp : isPow2 M = true) (hs : splitUsed cfg M → SplitOk p) :
    ∃ Y : List (Cx ℝ), Y.length = runLen cfg p M ∧ isPow2 (runLen cfg p M) = true ∧
      (∀ j, j < runLen cfg p M →
        at' Y j = dft (runLen cfg p M) (fun t => if t < M then at' a t else tailAt p t) j) ∧
      powOut cfg p a = Y.take M ∧ (splitUsed cfg M → powNext cfg p a = (Y.map Cx.re, Y.map Cx.im)) := by
  by_cases hu : splitUsed cfg M
  · have hs := hs hu
    have hL : runLen cfg p M = max p.splitRe.length M := by rw [runLen, if_pos hu]
    rw [hL]
    have hu2 := hu.2
    have hu1 := hu.1
    set z := a ++ stale p M with hz
    have hzl : z.length = max p.splitRe.length M := by
      have := hs.1
      simp [hz, stale, ← this, hM]; omega
    have hzp : isPow2 (max p.splitRe.length M) = true := by
      rcases hs.2 with h' | h'
      · rw [h']; simpa using hp
      · exact max_pow2 h'.1 hp
    refine ⟨stkOut cfg Cx.mulPlain z, by rw [stkOut_length, hzl], hzp, ?_, ?_, ?_⟩
    · intro j hj
      have := stkOut_exact h cfg _ (toC_mulPlain h) z (by rw [hzl]; exact hzp) j (by omega)
      rw [at', this, hzl]
      refine dft_congr (fun t ht => ?_) j
      by_cases htM : t < M
      · rw [if_pos htM, at', hz, List.getD_append _ _ _ _ (by omega)]
      · rw [if_neg htM, tailAt, at', hz, List.getD_append_right _ _ _ _ (by omega), stale, ← List.drop_zipWith]
        simp only [List.getD_eq_getElem?_getD, List.getElem?_drop]
        rw [show M + (t - a.length) = t by omega]
    · rw [powOut, if_neg (by omega), if_neg (by omega), bigOut, if_pos hu2, hM]
    · intro _
      rw [powNext, if_pos (by omega), splitNext, if_pos hu2, hM]
  · have hL : runLen cfg p M = M := by rw [runLen, if_neg hu]
    rw [hL]
    refine ⟨freshPow cfg a, by rw [freshPow_length cfg a (by rw [hM]; exact hp), hM], hp, ?_, ?_, fun h => absurd h hu⟩
    · intro j hj
      rw [at', freshPow_exact h cfg a (by rw [hM]; exact hp) j (by omega), hM]
      refine dft_congr (fun t ht => ?_) j
      rw [if_pos ht, at']
    · rw [List.take_of_length_le (by rw [freshPow_length cfg a (by rw [hM]; exact hp), hM])]
      refine powOut_fresh cfg p a ?_
      unfold splitUsed at hu
      rw [hM]
      by_cases h16 : M ≤ 16
      · exact Or.inl h16
      · refine Or.inr (Or.inl ?_)
        cases hk : cfg.kind with
        | other => rfl
        | f32 => exact absurd ⟨by omega, Or.inl hk⟩ hu
        | f64 => exact absurd ⟨by omega, Or.inr hk⟩ hu

/-- `bluMid` pointwise. -/
theorem bluMid_at (h : Lawful F) (a fb : List (Cx ℝ)) (m : ℕ) (hfb : fb.length = m) (hm : m ≤ a.length) (j : ℕ)
    (hj : j < a.length) :
    at' (bluMid a fb) j = (starRingEnd ℂ) (if j < m then at' a j * at' fb j else at' a j) := by
  have t1 : a = tab a.length (fun i => a.getD i Cx.zero) := eq_tab_getD a Cx.zero
  unfold bluMid at'
  have hz : List.zipWith Cx.mul a fb = tab m (fun i => (a.getD i Cx.zero).mul (fb.getD i Cx.zero)) := by
    apply List.ext_getElem
    · simp [hfb]; omega
    · intro i h1 h2
      have hi : i < m := by simpa using h2
      simp [List.getD_eq_getElem?_getD, show i < a.length by omega, show i < fb.length by omega]
  have hc : copyPrefix (List.zipWith Cx.mul a fb) a =
      tab a.length (fun i => if i < m then (a.getD i Cx.zero).mul (fb.getD i Cx.zero) else a.getD i Cx.zero) := by
    rw [hz]
    conv_lhs => arg 2; rw [t1]
    exact (copyN_tab (m := m) le_rfl hm).1
  rw [hc, tab_map, tab_getD hj, toC_conj h]
  congr 1
  split
  · rw [toC_mul h]
  · rfl

/-- What the second inner transform sums into bin 0, as a function of the first transform's bins. -/
noncomputable def bluW (cfg : Cfg) (n m M : ℕ) (d : ℕ → ℂ) (j : ℕ) : ℂ :=
  if j < m then (starRingEnd ℂ) (d j * at' (bluPair (T := ℝ) cfg n).2 j)
  else if j < M then (starRingEnd ℂ) (d j) else d j

set_option maxHeartbeats 1000000 in
/-- Bin 0 of a Bluestein transform on a used transformer. -/
theorem bluRun_bin0 (h : Lawful F) (cfg : Cfg) (p : Planner ℝ) (hs : SplitOk p)
    (hb : p.bluScratch.length = 0 ∨ isPow2 p.bluScratch.length = true) (x : List (Cx ℝ)) (n m M L : ℕ) (hx : x.length = n)
    (hn : 0 < n) (hm : bluM n = m) (hM : max p.bluScratch.length m = M) (hL : runLen cfg p M = L) :
    at' (bluRun cfg p x).1 0 =
      (starRingEnd ℂ) (∑ j ∈ range L, bluW cfg n m M
        (dft L (fun t => if t < M then
          (if t < n then at' x t * toC (chirpAt n t) else if t < m then 0 else at' (grow p.bluScratch m Cx.zero) t)
          else tailAt p t)) j) / m := by
  subst hx
  have hmp : isPow2 m = true := by rw [← hm]; exact bluM_pow2 _
  have hMp : isPow2 M = true := by
    rw [← hM]
    rcases hb with hb | hb
    · rw [hb]; simpa using hmp
    · exact max_pow2 hb hmp
  have hmM : m ≤ M := by omega
  have hfb : (bluPair (T := ℝ) cfg x.length).2.length = m := by
    rw [bluPair, freshPow_length _ _ (by rw [tab_length]; exact bluM_pow2 _), tab_length, hm]
  set a0 := bluA x.length m M (fun i => x.getD i Cx.zero) (fun i => (grow p.bluScratch m Cx.zero).getD i Cx.zero) with ha0
  have ha0l : a0.length = M := by simp [ha0, bluA]
  have ha0t : ∀ t, t < M → at' a0 t = if t < x.length then at' x t * toC (chirpAt x.length t) else if t < m then 0
      else at' (grow p.bluScratch m Cx.zero) t := by
    intro t ht
    rw [at', ha0, bluA, tab_getD ht]
    split
    · rw [toC_mul h]; rfl
    split
    · exact toC_zero h
    · rfl
  obtain ⟨Y, hYl, hLp, hY, hYo, hYn⟩ := pow_used h cfg p a0 M ha0l hMp (fun _ => hs)
  set d : ℕ → ℂ := dft L (fun t => if t < M then
          (if t < x.length then at' x t * toC (chirpAt x.length t) else if t < m then 0 else at' (grow p.bluScratch m Cx.zero) t)
          else tailAt p t) with hd
  have hYd : ∀ j, j < L → at' Y j = d j := by
    intro j hj
    rw [hY j (by omega), hL, hd]
    refine dft_congr (fun t ht => ?_) j
    by_cases h1 : t < M
    · rw [if_pos h1, if_pos h1, ha0t t h1]
    · rw [if_neg h1, if_neg h1]
  have hML : M ≤ L := by rw [← hL]; exact runLen_ge _ _ _
  rw [hL] at hYl hLp
  set a2 := bluMid (powOut cfg p a0) (bluPair cfg x.length).2 with ha2
  have hpl : (powOut cfg p a0).length = M := by rw [hYo, List.length_take]; omega
  have ha2l : a2.length = M := by rw [ha2, bluMid_length, hpl]
  have ha2t : ∀ j, j < M → at' a2 j = bluW cfg x.length m M d j := by
    intro j hj
    have h1 : at' (powOut cfg p a0) j = d j := by
      rw [hYo, ← hYd j (by omega), at', at']
      simp only [List.getD_eq_getElem?_getD]
      rw [List.getElem?_take_of_lt hj]
    rw [ha2, bluMid_at h _ _ m hfb (by omega) j (by omega), h1, bluW]
    by_cases h2 : j < m
    · rw [if_pos h2, if_pos h2]
    · rw [if_neg h2, if_neg h2, if_pos hj]
  set p1 : Planner ℝ := { p with splitRe := (powNext cfg p a0).1, splitIm := (powNext cfg p a0).2 } with hp1
  have hs1 : splitUsed cfg M → SplitOk p1 := by
    intro hu
    have := hYn hu
    refine ⟨?_, Or.inr ⟨?_, ?_⟩⟩
    · rw [hp1, this]; simp
    · show isPow2 (powNext cfg p a0).1.length = true
      rw [this]; simp [hYl, hLp]
    · show 16 < (powNext cfg p a0).1.length
      rw [this]; have := hu.1; simp [hYl]; omega
  have hL1 : runLen cfg p1 M = L := by
    rw [← hL]
    unfold runLen
    by_cases hu : splitUsed cfg M
    · rw [if_pos hu, if_pos hu]
      have hLe : max p.splitRe.length M = L := by rw [← hL, runLen, if_pos hu]
      have : p1.splitRe.length = L := by
        show (powNext cfg p a0).1.length = L
        rw [hYn hu]; simp [hYl]
      omega
    · rw [if_neg hu, if_neg hu]
  have htail : ∀ j, M ≤ j → j < L → tailAt p1 j = d j := by
    intro j h1 h2
    have hu : splitUsed cfg M := by
      by_contra hu
      rw [runLen, if_neg hu] at hL
      omega
    rw [← hYd j h2, tailAt, at', at']
    congr 1
    show (List.zipWith Cx.mk (powNext cfg p a0).1 (powNext cfg p a0).2).getD j Cx.zero = _
    rw [hYn hu]
    congr 1
    apply List.ext_getElem
    · simp
    · intro i h1 h2; simp
  obtain ⟨Z, hZl, -, hZ, hZo, -⟩ := pow_used h cfg p1 a2 M ha2l hMp hs1
  rw [hL1] at hZ hZl
  have hM0 : 0 < M := isPow2_pos hMp
  have hb0 : at' (powOut cfg p1 a2) 0 = ∑ j ∈ range L, bluW cfg x.length m M d j := by
    have h1 : at' (powOut cfg p1 a2) 0 = at' Z 0 := by
      rw [hZo, at', at']
      simp only [List.getD_eq_getElem?_getD]
      rw [List.getElem?_take_of_lt hM0]
    rw [h1, hZ 0 (by omega), dft]
    refine sum_congr rfl (fun j hj => ?_)
    rw [mem_range] at hj
    rw [Nat.zero_mul, W_zero, mul_one]
    by_cases h2 : j < M
    · rw [if_pos h2, ha2t j h2]
    · rw [if_neg h2, htail j (by omega) hj, bluW, if_neg (by omega), if_neg h2]
  have hrun : (bluRun cfg p x).1 = bluPost x.length m (powOut cfg p1 a2) := by
    subst hm hM
    rfl
  rw [hrun, at', bluPost, tab_getD hn, toC_mul h, toC_scale h, toC_conj h]
  have hb0' : toC ((powOut cfg p1 a2).getD 0 Cx.zero) = _ := hb0
  rw [hb0', chirpAt_exact h, h.div, h.one, h.ofNat]
  push_cast
  simp
  ring

/-- The response of bin 0 to a unit at index 0 is `L/m`, not 1. -/
theorem bluRun_response (h : Lawful F) (cfg : Cfg) (p : Planner ℝ) (hs : SplitOk p)
    (hb : p.bluScratch.length = 0 ∨ isPow2 p.bluScratch.length = true) (x y : List (Cx ℝ)) (n m M L : ℕ) (hx : x.length = n)
    (hy : y.length = n) (hn : 0 < n) (hm : bluM n = m) (hM : max p.bluScratch.length m = M) (hL : runLen cfg p M = L)
    (h0 : at' y 0 = at' x 0 + 1) (hr : ∀ t, t ≠ 0 → at' y t = at' x t) :
    at' (bluRun cfg p y).1 0 - at' (bluRun cfg p x).1 0 = L / m := by
  rw [bluRun_bin0 h cfg p hs hb x n m M L hx hn hm hM hL, bluRun_bin0 h cfg p hs hb y n m M L hy hn hm hM hL]
  have hmp : isPow2 m = true := by rw [← hm]; exact bluM_pow2 _
  have hm0 : 0 < m := isPow2_pos hmp
  have hML : M ≤ L := by rw [← hL]; exact runLen_ge _ _ _
  have hmM : m ≤ M := by omega
  set dx := dft L (fun t => if t < M then
          (if t < n then at' x t * toC (chirpAt n t) else if t < m then 0 else at' (grow p.bluScratch m Cx.zero) t)
          else tailAt p t) with hdx
  set dy := dft L (fun t => if t < M then
          (if t < n then at' y t * toC (chirpAt n t) else if t < m then 0 else at' (grow p.bluScratch m Cx.zero) t)
          else tailAt p t) with hdy
  have hd : ∀ j, dy j = dx j + 1 := by
    intro j
    rw [hdx, hdy]
    unfold dft
    have : (1 : ℂ) = ∑ t ∈ range L, (if t = 0 then 1 else 0) := by simp; omega
    rw [this, ← sum_add_distrib]
    refine sum_congr rfl (fun t ht => ?_)
    simp only []
    by_cases ht0 : t = 0
    · subst ht0
      rw [if_pos (by omega), if_pos hn, if_pos (by omega), if_pos hn, if_pos rfl, h0, Nat.mul_zero, W_zero, chirpAt_exact h]
      simp
    · rw [hr t ht0, if_neg ht0, add_zero]
  have hfbs : ∑ j ∈ range m, at' (bluPair (T := ℝ) cfg n).2 j = m := by
    have hfb : ∀ j, j < m → at' (bluPair (T := ℝ) cfg n).2 j = dft m (fun t => toC ((tab (bluM n) (bAt (T := ℝ) n)).getD t Cx.zero)) j := by
      intro j hj
      have := freshPow_exact h cfg (tab (bluM n) (bAt (T := ℝ) n)) (by rw [tab_length]; exact bluM_pow2 n) j (by rw [tab_length, hm]; exact hj)
      rw [tab_length, hm] at this
      rw [at', bluPair, hm]
      exact this
    have h2 := idft_dft (n := m) (fun t => toC ((tab (bluM n) (bAt (T := ℝ) n)).getD t Cx.zero)) hm0
    rw [tab_getD (by rw [hm]; exact hm0), bAt, if_pos hn, bAt_exact h] at h2
    unfold idft at h2
    have hmc : (m : ℂ) ≠ 0 := by exact_mod_cast hm0.ne'
    rw [div_eq_iff hmc] at h2
    rw [sum_congr rfl (fun j hj => hfb j (mem_range.mp hj))]
    simpa using h2
  have hsum : ∑ j ∈ range L, bluW cfg n m M dy j = ∑ j ∈ range L, bluW cfg n m M dx j + L := by
    have e : ∀ j, bluW cfg n m M dy j = bluW cfg n m M dx j + (if j < m then (starRingEnd ℂ) (at' (bluPair (T := ℝ) cfg n).2 j) else 1) := by
      intro j
      unfold bluW
      rw [hd j]
      split
      · rw [add_mul, one_mul, map_add]
      split
      · rw [map_add, map_one]
      · rfl
    rw [sum_congr rfl (fun j _ => e j), sum_add_distrib]
    congr 1
    have hsplit : ∑ j ∈ range L, (if j < m then (starRingEnd ℂ) (at' (bluPair (T := ℝ) cfg n).2 j) else (1 : ℂ)) =
        ∑ j ∈ range m, (starRingEnd ℂ) (at' (bluPair (T := ℝ) cfg n).2 j) + ∑ j ∈ Finset.Ico m L, (1 : ℂ) := by
      rw [← sum_range_add_sum_Ico _ (show m ≤ L by omega)]
      congr 1
      · exact sum_congr rfl (fun j hj => by rw [if_pos (mem_range.mp hj)])
      · exact sum_congr rfl (fun j hj => by rw [if_neg (by rw [Finset.mem_Ico] at hj; omega)])
    rw [hsplit, ← map_sum, hfbs, sum_const, Nat.card_Ico]
    simp [Nat.cast_sub (show m ≤ L by omega)]
  rw [hsum, map_add]
  simp
  ring

end Kofft
