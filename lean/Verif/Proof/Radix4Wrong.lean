import Verif.Proof.Strategy
import Verif.Proof.Dft
/-
What `fft_radix4` returns at bin 8 of a 16-point buffer: the value is used to refute C15 for `Radix4`.
-/
namespace Kofft

section
variable {T : Type} [Flt T]

/-- Component `r` of the 4-point butterfly. -/
def bf4 (a b c d : Cx T) (r : Nat) : Cx T :=
  if r = 0 then (butterfly4 a b c d).1 else if r = 1 then (butterfly4 a b c d).2.1
  else if r = 2 then (butterfly4 a b c d).2.2.1 else (butterfly4 a b c d).2.2.2

theorem r4First_tab {n i : Nat} (f : Nat → Cx T) (h : i + 3 < n) :
    r4First i (tab n f) = .ok (tab n (fun t => if i ≤ t ∧ t < i + 4 then
      bf4 (f i) (f (i + 1)) (f (i + 2)) (f (i + 3)) (t - i) else f t)) := by
  unfold r4First
  rw [rd_tab (by omega), Outcome.bind_ok, rd_tab (by omega), Outcome.bind_ok, rd_tab (by omega),
    Outcome.bind_ok, rd_tab (by omega), Outcome.bind_ok]
  simp only
  rw [wr_tab (by omega), Outcome.bind_ok, wr_tab (by omega), Outcome.bind_ok, wr_tab (by omega),
    Outcome.bind_ok, wr_tab (by omega)]
  congr 1
  apply tab_congr
  intro t ht
  by_cases h3 : t = i + 3
  · subst h3; simp [bf4]
  by_cases h2 : t = i + 2
  · subst h2; simp [bf4]
  by_cases h1 : t = i + 1
  · subst h1; simp [bf4]
  by_cases h0 : t = i
  · subst h0; simp [bf4]
  simp only [h0, h1, h2, h3, if_false]
  rw [if_neg (by omega)]

theorem r4First_loop (f : Nat → Cx T) {m : Nat} :
    stepLoop (4 * m) 4 (tab (4 * m) f) r4First = .ok (tab (4 * m) (fun t =>
      bf4 (f (4 * (t / 4))) (f (4 * (t / 4) + 1)) (f (4 * (t / 4) + 2)) (f (4 * (t / 4) + 3)) (t % 4))) := by
  obtain ⟨s, e, h⟩ := stepLoop_ok (n := 4 * m) (len := 4) (f := r4First) (s := tab (4 * m) f)
    (fun i z => z = tab (4 * m) (fun t => if t < i then
      bf4 (f (4 * (t / 4))) (f (4 * (t / 4) + 1)) (f (4 * (t / 4) + 2)) (f (4 * (t / 4) + 3)) (t % 4)
      else f t)) (by norm_num) ⟨m, rfl⟩ (tab_congr (by simp)) (by
      rintro k z hk rfl
      rw [r4First_tab _ (by omega)]
      refine ⟨_, rfl, ?_⟩
      apply tab_congr
      intro t ht
      rw [if_neg (show ¬ k * 4 < k * 4 by omega), if_neg (show ¬ k * 4 + 1 < k * 4 by omega),
        if_neg (show ¬ k * 4 + 2 < k * 4 by omega), if_neg (show ¬ k * 4 + 3 < k * 4 by omega)]
      by_cases h1 : k * 4 ≤ t ∧ t < k * 4 + 4
      · rw [if_pos h1, if_pos (show t < (k + 1) * 4 by omega), show 4 * (t / 4) = k * 4 by omega,
          show t % 4 = t - k * 4 by omega]
      · rw [if_neg h1]
        by_cases h2 : t < k * 4
        · rw [if_pos h2, if_pos (by omega)]
        · rw [if_neg h2, if_neg (by omega)])
  rw [e, h]
  congr 1
  apply tab_congr
  intro t ht
  rw [if_pos ht]

theorem r4At_full (x : List (Cx T)) {b q h : Nat} (w1 w2 w3 : Cx T) (h1 : b + 3 * q < x.length)
    (h2 : b + h < x.length) (hq : b + h ≠ b + 3 * q) : ∃ y, r4At x b q h w1 w2 w3 = .ok y ∧
      y.length = x.length ∧
      (∀ a0 b0 c0 d0, x[b]? = some a0 → x[b + q]? = some b0 → x[b + h]? = some c0 →
        x[b + 3 * q]? = some d0 →
        y[b + h]? = some (butterfly4 a0 (b0.mul w1) (c0.mul w2) (d0.mul w3)).2.2.1) ∧
      (∀ t, t ≠ b → t ≠ b + q → t ≠ b + h → t ≠ b + 3 * q → y[t]? = x[t]?) := by
  unfold r4At
  rw [rd_ok (show b < x.length by omega), Outcome.bind_ok, rd_ok (show b + q < x.length by omega),
    Outcome.bind_ok, rd_ok h2, Outcome.bind_ok, rd_ok h1, Outcome.bind_ok]
  simp only
  rw [wr_ok (show b < x.length by omega), Outcome.bind_ok, wr_ok (by simp; omega), Outcome.bind_ok,
    wr_ok (by simp; omega), Outcome.bind_ok, wr_ok (by simp; omega)]
  refine ⟨_, rfl, by simp, ?_, ?_⟩
  · intro a0 b0 c0 d0 ha hb hc hd
    rw [List.getElem?_eq_some_iff] at ha hb hc hd
    obtain ⟨_, rfl⟩ := ha
    obtain ⟨_, rfl⟩ := hb
    obtain ⟨_, rfl⟩ := hc
    obtain ⟨_, rfl⟩ := hd
    rw [List.getElem?_set_ne (fun e => hq e.symm), List.getElem?_set_self (by simpa using h2)]
  · intro t t0 t1 t2 t3
    rw [List.getElem?_set_ne (Ne.symm t3), List.getElem?_set_ne (Ne.symm t2),
      List.getElem?_set_ne (Ne.symm t1), List.getElem?_set_ne (Ne.symm t0)]

/-- Bin 8 after the last pass on 16 elements. -/
theorem r4Group16 (x : List (Cx T)) (s1 s2 s3 a b c d : Cx T) (hx : x.length = 16)
    (h0 : x[0]? = some a) (h4 : x[4]? = some b) (h8 : x[8]? = some c) (h12 : x[12]? = some d) :
    ∃ y, r4Group 16 0 s1 s2 s3 x = .ok y ∧ y.length = 16 ∧
      y[8]? = some (butterfly4 a (b.mul ⟨Flt.one, Flt.zero⟩) (c.mul ⟨Flt.one, Flt.zero⟩)
        (d.mul ⟨Flt.one, Flt.zero⟩)).2.2.1 := by
  set V := (butterfly4 a (b.mul ⟨Flt.one, Flt.zero⟩) (c.mul ⟨Flt.one, Flt.zero⟩)
        (d.mul ⟨Flt.one, Flt.zero⟩)).2.2.1 with hV
  set one : Cx T := ⟨Flt.one, Flt.zero⟩ with hone
  obtain ⟨s, e, ⟨hl, hj, hs⟩, hc⟩ := whileF_ok
    (cond := fun s : R4St T => decide (s.j + 1 < 4))
    (body := fun s => do
      let x ← r4At s.x (0 + s.j) 4 8 s.w1 s.w2 s.w3
      let w1 := s.w1.mul s1
      let w2 := s.w2.mul s2
      let w3 := s.w3.mul s3
      let x ← r4At x (0 + (s.j + 1)) 4 8 w1 w2 w3
      pure ({ j := s.j + 2, w1 := w1.mul s1, w2 := w2.mul s2, w3 := w3.mul s3, x := x } : R4St T))
    (fun s => s.x.length = 16 ∧ s.j % 2 = 0 ∧
      ((s.j = 0 ∧ s.x = x ∧ s.w1 = one ∧ s.w2 = one ∧ s.w3 = one) ∨ (2 ≤ s.j ∧ s.x[8]? = some V)))
    (fun s => 4 - s.j) (4 + 1)
    { j := 0, w1 := one, w2 := one, w3 := one, x := x }
    (by simp) ⟨hx, rfl, Or.inl ⟨rfl, rfl, rfl, rfl, rfl⟩⟩ (by
      rintro s ⟨hl, hj, hs⟩ hc
      simp only [decide_eq_true_eq] at hc
      obtain ⟨y1, e1, hy1, hv1, hf1⟩ := r4At_full s.x s.w1 s.w2 s.w3 (b := 0 + s.j) (q := 4) (h := 8)
        (by omega) (by omega) (by omega)
      obtain ⟨y2, e2, hy2, hv2, hf2⟩ := r4At_full y1 (s.w1.mul s1) (s.w2.mul s2) (s.w3.mul s3)
        (b := 0 + (s.j + 1)) (q := 4) (h := 8) (by omega) (by omega) (by omega)
      simp only [e1, Outcome.bind_ok, e2]
      refine ⟨_, rfl, ⟨by simp only; omega, by simp only; omega, Or.inr ⟨by simp only; omega, ?_⟩⟩,
        by simp only; omega⟩
      simp only
      rw [hf2 8 (by omega) (by omega) (by omega) (by omega)]
      rcases hs with ⟨hj0, hxx, w1, w2, w3⟩ | ⟨hj2, h8'⟩
      · rw [hj0, w1, w2, w3, hxx] at hv1
        exact hv1 a b c d h0 h4 h8 h12
      · rw [hf1 8 (by omega) (by omega) (by omega) (by omega)]
        exact h8')
  simp only [decide_eq_false_iff_not] at hc
  refine ⟨s.x, ?_, hl, ?_⟩
  · unfold r4Group
    rw [hone] at e
    simp only [show (16 : Nat) / 4 = 4 from rfl, show (16 : Nat) / 2 = 8 from rfl]
    rw [e]
    simp only [Outcome.bind_ok]
    rw [if_neg (by omega)]; rfl
  · rcases hs with ⟨h, -⟩ | ⟨-, h⟩
    · omega
    · exact h

theorem rs0 : revStep 2 16 0 = .ok 4 := by simp [revStep, whileF]
theorem rs4 : revStep 2 16 4 = .ok 1 := by simp [revStep, whileF]
theorem rs1 : revStep 2 16 1 = .ok 5 := by simp [revStep, whileF]
theorem rs5 : revStep 2 16 5 = .ok 0 := by simp [revStep, whileF]
/-- The index permutation applied by `fft_radix4` to 16 elements: only `1 ↔ 4` and `3 ↔ 5` are exchanged. -/
theorem revLoop16 : revLoop 2 (List.range 16) =
    .ok [0, 4, 2, 5, 1, 3, 6, 7, 8, 9, 10, 11, 12, 13, 14, 15] := by
  have hr : List.range 16 = [0, 1, 2, 3, 4, 5, 6, 7, 8, 9, 10, 11, 12, 13, 14, 15] := by decide
  rw [hr]
  have e1 : swapAt [0, 1, 2, 3, 4, 5, 6, 7, 8, 9, 10, 11, 12, 13, 14, 15] 1 4 =
    .ok [0, 4, 2, 3, 1, 5, 6, 7, 8, 9, 10, 11, 12, 13, 14, 15] := by decide
  have e2 : swapAt [0, 4, 2, 3, 1, 5, 6, 7, 8, 9, 10, 11, 12, 13, 14, 15] 3 5 =
    .ok [0, 4, 2, 5, 1, 3, 6, 7, 8, 9, 10, 11, 12, 13, 14, 15] := by decide
  have e := forRange_eq (f := fun i (s : Nat × List Nat) => do
      let j ← revStep 2 16 s.1
      if i < j then do
        let x ← swapAt s.2 i j
        pure (j, x)
      else pure (j, s.2))
    (fun i => (if i % 4 = 1 then 0 else if i % 4 = 2 then 4 else if i % 4 = 3 then 1 else 5,
      if i = 1 then [0, 1, 2, 3, 4, 5, 6, 7, 8, 9, 10, 11, 12, 13, 14, 15] else if i ≤ 3 then
        [0, 4, 2, 3, 1, 5, 6, 7, 8, 9, 10, 11, 12, 13, 14, 15] else
        [0, 4, 2, 5, 1, 3, 6, 7, 8, 9, 10, 11, 12, 13, 14, 15])) (lo := 1) (hi := 16)
    (s := (0, [0, 1, 2, 3, 4, 5, 6, 7, 8, 9, 10, 11, 12, 13, 14, 15])) (by norm_num) rfl
    (by
      intro i h1 h2
      by_cases i1 : i = 1
      · subst i1; simp [rs0, e1]
      by_cases i2 : i = 2
      · subst i2; simp [rs4]
      by_cases i3 : i = 3
      · subst i3; simp [rs1, e2]
      rw [if_neg i1, if_neg (show ¬ i ≤ 3 by omega), if_neg (show ¬ i + 1 = 1 by omega),
        if_neg (show ¬ i + 1 ≤ 3 by omega)]
      have : i % 4 = 0 ∨ i % 4 = 1 ∨ i % 4 = 2 ∨ i % 4 = 3 := by omega
      rcases this with h | h | h | h
      · have h' : (i + 1) % 4 = 1 := by omega
        simp [h, h', rs5]
      · have h' : (i + 1) % 4 = 2 := by omega
        simp [h, h', rs0]; omega
      · have h' : (i + 1) % 4 = 3 := by omega
        simp [h, h', rs4]; omega
      · have h' : (i + 1) % 4 = 0 := by omega
        simp [h, h', rs1]; omega)
  unfold revLoop
  simp only [List.length_cons, List.length_nil, Nat.reduceAdd]
  rw [e]
  rfl

theorem fftRadix4_bin8 (cfg : Cfg) (p : Planner T) (f : Nat → Cx T) (hI : Inv cfg p) :
    ∃ p' y, fftRadix4 cfg p (tab 16 f) = .ok (p', y, .ok ()) ∧ y.length = 16 ∧
      y[8]? = some (butterfly4 (bf4 (f 0) (f 4) (f 2) (f 5) 0)
        ((bf4 (f 1) (f 3) (f 6) (f 7) 0).mul ⟨Flt.one, Flt.zero⟩)
        ((bf4 (f 8) (f 9) (f 10) (f 11) 0).mul ⟨Flt.one, Flt.zero⟩)
        ((bf4 (f 12) (f 13) (f 14) (f 15) 0).mul ⟨Flt.one, Flt.zero⟩)).2.2.1 := by
  have hp16 : isPow2 16 = true := by decide
  have hl16 : Nat.log2 16 = 4 := by decide
  obtain ⟨P, hP⟩ : ∃ P : List Nat, P = [0, 4, 2, 5, 1, 3, 6, 7, 8, 9, 10, 11, 12, 13, 14, 15] := ⟨_, rfl⟩
  have hPl : P.length = 16 := by rw [hP]; rfl
  have hrev := revLoop16
  rw [← hP] at hrev
  have e1 : revLoop 2 (tab 16 f) = .ok (tab 16 (fun t => f (P.getD t 0))) := by
    have := revLoop_map f 2 hrev
    have h2 : P.map f = tab 16 (fun t => f (P.getD t 0)) := by
      conv_lhs => rw [eq_tab_getD P 0, hPl, tab_map]
    rw [h2] at this
    exact this
  obtain ⟨t1, t2, t3⟩ := getTwiddles_inv cfg p 16 hI
  have hl := twiddles_length (T := T) cfg 16
  set z := tab 16 (fun t =>
      bf4 (f (P.getD (4 * (t / 4)) 0)) (f (P.getD (4 * (t / 4) + 1) 0))
        (f (P.getD (4 * (t / 4) + 2) 0)) (f (P.getD (4 * (t / 4) + 3) 0)) (t % 4)) with hz
  obtain ⟨y, ey, hy, hv⟩ := r4Group16 z
    (twiddles cfg 16)[1] (twiddles cfg 16)[2] (twiddles cfg 16)[3]
    (bf4 (f 0) (f 4) (f 2) (f 5) 0) (bf4 (f 1) (f 3) (f 6) (f 7) 0) (bf4 (f 8) (f 9) (f 10) (f 11) 0)
    (bf4 (f 12) (f 13) (f 14) (f 15) 0) (tab_length _ _)
    (by rw [hz, tab_getElem?, if_pos (by norm_num), hP]; rfl)
    (by rw [hz, tab_getElem?, if_pos (by norm_num), hP]; rfl)
    (by rw [hz, tab_getElem?, if_pos (by norm_num), hP]; rfl)
    (by rw [hz, tab_getElem?, if_pos (by norm_num), hP]; rfl)
  refine ⟨(p.getTwiddles cfg 16).1, y, ?_, hy, hv⟩
  have r1 := r4First_loop (T := T) (fun t => f (P.getD t 0)) (m := 4)
  simp only [show 4 * 4 = 16 from rfl] at r1
  rw [← hz] at r1
  have e2 : stepLoop 16 16 z (fun i x => r4Group 16 i (twiddles (T := T) cfg 16)[1]
      (twiddles (T := T) cfg 16)[2] (twiddles (T := T) cfg 16)[3] x) = .ok y := by
    unfold stepLoop
    rw [whileF]
    simp only [show decide (0 < 16) = true from rfl, if_true, ey, Outcome.bind_ok, Outcome.pure_eq]
    rw [whileF]
    simp
  have ws : ∀ {σ : Type} (k : Nat) (c : σ → Bool) (b : σ → Outcome σ) (s s' : σ), c s = true →
      b s = .ok s' → whileF (k + 1) c b s = whileF k c b s' := by
    intro σ k c b s s' hc hb
    rw [whileF, if_pos hc, hb]; rfl
  have we : ∀ {σ : Type} (k : Nat) (c : σ → Bool) (b : σ → Outcome σ) (s : σ), c s = false →
      whileF (k + 1) c b s = .ok s := by
    intro σ k c b s hc
    rw [whileF, if_neg (by simp [hc])]
  obtain ⟨B, hB⟩ : ∃ B : Nat × Planner T × List (Cx T) → Outcome (Nat × Planner T × List (Cx T)),
      B = (fun s => do
        let (len, p, x) := s
        if len = 4 then do
          let x ← stepLoop 16 len x r4First
          pure (len * 4, p, x)
        else do
          let (p, tws) := p.getTwiddles cfg len
          let s1 ← rd tws 1
          let s2 ← rd tws 2
          let s3 ← rd tws 3
          let x ← stepLoop 16 len x fun i x => r4Group len i s1 s2 s3 x
          pure (len * 4, p, x)) := ⟨_, rfl⟩
  have b1 : B (4, p, tab 16 (fun t => f (P.getD t 0))) = .ok (16, p, z) := by
    rw [hB]
    simp only [if_true, r1, Outcome.bind_ok, Outcome.pure_eq, Nat.reduceMul]
  have b2 : B (16, p, z) = .ok (64, (p.getTwiddles cfg 16).1, y) := by
    rw [hB]
    simp only [show ¬ (16 = 4) by norm_num, if_false]
    rw [t1, rd_ok (show 1 < (twiddles (T := T) cfg 16).length by omega), Outcome.bind_ok,
          rd_ok (show 2 < (twiddles (T := T) cfg 16).length by omega), Outcome.bind_ok,
          rd_ok (show 3 < (twiddles (T := T) cfg 16).length by omega), Outcome.bind_ok, e2]
    simp only [Outcome.bind_ok, Outcome.pure_eq, Nat.reduceMul]
  have ew : whileF (16 + 1) (fun s : Nat × Planner T × List (Cx T) => decide (s.1 ≤ 16)) B
      (4, p, tab 16 (fun t => f (P.getD t 0))) = .ok (64, (p.getTwiddles cfg 16).1, y) := by
    rw [ws 16 _ _ _ _ (by simp) b1, ws 15 _ _ _ _ (by simp) b2, we 14 _ _ _ (by simp)]
  rw [hB] at ew
  unfold fftRadix4
  have hc : (!isPow2 16 || decide (Nat.log2 16 % 2 ≠ 0)) = false := by rw [hp16, hl16]; decide
  simp only [tab_length]
  rw [if_neg (by rw [hc]; simp), e1, Outcome.bind_ok, ew]
  rfl

end

end Kofft
