import Verif.Props.Sticky
import Verif.Props.NdFft
import Verif.Props.Hilbert
import Verif.Props.Czt
/-
Property C86, continued: the multi-dimensional transforms, the analytic signal, the chirp Z-transform, Goertzel.
-/
namespace Kofft.Props
open Spec

variable {T : Type} [F : Flt T] {fin : T → Prop}

/-- A pass over disjoint lines: a finite number on a line afterwards, and the whole line was finite before. -/
theorem pass_sticky (hF : Sticky F fin) (cfg : Cfg) {N s n m Q : ℕ} {b : ℕ → ℕ}
    {step : ℕ → NdSt T → Outcome (NdSt T × Res)}
    (hstep : ∀ q, q < Q → LineStep (T := T) cfg N (b q) s n m (step q))
    (hdis : ∀ q q' i i', q < Q → q' < Q → i < n → i' < n → b q + i * s = b q' + i' * s → q = q')
    (hn : 0 < n) (hr : fftRes cfg n = .ok ()) :
    ∀ cnt j (t st' : NdSt T) r, j + cnt = Q → Inv cfg t.p → t.data.length = N → t.sc.length = m →
      loopRes cnt j t step = .ok (st', r) →
      r = .ok () ∧ Inv cfg st'.p ∧ st'.data.length = N ∧ st'.sc.length = m ∧
      (∀ k, (∀ q i, j ≤ q → q < Q → i < n → k ≠ b q + i * s) →
        st'.data.getD k Cx.zero = t.data.getD k Cx.zero) ∧
      (∀ q i i', j ≤ q → q < Q → i < n → i' < n → CFin fin (st'.data.getD (b q + i * s) Cx.zero) →
        CFin fin (t.data.getD (b q + i' * s) Cx.zero)) := by
  intro cnt
  induction cnt with
  | zero =>
    intro j t st' r hj h1 h2 h3 e
    obtain ⟨rfl, rfl⟩ := Prod.mk.inj (Outcome.ok.inj e)
    exact ⟨rfl, h1, h2, h3, fun _ _ => rfl, fun q i i' h h' => by omega⟩
  | succ cnt ih =>
    intro j t st' r hj h1 h2 h3 e
    obtain ⟨t1, e1, a1, a2, a3, -, -, a6⟩ := (hstep j (by omega)).run t h1 h2 h3
    obtain ⟨a6, a7⟩ := a6 hr
    unfold loopRes at e
    rw [e1, hr] at e
    obtain ⟨b0, b1, b2, b3, b5, b6⟩ := ih (j + 1) t1 st' r (by omega) a1 a2 a3 e
    refine ⟨b0, b1, b2, b3, ?_, ?_⟩
    · intro k hk
      rw [b5 k (fun q i hq hQ hi => hk q i (by omega) hQ hi), a7 k (fun i hi => hk j i le_rfl (by omega) hi)]
    · intro q i i' hq hQ hi hi' H
      by_cases hqj : q = j
      · subst hqj
        rw [b5 _ (fun q' i' hq' hQ' hi' he => by
          have := hdis q q' i i' hQ hQ' hi hi' he; omega), a6 i hi] at H
        have hl : (lineOf t.data (b q) s n).length = n := by simp [lineOf]
        obtain ⟨_, -, -, hlen, -⟩ := (fft_opOk cfg).run t.p (lineOf t.data (b q) s n) h1
        have hi2 : i < (fftBuf cfg t.p (lineOf t.data (b q) s n)).length := by omega
        rw [List.getD_eq_getElem?_getD, List.getElem?_eq_getElem hi2, Option.getD_some] at H
        have := st_fftBuf hF cfg t.p h1 (x := lineOf t.data (b q) s n) (by omega) (by rw [hl]; exact hr) _
          (List.getElem_mem hi2) H (t.data.getD (b q + i' * s) Cx.zero)
        exact this (by
          unfold lineOf tab
          exact List.mem_map.mpr ⟨i', by simpa using hi', rfl⟩)
      · have := b6 q i i' (by omega) hQ hi hi' H
        rwa [a7] at this
        intro i'' hi'' he
        exact hqj (hdis q j i' i'' hQ (by omega) hi' hi'' he)

omit F in
/-- From lists to indices. -/
theorem all_bad {x y : List (Cx T)} {N : ℕ} {z : Cx T} (hx : x.length = N) (hy : y.length = N)
    (h : ∀ k k', k < N → k' < N → CFin fin (y.getD k z) → CFin fin (x.getD k' z))
    (hbad : ∃ a ∈ x, ¬ CFin fin a) : ∀ c ∈ y, ¬ CFin fin c := by
  obtain ⟨a, ha, hna⟩ := hbad
  intro c hc H
  obtain ⟨k, hk, rfl⟩ := List.mem_iff_getElem.mp hc
  obtain ⟨k', hk', rfl⟩ := List.mem_iff_getElem.mp ha
  have := h k k' (by omega) (by omega) (by
    rw [List.getD_eq_getElem?_getD, List.getElem?_eq_getElem hk]; exact H)
  rw [List.getD_eq_getElem?_getD, List.getElem?_eq_getElem hk'] at this
  exact hna this

/-- C86g. If one element of a two-dimensional array is not finite, no element of its transform is. -/
theorem fft2d_not_finite (hF : Sticky F fin) (cfg : Cfg) (p : Planner T) (hp : Reach cfg p)
    (data : List (Cx T)) (rows cols : ℕ) (sc : List (Cx T)) {p' : Planner T} {y sc' : List (Cx T)}
    (e : fft2d cfg p data rows cols sc = .ok (p', y, sc', .ok ())) (hbad : ∃ a ∈ data, ¬ CFin fin a) :
    ∀ c ∈ y, ¬ CFin fin c := by
  have hpos : 0 < data.length := by
    obtain ⟨a, ha, -⟩ := hbad
    exact List.length_pos_of_mem ha
  have hl : data.length = rows * cols := by
    by_contra h
    unfold fft2d at e
    rw [if_pos (Ne.symm h)] at e
    simp at e
  have hr : 0 < rows := by rcases Nat.eq_zero_or_pos rows with h | h; · simp [h] at hl; simp [hl] at hpos
                           · exact h
  have hc : 0 < cols := by rcases Nat.eq_zero_or_pos cols with h | h; · simp [h] at hl; simp [hl] at hpos
                           · exact h
  have hs : sc.length = rows := by
    by_contra h
    unfold fft2d at e
    rw [if_neg (by omega), if_neg (by omega), if_pos h] at e
    simp at e
  rw [fft2d_unfold cfg p data hl hr hc hs] at e
  obtain ⟨s1, e1, a1, a2, a3, -⟩ := slice_pass cfg (Q := rows) (C := cols) le_rfl hr
    (⟨p, data, sc⟩ : NdSt T) (reach_inv hp) hl hs
  rw [e1] at e
  rcases fftRes_cases cfg cols with hrc | ⟨er, hrc⟩
  swap
  · rw [hrc] at e; simp [Outcome.bind_ok] at e
  obtain ⟨s2, e2, -⟩ := strided_pass cfg (R := rows) (C := cols) rfl hr hc s1 a1 a2 a3
  simp only [hrc, Outcome.bind_ok, e2] at e
  have hrr : fftRes cfg rows = .ok () := congrArg (fun v => v.2.2.2) (Outcome.ok.inj e)
  have hy : s2.data = y := congrArg (fun v => v.2.1) (Outcome.ok.inj e)
  subst hy
  obtain ⟨-, b1, b2, b3, -, b5⟩ := pass_sticky hF cfg (N := rows * cols) (s := 1) (n := cols) (m := rows) (Q := rows)
    (b := fun q => q * cols) (step := fun q s => sliceFft cfg (q * cols) cols s)
    (fun q hq => sliceFft_line cfg rows (by
      have : (q + 1) * cols ≤ rows * cols := Nat.mul_le_mul_right _ hq
      rw [Nat.add_mul, Nat.one_mul] at this; omega))
    (fun q q' i i' _ _ hi hi' he => (divmod_inj hi hi' (by simpa [Nat.add_comm] using he)).2)
    hc hrc rows 0 _ _ _ (by omega) (reach_inv hp) hl hs e1
  obtain ⟨-, c1, c2, c3, -, c5⟩ := pass_sticky hF cfg (N := rows * cols) (s := cols) (n := rows) (m := rows) (Q := cols)
    (b := fun q => q) (step := fun q s => stridedAt cfg q cols s)
    (fun q hq => stridedAt_line cfg hc hr (line_lt hq (by omega)))
    (fun q q' i i' h h' hi hi' he => (divmod_inj h h' he).1)
    hr hrr cols 0 _ _ _ (by omega) b1 b2 b3 e2
  refine all_bad (z := Cx.zero) hl c2 ?_ hbad
  intro k k' hk hk' H
  have hk1 : k / cols < rows := Nat.div_lt_of_lt_mul (by rwa [Nat.mul_comm])
  have hk2 : k' / cols < rows := Nat.div_lt_of_lt_mul (by rwa [Nat.mul_comm])
  have hm1 := Nat.mod_lt k hc
  have hm2 := Nat.mod_lt k' hc
  have d1 : k = k % cols + k / cols * cols := by rw [Nat.mul_comm]; exact (Nat.mod_add_div k cols).symm
  have d2 : k' = k' / cols * cols + k' % cols * 1 := by
    rw [Nat.mul_comm, Nat.mul_one]; exact (Nat.div_add_mod k' cols).symm
  rw [d1] at H
  have h1 := c5 (k % cols) (k / cols) (k' / cols) (Nat.zero_le _) hm1 hk1 hk2 H
  rw [show k % cols + k' / cols * cols = k' / cols * cols + k % cols * 1 by omega] at h1
  have h2 := b5 (k' / cols) (k % cols) (k' % cols) (Nat.zero_le _) hk2 hm1 hm2 h1
  rw [← d2] at h2
  exact h2

/-- C86h. The same for three dimensions. -/
theorem fft3d_not_finite (hF : Sticky F fin) (cfg : Cfg) (p : Planner T) (hp : Reach cfg p)
    (data : List (Cx T)) (D R C : ℕ) (tube row col : List (Cx T)) {p' : Planner T} {y t' r' c' : List (Cx T)}
    (e : fft3d cfg p data D R C tube row col = .ok (p', y, t', r', c', .ok ()))
    (hbad : ∃ a ∈ data, ¬ CFin fin a) :
    ∀ c ∈ y, ¬ CFin fin c := by
  have hpos : 0 < data.length := by
    obtain ⟨a, ha, -⟩ := hbad
    exact List.length_pos_of_mem ha
  have hl : data.length = D * R * C := by
    by_contra h
    unfold fft3d at e
    rw [if_pos (Ne.symm h)] at e
    simp at e
  have hne : D * R * C ≠ 0 := by omega
  have hD : 0 < D := by rcases Nat.eq_zero_or_pos D with h | h; · simp [h] at hne
                        · exact h
  have hR : 0 < R := by rcases Nat.eq_zero_or_pos R with h | h; · simp [h] at hne
                        · exact h
  have hC : 0 < C := by rcases Nat.eq_zero_or_pos C with h | h; · simp [h] at hne
                        · exact h
  have hs : tube.length = D ∧ row.length = R ∧ col.length = C := by
    by_contra h
    unfold fft3d at e
    rw [if_neg (by omega), if_neg (by omega), if_pos (by omega)] at e
    simp at e
  obtain ⟨ht, hr, hc⟩ := hs
  have hRC : 0 < R * C := Nat.mul_pos hR hC
  rw [fft3d_unfold cfg p data hl hD hR hC ht hr hc] at e
  obtain ⟨s1, e1, a1, a2, a3, -⟩ := strided_pass cfg (R := D) (C := R * C) (N := D * R * C)
    (Nat.mul_assoc _ _ _) hD hRC (⟨p, data, tube⟩ : NdSt T) (reach_inv hp) hl ht
  rw [e1] at e
  rcases fftRes_cases cfg D with h1 | ⟨er, h1⟩
  swap
  · rw [h1] at e; simp [Outcome.bind_ok] at e
  obtain ⟨s2, e2, b1, b2, b3, -⟩ := plane_pass cfg (D := D) (R := R) (C := C) rfl hD hR hC
      (⟨s1.p, s1.data, row⟩ : NdSt T) a1 a2 hr
  rcases fftRes_cases cfg R with h2 | ⟨er, h2⟩
  swap
  · simp [h1, h2, Outcome.bind_ok, e2] at e
  obtain ⟨s3, e3, -⟩ := slice_pass cfg (Q := D * R) (C := C) le_rfl (Nat.mul_pos hD hR) s2 b1 b2 b3
  simp only [h1, h2, Outcome.bind_ok, e2, e3] at e
  have h3 : fftRes cfg C = .ok () := congrArg (fun v => v.2.2.2.2.2) (Outcome.ok.inj e)
  have hy : s3.data = y := congrArg (fun v => v.2.1) (Outcome.ok.inj e)
  subst hy
  -- first pass
  obtain ⟨-, -, -, -, -, f1⟩ := pass_sticky hF cfg (N := D * R * C) (s := R * C) (n := D) (m := D) (Q := R * C)
    (b := fun q => q) (step := fun q s => stridedAt cfg q (R * C) s)
    (fun q hq => stridedAt_line cfg hRC hD (by rw [Nat.mul_assoc]; exact line_lt hq (by omega)))
    (fun q q' i i' h h' hi hi' he => (divmod_inj h h' he).1)
    hD h1 (R * C) 0 _ _ _ (by omega) (reach_inv hp) hl ht e1
  -- second pass
  have hq : ∀ d c, c < C → (d * C + c) / C = d ∧ (d * C + c) % C = c := by
    intro d c hc
    rw [Nat.add_comm, Nat.add_mul_div_right _ _ hC, Nat.div_eq_of_lt hc, Nat.add_mul_mod_self_right,
      Nat.mod_eq_of_lt hc]
    simp
  have hqd : ∀ q, q < D * C → q / C < D := fun q h => Nat.div_lt_of_lt_mul (by rwa [Nat.mul_comm])
  have hqc : ∀ q, q % C < C := fun q => Nat.mod_lt _ hC
  have e2' : loopRes (D * C) 0 (⟨s1.p, s1.data, row⟩ : NdSt T)
      (fun q s => stridedAt cfg (q / C * R * C + q % C) C s) = .ok (s2, fftRes cfg R) := by
    rw [← e2, ← loopRes_nested D C]
    apply loopRes_congr
    intro d s _ _
    apply loopRes_congr
    intro c s _ hc
    rw [(hq d c (by omega)).1, (hq d c (by omega)).2]
  obtain ⟨-, -, -, -, -, f2⟩ := pass_sticky hF cfg (N := D * R * C) (s := C) (n := R) (m := R) (Q := D * C)
    (b := fun q => q / C * R * C + q % C) (step := fun q s => stridedAt cfg (q / C * R * C + q % C) C s)
    (fun q hq => stridedAt_line cfg hC hR (plane_idx (hqd q hq) (hqc q) (by omega)))
    (fun q q' i i' h h' hi hi' he => by
      have e1 : ∀ q i, q / C * R * C + q % C + i * C = q % C + (i + q / C * R) * C := by intros; ring
      rw [e1, e1] at he
      obtain ⟨a1, a2⟩ := divmod_inj (hqc q) (hqc q') he
      obtain ⟨-, a4⟩ := divmod_inj hi hi' a2
      rw [← Nat.div_add_mod q C, ← Nat.div_add_mod q' C, a1, a4])
    hR h2 (D * C) 0 (⟨s1.p, s1.data, row⟩ : NdSt T) _ _ (by omega) a1 a2 hr e2'
  -- third pass
  obtain ⟨-, -, c2, -, -, f3⟩ := pass_sticky hF cfg (N := D * R * C) (s := 1) (n := C) (m := R) (Q := D * R)
    (b := fun q => q * C) (step := fun q s => sliceFft cfg (q * C) C s)
    (fun q hq => sliceFft_line cfg R (by
      have : (q + 1) * C ≤ D * R * C := Nat.mul_le_mul_right _ hq
      rw [Nat.add_mul, Nat.one_mul] at this; omega))
    (fun q q' i i' _ _ hi hi' he => (divmod_inj hi hi' (by simpa [Nat.add_comm] using he)).2)
    hC h3 (D * R) 0 _ _ _ (by omega) b1 b2 b3 e3
  refine all_bad (z := Cx.zero) hl c2 ?_ hbad
  -- coordinates
  have coord : ∀ k, k < D * R * C → ∃ d r c, d < D ∧ r < R ∧ c < C ∧ k = (d * R + r) * C + c := by
    intro k hk
    have hk1 : k / C < D * R := Nat.div_lt_of_lt_mul (by rwa [Nat.mul_comm])
    refine ⟨k / C / R, k / C % R, k % C, Nat.div_lt_of_lt_mul (by rwa [Nat.mul_comm]), Nat.mod_lt _ hR, Nat.mod_lt _ hC, ?_⟩
    rw [Nat.mul_comm (k / C / R) R, Nat.div_add_mod, Nat.mul_comm, Nat.div_add_mod]
  intro k k' hk hk' H
  obtain ⟨d, r, c, hd, hr, hc, rfl⟩ := coord k hk
  obtain ⟨d', r', c', hd', hr', hc', rfl⟩ := coord k' hk'
  have g3 := f3 (d * R + r) c c' (Nat.zero_le _) (by rw [Nat.add_comm]; exact line_lt hr hd) hc hc'
    (by rw [Nat.mul_one]; exact H)
  have g2 := f2 (d * C + c') r r' (Nat.zero_le _) (by rw [Nat.add_comm]; exact line_lt hc' hd) hr hr' (by
    simp only [(hq d c' hc').1, (hq d c' hc').2]
    rw [show d * R * C + c' + r * C = (d * R + r) * C + c' * 1 by ring]
    exact g3)
  simp only [(hq d c' hc').1, (hq d c' hc').2] at g2
  have g1 := f1 (c' + r' * C) d d' (Nat.zero_le _) (line_lt hc' hr') hd hd' (by
    rw [show c' + r' * C + d * (R * C) = d * R * C + c' + r' * C by ring]
    exact g2)
  rw [show c' + r' * C + d' * (R * C) = (d' * R + r') * C + c' by ring] at g1
  exact g1

/-- C86i. If one sample is not finite, no number of the analytic signal is. -/
theorem hilbert_not_finite (hF : Sticky F fin) (cfg : Cfg) (x : List T) {y : List (Cx T)}
    (e : hilbertAnalytic cfg x = .ok (.ok y)) (hbad : ∃ a ∈ x, ¬ fin a) : ∀ c ∈ y, ¬ CFin fin c := by
  have hx : 0 < x.length := by
    obtain ⟨a, ha, -⟩ := hbad
    exact List.length_pos_of_mem ha
  unfold hilbertAnalytic at e
  rw [if_neg (by omega)] at e
  by_cases hp : isPow2 x.length = true
  swap
  · simp [hp] at e
  rw [if_neg (by simp [hp])] at e
  obtain ⟨p1, y1, e1, -, hl1, -⟩ := fft_run cfg Planner.new (x.map fun x => (⟨x, Flt.zero⟩ : Cx T)) (inv_new _)
  rw [fftRes_pow2 _ (by simpa using hp)] at e1
  have hb1 := fft_not_finite hF cfg Planner.new .new _ e1 (by
    obtain ⟨a, ha, hna⟩ := hbad
    exact ⟨⟨a, Flt.zero⟩, List.mem_map.mpr ⟨a, ha, rfl⟩, fun h => hna h.1⟩)
  simp only [e1, Outcome.bind_ok] at e
  have hp1 : Reach cfg p1 := .fft .new trivial e1
  obtain ⟨p2, e2, -⟩ := (ifft_opOk cfg).run p1 (hilbertMask y1) (reach_inv hp1)
  rw [hilbertMask_length, hl1, List.length_map, fftRes_pow2 _ hp] at e2
  simp only [e2, Outcome.bind_ok] at e
  have hy : ifftBuf cfg p1 (hilbertMask y1) = y := by simpa using e
  subst hy
  refine ifft_not_finite hF cfg p1 hp1 _ e2 ?_
  have hl1' : 0 < y1.length := by rw [hl1]; simpa using hx
  refine ⟨y1[0], ?_, hb1 _ (List.getElem_mem hl1')⟩
  have h0 : 0 < (hilbertMask y1).length := by rw [hilbertMask_length]; exact hl1'
  have h1 : (hilbertMask y1)[0]? = y1[0]? := by
    unfold hilbertMask zeroRange doubleRange
    simp only []
    rw [List.getElem?_eq_getElem hl1']
    split
    · simp [List.getElem?_mapIdx, List.getElem?_eq_getElem hl1']
    · have : ¬ (y1.length + 1) / 2 = 0 := by omega
      simp [List.getElem?_mapIdx, List.getElem?_eq_getElem hl1', this]
  have : (hilbertMask y1)[0] = y1[0] := by
    rw [List.getElem?_eq_getElem h0, List.getElem?_eq_getElem hl1'] at h1
    exact Option.some.inj h1
  rw [← this]
  exact List.getElem_mem h0

/-- C86j. If one sample is not finite, neither part of any point of the chirp Z-transform is. -/
theorem czt_not_finite (hF : Sticky F fin) (x : List T) (m : ℕ) (w a : Cx T) (hbad : ∃ v ∈ x, ¬ fin v) :
    ∀ c ∈ czt x m w a, ¬ fin c.re ∧ ¬ fin c.im := by
  intro c hc
  obtain ⟨k, -, rfl⟩ := List.mem_map.mp hc
  have key : ∀ (x : List T) (s : CztSt T),
      (fin (x.foldl (cztStep (cztPow w k) (cztAinv a)) s).out.re → fin s.out.re ∧ ∀ v ∈ x, fin v) ∧
      (fin (x.foldl (cztStep (cztPow w k) (cztAinv a)) s).out.im → fin s.out.im ∧ ∀ v ∈ x, fin v) := by
    intro x
    induction x with
    | nil => intro s; simp
    | cons v x ih =>
      intro s
      rw [List.foldl_cons]
      obtain ⟨i1, i2⟩ := ih (cztStep (cztPow w k) (cztAinv a) s v)
      constructor
      · intro h
        obtain ⟨h1, h2⟩ := i1 h
        obtain ⟨h3, h4⟩ := hF.add _ _ h1
        refine ⟨h3, fun u hu => ?_⟩
        rcases List.mem_cons.mp hu with rfl | hu
        · exact (hF.mul _ _ h4).1
        · exact h2 u hu
      · intro h
        obtain ⟨h1, h2⟩ := i2 h
        obtain ⟨h3, h4⟩ := hF.add _ _ h1
        refine ⟨h3, fun u hu => ?_⟩
        rcases List.mem_cons.mp hu with rfl | hu
        · exact (hF.mul _ _ h4).1
        · exact h2 u hu
  obtain ⟨v, hv, hnv⟩ := hbad
  exact ⟨fun h => hnv (((key x _).1 h).2 v hv), fun h => hnv (((key x _).2 h).2 v hv)⟩

/-! ### Concrete cases -/

omit F in
/-- A lost number in a 2 by 3 array in binary32: the transform succeeds and every element of it is lost. -/
example (fused fma : Bool) :
    let _ := binFlt 24 24 (-149) (2 ^ 128 - 2 ^ 104) fused fma
    ∃ p y s, fft2d (T := Option ℝ) ⟨true, .f32, false, 4, false⟩ Planner.new
        (⟨none, some 0⟩ :: List.replicate 5 ⟨some 1, some 0⟩) 2 3 (List.replicate 2 ⟨some 0, some 0⟩) =
          .ok (p, y, s, .ok ()) ∧ y.length = 6 ∧ ∀ c ∈ y, ¬ CFin (fun a => a ≠ none) c := by
  let _ := binFlt 24 24 (-149) (2 ^ 128 - 2 ^ 104) fused fma
  have hF := binFlt_sticky 24 24 (-149) (2 ^ 128 - 2 ^ 104) fused fma
  have hbad : ∃ a ∈ (⟨none, some 0⟩ :: List.replicate 5 ⟨some 1, some 0⟩ : List (Cx (Option ℝ))),
      ¬ CFin (fun a => a ≠ none) a := ⟨⟨none, some 0⟩, by simp, fun h => h.1 rfl⟩
  obtain ⟨s1, s2, e, -, hl, -⟩ := fft2d_run (T := Option ℝ) ⟨true, .f32, false, 4, false⟩ Planner.new (inv_new _)
    (⟨none, some 0⟩ :: List.replicate 5 ⟨some 1, some 0⟩) 2 3 (List.replicate 2 ⟨some 0, some 0⟩)
    (by simp) (by norm_num) (by norm_num) (by simp)
  rw [fftRes_std (cfg := ⟨true, .f32, false, 4, false⟩) rfl (by norm_num : 0 < 2),
    fftRes_std (cfg := ⟨true, .f32, false, 4, false⟩) rfl (by norm_num : 0 < 3), if_pos rfl] at e
  exact ⟨_, _, _, e, by simpa using hl, fft2d_not_finite hF _ _ .new _ 2 3 _ e hbad⟩

omit F in
/-- A lost number in a 2 by 2 by 3 array. -/
example (fused fma : Bool) :
    let _ := binFlt 24 24 (-149) (2 ^ 128 - 2 ^ 104) fused fma
    ∃ p y t r c, fft3d (T := Option ℝ) ⟨true, .f32, false, 4, false⟩ Planner.new
        (⟨none, some 0⟩ :: List.replicate 11 ⟨some 1, some 0⟩) 2 2 3 (List.replicate 2 ⟨some 0, some 0⟩)
        (List.replicate 2 ⟨some 0, some 0⟩) (List.replicate 3 ⟨some 0, some 0⟩) = .ok (p, y, t, r, c, .ok ()) ∧
      y.length = 12 ∧ ∀ c ∈ y, ¬ CFin (fun a => a ≠ none) c := by
  let _ := binFlt 24 24 (-149) (2 ^ 128 - 2 ^ 104) fused fma
  have hF := binFlt_sticky 24 24 (-149) (2 ^ 128 - 2 ^ 104) fused fma
  have hbad : ∃ a ∈ (⟨none, some 0⟩ :: List.replicate 11 ⟨some 1, some 0⟩ : List (Cx (Option ℝ))),
      ¬ CFin (fun a => a ≠ none) a := ⟨⟨none, some 0⟩, by simp, fun h => h.1 rfl⟩
  obtain ⟨s1, s2, s3, t', r', e, -, hl, -⟩ := fft3d_run (T := Option ℝ) ⟨true, .f32, false, 4, false⟩ Planner.new
    (inv_new _) (⟨none, some 0⟩ :: List.replicate 11 ⟨some 1, some 0⟩) 2 2 3 (List.replicate 2 ⟨some 0, some 0⟩)
    (List.replicate 2 ⟨some 0, some 0⟩) (List.replicate 3 ⟨some 0, some 0⟩)
    (by simp) (by norm_num) (by norm_num) (by norm_num) (by simp) (by simp) (by simp)
  rw [fftRes_std (cfg := ⟨true, .f32, false, 4, false⟩) rfl (by norm_num : 0 < 2),
    fftRes_std (cfg := ⟨true, .f32, false, 4, false⟩) rfl (by norm_num : 0 < 3), fst3, if_pos rfl, if_pos rfl] at e
  exact ⟨_, _, _, _, _, e, by simpa using hl, fft3d_not_finite hF _ _ .new _ 2 2 3 _ _ _ e hbad⟩

omit F in
/-- A lost sample: the analytic signal is lost, and so is every point of the chirp Z-transform. -/
example (fused fma : Bool) (w a : Cx (Option ℝ)) :
    let _ := binFlt 24 24 (-149) (2 ^ 128 - 2 ^ 104) fused fma
    (∃ y, hilbertAnalytic (T := Option ℝ) ⟨true, .f32, false, 4, false⟩ [some 1, none, some 2, some 3] = .ok (.ok y) ∧
      ∀ c ∈ y, ¬ CFin (fun a => a ≠ none) c) ∧
    ∀ c ∈ czt (T := Option ℝ) [some 1, none, some 2] 5 w a, c.re = none ∧ c.im = none := by
  let _ := binFlt 24 24 (-149) (2 ^ 128 - 2 ^ 104) fused fma
  have hF := binFlt_sticky 24 24 (-149) (2 ^ 128 - 2 ^ 104) fused fma
  constructor
  · obtain ⟨y, e⟩ : ∃ y, hilbertAnalytic (T := Option ℝ) ⟨true, .f32, false, 4, false⟩
        [some 1, none, some 2, some 3] = .ok (.ok y) := by
      obtain ⟨y, e, -⟩ := (hilbert_errors (T := Option ℝ) ⟨true, .f32, false, 4, false⟩
        [some 1, none, some 2, some 3]).2.2 ⟨2, rfl⟩
      exact ⟨y, e⟩
    exact ⟨y, e, hilbert_not_finite hF _ _ e ⟨none, by simp, by simp⟩⟩
  · intro c hc
    have := czt_not_finite hF [some 1, none, some 2] 5 w a ⟨none, by simp, by simp⟩ c hc
    exact ⟨not_not.mp this.1, not_not.mp this.2⟩

end Kofft.Props
