import Verif.Props.HistoryBlu
/-
C79: `fft2d_inplace` on a new transformer, every shape.
-/
namespace Kofft.Props
open Spec

section
variable {T : Type} [Flt T]

/-- A transform of the same length keeps the leftovers compatible. -/
theorem compat_fft {cfg : Cfg} {p p' : Planner T} {x y : List (Cx T)} {r : Res} (hI : Inv cfg p) (hc : Compat cfg p x.length)
    (e : fft cfg p x = .ok (p', y, r)) : Compat cfg p' x.length := by
  obtain ⟨p1, y1, e1, -, -, h3, -, -, h6, h7⟩ := fft_run cfg p x hI
  rw [e] at e1
  simp only [Outcome.ok.injEq, Prod.mk.injEq] at e1
  obtain ⟨rfl, rfl, rfl⟩ := e1
  rcases fftRes_cases cfg x.length with hr | ⟨er, hr⟩
  · obtain ⟨c1, c2⟩ := hc
    by_cases hp : isPow2 x.length = true
    · refine ⟨?_, Or.inl hp⟩
      rcases c1 with c | c | c
      · exact Or.inl c
      · exact Or.inr (Or.inl c)
      · refine Or.inr (Or.inr ?_)
        have := h6 hr
        rw [fftOut, if_pos hp] at this
        have := congrArg (fun v => v.2.1.1.length) this
        simp only at this
        rw [this]
        rw [need, if_pos hp] at c ⊢
        exact powNext_length_short cfg p x c
    · rcases c2 with c2 | c2
      · exact absurd c2 hp
      have hs : p'.bluScratch.length ≤ need x.length := by
        have := h6 hr
        rw [fftOut, if_neg hp] at this
        have := congrArg (fun v => v.2.2.length) this
        simp only [bluRun_scr_length cfg p x hI] at this
        rw [this]
        rw [need, if_neg hp] at c2 ⊢
        omega
      refine ⟨?_, Or.inr hs⟩
      rcases c1 with c | c | c
      · exact Or.inl c
      · exact Or.inr (Or.inl c)
      · exact Or.inr (Or.inr (h7 _ le_rfl c c2).1)
  · rw [(h3 er hr).2]; exact hc

/-- A pass over disjoint lines on a transformer whose leftovers fit: every line is transformed as on a new one. -/
theorem pass_fresh (cfg : Cfg) {N s n m Q : Nat} {b : Nat → Nat}
    {step : Nat → NdSt T → Outcome (NdSt T × Res)}
    (hstep : ∀ q, q < Q → LineStep (T := T) cfg N (b q) s n m (step q))
    (hdis : ∀ q q' i i', q < Q → q' < Q → i < n → i' < n → b q + i * s = b q' + i' * s → q = q')
    (hr : fftRes cfg n = .ok ()) (st st' : NdSt T) (hI : Inv cfg st.p) (hl : st.data.length = N) (hm : st.sc.length = m)
    (hc : Compat cfg st.p n) (e : loopRes Q 0 st step = .ok (st', .ok ())) :
    ∀ q i, q < Q → i < n → st'.data.getD (b q + i * s) Cx.zero =
      (freshOut cfg (lineOf st.data (b q) s n)).getD i Cx.zero := by
  have key : ∀ cnt j (t : NdSt T), j + cnt = Q → Inv cfg t.p → t.data.length = N → t.sc.length = m → Compat cfg t.p n →
      loopRes cnt j t step = .ok (st', .ok ()) →
        (∀ k, (∀ q i, j ≤ q → q < Q → i < n → k ≠ b q + i * s) → st'.data.getD k Cx.zero = t.data.getD k Cx.zero) ∧
        (∀ q i, j ≤ q → q < Q → i < n → st'.data.getD (b q + i * s) Cx.zero =
            (freshOut cfg (lineOf t.data (b q) s n)).getD i Cx.zero) := by
    intro cnt
    induction cnt with
    | zero =>
      intro j t hj h1 h2 h3 h4 e
      simp only [loopRes, Outcome.ok.injEq, Prod.mk.injEq, and_true] at e
      subst e
      exact ⟨fun _ _ => rfl, fun q i h h' => by omega⟩
    | succ cnt ih =>
      intro j t hj h1 h2 h3 h4 e
      obtain ⟨t1, e1, a1, a2, a3, a4, -, a6⟩ := (hstep j (by omega)).run t h1 h2 h3
      obtain ⟨y, ef⟩ := (hstep j (by omega)).via t t1 _ h1 h2 h3 e1
      obtain ⟨a6, a7⟩ := a6 hr
      have hll : (lineOf t.data (b j) s n).length = n := by simp [lineOf]
      have hc1 : Compat cfg t1.p n := by
        have := compat_fft h1 (by rw [hll]; exact h4) ef
        rwa [hll] at this
      rw [loopRes, e1, hr] at e
      obtain ⟨b5, b6⟩ := ih (j + 1) t1 (by omega) a1 a2 a3 hc1 e
      refine ⟨?_, ?_⟩
      · intro k hk
        rw [b5 k (fun q i hq hQ hi => hk q i (by omega) hQ hi), a7 k (fun i hi => hk j i le_rfl (by omega) hi)]
      · intro q i hq hQ hi
        by_cases hqj : q = j
        · subst hqj
          rw [b5 _ (fun q' i' hq' hQ' hi' he => by
            have := hdis q q' i i' hQ hQ' hi hi' he; omega), a6 i hi,
            fftBuf_fresh cfg _ _ h1 (by simpa [lineOf] using hr) (by rw [hll]; exact h4)]
        · rw [b6 q i (by omega) hQ hi]
          congr 2
          unfold lineOf
          apply tab_congr
          intro i' hi'
          rw [a7]
          intro i'' hi'' he
          exact hqj (hdis q j i' i'' hQ (by omega) hi' hi'' he)
  intro q i hq hi
  exact (key Q 0 st (by omega) hI hl hm hc e).2 q i (Nat.zero_le _) hq hi

/-- A pass of transforms of length `n` is a history of transforms of length `n`. -/
theorem pass_performed (cfg : Cfg) {N s n m Q : Nat} {b : Nat → Nat} {step : Nat → NdSt T → Outcome (NdSt T × Res)}
    (hstep : ∀ q, q < Q → LineStep (T := T) cfg N (b q) s n m (step q)) (hr : fftRes cfg n = .ok ()) (ms : List ℕ)
    (st st' : NdSt T) (hP : Performed cfg ms st.p) (hl : st.data.length = N) (hm : st.sc.length = m)
    (e : loopRes Q 0 st step = .ok (st', .ok ())) : Performed cfg (List.replicate Q n ++ ms) st'.p := by
  have key : ∀ cnt j ms (t : NdSt T), j + cnt = Q → Performed cfg ms t.p → t.data.length = N → t.sc.length = m →
      loopRes cnt j t step = .ok (st', .ok ()) → Performed cfg (List.replicate cnt n ++ ms) st'.p := by
    intro cnt
    induction cnt with
    | zero =>
      intro j ms t hj h1 h2 h3 e
      simp only [loopRes, Outcome.ok.injEq, Prod.mk.injEq, and_true] at e
      subst e
      exact h1
    | succ cnt ih =>
      intro j ms t hj h1 h2 h3 e
      have hI := (performed_left h1).inv
      obtain ⟨t1, e1, a1, a2, a3, -⟩ := (hstep j (by omega)).run t hI h2 h3
      obtain ⟨y, ef⟩ := (hstep j (by omega)).via t t1 _ hI h2 h3 e1
      have hll : (lineOf t.data (b j) s n).length = n := by simp [lineOf]
      rw [hr] at ef e1
      have h4 := Performed.fft h1 ef
      rw [hll] at h4
      rw [loopRes, e1] at e
      have := ih (j + 1) (n :: ms) t1 (by omega) h4 a2 a3 e
      rwa [List.replicate_succ', List.append_assoc]
  exact key Q 0 ms st (by omega) hP hl hm e

theorem slice_lines (cfg : Cfg) {R C : ℕ} (m : ℕ) : ∀ q, q < R →
    LineStep (T := T) cfg (R * C) (q * C) 1 C m (sliceFft cfg (q * C) C) := fun q hq =>
  sliceFft_line cfg m (by
    have : (q + 1) * C ≤ R * C := Nat.mul_le_mul_right _ hq
    rw [Nat.add_mul, Nat.one_mul] at this; omega)

theorem strided_lines (cfg : Cfg) {R C : ℕ} (hR : 0 < R) (hC : 0 < C) : ∀ q, q < C →
    LineStep (T := T) cfg (R * C) q C R R (stridedAt cfg q C) := fun _ hq =>
  stridedAt_line cfg hC hR (line_lt hq (by omega))

/-- With leftovers that fit, what a Bluestein transform leaves depends on its input only. -/
theorem left_scr_short (cfg : Cfg) {p q p' q' : Planner T} {x y z : List (Cx T)} (hp : Inv cfg p) (hq : Inv cfg q)
    (hcp : Compat cfg p x.length) (hcq : Compat cfg q x.length) (hx : isPow2 x.length = false)
    (e1 : fft cfg p x = .ok (p', y, .ok ())) (e2 : fft cfg q x = .ok (q', z, .ok ())) : p'.bluScratch = q'.bluScratch := by
  obtain ⟨p1, y1, f1, -, -, -, -, -, h1, -⟩ := fft_run cfg p x hp
  obtain ⟨q1, z1, f2, -, -, -, -, -, h2, -⟩ := fft_run cfg q x hq
  rw [e1] at f1
  rw [e2] at f2
  simp only [Outcome.ok.injEq, Prod.mk.injEq] at f1 f2
  obtain ⟨g1, g2, g3⟩ := f1
  obtain ⟨k1, k2, k3⟩ := f2
  subst g1 g2 k1 k2
  have a := congrArg (fun v => v.2.2) (h1 g3.symm)
  have b := congrArg (fun v => v.2.2) (h2 g3.symm)
  simp only at a b
  have hnp : ¬ isPow2 x.length = true := by rw [hx]; simp
  rw [fftOut, if_neg hnp] at a b
  rw [a, b]
  have run : ∀ p : Planner T, Compat cfg p x.length → Inv cfg p → (bluRun cfg p x).2.2 =
      ((freshPow cfg (bluMid (freshPow cfg (bluA x.length (bluM x.length) (bluM x.length) (fun i => x.getD i Cx.zero)
        (fun _ => Cx.zero))) (bluPair cfg x.length).2)).map Cx.conj).map (fun c : Cx T =>
    Cx.mk (c.re *. (Flt.one /. Flt.ofNat (bluM x.length))) (c.im *. (Flt.one /. Flt.ofNat (bluM x.length)))) := by
    intro p hc hI
    obtain ⟨c1, c2⟩ := hc
    rw [need, if_neg hnp] at c1 c2
    have c2 : p.bluScratch.length ≤ bluM x.length := by
      rcases c2 with c | c
      · exact absurd c hnp
      · exact c
    unfold bluRun
    simp only
    rw [Nat.max_eq_right c2]
    have e3 : ∀ st st' : Nat → Cx T, bluA x.length (bluM x.length) (bluM x.length) (fun i => x.getD i Cx.zero) st =
        bluA x.length (bluM x.length) (bluM x.length) (fun i => x.getD i Cx.zero) st' := by
      intro st st'
      unfold bluA
      apply tab_congr
      intro i hi
      simp [hi]
    rw [e3 _ (fun _ => Cx.zero)]
    generalize ha : bluA x.length (bluM x.length) (bluM x.length) (fun i => x.getD i Cx.zero) (fun _ => Cx.zero) = a0
    have hl : a0.length = bluM x.length := by rw [← ha, bluA, tab_length]
    rw [powOut_fresh cfg p a0 (by rw [hl]; exact c1)]
    have hl1 : (freshPow cfg a0).length = bluM x.length := by
      rw [freshPow, powOut_length cfg _ _ (by rw [hl]; exact bluM_pow2 _), hl]
    have hl2 : (bluMid (freshPow cfg a0) (bluPair cfg x.length).2).length = bluM x.length := by
      rw [bluMid_length, hl1]
    rw [powOut_fresh cfg _ (bluMid (freshPow cfg a0) (bluPair cfg x.length).2) (by
      rw [hl2]
      rcases c1 with c | c | c
      · exact Or.inl c
      · exact Or.inr (Or.inl c)
      · refine Or.inr (Or.inr ?_)
        have := powNext_length_short cfg p a0 (by omega)
        simp only
        omega)]
  rw [run p hcp hp, run q hcq hq]

theorem split_nil {cfg : Cfg} {p : Planner T} (hI : Inv cfg p) (h : p.splitRe.length ≤ 16) : p.splitRe = [] ∧ p.splitIm = [] := by
  have h0 : p.splitRe.length = 0 := by
    rcases hI.split.2 with h' | h'
    · exact h'
    · omega
  have h1 := hI.split.1
  exact ⟨List.length_eq_zero_iff.mp h0, List.length_eq_zero_iff.mp (by omega)⟩

/-- The row pass of a 2D transform on a new transformer leaves what a transform of the last row alone would leave. -/
theorem row_pass_left (cfg : Cfg) {R C : ℕ} (hr : fftRes cfg C = .ok ()) (hR : 0 < R) (hC : 0 < C) (st s1 : NdSt T)
    (hn : st.p = Planner.new) (hl : st.data.length = R * C)
    (e : loopRes R 0 st (fun q s => sliceFft cfg (q * C) C s) = .ok (s1, .ok ())) (x : List (Cx T)) (hx : x.length = C)
    (hx2 : ∀ i, i < C → st.data.getD ((R - 1) * C + i) Cx.zero = x.getD i Cx.zero) (q : Planner T) (y : List (Cx T))
    (eq : fft cfg Planner.new x = .ok (q, y, .ok ())) :
    s1.p.bluScratch = q.bluScratch ∧ (cfg.kind = .f32 ∨ cfg.kind = .f64 → s1.p.splitRe = q.splitRe ∧ s1.p.splitIm = q.splitIm) := by
  have hI : Inv cfg st.p := by rw [hn]; exact inv_new cfg
  have hP : Performed cfg [] st.p := by rw [hn]; exact .new
  have hP1 := pass_performed cfg (slice_lines (T := T) cfg (R := R) (C := C) st.sc.length) hr [] st s1 hP hl rfl e
  have hPq := Performed.fft .new eq
  rw [hx] at hPq
  have L1 := performed_left hP1
  have Lq := performed_left hPq
  constructor
  · by_cases hp : isPow2 C = true
    · have z : ∀ {ms} {p : Planner T}, Left cfg ms p → (∀ m ∈ ms, m = C) → p.bluScratch = [] := by
        intro ms p L hms
        rcases L.scr' with h | ⟨m, hm, h, -⟩
        · exact List.length_eq_zero_iff.mp h
        · rw [hms m hm, hp] at h; cases h
      rw [z L1 (by simp), z Lq (by simp)]
    · have hpf : isPow2 C = false := by simpa using hp
      obtain ⟨R, rfl⟩ : ∃ R', R = R' + 1 := ⟨R - 1, by omega⟩
      rw [Nat.add_sub_cancel] at hx2
      have hRC : (R + 1) * C = R * C + C := by ring
      obtain ⟨t, f1, f2⟩ := slice_frame (T := T) cfg (N := (R + 1) * C) hr R 0 st hI hl (by rw [Nat.zero_add]; omega)
      have hPt := pass_performed cfg (Q := R) (fun q hq => slice_lines (T := T) cfg (R := R + 1) (C := C) st.sc.length q (by omega)) hr [] st t
        hP hl rfl f1
      have Lt := performed_left hPt
      have hct : Compat cfg t.p C := (performed_compat hPt C).mpr (fun m hm => by
        have : m = C := by simp at hm; exact hm.2
        rw [this]; exact Or.inl le_rfl)
      have h := loopRes_add (f := fun q s => sliceFft (T := T) cfg (q * C) C s) R 1 0 st
      rw [e, f1] at h
      simp only [Outcome.bind_ok, Nat.zero_add, loopRes_succ] at h
      have htl : t.data.length = (R + 1) * C ∧ t.sc.length = st.sc.length := by
        by_cases hR0 : R = 0
        · subst hR0
          simp only [loopRes, Outcome.ok.injEq, Prod.mk.injEq, and_true] at f1
          rw [← f1]; exact ⟨hl, rfl⟩
        · obtain ⟨t', g1, g2, g3, g4, -⟩ := slice_pass (T := T) cfg (Q := R) (C := C) (N := (R + 1) * C) (m := st.sc.length) (by omega)
            (by omega) st hI hl rfl
          rw [f1] at g1
          simp only [Outcome.ok.injEq, Prod.mk.injEq] at g1
          rw [g1.1]
          exact ⟨g3, g4⟩
      obtain ⟨t1, e1, -⟩ := (slice_lines (T := T) cfg (R := R + 1) (C := C) st.sc.length R (by omega)).run t Lt.inv htl.1 htl.2
      obtain ⟨w, ef⟩ := (slice_lines (T := T) cfg (R := R + 1) (C := C) st.sc.length R (by omega)).via t t1 _ Lt.inv htl.1 htl.2 e1
      rw [e1, hr] at h
      simp only [Outcome.bind_ok, loopRes, Outcome.ok.injEq, Prod.mk.injEq, and_true] at h
      rw [hr] at ef
      have hline : lineOf t.data (R * C) 1 C = x := by
        rw [eq_tab_getD x Cx.zero, hx]
        unfold lineOf
        apply tab_congr
        intro i hi
        rw [Nat.mul_one, f2 _ (by rw [Nat.zero_add]; omega), hx2 i hi]
      rw [hline] at ef
      rw [h]
      exact left_scr_short cfg Lt.inv (inv_new cfg) (by rw [hx]; exact hct) (compat_new cfg _) (by rw [hx]; exact hpf) ef eq
  · intro hk
    by_cases h16 : 16 < need C
    · exact slice_pass_left cfg hk hr hR h16 st s1 hI (by rw [hn]; exact ⟨Nat.zero_le _, Nat.zero_le _⟩) hl e x hx hx2 q y eq
    · rw [need_eq_workSize] at h16
      have a := split_nil L1.inv (L1.bound 16 (by intro m hm; have : m = C := by { simp at hm; exact hm.2 }; rw [this]; omega)).1
      have b := split_nil Lq.inv (Lq.bound 16 (by intro m hm; have : m = C := by { simpa using hm }; rw [this]; omega)).1
      rw [a.1, a.2, b.1, b.2]; exact ⟨rfl, rfl⟩

/-- Bluestein's result depends on the work buffer, and on the split buffers only for f32/f64. -/
theorem bluRun_tail_congr (cfg : Cfg) {p q : Planner T} (h1 : p.bluScratch = q.bluScratch)
    (h2 : cfg.kind = .f32 ∨ cfg.kind = .f64 → p.splitRe = q.splitRe ∧ p.splitIm = q.splitIm) (x : List (Cx T)) :
    (bluRun cfg p x).1 = (bluRun cfg q x).1 := by
  by_cases hk : cfg.kind = .other
  · have hp : ∀ (p q : Planner T) (a : List (Cx T)), powOut cfg p a = powOut cfg q a := by
      intro p q a
      unfold powOut bigOut
      rw [hk]
      simp
    unfold bluRun
    simp only [h1]
    rw [hp p q, hp _ { q with splitRe := _, splitIm := _ }]
  · obtain ⟨a, b⟩ := h2 (other_of_not hk)
    rw [bluRun_congr cfg ⟨a, b, h1⟩]

end

/-- C79h. `fft2d_inplace` on a new transformer, any element type, any accepted numbers of rows and columns: it computes the
two-dimensional DFT of every array exactly when a transform of the length of a row does not spoil the length of a column. -/
theorem fft2d_history_iff [F : Flt ℝ] (hF : Lawful F) (cfg : Cfg) (rows cols : ℕ) (hr : 0 < rows) (hc : 0 < cols)
    (hn : cfg.std = true ∨ ((∃ k, rows = 2 ^ k) ∧ ∃ k, cols = 2 ^ k)) :
    (∀ data sc : List (Cx ℝ), data.length = rows * cols → sc.length = rows →
      ∃ p' y sc', fft2d cfg Planner.new data rows cols sc = .ok (p', y, sc', .ok ()) ∧ IsDft2 rows cols data y) ↔
    Unspoilt cfg rows cols := by
  have hrr : fftRes cfg rows = .ok () := fftRes_ok hr (by tauto)
  have hrc : fftRes cfg cols = .ok () := fftRes_ok hc (by tauto)
  -- the two passes
  have passes : ∀ data sc : List (Cx ℝ), data.length = rows * cols → sc.length = rows →
      ∃ s1 s2 : NdSt ℝ, loopRes rows 0 (⟨Planner.new, data, sc⟩ : NdSt ℝ) (fun q s => sliceFft cfg (q * cols) cols s) = .ok (s1, .ok ()) ∧
        loopRes cols 0 s1 (fun c s => stridedAt cfg c cols s) = .ok (s2, .ok ()) ∧
        fft2d cfg Planner.new data rows cols sc = .ok (s2.p, s2.data, s2.sc, .ok ()) ∧
        Inv cfg s1.p ∧ s1.data.length = rows * cols ∧ s1.sc.length = rows ∧ s2.data.length = rows * cols ∧
        (∀ q i, q < rows → i < cols → sig s1.data (q * cols + i) =
          ∑ t ∈ Finset.range cols, sig data (q * cols + t) * W cols (i * t)) ∧
        (∀ i, i < rows → s2.data.getD (0 + i * cols) Cx.zero = (fftBuf cfg s1.p (lineOf s1.data 0 cols rows)).getD i Cx.zero) := by
    intro data sc hl hs
    obtain ⟨s1, e1, a1, a2, a3, -⟩ := slice_pass cfg (Q := rows) (C := cols) (N := rows * cols) le_rfl hr
      (⟨Planner.new, data, sc⟩ : NdSt ℝ) (inv_new cfg) hl hs
    rw [hrc] at e1
    obtain ⟨s2, e2, b1, b2, b3, -, -, -, b7⟩ := strided_pass cfg (R := rows) (C := cols) rfl hr hc s1 a1 a2 a3
    rw [hrr] at e2
    refine ⟨s1, s2, e1, e2, ?_, a1, a2, a3, b2, ?_, b7 hrr⟩
    · rw [fft2d_unfold cfg _ data hl hr hc hs, e1]
      simp only [Outcome.bind_ok, e2]
    · intro q i hq hi
      have := pass_fresh cfg (slice_lines (T := ℝ) cfg (R := rows) (C := cols) rows)
        (fun q q' i i' _ _ hi hi' he => (divmod_inj hi hi' (by simpa [Nat.add_comm] using he)).2) hrc _ s1 (inv_new cfg) hl hs
        (compat_new cfg _) e1 q i hq hi
      rw [Nat.mul_one] at this
      rw [sig_eq hF, this, fresh_line hF cfg _ _ _ _ _ hi]
      simp only [Nat.mul_one]
  constructor
  swap
  · intro hu data sc hl hs
    obtain ⟨s1, s2, e1, e2, e, a1, a2, a3, a4, a5, -⟩ := passes data sc hl hs
    refine ⟨_, _, _, e, by omega, ?_⟩
    have hP1 := pass_performed cfg (slice_lines (T := ℝ) cfg (R := rows) (C := cols) rows) hrc [] _ s1 .new hl hs e1
    have hc1 : Compat cfg s1.p rows := (performed_compat hP1 rows).mpr (fun m hm => by
      have : m = cols := by simp at hm; exact hm.2
      rw [this]; exact hu)
    intro r c hr' hc'
    have := pass_fresh cfg (strided_lines (T := ℝ) cfg hr hc) (fun q q' i i' h h' hi hi' he => (divmod_inj h h' he).1) hrr s1 s2 a1 a2 a3
      hc1 e2 c r hc' hr'
    rw [Nat.add_comm, sig_eq hF, this, fresh_line hF cfg _ _ _ _ _ hr', dft2]
    refine Finset.sum_congr rfl (fun r' hr'' => ?_)
    rw [Nat.add_comm c, a5 r' c (by simpa using hr'') hc', Finset.sum_mul]
    refine Finset.sum_congr rfl (fun c' _ => ?_)
    ring
  intro H
  by_contra hu
  by_cases hp : isPow2 rows = true
  · obtain ⟨k, rfl⟩ := isPow2_iff.mp hp
    unfold Unspoilt at hu
    push Not at hu
    obtain ⟨hlt, hu⟩ := hu
    obtain ⟨h16, hk⟩ := hu (Or.inl ⟨k, rfl⟩)
    have hw : workSize (2 ^ k) = 2 ^ k := by rw [workSize, if_pos hp]
    rw [hw] at h16 hlt
    have hk4 : 4 < k := by
      by_contra hc
      have : 2 ^ k ≤ 2 ^ 4 := Nat.pow_le_pow_right (by norm_num) (by omega)
      omega
    have := (fft2d_iff hF cfg (other_of_not hk) k cols hk4 hc (by tauto)).mp H
    omega
  have hpf : isPow2 rows = false := by simpa using hp
  have hr3 : 1 < rows := by
    by_contra h
    have : rows = 1 := by omega
    rw [this] at hpf
    revert hpf; decide
  -- what both arrays leave after the row pass
  have hzl : (List.replicate cols (⟨0, 0⟩ : Cx ℝ)).length = cols := List.length_replicate
  obtain ⟨q, w, eq, hqI, -⟩ := fft_run cfg (Planner.new : Planner ℝ) (List.replicate cols ⟨0, 0⟩) (inv_new cfg)
  rw [hzl, hrc] at eq
  have hPq := Performed.fft .new eq
  rw [hzl] at hPq
  have run : ∀ data : List (Cx ℝ), data.length = rows * cols →
      (∀ i, i < cols → data.getD ((rows - 1) * cols + i) Cx.zero = ⟨0, 0⟩) →
      ∃ z : List (Cx ℝ), z.length = rows ∧ (∀ t, t < rows → sig z t = ∑ c ∈ Finset.range cols, sig data (t * cols + c)) ∧
        at' (bluRun cfg q z).1 0 = dft2 rows cols (sig data) 0 0 := by
    intro data hl hlast
    have hsl : (List.replicate rows (⟨0, 0⟩ : Cx ℝ)).length = rows := List.length_replicate
    obtain ⟨p', y, sc', e, hd⟩ := H data (List.replicate rows ⟨0, 0⟩) hl hsl
    obtain ⟨s1, s2, e1, e2, e', a1, a2, a3, a4, a5, a6⟩ := passes data _ hl hsl
    rw [e] at e'
    simp only [Outcome.ok.injEq, Prod.mk.injEq, and_true] at e'
    have hll : (lineOf s1.data 0 cols rows).length = rows := by simp [lineOf]
    refine ⟨lineOf s1.data 0 cols rows, hll, ?_, ?_⟩
    · intro t ht
      have := a5 t 0 ht hc
      rw [Nat.add_zero] at this
      rw [sig_eq hF, lineOf, tab_getD ht, Nat.zero_add, ← sig_eq hF, this]
      refine Finset.sum_congr rfl (fun c _ => ?_)
      rw [Nat.zero_mul, W_zero, mul_one]
    · have hdy := hd.2 0 0 hr hc
      rw [e'.2.1, sig_eq hF] at hdy
      have h0 := a6 0 hr
      rw [Nat.zero_mul] at h0
      simp only [Nat.zero_mul, Nat.add_zero] at hdy h0
      rw [h0] at hdy
      rw [← hdy, at']
      congr 2
      have hleft := row_pass_left cfg hrc hr hc _ s1 rfl hl e1 (List.replicate cols ⟨0, 0⟩) hzl
        (fun i hi => by
          show data.getD _ _ = _
          rw [hlast i hi]; simp [List.getD_eq_getElem?_getD, hi]) q w eq
      rw [← bluRun_tail_congr cfg hleft.1 hleft.2, fftBuf, hll, hrr]
      simp only
      rw [fftOut, if_neg (by rw [hll]; exact hp)]
  have hlast : ∀ i, i < cols → 0 < (rows - 1) * cols + i ∧ (rows - 1) * cols + i < rows * cols := by
    intro i hi
    have h1 : (rows - 1 + 1) * cols = (rows - 1) * cols + cols := by ring
    rw [show rows - 1 + 1 = rows by omega] at h1
    have : 0 < (rows - 1) * cols := Nat.mul_pos (by omega) hc
    omega
  have key : ∀ a : ℝ, ∃ z : List (Cx ℝ), z.length = rows ∧ (∀ t, t < rows → sig z t = if t = 0 then (a : ℂ) else 0) ∧
      at' (bluRun cfg q z).1 0 = a := by
    intro a
    have hN : 0 < rows * cols := Nat.mul_pos hr hc
    have hsig : sig (tab (rows * cols) fun i => if i = 0 then (⟨a, 0⟩ : Cx ℝ) else ⟨0, 0⟩) = fun i => if i = 0 then (a : ℂ) else 0 := by
      funext i
      by_cases hi : i < rows * cols
      · rw [sig_eq hF, tab_getD hi]
        split <;> rfl
      · rw [if_neg (by omega)]
        unfold sig
        rw [List.getElem?_eq_none (by rw [tab_length]; omega)]
    obtain ⟨z, hz1, hz2, hz3⟩ := run (tab (rows * cols) fun i => if i = 0 then (⟨a, 0⟩ : Cx ℝ) else ⟨0, 0⟩) (tab_length _ _)
      (fun i hi => by
        have := hlast i hi
        rw [tab_getD this.2, if_neg (by omega)])
    rw [hsig] at hz2 hz3
    refine ⟨z, hz1, ?_, ?_⟩
    · intro t ht
      rw [hz2 t ht]
      by_cases h0 : t = 0
      · subst h0
        rw [if_pos rfl, Finset.sum_eq_single 0]
        · simp
        · intro c _ h; simp only []; rw [if_neg (by omega)]
        · intro h; simp at h; omega
      · rw [if_neg h0]
        refine Finset.sum_eq_zero (fun c _ => ?_)
        have : 0 < t * cols := Nat.mul_pos (by omega) hc
        simp only []
        rw [if_neg (by omega)]
    · rw [hz3]
      unfold dft2
      rw [Finset.sum_eq_single 0, Finset.sum_eq_single 0]
      · simp [W_zero]
      · intro c _ h; simp only []; rw [if_neg (by omega)]; ring
      · intro h; simp at h; omega
      · intro t _ h
        refine Finset.sum_eq_zero (fun c _ => ?_)
        have : 0 < t * cols := Nat.mul_pos (by omega) hc
        simp only []
        rw [if_neg (by omega)]; ring
      · intro h; simp at h; omega
  obtain ⟨z0, l0, v0, b0⟩ := key 0
  obtain ⟨z1, l1, v1, b1⟩ := key 1
  have hat : ∀ (z : List (Cx ℝ)) (t : ℕ), at' z t = sig z t := fun z t => by rw [at', sig_eq hF]
  have out0 : ∀ (z : List (Cx ℝ)) t, ¬ t < z.length → sig z t = 0 := by
    intro z t ht
    unfold sig
    rw [List.getElem?_eq_none (by omega)]
  have resp := bluRun_response hF cfg q hqI.split hqI.scr z0 z1 rows _ _ _ l0 l1 hr rfl rfl rfl
    (by rw [hat, hat, v0 0 hr, v1 0 hr]; simp)
    (fun t ht => by
      rw [hat, hat]
      by_cases h : t < rows
      · rw [v0 t h, v1 t h, if_neg ht, if_neg ht]
      · rw [out0 _ _ (by omega), out0 _ _ (by omega)])
  have hm0 : 0 < bluM rows := isPow2_pos (bluM_pow2 rows)
  have hmc : ((bluM rows : ℕ) : ℂ) ≠ 0 := by exact_mod_cast hm0.ne'
  rw [b0, b1, Complex.ofReal_one, Complex.ofReal_zero, sub_zero, eq_comm, div_eq_one_iff_eq hmc] at resp
  have resp : runLen cfg q (max q.bluScratch.length (bluM rows)) = bluM rows := by exact_mod_cast resp
  apply hu
  refine (performed_compat hPq rows).mp ?_ cols (by simp)
  have hge := runLen_ge cfg q (max q.bluScratch.length (bluM rows))
  have hnw : need rows = bluM rows := by rw [need, if_neg hp]
  refine ⟨?_, Or.inr (by rw [hnw]; omega)⟩
  rw [hnw]
  by_cases h16 : bluM rows ≤ 16
  · exact Or.inl h16
  · by_cases hk : cfg.kind = .other
    · exact Or.inr (Or.inl hk)
    · refine Or.inr (Or.inr ?_)
      rw [runLen, if_pos ⟨by omega, other_of_not hk⟩] at resp
      omega

/-- Shapes on both sides of C79h: 7 rows by 64 columns are fine even on f32, 9 rows by 33 columns are wrong for every element
type. -/
example : Unspoilt ⟨true, .f32, false, 4, false⟩ 7 64 ∧ ¬ Unspoilt ⟨true, .other, false, 4, false⟩ 9 33 := by
  have h7 : workSize 7 = 16 := by decide
  have h9 : workSize 9 = 32 := by decide
  have h33 : workSize 33 = 128 := by decide
  have n9 : ¬ ∃ k, 9 = 2 ^ k := fun h => by have := isPow2_iff.mpr h; revert this; decide
  have n33 : ¬ ∃ k, 33 = 2 ^ k := fun h => by have := isPow2_iff.mpr h; revert this; decide
  refine ⟨Or.inr ⟨Or.inr ⟨6, by norm_num⟩, Or.inl h7.le⟩, ?_⟩
  unfold Unspoilt
  rw [h9, h33]
  simp [n9, n33]

end Kofft.Props
