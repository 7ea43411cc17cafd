import Verif.Props.History2d
/-
C79: two- and three-dimensional transforms on a transformer with a history.
-/
namespace Kofft.Props
open Spec Finset

/-- One pass over disjoint lines after a history that does not spoil their length: every line is transformed as on a new
transformer, and the pass joins the history. -/
private theorem pass_hist {T : Type} [Flt T] (cfg : Cfg) {N s n m Q : Nat} {b : Nat → Nat}
    {step : Nat → NdSt T → Outcome (NdSt T × Res)} (hstep : ∀ q, q < Q → LineStep (T := T) cfg N (b q) s n m (step q))
    (hdis : ∀ q q' i i', q < Q → q' < Q → i < n → i' < n → b q + i * s = b q' + i' * s → q = q') (hQ : 0 < Q)
    (hr : fftRes cfg n = .ok ()) (ms : List ℕ) (st : NdSt T) (hP : Performed cfg ms st.p) (hu : ∀ m ∈ ms, Unspoilt cfg n m)
    (hl : st.data.length = N) (hm : st.sc.length = m) :
    ∃ st', loopRes Q 0 st step = .ok (st', .ok ()) ∧ Performed cfg (List.replicate Q n ++ ms) st'.p ∧ st'.data.length = N ∧
      st'.sc.length = m ∧ ∀ q i, q < Q → i < n → st'.data.getD (b q + i * s) Cx.zero =
        (freshOut cfg (lineOf st.data (b q) s n)).getD i Cx.zero := by
  have hI := (performed_left hP).inv
  obtain ⟨st', e, -, h2, h3, -⟩ := pass_run (T := T) cfg hstep hdis st hI hl hm hQ
  rw [hr] at e
  exact ⟨st', e, pass_performed cfg hstep hr ms st st' hP hl hm e, h2, h3,
    pass_fresh cfg hstep hdis hr st st' hI hl hm ((performed_compat hP n).mpr hu) e⟩

/-- C79i, partial (one direction). `fft2d_inplace` on a transformer that has performed transforms of the lengths `ms`: it computes
the two-dimensional DFT of every array if no earlier length spoils a row or a column and a row does not spoil a column. -/
theorem fft2d_history_partial [F : Flt ℝ] (hF : Lawful F) (cfg : Cfg) (ms : List ℕ) (p : Planner ℝ) (hP : Performed cfg ms p)
    (rows cols : ℕ) (hr : 0 < rows) (hc : 0 < cols) (hn : cfg.std = true ∨ ((∃ k, rows = 2 ^ k) ∧ ∃ k, cols = 2 ^ k))
    (hu : ∀ m ∈ ms, Unspoilt cfg cols m ∧ Unspoilt cfg rows m) (hu' : Unspoilt cfg rows cols)
    (data sc : List (Cx ℝ)) (hl : data.length = rows * cols) (hs : sc.length = rows) :
    ∃ p' y sc', fft2d cfg p data rows cols sc = .ok (p', y, sc', .ok ()) ∧ IsDft2 rows cols data y ∧
      Performed cfg (List.replicate cols rows ++ (List.replicate rows cols ++ ms)) p' := by
  have hrr : fftRes cfg rows = .ok () := fftRes_ok hr (by tauto)
  have hrc : fftRes cfg cols = .ok () := fftRes_ok hc (by tauto)
  obtain ⟨s1, e1, P1, l1, m1, v1⟩ := pass_hist cfg (slice_lines (T := ℝ) cfg (R := rows) (C := cols) rows)
    (fun q q' i i' _ _ hi hi' he => (divmod_inj hi hi' (by simpa [Nat.add_comm] using he)).2) hr hrc ms
    (⟨p, data, sc⟩ : NdSt ℝ) hP (fun m hm => (hu m hm).1) hl hs
  obtain ⟨s2, e2, P2, l2, m2, v2⟩ := pass_hist cfg (strided_lines (T := ℝ) cfg hr hc)
    (fun q q' i i' hq hq' _ _ he => (divmod_inj hq hq' he).1) hc hrr _ s1 P1 (fun m hm => by
      rcases List.mem_append.1 hm with h | h
      · rw [(List.mem_replicate.1 h).2]; exact hu'
      · exact (hu m h).2) l1 m1
  refine ⟨s2.p, s2.data, s2.sc, ?_, ⟨by rw [l2, hl], ?_⟩, P2⟩
  · rw [fft2d_unfold cfg _ data hl hr hc hs]
    show (loopRes rows 0 _ (fun q => sliceFft cfg (q * cols) cols) >>= _) = _
    rw [e1]
    simp only [Outcome.bind_ok]
    show (loopRes cols 0 _ (fun q => stridedAt cfg q cols) >>= _) = _
    rw [e2]; rfl
  · intro r c hr' hc'
    rw [Nat.add_comm, sig_eq hF, v2 c r hc' hr', fresh_line hF cfg _ _ _ _ _ hr', dft2]
    apply sum_congr rfl
    intro t ht
    have ht : t < rows := by simpa using ht
    rw [Nat.add_comm, sig_eq hF]
    have := v1 t c ht hc'
    rw [Nat.mul_one] at this
    rw [this, fresh_line hF cfg _ _ _ _ _ hc', sum_mul]
    apply sum_congr rfl
    intro i _
    rw [Nat.mul_one]
    try ring

/-- C79i, partial (one direction). `fft3d_inplace` on a transformer that has performed transforms of the lengths `ms`: it computes
the three-dimensional DFT of every array if no earlier length spoils one of the three lengths, the depth spoils neither the rows nor
the columns, and the rows do not spoil the columns. -/
theorem fft3d_history_partial [F : Flt ℝ] (hF : Lawful F) (cfg : Cfg) (ms : List ℕ) (p : Planner ℝ) (hP : Performed cfg ms p)
    (D R C : ℕ) (hD : 0 < D) (hR : 0 < R) (hC : 0 < C)
    (hn : cfg.std = true ∨ ((∃ k, D = 2 ^ k) ∧ (∃ k, R = 2 ^ k) ∧ ∃ k, C = 2 ^ k))
    (hu : ∀ m ∈ ms, Unspoilt cfg D m ∧ Unspoilt cfg R m ∧ Unspoilt cfg C m)
    (hu' : Unspoilt cfg R D ∧ Unspoilt cfg C D ∧ Unspoilt cfg C R)
    (data tube row col : List (Cx ℝ)) (hl : data.length = D * R * C) (ht : tube.length = D) (hr : row.length = R)
    (hc : col.length = C) :
    ∃ p' y t' r' c', fft3d cfg p data D R C tube row col = .ok (p', y, t', r', c', .ok ()) ∧ IsDft3 D R C data y := by
  have e1 : fftRes cfg D = .ok () := fftRes_ok hD (by tauto)
  have e2 : fftRes cfg R = .ok () := fftRes_ok hR (by tauto)
  have e3 : fftRes cfg C = .ok () := fftRes_ok hC (by tauto)
  have hRC : 0 < R * C := Nat.mul_pos hR hC
  have hqd : ∀ q, q < D * C → q / C < D := fun q h => Nat.div_lt_of_lt_mul (by rwa [Nat.mul_comm])
  have hqc : ∀ q, q % C < C := fun q => Nat.mod_lt _ hC
  have hq : ∀ d c, c < C → (d * C + c) / C = d ∧ (d * C + c) % C = c := by
    intro d c hc
    rw [Nat.add_comm, Nat.add_mul_div_right _ _ hC, Nat.div_eq_of_lt hc, Nat.add_mul_mod_self_right,
      Nat.mod_eq_of_lt hc]
    simp
  obtain ⟨s1, f1, P1, l1, m1, v1⟩ := pass_hist cfg (N := D * (R * C)) (m := D) (strided_lines (T := ℝ) cfg hD hRC)
    (fun q q' i i' hq hq' _ _ he => (divmod_inj hq hq' he).1) hRC e1 ms
    (⟨p, data, tube⟩ : NdSt ℝ) hP (fun m hm => (hu m hm).1) (by rw [hl]; ring) ht
  obtain ⟨s2, f2, P2, l2, m2, v2⟩ := pass_hist (T := ℝ) cfg (N := D * R * C) (s := C) (n := R) (m := R) (Q := D * C)
    (b := fun q => q / C * R * C + q % C) (step := fun q s => stridedAt cfg (q / C * R * C + q % C) C s)
    (fun q hq => stridedAt_line cfg hC hR (plane_idx (hqd q hq) (hqc q) (by omega)))
    (fun q q' i i' h h' hi hi' he => by
      have e1 : ∀ q i, q / C * R * C + q % C + i * C = q % C + (i + q / C * R) * C := by intros; ring
      simp only [e1] at he
      obtain ⟨a1, a2⟩ := divmod_inj (hqc q) (hqc q') he
      obtain ⟨-, a4⟩ := divmod_inj hi hi' a2
      rw [← Nat.div_add_mod q C, ← Nat.div_add_mod q' C, a1, a4]) (Nat.mul_pos hD hC) e2 _
    (⟨s1.p, s1.data, row⟩ : NdSt ℝ) P1 (fun m hm => by
      rcases List.mem_append.1 hm with h | h
      · rw [(List.mem_replicate.1 h).2]; exact hu'.1
      · exact (hu m h).2.1) (by rw [l1]; ring) hr
  obtain ⟨s3, f3, P3, l3, m3, v3⟩ := pass_hist cfg (slice_lines (T := ℝ) cfg (R := D * R) (C := C) R)
    (fun q q' i i' _ _ hi hi' he => (divmod_inj hi hi' (by simpa [Nat.add_comm] using he)).2) (Nat.mul_pos hD hR) e3 _
    s2 P2 (fun m hm => by
      rcases List.mem_append.1 hm with h | h
      · rw [(List.mem_replicate.1 h).2]; exact hu'.2.2
      rcases List.mem_append.1 h with h | h
      · rw [(List.mem_replicate.1 h).2]; exact hu'.2.1
      · exact (hu m h).2.2) l2 m2
  have f2' : loopRes D 0 (⟨s1.p, s1.data, row⟩ : NdSt ℝ)
      (fun d s => loopRes C 0 s fun c s => stridedAt cfg (d * R * C + c) C s) = .ok (s2, .ok ()) := by
    rw [← f2, ← loopRes_nested D C]
    apply loopRes_congr
    intro d s _ _
    apply loopRes_congr
    intro c s _ hc
    rw [(hq d c (by omega)).1, (hq d c (by omega)).2]
  refine ⟨s3.p, s3.data, s1.sc, s3.sc, col, ?_, by rw [l3, hl], ?_⟩
  · rw [fft3d_unfold cfg p data hl hD hR hC ht hr hc]
    show (loopRes (R * C) 0 _ (fun q => stridedAt cfg q (R * C)) >>= _) = _
    rw [f1]
    simp only [Outcome.bind_ok, f2']
    show (loopRes (D * R) 0 _ (fun q => sliceFft cfg (q * C) C) >>= _) = _
    rw [f3]; rfl
  intro d r c hd hr' hc'
  have hq' : ∀ d r, d < D → r < R → d * R + r < D * R := by
    intro d r hd hr; rw [Nat.add_comm]; exact line_lt hr hd
  have f3 : sig s3.data ((d * R + r) * C + c) =
      ∑ c' ∈ range C, sig s2.data ((d * R + r) * C + c') * W C (c * c') := by
    have := v3 _ _ (hq' d r hd hr') hc'
    rw [Nat.mul_one] at this
    rw [sig_eq hF, this, fresh_line hF cfg _ _ _ _ _ hc']
    apply sum_congr rfl
    intro c' _
    rw [Nat.mul_one]
  have f2 : ∀ c', c' < C → sig s2.data ((d * R + r) * C + c') =
      ∑ r' ∈ range R, sig s1.data ((d * R + r') * C + c') * W R (r * r') := by
    intro c' hc'
    have := v2 (d * C + c') r (by rw [Nat.add_comm]; exact line_lt hc' hd) hr'
    simp only [(hq d c' hc').1, (hq d c' hc').2] at this
    rw [show (d * R + r) * C + c' = d * R * C + c' + r * C by ring, sig_eq hF, this,
      fresh_line hF cfg _ _ _ _ _ hr']
    apply sum_congr rfl
    intro r' _
    rw [show (d * R + r') * C + c' = d * R * C + c' + r' * C by ring]
  have f1 : ∀ r' c', r' < R → c' < C → sig s1.data ((d * R + r') * C + c') =
      ∑ d' ∈ range D, sig data ((d' * R + r') * C + c') * W D (d * d') := by
    intro r' c' hr' hc'
    rw [show (d * R + r') * C + c' = (c' + r' * C) + d * (R * C) by ring, sig_eq hF,
      v1 _ d (line_lt hc' hr') hd, fresh_line hF cfg _ _ _ _ _ hd]
    apply sum_congr rfl
    intro d' _
    rw [show (d' * R + r') * C + c' = (c' + r' * C) + d' * (R * C) by ring]
  rw [f3, dft3]
  have : ∀ c' ∈ range C, sig s2.data ((d * R + r) * C + c') * W C (c * c') =
      ∑ r' ∈ range R, ∑ d' ∈ range D,
        sig data ((d' * R + r') * C + c') * W D (d * d') * W R (r * r') * W C (c * c') := by
    intro c' hc'
    have hc' : c' < C := by simpa using hc'
    rw [f2 c' hc', sum_mul]
    apply sum_congr rfl
    intro r' hr'
    have hr' : r' < R := by simpa using hr'
    rw [f1 r' c' hr' hc', sum_mul, sum_mul]
  rw [sum_congr rfl this, sum_comm]
  rw [sum_congr rfl (fun r' _ => sum_comm), sum_comm]

/-- Shapes the size conditions of C30 exclude and these theorems cover: depth 64, rows 8, columns 16 on `f32`, after a 128-point
transform spoils 64 but not the smaller ones. -/
example : let cfg : Cfg := ⟨true, .f32, false, 4, false⟩
    Unspoilt cfg 8 64 ∧ Unspoilt cfg 16 64 ∧ Unspoilt cfg 16 8 ∧ ¬ Unspoilt cfg 64 128 ∧ Unspoilt cfg 8 128 := by
  have h8 : workSize 8 = 8 := by decide
  have h16 : workSize 16 = 16 := by decide
  have h64 : workSize 64 = 64 := by decide
  have h128 : workSize 128 = 128 := by decide
  have p8 : ∃ k, 8 = 2 ^ k := ⟨3, by norm_num⟩
  have p16 : ∃ k, 16 = 2 ^ k := ⟨4, by norm_num⟩
  simp [Unspoilt, h8, h16, h64, h128, p8, p16]

end Kofft.Props
