import Verif.Proof.Machine
import Verif.Proof.DctPlan
import Verif.Props.NdFft
import Verif.Props.Core
import Verif.Lib.Lawful
/-
Property C82: calls whose sizes come near the limit of `usize`.
-/
namespace Kofft.Props
open Spec

variable {T : Type} [Flt T]

/-! ### Strided transforms -/

/-- C82a. `fft_strided` and `ifft_strided` do on machine words what they do on unbounded integers, bit for bit, as long
as the last index is below the word limit. Missing: the rest, where it is false (`strided_word_overflow`). -/
theorem strided_word_partial (w : Word) (op : FftOp T) (p : Planner T) (x : List (Cx T)) (stride : ℕ) (sc : List (Cx T))
    (h : (sc.length - 1) * stride + 1 < 2 ^ w.bits) :
    stridedW w op p x stride sc = strided op p x stride sc := stridedW_ok w op p x stride sc h

/-- C82b. Beyond it they never transform anything: with overflow checks they panic; without, they report
`MismatchedLengths` when the wrapped requirement exceeds the buffer, and otherwise panic on an index. No buffer in Rust is
longer than half the address space. -/
theorem strided_word_overflow (w : Word) (op : FftOp T) (p : Planner T) (x : List (Cx T)) (stride : ℕ)
    (sc : List (Cx T)) (hB : 0 < w.bits) (hx : x.length < 2 ^ (w.bits - 1)) (hs : stride < 2 ^ w.bits)
    (h : 2 ^ w.bits ≤ (sc.length - 1) * stride + 1) :
    stridedW w op p x stride sc =
      if w.checks = false ∧ x.length < ((sc.length - 1) * stride + 1) % 2 ^ w.bits then
        .ok (p, x, sc, .error .MismatchedLengths)
      else .panic := by
  have hpow : 2 ^ w.bits = 2 * 2 ^ (w.bits - 1) := by
    rw [← pow_succ', show w.bits - 1 + 1 = w.bits by omega]
  have h1 : 1 ≤ 2 ^ (w.bits - 1) := Nat.one_le_two_pow
  have hs0 : 0 < stride := by
    rcases Nat.eq_zero_or_pos stride with h0 | h0
    · rw [h0] at h; omega
    · exact h0
  have hn : 0 < sc.length - 1 := by
    rcases Nat.eq_zero_or_pos (sc.length - 1) with h0 | h0
    · rw [h0] at h; omega
    · exact h0
  unfold stridedW
  simp only [show ¬ stride = 0 by omega, show ¬ sc.length = 0 by omega, if_false]
  have hg := gatherW_panic w x stride sc.length sc hB rfl hs0 hs hx (by omega) (by omega)
  generalize hm : (sc.length - 1) * stride = m at *
  unfold Word.mul Word.add
  rw [hm]
  cases hc : w.checks with
  | true =>
    simp only [Bool.true_eq_false, false_and, if_false]
    by_cases hlt : m < 2 ^ w.bits
    · rw [w.val_ok hlt, Outcome.bind_ok]
      unfold Word.val
      rw [if_neg (by omega), hc]; rfl
    · unfold Word.val
      rw [if_neg hlt, hc]; rfl
  | false =>
    have e : w.val m >>= (fun a => w.val (a + 1)) = .ok ((m + 1) % 2 ^ w.bits) := by
      by_cases hlt : m < 2 ^ w.bits
      · rw [w.val_ok hlt, Outcome.bind_ok]
        unfold Word.val
        rw [if_neg (by omega), hc]; rfl
      · have e1 : w.val m = .ok (m % 2 ^ w.bits) := by unfold Word.val; rw [if_neg hlt, hc]; rfl
        rw [e1, Outcome.bind_ok]
        have hmod : m % 2 ^ w.bits < 2 ^ w.bits := Nat.mod_lt _ (by positivity)
        by_cases hlt2 : m % 2 ^ w.bits + 1 < 2 ^ w.bits
        · rw [w.val_ok hlt2, Nat.add_mod m 1, Nat.mod_eq_of_lt (show 1 < 2 ^ w.bits by omega), Nat.mod_eq_of_lt hlt2]
        · unfold Word.val
          rw [if_neg hlt2, hc, Nat.add_mod m 1, Nat.mod_eq_of_lt (show 1 < 2 ^ w.bits by omega)]; rfl
    obtain ⟨a, ea, eb⟩ := ok_of_bind_err e
    rw [ea, Outcome.bind_ok, eb, Outcome.bind_ok, hg]
    simp only [true_and]
    split <;> rfl

/-! ### Two and three dimensions -/

/-- C82c. `fft2d_inplace` on machine words, when `rows * cols` fits. Missing: the rest, where it is false
(`fft2d_word_overflow`). -/
theorem fft2d_word_partial (w : Word) (cfg : Cfg) (p : Planner T) (hp : Reach cfg p) (data : List (Cx T)) (rows cols : ℕ)
    (sc : List (Cx T)) (h : rows * cols < 2 ^ w.bits) :
    fft2dW w cfg p data rows cols sc = fft2d cfg p data rows cols sc := by
  unfold fft2dW fft2d
  rw [w.mul_ok h, Outcome.bind_ok]
  by_cases h1 : rows * cols = data.length
  · by_cases h2 : rows = 0 ∨ cols = 0
    · simp only [ne_eq, h1, h2, not_true, if_true, if_false]
    · by_cases h3 : sc.length = rows
      · simp only [ne_eq, h1, h2, h3, not_true, if_false]
        have hr : 0 < rows := by omega
        have hc : 0 < cols := by omega
        have hrow : ∀ r, r < rows → r * cols + cols ≤ rows * cols := fun r hr => by
          have := Nat.mul_le_mul_right cols (show r + 1 ≤ rows by omega)
          rwa [Nat.succ_mul] at this
        have hcol : (rows - 1) * cols + cols = rows * cols := by
          rw [← Nat.succ_mul, Nat.succ_eq_add_one, show rows - 1 + 1 = rows by omega]
        obtain ⟨e1, k1⟩ := loopRes_congr_inv (f := row2dW w cfg cols) (g := fun r s => sliceFft cfg (r * cols) cols s)
          (NdOk (T := T) cfg data.length rows) rows 0 ⟨p, data, sc⟩ ⟨reach_inv hp, rfl, h3⟩ (by
            intro r s _ hr' hs
            have h4 := hrow r (by omega)
            refine ⟨?_, (sliceFft_line cfg rows (by omega)).keeps s hs⟩
            unfold row2dW
            rw [w.mul_ok (by omega), Outcome.bind_ok, sliceFftW_ok w _ _ _ _ (by omega)])
        rw [e1]
        cases hl : loopRes rows 0 (⟨p, data, sc⟩ : NdSt T) (fun r s => sliceFft cfg (r * cols) cols s) with
        | panic => rfl
        | hang => rfl
        | ok v =>
          obtain ⟨s1, r1⟩ := v
          have hP := k1 s1 r1 hl
          cases r1 with
          | error e => rfl
          | ok u =>
            simp only [Outcome.bind_ok]
            obtain ⟨e2, -⟩ := loopRes_congr_inv (f := fun c s => stridedAtW w cfg c cols s)
              (g := fun c s => stridedAt cfg c cols s)
              (NdOk (T := T) cfg data.length rows) cols 0 s1 hP (by
                intro c s _ hc' hs
                refine ⟨stridedAtW_ok w _ _ _ _ (by rw [hs.2.2]; omega), (stridedAt_line cfg hc hr ?_).keeps s hs⟩
                omega)
            rw [e2]
      · simp only [ne_eq, h1, h2, h3, not_true, not_false_iff, if_true, if_false]
  · simp only [ne_eq, h1, not_false_iff, if_true]

/-- C82d. `fft2d_inplace` when `rows * cols` does not fit in a word: it never returns `Ok`. With overflow checks it
panics; without, it reports `MismatchedLengths` exactly when the wrapped product differs from the buffer length or the
scratch has the wrong length, and otherwise stops in the row pass, panicking on a slice beyond the buffer unless the row
length is refused first. -/
theorem fft2d_word_overflow (w : Word) (cfg : Cfg) (p : Planner T) (hp : Reach cfg p) (data : List (Cx T))
    (rows cols : ℕ) (sc : List (Cx T)) (hB : 0 < w.bits) (hd : data.length < 2 ^ (w.bits - 1))
    (h : 2 ^ w.bits ≤ rows * cols) (hcw : cols < 2 ^ w.bits) :
    (w.checks = true → fft2dW w cfg p data rows cols sc = .panic) ∧
    (w.checks = false → rows * cols % 2 ^ w.bits ≠ data.length ∨ sc.length ≠ rows →
      fft2dW w cfg p data rows cols sc = .ok (p, data, sc, .error .MismatchedLengths)) ∧
    (w.checks = false → rows * cols % 2 ^ w.bits = data.length → sc.length = rows →
      (cols ≤ data.length ∧ cfg.std = false ∧ (¬ ∃ k, cols = 2 ^ k) ∧
        ∃ p', fft2dW w cfg p data rows cols sc = .ok (p', data, sc, .error .NonPowerOfTwoNoStd)) ∨
      (¬ (cols ≤ data.length ∧ cfg.std = false ∧ ¬ ∃ k, cols = 2 ^ k) ∧
        fft2dW w cfg p data rows cols sc = .panic)) := by
  have hpow : 2 ^ w.bits = 2 * 2 ^ (w.bits - 1) := by
    rw [← pow_succ', show w.bits - 1 + 1 = w.bits by omega]
  have hone : 1 ≤ 2 ^ (w.bits - 1) := Nat.one_le_two_pow
  have hr : 0 < rows := by
    rcases Nat.eq_zero_or_pos rows with h0 | h0
    · rw [h0, Nat.zero_mul] at h; omega
    · exact h0
  have hc : 0 < cols := by
    rcases Nat.eq_zero_or_pos cols with h0 | h0
    · rw [h0, Nat.mul_zero] at h; omega
    · exact h0
  have hv : w.mul rows cols = if w.checks then .panic else .ok (rows * cols % 2 ^ w.bits) := by
    unfold Word.mul Word.val
    rw [if_neg (by omega)]
  have h2 : ¬ (rows = 0 ∨ cols = 0) := by omega
  refine ⟨fun hk => ?_, fun hk hm => ?_, fun hk hl hs => ?_⟩
  · unfold fft2dW
    rw [hv, if_pos hk]; rfl
  · unfold fft2dW
    rw [hv, hk, if_neg (by simp), Outcome.bind_ok]
    by_cases h1 : rows * cols % 2 ^ w.bits = data.length
    · have h3 : ¬ sc.length = rows := by tauto
      simp only [ne_eq, h1, h2, h3, not_true, not_false_iff, if_true, if_false]
    · simp only [ne_eq, h1, not_false_iff, if_true]
  · have e0 : fft2dW w cfg p data rows cols sc =
        (loopRes rows 0 (⟨p, data, sc⟩ : NdSt T) (row2dW w cfg cols) >>= fun v =>
          match v.2 with
          | .error e => .ok (v.1.p, v.1.data, v.1.sc, .error e)
          | .ok _ => loopRes cols 0 v.1 (fun c s => stridedAtW w cfg c cols s) >>= fun v =>
            .ok (v.1.p, v.1.data, v.1.sc, v.2)) := by
      unfold fft2dW
      rw [hv, hk, if_neg (by simp), Outcome.bind_ok]
      simp only [ne_eq, hl, h2, hs, not_true, if_false]
      rfl
    have hrow : ∀ r (s : NdSt T), r * cols ≤ data.length →
        row2dW w cfg cols r s = sliceFft cfg (r * cols) cols s := fun r s hr => by
      unfold row2dW
      have h4 : r * cols + cols < 2 ^ w.bits := by
        rcases Nat.eq_zero_or_pos r with h5 | h5
        · rw [h5]; omega
        · have := Nat.le_mul_of_pos_left cols h5
          omega
      rw [w.mul_ok (by omega), Outcome.bind_ok, sliceFftW_ok w _ _ _ _ h4]
    have hstep : ∀ r s, r * cols + cols ≤ data.length → NdOk cfg data.length rows s →
        ∃ s', row2dW w cfg cols r s = .ok (s', fftRes cfg cols) ∧ NdOk cfg data.length rows s' ∧
          (∀ e, fftRes cfg cols = .error e → s'.data = s.data ∧ s'.sc = s.sc) := fun r s hr hs => by
      have hL := sliceFft_line (T := T) cfg rows hr
      obtain ⟨s', e1, -, -, -, -, e2, -⟩ := hL.run s hs.1 hs.2.1 hs.2.2
      refine ⟨s', by rw [hrow r s (by omega), e1], hL.keeps s hs s' _ e1, fun e he => ⟨e2 e he, ?_⟩⟩
      unfold sliceFft at e1
      rw [if_pos (by rw [hs.2.1]; exact hr)] at e1
      obtain ⟨v, -, ev⟩ := ok_of_bind_err e1
      exact (congrArg (fun q : NdSt T × Res => q.1.sc) (Outcome.ok.inj ev)).symm
    have hNd : NdOk cfg data.length rows (⟨p, data, sc⟩ : NdSt T) := ⟨reach_inv hp, rfl, hs⟩
    rcases fftRes_cases cfg cols with hr' | ⟨er, hr'⟩
    · refine Or.inr ⟨?_, ?_⟩
      · rintro ⟨-, h4, h5⟩
        rw [fftRes_pos hc] at hr'
        rw [← isPow2_iff] at h5
        simp [h4, h5] at hr'
      · have hr0 : data.length / cols < rows := by
          rw [Nat.div_lt_iff_lt_mul hc]; omega
        have hlt : data.length < data.length / cols * cols + cols := by
          have := Nat.lt_div_mul_add hc (a := data.length)
          exact this
        rw [e0, loopRes_panic_at (NdOk (T := T) cfg data.length rows) (data.length / cols) rows 0 _ hNd
          (Nat.zero_le _) (by omega)]
        · rfl
        · intro j s _ hj hs
          have h6 : j * cols + cols ≤ data.length := by
            have := Nat.mul_le_mul_right cols (show j + 1 ≤ data.length / cols by omega)
            rw [Nat.succ_mul] at this
            exact this.trans (Nat.div_mul_le_self _ _)
          obtain ⟨s', e1, e2, -⟩ := hstep j s h6 hs
          exact ⟨s', by rw [e1, hr'], e2⟩
        · intro s hs
          rw [hrow _ s (Nat.div_mul_le_self _ _)]
          unfold sliceFft
          rw [if_neg (by rw [hs.2.1]; omega)]
    · have hnp : cfg.std = false ∧ ¬ ∃ k, cols = 2 ^ k := by
        rw [fftRes_pos hc] at hr'
        rw [← isPow2_iff]
        cases hstd : cfg.std <;> by_cases hq : isPow2 cols = true <;> simp_all
      have her : er = .NonPowerOfTwoNoStd := by
        rw [fftRes_pos hc, if_neg] at hr'
        · cases hr'; rfl
        · rw [isPow2_iff]
          rintro (h4 | h4)
          · rw [hnp.1] at h4; cases h4
          · exact hnp.2 h4
      subst her
      obtain ⟨rows', rfl⟩ : ∃ k, rows = k + 1 := ⟨rows - 1, by omega⟩
      by_cases hle : cols ≤ data.length
      · refine Or.inl ⟨hle, hnp.1, hnp.2, ?_⟩
        obtain ⟨s', e1, -, e3⟩ := hstep 0 ⟨p, data, sc⟩ (by omega) hNd
        obtain ⟨e4, e5⟩ := e3 _ hr'
        refine ⟨s'.p, ?_⟩
        rw [e0, loopRes_succ, e1, hr']
        simp only [Outcome.bind_ok]
        rw [e4, e5]
      · refine Or.inr ⟨fun h => hle h.1, ?_⟩
        rw [e0, loopRes_succ, hrow 0 _ (by omega)]
        unfold sliceFft
        rw [if_neg (by simp only []; omega)]
        rfl

/-- C82e. `fft3d_inplace` on machine words, when the products fit. Missing: the rest, where it is false
(`fft3d_word_wrong`). -/
theorem fft3d_word_partial (w : Word) (cfg : Cfg) (p : Planner T) (hp : Reach cfg p) (data : List (Cx T))
    (depth rows cols : ℕ) (tube row col : List (Cx T)) (h0 : depth * rows < 2 ^ w.bits)
    (h : depth * rows * cols < 2 ^ w.bits) :
    fft3dW w cfg p data depth rows cols tube row col = fft3d cfg p data depth rows cols tube row col := by
  unfold fft3dW fft3d
  rw [w.mul_ok h0, Outcome.bind_ok, w.mul_ok h, Outcome.bind_ok]
  by_cases h1 : depth * rows * cols = data.length
  · by_cases h2 : depth = 0 ∨ rows = 0 ∨ cols = 0
    · simp only [ne_eq, h1, h2, not_true, if_true, if_false]
    · by_cases h3 : tube.length ≠ depth ∨ row.length ≠ rows ∨ col.length ≠ cols
      · simp only [h1, h2, h3, ne_eq, not_true, if_true, if_false]
      · simp only [h1, h2, h3, ne_eq, not_true, if_false]
        have hD : 0 < depth := by omega
        have hR : 0 < rows := by omega
        have hC : 0 < cols := by omega
        have ht : tube.length = depth := by omega
        have hrw : row.length = rows := by omega
        have hRC : rows * cols ≤ depth * rows * cols := by
          rw [Nat.mul_assoc]; exact Nat.le_mul_of_pos_left _ hD
        have hplane : ∀ d, d < depth → d * rows * cols + rows * cols ≤ depth * rows * cols := fun d hd => by
          have := Nat.mul_le_mul_right (rows * cols) (show d + 1 ≤ depth by omega)
          rw [Nat.succ_mul, ← Nat.mul_assoc, ← Nat.mul_assoc] at this
          exact this
        have hrow : ∀ r, r < rows → r * cols + cols ≤ rows * cols := fun r hr => by
          have := Nat.mul_le_mul_right cols (show r + 1 ≤ rows by omega)
          rwa [Nat.succ_mul] at this
        have hcol : (rows - 1) * cols + cols = rows * cols := by
          rw [← Nat.succ_mul, Nat.succ_eq_add_one, show rows - 1 + 1 = rows by omega]
        have htube : (depth - 1) * (rows * cols) + rows * cols = depth * rows * cols := by
          rw [← Nat.succ_mul, Nat.succ_eq_add_one, show depth - 1 + 1 = depth by omega, Nat.mul_assoc]
        have hdr : ∀ d, d < depth → d * rows ≤ depth * rows := fun d hd => Nat.mul_le_mul_right _ (by omega)
        obtain ⟨e1, k1⟩ := loopRes_congr_inv
          (f := fun r s => loopRes cols 0 s fun c s => tube3dW w cfg rows cols r c s)
          (g := fun r s => loopRes cols 0 s fun c s => stridedAt cfg (r * cols + c) (rows * cols) s)
          (NdOk (T := T) cfg data.length depth) rows 0 ⟨p, data, tube⟩ ⟨reach_inv hp, rfl, ht⟩ (by
            intro r s _ hr' hs
            refine loopRes_congr_inv (NdOk (T := T) cfg data.length depth) cols 0 s hs ?_
            intro c s _ hc' hs
            have h4 := hrow r (by omega)
            refine ⟨?_, (stridedAt_line cfg (by positivity) hD (by omega)).keeps s hs⟩
            unfold tube3dW
            rw [w.mul_ok (by omega), Outcome.bind_ok, w.add_ok (by omega), Outcome.bind_ok, w.mul_ok (by omega),
              Outcome.bind_ok, stridedAtW_ok w _ _ _ _ (by rw [hs.2.2]; have : 1 ≤ rows * cols := Nat.mul_pos hR hC; omega)])
        rw [e1]
        cases hl : loopRes rows 0 (⟨p, data, tube⟩ : NdSt T)
            (fun r s => loopRes cols 0 s fun c s => stridedAt cfg (r * cols + c) (rows * cols) s) with
        | panic => rfl
        | hang => rfl
        | ok v =>
          obtain ⟨s1, r1⟩ := v
          have hP := k1 s1 r1 hl
          cases r1 with
          | error e => rfl
          | ok u =>
            simp only [Outcome.bind_ok]
            obtain ⟨e2, k2⟩ := loopRes_congr_inv
              (f := fun d s => loopRes cols 0 s fun c s => col3dW w cfg rows cols d c s)
              (g := fun d s => loopRes cols 0 s fun c s => stridedAt cfg (d * rows * cols + c) cols s)
              (NdOk (T := T) cfg data.length rows) depth 0 ⟨s1.p, s1.data, row⟩ ⟨hP.1, hP.2.1, hrw⟩ (by
                intro d s _ hd' hs
                refine loopRes_congr_inv (NdOk (T := T) cfg data.length rows) cols 0 s hs ?_
                intro c s _ hc' hs
                have h4 := hplane d (by omega)
                have h5 := hdr d (by omega)
                refine ⟨?_, (stridedAt_line cfg hC hR (by omega)).keeps s hs⟩
                unfold col3dW
                rw [w.mul_ok (by omega), Outcome.bind_ok, w.mul_ok (by omega), Outcome.bind_ok, w.add_ok (by omega),
                  Outcome.bind_ok, stridedAtW_ok w _ _ _ _ (by rw [hs.2.2]; omega)])
            rw [e2]
            cases hl2 : loopRes depth 0 (⟨s1.p, s1.data, row⟩ : NdSt T)
                (fun d s => loopRes cols 0 s fun c s => stridedAt cfg (d * rows * cols + c) cols s) with
            | panic => rfl
            | hang => rfl
            | ok v =>
              obtain ⟨s2, r2⟩ := v
              have hP2 := k2 s2 r2 hl2
              cases r2 with
              | error e => rfl
              | ok u =>
                simp only [Outcome.bind_ok]
                obtain ⟨e3, -⟩ := loopRes_congr_inv
                  (f := fun d s => loopRes rows 0 s fun r s => row3dW w cfg rows cols d r s)
                  (g := fun d s => loopRes rows 0 s fun r s => sliceFft cfg (d * rows * cols + r * cols) cols s)
                  (NdOk (T := T) cfg data.length rows) depth 0 s2 hP2 (by
                    intro d s _ hd' hs
                    refine loopRes_congr_inv (NdOk (T := T) cfg data.length rows) rows 0 s hs ?_
                    intro r s _ hr' hs
                    have h4 := hplane d (by omega)
                    have h5 := hdr d (by omega)
                    have h6 := hrow r (by omega)
                    refine ⟨?_, (sliceFft_line cfg rows (by omega)).keeps s hs⟩
                    unfold row3dW
                    rw [w.mul_ok (by omega), Outcome.bind_ok, w.mul_ok (by omega), Outcome.bind_ok,
                      w.mul_ok (by omega), Outcome.bind_ok, w.add_ok (by omega), Outcome.bind_ok,
                      sliceFftW_ok w _ _ _ _ (by omega)])
                rw [e3]
  · simp only [ne_eq, h1, not_false_iff, if_true]

/-! ### Short-time transforms -/

/-- C82f. `stft` on machine words, with any transformer, when the last frame position fits. Missing: the rest, where
it is false (`stft_64bit_wrong`). -/
theorem stft_word_partial {S : Type} (w : Word) (op : StOp S T) (s : S) (signal window : List T) (hop : ℕ)
    (output : List (List (Cx T))) (h1 : (output.length - 1) * hop < 2 ^ w.bits)
    (h2 : (output.length - 1) * hop + window.length ≤ 2 ^ w.bits) :
    stftW w op s signal window hop output = stft op s signal window hop output := by
  unfold stftW stft
  by_cases h0 : hop = 0
  · rw [if_pos h0, if_pos h0]
  · rw [if_neg h0, if_neg h0]
    split
    · rfl
    · congr 1
      refine loopRes_congr _ _ _ fun idx st _ hi => ?_
      have : idx * hop ≤ (output.length - 1) * hop := Nat.mul_le_mul_right _ (by omega)
      unfold stftStepW
      rw [w.mul_ok (by omega)]
      simp only [Outcome.bind_ok]
      congr 1
      funext frame
      rw [fillFrameW_ok w _ _ _ _ (by omega)]

/-- C82g. `istft` on machine words, with any transformer, when the last frame position fits. Missing: the rest,
where it is false (`istft_64bit_wrong`). -/
theorem istft_word_partial {S : Type} (w : Word) (iop : StOp S T) (s : S) (frames : List (List (Cx T))) (window : List T)
    (hop : ℕ) (output scratch : List T) (h1 : (frames.length - 1) * hop < 2 ^ w.bits)
    (h2 : (frames.length - 1) * hop + window.length ≤ 2 ^ w.bits) :
    istftW w iop s frames window hop output scratch = istft iop s frames window hop output scratch := by
  unfold istftW istft
  by_cases h0 : hop = 0
  · rw [if_pos h0, if_pos h0]
  · rw [if_neg h0, if_neg h0]
    split
    · rfl
    · have key : ∀ st : OlaSt S T, loopRes frames.length 0 st (istftStepW w iop window hop) =
          loopRes frames.length 0 st (istftStep iop window hop) := fun st => by
        refine loopRes_congr _ _ _ fun idx st _ hi => ?_
        have : idx * hop ≤ (frames.length - 1) * hop := Nat.mul_le_mul_right _ (by omega)
        unfold istftStepW istftStep
        rw [w.mul_ok (by omega)]
        simp only [Outcome.bind_ok]
        congr 1
        funext frame
        split
        · rfl
        · congr 1
          funext v
          obtain ⟨s', y, r⟩ := v
          simp only []
          congr 1
          funext fs
          cases r with
          | error e => rfl
          | ok u => simp only [olaFrameW_ok w window (idx * hop) y _ _ (by omega)]
      simp only [key]
      rfl

/-- A sequence of calls of `next_frame` on the given buffers: buffers and results. -/
def streamRun {S : Type} (next : StftStream T → S → List (Cx T) →
      Outcome (StftStream T × S × List (Cx T) × Except FftError Bool)) :
    StftStream T → S → List (List (Cx T)) → Outcome (List (List (Cx T) × Except FftError Bool))
  | _, _, [] => .ok []
  | st, s, b :: bs => do
    let v ← next st s b
    let rest ← streamRun next v.1 v.2.1 bs
    .ok ((v.2.2.1, v.2.2.2) :: rest)

theorem stream_step {S : Type} (w : Word) (op : StOp S T) (st : StftStream T) (s : S) (out : List (Cx T))
    (hB : 0 < w.bits) (hsig : st.signal.length < 2 ^ (w.bits - 1)) (hwin : st.window.length < 2 ^ (w.bits - 1))
    (hh : st.hop < 2 ^ w.bits) (hp : ∃ k, st.pos = k * st.hop) :
    st.nextFrameW w op s out = st.nextFrame op s out ∧ ∀ st' s' y r, st.nextFrame op s out = .ok (st', s', y, r) →
      st'.signal = st.signal ∧ st'.window = st.window ∧ st'.hop = st.hop ∧ ∃ k, st'.pos = k * st.hop := by
  have hpow : 2 ^ w.bits = 2 * 2 ^ (w.bits - 1) := by
    rw [← pow_succ', show w.bits - 1 + 1 = w.bits by omega]
  obtain ⟨k, hk⟩ := hp
  constructor
  · unfold StftStream.nextFrameW StftStream.nextFrame
    split
    · rfl
    · split
      · rfl
      · rename_i h1 h2
        rw [fillFrameW_ok w _ _ _ _ (by omega)]
        congr 1
        funext y
        congr 1
        funext v
        obtain ⟨s', y', r⟩ := v
        cases r with
        | error e => rfl
        | ok u =>
          have hlt : st.pos + st.hop < 2 ^ w.bits := by
            rcases Nat.eq_zero_or_pos k with h0 | h0
            · rw [h0] at hk; omega
            · have := Nat.le_mul_of_pos_left st.hop h0
              omega
          simp only []
          rw [w.add_ok hlt, Outcome.bind_ok]
  · intro st' s' y r e
    unfold StftStream.nextFrame at e
    split at e
    · cases e; exact ⟨rfl, rfl, rfl, k, hk⟩
    · split at e
      · cases e; exact ⟨rfl, rfl, rfl, k, hk⟩
      · obtain ⟨a, -, e⟩ := ok_of_bind_err e
        obtain ⟨⟨s1, y1, r1⟩, -, e⟩ := ok_of_bind_err e
        cases r1 with
        | error er => cases e; exact ⟨rfl, rfl, rfl, k, hk⟩
        | ok u => cases e; exact ⟨rfl, rfl, rfl, k + 1, by simp only []; rw [hk]; ring⟩

/-- C82h. `StftStream` on machine words: for every signal and window that fit in memory, every hop a `usize` can hold
and every sequence of `next_frame` calls, no index computation overflows: results and buffers are those of unbounded
integers. -/
theorem stream_word {S : Type} (w : Word) (op : StOp S T) (signal window : List T) (hop : ℕ) (st : StftStream T)
    (hnew : StftStream.new signal window hop = .ok st) (s : S) (bufs : List (List (Cx T)))
    (hB : 0 < w.bits) (hsig : signal.length < 2 ^ (w.bits - 1)) (hwin : window.length < 2 ^ (w.bits - 1))
    (hh : hop < 2 ^ w.bits) :
    streamRun (fun st s b => st.nextFrameW w op s b) st s bufs =
      streamRun (fun st s b => st.nextFrame op s b) st s bufs := by
  have key : ∀ (bufs : List (List (Cx T))) (st : StftStream T) (s : S), st.signal = signal → st.window = window →
      st.hop = hop → (∃ k, st.pos = k * hop) →
      streamRun (fun st s b => st.nextFrameW w op s b) st s bufs =
        streamRun (fun st s b => st.nextFrame op s b) st s bufs := by
    intro bufs
    induction bufs with
    | nil => intros; rfl
    | cons b bs ih =>
      intro st s h1 h2 h3 h4
      obtain ⟨e1, e2⟩ := stream_step w op st s b hB (by rw [h1]; exact hsig) (by rw [h2]; exact hwin)
        (by rw [h3]; exact hh) (by rw [h3]; exact h4)
      unfold streamRun
      rw [e1]
      cases hn : st.nextFrame op s b with
      | panic => rfl
      | hang => rfl
      | ok v =>
        obtain ⟨st', s', y, r⟩ := v
        obtain ⟨g1, g2, g3, g4⟩ := e2 st' s' y r hn
        simp only [Outcome.bind_ok]
        rw [ih st' s' (g1.trans h1) (g2.trans h2) (g3.trans h3) (by rw [← h3]; exact g4)]
  unfold StftStream.new at hnew
  split at hnew
  · cases hnew
  · cases hnew
    exact key bufs _ s rfl rfl rfl ⟨0, by simp⟩

theorem fft_single (cfg : Cfg) (p : Planner T) (c : Cx T) : fft cfg p [c] = .ok (p, [c], .ok ()) := by
  obtain ⟨std, kind, pre, lanes, dbg⟩ := cfg
  cases kind <;> cases std <;> rfl

theorem ifft_single (cfg : Cfg) (p : Planner T) (c : Cx T) : ifft cfg p [c] = .ok (p, [c], .ok ()) := by
  obtain ⟨std, kind, pre, lanes, dbg⟩ := cfg
  cases kind <;> cases std <;> rfl

theorem panic_bind {α β : Type} (f : α → Outcome β) : (Outcome.panic >>= f) = .panic := rfl

/-- C82i. `stft` called with no more frames than the signal needs never computes an overflowing index. -/
theorem stft_word_required {S : Type} (w : Word) (op : StOp S T) (s : S) (signal window : List T) (hop : ℕ)
    (output : List (List (Cx T))) (hB : 0 < w.bits) (hsig : signal.length < 2 ^ (w.bits - 1))
    (hwin : window.length < 2 ^ (w.bits - 1)) (hreq : (output.length - 1) * hop ≤ signal.length) :
    stftW w op s signal window hop output = stft op s signal window hop output := by
  have hpow : 2 ^ w.bits = 2 * 2 ^ (w.bits - 1) := by
    rw [← pow_succ', show w.bits - 1 + 1 = w.bits by omega]
  exact stft_word_partial w op s signal window hop output (by omega) (by omega)

theorem fillFrameW_one (w : Word) (a b : T) (start j : ℕ) (c : Cx T) (h : w.add start 0 = .ok j) :
    fillFrameW w [a] [b] start [c] = .ok [⟨if j = 0 then a *. b else Flt.zero, Flt.zero⟩] := by
  have : fillFrameW w [a] [b] start [c] = (do
    let j ← w.add start 0
    let x ← if j < 1 then do
        let a ← rd [a] j
        let v ← rd [b] 0
        pure (a *. v)
      else pure Flt.zero
    wr [c] 0 ⟨x, Flt.zero⟩) >>= fun s => .ok s := rfl
  rw [this, h, Outcome.bind_ok]
  by_cases hj : j = 0
  · subst hj; rfl
  · rw [if_neg (by omega), if_neg hj]; rfl

theorem stftW_three (w : Word) (cfg : Cfg) (p : Planner T) (a b : T) (hop j1 k1 : ℕ)
    (hh : hop ≠ 0) (h0 : w.mul 0 hop = .ok 0) (h0' : w.add 0 0 = .ok 0) (h1 : w.mul 1 hop = .ok j1)
    (h1' : w.add j1 0 = .ok k1) :
    stftW w (fft cfg) p [a] [b] hop [[], [], []] = (w.mul 2 hop >>= fun j => w.add j 0 >>= fun k =>
      .ok (p, [[⟨a *. b, Flt.zero⟩], [⟨if k1 = 0 then a *. b else Flt.zero, Flt.zero⟩], [⟨if k = 0 then a *. b else Flt.zero, Flt.zero⟩]], .ok ())) := by
  have hd : divCeil 1 hop ≤ 1 := by
    unfold divCeil
    rw [Nat.add_sub_cancel_left, Nat.div_self (by omega)]
  have hstep : ∀ (i : ℕ) (o : List (List (Cx T))) j k, i < o.length → o.getD i [] = [] → w.mul i hop = .ok j → w.add j 0 = .ok k →
     stftStepW w (fft cfg) [a] [b] hop i (p, o) = .ok ((p, o.set i [⟨if k = 0 then a *. b else Flt.zero, Flt.zero⟩]), .ok ()) := by
    intro i o j k hi ho hj hk
    unfold stftStepW
    rw [rd_getD [] hi, Outcome.bind_ok, ho, hj, Outcome.bind_ok]
    show (fillFrameW w [a] [b] j [Cx.zero] >>= _) = _
    rw [fillFrameW_one w a b j k _ hk, Outcome.bind_ok, fft_single, Outcome.bind_ok]
    simp only []
    rw [wr_ok hi]; rfl
  unfold stftW
  rw [if_neg hh, if_neg (by simp only [List.length_cons, List.length_nil, Nat.zero_add]; omega)]
  show (loopRes (2+1) 0 _ _ >>= _) = _
  rw [loopRes_succ, hstep 0 _ 0 0 (by simp) rfl h0 h0', Outcome.bind_ok]
  simp only [List.set_cons_zero]
  rw [loopRes_succ, hstep 1 _ j1 k1 (by simp) rfl h1 h1', Outcome.bind_ok]
  simp only [List.set_cons_succ, List.set_cons_zero]
  rw [loopRes_succ]
  cases e2 : w.mul 2 hop with
  | panic => unfold stftStepW; rw [e2]; rfl
  | hang => unfold stftStepW; rw [e2]; rfl
  | ok j =>
    cases e3 : w.add j 0 with
    | panic =>
      rw [Outcome.bind_ok, e3]
      unfold stftStepW fillFrameW
      rw [e2]
      simp only [rd, forRange, loopN, List.length_cons, List.length_nil, Outcome.bind_ok, e3, panic_bind]
      rfl
    | hang => unfold Word.add Word.val at e3; split at e3 <;> [cases e3; (split at e3 <;> cases e3)]
    | ok k => rw [hstep 2 _ j k (by simp) rfl e2 e3]; simp only [Outcome.bind_ok, e3]; rfl

/-- C82j. Negative: with spare frames and a huge hop it does. On a 64-bit target, one sample `a`, one window coefficient
`b`, hop `2^63` and three frames: the third frame, which lies beyond the signal, comes out as the transform of `a·b`
instead of zero in release mode, and the call panics with overflow checks. -/
theorem stft_64bit_wrong (cfg : Cfg) (p : Planner T) (a b : T) :
    stftW ⟨64, false⟩ (fft cfg) p [a] [b] (2 ^ 63) [[], [], []] =
      .ok (p, [[⟨a *. b, Flt.zero⟩], [⟨Flt.zero, Flt.zero⟩], [⟨a *. b, Flt.zero⟩]], .ok ()) ∧
    stftW ⟨64, true⟩ (fft cfg) p [a] [b] (2 ^ 63) [[], [], []] = .panic ∧
    stft (fft cfg) p [a] [b] (2 ^ 63) [[], [], []] =
      .ok (p, [[⟨a *. b, Flt.zero⟩], [⟨Flt.zero, Flt.zero⟩], [⟨Flt.zero, Flt.zero⟩]], .ok ()) := by
  have hv : ∀ B c v, v < 2 ^ B → Word.val ⟨B, c⟩ v = .ok v := fun B c v h => Word.val_ok ⟨B, c⟩ h
  have hn : (2 ^ 63 : ℕ) ≠ 0 := by norm_num
  refine ⟨?_, ?_, ?_⟩
  · rw [stftW_three ⟨64, false⟩ cfg p a b (2 ^ 63) (2 ^ 63) (2 ^ 63) hn (hv _ _ _ (by norm_num))
      (hv _ _ _ (by norm_num)) (by rw [Word.mul, hv _ _ _ (by norm_num)]; norm_num) (hv _ _ _ (by norm_num)),
      show Word.mul ⟨64, false⟩ 2 (2 ^ 63) = .ok 0 by
        unfold Word.mul Word.val; rw [if_neg (by norm_num)]; norm_num,
      Outcome.bind_ok, show Word.add ⟨64, false⟩ 0 0 = .ok 0 from hv _ _ _ (by norm_num), Outcome.bind_ok,
      if_neg hn, if_pos rfl]
  · rw [stftW_three ⟨64, true⟩ cfg p a b (2 ^ 63) (2 ^ 63) (2 ^ 63) hn (hv _ _ _ (by norm_num))
      (hv _ _ _ (by norm_num)) (by rw [Word.mul, hv _ _ _ (by norm_num)]; norm_num) (hv _ _ _ (by norm_num)),
      show Word.mul ⟨64, true⟩ 2 (2 ^ 63) = .panic by
        unfold Word.mul Word.val; rw [if_neg (by norm_num)]; norm_num]
    rfl
  · rw [← stft_word_partial ⟨65, true⟩ _ _ _ _ _ _ (by norm_num) (by norm_num)]
    rw [stftW_three ⟨65, true⟩ cfg p a b (2 ^ 63) (2 ^ 63) (2 ^ 63) hn (hv _ _ _ (by norm_num))
      (hv _ _ _ (by norm_num)) (by rw [Word.mul, hv _ _ _ (by norm_num)]; norm_num) (hv _ _ _ (by norm_num)),
      show Word.mul ⟨65, true⟩ 2 (2 ^ 63) = .ok (2 ^ 64) by
        rw [Word.mul, hv _ _ _ (by norm_num)]; norm_num,
      Outcome.bind_ok, show Word.add ⟨65, true⟩ (2 ^ 64) 0 = .ok (2 ^ 64) from hv _ _ _ (by norm_num), Outcome.bind_ok,
      if_neg hn, if_neg (by norm_num)]

/-- C82k. Negative: likewise `istft`: the third of three frames, which lies beyond the one-sample output, is added to the
first sample in release mode. -/
theorem istft_64bit_wrong (cfg : Cfg) (p : Planner T) (a b c v : T) :
    (∃ fs n, istftW ⟨64, false⟩ (ifft cfg) p [[⟨a, Flt.zero⟩], [⟨b, Flt.zero⟩], [⟨c, Flt.zero⟩]] [v] (2 ^ 63)
      [Flt.zero] [Flt.zero] = .ok (p, fs, [normSample ((Flt.zero +. (a *. v)) +. (c *. v))
        ((Flt.zero +. (v *. v)) +. (v *. v))], n, .ok ())) ∧
    istftW ⟨64, true⟩ (ifft cfg) p [[⟨a, Flt.zero⟩], [⟨b, Flt.zero⟩], [⟨c, Flt.zero⟩]] [v] (2 ^ 63)
      [Flt.zero] [Flt.zero] = .panic ∧
    (∃ fs n, istft (ifft cfg) p [[⟨a, Flt.zero⟩], [⟨b, Flt.zero⟩], [⟨c, Flt.zero⟩]] [v] (2 ^ 63)
      [Flt.zero] [Flt.zero] = .ok (p, fs, [normSample (Flt.zero +. (a *. v)) (Flt.zero +. (v *. v))], n, .ok ())) := by
  refine ⟨?_, ?_, ?_⟩
  · simp [istftW, istftStepW, loopRes, olaFrameW, forRange, loopN, Word.mul, Word.add, Word.val, rd, wr,
      ifft_single, Outcome.bind_ok, normalize]
  · simp [istftW, istftStepW, loopRes, olaFrameW, forRange, loopN, Word.mul, Word.add, Word.val, rd, wr,
      ifft_single, Outcome.bind_ok]
  · simp [istft, istftStep, loopRes, olaFrame, forRange, loopN, rd, wr, ifft_single, Outcome.bind_ok, normalize]

/-- C82l. Negative: `fft2d_inplace` on an empty buffer with `rows = 2`, `cols = 2^63` panics on a 64-bit target in both
profiles, although the sizes do not match; on unbounded integers it would report `MismatchedLengths`. -/
theorem fft2d_64bit_panics (ck : Bool) (cfg : Cfg) (sc : List (Cx T)) (hs : sc.length = 2) :
    fft2dW ⟨64, ck⟩ cfg (Planner.new : Planner T) [] 2 (2 ^ 63) sc = .panic ∧
    fft2d cfg (Planner.new : Planner T) [] 2 (2 ^ 63) sc = .ok (Planner.new, [], sc, .error .MismatchedLengths) := by
  obtain ⟨h1, -, h3⟩ := fft2d_word_overflow ⟨64, ck⟩ cfg (Planner.new : Planner T) .new [] 2 (2 ^ 63) sc
    (by norm_num) (by simp) (by norm_num) (by norm_num)
  constructor
  · cases ck with
    | true => exact h1 rfl
    | false =>
      rcases h3 rfl (by norm_num) hs with h | h
      · exact absurd h.1 (by norm_num)
      · exact h.2
  · unfold fft2d
    rw [if_pos (by simp)]

/-- C82m. Negative: `fft_strided` with a stride that overflows the length check panics instead of reporting
`MismatchedLengths`. -/
theorem strided_64bit_panics (ck : Bool) (op : FftOp T) (p : Planner T) (x sc : List (Cx T)) (hx : x.length = 4)
    (hs : sc.length = 3) : stridedW ⟨64, ck⟩ op p x (2 ^ 63) sc = .panic ∧
      strided op p x (2 ^ 63) sc = .ok (p, x, sc, .error .MismatchedLengths) := by
  constructor
  · rw [strided_word_overflow ⟨64, ck⟩ op p x (2 ^ 63) sc (by norm_num) (by rw [hx]; norm_num) (by norm_num)
      (by rw [hs]; norm_num), hs, hx]
    rw [if_neg (by norm_num)]
  · generalize hst : 2 ^ 63 = st
    have : 4 ≤ st := by rw [← hst]; norm_num
    unfold strided
    simp only [show ¬ st = 0 by omega, hs, hx, if_false]
    rw [if_neg (by omega), if_pos (by omega)]

/-- C82n. Negative: `fft3d_inplace` on an empty buffer with `depth = 1` and `rows * cols` equal to the size of the address
space (for instance `rows = cols = 2^32` on 64-bit targets) reports `InvalidStride` in release mode, although the caller
chose no stride; on unbounded integers it reports `MismatchedLengths`. -/
theorem fft3d_word_wrong (w : Word) (hw : w.checks = false) (cfg : Cfg) (p : Planner T) (rows cols : ℕ)
    (tube row col : List (Cx T)) (hr : rows < 2 ^ w.bits) (h : rows * cols = 2 ^ w.bits) (ht : tube.length = 1)
    (hrow : row.length = rows) (hcol : col.length = cols) :
    fft3dW w cfg p [] 1 rows cols tube row col = .ok (p, [], tube, row, col, .error .InvalidStride) ∧
    fft3d cfg p [] 1 rows cols tube row col = .ok (p, [], tube, row, col, .error .MismatchedLengths) := by
  have hpos : 0 < 2 ^ w.bits := by positivity
  have hr0 : rows ≠ 0 := by rintro rfl; omega
  have hc0 : cols ≠ 0 := by rintro rfl; omega
  have hm : w.mul rows cols = .ok 0 := by
    unfold Word.mul Word.val
    rw [h, if_neg (by omega), hw, if_neg (by simp), Nat.mod_self]
  have h0 : w.mul 0 cols = .ok 0 := by rw [w.mul_ok (by omega), Nat.zero_mul]
  have h00 : w.add 0 0 = .ok 0 := w.add_ok (by omega)
  constructor
  · obtain ⟨R, rfl⟩ : ∃ R, rows = R + 1 := ⟨rows - 1, by omega⟩
    obtain ⟨C, rfl⟩ : ∃ C, cols = C + 1 := ⟨cols - 1, by omega⟩
    unfold fft3dW
    rw [w.mul_ok (by omega : 1 * (R + 1) < 2 ^ w.bits), Outcome.bind_ok, Nat.one_mul, hm, Outcome.bind_ok]
    have hst : tube3dW w cfg (R + 1) (C + 1) 0 0 (⟨p, [], tube⟩ : NdSt T) =
        .ok (⟨p, [], tube⟩, .error .InvalidStride) := by
      unfold tube3dW
      rw [h0, Outcome.bind_ok, h00, Outcome.bind_ok, hm, Outcome.bind_ok]
      rfl
    have hne : ¬ (1 = 0 ∨ R + 1 = 0 ∨ C + 1 = 0) := by omega
    have hsc : ¬ (tube.length ≠ 1 ∨ row.length ≠ R + 1 ∨ col.length ≠ C + 1) := by omega
    simp only [List.length_nil, ne_eq, not_true, if_false, hne]
    rw [if_neg hsc, loopRes_succ, loopRes_succ, hst]
    rfl
  · unfold fft3d
    rw [if_pos (by rw [Nat.one_mul, h]; simp)]

/-! ### The hypotheses are met -/

example : 2 ^ 32 < 2 ^ (Word.mk 64 false).bits ∧ 2 ^ 32 * 2 ^ 32 = 2 ^ (Word.mk 64 false).bits := by norm_num


example : ∃ (sc : List (Cx ℝ)), (sc.length - 1) * 1000 + 1 < 2 ^ 64 :=
  ⟨[⟨1, 0⟩, ⟨2, 0⟩], by norm_num⟩

example : Reach (T := T) ⟨true, .f32, false, 4, false⟩ Planner.new ∧ 1000 * 3000 < 2 ^ 64 := ⟨.new, by norm_num⟩

example : StftStream.new [(1 : ℝ), 2] [1] (2 ^ 63) = .ok ⟨[1, 2], [1], 2 ^ 63, 0⟩ := by
  unfold StftStream.new
  rw [if_neg (by norm_num)]

end Kofft.Props
