import Verif.Proof.NdFft
import Verif.Spec.Nd
import Verif.Props.Core
/-
Properties C29-C31: multi-dimensional transforms.
-/
namespace Kofft.Props
open Spec Finset

/-! ### Helpers -/

theorem fresh_line [F : Flt ℝ] (hF : Lawful F) (cfg : Cfg) (x : List (Cx ℝ)) (b s n i : ℕ) (hi : i < n) :
    toC ((freshOut cfg (lineOf x b s n)).getD i Cx.zero) =
      ∑ t ∈ range n, sig x (b + t * s) * W n (i * t) := by
  have hl : (lineOf x b s n).length = n := by simp [lineOf]
  have h := (freshOut_isDft hF cfg (lineOf x b s n) (by omega)).2 i (by omega)
  rw [sig_eq hF, hl] at h
  rw [h, dft]
  apply sum_congr rfl
  intro t ht
  rw [sig_eq hF, sig_eq hF, lineOf, tab_getD (by simpa using ht)]

theorem safeAt_of {cfg : Cfg} {B n : ℕ} (h : Unaffected cfg B n) : SafeAt cfg B n := by
  rcases h with h | ⟨h, h'⟩
  · exact Or.inl h
  · exact Or.inr ⟨isPow2_iff.mpr h, h'⟩

theorem fftRes_ok {cfg : Cfg} {n : ℕ} (h0 : 0 < n) (h : cfg.std = true ∨ ∃ k, n = 2 ^ k) :
    fftRes cfg n = .ok () := by
  rcases h with h | h
  · exact fftRes_std h h0
  · exact fftRes_pow2 cfg (isPow2_iff.mpr h)

/-- The error codes of a transform of positive length. -/
theorem fftRes_pos {cfg : Cfg} {n : ℕ} (h0 : 0 < n) :
    fftRes cfg n = if cfg.std = true ∨ isPow2 n = true then .ok () else .error .NonPowerOfTwoNoStd := by
  unfold fftRes
  rw [if_neg (by omega)]
  by_cases h1 : cfg.std = true <;> by_cases h2 : isPow2 n = true <;> simp [h1, h2]

/-! ### C29: `fft2d_inplace` -/

theorem fft2d_unfold {T : Type} [Flt T] (cfg : Cfg) (p : Planner T) (data : List (Cx T))
    {rows cols : ℕ} {sc : List (Cx T)} (hl : data.length = rows * cols) (hr : 0 < rows) (hc : 0 < cols)
    (hs : sc.length = rows) :
    fft2d cfg p data rows cols sc = loopRes rows 0 (⟨p, data, sc⟩ : NdSt T)
    (fun r s => sliceFft cfg (r * cols) cols s) >>= fun v => match v with
      | (s, .error e) => .ok (s.p, s.data, s.sc, .error e)
      | (s, .ok _) => loopRes cols 0 s (fun c s => stridedAt cfg c cols s) >>= fun v =>
          .ok (v.1.p, v.1.data, v.1.sc, v.2) := by
  unfold fft2d
  rw [if_neg (by omega), if_neg (by omega), if_neg (by omega)]
  congr 1
  funext v
  obtain ⟨s, r⟩ := v
  cases r <;> rfl

theorem fft2d_run {T : Type} [Flt T] (cfg : Cfg) (p : Planner T) (hI : Inv cfg p) (data : List (Cx T))
    (rows cols : ℕ) (sc : List (Cx T)) (hl : data.length = rows * cols) (hr : 0 < rows) (hc : 0 < cols)
    (hs : sc.length = rows) :
    ∃ s1 s2 : NdSt T, fft2d cfg p data rows cols sc = .ok (s2.p, s2.data, s2.sc,
        if fftRes cfg cols = .ok () then fftRes cfg rows else fftRes cfg cols) ∧
      Inv cfg s2.p ∧ s2.data.length = data.length ∧ s2.sc.length = rows ∧ s1.data.length = data.length ∧
      (fftRes cfg cols ≠ .ok () → s2.data = data) ∧
      (∀ B, need cols ≤ B → Bnd B p → SafeAt cfg B cols → fftRes cfg cols = .ok () →
        (∀ q i, q < rows → i < cols → s1.data.getD (q * cols + i) Cx.zero =
          (freshOut cfg (lineOf data (q * cols) 1 cols)).getD i Cx.zero) ∧
        (∀ B', B ≤ B' → need rows ≤ B' → SafeAt cfg B' rows → fftRes cfg rows = .ok () →
          ∀ c i, c < cols → i < rows → s2.data.getD (c + i * cols) Cx.zero =
            (freshOut cfg (lineOf s1.data c cols rows)).getD i Cx.zero)) := by
  obtain ⟨s1, e1, a1, a2, a3, a4, a5, a6, -⟩ := slice_pass cfg (Q := rows) (C := cols) le_rfl hr
    (⟨p, data, sc⟩ : NdSt T) hI hl hs
  rw [fft2d_unfold cfg p data hl hr hc hs, e1]
  rcases fftRes_cases cfg cols with hrc | ⟨er, hrc⟩
  · obtain ⟨s2, e2, b1, b2, b3, b4, b5, b6, -⟩ := strided_pass cfg (R := rows) (C := cols) rfl hr hc s1 a1 a2 a3
    refine ⟨s1, s2, ?_, b1, by omega, b3, by omega, fun h => absurd hrc h, ?_⟩
    · simp only [hrc, Outcome.bind_ok, e2, if_true]
    · intro B hB hb hsafe _
      exact ⟨a6 B hB hb hsafe hrc, fun B' hBB hB' hs' hr' =>
        b6 B' hB' (by have := a4 B hB hb; exact ⟨this.1.trans hBB, this.2.trans hBB⟩) hs' hr'⟩
  · refine ⟨s1, s1, ?_, a1, by omega, a3, by omega, fun _ => a5 er hrc, fun B _ _ _ h => by rw [hrc] at h; simp at h⟩
    simp [hrc, Outcome.bind_ok]

/-- C29a. For every arithmetic, every reachable transformer and all arguments, `fft2d_inplace` returns
(no panic, no out-of-bounds slice); the data keeps its length; the result is exactly the documented
one; on a shape error, and for an empty array, nothing is touched. -/
theorem fft2d_total {T : Type} [Flt T] (cfg : Cfg) (p : Planner T) (hp : Reach cfg p)
    (data : List (Cx T)) (rows cols : ℕ) (sc : List (Cx T)) :
    ∃ p' y sc' r, fft2d cfg p data rows cols sc = .ok (p', y, sc', r) ∧ y.length = data.length ∧
      sc'.length = sc.length ∧
      (r = .error .MismatchedLengths ↔
        rows * cols ≠ data.length ∨ (rows ≠ 0 ∧ cols ≠ 0 ∧ sc.length ≠ rows)) ∧
      (r = .error .NonPowerOfTwoNoStd ↔ rows * cols = data.length ∧ rows ≠ 0 ∧ cols ≠ 0 ∧
        sc.length = rows ∧ cfg.std = false ∧ ¬ ((∃ k, rows = 2 ^ k) ∧ ∃ k, cols = 2 ^ k)) ∧
      (r = .ok () ∨ r = .error .MismatchedLengths ∨ r = .error .NonPowerOfTwoNoStd) ∧
      ((r = .error .MismatchedLengths ∨ rows = 0 ∨ cols = 0) → p' = p ∧ y = data ∧ sc' = sc) := by
  by_cases h1 : rows * cols = data.length
  · by_cases h2 : rows = 0 ∨ cols = 0
    · refine ⟨p, data, sc, .ok (), by unfold fft2d; rw [if_neg (by omega), if_pos h2], rfl, rfl, ?_, ?_, ?_, ?_⟩
      · simp only [reduceCtorEq, false_iff]; tauto
      · simp only [reduceCtorEq, false_iff]; tauto
      · simp
      · intro _; exact ⟨rfl, rfl, rfl⟩
    · by_cases h3 : sc.length = rows
      · obtain ⟨s1, s2, e, -, b2, b3, -⟩ := fft2d_run cfg p (reach_inv hp) data rows cols sc h1.symm
          (by omega) (by omega) h3
        refine ⟨_, _, _, _, e, b2, by omega, ?_⟩
        simp only [← isPow2_iff]
        rw [fftRes_pos (cfg := cfg) (n := cols) (by omega), fftRes_pos (cfg := cfg) (n := rows) (by omega)]
        have hr0 : rows ≠ 0 := by tauto
        have hc0 : cols ≠ 0 := by tauto
        by_cases hst : cfg.std = true
        · simp [hst, h1, h3, hr0, hc0]
        · by_cases hpr : isPow2 rows = true
          · by_cases hpc : isPow2 cols = true
            · simp [hst, hpr, hpc, h1, h3, hr0, hc0]
            · simp [hst, hpc, h1, h3, hr0, hc0]
          · by_cases hpc : isPow2 cols = true
            · simp [hst, hpr, hpc, h1, h3, hr0, hc0]
            · simp [hst, hpc, h1, h3, hr0, hc0]
      · refine ⟨p, data, sc, .error .MismatchedLengths, by
          unfold fft2d; rw [if_neg (by omega), if_neg h2, if_pos h3], rfl, rfl, ?_, ?_, ?_, ?_⟩
        · simp only [true_iff]; tauto
        · simp [h3]
        · simp
        · intro _; exact ⟨rfl, rfl, rfl⟩
  · refine ⟨p, data, sc, .error .MismatchedLengths, by unfold fft2d; rw [if_pos h1], rfl, rfl, ?_, ?_, ?_, ?_⟩
    · simp [h1]
    · simp [h1]
    · simp
    · intro _; exact ⟨rfl, rfl, rfl⟩

/-- C29b, partial. `fft2d_inplace` computes the two-dimensional DFT when the column transforms cannot
see leftovers of the (earlier) row transforms; in particular for square arrays.
Missing from the full claim: fewer rows than columns on f32/f64, where it is false
(`fft2d_not_dft`). -/
theorem fft2d_is_dft_partial [F : Flt ℝ] (hF : Lawful F) (cfg : Cfg) (p : Planner ℝ) (data : List (Cx ℝ))
    (rows cols : ℕ) (sc : List (Cx ℝ)) (hl : data.length = rows * cols) (hr : 0 < rows) (hc : 0 < cols)
    (hs : sc.length = rows)
    (hp : ReachVia cfg (fun m => workSize m ≤ workSize cols) p)
    (hn : cfg.std = true ∨ ((∃ k, rows = 2 ^ k) ∧ ∃ k, cols = 2 ^ k))
    (hsz : Unaffected cfg (workSize cols) rows) :
    ∃ p' y sc', fft2d cfg p data rows cols sc = .ok (p', y, sc', .ok ()) ∧ IsDft2 rows cols data y := by
  have hrr : fftRes cfg rows = .ok () := fftRes_ok hr (by tauto)
  have hrc : fftRes cfg cols = .ok () := fftRes_ok hc (by tauto)
  obtain ⟨s1, s2, e, b1, b2, b3, b4, -, b6⟩ := fft2d_run cfg p (reachVia_inv hp) data rows cols sc hl hr hc hs
  rw [if_pos hrc, hrr] at e
  refine ⟨_, _, _, e, b2, ?_⟩
  intro r c hr' hc'
  have hb := reachVia_invB (B := need cols) (fun m hm => hm) hp
  obtain ⟨c1, c2⟩ := b6 (need cols) le_rfl hb.2 (Or.inl le_rfl) hrc
  have hsafe : SafeAt cfg (max (need cols) (need rows)) rows := by
    rcases safeAt_of hsz with h | h
    · exact Or.inl (max_le h le_rfl)
    · exact Or.inr h
  have c3 := c2 (max (need cols) (need rows)) (le_max_left _ _) (le_max_right _ _) hsafe hrr c r hc' hr'
  rw [Nat.add_comm, sig_eq hF, c3, fresh_line hF cfg _ _ _ _ _ hr', dft2]
  apply sum_congr rfl
  intro r' hr''
  have hr'' : r' < rows := by simpa using hr''
  rw [Nat.add_comm c, sig_eq hF, c1 r' c hr'' hc', fresh_line hF cfg _ _ _ _ _ hc', sum_mul]
  apply sum_congr rfl
  intro c' _
  rw [Nat.mul_one]; ring

/-- Non-trivial arrays meet the hypotheses: 64 rows of 32 columns on f32 (and any square). -/
example [Flt ℝ] : let cfg : Cfg := ⟨true, .f32, false, 4, false⟩
    (List.replicate (64 * 32) (⟨1, 2⟩ : Cx ℝ)).length = 64 * 32 ∧
    ReachVia cfg (fun m => workSize m ≤ workSize 32) (Planner.new : Planner ℝ) ∧
    Unaffected cfg (workSize 32) 64 ∧ (∀ n, Unaffected cfg (workSize n) n) := by
  refine ⟨List.length_replicate .., .new, Or.inl ?_, fun n => Or.inl le_rfl⟩
  have h1 : isPow2 32 = true := by decide
  have h2 : isPow2 64 = true := by decide
  simp [workSize, h1, h2]

/-- After transforming a 64-point row on f32/f64 with short leftovers, the leftovers are that row. -/
theorem sliceFft_leftover {T : Type} [Flt T] (cfg : Cfg) (hk : cfg.kind = .f32 ∨ cfg.kind = .f64)
    (st : NdSt T) (hI : Inv cfg st.p) (b : ℕ) (hb : b + 64 ≤ st.data.length) (hB : Bnd 64 st.p) :
    ∃ st', sliceFft cfg b 64 st = .ok (st', .ok ()) ∧ leftover st'.p = lineOf st'.data b 1 64 := by
  have hx : ((st.data.drop b).take 64).length = 2 ^ 6 := by simp; omega
  obtain ⟨p', q, Y, e1, e2, e3⟩ := fft_used_exact_inv cfg hk st.p hI _ 6 hx (by norm_num)
  have hnil : (leftover st.p).drop ((st.data.drop b).take 64).length = [] := by
    apply List.drop_eq_nil_of_le
    have := hB.1
    simp [leftover]; omega
  rw [hnil, List.append_nil] at e1
  obtain ⟨p'', y, r, e4, -, e5, -⟩ := fft_total cfg Planner.new .new ((st.data.drop b).take 64)
  rw [e1] at e4
  simp only [Outcome.ok.injEq, Prod.mk.injEq] at e4
  obtain ⟨-, rfl, -⟩ := e4
  have hYl : Y.length = 64 := by rw [e5, hx]; norm_num
  rw [List.take_of_length_le (l := Y) (by rw [hx]; omega)] at e2
  have e6 : sliceFft cfg b 64 st = .ok (⟨p', st.data.take b ++ Y ++ st.data.drop (b + 64), st.sc⟩, .ok ()) := by
    unfold sliceFft
    rw [if_pos hb, e2]; rfl
  refine ⟨_, e6, ?_⟩
  rw [e3]
  unfold lineOf
  apply list_eq_tab' hYl
  intro i hi
  have h1 : (st.data.take b).length = b := by simp; omega
  rw [Nat.mul_one, List.append_assoc, List.getD_append_right _ _ _ _ (by rw [h1]; omega), h1,
    List.getD_append _ _ _ _ (by omega), show b + i - b = i by omega]
  simp [List.getD_eq_getElem?_getD, hi]

/-- C29, negation: on f32/f64 a fresh transformer's `fft2d_inplace` of a 32 × 64 array that is zero
except for a 1 at the start of the last row returns `Ok` with 33 in bin (0,0); the DFT there is 1. -/
theorem fft2d_not_dft [F : Flt ℝ] (hF : Lawful F) (cfg : Cfg) (hk : cfg.kind = .f32 ∨ cfg.kind = .f64)
    (sc : List (Cx ℝ)) (hs : sc.length = 32) :
    ∃ (data : List (Cx ℝ)) (p' : Planner ℝ) (y sc' : List (Cx ℝ)), data.length = 32 * 64 ∧
      fft2d cfg Planner.new data 32 64 sc = .ok (p', y, sc', .ok ()) ∧ sig y 0 = 33 ∧
      dft2 32 64 (sig data) 0 0 = 1 := by
  have p32 : isPow2 32 = true := by decide
  have p64 : isPow2 64 = true := by decide
  have r32 := fftRes_pow2 cfg p32
  have r64 := fftRes_pow2 cfg p64
  have n64 : need 64 = 64 := by simp [need, p64]
  obtain ⟨data, hdl, hsig⟩ : ∃ data : List (Cx ℝ), data.length = 32 * 64 ∧
      ∀ k, sig data k = if k = 31 * 64 then 1 else 0 := by
    refine ⟨tab (32 * 64) fun k => if k = 31 * 64 then ⟨1, 0⟩ else ⟨0, 0⟩, tab_length _ _, ?_⟩
    intro k
    unfold sig
    simp only [tab_getElem?]
    by_cases h : k < 32 * 64
    · by_cases h' : k = 31 * 64
      · simp [h']; rfl
      · simp [h, h']; rfl
    · simp [h]; omega
  let st0 : NdSt ℝ := ⟨Planner.new, data, sc⟩
  have hI0 : Inv cfg st0.p := inv_new cfg
  have hb0 : Bnd 64 st0.p := ⟨Nat.zero_le _, Nat.zero_le _⟩
  -- rows
  obtain ⟨s1, e1, a1, a2, a3, a4, -, a6, -⟩ := slice_pass cfg (Q := 32) (C := 64) (N := 32 * 64) (le_refl _)
    (by norm_num) st0 hI0 hdl hs
  rw [r64] at e1
  have hrow := a6 64 (by rw [n64]) hb0 (Or.inl (by rw [n64])) r64
  have hval : ∀ q i, q < 32 → i < 64 → sig s1.data (q * 64 + i) = if q = 31 then 1 else 0 := by
    intro q i hq hi
    rw [sig_eq hF, hrow q i hq hi, fresh_line hF cfg _ _ _ _ _ hi, sum_eq_single 0]
    · rw [show st0.data = data from rfl, hsig, Nat.mul_zero, W_zero, mul_one]
      by_cases h : q = 31
      · simp [h]
      · rw [if_neg h, if_neg (by omega)]
    · intro t ht h0
      have ht : t < 64 := by simpa using ht
      rw [show st0.data = data from rfl, hsig, if_neg (by omega), zero_mul]
    · simp
  -- leftovers after the rows
  obtain ⟨s31, f1, g1, g2, g3, g4, -, -⟩ := slice_pass cfg (Q := 31) (C := 64) (N := 32 * 64) (by norm_num)
    (by norm_num) st0 hI0 hdl hs
  rw [r64] at f1
  obtain ⟨s1', f2, hleft⟩ := sliceFft_leftover cfg hk s31 g1 (31 * 64) (by omega) (g4 64 (by rw [n64]) hb0)
  have : s1' = s1 := by
    have h := loopRes_add (f := fun q s => sliceFft cfg (q * 64) 64 s) 31 1 0 st0
    rw [e1, f1] at h
    simp only [Outcome.bind_ok, Nat.zero_add, loopRes_succ, f2] at h
    have h' : Outcome.ok (s1, Except.ok ()) = Outcome.ok (s1', (Except.ok () : Res)) := h
    simp only [Outcome.ok.injEq, Prod.mk.injEq] at h'
    exact h'.1.symm
  subst this
  -- columns
  obtain ⟨s2, e2, b1, b2, b3, -, -, -, b7⟩ := strided_pass cfg (R := 32) (C := 64) rfl (by norm_num)
    (by norm_num) s1' a1 a2 a3
  rw [r32] at e2
  have hxl : (lineOf s1'.data 0 64 32).length = 2 ^ 5 := by simp [lineOf]
  obtain ⟨p5, q5, Y, eY, ep, -⟩ := fft_used_exact_inv cfg hk s1'.p a1 (lineOf s1'.data 0 64 32) 5 hxl (by norm_num)
  obtain ⟨p6, ep', -⟩ := (fft_opOk cfg).run s1'.p (lineOf s1'.data 0 64 32) a1
  rw [ep] at ep'
  simp only [Outcome.ok.injEq, Prod.mk.injEq] at ep'
  have hbuf := ep'.2.1
  have hz : (lineOf s1'.data 0 64 32 ++ (leftover s1'.p).drop (lineOf s1'.data 0 64 32).length).length = 2 ^ 6 := by
    rw [hleft]; simp [lineOf]
  obtain ⟨q6, Y', eY', hY⟩ := fft_pow2_is_dft hF cfg 6 _ hz
  rw [eY] at eY'
  simp only [Outcome.ok.injEq, Prod.mk.injEq, and_true] at eY'
  obtain ⟨-, rfl⟩ := eY'
  have hsz : ∀ t, t < 64 →
      sig (lineOf s1'.data 0 64 32 ++ (leftover s1'.p).drop (lineOf s1'.data 0 64 32).length) t =
        if 31 ≤ t then 1 else 0 := by
    intro t ht
    rw [hleft, hxl, sig_eq hF]
    by_cases h32 : t < 32
    · rw [List.getD_append _ _ _ _ (by rw [hxl]; omega), lineOf, tab_getD h32, ← sig_eq hF, Nat.zero_add]
      have := hval t 0 h32 (by norm_num)
      rw [Nat.add_zero] at this
      rw [this]
      by_cases h : t = 31
      · simp [h]
      · rw [if_neg h, if_neg (by omega)]
    · rw [List.getD_append_right _ _ _ _ (by rw [hxl]; omega), hxl]
      unfold lineOf
      rw [tab_drop, tab_getD (by omega), ← sig_eq hF, Nat.mul_one, hval 31 _ (by norm_num) (by omega),
        if_pos rfl, if_pos (by omega)]
  refine ⟨data, s2.p, s2.data, s2.sc, hdl, ?_, ?_, ?_⟩
  · rw [fft2d_unfold cfg _ data hdl (by norm_num) (by norm_num) hs, e1]
    simp only [Outcome.bind_ok, e2]
  · have h0 := b7 r32 0 (by norm_num)
    rw [sig_eq hF]
    rw [show 0 + 0 * 64 = 0 by rfl] at h0
    rw [h0, ← hbuf, ← sig_eq hF]
    have e1 : sig (Y.take (lineOf s1'.data 0 64 32).length) 0 = sig Y 0 := by
      unfold sig
      rw [List.getElem?_take, if_pos (by rw [hxl]; norm_num)]
    rw [e1, hY.2 0 (by rw [hz]; norm_num), hz, dft,
      sum_congr rfl (fun t ht => by rw [hsz t (by simpa using ht), Nat.zero_mul, W_zero, mul_one]),
      sum_ite, sum_const_zero, add_zero, sum_const]
    have : ({t ∈ range (2 ^ 6) | 31 ≤ t} : Finset ℕ).card = 33 := by decide
    rw [this]; simp
  · unfold dft2
    rw [sum_eq_single 31, sum_eq_single 0]
    · rw [hsig]; simp [W_zero]
    · intro c hc h0
      have : c < 64 := by simpa using hc
      rw [hsig, if_neg (by omega)]; simp
    · simp
    · intro r hr h0
      have : r < 32 := by simpa using hr
      apply sum_eq_zero
      intro c hc
      have : c < 64 := by simpa using hc
      rw [hsig, if_neg (by omega)]; simp
    · simp

/-- The scratch hypothesis of the counterexample is met. -/
example : (List.replicate 32 (⟨0, 0⟩ : Cx ℝ)).length = 32 := List.length_replicate ..

/-! ### C30: `fft3d_inplace` -/

theorem fft3d_unfold {T : Type} [Flt T] (cfg : Cfg) (p : Planner T) (data : List (Cx T))
    {D R C : ℕ} {tube row col : List (Cx T)} (hl : data.length = D * R * C) (hD : 0 < D) (hR : 0 < R)
    (hC : 0 < C) (ht : tube.length = D) (hr : row.length = R) (hc : col.length = C) :
    fft3d cfg p data D R C tube row col =
      loopRes (R * C) 0 (⟨p, data, tube⟩ : NdSt T) (fun q s => stridedAt cfg q (R * C) s) >>= fun v =>
        match v with
        | (s, .error e) => .ok (s.p, s.data, s.sc, row, col, .error e)
        | (s1, .ok _) => loopRes D 0 (⟨s1.p, s1.data, row⟩ : NdSt T) (fun d s =>
            loopRes C 0 s fun c s => stridedAt cfg (d * R * C + c) C s) >>= fun v =>
          match v with
          | (s, .error e) => .ok (s.p, s.data, s1.sc, s.sc, col, .error e)
          | (s2, .ok _) => loopRes (D * R) 0 s2 (fun q s => sliceFft cfg (q * C) C s) >>= fun v =>
              .ok (v.1.p, v.1.data, s1.sc, v.1.sc, col, v.2) := by
  unfold fft3d
  rw [if_neg (by omega), if_neg (by omega), if_neg (by omega),
    loopRes_nested (f := fun q s => stridedAt cfg q (R * C) s) R C]
  congr 1
  funext v
  obtain ⟨s1, r⟩ := v
  cases r with
  | error e => rfl
  | ok u =>
    simp only
    congr 1
    funext v
    obtain ⟨s2, r⟩ := v
    cases r with
    | error e => rfl
    | ok u =>
      simp only
      rw [← loopRes_nested (f := fun q s => sliceFft cfg (q * C) C s) D R]
      congr 1
      apply loopRes_congr
      intro d s _ _
      apply loopRes_congr
      intro r s _ _
      rw [show (d * R + r) * C = d * R * C + r * C by ring]

/-- The result code of three passes. -/
def fst3 (a b c : Res) : Res := if a = .ok () then (if b = .ok () then c else b) else a

theorem fft3d_run {T : Type} [Flt T] (cfg : Cfg) (p : Planner T) (hI : Inv cfg p) (data : List (Cx T))
    (D R C : ℕ) (tube row col : List (Cx T)) (hl : data.length = D * R * C) (hD : 0 < D) (hR : 0 < R)
    (hC : 0 < C) (ht : tube.length = D) (hr : row.length = R) (hc : col.length = C) :
    ∃ s1 s2 s3 : NdSt T, ∃ t' r', fft3d cfg p data D R C tube row col = .ok (s3.p, s3.data, t', r', col,
        fst3 (fftRes cfg D) (fftRes cfg R) (fftRes cfg C)) ∧
      Inv cfg s3.p ∧ s3.data.length = data.length ∧ t'.length = D ∧ r'.length = R ∧
      (fftRes cfg D ≠ .ok () → s3.data = data) ∧
      (∀ B1 B2 B3, Bnd B1 p → need D ≤ B1 → SafeAt cfg B1 D → fftRes cfg D = .ok () →
        B1 ≤ B2 → need R ≤ B2 → SafeAt cfg B2 R → fftRes cfg R = .ok () →
        B2 ≤ B3 → need C ≤ B3 → SafeAt cfg B3 C → fftRes cfg C = .ok () →
        (∀ q i, q < R * C → i < D → s1.data.getD (q + i * (R * C)) Cx.zero =
          (freshOut cfg (lineOf data q (R * C) D)).getD i Cx.zero) ∧
        (∀ d c i, d < D → c < C → i < R → s2.data.getD (d * R * C + c + i * C) Cx.zero =
          (freshOut cfg (lineOf s1.data (d * R * C + c) C R)).getD i Cx.zero) ∧
        (∀ q i, q < D * R → i < C → s3.data.getD (q * C + i) Cx.zero =
          (freshOut cfg (lineOf s2.data (q * C) 1 C)).getD i Cx.zero)) := by
  have hRC : 0 < R * C := Nat.mul_pos hR hC
  obtain ⟨s1, e1, a1, a2, a3, a4, a5, a6, -⟩ := strided_pass cfg (R := D) (C := R * C) (N := D * R * C)
    (Nat.mul_assoc _ _ _) hD hRC (⟨p, data, tube⟩ : NdSt T) hI hl ht
  rw [fft3d_unfold cfg p data hl hD hR hC ht hr hc, e1]
  rcases fftRes_cases cfg D with h1 | ⟨er, h1⟩
  · obtain ⟨s2, e2, b1, b2, b3, b4, b5, b6⟩ := plane_pass cfg (D := D) (R := R) (C := C) rfl hD hR hC
      (⟨s1.p, s1.data, row⟩ : NdSt T) a1 a2 hr
    rcases fftRes_cases cfg R with h2 | ⟨er, h2⟩
    · obtain ⟨s3, e3, c1, c2, c3, c4, c5, c6, -⟩ := slice_pass cfg (Q := D * R) (C := C) le_rfl
        (Nat.mul_pos hD hR) s2 b1 b2 b3
      refine ⟨s1, s2, s3, s1.sc, s3.sc, ?_, c1, by omega, a3, c3, fun h => absurd h1 h, ?_⟩
      · simp only [h1, h2, Outcome.bind_ok, e2, e3, fst3, if_true]
      · intro B1 B2 B3 q1 q2 q3 q4 u1 u2 u3 u4 v1 v2 v3 v4
        have k1 : Bnd B2 s1.p := by have := a4 B1 q2 q1; exact ⟨this.1.trans u1, this.2.trans u1⟩
        have k2 : Bnd B3 s2.p := by have := b4 B2 u2 k1; exact ⟨this.1.trans v1, this.2.trans v1⟩
        exact ⟨a6 B1 q2 q1 q3 q4, b6 B2 u2 k1 u3 u4, c6 B3 v2 k2 v3 v4⟩
    · refine ⟨s1, s2, s2, s1.sc, s2.sc, ?_, b1, by omega, a3, b3, fun h => absurd h1 h, ?_⟩
      · simp [h1, h2, Outcome.bind_ok, e2, fst3]
      · intro B1 B2 B3 q1 q2 q3 q4 u1 u2 u3 u4
        rw [h2] at u4; simp at u4
  · refine ⟨s1, s1, s1, s1.sc, row, ?_, a1, by omega, a3, hr, fun _ => a5 er h1, ?_⟩
    · simp [h1, Outcome.bind_ok, fst3]
    · intro B1 B2 B3 q1 q2 q3 q4
      rw [h1] at q4; simp at q4

/-- C30a. For every arithmetic, every reachable transformer and all arguments, `fft3d_inplace` returns;
lengths are kept; the result is exactly the documented one; on a shape error nothing is touched. -/
theorem fft3d_total {T : Type} [Flt T] (cfg : Cfg) (p : Planner T) (hp : Reach cfg p)
    (data : List (Cx T)) (D R C : ℕ) (tube row col : List (Cx T)) :
    ∃ p' y t' r' r, fft3d cfg p data D R C tube row col = .ok (p', y, t', r', col, r) ∧
      y.length = data.length ∧ t'.length = tube.length ∧ r'.length = row.length ∧
      (r = .error .MismatchedLengths ↔ D * R * C ≠ data.length ∨
        (D ≠ 0 ∧ R ≠ 0 ∧ C ≠ 0 ∧ ¬ (tube.length = D ∧ row.length = R ∧ col.length = C))) ∧
      (r = .error .NonPowerOfTwoNoStd ↔ D * R * C = data.length ∧ D ≠ 0 ∧ R ≠ 0 ∧ C ≠ 0 ∧
        (tube.length = D ∧ row.length = R ∧ col.length = C) ∧ cfg.std = false ∧
        ¬ ((∃ k, D = 2 ^ k) ∧ (∃ k, R = 2 ^ k) ∧ ∃ k, C = 2 ^ k)) ∧
      (r = .ok () ∨ r = .error .MismatchedLengths ∨ r = .error .NonPowerOfTwoNoStd) ∧
      ((r = .error .MismatchedLengths ∨ D = 0 ∨ R = 0 ∨ C = 0) →
        p' = p ∧ y = data ∧ t' = tube ∧ r' = row) := by
  by_cases h1 : D * R * C = data.length
  · by_cases h2 : D = 0 ∨ R = 0 ∨ C = 0
    · refine ⟨p, data, tube, row, .ok (), by unfold fft3d; rw [if_neg (by omega), if_pos h2], rfl, rfl, rfl,
        ?_, ?_, ?_, ?_⟩
      · simp only [reduceCtorEq, false_iff]; tauto
      · simp only [reduceCtorEq, false_iff]; tauto
      · simp
      · intro _; exact ⟨rfl, rfl, rfl, rfl⟩
    · by_cases h3 : tube.length = D ∧ row.length = R ∧ col.length = C
      · obtain ⟨s1, s2, s3, t', r', e, -, b2, b3, b4, -⟩ := fft3d_run cfg p (reach_inv hp) data D R C
          tube row col h1.symm (by omega) (by omega) (by omega) h3.1 h3.2.1 h3.2.2
        refine ⟨_, _, _, _, _, e, b2, by omega, by omega, ?_⟩
        simp only [← isPow2_iff]
        rw [fftRes_pos (cfg := cfg) (n := D) (by omega), fftRes_pos (cfg := cfg) (n := R) (by omega),
          fftRes_pos (cfg := cfg) (n := C) (by omega)]
        have hD0 : D ≠ 0 := by tauto
        have hR0 : R ≠ 0 := by tauto
        have hC0 : C ≠ 0 := by tauto
        by_cases hst : cfg.std = true
        · simp [fst3, hst, h1, h3, hD0, hR0, hC0]
        · by_cases hpD : isPow2 D = true <;> by_cases hpR : isPow2 R = true <;>
            by_cases hpC : isPow2 C = true <;>
            simp [fst3, hst, hpD, hpR, hpC, h1, h3, hD0, hR0, hC0]
      · refine ⟨p, data, tube, row, .error .MismatchedLengths, by
          unfold fft3d; rw [if_neg (by omega), if_neg h2, if_pos (by omega)], rfl, rfl, rfl, ?_, ?_, ?_, ?_⟩
        · simp only [true_iff]; tauto
        · exact ⟨fun h => by simp at h, fun h => absurd h.2.2.2.2.1 h3⟩
        · simp
        · intro _; exact ⟨rfl, rfl, rfl, rfl⟩
  · refine ⟨p, data, tube, row, .error .MismatchedLengths, by unfold fft3d; rw [if_pos h1], rfl, rfl, rfl,
      ?_, ?_, ?_, ?_⟩
    · simp [h1]
    · simp [h1]
    · simp
    · intro _; exact ⟨rfl, rfl, rfl, rfl⟩

/-- C30b, partial. `fft3d_inplace` computes the three-dimensional DFT when no pass can see leftovers of an
earlier pass; in particular for cubes and for sizes that do not decrease from depth to rows to columns.
Missing from the full claim: decreasing sizes on f32/f64, where it is false (`fft3d_not_dft`). -/
theorem fft3d_is_dft_partial [F : Flt ℝ] (hF : Lawful F) (cfg : Cfg) (p : Planner ℝ) (data : List (Cx ℝ))
    (D R C : ℕ) (tube row col : List (Cx ℝ)) (hl : data.length = D * R * C) (hD : 0 < D) (hR : 0 < R)
    (hC : 0 < C) (ht : tube.length = D) (hr : row.length = R) (hc : col.length = C)
    (hp : ReachVia cfg (fun m => workSize m ≤ workSize D) p)
    (hn : cfg.std = true ∨ ((∃ k, D = 2 ^ k) ∧ (∃ k, R = 2 ^ k) ∧ ∃ k, C = 2 ^ k))
    (h1 : Unaffected cfg (workSize D) R) (h2 : Unaffected cfg (max (workSize D) (workSize R)) C) :
    ∃ p' y t' r' c', fft3d cfg p data D R C tube row col = .ok (p', y, t', r', c', .ok ()) ∧
      IsDft3 D R C data y := by
  have e1 : fftRes cfg D = .ok () := fftRes_ok hD (by tauto)
  have e2 : fftRes cfg R = .ok () := fftRes_ok hR (by tauto)
  have e3 : fftRes cfg C = .ok () := fftRes_ok hC (by tauto)
  obtain ⟨s1, s2, s3, t', r', e, b1, b2, b3, b4, -, b6⟩ := fft3d_run cfg p (reachVia_inv hp) data D R C
    tube row col hl hD hR hC ht hr hc
  rw [fst3, e1, e2, e3, if_pos rfl, if_pos rfl] at e
  refine ⟨_, _, _, _, _, e, b2, ?_⟩
  intro d r c hd hr' hc'
  have hb := reachVia_invB (B := need D) (fun m hm => hm) hp
  have k1 : SafeAt cfg (max (need D) (need R)) R := by
    rcases safeAt_of h1 with h | h
    · exact Or.inl (max_le h le_rfl)
    · exact Or.inr h
  have k2 : SafeAt cfg (max (max (need D) (need R)) (need C)) C := by
    rcases safeAt_of h2 with h | h
    · exact Or.inl (max_le h le_rfl)
    · exact Or.inr h
  obtain ⟨c1, c2, c3⟩ := b6 (need D) (max (need D) (need R)) (max (max (need D) (need R)) (need C)) hb.2 le_rfl
    (Or.inl le_rfl) e1 (le_max_left _ _) (le_max_right _ _) k1 e2 (le_max_left _ _) (le_max_right _ _) k2 e3
  have hq : ∀ d r, d < D → r < R → d * R + r < D * R := by
    intro d r hd hr; rw [Nat.add_comm]; exact line_lt hr hd
  have f3 : sig s3.data ((d * R + r) * C + c) =
      ∑ c' ∈ range C, sig s2.data ((d * R + r) * C + c') * W C (c * c') := by
    rw [sig_eq hF, c3 _ _ (hq d r hd hr') hc', fresh_line hF cfg _ _ _ _ _ hc']
    apply sum_congr rfl
    intro c' _
    rw [Nat.mul_one]
  have f2 : ∀ c', c' < C → sig s2.data ((d * R + r) * C + c') =
      ∑ r' ∈ range R, sig s1.data ((d * R + r') * C + c') * W R (r * r') := by
    intro c' hc'
    rw [show (d * R + r) * C + c' = d * R * C + c' + r * C by ring, sig_eq hF, c2 d c' r hd hc' hr',
      fresh_line hF cfg _ _ _ _ _ hr']
    apply sum_congr rfl
    intro r' _
    rw [show (d * R + r') * C + c' = d * R * C + c' + r' * C by ring]
  have f1 : ∀ r' c', r' < R → c' < C → sig s1.data ((d * R + r') * C + c') =
      ∑ d' ∈ range D, sig data ((d' * R + r') * C + c') * W D (d * d') := by
    intro r' c' hr' hc'
    rw [show (d * R + r') * C + c' = (c' + r' * C) + d * (R * C) by ring, sig_eq hF,
      c1 _ d (line_lt hc' hr') hd, fresh_line hF cfg _ _ _ _ _ hd]
    apply sum_congr rfl
    intro d' _
    rw [show (d' * R + r') * C + c' = (c' + r' * C) + d' * (R * C) by ring]
  rw [f3, dft3]
  have : ∀ c' ∈ range C, sig s2.data ((d * R + r) * C + c') * W C (c * c') =
      ∑ r' ∈ range R, ∑ d' ∈ range D,
        sig data ((d' * R + r') * C + c') * W D (d * d') * W R (r * r') * W C (c * c') := by
    intro c' hc'
    have hc' : c' < C := by simpa using hc'
    rw [f2 c' hc', sum_mul]
    apply sum_congr rfl
    intro r' hr'
    have hr' : r' < R := by simpa using hr'
    rw [f1 r' c' hr' hc', sum_mul, sum_mul]
  rw [sum_congr rfl this, sum_comm]
  rw [sum_congr rfl (fun r' _ => sum_comm), sum_comm]

/-- Non-trivial arrays meet the hypotheses: 32 × 32 × 64 on f32. -/
example [Flt ℝ] : let cfg : Cfg := ⟨true, .f32, false, 4, false⟩
    ReachVia cfg (fun m => workSize m ≤ workSize 32) (Planner.new : Planner ℝ) ∧
    Unaffected cfg (workSize 32) 32 ∧ Unaffected cfg (max (workSize 32) (workSize 32)) 64 := by
  refine ⟨.new, Or.inl le_rfl, Or.inl ?_⟩
  have h1 : isPow2 32 = true := by decide
  have h2 : isPow2 64 = true := by decide
  simp [workSize, h1, h2]

/-- After transforming a 64-point strided line on f32/f64 with short leftovers, the leftovers are that
line. -/
theorem stridedAt_leftover {T : Type} [Flt T] (cfg : Cfg) (hk : cfg.kind = .f32 ∨ cfg.kind = .f64)
    (st : NdSt T) (hI : Inv cfg st.p) (b s : ℕ) (hs : 0 < s) (hb : b + 63 * s < st.data.length)
    (hB : Bnd 64 st.p) (hsc : st.sc.length = 64) :
    ∃ st', stridedAt cfg b s st = .ok (st', .ok ()) ∧ leftover st'.p = lineOf st'.data b s 64 := by
  have p64 : isPow2 64 = true := by decide
  have r64 := fftRes_pow2 cfg p64
  have hdl : (st.data.drop b).length = st.data.length - b := by simp
  obtain ⟨p', e0, e, -, h2, -⟩ := strided_run (fft_opOk cfg) st.p (st.data.drop b) s st.sc hI hs
    (by omega) (by rw [hdl, hsc]; omega)
  rw [hsc, r64] at e0 e
  have hxl : (stridedSeq (st.data.drop b) s 64).length = 2 ^ 6 := by simp [stridedSeq]
  obtain ⟨p2, q, Y, e1, e2, e3⟩ := fft_used_exact_inv cfg hk st.p hI _ 6 hxl (by norm_num)
  have hnil : (leftover st.p).drop (stridedSeq (st.data.drop b) s 64).length = [] := by
    apply List.drop_eq_nil_of_le
    have := hB.1
    simp only [leftover, List.length_zipWith]; omega
  rw [hnil, List.append_nil] at e1
  obtain ⟨p'', y, r, e4, -, e5, -⟩ := fft_total cfg Planner.new .new (stridedSeq (st.data.drop b) s 64)
  rw [e1] at e4
  simp only [Outcome.ok.injEq, Prod.mk.injEq] at e4
  obtain ⟨-, rfl, -⟩ := e4
  have hYl : Y.length = 64 := by rw [e5, hxl]; norm_num
  rw [List.take_of_length_le (l := Y) (by rw [hxl]; omega), e0] at e2
  simp only [Outcome.ok.injEq, Prod.mk.injEq, and_true] at e2
  obtain ⟨rfl, hY⟩ := e2
  rw [hY] at e
  have e6 : stridedAt cfg b s st = .ok (⟨p', st.data.take b ++ stridedPut (st.data.drop b) s 64 Y, Y⟩, .ok ()) := by
    unfold stridedAt
    rw [if_pos (by omega), e]; rfl
  refine ⟨_, e6, ?_⟩
  rw [e3]
  unfold lineOf
  apply list_eq_tab' hYl
  intro i hi
  have h1 : (st.data.take b).length = b := by simp; omega
  have hlt : i * s < st.data.length - b := by
    have : i * s ≤ 63 * s := Nat.mul_le_mul_right _ (by omega)
    omega
  rw [List.getD_append_right _ _ _ _ (by rw [h1]; omega), h1, show b + i * s - b = i * s by omega,
    stridedPut, tab_getD (by rw [hdl]; omega), Nat.mul_mod_left, Nat.mul_div_cancel _ hs,
    if_pos ⟨rfl, by omega⟩]
  simp [List.getD_eq_getElem?_getD, hi]

/-- C30, negation: on f32/f64 a fresh transformer's `fft3d_inplace` of a 1 × 64 × 32 array that is zero
except for a 1 at row 0, column 31 returns `Ok` with 33 in bin (0,0,0); the DFT there is 1. -/
theorem fft3d_not_dft [F : Flt ℝ] (hF : Lawful F) (cfg : Cfg) (hk : cfg.kind = .f32 ∨ cfg.kind = .f64)
    (tube row col : List (Cx ℝ)) (ht : tube.length = 1) (hr : row.length = 64) (hc : col.length = 32) :
    ∃ (data : List (Cx ℝ)) (p' : Planner ℝ) (y t' r' c' : List (Cx ℝ)), data.length = 1 * 64 * 32 ∧
      fft3d cfg Planner.new data 1 64 32 tube row col = .ok (p', y, t', r', c', .ok ()) ∧ sig y 0 = 33 ∧
      dft3 1 64 32 (sig data) 0 0 0 = 1 := by
  have p1 : isPow2 1 = true := by decide
  have p32 : isPow2 32 = true := by decide
  have p64 : isPow2 64 = true := by decide
  have r1 := fftRes_pow2 cfg p1
  have r32 := fftRes_pow2 cfg p32
  have r64 := fftRes_pow2 cfg p64
  have n64 : need 64 = 64 := by simp [need, p64]
  have n1 : need 1 = 1 := by simp [need, p1]
  obtain ⟨data, hdl, hsig⟩ : ∃ data : List (Cx ℝ), data.length = 1 * 64 * 32 ∧
      ∀ k, sig data k = if k = 31 then 1 else 0 := by
    refine ⟨tab (1 * 64 * 32) fun k => if k = 31 then ⟨1, 0⟩ else ⟨0, 0⟩, tab_length _ _, ?_⟩
    intro k
    unfold sig
    simp only [tab_getElem?]
    by_cases h : k < 1 * 64 * 32
    · by_cases h' : k = 31
      · simp [h']; rfl
      · simp [h, h']; rfl
    · simp [h]; omega
  let st0 : NdSt ℝ := ⟨Planner.new, data, tube⟩
  have hI0 : Inv cfg st0.p := inv_new cfg
  have hb0 : Bnd 64 st0.p := ⟨Nat.zero_le _, Nat.zero_le _⟩
  -- depth pass: one-point transforms
  obtain ⟨s1, e1, a1, a2, a3, a4, -, a6, -⟩ := strided_pass cfg (R := 1) (C := 64 * 32) (N := 1 * 64 * 32)
    (Nat.mul_assoc _ _ _) (by norm_num) (by norm_num) st0 hI0 hdl ht
  rw [r1] at e1
  have hval1 : ∀ q, q < 64 * 32 → sig s1.data q = if q = 31 then 1 else 0 := by
    intro q hq
    have := a6 64 (by rw [n1]; norm_num) hb0 (Or.inr ⟨p1, Or.inl (by norm_num)⟩) r1 q 0 hq (by norm_num)
    rw [Nat.zero_mul, Nat.add_zero] at this
    rw [sig_eq hF, this, fresh_line hF cfg _ _ _ _ _ (by norm_num), sum_range_one, Nat.zero_mul, Nat.add_zero,
      W_zero, mul_one, show st0.data = data from rfl, hsig]
  have hb1 : Bnd 64 s1.p := a4 64 (by rw [n1]; norm_num) hb0
  -- row pass
  let st1 : NdSt ℝ := ⟨s1.p, s1.data, row⟩
  obtain ⟨s2, e2, b1, b2, b3, b4, -, b6⟩ := plane_pass cfg (D := 1) (R := 64) (C := 32) rfl (by norm_num)
    (by norm_num) (by norm_num) st1 a1 a2 hr
  rw [r64] at e2
  have hrow := b6 64 (by rw [n64]) hb1 (Or.inl (by rw [n64])) r64
  have hval : ∀ c i, c < 32 → i < 64 → sig s2.data (0 * 64 * 32 + c + i * 32) = if c = 31 then 1 else 0 := by
    intro c i hc hi
    rw [sig_eq hF, hrow 0 c i (by norm_num) hc hi, fresh_line hF cfg _ _ _ _ _ hi, sum_eq_single 0]
    · rw [show st1.data = s1.data from rfl, hval1 _ (by omega), Nat.mul_zero, W_zero, mul_one]
      by_cases h : c = 31
      · simp [h]
      · rw [if_neg h, if_neg (by omega)]
    · intro t ht h0
      have ht : t < 64 := by simpa using ht
      rw [show st1.data = s1.data from rfl, hval1 _ (by omega), if_neg (by omega), zero_mul]
    · simp
  -- leftovers after the row pass
  obtain ⟨s31, f1, g1, g2, g3, g4, -, -, -⟩ := pass_run (T := ℝ) cfg (N := 1 * 64 * 32) (s := 32) (n := 64) (m := 64)
    (Q := 31) (b := fun c => 0 * 64 * 32 + c) (step := fun c s => stridedAt cfg (0 * 64 * 32 + c) 32 s)
    (fun q hq => stridedAt_line cfg (by norm_num) (by norm_num) (by omega))
    (fun q q' i i' h h' hi hi' he => by omega) st1 a1 a2 hr (by norm_num)
  rw [r64] at f1
  obtain ⟨s2', f2, hleft⟩ := stridedAt_leftover cfg hk s31 g1 (0 * 64 * 32 + 31) 32 (by norm_num) (by omega)
    (g4 64 (by rw [n64]) hb1) g3
  have : s2' = s2 := by
    have h := loopRes_add (f := fun c s => stridedAt cfg (0 * 64 * 32 + c) 32 s) 31 1 0 st1
    rw [f1] at h
    simp only [Outcome.bind_ok, Nat.zero_add 31, loopRes_succ, f2] at h
    have h2 : loopRes (31 + 1) 0 st1 (fun c s => stridedAt cfg (0 * 64 * 32 + c) 32 s) =
      Outcome.ok (s2', (Except.ok () : Res)) := h
    have h3 : loopRes 1 0 st1 (fun d s => loopRes 32 0 s fun c s => stridedAt cfg (d * 64 * 32 + c) 32 s) =
        Outcome.ok (s2', (Except.ok () : Res)) := by
      rw [loopRes_succ, show (32 : ℕ) = 31 + 1 from rfl]
      rw [show (31 + 1 : ℕ) = 32 from rfl] at h2 ⊢
      rw [h2]; rfl
    rw [h3] at e2
    simp only [Outcome.ok.injEq, Prod.mk.injEq, and_true] at e2
    exact e2
  subst this
  -- column pass
  obtain ⟨s3, e3, c1, c2, c3, -, -, -, c7⟩ := slice_pass cfg (Q := 1 * 64) (C := 32) (N := 1 * 64 * 32)
    (le_refl _) (by norm_num) s2' b1 b2 b3
  rw [r32] at e3
  have hxl : (lineOf s2'.data 0 1 32).length = 2 ^ 5 := by simp [lineOf]
  obtain ⟨p5, q5, Y, eY, ep, -⟩ := fft_used_exact_inv cfg hk s2'.p b1 (lineOf s2'.data 0 1 32) 5 hxl (by norm_num)
  obtain ⟨p6, ep', -⟩ := (fft_opOk cfg).run s2'.p (lineOf s2'.data 0 1 32) b1
  rw [ep] at ep'
  simp only [Outcome.ok.injEq, Prod.mk.injEq] at ep'
  have hbuf := ep'.2.1
  have hz : (lineOf s2'.data 0 1 32 ++ (leftover s2'.p).drop (lineOf s2'.data 0 1 32).length).length = 2 ^ 6 := by
    rw [hleft]; simp [lineOf]
  obtain ⟨q6, Y', eY', hY⟩ := fft_pow2_is_dft hF cfg 6 _ hz
  rw [eY] at eY'
  simp only [Outcome.ok.injEq, Prod.mk.injEq, and_true] at eY'
  obtain ⟨-, rfl⟩ := eY'
  have hsz : ∀ t, t < 64 →
      sig (lineOf s2'.data 0 1 32 ++ (leftover s2'.p).drop (lineOf s2'.data 0 1 32).length) t =
        if 31 ≤ t then 1 else 0 := by
    intro t ht
    rw [hleft, hxl, sig_eq hF]
    by_cases h32 : t < 32
    · rw [List.getD_append _ _ _ _ (by rw [hxl]; omega), lineOf, tab_getD h32, ← sig_eq hF, Nat.mul_one]
      have := hval t 0 h32 (by norm_num)
      rw [show 0 * 64 * 32 + t + 0 * 32 = 0 + t by omega] at this
      rw [this]
      by_cases h : t = 31
      · simp [h]
      · rw [if_neg h, if_neg (by omega)]
    · rw [List.getD_append_right _ _ _ _ (by rw [hxl]; omega), hxl]
      unfold lineOf
      rw [tab_drop, tab_getD (by omega), ← sig_eq hF, hval 31 _ (by norm_num) (by omega),
        if_pos rfl, if_pos (by omega)]
  refine ⟨data, s3.p, s3.data, s1.sc, s3.sc, col, hdl, ?_, ?_, ?_⟩
  · rw [fft3d_unfold cfg _ data hdl (by norm_num) (by norm_num) (by norm_num) ht hr hc, e1]
    simp only [Outcome.bind_ok]
    rw [e2]
    simp only [Outcome.bind_ok]
    rw [e3]
    rfl
  · have h0 := c7 r32 0 (by norm_num)
    rw [sig_eq hF, h0, ← hbuf, ← sig_eq hF]
    have e1 : sig (Y.take (lineOf s2'.data 0 1 32).length) 0 = sig Y 0 := by
      unfold sig
      rw [List.getElem?_take, if_pos (by rw [hxl]; norm_num)]
    rw [e1, hY.2 0 (by rw [hz]; norm_num), hz, dft,
      sum_congr rfl (fun t ht => by rw [hsz t (by simpa using ht), Nat.zero_mul, W_zero, mul_one]),
      sum_ite, sum_const_zero, add_zero, sum_const]
    have : ({t ∈ range (2 ^ 6) | 31 ≤ t} : Finset ℕ).card = 33 := by decide
    rw [this]; simp
  · unfold dft3
    rw [sum_range_one, sum_eq_single 0, sum_eq_single 31]
    · rw [hsig]; simp [W_zero]
    · intro c hc h0
      have : c < 32 := by simpa using hc
      rw [hsig, if_neg (by omega)]; simp
    · simp
    · intro r hr h0
      have : r < 64 := by simpa using hr
      apply sum_eq_zero
      intro c hc
      have : c < 32 := by simpa using hc
      rw [hsig, if_neg (by omega)]; simp
    · simp

end Kofft.Props
