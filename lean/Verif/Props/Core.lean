import Verif.Proof.Dft
/-
Properties C01-C08: the scalar FFT.
`[Flt T]` without laws: the statement holds for every floating-point behaviour, bit for bit.
`[F : Flt ℝ] (hF : Lawful F)`: the statement is about exact arithmetic with ideal constants.
-/
namespace Kofft.Props
open Spec

/-! ### C01, C02: `fft` computes the DFT -/

/-- C01. `fft` on a fresh transformer and a buffer of length `2^k` returns `Ok` and leaves the DFT
in the buffer, for every configuration. -/
theorem fft_pow2_is_dft [F : Flt ℝ] (hF : Lawful F) (cfg : Cfg) (k : Nat) (x : List (Cx ℝ))
    (hx : x.length = 2 ^ k) :
    ∃ p y, fft cfg Planner.new x = .ok (p, y, .ok ()) ∧ IsDft x y := by
  have hp : isPow2 x.length = true := by rw [hx]; exact isPow2_pow k
  obtain ⟨p', y, e, -, -, -, h4, -⟩ := fft_run cfg Planner.new x (inv_new cfg)
  have hr := fftRes_pow2 cfg hp
  rw [hr] at e h4
  refine ⟨p', y, e, ?_⟩
  rw [h4 rfl (compat_new cfg _)]
  exact freshOut_isDft hF cfg x (isPow2_pos hp)

/-- C02. With `std`, the same for every positive length. -/
theorem fft_is_dft [F : Flt ℝ] (hF : Lawful F) (cfg : Cfg) (hstd : cfg.std = true)
    (x : List (Cx ℝ)) (hx : 0 < x.length) :
    ∃ p y, fft cfg Planner.new x = .ok (p, y, .ok ()) ∧ IsDft x y := by
  obtain ⟨p', y, e, -, -, -, h4, -⟩ := fft_run cfg Planner.new x (inv_new cfg)
  have hr := fftRes_std (cfg := cfg) hstd hx
  rw [hr] at e h4
  refine ⟨p', y, e, ?_⟩
  rw [h4 rfl (compat_new cfg _)]
  exact freshOut_isDft hF cfg x hx

/-- C02, on a transformer that has been used before with transforms no larger than this one. -/
theorem fft_is_dft_used [F : Flt ℝ] (hF : Lawful F) (cfg : Cfg) (x : List (Cx ℝ))
    (hx : 0 < x.length) (hn : cfg.std = true ∨ ∃ k, x.length = 2 ^ k) (p : Planner ℝ)
    (hp : ReachVia cfg (fun m => workSize m ≤ workSize x.length) p) :
    ∃ p' y, fft cfg p x = .ok (p', y, .ok ()) ∧ IsDft x y := by
  have hr : fftRes cfg x.length = .ok () := by
    rcases hn with h | h
    · exact fftRes_std h hx
    · exact fftRes_pow2 cfg (isPow2_iff.mpr h)
  obtain ⟨p', e, h1, -⟩ := (fft_opOk cfg).run p x (reachVia_inv hp)
  rw [hr, fftBuf_fresh cfg p x (reachVia_inv hp) hr (compat_of_reach hp)] at e
  exact ⟨p', _, e, freshOut_isDft hF cfg x hx⟩

/-- The hypotheses of C01/C02 are met by a concrete 12-point and a concrete 32-point buffer, and a
lawful arithmetic exists. -/
example : Lawful (realFlt true) ∧ (List.replicate 32 (⟨1, 2⟩ : Cx ℝ)).length = 2 ^ 5 ∧
    0 < (List.replicate 12 (⟨1, 2⟩ : Cx ℝ)).length := ⟨realFlt_lawful true, by simp, by simp⟩

/-- DFT and IDFT specifications are not vacuous: an impulse transforms to ones. -/
example : IsDft [⟨1, 0⟩, ⟨0, 0⟩] [⟨1, 0⟩, ⟨1, 0⟩] := by
  refine ⟨rfl, ?_⟩
  intro k hk
  have : k = 0 ∨ k = 1 := by simp at hk; omega
  rcases this with rfl | rfl <;>
    simp [dft, sig, Finset.sum_range_succ, W] <;> rfl

/-! ### C03: `ifft` inverts `fft` -/

/-- C03a. `ifft` computes the inverse DFT. -/
theorem ifft_is_idft [F : Flt ℝ] (hF : Lawful F) (cfg : Cfg) (x : List (Cx ℝ))
    (hx : 0 < x.length) (hn : cfg.std = true ∨ ∃ k, x.length = 2 ^ k) (p : Planner ℝ)
    (hp : ReachVia cfg (fun m => workSize m ≤ workSize x.length) p) :
    ∃ p' y, ifft cfg p x = .ok (p', y, .ok ()) ∧ IsIdft x y := by
  have hr : fftRes cfg x.length = .ok () := by
    rcases hn with h | h
    · exact fftRes_std h hx
    · exact fftRes_pow2 cfg (isPow2_iff.mpr h)
  obtain ⟨p', e, h1, -⟩ := (ifft_opOk cfg).run p x (reachVia_inv hp)
  rw [hr] at e
  exact ⟨p', _, e, ifftBuf_isIdft hF cfg p x (reachVia_inv hp) hr (compat_of_reach hp)⟩

/-- C03b. `fft` then `ifft` on the same transformer restores the buffer. -/
theorem ifft_fft_id [F : Flt ℝ] (hF : Lawful F) (cfg : Cfg) (x : List (Cx ℝ))
    (hx : 0 < x.length) (hn : cfg.std = true ∨ ∃ k, x.length = 2 ^ k) (p : Planner ℝ)
    (hp : ReachVia cfg (fun m => workSize m ≤ workSize x.length) p) :
    ∃ p1 y p2, fft cfg p x = .ok (p1, y, .ok ()) ∧ ifft cfg p1 y = .ok (p2, x, .ok ()) := by
  obtain ⟨p1, y, e1, hd⟩ := fft_is_dft_used hF cfg x hx hn p hp
  have hp1 : ReachVia cfg (fun m => workSize m ≤ workSize x.length) p1 := .fft hp le_rfl e1
  obtain ⟨p2, z, e2, hi⟩ := ifft_is_idft hF cfg y (by rw [hd.1]; exact hx) (by rw [hd.1]; exact hn) p1
    (by rw [hd.1]; exact hp1)
  rw [isIdft_unique hi (idft_of_dft hd)] at e2
  exact ⟨p1, y, p2, e1, e2⟩

/-- C03c. `ifft` then `fft` on the same transformer restores the buffer. -/
theorem fft_ifft_id [F : Flt ℝ] (hF : Lawful F) (cfg : Cfg) (x : List (Cx ℝ))
    (hx : 0 < x.length) (hn : cfg.std = true ∨ ∃ k, x.length = 2 ^ k) (p : Planner ℝ)
    (hp : ReachVia cfg (fun m => workSize m ≤ workSize x.length) p) :
    ∃ p1 y p2, ifft cfg p x = .ok (p1, y, .ok ()) ∧ fft cfg p1 y = .ok (p2, x, .ok ()) := by
  obtain ⟨p1, y, e1, hd⟩ := ifft_is_idft hF cfg x hx hn p hp
  have hp1 : ReachVia cfg (fun m => workSize m ≤ workSize x.length) p1 := .ifft hp le_rfl e1
  obtain ⟨p2, z, e2, hi⟩ := fft_is_dft_used hF cfg y (by rw [hd.1]; exact hx) (by rw [hd.1]; exact hn) p1
    (by rw [hd.1]; exact hp1)
  rw [isDft_unique hi (dft_of_idft hd)] at e2
  exact ⟨p1, y, p2, e1, e2⟩

/-- The history hypothesis holds for a fresh transformer. -/
example [Flt ℝ] (cfg : Cfg) : ReachVia cfg (fun m => workSize m ≤ workSize 12) (Planner.new : Planner ℝ) := .new

/-! ### C04: totality and error codes -/

/-- C04a. `fft` on any reachable transformer and any buffer returns; the buffer keeps its length;
the result code is exactly the documented one; on an error buffer and transformer are untouched. -/
theorem fft_total {T : Type} [Flt T] (cfg : Cfg) (p : Planner T) (hp : Reach cfg p)
    (x : List (Cx T)) :
    ∃ p' y r, fft cfg p x = .ok (p', y, r) ∧ Reach cfg p' ∧ y.length = x.length ∧
      (r = .error .EmptyInput ↔ x.length = 0) ∧
      (r = .error .NonPowerOfTwoNoStd ↔
        cfg.std = false ∧ x.length ≠ 0 ∧ ¬ ∃ k, x.length = 2 ^ k) ∧
      (r = .ok () ∨ r = .error .EmptyInput ∨ r = .error .NonPowerOfTwoNoStd) ∧
      (r ≠ .ok () → y = x ∧ p' = p) := by
  obtain ⟨p', y, e, h1, h2, h3, -⟩ := fft_run cfg p x (reach_inv hp)
  refine ⟨p', y, _, e, .fft hp trivial e, h2, ?_, ?_, ?_, ?_⟩
  · unfold fftRes; split
    · rename_i h; exact ⟨fun _ => h, fun _ => rfl⟩
    · rename_i h
      split <;> exact ⟨fun e => by simp at e, fun e => absurd e h⟩
  · rw [← isPow2_iff]
    unfold fftRes; split
    · rename_i h; simp [h]
    · split
      · rename_i h h'; simp [h, h'.1, h'.2]
      · rename_i h h'
        simp only [reduceCtorEq, false_iff]
        rintro ⟨a, b, c⟩
        exact h' ⟨a, by simpa using c⟩
  · unfold fftRes; split
    · simp
    · split <;> simp
  · intro hne
    rcases fftRes_cases cfg x.length with h | ⟨er, h⟩
    · exact absurd h hne
    · exact h3 er h

/-- C04b. The same for `ifft`, except that without `std` a non power of two comes back conjugated
(the buffer is negated before the error is found). -/
theorem ifft_total {T : Type} [Flt T] (cfg : Cfg) (p : Planner T) (hp : Reach cfg p)
    (x : List (Cx T)) :
    ∃ p' y r, ifft cfg p x = .ok (p', y, r) ∧ Reach cfg p' ∧ y.length = x.length ∧
      (r = .error .EmptyInput ↔ x.length = 0) ∧
      (r = .error .NonPowerOfTwoNoStd ↔
        cfg.std = false ∧ x.length ≠ 0 ∧ ¬ ∃ k, x.length = 2 ^ k) ∧
      (r = .ok () ∨ r = .error .EmptyInput ∨ r = .error .NonPowerOfTwoNoStd) ∧
      (r = .error .NonPowerOfTwoNoStd → y = x.map Cx.conj) := by
  obtain ⟨p', e, h1, h2, -⟩ := (ifft_opOk cfg).run p x (reach_inv hp)
  refine ⟨p', _, _, e, .ifft hp trivial e, h2, ?_, ?_, ?_, ?_⟩
  · unfold fftRes; split
    · rename_i h; exact ⟨fun _ => h, fun _ => rfl⟩
    · rename_i h
      split <;> exact ⟨fun e => by simp at e, fun e => absurd e h⟩
  · rw [← isPow2_iff]
    unfold fftRes; split
    · rename_i h; simp [h]
    · split
      · rename_i h h'; simp [h, h'.1, h'.2]
      · rename_i h h'
        simp only [reduceCtorEq, false_iff]
        rintro ⟨a, b, c⟩
        exact h' ⟨a, by simpa using c⟩
  · unfold fftRes; split
    · simp
    · split <;> simp
  · intro h
    have h0 : x.length ≠ 0 := by intro h0; rw [h0, fftRes_zero] at h; simp at h
    have h1 : x.length ≠ 1 := by intro h0; rw [h0, fftRes_one] at h; simp at h
    unfold ifftBuf
    rw [if_neg (by tauto), h]

/-- A reachable used planner exists: after a 3-point transform. -/
example {T : Type} [Flt T] (cfg : Cfg) (a b c : Cx T) :
    ∃ p y r, fft cfg Planner.new [a, b, c] = .ok (p, y, r) ∧ Reach cfg p := by
  obtain ⟨p, y, r, e, h, -⟩ := fft_total cfg Planner.new .new [a, b, c]
  exact ⟨p, y, r, e, h⟩

/-! ### C05, C06: a transformer that has been used before -/

/-- What the transformer keeps from earlier power-of-two transforms, as complex values. -/
def leftover {T : Type} (p : Planner T) : List (Cx T) := List.zipWith Cx.mk p.splitRe p.splitIm

/-- C05, partial: the result on a used transformer is bit for bit the fresh one, provided no
earlier call used a larger internal transform, or the length is a power of two up to 16, or the
length is a power of two and the element type is neither f32 nor f64.
Missing from the full claim: larger earlier transforms; there it is false, see
`fft_history_dependent`. -/
theorem fft_history_independent_partial {T : Type} [Flt T] (cfg : Cfg) (p : Planner T)
    (hp : Reach cfg p) (x : List (Cx T))
    (h : ReachVia cfg (fun m => workSize m ≤ workSize x.length) p ∨
      (∃ k, x.length = 2 ^ k ∧ k ≤ 4) ∨ (cfg.kind = .other ∧ ∃ k, x.length = 2 ^ k)) :
    ∃ p1 p2 y r, fft cfg p x = .ok (p1, y, r) ∧ fft cfg Planner.new x = .ok (p2, y, r) := by
  have hI := reach_inv hp
  have hc : Compat cfg p x.length := by
    rcases h with h | ⟨k, h, hk⟩ | ⟨h, k, h'⟩
    · exact compat_of_reach h
    · have hp := isPow2_pow k
      rw [← h] at hp
      refine ⟨Or.inl ?_, Or.inl hp⟩
      rw [need, if_pos hp, h]
      calc 2 ^ k ≤ 2 ^ 4 := Nat.pow_le_pow_right (by norm_num) hk
        _ = 16 := by norm_num
    · have hp := isPow2_pow k
      rw [← h'] at hp
      exact ⟨Or.inr (Or.inl h), Or.inl hp⟩
  obtain ⟨p1, e1, -⟩ := (fft_opOk cfg).run p x hI
  obtain ⟨p2, e2, -⟩ := (fft_opOk cfg).run (Planner.new : Planner T) x (inv_new cfg)
  have : fftBuf cfg p x = fftBuf cfg Planner.new x := by
    rcases fftRes_cases cfg x.length with hr | ⟨er, hr⟩
    · rw [fftBuf_fresh cfg p x hI hr hc, fftBuf_fresh cfg _ x (inv_new cfg) hr (compat_new cfg _)]
    · rw [fftBuf_err cfg p x hr, fftBuf_err cfg _ x hr]
  rw [this] at e1
  exact ⟨p1, p2, _, _, e1, e2⟩

/-- `fft_used_exact` from the invariant of reachable transformers. -/
theorem fft_used_exact_inv {T : Type} [Flt T] (cfg : Cfg) (hk : cfg.kind = .f32 ∨ cfg.kind = .f64)
    (p : Planner T) (hI : Inv cfg p) (x : List (Cx T)) (k : Nat) (hx : x.length = 2 ^ k)
    (hk4 : 4 < k) :
    ∃ p' q Y, fft cfg Planner.new (x ++ (leftover p).drop x.length) = .ok (q, Y, .ok ()) ∧
      fft cfg p x = .ok (p', Y.take x.length, .ok ()) ∧ leftover p' = Y := by
  have hpow : isPow2 x.length = true := by rw [hx]; exact isPow2_pow k
  have h16 : 16 < x.length := by
    rw [hx]
    calc 16 < 2 ^ 5 := by norm_num
      _ ≤ 2 ^ k := Nat.pow_le_pow_right (by norm_num) hk4
  have hl : (leftover p).drop x.length = stale p x.length := by
    simp only [leftover, stale, List.drop_zipWith]
  set z := x ++ stale p x.length with hz
  have hzl : z.length = max p.splitRe.length x.length := by
    have := hI.split.1
    simp [hz, stale, ← this]; omega
  have hzp : isPow2 z.length = true := by
    rw [hzl]
    rcases hI.split.2 with h | h
    · rw [h]; simpa using hpow
    · exact max_pow2 h.1 hpow
  have hz16 : 16 < z.length := by omega
  have hfresh : freshOut cfg z = stkOut cfg Cx.mulPlain z := by
    rw [← splitBuf_pow2 cfg p z hzp hk, splitBuf, if_pos ⟨hzp, hz16⟩]
  obtain ⟨q, e1, -⟩ := (fft_opOk cfg).run (Planner.new : Planner T) z (inv_new cfg)
  rw [fftRes_pow2 cfg hzp, fftBuf_fresh cfg _ z (inv_new cfg) (fftRes_pow2 cfg hzp) (compat_new cfg _),
    hfresh] at e1
  obtain ⟨p', y, e2, -, -, -, -, -, h6, -⟩ := fft_run cfg p x hI
  have hr := fftRes_pow2 cfg hpow
  have h := h6 hr
  rw [hr] at e2
  have hnot1 : ¬ x.length = 1 := by omega
  have hnot16 : ¬ x.length ≤ 16 := by omega
  simp only [fftOut, hpow, if_true, powOut, hnot1, hnot16, if_false, bigOut, hk, powNext, h16,
    splitNext, ← hz, Prod.mk.injEq] at h
  obtain ⟨hy, ⟨hre, him⟩, -⟩ := h
  refine ⟨p', q, stkOut cfg Cx.mulPlain z, ?_, ?_, ?_⟩
  · rw [hl]; exact e1
  · rw [e2, hy]
  · rw [leftover, hre, him]
    apply List.ext_getElem
    · simp
    · intro i h1 h2; simp

/-- C06a. Exact behaviour on a used transformer, f32/f64, power-of-two length above 16: with
`tail` the leftovers beyond position `n`, the call returns the first `n` outputs of a fresh
transform of `x ++ tail`, and keeps that whole result as the new leftovers. -/
theorem fft_used_exact {T : Type} [Flt T] (cfg : Cfg) (hk : cfg.kind = .f32 ∨ cfg.kind = .f64)
    (p : Planner T) (hp : Reach cfg p) (x : List (Cx T)) (k : Nat) (hx : x.length = 2 ^ k)
    (hk4 : 4 < k) :
    ∃ p' q Y, fft cfg Planner.new (x ++ (leftover p).drop x.length) = .ok (q, Y, .ok ()) ∧
      fft cfg p x = .ok (p', Y.take x.length, .ok ()) ∧ leftover p' = Y :=
  fft_used_exact_inv cfg hk p (reach_inv hp) x k hx hk4

/-- C06b. For a non power of two the leftovers matter in the same way, through the Bluestein
work buffer; with equal leftovers two transformers give identical results and stay in step. -/
theorem fft_depends_only_on_leftovers {T : Type} [Flt T] (cfg : Cfg) (p q : Planner T)
    (hp : Reach cfg p) (hq : Reach cfg q) (x : List (Cx T))
    (h1 : p.splitRe = q.splitRe) (h2 : p.splitIm = q.splitIm) (h3 : p.bluScratch = q.bluScratch) :
    ∃ p' q' y r, fft cfg p x = .ok (p', y, r) ∧ fft cfg q x = .ok (q', y, r) ∧
      p'.splitRe = q'.splitRe ∧ p'.splitIm = q'.splitIm ∧ p'.bluScratch = q'.bluScratch := by
  obtain ⟨p', e1, -⟩ := (fft_opOk cfg).run p x (reach_inv hp)
  obtain ⟨q', e2, -⟩ := (fft_opOk cfg).run q x (reach_inv hq)
  obtain ⟨hy, -, ha⟩ := (fft_opOk cfg).agree _ _ _ _ _ _ _ _ _ (reach_inv hp) (reach_inv hq)
    ⟨h1, h2, h3⟩ e1 e2
  rw [← hy] at e2
  exact ⟨p', q', _, _, e1, e2, ha⟩

/-- C05, negation: for f32/f64, a 64-point transform of an impulse followed by a 32-point transform
of zeros on the same transformer gives a nonzero spectrum (bin 0 is 32), while a fresh transformer
gives zeros. -/
theorem fft_history_dependent [F : Flt ℝ] (hF : Lawful F) (cfg : Cfg)
    (hk : cfg.kind = .f32 ∨ cfg.kind = .f64) :
    ∃ (p p1 p2 : Planner ℝ) (Y x y y0 : List (Cx ℝ)), Reach cfg p ∧
      fft cfg Planner.new (⟨1, 0⟩ :: List.replicate 63 ⟨0, 0⟩) = .ok (p, Y, .ok ()) ∧
      fft cfg p x = .ok (p1, y, .ok ()) ∧ fft cfg Planner.new x = .ok (p2, y0, .ok ()) ∧
      x = List.replicate 32 ⟨0, 0⟩ ∧ sig y 0 = 32 ∧ sig y0 0 = 0 := by
  -- 64-point impulse
  let imp : List (Cx ℝ) := ⟨1, 0⟩ :: List.replicate 63 ⟨0, 0⟩
  have himp : imp.length = 2 ^ 6 := by simp [imp]
  obtain ⟨p, q, Y, eY, ep, hY⟩ := fft_used_exact cfg hk Planner.new .new imp 6 himp (by norm_num)
  have hnil : imp ++ (leftover (Planner.new : Planner ℝ)).drop imp.length = imp := by
    simp [leftover, Planner.new]
  rw [hnil] at eY
  obtain ⟨q', Y', eY', hdY⟩ := fft_pow2_is_dft hF cfg 6 imp himp
  rw [eY] at eY'
  simp only [Outcome.ok.injEq, Prod.mk.injEq, and_true] at eY'
  obtain ⟨-, rfl⟩ := eY'
  have hYl : Y.length = 64 := by rw [hdY.1, himp]; norm_num
  have hones : ∀ k, k < 64 → sig Y k = 1 := by
    intro k hk
    rw [hdY.2 k (by rw [himp]; omega), himp, dft]
    rw [Finset.sum_eq_single 0]
    · simp [imp, sig, W]; rfl
    · intro t ht h0
      have : sig imp t = 0 := by
        have ht' : t < 64 := by simpa using ht
        obtain ⟨t, rfl⟩ : ∃ t', t = t' + 1 := ⟨t - 1, by omega⟩
        exact sig_replicate_zero 63 t
      rw [this, zero_mul]
    · simp
  -- 32-point zeros
  let x : List (Cx ℝ) := List.replicate 32 ⟨0, 0⟩
  have hx : x.length = 2 ^ 5 := by simp [x]
  have hreach : Reach cfg p := .fft .new trivial ep
  obtain ⟨p', q2, Z, eZ, ep', -⟩ := fft_used_exact cfg hk p hreach x 5 hx (by norm_num)
  rw [hY] at eZ
  have hzl : (x ++ Y.drop x.length).length = 2 ^ 6 := by simp [x, hYl]
  obtain ⟨q3, Z', eZ', hdZ⟩ := fft_pow2_is_dft hF cfg 6 _ hzl
  rw [eZ] at eZ'
  simp only [Outcome.ok.injEq, Prod.mk.injEq, and_true] at eZ'
  obtain ⟨-, rfl⟩ := eZ'
  obtain ⟨q4, y0, e0, hd0⟩ := fft_pow2_is_dft hF cfg 5 x hx
  refine ⟨p, p', q4, _, x, _, y0, hreach, ep, ep', e0, rfl, ?_, ?_⟩
  · have e1 : sig (Z.take x.length) 0 = sig Z 0 := by
      unfold sig
      rw [List.getElem?_take, if_pos (by rw [hx]; norm_num)]
    rw [e1, hdZ.2 0 (by rw [hzl]; norm_num), hzl, dft]
    have e2 : ∀ t ∈ Finset.range (2 ^ 6), sig (x ++ Y.drop x.length) t * W (2 ^ 6) (0 * t) =
        if 32 ≤ t then 1 else 0 := by
      intro t ht
      have ht' : t < 64 := by simpa using ht
      rw [Nat.zero_mul, W_zero, mul_one]
      split
      · rename_i h32
        have : sig (x ++ Y.drop x.length) t = sig Y t := by
          unfold sig
          rw [List.getElem?_append_right (by rw [hx]; omega), List.getElem?_drop, hx,
            show 2 ^ 5 + (t - 2 ^ 5) = t by omega]
        rw [this, hones t ht']
      · rename_i h32
        have : sig (x ++ Y.drop x.length) t = sig x t := by
          unfold sig
          rw [List.getElem?_append_left (by rw [hx]; omega)]
        rw [this]
        exact sig_replicate_zero 32 t
    rw [Finset.sum_congr rfl e2, Finset.sum_ite, Finset.sum_const_zero, add_zero, Finset.sum_const]
    have : ({t ∈ Finset.range (2 ^ 6) | 32 ≤ t} : Finset ℕ).card = 32 := by decide
    rw [this]; simp
  · rw [hd0.2 0 (by rw [hx]; norm_num), dft]
    apply Finset.sum_eq_zero
    intro t ht
    have : sig x t = 0 := sig_replicate_zero 32 t
    rw [this, zero_mul]

/-- The configurations in question exist. -/
example : (⟨true, .f32, false, 4, false⟩ : Cfg).kind = .f32 := rfl

/-! ### C07, C08: twiddle tables -/

/-- C07a. The table for `n` has `n/2` entries, entry `k` being `exp(-2πi k/n)`; any reachable
planner, with or without precomputed tables. -/
theorem twiddles_correct [F : Flt ℝ] (hF : Lawful F) (cfg : Cfg) (p : Planner ℝ) (hp : Reach cfg p)
    (n : Nat) : (p.getTwiddles cfg n).2.length = n / 2 ∧
      ∀ k, k < n / 2 → sig (p.getTwiddles cfg n).2 k = W n k := by
  have h := (getTwiddles_inv cfg p n (reach_inv hp)).1
  rw [h]
  refine ⟨twiddles_length cfg n, ?_⟩
  intro k hk
  rw [sig_eq hF]
  exact twAt_exact hF cfg n k hk

/-- C07b. Earlier requests never change the table, bit for bit, for every arithmetic. -/
theorem twiddles_cache_transparent {T : Type} [Flt T] (cfg : Cfg) (p : Planner T)
    (hp : Reach cfg p) (n : Nat) :
    (p.getTwiddles cfg n).2 = ((Planner.new : Planner T).getTwiddles cfg n).2 := by
  rw [(getTwiddles_inv cfg p n (reach_inv hp)).1,
    (getTwiddles_inv cfg Planner.new n (inv_new cfg)).1]

/-- C08. Turning `precomputed-twiddles` on or off changes neither the tables nor `fft`, in exact
arithmetic. -/
theorem precomputed_same [F : Flt ℝ] (hF : Lawful F) (cfg : Cfg) (b : Bool) (n : Nat) :
    ((Planner.new : Planner ℝ).getTwiddles cfg n).2 =
      ((Planner.new : Planner ℝ).getTwiddles { cfg with precomputed := b } n).2 := by
  apply List.ext_getElem
  · rw [(twiddles_correct hF cfg Planner.new .new n).1,
      (twiddles_correct hF { cfg with precomputed := b } Planner.new .new n).1]
  · intro k h1 h2
    have hk := h1
    rw [(twiddles_correct hF cfg Planner.new .new n).1] at hk
    have e1 := (twiddles_correct hF cfg Planner.new .new n).2 k hk
    have e2 := (twiddles_correct hF { cfg with precomputed := b } Planner.new .new n).2 k hk
    rw [sig_get _ _ h1] at e1
    rw [sig_get _ _ h2] at e2
    exact toC_inj (e1.trans e2.symm)

theorem precomputed_same_fft [F : Flt ℝ] (hF : Lawful F) (cfg : Cfg) (b : Bool) (x : List (Cx ℝ)) :
    ∃ p q y r, fft cfg Planner.new x = .ok (p, y, r) ∧
      fft { cfg with precomputed := b } Planner.new x = .ok (q, y, r) := by
  obtain ⟨p, e1, -⟩ := (fft_opOk cfg).run (Planner.new : Planner ℝ) x (inv_new cfg)
  obtain ⟨q, e2, -⟩ := (fft_opOk { cfg with precomputed := b }).run (Planner.new : Planner ℝ) x
    (inv_new _)
  have hr : fftRes { cfg with precomputed := b } x.length = fftRes cfg x.length := rfl
  rw [hr] at e2
  suffices hb : fftBuf { cfg with precomputed := b } (Planner.new : Planner ℝ) x =
      fftBuf cfg Planner.new x by
    rw [hb] at e2
    exact ⟨p, q, _, _, e1, e2⟩
  rcases fftRes_cases cfg x.length with h | ⟨er, h⟩
  · have hn : 0 < x.length := by
      rcases Nat.eq_zero_or_pos x.length with h0 | h0
      · rw [h0, fftRes_zero] at h; simp at h
      · exact h0
    rw [fftBuf_fresh cfg _ x (inv_new cfg) h (compat_new cfg _),
      fftBuf_fresh { cfg with precomputed := b } _ x (inv_new _) h (compat_new _ _)]
    exact isDft_unique (freshOut_isDft hF _ x hn) (freshOut_isDft hF _ x hn)
  · rw [fftBuf_err cfg _ x h, fftBuf_err { cfg with precomputed := b } _ x h]

/-- The precomputed table is actually used for some size. -/
example : @preLookup ℝ (realFlt false) ⟨true, .f32, true, 4, false⟩ 64 =
    some (@preTable ℝ (realFlt false) 64) := rfl

end Kofft.Props
