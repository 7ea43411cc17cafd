import Verif.Props.Core
import Verif.Proof.Later
import Verif.Proof.NdLeft
import Verif.Props.NdFft
import Verif.Props.Plan
/-
C79: exactly when a used transformer still computes the DFT.
-/
namespace Kofft.Props
open Spec

/-- The unit impulse at index 1, of length `n`. -/
noncomputable def _root_.Kofft.Spec.impulse1 (n : ℕ) : List (Cx ℝ) := tab n (fun t => if t = 1 then ⟨1, 0⟩ else ⟨0, 0⟩)

theorem leftover_length {T : Type} [Flt T] {cfg : Cfg} {p : Planner T} (h : Inv cfg p) :
    (leftover p).length = p.splitRe.length := by
  simp [leftover, h.split.1]

theorem sig_append_left [F : Flt ℝ] (x y : List (Cx ℝ)) (t : ℕ) (h : t < x.length) : sig (x ++ y) t = sig x t := by
  simp [sig, List.getElem?_append_left h]

theorem sig_append_right [F : Flt ℝ] (x y : List (Cx ℝ)) (t : ℕ) (h : x.length ≤ t) : sig (x ++ y) t = sig y (t - x.length) := by
  simp [sig, List.getElem?_append_right h]

/-- Any input of a length shorter than the leftovers: the bins of the longer DFT. -/
theorem used_bins [F : Flt ℝ] (hF : Lawful F) (cfg : Cfg) (hk : cfg.kind = .f32 ∨ cfg.kind = .f64) (p : Planner ℝ)
    (hI : Inv cfg p) (k K : ℕ) (hk4 : 4 < k) (hK : (leftover p).length = 2 ^ K) (hL : 2 ^ k < (leftover p).length) (x : List (Cx ℝ))
    (hx : x.length = 2 ^ k) :
    ∃ p' y, fft cfg p x = .ok (p', y, .ok ()) ∧ y.length = 2 ^ k ∧
      ∀ b, b < 2 ^ k → sig y b = dft (2 ^ K) (fun t => if t < 2 ^ k then sig x t else sig (leftover p) t) b := by
  obtain ⟨p', q, Y, e1, e2, -⟩ := fft_used_exact_inv cfg hk p hI x k hx hk4
  have hzl : (x ++ (leftover p).drop x.length).length = 2 ^ K := by
    rw [List.length_append, List.length_drop, hx, hK]; omega
  obtain ⟨q', Y', e3, hd⟩ := fft_pow2_is_dft hF cfg K _ hzl
  rw [e1] at e3
  simp only [Outcome.ok.injEq, Prod.mk.injEq, and_true] at e3
  obtain ⟨-, rfl⟩ := e3
  have hYl : Y.length = 2 ^ K := by rw [hd.1, hzl]
  refine ⟨p', _, e2, by rw [List.length_take, hYl, hx]; omega, fun b hb => ?_⟩
  have : sig (Y.take x.length) b = sig Y b := by
    simp only [sig]; rw [List.getElem?_take_of_lt (by omega)]
  rw [this, hd.2 b (by rw [hzl]; omega), hzl]
  unfold dft
  refine Finset.sum_congr rfl (fun t ht => ?_)
  congr 1
  simp only []
  by_cases h : t < 2 ^ k
  · rw [if_pos h, sig_append_left _ _ _ (by omega)]
  · rw [if_neg h, sig_append_right _ _ _ (by omega)]
    simp only [sig, List.getElem?_drop]
    rw [show x.length + (t - x.length) = t by omega]

theorem sig_impulse1 [F : Flt ℝ] (hF : Lawful F) (n : ℕ) (hn : 1 < n) (t : ℕ) :
    sig (impulse1 n) t = if t = 1 then 1 else 0 := by
  unfold impulse1
  by_cases ht : t < n
  · rw [sig_eq hF, tab_getD ht]
    split <;> rfl
  · rw [if_neg (by omega)]
    unfold sig
    rw [List.getElem?_eq_none (by rw [tab_length]; omega)]

/-- Bin 1 cannot be right both for zeros and for the impulse. -/
theorem root_clash (k K : ℕ) (hk : 0 < k) (hkK : k < K) (l : ℕ → ℂ)
    (z1 : dft (2 ^ K) (fun t => if t < 2 ^ k then (0 : ℂ) else l t) 1 = 0)
    (z2 : dft (2 ^ K) (fun t => if t < 2 ^ k then (if t = 1 then (1 : ℂ) else 0) else l t) 1 = W (2 ^ k) 1) : False := by
  set n := 2 ^ k with hn
  have hn2 : 2 ≤ n := by
    calc 2 = 2 ^ 1 := by norm_num
      _ ≤ 2 ^ k := Nat.pow_le_pow_right (by norm_num) (by omega)
  have hlt : n < 2 ^ K := Nat.pow_lt_pow_right (by norm_num) hkK
  have z2 : W (2 ^ K) 1 = W n 1 := by
    have c : dft (2 ^ K) (fun t => if t < n then (if t = 1 then (1 : ℂ) else 0) else l t) 1 =
        W (2 ^ K) 1 + dft (2 ^ K) (fun t => if t < n then (0 : ℂ) else l t) 1 := by
      have : W (2 ^ K) 1 = dft (2 ^ K) (fun t => if t = 1 then (1 : ℂ) else 0) 1 := by
        unfold dft
        rw [Finset.sum_eq_single 1]
        · simp
        · intro t _ ht; simp only []; rw [if_neg ht, zero_mul]
        · intro h; simp at h; omega
      rw [this]
      unfold dft
      rw [← Finset.sum_add_distrib]
      refine Finset.sum_congr rfl (fun t _ => ?_)
      by_cases h : t < n
      · simp [h]
      · simp only []; rw [if_neg h, if_neg h, if_neg (by omega)]; ring
    rw [c, z1, add_zero] at z2
    exact z2
  have hc2 : 2 ^ K = 2 ^ (K - k) * n := by rw [hn, ← pow_add]; congr 1; omega
  have hg : 2 ≤ 2 ^ (K - k) := by
    calc 2 = 2 ^ 1 := by norm_num
      _ ≤ 2 ^ (K - k) := Nat.pow_le_pow_right (by norm_num) (by omega)
  have z3 : W n 1 = W (2 ^ K) (2 ^ (K - k)) := by
    rw [hc2, show W (2 ^ (K - k) * n) (2 ^ (K - k)) = W (2 ^ (K - k) * n) (2 ^ (K - k) * 1) by rw [mul_one],
      W_scale (by positivity)]
  have z4 : W (2 ^ K) (2 ^ (K - k) - 1) = 1 := by
    have : W (2 ^ K) (2 ^ (K - k)) = W (2 ^ K) (2 ^ (K - k) - 1) * W (2 ^ K) 1 := by
      rw [← W_add]; congr 1; omega
    rw [← z3, ← z2] at this
    have h0 := W_ne_zero (2 ^ K) 1
    field_simp at this
    exact this.symm
  have z5 := W_one_primitive (by positivity) z4
  have z6 := Nat.le_of_dvd (by omega) z5
  have : 2 ^ (K - k) ≤ 2 ^ K := Nat.pow_le_pow_right (by norm_num) (by omega)
  omega

theorem leftover_pow2 {T : Type} [Flt T] {cfg : Cfg} {p : Planner T} (hI : Inv cfg p) (h : 0 < (leftover p).length) :
    ∃ K, (leftover p).length = 2 ^ K := by
  have hl := leftover_length hI
  rcases hI.split.2 with h' | h'
  · omega
  · rw [hl]; exact isPow2_iff.mp h'.1

/-- The essential step: with leftovers longer than the input, one of two inputs gets a wrong answer. -/
theorem wrong_of_long_inv [F : Flt ℝ] (hF : Lawful F) (cfg : Cfg) (hk : cfg.kind = .f32 ∨ cfg.kind = .f64) (p : Planner ℝ)
    (hI : Inv cfg p) (k : ℕ) (hk4 : 4 < k) (hL : 2 ^ k < (leftover p).length) :
    ∃ x, (x = List.replicate (2 ^ k) ⟨0, 0⟩ ∨ x = impulse1 (2 ^ k)) ∧
      ∃ p' y, fft cfg p x = .ok (p', y, .ok ()) ∧ ¬ IsDft x y := by
  obtain ⟨K, hK⟩ := leftover_pow2 hI (lt_of_le_of_lt (Nat.zero_le _) hL)
  have hkK : k < K := by rw [hK] at hL; exact (Nat.pow_lt_pow_iff_right (by norm_num)).mp hL
  have run := used_bins hF cfg hk p hI k K hk4 hK hL
  have hn32 : 32 ≤ 2 ^ k := Nat.pow_le_pow_right (n := 2) (by norm_num) (show 5 ≤ k by omega)
  have hz : (List.replicate (2 ^ k) (⟨0, 0⟩ : Cx ℝ)).length = 2 ^ k := by simp
  have hi : (impulse1 (2 ^ k)).length = 2 ^ k := by simp [impulse1]
  obtain ⟨p1, y1, e1, hl1, h1⟩ := run _ hz
  obtain ⟨p2, y2, e2, hl2, h2⟩ := run _ hi
  by_contra hc
  push Not at hc
  have d1 := hc _ (Or.inl rfl) p1 y1 e1
  have d2 := hc _ (Or.inr rfl) p2 y2 e2
  have e0 : ∀ t, sig (List.replicate (2 ^ k) (⟨0, 0⟩ : Cx ℝ)) t = 0 := fun t => sig_replicate_zero _ t
  have s1 := sig_impulse1 hF (2 ^ k) (by omega)
  refine root_clash k K (by omega) hkK (sig (leftover p)) ?_ ?_
  · have := h1 1 (by omega)
    rw [d1.2 1 (by omega)] at this
    simp only [e0] at this
    rw [← this, hz]
    simp [dft, e0]
  · have a := h2 1 (by omega)
    rw [d2.2 1 (by omega), hi] at a
    simp only [s1] at a
    rw [← a]
    unfold dft
    rw [Finset.sum_eq_single 1]
    · simp only [s1]; simp
    · intro t _ ht; simp only [s1]; rw [if_neg ht, zero_mul]
    · intro h; simp at h; omega

theorem wrong_of_long [F : Flt ℝ] (hF : Lawful F) (cfg : Cfg) (hk : cfg.kind = .f32 ∨ cfg.kind = .f64) (p : Planner ℝ)
    (hp : Reach cfg p) (k : ℕ) (hk4 : 4 < k) (hL : 2 ^ k < (leftover p).length) :
    ∃ x, (x = List.replicate (2 ^ k) ⟨0, 0⟩ ∨ x = impulse1 (2 ^ k)) ∧
      ∃ p' y, fft cfg p x = .ok (p', y, .ok ()) ∧ ¬ IsDft x y :=
  wrong_of_long_inv hF cfg hk p (reach_inv hp) k hk4 hL

/-- C79a. On f32/f64 a transformer, after any history, still computes the `n`-point DFT of every input, `n` a power of two
above 16, exactly when its leftovers are no longer than `n`. -/
theorem fft_used_iff [F : Flt ℝ] (hF : Lawful F) (cfg : Cfg) (hk : cfg.kind = .f32 ∨ cfg.kind = .f64) (p : Planner ℝ)
    (hp : Reach cfg p) (k : ℕ) (hk4 : 4 < k) :
    (∀ x : List (Cx ℝ), x.length = 2 ^ k → ∃ p' y, fft cfg p x = .ok (p', y, .ok ()) ∧ IsDft x y) ↔
      (leftover p).length ≤ 2 ^ k := by
  constructor
  · intro h
    by_contra hc
    obtain ⟨x, hx, p', y, e, hd⟩ := wrong_of_long hF cfg hk p hp k hk4 (by omega)
    have hl : x.length = 2 ^ k := by rcases hx with rfl | rfl <;> simp [impulse1]
    obtain ⟨p'', y', e', hd'⟩ := h x hl
    rw [e] at e'
    simp only [Outcome.ok.injEq, Prod.mk.injEq, and_true] at e'
    rw [← e'.2] at hd'
    exact hd hd'
  · intro h x hx
    obtain ⟨p', q, Y, e1, e2, -⟩ := fft_used_exact cfg hk p hp x k hx hk4
    rw [List.drop_eq_nil_of_le (by omega), List.append_nil] at e1
    obtain ⟨q', Y', e3, hd⟩ := fft_pow2_is_dft hF cfg k x hx
    rw [e1] at e3
    simp only [Outcome.ok.injEq, Prod.mk.injEq, and_true] at e3
    obtain ⟨-, rfl⟩ := e3
    refine ⟨p', _, e2, ?_⟩
    rw [List.take_of_length_le (by rw [hd.1])]
    exact hd

/-- C79b. Once a transformer on f32/f64 has performed a successful `fft` of any length `m`, then whatever is called
afterwards, for every power of two `n` with `16 < n <` (internal size for `m`) there is an input of length `n` for which `fft`
reports success and returns something other than the DFT. (The internal size is `m` for a power of two, else the least power of
two at least `2 m - 1`.) -/
theorem fft_spoilt [F : Flt ℝ] (hF : Lawful F) (cfg : Cfg) (hk : cfg.kind = .f32 ∨ cfg.kind = .f64) (p0 p1 p : Planner ℝ)
    (hp : Reach cfg p0) (z w : List (Cx ℝ)) (e : fft cfg p0 z = .ok (p1, w, .ok ())) (hlater : Later cfg p1 p) (k : ℕ)
    (hk4 : 4 < k) (hs : 2 ^ k < workSize z.length) :
    ∃ x : List (Cx ℝ), x.length = 2 ^ k ∧ ∃ p' y, fft cfg p x = .ok (p', y, .ok ()) ∧ ¬ IsDft x y := by
  have h16 : 16 < 2 ^ k := by
    calc 16 < 2 ^ 5 := by norm_num
      _ ≤ 2 ^ k := Nat.pow_le_pow_right (by norm_num) (by omega)
  have hI := reach_inv hp
  have hp1 : Reach cfg p1 := .fft hp trivial e
  have hg := (fft_grows' cfg p0 z p1 w _ hI e).2 rfl (by rw [need_eq_workSize]; omega)
  have hG : InvG cfg (workSize z.length) 0 p := later_invG ⟨reach_inv hp1, hg, Nat.zero_le _⟩ hlater
  have hr : Reach cfg p := later_reach hp1 hlater
  obtain ⟨x, hx, p', y, e, hd⟩ := wrong_of_long hF cfg hk p hr k hk4 (by rw [leftover_length hG.1]; have := hG.2.1; omega)
  exact ⟨x, by rcases hx with rfl | rfl <;> simp [impulse1], p', y, e, hd⟩

/-- C79c. The batch of two buffers, the first of any content: for every power of two `16 < n <` (internal size of the first) there
is a second buffer whose returned spectrum is wrong although the call succeeds. -/
theorem batch_spoilt [F : Flt ℝ] (hF : Lawful F) (cfg : Cfg) (hk : cfg.kind = .f32 ∨ cfg.kind = .f64) (z : List (Cx ℝ))
    (hn : cfg.std = true ∨ ∃ j, z.length = 2 ^ j) (k : ℕ) (hk4 : 4 < k) (hs : 2 ^ k < workSize z.length) :
    ∃ x : List (Cx ℝ), x.length = 2 ^ k ∧ ∃ p w y, batch (fft cfg) Planner.new [z, x] = .ok (p, [w, y], .ok ()) ∧ ¬ IsDft x y := by
  have hz : 0 < z.length := by
    rcases Nat.eq_zero_or_pos z.length with h | h
    · rw [h] at hs
      have : workSize 0 ≤ 1 := by decide
      have : 0 < 2 ^ k := by positivity
      omega
    · exact h
  obtain ⟨p1, w, r, e, -⟩ := fft_run cfg Planner.new z (inv_new cfg)
  rw [fftRes_ok hz hn] at r
  obtain ⟨x, hx, p', y, e', hd⟩ := fft_spoilt hF cfg hk Planner.new p1 p1 .new z w r .refl k hk4 hs
  refine ⟨x, hx, p', w, y, ?_, hd⟩
  unfold batch
  rw [r]
  simp only [Outcome.bind_ok, batch, e']

/-- C79d. On a new f32/f64 transformer, for any number of columns and a number of rows that is a power of two above 16,
`fft2d_inplace` computes the two-dimensional DFT of every array exactly when the rows are at least as many as the internal size for
the columns (for powers of two: at least as many rows as columns). -/
theorem fft2d_iff [F : Flt ℝ] (hF : Lawful F) (cfg : Cfg) (hk : cfg.kind = .f32 ∨ cfg.kind = .f64) (k cols : ℕ) (hk4 : 4 < k)
    (hc : 0 < cols) (hn : cfg.std = true ∨ ∃ j, cols = 2 ^ j) :
    (∀ data sc : List (Cx ℝ), data.length = 2 ^ k * cols → sc.length = 2 ^ k →
      ∃ p' y sc', fft2d cfg Planner.new data (2 ^ k) cols sc = .ok (p', y, sc', .ok ()) ∧ IsDft2 (2 ^ k) cols data y) ↔
    workSize cols ≤ 2 ^ k := by
  have hr0 : 0 < 2 ^ k := by positivity
  have hpk : isPow2 (2 ^ k) = true := isPow2_iff.mpr ⟨k, rfl⟩
  have hwk : workSize (2 ^ k) = 2 ^ k := by rw [workSize, if_pos hpk]
  constructor
  swap
  · intro h data sc hl hs
    exact fft2d_is_dft_partial hF cfg Planner.new data (2 ^ k) cols sc hl hr0 hc hs .new
      (by rcases hn with h | h
          · exact Or.inl h
          · exact Or.inr ⟨⟨k, rfl⟩, h⟩) (Or.inl (by rw [hwk]; exact h))
  intro H
  by_contra hlt
  have hlt : 2 ^ k < need cols := by rw [need_eq_workSize]; omega
  have hn32 : 32 ≤ 2 ^ k := Nat.pow_le_pow_right (n := 2) (by norm_num) (show 5 ≤ k by omega)
  have hrr : fftRes cfg (2 ^ k) = .ok () := fftRes_pow2 cfg hpk
  have hrc : fftRes cfg cols = .ok () := fftRes_ok hc hn
  -- the last row is zero in both arrays
  have hzl : (List.replicate cols (⟨0, 0⟩ : Cx ℝ)).length = cols := by simp
  obtain ⟨q, w, eq, hqI, -⟩ := fft_run cfg (Planner.new : Planner ℝ) (List.replicate cols ⟨0, 0⟩) (inv_new cfg)
  rw [hzl, hrc] at eq
  have hqg := (fft_grows' cfg _ _ _ _ _ (inv_new cfg) eq).2 rfl (by rw [hzl]; omega)
  rw [hzl] at hqg
  have hql := leftover_length hqI
  obtain ⟨K, hK⟩ := leftover_pow2 hqI (by omega)
  have hL : 2 ^ k < (leftover q).length := by omega
  have hkK : k < K := by rw [hK] at hL; exact (Nat.pow_lt_pow_iff_right (by norm_num)).mp hL
  -- bin (1, 0) for an array whose last row is zero
  have run : ∀ data : List (Cx ℝ), data.length = 2 ^ k * cols →
      (∀ i, i < cols → data.getD ((2 ^ k - 1) * cols + i) Cx.zero = ⟨0, 0⟩) →
      dft2 (2 ^ k) cols (sig data) 1 0 =
        dft (2 ^ K) (fun t => if t < 2 ^ k then ∑ c ∈ Finset.range cols, sig data (t * cols + c) else sig (leftover q) t) 1 := by
    intro data hl hlast
    have hsl : (List.replicate (2 ^ k) (⟨0, 0⟩ : Cx ℝ)).length = 2 ^ k := by simp
    obtain ⟨p', y, sc', e, hd⟩ := H data (List.replicate (2 ^ k) ⟨0, 0⟩) hl hsl
    have hb0 : Bnd (need cols) (Planner.new : Planner ℝ) := ⟨Nat.zero_le _, Nat.zero_le _⟩
    obtain ⟨s1, e1, a1, a2, a3, a4, -, a6, -⟩ := slice_pass cfg (Q := 2 ^ k) (C := cols) (N := 2 ^ k * cols) le_rfl
      hr0 (⟨Planner.new, data, List.replicate (2 ^ k) ⟨0, 0⟩⟩ : NdSt ℝ) (inv_new cfg) hl hsl
    rw [hrc] at e1
    have hrow := a6 (need cols) le_rfl hb0 (Or.inl le_rfl) hrc
    have hleft := slice_pass_left cfg hk hrc hr0 (by omega) _ s1 (inv_new cfg) hb0 hl e1 (List.replicate cols ⟨0, 0⟩) hzl
      (fun i hi => by rw [hlast i hi]; simp [List.getD_eq_getElem?_getD, hi]) q w eq
    have hlo : leftover s1.p = leftover q := by rw [leftover, leftover, hleft.1, hleft.2]
    obtain ⟨s2, e2, b1, b2, b3, -, -, -, b7⟩ := strided_pass cfg (R := 2 ^ k) (C := cols) rfl hr0 hc s1 a1 a2 a3
    rw [hrr] at e2
    have hfin : fft2d cfg Planner.new data (2 ^ k) cols (List.replicate (2 ^ k) ⟨0, 0⟩) = .ok (s2.p, s2.data, s2.sc, .ok ()) := by
      rw [fft2d_unfold cfg _ data hl hr0 hc hsl, e1]
      simp only [Outcome.bind_ok, e2]
    rw [hfin] at e
    simp only [Outcome.ok.injEq, Prod.mk.injEq, and_true] at e
    have hdy := hd.2 1 0 (by omega) hc
    rw [← e.2.1] at hdy
    rw [← hdy]
    have hxl : (lineOf s1.data 0 cols (2 ^ k)).length = 2 ^ k := by simp [lineOf]
    obtain ⟨p5, y5, e5, hl5, h5⟩ := used_bins hF cfg hk s1.p a1 k K hk4 (by rw [hlo]; exact hK) (by rw [hlo]; exact hL) _ hxl
    obtain ⟨p6, e6, -⟩ := (fft_opOk cfg).run s1.p (lineOf s1.data 0 cols (2 ^ k)) a1
    rw [e5] at e6
    simp only [Outcome.ok.injEq, Prod.mk.injEq] at e6
    have h0 := b7 hrr 1 (by omega)
    rw [sig_eq hF, show 1 * cols + 0 = 0 + 1 * cols by ring, h0, ← e6.2.1, ← sig_eq hF, h5 1 (by omega), hlo]
    unfold dft
    refine Finset.sum_congr rfl (fun t _ => ?_)
    simp only []
    congr 1
    by_cases ht : t < 2 ^ k
    · rw [if_pos ht, if_pos ht, sig_eq hF, lineOf, tab_getD ht, Nat.zero_add]
      have := hrow t 0 ht hc
      rw [Nat.add_zero] at this
      rw [this, fresh_line hF cfg _ _ _ _ _ hc]
      refine Finset.sum_congr rfl (fun c _ => ?_)
      rw [Nat.zero_mul, W_zero, mul_one, Nat.mul_one]
    · rw [if_neg ht, if_neg ht]
  -- zeros and the impulse at row 1, column 0
  have hlast : ∀ i, i < cols → (2 ^ k - 1) * cols + i < 2 ^ k * cols := by
    intro i hi
    have h1 : (2 ^ k - 1 + 1) * cols = (2 ^ k - 1) * cols + cols := by ring
    rw [show 2 ^ k - 1 + 1 = 2 ^ k by omega] at h1
    omega
  have key : ∀ (a : ℝ), dft2 (2 ^ k) cols (fun i => if i = cols then (a : ℂ) else 0) 1 0 =
      dft (2 ^ K) (fun t => if t < 2 ^ k then (if t = 1 then (a : ℂ) else 0) else sig (leftover q) t) 1 := by
    intro a
    let data : List (Cx ℝ) := tab (2 ^ k * cols) fun i => if i = cols then ⟨a, 0⟩ else ⟨0, 0⟩
    have hdl : data.length = 2 ^ k * cols := tab_length _ _
    have hcol : cols < 2 ^ k * cols := by nlinarith
    have hsig : sig data = fun i => if i = cols then (a : ℂ) else 0 := by
      funext i
      show sig (tab _ _) i = _
      by_cases hi : i < 2 ^ k * cols
      · rw [sig_eq hF, tab_getD hi]
        split <;> rfl
      · rw [if_neg (by omega)]
        unfold sig
        rw [List.getElem?_eq_none (by rw [tab_length]; omega)]
    have := run data hdl (fun i hi => by
      show (tab _ _).getD _ _ = _
      rw [tab_getD (hlast i hi), if_neg]
      have : 2 * cols ≤ (2 ^ k - 1) * cols := Nat.mul_le_mul_right _ (by omega)
      omega)
    rw [hsig] at this
    rw [this]
    unfold dft
    refine Finset.sum_congr rfl (fun t _ => ?_)
    simp only []
    congr 1
    by_cases ht : t < 2 ^ k
    · rw [if_pos ht, if_pos ht]
      by_cases h1 : t = 1
      · rw [if_pos h1, Finset.sum_eq_single 0]
        · rw [if_pos (by rw [h1]; ring)]
        · intro c hc' h0
          rw [if_neg (by rw [h1]; omega)]
        · intro h; simp at h; omega
      · rw [if_neg h1]
        refine Finset.sum_eq_zero (fun c hc' => ?_)
        have hc' : c < cols := by simpa using hc'
        rw [if_neg]
        intro h
        rcases Nat.lt_or_ge t 1 with h2 | h2
        · rw [show t = 0 by omega] at h; omega
        · have : 2 * cols ≤ t * cols := Nat.mul_le_mul_right _ (by omega)
          omega
    · rw [if_neg ht, if_neg ht]
  have val : ∀ a : ℝ, dft2 (2 ^ k) cols (fun i => if i = cols then (a : ℂ) else 0) 1 0 = a * W (2 ^ k) 1 := by
    intro a
    unfold dft2
    rw [Finset.sum_eq_single 1, Finset.sum_eq_single 0]
    · simp only []
      rw [if_pos (by omega), Nat.mul_one, Nat.zero_mul, W_zero, mul_one]
    · intro c hc' h0
      simp only []
      rw [if_neg (by omega)]; ring
    · intro h; simp at h; omega
    · intro t ht h1
      refine Finset.sum_eq_zero (fun c hc' => ?_)
      have hc' : c < cols := by simpa using hc'
      simp only []
      rw [if_neg]
      · ring
      intro h
      rcases Nat.lt_or_ge t 1 with h2 | h2
      · rw [show t = 0 by omega] at h; omega
      · have : 2 * cols ≤ t * cols := Nat.mul_le_mul_right _ (by omega)
        omega
    · intro h; simp only [Finset.mem_range, not_lt] at h; omega
  refine root_clash k K (by omega) hkK (sig (leftover q)) ?_ ?_
  · have := key 0
    rw [val] at this
    simpa using this.symm
  · have := key 1
    rw [val] at this
    simpa using this.symm

/-- The hypotheses of C79a are met and both outcomes occur: a new transformer, and one that has just done 64 zeros. -/
example : ∃ F : Flt ℝ, Lawful F ∧ ∃ (cfg : Cfg) (p q : @Planner ℝ), (cfg.kind = .f32 ∨ cfg.kind = .f64) ∧
    @Reach ℝ F cfg p ∧ @Reach ℝ F cfg q ∧ (leftover p).length ≤ 2 ^ 5 ∧ ¬ (leftover q).length ≤ 2 ^ 5 := by
  letI := realFlt true
  refine ⟨realFlt true, realFlt_lawful true, ⟨true, .f32, false, 4, false⟩, Planner.new, ?_⟩
  have hz : (List.replicate 64 (⟨0, 0⟩ : Cx ℝ)).length = 64 := by simp
  obtain ⟨q, w, r, -⟩ := fft_run (⟨true, .f32, false, 4, false⟩ : Cfg) (Planner.new : Planner ℝ) (List.replicate 64 ⟨0, 0⟩) (inv_new _)
  rw [hz, fftRes_ok (by norm_num) (Or.inl rfl)] at r
  have hn : need 64 = 64 := by rw [need_eq_workSize]; decide
  have hg := (fft_grows' _ _ _ _ _ _ (inv_new _) r).2 rfl (by rw [hz, hn]; norm_num)
  rw [hz, hn] at hg
  refine ⟨q, Or.inl rfl, .new, .fft .new trivial r, by simp [leftover, Planner.new], ?_⟩
  rw [leftover_length (reach_inv (.fft .new trivial r))]
  omega

/-- C79b, C79c: 100 samples are worked on at size 256, so lengths 32, 64 and 128 are spoilt afterwards. -/
example : workSize 100 = 256 ∧ 2 ^ 5 < workSize 100 ∧ 2 ^ 7 < workSize 100 ∧ ¬ 2 ^ 8 < workSize 100 := by decide

/-- C79d: 32 rows by 32 columns are fine, 32 by 33 are not. -/
example : workSize 32 ≤ 2 ^ 5 ∧ ¬ workSize 33 ≤ 2 ^ 5 := by decide

end Kofft.Props
