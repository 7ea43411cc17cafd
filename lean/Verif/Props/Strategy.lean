import Verif.Proof.Strategy
import Verif.Proof.Radix4Wrong
import Verif.Props.Api
/-
Properties C15, C16: strategies.
-/
namespace Kofft.Props
open Spec

/-- C15, partial: `fft_with_strategy` computes the DFT for every strategy, except that `Radix4` (with
`std`) is only covered for lengths that are not `4^k`, `k ≥ 2`.
Missing from the full claim: exactly those lengths; there it is false, see `radix4_wrong`. -/
theorem strategy_is_dft_partial [F : Flt ℝ] (hF : Lawful F) (cfg : Cfg) (st : Strategy)
    (x : List (Cx ℝ)) (hx : 0 < x.length) (hn : cfg.std = true ∨ ∃ k, x.length = 2 ^ k)
    (hst : st ≠ .Radix4 ∨ cfg.std = false ∨ ¬ ∃ k, 2 ≤ k ∧ x.length = 4 ^ k) (p : Planner ℝ)
    (hp : ReachVia cfg (fun m => workSize m ≤ workSize x.length) p) :
    ∃ p' y, fftWithStrategy cfg st p x = .ok (p', y, .ok ()) ∧ IsDft x y := by
  rw [strategy_eq cfg st p x (reachVia_inv hp) hst]
  have hr : fftRes cfg x.length = .ok () := by
    rcases hn with h | h
    · exact fftRes_std h hx
    · exact fftRes_pow2 cfg (isPow2_iff.mpr h)
  obtain ⟨p', e, h1, -⟩ := (fft_opOk cfg).run p x (reachVia_inv hp)
  rw [hr, fftBuf_fresh cfg p x (reachVia_inv hp) hr (compat_of_reach hp)] at e
  exact ⟨p', _, e, freshOut_isDft hF cfg x hx⟩

/-- C15: every strategy is total on every reachable transformer and keeps the length; the result code
is that of `fft`. -/
theorem strategy_total {T : Type} [Flt T] (cfg : Cfg) (st : Strategy) (p : Planner T)
    (hp : Reach cfg p) (x : List (Cx T)) :
    ∃ p' y r, fftWithStrategy cfg st p x = .ok (p', y, r) ∧ y.length = x.length ∧
      (r = .error .EmptyInput ↔ x.length = 0) ∧
      (r = .error .NonPowerOfTwoNoStd ↔
        cfg.std = false ∧ x.length ≠ 0 ∧ ¬ ∃ k, x.length = 2 ^ k) := by
  have hfft : ∃ p' y r, fft cfg p x = .ok (p', y, r) ∧ y.length = x.length ∧
      (r = .error .EmptyInput ↔ x.length = 0) ∧
      (r = .error .NonPowerOfTwoNoStd ↔
        cfg.std = false ∧ x.length ≠ 0 ∧ ¬ ∃ k, x.length = 2 ^ k) := by
    obtain ⟨p', e, h1, h2, -⟩ := (fft_opOk cfg).run p x (reach_inv hp)
    refine ⟨p', _, _, e, h2, ?_, ?_⟩
    · unfold fftRes; split
      · rename_i h; exact ⟨fun _ => h, fun _ => rfl⟩
      · rename_i h
        split <;> exact ⟨fun e => by simp at e, fun e => absurd e h⟩
    · rw [← isPow2_iff]
      unfold fftRes; split
      · rename_i h; simp [h]
      · split
        · rename_i h h'; simp [h, h'.1, h'.2]
        · rename_i h h'
          simp only [reduceCtorEq, false_iff]
          rintro ⟨a, b, c⟩
          exact h' ⟨a, by simpa using c⟩
  by_cases h : st ≠ .Radix4 ∨ cfg.std = false ∨ ¬ ∃ k, 2 ≤ k ∧ x.length = 4 ^ k
  · rw [strategy_eq cfg st p x (reach_inv hp) h]
    exact hfft
  · push Not at h
    obtain ⟨rfl, hstd, k, hk, hx⟩ := h
    have hstd : cfg.std = true := by simpa using hstd
    have hx2 : x.length = 2 ^ (2 * k) := by rw [hx, pow_mul]; norm_num
    have hp2 : isPow2 x.length = true := by rw [hx2]; exact isPow2_pow _
    have h16 : 16 ≤ x.length := by
      rw [hx]
      calc 16 = 4 ^ 2 := by norm_num
        _ ≤ 4 ^ k := Nat.pow_le_pow_right (by norm_num) hk
    obtain ⟨p', y, e, -, hl, -⟩ := fftRadix4_ok cfg p x (reach_inv hp) hp2
      (by rw [hx2, log2_pow']; omega)
    refine ⟨p', y, .ok (), ?_, hl, ?_, ?_⟩
    · unfold fftWithStrategy
      simp only [show ¬ x.length = 0 by omega, show ¬ x.length = 1 by omega, if_false, reduceCtorEq,
        hstd, if_true]
      exact e
    · simp; intro h; simp [h] at h16
    · simp [hstd]

/-- A unit impulse at index 5 of a buffer of 16. -/
noncomputable def impulse5 : List (Cx ℝ) := tab 16 (fun t => if t = 5 then ⟨1, 0⟩ else ⟨0, 0⟩)

/-- The full claim C15 is false: with `std`, `fft_with_strategy(.., Radix4)` on a fresh transformer
returns something that is not the DFT for a unit impulse at index 5 of 16 samples (the digit reversal
of `fft_radix4` is not a digit reversal). -/
theorem radix4_wrong [F : Flt ℝ] (hF : Lawful F) (cfg : Cfg) (hstd : cfg.std = true) :
    ∃ p' y, fftWithStrategy cfg .Radix4 Planner.new impulse5 = .ok (p', y, .ok ()) ∧
      ¬ IsDft impulse5 y := by
  obtain ⟨p', y, e, hl, hv⟩ := fftRadix4_bin8 cfg (Planner.new : Planner ℝ)
    (fun t => if t = 5 then ⟨1, 0⟩ else ⟨0, 0⟩) (inv_new cfg)
  refine ⟨p', y, ?_, ?_⟩
  · unfold fftWithStrategy
    have hlen : impulse5.length = 16 := tab_length _ _
    simp only [hlen, show ¬ (16 : ℕ) = 0 by norm_num, show ¬ (16 : ℕ) = 1 by norm_num, if_false,
      reduceCtorEq, hstd, if_true]
    exact e
  · intro hd
    have h8 := hd.2 8 (by simp [impulse5])
    have hy : sig y 8 = 1 := by
      have h8l : 8 < y.length := by omega
      rw [sig_get y 8 h8l]
      rw [List.getElem?_eq_getElem h8l, Option.some_inj] at hv
      rw [hv]
      simp [bf4, butterfly4, toC_sub hF, toC_add hF, toC_mul hF]
      simp [toC, hF.one, hF.zero]
      apply Complex.ext <;> simp
    rw [hy] at h8
    have hw : dft impulse5.length (sig impulse5) 8 = W 16 (8 * 5) := by
      have hlen : impulse5.length = 16 := tab_length _ _
      rw [hlen]
      unfold dft
      rw [Finset.sum_eq_single 5]
      · have : sig impulse5 5 = 1 := by
          rw [sig_get _ _ (by rw [hlen]; norm_num)]
          simp [impulse5, toC]; apply Complex.ext <;> simp
        rw [this, one_mul]
      · intro b hb hb5
        have : sig impulse5 b = 0 := by
          rw [sig_get _ _ (by rw [hlen]; exact Finset.mem_range.mp hb)]
          simp [impulse5, toC, hb5]; apply Complex.ext <;> simp
        rw [this, zero_mul]
      · simp
    rw [hw] at h8
    have : W 16 (8 * 5) = -1 := by
      unfold W
      rw [show (-(2 * (Real.pi : ℂ) * Complex.I * ((8 * 5 : ℕ) : ℂ) / ((16 : ℕ) : ℂ))) =
        -((Real.pi : ℂ) * Complex.I) + (-2 : ℤ) * (2 * Real.pi * Complex.I) by push_cast; ring]
      rw [Complex.exp_add, Complex.exp_int_mul_two_pi_mul_I, Complex.exp_neg, Complex.exp_pi_mul_I]
      norm_num
    rw [this] at h8
    norm_num at h8

/-- C16: automatic selection: split radix exactly for powers of two above one. -/
theorem plan_strategy_spec (n : ℕ) :
    (planStrategy n = .SplitRadix ↔ 1 < n ∧ ∃ k, n = 2 ^ k) ∧
    (planStrategy n = .Auto ↔ ¬ (1 < n ∧ ∃ k, n = 2 ^ k)) := by
  unfold planStrategy
  rw [← isPow2_iff]
  by_cases h1 : n ≤ 1
  · simp [h1, show ¬ 1 < n by omega]
  · by_cases h2 : isPow2 n = true <;> simp [h1, h2, show 1 < n by omega]

/-- C16: the strategies other than `Radix4` are bit for bit `fft`: same buffer, same result code, same
transformer afterwards, for every buffer (including the lengths 0 and 1) and every history. -/
theorem strategy_same_as_fft {T : Type} [Flt T] (cfg : Cfg) (st : Strategy) (hst : st ≠ .Radix4)
    (p : Planner T) (hp : Reach cfg p) (x : List (Cx T)) :
    fftWithStrategy cfg st p x = fft cfg p x :=
  strategy_eq cfg st p x (reach_inv hp) (Or.inl hst)

/-- The hypotheses of C15/C16 are satisfiable and `Radix4` is covered on non powers of four. -/
example : (Strategy.SplitRadix ≠ .Radix4) ∧ planStrategy 64 = .SplitRadix ∧ planStrategy 12 = .Auto ∧
    ¬ ∃ k, 2 ≤ k ∧ 32 = 4 ^ k := by
  refine ⟨by decide, by decide, by decide, ?_⟩
  rintro ⟨k, hk, h⟩
  have h32 : (2 : ℕ) ^ 5 = 2 ^ (2 * k) := by rw [pow_mul]; exact h
  have := Nat.pow_right_injective le_rfl h32
  omega

end Kofft.Props
