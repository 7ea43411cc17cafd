import Verif.Model.Spectral
import Verif.Proof.Trig
import Verif.Proof.RfftExact
import Verif.Props.Core
/-
Properties C46 (analytic signal) and C47 (real cepstrum).
-/
namespace Kofft.Props
open Spec Finset

/-- Conjugating an inverse DFT reverses the frequency axis. -/
theorem conj_idft {n : ℕ} (hn : 0 < n) (X : ℕ → ℂ) (t : ℕ) :
    (starRingEnd ℂ) (idft n X t) = idft n (fun k => (starRingEnd ℂ) (X ((n - k) % n))) t := by
  rw [idft_eq, idft_eq, map_div₀, map_sum, Complex.conj_natCast]
  congr 1
  have hlt : ∀ a, (n - a) % n < n := fun a => Nat.mod_lt _ hn
  have hinv : ∀ a, a < n → (n - (n - a) % n) % n = a := by
    intro a ha
    rcases Nat.eq_zero_or_pos a with h | h
    · subst h; simp
    · rw [Nat.mod_eq_of_lt (by omega : n - a < n), show n - (n - a) = a by omega, Nat.mod_eq_of_lt ha]
  refine sum_nbij' (fun k => (n - k) % n) (fun k => (n - k) % n) ?_ ?_ ?_ ?_ ?_
  · intro a _; exact mem_range.2 (hlt a)
  · intro a _; exact mem_range.2 (hlt a)
  · intro a ha; exact hinv a (mem_range.1 ha)
  · intro a ha; exact hinv a (mem_range.1 ha)
  · intro a ha
    rw [mem_range] at ha
    rw [hinv a ha, map_mul, map_inv₀, W_conj, inv_inv]
    congr 1
    rcases Nat.eq_zero_or_pos a with h | h
    · subst h; simp [W_zero]
    · rw [Nat.mod_eq_of_lt (by omega : n - a < n)]
      refine eq_inv_of_mul_eq_one_left ?_
      rw [← W_add, ← Nat.add_mul, show a + (n - a) = n by omega, mul_comm, W_mul_self (by omega)]

/-- The spectrum of a real signal is conjugate symmetric. -/
theorem dft_neg {n : ℕ} (hn : 0 < n) {r : ℕ → ℂ} (hr : ∀ t, (starRingEnd ℂ) (r t) = r t) {k : ℕ} (hk : k < n) :
    (starRingEnd ℂ) (dft n r ((n - k) % n)) = dft n r k := by
  rcases Nat.eq_zero_or_pos k with h | h
  · subst h
    rw [Nat.sub_zero, Nat.mod_self, Complex.conj_eq_iff_im, dft_zero_real hr]
  · rw [Nat.mod_eq_of_lt (by omega)]
    exact dft_reflect (by omega) hr hk.le

/-- The factor applied to bin `k` of an `n`-point spectrum to obtain the analytic signal: 1 for the mean and the
Nyquist bin, 2 for positive, 0 for negative frequencies. -/
def analyticGain (n k : ℕ) : ℕ := if k = 0 ∨ 2 * k = n then 1 else if 2 * k < n then 2 else 0

theorem hilbertMask_sig [F : Flt ℝ] (hF : Lawful F) (f : List (Cx ℝ)) (k : ℕ) (hk : k < f.length) :
    sig (hilbertMask f) k = analyticGain f.length k * sig f k := by
  have key : ∀ a b c d, (∀ k, k < f.length → (a ≤ k ∧ k < b ↔ ¬ (k = 0 ∨ 2 * k = f.length) ∧ 2 * k < f.length)) →
      (∀ k, k < f.length → (c ≤ k ∧ k < d ↔ ¬ (k = 0 ∨ 2 * k = f.length) ∧ ¬ 2 * k < f.length)) →
      sig (zeroRange (doubleRange f a b) c d) k = analyticGain f.length k * sig f k := by
    intro a b c d h1 h2
    have hl : k < (zeroRange (doubleRange f a b) c d).length := by simp [zeroRange, doubleRange, hk]
    rw [sig_get _ _ hl, sig_get _ _ hk]
    have he : (zeroRange (doubleRange f a b) c d)[k] = if c ≤ k ∧ k < d then Cx.zero else
        if a ≤ k ∧ k < b then ⟨f[k].re *. two, f[k].im *. two⟩ else f[k] := by
      simp only [zeroRange, doubleRange, List.getElem_mapIdx]
    rw [he]
    unfold analyticGain
    by_cases h3 : k = 0 ∨ 2 * k = f.length
    · rw [if_neg (fun h => ((h2 k hk).1 h).1 h3), if_neg (fun h => ((h1 k hk).1 h).1 h3), if_pos h3]
      simp
    · by_cases h4 : 2 * k < f.length
      · rw [if_neg (fun h => ((h2 k hk).1 h).2 h4), if_pos ((h1 k hk).2 ⟨h3, h4⟩), if_neg h3, if_pos h4]
        apply Complex.ext <;> simp [toC, hF.mul, two_real hF, mul_comm]
      · rw [if_pos ((h2 k hk).2 ⟨h3, h4⟩), if_neg h3, if_neg h4, toC_zero hF]
        simp
  unfold hilbertMask
  simp only []
  split
  · exact key _ _ _ _ (fun k hk => by omega) (fun k hk => by omega)
  · exact key _ _ _ _ (fun k hk => by omega) (fun k hk => by omega)

theorem hilbertMask_length {T : Type} [Flt T] (f : List (Cx T)) : (hilbertMask f).length = f.length := by
  unfold hilbertMask zeroRange doubleRange
  simp only []
  split <;> simp

theorem sig_ofReal [F : Flt ℝ] (hF : Lawful F) (x : List ℝ) (t : ℕ) :
    sig (x.map fun v => (⟨v, Flt.zero⟩ : Cx ℝ)) t = rsig x t := by
  unfold sig rsig
  rw [List.getElem?_map, List.getD_eq_getElem?_getD]
  cases x[t]? with
  | none => simp
  | some v => simp [hF.zero]; rfl

/-- C46: for a power-of-two length the analytic signal has the input as its real part, and its spectrum is the
input's with the positive frequencies doubled and the negative ones removed. -/
theorem hilbert_spec [F : Flt ℝ] (hF : Lawful F) (cfg : Cfg) (x : List ℝ) (hx : ∃ k, x.length = 2 ^ k) :
    ∃ y, hilbertAnalytic cfg x = .ok (.ok y) ∧ y.length = x.length ∧
      (∀ t, t < x.length → (sig y t).re = x.getD t 0) ∧
      (∀ k, k < x.length → dft x.length (sig y) k = analyticGain x.length k * dft x.length (rsig x) k) := by
  have hpos : 0 < x.length := by obtain ⟨k, h⟩ := hx; rw [h]; positivity
  have hl : (x.map fun v => (⟨v, Flt.zero⟩ : Cx ℝ)).length = x.length := by simp
  obtain ⟨p, f, e1, hd⟩ := fft_is_dft_used hF cfg (x.map fun v => (⟨v, Flt.zero⟩ : Cx ℝ)) (by rw [hl]; exact hpos)
    (.inr (by rw [hl]; exact hx)) Planner.new .new
  have hp : ReachVia cfg (fun m => workSize m ≤ workSize x.length) p :=
    .fft .new (by rw [hl]) e1
  obtain ⟨hd1, hd2⟩ := hd
  rw [hl] at hd1 hd2
  have hml : (hilbertMask f).length = x.length := by rw [hilbertMask_length, hd1]
  obtain ⟨p', y, e2, hi1, hi2⟩ := ifft_is_idft hF cfg (hilbertMask f) (by rw [hml]; exact hpos)
    (.inr (by rw [hml]; exact hx)) p (by rw [hml]; exact hp)
  rw [hml] at hi1 hi2
  have hX : ∀ k, k < x.length → sig f k = dft x.length (rsig x) k := by
    intro k hk
    rw [hd2 k hk]
    exact dft_congr (fun t _ => sig_ofReal hF x t) k
  have hY : ∀ k, k < x.length → sig (hilbertMask f) k = analyticGain x.length k * dft x.length (rsig x) k := by
    intro k hk
    rw [hilbertMask_sig hF f k (by omega), hd1, hX k hk]
  have hy : ∀ t, t < x.length → sig y t =
      idft x.length (fun k => analyticGain x.length k * dft x.length (rsig x) k) t := by
    intro t ht
    rw [hi2 t ht]
    exact idft_congr (fun k hk => hY k hk) t
  refine ⟨y, ?_, hi1, fun t ht => ?_, fun k hk => ?_⟩
  · unfold hilbertAnalytic
    rw [if_neg (by omega), isPow2_iff.2 hx]
    simp only [Bool.not_true, Bool.false_eq_true, if_false, e1, Outcome.bind_ok, e2]
  · have h1 : ((sig y t).re : ℂ) = rsig x t := by
      rw [Complex.re_eq_add_conj, hy t ht, conj_idft hpos, ← idft_dft (rsig x) ht, idft_eq, idft_eq, idft_eq,
        ← add_div, ← sum_add_distrib, div_right_comm, sum_div]
      congr 1
      refine sum_congr rfl fun k hk => ?_
      rw [mem_range] at hk
      rw [map_mul, dft_neg hpos (rsig_real x) hk, Complex.conj_natCast]
      have hg : (analyticGain x.length k : ℂ) + (analyticGain x.length ((x.length - k) % x.length) : ℂ) = 2 := by
        have : analyticGain x.length k + analyticGain x.length ((x.length - k) % x.length) = 2 := by
          rcases Nat.eq_zero_or_pos k with h | h
          · subst h; simp [analyticGain]
          · rw [Nat.mod_eq_of_lt (by omega)]
            unfold analyticGain
            split_ifs <;> omega
        exact_mod_cast this
      rw [← add_mul, ← add_mul, hg]
      ring
    unfold rsig at h1
    exact_mod_cast h1
  · rw [dft_congr hy, dft_idft _ hk]

theorem pow2_two_steps {T : Type} [Flt T] (cfg : Cfg) (x : List (Cx T)) (hx : ∃ k, x.length = 2 ^ k)
    (g : List (Cx T) → List (Cx T)) (hg : ∀ l, (g l).length = l.length) :
    ∃ p y p' z, fft cfg Planner.new x = .ok (p, y, .ok ()) ∧ ifft cfg p (g y) = .ok (p', z, .ok ()) ∧
      z.length = x.length := by
  have hpos : x.length ≠ 0 := by obtain ⟨k, h⟩ := hx; rw [h]; positivity
  obtain ⟨p, y, r, e, hr, hl, h1, h2, h3, -⟩ := fft_total cfg Planner.new .new x
  have hr' : r = .ok () := by
    rcases h3 with h | h | h
    · exact h
    · exact absurd (h1.1 h) hpos
    · exact absurd hx (h2.1 h).2.2
  obtain ⟨p', z, r2, e2, hr2, hl2, k1, k2, k3, -⟩ := ifft_total cfg p hr (g y)
  have hr2' : r2 = .ok () := by
    rcases k3 with h | h | h
    · exact h
    · exact absurd (k1.1 h) (by rw [hg, hl]; exact hpos)
    · exact absurd (by rw [hg, hl]; exact hx) (k2.1 h).2.2
  subst hr' hr2'
  exact ⟨p, y, p', z, e, e2, by rw [hl2, hg, hl]⟩

/-- C46: errors and totality in any arithmetic. -/
theorem hilbert_errors {T : Type} [Flt T] (cfg : Cfg) (x : List T) :
    (x = [] → hilbertAnalytic cfg x = .ok (.error .EmptyInput)) ∧
    (x ≠ [] → (¬ ∃ k, x.length = 2 ^ k) → hilbertAnalytic cfg x = .ok (.error .NonPowerOfTwoNoStd)) ∧
    ((∃ k, x.length = 2 ^ k) → ∃ y, hilbertAnalytic cfg x = .ok (.ok y) ∧ y.length = x.length) := by
  refine ⟨fun h => ?_, fun h h2 => ?_, fun h => ?_⟩
  · subst h; rfl
  · unfold hilbertAnalytic
    have h' : ¬ x.length = 0 := by simpa using h
    have h3 : isPow2 x.length = false := by
      rw [Bool.eq_false_iff]; exact fun hh => h2 (isPow2_iff.1 hh)
    simp [h, h3]
  · obtain ⟨p, y, p', z, e1, e2, hl⟩ := pow2_two_steps cfg (x.map fun v => (⟨v, Flt.zero⟩ : Cx T))
      (by rw [List.length_map]; exact h) hilbertMask hilbertMask_length
    have h' : ¬ x.length = 0 := by obtain ⟨k, h⟩ := h; rw [h]; positivity
    unfold hilbertAnalytic
    simp only [isPow2_iff.2 h, h', if_false, Bool.not_true, Bool.false_eq_true, e1, Outcome.bind_ok, e2]
    exact ⟨z, rfl, by rw [hl, List.length_map]⟩

/-- C47: the real cepstrum is the inverse DFT of the log magnitude spectrum, which is real. -/
theorem cepstrum_spec [F : Flt ℝ] (hF : Lawful F) (cfg : Cfg) (x : List ℝ) (hx : ∃ k, x.length = 2 ^ k) :
    ∃ y, realCepstrum cfg x = .ok (.ok y) ∧ y.length = x.length ∧
      ∀ t, t < x.length → rsig y t =
        idft x.length (fun k => (Real.log (‖dft x.length (rsig x) k‖ + 1e-12) : ℝ)) t := by
  have hpos : 0 < x.length := by obtain ⟨k, h⟩ := hx; rw [h]; positivity
  have hl : (x.map fun v => (⟨v, Flt.zero⟩ : Cx ℝ)).length = x.length := by simp
  obtain ⟨p, f, e1, hd⟩ := fft_is_dft_used hF cfg (x.map fun v => (⟨v, Flt.zero⟩ : Cx ℝ)) (by rw [hl]; exact hpos)
    (.inr (by rw [hl]; exact hx)) Planner.new .new
  have hp : ReachVia cfg (fun m => workSize m ≤ workSize x.length) p :=
    .fft .new (by rw [hl]) e1
  obtain ⟨hd1, hd2⟩ := hd
  rw [hl] at hd1 hd2
  have hml : (f.map logMag).length = x.length := by rw [List.length_map, hd1]
  obtain ⟨p', y, e2, hi1, hi2⟩ := ifft_is_idft hF cfg (f.map logMag) (by rw [hml]; exact hpos)
    (.inr (by rw [hml]; exact hx)) p (by rw [hml]; exact hp)
  rw [hml] at hi1 hi2
  have hX : ∀ k, k < x.length → sig f k = dft x.length (rsig x) k := by
    intro k hk
    rw [hd2 k hk]
    exact dft_congr (fun t _ => sig_ofReal hF x t) k
  have hY : ∀ k, k < x.length → sig (f.map logMag) k = (Real.log (‖dft x.length (rsig x) k‖ + 1e-12) : ℝ) := by
    intro k hk
    rw [← hX k hk, sig_get _ _ (by rw [hml]; exact hk), sig_get _ _ (by omega), List.getElem_map]
    unfold logMag tiny
    apply Complex.ext
    · simp only [toC, hF.log, hF.add, hF.sqrt, hF.mul, hF.lit, Complex.ofReal_re]
      congr 2
      norm_num
    · simp only [toC, hF.zero, Complex.ofReal_im]
  have hy : ∀ t, t < x.length → sig y t =
      idft x.length (fun k => (Real.log (‖dft x.length (rsig x) k‖ + 1e-12) : ℝ)) t := by
    intro t ht
    rw [hi2 t ht]
    exact idft_congr (fun k hk => hY k hk) t
  refine ⟨y.map Cx.re, ?_, by rw [List.length_map, hi1], fun t ht => ?_⟩
  · unfold realCepstrum
    rw [if_neg (by omega), isPow2_iff.2 hx]
    simp only [Bool.not_true, Bool.false_eq_true, if_false, e1, Outcome.bind_ok, e2]
  · have h1 : rsig (y.map Cx.re) t = ((sig y t).re : ℂ) := by
      unfold rsig
      rw [sig_get _ _ (by omega), List.getD_eq_getElem _ _ (by rw [List.length_map]; omega), List.getElem_map]
      rfl
    rw [h1, hy t ht]
    apply Complex.conj_eq_iff_re.1
    rw [conj_idft hpos]
    refine idft_congr (fun k hk => ?_) t
    rw [Complex.conj_ofReal, ← dft_neg hpos (rsig_real x) hk, Complex.norm_conj]

/-- C47: errors and totality in any arithmetic. -/
theorem cepstrum_errors {T : Type} [Flt T] (cfg : Cfg) (x : List T) :
    (x = [] → realCepstrum cfg x = .ok (.error .EmptyInput)) ∧
    (x ≠ [] → (¬ ∃ k, x.length = 2 ^ k) → realCepstrum cfg x = .ok (.error .NonPowerOfTwoNoStd)) ∧
    ((∃ k, x.length = 2 ^ k) → ∃ y, realCepstrum cfg x = .ok (.ok y) ∧ y.length = x.length) := by
  refine ⟨fun h => ?_, fun h h2 => ?_, fun h => ?_⟩
  · subst h; rfl
  · unfold realCepstrum
    have h' : ¬ x.length = 0 := by simpa using h
    have h3 : isPow2 x.length = false := by
      rw [Bool.eq_false_iff]; exact fun hh => h2 (isPow2_iff.1 hh)
    simp [h, h3]
  · obtain ⟨p, y, p', z, e1, e2, hl⟩ := pow2_two_steps cfg (x.map fun v => (⟨v, Flt.zero⟩ : Cx T))
      (by rw [List.length_map]; exact h) (List.map logMag) (fun l => List.length_map _)
    have h' : ¬ x.length = 0 := by obtain ⟨k, h⟩ := h; rw [h]; positivity
    unfold realCepstrum
    simp only [isPow2_iff.2 h, h', if_false, Bool.not_true, Bool.false_eq_true, e1, Outcome.bind_ok, e2]
    exact ⟨z.map Cx.re, rfl, by rw [List.length_map, hl, List.length_map]⟩

/-- Non-vacuity: the analytic signal of an 8-sample signal. -/
example [F : Flt ℝ] (hF : Lawful F) (cfg : Cfg) : ∃ y, hilbertAnalytic cfg [3, 1, 4, 1, 5, 9, 2, 6] = .ok (.ok y) ∧
    (sig y 5).re = 9 ∧ dft 8 (sig y) 6 = 0 := by
  obtain ⟨y, e, -, h1, h2⟩ := hilbert_spec hF cfg [3, 1, 4, 1, 5, 9, 2, 6] ⟨3, rfl⟩
  refine ⟨y, e, by rw [h1 5 (by simp)]; rfl, ?_⟩
  have := h2 6 (by simp)
  simpa [analyticGain] using this

example [F : Flt ℝ] (hF : Lawful F) (cfg : Cfg) : ∃ y, realCepstrum cfg ([3, 1, 4, 1] : List ℝ) = .ok (.ok y) ∧
    y.length = 4 := by
  obtain ⟨y, e, h, -⟩ := cepstrum_spec hF cfg [3, 1, 4, 1] ⟨2, rfl⟩
  exact ⟨y, e, h⟩

end Kofft.Props
