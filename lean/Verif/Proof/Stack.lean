import Verif.Model.Stack
import Verif.Lib.BitRev
import Verif.Proof.Radix4
import Verif.Proof.Dft
/-
The stack FFT: explicit result, and in exact arithmetic the DFT.
-/
namespace Kofft

section
variable {T : Type} [Flt T]

/-- The running factor after `j` steps. -/
def wRun (c s : T) : Nat → Cx T
  | 0 => ⟨Flt.one, Flt.zero⟩
  | j + 1 => wRot c s (wRun c s j)

/-- The factor `j` of the pass with butterflies of size `len`. -/
def ditW (len j : Nat) : Cx T :=
  let ang : T := ((-. Flt.lit 2 0) *. Flt.pi) /. Flt.ofNat len
  wRun (Flt.cos ang) (Flt.sin ang) j

/-- One pass with half size `h`, as a function of the position. -/
def ditPass (h : Nat) (f : Nat → Cx T) (t : Nat) : Cx T :=
  if t % (2 * h) < h then (f t).add ((f (t + h)).mul (ditW (2 * h) (t % (2 * h))))
  else (f (t - h)).sub ((f t).mul (ditW (2 * h) (t % (2 * h) - h)))

theorem ditGroup_tab {n h i : Nat} (f : Nat → Cx T) (c s : T) (hi : i + 2 * h ≤ n) :
    ditGroup (2 * h) c s i (tab n f) = .ok (tab n (fun t =>
      if i ≤ t ∧ t < i + h then (f t).add ((f (t + h)).mul (wRun c s (t - i)))
      else if i + h ≤ t ∧ t < i + h + h then (f (t - h)).sub ((f t).mul (wRun c s (t - h - i))) else f t)) := by
  have hh : 2 * h / 2 = h := by omega
  have e := forRange_eq (f := fun j (st : Cx T × List (Cx T)) => do
      let u ← rd st.2 (i + j)
      let b ← rd st.2 (i + j + h)
      let v := b.mul st.1
      let y ← wr st.2 (i + j) (u.add v)
      let y ← wr y (i + j + h) (u.sub v)
      pure (wRot c s st.1, y))
    (fun j => (wRun c s j, tab n (fun t =>
      if i ≤ t ∧ t < i + j then (f t).add ((f (t + h)).mul (wRun c s (t - i)))
      else if i + h ≤ t ∧ t < i + h + j then (f (t - h)).sub ((f t).mul (wRun c s (t - h - i))) else f t)))
    (lo := 0) (hi := h) (s := (⟨Flt.one, Flt.zero⟩, tab n f)) (Nat.zero_le _) (by
      simp only [wRun, Prod.mk.injEq, true_and]
      apply tab_congr
      intro t ht
      rw [if_neg (by omega), if_neg (by omega)]) (by
      intro j _ hj
      simp only
      rw [rd_tab (by omega), Outcome.bind_ok, rd_tab (by omega), Outcome.bind_ok, wr_tab (by omega),
        Outcome.bind_ok, wr_tab (by omega), Outcome.bind_ok, Outcome.pure_eq]
      rw [if_neg (show ¬ (i ≤ i + j ∧ i + j < i + j) by omega),
        if_neg (show ¬ (i + h ≤ i + j ∧ i + j < i + h + j) by omega),
        if_neg (show ¬ (i ≤ i + j + h ∧ i + j + h < i + j) by omega),
        if_neg (show ¬ (i + h ≤ i + j + h ∧ i + j + h < i + h + j) by omega)]
      congr 2
      apply tab_congr
      intro t ht
      by_cases t1 : t = i + j + h
      · rw [if_pos t1, if_neg (by omega), if_pos (by omega), t1, show i + j + h - h = i + j by omega,
          show i + j - i = j by omega]
      · rw [if_neg t1]
        by_cases t2 : t = i + j
        · rw [if_pos t2, if_pos (by omega), t2, show i + j - i = j by omega]
        · rw [if_neg t2]
          by_cases h1 : i ≤ t ∧ t < i + j
          · rw [if_pos h1, if_pos (by omega)]
          · rw [if_neg h1, if_neg (show ¬ (i ≤ t ∧ t < i + (j + 1)) by omega)]
            by_cases h2 : i + h ≤ t ∧ t < i + h + j
            · rw [if_pos h2, if_pos (by omega)]
            · rw [if_neg h2, if_neg (by omega)])
  unfold ditGroup
  rw [hh, e]
  rfl

theorem ditPass_tab {n h : Nat} (f : Nat → Cx T) (hh : 0 < h) (hd : 2 * h ∣ n) :
    let ang : T := ((-. Flt.lit 2 0) *. Flt.pi) /. Flt.ofNat (2 * h)
    stepLoop n (2 * h) (tab n f) (ditGroup (2 * h) (Flt.cos ang) (Flt.sin ang)) =
      .ok (tab n (ditPass h f)) := by
  intro ang
  obtain ⟨s, e, hs⟩ := stepLoop_ok (n := n) (len := 2 * h)
    (f := ditGroup (2 * h) (Flt.cos ang) (Flt.sin ang)) (s := tab n f)
    (fun i z => z = tab n (fun t => if t < i then ditPass h f t else f t)) (by omega) hd
    (tab_congr (by simp)) (by
      rintro k z hk rfl
      have e3 : (k + 1) * (2 * h) = k * (2 * h) + 2 * h := by ring
      rw [ditGroup_tab _ _ _ (by omega)]
      refine ⟨_, rfl, ?_⟩
      apply tab_congr
      intro t ht
      have hmod : ∀ t, k * (2 * h) ≤ t → t < k * (2 * h) + 2 * h → t % (2 * h) = t - k * (2 * h) := by
        intro t h1 h2
        obtain ⟨r, rfl⟩ : ∃ r, t = k * (2 * h) + r := ⟨t - k * (2 * h), by omega⟩
        rw [Nat.mul_comm k, Nat.mul_add_mod, Nat.mod_eq_of_lt (by omega)]; omega
      by_cases h1 : k * (2 * h) ≤ t ∧ t < k * (2 * h) + h
      · have hm := hmod t h1.1 (by omega)
        rw [if_pos h1, if_neg (by omega), if_neg (by omega), if_pos (by omega)]
        unfold ditPass
        rw [hm, if_pos (by omega)]
        rfl
      · rw [if_neg h1]
        by_cases h2 : k * (2 * h) + h ≤ t ∧ t < k * (2 * h) + h + h
        · have hm := hmod t (by omega) (by omega)
          rw [if_pos h2, if_neg (by omega), if_neg (by omega), if_pos (by omega)]
          unfold ditPass
          rw [hm, if_neg (by omega), show t - h - k * (2 * h) = t - k * (2 * h) - h by omega]
          rfl
        · rw [if_neg h2]
          by_cases h3 : t < k * (2 * h)
          · rw [if_pos h3, if_pos (by omega)]
          · rw [if_neg h3, if_neg (by omega)])
  rw [e, hs]
  congr 1
  apply tab_congr
  intro t ht
  rw [if_pos ht]

/-- The first `s` passes. -/
def ditRun : Nat → (Nat → Cx T) → Nat → Cx T
  | 0, f => f
  | s + 1, f => ditPass (2 ^ s) (ditRun s f)

theorem fftStack_tab (K : Nat) (hK : 0 < K) (f : Nat → Cx T) :
    fftStack (tab (2 ^ K) f) = .ok (tab (2 ^ K) (ditRun K (fun t => f (bitRev K t))), .ok ()) := by
  have hp : isPow2 (2 ^ K) = true := isPow2_pow K
  have h2 : 2 ≤ 2 ^ K := by
    calc 2 = 2 ^ 1 := by norm_num
      _ ≤ 2 ^ K := Nat.pow_le_pow_right (by norm_num) hK
  unfold fftStack
  simp only [tab_length, show ¬ 2 ^ K = 0 by omega, show ¬ 2 ^ K = 1 by omega, if_false, hp,
    Bool.not_true, Bool.false_eq_true, revLoop_bitRev K f hK, Outcome.bind_ok]
  obtain ⟨s, e, ⟨k, hk, hlen, hs⟩, hc⟩ := whileF_ok
    (cond := fun s : Nat × List (Cx T) => decide (s.1 ≤ 2 ^ K))
    (body := fun s => do
        let ang : T := ((-. Flt.lit 2 0) *. Flt.pi) /. Flt.ofNat s.1
        let y ← stepLoop (2 ^ K) s.1 s.2 (ditGroup s.1 (Flt.cos ang) (Flt.sin ang))
        pure (s.1 * 2, y))
    (fun s => ∃ k, k ≤ K ∧ s.1 = 2 * 2 ^ k ∧
      s.2 = tab (2 ^ K) (ditRun k (fun t => f (bitRev K t))))
    (fun s => 2 ^ K + 1 - s.1) (2 ^ K + 1) (2, tab (2 ^ K) (fun t => f (bitRev K t)))
    (by simp only; omega) ⟨0, Nat.zero_le _, by simp, rfl⟩ (by
      rintro ⟨len, y⟩ ⟨k, hk, hlen, hy⟩ hc
      simp only at hlen hy
      subst hlen hy
      simp only [decide_eq_true_eq] at hc
      have hlt : k + 1 ≤ K := by
        have : 2 ^ (k + 1) ≤ 2 ^ K := by rw [pow_succ]; omega
        exact (Nat.pow_le_pow_iff_right (by norm_num)).mp this
      have hd : 2 * 2 ^ k ∣ 2 ^ K := by
        rw [show 2 * 2 ^ k = 2 ^ (k + 1) by rw [pow_succ, mul_comm]]
        exact pow_dvd_pow 2 hlt
      have hpos : 0 < 2 ^ k := Nat.pow_pos (by norm_num)
      simp only [ditPass_tab (ditRun k (fun t => f (bitRev K t))) hpos hd, Outcome.bind_ok,
        Outcome.pure_eq]
      refine ⟨_, rfl, ⟨k + 1, hlt, by simp only; rw [pow_succ]; ring, rfl⟩, ?_⟩
      simp only; omega)
  rw [e]
  simp only [decide_eq_false_iff_not] at hc
  have hkK : k = K := by
    by_contra hne
    have : 2 ^ (k + 1) ≤ 2 ^ K := Nat.pow_le_pow_right (by norm_num) (by omega)
    rw [pow_succ] at this
    omega
  subst hkK
  rw [Outcome.bind_ok, hs]

end

open Spec Complex Finset
variable [F : Flt ℝ]

theorem wRun_exact (h : Lawful F) (c s : ℝ) (j : ℕ) : toC (wRun c s j) = (⟨c, s⟩ : ℂ) ^ j := by
  induction j with
  | zero => apply Complex.ext <;> simp [wRun, toC, h.one, h.zero]
  | succ j ih =>
    rw [pow_succ, ← ih]
    apply Complex.ext <;> simp [wRun, wRot, toC, h.mulAdd, h.mul, h.neg] <;> ring

theorem ditW_exact (h : Lawful F) (n j : ℕ) : toC (ditW n j) = W n j := by
  unfold ditW
  simp only
  rw [wRun_exact h, show W n j = W n 1 ^ j by rw [← W_mul_pow, one_mul], W_eq_cos]
  have h2 : F.div (F.mul (F.neg (F.lit 2 0)) F.pi) (F.ofNat n) = -2 * Real.pi * (1 : ℕ) / n := by
    rw [h.div, h.mul, h.neg, h.lit, h.pi, h.ofNat]; simp
  rw [h2, h.cos, h.sin]

/-- After `s` passes, block `b` holds the `2^s`-point DFT of every `2^(K-s)`-th sample, starting at the
bit reversal of `b`. -/
theorem ditRun_exact (h : Lawful F) (K : ℕ) (f : ℕ → Cx ℝ) : ∀ (s : ℕ), s ≤ K → ∀ b, b < 2 ^ (K - s) →
    ∀ j, j < 2 ^ s → toC (ditRun s (fun t => f (bitRev K t)) (b * 2 ^ s + j)) =
      dft (2 ^ s) (fun t => toC (f (bitRev (K - s) b + 2 ^ (K - s) * t))) j
  | 0, _, b, hb, j, hj => by
    have : j = 0 := by simpa using hj
    subst this
    simp [ditRun, dft, W_zero]
  | s + 1, hs, b, hb, j, hj => by
    have ih := ditRun_exact h K f s (by omega)
    obtain ⟨m, hm⟩ : ∃ m, K - s = m + 1 := ⟨K - s - 1, by omega⟩
    have hm' : K - (s + 1) = m := by omega
    rw [hm'] at hb ⊢
    rw [hm] at ih
    have hpos : 0 < 2 ^ s := Nat.pow_pos (by norm_num)
    have e2 : 2 ^ (s + 1) = 2 * 2 ^ s := by rw [pow_succ, mul_comm]
    have hmod : (b * 2 ^ (s + 1) + j) % (2 * 2 ^ s) = j := by
      rw [e2, Nat.mul_comm b, Nat.mul_add_mod, Nat.mod_eq_of_lt (by omega)]
    have hb1 : 2 * b + 1 < 2 ^ (m + 1) := by rw [pow_succ]; omega
    have E : ∀ j, j < 2 ^ s → toC (ditRun s (fun t => f (bitRev K t)) (b * 2 ^ (s + 1) + j)) =
        dft (2 ^ s) (fun t => toC (f (bitRev m b + 2 ^ m * (2 * t)))) j := by
      intro j hj
      have := ih (2 * b) (by omega) j hj
      rw [bitRev_even, show 2 * b * 2 ^ s = b * 2 ^ (s + 1) by rw [e2]; ring] at this
      rw [this]
      apply dft_congr
      intro t _
      rw [pow_succ, mul_assoc]
    have O : ∀ j, j < 2 ^ s → toC (ditRun s (fun t => f (bitRev K t)) (b * 2 ^ (s + 1) + j + 2 ^ s)) =
        dft (2 ^ s) (fun t => toC (f (bitRev m b + 2 ^ m * (2 * t + 1)))) j := by
      intro j hj
      have := ih (2 * b + 1) hb1 j hj
      rw [bitRev_odd, show (2 * b + 1) * 2 ^ s + j = b * 2 ^ (s + 1) + j + 2 ^ s by rw [e2]; ring] at this
      rw [this]
      apply dft_congr
      intro t _
      congr 2
      rw [pow_succ]; ring
    rw [e2] at hj ⊢
    rw [dft_double]
    show toC (ditPass (2 ^ s) (ditRun s _) _) = _
    rw [← e2]
    unfold ditPass
    rw [hmod]
    by_cases hlt : j < 2 ^ s
    · rw [if_pos hlt, toC_add h, toC_mul h, ditW_exact h, E j hlt, O j hlt, e2]
      ring
    · rw [if_neg hlt, toC_sub h, toC_mul h, ditW_exact h]
      obtain ⟨i, rfl⟩ : ∃ i, j = i + 2 ^ s := ⟨j - 2 ^ s, by omega⟩
      have hi : i < 2 ^ s := by omega
      rw [show b * 2 ^ (s + 1) + (i + 2 ^ s) - 2 ^ s = b * 2 ^ (s + 1) + i by omega,
        show b * 2 ^ (s + 1) + (i + 2 ^ s) = b * 2 ^ (s + 1) + i + 2 ^ s by omega,
        E i hi, O i hi, dft_periodic (by omega), dft_periodic (by omega),
        show i + 2 ^ s - 2 ^ s = i by omega, e2, W_add, W_half (by omega)]
      ring

theorem fftStack_isDft (h : Lawful F) (K : ℕ) (hK : 0 < K) (x : List (Cx ℝ)) (hx : x.length = 2 ^ K) :
    ∃ y, fftStack x = .ok (y, .ok ()) ∧ IsDft x y := by
  have hxt : x = tab (2 ^ K) (fun i => x.getD i Cx.zero) := by
    have := eq_tab_getD x Cx.zero
    rwa [hx] at this
  have e := fftStack_tab K hK (fun i => x.getD i Cx.zero)
  rw [← hxt] at e
  refine ⟨_, e, by simp [hx], ?_⟩
  intro k hk
  rw [hx] at hk ⊢
  rw [sig_get _ _ (by simpa using hk), tab_getElem]
  have := ditRun_exact h K (fun i => x.getD i Cx.zero) K le_rfl 0 (by simp) k hk
  rw [Nat.zero_mul, Nat.zero_add] at this
  rw [this]
  apply dft_congr
  intro t _
  rw [sig_eq h]
  simp [bitRev]

/-- Conjugate, transform, conjugate and divide: the inverse DFT. -/
theorem conjTrick_isIdft (h : Lawful F) (x y : List (Cx ℝ)) (hy : IsDft (x.map Cx.conj) y) :
    IsIdft x (y.map (ifftPost (F.div F.one (F.ofNat x.length)))) := by
  have hl : (x.map Cx.conj).length = x.length := by simp
  obtain ⟨d1, d2⟩ := hy
  rw [hl] at d1 d2
  refine ⟨by simpa using d1, ?_⟩
  intro t ht
  rw [sig_map _ _ _ (by omega), idft_conj]
  have := d2 t ht
  rw [sig_get _ _ (by omega)] at this
  have e2 : dft x.length (sig (x.map Cx.conj)) t =
      dft x.length (fun k => (starRingEnd ℂ) (sig x k)) t := by
    apply dft_congr
    intro k hk
    rw [sig_map _ _ _ hk, sig_get _ _ hk, toC_conj h]
  rw [e2] at this
  rw [← this]
  have e3 : ∀ c : Cx ℝ, toC (ifftPost (F.div F.one (F.ofNat x.length)) c) =
      (starRingEnd ℂ) (toC c) / x.length := by
    intro c
    have hs : F.div F.one (F.ofNat x.length) = 1 / (x.length : ℝ) := by rw [h.div, h.one, h.ofNat]
    unfold ifftPost
    simp only [hs]
    rw [show (⟨F.mul c.re (1 / (x.length : ℝ)), F.mul (F.neg c.im) (1 / (x.length : ℝ))⟩ : Cx ℝ) =
      ⟨F.mul c.conj.re (1 / (x.length : ℝ)), F.mul c.conj.im (1 / (x.length : ℝ))⟩ from rfl,
      toC_scale h, toC_conj h]
    push_cast
    rw [mul_one_div]
  exact e3 _

end Kofft
