import Verif.Model.Plan
import Verif.Proof.Strategy
import Mathlib.Data.Nat.Prime.Basic
import Mathlib.Data.Nat.Factors
import Mathlib.Tactic.IntervalCases
import Mathlib.Tactic.NormNum.Prime
/-
`factorize` terminates and returns the prime factorisation.
-/
namespace Kofft

/-- Invariant of `factorize`: factors so far are primes, their product times the rest is `n`, and no prime
below `p` divides the rest. -/
structure FacInv (n p : Nat) (s : List Nat × Nat) : Prop where
  prime : ∀ f ∈ s.1, f.Prime
  prod : s.1.prod * s.2 = n
  pos : 0 < s.2
  small : ∀ q, q.Prime → q < p → ¬ q ∣ s.2

theorem divLoop_ok {n p fuel : Nat} {s : List Nat × Nat} (hs : FacInv n p s) (hp : 2 ≤ p)
    (hf : s.2 < fuel) (hpp : p ∣ s.2 → p.Prime) :
    ∃ s', divLoop fuel p s = .ok s' ∧ FacInv n p s' ∧ ¬ p ∣ s'.2 ∧ s'.2 ≤ s.2 := by
  have hpr : ∀ m, m ∣ s.2 → p ∣ m → p.Prime := fun m h1 h2 => hpp (h2.trans h1)
  obtain ⟨s', e, ⟨h1, h2, h3⟩, hc⟩ := whileF_ok
    (cond := fun s : List Nat × Nat => decide (s.2 % p = 0))
    (body := fun s => pure (s.1 ++ [p], s.2 / p))
    (fun t => FacInv n p t ∧ t.2 ∣ s.2 ∧ t.2 ≤ s.2) (fun t => t.2) fuel s hf ⟨hs, dvd_rfl, le_rfl⟩ (by
      rintro ⟨fs, m⟩ ⟨h, hd, hle⟩ hc
      simp only [decide_eq_true_eq] at hc
      have hdvd : p ∣ m := Nat.dvd_of_mod_eq_zero hc
      have hm := Nat.div_mul_cancel hdvd
      have hpos : 0 < m := h.pos
      have hq : 0 < m / p := by
        rcases Nat.eq_zero_or_pos (m / p) with h0 | h0
        · rw [h0] at hm; omega
        · exact h0
      refine ⟨_, rfl, ⟨⟨?_, ?_, hq, ?_⟩, ?_, ?_⟩, ?_⟩
      · intro f hf
        rcases List.mem_append.mp hf with h' | h'
        · exact h.prime f h'
        · rw [List.mem_singleton.mp h']; exact hpr m hd hdvd
      · have := h.prod
        simp only [List.prod_append, List.prod_cons, List.prod_nil, mul_one] at *
        rw [Nat.mul_assoc, Nat.mul_comm p, hm]; exact this
      · intro q hq1 hq2 hq3
        exact h.small q hq1 hq2 (hq3.trans ⟨p, hm.symm⟩)
      · exact Dvd.dvd.trans (⟨p, hm.symm⟩ : (m / p) ∣ m) hd
      · exact le_trans (Nat.div_le_self _ _) hle
      · exact Nat.div_lt_self hpos hp)
  refine ⟨s', e, h1, ?_, h3⟩
  simp only [decide_eq_false_iff_not] at hc
  intro h
  exact hc (Nat.mod_eq_zero_of_dvd h)

theorem FacInv.next {n p p' : Nat} {s : List Nat × Nat} (h : FacInv n p s) (hp : ¬ p ∣ s.2)
    (hgap : ∀ q, p < q → q < p' → ¬ q.Prime) : FacInv n p' s := by
  refine ⟨h.prime, h.prod, h.pos, ?_⟩
  intro q hq hlt
  rcases Nat.lt_trichotomy q p with h1 | h1 | h1
  · exact h.small q hq h1
  · rw [h1]; exact hp
  · exact absurd hq (hgap q h1 hlt)

/-- A divisor all of whose smaller primes are excluded is prime. -/
theorem FacInv.isPrime {n p : Nat} {s : List Nat × Nat} (h : FacInv n p s) (hp : 2 ≤ p)
    (hd : p ∣ s.2) : p.Prime := by
  have hm := Nat.minFac_prime (show p ≠ 1 by omega)
  by_contra hnp
  have hlt : p.minFac < p := by
    rcases lt_or_eq_of_le (Nat.minFac_le (show 0 < p by omega)) with h' | h'
    · exact h'
    · rw [h'] at hm; exact absurd hm hnp
  exact h.small _ hm hlt ((Nat.minFac_dvd p).trans hd)

theorem factorizeF_ok {fuel n : Nat} (hn : 0 < n) (hf : n + 1 < fuel) :
    ∃ fs, factorizeF fuel n = .ok fs ∧ (∀ f ∈ fs, f.Prime) ∧ fs.prod = n := by
  have h0 : FacInv n 2 ([], n) := ⟨by simp, by simp, hn, fun q hq hlt => by
    have := hq.two_le; omega⟩
  obtain ⟨s1, e1, h1, d1, l1⟩ := divLoop_ok h0 le_rfl (fuel := fuel) (by simp only; omega) (fun _ => Nat.prime_two)
  have h1' : FacInv n 3 s1 := h1.next d1 (fun q a b => by omega)
  obtain ⟨s2, e2, h2, d2, l2⟩ := divLoop_ok h1' (by norm_num) (fuel := fuel) (by simp only at l1; omega)
    (fun _ => Nat.prime_three)
  have h2' : FacInv n 5 s2 := h2.next d2 (fun q a b => by
    have : q = 4 := by omega
    rw [this]; norm_num)
  obtain ⟨s3, e3, h3, d3, l3⟩ := divLoop_ok h2' (by norm_num) (fuel := fuel) (by simp only at l1; omega)
    (fun _ => Nat.prime_five)
  have h3' : FacInv n 7 s3 := h3.next d3 (fun q a b => by
    have : q = 6 := by omega
    rw [this]; norm_num)
  have hs3 : s3.2 ≤ n := by simp only at l1; omega
  have hodd : ¬ 2 ∣ s3.2 := h3'.small 2 Nat.prime_two (by norm_num)
  obtain ⟨⟨p, s4⟩, e4, ⟨h4, hp7, hpo, hle⟩, hc⟩ := whileF_ok
    (cond := fun s : Nat × (List Nat × Nat) => decide (s.1 * s.1 ≤ s.2.2))
    (body := fun s => do
      let t ← divLoop fuel s.1 s.2
      pure (s.1 + 2, t))
    (fun t => FacInv n t.1 t.2 ∧ 7 ≤ t.1 ∧ t.1 % 2 = 1 ∧ t.2.2 ≤ s3.2)
    (fun t => n + 1 - t.1) fuel (7, s3) (by simp only; omega) ⟨h3', le_rfl, by norm_num, le_rfl⟩ (by
      rintro ⟨p, s⟩ ⟨h, hp, hpo, hle⟩ hc
      simp only [decide_eq_true_eq] at hc hp hpo hle h
      obtain ⟨s', e, h', d', l'⟩ := divLoop_ok h (by omega) (fuel := fuel) (by omega) (h.isPrime (by omega))
      refine ⟨(p + 2, s'), by simp only [e, Outcome.bind_ok, Outcome.pure_eq],
        ⟨h'.next d' (fun q a b hq => ?_), by simp only; omega, by simp only; omega, by simp only; omega⟩, ?_⟩
      · have : q = p + 1 := by omega
        have h2 : 2 ∣ q := by omega
        have := (Nat.prime_dvd_prime_iff_eq Nat.prime_two hq).mp h2
        omega
      · have : p ≤ p * p := Nat.le_mul_self p
        simp only; omega)
  simp only [decide_eq_false_iff_not, not_le] at hc h4 hp7
  have hprime : s4.2 > 1 → s4.2.Prime := by
    intro hgt
    have hm := Nat.minFac_prime (show s4.2 ≠ 1 by omega)
    by_contra hnp
    have hsq := Nat.minFac_sq_le_self h4.pos hnp
    have hge : p ≤ s4.2.minFac := by
      by_contra hlt
      exact h4.small _ hm (by omega) (Nat.minFac_dvd _)
    have : p * p ≤ s4.2.minFac * s4.2.minFac := Nat.mul_le_mul hge hge
    rw [pow_two] at hsq
    omega
  refine ⟨if s4.2 > 1 then s4.1 ++ [s4.2] else s4.1, ?_, ?_, ?_⟩
  · unfold factorizeF
    rw [e1, Outcome.bind_ok, e2, Outcome.bind_ok, e3, Outcome.bind_ok, e4, Outcome.bind_ok]
    rfl
  · intro f hf
    split at hf
    · rename_i hgt
      rcases List.mem_append.mp hf with h' | h'
      · exact h4.prime f h'
      · rw [List.mem_singleton.mp h']; exact hprime hgt
    · exact h4.prime f hf
  · have := h4.prod
    split
    · simp only [List.prod_append, List.prod_cons, List.prod_nil, mul_one]; exact this
    · rename_i hgt
      have h1 : s4.2 = 1 := by have := h4.pos; omega
      rw [h1, mul_one] at this
      exact this

theorem divLoop_zero (p : Nat) : ∀ (fuel : Nat) (fs : List Nat), divLoop fuel p (fs, 0) = .hang
  | 0, _ => rfl
  | fuel + 1, fs => by
    have := divLoop_zero p fuel (fs ++ [p])
    unfold divLoop at this ⊢
    rw [whileF]
    simp only [Nat.zero_mod, decide_true, if_true, Outcome.pure_eq, Outcome.bind_ok, Nat.zero_div]
    exact this

theorem factorizeF_zero (fuel : Nat) : factorizeF fuel 0 = .hang := by
  unfold factorizeF
  rw [divLoop_zero]; rfl

theorem factorize_ok {n : Nat} (hn : 0 < n) :
    ∃ fs, factorize n = .ok fs ∧ (∀ f ∈ fs, f.Prime) ∧ fs.prod = n :=
  factorizeF_ok hn (by omega)

variable {T : Type} [Flt T]

theorem factor_all4 {n : Nat} (hn : 2 ≤ n) {fs : List Nat} (h1 : ∀ f ∈ fs, f.Prime) (h2 : fs.prod = n) :
    fs.all (fun f => f == 4) = false := by
  rw [List.all_eq_false]
  cases fs with
  | nil => simp at h2; omega
  | cons f fs =>
    refine ⟨f, by simp, ?_⟩
    have := h1 f (by simp)
    intro h
    have h4 : f = 4 := by simpa using h
    rw [h4] at this
    revert this; norm_num

theorem fftMixed_eq (cfg : Cfg) (p : Planner T) (x : List (Cx T)) (hI : Inv cfg p) :
    fftMixed cfg p x = fft cfg p x := by
  by_cases h0 : x.length = 0
  · have : x = [] := List.length_eq_zero_iff.mp h0
    subst this; rfl
  by_cases h1 : x.length = 1
  · obtain ⟨a, rfl⟩ := List.length_eq_one_iff.mp h1
    rfl
  obtain ⟨fs, e, hp, hprod⟩ := factorize_ok (n := x.length) (by omega)
  unfold fftMixed
  simp only [h0, h1, if_false, e, Outcome.bind_ok, factor_all4 (show 2 ≤ x.length by omega) hp hprod,
    Bool.false_eq_true, ite_self, stockhamFft_eq cfg p x hI (show 2 ≤ x.length by omega)]

theorem fftMixedTw_eq (cfg : Cfg) (tw : TwBuf T) (p : Planner T) (x : List (Cx T)) (hI : Inv cfg p)
    (hn : 2 ≤ x.length) : fftMixedTw cfg tw p x = fft cfg p x := by
  obtain ⟨fs, e, hp, hprod⟩ := factorize_ok (n := x.length) (by omega)
  unfold fftMixedTw fftRadixTw
  simp only [e, Outcome.bind_ok, ite_self, stockhamFft_eq cfg p x hI hn]

end Kofft
