import Verif.Model.Api
import Verif.Lib.Loop
import Verif.Lib.Pow2
import Mathlib.Tactic.Ring
/-
Bit reversal: the permutation loop of the stack FFT applies it.
-/
namespace Kofft

/-- The number whose `K` binary digits are those of `i` reversed. -/
def bitRev : Nat → Nat → Nat
  | 0, _ => 0
  | K + 1, i => (i % 2) * 2 ^ K + bitRev K (i / 2)

theorem bitRev_lt : ∀ K i, bitRev K i < 2 ^ K
  | 0, _ => by simp [bitRev]
  | K + 1, i => by
    have h := bitRev_lt K (i / 2)
    have h2 : i % 2 = 0 ∨ i % 2 = 1 := by omega
    rw [bitRev, pow_succ]
    rcases h2 with e | e <;> rw [e] <;> omega

theorem bitRev_zero : ∀ K, bitRev K 0 = 0
  | 0 => rfl
  | K + 1 => by simp [bitRev, bitRev_zero K]

/-- The other recursion: the top bit of the argument becomes the bottom bit. -/
theorem bitRev_top : ∀ K i, i < 2 ^ (K + 1) → bitRev (K + 1) i = 2 * bitRev K (i % 2 ^ K) + i / 2 ^ K
  | 0, i, h => by
    have : i = 0 ∨ i = 1 := by simp at h; omega
    rcases this with rfl | rfl <;> simp [bitRev]
  | K + 1, i, h => by
    have h2 : i / 2 < 2 ^ (K + 1) := by rw [pow_succ] at h; omega
    rw [bitRev, bitRev_top K (i / 2) h2]
    conv_rhs => rw [bitRev]
    have e1 : i % 2 ^ (K + 1) % 2 = i % 2 :=
      Nat.mod_mod_of_dvd i (dvd_pow_self 2 (by omega))
    have e2 : i % 2 ^ (K + 1) / 2 = i / 2 % 2 ^ K := by
      rw [show 2 ^ (K + 1) = 2 * 2 ^ K by rw [pow_succ, mul_comm], Nat.mod_mul_right_div_self]
    have e3 : i / 2 / 2 ^ K = i / 2 ^ (K + 1) := by
      rw [Nat.div_div_eq_div_mul, pow_succ, mul_comm]
    rw [e1, e2, e3, pow_succ]
    ring

theorem bitRev_invol : ∀ K i, i < 2 ^ K → bitRev K (bitRev K i) = i
  | 0, i, h => by simp at h; simp [bitRev, h]
  | K + 1, i, h => by
    rw [bitRev_top K _ (bitRev_lt (K + 1) i)]
    have h2 : i / 2 < 2 ^ K := by rw [pow_succ] at h; omega
    have hl := bitRev_lt K (i / 2)
    rw [bitRev]
    have e1 : (i % 2 * 2 ^ K + bitRev K (i / 2)) % 2 ^ K = bitRev K (i / 2) := by
      rw [Nat.add_comm, Nat.add_mul_mod_self_right, Nat.mod_eq_of_lt hl]
    have e2 : (i % 2 * 2 ^ K + bitRev K (i / 2)) / 2 ^ K = i % 2 := by
      rw [Nat.add_comm, Nat.add_mul_div_right _ _ (Nat.pow_pos (by norm_num)), Nat.div_eq_of_lt hl]
      omega
    rw [e1, e2, bitRev_invol K _ h2]
    omega

theorem bitRev_even (K b : Nat) : bitRev (K + 1) (2 * b) = bitRev K b := by
  rw [bitRev]; simp

theorem bitRev_odd (K b : Nat) : bitRev (K + 1) (2 * b + 1) = 2 ^ K + bitRev K b := by
  rw [bitRev, show (2 * b + 1) % 2 = 1 by omega, show (2 * b + 1) / 2 = b by omega, one_mul]

theorem and_pow_of_lt {j b : Nat} (h : j < 2 ^ b) : j &&& 2 ^ b = 0 := by
  rw [Nat.and_two_pow, Nat.testBit_lt_two_pow h]; simp

theorem add_and_pow {j b : Nat} (h : j < 2 ^ b) : (2 ^ b + j) &&& 2 ^ b = 2 ^ b := by
  rw [Nat.and_two_pow, Nat.testBit_two_pow_add_eq, Nat.testBit_lt_two_pow h]; simp

theorem xor_pow_of_lt {j b : Nat} (h : j < 2 ^ b) : j ^^^ 2 ^ b = 2 ^ b + j := by
  apply Nat.eq_of_testBit_eq
  intro i
  rw [Nat.testBit_xor, Nat.testBit_two_pow]
  rcases Nat.lt_trichotomy i b with hi | hi | hi
  · have hne : ¬ b = i := by omega
    rw [Nat.testBit_two_pow_add_gt hi]; simp [hne]
  · subst hi; rw [Nat.testBit_two_pow_add_eq]; simp
  · have h1 : 2 ^ b + j < 2 ^ i := by
      have : 2 ^ (b + 1) ≤ 2 ^ i := Nat.pow_le_pow_right (by norm_num) hi
      rw [pow_succ] at this; omega
    rw [Nat.testBit_lt_two_pow h1, Nat.testBit_lt_two_pow (by omega : j < 2 ^ i)]
    have hne : ¬ b = i := by omega
    simp [hne]

theorem add_xor_pow {j b : Nat} (h : j < 2 ^ b) : (2 ^ b + j) ^^^ 2 ^ b = j := by
  rw [← xor_pow_of_lt h, Nat.xor_assoc, Nat.xor_self, Nat.xor_zero]

/-- The carry loop increments the bit-reversed counter. -/
theorem revStep_loop : ∀ (b i fuel : Nat), b + 2 ≤ fuel → ∃ s : Nat × Nat,
    whileF fuel (fun s : Nat × Nat => decide (s.1 &&& s.2 ≠ 0))
      (fun s => pure (s.1 ^^^ s.2, s.2 >>> 1)) (bitRev (b + 1) i, 2 ^ b) = .ok s ∧
      s.1 ^^^ s.2 = bitRev (b + 1) (i + 1) := by
  intro b
  induction b with
  | zero =>
    intro i fuel hf
    obtain ⟨fuel, rfl⟩ : ∃ k, fuel = k + 2 := ⟨fuel - 2, by omega⟩
    rcases Nat.even_or_odd' i with ⟨c, rfl | rfl⟩
    · refine ⟨(0, 1), ?_, ?_⟩
      · rw [bitRev_even, whileF]; simp [bitRev]
      · rw [bitRev_odd]; simp [bitRev]
    · refine ⟨(0, 0), ?_, ?_⟩
      · rw [bitRev_odd, whileF]; simp only [bitRev]; simp [whileF]
      · rw [show 2 * c + 1 + 1 = 2 * (c + 1) by ring, bitRev_even]; simp [bitRev]
  | succ b ih =>
    intro i fuel hf
    obtain ⟨fuel, rfl⟩ : ∃ k, fuel = k + 1 := ⟨fuel - 1, by omega⟩
    rcases Nat.even_or_odd' i with ⟨c, rfl | rfl⟩
    · have hl := bitRev_lt (b + 1) c
      refine ⟨(bitRev (b + 1) c, 2 ^ (b + 1)), ?_, ?_⟩
      · rw [bitRev_even, whileF]
        simp only [and_pow_of_lt hl, ne_eq, not_true, decide_false, Bool.false_eq_true, if_false]
      · rw [bitRev_odd]; exact xor_pow_of_lt hl
    · have hl := bitRev_lt (b + 1) c
      obtain ⟨s, e, hs⟩ := ih c fuel (by omega)
      refine ⟨s, ?_, ?_⟩
      · rw [bitRev_odd, whileF]
        simp only [add_and_pow hl, ne_eq, show ¬ (2 ^ (b + 1) = 0) by positivity, not_false_eq_true,
          decide_true, if_true, Outcome.pure_eq, Outcome.bind_ok, add_xor_pow hl]
        rw [show 2 ^ (b + 1) >>> 1 = 2 ^ b by rw [Nat.shiftRight_eq_div_pow, pow_succ]; simp]
        exact e
      · rw [hs, show 2 * c + 1 + 1 = 2 * (c + 1) by ring, bitRev_even]

theorem revStep_bitRev (K i : Nat) (hK : 0 < K) :
    revStep 1 (2 ^ K) (bitRev K i) = .ok (bitRev K (i + 1)) := by
  obtain ⟨b, rfl⟩ : ∃ b, K = b + 1 := ⟨K - 1, by omega⟩
  have hf : b + 2 ≤ 2 ^ (b + 1) + 2 := by
    have : b < 2 ^ b := Nat.lt_two_pow_self
    rw [pow_succ]; omega
  obtain ⟨s, e, hs⟩ := revStep_loop b i (2 ^ (b + 1) + 2) hf
  unfold revStep
  rw [show 2 ^ (b + 1) >>> 1 = 2 ^ b by rw [Nat.shiftRight_eq_div_pow, pow_succ]; simp, e]
  simp [hs]

/-- The permutation loop with `sh = 1` is the bit reversal. -/
theorem revLoop_bitRev {α : Type} (K : Nat) (f : Nat → α) (hK : 0 < K) :
    revLoop 1 (tab (2 ^ K) f) = .ok (tab (2 ^ K) (fun t => f (bitRev K t))) := by
  have hpos : 0 < 2 ^ K := Nat.pow_pos (by norm_num)
  have e := forRange_eq (f := fun i (s : Nat × List α) => do
      let j ← revStep 1 (2 ^ K) s.1
      if i < j then do
        let x ← swapAt s.2 i j
        pure (j, x)
      else pure (j, s.2))
    (fun i => (bitRev K (i - 1), tab (2 ^ K) (fun t => if min t (bitRev K t) < i then f (bitRev K t) else f t)))
    (lo := 1) (hi := 2 ^ K) (s := (0, tab (2 ^ K) f)) hpos (by
      simp only [Nat.sub_self, bitRev_zero, Prod.mk.injEq, true_and]
      apply tab_congr
      intro t ht
      split
      · rename_i h
        have : t = 0 ∨ bitRev K t = 0 := by omega
        rcases this with h | h
        · subst h; rw [bitRev_zero]
        · have := bitRev_invol K t ht
          rw [h, bitRev_zero] at this
          rw [h, ← this]
      · rfl) (by
      intro i h1 h2
      have hj := revStep_bitRev K (i - 1) hK
      rw [show i - 1 + 1 = i by omega] at hj
      have hlt := bitRev_lt K i
      have hinv := bitRev_invol K i h2
      simp only [hj, Outcome.bind_ok, Nat.add_sub_cancel]
      split
      · rename_i hij
        unfold swapAt
        rw [rd_tab h2, Outcome.bind_ok, rd_tab hlt, Outcome.bind_ok, wr_tab h2, Outcome.bind_ok,
          wr_tab hlt, Outcome.bind_ok, Outcome.pure_eq]
        congr 2
        apply tab_congr
        intro t ht
        by_cases t1 : t = bitRev K i
        · rw [if_pos t1, t1, hinv, if_neg (by omega), if_pos (by omega)]
        · rw [if_neg t1]
          by_cases t2 : t = i
          · rw [if_pos t2, t2, hinv, if_neg (by omega), if_pos (by omega)]
          · rw [if_neg t2]
            have t3 : bitRev K t ≠ i := by
              intro h; apply t1; rw [← h, bitRev_invol K t ht]
            by_cases h : min t (bitRev K t) < i
            · rw [if_pos h, if_pos (by omega)]
            · rw [if_neg h, if_neg (by omega)]
      · rename_i hij
        rw [Outcome.pure_eq]
        congr 2
        apply tab_congr
        intro t ht
        by_cases t2 : t = i
        · subst t2
          by_cases h : bitRev K t = t
          · rw [h]; simp
          · rw [if_pos (by omega), if_pos (by omega)]
        · by_cases t3 : bitRev K t = i
          · have : bitRev K i = t := by rw [← t3, bitRev_invol K t ht]
            rw [if_pos (by omega), if_pos (by omega)]
          · by_cases h : min t (bitRev K t) < i
            · rw [if_pos h, if_pos (by omega)]
            · rw [if_neg h, if_neg (by omega)])
  unfold revLoop
  simp only [tab_length]
  rw [e]
  simp only [Outcome.bind_ok, Outcome.pure_eq]
  congr 1
  apply tab_congr
  intro t ht
  rw [if_pos (by omega)]

end Kofft
