import Verif.Model.Fft
import Mathlib.Data.Nat.Bitwise
import Mathlib.Tactic.Ring
import Mathlib.Tactic.Linarith
/- Facts on powers of two as tested by the Rust code. -/
namespace Kofft

theorem isPow2_iff {n : Nat} : isPow2 n = true ↔ ∃ k, n = 2 ^ k := by
  unfold isPow2
  simp only [beq_iff_eq]
  constructor
  · intro h; exact ⟨_, h⟩
  · rintro ⟨k, rfl⟩; rw [Nat.log2_two_pow]

theorem isPow2_pow (k : Nat) : isPow2 (2 ^ k) = true := isPow2_iff.mpr ⟨k, rfl⟩

theorem testBit_log2 {n K : Nat} (h1 : 2 ^ K ≤ n) (h2 : n < 2 ^ (K + 1)) : n.testBit K = true := by
  rw [Nat.testBit_eq_decide_div_mod_eq]
  have : n / 2 ^ K = 1 := by
    apply Nat.div_eq_of_lt_le
    · simpa using h1
    · rw [pow_succ] at h2; omega
  simp [this]

/-- `n & (n - 1) == 0` tests for a power of two when `n >= 1`. -/
theorem and_pred_eq_zero_iff {n : Nat} (hn : 0 < n) : n &&& (n - 1) = 0 ↔ isPow2 n = true := by
  rw [isPow2_iff]
  constructor
  · intro h
    by_contra hne
    push Not at hne
    have h1 : 2 ^ n.log2 ≤ n := Nat.log2_self_le (by omega)
    have h2 : n < 2 ^ (n.log2 + 1) := Nat.lt_log2_self
    have h3 : 2 ^ n.log2 ≤ n - 1 := by
      have := hne n.log2
      omega
    have t1 := testBit_log2 h1 h2
    have t2 := testBit_log2 h3 (by omega : n - 1 < 2 ^ (n.log2 + 1))
    have : (n &&& (n - 1)).testBit n.log2 = true := by rw [Nat.testBit_land, t1, t2]; rfl
    rw [h] at this
    simp at this
  · rintro ⟨k, rfl⟩
    rw [Nat.and_two_pow_sub_one_eq_mod]
    simp

theorem le_nextPow2 (n : Nat) : n ≤ nextPow2 n := Nat.le_pow_clog (by norm_num) n

theorem isPow2_nextPow2 (n : Nat) : isPow2 (nextPow2 n) = true := isPow2_pow _

theorem log2_pow' (k : Nat) : (2 ^ k).log2 = k := Nat.log2_two_pow

theorem isPow2_pos {n : Nat} (h : isPow2 n = true) : 0 < n := by
  obtain ⟨k, rfl⟩ := isPow2_iff.mp h; exact Nat.pow_pos (by norm_num)

theorem pow2_eq {n : Nat} (h : isPow2 n = true) : n = 2 ^ n.log2 := by
  simpa [isPow2] using h

theorem max_pow2 {a b : Nat} (ha : isPow2 a = true) (hb : isPow2 b = true) : isPow2 (max a b) = true := by
  rcases Nat.le_total a b with h | h
  · rwa [Nat.max_eq_right h]
  · rwa [Nat.max_eq_left h]

/-- Powers of two up to 16. -/
theorem pow2_le16 {n : Nat} (h : isPow2 n = true) (hn : n ≤ 16) :
    n = 1 ∨ n = 2 ∨ n = 4 ∨ n = 8 ∨ n = 16 := by
  have : ∀ n : Fin 17, isPow2 n.val = true →
      n.val = 1 ∨ n.val = 2 ∨ n.val = 4 ∨ n.val = 8 ∨ n.val = 16 := by decide
  exact this ⟨n, by omega⟩ h

theorem pow2_gt16 {n : Nat} (h : isPow2 n = true) (hn : 16 < n) : ∃ K, 4 < K ∧ n = 2 ^ K := by
  obtain ⟨k, rfl⟩ := isPow2_iff.mp h
  refine ⟨k, ?_, rfl⟩
  by_contra hk
  have : 2 ^ k ≤ 2 ^ 4 := Nat.pow_le_pow_right (by norm_num) (by omega)
  omega

theorem nonpow2_ge3 {n : Nat} (h0 : 0 < n) (h : isPow2 n = false) : 3 ≤ n := by
  by_contra hc
  have : n = 1 ∨ n = 2 := by omega
  rcases this with rfl | rfl <;> simp [isPow2] at h <;> revert h <;> decide

end Kofft
