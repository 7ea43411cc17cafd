import Verif.Proof.Radix4Run
import Verif.Proof.Dft
import Mathlib.Logic.Equiv.Basic
/-
`fft_radix4` in exact arithmetic, for every power of four: the DFT of a rearrangement of the input.
-/
namespace Kofft
open Spec Complex

/-! ### The rearrangement loop -/

theorem revStep_lt {K j B : Nat} (hB : 2 ^ K >>> 2 < 2 ^ B) (hj : j < 2 ^ B) :
    ∃ j', revStep 2 (2 ^ K) j = .ok j' ∧ j' < 2 ^ B := by
  have hb : 2 ^ K >>> 2 < 2 ^ K := by
    rw [Nat.shiftRight_eq_div_pow]
    exact Nat.div_lt_self (Nat.pow_pos (by norm_num)) (by norm_num)
  obtain ⟨s, e, ⟨h1, h2⟩, -⟩ := whileF_ok
    (cond := fun s : Nat × Nat => decide (s.1 &&& s.2 ≠ 0))
    (body := fun s => pure (s.1 ^^^ s.2, s.2 >>> 2))
    (fun s => s.1 < 2 ^ B ∧ s.2 < 2 ^ B) (fun s => s.2) (2 ^ K + 2) (j, 2 ^ K >>> 2)
    (by simp only; omega) ⟨hj, hB⟩ (by
      rintro ⟨a, b⟩ ⟨ha, hb⟩ hc
      simp only [decide_eq_true_eq] at hc ha hb
      have hb0 : 0 < b := by
        rcases Nat.eq_zero_or_pos b with h | h
        · subst h; simp at hc
        · exact h
      have hlt : b >>> 2 < b := by
        rw [Nat.shiftRight_eq_div_pow]
        exact Nat.div_lt_self hb0 (by norm_num)
      exact ⟨_, rfl, ⟨Nat.xor_lt_two_pow ha hb, by simp only; omega⟩, hlt⟩)
  refine ⟨s.1 ^^^ s.2, ?_, Nat.xor_lt_two_pow h1 h2⟩
  unfold revStep
  rw [e]; rfl

/-- The loop composes exchanges of positions in the lower half. -/
theorem revLoop_perm {α : Type} [Inhabited α] (f : Nat → α) (K : Nat) (hK : 0 < K) :
    ∃ e : Equiv.Perm Nat, revLoop 2 (tab (2 ^ K) f) = .ok (tab (2 ^ K) (fun t => f (e t))) ∧
      (∀ t, 2 ^ (K - 1) ≤ t → e t = t) ∧ ∀ t, t < 2 ^ K → e t < 2 ^ K := by
  have hhalf : 2 ^ K = 2 * 2 ^ (K - 1) := by rw [← pow_succ']; congr 1; omega
  have hB : 2 ^ K >>> 2 < 2 ^ (K - 1) := by
    rw [Nat.shiftRight_eq_div_pow]
    have : 0 < 2 ^ (K - 1) := by positivity
    omega
  obtain ⟨s, e, h1, E, h2, h3, h4⟩ := forRange_ok (f := fun i (s : Nat × List α) => do
      let j ← revStep 2 (2 ^ K) s.1
      if i < j then do
        let x ← swapAt s.2 i j
        pure (j, x)
      else pure (j, s.2))
    (fun _ s => s.1 < 2 ^ (K - 1) ∧ ∃ e : Equiv.Perm Nat, s.2 = tab (2 ^ K) (fun t => f (e t)) ∧
      (∀ t, 2 ^ (K - 1) ≤ t → e t = t) ∧ ∀ t, t < 2 ^ K → e t < 2 ^ K) (lo := 1) (hi := 2 ^ K) (s := (0, tab (2 ^ K) f))
    (Nat.pow_pos (by norm_num)) ⟨Nat.pow_pos (by norm_num), Equiv.refl _, rfl, fun t _ => rfl, fun t h => h⟩ (by
      rintro i ⟨j, y⟩ hi1 hi2 ⟨hj, E, hy, h3, h4⟩
      simp only at hj hy
      obtain ⟨j', e, hj'⟩ := revStep_lt hB hj
      simp only [e, Outcome.bind_ok]
      split
      · rename_i hlt
        rw [hy]
        unfold swapAt
        rw [rd_tab (by omega), Outcome.bind_ok, rd_tab (by omega), Outcome.bind_ok, wr_tab (by omega), Outcome.bind_ok,
          wr_tab (by omega), Outcome.bind_ok]
        refine ⟨_, rfl, hj', (Equiv.swap i j').trans E, ?_, ?_, ?_⟩
        · apply tab_congr
          intro t ht
          simp only [Equiv.trans_apply]
          by_cases a : t = j'
          · subst a; rw [if_pos rfl, Equiv.swap_apply_right]
          · rw [if_neg a]
            by_cases b : t = i
            · subst b; rw [if_pos rfl, Equiv.swap_apply_left]
            · rw [if_neg b, Equiv.swap_apply_of_ne_of_ne b a]
        · intro t ht
          rw [Equiv.trans_apply, Equiv.swap_apply_of_ne_of_ne (by omega) (by omega), h3 t ht]
        · intro t ht
          rw [Equiv.trans_apply]
          apply h4
          rw [Equiv.swap_apply_def]
          split
          · omega
          · split <;> omega
      · exact ⟨_, rfl, hj', E, hy, h3, h4⟩)
  refine ⟨E, ?_, h3, h4⟩
  unfold revLoop
  simp only [tab_length]
  rw [e]
  simp only [Outcome.bind_ok, h2]
  rfl

/-! ### Reversal of base-4 digits -/

/-- The `s` lowest base-4 digits of `d` in reverse order. -/
def rev4 : Nat → Nat → Nat
  | 0, _ => 0
  | s + 1, d => (d % 4) * 4 ^ s + rev4 s (d / 4)

theorem rev4_lt (s d : Nat) : rev4 s d < 4 ^ s := by
  induction s generalizing d with
  | zero => simp [rev4]
  | succ s ih =>
    have := ih (d / 4)
    have h : d % 4 * 4 ^ s ≤ 3 * 4 ^ s := Nat.mul_le_mul_right _ (by omega)
    rw [rev4, pow_succ]
    omega

theorem rev4_inj {s a b : Nat} (ha : a < 4 ^ s) (hb : b < 4 ^ s) (h : rev4 s a = rev4 s b) : a = b := by
  induction s generalizing a b with
  | zero => simp at ha hb; omega
  | succ s ih =>
    rw [rev4, rev4] at h
    have h1 := rev4_lt s (a / 4)
    have h2 := rev4_lt s (b / 4)
    have hp : 0 < 4 ^ s := by positivity
    have e1 : a % 4 = b % 4 := by
      have : (a % 4 * 4 ^ s + rev4 s (a / 4)) / 4 ^ s = (b % 4 * 4 ^ s + rev4 s (b / 4)) / 4 ^ s := by rw [h]
      rw [Nat.add_comm, Nat.add_mul_div_right _ _ hp, Nat.div_eq_of_lt h1, Nat.add_comm (b % 4 * 4 ^ s), Nat.add_mul_div_right _ _ hp,
        Nat.div_eq_of_lt h2] at this
      omega
    rw [e1] at h
    rw [pow_succ] at ha hb
    have e2 := ih (a := a / 4) (b := b / 4) (by omega) (by omega) (by omega)
    omega

theorem sum_range_four {M : Type*} [AddCommMonoid M] (m : ℕ) (f : ℕ → M) :
    ∑ e ∈ Finset.range (4 * m), f e = ∑ d ∈ Finset.range m, (f (4 * d) + f (4 * d + 1) + f (4 * d + 2) + f (4 * d + 3)) := by
  induction m with
  | zero => simp
  | succ m ih =>
    rw [show 4 * (m + 1) = 4 * m + 1 + 1 + 1 + 1 by ring, Finset.sum_range_succ, Finset.sum_range_succ, Finset.sum_range_succ,
      Finset.sum_range_succ, ih, Finset.sum_range_succ]
    simp only [add_assoc]

/-! ### Passes -/

variable [F : Flt ℝ]

theorem wIt_exact (hF : Lawful F) (s : Cx ℝ) (j : Nat) : toC (wIt s j) = toC s ^ j := by
  induction j with
  | zero => simp [wIt, toC, hF.one, hF.zero]; rfl
  | succ j ih => rw [wIt, toC_mul hF, ih, pow_succ]

theorem bf4_exact (hF : Lawful F) (a b c d : Cx ℝ) {r : Nat} (hr : r < 4) :
    toC (bf4 a b c d r) = toC a + toC b * W 4 r + toC c * W 4 (2 * r) + toC d * W 4 (3 * r) := by
  have w2 : W 4 2 = -1 := W_half (m := 2) (by norm_num)
  have w1 := W4_1
  have w4 : W 4 4 = 1 := W_self (by norm_num)
  have w3 : W 4 3 = I := by rw [show 3 = 2 + 1 by norm_num, W_add, w1, w2]; ring
  have w6 : W 4 6 = -1 := by rw [show 6 = 4 + 2 by norm_num, W_add, w4, w2]; ring
  have w9 : W 4 9 = -I := by rw [show 9 = 4 + 4 + 1 by norm_num, W_add, W_add, w4, w1]; ring
  interval_cases r
  · simp only [bf4, butterfly4, if_true, toC_add hF, W_zero, Nat.mul_zero]; ring
  · simp only [bf4, butterfly4, one_ne_zero, if_false, if_true, toC_add hF, toC_sub hF, toC_mul hF, toC_minusI hF, w1, w2, w3,
      Nat.mul_one]; ring
  · simp only [bf4, butterfly4, OfNat.ofNat_ne_zero, OfNat.ofNat_ne_one, if_false, if_true, toC_add hF, toC_sub hF, Nat.reduceMul, w2, w4, w6]; ring
  · simp only [bf4, butterfly4, OfNat.ofNat_ne_zero, OfNat.ofNat_ne_one, show ¬ (3 = 2) by norm_num, if_false, toC_sub hF, toC_mul hF, toC_minusI hF, Nat.reduceMul, w3, w6, w9]; ring

/-- What the passes up to length `q = 4^s` leave in position `t`. -/
def R4Inv (s : Nat) (g z : Nat → Cx ℝ) : Prop :=
  ∀ i c, c < 4 ^ s → toC (z (4 ^ s * i + c)) = ∑ d ∈ Finset.range (4 ^ s), toC (g (4 ^ s * i + rev4 s d)) * W (4 ^ s) (c * d)

omit F in
theorem r4_combine (s : Nat) (g : Nat → ℂ) (i c r : Nat) (D : Nat → ℂ)
    (hD : ∀ j, j < 4 → D j = ∑ d ∈ Finset.range (4 ^ s), g (4 ^ s * (4 * i + j) + rev4 s d) * W (4 ^ s) (c * d)) :
    D 0 + D 1 * W (4 * 4 ^ s) c * W 4 r + D 2 * W (4 * 4 ^ s) (2 * c) * W 4 (2 * r) + D 3 * W (4 * 4 ^ s) (3 * c) * W 4 (3 * r) =
      ∑ e ∈ Finset.range (4 ^ (s + 1)), g (4 ^ (s + 1) * i + rev4 (s + 1) e) * W (4 ^ (s + 1)) ((c + r * 4 ^ s) * e) := by
  have hq : (4 : ℕ) ^ s ≠ 0 := by positivity
  have key : ∀ d j, j < 4 → g (4 ^ (s + 1) * i + rev4 (s + 1) (4 * d + j)) * W (4 ^ (s + 1)) ((c + r * 4 ^ s) * (4 * d + j)) =
      g (4 ^ s * (4 * i + j) + rev4 s d) * W (4 ^ s) (c * d) * W (4 * 4 ^ s) (j * c) * W 4 (j * r) := by
    intro d j hj
    rw [rev4, show (4 * d + j) % 4 = j by omega, show (4 * d + j) / 4 = d by omega, pow_succ,
      show 4 ^ s * 4 * i + (j * 4 ^ s + rev4 s d) = 4 ^ s * (4 * i + j) + rev4 s d by ring,
      ← W_scale (c := 4) (by norm_num) (4 ^ s) (c * d)]
    have e4 : W 4 (j * r) = W (4 * 4 ^ s) (4 ^ s * (j * r)) := by
      rw [Nat.mul_comm 4 (4 ^ s), W_scale hq]
    rw [e4, mul_assoc, mul_assoc, ← W_add, ← W_add, Nat.mul_comm (4 ^ s) 4]
    congr 1
    rw [show (c + r * 4 ^ s) * (4 * d + j) = (4 * (c * d) + (j * c + 4 ^ s * (j * r))) + (r * d) * (4 * 4 ^ s) by ring, W_add,
      W_mul_self (by positivity), mul_one]
  rw [pow_succ, Nat.mul_comm (4 ^ s) 4, sum_range_four]
  have k0 : ∀ d, _ := fun d => key d 0 (by norm_num)
  have k1 : ∀ d, _ := fun d => key d 1 (by norm_num)
  have k2 : ∀ d, _ := fun d => key d 2 (by norm_num)
  have k3 : ∀ d, _ := fun d => key d 3 (by norm_num)
  simp only [pow_succ, Nat.mul_comm (4 ^ s) 4, Nat.add_zero, Nat.zero_mul, W_zero, mul_one, Nat.one_mul] at k0 k1 k2 k3
  simp only [k0, k1, k2, k3, Finset.sum_add_distrib]
  rw [hD 0 (by norm_num), hD 1 (by norm_num), hD 2 (by norm_num), hD 3 (by norm_num)]
  simp only [Finset.sum_mul, Nat.add_zero]

theorem r4Pass_inv (hF : Lawful F) (s : Nat) (g z : Nat → Cx ℝ) (h : R4Inv s g z) (w1 w2 w3 : Cx ℝ)
    (e1 : toC w1 = W (4 * 4 ^ s) 1) (e2 : toC w2 = W (4 * 4 ^ s) 2) (e3 : toC w3 = W (4 * 4 ^ s) 3) :
    R4Inv (s + 1) g (r4Pass (4 ^ s) w1 w2 w3 z) := by
  intro i b hb
  have hq : 0 < 4 ^ s := by positivity
  obtain ⟨c, r, hc, hr, ht, hm, hd⟩ := quarter_cases (q := 4 ^ s) (i := 0) (t := b) hq (Nat.zero_le _) (by rw [pow_succ] at hb; omega)
  rw [Nat.sub_zero] at hm hd
  rw [Nat.zero_add] at ht
  have hb' : b < 4 * 4 ^ s := by rw [pow_succ] at hb; omega
  have m1 : (4 * 4 ^ s * i + b) % (4 * 4 ^ s) = b := by
    rw [Nat.add_comm, Nat.add_mul_mod_self_left, Nat.mod_eq_of_lt hb']
  have m2 : (4 * 4 ^ s * i + b) / (4 * 4 ^ s) = i := by
    rw [Nat.add_comm, Nat.add_mul_div_left _ _ (by omega), Nat.div_eq_of_lt hb', Nat.zero_add]
  rw [show (4 ^ (s + 1) * i + b) = 4 * 4 ^ s * i + b by rw [pow_succ]; ring]
  unfold r4Pass
  rw [m1, m2, hm, hd]
  unfold r4Val
  rw [bf4_exact hF _ _ _ _ hr, toC_mul hF, toC_mul hF, toC_mul hF, wIt_exact hF, wIt_exact hF, wIt_exact hF, e1, e2, e3, ← W_mul_pow,
    ← W_mul_pow, ← W_mul_pow, Nat.one_mul]
  have hh := r4_combine s (fun t => toC (g t)) i c r (fun j => toC (z (4 ^ s * (4 * i + j) + c))) (fun j _ => h _ c hc)
  simp only [Nat.add_zero] at hh
  rw [show 4 * 4 ^ s * i + c + 4 ^ s = 4 ^ s * (4 * i + 1) + c by ring, show 4 * 4 ^ s * i + c + 2 * 4 ^ s = 4 ^ s * (4 * i + 2) + c by ring,
    show 4 * 4 ^ s * i + c + 3 * 4 ^ s = 4 ^ s * (4 * i + 3) + c by ring, show 4 * 4 ^ s * i + c = 4 ^ s * (4 * i) + c by ring, hh, ht]

theorem r4Run_exact (hF : Lawful F) (cfg : Cfg) (g : Nat → Cx ℝ) (s : Nat) : R4Inv s g (r4Run cfg g s) := by
  have base : R4Inv 0 g g := by
    intro i c hc
    have : c = 0 := by simpa using hc
    subst this
    simp [rev4, W_zero]
  match s with
  | 0 => exact base
  | 1 =>
    intro i b hb
    have hb : b < 4 := by simpa using hb
    have hh := r4_combine 0 (fun t => toC (g t)) i 0 b (fun j => toC (g (4 * i + j))) (fun j _ => by simp [rev4, W_zero])
    simp only [Nat.mul_zero, W_zero, mul_one, Nat.add_zero, pow_zero, Nat.zero_add, pow_one, one_mul] at hh
    simp only [r4Run, Nat.zero_add, pow_one]
    rw [show (4 * i + b) / 4 = i by omega, show (4 * i + b) % 4 = b by omega, bf4_exact hF _ _ _ _ hb, hh]
  | s + 2 =>
    have hl : 16 ≤ 4 ^ (s + 2) := Nat.pow_le_pow_right (n := 4) (by norm_num) (show 2 ≤ s + 2 by omega)
    have e : 4 * 4 ^ (s + 1) = 4 ^ (s + 2) := by rw [pow_succ 4 (s + 1)]; ring
    exact r4Pass_inv hF (s + 1) g _ (r4Run_exact hF cfg g (s + 1)) _ _ _ (by rw [e]; exact twAt_exact hF cfg _ 1 (by omega))
      (by rw [e]; exact twAt_exact hF cfg _ 2 (by omega)) (by rw [e]; exact twAt_exact hF cfg _ 3 (by omega))

end Kofft
