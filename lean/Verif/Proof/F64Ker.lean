import Verif.Props.RoundingF64
/-
The 8- and 16-point kernels with an arbitrary constant in place of `√½`, all arithmetic exact, and the chirp
transform run on them. For property C65.
-/
namespace Kofft
open Spec Complex Finset

/-- The 8-point kernel with constant `s`. -/
noncomputable def ker8 (s : ℂ) (x : ℕ → ℂ) : ℕ → ℂ
  | 0 => (x 0 + x 4 + (x 2 + x 6)) + (x 1 + x 5 + (x 3 + x 7))
  | 1 => (x 0 - x 4 + (x 2 - x 6) * -I) + (x 1 - x 5 + (x 3 - x 7) * -I) * (s * (1 - I))
  | 2 => (x 0 + x 4 - (x 2 + x 6)) + (x 1 + x 5 - (x 3 + x 7)) * -I
  | 3 => (x 0 - x 4 - (x 2 - x 6) * -I) + (x 1 - x 5 - (x 3 - x 7) * -I) * (s * (-1 - I))
  | 4 => (x 0 + x 4 + (x 2 + x 6)) - (x 1 + x 5 + (x 3 + x 7))
  | 5 => (x 0 - x 4 + (x 2 - x 6) * -I) - (x 1 - x 5 + (x 3 - x 7) * -I) * (s * (1 - I))
  | 6 => (x 0 + x 4 - (x 2 + x 6)) - (x 1 + x 5 - (x 3 + x 7)) * -I
  | 7 => (x 0 - x 4 - (x 2 - x 6) * -I) - (x 1 - x 5 - (x 3 - x 7) * -I) * (s * (-1 - I))
  | _ => 0

/-- Kernel, conjugation, kernel at bin 1: exact only if `2s² = 1`. -/
theorem ker8_twice (s : ℝ) (b : ℕ → ℂ) :
    (starRingEnd ℂ) (ker8 s (fun i => (starRingEnd ℂ) (ker8 s b i)) 1) =
      4 * (b 1 + b 5) + 8 * s ^ 2 * (b 1 - b 5) := by
  simp only [ker8, map_add, map_sub, map_mul, map_neg, conj_I, conj_conj, conj_ofReal, map_one]
  have h2 : I ^ 2 = -1 := I_sq
  have h3 : I ^ 3 = -I := by rw [pow_succ, I_sq]; ring
  have h4 : I ^ 4 = 1 := by rw [show 4 = 2 * 2 by norm_num, pow_mul, I_sq]; ring
  ring_nf
  simp only [h2, h3, h4]
  ring

variable [F : Flt ℝ] {v : ℝ}

theorem add_zero_err (h : Rounding F 0 v 0) (a b : Cx ℝ) : toC (a.add b) = toC a + toC b := by
  have := rnd_add h a b
  rw [zero_mul] at this
  exact sub_eq_zero.mp (norm_le_zero_iff.mp this)

theorem sub_zero_err (h : Rounding F 0 v 0) (a b : Cx ℝ) : toC (a.sub b) = toC a - toC b := by
  have := rnd_sub h a b
  rw [zero_mul] at this
  exact sub_eq_zero.mp (norm_le_zero_iff.mp this)

theorem minusI_zero_err (h : Rounding F 0 v 0) : toC (cxMinusI : Cx ℝ) = -I := by
  apply Complex.ext <;> simp [toC, cxMinusI, h.zero, h.neg, h.one]

theorem half_ker (h : Rounding F 0 v 0) (x : ℕ → Cx ℝ) :
    let r := fft16Half (x 0) (x 1) (x 2) (x 3) (x 4) (x 5) (x 6) (x 7)
    let X := ker8 F.sqrtHalf (fun t => toC (x t))
    toC r.1 = X 0 ∧ toC r.2.1 = X 1 ∧ toC r.2.2.1 = X 2 ∧ toC r.2.2.2.1 = X 3 ∧
    toC r.2.2.2.2.1 = X 4 ∧ toC r.2.2.2.2.2.1 = X 5 ∧ toC r.2.2.2.2.2.2.1 = X 6 ∧
    toC r.2.2.2.2.2.2.2 = X 7 := by
  have s1 : toC (⟨F.sqrtHalf, F.neg F.sqrtHalf⟩ : Cx ℝ) = F.sqrtHalf * (1 - I) := by
    apply Complex.ext <;> simp [toC, h.neg]
  have s3 : toC (⟨F.neg F.sqrtHalf, F.neg F.sqrtHalf⟩ : Cx ℝ) = F.sqrtHalf * (-1 - I) := by
    apply Complex.ext <;> simp [toC, h.neg]
  simp only [fft16Half, add_zero_err h, sub_zero_err h, mul_zero_err h, minusI_zero_err h, s1, s3, ker8]
  trivial

/-- `fft8` computes the 8-point kernel. -/
theorem fft8_ker (h : Rounding F 0 v 0) (dbg : Bool) (x : ℕ → Cx ℝ) :
    ∃ y, fft8 dbg [x 0, x 1, x 2, x 3, x 4, x 5, x 6, x 7] = .ok y ∧ y.length = 8 ∧
      ∀ k < 8, toC (y.getD k Cx.zero) = ker8 F.sqrtHalf (fun t => toC (x t)) k := by
  refine ⟨_, by cases dbg <;> rfl, rfl, ?_⟩
  intro k hk
  obtain ⟨h0, h1, h2, h3, h4, h5, h6, h7⟩ := half_ker h x
  interval_cases k
  · exact h0
  · exact h1
  · exact h2
  · exact h3
  · exact h4
  · exact h5
  · exact h6
  · exact h7

/-- The factors `fft16` multiplies the odd half by. -/
noncomputable def tw16 (s c d : ℂ) : ℕ → ℂ
  | 0 => 1
  | 1 => c - d * I
  | 2 => s * (1 - I)
  | 3 => d - c * I
  | 4 => -I
  | 5 => -d - c * I
  | 6 => s * (-1 - I)
  | 7 => -c - d * I
  | _ => 0

/-- The 16-point kernel with constants `s`, `c`, `d`. -/
noncomputable def ker16 (s c d : ℂ) (x : ℕ → ℂ) (k : ℕ) : ℂ :=
  if k < 8 then ker8 s (fun t => x (2 * t)) k + tw16 s c d k * ker8 s (fun t => x (2 * t + 1)) k
  else ker8 s (fun t => x (2 * t)) (k - 8) - tw16 s c d (k - 8) * ker8 s (fun t => x (2 * t + 1)) (k - 8)

/-- `fft16` computes the 16-point kernel. -/
theorem fft16_ker (h : Rounding F 0 v 0) (dbg : Bool) (x : ℕ → Cx ℝ) :
    ∃ y, fft16 dbg [x 0, x 1, x 2, x 3, x 4, x 5, x 6, x 7, x 8, x 9, x 10, x 11, x 12, x 13,
      x 14, x 15] = .ok y ∧ y.length = 16 ∧
      ∀ k < 16, toC (y.getD k Cx.zero) = ker16 F.sqrtHalf F.cosPi8 F.sinPi8 (fun t => toC (x t)) k := by
  set e := fft16Half (x 0) (x 2) (x 4) (x 6) (x 8) (x 10) (x 12) (x 14) with he
  set o := fft16Half (x 1) (x 3) (x 5) (x 7) (x 9) (x 11) (x 13) (x 15) with ho
  let t1 := o.2.1.mul ⟨F.cosPi8, F.neg F.sinPi8⟩
  let t2 := o.2.2.1.mul ⟨F.sqrtHalf, F.neg F.sqrtHalf⟩
  let t3 := o.2.2.2.1.mul ⟨F.sinPi8, F.neg F.cosPi8⟩
  let t4 := o.2.2.2.2.1.mul ⟨F.zero, F.neg F.one⟩
  let t5 := o.2.2.2.2.2.1.mul ⟨F.neg F.sinPi8, F.neg F.cosPi8⟩
  let t6 := o.2.2.2.2.2.2.1.mul ⟨F.neg F.sqrtHalf, F.neg F.sqrtHalf⟩
  let t7 := o.2.2.2.2.2.2.2.mul ⟨F.neg F.cosPi8, F.neg F.sinPi8⟩
  refine ⟨[e.1.add o.1, e.2.1.add t1, e.2.2.1.add t2, e.2.2.2.1.add t3, e.2.2.2.2.1.add t4,
    e.2.2.2.2.2.1.add t5, e.2.2.2.2.2.2.1.add t6, e.2.2.2.2.2.2.2.add t7,
    e.1.sub o.1, e.2.1.sub t1, e.2.2.1.sub t2, e.2.2.2.1.sub t3, e.2.2.2.2.1.sub t4,
    e.2.2.2.2.2.1.sub t5, e.2.2.2.2.2.2.1.sub t6, e.2.2.2.2.2.2.2.sub t7],
    by cases dbg <;> rfl, rfl, ?_⟩
  intro k hk
  obtain ⟨e0, e1, e2, e3, e4, e5, e6, e7⟩ := half_ker h (fun t => x (2 * t))
  obtain ⟨o0, o1, o2, o3, o4, o5, o6, o7⟩ := half_ker h (fun t => x (2 * t + 1))
  norm_num [← he, ← ho] at e0 e1 e2 e3 e4 e5 e6 e7 o0 o1 o2 o3 o4 o5 o6 o7
  have w1 : toC (⟨F.cosPi8, F.neg F.sinPi8⟩ : Cx ℝ) = tw16 F.sqrtHalf F.cosPi8 F.sinPi8 1 := by
    apply Complex.ext <;> simp [toC, h.neg, tw16]
  have w2 : toC (⟨F.sqrtHalf, F.neg F.sqrtHalf⟩ : Cx ℝ) = tw16 F.sqrtHalf F.cosPi8 F.sinPi8 2 := by
    apply Complex.ext <;> simp [toC, h.neg, tw16]
  have w3 : toC (⟨F.sinPi8, F.neg F.cosPi8⟩ : Cx ℝ) = tw16 F.sqrtHalf F.cosPi8 F.sinPi8 3 := by
    apply Complex.ext <;> simp [toC, h.neg, tw16]
  have w4 : toC (⟨F.zero, F.neg F.one⟩ : Cx ℝ) = tw16 F.sqrtHalf F.cosPi8 F.sinPi8 4 := by
    apply Complex.ext <;> simp [toC, h.neg, h.zero, h.one, tw16]
  have w5 : toC (⟨F.neg F.sinPi8, F.neg F.cosPi8⟩ : Cx ℝ) = tw16 F.sqrtHalf F.cosPi8 F.sinPi8 5 := by
    apply Complex.ext <;> simp [toC, h.neg, tw16]
  have w6 : toC (⟨F.neg F.sqrtHalf, F.neg F.sqrtHalf⟩ : Cx ℝ) = tw16 F.sqrtHalf F.cosPi8 F.sinPi8 6 := by
    apply Complex.ext <;> simp [toC, h.neg, tw16]
  have w7 : toC (⟨F.neg F.cosPi8, F.neg F.sinPi8⟩ : Cx ℝ) = tw16 F.sqrtHalf F.cosPi8 F.sinPi8 7 := by
    apply Complex.ext <;> simp [toC, h.neg, tw16]
  have w0 : tw16 F.sqrtHalf F.cosPi8 F.sinPi8 0 = 1 := rfl
  interval_cases k
  · show toC (e.1.add o.1) = _
    rw [add_zero_err h, e0, o0, ker16, if_pos (by norm_num), w0, one_mul]
  · show toC (e.2.1.add t1) = _
    rw [add_zero_err h, mul_zero_err h, w1, e1, o1, ker16, if_pos (by norm_num), mul_comm]
  · show toC (e.2.2.1.add t2) = _
    rw [add_zero_err h, mul_zero_err h, w2, e2, o2, ker16, if_pos (by norm_num), mul_comm]
  · show toC (e.2.2.2.1.add t3) = _
    rw [add_zero_err h, mul_zero_err h, w3, e3, o3, ker16, if_pos (by norm_num), mul_comm]
  · show toC (e.2.2.2.2.1.add t4) = _
    rw [add_zero_err h, mul_zero_err h, w4, e4, o4, ker16, if_pos (by norm_num), mul_comm]
  · show toC (e.2.2.2.2.2.1.add t5) = _
    rw [add_zero_err h, mul_zero_err h, w5, e5, o5, ker16, if_pos (by norm_num), mul_comm]
  · show toC (e.2.2.2.2.2.2.1.add t6) = _
    rw [add_zero_err h, mul_zero_err h, w6, e6, o6, ker16, if_pos (by norm_num), mul_comm]
  · show toC (e.2.2.2.2.2.2.2.add t7) = _
    rw [add_zero_err h, mul_zero_err h, w7, e7, o7, ker16, if_pos (by norm_num), mul_comm]
  · show toC (e.1.sub o.1) = _
    rw [sub_zero_err h, e0, o0, ker16, if_neg (by norm_num), show 8 - 8 = 0 by rfl, w0, one_mul]
  · show toC (e.2.1.sub t1) = _
    rw [sub_zero_err h, mul_zero_err h, w1, e1, o1, ker16, if_neg (by norm_num), show 9 - 8 = 1 by rfl, mul_comm]
  · show toC (e.2.2.1.sub t2) = _
    rw [sub_zero_err h, mul_zero_err h, w2, e2, o2, ker16, if_neg (by norm_num), show 10 - 8 = 2 by rfl, mul_comm]
  · show toC (e.2.2.2.1.sub t3) = _
    rw [sub_zero_err h, mul_zero_err h, w3, e3, o3, ker16, if_neg (by norm_num), show 11 - 8 = 3 by rfl, mul_comm]
  · show toC (e.2.2.2.2.1.sub t4) = _
    rw [sub_zero_err h, mul_zero_err h, w4, e4, o4, ker16, if_neg (by norm_num), show 12 - 8 = 4 by rfl, mul_comm]
  · show toC (e.2.2.2.2.2.1.sub t5) = _
    rw [sub_zero_err h, mul_zero_err h, w5, e5, o5, ker16, if_neg (by norm_num), show 13 - 8 = 5 by rfl, mul_comm]
  · show toC (e.2.2.2.2.2.2.1.sub t6) = _
    rw [sub_zero_err h, mul_zero_err h, w6, e6, o6, ker16, if_neg (by norm_num), show 14 - 8 = 6 by rfl, mul_comm]
  · show toC (e.2.2.2.2.2.2.2.sub t7) = _
    rw [sub_zero_err h, mul_zero_err h, w7, e7, o7, ker16, if_neg (by norm_num), show 15 - 8 = 7 by rfl, mul_comm]

/-- Kernel, conjugation, kernel at bin 2. -/
theorem ker16_twice (s c d : ℝ) (b : ℕ → ℂ) :
    (starRingEnd ℂ) (ker16 s c d (fun i => (starRingEnd ℂ) (ker16 s c d b i)) 2) =
      8 * (b 2 + b 10) + 16 * s ^ 2 * (b 2 - b 10) := by
  have key := ker8_twice s (fun t => b (2 * t))
  set h := ker8 s (fun t => b (2 * t)) with hh
  set g := ker8 s (fun t => b (2 * t + 1)) with hg
  have B : ∀ j, j < 8 → ker16 s c d b j = h j + tw16 s c d j * g j := fun j hj => by rw [ker16, if_pos hj]
  have B8 : ∀ j, j < 8 → ker16 s c d b (j + 8) = h j - tw16 s c d j * g j := fun j hj => by
    rw [ker16, if_neg (by omega), Nat.add_sub_cancel]
  have P : ∀ j, j < 8 → ker16 s c d b j + ker16 s c d b (j + 8) = 2 * h j := fun j hj => by
    rw [B j hj, B8 j hj]; ring
  have p0 := P 0 (by norm_num)
  have p1 := P 1 (by norm_num)
  have p2 := P 2 (by norm_num)
  have p3 := P 3 (by norm_num)
  have p4 := P 4 (by norm_num)
  have p5 := P 5 (by norm_num)
  have p6 := P 6 (by norm_num)
  have p7 := P 7 (by norm_num)
  clear B B8 P
  clear_value h g
  generalize ker16 s c d b = q at *
  rw [ker16, if_pos (by norm_num)]
  simp only [ker8, tw16, map_add, map_sub, map_mul, map_neg, conj_I, conj_conj, conj_ofReal, map_one] at key ⊢
  norm_num at p0 p1 p2 p3 p4 p5 p6 p7 key ⊢
  have : 8 * (b 2 + b 10) + 16 * (s : ℂ) ^ 2 * (b 2 - b 10) =
    2 * (4 * (b 2 + b 10) + 8 * (s : ℂ) ^ 2 * (b 2 - b 10)) := by ring
  rw [this, ← key]
  have h2 : I ^ 2 = -1 := I_sq
  linear_combination p0 - p4 + I * (p2 - p6) + s * (1 + I) * (p1 - p5 + I * (p3 - p7))

end Kofft

namespace Kofft
open Spec Complex Finset

variable [F : Flt ℝ] {v : ℝ}

set_option maxHeartbeats 1000000 in
/-- The chirp transform run on an arbitrary power-of-two transform `ker`, all other arithmetic exact. -/
theorem bluOut_ker (h : Rounding F 0 v 0) (cfg : Cfg) (x : List (Cx ℝ)) (ker : (ℕ → ℂ) → ℕ → ℂ)
    (hcongr : ∀ a b : ℕ → ℂ, (∀ t, t < bluM x.length → a t = b t) → ∀ k, ker a k = ker b k)
    (hpow : ∀ y : List (Cx ℝ), y.length = bluM x.length → ∀ k, k < y.length →
      toC ((freshPow cfg y).getD k Cx.zero) = ker (fun t => toC (y.getD t Cx.zero)) k)
    (k : Nat) (hk : k < x.length) :
    toC ((bluOut cfg x).getD k Cx.zero) = (starRingEnd ℂ) (ker (fun i => (starRingEnd ℂ)
      (ker (fun t => if t < x.length then toC (x.getD t Cx.zero) * toC (chirpAt x.length t) else 0) i *
        ker (fun t => toC (bAt x.length t)) i)) k) / bluM x.length * toC (chirpAt x.length k) := by
  have hmul := mul_zero_err h
  have hmulR : ∀ a b : ℝ, F.mul a b = a * b := fun a b => by
    have := h.mul a b
    rw [zero_mul] at this
    exact sub_eq_zero.mp (abs_nonpos_iff.mp this)
  have hrec : F.div F.one (F.ofNat (bluM x.length)) = 1 / (bluM x.length : ℝ) := by
    have hmp : isPow2 (bluM x.length) = true := bluM_pow2 _
    have := (rnd_recip h (isPow2_pos hmp)).1
    rw [scaleGrowth, if_pos hmp] at this
    simp only [add_zero, one_pow, div_one, sub_self, zero_mul] at this
    exact sub_eq_zero.mp (abs_nonpos_iff.mp this)
  set n := x.length with hnx
  set m := bluM n with hm
  have hmge : 2 * n - 1 ≤ m := bluM_ge n
  have hmp : isPow2 m = true := bluM_pow2 n
  have hm0 : 0 < m := isPow2_pos hmp
  set A := bluA n m m (fun i => x.getD i Cx.zero) (fun _ => Cx.zero) with hA
  have hAl : A.length = m := by simp [hA, bluA]
  set B := tab m (bAt (T := ℝ) n) with hB
  have hBl : B.length = m := by simp [hB]
  let a : ℕ → ℂ := fun t => if t < n then toC (x.getD t Cx.zero) * toC (chirpAt n t) else 0
  let b : ℕ → ℂ := fun t => toC (bAt n t)
  set FA := freshPow cfg A with hFA
  set FB := freshPow cfg B with hFB
  have hFAl : FA.length = m := by rw [hFA, freshPow_length cfg A (by rw [hAl]; exact hmp), hAl]
  have hFBl : FB.length = m := by rw [hFB, freshPow_length cfg B (by rw [hBl]; exact hmp), hBl]
  have eFA : ∀ j, j < m → toC (FA.getD j Cx.zero) = ker a j := by
    intro j hj
    rw [hpow A hAl j (by omega)]
    apply hcongr
    intro t ht
    show toC (A.getD t Cx.zero) = if t < n then _ else _
    rw [hA, bluA, tab_getD ht]
    split
    · rw [hmul]
    · exact rnd_zero h
  have eFB : ∀ j, j < m → toC (FB.getD j Cx.zero) = ker b j := by
    intro j hj
    rw [hpow B hBl j (by omega)]
    apply hcongr
    intro t ht
    rw [hB, tab_getD ht]
  set M := bluMid FA FB with hM
  have hMtab : M = tab m (fun i => ((FA.getD i Cx.zero).mul (FB.getD i Cx.zero)).conj) := by
    have t1 : FA = tab m (fun i => FA.getD i Cx.zero) := by
      conv_lhs => rw [eq_tab_getD FA Cx.zero, hFAl]
    have t2 : FB = tab m (fun i => FB.getD i Cx.zero) := by
      conv_lhs => rw [eq_tab_getD FB Cx.zero, hFBl]
    have : M = (copyPrefix (List.zipWith Cx.mul (tab m fun i => FA.getD i Cx.zero)
        (tab m fun i => FB.getD i Cx.zero)) (tab m fun i => FA.getD i Cx.zero)).map Cx.conj := by
      rw [← t1, ← t2, hM]; rfl
    rw [this, tab_zipWith, (copyN_tab (m := m) le_rfl le_rfl).1, tab_map]
    apply tab_congr
    intro i hi
    simp [hi]
  have hMl : M.length = m := by rw [hMtab]; simp
  set R := freshPow cfg M with hR
  have eR : ∀ j, j < m → toC (R.getD j Cx.zero) = ker (fun i => (starRingEnd ℂ) (ker a i * ker b i)) j := by
    intro j hj
    rw [hR, hpow M hMl j (by omega)]
    apply hcongr
    intro t ht
    rw [hMtab, tab_getD ht, rnd_conj h, hmul, eFA t ht, eFB t ht]
  have hout : bluOut cfg x = bluPost n m R := rfl
  rw [hout, bluPost, tab_getD hk, hmul]
  congr 1
  have : toC (⟨F.mul (R.getD k Cx.zero).conj.re (F.div F.one (F.ofNat m)),
      F.mul (R.getD k Cx.zero).conj.im (F.div F.one (F.ofNat m))⟩ : Cx ℝ) =
      toC (R.getD k Cx.zero).conj / (m : ℂ) := by
    rw [hrec, hmulR, hmulR]
    apply Complex.ext
    · rw [show (m : ℂ) = ((m : ℝ) : ℂ) by simp, Complex.div_ofReal_re]; simp [toC]; ring
    · rw [show (m : ℂ) = ((m : ℝ) : ℂ) by simp, Complex.div_ofReal_im]; simp [toC]; ring
  refine this.trans ?_
  rw [rnd_conj h, eR k (by omega)]

end Kofft
