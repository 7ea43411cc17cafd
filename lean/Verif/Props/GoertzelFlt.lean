import Verif.Spec.Nearest
import Verif.Spec.GoertzelErr
import Verif.Lib.RndFlt
import Verif.Proof.RoundTrig
import Verif.Props.Czt
/-
C104: `goertzel_f32` in floating point.
-/
namespace Kofft.Props

open Spec Finset

section nearest

variable {p : ℕ}

theorem nearest_exact {x y : ℝ} (hx : IsRepr p x) (h : Nearest p x y) : y = x := by
  have := h.2 x hx
  rw [sub_self, abs_zero] at this
  exact sub_eq_zero.mp (abs_eq_zero.mp (le_antisymm this (abs_nonneg _)))

theorem repr_int (m : ℤ) (h : |m| < 2 ^ p) : IsRepr p m := ⟨m, 0, h, by simp⟩

/-- the number rounded to, when there is no tie -/
theorem nearest_unique {x y : ℝ} {m e : ℤ} (h1 : 2 ^ p + 2 ≤ 2 * m) (h2 : m < 2 ^ p)
    (hx : 2 * |x - m * (2 : ℝ) ^ e| < 2 ^ e) (h : Nearest p x y) : y = m * (2 : ℝ) ^ e := by
  obtain ⟨⟨k, f, hk, rfl⟩, hn⟩ := h
  have h2e : (0 : ℝ) < 2 ^ e := zpow_pos (by norm_num) _
  have hm : 0 < m := by have : (0 : ℤ) < 2 ^ p := by positivity
                        omega
  have h3 := hn (m * (2 : ℝ) ^ e) ⟨m, e, by rwa [abs_of_pos hm], rfl⟩
  have h4 : |(k : ℝ) * 2 ^ f - m * 2 ^ e| < 2 ^ e := by
    have := abs_sub_le ((k : ℝ) * 2 ^ f) x (m * 2 ^ e)
    rw [abs_sub_comm] at h3
    rw [abs_sub_comm ((m : ℝ) * 2 ^ e)] at h3
    rw [abs_sub_comm ((k : ℝ) * 2 ^ f) x] at this
    linarith
  by_cases hf : e ≤ f
  · obtain ⟨d, hd⟩ := Int.eq_ofNat_of_zero_le (sub_nonneg.mpr hf)
    have ef : (2 : ℝ) ^ f = 2 ^ d * 2 ^ e := by
      rw [show f = d + e by omega, zpow_add₀ (by norm_num), zpow_natCast]
    rw [ef] at h4 ⊢
    have h5 : |((k * 2 ^ d - m : ℤ) : ℝ)| < 1 := by
      have e1 : (k : ℝ) * (2 ^ d * 2 ^ e) - m * 2 ^ e = ((k * 2 ^ d - m : ℤ) : ℝ) * 2 ^ e := by push_cast; ring
      rw [e1, abs_mul, abs_of_pos h2e] at h4
      exact lt_of_mul_lt_mul_right (by linarith) h2e.le
    have h6 : |k * 2 ^ d - m| < 1 := by exact_mod_cast h5
    have h7 : k * 2 ^ d = m := by rw [abs_lt] at h6; omega
    rw [← h7]; push_cast; ring
  · exfalso
    have h5 : (2 : ℝ) ^ f ≤ 2 ^ e / 2 := by
      have : (2 : ℝ) ^ f ≤ 2 ^ (e - 1) := zpow_le_zpow_right₀ (by norm_num) (by omega)
      rw [zpow_sub₀ (by norm_num)] at this
      simpa using this
    have hkr : (k : ℝ) ≤ 2 ^ p := by
      have : k ≤ 2 ^ p := (le_abs_self k).trans hk.le
      exact_mod_cast this
    have hmr : (2 : ℝ) ^ p + 2 ≤ 2 * m := by exact_mod_cast h1
    have h2f : (0 : ℝ) < 2 ^ f := zpow_pos (by norm_num) _
    have h6 : (k : ℝ) * 2 ^ f ≤ 2 ^ p * (2 ^ e / 2) :=
      (mul_le_mul_of_nonneg_right hkr h2f.le).trans (mul_le_mul_of_nonneg_left h5 (by positivity))
    have h7 := (abs_lt.mp h4).1
    nlinarith

/-- rounding to `p` bits is rounding to nearest -/
theorem rnd_nearest (hp : 1 ≤ p) (x : ℝ) : Nearest p x (rnd p x) := by
  by_cases hx : x = 0
  · subst hx
    have : rnd p 0 = 0 := by simp [rnd]
    rw [this]
    exact ⟨⟨0, 0, by simp, by simp⟩, fun z _ => by simp⟩
  have hx' : 0 < |x| := abs_pos.mpr hx
  unfold rnd
  set e := Int.log 2 |x| - p + 1 with he
  have h2 : (0 : ℝ) < 2 ^ e := zpow_pos (by norm_num) _
  have lo : ((2 : ℕ) : ℝ) ^ Int.log 2 |x| ≤ |x| := Int.zpow_log_le_self (by norm_num) hx'
  have hi : |x| < ((2 : ℕ) : ℝ) ^ (Int.log 2 |x| + 1) := Int.lt_zpow_succ_log_self (by norm_num) _
  have elo : ((2 : ℕ) : ℝ) ^ Int.log 2 |x| = ((2 ^ (p - 1) : ℤ) : ℝ) * 2 ^ e := by
    push_cast
    rw [← zpow_natCast, ← zpow_add₀ (by norm_num)]
    congr 1; omega
  have ehi : ((2 : ℕ) : ℝ) ^ (Int.log 2 |x| + 1) = ((2 ^ p : ℤ) : ℝ) * 2 ^ e := by
    push_cast
    rw [← zpow_natCast, ← zpow_add₀ (by norm_num)]
    congr 1; omega
  rw [elo] at lo
  rw [ehi] at hi
  set y := x / (2 : ℝ) ^ e with hy
  have hxy : x = y * 2 ^ e := by rw [hy, div_mul_cancel₀ _ h2.ne']
  have hay : |x| = |y| * 2 ^ e := by rw [hxy, abs_mul, abs_of_pos h2]
  have ylo : ((2 ^ (p - 1) : ℤ) : ℝ) ≤ |y| := le_of_mul_le_mul_right (by rw [← hay]; exact lo) h2
  have yhi : |y| < ((2 ^ p : ℤ) : ℝ) := lt_of_mul_lt_mul_right (by rw [← hay]; exact hi) h2.le
  constructor
  · have hr : |round y| ≤ 2 ^ p := by
      rw [abs_le]
      have := abs_lt.mp yhi
      have h3 := abs_le.mp (abs_sub_round y)
      constructor
      · have : ((-(2 ^ p) : ℤ) : ℝ) - 1 < round y := by push_cast at *; linarith
        have : ((-(2 ^ p) - 1 : ℤ) : ℝ) < round y := by push_cast at *; linarith
        have := Int.cast_lt.mp this
        omega
      · have : (round y : ℝ) < ((2 ^ p + 1 : ℤ) : ℝ) := by push_cast at *; linarith
        have := Int.cast_lt.mp this
        omega
    rcases lt_or_eq_of_le hr with h | h
    · exact ⟨round y, e, h, rfl⟩
    · have h1p : (1 : ℤ) < 2 ^ p := by
        calc (1 : ℤ) < 2 ^ 1 := by norm_num
          _ ≤ 2 ^ p := pow_le_pow_right₀ (by norm_num) hp
      have hpz : (2 : ℝ) ^ ((p : ℤ) + e) = 2 ^ p * 2 ^ e := by
        rw [zpow_add₀ (by norm_num), zpow_natCast]
      rcases (abs_eq (by positivity)).mp h with h | h
      · exact ⟨1, p + e, by simpa using h1p, by rw [h, hpz]; push_cast; ring⟩
      · exact ⟨-1, p + e, by simpa using h1p, by rw [h, hpz]; push_cast; ring⟩
  · rintro _ ⟨k, f, hk, rfl⟩
    -- distance to any multiple of the spacing
    have key : ∀ i : ℤ, |(round y : ℝ) * 2 ^ e - x| ≤ |(i : ℝ) * 2 ^ e - x| := by
      intro i
      rw [hxy, ← sub_mul, ← sub_mul, abs_mul, abs_mul, abs_of_pos h2]
      refine mul_le_mul_of_nonneg_right ?_ h2.le
      rw [abs_sub_comm, abs_sub_comm (i : ℝ)]
      exact round_le y i
    by_cases hf : e ≤ f
    · obtain ⟨d, hd⟩ := Int.eq_ofNat_of_zero_le (sub_nonneg.mpr hf)
      have ef : (2 : ℝ) ^ f = 2 ^ d * 2 ^ e := by
        rw [show f = d + e by omega, zpow_add₀ (by norm_num), zpow_natCast]
      have := key (k * 2 ^ d)
      rw [ef]
      push_cast at this
      rwa [mul_assoc] at this
    · have h5 : (2 : ℝ) ^ f ≤ 2 ^ e / 2 := by
        have : (2 : ℝ) ^ f ≤ 2 ^ (e - 1) := zpow_le_zpow_right₀ (by norm_num) (by omega)
        rw [zpow_sub₀ (by norm_num)] at this
        simpa using this
      have hpp : (2 : ℝ) ^ p = 2 * 2 ^ (p - 1) := by
        rw [← pow_succ', Nat.sub_add_cancel hp]
      have hz : |(k : ℝ) * 2 ^ f| ≤ 2 ^ (p - 1) * 2 ^ e := by
        rw [abs_mul, abs_of_pos (zpow_pos (by norm_num : (0 : ℝ) < 2) f)]
        have hkr : |(k : ℝ)| ≤ 2 ^ p := by exact_mod_cast hk.le
        have := mul_le_mul hkr h5 (zpow_pos (by norm_num : (0 : ℝ) < 2) f).le (by positivity)
        rw [hpp] at this
        linarith
      push_cast at lo
      have h6 : |x| - 2 ^ (p - 1) * 2 ^ e ≤ |(k : ℝ) * 2 ^ f - x| := by
        have := abs_sub_abs_le_abs_sub x ((k : ℝ) * 2 ^ f)
        rw [abs_sub_comm] at this
        linarith
      rcases le_or_gt 0 x with hs | hs
      · have := key (2 ^ (p - 1))
        push_cast at this
        rw [abs_of_nonneg hs] at lo h6
        rw [abs_of_nonpos (by linarith : (2 : ℝ) ^ (p - 1) * 2 ^ e - x ≤ 0)] at this
        linarith
      · have := key (-2 ^ (p - 1))
        push_cast at this
        rw [abs_of_neg hs] at lo h6
        rw [abs_of_nonneg (by linarith : 0 ≤ -(2 : ℝ) ^ (p - 1) * 2 ^ e - x)] at this
        linarith

/-- The rounding arithmetic rounds to nearest. -/
theorem rndFlt_nearest (hp : 11 ≤ p) (fused fma : Bool) :
    RoundsToNearest p (rndFlt p p fused fma) where
  add := fun _ _ => rnd_nearest (by omega) _
  sub := fun _ _ => rnd_nearest (by omega) _
  mul := fun _ _ => rnd_nearest (by omega) _
  div := fun _ _ _ => rnd_nearest (by omega) _
  zero := rfl
  one := rfl
  abs := fun _ => rfl
  ofNatD := fun _ => rnd_nearest (by omega) _
  two := (rndFlt_rounding p p hp (by omega) fused fma).two
  ofNat := fun _ => rnd_nearest (by omega) _
  floor := fun _ => rfl
  toNat := fun _ => rfl
  cos_zero := by
    show rnd p (Real.cos 0) = 1
    rw [Real.cos_zero]
    simpa using rnd_nat p 1 (Nat.one_lt_two_pow (by omega))
  le := fun _ _ => decide_eq_true_iff

end nearest

section negative

variable [F : Flt ℝ]

/-- C104: **the square root is taken of a negative number.** In every arithmetic with the 24 significant bits of `f32`
that rounds to nearest, whatever it does with ties, the signal `[11863283, -11863279]` (two integers that `f32`
represents exactly) at frequency 0 gives the radicand `-33554432`, at every positive sample rate: the function returns
`sqrt(-33554432.0)`, which is NaN. No operation overflows, no value is special. -/
theorem goertzel_nan (h : RoundsToNearest 24 F) (sr : ℝ) (hsr : 0 < sr) :
    goertzelPower [11863283, -11863279] sr 0 = (-33554432 : ℝ) ∧
    goertzel [11863283, -11863279] sr 0 = .ok (Flt.sqrt (-33554432 : ℝ)) := by
  have r0 : IsRepr 24 0 := ⟨0, 0, by norm_num, by simp⟩
  have ex : ∀ {x y : ℝ} (m : ℤ), x = m → |m| < 2 ^ 24 → Nearest 24 x y → y = m := fun m e hm hn => by
    subst e; exact nearest_exact (repr_int m hm) hn
  have hc : goertzelCoeff 2 sr 0 = (2 : ℝ) := by
    unfold goertzelCoeff two
    have eN : F.ofNat 2 = 2 := by simpa using ex 2 (by norm_num) (by norm_num) (h.ofNat 2)
    simp only [eN, h.two]
    have e1 : F.mul 0 2 = 0 := by simpa using ex 0 (by simp) (by norm_num) (h.mul 0 2)
    have e2 : F.div 0 sr = 0 := by simpa using ex 0 (by simp) (by norm_num) (h.div 0 sr hsr.ne')
    have e3 : F.floor 0 = 0 := by rw [h.floor]; simp
    have e4 : ∀ a, F.mul a 0 = 0 := fun a => by simpa using ex 0 (by simp) (by norm_num) (h.mul a 0)
    have e5 : F.div 0 2 = 0 := by simpa using ex 0 (by simp) (by norm_num) (h.div 0 2 (by norm_num))
    have e6 : F.mul 2 1 = 2 := by simpa using ex 2 (by norm_num) (by norm_num) (h.mul 2 1)
    rw [e1, e2, e3, e4, e5, h.cos_zero, e6]
  have hp : goertzelPower [11863283, -11863279] sr 0 = (-33554432 : ℝ) := by
    unfold goertzelPower
    simp only [List.length_cons, List.length_nil, List.foldl_cons, List.foldl_nil, goertzelStep, h.zero]
    rw [show 0 + 1 + 1 = 2 from rfl, hc]
    have a1 : F.mul 2 0 = 0 := by simpa using ex 0 (by simp) (by norm_num) (h.mul 2 0)
    have a2 : F.add 11863283 0 = 11863283 := by
      simpa using ex 11863283 (by norm_num) (by norm_num) (h.add 11863283 0)
    have a3 : F.sub 11863283 0 = 11863283 := by
      simpa using ex 11863283 (by norm_num) (by norm_num) (h.sub 11863283 0)
    have a4 : F.mul 2 11863283 = 23726566 := by
      rw [nearest_exact ⟨11863283, 1, by norm_num, by norm_num⟩ (h.mul 2 11863283)]; norm_num
    have a5 : F.add (-11863279) 23726566 = 11863287 := by
      simpa using ex 11863287 (by norm_num) (by norm_num) (h.add (-11863279) 23726566)
    have a6 : F.sub 11863287 0 = 11863287 := by
      simpa using ex 11863287 (by norm_num) (by norm_num) (h.sub 11863287 0)
    have b1 := nearest_unique (m := 16777215) (e := 23) (by norm_num) (by norm_num) (by norm_num [abs_lt])
      (h.mul 11863283 11863283)
    have b2 := nearest_unique (m := 8388613) (e := 24) (by norm_num) (by norm_num) (by norm_num [abs_lt])
      (h.mul 11863287 11863287)
    have b3 := nearest_unique (m := 8388610) (e := 25) (by norm_num) (by norm_num) (by norm_num [abs_lt])
      (h.add (16777215 * 2 ^ 23) (8388613 * 2 ^ 24))
    have b4 : F.mul 2 11863287 = 23726574 := by
      rw [nearest_exact ⟨11863287, 1, by norm_num, by norm_num⟩ (h.mul 2 11863287)]; norm_num
    have b5 := nearest_unique (m := 8388611) (e := 25) (by norm_num) (by norm_num) (by norm_num [abs_lt])
      (h.mul 23726574 11863283)
    have b6 := nearest_exact ⟨-1, 25, by norm_num, by norm_num⟩ (h.sub (8388610 * 2 ^ 25) (8388611 * 2 ^ 25))
    norm_num at b1 b2 b3 b5 b6
    rw [a1, a2, a3, a4, a5, a6, b1, b2, b3, b4, b5, b6]
  refine ⟨hp, ?_⟩
  have hle : F.le sr 0 = false := by
    rw [Bool.eq_false_iff]; exact fun hh => absurd ((h.le _ _).1 hh) (not_le.2 hsr)
  unfold goertzel
  simp only [h.zero, hle, List.length_cons, List.length_nil, Bool.false_eq_true, if_false]
  rw [if_neg (by norm_num), hp]

/-- C104: **the bin below.** The textbook block of 205 samples at 8000 Hz: the `f32` nearest to the frequency of bin 29
(`29 · 8000 / 205`) gives, for every signal, the very same answer as that of bin 28: the bin is found by rounding down. -/
theorem goertzel_bin_below (h : RoundsToNearest 24 F) (x : List ℝ) (hx : x.length = 205) (f28 f29 : ℝ)
    (h28 : Nearest 24 (28 * 8000 / 205) f28) (h29 : Nearest 24 (29 * 8000 / 205) f29) :
    goertzel x 8000 f29 = goertzel x 8000 f28 := by
  have a28 := nearest_unique (m := 8951259) (e := -13) (by norm_num) (by norm_num) (by norm_num [abs_lt]) h28
  have a29 := nearest_unique (m := 9270946) (e := -13) (by norm_num) (by norm_num) (by norm_num [abs_lt]) h29
  have hn : F.ofNat 205 = 205 := by
    have := nearest_exact (repr_int (p := 24) 205 (by norm_num)) (y := F.ofNat 205) (by simpa using h.ofNat 205)
    simpa using this
  have b28 := nearest_unique (m := 14336001) (e := -6) (by norm_num) (by norm_num) (by norm_num [abs_lt])
    (h.mul (8951259 * 2 ^ (-13 : ℤ)) 205)
  have b29 := nearest_unique (m := 14847999) (e := -6) (by norm_num) (by norm_num) (by norm_num [abs_lt])
    (h.mul (9270946 * 2 ^ (-13 : ℤ)) 205)
  have c28 := nearest_unique (m := 14680065) (e := -19) (by norm_num) (by norm_num) (by norm_num [abs_lt])
    (h.div (14336001 * 2 ^ (-6 : ℤ)) 8000 (by norm_num))
  have c29 := nearest_unique (m := 15204351) (e := -19) (by norm_num) (by norm_num) (by norm_num [abs_lt])
    (h.div (14847999 * 2 ^ (-6 : ℤ)) 8000 (by norm_num))
  have k28 : F.floor (F.div (F.mul f28 205) 8000) = 28 := by
    norm_num at a28 b28 c28
    rw [a28, b28, c28, h.floor]
    have : ⌊(14680065 / 524288 : ℝ)⌋ = 28 := by rw [Int.floor_eq_iff]; norm_num
    rw [this]; norm_num
  have k29 : F.floor (F.div (F.mul f29 205) 8000) = 28 := by
    norm_num at a29 b29 c29
    rw [a29, b29, c29, h.floor]
    have : ⌊(15204351 / 524288 : ℝ)⌋ = 28 := by rw [Int.floor_eq_iff]; norm_num
    rw [this]; norm_num
  unfold goertzel goertzelPower goertzelCoeff
  simp only [hx, hn, k28, k29]

end negative

/-- The arithmetic of the hypotheses exists: rounding to 24 bits. The exact magnitude is 4. -/
example : (letI := rndFlt 24 24 true true; goertzelPower [11863283, -11863279] (44100 : ℝ) 0 = (-33554432 : ℝ)) ∧
    ((11863283 : ℝ) + -11863279 = 4) :=
  ⟨letI := rndFlt 24 24 true true
   (goertzel_nan (rndFlt_nearest (by norm_num) true true) 44100 (by norm_num)).1, by norm_num⟩

example (x : List ℝ) (hx : x.length = 205) : letI := rndFlt 24 24 true true
    goertzel x 8000 (rnd 24 (29 * 8000 / 205)) = goertzel x 8000 (rnd 24 (28 * 8000 / 205)) :=
  letI := rndFlt 24 24 true true
  goertzel_bin_below (rndFlt_nearest (by norm_num) true true) x hx _ _ (rnd_nearest (by norm_num) _)
    (rnd_nearest (by norm_num) _)

section accuracy

variable [F : Flt ℝ] {u v t : ℝ}

theorem goertzelCoeff_rnd (h : Rounding F u v t) (hu : u ≤ 1 / 100) (n : ℕ) (hn : 0 < n) (sr f : ℝ) (k : ℤ)
    (hk : F.floor (F.div (F.mul f (F.ofNat n)) sr) = k) (hkn : |k| ≤ n) :
    |goertzelCoeff n sr f - 2 * Real.cos (2 * Real.pi * k / n)| ≤ goertzelCoefErr u v t := by
  have hu0 := h.u_nonneg
  have hn' : (n : ℝ) ≠ 0 := by positivity
  unfold goertzelCoeff two
  simp only [hk, h.two]
  set ω := F.div (F.mul (F.mul 2 F.pi) k) (F.ofNat n) with hω
  have hpi : RApx (1 + u) F.pi Real.pi |Real.pi| := RApx.rel (by linarith) (by
    rw [abs_of_pos Real.pi_pos]; simpa using h.pi)
  have h2 := (RApx.refl 2).mul hpi hu0 (h.mul 2 F.pi)
  have h3 := h2.mul (RApx.refl (k : ℝ)) hu0 (h.mul _ _)
  obtain ⟨hz, h4⟩ := RApx.inv hn' h.v_nonneg h.v_lt_one (a := F.ofNat n) (by
    rw [Nat.abs_cast]; exact h.ofNat n)
  have h5 := h3.mul h4 hu0 (c := ω) (by
    rw [← div_eq_mul_inv]; exact h.div _ _ hz)
  have e1 : 2 * Real.pi * (k : ℝ) * (n : ℝ)⁻¹ = 2 * Real.pi * k / n := (div_eq_mul_inv _ _).symm
  rw [e1] at h5
  have e2 : 1 * (1 + u) * (1 + u) * 1 * (1 + u) * (1 / (1 - v)) * (1 + u) = (1 + u) ^ 4 / (1 - v) := by ring
  rw [e2] at h5
  have hw : |(2 : ℝ)| * |Real.pi| * |(k : ℝ)| * |(n : ℝ)⁻¹| ≤ 2 * Real.pi := by
    have hk' : |(k : ℝ)| ≤ n := by exact_mod_cast hkn
    rw [abs_two, abs_of_pos Real.pi_pos, abs_inv, Nat.abs_cast]
    have : |(k : ℝ)| * (n : ℝ)⁻¹ ≤ 1 := by
      rw [← div_eq_mul_inv, div_le_one (by positivity)]; exact hk'
    nlinarith [Real.pi_pos]
  have h6 := RApx.abs_err (Apx.weight h5 hw)
  have h7 := h.cos ω
  have h8 : |Real.cos ω - Real.cos (2 * Real.pi * k / n)| ≤ |ω - 2 * Real.pi * k / n| :=
    Real.abs_cos_sub_cos_le ω _
  have h9 := h.mul 2 (F.cos ω)
  have h10 : |F.cos ω| ≤ 1 + t := by
    have := abs_sub_abs_le_abs_sub (F.cos ω) (Real.cos ω)
    have := Real.abs_cos_le_one ω
    linarith
  rw [abs_mul, abs_two] at h9
  have h11 := abs_sub_le (F.mul 2 (F.cos ω)) (2 * F.cos ω) (2 * Real.cos (2 * Real.pi * k / n))
  have h12 : |2 * F.cos ω - 2 * Real.cos (2 * Real.pi * k / n)| =
      2 * |F.cos ω - Real.cos (2 * Real.pi * k / n)| := by rw [← mul_sub, abs_mul, abs_two]
  have h13 := abs_sub_le (F.cos ω) (Real.cos ω) (Real.cos (2 * Real.pi * k / n))
  unfold goertzelCoefErr
  have h14 := mul_le_mul_of_nonneg_left h10 hu0
  linarith

/-- One step of the recurrence: error relative to the largest value. -/
theorem goertzelStep_rnd (h : Rounding F u v t) (hu : u ≤ 1 / 100) {ĉ c δ M : ℝ} (hc : |ĉ - c| ≤ δ) (hc3 : |ĉ| ≤ 3)
    (s : ℝ × ℝ) (x : ℝ) (h1 : |s.1| ≤ M) (h2 : |s.2| ≤ M) (hx : |x| ≤ M) :
    |(goertzelStep ĉ s x).1 - (x + c * s.1 - s.2)| ≤ (16 * u + δ) * M := by
  have hu0 := h.u_nonneg
  have hM : 0 ≤ M := (abs_nonneg _).trans hx
  have a1 := h.mul ĉ s.1
  set p := F.mul ĉ s.1 with hp
  have a2 := h.add x p
  set q := F.add x p with hq
  have a3 := h.sub q s.2
  show |F.sub q s.2 - _| ≤ _
  have b1 : |ĉ * s.1| ≤ 3 * M := by rw [abs_mul]; exact mul_le_mul hc3 h1 (abs_nonneg _) (by norm_num)
  have b2 : |p| ≤ 3 * M + u * (3 * M) := by
    have := abs_sub_abs_le_abs_sub p (ĉ * s.1)
    nlinarith
  have b3 : |x + p| ≤ 4 * M + u * (3 * M) := (abs_add_le _ _).trans (by linarith)
  have huM : u * M ≤ M / 100 := by nlinarith
  have b4 : |q| ≤ 4.1 * M + u * (4.1 * M) := by
    have := abs_sub_abs_le_abs_sub q (x + p)
    nlinarith
  have b5 : |q - s.2| ≤ 6 * M := (abs_sub _ _).trans (by nlinarith)
  have c1 : |ĉ * s.1 - c * s.1| ≤ δ * M := by
    rw [← sub_mul, abs_mul]; exact mul_le_mul hc h1 (abs_nonneg _) ((abs_nonneg _).trans hc)
  have e : F.sub q s.2 - (x + c * s.1 - s.2) =
      (F.sub q s.2 - (q - s.2)) + (q - (x + p)) + (p - ĉ * s.1) + (ĉ * s.1 - c * s.1) := by ring
  rw [e]
  have d1 := abs_add_le ((F.sub q s.2 - (q - s.2)) + (q - (x + p)) + (p - ĉ * s.1)) (ĉ * s.1 - c * s.1)
  have d2 := abs_add_le ((F.sub q s.2 - (q - s.2)) + (q - (x + p))) (p - ĉ * s.1)
  have d3 := abs_add_le (F.sub q s.2 - (q - s.2)) (q - (x + p))
  have f1 := mul_le_mul_of_nonneg_left b1 hu0
  have f2 := mul_le_mul_of_nonneg_left b3 hu0
  have f3 := mul_le_mul_of_nonneg_left b5 hu0
  nlinarith

/-- the exact recurrence -/
def gStep (c : ℝ) (s : ℝ × ℝ) (x : ℝ) : ℝ × ℝ := (x + c * s.1 - s.2, s.1)

omit F in
theorem gStep_rot (w : ℝ) (a b : ℝ) (e : ℝ) :
    ((e + 2 * Real.cos w * a - b : ℝ) : ℂ) - Complex.exp (-(w * Complex.I)) * a =
      Complex.exp (w * Complex.I) * ((a : ℂ) - Complex.exp (-(w * Complex.I)) * b) + e := by
  have h1 : Complex.exp (w * Complex.I) * Complex.exp (-(w * Complex.I)) = 1 := by
    rw [← Complex.exp_add]; simp
  have h2 : ((2 * Real.cos w : ℝ) : ℂ) = Complex.exp (w * Complex.I) + Complex.exp (-(w * Complex.I)) := by
    push_cast
    rw [Complex.cos]
    rw [show -(w : ℂ) * Complex.I = -(w * Complex.I) by ring]
    ring
  have h3 : ((e + 2 * Real.cos w * a - b : ℝ) : ℂ) = e + ((2 * Real.cos w : ℝ) : ℂ) * a - b := by push_cast; ring
  rw [h3, h2]
  linear_combination (b : ℂ) * h1

omit F in
theorem norm_expI (w : ℝ) : ‖Complex.exp (-(w * Complex.I))‖ = 1 := by
  rw [show -((w : ℂ) * Complex.I) = ((-w : ℝ) : ℂ) * Complex.I by push_cast; ring]
  exact Complex.norm_exp_ofReal_mul_I _

omit F in
/-- The recurrence rotates: the size of `s₁ - e^{-iw} s₂` grows by the input only, that of `s₁` by it. -/
theorem gStep_size (w : ℝ) (a b e A B E : ℝ)
    (hA : ‖(a : ℂ) - Complex.exp (-(w * Complex.I)) * b‖ ≤ A) (hB : |a| ≤ B) (he : |e| ≤ E) :
    ‖((e + 2 * Real.cos w * a - b : ℝ) : ℂ) - Complex.exp (-(w * Complex.I)) * a‖ ≤ A + E ∧
    |e + 2 * Real.cos w * a - b| ≤ B + (A + E) := by
  have h1 : ‖((e + 2 * Real.cos w * a - b : ℝ) : ℂ) - Complex.exp (-(w * Complex.I)) * a‖ ≤ A + E := by
    rw [gStep_rot]
    refine (norm_add_le _ _).trans ?_
    rw [norm_mul, Complex.norm_exp_ofReal_mul_I, one_mul, Complex.norm_real]
    exact add_le_add hA he
  refine ⟨h1, ?_⟩
  have h2 := norm_add_le (((e + 2 * Real.cos w * a - b : ℝ) : ℂ) - Complex.exp (-(w * Complex.I)) * a)
    (Complex.exp (-(w * Complex.I)) * a)
  rw [sub_add_cancel, norm_mul, norm_expI, one_mul, Complex.norm_real, Complex.norm_real, Real.norm_eq_abs,
    Real.norm_eq_abs] at h2
  linarith

/-- Invariant of the recurrence after `j` of the samples. -/
theorem goertzel_states (h : Rounding F u v t) (hu : u ≤ 1 / 100) {w ĉ δ S : ℝ} {n : ℕ}
    (hc : |ĉ - 2 * Real.cos w| ≤ δ) (hc3 : |ĉ| ≤ 3) (hS : 0 ≤ S)
    (hsmall : n * (n + 1) * (16 * u + δ) ≤ 1) :
    ∀ (x : List ℝ) (s ŝ : ℝ × ℝ) (j : ℕ) (S0 : ℝ), j + x.length ≤ n → 0 ≤ S0 → S0 + (x.map abs).sum ≤ S →
      ‖(s.1 : ℂ) - Complex.exp (-(w * Complex.I)) * s.2‖ ≤ S0 → |s.1| ≤ j * S → |s.2| ≤ j * S →
      ‖((ŝ.1 - s.1 : ℝ) : ℂ) - Complex.exp (-(w * Complex.I)) * (ŝ.2 - s.2 : ℝ)‖ ≤ j * ((16 * u + δ) * (2 * n * S)) →
      |ŝ.1 - s.1| ≤ j * (j + 1) / 2 * ((16 * u + δ) * (2 * n * S)) →
      |ŝ.2 - s.2| ≤ j * (j + 1) / 2 * ((16 * u + δ) * (2 * n * S)) →
      let r := x.foldl (gStep (2 * Real.cos w)) s
      let r' := x.foldl (goertzelStep ĉ) ŝ
      ‖(r.1 : ℂ) - Complex.exp (-(w * Complex.I)) * r.2‖ ≤ S ∧
      ‖((r'.1 - r.1 : ℝ) : ℂ) - Complex.exp (-(w * Complex.I)) * (r'.2 - r.2 : ℝ)‖ ≤
        n * ((16 * u + δ) * (2 * n * S)) ∧ |r'.1| ≤ 2 * n * S ∧ |r'.2| ≤ 2 * n * S := by
  have hu0 := h.u_nonneg
  have hδ : 0 ≤ δ := (abs_nonneg _).trans hc
  set κ := 16 * u + δ with hκ
  have hκ0 : 0 ≤ κ := by rw [hκ]; linarith
  have hE0 : 0 ≤ κ * (2 * n * S) := by positivity
  -- the computed values stay in range
  have range : ∀ (j : ℕ) (a b : ℝ), j ≤ n → |a| ≤ j * S → |b - a| ≤ j * (j + 1) / 2 * (κ * (2 * n * S)) →
      |b| ≤ 2 * n * S := by
    intro j a b hj ha hb
    have hj' : (j : ℝ) ≤ n := by exact_mod_cast hj
    have h1 := abs_sub_abs_le_abs_sub b a
    have h2 : (j : ℝ) * S ≤ n * S := mul_le_mul_of_nonneg_right hj' hS
    have h3 : (j : ℝ) * (j + 1) / 2 * (κ * (2 * n * S)) ≤ n * (n + 1) / 2 * (κ * (2 * n * S)) := by
      apply mul_le_mul_of_nonneg_right _ hE0
      have : (0 : ℝ) ≤ j := by positivity
      nlinarith
    have h4 : (n : ℝ) * (n + 1) / 2 * (κ * (2 * n * S)) = (n * (n + 1) * κ) * (n * S) := by ring
    have h5 : (n * (n + 1) * κ) * (n * S) ≤ 1 * (n * S) := mul_le_mul_of_nonneg_right hsmall (by positivity)
    linarith
  intro x
  induction x with
  | nil =>
    intro s ŝ j S0 hj hS0 hsum h1 h2 h3 h4 h5 h6
    simp only [List.length_nil, add_zero] at hj
    simp only [List.map_nil, List.sum_nil, add_zero] at hsum
    have hj' : (j : ℝ) ≤ n := by exact_mod_cast hj
    exact ⟨h1.trans hsum, h4.trans (mul_le_mul_of_nonneg_right hj' hE0), range j _ _ hj h2 h5, range j _ _ hj h3 h6⟩
  | cons a x ih =>
    intro s ŝ j S0 hj hS0 hsum h1 h2 h3 h4 h5 h6
    simp only [List.length_cons] at hj
    simp only [List.map_cons, List.sum_cons] at hsum
    have hx0 : 0 ≤ (x.map abs).sum := List.sum_nonneg (by
      intro y hy; obtain ⟨z, _, rfl⟩ := List.mem_map.mp hy; exact abs_nonneg z)
    have hn1 : (1 : ℝ) ≤ n := by exact_mod_cast (by omega : 1 ≤ n)
    have haS : |a| ≤ S := by linarith
    have hSM : S ≤ 2 * n * S := by nlinarith
    have r1 := range j _ _ (by omega) h2 h5
    have r2 := range j _ _ (by omega) h3 h6
    -- the exact state
    obtain ⟨e1, e2⟩ := gStep_size w s.1 s.2 a S0 (j * S) |a| h1 h2 le_rfl
    -- the error
    have st := goertzelStep_rnd h hu hc hc3 ŝ a r1 r2 (haS.trans hSM)
    set d := (goertzelStep ĉ ŝ a).1 - (a + 2 * Real.cos w * ŝ.1 - ŝ.2) with hd
    obtain ⟨f1, f2⟩ := gStep_size w (ŝ.1 - s.1) (ŝ.2 - s.2) d _ _ _ h4 h5 st
    have ed : d + 2 * Real.cos w * (ŝ.1 - s.1) - (ŝ.2 - s.2) =
        (goertzelStep ĉ ŝ a).1 - (gStep (2 * Real.cos w) s a).1 := by
      rw [hd]; simp only [gStep]; ring
    rw [ed] at f1 f2
    have hj1 : ((j + 1 : ℕ) : ℝ) = j + 1 := by push_cast; ring
    have hj0 : (0 : ℝ) ≤ j := by positivity
    rw [List.foldl_cons, List.foldl_cons]
    refine ih (gStep (2 * Real.cos w) s a) (goertzelStep ĉ ŝ a) (j + 1) (S0 + |a|) (by omega)
      (by positivity) (by linarith) e1 ?_ ?_ ?_ ?_ ?_
    · rw [hj1]
      refine e2.trans ?_
      linarith
    · rw [hj1]
      refine le_trans h2 ?_
      linarith
    · rw [hj1]
      refine f1.trans (le_of_eq ?_)
      ring
    · rw [hj1]
      refine f2.trans ?_
      nlinarith
    · rw [hj1]
      refine h5.trans (mul_le_mul_of_nonneg_right ?_ hE0)
      linarith

omit F in
/-- the exact recurrence gives the transform -/
theorem gStep_dft (x : List ℝ) (n : ℕ) (hn : x.length = n) (k : ℤ) :
    let r := x.foldl (gStep (2 * Real.cos (2 * Real.pi * k / n))) (0, 0)
    ‖(r.1 : ℂ) - Complex.exp (-(((2 * Real.pi * k / n : ℝ) : ℂ) * Complex.I)) * r.2‖ =
      ‖∑ t ∈ range n, ((x.getD t 0 : ℝ) : ℂ) * Complex.exp (-(2 * Real.pi * Complex.I * k * t / n))‖ := by
  intro r
  letI : Flt ℝ := realFlt true
  have h := goertzel_fold (realFlt_lawful true) (2 * Real.pi * k / n) x (0, 0)
  have e : (x.foldl (goertzelStep (2 * Real.cos (2 * Real.pi * k / n))) (0, 0) : ℝ × ℝ) = r := rfl
  rw [e] at h
  rw [h]
  simp only [Complex.ofReal_zero, mul_zero, sub_zero, zero_add]
  rw [norm_mul, norm_zpow, Complex.norm_exp_ofReal_mul_I, one_zpow, one_mul, hn]
  congr 1
  refine sum_congr rfl fun t _ => ?_
  rw [← Complex.exp_nat_mul]
  congr 2
  push_cast
  ring

omit F in
theorem power_norm (w a b : ℝ) : b * b + a * a - 2 * Real.cos w * a * b =
    ‖(a : ℂ) - Complex.exp (-(w * Complex.I)) * b‖ ^ 2 := by
  rw [← Complex.normSq_eq_norm_sq, Complex.normSq_apply,
    show -((w : ℂ) * Complex.I) = ((-w : ℝ) : ℂ) * Complex.I by push_cast; ring]
  simp only [Complex.sub_re, Complex.sub_im, Complex.ofReal_re, Complex.ofReal_im, Complex.mul_re, Complex.mul_im,
    Complex.exp_ofReal_mul_I_re, Complex.exp_ofReal_mul_I_im, Real.cos_neg, Real.sin_neg]
  have := Real.sin_sq_add_cos_sq w
  linear_combination (-(b * b)) * this

/-- Rounding errors of the last line. -/
theorem power_rnd (h : Rounding F u v t) (hu : u ≤ 1 / 100) {ĉ c δ M : ℝ} (hc : |ĉ - c| ≤ δ) (hc3 : |ĉ| ≤ 3)
    (a b : ℝ) (ha : |a| ≤ M) (hb : |b| ≤ M) :
    |F.sub (F.add (F.mul b b) (F.mul a a)) (F.mul (F.mul ĉ a) b) - (b * b + a * a - c * a * b)| ≤
      (16 * u + δ) * M ^ 2 := by
  have hu0 := h.u_nonneg
  have hM : 0 ≤ M := (abs_nonneg _).trans ha
  have hδ : 0 ≤ δ := (abs_nonneg _).trans hc
  have prod : ∀ y z : ℝ, |y| ≤ M → |z| ≤ M → |y * z| ≤ M ^ 2 := fun y z hy hz => by
    rw [abs_mul, sq]; exact mul_le_mul hy hz (abs_nonneg _) hM
  have q1 := h.mul b b
  have q2 := h.mul a a
  have q3 := h.mul ĉ a
  set p1 := F.mul b b
  set p2 := F.mul a a
  set p3 := F.mul ĉ a
  have q4 := h.mul p3 b
  have q5 := h.add p1 p2
  set p4 := F.mul p3 b
  set p5 := F.add p1 p2
  have q6 := h.sub p5 p4
  have hM2 : 0 ≤ M ^ 2 := by positivity
  have huM : u * M ^ 2 ≤ M ^ 2 / 100 := by nlinarith
  have huM0 : 0 ≤ u * M ^ 2 := by positivity
  have b1 := mul_le_mul_of_nonneg_left (prod b b hb hb) hu0
  have b2 := mul_le_mul_of_nonneg_left (prod a a ha ha) hu0
  have hca : |ĉ * a| ≤ 3 * M := by rw [abs_mul]; exact mul_le_mul hc3 ha (abs_nonneg _) (by norm_num)
  have hp3 : |p3| ≤ 3.03 * M := by
    have h1 := abs_sub_abs_le_abs_sub p3 (ĉ * a)
    have h2 := mul_le_mul_of_nonneg_left hca hu0
    nlinarith
  have hp3b : |p3 * b| ≤ 3.03 * M ^ 2 := by
    rw [abs_mul]
    calc |p3| * |b| ≤ 3.03 * M * M := mul_le_mul hp3 hb (abs_nonneg _) (by positivity)
      _ = _ := by ring
  have b4 := mul_le_mul_of_nonneg_left hp3b hu0
  have c3 : |p3 * b - ĉ * a * b| ≤ 3 * (u * M ^ 2) := by
    rw [← sub_mul, abs_mul]
    have h2 := mul_le_mul_of_nonneg_left hca hu0
    calc |p3 - ĉ * a| * |b| ≤ (u * (3 * M)) * M := mul_le_mul (q3.trans h2) hb (abs_nonneg _) (by positivity)
      _ = _ := by ring
  have c4 : |ĉ * a * b - c * a * b| ≤ δ * M ^ 2 := by
    rw [mul_assoc, mul_assoc, ← sub_mul, abs_mul]
    exact mul_le_mul hc (prod a b ha hb) (abs_nonneg _) hδ
  have hp1 : |p1| ≤ 1.01 * M ^ 2 := by
    have h1 := abs_sub_abs_le_abs_sub p1 (b * b)
    have := prod b b hb hb
    linarith
  have hp2 : |p2| ≤ 1.01 * M ^ 2 := by
    have h1 := abs_sub_abs_le_abs_sub p2 (a * a)
    have := prod a a ha ha
    linarith
  have hp12 : |p1 + p2| ≤ 2.02 * M ^ 2 := (abs_add_le _ _).trans (by linarith)
  have b5 := mul_le_mul_of_nonneg_left hp12 hu0
  have hp5 : |p5| ≤ 2.1 * M ^ 2 := by
    have h1 := abs_sub_abs_le_abs_sub p5 (p1 + p2)
    linarith
  have hp4 : |p4| ≤ 3.1 * M ^ 2 := by
    have h1 := abs_sub_abs_le_abs_sub p4 (p3 * b)
    linarith
  have hp54 : |p5 - p4| ≤ 5.2 * M ^ 2 := (abs_sub _ _).trans (by linarith)
  have b6 := mul_le_mul_of_nonneg_left hp54 hu0
  have e : F.sub p5 p4 - (b * b + a * a - c * a * b) = (F.sub p5 p4 - (p5 - p4)) + (p5 - (p1 + p2)) +
      (p1 - b * b) + (p2 - a * a) - (p4 - p3 * b) - (p3 * b - ĉ * a * b) - (ĉ * a * b - c * a * b) := by ring
  rw [e]
  refine (abs_sub _ _).trans ?_
  have d1 := abs_sub ((F.sub p5 p4 - (p5 - p4)) + (p5 - (p1 + p2)) +
      (p1 - b * b) + (p2 - a * a) - (p4 - p3 * b)) (p3 * b - ĉ * a * b)
  have d2 := abs_sub ((F.sub p5 p4 - (p5 - p4)) + (p5 - (p1 + p2)) + (p1 - b * b) + (p2 - a * a)) (p4 - p3 * b)
  have d3 := abs_add_le ((F.sub p5 p4 - (p5 - p4)) + (p5 - (p1 + p2)) + (p1 - b * b)) (p2 - a * a)
  have d4 := abs_add_le ((F.sub p5 p4 - (p5 - p4)) + (p5 - (p1 + p2))) (p1 - b * b)
  have d5 := abs_add_le (F.sub p5 p4 - (p5 - p4)) (p5 - (p1 + p2))
  linarith

/-- C104: how far the radicand is from the squared magnitude of the transform at the bin the function computes:
`12 n² ε (Σ|x|)²`, where `ε` is about 16 roundings plus the error of the coefficient, as long as `n (n + 1) ε ≤ 1`. -/
theorem goertzel_accuracy (h : Rounding F u v t) (hu : u ≤ 1 / 100) (x : List ℝ) (sr f : ℝ) (k : ℤ)
    (hk : F.floor (F.div (F.mul f (F.ofNat x.length)) sr) = k) (hkn : |k| ≤ x.length)
    (hsmall : x.length * (x.length + 1) * goertzelErr u v t ≤ 1) :
    |goertzelPower x sr f - ‖∑ t ∈ range x.length, ((x.getD t 0 : ℝ) : ℂ) *
      Complex.exp (-(2 * Real.pi * Complex.I * k * t / x.length))‖ ^ 2| ≤
      12 * x.length ^ 2 * goertzelErr u v t * (x.map abs).sum ^ 2 := by
  by_cases hx : x = []
  · subst hx
    have h0 : goertzelPower [] sr f = 0 := by
      unfold goertzelPower
      simp only [List.foldl_nil, h.zero]
      have m0 : ∀ a, F.mul a 0 = 0 := fun a => by have := h.mul a 0; simpa using this
      have a0 : F.add 0 0 = 0 := by have := h.add 0 0; simpa using this
      have s0 : F.sub 0 0 = 0 := by have := h.sub 0 0; simpa using this
      rw [m0, m0, a0, s0]
    rw [h0]; simp
  have hn : 0 < x.length := List.length_pos_of_ne_nil hx
  have hcoef := goertzelCoeff_rnd h hu x.length hn sr f k hk hkn
  generalize hnn : x.length = n at *
  set w : ℝ := 2 * Real.pi * k / n with hw
  set δ := goertzelCoefErr u v t with hδd
  have hu0 := h.u_nonneg
  have hδ : 0 ≤ δ := (abs_nonneg _).trans hcoef
  have hκ : goertzelErr u v t = 16 * u + δ := rfl
  rw [hκ] at hsmall ⊢
  have hn1 : (1 : ℝ) ≤ n := by exact_mod_cast hn
  have hκ0 : 0 ≤ 16 * u + δ := by linarith
  have hκ2 : 2 * (16 * u + δ) ≤ 1 := by
    have h2 : (2 : ℝ) ≤ n * (n + 1) := by nlinarith
    exact (mul_le_mul_of_nonneg_right h2 hκ0).trans hsmall
  have hc3 : |goertzelCoeff n sr f| ≤ 3 := by
    have h1 := abs_sub_abs_le_abs_sub (goertzelCoeff n sr f) (2 * Real.cos w)
    have h2 : |2 * Real.cos w| ≤ 2 := by
      rw [abs_mul, abs_two]; have := Real.abs_cos_le_one w; linarith
    linarith
  have hS : 0 ≤ (x.map abs).sum := List.sum_nonneg (by
    intro y hy; obtain ⟨z, _, rfl⟩ := List.mem_map.mp hy; exact abs_nonneg z)
  generalize hSS : (x.map abs).sum = S at *
  obtain ⟨r1, r2, r3, r4⟩ := goertzel_states h hu hcoef hc3 hS hsmall x (0, 0) (0, 0) 0 0 (by omega) le_rfl
    (by rw [hSS]; simp) (by simp) (by simp) (by simp) (by simp) (by simp) (by simp)
  have hd := gStep_dft x n hnn k
  simp only [] at hd
  rw [← hw] at hd
  unfold goertzelPower
  simp only [hnn, h.zero]
  rw [← hd]
  set r := x.foldl (gStep (2 * Real.cos w)) (0, 0)
  set r' := x.foldl (goertzelStep (goertzelCoeff n sr f)) (0, 0)
  have hp := power_rnd h hu hcoef hc3 r'.1 r'.2 r3 r4
  rw [power_norm] at hp
  set z := (r.1 : ℂ) - Complex.exp (-((w : ℂ) * Complex.I)) * r.2 with hz
  set z' := (r'.1 : ℂ) - Complex.exp (-((w : ℂ) * Complex.I)) * r'.2 with hz'
  have hzz : ‖z' - z‖ ≤ n * ((16 * u + δ) * (2 * n * S)) := by
    refine le_trans (le_of_eq ?_) r2
    rw [hz, hz']; push_cast; ring_nf
  generalize 16 * u + δ = κ at *
  have hD : n * (κ * (2 * n * S)) ≤ 2 * S := by
    have h1 : (n : ℝ) * n * κ ≤ 1 := by nlinarith
    nlinarith
  have h1 : |‖z'‖ - ‖z‖| ≤ n * (κ * (2 * n * S)) := (abs_norm_sub_norm_le _ _).trans hzz
  have h2 : ‖z'‖ ≤ 3 * S := by have := (abs_le.mp h1).2; linarith
  have h3 : |‖z'‖ ^ 2 - ‖z‖ ^ 2| ≤ 8 * n ^ 2 * κ * S ^ 2 := by
    rw [sq_sub_sq, abs_mul, abs_of_nonneg (by positivity)]
    calc (‖z'‖ + ‖z‖) * |‖z'‖ - ‖z‖| ≤ (4 * S) * (n * (κ * (2 * n * S))) :=
          mul_le_mul (by linarith) h1 (abs_nonneg _) (by positivity)
      _ = _ := by ring
  refine (abs_sub_le _ (‖z'‖ ^ 2) _).trans ?_
  refine (add_le_add hp h3).trans (le_of_eq ?_)
  ring

/-- C104: so the radicand is not negative when the magnitude is large enough compared with the sum of the input's
magnitudes. -/
theorem goertzel_radicand_pos (h : Rounding F u v t) (hu : u ≤ 1 / 100) (x : List ℝ) (sr f : ℝ) (k : ℤ)
    (hk : F.floor (F.div (F.mul f (F.ofNat x.length)) sr) = k) (hkn : |k| ≤ x.length)
    (hsmall : x.length * (x.length + 1) * goertzelErr u v t ≤ 1)
    (hbig : 12 * x.length ^ 2 * goertzelErr u v t * (x.map abs).sum ^ 2 <
      ‖∑ t ∈ range x.length, ((x.getD t 0 : ℝ) : ℂ) *
        Complex.exp (-(2 * Real.pi * Complex.I * k * t / x.length))‖ ^ 2) :
    0 < goertzelPower x sr f := by
  have := (abs_le.mp (goertzel_accuracy h hu x sr f k hk hkn hsmall)).1
  linarith

end accuracy

/-- The hypotheses of the accuracy theorem are met by 24-bit arithmetic for 50 samples, and the radicand of a constant
signal is positive. -/
theorem goertzelErr_f32 : goertzelErr (1 / 2 ^ 24) (1 / 2 ^ 24) (1 / 2 ^ 24) ≤ 1 / 100000 := by
  unfold goertzelErr goertzelCoefErr
  have hpi := Real.pi_le_four
  have hc : ((1 + 1 / 2 ^ 24) ^ 4 / (1 - 1 / 2 ^ 24) - 1 : ℝ) ≤ 3 / 10000000 := by norm_num
  have hc0 : (0 : ℝ) ≤ (1 + 1 / 2 ^ 24) ^ 4 / (1 - 1 / 2 ^ 24) - 1 := by norm_num
  have h := mul_le_mul hc (by linarith : 2 * Real.pi ≤ 8) (by positivity) (by norm_num : (0 : ℝ) ≤ 3 / 10000000)
  norm_num at h ⊢
  linarith

example : letI := rndFlt 24 24 true true; 0 < goertzelPower (List.replicate 50 (1 : ℝ)) 44100 0 := by
  letI := rndFlt 24 24 true true
  have hR := rndFlt_rounding 24 24 (by norm_num) (by norm_num) true true
  have e := goertzelErr_f32
  have m0 : ∀ a, (rndFlt 24 24 true true).mul 0 a = 0 := fun a => by have := hR.mul 0 a; simpa using this
  have d0 : (rndFlt 24 24 true true).div 0 44100 = 0 := by
    have := hR.div 0 44100 (by norm_num); simpa using this
  refine goertzel_radicand_pos hR (by norm_num) (List.replicate 50 1) 44100 0 0 ?_ ?_ ?_ ?_
  · rw [m0, d0]; show ((⌊(0 : ℝ)⌋ : ℤ) : ℝ) = _; simp
  · simp
  · rw [List.length_replicate]
    push_cast
    linarith
  · have hsum : ∑ t ∈ range 50, (((List.replicate 50 (1 : ℝ)).getD t 0 : ℝ) : ℂ) *
        Complex.exp (-(2 * Real.pi * Complex.I * ((0 : ℤ) : ℂ) * t / (50 : ℕ))) = 50 := by
      rw [Finset.sum_congr rfl (g := fun _ => (1 : ℂ)) (fun t ht => ?_)]
      · simp
      · rw [List.getD_replicate _ (by simpa using ht)]; simp
    rw [List.length_replicate, hsum, List.map_replicate, List.sum_replicate]
    norm_num at e ⊢
    linarith

end Kofft.Props
