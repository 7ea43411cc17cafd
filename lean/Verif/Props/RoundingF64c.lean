import Verif.Props.RoundingF64b
import Verif.Proof.F64Ker
/-
Property C65: exactly the lengths at which the conversions of the `f64` code through `f32` cost nothing.
-/
namespace Kofft
open Spec Complex Finset

/-- The unit impulse at position `r` of `n`. -/
noncomputable def impulse (n r : ℕ) : List (Cx ℝ) := tab n fun t => if t = r then ⟨1, 0⟩ else ⟨0, 0⟩

theorem impulse_length (n r : ℕ) : (impulse n r).length = n := by simp [impulse]

theorem impulse_getD [Flt ℝ] {n r t : ℕ} (ht : t < n) :
    toC ((impulse n r).getD t Cx.zero) = if t = r then 1 else 0 := by
  rw [impulse, tab_getD ht]
  by_cases h : t = r
  · rw [if_pos h, if_pos h]; rfl
  · rw [if_neg h, if_neg h]; rfl

theorem dft_impulse {n r : ℕ} (hr : r < n) (k : ℕ) : dft n (sig (impulse n r)) k = W n (r * k) := by
  letI := realFlt true
  unfold dft
  rw [sum_eq_single r]
  · rw [Props.sig_getD _ _ (by rw [impulse_length]; exact hr), impulse_getD hr, if_pos rfl, one_mul, mul_comm]
  · intro t ht hne
    rw [mem_range] at ht
    rw [Props.sig_getD _ _ (by rw [impulse_length]; exact ht), impulse_getD ht, if_neg hne, zero_mul]
  · intro h; rw [mem_range] at h; exact absurd hr h

theorem rnd_pos_le {n : ℕ} : (n : ℝ) / 2 ≤ rnd 24 n := by
  have := rnd_close 24 (n : ℝ)
  rw [Nat.abs_cast, abs_le] at this
  have h0 : (0 : ℝ) ≤ n := by positivity
  have : (1 : ℝ) / 2 ^ 24 * n ≤ 1 / 2 * n := mul_le_mul_of_nonneg_right (by norm_num) h0
  linarith

theorem rnd24_4097 : rnd 24 ((4097 * 4097 : ℕ) : ℝ) = 4097 * 4097 + 1 := by
  rw [show ((4097 * 4097 : ℕ) : ℝ) = 16785409 by norm_num]
  unfold rnd
  have h0 : Int.log 2 |(16785409 : ℝ)| = 24 := by
    rw [abs_of_pos (by norm_num)]
    have := Int.log_natCast (R := ℝ) 2 16785409
    rw [show ((16785409 : ℕ) : ℝ) = 16785409 by norm_num] at this
    rw [this]
    have : Nat.log 2 16785409 = 24 := by
      rw [Nat.log_eq_iff (by norm_num)]; norm_num
    rw [this]; rfl
  rw [h0, show ((24 : ℤ) - (24 : ℕ) + 1) = 1 by norm_num]
  have : round ((16785409 : ℝ) / 2 ^ (1 : ℤ)) = 8392705 := by
    rw [round_eq, Int.floor_eq_iff]
    norm_num
  rw [this]; norm_num

theorem cos_sin_exp (a : ℝ) : toC ⟨Real.cos a, Real.sin a⟩ = exp (a * I) := by
  rw [exp_mul_I, ← ofReal_cos, ← ofReal_sin]
  apply Complex.ext <;> simp [-ofReal_cos, -ofReal_sin]

/-- Chirps of the `f64` code, all arithmetic but the conversions exact. -/
theorem chirp_ideal (fma : Bool) (n r : ℕ) :
    toC (@chirpAt ℝ (idealF64 fma) n r) = exp (-(Real.pi * rnd 24 ((r * r : ℕ) : ℝ) / rnd 24 (n : ℝ) : ℝ) * I) := by
  have e1 : (@chirpAt ℝ (idealF64 fma) n r) = ⟨Real.cos (-(Real.pi * rnd 24 ((r * r : ℕ) : ℝ) / rnd 24 (n : ℝ))),
      Real.sin (-(Real.pi * rnd 24 ((r * r : ℕ) : ℝ) / rnd 24 (n : ℝ)))⟩ := rfl
  rw [e1, ← ofReal_neg]
  exact cos_sin_exp _

theorem expi_ideal (fma : Bool) (n r : ℕ) :
    toC (@Cx.expi ℝ (idealF64 fma) (@bluAngle ℝ (idealF64 fma) n r)) =
      exp ((Real.pi * rnd 24 ((r * r : ℕ) : ℝ) / rnd 24 (n : ℝ) : ℝ) * I) := by
  have e1 : (@Cx.expi ℝ (idealF64 fma) (@bluAngle ℝ (idealF64 fma) n r)) =
      ⟨Real.cos (Real.pi * rnd 24 ((r * r : ℕ) : ℝ) / rnd 24 (n : ℝ)),
      Real.sin (Real.pi * rnd 24 ((r * r : ℕ) : ℝ) / rnd 24 (n : ℝ))⟩ := rfl
  rw [e1]
  exact cos_sin_exp _

/-- Bin `r` of the impulse at `r`, for lengths that go through the chirp transform. -/
theorem impulse_bin (fma : Bool) (cfg : Cfg) {n r : ℕ} (hp : ¬ isPow2 n = true) (h16 : 16 < n) (hr : r < n) :
    sig (@freshOut ℝ (idealF64 fma) cfg (impulse n r)) r =
      exp (-(2 * Real.pi * (rnd 24 ((r * r : ℕ) : ℝ) / rnd 24 (n : ℝ)) : ℝ) * I) := by
  letI F := idealF64 fma
  have hF := idealF64_rounding fma
  have hl := impulse_length n r
  have hm0 : 0 < bluM n := isPow2_pos (bluM_pow2 n)
  have hmge := bluM_ge n
  rw [Props.sig_getD _ _ (by rw [freshOut_length, hl]; exact hr), freshOut, hl, if_neg hp]
  have := bluOut_chirps hF cfg (impulse n r) (by rw [hl]; exact h16) r (by rw [hl]; exact hr)
  rw [hl] at this
  rw [this, sum_eq_single r]
  · rw [impulse_getD hr, if_pos rfl, one_mul]
    rw [show r + (bluM n - r) = bluM n by omega, Nat.mod_self]
    have hb0 : toC (bAt (T := ℝ) n 0) = 1 := by
      rw [bAt, if_pos (by omega)]
      rw [expi_ideal]
      have : rnd 24 ((0 * 0 : ℕ) : ℝ) = 0 := by
        rw [rnd_nat 24 (0 * 0) (by norm_num)]; norm_num
      rw [this]; simp
    rw [hb0, mul_one, chirp_ideal, ← exp_add]
    congr 1
    push_cast
    ring
  · intro t ht hne
    rw [impulse_getD (mem_range.mp ht), if_neg hne]; ring
  · intro h; rw [mem_range] at h; exact absurd hr h

theorem W_exp' (n k : ℕ) : W n k = exp (-(2 * Real.pi * ((k : ℝ) / n) : ℝ) * I) := by
  unfold W
  congr 1
  push_cast
  ring

/-- Two points of the circle agree only if the turns differ by an integer. -/
theorem turns_eq {a b : ℝ} (h : exp (-(2 * Real.pi * a : ℝ) * I) = exp (-(2 * Real.pi * b : ℝ) * I)) :
    ∃ z : ℤ, a - b = z := by
  rw [exp_eq_exp_iff_exists_int] at h
  obtain ⟨z, hz⟩ := h
  refine ⟨-z, ?_⟩
  have h1 := congrArg Complex.im hz
  simp at h1
  have hpi := Real.pi_pos
  have : 2 * Real.pi * (a - b + z) = 0 := by linarith
  rcases mul_eq_zero.mp this with h | h
  · linarith
  · push_cast; linarith

/-- Lengths that are not powers of two, from 4098 on: some impulse is transformed wrongly. -/
theorem not_dft_long (fma : Bool) (cfg : Cfg) {n : ℕ} (hp : ¬ isPow2 n = true) (hn : 4098 ≤ n) :
    ∃ r < n, ¬ IsDft (impulse n r) (@freshOut ℝ (idealF64 fma) cfg (impulse n r)) := by
  have hn' : (4098 : ℝ) ≤ n := by exact_mod_cast hn
  have hr := rnd_pos_le (n := n)
  by_cases h : rnd 24 (n : ℝ) = n
  · refine ⟨4097, by omega, fun hd => ?_⟩
    have := hd.2 4097 (by rw [impulse_length]; omega)
    rw [impulse_bin fma cfg hp (by omega) (by omega), impulse_length, dft_impulse (by omega), W_exp', rnd24_4097, h] at this
    obtain ⟨z, hz⟩ := turns_eq this
    have e : ((4097 * 4097 + 1 : ℝ) / n - ((4097 * 4097 : ℕ) : ℝ) / n) = 1 / n := by push_cast; ring
    rw [e] at hz
    have h1 : (0 : ℝ) < 1 / n := by positivity
    have h2 : (1 : ℝ) / n < 1 := by rw [div_lt_one (by linarith)]; linarith
    rw [hz] at h1 h2
    have h3 : 0 < z := by exact_mod_cast h1
    have h4 : z < 1 := by exact_mod_cast h2
    omega
  · refine ⟨1, by omega, fun hd => ?_⟩
    have := hd.2 1 (by rw [impulse_length]; omega)
    rw [impulse_bin fma cfg hp (by omega) (by omega), impulse_length, dft_impulse (by omega), W_exp',
      rnd_nat 24 (1 * 1) (by norm_num)] at this
    obtain ⟨z, hz⟩ := turns_eq this
    have e1 : ((1 * 1 : ℕ) : ℝ) = 1 := by norm_num
    rw [e1] at hz
    have h1 : (0 : ℝ) < 1 / n := by positivity
    have h2 : (1 : ℝ) / n < 1 := by rw [div_lt_one (by linarith)]; linarith
    have h3 : (0 : ℝ) < 1 / rnd 24 (n : ℝ) := by
      apply div_pos one_pos; linarith
    have h4 : (1 : ℝ) / rnd 24 (n : ℝ) < 1 := by rw [div_lt_one (by linarith)]; linarith
    have h5 : (z : ℝ) < 1 := by rw [← hz]; linarith
    have h6 : (-1 : ℝ) < z := by rw [← hz]; linarith
    have h7 : z = 0 := by
      have a1 : z < 1 := by exact_mod_cast h5
      have a2 : -1 < z := by exact_mod_cast h6
      omega
    rw [h7, Int.cast_zero, sub_eq_zero, div_eq_div_iff (by linarith) (by linarith)] at hz
    apply h
    linarith

/-- By how much, for lengths `f32` represents. -/
theorem long_error (fma : Bool) (cfg : Cfg) {n : ℕ} (hp : ¬ isPow2 n = true) (hn : 4098 ≤ n) (hn2 : n ≤ 2 ^ 24) :
    4 / (n : ℝ) ≤ ‖sig (@freshOut ℝ (idealF64 fma) cfg (impulse n 4097)) 4097 - dft n (sig (impulse n 4097)) 4097‖ := by
  have hn' : (4098 : ℝ) ≤ n := by exact_mod_cast hn
  have hpi := Real.pi_pos
  rw [impulse_bin fma cfg hp (by omega) (by omega), dft_impulse (by omega), W_exp', rnd24_4097, rnd24_nat_le hn2]
  have e : exp (-(2 * Real.pi * ((4097 * 4097 + 1) / (n : ℝ)) : ℝ) * I) =
      exp (-(2 * Real.pi * (((4097 * 4097 : ℕ) : ℝ) / n) : ℝ) * I) * exp (I * (-(2 * (Real.pi / n)) : ℝ)) := by
    rw [← exp_add]
    congr 1
    push_cast
    ring
  rw [e, ← mul_sub_one, norm_mul, ← ofReal_neg, norm_exp_ofReal_mul_I, one_mul, norm_exp_I_mul_ofReal_sub_one]
  have h1 : -(2 * (Real.pi / n)) / 2 = -(Real.pi / n) := by ring
  rw [h1, Real.sin_neg, Real.norm_eq_abs, mul_neg, abs_neg]
  have h2 : 2 / Real.pi * (Real.pi / n) ≤ Real.sin (Real.pi / n) := by
    apply Real.mul_le_sin (by positivity)
    rw [div_le_div_iff₀ (by linarith) (by norm_num)]
    nlinarith
  have h3 : 2 / Real.pi * (Real.pi / n) = 2 / n := by field_simp
  rw [h3] at h2
  refine le_trans ?_ (le_abs_self _)
  calc (4 : ℝ) / n = 2 * (2 / n) := by ring
    _ ≤ _ := by linarith

theorem rnd24_sqrtHalf_ne : 2 * (rnd 24 (Real.sqrt 2 / 2)) ^ 2 ≠ 1 := by
  rw [Props.rnd24_sqrtHalf]; norm_num

theorem ker8_congr (s : ℂ) {a b : ℕ → ℂ} (h : ∀ t, t < 8 → a t = b t) (k : ℕ) : ker8 s a k = ker8 s b k := by
  unfold ker8
  rw [h 0 (by norm_num), h 1 (by norm_num), h 2 (by norm_num), h 3 (by norm_num), h 4 (by norm_num),
    h 5 (by norm_num), h 6 (by norm_num), h 7 (by norm_num)]

theorem ker16_congr (s c d : ℂ) {a b : ℕ → ℂ} (h : ∀ t, t < 16 → a t = b t) (k : ℕ) :
    ker16 s c d a k = ker16 s c d b k := by
  unfold ker16
  rw [ker8_congr s (a := fun t => a (2 * t)) (b := fun t => b (2 * t)) fun t ht => h _ (by omega),
    ker8_congr s (a := fun t => a (2 * t + 1)) (b := fun t => b (2 * t + 1)) fun t ht => h _ (by omega),
    ker8_congr s (a := fun t => a (2 * t)) (b := fun t => b (2 * t)) fun t ht => h _ (by omega),
    ker8_congr s (a := fun t => a (2 * t + 1)) (b := fun t => b (2 * t + 1)) fun t ht => h _ (by omega)]

/-- The first sample alone goes into every bin. -/
theorem ker8_first (s : ℂ) (x : ℕ → ℂ) (h0 : x 0 = 1) (h : ∀ t, 0 < t → t < 8 → x t = 0) (k : ℕ) (hk : k < 8) :
    ker8 s x k = 1 := by
  have h1 := h 1 (by norm_num) (by norm_num)
  have h2 := h 2 (by norm_num) (by norm_num)
  have h3 := h 3 (by norm_num) (by norm_num)
  have h4 := h 4 (by norm_num) (by norm_num)
  have h5 := h 5 (by norm_num) (by norm_num)
  have h6 := h 6 (by norm_num) (by norm_num)
  have h7 := h 7 (by norm_num) (by norm_num)
  interval_cases k <;> simp [ker8, h0, h1, h2, h3, h4, h5, h6, h7]

theorem ker8_none (s : ℂ) (x : ℕ → ℂ) (h : ∀ t, t < 8 → x t = 0) (k : ℕ) : ker8 s x k = 0 := by
  have h0 := h 0 (by norm_num)
  have h1 := h 1 (by norm_num)
  have h2 := h 2 (by norm_num)
  have h3 := h 3 (by norm_num)
  have h4 := h 4 (by norm_num)
  have h5 := h 5 (by norm_num)
  have h6 := h 6 (by norm_num)
  have h7 := h 7 (by norm_num)
  unfold ker8
  split <;> simp [h0, h1, h2, h3, h4, h5, h6, h7]

theorem ker16_first (s c d : ℂ) (x : ℕ → ℂ) (h0 : x 0 = 1) (h : ∀ t, 0 < t → t < 16 → x t = 0) (k : ℕ)
    (hk : k < 16) : ker16 s c d x k = 1 := by
  have hz : ∀ k, ker8 s (fun t => x (2 * t + 1)) k = 0 := ker8_none s _ fun t ht => h _ (by omega) (by omega)
  unfold ker16
  split
  · rw [hz, ker8_first s (fun t => x (2 * t)) h0 (fun t h1 h2 => h _ (by omega) (by omega)) k (by assumption)]; ring
  · rw [hz, ker8_first s (fun t => x (2 * t)) h0 (fun t h1 h2 => h _ (by omega) (by omega)) (k - 8) (by omega)]; ring

section small
variable (fma : Bool) (cfg : Cfg)

local notation "σ" => rnd 24 (Real.sqrt 2 / 2)

theorem freshPow8_ker (y : List (Cx ℝ)) (hy : y.length = 8) (k : ℕ) (hk : k < 8) :
    letI := idealF64 fma
    toC ((freshPow cfg y).getD k Cx.zero) = ker8 (σ : ℝ) (fun t => toC (y.getD t Cx.zero)) k := by
  letI F := idealF64 fma
  obtain ⟨z, e, hl, hz⟩ := fft8_ker (idealF64_rounding fma) cfg.debug (fun t => y.getD t Cx.zero)
  have hyl : y = [y.getD 0 Cx.zero, y.getD 1 Cx.zero, y.getD 2 Cx.zero, y.getD 3 Cx.zero, y.getD 4 Cx.zero,
      y.getD 5 Cx.zero, y.getD 6 Cx.zero, y.getD 7 Cx.zero] := by
    match y, hy with
    | [_, _, _, _, _, _, _, _], _ => rfl
  have hs : smallOut cfg y = z := by
    unfold smallOut
    have : smallKernel cfg y = fft8 cfg.debug y := by
      rw [hyl]; rfl
    rw [this, hyl, e]
  rw [freshPow, powOut, if_neg (by omega), if_pos (by omega), hs]
  exact hz k hk

theorem freshPow16_ker (y : List (Cx ℝ)) (hy : y.length = 16) (k : ℕ) (hk : k < 16) :
    letI := idealF64 fma
    toC ((freshPow cfg y).getD k Cx.zero) = ker16 (σ : ℝ) (rnd 24 (Real.cos (Real.pi / 8)) : ℝ)
      (rnd 24 (Real.sin (Real.pi / 8)) : ℝ) (fun t => toC (y.getD t Cx.zero)) k := by
  letI F := idealF64 fma
  obtain ⟨z, e, hl, hz⟩ := fft16_ker (idealF64_rounding fma) cfg.debug (fun t => y.getD t Cx.zero)
  have hyl : y = [y.getD 0 Cx.zero, y.getD 1 Cx.zero, y.getD 2 Cx.zero, y.getD 3 Cx.zero, y.getD 4 Cx.zero,
      y.getD 5 Cx.zero, y.getD 6 Cx.zero, y.getD 7 Cx.zero, y.getD 8 Cx.zero, y.getD 9 Cx.zero, y.getD 10 Cx.zero,
      y.getD 11 Cx.zero, y.getD 12 Cx.zero, y.getD 13 Cx.zero, y.getD 14 Cx.zero, y.getD 15 Cx.zero] := by
    match y, hy with
    | [_, _, _, _, _, _, _, _, _, _, _, _, _, _, _, _], _ => rfl
  have hs : smallOut cfg y = z := by
    unfold smallOut
    have : smallKernel cfg y = fft16 cfg.debug y := by
      rw [hyl]; rfl
    rw [this, hyl, e]
  rw [freshPow, powOut, if_neg (by omega), if_pos (by omega), hs]
  exact hz k hk

/-- The chirped first impulse. -/
theorem chirped_first {n t : ℕ} (hn : 0 < n) :
    letI := idealF64 fma
    (if t < n then toC ((impulse n 0).getD t Cx.zero) * toC (chirpAt n t) else 0) = if t = 0 then (1 : ℂ) else 0 := by
  letI F := idealF64 fma
  by_cases h : t < n
  · rw [if_pos h, impulse_getD h]
    by_cases h0 : t = 0
    · subst h0
      rw [if_pos rfl, one_mul, chirp_ideal, rnd_nat 24 (0 * 0) (by norm_num)]
      simp
    · rw [if_neg h0, zero_mul]
  · rw [if_neg h, if_neg (by omega)]

/-- Three points: bin 1 of the first impulse. -/
theorem not_dft_three : ¬ IsDft (impulse 3 0) (@freshOut ℝ (idealF64 fma) cfg (impulse 3 0)) := by
  letI F := idealF64 fma
  have hF := idealF64_rounding fma
  have hl := impulse_length 3 0
  have hm : bluM 3 = 8 := by decide
  have hp : ¬ isPow2 3 = true := by decide
  intro hd
  have h1 := hd.2 1 (by rw [hl]; norm_num)
  rw [hl, dft_impulse (by norm_num), Props.sig_getD _ _ (by rw [freshOut_length, hl]; norm_num), freshOut, hl, if_neg hp] at h1
  have hb := bluOut_ker hF cfg (impulse 3 0) (ker8 (σ : ℝ)) (fun a b h k => ker8_congr _ (by rw [hl, hm] at h; exact h) k)
    (fun y hy k hk => freshPow8_ker fma cfg y (by rw [hy, hl, hm]) k (by rw [hy, hl, hm] at hk; exact hk)) 1 (by rw [hl]; norm_num)
  rw [hl, hm] at hb
  rw [hb] at h1
  have hone : ∀ i, i < 8 → ker8 (σ : ℝ) (fun t => if t < 3 then toC ((impulse 3 0).getD t Cx.zero) * toC (chirpAt 3 t) else 0) i = 1 := by
    intro i hi
    apply ker8_first _ _ _ _ i hi
    · exact (chirped_first fma (by norm_num)).trans (if_pos rfl)
    · intro t ht _
      exact (chirped_first fma (by norm_num)).trans (if_neg (by omega))
  rw [ker8_congr (b := fun i => (starRingEnd ℂ) (ker8 (σ : ℝ) (fun t => toC (bAt 3 t)) i)) _ (fun i hi => by
    rw [hone i hi, one_mul]), ker8_twice] at h1
  have b5 : toC (bAt (T := ℝ) 3 5) = 0 := by
    rw [bAt, if_neg (by norm_num), if_neg (by rw [hm]; norm_num)]
    exact rnd_zero hF
  have b1 : toC (bAt (T := ℝ) 3 1) * toC (chirpAt (T := ℝ) 3 1) = 1 := by
    rw [bAt, if_pos (by norm_num), expi_ideal, chirp_ideal, ← exp_add]
    rw [show ∀ z : ℝ, (z : ℂ) * I + -(z : ℂ) * I = 0 by intro z; ring, exp_zero]
  rw [b5, W_exp'] at h1
  have h2 : (1 + 2 * (σ : ℂ) ^ 2) / 2 * (toC (bAt (T := ℝ) 3 1) * toC (chirpAt (T := ℝ) 3 1)) = 1 := by
    have e0 : exp (-(2 * Real.pi * (((0 * 1 : ℕ) : ℝ) / (3 : ℕ)) : ℝ) * I) = 1 := by simp
    rw [e0] at h1
    refine Eq.trans ?_ h1
    rw [Nat.cast_ofNat]
    ring
  rw [b1, mul_one] at h2
  have h3 : (1 + 2 * σ ^ 2) / 2 = 1 := by exact_mod_cast h2
  have := rnd24_sqrtHalf_ne
  exact this (by linarith)

/-- Five to seven points: bin 2 of the first impulse. -/
theorem not_dft_five_to_seven {n : ℕ} (h5 : 5 ≤ n) (h7 : n ≤ 7) :
    ¬ IsDft (impulse n 0) (@freshOut ℝ (idealF64 fma) cfg (impulse n 0)) := by
  letI F := idealF64 fma
  have hF := idealF64_rounding fma
  have hl := impulse_length n 0
  have hm : bluM n = 16 := by interval_cases n <;> decide
  have hp : ¬ isPow2 n = true := by interval_cases n <;> decide
  intro hd
  have h1 := hd.2 2 (by rw [hl]; omega)
  rw [hl, dft_impulse (by omega), Props.sig_getD _ _ (by rw [freshOut_length, hl]; omega), freshOut, hl, if_neg hp] at h1
  set c := rnd 24 (Real.cos (Real.pi / 8)) with hc
  set d := rnd 24 (Real.sin (Real.pi / 8)) with hd
  have hb := bluOut_ker hF cfg (impulse n 0) (ker16 (σ : ℝ) (c : ℝ) (d : ℝ))
    (fun a b h k => ker16_congr _ _ _ (by rw [hl, hm] at h; exact h) k)
    (fun y hy k hk => freshPow16_ker fma cfg y (by rw [hy, hl, hm]) k (by rw [hy, hl, hm] at hk; exact hk)) 2 (by rw [hl]; omega)
  rw [hl, hm] at hb
  rw [hb] at h1
  have hone : ∀ i, i < 16 → ker16 (σ : ℝ) (c : ℝ) (d : ℝ)
      (fun t => if t < n then toC ((impulse n 0).getD t Cx.zero) * toC (chirpAt n t) else 0) i = 1 := by
    intro i hi
    apply ker16_first _ _ _ _ _ _ i hi
    · exact (chirped_first fma (by omega)).trans (if_pos rfl)
    · intro t ht _
      exact (chirped_first fma (by omega)).trans (if_neg (by omega))
  rw [ker16_congr (b := fun i => (starRingEnd ℂ) (ker16 (σ : ℝ) (c : ℝ) (d : ℝ) (fun t => toC (bAt n t)) i)) _ _ _ (fun i hi => by
    rw [hone i hi, one_mul]), ker16_twice] at h1
  have b2 : toC (bAt (T := ℝ) n 2) * toC (chirpAt (T := ℝ) n 2) = 1 := by
    rw [bAt, if_pos (by omega), expi_ideal, chirp_ideal, ← exp_add]
    rw [show ∀ z : ℝ, (z : ℂ) * I + -(z : ℂ) * I = 0 by intro z; ring, exp_zero]
  have b10 : toC (bAt (T := ℝ) n 10) * toC (chirpAt (T := ℝ) n 2) ≠ 1 := by
    by_cases h : n = 7
    · subst h
      rw [bAt, if_neg (by norm_num), if_pos (by rw [hm]; norm_num), hm, expi_ideal, chirp_ideal, ← exp_add,
        rnd_nat 24 ((16 - 10) * (16 - 10)) (by norm_num), rnd_nat 24 (2 * 2) (by norm_num), rnd_nat 24 7 (by norm_num)]
      intro h
      have e : exp (-(2 * Real.pi * (-16 / 7 : ℝ) : ℝ) * I) = exp (-(2 * Real.pi * (0 : ℝ) : ℝ) * I) := by
        rw [show exp (-(2 * Real.pi * (0 : ℝ) : ℝ) * I) = 1 by simp, ← h]
        congr 1
        push_cast
        ring
      obtain ⟨z, hz⟩ := turns_eq e
      have : (7 : ℝ) * z = -16 := by linarith
      have : 7 * z = -16 := by exact_mod_cast this
      omega
    · rw [bAt, if_neg (by omega), if_neg (by rw [hm]; omega), rnd_zero hF, zero_mul]
      norm_num
  rw [W_exp'] at h1
  set P := toC (bAt (T := ℝ) n 2) * toC (chirpAt (T := ℝ) n 2) with hP
  set Q := toC (bAt (T := ℝ) n 10) * toC (chirpAt (T := ℝ) n 2) with hQ
  have h2 : (P + Q) / 2 + (σ : ℂ) ^ 2 * (P - Q) = 1 := by
    rw [← show exp (-(2 * Real.pi * (((0 * 2 : ℕ) : ℝ) / n) : ℝ) * I) = 1 by simp, ← h1, hP, hQ]
    push_cast
    ring
  rw [b2] at h2
  have h3 : (2 * (σ : ℂ) ^ 2 - 1) * (1 - Q) = 0 := by linear_combination 2 * h2
  rcases mul_eq_zero.mp h3 with h | h
  · have h4 : 2 * σ ^ 2 - 1 = 0 := by exact_mod_cast h
    exact rnd24_sqrtHalf_ne (by linarith)
  · exact b10 (sub_eq_zero.mp h).symm

/-- Eight points: bin 1 of the impulse at 1. -/
theorem not_dft_eight : ¬ IsDft (impulse 8 1) (@freshOut ℝ (idealF64 fma) cfg (impulse 8 1)) := by
  letI F := idealF64 fma
  have hl := impulse_length 8 1
  intro hd
  have h1 := hd.2 1 (by rw [hl]; norm_num)
  rw [hl, dft_impulse (by norm_num), Props.sig_getD _ _ (by rw [freshOut_length, hl]; norm_num), freshOut,
    hl, if_pos (by decide), freshPow8_ker fma cfg _ hl 1 (by norm_num),
    ker8_congr (b := fun t => if t = 1 then 1 else 0) _ (fun t ht => impulse_getD ht)] at h1
  have h2 : (σ : ℂ) * (1 - I) = W 8 1 := by simpa [ker8] using h1
  rw [W8_1] at h2
  have h3 := congrArg Complex.re h2
  simp at h3
  apply rnd24_sqrtHalf_ne
  rw [h3, div_pow, Real.sq_sqrt (by norm_num)]
  norm_num

/-- Sixteen points: bin 1 of the impulse at 2. -/
theorem not_dft_sixteen : ¬ IsDft (impulse 16 2) (@freshOut ℝ (idealF64 fma) cfg (impulse 16 2)) := by
  letI F := idealF64 fma
  have hl := impulse_length 16 2
  intro hd
  have h1 := hd.2 1 (by rw [hl]; norm_num)
  rw [hl, dft_impulse (by norm_num), Props.sig_getD _ _ (by rw [freshOut_length, hl]; norm_num), freshOut,
    hl, if_pos (by decide), freshPow16_ker fma cfg _ hl 1 (by norm_num),
    ker16_congr (b := fun t => if t = 2 then 1 else 0) _ _ _ (fun t ht => impulse_getD ht), W_exp'] at h1
  have h2 : (σ : ℂ) * (1 - I) = W 8 1 := by
    rw [W_exp']
    have e : ((2 * 1 : ℕ) : ℝ) / ((16 : ℕ) : ℝ) = ((1 : ℕ) : ℝ) / ((8 : ℕ) : ℝ) := by norm_num
    rw [← e, ← h1]
    simp [ker16, ker8]
  rw [W8_1] at h2
  have h3 := congrArg Complex.re h2
  simp at h3
  apply rnd24_sqrtHalf_ne
  rw [h3, div_pow, Real.sq_sqrt (by norm_num)]
  norm_num

end small

namespace Props

/-- C65c. Exactly which lengths: with all arithmetic exact except the conversions of the `f64` code through
`f32`, `fft` computes the DFT of every input of length `n` if and only if `n` is 1, 2, 4, a power of two from 32
on, or a length from 9 to 4097 that is not a power of two. -/
theorem fft_f64_exact_iff (fma : Bool) (cfg : Cfg) (hstd : cfg.std = true) (n : ℕ) (hn : 0 < n) :
    letI := idealF64 fma
    (∀ x : List (Cx ℝ), x.length = n → ∃ p y, fft cfg Planner.new x = .ok (p, y, .ok ()) ∧ IsDft x y) ↔ F64Safe n := by
  letI := idealF64 fma
  constructor
  · intro h
    by_contra hs
    have key : ∀ r, IsDft (impulse n r) (@freshOut ℝ (idealF64 fma) cfg (impulse n r)) := by
      intro r
      obtain ⟨p, y, e, hd⟩ := h (impulse n r) (impulse_length n r)
      obtain ⟨p', e'⟩ := fft_run_fresh (F := idealF64 fma) cfg (impulse n r) (by rw [impulse_length]; exact hn) (Or.inl hstd)
        (@Planner.new ℝ) .new
      rw [e'] at e
      cases e
      exact hd
    unfold F64Safe at hs
    push Not at hs
    obtain ⟨n1, n2, n4, hpow, hmid⟩ := hs
    by_cases hp : isPow2 n = true
    · obtain ⟨K, rfl⟩ := isPow2_iff.mp hp
      have hK : K < 5 := by
        by_contra hc
        exact hpow K (by omega) rfl
      interval_cases K
      · exact n1 rfl
      · exact n2 rfl
      · exact n4 rfl
      · exact not_dft_eight fma cfg (key 1)
      · exact not_dft_sixteen fma cfg (key 2)
    · by_cases h9 : 9 ≤ n
      · by_cases h4 : n ≤ 4097
        · obtain ⟨K, hK⟩ := hmid h9 h4
          exact hp (isPow2_iff.mpr ⟨K, hK⟩)
        · obtain ⟨r, -, hr⟩ := not_dft_long fma cfg hp (by omega)
          exact hr (key r)
      · by_cases h5 : 5 ≤ n
        · by_cases h7 : n ≤ 7
          · exact not_dft_five_to_seven fma cfg h5 h7 (key 0)
          · exact hp (by rw [show n = 8 by omega]; decide)
        · have : n = 3 := by
            by_contra hc
            have h3 : n = 1 ∨ n = 2 ∨ n = 4 := by omega
            tauto
          subst this
          exact not_dft_three fma cfg (key 0)
  · intro hs x hx
    subst hx
    exact fft_f64_safe_exact fma cfg x hs (Or.inl hstd) Planner.new .new

/-- C65e. By how much at long lengths: from 4098 to `2^24` points, not a power of two, bin 4097 of the impulse
at position 4097 is off by at least `4/n`, where the exact value has modulus 1. -/
theorem fft_f64_long_error (fma : Bool) (cfg : Cfg) (hstd : cfg.std = true) (n : ℕ) (h1 : 4098 ≤ n) (h2 : n ≤ 2 ^ 24)
    (hp : ¬ ∃ K, n = 2 ^ K) :
    letI := idealF64 fma
    ∃ x : List (Cx ℝ), x.length = n ∧ (∀ t, sig x t = if t = 4097 then 1 else 0) ∧
      ∃ p y, fft cfg Planner.new x = .ok (p, y, .ok ()) ∧
        4 / (n : ℝ) ≤ ‖sig y 4097 - dft n (sig x) 4097‖ := by
  letI := idealF64 fma
  refine ⟨impulse n 4097, impulse_length n 4097, ?_, ?_⟩
  · intro t
    by_cases ht : t < n
    · rw [sig_getD _ _ (by rw [impulse_length]; exact ht), impulse_getD ht]
    · rw [if_neg (by omega)]
      unfold sig
      rw [List.getElem?_eq_none (by rw [impulse_length]; omega)]
  · obtain ⟨p', e'⟩ := fft_run_fresh (F := idealF64 fma) cfg (impulse n 4097) (by rw [impulse_length]; omega) (Or.inl hstd)
        Planner.new .new
    exact ⟨p', _, e', long_error fma cfg (fun h => hp (isPow2_iff.mp h)) h1 h2⟩

end Props

end Kofft
