import Verif.Props.IntegerTrip
import Verif.Props.RoundingRfft
import Verif.Props.RoundingStft
import Verif.Props.RoundingSpectral
import Verif.Props.Window
import Mathlib.Analysis.Real.Pi.Bounds
/-
Property C126: integer samples (PCM audio) survive the real transforms and analysis and resynthesis by short-time
transforms: rounding the result gives the samples back.
-/
namespace Kofft.Spec

/-- `x` holds the integers `k 0, k 1, …`, of absolute value at most `M`. -/
structure IntSignal (x : List ℝ) (k : ℕ → ℤ) (M : ℝ) : Prop where
  eq : ∀ s, s < x.length → x.getD s 0 = k s
  bound : ∀ s, s < x.length → |x.getD s 0| ≤ M
  nonneg : 0 ≤ M

/-- The accumulated squared window at sample `i`: what resynthesis divides by. -/
noncomputable def windowPower (window : List ℝ) (hop frames i : ℕ) : ℝ :=
  ∑ f ∈ Finset.range frames,
    if f * hop ≤ i ∧ i < f * hop + window.length then window.getD (i - f * hop) 0 ^ 2 else 0

end Kofft.Spec

namespace Kofft.Props
open Spec Complex Finset

variable [F : Flt ℝ] {u v t : ℝ}

omit F in
theorem _root_.Kofft.Spec.IntSignal.bound' {x : List ℝ} {k : ℕ → ℤ} {M : ℝ} (h : IntSignal x k M) (s : ℕ) : |x.getD s 0| ≤ M := by
  by_cases hs : s < x.length
  · exact h.bound s hs
  · rw [List.getD_eq_default _ _ (by omega), abs_zero]; exact h.nonneg

/-- C126a. `rfft` and `irfft`, every supported even length. -/
theorem integer_rfft_trip (hF : Rounding F u v t) (cfg : Cfg) (simd : Bool) (un un' : ℕ → Cx ℝ) (m : ℕ) (p : Planner ℝ)
    (hp : Usable F cfg m p) (x : List ℝ) (hx : x.length = 2 * m) (k : ℕ → ℤ) (M : ℝ) (hi : IntSignal x k M)
    (out : List (Cx ℝ)) (ho : out.length = m + 1) (out' : List ℝ) (ho' : out'.length = 2 * m)
    (hsmall : ((fftGrowth cfg u v t m * binGrowth u v t m) ^ 2 * scaleGrowth u v m - 1) *
      (4 * fftWeight m ^ 2 * (2 * m * M)) < 1 / 2) :
    ∃ p1 X p2 y, rfft simd (fft cfg) un p x out = .ok (p1, X, .ok ()) ∧
      irfft simd (ifft cfg) un' p1 X out' = .ok (p2, y, .ok ()) ∧ y.length = 2 * m ∧
      ∀ s, s < 2 * m → round (y.getD s 0) = k s := by
  have hm := hp.pos
  have g1 : 1 ≤ binGrowth u v t m := le_trans (one_le_pow₀ (by linarith [hF.u_nonneg])) (binGrowth_ge hF m)
  have g2 := fftGrowth_ge hF cfg m
  have g3 := scaleGrowth_ge hF hm
  have g4 : 1 ≤ fftGrowth cfg u v t m * binGrowth u v t m := by nlinarith
  have g5 : 0 ≤ (fftGrowth cfg u v t m * binGrowth u v t m) ^ 2 * scaleGrowth u v m - 1 := by nlinarith
  obtain ⟨p1, X, p2, y, e1, e2, hl, hb⟩ :=
    rfft_round_trip_error hF cfg simd un un' x m hm hx hp.len p hp.hist out ho out' ho'
  refine ⟨p1, X, p2, y, e1, e2, hl, fun s hs => round_of_close ?_⟩
  rw [← hi.eq s (by omega)]
  refine lt_of_le_of_lt ((hb s hs).trans (mul_le_mul_of_nonneg_left ?_ g5)) hsmall
  refine mul_le_mul_of_nonneg_left ?_ (by positivity)
  refine (sum_le_sum fun i _ => hi.bound' i).trans (le_of_eq ?_)
  rw [sum_const, card_range, nsmul_eq_mul]
  push_cast
  ring

omit F in
/-- At most `c` frames reach a sample if `c` hops are as long as the window. -/
theorem frames_at (hop L c frames i : ℕ) (hh : 0 < hop) (hc : L ≤ c * hop) :
    (∑ f ∈ range frames, if f * hop ≤ i ∧ i < f * hop + L then (1 : ℝ) else 0) ≤ c := by
  rw [← sum_filter, sum_const, nsmul_eq_mul, mul_one]
  have : (range frames).filter (fun f => f * hop ≤ i ∧ i < f * hop + L) ⊆
      (range c).image (fun j => i / hop - j) := by
    intro f hf
    rw [mem_filter] at hf
    rw [mem_image]
    obtain ⟨-, h1, h2⟩ := hf
    have h3 : f ≤ i / hop := (Nat.le_div_iff_mul_le hh).mpr h1
    refine ⟨i / hop - f, ?_, by omega⟩
    rw [mem_range]
    have h4 : i / hop < f + c := by
      rw [Nat.div_lt_iff_lt_mul hh]
      calc i < f * hop + L := h2
        _ ≤ f * hop + c * hop := by omega
        _ = _ := by ring
    omega
  have h2 := (card_le_card this).trans card_image_le
  rw [card_range] at h2
  exact_mod_cast h2

/-- C126b. `stft` and `istft` with a window of absolute value at most `B`: at every sample where the accumulated squared window is at least `d`. `c` is the number
of hops in a window. -/
theorem integer_stft_trip (hF : Rounding F u v t) (cfg : Cfg) (p : Planner ℝ) (signal window : List ℝ)
    (hop : ℕ) (output : List (List (Cx ℝ))) (hh : 0 < hop) (ho : signal.length ≤ output.length * hop)
    (hp : Usable F cfg window.length p) (k : ℕ → ℤ) (M : ℝ) (hi : IntSignal signal k M)
    (scratch : List ℝ) (hs : scratch.length = signal.length) (hg : normGrowth u output.length < 2)
    (B : ℝ) (hw : ∀ s, |window.getD s 0| ≤ B) (c : ℕ) (hc : window.length ≤ c * hop) (d : ℝ) (hd : 0 < d)
    (hsafe : (1 + u) / 10 ^ 8 < (2 - normGrowth u output.length) * d)
    (hsmall : (resynthGrowth cfg u v t window.length output.length - 1) *
      (fftWeight window.length ^ 2 * (c * (window.length * (M * B ^ 2))) / d) < 1 / 2) :
    ∃ p1 frames p2 ys out sc,
      stft (fft cfg) p signal window hop output = .ok (p1, frames, .ok ()) ∧
      istft (ifft cfg) p1 frames window hop (List.replicate signal.length 0) scratch = .ok (p2, ys, out, sc, .ok ()) ∧
      out.length = signal.length ∧
      ∀ i, i < signal.length → d ≤ windowPower window hop output.length i → round (out.getD i 0) = k i := by
  obtain ⟨p1, frames, p2, ys, out, sc, e1, e2, hl, hb⟩ := istft_stft_error hF cfg p signal window hop output hh ho
    hp.pos hp.len hp.hist signal.length scratch hs hg
  refine ⟨p1, frames, p2, ys, out, sc, e1, e2, hl, fun i hi' hD => round_of_close ?_⟩
  have hu := hF.u_nonneg
  have hn2 : 0 < 2 - normGrowth u output.length := by linarith
  have h := hb i hi' (hsafe.trans_le (mul_le_mul_of_nonneg_left hD hn2.le))
  rw [← hi.eq i hi']
  have hR : 0 ≤ resynthGrowth cfg u v t window.length output.length - 1 := by
    have a1 := fftGrowth_ge hF cfg window.length
    have a2 := scaleGrowth_ge hF hp.pos
    have a3 : 1 ≤ (1 + u) ^ (output.length + 3) := one_le_pow₀ (by linarith)
    have a4 : 1 ≤ normGrowth u output.length := one_le_pow₀ (by linarith)
    have : 1 ≤ resynthGrowth cfg u v t window.length output.length := by
      unfold resynthGrowth
      rw [one_le_div hn2]
      have b1 : 1 ≤ fftGrowth cfg u v t window.length ^ 2 * scaleGrowth u v window.length * (1 + u) ^ (output.length + 3) :=
        one_le_mul_of_one_le_of_one_le (one_le_mul_of_one_le_of_one_le (one_le_pow₀ a1) a2) a3
      linarith
    linarith
  refine lt_of_le_of_lt (h.trans (mul_le_mul_of_nonneg_left ?_ hR)) hsmall
  have hM := hi.nonneg
  have hB : 0 ≤ B := (abs_nonneg _).trans (hw 0)
  refine div_le_div₀ (by positivity) (mul_le_mul_of_nonneg_left ?_ (by positivity)) hd hD
  calc _ ≤ ∑ f ∈ range output.length, (if f * hop ≤ i ∧ i < f * hop + window.length then (1 : ℝ) else 0) *
        (window.length * (M * B ^ 2)) := by
        refine sum_le_sum fun f _ => ?_
        split
        · rw [one_mul]
          have h1 : ∑ t ∈ range window.length, |signal.getD (f * hop + t) 0 * window.getD t 0| ≤
              window.length * (M * B) := by
            refine (sum_le_sum fun j _ => ?_).trans (le_of_eq (by rw [sum_const, card_range, nsmul_eq_mul]))
            rw [abs_mul]
            exact mul_le_mul (hi.bound' _) (hw j) (abs_nonneg _) hM
          calc _ ≤ (window.length * (M * B)) * B := mul_le_mul h1 (hw _) (abs_nonneg _) (by positivity)
            _ = _ := by ring
        · simp
    _ = (∑ f ∈ range output.length, if f * hop ≤ i ∧ i < f * hop + window.length then (1 : ℝ) else 0) *
        (window.length * (M * B ^ 2)) := by rw [sum_mul]
    _ ≤ c * (window.length * (M * B ^ 2)) :=
        mul_le_mul_of_nonneg_right (frames_at hop _ c _ i hh hc) (by positivity)

omit F in
/-- Closed form of the growth factor of analysis and resynthesis. -/
theorem resynthGrowth_le {cfg : Cfg} {n c : ℕ} {g : ℝ} (hu : 0 ≤ u) (hg0 : 0 ≤ g)
    (hg : fftGrowth cfg u v t n ^ 2 * scaleGrowth u v n - 1 ≤ g) (hb : (c + 3) * u ≤ 1 / 1000) :
    resynthGrowth cfg u v t n c - 1 ≤ 11 / 10 * g + 4 * ((c + 3) * u) := by
  have pw : ∀ k : ℕ, k ≤ c + 3 → (1 + u) ^ k ≤ 1 + 1.002 * ((c + 3) * u) := by
    intro k hk
    have h1 : (1 + u) ^ k ≤ Real.exp ((c + 3) * u) := by
      calc (1 + u) ^ k ≤ (1 + u) ^ (c + 3) := pow_le_pow_right₀ (by linarith) hk
        _ ≤ Real.exp u ^ (c + 3) := pow_le_pow_left₀ (by linarith) (by linarith [Real.add_one_le_exp u]) _
        _ = _ := by rw [← Real.exp_nat_mul]; push_cast; ring_nf
    have h0 : 0 ≤ ((c : ℝ) + 3) * u := by positivity
    have h2 := Real.abs_exp_sub_one_sub_id_le (x := ((c : ℝ) + 3) * u) (by rw [abs_of_nonneg h0]; linarith)
    have h3 := le_abs_self (Real.exp (((c : ℝ) + 3) * u) - 1 - ((c : ℝ) + 3) * u)
    nlinarith
  have h1 := pw (c + 3) le_rfl
  have h2 := pw (c + 1) (by omega)
  have h0 : 0 ≤ ((c : ℝ) + 3) * u := by positivity
  unfold resynthGrowth normGrowth
  generalize ((c : ℝ) + 3) * u = b at *
  have hd : 0 < 2 - (1 + u) ^ (c + 1) := by linarith
  rw [sub_le_iff_le_add, div_le_iff₀ hd]
  calc _ ≤ (1 + g) * (1 + 1.002 * b) := mul_le_mul (by linarith) h1 (by positivity) (by linarith)
    _ ≤ (11 / 10 * g + 4 * b + 1) * (1 - 1.002 * b) := by nlinarith [mul_nonneg hg0 h0]
    _ ≤ _ := mul_le_mul_of_nonneg_left (by linarith) (by positivity)

/-- C126c. Closed form with build-time tables, windows of 32 to 1024 samples. -/
theorem integer_stft_trip_precomputed (hF : Rounding F u v t) (hu : u ≤ 1 / 100000) (htu : t ≤ 2 * u) (cfg : Cfg)
    (hcp : cfg.precomputed = true) (hk : cfg.kind = .f32 ∨ cfg.kind = .f64) (K : ℕ) (hK : 5 ≤ K) (hK10 : K ≤ 10)
    (p : Planner ℝ) (signal window : List ℝ) (hwl : window.length = 2 ^ K)
    (hop : ℕ) (output : List (List (Cx ℝ))) (hh : 0 < hop) (ho : signal.length ≤ output.length * hop)
    (hp : Usable F cfg (2 ^ K) p) (k : ℕ → ℤ) (M : ℝ) (hi : IntSignal signal k M)
    (scratch : List ℝ) (hs : scratch.length = signal.length) (hfr : (output.length + 3) * u ≤ 1 / 1000)
    (B : ℝ) (hw : ∀ s, |window.getD s 0| ≤ B) (c : ℕ) (hc : 2 ^ K ≤ c * hop) (d : ℝ) (hd : 1 / 10 ^ 7 ≤ d)
    (hsmall : (113 * K * u + 4 * ((output.length + 3) * u)) * (c * (2 ^ K * (M * B ^ 2)) / d) < 1 / 2) :
    ∃ p1 frames p2 ys out sc,
      stft (fft cfg) p signal window hop output = .ok (p1, frames, .ok ()) ∧
      istft (ifft cfg) p1 frames window hop (List.replicate signal.length 0) scratch = .ok (p2, ys, out, sc, .ok ()) ∧
      out.length = signal.length ∧
      ∀ i, i < signal.length → d ≤ windowPower window hop output.length i → round (out.getD i 0) = k i := by
  have hu0 := hF.u_nonneg
  have hd0 : 0 < d := lt_of_lt_of_le (by norm_num) hd
  have hM := hi.nonneg
  have h16 : 16 < 2 ^ K := by
    have : 2 ^ 5 ≤ 2 ^ K := Nat.pow_le_pow_right (by norm_num) hK
    omega
  have hg : normGrowth u output.length ≤ 1 + 1 / 100 := by
    unfold normGrowth
    have h1 : (1 + u) ^ (output.length + 1) ≤ Real.exp ((output.length + 3) * u) := by
      calc (1 + u) ^ (output.length + 1) ≤ (1 + u) ^ (output.length + 3) := pow_le_pow_right₀ (by linarith) (by omega)
        _ ≤ Real.exp u ^ (output.length + 3) := pow_le_pow_left₀ (by linarith) (by linarith [Real.add_one_le_exp u]) _
        _ = _ := by rw [← Real.exp_nat_mul]; push_cast; ring_nf
    have h0 : 0 ≤ ((output.length : ℝ) + 3) * u := by positivity
    have h2 := Real.abs_exp_sub_one_le (x := ((output.length : ℝ) + 3) * u) (by rw [abs_of_nonneg h0]; linarith)
    rw [abs_of_nonneg h0] at h2
    linarith [le_abs_self (Real.exp (((output.length : ℝ) + 3) * u) - 1)]
  refine integer_stft_trip hF cfg p signal window hop output hh ho (by rw [hwl]; exact hp) k M hi scratch hs
    (by linarith) B hw c (by rw [hwl]; exact hc) d hd0 ?_ (lt_of_le_of_lt ?_ hsmall)
  · calc (1 + u) / 10 ^ 8 < 1 / 2 * (1 / 10 ^ 7) := by linarith
      _ ≤ _ := mul_le_mul (by linarith) hd (by norm_num) (by linarith)
  · have tg := tripGrowth_precomputed hF hu htu cfg hcp hk K hK hK10
    rw [l2Growth, if_pos ⟨isPow2_pow K, h16⟩] at tg
    have rg := resynthGrowth_le (c := output.length) hu0 (by positivity) tg hfr
    rw [hwl, fftWeight, if_pos (isPow2_pow K)]
    push_cast
    rw [one_pow, one_mul]
    have hB : 0 ≤ B := (abs_nonneg _).trans (hw 0)
    refine mul_le_mul_of_nonneg_right (rg.trans ?_) (by positivity)
    have : 0 ≤ (K : ℝ) * u := by positivity
    nlinarith

/-- The accumulated squared Hann window in rounded arithmetic: from the first full overlap on it is at least an eighth of
the number of hops per window. -/
theorem hann_power (hF : Rounding F u v t) (hD : ∀ n, |F.ofNatD n - n| ≤ v * n) (hε : windowGrowth u v t - 1 ≤ 1 / 10)
    (R hop frames i : ℕ) (hR : 2 ≤ R) (h0 : (R - 1) * hop ≤ i) (hi : i < frames * hop) :
    (R : ℝ) / 8 ≤ windowPower (hann (R * hop)) hop frames i := by
  have hh : 0 < hop := by
    rcases Nat.eq_zero_or_pos hop with h | h
    · subst h; simp at hi
    · exact h
  have hR0 : (0 : ℝ) < R := by positivity
  have ex := hann_cola (F := realFlt true) (realFlt_lawful true) R hop frames i hR h0 hi
  have hl : ∀ n, (hann n : List ℝ).length = n := fun n => by simp [hann]
  unfold windowPower
  rw [hl]
  set S := (range frames).filter fun f => f * hop ≤ i ∧ i < f * hop + R * hop with hS
  have cardS : (S.card : ℝ) ≤ R := by
    have := frames_at hop (R * hop) R frames i hh le_rfl
    rw [← sum_filter, sum_const, nsmul_eq_mul, mul_one] at this
    exact this
  rw [← sum_filter] at ex ⊢
  rw [← hS] at ex ⊢
  -- the computed samples are within a tenth of the exact ones
  have close : ∀ f ∈ S, (@hann ℝ (realFlt true) (R * hop)).getD (i - f * hop) 0 - 1 / 10 ≤
      (hann (R * hop) : List ℝ).getD (i - f * hop) 0 := by
    intro f hf
    rw [hS, mem_filter] at hf
    have hlt : i - f * hop < R * hop := by omega
    have h1 := (window_error hF hD (R * hop) (i - f * hop) hlt).1
    have h2 : (@hann ℝ (realFlt true) (R * hop)).getD (i - f * hop) 0 =
        1 / 2 - 1 / 2 * Real.cos (2 * Real.pi * ((i - f * hop : ℕ) : ℝ) / ((R * hop : ℕ) : ℝ)) := by
      unfold hann
      rw [getD_range_map hlt, hannAt_real (F := realFlt true) (realFlt_lawful true)]
    rw [h2]
    have h3 := (abs_le.mp h1).1
    linarith
  have hsum : (R : ℝ) * (4 / 10) ≤ ∑ f ∈ S, (hann (R * hop) : List ℝ).getD (i - f * hop) 0 := by
    have h1 := sum_le_sum close
    rw [sum_sub_distrib, ex, sum_const, nsmul_eq_mul] at h1
    linarith
  have cs := sq_sum_le_card_mul_sum_sq (s := S) (f := fun f => (hann (R * hop) : List ℝ).getD (i - f * hop) 0)
  set Q := ∑ f ∈ S, (hann (R * hop) : List ℝ).getD (i - f * hop) 0 ^ 2 with hQ
  have hQ0 : 0 ≤ Q := sum_nonneg fun _ _ => sq_nonneg _
  have h2 : ((R : ℝ) * (4 / 10)) ^ 2 ≤ R * Q :=
    (pow_le_pow_left₀ (by positivity) hsum 2).trans (cs.trans (mul_le_mul_of_nonneg_right cardS hQ0))
  have h3 : (R : ℝ) * (16 / 100) ≤ Q := by
    refine le_of_mul_le_mul_left ?_ hR0
    calc (R : ℝ) * (R * (16 / 100)) = (R * (4 / 10)) ^ 2 := by ring
      _ ≤ _ := h2
  linarith

/-- C126d. The library's own Hann window, `R ≥ 2` hops per window: every sample from the first full overlap on is
recovered. -/
theorem integer_stft_trip_hann (hF : Rounding F u v t) (hu : u ≤ 1 / 100000) (htu : t ≤ 2 * u)
    (hD : ∀ n, |F.ofNatD n - n| ≤ v * n) (hε : windowGrowth u v t - 1 ≤ 1 / 10) (cfg : Cfg)
    (hcp : cfg.precomputed = true) (hk : cfg.kind = .f32 ∨ cfg.kind = .f64) (K : ℕ) (hK : 5 ≤ K) (hK10 : K ≤ 10)
    (p : Planner ℝ) (signal : List ℝ) (R hop : ℕ) (hR : 2 ≤ R) (hL : R * hop = 2 ^ K)
    (output : List (List (Cx ℝ))) (ho : signal.length ≤ output.length * hop)
    (hp : Usable F cfg (2 ^ K) p) (k : ℕ → ℤ) (M : ℝ) (hi : IntSignal signal k M)
    (scratch : List ℝ) (hs : scratch.length = signal.length) (hfr : (output.length + 3) * u ≤ 1 / 1000)
    (hsmall : (113 * K * u + 4 * ((output.length + 3) * u)) * (32 * (2 ^ K * M)) < 1 / 2) :
    ∃ p1 frames p2 ys out sc,
      stft (fft cfg) p signal (hann (2 ^ K)) hop output = .ok (p1, frames, .ok ()) ∧
      istft (ifft cfg) p1 frames (hann (2 ^ K)) hop (List.replicate signal.length 0) scratch =
        .ok (p2, ys, out, sc, .ok ()) ∧
      out.length = signal.length ∧
      ∀ i, (R - 1) * hop ≤ i → i < signal.length → round (out.getD i 0) = k i := by
  have hh : 0 < hop := by
    rcases Nat.eq_zero_or_pos hop with h | h
    · subst h
      have : 0 < 2 ^ K := by positivity
      omega
    · exact h
  have hR2 : (2 : ℝ) ≤ R := by exact_mod_cast hR
  have hw : ∀ s, |(hann (2 ^ K) : List ℝ).getD s 0| ≤ 2 := by
    intro s
    by_cases hlt : s < 2 ^ K
    · have h1 := abs_le.mp (window_error hF hD (2 ^ K) s hlt).1
      have h2 := Real.neg_one_le_cos (2 * Real.pi * s / ((2 ^ K : ℕ) : ℝ))
      have h3 := Real.cos_le_one (2 * Real.pi * s / ((2 ^ K : ℕ) : ℝ))
      rw [abs_le]
      constructor <;> linarith [h1.1, h1.2]
    · rw [List.getD_eq_default _ _ (by simp [hann]; omega)]; norm_num
  obtain ⟨p1, fr, p2, ys, out, sc, e1, e2, hl, H⟩ := integer_stft_trip_precomputed hF hu htu cfg hcp hk K hK hK10 p signal
    (hann (2 ^ K)) (by simp [hann]) hop output hh ho hp k M hi scratch hs hfr 2 hw R hL.ge (R / 8)
    (by linarith) (by
      refine lt_of_le_of_lt (le_of_eq ?_) hsmall
      congr 1
      field_simp
      ring)
  refine ⟨p1, fr, p2, ys, out, sc, e1, e2, hl, fun i h0 h1 => H i h1 ?_⟩
  have := hann_power hF hD hε R hop output.length i hR h0 (by omega)
  rwa [hL] at this

/-- Ten minutes of 16-bit audio at 44.1 kHz, windows of 1024 samples four to a hop, in binary64 with build-time tables:
lossless wherever the accumulated squared window is at least a tenth. -/
example (fused fma : Bool) (cfg : Cfg) (hcp : cfg.precomputed = true) (hk : cfg.kind = .f64)
    (signal window : List ℝ) (hwl : window.length = 2 ^ 10) (hw : ∀ s, |window.getD s 0| ≤ 1)
    (hl : signal.length = 44100 * 600) (k : ℕ → ℤ) (hi : IntSignal signal k 32768) :
    letI := rndFlt 53 24 fused fma
    ∃ p1 frames p2 ys out sc,
      stft (fft cfg) Planner.new signal window 256 (List.replicate 103360 []) = .ok (p1, frames, .ok ()) ∧
      istft (ifft cfg) p1 frames window 256 (List.replicate signal.length 0) (List.replicate signal.length 0) =
        .ok (p2, ys, out, sc, .ok ()) ∧
      out.length = signal.length ∧
      ∀ i, i < signal.length → 1 / 10 ≤ windowPower window 256 103360 i → round (out.getD i 0) = k i := by
  letI := rndFlt 53 24 fused fma
  have := integer_stft_trip_precomputed (rndFlt_rounding 53 24 (by norm_num) (by norm_num) fused fma) (by norm_num)
    (by norm_num) cfg hcp (Or.inr hk) 10 (by norm_num) (by norm_num) Planner.new signal window hwl 256
    (List.replicate 103360 []) (by norm_num) (by rw [List.length_replicate, hl]; norm_num)
    ⟨by norm_num, Or.inr ⟨10, rfl⟩, .new⟩ k 32768 hi (List.replicate signal.length 0) (List.length_replicate ..)
    (by rw [List.length_replicate]; norm_num) 1 hw 4 (by norm_num) (1 / 10) (by norm_num)
    (by rw [List.length_replicate]; norm_num)
  rwa [List.length_replicate] at this

/-- The same recording with the library's Hann window: every sample but the first 768 is recovered. -/
example (fused fma : Bool) (cfg : Cfg) (hcp : cfg.precomputed = true) (hk : cfg.kind = .f64)
    (signal : List ℝ) (hl : signal.length = 44100 * 600) (k : ℕ → ℤ) (hi : IntSignal signal k 32768) :
    letI := rndFlt 53 24 fused fma
    ∃ p1 frames p2 ys out sc,
      stft (fft cfg) Planner.new signal (hann (2 ^ 10)) 256 (List.replicate 103360 []) = .ok (p1, frames, .ok ()) ∧
      istft (ifft cfg) p1 frames (hann (2 ^ 10)) 256 (List.replicate signal.length 0) (List.replicate signal.length 0) =
        .ok (p2, ys, out, sc, .ok ()) ∧
      out.length = signal.length ∧
      ∀ i, (4 - 1) * 256 ≤ i → i < signal.length → round (out.getD i 0) = k i := by
  letI := rndFlt 53 24 fused fma
  refine integer_stft_trip_hann (rndFlt_rounding 53 24 (by norm_num) (by norm_num) fused fma) (by norm_num)
    (by norm_num) (fun n => ?_) ?_ cfg hcp (Or.inr hk) 10 (by norm_num) (by norm_num) Planner.new signal 4 256
    (by norm_num) (by norm_num) (List.replicate 103360 []) (by rw [List.length_replicate, hl]; norm_num)
    ⟨by norm_num, Or.inr ⟨10, rfl⟩, .new⟩ k 32768 hi (List.replicate signal.length 0) (List.length_replicate ..)
    (by rw [List.length_replicate]; norm_num) (by rw [List.length_replicate]; norm_num)
  · have := rnd_close 53 (n : ℝ)
    rw [abs_of_nonneg (by positivity : (0 : ℝ) ≤ (n : ℝ))] at this
    exact this.trans (mul_le_mul_of_nonneg_right (by norm_num) (by positivity))
  · unfold windowGrowth
    have h1 : ((1 + 1 / 2 ^ 53 : ℝ)) ^ 4 * (1 + 1 / 2 ^ 24) / (1 - 1 / 2 ^ 24) - 1 ≤ 7 / 2 ^ 24 := by norm_num
    have h2 : (1 + 1 / 2 ^ 53 : ℝ) ^ 3 ≤ 1 + 4 / 2 ^ 24 := by norm_num
    have h0 : (0 : ℝ) ≤ (1 + 1 / 2 ^ 53) ^ 4 * (1 + 1 / 2 ^ 24) / (1 - 1 / 2 ^ 24) - 1 := by norm_num
    have hp : Real.pi ≤ 3.15 := Real.pi_lt_d2.le
    have hp0 := Real.pi_pos
    calc _ ≤ (1 + (1 / 2 ^ 53 + 7 / 2 ^ 24 * (2 * 3.15))) * (1 + 4 / 2 ^ 24) - (1 : ℝ) := by gcongr
      _ ≤ _ := by norm_num

/-- Integer samples exist: the hypothesis of the theorems on the signal is met. -/
example : IntSignal [3, -32768, 0] (fun s => if s = 0 then 3 else if s = 1 then -32768 else 0) 32768 := by
  refine ⟨fun s hs => ?_, fun s hs => ?_, by norm_num⟩ <;>
  · have : s = 0 ∨ s = 1 ∨ s = 2 := by simp at hs; omega
    rcases this with rfl | rfl | rfl <;> norm_num

end Kofft.Props
