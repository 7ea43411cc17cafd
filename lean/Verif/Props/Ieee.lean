import Verif.Proof.IeeeFft
import Verif.Props.Rounding
import Verif.Lib.IeeeFlt
/-
Property C85: transforms of finite data of moderate size stay finite, and are accurate up to a relative error and the
effect of underflow, in arithmetic with a bounded exponent range.
-/
namespace Kofft.Props
open Spec Complex Finset

variable {T : Type} [F : Flt T] {N : Denote T} {u η Ω v t : ℝ}

theorem ie_env (hF : Ieee F N u η Ω v t) {D : ℝ} (hD0 : 0 < D) {n : ℕ} (hn : 0 < n) (hD : workSize n * D ≤ 1)
    (hU : effErr u η D ≤ 1) : Env F N u η Ω v t D :=
  { hF with
    D_pos := hD0
    D_le := by
      have : (1 : ℝ) ≤ workSize n := by exact_mod_cast hn.trans_le (workSize_ge n)
      nlinarith
    U_le := hU }

omit F in
theorem csig_get [Flt T] (x : List (Cx T)) (i : ℕ) (hi : i < x.length) : N.csig x i = N.cval (x.getD i Cx.zero) := by
  simp [Denote.csig, hi]

/-- finite data as a starting point: weight `|x_i| + D` -/
theorem ie_input {D : ℝ} (hD0 : 0 < D) (x : List (Cx T)) (hfin : ∀ c ∈ x, N.cfin c) (i : ℕ) (hi : i < x.length) :
    IAp N D 1 (x.getD i Cx.zero) (N.csig x i) (‖N.csig x i‖ + D) := by
  rw [csig_get x i hi]
  refine IAp.exact ?_ (by linarith) (by linarith [norm_nonneg (N.cval (x.getD i Cx.zero))])
  have : x.getD i Cx.zero = x[i] := by simp [hi]
  rw [this]
  exact hfin _ (List.getElem_mem hi)

omit F in
theorem ie_sum (f : ℕ → ℝ) (n : ℕ) (w D : ℝ) :
    ∑ i ∈ range n, (f i + D) + (w - n) * D = ∑ i ∈ range n, f i + w * D := by
  rw [sum_add_distrib, sum_const, card_range, nsmul_eq_mul]; ring

theorem all_fin (y : List (Cx T)) (h : ∀ k, k < y.length → N.cfin (y.getD k Cx.zero)) : ∀ c ∈ y, N.cfin c := by
  intro c hc
  obtain ⟨k, hk, rfl⟩ := List.mem_iff_getElem.mp hc
  have := h k hk
  simpa [hk] using this

/-- the room assumed is enough for every step -/
theorem ie_room_of {G R S wD : ℝ} (hG : 1 ≤ G) (hR : 1 ≤ R) (hS : 0 ≤ S) (hwD : wD ≤ 1)
    (hΩ : G * (R * (20 + S)) ≤ Ω) : G * (R * 19) ≤ Ω ∧ G * (R * (S + wD)) ≤ Ω := by
  have h1 : 0 ≤ G * R := by positivity
  constructor
  · refine le_trans ?_ hΩ
    rw [← mul_assoc, ← mul_assoc]
    exact mul_le_mul_of_nonneg_left (by linarith) h1
  · refine le_trans ?_ hΩ
    rw [← mul_assoc, ← mul_assoc]
    exact mul_le_mul_of_nonneg_left (by linarith) h1

theorem ieeeRoom_ge {n : ℕ} (hn : 0 < n) : 1 ≤ ieeeRoom n := (ieeeWeight_ge hn).trans (ieeeWeight_le_room hn)

/-- C85a. `fft` of finite data, in arithmetic with numbers up to `Ω`, on a transformer used before only with transforms
no larger. If the sum of the magnitudes leaves room below `Ω`, nothing overflows: every output is finite. Every output
is within a relative error of the exact DFT, plus `D` per sample, where `D` is any threshold chosen large enough
against `η` that an underflow counts as a relative error `2η/D`. -/
theorem fft_ieee (hF : Ieee F N u η Ω v t) (cfg : Cfg) (x : List (Cx T)) (hx : 0 < x.length)
    (hlen : x.length ≤ 2 ^ 31) (hfin : ∀ c ∈ x, N.cfin c)
    (hn : cfg.std = true ∨ ∃ k, x.length = 2 ^ k) (p : Planner T)
    (hp : ReachVia cfg (fun m => workSize m ≤ workSize x.length) p)
    (D : ℝ) (hD0 : 0 < D) (hD : workSize x.length * D ≤ 1) (hU : effErr u η D ≤ 1)
    (hΩ : fftGrowth cfg (effErr u η D) v t x.length *
      (ieeeRoom x.length * (20 + ∑ s ∈ range x.length, ‖N.csig x s‖)) ≤ Ω) :
    ∃ p' y, fft cfg p x = .ok (p', y, .ok ()) ∧ y.length = x.length ∧ (∀ c ∈ y, N.cfin c) ∧
      ∀ k, k < x.length → ‖N.csig y k - dft x.length (N.csig x) k‖ ≤
        (fftGrowth cfg (effErr u η D) v t x.length - 1) *
          (ieeeWeight x.length * (∑ s ∈ range x.length, ‖N.csig x s‖ + workSize x.length * D)) := by
  have h := ie_env hF hD0 hx hD hU
  have hr : fftRes cfg x.length = .ok () := by
    rcases hn with h | h
    · exact fftRes_std h hx
    · exact fftRes_pow2 cfg (isPow2_iff.mpr h)
  obtain ⟨p', e, h1, hl, -⟩ := (fft_opOk cfg).run p x (reachVia_inv hp)
  rw [hr, fftBuf_fresh cfg p x (reachVia_inv hp) hr (compat_of_reach hp)] at e
  rw [fftBuf_fresh cfg p x (reachVia_inv hp) hr (compat_of_reach hp)] at hl
  obtain ⟨r1, r2⟩ := ie_room_of (ie_fftG h cfg x.length) (ieeeRoom_ge hx)
    (sum_nonneg fun i _ => norm_nonneg (N.csig x i)) hD hΩ
  have key : ∀ k, k < x.length → _ := fun k hk =>
    ie_freshOut h cfg x hx hlen (N.csig x) (fun i => ‖N.csig x i‖ + D) 1 (ie_input hD0 x hfin) hD r1
      (by rw [one_mul, ie_sum]; exact r2) k hk
  refine ⟨p', _, e, hl, all_fin _ fun k hk => (key k (by rw [← hl]; exact hk)).fin, ?_⟩
  intro k hk
  have := (key k hk).err
  rw [one_mul, ie_sum] at this
  rw [csig_get _ _ (by rw [hl]; exact hk)]
  exact this

/-- C85b. The same for `ifft` and the inverse DFT. -/
theorem ifft_ieee (hF : Ieee F N u η Ω v t) (cfg : Cfg) (x : List (Cx T)) (hx : 0 < x.length)
    (hlen : x.length ≤ 2 ^ 31) (hfin : ∀ c ∈ x, N.cfin c)
    (hn : cfg.std = true ∨ ∃ k, x.length = 2 ^ k) (p : Planner T)
    (hp : ReachVia cfg (fun m => workSize m ≤ workSize x.length) p)
    (D : ℝ) (hD0 : 0 < D) (hD : workSize x.length * D ≤ 1) (hU : effErr u η D ≤ 1)
    (hΩ : fftGrowth cfg (effErr u η D) v t x.length * scaleGrowth (effErr u η D) v x.length *
      (ieeeRoom x.length * (20 + ∑ s ∈ range x.length, ‖N.csig x s‖)) ≤ Ω) :
    ∃ p' y, ifft cfg p x = .ok (p', y, .ok ()) ∧ y.length = x.length ∧ (∀ c ∈ y, N.cfin c) ∧
      ∀ s, s < x.length → ‖N.csig y s - idft x.length (N.csig x) s‖ ≤
        (fftGrowth cfg (effErr u η D) v t x.length * scaleGrowth (effErr u η D) v x.length - 1) *
          (ieeeWeight x.length * (∑ k ∈ range x.length, ‖N.csig x k‖ + workSize x.length * D) / x.length) := by
  have h := ie_env hF hD0 hx hD hU
  have hr : fftRes cfg x.length = .ok () := by
    rcases hn with h | h
    · exact fftRes_std h hx
    · exact fftRes_pow2 cfg (isPow2_iff.mpr h)
  obtain ⟨p', e, h1, hl, -⟩ := (ifft_opOk cfg).run p x (reachVia_inv hp)
  rw [hr] at e
  have hG := ie_fftG h cfg x.length
  have hSc := ie_scale_ge h hx
  have hR := ieeeRoom_ge hx
  obtain ⟨r1, r2⟩ := ie_room_of (one_le_mul_of_one_le_of_one_le hG hSc) (ieeeRoom_ge hx)
    (sum_nonneg fun i _ => norm_nonneg (N.csig x i)) hD hΩ
  have r1' : fftGrowth cfg (effErr u η D) v t x.length * (ieeeRoom x.length * 19) ≤ Ω := by
    refine le_trans (mul_le_mul_of_nonneg_right ?_ (by linarith)) r1
    exact le_mul_of_one_le_right (by linarith) hSc
  have key : ∀ k, k < x.length → _ := fun k hk =>
    ie_ifftBuf h cfg p x (reachVia_inv hp) hr (compat_of_reach hp) hlen (N.csig x) (fun i => ‖N.csig x i‖ + D) 1
      (ie_input hD0 x hfin) hD r1' (by rw [one_mul, ie_sum]; exact r2) k hk
  refine ⟨p', _, e, hl, all_fin _ fun k hk => (key k (by rw [← hl]; exact hk)).fin, ?_⟩
  intro k hk
  have := (key k hk).err
  rw [one_mul, ie_sum] at this
  rw [csig_get _ _ (by rw [hl]; exact hk)]
  exact this

/-- C85c. Binary32, `2^K` points with `5 ≤ K ≤ 16`, tables built by rotation, `sin` and `cos` accurate to `2⁻²³`: as long
as the magnitudes sum to at most `2¹²⁵`, every output is finite and within `16 K 2^K 2⁻²³ (Σ |x_t| + 2^K 2⁻¹⁰⁰)` of the
DFT. -/
theorem fft_binary32 (hF : Ieee F N (1 / 2 ^ 24) (1 / 2 ^ 150) (2 ^ 128 - 2 ^ 104) (1 / 2 ^ 24) (1 / 2 ^ 23)) (cfg : Cfg)
    (hc : cfg.precomputed = false) (K : ℕ) (hK : 5 ≤ K) (hK' : K ≤ 16) (x : List (Cx T)) (hx : x.length = 2 ^ K)
    (hfin : ∀ c ∈ x, N.cfin c) (hS : ∑ s ∈ range x.length, ‖N.csig x s‖ ≤ 2 ^ 125) :
    ∃ p y, fft cfg Planner.new x = .ok (p, y, .ok ()) ∧ y.length = x.length ∧ (∀ c ∈ y, N.cfin c) ∧
      ∀ k, k < x.length → ‖N.csig y k - dft x.length (N.csig x) k‖ ≤
        16 * K * 2 ^ K / 2 ^ 23 * (∑ s ∈ range x.length, ‖N.csig x s‖ + 2 ^ K / 2 ^ 100) := by
  have hp : isPow2 x.length = true := by rw [hx]; exact isPow2_pow K
  have hK2 : (2 : ℝ) ^ K ≤ 65536 := by
    calc (2 : ℝ) ^ K ≤ 2 ^ 16 := pow_le_pow_right₀ (by norm_num) hK'
      _ = 65536 := by norm_num
  have hKr : (K : ℝ) ≤ 16 := by exact_mod_cast hK'
  have hKN : x.length ≤ 65536 := by
    rw [hx]
    calc 2 ^ K ≤ 2 ^ 16 := Nat.pow_le_pow_right (by norm_num) hK'
      _ = 65536 := by norm_num
  have hw : (workSize x.length : ℝ) = 2 ^ K := by rw [workSize, if_pos hp, hx]; push_cast; rfl
  have hpos : 0 < x.length := by rw [hx]; positivity
  set D : ℝ := 1 / 2 ^ 100 with hDdef
  have hD0 : 0 < D := by rw [hDdef]; positivity
  have hU : effErr (1 / 2 ^ 24) (1 / 2 ^ 150) D = 1 / 2 ^ 24 + 1 / 2 ^ 49 := by
    rw [effErr, hDdef]; norm_num
  have hUle : effErr (1 / 2 ^ 24) (1 / 2 ^ 150) D ≤ 1 / 2 ^ 23 := by rw [hU]; norm_num
  have hU0 : 0 ≤ effErr (1 / 2 ^ 24) (1 / 2 ^ 150) D := by rw [hU]; norm_num
  have hwD : workSize x.length * D ≤ 1 := by
    rw [hw, hDdef]
    calc _ ≤ 65536 * (1 / 2 ^ 100 : ℝ) := mul_le_mul_of_nonneg_right hK2 (by positivity)
      _ ≤ 1 := by norm_num
  have hU1 : effErr (1 / 2 ^ 24) (1 / 2 ^ 150) D ≤ 1 := hUle.trans (by norm_num)
  have h := ie_env hF hD0 hpos hwD hU1
  generalize hUe : effErr (1 / 2 ^ 24) (1 / 2 ^ 150) D = e at *
  have hKK : (K : ℝ) * 2 ^ K ≤ 16 * 65536 := mul_le_mul hKr hK2 (by positivity) (by norm_num)
  have hKK0 : 0 ≤ (K : ℝ) * 2 ^ K := by positivity
  have hsm : (K : ℝ) * 2 ^ K * e ≤ 16 * 65536 * (1 / 2 ^ 23) := mul_le_mul hKK hUle hU0 (by norm_num)
  have hround := h.rounding
  rw [hUe] at hround
  have hg := fftGrowth_rotation (F := realFlt true) hround (hUle.trans (by norm_num))
    (by rw [hU]; norm_num) cfg hc K hK (by
      rw [show 8 * (K : ℝ) * 2 ^ K * e = 8 * (K * 2 ^ K * e) by ring]
      norm_num at hsm ⊢; linarith)
  rw [← hx] at hg
  have hgle : fftGrowth cfg e (1 / 2 ^ 24) (1 / 2 ^ 23) x.length - 1 ≤ 16 * K * 2 ^ K / 2 ^ 23 := by
    refine hg.trans ?_
    rw [div_eq_mul_one_div]
    exact mul_le_mul_of_nonneg_left hUle (by positivity)
  have hg3 : fftGrowth cfg e (1 / 2 ^ 24) (1 / 2 ^ 23) x.length ≤ 3 := by
    have : 16 * (K : ℝ) * 2 ^ K * e = 16 * (K * 2 ^ K * e) := by ring
    norm_num at hsm
    linarith
  have hS0 : 0 ≤ ∑ s ∈ range x.length, ‖N.csig x s‖ := sum_nonneg fun _ _ => norm_nonneg _
  obtain ⟨p, y, r1, r2, r3, r4⟩ := fft_ieee hF cfg x hpos (hKN.trans (by norm_num)) hfin (Or.inr ⟨K, hx⟩) Planner.new .new
    D hD0 hwD (by rw [hUe]; exact hU1) (by
      rw [hUe, ieeeRoom, if_pos hp, one_mul]
      calc _ ≤ 3 * (20 + 2 ^ 125 : ℝ) := mul_le_mul hg3 (by linarith) (by linarith) (by norm_num)
        _ ≤ _ := by norm_num)
  refine ⟨p, y, r1, r2, r3, ?_⟩
  intro k hk
  refine (r4 k hk).trans ?_
  rw [hUe, ieeeWeight, if_pos hp, one_mul, hw, hDdef, mul_one_div]
  exact mul_le_mul_of_nonneg_right hgle (by positivity)

/-! ### The hypotheses are met -/

omit F in
theorem binary32 (fused fma : Bool) : Ieee (binFlt 24 24 (-149) (2 ^ 128 - 2 ^ 104) fused fma) (binDen (-149))
    (1 / 2 ^ 24) (1 / 2 ^ 150) (2 ^ 128 - 2 ^ 104) (1 / 2 ^ 24) (1 / 2 ^ 23) := by
  have := binFlt_ieee 24 24 (-149) (2 ^ 128 - 2 ^ 104) (by norm_num) (by norm_num) (by norm_num) (by norm_num)
    (by norm_num) fused fma
  norm_num at this ⊢
  exact this

omit F in
theorem binary64 (fused fma : Bool) : Ieee (binFlt 53 24 (-1074) (2 ^ 1024 - 2 ^ 971) fused fma) (binDen (-1074))
    (1 / 2 ^ 53) (2 ^ (-1075 : ℤ)) (2 ^ 1024 - 2 ^ 971) (1 / 2 ^ 24) (1 / 2 ^ 52) := by
  have hb : (1000000 : ℝ) ≤ 2 ^ 1024 - 2 ^ 971 := by
    have h1 : (2 : ℝ) ^ 971 ≤ 2 ^ 1023 := pow_le_pow_right₀ (by norm_num) (by norm_num)
    have h2 : (2 : ℝ) ^ 1024 = 2 ^ 1023 * 2 := pow_succ _ _
    have h3 : (2 : ℝ) ^ 20 ≤ 2 ^ 1023 := pow_le_pow_right₀ (by norm_num) (by norm_num)
    have h4 : (1000000 : ℝ) ≤ 2 ^ 20 := by norm_num
    rw [h2]
    clear h2
    generalize (2 : ℝ) ^ 1023 = a at *
    generalize (2 : ℝ) ^ 971 = b at *
    generalize (2 : ℝ) ^ 20 = c at *
    linarith
  have := binFlt_ieee 53 24 (-1074) (2 ^ 1024 - 2 ^ 971) (by norm_num) (by norm_num) (by norm_num) (by norm_num)
    hb fused fma
  rw [show (2 : ℝ) / 2 ^ 53 = 1 / 2 ^ 52 by norm_num, show (-1074 - 1 : ℤ) = -1075 by norm_num] at this
  exact this

omit F in
/-- A concrete signal for C85c: 32 samples of value `2^100` in binary32. -/
example (fused fma : Bool) :
    let _ := binFlt 24 24 (-149) (2 ^ 128 - 2 ^ 104) fused fma
    ∃ p y, fft (T := Option ℝ) ⟨true, .f32, false, 4, false⟩ Planner.new (List.replicate 32 ⟨some (2 ^ 100), some 0⟩) =
      .ok (p, y, .ok ()) ∧ y.length = 32 ∧ ∀ c ∈ y, (binDen (-149)).cfin c := by
  let _ := binFlt 24 24 (-149) (2 ^ 128 - 2 ^ 104) fused fma
  have hval : (binDen (-149)).cval (⟨some (2 ^ 100), some 0⟩ : Cx (Option ℝ)) = ((2 ^ 100 : ℝ) : ℂ) := by
    generalize (2 ^ 100 : ℝ) = a
    apply Complex.ext <;> simp [binDen, Denote.cval]
  obtain ⟨p, y, e, hl, hf, -⟩ := fft_binary32 (binary32 fused fma) ⟨true, .f32, false, 4, false⟩ rfl 5 le_rfl (by norm_num)
    (List.replicate 32 ⟨some (2 ^ 100), some 0⟩) (by simp) (by
      intro c hc
      rw [List.eq_of_mem_replicate hc]
      refine ⟨⟨_, rfl, ?_⟩, ⟨_, rfl, 0, by simp⟩⟩
      have := onGrid_zpow (q := -149) (e := 100) (by norm_num) 1
      simpa using this) (by
      rw [List.length_replicate]
      have : ∀ s ∈ range 32, ‖(binDen (-149)).csig (List.replicate 32 (⟨some (2 ^ 100), some 0⟩ : Cx (Option ℝ))) s‖ =
          2 ^ 100 := by
        intro s hs
        rw [mem_range] at hs
        rw [Denote.csig, List.getElem?_replicate, if_pos hs]
        simp only [Option.map_some, Option.getD_some]
        rw [hval, Complex.norm_real]
        norm_num
      rw [sum_congr rfl this]
      simp only [sum_const, card_range, nsmul_eq_mul]
      norm_num)
  exact ⟨p, y, e, by simpa using hl, hf⟩

omit F in
/-- Without room the result really is not finite: two samples of the largest value. -/
example (fused fma : Bool) (Ω : ℝ) (hΩ : 0 < Ω) :
    let _ := binFlt 24 24 (-149) Ω fused fma
    ∃ p y, fft (T := Option ℝ) ⟨true, .f32, false, 4, false⟩ Planner.new [⟨some Ω, some 0⟩, ⟨some Ω, some 0⟩] =
      .ok (p, y, .ok ()) ∧ ¬ (binDen (-149)).cfin (y.getD 0 ⟨some 0, some 0⟩) := by
  let _ := binFlt 24 24 (-149) Ω fused fma
  obtain ⟨p', e, h1, hl, -⟩ := (fft_opOk (T := Option ℝ) ⟨true, .f32, false, 4, false⟩).run Planner.new
    [⟨some Ω, some 0⟩, ⟨some Ω, some 0⟩] (inv_new _)
  have hr : fftRes ⟨true, .f32, false, 4, false⟩ 2 = .ok () := fftRes_std rfl (by norm_num)
  rw [show [(⟨some Ω, some 0⟩ : Cx (Option ℝ)), ⟨some Ω, some 0⟩].length = 2 from rfl, hr,
    fftBuf_fresh _ _ _ (inv_new _) hr (compat_new _ _)] at e
  refine ⟨p', _, e, ?_⟩
  have h2 : freshOut ⟨true, .f32, false, 4, false⟩ [(⟨some Ω, some 0⟩ : Cx (Option ℝ)), ⟨some Ω, some 0⟩] =
      [Cx.add ⟨some Ω, some 0⟩ ⟨some Ω, some 0⟩, Cx.sub ⟨some Ω, some 0⟩ ⟨some Ω, some 0⟩] := by
    have hp : isPow2 2 = true := by decide
    simp [freshOut, hp, freshPow, powOut, smallOut, smallKernel, fft2, rd, wr]
  rw [h2]
  rintro ⟨⟨x, hx, -⟩, -⟩
  have : (if |Ω + Ω| ≤ Ω then some (grd 24 (-149) (Ω + Ω)) else none) = some x := hx
  rw [if_neg (by rw [abs_of_pos (by linarith)]; linarith)] at this
  exact absurd this (by simp)

omit F in
/-- The growth for three points (a chirp transform) is below 7 for any arithmetic with two correct digits. -/
theorem growth_three (cfg : Cfg) {e v t : ℝ} (he : 0 ≤ e) (he' : e ≤ 1 / 100) (hv : 0 ≤ v) (hv' : v ≤ 1 / 100)
    (ht : 0 ≤ t) (ht' : t ≤ 1 / 100) : fftGrowth cfg e v t 3 ≤ 7 ∧ ieeeRoom 3 = 48 ∧ workSize 3 = 8 := by
  have hp : isPow2 3 = false := by decide
  have hm : nextPow2 (2 * 3 - 1) = 8 := by
    unfold nextPow2
    rw [show Nat.clog 2 (2 * 3 - 1) = 3 by decide +kernel]
  have hw : workSize 3 = 8 := by rw [workSize, hp, if_neg (by simp), hm]
  refine ⟨?_, by rw [ieeeRoom, hp, if_neg (by simp), hw]; norm_num, hw⟩
  have hs := sqrt2_le
  have hs0 := Real.sqrt_nonneg 2
  have hpi := Real.pi_lt_d2
  have hpi0 := Real.pi_pos
  have hmu : mulErr e ≤ 0.029 := by
    unfold mulErr
    calc _ ≤ 1.415 * (0.0201 : ℝ) := mul_le_mul hs (by nlinarith) (by positivity) (by norm_num)
      _ ≤ _ := by norm_num
  have hmu0 := mulErr_nonneg he
  have h1 : (1 + e) ^ 3 ≤ 1.0304 := by
    calc (1 + e) ^ 3 ≤ (1.01 : ℝ) ^ 3 := pow_le_pow_left₀ (by linarith) (by linarith) 3
      _ ≤ _ := by norm_num
  have h10 : 1 ≤ (1 + e) ^ 3 := one_le_pow₀ (by linarith)
  have h2 : (1 + v) / (1 - v) ≤ 1.0203 := by
    rw [div_le_iff₀ (by linarith)]; linarith
  have h20 : 1 ≤ (1 + v) / (1 - v) := by rw [le_div_iff₀ (by linarith)]; linarith
  have hch : chirpErr e v t 3 ≤ 0.51 := by
    unfold chirpErr
    have a1 : Real.sqrt 2 * t ≤ 1.415 * 0.01 := mul_le_mul hs (by linarith) ht (by norm_num)
    have a2 : (1 + e) ^ 3 * ((1 + v) / (1 - v)) ≤ 1.0304 * 1.0203 := mul_le_mul h1 h2 (by linarith) (by norm_num)
    have a3 : ((1 + e) ^ 3 * ((1 + v) / (1 - v)) - 1) * (Real.pi * (3 : ℕ)) ≤ (1.0304 * 1.0203 - 1) * (3.15 * 3) := by
      apply mul_le_mul (by linarith) _ (by positivity) (by norm_num)
      push_cast
      nlinarith
    norm_num at a1 a3 ⊢
    linarith
  have hch0 : 0 ≤ chirpErr e v t 3 := by
    unfold chirpErr
    have : 1 ≤ (1 + e) ^ 3 * ((1 + v) / (1 - v)) := one_le_mul_of_one_le_of_one_le h10 h20
    have := mul_nonneg (sub_nonneg.mpr this) (by positivity : 0 ≤ Real.pi * ((3 : ℕ) : ℝ))
    have := mul_nonneg hs0 ht
    linarith
  have hpow : powGrowth cfg e v t 8 ≤ 1.18 := by
    rw [powGrowth, show Nat.log2 8 = 3 from log2_pow' 3, twGrowth, if_pos (by norm_num)]
    have a1 : 1 + Real.sqrt 2 * v ≤ 1.0142 := by
      have : Real.sqrt 2 * v ≤ 1.415 * 0.01 := mul_le_mul hs (by linarith) hv (by norm_num)
      norm_num at this ⊢; linarith
    have a0 : 0 ≤ Real.sqrt 2 * v := mul_nonneg hs0 hv
    have a2 : (1 + e) * (1 + mulErr e) ≤ 1.01 * 1.029 := mul_le_mul (by linarith) (by linarith) (by linarith) (by norm_num)
    have a3 : (1 + e) * (1 + mulErr e) * (1 + Real.sqrt 2 * v) ≤ 1.01 * 1.029 * 1.0142 :=
      mul_le_mul a2 a1 (by linarith) (by norm_num)
    calc _ ≤ (1.01 * 1.029 * 1.0142 : ℝ) ^ 3 := pow_le_pow_left₀ (by positivity) a3 3
      _ ≤ _ := by norm_num
  have hpow0 : 0 ≤ powGrowth cfg e v t 8 := by
    rw [powGrowth, twGrowth, if_pos (by norm_num)]
    positivity
  rw [fftGrowth, hp, if_neg (by simp), hm, bluGrowth]
  have b1 : (1 + mulErr e) * (1 + chirpErr e v t 3) ≤ 1.029 * 1.51 :=
    mul_le_mul (by linarith) (by linarith) (by linarith) (by norm_num)
  have b2 : (1 + mulErr e) * (1 + chirpErr e v t 3) * powGrowth cfg e v t 8 ≤ 1.029 * 1.51 * 1.18 :=
    mul_le_mul b1 hpow hpow0 (by norm_num)
  calc _ ≤ (1.029 * 1.51 * 1.18 : ℝ) ^ 3 * 1.01 ^ 2 :=
        mul_le_mul (pow_le_pow_left₀ (by positivity) b2 3) (pow_le_pow_left₀ (by linarith) (by linarith) 2) (by positivity)
          (by norm_num)
    _ ≤ 7 := by norm_num

omit F in
/-- Three points (not a power of two) in binary32, magnitudes summing to at most `2^118`: no overflow. -/
example (fused fma : Bool) (x : List (Cx (Option ℝ))) (hx : x.length = 3) (hfin : ∀ c ∈ x, (binDen (-149)).cfin c)
    (hS : ∑ s ∈ range 3, ‖(binDen (-149)).csig x s‖ ≤ 2 ^ 118) :
    let _ := binFlt 24 24 (-149) (2 ^ 128 - 2 ^ 104) fused fma
    ∃ p y, fft (T := Option ℝ) ⟨true, .f32, false, 4, false⟩ Planner.new x = .ok (p, y, .ok ()) ∧ y.length = 3 ∧
      ∀ c ∈ y, (binDen (-149)).cfin c := by
  let _ := binFlt 24 24 (-149) (2 ^ 128 - 2 ^ 104) fused fma
  have hU : effErr (1 / 2 ^ 24) (1 / 2 ^ 150) (1 / 2 ^ 100) = 1 / 2 ^ 24 + 1 / 2 ^ 49 := by
    rw [effErr]; norm_num
  obtain ⟨g1, g2, g3⟩ := growth_three ⟨true, .f32, false, 4, false⟩ (e := 1 / 2 ^ 24 + 1 / 2 ^ 49) (v := 1 / 2 ^ 24)
    (t := 1 / 2 ^ 23) (by positivity) (by norm_num) (by positivity) (by norm_num) (by positivity) (by norm_num)
  obtain ⟨p, y, e, hl, hf, -⟩ := fft_ieee (binary32 fused fma) ⟨true, .f32, false, 4, false⟩ x (by omega)
    (by rw [hx]; norm_num) hfin (Or.inl rfl) Planner.new .new (1 / 2 ^ 100) (by positivity)
    (by rw [hx, g3]; norm_num) (by rw [hU]; norm_num) (by
      rw [hx, hU, g2]
      have h0 : 0 ≤ ∑ s ∈ range 3, ‖(binDen (-149)).csig x s‖ := sum_nonneg fun _ _ => norm_nonneg _
      calc _ ≤ 7 * (48 * (20 + 2 ^ 118 : ℝ)) := mul_le_mul g1 (by linarith) (by positivity) (by norm_num)
        _ ≤ _ := by norm_num)
  exact ⟨p, y, e, by rw [hl, hx], hf⟩

end Kofft.Props
