import Verif.Props.RoundingLaws
import Verif.Props.RoundingRfft
import Verif.Props.RoundingStack
import Verif.Props.RoundingTrig
/-
Property C127: the different ways to the same spectrum agree in rounded arithmetic: two builds, two precisions, the
stack-only, the real and the Hartley transforms.
-/
namespace Kofft.Props
open Spec Complex Finset

section builds
variable {G : Flt ℝ} {u' v' t' : ℝ}

/-- C127a. Two builds (features, lanes, tables, precision) and two transformers of any history. -/
theorem builds_agree (hG : Rounding G u' v' t') [F : Flt ℝ] {u v t : ℝ} (hF : Rounding F u v t) (cfg cfg' : Cfg) (n : ℕ)
    (p p' : Planner ℝ) (hp : Usable F cfg n p) (hp' : Usable G cfg' n p') (x : List (Cx ℝ)) (hx : x.length = n) :
    ∃ p1 y p2 z, fft cfg p x = .ok (p1, y, .ok ()) ∧ @fft ℝ G cfg' p' x = .ok (p2, z, .ok ()) ∧
      y.length = n ∧ z.length = n ∧
      l2 n (fun k => sig y k - sig z k) ≤
        (l2Growth cfg u v t n - 1 + (l2Growth cfg' u' v' t' n - 1)) * (Real.sqrt n * l2 n (sig x)) := by
  subst hx
  obtain ⟨p1, y, e1, hl, h1⟩ := fft_error_l2 hF cfg x hp.pos hp.len p hp.hist
  obtain ⟨p2, z, e2, hl2, h2⟩ := fft_error_l2 (F := G) hG cfg' x hp'.pos hp'.len p' hp'.hist
  refine ⟨p1, y, p2, z, e1, e2, hl, hl2, ?_⟩
  rw [l2_dft hp.pos] at h1 h2
  have h3 := l2_add x.length (fun k => sig y k - dft x.length (sig x) k) (fun k => -1 * (sig z k - dft x.length (sig x) k))
  rw [l2_mul] at h3
  have e : (fun k => sig y k - dft x.length (sig x) k + -1 * (sig z k - dft x.length (sig x) k)) =
      fun k => sig y k - sig z k := by funext k; ring
  rw [e, norm_neg, norm_one, one_mul] at h3
  rw [add_mul]
  linarith

/-- C127b. The same for `ifft`. -/
theorem builds_agree_inverse (hG : Rounding G u' v' t') [F : Flt ℝ] {u v t : ℝ} (hF : Rounding F u v t) (cfg cfg' : Cfg)
    (n : ℕ) (p p' : Planner ℝ) (hp : Usable F cfg n p) (hp' : Usable G cfg' n p') (x : List (Cx ℝ)) (hx : x.length = n) :
    ∃ p1 y p2 z, ifft cfg p x = .ok (p1, y, .ok ()) ∧ @ifft ℝ G cfg' p' x = .ok (p2, z, .ok ()) ∧
      y.length = n ∧ z.length = n ∧
      Real.sqrt n * l2 n (fun k => sig y k - sig z k) ≤
        (l2Growth cfg u v t n * scaleGrowth u v n - 1 + (l2Growth cfg' u' v' t' n * scaleGrowth u' v' n - 1)) *
          l2 n (sig x) := by
  subst hx
  obtain ⟨p1, y, e1, hl, h1⟩ := ifft_error_l2 hF cfg x hp.pos hp.len p hp.hist
  obtain ⟨p2, z, e2, hl2, h2⟩ := ifft_error_l2 (F := G) hG cfg' x hp'.pos hp'.len p' hp'.hist
  refine ⟨p1, y, p2, z, e1, e2, hl, hl2, ?_⟩
  have h3 := l2_add x.length (fun k => sig y k - idft x.length (sig x) k) (fun k => -1 * (sig z k - idft x.length (sig x) k))
  rw [l2_mul] at h3
  have e : (fun k => sig y k - idft x.length (sig x) k + -1 * (sig z k - idft x.length (sig x) k)) =
      fun k => sig y k - sig z k := by funext k; ring
  rw [e, norm_neg, norm_one, one_mul] at h3
  have h4 := mul_le_mul_of_nonneg_left (h3.trans (add_le_add h1 h2)) (Real.sqrt_nonneg x.length)
  refine h4.trans (le_of_eq ?_)
  rw [← l2_idft hp.pos (sig x)]
  ring

end builds

variable [F : Flt ℝ] {u v t : ℝ}

omit F in
theorem norm_route {a b c : ℂ} {d e : ℝ} (h1 : ‖a - c‖ ≤ d) (h2 : ‖b - c‖ ≤ e) : ‖a - b‖ ≤ d + e := by
  have := norm_sub_le (a - c) (b - c)
  rw [sub_sub_sub_cancel_right] at this
  linarith

/-- C127c. The stack-only transform and `fft`. -/
theorem stack_agrees (hF : Rounding F u v t) (cfg : Cfg) (K : ℕ) (p : Planner ℝ) (hp : Usable F cfg (2 ^ K) p)
    (x : List (Cx ℝ)) (hx : x.length = 2 ^ K) :
    ∃ p1 y z, fft cfg p x = .ok (p1, y, .ok ()) ∧ fftStack x = .ok (z, .ok ()) ∧ y.length = 2 ^ K ∧ z.length = 2 ^ K ∧
      ∀ k, k < 2 ^ K → ‖sig z k - sig y k‖ ≤
        (stackGrowth u t K - 1 + (fftGrowth cfg u v t (2 ^ K) - 1)) * ∑ i ∈ range (2 ^ K), ‖sig x i‖ := by
  have hw : fftWeight (2 ^ K) = 1 := by rw [fftWeight, if_pos (isPow2_pow K)]
  obtain ⟨p1, y, e1, hl, h1⟩ := fft_error hF cfg x (by rw [hx]; exact hp.pos) (Or.inr ⟨K, hx⟩) p (by rw [hx]; exact hp.hist)
  obtain ⟨z, e2, hl2, h2⟩ := fft_stack_error hF K x hx
  refine ⟨p1, y, z, e1, e2, by omega, by omega, fun k hk => ?_⟩
  rw [hx] at h1 h2
  rw [hw, one_mul] at h1
  rw [add_mul]
  exact norm_route (h2 k hk) (h1 k hk)

/-- A real signal as a complex one. -/
def asComplex (x : List ℝ) : List (Cx ℝ) := x.map fun a => ⟨a, 0⟩

omit F in
theorem sig_asComplex (x : List ℝ) (s : ℕ) : sig (asComplex x) s = rsig x s := by
  unfold asComplex rsig
  by_cases hs : s < x.length
  · rw [sig_get _ _ (by simpa using hs), List.getD_eq_getElem _ _ hs]
    simp only [List.getElem_map]
    rfl
  · rw [List.getD_eq_default _ _ (by omega)]
    simp [sig, List.getD_eq_getElem?_getD, hs]

/-- C127d. `rfft` of a real signal and `fft` of the same signal as a complex one, on transformers of any history. -/
theorem rfft_agrees (hF : Rounding F u v t) (cfg : Cfg) (simd : Bool) (un : ℕ → Cx ℝ) (m : ℕ) (p p' : Planner ℝ)
    (hp : Usable F cfg m p) (hp' : Usable F cfg (2 * m) p') (x : List ℝ) (hx : x.length = 2 * m)
    (out : List (Cx ℝ)) (ho : out.length = m + 1) :
    ∃ p1 y p2 z, rfft simd (fft cfg) un p x out = .ok (p1, y, .ok ()) ∧
      fft cfg p' (asComplex x) = .ok (p2, z, .ok ()) ∧ y.length = m + 1 ∧ z.length = 2 * m ∧
      ∀ k, k ≤ m → k < 2 * m → ‖sig y k - sig z k‖ ≤
        ((fftGrowth cfg u v t m * binGrowth u v t m - 1) * (2 * fftWeight m) +
          (fftGrowth cfg u v t (2 * m) - 1) * fftWeight (2 * m)) * ∑ s ∈ range (2 * m), |x.getD s 0| := by
  have hl : (asComplex x).length = 2 * m := by simp [asComplex, hx]
  obtain ⟨p1, y, e1, hl1, h1⟩ := rfft_error hF cfg simd un x m hp.pos hx hp.len p hp.hist out ho
  obtain ⟨p2, z, e2, hl2, h2⟩ := fft_error hF cfg (asComplex x) (by rw [hl]; exact hp'.pos) (by rw [hl]; exact hp'.len) p'
    (by rw [hl]; exact hp'.hist)
  refine ⟨p1, y, p2, z, e1, e2, hl1, by omega, fun k hk hk' => ?_⟩
  rw [hl] at h2
  have es : sig (asComplex x) = rsig x := funext (sig_asComplex x)
  rw [es] at h2
  have en : ∀ s, ‖rsig x s‖ = |x.getD s 0| := fun s => by
    unfold rsig; rw [Complex.norm_real, Real.norm_eq_abs]
  simp only [en] at h1 h2
  refine (norm_route (h1 k hk) (h2 k hk')).trans (le_of_eq (by ring))

/-- C127e. The stack-only real transform and `rfft`. -/
theorem rfft_stack_agrees (hF : Rounding F u v t) (cfg : Cfg) (simd : Bool) (un : ℕ → Cx ℝ) (K : ℕ) (p : Planner ℝ)
    (hp : Usable F cfg (2 ^ K) p) (x : List ℝ) (hx : x.length = 2 * 2 ^ K)
    (out out' : List (Cx ℝ)) (ho : out.length = 2 ^ K + 1) (ho' : out'.length = 2 ^ K + 1) :
    ∃ p1 y z, rfft simd (fft cfg) un p x out = .ok (p1, y, .ok ()) ∧ rfftStack x out' = .ok (z, .ok ()) ∧
      y.length = 2 ^ K + 1 ∧ z.length = 2 ^ K + 1 ∧
      ∀ k, k ≤ 2 ^ K → ‖sig y k - sig z k‖ ≤
        (2 * (fftGrowth cfg u v t (2 ^ K) * binGrowth u v t (2 ^ K) - 1) + (stackGrowth u t (K + 1) - 1)) *
          ∑ s ∈ range (2 * 2 ^ K), |x.getD s 0| := by
  have hw : fftWeight (2 ^ K) = 1 := by rw [fftWeight, if_pos (isPow2_pow K)]
  have h22 : x.length / 2 = 2 ^ K := by omega
  obtain ⟨p1, y, e1, hl1, h1⟩ := rfft_error hF cfg simd un x (2 ^ K) hp.pos hx hp.len p hp.hist out ho
  obtain ⟨z, e2, hl2, h2⟩ := rfft_stack_error hF (K + 1) (by omega) x (by rw [hx, pow_succ]; ring) out' (by omega)
  refine ⟨p1, y, z, e1, e2, hl1, by omega, fun k hk => ?_⟩
  have en : ∀ s, ‖rsig x s‖ = |x.getD s 0| := fun s => by
    unfold rsig; rw [Complex.norm_real, Real.norm_eq_abs]
  have h2' := h2 k (by omega)
  rw [hx] at h2'
  have h1' := h1 k hk
  rw [hw, one_mul] at h1'
  simp only [en] at h1' h2'
  refine (norm_route h1' h2').trans (le_of_eq (by ring))

/-- C127f. The Hartley transform and `fft` of the same real signal: real part minus imaginary part. -/
theorem dht_agrees (hF : Rounding F u v t) (hu : u < 1) (hv : v < 1 / 2) (cfg : Cfg) (n : ℕ) (p : Planner ℝ)
    (hp : Usable F cfg n p) (x : List ℝ) (hx : x.length = n) :
    ∃ p1 z y, fft cfg p (asComplex x) = .ok (p1, z, .ok ()) ∧ dht x = .ok y ∧ z.length = n ∧ y.length = n ∧
      ∀ k, k < n → |y.getD k 0 - ((sig z k).re - (sig z k).im)| ≤
        2 * (directGrowth u v t n - 1 + (fftGrowth cfg u v t n - 1) * fftWeight n) * ∑ s ∈ range n, |x.getD s 0| := by
  subst hx
  have hl : (asComplex x).length = x.length := by simp [asComplex]
  obtain ⟨p1, z, e1, hl1, h1⟩ := fft_error hF cfg (asComplex x) (by rw [hl]; exact hp.pos) (by rw [hl]; exact hp.len) p
    (by rw [hl]; exact hp.hist)
  obtain ⟨y, e2, hl2, h2⟩ := dht_error hF hu hv x
  refine ⟨p1, z, y, e1, e2, by omega, hl2, fun k hk => ?_⟩
  rw [hl] at h1
  have es : sig (asComplex x) = rsig x := funext (sig_asComplex x)
  rw [es] at h1
  have en : ∀ s, ‖rsig x s‖ = |x.getD s 0| := fun s => by
    unfold rsig; rw [Complex.norm_real, Real.norm_eq_abs]
  simp only [en] at h1
  have h1' := h1 k hk
  have h2' := h2 k hk
  rw [hartley_eq_dft] at h2'
  change |y.getD k 0 - ((dft x.length (rsig x) k).re - (dft x.length (rsig x) k).im)| ≤ _ at h2'
  have a := Complex.abs_re_le_norm (sig z k - dft x.length (rsig x) k)
  have b := Complex.abs_im_le_norm (sig z k - dft x.length (rsig x) k)
  rw [Complex.sub_re] at a
  rw [Complex.sub_im] at b
  have a' := abs_le.mp (a.trans h1')
  have b' := abs_le.mp (b.trans h1')
  have c' := abs_le.mp h2'
  rw [abs_le]
  constructor <;> nlinarith [a'.1, a'.2, b'.1, b'.2, c'.1, c'.2]

/-- A 1024-point transform in binary32 and in binary64 (tables built at build time): the spectra differ by at most
`3.1e-5` of the norm of the spectrum. -/
example (fused fma fused' fma' : Bool) (cfg cfg' : Cfg) (hc : cfg.precomputed = true) (hk : cfg.kind = .f32)
    (hc' : cfg'.precomputed = true) (hk' : cfg'.kind = .f64) (x : List (Cx ℝ)) (hx : x.length = 2 ^ 10) :
    ∃ p1 y p2 z, @fft ℝ (rndFlt 24 24 fused fma) cfg Planner.new x = .ok (p1, y, .ok ()) ∧
      @fft ℝ (rndFlt 53 24 fused' fma') cfg' Planner.new x = .ok (p2, z, .ok ()) ∧
      l2 (2 ^ 10) (fun k => sig y k - sig z k) ≤ 31 / 10 ^ 6 * (Real.sqrt (2 ^ 10 : ℕ) * l2 (2 ^ 10) (sig x)) := by
  have u64 : Usable (rndFlt 53 24 fused' fma') cfg' (2 ^ 10) Planner.new := by
    letI := rndFlt 53 24 fused' fma'
    exact ⟨by norm_num, Or.inr ⟨10, rfl⟩, .new⟩
  letI := rndFlt 24 24 fused fma
  have r32 := rndFlt_rounding 24 24 (by norm_num) (by norm_num) fused fma
  have r64 := rndFlt_rounding 53 24 (by norm_num) (by norm_num) fused' fma'
  have u32 : Usable (rndFlt 24 24 fused fma) cfg (2 ^ 10) Planner.new := ⟨by norm_num, Or.inr ⟨10, rfl⟩, .new⟩
  obtain ⟨p1, y, p2, z, e1, e2, -, -, h⟩ := builds_agree r64 r32 cfg cfg' (2 ^ 10) _ _ u32 u64 x hx
  refine ⟨p1, y, p2, z, e1, e2, h.trans (mul_le_mul_of_nonneg_right ?_
    (mul_nonneg (Real.sqrt_nonneg _) (l2_nonneg _ _)))⟩
  have g1 := fftGrowth_precomputed r32 (by norm_num) (by norm_num) cfg hc (Or.inl hk) 10 (by norm_num) (by norm_num)
  have g2 := fftGrowth_precomputed (F := rndFlt 53 24 fused' fma') r64 (by norm_num) (by norm_num) cfg' hc' (Or.inr hk') 10
    (by norm_num) (by norm_num)
  rw [l2Growth, l2Growth, if_pos ⟨isPow2_pow 10, by norm_num⟩, if_pos ⟨isPow2_pow 10, by norm_num⟩]
  refine (add_le_add g1 g2).trans ?_
  norm_num

end Kofft.Props
