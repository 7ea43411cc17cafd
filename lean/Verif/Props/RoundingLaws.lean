import Verif.Props.RoundingL2
/-
Property C119: what is left of the laws of the DFT (C69) in rounded arithmetic: Parseval, superposition, conjugate
symmetry, and fast convolution, with the products of integer polynomials as an application.
-/
namespace Kofft.Spec
open Finset

/-- `1 +` the relative error of a fast convolution: two forward transforms, one product of spectra, one inverse
transform. -/
noncomputable def convGrowth (cfg : Cfg) (u v t : ℝ) (n : ℕ) : ℝ :=
  l2Growth cfg u v t n ^ 3 * (1 + mulErr u) * scaleGrowth u v n

/-- Coefficient `s` of the product of two polynomials with integer coefficients. -/
def polyMul (a b : ℕ → ℤ) (s : ℕ) : ℤ := ∑ t ∈ range (s + 1), a t * b (s - t)

end Kofft.Spec

namespace Kofft.Props
open Spec Complex Finset

theorem l2_prod (n : ℕ) (f g : ℕ → ℂ) : l2 n (fun k => f k * g k) ≤ l2 n f * l2 n g := by
  apply l2_le (mul_nonneg (l2_nonneg _ _) (l2_nonneg _ _))
  rw [mul_pow, l2_sq, l2_sq, sum_mul_sum]
  apply sum_le_sum
  intro i hi
  rw [norm_mul, mul_pow]
  exact single_le_sum (f := fun j => ‖f i‖ ^ 2 * ‖g j‖ ^ 2) (fun _ _ => by positivity) hi

theorem idft_sub (n : ℕ) (f g : ℕ → ℂ) (s : ℕ) : idft n (fun k => f k - g k) s = idft n f s - idft n g s := by
  unfold idft
  rw [← sub_div, ← sum_sub_distrib]
  congr 1
  exact sum_congr rfl fun _ _ => by ring

variable [F : Flt ℝ] {u v t : ℝ}

omit F in
theorem l2_tri (n : ℕ) (f g : ℕ → ℂ) : l2 n f ≤ l2 n (fun k => f k - g k) + l2 n g := by
  have := l2_add n (fun k => f k - g k) g
  simp only [sub_add_cancel] at this
  exact this

/-- C119a. Parseval in rounded arithmetic: the computed spectrum has `√n` times the norm of the signal, up to the
relative error of the transform. -/
theorem fft_parseval_rounded (hF : Rounding F u v t) (cfg : Cfg) (n : ℕ) (p : Planner ℝ) (hp : Usable F cfg n p)
    (x : List (Cx ℝ)) (hx : x.length = n) :
    ∃ p1 X, fft cfg p x = .ok (p1, X, .ok ()) ∧ X.length = n ∧
      |l2 n (sig X) - Real.sqrt n * l2 n (sig x)| ≤ (l2Growth cfg u v t n - 1) * (Real.sqrt n * l2 n (sig x)) := by
  subst hx
  obtain ⟨p1, X, e, hl, h⟩ := fft_error_l2 hF cfg x hp.pos hp.len p hp.hist
  refine ⟨p1, X, e, hl, ?_⟩
  rw [← l2_dft hp.pos]
  have a := l2_tri x.length (sig X) (dft x.length (sig x))
  have b := l2_tri x.length (dft x.length (sig x)) (sig X)
  have c : l2 x.length (fun k => dft x.length (sig x) k - sig X k) = l2 x.length (fun k => sig X k - dft x.length (sig x) k) := by
    unfold l2
    simp only [norm_sub_rev]
  rw [abs_le]
  constructor <;> linarith

/-- C119b. The spectrum of a real signal is conjugate symmetric up to twice the relative error. -/
theorem fft_real_symmetric_rounded (hF : Rounding F u v t) (cfg : Cfg) (n : ℕ) (p : Planner ℝ)
    (hp : Usable F cfg n p) (x : List (Cx ℝ)) (hx : x.length = n) (hr : ∀ s, s < n → (sig x s).im = 0) :
    ∃ p1 X, fft cfg p x = .ok (p1, X, .ok ()) ∧ X.length = n ∧
      ∀ k, 0 < k → k < n → ‖sig X (n - k) - (starRingEnd ℂ) (sig X k)‖ ≤
        2 * (l2Growth cfg u v t n - 1) * (Real.sqrt n * l2 n (sig x)) := by
  subst hx
  obtain ⟨p1, X, e, hl, h⟩ := fft_error_l2 hF cfg x hp.pos hp.len p hp.hist
  refine ⟨p1, X, e, hl, ?_⟩
  intro k hk hkn
  set n := x.length
  rw [l2_dft hp.pos] at h
  have s : dft n (sig x) (n - k) = (starRingEnd ℂ) (dft n (sig x) k) := by
    unfold dft
    rw [map_sum]
    apply sum_congr rfl
    intro i hi
    rw [map_mul, Complex.conj_eq_iff_im.mpr (hr i (mem_range.mp hi))]
    rw [W_conj]
    congr 1
    apply eq_inv_of_mul_eq_one_left
    rw [← W_add, ← add_mul, Nat.sub_add_cancel hkn.le, mul_comm, W_mul_self (by omega)]
  have h1 := (coord_le_l2 (fun k => sig X k - dft n (sig x) k) (show n - k < n by omega)).trans h
  have h2 := (coord_le_l2 (fun k => sig X k - dft n (sig x) k) hkn).trans h
  rw [← Complex.norm_conj, map_sub] at h2
  rw [s] at h1
  have := norm_sub_le (sig X (n - k) - (starRingEnd ℂ) (dft n (sig x) k))
    ((starRingEnd ℂ) (sig X k) - (starRingEnd ℂ) (dft n (sig x) k))
  rw [sub_sub_sub_cancel_right] at this
  linarith

/-- C119c. Superposition: transforming a sum and adding two transforms agree up to the three relative errors. -/
theorem fft_additive_rounded (hF : Rounding F u v t) (cfg : Cfg) (n : ℕ) (p : Planner ℝ) (hp : Usable F cfg n p)
    (x y z : List (Cx ℝ)) (hx : x.length = n) (hy : y.length = n) (hz : z.length = n)
    (hsum : ∀ s, s < n → sig z s = sig x s + sig y s) :
    ∃ p1 p2 p3 X Y Z, fft cfg p x = .ok (p1, X, .ok ()) ∧ fft cfg p1 y = .ok (p2, Y, .ok ()) ∧
      fft cfg p2 z = .ok (p3, Z, .ok ()) ∧
      l2 n (fun k => sig Z k - (sig X k + sig Y k)) ≤
        2 * (l2Growth cfg u v t n - 1) * (Real.sqrt n * (l2 n (sig x) + l2 n (sig y))) := by
  obtain ⟨p1, X, e1, l1, h1⟩ := fft_error_l2 hF cfg x (by rw [hx]; exact hp.pos) (by rw [hx]; exact hp.len) p
    (by rw [hx]; exact hp.hist)
  have q1 : ReachVia cfg (fun m => workSize m ≤ workSize n) p1 := .fft hp.hist (by rw [hx]) e1
  obtain ⟨p2, Y, e2, l2', h2⟩ := fft_error_l2 hF cfg y (by rw [hy]; exact hp.pos) (by rw [hy]; exact hp.len) p1
    (by rw [hy]; exact q1)
  have q2 : ReachVia cfg (fun m => workSize m ≤ workSize n) p2 := .fft q1 (by rw [hy]) e2
  obtain ⟨p3, Z, e3, l3, h3⟩ := fft_error_l2 hF cfg z (by rw [hz]; exact hp.pos) (by rw [hz]; exact hp.len) p2
    (by rw [hz]; exact q2)
  refine ⟨p1, p2, p3, X, Y, Z, e1, e2, e3, ?_⟩
  rw [hx, l2_dft hp.pos] at h1
  rw [hy, l2_dft hp.pos] at h2
  rw [hz, l2_dft hp.pos] at h3
  have hg := l2Growth_ge hF cfg n hp.pos
  have hzn : l2 n (sig z) ≤ l2 n (sig x) + l2 n (sig y) := (l2_congr hsum).le.trans (l2_add n _ _)
  have hd : ∀ k, dft n (sig z) k = dft n (sig x) k + dft n (sig y) k := by
    intro k
    unfold dft
    rw [← sum_add_distrib]
    exact sum_congr rfl fun i hi => by rw [hsum i (mem_range.mp hi)]; ring
  have neg : ∀ f : ℕ → ℂ, l2 n (fun k => -f k) = l2 n f := fun f => by unfold l2; simp only [norm_neg]
  have a := l2_add n (fun k => sig Z k - dft n (sig z) k)
    (fun k => -((sig X k - dft n (sig x) k) + (sig Y k - dft n (sig y) k)))
  have b := l2_add n (fun k => sig X k - dft n (sig x) k) (fun k => sig Y k - dft n (sig y) k)
  rw [neg (fun k => (sig X k - dft n (sig x) k) + (sig Y k - dft n (sig y) k))] at a
  have e : l2 n (fun k => sig Z k - (sig X k + sig Y k)) = l2 n (fun k => (sig Z k - dft n (sig z) k) +
      -((sig X k - dft n (sig x) k) + (sig Y k - dft n (sig y) k))) :=
    l2_congr fun k _ => by rw [hd k]; ring
  rw [e]
  have hs : (l2Growth cfg u v t n - 1) * (Real.sqrt n * l2 n (sig z)) ≤
      (l2Growth cfg u v t n - 1) * (Real.sqrt n * (l2 n (sig x) + l2 n (sig y))) := by gcongr
  nlinarith

/-- C119d. Fast circular convolution in rounded arithmetic: the error, in the Euclidean norm, against
`√n · ‖a‖ · ‖b‖`. -/
theorem circular_convolution_error (hF : Rounding F u v t) (cfg : Cfg) (n : ℕ) (p : Planner ℝ)
    (hp : Usable F cfg n p) (a b : List (Cx ℝ)) (ha : a.length = n) (hb : b.length = n) :
    ∃ p1 p2 p3 A B c, fft cfg p a = .ok (p1, A, .ok ()) ∧ fft cfg p1 b = .ok (p2, B, .ok ()) ∧
      ifft cfg p2 (List.zipWith Cx.mul A B) = .ok (p3, c, .ok ()) ∧ c.length = n ∧
      l2 n (fun s => sig c s - circConv n (sig a) (sig b) s) ≤
        (convGrowth cfg u v t n - 1) * (Real.sqrt n * (l2 n (sig a) * l2 n (sig b))) := by
  obtain ⟨p1, A, e1, l1, h1⟩ := fft_error_l2 hF cfg a (by rw [ha]; exact hp.pos) (by rw [ha]; exact hp.len) p
    (by rw [ha]; exact hp.hist)
  have q1 : ReachVia cfg (fun m => workSize m ≤ workSize n) p1 := .fft hp.hist (by rw [ha]) e1
  obtain ⟨p2, B, e2, l2', h2⟩ := fft_error_l2 hF cfg b (by rw [hb]; exact hp.pos) (by rw [hb]; exact hp.len) p1
    (by rw [hb]; exact q1)
  have q2 : ReachVia cfg (fun m => workSize m ≤ workSize n) p2 := .fft q1 (by rw [hb]) e2
  rw [ha] at l1; rw [hb] at l2'
  have hl : (List.zipWith Cx.mul A B).length = n := by rw [List.length_zipWith, l1, l2', Nat.min_self]
  obtain ⟨p3, c, e3, l3, h3⟩ := ifft_error_l2 hF cfg (List.zipWith Cx.mul A B) (by rw [hl]; exact hp.pos)
    (by rw [hl]; exact hp.len) p2 (by rw [hl]; exact q2)
  refine ⟨p1, p2, p3, A, B, c, e1, e2, e3, by rw [l3, hl], ?_⟩
  rw [ha] at h1; rw [hb] at h2; rw [hl] at h3
  set P := List.zipWith Cx.mul A B with hP
  set g := l2Growth cfg u v t n with hg'
  set s := scaleGrowth u v n
  set μ := mulErr u with hμ'
  have hg : 1 ≤ g := l2Growth_ge hF cfg n hp.pos
  have hs : 1 ≤ s := scaleGrowth_ge hF hp.pos
  have hμ : 0 ≤ μ := mulErr_nonneg hF.u_nonneg
  have hn0 : 0 < Real.sqrt n := Real.sqrt_pos.mpr (by exact_mod_cast hp.pos)
  set X := dft n (sig a)
  set Y := dft n (sig b)
  have nX : l2 n X = Real.sqrt n * l2 n (sig a) := l2_dft hp.pos _
  have nY : l2 n Y = Real.sqrt n * l2 n (sig b) := l2_dft hp.pos _
  have x0 : 0 ≤ l2 n X := l2_nonneg _ _
  have y0 : 0 ≤ l2 n Y := l2_nonneg _ _
  have nA : l2 n (sig A) ≤ g * l2 n X := by have := l2_tri n (sig A) X; linarith
  have nB : l2 n (sig B) ≤ g * l2 n Y := by have := l2_tri n (sig B) Y; linarith
  have nAB : l2 n (sig A) * l2 n (sig B) ≤ g ^ 2 * (l2 n X * l2 n Y) := by
    calc _ ≤ (g * l2 n X) * (g * l2 n Y) := mul_le_mul nA nB (l2_nonneg _ _) (by positivity)
      _ = _ := by ring
  -- the product of the spectra
  have d1 : l2 n (fun k => sig P k - sig A k * sig B k) ≤ μ * (g ^ 2 * (l2 n X * l2 n Y)) := by
    have : l2 n (fun k => sig P k - sig A k * sig B k) ≤ μ * l2 n (fun k => sig A k * sig B k) := by
      apply l2_scale_bound hμ
      intro k hk
      rw [sig_get _ _ (by rw [hl]; exact hk), List.getElem_zipWith, sig_get _ _ (by rw [l1]; exact hk),
        sig_get _ _ (by rw [l2']; exact hk), norm_mul]
      exact rnd_mul hF _ _
    exact this.trans (mul_le_mul_of_nonneg_left ((l2_prod _ _ _).trans nAB) hμ)
  have d2 : l2 n (fun k => (sig A k - X k) * sig B k) ≤ (g - 1) * g * (l2 n X * l2 n Y) := by
    refine (l2_prod n (fun k => sig A k - X k) (sig B)).trans ?_
    calc _ ≤ ((g - 1) * l2 n X) * (g * l2 n Y) := mul_le_mul h1 nB (l2_nonneg _ _) (mul_nonneg (by linarith) x0)
      _ = _ := by ring
  have d3 : l2 n (fun k => X k * (sig B k - Y k)) ≤ (g - 1) * (l2 n X * l2 n Y) := by
    refine (l2_prod n X (fun k => sig B k - Y k)).trans ?_
    calc _ ≤ l2 n X * ((g - 1) * l2 n Y) := mul_le_mul_of_nonneg_left h2 x0
      _ = _ := by ring
  have d4 : l2 n (fun k => sig P k - X k * Y k) ≤ ((1 + μ) * g ^ 2 - 1) * (l2 n X * l2 n Y) := by
    have a1 := l2_add n (fun k => sig P k - sig A k * sig B k)
      (fun k => (sig A k - X k) * sig B k + X k * (sig B k - Y k))
    have a2 := l2_add n (fun k => (sig A k - X k) * sig B k) (fun k => X k * (sig B k - Y k))
    have e : l2 n (fun k => sig P k - X k * Y k) = l2 n (fun k => (sig P k - sig A k * sig B k) +
        ((sig A k - X k) * sig B k + X k * (sig B k - Y k))) := l2_congr fun k _ => by ring
    rw [e]
    calc _ ≤ _ := a1
      _ ≤ _ := add_le_add le_rfl a2
      _ ≤ _ := add_le_add d1 (add_le_add d2 d3)
      _ = _ := by ring
  have d5 : l2 n (sig P) ≤ (1 + μ) * g ^ 2 * (l2 n X * l2 n Y) := by
    have a1 := l2_tri n (sig P) (fun k => X k * Y k)
    have a2 := l2_prod n X Y
    linarith
  have d6 : l2 n (fun k => idft n (sig P) k - idft n (fun k => X k * Y k) k) ≤
      ((1 + μ) * g ^ 2 - 1) * (Real.sqrt n * (l2 n (sig a) * l2 n (sig b))) := by
    apply le_of_mul_le_mul_left _ hn0
    have e : l2 n (fun k => idft n (sig P) k - idft n (fun k => X k * Y k) k) =
        l2 n (idft n (fun k => sig P k - X k * Y k)) := l2_congr fun k _ => (idft_sub n _ _ k).symm
    rw [e, l2_idft hp.pos]
    refine d4.trans (le_of_eq ?_)
    rw [nX, nY]; ring
  have d7 : l2 n (idft n (sig P)) ≤ (1 + μ) * g ^ 2 * (Real.sqrt n * (l2 n (sig a) * l2 n (sig b))) := by
    apply le_of_mul_le_mul_left _ hn0
    rw [l2_idft hp.pos]
    refine d5.trans (le_of_eq ?_)
    rw [nX, nY]; ring
  have hgs : 0 ≤ g * s - 1 := by nlinarith
  have a1 := l2_add n (fun k => sig c k - idft n (sig P) k)
    (fun k => idft n (sig P) k - idft n (fun k => X k * Y k) k)
  have e : l2 n (fun k => sig c k - circConv n (sig a) (sig b) k) = l2 n (fun k => (sig c k - idft n (sig P) k) +
      (idft n (sig P) k - idft n (fun k => X k * Y k) k)) := l2_congr fun k hk => by
    rw [circConv_eq _ _ hk, ← idft_mul _ _ hk]; ring
  rw [e]
  calc _ ≤ _ := a1
    _ ≤ _ := add_le_add (h3.trans (mul_le_mul_of_nonneg_left d7 hgs)) d6
    _ = _ := by unfold convGrowth; ring

/-- C119e. Fast linear convolution in rounded arithmetic, in every position: `x` and `h` padded with zeros to
`n ≥ |x| + |h| - 1`. -/
theorem linear_convolution_error (hF : Rounding F u v t) (cfg : Cfg) (n : ℕ) (p : Planner ℝ) (hp : Usable F cfg n p)
    (x h : List (Cx ℝ)) (hn : x.length + h.length ≤ n + 1) (hx : x.length ≤ n) (hh : h.length ≤ n) :
    ∃ p1 p2 p3 A B c, fft cfg p (x ++ List.replicate (n - x.length) Cx.zero) = .ok (p1, A, .ok ()) ∧
      fft cfg p1 (h ++ List.replicate (n - h.length) Cx.zero) = .ok (p2, B, .ok ()) ∧
      ifft cfg p2 (List.zipWith Cx.mul A B) = .ok (p3, c, .ok ()) ∧ c.length = n ∧
      ∀ s, s < n → ‖sig c s - linConv (sig x) (sig h) s‖ ≤
        (convGrowth cfg u v t n - 1) * (Real.sqrt n * (l2 x.length (sig x) * l2 h.length (sig h))) := by
  have hz : toC (Cx.zero : Cx ℝ) = 0 := by
    apply Complex.ext <;> simp [Cx.zero, toC, hF.zero]
  have pad : ∀ (y : List (Cx ℝ)) (t : ℕ), sig (y ++ List.replicate (n - y.length) Cx.zero) t = sig y t := by
    intro y t
    unfold sig
    by_cases ht : t < y.length
    · rw [List.getElem?_append_left ht]
    · rw [List.getElem?_append_right (by omega), List.getElem?_eq_none (l := y) (by omega),
        List.getElem?_replicate]
      split
      · rename_i e
        split at e
        · simp only [Option.some.injEq] at e
          rw [← e]; exact hz
        · exact absurd e (by simp)
      · rfl
  have none : ∀ (y : List (Cx ℝ)) (t : ℕ), y.length ≤ t → sig y t = 0 := by
    intro y t ht
    unfold sig
    rw [List.getElem?_eq_none ht]
  have short : ∀ (y : List (Cx ℝ)), y.length ≤ n → l2 n (sig y) = l2 y.length (sig y) := by
    intro y hy
    unfold l2
    congr 1
    symm
    apply sum_subset (range_mono hy)
    intro i _ hi
    rw [none y i (by simpa using hi)]
    simp
  obtain ⟨p1, p2, p3, A, B, c, e1, e2, e3, l, hc⟩ := circular_convolution_error hF cfg n p hp
    (x ++ List.replicate (n - x.length) Cx.zero) (h ++ List.replicate (n - h.length) Cx.zero)
    (by rw [List.length_append, List.length_replicate]; omega)
    (by rw [List.length_append, List.length_replicate]; omega)
  refine ⟨p1, p2, p3, A, B, c, e1, e2, e3, l, ?_⟩
  intro s hs
  rw [funext (pad x), funext (pad h), short x hx, short h hh] at hc
  rw [← circConv_linConv (fun t ht _ => none x t ht) (fun t ht _ => none h t ht) hn hs]
  exact (coord_le_l2 (fun s => sig c s - circConv n (sig x) (sig h) s) hs).trans hc

/-- The closed form with build-time tables: the relative error of a fast convolution of `2^5 ≤ 2^K ≤ 2^10` points is at
most `200 · K · u`. -/
theorem convGrowth_precomputed (hF : Rounding F u v t) (hu : u ≤ 1 / 100000) (htu : t ≤ 2 * u) (cfg : Cfg)
    (hc : cfg.precomputed = true) (hk : cfg.kind = .f32 ∨ cfg.kind = .f64) (K : ℕ) (hK : 5 ≤ K) (hK10 : K ≤ 10) :
    convGrowth cfg u v t (2 ^ K) - 1 ≤ 200 * K * u := by
  have hg0 : 1 ≤ l2Growth cfg u v t (2 ^ K) := l2Growth_ge hF cfg _ (by positivity)
  have h16 : 16 < 2 ^ K := by
    have : 2 ^ 5 ≤ 2 ^ K := Nat.pow_le_pow_right (by norm_num) hK
    omega
  have hg : l2Growth cfg u v t (2 ^ K) ≤ 1 + 50 * (K * u) := by
    have := fftGrowth_precomputed (F := F) hF (by linarith) htu cfg hc hk K hK hK10
    rw [l2Growth, if_pos ⟨isPow2_pow K, h16⟩]
    linarith
  have hs : scaleGrowth u v (2 ^ K) = (1 + u) ^ 2 := by rw [scaleGrowth, if_pos (isPow2_pow K)]
  have hu0 := hF.u_nonneg
  have hK5 : (5 : ℝ) ≤ K := by exact_mod_cast hK
  have hKK : (K : ℝ) ≤ 10 := by exact_mod_cast hK10
  have hm : 1 + mulErr u ≤ 1 + 3 * u := by
    have h2 : Real.sqrt 2 ≤ 1.4143 := by
      rw [Real.sqrt_le_left (by norm_num)]; norm_num
    have : mulErr u ≤ 1.4143 * (2 * u + u ^ 2) := mul_le_mul_of_nonneg_right h2 (by positivity)
    nlinarith
  have hm0 : 0 ≤ 1 + mulErr u := by have := mulErr_nonneg hu0; linarith
  set y : ℝ := K * u with hy
  have hy0 : 0 ≤ y := by positivity
  have hy5 : 5 * u ≤ y := mul_le_mul_of_nonneg_right hK5 hu0
  have hy1 : y ≤ 1 / 10000 := by
    calc y ≤ 10 * u := mul_le_mul_of_nonneg_right hKK hu0
      _ ≤ _ := by linarith
  have h3 : (1 + 3 * u) * (1 + u) ^ 2 ≤ 1 + 2 * y := by nlinarith [mul_nonneg hu0 hu0]
  have h4 : (1 + 50 * y) ^ 3 ≤ 1 + 152 * y := by nlinarith [mul_nonneg hy0 hy0, mul_nonneg (mul_nonneg hy0 hy0) hy0]
  unfold convGrowth
  rw [hs, mul_assoc]
  have : l2Growth cfg u v t (2 ^ K) ^ 3 * ((1 + mulErr u) * (1 + u) ^ 2) ≤ (1 + 152 * y) * (1 + 2 * y) := by
    apply mul_le_mul
    · exact (pow_le_pow_left₀ (by linarith) hg 3).trans h4
    · exact (mul_le_mul_of_nonneg_right hm (by positivity)).trans h3
    · positivity
    · positivity
  have e : 200 * (K : ℝ) * u = 200 * y := by rw [hy]; ring
  rw [e]
  nlinarith

/-- C119f. Polynomials with integer coefficients are multiplied exactly: as long as the error bound stays below one
half, rounding the real parts of the result to the nearest integers gives the coefficients of the product. -/
theorem integer_convolution_exact (hF : Rounding F u v t) (hu : u ≤ 1 / 100000) (htu : t ≤ 2 * u) (cfg : Cfg)
    (hc : cfg.precomputed = true) (hk : cfg.kind = .f32 ∨ cfg.kind = .f64) (K : ℕ) (hK : 5 ≤ K) (hK10 : K ≤ 10)
    (p : Planner ℝ) (hp : Usable F cfg (2 ^ K) p) (a b : ℕ → ℤ) (la lb : ℕ) (M N : ℝ)
    (ha : ∀ i, i < la → |(a i : ℝ)| ≤ M) (hb : ∀ i, i < lb → |(b i : ℝ)| ≤ N) (ha0 : ∀ i, la ≤ i → a i = 0)
    (hb0 : ∀ i, lb ≤ i → b i = 0) (hn : la + lb ≤ 2 ^ K + 1) (hla : la ≤ 2 ^ K) (hlb : lb ≤ 2 ^ K) (hM : 0 ≤ M)
    (hN : 0 ≤ N) (hsmall : 200 * K * u * Real.sqrt (2 ^ K * (la * lb)) * (M * N) < 1 / 2) :
    ∃ p1 p2 p3 A B c,
      fft cfg p ((List.range la).map (fun i => ⟨(a i : ℝ), 0⟩) ++ List.replicate (2 ^ K - la) Cx.zero) =
        .ok (p1, A, .ok ()) ∧
      fft cfg p1 ((List.range lb).map (fun i => ⟨(b i : ℝ), 0⟩) ++ List.replicate (2 ^ K - lb) Cx.zero) =
        .ok (p2, B, .ok ()) ∧
      ifft cfg p2 (List.zipWith Cx.mul A B) = .ok (p3, c, .ok ()) ∧ c.length = 2 ^ K ∧
      ∀ s, s < 2 ^ K → round (sig c s).re = polyMul a b s := by
  set x : List (Cx ℝ) := (List.range la).map (fun i => ⟨(a i : ℝ), 0⟩) with hx
  set h : List (Cx ℝ) := (List.range lb).map (fun i => ⟨(b i : ℝ), 0⟩) with hh
  have lx : x.length = la := by simp [hx]
  have lh : h.length = lb := by simp [hh]
  have sx : ∀ i, sig x i = (a i : ℝ) := by
    intro i
    by_cases hi : i < la
    · rw [sig_get _ _ (by rw [lx]; exact hi)]
      apply Complex.ext <;> simp [hx, toC]
    · have : x[i]? = none := List.getElem?_eq_none (by omega)
      unfold sig
      rw [this, ha0 i (by omega)]
      simp
  have sh : ∀ i, sig h i = (b i : ℝ) := by
    intro i
    by_cases hi : i < lb
    · rw [sig_get _ _ (by rw [lh]; exact hi)]
      apply Complex.ext <;> simp [hh, toC]
    · have : h[i]? = none := List.getElem?_eq_none (by omega)
      unfold sig
      rw [this, hb0 i (by omega)]
      simp
  obtain ⟨p1, p2, p3, A, B, c, e1, e2, e3, l, hb'⟩ := linear_convolution_error hF cfg (2 ^ K) p hp x h
    (by rw [lx, lh]; exact hn) (by rw [lx]; exact hla) (by rw [lh]; exact hlb)
  rw [lx] at e1
  rw [lh] at e2
  refine ⟨p1, p2, p3, A, B, c, e1, e2, e3, l, ?_⟩
  intro s hs
  have hb' := hb' s hs
  have g1 := convGrowth_precomputed hF hu htu cfg hc hk K hK hK10
  have n1 : l2 x.length (sig x) ≤ Real.sqrt la * M := by
    rw [lx]
    apply l2_of_pointwise _ _ hM
    intro i hi
    rw [sx, Complex.norm_real]
    exact ha i hi
  have n2 : l2 h.length (sig h) ≤ Real.sqrt lb * N := by
    rw [lh]
    apply l2_of_pointwise _ _ hN
    intro i hi
    rw [sh, Complex.norm_real]
    exact hb i hi
  have hv : linConv (sig x) (sig h) s = ((polyMul a b s : ℤ) : ℝ) := by
    unfold linConv polyMul
    push_cast
    apply sum_congr rfl
    intro i _
    rw [sx, sh]
    push_cast
    rfl
  have hlt : ‖sig c s - linConv (sig x) (sig h) s‖ < 1 / 2 := by
    refine lt_of_le_of_lt (hb'.trans ?_) hsmall
    have m1 : l2 x.length (sig x) * l2 h.length (sig h) ≤ (Real.sqrt la * M) * (Real.sqrt lb * N) :=
      mul_le_mul n1 n2 (l2_nonneg _ _) (by positivity)
    have m0 : 0 ≤ l2 x.length (sig x) * l2 h.length (sig h) := mul_nonneg (l2_nonneg _ _) (l2_nonneg _ _)
    have hu0 := hF.u_nonneg
    calc _ ≤ (200 * K * u) * (Real.sqrt (2 ^ K : ℕ) * ((Real.sqrt la * M) * (Real.sqrt lb * N))) :=
          mul_le_mul g1 (mul_le_mul_of_nonneg_left m1 (Real.sqrt_nonneg _)) (mul_nonneg (Real.sqrt_nonneg _) m0)
            (by positivity)
      _ = _ := by
          push_cast
          rw [Real.sqrt_mul (by positivity), Real.sqrt_mul (by positivity)]
          ring
  rw [hv] at hlt
  have hre : |(sig c s).re - (polyMul a b s : ℝ)| < 1 / 2 := by
    refine lt_of_le_of_lt ?_ hlt
    have := Complex.abs_re_le_norm (sig c s - (((polyMul a b s : ℤ) : ℝ) : ℂ))
    simpa using this
  rw [round_eq, Int.floor_eq_iff]
  rw [abs_lt] at hre
  constructor <;> linarith

/-- In binary64 with build-time tables: two polynomials of 512 coefficients up to 10000 in absolute value. -/
example (fused fma : Bool) (cfg : Cfg) (hc : cfg.precomputed = true) (hk : cfg.kind = .f64) (a b : ℕ → ℤ)
    (ha : ∀ i, i < 512 → |(a i : ℝ)| ≤ 10000) (hb : ∀ i, i < 512 → |(b i : ℝ)| ≤ 10000) (ha0 : ∀ i, 512 ≤ i → a i = 0)
    (hb0 : ∀ i, 512 ≤ i → b i = 0) :
    letI := rndFlt 53 24 fused fma
    ∃ p1 p2 p3 A B c,
      fft cfg Planner.new ((List.range 512).map (fun i => ⟨(a i : ℝ), 0⟩) ++ List.replicate (2 ^ 10 - 512) Cx.zero) =
        .ok (p1, A, .ok ()) ∧
      fft cfg p1 ((List.range 512).map (fun i => ⟨(b i : ℝ), 0⟩) ++ List.replicate (2 ^ 10 - 512) Cx.zero) =
        .ok (p2, B, .ok ()) ∧
      ifft cfg p2 (List.zipWith Cx.mul A B) = .ok (p3, c, .ok ()) ∧ c.length = 2 ^ 10 ∧
      ∀ s, s < 2 ^ 10 → round (sig c s).re = polyMul a b s := by
  letI := rndFlt 53 24 fused fma
  refine integer_convolution_exact (rndFlt_rounding 53 24 (by norm_num) (by norm_num) fused fma) (by norm_num)
    (by norm_num) cfg hc (Or.inr hk) 10 (by norm_num) (by norm_num) Planner.new ⟨by norm_num, Or.inr ⟨10, rfl⟩, .new⟩
    a b 512 512 10000 10000 ha hb ha0 hb0 (by norm_num) (by norm_num) (by norm_num) (by norm_num) (by norm_num) ?_
  have : Real.sqrt (2 ^ 10 * (((512 : ℕ) : ℝ) * ((512 : ℕ) : ℝ))) = 32 * 512 := by
    rw [Real.sqrt_eq_iff_mul_self_eq (by positivity) (by positivity)]; norm_num
  rw [this]
  norm_num

/-- The specification on a case: `(1 + 2z)(3 + 4z) = 3 + 10z + 8z²`. -/
example : (List.range 4).map (polyMul (fun i => [1, 2].getD i 0) (fun i => [3, 4].getD i 0)) = [3, 10, 8, 0] := by
  decide

/-- The convolution bound in binary32 at 1024 points: 120 millionths of `√n ‖a‖ ‖b‖`. -/
example (fused fma : Bool) (cfg : Cfg) (hc : cfg.precomputed = true) (hk : cfg.kind = .f32) (a b : List (Cx ℝ))
    (ha : a.length = 2 ^ 10) (hb : b.length = 2 ^ 10) :
    letI := rndFlt 24 24 fused fma
    ∃ p1 p2 p3 A B c, fft cfg Planner.new a = .ok (p1, A, .ok ()) ∧ fft cfg p1 b = .ok (p2, B, .ok ()) ∧
      ifft cfg p2 (List.zipWith Cx.mul A B) = .ok (p3, c, .ok ()) ∧ c.length = 2 ^ 10 ∧
      l2 (2 ^ 10) (fun s => sig c s - circConv (2 ^ 10) (sig a) (sig b) s) ≤
        1.2e-4 * (Real.sqrt (2 ^ 10 : ℕ) * (l2 (2 ^ 10) (sig a) * l2 (2 ^ 10) (sig b))) := by
  letI := rndFlt 24 24 fused fma
  have hR := rndFlt_rounding 24 24 (by norm_num) (by norm_num) fused fma
  obtain ⟨p1, p2, p3, A, B, c, e1, e2, e3, l, h⟩ := circular_convolution_error hR cfg (2 ^ 10) Planner.new
    ⟨by norm_num, Or.inr ⟨10, rfl⟩, .new⟩ a b ha hb
  refine ⟨p1, p2, p3, A, B, c, e1, e2, e3, l, h.trans (mul_le_mul_of_nonneg_right ?_
    (mul_nonneg (Real.sqrt_nonneg _) (mul_nonneg (l2_nonneg _ _) (l2_nonneg _ _))))⟩
  refine (convGrowth_precomputed hR (by norm_num) (by norm_num) cfg hc (Or.inl hk) 10 (by norm_num) (by norm_num)).trans ?_
  norm_num

end Kofft.Props
