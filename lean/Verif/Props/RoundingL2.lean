import Verif.Props.Rounding
import Verif.Props.Laws
import Verif.Proof.RoundL2
import Mathlib.Algebra.Order.Chebyshev
/-
Property C64, Euclidean norm: the relative error of the transforms in floating-point arithmetic, measured by the
energy of the error against the energy of the exact result.
-/
namespace Kofft.Spec

/-- `1 +` the relative error, in the Euclidean norm, of an `n`-point forward transform. For powers of two above
16 it is the growth of one level per factor of two; for the other lengths the pointwise bound is summed up. -/
noncomputable def l2Growth (cfg : Cfg) (u v t : ℝ) (n : ℕ) : ℝ :=
  if isPow2 n = true ∧ 16 < n then fftGrowth cfg u v t n
  else 1 + (fftGrowth cfg u v t n - 1) * (fftWeight n * Real.sqrt n)

end Kofft.Spec

namespace Kofft.Props
open Spec Complex Finset

theorem l2_dft {n : ℕ} (hn : 0 < n) (x : ℕ → ℂ) : l2 n (dft n x) = Real.sqrt n * l2 n x := by
  unfold l2
  rw [parseval (by omega), Real.sqrt_mul (by positivity)]

theorem l2_idft {n : ℕ} (hn : 0 < n) (X : ℕ → ℂ) : Real.sqrt n * l2 n (idft n X) = l2 n X := by
  rw [← l2_dft hn]
  exact l2_congr fun k hk => dft_idft _ hk

theorem fftWeight_nonneg (n : ℕ) (hn : 0 < n) : 0 ≤ fftWeight n := by
  unfold fftWeight
  have : (1 : ℝ) ≤ n := by exact_mod_cast hn
  split <;> linarith

theorem sum_le_l2 (n : ℕ) (x : ℕ → ℂ) : ∑ i ∈ range n, ‖x i‖ ≤ Real.sqrt n * l2 n x := by
  unfold l2
  rw [← Real.sqrt_mul (by positivity)]
  apply Real.le_sqrt_of_sq_le
  have := sq_sum_le_card_mul_sum_sq (s := range n) (f := fun i => ‖x i‖)
  rwa [card_range] at this

theorem l2_of_pointwise (n : ℕ) (v : ℕ → ℂ) {c : ℝ} (hc : 0 ≤ c) (h : ∀ i, i < n → ‖v i‖ ≤ c) :
    l2 n v ≤ Real.sqrt n * c := by
  apply l2_le (by positivity)
  rw [mul_pow, Real.sq_sqrt (by positivity)]
  calc _ ≤ ∑ i ∈ range n, c ^ 2 := sum_le_sum fun i hi => pow_le_pow_left₀ (norm_nonneg _) (h i (mem_range.mp hi)) 2
    _ = _ := by simp

variable [F : Flt ℝ] {u v t : ℝ}

theorem l2Growth_ge (hF : Rounding F u v t) (cfg : Cfg) (n : ℕ) (hn : 0 < n) : 1 ≤ l2Growth cfg u v t n := by
  have := fftGrowth_ge hF cfg n
  unfold l2Growth
  split
  · exact this
  · have h2 := fftWeight_nonneg n hn
    have : 0 ≤ (fftGrowth cfg u v t n - 1) * (fftWeight n * Real.sqrt n) := mul_nonneg (by linarith) (by positivity)
    linarith

theorem freshOut_l2 (hF : Rounding F u v t) (cfg : Cfg) (x : List (Cx ℝ)) (hx : 0 < x.length) :
    l2 x.length (fun k => toC ((freshOut cfg x).getD k Cx.zero) - dft x.length (sig x) k) ≤
      (l2Growth cfg u v t x.length - 1) * l2 x.length (dft x.length (sig x)) := by
  rw [l2_dft hx]
  unfold l2Growth
  split
  · rename_i h
    have := freshPow_l2 hF cfg x h.1 h.2
    rw [fftGrowth, if_pos h.1, freshOut, if_pos h.1]
    rw [l2_congr (w := fun i => toC (x.getD i Cx.zero)) (fun i hi => sig_getD x i hi)]
    refine le_trans (le_of_eq (l2_congr fun k hk => ?_)) this
    rw [dft_congr (fun i hi => sig_getD x i hi)]
  · have hw := fftWeight_nonneg x.length hx
    have hg := fftGrowth_ge hF cfg x.length
    have h1 := l2_of_pointwise x.length
      (fun k => toC ((freshOut cfg x).getD k Cx.zero) - dft x.length (sig x) k)
      (c := (fftGrowth cfg u v t x.length - 1) * (fftWeight x.length * ∑ s ∈ range x.length, ‖sig x s‖))
      (mul_nonneg (by linarith) (mul_nonneg hw (sum_nonneg fun _ _ => norm_nonneg _))) (by
        intro k hk
        have := freshOut_rnd hF cfg x (sig x) (fun i => ‖sig x i‖) 1 (sig_apx x) k hk
        rw [one_mul] at this
        exact this.err)
    refine h1.trans ?_
    have h2 := sum_le_l2 x.length (sig x)
    have h3 : (fftGrowth cfg u v t x.length - 1) * (fftWeight x.length * ∑ s ∈ range x.length, ‖sig x s‖) ≤
        (fftGrowth cfg u v t x.length - 1) * (fftWeight x.length * (Real.sqrt x.length * l2 x.length (sig x))) :=
      mul_le_mul_of_nonneg_left (mul_le_mul_of_nonneg_left h2 hw) (by linarith)
    refine (mul_le_mul_of_nonneg_left h3 (Real.sqrt_nonneg _)).trans (le_of_eq ?_)
    ring

theorem ifftBuf_l2 (hF : Rounding F u v t) (cfg : Cfg) (p : Planner ℝ) (x : List (Cx ℝ)) (hI : Inv cfg p)
    (hr : fftRes cfg x.length = .ok ()) (hc : Compat cfg p x.length) (hx : 0 < x.length) :
    l2 x.length (fun k => toC ((ifftBuf cfg p x).getD k Cx.zero) - idft x.length (sig x) k) ≤
      (l2Growth cfg u v t x.length * scaleGrowth u v x.length - 1) * l2 x.length (idft x.length (sig x)) := by
  have hu := hF.u_nonneg
  have hg := l2Growth_ge hF cfg x.length hx
  have hs := scaleGrowth_ge hF hx
  unfold ifftBuf
  by_cases h1 : x.length = 1
  · rw [if_pos (Or.inr h1)]
    have e : l2 x.length (fun k => toC (x.getD k Cx.zero) - idft x.length (sig x) k) = 0 := by
      rw [l2_congr (w := fun _ => 0)]
      · simp [l2]
      · intro k hk
        rw [h1] at hk ⊢
        have : k = 0 := by omega
        subst this
        rw [← sig_getD x 0 (by omega)]
        simp [idft]
    rw [e]
    exact mul_nonneg (by nlinarith) (l2_nonneg _ _)
  · rw [if_neg (by omega), hr]
    simp only
    have hl : (x.map Cx.conj).length = x.length := by simp
    rw [fftBuf_fresh cfg p (x.map Cx.conj) hI (by rw [hl]; exact hr) (by rw [hl]; exact hc)]
    have d1 : (freshOut cfg (x.map Cx.conj)).length = x.length := by
      unfold freshOut
      split
      · rename_i hp; rw [freshPow_length cfg _ hp, hl]
      · simp [bluOut, bluPost]
    have d2 := freshOut_l2 hF cfg (x.map Cx.conj) (by rw [hl]; exact hx)
    rw [hl] at d2
    have hsig : ∀ i, i < x.length → sig (x.map Cx.conj) i = (starRingEnd ℂ) (sig x i) := by
      intro i hi
      rw [sig_getD _ _ (by rw [hl]; exact hi), getD_map x Cx.conj i Cx.zero Cx.zero hi, rnd_conj hF, sig_getD _ _ hi]
    set n := x.length with hn
    set Y : ℕ → ℂ := fun k => toC ((freshOut cfg (x.map Cx.conj)).getD k Cx.zero) with hY
    set D : ℕ → ℂ := dft n (sig (x.map Cx.conj)) with hD
    have hDi : ∀ k, idft n (sig x) k = (starRingEnd ℂ) (D k) / n := by
      intro k
      rw [idft_conj, hD, dft_congr hsig]
    have hn0 : (0 : ℝ) < n := by exact_mod_cast hx
    -- energy of the exact result
    have hR : l2 n D = n * l2 n (idft n (sig x)) := by
      rw [l2_congr (w := fun k => (n : ℂ) * (starRingEnd ℂ) (idft n (sig x) k)), l2_mul, l2_conj]
      · simp
      · intro k _
        rw [hDi, map_div₀, conj_conj, map_natCast, mul_div_cancel₀]
        exact_mod_cast hn0.ne'
    have hYn : l2 n Y ≤ l2Growth cfg u v t n * l2 n D := by
      have := l2_add n (fun k => Y k - D k) D
      simp only [sub_add_cancel] at this
      have h2 : l2 n Y ≤ l2 n (fun k => Y k - D k) + l2 n D := this
      have h3 : l2 n (fun k => Y k - D k) ≤ (l2Growth cfg u v t n - 1) * l2 n D := d2
      linarith
    obtain ⟨r1, r2⟩ := rnd_recip hF hx
    -- the scaling
    have hsc : ∀ k, k < n → ‖toC (((freshOut cfg (x.map Cx.conj)).map fun c =>
        (⟨F.mul c.conj.re (F.div F.one (F.ofNat n)), F.mul c.conj.im (F.div F.one (F.ofNat n))⟩ : Cx ℝ)).getD k Cx.zero) -
        (starRingEnd ℂ) (Y k) / n‖ ≤ (scaleGrowth u v n - 1) * (1 / (n : ℝ)) * ‖Y k‖ := by
      intro k hk
      rw [getD_map _ _ k Cx.zero Cx.zero (by omega)]
      have e1 := (Apx.refl (Y k)).conj'
      rw [hY, ← rnd_conj hF] at e1
      have e2 := (rnd_scale hF e1 (by positivity) r2 r1).err
      have e4 : 1 * (scaleGrowth u v n / (1 + u)) * (1 + u) = scaleGrowth u v n := by
        have : (1 + u) ≠ 0 := by linarith
        field_simp
      rw [e4] at e2
      have e5 : ((1 / (n : ℝ) : ℝ) : ℂ) = 1 / (n : ℂ) := by push_cast; ring
      rw [e5, ← div_eq_mul_one_div, rnd_conj hF] at e2
      refine e2.trans (le_of_eq ?_)
      ring
    have f1 := l2_scale_bound (n := n) (w := Y)
      (mul_nonneg (by linarith) (by positivity) : 0 ≤ (scaleGrowth u v n - 1) * (1 / (n : ℝ))) hsc
    have f2 : l2 n (fun k => (starRingEnd ℂ) (Y k) / n - idft n (sig x) k) =
        1 / (n : ℝ) * l2 n (fun k => Y k - D k) := by
      rw [← l2_conj n (fun k => Y k - D k)]
      rw [l2_congr (w := fun k => (1 / (n : ℂ)) * (starRingEnd ℂ) (Y k - D k)), l2_mul]
      · simp
      · intro k _
        rw [hDi, map_sub]; ring
    have f3 := l2_add n (fun k => toC (((freshOut cfg (x.map Cx.conj)).map fun c =>
        (⟨F.mul c.conj.re (F.div F.one (F.ofNat n)), F.mul c.conj.im (F.div F.one (F.ofNat n))⟩ : Cx ℝ)).getD k Cx.zero) -
        (starRingEnd ℂ) (Y k) / n) (fun k => (starRingEnd ℂ) (Y k) / n - idft n (sig x) k)
    simp only [sub_add_sub_cancel] at f3
    refine f3.trans ?_
    rw [f2]
    have g1 : (scaleGrowth u v n - 1) * (1 / (n : ℝ)) * l2 n Y ≤
        (scaleGrowth u v n - 1) * (1 / (n : ℝ)) * (l2Growth cfg u v t n * l2 n D) :=
      mul_le_mul_of_nonneg_left hYn (mul_nonneg (by linarith) (by positivity))
    have g2 : 1 / (n : ℝ) * l2 n (fun k => Y k - D k) ≤ 1 / (n : ℝ) * ((l2Growth cfg u v t n - 1) * l2 n D) :=
      mul_le_mul_of_nonneg_left d2 (by positivity)
    refine (add_le_add (f1.trans g1) g2).trans (le_of_eq ?_)
    rw [hR]
    field_simp
    ring

/-- C64f. The relative error of `fft`: the energy of the error against the energy of the exact spectrum. -/
theorem fft_error_l2 (hF : Rounding F u v t) (cfg : Cfg) (x : List (Cx ℝ))
    (hx : 0 < x.length) (hn : cfg.std = true ∨ ∃ k, x.length = 2 ^ k) (p : Planner ℝ)
    (hp : ReachVia cfg (fun m => workSize m ≤ workSize x.length) p) :
    ∃ p' y, fft cfg p x = .ok (p', y, .ok ()) ∧ y.length = x.length ∧
      l2 x.length (fun k => sig y k - dft x.length (sig x) k) ≤
        (l2Growth cfg u v t x.length - 1) * l2 x.length (dft x.length (sig x)) := by
  have hr : fftRes cfg x.length = .ok () := by
    rcases hn with h | h
    · exact fftRes_std h hx
    · exact fftRes_pow2 cfg (isPow2_iff.mpr h)
  obtain ⟨p', e, h1, hl, -⟩ := (fft_opOk cfg).run p x (reachVia_inv hp)
  rw [hr, fftBuf_fresh cfg p x (reachVia_inv hp) hr (compat_of_reach hp)] at e
  rw [fftBuf_fresh cfg p x (reachVia_inv hp) hr (compat_of_reach hp)] at hl
  refine ⟨p', _, e, hl, ?_⟩
  refine le_trans (le_of_eq (l2_congr fun k hk => ?_)) (freshOut_l2 hF cfg x hx)
  rw [sig_getD _ _ (by rw [hl]; exact hk)]

/-- C64g. The relative error of `ifft`. -/
theorem ifft_error_l2 (hF : Rounding F u v t) (cfg : Cfg) (x : List (Cx ℝ))
    (hx : 0 < x.length) (hn : cfg.std = true ∨ ∃ k, x.length = 2 ^ k) (p : Planner ℝ)
    (hp : ReachVia cfg (fun m => workSize m ≤ workSize x.length) p) :
    ∃ p' y, ifft cfg p x = .ok (p', y, .ok ()) ∧ y.length = x.length ∧
      l2 x.length (fun s => sig y s - idft x.length (sig x) s) ≤
        (l2Growth cfg u v t x.length * scaleGrowth u v x.length - 1) * l2 x.length (idft x.length (sig x)) := by
  have hr : fftRes cfg x.length = .ok () := by
    rcases hn with h | h
    · exact fftRes_std h hx
    · exact fftRes_pow2 cfg (isPow2_iff.mpr h)
  obtain ⟨p', e, h1, hl, -⟩ := (ifft_opOk cfg).run p x (reachVia_inv hp)
  rw [hr] at e
  refine ⟨p', _, e, hl, ?_⟩
  refine le_trans (le_of_eq (l2_congr fun k hk => ?_))
    (ifftBuf_l2 hF cfg p x (reachVia_inv hp) hr (compat_of_reach hp) hx)
  rw [sig_getD _ _ (by rw [hl]; exact hk)]

/-- C64h. The relative error of `fft` followed by `ifft`. -/
theorem round_trip_error_l2 (hF : Rounding F u v t) (cfg : Cfg) (x : List (Cx ℝ))
    (hx : 0 < x.length) (hn : cfg.std = true ∨ ∃ k, x.length = 2 ^ k) (p : Planner ℝ)
    (hp : ReachVia cfg (fun m => workSize m ≤ workSize x.length) p) :
    ∃ p1 y p2 z, fft cfg p x = .ok (p1, y, .ok ()) ∧ ifft cfg p1 y = .ok (p2, z, .ok ()) ∧
      z.length = x.length ∧
      l2 x.length (fun s => sig z s - sig x s) ≤
        (l2Growth cfg u v t x.length ^ 2 * scaleGrowth u v x.length - 1) * l2 x.length (sig x) := by
  obtain ⟨p1, y, e1, hl, h1⟩ := fft_error_l2 hF cfg x hx hn p hp
  obtain ⟨p2, z, e2, hl2, h2⟩ := ifft_error_l2 hF cfg y (by omega) (by rw [hl]; exact hn) p1
    (by rw [hl]; exact .fft hp le_rfl e1)
  refine ⟨p1, y, p2, z, e1, e2, by omega, ?_⟩
  rw [hl] at h2
  set n := x.length
  set g := l2Growth cfg u v t n with hg
  set s := scaleGrowth u v n with hs
  have hg1 : 1 ≤ g := l2Growth_ge hF cfg n hx
  have hs1 : 1 ≤ s := scaleGrowth_ge hF hx
  have hn0 : 0 < Real.sqrt n := Real.sqrt_pos.mpr (by exact_mod_cast hx)
  have a1 : l2 n (fun k => idft n (sig y) k - sig x k) ≤ (g - 1) * l2 n (sig x) := by
    have e : Real.sqrt n * l2 n (fun k => idft n (sig y) k - sig x k) = l2 n (fun k => sig y k - dft n (sig x) k) := by
      rw [← l2_dft hx]
      apply l2_congr
      intro k hk
      rw [← dft_idft (sig y) hk]
      unfold dft
      rw [← sum_sub_distrib]
      exact sum_congr rfl fun _ _ => by ring
    rw [l2_dft hx] at h1
    rw [← e] at h1
    have : Real.sqrt n * l2 n (fun k => idft n (sig y) k - sig x k) ≤ Real.sqrt n * ((g - 1) * l2 n (sig x)) := by
      linarith
    exact le_of_mul_le_mul_left this hn0
  have a2 : l2 n (idft n (sig y)) ≤ g * l2 n (sig x) := by
    have := l2_add n (fun k => idft n (sig y) k - sig x k) (sig x)
    simp only [sub_add_cancel] at this
    have h3 : l2 n (idft n (sig y)) ≤ l2 n (fun k => idft n (sig y) k - sig x k) + l2 n (sig x) := this
    linarith
  have a3 := l2_add n (fun k => sig z k - idft n (sig y) k) (fun k => idft n (sig y) k - sig x k)
  simp only [sub_add_sub_cancel] at a3
  have a4 : (g * s - 1) * l2 n (idft n (sig y)) ≤ (g * s - 1) * (g * l2 n (sig x)) :=
    mul_le_mul_of_nonneg_left a2 (by nlinarith)
  refine a3.trans ((add_le_add (h2.trans a4) a1).trans (le_of_eq ?_))
  ring

/-- C64i. Closed form with the tables generated at build time: the relative error of `fft` is at most `50 · K · u`
for `2^5 ≤ 2^K ≤ 2^10` points. -/
theorem fft_error_l2_precomputed (hF : Rounding F u v t) (hu : u ≤ 1 / 1000) (htu : t ≤ 2 * u) (cfg : Cfg)
    (hc : cfg.precomputed = true) (hk : cfg.kind = .f32 ∨ cfg.kind = .f64) (K : ℕ) (hK : 5 ≤ K) (hK10 : K ≤ 10)
    (x : List (Cx ℝ)) (hx : x.length = 2 ^ K) :
    ∃ p y, fft cfg Planner.new x = .ok (p, y, .ok ()) ∧ y.length = x.length ∧
      l2 x.length (fun k => sig y k - dft x.length (sig x) k) ≤ 50 * K * u * l2 x.length (dft x.length (sig x)) := by
  obtain ⟨p, y, e, hl, hb⟩ := fft_error_l2 hF cfg x (by rw [hx]; positivity) (Or.inr ⟨K, hx⟩) Planner.new .new
  refine ⟨p, y, e, hl, hb.trans (mul_le_mul_of_nonneg_right ?_ (l2_nonneg _ _))⟩
  have h16 : 16 < 2 ^ K := by
    have : 2 ^ 5 ≤ 2 ^ K := Nat.pow_le_pow_right (by norm_num) hK
    omega
  rw [hx, l2Growth, if_pos ⟨isPow2_pow K, h16⟩]
  exact fftGrowth_precomputed hF hu htu cfg hc hk K hK hK10

/-- C64j. Closed form with the tables built by rotation: the relative error of `fft` is at most `16 · K · 2^K · u`. -/
theorem fft_error_l2_rotation (hF : Rounding F u v t) (hu : u ≤ 1 / 1000) (htu : t ≤ 2 * u) (cfg : Cfg)
    (hc : cfg.precomputed = false) (K : ℕ) (hK : 5 ≤ K) (hsmall : 8 * K * 2 ^ K * u ≤ 1)
    (x : List (Cx ℝ)) (hx : x.length = 2 ^ K) :
    ∃ p y, fft cfg Planner.new x = .ok (p, y, .ok ()) ∧ y.length = x.length ∧
      l2 x.length (fun k => sig y k - dft x.length (sig x) k) ≤
        16 * K * 2 ^ K * u * l2 x.length (dft x.length (sig x)) := by
  obtain ⟨p, y, e, hl, hb⟩ := fft_error_l2 hF cfg x (by rw [hx]; positivity) (Or.inr ⟨K, hx⟩) Planner.new .new
  refine ⟨p, y, e, hl, hb.trans (mul_le_mul_of_nonneg_right ?_ (l2_nonneg _ _))⟩
  have h16 : 16 < 2 ^ K := by
    have : 2 ^ 5 ≤ 2 ^ K := Nat.pow_le_pow_right (by norm_num) hK
    omega
  rw [hx, l2Growth, if_pos ⟨isPow2_pow K, h16⟩]
  exact fftGrowth_rotation hF hu htu cfg hc K hK hsmall

/-- In binary32 with build-time tables a 1024-point transform is accurate to a relative error of `3.1e-5`. -/
example (fused fma : Bool) (cfg : Cfg) (hc : cfg.precomputed = true) (hk : cfg.kind = .f32) (x : List (Cx ℝ))
    (hx : x.length = 1024) :
    letI := rndFlt 24 24 fused fma
    ∃ p y, fft cfg Planner.new x = .ok (p, y, .ok ()) ∧ y.length = x.length ∧
      l2 x.length (fun k => sig y k - dft x.length (sig x) k) ≤ 3.1e-5 * l2 x.length (dft x.length (sig x)) := by
  letI := rndFlt 24 24 fused fma
  obtain ⟨p, y, e, hl, hb⟩ := fft_error_l2_precomputed (rndFlt_rounding 24 24 (by norm_num) (by norm_num) fused fma)
    (by norm_num) (by norm_num) cfg hc (Or.inl hk) 10 (by norm_num) (by norm_num) x (by rw [hx]; norm_num)
  refine ⟨p, y, e, hl, hb.trans ?_⟩
  apply mul_le_mul_of_nonneg_right _ (l2_nonneg _ _)
  norm_num

end Kofft.Props
