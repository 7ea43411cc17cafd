import Verif.Proof.RoundCzt
import Verif.Proof.RoundStft
import Verif.Proof.Wavelet
import Verif.Model.Window
import Verif.Props.RoundingRfft
import Verif.Props.Hilbert
import Verif.Props.DctPlan
/-
Property C81: accuracy in floating-point arithmetic of the chirp Z-transform, the analytic signal, the planned
DCT-II, the Haar transform and the Hann and Hamming windows.
-/
namespace Kofft.Props
open Spec Finset

variable [F : Flt ℝ] {u v t : ℝ}

/-! ### Chirp Z-transform -/

/-- C81a. Bin `k` of `czt` differs from `Σ x_s a^(-s) w^(ks)` by at most `cztGrowth - 1` times
`Σ |x_s| |a|^(-s) |w|^(ks)`. -/
theorem czt_error (hF : Rounding F u v t) (hE : ∀ a b, F.feq a b = true ↔ a = b) (h2 : (1 + u) ^ 2 < 2)
    (x : List ℝ) (m : ℕ) (w a : Cx ℝ) (ha : toC a ≠ 0) :
    (czt x m w a).length = m ∧ ∀ k, k < m → ‖sig (czt x m w a) k -
      ∑ s ∈ range x.length, ((x.getD s 0 : ℝ) : ℂ) * toC a ^ (-(s : ℤ)) * toC w ^ (k * s)‖ ≤
        (cztGrowth u x.length k - 1) *
          ∑ s ∈ range x.length, |x.getD s 0| * ‖toC a‖ ^ (-(s : ℤ)) * ‖toC w‖ ^ (k * s) := by
  refine ⟨by simp [czt], fun k hk => ?_⟩
  have e : sig (czt x m w a) k = toC (cztAt x w a k) := by
    rw [sig_get _ _ (by simpa [czt] using hk)]; simp [czt]
  rw [e]
  exact (cztAt_rnd hF hE h2 x w a ha k).err

/-! ### Analytic signal -/

theorem hilbertMask_rnd (h : Rounding F u v t) (f : List (Cx ℝ)) (Z : ℕ → ℂ) (A : ℝ) {g : ℝ}
    (hZ : ∀ k, k < f.length → Apx g (toC (f.getD k Cx.zero)) (Z k) A) (k : ℕ) (hk : k < f.length) :
    Apx (g * (1 + u)) (toC ((hilbertMask f).getD k Cx.zero)) (analyticGain f.length k * Z k)
      (analyticGain f.length k * A) := by
  have hu := h.u_nonneg
  have hg : g ≤ g * (1 + u) := by nlinarith [(hZ k hk).one]
  have key : ∀ a b c d, (∀ k, k < f.length → (a ≤ k ∧ k < b ↔ ¬ (k = 0 ∨ 2 * k = f.length) ∧ 2 * k < f.length)) →
      (∀ k, k < f.length → (c ≤ k ∧ k < d ↔ ¬ (k = 0 ∨ 2 * k = f.length) ∧ ¬ 2 * k < f.length)) →
      Apx (g * (1 + u)) (toC ((zeroRange (doubleRange f a b) c d).getD k Cx.zero)) (analyticGain f.length k * Z k)
        (analyticGain f.length k * A) := by
    intro a b c d h1 h2
    have hl : k < (zeroRange (doubleRange f a b) c d).length := by simp [zeroRange, doubleRange, hk]
    have hZk := hZ k hk
    rw [List.getD_eq_getElem _ _ hk] at hZk
    rw [List.getD_eq_getElem _ _ hl]
    have he : (zeroRange (doubleRange f a b) c d)[k] = if c ≤ k ∧ k < d then Cx.zero else
        if a ≤ k ∧ k < b then ⟨f[k].re *. two, f[k].im *. two⟩ else f[k] := by
      simp only [zeroRange, doubleRange, List.getElem_mapIdx]
    rw [he]
    unfold analyticGain
    by_cases h3 : k = 0 ∨ 2 * k = f.length
    · rw [if_neg (fun h => ((h2 k hk).1 h).1 h3), if_neg (fun h => ((h1 k hk).1 h).1 h3), if_pos h3]
      simpa using hZk.mono hg
    · by_cases h4 : 2 * k < f.length
      · rw [if_neg (fun h => ((h2 k hk).1 h).2 h4), if_pos ((h1 k hk).2 ⟨h3, h4⟩), if_neg h3, if_pos h4]
        have e1 : Apx 1 ((2 : ℕ) : ℂ) ((2 : ℕ) : ℂ) ((2 : ℕ) : ℝ) := by
          have := Apx.refl ((2 : ℕ) : ℂ)
          rwa [Complex.norm_natCast] at this
        have e2 := e1.mul' hZk
        rw [one_mul] at e2
        refine e2.round hu ?_
        apply norm_le_of_parts hu
        · have := h.mul (f[k].re) (F.lit 2 0)
          rw [h.two] at this
          simpa [two, h.two, mul_comm] using this
        · have := h.mul (f[k].im) (F.lit 2 0)
          rw [h.two] at this
          simpa [two, h.two, mul_comm] using this
      · rw [if_pos ((h2 k hk).2 ⟨h3, h4⟩), if_neg h3, if_neg h4, rnd_zero h]
        refine ⟨hZk.one.trans hg, by simp, by simp⟩
  unfold hilbertMask
  simp only []
  split
  · exact key _ _ _ _ (fun k hk => by omega) (fun k hk => by omega)
  · exact key _ _ _ _ (fun k hk => by omega) (fun k hk => by omega)

omit F in
theorem analyticGain_sum {n : ℕ} (hn : 0 < n) : ∑ k ∈ range n, analyticGain n k = n := by
  have hp : ∀ k ∈ range n, analyticGain n k + analyticGain n ((n - k) % n) = 2 := by
    intro k hk
    rw [mem_range] at hk
    rcases Nat.eq_zero_or_pos k with h | h
    · subst h; simp [analyticGain]
    · rw [Nat.mod_eq_of_lt (by omega)]
      unfold analyticGain
      split_ifs <;> omega
  have hr : ∑ k ∈ range n, analyticGain n ((n - k) % n) = ∑ k ∈ range n, analyticGain n k := by
    refine sum_nbij' (fun k => (n - k) % n) (fun k => (n - k) % n) ?_ ?_ ?_ ?_ ?_
    · intro a _; exact mem_range.2 (Nat.mod_lt _ hn)
    · intro a _; exact mem_range.2 (Nat.mod_lt _ hn)
    · intro a ha
      rw [mem_range] at ha
      rcases Nat.eq_zero_or_pos a with h | h
      · subst h; simp
      · rw [Nat.mod_eq_of_lt (by omega : n - a < n), show n - (n - a) = a by omega, Nat.mod_eq_of_lt ha]
    · intro a ha
      rw [mem_range] at ha
      rcases Nat.eq_zero_or_pos a with h | h
      · subst h; simp
      · rw [Nat.mod_eq_of_lt (by omega : n - a < n), show n - (n - a) = a by omega, Nat.mod_eq_of_lt ha]
    · intro a _; rfl
  have h2 := sum_congr rfl hp
  rw [sum_add_distrib, hr, sum_const, card_range, smul_eq_mul] at h2
  omega

theorem sig_ofReal_rnd (h : Rounding F u v t) (x : List ℝ) (s : ℕ) :
    sig (x.map fun v => (⟨v, F.zero⟩ : Cx ℝ)) s = rsig x s := by
  unfold sig rsig
  rw [List.getElem?_map, List.getD_eq_getElem?_getD]
  cases x[s]? with
  | none => simp
  | some v => simp [h.zero]; rfl

omit F in
/-- The exact analytic signal. -/
theorem analytic_exists (x : List ℝ) (hx : ∃ k, x.length = 2 ^ k) : ∃ z : ℕ → ℂ,
    (∀ s, s < x.length → (z s).re = x.getD s 0) ∧
    (∀ k, k < x.length → dft x.length z k = analyticGain x.length k * dft x.length (rsig x) k) := by
  letI := realFlt true
  obtain ⟨y, -, -, h1, h2⟩ := hilbert_spec (realFlt_lawful true) ⟨true, .f32, false, 4, false⟩ x hx
  exact ⟨sig y, h1, h2⟩

/-- C81b. `hilbert_analytic` of a signal of any power-of-two length in rounding arithmetic: every sample is within the
bound of the sample of the exact analytic signal `z`: the one whose real part is the input and whose spectrum is the
input's with positive frequencies doubled and negative ones removed. -/
theorem hilbert_error (hF : Rounding F u v t) (cfg : Cfg) (x : List ℝ) (hx : ∃ k, x.length = 2 ^ k) :
    ∃ y, hilbertAnalytic cfg x = .ok (.ok y) ∧ y.length = x.length ∧ ∃ z : ℕ → ℂ,
      (∀ s, s < x.length → (z s).re = x.getD s 0) ∧
      (∀ k, k < x.length → dft x.length z k = analyticGain x.length k * dft x.length (rsig x) k) ∧
      ∀ s, s < x.length → ‖sig y s - z s‖ ≤
        (fftGrowth cfg u v t x.length ^ 2 * (1 + u) * scaleGrowth u v x.length - 1) *
          ∑ i ∈ range x.length, |x.getD i 0| := by
  obtain ⟨z, hz1, hz2⟩ := analytic_exists x hx
  have hpos : 0 < x.length := by obtain ⟨k, h⟩ := hx; rw [h]; positivity
  have hw : fftWeight x.length = 1 := by rw [fftWeight, if_pos (isPow2_iff.2 hx)]
  have hr : fftRes cfg x.length = .ok () := fftRes_pow2 cfg (isPow2_iff.mpr hx)
  set c : List (Cx ℝ) := x.map fun v => (⟨v, F.zero⟩ : Cx ℝ) with hc
  have hcl : c.length = x.length := by simp [hc]
  have hp0 : ReachVia cfg (fun m => workSize m ≤ workSize x.length) (Planner.new : Planner ℝ) := .new
  obtain ⟨p1, e, -, hl, -⟩ := (fft_opOk cfg).run Planner.new c (reachVia_inv hp0)
  have hfr := fftBuf_fresh cfg Planner.new c (reachVia_inv hp0) (by rw [hcl]; exact hr)
    (by rw [hcl]; exact compat_of_reach hp0)
  rw [hfr, hcl, hr] at e
  rw [hfr, hcl] at hl
  have hp1 : ReachVia cfg (fun m => workSize m ≤ workSize x.length) p1 := .fft hp0 (by rw [hcl]) e
  set f := freshOut cfg c with hf
  have hml : (hilbertMask f).length = x.length := by rw [hilbertMask_length, hl]
  obtain ⟨p2, e2, -, hl2, -⟩ := (ifft_opOk cfg).run p1 (hilbertMask f) (reachVia_inv hp1)
  rw [hml, hr] at e2
  have a1 := fun k hk => freshOut_rnd hF cfg c (sig c) (fun i => ‖sig c i‖) 1 (sig_apx c) k hk
  rw [one_mul, hcl, hw, one_mul] at a1
  have hS : ∑ i ∈ range x.length, ‖sig c i‖ = ∑ i ∈ range x.length, |x.getD i 0| :=
    sum_congr rfl fun i _ => by rw [hc, sig_ofReal_rnd hF]; unfold rsig; rw [Complex.norm_real, Real.norm_eq_abs]
  rw [hS] at a1
  have a2 := hilbertMask_rnd hF f (dft x.length (sig c)) _ (by rw [hl]; exact a1)
  rw [hl] at a2
  have a3 := ifftBuf_rnd hF cfg p1 (hilbertMask f) (reachVia_inv hp1) (by rw [hml]; exact hr)
    (by rw [hml]; exact compat_of_reach hp1) _ _ _ (by rw [hml]; exact a2)
  rw [hml, hw, one_mul] at a3
  refine ⟨_, ?_, by rw [hl2, hml], z, hz1, hz2, fun s hs => ?_⟩
  · unfold hilbertAnalytic
    rw [if_neg (by omega), isPow2_iff.2 hx]
    simp only [Bool.not_true, Bool.false_eq_true, if_false]
    show (fft cfg Planner.new c >>= _) = _
    simp only [e, Outcome.bind_ok, e2]
  · have a4 := (a3 s hs).err
    rw [sig_getD _ _ (by rw [hl2, hml]; exact hs)]
    have hz : idft x.length (fun k => (analyticGain x.length k : ℂ) * dft x.length (sig c) k) s = z s := by
      rw [← idft_dft z hs]
      refine idft_congr (fun k hk => ?_) s
      rw [hz2 k hk]
      congr 1
      exact dft_congr (fun i _ => sig_ofReal_rnd hF x i) k
    rw [hz, ← sum_mul] at a4
    have hg : ∑ k ∈ range x.length, (analyticGain x.length k : ℝ) = x.length := by
      exact_mod_cast analyticGain_sum hpos
    rw [hg, mul_div_assoc, mul_comm (x.length : ℝ), div_mul_cancel₀ _ (by positivity)] at a4
    refine a4.trans (le_of_eq ?_)
    ring

/-! ### Planned DCT-II -/

/-- quotient by a number known up to a relative error -/
theorem div_rnd (h : Rounding F u v t) {g a z A b w ε : ℝ} (H : RApx g a z A) (hw : w ≠ 0) (h0 : 0 ≤ ε) (h1 : ε < 1)
    (hb : |b - w| ≤ ε * |w|) : RApx (g * (1 / (1 - ε)) * (1 + u)) (F.div a b) (z / w) (A * |w⁻¹|) := by
  obtain ⟨b0, H2⟩ := RApx.inv hw h0 h1 hb
  rw [div_eq_mul_inv]
  refine RApx.mul H H2 h.u_nonneg ?_
  rw [← div_eq_mul_inv]
  exact h.div a b b0

theorem rotAngle_rnd (h : Rounding F u v t) (h2 : (1 + v) * (1 + u) < 2) {n : ℕ} (hn : 0 < n) (k : ℕ) :
    RApx ((1 + u) ^ 3 * (1 + v) / (2 - (1 + v) * (1 + u)))
      (F.div (F.mul F.pi (F.ofNat k)) (F.mul (F.lit 2 0) (F.ofNat n)))
      (Real.pi * k / (2 * n)) (Real.pi * k / (2 * n)) := by
  have hu := h.u_nonneg
  have hv := h.v_nonneg
  have hn' : (0 : ℝ) < n := by exact_mod_cast hn
  have a1 := RApx.mul (pi_rnd h) (nat_rnd h k) hu (h.mul F.pi (F.ofNat k))
  have a2 : RApx 1 (F.lit 2 0) 2 2 := by
    rw [h.two]; simpa using RApx.refl 2
  have a3 := RApx.mul a2 (nat_rnd h n) hu (h.mul (F.lit 2 0) (F.ofNat n))
  have a4 : |F.mul (F.lit 2 0) (F.ofNat n) - 2 * n| ≤ ((1 + v) * (1 + u) - 1) * |2 * (n : ℝ)| := by
    have := a3.abs_err
    rw [one_mul] at this
    rwa [abs_of_pos (show (0 : ℝ) < 2 * n by positivity)]
  have a5 := div_rnd h a1 (w := 2 * (n : ℝ)) (by positivity) (by nlinarith [mul_nonneg hu hv]) (by linarith) a4
  have e1 : (1 + u) * (1 + v) * (1 + u) * (1 / (1 - ((1 + v) * (1 + u) - 1))) * (1 + u) =
      (1 + u) ^ 3 * (1 + v) / (2 - (1 + v) * (1 + u)) := by
    rw [show 1 - ((1 + v) * (1 + u) - 1) = 2 - (1 + v) * (1 + u) by ring]; ring
  have e2 : Real.pi * k * |(2 * (n : ℝ))⁻¹| = Real.pi * k / (2 * n) := by
    rw [abs_of_pos (by positivity), div_eq_mul_inv]
  rw [e1, e2] at a5
  exact a5

omit F in
theorem lip_apx {f' f : ℝ → ℝ} {θ' θ g B : ℝ} (hl : |f θ' - f θ| ≤ |θ' - θ|) (hf : |f θ| ≤ 1)
    (ht : |f' θ' - f θ'| ≤ t) (ht0 : 0 ≤ t) (hθ : θ ≤ B) (H : RApx g θ' θ θ) :
    RApx (1 + (t + (g - 1) * B)) (f' θ') (f θ) 1 := by
  have h1 := H.abs_err
  have h2 : (g - 1) * θ ≤ (g - 1) * B := mul_le_mul_of_nonneg_left hθ (by linarith [H.one])
  have h3 : 0 ≤ (g - 1) * θ := (abs_nonneg _).trans h1
  refine RApx.mk' (by linarith) ?_ hf
  rw [show f' θ' - f θ = (f' θ' - f θ') + (f θ' - f θ) by ring]
  refine (abs_add_le _ _).trans ?_
  linarith

omit F in
theorem rotAngle_le {n k : ℕ} (hn : 0 < n) (hk : k ≤ n) : Real.pi * k / (2 * n) ≤ Real.pi / 2 := by
  have hn' : (0 : ℝ) < n := by exact_mod_cast hn
  have hk' : (k : ℝ) ≤ n := by exact_mod_cast hk
  rw [div_le_div_iff₀ (by positivity) (by norm_num)]
  nlinarith [Real.pi_pos]

omit F in
theorem Apx_im {g : ℝ} {a z : ℂ} {A : ℝ} (H : Apx g a z A) : RApx g a.im z.im A :=
  RApx.mk' H.one (by rw [← Complex.sub_im]; exact (Complex.abs_im_le_norm _).trans H.err)
    ((Complex.abs_im_le_norm _).trans H.bd)

/-- C81c. The closure `plan_dct2(n)` in rounding arithmetic, for a planner with any history: every output is within
the bound of the exact DCT-II. -/
theorem plan_dct2_error (hF : Rounding F u v t) (h2 : (1 + v) * (1 + u) < 2) (cfg : Cfg) (simd : Bool)
    (st st2 : DctPlanner ℝ) (h1 : DctReach cfg simd st) (h3 : DctReach cfg simd st2) (input output : List ℝ)
    (hn : 0 < input.length) (ho : output.length = input.length)
    (hstd : cfg.std = true ∨ ∃ k, input.length = 2 ^ k) :
    ∃ st' y, st2.dct2WithTable cfg simd input output (st.getCos input.length).2 = .ok (st', y, .ok ()) ∧
      y.length = input.length ∧ ∀ k, k < input.length →
        |y.getD k 0 - dctII input.length (fun s => input.getD s 0) k| ≤
          (fftGrowth cfg u v t input.length * binGrowth u v t input.length * rotGrowth u v t * (1 + u) ^ 3 - 1) *
            (4 * fftWeight input.length * ∑ s ∈ range input.length, |input.getD s 0|) := by
  have hu := hF.u_nonneg
  obtain ⟨rp', p', spec, r, -, e, hs, e2⟩ :=
    dct2WithTable_eq cfg simd (fun _ => Cx.zero) (dctReach_inv h3) input output (st.getCos input.length).2 ho
  obtain ⟨p'', y, e', hyl, -, hy⟩ := rfft_apx hF cfg simd (fun _ => Cx.zero) (mirror input) input.length hn
    (mirror_length input) hstd Planner.new .new
    ((grow st2.spectrum (input.length + 1) Cx.zero).take (input.length + 1))
    (by rw [List.length_take, grow_length]; omega)
  rw [e] at e'
  cases e'
  rw [(getCos_spec (dctReach_inv h1) _).1] at e2 ⊢
  rw [e2, dctFinish_ok _ _ _ _ _ ho hs (by unfold cosTable; simp)]
  refine ⟨_, _, rfl, tab_length _ _, fun k hk => ?_⟩
  rw [tab_getD hk, ← mirror_dct2 hF.zero input k hn, mirror_length]
  have hθ := rotAngle_rnd hF h2 hn k
  have hθ2 := rotAngle_le hn hk.le
  have e3 : (cosTable input.length : List ℝ).getD k F.zero =
      F.cos (F.div (F.mul F.pi (F.ofNat k)) (F.mul (F.lit 2 0) (F.ofNat input.length))) := by
    unfold cosTable
    rw [List.getD_eq_getElem _ _ (by simpa using hk)]
    simp [two]
  have c1 : RApx (rotGrowth u v t) ((cosTable input.length : List ℝ).getD k F.zero)
      (Real.cos (Real.pi * k / (2 * input.length))) 1 := by
    rw [e3]
    exact lip_apx (cos_lip _ _) (Real.abs_cos_le_one _) (hF.cos _) hF.t_nonneg hθ2 hθ
  have s1 : RApx (rotGrowth u v t) (F.sin (F.div (F.mul F.pi (F.ofNat k)) (F.mul (F.lit 2 0) (F.ofNat input.length))))
      (Real.sin (Real.pi * k / (2 * input.length))) 1 :=
    lip_apx (sin_lip _ _) (Real.abs_sin_le_one _) (hF.sin _) hF.t_nonneg hθ2 hθ
  have hk2 := hy k hk.le
  have b1 := RApx.mul (Apx.re hk2) c1 hu (hF.mul _ _)
  have b2 := RApx.mul (Apx_im hk2) s1 hu (hF.mul _ _)
  have b3 := RApx.add b1 b2 hu (hF.add _ _)
  have b4 : RApx 1 (F.lit 5 1) (1 / 2) (1 / 2) := by
    rw [hF.half]
    have := RApx.refl (1 / 2)
    rwa [abs_of_pos (by norm_num)] at this
  have b5 := (RApx.mul b4 b3 hu (hF.mul _ _)).abs_err
  have hS : ∑ s ∈ range (2 * input.length), ‖rsig (mirror input) s‖ =
      2 * ∑ s ∈ range input.length, |input.getD s 0| := by
    rw [sum_mirror, mul_sum]
    refine sum_congr rfl fun s hs => ?_
    rw [mem_range] at hs
    unfold rsig mirror
    rw [Complex.norm_real, Complex.norm_real, tab_getD (by omega), tab_getD (by omega), if_pos hs, if_neg (by omega),
      hF.zero, show 2 * input.length - 1 - (2 * input.length - 1 - s) = s by omega]
    simp only [Real.norm_eq_abs]; ring
  rw [hS] at b5
  refine b5.trans (le_of_eq ?_)
  ring

/-! ### Haar transform -/

/-- C81d. The Haar transform followed by its inverse returns every sample of an even-length signal within
`((1+u)³ - 1)` times the larger sample of its pair. -/
theorem haar_round_trip_error (hF : Rounding F u v t) (x : List ℝ) (hx : Even x.length) :
    ∃ a d y, haarForward x = .ok (a, d) ∧ haarInverse a d = .ok y ∧ y.length = x.length ∧
      ∀ i, 2 * i < x.length → ∀ j, j = 2 * i ∨ j = 2 * i + 1 →
        |y.getD j 0 - x.getD j 0| ≤ ((1 + u) ^ 3 - 1) * max |x.getD (2 * i) 0| |x.getD (2 * i + 1) 0| := by
  have hu := hF.u_nonneg
  obtain ⟨n, hn⟩ := hx
  have h2 : x.length / 2 = n := by omega
  refine ⟨_, _, _, haarForward_ok x, haarInverse_ok _ _ (by rw [tab_length, tab_length]), ?_, ?_⟩
  · rw [tab_length, tab_length]; omega
  · intro i hi j hj
    have hin : i < x.length / 2 := by omega
    have half' : ∀ {p P : ℝ}, |p - P| ≤ u * |P| →
        RApx ((1 + u) * (1 + u)) (F.div p (F.lit 2 0)) (P / 2) (|P| / 2) := by
      intro p P hp
      have q1 : RApx (1 + u) p P |P| := RApx.rel (by linarith) (by linarith)
      have q2 := div_rnd hF q1 (b := F.lit 2 0) (w := 2) (ε := 0) (by norm_num) le_rfl (by norm_num)
        (by rw [hF.two]; simp)
      have q3 : |P| * |(2 : ℝ)⁻¹| = |P| / 2 := by
        rw [abs_of_pos (show (0 : ℝ) < 2⁻¹ by norm_num), div_eq_mul_inv]
      rw [q3] at q2
      simpa using q2
    set a := x.getD (2 * i) 0 with ha
    set b := x.getD (2 * i + 1) 0 with hb
    have r1 := half' (hF.add a b)
    have r2 := half' (hF.sub a b)
    have hm : |a + b| / 2 + |a - b| / 2 = max |a| |b| := by
      rcases max_cases |a| |b| with ⟨h, h'⟩ | ⟨h, h'⟩ <;> rw [h] <;>
      rcases abs_cases a with h1 | h1 <;> rcases abs_cases b with h3 | h3 <;> rcases abs_cases (a + b) with h4 | h4 <;>
      rcases abs_cases (a - b) with h5 | h5 <;> linarith
    rcases hj with hj | hj
    · have r3 := (RApx.add r1 r2 hu (hF.add _ _)).abs_err
      rw [hm, show (a + b) / 2 + (a - b) / 2 = a by ring] at r3
      rw [hj, tab_getD (by rw [tab_length]; omega), haarSyn, if_pos (by omega), show 2 * i / 2 = i by omega,
        tab_getD hin, tab_getD hin, hF.zero, ← ha, ← hb]
      refine r3.trans (le_of_eq (by ring))
    · have r3 := (RApx.add r1 r2.neg hu (c := F.sub (F.div (F.add a b) (F.lit 2 0)) (F.div (F.sub a b) (F.lit 2 0)))
        (by rw [← sub_eq_add_neg]; exact hF.sub _ _)).abs_err
      rw [hm, show (a + b) / 2 + -((a - b) / 2) = b by ring] at r3
      rw [hj, tab_getD (by rw [tab_length]; omega), haarSyn, if_neg (by omega), show (2 * i + 1) / 2 = i by omega,
        tab_getD hin, tab_getD hin, hF.zero, ← ha, ← hb]
      refine r3.trans (le_of_eq (by ring))

/-! ### Windows -/

/-- C81e. Every sample of the Hann window `1/2 - 1/2 cos(2πi/n)` and of the Hamming window
`0.54 - 0.46 cos(2πi/n)`, when the conversion of integers is exact up to `v`. -/
theorem window_error (hF : Rounding F u v t) (hD : ∀ n, |F.ofNatD n - n| ≤ v * n) (n i : ℕ) (hi : i < n) :
    |(hann n : List ℝ).getD i 0 - (1 / 2 - 1 / 2 * Real.cos (2 * Real.pi * i / n))| ≤ windowGrowth u v t - 1 ∧
    |(hamming n : List ℝ).getD i 0 - (0.54 - 0.46 * Real.cos (2 * Real.pi * i / n))| ≤ windowGrowth u v t - 1 := by
  have hu := hF.u_nonneg
  have hv := hF.v_nonneg
  have hv1 := hF.v_lt_one
  have hn' : (0 : ℝ) < n := by exact_mod_cast (by omega : 0 < n)
  have natD : ∀ m : ℕ, RApx (1 + v) (F.ofNatD m) m (m : ℝ) := by
    intro m
    refine RApx.mk' (by linarith) ?_ (by rw [abs_of_nonneg (by positivity)])
    have := hD m
    linarith
  have two' : RApx 1 (F.lit 2 0) 2 2 := by rw [hF.two]; simpa using RApx.refl 2
  have a1 := RApx.mul (RApx.mul two' (pi_rnd hF) hu (hF.mul _ _)) (natD i) hu (hF.mul _ _)
  have a2 := div_rnd hF a1 hn'.ne' hv hv1 (b := F.ofNatD n) (by rw [abs_of_pos hn']; exact hD n)
  have e1 : 1 * (1 + u) * (1 + u) * (1 + v) * (1 + u) * (1 / (1 - v)) * (1 + u) = (1 + u) ^ 4 * (1 + v) / (1 - v) := by
    ring
  have e2 : 2 * Real.pi * i * |(n : ℝ)⁻¹| = 2 * Real.pi * i / n := by
    rw [abs_of_pos (by positivity), div_eq_mul_inv]
  rw [e1, e2] at a2
  have hB : 2 * Real.pi * i / n ≤ 2 * Real.pi := by
    rw [div_le_iff₀ hn']
    have : (i : ℝ) ≤ n := by exact_mod_cast hi.le
    nlinarith [Real.pi_pos]
  have c1 := lip_apx (cos_lip _ _) (Real.abs_cos_le_one _) (hF.cos _) hF.t_nonneg hB a2
  set θ' := F.div (F.mul (F.mul (F.lit 2 0) F.pi) (F.ofNatD i)) (F.ofNatD n) with hθ
  set G := 1 + (t + ((1 + u) ^ 4 * (1 + v) / (1 - v) - 1) * (2 * Real.pi)) with hG
  have hG1 : 1 ≤ G := c1.one
  have fin : ∀ (l m L M : ℝ), 0 ≤ L → 0 ≤ M → L + M = 1 → |l - L| ≤ u * L → |m - M| ≤ u * M →
      |F.sub l (F.mul m (F.cos θ')) - (L - M * Real.cos (2 * Real.pi * i / n))| ≤ windowGrowth u v t - 1 := by
    intro l m L M hL hM hLM hl hm
    have l1 : RApx (1 + u) l L L := RApx.mk' (by linarith) (by linarith) (by rw [abs_of_nonneg hL])
    have m1 : RApx (1 + u) m M M := RApx.mk' (by linarith) (by linarith) (by rw [abs_of_nonneg hM])
    have m2 := RApx.mul m1 c1 hu (hF.mul m (F.cos θ'))
    have l2 := Apx.mono l1 (show 1 + u ≤ (1 + u) * G * (1 + u) by
      nlinarith [mul_nonneg hu hu, mul_nonneg hu (by linarith : 0 ≤ G - 1)])
    have r := (RApx.add l2 m2.neg hu (c := F.sub l (F.mul m (F.cos θ')))
      (by rw [← sub_eq_add_neg]; exact hF.sub _ _)).abs_err
    rw [← sub_eq_add_neg, mul_one, hLM, mul_one] at r
    refine r.trans (le_of_eq ?_)
    unfold windowGrowth
    rw [← hG]; ring
  have hl : ∀ (m : ℤ) (e : ℕ), 0 ≤ (m : ℝ) / 10 ^ e → |F.lit m e - m / 10 ^ e| ≤ u * ((m : ℝ) / 10 ^ e) := by
    intro m e h
    have := hF.lit m e
    rwa [abs_of_nonneg h] at this
  constructor
  · have e3 : (hann n : List ℝ).getD i 0 = F.sub (F.lit 5 1) (F.mul (F.lit 5 1) (F.cos θ')) := by
      unfold hann hannAt
      rw [List.getD_eq_getElem _ _ (by simpa using hi)]
      simp [two, hθ]
    rw [e3]
    have h5 := hl 5 1 (by norm_num)
    rw [show ((5 : ℤ) : ℝ) / 10 ^ 1 = 1 / 2 by norm_num] at h5
    exact fin _ _ _ _ (by norm_num) (by norm_num) (by norm_num) h5 h5
  · have e3 : (hamming n : List ℝ).getD i 0 = F.sub (F.lit 54 2) (F.mul (F.lit 46 2) (F.cos θ')) := by
      unfold hamming hammingAt
      rw [List.getD_eq_getElem _ _ (by simpa using hi)]
      simp [two, hθ]
    rw [e3]
    have h5 := hl 54 2 (by norm_num)
    have h6 := hl 46 2 (by norm_num)
    rw [show ((54 : ℤ) : ℝ) / 10 ^ 2 = 0.54 by norm_num] at h5
    rw [show ((46 : ℤ) : ℝ) / 10 ^ 2 = 0.46 by norm_num] at h6
    exact fin _ _ _ _ (by norm_num) (by norm_num) (by norm_num) h5 h6

/-! ### How large the bounds are -/

omit F in
/-- The chirp transform loses at most `8 (n (k + 4) + 2)` units. -/
theorem cztGrowth_linear (hu : 0 ≤ u) (h : u ≤ 1 / 1000) (n k : ℕ) (hn : (n * (k + 4) + 2 : ℕ) * (4 * u) ≤ 1) :
    cztGrowth u n k - 1 ≤ 8 * (n * (k + 4) + 2) * u := by
  have hμ := mulErr_le hu h
  have hμ0 := mulErr_nonneg hu
  have ha : ainvGrowth u ≤ 1 + 4 * u := by
    unfold ainvGrowth
    rw [div_le_iff₀ (by nlinarith)]
    nlinarith [sq_nonneg u, mul_nonneg hu (sq_nonneg u)]
  have ha0 : 0 ≤ ainvGrowth u := by unfold ainvGrowth; exact div_nonneg (by linarith) (by nlinarith)
  have e : cztGrowth u n k ≤ (1 + 4 * u) ^ (n * (k + 4) + 2) := by
    unfold cztGrowth
    calc _ ≤ ((1 + 4 * u) ^ (k + 2) * (1 + 4 * u)) ^ n * (1 + 4 * u) * (1 + 4 * u) ^ (n + 1) := by
          gcongr <;> linarith
      _ = _ := by
          generalize 1 + 4 * u = q
          rw [← pow_succ, ← pow_mul, ← pow_succ, ← pow_add]
          congr 1; ring
  have := pow_growth_le (a := 4 * u) (by linarith) (n * (k + 4) + 2) hn
  push_cast at this ⊢
  linarith

omit F in
/-- In single precision the windows are accurate to `2⁻¹⁸`. -/
theorem windowGrowth_f32 : windowGrowth (1 / 2 ^ 24) (1 / 2 ^ 24) (1 / 2 ^ 24) - 1 ≤ 1 / 2 ^ 18 := by
  unfold windowGrowth
  have h1 : ((1 + 1 / 2 ^ 24 : ℝ)) ^ 4 * (1 + 1 / 2 ^ 24) / (1 - 1 / 2 ^ 24) - 1 ≤ 7 / 2 ^ 24 := by norm_num
  have h2 : (1 + 1 / 2 ^ 24 : ℝ) ^ 3 ≤ 1 + 4 / 2 ^ 24 := by norm_num
  have h0 : (0 : ℝ) ≤ (1 + 1 / 2 ^ 24) ^ 4 * (1 + 1 / 2 ^ 24) / (1 - 1 / 2 ^ 24) - 1 := by norm_num
  have hp : Real.pi ≤ 3.15 := Real.pi_lt_d2.le
  have hp0 := Real.pi_pos
  calc _ ≤ (1 + (1 / 2 ^ 24 + 7 / 2 ^ 24 * (2 * 3.15))) * (1 + 4 / 2 ^ 24) - (1 : ℝ) := by gcongr
    _ ≤ _ := by norm_num

/-- Non-vacuity: rounding arithmetics that meet the hypotheses, with inputs that meet them. -/
example (fused fma : Bool) :
    (∀ a b, (rndFlt 24 24 fused fma).feq a b = true ↔ a = b) ∧
    (∀ n : ℕ, |(rndFlt 24 24 fused fma).ofNatD n - n| ≤ 1 / 2 ^ 24 * n) ∧
    (1 + 1 / 2 ^ 24 : ℝ) ^ 2 < 2 ∧ toC (⟨0, 2⟩ : Cx ℝ) ≠ 0 ∧ (∃ k, [1, 2, 3, (4 : ℝ)].length = 2 ^ k) ∧
    Even [1, 2, 3, (4 : ℝ)].length := by
  refine ⟨fun a b => by show decide (a = b) = true ↔ a = b; simp, fun n => ?_, by norm_num, fun h => ?_, ⟨2, rfl⟩, ⟨2, rfl⟩⟩
  · have := rnd_close 24 (n : ℝ)
    rwa [abs_of_nonneg (by positivity : (0 : ℝ) ≤ (n : ℝ))] at this
  · have := congrArg Complex.im h
    simp [toC] at this

example (fused fma : Bool) (cfg : Cfg) : letI := rndFlt 24 24 fused fma
    ∃ y, hilbertAnalytic cfg [1, 2, 3, (4 : ℝ)] = .ok (.ok y) ∧ y.length = 4 := by
  letI := rndFlt 24 24 fused fma
  obtain ⟨y, h1, h2, -⟩ := hilbert_error (rndFlt_rounding 24 24 (by norm_num) (by norm_num) fused fma) cfg
    [1, 2, 3, (4 : ℝ)] ⟨2, rfl⟩
  exact ⟨y, h1, h2⟩

end Kofft.Props
