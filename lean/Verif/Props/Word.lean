import Verif.Proof.Word
import Verif.Proof.ChirpSum
import Verif.Props.Core
import Verif.Proof.Trig
/-
Property C70: pointer width. The only arithmetic on sizes that can exceed the machine word in an in-memory
transform is the square `i * i` of the chirp index.
-/
namespace Kofft.Props
open Spec Complex Finset

/-- C70a. On a target with `B`-bit `usize` whose arithmetic wraps, `fft` does exactly what it does with unbounded
integers, bit for bit and for every floating-point arithmetic: for lengths up to `2^(B/2)`, and for all powers of two
below `2^B`. In particular lengths up to 65536 on 32-bit and up to 2³² on 64-bit targets.
Missing: the other lengths, for which it is false (`fft_32bit_wrong`). -/
theorem fft_word_size_partial {T : Type} (F : Flt T) (B : Nat) (hB : 4 ≤ B) (cfg : Cfg) (x : List (Cx T))
    (hn : x.length ≤ 2 ^ (B / 2) ∨ ((∃ k, x.length = 2 ^ k) ∧ x.length < 2 ^ B)) :
    ∃ p p' y r, @fft T (F.wrap B) cfg Planner.new x = .ok (p, y, r) ∧
      @fft T F cfg Planner.new x = .ok (p', y, r) := by
  obtain ⟨p, y, e, -, -, h3, h4, -⟩ := @fft_run T (F.wrap B) cfg Planner.new x (@inv_new T (F.wrap B) cfg)
  obtain ⟨p', y', e', -, -, h3', h4', -⟩ := @fft_run T F cfg Planner.new x (@inv_new T F cfg)
  refine ⟨p, p', y, _, e, ?_⟩
  rw [e']
  rcases hr : fftRes cfg x.length with er | ok
  · rw [(h3 er hr).1, (h3' er hr).1]
  · rw [h4 hr (compat_new cfg _), h4' hr (compat_new cfg _),
      freshOut_wrap F B cfg x hB (hn.imp_right fun h => ⟨isPow2_iff.mpr h.1, h.2⟩)]

/-- C70b. The same for `ifft`. -/
theorem ifft_word_size_partial {T : Type} (F : Flt T) (B : Nat) (hB : 4 ≤ B) (cfg : Cfg) (x : List (Cx T))
    (hn : x.length ≤ 2 ^ (B / 2) ∨ ((∃ k, x.length = 2 ^ k) ∧ x.length < 2 ^ B)) :
    ∃ p p' y r, @ifft T (F.wrap B) cfg Planner.new x = .ok (p, y, r) ∧
      @ifft T F cfg Planner.new x = .ok (p', y, r) := by
  have h4 : 2 ^ (B / 2) < 2 ^ B := Nat.pow_lt_pow_right (by norm_num) (by omega)
  obtain ⟨p, e, -⟩ := @OpOk.run T (F.wrap B) cfg _ _ (@ifft_opOk T (F.wrap B) cfg) Planner.new x (@inv_new T (F.wrap B) cfg)
  obtain ⟨p', e', -⟩ := @OpOk.run T F cfg _ _ (@ifft_opOk T F cfg) Planner.new x (@inv_new T F cfg)
  refine ⟨p, p', _, _, e, e'.trans ?_⟩
  have key : @ifftBuf T F cfg Planner.new x = @ifftBuf T (F.wrap B) cfg Planner.new x := by
    unfold ifftBuf
    by_cases h01 : x.length = 0 ∨ x.length = 1
    · rw [if_pos h01, if_pos h01]
    · rw [if_neg h01, if_neg h01]
      rcases hr : fftRes cfg x.length with er | ok
      · rfl
      · have hl : (x.map (@Cx.conj T F)).length = x.length := List.length_map _
        have hr' : fftRes cfg (x.map (@Cx.conj T F)).length = .ok () := by rw [hl]; exact hr
        have a1 := @fftBuf_fresh T F cfg Planner.new (x.map (@Cx.conj T F)) (@inv_new T F cfg) hr'
          (compat_new cfg _)
        have a2 := @fftBuf_fresh T (F.wrap B) cfg Planner.new (x.map (@Cx.conj T F)) (@inv_new T (F.wrap B) cfg) hr'
          (compat_new cfg _)
        have a3 := freshOut_wrap F B cfg (x.map (@Cx.conj T F)) hB
          (by rw [hl]; exact hn.imp_right fun h => ⟨isPow2_iff.mpr h.1, h.2⟩)
        have a4 : x.length % 2 ^ B = x.length := Nat.mod_eq_of_lt (by omega)
        show (@fftBuf T F cfg Planner.new (x.map (@Cx.conj T F))).map
            (@ifftPost T F (F.div F.one (F.ofNat x.length))) =
          (@fftBuf T (F.wrap B) cfg Planner.new (x.map (@Cx.conj T F))).map
            (@ifftPost T F (F.div F.one (F.ofNat (x.length % 2 ^ B))))
        rw [a1, a2, a3, a4]
  rw [key]

/-- C70c. Hence, in exact arithmetic, `fft` is the DFT on such targets. -/
theorem fft_is_dft_word_partial (fma : Bool) (B : Nat) (hB : 4 ≤ B) (cfg : Cfg) (x : List (Cx ℝ)) (h0 : 0 < x.length)
    (hn : (cfg.std = true ∧ x.length ≤ 2 ^ (B / 2)) ∨ ((∃ k, x.length = 2 ^ k) ∧ x.length < 2 ^ B)) :
    ∃ p y, @fft ℝ ((realFlt fma).wrap B) cfg Planner.new x = .ok (p, y, .ok ()) ∧ IsDft x y := by
  let F := realFlt fma
  obtain ⟨p, p', y, r, e, e'⟩ := fft_word_size_partial F B hB cfg x (hn.imp_left (·.2))
  obtain ⟨p'', y'', e'', hd⟩ := fft_is_dft_used (realFlt_lawful fma) cfg x h0
    (hn.imp (·.1) (·.1)) Planner.new .new
  rw [e''] at e'
  cases e'
  exact ⟨p, _, e, hd⟩

example : ∃ x : List (Cx ℝ), x.length = 60000 ∧ x.length ≤ 2 ^ (32 / 2) :=
  ⟨tab 60000 fun _ => ⟨1, 0⟩, tab_length _ _, by rw [tab_length]; norm_num⟩

/-- The unit impulse at position 65536 of 100000. -/
noncomputable def wordImpulse : List (Cx ℝ) := tab 100000 fun r => if r = 65536 then ⟨1, 0⟩ else ⟨0, 0⟩

theorem wordImpulse_length : wordImpulse.length = 100000 := by rw [wordImpulse, tab_length]

theorem wordImpulse_getD [Flt ℝ] (r : ℕ) (hr : r < 100000) :
    toC (wordImpulse.getD r Cx.zero) = if r = 65536 then 1 else 0 := by
  rw [wordImpulse, tab_getD hr]
  by_cases h : r = 65536
  · rw [if_pos h, if_pos h]; rfl
  · rw [if_neg h, if_neg h]; rfl

theorem dft_wordImpulse : dft 100000 (sig wordImpulse) 65536 = W 100000 67296 := by
  let F := realFlt false
  unfold dft
  rw [sum_eq_single 65536]
  · rw [sig_eq (realFlt_lawful false), wordImpulse_getD _ (by norm_num), if_pos rfl, one_mul,
      ← W_mod (by norm_num) (65536 * 65536)]
  · intro r hr hne
    rw [mem_range] at hr
    rw [sig_eq (realFlt_lawful false), wordImpulse_getD _ hr, if_neg hne, zero_mul]
  · intro h; simp at h

/-- C70d. Negative: on a 32-bit target (for instance wasm32, release mode) the 100000-point `fft` of the impulse at
position 65536 gives exactly 1 in bin 65536, whose true value is `exp(-2πi·67296/100000)`: wrong by more than 1, with
otherwise exact arithmetic. -/
theorem fft_32bit_wrong (fma : Bool) (cfg : Cfg) (hstd : cfg.std = true) :
    ∃ p y, @fft ℝ ((realFlt fma).wrap 32) cfg Planner.new wordImpulse = .ok (p, y, .ok ()) ∧ sig y 65536 = 1 ∧
      1 ≤ ‖sig y 65536 - dft 100000 (sig wordImpulse) 65536‖ := by
  let F : Flt ℝ := (realFlt fma).wrap 32
  have hL := realFlt_lawful fma
  have hl := wordImpulse_length
  have hr : fftRes cfg wordImpulse.length = .ok () := fftRes_std hstd (by rw [hl]; norm_num)
  obtain ⟨p', e, h1, hly, -⟩ := (@fft_opOk ℝ F cfg).run Planner.new wordImpulse (inv_new cfg)
  rw [hr, fftBuf_fresh cfg _ _ (inv_new cfg) hr (compat_new cfg _)] at e
  rw [fftBuf_fresh cfg _ _ (inv_new cfg) hr (compat_new cfg _)] at hly
  have hm : bluM 100000 = 262144 := by
    unfold bluM nextPow2
    have h1 : Nat.clog 2 (2 * 100000 - 1) ≤ 18 := Nat.clog_le_of_le_pow (by norm_num)
    have h2 : 17 < Nat.clog 2 (2 * 100000 - 1) := (Nat.lt_clog_iff_pow_lt (by norm_num)).mpr (by norm_num)
    rw [show Nat.clog 2 (2 * 100000 - 1) = 18 by omega]
  have hnp : isPow2 100000 = false := by decide
  have hpow : ∀ y : List (Cx ℝ), y.length = bluM wordImpulse.length → ∀ k, k < y.length →
      toC ((freshPow cfg y).getD k Cx.zero) = dft y.length (fun t => toC (y.getD t Cx.zero)) k := by
    intro y hy k hk
    have hp : isPow2 y.length = true := by rw [hy]; exact bluM_pow2 _
    have hy' : y.length = 262144 := by rw [hy, hl, hm]
    rw [freshPow_wrap (realFlt fma) 32 cfg y (by rw [hy']; norm_num)]
    exact @freshPow_exact (realFlt fma) hL cfg y hp k hk
  have hrec : F.div F.one (F.ofNat (bluM wordImpulse.length)) = 1 / (bluM wordImpulse.length : ℝ) := by
    show (1 : ℝ) / ((bluM wordImpulse.length % 2 ^ 32 : ℕ) : ℝ) = _
    rw [hl, hm]; norm_num
  have hang : ∀ i, i = 0 ∨ i = 65536 → bluAngle (T := ℝ) 100000 i = 0 := by
    intro i hi
    show Real.pi * ((i * i % 2 ^ 32 : ℕ) : ℝ) / _ = 0
    have : i * i % 2 ^ 32 = 0 := by rcases hi with rfl | rfl <;> norm_num
    rw [this]; simp
  have hexp : toC (Cx.expi (0 : ℝ)) = 1 := by
    show toC ⟨Real.cos 0, Real.sin 0⟩ = 1
    apply Complex.ext <;> simp
  have hch : toC (chirpAt (T := ℝ) 100000 65536) = 1 := by
    rw [chirpAt, hang _ (Or.inr rfl)]
    show toC (Cx.expi (-0 : ℝ)) = 1
    rw [neg_zero]; exact hexp
  have hb0 : toC (bAt (T := ℝ) 100000 0) = 1 := by
    rw [bAt, if_pos (by norm_num), hang _ (Or.inl rfl)]; exact hexp
  have hy : sig (freshOut cfg wordImpulse) 65536 = 1 := by
    have hs : sig (freshOut cfg wordImpulse) 65536 = toC ((freshOut cfg wordImpulse).getD 65536 Cx.zero) := by
      have hlt : 65536 < (freshOut cfg wordImpulse).length := by rw [hly, hl]; norm_num
      rw [sig_get _ _ hlt, List.getD_eq_getElem _ _ hlt]
    rw [hs, freshOut, hl, if_neg (by rw [hnp]; simp)]
    have := bluOut_chirps_gen cfg wordImpulse hpow (@toC_mul (realFlt fma) hL) (@toC_conj (realFlt fma) hL)
      (@toC_zero (realFlt fma) hL) (fun _ _ => rfl) hrec 65536 (by rw [hl]; norm_num)
    rw [hl, hm] at this
    rw [this, hch, mul_one, sum_eq_single 65536]
    · rw [wordImpulse_getD _ (by norm_num), if_pos rfl, hch]
      rw [show (65536 + (262144 - 65536)) % 262144 = 0 by norm_num, hb0]; norm_num
    · intro r hr hne
      rw [wordImpulse_getD _ (mem_range.mp hr), if_neg hne]; ring
    · intro h; simp at h
  refine ⟨p', _, e, hy, ?_⟩
  rw [hy, dft_wordImpulse]
  have hre : |(1 - W 100000 67296).re| ≤ ‖1 - W 100000 67296‖ := Complex.abs_re_le_norm _
  refine le_trans ?_ hre
  rw [W_eq_cos]
  have e1 : -2 * Real.pi * (67296 : ℕ) / ((100000 : ℕ) : ℝ) = -(Real.pi * 1.34592) := by push_cast; ring
  have hc : Real.cos (Real.pi * 1.34592) ≤ 0 := by
    apply Real.cos_nonpos_of_pi_div_two_le_of_le <;> nlinarith [Real.pi_pos]
  simp only [e1, Complex.sub_re, Complex.one_re, Real.cos_neg]
  exact le_trans (by linarith) (le_abs_self _)

/-! ### The discrete Hartley transform -/

/-- C70e. The discrete Hartley transform converts the product `i * k`: on a `B`-bit target it does what it does with
unbounded integers, bit for bit, when `(n - 1)²` fits in a word.
Missing: the longer inputs, for which it is false (`dht_32bit_wrong`). -/
theorem dht_word_size_partial {T : Type} (F : Flt T) (B : Nat) (x : List T) (hn : x.length < 2 ^ B)
    (hsq : (x.length - 1) * (x.length - 1) < 2 ^ B) : @dht T (F.wrap B) x = @dht T F x := by
  unfold dht fillOut
  have hl : (List.replicate x.length (@Flt.zero T F)).length = x.length := List.length_replicate
  show forRange 0 (List.replicate x.length (@Flt.zero T F)).length (List.replicate x.length (@Flt.zero T F))
    (fun k o => @dhtAt T (F.wrap B) x k >>= fun v => wr o k v) = _
  refine forRange_congr fun k o _ hk => ?_
  rw [hl] at hk
  have : @dhtAt T (F.wrap B) x k = @dhtAt T F x k := by
    unfold dhtAt accum
    refine forRange_congr fun i s _ hi => ?_
    have h1 : i * k ≤ (x.length - 1) * (x.length - 1) := Nat.mul_le_mul (by omega) (by omega)
    show (rd x i >>= fun x' => pure (F.add s (F.mul x' (F.add
      (F.cos (F.mul (F.div (F.mul (@two T F) F.pi) (F.ofNat (x.length % 2 ^ B))) (F.ofNat (i * k % 2 ^ B))))
      (F.sin (F.mul (F.div (F.mul (@two T F) F.pi) (F.ofNat (x.length % 2 ^ B))) (F.ofNat (i * k % 2 ^ B)))))))) = _
    rw [Nat.mod_eq_of_lt hn, Nat.mod_eq_of_lt (by omega : i * k < 2 ^ B)]
  rw [this]

example : ∃ x : List ℝ, x.length = 60000 ∧ x.length < 2 ^ 32 ∧ (x.length - 1) * (x.length - 1) < 2 ^ 32 :=
  ⟨tab 60000 fun _ => 1, tab_length _ _, by rw [tab_length]; norm_num, by rw [tab_length]; norm_num⟩

/-- The unit impulse at position 65536 of 100000. -/
noncomputable def wordImpulseR : List ℝ := tab 100000 fun r => if r = 65536 then 1 else 0

theorem cas_neg : Real.cos (Real.pi * 1.34592) + Real.sin (Real.pi * 1.34592) ≤ 0 := by
  have hc : Real.cos (Real.pi * 1.34592) ≤ 0 := by
    apply Real.cos_nonpos_of_pi_div_two_le_of_le <;> nlinarith [Real.pi_pos]
  have hs : Real.sin (Real.pi * 1.34592) ≤ 0 := by
    rw [show Real.pi * 1.34592 = Real.pi * 0.34592 + Real.pi by ring, Real.sin_add_pi]
    have := Real.sin_nonneg_of_nonneg_of_le_pi (x := Real.pi * 0.34592) (by nlinarith [Real.pi_pos])
      (by nlinarith [Real.pi_pos])
    linarith
  linarith

/-- C70f. Negative: on a 32-bit target the 100000-point discrete Hartley transform of the impulse at position 65536 has
1 in bin 65536, whose true value is at most 0. -/
theorem dht_32bit_wrong (fma : Bool) :
    ∃ y, @dht ℝ ((realFlt fma).wrap 32) wordImpulseR = .ok y ∧ y.getD 65536 0 = 1 ∧
      hartley 100000 (fun t => wordImpulseR.getD t 0) 65536 ≤ 0 := by
  have hL := realFlt_lawful fma
  have hl : wordImpulseR.length = 100000 := by rw [wordImpulseR, tab_length]
  have hg : ∀ t, t < 100000 → wordImpulseR.getD t 0 = if t = 65536 then 1 else 0 := fun t ht => by
    rw [wordImpulseR, tab_getD ht]
  have hat : ∀ k, @dhtAt ℝ ((realFlt fma).wrap 32) wordImpulseR k =
      .ok (∑ i ∈ Ico 0 100000, wordImpulseR.getD i 0 *
        (Real.cos (2 * Real.pi / ((100000 % 2 ^ 32 : ℕ) : ℝ) * ((i * k % 2 ^ 32 : ℕ) : ℝ)) +
          Real.sin (2 * Real.pi / ((100000 % 2 ^ 32 : ℕ) : ℝ) * ((i * k % 2 ^ 32 : ℕ) : ℝ)))) := fun k => by
    have e : @dhtAt ℝ ((realFlt fma).wrap 32) wordImpulseR k =
        @accum ℝ (realFlt fma) wordImpulseR 0 wordImpulseR.length 0 (fun i x => x *
          (Real.cos ((@two ℝ (realFlt fma) * Real.pi) / ((wordImpulseR.length % 2 ^ 32 : ℕ) : ℝ) * ((i * k % 2 ^ 32 : ℕ) : ℝ)) +
          Real.sin ((@two ℝ (realFlt fma) * Real.pi) / ((wordImpulseR.length % 2 ^ 32 : ℕ) : ℝ) * ((i * k % 2 ^ 32 : ℕ) : ℝ)))) := rfl
    rw [e, @accum_real (realFlt fma) hL _ _ _ _ _ (by omega) (by omega), @two_real (realFlt fma) hL, hl, zero_add]
  obtain ⟨y, ey, hy⟩ : ∃ y, @dht ℝ ((realFlt fma).wrap 32) wordImpulseR = .ok y ∧ y.getD 65536 0 = 1 := by
    refine ⟨_, @fillOut_ok ℝ ((realFlt fma).wrap 32) _ _ _ (fun k _ => hat k), ?_⟩
    rw [List.length_replicate, hl, tab_getD (by norm_num), sum_eq_single 65536]
    · rw [hg _ (by norm_num), if_pos rfl, show (65536 * 65536 % 2 ^ 32 : ℕ) = 0 by norm_num]
      simp
    · intro i hi hne
      rw [hg _ (by simpa using hi), if_neg hne, zero_mul]
    · intro h; simp at h
  refine ⟨y, ey, hy, ?_⟩
  unfold hartley
  rw [sum_eq_single 65536]
  · simp only []
    rw [hg _ (by norm_num), if_pos rfl, one_mul]
    obtain ⟨m, hm⟩ : ∃ m : ℕ, (m : ℝ) = 42949 := ⟨42949, Nat.cast_ofNat⟩
    obtain ⟨a, ha⟩ : ∃ a : ℝ, a = 65536 := ⟨_, rfl⟩
    obtain ⟨b, hb⟩ : ∃ b : ℝ, b = 100000 := ⟨_, rfl⟩
    simp only [Nat.cast_ofNat]
    rw [← ha, ← hb]
    have e1 : 2 * Real.pi * a * a / b = Real.pi * 1.34592 + (m : ℝ) * (2 * Real.pi) := by
      rw [ha, hb, hm]; ring
    rw [e1, Real.cos_add_nat_mul_two_pi, Real.sin_add_nat_mul_two_pi]
    exact cas_neg
  · intro i hi hne
    simp only []
    rw [hg _ (by simpa using hi), if_neg hne, zero_mul]
  · intro h; simp at h

end Kofft.Props
