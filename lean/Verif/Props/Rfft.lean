import Verif.Proof.RfftStack
import Verif.Props.Core
/-
Properties C24-C28: real FFT.
-/
namespace Kofft.Props
open Spec

/-! ### The scalar transformer satisfies the length contract -/

theorem opLen_fft {T : Type} [Flt T] {cfg : Cfg} {p : Planner T} (hp : Reach cfg p) : OpLen (fft cfg) p := by
  intro x p' y r e
  obtain ⟨p1, e1, -, h2, -⟩ := (fft_opOk cfg).run p x (reach_inv hp)
  rw [e] at e1; cases e1; exact h2

theorem opLen_ifft {T : Type} [Flt T] {cfg : Cfg} {p : Planner T} (hp : Reach cfg p) : OpLen (ifft cfg) p := by
  intro x p' y r e
  obtain ⟨p1, e1, -, h2, -⟩ := (ifft_opOk cfg).run p x (reach_inv hp)
  rw [e] at e1; cases e1; exact h2

private theorem rfft_run [F : Flt ℝ] (hF : Lawful F) (cfg : Cfg) (simd : Bool) (un : ℕ → Cx ℝ)
    (x : List ℝ) (m : ℕ) (hm : 0 < m) (hx : x.length = 2 * m)
    (hn : cfg.std = true ∨ ∃ k, m = 2 ^ k) (p : Planner ℝ)
    (hp : ReachVia cfg (fun l => workSize l ≤ workSize m) p) (out : List (Cx ℝ)) (ho : out.length = m + 1) :
    ∃ p' y, rfft simd (fft cfg) un p x out = .ok (p', y, .ok ()) ∧ IsRdft x y ∧
      ReachVia cfg (fun l => workSize l ≤ workSize m) p' := by
  have hl : (packed x).length = m := by unfold packed; rw [tab_length]; omega
  obtain ⟨p', y, e, hd⟩ := fft_is_dft_used hF cfg (packed x) (by omega) (by rw [hl]; exact hn) p
    (by rw [hl]; exact hp)
  refine ⟨p', rfftPost (rBinOf simd) y, ?_, ?_, ?_⟩
  · rw [rfft_val simd (fft cfg) un p (opLen_fft (Kofft.ReachVia.mono (fun _ _ => trivial) hp)) x out]
    unfold rfftVal
    simp only [show ¬ x.length = 0 by omega, show ¬ x.length % 2 ≠ 0 by omega,
      show ¬ out.length ≠ x.length / 2 + 1 by omega, if_false, e, Outcome.bind_ok]
  · exact rfftPost_isRdft hF _ (rBinOf_exact hF simd) x m hm hx y hd
  · exact .fft hp (by rw [hl]) e

/-- C24: `rfft` of a real signal of even length `N = 2m` writes bins `0 ..= N/2` of its DFT, for either
kernel (direct or SIMD), whatever the uninitialised scratch memory holds, on a fresh transformer or one
that has not run larger transforms. -/
theorem rfft_is_half_dft [F : Flt ℝ] (hF : Lawful F) (cfg : Cfg) (simd : Bool) (un : ℕ → Cx ℝ)
    (x : List ℝ) (m : ℕ) (hm : 0 < m) (hx : x.length = 2 * m)
    (hn : cfg.std = true ∨ ∃ k, m = 2 ^ k) (p : Planner ℝ)
    (hp : ReachVia cfg (fun l => workSize l ≤ workSize m) p) (out : List (Cx ℝ)) (ho : out.length = m + 1) :
    ∃ p' y, rfft simd (fft cfg) un p x out = .ok (p', y, .ok ()) ∧ IsRdft x y := by
  obtain ⟨p', y, e, h, -⟩ := rfft_run hF cfg simd un x m hm hx hn p hp out ho
  exact ⟨p', y, e, h⟩

/-- C24: totality and error codes of `rfft`, any arithmetic, any history of the transformer. -/
theorem rfft_total {T : Type} [Flt T] (cfg : Cfg) (simd : Bool) (un : ℕ → Cx T) (x : List T) (p : Planner T)
    (hp : Reach cfg p) (out : List (Cx T)) :
    ∃ p' y r, rfft simd (fft cfg) un p x out = .ok (p', y, r) ∧ y.length = out.length ∧
      (r = .error .EmptyInput ↔ x.length = 0) ∧
      (r = .error .InvalidValue ↔ x.length % 2 = 1) ∧
      (r = .error .MismatchedLengths ↔ x.length ≠ 0 ∧ x.length % 2 = 0 ∧ out.length ≠ x.length / 2 + 1) ∧
      (r = .error .NonPowerOfTwoNoStd ↔ x.length ≠ 0 ∧ x.length % 2 = 0 ∧ out.length = x.length / 2 + 1 ∧
        cfg.std = false ∧ ¬ ∃ k, x.length / 2 = 2 ^ k) ∧
      (r = .error .EmptyInput ∨ r = .error .InvalidValue ∨ r = .error .MismatchedLengths → y = out) ∧
      (r = .ok () ∨ r = .error .EmptyInput ∨ r = .error .InvalidValue ∨ r = .error .MismatchedLengths ∨
        r = .error .NonPowerOfTwoNoStd) := by
  rw [rfft_val simd (fft cfg) un p (opLen_fft hp) x out]
  unfold rfftVal
  by_cases h0 : x.length = 0
  · exact ⟨p, out, .error .EmptyInput, by simp [h0], rfl, by simp [h0], by simp [h0], by simp [h0],
      by simp [h0], fun _ => rfl, by simp⟩
  by_cases h1 : x.length % 2 = 1
  · refine ⟨p, out, .error .InvalidValue, by simp [h0, h1], rfl, by simp [h0], by simp [h1], ?_, ?_, fun _ => rfl, by simp⟩
    · simp [h1]
    · simp [h1]
  by_cases h2 : out.length = x.length / 2 + 1
  swap
  · exact ⟨p, out, .error .MismatchedLengths, by simp [h0, show x.length % 2 = 0 by omega, h2], rfl,
      by simp [h0], by simp [show x.length % 2 = 0 by omega], by simp [h0, show x.length % 2 = 0 by omega, h2],
      by simp [h2], fun _ => rfl, by simp⟩
  have hl : (packed x).length = x.length / 2 := by unfold packed; rw [tab_length]
  have h1' : x.length % 2 = 0 := by omega
  obtain ⟨p', e, -, hlen, -⟩ := (fft_opOk cfg).run p (packed x) (reach_inv hp)
  rw [hl] at e hlen
  simp only [h0, h1', h2, ne_eq, not_true, if_false, e, Outcome.bind_ok]
  have hm : x.length / 2 ≠ 0 := by omega
  by_cases hs : cfg.std = false ∧ isPow2 (x.length / 2) = false
  · have hr : fftRes cfg (x.length / 2) = .error .NonPowerOfTwoNoStd := by
      unfold fftRes; simp [hm, hs.1, hs.2]
    rw [hr]
    refine ⟨p', _, _, rfl, ?_, by simp, by simp, by simp [h1'], ?_, by simp, by simp⟩
    · simp [hlen, h2]
    · simp only [true_iff]
      refine ⟨not_false, trivial, trivial, hs.1, ?_⟩
      rw [← isPow2_iff, hs.2]; simp
  · have hr : fftRes cfg (x.length / 2) = .ok () := by
      by_cases hstd : cfg.std = true
      · exact fftRes_std hstd (by omega)
      · apply fftRes_pow2
        by_contra hc
        exact hs ⟨by simpa using hstd, by simpa using hc⟩
    rw [hr]
    refine ⟨p', _, _, rfl, ?_, by simp [h0], by simp, by simp, ?_, by simp, by simp⟩
    · unfold rfftPost; rw [tab_length, hlen]
    · simp only [reduceCtorEq, false_iff]
      rintro ⟨-, -, -, a, b⟩
      rw [← isPow2_iff] at b
      exact hs ⟨a, by simpa using b⟩

/-- C25 (general form): `irfft` of any half spectrum is the inverse DFT of its conjugate-symmetric
extension. -/
theorem irfft_is_inverse_dft [F : Flt ℝ] (hF : Lawful F) (cfg : Cfg) (simd : Bool) (un : ℕ → Cx ℝ)
    (X : List (Cx ℝ)) (m : ℕ) (hm : 0 < m) (hX : X.length = m + 1)
    (hn : cfg.std = true ∨ ∃ k, m = 2 ^ k) (p : Planner ℝ)
    (hp : ReachVia cfg (fun l => workSize l ≤ workSize m) p) (out : List ℝ) (ho : out.length = 2 * m) :
    ∃ p' y, irfft simd (ifft cfg) un p X out = .ok (p', y, .ok ()) ∧ y.length = 2 * m ∧ IsIrdft X y := by
  have hl := irfftPre_length (irBinOf simd) m X
  obtain ⟨p', y, e, hd⟩ := ifft_is_idft hF cfg (irfftPre (irBinOf simd) m X) (by omega) (by rw [hl]; exact hn) p
    (by rw [hl]; exact hp)
  obtain ⟨h1, h2⟩ := unpacked_isIrdft hF _ (irBinOf_exact hF simd) m hm X hX y hd
  refine ⟨p', unpacked y, ?_, h1, h2⟩
  rw [irfft_val simd (ifft cfg) un p (opLen_ifft (Kofft.ReachVia.mono (fun _ _ => trivial) hp)) X out]
  unfold irfftVal
  simp only [show ¬ out.length = 0 by omega, show ¬ out.length % 2 ≠ 0 by omega,
      show ¬ X.length ≠ m + 1 by omega, if_false, show out.length / 2 = m by omega, e,
      Outcome.bind_ok]

/-- C25: totality and error codes of `irfft`, any arithmetic, any history of the transformer. Every error leaves the output
as it was. -/
theorem irfft_total {T : Type} [Flt T] (cfg : Cfg) (simd : Bool) (un : ℕ → Cx T) (X : List (Cx T)) (p : Planner T)
    (hp : Reach cfg p) (out : List T) :
    ∃ p' y r, irfft simd (ifft cfg) un p X out = .ok (p', y, r) ∧ y.length = out.length ∧
      (r = .error .EmptyInput ↔ out.length = 0) ∧
      (r = .error .InvalidValue ↔ out.length % 2 = 1) ∧
      (r = .error .MismatchedLengths ↔ out.length ≠ 0 ∧ out.length % 2 = 0 ∧ X.length ≠ out.length / 2 + 1) ∧
      (r = .error .NonPowerOfTwoNoStd ↔ out.length ≠ 0 ∧ out.length % 2 = 0 ∧ X.length = out.length / 2 + 1 ∧
        cfg.std = false ∧ ¬ ∃ k, out.length / 2 = 2 ^ k) ∧
      (r ≠ .ok () → y = out) ∧
      (r = .ok () ∨ r = .error .EmptyInput ∨ r = .error .InvalidValue ∨ r = .error .MismatchedLengths ∨
        r = .error .NonPowerOfTwoNoStd) := by
  rw [irfft_val simd (ifft cfg) un p (opLen_ifft hp) X out]
  unfold irfftVal
  by_cases h0 : out.length = 0
  · exact ⟨p, out, .error .EmptyInput, by simp [h0], rfl, by simp [h0], by simp [h0], by simp [h0],
      by simp [h0], fun _ => rfl, by simp⟩
  by_cases h1 : out.length % 2 = 1
  · refine ⟨p, out, .error .InvalidValue, by simp [h0, h1], rfl, by simp [h0], by simp [h1], ?_, ?_, fun _ => rfl, by simp⟩
    · simp [h1]
    · simp [h1]
  by_cases h2 : X.length = out.length / 2 + 1
  swap
  · exact ⟨p, out, .error .MismatchedLengths, by simp [h0, show out.length % 2 = 0 by omega, h2], rfl,
      by simp [h0], by simp [show out.length % 2 = 0 by omega], by simp [h0, show out.length % 2 = 0 by omega, h2],
      by simp [h2], fun _ => rfl, by simp⟩
  have hl := irfftPre_length (irBinOf simd) (out.length / 2) X
  have h1' : out.length % 2 = 0 := by omega
  obtain ⟨p', e, -, hlen, -⟩ := (ifft_opOk cfg).run p (irfftPre (irBinOf simd) (out.length / 2) X) (reach_inv hp)
  rw [hl] at e hlen
  simp only [h0, h1', h2, ne_eq, not_true, if_false, e, Outcome.bind_ok]
  have hm : out.length / 2 ≠ 0 := by omega
  by_cases hs : cfg.std = false ∧ isPow2 (out.length / 2) = false
  · have hr : fftRes cfg (out.length / 2) = .error .NonPowerOfTwoNoStd := by
      unfold fftRes; simp [hm, hs.1, hs.2]
    rw [hr]
    refine ⟨p', _, _, rfl, rfl, by simp, by simp, by simp, ?_, by simp, by simp⟩
    simp only [true_iff]
    refine ⟨not_false, trivial, trivial, hs.1, ?_⟩
    rw [← isPow2_iff, hs.2]; simp
  · have hr : fftRes cfg (out.length / 2) = .ok () := by
      by_cases hstd : cfg.std = true
      · exact fftRes_std hstd (by omega)
      · apply fftRes_pow2
        by_contra hc
        exact hs ⟨by simpa using hstd, by simpa using hc⟩
    rw [hr]
    refine ⟨p', _, _, rfl, ?_, by simp, by simp, by simp, ?_, by simp, by simp⟩
    · unfold unpacked; rw [tab_length, hlen]; omega
    · simp only [reduceCtorEq, false_iff]
      rintro ⟨-, -, -, a, b⟩
      rw [← isPow2_iff] at b
      exact hs ⟨a, by simpa using b⟩

/-- C25: `irfft` after `rfft` on the same transformer returns the signal. -/
theorem irfft_rfft_id [F : Flt ℝ] (hF : Lawful F) (cfg : Cfg) (simd : Bool) (un un' : ℕ → Cx ℝ)
    (x : List ℝ) (m : ℕ) (hm : 0 < m) (hx : x.length = 2 * m)
    (hn : cfg.std = true ∨ ∃ k, m = 2 ^ k) (p : Planner ℝ)
    (hp : ReachVia cfg (fun l => workSize l ≤ workSize m) p) (out : List (Cx ℝ)) (ho : out.length = m + 1)
    (out' : List ℝ) (ho' : out'.length = 2 * m) :
    ∃ p1 X p2, rfft simd (fft cfg) un p x out = .ok (p1, X, .ok ()) ∧
      irfft simd (ifft cfg) un' p1 X out' = .ok (p2, x, .ok ()) := by
  obtain ⟨p1, X, e1, h1, hp1⟩ := rfft_run hF cfg simd un x m hm hx hn p hp out ho
  obtain ⟨p2, y, e2, hl, h2⟩ := irfft_is_inverse_dft hF cfg simd un' X m hm (by rw [h1.1]; omega) hn p1 hp1 out' ho'
  rw [rdft_irdft h1 h2 (by omega)] at e2
  exact ⟨p1, X, p2, e1, e2⟩

/-- C26: whatever a planner was used for before, `rfft` through it gives exactly the transformer state,
output and result of `rfft` without a planner; likewise for caller-supplied scratch of any contents and
any sufficient length. Any arithmetic, any transformer. -/
theorem rfft_planner_transparent {T : Type} [Flt T] (simd : Bool) (rp : RfftPlanner T) (hrp : RReach simd rp)
    {S : Type} (op : StOp S T) (s : S) (hop : OpLen op s) (un : ℕ → Cx T) (x : List T) (out : List (Cx T)) :
    ((rp.rfft simd op s x out) >>= fun v => .ok v.2) = rfft simd op un s x out ∧
    (∀ scratch : List (Cx T), x.length / 2 ≤ scratch.length →
      ((rp.rfftWithScratch simd op s x out scratch) >>= fun v => .ok (v.2.1, v.2.2.1, v.2.2.2.2)) =
        rfft simd op un s x out) ∧
    (∀ scratch : List (Cx T), x.length / 2 ≤ scratch.length →
      ((rfftWithScratch simd op s x out scratch) >>= fun v => .ok (v.1, v.2.1, v.2.2.2)) =
        rfft simd op un s x out) := by
  rw [rfft_val simd op un s hop]
  exact ⟨plannerRfft_val simd rp (rreach_inv hrp) op s hop x out,
    fun sc h => plannerRfftWS_val simd rp (rreach_inv hrp) op s hop x out sc h,
    fun sc h => rfftWS_val simd op s hop x out sc h⟩

/-- C26 for `irfft`. -/
theorem irfft_planner_transparent {T : Type} [Flt T] (simd : Bool) (rp : RfftPlanner T) (hrp : RReach simd rp)
    {S : Type} (op : StOp S T) (s : S) (hop : OpLen op s) (un : ℕ → Cx T) (X : List (Cx T)) (out : List T) :
    ((rp.irfft simd op s X out) >>= fun v => .ok v.2) = irfft simd op un s X out ∧
    (∀ scratch : List (Cx T), out.length / 2 ≤ scratch.length →
      ((rp.irfftWithScratch simd op s X out scratch) >>= fun v => .ok (v.2.1, v.2.2.1, v.2.2.2.2)) =
        irfft simd op un s X out) ∧
    (∀ scratch : List (Cx T), out.length / 2 ≤ scratch.length →
      ((irfftWithScratch simd op s X out scratch) >>= fun v => .ok (v.1, v.2.1, v.2.2.2)) =
        irfft simd op un s X out) := by
  rw [irfft_val simd op un s hop]
  exact ⟨plannerIrfft_val simd rp (rreach_inv hrp) op s hop X out,
    fun sc h => plannerIrfftWS_val simd rp (rreach_inv hrp) op s hop X out sc h,
    fun sc h => irfftWS_val simd op s hop X out sc h⟩

/-- C26: a planner always exists and its tables hold `exp(-πi k / m)`, `k < m`, in exact arithmetic, whatever
was requested before. -/
theorem rfft_tables [F : Flt ℝ] (hF : Lawful F) (simd : Bool) (rp : RfftPlanner ℝ) (hrp : RReach simd rp)
    (m : ℕ) (hm : 0 < m) :
    ∃ rp' t, rp.getTwiddles m = .ok (rp', t) ∧ t.length = m ∧ ∀ k, k < m → sig t k = W (2 * m) k := by
  obtain ⟨rp', e, -, -⟩ := getTwiddles_ok rp (rreach_inv hrp) m
  refine ⟨rp', _, e, by simp, ?_⟩
  intro k hk
  rw [sig_get _ _ (by simpa using hk), tab_getElem, rtw_exact hF (by omega)]

/-- C26: too little caller-supplied scratch is reported, nothing is written. -/
theorem rfft_short_scratch {T : Type} [Flt T] (simd : Bool) (rp : RfftPlanner T) (hrp : RReach simd rp)
    {S : Type} (op : StOp S T) (s : S) (x : List T) (out scratch : List (Cx T)) (X : List (Cx T)) (o : List T)
    (h0 : x.length ≠ 0) (h1 : x.length % 2 = 0) (h2 : scratch.length < x.length / 2)
    (g : o.length = x.length) :
    (∃ rp', rp.rfftWithScratch simd op s x out scratch =
      .ok (rp', s, out, scratch, .error .MismatchedLengths)) ∧
    (∃ rp', rp.irfftWithScratch simd op s X o scratch =
      .ok (rp', s, o, scratch, .error .MismatchedLengths)) := by
  constructor
  · obtain ⟨rp', -, -, e⟩ := plannerRfftWS_eq simd rp (rreach_inv hrp) op s x out scratch
    exact ⟨rp', by rw [e]; simp [rfftDirect, h0, h1, h2]⟩
  · obtain ⟨rp', -, -, e⟩ := plannerIrfftWS_eq simd rp (rreach_inv hrp) op s X o scratch
    exact ⟨rp', by rw [e]; simp [irfftDirect, g, h0, h1, h2]⟩

/-- C27: `rfft_packed` returns bit for bit what the direct kernel returns: same transformer state, same
result, same output on success (on failure of the inner transform it leaves the output alone). -/
theorem rfft_packed_same {T : Type} [Flt T] (simd : Bool) (rp : RfftPlanner T) (hrp : RReach simd rp) {S : Type}
    (op : StOp S T) (s : S) (hop : OpLen op s) (un : ℕ → Cx T) (x : List T) (out scratch : List (Cx T))
    (hs : x.length / 2 ≤ scratch.length) :
    ((rfftPacked rp op s x out scratch) >>= fun v => .ok (v.2.1, v.2.2.1, v.2.2.2.2)) =
      (rfft false op un s x out >>= fun v => .ok (v.1, match v.2.2 with
        | .error _ => (out, v.2.2) | .ok _ => v.2)) := by
  rw [rfft_val false op un s hop]
  exact rfftPacked_val rp (rreach_inv hrp) op s hop x out scratch hs

/-- C27: `irfft_packed` likewise. -/
theorem irfft_packed_same {T : Type} [Flt T] (simd : Bool) (rp : RfftPlanner T) (hrp : RReach simd rp) {S : Type}
    (op : StOp S T) (s : S) (hop : OpLen op s) (un : ℕ → Cx T) (X : List (Cx T)) (out : List T)
    (scratch : List (Cx T)) (hs : out.length / 2 ≤ scratch.length) :
    ((irfftPacked rp op s X out scratch) >>= fun v => .ok (v.2.1, v.2.2.1, v.2.2.2.2)) =
      irfft false op un s X out := by
  rw [irfft_val false op un s hop]
  exact irfftPacked_val rp (rreach_inv hrp) op s hop X out scratch hs

/-- C27: the SIMD kernels return bit for bit what the direct ones return, in every arithmetic with commutative
addition and multiplication where subtracting is adding the negative, as long as the complex product is not
fused. (IEEE arithmetic has these laws, up to NaN payloads.) -/
theorem rfft_simd_same {T : Type} [Flt T] (hfma : Flt.fma T = false)
    (cm : ∀ a b : T, a *. b = b *. a) (ca : ∀ a b : T, a +. b = b +. a)
    (sn : ∀ a b : T, a +. (-. b) = a -. b) (sp : ∀ a b : T, a -. (-. b) = a +. b)
    {S : Type} (op : StOp S T) (un : ℕ → Cx T) (s : S) :
    (∀ x out, rfft true op un s x out = rfft false op un s x out) ∧
    (∀ X out, irfft true op un s X out = irfft false op un s X out) := by
  have e1 : (rBinSimd : Cx T → Cx T → Cx T → Cx T) = rBin := by
    funext w a c
    unfold rBinSimd rBin
    simp only [Cx.mul, hfma, Cx.mulPlain, Cx.add, Cx.sub, Bool.false_eq_true, if_false, sn,
      cm (a.re -. c.re), cm (a.im -. _)]
    rw [ca (w.im *. _)]
  have e2 : (irBinSimd : Cx T → Cx T → Cx T → Cx T) = irBin := by
    funext w a c
    unfold irBinSimd irBin
    simp only [Cx.mul, hfma, Cx.mulPlain, Cx.add, Cx.sub, Bool.false_eq_true, if_false, sn, sp,
      cm (a.re -. c.re), cm (a.im +. _)]
    rw [ca ((-. w.im) *. _)]
  have f1 : (rBinOf true : Cx T → Cx T → Cx T → Cx T) = rBinOf false := e1
  have f2 : (irBinOf true : Cx T → Cx T → Cx T → Cx T) = irBinOf false := e2
  constructor
  · intro x out
    unfold rfft rfftWithScratch RfftPlanner.rfftWithScratch
    rw [f1]
  · intro x out
    unfold irfft irfftWithScratch RfftPlanner.irfftWithScratch
    rw [f2]

/-! ### C28: stack variants -/

/-- C28: `rfft_stack` on `N = 2^k` samples writes bins `0 ..= N/2` of the DFT. -/
theorem rfft_stack_is_half_dft [F : Flt ℝ] (hF : Lawful F) (x : List ℝ) (hx : ∃ k, x.length = 2 ^ k)
    (out : List (Cx ℝ)) (ho : out.length = x.length / 2 + 1) :
    ∃ y, rfftStack x out = .ok (y, .ok ()) ∧ IsRdft x y := by
  have h0 : x.length ≠ 0 := by
    obtain ⟨k, hk⟩ := hx
    have := Nat.pow_pos (n := k) (show 0 < 2 by norm_num)
    omega
  obtain ⟨y, e, h1, h2⟩ := fft_stack_is_dft hF (x.map fun v => (⟨v, Flt.zero⟩ : Cx ℝ)) (by simpa using hx)
  rw [List.length_map] at h1 h2
  refine ⟨_, rfftStack_eq x out h0 ho e h1, ?_, ?_⟩
  · show (y.take (x.length / 2 + 1)).length = _
    rw [List.length_take, h1]; omega
  · intro k hk
    show sig (y.take (x.length / 2 + 1)) k = _
    rw [sig_get _ _ (by rw [List.length_take, h1]; omega), List.getElem_take, ← sig_get _ _ (by omega),
      h2 k (by omega)]
    apply dft_congr
    intro t ht
    rw [sig_get _ _ (by simpa using ht)]
    simp only [List.getElem_map]
    apply Complex.ext <;> simp [toC, rsig, ht, List.getD_eq_getElem?_getD, hF.zero]

/-- C28: `irfft_stack` on `N = 2^k` returns the inverse DFT of the conjugate-symmetric extension. -/
theorem irfft_stack_is_inverse_dft [F : Flt ℝ] (hF : Lawful F) (X : List (Cx ℝ)) (out : List ℝ)
    (hx : ∃ k, out.length = 2 ^ k) (hX : X.length = out.length / 2 + 1) :
    ∃ y, irfftStack X out = .ok (y, .ok ()) ∧ y.length = out.length ∧ IsIrdft X y := by
  have h0 : out.length ≠ 0 := by
    obtain ⟨k, hk⟩ := hx
    have := Nat.pow_pos (n := k) (show 0 < 2 by norm_num)
    omega
  have he : out.length = 1 ∨ out.length % 2 = 0 := by
    obtain ⟨k, hk⟩ := hx
    rcases k with _ | k
    · left; simpa using hk
    · right; rw [hk, pow_succ]; omega
  have hl : (hermBuf out.length X).length = out.length := by simp [hermBuf]
  obtain ⟨y, e, h1, h2⟩ := ifft_stack_is_idft hF (hermBuf out.length X) (by rw [hl]; exact hx)
  rw [hl] at h1 h2
  have e' := irfftStack_eq X out h0 hX he e h1
  refine ⟨_, e', ?_, ?_⟩
  · show (y.map Cx.re).length = _
    simpa using h1
  · intro t ht
    have hlen : (resCase (.ok () : Res) out (y.map Cx.re)).length = out.length := by
      show (y.map Cx.re).length = _
      simpa using h1
    rw [hlen] at ht ⊢
    show rsig (y.map Cx.re) t = _
    rw [← idft_hermBuf_re hF he (by omega), ← h2 t ht, sig_get _ _ (by omega)]
    unfold rsig
    simp [List.getD_eq_getElem?_getD, show t < y.length by omega]

/-- C28: the stack real transforms are mutually inverse. -/
theorem stack_real_round_trip [F : Flt ℝ] (hF : Lawful F) (x : List ℝ) (hx : ∃ k, x.length = 2 ^ k)
    (out : List (Cx ℝ)) (ho : out.length = x.length / 2 + 1) (out' : List ℝ) (ho' : out'.length = x.length) :
    ∃ X, rfftStack x out = .ok (X, .ok ()) ∧ irfftStack X out' = .ok (x, .ok ()) := by
  obtain ⟨X, e1, h1⟩ := rfft_stack_is_half_dft hF x hx out ho
  obtain ⟨y, e2, hl, h2⟩ := irfft_stack_is_inverse_dft hF X out' (by rw [ho']; exact hx) (by rw [ho']; exact h1.1)
  rw [rdft_irdft h1 h2 (by omega)] at e2
  exact ⟨X, e1, e2⟩

/-- C28: size errors of `rfft_stack`: exact conditions, output untouched, no panic. -/
theorem rfft_stack_errors {T : Type} [Flt T] (x : List T) (out : List (Cx T)) :
    ∃ y r, rfftStack x out = .ok (y, r) ∧ y.length = out.length ∧
      (r = .error .EmptyInput ↔ x.length = 0) ∧
      (r = .error .MismatchedLengths ↔ x.length ≠ 0 ∧ out.length ≠ x.length / 2 + 1) ∧
      (r = .error .NonPowerOfTwoNoStd ↔
        x.length ≠ 0 ∧ out.length = x.length / 2 + 1 ∧ ¬ ∃ k, x.length = 2 ^ k) ∧
      (r ≠ .ok () → y = out) := by
  by_cases h0 : x.length = 0
  · exact ⟨out, .error .EmptyInput, by simp [rfftStack, h0], rfl, by simp [h0], by simp [h0], by simp [h0],
      fun _ => rfl⟩
  by_cases h1 : out.length = x.length / 2 + 1
  swap
  · exact ⟨out, .error .MismatchedLengths, by simp [rfftStack, h0, h1], rfl, by simp [h0], by simp [h0, h1],
      by simp [h1], fun _ => rfl⟩
  obtain ⟨y, r, e, hy, a1, a2, a3, a4⟩ := stack_errors (x.map fun v => (⟨v, Flt.zero⟩ : Cx T)) fftStack (Or.inl rfl)
  rw [List.length_map] at hy a1 a2 a3
  refine ⟨_, _, rfftStack_eq x out h0 h1 e hy, ?_, ?_⟩
  · cases r with
    | error => rfl
    | ok =>
      show (y.take (x.length / 2 + 1)).length = _
      rw [List.length_take, h1, hy]
      exact min_eq_left (by clear a2 a3; omega)
  · rw [a1, a2]
    refine ⟨Iff.rfl, ?_, by simp [h1], ?_⟩
    · simp only [h1, ne_eq, not_true, and_false, iff_false]
      rintro rfl
      by_cases hk : ∃ k, x.length = 2 ^ k
      · simp [hk] at a3
      · have := a2.mpr ⟨h0, hk⟩; simp at this
    · intro h
      cases r with
      | error => rfl
      | ok => exact absurd rfl h

/-- C28: size errors of `irfft_stack`: exact conditions, output untouched, no panic. -/
theorem irfft_stack_errors {T : Type} [Flt T] (X : List (Cx T)) (out : List T) :
    ∃ y r, irfftStack X out = .ok (y, r) ∧ y.length = out.length ∧
      (r = .error .EmptyInput ↔ out.length = 0) ∧
      (r = .error .MismatchedLengths ↔ out.length ≠ 0 ∧ X.length ≠ out.length / 2 + 1) ∧
      (r = .error .NonPowerOfTwoNoStd ↔
        out.length ≠ 0 ∧ X.length = out.length / 2 + 1 ∧ ¬ ∃ k, out.length = 2 ^ k) ∧
      (r ≠ .ok () → y = out) := by
  by_cases h0 : out.length = 0
  · exact ⟨out, .error .EmptyInput, by simp [irfftStack, h0], rfl, by simp [h0], by simp [h0], by simp [h0],
      fun _ => rfl⟩
  by_cases h1 : X.length = out.length / 2 + 1
  swap
  · exact ⟨out, .error .MismatchedLengths, by simp [irfftStack, h0, h1], rfl, by simp [h0], by simp [h0, h1],
      by simp [h1], fun _ => rfl⟩
  obtain ⟨b0, e0, l0⟩ : ∃ b, wrN (List.replicate out.length (⟨Flt.zero, Flt.zero⟩ : Cx T)) 0
      (X.take (out.length / 2 + 1)) = .ok b ∧ b.length = out.length := by
    rw [List.take_of_length_le (by omega), replicate_eq_tab, eq_tab_getD X Cx.zero, wrN_tab (by omega)]
    exact ⟨_, rfl, tab_length ..⟩
  obtain ⟨b1, e1, l1⟩ : ∃ b, (forRange 1 (out.length / 2) b0 fun k b => do
      let c ← rd X k
      wr b (out.length - k) ⟨c.re, -. c.im⟩) = .ok b ∧ b.length = out.length := by
    by_cases h2 : out.length / 2 ≤ 1
    · rw [forRange_empty h2]; exact ⟨b0, rfl, l0⟩
    · refine forRange_ok (lo := 1) (hi := out.length / 2) (fun _ (b : List (Cx T)) => b.length = out.length) (by omega) l0 fun i s hi1 hi2 hs => ?_
      rw [rd_getD Cx.zero (by omega), Outcome.bind_ok, wr_ok (by omega)]
      exact ⟨_, rfl, by simpa using hs⟩
  obtain ⟨y, r, e, hy, a1, a2, a3, a4⟩ := stack_errors b1 ifftStack (Or.inr rfl)
  rw [l1] at hy a1 a2 a3
  have key : irfftStack X out = .ok (match r with | .error _ => out | .ok _ => copyPrefix (y.map Cx.re) out, r) := by
    unfold irfftStack
    simp only [h0, if_false, h1, ne_eq, not_true, e0, Outcome.bind_ok, e1, e]
    cases r <;> rfl
  refine ⟨_, _, key, ?_, ?_⟩
  · cases r with
    | error => rfl
    | ok => exact copyPrefix_length _ _
  · rw [a1, a2]
    refine ⟨Iff.rfl, ?_, by simp [h1], ?_⟩
    · simp only [h1, ne_eq, not_true, and_false, iff_false]
      rintro rfl
      by_cases hk : ∃ k, out.length = 2 ^ k
      · simp [hk] at a3
      · have := a2.mpr ⟨h0, hk⟩; simp at this
    · intro h
      cases r with
      | error => rfl
      | ok => exact absurd rfl h

/-- Non-vacuity: a six-sample signal on a fresh transformer (Bluestein inside), and a power of two. -/
example [Flt ℝ] (cfg : Cfg) : Reach cfg (Planner.new : Planner ℝ) ∧
    ReachVia cfg (fun l => workSize l ≤ workSize 3) (Planner.new : Planner ℝ) ∧
    ([1, 2, 3, 4, 5, 6] : List ℝ).length = 2 * 3 := ⟨.new, .new, rfl⟩

/-- Non-vacuity: there is a reachable planner, and it stays reachable after planning length 7. -/
example {T : Type} [Flt T] : ∃ rp rp' : RfftPlanner T, ∃ t, RReach false rp ∧ rp.getTwiddles 7 = .ok (rp', t) ∧
    RReach false rp' := by
  obtain ⟨rp, e, h⟩ := rnew_ok (T := T)
  obtain ⟨rp', e', -, -⟩ := getTwiddles_ok rp h 7
  exact ⟨rp, rp', _, .new e, e', .getTwiddles (.new e) e'⟩

/-- Non-vacuity: the laws of `rfft_simd_same` hold in exact arithmetic. -/
example : letI := realFlt false
    (∀ a b : ℝ, Flt.mul a b = Flt.mul b a) ∧ (∀ a b : ℝ, Flt.sub a (Flt.neg b) = Flt.add a b) :=
  ⟨fun a b => mul_comm a b, fun a b => sub_neg_eq_add a b⟩

end Kofft.Props
