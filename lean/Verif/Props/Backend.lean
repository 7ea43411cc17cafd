import Verif.Props.Api
import Verif.Props.Plan
import Verif.Proof.RoundTab
import Verif.Proof.RoundBlu
/-
C78: the methods the SIMD back ends do not share with the scalar transformer; the published twiddle tables.
-/
namespace Kofft.Props
open Spec

section
variable {T : Type} [Flt T]

/-- C78a. The default `fft_split`/`ifft_split` of the trait, for any implementation of `fft`/`ifft` that keeps the length of the
buffer: mismatched lengths are an error; else the result has the components of the interleaved transform; on an error the two
buffers are untouched; if the transform panics, so does the call. -/
theorem split_default_spec (op : FftOp T) (p : Planner T) (re im : List T) :
    (re.length ≠ im.length → splitDefault op p re im = .ok (p, re, im, .error .MismatchedLengths)) ∧
    (re.length = im.length →
      (∀ p' y, op p (List.zipWith Cx.mk re im) = .ok (p', y, .ok ()) → y.length = re.length →
        splitDefault op p re im = .ok (p', y.map Cx.re, y.map Cx.im, .ok ())) ∧
      (∀ p' y e, op p (List.zipWith Cx.mk re im) = .ok (p', y, .error e) →
        splitDefault op p re im = .ok (p', re, im, .error e)) ∧
      (op p (List.zipWith Cx.mk re im) = .panic → splitDefault op p re im = .panic)) := by
  refine ⟨fun h => by unfold splitDefault; rw [if_pos h], fun h => ?_⟩
  unfold splitDefault splitVia
  rw [if_neg (not_not.mpr h)]
  simp only [zip_loop re im h, Outcome.bind_ok]
  refine ⟨?_, ?_, ?_⟩
  · intro p' y e hy
    simp only [e, Outcome.bind_ok]
    rw [unzip_loop y re im hy h]
    rfl
  · intro p' y er e
    simp only [e, Outcome.bind_ok]
  · intro e
    simp only [e]; rfl

/-- What a call on a SIMD back end returns is what a call on a new scalar transformer returns (first components are the states). -/
theorem simd_fft_fresh (cfg : Cfg) (feat : Bool) (p : Planner T) (x : List (Cx T)) (hx : x.length ≠ 1) :
    ∃ q y r, (Backend.simd feat).fft cfg p x = .ok (p, y, r) ∧ fft cfg Planner.new x = .ok (q, y, r) ∧ y.length = x.length := by
  obtain ⟨q, e, -, hl, -⟩ := (fft_opOk cfg).run (Planner.new : Planner T) x (inv_new cfg)
  have hs : stockhamFft cfg Planner.new x = fft cfg Planner.new x := by
    by_cases h0 : x.length = 0
    · have : x = [] := List.length_eq_zero_iff.mp h0
      subst this; rfl
    · exact stockhamFft_eq cfg _ x (inv_new cfg) (by omega)
  refine ⟨q, _, _, ?_, e, hl⟩
  cases feat with
  | true =>
    show (do let r ← stockhamFft cfg Planner.new x; pure (p, r.2.1, r.2.2)) = _
    rw [hs, e]; rfl
  | false =>
    show (do
      let r ← if isPow2 x.length then stockhamFft cfg Planner.new x else Kofft.fft cfg Planner.new x
      pure (p, r.2.1, r.2.2)) = _
    rw [hs, ite_self, e]; rfl

theorem simd_ifft_fresh (cfg : Cfg) (feat : Bool) (p : Planner T) (x : List (Cx T)) :
    ∃ q y r, (Backend.simd feat).ifft cfg p x = .ok (p, y, r) ∧ ifft cfg Planner.new x = .ok (q, y, r) ∧ y.length = x.length := by
  obtain ⟨q, e, -, hl, -⟩ := (ifft_opOk cfg).run (Planner.new : Planner T) x (inv_new cfg)
  refine ⟨q, _, _, ?_, e, hl⟩
  show (do let r ← Kofft.ifft cfg Planner.new x; pure (p, r.2.1, r.2.2)) = _
  rw [e]; rfl

/-- C78b. `fft_split` and `ifft_split` of a SIMD back end, whatever was computed before: the components of what a new scalar
transformer's `fft` or `ifft` gives on the interleaved data, bit for bit, buffers untouched on an error. (Length 1: see
`simd_split_len1_panics`.) -/
theorem simd_split_fresh (cfg : Cfg) (feat : Bool) (p : Planner T) (re im : List T) (h : re.length = im.length) :
    (re.length ≠ 1 → ∃ q y r, fft cfg Planner.new (List.zipWith Cx.mk re im) = .ok (q, y, r) ∧
      (Backend.simd feat).fftSplit cfg p re im =
        .ok (p, if r = .ok () then y.map Cx.re else re, if r = .ok () then y.map Cx.im else im, r)) ∧
    ∃ q y r, ifft cfg Planner.new (List.zipWith Cx.mk re im) = .ok (q, y, r) ∧
      (Backend.simd feat).ifftSplit cfg p re im =
        .ok (p, if r = .ok () then y.map Cx.re else re, if r = .ok () then y.map Cx.im else im, r) := by
  have hz : (List.zipWith Cx.mk re im).length = re.length := by simp [h]
  constructor
  · intro h1
    obtain ⟨q, y, r, e1, e2, hl⟩ := simd_fft_fresh cfg feat p (List.zipWith Cx.mk re im) (by rw [hz]; exact h1)
    obtain ⟨a, b, -⟩ := (split_default_spec ((Backend.simd feat).fft cfg) p re im).2 h
    refine ⟨q, y, r, e2, ?_⟩
    show splitDefault _ _ _ _ = _
    cases r with
    | ok _ => simpa using a p y e1 (by omega)
    | error er => simpa using b p y er e1
  · obtain ⟨q, y, r, e1, e2, hl⟩ := simd_ifft_fresh cfg feat p (List.zipWith Cx.mk re im)
    obtain ⟨a, b, -⟩ := (split_default_spec ((Backend.simd feat).ifft cfg) p re im).2 h
    refine ⟨q, y, r, e2, ?_⟩
    show splitDefault _ _ _ _ = _
    cases r with
    | ok _ => simpa using a p y e1 (by omega)
    | error er => simpa using b p y er e1

/-- C78c. The strided transforms and `fft_with_strategy` of a SIMD back end keep no state: whatever was computed before, they return
what a new scalar transformer returns. -/
theorem simd_strided_fresh (cfg : Cfg) (feat inv : Bool) (p : Planner T) (x : List (Cx T)) (stride : ℕ) (sc : List (Cx T)) :
    ∃ q x' s r, strided (if inv then ifft cfg else fft cfg) Planner.new x stride sc = .ok (q, x', s, r) ∧
      (Backend.simd feat).strided cfg inv p x stride sc = .ok (p, x', s, r) := by
  have hop : IsOp cfg (if inv then ifft cfg else fft cfg : FftOp T) := by
    cases inv
    · exact Or.inl rfl
    · exact Or.inr rfl
  obtain ⟨q, x', s, s', r, e, -⟩ := strided_scratch_irrelevant cfg _ hop Planner.new .new x stride sc sc rfl
  refine ⟨q, x', s, r, e, ?_⟩
  show (do let r ← Kofft.strided (if inv then ifft cfg else fft cfg) Planner.new x stride sc
           pure (p, r.2.1, r.2.2.1, r.2.2.2)) = _
  rw [e]; rfl

theorem simd_strategy_fresh (cfg : Cfg) (feat : Bool) (st : Strategy) (p : Planner T) (x : List (Cx T)) :
    ∃ q y r, fftWithStrategy cfg st Planner.new x = .ok (q, y, r) ∧
      (Backend.simd feat).fftWithStrategy cfg st p x = .ok (p, y, r) := by
  obtain ⟨q, y, r, e, -⟩ := strategy_total cfg st Planner.new .new x
  refine ⟨q, y, r, e, ?_⟩
  show (do let r ← Kofft.fftWithStrategy cfg st Planner.new x; pure (p, r.2.1, r.2.2)) = _
  rw [e]; rfl

/-- C78d, negation at length 1: `fft_split` of one sample panics on a SIMD back end (it is the identity on the scalar one). -/
theorem simd_split_len1_panics (cfg : Cfg) (feat : Bool) (p : Planner T) (a b : T) :
    (Backend.simd feat).fftSplit cfg p [a] [b] = .panic := by
  obtain ⟨-, -, c⟩ := (split_default_spec ((Backend.simd feat).fft cfg) p [a] [b]).2 rfl
  apply c
  have hp : isPow2 1 = true := by decide
  have e : (List.zipWith Cx.mk [a] [b] : List (Cx T)) = [⟨a, b⟩] := rfl
  rw [e]
  cases feat
  · show (do
      let r ← if isPow2 [(⟨a, b⟩ : Cx T)].length then stockhamFft cfg Planner.new [(⟨a, b⟩ : Cx T)]
        else Kofft.fft cfg Planner.new [(⟨a, b⟩ : Cx T)]
      pure (p, r.2.1, r.2.2)) = _
    simp only [List.length_singleton, hp, if_true]
    rw [stockhamFft_one cfg _ [_] rfl]; rfl
  · show (do let r ← stockhamFft cfg Planner.new [(⟨a, b⟩ : Cx T)]; pure (p, r.2.1, r.2.2)) = _
    rw [stockhamFft_one cfg _ [_] rfl]; rfl

theorem simd_oop_strided_fresh (cfg : Cfg) (feat inv : Bool) (p : Planner T) (x : List (Cx T)) (si : ℕ) (o : List (Cx T)) (so : ℕ) :
    ∃ q o' r, oopStrided (if inv then ifft cfg else fft cfg) Planner.new x si o so = .ok (q, o', r) ∧
      (Backend.simd feat).oopStrided cfg inv p x si o so = .ok (p, o', r) := by
  have key : ∃ q o' r, oopStrided (if inv then ifft cfg else fft cfg) Planner.new x si o so = .ok (q, o', r) := by
    have hop : IsOp cfg (if inv then ifft cfg else fft cfg : FftOp T) := by
      cases inv
      · exact Or.inl rfl
      · exact Or.inr rfl
    obtain ⟨h1, h2⟩ := oop_strided_errors (if inv then ifft cfg else fft cfg : FftOp T) Planner.new x si o so
    by_cases c1 : si = 0 ∨ so = 0 ∨ ¬ si ∣ x.length ∨ ¬ so ∣ o.length
    · exact ⟨_, _, _, h1 c1⟩
    push_neg at c1
    obtain ⟨c1, c2, c3, c4⟩ := c1
    by_cases c5 : x.length / si = o.length / so
    · obtain ⟨g, p1, p2, y, r, o', -, -, -, e, -⟩ := oop_strided_spec cfg _ hop Planner.new .new x si o so (x.length / si)
        (Nat.pos_of_ne_zero c1) (Nat.pos_of_ne_zero c2) (Nat.div_mul_cancel c3).symm (by rw [c5]; exact (Nat.div_mul_cancel c4).symm)
      exact ⟨_, _, _, e⟩
    · exact ⟨_, _, _, h2 c1 c2 c3 c4 c5⟩
  obtain ⟨q, o', r, e⟩ := key
  refine ⟨q, o', r, e, ?_⟩
  show (do let r ← Kofft.oopStrided (if inv then ifft cfg else fft cfg) Planner.new x si o so
           pure (p, r.2.1, r.2.2)) = _
  rw [e]; rfl

/-- C78f. `TwiddleFactorBuffer::get`: panics exactly for tables made for `n < 2`; reads entry `k mod n/2` otherwise. -/
theorem twiddle_get_panics (n k : ℕ) : (TwBuf.new n : TwBuf T).get k = .panic ↔ n < 2 := by
  have hl : (TwBuf.new n : TwBuf T).tw.length = n / 2 := by simp [TwBuf.new]
  unfold TwBuf.get
  show (if n / 2 = 0 then _ else _) = _ ↔ _
  by_cases h : n / 2 = 0
  · rw [if_pos h]; simp; omega
  · rw [if_neg h]
    have e : rd (TwBuf.new n : TwBuf T).tw (k % (n / 2)) = .ok _ := rd_getD Cx.zero (by rw [hl]; exact Nat.mod_lt _ (by omega))
    show rd (TwBuf.new n : TwBuf T).tw (k % (n / 2)) = _ ↔ _
    rw [e]
    simp; omega

end

/-- C78e. A SIMD back end computes the exact DFT in exact arithmetic, whatever was computed before (the scalar transformer does
so only if the earlier work was no larger: `fft_is_dft_used`, `fft_history_wrong`). -/
theorem simd_fft_is_dft [F : Flt ℝ] (hF : Lawful F) (cfg : Cfg) (hstd : cfg.std = true) (feat : Bool) (p : Planner ℝ)
    (x : List (Cx ℝ)) (hx : 2 ≤ x.length) :
    (∃ y, (Backend.simd feat).fft cfg p x = .ok (p, y, .ok ()) ∧ IsDft x y) ∧
    (∃ y, (Backend.simd feat).ifft cfg p x = .ok (p, y, .ok ()) ∧ IsIdft x y) := by
  constructor
  · obtain ⟨q, y, r, e1, e2, -⟩ := simd_fft_fresh cfg feat p x (by omega)
    obtain ⟨q', y', e3, e4⟩ := fft_is_dft hF cfg hstd x (by omega)
    rw [e2] at e3
    simp only [Outcome.ok.injEq, Prod.mk.injEq] at e3
    obtain ⟨-, rfl, rfl⟩ := e3
    exact ⟨y, e1, e4⟩
  · obtain ⟨q, y, r, e1, e2, -⟩ := simd_ifft_fresh cfg feat p x
    obtain ⟨q', y', e3, e4⟩ := ifft_is_idft hF cfg x (by omega) (Or.inl hstd) Planner.new .new
    rw [e2] at e3
    simp only [Outcome.ok.injEq, Prod.mk.injEq] at e3
    obtain ⟨-, rfl, rfl⟩ := e3
    exact ⟨y, e1, e4⟩

/-- C78g. In exact arithmetic entry `k` of the table for `n` is `exp(-2πi k/n)` for `k < n/2`. Beyond that `get` wraps modulo
`n/2`: for even `n` it returns the factor with the wrong sign. -/
theorem twiddle_get_exact [F : Flt ℝ] (hF : Lawful F) (n k : ℕ) (hn : 2 ≤ n) :
    (k < n / 2 → ∃ w, (TwBuf.new n : TwBuf ℝ).get k = .ok w ∧ toC w = W n k) ∧
    (2 ∣ n → n / 2 ≤ k → k < n → ∃ w, (TwBuf.new n : TwBuf ℝ).get k = .ok w ∧ toC w = - W n k ∧ toC w ≠ W n k) := by
  have hl : (TwBuf.new n : TwBuf ℝ).tw.length = n / 2 := by simp [TwBuf.new]
  have key : ∀ j, j < n / 2 → toC ((TwBuf.new n : TwBuf ℝ).tw.getD j Cx.zero) = W n j := by
    intro j hj
    unfold TwBuf.new
    simp only []
    rw [show (List.range (n / 2)).map _ = tab (n / 2) _ from rfl, tab_getD hj, W_eq_cos]
    show (⟨F.cos _, F.sin _⟩ : ℂ) = _
    rw [hF.cos, hF.sin, hF.div, hF.mul, hF.mul, hF.neg, hF.lit, hF.pi, hF.ofNat, hF.ofNat]
    norm_num
  have get : ∀ j, (TwBuf.new n : TwBuf ℝ).get j = .ok ((TwBuf.new n : TwBuf ℝ).tw.getD (j % (n / 2)) Cx.zero) := by
    intro j
    unfold TwBuf.get
    show (if n / 2 = 0 then _ else _) = _
    rw [if_neg (by omega)]
    exact rd_getD _ (by rw [hl]; exact Nat.mod_lt _ (show 0 < n / 2 by omega))
  refine ⟨fun hk => ⟨_, get k, ?_⟩, fun he h1 h2 => ⟨_, get k, ?_⟩⟩
  · rw [Nat.mod_eq_of_lt hk]; exact key k hk
  · obtain ⟨m, rfl⟩ := he
    rw [Nat.mul_div_cancel_left _ (by norm_num)] at *
    have e : k % m = k - m := by rw [Nat.mod_eq_sub_mod h1, Nat.mod_eq_of_lt (by omega)]
    have e1 : W (2 * m) k = - W (2 * m) (k - m) := by
      conv_lhs => rw [show k = (k - m) + m by omega, W_add, W_half (by omega)]
      ring
    rw [e, key _ (by omega), e1, neg_neg]
    refine ⟨rfl, fun h => W_ne_zero (2 * m) (k - m) ?_⟩
    exact CharZero.eq_neg_self_iff.mp h

/-- C78h. With rounding, an entry of the table is within `√2 t + ((1+u)⁴(1+v)/(1-v) - 1) π` of `exp(-2πi k/n)`: no growth with `n`. -/
theorem twiddle_get_error [F : Flt ℝ] {u v t : ℝ} (h : Rounding F u v t) (n k : ℕ) (hk : k < n / 2) :
    ∃ w, (TwBuf.new n : TwBuf ℝ).get k = .ok w ∧
      ‖toC w - W n k‖ ≤ Real.sqrt 2 * t + ((1 + u) ^ 4 * ((1 + v) / (1 - v)) - 1) * Real.pi := by
  have hu := h.u_nonneg
  have hv := h.v_nonneg
  have hv1 := h.v_lt_one
  have hl : (TwBuf.new n : TwBuf ℝ).tw.length = n / 2 := by simp [TwBuf.new]
  have hn1 : (0 : ℝ) < n := by exact_mod_cast (by omega : 0 < n)
  refine ⟨(TwBuf.new n : TwBuf ℝ).tw.getD k Cx.zero, ?_, ?_⟩
  · unfold TwBuf.get
    show (if n / 2 = 0 then _ else _) = _
    rw [if_neg (by omega), Nat.mod_eq_of_lt (show k < (TwBuf.new n : TwBuf ℝ).n / 2 from hk)]
    exact rd_getD _ (by rw [hl]; exact hk)
  unfold TwBuf.new
  simp only []
  rw [show (List.range (n / 2)).map _ = tab (n / 2) _ from rfl, tab_getD hk]
  set θ' : ℝ := F.div (F.mul (F.mul (F.neg (F.lit 2 0)) F.pi) (F.ofNat k)) (F.ofNat n) with hθ'
  obtain ⟨i1, i2⟩ := rnd_inv h (show 0 < n by omega)
  have h1 := rnd_angle h
  have h2 := rel_mul hu (one_le_pow₀ (by linarith)) (h := 1 + v) (by linarith) h1 (q := F.ofNat k) (Q := k)
    (by rw [add_sub_cancel_left, Nat.abs_cast]; exact h.ofNat k) (h.mul _ _)
  have hg : (1 : ℝ) ≤ 1 / (1 - v) := by rw [le_div_iff₀ (by linarith)]; linarith
  have h3 := rel_mul hu (one_le_mul_of_one_le_of_one_le (one_le_mul_of_one_le_of_one_le (one_le_pow₀ (by linarith)) (by linarith))
    (by linarith)) hg h2 i1 (r := θ') (by rw [hθ', ← div_eq_mul_inv]; exact h.div _ _ i2)
  rw [← div_eq_mul_inv, show (1 + u) ^ 2 * (1 + v) * (1 + u) * (1 / (1 - v)) * (1 + u) = (1 + u) ^ 4 * ((1 + v) / (1 - v)) by ring] at h3
  have h4 : |-2 * Real.pi * k / n| ≤ Real.pi := by
    rw [abs_div, abs_mul, abs_mul, abs_neg, abs_two, abs_of_pos Real.pi_pos, Nat.abs_cast, Nat.abs_cast, div_le_iff₀ hn1]
    have : (2 * k : ℝ) ≤ n := by exact_mod_cast (by omega : 2 * k ≤ n)
    nlinarith [Real.pi_pos]
  have hg2 : (1 : ℝ) ≤ (1 + v) / (1 - v) := by rw [le_div_iff₀ (by linarith)]; linarith
  have h5 : |θ' - -2 * Real.pi * k / n| ≤ ((1 + u) ^ 4 * ((1 + v) / (1 - v)) - 1) * Real.pi :=
    h3.trans (mul_le_mul_of_nonneg_left h4
      (sub_nonneg.mpr (one_le_mul_of_one_le_of_one_le (one_le_pow₀ (by linarith)) hg2)))
  have e1 := W_eq_exp n k ▸ rnd_expi h θ' (-2 * Real.pi * k / n)
  linarith

/-- The hypotheses of the exact and of the rounded statement can be met. -/
example : ∃ w, (@TwBuf.get ℝ (@TwBuf.new ℝ (realFlt true) 8) 5) = .ok w ∧ toC w = - W 8 5 := by
  obtain ⟨w, h1, h2, -⟩ := (@twiddle_get_exact (realFlt true) (realFlt_lawful true) 8 5 (by norm_num)).2 (by norm_num) (by norm_num) (by norm_num)
  exact ⟨w, h1, h2⟩

example (x : List (Cx ℝ)) (hx : 2 ≤ x.length) (p : Planner ℝ) :
    ∃ y, @Backend.fft ℝ (realFlt true) ⟨true, .f32, false, 4, false⟩ (.simd true) p x = .ok (p, y, .ok ()) :=
  let ⟨y, h, _⟩ := (@simd_fft_is_dft (realFlt true) (realFlt_lawful true) ⟨true, .f32, false, 4, false⟩ rfl true p x hx).1
  ⟨y, h⟩

end Kofft.Props
