import Verif.Props.Trig
import Verif.Props.Rfft
import Verif.Lib.Loop2
import Verif.Spec.DctReach
/-
The FFT-based DCT-II of `DctPlanner`.
-/
namespace Kofft
open Spec Finset

/-- The mirrored signal `x[0] .. x[n-1] x[n-1] .. x[0]`. -/
def mirror {T : Type} [Flt T] (x : List T) : List T :=
  tab (2 * x.length) fun t => if t < x.length then x.getD t Flt.zero else x.getD (2 * x.length - 1 - t) Flt.zero

theorem mirror_loop {T : Type} [Flt T] (x b : List T) (hb : b.length = 2 * x.length) :
    (forRange 0 x.length b fun i b => do
      let v ← rd x i
      let b ← wr b i v
      wr b (2 * x.length - 1 - i) v) = .ok (mirror x) := by
  rw [forRange_eq (fun i => tab (2 * x.length) fun t =>
      if t < i then x.getD t Flt.zero
      else if 2 * x.length - i ≤ t then x.getD (2 * x.length - 1 - t) Flt.zero
      else b.getD t Flt.zero) (Nat.zero_le _)]
  · congr 1
    refine tab_congr fun t ht => ?_
    by_cases h : t < x.length
    · rw [if_pos h, if_pos h]
    · rw [if_neg h, if_neg h, if_pos (by omega)]
  · conv_lhs => rw [eq_tab_getD b Flt.zero]
    rw [hb]
    refine tab_congr fun t ht => ?_
    rw [if_neg (by omega), if_neg (by omega)]
  · intro i _ hi
    rw [rd_getD Flt.zero hi, Outcome.bind_ok, wr_tab (by omega), Outcome.bind_ok, wr_tab (by omega)]
    congr 1
    refine tab_congr fun t ht => ?_
    by_cases h1 : t = 2 * x.length - 1 - i
    · rw [if_pos h1, if_neg (by omega), if_pos (by omega)]
      congr 1; omega
    · rw [if_neg h1]
      by_cases h2 : t = i
      · rw [if_pos h2, if_pos (by omega), h2]
      · rw [if_neg h2]
        have e1 : (t < i) = (t < i + 1) := propext ⟨fun h => by omega, fun h => by omega⟩
        have e2 : (2 * x.length - i ≤ t) = (2 * x.length - (i + 1) ≤ t) :=
          propext ⟨fun h => by omega, fun h => by omega⟩
        simp only [e1, e2]

theorem mirror_length {T : Type} [Flt T] (x : List T) : (mirror x).length = 2 * x.length := by
  unfold mirror; rw [tab_length]

/-- Splitting a sum over the mirrored index range. -/
theorem sum_mirror {M : Type*} [AddCommMonoid M] (n : ℕ) (f : ℕ → M) :
    ∑ t ∈ range (2 * n), f t = ∑ t ∈ range n, (f t + f (2 * n - 1 - t)) := by
  rw [sum_add_distrib, show 2 * n = n + n by omega, sum_range_add, ← sum_range_reflect (fun t => f (n + t)) n]
  congr 1
  refine sum_congr rfl fun t ht => ?_
  rw [mem_range] at ht
  congr 1; omega

theorem mirror_dct2 [F : Flt ℝ] (hz : F.zero = 0) (x : List ℝ) (k : ℕ) (hn : 0 < x.length) :
    1 / 2 * ((dft (mirror x).length (rsig (mirror x)) k).re * Real.cos (Real.pi * k / (2 * x.length)) +
      (dft (mirror x).length (rsig (mirror x)) k).im * Real.sin (Real.pi * k / (2 * x.length))) =
    dctII x.length (fun t => x.getD t 0) k := by
  have hn' : (x.length : ℝ) ≠ 0 := by positivity
  have e : dft (mirror x).length (rsig (mirror x)) k = ∑ t ∈ range x.length,
      (((x.getD t 0 : ℝ) : ℂ) * W (2 * x.length) (k * t) +
       ((x.getD t 0 : ℝ) : ℂ) * W (2 * x.length) (k * (2 * x.length - 1 - t))) := by
    unfold dft
    rw [mirror_length, sum_mirror]
    refine sum_congr rfl fun t ht => ?_
    rw [mem_range] at ht
    unfold rsig mirror
    rw [tab_getD (by omega), tab_getD (by omega), if_pos ht, if_neg (by omega), hz,
      show 2 * x.length - 1 - (2 * x.length - 1 - t) = t by omega]
  rw [e, Complex.re_sum, Complex.im_sum, sum_mul, sum_mul, ← sum_add_distrib, mul_sum]
  unfold dctII
  refine sum_congr rfl fun t ht => ?_
  rw [mem_range] at ht
  rw [← mul_add, Complex.re_ofReal_mul, Complex.im_ofReal_mul, W_trig, W_trig]
  simp only [Complex.add_re, Complex.add_im]
  have a1 : 2 * Real.pi * ((k * t : ℕ) : ℝ) / ((2 * x.length : ℕ) : ℝ) =
      Real.pi * (t + 1 / 2) * k / x.length - Real.pi * k / (2 * x.length) := by
    push_cast; field_simp; ring
  have a2 : 2 * Real.pi * ((k * (2 * x.length - 1 - t) : ℕ) : ℝ) / ((2 * x.length : ℕ) : ℝ) =
      k * (2 * Real.pi) - (Real.pi * (t + 1 / 2) * k / x.length + Real.pi * k / (2 * x.length)) := by
    rw [Nat.cast_mul, Nat.sub_sub, Nat.cast_sub (by omega)]
    push_cast; field_simp; ring
  rw [a1, a2, Real.cos_nat_mul_two_pi_sub, Real.sin_nat_mul_two_pi_sub, Real.cos_sub, Real.sin_sub,
    Real.cos_add, Real.sin_add]
  have := Real.sin_sq_add_cos_sq (Real.pi * k / (2 * x.length))
  linear_combination (x.getD t 0 * Real.cos (Real.pi * (t + 1 / 2) * k / x.length)) * this

theorem ok_of_bind_err {α β : Type} {x : Outcome α} {f : α → Outcome β} {b : β} (h : (x >>= f) = .ok b) :
    ∃ a, x = .ok a ∧ f a = .ok b := by
  cases x with
  | ok a => exact ⟨a, rfl, h⟩
  | panic => cases h
  | hang => cases h

section generic
variable {T : Type} [Flt T]

/-- Invariant of the planner. -/
structure DctInv (simd : Bool) (st : DctPlanner T) : Prop where
  cache : ∀ n t, st.cache n = some t → t = cosTable n
  rfft : RReach simd st.rfft

theorem getCos_spec {simd : Bool} {st : DctPlanner T} (h : DctInv simd st) (n : Nat) :
    (st.getCos n).2 = cosTable n ∧ DctInv simd (st.getCos n).1 ∧ (st.getCos n).1.rfft = st.rfft := by
  unfold DctPlanner.getCos
  cases e : st.cache n with
  | some v => exact ⟨h.cache n v e, h, rfl⟩
  | none =>
    refine ⟨rfl, ⟨fun m t ht => ?_, h.rfft⟩, rfl⟩
    simp only [mapInsert] at ht
    split at ht
    · rename_i hm; cases ht; rw [hm]
    · exact h.cache m t ht

/-- The last step of the closure: write the rotated spectrum to the output. -/
def dctFinish (cosT : List T) (n : Nat) (st : DctPlanner T) (output : List T) (spec : List (Cx T)) :
    Res → Outcome (DctPlanner T × List T × Res)
  | .error e => .ok (st, output, .error e)
  | .ok _ => (forRange 0 n output fun k o => do
      let c ← rd spec k
      let t ← rd cosT k
      wr o k (half *. ((c.re *. t) +. (c.im *. Flt.sin ((Flt.pi *. Flt.ofNat k) /. (two *. Flt.ofNat n)))))) >>=
        fun o => .ok (st, o, .ok ())

/-- Everything the closure does, in terms of the planner-free `rfft`. -/
theorem dct2WithTable_eq (cfg : Cfg) (simd : Bool) (un : ℕ → Cx T) {st : DctPlanner T} (h : DctInv simd st)
    (input output cosT : List T) (hl : output.length = input.length) :
    ∃ rp' p' spec r, RReach simd rp' ∧
      Kofft.rfft simd (fft cfg) un Planner.new (mirror input)
        ((grow st.spectrum (input.length + 1) Cx.zero).take (input.length + 1)) = .ok (p', spec, r) ∧
      spec.length = input.length + 1 ∧
      st.dct2WithTable cfg simd input output cosT = dctFinish cosT input.length
        ⟨st.cache, rp', mirror input ++ (grow st.buf (2 * input.length) Flt.zero).drop (2 * input.length),
          spec ++ (grow st.spectrum (input.length + 1) Cx.zero).drop (input.length + 1)⟩ output spec r := by
  have hop := Props.opLen_fft (cfg := cfg) (p := (Planner.new : Planner T)) .new
  have ht := (Props.rfft_planner_transparent simd st.rfft h.rfft (fft cfg) Planner.new hop un (mirror input)
    ((grow st.spectrum (input.length + 1) Cx.zero).take (input.length + 1))).1
  obtain ⟨p', spec, r, e, hs, -⟩ := Props.rfft_total cfg simd un (mirror input) (Planner.new : Planner T) .new
    ((grow st.spectrum (input.length + 1) Cx.zero).take (input.length + 1))
  rw [e] at ht
  obtain ⟨⟨rp', v⟩, e1, e2⟩ := ok_of_bind_err ht
  cases e2
  have hs' : spec.length = input.length + 1 := by
    rw [hs, List.length_take, grow_length]; omega
  refine ⟨rp', p', spec, r, .rfft h.rfft e1, e, hs', ?_⟩
  unfold DctPlanner.dct2WithTable
  simp only []
  rw [if_neg (by omega), mirror_loop input _ (by rw [List.length_take, grow_length]; omega), Outcome.bind_ok, e1,
    Outcome.bind_ok]
  cases r <;> rfl

theorem dctFinish_ok (cosT : List T) (n : Nat) (st : DctPlanner T) (output : List T) (spec : List (Cx T))
    (ho : output.length = n) (hs : spec.length = n + 1) (hc : n ≤ cosT.length) :
    dctFinish cosT n st output spec (.ok ()) = .ok (st, (tab n fun k =>
      half *. (((spec.getD k Cx.zero).re *. cosT.getD k Flt.zero) +.
        ((spec.getD k Cx.zero).im *. Flt.sin ((Flt.pi *. Flt.ofNat k) /. (two *. Flt.ofNat n))))), .ok ()) := by
  unfold dctFinish
  simp only []
  conv_lhs => rw [eq_tab_getD output Flt.zero]
  rw [ho, fill_tab (Nat.zero_le n) (v := fun k => half *. (((spec.getD k Cx.zero).re *. cosT.getD k Flt.zero) +.
        ((spec.getD k Cx.zero).im *. Flt.sin ((Flt.pi *. Flt.ofNat k) /. (two *. Flt.ofNat n)))))]
  · rw [Outcome.bind_ok]
    congr 2
    refine Prod.ext ?_ rfl
    exact tab_congr fun k hk => by rw [if_pos ⟨Nat.zero_le k, hk⟩]
  · intro i s _ hi hsl
    rw [rd_getD Cx.zero (by omega), Outcome.bind_ok, rd_getD Flt.zero (by omega), Outcome.bind_ok, wr_ok (by omega)]

theorem dctFinish_short (cosT : List T) (n : Nat) (st : DctPlanner T) (output : List T) (spec : List (Cx T))
    (ho : output.length = n) (hs : spec.length = n + 1) (hc : cosT.length < n) :
    dctFinish cosT n st output spec (.ok ()) = .panic := by
  unfold dctFinish
  simp only []
  rw [forRange_panic_at (fun s => s.length = n) hc 0 output (Nat.zero_le _) ho]
  · rfl
  · intro i s _ hi hsl
    rw [rd_getD Cx.zero (by omega), Outcome.bind_ok, rd_getD Flt.zero (by omega), Outcome.bind_ok, wr_ok (by omega)]
    exact ⟨_, rfl, by rw [List.length_set]; exact hsl⟩
  · intro s hsl
    rw [rd_getD Cx.zero (by omega), Outcome.bind_ok, rd_panic (by omega)]
    rfl

theorem dctReach_inv {cfg : Cfg} {simd : Bool} {st : DctPlanner T} (h : DctReach cfg simd st) : DctInv simd st := by
  induction h with
  | new e =>
    obtain ⟨rp, e1, e2⟩ := ok_of_bind_err e
    cases e2
    exact ⟨fun n t ht => (by cases ht), .new e1⟩
  | plan n _ ih => exact (getCos_spec ih n).2.1
  | @call st st' input output cosT v _ e ih =>
    by_cases hl : output.length = input.length
    · obtain ⟨rp', p', spec, r, h1, -, h2, h3⟩ := dct2WithTable_eq cfg simd (fun _ => Cx.zero) ih input output cosT hl
      rw [h3] at e
      cases r with
      | error er => cases e; exact ⟨ih.cache, h1⟩
      | ok u =>
        unfold dctFinish at e
        obtain ⟨o, -, e2⟩ := ok_of_bind_err e
        cases e2
        exact ⟨ih.cache, h1⟩
    · unfold DctPlanner.dct2WithTable at e
      simp only [] at e
      rw [if_pos hl] at e
      cases e
      exact ih

end generic
end Kofft
