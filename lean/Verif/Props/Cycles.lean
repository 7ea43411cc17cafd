import Verif.Props.IntegerTrip
import Verif.Props.RoundingRfft
/-
Property C125: transforming there and back again and again drifts at most geometrically, in every arithmetic that
rounds; in exact arithmetic not at all.
-/
namespace Kofft.Spec

/-- A step repeated `m` times on a state and a buffer. -/
def cycles {S A : Type} (step : S → A → Outcome (S × A)) : ℕ → S → A → Outcome (S × A)
  | 0, s, a => .ok (s, a)
  | m + 1, s, a => step s a >>= fun r => cycles step m r.1 r.2

section
variable {T : Type} [Flt T]

/-- `fft.fft(&mut data).unwrap(); fft.ifft(&mut data).unwrap()`. -/
def trip (cfg : Cfg) (p : Planner T) (x : List (Cx T)) : Outcome (Planner T × List (Cx T)) :=
  fft cfg p x >>= fun r => match r.2.2 with
    | .error _ => .panic
    | .ok () => ifft cfg r.1 r.2.1 >>= fun r => match r.2.2 with
      | .error _ => .panic
      | .ok () => .ok (r.1, r.2.1)

/-- The same with the stack-only transforms, which keep no state. -/
def stackTrip (_ : Unit) (x : List (Cx T)) : Outcome (Unit × List (Cx T)) :=
  fftStack x >>= fun r => match r.2 with
    | .error _ => .panic
    | .ok () => ifftStack r.1 >>= fun r => match r.2 with
      | .error _ => .panic
      | .ok () => .ok ((), r.1)

/-- The same with the real transforms and fresh buffers for the spectrum and the result. -/
def realTrip (cfg : Cfg) (simd : Bool) (un un' : ℕ → Cx T) (p : Planner T) (x : List T) :
    Outcome (Planner T × List T) :=
  rfft simd (fft cfg) un p x (List.replicate (x.length / 2 + 1) Cx.zero) >>= fun r => match r.2.2 with
    | .error _ => .panic
    | .ok () => irfft simd (ifft cfg) un' r.1 r.2.1 (List.replicate x.length Flt.zero) >>= fun r => match r.2.2 with
      | .error _ => .panic
      | .ok () => .ok (r.1, r.2.1)
end
end Kofft.Spec

namespace Kofft.Props
open Spec Complex Finset

/-- What an error of `δ` per step grows to. -/
theorem cycles_drift {S A : Type} (step : S → A → Outcome (S × A)) (I : S → Prop) (good : A → Prop) (N : A → ℝ)
    (D : A → A → ℝ) (δ : ℝ) (hδ : 0 ≤ δ) (hD0 : ∀ a, D a a = 0) (hDt : ∀ a b c, good a → good b → good c → D a c ≤ D a b + D b c)
    (hN : ∀ a b, good a → good b → N b ≤ N a + D b a)
    (hstep : ∀ s a, I s → good a → ∃ s' b, step s a = .ok (s', b) ∧ I s' ∧ good b ∧ D b a ≤ δ * N a) :
    ∀ m s a, I s → good a → ∃ s' z, cycles step m s a = .ok (s', z) ∧ I s' ∧ good z ∧
      D z a ≤ ((1 + δ) ^ m - 1) * N a := by
  intro m
  induction m with
  | zero => intro s a hs ha; exact ⟨s, a, rfl, hs, ha, by simp [hD0]⟩
  | succ m ih =>
    intro s a hs ha
    obtain ⟨s1, b, e1, hs1, hb, h1⟩ := hstep s a hs ha
    obtain ⟨s2, z, e2, hs2, hz, h2⟩ := ih s1 b hs1 hb
    refine ⟨s2, z, by rw [cycles, e1, Outcome.bind_ok]; exact e2, hs2, hz, ?_⟩
    have h3 := hDt z b a hz hb ha
    have h4 := hN a b ha hb
    have hp : 0 ≤ (1 + δ) ^ m - 1 := by
      have := one_le_pow₀ (n := m) (show 1 ≤ 1 + δ by linarith)
      linarith
    have h5 : D z b ≤ ((1 + δ) ^ m - 1) * ((1 + δ) * N a) :=
      h2.trans (mul_le_mul_of_nonneg_left (by linarith) hp)
    rw [pow_succ]
    linarith

variable [F : Flt ℝ] {u v t : ℝ}

/-- C125a. `m` round trips of `fft` and `ifft` on one transformer, every supported length. -/
theorem cycles_error (hF : Rounding F u v t) (cfg : Cfg) (n : ℕ) (p : Planner ℝ) (hp : Usable F cfg n p)
    (x : List (Cx ℝ)) (hx : x.length = n) (m : ℕ) :
    ∃ p' z, cycles (trip cfg) m p x = .ok (p', z) ∧ Usable F cfg n p' ∧ z.length = n ∧
      l2 n (fun s => sig z s - sig x s) ≤
        ((l2Growth cfg u v t n ^ 2 * scaleGrowth u v n) ^ m - 1) * l2 n (sig x) := by
  have hg := l2Growth_ge hF cfg n hp.pos
  have hsc := scaleGrowth_ge hF hp.pos
  have h0 : 0 ≤ l2Growth cfg u v t n ^ 2 * scaleGrowth u v n - 1 := by nlinarith
  have := cycles_drift (trip cfg) (Usable F cfg n) (fun x => x.length = n) (fun x => l2 n (sig x))
    (fun a b => l2 n (fun s => sig a s - sig b s)) (l2Growth cfg u v t n ^ 2 * scaleGrowth u v n - 1) h0
    (fun a => by
      simp only [sub_self]
      have := l2_mul n 0 (fun _ => 0)
      simpa using this)
    (fun a b c _ _ _ => by
      have := l2_add n (fun s => sig a s - sig b s) (fun s => sig b s - sig c s)
      simpa using this)
    (fun a b _ _ => by
      have := l2_tri n (sig b) (sig a)
      linarith)
    (fun p a hp ha => by
      subst ha
      obtain ⟨p1, y, p2, z, e1, e2, hl, hb⟩ := round_trip_error_l2 hF cfg a hp.pos hp.len p hp.hist
      refine ⟨p2, z, by simp only [trip, e1, Outcome.bind_ok, e2], ⟨hp.pos, hp.len, ?_⟩, hl, hb⟩
      obtain ⟨p1', y', e1', hl1, -⟩ := fft_error_l2 hF cfg a hp.pos hp.len p hp.hist
      rw [e1] at e1'
      cases e1'
      exact .ifft (.fft hp.hist le_rfl e1) (by rw [hl1]) e2)
    m p x hp hx
  simpa only [add_sub_cancel] using this

/-- C125b. In exact arithmetic any number of round trips gives the signal back. -/
theorem cycles_exact (hF : Lawful F) (cfg : Cfg) (n : ℕ) (x : List (Cx ℝ)) (hx : x.length = n) (m : ℕ) :
    ∀ p : Planner ℝ, Usable F cfg n p → ∃ p', cycles (trip cfg) m p x = .ok (p', x) := by
  induction m with
  | zero => exact fun p _ => ⟨p, rfl⟩
  | succ m ih =>
    intro p hp
    subst hx
    obtain ⟨p1, y, p2, e1, e2⟩ := ifft_fft_id hF cfg x hp.pos hp.len p hp.hist
    obtain ⟨p1', y', e1', hd⟩ := fft_is_dft_used hF cfg x hp.pos hp.len p hp.hist
    rw [e1] at e1'
    cases e1'
    obtain ⟨p', e⟩ := ih p2 ⟨hp.pos, hp.len, .ifft (.fft hp.hist le_rfl e1) (by rw [hd.1]) e2⟩
    exact ⟨p', by simp only [cycles, trip, e1, Outcome.bind_ok, e2]; exact e⟩

omit F in
/-- While `m` times the error of one step is at most 1, the drift is at most twice the sum. -/
theorem drift_linear {δ : ℝ} (hδ : 0 ≤ δ) (m : ℕ) (h : m * δ ≤ 1) : (1 + δ) ^ m - 1 ≤ 2 * (m * δ) := by
  have h1 : (1 + δ) ^ m ≤ Real.exp (m * δ) := by
    calc (1 + δ) ^ m ≤ Real.exp δ ^ m := pow_le_pow_left₀ (by linarith) (by linarith [Real.add_one_le_exp δ]) m
      _ = _ := by rw [← Real.exp_nat_mul]
  have h0 : 0 ≤ m * δ := by positivity
  have h2 := Real.abs_exp_sub_one_le (x := m * δ) (by rw [abs_of_nonneg h0]; exact h)
  rw [abs_of_nonneg h0] at h2
  linarith [le_abs_self (Real.exp (m * δ) - 1)]

/-- C125c. Closed form with build-time tables, 32 to 1024 points: the drift grows linearly with the number of trips. -/
theorem cycles_error_precomputed (hF : Rounding F u v t) (hu : u ≤ 1 / 100000) (htu : t ≤ 2 * u) (cfg : Cfg)
    (hc : cfg.precomputed = true) (hk : cfg.kind = .f32 ∨ cfg.kind = .f64) (K : ℕ) (hK : 5 ≤ K) (hK10 : K ≤ 10)
    (p : Planner ℝ) (hp : Usable F cfg (2 ^ K) p) (x : List (Cx ℝ)) (hx : x.length = 2 ^ K) (m : ℕ)
    (hm : m * (102 * K * u) ≤ 1) :
    ∃ p' z, cycles (trip cfg) m p x = .ok (p', z) ∧ z.length = 2 ^ K ∧
      l2 (2 ^ K) (fun s => sig z s - sig x s) ≤ 2 * (m * (102 * K * u)) * l2 (2 ^ K) (sig x) := by
  obtain ⟨p', z, e, -, hl, hb⟩ := cycles_error hF cfg _ p hp x hx m
  refine ⟨p', z, e, hl, hb.trans (mul_le_mul_of_nonneg_right ?_ (l2_nonneg _ _))⟩
  have hu0 := hF.u_nonneg
  have hg := tripGrowth_precomputed hF hu htu cfg hc hk K hK hK10
  have h1 : 1 ≤ l2Growth cfg u v t (2 ^ K) ^ 2 * scaleGrowth u v (2 ^ K) := by
    have a := l2Growth_ge hF cfg (2 ^ K) hp.pos
    have b := scaleGrowth_ge hF hp.pos
    nlinarith
  exact (sub_le_sub_right (pow_le_pow_left₀ (by linarith) (by linarith) m) 1).trans
    (drift_linear (by positivity) m hm)

/-- C125d. The same with tables built by rotation. -/
theorem cycles_error_rotation (hF : Rounding F u v t) (hu : u ≤ 1 / 100000) (htu : t ≤ 2 * u) (cfg : Cfg)
    (hc : cfg.precomputed = false) (K : ℕ) (hK : 5 ≤ K) (hs1 : 1000 * (K * 2 ^ K * u) ≤ 1)
    (p : Planner ℝ) (hp : Usable F cfg (2 ^ K) p) (x : List (Cx ℝ)) (hx : x.length = 2 ^ K) (m : ℕ)
    (hm : m * (33 * K * 2 ^ K * u) ≤ 1) :
    ∃ p' z, cycles (trip cfg) m p x = .ok (p', z) ∧ z.length = 2 ^ K ∧
      l2 (2 ^ K) (fun s => sig z s - sig x s) ≤ 2 * (m * (33 * K * 2 ^ K * u)) * l2 (2 ^ K) (sig x) := by
  obtain ⟨p', z, e, -, hl, hb⟩ := cycles_error hF cfg _ p hp x hx m
  refine ⟨p', z, e, hl, hb.trans (mul_le_mul_of_nonneg_right ?_ (l2_nonneg _ _))⟩
  have hu0 := hF.u_nonneg
  have hg := tripGrowth_rotation hF hu htu cfg hc K hK hs1
  have h1 : 1 ≤ l2Growth cfg u v t (2 ^ K) ^ 2 * scaleGrowth u v (2 ^ K) := by
    have a := l2Growth_ge hF cfg (2 ^ K) hp.pos
    have b := scaleGrowth_ge hF hp.pos
    nlinarith
  exact (sub_le_sub_right (pow_le_pow_left₀ (by linarith) (by linarith) m) 1).trans
    (drift_linear (by positivity) m hm)

/-- C125e. Integer samples are recovered by one rounding after any number of trips whose total error bound is below
one half. -/
theorem integer_cycles (hF : Rounding F u v t) (cfg : Cfg) (n : ℕ) (p : Planner ℝ) (hp : Usable F cfg n p)
    (x : List (Cx ℝ)) (hx : x.length = n) (re im : ℕ → ℤ) (M : ℝ) (hi : IntegerSamples x re im M) (m : ℕ)
    (hsmall : ((l2Growth cfg u v t n ^ 2 * scaleGrowth u v n) ^ m - 1) * (Real.sqrt n * M) < 1 / 2) :
    ∃ p' z, cycles (trip cfg) m p x = .ok (p', z) ∧ RoundsTo z n re im := by
  obtain ⟨p', z, e, -, hl, hb⟩ := cycles_error hF cfg n p hp x hx m
  subst hx
  refine ⟨p', z, e, roundsTo_of_close hi hl fun s hs => lt_of_le_of_lt ?_ hsmall⟩
  have h1 : 1 ≤ l2Growth cfg u v t x.length ^ 2 * scaleGrowth u v x.length := by
    have a := l2Growth_ge hF cfg x.length hp.pos
    have b := scaleGrowth_ge hF hp.pos
    nlinarith
  have h0 := one_le_pow₀ (n := m) h1
  refine (coord_le_l2 (fun s => sig z s - sig x s) hs).trans (hb.trans (mul_le_mul_of_nonneg_left ?_ (by linarith)))
  exact l2_of_pointwise _ _ hi.nonneg hi.bound

/-- C125f. The stack-only transforms, every power of two, in the sum of the absolute values. -/
theorem stack_cycles_error (hF : Rounding F u v t) (K : ℕ) (x : List (Cx ℝ)) (hx : x.length = 2 ^ K) (m : ℕ) :
    ∃ z, cycles stackTrip m () x = .ok ((), z) ∧ z.length = 2 ^ K ∧
      ∑ i ∈ range (2 ^ K), ‖sig z i - sig x i‖ ≤
        ((1 + 2 ^ K * (stackGrowth u t K ^ 2 * (1 + u) ^ 2 - 1)) ^ m - 1) * ∑ i ∈ range (2 ^ K), ‖sig x i‖ := by
  have hu0 := hF.u_nonneg
  have hg1 : 1 ≤ stackGrowth u t K := stackGrowth_ge hF K
  have h0 : 0 ≤ stackGrowth u t K ^ 2 * (1 + u) ^ 2 - 1 := by
    have : 1 ≤ (1 + u) ^ 2 := one_le_pow₀ (by linarith)
    nlinarith
  obtain ⟨⟨⟩, z, e, -, hl, hb⟩ := cycles_drift stackTrip (fun _ => True) (fun x : List (Cx ℝ) => x.length = 2 ^ K)
    (fun x => ∑ i ∈ range (2 ^ K), ‖sig x i‖) (fun a b => ∑ i ∈ range (2 ^ K), ‖sig a i - sig b i‖)
    (2 ^ K * (stackGrowth u t K ^ 2 * (1 + u) ^ 2 - 1)) (by positivity) (fun a => by simp)
    (fun a b c _ _ _ => by
      rw [← sum_add_distrib]
      exact sum_le_sum fun i _ => norm_sub_le_norm_sub_add_norm_sub _ _ _)
    (fun a b _ _ => by
      rw [← sum_add_distrib]
      refine sum_le_sum fun i _ => ?_
      have := norm_add_le (sig a i) (sig b i - sig a i)
      rwa [add_sub_cancel] at this)
    (fun _ a _ ha => by
      obtain ⟨y, z, e1, e2, hl, hb⟩ := stack_round_trip_error hF K a ha
      refine ⟨(), z, by simp only [stackTrip, e1, Outcome.bind_ok, e2], trivial, by omega, ?_⟩
      rw [ha] at hb
      refine (sum_le_sum fun i hi => hb i (mem_range.mp hi)).trans (le_of_eq ?_)
      rw [sum_const, card_range, nsmul_eq_mul]
      push_cast
      ring)
    m () x trivial hx
  exact ⟨z, e, hl, hb⟩

/-- C125g. The real transforms, every supported even length, either kernel, any uninitialised scratch. -/
theorem real_cycles_error (hF : Rounding F u v t) (cfg : Cfg) (simd : Bool) (un un' : ℕ → Cx ℝ) (m : ℕ) (p : Planner ℝ)
    (hp : Usable F cfg m p) (x : List ℝ) (hx : x.length = 2 * m) (c : ℕ) :
    ∃ p' z, cycles (realTrip cfg simd un un') c p x = .ok (p', z) ∧ z.length = 2 * m ∧
      ∑ s ∈ range (2 * m), |z.getD s 0 - x.getD s 0| ≤
        ((1 + 2 * m * (((fftGrowth cfg u v t m * binGrowth u v t m) ^ 2 * scaleGrowth u v m - 1) *
          (4 * fftWeight m ^ 2))) ^ c - 1) * ∑ s ∈ range (2 * m), |x.getD s 0| := by
  have hm := hp.pos
  have g1 : 1 ≤ binGrowth u v t m := le_trans (one_le_pow₀ (by linarith [hF.u_nonneg])) (binGrowth_ge hF m)
  have g2 := fftGrowth_ge hF cfg m
  have g3 := scaleGrowth_ge hF hm
  have g4 : 1 ≤ fftGrowth cfg u v t m * binGrowth u v t m := by nlinarith
  have g5 : 0 ≤ (fftGrowth cfg u v t m * binGrowth u v t m) ^ 2 * scaleGrowth u v m - 1 := by nlinarith
  obtain ⟨p', z, e, -, hl, hb⟩ := cycles_drift (realTrip cfg simd un un') (Usable F cfg m)
    (fun x : List ℝ => x.length = 2 * m)
    (fun x => ∑ i ∈ range (2 * m), |x.getD i 0|) (fun a b => ∑ i ∈ range (2 * m), |a.getD i 0 - b.getD i 0|)
    (2 * m * (((fftGrowth cfg u v t m * binGrowth u v t m) ^ 2 * scaleGrowth u v m - 1) * (4 * fftWeight m ^ 2)))
    (by positivity) (fun a => by simp)
    (fun a b c _ _ _ => by
      rw [← sum_add_distrib]
      exact sum_le_sum fun i _ => abs_sub_le _ _ _)
    (fun a b _ _ => by
      rw [← sum_add_distrib]
      refine sum_le_sum fun i _ => ?_
      have := abs_add_le (a.getD i 0) (b.getD i 0 - a.getD i 0)
      rwa [add_sub_cancel] at this)
    (fun p a hp ha => by
      obtain ⟨p1, X, p2, y, e1, e2, hl, hr, hb⟩ := rfft_round_trip_hist hF cfg simd un un' a m hm ha hp.len p hp.hist
        (List.replicate (a.length / 2 + 1) Cx.zero) (by simp [ha]) (List.replicate a.length Flt.zero) (by simp [ha])
      refine ⟨p2, y, by simp only [realTrip, e1, Outcome.bind_ok, e2], ⟨hp.pos, hp.len, hr⟩, hl, ?_⟩
      refine (sum_le_sum fun i hi => hb i (mem_range.mp hi)).trans (le_of_eq ?_)
      rw [sum_const, card_range, nsmul_eq_mul]
      push_cast
      ring)
    c p x hp hx
  exact ⟨p', z, e, hl, hb⟩

/-- Ten round trips of 1024 points in binary32 with build-time tables change the signal by less than 0.13 percent of its
norm. -/
example (fused fma : Bool) (cfg : Cfg) (hc : cfg.precomputed = true) (hk : cfg.kind = .f32) (x : List (Cx ℝ))
    (hx : x.length = 2 ^ 10) :
    letI := rndFlt 24 24 fused fma
    ∃ p' z, cycles (trip cfg) 10 Planner.new x = .ok (p', z) ∧ z.length = 2 ^ 10 ∧
      l2 (2 ^ 10) (fun s => sig z s - sig x s) ≤ 13 / 10000 * l2 (2 ^ 10) (sig x) := by
  letI := rndFlt 24 24 fused fma
  obtain ⟨p', z, e, hl, hb⟩ := cycles_error_precomputed (rndFlt_rounding 24 24 (by norm_num) (by norm_num) fused fma)
    (by norm_num) (by norm_num) cfg hc (Or.inl hk) 10 (by norm_num) (by norm_num) Planner.new
    ⟨by norm_num, Or.inr ⟨10, rfl⟩, .new⟩ x hx 10 (by norm_num)
  exact ⟨p', z, e, hl, hb.trans (mul_le_mul_of_nonneg_right (by norm_num) (l2_nonneg _ _))⟩

omit F in
/-- The hypotheses of the other versions are met: a fresh transformer, three points, rounding to 24 bits. -/
example (cfg : Cfg) (hc : cfg.std = true) (fused fma : Bool) :
    letI := rndFlt 24 24 fused fma
    Usable (rndFlt 24 24 fused fma) cfg 3 Planner.new ∧
    Rounding (rndFlt 24 24 fused fma) (1 / 2 ^ 24) (1 / 2 ^ 24) (1 / 2 ^ 24) := by
  letI := rndFlt 24 24 fused fma
  exact ⟨⟨by norm_num, Or.inl hc, .new⟩, rndFlt_rounding 24 24 (by norm_num) (by norm_num) fused fma⟩

end Kofft.Props
