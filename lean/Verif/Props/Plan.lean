import Verif.Proof.PlanReach
import Verif.Model.Parallel
import Verif.Props.Core
import Verif.Props.Strategy
/-
Properties C17, C18, C19, C21, C22, C23: back ends, plans, mixed radix, batches, parallel settings.
-/
namespace Kofft.Props
open Spec

variable {T : Type} [Flt T]

/-! ### C17: SIMD back ends -/

/-- C17, partial: whatever back end `new_fft_impl` picks for a target, `fft` on a buffer whose length is
not 1 returns bit for bit what a fresh scalar transformer returns.
Missing from the full claim: length 1, where it is false, see `simd_len1_panics`. -/
theorem backend_fft_same_partial (cfg : Cfg) (t : Target) (x : List (Cx T)) (hx : x.length ≠ 1) :
    ∃ p q y r, (newFftImpl t).fft cfg Planner.new x = .ok (p, y, r) ∧
      fft cfg Planner.new x = .ok (q, y, r) := by
  obtain ⟨q, e, -⟩ := (fft_opOk cfg).run (Planner.new : Planner T) x (inv_new cfg)
  have hs : stockhamFft cfg Planner.new x = fft cfg Planner.new x := by
    by_cases h0 : x.length = 0
    · have : x = [] := List.length_eq_zero_iff.mp h0
      subst this; rfl
    · exact stockhamFft_eq cfg _ x (inv_new cfg) (by omega)
  generalize newFftImpl t = b
  match b with
  | .scalar => exact ⟨q, q, _, _, e, e⟩
  | .simd true =>
    refine ⟨Planner.new, q, _, _, ?_, e⟩
    show (do let r ← stockhamFft cfg Planner.new x; pure (Planner.new, r.2.1, r.2.2)) = _
    rw [hs, e]; rfl
  | .simd false =>
    refine ⟨Planner.new, q, _, _, ?_, e⟩
    show (do
      let r ← if isPow2 x.length then stockhamFft cfg Planner.new x else Kofft.fft cfg Planner.new x
      pure (Planner.new, r.2.1, r.2.2)) = _
    rw [hs, ite_self, e]; rfl

/-- C17: `ifft` of every back end equals the scalar one, for every length. -/
theorem backend_ifft_same (cfg : Cfg) (t : Target) (x : List (Cx T)) :
    ∃ p q y r, (newFftImpl t).ifft cfg Planner.new x = .ok (p, y, r) ∧
      ifft cfg Planner.new x = .ok (q, y, r) := by
  obtain ⟨q, e, -⟩ := (ifft_opOk cfg).run (Planner.new : Planner T) x (inv_new cfg)
  generalize newFftImpl t = b
  match b with
  | .scalar => exact ⟨q, q, _, _, e, e⟩
  | .simd f =>
    refine ⟨Planner.new, q, _, _, ?_, e⟩
    show (do let r ← Kofft.ifft cfg Planner.new x; pure (Planner.new, r.2.1, r.2.2)) = _
    rw [e]; rfl

/-- C17: the SIMD structs keep no state, so no call can influence a later one. -/
theorem simd_stateless (cfg : Cfg) (feat : Bool) (p p' : Planner T) (x y : List (Cx T)) (r : Res) :
    ((Backend.simd feat).fft cfg p x = .ok (p', y, r) → p' = p) ∧
    ((Backend.simd feat).ifft cfg p x = .ok (p', y, r) → p' = p) := by
  constructor
  · intro e
    cases feat
    · unfold Backend.fft at e
      simp only at e
      split at e
      all_goals
        obtain ⟨_, _, e2⟩ := Outcome.bind_eq_ok e
        simp only [Outcome.pure_eq, Outcome.ok.injEq, Prod.mk.injEq] at e2
        exact e2.1.symm
    · obtain ⟨_, _, e2⟩ := Outcome.bind_eq_ok e
      simp only [Outcome.pure_eq, Outcome.ok.injEq, Prod.mk.injEq] at e2
      exact e2.1.symm
  · intro e
    obtain ⟨_, _, e2⟩ := Outcome.bind_eq_ok e
    simp only [Outcome.pure_eq, Outcome.ok.injEq, Prod.mk.injEq] at e2
    exact e2.1.symm

/-- C17, negation: on x86-64 with SSE2 (every std build), `new_fft_impl().fft` panics on a buffer of
length 1, which the scalar transformer accepts. -/
theorem simd_len1_panics (cfg : Cfg) (t : Target) (h1 : t.arch = "x86_64") (h2 : t.std = true)
    (h3 : t.detSse2 = true) (a : Cx T) :
    (newFftImpl t).fft cfg Planner.new [a] = .panic ∧
      fft cfg Planner.new [a] = .ok (Planner.new, [a], .ok ()) := by
  have : newFftImpl t = .simd t.vec := by
    unfold newFftImpl; rw [if_pos ⟨h1, h2, Or.inr (Or.inr h3)⟩]
  rw [this]
  refine ⟨?_, rfl⟩
  have hp : isPow2 1 = true := by decide
  cases t.vec
  · show (do
      let r ← if isPow2 [a].length then stockhamFft cfg Planner.new [a] else Kofft.fft cfg Planner.new [a]
      pure (Planner.new, r.2.1, r.2.2)) = _
    simp only [List.length_singleton, hp, if_true]
    rw [stockhamFft_one cfg _ [a] rfl]; rfl
  · show (do let r ← stockhamFft cfg Planner.new [a]; pure (Planner.new, r.2.1, r.2.2)) = _
    rw [stockhamFft_one cfg _ [a] rfl]; rfl

/-- Where `new_fft_impl` finds vector instructions: on x86-64 those the processor reports (AVX-512 only when the crate was built with
it), on AArch64 likewise or, without `std`, those compiled for, on WebAssembly those compiled for. -/
def _root_.Kofft.Spec.HasVector (t : Target) : Prop :=
  (t.arch = "x86_64" ∧ t.std = true ∧
    (t.avx512Feature = true ∧ t.detAvx512 = true ∨ t.detAvx2 = true ∧ t.detFma = true ∨ t.detSse2 = true)) ∨
  (t.arch = "aarch64" ∧ (if t.std then t.detNeon = true else t.vec = true)) ∨
  (t.arch = "wasm32" ∧ t.vec = true)

/-- C17: exactly which targets are affected: `new_fft_impl().fft` panics on one element where vector instructions are found, and
returns the element where they are not. -/
theorem backend_len1_iff (cfg : Cfg) (t : Target) (a : Cx T) :
    (HasVector t → (newFftImpl t).fft cfg Planner.new [a] = .panic) ∧
    (¬ HasVector t → (newFftImpl t).fft cfg Planner.new [a] = .ok (Planner.new, [a], .ok ())) := by
  have key : ∀ v, (Backend.simd v).fft cfg Planner.new [a] = .panic := by
    intro v
    cases v
    · show (do
        let r ← if isPow2 [a].length then stockhamFft cfg Planner.new [a] else Kofft.fft cfg Planner.new [a]
        pure (Planner.new, r.2.1, r.2.2)) = _
      simp only [List.length_singleton, show isPow2 1 = true by decide, if_true]
      rw [stockhamFft_one cfg _ [a] rfl]; rfl
    · show (do let r ← stockhamFft cfg Planner.new [a]; pure (Planner.new, r.2.1, r.2.2)) = _
      rw [stockhamFft_one cfg _ [a] rfl]; rfl
  constructor
  · intro h
    have : newFftImpl t = .simd t.vec := by
      unfold newFftImpl
      rcases h with h | ⟨h1, h2⟩ | ⟨h1, h2⟩
      · rw [if_pos h]
      · rw [if_neg (by simp [h1])]
        cases hs : t.std
        · rw [hs] at h2
          rw [if_neg (by simp), if_pos ⟨h1, rfl, h2⟩]
        · rw [hs] at h2
          rw [if_pos ⟨h1, rfl, h2⟩]
      · rw [if_neg (by simp [h1]), if_neg (by simp [h1]), if_neg (by simp [h1]), if_pos ⟨h1, h2⟩]
    rw [this]
    exact key _
  · intro h
    have : newFftImpl t = .scalar := by
      unfold newFftImpl
      unfold HasVector at h
      push Not at h
      obtain ⟨h1, h2, h3⟩ := h
      rw [if_neg, if_neg, if_neg, if_neg]
      · exact fun ⟨a, b⟩ => h3 a b
      · exact fun ⟨a, b, c⟩ => by have := h2 a; rw [b] at this; exact this c
      · exact fun ⟨a, b, c⟩ => by have := h2 a; rw [b] at this; exact this c
      · exact fun ⟨a, b, c⟩ => by
          obtain ⟨c1, c2, c3⟩ := h1 a b
          rcases c with ⟨c, d⟩ | ⟨c, d⟩ | c
          · exact c1 c d
          · exact c2 c d
          · exact c3 c
    rw [this]
    rfl

/-- Both back ends occur. -/
example : newFftImpl ⟨"x86_64", true, false, false, true, true, true, false, true⟩ = .simd true ∧
    newFftImpl ⟨"x86_64", false, false, false, true, true, true, false, true⟩ = .scalar := by decide

/-! ### C18: `FftPlan` -/

/-- C18a. A plan for `n` rejects every other length without touching the buffer or itself. -/
theorem plan_rejects (cfg : Cfg) (n : Nat) (st : Strategy) (pl : Plan T) (h : PlanReach cfg n st pl)
    (x : List (Cx T)) (hx : x.length ≠ n) :
    pl.fft cfg x = .ok (pl, x, .error .MismatchedLengths) ∧
    pl.ifft cfg x = .ok (pl, x, .error .MismatchedLengths) := by
  have := (planReach_inv h).n_eq
  constructor
  · unfold Plan.fft; rw [this, if_pos hx]
  · unfold Plan.ifft; rw [this, if_pos hx]

/-- C18a. The out-of-place variants reject unless both lengths are `n`, otherwise they are the in-place
transform of the input. -/
theorem plan_out_of_place (cfg : Cfg) (n : Nat) (st : Strategy) (pl : Plan T) (h : PlanReach cfg n st pl)
    (op : Plan T → List (Cx T) → Outcome (Plan T × List (Cx T) × Res)) (x o : List (Cx T)) :
    (x.length ≠ n ∨ o.length ≠ n → pl.outOfPlace op x o = .ok (pl, o, .error .MismatchedLengths)) ∧
    (x.length = n → o.length = n → pl.outOfPlace op x o = op pl x) := by
  have := (planReach_inv h).n_eq
  constructor
  · intro hn; unfold Plan.outOfPlace; rw [this, if_pos hn]
  · intro h1 h2; unfold Plan.outOfPlace; rw [this, if_neg (by simp [h1, h2])]

/-- C18b. History independence, bit for bit and for every strategy and element type: a plan that has been
used in any way returns what a new plan returns (including panics). -/
theorem plan_history_independent (cfg : Cfg) (n : Nat) (st : Strategy) (pl : Plan T)
    (h : PlanReach cfg n st pl) (x : List (Cx T)) :
    (∀ y r, (∃ pl', pl.fft cfg x = .ok (pl', y, r)) ↔
      ∃ pl', (Plan.new cfg n st).fft cfg x = .ok (pl', y, r)) ∧
    (∀ y r, (∃ pl', pl.ifft cfg x = .ok (pl', y, r)) ↔
      ∃ pl', (Plan.new cfg n st).ifft cfg x = .ok (pl', y, r)) := by
  have hi := planReach_inv h
  have hn : PlanInv cfg n st (Plan.new cfg n st : Plan T) := planReach_inv .new
  have e1 := plan_fft_rel hi hn x
  have e2 := plan_ifft_rel hi hn x
  have k : ∀ (a b : Outcome (Plan T × List (Cx T) × Res)),
      RelO (fun a b => a.2 = b.2) a b → ∀ y r, (∃ p, a = .ok (p, y, r)) ↔ ∃ p, b = .ok (p, y, r) := by
    intro a b hab y r
    cases a with
    | ok a =>
      cases b with
      | ok b =>
        obtain ⟨a1, a2, a3⟩ := a
        obtain ⟨b1, b2, b3⟩ := b
        have hab : (a2, a3) = (b2, b3) := hab
        simp only [Prod.mk.injEq] at hab
        simp [hab.1, hab.2]
      | panic => exact hab.elim
      | hang => exact hab.elim
    | panic => cases b <;> first | exact hab.elim | simp
    | hang => cases b <;> first | exact hab.elim | simp
  have e1' : RelO (fun a b => a.2 = b.2) (pl.fft cfg x) ((Plan.new cfg n st).fft cfg x) := by
    generalize pl.fft cfg x = a at e1 ⊢
    generalize (Plan.new cfg n st : Plan T).fft cfg x = b at e1 ⊢
    cases a <;> cases b <;> first | exact e1.1 | exact e1.elim | trivial
  exact ⟨k _ _ e1', k _ _ e2⟩

/-- The plans for which `FftPlan::fft` is covered: the f32 table paths from length 2 on, the other paths
unless they end in `fft_radix4` on `4^k`, `k ≥ 2`. -/
def PlanCovered (cfg : Cfg) (n : Nat) (st : Strategy) : Prop :=
  if cfg.kind = .f32 ∧ (st = .Radix2 ∨ st = .Radix4) then n ≠ 1
  else st ≠ .Radix4 ∨ cfg.std = false ∨ ¬ ∃ k, 2 ≤ k ∧ n = 4 ^ k

/-- In the covered cases a plan does exactly what a fresh transformer does. -/
theorem plan_eq_fft (cfg : Cfg) (n : Nat) (st : Strategy) (hc : PlanCovered cfg n st) (pl : Plan T)
    (h : PlanReach cfg n st pl) (x : List (Cx T)) (hx : x.length = n) :
    ∃ pl' q y r, pl.fft cfg x = .ok (pl', y, r) ∧ fft cfg Planner.new x = .ok (q, y, r) := by
  have hi := planReach_inv h
  obtain ⟨q, e, -⟩ := (fft_opOk cfg).run (Planner.new : Planner T) x (inv_new cfg)
  by_cases hf : cfg.kind = .f32 ∧ (st = .Radix2 ∨ st = .Radix4)
  · unfold PlanCovered at hc
    rw [if_pos hf] at hc
    refine ⟨pl, q, _, _, ?_, e⟩
    have hs : stockhamFft cfg Planner.new x = fft cfg Planner.new x := by
      by_cases h0 : x.length = 0
      · have : x = [] := List.length_eq_zero_iff.mp h0
        subst this; rfl
      · exact stockhamFft_eq cfg _ x (inv_new cfg) (by omega)
    unfold Plan.fft
    rw [hi.n_eq, hi.st_eq, hi.tw_eq, if_neg (by simpa using hx), if_pos hf.1, if_pos hf.1]
    rcases hf.2 with rfl | rfl
    · simp only [fftRadixTw, hs, e, Outcome.bind_ok, Outcome.pure_eq]
    · simp only [fftRadixTw, hs, e, Outcome.bind_ok, Outcome.pure_eq]
  · unfold PlanCovered at hc
    rw [if_neg hf] at hc
    have hI := reachVia_inv hi.reach
    obtain ⟨p', e1, -⟩ := (fft_opOk cfg).run pl.planner x hI
    have hb : fftBuf cfg pl.planner x = fftBuf cfg Planner.new x := by
      rcases fftRes_cases cfg x.length with hr | ⟨er, hr⟩
      · rw [fftBuf_fresh cfg _ x hI hr (compat_of_reach (by rw [hx]; exact hi.via)),
          fftBuf_fresh cfg _ x (inv_new cfg) hr (compat_new cfg _)]
      · rw [fftBuf_err cfg _ x hr, fftBuf_err cfg _ x hr]
    have hse := strategy_eq cfg st pl.planner x hI (by rw [hx]; exact hc)
    refine ⟨{ pl with planner := p' }, q, _, _, ?_, e⟩
    have hslow : (do
        let r ← fftWithStrategy cfg pl.strategy pl.planner x
        pure (({ pl with planner := r.1 } : Plan T), r.2.1, r.2.2)) =
        .ok ({ pl with planner := p' }, fftBuf cfg Planner.new x, fftRes cfg x.length) := by
      rw [hi.st_eq, hse, e1, hb]; rfl
    have hxn : x.length = pl.n := by rw [hx, hi.n_eq]
    have hst := hi.st_eq
    obtain ⟨n', st', tw', p0⟩ := pl
    simp only at hst hxn
    subst hst hxn
    unfold Plan.fft
    simp only [ne_eq, not_true, if_false]
    split
    · rename_i hk
      match st', hf, hslow with
      | .Radix2, hf, _ => exact absurd ⟨hk, Or.inl rfl⟩ hf
      | .Radix4, hf, _ => exact absurd ⟨hk, Or.inr rfl⟩ hf
      | .Auto, _, hslow => exact hslow
      | .SplitRadix, _, hslow => exact hslow
    · exact hslow

/-- C18c, partial: on buffers of length `n ≥ 1`, a plan, fresh or used, computes the DFT.
Missing from the full claim: f32 `Radix2`/`Radix4` plans of length 1 (they panic, `plan_len1_panics`) and
non-f32 `Radix4` plans of length `4^k`, `k ≥ 2` (wrong result, `plan_radix4_wrong`). -/
theorem plan_fft_is_dft_partial [F : Flt ℝ] (hF : Lawful F) (cfg : Cfg) (n : Nat) (st : Strategy)
    (hc : PlanCovered cfg n st) (hn0 : 0 < n) (hn : cfg.std = true ∨ ∃ k, n = 2 ^ k) (pl : Plan ℝ)
    (h : PlanReach cfg n st pl) (x : List (Cx ℝ)) (hx : x.length = n) :
    ∃ pl' y, pl.fft cfg x = .ok (pl', y, .ok ()) ∧ IsDft x y := by
  obtain ⟨pl', q, y, r, e1, e2⟩ := plan_eq_fft cfg n st hc pl h x hx
  obtain ⟨q', y', e3, hd⟩ := fft_is_dft_used hF cfg x (by omega) (by rw [hx]; exact hn) Planner.new .new
  rw [e2] at e3
  simp only [Outcome.ok.injEq, Prod.mk.injEq] at e3
  obtain ⟨-, rfl, rfl⟩ := e3
  exact ⟨pl', y, e1, hd⟩

/-- C18d, partial: `ifft` of a plan, fresh or used, computes the inverse DFT (same exclusions). -/
theorem plan_ifft_is_idft_partial [F : Flt ℝ] (hF : Lawful F) (cfg : Cfg) (n : Nat) (st : Strategy)
    (hc : PlanCovered cfg n st) (hn0 : 2 ≤ n) (hn : cfg.std = true ∨ ∃ k, n = 2 ^ k) (pl : Plan ℝ)
    (h : PlanReach cfg n st pl) (x : List (Cx ℝ)) (hx : x.length = n) :
    ∃ pl' y, pl.ifft cfg x = .ok (pl', y, .ok ()) ∧ IsIdft x y := by
  have hi := planReach_inv h
  have hxc : (x.map Cx.conj).length = n := by simpa using hx
  obtain ⟨pl', q, y, r, e1, e2⟩ := plan_eq_fft cfg n st hc pl h (x.map Cx.conj) hxc
  have hr : fftRes cfg x.length = .ok () := by
    rw [hx]
    rcases hn with h | h
    · exact fftRes_std h (by omega)
    · exact fftRes_pow2 cfg (isPow2_iff.mpr h)
  have hid := ifftBuf_isIdft hF cfg Planner.new x (inv_new cfg) hr (compat_new cfg _)
  obtain ⟨q', e3, -⟩ := (fft_opOk cfg).run (Planner.new : Planner ℝ) (x.map Cx.conj) (inv_new cfg)
  rw [e2] at e3
  simp only [Outcome.ok.injEq, Prod.mk.injEq] at e3
  obtain ⟨-, rfl, rfl⟩ := e3
  have hn' := (Plan.fft_inv hi e1).n_eq
  have hr' : fftRes cfg (x.map Cx.conj).length = .ok () := by rw [List.length_map]; exact hr
  unfold ifftBuf at hid
  rw [if_neg (by omega), hr] at hid
  refine ⟨pl', _, ?_, hid⟩
  unfold Plan.ifft
  rw [hi.n_eq, if_neg (by simpa using hx)]
  simp only
  rw [e1, hr']
  simp only [Outcome.bind_ok, hn', hx]

/-- C18, negation: an f32 `Radix2` or `Radix4` plan of length 1 panics. -/
theorem plan_len1_panics (cfg : Cfg) (hk : cfg.kind = .f32) (st : Strategy)
    (hst : st = .Radix2 ∨ st = .Radix4) (a : Cx T) : (Plan.new cfg 1 st).fft cfg [a] = .panic := by
  unfold Plan.fft Plan.new
  simp only [List.length_singleton, ne_eq, not_true, if_false, hk, if_true]
  rcases hst with rfl | rfl
  · simp only [fftRadixTw, stockhamFft_one cfg _ [a] rfl, Outcome.bind_panic]
  · simp only [fftRadixTw, stockhamFft_one cfg _ [a] rfl, Outcome.bind_panic]

/-- C18, negation: a non-f32 `Radix4` plan of length 16 does not compute the DFT. -/
theorem plan_radix4_wrong [F : Flt ℝ] (hF : Lawful F) (cfg : Cfg) (hstd : cfg.std = true)
    (hk : cfg.kind ≠ .f32) :
    ∃ pl' y, (Plan.new cfg 16 .Radix4).fft cfg impulse5 = .ok (pl', y, .ok ()) ∧ ¬ IsDft impulse5 y := by
  obtain ⟨p', y, e, hy⟩ := radix4_wrong hF cfg hstd
  refine ⟨⟨16, .Radix4, none, p'⟩, y, ?_, hy⟩
  have hl : impulse5.length = 16 := tab_length _ _
  unfold Plan.fft Plan.new
  simp only [hl, ne_eq, not_true, if_false, hk, e, Outcome.bind_ok, Outcome.pure_eq]

/-- C18e. The split interface of a plan: rejects wrong lengths untouched; otherwise `fft_split` gives the
components of the DFT, bit for bit those of a fresh transformer, however the plan was used before. -/
theorem plan_split (cfg : Cfg) (n : Nat) (st : Strategy) (pl : Plan T) (h : PlanReach cfg n st pl)
    (re im : List T) :
    (re.length ≠ n ∨ im.length ≠ n →
      pl.split (fftSplit cfg) re im = .ok (pl, re, im, .error .MismatchedLengths) ∧
      pl.split (ifftSplit cfg) re im = .ok (pl, re, im, .error .MismatchedLengths)) ∧
    (re.length = n → im.length = n →
      ∃ pl' q re' im' y r, pl.split (fftSplit cfg) re im = .ok (pl', re', im', r) ∧
        fft cfg Planner.new (List.zipWith Cx.mk re im) = .ok (q, y, r) ∧
        re' = y.map Cx.re ∧ im' = y.map Cx.im) := by
  have hi := planReach_inv h
  constructor
  · intro hne
    unfold Plan.split
    rw [hi.n_eq, if_pos hne, if_pos hne]
    exact ⟨rfl, rfl⟩
  · intro h1 h2
    have hreach : Reach cfg pl.planner := ReachVia.mono (fun _ _ => trivial) hi.reach
    obtain ⟨p1, p2, re', im', y, r, e1, e2, -, e3, e4⟩ := fft_split_eq cfg pl.planner hreach re im
      (by rw [h1, h2]) (Or.inr (by rw [h1]; exact hi.via))
    refine ⟨{ pl with planner := p1 }, p2, re', im', y, r, ?_, e2, e3, e4⟩
    unfold Plan.split
    rw [hi.n_eq, if_neg (by simp [h1, h2]), e1]; rfl

/-- Covered plans exist for every strategy; a used plan is reachable. -/
example (cfg : Cfg) (a b : Cx T) : PlanCovered cfg 8 .Auto ∧ PlanCovered ⟨true, .f32, false, 4, false⟩ 16 .Radix4 ∧
    PlanCovered ⟨true, .f64, false, 4, false⟩ 4 .Radix4 ∧
    ∃ pl : Plan T, PlanReach cfg 2 .Auto pl ∧
      ∃ y r, (Plan.new cfg 2 .Auto).fft cfg [a, b] = .ok (pl, y, r) := by
  refine ⟨?_, ?_, ?_, ?_⟩
  · unfold PlanCovered; simp
  · unfold PlanCovered; simp
  · unfold PlanCovered
    simp only [reduceCtorEq, false_and, if_false]
    refine Or.inr (Or.inr ?_)
    rintro ⟨k, hk, h⟩
    have : 4 ^ 2 ≤ 4 ^ k := Nat.pow_le_pow_right (by norm_num) hk
    omega
  · obtain ⟨pl', q, y, r, e1, -⟩ := plan_eq_fft cfg 2 .Auto (by unfold PlanCovered; simp)
      (Plan.new cfg 2 .Auto) .new [a, b] rfl
    exact ⟨pl', .fft .new e1, y, r, e1⟩

/-! ### C19: mixed radix -/

/-- C19a. `factorize` terminates for every `n ≥ 1` and returns primes whose product is `n`. -/
theorem factorize_spec (n : Nat) (hn : 0 < n) :
    ∃ fs, factorize n = .ok fs ∧ (∀ f ∈ fs, Nat.Prime f) ∧ fs.prod = n := factorize_ok hn

/-- C19a. The result does not depend on the loop bound used in the model. -/
theorem factorize_terminates (n : Nat) (hn : 0 < n) (fuel : Nat) (hf : n + 1 < fuel) :
    ∃ fs, factorizeF fuel n = .ok fs ∧ (∀ f ∈ fs, Nat.Prime f) ∧ fs.prod = n := factorizeF_ok hn hf

/-- `factorize(0)` never returns, whatever the bound. -/
theorem factorize_zero_hangs (fuel : Nat) : factorizeF fuel 0 = .hang := factorizeF_zero fuel

/-- C19b. `fft_mixed_radix` is bit for bit `fft`: same buffer, code and transformer, for every length
including 0 and 1 and for every history. -/
theorem mixed_radix_same (cfg : Cfg) (p : Planner T) (hp : Reach cfg p) (x : List (Cx T)) :
    fftMixed cfg p x = fft cfg p x := fftMixed_eq cfg p x (reach_inv hp)

/-- C19b. Hence it is the DFT on every length the build supports. -/
theorem mixed_radix_is_dft [F : Flt ℝ] (hF : Lawful F) (cfg : Cfg) (x : List (Cx ℝ)) (hx : 0 < x.length)
    (hn : cfg.std = true ∨ ∃ k, x.length = 2 ^ k) (p : Planner ℝ)
    (hp : ReachVia cfg (fun m => workSize m ≤ workSize x.length) p) :
    ∃ p' y, fftMixed cfg p x = .ok (p', y, .ok ()) ∧ IsDft x y := by
  rw [fftMixed_eq cfg p x (reachVia_inv hp)]
  exact fft_is_dft_used hF cfg x hx hn p hp

/-- C19c. `fft_mixed_radix_with_twiddles` is bit for bit `fft` from length 2 on, whatever table is passed. -/
theorem mixed_radix_tw_same (cfg : Cfg) (tw : TwBuf T) (p : Planner T) (hp : Reach cfg p)
    (x : List (Cx T)) (hx : 2 ≤ x.length) : fftMixedTw cfg tw p x = fft cfg p x :=
  fftMixedTw_eq cfg tw p x (reach_inv hp) hx

/-- Below length 2 the same function never returns normally: it hangs on an empty buffer and panics on
a buffer of length 1. -/
theorem mixed_radix_tw_small (cfg : Cfg) (tw : TwBuf T) (p : Planner T) (a : Cx T) :
    fftMixedTw cfg tw p [] = .hang ∧ fftMixedTw cfg tw p [a] = .panic := by
  constructor
  · unfold fftMixedTw factorize
    rw [List.length_nil, factorizeF_zero]; rfl
  · obtain ⟨fs, e, hp, hprod⟩ := factorize_ok (n := [a].length) (by simp)
    unfold fftMixedTw fftRadixTw
    have : fs = [] := by
      cases fs with
      | nil => rfl
      | cons f fs =>
        have h1 := (hp f (by simp)).two_le
        have h2 : f ∣ 1 := by
          rw [← show (f :: fs).prod = 1 from hprod]; exact ⟨fs.prod, by simp⟩
        have := Nat.dvd_one.mp h2
        omega
    rw [e, this, stockhamFft_one cfg p [a] rfl]
    rfl

example : ∃ fs, factorize 84 = .ok fs ∧ fs.prod = 84 :=
  (factorize_spec 84 (by norm_num)).imp fun _ h => ⟨h.1, h.2.2⟩

/-! ### C21: batches -/

/-- The buffer and result code a fresh transformer produces. -/
def FreshGives (op : FftOp T) (x y : List (Cx T)) (r : Res) : Prop :=
  ∃ p, op Planner.new x = .ok (p, y, r)

/-- What the caller of `batch` should see: every buffer transformed as by a fresh transformer up to the
first failing one, later buffers unchanged, and the first failure reported. -/
inductive BatchSpec (op : FftOp T) : List (List (Cx T)) → List (List (Cx T)) → Res → Prop
  | nil : BatchSpec op [] [] (.ok ())
  | ok {x xs y ys r} : FreshGives op x y (.ok ()) → BatchSpec op xs ys r → BatchSpec op (x :: xs) (y :: ys) r
  | err {x xs y e} : FreshGives op x y (.error e) → BatchSpec op (x :: xs) (y :: xs) (.error e)

theorem op_fresh (cfg : Cfg) (op : FftOp T) (hop : IsOp cfg op) (p : Planner T) (x : List (Cx T))
    (hp : ReachVia cfg (fun m => workSize m ≤ workSize x.length) p) :
    ∃ p' y r, op p x = .ok (p', y, r) ∧ FreshGives op x y r := by
  have hI := reachVia_inv hp
  have key : ∀ z : List (Cx T), z.length = x.length → fftBuf cfg p z = fftBuf cfg Planner.new z := by
    intro z hz
    rcases fftRes_cases cfg z.length with hr | ⟨er, hr⟩
    · rw [fftBuf_fresh cfg p z hI hr (compat_of_reach (by rw [hz]; exact hp)),
        fftBuf_fresh cfg _ z (inv_new cfg) hr (compat_new cfg _)]
    · rw [fftBuf_err cfg _ z hr, fftBuf_err cfg _ z hr]
  rcases hop with rfl | rfl
  · obtain ⟨p', e, -⟩ := (fft_opOk cfg).run p x hI
    obtain ⟨q, e', -⟩ := (fft_opOk cfg).run (Planner.new : Planner T) x (inv_new cfg)
    rw [key x rfl] at e
    exact ⟨p', _, _, e, q, e'⟩
  · obtain ⟨p', e, -⟩ := (ifft_opOk cfg).run p x hI
    obtain ⟨q, e', -⟩ := (ifft_opOk cfg).run (Planner.new : Planner T) x (inv_new cfg)
    have : ifftBuf cfg p x = ifftBuf cfg Planner.new x := by
      unfold ifftBuf
      rw [key (x.map Cx.conj) (by simp)]
    rw [this] at e
    exact ⟨p', _, _, e, q, e'⟩

/-- C21, partial: `batch`, `batch_inverse`, `multi_channel`, `multi_channel_inverse` when the internal
transform sizes of the buffers never decrease (in particular when all buffers have the same length).
Missing from the full claim: a larger buffer before a smaller one; there it is false, see
`batch_mixed_wrong`. -/
theorem batch_spec_partial (cfg : Cfg) (op : FftOp T) (hop : IsOp cfg op) (p : Planner T)
    (xs : List (List (Cx T)))
    (hp : ∀ x ∈ xs, ReachVia cfg (fun m => workSize m ≤ workSize x.length) p)
    (hs : xs.Pairwise (fun a b => workSize a.length ≤ workSize b.length)) :
    ∃ p' ys r, batch op p xs = .ok (p', ys, r) ∧ BatchSpec op xs ys r := by
  induction xs generalizing p with
  | nil => exact ⟨p, [], .ok (), rfl, .nil⟩
  | cons x xs ih =>
    obtain ⟨p1, y, r, e, hf⟩ := op_fresh cfg op hop p x (hp x (by simp))
    rw [List.pairwise_cons] at hs
    cases r with
    | error er =>
      refine ⟨p1, y :: xs, .error er, ?_, .err hf⟩
      unfold batch; rw [e]; rfl
    | ok u =>
      have hp1 : ∀ z ∈ xs, ReachVia cfg (fun m => workSize m ≤ workSize z.length) p1 := by
        intro z hz
        have h1 := hp z (by simp [hz])
        rcases hop with rfl | rfl
        · exact .fft h1 (hs.1 z hz) e
        · exact .ifft h1 (hs.1 z hz) e
      obtain ⟨p2, ys, r2, e2, hb⟩ := ih p1 hp1 hs.2
      refine ⟨p2, y :: ys, r2, ?_, .ok hf hb⟩
      unfold batch
      rw [e]
      simp only [Outcome.bind_ok, e2]

/-- C21: for arbitrary buffers and histories a batch returns, preserves the number and lengths of the
buffers, succeeds exactly when every single transform would, and leaves everything after the first
failing buffer unchanged. -/
theorem batch_total (cfg : Cfg) (op : FftOp T) (hop : IsOp cfg op) (p : Planner T) (hp : Reach cfg p)
    (xs : List (List (Cx T))) :
    ∃ p' ys r, batch op p xs = .ok (p', ys, r) ∧ Reach cfg p' ∧
      ys.map List.length = xs.map List.length ∧
      (r = .ok () ↔ ∀ x ∈ xs, x.length ≠ 0 ∧ (cfg.std = true ∨ ∃ k, x.length = 2 ^ k)) ∧
      (∀ i x, i < xs.length → xs[i]? = some x →
        (∃ j z, j < i ∧ xs[j]? = some z ∧ ¬ (z.length ≠ 0 ∧ (cfg.std = true ∨ ∃ k, z.length = 2 ^ k))) →
        ys[i]? = some x) := by
  have hres : ∀ n, fftRes cfg n = .ok () ↔ n ≠ 0 ∧ (cfg.std = true ∨ ∃ k, n = 2 ^ k) := by
    intro n
    rw [← isPow2_iff]
    unfold fftRes
    split
    · rename_i h; simp [h]
    · rename_i h
      cases hs : cfg.std <;> cases hq : isPow2 n <;> simp [h]
  induction xs generalizing p with
  | nil => exact ⟨p, [], .ok (), rfl, hp, rfl, by simp, by simp⟩
  | cons x xs ih =>
    obtain ⟨out, ho⟩ := hop.opOk
    obtain ⟨p1, e, -, hl, -⟩ := ho.run p x (reach_inv hp)
    have hp1 : Reach cfg p1 := by
      rcases hop with rfl | rfl
      · exact .fft hp trivial e
      · exact .ifft hp trivial e
    rcases fftRes_cases cfg x.length with hr | ⟨er, hr⟩
    · obtain ⟨p2, ys, r2, e2, h2, hl2, hk, hfr⟩ := ih p1 hp1
      refine ⟨p2, out p x :: ys, r2, ?_, h2, by simp [hl, hl2], ?_, ?_⟩
      · unfold batch
        rw [e, hr]
        simp only [Outcome.bind_ok, e2]
      · rw [hk]
        have := (hres x.length).mp hr
        constructor
        · intro h z hz
          rcases List.mem_cons.mp hz with rfl | hz
          · exact this
          · exact h z hz
        · intro h z hz; exact h z (by simp [hz])
      · intro i z hi hz hj
        obtain ⟨j, w, hji, hw, hbad⟩ := hj
        cases i with
        | zero => omega
        | succ i =>
          simp only [List.getElem?_cons_succ] at hz ⊢
          cases j with
          | zero =>
            simp only [List.getElem?_cons_zero, Option.some.injEq] at hw
            subst hw
            exact absurd ((hres _).mp hr) hbad
          | succ j =>
            exact hfr i z (by simpa using hi) hz ⟨j, w, by omega, by simpa using hw, hbad⟩
    · refine ⟨p1, out p x :: xs, .error er, ?_, hp1, by simp [hl], ?_, ?_⟩
      · unfold batch; rw [e, hr]; rfl
      · constructor
        · intro h; simp at h
        · intro h
          have := (hres x.length).mpr (h x (by simp))
          rw [hr] at this; simp at this
      · intro i z hi hz hj
        obtain ⟨j, w, hji, -⟩ := hj
        cases i with
        | zero => omega
        | succ i => simpa using hz

/-- C21, negation: on f32/f64, a batch of a 64-sample impulse and 32 zeros returns a nonzero second
spectrum (bin 0 is 32), although a fresh transformer returns zeros for it. -/
theorem batch_mixed_wrong [F : Flt ℝ] (hF : Lawful F) (cfg : Cfg)
    (hk : cfg.kind = .f32 ∨ cfg.kind = .f64) :
    ∃ p q Y y y0, batch (fft cfg) Planner.new
        [⟨1, 0⟩ :: List.replicate 63 ⟨0, 0⟩, List.replicate 32 ⟨0, 0⟩] = .ok (p, [Y, y], .ok ()) ∧
      fft cfg Planner.new (List.replicate 32 ⟨0, 0⟩) = .ok (q, y0, .ok ()) ∧
      sig y 0 = 32 ∧ sig y0 0 = 0 := by
  obtain ⟨p, p1, p2, Y, x, y, y0, -, e1, e2, e3, rfl, h1, h2⟩ := fft_history_dependent hF cfg hk
  refine ⟨p1, p2, Y, y, y0, ?_, e3, h1, h2⟩
  unfold batch
  rw [e1]
  simp only [Outcome.bind_ok, batch, e2]

example (cfg : Cfg) (a : Cx T) : ([[a, a], [a, a], [a, a, a]] : List (List (Cx T))).Pairwise
    (fun a b => workSize a.length ≤ workSize b.length) ∧
    ∀ x ∈ ([[a, a], [a, a], [a, a, a]] : List (List (Cx T))),
      ReachVia cfg (fun m => workSize m ≤ workSize x.length) (Planner.new : Planner T) := by
  refine ⟨?_, fun _ _ => .new⟩
  have h2 : workSize 2 = 2 := by decide
  have h3 : 2 ≤ workSize 3 := by decide
  simp [h2, h3]

/-! ### C22: parallel execution -/

omit [Flt T] in
theorem parForEach_get {α : Type} (order : List Nat) (hnd : order.Nodup) (f : α → α) (l : List α)
    (i : Nat) : (parForEach order f l)[i]? = if i ∈ order then l[i]?.map f else l[i]? := by
  induction order generalizing l with
  | nil => rfl
  | cons j order ih =>
    rw [List.nodup_cons] at hnd
    show (parForEach order f (l.modify j f))[i]? = _
    rw [ih hnd.2, List.getElem?_modify]
    by_cases hij : i = j
    · subst hij
      rw [if_neg hnd.1, if_pos (by simp)]
      simp
    · simp only [show ¬ j = i from fun e => hij e.symm, if_false]
      have : (i ∈ j :: order) ↔ i ∈ order := by simp [hij]
      simp only [this]
      simp

theorem parForEach_eq {α : Type} (order : List Nat) (f : α → α) (l : List α)
    (h : order.Perm (List.range l.length)) : parForEach order f l = l.map f := by
  apply List.ext_getElem?
  intro i
  rw [parForEach_get order (h.nodup_iff.mpr List.nodup_range)]
  have : i ∈ order ↔ i < l.length := by rw [h.mem_iff, List.mem_range]
  by_cases hi : i < l.length
  · rw [if_pos (this.mpr hi), List.getElem?_map]
  · rw [if_neg (fun hm => hi (this.mp hm))]
    simp at hi
    simp [hi]

/-- `ifft` with the `parallel` feature, whatever is decided. -/
theorem ifftPar_same (cfg : Cfg) (par : Bool) (p : Planner T) (hp : Reach cfg p)
    (x : List (Cx T)) (o1 o2 : List Nat) (h1 : o1.Perm (List.range x.length))
    (h2 : o2.Perm (List.range x.length)) : ifftPar cfg par o1 o2 p x = ifft cfg p x := by
  unfold ifftPar ifft ifftWith
  simp only
  by_cases h0 : x.length = 0
  · simp only [h0, if_true]
  by_cases hone : x.length = 1
  · simp only [hone, if_true, one_ne_zero, if_false]
  simp only [h0, hone, if_false]
  split
  · rw [parForEach_eq o1 _ x h1]
    obtain ⟨p', e, -, hl, -⟩ := (fft_opOk cfg).run p (x.map Cx.conj) (reach_inv hp)
    rw [e]
    simp only [Outcome.bind_ok]
    rw [List.length_map] at hl
    cases fftRes cfg (x.map Cx.conj).length with
    | error _ => rfl
    | ok _ =>
      simp only
      rw [parForEach_eq o2 _ _ (by rw [hl]; exact h2)]
  · rfl

/-- C22. `ifft` with the `parallel` feature returns bit for bit what the sequential `ifft` returns, on
every transformer state and buffer, whatever the environment, the overrides, and the order in which the
worker threads get to the elements in either parallel loop. -/
theorem parallel_same (cfg : Cfg) (env : ParEnv) (ov : ParOv) (p : Planner T) (hp : Reach cfg p)
    (x : List (Cx T)) (o1 o2 : List Nat) (h1 : o1.Perm (List.range x.length))
    (h2 : o2.Perm (List.range x.length)) :
    ifftPar cfg (shouldParallelize env ov x.length (parThreshold env)) o1 o2 p x = ifft cfg p x :=
  ifftPar_same cfg _ p hp x o1 o2 h1 h2

example : [2, 0, 1].Perm (List.range 3) := by decide

/-! ### C23: tuning knobs -/

/-- C23a. A nonzero threshold override decides alone. -/
theorem threshold_override (e : ParEnv) (o : ParOv) (n v : Nat) (hv : v ≠ 0) :
    shouldParallelize e (setThreshold o v) n (parThreshold e) = true ↔ v ≤ n := by
  unfold shouldParallelize setThreshold
  simp [hv]

/-- C23b. Passing 0 undoes any earlier threshold override. -/
theorem threshold_revert (e : ParEnv) (o : ParOv) (n v : Nat) (ho : o.threshold = 0) :
    shouldParallelize e (setThreshold (setThreshold o v) 0) n (parThreshold e) =
      shouldParallelize e o n (parThreshold e) := by
  unfold setThreshold
  cases o
  simp only at ho
  subst ho
  rfl

/-- C23c, partial: the documented formula of the built-in heuristic,
`n ≥ max(L1/8, per-core work, calibration, block size) * threads`, holds for environment values when no
threshold is set. Missing from the full claim: the overrides of those parameters, which have no effect,
see `knobs_ignored`. -/
theorem heuristic_partial (e : ParEnv) (o : ParOv) (n : Nat) (ho : o.threshold = 0)
    (he : e.threshold = 0) (ht : e.threads ≠ 0) :
    shouldParallelize e o n (parThreshold e) = true ↔
      max (e.cacheBytes / 8) (max (max e.perCoreWork e.calibrated) e.blockSize) * e.threads ≤ n := by
  have hc := e.calibrated_ge
  have hpos : max (e.cacheBytes / 8) (max (max e.perCoreWork e.calibrated) e.blockSize) * e.threads ≠ 0 := by
    apply Nat.mul_ne_zero _ ht
    omega
  unfold shouldParallelize parThreshold
  simp only [ho, he, ne_eq, not_true, if_false]
  rw [if_pos hpos]
  simp

/-- C23, negation: while no threshold is set, the L1-cache, per-core-work, block-size and thread overrides
never change the decision (unless the thread count from the environment is zero). -/
theorem knobs_ignored (e : ParEnv) (o : ParOv) (n c w b t : Nat)
    (he : e.threshold ≠ 0 ∨ e.threads ≠ 0) :
    shouldParallelize e (setThreads (setBlockSize (setPerCoreWork (setL1Cache o c) w) b) t) n
      (parThreshold e) = shouldParallelize e o n (parThreshold e) := by
  have hc := e.calibrated_ge
  have hpos : parThreshold e ≠ 0 := by
    unfold parThreshold
    split
    · assumption
    · rename_i h
      have ht : e.threads ≠ 0 := by
        rcases he with he | he
        · exact absurd he h
        · exact he
      apply Nat.mul_ne_zero _ ht
      omega
  unfold shouldParallelize setThreads setBlockSize setPerCoreWork setL1Cache
  simp only
  have : (if o.threshold ≠ 0 then o.threshold else parThreshold e) ≠ 0 := by
    split <;> assumption
  rw [if_pos this, if_pos this]

/-- So the documented effect is refuted concretely: with one thread and a 4096-point calibration, an L1
override of 1 MiB should raise the limit to 131072 but 4096 points are still parallelised. -/
theorem knobs_documented_false :
    ∃ (e : ParEnv) (o : ParOv), o.threshold = 0 ∧ o.cacheBytes = 1048576 ∧
      shouldParallelize e o 4096 (parThreshold e) = true ∧ ¬ (o.cacheBytes / 8 * e.threads ≤ 4096) := by
  refine ⟨⟨0, 32768, 4096, 1024, 1, 4096, le_rfl⟩, setL1Cache {} 1048576, rfl, rfl, ?_, ?_⟩
  · decide
  · decide

/-- The documented setting of one parameter: the last value set unless it is 0, else the environment variable or built-in default. -/
def _root_.Kofft.Spec.knob (set default : Nat) : Nat := if set = 0 then default else set

/-- The documented limit: elements per core times cores. -/
def _root_.Kofft.Spec.parLimit (cacheBytes work block threads : Nat) : Nat := max (cacheBytes / 8) (max work block) * threads

/-- C23d. Without `std` the documentation is exact: a nonzero threshold decides alone; otherwise the limit is the documented
formula with every override honoured and the built-in defaults 32 KiB, 4096, 1024 and one thread for those never set or set to 0. -/
theorem nostd_heuristic (v : ParVars) (o : ParOv) (n : Nat) :
    ifftParallel false v o n = true ↔
      (if o.threshold = 0 then Spec.parLimit (Spec.knob o.cacheBytes 32768) (Spec.knob o.perCoreWork 4096)
        (Spec.knob o.blockSize 1024) (Spec.knob o.threads 1) else o.threshold) ≤ n := by
  unfold ifftParallel shouldParallelizeNoStd orEnv Spec.parLimit Spec.knob
  simp only [Bool.false_eq_true, if_false, ne_eq, ite_not]
  by_cases h : o.threshold = 0
  · simp [h]
  · simp [h]

/-- C23e. With `std` the whole decision: a nonzero override of the threshold, else a nonzero `KOFFT_PAR_FFT_THRESHOLD`, decides
alone; else the limit is the documented formula over the environment, without the overrides, unless `KOFFT_PAR_FFT_THREADS` is 0:
only then do the overrides take part. -/
theorem std_heuristic (v : ParVars) (o : ParOv) (n : Nat) :
    ifftParallel true v o n = true ↔
      (let work := max (v.perCoreWork.getD 4096) (max v.measured 4096)
       if o.threshold ≠ 0 then o.threshold
       else if v.threshold.getD 0 ≠ 0 then v.threshold.getD 0
       else if v.threads = some 0 then
         Spec.parLimit (Spec.knob o.cacheBytes (v.cacheBytes.getD 32768))
           (max (Spec.knob o.perCoreWork (v.perCoreWork.getD 4096)) (max v.measured 4096))
           (Spec.knob o.blockSize (v.blockSize.getD 1024)) o.threads
       else Spec.parLimit (v.cacheBytes.getD 32768) work (v.blockSize.getD 1024) (v.threads.getD (max v.cpus 1))) ≤ n := by
  unfold ifftParallel shouldParallelize parThreshold ParEnv.of orEnv Spec.parLimit Spec.knob
  simp only [if_true, ne_eq, ite_not]
  by_cases h : o.threshold = 0
  · simp only [h, if_true]
    by_cases h2 : v.threshold.getD 0 = 0
    · simp only [h2, if_true]
      by_cases h3 : v.threads = some 0
      · simp only [h3, if_true, Option.getD_some, Nat.mul_zero]
        simp only [decide_eq_true_eq, ge_iff_le]
        by_cases h4 : o.threads = 0
        · simp [h4]
        · rw [if_neg h4]
      · have ht : v.threads.getD (max v.cpus 1) ≠ 0 := by
          cases hv : v.threads with
          | none => simp
          | some a =>
            rw [hv] at h3
            simpa using h3
        rw [if_neg h3, if_neg]
        · simp
        · exact Nat.mul_ne_zero (by omega) ht
    · simp [h2]
  · simp [h]

example : ifftParallel false ⟨none, none, none, none, none, 8, 100000⟩ {} 4096 = true ∧
    ifftParallel false ⟨none, none, none, none, none, 8, 100000⟩ (setThreads {} 2) 4096 = false ∧
    ifftParallel true ⟨none, none, none, none, none, 8, 100000⟩ {} 800000 = true ∧
    ifftParallel true ⟨none, none, none, none, some 0, 8, 100000⟩ (setThreads {} 2) 199999 = false := by decide

end Kofft.Props
