import Verif.Spec.Plan
import Verif.Proof.Factor
import Verif.Proof.Dft
/-
Reachable plans: the plan's own fields never change and its transformer has only seen length `n`.
-/
namespace Kofft
open Spec

variable {T : Type} [Flt T]

/-- What every reachable plan satisfies. -/
structure PlanInv (cfg : Cfg) (n : Nat) (st : Strategy) (pl : Plan T) : Prop where
  n_eq : pl.n = n
  st_eq : pl.strategy = st
  tw_eq : pl.twiddles = if cfg.kind = .f32 then some (TwBuf.new n) else none
  reach : ReachVia cfg (fun m => m = n) pl.planner

theorem Outcome.bind_eq_ok {α β : Type} {a : Outcome α} {f : α → Outcome β} {b : β}
    (h : (a >>= f) = .ok b) : ∃ x, a = .ok x ∧ f x = .ok b := by
  cases a with
  | ok x => exact ⟨x, rfl, h⟩
  | panic => simp at h
  | hang => simp at h

theorem Plan.fft_inv {cfg : Cfg} {n : Nat} {st : Strategy} {pl pl' : Plan T} {x y : List (Cx T)} {r : Res}
    (h : PlanInv cfg n st pl) (e : pl.fft cfg x = .ok (pl', y, r)) : PlanInv cfg n st pl' := by
  unfold Plan.fft at e
  split at e
  · simp only [Outcome.ok.injEq, Prod.mk.injEq] at e
    rw [← e.1]; exact h
  · rename_i hx
    have hx : x.length = n := by rw [← h.n_eq]; simpa using hx
    have slow : ∀ {z}, (do
        let r ← fftWithStrategy cfg pl.strategy pl.planner x
        pure ({ pl with planner := r.1 }, r.2.1, r.2.2)) = Outcome.ok z → PlanInv cfg n st z.1 := by
      intro z ez
      obtain ⟨⟨p1, y1, r1⟩, e1, e2⟩ := Outcome.bind_eq_ok ez
      simp only [Outcome.pure_eq, Outcome.ok.injEq] at e2
      rw [← e2]
      exact ⟨h.n_eq, h.st_eq, h.tw_eq, .strategy _ h.reach hx e1⟩
    simp only at e
    split at e
    · split at e
      · obtain ⟨r1, e1, e2⟩ := Outcome.bind_eq_ok e
        simp only [Outcome.pure_eq, Outcome.ok.injEq, Prod.mk.injEq] at e2
        rw [← e2.1]; exact h
      · obtain ⟨r1, e1, e2⟩ := Outcome.bind_eq_ok e
        simp only [Outcome.pure_eq, Outcome.ok.injEq, Prod.mk.injEq] at e2
        rw [← e2.1]; exact h
      · exact slow e
    · exact slow e

theorem Plan.ifft_inv {cfg : Cfg} {n : Nat} {st : Strategy} {pl pl' : Plan T} {x y : List (Cx T)} {r : Res}
    (h : PlanInv cfg n st pl) (e : pl.ifft cfg x = .ok (pl', y, r)) : PlanInv cfg n st pl' := by
  unfold Plan.ifft at e
  split at e
  · simp only [Outcome.ok.injEq, Prod.mk.injEq] at e
    rw [← e.1]; exact h
  · obtain ⟨⟨pl1, y1, r1⟩, e1, e2⟩ := Outcome.bind_eq_ok e
    have := Plan.fft_inv h e1
    cases r1 with
    | error _ =>
      simp only [Outcome.ok.injEq, Prod.mk.injEq] at e2
      rw [← e2.1]; exact this
    | ok _ =>
      simp only [Outcome.ok.injEq, Prod.mk.injEq] at e2
      rw [← e2.1]; exact this

theorem planReach_inv {cfg : Cfg} {n : Nat} {st : Strategy} {pl : Plan T} (h : PlanReach cfg n st pl) :
    PlanInv cfg n st pl := by
  induction h with
  | new => exact ⟨rfl, rfl, rfl, .new⟩
  | fft _ e ih => exact Plan.fft_inv ih e
  | ifft _ e ih => exact Plan.ifft_inv ih e
  | oop _ e ih =>
    unfold Plan.outOfPlace at e
    split at e
    · simp only [Outcome.ok.injEq, Prod.mk.injEq] at e
      rw [← e.1]; exact ih
    · exact Plan.fft_inv ih e
  | ioop _ e ih =>
    unfold Plan.outOfPlace at e
    split at e
    · simp only [Outcome.ok.injEq, Prod.mk.injEq] at e
      rw [← e.1]; exact ih
    · exact Plan.ifft_inv ih e
  | split _ e ih =>
    unfold Plan.split at e
    split at e
    · simp only [Outcome.ok.injEq, Prod.mk.injEq] at e
      rw [← e.1]; exact ih
    · rename_i hl
      obtain ⟨⟨p1, re1, im1, r1⟩, e1, e2⟩ := Outcome.bind_eq_ok e
      simp only [Outcome.ok.injEq, Prod.mk.injEq] at e2
      rw [← e2.1]
      push Not at hl
      exact ⟨ih.n_eq, ih.st_eq, ih.tw_eq, .split ih.reach (by rw [hl.1, ih.n_eq]) e1⟩
  | isplit _ e ih =>
    unfold Plan.split at e
    split at e
    · simp only [Outcome.ok.injEq, Prod.mk.injEq] at e
      rw [← e.1]; exact ih
    · rename_i hl
      obtain ⟨⟨p1, re1, im1, r1⟩, e1, e2⟩ := Outcome.bind_eq_ok e
      simp only [Outcome.ok.injEq, Prod.mk.injEq] at e2
      rw [← e2.1]
      push Not at hl
      exact ⟨ih.n_eq, ih.st_eq, ih.tw_eq, .isplit ih.reach (by rw [hl.1, ih.n_eq]) e1⟩

theorem PlanInv.via {cfg : Cfg} {n : Nat} {st : Strategy} {pl : Plan T} (h : PlanInv cfg n st pl) :
    ReachVia cfg (fun m => workSize m ≤ workSize n) pl.planner :=
  Kofft.ReachVia.mono (h := h.reach) (fun m hm => by rw [hm])

/-- Two planners that have only seen length `n` give the same `fft_with_strategy` at length `n`. -/
theorem strategy_rel (cfg : Cfg) (st : Strategy) (p q : Planner T) (x : List (Cx T))
    (hp : ReachVia cfg (fun m => workSize m ≤ workSize x.length) p)
    (hq : ReachVia cfg (fun m => workSize m ≤ workSize x.length) q) :
    RelO (fun a b => a.2 = b.2) (fftWithStrategy cfg st p x) (fftWithStrategy cfg st q x) := by
  by_cases h : st ≠ .Radix4 ∨ cfg.std = false ∨ ¬ ∃ k, 2 ≤ k ∧ x.length = 4 ^ k
  · rw [strategy_eq cfg st p x (reachVia_inv hp) h, strategy_eq cfg st q x (reachVia_inv hq) h]
    obtain ⟨p', e1, -⟩ := (fft_opOk cfg).run p x (reachVia_inv hp)
    obtain ⟨q', e2, -⟩ := (fft_opOk cfg).run q x (reachVia_inv hq)
    rw [e1, e2]
    have : fftBuf cfg p x = fftBuf cfg q x := by
      rcases fftRes_cases cfg x.length with hr | ⟨e, hr⟩
      · rw [fftBuf_fresh cfg p x (reachVia_inv hp) hr (compat_of_reach hp),
          fftBuf_fresh cfg q x (reachVia_inv hq) hr (compat_of_reach hq)]
      · rw [fftBuf_err cfg p x hr, fftBuf_err cfg q x hr]
    show (_, _) = (_, _)
    rw [this]
  · push Not at h
    obtain ⟨rfl, hstd, k, hk, hx⟩ := h
    have hstd : cfg.std = true := by simpa using hstd
    have hx2 : x.length = 2 ^ (2 * k) := by rw [hx, pow_mul]; norm_num
    have hp2 : isPow2 x.length = true := by rw [hx2]; exact isPow2_pow _
    have h16 : 16 ≤ x.length := by
      rw [hx]
      calc 16 = 4 ^ 2 := by norm_num
        _ ≤ 4 ^ k := Nat.pow_le_pow_right (by norm_num) hk
    have := fftRadix4_agree cfg p q x (reachVia_inv hp) (reachVia_inv hq) hp2
      (by rw [hx2, log2_pow']; omega)
    unfold fftWithStrategy
    simp only [show ¬ x.length = 0 by omega, show ¬ x.length = 1 by omega, if_false, reduceCtorEq,
        hstd, if_true]
    exact this

/-- History independence of the plan's `fft`. -/
theorem plan_fft_rel {cfg : Cfg} {n : Nat} {st : Strategy} {pl qs : Plan T} (h : PlanInv cfg n st pl)
    (h' : PlanInv cfg n st qs) (x : List (Cx T)) :
    RelO (fun a b => a.2 = b.2 ∧ PlanInv cfg n st a.1 ∧ PlanInv cfg n st b.1)
      (pl.fft cfg x) (qs.fft cfg x) := by
  have key : RelO (fun a b => a.2 = b.2) (pl.fft cfg x) (qs.fft cfg x) := by
    unfold Plan.fft
    rw [h.n_eq, h'.n_eq, h.st_eq, h'.st_eq, h.tw_eq, h'.tw_eq]
    split
    · exact rfl
    · rename_i hx
      have hx : x.length = n := by simpa using hx
      subst hx
      have slow : ∀ (st : Strategy) (g g' : Planner T → Plan T), RelO (fun a b => a.2 = b.2)
          (do let r ← fftWithStrategy cfg st pl.planner x
              pure (g r.1, r.2.1, r.2.2))
          (do let r ← fftWithStrategy cfg st qs.planner x
              pure (g' r.1, r.2.1, r.2.2)) := by
        intro st g g'
        refine (strategy_rel cfg st _ _ x h.via h'.via).bind ?_
        rintro ⟨a, b, c⟩ ⟨a', b', c'⟩ hab
        simp only [Prod.mk.injEq] at hab
        show (_, _) = (_, _)
        rw [hab.1, hab.2]
      simp only
      split
      · split
        · refine RelO.bind (R := fun a b => a = b) (RelO.refl (fun _ => rfl) _) ?_
          rintro a _ rfl; exact rfl
        · refine RelO.bind (R := fun a b => a = b) (RelO.refl (fun _ => rfl) _) ?_
          rintro a _ rfl; exact rfl
        · exact slow _ (fun p => ⟨_, _, _, p⟩) (fun p => ⟨_, _, _, p⟩)
      · exact slow _ (fun p => ⟨_, _, _, p⟩) (fun p => ⟨_, _, _, p⟩)
  generalize e1 : pl.fft cfg x = a at *
  generalize e2 : qs.fft cfg x = b at *
  cases a with
  | ok a =>
    cases b with
    | ok b => exact ⟨key, Plan.fft_inv h (by rw [e1]), Plan.fft_inv h' (by rw [e2])⟩
    | panic => exact key
    | hang => exact key
  | panic => cases b <;> first | exact key | trivial
  | hang => cases b <;> first | exact key | trivial

theorem plan_ifft_rel {cfg : Cfg} {n : Nat} {st : Strategy} {pl qs : Plan T} (h : PlanInv cfg n st pl)
    (h' : PlanInv cfg n st qs) (x : List (Cx T)) :
    RelO (fun a b => a.2 = b.2) (pl.ifft cfg x) (qs.ifft cfg x) := by
  unfold Plan.ifft
  rw [h.n_eq, h'.n_eq]
  split
  · exact rfl
  · refine (plan_fft_rel h h' _).bind ?_
    rintro ⟨a, b, c⟩ ⟨a', b', c'⟩ ⟨hab, ha, hb⟩
    simp only [Prod.mk.injEq] at hab
    obtain ⟨rfl, rfl⟩ := hab
    cases c with
    | error _ => exact rfl
    | ok _ =>
      show (_, _) = (_, _)
      simp only at ha hb
      rw [ha.n_eq, hb.n_eq]

end Kofft
