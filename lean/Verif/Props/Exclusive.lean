import Verif.Proof.ExclusiveFree
import Verif.Spec.History
/-
C92: the unchecked mutable references to the planner never overlap - unless operations of the element type call back.
-/
namespace Kofft.Props
open Spec

variable {T : Type} [Flt T]

/-- C92a. Whatever calls are made one after the other, on whatever transformers, in whatever states: at no instant are two
references to the same planner alive, and none outlives its call. -/
theorem planner_exclusive (cfg : Cfg) (calls : List (Nat × Planner T × Method T)) :
    Exclusive (calls.flatMap fun c => c.2.2.trace cfg c.1 c.2.1) ∧
    ∀ a, alive a (calls.flatMap fun c => c.2.2.trace cfg c.1 c.2.1) = 0 := by
  have low : ∀ o t, Nested o t → Nested 0 t := by
    intro o
    induction o with
    | zero => exact fun t h => h
    | succ o ih => exact fun t h => ih t (.up h)
  have : Nested 0 (calls.flatMap fun c => c.2.2.trace cfg c.1 c.2.1) := by
    induction calls with
    | nil => exact .nil
    | cons c cs ih => rw [List.flatMap_cons]; exact .app (low _ _ (method_nested cfg _ _ _)) ih
  exact ⟨this.exclusive, this.bounds.1⟩

/-- A transformer that has performed transforms of certain lengths has the tables for them. -/
theorem performed_ready {cfg : Cfg} {ms : List ℕ} {p : Planner T} (h : Performed cfg ms p) :
    Rich cfg p ∧ ∀ n ∈ ms, Ready cfg p n := by
  induction h with
  | new => exact ⟨rich_new cfg, fun n hn => by simp at hn⟩
  | @fft ms p p' x y _ e ih =>
    obtain ⟨a, b, c, d⟩ := fft_rich cfg ih.1 x _ e
    refine ⟨a, fun n hn => ?_⟩
    rcases List.mem_cons.mp hn with rfl | hn
    · refine d ?_
      by_contra h0
      obtain ⟨p1, y1, e1, -⟩ := fft_run cfg p x ih.1.inv
      rw [e] at e1
      have := (Prod.mk.inj (Prod.mk.inj (Outcome.ok.inj e1)).2).2
      simp [fftRes, show x.length = 0 by omega] at this
    · exact (ih.2 n hn).more b c
  | @ifft ms p p' x y _ e ih =>
    obtain ⟨a, b, c, d⟩ := ifft_rich cfg ih.1 x _ e
    refine ⟨a, fun n hn => ?_⟩
    rcases List.mem_cons.mp hn with rfl | hn
    · by_cases h1 : 1 < x.length
      · exact d h1
      · have : x.length = 0 ∨ x.length = 1 := by omega
        rcases this with h0 | h0
        · exfalso
          unfold Kofft.ifft ifftWith at e
          simp [h0] at e
        · rw [h0]
          unfold Ready
          rw [if_pos (by decide)]
          intro h; omega
    · exact (ih.2 n hn).more b c

/-- C92b. Tables are computed once: on a transformer that has performed a transform of some length, forward or inverse, at any time
before, a further transform of that length runs no operation of the element type while a reference to the planner is alive. -/
theorem tables_computed_once (cfg : Cfg) (ms : List ℕ) (p : Planner T) (h : Performed cfg ms p) (x : List (Cx T))
    (hx : x.length ∈ ms) (o : Nat) :
    NoWorkInside o (fftTrace cfg o p x) ∧ NoWorkInside o (ifftTrace cfg o p x) :=
  have hr := performed_ready h
  ⟨(fft_idle cfg o hr.1 x (hr.2 _ hx)).zero.2, (ifft_idle cfg o hr.1 x (hr.2 _ hx)).zero.2⟩

/-- C92c. The first transform of a length does run operations of the element type while the reference is alive; if such an
operation - safe code the user may have written - calls the same transformer, two references are alive at once. -/
theorem reentry_overlaps (cfg : Cfg) (hk : cfg.kind = .other) (o : Nat) (x : List (Cx T)) (k : Nat) (hx : x.length = 2 ^ k)
    (h16 : 16 < x.length) :
    ∃ pre post, fftTrace cfg o (Planner.new : Planner T) x = pre ++ .work :: post ∧
      ∀ q : Planner T, ¬ Exclusive (pre ++ fftTrace cfg o q x ++ post) := by
  have h2 : isPow2 x.length = true := by rw [hx]; exact isPow2_pow k
  have form : ∀ q : Planner T, ∃ body rest, fftTrace cfg o q x = .acquire o :: (body ++ rest) ∧
      body = twTrace cfg q x.length ++ [.release o] := by
    intro q
    refine ⟨_, [.work] ++ ([] ++ block o []), ?_, rfl⟩
    show fftTraceBody cfg _ _ o q x = _
    unfold fftTraceBody
    simp only
    rw [if_neg (by omega), if_neg (by omega), if_neg (by simp; omega), if_pos ((and_pred_eq_zero_iff (by omega)).mpr h2)]
    unfold stockhamTrace
    simp only
    rw [if_neg (by omega), if_neg (by simp [h2]), if_neg (by omega), if_neg (by simp [hk])]
    simp [block]
  obtain ⟨body, rest, e, hb⟩ := form Planner.new
  have ht : twTrace cfg (Planner.new : Planner T) x.length = [.work] := by
    unfold twTrace
    simp [preLookup, hk, Planner.new]
  refine ⟨[.acquire o], .release o :: rest, ?_, fun q hq => ?_⟩
  · rw [e, hb, ht]; rfl
  · obtain ⟨body', rest', e', -⟩ := form q
    have := hq [.acquire o, .acquire o] (by rw [e']; exact ⟨body' ++ rest' ++ .release o :: rest, by simp⟩) o
    simp [alive] at this

/-- Non-vacuity: the trace of a first 32-point transform of user-defined numbers, and a transformer that has served length 32. -/
example (x : List (Cx T)) (hx : x.length = 32) :
    fftTrace ⟨true, .other, false, 4, false⟩ 7 (Planner.new : Planner T) x =
      [.acquire 7, .work, .release 7, .work, .acquire 7, .release 7] ∧
    ∃ p : Planner T, Performed ⟨true, .other, false, 4, false⟩ [32] p := by
  constructor
  · have hp : isPow2 32 = true := by decide
    simp [fftTrace, fftTraceF, fftDepth, fftTraceBody, stockhamTrace, hx, hp, block, twTrace, preLookup, Planner.new]
  · obtain ⟨p', y, e, -⟩ := fft_run ⟨true, .other, false, 4, false⟩ (Planner.new : Planner T) x (inv_new _)
    have hr : fftRes ⟨true, .other, false, 4, false⟩ x.length = .ok () := by simp [fftRes, hx]
    rw [hr] at e
    exact ⟨p', hx ▸ Performed.fft .new e⟩

end Kofft.Props
