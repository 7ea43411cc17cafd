import Verif.Props.IstftStream
/-
C37, every schedule: `inverse_parallel` with the order in which the worker threads finish made explicit.
-/
namespace Kofft.Props
open Spec

section
variable {T : Type} [Flt T]

private theorem tasks_ok (cfg : Cfg) (frames : List (List (Cx T))) (window : List T) (g : ℕ → List T × List T)
    (hg : ∀ i, (h : i < frames.length) → invParFrame cfg window frames[i] = .ok (g i, .ok ())) :
    ∀ (order : List ℕ) (done : List ℕ), (∀ i ∈ order, i < frames.length) →
      order.foldlM (m := Outcome) (invParStep cfg frames window)
          (tab frames.length (fun i => if i ∈ done then some (g i) else none), .ok ()) =
        .ok (tab frames.length (fun i => if i ∈ done ∨ i ∈ order then some (g i) else none), .ok ()) := by
  intro order
  induction order with
  | nil => intro done _; simp
  | cons k order ih =>
    intro done h
    have hk := h k (by simp)
    have e : invParStep cfg frames window (tab frames.length (fun i => if i ∈ done then some (g i) else none), .ok ()) k =
        .ok (tab frames.length (fun i => if i ∈ (k :: done) then some (g i) else none), .ok ()) := by
      unfold invParStep
      rw [rd_ok hk, Outcome.bind_ok, hg k hk, Outcome.bind_ok]
      simp only
      rw [wr_tab hk, Outcome.bind_ok]
      congr 2
      apply tab_congr
      intro i _
      by_cases hi : i = k
      · simp [hi]
      · simp [hi]
    rw [List.foldlM_cons, e, Outcome.bind_ok, ih (k :: done) (fun i hi => h i (by simp [hi]))]
    congr 2
    apply tab_congr
    intro i _
    have : (i ∈ k :: done ∨ i ∈ order) ↔ (i ∈ done ∨ i ∈ k :: order) := by simp; tauto
    simp only [this]

/-- C37e. For every order in which the worker threads finish the frames, `inverse_parallel` returns, bit for bit, what
`istftParallel` says: the schedule cannot be observed. -/
theorem istft_parallel_schedule (cfg : Cfg) (frames : List (List (Cx T))) (window : List T) (hop : ℕ) (output : List T)
    (hf : ∀ fr ∈ frames, window.length ≤ fr.length ∧ fr.length ≠ 0 ∧ (cfg.std = true ∨ ∃ k, fr.length = 2 ^ k))
    (order : List ℕ) (ho : order.Perm (List.range frames.length)) :
    istftParallelSched cfg order frames window hop output = istftParallel cfg frames window hop output := by
  unfold istftParallelSched istftParallel
  by_cases hh : hop = 0
  · rw [if_pos hh, if_pos hh]
  rw [if_neg hh, if_neg hh]
  have hr : ∀ fr ∈ frames, window.length ≤ fr.length ∧ fftRes cfg fr.length = .ok () := fun fr h => ⟨(hf fr h).1, by
    obtain ⟨-, h2, h3⟩ := hf fr h; exact fftRes_ok (by omega) h3⟩
  rw [mapM_invPar cfg window frames hr, Outcome.bind_ok]
  have h0 : List.replicate frames.length (none : Option (List T × List T)) =
      tab frames.length (fun i => if i ∈ ([] : List ℕ) then some (partOf window (ifftBuf cfg Planner.new (frames.getD i []))) else none) := by
    rw [replicate_eq_tab]; apply tab_congr; intro i _; simp
  have key := tasks_ok cfg frames window (fun i => partOf window (ifftBuf cfg Planner.new (frames.getD i [])))
    (fun i h => by
      have := hr _ (List.getElem_mem h)
      rw [invParFrame_eq cfg window _ this.1 this.2]
      simp [List.getD_eq_getElem?_getD, h]) order [] (fun i hi => by simpa using (ho.mem_iff.mp hi))
  rw [h0, key, Outcome.bind_ok]
  have hfind : (frames.map fun fr => (partOf window (ifftBuf cfg Planner.new fr), (Except.ok () : Res))).find?
      (fun p => isErr p.2) = none := by
    rw [List.find?_eq_none]
    intro x hx
    obtain ⟨fr, -, rfl⟩ := List.mem_map.mp hx
    simp [isErr]
  rw [hfind]
  simp only
  have hs : (tab frames.length (fun i => if i ∈ ([] : List ℕ) ∨ i ∈ order then
        some (partOf window (ifftBuf cfg Planner.new (frames.getD i []))) else none)).filterMap id =
      (frames.map fun fr => (partOf window (ifftBuf cfg Planner.new fr), (Except.ok () : Res))).map Prod.fst := by
    have e1 : tab frames.length (fun i => if i ∈ ([] : List ℕ) ∨ i ∈ order then
        some (partOf window (ifftBuf cfg Planner.new (frames.getD i []))) else none) =
        (frames.map fun fr => some (partOf window (ifftBuf cfg Planner.new fr))) := by
      apply List.ext_getElem
      · simp
      · intro i h1 h2
        have hi : i < frames.length := by simpa using h2
        have : i ∈ order := ho.mem_iff.mpr (by simpa using hi)
        simp [tab, this, List.getD_eq_getElem?_getD, hi]
    rw [e1]
    simp [List.filterMap_map, Function.comp_def]
  rw [hs]

/-- C37e. If the schedule reaches an empty frame (the other frames being long enough), then whichever frames were finished before
and whichever are skipped, the call returns `EmptyInput` and leaves the output buffer alone. -/
theorem istft_parallel_schedule_error (cfg : Cfg) (hstd : cfg.std = true) (frames : List (List (Cx T))) (window : List T) (hop : ℕ)
    (output : List T) (hh : 0 < hop) (hf : ∀ fr ∈ frames, fr = [] ∨ window.length ≤ fr.length) (order : List ℕ)
    (ho : ∀ i ∈ order, i < frames.length) (he : ∃ i ∈ order, frames[i]? = some []) :
    istftParallelSched cfg order frames window hop output = .ok (output, .error .EmptyInput) := by
  have step : ∀ (st : List (Option (List T × List T)) × Res) k, k < frames.length → st.1.length = frames.length →
      (st.2 = .ok () ∨ st.2 = .error .EmptyInput) → ∃ st', invParStep cfg frames window st k = .ok st' ∧
        st'.1.length = frames.length ∧ (st'.2 = .ok () ∨ st'.2 = .error .EmptyInput) ∧
        (st.2 = .error .EmptyInput ∨ frames[k]? = some [] → st'.2 = .error .EmptyInput) := by
    rintro ⟨sl, r⟩ k hk hl hr
    unfold invParStep
    rw [rd_ok hk, Outcome.bind_ok]
    by_cases hx0 : frames[k] = []
    · obtain ⟨q, e, -⟩ := (ifft_opOk cfg).run Planner.new frames[k] (inv_new cfg)
      rw [show fftRes cfg frames[k].length = .error .EmptyInput by rw [hx0]; exact fftRes_zero cfg] at e
      have e1 : invParFrame cfg window frames[k] = .ok (([], []), .error .EmptyInput) := by
        unfold invParFrame
        rw [e, Outcome.bind_ok]
      rw [e1, Outcome.bind_ok]
      rcases hr with hr | hr <;> simp only at hr <;> subst hr
      · exact ⟨_, rfl, hl, Or.inr rfl, fun _ => rfl⟩
      · exact ⟨_, rfl, hl, Or.inr rfl, fun _ => rfl⟩
    · have hl0 : frames[k].length ≠ 0 := fun h => hx0 (List.length_eq_zero_iff.mp h)
      rw [invParFrame_eq cfg window _ ((hf _ (List.getElem_mem hk)).resolve_left hx0) (fftRes_ok (by omega) (Or.inl hstd)),
        Outcome.bind_ok]
      simp only
      rw [wr_ok (by simpa [hl] using hk), Outcome.bind_ok]
      refine ⟨_, rfl, by simpa using hl, hr, ?_⟩
      rintro (h | h)
      · exact h
      · rw [List.getElem?_eq_getElem hk] at h
        exact absurd (Option.some.inj h) hx0
  have run : ∀ (order : List ℕ) (st : List (Option (List T × List T)) × Res), (∀ i ∈ order, i < frames.length) →
      st.1.length = frames.length → (st.2 = .ok () ∨ st.2 = .error .EmptyInput) →
      (st.2 = .error .EmptyInput ∨ ∃ i ∈ order, frames[i]? = some []) →
      ∃ sl, order.foldlM (m := Outcome) (invParStep cfg frames window) st = .ok (sl, .error .EmptyInput) := by
    intro order
    induction order with
    | nil =>
      rintro ⟨sl, r⟩ _ _ _ h
      rcases h with h | ⟨i, hi, -⟩
      · simp only at h; subst h; exact ⟨sl, rfl⟩
      · simp at hi
    | cons k order ih =>
      intro st h1 h2 h3 h4
      obtain ⟨st', e, a, b, c⟩ := step st k (h1 k (by simp)) h2 h3
      rw [List.foldlM_cons, e, Outcome.bind_ok]
      refine ih st' (fun i hi => h1 i (by simp [hi])) a b ?_
      rcases h4 with h4 | ⟨i, hi, h4⟩
      · exact Or.inl (c (Or.inl h4))
      · rcases List.mem_cons.1 hi with rfl | hi
        · exact Or.inl (c (Or.inr h4))
        · exact Or.inr ⟨i, hi, h4⟩
  obtain ⟨sl, e⟩ := run order (List.replicate frames.length none, .ok ()) ho (by simp) (Or.inl rfl) (Or.inr he)
  unfold istftParallelSched
  rw [if_neg (by omega), e, Outcome.bind_ok]

/-- C37f. `inverse_parallel` under any schedule against `istft` on a new transformer: bit for bit the same where the accumulated
squared window exceeds 1e-8, zero elsewhere. -/
theorem istft_parallel_schedule_eq_batch (cfg : Cfg) (frames : List (List (Cx T))) (window : List T)
    (hop : ℕ) (output scratch : List T) (hh : 0 < hop) (hs : scratch.length = output.length)
    (hw : window ≠ []) (hn : cfg.std = true ∨ ∃ k, window.length = 2 ^ k)
    (hf : ∀ fr ∈ frames, fr.length = window.length) :
    ∃ p' ys out sc par, istft (ifft cfg) Planner.new frames window hop output scratch = .ok (p', ys, out, sc, .ok ()) ∧
      (∀ order : List ℕ, order.Perm (List.range frames.length) →
        istftParallelSched cfg order frames window hop output = .ok (par, .ok ())) ∧ par.length = output.length ∧
      ∀ p, p < output.length → par.getD p Flt.zero =
        if Flt.lt (Flt.lit 1 8) (normAt window hop frames.length p) then out.getD p Flt.zero else Flt.zero := by
  have hwl : window.length ≠ 0 := fun h => hw (List.length_eq_zero_iff.mp h)
  obtain ⟨p', ys, out, sc, par, h1, h2, h3, h4⟩ := istft_parallel_eq_batch cfg frames window hop output scratch hh hs hw hn hf
  refine ⟨p', ys, out, sc, par, h1, fun order ho => ?_, h3, h4⟩
  rw [istft_parallel_schedule cfg frames window hop output (fun fr h => ⟨by rw [hf fr h], by rw [hf fr h]; exact hwl, by
    rw [hf fr h]; exact hn⟩) order ho, h2]

end

/-- Three frames finished in the order 2, 0, 1. -/
example [Flt ℝ] : istftParallelSched (T := ℝ) ⟨true, .f32, false, 4, false⟩ [2, 0, 1]
      [[⟨1, 0⟩, ⟨2, 0⟩], [⟨3, 0⟩, ⟨4, 0⟩], [⟨5, 0⟩, ⟨6, 0⟩]] [1, 1] 1 [0, 0, 0] =
    istftParallel ⟨true, .f32, false, 4, false⟩ [[⟨1, 0⟩, ⟨2, 0⟩], [⟨3, 0⟩, ⟨4, 0⟩], [⟨5, 0⟩, ⟨6, 0⟩]] [1, 1] 1 [0, 0, 0] :=
  istft_parallel_schedule _ _ _ _ _ (by simp) _ (by decide)

/-- A schedule that finishes frame 0, fails on frame 2 and skips frame 1. -/
example [Flt ℝ] : istftParallelSched (T := ℝ) ⟨true, .f32, false, 4, false⟩ [0, 2]
      [[⟨1, 0⟩, ⟨2, 0⟩], [⟨3, 0⟩, ⟨4, 0⟩], []] [1, 1] 1 [5, 6, 7] = .ok ([5, 6, 7], .error .EmptyInput) :=
  istft_parallel_schedule_error _ rfl _ _ _ _ (by norm_num) (by simp) _ (by simp) ⟨2, by simp, rfl⟩

end Kofft.Props
