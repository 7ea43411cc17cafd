import Verif.Model.Settings
import Verif.Props.Plan
/-
C94: the process-wide settings of the parallel path under concurrency.
-/
namespace Kofft.Props

/-- No setter is called. -/
def _root_.Kofft.Spec.noStore (es : List SetEv) : Prop := ∀ e ∈ es, ∀ c v, e ≠ .store c v
/-- The environment does not change. -/
def _root_.Kofft.Spec.noSetenv (es : List SetEv) : Prop := ∀ e ∈ es, ∀ v, e ≠ .setenv v
/-- The events other than changes of the environment. -/
def _root_.Kofft.Spec.withoutSetenv (es : List SetEv) : List SetEv :=
  es.filter fun e => match e with | .setenv _ => false | _ => true

theorem settings_cons (dec : Job → Decision) (p : Process) (e : SetEv) (es : List SetEv) :
    p.run dec (e :: es) = (p.apply dec e).run dec es := rfl
theorem settings_append (dec : Job → Decision) (p : Process) (es fs : List SetEv) :
    p.run dec (es ++ fs) = (p.run dec es).run dec fs := List.foldl_append

/-! ### Unchanged environment -/
section fixed
variable (v : ParVars)

/-- The cells hold nothing but what the environment says. -/
def CellsOk (s : Shared) : Prop :=
  s.vars = v ∧ (∀ c w, s.once c = some w → w = readVar v c) ∧ ∀ w, s.base = some w → w = parThreshold (ParEnv.of v)

/-- A decision that publishes nothing but the right threshold, whatever overrides it reads. -/
def Sane : Decision → Prop
  | .done _ => True
  | .load _ k => ∀ w, Sane (k w)
  | .env c k => Sane (k (readVar v c))
  | .getBase k => Sane (k none) ∧ Sane (k (some (parThreshold (ParEnv.of v))))
  | .putBase w k => w = parThreshold (ParEnv.of v) ∧ Sane (k (parThreshold (ParEnv.of v)))

/-- A decision that ends in `b` while the overrides stay as they are. -/
def Ends (ov : ParOv) (b : Bool) : Decision → Prop
  | .done x => x = b
  | .load c k => Ends ov b (k (ovGet ov c))
  | .env c k => Ends ov b (k (readVar v c))
  | .getBase k => Ends ov b (k none) ∧ Ends ov b (k (some (parThreshold (ParEnv.of v))))
  | .putBase _ k => Ends ov b (k (parThreshold (ParEnv.of v)))

variable {v}

theorem sane_step {s : Shared} {d : Decision} (hs : CellsOk v s) (hd : Sane v d) :
    CellsOk v (d.step s).1 ∧ Sane v (d.step s).2 := by
  obtain ⟨h1, h2, h3⟩ := hs
  cases d with
  | done b => exact ⟨⟨h1, h2, h3⟩, trivial⟩
  | load c k => exact ⟨⟨h1, h2, h3⟩, hd _⟩
  | env c k =>
    simp only [Decision.step]
    cases hc : s.once c with
    | some w => exact ⟨⟨h1, h2, h3⟩, by simp only []; rw [h2 c w hc]; exact hd⟩
    | none =>
      refine ⟨⟨h1, fun c' w hw => ?_, h3⟩, by simp only []; rw [h1]; exact hd⟩
      simp only [] at hw
      split at hw
      · rename_i e
        rw [e, ← h1]
        exact (Option.some.inj hw).symm
      · exact h2 _ _ hw
  | getBase k =>
    refine ⟨⟨h1, h2, h3⟩, ?_⟩
    simp only [Decision.step]
    cases hb : s.base with
    | none => exact hd.1
    | some w => rw [h3 w hb]; exact hd.2
  | putBase w k =>
    simp only [Decision.step]
    cases hb : s.base with
    | some w' => exact ⟨⟨h1, h2, h3⟩, by simp only []; rw [h3 w' hb]; exact hd.2⟩
    | none =>
      refine ⟨⟨h1, h2, fun w' hw => ?_⟩, ?_⟩
      · rw [← Option.some.inj hw]; exact hd.1
      · simp only []; rw [hd.1]; exact hd.2

theorem step_ov (s : Shared) (d : Decision) : (d.step s).1.ov = s.ov ∧ (d.step s).1.vars = s.vars := by
  cases d with
  | done b => exact ⟨rfl, rfl⟩
  | load c k => exact ⟨rfl, rfl⟩
  | env c k => simp only [Decision.step]; cases s.once c <;> exact ⟨rfl, rfl⟩
  | getBase k => exact ⟨rfl, rfl⟩
  | putBase w k => simp only [Decision.step]; cases s.base <;> exact ⟨rfl, rfl⟩

theorem ends_step {s : Shared} {d : Decision} {b : Bool} (hs : CellsOk v s) (hd : Sane v d) (he : Ends v s.ov b d) :
    Ends v s.ov b (d.step s).2 := by
  obtain ⟨h1, h2, h3⟩ := hs
  cases d with
  | done b => exact he
  | load c k => exact he
  | env c k =>
    simp only [Decision.step]
    cases hc : s.once c with
    | some w => simp only []; rw [h2 c w hc]; exact he
    | none => simp only []; rw [h1]; exact he
  | getBase k =>
    simp only [Decision.step]
    cases hb : s.base with
    | none => exact he.1
    | some w => rw [h3 w hb]; exact he.2
  | putBase w k =>
    simp only [Decision.step]
    cases hb : s.base with
    | some w' => simp only []; rw [h3 w' hb]; exact he
    | none => simp only []; rw [hd.1]; exact he

theorem sane_orEnv {c : OvCell} {e : EnvCell} {k : ℕ → Decision} (h : ∀ w, Sane v (k w)) : Sane v (.orEnv c e k) := by
  intro w
  by_cases hw : w ≠ 0
  · simp only [hw, if_true, ne_eq, not_false_eq_true]; exact h _
  · simp only [hw, if_false]; exact h _

theorem sane_should (n base : ℕ) : Sane v (shouldDecide n base) := by
  intro o
  by_cases ho : (if o ≠ 0 then o else base) ≠ 0
  · simp only [ho, if_true, ne_eq, not_false_eq_true]; trivial
  · simp only [ho, if_false]
    exact sane_orEnv fun _ => sane_orEnv fun _ => sane_orEnv (c := .blockSize) (e := .blockSize) (fun _ => sane_orEnv fun _ => trivial)

theorem sane_ifft (n : ℕ) : Sane v (ifftDecision n) := by
  refine ⟨?_, sane_should _ _⟩
  show Sane v (if (readVar v .threshold) ≠ 0 then _ else _)
  by_cases h : readVar v .threshold ≠ 0
  · rw [if_pos h]
    exact ⟨(if_pos (show (ParEnv.of v).threshold ≠ 0 from h)).symm, sane_should _ _⟩
  · rw [if_neg h]
    exact ⟨(if_neg (show ¬ (ParEnv.of v).threshold ≠ 0 from h)).symm, sane_should _ _⟩

theorem ends_orEnv {ov : ParOv} {b : Bool} {c : OvCell} {e : EnvCell} {k : ℕ → Decision}
    (h : Ends v ov b (k (orEnv (ovGet ov c) (readVar v e)))) : Ends v ov b (.orEnv c e k) := by
  show Ends v ov b (if ovGet ov c ≠ 0 then _ else _)
  unfold orEnv at h
  by_cases hw : ovGet ov c ≠ 0
  · rw [if_pos hw] at h ⊢; exact h
  · rw [if_neg hw] at h ⊢; exact h

theorem ends_ifft (ov : ParOv) (n : ℕ) : Ends v ov (ifftParallel true v ov n) (ifftDecision n) := by
  have hs : Ends v ov (ifftParallel true v ov n) (shouldDecide n (parThreshold (ParEnv.of v))) := by
    show Ends v ov _ (if (if ov.threshold ≠ 0 then ov.threshold else parThreshold (ParEnv.of v)) ≠ 0 then _ else _)
    unfold ifftParallel shouldParallelize
    simp only [if_true]
    by_cases h : (if ov.threshold ≠ 0 then ov.threshold else parThreshold (ParEnv.of v)) ≠ 0
    · rw [if_pos h, if_pos h]; rfl
    · rw [if_neg h, if_neg h]
      exact ends_orEnv (ends_orEnv (ends_orEnv (ends_orEnv rfl)))
  refine ⟨?_, hs⟩
  show Ends v ov _ (if (readVar v .threshold) ≠ 0 then _ else _)
  by_cases h : readVar v .threshold ≠ 0
  · rw [if_pos h]; exact hs
  · rw [if_neg h]; exact hs

theorem sane_jobStd (j : Job) : Sane v (jobStd j) := by
  cases j with
  | ifft n => exact sane_ifft n
  | fft n =>
    refine ⟨?_, trivial⟩
    show Sane v (if (readVar v .threshold) ≠ 0 then _ else _)
    by_cases h : readVar v .threshold ≠ 0
    · rw [if_pos h]
      exact ⟨(if_pos (show (ParEnv.of v).threshold ≠ 0 from h)).symm, trivial⟩
    · rw [if_neg h]
      exact ⟨(if_neg (show ¬ (ParEnv.of v).threshold ≠ 0 from h)).symm, trivial⟩

/-- What a call of a single-threaded program decides. -/
def _root_.Kofft.Spec.alone (std : Bool) (v : ParVars) (ov : ParOv) : Job → Bool
  | .ifft n => ifftParallel std v ov n
  | .fft _ => false

theorem ends_jobStd (ov : ParOv) (j : Job) : Ends v ov (Spec.alone true v ov j) (jobStd j) := by
  cases j with
  | ifft n => exact ends_ifft ov n
  | fft n =>
    refine ⟨?_, rfl⟩
    show Ends v ov _ (if (readVar v .threshold) ≠ 0 then _ else _)
    by_cases h : readVar v .threshold ≠ 0
    · rw [if_pos h]; rfl
    · rw [if_neg h]; rfl

/-- The invariant of a run in an unchanged environment. -/
def RunOk (v : ParVars) (p : Process) : Prop := CellsOk v p.sh ∧ ∀ id n d, p.calls id = some (n, d) → Sane v d

theorem runOk_apply {dec : Job → Decision} (hdec : ∀ n, Sane v (dec n)) {p : Process} {e : SetEv} (h : RunOk v p)
    (he : ∀ w, e ≠ .setenv w) : RunOk v (p.apply dec e) := by
  cases e with
  | store c w => exact ⟨h.1, h.2⟩
  | setenv w => exact absurd rfl (he w)
  | start id n =>
    simp only [Process.apply]
    cases hc : p.calls id with
    | some _ => exact h
    | none =>
      refine ⟨h.1, fun j m d hd => ?_⟩
      simp only [] at hd
      split at hd
      · obtain ⟨-, rfl⟩ := Prod.mk.inj (Option.some.inj hd)
        exact hdec _
      · exact h.2 j m d hd
  | step id =>
    simp only [Process.apply]
    cases hc : p.calls id with
    | none => exact h
    | some nd =>
      obtain ⟨n, d⟩ := nd
      have := sane_step h.1 (h.2 id n d hc)
      refine ⟨this.1, fun j m d' hd => ?_⟩
      simp only [] at hd
      split at hd
      · obtain ⟨-, rfl⟩ := Prod.mk.inj (Option.some.inj hd)
        exact this.2
      · exact h.2 j m d' hd

theorem runOk_run {dec : Job → Decision} (hdec : ∀ n, Sane v (dec n)) {es : List SetEv} (he : Spec.noSetenv es) :
    ∀ {p : Process}, RunOk v p → RunOk v (p.run dec es) := by
  induction es with
  | nil => exact fun h => h
  | cons e es ih =>
    intro p h
    exact ih (fun e he' => he e (List.mem_cons_of_mem _ he')) (runOk_apply hdec h (he e (by simp)))

theorem runOk_init : RunOk v (Process.init v) := ⟨⟨rfl, by simp [Process.init], by simp [Process.init]⟩, by simp [Process.init]⟩

theorem decision_gen {dec : Job → Decision} {F : ParOv → Job → Bool} (hdec : ∀ n, Sane v (dec n))
    (hends : ∀ ov n, Ends v ov (F ov n) (dec n)) (es fs : List SetEv) (he : Spec.noSetenv es) (hf : Spec.noSetenv fs) (hst : Spec.noStore fs)
    (id : ℕ) (n : Job) (b : Bool) (hnew : ((Process.init v).run dec es).calls id = none)
    (h : ((Process.init v).run dec (es ++ fs)).decided id n b) :
    b = F ((Process.init v).run dec es).sh.ov n := by
  rw [settings_append] at h
  have h0 := runOk_run hdec he (runOk_init (v := v))
  generalize (Process.init v).run dec es = p at h h0 hnew ⊢
  have key : ∀ (fs : List SetEv), Spec.noSetenv fs → Spec.noStore fs → ∀ p q : Process, RunOk v q → q.sh.ov = p.sh.ov →
      (∀ n d, q.calls id = some (n, d) → Ends v p.sh.ov (F p.sh.ov n) d) →
      ∀ n d, (q.run dec fs).calls id = some (n, d) → Ends v p.sh.ov (F p.sh.ov n) d := by
    intro fs
    induction fs with
    | nil => exact fun _ _ p q _ _ h => h
    | cons e fs ih =>
      intro hf hst p q hq hov hc
      refine ih (fun e he' => hf e (List.mem_cons_of_mem _ he')) (fun e he' => hst e (List.mem_cons_of_mem _ he')) p
        (q.apply dec e) (runOk_apply hdec hq (hf e (by simp))) ?_ ?_
      · cases e with
        | store c w => exact absurd rfl (hst _ (by simp) c w)
        | setenv w => exact absurd rfl (hf _ (by simp) w)
        | start j m =>
          simp only [Process.apply]
          cases q.calls j <;> exact hov
        | step j =>
          simp only [Process.apply]
          cases q.calls j with
          | none => exact hov
          | some nd => exact (step_ov _ _).1.trans hov
      · intro n d hd
        cases e with
        | store c w => exact absurd rfl (hst _ (by simp) c w)
        | setenv w => exact absurd rfl (hf _ (by simp) w)
        | start j m =>
          simp only [Process.apply] at hd
          cases hj : q.calls j with
          | some _ => rw [hj] at hd; exact hc n d hd
          | none =>
            rw [hj] at hd
            simp only [] at hd
            split at hd
            · obtain ⟨rfl, rfl⟩ := Prod.mk.inj (Option.some.inj hd)
              exact hends _ _
            · exact hc n d hd
        | step j =>
          simp only [Process.apply] at hd
          cases hj : q.calls j with
          | none => rw [hj] at hd; exact hc n d hd
          | some nd =>
            obtain ⟨m, d'⟩ := nd
            rw [hj] at hd
            simp only [] at hd
            split at hd
            · rename_i e
              subst e
              obtain ⟨rfl, rfl⟩ := Prod.mk.inj (Option.some.inj hd)
              have := hc _ _ hj
              rw [← hov] at this ⊢
              exact ends_step hq.1 (hq.2 _ _ _ hj) this
            · exact hc n d hd
  exact key fs hf hst p p h0 rfl (fun n d hd => by rw [hnew] at hd; exact absurd hd (by simp)) n (.done b) h

/-- C94: settings that are not changed while a call is under way are honoured as if the process had a single thread. For every
history of setter calls and calls of `fft` and `ifft` on any threads, interleaved access by access in any way: a call that begins after
the last setter call decides exactly what `ifft` decides on the overrides then in force (C23), however its accesses interleave
with those of other calls. -/
theorem decision_of_settings (es fs : List SetEv) (he : Spec.noSetenv es) (hf : Spec.noSetenv fs) (hst : Spec.noStore fs)
    (id n : ℕ) (b : Bool) (hnew : ((Process.init v).run jobStd es).calls id = none)
    (h : ((Process.init v).run jobStd (es ++ fs)).decided id (.ifft n) b) :
    b = ifftParallel true v ((Process.init v).run jobStd es).sh.ov n :=
  decision_gen sane_jobStd ends_jobStd es fs he hf hst id (.ifft n) b hnew h

theorem ends_orDefault {ov : ParOv} {b : Bool} {c : OvCell} {d : ℕ} {k : ℕ → Decision}
    (h : Ends v ov b (k (orEnv (ovGet ov c) d))) : Ends v ov b (.orDefault c d k) := by
  show Ends v ov b (if ovGet ov c ≠ 0 then _ else _)
  unfold orEnv at h
  by_cases hw : ovGet ov c ≠ 0
  · rw [if_pos hw] at h ⊢; exact h
  · rw [if_neg hw] at h ⊢; exact h

theorem sane_orDefault {c : OvCell} {d : ℕ} {k : ℕ → Decision} (h : ∀ w, Sane v (k w)) : Sane v (.orDefault c d k) := by
  intro w
  by_cases hw : w ≠ 0
  · simp only [hw, if_true, ne_eq, not_false_eq_true]; exact h _
  · simp only [hw, if_false]; exact h _

theorem sane_nostd (n : ℕ) : Sane v (ifftDecisionNoStd n) := by
  intro o
  by_cases ho : o ≠ 0
  · simp only [ho, if_true, ne_eq, not_false_eq_true]; trivial
  · simp only [ho, if_false]
    exact sane_orDefault fun _ => sane_orDefault fun _ => sane_orDefault fun _ => sane_orDefault fun _ => trivial

theorem ends_nostd (ov : ParOv) (n : ℕ) : Ends v ov (ifftParallel false v ov n) (ifftDecisionNoStd n) := by
  show Ends v ov _ (if ov.threshold ≠ 0 then _ else _)
  unfold ifftParallel shouldParallelizeNoStd
  simp only [Bool.false_eq_true, if_false]
  by_cases h : ov.threshold ≠ 0
  · simp only [h, if_true, ne_eq, not_false_eq_true]; rfl
  · simp only [h, if_false, ne_eq, not_true_eq_false]
    exact ends_orDefault (ends_orDefault (ends_orDefault (ends_orDefault rfl)))

theorem sane_jobNoStd (j : Job) : Sane v (jobNoStd j) := by
  cases j with
  | ifft n => exact sane_nostd n
  | fft n => trivial

theorem ends_jobNoStd (ov : ParOv) (j : Job) : Ends v ov (Spec.alone false v ov j) (jobNoStd j) := by
  cases j with
  | ifft n => exact ends_nostd ov n
  | fft n => rfl

/-- C94: the same without `std`. -/
theorem decision_of_settings_nostd (es fs : List SetEv) (he : Spec.noSetenv es) (hf : Spec.noSetenv fs)
    (hst : Spec.noStore fs) (id n : ℕ) (b : Bool)
    (hnew : ((Process.init v).run jobNoStd es).calls id = none)
    (h : ((Process.init v).run jobNoStd (es ++ fs)).decided id (.ifft n) b) :
    b = ifftParallel false v ((Process.init v).run jobNoStd es).sh.ov n :=
  decision_gen sane_jobNoStd ends_jobNoStd es fs he hf hst id (.ifft n) b hnew h

end fixed

/-! ### Changing environment -/

/-- Later contents of the `OnceLock`s: what was set stays. -/
def Ext (o o' : EnvCell → Option ℕ) : Prop := ∀ c w, o c = some w → o' c = some w

/-- Enough has been read for the threshold `B`. -/
def Fr (o : EnvCell → Option ℕ) (B : ℕ) : Prop :=
  ∃ t, o .threshold = some t ∧ (t ≠ 0 → B ≠ 0) ∧ (t = 0 → ∀ c, ∃ w, o c = some w)

theorem Fr.mono {o o' : EnvCell → Option ℕ} {B : ℕ} (h : Fr o B) (he : Ext o o') : Fr o' B := by
  obtain ⟨t, h1, h2, h3⟩ := h
  exact ⟨t, he _ _ h1, h2, fun h0 c => by obtain ⟨w, hw⟩ := h3 h0 c; exact ⟨w, he _ _ hw⟩⟩

/-- Reads no unset `OnceLock`, the threshold being `B`. -/
def Ind (o : EnvCell → Option ℕ) (B : ℕ) : Decision → Prop
  | .done _ => True
  | .load _ k => ∀ w, Ind o B (k w)
  | .env c k => ∃ w, o c = some w ∧ Ind o B (k w)
  | .getBase k => Ind o B (k none) ∧ Ind o B (k (some B))
  | .putBase _ k => Ind o B (k B)

/-- Publishes a threshold only when enough has been read for it. -/
def Pub : Decision → (EnvCell → Option ℕ) → Prop
  | .done _, _ => True
  | .load _ k, o => ∀ w, Pub (k w) o
  | .env c k, o => ∀ w o', Ext o o' → o' c = some w → Pub (k w) o'
  | .getBase k, o => Pub (k none) o ∧ ∀ B, Pub (k (some B)) o
  | .putBase v k, o => Fr o v ∧ ∀ B, Pub (k B) o

/-- Does not decide before it has a threshold. -/
def Waits : Decision → Prop
  | .done _ => False
  | .load _ k => ∀ w, Waits (k w)
  | .env _ k => ∀ w, Waits (k w)
  | .getBase k => Waits (k none)
  | .putBase _ _ => True

theorem Ext.trans {a b c : EnvCell → Option ℕ} (h : Ext a b) (h' : Ext b c) : Ext a c := fun x w hx => h' _ _ (h _ _ hx)

theorem Pub.mono : ∀ {d : Decision} {o o' : EnvCell → Option ℕ}, Pub d o → Ext o o' → Pub d o'
  | .done _, _, _, _, _ => trivial
  | .load _ k, _, _, h, he => fun w => Pub.mono (h w) he
  | .env _ k, _, _, h, he => fun w o'' he' hw => h w o'' (he.trans he') hw
  | .getBase k, _, _, h, he => ⟨Pub.mono h.1 he, fun B => Pub.mono (h.2 B) he⟩
  | .putBase _ k, _, _, h, he => ⟨h.1.mono he, fun B => Pub.mono (h.2 B) he⟩

theorem step_ext (s : Shared) (d : Decision) : Ext s.once (d.step s).1.once := by
  cases d with
  | done b => exact fun _ _ h => h
  | load c k => exact fun _ _ h => h
  | env c k =>
    simp only [Decision.step]
    cases hc : s.once c with
    | some w => exact fun _ _ h => h
    | none =>
      intro c' w h
      simp only []
      by_cases e : c' = c
      · subst e; rw [hc] at h; exact absurd h (by simp)
      · rw [if_neg e]; exact h
  | getBase k => exact fun _ _ h => h
  | putBase w k => simp only [Decision.step]; cases s.base <;> exact fun _ _ h => h

/-- What every call satisfies in every run. -/
structure CallOk (s : Shared) (d : Decision) : Prop where
  pub : Pub d s.once
  ind : ∀ o' B, Ext s.once o' → (∀ w, s.base = some w → w = B) → Fr o' B → Ind o' B d
  waits : s.base = none → Waits d

/-- What every run satisfies, whatever happens to the environment. -/
def EnvOk (p : Process) : Prop :=
  (∀ B, p.sh.base = some B → Fr p.sh.once B) ∧ ∀ id n d, p.calls id = some (n, d) → CallOk p.sh d

theorem CallOk.mono {s s' : Shared} {d : Decision} (h : CallOk s d) (he : Ext s.once s'.once)
    (hb : ∀ w, s.base = some w → s'.base = some w) : CallOk s' d :=
  ⟨h.pub.mono he, fun o' B ho hB hF => h.ind o' B (he.trans ho) (fun w hw => hB w (hb w hw)) hF,
    fun h0 => h.waits (by cases hs : s.base with | none => rfl | some w => rw [hb w hs] at h0; exact absurd h0 (by simp))⟩

theorem step_base (s : Shared) (d : Decision) : ∀ w, s.base = some w → (d.step s).1.base = some w := by
  intro w hw
  cases d with
  | done b => exact hw
  | load c k => exact hw
  | env c k => simp only [Decision.step]; cases s.once c <;> exact hw
  | getBase k => exact hw
  | putBase w' k => simp only [Decision.step, hw]

theorem callOk_step {s : Shared} {d : Decision} (hF : ∀ B, s.base = some B → Fr s.once B) (h : CallOk s d) :
    (∀ B, (d.step s).1.base = some B → Fr (d.step s).1.once B) ∧ CallOk (d.step s).1 (d.step s).2 := by
  obtain ⟨h1, h2, h3⟩ := h
  cases d with
  | done b => exact ⟨hF, ⟨h1, h2, h3⟩⟩
  | load c k => exact ⟨hF, ⟨h1 _, fun o' B ho hB hf => h2 o' B ho hB hf _, fun h0 => h3 h0 _⟩⟩
  | env c k =>
    have hext := step_ext s (.env c k)
    simp only [Decision.step] at hext ⊢
    cases hc : s.once c with
    | some w =>
      refine ⟨hF, ⟨h1 w s.once (fun _ _ h => h) hc, fun o' B ho hB hf => ?_, fun h0 => h3 h0 _⟩⟩
      obtain ⟨w', hw', hi⟩ := h2 o' B ho hB hf
      rw [ho c w hc] at hw'
      rw [Option.some.inj hw']
      exact hi
    | none =>
      rw [hc] at hext
      simp only [] at hext ⊢
      refine ⟨fun B hB => (hF B hB).mono hext, ⟨h1 _ _ hext (if_pos rfl), fun o' B ho hB hf => ?_, fun h0 => h3 h0 _⟩⟩
      obtain ⟨w', hw', hi⟩ := h2 o' B (hext.trans ho) hB hf
      rw [ho c _ (if_pos rfl)] at hw'
      rw [Option.some.inj hw']
      exact hi
  | getBase k =>
    refine ⟨hF, ?_⟩
    simp only [Decision.step]
    cases hb : s.base with
    | none => exact ⟨h1.1, fun o' B ho hB hf => (h2 o' B ho hB hf).1, fun h0 => h3 hb⟩
    | some w =>
      refine ⟨h1.2 w, fun o' B ho hB hf => ?_, fun h0 => by rw [hb] at h0; exact absurd h0 (by simp)⟩
      rw [hB w hb]
      exact (h2 o' B ho hB hf).2
  | putBase v k =>
    simp only [Decision.step]
    cases hb : s.base with
    | some w =>
      refine ⟨hF, ⟨h1.2 w, fun o' B ho hB hf => ?_, fun h0 => by rw [hb] at h0; exact absurd h0 (by simp)⟩⟩
      rw [hB w hb]
      exact h2 o' B ho hB hf
    | none =>
      refine ⟨fun B hB => ?_, ⟨h1.2 v, fun o' B ho hB hf => ?_, fun h0 => absurd h0 (by simp)⟩⟩
      · rw [← Option.some.inj hB]; exact h1.1
      · rw [hB v rfl]
        exact h2 o' B ho (fun w hw => by rw [hb] at hw; exact absurd hw (by simp)) hf

theorem ind_orEnv {o : EnvCell → Option ℕ} {B : ℕ} {c : OvCell} {e : EnvCell} {k : ℕ → Decision}
    (he : ∃ w, o e = some w) (h : ∀ w, Ind o B (k w)) : Ind o B (.orEnv c e k) := by
  intro w
  by_cases hw : w ≠ 0
  · simp only [hw, if_true, ne_eq, not_false_eq_true]; exact h _
  · simp only [hw, if_false]
    obtain ⟨w', h'⟩ := he
    exact ⟨w', h', h _⟩

theorem ind_should {o : EnvCell → Option ℕ} {B : ℕ} (h : Fr o B) (n : ℕ) : Ind o B (shouldDecide n B) := by
  intro w
  by_cases ho : (if w ≠ 0 then w else B) ≠ 0
  · simp only [ho, if_true, ne_eq, not_false_eq_true]; trivial
  · simp only [ho, if_false]
    have hB : B = 0 := by
      by_cases hw : w ≠ 0
      · rw [if_pos hw] at ho; exact absurd hw ho
      · rw [if_neg hw] at ho; simpa using ho
    obtain ⟨t, h1, h2, h3⟩ := h
    have h3 := h3 (by by_contra hc; exact h2 hc hB)
    refine ind_orEnv (h3 _) fun _ => ind_orEnv (h3 _) fun _ => ?_
    obtain ⟨c, hc⟩ := h3 .calibrated
    exact ⟨c, hc, ind_orEnv (h3 _) fun _ => ind_orEnv (h3 _) fun _ => trivial⟩

theorem ind_base {o : EnvCell → Option ℕ} {B : ℕ} {k : ℕ → Decision} (h : Fr o B) (hk : Ind o B (k B)) :
    Ind o B (baseThreshold k) := by
  refine ⟨?_, hk⟩
  obtain ⟨t, h1, h2, h3⟩ := id h
  refine ⟨t, h1, ?_⟩
  by_cases ht : t ≠ 0
  · simp only [ht, if_true, ne_eq, not_false_eq_true]; exact hk
  · simp only [ht, if_false]
    have h3 := h3 (by simpa using ht)
    obtain ⟨a1, e1⟩ := h3 .cacheBytes
    obtain ⟨a2, e2⟩ := h3 .perCoreWork
    obtain ⟨a3, e3⟩ := h3 .calibrated
    obtain ⟨a4, e4⟩ := h3 .blockSize
    obtain ⟨a5, e5⟩ := h3 .threads
    exact ⟨a1, e1, a2, e2, a3, e3, a4, e4, a5, e5, hk⟩

theorem ind_ifft {o : EnvCell → Option ℕ} {B : ℕ} (h : Fr o B) (n : ℕ) : Ind o B (ifftDecision n) := ind_base h (ind_should h n)

theorem pub_orEnv {o : EnvCell → Option ℕ} {c : OvCell} {e : EnvCell} {k : ℕ → Decision}
    (h : ∀ w o', Pub (k w) o') : Pub (.orEnv c e k) o := by
  intro w
  by_cases hw : w ≠ 0
  · simp only [hw, if_true, ne_eq, not_false_eq_true]; exact h _ _
  · simp only [hw, if_false]; exact fun w o' _ _ => h _ _

theorem pub_should (o : EnvCell → Option ℕ) (n B : ℕ) : Pub (shouldDecide n B) o := by
  intro w
  by_cases ho : (if w ≠ 0 then w else B) ≠ 0
  · simp only [ho, if_true, ne_eq, not_false_eq_true]; trivial
  · simp only [ho, if_false]
    exact pub_orEnv fun _ _ => pub_orEnv fun _ _ _ _ _ _ => pub_orEnv (c := .blockSize) (e := .blockSize) fun _ _ =>
      pub_orEnv fun _ _ => trivial

theorem pub_base (o : EnvCell → Option ℕ) {k : ℕ → Decision} (hk : ∀ o B, Pub (k B) o) : Pub (baseThreshold k) o := by
  refine ⟨fun t o1 _ h1 => ?_, fun B => hk o B⟩
  by_cases ht : t ≠ 0
  · simp only [ht, if_true, ne_eq, not_false_eq_true]
    exact ⟨⟨t, h1, fun _ => ht, fun h0 => absurd h0 ht⟩, fun B => hk _ B⟩
  · simp only [ht, if_false]
    intro a1 o2 x2 e1 a2 o3 x3 e2 a3 o4 x4 e3 a4 o5 x5 e4 a5 o6 x6 e5
    refine ⟨⟨t, x6 _ _ (x5 _ _ (x4 _ _ (x3 _ _ (x2 _ _ h1)))), fun h => absurd h ht, fun _ c => ?_⟩,
      fun B => hk _ B⟩
    cases c with
    | threshold => exact ⟨_, x6 _ _ (x5 _ _ (x4 _ _ (x3 _ _ (x2 _ _ h1))))⟩
    | cacheBytes => exact ⟨_, x6 _ _ (x5 _ _ (x4 _ _ (x3 _ _ e1)))⟩
    | perCoreWork => exact ⟨_, x6 _ _ (x5 _ _ (x4 _ _ e2))⟩
    | calibrated => exact ⟨_, x6 _ _ (x5 _ _ e3)⟩
    | blockSize => exact ⟨_, x6 _ _ e4⟩
    | threads => exact ⟨_, e5⟩

theorem pub_ifft (o : EnvCell → Option ℕ) (n : ℕ) : Pub (ifftDecision n) o := pub_base o fun o B => pub_should o n B

theorem waits_base (k : ℕ → Decision) : Waits (baseThreshold k) := by
  intro t
  by_cases ht : t ≠ 0
  · simp only [ht, if_true, ne_eq, not_false_eq_true]; trivial
  · simp only [ht, if_false]
    exact fun _ _ _ _ _ => trivial

theorem waits_ifft (n : ℕ) : Waits (ifftDecision n) := waits_base _

theorem callOk_job (s : Shared) (j : Job) : CallOk s (jobStd j) := by
  cases j with
  | ifft n => exact ⟨pub_ifft _ n, fun _ _ _ _ hf => ind_ifft hf n, fun _ => waits_ifft n⟩
  | fft n =>
    exact ⟨pub_base _ (fun _ _ => trivial), fun _ _ _ _ hf => ind_base hf trivial, fun _ => waits_base _⟩

theorem envOk_apply {p : Process} (e : SetEv) (h : EnvOk p) : EnvOk (p.apply jobStd e) := by
  cases e with
  | store c w => exact ⟨h.1, fun id n d hd => (h.2 id n d hd).mono (fun _ _ h => h) (fun _ h => h)⟩
  | setenv w => exact ⟨h.1, fun id n d hd => (h.2 id n d hd).mono (fun _ _ h => h) (fun _ h => h)⟩
  | start id n =>
    simp only [Process.apply]
    cases hc : p.calls id with
    | some _ => exact h
    | none =>
      refine ⟨h.1, fun j m d hd => ?_⟩
      simp only [] at hd
      split at hd
      · obtain ⟨-, rfl⟩ := Prod.mk.inj (Option.some.inj hd)
        exact callOk_job _ _
      · exact h.2 j m d hd
  | step id =>
    simp only [Process.apply]
    cases hc : p.calls id with
    | none => exact h
    | some nd =>
      obtain ⟨n, d⟩ := nd
      have := callOk_step h.1 (h.2 id n d hc)
      refine ⟨this.1, fun j m d' hd => ?_⟩
      simp only [] at hd
      split at hd
      · obtain ⟨-, rfl⟩ := Prod.mk.inj (Option.some.inj hd)
        exact this.2
      · exact (h.2 j m d' hd).mono (step_ext _ _) (step_base _ _)

theorem envOk_run (es : List SetEv) : ∀ {p : Process}, EnvOk p → EnvOk (p.run jobStd es) := by
  induction es with
  | nil => exact fun h => h
  | cons e es ih => exact fun h => ih (envOk_apply e h)

theorem envOk_init (v : ParVars) : EnvOk (Process.init v) := ⟨by simp [Process.init], by simp [Process.init]⟩

/-- The same process but for the environment. -/
def SameBut (p q : Process) : Prop :=
  p.calls = q.calls ∧ p.sh.ov = q.sh.ov ∧ p.sh.once = q.sh.once ∧ p.sh.base = q.sh.base

theorem same_step {s t : Shared} {d : Decision} {B : ℕ} (h1 : s.ov = t.ov) (h2 : s.once = t.once) (h3 : s.base = t.base)
    (hB : s.base = some B) (hi : Ind s.once B d) :
    (d.step s).2 = (d.step t).2 ∧ (d.step s).1.ov = (d.step t).1.ov ∧ (d.step s).1.once = (d.step t).1.once ∧
      (d.step s).1.base = (d.step t).1.base := by
  cases d with
  | done b => exact ⟨rfl, h1, h2, h3⟩
  | load c k => exact ⟨by simp only [Decision.step, h1], h1, h2, h3⟩
  | env c k =>
    obtain ⟨w, hw, -⟩ := hi
    have hw' : t.once c = some w := by rw [← h2]; exact hw
    simp only [Decision.step, hw, hw']
    exact ⟨trivial, h1, h2, h3⟩
  | getBase k => exact ⟨by simp only [Decision.step, h3], h1, h2, h3⟩
  | putBase w k =>
    have hB' : t.base = some B := by rw [← h3]; exact hB
    simp only [Decision.step, hB, hB']
    exact ⟨trivial, h1, h2, trivial⟩

/-- C94: the environment is read once. Once one call of `ifft`, or of `fft` that asks for the threshold, has passed its decision, in any run of any number of threads, later changes
of the environment variables (or of what the clock and the number of processors would give) have no effect on any decision:
leaving them out of the run changes no call. -/
theorem environment_read_once (v : ParVars) (es fs : List SetEv) (id : ℕ) (job : Job) (b : Bool)
    (h : ((Process.init v).run jobStd es).decided id job b) (id' : ℕ) (job' : Job) (b' : Bool) :
    ((Process.init v).run jobStd (es ++ fs)).decided id' job' b' ↔
      ((Process.init v).run jobStd (es ++ Spec.withoutSetenv fs)).decided id' job' b' := by
  rw [settings_append, settings_append]
  have h0 := envOk_run es (envOk_init v)
  generalize (Process.init v).run jobStd es = p at h h0
  obtain ⟨B, hB⟩ : ∃ B, p.sh.base = some B := by
    cases hb : p.sh.base with
    | none => exact ((h0.2 _ _ _ h).waits hb).elim
    | some B => exact ⟨B, rfl⟩
  have key : ∀ (fs : List SetEv) (p q : Process), EnvOk p → p.sh.base = some B → SameBut p q →
      SameBut (p.run jobStd fs) (q.run jobStd (Spec.withoutSetenv fs)) := by
    intro fs
    induction fs with
    | nil => exact fun _ _ _ _ h => h
    | cons e fs ih =>
      rintro ⟨ps, pc⟩ ⟨qs, qc⟩ hp hB ⟨hc, h1, h2, h3⟩
      simp only [] at hc h1 h2 h3 hB
      subst hc
      have hpe := envOk_apply e hp
      have hBe : (Process.apply jobStd ⟨ps, pc⟩ e).sh.base = some B := by
        cases e with
        | store c w => exact hB
        | setenv w => exact hB
        | start id n => simp only [Process.apply]; cases pc id <;> exact hB
        | step id =>
          simp only [Process.apply]
          cases pc id with
          | none => exact hB
          | some nd => exact step_base _ _ _ hB
      rw [settings_cons]
      cases e with
      | setenv w =>
        exact ih _ _ hpe hBe ⟨rfl, h1, h2, h3⟩
      | store c w =>
        refine ih _ _ hpe hBe ⟨rfl, ?_, h2, h3⟩
        simp only [Process.apply, h1]
      | start id n =>
        refine ih _ _ hpe hBe ?_
        simp only [Process.apply]
        cases pc id with
        | some _ => exact ⟨rfl, h1, h2, h3⟩
        | none => exact ⟨rfl, h1, h2, h3⟩
      | step id =>
        refine ih _ _ hpe hBe ?_
        simp only [Process.apply]
        cases hid : pc id with
        | none => exact ⟨rfl, h1, h2, h3⟩
        | some nd =>
          obtain ⟨n, d⟩ := nd
          have hi := (hp.2 id n d hid).ind ps.once B (fun _ _ h => h)
            (fun w hw => Option.some.inj (hw.symm.trans hB)) (hp.1 B hB)
          obtain ⟨g1, g2, g3, g4⟩ := same_step h1 h2 h3 hB hi
          exact ⟨by simp only [g1], g2, g3, g4⟩
  have := key fs p p h0 hB ⟨rfl, rfl, rfl, rfl⟩
  unfold Process.decided
  rw [this.1]

/-- C94: whatever a call decides, in whatever run, its result is bit for bit the sequential one. -/
theorem any_decision_same_result {T : Type} [Flt T] (cfg : Cfg) (dec : Job → Decision) (pr : Process) (es : List SetEv)
    (id : ℕ) (par : Bool) (p : Planner T) (hp : Spec.Reach cfg p) (x : List (Cx T))
    (_ : (pr.run dec es).decided id (.ifft x.length) par) (o1 o2 : List ℕ) (h1 : o1.Perm (List.range x.length))
    (h2 : o2.Perm (List.range x.length)) : ifftPar cfg par o1 o2 p x = ifft cfg p x :=
  ifftPar_same cfg par p hp x o1 o2 h1 h2

/-- C94, the limit of it: the settings are separate cells. A call that overlaps with setter calls may decide by a combination of
settings that was never in force. Here (without `std`) 8192 elements are sequential before, between and after two setter calls,
and a call that overlaps with them decides to go parallel all the same: it has read the L1 size from before and the number of
threads from after. -/
theorem settings_torn (v : ParVars) : ∃ es : List SetEv,
    let r := Process.run jobNoStd (Process.init v)
    let before := [SetEv.store .threads 4]
    let call := [SetEv.start 0 (.ifft 8192), .step 0, .step 0]
    let set1 := [SetEv.store .cacheBytes 131072]
    let set2 := [SetEv.store .threads 2]
    es = before ++ call ++ set1 ++ set2 ++ [.step 0, .step 0, .step 0] ∧
    ifftParallel false v (r before).sh.ov 8192 = false ∧
    ifftParallel false v (r (before ++ set1)).sh.ov 8192 = false ∧
    ifftParallel false v (r (before ++ set1 ++ set2)).sh.ov 8192 = false ∧
    (r es).decided 0 (.ifft 8192) true := by
  refine ⟨_, rfl, ?_, ?_, ?_, rfl⟩ <;>
    simp [Process.run, Process.apply, Process.init, ovSet, setThreads, setL1Cache, ifftParallel, shouldParallelizeNoStd, orEnv]

/-- Two calls interleaved access by access after a setter call: both decide as C23 says. -/
example (v : ParVars) : ((Process.init v).run jobNoStd ([.store .threshold 100] ++
    [.start 0 (.ifft 99), .start 1 (.ifft 100), .step 1, .step 0])).decided 0 (.ifft 99) false ∧
    ((Process.init v).run jobNoStd ([.store .threshold 100] ++
    [.start 0 (.ifft 99), .start 1 (.ifft 100), .step 1, .step 0])).decided 1 (.ifft 100) true := ⟨rfl, rfl⟩

/-- With `std`, two calls racing for the first use while the environment changes: both use the threshold that was published
first, and the change has no effect. -/
example : ((Process.init ⟨some 50, none, none, none, none, 8, 0⟩).run jobStd
    [.start 0 (.ifft 60), .step 0, .step 0, .setenv ⟨some 500, none, none, none, none, 8, 0⟩, .start 1 (.ifft 60), .step 1, .step 1, .step 1,
     .step 1, .step 0, .step 0]).decided 0 (.ifft 60) true ∧
    ((Process.init ⟨some 50, none, none, none, none, 8, 0⟩).run jobStd
    [.start 0 (.ifft 60), .step 0, .step 0, .setenv ⟨some 500, none, none, none, none, 8, 0⟩, .start 1 (.ifft 60), .step 1, .step 1, .step 1,
     .step 1, .step 0, .step 0]).decided 1 (.ifft 60) true := ⟨rfl, rfl⟩

/-- An `fft` on another thread has read the environment; a later change does not reach an `ifft` that begins after it. -/
example : ((Process.init ⟨some 50, none, none, none, none, 8, 0⟩).run jobStd
    [.start 0 (.fft 32), .step 0, .step 0, .step 0, .setenv ⟨some 500, none, none, none, none, 8, 0⟩,
     .start 1 (.ifft 60), .step 1, .step 1]).decided 1 (.ifft 60) true := rfl

end Kofft.Props
