import Verif.Model.Exclusive
import Mathlib.Data.List.Basic
/-
Traces are nested brackets, with new transformers only inside older ones.
-/
namespace Kofft
open Spec

variable {T : Type} [Flt T]

theorem prefix_app_cases {α : Type} {u s t : List α} (h : u <+: s ++ t) : u <+: s ∨ ∃ v, u = s ++ v ∧ v <+: t := by
  rcases List.prefix_or_prefix_of_prefix h (List.prefix_append s t) with h1 | h1
  · exact Or.inl h1
  · obtain ⟨v, rfl⟩ := h1
    exact Or.inr ⟨v, rfl, (List.prefix_append_right_inj s).mp h⟩

theorem alive_append (o : Nat) (s t : List RefEv) : alive o (s ++ t) = alive o s + alive o t := by
  induction s with
  | nil => simp [alive]
  | cons e s ih => cases e <;> simp [alive, ih, Int.add_assoc]

/-- Brackets of transformers numbered `o` and above; inside a bracket of `o` only those above it. -/
inductive Nested : Nat → List RefEv → Prop
  | nil {o} : Nested o []
  | work {o} : Nested o [.work]
  | app {o s t} : Nested o s → Nested o t → Nested o (s ++ t)
  | block {o t} : Nested (o + 1) t → Nested o (block o t)
  | up {o t} : Nested (o + 1) t → Nested o t

theorem Nested.bounds {o : Nat} {t : List RefEv} (h : Nested o t) :
    (∀ a, alive a t = 0) ∧ (∀ s, s <+: t → ∀ a, 0 ≤ alive a s ∧ alive a s ≤ 1) ∧ (∀ s, s <+: t → ∀ a, a < o → alive a s = 0) := by
  induction h with
  | nil =>
    refine ⟨fun a => rfl, fun s hs a => ?_, fun s hs a _ => ?_⟩ <;>
    · rw [List.prefix_nil.mp hs]; simp [alive]
  | work =>
    have : ∀ s : List RefEv, s <+: [.work] → ∀ a, alive a s = 0 := by
      intro s hs a
      rcases s with _ | ⟨e, s⟩
      · rfl
      · rw [List.cons_prefix_cons] at hs
        obtain ⟨rfl, hs⟩ := hs
        rw [List.prefix_nil.mp hs]; rfl
    exact ⟨fun a => rfl, fun s hs a => by simp [this s hs a], fun s hs a _ => this s hs a⟩
  | @app o s t _ _ ih1 ih2 =>
    refine ⟨fun a => by rw [alive_append, ih1.1, ih2.1]; rfl, fun u hu a => ?_, fun u hu a ha => ?_⟩ <;>
    · rcases prefix_app_cases hu with hu | ⟨v, rfl, hv⟩
      · first | exact ih1.2.1 u hu a | exact ih1.2.2 u hu a ha
      · rw [alive_append, ih1.1, Int.zero_add]
        first | exact ih2.2.1 v hv a | exact ih2.2.2 v hv a ha
  | @block o t _ ih =>
    have key : ∀ s, s <+: Kofft.block o t → s = [] ∨ (∃ u, u <+: t ∧ s = .acquire o :: u) ∨ s = Kofft.block o t := by
      intro s hs
      rcases s with _ | ⟨e, s⟩
      · exact Or.inl rfl
      · unfold Kofft.block at hs ⊢
        rw [List.cons_prefix_cons] at hs
        obtain ⟨rfl, hs⟩ := hs
        rcases prefix_app_cases hs with hs | ⟨v, rfl, hv⟩
        · exact Or.inr (Or.inl ⟨s, hs, rfl⟩)
        · rcases v with _ | ⟨e, v⟩
          · exact Or.inr (Or.inl ⟨t, List.prefix_rfl, by simp⟩)
          · rw [List.cons_prefix_cons] at hv
            obtain ⟨rfl, hv⟩ := hv
            rw [List.prefix_nil.mp hv]
            exact Or.inr (Or.inr rfl)
    have tot : ∀ a, alive a (Kofft.block o t) = 0 := by
      intro a
      unfold Kofft.block
      simp only [alive, alive_append, ih.1]
      split <;> simp
    refine ⟨tot, fun s hs a => ?_, fun s hs a ha => ?_⟩
    · rcases key s hs with rfl | ⟨u, hu, rfl⟩ | rfl
      · simp [alive]
      · simp only [alive]
        by_cases h : o = a
        · subst h; rw [ih.2.2 u hu o (by omega)]; simp
        · simpa [h] using ih.2.1 u hu a
      · simp [tot]
    · rcases key s hs with rfl | ⟨u, hu, rfl⟩ | rfl
      · rfl
      · simp only [alive]
        rw [if_neg (by omega), ih.2.2 u hu a (by omega)]; rfl
      · exact tot a
  | up _ ih => exact ⟨ih.1, ih.2.1, fun s hs a ha => ih.2.2 s hs a (by omega)⟩

theorem Nested.exclusive {o : Nat} {t : List RefEv} (h : Nested o t) : Exclusive t := fun s hs a => (h.bounds.2.1 s hs a).2

theorem tw_nested (cfg : Cfg) (o : Nat) (p : Planner T) (n : Nat) : Nested o (twTrace cfg p n) := by
  unfold twTrace
  split
  · exact .work
  · exact .nil

omit [Flt T] in
theorem grow_nested (o a b : Nat) : Nested o (growTrace a b) := by
  unfold growTrace
  split
  · exact .work
  · exact .nil

def TrOk (tr : TraceOp T) : Prop := ∀ o p x, Nested o (tr o p x)

theorem split_nested (cfg : Cfg) {tr : TraceOp T} (h : TrOk tr) (o : Nat) (p : Planner T) (re im : List T) :
    Nested o (splitSimdTrace cfg tr o p re im) := by
  unfold splitSimdTrace
  simp only
  split
  · exact .nil
  split
  · exact h _ _ _
  · exact .app (.app (.app (.block (tw_nested cfg _ p _)) (.block .nil)) .work) (.block .nil)

theorem stockham_nested (cfg : Cfg) {tr : TraceOp T} (h : TrOk tr) (o : Nat) (p : Planner T) (x : List (Cx T)) :
    Nested o (stockhamTrace cfg tr o p x) := by
  unfold stockhamTrace
  simp only
  split
  · exact .nil
  split
  · exact h _ _ _
  split
  · exact .work
  · refine .app (.app (.app (.block (tw_nested cfg _ p _)) .work) ?_) (.block .nil)
    split
    · exact split_nested cfg h o _ _ _
    · exact .nil

theorem bluestein_nested (op : FftOp T) {tr : TraceOp T} (h : TrOk tr) (o : Nat) (p : Planner T) (x : List (Cx T)) :
    Nested o (bluesteinTrace op tr o p x) := by
  unfold bluesteinTrace
  refine .app (.app (.app (.block ?_) .work) ?_) (.block .nil)
  · unfold bluTrace
    split
    · exact .app (s := [.work]) .work (h _ _ _)
    · exact .nil
  · split
    · simp only
      split
      · refine .app (.app (h _ _ _) .work) ?_
        split
        · exact .app (h _ _ _) .work
        · exact .nil
      · exact .nil
    · exact .nil

theorem fftTraceF_nested (cfg : Cfg) (f : Nat) : TrOk (T := T) (fftTraceF cfg f) := by
  induction f with
  | zero => exact fun o p x => .nil
  | succ f ih =>
    intro o p x
    show Nested o (fftTraceBody cfg _ _ o p x)
    unfold fftTraceBody
    simp only
    split
    · exact .nil
    split
    · exact .nil
    split
    · exact .work
    split
    · exact stockham_nested cfg ih o p x
    split
    · exact .nil
    · exact bluestein_nested _ ih o p x

theorem fft_nested (cfg : Cfg) : TrOk (T := T) (fftTrace cfg) := fftTraceF_nested cfg _

theorem ifft_nested (cfg : Cfg) : TrOk (T := T) (ifftTrace cfg) := by
  intro o p x
  unfold ifftTrace
  split
  · exact .nil
  · exact .app (.app .work (fft_nested cfg _ _ _)) .work

theorem radix4_nested (cfg : Cfg) : TrOk (T := T) (radix4Trace cfg) := by
  intro o p x
  unfold radix4Trace
  simp only
  split
  · exact fft_nested cfg _ _ _
  · refine .app .work ?_
    generalize (List.range (x.length.log2 / 2 - 1)).map (fun k => 4 ^ (k + 2)) = ls
    induction ls generalizing p with
    | nil => exact .nil
    | cons l ls ih => exact .app (.app (.block (tw_nested cfg _ p _)) .work) (ih _)

omit [Flt T] in
theorem strided_nested {tr : TraceOp T} (h : TrOk tr) (o : Nat) (p : Planner T) (x : List (Cx T)) (stride : Nat) (sc : List (Cx T)) :
    Nested o (stridedTrace tr o p x stride sc) := by
  unfold stridedTrace
  split
  · exact .nil
  simp only
  split
  · exact .nil
  split
  · exact .nil
  split
  · exact h _ _ _
  · exact .nil

theorem method_nested (cfg : Cfg) (o : Nat) (p : Planner T) (c : Method T) : Nested o (c.trace cfg o p) := by
  have hop : ∀ inv : Bool, TrOk (T := T) (if inv then ifftTrace cfg else fftTrace cfg) := by
    intro inv; cases inv
    · exact fft_nested cfg
    · exact ifft_nested cfg
  cases c with
  | plain inv x =>
    cases inv
    · exact fft_nested cfg o p x
    · exact ifft_nested cfg o p x
  | stockham x => exact stockham_nested cfg (fft_nested cfg) o p x
  | radix4 x => exact radix4_nested cfg o p x
  | strategy st x =>
    show Nested o (strategyTrace cfg st o p x)
    unfold strategyTrace
    simp only
    split
    · exact .nil
    split
    · exact .nil
    refine .app ?_ ?_
    · split
      · exact .block .nil
      · exact .nil
    · split
      · exact fft_nested cfg _ _ _
      · split
        · exact radix4_nested cfg _ _ _
        · exact fft_nested cfg _ _ _
      · exact stockham_nested cfg (fft_nested cfg) _ _ _
      · exact fft_nested cfg _ _ _
  | split inv re im =>
    show Nested o (splitTrace cfg inv o p re im)
    unfold splitTrace
    split
    · exact .nil
    split
    · split
      · exact .app (.app .work (split_nested cfg (fft_nested cfg) _ _ _ _)) .work
      · exact split_nested cfg (fft_nested cfg) _ _ _ _
    · exact hop inv _ _ _
  | strided inv x stride sc => exact strided_nested (hop inv) _ _ _ _ _
  | stridedAlloc inv x stride =>
    exact .app (.app (.block (grow_nested _ _ _)) (strided_nested (hop inv) _ _ _ _ _)) (.block .nil)
  | oopStrided inv x si out so =>
    show Nested o (oopStridedTrace _ _ o p x si out so)
    unfold oopStridedTrace
    split
    · exact .nil
    split
    · exact .nil
    simp only
    split
    · exact .nil
    refine .app (.block (grow_nested _ _ _)) ?_
    split
    · refine .app (hop inv _ _ _) ?_
      split
      · exact .block .nil
      · exact .nil
    · exact .nil

end Kofft
