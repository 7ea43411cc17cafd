import Verif.Lib.OPost
import Verif.Spec.Retain
import Verif.Proof.Rfft
/-
What a real planner keeps.
-/
namespace Kofft
open Spec

variable {T : Type} [Flt T]

/-- A buffer of at most `B` entries, tables only for sizes in `C`. -/
structure RFits (B : Nat) (C : Nat → Prop) (rp : RfftPlanner T) : Prop where
  inv : RInv rp
  cache : ∀ m, rp.cache m ≠ none → C m
  pack : ∀ m, rp.packCache m ≠ none → C m
  scratch : rp.scratch.length ≤ B

section
variable {B : Nat} {C : Nat → Prop}

theorem cacheGet_keys {c : Nat → Option (List (Cx T))} (h : ∀ m, c m ≠ none → C m) {n : Nat} (hn : C n) :
    OPost (fun v : (Nat → Option (List (Cx T))) × List (Cx T) => ∀ m, v.1 m ≠ none → C m) (cacheGet c n) := by
  unfold cacheGet
  split
  · exact OPost.ok h
  · refine OPost.bind' fun t => OPost.pure fun m hm => ?_
    simp only [mapInsert] at hm
    split at hm
    · rename_i e; rw [e]; exact hn
    · exact h m hm

theorem RFits.tw {rp : RfftPlanner T} (h : RFits B C rp) {n : Nat} (hn : C n) :
    OPost (fun v : RfftPlanner T × List (Cx T) => RFits B C v.1 ∧ v.1.scratch = rp.scratch) (rp.getTwiddles n) := by
  intro v e
  obtain ⟨rp', e', h', hs⟩ := getTwiddles_ok rp h.inv n
  unfold RfftPlanner.getTwiddles at e
  have hk := cacheGet_keys h.cache hn
  obtain ⟨a, ea, eb⟩ := ok_of_bind e
  have hv : v.1 = { rp with cache := a.1 } := by cases eb; rfl
  have h1 : v.1 = rp' := by
    unfold RfftPlanner.getTwiddles at e'
    rw [e] at e'; cases e'; rfl
  refine ⟨⟨by rw [h1]; exact h', ?_, ?_, ?_⟩, ?_⟩ <;> rw [hv]
  · exact hk a ea
  · exact h.pack
  · exact h.scratch

theorem RFits.pk {rp : RfftPlanner T} (h : RFits B C rp) {n : Nat} (hn : C n) :
    OPost (fun v : RfftPlanner T × List (Cx T) => RFits B C v.1 ∧ v.1.scratch = rp.scratch) (rp.getPackTwiddles n) := by
  intro v e
  obtain ⟨rp', e', h', hs⟩ := getPackTwiddles_ok rp h.inv n
  unfold RfftPlanner.getPackTwiddles at e
  have hk := cacheGet_keys h.pack hn
  obtain ⟨a, ea, eb⟩ := ok_of_bind e
  have hv : v.1 = { rp with packCache := a.1 } := by cases eb; rfl
  have h1 : v.1 = rp' := by
    unfold RfftPlanner.getPackTwiddles at e'
    rw [e] at e'; cases e'; rfl
  refine ⟨⟨by rw [h1]; exact h', ?_, ?_, ?_⟩, ?_⟩ <;> rw [hv]
  · exact h.cache
  · exact hk a ea
  · exact h.scratch

theorem rnew_fits (hC : ∀ m ∈ [2, 4, 8, 16, 32, 64, 128, 256], C m) :
    OPost (fun v : RfftPlanner T => RFits B C v) RfftPlanner.new := by
  have gen : ∀ (l : List Nat) (rp : RfftPlanner T), (∀ m ∈ l, C m) → RFits B C rp →
      OPost (fun v : RfftPlanner T => RFits B C v) (l.foldlM (fun (rp : RfftPlanner T) m => do
        let (rp, _) ← rp.getTwiddles m
        let (rp, _) ← rp.getPackTwiddles m
        pure rp) rp) := by
    intro l
    induction l with
    | nil => intro rp _ h; exact OPost.pure h
    | cons a l ih =>
      intro rp hl h
      rw [List.foldlM_cons]
      refine OPost.bind (P := fun v => RFits B C v) ?_ fun v hv => ih v (fun m hm => hl m (List.mem_cons_of_mem _ hm)) hv
      refine OPost.bind (h.tw (hl a List.mem_cons_self)) fun v hv => ?_
      exact OPost.bind (hv.1.pk (hl a List.mem_cons_self)) fun w hw => OPost.pure hw.1
  unfold RfftPlanner.new
  exact gen _ _ hC ⟨⟨by simp, by simp⟩, by simp, by simp, Nat.zero_le _⟩

theorem rfftDirect_sc {S : Type} (bin : Cx T → Cx T → Cx T → Cx T) (op : StOp S T) (s : S) (ho : OpLen op s) (input : List T)
    (output scratch tw : List (Cx T)) :
    OPost (fun v : S × List (Cx T) × List (Cx T) × Res => v.2.2.1.length = scratch.length)
      (rfftDirect bin op s input output scratch tw) := by
  unfold rfftDirect
  refine OPost.ite (fun _ => OPost.ok rfl) fun h0 => OPost.ite (fun _ => OPost.ok rfl) fun h1 => ?_
  simp only
  refine OPost.ite (fun _ => OPost.ok rfl) fun h2 => ?_
  push Not at h2
  refine OPost.bind (P := fun z : List (Cx T) => z.length = output.length) ?_ fun z hz => ?_
  · unfold packReal
    exact OPost.forRange rfl fun i s hs => OPost.bind' fun _ => OPost.bind' fun _ => OPost.wr.mono fun l hl => by rw [hl, hs]
  · have hl : OPost (fun v : S × List (Cx T) × Res => v.2.1.length = input.length / 2) (op s (z.take (input.length / 2))) := by
      intro v e
      rw [ho _ v.1 v.2.1 v.2.2 e, List.length_take]; omega
    refine OPost.bind hl fun v hv => ?_
    obtain ⟨s', y, r⟩ := v
    simp only at hv
    cases r with
    | error => exact OPost.ok rfl
    | ok =>
      refine OPost.bind' fun _ => OPost.bind' fun _ => OPost.bind' fun _ => OPost.bind' fun _ => OPost.ok ?_
      simp only [List.length_append, List.length_take, List.length_drop, hv]
      omega

theorem rfftDirect_out {S : Type} (bin : Cx T → Cx T → Cx T → Cx T) (op : StOp S T) (s : S) (ho : OpLen op s) (input : List T)
    (output scratch tw : List (Cx T)) :
    OPost (fun v : S × List (Cx T) × List (Cx T) × Res => v.2.1.length = output.length)
      (rfftDirect bin op s input output scratch tw) := by
  unfold rfftDirect
  refine OPost.ite (fun _ => OPost.ok rfl) fun h0 => OPost.ite (fun _ => OPost.ok rfl) fun h1 => ?_
  simp only
  refine OPost.ite (fun _ => OPost.ok rfl) fun h2 => ?_
  push Not at h2
  refine OPost.bind (P := fun z : List (Cx T) => z.length = output.length) ?_ fun z hz => ?_
  · unfold packReal
    exact OPost.forRange rfl fun i s hs => OPost.bind' fun _ => OPost.bind' fun _ => OPost.wr.mono fun l hl => by rw [hl, hs]
  · have hl : OPost (fun v : S × List (Cx T) × Res => v.2.1.length = input.length / 2) (op s (z.take (input.length / 2))) := by
      intro v e
      rw [ho _ v.1 v.2.1 v.2.2 e, List.length_take]; omega
    refine OPost.bind hl fun v hv => ?_
    obtain ⟨s', y, r⟩ := v
    simp only at hv
    have hy : (y ++ z.drop (input.length / 2)).length = output.length := by
      rw [List.length_append, List.length_drop, hv, hz]; omega
    cases r with
    | error => exact OPost.ok hy
    | ok =>
      refine OPost.bind' fun _ => OPost.bind OPost.wr fun a ha => OPost.bind OPost.wr fun b hb =>
        OPost.bind (P := fun w : List (Cx T) => w.length = output.length) ?_ fun w hw => OPost.ok hw
      exact OPost.forRange (by rw [hb, ha, hy]) fun i s hs => OPost.bind' fun _ => OPost.bind' fun _ => OPost.bind' fun _ =>
        OPost.wr.mono fun l hl => by rw [hl, hs]

theorem irfftDirect_sc {S : Type} (bin : Cx T → Cx T → Cx T → Cx T) (op : StOp S T) (s : S) (ho : OpLen op s) (input : List (Cx T))
    (output : List T) (scratch tw : List (Cx T)) :
    OPost (fun v : S × List T × List (Cx T) × Res => v.2.2.1.length = scratch.length)
      (irfftDirect bin op s input output scratch tw) := by
  unfold irfftDirect
  refine OPost.ite (fun _ => OPost.ok rfl) fun h0 => OPost.ite (fun _ => OPost.ok rfl) fun h1 => ?_
  simp only
  refine OPost.ite (fun _ => OPost.ok rfl) fun h2 => ?_
  push Not at h2
  refine OPost.bind' fun _ => OPost.bind' fun _ => OPost.bind OPost.wr fun z hz => ?_
  refine OPost.bind (P := fun w : List (Cx T) => w.length = scratch.length) ?_ fun w hw => ?_
  · exact OPost.forRange hz fun i s hs => OPost.bind' fun _ => OPost.bind' fun _ => OPost.bind' fun _ => OPost.wr.mono fun l hl => by rw [hl, hs]
  · have hl : OPost (fun v : S × List (Cx T) × Res => v.2.1.length = output.length / 2) (op s (w.take (output.length / 2))) := by
      intro v e
      rw [ho _ v.1 v.2.1 v.2.2 e, List.length_take]; omega
    refine OPost.bind hl fun v hv => ?_
    obtain ⟨s', y, r⟩ := v
    simp only at hv
    have : (y ++ w.drop (output.length / 2)).length = scratch.length := by
      rw [List.length_append, List.length_drop, hv, hw]; omega
    cases r with
    | error => exact OPost.ok this
    | ok => exact OPost.bind' fun _ => OPost.ok this

theorem rcall_fits {simd : Bool} {n : Nat} {rp rp' : RfftPlanner T} (h : RFits B C rp) (hn : C n) (hB : n ≤ B)
    (e : RCall simd n rp rp') : RFits B C rp' := by
  have ws : ∀ {S : Type} (op : StOp S T) (s : S) (input : List T) (output scratch : List (Cx T)) (q : RfftPlanner T),
      RFits B C q → C (input.length / 2) →
      OPost (fun v : RfftPlanner T × S × List (Cx T) × List (Cx T) × Res => RFits B C v.1 ∧ (OpLen op s → v.2.2.2.1.length = scratch.length))
        (q.rfftWithScratch simd op s input output scratch) := by
    intro S op s input output scratch q hq hc
    unfold RfftPlanner.rfftWithScratch
    refine OPost.bind (hq.tw hc) fun v hv => OPost.bind (hv.1.pk hc) fun w hw => ?_
    by_cases ho : OpLen op s
    · refine OPost.bind (rfftDirect_sc _ op s ho input output scratch _) fun u hu => ?_
      obtain ⟨a, b, c, d⟩ := u
      exact OPost.pure ⟨hw.1, fun _ => hu⟩
    · refine OPost.bind' fun u => ?_
      obtain ⟨a, b, c, d⟩ := u
      exact OPost.pure ⟨hw.1, fun h => absurd h ho⟩
  have iws : ∀ {S : Type} (op : StOp S T) (s : S) (input : List (Cx T)) (output : List T) (scratch : List (Cx T)) (q : RfftPlanner T),
      RFits B C q → C (output.length / 2) →
      OPost (fun v : RfftPlanner T × S × List T × List (Cx T) × Res => RFits B C v.1 ∧ (OpLen op s → v.2.2.2.1.length = scratch.length))
        (q.irfftWithScratch simd op s input output scratch) := by
    intro S op s input output scratch q hq hc
    unfold RfftPlanner.irfftWithScratch
    refine OPost.bind (hq.tw hc) fun v hv => OPost.bind (hv.1.pk hc) fun w hw => ?_
    by_cases ho : OpLen op s
    · refine OPost.bind (irfftDirect_sc _ op s ho input output scratch _) fun u hu => ?_
      obtain ⟨a, b, c, d⟩ := u
      exact OPost.pure ⟨hw.1, fun _ => hu⟩
    · refine OPost.bind' fun u => ?_
      obtain ⟨a, b, c, d⟩ := u
      exact OPost.pure ⟨hw.1, fun h => absurd h ho⟩
  have h0 : RFits B C { rp with scratch := [] } := ⟨h.inv, h.cache, h.pack, Nat.zero_le _⟩
  have fin : ∀ (m : Nat) (q : RfftPlanner T) (sc : List (Cx T)), m ≤ B → RFits B C q →
      sc.length = ((grow rp.scratch m Cx.zero).take m).length →
      RFits B C { q with scratch := sc ++ (grow rp.scratch m Cx.zero).drop m } := by
    intro m q sc hm hq hs
    refine ⟨hq.inv, hq.cache, hq.pack, ?_⟩
    rw [List.length_append, hs, List.length_take, List.length_drop, grow_length]
    have := h.scratch
    omega
  cases e with
  | getTwiddles _ e => exact (h.tw hn _ e).1
  | getPackTwiddles _ e => exact (h.pk hn _ e).1
  | @rfft _ _ S op s input output v ho e =>
    unfold RfftPlanner.rfft at e
    obtain ⟨⟨q, s', o, sc, r⟩, e1, e2⟩ := ok_of_bind e
    have := ws op s input output _ _ h0 hn _ e1
    cases e2
    exact fin _ q sc hB this.1 (this.2 ho)
  | @irfft _ _ S op s input output v ho e =>
    unfold RfftPlanner.irfft at e
    obtain ⟨⟨q, s', o, sc, r⟩, e1, e2⟩ := ok_of_bind e
    have := iws op s input output _ _ h0 hn _ e1
    cases e2
    exact fin _ q sc hB this.1 (this.2 ho)
  | rfftWithScratch e => exact (ws _ _ _ _ _ _ h hn _ e).1
  | irfftWithScratch e => exact (iws _ _ _ _ _ _ h hn _ e).1
  | @rfftPacked _ _ S op s input output scratch v e =>
    refine (?_ : OPost (fun v : RfftPlanner T × S × List (Cx T) × List (Cx T) × Res => RFits B C v.1) _) _ e
    unfold Kofft.rfftPacked
    refine OPost.ite (fun _ => OPost.ok h) fun h0 => OPost.ite (fun _ => OPost.ok h) fun h1 => ?_
    simp only
    refine OPost.ite (fun _ => OPost.ok h) fun h2 => ?_
    refine OPost.bind' fun _ => OPost.bind' fun v => ?_
    obtain ⟨s', y, r⟩ := v
    cases r with
    | error => exact OPost.ok h
    | ok =>
      refine OPost.bind' fun _ => OPost.bind' fun _ => OPost.bind' fun _ => OPost.bind (h.tw hn) fun w hw => OPost.bind' fun _ => OPost.ok hw.1
  | @irfftPacked _ _ S op s input output scratch v e =>
    refine (?_ : OPost (fun v : RfftPlanner T × S × List T × List (Cx T) × Res => RFits B C v.1) _) _ e
    unfold Kofft.irfftPacked
    refine OPost.ite (fun _ => OPost.ok h) fun h0 => OPost.ite (fun _ => OPost.ok h) fun h1 => ?_
    simp only
    refine OPost.ite (fun _ => OPost.ok h) fun h2 => ?_
    refine OPost.bind' fun _ => OPost.bind' fun _ => OPost.bind' fun _ => OPost.bind (h.tw hn) fun w hw => ?_
    refine OPost.bind' fun _ => OPost.bind' fun v => ?_
    obtain ⟨s', y, r⟩ := v
    cases r with
    | error => exact OPost.ok hw.1
    | ok => exact OPost.bind' fun _ => OPost.ok hw.1

end

end Kofft
