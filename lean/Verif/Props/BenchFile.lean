import Verif.Model.BenchFile
import Verif.Props.Readme
import Mathlib.Algebra.Order.Ring.Abs
import Mathlib.Data.List.Sort
import Mathlib.Data.Rat.Defs
import Mathlib.Algebra.Order.Ring.Rat
import Mathlib.Tactic.Linarith
import Mathlib.Tactic.NormNum
import Mathlib.Data.Rat.Encodable
import Mathlib.Logic.Encodable.Basic
import Mathlib.Logic.Equiv.List
/-
C98, C99: the results file of the benchmark, and the program that puts it into the README.
-/
namespace Kofft.Spec
open Bench

/-- A record without the remarks that the report adds. -/
def bare {K : Type} (r : Rec K) : Rec K := { r with prev := none, change := none, best := false }

/-- Two measurements compete: the same transform and size. -/
def Rivals {K : Type} (a b : Rec K) : Prop := a.transform = b.transform ∧ a.size = b.size

/-- The time of the same measurement in an earlier run: the last one listed. -/
def earlier {K : Type} (old : List (Rec K)) (r : Rec K) : Option K :=
  (old.reverse.find? fun o => o.library = r.library ∧ o.transform = r.transform ∧ o.size = r.size ∧ o.mode = r.mode).map
    (·.time)

/-- The results that can still be found: in `latest.json`, or else in `previous.json`. -/
def lastGood {K : Type} [NatCast K] (c : Codec K) (d : Disk) : Option (File K) :=
  (c.read d.latest).orElse fun _ => c.read d.previous

/-- A file as the next run sees it: a change that is not a number is gone. -/
def reread {K : Type} (f : File K) : File K :=
  { f with results := f.results.map fun r => { r with change := r.change.bind (·.map some) } }

end Kofft.Spec

namespace Kofft.Props
open Bench Spec
variable {K : Type}

/-! ### Writing and reading -/

theorem decRec_encRec [NatCast K] (r : Rec K) :
    decRec (encRec r) = r.ops.map fun _ => { r with change := r.change.bind (·.map some) } := by
  obtain ⟨lib, tr, sz, mo, ti, ops, al, pk, pv, ch, b⟩ := r
  rcases ops with _ | ops <;> rcases pv with _ | pv <;> rcases ch with _ | _ | ch <;>
    simp [encRec, decRec, encOpt, encF, req, opt, List.filter_cons, decStr, decNat, decF, decBool]

theorem mapM_encRec [NatCast K] (rs : List (Rec K)) :
    (rs.map encRec).mapM decRec =
      if ∀ r ∈ rs, r.ops ≠ none then
        some (rs.map fun r => { r with change := r.change.bind (·.map some) })
      else none := by
  induction rs with
  | nil => simp
  | cons r rs ih =>
    rw [List.map_cons, List.mapM_cons, ih, decRec_encRec]
    rcases h : r.ops with _ | x
    · simp [h]
    · by_cases h2 : ∀ r ∈ rs, r.ops ≠ none
      · rw [if_pos h2, if_pos (by simpa [h] using h2)]
        simp [h]
      · rw [if_neg h2, if_neg (by simpa [h] using h2)]
        simp

theorem decFile_encFile [NatCast K] (f : File K) :
    decFile (encFile f) = if ∀ r ∈ f.results, r.ops ≠ none then some (reread f) else none := by
  have : decFile (encFile f) = ((f.results.map encRec).mapM decRec).map fun rs => { f with results := rs } := by
    obtain ⟨⟨cpu, os, rc, fl, da, ru⟩, rs⟩ := f
    simp only [encFile, decFile, req, List.filter_cons, encEnv, decEnv, decStr, decList]
    simp
    cases List.mapM (decRec ∘ encRec) rs <;> rfl
  rw [this, mapM_encRec]
  split <;> rfl

/-! ### The report -/
section report
variable [Field K] [LinearOrder K]

theorem prevMap_eq (old : List (Rec K)) (r : Rec K) : prevMap old r.key = earlier old r := by
  unfold prevMap earlier
  induction old using List.reverseRecOn with
  | nil => rfl
  | append_singleton l o ih =>
    rw [List.foldl_append, List.reverse_append]
    simp only [List.foldl_cons, List.foldl_nil, List.reverse_cons, List.reverse_nil, List.nil_append,
      List.singleton_append, List.find?_cons]
    by_cases h : r.key = o.key
    · rw [if_pos h]
      simp only [Rec.key, Prod.mk.injEq] at h
      simp [h]
    · rw [if_neg h, ih]
      have : decide (o.library = r.library ∧ o.transform = r.transform ∧ o.size = r.size ∧ o.mode = r.mode) = false := by
        rw [decide_eq_false_iff_not]
        rintro ⟨h1, h2, h3, h4⟩
        exact h (by simp [Rec.key, h1, h2, h3, h4])
      rw [this]

theorem bestMap_eq (rs : List (Rec K)) (k : String × Nat) :
    (bestMap rs k = none ∧ ∀ r ∈ rs, (r.transform, r.size) ≠ k) ∨
      ∃ b, bestMap rs k = some b ∧ (∃ r ∈ rs, (r.transform, r.size) = k ∧ r.time = b) ∧
        ∀ r ∈ rs, (r.transform, r.size) = k → b ≤ r.time := by
  unfold bestMap
  induction rs using List.reverseRecOn with
  | nil => left; simp
  | append_singleton l o ih =>
    rw [List.foldl_append]
    simp only [List.foldl_cons, List.foldl_nil]
    generalize List.foldl _ _ l = m at ih ⊢
    by_cases h : k = (o.transform, o.size)
    · right
      subst h
      rw [if_pos rfl]
      rcases ih with ⟨h1, h2⟩ | ⟨b, h1, ⟨r0, h2, h3, h4⟩, h5⟩
      · refine ⟨o.time, by simp [h1], ⟨o, by simp, rfl, rfl⟩, ?_⟩
        intro r hr hk
        rcases List.mem_append.1 hr with hr | hr
        · exact absurd hk (h2 r hr)
        · simp at hr; rw [hr]
      · rw [h1]
        simp only [Option.getD_some]
        by_cases hlt : o.time < b
        · refine ⟨o.time, by rw [if_pos hlt], ⟨o, by simp, rfl, rfl⟩, ?_⟩
          intro r hr hk
          rcases List.mem_append.1 hr with hr | hr
          · exact hlt.le.trans (h5 r hr hk)
          · simp at hr; rw [hr]
        · refine ⟨b, by rw [if_neg hlt], ⟨r0, by simp [h2], h3, h4⟩, ?_⟩
          intro r hr hk
          rcases List.mem_append.1 hr with hr | hr
          · exact h5 r hr hk
          · simp at hr; rw [hr]; exact not_lt.1 hlt
    · rw [if_neg h]
      rcases ih with ⟨h1, h2⟩ | ⟨b, h1, ⟨r0, h2, h3, h4⟩, h5⟩
      · refine .inl ⟨h1, ?_⟩
        intro r hr
        rcases List.mem_append.1 hr with hr | hr
        · exact h2 r hr
        · simp at hr; rw [hr]; exact fun e => h e.symm
      · refine .inr ⟨b, h1, ⟨r0, by simp [h2], h3, h4⟩, ?_⟩
        intro r hr hk
        rcases List.mem_append.1 hr with hr | hr
        · exact h5 r hr hk
        · simp at hr; rw [hr] at hk; exact absurd hk.symm h

theorem fillPrev_bare (m : String × String × Nat × String → Option K) (r : Rec K) : bare (fillPrev m r) = bare r := by
  unfold fillPrev; split <;> rfl
theorem markBest_bare (eps : K) (m : String × Nat → Option K) (r : Rec K) : bare (markBest eps m r) = bare r := by
  unfold markBest
  split
  · split <;> rfl
  · rfl

/-- **C98.** The report has the same measurements as the run: nothing is added, dropped or altered. -/
theorem bench_report_same (eps : K) (old : Option (File K)) (rs : List (Rec K)) :
    ((report eps old rs).map bare).Perm (rs.map bare) := by
  unfold report
  refine ((List.mergeSort_perm _ _).map _).trans ?_
  rw [List.map_map, List.map_map]
  refine List.Perm.of_eq ?_
  refine List.map_congr_left fun r _ => ?_
  simp [fillPrev_bare, markBest_bare]

theorem recLe_total (a b : Rec K) : recLe a b || recLe b a := by
  unfold recLe
  by_cases h1 : a.transform = b.transform
  · by_cases h2 : a.size = b.size
    · simp [h1, h2, le_total]
    · simp [h1, h2, Ne.symm h2]
  · simp only [h1, Ne.symm h1, if_false]
    rcases lt_or_gt_of_ne h1 with h | h <;> simp [h]

theorem recLe_iff (a b : Rec K) : recLe a b = true ↔
    a.transform < b.transform ∨ a.transform = b.transform ∧ (a.size < b.size ∨ a.size = b.size ∧ a.time ≤ b.time) := by
  unfold recLe
  by_cases h1 : a.transform = b.transform
  · by_cases h2 : a.size = b.size
    · simp [h1, h2]
    · simp [h1, h2]
  · simp [h1]

theorem recLe_trans (a b c : Rec K) (h1 : recLe a b) (h2 : recLe b c) : recLe a c := by
  rw [recLe_iff] at *
  rcases h1 with h1 | ⟨e1, h1⟩
  · rcases h2 with h2 | ⟨e2, h2⟩
    · exact .inl (h1.trans h2)
    · exact .inl (e2 ▸ h1)
  · rcases h2 with h2 | ⟨e2, h2⟩
    · exact .inl (e1 ▸ h2)
    · refine .inr ⟨e1.trans e2, ?_⟩
      rcases h1 with h1 | ⟨f1, h1⟩
      · rcases h2 with h2 | ⟨f2, h2⟩
        · exact .inl (h1.trans h2)
        · exact .inl (f2 ▸ h1)
      · rcases h2 with h2 | ⟨f2, h2⟩
        · exact .inl (f1 ▸ h2)
        · exact .inr ⟨f1.trans f2, h1.trans h2⟩

/-- **C98.** The report is ordered by transform, then size, then time. -/
theorem bench_report_sorted (eps : K) (old : Option (File K)) (rs : List (Rec K)) :
    (report eps old rs).Pairwise fun a b =>
      a.transform < b.transform ∨ a.transform = b.transform ∧ (a.size < b.size ∨ a.size = b.size ∧ a.time ≤ b.time) := by
  unfold report
  refine (List.pairwise_mergeSort (fun a b c => recLe_trans a b c) (fun a b => recLe_total a b) _).imp ?_
  intro a b h
  exact (recLe_iff a b).1 h

theorem mem_report {eps : K} {old : Option (File K)} {rs : List (Rec K)} {r : Rec K} (h : r ∈ report eps old rs) :
    ∃ r0 ∈ rs, r = markBest eps (bestMap (rs.map (fillPrev (oldTimes old)))) (fillPrev (oldTimes old) r0) := by
  unfold report at h
  rw [List.mem_mergeSort] at h
  simp only [List.mem_map] at h
  obtain ⟨_, ⟨r0, h0, rfl⟩, rfl⟩ := h
  exact ⟨r0, h0, rfl⟩

theorem bare_inj_fields {a b : Rec K} (h : bare a = bare b) : a.library = b.library ∧ a.transform = b.transform ∧
    a.size = b.size ∧ a.mode = b.mode ∧ a.time = b.time ∧ a.ops = b.ops := by
  simp only [bare, Rec.mk.injEq] at h
  tauto

theorem earlier_congr (old : List (Rec K)) {a b : Rec K} (h : bare a = bare b) : earlier old a = earlier old b := by
  obtain ⟨h1, h2, h3, h4, -⟩ := bare_inj_fields h
  unfold earlier
  rw [h1, h2, h3, h4]

/-- **C98.** Every record of the report is compared with the same measurement (library, transform, size, mode) of the previous
file, and with nothing else; the change is the saving in percent. Without a readable previous file there is no comparison. -/
theorem bench_report_prev (eps : K) (old : Option (File K)) (rs : List (Rec K))
    (hrs : ∀ r ∈ rs, r.prev = none ∧ r.change = none) (r : Rec K) (hr : r ∈ report eps old rs) :
    r.prev = old.bind (fun f => earlier f.results r) ∧
      r.change = r.prev.map (fun p => if p = 0 then none else some ((p - r.time) / p * 100)) := by
  obtain ⟨r0, h0, rfl⟩ := mem_report hr
  set m := oldTimes old with hm
  set bm := bestMap (rs.map (fillPrev m))
  have e1 : bare (markBest eps bm (fillPrev m r0)) = bare r0 := by rw [markBest_bare, fillPrev_bare]
  have e2 : (markBest eps bm (fillPrev m r0)).prev = (fillPrev m r0).prev := by
    unfold markBest; split
    · split <;> rfl
    · rfl
  have e3 : (markBest eps bm (fillPrev m r0)).change = (fillPrev m r0).change := by
    unfold markBest; split
    · split <;> rfl
    · rfl
  have e4 : m r0.key = old.bind fun f => earlier f.results (markBest eps bm (fillPrev m r0)) := by
    rw [hm]
    cases old with
    | none => rfl
    | some f =>
      show prevMap f.results r0.key = earlier f.results _
      rw [prevMap_eq, earlier_congr f.results e1]
  have e5 := (bare_inj_fields e1).2.2.2.2.1
  rw [e2, e3, e5, ← e4]
  obtain ⟨h1, h2⟩ := hrs r0 h0
  unfold fillPrev
  cases m r0.key with
  | none => simp [h1, h2]
  | some p => simp

/-- **C98.** A record is marked as best exactly when no measurement of the same transform and size was faster (by `eps` or
more). -/
theorem bench_report_best (eps : K) [IsStrictOrderedRing K] (he : 0 < eps) (old : Option (File K)) (rs : List (Rec K))
    (hrs : ∀ r ∈ rs, r.best = false) (r : Rec K) (hr : r ∈ report eps old rs) :
    r.best = true ↔ ∀ r' ∈ rs, Rivals r r' → r.time < r'.time + eps := by
  obtain ⟨r0, h0, rfl⟩ := mem_report hr
  generalize oldTimes old = m
  have fb : ∀ r : Rec K, (fillPrev m r).transform = r.transform ∧ (fillPrev m r).size = r.size ∧
      (fillPrev m r).time = r.time ∧ (fillPrev m r).best = r.best := by
    intro r
    unfold fillPrev; split <;> simp
  obtain ⟨f1, f2, f3, f4⟩ := fb r0
  have e1 : bare (markBest eps (bestMap (rs.map (fillPrev m))) (fillPrev m r0)) = bare r0 := by
    rw [markBest_bare, fillPrev_bare]
  obtain ⟨-, g1, g2, -, g3, -⟩ := bare_inj_fields e1
  unfold Rivals
  rw [g1, g2, g3]
  rcases bestMap_eq (rs.map (fillPrev m)) (r0.transform, r0.size) with ⟨-, h2⟩ | ⟨b, hb, ⟨r1, h1, h2, h3⟩, h5⟩
  · exact absurd (by simp [f1, f2]) (h2 _ (List.mem_map_of_mem h0))
  · have hle : b ≤ r0.time := by
      have := h5 _ (List.mem_map_of_mem h0) (by simp [f1, f2])
      rwa [f3] at this
    have habs : |(fillPrev m r0).time - b| = r0.time - b := by rw [f3, abs_of_nonneg (sub_nonneg.2 hle)]
    have hiff : (markBest eps (bestMap (rs.map (fillPrev m))) (fillPrev m r0)).best = true ↔ r0.time - b < eps := by
      unfold markBest
      rw [f1, f2, hb]
      simp only []
      rw [habs]
      by_cases h : r0.time - b < eps
      · rw [if_pos h]; simp [h]
      · rw [if_neg h]; simp [h, f4, hrs r0 h0]
    rw [hiff]
    constructor
    · intro h r' hr' ⟨k1, k2⟩
      obtain ⟨q1, q2, q3, -⟩ := fb r'
      have := h5 _ (List.mem_map_of_mem hr') (by rw [q1, q2, k1, k2])
      rw [q3] at this
      linarith
    · intro h
      obtain ⟨r2, hr2, rfl⟩ := List.mem_map.1 h1
      obtain ⟨q1, q2, q3, -⟩ := fb r2
      rw [q1, q2] at h2
      have := h r2 hr2 ⟨(Prod.ext_iff.1 h2).1.symm, (Prod.ext_iff.1 h2).2.symm⟩
      rw [q3] at h3
      linarith

/-- **C98.** Every transform and size has a winner. -/
theorem bench_report_winner (eps : K) [IsStrictOrderedRing K] (he : 0 < eps) (old : Option (File K)) (rs : List (Rec K))
    (hrs : ∀ r ∈ rs, r.best = false) (r : Rec K) (hr : r ∈ rs) :
    ∃ w ∈ report eps old rs, Rivals w r ∧ w.best = true := by
  -- the fastest of the rivals
  obtain ⟨q, hq, hrq, hmin⟩ : ∃ q ∈ rs, Rivals q r ∧ ∀ q' ∈ rs, Rivals q' r → q.time ≤ q'.time := by
    rcases bestMap_eq rs (r.transform, r.size) with ⟨-, h2⟩ | ⟨b, -, ⟨q, h1, h2, h3⟩, h5⟩
    · exact absurd rfl (h2 r hr)
    · exact ⟨q, h1, ⟨(Prod.ext_iff.1 h2).1, (Prod.ext_iff.1 h2).2⟩, fun q' hq' hk =>
        h3 ▸ h5 q' hq' (Prod.ext hk.1 hk.2)⟩
  have hm : bare q ∈ (report eps old rs).map bare := (bench_report_same eps old rs).mem_iff.2 (List.mem_map_of_mem hq)
  obtain ⟨w, hw, hwq⟩ := List.mem_map.1 hm
  obtain ⟨-, g1, g2, -, g3, -⟩ := bare_inj_fields hwq
  refine ⟨w, hw, ⟨g1.trans hrq.1, g2.trans hrq.2⟩, ?_⟩
  rw [bench_report_best eps he old rs hrs w hw]
  intro r' hr' hk
  have := hmin r' hr' ⟨hk.1.symm.trans (g1.trans hrq.1), hk.2.symm.trans (g2.trans hrq.2)⟩
  rw [g3]
  linarith

end report

/-! ### The files -/
section files
variable [Field K] [LinearOrder K] (c : Codec K)

/-- What `save_results` writes can be read by the next run exactly when every rate is a finite number. -/
theorem read_print (hc : ∀ j, c.parse (c.print j) = some j) (f : File K) :
    c.read (some (c.print (encFile f))) = if ∀ r ∈ f.results, r.ops ≠ none then some (reread f) else none := by
  simp only [Codec.read, Option.bind_some, hc]
  exact decFile_encFile f

theorem report_ops (eps : K) (old : Option (File K)) (rs : List (Rec K)) (P : Option K → Prop) :
    (∀ r ∈ report eps old rs, P r.ops) ↔ ∀ r ∈ rs, P r.ops := by
  have hp := (bench_report_same eps old rs).map (·.ops)
  have e : ∀ l : List (Rec K), (∀ r ∈ l, P r.ops) ↔ ∀ o ∈ (l.map bare).map (·.ops), P o := by
    intro l
    simp [bare]
  rw [e, e rs]
  exact ⟨fun h o ho => h o (hp.mem_iff.2 ho), fun h o ho => h o (hp.mem_iff.1 ho)⟩

/-- **C98.** After a run, `latest.json` holds its report, which the next run reads as written if no time was measured as zero;
`previous.json` holds what `latest.json` held before, if that could be read, and is left alone otherwise. -/
theorem bench_saved (hc : ∀ j, c.parse (c.print j) = some j) (eps : K) (env : Env) (rs : List (Rec K)) (d : Disk) :
    (saved c eps env rs true d).latest = some (c.print (encFile ⟨env, report eps (c.read d.latest) rs⟩)) ∧
      ((∀ r ∈ rs, r.ops ≠ none) → c.read (saved c eps env rs true d).latest =
        some (reread ⟨env, report eps (c.read d.latest) rs⟩)) ∧
      (saved c eps env rs true d).previous = if (c.read d.latest).isSome then d.latest else d.previous := by
  refine ⟨rfl, fun h => ?_, ?_⟩
  · show c.read (some _) = _
    rw [read_print c hc, if_pos]
    exact (report_ops eps _ rs (fun o => o ≠ none)).2 h
  · unfold saved rotate
    cases (c.read d.latest).isSome <;> rfl

/-- **C98.** Whatever runs are made, and wherever each of them is stopped: if there were results in one of the two files that
can be read, there still are. -/
theorem bench_crash_safe_partial (eps : K) {d d' : Disk} (h : Runs c eps d d')
    (hd : (c.read d.latest).isSome ∨ (c.read d.previous).isSome) :
    (c.read d'.latest).isSome ∨ (c.read d'.previous).isSome := by
  induction h with
  | nil => exact hd
  | @snoc d1 d2 r _ hs ih =>
    have key : (c.read (rotate true (c.read d1.latest).isSome d1).previous).isSome := by
      cases hl : (c.read d1.latest).isSome with
      | true => simpa [rotate] using hl
      | false => simpa [rotate, hl] using ih
    cases hs with
    | start => exact ih
    | renamed => exact .inr key
    | writing t ht => exact .inr key

/-- **C98.** More exactly: if text that was cut off cannot be read, a stopped run leaves the results as they were or has
finished. -/
theorem bench_last_good_partial (eps : K) (env : Env) (rs : List (Rec K)) {d d' : Disk}
    (hcut : ∀ (f : File K) (t : List Char), t <+: c.print (encFile f) → t ≠ c.print (encFile f) → c.read (some t) = none)
    (h : During c eps env rs true d d') :
    lastGood c d' = lastGood c d ∨ d' = saved c eps env rs true d := by
  have key : c.read (rotate true (c.read d.latest).isSome d).previous = lastGood c d := by
    unfold lastGood rotate
    cases hl : c.read d.latest with
    | none => simp
    | some f => simp [hl]
  cases h with
  | start => exact .inl rfl
  | renamed =>
    left
    unfold rotate lastGood
    cases hl : c.read d.latest with
    | none => simp [hl]
    | some f => simpa [Codec.read] using hl
  | writing t ht =>
    by_cases e : t = c.print (encFile ⟨env, report eps (c.read d.latest) rs⟩)
    · right
      unfold saved
      rw [e]
    · left
      unfold lastGood at *
      show (c.read (some t)).orElse _ = _
      rw [hcut _ t ht e]
      exact key

/-- **C98, why it is partial.** A duration measured as zero makes the rate infinite, which is written as `null`, which cannot be
read back: the next run overwrites the file without keeping it as `previous.json`, and compares with nothing. -/
theorem bench_zero_time_lost (hc : ∀ j, c.parse (c.print j) = some j) (eps : K) (env env' : Env) (rs rs' : List (Rec K))
    (d : Disk) (lib tr mode : String) (size allocs iters peak : Nat)
    (hz : measured lib tr size mode (0 : K) allocs iters peak ∈ rs) (hrs : ∀ r ∈ rs', r.prev = none ∧ r.change = none) :
    let d1 := saved c eps env rs true d
    let d2 := saved c eps env' rs' true d1
    c.read d1.latest = none ∧ d2.previous = d1.previous ∧
      d2.latest = some (c.print (encFile ⟨env', report eps none rs'⟩)) ∧ ∀ r ∈ report eps none rs', r.prev = none := by
  intro d1 d2
  have h1 : c.read d1.latest = none := by
    show c.read (some _) = none
    rw [read_print c hc, if_neg]
    intro h
    have := (report_ops eps (c.read d.latest) rs (fun o => o ≠ none)).1 h _ hz
    simp [measured] at this
  refine ⟨h1, ?_, ?_, ?_⟩
  · show (rotate true (c.read d1.latest).isSome d1).previous = _
    rw [h1]; rfl
  · show some _ = some _
    rw [h1]
  · intro r hr
    have := (bench_report_prev eps none rs' hrs r hr).1
    simpa using this

/-- **C98, why it is partial.** An error of the rename is ignored: the good file is then overwritten in place, and a run that is
stopped while writing leaves nothing that can be read. -/
theorem bench_rename_fails (hc : c.parse [] = none) (eps : K) (env : Env) (rs : List (Rec K)) (d : Disk)
    (hp : c.read d.previous = none) :
    ∃ d', During c eps env rs false d d' ∧ lastGood c d' = none := by
  refine ⟨_, .writing [] List.nil_prefix, ?_⟩
  simp [lastGood, rotate, Codec.read, hc]
  simpa [Codec.read] using hp

end files

/-! ### The README -/
section readme
variable [Field K]

/-- **C99, why it is partial.** The updater wants keys that the benchmark does not write: it fails on every file the benchmark
writes, and never changes the README. -/
theorem updater_rejects (c : Codec K) (hc : ∀ j, c.parse (c.print j) = some j) (φ : Fmt K) (f : File K)
    (readme : Option (List Char)) : updater c φ (some (c.print (encFile f))) readme = (false, readme) := by
  have : decFileU (encFile f) = none := by
    obtain ⟨⟨cpu, os, rc, fl, da, ru⟩, rs⟩ := f
    simp [encFile, decFileU, req, List.filter_cons, encEnv, decEnvU, decStr]
  simp [updater, hc, this]

/-- In particular after every completed run. -/
theorem updater_rejects_saved [LinearOrder K] (c : Codec K) (hc : ∀ j, c.parse (c.print j) = some j) (φ : Fmt K)
    (eps : K) (env : Env) (rs : List (Rec K)) (ok : Bool) (d : Disk) (readme : Option (List Char)) :
    updater c φ (saved c eps env rs ok d).latest readme = (false, readme) :=
  updater_rejects c hc φ _ readme

/-- The keys renamed to those the updater wants. -/
def _root_.Kofft.Spec.wanted (k : String) : String :=
  if k = "os" then "_os" else if k = "peak_bytes" then "_peak_bytes" else k

/-- An object with its keys renamed. -/
def _root_.Kofft.Spec.renamed : Json K → Json K
  | .obj l => .obj (l.map fun p => (wanted p.1, p.2))
  | j => j

/-- The file the benchmark writes, with those two keys renamed. -/
def _root_.Kofft.Spec.asWanted (f : File K) : Json K :=
  .obj [("env", renamed (encEnv f.env)), ("results", .arr (f.results.map fun r => renamed (encRec r)))]

theorem decRecU_asWanted (r : Rec K) : decRecU (renamed (encRec r)) = r.ops.map fun _ => bare r := by
  obtain ⟨lib, tr, sz, mo, ti, ops, al, pk, pv, ch, b⟩ := r
  rcases ops with _ | ops <;> rcases pv with _ | pv <;> rcases ch with _ | _ | ch <;>
    simp [encRec, renamed, decRecU, encOpt, encF, req, List.filter_cons, decStr, decNat, decF, wanted, bare]

theorem decFileU_asWanted (f : File K) (h : ∀ r ∈ f.results, r.ops ≠ none) :
    decFileU (asWanted f) = some { f with results := f.results.map bare } := by
  obtain ⟨⟨cpu, os, rc, fl, da, ru⟩, rs⟩ := f
  have : ∀ l : List (Rec K), (∀ r ∈ l, r.ops ≠ none) → (l.map fun r => renamed (encRec r)).mapM decRecU =
        some (l.map bare) := by
    intro l hl
    induction l with
    | nil => rfl
    | cons r l ih =>
      rw [List.map_cons, List.mapM_cons, ih fun r hr => hl r (by simp [hr]), decRecU_asWanted r]
      rcases e : r.ops with _ | x
      · exact absurd e (hl r (by simp))
      · simp
  have h2 := this rs h
  have h3 : decEnvU (renamed (encEnv (K := K) ⟨cpu, os, rc, fl, da, ru⟩)) = some ⟨cpu, os, rc, fl, da, ru⟩ := by
    simp [renamed, encEnv, decEnvU, req, List.filter_cons, decStr, wanted]
  rw [List.mapM_map] at h2
  simp [decFileU, asWanted, req, decList, h3, h2]

/-- **C99.** On a file with the keys it wants (and finite rates) the updater succeeds: the section of the README between the
markers becomes the table of the results, and nothing else changes. -/
theorem updater_partial (c : Codec K) (φ : Fmt K) (f : File K) (text pre mid post : List Char)
    (ht : c.parse text = some (asWanted f)) (h : ∀ r ∈ f.results, r.ops ≠ none)
    (hs : ∀ j, j < pre.length → ¬ OccursAt (pre ++ (Readme.startMarker ++ (mid ++ (Readme.endMarker ++ post)))) Readme.startMarker j)
    (he : ∀ j, j < (pre ++ (Readme.startMarker ++ mid)).length →
      ¬ OccursAt (pre ++ (Readme.startMarker ++ (mid ++ (Readme.endMarker ++ post)))) Readme.endMarker j) :
    updater c φ (some text) (some (pre ++ (Readme.startMarker ++ (mid ++ (Readme.endMarker ++ post))))) =
      (true, some (pre ++ (Readme.startMarker ++ ('\n' :: table φ f ++ (Readme.endMarker ++ post))))) := by
  have e : table φ { f with results := f.results.map bare } = table φ f := by
    simp only [table, List.map_map]
    rfl
  simp only [updater, Option.bind_some, ht, decFileU_asWanted f h]
  rw [readme_section _ _ _ pre mid post hs he, e]

theorem splitOn_line {l r : List Char} (h : '\n' ∉ l) : (l ++ '\n' :: r).splitOn '\n' = l :: r.splitOn '\n' := by
  rw [List.splitOn_append_cons_self, List.splitOn_eq_singleton h]
  rfl

/-- The cells of a row: library, transform, size, mode, milliseconds per operation, operations per second, allocations, and
the day and the machine of the run. -/
def _root_.Kofft.Spec.cells (φ : Fmt K) (day : List Char) (runner : String) (r : Rec K) : List (List Char) :=
  [r.library.toList, r.transform.toList, φ.nat r.size, r.mode.toList, φ.dec3 (r.time / 1000000) ++ " ms".toList,
    φ.dec2 (r.ops.getD 0), φ.nat r.allocs, day ++ ' ' :: runner.toList]

/-- The line about the run: date, runner, processor, compiler and flags. -/
def _root_.Kofft.Spec.headline (φ : Fmt K) (e : Env) : List Char :=
  ("Last run: " ++ e.date ++ " on " ++ e.runner ++ " (").toList ++ φ.trim e.cpu ++
    ("; " ++ e.rustc ++ "; flags: `" ++ e.flags ++ "`)").toList

/-- A line of a Markdown table. -/
def _root_.Kofft.Spec.tableLine (cs : List (List Char)) : List Char :=
  "| ".toList ++ [' ', '|', ' '].intercalate cs ++ " |".toList

/-- The names of the columns. -/
def _root_.Kofft.Spec.columns : List (List Char) :=
  ["Library", "Transform", "Size (N)", "Mode", "Time/op", "Ops/sec", "Allocations", "Date/Runner"].map String.toList

theorem row_cells (φ : Fmt K) (day : List Char) (runner : String) (r : Rec K) :
    row φ day runner r = tableLine (cells φ day runner r) := by
  have e1 : " | ".toList = [' ', '|', ' '] := by decide
  have e2 : " ms | ".toList = " ms".toList ++ [' ', '|', ' '] := by decide
  have e3 : " ".toList = [' '] := by decide
  unfold row tableLine cells
  rw [e1, e2, e3]
  simp only [List.intercalate, List.intersperse, List.flatten_cons, List.flatten_nil, List.append_assoc, List.append_nil,
    List.singleton_append]

omit [Field K] in
theorem runLine_eq (φ : Fmt K) (e : Env) : runLine φ e = headline φ e := by
  unfold runLine headline
  simp only [String.toList_append, List.append_assoc]

/-- **C99.** The table: a line about the run, an empty one, the columns, a rule, and one line for each record, in order, with
the day of the run (what stands before the `T` of the date). -/
theorem table_lines (φ : Fmt K) (f : File K) (day time : List Char) (hdate : f.env.date.toList = day ++ 'T' :: time)
    (hday : 'T' ∉ day) (hrun : '\n' ∉ headline φ f.env)
    (hrow : ∀ r ∈ f.results, ∀ cell ∈ cells φ day f.env.runner r, '\n' ∉ cell) :
    (table φ f).splitOn '\n' = headline φ f.env :: [] :: tableLine columns :: tableLine (columns.map fun _ => "---".toList) ::
      (f.results.map (fun r => tableLine (cells φ day f.env.runner r)) ++ [[]]) := by
  have h1 : '\n' ∉ heading := by decide
  have h2 : '\n' ∉ rule := by decide
  have h3 : f.env.date.toList.takeWhile (· ≠ 'T') = day := by
    rw [hdate, List.takeWhile_append_of_pos (by
      intro x hx
      simp only [ne_eq, decide_not, Bool.not_eq_true', decide_eq_false_iff_not]
      rintro rfl
      exact hday hx)]
    simp
  have h4 : heading = tableLine columns := by decide
  have h5 : rule = tableLine (columns.map fun _ => "---".toList) := by decide
  rw [← runLine_eq] at hrun
  rw [← h4, ← h5, ← runLine_eq]
  unfold table
  rw [h3, show ∀ A B C D : List Char, A ++ ['\n', '\n'] ++ B ++ ['\n'] ++ C ++ ['\n'] ++ D =
    A ++ '\n' :: ([] ++ '\n' :: (B ++ '\n' :: (C ++ '\n' :: D))) by simp]
  rw [splitOn_line hrun, splitOn_line (by simp), splitOn_line h1, splitOn_line h2]
  congr 4
  generalize f.results = rs at hrow
  induction rs with
  | nil => rfl
  | cons r rs ih =>
    have hr : '\n' ∉ row φ day f.env.runner r := by
      obtain ⟨q1, q2, q3, q4, q5, q6, q7, q8, -⟩ := by
        simpa only [cells, List.forall_mem_cons] using hrow r (by simp)
      have e1 : '\n' ∉ " | ".toList := by decide
      have e2 : '\n' ∉ " ms".toList := by decide
      have e3 : '\n' ∉ "| ".toList := by decide
      have e4 : '\n' ∉ " |".toList := by decide
      have e5 : " ms | ".toList = " ms".toList ++ " | ".toList := by decide
      have e6 : " ".toList = [' '] := by decide
      unfold row
      rw [e5, e6]
      simp only [List.mem_append, List.mem_cons, List.not_mem_nil, not_or] at *
      tauto
    rw [List.map_cons, List.flatten_cons, List.append_assoc, List.singleton_append, splitOn_line hr,
      ih fun r hr => hrow r (by simp [hr]), List.map_cons, row_cells]
    rfl

end readme

/-! ### The assumptions can be met -/

theorem codes_inj {a b : String} (h : a.toList.map Char.toNat = b.toList.map Char.toNat) : a = b := by
  have : Function.Injective Char.toNat := fun x y h => Char.ext (UInt32.toNat_inj.1 h)
  exact String.toList_inj.1 (List.map_injective_iff.2 this h)

mutual
/-- A number for each JSON value. -/
def numJ : Json ℚ → Nat
  | .null => Nat.pair 0 0
  | .bool b => Nat.pair 1 b.toNat
  | .int n => Nat.pair 2 n
  | .num x => Nat.pair 3 (Encodable.encode x)
  | .str s => Nat.pair 4 (Encodable.encode (s.toList.map Char.toNat))
  | .arr l => Nat.pair 5 (numL l)
  | .obj l => Nat.pair 6 (numO l)
/-- For a list. -/
def numL : List (Json ℚ) → Nat
  | [] => 0
  | x :: xs => Nat.pair (numJ x) (numL xs) + 1
/-- For the members of an object. -/
def numO : List (String × Json ℚ) → Nat
  | [] => 0
  | (k, x) :: xs => Nat.pair (Encodable.encode (k.toList.map Char.toNat)) (Nat.pair (numJ x) (numO xs)) + 1
end

mutual
theorem numJ_inj : ∀ a b : Json ℚ, numJ a = numJ b → a = b
  | .null, b, h => by cases b <;> simp [numJ, Nat.pair_eq_pair] at h ⊢
  | .bool x, b, h => by
    cases b <;> simp only [numJ, Nat.pair_eq_pair] at h <;> simp at h ⊢
    cases x <;> rename_i y <;> cases y <;> simp at h ⊢
  | .int x, b, h => by cases b <;> simp [numJ, Nat.pair_eq_pair] at h ⊢; exact h
  | .num x, b, h => by cases b <;> simp [numJ, Nat.pair_eq_pair] at h ⊢; exact h
  | .str x, b, h => by
    cases b <;> simp only [numJ, Nat.pair_eq_pair] at h <;> simp only [Json.str.injEq, reduceCtorEq] <;>
      first | exact codes_inj (Encodable.encode_injective h.2) | omega
  | .arr x, b, h => by
    cases b <;> simp [numJ, Nat.pair_eq_pair] at h ⊢
    exact numL_inj x _ h
  | .obj x, b, h => by
    cases b <;> simp [numJ, Nat.pair_eq_pair] at h ⊢
    exact numO_inj x _ h
theorem numL_inj : ∀ a b : List (Json ℚ), numL a = numL b → a = b
  | [], b, h => by cases b <;> simp [numL] at h ⊢
  | x :: xs, [], h => by simp [numL] at h
  | x :: xs, y :: ys, h => by
    simp [numL, Nat.pair_eq_pair] at h
    rw [numJ_inj x y h.1, numL_inj xs ys h.2]
theorem numO_inj : ∀ a b : List (String × Json ℚ), numO a = numO b → a = b
  | [], b, h => by cases b <;> simp [numO] at h ⊢
  | (k, x) :: xs, [], h => by simp [numO] at h
  | (k, x) :: xs, (k', y) :: ys, h => by
    simp only [numO, Nat.add_right_cancel_iff, Nat.pair_eq_pair] at h
    rw [codes_inj (Encodable.encode_injective h.1), numJ_inj x y h.2.1, numO_inj xs ys h.2.2]
end

/-- Not vacuous: there is a way of writing JSON that can be read back, and of which no proper part can be read. -/
theorem codec_exists : ∃ c : Codec ℚ, (∀ j, c.parse (c.print j) = some j) ∧ c.parse [] = none ∧
    ∀ (f : File ℚ) (t : List Char), t <+: c.print (encFile f) → t ≠ c.print (encFile f) → c.read (some t) = none := by
  classical
  let pr : Json ℚ → List Char := fun j => List.replicate (numJ j) 'x' ++ ['.']
  have inj : ∀ a b, pr a = pr b → a = b := by
    intro a b h
    have := congrArg List.length h
    simp [pr] at this
    exact numJ_inj a b this
  let pa : List Char → Option (Json ℚ) := fun t => if h : ∃ j, pr j = t then some h.choose else none
  have h1 : ∀ j, pa (pr j) = some j := by
    intro j
    have h : ∃ j', pr j' = pr j := ⟨j, rfl⟩
    simp only [pa, dif_pos h]
    exact congrArg some (inj _ _ h.choose_spec)
  have h2 : ∀ t, '.' ∉ t → pa t = none := by
    intro t ht
    refine dif_neg ?_
    rintro ⟨j, rfl⟩
    simp [pr] at ht
  refine ⟨⟨pr, pa⟩, h1, h2 [] (by simp), ?_⟩
  intro f t ht hne
  have : '.' ∉ t := by
    rcases List.prefix_concat_iff.1 ht with h | h
    · exact absurd h hne
    · intro hm
      have := h.subset hm
      simp at this
  simp [Codec.read, h2 t this]

/-- Not vacuous: two libraries measured; the faster one is marked, compared with the previous run and listed first. -/
example : ∃ c : Codec ℚ, ∃ d : Disk, ∃ f, c.read d.latest = some f ∧
    (report (1 / 2 ^ 52) (c.read d.latest)
      [measured "kofft" "Complex" 64 "Single" (3 : ℚ) 0 1 0, measured "rustfft" "Complex" 64 "Single" 2 0 1 0]).map
      (fun r => (r.library, r.prev, r.best)) =
        [("rustfft", none, true), ("kofft", some 4000000000, false)] := by
  obtain ⟨c, h, -⟩ := codec_exists
  let f : File ℚ := ⟨⟨"", "", "", "", "", ""⟩, [measured "kofft" "Complex" 64 "Single" (4 : ℚ) 0 1 0]⟩
  have hr : c.read (some (c.print (encFile f))) = some (reread f) := by
    rw [read_print c h, if_pos]
    simp [f, measured]
  refine ⟨c, ⟨some (c.print (encFile f)), none⟩, _, hr, ?_⟩
  rw [hr]
  have e : ∀ a b : Rec ℚ, recLe a b = false → [a, b].mergeSort recLe = [b, a] := by
    intro a b h
    simp [List.mergeSort, List.MergeSort.Internal.splitInTwo, h]
  unfold report
  simp only [List.map_cons, List.map_nil]
  rw [e]
  · simp [f, reread, oldTimes, prevMap, fillPrev, measured, Rec.key, markBest, bestMap]
    norm_num
  · simp [f, reread, oldTimes, prevMap, fillPrev, measured, Rec.key, markBest, bestMap, recLe]
    norm_num

end Kofft.Props
