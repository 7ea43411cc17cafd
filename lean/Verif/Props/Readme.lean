import Verif.Model.Readme
import Mathlib.Data.List.Infix
import Mathlib.Data.Nat.Find
/-
Property C71: updating the benchmark section of a README.
-/
namespace Kofft.Spec

/-- `pat` occurs in `s` at position `i`. -/
def OccursAt (s pat : List Char) (i : Nat) : Prop := i ≤ s.length ∧ pat <+: s.drop i

/-- `i` is the position of the first occurrence. -/
def FirstAt (s pat : List Char) (i : Nat) : Prop := OccursAt s pat i ∧ ∀ j, j < i → ¬ OccursAt s pat j

end Kofft.Spec

namespace Kofft.Props
open Kofft.Spec Kofft.Readme

theorem find_some (s pat : List Char) (i : Nat) : find s pat = some i ↔ FirstAt s pat i := by
  induction s generalizing i with
  | nil =>
    unfold find
    by_cases h : pat.isPrefixOf [] = true
    · rw [if_pos h]
      have hp : pat = [] := by rw [List.isPrefixOf_iff_prefix] at h; exact List.prefix_nil.mp h
      subst hp
      constructor
      · intro e
        cases e
        exact ⟨⟨Nat.le_refl _, by simp⟩, by intro j hj; omega⟩
      · intro ⟨⟨h1, _⟩, _⟩
        simp at h1; rw [h1]
    · rw [if_neg h]
      constructor
      · intro e; cases e
      · intro ⟨⟨h1, h2⟩, _⟩
        rw [List.isPrefixOf_iff_prefix] at h
        simp at h2
        exact absurd (by rw [h2]) h
  | cons c rest ih =>
    unfold find
    by_cases h : pat.isPrefixOf (c :: rest) = true
    · rw [if_pos h]
      rw [List.isPrefixOf_iff_prefix] at h
      constructor
      · intro e
        cases e
        exact ⟨⟨Nat.zero_le _, h⟩, by intro j hj; omega⟩
      · intro ⟨_, h2⟩
        rcases Nat.eq_zero_or_pos i with h0 | h0
        · rw [h0]
        · exact absurd ⟨Nat.zero_le _, h⟩ (h2 0 h0)
    · rw [if_neg h]
      rw [List.isPrefixOf_iff_prefix] at h
      have hocc : ∀ j, OccursAt (c :: rest) pat (j + 1) ↔ OccursAt rest pat j := by
        intro j; simp [OccursAt]
      simp only [Option.map_eq_some_iff]
      constructor
      · rintro ⟨k, hk, rfl⟩
        obtain ⟨h1, h2⟩ := (ih k).mp hk
        refine ⟨(hocc k).mpr h1, ?_⟩
        intro j hj
        cases j with
        | zero => intro ho; exact h ho.2
        | succ j => rw [hocc]; exact h2 j (by omega)
      · intro ⟨h1, h2⟩
        cases i with
        | zero => exact absurd h1.2 h
        | succ k =>
          refine ⟨k, (ih k).mpr ⟨(hocc k).mp h1, ?_⟩, rfl⟩
          intro j hj ho
          exact h2 (j + 1) (by omega) ((hocc j).mpr ho)

theorem find_none (s pat : List Char) : find s pat = none ↔ ¬ pat <:+: s := by
  constructor
  · intro h hin
    obtain ⟨a, b, rfl⟩ := hin
    have ho : OccursAt (a ++ pat ++ b) pat a.length := by
      refine ⟨by simp, ?_⟩
      rw [List.append_assoc, List.drop_left]
      exact List.prefix_append _ _
    have hex : ∃ i, OccursAt (a ++ pat ++ b) pat i := ⟨_, ho⟩
    classical
    have hf : FirstAt (a ++ pat ++ b) pat (Nat.find hex) := ⟨Nat.find_spec hex, fun j hj => Nat.find_min hex hj⟩
    rw [(find_some _ _ _).mpr hf] at h
    cases h
  · intro h
    rcases e : find s pat with _ | i
    · rfl
    · obtain ⟨⟨_, h2⟩, _⟩ := (find_some s pat i).mp e
      exact absurd (h2.isInfix.trans (List.drop_suffix _ _).isInfix) h

/-- The first occurrence in a text with a known shape. -/
theorem firstAt_append (pre pat post : List Char) (h : ∀ j, j < pre.length → ¬ OccursAt (pre ++ (pat ++ post)) pat j) :
    find (pre ++ (pat ++ post)) pat = some pre.length := by
  rw [find_some]
  refine ⟨⟨by simp, ?_⟩, h⟩
  rw [List.drop_left]
  exact List.prefix_append _ _

/-- C71a. A README `pre START mid END post`, in which these are the first occurrences of the markers, becomes
`pre START \n table END post`: nothing outside the section changes. Any markers, any table. -/
theorem readme_section (start stop table pre mid post : List Char)
    (hs : ∀ j, j < pre.length → ¬ OccursAt (pre ++ (start ++ (mid ++ (stop ++ post)))) start j)
    (he : ∀ j, j < (pre ++ (start ++ mid)).length → ¬ OccursAt (pre ++ (start ++ (mid ++ (stop ++ post)))) stop j) :
    updateReadme start stop table (pre ++ (start ++ (mid ++ (stop ++ post)))) =
      some (pre ++ (start ++ ('\n' :: table ++ (stop ++ post)))) := by
  have h1 := firstAt_append pre start (mid ++ (stop ++ post)) hs
  have h2 := firstAt_append (pre ++ (start ++ mid)) stop post (by simpa [List.append_assoc] using he)
  rw [show (pre ++ (start ++ mid)) ++ (stop ++ post) = pre ++ (start ++ (mid ++ (stop ++ post))) by
    simp [List.append_assoc]] at h2
  unfold updateReadme
  rw [h1, h2]
  simp only [Option.some.injEq]
  have e1 : List.take (pre.length + start.length) (pre ++ (start ++ (mid ++ (stop ++ post)))) = pre ++ start := by
    rw [← List.append_assoc, List.take_append_of_le_length (by simp), List.take_of_length_le (by simp)]
  have e2 : List.drop (pre ++ (start ++ mid)).length (pre ++ (start ++ (mid ++ (stop ++ post)))) = stop ++ post := by
    rw [show pre ++ (start ++ (mid ++ (stop ++ post))) = (pre ++ (start ++ mid)) ++ (stop ++ post) by
      simp [List.append_assoc], List.drop_left]
  rw [e1, e2]
  simp [List.append_assoc]

/-- C71b. Without one of the markers the file is left alone. -/
theorem readme_no_marker (start stop table content : List Char) (h : ¬ start <:+: content ∨ ¬ stop <:+: content) :
    updateReadme start stop table content = none := by
  unfold updateReadme
  rcases h with h | h
  · rw [(find_none _ _).mpr h]
  · rw [(find_none _ _).mpr h]
    cases find content start <;> rfl

/-- C71c. Running it again replaces the table and leaves no trace of the previous one, provided neither marker starts
before its place once the first table is in. -/
theorem readme_again (start stop table table' pre mid post : List Char)
    (hs : ∀ j, j < pre.length → ¬ OccursAt (pre ++ (start ++ (mid ++ (stop ++ post)))) start j)
    (he : ∀ j, j < (pre ++ (start ++ mid)).length → ¬ OccursAt (pre ++ (start ++ (mid ++ (stop ++ post)))) stop j)
    (hs' : ∀ j, j < pre.length → ¬ OccursAt (pre ++ (start ++ ('\n' :: table ++ (stop ++ post)))) start j)
    (he' : ∀ j, j < (pre ++ (start ++ ('\n' :: table))).length →
      ¬ OccursAt (pre ++ (start ++ ('\n' :: table ++ (stop ++ post)))) stop j) :
    (updateReadme start stop table (pre ++ (start ++ (mid ++ (stop ++ post))))).bind (updateReadme start stop table') =
      updateReadme start stop table' (pre ++ (start ++ (mid ++ (stop ++ post)))) := by
  rw [readme_section start stop table pre mid post hs he, readme_section start stop table' pre mid post hs he]
  exact readme_section start stop table' pre ('\n' :: table) post hs' he'

/-- C71d. Negative: when the end marker is mentioned before the section (say in the introduction), the update keeps
everything from that mention on a second time: the file only ever grows. -/
theorem readme_grows (start stop table content : List Char) (s e : Nat) (hs : FirstAt content start s)
    (he : FirstAt content stop e) (hlt : e < s) :
    ∃ c, updateReadme start stop table content = some c ∧ content.length < c.length ∧
      content.drop e <:+ c ∧ content.take (s + start.length) <+: c := by
  unfold updateReadme
  rw [(find_some _ _ _).mpr hs, (find_some _ _ _).mpr he]
  refine ⟨_, rfl, ?_, ?_, List.prefix_append _ _⟩
  · have h1 := hs.1.2.length_le
    have h2 := hs.1.1
    simp only [List.length_append, List.length_take, List.length_cons, List.length_drop]
    rw [List.length_drop] at h1
    omega
  · refine List.suffix_append_of_suffix ?_
    exact ((List.suffix_append _ _).trans (List.suffix_cons _ _))

/-! ### The hypotheses are met -/

/-- C71a, C71c on a small file: the section between the markers is replaced, twice. -/
example : updateReadme "<s>".toList "<e>".toList "T".toList "intro <s> old <e> end".toList =
      some "intro <s>\nT<e> end".toList ∧
    (updateReadme "<s>".toList "<e>".toList "T".toList "intro <s> old <e> end".toList).bind
      (updateReadme "<s>".toList "<e>".toList "V".toList) = some "intro <s>\nV<e> end".toList := by
  have h1 := readme_section "<s>".toList "<e>".toList "T".toList "intro ".toList " old ".toList " end".toList
    (by unfold OccursAt; decide +kernel) (by unfold OccursAt; decide +kernel)
  have h2 := readme_again "<s>".toList "<e>".toList "T".toList "V".toList "intro ".toList " old ".toList " end".toList
    (by unfold OccursAt; decide +kernel) (by unfold OccursAt; decide +kernel)
    (by unfold OccursAt; decide +kernel) (by unfold OccursAt; decide +kernel)
  have h3 := readme_section "<s>".toList "<e>".toList "V".toList "intro ".toList " old ".toList " end".toList
    (by unfold OccursAt; decide +kernel) (by unfold OccursAt; decide +kernel)
  exact ⟨h1, h2.trans h3⟩

/-- C71d: the end marker is mentioned first. -/
example : ∃ c, updateReadme "<s>".toList "<e>".toList "T".toList "see <e> and <s> old <e>".toList = some c ∧
    "see <e> and <s> old <e>".toList.length < c.length := by
  obtain ⟨c, h1, h2, -⟩ := readme_grows "<s>".toList "<e>".toList "T".toList "see <e> and <s> old <e>".toList 12 4
    (by unfold FirstAt OccursAt; decide +kernel) (by unfold FirstAt OccursAt; decide +kernel) (by decide)
  exact ⟨c, h1, h2⟩

end Kofft.Props
