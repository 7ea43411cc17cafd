import Verif.Lib.Loop
import Verif.Model.Num
/-
C60: conversions between interleaved and split complex buffers.
-/
namespace Kofft.Props
section
variable {T : Type}

theorem fromComplex_eq (v : List (Cx T)) : ComplexVec.fromComplex v = ⟨v.map Cx.re, v.map Cx.im⟩ := by
  have key : ∀ (v : List (Cx T)) (s : ComplexVec T),
      v.foldl (fun s c => (⟨s.re ++ [c.re], s.im ++ [c.im]⟩ : ComplexVec T)) s = ⟨s.re ++ v.map Cx.re, s.im ++ v.map Cx.im⟩ := by
    intro v
    induction v with
    | nil => intro s; simp
    | cons c v ih => intro s; rw [List.foldl_cons, ih]; simp
  unfold ComplexVec.fromComplex
  rw [key]; simp

theorem toComplex_eq (v : ComplexVec T) (h : v.re.length ≤ v.im.length) :
    v.toComplex = .ok (List.zipWith Cx.mk v.re v.im) := by
  unfold ComplexVec.toComplex
  rw [forRange_eq (fun i => List.zipWith Cx.mk (v.re.take i) (v.im.take i)) (Nat.zero_le _) (by simp)]
  · congr 1
    rw [List.take_length]
    apply List.ext_getElem
    · simp [h]
    · intro i h1 h2; simp
  · intro i _ hi
    have hi2 : i < v.im.length := by omega
    rw [rd_ok hi, Outcome.bind_ok, rd_ok hi2, Outcome.bind_ok, List.take_add_one, List.take_add_one,
      List.getElem?_eq_getElem hi, List.getElem?_eq_getElem hi2, List.zipWith_append (by simp; omega)]
    rfl

/-- C60: `from_complex_vec` / `From<Vec<Complex32>>` splits component by component; `to_complex_vec` / `From<ComplexVec>` undoes it,
and is undone by it when the two parts have equal length. -/
theorem complex_vec_round_trip (v : List (Cx T)) (re im : List T) :
    (ComplexVec.fromComplex v).re = v.map Cx.re ∧ (ComplexVec.fromComplex v).im = v.map Cx.im ∧
    (ComplexVec.fromComplex v).toComplex = .ok v ∧
    (re.length = im.length → ∃ z, (⟨re, im⟩ : ComplexVec T).toComplex = .ok z ∧ z.length = re.length ∧
      ComplexVec.fromComplex z = ⟨re, im⟩) := by
  refine ⟨by rw [fromComplex_eq], by rw [fromComplex_eq], ?_, ?_⟩
  · rw [fromComplex_eq, toComplex_eq _ (by simp)]
    congr 1
    apply List.ext_getElem (by simp)
    intro i h1 h2; simp
  · intro h
    refine ⟨_, toComplex_eq ⟨re, im⟩ (by simp [h]), by simp [h], ?_⟩
    rw [fromComplex_eq]
    congr 1
    · apply List.ext_getElem (by simp [h]); intro i h1 h2; simp
    · apply List.ext_getElem (by simp [h]); intro i h1 h2; simp

/-- C60: `ComplexVec::new` and `SplitComplex::new` panic exactly on different lengths and otherwise change nothing. (The fields are
public: a `ComplexVec` with a shorter imaginary part makes `to_complex_vec` panic, one with a longer part loses the rest.) -/
theorem complex_vec_new_spec (re im : List T) :
    (re.length = im.length → ComplexVec.new re im = .ok ⟨re, im⟩ ∧ splitNew re im = .ok (re, im)) ∧
    (re.length ≠ im.length → ComplexVec.new re im = .panic ∧ splitNew re im = .panic) := by
  constructor
  · intro h; unfold ComplexVec.new splitNew; rw [if_pos h, if_pos h]; exact ⟨rfl, rfl⟩
  · intro h; unfold ComplexVec.new splitNew; rw [if_neg h, if_neg h]; exact ⟨rfl, rfl⟩

/-- C60: `copy_from_complex` succeeds exactly when all three lengths agree, and then stores the real and imaginary parts. -/
theorem copy_from_complex_spec (input : List (Cx T)) (re im : List T) :
    (input.length = re.length ∧ input.length = im.length →
      copyFromComplex input re im = .ok (input.map Cx.re, input.map Cx.im)) ∧
    (¬ (input.length = re.length ∧ input.length = im.length) → copyFromComplex input re im = .panic) := by
  constructor
  · rintro ⟨h1, h2⟩
    unfold copyFromComplex
    rw [if_pos h1, if_pos h2]
    rw [forRange_eq (fun i => ((input.take i).map Cx.re ++ re.drop i, (input.take i).map Cx.im ++ im.drop i))
      (Nat.zero_le _) (by simp)]
    · congr 2 <;> simp [← h1, ← h2]
    · intro i _ hi
      have l1 : i < ((input.take i).map Cx.re ++ re.drop i).length := by simp; omega
      have l2 : i < ((input.take i).map Cx.im ++ im.drop i).length := by simp; omega
      rw [rd_ok hi, Outcome.bind_ok, wr_ok l1, Outcome.bind_ok, wr_ok l2, Outcome.bind_ok]
      simp only [Outcome.pure_eq]
      congr 2
      · apply List.ext_getElem?
        intro k
        by_cases hk : k = i
        · subst hk
          rw [List.getElem?_set_self l1, List.getElem?_append_left (by simp; omega)]
          simp [hi]
        · rw [List.getElem?_set_ne (Ne.symm hk)]
          by_cases hki : k < i
          · rw [List.getElem?_append_left (by simp; omega), List.getElem?_append_left (by simp; omega)]
            simp [hki, show k < i + 1 by omega]
          · rw [List.getElem?_append_right (by simp; omega), List.getElem?_append_right (by simp; omega)]
            simp only [List.length_map, List.length_take, List.getElem?_drop]
            congr 1; omega
      · apply List.ext_getElem?
        intro k
        by_cases hk : k = i
        · subst hk
          rw [List.getElem?_set_self l2, List.getElem?_append_left (by simp; omega)]
          simp [hi]
        · rw [List.getElem?_set_ne (Ne.symm hk)]
          by_cases hki : k < i
          · rw [List.getElem?_append_left (by simp; omega), List.getElem?_append_left (by simp; omega)]
            simp [hki, show k < i + 1 by omega]
          · rw [List.getElem?_append_right (by simp; omega), List.getElem?_append_right (by simp; omega)]
            simp only [List.length_map, List.length_take, List.getElem?_drop]
            congr 1; omega
  · intro h
    unfold copyFromComplex
    by_cases h1 : input.length = re.length
    · rw [if_pos h1, if_neg (fun h2 => h ⟨h1, h2⟩)]
    · rw [if_neg h1]

/-- C60: `copy_to_complex` succeeds exactly when all three lengths agree, and then interleaves the parts. -/
theorem copy_to_complex_spec (re im : List T) (out : List (Cx T)) :
    (re.length = im.length ∧ re.length = out.length → copyToComplex re im out = .ok (List.zipWith Cx.mk re im)) ∧
    (¬ (re.length = im.length ∧ re.length = out.length) → copyToComplex re im out = .panic) := by
  constructor
  · rintro ⟨h1, h2⟩
    unfold copyToComplex
    rw [if_pos h1, if_pos h2]
    rw [forRange_eq (fun i => (List.zipWith Cx.mk re im).take i ++ out.drop i) (Nat.zero_le _) (by simp)]
    · congr 1
      rw [List.take_of_length_le (by simp), List.drop_of_length_le (by omega), List.append_nil]
    · intro i _ hi
      have l1 : i < ((List.zipWith Cx.mk re im).take i ++ out.drop i).length := by simp; omega
      rw [rd_ok hi, Outcome.bind_ok, rd_ok (by omega), Outcome.bind_ok, wr_ok l1]
      congr 1
      apply List.ext_getElem?
      intro k
      by_cases hk : k = i
      · subst hk
        rw [List.getElem?_set_self l1, List.getElem?_append_left (by simp; omega)]
        simp [hi, show k < im.length by omega]
      · rw [List.getElem?_set_ne (Ne.symm hk)]
        by_cases hki : k < i
        · rw [List.getElem?_append_left (by simp; omega), List.getElem?_append_left (by simp; omega)]
          simp [hki, show k < i + 1 by omega]
        · rw [List.getElem?_append_right (by simp; omega), List.getElem?_append_right (by simp; omega)]
          simp only [List.length_take, List.getElem?_drop]
          congr 1; simp; omega
  · intro h
    unfold copyToComplex
    by_cases h1 : re.length = im.length
    · rw [if_pos h1, if_neg (fun h2 => h ⟨h1, h2⟩)]
    · rw [if_neg h1]

/-- C60: copying out and back gives the same bits. -/
theorem copy_round_trip (z out : List (Cx T)) (re im : List T) (h1 : z.length = re.length) (h2 : z.length = im.length)
    (h3 : z.length = out.length) :
    (copyFromComplex z re im >>= fun s => copyToComplex s.1 s.2 out) = .ok z ∧
    (re.length = im.length → (copyToComplex re im out >>= fun s => copyFromComplex s re im) = .ok (re, im)) := by
  constructor
  · rw [(copy_from_complex_spec z re im).1 ⟨h1, h2⟩, Outcome.bind_ok, (copy_to_complex_spec _ _ _).1 (by simp [h3])]
    congr 1
    apply List.ext_getElem (by simp)
    intro i a b; simp
  · intro h
    rw [(copy_to_complex_spec _ _ _).1 ⟨h, by omega⟩, Outcome.bind_ok,
      (copy_from_complex_spec _ _ _).1 (by simp [h])]
    congr 2
    · apply List.ext_getElem (by simp [h]); intro i a b; simp
    · apply List.ext_getElem (by simp [h]); intro i a b; simp

example : (copyFromComplex [⟨1, 2⟩, ⟨3, 4⟩] [0, 0] [0, 0] >>= fun s => copyToComplex s.1 s.2 [⟨0, 0⟩, ⟨0, 0⟩]) =
    .ok ([⟨1, 2⟩, ⟨3, 4⟩] : List (Cx ℕ)) := 
  (copy_round_trip [⟨1, 2⟩, ⟨3, 4⟩] [⟨0, 0⟩, ⟨0, 0⟩] [0, 0] [0, 0] rfl rfl rfl).1

end
end Kofft.Props
