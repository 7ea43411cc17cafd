import Verif.Model.NdFft
import Verif.Lib.Loop
import Mathlib.Tactic.Ring
/-
Property C31: `flatten_2d`, `flatten_3d`.
-/
namespace Kofft.Props

variable {α : Type}

theorem foldl_append_flatten (data : List (List α)) (acc : List α) :
    data.foldl (fun flat row => flat ++ row) acc = acc ++ data.flatten := by
  induction data generalizing acc with
  | nil => simp
  | cons r t ih => simp [ih]

theorem foldl_append_flatten3 (data : List (List (List α))) (acc : List α) :
    data.foldl (fun flat plane => plane.foldl (fun flat row => flat ++ row) flat) acc =
      acc ++ data.flatten.flatten := by
  induction data generalizing acc with
  | nil => simp
  | cons r t ih => rw [List.foldl_cons, foldl_append_flatten, ih]; simp

theorem flatten_uniform (data : List (List α)) (n : Nat) (h : ∀ r ∈ data, r.length = n) :
    data.flatten.length = data.length * n ∧
      ∀ r c, c < n → data.flatten[r * n + c]? = data[r]? >>= fun row => row[c]? := by
  induction data with
  | nil => simp
  | cons x t ih =>
    have hx : x.length = n := h x (by simp)
    obtain ⟨h1, h2⟩ := ih (fun r hr => h r (by simp [hr]))
    constructor
    · simp only [List.flatten_cons, List.length_append, hx, h1, List.length_cons]; ring
    · intro r c hc
      cases r with
      | zero => simp [List.getElem?_append, hx, hc]
      | succ r =>
        rw [List.flatten_cons, List.getElem?_append_right (by rw [hx, Nat.add_mul]; omega), hx,
          show (r + 1) * n + c - n = r * n + c by rw [Nat.add_mul]; omega, h2 r c hc]
        simp

/-- C31a. `flatten_2d` succeeds exactly when all rows have the same length; it then returns the
dimensions and the row-major data. -/
theorem flatten2d_ok (data : List (List α)) (cols : Nat) (h : ∀ row ∈ data, row.length = cols)
    (h0 : data ≠ []) :
    ∃ flat, flatten2d data = .ok (flat, data.length, cols) ∧ flat.length = data.length * cols ∧
      ∀ r c, c < cols → flat[r * cols + c]? = data[r]? >>= fun row => row[c]? := by
  cases data with
  | nil => exact absurd rfl h0
  | cons x t =>
    have hx : x.length = cols := h x (by simp)
    refine ⟨(x :: t).flatten, ?_, flatten_uniform (x :: t) cols h⟩
    have : ¬ (x :: t).any (fun row => row.length != cols) = true := by
      simp only [List.any_eq_true, not_exists, not_and, bne_iff_ne, ne_eq, not_not]
      exact fun r hr => h r hr
    simp only [flatten2d, hx, this, foldl_append_flatten, List.nil_append, Bool.false_eq_true, if_false]

/-- C31b. The error is exactly the ragged case. -/
theorem flatten2d_error (data : List (List α)) (e : FftError) :
    flatten2d data = .error e ↔
      e = .MismatchedLengths ∧ ∃ r1 ∈ data, ∃ r2 ∈ data, r1.length ≠ r2.length := by
  by_cases h : ∃ cols, ∀ row ∈ data, row.length = cols
  · obtain ⟨cols, h⟩ := h
    have hr : ¬ ∃ r1 ∈ data, ∃ r2 ∈ data, r1.length ≠ r2.length := by
      rintro ⟨r1, h1, r2, h2, h3⟩; exact h3 (by rw [h r1 h1, h r2 h2])
    by_cases h0 : data = []
    · subst h0; simp [flatten2d]
    · obtain ⟨flat, e1, -⟩ := flatten2d_ok data cols h h0
      rw [e1]
      exact ⟨fun h => by simp at h, fun h => absurd h.2 hr⟩
  · cases data with
    | nil => exact absurd ⟨0, by simp⟩ h
    | cons x t =>
      have hany : (x :: t).any (fun row => row.length != x.length) = true := by
        by_contra hc
        simp only [List.any_eq_true, not_exists, not_and, bne_iff_ne, ne_eq, not_not] at hc
        exact h ⟨_, hc⟩
      simp only [flatten2d, hany, if_true]
      rw [List.any_eq_true] at hany
      obtain ⟨r, hr, hne⟩ := hany
      have hne : r.length ≠ x.length := by simpa using hne
      constructor
      · intro he
        exact ⟨by simpa using he.symm, r, hr, x, by simp, hne⟩
      · rintro ⟨rfl, -⟩; rfl

/-- The empty array. -/
theorem flatten2d_nil : flatten2d ([] : List (List α)) = .ok ([], 0, 0) := rfl

/-- C31c. `flatten_3d` of a box. -/
theorem flatten3d_ok (data : List (List (List α))) (rows cols : Nat)
    (h : ∀ plane ∈ data, plane.length = rows ∧ ∀ row ∈ plane, row.length = cols)
    (h0 : data ≠ []) (h1 : rows = 0 → cols = 0) :
    ∃ flat, flatten3d data = .ok (flat, data.length, rows, cols) ∧
      flat.length = data.length * rows * cols ∧
      ∀ d r c, r < rows → c < cols → flat[(d * rows + r) * cols + c]? =
        data[d]? >>= fun plane => plane[r]? >>= fun row => row[c]? := by
  cases data with
  | nil => exact absurd rfl h0
  | cons x t =>
    have hx := h x (by simp)
    obtain ⟨a1, a2⟩ := flatten_uniform (x :: t) rows (fun p hp => (h p hp).1)
    obtain ⟨b1, b2⟩ := flatten_uniform (x :: t).flatten cols (by
      intro r hr
      obtain ⟨p, hp, hr⟩ := List.mem_flatten.mp hr
      exact (h p hp).2 r hr)
    refine ⟨(x :: t).flatten.flatten, ?_, by rw [b1, a1], ?_⟩
    · have hcols : rowLen0 x = cols := by
        cases x with
        | nil => exact (h1 hx.1.symm).symm
        | cons y _ => exact hx.2 y (by simp)
      have hany : ¬ (x :: t).any (fun plane => plane.length != rows ||
          plane.any (fun row => row.length != cols)) = true := by
        simp only [List.any_eq_true, not_exists, not_and, Bool.or_eq_true, bne_iff_ne, ne_eq]
        intro p hp hc
        rcases hc with hc | ⟨r, hr, hc⟩
        · exact hc (h p hp).1
        · exact hc ((h p hp).2 r hr)
      simp only [flatten3d, hx.1]
      rw [hcols]
      simp only [hany, foldl_append_flatten3, List.nil_append, Bool.false_eq_true, if_false]
    · intro d r c hr hc
      rw [b2 _ _ hc, a2 d r hr]
      cases (x :: t)[d]? <;> rfl

/-- C31d. The error is exactly: planes with different numbers of rows, or rows of different lengths. -/
theorem flatten3d_error (data : List (List (List α))) (e : FftError) :
    flatten3d data = .error e ↔ e = .MismatchedLengths ∧
      ((∃ p1 ∈ data, ∃ p2 ∈ data, p1.length ≠ p2.length) ∨
       (∃ p1 ∈ data, ∃ p2 ∈ data, ∃ r1 ∈ p1, ∃ r2 ∈ p2, r1.length ≠ r2.length)) := by
  cases data with
  | nil => simp [flatten3d]
  | cons x t =>
    generalize hcols : rowLen0 x = cols
    have hval : flatten3d (x :: t) =
        if (x :: t).any (fun plane => plane.length != x.length ||
          plane.any (fun row => row.length != cols)) then .error .MismatchedLengths
        else .ok ((x :: t).foldl (fun flat plane => plane.foldl (fun flat row => flat ++ row) flat) [],
          (x :: t).length, x.length, cols) := by
      rw [← hcols]; rfl
    rw [hval]
    by_cases hany : (x :: t).any (fun plane => plane.length != x.length ||
          plane.any (fun row => row.length != cols)) = true
    · rw [if_pos hany]
      simp only [List.any_eq_true, Bool.or_eq_true, bne_iff_ne, ne_eq] at hany
      have : (∃ p1 ∈ x :: t, ∃ p2 ∈ x :: t, p1.length ≠ p2.length) ∨
          (∃ p1 ∈ x :: t, ∃ p2 ∈ x :: t, ∃ r1 ∈ p1, ∃ r2 ∈ p2, r1.length ≠ r2.length) := by
        obtain ⟨p, hp, hc⟩ := hany
        by_cases hl : p.length = x.length
        · rcases hc with hc | ⟨r, hr, hc⟩
          · exact absurd hl hc
          · right
            cases x with
            | nil =>
              have : p = [] := List.length_eq_zero_iff.mp (by simpa using hl)
              subst this; simp at hr
            | cons y ys =>
              refine ⟨p, hp, y :: ys, by simp, r, hr, y, by simp, ?_⟩
              rw [← hcols] at hc; exact hc
        · left; exact ⟨p, hp, x, by simp, hl⟩
      constructor
      · intro he
        exact ⟨by simpa using he.symm, this⟩
      · rintro ⟨rfl, -⟩; rfl
    · rw [if_neg hany]
      simp only [List.any_eq_true, not_exists, not_and, Bool.or_eq_true, bne_iff_ne, ne_eq, not_or, not_not] at hany
      simp only [reduceCtorEq, false_iff, not_and, not_or]
      intro _
      constructor
      · rintro ⟨p1, h1, p2, h2, hc⟩
        exact hc (by rw [(hany p1 h1).1, (hany p2 h2).1])
      · rintro ⟨p1, h1, p2, h2, r1, hr1, r2, hr2, hc⟩
        exact hc (by rw [(hany p1 h1).2 r1 hr1, (hany p2 h2).2 r2 hr2])

/-- Concrete boxes and ragged arrays. -/
example : flatten2d [[1, 2, 3], [4, 5, 6]] = .ok ([1, 2, 3, 4, 5, 6], 2, 3) := rfl
example : flatten2d [[1, 2, 3], [4, 5]] = .error .MismatchedLengths := rfl
example : flatten3d [[[1, 2], [3, 4]], [[5, 6], [7, 8]]] = .ok ([1, 2, 3, 4, 5, 6, 7, 8], 2, 2, 2) := rfl

end Kofft.Props
