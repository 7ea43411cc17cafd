import Verif.Proof.BorrowProg
import Mathlib.Data.List.Perm.Basic
/-
C89: the accesses of the `unsafe` code lie inside the arrays.
-/
namespace Kofft.Borrow
open Kofft.Spec.Borrow

theorem reads_append {τ : Type} (a b : List (Ev τ)) : reads (a ++ b) = reads a ++ reads b := by
  induction a with
  | nil => rfl
  | cons e a ih => cases e <;> simp [reads, ih]

theorem writes_append {τ : Type} (a b : List (Ev τ)) : writes (a ++ b) = writes a ++ writes b := by
  induction a with
  | nil => rfl
  | cons e a ih => cases e <;> simp [writes, ih]

theorem reads_flatMap {α τ : Type} (l : List α) (f : α → List (Ev τ)) : reads (l.flatMap f) = l.flatMap fun a => reads (f a) := by
  induction l with
  | nil => rfl
  | cons a l ih => rw [List.flatMap_cons, reads_append, ih, List.flatMap_cons]

theorem writes_flatMap {α τ : Type} (l : List α) (f : α → List (Ev τ)) : writes (l.flatMap f) = l.flatMap fun a => writes (f a) := by
  induction l with
  | nil => rfl
  | cons a l ih => rw [List.flatMap_cons, writes_append, ih, List.flatMap_cons]

theorem reads_map_read {τ : Type} (p : τ) (l : List Nat) : reads (l.map fun i => Ev.read p i) = l := by
  induction l with
  | nil => rfl
  | cons a l ih => simp [reads, ih]

theorem writes_map_read {τ : Type} (p : τ) (l : List Nat) : writes (l.map fun i => Ev.read p i) = [] := by
  induction l with
  | nil => rfl
  | cons a l ih => simp [writes, ih]

theorem reads_map_write {τ : Type} (p : τ) (l : List Nat) : reads (l.map fun i => Ev.write p i) = [] := by
  induction l with
  | nil => rfl
  | cons a l ih => simp [reads, ih]

theorem writes_map_write {τ : Type} (p : τ) (l : List Nat) : writes (l.map fun i => Ev.write p i) = l := by
  induction l with
  | nil => rfl
  | cons a l ih => simp [writes, ih]

theorem _root_.Kofft.Spec.Borrow.InBounds.append {τ : Type} {n : Nat} {a b : List (Ev τ)} (ha : InBounds n a) (hb : InBounds n b) : InBounds n (a ++ b) := by
  intro i hi
  rw [reads_append, writes_append, List.mem_append, List.mem_append] at hi
  rcases hi with (h | h) | h | h
  · exact ha i (.inl h)
  · exact hb i (.inl h)
  · exact ha i (.inr h)
  · exact hb i (.inr h)

theorem inBounds_none {τ : Type} {n : Nat} {a : List (Ev τ)} (hr : reads a = []) (hw : writes a = []) : InBounds n a := by
  intro i hi; simp [hr, hw] at hi

theorem ib3 {τ : Type} {n : Nat} {a b c : List (Ev τ)} (hr : reads a = []) (hw : writes a = []) (hb : InBounds n b)
    (hc : InBounds n c) : InBounds n (a ++ b ++ c) := ((inBounds_none hr hw).append hb).append hc

theorem inBounds_iter (p : Ptr) (n : Nat) : InBounds n (iter p n) := by
  intro i hi
  simpa [iter, reads, writes, reads_map_read, writes_map_read] using hi

theorem inBounds_iterMut (p : Ptr) (n : Nat) : InBounds n (iterMut p n) := by
  intro i hi
  simpa [iterMut, reads, writes, reads_map_write, writes_map_write] using hi

theorem reads_readAt (l n2 j i : Nat) : reads (readAt l n2 j i) = [i] ∧ writes (readAt l n2 j i) = [] := by
  unfold readAt; split <;> exact ⟨rfl, rfl⟩

theorem writes_writeAt (l n2 j i : Nat) : writes (writeAt l n2 j i) = [i] ∧ reads (writeAt l n2 j i) = [] := by
  unfold writeAt; split <;> exact ⟨rfl, rfl⟩

/-! ### The passes -/

theorem passList_mul (K : Nat) : ∀ (d fuel p : Nat), p + d = K → d < fuel →
    ∀ q ∈ passList (2 ^ K) fuel (2 ^ p) (2 ^ d), q.1 * (2 * q.2) = 2 ^ K
  | 0, fuel + 1, p, h, _ => by
    obtain rfl : p = K := by omega
    simp [passList]
  | d + 1, fuel + 1, p, h, hf => by
    have hlt : 2 ^ p < 2 ^ K := Nat.pow_lt_pow_right (by norm_num) (by omega)
    have hd : 2 ^ (d + 1) / 2 = 2 ^ d := by rw [pow_succ]; omega
    have h2 := passList_mul K d fuel (p + 1) (by omega) (by omega)
    rw [passList, if_pos hlt, hd, ← pow_succ]
    intro q hq
    rcases List.mem_cons.mp hq with rfl | hq
    · show 2 ^ p * (2 * 2 ^ d) = 2 ^ K
      rw [← h, pow_add, pow_succ]; ring
    · exact h2 q hq

theorem passes_mul (K : Nat) : ∀ q ∈ passes (2 ^ K), q.1 * (2 * q.2) = 2 ^ K :=
  passList_mul K K (2 ^ K + 1) 0 (by omega) (by have := Nat.lt_two_pow_self (n := K); omega)

theorem range_blocks (a b : Nat) : ((List.range a).flatMap fun k => (List.range b).map fun j => k * b + j) = List.range (a * b) := by
  induction a with
  | zero => simp
  | succ a ih =>
    rw [List.range_succ, List.flatMap_append, ih, Nat.succ_mul, List.range_add]
    simp

theorem pairs_perm (b : Nat) (f g : Nat → Nat) : ((List.range b).flatMap fun j => [f j, g j]).Perm
    ((List.range b).map f ++ (List.range b).map g) := by
  have := List.flatMap_append_perm (List.range b) (fun j => [f j]) (fun j => [g j])
  simp only [List.flatMap_singleton', List.singleton_append] at this
  refine this.symm.trans ?_
  rw [← List.map_eq_flatMap, ← List.map_eq_flatMap]

/-- The elements a pass reads. -/
theorem src_perm (n1 n2 : Nat) : ((List.range n1).flatMap fun k => (List.range n2).flatMap fun j =>
    [2 * k * n2 + j, 2 * k * n2 + n2 + j]).Perm (List.range (n1 * (2 * n2))) := by
  rw [← range_blocks]
  refine List.Perm.flatMap_left _ fun k _ => ?_
  refine (pairs_perm n2 _ _).trans ?_
  rw [show 2 * n2 = n2 + n2 by ring, List.range_add, List.map_append, List.map_map]
  refine List.Perm.of_eq ?_
  congr 1
  · apply List.map_congr_left; intro j _; ring
  · apply List.map_congr_left; intro j _; simp only [Function.comp]; ring

/-- The elements a pass writes. -/
theorem dst_perm (n1 n2 : Nat) : ((List.range n1).flatMap fun k => (List.range n2).flatMap fun j =>
    [k * n2 + j, (k + n1) * n2 + j]).Perm (List.range (n1 * (2 * n2))) := by
  have h1 : ((List.range n1).flatMap fun k => (List.range n2).flatMap fun j => [k * n2 + j, (k + n1) * n2 + j]).Perm
      ((List.range n1).flatMap fun k => ((List.range n2).map fun j => k * n2 + j) ++ ((List.range n2).map fun j => (k + n1) * n2 + j)) :=
    List.Perm.flatMap_left _ fun k _ => pairs_perm n2 _ _
  refine h1.trans ((List.flatMap_append_perm _ _ _).symm.trans ?_)
  rw [range_blocks, show n1 * (2 * n2) = n1 * n2 + n1 * n2 by ring, List.range_add]
  refine List.Perm.append_left _ (List.Perm.of_eq ?_)
  rw [← range_blocks n1 n2, List.map_flatMap]
  congr 1
  funext k
  rw [List.map_map]
  apply List.map_congr_left; intro j _; simp only [Function.comp]; ring

theorem simdSrc_accesses (lanes : Nat) (p : Nat × Nat) : (reads (simdSrc lanes p)).Perm (List.range (p.1 * (2 * p.2))) ∧
    writes (simdSrc lanes p) = [] := by
  constructor
  · refine List.Perm.trans (List.Perm.of_eq ?_) (src_perm p.1 p.2)
    simp only [simdSrc, reads_flatMap, reads_append, reads_readAt, List.singleton_append]
  · simp only [simdSrc, writes_flatMap, writes_append, reads_readAt, List.append_nil]
    simp

theorem simdDst_accesses (lanes : Nat) (p : Nat × Nat) : (writes (simdDst lanes p)).Perm (List.range (p.1 * (2 * p.2))) ∧
    reads (simdDst lanes p) = [] := by
  constructor
  · refine List.Perm.trans (List.Perm.of_eq ?_) (dst_perm p.1 p.2)
    simp only [simdDst, writes_flatMap, writes_append, writes_writeAt, List.singleton_append]
  · simp only [simdDst, reads_flatMap, reads_append, writes_writeAt, List.append_nil]
    simp

theorem cxSrc_accesses (p : Nat × Nat) : (reads (cxSrc p)).Perm (List.range (p.1 * (2 * p.2))) ∧ writes (cxSrc p) = [] := by
  constructor
  · refine List.Perm.trans (List.Perm.of_eq ?_) (src_perm p.1 p.2)
    simp only [cxSrc, reads_flatMap, reads_append, reads, List.nil_append]
  · simp only [cxSrc, writes_flatMap, writes_append, writes, List.append_nil]
    simp

theorem cxDst_accesses (p : Nat × Nat) : (writes (cxDst p)).Perm (List.range (p.1 * (2 * p.2))) ∧ reads (cxDst p) = [] := by
  constructor
  · refine List.Perm.trans (List.Perm.of_eq ?_) (dst_perm p.1 p.2)
    simp only [cxDst, writes_flatMap, writes_append, writes, List.nil_append]
  · simp only [cxDst, reads_flatMap, reads_append, reads, List.append_nil]
    simp

theorem inBounds_src {n : Nat} {es : Evs} (h : (reads es).Perm (List.range n) ∧ writes es = []) : InBounds n es := by
  intro i hi
  rw [h.2, h.1.mem_iff] at hi
  simpa using hi

theorem inBounds_dst {n : Nat} {es : Evs} (h : (writes es).Perm (List.range n) ∧ reads es = []) : InBounds n es := by
  intro i hi
  rw [h.2, h.1.mem_iff] at hi
  simpa using hi

theorem inBounds_alternate {n : Nat} {s d : Nat × Nat → Evs} : ∀ (b : Bool) (ps : List (Nat × Nat)),
    (∀ p ∈ ps, InBounds n (s p) ∧ InBounds n (d p)) → InBounds n (alternate s d b ps)
  | _, [], _ => inBounds_none rfl rfl
  | b, p :: ps, h => by
    rw [alternate]
    refine InBounds.append ?_ (inBounds_alternate _ ps fun q hq => h q (List.mem_cons_of_mem _ hq))
    cases b
    · exact (h p (by simp)).2
    · exact (h p (by simp)).1

theorem inBounds_simdPasses (lanes K : Nat) (b : Bool) : InBounds (2 ^ K) (alternate (simdSrc lanes) (simdDst lanes) b (passes (2 ^ K))) := by
  refine inBounds_alternate _ _ fun p hp => ?_
  have h := passes_mul K p hp
  exact ⟨inBounds_src (by have := simdSrc_accesses lanes p; rwa [h] at this),
    inBounds_dst (by have := simdDst_accesses lanes p; rwa [h] at this)⟩

theorem inBounds_cxPasses (K : Nat) (b : Bool) : InBounds (2 ^ K) (alternate cxSrc cxDst b (passes (2 ^ K))) := by
  refine inBounds_alternate _ _ fun p hp => ?_
  have h := passes_mul K p hp
  exact ⟨inBounds_src (by have := cxSrc_accesses p; rwa [h] at this),
    inBounds_dst (by have := cxDst_accesses p; rwa [h] at this)⟩

theorem inBounds_simdArg (lanes : Nat) (caller : Ptr) (K : Nat) : InBounds (2 ^ K) (simdArg lanes caller (2 ^ K)) := by
  refine ib3 rfl rfl (inBounds_simdPasses lanes K true) ?_
  split
  · exact inBounds_none rfl rfl
  · intro i hi; simpa [reads_map_write, writes_map_write] using hi

theorem inBounds_simdScratch (lanes K : Nat) : InBounds (2 ^ K) (simdScratch lanes (2 ^ K)) := by
  refine ib3 rfl rfl (inBounds_simdPasses lanes K false) ?_
  split
  · intro i hi; simpa [reads, writes, reads_map_read, writes_map_read] using hi
  · exact inBounds_none rfl rfl

theorem inBounds_cxArg (caller : Ptr) (K : Nat) : InBounds (2 ^ K) (cxArg caller (2 ^ K)) := by
  refine ib3 rfl rfl (inBounds_cxPasses K true) ?_
  split
  · exact inBounds_none rfl rfl
  · intro i hi; simpa [reads_map_write, writes_map_write] using hi

theorem inBounds_cxScratch (K : Nat) : InBounds (2 ^ K) (cxScratch (2 ^ K)) := by
  refine ib3 rfl rfl (inBounds_cxPasses K false) ?_
  split
  · intro i hi; simpa [reads, writes, reads_map_read, writes_map_read] using hi
  · exact inBounds_none rfl rfl

theorem inBounds_stockhamArg (caller : Ptr) (n : Nat) : InBounds n (stockhamArg caller n) :=
  ib3 rfl rfl (inBounds_iter _ n) (inBounds_iterMut _ n)

theorem inBounds_stockhamSplit (lanes K : Nat) : InBounds (2 ^ K) (stockhamSplit lanes (2 ^ K)) :=
  (ib3 rfl rfl (inBounds_iterMut _ _) (inBounds_simdArg lanes _ K)).append (inBounds_iter _ _)

theorem inBounds_powArg (el : Elem) (caller : Ptr) (K : Nat) : InBounds (2 ^ K) (powArg el caller (2 ^ K)) := by
  unfold powArg
  split
  · exact inBounds_none rfl rfl
  · split
    · exact ib3 rfl rfl (inBounds_iter _ _) (inBounds_iterMut _ _)
    · cases el
      · exact inBounds_stockhamArg _ _
      · exact inBounds_cxArg _ K

theorem inBounds_powArg_small (el : Elem) (caller : Ptr) {n : Nat} (h : isPow2 n || n ≤ 1) : InBounds n (powArg el caller n) := by
  by_cases h1 : n ≤ 1
  · unfold powArg
    rw [if_pos h1]
    exact inBounds_none rfl rfl
  · have : isPow2 n = true := by simpa [h1] using h
    obtain ⟨K, rfl⟩ := isPow2_iff.1 this
    exact inBounds_powArg el caller K

theorem inBounds_powOwn (el : Elem) (lanes K : Nat) : (powOwn el lanes (2 ^ K) : Prog).InBounds := by
  intro a ha
  unfold powOwn at ha
  split at ha
  · simp at ha
  · cases el with
    | float =>
      simp only [List.mem_cons, List.not_mem_nil, or_false] at ha
      rcases ha with rfl | rfl | rfl | rfl
      · exact inBounds_stockhamSplit lanes K
      · exact inBounds_stockhamSplit lanes K
      · exact inBounds_simdScratch lanes K
      · exact inBounds_simdScratch lanes K
    | other =>
      simp only [List.mem_cons, List.not_mem_nil, or_false] at ha
      subst ha
      exact inBounds_cxScratch K

theorem inBounds_powOwn_small (el : Elem) (lanes : Nat) {n : Nat} (h : isPow2 n || n ≤ 1) : (powOwn el lanes n : Prog).InBounds := by
  by_cases h1 : n ≤ 1
  · unfold powOwn
    rw [if_pos (by omega)]
    intro a ha; simp at ha
  · have : isPow2 n = true := by simpa [h1] using h
    obtain ⟨K, rfl⟩ := isPow2_iff.1 this
    exact inBounds_powOwn el lanes K

end Kofft.Borrow

namespace Kofft.Props
open Kofft.Borrow Kofft.Spec.Borrow

/-- C89. Whatever the length, element type and SIMD width, every read and write that `fft` makes - the unchecked ones through
raw pointers included - lies inside the array it is made to. -/
theorem fft_accesses_in_bounds (el : Elem) (lanes n : Nat) : (fftProg el lanes n).InBounds := by
  unfold fftProg
  split
  · rename_i h
    intro a ha
    rcases List.mem_cons.mp ha with rfl | ha
    · exact inBounds_powArg_small el _ h
    · exact inBounds_powOwn_small el lanes h a ha
  · obtain ⟨K, hK⟩ : ∃ K, nextPow2 (2 * n - 1) = 2 ^ K := ⟨_, rfl⟩
    simp only [hK]
    intro a ha
    simp only [List.mem_append, List.mem_cons, List.not_mem_nil, or_false] at ha
    have hit : InBounds (2 ^ K) (iterMut .owner (2 ^ K)) := inBounds_iterMut _ _
    have harg := inBounds_powArg el .owner K
    rcases ha with ((((rfl | rfl) | ha) | rfl) | ha) | ha
    · exact ib3 rfl rfl (inBounds_iter _ _) (inBounds_iterMut _ _)
    · exact harg
    · exact inBounds_powOwn el lanes K a ha
    · exact ((((hit.append harg).append hit).append harg).append hit).append (inBounds_iter _ _)
    · exact inBounds_powOwn el lanes K a ha
    · exact inBounds_powOwn el lanes K a ha

/-- C89. … and likewise `ifft`, sequential and parallel. -/
theorem ifft_accesses_in_bounds (par : Bool) (el : Elem) (lanes n : Nat) : (ifftProg par el lanes n).InBounds := by
  intro a ha
  rcases List.mem_cons.mp ha with rfl | ha
  · have hf : ∀ c, InBounds n (fftArg el n c) := by
      intro c
      unfold fftArg
      split
      · rename_i h
        exact inBounds_powArg_small el _ h
      · exact ib3 rfl rfl (inBounds_iter _ _) (inBounds_iterMut _ _)
    cases par
    · exact (ib3 rfl rfl (inBounds_iterMut _ _) (hf _)).append (inBounds_iterMut _ _)
    · exact (ib3 rfl rfl (inBounds_iterMut _ _) (hf _)).append (inBounds_iterMut _ _)
  · exact fft_accesses_in_bounds el lanes n a (List.mem_of_mem_tail ha)

/-- C89. … and `fft_split` and `ifft_split`. -/
theorem split_accesses_in_bounds (inverse : Bool) (lanes k : Nat) : (splitProg inverse lanes (2 ^ k)).InBounds := by
  intro a ha
  have hit : InBounds (2 ^ k) (if inverse then iterMut .re32 (2 ^ k) else []) := by
    split
    · exact inBounds_iterMut _ _
    · exact inBounds_none rfl rfl
  have harg := (((inBounds_none (n := 2 ^ k) (a := [.mut .owner .slice, .raw .slice .rawSlice, .mut .rawSlice .re32]) rfl rfl).append
    hit).append (inBounds_simdArg lanes .re32 k)).append hit
  simp only [splitProg, List.mem_cons, List.not_mem_nil, or_false] at ha
  rcases ha with rfl | rfl | rfl | rfl
  · exact harg
  · exact harg
  · exact inBounds_simdScratch lanes k
  · exact inBounds_simdScratch lanes k

/-- C89. Each pass reads every element of its source exactly once and writes every element of its destination exactly once, in
the vectorised and in the generic code. -/
theorem passes_touch_once (k lanes : Nat) (p : Nat × Nat) (hp : p ∈ passes (2 ^ k)) :
    (reads (simdSrc lanes p)).Perm (List.range (2 ^ k)) ∧ writes (simdSrc lanes p) = [] ∧
    (writes (simdDst lanes p)).Perm (List.range (2 ^ k)) ∧ reads (simdDst lanes p) = [] ∧
    (reads (cxSrc p)).Perm (List.range (2 ^ k)) ∧ writes (cxSrc p) = [] ∧
    (writes (cxDst p)).Perm (List.range (2 ^ k)) ∧ reads (cxDst p) = [] := by
  have h := passes_mul k p hp
  obtain ⟨a1, a2⟩ := simdSrc_accesses lanes p
  obtain ⟨b1, b2⟩ := simdDst_accesses lanes p
  obtain ⟨c1, c2⟩ := cxSrc_accesses p
  obtain ⟨d1, d2⟩ := cxDst_accesses p
  rw [h] at a1 b1 c1 d1
  exact ⟨a1, a2, b1, b2, c1, c2, d1, d2⟩

example : passes (2 ^ 3) = [(1, 4), (2, 2), (4, 1)] ∧ reads (simdSrc 4 (2, 2)) = [0, 2, 1, 3, 4, 6, 5, 7] ∧
    writes (simdDst 4 (2, 2)) = [0, 4, 1, 5, 2, 6, 3, 7] := by decide +kernel

end Kofft.Props
