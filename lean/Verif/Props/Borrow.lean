import Verif.Proof.BorrowProg
/-
C89: the pointers of the `unsafe` code. "A call never uses a pointer that is no longer valid" is false: for half of all lengths
`fft` writes its result through a raw pointer that the reborrow after it has invalidated, and the parallel `ifft` goes on using a
reference after lending out the one it was made from. Exactly when is proved here, for both published rule sets.
-/
namespace Kofft.Props
open Kofft.Borrow Kofft.Spec.Borrow

/-- The length of the transform that `fft` of `n` elements runs on a transformer used for nothing larger: `n` itself for a
power of two (or `n ≤ 1`), and otherwise the power of two that Bluestein's algorithm pads to. -/
private theorem inner_pow (k : Nat) : (2 ^ k) = if isPow2 (2 ^ k) || 2 ^ k ≤ 1 then 2 ^ k else nextPow2 (2 * 2 ^ k - 1) := by
  rw [if_pos (by simp [isPow2_pow])]

private theorem inner_other {n k : Nat} (hn : isPow2 n = false) (h1 : 1 < n) (hlo : 2 ^ k < 2 * n - 1) (hhi : 2 * n - 1 ≤ 2 ^ (k + 1)) :
    2 ^ (k + 1) = if isPow2 n || n ≤ 1 then n else nextPow2 (2 * n - 1) := by
  rw [if_neg (by simp [hn]; omega), nextPow2]
  congr 1
  refine le_antisymm ?_ ((Nat.clog_le_iff_le_pow (by norm_num)).mpr hhi)
  exact (Nat.lt_clog_iff_pow_lt (by norm_num)).mpr hlo

private theorem src_even {k : Nat} (h : k % 2 = 0) : srcAfter true (passes (2 ^ k)) = true := by
  rw [srcAfter_pow, if_pos h]

private theorem src_odd {k : Nat} (h : k % 2 = 1) : srcAfter true (passes (2 ^ k)) = false := by
  rw [srcAfter_pow, if_neg (by omega)]; rfl

private theorem gt16 {k : Nat} : 16 < 2 ^ k ↔ 4 < k := by
  constructor
  · intro h
    by_contra hc
    have : 2 ^ k ≤ 2 ^ 4 := Nat.pow_le_pow_right (by norm_num) (by omega)
    omega
  · intro h
    exact Nat.pow_lt_pow_right (a := 2) (by norm_num) h

private theorem ge4 {k : Nat} (h : 4 < k) : 4 ≤ 2 ^ k := by have := gt16.mpr h; omega

private theorem stockham_mem_tail {n m lanes : Nat} (hm : m = if isPow2 n || n ≤ 1 then n else nextPow2 (2 * n - 1)) (h : 16 < m) :
    (m, stockhamSplit lanes m) ∈ (fftProg .float lanes n).tail := by
  have hown : (m, stockhamSplit lanes m) ∈ powOwn .float lanes m := by
    unfold powOwn
    rw [if_neg (by omega)]
    simp
  rw [fftProg]
  split
  · rename_i hc
    rw [if_pos hc] at hm
    subst hm
    exact hown
  · rename_i hc
    rw [if_neg hc] at hm
    simp only [← hm, List.cons_append, List.tail_cons, List.mem_append, List.mem_cons]
    exact .inr (.inr hown)

private theorem stockham_mem {n m lanes : Nat} (hm : m = if isPow2 n || n ≤ 1 then n else nextPow2 (2 * n - 1)) (h : 16 < m) :
    (m, stockhamSplit lanes m) ∈ fftProg .float lanes n := List.mem_of_mem_tail (stockham_mem_tail hm h)

private theorem cx_mem {n m lanes : Nat} (hm : m = if isPow2 n || n ≤ 1 then n else nextPow2 (2 * n - 1)) (h : 16 < m) :
    (m, cxArg .owner m) ∈ fftProg .other lanes n := by
  have harg : powArg .other .owner m = cxArg .owner m := by
    unfold powArg
    rw [if_neg (by omega), if_neg (by omega)]
  rw [fftProg]
  split
  · rename_i hc
    rw [if_pos hc] at hm
    subst hm
    rw [harg]
    simp
  · rename_i hc
    rw [if_neg hc] at hm
    simp only [← hm, harg]
    simp

private theorem split_runs {σ : Type} {step : σ → Ev Ptr → Option σ} (R : Rules step) {st : σ} (g : R.G [] [.owner] st) (n : Nat) :
    ∃ st', runs step st ([.mut .owner .slice, .raw .slice .rawSlice, .mut .rawSlice .re32] ++ iterMut .re32 n) = some st' ∧
      R.G [] [.re32, .rawSlice, .slice, .owner] st' :=
  ((goes_re32 rfl .re32 (.inl rfl)).append (goes_iterMut (by simp) n)) [] st g

private theorem stockhamSplit_bad {k lanes : Nat} (hk : 4 < k) (ho : k % 2 = 1) :
    ¬ Stacked.Valid (2 ^ k) Ptr.owner (stockhamSplit lanes (2 ^ k)) ∧ ¬ Tree.Valid (2 ^ k) Ptr.owner (stockhamSplit lanes (2 ^ k)) := by
  have h4 := ge4 hk
  constructor
  · apply stacked_invalid (by omega)
    obtain ⟨s1, e1, g1⟩ := split_runs (stackedRules 0) stacked_start (2 ^ k)
    rw [stockhamSplit]
    apply runs_none_left
    rw [runs_append, e1]
    exact stacked_simdArg_bad (by simp [Outside]) (show SG [] _ s1 from g1) (by omega) (src_odd ho)
  · apply tree_invalid (by omega)
    obtain ⟨s1, e1, g1⟩ := split_runs (treeRules 0) tree_start (2 ^ k)
    rw [stockhamSplit]
    apply runs_none_left
    rw [runs_append, e1]
    exact tree_simdArg_bad (by simp [Outside]) (show TG [] _ s1 from g1) h4 (src_odd ho)

private theorem fft_float {n k lanes : Nat} (hm : 2 ^ k = if isPow2 n || n ≤ 1 then n else nextPow2 (2 * n - 1)) :
    ((fftProg .float lanes n).Stacked ↔ k ≤ 4 ∨ k % 2 = 0) ∧ ((fftProg .float lanes n).Tree ↔ k ≤ 4 ∨ k % 2 = 0) := by
  have good : k ≤ 4 ∨ k % 2 = 0 → ∀ {σ : Type} {step : σ → Ev Ptr → Option σ} (R : Rules step),
      ∀ a ∈ fftProg .float lanes n, Goes R [.owner] [.owner] a.2 := by
    intro h σ step R
    refine goes_fftProg hm fun h16 => ⟨src_even ?_, fun h => by simp at h⟩
    have := gt16.mp h16
    omega
  constructor <;> constructor
  · intro h
    by_contra hc
    exact (stockhamSplit_bad (lanes := lanes) (by omega) (by omega)).1 (h _ (stockham_mem hm (gt16.mpr (by omega))))
  · intro h a ha
    exact stacked_valid fun i => good h (stackedRules i) a ha
  · intro h
    by_contra hc
    exact (stockhamSplit_bad (lanes := lanes) (by omega) (by omega)).2 (h _ (stockham_mem hm (gt16.mpr (by omega))))
  · intro h a ha
    exact tree_valid fun i => good h (treeRules i) a ha

private theorem fft_other {n k lanes : Nat} (hm : 2 ^ k = if isPow2 n || n ≤ 1 then n else nextPow2 (2 * n - 1)) :
    ((fftProg .other lanes n).Stacked ↔ k ≤ 4) ∧ ((fftProg .other lanes n).Tree ↔ k ≤ 4 ∨ k % 2 = 0) := by
  constructor <;> constructor
  · intro h
    by_contra hc
    have h4 := ge4 (k := k) (by omega)
    refine stacked_invalid (by omega) ?_ (h _ (cx_mem hm (gt16.mpr (by omega))))
    exact stacked_cxArg_bad (by simp [Outside]) stacked_start h4
  · intro h a ha
    exact stacked_valid fun i => goes_fftProg hm (fun h16 => by have := gt16.mp h16; omega) a ha
  · intro h
    by_contra hc
    have h4 := ge4 (k := k) (by omega)
    refine tree_invalid (by omega) ?_ (h _ (cx_mem hm (gt16.mpr (by omega))))
    exact tree_cxArg_bad (by simp [Outside]) tree_start h4 (src_odd (by omega))
  · intro h a ha
    refine tree_valid fun i => goes_fftProg hm (fun h16 => ⟨src_even ?_, fun _ vs h0 h1 p hp => ?_⟩) a ha
    · have := gt16.mp h16; omega
    · exact tree_cxDst h0 h1 (passes_pos k p hp)

/-- The passes one after the other, over the two buffers that swap roles. -/
def runPasses {B : Type} (stage : B → Nat → Nat → B → Outcome B) : StageSt B → List (Nat × Nat) → Outcome (StageSt B)
  | s, [] => .ok s
  | s, p :: ps => stage s.src p.1 p.2 s.dst >>= fun d =>
      runPasses stage { src := d, dst := s.src, srcIsInput := !s.srcIsInput, n1 := p.1 * 2, n2 := p.2 } ps

/-- The pointer model and the model of the values take the same passes: the loop of `fft` runs exactly the passes listed in
`passes`, and the result is in the caller's buffer exactly if `srcAfter` says so. -/
theorem passes_agree {B : Type} (n : Nat) (stage : B → Nat → Nat → B → Outcome B) (a b : B) :
    stageLoop n stage ⟨a, b, true, 1, n⟩ = runPasses stage ⟨a, b, true, 1, n⟩ (passes n) ∧
    ∀ s, stageLoop n stage ⟨a, b, true, 1, n⟩ = .ok s → s.srcIsInput = srcAfter true (passes n) := by
  have key : ∀ (fuel : Nat) (s : StageSt B), 1 ≤ s.n1 → n < fuel + s.n1 →
      whileF fuel (fun s => decide (s.n1 < n)) (fun s => do
        let n2 := s.n2 / 2
        let d ← stage s.src s.n1 n2 s.dst
        pure { src := d, dst := s.src, srcIsInput := !s.srcIsInput, n1 := s.n1 * 2, n2 := n2 }) s =
      runPasses stage s (passList n fuel s.n1 s.n2) ∨ fuel = 0 := by
    intro fuel
    induction fuel with
    | zero => intro s _ _; exact .inr rfl
    | succ fuel ih =>
      intro s h1 hf
      left
      rw [whileF, passList]
      by_cases hc : s.n1 < n
      · rw [if_pos (by simpa using hc), if_pos hc, runPasses]
        simp only []
        cases hd : stage s.src s.n1 (s.n2 / 2) s.dst with
        | ok d =>
          rcases ih ⟨d, s.src, !s.srcIsInput, s.n1 * 2, s.n2 / 2⟩ (show 1 ≤ s.n1 * 2 by omega) (show n < fuel + s.n1 * 2 by omega) with h | h
          · exact h
          · omega
        | panic => rfl
        | hang => rfl
      · rw [if_neg (by simpa using hc), if_neg hc]; rfl
  have h1 : stageLoop n stage ⟨a, b, true, 1, n⟩ = runPasses stage ⟨a, b, true, 1, n⟩ (passes n) := by
    rcases key (n + 1) ⟨a, b, true, 1, n⟩ le_rfl (show n < n + 1 + 1 by omega) with h | h
    · exact h
    · omega
  refine ⟨h1, ?_⟩
  have hrun : ∀ (ps : List (Nat × Nat)) (s s' : StageSt B), runPasses stage s ps = .ok s' →
      s'.srcIsInput = srcAfter s.srcIsInput ps := by
    intro ps
    induction ps with
    | nil => intro s s' h; obtain rfl := Outcome.ok.inj h; simp [srcAfter]
    | cons p ps ih =>
      intro s s' h
      rw [runPasses] at h
      cases hd : stage s.src p.1 p.2 s.dst with
      | ok d =>
        rw [hd] at h
        rw [ih _ _ h]
        simp only [srcAfter, List.length_cons]
        split <;> split <;> first | omega | simp
      | panic => rw [hd] at h; exact absurd h (by simp)
      | hang => rw [hd] at h; exact absurd h (by simp)
  intro s hs
  exact hrun _ _ _ (h1 ▸ hs)

/-- C89. `fft` of `2^k` elements of type `f32` or `f64` on a fresh transformer uses only valid pointers exactly if `k ≤ 4` or `k` is
even, by the rules of Stacked Borrows as well as by those of Tree Borrows. For odd `k` from 5 on (32, 128, 512, … elements) it
copies its result through a stale pointer. -/
theorem fft_pow2_pointers_partial (k lanes : Nat) :
    ((fftProg .float lanes (2 ^ k)).Stacked ↔ k ≤ 4 ∨ k % 2 = 0) ∧
    ((fftProg .float lanes (2 ^ k)).Tree ↔ k ≤ 4 ∨ k % 2 = 0) :=
  fft_float (inner_pow k)

/-- 32 elements: a violation by either set of rules; 64 elements: none. -/
example : ¬ (fftProg .float 4 32).Stacked ∧ ¬ (fftProg .float 4 32).Tree ∧ (fftProg .float 4 64).Stacked ∧ (fftProg .float 4 64).Tree :=
  ⟨fun h => absurd ((fft_pow2_pointers_partial 5 4).1.mp h) (by decide), fun h => absurd ((fft_pow2_pointers_partial 5 4).2.mp h) (by decide),
    (fft_pow2_pointers_partial 6 4).1.mpr (by decide), (fft_pow2_pointers_partial 6 4).2.mpr (by decide)⟩

/-- C89. For a length that is not a power of two the same holds of the power of two `2^(k+1)` above `2n - 1` to which the data is
padded. -/
theorem fft_other_length_pointers_partial {n k : Nat} (lanes : Nat) (hn : isPow2 n = false) (h1 : 1 < n) (hlo : 2 ^ k < 2 * n - 1)
    (hhi : 2 * n - 1 ≤ 2 ^ (k + 1)) :
    ((fftProg .float lanes n).Stacked ↔ k + 1 ≤ 4 ∨ (k + 1) % 2 = 0) ∧
    ((fftProg .float lanes n).Tree ↔ k + 1 ≤ 4 ∨ (k + 1) % 2 = 0) :=
  fft_float (inner_other hn h1 hlo hhi)

/-- 10 elements are padded to 32: a violation; 20 to 64: none. -/
example : ¬ (fftProg .float 4 10).Stacked ∧ (fftProg .float 4 20).Tree :=
  ⟨fun h => absurd ((fft_other_length_pointers_partial (n := 10) (k := 4) 4 (by decide) (by decide) (by decide) (by decide)).1.mp h) (by decide),
    (fft_other_length_pointers_partial (n := 20) (k := 5) 4 (by decide) (by decide) (by decide) (by decide)).2.mpr (by decide)⟩

/-- C89. For element types other than `f32` and `f64` Stacked Borrows is violated for every power of two above 16 (two mutable
pointers are taken from the destination one after the other and both are used), Tree Borrows again for the odd powers. -/
theorem fft_custom_pointers_partial (k lanes : Nat) :
    ((fftProg .other lanes (2 ^ k)).Stacked ↔ k ≤ 4) ∧ ((fftProg .other lanes (2 ^ k)).Tree ↔ k ≤ 4 ∨ k % 2 = 0) :=
  fft_other (inner_pow k)

/-- 64 elements of a type of the caller's own. -/
example : ¬ (fftProg .other 4 64).Stacked ∧ (fftProg .other 4 64).Tree :=
  ⟨fun h => absurd ((fft_custom_pointers_partial 6 4).1.mp h) (by decide), (fft_custom_pointers_partial 6 4).2.mpr (by decide)⟩

private theorem splitArg_bad {k lanes : Nat} (inverse : Bool) (hk : 4 < k) (ho : k % 2 = 1) :
    ¬ (splitProg inverse lanes (2 ^ k)).Stacked ∧ ¬ (splitProg inverse lanes (2 ^ k)).Tree := by
  have h4 := ge4 hk
  have pre : ∀ {σ : Type} {step : σ → Ev Ptr → Option σ} (R : Rules step) {st : σ}, R.G [] [.owner] st →
      ∃ st', runs step st ([.mut .owner .slice, .raw .slice .rawSlice, .mut .rawSlice .re32] ++
        (if inverse then iterMut .re32 (2 ^ k) else [])) = some st' ∧ R.G [] [.re32, .rawSlice, .slice, .owner] st' := by
    intro σ step R st g
    refine ((goes_re32 rfl .re32 (.inl rfl)).append ?_) [] st g
    split
    · exact goes_iterMut (by simp) _
    · exact goes_nil
  constructor
  · intro h
    have hv := h _ (List.mem_cons_self (l := (splitProg inverse lanes (2 ^ k)).tail))
    refine stacked_invalid (by omega) ?_ hv
    obtain ⟨s1, e1, g1⟩ := pre (stackedRules 0) stacked_start
    apply runs_none_left
    rw [runs_append, e1]
    exact stacked_simdArg_bad (by simp [Outside]) (show SG [] _ s1 from g1) (by omega) (src_odd ho)
  · intro h
    have hv := h _ (List.mem_cons_self (l := (splitProg inverse lanes (2 ^ k)).tail))
    refine tree_invalid (by omega) ?_ hv
    obtain ⟨s1, e1, g1⟩ := pre (treeRules 0) tree_start
    apply runs_none_left
    rw [runs_append, e1]
    exact tree_simdArg_bad (by simp [Outside]) (show TG [] _ s1 from g1) h4 (src_odd ho)

/-- C89. `fft_split` and `ifft_split` of more than 16 elements: the same. -/
theorem split_pointers_partial (inverse : Bool) {k : Nat} (lanes : Nat) (hk : 4 < k) :
    ((splitProg inverse lanes (2 ^ k)).Stacked ↔ k % 2 = 0) ∧ ((splitProg inverse lanes (2 ^ k)).Tree ↔ k % 2 = 0) := by
  have good : k % 2 = 0 → ∀ {σ : Type} {step : σ → Ev Ptr → Option σ} (R : Rules step),
      ∀ a ∈ splitProg inverse lanes (2 ^ k), Goes R [.owner] [.owner] a.2 := by
    intro h σ step R a ha
    have hit : Goes R [.re32, .rawSlice, .slice, .owner] [.re32, .rawSlice, .slice, .owner]
        (if inverse then iterMut .re32 (2 ^ k) else []) := by
      split
      · exact goes_iterMut (by simp) _
      · exact goes_nil
    have harg := ((((goes_re32 (R := R) rfl .re32 (.inl rfl)).append hit).append
      (goes_simdArg (by simp [Outside]) lanes (2 ^ k) (src_even h))).append hit).drop.drop.drop
    simp only [splitProg, List.mem_cons, List.not_mem_nil, or_false] at ha
    rcases ha with rfl | rfl | rfl | rfl
    · exact harg
    · exact harg
    · exact goes_simdScratch lanes _
    · exact goes_simdScratch lanes _
  refine ⟨⟨fun h => ?_, fun h a ha => stacked_valid fun i => good h (stackedRules i) a ha⟩,
    ⟨fun h => ?_, fun h a ha => tree_valid fun i => good h (treeRules i) a ha⟩⟩
  · by_contra hc
    exact (splitArg_bad (lanes := lanes) inverse hk (by omega)).1 h
  · by_contra hc
    exact (splitArg_bad (lanes := lanes) inverse hk (by omega)).2 h

private theorem goes_fftArg {σ : Type} {step : σ → Ev Ptr → Option σ} {R : Rules step} {vs : List Ptr} {caller : Ptr}
    (ho : Outside' (caller :: vs)) (n : Nat) : Goes R (caller :: vs) (caller :: vs) (fftArg .float n caller) := by
  rw [fftArg]
  split
  · exact goes_powArg ho fun _ h => by simp at h
  · exact goes_safe ho.1 n

private theorem ifftSeq {n k lanes : Nat} (hm : 2 ^ k = if isPow2 n || n ≤ 1 then n else nextPow2 (2 * n - 1)) :
    ((ifftProg false .float lanes n).Stacked ↔ k ≤ 4 ∨ k % 2 = 0) ∧ ((ifftProg false .float lanes n).Tree ↔ k ≤ 4 ∨ k % 2 = 0) := by
  have arg : ∀ {σ : Type} {step : σ → Ev Ptr → Option σ} (R : Rules step),
      Goes R [.owner] [.owner] (ifftSeqArg (fftArg .float n) n) := by
    intro σ step R
    have hit : Goes R [.slice, .owner] [.slice, .owner] (iterMut .slice n) := goes_iterMut (by simp) n
    exact ((((goes_mut (by simp)).append hit).append (goes_fftArg (by simp [Outside', Outside]) n)).append hit).drop
  have htail : ∀ a ∈ (fftProg .float lanes n).tail, a ∈ ifftProg false .float lanes n := fun a ha => List.mem_cons_of_mem _ ha
  have good : k ≤ 4 ∨ k % 2 = 0 → ∀ {σ : Type} {step : σ → Ev Ptr → Option σ} (R : Rules step),
      ∀ a ∈ ifftProg false .float lanes n, Goes R [.owner] [.owner] a.2 := by
    intro h σ step R a ha
    rcases List.mem_cons.mp ha with rfl | ha
    · exact arg R
    · refine goes_fftProg hm (fun h16 => ⟨src_even ?_, fun h => by simp at h⟩) a (List.mem_of_mem_tail ha)
      have := gt16.mp h16
      omega
  refine ⟨⟨fun h => ?_, fun h a ha => stacked_valid fun i => good h (stackedRules i) a ha⟩,
    ⟨fun h => ?_, fun h a ha => tree_valid fun i => good h (treeRules i) a ha⟩⟩
  · by_contra hc
    exact (stockhamSplit_bad (lanes := lanes) (by omega) (by omega)).1
      (h _ (htail _ (stockham_mem_tail hm (gt16.mpr (by omega)))))
  · by_contra hc
    exact (stockhamSplit_bad (lanes := lanes) (by omega) (by omega)).2
      (h _ (htail _ (stockham_mem_tail hm (gt16.mpr (by omega)))))

/-- C89. The sequential `ifft` of `2^k` elements: as `fft`. -/
theorem ifft_pow2_pointers_partial (k lanes : Nat) :
    ((ifftProg false .float lanes (2 ^ k)).Stacked ↔ k ≤ 4 ∨ k % 2 = 0) ∧
    ((ifftProg false .float lanes (2 ^ k)).Tree ↔ k ≤ 4 ∨ k % 2 = 0) :=
  ifftSeq (inner_pow k)

/-- C89. … and of other lengths. -/
theorem ifft_other_length_pointers_partial {n k : Nat} (lanes : Nat) (hn : isPow2 n = false) (h1 : 1 < n) (hlo : 2 ^ k < 2 * n - 1)
    (hhi : 2 * n - 1 ≤ 2 ^ (k + 1)) :
    ((ifftProg false .float lanes n).Stacked ↔ k + 1 ≤ 4 ∨ (k + 1) % 2 = 0) ∧
    ((ifftProg false .float lanes n).Tree ↔ k + 1 ≤ 4 ∨ (k + 1) % 2 = 0) :=
  ifftSeq (inner_other hn h1 hlo hhi)

private theorem fftArg_shape (n : Nat) (caller : Ptr) : ∃ rest, fftArg .float n caller = .mut caller .arg :: rest ∧
    ∀ e ∈ rest, assigns e ≠ some .input32 := by
  have hit : ∀ p m, ∀ e ∈ iter p m, assigns e ≠ some Ptr.input32 := by
    intro p m e he
    simp only [iter, List.mem_cons, List.mem_map] at he
    rcases he with rfl | ⟨j, -, rfl⟩ <;> simp [assigns]
  have him : ∀ p m, ∀ e ∈ iterMut p m, assigns e ≠ some Ptr.input32 := by
    intro p m e he
    simp only [iterMut, List.mem_cons, List.mem_map] at he
    rcases he with rfl | ⟨j, -, rfl⟩ <;> simp [assigns]
  have safe : ∀ e ∈ iter .arg n ++ iterMut .arg n, assigns e ≠ some Ptr.input32 := fun e he =>
    (List.mem_append.mp he).elim (hit _ _ e) (him _ _ e)
  rw [fftArg]
  split
  · unfold powArg
    split
    · exact ⟨[], rfl, by simp⟩
    · split
      · exact ⟨_, by simp, safe⟩
      · refine ⟨[.raw .arg .rawSlice, .mut .rawSlice .inner32] ++ iter .inner32 n ++ iterMut .inner32 n, rfl, fun e he => ?_⟩
        simp only [List.mem_append, List.mem_cons, List.not_mem_nil, or_false] at he
        rcases he with ((rfl | rfl) | he) | he
        · simp [assigns]
        · simp [assigns]
        · exact hit _ _ e he
        · exact him _ _ e he
  · exact ⟨_, by simp, safe⟩

private theorem iterMut_env {n : Nat} {p v : Ptr} (hv : v ≠ .tmp0) : ∀ e ∈ iterMut p n, assigns e ≠ some v := by
  intro e he
  simp only [iterMut, List.mem_cons, List.mem_map] at he
  rcases he with rfl | ⟨j, -, rfl⟩
  · simp only [assigns, ne_eq, Option.some.injEq]; exact fun h => hv h.symm
  · simp [assigns]

/-- C89. When the parallel branch of `ifft` is taken (element type `f32`), the rules are violated for every length: the
reference `input32` is used after `self.fft(input)` has invalidated it. -/
theorem ifft_parallel_pointers_invalid {n : Nat} (lanes : Nat) (hn : 2 ≤ n) :
    ¬ (ifftProg true .float lanes n).Stacked ∧ ¬ (ifftProg true .float lanes n).Tree := by
  obtain ⟨rest, hrest, hassign⟩ := fftArg_shape n .slice
  have hshape : ifftParArg (fftArg .float n) n = ([.mut .owner .slice, .raw .slice .rawSlice, .mut .rawSlice .input32] ++
      iterMut .input32 n) ++ ((.mut .slice .arg :: rest) ++ iterMut .input32 n) := by
    rw [ifftParArg, hrest]
    simp
  have him : iterMut .input32 n = .mut .input32 .tmp0 :: .write .tmp0 0 :: (iterMut .input32 n).drop 2 := by
    obtain ⟨l, hl⟩ := range_pos (m := n) (by omega)
    rw [iterMut, hl]
    rfl
  constructor
  · intro h
    have hv := h _ (List.mem_cons_self (l := (ifftProg true .float lanes n).tail))
    refine stacked_invalid (by omega) ?_ hv
    show runs _ _ (ifftParArg (fftArg .float n) n) = none
    rw [hshape]
    let R := stackedRules 0
    obtain ⟨s1, e1, g1⟩ := R.mkMut (c := .slice) (show R.G [] [.owner] _ from stacked_start) (by simp)
    have j1 : SJ .slice s1 := SJ.new stacked_start.1 e1
    obtain ⟨s2, e2, g2⟩ := R.mkRaw (c := .rawSlice) g1 (by simp)
    have j2 := j1.step e2 (by simp [assigns])
    obtain ⟨s3, e3, g3⟩ := R.mkMut (c := .input32) g2 (by simp)
    have j3 := j2.step e3 (by simp [assigns])
    obtain ⟨s4, e4, g4⟩ := goes_iterMut (R := R) (p := .input32) (vs := [.rawSlice, .slice, .owner]) (by simp) n [] s3 g3
    have j4 : SJ .slice s4 := runs_inv (P := SJ .slice) (fun e he s s' hb hs => hb.step hs (iterMut_env (by simp) e he)) j3 e4
    rw [runs_append, runs_append, show runs (Stacked.step 0) _ [.mut .owner .slice, .raw .slice .rawSlice, .mut .rawSlice .input32] =
      some s3 by simp [runs, e1, e2, e3], Option.bind_some, e4, Option.bind_some]
    refine runs_none (P := SBad .input32) (fun s5 h5 => ?_) (fun s6 hb => by rw [iterMut, runs, hb.mut]; rfl)
    simp only [runs, Option.bind_eq_some_iff] at h5
    obtain ⟨s', h1, h2⟩ := h5
    have hb := sbad_pop (a := .input32) (l := [.input32, .rawSlice]) (x := .slice) (vs := [.owner]) (show SG [] _ s4 from g4) (by simp) j4 (by simp) h1
    exact runs_inv (P := SBad .input32) (fun e he s s' hb hs => hb.step hs (hassign e he)) hb h2
  · intro h
    have hv := h _ (List.mem_cons_self (l := (ifftProg true .float lanes n).tail))
    refine tree_invalid (by omega) ?_ hv
    show runs _ _ (ifftParArg (fftArg .float n) n) = none
    rw [hshape]
    let R := treeRules 0
    obtain ⟨s1, e1, g1⟩ := R.mkMut (c := .slice) (show R.G [] [.owner] _ from tree_start) (by simp)
    obtain ⟨s2, e2, g2⟩ := R.mkRaw (c := .rawSlice) g1 (by simp)
    obtain ⟨s3, e3, g3⟩ := R.mkMut (c := .input32) g2 (by simp)
    have j3 : TJ .input32 .slice s3 := by
      obtain ⟨hw, t, p, q1, q2, q3, q4, q5⟩ : TJ .input32 .rawSlice s3 := TJ.new g2 (by simp) e3
      refine ⟨hw, t, p, q1, q2, ?_, q4, q5⟩
      obtain ⟨t1, ht1⟩ := TG.env_some g1
      have r2 : s2.env .rawSlice = some t1 ∧ s2.env .slice = some t1 := by
        simp only [Tree.step, ht1, Option.bind_eq_bind, Option.bind_some] at e2
        obtain rfl := Option.some.inj e2
        exact ⟨by simp [Env.set], by simp [Env.set, ht1]⟩
      have r3 : s3.env .rawSlice = s2.env .rawSlice ∧ s3.env .slice = s2.env .slice := by
        rcases tstep_shape e3 with ⟨-, h2 | ⟨_, _, _, _, h3, _⟩, -⟩ | ⟨c, _, _, _, h0, h2, _⟩
        · exact ⟨by rw [h2], by rw [h2]⟩
        · simp at h3
        · simp only [assigns, Option.some.injEq] at h0
          subst h0
          exact ⟨by rw [h2]; simp [Env.set], by rw [h2]; simp [Env.set]⟩
      rw [r3.2, r2.2, ← r2.1, ← r3.1, q3]
    obtain ⟨s4, e4, g4⟩ := goes_iterMut (R := R) (p := .input32) (vs := [.rawSlice, .slice, .owner]) (by simp) n [] s3 g3
    have j4 : TJ .input32 .slice s4 := runs_inv (P := TJ .input32 .slice) (fun e he s s' hb hs =>
      hb.step hs (iterMut_env (by simp) e he) (iterMut_env (by simp) e he)) j3 e4
    have a4 : TAct .input32 s4 := tree_iterMut_act (by simp) g3 (by omega) e4
    rw [runs_append, runs_append, show runs (Tree.step 0) _ [.mut .owner .slice, .raw .slice .rawSlice, .mut .rawSlice .input32] =
      some s3 by simp [runs, e1, e2, e3], Option.bind_some, e4, Option.bind_some]
    refine runs_none (P := TBad .input32) (fun s5 h5 => ?_) (fun s6 hb => by rw [him]; exact hb.mutWrite _)
    simp only [runs, Option.bind_eq_some_iff] at h5
    obtain ⟨s', h1, h2⟩ := h5
    have hb : TBad .input32 s' := j4.freeze a4 h1 (by simp)
    exact runs_inv (P := TBad .input32) (fun e he s s' hb hs => hb.step hs (hassign e he)) hb h2

example : ¬ (splitProg true 4 128).Stacked ∧ (splitProg false 4 256).Stacked :=
  ⟨fun h => absurd ((split_pointers_partial true (k := 7) 4 (by decide)).1.mp h) (by decide),
    (split_pointers_partial false (k := 8) 4 (by decide)).1.mpr (by decide)⟩

example : (ifftProg false .float 4 64).Tree ∧ ¬ (ifftProg false .float 4 10).Tree ∧ ¬ (ifftProg true .float 4 64).Tree :=
  ⟨(ifft_pow2_pointers_partial 6 4).2.mpr (by decide),
    fun h => absurd ((ifft_other_length_pointers_partial (n := 10) (k := 4) 4 (by decide) (by decide) (by decide) (by decide)).2.mp h) (by decide),
    (ifft_parallel_pointers_invalid 4 (by decide)).2⟩

end Kofft.Props
