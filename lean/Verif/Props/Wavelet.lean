import Verif.Proof.Wavelet
import Verif.Spec.Wavelet
import Mathlib.Algebra.BigOperators.Intervals
import Mathlib.Tactic.LinearCombination
import Mathlib.Tactic.Linarith
import Mathlib.Tactic.IntervalCases
/-
C49-C52: the wavelet transforms.
-/
namespace Kofft.Props
open Spec Finset

section generic
variable {T : Type} [Flt T]

/-! ### C49 -/

/-- C49: what `haar_forward` returns, bit for bit: `⌊n/2⌋` half sums and half differences. -/
theorem haar_forward_values (x : List T) : ∃ a d, haarForward x = .ok (a, d) ∧ a.length = x.length / 2 ∧
    d.length = x.length / 2 ∧ ∀ i, i < x.length / 2 →
      a.getD i Flt.zero = (x.getD (2 * i) Flt.zero +. x.getD (2 * i + 1) Flt.zero) /. two ∧
      d.getD i Flt.zero = (x.getD (2 * i) Flt.zero -. x.getD (2 * i + 1) Flt.zero) /. two :=
  ⟨_, _, haarForward_ok x, tab_length _ _, tab_length _ _, fun i hi => ⟨tab_getD hi, tab_getD hi⟩⟩

/-- C49: what `haar_inverse` returns, bit for bit, and that it panics exactly when there are fewer differences than
averages. -/
theorem haar_inverse_values (a d : List T) :
    (a.length ≤ d.length → ∃ x, haarInverse a d = .ok x ∧ x.length = 2 * a.length ∧ ∀ i, i < a.length →
      x.getD (2 * i) Flt.zero = a.getD i Flt.zero +. d.getD i Flt.zero ∧
      x.getD (2 * i + 1) Flt.zero = a.getD i Flt.zero -. d.getD i Flt.zero) ∧
    (d.length < a.length → haarInverse a d = .panic) := by
  refine ⟨fun h => ⟨_, haarInverse_ok a d h, tab_length _ _, fun i hi => ?_⟩, haarInverse_panic a d⟩
  rw [tab_getD (by omega), tab_getD (by omega), haarSyn, haarSyn, if_pos (by omega), if_neg (by omega),
    show 2 * i / 2 = i by omega, show (2 * i + 1) / 2 = i by omega]
  exact ⟨rfl, rfl⟩

/-- C49: the in-place variants panic exactly on wrong buffer lengths and otherwise return what the allocating ones do, bit
for bit, whatever was in the buffers. -/
theorem haar_stack_eq (x a d o : List T) :
    haarForwardStack x a d = (if a.length = x.length / 2 ∧ d.length = x.length / 2 then haarForward x else .panic) ∧
    haarInverseStack a d o = (if d.length = a.length ∧ o.length = 2 * a.length then haarInverse a d else .panic) := by
  constructor
  · unfold haarForwardStack
    simp only []
    split
    · rename_i h
      rw [haarForward_ok, haarStep_loop x a d _ h.1 h.2 (by omega)]
    · rfl
  · unfold haarInverseStack
    simp only []
    split
    · rename_i h
      rw [haarInverse_ok a d (by omega), haarInv_loop a d o (by omega) h.2]
    · rfl

/-- C49: a batch of analyses is the list of the individual ones. -/
theorem haar_batch_forward (xs : List (List T)) : ∃ as ds, pairBatch haarForward xs = .ok (as, ds) ∧
    as.length = xs.length ∧ ds.length = xs.length ∧
    ∀ j (h : j < xs.length), haarForward xs[j] = .ok (as.getD j [], ds.getD j []) := by
  refine ⟨_, _, pairBatch_ok haarForward (fun x => (_, _)) xs (fun x _ => haarForward_ok x), by simp, by simp, ?_⟩
  intro j h
  simp [haarForward_ok, List.getD_eq_getElem?_getD, h]

/-- C49: a batch of syntheses is the list of the individual ones, over the pairs. -/
theorem haar_batch_inverse (as ds : List (List T)) (hl : as.length = ds.length)
    (h : ∀ j (ha : j < as.length) (hd : j < ds.length), as[j].length ≤ ds[j].length) :
    ∃ ys, zipBatch haarInverse as ds = .ok ys ∧ ys.length = as.length ∧
    ∀ j (ha : j < as.length) (hd : j < ds.length), haarInverse as[j] ds[j] = .ok (ys.getD j []) := by
  have e := zipBatch_ok haarInverse (fun a d => tab (2 * a.length) (haarSyn a d)) as ds (by
    intro p hp
    obtain ⟨j, hj, rfl⟩ := List.getElem_of_mem hp
    simp only [List.length_zip] at hj
    rw [List.getElem_zip]
    exact haarInverse_ok _ _ (h j (by omega) (by omega)))
  refine ⟨_, e, by simp [hl], ?_⟩
  intro j ha hd
  rw [haarInverse_ok _ _ (h j ha hd)]
  simp [List.getD_eq_getElem?_getD, ha, hd]

/-! ### C52 -/

/-- C52: for at least two samples and any index at all, `reflect` terminates with the mirrored index, which is inside the
signal, and nothing else is. -/
theorem reflect_in_range (len : Nat) (h : 2 ≤ len) (idx : Int) :
    ∃ r, reflectIdx len idx = .ok r ∧ mirrorAt len idx r ∧ ∀ r', mirrorAt len idx r' → r' = r := by
  refine ⟨_, reflectIdx_ok h idx, ⟨mirIdx_lt h idx, ?_⟩, fun r' h' => ?_⟩
  · obtain ⟨r, e, h0, h1, hd⟩ := reflectLoop_ok len (by omega) (2 * idx.natAbs + 3) idx (by split <;> omega)
    rw [← mirIdx_unique h idx r h0 h1 hd, Int.toNat_of_nonneg h0]
    exact hd
  · have := mirIdx_unique h idx r' (by omega) (by exact_mod_cast h'.1) h'.2
    simpa using this

/-- C52: indices inside the signal are kept, the first index past the end is the last but one. -/
theorem reflect_examples (len : Nat) (h : 2 ≤ len) :
    (∀ i, i < len → reflectIdx len (i : Int) = .ok i) ∧ reflectIdx len (len : Int) = .ok (len - 2) := by
  refine ⟨fun i hi => by rw [reflectIdx_ok h, mirIdx_self h hi], ?_⟩
  rw [reflectIdx_ok h, ← mirIdx_unique h (len : Int) ((len : Int) - 2) (by omega) (by omega)
    (Or.inr ⟨1, by ring⟩)]
  congr 1; omega

/-- C52: on a one-sample signal the loop of `reflect` would never stop (for any number of steps and every other index);
the transforms below never get there. -/
theorem reflect_one_hangs (fuel : Nat) (idx : Int) (h : idx ≠ 0) : reflectLoop 1 fuel idx = .hang :=
  reflectLoop_one fuel idx h

theorem bank_half (h g sg sh : List T) (hg : h.length ≤ g.length) (h0 : 0 < sg.length) (hs : sg.length ≤ sh.length) :
    HalfBank (bankForward h g) (bankInverse sg sh) where
  fwd_ok := fun x => ⟨_, _, bankForward_ok h g x hg, tab_length _ _, tab_length _ _⟩
  inv_ok := fun a d hd => ⟨_, bankInverse_ok sg sh a d hs hd, by rw [tab_length]; omega⟩
  inv_panic := fun a d hd => bankInverse_panic sg sh a d h0 hs hd

/-- C52: the five transform pairs never hang; analysis never panics; synthesis panics exactly when it is given fewer
details than averages. -/
theorem wavelets_total : HalfBank (haarForward (T := T)) haarInverse ∧ HalfBank (db2Forward (T := T)) db2Inverse ∧
    HalfBank (db4Forward (T := T)) db4Inverse ∧ HalfBank (sym4Forward (T := T)) sym4Inverse ∧
    HalfBank (coif1Forward (T := T)) coif1Inverse := by
  refine ⟨⟨fun x => ⟨_, _, haarForward_ok x, tab_length _ _, tab_length _ _⟩,
      fun a d hd => ⟨_, haarInverse_ok a d hd, tab_length _ _⟩, haarInverse_panic⟩,
    ⟨fun x => ⟨_, _, db2Forward_ok x, tab_length _ _, tab_length _ _⟩,
      (bank_half db2H db2G db2H db2G (by simp [db2H, db2G]) (by simp [db2H]) (by simp [db2H, db2G])).inv_ok,
      (bank_half db2H db2G db2H db2G (by simp [db2H, db2G]) (by simp [db2H]) (by simp [db2H, db2G])).inv_panic⟩, ?_, ?_, ?_⟩
  · exact bank_half db4H db4G db4SG db4SH (by simp [db4H, db4G]) (by simp [db4SG]) (by simp [db4SG, db4SH])
  · exact bank_half sym4H sym4G sym4SG sym4SH (by simp [sym4H, sym4G]) (by simp [sym4SG]) (by simp [sym4SG, sym4SH])
  · exact bank_half coif1H coif1G coif1SG coif1SH (by simp [coif1H, coif1G]) (by simp [coif1SG]) (by simp [coif1SG, coif1SH])

/-! ### C50 -/

omit [Flt T] in
theorem padEven_length (x : List T) : (padEven x).length = 2 * ((x.length + 1) / 2) := by
  unfold padEven
  split
  · rename_i h
    cases hl : x.getLast? with
    | none => rw [List.getLast?_eq_none_iff] at hl; subst hl; simp at h
    | some v => simp only []; rw [List.length_append, List.length_singleton]; omega
  · omega

omit [Flt T] in
theorem evenLevels_succ (levels len : Nat) : EvenLevels (levels + 1) len ↔
    EvenLevels levels ((len + 1) / 2) ∧ (levels = 0 ∨ (len + 1) / 2 % 2 = 0) := by
  unfold EvenLevels
  cases levels with
  | zero => simp
  | succ l =>
    simp only [Nat.succ_ne_zero, false_or, Nat.add_sub_cancel]
    generalize (len + 1) / 2 = m
    rw [pow_succ]
    constructor
    · rintro ⟨c, hc⟩
      have e : m = 2 * (2 ^ l * c) := by rw [hc]; ring
      refine ⟨?_, by omega⟩
      rw [show (m + 1) / 2 = 2 ^ l * c by omega]; exact Dvd.intro _ rfl
    · rintro ⟨⟨c, hc⟩, hm⟩
      have : m = 2 * (2 ^ l * c) := by omega
      exact ⟨c, by rw [this]; ring⟩

omit [Flt T] in
/-- C50: for every transform pair with the length behaviour of `wavelets_total`, decomposing any signal over any number of
levels succeeds, and recomposing succeeds exactly when no odd length occurs strictly between the first and the last level,
then returning the length rounded up to even; otherwise it panics. -/
theorem multi_total {fwd : List T → Outcome (List T × List T)} {inv : List T → List T → Outcome (List T)}
    (hw : HalfBank fwd inv) (levels : Nat) (x : List T) :
    ∃ cur ds, multiForward fwd levels x = .ok (cur, ds) ∧ ds.length = levels ∧
      (EvenLevels levels x.length → ∃ y, multiInverse inv cur ds = .ok y ∧
        y.length = if levels = 0 then x.length else 2 * ((x.length + 1) / 2)) ∧
      (¬ EvenLevels levels x.length → multiInverse inv cur ds = .panic) := by
  induction levels generalizing x with
  | zero => exact ⟨x, [], rfl, rfl, fun _ => ⟨x, rfl, rfl⟩, fun h => absurd (Or.inl rfl) h⟩
  | succ l ih =>
    obtain ⟨a, d, e, ha, hd⟩ := hw.fwd_ok (padEven x)
    rw [padEven_length, Nat.mul_div_cancel_left _ (by decide)] at ha hd
    obtain ⟨cur, ds, e2, hds, hok, hpan⟩ := ih a
    refine ⟨cur, d :: ds, by rw [multiForward, e, Outcome.bind_ok]; simp only [e2]; rfl, by simp [hds], ?_, ?_⟩
    · intro hE
      obtain ⟨h1, h2⟩ := (evenLevels_succ l x.length).1 hE
      obtain ⟨y, ey, hy⟩ := hok (by rwa [ha])
      obtain ⟨z, ez, hz⟩ := hw.inv_ok y d (by rw [hy, hd, ha]; split <;> omega)
      refine ⟨z, ?_, ?_⟩
      · unfold multiInverse at ey ⊢
        rw [List.reverse_cons, List.foldlM_append, ey]
        simp [ez]
      · rw [hz, hy, ha, if_neg (Nat.succ_ne_zero l)]; split <;> omega
    · intro hE
      rw [evenLevels_succ] at hE
      unfold multiInverse at hok hpan ⊢
      rw [List.reverse_cons, List.foldlM_append]
      by_cases h1 : EvenLevels l ((x.length + 1) / 2)
      · obtain ⟨y, ey, hy⟩ := hok (by rwa [ha])
        rw [ey]
        have h2 : ¬ (l = 0 ∨ (x.length + 1) / 2 % 2 = 0) := fun h => hE ⟨h1, h⟩
        have hp := hw.inv_panic y d (by rw [hy, hd, ha, if_neg (by omega)]; omega)
        simp [hp]
      · rw [hpan (by rwa [ha])]; rfl

/-- The hypotheses of `multi_total` are met, and both of its cases occur: a signal of length 5 over two levels panics on
recomposition in any arithmetic, one of length 8 over three levels does not. -/
theorem haar_multi_len5_panics (x : List T) (hx : x.length = 5) :
    ∃ cur ds, multiForward haarForward 2 x = .ok (cur, ds) ∧ multiInverse haarInverse cur ds = .panic := by
  obtain ⟨cur, ds, e, _, _, hp⟩ := multi_total wavelets_total.1 2 x
  exact ⟨cur, ds, e, hp (by rw [hx]; unfold EvenLevels; decide)⟩

example : EvenLevels 3 8 ∧ EvenLevels 3 7 ∧ ¬ EvenLevels 3 6 ∧ ¬ EvenLevels 2 5 := by unfold EvenLevels; decide

end generic

section exact
variable [F : Flt ℝ]

omit F in
theorem two_lawful [F : Flt ℝ] (hF : Lawful F) : (two : ℝ) = 2 := by
  unfold two; rw [hF.lit]; norm_num

theorem haar_take (hF : Lawful F) (x : List ℝ) : ∃ a d, haarForward x = .ok (a, d) ∧
    a.length = x.length / 2 ∧ d.length = x.length / 2 ∧
    haarInverse a d = .ok (x.take (2 * (x.length / 2))) := by
  refine ⟨_, _, haarForward_ok x, tab_length _ _, tab_length _ _, ?_⟩
  rw [haarInverse_ok _ _ (by simp), tab_length]
  congr 1
  symm
  apply list_eq_tab' (by simp; omega)
  intro t ht
  rw [List.length_take] at ht
  rw [List.getElem_take, haarSyn, tab_getD (by omega), tab_getD (by omega)]
  have hx : ∀ k (h : k < x.length), x.getD k 0 = x[k] := fun k h => by simp [List.getD_eq_getElem?_getD, h]
  simp only [hF.add, hF.sub, hF.div, two_lawful hF, hF.zero]
  split
  · rename_i h
    rw [show 2 * (t / 2) = t by omega, hx t (by omega)]; ring
  · rename_i h
    rw [show 2 * (t / 2) + 1 = t by omega, hx t (by omega)]; ring

/-- C49: analysis followed by synthesis gives back every pair of samples; only the last sample of an odd-length signal is
lost. -/
theorem haar_roundtrip (hF : Lawful F) (x : List ℝ) : ∃ a d, haarForward x = .ok (a, d) ∧
    haarInverse a d = .ok (x.take (2 * (x.length / 2))) ∧
    (x.length % 2 = 0 → haarInverse a d = .ok x) := by
  obtain ⟨a, d, e, _, _, h⟩ := haar_take hF x
  refine ⟨a, d, e, h, fun h2 => ?_⟩
  rw [h, List.take_of_length_le (by omega)]

/-- C49: synthesis followed by analysis gives back the coefficients. -/
theorem haar_roundtrip_coeffs (hF : Lawful F) (a d : List ℝ) (h : a.length = d.length) :
    ∃ x, haarInverse a d = .ok x ∧ haarForward x = .ok (a, d) := by
  refine ⟨_, haarInverse_ok a d (by omega), ?_⟩
  rw [haarForward_ok, tab_length, Nat.mul_div_cancel_left _ (by decide)]
  simp only [Outcome.ok.injEq, Prod.mk.injEq]
  constructor
  · symm
    apply list_eq_tab
    intro i hi
    rw [tab_getD (by omega), tab_getD (by omega), haarSyn, haarSyn, if_pos (by omega), if_neg (by omega),
      show 2 * i / 2 = i by omega, show (2 * i + 1) / 2 = i by omega]
    simp only [hF.add, hF.sub, hF.div, two_lawful hF, List.getD_eq_getElem?_getD, List.getElem?_eq_getElem hi,
      Option.getD_some]
    ring
  · symm
    apply list_eq_tab' h.symm
    intro i hi
    rw [tab_getD (by omega), tab_getD (by omega), haarSyn, haarSyn, if_pos (by omega), if_neg (by omega),
      show 2 * i / 2 = i by omega, show (2 * i + 1) / 2 = i by omega]
    simp only [hF.add, hF.sub, hF.div, two_lawful hF, List.getD_eq_getElem?_getD, List.getElem?_eq_getElem hi,
      Option.getD_some]
    ring

example : ∃ x : List ℝ, x.length = 3 := ⟨[1, 2, 3], rfl⟩

/-- C50: whenever no odd length occurs strictly between the levels, the multi-level Haar round trip returns the signal,
followed by one repetition of the last sample when the length is odd. What is missing: it is false for the other lengths,
see `haar_multi_roundtrip_false`. -/
theorem haar_multi_roundtrip_partial (hF : Lawful F) (levels : Nat) (x : List ℝ) (h : EvenLevels levels x.length) :
    ∃ cur ds, multiForward haarForward levels x = .ok (cur, ds) ∧
      multiInverse haarInverse cur ds = .ok (if levels = 0 then x else padEven x) := by
  induction levels generalizing x with
  | zero => exact ⟨x, [], rfl, rfl⟩
  | succ l ih =>
    obtain ⟨h1, h2⟩ := (evenLevels_succ l x.length).1 h
    obtain ⟨a, d, e, ha, hd, hinv⟩ := haar_take hF (padEven x)
    rw [padEven_length, Nat.mul_div_cancel_left _ (by decide)] at ha hd hinv
    rw [List.take_of_length_le (by rw [padEven_length])] at hinv
    obtain ⟨cur, ds, e2, hok⟩ := ih a (by rwa [ha])
    have hok' : multiInverse haarInverse cur ds = .ok a := by
      rw [hok]
      split
      · rfl
      · rw [padEven, if_neg (by rw [ha]; omega)]
    refine ⟨cur, d :: ds, by rw [multiForward, e, Outcome.bind_ok]; simp only [e2]; rfl, ?_⟩
    unfold multiInverse at hok' ⊢
    rw [List.reverse_cons, List.foldlM_append, hok', if_neg (Nat.succ_ne_zero l)]
    simp [hinv]

omit F in
/-- `padEven x` starts with `x`. -/
theorem padEven_prefix (x : List ℝ) : x <+: padEven x := by
  unfold padEven
  split
  · cases x.getLast? <;> simp
  · simp

/-- C50 is false as stated: for every number of levels `≥ 2` there are signals whose own decomposition makes the
recomposition panic. -/
theorem haar_multi_roundtrip_false (levels : Nat) (h : 2 ≤ levels) :
    ∃ (x : List ℝ) (cur : List ℝ) (ds : List (List ℝ)), multiForward haarForward levels x = .ok (cur, ds) ∧
      multiInverse haarInverse cur ds = .panic := by
  obtain ⟨cur, ds, e, _, _, hp⟩ := multi_total wavelets_total.1 levels (List.replicate 5 (0 : ℝ))
  refine ⟨_, cur, ds, e, hp ?_⟩
  rw [List.length_replicate]
  rintro (h0 | h0)
  · omega
  · obtain ⟨m, rfl⟩ : ∃ m, levels = m + 2 := ⟨levels - 2, by omega⟩
    rw [show m + 2 - 1 = m + 1 by omega, pow_succ] at h0
    have : 2 ∣ (5 + 1) / 2 := (Dvd.intro_left _ rfl).trans h0
    omega

/-! ### C51 -/

theorem accS_real (hF : Lawful F) (f : Nat → ℝ) (n : Nat) : accS Flt.zero f n = ∑ k ∈ range n, f k := by
  induction n with
  | zero => simp [accS, hF.zero]
  | succ n ih => rw [accS, ih, hF.add, sum_range_succ]

theorem synV_inner (hF : Lawful F) (g h a d : List ℝ) (len t i k : Nat) (hk : k ≤ g.length) :
    synV g h a d len t (i * g.length + k) = synV g h a d len t (i * g.length) + ∑ k ∈ range k,
      if mirIdx len ((2 * i + k : Nat) : Int) = t then g.getD k 0 * a.getD i 0 + h.getD k 0 * d.getD i 0 else 0 := by
  induction k with
  | zero => simp
  | succ k ih =>
    rw [← Nat.add_assoc, synV]
    have e1 : (i * g.length + k) / g.length = i := by
      rw [Nat.mul_comm, Nat.mul_add_div (by omega), Nat.div_eq_of_lt (by omega), Nat.add_zero]
    have e2 : (i * g.length + k) % g.length = k := by
      rw [Nat.mul_comm, Nat.mul_add_mod, Nat.mod_eq_of_lt (by omega)]
    simp only [e1, e2, sum_range_succ, ih (by omega), hF.add, hF.mul, hF.zero]
    split <;> ring

theorem synV_real (hF : Lawful F) (g h a d : List ℝ) (len t n : Nat) :
    synV g h a d len t (n * g.length) = ∑ i ∈ range n, ∑ k ∈ range g.length,
      if mirIdx len ((2 * i + k : Nat) : Int) = t then g.getD k 0 * a.getD i 0 + h.getD k 0 * d.getD i 0 else 0 := by
  induction n with
  | zero => simp [synV, hF.zero]
  | succ n ih => rw [Nat.succ_mul, synV_inner hF _ _ _ _ _ _ _ _ (Nat.le_refl _), ih, sum_range_succ]

omit F in
theorem mirIdx_interior {len t i k L : Nat} (hk : k < L) (hi : 2 * i + 2 ≤ len) (ht : t + L ≤ len) (h2 : 2 ≤ L) :
    mirIdx len ((2 * i + k : Nat) : Int) = t ↔ 2 * i + k = t := by
  by_cases h : 2 * i + k < len
  · rw [mirIdx_self (by omega) h]
  · have e : mirIdx len ((2 * i + k : Nat) : Int) = 2 * (len - 1) - (2 * i + k) := by
      rw [← mirIdx_unique (by omega) ((2 * i + k : Nat) : Int) (2 * ((len : Int) - 1) - (2 * i + k : Nat))
        (by push_cast; omega) (by push_cast; omega) (Or.inr ⟨1, by ring⟩)]
      omega
    rw [e]; omega

/-- The synthesis of an interior sample. -/
theorem syn_interior (hF : Lawful F) (g h a d : List ℝ) (t : Nat) (h2 : 2 ≤ g.length)
    (ht0 : g.length ≤ t + 2) (ht : t + g.length ≤ a.length * 2) :
    synV g h a d (a.length * 2) t (a.length * g.length) = ∑ k ∈ range g.length,
      if k % 2 = t % 2 then g.getD k 0 * a.getD ((t - k) / 2) 0 + h.getD k 0 * d.getD ((t - k) / 2) 0 else 0 := by
  rw [synV_real hF, sum_comm]
  apply sum_congr rfl
  intro k hk
  rw [mem_range] at hk
  have hc : ∀ i ∈ range a.length, (if mirIdx (a.length * 2) ((2 * i + k : Nat) : Int) = t then
      g.getD k 0 * a.getD i 0 + h.getD k 0 * d.getD i 0 else 0) =
      if 2 * i + k = t then g.getD k 0 * a.getD i 0 + h.getD k 0 * d.getD i 0 else 0 := by
    intro i hi
    rw [mem_range] at hi
    simp only [mirIdx_interior hk (show 2 * i + 2 ≤ a.length * 2 by omega) ht h2]
  rw [sum_congr rfl hc]
  by_cases hp : k % 2 = t % 2
  · rw [if_pos hp, sum_eq_single_of_mem ((t - k) / 2) (by rw [mem_range]; omega)]
    · rw [if_pos (by omega)]
    · intro i _ hne
      rw [if_neg (by omega)]
  · rw [if_neg hp]
    apply sum_eq_zero
    intro i _
    rw [if_neg (by omega)]

/-- Reconstruction of an interior sample by any filter bank of this shape. -/
theorem bank_interior (hF : Lawful F) (h g sg sh x a d : List ℝ) (t : Nat) (h2 : 2 ≤ sg.length)
    (ha : a = tab (x.length / 2) fun i => ∑ j ∈ range sg.length, h.getD j 0 * x.getD (mirIdx x.length ((2 * i + j : Nat) : Int)) 0)
    (hd : d = tab (x.length / 2) fun i => ∑ j ∈ range sg.length, g.getD j 0 * x.getD (mirIdx x.length ((2 * i + j : Nat) : Int)) 0)
    (ht0 : sg.length ≤ t + 2) (ht : t + sg.length ≤ 2 * (x.length / 2)) :
    synV sg sh a d (a.length * 2) t (a.length * sg.length) = ∑ k ∈ range sg.length,
      if k % 2 = t % 2 then sg.getD k 0 * (∑ j ∈ range sg.length, h.getD j 0 * x.getD (t - k + j) 0) +
        sh.getD k 0 * (∑ j ∈ range sg.length, g.getD j 0 * x.getD (t - k + j) 0) else 0 := by
  have hal : a.length = x.length / 2 := by rw [ha, tab_length]
  rw [syn_interior hF sg sh a d t h2 ht0 (by omega)]
  apply sum_congr rfl
  intro k hk
  rw [mem_range] at hk
  by_cases hp : k % 2 = t % 2
  · rw [if_pos hp, if_pos hp, ha, hd, tab_getD (by omega), tab_getD (by omega)]
    have hm : ∀ j ∈ range sg.length, mirIdx x.length ((2 * ((t - k) / 2) + j : Nat) : Int) = t - k + j := by
      intro j hj
      rw [mem_range] at hj
      rw [mirIdx_self (by omega) (by omega)]; omega
    congr 2 <;> exact sum_congr rfl fun j hj => by rw [hm j hj]
  · rw [if_neg hp, if_neg hp]

theorem bankForward_real (hF : Lawful F) (h g x : List ℝ) (hg : h.length = g.length) : bankForward h g x =
    .ok (tab (x.length / 2) fun i => ∑ j ∈ range h.length, h.getD j 0 * x.getD (mirIdx x.length ((2 * i + j : Nat) : Int)) 0,
      tab (x.length / 2) fun i => ∑ j ∈ range h.length, g.getD j 0 * x.getD (mirIdx x.length ((2 * i + j : Nat) : Int)) 0) := by
  rw [bankForward_ok h g x (by omega)]
  simp only [accS_real hF]
  simp only [hF.mul, hF.zero]

/-- What synthesis after analysis returns at an interior position. -/
theorem bank_roundtrip_interior (hF : Lawful F) (h g sg sh x : List ℝ) (h2 : 2 ≤ sg.length) (hh : h.length = sg.length)
    (hg : g.length = sg.length) (hs : sh.length = sg.length) :
    ∃ a d y, bankForward h g x = .ok (a, d) ∧ bankInverse sg sh a d = .ok y ∧ y.length = 2 * (x.length / 2) ∧
      ∀ t, sg.length ≤ t + 2 → t + sg.length ≤ 2 * (x.length / 2) → y.getD t 0 = ∑ k ∈ range sg.length,
      if k % 2 = t % 2 then sg.getD k 0 * (∑ j ∈ range sg.length, h.getD j 0 * x.getD (t - k + j) 0) +
        sh.getD k 0 * (∑ j ∈ range sg.length, g.getD j 0 * x.getD (t - k + j) 0) else 0 := by
  refine ⟨_, _, _, bankForward_real hF h g x (by omega), bankInverse_ok sg sh _ _ (by omega) (by simp), by simp; omega, ?_⟩
  intro t h0 h1
  rw [tab_getD (by rw [tab_length]; omega)]
  rw [hh]
  exact bank_interior hF h g sg sh x _ _ t h2 rfl rfl h0 h1

omit F in
/-- The two parities of an interior position. -/
theorem interior_cases {t M : Nat} (h : 2 * M ≤ t + 2) (hM : 1 ≤ M) :
    ∃ s, t = 2 * s + (2 * M - 2) ∨ t = 2 * s + (2 * M - 1) :=
  ⟨(t + 2 - 2 * M) / 2, by omega⟩

/-- C51: with a four-tap orthogonal filter pair (`h` orthogonal to its even shifts and of norm 1, `g` its alternating
reverse) in place of the rounded constants of `db2`, every interior sample is reconstructed exactly, whatever the signal. -/
theorem four_tap_interior (hF : Lawful F) (h0 h1 h2 h3 : ℝ) (hn : h0 ^ 2 + h1 ^ 2 + h2 ^ 2 + h3 ^ 2 = 1)
    (ho : h0 * h2 + h1 * h3 = 0) (x : List ℝ) :
    ∃ a d y, bankForward [h0, h1, h2, h3] [h3, -h2, h1, -h0] x = .ok (a, d) ∧
      bankInverse [h0, h1, h2, h3] [h3, -h2, h1, -h0] a d = .ok y ∧ y.length = 2 * (x.length / 2) ∧
      ∀ t, 2 ≤ t → t + 4 ≤ 2 * (x.length / 2) → y.getD t 0 = x.getD t 0 := by
  obtain ⟨a, d, y, e1, e2, e3, h⟩ := bank_roundtrip_interior hF [h0, h1, h2, h3] [h3, -h2, h1, -h0] [h0, h1, h2, h3]
    [h3, -h2, h1, -h0] x (by simp) rfl rfl rfl
  refine ⟨a, d, y, e1, e2, e3, fun t ht0 ht => ?_⟩
  rw [h t (by simpa using ht0) (by simpa using ht)]
  obtain ⟨X, hX⟩ : ∃ X : Nat → ℝ, ∀ n, x.getD n 0 = X n := ⟨_, fun _ => rfl⟩
  simp only [hX]
  obtain ⟨s, hs | hs⟩ := interior_cases (M := 2) (t := t) (by omega) (by omega)
  · subst hs
    simp [sum_range_succ, Nat.add_mod, Nat.add_assoc]
    linear_combination X (2 * s + 2) * hn + (X (2 * s) + X (2 * s + 4)) * ho
  · subst hs
    simp [sum_range_succ, Nat.add_mod, Nat.add_assoc]
    linear_combination X (2 * s + 3) * hn + (X (2 * s + 1) + X (2 * s + 5)) * ho

example : (1 / 2 : ℝ) ^ 2 + (1 / 2) ^ 2 + (1 / 2) ^ 2 + (-1 / 2) ^ 2 = 1 ∧
    (1 / 2 : ℝ) * (1 / 2) + (1 / 2) * (-1 / 2) = 0 := by norm_num

/-- C51: the ideal Daubechies-2 taps `(1+√3)/4√2, (3+√3)/4√2, (3-√3)/4√2, (1-√3)/4√2` (written without denominators)
meet the hypotheses of `four_tap_interior`, and the constants of the source are these numbers to within `2·10⁻¹⁶`. -/
theorem db2_taps (hF : Lawful F) :
    let h0 := (Real.sqrt 2 + Real.sqrt 6) / 8
    let h1 := (3 * Real.sqrt 2 + Real.sqrt 6) / 8
    let h2 := (3 * Real.sqrt 2 - Real.sqrt 6) / 8
    let h3 := (Real.sqrt 2 - Real.sqrt 6) / 8
    (h0 ^ 2 + h1 ^ 2 + h2 ^ 2 + h3 ^ 2 = 1 ∧ h0 * h2 + h1 * h3 = 0) ∧
    (∀ k, k < 4 → |(db2H : List ℝ).getD k 0 - [h0, h1, h2, h3].getD k 0| ≤ 2 / 10 ^ 16) ∧
    (∀ k, k < 4 → |(db2G : List ℝ).getD k 0 - [h3, -h2, h1, -h0].getD k 0| ≤ 2 / 10 ^ 16) := by
  intro h0 h1 h2 h3
  have s2 : Real.sqrt 2 ^ 2 = 2 := Real.sq_sqrt (by norm_num)
  have s6 : Real.sqrt 6 ^ 2 = 6 := Real.sq_sqrt (by norm_num)
  have a1 : 141421356237309504880 / 10 ^ 20 ≤ Real.sqrt 2 := Real.le_sqrt_of_sq_le (by norm_num)
  have a2 : Real.sqrt 2 ≤ 141421356237309504881 / 10 ^ 20 := Real.sqrt_le_iff.2 ⟨by norm_num, by norm_num⟩
  have b1 : 244948974278317809819 / 10 ^ 20 ≤ Real.sqrt 6 := Real.le_sqrt_of_sq_le (by norm_num)
  have b2 : Real.sqrt 6 ≤ 244948974278317809820 / 10 ^ 20 := Real.sqrt_le_iff.2 ⟨by norm_num, by norm_num⟩
  refine ⟨⟨?_, ?_⟩, ?_, ?_⟩
  · simp only [h0, h1, h2, h3]; linear_combination (20 / 64) * s2 + (4 / 64) * s6
  · simp only [h0, h1, h2, h3]; linear_combination (6 / 64) * s2 - (2 / 64) * s6
  · intro k hk
    interval_cases k <;> simp [db2H, hF.lit, h0, h1, h2, h3] <;> rw [abs_le] <;> constructor <;> linarith
  · intro k hk
    interval_cases k <;> simp [db2G, hF.lit, h0, h1, h2, h3] <;> rw [abs_le] <;> constructor <;> linarith

/-- C51: `db2` reconstructs every interior sample up to `10⁻¹⁵` of the largest sample, because its taps are the decimal
approximations written in the source; with exact orthogonal taps the error is zero (`four_tap_interior`). What is missing
from C51: `db4`, `sym4` and `coif1` do not reconstruct, see `db4_blind`, `sym4_blind`, `coif1_blind`. -/
theorem db2_interior_partial (hF : Lawful F) (x : List ℝ) (B : ℝ) (hB : ∀ v ∈ x, |v| ≤ B) :
    ∃ a d y, db2Forward x = .ok (a, d) ∧ db2Inverse a d = .ok y ∧ y.length = 2 * (x.length / 2) ∧
      ∀ t, 2 ≤ t → t + 4 ≤ 2 * (x.length / 2) → |y.getD t 0 - x.getD t 0| ≤ B / 10 ^ 15 := by
  refine ⟨_, _, _, db2Forward_ok x, bankInverse_ok db2H db2G _ _ (by simp [db2H, db2G]) (by simp), by simp; omega, ?_⟩
  intro t ht0 ht
  have l1 : (db2H : List ℝ).length = 4 := rfl
  rw [tab_getD (by rw [tab_length]; omega)]
  rw [bank_interior hF db2H db2G db2H db2G x _ _ t (by omega)
    (by apply tab_congr; intro i _; rw [l1]; simp only [hF.add, hF.mul, hF.zero]; simp [sum_range_succ])
    (by apply tab_congr; intro i _; rw [l1]; simp only [hF.add, hF.mul, hF.zero]; simp [sum_range_succ])
    (by omega) (by omega), l1]
  have hBx : ∀ n, n < x.length → |x.getD n 0| ≤ B := by
    intro n hn
    have := hB x[n] (List.getElem_mem hn)
    simpa [List.getD_eq_getElem?_getD, hn] using this
  obtain ⟨X, hX⟩ : ∃ X : Nat → ℝ, ∀ n, x.getD n 0 = X n := ⟨_, fun _ => rfl⟩
  simp only [hX] at hBx ⊢
  obtain ⟨s, hs | hs⟩ := interior_cases (M := 2) (t := t) (by omega) (by omega)
  · subst hs
    simp [sum_range_succ, Nat.add_mod, Nat.add_assoc, db2H, db2G, hF.lit]
    have b0 := abs_le.1 (hBx (2 * s) (by omega))
    have b2 := abs_le.1 (hBx (2 * s + 2) (by omega))
    have b4 := abs_le.1 (hBx (2 * s + 4) (by omega))
    rw [abs_le]
    constructor <;> linarith
  · subst hs
    simp [sum_range_succ, Nat.add_mod, Nat.add_assoc, db2H, db2G, hF.lit]
    have b1 := abs_le.1 (hBx (2 * s + 1) (by omega))
    have b3 := abs_le.1 (hBx (2 * s + 3) (by omega))
    have b5 := abs_le.1 (hBx (2 * s + 5) (by omega))
    rw [abs_le]
    constructor <;> linarith

theorem db4_lens : (db4H : List ℝ).length = 8 ∧ (db4G : List ℝ).length = 8 ∧ (db4SG : List ℝ).length = 8 ∧
    (db4SH : List ℝ).length = 8 := by simp [db4H, db4G, db4SG, db4SH]

/-- C51, false for `db4`: the sample the inverse returns at an interior position does not depend on the sample the
forward transform got there, for any signal: replacing `x[t]` by anything leaves the reconstructed `y[t]` unchanged.
(The synthesis filters are not the time-reversed analysis filters.) -/
theorem db4_blind (hF : Lawful F) (x : List ℝ) (t : Nat) (v : ℝ) (ht0 : 6 ≤ t) (ht : t + 8 ≤ 2 * (x.length / 2)) :
    ∃ a d y a' d' y', db4Forward x = .ok (a, d) ∧ db4Inverse a d = .ok y ∧
      db4Forward (x.set t v) = .ok (a', d') ∧ db4Inverse a' d' = .ok y' ∧
      t < y.length ∧ y'.length = y.length ∧ y.getD t 0 = y'.getD t 0 := by
  obtain ⟨l1, l2, l3, l4⟩ := db4_lens
  obtain ⟨a, d, y, e1, e2, e3, h⟩ := bank_roundtrip_interior hF db4H db4G db4SG db4SH x (by omega) (by omega) (by omega)
    (by omega)
  obtain ⟨a', d', y', e1', e2', e3', h'⟩ := bank_roundtrip_interior hF db4H db4G db4SG db4SH (x.set t v) (by omega)
    (by omega) (by omega) (by omega)
  rw [List.length_set] at e3' h'
  refine ⟨a, d, y, a', d', y', e1, e2, e1', e2', by omega, by omega, ?_⟩
  rw [h t (by omega) (by omega), h' t (by omega) (by omega)]
  have hset : ∀ n, n ≠ t → (x.set t v).getD n 0 = x.getD n 0 := by
    intro n hn
    simp [List.getD_eq_getElem?_getD, List.getElem?_set_ne (Ne.symm hn)]
  obtain ⟨X, hX⟩ : ∃ X : Nat → ℝ, ∀ n, x.getD n 0 = X n := ⟨_, fun _ => rfl⟩
  obtain ⟨Y, hY⟩ : ∃ Y : Nat → ℝ, ∀ n, (x.set t v).getD n 0 = Y n := ⟨_, fun _ => rfl⟩
  simp only [hX, hY] at hset ⊢
  rw [l3]
  obtain ⟨s, hs | hs⟩ := interior_cases (M := 4) (t := t) (by omega) (by omega)
  · subst hs
    simp [sum_range_succ, Nat.add_mod, Nat.add_assoc, db4H, db4G, db4SG, db4SH, hF.lit]
    rw [hset (2 * s) (by omega), hset (2 * s + 1) (by omega), hset (2 * s + 2) (by omega), hset (2 * s + 3) (by omega), hset (2 * s + 4) (by omega), hset (2 * s + 5) (by omega), hset (2 * s + 7) (by omega), hset (2 * s + 8) (by omega), hset (2 * s + 9) (by omega), hset (2 * s + 10) (by omega), hset (2 * s + 11) (by omega), hset (2 * s + 12) (by omega), hset (2 * s + 13) (by omega)]
    ring
  · subst hs
    simp [sum_range_succ, Nat.add_mod, Nat.add_assoc, db4H, db4G, db4SG, db4SH, hF.lit]
    rw [hset (2 * s) (by omega), hset (2 * s + 1) (by omega), hset (2 * s + 2) (by omega), hset (2 * s + 3) (by omega), hset (2 * s + 4) (by omega), hset (2 * s + 5) (by omega), hset (2 * s + 6) (by omega), hset (2 * s + 8) (by omega), hset (2 * s + 9) (by omega), hset (2 * s + 10) (by omega), hset (2 * s + 11) (by omega), hset (2 * s + 12) (by omega), hset (2 * s + 13) (by omega)]
    ring

/-- C51 is false for `db4`: in every even or odd length with an interior, at every interior position, some signal is not
reconstructed. -/
theorem db4_not_reconstructing (hF : Lawful F) (len t : Nat) (ht0 : 6 ≤ t) (ht : t + 8 ≤ 2 * (len / 2)) :
    ∃ x : List ℝ, x.length = len ∧ ∃ a d y, db4Forward x = .ok (a, d) ∧ db4Inverse a d = .ok y ∧
      y.getD t 0 ≠ x.getD t 0 := by
  obtain ⟨a, d, y, a', d', y', e1, e2, e1', e2', _, _, h⟩ := db4_blind hF (List.replicate len 0) t 1 ht0
    (by rw [List.length_replicate]; exact ht)
  by_cases hy : y.getD t 0 = 0
  · refine ⟨_, by simp, a', d', y', e1', e2', ?_⟩
    rw [← h, hy]
    simp [List.getD_eq_getElem?_getD, show t < len by omega]
  · refine ⟨_, by simp, a, d, y, e1, e2, ?_⟩
    simpa [List.getD_eq_getElem?_getD, List.getElem?_replicate, show t < len by omega] using hy

theorem sym4_lens : (sym4H : List ℝ).length = 8 ∧ (sym4G : List ℝ).length = 8 ∧ (sym4SG : List ℝ).length = 8 ∧
    (sym4SH : List ℝ).length = 8 := by simp [sym4H, sym4G, sym4SG, sym4SH]

/-- C51, false for `sym4`: the sample the inverse returns at an interior position does not depend on the sample the
forward transform got there, for any signal: replacing `x[t]` by anything leaves the reconstructed `y[t]` unchanged.
(The synthesis filters are not the time-reversed analysis filters.) -/
theorem sym4_blind (hF : Lawful F) (x : List ℝ) (t : Nat) (v : ℝ) (ht0 : 6 ≤ t) (ht : t + 8 ≤ 2 * (x.length / 2)) :
    ∃ a d y a' d' y', sym4Forward x = .ok (a, d) ∧ sym4Inverse a d = .ok y ∧
      sym4Forward (x.set t v) = .ok (a', d') ∧ sym4Inverse a' d' = .ok y' ∧
      t < y.length ∧ y'.length = y.length ∧ y.getD t 0 = y'.getD t 0 := by
  obtain ⟨l1, l2, l3, l4⟩ := sym4_lens
  obtain ⟨a, d, y, e1, e2, e3, h⟩ := bank_roundtrip_interior hF sym4H sym4G sym4SG sym4SH x (by omega) (by omega) (by omega)
    (by omega)
  obtain ⟨a', d', y', e1', e2', e3', h'⟩ := bank_roundtrip_interior hF sym4H sym4G sym4SG sym4SH (x.set t v) (by omega)
    (by omega) (by omega) (by omega)
  rw [List.length_set] at e3' h'
  refine ⟨a, d, y, a', d', y', e1, e2, e1', e2', by omega, by omega, ?_⟩
  rw [h t (by omega) (by omega), h' t (by omega) (by omega)]
  have hset : ∀ n, n ≠ t → (x.set t v).getD n 0 = x.getD n 0 := by
    intro n hn
    simp [List.getD_eq_getElem?_getD, List.getElem?_set_ne (Ne.symm hn)]
  obtain ⟨X, hX⟩ : ∃ X : Nat → ℝ, ∀ n, x.getD n 0 = X n := ⟨_, fun _ => rfl⟩
  obtain ⟨Y, hY⟩ : ∃ Y : Nat → ℝ, ∀ n, (x.set t v).getD n 0 = Y n := ⟨_, fun _ => rfl⟩
  simp only [hX, hY] at hset ⊢
  rw [l3]
  obtain ⟨s, hs | hs⟩ := interior_cases (M := 4) (t := t) (by omega) (by omega)
  · subst hs
    simp [sum_range_succ, Nat.add_mod, Nat.add_assoc, sym4H, sym4G, sym4SG, sym4SH, hF.lit]
    rw [hset (2 * s) (by omega), hset (2 * s + 1) (by omega), hset (2 * s + 2) (by omega), hset (2 * s + 3) (by omega), hset (2 * s + 4) (by omega), hset (2 * s + 5) (by omega), hset (2 * s + 7) (by omega), hset (2 * s + 8) (by omega), hset (2 * s + 9) (by omega), hset (2 * s + 10) (by omega), hset (2 * s + 11) (by omega), hset (2 * s + 12) (by omega), hset (2 * s + 13) (by omega)]
    ring
  · subst hs
    simp [sum_range_succ, Nat.add_mod, Nat.add_assoc, sym4H, sym4G, sym4SG, sym4SH, hF.lit]
    rw [hset (2 * s) (by omega), hset (2 * s + 1) (by omega), hset (2 * s + 2) (by omega), hset (2 * s + 3) (by omega), hset (2 * s + 4) (by omega), hset (2 * s + 5) (by omega), hset (2 * s + 6) (by omega), hset (2 * s + 8) (by omega), hset (2 * s + 9) (by omega), hset (2 * s + 10) (by omega), hset (2 * s + 11) (by omega), hset (2 * s + 12) (by omega), hset (2 * s + 13) (by omega)]
    ring

/-- C51 is false for `sym4`: in every even or odd length with an interior, at every interior position, some signal is not
reconstructed. -/
theorem sym4_not_reconstructing (hF : Lawful F) (len t : Nat) (ht0 : 6 ≤ t) (ht : t + 8 ≤ 2 * (len / 2)) :
    ∃ x : List ℝ, x.length = len ∧ ∃ a d y, sym4Forward x = .ok (a, d) ∧ sym4Inverse a d = .ok y ∧
      y.getD t 0 ≠ x.getD t 0 := by
  obtain ⟨a, d, y, a', d', y', e1, e2, e1', e2', _, _, h⟩ := sym4_blind hF (List.replicate len 0) t 1 ht0
    (by rw [List.length_replicate]; exact ht)
  by_cases hy : y.getD t 0 = 0
  · refine ⟨_, by simp, a', d', y', e1', e2', ?_⟩
    rw [← h, hy]
    simp [List.getD_eq_getElem?_getD, show t < len by omega]
  · refine ⟨_, by simp, a, d, y, e1, e2, ?_⟩
    simpa [List.getD_eq_getElem?_getD, List.getElem?_replicate, show t < len by omega] using hy

theorem coif1_lens : (coif1H : List ℝ).length = 6 ∧ (coif1G : List ℝ).length = 6 ∧ (coif1SG : List ℝ).length = 6 ∧
    (coif1SH : List ℝ).length = 6 := by simp [coif1H, coif1G, coif1SG, coif1SH]

/-- C51, false for `coif1`: the sample the inverse returns at an interior position does not depend on the sample the
forward transform got there, for any signal: replacing `x[t]` by anything leaves the reconstructed `y[t]` unchanged.
(The synthesis filters are not the time-reversed analysis filters.) -/
theorem coif1_blind (hF : Lawful F) (x : List ℝ) (t : Nat) (v : ℝ) (ht0 : 4 ≤ t) (ht : t + 6 ≤ 2 * (x.length / 2)) :
    ∃ a d y a' d' y', coif1Forward x = .ok (a, d) ∧ coif1Inverse a d = .ok y ∧
      coif1Forward (x.set t v) = .ok (a', d') ∧ coif1Inverse a' d' = .ok y' ∧
      t < y.length ∧ y'.length = y.length ∧ y.getD t 0 = y'.getD t 0 := by
  obtain ⟨l1, l2, l3, l4⟩ := coif1_lens
  obtain ⟨a, d, y, e1, e2, e3, h⟩ := bank_roundtrip_interior hF coif1H coif1G coif1SG coif1SH x (by omega) (by omega) (by omega)
    (by omega)
  obtain ⟨a', d', y', e1', e2', e3', h'⟩ := bank_roundtrip_interior hF coif1H coif1G coif1SG coif1SH (x.set t v) (by omega)
    (by omega) (by omega) (by omega)
  rw [List.length_set] at e3' h'
  refine ⟨a, d, y, a', d', y', e1, e2, e1', e2', by omega, by omega, ?_⟩
  rw [h t (by omega) (by omega), h' t (by omega) (by omega)]
  have hset : ∀ n, n ≠ t → (x.set t v).getD n 0 = x.getD n 0 := by
    intro n hn
    simp [List.getD_eq_getElem?_getD, List.getElem?_set_ne (Ne.symm hn)]
  obtain ⟨X, hX⟩ : ∃ X : Nat → ℝ, ∀ n, x.getD n 0 = X n := ⟨_, fun _ => rfl⟩
  obtain ⟨Y, hY⟩ : ∃ Y : Nat → ℝ, ∀ n, (x.set t v).getD n 0 = Y n := ⟨_, fun _ => rfl⟩
  simp only [hX, hY] at hset ⊢
  rw [l3]
  obtain ⟨s, hs | hs⟩ := interior_cases (M := 3) (t := t) (by omega) (by omega)
  · subst hs
    simp [sum_range_succ, Nat.add_mod, Nat.add_assoc, coif1H, coif1G, coif1SG, coif1SH, hF.lit]
    rw [hset (2 * s) (by omega), hset (2 * s + 1) (by omega), hset (2 * s + 2) (by omega), hset (2 * s + 3) (by omega), hset (2 * s + 5) (by omega), hset (2 * s + 6) (by omega), hset (2 * s + 7) (by omega), hset (2 * s + 8) (by omega), hset (2 * s + 9) (by omega)]
    ring
  · subst hs
    simp [sum_range_succ, Nat.add_mod, Nat.add_assoc, coif1H, coif1G, coif1SG, coif1SH, hF.lit]
    rw [hset (2 * s) (by omega), hset (2 * s + 1) (by omega), hset (2 * s + 2) (by omega), hset (2 * s + 3) (by omega), hset (2 * s + 4) (by omega), hset (2 * s + 6) (by omega), hset (2 * s + 7) (by omega), hset (2 * s + 8) (by omega), hset (2 * s + 9) (by omega)]
    ring

/-- C51 is false for `coif1`: in every even or odd length with an interior, at every interior position, some signal is not
reconstructed. -/
theorem coif1_not_reconstructing (hF : Lawful F) (len t : Nat) (ht0 : 4 ≤ t) (ht : t + 6 ≤ 2 * (len / 2)) :
    ∃ x : List ℝ, x.length = len ∧ ∃ a d y, coif1Forward x = .ok (a, d) ∧ coif1Inverse a d = .ok y ∧
      y.getD t 0 ≠ x.getD t 0 := by
  obtain ⟨a, d, y, a', d', y', e1, e2, e1', e2', _, _, h⟩ := coif1_blind hF (List.replicate len 0) t 1 ht0
    (by rw [List.length_replicate]; exact ht)
  by_cases hy : y.getD t 0 = 0
  · refine ⟨_, by simp, a', d', y', e1', e2', ?_⟩
    rw [← h, hy]
    simp [List.getD_eq_getElem?_getD, show t < len by omega]
  · refine ⟨_, by simp, a, d, y, e1, e2, ?_⟩
    simpa [List.getD_eq_getElem?_getD, List.getElem?_replicate, show t < len by omega] using hy

/-- The interior is not empty: length 16 with eight taps, length 8 with four. -/
example : (6 ≤ 7 ∧ 7 + 8 ≤ 2 * (16 / 2)) ∧ (2 ≤ 3 ∧ 3 + 4 ≤ 2 * (8 / 2)) := by decide

end exact

end Kofft.Props
