import Verif.Proof.BorrowBad
/-
The programs of `Model/Borrow.lean`: the number of passes, and which calls follow the rules.
-/
namespace Kofft.Borrow
open Kofft.Spec.Borrow

/-! ### The passes -/

theorem passList_pow (K : Nat) : ∀ (d fuel p : Nat), p + d = K → d < fuel →
    (passList (2 ^ K) fuel (2 ^ p) (2 ^ d)).length = d ∧ ∀ q ∈ passList (2 ^ K) fuel (2 ^ p) (2 ^ d), 1 ≤ q.1
  | 0, fuel + 1, p, h, _ => by
    obtain rfl : p = K := by omega
    simp [passList]
  | d + 1, fuel + 1, p, h, hf => by
    have hlt : 2 ^ p < 2 ^ K := Nat.pow_lt_pow_right (by norm_num) (by omega)
    have hd : 2 ^ (d + 1) / 2 = 2 ^ d := by rw [pow_succ]; omega
    obtain ⟨h1, h2⟩ := passList_pow K d fuel (p + 1) (by omega) (by omega)
    rw [passList, if_pos hlt, hd, ← pow_succ]
    refine ⟨by rw [List.length_cons, h1], fun q hq => ?_⟩
    rcases List.mem_cons.mp hq with rfl | hq
    · exact Nat.one_le_two_pow
    · exact h2 q hq

theorem passes_length (K : Nat) : (passes (2 ^ K)).length = K :=
  (passList_pow K K (2 ^ K + 1) 0 (by omega) (by have := Nat.lt_two_pow_self (n := K); omega)).1

theorem passes_pos (K : Nat) : ∀ q ∈ passes (2 ^ K), 1 ≤ q.1 :=
  (passList_pow K K (2 ^ K + 1) 0 (by omega) (by have := Nat.lt_two_pow_self (n := K); omega)).2

theorem srcAfter_pow (b : Bool) (K : Nat) : srcAfter b (passes (2 ^ K)) = if K % 2 = 0 then b else !b := by
  rw [srcAfter, passes_length]

/-- The first two passes. -/
theorem passes_two {n : Nat} (h : 4 ≤ n) : ∃ ps, passes n = (1, n / 2) :: (2, n / 2 / 2) :: ps := by
  obtain ⟨m, rfl⟩ : ∃ m, n = m + 2 := ⟨n - 2, by omega⟩
  refine ⟨passList (m + 2) (m + 1) (2 * 2) ((m + 2) / 2 / 2), ?_⟩
  rw [passes, passList, if_pos (by omega), passList, if_pos (by omega)]

/-! ### The start -/

theorem stacked_start : SG [] [.owner] (Stacked.start Ptr.owner) :=
  ⟨⟨by simp [Stacked.start], by simp [Stacked.start]⟩, [], [⟨.unique, 0⟩], [⟨.unique, 0⟩], rfl, List.Sublist.refl _,
    .cons ⟨by simp [Stacked.start, Env.start], by simp⟩ .nil, by simp⟩

theorem tree_start : TG [] [.owner] (Tree.start Ptr.owner) := by
  refine ⟨⟨?_, ?_, ?_, ?_⟩, [(0, [])], .cons ⟨by simp [Tree.start, Env.start], by simp [Tree.start, sk]⟩ .nil, by simp, ?_, by simp⟩
  all_goals simp [Tree.start, sk, writable]

theorem stacked_valid {n : Nat} {es : Evs} (h : ∀ i, Goes (stackedRules i) [.owner] [.owner] es) :
    Stacked.Valid n Ptr.owner es := by
  intro i _
  obtain ⟨st, e, -⟩ := h i [] _ stacked_start
  rw [stacked_run_eq, e]
  rfl

theorem tree_valid {n : Nat} {es : Evs} (h : ∀ i, Goes (treeRules i) [.owner] [.owner] es) :
    Tree.Valid n Ptr.owner es := by
  intro i _
  obtain ⟨st, e, -⟩ := h i [] _ tree_start
  rw [tree_run_eq, e]
  rfl

theorem stacked_invalid {n : Nat} (hn : 0 < n) {es : Evs} (h : runs (Stacked.step 0) (Stacked.start Ptr.owner) es = none) :
    ¬ Stacked.Valid n Ptr.owner es := by
  intro hv
  have := hv 0 hn
  rw [stacked_run_eq, h] at this
  exact absurd this (by simp)

theorem tree_invalid {n : Nat} (hn : 0 < n) {es : Evs} (h : runs (Tree.step 0) (Tree.start Ptr.owner) es = none) :
    ¬ Tree.Valid n Ptr.owner es := by
  intro hv
  have := hv 0 hn
  rw [tree_run_eq, h] at this
  exact absurd this (by simp)

/-! ### Two mutable pointers used for different elements, under Tree Borrows -/
section
open Tree

theorem TG.extend {cs ws env next ns} (h : TG cs ws ⟨env, next, ns⟩) {b : Ptr} (hb : b ∉ ws) {p : Nat × List Nat}
    (hp : p ∈ sk ns) (q : Tree.Perm) : TG [] ws ⟨env.set b next, next + 1, ⟨next, p.1 :: p.2, q⟩ :: ns⟩ := by
  obtain ⟨hw, ts, hf, hpw, hwr, -⟩ := h
  have hsk : sk (⟨next, p.1 :: p.2, q⟩ :: ns) = (next, p.1 :: p.2) :: sk ns := rfl
  refine ⟨hw.push hp, ts, forall₂_tset hb (fun r hr => by rw [hsk]; exact List.mem_cons_of_mem _ hr) hf, hpw, ?_, by simp⟩
  intro r hr nd hn hm
  have hrs : r ∈ sk ns := (mem_right hf hr).elim fun _ h => h.2
  rcases List.mem_cons.mp hn with rfl | hn
  · rcases List.mem_cons.mp hm with e | hm
    · exact absurd e (hw.lt r hrs).ne'
    · exact absurd (hw.ltAbove r hrs _ hm) (Nat.lt_irrefl _)
  · exact hwr r hr nd hn hm

theorem tree_mut2 {i : Nat} {cs v vs} {a b : Ptr} {st : Tree.State Ptr} (h : TG cs (v :: vs) st) (ha : a ∉ v :: vs)
    (hb : b ∉ v :: vs) (hab : a ≠ b) : ∃ st2, runs (Tree.step i) st [.mut v a, .mut v b] = some st2 ∧
      TG [] (a :: v :: vs) st2 ∧ TG [] (b :: v :: vs) st2 := by
  obtain ⟨env, next, ns⟩ := st
  have hav : v ≠ a := by rintro rfl; simp at ha
  obtain ⟨p, hv, hp, ha1, hg1⟩ := h.access false
  have e1 : Tree.step i ⟨env, next, ns⟩ (.mut v a) =
      some ⟨env.set a next, next + 1, ⟨next, p.1 :: p.2, .reserved⟩ :: ns.map (upd false (p.1 :: p.2))⟩ := by
    simp [Tree.step, hv, retag, chainOf_eq h.1 hp, ha1]
  have g1 := (hg1.push ha hv (by rw [sk_upd]; exact hp) .reserved).1 trivial
  have g1' := (treeRules i).drop (show (treeRules i).G [] _ _ from g1)
  obtain ⟨p2, hv2, hp2, ha2, hg2⟩ := TG.access g1' false
  have hvv : p2.1 = p.1 := by
    have : env.set a next v = some p.1 := by simp [Env.set, hav, hv]
    exact Option.some.inj (hv2.symm.trans this)
  have hsk : sk (⟨next, p.1 :: p.2, .reserved⟩ :: ns.map (upd false (p.1 :: p.2))) = (next, p.1 :: p.2) :: sk ns := by
    rw [← sk_upd false (p.1 :: p.2) ns]; rfl
  obtain rfl : p2 = p := Prod.ext hvv (g1.1.uniq p2 hp2 p (by simp only [hsk]; exact List.mem_cons_of_mem _ hp) hvv)
  have hnot : next ∉ p2.1 :: p2.2 := by
    intro hm
    rcases List.mem_cons.mp hm with e | hm
    · exact absurd e (h.1.lt p2 hp).ne'
    · exact absurd (h.1.ltAbove p2 hp _ hm) (Nat.lt_irrefl _)
  set ns1 := ns.map (upd false (p2.1 :: p2.2)) with hns1
  set N : Node := ⟨next, p2.1 :: p2.2, .reserved⟩ with hN
  have e2 : Tree.step i ⟨env.set a next, next + 1, N :: ns1⟩ (.mut v b) =
      some ⟨(env.set a next).set b (next + 1), next + 1 + 1, ⟨next + 1, p2.1 :: p2.2, .reserved⟩ ::
        (N :: ns1).map (upd false (p2.1 :: p2.2))⟩ := by
    simp only [Tree.step, hv2, retag, chainOf_eq g1.1 hp2, ha2, Option.bind_eq_bind, Option.bind_some]
  have hpk : p2 ∈ sk ((N :: ns1).map (upd false (p2.1 :: p2.2))) := by rw [sk_upd]; exact hp2
  refine ⟨_, by simp only [runs, e1, Option.bind_some, e2], ?_, (hg2.push hb hv2 hpk .reserved).1 trivial⟩
  refine TG.extend (cs := []) ?_ (by simp only [List.mem_cons, not_or] at hb ⊢; exact ⟨Ne.symm hab, hb⟩) hpk .reserved
  obtain ⟨hw, ts, hf, hpw, hwr, -⟩ := hg2
  cases hf with
  | @cons _ p' _ ts h1 h2 =>
    have ep : p'.1 = p2.1 := Option.some.inj (h1.1.symm.trans hv2)
    obtain rfl : p' = p2 := Prod.ext ep (hw.uniq _ h1.2 _ hpk ep)
    refine ⟨hw, (next, p'.1 :: p'.2) :: p' :: ts, .cons ⟨by simp [Env.set], ?_⟩ (.cons h1 h2), ?_, ?_, by simp⟩
    · show _ ∈ sk ((N :: ns1).map (upd false (p'.1 :: p'.2)))
      rw [sk_upd, hsk]
      simp
    · refine List.pairwise_cons.mpr ⟨fun r hr => List.mem_cons_of_mem _ ?_, hpw⟩
      rcases List.mem_cons.mp hr with rfl | hr
      · simp
      · exact (List.pairwise_cons.mp hpw).1 r hr
    · intro r hr nd hn hm
      rcases List.mem_cons.mp hr with rfl | hr
      · rcases List.mem_cons.mp hm with e | hm
        · have hn' : nd ∈ (N :: ns1).map (upd false (p'.1 :: p'.2)) := hn
          rw [List.map_cons] at hn'
          rcases List.mem_cons.mp hn' with rfl | hn'
          · simp [upd, hN, hnot, foreign, writable]
          · exfalso
            obtain ⟨x, hx, rfl⟩ := List.mem_map.mp hn'
            obtain ⟨y, hy, rfl⟩ := List.mem_map.mp hx
            have := h.1.lt (y.tag, y.above) (List.mem_map_of_mem (f := fun nd : Node => (nd.tag, nd.above)) hy)
            simp only [upd] at e this
            omega
        · exact hwr p' (by simp) nd hn hm
      · exact hwr r hr nd hn hm

theorem tree_writes {i : Nat} {vs} {x y : Ptr} {es : Evs}
    (h : ∀ e ∈ es, ∃ z j, e = .write z j ∧ (z = x ∨ z = y) ∧ (j = i → z = x)) :
    ∀ st, TG [] (x :: vs) st → (∃ t, st.env y = some t) →
      ∃ st', runs (Tree.step i) st es = some st' ∧ TG [] (x :: vs) st' := by
  induction es with
  | nil => exact fun st g _ => ⟨st, rfl, g⟩
  | cons e es ih =>
    intro st g hy
    obtain ⟨z, j, rfl, hz, hj⟩ := h e (by simp)
    have hrest := ih (fun e he => h e (List.mem_cons_of_mem _ he))
    rcases hz with rfl | rfl
    · obtain ⟨s1, e1, g1⟩ := (treeRules i).write j (show (treeRules i).G [] _ st from g)
      have henv : s1.env = st.env := by
        rcases tstep_shape e1 with ⟨-, h2 | ⟨_, _, _, _, h3, _⟩, -⟩ | ⟨_, _, _, _, h0, _⟩
        · exact h2
        · simp at h3
        · simp [assigns] at h0
      obtain ⟨s2, e2, g2⟩ := hrest s1 g1 (by rw [henv]; exact hy)
      exact ⟨s2, by rw [runs, e1]; exact e2, g2⟩
    · by_cases hji : j = i
      · obtain rfl := hj hji
        obtain ⟨s1, e1, g1⟩ := (treeRules i).write j (show (treeRules i).G [] _ st from g)
        have henv : s1.env = st.env := by
          rcases tstep_shape e1 with ⟨-, h2 | ⟨_, _, _, _, h3, _⟩, -⟩ | ⟨_, _, _, _, h0, _⟩
          · exact h2
          · simp at h3
          · simp [assigns] at h0
        obtain ⟨s2, e2, g2⟩ := hrest s1 g1 (by rw [henv]; exact hy)
        exact ⟨s2, by rw [runs, e1]; exact e2, g2⟩
      · obtain ⟨t, ht⟩ := hy
        obtain ⟨s2, e2, g2⟩ := hrest st g ⟨t, ht⟩
        refine ⟨s2, ?_, g2⟩
        rw [runs]
        simp [Tree.step, ht, hji, e2]

theorem TG.env_some {cs v vs st} (h : TG cs (v :: vs) st) : ∃ t, st.env v = some t := by
  obtain ⟨_, ts, hf, -⟩ := h
  cases hf with
  | cons h1 _ => exact ⟨_, h1.1⟩

theorem tree_cxDst {i : Nat} {vs : List Ptr} (h0 : Ptr.tmp0 ∉ Ptr.cur :: vs) (h1 : Ptr.tmp1 ∉ Ptr.cur :: vs)
    {p : Nat × Nat} (hp : 1 ≤ p.1) : Goes (treeRules i) (.cur :: vs) (.cur :: vs) (cxDst p) := by
  refine goes_flatMap fun k _ => ?_
  intro cs st g
  obtain ⟨s1, e1, g1, g2⟩ := tree_mut2 (i := i) (show TG cs (.cur :: vs) st from g) h0 h1 (by simp)
  rw [runs_append, e1]
  have hdis : ∀ j j', j < p.2 → (k + p.1) * p.2 + j' ≠ k * p.2 + j := by
    intro j j' hj e
    have : k * p.2 + p.2 ≤ (k + p.1) * p.2 := by
      calc k * p.2 + p.2 = (k + 1) * p.2 := by ring
        _ ≤ (k + p.1) * p.2 := Nat.mul_le_mul_right _ (by omega)
    omega
  by_cases hi : ∃ j < p.2, k * p.2 + j = i
  · obtain ⟨j0, hj0, rfl⟩ := hi
    obtain ⟨s2, e2, g3⟩ := tree_writes (x := .tmp0) (y := .tmp1) (vs := .cur :: vs) (es := (List.range p.2).flatMap fun j =>
      [.write .tmp0 (k * p.2 + j), .write .tmp1 ((k + p.1) * p.2 + j)]) (i := k * p.2 + j0) (by
        intro e he
        obtain ⟨j, hj, he⟩ := List.mem_flatMap.mp he
        simp only [List.mem_cons, List.not_mem_nil, or_false] at he
        rcases he with rfl | rfl
        · exact ⟨_, _, rfl, .inl rfl, fun _ => rfl⟩
        · exact ⟨_, _, rfl, .inr rfl, fun e => absurd e (hdis j0 j hj0)⟩) s1 g1 g2.env_some
    exact ⟨s2, e2, (treeRules _).drop (show (treeRules _).G [] _ s2 from g3)⟩
  · obtain ⟨s2, e2, g3⟩ := tree_writes (x := .tmp1) (y := .tmp0) (vs := .cur :: vs) (es := (List.range p.2).flatMap fun j =>
      [.write .tmp0 (k * p.2 + j), .write .tmp1 ((k + p.1) * p.2 + j)]) (i := i) (by
        intro e he
        obtain ⟨j, hj, he⟩ := List.mem_flatMap.mp he
        simp only [List.mem_cons, List.not_mem_nil, or_false] at he
        rcases he with rfl | rfl
        · exact ⟨_, _, rfl, .inr rfl, fun e => absurd ⟨j, List.mem_range.mp hj, e⟩ hi⟩
        · exact ⟨_, _, rfl, .inl rfl, fun _ => rfl⟩) s1 g2 g1.env_some
    exact ⟨s2, e2, (treeRules _).drop (show (treeRules _).G [] _ s2 from g3)⟩

end

/-! ### What the passes assign -/

def OnlyTmp (es : Evs) : Prop := ∀ e ∈ es, ∀ v, assigns e = some v → v = .tmp0 ∨ v = .tmp1

theorem OnlyTmp.append {es fs : Evs} (h : OnlyTmp es) (h' : OnlyTmp fs) : OnlyTmp (es ++ fs) := fun e he =>
  (List.mem_append.mp he).elim (h e) (h' e)

theorem onlyTmp_flatMap {α : Type} {l : List α} {f : α → Evs} (h : ∀ a ∈ l, OnlyTmp (f a)) : OnlyTmp (l.flatMap f) := by
  intro e he
  obtain ⟨a, ha, he⟩ := List.mem_flatMap.mp he
  exact h a ha e he

theorem onlyTmp_readAt (l n2 j i : Nat) : OnlyTmp (readAt l n2 j i) := by
  intro e he
  rw [readAt] at he
  split at he <;> simp only [List.mem_cons, List.not_mem_nil, or_false] at he
  · rcases he with rfl | rfl <;> simp [assigns]
  · subst he; simp [assigns]

theorem onlyTmp_writeAt (l n2 j i : Nat) : OnlyTmp (writeAt l n2 j i) := by
  intro e he
  rw [writeAt] at he
  split at he <;> simp only [List.mem_cons, List.not_mem_nil, or_false] at he
  · rcases he with rfl | rfl <;> simp [assigns]
  · subst he; simp [assigns]

theorem onlyTmp_simdSrc (l : Nat) (p : Nat × Nat) : OnlyTmp (simdSrc l p) :=
  onlyTmp_flatMap fun _ _ => onlyTmp_flatMap fun _ _ => (onlyTmp_readAt _ _ _ _).append (onlyTmp_readAt _ _ _ _)

theorem onlyTmp_simdDst (l : Nat) (p : Nat × Nat) : OnlyTmp (simdDst l p) :=
  onlyTmp_flatMap fun _ _ => onlyTmp_flatMap fun _ _ => (onlyTmp_writeAt _ _ _ _).append (onlyTmp_writeAt _ _ _ _)

theorem onlyTmp_cxSrc (p : Nat × Nat) : OnlyTmp (cxSrc p) := by
  refine onlyTmp_flatMap fun k _ => OnlyTmp.append ?_ (onlyTmp_flatMap fun j _ => ?_)
  · intro e he
    simp only [List.mem_cons, List.not_mem_nil, or_false] at he
    rcases he with rfl | rfl <;> simp [assigns]
  · intro e he
    simp only [List.mem_cons, List.not_mem_nil, or_false] at he
    rcases he with rfl | rfl <;> simp [assigns]

theorem onlyTmp_cxDst (p : Nat × Nat) : OnlyTmp (cxDst p) := by
  refine onlyTmp_flatMap fun k _ => OnlyTmp.append ?_ (onlyTmp_flatMap fun j _ => ?_)
  · intro e he
    simp only [List.mem_cons, List.not_mem_nil, or_false] at he
    rcases he with rfl | rfl <;> simp [assigns]
  · intro e he
    simp only [List.mem_cons, List.not_mem_nil, or_false] at he
    rcases he with rfl | rfl <;> simp [assigns]

theorem onlyTmp_alternate {s d : Nat × Nat → Evs} (hs : ∀ p, OnlyTmp (s p)) (hd : ∀ p, OnlyTmp (d p)) :
    ∀ (b : Bool) (ps : List (Nat × Nat)), OnlyTmp (alternate s d b ps)
  | _, [] => by intro e he; simp [alternate] at he
  | b, p :: ps => by
    refine OnlyTmp.append ?_ (onlyTmp_alternate hs hd (!b) ps)
    cases b
    · exact hd p
    · exact hs p

theorem OnlyTmp.ne {es : Evs} (h : OnlyTmp es) {v : Ptr} (h0 : v ≠ .tmp0) (h1 : v ≠ .tmp1) : ∀ e ∈ es, assigns e ≠ some v := by
  intro e he ha
  rcases h e he v ha with rfl | rfl
  · exact h0 rfl
  · exact h1 rfl

/-! ### `fft_split_simd` with an odd number of passes -/
section
variable {vs : List Ptr} {caller : Ptr} {cs : List Ptr} {lanes n : Nat}

theorem stacked_simdArg_bad (ho : Outside (caller :: vs)) {st : Stacked.State Ptr} (hg : SG cs (caller :: vs) st) (hn : 0 < n)
    (hs : srcAfter true (passes n) = false) : runs (Stacked.step 0) st (simdArg lanes caller n) = none := by
  rw [simdArg, if_neg (by simp [hs])]
  exact stacked_arg_bad ho hg ((onlyTmp_alternate (onlyTmp_simdSrc lanes) (onlyTmp_simdDst lanes) _ _).ne (by simp) (by simp)) hn

theorem stacked_cxArg_bad_odd (ho : Outside (caller :: vs)) {st : Stacked.State Ptr} (hg : SG cs (caller :: vs) st) (hn : 0 < n)
    (hs : srcAfter true (passes n) = false) : runs (Stacked.step 0) st (cxArg caller n) = none := by
  rw [cxArg, if_neg (by simp [hs])]
  exact stacked_arg_bad ho hg ((onlyTmp_alternate onlyTmp_cxSrc onlyTmp_cxDst _ _).ne (by simp) (by simp)) hn

theorem range_pos {m : Nat} (h : 0 < m) : ∃ l, List.range m = 0 :: l := by
  obtain ⟨k, rfl⟩ : ∃ k, m = k + 1 := ⟨m - 1, by omega⟩
  exact ⟨_, List.range_succ_eq_map⟩

/-- The interleaved code takes two mutable pointers to its destination in the second pass, whatever the length. -/
theorem stacked_cxArg_bad (ho : Outside (caller :: vs)) {st : Stacked.State Ptr} (hg : SG cs (caller :: vs) st) (hn : 4 ≤ n) :
    runs (Stacked.step 0) st (cxArg caller n) = none := by
  obtain ⟨ps, hps⟩ := passes_two hn
  obtain ⟨l, hl⟩ := range_pos (m := n / 2 / 2) (by omega)
  rw [cxArg, List.append_assoc]
  obtain ⟨s1, e1, -, g1, j1⟩ := stacked_prologue (i := 0) ho hg
  rw [runs_append, e1]
  show runs _ s1 _ = none
  apply runs_none_left
  rw [hps, alternate]
  obtain ⟨s2, e2, g2⟩ := goes_cxSrc (R := stackedRules 0) (tmp0_out ho) (tmp1_out ho) (1, n / 2) [] s1 g1
  have j2 : SJ .cur s2 := runs_inv (P := SJ .cur) (fun e he s s' hb hs =>
    SJ.step hb hs ((onlyTmp_cxSrc (1, n / 2)).ne (by simp) (by simp) e he)) j1 e2
  rw [if_pos rfl, runs_append, e2]
  show runs _ s2 _ = none
  rw [alternate, if_neg (by simp)]
  apply runs_none_left
  rw [cxDst, show List.range (2, n / 2 / 2).1 = [0, 1] from rfl, List.flatMap_cons]
  apply runs_none_left
  rw [show List.range (2, n / 2 / 2).2 = 0 :: l from hl, List.flatMap_cons]
  have := stacked_two_bad (show SG [] _ s2 from g2) j2 (tmp0_out ho) (show Ptr.tmp1 ≠ .tmp0 by simp)
    (.write .tmp1 ((0 + 2) * (n / 2 / 2) + 0) :: l.flatMap fun j =>
      [.write .tmp0 (0 * (n / 2 / 2) + j), .write .tmp1 ((0 + 2) * (n / 2 / 2) + j)]) 0
  simpa using this

theorem tree_writeAt_bad {st st' : Tree.State Ptr} (n2 j : Nat) (hj : TJ .outPtr .cur st)
    (h : runs (Tree.step 0) st (writeAt lanes n2 j 0) = some st') : TBad .outPtr st' := by
  rw [writeAt] at h
  split at h
  · simp only [runs, Option.bind_eq_some_iff] at h
    obtain ⟨s1, e1, s2, e2, e⟩ := h
    obtain rfl := Option.some.inj e
    exact (hj.mut e1 (by simp)).write e2
  · simp only [runs, Option.bind_eq_some_iff] at h
    obtain ⟨s1, e1, e⟩ := h
    obtain rfl := Option.some.inj e
    exact hj.write e1

theorem tree_simdArg_bad (ho : Outside (caller :: vs)) {st : Tree.State Ptr} (hg : TG cs (caller :: vs) st) (hn : 4 ≤ n)
    (hs : srcAfter true (passes n) = false) : runs (Tree.step 0) st (simdArg lanes caller n) = none := by
  obtain ⟨ps, hps⟩ := passes_two hn
  obtain ⟨l, hl⟩ := range_pos (m := n / 2 / 2) (by omega)
  rw [simdArg, if_neg (by simp [hs]), hps, alternate, alternate, if_pos rfl, if_neg (by simp), simdDst,
    show List.range (2, n / 2 / 2).1 = [0, 1] from rfl, List.flatMap_cons,
    show List.range (2, n / 2 / 2).2 = 0 :: l from hl, List.flatMap_cons]
  simp only [List.append_assoc]
  have hpost : ∀ {es : Evs}, OnlyTmp es → ∀ e ∈ es, assigns e ≠ some Ptr.outPtr := fun h => h.ne (by simp) (by simp)
  have := tree_arg_bad (cs := cs) ho hg (pre := simdSrc lanes (1, n / 2)) (w := writeAt lanes (n / 2 / 2) 0 (2 * 0 * (n / 2 / 2) * 0 + 0))
    (post := writeAt lanes (n / 2 / 2) 0 ((0 + 2) * (n / 2 / 2) + 0) ++ (
      (l.flatMap fun j => writeAt lanes (n / 2 / 2) j (0 * (n / 2 / 2) + j) ++ writeAt lanes (n / 2 / 2) j ((0 + 2) * (n / 2 / 2) + j)) ++ (
      ([1].flatMap fun k => (0 :: l).flatMap fun j => writeAt lanes (n / 2 / 2) j (k * (n / 2 / 2) + j) ++
        writeAt lanes (n / 2 / 2) j ((k + 2) * (n / 2 / 2) + j)) ++ 
      alternate (simdSrc lanes) (simdDst lanes) (!!true) ps)))
    (fun e he => ⟨(onlyTmp_simdSrc lanes _).ne (by simp) (by simp) e he, (onlyTmp_simdSrc lanes _).ne (by simp) (by simp) e he⟩)
    (fun s s' hj h => tree_writeAt_bad (lanes := lanes) (n / 2 / 2) 0 hj (by simpa using h))
    (hpost ((onlyTmp_writeAt _ _ _ _).append ((onlyTmp_flatMap fun _ _ => (onlyTmp_writeAt _ _ _ _).append (onlyTmp_writeAt _ _ _ _)).append
      ((onlyTmp_flatMap fun _ _ => onlyTmp_flatMap fun _ _ => (onlyTmp_writeAt _ _ _ _).append (onlyTmp_writeAt _ _ _ _)).append
        (onlyTmp_alternate (onlyTmp_simdSrc lanes) (onlyTmp_simdDst lanes) _ _))))) (n := n) (by omega)
  simpa only [List.append_assoc, Nat.zero_mul, Nat.mul_zero, Nat.zero_add, Nat.add_zero] using this

theorem tree_cxArg_bad (ho : Outside (caller :: vs)) {st : Tree.State Ptr} (hg : TG cs (caller :: vs) st) (hn : 4 ≤ n)
    (hs : srcAfter true (passes n) = false) : runs (Tree.step 0) st (cxArg caller n) = none := by
  obtain ⟨ps, hps⟩ := passes_two hn
  obtain ⟨l, hl⟩ := range_pos (m := n / 2 / 2) (by omega)
  rw [cxArg, if_neg (by simp [hs]), hps, alternate, alternate, if_pos rfl, if_neg (by simp)]
  have hd : cxDst (2, n / 2 / 2) = [.mut .cur .tmp0, .mut .cur .tmp1, .write .tmp0 0] ++
      (.write .tmp1 (2 * (n / 2 / 2)) :: ((l.flatMap fun j =>
        [.write .tmp0 (0 * (n / 2 / 2) + j), .write .tmp1 ((0 + 2) * (n / 2 / 2) + j)]) ++
        [1].flatMap fun k => [.mut .cur .tmp0, .mut .cur .tmp1] ++ (List.range (n / 2 / 2)).flatMap fun j =>
          [.write .tmp0 (k * (n / 2 / 2) + j), .write .tmp1 ((k + 2) * (n / 2 / 2) + j)])) := by
    rw [cxDst, show List.range (2, n / 2 / 2).1 = [0, 1] from rfl, List.flatMap_cons,
      show List.range (2, n / 2 / 2).2 = 0 :: l from hl, List.flatMap_cons]
    simp [hl]
  rw [hd]
  simp only [List.append_assoc]
  have := tree_arg_bad (cs := cs) ho hg (pre := cxSrc (1, n / 2)) (w := [.mut .cur .tmp0, .mut .cur .tmp1, .write .tmp0 0])
    (post := (.write .tmp1 (2 * (n / 2 / 2)) :: ((l.flatMap fun j =>
        [.write .tmp0 (0 * (n / 2 / 2) + j), .write .tmp1 ((0 + 2) * (n / 2 / 2) + j)]) ++
        [1].flatMap fun k => [.mut .cur .tmp0, .mut .cur .tmp1] ++ (List.range (n / 2 / 2)).flatMap fun j =>
          [.write .tmp0 (k * (n / 2 / 2) + j), .write .tmp1 ((k + 2) * (n / 2 / 2) + j)])) ++
        alternate cxSrc cxDst (!!true) ps)
    (fun e he => ⟨(onlyTmp_cxSrc _).ne (by simp) (by simp) e he, (onlyTmp_cxSrc _).ne (by simp) (by simp) e he⟩)
    (fun s s' hj h => by
      simp only [runs, Option.bind_eq_some_iff] at h
      obtain ⟨s1, e1, s2, e2, s3, e3, e⟩ := h
      obtain rfl := Option.some.inj e
      exact ((hj.mut e1 (by simp)).step e2 (by simp [assigns]) (by simp [assigns])).write e3)
    (by
      have hdst := onlyTmp_cxDst (2, n / 2 / 2)
      rw [hd] at hdst
      exact OnlyTmp.ne (OnlyTmp.append (fun e he => hdst e (List.mem_append_right _ he))
        (onlyTmp_alternate onlyTmp_cxSrc onlyTmp_cxDst _ _)) (by simp) (by simp)) (n := n) (by omega)
  simpa only [List.append_assoc] using this

end

/-! ### A reference used before and after its parent is lent out (Tree Borrows) -/
section
open Tree

/-- The pointer has been written through. -/
def TAct (v : Ptr) (st : Tree.State Ptr) : Prop :=
  ∃ t, st.env v = some t ∧ ∃ nd ∈ st.nodes, nd.tag = t ∧ nd.perm = .active

theorem tree_iterMut_act {p : Ptr} {vs : List Ptr} (h : Ptr.tmp0 ∉ p :: vs) {n : Nat} {st st' : Tree.State Ptr}
    (g : TG [] (p :: vs) st) (hn : 0 < n) (e : runs (Tree.step 0) st (iterMut p n) = some st') : TAct p st' := by
  obtain ⟨l, hl⟩ : ∃ l, List.range n = 0 :: l := range_pos hn
  have hl0 : ∀ j ∈ l, j ≠ 0 := by
    have := List.nodup_range (n := n)
    rw [hl, List.nodup_cons] at this
    rintro j hj rfl
    exact this.1 hj
  rw [iterMut, hl, List.map_cons] at e
  obtain ⟨s1, e1, g1⟩ := (treeRules 0).mkMut (c := .tmp0) (show (treeRules 0).G [] _ st from g) h
  obtain ⟨s2, e2, g2⟩ := (treeRules 0).write 0 g1
  simp only [runs, e1, e2, Option.bind_some] at e
  have h2 : TAct p s2 := by
    obtain ⟨env, next, ns⟩ := s1
    obtain ⟨q, hv, hq, ha, -⟩ := TG.access (show TG [] _ _ from g1) true
    obtain ⟨hw, ts, hf, hpw, hwr, -⟩ := show TG [] _ _ from g1
    cases hf with
    | @cons _ p0 _ ts h1 h2 =>
      cases h2 with
      | @cons _ p1 _ ts h2 _ =>
        have ep : p0.1 = q.1 := Option.some.inj (h1.1.symm.trans hv)
        obtain rfl : p0 = q := Prod.ext ep (hw.uniq _ h1.2 _ hq ep)
        simp only [Tree.step, hv, ha, Option.bind_eq_bind, Option.bind_some, if_true] at e2
        obtain rfl := Option.some.inj e2
        obtain ⟨nd, hn, hnd⟩ := List.mem_map.mp h2.2
        have hin : nd.tag ∈ p0.1 :: p0.2 := by
          have := (List.pairwise_cons.mp hpw).1 p1 (by simp)
          rw [← hnd] at this
          exact this
        refine ⟨p1.1, h2.1, upd true (p0.1 :: p0.2) nd, List.mem_map_of_mem hn, by rw [← hnd]; rfl, ?_⟩
        have hwn := hwr p0 (by simp) nd hn hin
        simp only [upd, hin, if_true]
        revert hwn
        cases nd.perm <;> simp [writable, child]
  refine runs_inv (P := TAct p) (fun ev he s s' hb hs => ?_) h2 e
  obtain ⟨j, hj, rfl⟩ := List.mem_map.mp he
  simp only [Tree.step, Option.bind_eq_bind, Option.bind_eq_some_iff, if_neg (hl0 j hj)] at hs
  obtain ⟨t, -, hs⟩ := hs
  obtain rfl := Option.some.inj hs
  exact hb

/-- A new reference from a pointer that is not made from `out` takes the permission to write away from `out`. -/
theorem TJ.freeze {i : Nat} {out x c : Ptr} {st st' : Tree.State Ptr} (hb : TJ out x st) (hact : TAct out st)
    (h : Tree.step i st (.mut x c) = some st') (ha : c ≠ out) : TBad out st' := by
  obtain ⟨hw, t, p, h1, -, h2, h3, h4⟩ := hb
  obtain ⟨t', h1', nd, hn, ht, hp⟩ := hact
  obtain rfl : t = t' := Option.some.inj (h1.symm.trans h1')
  simp only [Tree.step, h2, retag, Tree.access, chainOf_eq hw h3, Option.bind_eq_bind, Option.bind_some,
    Option.bind_eq_some_iff] at h
  obtain ⟨ns, ⟨ns1, hm, e⟩, e'⟩ := h
  obtain rfl := Option.some.inj e
  obtain rfl := Option.some.inj e'
  obtain ⟨rfl, -⟩ := mapM_some hm
  refine ⟨t, ?_, upd false (p.1 :: p.2) nd, List.mem_cons_of_mem _ (List.mem_map_of_mem hn), ht, ?_⟩
  · show (if out = c then _ else st.env out) = _
    rw [if_neg (Ne.symm ha)]; exact h1
  · simp only [upd, show nd.tag ∉ p.1 :: p.2 by rw [ht]; exact h4, if_false, hp]
    simp [foreign, writable]
end

/-! ### Whole calls -/
section
variable {σ : Type} {step : σ → Ev Ptr → Option σ} {R : Rules step} {vs : List Ptr}

/-- Both borrow models allow everything a length with an even number of passes does; `other` element types need the destination
passes to be allowed. -/
theorem goes_cxArg {caller : Ptr} (ho : Outside (caller :: vs)) (n : Nat) (hs : srcAfter true (passes n) = true)
    (hd : ∀ p ∈ passes n, Goes R (.cur :: .arg :: caller :: vs) (.cur :: .arg :: caller :: vs) (cxDst p)) :
    Goes R (caller :: vs) (caller :: vs) (cxArg caller n) := by
  rw [cxArg, if_pos hs, List.append_assoc]
  exact goes_arg ho ((goes_alternate (fun p _ => goes_cxSrc (tmp0_out ho) (tmp1_out ho) p) hd _).append (goes_shr (tmp0_out ho)))

theorem goes_cxScratch (n : Nat) (hd : ∀ p ∈ passes n, Goes R [.cur, .owner] [.cur, .owner] (cxDst p)) :
    Goes R [.owner] [.owner] (cxScratch n) :=
  goes_scratch _ (by simp) (by simp) (by simp) (goes_alternate (fun p _ => goes_cxSrc (by simp) (by simp) p) hd _)

/-- `Outside`, and the names of the generic code as well. -/
def Outside' (vs : List Ptr) : Prop := Outside vs ∧ Ptr.rawSlice ∉ vs ∧ Ptr.inner32 ∉ vs

theorem goes_powArg {el : Elem} {caller : Ptr} (ho : Outside' (caller :: vs)) {n : Nat}
    (h : 16 < n → el = .other → srcAfter true (passes n) = true ∧
      ∀ p ∈ passes n, Goes R (.cur :: .arg :: caller :: vs) (.cur :: .arg :: caller :: vs) (cxDst p)) :
    Goes R (caller :: vs) (caller :: vs) (powArg el caller n) := by
  unfold powArg
  split
  · exact (goes_mut (ho.1 _ (by simp))).drop
  · split
    · exact goes_safe ho.1 n
    · cases el with
      | float => exact goes_stockhamArg ho.1 ho.2.1 ho.2.2 n
      | other => exact goes_cxArg ho.1 n (h (by omega) rfl).1 (h (by omega) rfl).2

theorem goes_powOwn {el : Elem} {lanes n : Nat}
    (h : 16 < n → srcAfter true (passes n) = true ∧
      (el = .other → ∀ p ∈ passes n, Goes R [.cur, .owner] [.cur, .owner] (cxDst p))) :
    ∀ a ∈ powOwn el lanes n, Goes R [.owner] [.owner] a.2 := by
  intro a ha
  unfold powOwn at ha
  split at ha
  · simp at ha
  · cases el with
    | float =>
      simp only [List.mem_cons, List.not_mem_nil, or_false] at ha
      rcases ha with rfl | rfl | rfl | rfl
      · exact goes_stockhamSplit lanes n (h (by omega)).1
      · exact goes_stockhamSplit lanes n (h (by omega)).1
      · exact goes_simdScratch lanes n
      · exact goes_simdScratch lanes n
    | other =>
      simp only [List.mem_cons, List.not_mem_nil, or_false] at ha
      subst ha
      exact goes_cxScratch n ((h (by omega)).2 rfl)

/-- A call with a clean inner transform of length `m` (see `fftProg`). -/
theorem goes_fftProg {el : Elem} {lanes n m : Nat} (hm : m = if isPow2 n || n ≤ 1 then n else nextPow2 (2 * n - 1))
    (h : 16 < m → srcAfter true (passes m) = true ∧
      (el = .other → ∀ vs, Ptr.tmp0 ∉ Ptr.cur :: vs → Ptr.tmp1 ∉ Ptr.cur :: vs → ∀ p ∈ passes m,
        Goes R (.cur :: vs) (.cur :: vs) (cxDst p))) :
    ∀ a ∈ fftProg el lanes n, Goes R [.owner] [.owner] a.2 := by
  have hown := goes_powOwn (R := R) (el := el) (lanes := lanes) (n := m) fun h16 =>
    ⟨(h h16).1, fun he => (h h16).2 he [.owner] (by simp) (by simp)⟩
  have harg : Goes R [.owner] [.owner] (powArg el .owner m) := goes_powArg (by simp [Outside', Outside]) fun h16 he =>
    ⟨(h h16).1, (h h16).2 he _ (by simp) (by simp)⟩
  intro a ha
  rw [fftProg] at ha
  split at ha
  · rename_i hc
    rw [if_pos hc] at hm
    subst hm
    rcases List.mem_cons.mp ha with rfl | ha
    · exact harg
    · exact hown a ha
  · rename_i hc
    rw [if_neg hc] at hm
    simp only [← hm] at ha
    simp only [List.mem_append, List.mem_cons, List.not_mem_nil, or_false] at ha
    have hit : Goes R [.owner] [.owner] (iterMut .owner m) := goes_iterMut (by simp) m
    rcases ha with ((((rfl | rfl) | ha) | rfl) | ha) | ha
    · exact goes_safe (by simp [Outside]) n
    · exact harg
    · exact hown a ha
    · exact ((((hit.append harg).append hit).append harg).append hit).append (goes_iter (by simp) m)
    · exact hown a ha
    · exact hown a ha

end
end Kofft.Borrow
