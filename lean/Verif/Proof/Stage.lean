import Verif.Model.Fft
import Verif.Lib.Loop
/-
The Stockham stage loops compute an explicit function, for every lane width and buffer length,
without leaving the buffers. No arithmetic laws are used.
-/
namespace Kofft

variable {T : Type} [Flt T]

/-- What one Stockham stage puts at index `i`. -/
def stageF (mul : Cx T → Cx T → Cx T) (n1 n2 : Nat) (tw src : Nat → Cx T) (i : Nat) : Cx T :=
  let q := i / n2
  let j := i % n2
  if q < n1 then (src (2 * q * n2 + j)).add (mul (src (2 * q * n2 + n2 + j)) (tw (q * n2)))
  else
    let k := q - n1
    (src (2 * k * n2 + j)).sub (mul (src (2 * k * n2 + n2 + j)) (tw (k * n2)))

theorem stageF_lo {mul : Cx T → Cx T → Cx T} {n1 n2 : Nat} {tw src : Nat → Cx T} {k j : Nat}
    (hk : k < n1) (hj : j < n2) :
    stageF mul n1 n2 tw src (k * n2 + j) =
      (src (2 * k * n2 + j)).add (mul (src (2 * k * n2 + n2 + j)) (tw (k * n2))) := by
  have hq : (k * n2 + j) / n2 = k := by
    rw [Nat.mul_comm, Nat.mul_add_div (by omega), Nat.div_eq_of_lt hj]; rfl
  have hr : (k * n2 + j) % n2 = j := by
    rw [Nat.mul_comm, Nat.mul_add_mod, Nat.mod_eq_of_lt hj]
  simp only [stageF, hq, hr, hk, if_true]

theorem stageF_hi {mul : Cx T → Cx T → Cx T} {n1 n2 : Nat} {tw src : Nat → Cx T} {k j : Nat}
    (hj : j < n2) :
    stageF mul n1 n2 tw src ((k + n1) * n2 + j) =
      (src (2 * k * n2 + j)).sub (mul (src (2 * k * n2 + n2 + j)) (tw (k * n2))) := by
  have hq : ((k + n1) * n2 + j) / n2 = k + n1 := by
    rw [Nat.mul_comm, Nat.mul_add_div (by omega), Nat.div_eq_of_lt hj]; rfl
  have hr : ((k + n1) * n2 + j) % n2 = j := by
    rw [Nat.mul_comm, Nat.mul_add_mod, Nat.mod_eq_of_lt hj]
  simp only [stageF, hq, hr]
  rw [if_neg (by omega)]
  simp

theorem stageF_congr {mul : Cx T → Cx T → Cx T} {n1 n2 : Nat} {tw tw' src src' : Nat → Cx T}
    (hs : ∀ i, i < 2 * n1 * n2 → src i = src' i) (ht : ∀ i, i < n1 * n2 → tw i = tw' i)
    {i : Nat} (hi : i < 2 * n1 * n2) :
    stageF mul n1 n2 tw src i = stageF mul n1 n2 tw' src' i := by
  have h2 : 0 < n2 := by
    rcases Nat.eq_zero_or_pos n2 with h | h
    · subst h; simp at hi
    · exact h
  have hj := Nat.mod_lt i h2
  have hq : i / n2 < 2 * n1 := Nat.div_lt_of_lt_mul (by rw [Nat.mul_comm]; exact hi)
  have key : ∀ k, k < n1 → 2 * k * n2 + i % n2 < 2 * n1 * n2 ∧
      2 * k * n2 + n2 + i % n2 < 2 * n1 * n2 ∧ k * n2 < n1 * n2 := by
    intro k hk
    have h1 : (k + 1) * n2 ≤ n1 * n2 := Nat.mul_le_mul_right _ hk
    refine ⟨?_, ?_, ?_⟩ <;> nlinarith
  simp only [stageF]
  split
  · rename_i h
    obtain ⟨a, b, c⟩ := key _ h
    rw [hs _ a, hs _ b, ht _ c]
  · rename_i h
    obtain ⟨a, b, c⟩ := key (i / n2 - n1) (by omega)
    rw [hs _ a, hs _ b, ht _ c]

/-- Scalar butterfly on tables. -/
theorem scalarButterfly_tab {Ls Ls' Ld Ld' : Nat} {w : Cx T} {src : Nat → Cx T}
    {gr gi : Nat → T} {even odd dst0 dst1 j : Nat}
    (h1 : even + j < Ls) (h2 : odd + j < Ls) (h1' : even + j < Ls') (h2' : odd + j < Ls')
    (h3 : dst0 + j < Ld) (h4 : dst1 + j < Ld) (h3' : dst0 + j < Ld') (h4' : dst1 + j < Ld') :
    scalarButterfly w (tab Ls fun i => (src i).re) (tab Ls' fun i => (src i).im) even odd dst0 dst1 j
      (tab Ld gr, tab Ld' gi) =
    .ok (tab Ld (fun k => if k = dst1 + j then
            ((src (even + j)).sub ((src (odd + j)).mulPlain w)).re
          else if k = dst0 + j then ((src (even + j)).add ((src (odd + j)).mulPlain w)).re else gr k),
         tab Ld' (fun k => if k = dst1 + j then
            ((src (even + j)).sub ((src (odd + j)).mulPlain w)).im
          else if k = dst0 + j then ((src (even + j)).add ((src (odd + j)).mulPlain w)).im else gi k)) := by
  simp only [scalarButterfly, rd_tab h1, rd_tab h2, rd_tab h1', rd_tab h2', Outcome.bind_ok,
    wr_tab h3, wr_tab h4, wr_tab h3', wr_tab h4', Outcome.pure_eq]
  rfl

/-- Vector butterfly on tables. -/
theorem simdBlock_tab {W Ls Ls' Ld Ld' : Nat} {w : Cx T} {src : Nat → Cx T}
    {gr gi : Nat → T} {even odd dst0 dst1 j : Nat}
    (h1 : even + j + W ≤ Ls) (h2 : odd + j + W ≤ Ls) (h1' : even + j + W ≤ Ls')
    (h2' : odd + j + W ≤ Ls')
    (h3 : dst0 + j + W ≤ Ld) (h4 : dst1 + j + W ≤ Ld) (h3' : dst0 + j + W ≤ Ld')
    (h4' : dst1 + j + W ≤ Ld') :
    simdBlock W w (tab Ls fun i => (src i).re) (tab Ls' fun i => (src i).im) even odd dst0 dst1 j
      (tab Ld gr, tab Ld' gi) =
    .ok (tab Ld (fun k => if dst1 + j ≤ k ∧ k < dst1 + j + W then
            ((src (even + j + (k - (dst1 + j)))).sub
              ((src (odd + j + (k - (dst1 + j)))).mulPlain w)).re
          else if dst0 + j ≤ k ∧ k < dst0 + j + W then
            ((src (even + j + (k - (dst0 + j)))).add
              ((src (odd + j + (k - (dst0 + j)))).mulPlain w)).re else gr k),
         tab Ld' (fun k => if dst1 + j ≤ k ∧ k < dst1 + j + W then
            ((src (even + j + (k - (dst1 + j)))).sub
              ((src (odd + j + (k - (dst1 + j)))).mulPlain w)).im
          else if dst0 + j ≤ k ∧ k < dst0 + j + W then
            ((src (even + j + (k - (dst0 + j)))).add
              ((src (odd + j + (k - (dst0 + j)))).mulPlain w)).im else gi k)) := by
  simp only [simdBlock, rdN_tab h1, rdN_tab h2, rdN_tab h1', rdN_tab h2', Outcome.bind_ok,
    tab_map, tab_zipWith, wrN_tab h3, wrN_tab h4, wrN_tab h3', wrN_tab h4', Outcome.pure_eq]
  rfl

/-- Destination contents after the first `j` lanes of group `k`. -/
private def grp (mul : Cx T → Cx T → Cx T) (n1 n2 : Nat) (tw src : Nat → Cx T) (k j : Nat)
    (c : Cx T → T) (g : Nat → T) (i : Nat) : T :=
  if (k * n2 ≤ i ∧ i < k * n2 + j) ∨ ((k + n1) * n2 ≤ i ∧ i < (k + n1) * n2 + j) then
    c (stageF mul n1 n2 tw src i) else g i

theorem group_bounds {n1 n2 k : Nat} (hk : k < n1) :
    2 * k * n2 + n2 + n2 ≤ 2 * n1 * n2 ∧ k * n2 + n2 ≤ n1 * n2 ∧
    (k + n1) * n2 + n2 ≤ 2 * n1 * n2 ∧ n1 * n2 ≤ (k + n1) * n2 := by
  have h1 : (k + 1) * n2 ≤ n1 * n2 := Nat.mul_le_mul_right _ hk
  refine ⟨?_, ?_, ?_, ?_⟩ <;> nlinarith

/-- One group, any lane width. -/
theorem splitGroup_tab {W n1 n2 k Ls Ls' Ld Ld' : Nat} {tw src : Nat → Cx T} {gr gi : Nat → T}
    (hk : k < n1) (hLs : 2 * n1 * n2 ≤ Ls) (hLs' : 2 * n1 * n2 ≤ Ls')
    (hLd : 2 * n1 * n2 ≤ Ld) (hLd' : 2 * n1 * n2 ≤ Ld') :
    splitGroup W (tw (k * n2)) (tab Ls fun i => (src i).re) (tab Ls' fun i => (src i).im)
      (2 * k * n2) (2 * k * n2 + n2) (k * n2) ((k + n1) * n2) n2 (tab Ld gr, tab Ld' gi) =
    .ok (tab Ld (grp Cx.mulPlain n1 n2 tw src k n2 Cx.re gr),
         tab Ld' (grp Cx.mulPlain n1 n2 tw src k n2 Cx.im gi)) := by
  obtain ⟨b1, b2, b3, b4⟩ := group_bounds (n2 := n2) hk
  have tail : ∀ j0, j0 ≤ n2 →
      forRange j0 n2 (tab Ld (grp Cx.mulPlain n1 n2 tw src k j0 Cx.re gr),
         tab Ld' (grp Cx.mulPlain n1 n2 tw src k j0 Cx.im gi))
        (fun j d => scalarButterfly (tw (k * n2)) (tab Ls fun i => (src i).re)
          (tab Ls' fun i => (src i).im) (2 * k * n2) (2 * k * n2 + n2) (k * n2)
          ((k + n1) * n2) j d) =
      .ok (tab Ld (grp Cx.mulPlain n1 n2 tw src k n2 Cx.re gr),
         tab Ld' (grp Cx.mulPlain n1 n2 tw src k n2 Cx.im gi)) := by
    intro j0 hj0
    refine forRange_eq (fun j => (tab Ld (grp Cx.mulPlain n1 n2 tw src k j Cx.re gr),
         tab Ld' (grp Cx.mulPlain n1 n2 tw src k j Cx.im gi))) hj0 rfl ?_
    intro j _ hj
    rw [scalarButterfly_tab (by omega) (by omega) (by omega) (by omega) (by omega) (by omega)
      (by omega) (by omega)]
    have aux : ∀ (c : Cx T → T) (g : Nat → T) (i : Nat),
        (if i = (k + n1) * n2 + j then
            c ((src (2 * k * n2 + j)).sub ((src (2 * k * n2 + n2 + j)).mulPlain (tw (k * n2))))
          else if i = k * n2 + j then
            c ((src (2 * k * n2 + j)).add ((src (2 * k * n2 + n2 + j)).mulPlain (tw (k * n2))))
          else grp Cx.mulPlain n1 n2 tw src k j c g i) =
        grp Cx.mulPlain n1 n2 tw src k (j + 1) c g i := by
      intro c g i
      unfold grp
      split
      · rename_i h
        rw [if_pos (by omega), h, stageF_hi hj]
      · split
        · rename_i h
          rw [if_pos (by omega), h, stageF_lo hk hj]
        · by_cases hh : (k * n2 ≤ i ∧ i < k * n2 + j) ∨ ((k + n1) * n2 ≤ i ∧ i < (k + n1) * n2 + j)
          · rw [if_pos hh, if_pos (by omega)]
          · rw [if_neg hh, if_neg (by omega)]
    simp only [aux]
  have start : (tab Ld gr, tab Ld' gi) = (tab Ld (grp Cx.mulPlain n1 n2 tw src k 0 Cx.re gr),
         tab Ld' (grp Cx.mulPlain n1 n2 tw src k 0 Cx.im gi)) := by
    congr 1 <;> (apply tab_congr; intro i _; unfold grp; rw [if_neg (by omega)])
  unfold splitGroup
  by_cases hW : W = 0
  · simp only [hW, if_true, Outcome.pure_eq, Outcome.bind_ok]
    rw [start]
    exact tail 0 (by omega)
  · simp only [hW, if_false]
    obtain ⟨s', e, ⟨hs, hle⟩, _⟩ := whileF_ok
      (cond := fun s : Nat × (List T × List T) => decide (s.1 + W ≤ n2))
      (body := fun s => do
          let d ← simdBlock W (tw (k * n2)) (tab Ls fun i => (src i).re)
            (tab Ls' fun i => (src i).im) (2 * k * n2) (2 * k * n2 + n2) (k * n2)
            ((k + n1) * n2) s.1 s.2
          pure (s.1 + W, d))
      (fun s => s.2 = (tab Ld (grp Cx.mulPlain n1 n2 tw src k s.1 Cx.re gr),
         tab Ld' (grp Cx.mulPlain n1 n2 tw src k s.1 Cx.im gi)) ∧ s.1 ≤ n2)
      (fun s => n2 - s.1) (n2 + 1) (0, (tab Ld gr, tab Ld' gi)) (by simp)
      ⟨start, by simp⟩
      (by
        rintro ⟨j, d⟩ ⟨hd, hj⟩ hc
        simp only at hd hj
        simp only [decide_eq_true_eq] at hc
        subst hd
        have blk := simdBlock_tab (w := tw (k * n2)) (Ls := Ls) (Ls' := Ls') (Ld := Ld) (Ld' := Ld')
          (gr := grp Cx.mulPlain n1 n2 tw src k j Cx.re gr)
          (gi := grp Cx.mulPlain n1 n2 tw src k j Cx.im gi) (src := src) (W := W)
          (even := 2 * k * n2) (odd := 2 * k * n2 + n2) (dst0 := k * n2) (dst1 := (k + n1) * n2)
          (j := j) (by omega) (by omega) (by omega) (by omega) (by omega)
          (by omega) (by omega) (by omega)
        simp only [blk, Outcome.bind_ok, Outcome.pure_eq]
        refine ⟨_, rfl, ⟨?_, by simp only; omega⟩, by simp only; omega⟩
        simp only
        have aux : ∀ (c : Cx T → T) (g : Nat → T) (i : Nat),
          (if (k + n1) * n2 + j ≤ i ∧ i < (k + n1) * n2 + j + W then
            c ((src (2 * k * n2 + j + (i - ((k + n1) * n2 + j)))).sub
              ((src (2 * k * n2 + n2 + j + (i - ((k + n1) * n2 + j)))).mulPlain (tw (k * n2))))
          else if k * n2 + j ≤ i ∧ i < k * n2 + j + W then
            c ((src (2 * k * n2 + j + (i - (k * n2 + j)))).add
              ((src (2 * k * n2 + n2 + j + (i - (k * n2 + j)))).mulPlain (tw (k * n2))))
          else grp Cx.mulPlain n1 n2 tw src k j c g i) =
          grp Cx.mulPlain n1 n2 tw src k (j + W) c g i := by
          intro c g i
          unfold grp
          split
          · rename_i h
            obtain ⟨t, rfl⟩ : ∃ t, i = (k + n1) * n2 + (j + t) := ⟨i - ((k + n1) * n2 + j), by omega⟩
            rw [if_pos (by omega), stageF_hi (by omega),
              show (k + n1) * n2 + (j + t) - ((k + n1) * n2 + j) = t by omega,
              Nat.add_assoc (2 * k * n2), Nat.add_assoc (2 * k * n2 + n2)]
          · split
            · rename_i h
              obtain ⟨t, rfl⟩ : ∃ t, i = k * n2 + (j + t) := ⟨i - (k * n2 + j), by omega⟩
              rw [if_pos (by omega), stageF_lo hk (by omega),
                show k * n2 + (j + t) - (k * n2 + j) = t by omega,
                Nat.add_assoc (2 * k * n2), Nat.add_assoc (2 * k * n2 + n2)]
            · by_cases hh : (k * n2 ≤ i ∧ i < k * n2 + j) ∨
                  ((k + n1) * n2 ≤ i ∧ i < (k + n1) * n2 + j)
              · rw [if_pos hh, if_pos (by omega)]
              · rw [if_neg hh, if_neg (by omega)]
        simp only [aux])
    rw [e]
    simp only [Outcome.bind_ok]
    obtain ⟨j, d⟩ := s'
    simp only at hs hle
    subst hs
    exact tail j hle

/-- One full stage on split buffers, any lane width, buffers at least as long as the transform. -/
theorem splitStage_tab {W n1 n2 h Ls Ls' Ld Ld' : Nat} {tw src : Nat → Cx T} {gr gi : Nat → T}
    (hn2 : 0 < n2)
    (hh : n1 * n2 ≤ h) (hLs : 2 * n1 * n2 ≤ Ls) (hLs' : 2 * n1 * n2 ≤ Ls')
    (hLd : 2 * n1 * n2 ≤ Ld) (hLd' : 2 * n1 * n2 ≤ Ld') :
    splitStage W (tab h tw) (tab Ls fun i => (src i).re) (tab Ls' fun i => (src i).im) n1 n2
      (tab Ld gr, tab Ld' gi) =
    .ok (tab Ld (fun i => if i < 2 * n1 * n2 then (stageF Cx.mulPlain n1 n2 tw src i).re else gr i),
         tab Ld' (fun i => if i < 2 * n1 * n2 then (stageF Cx.mulPlain n1 n2 tw src i).im else gi i)) := by
  let G : (Cx T → T) → (Nat → T) → Nat → Nat → T := fun c g k i =>
    if i < k * n2 ∨ (n1 * n2 ≤ i ∧ i < (k + n1) * n2) then
      c (stageF Cx.mulPlain n1 n2 tw src i) else g i
  have main := forRange_eq (lo := 0) (hi := n1) (s := (tab Ld gr, tab Ld' gi))
    (f := fun k d => do
      let w ← rd (tab h tw) (k * n2)
      splitGroup W w (tab Ls fun i => (src i).re) (tab Ls' fun i => (src i).im)
        (2 * k * n2) (2 * k * n2 + n2) (k * n2) ((k + n1) * n2) n2 d)
    (fun k => (tab Ld (G Cx.re gr k), tab Ld' (G Cx.im gi k))) (Nat.zero_le _)
    (by
      congr 1 <;>
      · apply tab_congr
        intro i _
        simp only [G]
        rw [if_neg (by simp)])
    (by
      intro k _ hk
      obtain ⟨b1, b2, b3, b4⟩ := group_bounds (n2 := n2) hk
      simp only [rd_tab (show k * n2 < h by omega), Outcome.bind_ok]
      rw [splitGroup_tab hk hLs hLs' hLd hLd']
      have e1 : (k + 1) * n2 = k * n2 + n2 := by ring
      have e2 : (k + 1 + n1) * n2 = (k + n1) * n2 + n2 := by ring
      have aux : ∀ c g i, grp Cx.mulPlain n1 n2 tw src k n2 c (G c g k) i = G c g (k + 1) i := by
        intro c g i
        simp only [grp, G]
        rw [e1, e2]
        split
        · rw [if_pos (by omega)]
        · split
          · rw [if_pos (by omega)]
          · rw [if_neg (by omega)]
      congr 2 <;> exact tab_congr (fun i _ => aux _ _ i))
  unfold splitStage
  rw [main]
  have e3 : (n1 + n1) * n2 = 2 * n1 * n2 := by ring
  have e4 : n1 * n2 ≤ 2 * n1 * n2 := by nlinarith
  congr 2 <;>
  · apply tab_congr
    intro i _
    simp only [G, e3]
    by_cases hi : i < 2 * n1 * n2
    · rw [if_pos (by omega), if_pos hi]
    · rw [if_neg (by omega), if_neg hi]

/-- One full stage on interleaved buffers. -/
theorem cxStage_tab {dbg : Bool} {n1 n2 h n : Nat} {tw src g : Nat → Cx T}
    (hn2 : 0 < n2) (hh : n1 * n2 ≤ h) (hn : 2 * n1 * n2 = n) :
    cxStage dbg (tab h tw) (tab n src) n1 n2 (tab n g) =
      .ok (tab n (stageF Cx.mul n1 n2 tw src)) := by
  subst hn
  let G : Nat → Nat → Nat → Cx T := fun k j i =>
    if i < k * n2 + j ∨ (n1 * n2 ≤ i ∧ i < (k + n1) * n2 + j) then
      stageF Cx.mul n1 n2 tw src i else g i
  have e3 : (n1 + n1) * n2 = 2 * n1 * n2 := by ring
  have inner : ∀ k, k < n1 →
      forRange 0 n2 (tab (2 * n1 * n2) (G k 0)) (fun j dst => do
        let u ← rd (tab (2 * n1 * n2) src) (2 * k * n2 + j)
        let v0 ← rd (tab (2 * n1 * n2) src) (2 * k * n2 + n2 + j)
        let dst ← wr dst (k * n2 + j) (u.add (v0.mul (tw (k * n2))))
        wr dst ((k + n1) * n2 + j) (u.sub (v0.mul (tw (k * n2))))) =
      .ok (tab (2 * n1 * n2) (G (k + 1) 0)) := by
    intro k hk
    obtain ⟨b1, b2, b3, b4⟩ := group_bounds (n2 := n2) hk
    rw [forRange_eq (fun j => tab (2 * n1 * n2) (G k j)) (Nat.zero_le _) rfl]
    · congr 1
      apply tab_congr
      intro i _
      simp only [G]
      have e1 : (k + 1) * n2 = k * n2 + n2 := by ring
      have e2 : (k + 1 + n1) * n2 = (k + n1) * n2 + n2 := by ring
      rw [e1, e2]
      simp
    · intro j _ hj
      have q1 : 2 * k * n2 + j < 2 * n1 * n2 := by omega
      have q2 : 2 * k * n2 + n2 + j < 2 * n1 * n2 := by omega
      have q3 : k * n2 + j < 2 * n1 * n2 := by omega
      have q4 : (k + n1) * n2 + j < 2 * n1 * n2 := by omega
      simp only [rd_tab q1, rd_tab q2, Outcome.bind_ok, wr_tab q3, wr_tab q4]
      congr 1
      apply tab_congr
      intro i _
      simp only [G]
      split
      · rename_i h'
        rw [if_pos (by omega), h', stageF_hi hj]
      · split
        · rename_i h'
          rw [if_pos (by omega), h', stageF_lo hk hj]
        · by_cases hc : i < k * n2 + j ∨ (n1 * n2 ≤ i ∧ i < (k + n1) * n2 + j)
          · rw [if_pos hc, if_pos (by omega)]
          · rw [if_neg hc, if_neg (by omega)]
  unfold cxStage
  rw [forRange_eq (fun k => tab (2 * n1 * n2) (G k 0)) (Nat.zero_le _)]
  · congr 1
    apply tab_congr
    intro i hi
    simp only [G, e3]
    rw [if_pos (by
      have : n1 * n2 + n1 * n2 = 2 * n1 * n2 := by ring
      omega)]
  · apply tab_congr
    intro i _
    simp only [G]
    rw [if_neg (by simp)]
  · intro k _ hk
    obtain ⟨b1, b2, b3, b4⟩ := group_bounds (n2 := n2) hk
    have e1 : (k + 1) * n2 = k * n2 + n2 := by ring
    have e2 : (k + n1 + 1) * n2 = (k + n1) * n2 + n2 := by ring
    have a1 : debugAssert dbg (decide (2 * k * n2 + n2 + n2 ≤ (tab (2 * n1 * n2) src).length)) = .ok () := by
      simp [debugAssert, b1]
    have a2 : debugAssert dbg (decide ((k + 1) * n2 ≤ (tab (2 * n1 * n2) (G k 0)).length)) = .ok () := by
      have : k * n2 + n2 ≤ 2 * n1 * n2 := by omega
      simp [debugAssert, e1, this]
    have a3 : debugAssert dbg (decide ((k + n1 + 1) * n2 ≤ (tab (2 * n1 * n2) (G k 0)).length)) = .ok () := by
      simp [debugAssert, e2, b3]
    simp only [rd_tab (show k * n2 < h by omega), Outcome.bind_ok, a1, a2, a3]
    exact inner k hk

/-! ### The stage loop -/

/-- Buffer contents after `s` stages of an `n`-point transform of `x`. -/
def stk (mul : Cx T → Cx T → Cx T) (n : Nat) (tw x : Nat → Cx T) : Nat → Nat → Cx T
  | 0 => x
  | s + 1 => stageF mul (2 ^ s) (n / 2 ^ (s + 1)) tw (stk mul n tw x s)

theorem stk_congr {mul : Cx T → Cx T → Cx T} {K : Nat} {tw tw' x x' : Nat → Cx T}
    (ht : ∀ i, i < 2 ^ K / 2 → tw i = tw' i) (hx : ∀ i, i < 2 ^ K → x i = x' i) :
    ∀ s, s ≤ K → ∀ i, i < 2 ^ K → stk mul (2 ^ K) tw x s i = stk mul (2 ^ K) tw' x' s i
  | 0, _, i, hi => hx i hi
  | s + 1, hs, i, hi => by
    have e1 : 2 * 2 ^ s * (2 ^ K / 2 ^ (s + 1)) = 2 ^ K := by
      rw [show 2 * 2 ^ s = 2 ^ (s + 1) by ring]
      exact Nat.mul_div_cancel' (pow_dvd_pow 2 hs)
    have e2 : 2 ^ s * (2 ^ K / 2 ^ (s + 1)) = 2 ^ K / 2 := by
      rw [Nat.mul_assoc] at e1; omega
    show stageF _ _ _ _ _ _ = stageF _ _ _ _ _ _
    apply stageF_congr
    · intro i hi; rw [e1] at hi
      exact stk_congr ht hx s (by omega) i hi
    · intro i hi; rw [e2] at hi; exact ht i hi
    · rw [e1]; exact hi

theorem pow_div_succ {K s : Nat} (h : s < K) : 2 ^ K / 2 ^ s / 2 = 2 ^ K / 2 ^ (s + 1) := by
  rw [Nat.div_div_eq_div_mul, pow_succ]

/-- Generic stage-loop rule. `R b f` says buffer `b` starts with the `2^K` values `f`;
`A`/`B` are extra facts about the caller's buffer and the scratch buffer (their lengths). -/
theorem stageLoop_ok {Bf : Type} {K : Nat} (stage : Bf → Nat → Nat → Bf → Outcome Bf)
    (mul : Cx T → Cx T → Cx T) (tw x : Nat → Cx T) (R : Bf → (Nat → Cx T) → Prop)
    (A B : Bf → Prop) (b0 sc : Bf)
    (h0 : R b0 x) (hA : A b0) (hB : B sc)
    (step : ∀ src dst f s, s < K → R src f → (A src ∧ B dst ∨ B src ∧ A dst) →
      ∃ d, stage src (2 ^ s) (2 ^ K / 2 ^ (s + 1)) dst = .ok d ∧
        R d (stageF mul (2 ^ s) (2 ^ K / 2 ^ (s + 1)) tw f) ∧ (A dst → A d) ∧ (B dst → B d)) :
    ∃ s : StageSt Bf, stageLoop (2 ^ K) stage
        { src := b0, dst := sc, srcIsInput := true, n1 := 1, n2 := 2 ^ K } = .ok s ∧
      R s.src (stk mul (2 ^ K) tw x K) ∧
      (s.srcIsInput = true → A s.src ∧ B s.dst) ∧ (s.srcIsInput = false → B s.src ∧ A s.dst) := by
  obtain ⟨s', e, ⟨st, hst, hn1, hn2, hR, hi1, hi2⟩, hc⟩ := whileF_ok
    (cond := fun s : StageSt Bf => decide (s.n1 < 2 ^ K))
    (body := fun s => do
      let n2 := s.n2 / 2
      let d ← stage s.src s.n1 n2 s.dst
      pure { src := d, dst := s.src, srcIsInput := !s.srcIsInput, n1 := s.n1 * 2, n2 := n2 })
    (fun s => ∃ st, st ≤ K ∧ s.n1 = 2 ^ st ∧ s.n2 = 2 ^ K / 2 ^ st ∧
      R s.src (stk mul (2 ^ K) tw x st) ∧
      (s.srcIsInput = true → A s.src ∧ B s.dst) ∧ (s.srcIsInput = false → B s.src ∧ A s.dst))
    (fun s => 2 ^ K - s.n1) (2 ^ K + 1)
    { src := b0, dst := sc, srcIsInput := true, n1 := 1, n2 := 2 ^ K }
    (Nat.lt_succ_of_le (Nat.sub_le _ _))
    ⟨0, Nat.zero_le _, rfl, by simp, h0, by simp [hA, hB], by simp⟩
    (by
      rintro ⟨src, dst, b, n1, n2⟩ ⟨st, hst, hn1, hn2, hR, hi1, hi2⟩ hc
      simp only at hn1 hn2 hR hi1 hi2
      simp only [decide_eq_true_eq] at hc
      subst hn1 hn2
      have hlt : st < K := by
        exact (Nat.pow_lt_pow_iff_right (by norm_num)).mp hc
      obtain ⟨d, e, hR', hA', hB'⟩ := step src dst _ st hlt hR (by
        cases b
        · right; exact hi2 rfl
        · left; exact hi1 rfl)
      simp only [pow_div_succ hlt, e, Outcome.bind_ok, Outcome.pure_eq]
      refine ⟨_, rfl, ⟨st + 1, hlt, by simp only; ring, rfl, hR', ?_, ?_⟩, ?_⟩
      · intro hb
        have hb : b = false := by simpa using hb
        exact ⟨hA' (hi2 hb).2, (hi2 hb).1⟩
      · intro hb
        have hb : b = true := by simpa using hb
        exact ⟨hB' (hi1 hb).2, (hi1 hb).1⟩
      · simp only
        have := Nat.pow_pos (n := st) (show 0 < 2 by norm_num)
        omega)
  refine ⟨s', e, ?_, hi1, hi2⟩
  have : st = K := by
    by_contra hne
    have : 2 ^ st < 2 ^ K := (Nat.pow_lt_pow_iff_right (by norm_num)).mpr (by omega)
    simp [hn1] at hc
    omega
  subst this
  exact hR

end Kofft
