import Verif.Proof.Run
/-
`fft` on an arbitrary reachable planner state: power-of-two sizes and Bluestein.
-/
namespace Kofft

variable {T : Type} [Flt T]

/-! ### Power-of-two sizes -/

/-- Output of `fft` on a power-of-two length. -/
def powOut (cfg : Cfg) (p : Planner T) (x : List (Cx T)) : List (Cx T) :=
  if x.length = 1 then x else if x.length ≤ 16 then smallOut cfg x else bigOut cfg p x

/-- The same on a fresh planner. -/
def freshPow (cfg : Cfg) (x : List (Cx T)) : List (Cx T) := powOut cfg Planner.new x

theorem splitOk_new : SplitOk (Planner.new : Planner T) := ⟨rfl, Or.inl rfl⟩

theorem cacheOk_new : CacheOk (Planner.new : Planner T).cache := by
  intro n t h; simp [Planner.new] at h

theorem bigOut_length (cfg : Cfg) (p : Planner T) (x : List (Cx T)) :
    (bigOut cfg p x).length = x.length := by
  unfold bigOut
  split
  · simp [stkOut_length]
  · simp [stkOut_length]

theorem powOut_length (cfg : Cfg) (p : Planner T) (x : List (Cx T)) (h : isPow2 x.length = true) :
    (powOut cfg p x).length = x.length := by
  unfold powOut
  split
  · rfl
  · rename_i h1
    split
    · rename_i h2
      have := pow2_le16 h h2
      exact (smallKernel_eq cfg x (by omega)).2
    · exact bigOut_length cfg p x

theorem stale_nil (p : Planner T) (n : Nat) (h : p.splitRe.length ≤ n) : stale p n = [] := by
  simp [stale, List.drop_eq_nil_of_le h]

/-- When the leftovers are no longer than the input, the output is the fresh one. -/
theorem powOut_fresh (cfg : Cfg) (p : Planner T) (x : List (Cx T))
    (h : x.length ≤ 16 ∨ cfg.kind = .other ∨ p.splitRe.length ≤ x.length) :
    powOut cfg p x = freshPow cfg x := by
  unfold freshPow powOut
  split
  · rfl
  split
  · rfl
  rename_i h1 h2
  unfold bigOut
  split
  · rename_i hk
    rcases h with h | h | h
    · exact absurd h h2
    · rw [h] at hk; simp at hk
    · rw [stale_nil p _ h, stale_nil Planner.new _ (by simp [Planner.new])]
  · rfl

/-- The planner leftovers after a power-of-two transform (only the split buffers change). -/
def powNext (cfg : Cfg) (p : Planner T) (x : List (Cx T)) : List T × List T :=
  if 16 < x.length then splitNext cfg p x else (p.splitRe, p.splitIm)

theorem fftF_pow2 (cfg : Cfg) (f : Nat) (p : Planner T) (x : List (Cx T))
    (hc : CacheOk p.cache) (hs : SplitOk p) (hp : isPow2 x.length = true) :
    ∃ p', fftF cfg (f + 1) p x = .ok (p', powOut cfg p x, .ok ()) ∧
      CacheOk p'.cache ∧ SplitOk p' ∧ p'.blu = p.blu ∧ p'.bluScratch = p.bluScratch ∧
      p'.splitRe.length = (if 16 < x.length then max p.splitRe.length x.length
        else p.splitRe.length) ∧
      p'.splitRe = (powNext cfg p x).1 ∧ p'.splitIm = (powNext cfg p x).2 := by
  have hpos := isPow2_pos hp
  have hne : ¬ (x.length = 0) := by omega
  show ∃ p', fftBody cfg (fftF cfg f) p x = _ ∧ _
  unfold fftBody powOut
  by_cases h1 : x.length = 1
  · simp only [h1]
    exact ⟨p, rfl, hc, hs, rfl, rfl, rfl, by simp [powNext, h1], by simp [powNext, h1]⟩
  by_cases h16 : x.length ≤ 16
  · have hk := (smallKernel_eq cfg x (by have := pow2_le16 hp h16; omega)).1
    have hng : ¬ (16 < x.length) := by omega
    simp only [hne, h1, h16, hp, hk, hng, if_false, if_true, decide_true, Bool.and_self, Outcome.bind_ok,
      Outcome.pure_eq]
    exact ⟨p, rfl, hc, hs, rfl, rfl, rfl, by simp [powNext, hng], by simp [powNext, hng]⟩
  · have hg : 16 < x.length := by omega
    have hand := (and_pred_eq_zero_iff hpos).mpr hp
    simp only [hne, h1, h16, hg, hand, if_false, if_true, decide_false, Bool.false_and,
      Bool.false_eq_true]
    obtain ⟨p', e, h⟩ := stockham_big cfg (fftF cfg f) p x hc hs hp hg
    simpa only [powNext, hg, if_true] using
      ⟨p', e, h.1, h.2.1, h.2.2.1, h.2.2.2.1, h.2.2.2.2.1, h.2.2.2.2.2⟩

theorem powOut_congr (cfg : Cfg) {p q : Planner T} (h1 : p.splitRe = q.splitRe)
    (h2 : p.splitIm = q.splitIm) (x : List (Cx T)) : powOut cfg p x = powOut cfg q x := by
  simp only [powOut, bigOut, stale, h1, h2]

theorem powNext_congr' (cfg : Cfg) {p q : Planner T} (h1 : p.splitRe = q.splitRe)
    (h2 : p.splitIm = q.splitIm) (x : List (Cx T)) : powNext cfg p x = powNext cfg q x := by
  simp only [powNext, splitNext, stale, h1, h2]

theorem powNext_congr (cfg : Cfg) {p q : Planner T} (h1 : p.splitRe = q.splitRe)
    (h2 : p.splitIm = q.splitIm) (x : List (Cx T)) :
    (powNext cfg p x).1 = (powNext cfg q x).1 ∧ (powNext cfg p x).2 = (powNext cfg q x).2 := by
  rw [powNext_congr' cfg h1 h2]; exact ⟨rfl, rfl⟩

/-! ### Bluestein tables -/

/-- `π i² / n` as computed. -/
def bluAngle (n i : Nat) : T := (Flt.pi *. Flt.ofNat (i * i)) /. Flt.ofNat n

/-- The chirp `exp(-π i² / n)`. -/
def chirpAt (n i : Nat) : Cx T := Cx.expi (-. (bluAngle n i))

/-- Convolution length. -/
def bluM (n : Nat) : Nat := nextPow2 (2 * n - 1)

/-- The conjugate chirp, wrapped around. -/
def bAt (n i : Nat) : Cx T :=
  if i < n then Cx.expi (bluAngle n i)
  else if bluM n - n < i then Cx.expi (bluAngle n (bluM n - i)) else Cx.zero

theorem bluM_ge (n : Nat) : 2 * n - 1 ≤ bluM n := le_nextPow2 _

theorem bluM_pow2 (n : Nat) : isPow2 (bluM n) = true := isPow2_nextPow2 _

/-- The cached pair for size `n`. -/
def bluPair (cfg : Cfg) (n : Nat) : List (Cx T) × List (Cx T) :=
  (tab n (chirpAt n), freshPow cfg (tab (bluM n) (bAt n)))

def BluOk (cfg : Cfg) (c : Nat → Option (List (Cx T) × List (Cx T))) : Prop :=
  ∀ n pr, c n = some pr → pr = bluPair cfg n

theorem getBluestein_spec (cfg : Cfg) (f : Nat) (p : Planner T) (n : Nat) (hn : 0 < n)
    (h : BluOk cfg p.blu) :
    ∃ c, BluOk cfg c ∧ p.getBluestein (fftF cfg (f + 1)) n =
      .ok ({ p with blu := c }, (bluPair cfg n).1, (bluPair cfg n).2) := by
  unfold Planner.getBluestein
  cases hb : p.blu n with
  | some pr =>
    refine ⟨p.blu, h, ?_⟩
    rw [h n pr hb]
  | none =>
    have hne : ¬ (n = 0) := by omega
    simp only [hne, if_false]
    have hm := bluM_ge n
    have hloop : forRange 1 n (grow ((List.range n).map fun i =>
          (Cx.expi ((Flt.pi *. Flt.ofNat (i * i)) /. Flt.ofNat n) : Cx T)) (nextPow2 (2 * n - 1)) Cx.zero)
        (fun i b => do
          let v ← rd b i
          wr b (nextPow2 (2 * n - 1) - i) v) = .ok (tab (bluM n) (bAt n)) := by
      rw [forRange_eq (fun k => tab (bluM n) (fun i =>
        if i < n then (Cx.expi (bluAngle n i) : Cx T)
        else if bluM n - k < i then Cx.expi (bluAngle n (bluM n - i)) else Cx.zero)) hn]
      · rfl
      · rw [show (List.range n).map (fun i =>
          (Cx.expi ((Flt.pi *. Flt.ofNat (i * i)) /. Flt.ofNat n) : Cx T)) =
          tab n (fun i => Cx.expi (bluAngle n i)) from rfl, grow_tab,
          show max n (nextPow2 (2 * n - 1)) = bluM n from by
            show max n (bluM n) = _; omega]
        apply tab_congr
        intro i hi
        split
        · rfl
        · rw [if_neg (by omega)]
      · intro k hk1 hk2
        rw [rd_tab (show k < bluM n by omega)]
        simp only [Outcome.bind_ok, hk2, if_true]
        rw [show nextPow2 (2 * n - 1) = bluM n from rfl, wr_tab (by omega)]
        congr 1
        apply tab_congr
        intro i hi
        by_cases hik : i = bluM n - k
        · rw [if_pos hik, if_neg (by omega), if_pos (by omega), hik,
            show bluM n - (bluM n - k) = k by omega]
        · rw [if_neg hik]
          split
          · rfl
          · by_cases h2 : bluM n - k < i
            · rw [if_pos h2, if_pos (by omega)]
            · rw [if_neg h2, if_neg (by omega)]
    rw [hloop]
    simp only [Outcome.bind_ok]
    obtain ⟨p', e, -⟩ := fftF_pow2 cfg f (Planner.new : Planner T) (tab (bluM n) (bAt n)) cacheOk_new
      splitOk_new (by simpa using bluM_pow2 n)
    rw [e]
    simp only [Outcome.bind_ok]
    refine ⟨_, ?_, rfl⟩
    intro k pr hk
    by_cases hkn : k = n
    · simp only [hkn, if_true, Option.some.injEq] at hk
      rw [← hk, hkn]; rfl
    · simp only [hkn, if_false] at hk
      exact h k pr hk

/-! ### Bluestein -/

/-- First work buffer: chirped input, zero padding, leftovers `st` beyond `m`. -/
def bluA (n m L : Nat) (x : Nat → Cx T) (st : Nat → Cx T) : List (Cx T) :=
  tab L (fun i => if i < n then (x i).mul (chirpAt n i) else if i < m then Cx.zero else st i)

/-- Pointwise product with the cached spectrum, then conjugation. -/
def bluMid (a fb : List (Cx T)) : List (Cx T) :=
  (copyPrefix (List.zipWith Cx.mul a fb) a).map Cx.conj

/-- Final conjugation, scaling and chirp. -/
def bluPost (n m : Nat) (a : List (Cx T)) : List (Cx T) :=
  tab n (fun i =>
    let c := (a.getD i Cx.zero).conj
    let scale : T := Flt.one /. Flt.ofNat m
    (Cx.mk (c.re *. scale) (c.im *. scale)).mul (chirpAt n i))

/-- Bluestein output on a fresh planner. -/
def bluOut (cfg : Cfg) (x : List (Cx T)) : List (Cx T) :=
  let n := x.length
  let m := bluM n
  let a := freshPow cfg (bluA n m m (fun i => x.getD i Cx.zero) (fun _ => Cx.zero))
  bluPost n m (freshPow cfg (bluMid a (bluPair cfg n).2))

/-- Bluestein output on an arbitrary planner, and the leftovers it keeps: split buffers and work
buffer. The planner only matters through its split buffers and work buffer. -/
def bluRun (cfg : Cfg) (p : Planner T) (x : List (Cx T)) :
    List (Cx T) × (List T × List T) × List (Cx T) :=
  let n := x.length
  let m := bluM n
  let L := max p.bluScratch.length m
  let a0 := bluA n m L (fun i => x.getD i Cx.zero)
    (fun i => (grow p.bluScratch m Cx.zero).getD i Cx.zero)
  let p1 := { p with splitRe := (powNext cfg p a0).1, splitIm := (powNext cfg p a0).2 }
  let a2 := bluMid (powOut cfg p a0) (bluPair cfg n).2
  let a3 := powOut cfg p1 a2
  (bluPost n m a3, powNext cfg p1 a2, (a3.map Cx.conj).map (fun c : Cx T =>
    Cx.mk (c.re *. (Flt.one /. Flt.ofNat m)) (c.im *. (Flt.one /. Flt.ofNat m))))

/-- Planner invariant. -/
structure Inv (cfg : Cfg) (p : Planner T) : Prop where
  cache : CacheOk p.cache
  blu : BluOk cfg p.blu
  split : SplitOk p
  scr : p.bluScratch.length = 0 ∨ isPow2 p.bluScratch.length = true

theorem inv_new (cfg : Cfg) : Inv cfg (Planner.new : Planner T) :=
  ⟨cacheOk_new, by intro n pr h; simp [Planner.new] at h, splitOk_new, Or.inl rfl⟩

theorem bluMid_length (a fb : List (Cx T)) : (bluMid a fb).length = a.length := by
  simp [bluMid, copyPrefix_length]

set_option maxHeartbeats 1000000 in
theorem bluestein_run (cfg : Cfg) (f : Nat) (p : Planner T) (x : List (Cx T)) (hI : Inv cfg p)
    (hn : 0 < x.length) :
    ∃ p' y, bluestein (fftF cfg (f + 1)) p x = .ok (p', y, .ok ()) ∧ Inv cfg p' ∧
      y.length = x.length ∧
      (p.bluScratch.length ≤ bluM x.length →
        (bluM x.length ≤ 16 ∨ cfg.kind = .other ∨ p.splitRe.length ≤ bluM x.length) →
        y = bluOut cfg x) ∧
      (y = (bluRun cfg p x).1 ∧ p'.splitRe = (bluRun cfg p x).2.1.1 ∧
        p'.splitIm = (bluRun cfg p x).2.1.2 ∧ p'.bluScratch = (bluRun cfg p x).2.2) ∧
      p'.bluScratch.length = max p.bluScratch.length (bluM x.length) ∧
      p'.splitRe.length ≤ max p.splitRe.length (max p.bluScratch.length (bluM x.length)) := by
  set n := x.length with hnx
  set m := bluM n with hm
  have hmge := bluM_ge n
  obtain ⟨c, hc, hg⟩ := getBluestein_spec cfg f p n hn hI.blu
  have hfb : (bluPair (T := T) cfg n).2.length = m := by
    have : (freshPow cfg (tab (bluM n) (bAt (T := T) n))).length = _ :=
      powOut_length cfg Planner.new _ (by simpa using bluM_pow2 n)
    simpa [bluPair] using this
  set L := max p.bluScratch.length m with hL
  have hLp : isPow2 L = true := by
    rcases hI.scr with h | h
    · rw [hL, h]; simpa using bluM_pow2 n
    · exact max_pow2 h (bluM_pow2 n)
  let st : Nat → Cx T := fun i => (grow p.bluScratch m Cx.zero).getD i Cx.zero
  have hgr : grow p.bluScratch m Cx.zero = tab L st := by
    have := eq_tab_getD (grow p.bluScratch m Cx.zero) Cx.zero
    rwa [grow_length] at this
  have hx : x = tab n (fun i => x.getD i Cx.zero) := eq_tab_getD x Cx.zero
  -- the two filling loops
  have l1 : forRange 0 n (tab L st) (fun i a => do
      let v ← rd x i
      let c ← rd (bluPair cfg n).1 i
      wr a i (v.mul c)) =
      .ok (tab L (fun i => if i < n then (x.getD i Cx.zero).mul (chirpAt n i) else st i)) := by
    rw [forRange_eq (fun k => tab L (fun i => if i < k then (x.getD i Cx.zero).mul (chirpAt n i)
      else st i)) (Nat.zero_le _)]
    · exact tab_congr (by simp)
    · intro k _ hk
      rw [rd_getD Cx.zero (show k < x.length by omega)]
      simp only [bluPair, rd_tab hk, Outcome.bind_ok]
      rw [wr_tab (by omega)]
      congr 1
      apply tab_congr
      intro i _
      by_cases hik : i = k
      · simp [hik]
      · rw [if_neg hik]
        by_cases h2 : i < k
        · rw [if_pos h2, if_pos (by omega)]
        · rw [if_neg h2, if_neg (by omega)]
  have l2 : forRange n m (tab L (fun i => if i < n then (x.getD i Cx.zero).mul (chirpAt n i) else st i))
      (fun i a => wr a i Cx.zero) = .ok (bluA n m L (fun i => x.getD i Cx.zero) st) := by
    rw [forRange_eq (fun k => tab L (fun i => if i < n then (x.getD i Cx.zero).mul (chirpAt n i)
      else if i < k then Cx.zero else st i)) (by omega)]
    · rfl
    · apply tab_congr
      intro i _
      split <;> rfl
    · intro k hk1 hk2
      rw [wr_tab (by omega)]
      congr 1
      apply tab_congr
      intro i _
      by_cases hik : i = k
      · rw [if_pos hik, if_neg (by omega), if_pos (by omega)]
      · rw [if_neg hik]
        split
        · rfl
        · by_cases h2 : i < k
          · rw [if_pos h2, if_pos (by omega)]
          · rw [if_neg h2, if_neg (by omega)]
  set a0 := bluA n m L (fun i => x.getD i Cx.zero) st with ha0
  have ha0l : a0.length = L := by simp [ha0, bluA]
  obtain ⟨p1, e1, hc1, hs1, hb1, hbs1, hsl1, hr1, hi1⟩ := fftF_pow2 cfg f
    { p with blu := c, bluScratch := [] } a0 hI.cache hI.split (by rw [ha0l]; exact hLp)
  set a1 := powOut cfg { p with blu := c, bluScratch := [] } a0 with ha1
  have ha1l : a1.length = L := by
    rw [ha1, powOut_length cfg _ _ (by rw [ha0l]; exact hLp), ha0l]
  set a2 := bluMid a1 (bluPair cfg n).2 with ha2
  have ha2l : a2.length = L := by rw [ha2, bluMid_length, ha1l]
  obtain ⟨p2, e2, hc2, hs2, hb2, hbs2, hsl2, hr2, hi2⟩ := fftF_pow2 cfg f p1 a2 hc1 hs1
    (by rw [ha2l]; exact hLp)
  set a3 := powOut cfg p1 a2 with ha3
  have ha3l : a3.length = L := by
    rw [ha3, powOut_length cfg _ _ (by rw [ha2l]; exact hLp), ha2l]
  set a4 := (a3.map Cx.conj).map (fun c : Cx T =>
    Cx.mk (c.re *. (Flt.one /. Flt.ofNat m)) (c.im *. (Flt.one /. Flt.ofNat m))) with ha4
  have ha4l : a4.length = L := by simp [ha4, ha3l]
  have l3 : forRange 0 n x (fun i y => do
      let v ← rd a4 i
      let c ← rd (bluPair cfg n).1 i
      wr y i (v.mul c)) = .ok (bluPost n m a3) := by
    have hx' : x = tab n (fun i => if i < 0 then (bluPost n m a3).getD i Cx.zero else x.getD i Cx.zero) := by
      conv_lhs => rw [hx]
      exact tab_congr (by simp)
    rw [forRange_eq (fun k => tab n (fun i => if i < k then (bluPost n m a3).getD i Cx.zero
      else x.getD i Cx.zero)) (Nat.zero_le _) hx']
    · conv_rhs => rw [eq_tab_getD (bluPost n m a3) Cx.zero]
      rw [show (bluPost n m a3).length = n by simp [bluPost]]
      congr 1
      exact tab_congr (fun i hi => by rw [if_pos hi])
    · intro k _ hk
      have hkL : k < a4.length := by omega
      rw [rd_ok hkL]
      simp only [bluPair, rd_tab hk, Outcome.bind_ok]
      rw [wr_tab hk]
      congr 1
      apply tab_congr
      intro i hi
      by_cases hik : i = k
      · subst hik
        simp only [if_true]
        rw [if_pos (by omega), bluPost, tab_getD hi]
        simp only [ha4, List.getElem_map]
        have : i < a3.length := by omega
        simp [List.getD_eq_getElem?_getD, this]
      · rw [if_neg hik]
        by_cases h2 : i < k
        · rw [if_pos h2, if_pos (by omega)]
        · rw [if_neg h2, if_neg (by omega)]
  have hcond : n ≤ m ∧ m ≤ (tab L (fun i => if i < n then (x.getD i Cx.zero).mul (chirpAt n i)
      else st i)).length := by simp; omega
  refine ⟨{ p2 with bluScratch := a4 }, bluPost n m a3, ?_, ⟨hc2, ?_, hs2, ?_⟩, by simp [bluPost], ?_, ?_, ?_, ?_⟩
  · unfold bluestein
    simp only [← hnx, hg, Outcome.bind_ok, hfb, hgr, l1]
    rw [if_pos hcond, l2]
    simp only [Outcome.bind_ok, e1]
    rw [show List.map Cx.conj (copyPrefix (List.zipWith Cx.mul a1 (bluPair cfg n).2) a1) = a2 from rfl, e2]
    simp only [Outcome.bind_ok]
    rw [← ha4, l3]
    rfl
  · simp only; rw [hb2, hb1]; exact hc
  · right; simp only; rw [ha4l]; exact hLp
  · intro hbl hcmp
    have hLm : L = m := by omega
    have q1 : a1 = freshPow cfg a0 := by
      apply powOut_fresh
      rw [ha0l, hLm]; exact hcmp
    have q3 : a3 = freshPow cfg a2 := by
      apply powOut_fresh
      rw [ha2l, hLm, hsl1, ha0l, hLm]
      simp only
      rcases hcmp with h | h | h
      · exact Or.inl h
      · exact Or.inr (Or.inl h)
      · right; right
        split <;> omega
    have q0 : a0 = bluA n m m (fun i => x.getD i Cx.zero) (fun _ => Cx.zero) := by
      rw [ha0, hLm, bluA, bluA]
      apply tab_congr
      intro i hi
      split <;> rfl
    unfold bluOut
    simp only [← hnx, ← hm, ← q0, ← q1, ← ha2, ← q3]
  · have f1 : powOut cfg p a0 = a1 := powOut_congr cfg rfl rfl _
    have f2 : powOut cfg { p with splitRe := (powNext cfg p a0).1, splitIm := (powNext cfg p a0).2 } a2
        = a3 := powOut_congr cfg (by rw [hr1]; exact (powNext_congr cfg rfl rfl _).1)
          (by rw [hi1]; exact (powNext_congr cfg rfl rfl _).2) _
    have f3 : powNext cfg { p with splitRe := (powNext cfg p a0).1, splitIm := (powNext cfg p a0).2 } a2
        = powNext cfg p1 a2 := powNext_congr' cfg (by rw [hr1]; exact (powNext_congr cfg rfl rfl _).1)
          (by rw [hi1]; exact (powNext_congr cfg rfl rfl _).2) _
    simp only [bluRun, ← hnx, ← hm, ← hL]
    rw [← ha0, f1, ← ha2, f2, f3]
    exact ⟨rfl, hr2, hi2, rfl⟩
  · simp only; rw [ha4l]
  · simp only
    rw [hsl2, ha2l, hsl1, ha0l]
    simp only
    split <;> omega

/-! ### `fft` -/

/-- The documented result code of `fft` on a buffer of length `n`. -/
def fftRes (cfg : Cfg) (n : Nat) : Res :=
  if n = 0 then .error .EmptyInput
  else if cfg.std = false ∧ isPow2 n = false then .error .NonPowerOfTwoNoStd
  else .ok ()

/-- Output on a fresh planner when the result is `Ok`. -/
def freshOut (cfg : Cfg) (x : List (Cx T)) : List (Cx T) :=
  if isPow2 x.length then freshPow cfg x else bluOut cfg x

/-- Length of the largest internal power-of-two transform used for length `n`. -/
def need (n : Nat) : Nat := if isPow2 n then n else bluM n

/-- The planner's leftovers are too short to matter for length `n`. -/
def Compat (cfg : Cfg) (p : Planner T) (n : Nat) : Prop :=
  (need n ≤ 16 ∨ cfg.kind = .other ∨ p.splitRe.length ≤ need n) ∧
  (isPow2 n = true ∨ p.bluScratch.length ≤ need n)

omit [Flt T] in
theorem compat_new (cfg : Cfg) (n : Nat) : Compat cfg (Planner.new : Planner T) n :=
  ⟨Or.inr (Or.inr (Nat.zero_le _)), Or.inr (Nat.zero_le _)⟩

/-- Output and leftovers of a successful `fft` as a function of the leftovers and the input. -/
def fftOut (cfg : Cfg) (p : Planner T) (x : List (Cx T)) :
    List (Cx T) × (List T × List T) × List (Cx T) :=
  if isPow2 x.length then (powOut cfg p x, powNext cfg p x, p.bluScratch)
  else bluRun cfg p x

theorem fftF_run (cfg : Cfg) (f : Nat) (p : Planner T) (x : List (Cx T)) (hI : Inv cfg p) :
    ∃ p' y, fftF cfg (f + 2) p x = .ok (p', y, fftRes cfg x.length) ∧ Inv cfg p' ∧
      y.length = x.length ∧
      (∀ e, fftRes cfg x.length = .error e → y = x ∧ p' = p) ∧
      (fftRes cfg x.length = .ok () → Compat cfg p x.length → y = freshOut cfg x) ∧
      (isPow2 x.length = true → y = powOut cfg p x) ∧
      (fftRes cfg x.length = .ok () → (y, (p'.splitRe, p'.splitIm), p'.bluScratch) = fftOut cfg p x) ∧
      (∀ B, need x.length ≤ B → p.splitRe.length ≤ B → p.bluScratch.length ≤ B →
        p'.splitRe.length ≤ B ∧ p'.bluScratch.length ≤ B) := by
  by_cases h0 : x.length = 0
  · refine ⟨p, x, ?_, hI, rfl, fun _ _ => ⟨rfl, rfl⟩, ?_, ?_, ?_, fun B _ h1 h2 => ⟨h1, h2⟩⟩
    · show fftBody cfg _ p x = _
      simp [fftBody, h0, fftRes]
    · intro h; simp [fftRes, h0] at h
    · intro h; have := isPow2_pos h; omega
    · intro h; simp [fftRes, h0] at h
  have hpos : 0 < x.length := by omega
  by_cases hp : isPow2 x.length = true
  · obtain ⟨p', e, h1, h2, h3, h4, h5, h6, h7⟩ := fftF_pow2 cfg (f + 1) p x hI.cache hI.split hp
    have hr : fftRes cfg x.length = .ok () := by simp [fftRes, h0, hp]
    refine ⟨p', _, by rw [hr]; exact e, ⟨h1, ?_, h2, ?_⟩, powOut_length cfg p x hp, ?_, ?_,
      fun _ => rfl, ?_, ?_⟩
    · rw [h3]; exact hI.blu
    · rw [h4]; exact hI.scr
    · intro e he; rw [hr] at he; simp at he
    · intro _ hcmp
      rw [freshOut, if_pos hp]
      apply powOut_fresh
      have := hcmp.1
      simpa [need, hp] using this
    · intro _
      rw [fftOut, if_pos hp, h6, h7, h4]
    · intro B hB hB1 hB2
      rw [h4, h5]
      simp only [need, hp, if_true] at hB
      refine ⟨?_, hB2⟩
      split <;> omega
  · have hp' : isPow2 x.length = false := by simpa using hp
    have h3 := nonpow2_ge3 hpos hp'
    have hand : ¬ (x.length &&& (x.length - 1) = 0) := by
      rw [and_pred_eq_zero_iff hpos]; exact hp
    have hb : fftF cfg (f + 2) p x = if !cfg.std then .ok (p, x, .error .NonPowerOfTwoNoStd)
        else bluestein (fftF cfg (f + 1)) p x := by
      show fftBody cfg _ p x = _
      unfold fftBody
      have h1 : ¬ (x.length = 1) := by omega
      simp only [h0, h1, hp', hand, if_false, Bool.and_false, Bool.false_eq_true]
    cases hstd : cfg.std with
    | false =>
      have hr : fftRes cfg x.length = .error .NonPowerOfTwoNoStd := by simp [fftRes, h0, hp', hstd]
      refine ⟨p, x, ?_, hI, rfl, fun _ _ => ⟨rfl, rfl⟩, ?_, ?_, ?_, fun B _ h1 h2 => ⟨h1, h2⟩⟩
      · rw [hb, hstd, hr]; rfl
      · intro h; rw [hr] at h; simp at h
      · intro h; exact absurd h hp
      · intro h; rw [hr] at h; simp at h
    | true =>
      have hr : fftRes cfg x.length = .ok () := by simp [fftRes, h0, hstd]
      obtain ⟨p', y, e, h1, h2, h3, h6, h4, h5⟩ := bluestein_run cfg f p x hI hpos
      refine ⟨p', y, ?_, h1, h2, ?_, ?_, fun h => absurd h hp, ?_, ?_⟩
      · rw [hb, hstd, hr]; exact e
      · intro e he; rw [hr] at he; simp at he
      · intro _ hcmp
        rw [freshOut, hp', if_neg (by simp)]
        apply h3
        · rcases hcmp.2 with h | h
          · exact absurd h hp
          · simpa [need, hp'] using h
        · simpa [need, hp'] using hcmp.1
      · intro _
        rw [fftOut, hp', if_neg (by simp), h6.1, h6.2.1, h6.2.2.1, h6.2.2.2]
      · intro B hB hB1 hB2
        simp only [need, hp', Bool.false_eq_true, if_false] at hB
        rw [h4]
        omega

/-- `fft_run`: the same for `fft`. -/
theorem fft_run (cfg : Cfg) (p : Planner T) (x : List (Cx T)) (hI : Inv cfg p) :
    ∃ p' y, fft cfg p x = .ok (p', y, fftRes cfg x.length) ∧ Inv cfg p' ∧
      y.length = x.length ∧
      (∀ e, fftRes cfg x.length = .error e → y = x ∧ p' = p) ∧
      (fftRes cfg x.length = .ok () → Compat cfg p x.length → y = freshOut cfg x) ∧
      (isPow2 x.length = true → y = powOut cfg p x) ∧
      (fftRes cfg x.length = .ok () → (y, (p'.splitRe, p'.splitIm), p'.bluScratch) = fftOut cfg p x) ∧
      (∀ B, need x.length ≤ B → p.splitRe.length ≤ B → p.bluScratch.length ≤ B →
        p'.splitRe.length ≤ B ∧ p'.bluScratch.length ≤ B) :=
  fftF_run cfg 2 p x hI

end Kofft
