import Verif.Proof.Stage
import Verif.Lib.Pow2
/-
What `fft` does on an arbitrary planner state, with no arithmetic laws: it never panics or hangs,
its errors, and its output as an explicit function of the input and the planner's leftovers.
-/
namespace Kofft

variable {T : Type} [Flt T]

/-! ### Explicit results -/

/-- Multiplication used by the stages for this element type. -/
def mulOf (cfg : Cfg) : Cx T → Cx T → Cx T :=
  if cfg.kind = .f32 ∨ cfg.kind = .f64 then Cx.mulPlain else Cx.mul

/-- The table `get_twiddles n` returns, whatever is cached. -/
def twiddles (cfg : Cfg) (n : Nat) : List (Cx T) := (preLookup cfg n).getD (twTable n)

/-- Entry `i` of that table. -/
def twAt (cfg : Cfg) (n i : Nat) : Cx T := (twiddles cfg n).getD i Cx.zero

/-- Result of all Stockham stages on the whole buffer `z` (power-of-two length). -/
def stkOut (cfg : Cfg) (mul : Cx T → Cx T → Cx T) (z : List (Cx T)) : List (Cx T) :=
  tab z.length (stk mul z.length (twAt cfg z.length) (fun i => z.getD i Cx.zero) z.length.log2)

theorem twLoop_length (c s : T) : ∀ n (w : Cx T), (twLoop c s n w).length = n
  | 0, _ => rfl
  | n + 1, w => by simp [twLoop, twLoop_length c s n]

theorem twTable_length (n : Nat) : (twTable (T := T) n).length = n / 2 := by
  simp [twTable, twLoop_length]

theorem preTable_length (n : Nat) : (preTable (T := T) n).length = n / 2 := by
  simp [preTable]

theorem twiddles_length (cfg : Cfg) (n : Nat) : (twiddles (T := T) cfg n).length = n / 2 := by
  unfold twiddles preLookup
  split
  · simp [preTable_length]
  · simp [twTable_length]

theorem twiddles_tab (cfg : Cfg) (n : Nat) :
    twiddles (T := T) cfg n = tab (n / 2) (twAt cfg n) := by
  have := eq_tab_getD (twiddles (T := T) cfg n) Cx.zero
  rwa [twiddles_length] at this

/-- The cached tables are the computed ones. -/
def CacheOk (c : Nat → Option (List (Cx T))) : Prop := ∀ n t, c n = some t → t = twTable n

theorem getTwiddles_spec (cfg : Cfg) (p : Planner T) (n : Nat) (h : CacheOk p.cache) :
    ∃ c, CacheOk c ∧ p.getTwiddles cfg n = ({ p with cache := c }, twiddles cfg n) := by
  unfold Planner.getTwiddles twiddles
  cases hp : preLookup (T := T) cfg n with
  | some t => exact ⟨p.cache, h, rfl⟩
  | none =>
    cases hc : p.cache n with
    | some t =>
      refine ⟨p.cache, h, ?_⟩
      have := h n t hc
      simp [this]
    | none =>
      refine ⟨_, ?_, rfl⟩
      intro k t hk
      by_cases hkn : k = n
      · simp only [hkn, if_true, Option.some.injEq] at hk
        rw [← hk, hkn]
      · simp only [hkn, if_false] at hk
        exact h k t hk

/-! ### `fft_split_simd` on power-of-two lengths -/

theorem splitSimd_pow2 (cfg : Cfg) (fft : FftOp T) (p : Planner T) (f : Nat → Cx T) (K : Nat)
    (hK : 4 < K) (h : CacheOk p.cache) :
    ∃ c a b, CacheOk c ∧
      splitSimd cfg fft p (tab (2 ^ K) fun i => (f i).re) (tab (2 ^ K) fun i => (f i).im) =
      .ok ({ p with cache := c, splitScratchRe := a, splitScratchIm := b },
        tab (2 ^ K) (fun i => (stk Cx.mulPlain (2 ^ K) (twAt cfg (2 ^ K)) f K i).re),
        tab (2 ^ K) (fun i => (stk Cx.mulPlain (2 ^ K) (twAt cfg (2 ^ K)) f K i).im), .ok ()) := by
  have hpos : 0 < 2 ^ K := Nat.pow_pos (by norm_num)
  have h16 : 16 < 2 ^ K := by
    have : 2 ^ 4 < 2 ^ K := (Nat.pow_lt_pow_iff_right (by norm_num)).mpr hK
    simpa using this
  obtain ⟨c, hc, hg⟩ := getTwiddles_spec cfg p (2 ^ K) h
  have hne : ¬ ((2 : Nat) ^ K = 0) := by omega
  have hcond : (!isPow2 (2 ^ K) || decide (2 ^ K ≤ 16)) = false := by
    simp [isPow2_pow, h16]
  let stage : List T × List T → Nat → Nat → List T × List T → Outcome (List T × List T) :=
    fun src n1 n2 dst => splitStage cfg.lanes (twiddles cfg (2 ^ K)) src.1 src.2 n1 n2 dst
  obtain ⟨s, e, ⟨g, hsrc, hl1, hl2, hgf⟩, hA, hB⟩ := stageLoop_ok (K := K) stage Cx.mulPlain
    (twAt cfg (2 ^ K)) f
    (fun b f => ∃ g : Nat → Cx T, b = (tab b.1.length (fun i => (g i).re),
      tab b.2.length (fun i => (g i).im)) ∧ 2 ^ K ≤ b.1.length ∧ 2 ^ K ≤ b.2.length ∧
      ∀ i, i < 2 ^ K → g i = f i)
    (fun b => b.1.length = 2 ^ K ∧ b.2.length = 2 ^ K)
    (fun b => 2 ^ K ≤ b.1.length ∧ 2 ^ K ≤ b.2.length)
    (tab (2 ^ K) fun i => (f i).re, tab (2 ^ K) fun i => (f i).im)
    (grow p.splitScratchRe (2 ^ K) Flt.zero, grow p.splitScratchIm (2 ^ K) Flt.zero)
    ⟨f, by simp, by simp, by simp, fun _ _ => rfl⟩ (by simp)
    (by simp [grow_length])
    (by
      rintro ⟨s1, s2⟩ ⟨d1, d2⟩ f' st hst ⟨g, hsrc, hl1, hl2, hgf⟩ hAB
      simp only [Prod.mk.injEq] at hsrc hl1 hl2
      have hd : 2 ^ K ≤ d1.length ∧ 2 ^ K ≤ d2.length := by
        rcases hAB with ⟨_, h⟩ | ⟨_, h⟩
        · exact h
        · exact ⟨h.1.ge, h.2.ge⟩
      have e1 : 2 * 2 ^ st * (2 ^ K / 2 ^ (st + 1)) = 2 ^ K := by
        rw [show 2 * 2 ^ st = 2 ^ (st + 1) by ring]
        exact Nat.mul_div_cancel' (pow_dvd_pow 2 hst)
      have e2 : 2 ^ st * (2 ^ K / 2 ^ (st + 1)) = 2 ^ K / 2 := by
        rw [Nat.mul_assoc] at e1; omega
      have hn2 : 0 < 2 ^ K / 2 ^ (st + 1) :=
        Nat.div_pos (Nat.pow_le_pow_right (by norm_num) hst) (Nat.pow_pos (by norm_num))
      have main := splitStage_tab (W := cfg.lanes) (n1 := 2 ^ st) (n2 := 2 ^ K / 2 ^ (st + 1))
        (h := 2 ^ K / 2) (tw := twAt (T := T) cfg (2 ^ K)) (src := g)
        (Ls := s1.length) (Ls' := s2.length) (Ld := d1.length) (Ld' := d2.length)
        (gr := fun i => d1.getD i Flt.zero) (gi := fun i => d2.getD i Flt.zero)
        hn2 (by omega) (by omega) (by omega) (by omega) (by omega)
      rw [← eq_tab_getD, ← eq_tab_getD, ← hsrc.1, ← hsrc.2, ← twiddles_tab] at main
      refine ⟨_, main, ⟨fun i => if i < 2 ^ K then
          stageF Cx.mulPlain (2 ^ st) (2 ^ K / 2 ^ (st + 1)) (twAt cfg (2 ^ K)) g i
          else ⟨d1.getD i Flt.zero, d2.getD i Flt.zero⟩, ?_, by simpa using hd.1, by simpa using hd.2, ?_⟩,
          by simp, by simp⟩
      · simp only [tab_length, e1, Prod.mk.injEq]
        constructor <;>
        · apply tab_congr
          intro i _
          split <;> rfl
      · intro i hi
        simp only [hi, if_true]
        apply stageF_congr (fun i hi => hgf i (by omega)) (fun _ _ => rfl)
        omega)
  have hfin1 : ∀ i, i < 2 ^ K → g i = stk Cx.mulPlain (2 ^ K) (twAt cfg (2 ^ K)) f K i := hgf
  obtain ⟨⟨s1, s2⟩, ⟨d1, d2⟩, b, n1, n2⟩ := s
  simp only [Prod.mk.injEq] at hsrc hl1 hl2
  simp only [stage] at e
  unfold splitSimd
  simp only [tab_length, hne, if_false, hcond, hg, Bool.false_eq_true, e, Outcome.bind_ok]
  cases b
  · obtain ⟨-, h3, h4⟩ := hB rfl
    simp only at h3 h4
    simp only [Bool.false_eq_true, if_false, copyN, hl1, hl2, h3, h4, le_refl, and_self, if_true,
      Outcome.bind_ok]
    refine ⟨c, s1, s2, hc, ?_⟩
    have q1 : s1.take (2 ^ K) ++ d1.drop (2 ^ K) =
        tab (2 ^ K) (fun i => (stk Cx.mulPlain (2 ^ K) (twAt cfg (2 ^ K)) f K i).re) := by
      rw [hsrc.1, tab_take, Nat.min_eq_left hl1, List.drop_eq_nil_of_le (by omega), List.append_nil]
      exact tab_congr fun i hi => by rw [hfin1 i hi]
    have q2 : s2.take (2 ^ K) ++ d2.drop (2 ^ K) =
        tab (2 ^ K) (fun i => (stk Cx.mulPlain (2 ^ K) (twAt cfg (2 ^ K)) f K i).im) := by
      rw [hsrc.2, tab_take, Nat.min_eq_left hl2, List.drop_eq_nil_of_le (by omega), List.append_nil]
      exact tab_congr fun i hi => by rw [hfin1 i hi]
    rw [q1, q2]
  · obtain ⟨⟨h3, h4⟩, -⟩ := hA rfl
    simp only at h3 h4
    simp only [if_true]
    refine ⟨c, d1, d2, hc, ?_⟩
    have q1 : s1 = tab (2 ^ K) (fun i => (stk Cx.mulPlain (2 ^ K) (twAt cfg (2 ^ K)) f K i).re) := by
      rw [hsrc.1, h3]; exact tab_congr fun i hi => by rw [hfin1 i hi]
    have q2 : s2 = tab (2 ^ K) (fun i => (stk Cx.mulPlain (2 ^ K) (twAt cfg (2 ^ K)) f K i).im) := by
      rw [hsrc.2, h4]; exact tab_congr fun i hi => by rw [hfin1 i hi]
    rw [q1, q2]

/-! ### Power-of-two `fft` -/

/-- The kernels return on 2, 4, 8 and 16 elements. -/
theorem smallKernel_ok (cfg : Cfg) (x : List (Cx T))
    (h : x.length = 2 ∨ x.length = 4 ∨ x.length = 8 ∨ x.length = 16) :
    ∃ y, smallKernel cfg x = .ok y ∧ y.length = x.length := by
  rcases h with h | h | h | h
  · match x, h with
    | [a, b], _ =>
      rw [show smallKernel cfg [a, b] = fft2 cfg.debug [a, b] from rfl]
      cases cfg.debug <;> exact ⟨_, rfl, rfl⟩
  · match x, h with
    | [a, b, c, d], _ =>
      rw [show smallKernel cfg [a, b, c, d] = fft4 cfg.debug [a, b, c, d] from rfl]
      cases cfg.debug <;> exact ⟨_, rfl, rfl⟩
  · match x, h with
    | [a, b, c, d, e, f, g, h], _ =>
      rw [show smallKernel cfg [a, b, c, d, e, f, g, h] = fft8 cfg.debug [a, b, c, d, e, f, g, h] from rfl]
      cases cfg.debug <;> exact ⟨_, rfl, rfl⟩
  · match x, h with
    | [a0, a1, a2, a3, a4, a5, a6, a7, a8, a9, a10, a11, a12, a13, a14, a15], _ =>
      rw [show smallKernel cfg [a0, a1, a2, a3, a4, a5, a6, a7, a8, a9, a10, a11, a12, a13, a14, a15] = fft16 cfg.debug [a0, a1, a2, a3, a4, a5, a6, a7, a8, a9, a10, a11, a12, a13, a14, a15] from rfl]
      cases cfg.debug <;> exact ⟨_, rfl, rfl⟩

/-- Kernel output (only meaningful for lengths 2, 4, 8, 16). -/
def smallOut (cfg : Cfg) (x : List (Cx T)) : List (Cx T) :=
  match smallKernel cfg x with
  | .ok y => y
  | _ => x

theorem smallKernel_eq (cfg : Cfg) (x : List (Cx T))
    (h : x.length = 2 ∨ x.length = 4 ∨ x.length = 8 ∨ x.length = 16) :
    smallKernel cfg x = .ok (smallOut cfg x) ∧ (smallOut cfg x).length = x.length := by
  obtain ⟨y, e, hl⟩ := smallKernel_ok cfg x h
  simp [smallOut, e, hl]

/-- The tail of the planner's split buffers past position `n`. -/
def stale (p : Planner T) (n : Nat) : List (Cx T) :=
  List.zipWith Cx.mk (p.splitRe.drop n) (p.splitIm.drop n)

/-- Invariant of the split buffers: same length, zero or a power of two above 16. -/
def SplitOk (p : Planner T) : Prop :=
  p.splitRe.length = p.splitIm.length ∧
  (p.splitRe.length = 0 ∨ (isPow2 p.splitRe.length = true ∧ 16 < p.splitRe.length))

omit [Flt T] in
theorem zipBack_tab (x : List (Cx T)) (L : Nat) (f : Nat → Cx T) (h : x.length ≤ L) :
    zipBack x (tab L fun i => (f i).re) (tab L fun i => (f i).im) = tab x.length f := by
  induction x generalizing L f with
  | nil => simp [zipBack, tab]
  | cons a x ih =>
    obtain ⟨L, rfl⟩ : ∃ L', L = L' + 1 := ⟨L - 1, by simp at h; omega⟩
    rw [tab_succ', tab_succ', zipBack, ih L (fun i => f (i + 1)) (by simpa using h), List.length_cons,
      tab_succ']

theorem stkOut_length (cfg : Cfg) (mul : Cx T → Cx T → Cx T) (z : List (Cx T)) :
    (stkOut cfg mul z).length = z.length := by simp [stkOut]

theorem stkOut_tab (cfg : Cfg) (mul : Cx T → Cx T → Cx T) (K : Nat) (f : Nat → Cx T) :
    stkOut cfg mul (tab (2 ^ K) f) = tab (2 ^ K) (stk mul (2 ^ K) (twAt cfg (2 ^ K)) f K) := by
  unfold stkOut
  simp only [tab_length, log2_pow']
  apply tab_congr
  intro i hi
  exact stk_congr (fun _ _ => rfl) (fun i hi => tab_getD hi) K le_rfl i hi

/-- Power-of-two output as a function of the input and the stale tail. -/
def bigOut (cfg : Cfg) (p : Planner T) (x : List (Cx T)) : List (Cx T) :=
  if cfg.kind = .f32 ∨ cfg.kind = .f64 then
    (stkOut cfg Cx.mulPlain (x ++ stale p x.length)).take x.length
  else stkOut cfg Cx.mul x

/-- The split buffers the planner keeps after a transform of power-of-two length above 16. -/
def splitNext (cfg : Cfg) (p : Planner T) (x : List (Cx T)) : List T × List T :=
  if cfg.kind = .f32 ∨ cfg.kind = .f64 then
    ((stkOut cfg Cx.mulPlain (x ++ stale p x.length)).map Cx.re,
     (stkOut cfg Cx.mulPlain (x ++ stale p x.length)).map Cx.im)
  else (grow p.splitRe x.length Flt.zero, grow p.splitIm x.length Flt.zero)

/-- `stockham_fft` on power-of-two lengths above 16. -/
theorem stockham_big (cfg : Cfg) (fft : FftOp T) (p : Planner T) (x : List (Cx T))
    (hc : CacheOk p.cache) (hs : SplitOk p) (hp : isPow2 x.length = true) (h16 : 16 < x.length) :
    ∃ p', stockham cfg fft p x = .ok (p', bigOut cfg p x, .ok ()) ∧
      CacheOk p'.cache ∧ SplitOk p' ∧ p'.blu = p.blu ∧ p'.bluScratch = p.bluScratch ∧
      p'.splitRe.length = max p.splitRe.length x.length ∧
      p'.splitRe = (splitNext cfg p x).1 ∧ p'.splitIm = (splitNext cfg p x).2 := by
  obtain ⟨c, hc', hg⟩ := getTwiddles_spec cfg p x.length hc
  have hne : ¬ (x.length = 0) := by omega
  have hne16 : ¬ (x.length ≤ 16) := by omega
  obtain ⟨hs1, hs2⟩ := hs
  set L := max p.splitRe.length x.length with hL
  have hLp : isPow2 L = true := by
    rcases hs2 with h | ⟨h, _⟩
    · rw [hL, h]; simpa using hp
    · exact max_pow2 h hp
  have hL16 : 16 < L := by rw [hL]; omega
  obtain ⟨K, hK, hLK⟩ := pow2_gt16 hLp hL16
  have hlen1 : (grow p.splitRe x.length Flt.zero).length = L := by rw [grow_length]
  have hlen2 : (grow p.splitIm x.length Flt.zero).length = L := by rw [grow_length, ← hs1]
  unfold stockham
  simp only [hne, if_false, hp, Bool.not_true, Bool.false_eq_true, hne16, hg]
  by_cases hk : cfg.kind = .f32 ∨ cfg.kind = .f64
  · simp only [hk, if_true]
    -- contents handed to the split transform
    set z := x ++ stale p x.length with hz
    have hzl : z.length = L := by
      simp [hz, stale, ← hs1]; omega
    have hz1 : copyPrefix (x.map Cx.re) (grow p.splitRe x.length Flt.zero) =
        tab L (fun i => (z.getD i Cx.zero).re) := by
      have e1 : grow p.splitRe x.length Flt.zero =
          tab L (fun i => (grow p.splitRe x.length Flt.zero).getD i Flt.zero) := by
        rw [← hlen1]; exact eq_tab_getD _ _
      have e2 : x.map Cx.re = tab x.length (fun i => (x.getD i Cx.zero).re) := by
        conv_lhs => rw [eq_tab_getD x Cx.zero]
        rw [tab_map]
      rw [e1, e2, (copyN_tab (m := x.length) (le_refl _) (show x.length ≤ L by omega)).1]
      apply tab_congr
      intro i hi
      split
      · rename_i hix
        simp [hz, List.getD_eq_getElem?_getD, List.getElem?_append_left hix, hix]
      · rename_i hix
        have hi2 : i < p.splitRe.length := by omega
        have hi3 : i < p.splitIm.length := by omega
        have : (x ++ stale p x.length)[i]? = some ⟨p.splitRe[i], p.splitIm[i]⟩ := by
          rw [List.getElem?_append_right (by omega)]
          simp only [stale, List.getElem?_zipWith, List.getElem?_drop]
          rw [show x.length + (i - x.length) = i by omega]
          simp [hi2, hi3]
        have hgr : (grow p.splitRe x.length Flt.zero)[i]? = some p.splitRe[i] := by
          rw [grow, List.getElem?_append_left hi2]; simp
        simp [hz, List.getD_eq_getElem?_getD, this, hgr]
    have hz2 : copyPrefix (x.map Cx.im) (grow p.splitIm x.length Flt.zero) =
        tab L (fun i => (z.getD i Cx.zero).im) := by
      have e1 : grow p.splitIm x.length Flt.zero =
          tab L (fun i => (grow p.splitIm x.length Flt.zero).getD i Flt.zero) := by
        rw [← hlen2]; exact eq_tab_getD _ _
      have e2 : x.map Cx.im = tab x.length (fun i => (x.getD i Cx.zero).im) := by
        conv_lhs => rw [eq_tab_getD x Cx.zero]
        rw [tab_map]
      rw [e1, e2, (copyN_tab (m := x.length) (le_refl _) (show x.length ≤ L by omega)).1]
      apply tab_congr
      intro i hi
      split
      · rename_i hix
        simp [hz, List.getD_eq_getElem?_getD, List.getElem?_append_left hix, hix]
      · rename_i hix
        have hi2 : i < p.splitRe.length := by omega
        have hi3 : i < p.splitIm.length := by omega
        have : (x ++ stale p x.length)[i]? = some ⟨p.splitRe[i], p.splitIm[i]⟩ := by
          rw [List.getElem?_append_right (by omega)]
          simp only [stale, List.getElem?_zipWith, List.getElem?_drop]
          rw [show x.length + (i - x.length) = i by omega]
          simp [hi2, hi3]
        have hgr : (grow p.splitIm x.length Flt.zero)[i]? = some p.splitIm[i] := by
          rw [grow, List.getElem?_append_left hi3]; simp
        simp [hz, List.getD_eq_getElem?_getD, this, hgr]
    obtain ⟨c2, a, b, hc2, hsplit⟩ := splitSimd_pow2 cfg fft
      { p with cache := c, scratch := [], splitRe := [], splitIm := [] }
      (fun i => z.getD i Cx.zero) K hK hc'
    rw [← hLK] at hsplit
    have hout : stkOut cfg Cx.mulPlain z = tab L (stk Cx.mulPlain L (twAt cfg L)
        (fun i => z.getD i Cx.zero) K) := by
      unfold stkOut
      rw [hzl, hLK, log2_pow']
    rw [hz1, hz2]
    simp only [hsplit, Outcome.bind_ok]
    rw [zipBack_tab _ _ _ (by omega)]
    have hbo : bigOut cfg p x = tab x.length (stk Cx.mulPlain L (twAt cfg L)
        (fun i => z.getD i Cx.zero) K) := by
      simp only [bigOut, hk, if_true, ← hz, hout, tab_take, Nat.min_eq_left (show x.length ≤ L by omega)]
    rw [hbo]
    · refine ⟨_, rfl, hc2, ⟨by simp, ?_⟩, rfl, rfl, by simp, ?_, ?_⟩
      · right; simp [hLp, hL16]
      · simp only [splitNext, hk, if_true, ← hz, hout, tab_map]
      · simp only [splitNext, hk, if_true, ← hz, hout, tab_map]
  · simp only [hk, if_false]
    obtain ⟨K', hK', hxK⟩ := pow2_gt16 hp h16
    have hsc : x.length ≤ (grow p.scratch x.length Cx.zero).length := by rw [grow_length]; omega
    obtain ⟨s, e, hsrc, hA, hB⟩ := stageLoop_ok (K := K')
      (fun src n1 n2 dst => cxStage cfg.debug (twiddles cfg (2 ^ K')) src n1 n2 dst)
      Cx.mul (twAt cfg (2 ^ K')) (fun i => x.getD i Cx.zero)
      (fun b f => b = tab (2 ^ K') f) (fun b => b.length = 2 ^ K') (fun b => b.length = 2 ^ K')
      x ((grow p.scratch x.length Cx.zero).take x.length)
      (by rw [← hxK]; exact eq_tab_getD _ _) hxK (by simp [hxK] at hsc ⊢; omega)
      (by
        rintro src dst f st hst rfl hAB
        have hd : dst.length = 2 ^ K' := by rcases hAB with h | h <;> exact h.2
        have e1 : 2 * 2 ^ st * (2 ^ K' / 2 ^ (st + 1)) = 2 ^ K' := by
          rw [show 2 * 2 ^ st = 2 ^ (st + 1) by ring]
          exact Nat.mul_div_cancel' (pow_dvd_pow 2 hst)
        have e2 : 2 ^ st * (2 ^ K' / 2 ^ (st + 1)) = 2 ^ K' / 2 := by
          rw [Nat.mul_assoc] at e1; omega
        have hn2 : 0 < 2 ^ K' / 2 ^ (st + 1) :=
          Nat.div_pos (Nat.pow_le_pow_right (by norm_num) hst) (Nat.pow_pos (by norm_num))
        have main := cxStage_tab (dbg := cfg.debug) (h := 2 ^ K' / 2) (tw := twAt (T := T) cfg (2 ^ K'))
          (src := f) (g := fun i => dst.getD i Cx.zero) hn2 (by omega) e1
        rw [← twiddles_tab, ← hd, ← eq_tab_getD, hd] at main
        exact ⟨_, main, rfl, by simp, by simp⟩)
    rw [← hxK] at e hsrc
    simp only [e, Outcome.bind_ok]
    have hout : bigOut cfg p x = s.src := by
      simp only [bigOut, hk, if_false, hsrc, stkOut]
      rw [hxK, log2_pow']
    have hspl : SplitOk { p with splitRe := grow p.splitRe x.length Flt.zero,
                                 splitIm := grow p.splitIm x.length Flt.zero } := by
      refine ⟨by simp [hlen1, hlen2], ?_⟩
      right; simp [hlen1, hLp, hL16]
    by_cases hb : s.srcIsInput = true
    · simp only [hb, if_true]
      rw [hout]
      exact ⟨_, rfl, hc', hspl, rfl, rfl, hlen1, by simp [splitNext, hk], by simp [splitNext, hk]⟩
    · have hb' : s.srcIsInput = false := by simpa using hb
      have h1 := (hB hb').2
      have h2 := (hB hb').1
      have h1' : x.length ≤ s.dst.length := by omega
      have h2' : x.length ≤ s.src.length := by omega
      simp only [hb', Bool.false_eq_true, if_false, copyN, h1', h2', and_self, if_true,
        Outcome.bind_ok]
      rw [hout, List.drop_eq_nil_of_le (show s.dst.length ≤ x.length by omega), List.append_nil,
        List.take_of_length_le (show s.src.length ≤ x.length by omega)]
      exact ⟨_, rfl, hc', hspl, rfl, rfl, hlen1, by simp [splitNext, hk], by simp [splitNext, hk]⟩

end Kofft
