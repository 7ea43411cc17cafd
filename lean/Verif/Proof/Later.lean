import Verif.Spec.Later
import Verif.Proof.Reach
/-
The leftovers of a transformer never shrink.
-/
namespace Kofft
open Spec

variable {T : Type} [Flt T]

theorem splitNext_grows (cfg : Cfg) (p : Planner T) (hs : p.splitRe.length = p.splitIm.length) (x : List (Cx T)) :
    (splitNext cfg p x).1.length = max p.splitRe.length x.length := by
  unfold splitNext
  split
  · simp only [List.length_map, stkOut_length, List.length_append, stale, List.length_zipWith, List.length_drop, ← hs]
    omega
  · rw [grow_length]

theorem powNext_grows (cfg : Cfg) (p : Planner T) (hs : p.splitRe.length = p.splitIm.length) (x : List (Cx T)) :
    p.splitRe.length ≤ (powNext cfg p x).1.length ∧ (16 < x.length → x.length ≤ (powNext cfg p x).1.length) := by
  unfold powNext
  split
  · rw [splitNext_grows cfg p hs]; omega
  · exact ⟨le_rfl, fun h => by omega⟩

theorem powNext_same (cfg : Cfg) (p : Planner T) (hs : p.splitRe.length = p.splitIm.length) (x : List (Cx T)) :
    (powNext cfg p x).1.length = (powNext cfg p x).2.length := by
  unfold powNext splitNext
  split
  · split
    · simp
    · simp [grow_length, hs]
  · exact hs

/-- The operation never shrinks the split buffers and the work buffer. -/
def Grows (cfg : Cfg) (op : FftOp T) : Prop :=
  ∀ p x p' y r, Inv cfg p → op p x = .ok (p', y, r) →
    p.splitRe.length ≤ p'.splitRe.length ∧ p.bluScratch.length ≤ p'.bluScratch.length

theorem fft_grows' (cfg : Cfg) (p : Planner T) (x : List (Cx T)) (p' : Planner T) (y : List (Cx T)) (r : Res) (hI : Inv cfg p)
    (e : fft cfg p x = .ok (p', y, r)) :
    p.splitRe.length ≤ p'.splitRe.length ∧ (r = .ok () → 16 < need x.length → need x.length ≤ p'.splitRe.length) := by
  obtain ⟨p1, y1, e1, -, -, h3, -, -, h6, -⟩ := fft_run cfg p x hI
  rw [e] at e1
  simp only [Outcome.ok.injEq, Prod.mk.injEq] at e1
  obtain ⟨e1, e2, e3⟩ := e1
  subst e1 e2 e3
  rcases fftRes_cases cfg x.length with h | ⟨er, h⟩
  · have h6 := h6 h
    unfold fftOut at h6
    by_cases hp : isPow2 x.length = true
    · rw [if_pos hp] at h6
      simp only [Prod.mk.injEq] at h6
      obtain ⟨-, h7, -⟩ := h6
      have h7 := congrArg Prod.fst h7
      simp only at h7
      have := powNext_grows cfg p hI.split.1 x
      rw [← h7] at this
      rw [need, if_pos hp]
      exact ⟨this.1, fun _ => this.2⟩
    · rw [if_neg hp] at h6
      unfold bluRun at h6
      simp only [Prod.mk.injEq] at h6
      obtain ⟨-, h7, -⟩ := h6
      have h7 := congrArg Prod.fst h7
      simp only at h7
      revert h7
      generalize ha0 : bluA (T := T) _ _ _ _ _ = a0
      have hl : a0.length = max p.bluScratch.length (bluM x.length) := by rw [← ha0, bluA, tab_length]
      generalize bluMid (T := T) _ _ = a2
      intro h7
      have k1 := powNext_grows cfg p hI.split.1 a0
      have k2 := powNext_grows cfg { p with splitRe := (powNext cfg p a0).1, splitIm := (powNext cfg p a0).2 }
        (powNext_same cfg p hI.split.1 a0) a2
      rw [← h7] at k2
      rw [need, if_neg hp]
      have k3 := k2.1
      simp only at k3
      refine ⟨k1.1.trans k3, fun _ h16 => le_trans ?_ k3⟩
      have := k1.2 (by omega)
      omega
  · rw [(h3 er h).2]
    exact ⟨le_rfl, fun h' => by rw [h] at h'; cases h'⟩

theorem bluRun_scr_length (cfg : Cfg) (p : Planner T) (x : List (Cx T)) (hI : Inv cfg p) :
    (bluRun cfg p x).2.2.length = max p.bluScratch.length (bluM x.length) := by
  have hp : isPow2 (max p.bluScratch.length (bluM x.length)) = true := by
    rcases hI.scr with h | h
    · rw [h]; simpa using bluM_pow2 x.length
    · exact max_pow2 h (bluM_pow2 _)
  unfold bluRun
  simp only [List.length_map]
  rw [powOut_length, bluMid_length, powOut_length]
  · simp [bluA]
  · simp only [bluA, tab_length]; exact hp
  · rw [bluMid_length, powOut_length]
    · simp only [bluA, tab_length]; exact hp
    · simp only [bluA, tab_length]; exact hp

theorem fft_scratch' (cfg : Cfg) (p : Planner T) (x : List (Cx T)) (p' : Planner T) (y : List (Cx T)) (r : Res) (hI : Inv cfg p)
    (e : fft cfg p x = .ok (p', y, r)) :
    p.bluScratch.length ≤ p'.bluScratch.length ∧
      (r = .ok () → isPow2 x.length = false → need x.length ≤ p'.bluScratch.length) := by
  obtain ⟨p1, y1, e1, -, -, h3, -, -, h6, -⟩ := fft_run cfg p x hI
  rw [e] at e1
  simp only [Outcome.ok.injEq, Prod.mk.injEq] at e1
  obtain ⟨e1, e2, e3⟩ := e1
  subst e1 e2 e3
  rcases fftRes_cases cfg x.length with h | ⟨er, h⟩
  · have h6 := h6 h
    unfold fftOut at h6
    by_cases hp : isPow2 x.length = true
    · rw [if_pos hp] at h6
      simp only [Prod.mk.injEq] at h6
      rw [h6.2.2]
      exact ⟨le_rfl, fun _ h => by rw [hp] at h; cases h⟩
    · rw [if_neg hp] at h6
      have hl := bluRun_scr_length cfg p x hI
      have h7 := congrArg (fun v => v.2.2.length) h6
      simp only at h7
      rw [need, if_neg hp, h7, hl]
      exact ⟨le_max_left _ _, fun _ _ => le_max_right _ _⟩
  · rw [(h3 er h).2]
    exact ⟨le_rfl, fun h' => by rw [h] at h'; cases h'⟩

theorem fft_grows (cfg : Cfg) : Grows (T := T) cfg (fft cfg) := fun p x p' y r hI e =>
  ⟨(fft_grows' cfg p x p' y r hI e).1, (fft_scratch' cfg p x p' y r hI e).1⟩

theorem ifft_grows (cfg : Cfg) : Grows (T := T) cfg (ifft cfg) := by
  intro p x p' y r hI e
  unfold ifft ifftWith at e
  by_cases h0 : x.length = 0
  · simp [h0] at e; rw [← e.1]; exact ⟨le_rfl, le_rfl⟩
  by_cases h1 : x.length = 1
  · simp [h1] at e; rw [← e.1]; exact ⟨le_rfl, le_rfl⟩
  obtain ⟨p1, f1, -⟩ := (fft_opOk cfg).run p (x.map Cx.conj) hI
  have := fft_grows cfg _ _ _ _ _ hI f1
  simp only [h0, h1, if_false, f1, Outcome.bind_ok] at e
  rcases fftRes_cases cfg (x.map Cx.conj).length with h | ⟨er, h⟩
  · simp only [h, Outcome.ok.injEq, Prod.mk.injEq] at e
    rw [← e.1]; exact this
  · simp only [h, Outcome.ok.injEq, Prod.mk.injEq] at e
    rw [← e.1]; exact this

/-- `Inv` plus a lower bound on the leftovers. -/
def InvG (cfg : Cfg) (B C : Nat) (p : Planner T) : Prop := Inv cfg p ∧ B ≤ p.splitRe.length ∧ C ≤ p.bluScratch.length

theorem op_invG {cfg : Cfg} {op : FftOp T} {out} (ho : OpOk cfg op out) (hg : Grows cfg op) {B C : Nat} {p p' : Planner T}
    {x y : List (Cx T)} {r : Res} (h : InvG cfg B C p) 
    (e : op p x = .ok (p', y, r)) : InvG cfg B C p' := by
  obtain ⟨p1, e1, h1, -, h3⟩ := ho.run p x h.1
  rw [e] at e1
  simp only [Outcome.ok.injEq, Prod.mk.injEq] at e1
  rw [e1.1]
  have := hg p x p1 _ _ h.1 (e1.1 ▸ e)
  exact ⟨h1, h.2.1.trans this.1, h.2.2.trans this.2⟩

theorem agree_invG {cfg : Cfg} {B C : Nat} {p p' : Planner T} (h : InvG cfg B C p) (hI : Inv cfg p')
    (ha : Agree p' p) : InvG cfg B C p' :=
  ⟨hI, by rw [ha.1]; exact h.2.1, by rw [ha.2.2]; exact h.2.2⟩

theorem radix4_invG {cfg : Cfg} {B C : Nat} {p p' : Planner T} {x y : List (Cx T)} {r : Res}
    (h : InvG cfg B C p) (e : fftRadix4 cfg p x = .ok (p', y, r)) :
    InvG cfg B C p' := by
  by_cases hp : isPow2 x.length = true ∧ x.length.log2 % 2 = 0
  · obtain ⟨p1, y1, e1, h1, -, h3⟩ := fftRadix4_ok cfg p x h.1 hp.1 hp.2
    rw [e] at e1
    simp only [Outcome.ok.injEq, Prod.mk.injEq] at e1
    rw [e1.1]
    exact agree_invG h h1 h3
  · rw [fftRadix4_fallback cfg p x (by
      rcases not_and_or.mp hp with h | h
      · left; simpa using h
      · exact Or.inr h)] at e
    exact op_invG (fft_opOk cfg) (fft_grows cfg) h e

theorem stockham_invG {cfg : Cfg} {B C : Nat} {p p' : Planner T} {x y : List (Cx T)} {r : Res}
    (h : InvG cfg B C p) (e : stockhamFft cfg p x = .ok (p', y, r)) :
    InvG cfg B C p' := by
  by_cases h0 : x.length = 0
  · rw [stockhamFft_zero cfg p x h0] at e
    simp only [Outcome.ok.injEq, Prod.mk.injEq] at e
    rw [← e.1]; exact h
  by_cases h1 : x.length = 1
  · rw [stockhamFft_one cfg p x h1] at e; simp at e
  rw [stockhamFft_eq cfg p x h.1 (by omega)] at e
  exact op_invG (fft_opOk cfg) (fft_grows cfg) h e

theorem strided_invG {cfg : Cfg} {op : FftOp T} {out} (ho : OpOk cfg op out) (hg : Grows cfg op) {B C : Nat}
    {p p' : Planner T} {x sc y s : List (Cx T)} {stride : Nat} {r : Res} (h : InvG cfg B C p)
    (e : strided op p x stride sc = .ok (p', y, s, r)) :
    InvG cfg B C p' := by
  by_cases hs : stride = 0
  · simp [strided, hs] at e; rw [← e.1]; exact h
  by_cases hn : sc.length = 0
  · simp [strided, hs, hn] at e; rw [← e.1]; exact h
  by_cases hl : x.length < (sc.length - 1) * stride + 1
  · simp [strided, hs, hn, hl] at e; rw [← e.1]; exact h
  obtain ⟨p1, e0, e1, h1, -, -⟩ := strided_run ho p x stride sc h.1 (by omega) (by omega) (by omega)
  rw [e] at e1
  simp only [Outcome.ok.injEq, Prod.mk.injEq] at e1
  rw [e1.1]; exact op_invG ho hg h e0

theorem stridedAlloc_invG {cfg : Cfg} {op : FftOp T} {out} (ho : OpOk cfg op out) (hg : Grows cfg op) {B C : Nat}
    {p p' : Planner T} {x y : List (Cx T)} {stride : Nat} {r : Res} (h : InvG cfg B C p)
    (e : stridedAlloc op p x stride = .ok (p', y, r)) :
    InvG cfg B C p' := by
  unfold stridedAlloc at e
  simp only at e
  revert e
  generalize hsc : List.take _ (grow p.scratch _ Cx.zero) = sc
  generalize hq : strided op _ x stride _ = q
  cases q with
  | ok v =>
    obtain ⟨p1, y1, s1, r1⟩ := v
    have hp0 : InvG cfg B C { p with scratch := [] } := ⟨h.1.withScratch [], h.2⟩
    have := strided_invG ho hg hp0 hq
    intro e
    simp only [Outcome.bind_ok, Outcome.ok.injEq, Prod.mk.injEq] at e
    rw [← e.1]
    exact ⟨this.1.withScratch _, this.2⟩
  | panic => intro e; simp at e
  | hang => intro e; simp at e

theorem oop_invG {cfg : Cfg} {op : FftOp T} {out} (ho : OpOk cfg op out) (hg : Grows cfg op) {B C : Nat}
    {p p' : Planner T} {x o y : List (Cx T)} {si so : Nat} {r : Res} (h : InvG cfg B C p)
    (e : oopStrided op p x si o so = .ok (p', y, r)) :
    InvG cfg B C p' := by
  by_cases h1 : si = 0 ∨ so = 0
  · simp [oopStrided, h1] at e; rw [← e.1]; exact h
  by_cases h2 : x.length % si ≠ 0 ∨ o.length % so ≠ 0
  · simp only [oopStrided, h1, h2, if_false, if_true, Outcome.ok.injEq, Prod.mk.injEq] at e
    rw [← e.1]; exact h
  by_cases h3 : o.length / so ≠ x.length / si
  · simp only [oopStrided, h1, h2, if_false] at e
    rw [if_pos h3] at e
    simp only [Outcome.ok.injEq, Prod.mk.injEq] at e
    rw [← e.1]; exact h
  push Not at h1 h2 h3
  have hx : x.length = x.length / si * si := by
    have := Nat.div_add_mod x.length si; rw [h2.1, Nat.mul_comm] at this; omega
  have hy : o.length = x.length / si * so := by
    have := Nat.div_add_mod o.length so; rw [h2.2, Nat.mul_comm, h3] at this; omega
  obtain ⟨p1, s, e0, e1, h4⟩ := oopStrided_run ho p x si o so _ h.1 (by omega) (by omega) hx hy
  have hp0 : InvG cfg B C { p with scratch := [] } := ⟨h.1.withScratch [], h.2⟩
  have := op_invG ho hg hp0 e0
  rw [e] at e1
  simp only [Outcome.ok.injEq, Prod.mk.injEq] at e1
  rw [e1.1]; exact ⟨this.1.withScratch _, this.2⟩

theorem splitVia_invG {cfg : Cfg} {op : FftOp T} {out} (ho : OpOk cfg op out) (hg : Grows cfg op) {B C : Nat}
    {p p' : Planner T} {re im re' im' : List T} {r : Res} (h : InvG cfg B C p)
    (hl : re.length = im.length)
    (e : splitVia op p re im = .ok (p', re', im', r)) :
    InvG cfg B C p' := by
  have hz : (List.zipWith Cx.mk re im).length = re.length := by simp [hl]
  obtain ⟨p1, e1, h1, h2, h3⟩ := ho.run p (List.zipWith Cx.mk re im) h.1
  have hq := op_invG ho hg h e1
  rw [hz] at e1 h2 h3
  unfold splitVia at e
  simp only [zip_loop re im hl, Outcome.bind_ok, e1] at e
  rcases fftRes_cases cfg re.length with hr | ⟨er, hr⟩
  · simp only [hr] at e
    rw [unzip_loop _ re im h2 hl] at e
    simp only [Outcome.bind_ok, Outcome.pure_eq, Outcome.ok.injEq, Prod.mk.injEq] at e
    rw [← e.1]
    exact hq
  · simp only [hr, Outcome.ok.injEq, Prod.mk.injEq] at e
    rw [← e.1]
    exact hq

theorem splitSimd_invG {cfg : Cfg} {B C : Nat}
    {p p' : Planner T} {re im re' im' : List T} {r : Res} (h : InvG cfg B C p)
    (hl : re.length = im.length)
    (e : splitSimd cfg (fft cfg) p re im = .ok (p', re', im', r)) :
    InvG cfg B C p' := by
  have hz : (List.zipWith Cx.mk re im).length = re.length := by simp [hl]
  by_cases h0 : re.length = 0
  · unfold splitSimd at e
    simp [h0] at e
    rw [← e.1]; exact h
  by_cases hp : isPow2 re.length = true ∧ 16 < re.length
  · obtain ⟨hp, h16⟩ := hp
    obtain ⟨K, hK, hLK⟩ := pow2_gt16 hp h16
    obtain ⟨c, a, b, hc, e1⟩ := splitSimd_pow2 cfg (fft cfg) p
      (fun i => ⟨re.getD i Flt.zero, im.getD i Flt.zero⟩) K hK h.1.cache
    simp only at e1
    rw [← hLK, ← eq_tab_getD, hl, ← eq_tab_getD, ← hl] at e1
    rw [e] at e1
    simp only [Outcome.ok.injEq, Prod.mk.injEq] at e1
    rw [e1.1]
    exact ⟨⟨hc, h.1.blu, h.1.split, h.1.scr⟩, h.2⟩
  · obtain ⟨p1, e1, h1, h2, h3⟩ := (fft_opOk cfg).run p (List.zipWith Cx.mk re im) h.1
    have hq := op_invG (fft_opOk cfg) (fft_grows cfg) h e1
    rw [hz] at e1 h2 h3
    have hcond : (!isPow2 re.length || decide (re.length ≤ 16)) = true := by
      simp only [not_and_or] at hp
      rcases hp with hp | hp
      · simp [hp]
      · simp [show re.length ≤ 16 by omega]
    unfold splitSimd at e
    simp only [h0, hcond, if_false, if_true, e1, Outcome.bind_ok] at e
    rcases fftRes_cases cfg re.length with hr | ⟨er, hr⟩
    · simp only [hr] at e
      rw [unzip_loop _ re im h2 hl] at e
      simp only [Outcome.bind_ok, Outcome.pure_eq, Outcome.ok.injEq, Prod.mk.injEq] at e
      rw [← e.1]; exact hq
    · simp only [hr, Outcome.ok.injEq, Prod.mk.injEq] at e
      rw [← e.1]; exact hq

theorem later_invG {cfg : Cfg} {B C : Nat} {p0 p : Planner T} (h0 : InvG cfg B C p0) (h : Later cfg p0 p) : InvG cfg B C p := by
  induction h with
  | refl => exact h0
  | fft _ e ih => exact op_invG (fft_opOk cfg) (fft_grows cfg) ih e
  | ifft _ e ih => exact op_invG (ifft_opOk cfg) (ifft_grows cfg) ih e
  | stockham _ e ih => exact stockham_invG ih e
  | radix4 _ e ih => exact radix4_invG ih e
  | @strategy p p' x y r st _ e ih =>
    unfold fftWithStrategy at e
    by_cases h0 : x.length = 0
    · simp [h0] at e; rw [← e.1]; exact ih
    by_cases h1 : x.length = 1
    · simp [h1] at e; rw [← e.1]; exact ih
    simp only [h0, h1, if_false] at e
    split at e
    · exact op_invG (fft_opOk cfg) (fft_grows cfg) ih e
    · split at e
      · exact radix4_invG ih e
      · exact op_invG (fft_opOk cfg) (fft_grows cfg) ih e
    · exact stockham_invG ih e
    · exact op_invG (fft_opOk cfg) (fft_grows cfg) ih e
  | @split p p' re im re' im' r _ e ih =>
    unfold fftSplit at e
    split at e
    · simp at e; rw [← e.1]; exact ih
    · rename_i hlen
      split at e
      · exact splitSimd_invG ih (by simpa using hlen) e
      · exact splitVia_invG (fft_opOk cfg) (fft_grows cfg) ih (by simpa using hlen) e
  | @isplit p p' re im re' im' r _ e ih =>
    unfold ifftSplit at e
    split at e
    · simp at e; rw [← e.1]; exact ih
    · rename_i hlen
      split at e
      · obtain ⟨p1, e1, h1, h2, h3⟩ := splitSimd_run cfg p re (im.map Flt.neg) ih.1
          (by simpa using hlen)
        have hp1 : InvG cfg B C p1 := splitSimd_invG ih (by simpa using hlen) e1
        simp only [e1, Outcome.bind_ok] at e
        rcases fftRes_cases cfg re.length with hr | ⟨er, hr⟩ <;>
        · simp only [hr, Outcome.ok.injEq, Prod.mk.injEq] at e
          rw [← e.1]; exact hp1
      · exact splitVia_invG (ifft_opOk cfg) (ifft_grows cfg) ih (by simpa using hlen) e
  | strided _ _ e ih => exact strided_invG (fft_opOk cfg) (fft_grows cfg) ih e
  | istrided _ _ e ih => exact strided_invG (ifft_opOk cfg) (ifft_grows cfg) ih e
  | stridedAlloc _ _ e ih => exact stridedAlloc_invG (fft_opOk cfg) (fft_grows cfg) ih e
  | istridedAlloc _ _ e ih => exact stridedAlloc_invG (ifft_opOk cfg) (ifft_grows cfg) ih e
  | oop _ _ _ e ih => exact oop_invG (fft_opOk cfg) (fft_grows cfg) ih e
  | ioop _ _ _ e ih => exact oop_invG (ifft_opOk cfg) (ifft_grows cfg) ih e
  | twiddles n _ ih =>
    obtain ⟨-, h2, h3⟩ := getTwiddles_inv cfg _ n ih.1
    exact agree_invG ih h2 h3
  | @bluestein p p' a b n _ e ih =>
    by_cases hn : n = 0
    · subst hn
      unfold Planner.getBluestein at e
      cases hb : p.blu 0 with
      | some pr =>
        simp only [hb, Outcome.ok.injEq, Prod.mk.injEq] at e
        rw [← e.1]; exact ih
      | none => simp [hb] at e
    · obtain ⟨c, hc, hg⟩ := getBluestein_spec cfg 3 p n (by omega) ih.1.blu
      rw [show fft cfg = fftF cfg (3 + 1) from rfl, hg] at e
      simp only [Outcome.ok.injEq, Prod.mk.injEq] at e
      rw [← e.1]
      exact ⟨⟨ih.1.cache, hc, ih.1.split, ih.1.scr⟩, ih.2⟩

/-- What is reachable from a reachable state is reachable. -/
theorem later_reach {cfg : Cfg} {p0 p : Planner T} (h0 : Reach cfg p0) (h : Later cfg p0 p) : Reach cfg p := by
  induction h with
  | refl => exact h0
  | fft _ e ih => exact .fft ih trivial e
  | ifft _ e ih => exact .ifft ih trivial e
  | stockham _ e ih => exact .stockham ih trivial e
  | radix4 _ e ih => exact .radix4 ih trivial e
  | strategy st _ e ih => exact .strategy st ih trivial e
  | split _ e ih => exact .split ih trivial e
  | isplit _ e ih => exact .isplit ih trivial e
  | strided s _ e ih => exact .strided s ih trivial e
  | istrided s _ e ih => exact .istrided s ih trivial e
  | stridedAlloc s _ e ih => exact .stridedAlloc s ih trivial e
  | istridedAlloc s _ e ih => exact .istridedAlloc s ih trivial e
  | oop si so _ e ih => exact .oop si so ih trivial e
  | ioop si so _ e ih => exact .ioop si so ih trivial e
  | twiddles n _ ih => exact .twiddles n ih
  | bluestein n _ e ih => exact .bluestein n ih e

end Kofft
