import Verif.Spec.Reach
import Verif.Proof.Strided
/-
Reachable planners satisfy the invariant, and their leftovers are bounded by what was computed.
-/
namespace Kofft
open Spec

variable {T : Type} [Flt T]

/-- `Inv` plus the bound on the leftovers. -/
def InvB (cfg : Cfg) (B : Nat) (p : Planner T) : Prop :=
  Inv cfg p ∧ p.splitRe.length ≤ B ∧ p.bluScratch.length ≤ B

theorem op_invB {cfg : Cfg} {op : FftOp T} {out} (ho : OpOk cfg op out) {B : Nat} {p p' : Planner T}
    {x y : List (Cx T)} {r : Res} (h : InvB cfg B p) (hn : need x.length ≤ B)
    (e : op p x = .ok (p', y, r)) : InvB cfg B p' := by
  obtain ⟨p1, e1, h1, -, h3⟩ := ho.run p x h.1
  rw [e] at e1
  simp only [Outcome.ok.injEq, Prod.mk.injEq] at e1
  rw [e1.1]
  exact ⟨h1, h3 B hn h.2.1 h.2.2⟩

theorem agree_invB {cfg : Cfg} {B : Nat} {p p' : Planner T} (h : InvB cfg B p) (hI : Inv cfg p')
    (ha : Agree p' p) : InvB cfg B p' :=
  ⟨hI, by rw [ha.1]; exact h.2.1, by rw [ha.2.2]; exact h.2.2⟩

theorem radix4_invB {cfg : Cfg} {B : Nat} {p p' : Planner T} {x y : List (Cx T)} {r : Res}
    (h : InvB cfg B p) (hn : need x.length ≤ B) (e : fftRadix4 cfg p x = .ok (p', y, r)) :
    InvB cfg B p' := by
  by_cases hp : isPow2 x.length = true ∧ x.length.log2 % 2 = 0
  · obtain ⟨p1, y1, e1, h1, -, h3⟩ := fftRadix4_ok cfg p x h.1 hp.1 hp.2
    rw [e] at e1
    simp only [Outcome.ok.injEq, Prod.mk.injEq] at e1
    rw [e1.1]
    exact agree_invB h h1 h3
  · rw [fftRadix4_fallback cfg p x (by
      rcases not_and_or.mp hp with h | h
      · left; simpa using h
      · exact Or.inr h)] at e
    exact op_invB (fft_opOk cfg) h hn e

theorem stockham_invB {cfg : Cfg} {B : Nat} {p p' : Planner T} {x y : List (Cx T)} {r : Res}
    (h : InvB cfg B p) (hn : need x.length ≤ B) (e : stockhamFft cfg p x = .ok (p', y, r)) :
    InvB cfg B p' := by
  by_cases h0 : x.length = 0
  · rw [stockhamFft_zero cfg p x h0] at e
    simp only [Outcome.ok.injEq, Prod.mk.injEq] at e
    rw [← e.1]; exact h
  by_cases h1 : x.length = 1
  · rw [stockhamFft_one cfg p x h1] at e; simp at e
  rw [stockhamFft_eq cfg p x h.1 (by omega)] at e
  exact op_invB (fft_opOk cfg) h hn e

theorem strided_invB {cfg : Cfg} {op : FftOp T} {out} (ho : OpOk cfg op out) {B : Nat}
    {p p' : Planner T} {x sc y s : List (Cx T)} {stride : Nat} {r : Res} (h : InvB cfg B p)
    (hneed : 0 < stride → need sc.length ≤ B) (e : strided op p x stride sc = .ok (p', y, s, r)) :
    InvB cfg B p' := by
  by_cases hs : stride = 0
  · simp [strided, hs] at e; rw [← e.1]; exact h
  by_cases hn : sc.length = 0
  · simp [strided, hs, hn] at e; rw [← e.1]; exact h
  by_cases hl : x.length < (sc.length - 1) * stride + 1
  · simp [strided, hs, hn, hl] at e; rw [← e.1]; exact h
  obtain ⟨p1, -, e1, h1, -, h3⟩ := strided_run ho p x stride sc h.1 (by omega) (by omega) (by omega)
  rw [e] at e1
  simp only [Outcome.ok.injEq, Prod.mk.injEq] at e1
  rw [e1.1]; exact ⟨h1, h3 B (hneed (by omega)) h.2.1 h.2.2⟩

theorem stridedAlloc_invB {cfg : Cfg} {op : FftOp T} {out} (ho : OpOk cfg op out) {B : Nat}
    {p p' : Planner T} {x y : List (Cx T)} {stride : Nat} {r : Res} (h : InvB cfg B p)
    (hn : need (x.length / stride) ≤ B) (e : stridedAlloc op p x stride = .ok (p', y, r)) :
    InvB cfg B p' := by
  unfold stridedAlloc at e
  simp only at e
  revert e
  generalize hsc : List.take _ (grow p.scratch _ Cx.zero) = sc
  generalize hq : strided op _ x stride _ = q
  cases q with
  | ok v =>
    obtain ⟨p1, y1, s1, r1⟩ := v
    have hp0 : InvB cfg B { p with scratch := [] } := ⟨h.1.withScratch [], h.2⟩
    have := strided_invB ho hp0 (by
      intro hpos
      rw [← hsc, if_neg (by omega), List.length_take, grow_length,
        Nat.min_eq_left (by omega)]
      exact hn) hq
    intro e
    simp only [Outcome.bind_ok, Outcome.ok.injEq, Prod.mk.injEq] at e
    rw [← e.1]
    exact ⟨this.1.withScratch _, this.2⟩
  | panic => intro e; simp at e
  | hang => intro e; simp at e

theorem oop_invB {cfg : Cfg} {op : FftOp T} {out} (ho : OpOk cfg op out) {B : Nat}
    {p p' : Planner T} {x o y : List (Cx T)} {si so : Nat} {r : Res} (h : InvB cfg B p)
    (hn : need (x.length / si) ≤ B) (e : oopStrided op p x si o so = .ok (p', y, r)) :
    InvB cfg B p' := by
  by_cases h1 : si = 0 ∨ so = 0
  · simp [oopStrided, h1] at e; rw [← e.1]; exact h
  by_cases h2 : x.length % si ≠ 0 ∨ o.length % so ≠ 0
  · simp only [oopStrided, h1, h2, if_false, if_true, Outcome.ok.injEq, Prod.mk.injEq] at e
    rw [← e.1]; exact h
  by_cases h3 : o.length / so ≠ x.length / si
  · simp only [oopStrided, h1, h2, if_false] at e
    rw [if_pos h3] at e
    simp only [Outcome.ok.injEq, Prod.mk.injEq] at e
    rw [← e.1]; exact h
  push Not at h1 h2 h3
  have hx : x.length = x.length / si * si := by
    have := Nat.div_add_mod x.length si; rw [h2.1, Nat.mul_comm] at this; omega
  have hy : o.length = x.length / si * so := by
    have := Nat.div_add_mod o.length so; rw [h2.2, Nat.mul_comm, h3] at this; omega
  obtain ⟨p1, s, e0, e1, h4⟩ := oopStrided_run ho p x si o so _ h.1 (by omega) (by omega) hx hy
  have hp0 : InvB cfg B { p with scratch := [] } := ⟨h.1.withScratch [], h.2⟩
  have := op_invB ho hp0 (by simpa [stridedSeq] using hn) e0
  rw [e] at e1
  simp only [Outcome.ok.injEq, Prod.mk.injEq] at e1
  rw [e1.1]; exact ⟨this.1.withScratch _, this.2⟩

theorem splitVia_invB {cfg : Cfg} {op : FftOp T} {out} (ho : OpOk cfg op out) {B : Nat}
    {p p' : Planner T} {re im re' im' : List T} {r : Res} (h : InvB cfg B p)
    (hl : re.length = im.length)
    (hn : need re.length ≤ B) (e : splitVia op p re im = .ok (p', re', im', r)) :
    InvB cfg B p' := by
  have hz : (List.zipWith Cx.mk re im).length = re.length := by simp [hl]
  obtain ⟨p1, e1, h1, h2, h3⟩ := ho.run p (List.zipWith Cx.mk re im) h.1
  rw [hz] at e1 h2 h3
  unfold splitVia at e
  simp only [zip_loop re im hl, Outcome.bind_ok, e1] at e
  rcases fftRes_cases cfg re.length with hr | ⟨er, hr⟩
  · simp only [hr] at e
    rw [unzip_loop _ re im h2 hl] at e
    simp only [Outcome.bind_ok, Outcome.pure_eq, Outcome.ok.injEq, Prod.mk.injEq] at e
    rw [← e.1]
    exact ⟨h1, h3 B hn h.2.1 h.2.2⟩
  · simp only [hr, Outcome.ok.injEq, Prod.mk.injEq] at e
    rw [← e.1]
    exact ⟨h1, h3 B hn h.2.1 h.2.2⟩

theorem splitSimd_invB {cfg : Cfg} {B : Nat}
    {p p' : Planner T} {re im re' im' : List T} {r : Res} (h : InvB cfg B p)
    (hl : re.length = im.length)
    (hn : need re.length ≤ B) (e : splitSimd cfg (fft cfg) p re im = .ok (p', re', im', r)) :
    InvB cfg B p' := by
  obtain ⟨p1, e1, h1, h2, h3⟩ := splitSimd_run cfg p re im h.1 hl
  rw [e] at e1
  simp only [Outcome.ok.injEq, Prod.mk.injEq] at e1
  rw [e1.1]
  exact ⟨h1, h3 B hn h.2.1 h.2.2⟩

theorem reachVia_invB {cfg : Cfg} {L : Nat → Prop} {B : Nat} (hL : ∀ n, L n → need n ≤ B)
    {p : Planner T} (h : ReachVia cfg L p) : InvB cfg B p := by
  induction h with
  | new => exact ⟨inv_new cfg, Nat.zero_le _, Nat.zero_le _⟩
  | fft _ hl e ih => exact op_invB (fft_opOk cfg) ih (hL _ hl) e
  | ifft _ hl e ih => exact op_invB (ifft_opOk cfg) ih (hL _ hl) e
  | stockham _ hl e ih => exact stockham_invB ih (hL _ hl) e
  | radix4 _ hl e ih => exact radix4_invB ih (hL _ hl) e
  | @strategy p p' x y r st _ hl e ih =>
    unfold fftWithStrategy at e
    by_cases h0 : x.length = 0
    · simp [h0] at e; rw [← e.1]; exact ih
    by_cases h1 : x.length = 1
    · simp [h1] at e; rw [← e.1]; exact ih
    simp only [h0, h1, if_false] at e
    split at e
    · exact op_invB (fft_opOk cfg) ih (hL _ hl) e
    · split at e
      · exact radix4_invB ih (hL _ hl) e
      · exact op_invB (fft_opOk cfg) ih (hL _ hl) e
    · exact stockham_invB ih (hL _ hl) e
    · exact op_invB (fft_opOk cfg) ih (hL _ hl) e
  | @split p p' re im re' im' r _ hl e ih =>
    unfold fftSplit at e
    split at e
    · simp at e; rw [← e.1]; exact ih
    · rename_i hlen
      split at e
      · exact splitSimd_invB ih (by simpa using hlen) (hL _ hl) e
      · exact splitVia_invB (fft_opOk cfg) ih (by simpa using hlen) (hL _ hl) e
  | @isplit p p' re im re' im' r _ hl e ih =>
    unfold ifftSplit at e
    split at e
    · simp at e; rw [← e.1]; exact ih
    · rename_i hlen
      split at e
      · obtain ⟨p1, e1, h1, h2, h3⟩ := splitSimd_run cfg p re (im.map Flt.neg) ih.1
          (by simpa using hlen)
        simp only [e1, Outcome.bind_ok] at e
        have hp1 : InvB cfg B p1 := ⟨h1, h3 B (hL _ hl) ih.2.1 ih.2.2⟩
        rcases fftRes_cases cfg re.length with hr | ⟨er, hr⟩ <;>
        · simp only [hr, Outcome.ok.injEq, Prod.mk.injEq] at e
          rw [← e.1]; exact hp1
      · exact splitVia_invB (ifft_opOk cfg) ih (by simpa using hlen) (hL _ hl) e
  | strided _ _ hl e ih => exact strided_invB (fft_opOk cfg) ih (fun _ => hL _ hl) e
  | istrided _ _ hl e ih => exact strided_invB (ifft_opOk cfg) ih (fun _ => hL _ hl) e
  | stridedAlloc _ _ hl e ih => exact stridedAlloc_invB (fft_opOk cfg) ih (hL _ hl) e
  | istridedAlloc _ _ hl e ih => exact stridedAlloc_invB (ifft_opOk cfg) ih (hL _ hl) e
  | oop _ _ _ hl e ih => exact oop_invB (fft_opOk cfg) ih (hL _ hl) e
  | ioop _ _ _ hl e ih => exact oop_invB (ifft_opOk cfg) ih (hL _ hl) e
  | twiddles n _ ih =>
    obtain ⟨-, h2, h3⟩ := getTwiddles_inv cfg _ n ih.1
    exact agree_invB ih h2 h3
  | @bluestein p p' a b n _ e ih =>
    by_cases hn : n = 0
    · subst hn
      unfold Planner.getBluestein at e
      cases hb : p.blu 0 with
      | some pr =>
        simp only [hb, Outcome.ok.injEq, Prod.mk.injEq] at e
        rw [← e.1]; exact ih
      | none => simp [hb] at e
    · obtain ⟨c, hc, hg⟩ := getBluestein_spec cfg 3 p n (by omega) ih.1.blu
      rw [show fft cfg = fftF cfg (3 + 1) from rfl, hg] at e
      simp only [Outcome.ok.injEq, Prod.mk.injEq] at e
      rw [← e.1]
      exact ⟨⟨ih.1.cache, hc, ih.1.split, ih.1.scr⟩, ih.2⟩

theorem ReachVia.mono {cfg : Cfg} {L L' : Nat → Prop} (hL : ∀ n, L n → L' n) {p : Planner T}
    (h : ReachVia cfg L p) : ReachVia cfg L' p := by
  induction h with
  | new => exact .new
  | fft _ hl e ih => exact .fft ih (hL _ hl) e
  | ifft _ hl e ih => exact .ifft ih (hL _ hl) e
  | stockham _ hl e ih => exact .stockham ih (hL _ hl) e
  | radix4 _ hl e ih => exact .radix4 ih (hL _ hl) e
  | strategy st _ hl e ih => exact .strategy st ih (hL _ hl) e
  | split _ hl e ih => exact .split ih (hL _ hl) e
  | isplit _ hl e ih => exact .isplit ih (hL _ hl) e
  | strided s _ hl e ih => exact .strided s ih (hL _ hl) e
  | istrided s _ hl e ih => exact .istrided s ih (hL _ hl) e
  | stridedAlloc s _ hl e ih => exact .stridedAlloc s ih (hL _ hl) e
  | istridedAlloc s _ hl e ih => exact .istridedAlloc s ih (hL _ hl) e
  | oop si so _ hl e ih => exact .oop si so ih (hL _ hl) e
  | ioop si so _ hl e ih => exact .ioop si so ih (hL _ hl) e
  | twiddles n _ ih => exact .twiddles n ih
  | bluestein n _ e ih => exact .bluestein n ih e

/-- A reachable planner was reached through calls of bounded length. -/
theorem reachVia_bounded {cfg : Cfg} {L : Nat → Prop} {p : Planner T} (h : ReachVia cfg L p) :
    ∃ B, ReachVia cfg (fun n => need n ≤ B) p := by
  have up : ∀ {B B'} {p : Planner T}, B ≤ B' → ReachVia cfg (fun n => need n ≤ B) p →
      ReachVia cfg (fun n => need n ≤ B') p := fun hB => ReachVia.mono (fun n h => le_trans h hB)
  induction h with
  | new => exact ⟨0, .new⟩
  | @fft p p' x y r _ hl e ih =>
    obtain ⟨B, hB⟩ := ih
    exact ⟨max B (need x.length), .fft (up (le_max_left _ _) hB) (le_max_right _ _) e⟩
  | @ifft p p' x y r _ hl e ih =>
    obtain ⟨B, hB⟩ := ih
    exact ⟨max B (need x.length), .ifft (up (le_max_left _ _) hB) (le_max_right _ _) e⟩
  | @stockham p p' x y r _ hl e ih =>
    obtain ⟨B, hB⟩ := ih
    exact ⟨max B (need x.length), .stockham (up (le_max_left _ _) hB) (le_max_right _ _) e⟩
  | @radix4 p p' x y r _ hl e ih =>
    obtain ⟨B, hB⟩ := ih
    exact ⟨max B (need x.length), .radix4 (up (le_max_left _ _) hB) (le_max_right _ _) e⟩
  | @strategy p p' x y r st _ hl e ih =>
    obtain ⟨B, hB⟩ := ih
    exact ⟨max B (need x.length), .strategy st (up (le_max_left _ _) hB) (le_max_right _ _) e⟩
  | @split p p' re im re' im' r _ hl e ih =>
    obtain ⟨B, hB⟩ := ih
    exact ⟨max B (need re.length), .split (up (le_max_left _ _) hB) (le_max_right _ _) e⟩
  | @isplit p p' re im re' im' r _ hl e ih =>
    obtain ⟨B, hB⟩ := ih
    exact ⟨max B (need re.length), .isplit (up (le_max_left _ _) hB) (le_max_right _ _) e⟩
  | @strided p p' x sc y s r st _ hl e ih =>
    obtain ⟨B, hB⟩ := ih
    exact ⟨max B (need sc.length), .strided st (up (le_max_left _ _) hB) (le_max_right _ _) e⟩
  | @istrided p p' x sc y s r st _ hl e ih =>
    obtain ⟨B, hB⟩ := ih
    exact ⟨max B (need sc.length), .istrided st (up (le_max_left _ _) hB) (le_max_right _ _) e⟩
  | @stridedAlloc p p' x y r st _ hl e ih =>
    obtain ⟨B, hB⟩ := ih
    exact ⟨max B (need (x.length / st)), .stridedAlloc st (up (le_max_left _ _) hB) (le_max_right _ _) e⟩
  | @istridedAlloc p p' x y r st _ hl e ih =>
    obtain ⟨B, hB⟩ := ih
    exact ⟨max B (need (x.length / st)), .istridedAlloc st (up (le_max_left _ _) hB) (le_max_right _ _) e⟩
  | @oop p p' x o y r si so _ hl e ih =>
    obtain ⟨B, hB⟩ := ih
    exact ⟨max B (need (x.length / si)), .oop si so (up (le_max_left _ _) hB) (le_max_right _ _) e⟩
  | @ioop p p' x o y r si so _ hl e ih =>
    obtain ⟨B, hB⟩ := ih
    exact ⟨max B (need (x.length / si)), .ioop si so (up (le_max_left _ _) hB) (le_max_right _ _) e⟩
  | twiddles n _ ih => obtain ⟨B, hB⟩ := ih; exact ⟨B, .twiddles n hB⟩
  | bluestein n _ e ih => obtain ⟨B, hB⟩ := ih; exact ⟨B, .bluestein n hB e⟩

theorem reachVia_inv {cfg : Cfg} {L : Nat → Prop} {p : Planner T} (h : ReachVia cfg L p) :
    Inv cfg p := by
  obtain ⟨B, hB⟩ := reachVia_bounded h
  exact (reachVia_invB (fun _ h => h) hB).1

theorem reach_inv {cfg : Cfg} {p : Planner T} (h : Reach cfg p) : Inv cfg p := reachVia_inv h

theorem need_eq_workSize (n : Nat) : need n = workSize n := rfl

end Kofft
