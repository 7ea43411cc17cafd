import Verif.Lib.OPost
import Verif.Spec.Retain
import Verif.Proof.Reach
/-
What a planner keeps: buffers no longer than the largest internal transform, tables only for lengths that were used.
-/
namespace Kofft
open Spec

variable {T : Type} [Flt T]

/-- Buffers of at most `B` entries; twiddle tables only for `C`, Bluestein tables only for `D`. -/
structure Fits (B : Nat) (C D : Nat → Prop) (p : Planner T) : Prop where
  cache : ∀ m t, p.cache m = some t → C m ∧ t.length = m / 2
  blu : ∀ m pr, p.blu m = some pr → D m ∧ pr.1.length = m ∧ pr.2.length = bluM m
  scratch : p.scratch.length ≤ B
  blus : p.bluScratch.length ≤ B
  sre : p.splitRe.length ≤ B
  ssre : p.splitScratchRe.length ≤ B
  ssim : p.splitScratchIm.length ≤ B
  spl : SplitOk p
  scr : p.bluScratch.length = 0 ∨ isPow2 p.bluScratch.length = true

section
variable {cfg : Cfg} {B : Nat} {C D : Nat → Prop}

theorem fits_new : Fits B C D (Planner.new : Planner T) :=
  ⟨by simp [Planner.new], by simp [Planner.new], by simp [Planner.new], by simp [Planner.new], by simp [Planner.new],
    by simp [Planner.new], by simp [Planner.new], splitOk_new, Or.inl rfl⟩

theorem Fits.tw {p : Planner T} (h : Fits B C D p) {n : Nat} (hn : C n) : Fits B C D (p.getTwiddles cfg n).1 := by
  unfold Planner.getTwiddles
  split
  · exact h
  · split
    · exact h
    · refine ⟨fun m t hm => ?_, h.2, h.3, h.4, h.5, h.6, h.7, h.8, h.9⟩
      simp only at hm
      split at hm
      · rename_i e; cases hm; rw [e]; exact ⟨hn, twTable_length n⟩
      · exact h.1 m t hm

theorem getBlu_fits {p : Planner T} (h : Fits B C D p) {n : Nat} (hn : D n) (op : FftOp T)
    (hop : ∀ x : List (Cx T), isPow2 x.length = true →
      OPost (fun v : Planner T × List (Cx T) × Res => v.2.1.length = x.length) (op Planner.new x)) :
    OPost (fun v : Planner T × List (Cx T) × List (Cx T) => Fits B C D v.1 ∧ v.2.2.length = bluM n)
      (p.getBluestein op n) := by
  unfold Planner.getBluestein
  split
  · rename_i pr e
    exact OPost.ok ⟨h, (h.2 _ _ e).2.2⟩
  · refine OPost.ite (fun _ => OPost.panic) fun h0 => ?_
    have hl : (grow ((List.range n).map fun i => Cx.expi ((Flt.pi *. Flt.ofNat (i * i)) /. Flt.ofNat n : T)) (bluM n) Cx.zero).length
        = bluM n := by
      rw [grow_length]; simp only [List.length_map, List.length_range]
      have : n ≤ bluM n := by
        have := le_nextPow2 (2 * n - 1)
        unfold bluM; omega
      omega
    refine OPost.bind (P := fun b : List (Cx T) => b.length = bluM n) (OPost.forRange hl fun i b hb => ?_) fun b hb' => ?_
    · exact OPost.bind' fun v => OPost.wr.mono fun l hl => by rw [hl, hb]
    · have hp2 : isPow2 (bluM n) = true := isPow2_pow _
      refine OPost.bind (hop b (by rw [hb']; exact hp2)) fun v hv => ?_
      obtain ⟨q, bf, r⟩ := v
      simp only at hv
      cases r with
      | error => exact OPost.panic
      | ok =>
        refine OPost.ok ⟨⟨h.1, fun m pr hm => ?_, h.3, h.4, h.5, h.6, h.7, h.8, h.9⟩, by simp only [hv, hb']⟩
        simp only at hm
        split at hm
        · rename_i e; cases hm; rw [e]; exact ⟨hn, by simp, by simp only [hv, hb']⟩
        · exact h.2 m pr hm

theorem stage_len (lanes : Nat) (tws : List (Cx T)) (sre sim : List T) (n1 n2 : Nat) (d : List T × List T) :
    OPost (fun e : List T × List T => e.1.length = d.1.length ∧ e.2.length = d.2.length) (splitStage lanes tws sre sim n1 n2 d) := by
  unfold splitStage
  refine OPost.forRange ⟨rfl, rfl⟩ fun k e he => OPost.bind' fun tw => ?_
  unfold splitGroup
  have key : ∀ (j : Nat) (v : List T × List T), (v.1.length = d.1.length ∧ v.2.length = d.2.length) →
      OPost (fun e : List T × List T => e.1.length = d.1.length ∧ e.2.length = d.2.length) (forRange j n2 v fun j d =>
        scalarButterfly tw sre sim (2 * k * n2) (2 * k * n2 + n2) (k * n2) ((k + n1) * n2) j d) := by
    intro j v hv
    refine OPost.forRange hv fun j s hs => ?_
    unfold scalarButterfly
    refine OPost.bind' fun _ => OPost.bind' fun _ => OPost.bind' fun _ => OPost.bind' fun _ => ?_
    refine OPost.bind OPost.wr fun a ha => OPost.bind OPost.wr fun b hb => OPost.bind OPost.wr fun a' ha' =>
      OPost.bind OPost.wr fun b' hb' => OPost.pure ⟨?_, ?_⟩
    · simp only [ha', ha, hs.1]
    · simp only [hb', hb, hs.2]
  refine OPost.ite (fun _ => key 0 e he) fun _ => ?_
  refine OPost.bind (P := fun v : Nat × List T × List T => v.2.1.length = d.1.length ∧ v.2.2.length = d.2.length) ?_ fun v hv =>
    key v.1 v.2 hv
  refine OPost.whileF (fun s hs _ => ?_) _ _ he
  refine OPost.bind (P := fun v : List T × List T => v.1.length = d.1.length ∧ v.2.length = d.2.length) ?_ fun v hv =>
    OPost.pure hv
  unfold simdBlock
  refine OPost.bind' fun _ => OPost.bind' fun _ => OPost.bind' fun _ => OPost.bind' fun _ => ?_
  refine OPost.bind OPost.wrN fun a ha => OPost.bind OPost.wrN fun b hb => OPost.bind OPost.wrN fun a' ha' =>
    OPost.bind OPost.wrN fun b' hb' => OPost.pure ⟨?_, ?_⟩
  · simp only [ha', ha, hs.1]
  · simp only [hb', hb, hs.2]

theorem copyN_len {α : Type} (src dst : List α) (n : Nat) : OPost (fun l => l.length = dst.length) (copyN src dst n) := by
  unfold copyN
  refine OPost.ite (fun h => OPost.ok ?_) (fun _ => OPost.panic)
  simp; omega

theorem splitSimd_fits {p : Planner T} (h : Fits B C D p) (op : FftOp T) (re im : List T) (hl : re.length = im.length)
    (h2 : isPow2 re.length = true) (h16 : 16 < re.length) (hB : re.length ≤ B) (hC : C re.length) :
    OPost (fun v : Planner T × List T × List T × Res => Fits B C D v.1 ∧ v.2.1.length = re.length ∧ v.2.2.1.length = re.length)
      (splitSimd cfg op p re im) := by
  unfold splitSimd
  simp only
  rw [if_neg (by omega), if_neg (by simp [h2]; omega)]
  have ht := h.tw (cfg := cfg) hC
  generalize p.getTwiddles cfg re.length = q at ht
  obtain ⟨p, tws⟩ := q
  simp only at ht ⊢
  set sr := grow p.splitScratchRe re.length Flt.zero with hsr
  set si := grow p.splitScratchIm re.length Flt.zero with hsi
  have lr : sr.length ≤ B := by rw [hsr, grow_length]; have := ht.ssre; omega
  have li : si.length ≤ B := by rw [hsi, grow_length]; have := ht.ssim; omega
  let I : StageSt (List T × List T) → Prop := fun s =>
    if s.srcIsInput then (s.src.1.length = re.length ∧ s.src.2.length = re.length) ∧ s.dst.1.length = sr.length ∧ s.dst.2.length = si.length
    else (s.dst.1.length = re.length ∧ s.dst.2.length = re.length) ∧ s.src.1.length = sr.length ∧ s.src.2.length = si.length
  refine OPost.bind (P := I) ?_ fun s hs => ?_
  · unfold stageLoop
    refine OPost.whileF (fun s hs _ => ?_) _ _ (by simp [I, hl])
    refine OPost.bind (stage_len _ _ _ _ _ _ _) fun d hd => OPost.pure ?_
    simp only [I] at hs ⊢
    cases hb : s.srcIsInput with
    | true => simp only [hb, if_true] at hs; simp [hd, hs]
    | false => simp only [hb] at hs; simp at hs; simp [hd, hs]
  · refine OPost.ite (fun hb => OPost.ok ?_) fun hb => ?_
    · simp only [I, hb, if_true] at hs
      obtain ⟨⟨a1, a2⟩, a3, a4⟩ := hs
      exact ⟨⟨ht.1, ht.2, ht.3, ht.4, ht.5, by simp only [a3]; exact lr, by simp only [a4]; exact li, ht.8, ht.9⟩, a1, a2⟩
    · simp only [I, hb] at hs
      simp only [Bool.false_eq_true, if_false] at hs
      obtain ⟨⟨a1, a2⟩, a3, a4⟩ := hs
      refine OPost.bind (copyN_len _ _ _) fun a ha => OPost.bind (copyN_len _ _ _) fun b hb => OPost.ok ?_
      exact ⟨⟨ht.1, ht.2, ht.3, ht.4, ht.5, by simp only [a3]; exact lr, by simp only [a4]; exact li, ht.8, ht.9⟩,
        by simp only [ha, a1], by simp only [hb, a2]⟩

theorem zipBack_len (x : List (Cx T)) (re im : List T) : (zipBack x re im).length = x.length := by
  induction x generalizing re im with
  | nil => cases re <;> cases im <;> rfl
  | cons a x ih =>
    cases re with
    | nil => rfl
    | cons r re =>
      cases im with
      | nil => rfl
      | cons i im => simp [zipBack, ih]

theorem small_len (cfg : Cfg) (x : List (Cx T)) : OPost (fun y => y.length = x.length) (smallKernel cfg x) := by
  by_cases h : x.length = 2 ∨ x.length = 4 ∨ x.length = 8 ∨ x.length = 16
  · obtain ⟨y, e, hy⟩ := smallKernel_ok cfg x h
    rw [e]; exact OPost.ok hy
  · unfold smallKernel
    rw [if_neg (by omega), if_neg (by omega), if_neg (by omega), if_neg (by omega)]
    exact OPost.panic

theorem cxStage_len (dbg : Bool) (tws src : List (Cx T)) (n1 n2 : Nat) (d : List (Cx T)) :
    OPost (fun e : List (Cx T) => e.length = d.length) (cxStage dbg tws src n1 n2 d) := by
  unfold cxStage
  refine OPost.forRange rfl fun k e he => OPost.bind' fun tw => OPost.bind' fun _ => OPost.bind' fun _ => OPost.bind' fun _ => ?_
  refine OPost.forRange he fun j e he => OPost.bind' fun u => OPost.bind' fun v => OPost.bind OPost.wr fun a ha =>
    OPost.wr.mono fun b hb => by rw [hb, ha, he]

theorem max_isPow2 {a b : Nat} (ha : a = 0 ∨ isPow2 a = true) (hb : isPow2 b = true) : isPow2 (max a b) = true := by
  rcases ha with h | h
  · rw [h]; simpa using hb
  · rcases le_total a b with h' | h'
    · rw [max_eq_right h']; exact hb
    · rw [max_eq_left h']; exact h

theorem stockham_fits (hC : ∀ m, isPow2 m = true → m ≤ B → C m) {p : Planner T} (h : Fits B C D p) (op : FftOp T)
    (x : List (Cx T)) (h2 : isPow2 x.length = true) (hB : x.length ≤ B) :
    OPost (fun v : Planner T × List (Cx T) × Res => Fits B C D v.1 ∧ v.2.1.length = x.length) (stockham cfg op p x) := by
  unfold stockham
  simp only
  refine OPost.ite (fun _ => OPost.ok ⟨h, rfl⟩) fun h0 => ?_
  rw [if_neg (by simp [h2])]
  refine OPost.ite (fun _ => OPost.bind (small_len cfg x) fun y hy => OPost.pure ⟨h, hy⟩) fun h16 => ?_
  have ht := h.tw (cfg := cfg) (hC _ h2 hB)
  generalize p.getTwiddles cfg x.length = q at ht
  obtain ⟨p, tws⟩ := q
  simp only at ht ⊢
  have hp0 : Fits B C D { p with scratch := [], splitRe := [], splitIm := [] } :=
    ⟨ht.1, ht.2, Nat.zero_le _, ht.4, Nat.zero_le _, ht.6, ht.7, ⟨rfl, Or.inl rfl⟩, ht.9⟩
  have ls : (grow p.scratch x.length Cx.zero).length ≤ B := by rw [grow_length]; have := ht.scratch; omega
  have lr : (grow p.splitRe x.length Flt.zero).length = max p.splitRe.length x.length := by rw [grow_length]
  have li : (grow p.splitIm x.length Flt.zero).length = max p.splitRe.length x.length := by rw [grow_length, ← ht.spl.1]
  have lB : max p.splitRe.length x.length ≤ B := by have := ht.sre; omega
  have lp : isPow2 (max p.splitRe.length x.length) = true := max_isPow2 (ht.spl.2.imp id And.left) h2
  refine OPost.ite (fun _ => ?_) fun _ => ?_
  · refine OPost.bind (splitSimd_fits hp0 op _ _ ?_ ?_ ?_ ?_ ?_) fun v hv => ?_
    · rw [copyPrefix_length, copyPrefix_length, lr, li]
    · rw [copyPrefix_length, lr]; exact lp
    · rw [copyPrefix_length, lr]; omega
    · rw [copyPrefix_length, lr]; exact lB
    · rw [copyPrefix_length, lr]; exact hC _ lp lB
    · obtain ⟨q, sre, sim, r⟩ := v
      simp only [copyPrefix_length, lr] at hv
      obtain ⟨hq, a, b⟩ := hv
      cases r with
      | error e => exact OPost.ok ⟨hq, rfl⟩
      | ok =>
        exact OPost.ok ⟨⟨hq.1, hq.2, ls, hq.4, by simp only [a]; exact lB, hq.6, hq.7,
          ⟨by simp only [a, b], Or.inr ⟨by simp only [a]; exact lp, by simp only [a]; omega⟩⟩, hq.9⟩, zipBack_len _ _ _⟩
  · have lt : ((grow p.scratch x.length Cx.zero).take x.length).length = x.length := by
      rw [List.length_take, grow_length]; omega
    have ld : ((grow p.scratch x.length Cx.zero).drop x.length).length + x.length ≤ B := by
      rw [List.length_drop]; rw [grow_length] at ls ⊢; omega
    refine OPost.bind (P := fun s : StageSt (List (Cx T)) => s.src.length = x.length ∧ s.dst.length = x.length) ?_ fun s hs => ?_
    · unfold stageLoop
      refine OPost.whileF (fun s hs _ => ?_) _ _ ⟨rfl, lt⟩
      exact OPost.bind (cxStage_len _ _ _ _ _ _) fun d hd => OPost.pure ⟨by simp only [hd, hs.2], hs.1⟩
    · have fin : ∀ z : List (Cx T), z.length = x.length →
          Fits B C D { p with scratch := z ++ (grow p.scratch x.length Cx.zero).drop x.length, splitRe := grow p.splitRe x.length Flt.zero, splitIm := grow p.splitIm x.length Flt.zero } := by
        intro z hz
        exact ⟨ht.1, ht.2, by rw [List.length_append, hz]; omega, ht.4, by simp only [lr]; exact lB, ht.6, ht.7,
          ⟨by simp only [lr, li], Or.inr ⟨by simp only [lr]; exact lp, by simp only [lr]; omega⟩⟩, ht.9⟩
      refine OPost.ite (fun _ => OPost.ok ⟨fin _ hs.2, hs.1⟩) fun _ => ?_
      exact OPost.bind (copyN_len _ _ _) fun y hy => OPost.ok ⟨fin _ hs.1, by simp only [hy, hs.2]⟩

theorem bluM_isPow2 (n : Nat) : isPow2 (bluM n) = true := isPow2_pow _

/-- What the recursive transform must satisfy. -/
def FitOp (B : Nat) (C D : Nat → Prop) (op : FftOp T) : Prop :=
  ∀ p x, Fits B C D p → isPow2 x.length = true → x.length ≤ B →
    OPost (fun v : Planner T × List (Cx T) × Res => Fits B C D v.1 ∧ v.2.1.length = x.length) (op p x)

theorem bluestein_fits {p : Planner T} (h : Fits B C D p) (op : FftOp T) (hop : FitOp B C D op)
    (hlen : ∀ x : List (Cx T), isPow2 x.length = true →
      OPost (fun v : Planner T × List (Cx T) × Res => v.2.1.length = x.length) (op Planner.new x))
    (x : List (Cx T)) (hD : D x.length) (hB : bluM x.length ≤ B) :
    OPost (fun v : Planner T × List (Cx T) × Res => Fits B C D v.1 ∧ v.2.1.length = x.length) (bluestein op p x) := by
  unfold bluestein
  refine OPost.bind (getBlu_fits h hD op hlen) fun v hv => ?_
  obtain ⟨p, chirp, fb⟩ := v
  simp only at hv
  obtain ⟨hp, hfb⟩ := hv
  have hp0 : Fits B C D { p with bluScratch := [] } :=
    ⟨hp.1, hp.2, hp.3, Nat.zero_le _, hp.5, hp.6, hp.7, hp.8, Or.inl rfl⟩
  have la : (grow p.bluScratch fb.length Cx.zero).length = max p.bluScratch.length (bluM x.length) := by
    rw [grow_length, hfb]
  set M := max p.bluScratch.length (bluM x.length) with hM
  have hMB : M ≤ B := by have := hp.blus; omega
  have hM2 : isPow2 M = true := max_isPow2 hp.scr (bluM_isPow2 _)
  refine OPost.bind (P := fun a : List (Cx T) => a.length = M) (OPost.forRange la fun i a ha => OPost.bind' fun v =>
    OPost.bind' fun c => OPost.wr.mono fun b hb => by rw [hb, ha]) fun a ha => ?_
  have key : ∀ a : List (Cx T), a.length = M → OPost (fun v : Planner T × List (Cx T) × Res => Fits B C D v.1 ∧ v.2.1.length = x.length)
      (do
        let (p, a, r) ← op { p with bluScratch := [] } a
        match r with
        | .error e => .ok (p, x, .error e)
        | .ok _ => do
          let a := copyPrefix (List.zipWith Cx.mul a fb) a
          let a := a.map Cx.conj
          let (p, a, r) ← op p a
          match r with
          | .error e => .ok (p, x, .error e)
          | .ok _ => do
            let a := a.map Cx.conj
            let scale : T := Flt.one /. Flt.ofNat fb.length
            let a := a.map fun c => ⟨c.re *. scale, c.im *. scale⟩
            let y ← forRange 0 x.length x fun i y => do
              let v ← rd a i
              let c ← rd chirp i
              wr y i (v.mul c)
            .ok ({ p with bluScratch := a }, y, .ok ())) := by
    intro a ha
    refine OPost.bind (hop _ a hp0 (by rw [ha]; exact hM2) (by rw [ha]; exact hMB)) fun v hv => ?_
    obtain ⟨q, b, r⟩ := v
    simp only at hv
    cases r with
    | error => exact OPost.ok ⟨hv.1, rfl⟩
    | ok =>
      simp only
      refine OPost.bind (hop _ _ hv.1 ?_ ?_) fun v hv' => ?_
      · rw [List.length_map, copyPrefix_length, hv.2, ha]; exact hM2
      · rw [List.length_map, copyPrefix_length, hv.2, ha]; exact hMB
      obtain ⟨q', b', r'⟩ := v
      simp only [List.length_map, copyPrefix_length, hv.2, ha] at hv'
      cases r' with
      | error => exact OPost.ok ⟨hv'.1, rfl⟩
      | ok =>
        obtain ⟨hq, hb'⟩ := hv'
        refine OPost.bind (P := fun y : List (Cx T) => y.length = x.length) (OPost.forRange rfl fun i a ha => OPost.bind' fun v =>
          OPost.bind' fun c => OPost.wr.mono fun b hb => by rw [hb, ha]) fun y hy => OPost.ok ⟨?_, hy⟩
        exact ⟨hq.1, hq.2, hq.3, by simp only [List.length_map, hb']; exact hMB, hq.5, hq.6, hq.7, hq.8,
          Or.inr (by simp only [List.length_map, hb']; exact hM2)⟩
  refine OPost.ite (fun _ => ?_) fun _ => OPost.panic
  exact OPost.bind (P := fun a : List (Cx T) => a.length = M) (OPost.forRange ha fun i a ha =>
    OPost.wr.mono fun b hb => by rw [hb, ha]) fun a ha => key a ha

/-- A length the planner may be asked for. -/
def Okay (B : Nat) (D : Nat → Prop) (n : Nat) : Prop := (isPow2 n = true ∧ n ≤ B) ∨ (D n ∧ n ≤ B ∧ bluM n ≤ B)

theorem fftF_fits (hC : ∀ m, isPow2 m = true → m ≤ B → C m) (cfg : Cfg) (f : Nat) :
    ∀ (p : Planner T) (x : List (Cx T)), Fits B C D p → Okay B D x.length →
    OPost (fun v : Planner T × List (Cx T) × Res => Fits B C D v.1 ∧ v.2.1.length = x.length) (fftF cfg f p x) := by
  induction f generalizing B C D with
  | zero => intro p x _ _; exact OPost.hang
  | succ f ih =>
    intro p x h hn
    unfold fftF fftBody
    refine OPost.ite (fun _ => OPost.ok ⟨h, rfl⟩) fun h0 => OPost.ite (fun _ => OPost.ok ⟨h, rfl⟩) fun h1 =>
      OPost.ite (fun _ => OPost.bind (small_len cfg x) fun y hy => OPost.pure ⟨h, hy⟩) fun _ => OPost.ite (fun ha => ?_) fun ha =>
      OPost.ite (fun _ => OPost.ok ⟨h, rfl⟩) fun _ => ?_
    · have h2 : isPow2 x.length = true := (and_pred_eq_zero_iff (by omega)).mp ha
      have hB : x.length ≤ B := by rcases hn with h | h <;> omega
      exact stockham_fits hC h _ x h2 hB
    · have h2 : ¬ isPow2 x.length = true := fun h => ha ((and_pred_eq_zero_iff (by omega)).mpr h)
      rcases hn with hn | hn
      · exact absurd hn.1 h2
      · refine bluestein_fits h _ (fun p x hp hx hxB => ih hC p x hp (Or.inl ⟨hx, hxB⟩)) (fun x hx => ?_) x hn.1 hn.2.2
        exact (ih (B := x.length) (C := fun _ => True) (D := fun _ => True) (fun _ _ _ => trivial) Planner.new x fits_new
          (Or.inl ⟨hx, le_refl _⟩)).mono fun v hv => hv.2

theorem fft_fits (hC : ∀ m, isPow2 m = true → m ≤ B → C m) (cfg : Cfg) (p : Planner T) (x : List (Cx T)) (h : Fits B C D p)
    (hn : Okay B D x.length) :
    OPost (fun v : Planner T × List (Cx T) × Res => Fits B C D v.1 ∧ v.2.1.length = x.length) (fft cfg p x) :=
  fftF_fits hC cfg _ p x h hn

theorem ifft_fits (hC : ∀ m, isPow2 m = true → m ≤ B → C m) (cfg : Cfg) (p : Planner T) (x : List (Cx T)) (h : Fits B C D p)
    (hn : Okay B D x.length) :
    OPost (fun v : Planner T × List (Cx T) × Res => Fits B C D v.1 ∧ v.2.1.length = x.length) (ifft cfg p x) := by
  unfold ifft ifftWith
  refine OPost.ite (fun _ => OPost.ok ⟨h, rfl⟩) fun h0 => OPost.ite (fun _ => OPost.ok ⟨h, rfl⟩) fun h1 => ?_
  refine OPost.bind (fft_fits hC cfg p _ h (by rw [List.length_map]; exact hn)) fun v hv => ?_
  obtain ⟨q, y, r⟩ := v
  simp only [List.length_map] at hv
  cases r with
  | error => exact OPost.ok hv
  | ok => exact OPost.ok ⟨hv.1, by rw [List.length_map]; exact hv.2⟩

/-- A transform that keeps what fits. -/
def Fitting (B : Nat) (C D : Nat → Prop) (op : FftOp T) : Prop :=
  ∀ p x, Fits B C D p → Okay B D x.length →
    OPost (fun v : Planner T × List (Cx T) × Res => Fits B C D v.1 ∧ v.2.1.length = x.length) (op p x)

theorem stockhamFft_fits (hC : ∀ m, isPow2 m = true → m ≤ B → C m) (cfg : Cfg) : Fitting (T := T) B C D (stockhamFft cfg) := by
  intro p x h hn
  unfold stockhamFft
  by_cases h2 : isPow2 x.length = true
  · exact stockham_fits hC h _ x h2 (by rcases hn with h | h <;> omega)
  · unfold stockham
    refine OPost.ite (fun _ => OPost.ok ⟨h, rfl⟩) fun h0 => ?_
    rw [if_pos (by simp [h2])]
    exact fft_fits hC cfg p x h hn

theorem radix4_fits (hC : ∀ m, isPow2 m = true → m ≤ B → C m) (cfg : Cfg) (p : Planner T) (x : List (Cx T)) (h : Fits B C D p)
    (hn : Okay B D x.length) :
    OPost (fun v : Planner T × List (Cx T) × Res => Fits B C D v.1) (fftRadix4 cfg p x) := by
  unfold fftRadix4
  refine OPost.ite (fun _ => (fft_fits hC cfg p x h hn).mono fun v hv => hv.1) fun hc => ?_
  have hB : x.length ≤ B := by rcases hn with h | h <;> omega
  refine OPost.bind' fun z => ?_
  refine OPost.bind (P := fun s : Nat × Planner T × List (Cx T) => isPow2 s.1 = true ∧ Fits B C D s.2.1) ?_ fun s hs => OPost.ok hs.2
  refine OPost.whileF (fun s hs hlt => ?_) _ _ ⟨by show isPow2 4 = true; decide, h⟩
  obtain ⟨len, q, y⟩ := s
  simp only at hs hlt ⊢
  have h4 : isPow2 (len * 4) = true := by
    obtain ⟨k, hk⟩ := isPow2_iff.mp hs.1
    rw [hk, show 2 ^ k * 4 = 2 ^ (k + 2) by rw [pow_add]; norm_num]; exact isPow2_pow _
  refine OPost.ite (fun _ => OPost.bind' fun _ => OPost.pure ⟨h4, hs.2⟩) fun _ => ?_
  have ht := hs.2.tw (cfg := cfg) (hC len hs.1 (by have := of_decide_eq_true hlt; omega))
  generalize q.getTwiddles cfg len = g at ht
  obtain ⟨q', tws⟩ := g
  exact OPost.bind' fun _ => OPost.bind' fun _ => OPost.bind' fun _ => OPost.bind' fun _ => OPost.pure ⟨h4, ht⟩

theorem strided_fits {op : FftOp T} (ho : Fitting B C D op) (p : Planner T) (x sc : List (Cx T)) (stride : Nat) (h : Fits B C D p)
    (hn : Okay B D sc.length) :
    OPost (fun v : Planner T × List (Cx T) × List (Cx T) × Res => Fits B C D v.1 ∧ v.2.2.1.length = sc.length) (strided op p x stride sc) := by
  unfold strided
  refine OPost.ite (fun _ => OPost.ok ⟨h, rfl⟩) fun h0 => OPost.ite (fun _ => OPost.ok ⟨h, rfl⟩) fun h1 =>
    OPost.ite (fun _ => OPost.ok ⟨h, rfl⟩) fun h1 => ?_
  refine OPost.bind (P := fun z : List (Cx T) => z.length = sc.length) ?_ fun z hz => ?_
  · unfold gather
    exact OPost.forRange rfl fun i s hs => OPost.bind' fun v => OPost.wr.mono fun l hl => by rw [hl, hs]
  · refine OPost.bind (ho p z h (by rw [hz]; exact hn)) fun v hv => ?_
    obtain ⟨q, y, r⟩ := v
    simp only at hv
    cases r with
    | error => exact OPost.ok ⟨hv.1, by simp only [hv.2, hz]⟩
    | ok => exact OPost.bind' fun _ => OPost.ok ⟨hv.1, by simp only [hv.2, hz]⟩

theorem stridedAlloc_fits {op : FftOp T} (ho : Fitting B C D op) (p : Planner T) (x : List (Cx T)) (stride : Nat) (h : Fits B C D p)
    (hn : Okay B D (x.length / stride)) :
    OPost (fun v : Planner T × List (Cx T) × Res => Fits B C D v.1) (stridedAlloc op p x stride) := by
  unfold stridedAlloc
  simp only
  have hB : x.length / stride ≤ B := by rcases hn with h | h <;> omega
  have hp0 : Fits B C D { p with scratch := [] } := ⟨h.1, h.2, Nat.zero_le _, h.4, h.5, h.6, h.7, h.8, h.9⟩
  have e : (if stride = 0 then 0 else x.length / stride) = x.length / stride := by
    split
    · rename_i h; rw [h, Nat.div_zero]
    · rfl
  rw [e]
  have ls : (grow p.scratch (x.length / stride) Cx.zero).length ≤ B := by rw [grow_length]; have := h.scratch; omega
  have lt : ((grow p.scratch (x.length / stride) Cx.zero).take (x.length / stride)).length = x.length / stride := by
    rw [List.length_take, grow_length]; omega
  refine OPost.bind (strided_fits ho _ x _ stride hp0 (by rw [lt]; exact hn)) fun v hv => ?_
  obtain ⟨q, y, s, r⟩ := v
  simp only [lt] at hv
  obtain ⟨hq, hs⟩ := hv
  refine OPost.ok ⟨hq.1, hq.2, ?_, hq.4, hq.5, hq.6, hq.7, hq.8, hq.9⟩
  rw [List.length_append, List.length_drop, hs]
  rw [grow_length] at ls ⊢
  omega

theorem oop_fits {op : FftOp T} (ho : Fitting B C D op) (p : Planner T) (x o : List (Cx T)) (si so : Nat) (h : Fits B C D p)
    (hn : Okay B D (x.length / si)) :
    OPost (fun v : Planner T × List (Cx T) × Res => Fits B C D v.1) (oopStrided op p x si o so) := by
  unfold oopStrided
  refine OPost.ite (fun _ => OPost.ok h) fun h0 => OPost.ite (fun _ => OPost.ok h) fun h1 => ?_
  simp only
  refine OPost.ite (fun _ => OPost.ok h) fun h2 => ?_
  have hB : x.length / si ≤ B := by rcases hn with h | h <;> omega
  have hp0 : Fits B C D { p with scratch := [] } := ⟨h.1, h.2, Nat.zero_le _, h.4, h.5, h.6, h.7, h.8, h.9⟩
  refine OPost.bind (P := fun z : List (Cx T) => z.length = max p.scratch.length (x.length / si)) ?_ fun z hz => ?_
  · unfold gather
    refine OPost.forRange (by rw [grow_length]) fun i s hs => OPost.bind' fun v => OPost.wr.mono fun l hl => by rw [hl, hs]
  · have lt : (z.take (x.length / si)).length = x.length / si := by rw [List.length_take, hz]; omega
    refine OPost.bind (ho _ _ hp0 (by rw [lt]; exact hn)) fun v hv => ?_
    obtain ⟨q, y, r⟩ := v
    simp only [lt] at hv
    obtain ⟨hq, hs⟩ := hv
    cases r with
    | error => exact OPost.ok hq
    | ok =>
      refine OPost.bind' fun _ => OPost.ok ⟨hq.1, hq.2, ?_, hq.4, hq.5, hq.6, hq.7, hq.8, hq.9⟩
      rw [List.length_append, List.length_drop, hs, hz]
      have := h.scratch
      omega

theorem splitVia_fits {op : FftOp T} (ho : Fitting B C D op) (p : Planner T) (re im : List T) (h : Fits B C D p)
    (hl : re.length = im.length) (hn : Okay B D re.length) :
    OPost (fun v : Planner T × List T × List T × Res => Fits B C D v.1) (splitVia op p re im) := by
  unfold splitVia
  dsimp only
  rw [zip_loop re im hl, Outcome.bind_ok]
  have hb : (List.zipWith Cx.mk re im).length = re.length := by simp [hl]
  refine OPost.bind (ho p _ h (by rw [hb]; exact hn)) fun v hv => ?_
  obtain ⟨q, y, r⟩ := v
  cases r with
  | error => exact OPost.ok hv.1
  | ok => exact OPost.bind' fun _ => OPost.pure hv.1

theorem splitSimd_fits' (hC : ∀ m, isPow2 m = true → m ≤ B → C m) {p : Planner T} (h : Fits B C D p) {op : FftOp T}
    (ho : Fitting B C D op) (re im : List T) (hl : re.length = im.length) (hn : Okay B D re.length) :
    OPost (fun v : Planner T × List T × List T × Res => Fits B C D v.1) (splitSimd cfg op p re im) := by
  by_cases hc : isPow2 re.length = true ∧ 16 < re.length
  · have hB : re.length ≤ B := by rcases hn with h | h <;> omega
    exact (splitSimd_fits h op re im hl hc.1 hc.2 hB (hC _ hc.1 hB)).mono fun v hv => hv.1
  · unfold splitSimd
    refine OPost.ite (fun _ => OPost.ok h) fun h0 => ?_
    rw [if_pos (by
      rcases not_and_or.mp hc with h | h
      · simp [h]
      · simp; right; omega)]
    have hb : (List.zipWith Cx.mk re im).length = re.length := by simp [hl]
    refine OPost.bind (ho p _ h (by rw [hb]; exact hn)) fun v hv => ?_
    obtain ⟨q, y, r⟩ := v
    cases r with
    | error => exact OPost.ok hv.1
    | ok => exact OPost.bind' fun _ => OPost.pure hv.1

theorem call_fits (hC : ∀ m, isPow2 m = true → m ≤ B → C m) {n : Nat} {p p' : Planner T} (h : Fits B C D p)
    (hn : Okay B D n) (hCn : C n) (hDn : D n) (e : PCall cfg n p p') : Fits B C D p' := by
  have h1 : Fitting (T := T) B C D (fft cfg) := fun p x => fft_fits hC cfg p x
  have h2 : Fitting (T := T) B C D (ifft cfg) := fun p x => ifft_fits hC cfg p x
  cases e with
  | fft e => exact (h1 _ _ h hn _ e).1
  | ifft e => exact (h2 _ _ h hn _ e).1
  | stockham e => exact (stockhamFft_fits hC cfg _ _ h hn _ e).1
  | radix4 e => exact radix4_fits hC cfg _ _ h hn _ e
  | @strategy _ _ x y r st e =>
    refine (?_ : OPost (fun v : Planner T × List (Cx T) × Res => Fits B C D v.1) (fftWithStrategy cfg st p x)) _ e
    have g1 := (h1 p x h hn).mono fun v hv => hv.1
    have g2 := radix4_fits hC cfg p x h hn
    have g3 := (stockhamFft_fits hC cfg p x h hn).mono fun v hv => hv.1
    unfold fftWithStrategy
    refine OPost.ite (fun _ => OPost.ok h) fun _ => OPost.ite (fun _ => OPost.ok h) fun _ => ?_
    simp only
    split
    · exact g1
    · exact OPost.ite (fun _ => g2) fun _ => g1
    · exact g3
    · exact g1
  | @split _ _ re im re' im' r e =>
    refine (?_ : OPost (fun v : Planner T × List T × List T × Res => Fits B C D v.1) (fftSplit cfg p re im)) _ e
    unfold fftSplit
    refine OPost.ite (fun _ => OPost.ok h) fun hl => OPost.ite (fun _ => ?_) fun _ => ?_
    · exact splitSimd_fits' hC h h1 re im (by simpa using hl) hn
    · exact splitVia_fits h1 p re im h (by simpa using hl) hn
  | @isplit _ _ re im re' im' r e =>
    refine (?_ : OPost (fun v : Planner T × List T × List T × Res => Fits B C D v.1) (ifftSplit cfg p re im)) _ e
    unfold ifftSplit
    refine OPost.ite (fun _ => OPost.ok h) fun hl => OPost.ite (fun _ => ?_) fun _ => ?_
    · refine OPost.bind (splitSimd_fits' hC h h1 re _ (by simpa using hl) hn) fun v hv => ?_
      obtain ⟨q, y, z, r⟩ := v
      cases r with
      | error => exact OPost.ok hv
      | ok => exact OPost.ok hv
    · exact splitVia_fits h2 p re im h (by simpa using hl) hn
  | strided s e => exact (strided_fits h1 _ _ _ s h hn _ e).1
  | istrided s e => exact (strided_fits h2 _ _ _ s h hn _ e).1
  | stridedAlloc s e => exact stridedAlloc_fits h1 _ _ s h hn _ e
  | istridedAlloc s e => exact stridedAlloc_fits h2 _ _ s h hn _ e
  | oop si so e => exact oop_fits h1 _ _ _ si so h hn _ e
  | ioop si so e => exact oop_fits h2 _ _ _ si so h hn _ e
  | twiddles => exact h.tw hCn
  | bluestein _ e =>
    refine (getBlu_fits h hDn (fft cfg) (fun x hx => ?_) _ e).1
    exact (fft_fits (B := x.length) (C := fun _ => True) (D := fun _ => True) (fun _ _ _ => trivial) cfg Planner.new x fits_new
      (Or.inl ⟨hx, le_refl _⟩)).mono fun v hv => hv.2

end

end Kofft
