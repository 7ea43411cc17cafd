import Verif.Proof.Retain
import Verif.Proof.RetainR
import Verif.Props.IstftStream
import Mathlib.Algebra.BigOperators.Intervals
import Mathlib.Algebra.Order.BigOperators.Group.Finset
/-
C87: what is kept between calls.
-/
namespace Kofft.Props
open Spec Finset

theorem sum_two_pow (k : ℕ) : ∑ i ∈ range k, 2 ^ i + 1 = 2 ^ k := by
  induction k with
  | zero => simp
  | succ k ih => rw [sum_range_succ, pow_succ]; omega

theorem pow2_sum_le (B K : ℕ) : ∑ m ∈ range (K + 1), (if isPow2 m = true ∧ m ≤ B then m else 0) ≤ 2 * B := by
  rw [← sum_filter]
  rcases Nat.eq_zero_or_pos B with h | h
  · subst h
    apply le_of_eq
    apply sum_eq_zero
    intro m hm
    simp at hm; omega
  · have hsub : (range (K + 1)).filter (fun m => isPow2 m = true ∧ m ≤ B) ⊆ (range (Nat.log 2 B + 1)).image (fun i => 2 ^ i) := by
      intro m hm
      rw [mem_filter] at hm
      obtain ⟨k, hk⟩ := isPow2_iff.mp hm.2.1
      rw [mem_image]
      refine ⟨k, ?_, hk.symm⟩
      rw [mem_range]
      have := Nat.le_log_of_pow_le (b := 2) (by norm_num) (show 2 ^ k ≤ B by rw [← hk]; exact hm.2.2)
      omega
    refine (sum_le_sum_of_subset hsub).trans ?_
    rw [sum_image (by intro a _ b _ h; exact Nat.pow_right_injective (le_refl 2) h)]
    have h1 := sum_two_pow (Nat.log 2 B + 1)
    have h2 := Nat.pow_log_le_self 2 (x := B) (by omega)
    rw [pow_succ] at h1
    omega

theorem bluM_le (n : ℕ) : bluM n ≤ 4 * n + 1 := by
  unfold bluM nextPow2
  rcases Nat.lt_or_ge 1 (2 * n - 1) with h | h
  · have := Nat.pow_pred_clog_lt_self (b := 2) (by norm_num) h
    have hc : 0 < Nat.clog 2 (2 * n - 1) := Nat.clog_pos (by norm_num) (by omega)
    obtain ⟨c, hc⟩ : ∃ c, Nat.clog 2 (2 * n - 1) = c + 1 := ⟨_, (Nat.succ_pred_eq_of_pos hc).symm⟩
    rw [hc] at this ⊢
    simp only [Nat.pred_succ] at this
    rw [pow_succ]; omega
  · rw [Nat.clog_of_right_le_one h]; omega

theorem served_fits {T : Type} [Flt T] {cfg : Cfg} {S : Finset ℕ} {p : Planner T} (h : Served cfg S p) :
    Fits (4 * ∑ n ∈ S, n + 1) (fun m => (isPow2 m = true ∧ m ≤ 4 * ∑ n ∈ S, n + 1) ∨ m ∈ S) (fun m => m ∈ S) p := by
  induction h with
  | new => exact fits_new
  | @call n p p' _ hn e ih =>
    have hle : n ≤ ∑ n ∈ S, n := single_le_sum (f := fun n => n) (fun _ _ => Nat.zero_le _) hn
    refine call_fits (fun m h1 h2 => Or.inl ⟨h1, h2⟩) ih (Or.inr ⟨hn, by omega, ?_⟩) (Or.inr hn) hn e
    have := bluM_le n
    omega

/-- C87a. Whatever sequence of calls a transformer has served (any length, any order, any data and arithmetic), the
scalars it keeps, in its buffers and in its tables for all lengths together, number at most `51·Σ + 12`, where `Σ` is
the sum of the *distinct* lengths used: repeating calls costs no memory. -/
theorem retained_bounded {T : Type} [Flt T] (cfg : Cfg) (S : Finset ℕ) (p : Planner T) (h : Served cfg S p) (K : ℕ) :
    held p K ≤ 51 * ∑ n ∈ S, n + 12 := by
  have hf := served_fits h
  set σ := ∑ n ∈ S, n with hσ
  have hi : p.splitIm.length ≤ 4 * σ + 1 := by rw [← hf.spl.1]; exact hf.sre
  have t1 : ∀ m, 2 * ((p.cache m).getD []).length ≤
      (if isPow2 m = true ∧ m ≤ 4 * σ + 1 then m else 0) + (if m ∈ S then m else 0) := by
    intro m
    cases hc : p.cache m with
    | none => simp
    | some t =>
      obtain ⟨h1, h2⟩ := hf.cache m t hc
      simp only [Option.getD_some, h2]
      rcases h1 with h1 | h1
      · rw [if_pos h1]; omega
      · rw [if_pos h1]; omega
  have t2 : ∀ m, 2 * (((p.blu m).getD ([], [])).1.length + ((p.blu m).getD ([], [])).2.length) ≤
      (if m ∈ S then 10 * m else 0) + (if m = 0 then 2 else 0) := by
    intro m
    cases hc : p.blu m with
    | none => simp
    | some pr =>
      obtain ⟨h1, h2, h3⟩ := hf.blu m pr hc
      simp only [Option.getD_some, h2, h3, h1, if_true]
      rcases Nat.eq_zero_or_pos m with h0 | h0
      · subst h0; simp; decide
      · have : bluM m ≤ 4 * m := by
          have h4 := bluM_le m
          obtain ⟨k, hk⟩ := isPow2_iff.mp (bluM_isPow2 m)
          rcases Nat.eq_zero_or_pos k with hk0 | hk0
          · rw [hk, hk0]; omega
          · have : 2 ∣ bluM m := by rw [hk]; exact dvd_pow_self 2 (by omega)
            omega
        omega
  have s2 : ∀ c : ℕ, ∑ m ∈ range (K + 1), (if m ∈ S then c * m else 0) ≤ c * σ := by
    intro c
    rw [← sum_filter, hσ, mul_sum]
    exact sum_le_sum_of_subset (by intro m hm; exact (mem_filter.mp hm).2)
  have s3 : ∑ m ∈ range (K + 1), (if m = 0 then 2 else 0) = 2 := by simp
  have tot : ∑ m ∈ range (K + 1), (2 * ((p.cache m).getD []).length +
      2 * (((p.blu m).getD ([], [])).1.length + ((p.blu m).getD ([], [])).2.length)) ≤ 2 * (4 * σ + 1) + σ + (10 * σ + 2) := by
    refine (sum_le_sum fun m _ => Nat.add_le_add (t1 m) (t2 m)).trans ?_
    rw [sum_add_distrib, sum_add_distrib, sum_add_distrib, s3]
    have a := pow2_sum_le (4 * σ + 1) K
    have b := s2 1
    simp only [one_mul] at b
    have c := s2 10
    omega
  unfold held
  have b1 := hf.scratch
  have b2 := hf.blus
  have b3 := hf.sre
  have b4 := hf.ssre
  have b5 := hf.ssim
  omega

theorem rserved_fits {T : Type} [Flt T] {simd : Bool} {S : Finset ℕ} {rp : RfftPlanner T} (h : RServed simd S rp) :
    RFits (∑ n ∈ S, n) (fun m => m ∈ [2, 4, 8, 16, 32, 64, 128, 256] ∨ m ∈ S) rp := by
  induction h with
  | new e => exact rnew_fits (fun m hm => Or.inl hm) _ e
  | call _ hn e ih =>
    exact rcall_fits ih (Or.inr hn) (single_le_sum (f := fun n => n) (fun _ _ => Nat.zero_le _) hn) e

theorem rheld_le {T : Type} [Flt T] (S : Finset ℕ) (rp : RfftPlanner T) (K : ℕ)
    (hf : RFits (∑ n ∈ S, n) (fun m => m ∈ [2, 4, 8, 16, 32, 64, 128, 256] ∨ m ∈ S) rp) :
    rheld rp K ≤ 6 * ∑ n ∈ S, n + 2040 := by
  set σ := ∑ n ∈ S, n with hσ
  let P : Finset ℕ := {2, 4, 8, 16, 32, 64, 128, 256}
  have t : ∀ (c : ℕ → Option (List (Cx T))), (∀ m t, c m = some t → t = tab m (rtw m)) →
      (∀ m, c m ≠ none → m ∈ [2, 4, 8, 16, 32, 64, 128, 256] ∨ m ∈ S) →
      ∀ m, 2 * ((c m).getD []).length ≤ (if m ∈ P then 2 * m else 0) + (if m ∈ S then 2 * m else 0) := by
    intro c h1 h2 m
    cases hc : c m with
    | none => simp
    | some t =>
      simp only [Option.getD_some, h1 m t hc, tab_length]
      rcases h2 m (by rw [hc]; simp) with h | h
      · rw [if_pos (by simpa [P] using h)]; omega
      · rw [if_pos h]; omega
  have s2 : ∀ Q : Finset ℕ, ∑ m ∈ range (K + 1), (if m ∈ Q then 2 * m else 0) ≤ 2 * ∑ m ∈ Q, m := by
    intro Q
    rw [← sum_filter, mul_sum]
    exact sum_le_sum_of_subset (by intro m hm; exact (mem_filter.mp hm).2)
  have hP : ∑ m ∈ P, m = 510 := by decide
  have tot : ∑ m ∈ range (K + 1), (2 * ((rp.cache m).getD []).length + 2 * ((rp.packCache m).getD []).length) ≤
      (1020 + 2 * σ) + (1020 + 2 * σ) := by
    refine (sum_le_sum fun m _ => Nat.add_le_add (t _ hf.inv.1 hf.cache m) (t _ hf.inv.2 hf.pack m)).trans ?_
    rw [sum_add_distrib, sum_add_distrib]
    have a := s2 P
    have b := s2 S
    rw [hP] at a
    omega
  unfold rheld
  have := hf.scratch
  omega

/-- C87b. The same for a real planner: at most `6·Σ + 2040` scalars, where `Σ` is the sum of the distinct half lengths
used (2040 are the tables every planner starts with). -/
theorem rfft_retained_bounded {T : Type} [Flt T] (simd : Bool) (S : Finset ℕ) (rp : RfftPlanner T) (h : RServed simd S rp)
    (K : ℕ) : rheld rp K ≤ 6 * ∑ n ∈ S, n + 2040 := rheld_le S rp K (rserved_fits h)

/-! ### DCT and DST planners -/

/-- Sizes of a DCT planner. -/
structure DFits {T : Type} [Flt T] (B : ℕ) (C : ℕ → Prop) (D : ℕ → Prop) (st : DctPlanner T) : Prop where
  rf : RFits B C st.rfft
  buf : st.buf.length ≤ 2 * B
  spec : st.spectrum.length ≤ B + 1
  cache : ∀ m t, st.cache m = some t → D m ∧ t.length = m

theorem rfft_out {T : Type} [Flt T] (simd : Bool) (cfg : Cfg) (rp : RfftPlanner T) (input : List T) (output : List (Cx T)) :
    OPost (fun v : RfftPlanner T × Planner T × List (Cx T) × Res => v.2.2.1.length = output.length)
      (rp.rfft simd (fft cfg) Planner.new input output) := by
  unfold RfftPlanner.rfft
  refine OPost.bind (P := fun v : RfftPlanner T × Planner T × List (Cx T) × List (Cx T) × Res => v.2.2.1.length = output.length) ?_
    fun v hv => ?_
  · unfold RfftPlanner.rfftWithScratch
    refine OPost.bind' fun v => OPost.bind' fun w => ?_
    refine OPost.bind (rfftDirect_out _ _ _ (opLen_fft .new) _ _ _ _) fun u hu => ?_
    obtain ⟨a, b, c, d⟩ := u
    exact OPost.pure hu
  · obtain ⟨a, b, c, d, e⟩ := v
    exact OPost.pure hv

theorem dct_call_fits {T : Type} [Flt T] (cfg : Cfg) (simd : Bool) (B : ℕ) (C D : ℕ → Prop) (st : DctPlanner T)
    (h : DFits B C D st) (input output cosT : List T) (hC : C input.length) (hB : input.length ≤ B) :
    OPost (fun v : DctPlanner T × List T × Res => DFits B C D v.1) (st.dct2WithTable cfg simd input output cosT) := by
  unfold DctPlanner.dct2WithTable
  refine OPost.ite (fun _ => OPost.ok h) fun _ => ?_
  simp only
  refine OPost.bind (P := fun b : List T => b.length = 2 * input.length) ?_ fun b hb => ?_
  · refine OPost.forRange (by rw [List.length_take, grow_length]; omega) fun i s hs => OPost.bind' fun x => OPost.bind OPost.wr
      fun a ha => OPost.wr.mono fun l hl => by rw [hl, ha, hs]
  · have hl : b.length / 2 = input.length := by omega
    have hr : OPost (fun v : RfftPlanner T × Planner T × List (Cx T) × Res => RFits B C v.1 ∧ v.2.2.1.length =
        ((grow st.spectrum (input.length + 1) Cx.zero).take (input.length + 1)).length)
        (st.rfft.rfft simd (fft cfg) Planner.new b ((grow st.spectrum (input.length + 1) Cx.zero).take (input.length + 1))) := by
      intro v e
      refine ⟨?_, rfft_out simd cfg _ _ _ v e⟩
      refine rcall_fits (simd := simd) (n := b.length / 2) h.rf (by rw [hl]; exact hC) (by omega) (.rfft (opLen_fft .new) e)
    refine OPost.bind hr fun v hv => ?_
    obtain ⟨rp, pl, spec, r⟩ := v
    simp only at hv
    have hf : DFits B C D (⟨st.cache, rp, b ++ (grow st.buf (2 * input.length) Flt.zero).drop (2 * input.length),
        spec ++ (grow st.spectrum (input.length + 1) Cx.zero).drop (input.length + 1)⟩ : DctPlanner T) := by
      refine ⟨hv.1, ?_, ?_, h.cache⟩
      · rw [List.length_append, List.length_drop, grow_length, hb]; have := h.buf; omega
      · rw [List.length_append, List.length_drop, hv.2, List.length_take, grow_length]; have := h.spec; omega
    cases r with
    | error => exact OPost.ok hf
    | ok => exact OPost.bind' fun _ => OPost.ok hf

/-- C87e. The same for a DCT planner: at most `11·Σ + 2042` scalars. -/
theorem dct_retained_bounded {T : Type} [Flt T] (cfg : Cfg) (simd : Bool) (S : Finset ℕ) (st : DctPlanner T)
    (h : DctServed cfg simd S st) (K : ℕ) : dheld st K ≤ 11 * ∑ n ∈ S, n + 2042 := by
  have hf : DFits (∑ n ∈ S, n) (fun m => m ∈ [2, 4, 8, 16, 32, 64, 128, 256] ∨ m ∈ S) (fun m => m ∈ S) st := by
    induction h with
    | @new st e =>
      unfold DctPlanner.new at e
      obtain ⟨rp, e1, e2⟩ := ok_of_bind e
      cases e2
      exact ⟨rnew_fits (fun m hm => Or.inl hm) _ e1, Nat.zero_le _, Nat.zero_le _, by simp⟩
    | @plan st n _ hn ih =>
      unfold DctPlanner.getCos
      split
      · exact ih
      · refine ⟨ih.rf, ih.buf, ih.spec, fun m t hm => ?_⟩
        simp only [mapInsert] at hm
        split at hm
        · rename_i e; cases hm; rw [e]; exact ⟨hn, by simp [cosTable]⟩
        · exact ih.cache m t hm
    | call _ hn e ih =>
      exact dct_call_fits cfg simd _ _ _ _ ih _ _ _ (Or.inr hn) (single_le_sum (f := fun n => n) (fun _ _ => Nat.zero_le _) hn) _ e
  have hr := rheld_le S st.rfft K hf.rf
  set σ := ∑ n ∈ S, n with hσ
  have tot : ∑ m ∈ range (K + 1), ((st.cache m).getD []).length ≤ σ := by
    have : ∀ m, ((st.cache m).getD []).length ≤ if m ∈ S then m else 0 := by
      intro m
      cases hc : st.cache m with
      | none => simp
      | some t => obtain ⟨h1, h2⟩ := hf.cache m t hc; simp [h1, h2]
    refine (sum_le_sum fun m _ => this m).trans ?_
    rw [← sum_filter]
    exact sum_le_sum_of_subset (by intro m hm; exact (mem_filter.mp hm).2)
  unfold dheld
  have b1 := hf.buf
  have b2 := hf.spec
  omega

theorem tableGet_keys {T : Type} [Flt T] {D : ℕ → Prop} {c : ℕ → Option (List T)} (h : ∀ m t, c m = some t → D m ∧ t.length = m)
    {n : ℕ} (hn : D n) (t : List T) (ht : t.length = n) : ∀ m u, (tableGet c n t).1 m = some u → D m ∧ u.length = m := by
  unfold tableGet
  split
  · exact h
  · intro m u hm
    simp only [mapInsert] at hm
    split at hm
    · rename_i e; cases hm; rw [e]; exact ⟨hn, ht⟩
    · exact h m u hm

/-- C87f. The same for a DST planner: at most `4·Σ` scalars. -/
theorem dst_retained_bounded {T : Type} [Flt T] (S : Finset ℕ) (st : DstPlanner T) (h : DstServed S st) (K : ℕ) :
    sheld st K ≤ 4 * ∑ n ∈ S, n := by
  have hf : st.scratch.length ≤ ∑ n ∈ S, n ∧ (∀ m t, st.cache2 m = some t → m ∈ S ∧ t.length = m) ∧
      (∀ m t, st.cache3 m = some t → m ∈ S ∧ t.length = m) ∧ (∀ m t, st.cache4 m = some t → m ∈ S ∧ t.length = m) := by
    induction h with
    | new => exact ⟨Nat.zero_le _, by simp [DstPlanner.new], by simp [DstPlanner.new], by simp [DstPlanner.new]⟩
    | plan2 n _ hn ih => exact ⟨ih.1, tableGet_keys (D := fun m => m ∈ S) ih.2.1 hn _ (by simp [dstTable]), ih.2.2.1, ih.2.2.2⟩
    | plan3 n _ hn ih => exact ⟨ih.1, ih.2.1, tableGet_keys (D := fun m => m ∈ S) ih.2.2.1 hn _ (by simp [dstTable]), ih.2.2.2⟩
    | plan4 n _ hn ih => exact ⟨ih.1, ih.2.1, ih.2.2.1, tableGet_keys (D := fun m => m ∈ S) ih.2.2.2 hn _ (by simp [dstTable])⟩
    | scratch n _ hn ih =>
      have : n ≤ ∑ n ∈ S, n := single_le_sum (f := fun n => n) (fun _ _ => Nat.zero_le _) hn
      refine ⟨?_, ih.2⟩
      unfold DstPlanner.getScratch
      simp only [grow_length]
      have := ih.1
      omega
  obtain ⟨h0, h2, h3, h4⟩ := hf
  set σ := ∑ n ∈ S, n with hσ
  have one : ∀ c : ℕ → Option (List T), (∀ m t, c m = some t → m ∈ S ∧ t.length = m) →
      ∑ m ∈ range (K + 1), ((c m).getD []).length ≤ σ := by
    intro c hc'
    have : ∀ m, ((c m).getD []).length ≤ if m ∈ S then m else 0 := by
      intro m
      cases hc : c m with
      | none => simp
      | some t => obtain ⟨h1, h2⟩ := hc' m t hc; simp [h1, h2]
    refine (sum_le_sum fun m _ => this m).trans ?_
    rw [← sum_filter]
    exact sum_le_sum_of_subset (by intro m hm; exact (mem_filter.mp hm).2)
  unfold sheld
  rw [sum_add_distrib, sum_add_distrib]
  have a := one _ h2
  have b := one _ h3
  have c := one _ h4
  omega

/-! ### The inverse stream -/

/-- The streams a program can hold after `F` frames were accepted: created by `new`, pushed to (with any inverse
transformer) and flushed in any order, some pushes possibly rejected. -/
inductive _root_.Kofft.Spec.Accepted {T : Type} [Flt T] {S : Type} (iop : StOp S T) (winLen hop : ℕ) (window : List T) :
    IstftStream T → S → ℕ → Prop
  | new {st s} : IstftStream.new winLen hop window = .ok st → Accepted iop winLen hop window st s 0
  | push {st s st' s' F frame c} : Accepted iop winLen hop window st s F →
      st.push iop s frame = .ok (st', s', .ok c) → Accepted iop winLen hop window st' s' (F + 1)
  | reject {st s st' s' F frame e} : Accepted iop winLen hop window st s F →
      st.push iop s frame = .ok (st', s', .error e) → Accepted iop winLen hop window st' s' F
  | flush {st s st' out F} : Accepted iop winLen hop window st s F → st.flush = .ok (st', out) →
      Accepted iop winLen hop window st' s F

theorem emit_len {T : Type} [Flt T] (lo hi : ℕ) (b n : List T) :
    OPost (fun v : List T × List T => v.1.length = b.length ∧ v.2.length = n.length) (emit lo hi b n) := by
  unfold emit
  refine OPost.forRange ⟨rfl, rfl⟩ fun i s hs => OPost.bind' fun _ => OPost.bind' fun _ => OPost.bind OPost.wr fun a ha =>
    OPost.bind OPost.wr fun c hc => OPost.pure ⟨by simp only [ha, hs.1], by simp only [hc, hs.2]⟩

/-- Sizes of a stream. -/
def StreamSize {T : Type} (winLen hop F : ℕ) (st : IstftStream T) : Prop :=
  st.winLen = winLen ∧ st.hop = hop ∧ st.bufPos = F * hop ∧ st.buffer.length = winLen + hop * max 2 F ∧
    st.norm.length = winLen + hop * max 2 F

theorem push_size {T : Type} [Flt T] {S : Type} (iop : StOp S T) (winLen hop F : ℕ) (st : IstftStream T) (s : S)
    (frame : List (Cx T)) (h : StreamSize winLen hop F st) :
    OPost (fun v : IstftStream T × S × Except FftError (List T) =>
      ((∃ c, v.2.2 = .ok c) → StreamSize winLen hop (F + 1) v.1) ∧ ((∃ e, v.2.2 = .error e) → StreamSize winLen hop F v.1))
      (st.push iop s frame) := by
  obtain ⟨h1, h2, h3, h4, h5⟩ := h
  unfold IstftStream.push
  refine OPost.ite (fun _ => OPost.ok ⟨fun ⟨c, hc⟩ => by simp at hc, fun _ => ⟨h1, h2, h3, h4, h5⟩⟩) fun _ => ?_
  refine OPost.bind' fun v => ?_
  obtain ⟨s', y, r⟩ := v
  cases r with
  | error => exact OPost.ok ⟨fun ⟨c, hc⟩ => by simp at hc, fun _ => ⟨h1, h2, h3, h4, h5⟩⟩
  | ok =>
    simp only
    refine OPost.bind (P := fun v : List T × List T => v.1.length = winLen + hop * max 2 F ∧ v.2.length = winLen + hop * max 2 F) ?_ fun v hv => ?_
    · refine OPost.forRange ⟨h4, h5⟩ fun i q hq => OPost.bind' fun _ => OPost.bind' fun _ => OPost.bind' fun _ =>
        OPost.bind OPost.wr fun a ha => OPost.bind' fun _ => OPost.bind OPost.wr fun b hb => OPost.pure ⟨?_, ?_⟩
      · simp only [ha, hq.1]
      · simp only [hb, hq.2]
    obtain ⟨b, n⟩ := v
    simp only at hv
    refine OPost.bind (emit_len _ _ b n) fun v hv' => ?_
    obtain ⟨b', n'⟩ := v
    simp only [hv.1, hv.2] at hv'
    have e : st.bufPos + st.hop + st.winLen = winLen + hop * (F + 1) := by rw [h1, h2, h3]; ring
    have hbig : ∀ l : List T, l.length = winLen + hop * max 2 F →
        (if st.bufPos + st.hop + st.winLen > b'.length then resize l (st.bufPos + st.hop + st.winLen) Flt.zero else l).length =
          winLen + hop * max 2 (F + 1) := by
      intro l hl
      rw [hv'.1, e]
      by_cases hF : F + 1 ≤ 2
      · rw [if_neg (by
          rw [max_eq_left (by omega)]
          have := Nat.mul_le_mul_left hop hF
          omega), hl, max_eq_left (by omega), max_eq_left hF]
      · have m1 : max 2 F = F := max_eq_right (by omega)
        have m2 : max 2 (F + 1) = F + 1 := max_eq_right (by omega)
        rw [m1, m2]
        rcases Nat.eq_zero_or_pos hop with h0 | h0
        · rw [if_neg (by rw [h0]; omega), hl, h0]; omega
        · rw [if_pos (by rw [Nat.mul_succ]; omega), resize_length]
    refine OPost.bind (P := fun v : List T × List T => v.1.length = winLen + hop * max 2 (F + 1) ∧
      v.2.length = winLen + hop * max 2 (F + 1)) ?_ fun v hv => ?_
    · refine OPost.forRange ⟨hbig _ hv'.1, hbig _ hv'.2⟩ fun i q hq => OPost.bind OPost.wr fun a ha =>
        OPost.bind OPost.wr fun b hb => OPost.pure ⟨?_, ?_⟩
      · simp only [ha, hq.1]
      · simp only [hb, hq.2]
    · obtain ⟨b2, n2⟩ := v
      refine OPost.ite (fun _ => OPost.ok ⟨fun _ => ⟨h1, h2, ?_, hv.1, hv.2⟩, fun ⟨c, hc⟩ => by simp at hc⟩) fun _ => OPost.panic
      simp only [h2, h3]; ring

theorem flush_size {T : Type} [Flt T] (winLen hop F : ℕ) (st : IstftStream T) (h : StreamSize winLen hop F st) :
    OPost (fun v : IstftStream T × List T => StreamSize winLen hop F v.1) st.flush := by
  obtain ⟨h1, h2, h3, h4, h5⟩ := h
  unfold IstftStream.flush
  refine OPost.ite (fun _ => OPost.ok ⟨h1, h2, h3, h4, h5⟩) fun _ => OPost.ite (fun _ => OPost.ok ⟨h1, h2, h3, h4, h5⟩) fun _ => ?_
  refine OPost.bind (emit_len _ _ _ _) fun v hv => ?_
  obtain ⟨b, n⟩ := v
  exact OPost.ok ⟨h1, h2, h3, by simp only [hv.1, h4], by simp only [hv.2, h5]⟩

/-- C87c. The inverse stream keeps everything: after `F` accepted frames, whatever was rejected or flushed in between,
its accumulation buffer and its normalisation buffer hold exactly `win_len + hop·max(2, F)` samples each. -/
theorem istft_stream_memory {T : Type} [Flt T] {S : Type} (iop : StOp S T) (winLen hop : ℕ) (window : List T)
    (st : IstftStream T) (s : S) (F : ℕ) (h : Accepted iop winLen hop window st s F) :
    st.buffer.length = winLen + hop * max 2 F ∧ st.norm.length = winLen + hop * max 2 F := by
  have : StreamSize winLen hop F st := by
    induction h with
    | new e =>
      unfold IstftStream.new at e
      split at e
      · simp at e
      · cases e
        exact ⟨rfl, rfl, by simp, by simp, by simp⟩
    | push _ e ih => exact (push_size iop winLen hop _ _ _ _ ih _ e).1 ⟨_, rfl⟩
    | reject _ e ih => exact (push_size iop winLen hop _ _ _ _ ih _ e).2 ⟨_, rfl⟩
    | flush _ e ih => exact flush_size winLen hop _ _ ih _ e
  exact this.2.2.2

/-- C87d, the claim fails for the inverse stream: with any build, any window length the transformer accepts, any hop up
to it and any bound, pushing enough frames of that length (all accepted) makes its buffers exceed the bound. -/
theorem istft_stream_unbounded {T : Type} [Flt T] (cfg : Cfg) (winLen hop : ℕ) (window : List T) (h0 : 0 < hop)
    (hh : hop ≤ winLen) (hw : winLen ≤ window.length) (hr : fftRes cfg winLen = .ok ()) (B : ℕ) :
    ∃ (st : IstftStream T) (p : Planner T) (F : ℕ), Accepted (ifft cfg) winLen hop window st p F ∧ B < st.buffer.length := by
  have key : ∀ F : ℕ, ∃ (st : IstftStream T) (p : Planner T), Accepted (ifft cfg) winLen hop window st p F ∧
      StreamReach cfg winLen hop window st p := by
    intro F
    induction F with
    | zero =>
      have e : ∃ st : IstftStream T, IstftStream.new winLen hop window = .ok st := by
        unfold IstftStream.new; rw [if_neg (by omega)]; exact ⟨_, rfl⟩
      obtain ⟨st, e⟩ := e
      exact ⟨st, Planner.new, .new e, .new e .new⟩
    | succ F ih =>
      obtain ⟨st, p, h1, h2⟩ := ih
      obtain ⟨g1, g2⟩ := streamReach_ok cfg winLen hop window hh hw h2
      obtain ⟨st', p', r, e, -, -, -, -, -, hc⟩ := stream_push_ok cfg winLen hop window hw st p g2 g1 (List.replicate winLen Cx.zero)
      obtain ⟨c, rfl⟩ := (hc (by simp)).mpr hr
      exact ⟨st', p', .push h1 e, .push h2 e⟩
  obtain ⟨st, p, h1, -⟩ := key (B + 2)
  refine ⟨st, p, B + 2, h1, ?_⟩
  rw [(istft_stream_memory _ _ _ _ _ _ _ h1).1, max_eq_right (by omega)]
  have := Nat.mul_le_mul h0 (le_refl (B + 2))
  omega

/-! ### The hypotheses are met -/

/-- Any number `k` of 60-point transforms, then a 1024-point one: the transformer exists, and keeps at most 55296
scalars, whatever `k`. -/
example [Flt ℝ] (k : ℕ) : ∃ p q : Planner ℝ, ∃ y r, Served ⟨true, .f32, false, 4, false⟩ {60, 1024} q ∧
    fft ⟨true, .f32, false, 4, false⟩ p (List.replicate 1024 Cx.zero) = .ok (q, y, r) ∧ ∀ K, held q K ≤ 55296 := by
  have h1 : ∀ k : ℕ, ∃ p : Planner ℝ, Served ⟨true, .f32, false, 4, false⟩ {60, 1024} p ∧ Reach ⟨true, .f32, false, 4, false⟩ p := by
    intro k
    induction k with
    | zero => exact ⟨_, .new, .new⟩
    | succ k ih =>
      obtain ⟨p, hp, hr⟩ := ih
      obtain ⟨p', y, e, -⟩ := fft_run ⟨true, .f32, false, 4, false⟩ p (List.replicate 60 Cx.zero) (reach_inv hr)
      exact ⟨p', .call hp (by simp) (.fft e), .fft hr trivial e⟩
  obtain ⟨p, hp, hr⟩ := h1 k
  obtain ⟨q, y, e, -⟩ := fft_run ⟨true, .f32, false, 4, false⟩ p (List.replicate 1024 Cx.zero) (reach_inv hr)
  have hq : Served ⟨true, .f32, false, 4, false⟩ {60, 1024} q := .call hp (by rw [List.length_replicate]; decide) (.fft e)
  refine ⟨p, q, y, _, hq, e, fun K => (retained_bounded _ _ q hq K).trans (le_of_eq ?_)⟩
  rw [sum_insert (by decide), sum_singleton]
  norm_num

/-- C87b, C87e, C87f: planners that were used. -/
example [Flt ℝ] (simd : Bool) : ∃ rp rp' : RfftPlanner ℝ, ∃ t, RServed simd {100} rp' ∧ rp.getTwiddles 100 = .ok (rp', t) ∧
    ∀ K, rheld rp' K ≤ 2640 := by
  obtain ⟨rp, e, h⟩ := rnew_ok (T := ℝ)
  obtain ⟨rp', e', -⟩ := getTwiddles_ok rp h 100
  have hq : RServed simd {100} rp' := .call (.new e) (by simp) (.getTwiddles 100 e')
  exact ⟨rp, rp', _, hq, e', fun K => (rfft_retained_bounded simd _ rp' hq K).trans (by simp)⟩

example [Flt ℝ] (cfg : Cfg) (simd : Bool) : ∃ st : DctPlanner ℝ, DctServed cfg simd {100} (st.getCos 100).1 ∧
    ∀ K, dheld (st.getCos 100).1 K ≤ 3142 := by
  obtain ⟨rp, e, h⟩ := rnew_ok (T := ℝ)
  have e' : DctPlanner.new (T := ℝ) = .ok ⟨fun _ => none, rp, [], []⟩ := by
    unfold DctPlanner.new; rw [e]; rfl
  have hq : DctServed cfg simd {100} ((⟨fun _ => none, rp, [], []⟩ : DctPlanner ℝ).getCos 100).1 := .plan 100 (.new e') (by simp)
  exact ⟨_, hq, fun K => (dct_retained_bounded cfg simd _ _ hq K).trans (by simp)⟩

example [Flt ℝ] : DstServed {8, 5} (((DstPlanner.new : DstPlanner ℝ).plan2 8).1.getScratch 5).1 :=
  .scratch 5 (.plan2 8 .new (by simp)) (by simp)

/-- C87c, C87d: with a 4-sample window and hop 2 the stream outgrows a million samples. -/
example [Flt ℝ] (cfg : Cfg) (w : List ℝ) (hw : w.length = 4) :
    ∃ (st : IstftStream ℝ) (p : Planner ℝ) (F : ℕ), Accepted (ifft cfg) 4 2 w st p F ∧ 1000000 < st.buffer.length :=
  istft_stream_unbounded cfg 4 2 w (by norm_num) (by norm_num) (by omega) (fftRes_pow2 cfg (by decide)) _

end Kofft.Props
