import Verif.Spec.Sticky
import Verif.Proof.Api
import Verif.Proof.RoundKer
/-
A non-finite number in the input of a transform reaches every output.
-/
namespace Kofft

open Spec

variable {T : Type} [F : Flt T] {fin : T → Prop}

local notation "ok" => CFin fin

section
variable (h : Sticky F fin) {a b : Cx T}
include h

theorem st_add (H : ok (a.add b)) : ok a ∧ ok b :=
  ⟨⟨(h.add _ _ H.1).1, (h.add _ _ H.2).1⟩, ⟨(h.add _ _ H.1).2, (h.add _ _ H.2).2⟩⟩

theorem st_sub (H : ok (a.sub b)) : ok a ∧ ok b :=
  ⟨⟨(h.sub _ _ H.1).1, (h.sub _ _ H.2).1⟩, ⟨(h.sub _ _ H.1).2, (h.sub _ _ H.2).2⟩⟩

theorem st_mulPlain (H : ok (a.mulPlain b)) : ok a := by
  have h1 := h.sub _ _ H.1
  exact ⟨(h.mul _ _ h1.1).1, (h.mul _ _ h1.2).1⟩

theorem st_mul (H : ok (a.mul b)) : ok a := by
  unfold Cx.mul at H
  split at H
  · have h1 := h.mulAdd _ _ _ H.1
    exact ⟨h1.1, (h.mul _ _ (h.neg _ h1.2.2)).1⟩
  · exact st_mulPlain h H

theorem st_mul_r (H : ok (a.mul b)) : ok b := by
  unfold Cx.mul at H
  split at H
  · have h1 := h.mulAdd _ _ _ H.1
    have h2 := h.mulAdd _ _ _ H.2
    exact ⟨h1.2.1, h2.2.1⟩
  · have h1 := h.sub _ _ H.1
    exact ⟨(h.mul _ _ h1.1).2, (h.mul _ _ h1.2).2⟩

theorem st_conj (H : ok a.conj) : ok a := ⟨H.1, h.neg _ H.2⟩

theorem st_scale {s : T} (H : ok (Cx.mk (a.re *. s) (a.im *. s))) : ok a :=
  ⟨(h.mul _ _ H.1).1, (h.mul _ _ H.2).1⟩

/-! ### The fixed-size kernels -/

theorem st_half {x0 x1 x2 x3 x4 x5 x6 x7 : Cx T} :
    let r := fft16Half x0 x1 x2 x3 x4 x5 x6 x7
    ∀ y ∈ [r.1, r.2.1, r.2.2.1, r.2.2.2.1, r.2.2.2.2.1, r.2.2.2.2.2.1, r.2.2.2.2.2.2.1, r.2.2.2.2.2.2.2], ok y →
      ∀ c ∈ [x0, x1, x2, x3, x4, x5, x6, x7], ok c := by
  have A := fun a b => @st_add T F fin h a b
  have B := fun a b => @st_sub T F fin h a b
  have C := fun a b => @st_mul T F fin h a b
  intro r y hy H
  simp only [List.mem_cons, List.not_mem_nil, or_false, forall_eq_or_imp, forall_eq]
  simp only [r, fft16Half, List.mem_cons, List.not_mem_nil, or_false] at hy
  rcases hy with rfl | rfl | rfl | rfl | rfl | rfl | rfl | rfl
  all_goals
    first | have H := A _ _ H | have H := B _ _ H
    obtain ⟨H1, H2⟩ := H
    try replace H2 := C _ _ H2
    first | have H1 := A _ _ H1 | have H1 := B _ _ H1
    first | have H2 := A _ _ H2 | have H2 := B _ _ H2
    obtain ⟨H1, H3⟩ := H1
    obtain ⟨H2, H4⟩ := H2
    try replace H3 := C _ _ H3
    try replace H4 := C _ _ H4
    first | have H1 := A _ _ H1 | have H1 := B _ _ H1
    first | have H2 := A _ _ H2 | have H2 := B _ _ H2
    first | have H3 := A _ _ H3 | have H3 := B _ _ H3
    first | have H4 := A _ _ H4 | have H4 := B _ _ H4
    exact ⟨H1.1, H2.1, H3.1, H4.1, H1.2, H2.2, H3.2, H4.2⟩

theorem st_fft2 {x : List (Cx T)} (hl : x.length = 2) {d : Bool} {y : List (Cx T)} (e : fft2 d x = .ok y) :
    ∀ c ∈ y, ok c → ∀ a ∈ x, ok a := by
  match x, hl with
  | [x0, x1], _ =>
    have e' : y = [x0.add x1, x0.sub x1] := by
      have : fft2 d [x0, x1] = .ok [x0.add x1, x0.sub x1] := by cases d <;> rfl
      rw [this] at e; exact (Outcome.ok.inj e).symm
    subst e'
    intro c hc H
    simp only [List.mem_cons, List.not_mem_nil, or_false, forall_eq_or_imp, forall_eq] at hc ⊢
    rcases hc with rfl | rfl
    · exact st_add h H
    · exact st_sub h H

theorem st_fft4 {x : List (Cx T)} (hl : x.length = 4) {d : Bool} {y : List (Cx T)} (e : fft4 d x = .ok y) :
    ∀ c ∈ y, ok c → ∀ a ∈ x, ok a := by
  match x, hl with
  | [x0, x1, x2, x3], _ =>
    have e' : y = [(x0.add x2).add (x1.add x3), (x0.sub x2).add ((x1.sub x3).mul cxMinusI),
        (x0.add x2).sub (x1.add x3), (x0.sub x2).sub ((x1.sub x3).mul cxMinusI)] := by
      have : fft4 d [x0, x1, x2, x3] = .ok [(x0.add x2).add (x1.add x3), (x0.sub x2).add ((x1.sub x3).mul cxMinusI),
        (x0.add x2).sub (x1.add x3), (x0.sub x2).sub ((x1.sub x3).mul cxMinusI)] := by cases d <;> rfl
      rw [this] at e; exact (Outcome.ok.inj e).symm
    subst e'
    intro c hc H
    simp only [List.mem_cons, List.not_mem_nil, or_false, forall_eq_or_imp, forall_eq] at hc ⊢
    rcases hc with rfl | rfl | rfl | rfl
    · obtain ⟨H1, H2⟩ := st_add h H
      have H1 := st_add h H1; have H2 := st_add h H2
      exact ⟨H1.1, H2.1, H1.2, H2.2⟩
    · obtain ⟨H1, H2⟩ := st_add h H
      have H1 := st_sub h H1; have H2 := st_sub h (st_mul h H2)
      exact ⟨H1.1, H2.1, H1.2, H2.2⟩
    · obtain ⟨H1, H2⟩ := st_sub h H
      have H1 := st_add h H1; have H2 := st_add h H2
      exact ⟨H1.1, H2.1, H1.2, H2.2⟩
    · obtain ⟨H1, H2⟩ := st_sub h H
      have H1 := st_sub h H1; have H2 := st_sub h (st_mul h H2)
      exact ⟨H1.1, H2.1, H1.2, H2.2⟩

theorem st_fft8 {x : List (Cx T)} (hl : x.length = 8) {d : Bool} {y : List (Cx T)} (e : fft8 d x = .ok y) :
    ∀ c ∈ y, ok c → ∀ a ∈ x, ok a := by
  match x, hl with
  | [x0, x1, x2, x3, x4, x5, x6, x7], _ =>
    have e' : y = (let r := fft16Half x0 x1 x2 x3 x4 x5 x6 x7
        [r.1, r.2.1, r.2.2.1, r.2.2.2.1, r.2.2.2.2.1, r.2.2.2.2.2.1, r.2.2.2.2.2.2.1, r.2.2.2.2.2.2.2]) := by
      have : fft8 d [x0, x1, x2, x3, x4, x5, x6, x7] = .ok (let r := fft16Half x0 x1 x2 x3 x4 x5 x6 x7
        [r.1, r.2.1, r.2.2.1, r.2.2.2.1, r.2.2.2.2.1, r.2.2.2.2.2.1, r.2.2.2.2.2.2.1, r.2.2.2.2.2.2.2]) := by
        cases d <;> rfl
      rw [this] at e; exact (Outcome.ok.inj e).symm
    subst e'
    exact st_half h

theorem st_fft16 {x : List (Cx T)} (hl : x.length = 16) {d : Bool} {y : List (Cx T)} (e : fft16 d x = .ok y) :
    ∀ c ∈ y, ok c → ∀ a ∈ x, ok a := by
  match x, hl with
  | [x0, x1, x2, x3, x4, x5, x6, x7, x8, x9, x10, x11, x12, x13, x14, x15], _ =>
    have he := @st_half T F fin h x0 x2 x4 x6 x8 x10 x12 x14
    have ho := @st_half T F fin h x1 x3 x5 x7 x9 x11 x13 x15
    unfold fft16 at e
    simp only [List.isEmpty_nil, Bool.not_true, Bool.and_false, Bool.false_eq_true, if_false, Outcome.ok.injEq] at e
    subst e
    simp only [List.mem_cons, List.not_mem_nil, or_false, forall_eq_or_imp, forall_eq] at he ho
    obtain ⟨e0, e1, e2, e3, e4, e5, e6, e7⟩ := he
    obtain ⟨o0, o1, o2, o3, o4, o5, o6, o7⟩ := ho
    have A := fun a b => @st_add T F fin h a b
    have B := fun a b => @st_sub T F fin h a b
    have C := fun a b => @st_mul T F fin h a b
    have key : ∀ u w : Cx T, (ok u → ok x0 ∧ ok x2 ∧ ok x4 ∧ ok x6 ∧ ok x8 ∧ ok x10 ∧ ok x12 ∧ ok x14) →
        (ok w → ok x1 ∧ ok x3 ∧ ok x5 ∧ ok x7 ∧ ok x9 ∧ ok x11 ∧ ok x13 ∧ ok x15) → ok u ∧ ok w →
        ∀ a ∈ [x0, x1, x2, x3, x4, x5, x6, x7, x8, x9, x10, x11, x12, x13, x14, x15], ok a := by
      intro u w hu hw H
      obtain ⟨a0, a1, a2, a3, a4, a5, a6, a7⟩ := hu H.1
      obtain ⟨b0, b1, b2, b3, b4, b5, b6, b7⟩ := hw H.2
      simp only [List.mem_cons, List.not_mem_nil, or_false, forall_eq_or_imp, forall_eq]
      exact ⟨a0, b0, a1, b1, a2, b2, a3, b3, a4, b4, a5, b5, a6, b6, a7, b7⟩
    intro c hc H
    simp only [List.mem_cons, List.not_mem_nil, or_false] at hc
    rcases hc with rfl | rfl | rfl | rfl | rfl | rfl | rfl | rfl | rfl | rfl | rfl | rfl | rfl | rfl | rfl | rfl
    · exact key _ _ e0 o0 (A _ _ H)
    · exact key _ _ e1 (fun q => o1 (C _ _ q)) (A _ _ H)
    · exact key _ _ e2 (fun q => o2 (C _ _ q)) (A _ _ H)
    · exact key _ _ e3 (fun q => o3 (C _ _ q)) (A _ _ H)
    · exact key _ _ e4 (fun q => o4 (C _ _ q)) (A _ _ H)
    · exact key _ _ e5 (fun q => o5 (C _ _ q)) (A _ _ H)
    · exact key _ _ e6 (fun q => o6 (C _ _ q)) (A _ _ H)
    · exact key _ _ e7 (fun q => o7 (C _ _ q)) (A _ _ H)
    · exact key _ _ e0 o0 (B _ _ H)
    · exact key _ _ e1 (fun q => o1 (C _ _ q)) (B _ _ H)
    · exact key _ _ e2 (fun q => o2 (C _ _ q)) (B _ _ H)
    · exact key _ _ e3 (fun q => o3 (C _ _ q)) (B _ _ H)
    · exact key _ _ e4 (fun q => o4 (C _ _ q)) (B _ _ H)
    · exact key _ _ e5 (fun q => o5 (C _ _ q)) (B _ _ H)
    · exact key _ _ e6 (fun q => o6 (C _ _ q)) (B _ _ H)
    · exact key _ _ e7 (fun q => o7 (C _ _ q)) (B _ _ H)

theorem st_smallOut (cfg : Cfg) {x : List (Cx T)}
    (hl : x.length = 2 ∨ x.length = 4 ∨ x.length = 8 ∨ x.length = 16) :
    ∀ c ∈ smallOut cfg x, ok c → ∀ a ∈ x, ok a := by
  obtain ⟨y, e, -⟩ := smallKernel_ok cfg x hl
  have hy : smallOut cfg x = y := by simp [smallOut, e]
  rw [hy]
  unfold smallKernel at e
  rcases hl with hl | hl | hl | hl <;> rw [hl] at e <;> simp only [Nat.reduceEqDiff, if_true, if_false] at e
  · exact st_fft2 h hl e
  · exact st_fft4 h hl e
  · exact st_fft8 h hl e
  · exact st_fft16 h hl e

/-! ### Stockham -/

theorem st_stk (mul : Cx T → Cx T → Cx T) (hm : ∀ a b, ok (mul a b) → ok a) (K : Nat) (tw x : Nat → Cx T) :
    ∀ s, s ≤ K → ∀ q j, q < 2 ^ s → j < 2 ^ K / 2 ^ s → ok (stk mul (2 ^ K) tw x s (q * (2 ^ K / 2 ^ s) + j)) →
      ∀ r, r < 2 ^ s → ok (x (j + (2 ^ K / 2 ^ s) * r))
  | 0, _, q, j, hq, hj, H, r, hr => by
    have : q = 0 := by simpa using hq
    subst this
    have : r = 0 := by simpa using hr
    subst this
    simpa [stk] using H
  | s + 1, hs, q, j, hq, hj, H, r, hr => by
    set n2 := 2 ^ K / 2 ^ (s + 1) with hn2
    have hK : 2 * 2 ^ s * n2 = 2 ^ K := by
      rw [show 2 * 2 ^ s = 2 ^ (s + 1) by ring]
      exact Nat.mul_div_cancel' (pow_dvd_pow 2 hs)
    have h2s : 0 < 2 ^ s := Nat.pow_pos (by norm_num)
    have hN : 2 ^ K / 2 ^ s = 2 * n2 := by
      rw [← hK]; rw [show 2 * 2 ^ s * n2 = 2 ^ s * (2 * n2) by ring]; exact Nat.mul_div_cancel_left _ h2s
    have ih := st_stk mul hm K tw x s (by omega)
    rw [hN] at ih
    have hboth : ∃ k, k < 2 ^ s ∧ ok (stk mul (2 ^ K) tw x s (2 * k * n2 + j)) ∧
        ok (stk mul (2 ^ K) tw x s (2 * k * n2 + n2 + j)) := by
      have H' : ok (stageF mul (2 ^ s) n2 tw (stk mul (2 ^ K) tw x s) (q * n2 + j)) := H
      by_cases hq2 : q < 2 ^ s
      · rw [stageF_lo hq2 hj] at H'
        have := st_add h H'
        exact ⟨q, hq2, this.1, hm _ _ this.2⟩
      · obtain ⟨k, rfl⟩ : ∃ k, q = k + 2 ^ s := ⟨q - 2 ^ s, by omega⟩
        rw [stageF_hi hj] at H'
        have := st_sub h H'
        exact ⟨k, by rw [pow_succ] at hq; omega, this.1, hm _ _ this.2⟩
    obtain ⟨k, hk, h1, h2⟩ := hboth
    have hr2 : r / 2 < 2 ^ s := by rw [pow_succ] at hr; omega
    rcases Nat.even_or_odd' r with ⟨c, hc | hc⟩
    · have := ih k j hk (by omega) (by rw [show k * (2 * n2) + j = 2 * k * n2 + j by ring]; exact h1) c (by omega)
      rwa [hc, show n2 * (2 * c) = 2 * n2 * c by ring]
    · have := ih k (n2 + j) hk (by omega)
        (by rw [show k * (2 * n2) + (n2 + j) = 2 * k * n2 + n2 + j by ring]; exact h2) c (by omega)
      rwa [hc, show j + n2 * (2 * c + 1) = n2 + j + 2 * n2 * c by ring]

theorem st_stkOut (cfg : Cfg) (mul : Cx T → Cx T → Cx T) (hm : ∀ a b, ok (mul a b) → ok a) {z : List (Cx T)}
    (hp : isPow2 z.length = true) : ∀ c ∈ stkOut cfg mul z, ok c → ∀ a ∈ z, ok a := by
  intro c hc H a ha
  obtain ⟨K, hK⟩ := isPow2_iff.mp hp
  unfold stkOut at hc
  obtain ⟨k, hk, rfl⟩ := List.mem_iff_getElem.mp hc
  obtain ⟨i, hi, rfl⟩ := List.mem_iff_getElem.mp ha
  rw [tab_getElem] at H
  rw [tab_length] at hk
  have hz : z[i] = (fun i => z.getD i Cx.zero) i := by simp [hi]
  rw [hz]
  generalize (fun i => z.getD i Cx.zero) = f at *
  clear hz hp hc ha
  generalize z.length = n at *
  subst hK
  rw [log2_pow'] at H
  have := st_stk h mul hm K (twAt cfg (2 ^ K)) f K le_rfl k 0 (by omega)
    (by rw [Nat.div_self (Nat.pow_pos (by norm_num))]; norm_num)
  rw [Nat.div_self (Nat.pow_pos (by norm_num))] at this
  simp only [mul_one, add_zero, one_mul, zero_add] at this
  exact this H i hi

/-! ### Whole transforms -/

omit h in
theorem stale_len {p : Planner T} (hs : SplitOk p) (x : List (Cx T)) :
    (x ++ stale p x.length).length = max p.splitRe.length x.length := by
  simp [stale, ← hs.1]; omega

omit h in
theorem stale_pow2 {p : Planner T} (hs : SplitOk p) {x : List (Cx T)} (hp : isPow2 x.length = true) :
    isPow2 (x ++ stale p x.length).length = true := by
  rw [stale_len hs]
  rcases hs.2 with h | ⟨h, _⟩
  · rw [h]; simpa using hp
  · exact max_pow2 h hp

omit h in
theorem splitOk_next (cfg : Cfg) {p : Planner T} (hs : SplitOk p) {x : List (Cx T)} (hp : isPow2 x.length = true) :
    SplitOk { p with splitRe := (powNext cfg p x).1, splitIm := (powNext cfg p x).2 } := by
  unfold powNext
  split
  · rename_i h16
    unfold splitNext
    split
    · refine ⟨by simp, Or.inr ?_⟩
      simp only [List.length_map, stkOut_length]
      refine ⟨stale_pow2 hs hp, ?_⟩
      rw [stale_len hs]; omega
    · refine ⟨by simp [grow_length, hs.1], Or.inr ?_⟩
      simp only [grow_length]
      refine ⟨?_, by omega⟩
      rcases hs.2 with h | ⟨h, _⟩
      · rw [h]; simpa using hp
      · exact max_pow2 h hp
  · exact hs

theorem st_powOut (cfg : Cfg) (p : Planner T) (hs : SplitOk p) {x : List (Cx T)} (hp : isPow2 x.length = true) :
    ∀ c ∈ powOut cfg p x, ok c → ∀ a ∈ x, ok a := by
  unfold powOut
  split
  · rename_i h1
    match x, h1 with
    | [a], _ => intro c hc H b hb; simp at hc hb; subst hc hb; exact H
  split
  · rename_i h1 h2
    exact st_smallOut h cfg (by have := pow2_le16 hp h2; omega)
  unfold bigOut
  split
  · intro c hc H a ha
    refine st_stkOut h cfg _ (fun a b => st_mulPlain h) ?_ c (List.mem_of_mem_take hc) H a (by simp [ha])
    exact stale_pow2 hs hp
  · exact st_stkOut h cfg _ (fun a b => st_mul h) hp

omit h F in
theorem mem_copyPrefix {α : Type} {c : α} : ∀ {s d : List α}, c ∈ copyPrefix s d → c ∈ s ∨ c ∈ d
  | a :: s, b :: d, hc => by
    rw [copyPrefix, List.mem_cons] at hc
    rcases hc with rfl | hc
    · simp
    · rcases mem_copyPrefix hc with h | h <;> simp [h]
  | [], d, hc => by rw [copyPrefix] at hc; exact Or.inr hc
  | _ :: _, [], hc => by simp [copyPrefix] at hc

theorem st_mid {a fb : List (Cx T)} (hall : ∀ c ∈ a, ¬ ok c) : ∀ c ∈ bluMid a fb, ¬ ok c := by
  intro c hc H
  unfold bluMid at hc
  obtain ⟨d, hd, rfl⟩ := List.mem_map.mp hc
  have H' := st_conj h H
  rcases mem_copyPrefix hd with h1 | h1
  · obtain ⟨i, hi, rfl⟩ := List.mem_iff_getElem.mp h1
    rw [List.getElem_zipWith] at H'
    exact hall _ (List.getElem_mem _) (st_mul h H')
  · exact hall _ h1 H'

theorem st_bluRun (cfg : Cfg) (p : Planner T) (hI : Inv cfg p) {x : List (Cx T)} (hx : 0 < x.length) :
    ∀ c ∈ (bluRun cfg p x).1, ok c → ∀ a ∈ x, ok a := by
  intro c hc H a ha
  by_contra hna
  unfold bluRun at hc
  simp only at hc
  generalize hn : x.length = n at hc
  have hm1 : n ≤ bluM n := by unfold bluM; have := le_nextPow2 (2 * n - 1); omega
  set L := max p.bluScratch.length (bluM n) with hL
  have hLp : isPow2 L = true := by
    rcases hI.scr with h | h
    · rw [hL, h]; simpa using bluM_pow2 n
    · exact max_pow2 h (bluM_pow2 n)
  generalize ha0 : bluA n (bluM n) L (fun i => x.getD i Cx.zero)
    (fun i => (grow p.bluScratch (bluM n) Cx.zero).getD i Cx.zero) = a0 at hc
  have hl0 : a0.length = L := by rw [← ha0]; simp [bluA]
  have hbad0 : ∃ c ∈ a0, ¬ ok c := by
    obtain ⟨i, hi, rfl⟩ := List.mem_iff_getElem.mp ha
    rw [hn] at hi
    refine ⟨(x.getD i Cx.zero).mul (chirpAt n i), ?_, ?_⟩
    · rw [← ha0]
      unfold bluA
      rw [List.mem_iff_getElem]
      refine ⟨i, by simp; omega, ?_⟩
      rw [tab_getElem, if_pos hi]
    · intro q
      have := st_mul h q
      rw [List.getD_eq_getElem?_getD, List.getElem?_eq_getElem (by omega), Option.getD_some] at this
      exact hna this
  obtain ⟨b0, hb0, hb0'⟩ := hbad0
  have hp0 : isPow2 a0.length = true := by rw [hl0]; exact hLp
  have h1 : ∀ c ∈ powOut cfg p a0, ¬ ok c := fun c hc H => hb0' (st_powOut h cfg p hI.split hp0 c hc H b0 hb0)
  have h2 := st_mid h (fb := (bluPair cfg n).2) h1
  have hl2 : (bluMid (powOut cfg p a0) (bluPair cfg n).2).length = L := by
    rw [bluMid_length, powOut_length cfg p a0 hp0, hl0]
  generalize bluMid (powOut cfg p a0) (bluPair cfg n).2 = a2 at *
  have hp2 : isPow2 a2.length = true := by rw [hl2]; exact hLp
  have hs1 := splitOk_next cfg hI.split hp0
  have hne : 0 < a2.length := by rw [hl2]; exact isPow2_pos hLp
  have h3 : ∀ c ∈ powOut cfg { p with splitRe := (powNext cfg p a0).1, splitIm := (powNext cfg p a0).2 } a2, ¬ ok c :=
    fun c hc H => h2 _ (List.getElem_mem hne) (st_powOut h cfg _ hs1 hp2 c hc H _ (List.getElem_mem hne))
  have hl3 := powOut_length cfg { p with splitRe := (powNext cfg p a0).1, splitIm := (powNext cfg p a0).2 } a2 hp2
  generalize powOut cfg { p with splitRe := (powNext cfg p a0).1, splitIm := (powNext cfg p a0).2 } a2 = a3 at *
  unfold bluPost at hc
  obtain ⟨i, hi, rfl⟩ := List.mem_iff_getElem.mp hc
  rw [tab_length] at hi
  rw [tab_getElem] at H
  have hi3 : i < a3.length := by omega
  have := st_conj h (st_scale h (st_mul h H))
  rw [List.getD_eq_getElem?_getD, List.getElem?_eq_getElem hi3, Option.getD_some] at this
  exact h3 _ (List.getElem_mem hi3) this

theorem st_fftBuf (cfg : Cfg) (p : Planner T) (hI : Inv cfg p) {x : List (Cx T)} (hx : 0 < x.length)
    (hr : fftRes cfg x.length = .ok ()) : ∀ c ∈ fftBuf cfg p x, ok c → ∀ a ∈ x, ok a := by
  unfold fftBuf
  rw [hr]
  simp only
  unfold fftOut
  split
  · rename_i hp; exact st_powOut h cfg p hI.split hp
  · exact st_bluRun h cfg p hI hx

theorem st_ifftBuf (cfg : Cfg) (p : Planner T) (hI : Inv cfg p) {x : List (Cx T)} (hx : 0 < x.length)
    (hr : fftRes cfg x.length = .ok ()) : ∀ c ∈ ifftBuf cfg p x, ok c → ∀ a ∈ x, ok a := by
  unfold ifftBuf
  split
  · rename_i h1
    have h1 : x.length = 1 := by omega
    match x, h1 with
    | [a], _ => intro c hc H b hb; simp at hc hb; subst hc hb; exact H
  · rw [hr]
    intro c hc H a ha
    obtain ⟨d, hd, rfl⟩ := List.mem_map.mp hc
    have H1 : ok d := st_conj h (st_scale h (by exact H))
    exact st_conj h (st_fftBuf h cfg p hI (by simpa using hx) (by simpa using hr) d hd H1 a.conj
      (List.mem_map.mpr ⟨a, ha, rfl⟩))

/-! ### Leftovers -/

/-- every number kept in the split buffers is non-finite -/
theorem st_next (cfg : Cfg) (hk : cfg.kind = .f32 ∨ cfg.kind = .f64) {p : Planner T} (hs : SplitOk p)
    {x : List (Cx T)} (hp : isPow2 x.length = true) (h16 : 16 < x.length)
    (hb : ∃ a ∈ x ++ stale p x.length, ¬ ok a) :
    (powNext cfg p x).1.length = max p.splitRe.length x.length ∧
    (∀ c ∈ List.zipWith Cx.mk (powNext cfg p x).1 (powNext cfg p x).2, ¬ ok c) ∧
    ∀ c ∈ powOut cfg p x, ¬ ok c := by
  obtain ⟨a, ha, hna⟩ := hb
  have h1 : ∀ c ∈ stkOut cfg Cx.mulPlain (x ++ stale p x.length), ¬ ok c := fun c hc H =>
    hna (st_stkOut h cfg _ (fun a b => st_mulPlain h) (stale_pow2 hs hp) c hc H a ha)
  have hl := stkOut_length cfg Cx.mulPlain (x ++ stale p x.length)
  rw [stale_len hs] at hl
  unfold powNext
  rw [if_pos h16]
  unfold splitNext
  rw [if_pos hk]
  refine ⟨by simpa using hl, ?_, ?_⟩
  · intro c hc
    simp only [List.zipWith_map] at hc
    rw [show List.zipWith (fun a b : Cx T => Cx.mk a.re b.im) (stkOut cfg Cx.mulPlain (x ++ stale p x.length))
      (stkOut cfg Cx.mulPlain (x ++ stale p x.length)) = stkOut cfg Cx.mulPlain (x ++ stale p x.length) by
        rw [List.zipWith_self]; simp] at hc
    exact h1 c hc
  · unfold powOut
    rw [if_neg (by omega), if_neg (by omega)]
    unfold bigOut
    rw [if_pos hk]
    exact fun c hc => h1 c (List.mem_of_mem_take hc)

end

end Kofft
