import Verif.Model.Plan
import Verif.Proof.Dft
/-
Strategies: when `fft_with_strategy` is `fft`, and relational facts about loops.
-/
namespace Kofft

/-! ### Relating two runs -/

/-- Both runs end the same way, with related results. -/
def RelO {α β : Type} (R : α → β → Prop) : Outcome α → Outcome β → Prop
  | .ok a, .ok b => R a b
  | .panic, .panic => True
  | .hang, .hang => True
  | _, _ => False

theorem RelO.bind {α β γ δ : Type} {R : α → β → Prop} {S : γ → δ → Prop} {a : Outcome α}
    {b : Outcome β} {f : α → Outcome γ} {g : β → Outcome δ} (h : RelO R a b)
    (hf : ∀ x y, R x y → RelO S (f x) (g y)) : RelO S (a >>= f) (b >>= g) := by
  cases a <;> cases b <;> first | exact hf _ _ h | exact h.elim | trivial

theorem RelO.refl {α : Type} {R : α → α → Prop} (hR : ∀ x, R x x) (a : Outcome α) : RelO R a a := by
  cases a <;> first | exact hR _ | trivial

theorem whileF_rel {σ τ : Type} {R : σ → τ → Prop} {c1 : σ → Bool} {c2 : τ → Bool}
    {b1 : σ → Outcome σ} {b2 : τ → Outcome τ} (hc : ∀ s t, R s t → c1 s = c2 t)
    (hb : ∀ s t, R s t → RelO R (b1 s) (b2 t)) :
    ∀ (fuel : Nat) (s : σ) (t : τ), R s t → RelO R (whileF fuel c1 b1 s) (whileF fuel c2 b2 t)
  | 0, _, _, _ => trivial
  | fuel + 1, s, t, h => by
    unfold whileF
    rw [← hc s t h]
    split
    · exact (hb s t h).bind (fun x y hxy => whileF_rel hc hb fuel x y hxy)
    · exact h

theorem loopN_rel {σ τ : Type} {R : σ → τ → Prop} {f : Nat → σ → Outcome σ} {g : Nat → τ → Outcome τ}
    (h : ∀ i s t, R s t → RelO R (f i s) (g i t)) :
    ∀ (cnt lo : Nat) (s : σ) (t : τ), R s t → RelO R (loopN cnt lo s f) (loopN cnt lo t g)
  | 0, _, _, _, hst => hst
  | cnt + 1, lo, s, t, hst => (h lo s t hst).bind (fun x y hxy => loopN_rel h cnt (lo + 1) x y hxy)

theorem forRange_rel {σ τ : Type} {R : σ → τ → Prop} {f : Nat → σ → Outcome σ}
    {g : Nat → τ → Outcome τ} (h : ∀ i s t, R s t → RelO R (f i s) (g i t)) (lo hi : Nat) (s : σ)
    (t : τ) (hst : R s t) : RelO R (forRange lo hi s f) (forRange lo hi t g) :=
  loopN_rel h _ _ _ _ hst

theorem rd_rel {α β : Type} (f : α → β) (l : List α) (i : Nat) :
    RelO (fun a b => b = f a) (rd l i) (rd (l.map f) i) := by
  unfold rd
  rw [List.getElem?_map]
  cases l[i]? <;> first | rfl | trivial

theorem wr_rel {α β : Type} (f : α → β) (l : List α) (i : Nat) (a : α) :
    RelO (fun x y => y = x.map f) (wr l i a) (wr (l.map f) i (f a)) := by
  unfold wr
  rw [List.length_map]
  split
  · exact List.map_set.symm
  · trivial

theorem swapAt_rel {α β : Type} (f : α → β) (l : List α) (i j : Nat) :
    RelO (fun x y => y = x.map f) (swapAt l i j) (swapAt (l.map f) i j) := by
  unfold swapAt
  refine (rd_rel f l i).bind ?_
  rintro a _ rfl
  refine (rd_rel f l j).bind ?_
  rintro b _ rfl
  refine (wr_rel f l i b).bind ?_
  rintro l' _ rfl
  exact wr_rel f l' j a

/-- The permutation loop does not look at the elements. -/
theorem revLoop_rel {α β : Type} (f : α → β) (sh : Nat) (l : List α) :
    RelO (fun x y => y = x.map f) (revLoop sh l) (revLoop sh (l.map f)) := by
  unfold revLoop
  simp only [List.length_map]
  refine RelO.bind (R := fun (a : Nat × List α) (b : Nat × List β) => b.1 = a.1 ∧ b.2 = a.2.map f) ?_ ?_
  · apply forRange_rel
    · rintro i ⟨j, x⟩ ⟨j', y⟩ ⟨h1, h2⟩
      simp only at h1 h2
      subst h1 h2
      simp only
      refine RelO.bind (R := fun a b => a = b) (RelO.refl (fun _ => rfl) _) ?_
      rintro k _ rfl
      split
      · refine (swapAt_rel f x i _).bind ?_
        rintro z _ rfl
        exact ⟨rfl, rfl⟩
      · exact ⟨rfl, rfl⟩
    · exact ⟨rfl, rfl⟩
  · rintro ⟨j, x⟩ ⟨j', y⟩ ⟨h1, h2⟩
    exact h2

theorem revLoop_map {α β : Type} (f : α → β) (sh : Nat) {l m : List α} (h : revLoop sh l = .ok m) :
    revLoop sh (l.map f) = .ok (m.map f) := by
  have := revLoop_rel f sh l
  rw [h] at this
  generalize revLoop sh (l.map f) = r at this
  cases r with
  | ok y => exact congrArg _ this
  | panic => exact this.elim
  | hang => exact this.elim

variable {T : Type} [Flt T]

/-- `fft_radix4` computes the same from any two transformers in a consistent state. -/
theorem fftRadix4_agree (cfg : Cfg) (p q : Planner T) (x : List (Cx T)) (hp : Inv cfg p)
    (hq : Inv cfg q) (h2 : isPow2 x.length = true) (he : x.length.log2 % 2 = 0) :
    RelO (fun a b => a.2 = b.2) (fftRadix4 cfg p x) (fftRadix4 cfg q x) := by
  unfold fftRadix4
  simp only [h2, he, Bool.not_true, Bool.false_or, ne_eq, not_true, decide_false, Bool.false_eq_true,
    if_false]
  refine RelO.bind (R := fun a b => a = b) (RelO.refl (fun _ => rfl) _) ?_
  rintro y _ rfl
  refine RelO.bind (R := fun (a b : Nat × Planner T × List (Cx T)) =>
    a.1 = b.1 ∧ a.2.2 = b.2.2 ∧ Inv cfg a.2.1 ∧ Inv cfg b.2.1) ?_ ?_
  · apply whileF_rel
    · rintro s t ⟨h, -⟩; rw [h]
    · rintro ⟨len, p1, y⟩ ⟨len', q1, y'⟩ ⟨h1, h2, h3, h4⟩
      simp only at h1 h2 h3 h4
      subst h1 h2
      simp only
      split
      · refine RelO.bind (R := fun a b => a = b) (RelO.refl (fun _ => rfl) _) ?_
        rintro z _ rfl
        exact ⟨rfl, rfl, h3, h4⟩
      · obtain ⟨t1, t2, -⟩ := getTwiddles_inv cfg p1 len h3
        obtain ⟨u1, u2, -⟩ := getTwiddles_inv cfg q1 len h4
        rw [t1, u1]
        refine RelO.bind (R := fun a b => a = b) (RelO.refl (fun _ => rfl) _) ?_
        rintro s1 _ rfl
        refine RelO.bind (R := fun a b => a = b) (RelO.refl (fun _ => rfl) _) ?_
        rintro s2 _ rfl
        refine RelO.bind (R := fun a b => a = b) (RelO.refl (fun _ => rfl) _) ?_
        rintro s3 _ rfl
        refine RelO.bind (R := fun a b => a = b) (RelO.refl (fun _ => rfl) _) ?_
        rintro z _ rfl
        exact ⟨rfl, rfl, t2, u2⟩
    · exact ⟨rfl, rfl, hp, hq⟩
  · rintro ⟨len, p1, y⟩ ⟨len', q1, y'⟩ ⟨h1, h2, h3, h4⟩
    simp only at h2
    subst h2
    rfl

theorem fftRadix4_one (cfg : Cfg) (p : Planner T) (a : Cx T) :
    fftRadix4 cfg p [a] = fft cfg p [a] := rfl

theorem fftRadix4_four (cfg : Cfg) (p : Planner T) (a b c d : Cx T) :
    fftRadix4 cfg p [a, b, c, d] = fft cfg p [a, b, c, d] := by
  have hp4 : isPow2 4 = true := by decide
  have hl4 : Nat.log2 4 = 2 := by decide
  have e1 : fftRadix4 cfg p [a, b, c, d] = .ok (p, [((a.add c).add (b.add d)),
    ((a.sub c).add ((b.sub d).mul cxMinusI)), ((a.add c).sub (b.add d)),
    ((a.sub c).sub ((b.sub d).mul cxMinusI))], .ok ()) := by
    have hr : revLoop 2 [a, b, c, d] = .ok [a, b, c, d] := by
      have h0 : revLoop 2 [0, 1, 2, 3] = .ok [0, 1, 2, 3] := by decide
      exact revLoop_map (fun i => [a, b, c, d].getD i a) 2 h0
    unfold fftRadix4
    have hl : [a, b, c, d].length = 4 := rfl
    simp only [hr, hl, hp4, hl4, Outcome.bind_ok]
    rfl
  have e2 : fft cfg p [a, b, c, d] = (fft4 cfg.debug [a, b, c, d] >>= fun y => .ok (p, y, .ok ())) := by
    show fftBody cfg _ p [a, b, c, d] = _
    unfold fftBody smallKernel
    have hl : [a, b, c, d].length = 4 := rfl
    simp [hl, hp4]
  rw [e1, e2]
  simp [fft4]

/-- `fft_radix4` is `fft` unless the length is `4^k` with `k ≥ 2`. -/
theorem fftRadix4_eq (cfg : Cfg) (p : Planner T) (x : List (Cx T)) (h0 : x.length ≠ 0)
    (h : ¬ ∃ k, 2 ≤ k ∧ x.length = 4 ^ k) : fftRadix4 cfg p x = fft cfg p x := by
  by_cases hf : isPow2 x.length = false ∨ x.length.log2 % 2 ≠ 0
  · exact fftRadix4_fallback cfg p x hf
  push Not at hf
  obtain ⟨hp, he⟩ := hf
  have hp : isPow2 x.length = true := by simpa using hp
  have h4 : x.length = 4 ^ (x.length.log2 / 2) := by
    conv_lhs => rw [pow2_eq hp]
    rw [show (4 : Nat) = 2 ^ 2 by norm_num, ← pow_mul]
    congr 1; omega
  have hlt : x.length.log2 / 2 < 2 := by
    by_contra hc
    exact h ⟨_, by omega, h4⟩
  have : x.length.log2 / 2 = 0 ∨ x.length.log2 / 2 = 1 := by omega
  rcases this with h | h
  · rw [h] at h4
    obtain ⟨a, rfl⟩ := List.length_eq_one_iff.mp h4
    exact fftRadix4_one cfg p a
  · rw [h] at h4
    match x, h4 with
    | [a, b, c, d], _ => exact fftRadix4_four cfg p a b c d

/-- `fft_with_strategy` is `fft`, unless it runs the radix-4 kernel on `4^k ≥ 16` elements. -/
theorem strategy_eq (cfg : Cfg) (st : Strategy) (p : Planner T) (x : List (Cx T)) (hI : Inv cfg p)
    (h : st ≠ .Radix4 ∨ cfg.std = false ∨ ¬ ∃ k, 2 ≤ k ∧ x.length = 4 ^ k) :
    fftWithStrategy cfg st p x = fft cfg p x := by
  by_cases h0 : x.length = 0
  · have : x = [] := List.length_eq_zero_iff.mp h0
    subst this
    rfl
  by_cases h1 : x.length = 1
  · obtain ⟨a, rfl⟩ := List.length_eq_one_iff.mp h1
    rfl
  unfold fftWithStrategy
  simp only [h0, h1, if_false]
  have hs := stockhamFft_eq cfg p x hI (by omega)
  cases st
  · rfl
  · simp only [reduceCtorEq, if_false]
    by_cases hstd : cfg.std = true
    · rw [if_pos hstd]
      refine fftRadix4_eq cfg p x h0 ?_
      rcases h with h | h | h
      · simp at h
      · rw [hstd] at h; simp at h
      · exact h
    · rw [if_neg hstd]
  · simpa using hs
  · simp only [if_true]
    unfold planStrategy
    split
    · rename_i hh
      split at hh
      · simp at hh
      · simp at hh
    · rename_i hh
      split at hh
      · simp at hh
      · simp at hh
    · exact hs
    · rfl

end Kofft
