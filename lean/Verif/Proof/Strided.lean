import Verif.Proof.Radix4
import Verif.Proof.Split
/-
Strided transforms and the set of reachable planners.
-/
namespace Kofft

variable {T : Type} [Flt T]

theorem Inv.withScratch {cfg : Cfg} {p : Planner T} (h : Inv cfg p) (s : List (Cx T)) :
    Inv cfg { p with scratch := s } := ⟨h.cache, h.blu, h.split, h.scr⟩

/-- The strided sub-sequence of a buffer. -/
def stridedSeq (x : List (Cx T)) (stride n : Nat) : List (Cx T) :=
  tab n (fun i => x.getD (i * stride) Cx.zero)

/-- A buffer with its strided elements replaced. -/
def stridedPut (x : List (Cx T)) (stride n : Nat) (y : List (Cx T)) : List (Cx T) :=
  tab x.length fun k =>
    if k % stride = 0 ∧ k / stride < n then y.getD (k / stride) Cx.zero else x.getD k Cx.zero

theorem strided_run {cfg : Cfg} {op : FftOp T} {out : Planner T → List (Cx T) → List (Cx T)}
    (ho : OpOk cfg op out) (p : Planner T) (x : List (Cx T)) (stride : Nat) (sc : List (Cx T))
    (hI : Inv cfg p) (hs : 0 < stride) (hn : 0 < sc.length)
    (hl : (sc.length - 1) * stride < x.length) :
    ∃ p', op p (stridedSeq x stride sc.length) =
        .ok (p', out p (stridedSeq x stride sc.length), fftRes cfg sc.length) ∧
      strided op p x stride sc = .ok (p',
        (match fftRes cfg sc.length with
          | .ok _ => stridedPut x stride sc.length (out p (stridedSeq x stride sc.length))
          | .error _ => x),
        out p (stridedSeq x stride sc.length), fftRes cfg sc.length) ∧ Inv cfg p' ∧
      (out p (stridedSeq x stride sc.length)).length = sc.length ∧
      (∀ B, need sc.length ≤ B → p.splitRe.length ≤ B → p.bluScratch.length ≤ B →
        p'.splitRe.length ≤ B ∧ p'.bluScratch.length ≤ B) := by
  have hb : ∀ i, i < sc.length → i * stride < x.length := by
    intro i hi
    have : i * stride ≤ (sc.length - 1) * stride := Nat.mul_le_mul_right _ (by omega)
    omega
  have hg := gather_tab x stride sc.length sc le_rfl hb
  rw [List.drop_eq_nil_of_le le_rfl, List.append_nil] at hg
  obtain ⟨p', e, h1, h2, h3⟩ := ho.run p (stridedSeq x stride sc.length) hI
  rw [show (stridedSeq x stride sc.length).length = sc.length by simp [stridedSeq]] at e h2 h3
  refine ⟨p', e, ?_, h1, h2, h3⟩
  unfold strided
  have h0 : ¬ stride = 0 := by omega
  have hn0 : ¬ sc.length = 0 := by omega
  have hlt : ¬ x.length < (sc.length - 1) * stride + 1 := by omega
  simp only [h0, hn0, hlt, if_false, hg, Outcome.bind_ok]
  unfold stridedSeq at *
  simp only [e, Outcome.bind_ok]
  rcases fftRes_cases cfg sc.length with hr | ⟨er, hr⟩
  · simp only [hr]
    rw [scatter_tab _ stride sc.length x hs (by omega) hb]
    rfl
  · simp only [hr]

theorem strided_inv {cfg : Cfg} {op : FftOp T} {out : Planner T → List (Cx T) → List (Cx T)}
    (ho : OpOk cfg op out) (p : Planner T) (x : List (Cx T)) (stride : Nat) (sc : List (Cx T))
    (hI : Inv cfg p) {p' : Planner T} {y s : List (Cx T)} {r : Res}
    (e : strided op p x stride sc = .ok (p', y, s, r)) : Inv cfg p' := by
  by_cases hs : stride = 0
  · simp [strided, hs] at e; rw [← e.1]; exact hI
  by_cases hn : sc.length = 0
  · simp [strided, hs, hn] at e; rw [← e.1]; exact hI
  by_cases hl : x.length < (sc.length - 1) * stride + 1
  · simp [strided, hs, hn, hl] at e; rw [← e.1]; exact hI
  obtain ⟨p1, -, e1, h1, -⟩ := strided_run ho p x stride sc hI (by omega) (by omega) (by omega)
  rw [e] at e1
  simp only [Outcome.ok.injEq, Prod.mk.injEq] at e1
  rw [e1.1]; exact h1

theorem stridedAlloc_inv {cfg : Cfg} {op : FftOp T} {out : Planner T → List (Cx T) → List (Cx T)}
    (ho : OpOk cfg op out) (p : Planner T) (x : List (Cx T)) (stride : Nat)
    (hI : Inv cfg p) {p' : Planner T} {y : List (Cx T)} {r : Res}
    (e : stridedAlloc op p x stride = .ok (p', y, r)) : Inv cfg p' := by
  unfold stridedAlloc at e
  simp only at e
  revert e
  generalize hq : strided op _ x stride _ = q
  cases q with
  | ok v =>
    obtain ⟨p1, y1, s1, r1⟩ := v
    have := strided_inv ho _ x stride _ (hI.withScratch []) hq
    intro e
    simp only [Outcome.bind_ok, Outcome.ok.injEq, Prod.mk.injEq] at e
    rw [← e.1]
    exact this.withScratch _
  | panic => intro e; simp at e
  | hang => intro e; simp at e

theorem oopStrided_run {cfg : Cfg} {op : FftOp T} {out : Planner T → List (Cx T) → List (Cx T)}
    (ho : OpOk cfg op out) (p : Planner T) (x : List (Cx T)) (si : Nat) (o : List (Cx T)) (so n : Nat)
    (hI : Inv cfg p) (hsi : 0 < si) (hso : 0 < so) (hx : x.length = n * si) (ho' : o.length = n * so) :
    ∃ p' s, op { p with scratch := [] } (stridedSeq x si n) =
        .ok (p', out { p with scratch := [] } (stridedSeq x si n), fftRes cfg n) ∧
      oopStrided op p x si o so = .ok ({ p' with scratch := s },
        (match fftRes cfg n with
          | .ok _ => stridedPut o so n (out { p with scratch := [] } (stridedSeq x si n))
          | .error _ => o), fftRes cfg n) ∧ Inv cfg p' := by
  have hb : ∀ i, i < n → i * si < x.length := by
    intro i hi; rw [hx]; exact Nat.mul_lt_mul_of_pos_right hi hsi
  have hb' : ∀ i, i < n → i * so < o.length := by
    intro i hi; rw [ho']; exact Nat.mul_lt_mul_of_pos_right hi hso
  have hg := gather_tab x si n (grow p.scratch n Cx.zero) (by rw [grow_length]; omega) hb
  obtain ⟨p', e, h1, h2, h3⟩ := ho.run { p with scratch := [] } (stridedSeq x si n) (hI.withScratch [])
  rw [show (stridedSeq x si n).length = n by simp [stridedSeq]] at e h2
  have ht : (tab n (fun i => x.getD (i * si) Cx.zero) ++ (grow p.scratch n Cx.zero).drop n).take n =
      stridedSeq x si n := by
    rw [List.take_append_of_le_length (by simp), List.take_of_length_le (by simp)]
    rfl
  have d1 : x.length / si = n := by rw [hx]; exact Nat.mul_div_cancel _ hsi
  have d2 : o.length / so = n := by rw [ho']; exact Nat.mul_div_cancel _ hso
  have m1 : x.length % si = 0 := by rw [hx]; exact Nat.mul_mod_left _ _
  have m2 : o.length % so = 0 := by rw [ho']; exact Nat.mul_mod_left _ _
  have z1 : ¬ si = 0 := by omega
  have z2 : ¬ so = 0 := by omega
  rcases fftRes_cases cfg n with hr | ⟨er, hr⟩
  · refine ⟨p', out { p with scratch := [] } (stridedSeq x si n) ++
      ((tab n (fun i => x.getD (i * si) Cx.zero) ++ (grow p.scratch n Cx.zero).drop n).drop n), e, ?_, h1⟩
    unfold oopStrided
    simp only [z1, z2, m1, m2, d1, d2, or_self, if_false, ne_eq, not_true, hg, Outcome.bind_ok, ht, e, hr]
    rw [scatter_tab _ so n o hso (by omega) hb']
    rfl
  · refine ⟨p', p'.scratch, e, ?_, h1⟩
    unfold oopStrided
    simp only [z1, z2, m1, m2, d1, d2, or_self, if_false, ne_eq, not_true, hg, Outcome.bind_ok, ht, e, hr]

theorem oopStrided_inv {cfg : Cfg} {op : FftOp T} {out : Planner T → List (Cx T) → List (Cx T)}
    (ho : OpOk cfg op out) (p : Planner T) (x : List (Cx T)) (si : Nat) (o : List (Cx T)) (so : Nat)
    (hI : Inv cfg p) {p' : Planner T} {y : List (Cx T)} {r : Res}
    (e : oopStrided op p x si o so = .ok (p', y, r)) : Inv cfg p' := by
  by_cases h1 : si = 0 ∨ so = 0
  · simp [oopStrided, h1] at e; rw [← e.1]; exact hI
  by_cases h2 : x.length % si ≠ 0 ∨ o.length % so ≠ 0
  · simp only [oopStrided, h1, h2, if_false, if_true, Outcome.ok.injEq, Prod.mk.injEq] at e
    rw [← e.1]; exact hI
  by_cases h3 : o.length / so ≠ x.length / si
  · simp only [oopStrided, h1, h2, if_false] at e
    rw [if_pos h3] at e
    simp only [Outcome.ok.injEq, Prod.mk.injEq] at e
    rw [← e.1]; exact hI
  push Not at h1 h2 h3
  have hx : x.length = x.length / si * si := by
    have := Nat.div_add_mod x.length si; rw [h2.1, Nat.mul_comm] at this; omega
  have hy : o.length = x.length / si * so := by
    have := Nat.div_add_mod o.length so; rw [h2.2, Nat.mul_comm, h3] at this; omega
  obtain ⟨p1, s, -, e1, h⟩ := oopStrided_run ho p x si o so _ hI (by omega) (by omega) hx hy
  rw [e] at e1
  simp only [Outcome.ok.injEq, Prod.mk.injEq] at e1
  rw [e1.1]; exact h.withScratch _

end Kofft
