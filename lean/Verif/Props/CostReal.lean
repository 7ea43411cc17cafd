import Verif.Props.Cost
import Verif.Props.Rfft
/-
C95: operations of the real transform, and of a repeated transform of any length.
-/
namespace Kofft.Props
open Spec
variable [Formal]

/-- `fft_n_log_n` with the one-element transform included. -/
theorem fft_operations_pos (cfg : Cfg) (ms : List ℕ) (p p' : Planner Expr) (x y : List (Cx Expr)) (n : ℕ)
    (hx : x.length = n) (h1 : 0 < n) (hp : Performed cfg ms p) (hm : ∀ m ∈ ms, workSize m ≤ workSize n)
    (h : fft cfg p x = .ok (p', y, .ok ())) : Cost (parts x) (245 * (n * n.log2) + 8) (parts y) := by
  by_cases h2 : 1 < n
  · exact (fft_n_log_n cfg ms p p' x y n hx h2 hp hm h).le (by omega)
  · obtain rfl : n = 1 := by omega
    exact (fft_operations_pow2 cfg ms p p' x y 0 hx hp (by rw [hx]; exact hm) h).le (by norm_num)

theorem rtw_cost {A : Expr → Prop} (m : ℕ) : Cost A (6 * m + 4) (parts (tab m (rtw (T := Expr) m))) := by
  set an : Expr := (-. Flt.pi) /. Flt.ofNat m with ean
  set w : Cx Expr := ⟨Flt.cos an, Flt.sin an⟩ with ew
  have h0 : Cost A 4 (Pt w) := by
    have a1 : Cost A 2 fun e => e = an := bin_cost .div (un_cost .neg (at_hand avail_const)) (at_hand avail_const)
    exact (a1.next ((Cost.un .cos (Or.inl (Or.inr rfl))).union (Cost.un .sin (Or.inl (Or.inr rfl)))))
  have h1 : ∀ k, Cost (fun e => A e ∨ Pt w e) (6 * k) (fun e => parts (tab k (rtw (T := Expr) m)) e ∨ Pt (rtw (T := Expr) m k) e) := by
    intro k
    induction k with
    | zero =>
      refine cost_has fun e he => ?_
      rcases he with ⟨c, hc, -⟩ | he
      · simp [tab] at hc
      · rcases he with rfl | rfl <;> exact avail_const
    | succ k ih =>
      have := ih.both (cost_mul (a := rtw m k) (b := w) (has_pt fun e he => Or.inr he)
        ((has_pt fun e he => he).mono fun _ => Or.inl))
      refine (this.weaken (by omega) fun e he => ?_)
      rcases he with he | he
      · obtain ⟨i, hi, hpt⟩ := parts_tab.1 he
        by_cases hik : i = k
        · rw [hik] at hpt; exact Or.inl (Or.inr hpt)
        · exact Or.inl (Or.inl (parts_tab.2 ⟨i, by omega, hpt⟩))
      · exact Or.inr he
  exact ((h0.next (h1 m)).weaken (by omega) fun e he => Or.inl he)

/-- One bin: at most seventeen operations. -/
def BinCost (bin : Cx Expr → Cx Expr → Cx Expr → Cx Expr) : Prop :=
  ∀ {A : Expr → Prop} {w a c : Cx Expr}, Hold A w → Hold A a → Hold A c → Cost A 17 (Pt (bin w a c))

omit [Formal] in
theorem hand_next {A B : Expr → Prop} {e : Expr} (h : B e) : Avail (fun e => A e ∨ B e) [] e := Or.inl (Or.inr h)

theorem rBin_cost : BinCost rBin := by
  intro A w a c hw ha hc
  set b : Cx Expr := ⟨c.re, -. c.im⟩ with eb
  set sum := a.add b with es
  set diff := a.sub b with ed
  set t := w.mul diff with et
  set q : Cx Expr := ⟨t.im, -. t.re⟩ with eq
  set temp := sum.add q with etm
  have c1 : Cost A 1 (Pt b) := cost_conj hc
  have c2 := c1.next ((cost_add (has_more ha) (has_pt fun _ h => h)).union (cost_sub (has_more ha) (has_pt fun _ h => h)))
  have c3 := c2.both (cost_mul (a := w) (b := diff) (has_more hw) (has_pt fun _ h => Or.inr h))
  have c4 := c3.both (B := fun e => (Pt sum e ∨ Pt diff e) ∨ Pt t e) (C := Pt q) (l := 1) (by
    obtain ⟨p, h1, h2, h3⟩ := Cost.un (A := fun e => A e ∨ ((Pt sum e ∨ Pt diff e) ∨ Pt t e)) .neg (a := t.re)
      (hand_next (Or.inr (Or.inl rfl)))
    refine ⟨p, h1, h2, fun e he => he.elim (fun h => ?_) (h3 e)⟩
    rw [h]
    exact Or.inl (Or.inr (Or.inr (Or.inr rfl))))
  have c5 := c4.next (cost_add (a := sum) (b := q) (has_pt fun _ h => Or.inl (Or.inl (Or.inl h))) (has_pt fun _ h => Or.inr h))
  have c6 := c5.next ((Cost.bin .mul (a := temp.re) (b := Flt.lit 5 1) (hand_next (Or.inl rfl)) avail_const).union
    (Cost.bin .mul (a := temp.im) (b := Flt.lit 5 1) (hand_next (Or.inr rfl)) avail_const))
  exact c6.le (by omega)

theorem irBin_cost : BinCost irBin := by
  intro A tw a c hw ha hc
  set b : Cx Expr := ⟨c.re, -. c.im⟩ with eb
  set sum := a.add b with es
  set diff := a.sub b with ed
  set w : Cx Expr := ⟨tw.re, -. tw.im⟩ with ew
  set t := w.mul diff with et
  set q : Cx Expr := ⟨t.im, -. t.re⟩ with eq
  set temp := sum.sub q with etm
  have c0 : Cost A 1 (Pt b) := cost_conj hc
  have cw : Cost A 1 (Pt w) := cost_conj hw
  have c1 := cw.both (c0.more fun _ => Or.inl)
  have c2 := c1.both (B := fun e => Pt w e ∨ Pt b e)
    ((cost_add (has_more ha) (has_pt fun _ h => Or.inr h)).union (cost_sub (has_more ha) (has_pt fun _ h => Or.inr h)))
  have c3 := c2.both (cost_mul (a := w) (b := diff) (has_pt fun _ h => Or.inl (Or.inl h)) (has_pt fun _ h => Or.inr (Or.inr h)))
  have c4 := c3.both (B := fun e => ((Pt w e ∨ Pt b e) ∨ (Pt sum e ∨ Pt diff e)) ∨ Pt t e) (C := Pt q) (l := 1) (by
    obtain ⟨p, h1, h2, h3⟩ := Cost.un (A := fun e => A e ∨ (((Pt w e ∨ Pt b e) ∨ (Pt sum e ∨ Pt diff e)) ∨ Pt t e)) .neg (a := t.re)
      (hand_next (Or.inr (Or.inl rfl)))
    refine ⟨p, h1, h2, fun e he => he.elim (fun h => ?_) (h3 e)⟩
    rw [h]
    exact Or.inl (Or.inr (Or.inr (Or.inr rfl))))
  have c5 := c4.next (cost_sub (a := sum) (b := q) (has_pt fun _ h => Or.inl (Or.inl (Or.inr (Or.inl h)))) (has_pt fun _ h => Or.inr h))
  have c6 := c5.next ((Cost.bin .mul (a := temp.re) (b := Flt.lit 5 1) (hand_next (Or.inl rfl)) avail_const).union
    (Cost.bin .mul (a := temp.im) (b := Flt.lit 5 1) (hand_next (Or.inr rfl)) avail_const))
  exact c6.le (by omega)

theorem rBinSimd_cost : BinCost rBinSimd := by
  intro A w a c hw ha hc
  set b : Cx Expr := ⟨c.re, -. c.im⟩ with eb
  set sum := a.add b with es
  set diff := a.sub b with ed
  set t := diff.mulPlain w with et
  have c1 : Cost A 1 (Pt b) := cost_conj hc
  have c2 := c1.next ((cost_add (has_more ha) (has_pt fun _ h => h)).union (cost_sub (has_more ha) (has_pt fun _ h => h)))
  have c3 := c2.both (cost_mulPlain (a := diff) (b := w) (has_pt fun _ h => Or.inr h) (has_more hw))
  have c4 := c3.next ((Cost.bin .add (a := sum.re) (b := t.im) (hand_next (Or.inl (Or.inl (Or.inl rfl)))) (hand_next (Or.inr (Or.inr rfl)))).union
    (Cost.bin .sub (a := sum.im) (b := t.re) (hand_next (Or.inl (Or.inl (Or.inr rfl)))) (hand_next (Or.inr (Or.inl rfl)))))
  have c6 := c4.next ((Cost.bin .mul (b := Flt.lit 5 1) (hand_next (Or.inl rfl)) avail_const).union
    (Cost.bin .mul (b := Flt.lit 5 1) (hand_next (Or.inr rfl)) avail_const))
  exact c6.le (by omega)

theorem irBinSimd_cost : BinCost irBinSimd := by
  intro A tw a c hw ha hc
  set b : Cx Expr := ⟨c.re, -. c.im⟩ with eb
  set sum := a.add b with es
  set diff := a.sub b with ed
  set w : Cx Expr := ⟨tw.re, -. tw.im⟩ with ew
  set t := diff.mulPlain w with et
  have c0 : Cost A 1 (Pt b) := cost_conj hc
  have cw : Cost A 1 (Pt w) := cost_conj hw
  have c1 := cw.both (c0.more fun _ => Or.inl)
  have c2 := c1.both (B := fun e => Pt w e ∨ Pt b e)
    ((cost_add (has_more ha) (has_pt fun _ h => Or.inr h)).union (cost_sub (has_more ha) (has_pt fun _ h => Or.inr h)))
  have c3 := c2.both (cost_mulPlain (a := diff) (b := w) (has_pt fun _ h => Or.inr (Or.inr h)) (has_pt fun _ h => Or.inl (Or.inl h)))
  have c4 := c3.next ((Cost.bin .sub (a := sum.re) (b := t.im) (hand_next (Or.inl (Or.inr (Or.inl (Or.inl rfl))))) (hand_next (Or.inr (Or.inr rfl)))).union
    (Cost.bin .add (a := sum.im) (b := t.re) (hand_next (Or.inl (Or.inr (Or.inl (Or.inr rfl))))) (hand_next (Or.inr (Or.inl rfl)))))
  have c6 := c4.next ((Cost.bin .mul (b := Flt.lit 5 1) (hand_next (Or.inl rfl)) avail_const).union
    (Cost.bin .mul (b := Flt.lit 5 1) (hand_next (Or.inr rfl)) avail_const))
  exact c6.le (by omega)

theorem rBinOf_cost (simd : Bool) : BinCost (rBinOf simd) := by
  cases simd
  · exact rBin_cost
  · exact rBinSimd_cost

theorem irBinOf_cost (simd : Bool) : BinCost (irBinOf simd) := by
  cases simd
  · exact irBin_cost
  · exact irBinSimd_cost

theorem hold_getD {A : Expr → Prop} {y : List (Cx Expr)} (h : ∀ e, parts y e → Avail A [] e) (i : ℕ) : Hold A (y.getD i Cx.zero) := by
  by_cases hi : i < y.length
  · rw [List.getD_eq_getElem _ _ hi]
    exact ⟨h _ ⟨_, List.getElem_mem hi, Or.inl rfl⟩, h _ ⟨_, List.getElem_mem hi, Or.inr rfl⟩⟩
  · rw [List.getD_eq_default _ _ (by omega)]
    exact has_zero

theorem rfftPost_cost {bin : Cx Expr → Cx Expr → Cx Expr → Cx Expr} (hb : BinCost bin) (y : List (Cx Expr)) :
    Cost (parts y) (23 * y.length + 21) (parts (rfftPost bin y)) := by
  refine ((rtw_cost (A := parts y) y.length).next (C := parts (rfftPost bin y)) (l := (y.length + 1) * 17) ?_).le (by omega)
  have hy : ∀ i, Hold (fun e => parts y e ∨ parts (tab y.length (rtw (T := Expr) y.length)) e) (y.getD i Cx.zero) :=
    hold_getD fun e he => Or.inl (Or.inl he)
  unfold rfftPost
  refine cost_tab fun k hk => ?_
  split
  · refine ((Cost.bin .add (hy 0).1 (hy 0).2).union (at_hand (a := Flt.zero) avail_const)).le (by omega)
  · split
    · refine ((Cost.bin .sub (hy 0).1 (hy 0).2).union (at_hand (a := Flt.zero) avail_const)).le (by omega)
    · exact hb (has_pt fun e he => parts_tab.2 ⟨k, by omega, he⟩) (hy k) (hy _)

theorem irfftPre_cost {bin : Cx Expr → Cx Expr → Cx Expr → Cx Expr} (hb : BinCost bin) (m : ℕ) (X : List (Cx Expr)) :
    Cost (parts X) (23 * m + 4) (parts (irfftPre bin m X)) := by
  refine ((rtw_cost (A := parts X) m).next (C := parts (irfftPre bin m X)) (l := m * 17) ?_).le (by omega)
  have hy : ∀ i, Hold (fun e => parts X e ∨ parts (tab m (rtw (T := Expr) m)) e) (X.getD i Cx.zero) :=
    hold_getD fun e he => Or.inl (Or.inl he)
  unfold irfftPre
  refine cost_tab fun k hk => ?_
  split
  · exact ((bin_cost .mul (bin_cost .add (at_hand (hy 0).1) (at_hand (hy m).1)) (at_hand avail_const)).union
      (bin_cost .mul (bin_cost .sub (at_hand (hy 0).1) (at_hand (hy m).1)) (at_hand avail_const))).le (by omega)
  · exact hb (has_pt fun e he => parts_tab.2 ⟨k, by omega, he⟩) (hy k) (hy _)

theorem log2_half {n : ℕ} (h : n % 2 = 0) (h0 : 0 < n) : n.log2 = (n / 2).log2 + 1 := by
  rw [Nat.log2_def]
  simp [show 2 ≤ n by omega]

/-- C95: the real transform of `n` samples. -/
theorem rfft_operations (simd : Bool) (cfg : Cfg) (un : ℕ → Cx Expr) (ms : List ℕ) (p p' : Planner Expr) (x : List Expr)
    (o y : List (Cx Expr)) (n : ℕ) (hx : x.length = n) (hp : Performed cfg ms p)
    (hm : ∀ m ∈ ms, workSize m ≤ workSize (n / 2)) (h : rfft simd (fft cfg) un p x o = .ok (p', y, .ok ())) :
    Cost (elems x) (125 * (n * n.log2)) (parts y) := by
  have hr := (performed_ready hp).1.inv
  rw [rfft_val simd (fft cfg) un p (opLen_fft (ReachVia.mono (fun _ _ => trivial) (performed_reach (n := n / 2) hp hm)))] at h
  unfold rfftVal at h
  simp only [hx] at h
  split at h
  · simp at h
  · rename_i h0
    split at h
    · simp at h
    · rename_i hev
      split at h
      · simp at h
      · cases hf : fft cfg p (packed x) with
        | panic => rw [hf] at h; cases h
        | hang => rw [hf] at h; cases h
        | ok v =>
          obtain ⟨p1, z, r⟩ := v
          rw [hf, Outcome.bind_ok] at h
          cases r with
          | error e => simp at h
          | ok u =>
            simp only [Outcome.ok.injEq, Prod.mk.injEq] at h
            obtain ⟨-, rfl, -⟩ := h
            have hl : (packed x).length = n / 2 := by rw [packed, tab_length, hx]
            have lz : z.length = n / 2 := by
              obtain ⟨p2, y2, e, -, hl', -⟩ := fft_run cfg p (packed x) hr
              rw [hf] at e
              obtain ⟨rfl, -⟩ := Prod.mk.inj (Prod.mk.inj (Outcome.ok.inj e)).2
              rw [hl', hl]
            have c0 : Cost (elems x) 0 (parts (packed x)) := by
              refine cost_has fun e he => ?_
              obtain ⟨i, hi, he⟩ := parts_tab.1 he
              rcases he with rfl | rfl
              · simp only []
                rw [List.getD_eq_getElem _ _ (by omega)]
                exact Or.inl (List.getElem_mem _)
              · simp only []
                rw [List.getD_eq_getElem _ _ (by omega)]
                exact Or.inl (List.getElem_mem _)
            have c1 := fft_operations_pos cfg ms p p1 (packed x) z (n / 2) hl (by omega) hp hm hf
            have c2 := rfftPost_cost (rBinOf_cost simd) z
            refine ((c0.next (c1.more fun _ => Or.inr)).next (c2.more fun _ => Or.inr)).le ?_
            rw [lz, log2_half (n := n) (by omega) (by omega)]
            obtain ⟨m, rfl⟩ : ∃ m, n = 2 * m := ⟨n / 2, by omega⟩
            rw [Nat.mul_div_cancel_left _ (by norm_num)]
            have h1 : 1 ≤ m := by omega
            nlinarith

/-- C95: the inverse real transform to `n` samples. -/
theorem irfft_operations (simd : Bool) (cfg : Cfg) (un : ℕ → Cx Expr) (ms : List ℕ) (p p' : Planner Expr)
    (X : List (Cx Expr)) (o y : List Expr) (n : ℕ) (ho : o.length = n) (hp : Performed cfg ms p)
    (hm : ∀ m ∈ ms, workSize m ≤ workSize (n / 2)) (h : irfft simd (ifft cfg) un p X o = .ok (p', y, .ok ())) :
    Cost (parts X) (130 * (n * n.log2)) (elems y) := by
  have hr := (performed_ready hp).1.inv
  rw [irfft_val simd (ifft cfg) un p (opLen_ifft (ReachVia.mono (fun _ _ => trivial) (performed_reach (n := n / 2) hp hm)))] at h
  unfold irfftVal at h
  simp only [ho] at h
  split at h
  · simp at h
  · rename_i h0
    split at h
    · simp at h
    · rename_i hev
      split at h
      · simp at h
      · cases hf : ifft cfg p (irfftPre (irBinOf simd) (n / 2) X) with
        | panic => rw [hf] at h; cases h
        | hang => rw [hf] at h; cases h
        | ok v =>
          obtain ⟨p1, z, r⟩ := v
          rw [hf, Outcome.bind_ok] at h
          cases r with
          | error e => simp at h
          | ok u =>
            simp only [Outcome.ok.injEq, Prod.mk.injEq] at h
            obtain ⟨-, rfl, -⟩ := h
            have hl : (irfftPre (irBinOf simd) (n / 2) X).length = n / 2 := irfftPre_length _ _ _
            have c0 := irfftPre_cost (irBinOf_cost simd) (n / 2) X
            have c2 : Cost (parts z) 0 (elems (unpacked z)) := by
              refine cost_has fun e he => ?_
              unfold elems unpacked tab at he
              obtain ⟨j, hj, rfl⟩ := List.mem_map.1 he
              have hh := hold_getD (A := parts z) (fun e he => Or.inl he) (j / 2)
              split
              · exact hh.1
              · exact hh.2
            obtain ⟨m, rfl⟩ : ∃ m, n = 2 * m := ⟨n / 2, by omega⟩
            rw [log2_half (by omega) (by omega)]
            rw [Nat.mul_div_cancel_left _ (by norm_num)] at *
            by_cases h1 : 1 < m
            · have c1 := ifft_operations cfg ms p p1 _ z m hl h1 hp hm hf
              refine ((c0.next (c1.more fun _ => Or.inr)).next (c2.more fun _ => Or.inr)).le ?_
              nlinarith
            · obtain rfl : m = 1 := by omega
              unfold ifft ifftWith at hf
              simp only [hl, Nat.one_ne_zero, if_false, if_true, Outcome.ok.injEq, Prod.mk.injEq] at hf
              obtain ⟨-, rfl, -⟩ := hf
              exact (c0.next (c2.more fun _ => Or.inr)).le (by rw [show (1 : ℕ).log2 = 0 from by decide]; omega)

/-- C95: once a transformer has performed a transform of `n` elements, `n` not a power of two (and nothing larger), a further one
computes neither the chirp nor its transform again. -/
theorem fft_operations_again_any (cfg : Cfg) (ms : List ℕ) (p p' : Planner Expr) (x y : List (Cx Expr)) (n : ℕ)
    (hx : x.length = n) (h2 : isPow2 n = false) (hp : Performed cfg ms p) (hm : ∀ m ∈ ms, workSize m ≤ workSize n) (hn : n ∈ ms)
    (h : fft cfg p x = .ok (p', y, .ok ())) :
    Cost (fun e => parts x e ∨ Stored cfg p e) (40 * n * (n.log2 + 2) + 55 * n + 6) (parts y) := by
  obtain ⟨h0, rfl⟩ := fft_ok_fresh hp (by rw [hx]; exact hm) h
  rw [hx] at h0
  have h1 : 1 < n := by
    by_contra hlt
    obtain rfl : n = 1 := by omega
    exact absurd h2 (by decide)
  have hr := performed_ready hp
  have hs : cfg.std = true := by
    obtain ⟨q, z, e, -⟩ := fft_run cfg p x hr.1.inv
    rw [h] at e
    have er := (Prod.mk.inj (Prod.mk.inj (Outcome.ok.inj e)).2).2
    unfold fftRes at er
    rw [hx, if_neg (by omega)] at er
    by_contra hstd
    rw [if_pos ⟨by simpa using hstd, h2⟩] at er
    cases er
  have hrd := hr.2 _ hn
  unfold Ready at hrd
  rw [if_neg (by rw [h2]; simp)] at hrd
  have hb := (hrd hs).1
  cases hbn : p.blu n with
  | none => exact absurd hbn hb
  | some t =>
    have ht : t = bluPair cfg n := hr.1.inv.blu n t hbn
    have c1 : Cost (fun e => parts x e ∨ Stored cfg p e) (3 * bluM n + 5) (parts (twiddles (T := Expr) cfg (bluM n))) :=
      twiddles_cost cfg (bluM n)
    have c2 := bluOut_cost_warm (A := fun e => (parts x e ∨ Stored cfg p e) ∨ parts (twiddles (T := Expr) cfg (bluM n)) e)
      cfg x (by omega) (fun e he => Or.inl (Or.inl (Or.inl he)))
      (fun e he => Or.inl (Or.inl (Or.inr (Or.inr (Or.inr ⟨n, t, hbn, Or.inl (by rw [ht]; rw [hx] at he; exact he)⟩)))))
      (fun e he => Or.inl (Or.inl (Or.inr (Or.inr (Or.inr ⟨n, t, hbn, Or.inr (by rw [ht]; rw [hx] at he; exact he)⟩)))))
      (fun _ e he => Or.inl (Or.inr (by rw [hx] at he; exact he)))
    unfold freshOut
    rw [hx, if_neg (by rw [h2]; simp)]
    refine (c1.next c2).le ?_
    rw [hx]
    have a := bluM_lt n h1
    have b := bluM_log n h1
    have : bluM n * (bluM n).log2 ≤ 4 * n * (n.log2 + 2) := Nat.mul_le_mul (by omega) b
    nlinarith

/-! ### The hypotheses are met -/

/-- Formal expressions with every comparison false. -/
@[reducible] def plainFormal : Formal := ⟨fun _ => 0, fun _ _ => false, fun _ _ => false, fun _ _ => false, false⟩

example (cfg : Cfg) (hs : cfg.std = true) (n : ℕ) (h1 : 1 < n) : letI := plainFormal
    ∃ p' y, fft cfg .new (cxInputs n) = .ok (p', y, .ok ()) ∧ Cost (parts (cxInputs n)) (245 * (n * n.log2)) (parts y) := by
  letI := plainFormal
  have hl : (cxInputs n).length = n := by simp [cxInputs]
  obtain ⟨p', y, e, -⟩ := fft_run cfg .new (cxInputs n) (performed_ready (.new : Performed cfg [] (Planner.new))).1.inv
  have er : fftRes cfg (cxInputs n).length = .ok () := by
    rw [hl]; unfold fftRes; rw [if_neg (by omega), if_neg (by simp [hs])]
  rw [er] at e
  exact ⟨p', y, e, fft_n_log_n cfg [] .new p' _ y n hl h1 .new (by simp) e⟩

/-- 1024 points: 54277 operations, tables included. -/
example (p' : Planner Expr) (y : List (Cx Expr))
    (h : fft ⟨true, .f32, false, 4, false⟩ .new (cxInputs 1024) = .ok (p', y, .ok ())) :
    Cost (parts (cxInputs 1024)) 54277 (parts y) :=
  (fft_operations_pow2 _ [] .new p' _ y 10 (by rw [cxInputs, List.length_map, List.length_range]; decide) .new (by simp) h).le
    (by norm_num)

/-- The sine transform of 512 samples: 262144 operations at least. -/
example (y : List Expr) (h : dst2 (reInputs 512) = .ok y) : ¬ Cost (elems (reInputs 512)) 262143 (elems y) := fun hc =>
  absurd ((direct_transforms_quadratic.2.2.2.1 512 y h).2 _ hc) (by norm_num)

end Kofft.Props
