import Verif.Props.CostReal
import Verif.Props.Stft
import Verif.Props.Wavelet
import Verif.Props.Hilbert
/-
C111: operations of the wavelet, short-time, chirp-z, Hartley and analytic transforms.
-/
namespace Kofft.Props
open Spec
variable [Formal]

/-! ### Haar wavelet -/

omit [Formal] in
theorem elems_tab {n : ℕ} {f : ℕ → Expr} {e : Expr} : elems (tab n f) e ↔ ∃ i < n, e = f i := by
  unfold elems tab
  simp only [List.mem_map, List.mem_range]
  constructor
  · rintro ⟨i, hi, rfl⟩; exact ⟨i, hi, rfl⟩
  · rintro ⟨i, hi, rfl⟩; exact ⟨i, hi, rfl⟩

theorem getD_avail {A : Expr → Prop} {x : List Expr} (h : ∀ e ∈ x, Avail A [] e) (i : ℕ) : Avail A [] (x.getD i Flt.zero) := by
  by_cases hi : i < x.length
  · rw [List.getD_eq_getElem _ _ hi]; exact h _ (List.getElem_mem _)
  · rw [List.getD_eq_default _ _ (by omega)]; exact avail_const

/-- one level of analysis -/
theorem haar_cost {A : Expr → Prop} (x a d : List Expr) (hx : ∀ e ∈ x, Avail A [] e) (h : haarForward x = .ok (a, d)) :
    Cost A (4 * (x.length / 2)) (fun e => elems a e ∨ elems d e) := by
  rw [haarForward_ok] at h
  obtain ⟨rfl, rfl⟩ := Prod.mk.inj (Outcome.ok.inj h)
  have hav := getD_avail hx
  have c := fun o : Op2 => Cost.all (A := A) (k := 2) (n := x.length / 2)
    (B := fun i e => e = .bin .div (.bin o (x.getD (2 * i) Flt.zero) (x.getD (2 * i + 1) Flt.zero)) two)
    fun i _ => (Cost.bin o (hav _) (hav _)).next (Cost.bin .div (Or.inl (Or.inr rfl)) avail_const)
  refine ((c .add).union (c .sub)).weaken (by omega) ?_
  rintro e (he | he)
  · left; exact elems_tab.1 he
  · right; exact elems_tab.1 he

/-- C111a. One level of the Haar analysis of `n` samples takes at most `2n` operations. -/
theorem haar_forward_operations (x a d : List Expr) (h : haarForward x = .ok (a, d)) :
    Cost (elems x) (2 * x.length) (fun e => elems a e ∨ elems d e) :=
  (haar_cost x a d (fun e he => Or.inl he) h).le (by omega)

theorem padEven_mem (x : List Expr) : ∀ e ∈ padEven x, e ∈ x := by
  unfold padEven
  split
  · cases hl : x.getLast? with
    | none => simp
    | some l =>
      intro e he
      simp only [List.mem_append, List.mem_singleton] at he
      rcases he with he | rfl
      · exact he
      · exact List.mem_of_getLast? hl
  · simp

theorem padEven_half (x : List Expr) : (padEven x).length / 2 ≤ (x.length + 1) / 2 := by
  unfold padEven
  split
  · cases hl : x.getLast? with
    | none => simp; omega
    | some l => simp
  · omega

theorem multi_cost : ∀ (levels : ℕ) {A : Expr → Prop} (x cur : List Expr) (ds : List (List Expr)), (∀ e ∈ x, Avail A [] e) →
    multiForward haarForward levels x = .ok (cur, ds) →
    Cost A (4 * (x.length + levels)) (fun e => elems cur e ∨ ∃ d ∈ ds, elems d e)
  | 0, A, x, cur, ds, hx, h => by
    simp only [multiForward, Outcome.ok.injEq, Prod.mk.injEq] at h
    obtain ⟨rfl, rfl⟩ := h
    refine (cost_has ?_).le (Nat.zero_le _)
    rintro e (he | ⟨d, hd, -⟩)
    · exact hx e he
    · cases hd
  | levels + 1, A, x, cur, ds, hx, h => by
    obtain ⟨a, d, hf, la, -⟩ := haar_forward_values (padEven x)
    simp only [multiForward, hf, Outcome.bind_ok] at h
    cases hm : multiForward haarForward levels a with
    | ok v =>
      obtain ⟨cur', ds'⟩ := v
      rw [hm] at h
      simp only [Outcome.bind_ok] at h
      obtain ⟨rfl, rfl⟩ := Prod.mk.inj (Outcome.ok.inj h)
      have c1 := haar_cost (A := A) (padEven x) a d (fun e he => hx e (padEven_mem x e he)) hf
      have c2 := multi_cost levels (A := fun e => A e ∨ (elems a e ∨ elems d e)) a cur' ds' (fun e he => Or.inl (Or.inr (Or.inl he))) hm
      have hh := padEven_half x
      refine (c1.both c2).weaken ?_ ?_
      · rw [la]; omega
      · rintro e (he | ⟨d', hd, he⟩)
        · right; left; exact he
        · rcases List.mem_cons.1 hd with rfl | hd
          · left; right; exact he
          · right; right; exact ⟨d', hd, he⟩
    | panic => rw [hm] at h; cases h
    | hang => rw [hm] at h; cases h

/-- C111a. Any number of levels of the Haar analysis of `n` samples takes at most `4 (n + levels)` operations. -/
theorem haar_multi_operations (levels : ℕ) (x cur : List Expr) (ds : List (List Expr))
    (h : multiForward haarForward levels x = .ok (cur, ds)) :
    Cost (elems x) (4 * (x.length + levels)) (fun e => elems cur e ∨ ∃ d ∈ ds, elems d e) :=
  multi_cost levels x cur ds (fun e he => Or.inl he) h

theorem haarInv_cost {A : Expr → Prop} (a d y : List Expr) (ha : ∀ e ∈ a, Avail A [] e) (hd : ∀ e ∈ d, Avail A [] e)
    (h : haarInverse a d = .ok y) : y.length = 2 * a.length ∧ Cost A y.length (elems y) := by
  have hl : a.length ≤ d.length := by
    by_contra hlt
    rw [haarInverse_panic a d (by omega)] at h
    cases h
  rw [haarInverse_ok a d hl] at h
  obtain rfl := Outcome.ok.inj h
  rw [tab_length]
  refine ⟨rfl, (Cost.all (k := 1) (B := fun i e => e = haarSyn a d i) fun i _ => ?_).weaken (by omega) fun e he => elems_tab.1 he⟩
  unfold haarSyn
  split
  · exact Cost.bin .add (getD_avail ha _) (getD_avail hd _)
  · exact Cost.bin .sub (getD_avail ha _) (getD_avail hd _)

theorem multiInv_cost : ∀ (ds : List (List Expr)) {A : Expr → Prop} (cur y : List Expr), (∀ e ∈ cur, Avail A [] e) →
    (∀ d ∈ ds, ∀ e ∈ d, Avail A [] e) → ds.foldlM (fun cur d => haarInverse cur d) cur = .ok y →
    cur.length ≤ y.length ∧ Cost A (2 * (y.length - cur.length)) (elems y)
  | [], A, cur, y, hc, _, h => by
    simp only [List.foldlM_nil] at h
    obtain rfl := Outcome.ok.inj h
    exact ⟨le_rfl, (cost_has fun e he => hc e he).le (Nat.zero_le _)⟩
  | d :: ds, A, cur, y, hc, hd, h => by
    rw [List.foldlM_cons] at h
    cases hi : haarInverse cur d with
    | ok z =>
      rw [hi] at h
      obtain ⟨lz, c1⟩ := haarInv_cost cur d z hc (hd d (by simp)) hi
      obtain ⟨l2, c2⟩ := multiInv_cost ds (A := fun e => A e ∨ elems z e) z y (fun e he => Or.inl (Or.inr he))
        (fun d' hd' e he => avail_more (hd d' (by simp [hd']) e he)) h
      exact ⟨by omega, (c1.next c2).le (by omega)⟩
    | panic => rw [hi] at h; cases h
    | hang => rw [hi] at h; cases h

/-- C111a. The inverse, of any number of levels, to `n` samples takes at most `2n` operations. -/
theorem haar_multi_inverse_operations (approx y : List Expr) (ds : List (List Expr))
    (h : multiInverse haarInverse approx ds = .ok y) :
    Cost (fun e => elems approx e ∨ ∃ d ∈ ds, elems d e) (2 * y.length) (elems y) := by
  have := multiInv_cost ds.reverse (A := fun e => elems approx e ∨ ∃ d ∈ ds, elems d e) approx y (fun e he => Or.inl (Or.inl he))
    (fun d hd e he => Or.inl (Or.inr ⟨d, List.mem_reverse.1 hd, he⟩)) h
  exact this.2.le (by omega)

/-! ### Short-time transform -/

/-- C111b. `stft` with a window of `n` and `F` frames takes at most `F (245 n log₂ n + n + 8)` operations. -/
theorem stft_operations (cfg : Cfg) (p p' : Planner Expr) (signal window : List Expr) (hop : ℕ)
    (output o : List (List (Cx Expr))) (hp : ReachVia cfg (fun m => workSize m ≤ workSize window.length) p)
    (h : stft (fft cfg) p signal window hop output = .ok (p', o, .ok ())) (hw : window ≠ []) (hn : cfg.std = true ∨ ∃ k, window.length = 2 ^ k) :
    Cost (fun e => elems signal e ∨ elems window e)
      (output.length * (245 * (window.length * window.length.log2) + window.length + 8)) (fun e => ∃ f ∈ o, parts f e) := by
  have hwl : 0 < window.length := List.length_pos_iff.2 hw
  obtain ⟨p2, o2, r2, e2, -, -, hhop, hmis, -⟩ := stft_total cfg p (Kofft.ReachVia.mono (fun _ _ => trivial) hp) signal window hop output
  rw [h] at e2
  obtain ⟨rfl, e3⟩ := Prod.mk.inj (Outcome.ok.inj e2)
  obtain ⟨rfl, rfl⟩ := Prod.mk.inj e3
  have hh : 0 < hop := by
    rcases Nat.eq_zero_or_pos hop with h0 | h0
    · exact absurd (hhop.2 h0) (by simp)
    · exact h0
  have ho : signal.length ≤ output.length * hop := by
    by_contra hlt
    exact absurd (hmis.2 ⟨by omega, by omega⟩) (by simp)
  obtain ⟨p3, o3, e4, l3, -, hfr⟩ := stft_frames_fresh cfg p signal window hop output hh ho hwl hn hp
  rw [h] at e4
  obtain ⟨-, e5⟩ := Prod.mk.inj (Outcome.ok.inj e4)
  obtain ⟨rfl, -⟩ := Prod.mk.inj e5
  refine (Cost.all (B := fun i e => parts (o.getD i []) e) fun i hi => ?_).weaken le_rfl ?_
  · obtain ⟨q, ef⟩ := hfr i hi
    have ls := segment_length signal window (i * hop)
    have c1 : Cost (fun e => elems signal e ∨ elems window e) window.length (parts (Spec.segment signal window (i * hop))) := by
      refine (cost_tab (n := window.length) (k := 1) fun j hj => ?_).weaken (by omega) (fun e he => he)
      by_cases hs : i * hop + j < signal.length
      · rw [if_pos hs]
        refine (Cost.bin (A := fun e => elems signal e ∨ elems window e) .mul
          (a := signal.getD (i * hop + j) Flt.zero) (b := window.getD j Flt.zero) ?_ ?_).both
          (C := fun e => e = Flt.zero) (l := 0) (cost_has fun e he => by rw [he]; exact avail_const) |>.weaken (by omega) fun e he => he
        · exact getD_avail (fun e he => Or.inl (Or.inl he)) _
        · exact getD_avail (fun e he => Or.inl (Or.inr he)) _
      · rw [if_neg hs]
        exact (cost_has fun e he => by rcases he with rfl | rfl <;> exact avail_const).le (Nat.zero_le _)
    have c2 := fft_operations_pos cfg [] Planner.new q _ _ window.length ls hwl .new (by simp) ef
    exact (c1.next (c2.more fun _ => Or.inr)).le (by omega)
  · rintro e ⟨f, hf, he⟩
    obtain ⟨i, hi, rfl⟩ := List.getElem_of_mem hf
    exact ⟨i, by omega, by rw [List.getD_eq_getElem _ _ hi]; exact he⟩

/-! ### Hartley -/

theorem coDht_cost {A : Expr → Prop} (n m : ℕ) : Cost A 6 fun e => e =
    (Flt.cos (((two *. Flt.pi) /. Flt.ofNat n) *. Flt.ofNat m) +. Flt.sin (((two *. Flt.pi) /. Flt.ofNat n) *. Flt.ofNat m) : Expr) := by
  have c : Cost A 3 fun e => e = ((((two *. Flt.pi) /. Flt.ofNat n) *. Flt.ofNat m : Expr)) :=
    bin_cost .mul (bin_cost .div (bin_cost .mul (at_hand avail_const) (at_hand avail_const)) (at_hand avail_const)) (at_hand avail_const)
  have c2 := c.next ((Cost.un .cos (Or.inl (Or.inr rfl))).union (Cost.un .sin (Or.inl (Or.inr rfl))))
  exact c2.next (Cost.bin .add (Or.inl (Or.inr (Or.inl rfl))) (Or.inl (Or.inr (Or.inr rfl))))

/-- C111c. The Hartley transform is computed directly: at most `8n²` operations. -/
theorem dht_operations (x y : List Expr) (h : dht x = .ok y) : Cost (elems x) (8 * (x.length * x.length)) (elems y) := by
  have e := direct_run x dhtAt (fun i k => Flt.cos (((two *. Flt.pi) /. Flt.ofNat x.length) *. Flt.ofNat (i * k)) +.
    Flt.sin (((two *. Flt.pi) /. Flt.ofNat x.length) *. Flt.ofNat (i * k))) (fun j => rfl) h
  subst e
  exact (direct_upper (A := elems x) (c := 6) x (fun e he => he) rfl _ fun i j B _ => coDht_cost x.length (i * j)).le (by nlinarith)

/-! ### Chirp z -/

theorem cztFold_cost (wk ainv : Cx Expr) : ∀ (x : List Expr) {A : Expr → Prop} (s : CztSt Expr), (∀ e ∈ x, Avail A [] e) →
    Hold A wk → Hold A ainv → Hold A s.out → Hold A s.wnk → Hold A s.apow →
    Cost A (22 * x.length) (Pt (x.foldl (cztStep wk ainv) s).out)
  | [], A, s, _, _, _, ho, _, _ => (cost_has fun e he => by rcases he with rfl | rfl; exacts [ho.1, ho.2]).le (Nat.zero_le _)
  | v :: x, A, s, hx, hw, ha, ho, hn, hp => by
    have c1 := cost_mulPlain hp hn
    have hv : Avail A [] v := hx v (by simp)
    set t := s.apow.mulPlain s.wnk with ht
    have hr : Avail (fun e => A e ∨ Pt t e) [] t.re := Or.inl (Or.inr (Or.inl rfl))
    have hi : Avail (fun e => A e ∨ Pt t e) [] t.im := Or.inl (Or.inr (Or.inr rfl))
    have hv' : Avail (fun e => A e ∨ Pt t e) [] v := avail_nil hv fun _ => Or.inl
    have ho' : Hold (fun e => A e ∨ Pt t e) s.out := ho.mono fun _ => Or.inl
    have c2 : Cost (fun e => A e ∨ Pt t e) 4 (Pt ⟨s.out.re +. (v *. t.re), s.out.im +. (v *. t.im)⟩) :=
      (bin_cost .add (at_hand ho'.1) (bin_cost .mul (at_hand hv') (at_hand hr))).union
       (bin_cost .add (at_hand ho'.2) (bin_cost .mul (at_hand hv') (at_hand hi)))
    have c3 := ((c1.next c2).union (cost_mulPlain hn hw)).union (cost_mulPlain hp ha)
    have c4 := cztFold_cost wk ainv x (A := fun e => A e ∨ ((Pt (cztStep wk ainv s v).out e ∨ Pt (cztStep wk ainv s v).wnk e) ∨
      Pt (cztStep wk ainv s v).apow e)) (cztStep wk ainv s v) (fun e he => avail_nil (hx e (by simp [he])) fun _ => Or.inl)
      (hw.mono fun _ => Or.inl) (ha.mono fun _ => Or.inl)
      ⟨Or.inl (Or.inr (Or.inl (Or.inl (Or.inl rfl)))), Or.inl (Or.inr (Or.inl (Or.inl (Or.inr rfl))))⟩
      ⟨Or.inl (Or.inr (Or.inl (Or.inr (Or.inl rfl)))), Or.inl (Or.inr (Or.inl (Or.inr (Or.inr rfl))))⟩
      ⟨Or.inl (Or.inr (Or.inr (Or.inl rfl))), Or.inl (Or.inr (Or.inr (Or.inr rfl)))⟩
    rw [List.foldl_cons, List.length_cons]
    exact (c3.next c4).le (by omega)

theorem cztPow_succ (w : Cx Expr) (k : ℕ) : cztPow w (k + 1) = (cztPow w k).mulPlain w := by
  unfold cztPow
  rw [List.range_succ, List.foldl_append]
  rfl

theorem cztPows_cost {A : Expr → Prop} {w : Cx Expr} (hw : Hold A w) : ∀ m, Cost A (6 * m) (fun e => ∃ k ≤ m, Pt (cztPow w k) e)
  | 0 => (cost_has fun e ⟨k, hk, he⟩ => by
      obtain rfl : k = 0 := by omega
      rcases he with rfl | rfl <;> exact avail_const).le (Nat.zero_le _)
  | m + 1 => by
    have c := cztPows_cost hw m
    refine (c.both (cost_mulPlain (a := cztPow w m) (b := w) ⟨Or.inl (Or.inr ⟨m, le_rfl, Or.inl rfl⟩), Or.inl (Or.inr ⟨m, le_rfl, Or.inr rfl⟩)⟩
      (hw.mono fun _ => Or.inl))).weaken (by omega) ?_
    rintro e ⟨k, hk, he⟩
    rcases Nat.lt_or_ge m k with h | h
    · obtain rfl : k = m + 1 := by omega
      right; rw [← cztPow_succ]; exact he
    · left; exact ⟨k, h, he⟩

theorem cztAinv_cost {A : Expr → Prop} {a : Cx Expr} (ha : Hold A a) : Cost A 6 (Pt (cztAinv a)) := by
  have c1 : Cost A 3 fun e => e = ((a.re *. a.re) +. (a.im *. a.im) : Expr) :=
    bin_cost .add (bin_cost .mul (at_hand ha.1) (at_hand ha.1)) (bin_cost .mul (at_hand ha.2) (at_hand ha.2))
  have hd : Avail (fun e => A e ∨ e = ((a.re *. a.re) +. (a.im *. a.im) : Expr)) [] ((a.re *. a.re) +. (a.im *. a.im)) := Or.inl (Or.inr rfl)
  have ha' : Hold (fun e => A e ∨ e = ((a.re *. a.re) +. (a.im *. a.im) : Expr)) a := ha.mono fun _ => Or.inl
  have c2 := c1.next ((Cost.bin .div ha'.1 hd).union (bin_cost .div (un_cost .neg (at_hand ha'.2)) (at_hand hd)))
  unfold cztAinv
  simp only []
  split
  · exact (cost_has fun e he => by rcases he with rfl | rfl <;> exact avail_const).le (Nat.zero_le _)
  · exact c2.le (by omega)

/-- C111d. `czt_f32` of `n` samples at `m` points takes at most `22 n m + 6 m + 6` operations. -/
theorem czt_operations (x : List Expr) (m : ℕ) (w a : Cx Expr) :
    Cost (fun e => elems x e ∨ parts [w, a] e) (22 * (x.length * m) + 6 * m + 6) (parts (czt x m w a)) := by
  have hw : Hold (fun e => elems x e ∨ parts [w, a] e) w := ⟨Or.inl (Or.inr ⟨w, by simp, Or.inl rfl⟩), Or.inl (Or.inr ⟨w, by simp, Or.inr rfl⟩)⟩
  have ha : Hold (fun e => elems x e ∨ parts [w, a] e) a := ⟨Or.inl (Or.inr ⟨a, by simp, Or.inl rfl⟩), Or.inl (Or.inr ⟨a, by simp, Or.inr rfl⟩)⟩
  refine (((cztPows_cost hw m).union (cztAinv_cost ha)).next (Cost.all (n := m) (k := 22 * x.length)
    (B := fun k e => Pt (cztAt x w a k) e) fun k hk => ?_)).weaken (by nlinarith) ?_
  · refine cztFold_cost _ _ x _ (fun e he => Or.inl (Or.inl (Or.inl he))) ?_ ?_ has_zero ⟨avail_const, avail_const⟩ ⟨avail_const, avail_const⟩
    · exact ⟨Or.inl (Or.inr (Or.inl ⟨k, hk.le, Or.inl rfl⟩)), Or.inl (Or.inr (Or.inl ⟨k, hk.le, Or.inr rfl⟩))⟩
    · exact ⟨Or.inl (Or.inr (Or.inr (Or.inl rfl))), Or.inl (Or.inr (Or.inr (Or.inr rfl)))⟩
  · rintro e ⟨c, hc, he⟩
    obtain ⟨k, hk, rfl⟩ := List.mem_map.1 hc
    exact ⟨k, List.mem_range.1 hk, he⟩

/-! ### Analytic signal and cepstrum -/

theorem ifft_operations_pos (cfg : Cfg) (ms : List ℕ) (p p' : Planner Expr) (x y : List (Cx Expr)) (n : ℕ)
    (hx : x.length = n) (h1 : 0 < n) (hp : Performed cfg ms p) (hm : ∀ m ∈ ms, workSize m ≤ workSize n)
    (h : ifft cfg p x = .ok (p', y, .ok ())) : Cost (parts x) (250 * (n * n.log2)) (parts y) := by
  by_cases h2 : 1 < n
  · exact ifft_operations cfg ms p p' x y n hx h2 hp hm h
  · obtain rfl : n = 1 := by omega
    unfold ifft ifftWith at h
    simp only [hx, show ¬ (1 : ℕ) = 0 by omega, if_false, if_true] at h
    obtain ⟨-, e⟩ := Prod.mk.inj (Outcome.ok.inj h)
    obtain ⟨rfl, -⟩ := Prod.mk.inj e
    exact (Cost.given fun e he => he).le (Nat.zero_le _)

theorem real_parts (x : List Expr) : Cost (elems x) 0 (parts (x.map fun v => (⟨v, Flt.zero⟩ : Cx Expr))) := by
  refine cost_has ?_
  rintro e ⟨c, hc, he⟩
  obtain ⟨v, hv, rfl⟩ := List.mem_map.1 hc
  rcases he with rfl | rfl
  · exact Or.inl hv
  · exact avail_const

theorem mask_cost (f : List (Cx Expr)) : Cost (parts f) (2 * f.length) (parts (hilbertMask f)) := by
  have key : ∀ a b c d, Cost (parts f) (2 * f.length) (parts (zeroRange (doubleRange f a b) c d)) := by
    intro a b c d
    refine (Cost.all (n := f.length) (k := 2) (B := fun i e => Pt ⟨(f.getD i Cx.zero).re *. two, (f.getD i Cx.zero).im *. two⟩ e ∨
      Pt (f.getD i Cx.zero) e ∨ Pt Cx.zero e) fun i hi => ?_).weaken (by omega) ?_
    · have hc : Hold (parts f) (f.getD i Cx.zero) := by
        rw [List.getD_eq_getElem _ _ hi]
        exact ⟨Or.inl ⟨_, List.getElem_mem _, Or.inl rfl⟩, Or.inl ⟨_, List.getElem_mem _, Or.inr rfl⟩⟩
      have c1 : Cost (parts f) 2 (Pt ⟨(f.getD i Cx.zero).re *. two, (f.getD i Cx.zero).im *. two⟩) :=
        (Cost.bin .mul hc.1 avail_const).union (Cost.bin .mul hc.2 avail_const)
      refine c1.union ((cost_has ?_) : Cost _ 0 _)
      rintro e ((rfl | rfl) | (rfl | rfl))
      exacts [hc.1, hc.2, avail_const, avail_const]
    · rintro e ⟨v, hv, he⟩
      obtain ⟨i, hi, rfl⟩ := List.getElem_of_mem hv
      have hi' : i < f.length := by simpa [zeroRange, doubleRange] using hi
      refine ⟨i, hi', ?_⟩
      rw [List.getD_eq_getElem _ _ hi']
      simp only [zeroRange, doubleRange, List.getElem_mapIdx] at he
      by_cases h1 : c ≤ i ∧ i < d
      · rw [if_pos h1] at he; right; right; exact he
      · rw [if_neg h1] at he
        by_cases h2 : a ≤ i ∧ i < b
        · rw [if_pos h2] at he; left; exact he
        · rw [if_neg h2] at he; right; left; exact he
  unfold hilbertMask
  simp only []
  split
  · exact key _ _ _ _
  · exact key _ _ _ _

/-- C111e. `hilbert_analytic` of `n` samples takes at most `495 n log₂ n + 2 n + 8` operations. -/
theorem hilbert_operations (cfg : Cfg) (x : List Expr) (y : List (Cx Expr)) (h : hilbertAnalytic cfg x = .ok (.ok y)) :
    Cost (elems x) (495 * (x.length * x.length.log2) + 2 * x.length + 8) (parts y) := by
  unfold hilbertAnalytic at h
  by_cases h0 : x.length = 0
  · rw [if_pos h0] at h; cases h
  rw [if_neg h0] at h
  by_cases hb : (!isPow2 x.length) = true
  · rw [if_pos hb] at h; cases h
  rw [if_neg hb] at h
  simp only [] at h
  cases hf : fft cfg Planner.new (x.map fun v => (⟨v, Flt.zero⟩ : Cx Expr)) with
  | ok v =>
    obtain ⟨p, f, r⟩ := v
    rw [hf] at h
    simp only [Outcome.bind_ok] at h
    cases r with
    | error e => cases h
    | ok u =>
      obtain lf : f.length = x.length := by
        obtain ⟨p3, y3, e, -, hl', -⟩ := fft_run cfg (Planner.new (T := Expr)) (x.map fun v => (⟨v, Flt.zero⟩ : Cx Expr)) (reach_inv .new)
        rw [hf] at e
        obtain ⟨rfl, -⟩ := Prod.mk.inj (Prod.mk.inj (Outcome.ok.inj e)).2
        rw [hl', List.length_map]
      cases hi : ifft cfg p (hilbertMask f) with
      | ok v =>
        obtain ⟨p2, g, r⟩ := v
        rw [hi] at h
        simp only [Outcome.bind_ok] at h
        cases r with
        | error e => cases h
        | ok u =>
          obtain rfl := Except.ok.inj (Outcome.ok.inj h)
          have c1 := fft_operations_pos cfg [] .new p _ f x.length (by simp) (by omega) .new (by simp) hf
          have hp : Performed cfg [x.length] p := by
            have := Performed.fft (T := Expr) .new hf
            simpa using this
          have c3 := ifft_operations_pos cfg [x.length] p p2 _ g x.length (by rw [hilbertMask_length, lf]) (by omega) hp (by simp) hi
          have c2 := mask_cost f
          rw [lf] at c2
          exact ((((real_parts x).next (c1.more fun _ => Or.inr)).next (c2.more fun _ => Or.inr)).next (c3.more fun _ => Or.inr)).le (by omega)
      | panic => rw [hi] at h; cases h
      | hang => rw [hi] at h; cases h
  | panic => rw [hf] at h; cases h
  | hang => rw [hf] at h; cases h

theorem logMag_cost (f : List (Cx Expr)) : Cost (parts f) (6 * f.length) (parts (f.map logMag)) := by
  refine (Cost.all (n := f.length) (k := 6) (B := fun i e => Pt (logMag (f.getD i Cx.zero)) e) fun i hi => ?_).weaken (by omega) ?_
  · have hc : Hold (parts f) (f.getD i Cx.zero) := by
      rw [List.getD_eq_getElem _ _ hi]
      exact ⟨Or.inl ⟨_, List.getElem_mem _, Or.inl rfl⟩, Or.inl ⟨_, List.getElem_mem _, Or.inr rfl⟩⟩
    exact ((un_cost .log (bin_cost .add (un_cost .sqrt (bin_cost .add (bin_cost .mul (at_hand hc.1) (at_hand hc.1))
      (bin_cost .mul (at_hand hc.2) (at_hand hc.2)))) (at_hand avail_const))).union (at_hand avail_const))
  · rintro e ⟨c, hc, he⟩
    obtain ⟨v, hv, rfl⟩ := List.mem_map.1 hc
    obtain ⟨i, hi, rfl⟩ := List.getElem_of_mem hv
    exact ⟨i, hi, by rw [List.getD_eq_getElem _ _ hi]; exact he⟩

/-- C111e. `real_cepstrum` of `n` samples takes at most `495 n log₂ n + 6 n + 8` operations. -/
theorem cepstrum_operations (cfg : Cfg) (x y : List Expr) (h : realCepstrum cfg x = .ok (.ok y)) :
    Cost (elems x) (495 * (x.length * x.length.log2) + 6 * x.length + 8) (elems y) := by
  unfold realCepstrum at h
  by_cases h0 : x.length = 0
  · rw [if_pos h0] at h; cases h
  rw [if_neg h0] at h
  by_cases hb : (!isPow2 x.length) = true
  · rw [if_pos hb] at h; cases h
  rw [if_neg hb] at h
  simp only [] at h
  cases hf : fft cfg Planner.new (x.map fun v => (⟨v, Flt.zero⟩ : Cx Expr)) with
  | ok v =>
    obtain ⟨p, f, r⟩ := v
    rw [hf] at h
    simp only [Outcome.bind_ok] at h
    cases r with
    | error e => cases h
    | ok u =>
      obtain lf : f.length = x.length := by
        obtain ⟨p3, y3, e, -, hl', -⟩ := fft_run cfg (Planner.new (T := Expr)) (x.map fun v => (⟨v, Flt.zero⟩ : Cx Expr)) (reach_inv .new)
        rw [hf] at e
        obtain ⟨rfl, -⟩ := Prod.mk.inj (Prod.mk.inj (Outcome.ok.inj e)).2
        rw [hl', List.length_map]
      cases hi : ifft cfg p (f.map logMag) with
      | ok v =>
        obtain ⟨p2, g, r⟩ := v
        rw [hi] at h
        simp only [Outcome.bind_ok] at h
        cases r with
        | error e => cases h
        | ok u =>
          obtain rfl := Except.ok.inj (Outcome.ok.inj h)
          have c1 := fft_operations_pos cfg [] .new p _ f x.length (by simp) (by omega) .new (by simp) hf
          have hp : Performed cfg [x.length] p := by
            have := Performed.fft (T := Expr) .new hf
            simpa using this
          have c3 := ifft_operations_pos cfg [x.length] p p2 _ g x.length (by rw [List.length_map, lf]) (by omega) hp (by simp) hi
          have c2 := logMag_cost f
          rw [lf] at c2
          refine ((((real_parts x).next (c1.more fun _ => Or.inr)).next (c2.more fun _ => Or.inr)).next (c3.more fun _ => Or.inr)).weaken (by omega) ?_
          intro e he
          obtain ⟨c, hc, rfl⟩ := List.mem_map.1 he
          exact ⟨c, hc, Or.inl rfl⟩
      | panic => rw [hi] at h; cases h
      | hang => rw [hi] at h; cases h
  | panic => rw [hf] at h; cases h
  | hang => rw [hf] at h; cases h

/-! ### The hypotheses are met -/

example (cfg : Cfg) : ∃ y, hilbertAnalytic cfg (reInputs 1024) = .ok (.ok y) ∧
    Cost (elems (reInputs 1024)) (495 * (1024 * Nat.log2 1024) + 2 * 1024 + 8) (parts y) := by
  obtain ⟨y, h, -⟩ := (hilbert_errors cfg (reInputs 1024)).2.2 ⟨10, by rw [reInputs_length]; norm_num⟩
  refine ⟨y, h, ?_⟩
  have := hilbert_operations cfg _ y h
  rwa [reInputs_length] at this

example : ∃ a d, haarForward (reInputs 1000) = .ok (a, d) ∧ Cost (elems (reInputs 1000)) 2000 (fun e => elems a e ∨ elems d e) := by
  obtain ⟨a, d, h, -⟩ := haar_forward_values (reInputs 1000)
  refine ⟨a, d, h, ?_⟩
  have := haar_forward_operations _ a d h
  rwa [reInputs_length] at this

example (cfg : Cfg) : ∃ p' o, stft (fft cfg) .new (reInputs 4096) (reInputs 256) 128 (List.replicate 32 []) = .ok (p', o, .ok ()) ∧
    Cost (fun e => elems (reInputs 4096) e ∨ elems (reInputs 256) e) (32 * (245 * (256 * Nat.log2 256) + 256 + 8)) (fun e => ∃ f ∈ o, parts f e) := by
  have hw : (reInputs 256).length = 256 := reInputs_length _
  have hn : cfg.std = true ∨ ∃ k, (reInputs 256).length = 2 ^ k := .inr ⟨8, by rw [hw]; norm_num⟩
  obtain ⟨p', o, h, -⟩ := stft_frames_fresh cfg .new (reInputs 4096) (reInputs 256) 128 (List.replicate 32 []) (by norm_num)
    (by rw [reInputs_length, List.length_replicate]) (by rw [hw]; norm_num) hn .new
  refine ⟨p', o, h, ?_⟩
  have := stft_operations cfg .new p' _ _ 128 _ o .new h (by intro h; rw [h] at hw; simp at hw) hn
  rwa [hw, List.length_replicate] at this

end Kofft.Props
