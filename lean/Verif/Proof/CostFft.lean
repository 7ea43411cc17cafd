import Verif.Proof.CostKernels
import Verif.Proof.RunFft
/-
Operations of `fft`.
-/
namespace Kofft
open Spec
variable [Formal] {A B C : Expr → Prop} {k : ℕ}

omit [Formal] in
theorem parts_tab {n : ℕ} {f : ℕ → Cx Expr} {e : Expr} : parts (tab n f) e ↔ ∃ i < n, Pt (f i) e := by
  unfold parts tab Pt
  simp

omit [Formal] in
/-- A complex value for each of `n` indices. -/
theorem cost_tab {n : ℕ} {f : ℕ → Cx Expr} (h : ∀ i < n, Cost A k (Pt (f i))) : Cost A (n * k) (parts (tab n f)) :=
  (Cost.all h).weaken le_rfl fun _ he => parts_tab.1 he

omit [Formal] in
theorem avail_more {e : Expr} (h : Avail A [] e) : Avail (fun e => A e ∨ B e) [] e := avail_nil h fun _ => Or.inl
omit [Formal] in
theorem has_more {c : Cx Expr} (h : Hold A c) : Hold (fun e => A e ∨ B e) c := h.mono fun _ => Or.inl
omit [Formal] in
theorem has_pt {c : Cx Expr} (h : ∀ e, Pt c e → B e) : Hold (fun e => A e ∨ B e) c :=
  ⟨Or.inl (Or.inr (h _ (Or.inl rfl))), Or.inl (Or.inr (h _ (Or.inr rfl)))⟩

/-! ### Tables -/

theorem twLoop_cost {c s : Expr} : ∀ {half : ℕ} {A : Expr → Prop} {w : Cx Expr}, Avail A [] c → Avail A [] s → Hold A w →
    Cost A (5 * half) (parts (twLoop c s half w))
  | 0, A, w, _, _, _ => Cost.given fun e ⟨x, hx, _⟩ => absurd hx (by simp [twLoop])
  | half + 1, A, w, hc, hs, hw => by
    set w' : Cx Expr := ⟨Flt.mulAdd w.re c (-. (w.im *. s)), Flt.mulAdd w.im c (w.re *. s)⟩ with ew
    have h1 : Cost A 5 (Pt w') := by
      have a1 := (Cost.bin .mul hw.2 hs).next (Cost.un .neg (a := .bin .mul w.im s) (Or.inl (Or.inr rfl)))
      have a2 := a1.next (Cost.mulAdd (a := w.re) (b := c) (avail_more hw.1) (avail_more hc) (Or.inl (Or.inr rfl)))
      have a3 := (Cost.bin .mul hw.1 hs).next (Cost.mulAdd (a := w.im) (b := c) (c := .bin .mul w.re s)
        (avail_more hw.2) (avail_more hc) (Or.inl (Or.inr rfl)))
      exact a2.union a3
    have ih := twLoop_cost (half := half) (A := fun e => A e ∨ Pt w' e) (w := w') (avail_more hc) (avail_more hs)
      (has_pt fun _ h => h)
    have hsum := h1.next ih
    obtain ⟨p, g1, g2, g3⟩ := hsum
    refine ⟨p, g1, g2.trans (by omega), fun e he => ?_⟩
    rcases parts_cons.1 (show parts (w :: twLoop c s half w') e from he) with he | he
    · rcases he with rfl | rfl
      · exact hw.1.mono (fun _ => Or.inl) (fun _ h => absurd h (by simp))
      · exact hw.2.mono (fun _ => Or.inl) (fun _ h => absurd h (by simp))
    · exact g3 e he

omit [Formal] in
theorem avail_const {c : Const} : Avail A [] (.const c) := Or.inr (Or.inl ⟨c, rfl⟩)

theorem twTable_cost (n : ℕ) : Cost A (3 * n + 5) (parts (twTable (T := Expr) n)) := by
  unfold twTable
  simp only []
  set angle : Expr := ((-. Flt.lit 2 0) *. Flt.pi) /. Flt.ofNat n with ea
  have h1 : Cost A 3 (fun e => e = angle) :=
    ((Cost.un .neg (a := .const (.lit 2 0)) avail_const).next
      (Cost.bin .mul (b := .const .pi) (Or.inl (Or.inr rfl)) avail_const)).next
      (Cost.bin .div (b := .const (.ofNat n)) (Or.inl (Or.inr rfl)) avail_const)
  have h2 : Cost (fun e => A e ∨ e = angle) 2 (fun e => e = Flt.cos angle ∨ e = Flt.sin angle) :=
    (Cost.un .cos (Or.inl (Or.inr rfl))).union (Cost.un .sin (Or.inl (Or.inr rfl)))
  refine ((h1.next h2).next (twLoop_cost (Or.inl (Or.inr (Or.inl rfl))) (Or.inl (Or.inr (Or.inr rfl)))
    ⟨avail_const, avail_const⟩)).le ?_
  have := Nat.div_mul_le_self n 2
  omega

theorem preTable_cost (n : ℕ) : Cost A (3 * n + 5) (parts (preTable (T := Expr) n)) := by
  have h1 : Cost A 2 (fun e => e = (-. Flt.lit 2 0) *. (Flt.pi : Expr)) :=
    (Cost.un .neg (a := .const (.lit 2 0)) avail_const).next
      (Cost.bin .mul (b := .const .pi) (Or.inl (Or.inr rfl)) avail_const)
  have h2 := fun k => (Cost.bin (A := fun e => A e ∨ e = (-. Flt.lit 2 0) *. (Flt.pi : Expr)) .mul
      (a := (-. Flt.lit 2 0) *. (Flt.pi : Expr)) (b := .const (.ofNatD k)) (Or.inl (Or.inr rfl)) avail_const).next
      (Cost.bin .div (b := .const (.ofNatD n)) (Or.inl (Or.inr rfl)) avail_const)
  have h3 := fun k => (h2 k).next (((Cost.un .cos (Or.inl (Or.inr rfl))).next (Cost.un .printParse (Or.inl (Or.inr rfl)))).union
    ((Cost.un .sin (Or.inl (Or.inr rfl))).next (Cost.un .printParse (Or.inl (Or.inr rfl)))))
  have h4 := h1.next (cost_tab (n := n / 2) (k := 6) (f := fun k =>
    (⟨Flt.printParse (Flt.cos ((((-. Flt.lit 2 0) *. Flt.pi) *. Flt.ofNatD k) /. Flt.ofNatD n)),
      Flt.printParse (Flt.sin ((((-. Flt.lit 2 0) *. Flt.pi) *. Flt.ofNatD k) /. Flt.ofNatD n))⟩ : Cx Expr)) fun k _ => h3 k)
  refine h4.le ?_
  have := Nat.div_mul_le_self n 2
  omega

theorem twiddles_cost (cfg : Cfg) (n : ℕ) : Cost A (3 * n + 5) (parts (twiddles (T := Expr) cfg n)) := by
  unfold twiddles preLookup
  split
  · exact preTable_cost n
  · exact twTable_cost n

/-! ### Stages -/

/-- A multiplication of six operations. -/
def MulSix (mul : Cx Expr → Cx Expr → Cx Expr) : Prop :=
  ∀ {A : Expr → Prop} {a b : Cx Expr}, Hold A a → Hold A b → Cost A 6 (Pt (mul a b))

/-- All of `n` complex values are at hand. -/
def HasAll (A : Expr → Prop) (n : ℕ) (f : ℕ → Cx Expr) : Prop := ∀ i < n, Hold A (f i)

omit [Formal] in
theorem HasAll.mono {n : ℕ} {f : ℕ → Cx Expr} (h : HasAll A n f) (hA : ∀ e, A e → B e) : HasAll B n f :=
  fun i hi => (h i hi).mono hA

omit [Formal] in
theorem hasAll_tab {n : ℕ} {f : ℕ → Cx Expr} : HasAll (fun e => A e ∨ parts (tab n f) e) n f :=
  fun i hi => has_pt fun _ he => parts_tab.2 ⟨i, hi, he⟩

theorem stage_cost {mul : Cx Expr → Cx Expr → Cx Expr} (hm : MulSix mul) {n1 n2 : ℕ} {tw src : ℕ → Cx Expr}
    (h2 : 0 < n2) (ht : HasAll A (n1 * n2) tw) (hs : HasAll A (2 * (n1 * n2)) src) :
    Cost A (5 * (2 * (n1 * n2))) (parts (tab (2 * (n1 * n2)) (stageF mul n1 n2 tw src))) := by
  set prod : ℕ → Cx Expr := fun k => mul (src (2 * (k / n2) * n2 + n2 + k % n2)) (tw (k / n2 * n2)) with ep
  have bq : ∀ k, k < n1 * n2 → k / n2 < n1 := fun k hk => (Nat.div_lt_iff_lt_mul h2).2 hk
  have hj : ∀ k, k % n2 < n2 := fun k => Nat.mod_lt _ h2
  have b1 : ∀ q j, q < n1 → j < n2 → 2 * q * n2 + n2 + j < 2 * (n1 * n2) := fun q j hq hj => by
    have : (q + 1) * n2 ≤ n1 * n2 := Nat.mul_le_mul_right _ hq
    have e : 2 * q * n2 = 2 * (q * n2) := by ring
    have e' : (q + 1) * n2 = q * n2 + n2 := by ring
    omega
  have b2 : ∀ q, q < n1 → q * n2 < n1 * n2 := fun q hq => Nat.mul_lt_mul_of_pos_right hq h2
  have hp : Cost A (n1 * n2 * 6) (parts (tab (n1 * n2) prod)) := cost_tab fun k hk =>
    hm (hs _ (b1 _ _ (bq k hk) (hj k))) (ht _ (b2 _ (bq k hk)))
  have hP : HasAll (fun e => A e ∨ parts (tab (n1 * n2) prod) e) (n1 * n2) prod := hasAll_tab
  have hs' := hs.mono (B := fun e => A e ∨ parts (tab (n1 * n2) prod) e) fun _ => Or.inl
  have ho : Cost (fun e => A e ∨ parts (tab (n1 * n2) prod) e) (2 * (n1 * n2) * 2)
      (parts (tab (2 * (n1 * n2)) (stageF mul n1 n2 tw src))) := cost_tab fun i hi => by
    unfold stageF
    simp only []
    by_cases hq : i / n2 < n1
    · rw [if_pos hq]
      have hi' : i < n1 * n2 := (Nat.div_lt_iff_lt_mul h2).1 hq
      exact cost_add (hs' _ (by have := b1 _ _ hq (hj i); omega)) (hP i hi')
    · rw [if_neg hq]
      have hge : n1 * n2 ≤ i := by
        by_contra hlt
        exact hq (bq i (by omega))
      obtain ⟨k, rfl⟩ := Nat.exists_eq_add_of_le hge
      have hk : k < n1 * n2 := by omega
      have e1 : (n1 * n2 + k) / n2 - n1 = k / n2 := by
        rw [Nat.add_comm (n1 * n2) k, Nat.mul_comm n1 n2, Nat.add_mul_div_left _ _ h2, Nat.add_sub_cancel]
      have e2 : (n1 * n2 + k) % n2 = k % n2 := by
        rw [Nat.add_comm (n1 * n2) k, Nat.add_mul_mod_self_right]
      rw [e1, e2]
      exact cost_sub (hs' _ (by have := b1 _ _ (bq k hk) (hj k); omega)) (hP k hk)
  refine (hp.next ho).le (by omega)

theorem stk_cost {mul : Cx Expr → Cx Expr → Cx Expr} (hm : MulSix mul) {K : ℕ} {tw x : ℕ → Cx Expr}
    (ht : HasAll A (2 ^ K / 2) tw) (hx : HasAll A (2 ^ K) x) : ∀ s, s ≤ K →
    Cost A (5 * 2 ^ K * s) (parts (tab (2 ^ K) (stk mul (2 ^ K) tw x s)))
  | 0, _ => cost_has fun e he => by
    obtain ⟨i, hi, rfl | rfl⟩ := parts_tab.1 he
    · exact (hx i hi).1
    · exact (hx i hi).2
  | s + 1, hs => by
    have ih := stk_cost hm ht hx s (by omega)
    obtain ⟨d, rfl⟩ : ∃ d, K = s + 1 + d := ⟨K - (s + 1), by omega⟩
    have e2 : 2 ^ (s + 1 + d) / 2 ^ (s + 1) = 2 ^ d := by rw [pow_add]; exact Nat.mul_div_cancel_left _ (by positivity)
    have e1 : 2 * (2 ^ s * 2 ^ d) = 2 ^ (s + 1 + d) := by rw [pow_add, pow_succ]; ring
    have e3 : 2 ^ (s + 1 + d) / 2 = 2 ^ s * 2 ^ d := by omega
    rw [e3] at ht
    have h1 := stage_cost (A := fun e => A e ∨ parts (tab (2 ^ (s + 1 + d)) (stk mul (2 ^ (s + 1 + d)) tw x s)) e) hm
      (n1 := 2 ^ s) (n2 := 2 ^ d) (tw := tw) (src := stk mul (2 ^ (s + 1 + d)) tw x s) (by positivity)
      (ht.mono fun _ => Or.inl) (by rw [e1]; exact hasAll_tab)
    rw [e1] at h1
    have e4 : stk mul (2 ^ (s + 1 + d)) tw x (s + 1) = stageF mul (2 ^ s) (2 ^ d) tw (stk mul (2 ^ (s + 1 + d)) tw x s) := by
      show stageF mul (2 ^ s) (2 ^ (s + 1 + d) / 2 ^ (s + 1)) tw _ = _
      rw [e2]
    rw [e4]
    exact (ih.next h1).le (by rw [Nat.mul_succ])

omit [Formal] in
theorem hasAll_getD [Formal] {x : List (Cx Expr)} (h : ∀ e, parts x e → Avail A [] e) (n : ℕ) :
    HasAll A n (fun i => x.getD i Cx.zero) := by
  intro i _
  by_cases hi : i < x.length
  · have : x.getD i Cx.zero ∈ x := by
      rw [List.getD_eq_getElem _ _ hi]; exact List.getElem_mem hi
    exact ⟨h _ ⟨_, this, Or.inl rfl⟩, h _ ⟨_, this, Or.inr rfl⟩⟩
  · have : x.getD i Cx.zero = Cx.zero := List.getD_eq_default _ _ (by omega)
    simp only [this]
    exact has_zero

theorem stkOut_cost (cfg : Cfg) {mul : Cx Expr → Cx Expr → Cx Expr} (hm : MulSix mul) (z : List (Cx Expr))
    (hp : isPow2 z.length = true) (hz : ∀ e, parts z e → Avail A [] e)
    (ht : ∀ e, parts (twiddles (T := Expr) cfg z.length) e → Avail A [] e) :
    Cost A (5 * z.length * z.length.log2) (parts (stkOut cfg mul z)) := by
  unfold stkOut
  obtain ⟨K, hK⟩ := isPow2_iff.1 hp
  have hx := hasAll_getD hz z.length
  have htw := hasAll_getD ht (z.length / 2)
  have hx' : HasAll A (2 ^ K) (fun i => z.getD i Cx.zero) := by rw [← hK]; exact hx
  have htw' : HasAll A (2 ^ K / 2) (twAt cfg z.length) := by rw [← hK]; exact htw
  have := stk_cost hm htw' hx' K le_rfl
  rw [← hK] at this
  have e : z.length.log2 = K := by rw [hK]; exact log2_pow' K
  rw [e]
  exact this

theorem freshPow_cost (cfg : Cfg) (x : List (Cx Expr)) (hp : isPow2 x.length = true)
    (hx : ∀ e, parts x e → Avail A [] e)
    (ht : 16 < x.length → ∀ e, parts (twiddles (T := Expr) cfg x.length) e → Avail A [] e) :
    Cost A (5 * x.length * x.length.log2) (parts (freshPow cfg x)) := by
  unfold freshPow powOut
  have use : ∀ {k l y}, Cost (parts x) k (parts y) → k ≤ l → Cost A l (parts y) := fun h hk =>
    (((cost_has hx).next (h.more fun _ => Or.inr)).le (by omega))
  by_cases h1 : x.length = 1
  · rw [if_pos h1]; exact (cost_has hx).le (Nat.zero_le _)
  · rw [if_neg h1]
    by_cases h16 : x.length ≤ 16
    · rw [if_pos h16]
      have h4 : x.length = 2 ∨ x.length = 4 ∨ x.length = 8 ∨ x.length = 16 := by
        rcases pow2_le16 hp h16 with h | h
        · exact absurd h h1
        · exact h
      have e := (smallKernel_eq cfg x h4).1
      unfold smallKernel at e
      rcases h4 with h | h | h | h
      · rw [if_pos h] at e
        exact use (fft2_cost _ _ _ h e) (by rw [h]; decide)
      · rw [if_neg (by omega), if_pos h] at e
        exact use (fft4_cost _ _ _ h e) (by rw [h]; decide)
      · rw [if_neg (by omega), if_neg (by omega), if_pos h] at e
        exact use (fft8_cost _ _ _ h e) (by rw [h]; decide)
      · rw [if_neg (by omega), if_neg (by omega), if_neg (by omega), if_pos h] at e
        exact use (fft16_cost _ _ _ h e) (by rw [h]; decide)
    · rw [if_neg h16]
      have ht := ht (by omega)
      unfold bigOut
      split
      · have e : stale (Planner.new : Planner Expr) x.length = [] := by simp [stale, Planner.new]
        rw [e, List.append_nil]
        refine (stkOut_cost cfg (fun ha hb => cost_mulPlain ha hb) x hp hx ht).weaken le_rfl (parts_sub ?_)
        exact fun c hc => List.mem_of_mem_take hc
      · exact stkOut_cost cfg (fun ha hb => cost_mul ha hb) x hp hx ht

end Kofft
namespace Kofft
open Spec
variable [Formal] {A B C : Expr → Prop} {k : ℕ}

/-! ### Bluestein -/

omit [Formal] in
theorem copyPrefix_same {α : Type} : ∀ (a b : List α), a.length = b.length → copyPrefix a b = a
  | [], [], _ => rfl
  | x :: a, y :: b, h => by
    rw [copyPrefix, copyPrefix_same a b (by simpa using h)]

omit [Formal] in
theorem avail_pt {c : Cx Expr} (h : Hold A c) : ∀ e, Pt c e → Avail A [] e := by
  rintro e (rfl | rfl)
  · exact h.1
  · exact h.2

omit [Formal] in
theorem hasAll_avail {n : ℕ} {f : ℕ → Cx Expr} (h : HasAll A n f) : ∀ e, parts (tab n f) e → Avail A [] e := fun e he => by
  obtain ⟨i, hi, hp⟩ := parts_tab.1 he
  exact avail_pt (h i hi) e hp

theorem cost_expi {a : Expr} (h : Avail A [] a) : Cost A 2 (Pt (Cx.expi a)) := (Cost.un .cos h).union (Cost.un .sin h)

/-- The chirp and the conjugate chirp. -/
theorem chirp_cost (n : ℕ) :
    Cost A (7 * n) (fun e => parts (tab n (chirpAt (T := Expr) n)) e ∨ parts (tab (bluM n) (bAt (T := Expr) n)) e) := by
  have h1 : Cost A (n * 2) (fun e => ∃ i < n, e = (bluAngle n i : Expr)) := Cost.all fun i _ =>
    (Cost.bin .mul (a := .const .pi) (b := .const (.ofNat (i * i))) avail_const avail_const).next
      (Cost.bin .div (b := .const (.ofNat n)) (Or.inl (Or.inr rfl)) avail_const)
  have h2 : Cost (fun e => A e ∨ ∃ i < n, e = (bluAngle n i : Expr)) (n * 3) (parts (tab n (chirpAt (T := Expr) n))) :=
    cost_tab fun i hi => (Cost.un .neg (a := bluAngle n i) (Or.inl (Or.inr ⟨i, hi, rfl⟩))).next
      (cost_expi (Or.inl (Or.inr rfl)))
  have h3 : Cost (fun e => A e ∨ ∃ i < n, e = (bluAngle n i : Expr)) (n * 2) (parts (tab n (fun i => Cx.expi (bluAngle (T := Expr) n i)))) :=
    cost_tab fun i hi => cost_expi (Or.inl (Or.inr ⟨i, hi, rfl⟩))
  obtain ⟨p, g1, g2, g3⟩ := h1.next (h2.union h3)
  refine ⟨p, g1, g2.trans (by omega), fun e he => he.elim (fun h => g3 e (Or.inl h)) fun h => ?_⟩
  obtain ⟨i, hi, hp⟩ := parts_tab.1 h
  unfold bAt at hp
  by_cases hin : i < n
  · rw [if_pos hin] at hp
    exact g3 e (Or.inr (parts_tab.2 ⟨i, hin, hp⟩))
  · rw [if_neg hin] at hp
    by_cases him : bluM n - n < i
    · rw [if_pos him] at hp
      exact g3 e (Or.inr (parts_tab.2 ⟨bluM n - i, by omega, hp⟩))
    · rw [if_neg him] at hp
      exact (avail_pt has_zero e hp).mono (fun _ => Or.inl) (fun _ h => absurd h (by simp))

/-- Bluestein's algorithm when the tables are at hand. -/
theorem bluOut_cost_warm (cfg : Cfg) (x : List (Cx Expr)) (hn : 0 < x.length)
    (hx : ∀ e, parts x e → Avail A [] e)
    (hc : ∀ e, parts (bluPair (T := Expr) cfg x.length).1 e → Avail A [] e)
    (hb : ∀ e, parts (bluPair (T := Expr) cfg x.length).2 e → Avail A [] e)
    (ht : 16 < bluM x.length → ∀ e, parts (twiddles (T := Expr) cfg (bluM x.length)) e → Avail A [] e) :
    Cost A (10 * bluM x.length * (bluM x.length).log2 + 7 * bluM x.length + 15 * x.length + 1) (parts (bluOut cfg x)) := by
  unfold bluOut
  simp only []
  generalize hnn : x.length = n at *
  have hmn : 2 * n - 1 ≤ bluM n := bluM_ge n
  have hpm := bluM_pow2 n
  generalize hm : bluM n = m at *
  have hX : HasAll A n (fun i => x.getD i Cx.zero) := hasAll_getD hx n
  have hC : HasAll A n (chirpAt n) := fun i hi => ⟨hc _ (parts_tab.2 ⟨i, hi, Or.inl rfl⟩), hc _ (parts_tab.2 ⟨i, hi, Or.inr rfl⟩)⟩
  -- the product with the chirp
  set a0 := bluA n m m (fun i => x.getD i Cx.zero) (fun _ => Cx.zero) with ea0
  have s1 : Cost A (6 * n) (parts a0) := by
    have h : Cost A (n * 6) (parts (tab n fun i => (x.getD i Cx.zero).mul (chirpAt n i))) :=
      cost_tab fun i hi => cost_mul (hX i hi) (hC i hi)
    obtain ⟨p, g1, g2, g3⟩ := h
    refine ⟨p, g1, g2.trans (by omega), fun e he => ?_⟩
    obtain ⟨i, hi, hp⟩ := parts_tab.1 (show parts (tab m _) e from he)
    simp only [hi, ite_self] at hp
    by_cases hin : i < n
    · rw [if_pos hin] at hp
      exact g3 e (parts_tab.2 ⟨i, hin, hp⟩)
    · rw [if_neg hin] at hp
      exact (avail_pt has_zero e hp).mono (fun _ => Or.inl) (fun _ h => absurd h (by simp))
  have l0 : a0.length = m := by rw [ea0]; simp [bluA]
  -- first transform
  set a1 := freshPow cfg a0 with ea1
  have l1 : a1.length = m := by rw [ea1, freshPow, powOut_length cfg _ _ (by rw [l0]; exact hpm), l0]
  have s2 : Cost (fun e => A e ∨ parts a0 e) (5 * m * m.log2) (parts a1) := by
    have := freshPow_cost (A := fun e => A e ∨ parts a0 e) cfg a0 (by rw [l0]; exact hpm) (fun e he => Or.inl (Or.inr he))
      (fun h e he => avail_more (ht (by omega) e (by rw [← l0]; exact he)))
    rwa [l0] at this
  have t2 := s1.next s2
  -- the product with the spectrum, conjugated
  set fb := (bluPair (T := Expr) cfg n).2 with efb
  have lfb : fb.length = m := by
    rw [efb, bluPair, freshPow, powOut_length cfg _ _ (by rw [tab_length, hm]; exact hpm), tab_length, hm]
  set a2 := bluMid a1 fb with ea2
  have e2 : a2 = tab m (fun i => ((a1.getD i Cx.zero).mul (fb.getD i Cx.zero)).conj) := by
    rw [ea2, bluMid, copyPrefix_same _ _ (by rw [List.length_zipWith, l1, lfb, Nat.min_self]),
      eq_tab_getD a1 Cx.zero, eq_tab_getD fb Cx.zero, l1, lfb, tab_zipWith, tab_map]
    exact tab_congr fun i hi => by rw [tab_getD hi, tab_getD hi]
  have l2 : a2.length = m := by rw [e2, tab_length]
  have s3 : Cost (fun e => A e ∨ parts a1 e) (m * 7) (parts a2) := by
    rw [e2]
    refine cost_tab fun i _ => (cost_mul ?_ ?_).next (cost_conj (has_pt fun _ h => h))
    · exact hasAll_getD (fun e he => Or.inl (Or.inr he)) (i + 1) i (by omega)
    · exact hasAll_getD (fun e he => avail_more (hb e he)) (i + 1) i (by omega)
  have t3 := t2.next s3
  -- second transform
  set a3 := freshPow cfg a2 with ea3
  have s4 : Cost (fun e => A e ∨ parts a2 e) (5 * m * m.log2) (parts a3) := by
    have := freshPow_cost (A := fun e => A e ∨ parts a2 e) cfg a2 (by rw [l2]; exact hpm) (fun e he => Or.inl (Or.inr he))
      (fun h e he => avail_more (ht (by omega) e (by rw [← l2]; exact he)))
    rwa [l2] at this
  have t4 := t3.next s4
  -- conjugation, scaling and chirp
  have s5 : Cost (fun e => A e ∨ parts a3 e) (1 + n * 9) (parts (bluPost n m a3)) := by
    have hs : Cost (fun e => A e ∨ parts a3 e) 1 (fun e => e = (Flt.one : Expr) /. Flt.ofNat m) :=
      Cost.bin .div avail_const avail_const
    refine hs.next (cost_tab fun i hi => ?_)
    simp only []
    have ha : Hold (fun e => (A e ∨ parts a3 e) ∨ e = (Flt.one : Expr) /. Flt.ofNat m) (a3.getD i Cx.zero) :=
      hasAll_getD (fun e he => Or.inl (Or.inl (Or.inr he))) (i + 1) i (by omega)
    have h1 := cost_conj ha
    have h2 := h1.next ((Cost.bin .mul (a := (a3.getD i Cx.zero).conj.re) (b := (Flt.one : Expr) /. Flt.ofNat m)
        (Or.inl (Or.inr (Or.inl rfl))) (Or.inl (Or.inl (Or.inr rfl)))).union
      (Cost.bin .mul (a := (a3.getD i Cx.zero).conj.im) (b := (Flt.one : Expr) /. Flt.ofNat m)
        (Or.inl (Or.inr (Or.inr rfl))) (Or.inl (Or.inl (Or.inr rfl)))))
    have h2' := h2.weaken (C := Pt (Cx.mk ((a3.getD i Cx.zero).conj.re *. ((Flt.one : Expr) /. Flt.ofNat m))
      ((a3.getD i Cx.zero).conj.im *. ((Flt.one : Expr) /. Flt.ofNat m)))) le_rfl fun _ h => h
    exact h2'.next (cost_mul (has_pt fun _ h => h) (has_more (has_more (has_more (hC i hi)))))
  exact (t4.next s5).le (by nlinarith)

/-- Bluestein's algorithm with all its tables. -/
theorem bluOut_cost (cfg : Cfg) (x : List (Cx Expr)) (hn : 0 < x.length) :
    Cost (parts x) (15 * bluM x.length * (bluM x.length).log2 + 10 * bluM x.length + 22 * x.length + 6)
      (parts (bluOut cfg x)) := by
  set n := x.length with enn
  set m := bluM n with em
  have h1 := chirp_cost (A := parts x) n
  have h2 : Cost (fun e => parts x e ∨ (parts (tab n (chirpAt (T := Expr) n)) e ∨ parts (tab m (bAt (T := Expr) n)) e)) (3 * m + 5)
    (parts (twiddles (T := Expr) cfg m)) := twiddles_cost cfg m
  have h12 := h1.both h2
  have hlb : (tab m (bAt (T := Expr) n)).length = m := tab_length _ _
  have h3 := freshPow_cost (A := fun e => parts x e ∨ ((parts (tab n (chirpAt (T := Expr) n)) e ∨
      parts (tab m (bAt (T := Expr) n)) e) ∨ parts (twiddles (T := Expr) cfg m) e)) cfg (tab m (bAt n))
    (by rw [hlb]; exact bluM_pow2 n) (fun e he => Or.inl (Or.inr (Or.inl (Or.inr he))))
    (fun _ e he => Or.inl (Or.inr (Or.inr (by rw [hlb] at he; exact he))))
  rw [hlb] at h3
  have h123 := h12.both h3
  have h4 := bluOut_cost_warm (A := fun e => parts x e ∨ (((parts (tab n (chirpAt (T := Expr) n)) e ∨
      parts (tab m (bAt (T := Expr) n)) e) ∨ parts (twiddles (T := Expr) cfg m) e) ∨ parts (freshPow cfg (tab m (bAt n))) e))
    cfg x hn (fun e he => Or.inl (Or.inl he)) (fun e he => Or.inl (Or.inr (Or.inl (Or.inl (Or.inl he)))))
    (fun e he => Or.inl (Or.inr (Or.inr he))) (fun _ e he => Or.inl (Or.inr (Or.inl (Or.inr he))))
  rw [← enn, ← em] at h4
  refine (h123.next h4).le ?_
  have : 5 * m * m.log2 + 10 * m * m.log2 = 15 * m * m.log2 := by ring
  omega
end Kofft
