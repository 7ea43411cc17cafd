import Verif.Proof.CostFft
import Verif.Proof.Api
import Verif.Proof.Dft
import Verif.Props.Exclusive
import Verif.Proof.CostLower
import Verif.Model.Spectral
/-
C95: the number of arithmetic operations.
-/
namespace Kofft.Props
open Spec
variable [Formal]

/-- Transforms of internal size no larger than that for length `n`. -/
theorem performed_reach {T : Type} [Flt T] {cfg : Cfg} {n : ℕ} {ms : List ℕ} {p : Planner T} (h : Performed cfg ms p)
    (hm : ∀ m ∈ ms, workSize m ≤ workSize n) : ReachVia cfg (fun m => workSize m ≤ workSize n) p := by
  induction h with
  | new => exact .new
  | fft _ e ih =>
    exact .fft (ih fun m h => hm m (List.mem_cons_of_mem _ h)) (hm _ (by simp)) e
  | ifft _ e ih =>
    exact .ifft (ih fun m h => hm m (List.mem_cons_of_mem _ h)) (hm _ (by simp)) e

theorem fft_ok_fresh {T : Type} [Flt T] {cfg : Cfg} {ms : List ℕ} {p p' : Planner T} {x y : List (Cx T)}
    (hp : Performed cfg ms p) (hm : ∀ m ∈ ms, workSize m ≤ workSize x.length) (h : fft cfg p x = .ok (p', y, .ok ())) :
    0 < x.length ∧ y = freshOut cfg x := by
  have hI := (performed_ready hp).1.inv
  obtain ⟨p1, y1, e, -, -, -, hf, -⟩ := fft_run cfg p x hI
  rw [h] at e
  obtain ⟨-, e2⟩ := Prod.mk.inj (Outcome.ok.inj e)
  obtain ⟨rfl, er⟩ := Prod.mk.inj e2
  refine ⟨?_, hf er.symm (compat_of_reach (performed_reach hp hm))⟩
  by_contra h0
  rw [show x.length = 0 by omega] at er
  simp [fftRes] at er

theorem bluM_lt (n : ℕ) (hn : 1 < n) : bluM n < 4 * n := by
  unfold bluM nextPow2
  have := Nat.pow_pred_clog_lt_self (b := 2) (by norm_num) (show 1 < 2 * n - 1 by omega)
  have hc : Nat.clog 2 (2 * n - 1) = (Nat.clog 2 (2 * n - 1)).pred + 1 := by
    have : 0 < Nat.clog 2 (2 * n - 1) := Nat.clog_pos (by norm_num) (by omega)
    rw [Nat.pred_eq_sub_one]; omega
  rw [hc, pow_succ]
  omega

theorem bluM_log (n : ℕ) (hn : 1 < n) : (bluM n).log2 ≤ n.log2 + 2 := by
  have h1 : (bluM n).log2 < n.log2 + 3 := by
    refine (Nat.log2_lt (by have := bluM_ge n; omega)).2 ?_
    have h2 : n < 2 ^ (n.log2 + 1) := Nat.lt_log2_self
    have h3 := bluM_lt n hn
    calc bluM n < 4 * n := h3
      _ ≤ 4 * 2 ^ (n.log2 + 1) := by omega
      _ = 2 ^ (n.log2 + 3) := by ring
  omega

/-- C95: a transform of `2^k` elements takes at most `5·2^k·k` operations on the data plus `3·2^k + 5` for its table, whatever the
transformer has been used for before, as long as it was nothing larger. -/
theorem fft_operations_pow2 (cfg : Cfg) (ms : List ℕ) (p p' : Planner Expr) (x y : List (Cx Expr)) (k : ℕ)
    (hx : x.length = 2 ^ k) (hp : Performed cfg ms p) (hm : ∀ m ∈ ms, workSize m ≤ workSize x.length)
    (h : fft cfg p x = .ok (p', y, .ok ())) :
    Cost (parts x) (5 * 2 ^ k * k + 3 * 2 ^ k + 5) (parts y) := by
  obtain ⟨-, rfl⟩ := fft_ok_fresh hp hm h
  have h2 : isPow2 x.length = true := by rw [hx]; exact isPow2_pow k
  unfold freshOut
  rw [if_pos h2]
  have := (twiddles_cost (A := parts x) cfg x.length).next
    (freshPow_cost cfg x h2 (fun e he => Or.inl (Or.inl he)) (fun _ e he => Or.inl (Or.inr he)))
  rw [hx, log2_pow'] at this
  exact this.le (by omega)

/-- C95: a transform of any other length `n`, tables included. -/
theorem fft_operations_any (cfg : Cfg) (ms : List ℕ) (p p' : Planner Expr) (x y : List (Cx Expr)) (n : ℕ)
    (hx : x.length = n) (h1 : 1 < n) (hp : Performed cfg ms p) (hm : ∀ m ∈ ms, workSize m ≤ workSize n)
    (h : fft cfg p x = .ok (p', y, .ok ())) :
    Cost (parts x) (60 * n * (n.log2 + 2) + 62 * n + 6) (parts y) := by
  by_cases h2 : isPow2 n = true
  · obtain ⟨k, rfl⟩ := isPow2_iff.1 h2
    refine (fft_operations_pow2 cfg ms p p' x y k hx hp (by rw [hx]; exact hm) h).le ?_
    rw [log2_pow']
    nlinarith [Nat.zero_le (2 ^ k * k)]
  · obtain ⟨h0, rfl⟩ := fft_ok_fresh hp (by rw [hx]; exact hm) h
    unfold freshOut
    rw [hx, if_neg h2]
    refine (bluOut_cost cfg x h0).le ?_
    rw [hx]
    have a := bluM_lt n h1
    have b := bluM_log n h1
    have : bluM n * (bluM n).log2 ≤ 4 * n * (n.log2 + 2) := Nat.mul_le_mul (by omega) b
    nlinarith

/-- C95: the number of operations grows like `n·log n` for every length. -/
theorem fft_n_log_n (cfg : Cfg) (ms : List ℕ) (p p' : Planner Expr) (x y : List (Cx Expr)) (n : ℕ)
    (hx : x.length = n) (h1 : 1 < n) (hp : Performed cfg ms p) (hm : ∀ m ∈ ms, workSize m ≤ workSize n)
    (h : fft cfg p x = .ok (p', y, .ok ())) : Cost (parts x) (245 * (n * n.log2)) (parts y) := by
  refine (fft_operations_any cfg ms p p' x y n hx h1 hp hm h).le ?_
  have : 1 ≤ n.log2 := (Nat.le_log2 (by omega)).2 (by omega)
  nlinarith

/-- What the transformer has stored: its tables, and those compiled in. -/
def _root_.Kofft.Spec.Stored (cfg : Cfg) (p : Planner Expr) (e : Expr) : Prop :=
  (∃ n t, p.cache n = some t ∧ parts t e) ∨ (∃ n t, preLookup cfg n = some t ∧ parts t e) ∨
  ∃ n t, p.blu n = some t ∧ (parts t.1 e ∨ parts t.2 e)

theorem stored_twiddles {cfg : Cfg} {p : Planner Expr} {n : ℕ} (hI : Inv cfg p) (h : Has cfg p n) :
    ∀ e, parts (twiddles (T := Expr) cfg n) e → Stored cfg p e := by
  intro e he
  unfold twiddles at he
  cases hp : preLookup (T := Expr) cfg n with
  | some t => rw [hp] at he; exact Or.inr (Or.inl ⟨n, t, hp, he⟩)
  | none =>
    rw [hp] at he
    rcases h with h | h
    · exact absurd hp h
    · cases hc : p.cache n with
      | none => exact absurd hc h
      | some t => exact Or.inl ⟨n, t, hc, by rw [hI.cache n t hc]; exact he⟩

/-- C95: once a transformer has performed a transform of `2^k` elements (and nothing larger), a further one takes `5·2^k·k`
operations: the tables are not computed again. -/
theorem fft_operations_again (cfg : Cfg) (ms : List ℕ) (p p' : Planner Expr) (x y : List (Cx Expr)) (k : ℕ)
    (hx : x.length = 2 ^ k) (hp : Performed cfg ms p) (hm : ∀ m ∈ ms, workSize m ≤ workSize x.length) (hn : x.length ∈ ms)
    (h : fft cfg p x = .ok (p', y, .ok ())) :
    Cost (fun e => parts x e ∨ Stored cfg p e) (5 * 2 ^ k * k) (parts y) := by
  obtain ⟨-, rfl⟩ := fft_ok_fresh hp hm h
  have h2 : isPow2 x.length = true := by rw [hx]; exact isPow2_pow k
  have hr := performed_ready hp
  have hrd := hr.2 _ hn
  unfold Ready at hrd
  rw [if_pos h2] at hrd
  unfold freshOut
  rw [if_pos h2]
  have := freshPow_cost (A := fun e => parts x e ∨ Stored cfg p e) cfg x h2 (fun e he => Or.inl (Or.inl he))
    (fun h16 e he => Or.inl (Or.inr (stored_twiddles hr.1.inv (hrd h16) e he)))
  rw [hx, log2_pow'] at this
  exact this

/-- C95: the inverse transform. -/
theorem ifft_operations (cfg : Cfg) (ms : List ℕ) (p p' : Planner Expr) (x y : List (Cx Expr)) (n : ℕ)
    (hx : x.length = n) (h1 : 1 < n) (hp : Performed cfg ms p) (hm : ∀ m ∈ ms, workSize m ≤ workSize n)
    (h : ifft cfg p x = .ok (p', y, .ok ())) : Cost (parts x) (250 * (n * n.log2)) (parts y) := by
  unfold ifft ifftWith at h
  simp only [hx, show ¬ n = 0 by omega, show ¬ n = 1 by omega, if_false] at h
  cases hf : fft cfg p (x.map Cx.conj) with
  | ok v =>
    obtain ⟨p1, z, r⟩ := v
    rw [hf] at h
    simp only [Outcome.bind_ok] at h
    cases r with
    | error e => simp at h
    | ok u =>
      simp only [Outcome.ok.injEq, Prod.mk.injEq] at h
      obtain ⟨rfl, rfl, -⟩ := h
      have c1 : Cost (parts x) n (parts (x.map Cx.conj)) := by
        rw [eq_tab_getD x Cx.zero, hx, tab_map]
        refine (cost_tab (k := 1) fun i hi => cost_conj ?_).le (by omega)
        exact ⟨Or.inl (parts_tab.2 ⟨i, hi, Or.inl rfl⟩), Or.inl (parts_tab.2 ⟨i, hi, Or.inr rfl⟩)⟩
      have c2 := fft_n_log_n cfg ms p p1 (x.map Cx.conj) z n (by rw [List.length_map, hx]) h1 hp hm hf
      have lz : z.length = n := by
        obtain ⟨p2, y2, e, -, hl, -⟩ := fft_run cfg p (x.map Cx.conj) (performed_ready hp).1.inv
        rw [hf] at e
        obtain ⟨rfl, -⟩ := Prod.mk.inj (Prod.mk.inj (Outcome.ok.inj e)).2
        rw [hl, List.length_map, hx]
      have c3 : Cost (parts z) (1 + n * 3) (parts (z.map (ifftPost (Flt.one /. Flt.ofNat n)))) := by
        refine (Cost.bin .div (a := Flt.one) (b := Flt.ofNat n) avail_const avail_const).next ?_
        rw [eq_tab_getD z Cx.zero, lz, tab_map]
        refine cost_tab (k := 3) fun i hi => ?_
        have hz : Hold (fun e => parts (tab n fun i => z.getD i Cx.zero) e ∨ e = (Flt.one : Expr) /. Flt.ofNat n)
            (z.getD i Cx.zero) :=
          ⟨Or.inl (Or.inl (parts_tab.2 ⟨i, hi, Or.inl rfl⟩)), Or.inl (Or.inl (parts_tab.2 ⟨i, hi, Or.inr rfl⟩))⟩
        have hs : Avail (fun e => parts (tab n fun i => z.getD i Cx.zero) e ∨ e = (Flt.one : Expr) /. Flt.ofNat n) []
            ((Flt.one : Expr) /. Flt.ofNat n) := Or.inl (Or.inr rfl)
        exact (Cost.bin .mul hz.1 hs).union
          ((Cost.un .neg hz.2).next (Cost.bin .mul (a := .un .neg (z.getD i Cx.zero).im) (Or.inl (Or.inr rfl)) (avail_more hs)))
      have : 1 ≤ n.log2 := (Nat.le_log2 (by omega)).2 (by omega)
      exact ((c1.next (c2.more fun _ => Or.inr)).next (c3.more fun _ => Or.inr)).le (by nlinarith)
  | panic => rw [hf] at h; cases h
  | hang => rw [hf] at h; cases h

/-! ### The direct transforms -/

/-- The coefficients of the direct transforms of `n` samples. -/
def coDct2 (n i j : ℕ) : Expr := Flt.cos (((Flt.pi /. Flt.ofNat n) *. (Flt.ofNat i +. half)) *. Flt.ofNat j)
def coDct4 (n i j : ℕ) : Expr := Flt.cos (((Flt.pi /. Flt.ofNat n) *. (Flt.ofNat i +. half)) *. (Flt.ofNat j +. half))
def coDst1 (n i j : ℕ) : Expr :=
  Flt.sin (((Flt.ofNat i +. Flt.one) *. (Flt.ofNat j +. Flt.one)) *. (Flt.pi /. (Flt.ofNat n +. Flt.one)))
def coDst2 (n i j : ℕ) : Expr := Flt.sin (((Flt.pi /. Flt.ofNat n) *. (Flt.ofNat i +. half)) *. (Flt.ofNat j +. Flt.one))
def coDst4 (n i j : ℕ) : Expr := Flt.sin (((Flt.pi /. Flt.ofNat n) *. (Flt.ofNat i +. half)) *. (Flt.ofNat j +. half))

theorem direct_run (x : List Expr) (f : List Expr → ℕ → Outcome Expr) (co : ℕ → ℕ → Expr)
    (hf : ∀ j, f x j = accum x 0 x.length Flt.zero fun i v => v *. co i j) {y : List Expr}
    (h : fillOut (List.replicate x.length Flt.zero) (f x) = .ok y) :
    y = tab x.length fun j => accV x 0 (fun i v => v *. co i j) Flt.zero x.length := by
  rw [fillOut_ok _ (f x) (fun j => accV x 0 (fun i v => v *. co i j) Flt.zero x.length), List.length_replicate] at h
  · exact (Outcome.ok.inj h).symm
  · intro j _
    rw [hf j, accum_ok _ _ _ _ _ le_rfl, Nat.sub_zero]

/-- The two bounds for one direct transform. -/
def Quadratic (f : List Expr → Outcome (List Expr)) : Prop :=
  ∀ n y, f (reInputs n) = .ok y →
    Cost (elems (reInputs n)) (9 * (n * n)) (elems y) ∧ ∀ k, Cost (elems (reInputs n)) k (elems y) → n * n ≤ k

theorem direct_quadratic (f : List Expr → Outcome (List Expr)) (g : List Expr → ℕ → Outcome Expr) (co : ℕ → ℕ → ℕ → Expr)
    (hfg : ∀ x, f x = fillOut (List.replicate x.length Flt.zero) (g x))
    (hf : ∀ x j, g x j = accum x 0 x.length Flt.zero fun i v => v *. co x.length i j)
    (hinj : ∀ n i j i' j', co n i j = co n i' j' → j = j')
    (hc : ∀ n i j, ∀ {B : Expr → Prop}, Cost B 7 (fun e => e = co n i j)) : Quadratic f := by
  intro n y h
  have e := direct_run (reInputs n) g (co n) (by rw [← reInputs_length n]; simpa [reInputs_length] using hf (reInputs n))
    (by rw [← hfg]; exact h)
  rw [reInputs_length] at e
  subst e
  refine ⟨(direct_upper (A := elems (reInputs n)) (c := 7) (reInputs n) (fun e he => he) (reInputs_length n) (co n)
    fun i j B _ => hc n i j).le (by nlinarith), fun k hk => direct_lower (co n) (hinj n) hk⟩

theorem half_avail {A : Expr → Prop} : Avail A [] (half : Expr) := avail_const

theorem co_cost {A : Expr → Prop} {k l : ℕ} {a b : Expr} (o : Op1) (ha : Cost A k fun e => e = a)
    (hb : Cost A l fun e => e = b) : Cost A (k + l + 2) fun e => e = .un o (.bin .mul a b) :=
  ((ha.union hb).next (Cost.bin .mul (Or.inl (Or.inr (Or.inl rfl))) (Or.inl (Or.inr (Or.inr rfl))))).next
    (Cost.un o (Or.inl (Or.inr rfl)))

theorem mul_cost {A : Expr → Prop} {k l : ℕ} {a b : Expr} (ha : Cost A k fun e => e = a) (hb : Cost A l fun e => e = b) :
    Cost A (k + l + 1) fun e => e = .bin .mul a b :=
  (ha.union hb).next (Cost.bin .mul (Or.inl (Or.inr (Or.inl rfl))) (Or.inl (Or.inr (Or.inr rfl))))

theorem factor_cost {A : Expr → Prop} (n : ℕ) : Cost A 1 fun e => e = (Flt.pi : Expr) /. Flt.ofNat n :=
  Cost.bin .div avail_const avail_const
theorem half_cost' {A : Expr → Prop} (i : ℕ) : Cost A 1 fun e => e = (Flt.ofNat i : Expr) +. half :=
  Cost.bin .add avail_const avail_const
theorem succ_cost {A : Expr → Prop} (i : ℕ) : Cost A 1 fun e => e = (Flt.ofNat i : Expr) +. Flt.one :=
  Cost.bin .add avail_const avail_const

theorem ofNat_inj {i j : ℕ} (h : (Flt.ofNat i : Expr) = Flt.ofNat j) : i = j := Const.ofNat.inj (Expr.const.inj h)

/-- C95: the cosine and sine transforms are computed directly: for independent inputs, any way of computing the outputs as
these functions do takes at least `n²` operations, and `9n²` are enough. -/
theorem direct_transforms_quadratic :
    Quadratic dct2 ∧ Quadratic dct4 ∧ Quadratic dst1 ∧ Quadratic dst2 ∧ Quadratic dst4 := by
  refine ⟨?_, ?_, ?_, ?_, ?_⟩
  · refine direct_quadratic dct2 dct2At coDct2 (fun _ => rfl) (fun _ _ => rfl) (fun n i j i' j' h => ?_) fun n i j => ?_
    · exact ofNat_inj (Expr.bin.inj (Expr.un.inj h).2).2.2
    · exact (co_cost .cos (mul_cost (factor_cost n) (half_cost' i)) (cost_has fun e he => by rw [he]; exact avail_const)).le (by omega)
  · refine direct_quadratic dct4 dct4At coDct4 (fun _ => rfl) (fun _ _ => rfl) (fun n i j i' j' h => ?_) fun n i j => ?_
    · exact ofNat_inj (Expr.bin.inj (Expr.bin.inj (Expr.un.inj h).2).2.2).2.1
    · exact (co_cost .cos (mul_cost (factor_cost n) (half_cost' i)) (half_cost' j)).le (by omega)
  · refine direct_quadratic dst1 dst1At coDst1 (fun _ => rfl) (fun _ _ => rfl) (fun n i j i' j' h => ?_) fun n i j => ?_
    · exact ofNat_inj (Expr.bin.inj (Expr.bin.inj (Expr.bin.inj (Expr.un.inj h).2).2.1).2.2).2.1
    · exact (co_cost .sin (mul_cost (succ_cost i) (succ_cost j)) ((succ_cost n).next
        (Cost.bin .div (a := Flt.pi) (b := Flt.ofNat n +. Flt.one) avail_const (Or.inl (Or.inr rfl))))).le (by omega)
  · refine direct_quadratic dst2 dst2At coDst2 (fun _ => rfl) (fun _ _ => rfl) (fun n i j i' j' h => ?_) fun n i j => ?_
    · exact ofNat_inj (Expr.bin.inj (Expr.bin.inj (Expr.un.inj h).2).2.2).2.1
    · exact (co_cost .sin (mul_cost (factor_cost n) (half_cost' i)) (succ_cost j)).le (by omega)
  · refine direct_quadratic dst4 dst4At coDst4 (fun _ => rfl) (fun _ _ => rfl) (fun n i j i' j' h => ?_) fun n i j => ?_
    · exact ofNat_inj (Expr.bin.inj (Expr.bin.inj (Expr.un.inj h).2).2.2).2.1
    · exact (co_cost .sin (mul_cost (factor_cost n) (half_cost' i)) (half_cost' j)).le (by omega)

theorem bin_cost {A : Expr → Prop} {k l : ℕ} {a b : Expr} (o : Op2) (ha : Cost A k fun e => e = a)
    (hb : Cost A l fun e => e = b) : Cost A (k + l + 1) fun e => e = .bin o a b :=
  (ha.union hb).next (Cost.bin o (Or.inl (Or.inr (Or.inl rfl))) (Or.inl (Or.inr (Or.inr rfl))))

theorem un_cost {A : Expr → Prop} {k : ℕ} {a : Expr} (o : Op1) (ha : Cost A k fun e => e = a) :
    Cost A (k + 1) fun e => e = .un o a := ha.next (Cost.un o (Or.inl (Or.inr rfl)))

theorem at_hand {A : Expr → Prop} {a : Expr} (h : Avail A [] a) : Cost A 0 fun e => e = a :=
  cost_has fun e he => by rw [he]; exact h

theorem goertzel_loop {coeff : Expr} : ∀ (x : List Expr) {A : Expr → Prop} {s : Expr × Expr}, (∀ v ∈ x, A v) →
    Avail A [] coeff → Avail A [] s.1 → Avail A [] s.2 →
    Cost A (3 * x.length) (fun e => e = (x.foldl (goertzelStep coeff) s).1 ∨ e = (x.foldl (goertzelStep coeff) s).2)
  | [], A, s, _, _, h1, h2 => cost_has fun e he => by
    rcases he with rfl | rfl
    · exact h1
    · exact h2
  | v :: x, A, s, hx, hc, h1, h2 => by
    have c1 : Cost A 3 (fun e => e = (goertzelStep coeff s v).1) :=
      bin_cost .sub (bin_cost .add (at_hand (Or.inl (hx v (by simp)))) (bin_cost .mul (at_hand hc) (at_hand h1))) (at_hand h2)
    have ih := goertzel_loop x (A := fun e => A e ∨ e = (goertzelStep coeff s v).1) (s := goertzelStep coeff s v)
      (fun w hw => Or.inl (hx w (List.mem_cons_of_mem _ hw))) (avail_more hc) (Or.inl (Or.inr rfl)) (avail_more h1)
    exact (c1.next ih).le (by rw [List.length_cons]; omega)

/-- C95: one frequency by Goertzel's algorithm takes a number of operations proportional to the number of samples. -/
theorem goertzel_linear (x : List Expr) (rate freq y : Expr) (h : goertzel x rate freq = .ok y) :
    Cost (fun e => elems x e ∨ e = rate ∨ e = freq) (3 * x.length + 15) (fun e => e = y) := by
  unfold goertzel at h
  split at h
  · cases h
  · split at h
    · cases h
    · obtain rfl := Except.ok.inj h
      unfold goertzelPower
      simp only []
      generalize hA : (fun e => elems x e ∨ e = rate ∨ e = freq) = A
      have hr : Avail A [] rate := by rw [← hA]; exact Or.inl (Or.inr (Or.inl rfl))
      have hq : Avail A [] freq := by rw [← hA]; exact Or.inl (Or.inr (Or.inr rfl))
      have hx : ∀ v ∈ x, A v := fun v hv => by rw [← hA]; exact Or.inl hv
      clear hA
      set coeff := goertzelCoeff x.length rate freq with ec
      have c1 : Cost A 8 (fun e => e = coeff) :=
        bin_cost .mul (at_hand avail_const) (un_cost .cos (bin_cost .div (bin_cost .mul
          (bin_cost .mul (at_hand avail_const) (at_hand avail_const))
          (un_cost .floor (bin_cost .div (bin_cost .mul (at_hand hq) (at_hand avail_const)) (at_hand hr)))) (at_hand avail_const)))
      have c2 := goertzel_loop x (A := fun e => A e ∨ e = coeff) (coeff := coeff) (s := (Flt.zero, Flt.zero))
        (fun v hv => Or.inl (hx v hv)) (Or.inl (Or.inr rfl)) avail_const avail_const
      have c3 := c1.both c2
      set s := x.foldl (goertzelStep coeff) (Flt.zero, Flt.zero) with es
      refine (c3.next (un_cost .sqrt (bin_cost .sub (bin_cost .add (bin_cost .mul (at_hand ?_) (at_hand ?_))
        (bin_cost .mul (at_hand ?_) (at_hand ?_))) (bin_cost .mul (bin_cost .mul (at_hand ?_) (at_hand ?_)) (at_hand ?_))))).le
        (by omega)
      · exact Or.inl (Or.inr (Or.inr (Or.inr rfl)))
      · exact Or.inl (Or.inr (Or.inr (Or.inr rfl)))
      · exact Or.inl (Or.inr (Or.inr (Or.inl rfl)))
      · exact Or.inl (Or.inr (Or.inr (Or.inl rfl)))
      · exact Or.inl (Or.inr (Or.inl rfl))
      · exact Or.inl (Or.inr (Or.inr (Or.inl rfl)))
      · exact Or.inl (Or.inr (Or.inr (Or.inr rfl)))

/-! ### The hypotheses are met -/

/-- Any six inputs, a new transformer. -/
example (cfg : Cfg) (hstd : cfg.std = true) (x : List (Cx Expr)) (hx : x.length = 6) :
    ∃ p y, fft cfg Planner.new x = .ok (p, y, .ok ()) ∧ y.length = 6 ∧ Cost (parts x) (245 * (6 * Nat.log2 6)) (parts y) := by
  obtain ⟨p, e, -, hl, -⟩ := (fft_opOk cfg).run Planner.new x (inv_new cfg)
  rw [fftRes_std hstd (by omega)] at e
  exact ⟨p, _, e, by rw [hl, hx], fft_n_log_n cfg [] _ _ x _ 6 hx (by norm_num) .new (by simp) e⟩

/-- Any 64 inputs, a transformer that has performed this length before. -/
example (cfg : Cfg) (w x : List (Cx Expr)) (hw : w.length = 64) (hx : x.length = 64) :
    ∃ p1 y1 p2 y2, fft cfg Planner.new w = .ok (p1, y1, .ok ()) ∧ fft cfg p1 x = .ok (p2, y2, .ok ()) ∧
      Cost (fun e => parts x e ∨ Stored cfg p1 e) (5 * 2 ^ 6 * 6) (parts y2) := by
  have hp : isPow2 64 = true := isPow2_pow 6
  obtain ⟨p1, e1, h1, -⟩ := (fft_opOk cfg).run Planner.new w (inv_new cfg)
  rw [hw, fftRes_pow2 cfg hp] at e1
  have hp1 : Performed cfg [64] p1 := by
    have := Performed.fft Performed.new e1
    rwa [hw] at this
  obtain ⟨p2, e2, -⟩ := (fft_opOk cfg).run p1 x h1
  rw [hx, fftRes_pow2 cfg hp] at e2
  exact ⟨p1, _, p2, _, e1, e2, fft_operations_again cfg [64] p1 p2 x _ 6 (by rw [hx]; norm_num) hp1 (by simp [hx])
    (by simp [hx]) e2⟩

end Kofft.Props
