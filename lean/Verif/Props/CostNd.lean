import Verif.Props.CostMore
import Verif.Props.NdFft
/-
C111, continued: operations of the two- and three-dimensional transforms and of the filter banks.
-/
namespace Kofft.Props
open Spec
variable [Formal]

/-! ### Two and three dimensions -/

theorem fresh_cost (cfg : Cfg) (x : List (Cx Expr)) (n : ℕ) (hx : x.length = n) (h0 : 0 < n)
    (hr : fftRes cfg n = .ok ()) :
    Cost (parts x) (245 * (n * n.log2) + 8) (parts (freshOut cfg x)) ∧ (freshOut cfg x).length = n := by
  subst hx
  obtain ⟨p', y, e, -, hl, -, hf, -⟩ := fft_run cfg Planner.new x (performed_ready .new).1.inv
  rw [hr] at e
  rw [← hf hr (compat_new cfg _)]
  exact ⟨fft_operations_pos cfg [] Planner.new p' x y x.length rfl h0 .new (by simp) e, hl⟩

theorem line_cost (cfg : Cfg) (x : List (Cx Expr)) (b s n : ℕ) (h0 : 0 < n) (hr : fftRes cfg n = .ok ()) :
    Cost (parts x) (245 * (n * n.log2) + 8) (parts (freshOut cfg (lineOf x b s n))) ∧
      (freshOut cfg (lineOf x b s n)).length = n := by
  obtain ⟨h1, h2⟩ := fresh_cost cfg (lineOf x b s n) n (by simp [lineOf]) h0 hr
  refine ⟨(Cost.next (B := parts (lineOf x b s n)) (k := 0) (cost_has ?_) (h1.more fun _ => Or.inr)).le (by omega), h2⟩
  rintro e ⟨c, hc, he⟩
  unfold lineOf tab at hc
  obtain ⟨i, -, rfl⟩ := List.mem_map.1 hc
  have hh := hold_getD (A := parts x) (y := x) (fun e he => Or.inl he) (b + i * s)
  rcases he with rfl | rfl
  · exact hh.1
  · exact hh.2

theorem parts_of_getD {y z : List (Cx Expr)} {j i : ℕ} (hi : i < z.length) (h : y.getD j Cx.zero = z.getD i Cx.zero)
    {e : Expr} (he : Pt (y.getD j Cx.zero) e) : parts z e := by
  rw [h, List.getD_eq_getElem _ _ hi] at he
  exact ⟨_, List.getElem_mem hi, he⟩

/-- One pass over lines: every element of `y` is an element of the transform of one of `Q` lines of `x`. -/
theorem pass_cost (cfg : Cfg) (x y : List (Cx Expr)) (Q n : ℕ) (b s : ℕ → ℕ) (h0 : 0 < n) (hr : fftRes cfg n = .ok ())
    (h : ∀ j < y.length, ∃ q < Q, ∃ i < n, y.getD j Cx.zero = (freshOut cfg (lineOf x (b q) (s q) n)).getD i Cx.zero) :
    Cost (parts x) (Q * (245 * (n * n.log2) + 8)) (parts y) := by
  refine (Cost.all (n := Q) (B := fun q e => parts (freshOut cfg (lineOf x (b q) (s q) n)) e)
    fun q _ => (line_cost cfg x (b q) (s q) n h0 hr).1).weaken le_rfl ?_
  rintro e ⟨c, hc, he⟩
  obtain ⟨j, hj, rfl⟩ := List.getElem_of_mem hc
  obtain ⟨q, hq, i, hi, h2⟩ := h j hj
  exact ⟨q, hq, parts_of_getD (by rw [(line_cost cfg x (b q) (s q) n h0 hr).2]; exact hi) h2
    (by rw [List.getD_eq_getElem _ _ hj]; exact he)⟩

/-- C111j. A two-dimensional transform of `rows × cols` elements takes at most
`245 rows cols (log₂ rows + log₂ cols) + 8 (rows + cols)` operations. -/
theorem fft2d_operations (cfg : Cfg) (p p' : Planner Expr) (data y : List (Cx Expr)) (rows cols : ℕ)
    (sc sc' : List (Cx Expr)) (hl : data.length = rows * cols) (hr : 0 < rows) (hc : 0 < cols) (hs : sc.length = rows)
    (hp : ReachVia cfg (fun m => workSize m ≤ workSize cols) p)
    (hn : cfg.std = true ∨ ((∃ k, rows = 2 ^ k) ∧ ∃ k, cols = 2 ^ k))
    (hsz : Unaffected cfg (workSize cols) rows)
    (h : fft2d cfg p data rows cols sc = .ok (p', y, sc', .ok ())) :
    Cost (parts data) (245 * (rows * cols * (rows.log2 + cols.log2)) + 8 * (rows + cols)) (parts y) := by
  have hrr : fftRes cfg rows = .ok () := fftRes_ok hr (by tauto)
  have hrc : fftRes cfg cols = .ok () := fftRes_ok hc (by tauto)
  obtain ⟨s1, s2, e, b1, b2, b3, b4, -, b6⟩ := fft2d_run cfg p (reachVia_inv hp) data rows cols sc hl hr hc hs
  rw [h] at e
  obtain ⟨-, e2⟩ := Prod.mk.inj (Outcome.ok.inj e)
  obtain ⟨rfl, -⟩ := Prod.mk.inj e2
  have hb := reachVia_invB (B := need cols) (fun m hm => hm) hp
  obtain ⟨c1, c2⟩ := b6 (need cols) le_rfl hb.2 (Or.inl le_rfl) hrc
  have hsafe : SafeAt cfg (max (need cols) (need rows)) rows := by
    rcases safeAt_of hsz with h | h
    · exact Or.inl (max_le h le_rfl)
    · exact Or.inr h
  have c3 := c2 (max (need cols) (need rows)) (le_max_left _ _) (le_max_right _ _) hsafe hrr
  have k1 := pass_cost cfg data s1.data rows cols (fun q => q * cols) (fun _ => 1) hc hrc fun j hj => by
    have hj2 : j < rows * cols := by omega
    refine ⟨j / cols, Nat.div_lt_of_lt_mul (by rwa [Nat.mul_comm]), j % cols, Nat.mod_lt _ hc, ?_⟩
    rw [← c1 (j / cols) (j % cols) (Nat.div_lt_of_lt_mul (by rwa [Nat.mul_comm])) (Nat.mod_lt _ hc), Nat.div_add_mod']
  have k2 := pass_cost cfg s1.data s2.data cols rows (fun q => q) (fun _ => cols) hr hrr fun j hj => by
    have hj2 : j < rows * cols := by omega
    refine ⟨j % cols, Nat.mod_lt _ hc, j / cols, Nat.div_lt_of_lt_mul (by rwa [Nat.mul_comm]), ?_⟩
    rw [← c3 (j % cols) (j / cols) (Nat.mod_lt _ hc) (Nat.div_lt_of_lt_mul (by rwa [Nat.mul_comm])), Nat.mod_add_div']
  exact (k1.next (k2.more fun _ => Or.inr)).le (le_of_eq (by ring))

/-- 512 elements as 32 by 16, on a fresh transformer: at most 1129344 operations. -/
example (x : List (Cx Expr)) (hx : x.length = 512) : let cfg : Cfg := ⟨true, .f32, false, 4, false⟩
    ∃ p' y sc', fft2d cfg Planner.new x 32 16 (List.replicate 32 Cx.zero) = .ok (p', y, sc', .ok ()) ∧
      Cost (parts x) 1129344 (parts y) := by
  intro cfg
  obtain ⟨s1, s2, e, -⟩ := fft2d_run cfg Planner.new (reachVia_inv (L := fun _ => True) .new) x 32 16
    (List.replicate 32 Cx.zero) hx (by decide) (by decide) List.length_replicate
  have h1 : fftRes cfg 16 = .ok () := fftRes_ok (by decide) (Or.inl rfl)
  have h2 : fftRes cfg 32 = .ok () := fftRes_ok (by decide) (Or.inl rfl)
  have e' : fft2d cfg Planner.new x 32 16 (List.replicate 32 Cx.zero) = .ok (s2.p, s2.data, s2.sc, .ok ()) := by
    rw [e]; simp [h1, h2]
  refine ⟨_, _, _, e', (fft2d_operations cfg _ _ x _ 32 16 _ _ hx (by decide) (by decide) List.length_replicate .new
    (Or.inl rfl) (Or.inl ?_) e').le ?_⟩
  · have h1 : isPow2 32 = true := by decide
    have h2 : isPow2 16 = true := by decide
    simp [workSize, h1, h2]
  · have h1 : Nat.log2 16 = 4 := by decide
    have h2 : Nat.log2 32 = 5 := by decide
    rw [h1, h2]

omit [Formal] in
/-- The three passes of a successful three-dimensional transform, with the lengths of the intermediate data. -/
private theorem fft3d_run_ok {T : Type} [Flt T] (cfg : Cfg) (p : Planner T) (hI : Inv cfg p) (data : List (Cx T))
    (D R C : ℕ) (tube row col : List (Cx T)) (hl : data.length = D * R * C) (hD : 0 < D) (hR : 0 < R)
    (hC : 0 < C) (ht : tube.length = D) (hr : row.length = R) (hc : col.length = C)
    (h1 : fftRes cfg D = .ok ()) (h2 : fftRes cfg R = .ok ()) (h3 : fftRes cfg C = .ok ()) :
    ∃ s1 s2 s3 : NdSt T, ∃ t' r', fft3d cfg p data D R C tube row col = .ok (s3.p, s3.data, t', r', col, .ok ()) ∧
      s1.data.length = data.length ∧ s2.data.length = data.length ∧ s3.data.length = data.length ∧
      (∀ B1 B2 B3, Bnd B1 p → need D ≤ B1 → SafeAt cfg B1 D →
        B1 ≤ B2 → need R ≤ B2 → SafeAt cfg B2 R → B2 ≤ B3 → need C ≤ B3 → SafeAt cfg B3 C →
        (∀ q i, q < R * C → i < D → s1.data.getD (q + i * (R * C)) Cx.zero =
          (freshOut cfg (lineOf data q (R * C) D)).getD i Cx.zero) ∧
        (∀ d c i, d < D → c < C → i < R → s2.data.getD (d * R * C + c + i * C) Cx.zero =
          (freshOut cfg (lineOf s1.data (d * R * C + c) C R)).getD i Cx.zero) ∧
        (∀ q i, q < D * R → i < C → s3.data.getD (q * C + i) Cx.zero =
          (freshOut cfg (lineOf s2.data (q * C) 1 C)).getD i Cx.zero)) := by
  have hRC : 0 < R * C := Nat.mul_pos hR hC
  obtain ⟨s1, e1, a1, a2, a3, a4, a5, a6, -⟩ := strided_pass cfg (R := D) (C := R * C) (N := D * R * C)
    (Nat.mul_assoc _ _ _) hD hRC (⟨p, data, tube⟩ : NdSt T) hI hl ht
  rw [fft3d_unfold cfg p data hl hD hR hC ht hr hc, e1]
  obtain ⟨s2, e2, b1, b2, b3, b4, b5, b6⟩ := plane_pass cfg (D := D) (R := R) (C := C) rfl hD hR hC
    (⟨s1.p, s1.data, row⟩ : NdSt T) a1 a2 hr
  obtain ⟨s3, e3, c1, c2, c3, c4, c5, c6, -⟩ := slice_pass cfg (Q := D * R) (C := C) le_rfl
    (Nat.mul_pos hD hR) s2 b1 b2 b3
  refine ⟨s1, s2, s3, s1.sc, s3.sc, ?_, by omega, by omega, by omega, ?_⟩
  · simp only [h1, h2, h3, Outcome.bind_ok, e2, e3]
  · intro B1 B2 B3 q1 q2 q3 u1 u2 u3 v1 v2 v3
    have k1 : Bnd B2 s1.p := by have := a4 B1 q2 q1; exact ⟨this.1.trans u1, this.2.trans u1⟩
    have k2 : Bnd B3 s2.p := by have := b4 B2 u2 k1; exact ⟨this.1.trans v1, this.2.trans v1⟩
    exact ⟨a6 B1 q2 q1 q3 h1, b6 B2 u2 k1 u3 h2, c6 B3 v2 k2 v3 h3⟩

/-- C111k. A three-dimensional transform. -/
theorem fft3d_operations (cfg : Cfg) (p p' : Planner Expr) (data y : List (Cx Expr))
    (D R C : ℕ) (tube row col t' r' c' : List (Cx Expr)) (hl : data.length = D * R * C) (hD : 0 < D) (hR : 0 < R)
    (hC : 0 < C) (ht : tube.length = D) (hr : row.length = R) (hc : col.length = C)
    (hp : ReachVia cfg (fun m => workSize m ≤ workSize D) p)
    (hn : cfg.std = true ∨ ((∃ k, D = 2 ^ k) ∧ (∃ k, R = 2 ^ k) ∧ ∃ k, C = 2 ^ k))
    (h1 : Unaffected cfg (workSize D) R) (h2 : Unaffected cfg (max (workSize D) (workSize R)) C)
    (h : fft3d cfg p data D R C tube row col = .ok (p', y, t', r', c', .ok ())) :
    Cost (parts data) (245 * (D * R * C * (D.log2 + R.log2 + C.log2)) + 8 * (R * C + D * C + D * R)) (parts y) := by
  have e1 : fftRes cfg D = .ok () := fftRes_ok hD (by tauto)
  have e2 : fftRes cfg R = .ok () := fftRes_ok hR (by tauto)
  have e3 : fftRes cfg C = .ok () := fftRes_ok hC (by tauto)
  obtain ⟨s1, s2, s3, t1, r1, e, b1, b2, b3, b6⟩ := fft3d_run_ok cfg p (reachVia_inv hp) data D R C
    tube row col hl hD hR hC ht hr hc e1 e2 e3
  rw [h] at e
  obtain ⟨-, e4⟩ := Prod.mk.inj (Outcome.ok.inj e)
  obtain ⟨rfl, -⟩ := Prod.mk.inj e4
  have hb := reachVia_invB (B := need D) (fun m hm => hm) hp
  have k1 : SafeAt cfg (max (need D) (need R)) R := by
    rcases safeAt_of h1 with h | h
    · exact Or.inl (max_le h le_rfl)
    · exact Or.inr h
  have k2 : SafeAt cfg (max (max (need D) (need R)) (need C)) C := by
    rcases safeAt_of h2 with h | h
    · exact Or.inl (max_le h le_rfl)
    · exact Or.inr h
  obtain ⟨c1, c2, c3⟩ := b6 (need D) (max (need D) (need R)) (max (max (need D) (need R)) (need C)) hb.2 le_rfl
    (Or.inl le_rfl) (le_max_left _ _) (le_max_right _ _) k1 (le_max_left _ _) (le_max_right _ _) k2
  have hRC : 0 < R * C := Nat.mul_pos hR hC
  have m1 := pass_cost cfg data s1.data (R * C) D (fun q => q) (fun _ => R * C) hD e1 fun j hj => by
    have hx : D * R * C = R * C * D := by ring
    have hj2 : j < R * C * D := by omega
    refine ⟨j % (R * C), Nat.mod_lt _ hRC, j / (R * C), Nat.div_lt_of_lt_mul hj2, ?_⟩
    rw [← c1 (j % (R * C)) (j / (R * C)) (Nat.mod_lt _ hRC) (Nat.div_lt_of_lt_mul hj2), Nat.mod_add_div']
  have m2 := pass_cost cfg s1.data s2.data (D * C) R (fun q => q / C * R * C + q % C) (fun _ => C) hR e2 fun j hj => by
    have hx : D * R * C = R * C * D := by ring
    have hj2 : j < R * C * D := by omega
    have hd : j / (R * C) < D := Nat.div_lt_of_lt_mul hj2
    have hm : j % (R * C) < C * R := by rw [Nat.mul_comm C]; exact Nat.mod_lt _ hRC
    have hi : j % (R * C) / C < R := Nat.div_lt_of_lt_mul hm
    have hc' : j % (R * C) % C < C := Nat.mod_lt _ hC
    have q1 : (j / (R * C) * C + j % (R * C) % C) / C = j / (R * C) := by
      rw [Nat.mul_comm, Nat.mul_add_div hC, Nat.div_eq_of_lt hc', Nat.add_zero]
    have q2 : (j / (R * C) * C + j % (R * C) % C) % C = j % (R * C) % C := by
      rw [Nat.mul_comm, Nat.mul_add_mod, Nat.mod_eq_of_lt hc']
    refine ⟨j / (R * C) * C + j % (R * C) % C, by rw [Nat.add_comm, Nat.mul_comm D]; rw [Nat.mul_comm C D]; exact line_lt hc' hd,
      j % (R * C) / C, hi, ?_⟩
    rw [q1, q2, ← c2 _ _ _ hd hc' hi, Nat.add_assoc, Nat.mod_add_div', Nat.mul_assoc, Nat.div_add_mod']
  have m3 := pass_cost cfg s2.data s3.data (D * R) C (fun q => q * C) (fun _ => 1) hC e3 fun j hj => by
    have hj2 : j < C * (D * R) := by rw [Nat.mul_comm C]; omega
    refine ⟨j / C, Nat.div_lt_of_lt_mul hj2, j % C, Nat.mod_lt _ hC, ?_⟩
    rw [← c3 (j / C) (j % C) (Nat.div_lt_of_lt_mul hj2) (Nat.mod_lt _ hC), Nat.div_add_mod']
  exact (m1.next ((m2.next (m3.more fun _ => Or.inr)).more fun _ => Or.inr)).le (le_of_eq (by ring))

/-! ### Filter banks -/

theorem accS_cost {A : Expr → Prop} {init : Expr} (hi : Avail A [] init) (f : ℕ → Expr) {k : ℕ} :
    ∀ n, (∀ j < n, Cost A k fun e => e = f j) → Cost A (n * (k + 1)) fun e => e = accS init f n
  | 0, _ => (at_hand hi).le (Nat.zero_le _)
  | n + 1, h => (bin_cost .add (accS_cost hi f n fun j hj => h j (by omega)) (h n (by omega))).le
      (by rw [Nat.add_mul]; omega)

/-- C111l. One level of analysis with filters of `L` taps takes at most `2 L n` operations on `n` samples. -/
theorem bank_forward_operations (h g x a d : List Expr) (hg : h.length ≤ g.length) (e : bankForward h g x = .ok (a, d)) :
    Cost (fun e => elems x e ∨ elems h e ∨ elems g e) (2 * (h.length * x.length)) (fun e => elems a e ∨ elems d e) := by
  rw [bankForward_ok h g x hg] at e
  obtain ⟨rfl, rfl⟩ := Prod.mk.inj (Outcome.ok.inj e)
  have c : ∀ f : List Expr, (∀ e ∈ f, Avail (fun e => elems x e ∨ elems h e ∨ elems g e) [] e) →
      Cost (fun e => elems x e ∨ elems h e ∨ elems g e) (x.length / 2 * (h.length * 2)) (fun e => ∃ i < x.length / 2,
        e = accS Flt.zero (fun k => f.getD k Flt.zero *. x.getD (mirIdx x.length ((2 * i + k : ℕ) : Int)) Flt.zero) h.length) := by
    intro f hf
    refine Cost.all fun i _ => ?_
    exact accS_cost avail_const _ h.length fun j _ =>
      Cost.bin .mul (getD_avail hf j) (getD_avail (fun e he => Or.inl (Or.inl he)) _)
  refine ((c h fun e he => Or.inl (Or.inr (Or.inl he))).union (c g fun e he => Or.inl (Or.inr (Or.inr he)))).weaken ?_ ?_
  · have := Nat.mul_le_mul_left h.length (Nat.div_mul_le_self x.length 2)
    nlinarith
  · rintro e (he | he)
    · left; exact elems_tab.1 he
    · right; exact elems_tab.1 he

/-- All samples of the synthesis after `m` steps. -/
private theorem synV_cost {A : Expr → Prop} (g h a d : List Expr) (len : ℕ) (hg : ∀ e ∈ g, Avail A [] e)
    (hh : ∀ e ∈ h, Avail A [] e) (ha : ∀ e ∈ a, Avail A [] e) (hd : ∀ e ∈ d, Avail A [] e) :
    ∀ m, Cost A (4 * m) fun e => ∃ t < len, e = synV g h a d len t m
  | 0 => cost_has fun e ⟨t, _, he⟩ => by rw [he, synV]; exact avail_const
  | m + 1 => by
    set B : Expr → Prop := fun e => ∃ t < len, e = synV g h a d len t m with hB
    have ih : Cost A (4 * m) B := synV_cost g h a d len hg hh ha hd m
    have up : ∀ {e : Expr}, Avail A [] e → Avail (fun e => A e ∨ B e) [] e := fun h => avail_more h
    set i := m / g.length
    set k := m % g.length
    set t0 := mirIdx len ((2 * i + k : ℕ) : Int) with ht0
    have hsum : Cost (fun e => A e ∨ B e) 3 fun e => e = (Flt.add (g.getD k Flt.zero *. a.getD i Flt.zero)
        (h.getD k Flt.zero *. d.getD i Flt.zero) : Expr) :=
      bin_cost .add (Cost.bin .mul (up (getD_avail hg k)) (up (getD_avail ha i)))
        (Cost.bin .mul (up (getD_avail hh k)) (up (getD_avail hd i)))
    by_cases hlt : t0 < len
    · have hnew : Cost (fun e => A e ∨ B e) 4 fun e => e = synV g h a d len t0 (m + 1) := by
        rw [synV]
        rw [if_pos ht0.symm]
        exact (bin_cost .add (at_hand (Or.inl (Or.inr ⟨t0, hlt, rfl⟩))) hsum).le (by omega)
      refine (ih.both hnew).weaken (by omega) ?_
      rintro e ⟨t, ht, rfl⟩
      by_cases h : t0 = t
      · subst h; exact Or.inr rfl
      · refine Or.inl ⟨t, ht, ?_⟩
        rw [synV]
        rw [if_neg h]
    · refine ih.weaken (by omega) ?_
      rintro e ⟨t, ht, rfl⟩
      refine ⟨t, ht, ?_⟩
      rw [synV]
      rw [if_neg (by rw [← ht0]; omega)]

/-- C111m. One level of synthesis with filters of `L` taps takes at most `4 L` operations per pair of coefficients. -/
theorem bank_inverse_operations (g h a d y : List Expr) (hg : g.length ≤ h.length) (hd : a.length ≤ d.length)
    (e : bankInverse g h a d = .ok y) :
    Cost (fun e => elems a e ∨ elems d e ∨ elems g e ∨ elems h e) (4 * (a.length * g.length)) (elems y) := by
  rw [bankInverse_ok g h a d hg hd] at e
  rw [← Outcome.ok.inj e]
  refine (synV_cost g h a d (a.length * 2) (fun e he => ?_) (fun e he => ?_) (fun e he => ?_) (fun e he => ?_)
    (a.length * g.length)).weaken le_rfl fun e he => elems_tab.1 he
  · exact Or.inl (Or.inr (Or.inr (Or.inl he)))
  · exact Or.inl (Or.inr (Or.inr (Or.inr he)))
  · exact Or.inl (Or.inl he)
  · exact Or.inl (Or.inr (Or.inl he))

/-- C111n. The db2 analysis of `n` samples takes at most `7 n` operations, the synthesis of `m` pairs `16 m`. -/
theorem db2_operations (x a d : List Expr) (e : db2Forward x = .ok (a, d)) :
    Cost (elems x) (7 * x.length) (fun e => elems a e ∨ elems d e) ∧
      ∀ y, db2Inverse a d = .ok y → Cost (fun e => elems a e ∨ elems d e) (16 * a.length) (elems y) := by
  rw [db2Forward_ok] at e
  obtain ⟨e1, e2⟩ := Prod.mk.inj (Outcome.ok.inj e)
  constructor
  · have c : ∀ f : List Expr, (∀ e ∈ f, Avail (elems x) [] e) → Cost (elems x) (x.length / 2 * 7) (fun e => ∃ i < x.length / 2,
        e = ((((f.getD 0 Flt.zero *. x.getD (mirIdx x.length ((2 * i : Nat) : Int)) Flt.zero) +.
          (f.getD 1 Flt.zero *. x.getD (mirIdx x.length ((2 * i + 1 : Nat) : Int)) Flt.zero)) +.
          (f.getD 2 Flt.zero *. x.getD (mirIdx x.length ((2 * i + 2 : Nat) : Int)) Flt.zero)) +.
          (f.getD 3 Flt.zero *. x.getD (mirIdx x.length ((2 * i + 3 : Nat) : Int)) Flt.zero))) := by
      intro f hf
      refine Cost.all fun i _ => ?_
      have m : ∀ k j, Cost (elems x) 1 fun e => e = (f.getD k Flt.zero *. x.getD j Flt.zero : Expr) := fun k j =>
        Cost.bin .mul (getD_avail hf k) (getD_avail (fun e he => Or.inl he) j)
      exact bin_cost .add (bin_cost .add (bin_cost .add (m _ _) (m _ _)) (m _ _)) (m _ _)
    rw [← e1, ← e2]
    refine ((c db2H ?_).union (c db2G ?_)).weaken (by omega) ?_
    · intro e he
      simp only [db2H, List.mem_cons, List.not_mem_nil, or_false] at he
      rcases he with rfl | rfl | rfl | rfl <;> exact avail_const
    · intro e he
      simp only [db2G, List.mem_cons, List.not_mem_nil, or_false] at he
      rcases he with rfl | rfl | rfl | rfl <;> exact avail_const
    · rintro e (he | he)
      · left; exact elems_tab.1 he
      · right; exact elems_tab.1 he
  · intro y ey
    have hl : a.length = d.length := by rw [← e1, ← e2, tab_length, tab_length]
    have := bank_inverse_operations db2H db2G a d y (by simp [db2H, db2G]) hl.le ey
    refine ((Cost.next (k := 0) (B := fun e => elems a e ∨ elems d e ∨ elems (db2H : List Expr) e ∨ elems (db2G : List Expr) e)
      (cost_has ?_) (this.more fun _ => Or.inr)).le ?_)
    · rintro e (he | he | he | he)
      · exact Or.inl (Or.inl he)
      · exact Or.inl (Or.inr he)
      · simp only [elems, db2H, List.mem_cons, List.not_mem_nil, or_false] at he
        rcases he with rfl | rfl | rfl | rfl <;> exact avail_const
      · simp only [elems, db2G, List.mem_cons, List.not_mem_nil, or_false] at he
        rcases he with rfl | rfl | rfl | rfl <;> exact avail_const
    · have : (db2H : List Expr).length = 4 := rfl
      rw [this]; omega

/-- One level of db2 on 1000 samples, and back: at most 7000 and 8000 operations. -/
example (x : List Expr) (hx : x.length = 1000) : ∃ a d y, db2Forward x = .ok (a, d) ∧ db2Inverse a d = .ok y ∧
    Cost (elems x) 7000 (fun e => elems a e ∨ elems d e) ∧ Cost (fun e => elems a e ∨ elems d e) 8000 (elems y) := by
  obtain ⟨a, d, e, ha, hd⟩ : ∃ a d, db2Forward x = .ok (a, d) ∧ a.length = 500 ∧ d.length = 500 :=
    ⟨_, _, db2Forward_ok x, by rw [tab_length, hx], by rw [tab_length, hx]⟩
  obtain ⟨h1, h2⟩ := db2_operations x a d e
  have h3 : db2Inverse a d = _ := bankInverse_ok db2H db2G a d (by simp [db2H, db2G]) (by omega)
  exact ⟨a, d, _, e, h3, h1.le (by omega), (h2 _ h3).le (by omega)⟩

end Kofft.Props
