import Verif.Proof.Cost
import Verif.Model.Kernels
/-
Operations of the fixed-size kernels.
-/
namespace Kofft
open Spec
variable [Formal] {L : List (Cx Expr)} {B C : Expr → Prop} {k : ℕ}

/-- Membership in an explicit list. -/
local macro "mem" : tactic =>
  `(tactic| (repeat (first | exact List.Mem.head _ | apply List.Mem.tail)))

omit [Formal] in
theorem has_parts {a : Cx Expr} (h : a ∈ L) : Hold (parts L) a := ⟨Or.inl ⟨a, h, Or.inl rfl⟩, Or.inl ⟨a, h, Or.inr rfl⟩⟩

omit [Formal] in
theorem parts_cons {c : Cx Expr} {e : Expr} : parts (c :: L) e ↔ Pt c e ∨ parts L e := by
  unfold parts Pt
  simp

omit [Formal] in
theorem kstep {c : Cx Expr} {m : ℕ} (hk : m ≤ k) (h : Cost (parts L) m (Pt c)) (h' : Cost (parts (c :: L)) (k - m) C) :
    Cost (parts L) k C :=
  (h.next (h'.more fun e he => (parts_cons.1 he).symm)).le (by omega)

theorem kadd {a b : Cx Expr} (hk : 2 ≤ k) (ha : a ∈ L) (hb : b ∈ L) (h : Cost (parts (a.add b :: L)) (k - 2) C) :
    Cost (parts L) k C := kstep hk (cost_add (has_parts ha) (has_parts hb)) h
theorem ksub {a b : Cx Expr} (hk : 2 ≤ k) (ha : a ∈ L) (hb : b ∈ L) (h : Cost (parts (a.sub b :: L)) (k - 2) C) :
    Cost (parts L) k C := kstep hk (cost_sub (has_parts ha) (has_parts hb)) h
theorem kmul {a b : Cx Expr} (hk : 6 ≤ k) (ha : a ∈ L) (hb : b ∈ L) (h : Cost (parts (a.mul b :: L)) (k - 6) C) :
    Cost (parts L) k C := kstep hk (cost_mul (has_parts ha) (has_parts hb)) h

omit [Formal] in
theorem kdone {ys : List (Cx Expr)} (h : ∀ y ∈ ys, y ∈ L) : Cost (parts L) k (parts ys) :=
  (Cost.given fun e ⟨c, hc, he⟩ => ⟨c, h c hc, he⟩).le (Nat.zero_le _)

/-- A constant or the negation of one. -/
def CostOne (e : Expr) : Prop := (∃ c, e = .const c) ∨ ∃ c, e = .un .neg (.const c)

omit [Formal] in
theorem cost_one {A : Expr → Prop} {e : Expr} (h : CostOne e) : Cost A 1 (fun x => x = e) := by
  rcases h with ⟨c, rfl⟩ | ⟨c, rfl⟩
  · exact (Cost.consts fun e he => ⟨c, he⟩).le (by omega)
  · exact Cost.un .neg (Or.inr (Or.inl ⟨c, rfl⟩))

omit [Formal] in
theorem kconst {a b : Expr} (hk : 2 ≤ k) (ha : CostOne a) (hb : CostOne b) (h : Cost (parts (⟨a, b⟩ :: L)) (k - 2) C) :
    Cost (parts L) k C := kstep hk ((cost_one ha).union (cost_one hb)) h

local macro "cst" : tactic => `(tactic| (first | exact Or.inl ⟨_, rfl⟩ | exact Or.inr ⟨_, rfl⟩))

theorem fft4_cost (debug : Bool) (x y : List (Cx Expr)) (h4 : x.length = 4) (h : fft4 debug x = .ok y) :
    Cost (parts x) 24 (parts y) := by
  match x, h4 with
  | [a0, a1, a2, a3], _ =>
  unfold fft4 at h
  simp only [List.isEmpty_nil, Bool.not_true, Bool.and_false, Bool.false_eq_true, if_false] at h
  obtain rfl := Outcome.ok.inj h
  refine kconst (a := .const .zero) (b := .un .neg (.const .one)) (by norm_num) (by cst) (by cst) ?_
  have e1 : (cxMinusI : Cx Expr) = ⟨.const .zero, .un .neg (.const .one)⟩ := rfl
  rw [e1]
  generalize (⟨.const .zero, .un .neg (.const .one)⟩ : Cx Expr) = w1
  refine kadd (a := a0) (b := a2) (by norm_num) (by mem) (by mem) ?_; generalize a0.add a2 = e0
  refine ksub (a := a0) (b := a2) (by norm_num) (by mem) (by mem) ?_; generalize a0.sub a2 = e1
  refine kadd (a := a1) (b := a3) (by norm_num) (by mem) (by mem) ?_; generalize a1.add a3 = o0
  refine ksub (a := a1) (b := a3) (by norm_num) (by mem) (by mem) ?_; generalize a1.sub a3 = o1
  refine kmul (a := o1) (b := w1) (by norm_num) (by mem) (by mem) ?_; generalize o1.mul w1 = t1
  refine kadd (a := e0) (b := o0) (by norm_num) (by mem) (by mem) ?_; generalize e0.add o0 = r0
  refine kadd (a := e1) (b := t1) (by norm_num) (by mem) (by mem) ?_; generalize e1.add t1 = r1
  refine ksub (a := e0) (b := o0) (by norm_num) (by mem) (by mem) ?_; generalize e0.sub o0 = r2
  refine ksub (a := e1) (b := t1) (by norm_num) (by mem) (by mem) ?_; generalize e1.sub t1 = r3
  exact kdone (by simp)

/-- The eight values of a half of the 16-point kernel. -/
def halfList (x0 x1 x2 x3 x4 x5 x6 x7 : Cx Expr) : List (Cx Expr) :=
  let r := fft16Half x0 x1 x2 x3 x4 x5 x6 x7
  [r.1, r.2.1, r.2.2.1, r.2.2.2.1, r.2.2.2.2.1, r.2.2.2.2.2.1, r.2.2.2.2.2.2.1, r.2.2.2.2.2.2.2]

theorem half_cost (x0 x1 x2 x3 x4 x5 x6 x7 : Cx Expr) :
    Cost (parts [x0, x1, x2, x3, x4, x5, x6, x7]) 84 (parts (halfList x0 x1 x2 x3 x4 x5 x6 x7)) := by
  unfold halfList fft16Half
  simp only []
  refine kconst (a := .const .zero) (b := .un .neg (.const .one)) (by norm_num) (by cst) (by cst) ?_
  have e1 : (cxMinusI : Cx Expr) = ⟨.const .zero, .un .neg (.const .one)⟩ := rfl
  rw [e1]
  refine kconst (a := Flt.sqrtHalf) (b := Flt.neg Flt.sqrtHalf) (by norm_num) (by cst) (by cst) ?_
  refine kconst (a := Flt.neg Flt.sqrtHalf) (b := Flt.neg Flt.sqrtHalf) (by norm_num) (by cst) (by cst) ?_
  generalize (⟨.const .zero, .un .neg (.const .one)⟩ : Cx Expr) = w1
  generalize (⟨Flt.sqrtHalf, Flt.neg Flt.sqrtHalf⟩ : Cx Expr) = z1
  generalize (⟨Flt.neg Flt.sqrtHalf, Flt.neg Flt.sqrtHalf⟩ : Cx Expr) = z3
  refine kadd (a := x0) (b := x4) (by norm_num) (by mem) (by mem) ?_; generalize x0.add x4 = a0
  refine ksub (a := x0) (b := x4) (by norm_num) (by mem) (by mem) ?_; generalize x0.sub x4 = a1
  refine kadd (a := x2) (b := x6) (by norm_num) (by mem) (by mem) ?_; generalize x2.add x6 = a2
  refine ksub (a := x2) (b := x6) (by norm_num) (by mem) (by mem) ?_; generalize x2.sub x6 = a3
  refine kmul (a := a3) (b := w1) (by norm_num) (by mem) (by mem) ?_; generalize a3.mul w1 = t
  refine kadd (a := a0) (b := a2) (by norm_num) (by mem) (by mem) ?_; generalize a0.add a2 = ea0
  refine ksub (a := a0) (b := a2) (by norm_num) (by mem) (by mem) ?_; generalize a0.sub a2 = ea2
  refine kadd (a := a1) (b := t) (by norm_num) (by mem) (by mem) ?_; generalize a1.add t = ea1
  refine ksub (a := a1) (b := t) (by norm_num) (by mem) (by mem) ?_; generalize a1.sub t = ea3
  refine kadd (a := x1) (b := x5) (by norm_num) (by mem) (by mem) ?_; generalize x1.add x5 = b0
  refine ksub (a := x1) (b := x5) (by norm_num) (by mem) (by mem) ?_; generalize x1.sub x5 = b1
  refine kadd (a := x3) (b := x7) (by norm_num) (by mem) (by mem) ?_; generalize x3.add x7 = b2
  refine ksub (a := x3) (b := x7) (by norm_num) (by mem) (by mem) ?_; generalize x3.sub x7 = b3
  refine kmul (a := b3) (b := w1) (by norm_num) (by mem) (by mem) ?_; generalize b3.mul w1 = u
  refine kadd (a := b0) (b := b2) (by norm_num) (by mem) (by mem) ?_; generalize b0.add b2 = eb0
  refine ksub (a := b0) (b := b2) (by norm_num) (by mem) (by mem) ?_; generalize b0.sub b2 = eb2
  refine kadd (a := b1) (b := u) (by norm_num) (by mem) (by mem) ?_; generalize b1.add u = eb1
  refine ksub (a := b1) (b := u) (by norm_num) (by mem) (by mem) ?_; generalize b1.sub u = eb3
  refine kmul (a := eb1) (b := z1) (by norm_num) (by mem) (by mem) ?_; generalize eb1.mul z1 = t1
  refine kmul (a := eb2) (b := w1) (by norm_num) (by mem) (by mem) ?_; generalize eb2.mul w1 = t2
  refine kmul (a := eb3) (b := z3) (by norm_num) (by mem) (by mem) ?_; generalize eb3.mul z3 = t3
  refine kadd (a := ea0) (b := eb0) (by norm_num) (by mem) (by mem) ?_; generalize ea0.add eb0 = r0
  refine kadd (a := ea1) (b := t1) (by norm_num) (by mem) (by mem) ?_; generalize ea1.add t1 = r1
  refine kadd (a := ea2) (b := t2) (by norm_num) (by mem) (by mem) ?_; generalize ea2.add t2 = r2
  refine kadd (a := ea3) (b := t3) (by norm_num) (by mem) (by mem) ?_; generalize ea3.add t3 = r3
  refine ksub (a := ea0) (b := eb0) (by norm_num) (by mem) (by mem) ?_; generalize ea0.sub eb0 = r4
  refine ksub (a := ea1) (b := t1) (by norm_num) (by mem) (by mem) ?_; generalize ea1.sub t1 = r5
  refine ksub (a := ea2) (b := t2) (by norm_num) (by mem) (by mem) ?_; generalize ea2.sub t2 = r6
  refine ksub (a := ea3) (b := t3) (by norm_num) (by mem) (by mem) ?_; generalize ea3.sub t3 = r7
  exact kdone (by simp)

theorem fft2_cost (debug : Bool) (x y : List (Cx Expr)) (h2 : x.length = 2) (h : fft2 debug x = .ok y) :
    Cost (parts x) 4 (parts y) := by
  match x, h2 with
  | [a, b], _ =>
  unfold fft2 at h
  simp only [List.isEmpty_nil, Bool.not_true, Bool.and_false, Bool.false_eq_true, if_false] at h
  obtain rfl := Outcome.ok.inj h
  refine kadd (a := a) (b := b) (by norm_num) (by mem) (by mem) ?_; generalize a.add b = r0
  refine ksub (a := a) (b := b) (by norm_num) (by mem) (by mem) ?_; generalize a.sub b = r1
  exact kdone (by simp)

theorem fft8_cost (debug : Bool) (x y : List (Cx Expr)) (h8 : x.length = 8) (h : fft8 debug x = .ok y) :
    Cost (parts x) 84 (parts y) := by
  match x, h8 with
  | [x0, x1, x2, x3, x4, x5, x6, x7], _ =>
  unfold fft8 at h
  simp only [List.isEmpty_nil, Bool.not_true, Bool.and_false, Bool.false_eq_true, if_false] at h
  obtain rfl := Outcome.ok.inj h
  exact half_cost x0 x1 x2 x3 x4 x5 x6 x7

omit [Formal] in
theorem parts_append {l l' : List (Cx Expr)} {e : Expr} : parts (l ++ l') e ↔ parts l e ∨ parts l' e := by
  unfold parts
  constructor
  · rintro ⟨c, hc, h⟩
    rcases List.mem_append.1 hc with hc | hc
    · exact Or.inl ⟨c, hc, h⟩
    · exact Or.inr ⟨c, hc, h⟩
  · rintro (⟨c, hc, h⟩ | ⟨c, hc, h⟩)
    · exact ⟨c, List.mem_append_left _ hc, h⟩
    · exact ⟨c, List.mem_append_right _ hc, h⟩

omit [Formal] in
theorem parts_sub {l l' : List (Cx Expr)} (h : ∀ c ∈ l, c ∈ l') (e : Expr) (he : parts l e) : parts l' e := by
  obtain ⟨c, hc, hx⟩ := he
  exact ⟨c, h c hc, hx⟩

omit [Formal] in
/-- One list of values after another. -/
theorem kseq {l : List (Cx Expr)} {m : ℕ} (hk : m ≤ k) (h : Cost (parts L) m (parts l))
    (h' : Cost (parts (l ++ L)) (k - m) C) : Cost (parts L) k C :=
  (h.next (h'.more fun e he => (parts_append.1 he).symm)).le (by omega)

theorem fft16_cost (debug : Bool) (x y : List (Cx Expr)) (h16 : x.length = 16) (h : fft16 debug x = .ok y) :
    Cost (parts x) 256 (parts y) := by
  match x, h16 with
  | [x0, x1, x2, x3, x4, x5, x6, x7, x8, x9, x10, x11, x12, x13, x14, x15], _ =>
  unfold fft16 at h
  simp only [List.isEmpty_nil, Bool.not_true, Bool.and_false, Bool.false_eq_true, if_false] at h
  have hE := half_cost x0 x2 x4 x6 x8 x10 x12 x14
  have hO := half_cost x1 x3 x5 x7 x9 x11 x13 x15
  unfold halfList at hE hO
  obtain rfl := Outcome.ok.inj h
  refine kseq (m := 84) (by norm_num) (hE.more (parts_sub (by simp))) ?_
  refine kseq (m := 84) (by norm_num) (hO.more (parts_sub (by simp))) ?_
  generalize fft16Half x0 x2 x4 x6 x8 x10 x12 x14 = e
  generalize fft16Half x1 x3 x5 x7 x9 x11 x13 x15 = o
  obtain ⟨e0, e1, e2, e3, e4, e5, e6, e7⟩ := e
  obtain ⟨j0, j1, j2, j3, j4, j5, j6, j7⟩ := o
  simp only [List.cons_append, List.nil_append]
  refine kconst (a := Flt.cosPi8) (b := Flt.neg Flt.sinPi8) (by norm_num) (by cst) (by cst) ?_
  refine kconst (a := Flt.sqrtHalf) (b := Flt.neg Flt.sqrtHalf) (by norm_num) (by cst) (by cst) ?_
  refine kconst (a := Flt.sinPi8) (b := Flt.neg Flt.cosPi8) (by norm_num) (by cst) (by cst) ?_
  refine kconst (a := Flt.zero) (b := Flt.neg Flt.one) (by norm_num) (by cst) (by cst) ?_
  refine kconst (a := Flt.neg Flt.sinPi8) (b := Flt.neg Flt.cosPi8) (by norm_num) (by cst) (by cst) ?_
  refine kconst (a := Flt.neg Flt.sqrtHalf) (b := Flt.neg Flt.sqrtHalf) (by norm_num) (by cst) (by cst) ?_
  refine kconst (a := Flt.neg Flt.cosPi8) (b := Flt.neg Flt.sinPi8) (by norm_num) (by cst) (by cst) ?_
  generalize (⟨Flt.cosPi8, Flt.neg Flt.sinPi8⟩ : Cx Expr) = v1
  generalize (⟨Flt.sqrtHalf, Flt.neg Flt.sqrtHalf⟩ : Cx Expr) = v2
  generalize (⟨Flt.sinPi8, Flt.neg Flt.cosPi8⟩ : Cx Expr) = v3
  generalize (⟨Flt.zero, Flt.neg Flt.one⟩ : Cx Expr) = v4
  generalize (⟨Flt.neg Flt.sinPi8, Flt.neg Flt.cosPi8⟩ : Cx Expr) = v5
  generalize (⟨Flt.neg Flt.sqrtHalf, Flt.neg Flt.sqrtHalf⟩ : Cx Expr) = v6
  generalize (⟨Flt.neg Flt.cosPi8, Flt.neg Flt.sinPi8⟩ : Cx Expr) = v7
  refine kmul (a := j1) (b := v1) (by norm_num) (by mem) (by mem) ?_; generalize j1.mul v1 = o1
  refine kmul (a := j2) (b := v2) (by norm_num) (by mem) (by mem) ?_; generalize j2.mul v2 = o2
  refine kmul (a := j3) (b := v3) (by norm_num) (by mem) (by mem) ?_; generalize j3.mul v3 = o3
  refine kmul (a := j4) (b := v4) (by norm_num) (by mem) (by mem) ?_; generalize j4.mul v4 = o4
  refine kmul (a := j5) (b := v5) (by norm_num) (by mem) (by mem) ?_; generalize j5.mul v5 = o5
  refine kmul (a := j6) (b := v6) (by norm_num) (by mem) (by mem) ?_; generalize j6.mul v6 = o6
  refine kmul (a := j7) (b := v7) (by norm_num) (by mem) (by mem) ?_; generalize j7.mul v7 = o7
  refine kadd (a := e0) (b := j0) (by norm_num) (by mem) (by mem) ?_; generalize e0.add j0 = r0
  refine kadd (a := e1) (b := o1) (by norm_num) (by mem) (by mem) ?_; generalize e1.add o1 = r1
  refine kadd (a := e2) (b := o2) (by norm_num) (by mem) (by mem) ?_; generalize e2.add o2 = r2
  refine kadd (a := e3) (b := o3) (by norm_num) (by mem) (by mem) ?_; generalize e3.add o3 = r3
  refine kadd (a := e4) (b := o4) (by norm_num) (by mem) (by mem) ?_; generalize e4.add o4 = r4
  refine kadd (a := e5) (b := o5) (by norm_num) (by mem) (by mem) ?_; generalize e5.add o5 = r5
  refine kadd (a := e6) (b := o6) (by norm_num) (by mem) (by mem) ?_; generalize e6.add o6 = r6
  refine kadd (a := e7) (b := o7) (by norm_num) (by mem) (by mem) ?_; generalize e7.add o7 = r7
  refine ksub (a := e0) (b := j0) (by norm_num) (by mem) (by mem) ?_; generalize e0.sub j0 = q0
  refine ksub (a := e1) (b := o1) (by norm_num) (by mem) (by mem) ?_; generalize e1.sub o1 = q1
  refine ksub (a := e2) (b := o2) (by norm_num) (by mem) (by mem) ?_; generalize e2.sub o2 = q2
  refine ksub (a := e3) (b := o3) (by norm_num) (by mem) (by mem) ?_; generalize e3.sub o3 = q3
  refine ksub (a := e4) (b := o4) (by norm_num) (by mem) (by mem) ?_; generalize e4.sub o4 = q4
  refine ksub (a := e5) (b := o5) (by norm_num) (by mem) (by mem) ?_; generalize e5.sub o5 = q5
  refine ksub (a := e6) (b := o6) (by norm_num) (by mem) (by mem) ?_; generalize e6.sub o6 = q6
  refine ksub (a := e7) (b := o7) (by norm_num) (by mem) (by mem) ?_; generalize e7.sub o7 = q7
  exact kdone (by simp)

end Kofft
