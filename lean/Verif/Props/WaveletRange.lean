import Verif.Proof.RangeTrig
import Verif.Proof.Wavelet
import Verif.Props.RangeCepstrum
/-
Property C107: the wavelet coefficients of finite data of moderate size are finite, in arithmetic with a bounded exponent
range.
-/
namespace Kofft.Props
open Spec

variable {T : Type} [F : Flt T] {N : Denote T} {u η Ω v t : ℝ}

theorem bd_getD (hF : Ieee F N u η Ω v t) {x : List T} {M : ℝ} (hM : 0 ≤ M)
    (hx : ∀ a ∈ x, N.fin a ∧ |N.val a| ≤ M) (i : ℕ) : Bd N (x.getD i Flt.zero) M := by
  by_cases h : i < x.length
  · have e : x.getD i Flt.zero = x[i] := by simp [h]
    rw [e]; exact hx _ (List.getElem_mem h)
  · have e : x.getD i Flt.zero = Flt.zero := by simp [Nat.le_of_not_lt h]
    rw [e]; exact ⟨hF.zero.1, by rw [hF.zero.2, abs_zero]; exact hM⟩

theorem bd_sub (h : Ieee F N u η Ω v t) {a b : T} {A B : ℝ} (ha : Bd N a A) (hb : Bd N b B) (hΩ : A + B ≤ Ω) :
    Bd N (a -. b) ((1 + u) * (A + B)) := by
  have h1 : |N.val a - N.val b| ≤ A + B := (abs_sub _ _).trans (add_le_add ha.2 hb.2)
  obtain ⟨r1, r2⟩ := h.sub a b ha.1 hb.1 (h1.trans hΩ)
  refine ⟨r1, (abs_of_err r2).trans ?_⟩
  have := mul_le_mul_of_nonneg_left h1 h.u_nonneg
  linarith

theorem bd_half (h : Ieee F N u η Ω v t) {a : T} {A : ℝ} (ha : Bd N a A) (hΩ : A / 2 ≤ Ω) :
    Bd N (a /. two) ((1 + u) * (A / 2) + η) := by
  have h2 : N.val (two : T) = 2 := h.two.2
  have h1 : |N.val a / N.val (two : T)| ≤ A / 2 := by
    rw [h2, abs_div, abs_of_pos (by norm_num : (0 : ℝ) < 2)]
    exact div_le_div_of_nonneg_right ha.2 (by norm_num)
  obtain ⟨r1, r2⟩ := h.div a two ha.1 h.two.1 (by rw [h2]; norm_num) (h1.trans hΩ)
  refine ⟨r1, (abs_of_err r2).trans ?_⟩
  have := mul_le_mul_of_nonneg_left h1 h.u_nonneg
  linarith

/-- A product with a filter tap. -/
theorem bd_tap (h : Ieee F N u η Ω v t) {a b : T} {M : ℝ} (ha : Bd N a 1) (hb : Bd N b M) (hΩ : M ≤ Ω) :
    Bd N (a *. b) ((1 + u) * M + η) := by
  have h1 : |N.val a * N.val b| ≤ M := by
    rw [abs_mul]
    calc _ ≤ 1 * M := mul_le_mul ha.2 hb.2 (abs_nonneg _) (by norm_num)
      _ = M := one_mul M
  obtain ⟨r1, r2⟩ := h.mul a b ha.1 hb.1 (h1.trans hΩ)
  refine ⟨r1, (abs_of_err r2).trans ?_⟩
  have := mul_le_mul_of_nonneg_left h1 h.u_nonneg
  linarith

theorem bd_accS (h : Ieee F N u η Ω v t) {init : T} {f : ℕ → T} {A C : ℝ} (K : ℕ) (hi : Bd N init A)
    (hf : ∀ k, k < K → Bd N (f k) C) (hC : 0 ≤ C) (hΩ : (1 + u) ^ K * (A + K * C) ≤ Ω) (k : ℕ) (hk : k ≤ K) :
    Bd N (accS init f k) ((1 + u) ^ k * (A + k * C)) := by
  have hu := h.u_nonneg
  have hA := hi.nonneg
  induction k with
  | zero => simpa [accS] using hi
  | succ k ih =>
    have h1 : 1 ≤ (1 + u) ^ k := one_le_pow₀ (by linarith)
    have hstep : (1 + u) ^ k * (A + k * C) + C ≤ (1 + u) ^ k * (A + (k + 1 : ℕ) * C) := by
      push_cast
      nlinarith
    have hle : (1 + u) ^ k * (A + (k + 1 : ℕ) * C) ≤ (1 + u) ^ K * (A + K * C) := by
      refine mul_le_mul (pow_le_pow_right₀ (by linarith) (by omega)) ?_ (by positivity) (by positivity)
      have : ((k + 1 : ℕ) : ℝ) ≤ K := by exact_mod_cast hk
      have := mul_le_mul_of_nonneg_right this hC
      linarith
    rw [accS]
    refine (bd_add h (ih (by omega)) (hf k (by omega)) (hstep.trans (hle.trans hΩ))).mono ?_
    rw [pow_succ, mul_comm ((1 + u) ^ k) (1 + u), mul_assoc]
    exact mul_le_mul_of_nonneg_left hstep (by linarith)

theorem tab_all {n : ℕ} {f : ℕ → T} {P : T → Prop} (h : ∀ i, i < n → P (f i)) : ∀ a ∈ tab n f, P a := by
  intro a ha
  obtain ⟨k, hk, rfl⟩ := List.mem_iff_getElem.mp ha
  rw [tab_getElem]
  exact h k (by simpa using hk)

/-- C107i. Haar analysis of finite samples of magnitude at most `M`, `2 M ≤ Ω`: all averages and differences are
finite, and at most `(1+u)² M + η`. -/
theorem haar_finite (hF : Ieee F N u η Ω v t) (hu : u ≤ 1) (x : List T) (M : ℝ) (hM : 0 ≤ M)
    (hx : ∀ a ∈ x, N.fin a ∧ |N.val a| ≤ M) (hΩ : 2 * M ≤ Ω) :
    ∃ a d, haarForward x = .ok (a, d) ∧ a.length = x.length / 2 ∧ d.length = x.length / 2 ∧
      ∀ y ∈ a ++ d, N.fin y ∧ |N.val y| ≤ (1 + u) ^ 2 * M + η := by
  have hg := fun i => bd_getD hF hM hx i
  have hle : (1 + u) * (M + M) / 2 ≤ Ω := by nlinarith
  refine ⟨_, _, haarForward_ok x, by simp, by simp, ?_⟩
  intro y hy
  rcases List.mem_append.mp hy with hy | hy
  · refine tab_all (P := fun y => Bd N y ((1 + u) ^ 2 * M + η)) (fun i _ => ?_) y hy
    exact (bd_half hF (bd_add hF (hg _) (hg _) (by linarith)) hle).mono (le_of_eq (by ring))
  · refine tab_all (P := fun y => Bd N y ((1 + u) ^ 2 * M + η)) (fun i _ => ?_) y hy
    exact (bd_half hF (bd_sub hF (hg _) (hg _) (by linarith)) hle).mono (le_of_eq (by ring))

/-- C107j. Haar synthesis of finite coefficients of magnitude at most `M`, `2 M ≤ Ω`: all samples are finite, and at
most `2 (1+u) M`. -/
theorem haar_inverse_finite (hF : Ieee F N u η Ω v t) (a d : List T) (had : a.length ≤ d.length) (M : ℝ) (hM : 0 ≤ M)
    (hx : ∀ y ∈ a ++ d, N.fin y ∧ |N.val y| ≤ M) (hΩ : 2 * M ≤ Ω) :
    ∃ x, haarInverse a d = .ok x ∧ x.length = 2 * a.length ∧ ∀ y ∈ x, N.fin y ∧ |N.val y| ≤ (1 + u) * (2 * M) := by
  have ha := fun i => bd_getD hF hM (fun y hy => hx y (List.mem_append_left _ hy)) i
  have hd := fun i => bd_getD hF hM (fun y hy => hx y (List.mem_append_right _ hy)) i
  refine ⟨_, haarInverse_ok a d had, by simp, ?_⟩
  refine tab_all (P := fun y => Bd N y ((1 + u) * (2 * M))) (fun i _ => ?_)
  unfold haarSyn
  split
  · exact (bd_add hF (ha _) (hd _) (by linarith)).mono (le_of_eq (by ring))
  · exact (bd_sub hF (ha _) (hd _) (by linarith)).mono (le_of_eq (by ring))

/-- C107k. The analysis filter banks (db4, sym4, coif1) with finite taps of magnitude at most one, on finite samples of
magnitude at most `M`: all coefficients are finite, and at most `(1+u)^k k ((1+u) M + η)` for `k` taps. -/
theorem bank_finite (hF : Ieee F N u η Ω v t) (x : List T) (M : ℝ) (hM : 0 ≤ M)
    (hx : ∀ a ∈ x, N.fin a ∧ |N.val a| ≤ M) (hMΩ : M ≤ Ω)
    (h g : List T) (forward : List T → Outcome (List T × List T))
    (hfw : (h, g, forward) ∈ [(db4H, db4G, db4Forward), (sym4H, sym4G, sym4Forward), (coif1H, coif1G, coif1Forward)])
    (htaps : ∀ c ∈ h ++ g, N.fin c ∧ |N.val c| ≤ 1)
    (hΩ : (1 + u) ^ h.length * (h.length * ((1 + u) * M + η)) ≤ Ω) :
    ∃ a d, forward x = .ok (a, d) ∧ a.length = x.length / 2 ∧ d.length = x.length / 2 ∧
      ∀ y ∈ a ++ d, N.fin y ∧ |N.val y| ≤ (1 + u) ^ h.length * (h.length * ((1 + u) * M + η)) := by
  have hu := hF.u_nonneg
  have hη := hF.eta_nonneg
  have hC : 0 ≤ (1 + u) * M + η := by positivity
  have hh := fun i => bd_getD hF zero_le_one (fun y hy => htaps y (List.mem_append_left _ hy)) i
  have hgg := fun i => bd_getD hF zero_le_one (fun y hy => htaps y (List.mem_append_right _ hy)) i
  have hs := fun i => bd_getD hF hM hx i
  have e : forward x = bankForward h g x ∧ h.length ≤ g.length := by
    simp only [List.mem_cons, List.not_mem_nil, or_false, Prod.mk.injEq] at hfw
    rcases hfw with ⟨rfl, rfl, rfl⟩ | ⟨rfl, rfl, rfl⟩ | ⟨rfl, rfl, rfl⟩ <;> exact ⟨rfl, le_rfl⟩
  have h0 : Bd N (Flt.zero : T) 0 := ⟨hF.zero.1, by rw [hF.zero.2, abs_zero]⟩
  rw [e.1]
  refine ⟨_, _, bankForward_ok h g x e.2, by simp, by simp, ?_⟩
  intro y hy
  rcases List.mem_append.mp hy with hy | hy
  · refine tab_all (P := fun y => Bd N y ((1 + u) ^ h.length * (h.length * ((1 + u) * M + η)))) (fun i _ => ?_) y hy
    exact (bd_accS hF h.length h0 (fun k _ => bd_tap hF (hh k) (hs _) hMΩ) hC (by rw [zero_add]; exact hΩ) _ le_rfl).mono
      (le_of_eq (by rw [zero_add]))
  · refine tab_all (P := fun y => Bd N y ((1 + u) ^ h.length * (h.length * ((1 + u) * M + η)))) (fun i _ => ?_) y hy
    exact (bd_accS hF h.length h0 (fun k _ => bd_tap hF (hgg k) (hs _) hMΩ) hC (by rw [zero_add]; exact hΩ) _ le_rfl).mono
      (le_of_eq (by rw [zero_add]))

/-- C107l. db2 analysis with finite taps of magnitude at most one, on finite samples of magnitude at most `M`: all
coefficients are finite, and at most `4 (1+u)³ ((1+u) M + η)`. -/
theorem db2_finite (hF : Ieee F N u η Ω v t) (x : List T) (M : ℝ) (hM : 0 ≤ M)
    (hx : ∀ a ∈ x, N.fin a ∧ |N.val a| ≤ M) (hMΩ : M ≤ Ω)
    (htaps : ∀ c ∈ (db2H ++ db2G : List T), N.fin c ∧ |N.val c| ≤ 1)
    (hΩ : (1 + u) ^ 3 * (4 * ((1 + u) * M + η)) ≤ Ω) :
    ∃ a d, db2Forward x = .ok (a, d) ∧ a.length = x.length / 2 ∧ d.length = x.length / 2 ∧
      ∀ y ∈ a ++ d, N.fin y ∧ |N.val y| ≤ (1 + u) ^ 3 * (4 * ((1 + u) * M + η)) := by
  have hu := hF.u_nonneg
  have hη := hF.eta_nonneg
  have hC : 0 ≤ (1 + u) * M + η := by positivity
  have hs := fun i => bd_getD hF hM hx i
  have key : ∀ (c : List T), (∀ i, Bd N (c.getD i Flt.zero) 1) → ∀ i0 i1 i2 i3,
      Bd N (((((c.getD 0 Flt.zero *. x.getD i0 Flt.zero) +. (c.getD 1 Flt.zero *. x.getD i1 Flt.zero)) +.
        (c.getD 2 Flt.zero *. x.getD i2 Flt.zero)) +. (c.getD 3 Flt.zero *. x.getD i3 Flt.zero)))
        ((1 + u) ^ 3 * (4 * ((1 + u) * M + η))) := by
    intro c hc i0 i1 i2 i3
    have e : (1 + u) ^ 3 * ((1 + u) * M + η + (3 : ℕ) * ((1 + u) * M + η)) = (1 + u) ^ 3 * (4 * ((1 + u) * M + η)) := by
      push_cast; ring
    have := bd_accS hF (init := c.getD 0 Flt.zero *. x.getD i0 Flt.zero)
      (f := fun k => c.getD (k + 1) Flt.zero *. x.getD (if k = 0 then i1 else if k = 1 then i2 else i3) Flt.zero) 3
      (bd_tap hF (hc 0) (hs _) hMΩ) (fun k _ => bd_tap hF (hc _) (hs _) hMΩ) hC (e.trans_le hΩ) 3 le_rfl
    rw [e] at this
    exact this
  refine ⟨_, _, db2Forward_ok x, by simp, by simp, ?_⟩
  intro y hy
  rcases List.mem_append.mp hy with hy | hy
  · exact tab_all (P := fun y => Bd N y ((1 + u) ^ 3 * (4 * ((1 + u) * M + η))))
      (fun i _ => key db2H (fun i => bd_getD hF zero_le_one (fun y hy => htaps y (List.mem_append_left _ hy)) i) _ _ _ _) y hy
  · exact tab_all (P := fun y => Bd N y ((1 + u) ^ 3 * (4 * ((1 + u) * M + η))))
      (fun i _ => key db2G (fun i => bd_getD hF zero_le_one (fun y hy => htaps y (List.mem_append_right _ hy)) i) _ _ _ _) y hy

/-- C107n. The synthesis filter banks (db2, db4, sym4, coif1) with finite taps of magnitude at most one, on finite
coefficients of magnitude at most `M`: all samples are finite. `K` is the number of coefficient pairs times the number of
taps; the bound counts every term as if it went to the same sample. -/
theorem bank_inverse_finite (hF : Ieee F N u η Ω v t) (a d : List T) (had : a.length ≤ d.length) (M : ℝ) (hM : 0 ≤ M)
    (hx : ∀ y ∈ a ++ d, N.fin y ∧ |N.val y| ≤ M)
    (g h : List T) (inverse : List T → List T → Outcome (List T))
    (hinv : (g, h, inverse) ∈ [(db2H, db2G, db2Inverse), (db4SG, db4SH, db4Inverse), (sym4SG, sym4SH, sym4Inverse),
      (coif1SG, coif1SH, coif1Inverse)])
    (htaps : ∀ c ∈ g ++ h, N.fin c ∧ |N.val c| ≤ 1) (K : ℕ) (hK : a.length * g.length = K)
    (hMΩ : 2 * ((1 + u) * M + η) ≤ Ω) (hΩ : (1 + u) ^ K * (K * ((1 + u) * (2 * ((1 + u) * M + η)))) ≤ Ω) :
    ∃ x, inverse a d = .ok x ∧ x.length = 2 * a.length ∧
      ∀ y ∈ x, N.fin y ∧ |N.val y| ≤ (1 + u) ^ K * (K * ((1 + u) * (2 * ((1 + u) * M + η)))) := by
  have hu := hF.u_nonneg
  have hη := hF.eta_nonneg
  have huM : 0 ≤ u * M := by positivity
  have hgt := fun i => bd_getD hF zero_le_one (fun y hy => htaps y (List.mem_append_left _ hy)) i
  have hht := fun i => bd_getD hF zero_le_one (fun y hy => htaps y (List.mem_append_right _ hy)) i
  have ha := fun i => bd_getD hF hM (fun y hy => hx y (List.mem_append_left _ hy)) i
  have hd := fun i => bd_getD hF hM (fun y hy => hx y (List.mem_append_right _ hy)) i
  have e : inverse a d = bankInverse g h a d ∧ g.length ≤ h.length := by
    simp only [List.mem_cons, List.not_mem_nil, or_false, Prod.mk.injEq] at hinv
    rcases hinv with ⟨rfl, rfl, rfl⟩ | ⟨rfl, rfl, rfl⟩ | ⟨rfl, rfl, rfl⟩ | ⟨rfl, rfl, rfl⟩ <;> exact ⟨rfl, le_rfl⟩
  set C := (1 + u) * (2 * ((1 + u) * M + η)) with hC
  have hC0 : 0 ≤ C := by positivity
  have term : ∀ k i, Bd N ((g.getD k Flt.zero *. a.getD i Flt.zero) +. (h.getD k Flt.zero *. d.getD i Flt.zero)) C := by
    intro k i
    have hMM : M ≤ Ω := by nlinarith
    exact (bd_add hF (bd_tap hF (hgt k) (ha i) hMM) (bd_tap hF (hht k) (hd i) hMM) (by linarith)).mono
      (le_of_eq (by rw [hC]; ring))
  have syn : ∀ s m, m ≤ K → Bd N (synV g h a d (a.length * 2) s m) ((1 + u) ^ m * (m * C)) := by
    intro s m
    induction m with
    | zero => intro _; exact ⟨hF.zero.1, by simp only [synV]; rw [hF.zero.2, abs_zero]; simp⟩
    | succ m ih =>
      intro hm
      have h1 : 1 ≤ (1 + u) ^ m := one_le_pow₀ (by linarith)
      have hstep : (1 + u) ^ m * (m * C) + C ≤ (1 + u) ^ m * ((m + 1 : ℕ) * C) := by
        push_cast; nlinarith
      have hle : (1 + u) ^ m * ((m + 1 : ℕ) * C) ≤ (1 + u) ^ K * (K * C) := by
        refine mul_le_mul (pow_le_pow_right₀ (by linarith) (by omega)) ?_ (by positivity) (by positivity)
        exact mul_le_mul_of_nonneg_right (by exact_mod_cast hm) hC0
      have hnext : (1 + u) * ((1 + u) ^ m * (m * C) + C) ≤ (1 + u) ^ (m + 1) * ((m + 1 : ℕ) * C) := by
        rw [pow_succ, mul_comm ((1 + u) ^ m) (1 + u), mul_assoc]
        exact mul_le_mul_of_nonneg_left hstep (by linarith)
      have hp := ih (by omega)
      rw [synV]
      split
      · exact (bd_add hF hp (term _ _) (hstep.trans (hle.trans hΩ))).mono hnext
      · refine hp.mono (le_trans ?_ hnext)
        have := hp.nonneg
        nlinarith
  rw [e.1, bankInverse_ok g h a d e.2 had, hK]
  exact ⟨_, rfl, by simp [Nat.mul_comm], tab_all (P := fun y => Bd N y ((1 + u) ^ K * (K * C))) fun i _ => syn i K le_rfl⟩

/-- Several levels of an analysis that turns samples of magnitude `M ≤ R` into coefficients of magnitude `G M + E`. -/
theorem multi_bd (forward : List T → Outcome (List T × List T)) (G E R : ℝ) (hG : 1 ≤ G) (hE : 0 ≤ E)
    (hf : ∀ (x : List T) (M : ℝ), 0 ≤ M → M ≤ R → (∀ a ∈ x, Bd N a M) →
      ∃ a d, forward x = .ok (a, d) ∧ ∀ y ∈ a ++ d, Bd N y (G * M + E)) :
    ∀ (levels : ℕ) (x : List T) (M : ℝ), 0 ≤ M → (∀ a ∈ x, Bd N a M) → G ^ levels * (M + levels * E) ≤ R →
      ∃ cur ds, multiForward forward levels x = .ok (cur, ds) ∧ ds.length = levels ∧
        (∀ y ∈ cur, Bd N y (G ^ levels * (M + levels * E))) ∧
        ∀ d ∈ ds, ∀ y ∈ d, Bd N y (G ^ levels * (M + levels * E))
  | 0, x, M, hM, hx, hR => by
    refine ⟨x, [], rfl, rfl, fun y hy => (hx y hy).mono (by simp), by simp⟩
  | l + 1, x, M, hM, hx, hR => by
    have hGl : 1 ≤ G ^ l := one_le_pow₀ hG
    have hG0 : 0 ≤ G := by linarith
    have hl0 : (0 : ℝ) ≤ l := Nat.cast_nonneg l
    have hlE : 0 ≤ (l : ℝ) * E := mul_nonneg hl0 hE
    have hle : G ^ l * (G * M + E + l * E) ≤ G ^ (l + 1) * (M + (l + 1 : ℕ) * E) := by
      rw [pow_succ, mul_assoc]
      refine mul_le_mul_of_nonneg_left ?_ (by linarith)
      push_cast
      nlinarith
    have hM1 : 0 ≤ G * M + E := by positivity
    have hfirst : G * M + E ≤ G ^ l * (G * M + E + l * E) :=
      (le_mul_of_one_le_left hM1 hGl).trans (mul_le_mul_of_nonneg_left (by linarith) (by linarith))
    have hMR : M ≤ R := by
      have : M ≤ G * M + E := by nlinarith
      linarith
    have hp : ∀ a ∈ padEven x, Bd N a M := by
      unfold padEven
      split
      · cases hl : x.getLast? with
        | none => exact hx
        | some last =>
          intro a ha
          rcases List.mem_append.mp ha with ha | ha
          · exact hx a ha
          · rw [List.mem_singleton.mp ha]; exact hx _ (List.mem_of_getLast? hl)
      · exact hx
    obtain ⟨a, d, e1, e2⟩ := hf (padEven x) M hM hMR hp
    obtain ⟨cur, ds, r1, r2, r3, r4⟩ := multi_bd forward G E R hG hE hf l a (G * M + E) hM1
      (fun y hy => e2 y (List.mem_append_left _ hy)) (hle.trans hR)
    refine ⟨cur, d :: ds, ?_, by simp [r2], fun y hy => (r3 y hy).mono hle, ?_⟩
    · rw [multiForward, e1, Outcome.bind_ok]
      simp only [r1, Outcome.bind_ok, Outcome.pure_eq]
    · intro d' hd' y hy
      rcases List.mem_cons.mp hd' with rfl | hd'
      · exact (e2 y (List.mem_append_right _ hy)).mono (hfirst.trans hle)
      · exact (r4 d' hd' y hy).mono hle

/-- C107p. Haar analysis over several levels: all coefficients are finite, and at most `(1+u)^(2 levels) (M + levels η)`,
when twice that is at most `Ω`. -/
theorem haar_multi_finite (hF : Ieee F N u η Ω v t) (hu : u ≤ 1) (levels : ℕ) (x : List T) (M : ℝ) (hM : 0 ≤ M)
    (hx : ∀ a ∈ x, N.fin a ∧ |N.val a| ≤ M) (hΩ : 2 * (((1 + u) ^ 2) ^ levels * (M + levels * η)) ≤ Ω) :
    ∃ cur ds, multiForward haarForward levels x = .ok (cur, ds) ∧ ds.length = levels ∧
      ∀ c ∈ cur :: ds, ∀ y ∈ c, N.fin y ∧ |N.val y| ≤ ((1 + u) ^ 2) ^ levels * (M + levels * η) := by
  have hu0 := hF.u_nonneg
  obtain ⟨cur, ds, e1, e2, e3, e4⟩ := multi_bd (N := N) haarForward ((1 + u) ^ 2) η (Ω / 2) (one_le_pow₀ (by linarith))
    hF.eta_nonneg (fun x M hM hR hx => by
      obtain ⟨a, d, h1, -, -, h4⟩ := haar_finite hF hu x M hM hx (by linarith)
      exact ⟨a, d, h1, h4⟩) levels x M hM hx (by linarith)
  refine ⟨cur, ds, e1, e2, fun c hc => ?_⟩
  rcases List.mem_cons.mp hc with rfl | hc
  · exact e3
  · exact e4 c hc

theorem haar_fold_bd (hF : Ieee F N u η Ω v t) : ∀ (ds : List (List T)) (cur y : List T) (M : ℝ), 0 ≤ M →
    (∀ a ∈ cur, Bd N a M) → (∀ d ∈ ds, ∀ a ∈ d, Bd N a M) → (2 * (1 + u)) ^ ds.length * M ≤ Ω →
    ds.foldlM (fun cur d => haarInverse cur d) cur = .ok y → ∀ a ∈ y, Bd N a ((2 * (1 + u)) ^ ds.length * M)
  | [], cur, y, M, hM, hc, hd, hΩ, e => by
    obtain rfl : cur = y := by simpa using e
    intro a ha
    exact (hc a ha).mono (by simp)
  | d :: ds, cur, y, M, hM, hc, hd, hΩ, e => by
    have hu := hF.u_nonneg
    have hg : 1 ≤ 2 * (1 + u) := by linarith
    have hgl : 1 ≤ (2 * (1 + u)) ^ ds.length := one_le_pow₀ hg
    have hpow : (2 * (1 + u)) ^ (d :: ds).length * M = (2 * (1 + u)) ^ ds.length * (2 * (1 + u) * M) := by
      rw [List.length_cons, pow_succ, mul_assoc]
    have hM1 : M ≤ 2 * (1 + u) * M := le_mul_of_one_le_left hM hg
    have h2M : 2 * M ≤ Ω := by
      have h1 : 2 * M ≤ 2 * (1 + u) * M := by nlinarith
      have h2 : 2 * (1 + u) * M ≤ (2 * (1 + u)) ^ ds.length * (2 * (1 + u) * M) :=
        le_mul_of_one_le_left (by positivity) hgl
      rw [hpow] at hΩ
      linarith
    rw [List.foldlM_cons] at e
    have had : cur.length ≤ d.length := by
      by_contra hlt
      rw [haarInverse_panic cur d (by omega)] at e
      simp [bind, Outcome.bind] at e
    obtain ⟨z, z1, -, z3⟩ := haar_inverse_finite hF cur d had M hM (fun y hy => by
      rcases List.mem_append.mp hy with hy | hy
      · exact hc y hy
      · exact hd d (by simp) y hy) h2M
    rw [z1, Outcome.bind_ok] at e
    rw [hpow] at hΩ ⊢
    refine haar_fold_bd hF ds z y (2 * (1 + u) * M) (by positivity) (fun a ha => Bd.mono (N := N) (z3 a ha) (le_of_eq (by ring)))
      (fun d' hd' a ha => (hd d' (by simp [hd']) a ha).mono hM1) hΩ e

/-- C107r. Haar synthesis over several levels from finite coefficients of magnitude at most `M`: if it returns, all samples
are finite, and at most `(2 (1+u))^levels M`, when this is at most `Ω`. -/
theorem haar_multi_inverse_finite (hF : Ieee F N u η Ω v t) (cur y : List T) (ds : List (List T)) (M : ℝ) (hM : 0 ≤ M)
    (hx : ∀ c ∈ cur :: ds, ∀ a ∈ c, N.fin a ∧ |N.val a| ≤ M) (hΩ : (2 * (1 + u)) ^ ds.length * M ≤ Ω)
    (e : multiInverse haarInverse cur ds = .ok y) :
    ∀ a ∈ y, N.fin a ∧ |N.val a| ≤ (2 * (1 + u)) ^ ds.length * M := by
  have := haar_fold_bd hF ds.reverse cur y M hM (hx cur (by simp))
    (fun d hd a ha => hx d (List.mem_cons_of_mem _ (List.mem_reverse.mp hd)) a ha) (by simpa using hΩ) e
  simpa [Bd] using this

omit F in
theorem bin_tap (q : ℤ) (hq : q ≤ -20) (p : ℕ) (hp : 11 ≤ p) (r : ℕ) (Ω : ℝ) (fused fma : Bool) (m : ℤ) (e : ℕ)
    (hm : |(m : ℝ) / 10 ^ e| ≤ 9 / 10) :
    (binDen q).fin ((binFlt p r q Ω fused fma).lit m e) ∧ |(binDen q).val ((binFlt p r q Ω fused fma).lit m e)| ≤ 1 := by
  refine ⟨⟨_, rfl, onGrid_grd _ _ _⟩, ?_⟩
  show |grd p q ((m : ℝ) / 10 ^ e)| ≤ 1
  have h1 := grd_close p q ((m : ℝ) / 10 ^ e)
  have h2 : (1 : ℝ) / 2 ^ p ≤ 1 / 2 ^ 11 := one_div_le_one_div_of_le (by norm_num) (pow_le_pow_right₀ (by norm_num) hp)
  have h3 : (2 : ℝ) ^ (q - 1) ≤ 2 ^ (-20 : ℤ) := zpow_le_zpow_right₀ (by norm_num) (by omega)
  have h4 : (2 : ℝ) ^ (-20 : ℤ) ≤ 1 / 100 := by norm_num
  have h5 : 1 / 2 ^ p * |(m : ℝ) / 10 ^ e| ≤ 1 / 2 ^ 11 * (9 / 10) :=
    mul_le_mul h2 hm (abs_nonneg _) (by norm_num)
  have h6 : (1 : ℝ) / 2 ^ 11 * (9 / 10) ≤ 1 / 100 := by norm_num
  exact (abs_of_err h1).trans ((add_le_add hm (add_le_add (h5.trans h6) (h3.trans h4))).trans (by norm_num))

omit F in
/-- One level of analysis in binary32: the coefficients are at most `9 M + 1`. -/
theorem bin_forward (fused fma : Bool) (x : List (Option ℝ)) (M : ℝ) (hM : 0 ≤ M) (hM' : M ≤ 2 ^ 124)
    (hx : ∀ a ∈ x, (binDen (-149)).fin a ∧ |(binDen (-149)).val a| ≤ M) :
    let _ := binFlt 24 24 (-149) (2 ^ 128 - 2 ^ 104) fused fma
    ∀ f ∈ [haarForward, db2Forward, db4Forward, sym4Forward, coif1Forward],
      ∃ a d, f x = .ok (a, d) ∧ a.length = x.length / 2 ∧ d.length = x.length / 2 ∧
        ∀ y ∈ a ++ d, Bd (binDen (-149)) y (9 * M + 1) := by
  intro F f hf
  have hF : Ieee F (binDen (-149)) (1 / 2 ^ 24) (1 / 2 ^ 150) (2 ^ 128 - 2 ^ 104) (1 / 2 ^ 24) (1 / 2 ^ 23) :=
    binary32 fused fma
  have tap : ∀ (m : ℤ) (e : ℕ), |(m : ℝ) / 10 ^ e| ≤ 9 / 10 → (binDen (-149)).fin (F.lit m e) ∧
      |(binDen (-149)).val (F.lit m e)| ≤ 1 := fun m e h => bin_tap _ (by norm_num) _ (by norm_num) _ _ fused fma m e h
  simp only [List.mem_cons, List.not_mem_nil, or_false] at hf
  have strip : ∀ (g : List (Option ℝ) → Outcome (List (Option ℝ) × List (Option ℝ))) (B : ℝ), B ≤ 9 * M + 1 →
      (∃ a d, g x = .ok (a, d) ∧ a.length = x.length / 2 ∧ d.length = x.length / 2 ∧
        ∀ y ∈ a ++ d, (binDen (-149)).fin y ∧ |(binDen (-149)).val y| ≤ B) →
      ∃ a d, g x = .ok (a, d) ∧ a.length = x.length / 2 ∧ d.length = x.length / 2 ∧
        ∀ y ∈ a ++ d, Bd (binDen (-149)) y (9 * M + 1) := by
    rintro g B hB ⟨a, d, h1, h2, h3, h4⟩
    exact ⟨a, d, h1, h2, h3, fun y hy => (Bd.mono (N := binDen (-149)) (h4 y hy) hB)⟩
  have room : ∀ k : ℕ, k ≤ 8 → ∀ j : ℕ, j ≤ 8 →
      (1 + 1 / 2 ^ 24 : ℝ) ^ j * (k * ((1 + 1 / 2 ^ 24) * M + 1 / 2 ^ 150)) ≤ 9 * M + 1 := by
    intro k hk j hj
    have hkr : (k : ℝ) ≤ 8 := by exact_mod_cast hk
    have h1 : (1 + 1 / 2 ^ 24 : ℝ) ^ j ≤ 1.01 := pow_le_two (hj.trans (by norm_num))
    have h2 : (1 + 1 / 2 ^ 24 : ℝ) * M + 1 / 2 ^ 150 ≤ 1.01 * M + 0.01 := by
      have : (1 + 1 / 2 ^ 24 : ℝ) * M ≤ 1.01 * M := mul_le_mul_of_nonneg_right (by norm_num) hM
      have : (1 : ℝ) / 2 ^ 150 ≤ 0.01 := by norm_num
      linarith
    have h3 : (k : ℝ) * ((1 + 1 / 2 ^ 24) * M + 1 / 2 ^ 150) ≤ 8 * (1.01 * M + 0.01) :=
      mul_le_mul hkr h2 (by positivity) (by norm_num)
    calc _ ≤ (1.01 : ℝ) * (8 * (1.01 * M + 0.01)) := mul_le_mul h1 h3 (by positivity) (by norm_num)
      _ ≤ _ := by norm_num; linarith
  have hb : 9 * M + 1 ≤ (2 : ℝ) ^ 128 - 2 ^ 104 := by
    have : 9 * M + 1 ≤ 9 * (2 : ℝ) ^ 124 + 1 := by linarith
    exact this.trans (by norm_num)
  have hM2 : M ≤ (2 : ℝ) ^ 128 - 2 ^ 104 := by linarith
  rcases hf with rfl | rfl | rfl | rfl | rfl
  · refine strip _ _ ?_ (haar_finite hF (by norm_num) x M hM hx (by linarith))
    have := room 1 (by norm_num) 1 (by norm_num)
    have h2 : (1 : ℝ) / 2 ^ 150 ≤ 1 := by norm_num
    have h3 : (1 + 1 / 2 ^ 24 : ℝ) ^ 2 * M ≤ 2 * M := mul_le_mul_of_nonneg_right (by norm_num) hM
    linarith
  · refine strip _ _ (room 4 (by norm_num) 3 (by norm_num)) (db2_finite hF x M hM hx hM2 ?_
      ((room 4 (by norm_num) 3 (by norm_num)).trans hb))
    intro c hc
    simp only [db2H, db2G, List.mem_append, List.mem_cons, List.not_mem_nil, or_false] at hc
    rcases hc with (rfl | rfl | rfl | rfl) | (rfl | rfl | rfl | rfl) <;> exact tap _ _ (by rw [abs_le]; norm_num)
  · refine strip _ _ (room 8 (by norm_num) 8 (by norm_num)) (bank_finite hF x M hM hx hM2 db4H db4G _ (by simp) ?_
      ((room 8 (by norm_num) 8 (by norm_num)).trans hb))
    intro c hc
    simp only [db4H, db4G, List.mem_append, List.mem_cons, List.not_mem_nil, or_false] at hc
    rcases hc with (rfl | rfl | rfl | rfl | rfl | rfl | rfl | rfl) | (rfl | rfl | rfl | rfl | rfl | rfl | rfl | rfl) <;>
      exact tap _ _ (by rw [abs_le]; norm_num)
  · refine strip _ _ (room 8 (by norm_num) 8 (by norm_num)) (bank_finite hF x M hM hx hM2 sym4H sym4G _ (by simp) ?_
      ((room 8 (by norm_num) 8 (by norm_num)).trans hb))
    intro c hc
    simp only [sym4H, sym4G, List.mem_append, List.mem_cons, List.not_mem_nil, or_false] at hc
    rcases hc with (rfl | rfl | rfl | rfl | rfl | rfl | rfl | rfl) | (rfl | rfl | rfl | rfl | rfl | rfl | rfl | rfl) <;>
      exact tap _ _ (by rw [abs_le]; norm_num)
  · refine strip _ _ (room 6 (by norm_num) 6 (by norm_num)) (bank_finite hF x M hM hx hM2 coif1H coif1G _ (by simp) ?_
      ((room 6 (by norm_num) 6 (by norm_num)).trans hb))
    intro c hc
    simp only [coif1H, coif1G, List.mem_append, List.mem_cons, List.not_mem_nil, or_false] at hc
    rcases hc with (rfl | rfl | rfl | rfl | rfl | rfl) | (rfl | rfl | rfl | rfl | rfl | rfl) <;>
      exact tap _ _ (by rw [abs_le]; norm_num)

omit F in
/-- C107m. In binary32, with samples of magnitude at most 2¹²⁰: the analysis functions of all five wavelets return
finite coefficients only. -/
theorem wavelet_binary32 (fused fma : Bool) (x : List (Option ℝ))
    (hx : ∀ a ∈ x, (binDen (-149)).fin a ∧ |(binDen (-149)).val a| ≤ 2 ^ 120) :
    let _ := binFlt 24 24 (-149) (2 ^ 128 - 2 ^ 104) fused fma
    ∀ f ∈ [haarForward, db2Forward, db4Forward, sym4Forward, coif1Forward],
      ∃ a d, f x = .ok (a, d) ∧ a.length = x.length / 2 ∧ d.length = x.length / 2 ∧
        ∀ y ∈ a ++ d, (binDen (-149)).fin y := by
  intro F f hf
  obtain ⟨a, d, h1, h2, h3, h4⟩ := bin_forward fused fma x (2 ^ 120) (by norm_num) (by norm_num) hx f hf
  exact ⟨a, d, h1, h2, h3, fun y hy => (h4 y hy).1⟩

omit F in
/-- C107q. In binary32, with samples of magnitude at most 2⁵⁰ and up to 20 levels: the multi-level analysis functions of
all five wavelets return finite coefficients only. -/
theorem wavelet_multi_binary32 (fused fma : Bool) (x : List (Option ℝ)) (levels : ℕ) (hl : levels ≤ 20)
    (hx : ∀ a ∈ x, (binDen (-149)).fin a ∧ |(binDen (-149)).val a| ≤ 2 ^ 50) :
    let _ := binFlt 24 24 (-149) (2 ^ 128 - 2 ^ 104) fused fma
    ∀ f ∈ [haarForward, db2Forward, db4Forward, sym4Forward, coif1Forward],
      ∃ cur ds, multiForward f levels x = .ok (cur, ds) ∧ ds.length = levels ∧
        ∀ c ∈ cur :: ds, ∀ y ∈ c, (binDen (-149)).fin y := by
  intro F f hf
  have hlr : (levels : ℝ) ≤ 20 := by exact_mod_cast hl
  obtain ⟨cur, ds, e1, e2, e3, e4⟩ := multi_bd (N := binDen (-149)) f 9 1 (2 ^ 124) (by norm_num) (by norm_num)
    (fun x M hM hR hx => by
      obtain ⟨a, d, h1, -, -, h4⟩ := bin_forward fused fma x M hM hR hx f hf
      exact ⟨a, d, h1, h4⟩) levels x (2 ^ 50) (by norm_num) hx (by
      calc (9 : ℝ) ^ levels * (2 ^ 50 + levels * 1) ≤ 9 ^ 20 * (2 ^ 50 + 20 * 1) :=
            mul_le_mul (pow_le_pow_right₀ (by norm_num) hl) (by linarith) (by positivity) (by norm_num)
        _ ≤ _ := by norm_num)
  refine ⟨cur, ds, e1, e2, fun c hc y hy => ?_⟩
  rcases List.mem_cons.mp hc with rfl | hc
  · exact (e3 y hy).1
  · exact (e4 c hc y hy).1

omit F in
/-- C107o. In binary32, up to 8192 pairs of coefficients of magnitude at most 2¹⁰⁰: the synthesis functions of all five
wavelets return finite samples only. -/
theorem wavelet_inverse_binary32 (fused fma : Bool) (a d : List (Option ℝ)) (had : a.length ≤ d.length)
    (hn : a.length ≤ 8192)
    (hx : ∀ y ∈ a ++ d, (binDen (-149)).fin y ∧ |(binDen (-149)).val y| ≤ 2 ^ 100) :
    let _ := binFlt 24 24 (-149) (2 ^ 128 - 2 ^ 104) fused fma
    ∀ f ∈ [haarInverse, db2Inverse, db4Inverse, sym4Inverse, coif1Inverse],
      ∃ x, f a d = .ok x ∧ x.length = 2 * a.length ∧ ∀ y ∈ x, (binDen (-149)).fin y := by
  intro F f hf
  have hF : Ieee F (binDen (-149)) (1 / 2 ^ 24) (1 / 2 ^ 150) (2 ^ 128 - 2 ^ 104) (1 / 2 ^ 24) (1 / 2 ^ 23) :=
    binary32 fused fma
  have tap : ∀ (m : ℤ) (e : ℕ), |(m : ℝ) / 10 ^ e| ≤ 9 / 10 → (binDen (-149)).fin (F.lit m e) ∧
      |(binDen (-149)).val (F.lit m e)| ≤ 1 := fun m e h => bin_tap _ (by norm_num) _ (by norm_num) _ _ fused fma m e h
  have strip : ∀ (g : List (Option ℝ) → List (Option ℝ) → Outcome (List (Option ℝ))) (B : ℝ),
      (∃ x, g a d = .ok x ∧ x.length = 2 * a.length ∧
        ∀ y ∈ x, (binDen (-149)).fin y ∧ |(binDen (-149)).val y| ≤ B) →
      ∃ x, g a d = .ok x ∧ x.length = 2 * a.length ∧ ∀ y ∈ x, (binDen (-149)).fin y := by
    rintro g B ⟨x, h1, h2, h4⟩
    exact ⟨x, h1, h2, fun y hy => (h4 y hy).1⟩
  have room : ∀ L, L ≤ 8 → (1 + 1 / 2 ^ 24 : ℝ) ^ (a.length * L) * ((a.length * L : ℕ) *
      ((1 + 1 / 2 ^ 24) * (2 * ((1 + 1 / 2 ^ 24) * 2 ^ 100 + 1 / 2 ^ 150)))) ≤ 2 ^ 128 - 2 ^ 104 := by
    intro L hL
    have hk : a.length * L ≤ 2 ^ 16 := (Nat.mul_le_mul hn hL).trans (by norm_num)
    have hkr : ((a.length * L : ℕ) : ℝ) ≤ 2 ^ 16 := by exact_mod_cast hk
    have h3 : (1 + 1 / 2 ^ 24) * (2 * ((1 + 1 / 2 ^ 24) * 2 ^ 100 + 1 / 2 ^ 150)) ≤ (2 : ℝ) ^ 102 := by norm_num
    calc _ ≤ (1.01 : ℝ) * (2 ^ 16 * 2 ^ 102) :=
          mul_le_mul (pow_le_two hk) (mul_le_mul hkr h3 (by norm_num) (by norm_num)) (by positivity) (by norm_num)
      _ ≤ _ := by norm_num
  simp only [List.mem_cons, List.not_mem_nil, or_false] at hf
  rcases hf with rfl | rfl | rfl | rfl | rfl
  · exact strip _ _ (haar_inverse_finite hF a d had (2 ^ 100) (by norm_num) hx (by norm_num))
  · refine strip _ _ (bank_inverse_finite hF a d had (2 ^ 100) (by norm_num) hx db2H db2G _ (by simp) ?_ _ rfl
      (by norm_num) (room 4 (by norm_num)))
    intro c hc
    simp only [db2H, db2G, List.mem_append, List.mem_cons, List.not_mem_nil, or_false] at hc
    rcases hc with (rfl | rfl | rfl | rfl) | (rfl | rfl | rfl | rfl) <;> exact tap _ _ (by rw [abs_le]; norm_num)
  · refine strip _ _ (bank_inverse_finite hF a d had (2 ^ 100) (by norm_num) hx db4SG db4SH _ (by simp) ?_ _ rfl
      (by norm_num) (room 8 (by norm_num)))
    intro c hc
    simp only [db4SG, db4SH, List.mem_append, List.mem_cons, List.not_mem_nil, or_false] at hc
    rcases hc with (rfl | rfl | rfl | rfl | rfl | rfl | rfl | rfl) | (rfl | rfl | rfl | rfl | rfl | rfl | rfl | rfl) <;>
      exact tap _ _ (by rw [abs_le]; norm_num)
  · refine strip _ _ (bank_inverse_finite hF a d had (2 ^ 100) (by norm_num) hx sym4SG sym4SH _ (by simp) ?_ _ rfl
      (by norm_num) (room 8 (by norm_num)))
    intro c hc
    simp only [sym4SG, sym4SH, List.mem_append, List.mem_cons, List.not_mem_nil, or_false] at hc
    rcases hc with (rfl | rfl | rfl | rfl | rfl | rfl | rfl | rfl) | (rfl | rfl | rfl | rfl | rfl | rfl | rfl | rfl) <;>
      exact tap _ _ (by rw [abs_le]; norm_num)
  · refine strip _ _ (bank_inverse_finite hF a d had (2 ^ 100) (by norm_num) hx coif1SG coif1SH _ (by simp) ?_ _ rfl
      (by norm_num) (room 6 (by norm_num)))
    intro c hc
    simp only [coif1SG, coif1SH, List.mem_append, List.mem_cons, List.not_mem_nil, or_false] at hc
    rcases hc with (rfl | rfl | rfl | rfl | rfl | rfl) | (rfl | rfl | rfl | rfl | rfl | rfl) <;>
      exact tap _ _ (by rw [abs_le]; norm_num)

omit F in
/-- 33 samples of value 1000, and their Haar reconstruction from 8 pairs. -/
example (fused fma : Bool) :
    let _ := binFlt 24 24 (-149) (2 ^ 128 - 2 ^ 104) fused fma
    (∃ a d, db4Forward (List.replicate 33 (some ((1000 : ℕ) : ℝ))) = .ok (a, d) ∧ a.length = 16 ∧ d.length = 16 ∧
      ∀ y ∈ a ++ d, (binDen (-149)).fin y) ∧
    (∃ cur ds, multiForward sym4Forward 3 (List.replicate 33 (some ((1000 : ℕ) : ℝ))) = .ok (cur, ds) ∧ ds.length = 3 ∧
      ∀ c ∈ cur :: ds, ∀ y ∈ c, (binDen (-149)).fin y) ∧
    ∃ x, haarInverse (List.replicate 8 (some ((1000 : ℕ) : ℝ))) (List.replicate 8 (some ((1000 : ℕ) : ℝ))) = .ok x ∧
      x.length = 16 ∧ ∀ y ∈ x, (binDen (-149)).fin y := by
  intro F
  have hF : Ieee F (binDen (-149)) _ _ _ _ _ := binary32 fused fma
  have hm : (binDen (-149)).fin (some ((1000 : ℕ) : ℝ)) ∧ |(binDen (-149)).val (some ((1000 : ℕ) : ℝ))| ≤ 1000 := by
    refine ⟨⟨_, rfl, onGrid_nat (by norm_num) 1000⟩, ?_⟩
    show |((1000 : ℕ) : ℝ)| ≤ 1000
    norm_num
  refine ⟨?_, wavelet_multi_binary32 fused fma _ 3 (by norm_num)
    (fun a ha => by rw [List.eq_of_mem_replicate ha]; exact ⟨hm.1, hm.2.trans (by norm_num)⟩) sym4Forward (by simp), ?_⟩
  · have := wavelet_binary32 fused fma (List.replicate 33 (some ((1000 : ℕ) : ℝ)))
      (fun a ha => by rw [List.eq_of_mem_replicate ha]; exact ⟨hm.1, hm.2.trans (by norm_num)⟩) db4Forward (by simp)
    simpa only [List.length_replicate, show (33 / 2 : ℕ) = 16 from rfl] using this
  · obtain ⟨x, h1, h2, h3⟩ := haar_inverse_finite hF (List.replicate 8 (some ((1000 : ℕ) : ℝ)))
      (List.replicate 8 (some ((1000 : ℕ) : ℝ))) (by simp) 1000 (by norm_num)
      (fun y hy => by
        rw [← List.replicate_add] at hy
        rw [List.eq_of_mem_replicate hy]; exact hm) (by norm_num)
    exact ⟨x, h1, by simpa using h2, fun y hy => (h3 y hy).1⟩

omit F in
/-- Two levels of Haar synthesis from 4 + 4 + 8 coefficients of value 1000. -/
example (fused fma : Bool) :
    let _ := binFlt 24 24 (-149) (2 ^ 128 - 2 ^ 104) fused fma
    ∃ y, multiInverse haarInverse (List.replicate 4 (some ((1000 : ℕ) : ℝ)))
        [List.replicate 8 (some ((1000 : ℕ) : ℝ)), List.replicate 4 (some ((1000 : ℕ) : ℝ))] = .ok y ∧
      ∀ a ∈ y, (binDen (-149)).fin a := by
  intro F
  have hF : Ieee F (binDen (-149)) (1 / 2 ^ 24) (1 / 2 ^ 150) (2 ^ 128 - 2 ^ 104) (1 / 2 ^ 24) (1 / 2 ^ 23) :=
    binary32 fused fma
  have e : ∃ y, multiInverse haarInverse (List.replicate 4 (some ((1000 : ℕ) : ℝ)))
      [List.replicate 8 (some ((1000 : ℕ) : ℝ)), List.replicate 4 (some ((1000 : ℕ) : ℝ))] = .ok y := by
    simp only [multiInverse, List.reverse_cons, List.reverse_nil, List.nil_append, List.cons_append, List.foldlM_cons,
      List.foldlM_nil]
    rw [haarInverse_ok _ _ (by simp), Outcome.bind_ok, haarInverse_ok _ _ (by simp), Outcome.bind_ok, Outcome.pure_eq]
    exact ⟨_, rfl⟩
  obtain ⟨y, e⟩ := e
  refine ⟨y, e, fun a ha => (haar_multi_inverse_finite hF _ _ _ 1000 (by norm_num) ?_ (by norm_num) e a ha).1⟩
  have hm : (binDen (-149)).fin (some ((1000 : ℕ) : ℝ)) ∧ |(binDen (-149)).val (some ((1000 : ℕ) : ℝ))| ≤ 1000 := by
    refine ⟨⟨_, rfl, onGrid_nat (by norm_num) 1000⟩, ?_⟩
    show |((1000 : ℕ) : ℝ)| ≤ 1000
    norm_num
  intro c hc b hb
  simp only [List.mem_cons, List.not_mem_nil, or_false] at hc
  rcases hc with rfl | rfl | rfl <;> (rw [List.eq_of_mem_replicate hb]; exact hm)

end Kofft.Props
