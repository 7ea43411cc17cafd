import Verif.Props.Wavelet
import Verif.Proof.RoundTrig
import Verif.Lib.RndFlt
/-
Property C128: the Daubechies-2 transform in rounded arithmetic.
-/
namespace Kofft.Props
open Spec Finset

variable [F : Flt ℝ] {u v t : ℝ}

omit F in
private theorem synV_skip {T : Type} [Flt T] (g h a d : List T) (len t m1 m2 : ℕ) (hm : m1 ≤ m2)
    (hs : ∀ m, m1 ≤ m → m < m2 → mirIdx len ((2 * (m / g.length) + m % g.length : ℕ) : Int) ≠ t) :
    synV g h a d len t m2 = synV g h a d len t m1 := by
  induction m2, hm using Nat.le_induction with
  | base => rfl
  | succ m hm ih =>
    rw [synV]
    rw [if_neg (hs m hm (by omega)), ih (fun k h1 h2 => hs k h1 (by omega))]

omit F in
/-- Which two terms make an interior sample of a four-tap synthesis, in any arithmetic, and in which order they are
added. -/
theorem synV_four {T : Type} [Flt T] (g h a d : List T) (hg : g.length = 4) (s r : ℕ) (hr : r < 2)
    (hs : 2 * s + 2 + r + 4 ≤ a.length * 2) :
    synV g h a d (a.length * 2) (2 * s + 2 + r) (a.length * g.length) =
      (Flt.zero +. ((g.getD (2 + r) Flt.zero *. a.getD s Flt.zero) +. (h.getD (2 + r) Flt.zero *. d.getD s Flt.zero))) +.
        ((g.getD r Flt.zero *. a.getD (s + 1) Flt.zero) +. (h.getD r Flt.zero *. d.getD (s + 1) Flt.zero)) := by
  have key : ∀ m, m < a.length * 4 → (mirIdx (a.length * 2) ((2 * (m / 4) + m % 4 : ℕ) : Int) = 2 * s + 2 + r ↔
      2 * (m / 4) + m % 4 = 2 * s + 2 + r) := fun m hm =>
    mirIdx_interior (L := 4) (show m % 4 < 4 by omega) (by omega) (by omega) (by omega)
  rw [synV_skip g h a d _ _ (4 * (s + 1) + r + 1) _ (by rw [hg]; omega) (fun m h1 h2 => by
    rw [hg] at h2 ⊢
    rw [Ne, key m (by omega)]
    omega)]
  have d1 : (4 * (s + 1) + r) / 4 = s + 1 := by omega
  have d2 : (4 * (s + 1) + r) % 4 = r := by omega
  rw [synV]
  simp only [hg, d1, d2]
  have k1 := key (4 * (s + 1) + r) (by omega)
  rw [d1, d2] at k1
  rw [if_pos (k1.mpr (by omega))]
  rw [synV_skip g h a d _ _ (4 * s + (2 + r) + 1) (4 * (s + 1) + r) (by omega) (fun m h1 h2 => by
    rw [hg]
    rw [Ne, key m (by omega)]
    omega)]
  have d3 : (4 * s + (2 + r)) / 4 = s := by omega
  have d4 : (4 * s + (2 + r)) % 4 = 2 + r := by omega
  rw [synV]
  simp only [hg, d3, d4]
  have k2 := key (4 * s + (2 + r)) (by omega)
  rw [d3, d4] at k2
  rw [if_pos (k2.mpr (by omega))]
  rw [synV_skip g h a d _ _ 0 (4 * s + (2 + r)) (by omega) (fun m h1 h2 => by
    rw [hg]
    rw [Ne, key m (by omega)]
    omega)]
  rw [synV]

private theorem litR (hF : Rounding F u v t) (m : ℤ) (e : ℕ) : RApx (1 + u) (F.lit m e) (m / 10 ^ e) |(m : ℝ) / 10 ^ e| :=
  RApx.rel (by linarith [hF.u_nonneg]) (by rw [add_sub_cancel_left]; exact hF.lit m e)

private theorem termG (hF : Rounding F u v t) {k : ℕ} {γ c C x X B W : ℝ} (hc : RApx (1 + u) c C |C|)
    (hx : RApx (γ * (1 + u) ^ k) x X B) (hW : W = |C| * B) : RApx (γ * (1 + u) ^ (k + 2)) (F.mul c x) (C * X) W := by
  subst hW
  exact (RApx.mul hc hx hF.u_nonneg (hF.mul _ _)).mono (le_of_eq (by ring))

private theorem plusG (hF : Rounding F u v t) {k l m : ℕ} {γ a b A B C D : ℝ} (hγ : 0 ≤ γ)
    (ha : RApx (γ * (1 + u) ^ k) a A C) (hb : RApx (γ * (1 + u) ^ l) b B D) (hk : k ≤ m) (hl : l ≤ m) :
    RApx (γ * (1 + u) ^ (m + 1)) (F.add a b) (A + B) (C + D) := by
  have hu := hF.u_nonneg
  have h1 : 1 ≤ 1 + u := by linarith
  exact (RApx.add (ha.mono (mul_le_mul_of_nonneg_left (pow_le_pow_right₀ h1 hk) hγ))
    (hb.mono (mul_le_mul_of_nonneg_left (pow_le_pow_right₀ h1 hl) hγ)) hu (hF.add _ _)).mono (le_of_eq (by ring))

private theorem term (hF : Rounding F u v t) {k : ℕ} {c C x X B W : ℝ} (hc : RApx (1 + u) c C |C|)
    (hx : RApx ((1 + u) ^ k) x X B) (hW : W = |C| * B) : RApx ((1 + u) ^ (k + 2)) (F.mul c x) (C * X) W := by
  subst hW
  exact (RApx.mul hc hx hF.u_nonneg (hF.mul _ _)).mono (le_of_eq (by ring))

private theorem plus (hF : Rounding F u v t) {k l m : ℕ} {a b A B C D : ℝ} (ha : RApx ((1 + u) ^ k) a A C)
    (hb : RApx ((1 + u) ^ l) b B D) (hk : k ≤ m) (hl : l ≤ m) : RApx ((1 + u) ^ (m + 1)) (F.add a b) (A + B) (C + D) := by
  have hu := hF.u_nonneg
  have h1 : 1 ≤ 1 + u := by linarith
  exact (RApx.add (ha.mono (pow_le_pow_right₀ h1 hk)) (hb.mono (pow_le_pow_right₀ h1 hl)) hu (hF.add _ _)).mono
    (le_of_eq (by ring))

private theorem dot (hF : Rounding F u v t) {c0 c1 c2 c3 C0 C1 C2 C3 x0 x1 x2 x3 B : ℝ} (h0 : RApx (1 + u) c0 C0 |C0|)
    (h1 : RApx (1 + u) c1 C1 |C1|) (h2 : RApx (1 + u) c2 C2 |C2|) (h3 : RApx (1 + u) c3 C3 |C3|)
    (b0 : |x0| ≤ B) (b1 : |x1| ≤ B) (b2 : |x2| ≤ B) (b3 : |x3| ≤ B) :
    RApx ((1 + u) ^ 5) (F.add (F.add (F.add (F.mul c0 x0) (F.mul c1 x1)) (F.mul c2 x2)) (F.mul c3 x3))
      (C0 * x0 + C1 * x1 + C2 * x2 + C3 * x3) ((|C0| + |C1| + |C2| + |C3|) * B) := by
  have r : ∀ {x : ℝ}, |x| ≤ B → RApx ((1 + u) ^ 0) x x B := fun {x} hx => by
    rw [pow_zero]; exact (RApx.refl x).weight hx
  have e := plus hF (plus hF (plus hF (term hF h0 (r b0) rfl) (term hF h1 (r b1) rfl) (m := 2) le_rfl le_rfl)
    (term hF h2 (r b2) rfl) (m := 3) le_rfl (by norm_num)) (term hF h3 (r b3) rfl) (m := 4) le_rfl (by norm_num)
  exact e.weight (le_of_eq (by ring))

/-- One level, with an approximation known up to `γ`. -/
private theorem db2_step (hF : Rounding F u v t) (x : List ℝ) (B : ℝ) (hB0 : 0 ≤ B) (hB : ∀ e ∈ x, |e| ≤ B) :
    ∃ a d, db2Forward x = .ok (a, d) ∧ a.length = x.length / 2 ∧
      (∀ e ∈ a, |e| ≤ 16731 / 10000 * (1 + u) ^ 5 * B) ∧
      ∀ (a' : List ℝ) (γ : ℝ), a'.length = a.length → 1 ≤ γ → ∃ y, db2Inverse a' d = .ok y ∧
        y.length = 2 * (x.length / 2) ∧
        ∀ s r, r < 2 → 2 * s + 2 + r + 4 ≤ 2 * (x.length / 2) →
          (∀ j, j = s ∨ j = s + 1 → |a'.getD j 0 - a.getD j 0| ≤ (γ - 1) * (16731 / 10000 * (1 + u) ^ 5 * B)) →
          |y.getD (2 * s + 2 + r) 0 - x.getD (2 * s + 2 + r) 0| ≤
            (28 / 10 * (γ * (1 + u) ^ 10 - 1) + 1 / 10 ^ 15) * B := by
  have hu := hF.u_nonneg
  have h1u : (1 : ℝ) ≤ (1 + u) ^ 5 := one_le_pow₀ (by linarith)
  have hBx : ∀ n, |x.getD n 0| ≤ B := by
    intro n
    by_cases hn : n < x.length
    · have := hB x[n] (List.getElem_mem hn)
      simpa [List.getD_eq_getElem?_getD, hn] using this
    · rw [List.getD_eq_default _ _ (by omega), abs_zero]; exact hB0
  have z0 : (Flt.zero : ℝ) = 0 := hF.zero
  have l := litR hF
  have aN : ∀ i j k m, RApx _ _ _ _ := fun i j k m =>
    dot hF (l 4829629131445341 16) (l 8365163037378079 16) (l 2241438680420134 16) (l (-1294095225512604) 16)
      (hBx i) (hBx j) (hBx k) (hBx m)
  have dN : ∀ i j k m, RApx _ _ _ _ := fun i j k m =>
    dot hF (l (-1294095225512604) 16) (l (-2241438680420134) 16) (l 8365163037378079 16) (l (-4829629131445341) 16)
      (hBx i) (hBx j) (hBx k) (hBx m)
  refine ⟨_, _, db2Forward_ok x, by simp, ?_, ?_⟩
  · intro e he
    obtain ⟨n, hn, rfl⟩ := List.getElem_of_mem he
    rw [tab_length] at hn
    have e1 := tab_getD (d := (0 : ℝ)) hn (f := fun i =>
      (((((db2H : List ℝ).getD 0 Flt.zero *. x.getD (mirIdx x.length ((2 * i : Nat) : Int)) Flt.zero) +.
      ((db2H : List ℝ).getD 1 Flt.zero *. x.getD (mirIdx x.length ((2 * i + 1 : Nat) : Int)) Flt.zero)) +.
      ((db2H : List ℝ).getD 2 Flt.zero *. x.getD (mirIdx x.length ((2 * i + 2 : Nat) : Int)) Flt.zero)) +.
      ((db2H : List ℝ).getD 3 Flt.zero *. x.getD (mirIdx x.length ((2 * i + 3 : Nat) : Int)) Flt.zero)))
    rw [List.getD_eq_getElem?_getD, List.getElem?_eq_getElem (by rw [tab_length]; exact hn), Option.getD_some] at e1
    rw [e1, z0]
    have h2 := Apx.norm_le (aN (mirIdx x.length ((2 * n : Nat) : Int)) (mirIdx x.length ((2 * n + 1 : Nat) : Int))
      (mirIdx x.length ((2 * n + 2 : Nat) : Int)) (mirIdx x.length ((2 * n + 3 : Nat) : Int)))
    rw [Complex.norm_real, Real.norm_eq_abs] at h2
    refine h2.trans ?_
    have h3 : |((4829629131445341 : ℤ) : ℝ) / 10 ^ 16| + |((8365163037378079 : ℤ) : ℝ) / 10 ^ 16| +
        |((2241438680420134 : ℤ) : ℝ) / 10 ^ 16| + |((-1294095225512604 : ℤ) : ℝ) / 10 ^ 16| ≤ 16731 / 10000 := by
      norm_num [abs_div, abs_of_pos]
    have h4 := mul_le_mul_of_nonneg_left (mul_le_mul_of_nonneg_right h3 hB0) (by linarith : 0 ≤ (1 + u) ^ 5)
    linarith
  intro a' γ hl hγ
  rw [tab_length] at hl
  refine ⟨_, bankInverse_ok db2H db2G _ _ (by simp [db2H, db2G]) (by rw [hl, tab_length]), by rw [tab_length]; omega, ?_⟩
  intro s r hr hi hE
  rw [tab_getD (by omega), synV_four _ _ _ _ rfl s r hr (by omega)]
  have E0 := hE s (Or.inl rfl)
  have E1 := hE (s + 1) (Or.inr rfl)
  rw [tab_getD (by omega)] at E0 E1
  rw [tab_getD (by omega), tab_getD (by omega)]
  have hm : ∀ k, k < x.length → mirIdx x.length ((k : ℕ) : Int) = k := fun k hk => mirIdx_self (by omega) hk
  rw [hm (2 * s) (by omega), hm (2 * s + 1) (by omega), hm (2 * s + 2) (by omega), hm (2 * s + 3) (by omega)] at E0 ⊢
  rw [hm (2 * (s + 1)) (by omega), hm (2 * (s + 1) + 1) (by omega), hm (2 * (s + 1) + 2) (by omega),
    hm (2 * (s + 1) + 3) (by omega)] at E1 ⊢
  rw [z0] at E0 E1 ⊢
  have per : ∀ {c c' C A : ℝ}, RApx ((1 + u) ^ 5) c C A → A ≤ 16731 / 10000 * B →
      |c' - c| ≤ (γ - 1) * (16731 / 10000 * (1 + u) ^ 5 * B) → RApx (γ * (1 + u) ^ 5) c' C (16731 / 10000 * B) := by
    intro c c' C A h2 hA h3
    have h4 := RApx.abs_err (h2.weight hA)
    refine RApx.mk' (by nlinarith) ?_ ((RApx.abs_bd h2).trans hA)
    have h5 := abs_sub_le c' c C
    linarith
  have up : ∀ {c C A : ℝ}, RApx ((1 + u) ^ 5) c C A → A ≤ 16731 / 10000 * B → RApx (γ * (1 + u) ^ 5) c C (16731 / 10000 * B) :=
    fun h2 hA => Apx.mono (h2.weight hA) (le_mul_of_one_le_left (by linarith) hγ)
  have w1 : (|((4829629131445341 : ℤ) : ℝ) / 10 ^ 16| + |((8365163037378079 : ℤ) : ℝ) / 10 ^ 16| +
        |((2241438680420134 : ℤ) : ℝ) / 10 ^ 16| + |((-1294095225512604 : ℤ) : ℝ) / 10 ^ 16|) * B ≤ 16731 / 10000 * B :=
    mul_le_mul_of_nonneg_right (by norm_num [abs_div, abs_of_pos]) hB0
  have w2 : (|((-1294095225512604 : ℤ) : ℝ) / 10 ^ 16| + |((-2241438680420134 : ℤ) : ℝ) / 10 ^ 16| +
        |((8365163037378079 : ℤ) : ℝ) / 10 ^ 16| + |((-4829629131445341 : ℤ) : ℝ) / 10 ^ 16|) * B ≤ 16731 / 10000 * B :=
    mul_le_mul_of_nonneg_right (by norm_num [abs_div, abs_of_pos]) hB0
  have a0 := per (aN (2 * s) (2 * s + 1) (2 * s + 2) (2 * s + 3)) w1 E0
  have a1 := per (aN (2 * (s + 1)) (2 * (s + 1) + 1) (2 * (s + 1) + 2) (2 * (s + 1) + 3)) w1 E1
  have d0 := up (dN (2 * s) (2 * s + 1) (2 * s + 2) (2 * s + 3)) w2
  have d1 := up (dN (2 * (s + 1)) (2 * (s + 1) + 1) (2 * (s + 1) + 2) (2 * (s + 1) + 3)) w2
  have zz : RApx (γ * (1 + u) ^ 0) 0 0 0 := by
    have := RApx.refl 0
    rw [abs_zero] at this
    exact Apx.mono this (by rw [pow_zero, mul_one]; exact hγ)
  have b0 := abs_le.1 (hBx (2 * s))
  have b1 := abs_le.1 (hBx (2 * s + 1))
  have b2 := abs_le.1 (hBx (2 * s + 2))
  have b3 := abs_le.1 (hBx (2 * s + 3))
  have b4 := abs_le.1 (hBx (2 * (s + 1) + 2))
  have b5 := abs_le.1 (hBx (2 * (s + 1) + 3))
  have hg : 0 ≤ γ * (1 + u) ^ 10 - 1 := by
    have := one_le_pow₀ (n := 10) (show 1 ≤ 1 + u by linarith)
    nlinarith
  have fin : ∀ {y Z X W : ℝ}, RApx (γ * (1 + u) ^ 10) y Z W → W ≤ 28 / 10 * B → |Z - X| ≤ B / 10 ^ 15 →
      |y - X| ≤ (28 / 10 * (γ * (1 + u) ^ 10 - 1) + 1 / 10 ^ 15) * B := by
    intro y Z X W h1 h2 h3
    have h4 := RApx.abs_err h1
    have h5 := abs_sub_le y Z X
    have h6 := mul_le_mul_of_nonneg_left h2 hg
    linarith
  have hγ0 : 0 ≤ γ := by linarith
  obtain rfl | rfl : r = 0 ∨ r = 1 := by omega
  · have e := plusG hF hγ0 (plusG hF hγ0 zz (plusG hF hγ0 (termG hF (l 2241438680420134 16) a0 rfl)
      (termG hF (l 8365163037378079 16) d0 rfl)
      (m := 7) le_rfl le_rfl) (m := 8) (by norm_num) le_rfl) (plusG hF hγ0 (termG hF (l 4829629131445341 16) a1 rfl)
      (termG hF (l (-1294095225512604) 16) d1 rfl) (m := 7) le_rfl le_rfl) (m := 9) le_rfl (by norm_num)
    refine fin e ?_ ?_
    · norm_num [abs_div, abs_of_pos]; linarith
    · rw [show 2 * (s + 1) = 2 * s + 2 by ring] at *
      rw [show 2 * s + 2 + 0 = 2 * s + 2 by ring, abs_le]
      push_cast
      constructor <;> linarith
  · have e := plusG hF hγ0 (plusG hF hγ0 zz (plusG hF hγ0 (termG hF (l (-1294095225512604) 16) a0 rfl)
      (termG hF (l (-4829629131445341) 16) d0 rfl)
      (m := 7) le_rfl le_rfl) (m := 8) (by norm_num) le_rfl) (plusG hF hγ0 (termG hF (l 8365163037378079 16) a1 rfl)
      (termG hF (l (-2241438680420134) 16) d1 rfl) (m := 7) le_rfl le_rfl) (m := 9) le_rfl (by norm_num)
    refine fin e ?_ ?_
    · norm_num [abs_div, abs_of_pos]; linarith
    · rw [show 2 * (s + 1) = 2 * s + 2 by ring] at *
      rw [show 2 * s + 2 + 1 = 2 * s + 3 by ring, abs_le]
      push_cast
      constructor <;> linarith

/-- C128a. In an arithmetic of unit roundoff `u`, `db2_inverse ∘ db2_forward` returns every interior sample up to
`(2.8((1+u)¹⁰-1) + 10⁻¹⁵)` times the largest sample, whatever the length of the signal. -/
theorem db2_interior_error (hF : Rounding F u v t) (x : List ℝ) (B : ℝ) (hB0 : 0 ≤ B) (hB : ∀ e ∈ x, |e| ≤ B) :
    ∃ a d y, db2Forward x = .ok (a, d) ∧ db2Inverse a d = .ok y ∧ y.length = 2 * (x.length / 2) ∧
      ∀ i, 2 ≤ i → i + 4 ≤ 2 * (x.length / 2) →
        |y.getD i 0 - x.getD i 0| ≤ (28 / 10 * ((1 + u) ^ 10 - 1) + 1 / 10 ^ 15) * B := by
  obtain ⟨a, d, e1, hl, -, h⟩ := db2_step hF x B hB0 hB
  obtain ⟨y, e2, hl2, h2⟩ := h a 1 rfl le_rfl
  refine ⟨a, d, y, e1, e2, hl2, fun i hi0 hi => ?_⟩
  obtain ⟨s, r, hr, rfl⟩ : ∃ s r, r < 2 ∧ i = 2 * s + 2 + r := ⟨(i - 2) / 2, i % 2, by omega, by omega⟩
  have := h2 s r hr hi (fun j _ => by rw [sub_self, sub_self, abs_zero, zero_mul])
  rwa [one_mul] at this

/-- Growth of the error over several levels. -/
noncomputable def db2Growth (u : ℝ) : ℕ → ℝ
  | 0 => 1
  | L + 1 => 1 + (28 / 10 * (db2Growth u L * (1 + u) ^ 10 - 1) + 1 / 10 ^ 15)

omit F in
theorem db2Growth_one (hu : 0 ≤ u) (L : ℕ) : 1 ≤ db2Growth u L := by
  induction L with
  | zero => exact le_rfl
  | succ L ih =>
    have := one_le_pow₀ (n := 10) (show 1 ≤ 1 + u by linarith)
    have h2 : 1 ≤ db2Growth u L * (1 + u) ^ 10 := by nlinarith
    rw [db2Growth]
    linarith

/-- C128c. Several levels: `multi_level_inverse ∘ multi_level_forward` with the db2 pair, on a signal of `2^L m` samples,
returns the samples from `2^(L+1)-2` to `n-1-3·2^(L-1)` up to `db2Growth u L - 1` times the largest sample. -/
theorem db2_multi_interior (hF : Rounding F u v t) (L m : ℕ) (x : List ℝ) (B : ℝ) (hB0 : 0 ≤ B) (hB : ∀ e ∈ x, |e| ≤ B)
    (hx : x.length = 2 ^ L * m) :
    ∃ cur ds y, multiForward db2Forward L x = .ok (cur, ds) ∧ multiInverse db2Inverse cur ds = .ok y ∧
      y.length = x.length ∧
      ∀ i, 2 ^ (L + 1) ≤ i + 2 → 2 * (i + 1) + 3 * 2 ^ L ≤ 2 * x.length ∨ L = 0 →
        |y.getD i 0 - x.getD i 0| ≤ (db2Growth u L - 1) * B := by
  induction L generalizing x B with
  | zero => exact ⟨x, [], x, rfl, rfl, rfl, fun i _ _ => by simp [db2Growth]⟩
  | succ L ih =>
    have hu := hF.u_nonneg
    rw [pow_succ, mul_right_comm] at hx
    obtain ⟨a, d, e1, hl, hbd, h⟩ := db2_step hF x B hB0 hB
    obtain ⟨cur, ds, a', f1, f2, f3, f4⟩ := ih a (16731 / 10000 * (1 + u) ^ 5 * B) (by positivity) hbd (by omega)
    obtain ⟨y, e2, hl2, h2⟩ := h a' (db2Growth u L) f3 (db2Growth_one hu L)
    have hp : padEven x = x := by rw [padEven, if_neg (by omega)]
    refine ⟨cur, d :: ds, y, by rw [multiForward, hp, e1, Outcome.bind_ok]; simp only [f1]; rfl, ?_, by omega, ?_⟩
    · unfold multiInverse at f2 ⊢
      rw [List.reverse_cons, List.foldlM_append, f2]
      simp [e2]
    intro i hi0 hi
    have hp2 : 2 ^ (L + 1 + 1) = 2 * 2 ^ (L + 1) := by rw [pow_succ]; ring
    have hp1 : 2 ^ (L + 1) = 2 * 2 ^ L := by rw [pow_succ]; ring
    have hp0 : 1 ≤ 2 ^ L := Nat.one_le_two_pow
    obtain hi | hi := hi
    swap
    · omega
    obtain ⟨s, r, hr, rfl⟩ : ∃ s r, r < 2 ∧ i = 2 * s + 2 + r := ⟨(i - 2) / 2, i % 2, by omega, by omega⟩
    have h3 := h2 s r hr (by omega) (fun j hj => f4 j (by omega) (by
      by_cases hL : L = 0
      · exact Or.inr hL
      · left
        obtain ⟨k, rfl⟩ : ∃ k, L = k + 1 := ⟨L - 1, by omega⟩
        have : 2 ^ (k + 1) = 2 * 2 ^ k := by rw [pow_succ]; ring
        omega))
    rw [db2Growth, add_sub_cancel_left]
    exact h3

/-- C128b. Integer samples: rounding the reconstruction to the nearest integers gives the interior samples back
exactly. -/
theorem db2_integer_trip (hF : Rounding F u v t) (x : List ℝ) (M : ℝ) (hM0 : 0 ≤ M) (hi : ∀ e ∈ x, ∃ k : ℤ, e = k) (hM : ∀ e ∈ x, |e| ≤ M)
    (hs : (28 / 10 * ((1 + u) ^ 10 - 1) + 1 / 10 ^ 15) * M < 1 / 2) :
    ∃ a d y, db2Forward x = .ok (a, d) ∧ db2Inverse a d = .ok y ∧ y.length = 2 * (x.length / 2) ∧
      ∀ i, 2 ≤ i → i + 4 ≤ 2 * (x.length / 2) → (round (y.getD i 0) : ℝ) = x.getD i 0 := by
  obtain ⟨a, d, y, e1, e2, e3, h⟩ := db2_interior_error hF x M hM0 hM
  refine ⟨a, d, y, e1, e2, e3, fun i h1 h2 => ?_⟩
  have hl : i < x.length := by omega
  obtain ⟨k, hk⟩ := hi x[i] (List.getElem_mem hl)
  have hx : x.getD i 0 = k := by rw [← hk]; simp [List.getD_eq_getElem?_getD, hl]
  have h3 := lt_of_le_of_lt (h i h1 h2) hs
  rw [hx] at h3 ⊢
  have h4 := abs_lt.mp h3
  norm_cast
  rw [round_eq, Int.floor_eq_iff]
  constructor <;> linarith [h4.1, h4.2]

/-- C128d. The same over several levels. -/
theorem db2_multi_integer_trip (hF : Rounding F u v t) (L m : ℕ) (x : List ℝ) (M : ℝ) (hM0 : 0 ≤ M)
    (hi : ∀ e ∈ x, ∃ k : ℤ, e = k) (hM : ∀ e ∈ x, |e| ≤ M) (hx : x.length = 2 ^ L * m)
    (hs : (db2Growth u L - 1) * M < 1 / 2) :
    ∃ cur ds y, multiForward db2Forward L x = .ok (cur, ds) ∧ multiInverse db2Inverse cur ds = .ok y ∧
      y.length = x.length ∧
      ∀ i, 2 ^ (L + 1) ≤ i + 2 → 2 * (i + 1) + 3 * 2 ^ L ≤ 2 * x.length → (round (y.getD i 0) : ℝ) = x.getD i 0 := by
  obtain ⟨a, d, y, e1, e2, e3, h⟩ := db2_multi_interior hF L m x M hM0 hM hx
  refine ⟨a, d, y, e1, e2, e3, fun i h1 h2 => ?_⟩
  have hl : i < x.length := by omega
  obtain ⟨k, hk⟩ := hi x[i] (List.getElem_mem hl)
  have hx : x.getD i 0 = k := by rw [← hk]; simp [List.getD_eq_getElem?_getD, hl]
  have h3 := lt_of_le_of_lt (h i h1 (Or.inl h2)) hs
  rw [hx] at h3 ⊢
  have h4 := abs_lt.mp h3
  norm_cast
  rw [round_eq, Int.floor_eq_iff]
  constructor <;> linarith [h4.1, h4.2]

/-- 16-bit audio, two levels, single precision. -/
example (fused fma : Bool) (m : ℕ) (x : List ℝ) (hi : ∀ e ∈ x, ∃ k : ℤ, e = k) (hM : ∀ e ∈ x, |e| ≤ 2 ^ 15)
    (hx : x.length = 2 ^ 2 * m) :
    ∃ cur ds y, multiForward (@db2Forward ℝ (rndFlt 24 24 fused fma)) 2 x = .ok (cur, ds) ∧
      multiInverse (@db2Inverse ℝ (rndFlt 24 24 fused fma)) cur ds = .ok y ∧ y.length = x.length ∧
      ∀ i, 6 ≤ i → i + 7 ≤ x.length → (round (y.getD i 0) : ℝ) = x.getD i 0 := by
  let _ := rndFlt 24 24 fused fma
  obtain ⟨cur, ds, y, e1, e2, e3, h⟩ := db2_multi_integer_trip
    (rndFlt_rounding 24 24 (by norm_num) (by norm_num) fused fma) 2 m x (2 ^ 15) (by norm_num) hi hM hx (by
      simp only [db2Growth]; norm_num)
  exact ⟨cur, ds, y, e1, e2, e3, fun i h1 h2 => h i (by omega) (by omega)⟩

omit F in
/-- 16-bit audio in single precision: every interior sample of every recording is recovered exactly. -/
theorem db2_audio_lossless (fused fma : Bool) (x : List ℝ) (hi : ∀ e ∈ x, ∃ k : ℤ, e = k)
    (hM : ∀ e ∈ x, |e| ≤ 32768) :
    ∃ a d y, @db2Forward ℝ (rndFlt 24 24 fused fma) x = .ok (a, d) ∧ @db2Inverse ℝ (rndFlt 24 24 fused fma) a d = .ok y ∧
      y.length = 2 * (x.length / 2) ∧
      ∀ i, 2 ≤ i → i + 4 ≤ 2 * (x.length / 2) → (round (y.getD i 0) : ℝ) = x.getD i 0 := by
  let _ := rndFlt 24 24 fused fma
  exact db2_integer_trip (rndFlt_rounding 24 24 (by norm_num) (by norm_num) fused fma) x 32768 (by norm_num) hi hM (by norm_num)

/-- Eight samples have an interior. -/
example : ∃ x : List ℝ, (∀ e ∈ x, ∃ k : ℤ, e = k) ∧ (∀ e ∈ x, |e| ≤ 32768) ∧ 2 + 4 ≤ 2 * (x.length / 2) ∧ x.getD 3 0 ≠ 0 :=
  ⟨[1, -7, 300, -32768, 32767, 4, 0, 9], by
    intro e he
    simp only [List.mem_cons, List.not_mem_nil, or_false] at he
    rcases he with rfl | rfl | rfl | rfl | rfl | rfl | rfl | rfl
    exacts [⟨1, by simp⟩, ⟨-7, by simp⟩, ⟨300, by simp⟩, ⟨-32768, by simp⟩, ⟨32767, by simp⟩, ⟨4, by simp⟩, ⟨0, by simp⟩,
      ⟨9, by simp⟩], by
    intro e he
    simp only [List.mem_cons, List.not_mem_nil, or_false] at he
    rcases he with rfl | rfl | rfl | rfl | rfl | rfl | rfl | rfl <;> norm_num, by simp, by simp⟩

end Kofft.Props
