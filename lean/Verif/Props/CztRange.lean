import Verif.Proof.RangeTrig
import Verif.Props.RangeCepstrum
/-
Property C107: the chirp Z-transform of finite data of moderate size is finite, in arithmetic with a bounded exponent
range.
-/
namespace Kofft.Props
open Spec

variable {T : Type} [F : Flt T] {N : Denote T} {u η Ω v t : ℝ}

/-- What a complex product can add: the relative error of `Cx.mulPlain` on products of magnitude at least one. -/
noncomputable def cztErr (u η : ℝ) : ℝ := mulErr (effErr u η 1)

theorem cbd_mul (h : Env F N u η Ω v t 1) {a b : Cx T} {A B : ℝ} (ha : N.cfin a ∧ ‖N.cval a‖ ≤ A)
    (hb : N.cfin b ∧ ‖N.cval b‖ ≤ B) (hAB : 1 ≤ A * B) (hΩ : (1 + cztErr u η) * (A * B) ≤ Ω) :
    N.cfin (a.mulPlain b) ∧ ‖N.cval (a.mulPlain b)‖ ≤ (1 + cztErr u η) * (A * B) := by
  have hA : 0 ≤ A := (norm_nonneg _).trans ha.2
  have hW : ‖N.cval a‖ * ‖N.cval b‖ ≤ A * B := mul_le_mul ha.2 hb.2 (norm_nonneg _) hA
  obtain ⟨r1, r2⟩ := ie_mulPlain h a b (A * B) ha.1 hb.1 hW hAB hΩ
  refine ⟨r1, ?_⟩
  have h1 : ‖N.cval (a.mulPlain b)‖ ≤ ‖N.cval (a.mulPlain b) - N.cval a * N.cval b‖ + ‖N.cval a * N.cval b‖ := by
    have := norm_add_le (N.cval (a.mulPlain b) - N.cval a * N.cval b) (N.cval a * N.cval b)
    rwa [sub_add_cancel] at this
  rw [norm_mul] at h1
  have e : cztErr u η = mulErr (effErr u η 1) := rfl
  rw [e]
  linarith

theorem cbd_one (h : Env F N u η Ω v t 1) : N.cfin (⟨Flt.one, Flt.zero⟩ : Cx T) ∧ ‖N.cval (⟨Flt.one, Flt.zero⟩ : Cx T)‖ ≤ 1 := by
  refine ⟨⟨h.one.1, h.zero.1⟩, le_of_eq ?_⟩
  have : N.cval (⟨Flt.one, Flt.zero⟩ : Cx T) = 1 := by
    apply Complex.ext
    · exact h.one.2
    · exact h.zero.2
  rw [this, norm_one]

/-- Growth of a power: `(1 + e) B` per factor. -/
noncomputable def cztGain (u η B : ℝ) : ℝ := (1 + cztErr u η) * B

theorem cztGain_one (h : Env F N u η Ω v t 1) {B : ℝ} (hB : 1 ≤ B) : 1 ≤ cztGain u η B := by
  have := mulErr_nonneg h.U_nonneg
  have e : cztErr u η = mulErr (effErr u η 1) := rfl
  unfold cztGain
  nlinarith

theorem cbd_pow (h : Env F N u η Ω v t 1) {w : Cx T} {B : ℝ} (hw : N.cfin w ∧ ‖N.cval w‖ ≤ B) (hB : 1 ≤ B) (k : ℕ)
    (hΩ : cztGain u η B ^ k ≤ Ω) : N.cfin (cztPow w k) ∧ ‖N.cval (cztPow w k)‖ ≤ cztGain u η B ^ k := by
  have hg := cztGain_one h hB
  induction k with
  | zero => simpa [cztPow] using cbd_one h
  | succ k ih =>
    have h1 : 1 ≤ cztGain u η B ^ k := one_le_pow₀ hg
    have e : (1 + cztErr u η) * (cztGain u η B ^ k * B) = cztGain u η B ^ (k + 1) := by
      rw [pow_succ, cztGain]; ring
    have hk := ih ((pow_le_pow_right₀ hg (Nat.le_succ k)).trans hΩ)
    have hs : cztPow w (k + 1) = (cztPow w k).mulPlain w := by
      unfold cztPow
      rw [List.range_succ, List.foldl_append]
      rfl
    rw [hs]
    have := cbd_mul h hk hw (by nlinarith) (e.trans_le hΩ)
    rwa [e] at this

/-- The state of the inner loop after `i` samples. -/
structure CztOk (N : Denote T) (u η X κ α τ : ℝ) (i : ℕ) (s : CztSt T) : Prop where
  wnk : N.cfin s.wnk ∧ ‖N.cval s.wnk‖ ≤ cztGain u η κ ^ i
  apow : N.cfin s.apow ∧ ‖N.cval s.apow‖ ≤ cztGain u η α ^ i
  re : Bd N s.out.re ((1 + u) ^ i * (i * ((1 + u) * (X * τ) + η)))
  im : Bd N s.out.im ((1 + u) ^ i * (i * ((1 + u) * (X * τ) + η)))

theorem cbd_acc (hF : Ieee F N u η Ω v t) {o x s : T} {X τ : ℝ} (i n : ℕ) (hi : i < n)
    (ho : Bd N o ((1 + u) ^ i * (i * ((1 + u) * (X * τ) + η)))) (hx : Bd N x X) (hs : Bd N s τ) (hX : X * τ ≤ Ω)
    (hΩ : (1 + u) ^ n * (n * ((1 + u) * (X * τ) + η)) ≤ Ω) :
    Bd N (o +. (x *. s)) ((1 + u) ^ (i + 1) * ((i + 1 : ℕ) * ((1 + u) * (X * τ) + η))) := by
  have hu := hF.u_nonneg
  have hη := hF.eta_nonneg
  have hXτ : 0 ≤ X * τ := mul_nonneg hx.nonneg hs.nonneg
  have hp : Bd N (x *. s) ((1 + u) * (X * τ) + η) := by
    have h1 : |N.val x * N.val s| ≤ X * τ := by
      rw [abs_mul]; exact mul_le_mul hx.2 hs.2 (abs_nonneg _) hx.nonneg
    obtain ⟨r1, r2⟩ := hF.mul x s hx.1 hs.1 (h1.trans hX)
    refine ⟨r1, (abs_of_err r2).trans ?_⟩
    have := mul_le_mul_of_nonneg_left h1 hu
    linarith
  set C := (1 + u) * (X * τ) + η with hC
  have hC0 : 0 ≤ C := by positivity
  have h1 : 1 ≤ (1 + u) ^ i := one_le_pow₀ (by linarith)
  have hstep : (1 + u) ^ i * (i * C) + C ≤ (1 + u) ^ i * ((i + 1 : ℕ) * C) := by
    push_cast; nlinarith
  have hle : (1 + u) ^ i * ((i + 1 : ℕ) * C) ≤ (1 + u) ^ n * (n * C) := by
    refine mul_le_mul (pow_le_pow_right₀ (by linarith) hi.le) ?_ (by positivity) (by positivity)
    exact mul_le_mul_of_nonneg_right (by exact_mod_cast hi) hC0
  refine (bd_add hF ho hp (hstep.trans (hle.trans hΩ))).mono ?_
  rw [pow_succ, mul_comm ((1 + u) ^ i) (1 + u), mul_assoc]
  exact mul_le_mul_of_nonneg_left hstep (by linarith)

theorem cbd_fold (h : Env F N u η Ω v t 1) {wk ai : Cx T} {κ α X τ : ℝ} (hwk : N.cfin wk ∧ ‖N.cval wk‖ ≤ κ)
    (hai : N.cfin ai ∧ ‖N.cval ai‖ ≤ α) (hκ : 1 ≤ κ) (hα : 1 ≤ α) (n : ℕ)
    (hτ : (1 + cztErr u η) * (cztGain u η κ ^ n * cztGain u η α ^ n) = τ) (hτΩ : τ ≤ Ω) (hX : X * τ ≤ Ω)
    (hΩ : (1 + u) ^ n * (n * ((1 + u) * (X * τ) + η)) ≤ Ω) : ∀ (x : List T) (i : ℕ) (s : CztSt T), i + x.length = n →
      (∀ a ∈ x, Bd N a X) → CztOk N u η X κ α τ i s → CztOk N u η X κ α τ n (x.foldl (cztStep wk ai) s)
  | [], i, s, hn, hx, hs => by
    obtain rfl : i = n := by simpa using hn
    exact hs
  | a :: x, i, s, hn, hx, hs => by
    have hi : i < n := by simp at hn; omega
    have hg1 := cztGain_one h hκ
    have hg2 := cztGain_one h hα
    have he : 0 ≤ cztErr u η := mulErr_nonneg h.U_nonneg
    have p1 : 1 ≤ cztGain u η κ ^ i := one_le_pow₀ hg1
    have p2 : 1 ≤ cztGain u η α ^ i := one_le_pow₀ hg2
    have q1 : 1 ≤ cztGain u η κ ^ n := one_le_pow₀ hg1
    have q2 : 1 ≤ cztGain u η α ^ n := one_le_pow₀ hg2
    have m1 : cztGain u η κ ^ i ≤ cztGain u η κ ^ n := pow_le_pow_right₀ hg1 hi.le
    have m2 : cztGain u η α ^ i ≤ cztGain u η α ^ n := pow_le_pow_right₀ hg2 hi.le
    have n1 : cztGain u η κ ^ (i + 1) ≤ cztGain u η κ ^ n := pow_le_pow_right₀ hg1 hi
    have n2 : cztGain u η α ^ (i + 1) ≤ cztGain u η α ^ n := pow_le_pow_right₀ hg2 hi
    have prod : cztGain u η κ ^ n * cztGain u η α ^ n ≤ τ := by
      rw [← hτ]; exact le_mul_of_one_le_left (by positivity) (by linarith)
    have b1 : cztGain u η κ ^ n ≤ Ω := ((le_mul_of_one_le_right (by linarith) q2).trans prod).trans hτΩ
    have b2 : cztGain u η α ^ n ≤ Ω := ((le_mul_of_one_le_left (by linarith) q1).trans prod).trans hτΩ
    have ht : (1 + cztErr u η) * (cztGain u η α ^ i * cztGain u η κ ^ i) ≤ τ := by
      rw [← hτ, mul_comm (cztGain u η α ^ i)]
      exact mul_le_mul_of_nonneg_left (mul_le_mul m1 m2 (by linarith) (by linarith)) (by linarith)
    have e1 : (1 + cztErr u η) * (cztGain u η κ ^ i * κ) = cztGain u η κ ^ (i + 1) := by
      rw [pow_succ, cztGain]; ring
    have e2 : (1 + cztErr u η) * (cztGain u η α ^ i * α) = cztGain u η α ^ (i + 1) := by
      rw [pow_succ, cztGain]; ring
    obtain ⟨t1, t2⟩ := cbd_mul h hs.apow hs.wnk (by nlinarith) (ht.trans hτΩ)
    have w1 := cbd_mul h hs.wnk hwk (by nlinarith) (e1.trans_le (n1.trans b1))
    have w2 := cbd_mul h hs.apow hai (by nlinarith) (e2.trans_le (n2.trans b2))
    rw [e1] at w1
    rw [e2] at w2
    rw [List.foldl_cons]
    refine cbd_fold h hwk hai hκ hα n hτ hτΩ hX hΩ x (i + 1) _ (by simp at hn; omega)
      (fun b hb => hx b (List.mem_cons_of_mem _ hb)) ⟨w1, w2, ?_, ?_⟩
    · exact cbd_acc h.toIeee i n hi hs.re (hx a (by simp)) ⟨t1.1, ((Complex.abs_re_le_norm _).trans t2).trans ht⟩ hX hΩ
    · exact cbd_acc h.toIeee i n hi hs.im (hx a (by simp)) ⟨t1.2, ((Complex.abs_im_le_norm _).trans t2).trans ht⟩ hX hΩ

/-- C107s. The chirp Z-transform of finite samples of magnitude at most `X`, with a finite ratio `w` of magnitude at most
`ω` and a starting point whose computed inverse is finite and at most `α`: all `m` bins are finite, if the powers of `w`
and of the inverse that occur, up to `w^(m n)`, leave room for `n` samples (`τ` bounds every product of powers). -/
theorem czt_finite (hF : Ieee F N u η Ω v t) (hu : u + 2 * η ≤ 1) (x : List T) (m : ℕ) (w a : Cx T) (X ω α τ : ℝ)
    (hx : ∀ b ∈ x, N.fin b ∧ |N.val b| ≤ X) (hw : N.cfin w ∧ ‖N.cval w‖ ≤ ω) (hω : 1 ≤ ω)
    (ha : N.cfin (cztAinv a) ∧ ‖N.cval (cztAinv a)‖ ≤ α) (hα : 1 ≤ α)
    (hτ : (1 + cztErr u η) * (cztGain u η (cztGain u η ω ^ m) ^ x.length * cztGain u η α ^ x.length) ≤ τ) (hτΩ : τ ≤ Ω)
    (hκΩ : cztGain u η ω ^ m ≤ Ω) (hX : X * τ ≤ Ω) (hX0 : 0 ≤ X)
    (hΩ : (1 + u) ^ x.length * (x.length * ((1 + u) * (X * τ) + η)) ≤ Ω) :
    (czt x m w a).length = m ∧ ∀ c ∈ czt x m w a, N.cfin c ∧
      |N.val c.re| ≤ (1 + u) ^ x.length * (x.length * ((1 + u) * (X * τ) + η)) ∧
      |N.val c.im| ≤ (1 + u) ^ x.length * (x.length * ((1 + u) * (X * τ) + η)) := by
  have h : Env F N u η Ω v t 1 := { hF with D_pos := one_pos, D_le := le_rfl, U_le := by unfold effErr; linarith }
  have hu0 := hF.u_nonneg
  have hη := hF.eta_nonneg
  refine ⟨by simp [czt], ?_⟩
  intro c hc
  obtain ⟨k, hk, rfl⟩ := List.mem_map.mp hc
  have hk' : k ≤ m := (List.mem_range.mp hk).le
  have hg := cztGain_one h hω
  have hle : cztGain u η ω ^ k ≤ cztGain u η ω ^ m := pow_le_pow_right₀ hg hk'
  obtain ⟨p1, p2⟩ := cbd_pow h hw hω k (hle.trans hκΩ)
  set τ' := (1 + cztErr u η) * (cztGain u η (cztGain u η ω ^ m) ^ x.length * cztGain u η α ^ x.length) with hτ'
  have hXX : X * τ' ≤ X * τ := mul_le_mul_of_nonneg_left hτ hX0
  have hmono : (1 + u) ^ x.length * (x.length * ((1 + u) * (X * τ') + η)) ≤
      (1 + u) ^ x.length * (x.length * ((1 + u) * (X * τ) + η)) := by
    refine mul_le_mul_of_nonneg_left (mul_le_mul_of_nonneg_left ?_ (Nat.cast_nonneg _)) (by positivity)
    have := mul_le_mul_of_nonneg_left hXX (by linarith : 0 ≤ 1 + u)
    linarith
  have hz : Bd N (Flt.zero : T) ((1 + u) ^ 0 * ((0 : ℕ) * ((1 + u) * (X * τ') + η))) :=
    ⟨hF.zero.1, by rw [hF.zero.2, abs_zero]; simp⟩
  have := cbd_fold h (wk := cztPow w k) (ai := cztAinv a) (κ := cztGain u η ω ^ m) (α := α) (X := X) (τ := τ')
    ⟨p1, p2.trans hle⟩ ha (one_le_pow₀ hg) hα x.length rfl (hτ.trans hτΩ) (hXX.trans hX) (hmono.trans hΩ) x 0
    ⟨Cx.zero, ⟨Flt.one, Flt.zero⟩, ⟨Flt.one, Flt.zero⟩⟩ (by simp) hx
    ⟨by simpa using cbd_one h, by simpa using cbd_one h, hz, hz⟩
  exact ⟨⟨this.re.1, this.im.1⟩, this.re.2.trans hmono, this.im.2.trans hmono⟩

omit F in
theorem bin_cztAinv (fused fma : Bool) :
    let _ := binFlt 24 24 (-149) (2 ^ 128 - 2 ^ 104) fused fma
    cztAinv (⟨Flt.one, Flt.zero⟩ : Cx (Option ℝ)) = ⟨some 1, some 0⟩ := by
  intro F
  have g1 : grd 24 (-149) (1 : ℝ) = 1 := by exact_mod_cast grd_nat 24 (by norm_num : (-149 : ℤ) ≤ 0) 1 (by norm_num)
  have g0 : grd 24 (-149) (0 : ℝ) = 0 := by exact_mod_cast grd_nat 24 (by norm_num : (-149 : ℤ) ≤ 0) 0 (by norm_num)
  have big : (1 : ℝ) ≤ 2 ^ 128 - 2 ^ 104 := by norm_num
  have m1 : F.mul (some 1) (some 1) = some 1 := by
    show (if |(1 : ℝ) * 1| ≤ _ then some (grd 24 (-149) ((1 : ℝ) * 1)) else none) = some 1
    rw [if_pos (by norm_num), mul_one, g1]
  have m0 : F.mul (some 0) (some 0) = some 0 := by
    show (if |(0 : ℝ) * 0| ≤ _ then some (grd 24 (-149) ((0 : ℝ) * 0)) else none) = some 0
    rw [if_pos (by norm_num), mul_zero, g0]
  have a1 : F.add (some 1) (some 0) = some 1 := by
    show (if |(1 : ℝ) + 0| ≤ _ then some (grd 24 (-149) ((1 : ℝ) + 0)) else none) = some 1
    rw [if_pos (by norm_num), add_zero, g1]
  have d1 : F.div (some 1) (some 1) = some 1 := by
    show (if (1 : ℝ) = 0 then none else if |(1 : ℝ) / 1| ≤ _ then some (grd 24 (-149) ((1 : ℝ) / 1)) else none) = some 1
    rw [if_neg one_ne_zero, if_pos (by norm_num), div_one, g1]
  have n0 : F.neg (some 0) = some 0 := by
    show some (-(0 : ℝ)) = some 0
    rw [neg_zero]
  have d0 : F.div (some 0) (some 1) = some 0 := by
    show (if (1 : ℝ) = 0 then none else if |(0 : ℝ) / 1| ≤ _ then some (grd 24 (-149) ((0 : ℝ) / 1)) else none) = some 0
    rw [if_neg one_ne_zero, if_pos (by norm_num), zero_div, g0]
  have f0 : F.feq (some 1) (some 0) = false := by
    show decide ((1 : ℝ) = 0) = false
    simp
  have e1 : (F.one : Option ℝ) = some 1 := rfl
  have e0 : (F.zero : Option ℝ) = some 0 := rfl
  unfold cztAinv
  simp only [e1, e0, m1, m0, a1, f0, d1, n0, d0, Bool.false_eq_true, if_false]

omit F in
/-- C107t. In binary32, with samples of magnitude at most 2¹⁰⁰, the starting point 1 and a ratio of magnitude at most
`1 + 2⁻²²` (any point of the unit circle rounded to binary32): for `n` samples and `m` bins with `n (m + 2) < 2²⁰` all bins
of the chirp Z-transform are finite. -/
theorem czt_binary32 (fused fma : Bool) (x : List (Option ℝ)) (m : ℕ) (w : Cx (Option ℝ))
    (hx : ∀ b ∈ x, (binDen (-149)).fin b ∧ |(binDen (-149)).val b| ≤ 2 ^ 100)
    (hw : (binDen (-149)).cfin w ∧ ‖(binDen (-149)).cval w‖ ≤ 1 + 1 / 2 ^ 22) (hm : m ≤ 2 ^ 20)
    (hn : x.length * (m + 2) < 2 ^ 20) :
    let _ := binFlt 24 24 (-149) (2 ^ 128 - 2 ^ 104) fused fma
    (czt x m w ⟨Flt.one, Flt.zero⟩).length = m ∧ ∀ c ∈ czt x m w ⟨Flt.one, Flt.zero⟩, (binDen (-149)).cfin c := by
  intro F
  have hF : Ieee F (binDen (-149)) (1 / 2 ^ 24) (1 / 2 ^ 150) (2 ^ 128 - 2 ^ 104) (1 / 2 ^ 24) (1 / 2 ^ 23) :=
    binary32 fused fma
  have hai := bin_cztAinv fused fma
  have ha : (binDen (-149)).cfin (cztAinv (⟨Flt.one, Flt.zero⟩ : Cx (Option ℝ))) ∧
      ‖(binDen (-149)).cval (cztAinv (⟨Flt.one, Flt.zero⟩ : Cx (Option ℝ)))‖ ≤ 1 := by
    have e : cztAinv (⟨Flt.one, Flt.zero⟩ : Cx (Option ℝ)) = ⟨Flt.one, Flt.zero⟩ := hai
    rw [e]
    have h : Env F (binDen (-149)) (1 / 2 ^ 24) (1 / 2 ^ 150) (2 ^ 128 - 2 ^ 104) (1 / 2 ^ 24) (1 / 2 ^ 23) 1 :=
      { hF with D_pos := one_pos, D_le := le_rfl, U_le := by unfold effErr; norm_num }
    exact cbd_one h
  have hε0 : 0 ≤ cztErr (1 / 2 ^ 24) (1 / 2 ^ 150) := mulErr_nonneg (by unfold effErr; norm_num)
  have hε : 1 + cztErr (1 / 2 ^ 24) (1 / 2 ^ 150) ≤ 1 + 1 / 2 ^ 22 := by
    unfold cztErr mulErr effErr
    have h1 : Real.sqrt 2 ≤ 1.5 := Real.sqrt_le_iff.mpr ⟨by norm_num, by norm_num⟩
    have h2 : Real.sqrt 2 * (2 * ((1 : ℝ) / 2 ^ 24 + 2 * (1 / 2 ^ 150) / 1) + (1 / 2 ^ 24 + 2 * (1 / 2 ^ 150) / 1) ^ 2) ≤
        1.5 * (2 * ((1 : ℝ) / 2 ^ 24 + 2 * (1 / 2 ^ 150) / 1) + (1 / 2 ^ 24 + 2 * (1 / 2 ^ 150) / 1) ^ 2) :=
      mul_le_mul_of_nonneg_right h1 (by norm_num)
    have h3 : 1.5 * (2 * ((1 : ℝ) / 2 ^ 24 + 2 * (1 / 2 ^ 150) / 1) + (1 / 2 ^ 24 + 2 * (1 / 2 ^ 150) / 1) ^ 2) ≤ 1 / 2 ^ 22 := by
      norm_num
    linarith
  set b : ℝ := 1 + 1 / 2 ^ 20 with hb
  have hb1 : 1 ≤ b := by rw [hb]; norm_num
  have hεb : 1 + cztErr (1 / 2 ^ 24) (1 / 2 ^ 150) ≤ b := hε.trans (by rw [hb]; norm_num)
  have powb : ∀ k, k ≤ 2 ^ 20 → b ^ k ≤ 3 := by
    intro k hk
    have h1 : b ^ k ≤ Real.exp (k * (1 / 2 ^ 20)) := by
      rw [Real.exp_nat_mul]
      exact pow_le_pow_left₀ (by linarith) (by rw [hb]; linarith [Real.add_one_le_exp (1 / 2 ^ 20 : ℝ)]) k
    have h2 : (k : ℝ) * (1 / 2 ^ 20) ≤ 1 := by
      have : (k : ℝ) ≤ 2 ^ 20 := by exact_mod_cast hk
      linarith
    have h4 := Real.exp_le_exp.mpr h2
    exact h1.trans (h4.trans (Real.exp_one_lt_d9.le.trans (by norm_num)))
  have gω : cztGain (1 / 2 ^ 24) (1 / 2 ^ 150) (1 + 1 / 2 ^ 22) ≤ b := by
    unfold cztGain
    calc _ ≤ (1 + 1 / 2 ^ 22 : ℝ) * (1 + 1 / 2 ^ 22) := mul_le_mul_of_nonneg_right hε (by norm_num)
      _ ≤ b := by rw [hb]; norm_num
  have gω0 : 0 ≤ cztGain (1 / 2 ^ 24) (1 / 2 ^ 150) (1 + 1 / 2 ^ 22) := by unfold cztGain; positivity
  have hκ : cztGain (1 / 2 ^ 24) (1 / 2 ^ 150) (1 + 1 / 2 ^ 22) ^ m ≤ b ^ m := pow_le_pow_left₀ gω0 gω m
  have gκ : cztGain (1 / 2 ^ 24) (1 / 2 ^ 150) (cztGain (1 / 2 ^ 24) (1 / 2 ^ 150) (1 + 1 / 2 ^ 22) ^ m) ≤ b ^ (m + 1) := by
    rw [pow_succ b m, mul_comm (b ^ m) b]
    exact mul_le_mul hεb hκ (by positivity) (by linarith)
  have gα : cztGain (1 / 2 ^ 24) (1 / 2 ^ 150) 1 ≤ b := by unfold cztGain; linarith
  have gκ0 : 0 ≤ cztGain (1 / 2 ^ 24) (1 / 2 ^ 150) (cztGain (1 / 2 ^ 24) (1 / 2 ^ 150) (1 + 1 / 2 ^ 22) ^ m) :=
    mul_nonneg (by linarith) (pow_nonneg gω0 m)
  have gα0 : 0 ≤ cztGain (1 / 2 ^ 24) (1 / 2 ^ 150) 1 := by unfold cztGain; linarith
  have hxn : x.length ≤ 2 ^ 20 := by nlinarith
  have hxr : (x.length : ℝ) ≤ 2 ^ 20 := by exact_mod_cast hxn
  have hτ : (1 + cztErr (1 / 2 ^ 24) (1 / 2 ^ 150)) *
      (cztGain (1 / 2 ^ 24) (1 / 2 ^ 150) (cztGain (1 / 2 ^ 24) (1 / 2 ^ 150) (1 + 1 / 2 ^ 22) ^ m) ^ x.length *
        cztGain (1 / 2 ^ 24) (1 / 2 ^ 150) 1 ^ x.length) ≤ 3 := by
    have e : b ^ (x.length * (m + 2) + 1) = b * ((b ^ (m + 1)) ^ x.length * b ^ x.length) := by
      rw [← pow_mul, ← pow_add, ← pow_succ']
      congr 1
      ring
    refine le_trans ?_ (powb _ (Nat.succ_le_of_lt hn))
    rw [e]
    refine mul_le_mul hεb (mul_le_mul (pow_le_pow_left₀ gκ0 gκ _) (pow_le_pow_left₀ gα0 gα _) (by positivity)
      (by positivity)) (by positivity) (by linarith)
  have hκΩ : cztGain (1 / 2 ^ 24) (1 / 2 ^ 150) (1 + 1 / 2 ^ 22) ^ m ≤ (2 : ℝ) ^ 128 - 2 ^ 104 := by
    exact hκ.trans ((powb m hm).trans (by norm_num))
  have hu : (1 + 1 / 2 ^ 24 : ℝ) ^ x.length ≤ 3 :=
    (pow_le_pow_left₀ (by norm_num) (by rw [hb]; norm_num) _).trans (powb _ hxn)
  have hΩ : (1 + 1 / 2 ^ 24 : ℝ) ^ x.length * (x.length * ((1 + 1 / 2 ^ 24) * (2 ^ 100 * 3) + 1 / 2 ^ 150)) ≤
      2 ^ 128 - 2 ^ 104 := by
    calc _ ≤ (3 : ℝ) * (2 ^ 20 * ((1 + 1 / 2 ^ 24) * (2 ^ 100 * 3) + 1 / 2 ^ 150)) :=
          mul_le_mul hu (mul_le_mul_of_nonneg_right hxr (by norm_num)) (by positivity) (by norm_num)
      _ ≤ _ := by norm_num
  obtain ⟨h1, h2⟩ := czt_finite hF (by norm_num) x m w ⟨Flt.one, Flt.zero⟩ (2 ^ 100) (1 + 1 / 2 ^ 22) 1 3 hx hw (by norm_num)
    ha le_rfl hτ (by norm_num) hκΩ (by norm_num) (by norm_num) hΩ
  exact ⟨h1, fun c hc => (h2 c hc).1⟩

omit F in
/-- 300 samples of value 1000, 500 bins, ratio `-i`. -/
example (fused fma : Bool) :
    let _ := binFlt 24 24 (-149) (2 ^ 128 - 2 ^ 104) fused fma
    ∀ c ∈ czt (List.replicate 300 (some ((1000 : ℕ) : ℝ))) 500 ⟨some 0, some (-1)⟩ ⟨Flt.one, Flt.zero⟩,
      (binDen (-149)).cfin c := by
  refine (czt_binary32 fused fma _ 500 _ ?_ ?_ (by norm_num) (by rw [List.length_replicate]; norm_num)).2
  · intro b hb
    rw [List.eq_of_mem_replicate hb]
    refine ⟨⟨_, rfl, onGrid_nat (by norm_num) 1000⟩, ?_⟩
    show |((1000 : ℕ) : ℝ)| ≤ 2 ^ 100
    norm_num
  · refine ⟨⟨⟨0, rfl, by simpa using onGrid_nat (q := -149) (by norm_num) 0⟩, ⟨-1, rfl, ?_⟩⟩, ?_⟩
    · have := (onGrid_nat (q := -149) (by norm_num) 1).neg
      simpa using this
    · have e : (binDen (-149)).cval (⟨some 0, some (-1)⟩ : Cx (Option ℝ)) = -Complex.I := by
        apply Complex.ext
        · show (0 : ℝ) = _
          simp
        · show (-1 : ℝ) = _
          simp
      rw [e, norm_neg, Complex.norm_I]
      norm_num

end Kofft.Props
