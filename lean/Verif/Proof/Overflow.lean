import Verif.Spec.Overflow
import Verif.Proof.IeeeFft
import Verif.Proof.Sticky
import Verif.Props.Laws
import Verif.Props.Ieee
/-
The chirp transform of an impulse: the product of the two spectra is larger than the impulse.
-/
namespace Kofft

open Spec Complex Finset

variable {T : Type} [F : Flt T] {N : Denote T} {num : T → Prop} {u η Ω Ω' v t D : ℝ}

local notation "U" => effErr u η D

/-- the product of a large real number and a number of modulus over `1.57` is lost -/
theorem ov_cmul (h : Env F N u η Ω v t D) (hO : Overflows F N num Ω') (hΩ' : Ω' ≤ 1.01 * Ω)
    {a b : Cx T} (ha : N.cfin a) (hb : N.cfin b) {r e B : ℝ} (hr : 0.7 * Ω ≤ |r|) (hr1 : |r| ≤ 0.9 * Ω)
    (he0 : 0 ≤ e) (he : e ≤ |r| / 300) (hB0 : 0 ≤ B) (heB : e * B ≤ 0.0202 * |r|)
    (hre : |N.val a.re - r| ≤ e) (him : |N.val a.im| ≤ e) (hB1 : |N.val b.re| ≤ B) (hB2 : |N.val b.im| ≤ B)
    (hbig : 1.57 ≤ |N.val b.re| ∨ 1.57 ≤ |N.val b.im|) : ¬ CFin num (a.mul b) := by
  have hΩ := h.big
  have hD1 := h.D_le
  have hD0 := h.D_pos
  have hη0 := h.eta_nonneg
  have hu0 := h.u_nonneg
  have hU1 := h.U_le
  have hu1 : u ≤ 1 := h.u_le.trans hU1
  have hη1 : η ≤ 1 := by
    have : 2 * η / D ≤ 1 := by unfold effErr at hU1; linarith
    rw [div_le_iff₀ hD0] at this
    linarith
  have hra : |r| - e ≤ |N.val a.re| := by
    have := abs_sub_abs_le_abs_sub r (N.val a.re)
    rw [abs_sub_comm] at this
    linarith
  have hbig' : ∀ q : ℝ, 1.57 ≤ |q| → 1.56 * |r| ≤ |N.val a.re * q| := by
    intro q hq
    rw [abs_mul]
    have : (|r| - e) * 1.57 ≤ |N.val a.re| * |q| := mul_le_mul hra hq (by norm_num) (abs_nonneg _)
    nlinarith
  have hsm : ∀ q : T, N.fin q → |N.val q| ≤ B → N.fin (F.mul a.im q) ∧ |N.val (F.mul a.im q)| ≤ 0.0404 * |r| + 1 := by
    intro q hq hqB
    have h1 : |N.val a.im * N.val q| ≤ 0.0202 * |r| := by
      rw [abs_mul]
      exact (mul_le_mul him hqB (abs_nonneg _) he0).trans heB
    obtain ⟨f, h2⟩ := h.mul a.im q ha.2 hq (by linarith)
    refine ⟨f, ?_⟩
    have h3 := abs_add_le (N.val (F.mul a.im q) - N.val a.im * N.val q) (N.val a.im * N.val q)
    rw [sub_add_cancel] at h3
    have h4 : u * |N.val a.im * N.val q| ≤ 1 * (0.0202 * |r|) := mul_le_mul hu1 h1 (abs_nonneg _) (by norm_num)
    linarith
  have hfma : ∀ q s : T, N.fin q → N.fin s → 1.57 ≤ |N.val q| → |N.val s| ≤ 0.0404 * |r| + 1 →
      ¬ num (F.mulAdd a.re q s) := by
    intro q s hq hs hqb hsb hn
    have h1 := hO.mulAdd _ _ _ ha.1 hq hs hn
    have h2 := abs_sub_abs_le_abs_add (N.val a.re * N.val q) (N.val s)
    have h3 := hbig' _ hqb
    linarith
  have hpl : ∀ q : T, N.fin q → 1.57 ≤ |N.val q| → ¬ num (F.mul a.re q) := by
    intro q hq hqb hn
    have h1 := hO.mul _ _ ha.1 hq hn
    have h3 := hbig' _ hqb
    linarith
  intro H
  unfold Cx.mul at H
  split at H
  · rcases hbig with hbig | hbig
    · obtain ⟨f1, f2⟩ := hsm b.im hb.2 hB2
      obtain ⟨f3, f4⟩ := h.neg _ f1
      exact hfma b.re _ hb.1 f3 hbig (by rw [f4, abs_neg]; exact f2) H.1
    · obtain ⟨f1, f2⟩ := hsm b.re hb.1 hB1
      exact hfma b.im _ hb.2 f1 hbig f2 H.2
  · rcases hbig with hbig | hbig
    · exact hpl _ hb.1 hbig (hO.sticky.sub _ _ H.1).1
    · exact hpl _ hb.2 hbig (hO.sticky.add _ _ H.2).1

omit F in
/-- some value of the spectrum of the chirp has modulus at least `√(2n-1)` -/
theorem chirp_spectrum {n : ℕ} (hn : 0 < n) :
    ∃ j, j < bluM n ∧ (2 * n - 1 : ℝ) ≤ ‖dft (bluM n) (bExact n) j‖ ^ 2 := by
  have hm0 : 0 < bluM n := isPow2_pos (bluM_pow2 n)
  have hpar := parseval hm0.ne' (bExact n)
  have hb : ∀ i ∈ range (bluM n), ‖bExact n i‖ ^ 2 = bWeight n i := by
    intro i _
    have e : ∀ q : ℕ, ‖exp (Real.pi * (q : ℕ) / n * I)‖ = 1 := by
      intro q
      rw [show (Real.pi : ℂ) * (q : ℕ) / n * I = ((Real.pi * q / n : ℝ) : ℂ) * I by push_cast; ring]
      exact Complex.norm_exp_ofReal_mul_I _
    unfold bExact bWeight
    split
    · rw [e]; norm_num
    split
    · rw [e]; norm_num
    · simp
  rw [sum_congr rfl hb, bWeight_sum (F := realFlt true) hn] at hpar
  have hne : (range (bluM n)).Nonempty := ⟨0, by simpa using hm0⟩
  obtain ⟨j, hj, h1⟩ := exists_le_of_sum_le (s := range (bluM n)) (f := fun _ => (2 * n - 1 : ℝ))
    (g := fun j => ‖dft (bluM n) (bExact n) j‖ ^ 2) hne (by
      rw [hpar, sum_const, card_range, nsmul_eq_mul])
  exact ⟨j, by simpa using hj, h1⟩

/-- if one product of the spectra is lost, every output is -/
theorem ov_bluOut (hS : Sticky F num) (cfg : Cfg) (x : List (Cx T)) (hx : 0 < x.length) (j : ℕ) (hj : j < bluM x.length)
    (hbad : ¬ CFin num (((freshPow cfg (bluA x.length (bluM x.length) (bluM x.length) (fun i => x.getD i Cx.zero)
      (fun _ => Cx.zero))).getD j Cx.zero).mul ((freshPow cfg (tab (bluM x.length) (bAt x.length))).getD j Cx.zero))) :
    ∀ c ∈ bluOut cfg x, ¬ CFin num c := by
  intro c hc H
  unfold bluOut at hc
  simp only at hc
  generalize hn : x.length = n at *
  have hmp : isPow2 (bluM n) = true := bluM_pow2 n
  have hmge := bluM_ge n
  generalize hm : bluM n = m at *
  generalize hA : bluA n m m (fun i => x.getD i Cx.zero) (fun _ => Cx.zero) = A at *
  have hAl : A.length = m := by rw [← hA]; simp [bluA]
  have hFA : (freshPow cfg A).length = m := by rw [ie_freshPow_length cfg A (by rw [hAl]; exact hmp), hAl]
  have hFB : (bluPair (T := T) cfg n).2 = freshPow cfg (tab m (bAt n)) := by rw [bluPair, hm]
  have hFBl : (freshPow cfg (tab m (bAt (T := T) n))).length = m := by
    rw [ie_freshPow_length cfg _ (by simpa using hmp), tab_length]
  rw [hFB] at hc
  generalize freshPow cfg A = FA at *
  generalize freshPow cfg (tab m (bAt (T := T) n)) = FB at *
  have hMl : (bluMid FA FB).length = m := by rw [bluMid_length, hFA]
  have hMtab : bluMid FA FB = tab m (fun i => ((FA.getD i Cx.zero).mul (FB.getD i Cx.zero)).conj) := by
    have t1 : FA = tab m (fun i => FA.getD i Cx.zero) := by
      conv_lhs => rw [eq_tab_getD FA Cx.zero, hFA]
    have t2 : FB = tab m (fun i => FB.getD i Cx.zero) := by
      conv_lhs => rw [eq_tab_getD FB Cx.zero, hFBl]
    have : bluMid FA FB = (copyPrefix (List.zipWith Cx.mul (tab m fun i => FA.getD i Cx.zero)
        (tab m fun i => FB.getD i Cx.zero)) (tab m fun i => FA.getD i Cx.zero)).map Cx.conj := by
      rw [← t1, ← t2]; rfl
    rw [this, tab_zipWith, (copyN_tab (m := m) le_rfl le_rfl).1, tab_map]
    apply tab_congr
    intro i hi
    simp [hi]
  have hbadM : ∃ b ∈ bluMid FA FB, ¬ CFin num b := by
    refine ⟨((FA.getD j Cx.zero).mul (FB.getD j Cx.zero)).conj, ?_, fun H => hbad (st_conj hS H)⟩
    rw [hMtab, List.mem_iff_getElem]
    exact ⟨j, by simpa using hj, by rw [tab_getElem]⟩
  obtain ⟨b, hb, hb'⟩ := hbadM
  have hp2 : isPow2 (bluMid FA FB).length = true := by rw [hMl]; exact hmp
  have h3 : ∀ c ∈ freshPow cfg (bluMid FA FB), ¬ CFin num c :=
    fun c hc H => hb' (st_powOut hS cfg _ splitOk_new hp2 c hc H b hb)
  have hl3 : (freshPow cfg (bluMid FA FB)).length = m := by rw [ie_freshPow_length cfg _ hp2, hMl]
  generalize freshPow cfg (bluMid FA FB) = a3 at *
  unfold bluPost at hc
  obtain ⟨i, hi, rfl⟩ := List.mem_iff_getElem.mp hc
  rw [tab_length] at hi
  rw [tab_getElem] at H
  have hi3 : i < a3.length := by omega
  have := st_conj hS (st_scale hS (st_mul hS H))
  rw [List.getD_eq_getElem?_getD, List.getElem?_eq_getElem hi3, Option.getD_some] at this
  exact h3 _ (List.getElem_mem hi3) this

omit F in
theorem csig_impulse {r : ℝ} {x : List (Cx T)} (hx : Impulse N r x) (i : ℕ) : N.csig x i = if i = 0 then (r : ℂ) else 0 := by
  split
  · subst i; exact hx.2.1
  · exact hx.2.2 i (by omega)

set_option maxHeartbeats 1000000 in
theorem ov_impulse (h : Env F N u η Ω v t D) (hO : Overflows F N num Ω') (hΩ' : Ω' ≤ 1.01 * Ω) (cfg : Cfg)
    (x : List (Cx T)) (hn3 : 3 ≤ x.length) (hn31 : x.length ≤ 2 ^ 31) {r : ℝ} (hx : Impulse N r x)
    (hr : 0.7 * Ω ≤ |r|) (hr1 : |r| ≤ 0.9 * Ω) (hmD : bluM x.length * D ≤ 1) (hΩ : 38 * (x.length : ℝ) ^ 2 ≤ Ω)
    (hsm : ((1 + mulErr U) * (1 + chirpErr U v t x.length) * powGrowth cfg U v t (bluM x.length) - 1) * (2 * x.length) ≤
      1 / 100) : ∀ c ∈ bluOut cfg x, ¬ CFin num c := by
  have hbigΩ := h.big
  have hμ := mulErr_nonneg h.U_nonneg
  have hDp := h.D_pos
  obtain ⟨j, hj, hβ⟩ := chirp_spectrum (n := x.length) (by omega)
  refine ov_bluOut hO.sticky cfg x (by omega) j hj ?_
  have hmge := bluM_ge x.length
  have hmlt := bluM_lt (n := x.length) (by omega)
  have hmp := bluM_pow2 x.length
  have hP1 := ie_powG h cfg (bluM x.length)
  have hce := ie_chirpErr h x.length
  have hin := Props.ie_input hDp x hx.1
  have hsig := csig_impulse hx
  set n := x.length with hnx
  set m := bluM n with hm
  have hn3' : (3 : ℝ) ≤ n := by exact_mod_cast hn3
  have hnm : (n : ℝ) ≤ m := by exact_mod_cast (by omega : n ≤ m)
  set c := 1 + chirpErr U v t n with hc
  have hc1 : 1 ≤ c := by linarith
  set P := powGrowth cfg U v t m with hP
  have hmu1 : 1 ≤ 1 + mulErr U := by linarith
  have hcP1 : 1 ≤ c * P := one_le_mul_of_one_le_of_one_le hc1 hP1
  have hQ1 : c * P ≤ (1 + mulErr U) * c * P := by
    rw [mul_assoc]; exact le_mul_of_one_le_left (by linarith) hmu1
  set Q := (1 + mulErr U) * c * P with hQ
  have hκ : Q - 1 ≤ 1 / 600 := by nlinarith
  have hPQ : P ≤ Q := le_trans (le_mul_of_one_le_left (by linarith) hc1) hQ1
  have hr1' : 1 ≤ |r| := by linarith
  have hS : ∑ i ∈ range n, (‖N.csig x i‖ + D) + ((m : ℝ) - n) * D = |r| + m * D := by
    rw [Props.ie_sum]
    congr 1
    rw [sum_congr rfl (g := fun i => if i = 0 then |r| else 0) (fun i _ => by
      rw [hsig]; split <;> simp)]
    rw [sum_ite_eq' (range n) 0 (fun _ => |r|), if_pos (by simp; omega)]
  set S := |r| + m * D with hSdef
  have hS0 : 0 ≤ S := by positivity
  have hS1 : S ≤ |r| + 1 := by linarith
  have hSr : S ≤ 2 * |r| := by linarith
  have hQS : Q * S ≤ Ω := by nlinarith
  set A := bluA n m m (fun i => x.getD i Cx.zero) (fun _ => Cx.zero) with hA
  have hAl : A.length = m := by simp [hA, bluA]
  let a : ℕ → ℂ := fun i => if i < n then N.csig x i * exp (-(Real.pi * (i * i : ℕ) / n * I)) else 0
  let aw : ℕ → ℝ := fun i => if i < n then ‖N.csig x i‖ + D else D
  have haw : ∑ i ∈ range m, aw i = S := by
    simp only [aw]
    rw [← hS]
    have hle : n ≤ m := by omega
    rw [← sum_range_add_sum_Ico _ hle]
    congr 1
    · exact sum_congr rfl fun i hi => if_pos (by simpa using hi)
    · rw [sum_congr rfl (g := fun _ => D) fun i hi => if_neg (by rw [mem_Ico] at hi; omega)]
      rw [sum_const, Nat.card_Ico, nsmul_eq_mul, Nat.cast_sub hle]
  have haw0 : ∀ i, 0 ≤ aw i := by
    intro i; simp only [aw]; split <;> positivity
  have hawS : ∀ i, i < m → aw i ≤ S := by
    intro i hi
    rw [← haw]
    exact single_le_sum (f := aw) (fun j _ => haw0 j) (by simpa using hi)
  have hcμ : c * (1 + mulErr U) ≤ Q := by
    rw [hQ, mul_comm c]; exact le_mul_of_one_le_right (by positivity) hP1
  have o1 : 1 ≤ c * (1 + mulErr U) := one_le_mul_of_one_le_of_one_le hc1 hmu1
  have hAa : ∀ i, i < m → IAp N D (c * (1 + mulErr U)) (A.getD i Cx.zero) (a i) (aw i) := by
    intro i hi
    have hsi := hawS i hi
    rw [hA, bluA, tab_getD hi]
    simp only [a, aw] at hsi ⊢
    by_cases h1 : i < n
    · rw [if_pos h1] at hsi
      rw [if_pos h1, if_pos h1, if_pos h1]
      have hI := hin i h1
      have := hI.mul h (ie_mul h) (ie_chirpAt h h1 hn31 hΩ) (by rw [mul_one]; exact hI.floor)
        (by
          rw [mul_one, one_mul, ← hc]
          exact (mul_le_mul hcμ hsi hI.nonneg (by linarith)).trans hQS)
      rwa [mul_one, one_mul] at this
    · rw [if_neg h1, if_pos hi, if_neg h1, if_neg h1]
      exact IAp.zero h o1 le_rfl
  set B := tab m (bAt (T := T) n) with hB
  have hBl : B.length = m := by simp [hB]
  have hBb : ∀ i, i < m → IAp N D c (B.getD i Cx.zero) (bExact n i) (bWeight n i + D) := by
    intro i hi
    rw [hB, tab_getD hi]; exact ie_bAt h hi hn31 hΩ
  have hbw : ∑ i ∈ range m, (bWeight n i + D) ≤ 2 * n := by
    rw [sum_add_distrib, bWeight_sum (F := realFlt true) (by omega : 0 < n)]
    simp only [sum_const, card_range, nsmul_eq_mul]
    linarith
  have hmΩ : m < 2 ^ 64 := by omega
  have eFA := ie_freshPow h cfg A (by rw [hAl]; exact hmp) a aw _ (by rw [hAl]; exact hAa) (by rw [hAl]; exact hmΩ)
      (by rw [hAl]; exact hmD) (by rw [hAl]; linarith) (by
        rw [hAl, haw, mul_comm c]; exact hQS) j (by omega)
  rw [hAl, haw] at eFA
  have eFB := ie_freshPow h cfg B (by rw [hBl]; exact hmp) (bExact n) (fun i => bWeight n i + D) _
      (by rw [hBl]; exact hBb) (by rw [hBl]; exact hmΩ)
      (by rw [hBl]; exact hmD) (by rw [hBl]; linarith) (by
        rw [hBl]
        refine (mul_le_mul_of_nonneg_left hbw (by linarith)).trans ?_
        nlinarith) j (by omega)
  rw [hBl] at eFB
  have eFB := eFB.weight hbw
  have hda : dft m a j = r := by
    unfold dft
    rw [sum_eq_single 0]
    · simp only [a]
      rw [if_pos (by omega), hsig, if_pos rfl]
      simp [W_zero]
    · intro b _ hb
      simp only [a]
      rw [hsig, if_neg hb]
      simp
    · intro h; simp at h; omega
  rw [hda] at eFA
  set FA := (freshPow cfg A).getD j Cx.zero
  set FB := (freshPow cfg B).getD j Cx.zero
  have eA : ‖N.cval FA - r‖ ≤ (Q - 1) * S := by
    have := eFA.err
    rw [hQ, mul_comm (1 + mulErr U)]
    exact this
  have eB : ‖N.cval FB - dft m (bExact n) j‖ ≤ 1 / 100 := by
    refine eFB.err.trans (le_trans ?_ hsm)
    exact mul_le_mul_of_nonneg_right (by linarith) (by positivity)
  have bB : ‖N.cval FB‖ ≤ 1.01 * (2 * n) := by
    have h1 : ‖N.cval FB‖ ≤ ‖N.cval FB - dft m (bExact n) j‖ + ‖dft m (bExact n) j‖ := by
      have := norm_add_le (N.cval FB - dft m (bExact n) j) (dft m (bExact n) j)
      rwa [sub_add_cancel] at this
    have h2 := eFB.bd
    nlinarith
  refine ov_cmul h hO hΩ' eFA.fin eFB.fin hr hr1 (e := (Q - 1) * S) (B := 1.01 * (2 * n))
    (mul_nonneg (by linarith) hS0) ?_ (by positivity) ?_ ?_ ?_ ?_ ?_ ?_
  · have := mul_le_mul hκ hSr hS0 (by norm_num)
    linarith
  · have h1 : (Q - 1) * (2 * n) * S ≤ 1 / 100 * (2 * |r|) := mul_le_mul hsm hSr hS0 (by norm_num)
    nlinarith
  · have := abs_re_le_norm (N.cval FA - r)
    simp only [sub_re, ofReal_re] at this
    exact this.trans eA
  · have := abs_im_le_norm (N.cval FA - r)
    simp only [sub_im, ofReal_im, sub_zero] at this
    exact this.trans eA
  · exact (abs_re_le_norm (N.cval FB)).trans bB
  · exact (abs_im_le_norm (N.cval FB)).trans bB
  · have h1 := abs_re_le_norm (N.cval FB - dft m (bExact n) j)
    have h2 := abs_im_le_norm (N.cval FB - dft m (bExact n) j)
    rw [sub_re] at h1
    rw [sub_im] at h2
    have h3 := abs_sub_abs_le_abs_sub (dft m (bExact n) j).re (N.cval FB).re
    have h4 := abs_sub_abs_le_abs_sub (dft m (bExact n) j).im (N.cval FB).im
    rw [abs_sub_comm] at h3 h4
    have hre : N.val FB.re = (N.cval FB).re := rfl
    have him : N.val FB.im = (N.cval FB).im := rfl
    rw [hre, him]
    by_contra hcon
    rw [not_or, not_le, not_le] at hcon
    have e1 : |(dft m (bExact n) j).re| ≤ 1.58 := by linarith
    have e2 : |(dft m (bExact n) j).im| ≤ 1.58 := by linarith
    have e3 : ‖dft m (bExact n) j‖ ^ 2 = (dft m (bExact n) j).re ^ 2 + (dft m (bExact n) j).im ^ 2 := by
      rw [← normSq_eq_norm_sq, normSq_apply]; ring
    rw [e3, ← sq_abs, ← sq_abs (dft m (bExact n) j).im] at hβ
    have := abs_nonneg (dft m (bExact n) j).re
    have := abs_nonneg (dft m (bExact n) j).im
    nlinarith

end Kofft
