import Verif.Spec.WindowErr
import Verif.Props.RoundingSpectral
import Verif.Props.Window
import Verif.Props.WindowFlt
import Mathlib.Analysis.Real.Pi.Bounds
/-
C115: the Blackman, Nuttall, Bartlett and Bohman windows in rounded arithmetic.
-/
namespace Kofft.Props
open Spec Finset

variable [F : Flt ℝ] {u v t : ℝ}

section steps
variable {a b z w A B : ℝ} {j k m : ℕ}

omit F in
theorem one_add_le_c (hu0 : 0 ≤ u) (hu : u < 1) : 1 + u ≤ 1 / (1 - u) := by
  rw [le_div_iff₀ (by linarith)]; nlinarith

theorem c_mul (hF : Rounding F u v t) (hu : u < 1) {g h : ℝ} (H : RApx g a z A) (K : RApx h b w B) :
    RApx (g * h * (1 / (1 - u))) (F.mul a b) (z * w) (A * B) :=
  (RApx.mul H K hF.u_nonneg (hF.mul a b)).mono
    (mul_le_mul_of_nonneg_left (one_add_le_c hF.u_nonneg hu) (mul_nonneg (by linarith [H.one]) (by linarith [K.one])))

theorem c_add (hF : Rounding F u v t) (hu : u < 1) {g : ℝ} (H : RApx g a z A) (K : RApx g b w B) :
    RApx (g * (1 / (1 - u))) (F.add a b) (z + w) (A + B) :=
  (RApx.add H K hF.u_nonneg (hF.add a b)).mono
    (mul_le_mul_of_nonneg_left (one_add_le_c hF.u_nonneg hu) (by linarith [H.one]))

theorem c_sub (hF : Rounding F u v t) (hu : u < 1) {g : ℝ} (H : RApx g a z A) (K : RApx g b w B) :
    RApx (g * (1 / (1 - u))) (F.sub a b) (z - w) (A + B) := by
  have := RApx.add H K.neg hF.u_nonneg (c := F.sub a b) (by rw [← sub_eq_add_neg]; exact hF.sub a b)
  rw [← sub_eq_add_neg] at this
  exact this.mono (mul_le_mul_of_nonneg_left (one_add_le_c hF.u_nonneg hu) (by linarith [H.one]))

theorem c_div (hF : Rounding F u v t) (hu : u < 1) {g ε : ℝ} (H : RApx g a z A) (hw : 0 < w) (h0 : 0 ≤ ε) (h1 : ε < 1)
    (hb : |b - w| ≤ ε * w) : RApx (g * (1 / (1 - ε)) * (1 / (1 - u))) (F.div a b) (z / w) (A / w) := by
  have := div_rnd hF H hw.ne' h0 h1 (by rw [abs_of_pos hw]; exact hb)
  rw [abs_of_pos (inv_pos.mpr hw), ← div_eq_mul_inv] at this
  exact this.mono (mul_le_mul_of_nonneg_left (one_add_le_c hF.u_nonneg hu)
    (mul_nonneg (by linarith [H.one]) (div_nonneg zero_le_one (by linarith))))

theorem c_lit (hF : Rounding F u v t) (hu : u < 1) (n : ℤ) (e : ℕ) (z : ℝ) (hz : 0 ≤ z) (he : (n : ℝ) / 10 ^ e = z) :
    RApx (1 / (1 - u)) (F.lit n e) z z := by
  have := hF.lit n e
  rw [he, abs_of_nonneg hz] at this
  exact (RApx.mk' (g := 1 + u) (by linarith [hF.u_nonneg]) (by linarith) (by rw [abs_of_nonneg hz])).mono
    (one_add_le_c hF.u_nonneg hu)

theorem c_pi (hF : Rounding F u v t) (hu : u < 1) : RApx (1 / (1 - u)) F.pi Real.pi Real.pi :=
  (pi_rnd hF).mono (one_add_le_c hF.u_nonneg hu)

omit F in
theorem c_pow (hu0 : 0 ≤ u) (hu : u < 1) {g : ℝ} (m : ℕ) (H : RApx g a z A) (hg : g = (1 / (1 - u)) ^ k) (hk : k ≤ m) :
    RApx ((1 / (1 - u)) ^ m) a z A := by
  apply H.mono
  rw [hg]
  exact pow_le_pow_right₀ (by have := one_add_le_c hu0 hu; linarith) hk

omit F in
/-- a larger scale -/
theorem RApx_scale {g : ℝ} (H : RApx g a z A) (hA : A ≤ B) : RApx g a z B :=
  RApx.mk' H.one (H.abs_err.trans (mul_le_mul_of_nonneg_left hA (by linarith [H.one]))) (H.abs_bd.trans hA)

omit F in
/-- cosine and sine of a computed angle -/
theorem c_trig {f' f : ℝ → ℝ} {g : ℝ} (hl : |f a - f z| ≤ |a - z|) (hf : |f z| ≤ 1) (ht : |f' a - f a| ≤ t) (ht0 : 0 ≤ t)
    (H : RApx g a z A) (hA : A ≤ B) : RApx (1 + (t + (g - 1) * B)) (f' a) (f z) 1 := by
  have h1 := (RApx_scale H hA).abs_err
  have h0 : 0 ≤ (g - 1) * B := (abs_nonneg _).trans h1
  refine RApx.mk' (by linarith) ?_ hf
  have := abs_add_le (f' a - f a) (f a - f z)
  rw [sub_add_sub_cancel] at this
  linarith

end steps

/-- the factor of a cosine in the windows -/
noncomputable def cosG (u t : ℝ) : ℝ := 1 + (t + ((1 / (1 - u)) ^ 8 - 1) * (6 * Real.pi))

theorem c_cos (hF : Rounding F u v t) {a z A : ℝ} (H : RApx ((1 / (1 - u)) ^ 8) a z A) (hA : A ≤ 6 * Real.pi) :
    RApx (cosG u t) (F.cos a) (Real.cos z) 1 :=
  c_trig (cos_lip _ _) (Real.abs_cos_le_one _) (hF.cos _) hF.t_nonneg H hA

theorem c_sin (hF : Rounding F u v t) {a z A : ℝ} (H : RApx ((1 / (1 - u)) ^ 8) a z A) (hA : A ≤ 6 * Real.pi) :
    RApx (cosG u t) (F.sin a) (Real.sin z) 1 :=
  c_trig (sin_lip _ _) (Real.abs_sin_le_one _) (hF.sin _) hF.t_nonneg H hA

/-- a constant times a cosine -/
theorem c_term (hF : Rounding F u v t) (hu : u < 1) {l L a z : ℝ} (hl : RApx (1 / (1 - u)) l L L) (H : RApx (cosG u t) a z 1) :
    RApx ((1 / (1 - u)) ^ 2 * cosG u t) (F.mul l a) (L * z) L := by
  have := c_mul hF hu hl H
  rw [mul_one] at this
  refine this.mono (le_of_eq (by ring))

section windows

omit F in
theorem c_one (hu0 : 0 ≤ u) (hu : u < 1) : 1 ≤ 1 / (1 - u) := by have := one_add_le_c hu0 hu; linarith

theorem cosG_one (hF : Rounding F u v t) (hu : u < 1) : 1 ≤ cosG u t := by
  unfold cosG
  have h1 := one_le_pow₀ (n := 8) (c_one hF.u_nonneg hu)
  have h2 : 0 ≤ ((1 / (1 - u)) ^ 8 - 1) * (6 * Real.pi) := mul_nonneg (by linarith) (by positivity)
  linarith [hF.t_nonneg]

/-- C115a. Every sample of the Blackman window. -/
theorem blackman_error (hF : Rounding F u v t) (hu : u < 1) (n i : ℕ) (hi : i < n) (hD : ∀ m, m ≤ n → F.ofNatD m = m) :
    |(blackman n : List ℝ).getD i 0 -
      (0.42 - 0.5 * Real.cos (2 * Real.pi * i / n) + 0.08 * Real.cos (4 * Real.pi * i / n))| ≤ windowsGrowth u t - 1 := by
  have hu0 := hF.u_nonneg
  have hn : (0 : ℝ) < n := by exact_mod_cast (by omega : 0 < n)
  have hc := c_one hu0 hu
  have hG := cosG_one hF hu
  unfold blackman
  rw [getD_range_map hi]
  unfold blackmanAt
  simp only []
  rw [hD i hi.le, hD n le_rfl]
  have hin : (i : ℝ) / n ≤ 1 := by rw [div_le_one hn]; exact_mod_cast hi.le
  have hin0 : (0 : ℝ) ≤ (i : ℝ) / n := by positivity
  -- the position
  have x0 : RApx 1 (i : ℝ) i i := by simpa using RApx.refl (i : ℝ)
  have x1 := c_div hF hu x0 (b := (n : ℝ)) hn (le_refl 0) one_pos (by simp)
  set x' := F.div (i : ℝ) n with hx'
  have p2 := c_mul hF hu (c_lit hF hu 2 0 2 (by norm_num) (by norm_num)) (c_pi hF hu)
  have p4 := c_mul hF hu (c_lit hF hu 4 0 4 (by norm_num) (by norm_num)) (c_pi hF hu)
  have a2 := c_pow hu0 hu 8 (k := 5) (c_mul hF hu p2 x1) (by ring) (by norm_num)
  have a4 := c_pow hu0 hu 8 (k := 5) (c_mul hF hu p4 x1) (by ring) (by norm_num)
  have hpi := Real.pi_pos
  have c2 := c_cos hF a2 (by nlinarith)
  have c4 := c_cos hF a4 (by nlinarith)
  have t2 := c_term hF hu (c_lit hF hu 5 1 (0.5) (by norm_num) (by norm_num)) c2
  have t4 := c_term hF hu (c_lit hF hu 8 2 (0.08) (by norm_num) (by norm_num)) c4
  have l1 := (c_lit hF hu 42 2 (0.42) (by norm_num) (by norm_num)).mono (show 1 / (1 - u) ≤ (1 / (1 - u)) ^ 2 * cosG u t by
    nlinarith [mul_nonneg (by linarith : (0:ℝ) ≤ 1 / (1 - u)) (by linarith : (0 : ℝ) ≤ 1 / (1 - u) - 1), sq_nonneg (1 / (1 - u))])
  have s1 := c_sub hF hu l1 t2
  have t4' := t4.mono (show (1 / (1 - u)) ^ 2 * cosG u t ≤ (1 / (1 - u)) ^ 2 * cosG u t * (1 / (1 - u)) by
    apply le_mul_of_one_le_right _ hc; positivity)
  have s2 := (c_add hF hu s1 t4').mono (show _ ≤ windowsGrowth u t by
    unfold windowsGrowth
    change (1 / (1 - u)) ^ 2 * cosG u t * (1 / (1 - u)) * (1 / (1 - u)) ≤ (1 / (1 - u)) ^ 6 * cosG u t
    rw [show (1 / (1 - u)) ^ 2 * cosG u t * (1 / (1 - u)) * (1 / (1 - u)) = (1 / (1 - u)) ^ 4 * cosG u t by ring]
    exact mul_le_mul_of_nonneg_right (pow_le_pow_right₀ hc (by norm_num)) (by linarith))
  have r := RApx.abs_err s2
  rw [show (0.42 : ℝ) + 0.5 + 0.08 = 1 by norm_num, mul_one, mul_div_assoc' _ (i : ℝ), mul_div_assoc' _ (i : ℝ)] at r
  exact r

/-- C115b. Every sample of the Nuttall window (at least two samples). -/
theorem nuttall_error (hF : Rounding F u v t) (hu : u < 1) (n i : ℕ) (h2 : 2 ≤ n) (hi : i < n)
    (hD : ∀ m, m ≤ n → F.ofNatD m = m) :
    (let x := 2 * Real.pi * i / ((n : ℝ) - 1)
     |(nuttall n : List ℝ).getD i 0 - (0.355768 - 0.487396 * Real.cos x + 0.144232 * Real.cos (2 * x) -
       0.012604 * Real.cos (3 * x))| ≤ windowsGrowth u t - 1) := by
  intro x
  have hu0 := hF.u_nonneg
  have hn : (0 : ℝ) < (n : ℝ) - 1 := by
    have : (2 : ℝ) ≤ n := by exact_mod_cast h2
    linarith
  have hc := c_one hu0 hu
  have hG := cosG_one hF hu
  unfold nuttall
  rw [getD_range_map hi]
  simp only []
  rw [hD i hi.le, hD n le_rfl, hF.one]
  have hin : (i : ℝ) ≤ (n : ℝ) - 1 := by
    have : ((i + 1 : ℕ) : ℝ) ≤ n := by exact_mod_cast hi
    push_cast at this; linarith
  have hi0 : (0 : ℝ) ≤ i := Nat.cast_nonneg i
  have hpi := Real.pi_pos
  have hx : 2 * Real.pi * i / ((n : ℝ) - 1) ≤ 2 * Real.pi := by
    rw [div_le_iff₀ hn]; exact mul_le_mul_of_nonneg_left hin (by positivity)
  have x0 : RApx 1 (i : ℝ) i i := by simpa using RApx.refl (i : ℝ)
  have d1 : |F.sub (n : ℝ) 1 - ((n : ℝ) - 1)| ≤ u * ((n : ℝ) - 1) := by
    have := hF.sub (n : ℝ) 1
    rwa [abs_of_pos hn] at this
  have p1 := c_mul hF hu (c_mul hF hu (c_lit hF hu 2 0 2 (by norm_num) (by norm_num)) (c_pi hF hu)) x0
  have a1 := c_div hF hu p1 hn hu0 hu d1
  change RApx _ _ x x at a1
  change x ≤ 2 * Real.pi at hx
  have a2 := c_mul hF hu (c_lit hF hu 2 0 2 (by norm_num) (by norm_num)) a1
  have a3 := c_mul hF hu (c_lit hF hu 3 0 3 (by norm_num) (by norm_num)) a1
  set x' := F.div (F.mul (F.mul (F.lit 2 0) F.pi) (i : ℝ)) (F.sub (n : ℝ) 1) with hx'
  have c1 := c_cos hF (c_pow hu0 hu 8 (k := 6) a1 (by ring) (by norm_num)) (by linarith)
  have c2 := c_cos hF (c_pow hu0 hu 8 (k := 8) a2 (by ring) (by norm_num)) (by linarith)
  have c3 := c_cos hF (c_pow hu0 hu 8 (k := 8) a3 (by ring) (by norm_num)) (by linarith)
  have t1 := c_term hF hu (c_lit hF hu 487396 6 (0.487396) (by norm_num) (by norm_num)) c1
  have t2 := c_term hF hu (c_lit hF hu 144232 6 (0.144232) (by norm_num) (by norm_num)) c2
  have t3 := c_term hF hu (c_lit hF hu 12604 6 (0.012604) (by norm_num) (by norm_num)) c3
  have l1 := (c_lit hF hu 355768 6 (0.355768) (by norm_num) (by norm_num)).mono (show 1 / (1 - u) ≤ (1 / (1 - u)) ^ 2 * cosG u t by
    nlinarith [mul_nonneg (by linarith : (0:ℝ) ≤ 1 / (1 - u)) (by linarith : (0 : ℝ) ≤ 1 / (1 - u) - 1), sq_nonneg (1 / (1 - u))])
  have s1 := c_sub hF hu l1 t1
  have t2' := t2.mono (show (1 / (1 - u)) ^ 2 * cosG u t ≤ (1 / (1 - u)) ^ 2 * cosG u t * (1 / (1 - u)) by
    apply le_mul_of_one_le_right _ hc; positivity)
  have s2 := c_add hF hu s1 t2'
  have t3' := t3.mono (show (1 / (1 - u)) ^ 2 * cosG u t ≤ (1 / (1 - u)) ^ 2 * cosG u t * (1 / (1 - u)) * (1 / (1 - u)) by
    rw [mul_assoc ((1 / (1 - u)) ^ 2 * cosG u t)]
    apply le_mul_of_one_le_right _ (one_le_mul_of_one_le_of_one_le hc hc); positivity)
  have s3 := (c_sub hF hu s2 t3').mono (show _ ≤ windowsGrowth u t by
    unfold windowsGrowth
    change (1 / (1 - u)) ^ 2 * cosG u t * (1 / (1 - u)) * (1 / (1 - u)) * (1 / (1 - u)) ≤ (1 / (1 - u)) ^ 6 * cosG u t
    rw [show (1 / (1 - u)) ^ 2 * cosG u t * (1 / (1 - u)) * (1 / (1 - u)) * (1 / (1 - u)) = (1 / (1 - u)) ^ 5 * cosG u t by ring]
    exact mul_le_mul_of_nonneg_right (pow_le_pow_right₀ hc (by norm_num)) (by linarith))
  have r := RApx.abs_err s3
  rw [show (0.355768 : ℝ) + 0.487396 + 0.144232 + 0.012604 = 1 by norm_num, mul_one] at r
  exact r

/-- C115c. Every sample of the Bohman window of the source (at least two samples). -/
theorem bohman_error (hF : Rounding F u v t) (habs : ∀ a, F.abs a = |a|) (hu : u < 1) (n i : ℕ) (h2 : 2 ≤ n) (hi : i < n)
    (hD : ∀ m, m ≤ n → F.ofNatD m = m) :
    (let x := (i : ℝ) / ((n : ℝ) - 1) - 1 / 2
     |(bohman n : List ℝ).getD i 0 - ((1 - |x|) * Real.cos (Real.pi * x) + 1 / Real.pi * Real.sin (Real.pi * x))| ≤
       3 * (windowsGrowth u t - 1)) := by
  intro x
  have hu0 := hF.u_nonneg
  have hn : (0 : ℝ) < (n : ℝ) - 1 := by
    have : (2 : ℝ) ≤ n := by exact_mod_cast h2
    linarith
  have hc := c_one hu0 hu
  have hG := cosG_one hF hu
  unfold bohman
  rw [getD_range_map hi]
  simp only []
  rw [hD i hi.le, hD n le_rfl, hF.one]
  have hin : (i : ℝ) ≤ (n : ℝ) - 1 := by
    have : ((i + 1 : ℕ) : ℝ) ≤ n := by exact_mod_cast hi
    push_cast at this; linarith
  have hi0 : (0 : ℝ) ≤ i := Nat.cast_nonneg i
  have hpi := Real.pi_gt_three
  have hx1 : (i : ℝ) / ((n : ℝ) - 1) ≤ 1 := by rw [div_le_one hn]; exact hin
  have hx0 : 0 ≤ (i : ℝ) / ((n : ℝ) - 1) := div_nonneg hi0 hn.le
  have x0 : RApx 1 (i : ℝ) i i := by simpa using RApx.refl (i : ℝ)
  have d1 : |F.sub (n : ℝ) 1 - ((n : ℝ) - 1)| ≤ u * ((n : ℝ) - 1) := by
    have := hF.sub (n : ℝ) 1
    rwa [abs_of_pos hn] at this
  have q1 := c_pow hu0 hu 2 (k := 2) (c_div hF hu x0 hn hu0 hu d1) (by ring) le_rfl
  have half' : RApx ((1 / (1 - u)) ^ 2) (F.lit 5 1) (1 / 2) (1 / 2) := by
    have := c_pow hu0 hu 2 (k := 1) (c_lit hF hu 5 1 (1 / 2) (by norm_num) (by norm_num)) (by ring) (by norm_num)
    exact this
  have xx := RApx_scale (c_sub hF hu q1 half') (show (i : ℝ) / ((n : ℝ) - 1) + 1 / 2 ≤ 3 / 2 by linarith)
  change RApx _ _ x _ at xx
  set x' := F.sub (F.div (i : ℝ) (F.sub (n : ℝ) 1)) (F.lit 5 1) with hx'
  have px := c_pow hu0 hu 8 (k := 5) (c_mul hF hu (c_pi hF hu) xx) (by ring) (by norm_num)
  have hA : Real.pi * (3 / 2) ≤ 6 * Real.pi := by linarith
  have cx := c_cos hF px hA
  have sx := c_sin hF px hA
  have ax : RApx ((1 / (1 - u)) ^ 3) (F.abs x') |x| (3 / 2) := by
    have h3 : RApx ((1 / (1 - u)) ^ 3) x' x (3 / 2) := c_pow hu0 hu 3 (k := 3) xx (by ring) le_rfl
    rw [habs]
    exact RApx.mk' h3.one ((abs_abs_sub_abs_le_abs_sub _ _).trans h3.abs_err) (by rw [abs_abs]; exact h3.abs_bd)
  have one' : RApx ((1 / (1 - u)) ^ 3) (1 : ℝ) 1 1 := by
    have h1 : RApx 1 (1 : ℝ) 1 1 := by simpa using RApx.refl (1 : ℝ)
    exact h1.mono (one_le_pow₀ hc)
  have s1 := c_mul hF hu (c_sub hF hu one' ax) cx
  have h1 : RApx 1 (1 : ℝ) 1 1 := by simpa using RApx.refl (1 : ℝ)
  have ip := c_mul hF hu (c_div hF hu h1 (b := F.pi) Real.pi_pos hu0 hu hF.pi) sx
  have s1' := s1.mono (h := (1 / (1 - u)) ^ 5 * cosG u t) (le_of_eq (by ring))
  have ip' := ip.mono (h := (1 / (1 - u)) ^ 5 * cosG u t) (by
    rw [show 1 * (1 / (1 - u)) * (1 / (1 - u)) * cosG u t * (1 / (1 - u)) = (1 / (1 - u)) ^ 3 * cosG u t by ring]
    exact mul_le_mul_of_nonneg_right (pow_le_pow_right₀ hc (by norm_num)) (by linarith))
  have s2 := (c_add hF hu s1' ip').mono (show _ ≤ windowsGrowth u t by
    unfold windowsGrowth
    change (1 / (1 - u)) ^ 5 * cosG u t * (1 / (1 - u)) ≤ (1 / (1 - u)) ^ 6 * cosG u t
    exact le_of_eq (by ring))
  have r := RApx.abs_err (RApx_scale s2 (show (1 + 3 / 2) * 1 + 1 / Real.pi * 1 ≤ 3 by
    have : 1 / Real.pi ≤ 1 / 3 := one_div_le_one_div_of_le (by norm_num) hpi.le
    linarith))
  refine r.trans (le_of_eq (by ring))

/-- C115d. Every sample of the Bartlett window (at least two samples). -/
theorem bartlett_error (hF : Rounding F u v t) (habs : ∀ a, F.abs a = |a|) (hu : u < 1 / 4) (n i : ℕ) (h2 : 2 ≤ n) (hi : i < n)
    (hD : ∀ m, m ≤ n → F.ofNatD m = m) :
    |(bartlett n : List ℝ).getD i 0 - 2 * ((min i (n - 1 - i) : ℕ) : ℝ) / ((n : ℝ) - 1)| ≤
      4 * ((1 / (1 - u)) ^ 5 / (2 - (1 + u) ^ 2) - 1) := by
  have hu0 := hF.u_nonneg
  have hu1 : u < 1 := by linarith
  have hn : (0 : ℝ) < (n : ℝ) - 1 := by
    have : (2 : ℝ) ≤ n := by exact_mod_cast h2
    linarith
  have hc := c_one hu0 hu1
  unfold bartlett
  rw [getD_range_map hi]
  simp only []
  rw [hD i hi.le, hD n le_rfl, hF.one]
  have hin : (i : ℝ) ≤ (n : ℝ) - 1 := by
    have : ((i + 1 : ℕ) : ℝ) ≤ n := by exact_mod_cast hi
    push_cast at this; linarith
  have hi0 : (0 : ℝ) ≤ i := Nat.cast_nonneg i
  have hm : (0 : ℝ) < ((n : ℝ) - 1) / 2 := by linarith
  have d0 : RApx (1 + u) (F.sub (n : ℝ) 1) ((n : ℝ) - 1) ((n : ℝ) - 1) := by
    have := hF.sub (n : ℝ) 1
    rw [abs_of_pos hn] at this
    exact RApx.mk' (by linarith) (by linarith) (by rw [abs_of_pos hn])
  have d1 : RApx ((1 + u) ^ 2) (F.div (F.sub (n : ℝ) 1) two) (((n : ℝ) - 1) / 2) (((n : ℝ) - 1) / 2) := by
    show RApx _ (F.div _ (F.lit 2 0)) _ _
    rw [hF.two]
    have := div_rnd hF d0 (b := (2 : ℝ)) (w := 2) (by norm_num) (le_refl 0) one_pos (by simp)
    rw [abs_of_pos (show (0 : ℝ) < 2⁻¹ by norm_num), ← div_eq_mul_inv] at this
    exact this.mono (le_of_eq (by ring))
  set m' := F.div (F.sub (n : ℝ) 1) two with hm'
  have d2 : |m' - ((n : ℝ) - 1) / 2| ≤ ((1 + u) ^ 2 - 1) * (((n : ℝ) - 1) / 2) := RApx.abs_err d1
  have x0 : RApx ((1 / (1 - u)) ^ 2) (i : ℝ) i i := by
    have : RApx 1 (i : ℝ) i i := by simpa using RApx.refl (i : ℝ)
    exact this.mono (one_le_pow₀ hc)
  have m2 := d1.mono (show (1 + u) ^ 2 ≤ (1 / (1 - u)) ^ 2 from pow_le_pow_left₀ (by linarith) (one_add_le_c hu0 hu1) 2)
  have s1 := RApx_scale (c_sub hF hu1 x0 m2) (show (i : ℝ) + ((n : ℝ) - 1) / 2 ≤ 3 * (((n : ℝ) - 1) / 2) by linarith)
  have hε : (1 + u) ^ 2 - 1 < 1 := by nlinarith
  have xx := c_div hF hu1 s1 hm (by nlinarith) hε d2
  rw [mul_div_assoc, div_self hm.ne', mul_one] at xx
  set x' := F.div (F.sub (i : ℝ) m') m' with hx'
  set x := ((i : ℝ) - ((n : ℝ) - 1) / 2) / (((n : ℝ) - 1) / 2) with hx
  have e1 : (1 / (1 - u)) ^ 2 * (1 / (1 - u)) * (1 / (1 - ((1 + u) ^ 2 - 1))) * (1 / (1 - u)) =
      (1 / (1 - u)) ^ 4 / (2 - (1 + u) ^ 2) := by
    rw [show 1 - ((1 + u) ^ 2 - 1) = 2 - (1 + u) ^ 2 by ring]; ring
  rw [e1] at xx
  have ax : RApx ((1 / (1 - u)) ^ 4 / (2 - (1 + u) ^ 2)) (F.abs x') |x| 3 := by
    rw [habs]
    exact RApx.mk' xx.one ((abs_abs_sub_abs_le_abs_sub _ _).trans (RApx.abs_err xx)) (by rw [abs_abs]; exact RApx.abs_bd xx)
  have one' : RApx ((1 / (1 - u)) ^ 4 / (2 - (1 + u) ^ 2)) (1 : ℝ) 1 1 := by
    have h1 : RApx 1 (1 : ℝ) 1 1 := by simpa using RApx.refl (1 : ℝ)
    exact h1.mono xx.one
  have r := RApx.abs_err (c_sub hF hu1 one' ax)
  have e2 : 2 * ((min i (n - 1 - i) : ℕ) : ℝ) / ((n : ℝ) - 1) = 1 - |x| := by
    have hx2 : x = 2 * i / ((n : ℝ) - 1) - 1 := by rw [hx]; field_simp
    rw [hx2]
    have hcast : (((n - 1 - i : ℕ)) : ℝ) = (n : ℝ) - 1 - i := by
      rw [Nat.cast_sub (by omega), Nat.cast_sub (by omega)]; push_cast; ring
    rcases le_total i (n - 1 - i) with hle | hle
    · rw [min_eq_left hle]
      have : (i : ℝ) ≤ (n : ℝ) - 1 - i := by rw [← hcast]; exact_mod_cast hle
      have h3 : 2 * (i : ℝ) / ((n : ℝ) - 1) ≤ 1 := by rw [div_le_one hn]; linarith
      rw [abs_of_nonpos (by linarith)]; ring
    · rw [min_eq_right hle, hcast]
      have : (n : ℝ) - 1 - i ≤ (i : ℝ) := by rw [← hcast]; exact_mod_cast hle
      have h3 : 1 ≤ 2 * (i : ℝ) / ((n : ℝ) - 1) := by rw [le_div_iff₀ hn]; linarith
      rw [abs_of_nonneg (by linarith)]
      field_simp
      ring
  rw [e2]
  refine r.trans (le_of_eq ?_)
  ring

omit F in
/-- The bounds are linear in the accuracies: with `u = t = e ≤ 10⁻⁴`, below `200 e` and `40 e`. -/
theorem windowsGrowth_linear {e : ℝ} (he : 0 ≤ e) (he' : e ≤ 1 / 10000) :
    windowsGrowth e e - 1 ≤ 200 * e ∧ 4 * ((1 / (1 - e)) ^ 5 / (2 - (1 + e) ^ 2) - 1) ≤ 40 * e := by
  have hb : ∀ k : ℕ, k ≤ 8 → (1 / (1 - e)) ^ k ≤ 1 + (k : ℝ) * (1002 / 1000) * e := by
    intro k hk
    have h1 := one_add_mul_le_pow (a := -e) (by linarith) k
    rw [← sub_eq_add_neg] at h1
    rw [one_div_pow, div_le_iff₀ (by apply pow_pos; linarith)]
    have hk' : (k : ℝ) ≤ 8 := by exact_mod_cast hk
    have hk0 : (0 : ℝ) ≤ k := Nat.cast_nonneg k
    have h2 : 1 ≤ (1 + (k : ℝ) * (1002 / 1000) * e) * (1 + k * -e) := by
      have : (k : ℝ) * e * (k * e) ≤ (k * e) * (8 / 10000) := mul_le_mul_of_nonneg_left (by nlinarith) (by positivity)
      nlinarith [mul_nonneg hk0 he]
    exact h2.trans (mul_le_mul_of_nonneg_left h1 (by positivity))
  have h6 := hb 6 (by norm_num)
  have h8 := hb 8 (by norm_num)
  have h5 := hb 5 (by norm_num)
  push_cast at h5 h6 h8
  have hpi := Real.pi_lt_d2
  have hpi0 := Real.pi_pos
  have h81 : 1 ≤ (1 / (1 - e)) ^ 8 := one_le_pow₀ (by rw [le_div_iff₀ (by linarith)]; linarith)
  constructor
  · unfold windowsGrowth
    have g1 : 1 + (e + ((1 / (1 - e)) ^ 8 - 1) * (6 * Real.pi)) ≤ 1 + 153 * e := by
      have : ((1 / (1 - e)) ^ 8 - 1) * (6 * Real.pi) ≤ (8 * (1002 / 1000) * e) * (6 * 3.15) :=
        mul_le_mul (by linarith) (by linarith) (by positivity) (by positivity)
      norm_num at this ⊢
      linarith
    have g0 : 0 ≤ 1 + (e + ((1 / (1 - e)) ^ 8 - 1) * (6 * Real.pi)) := by
      have : 0 ≤ ((1 / (1 - e)) ^ 8 - 1) * (6 * Real.pi) := mul_nonneg (by linarith) (by positivity)
      linarith
    have := mul_le_mul h6 g1 g0 (by positivity)
    nlinarith
  · have hd : 0 < 2 - (1 + e) ^ 2 := by nlinarith
    have : (1 / (1 - e)) ^ 5 / (2 - (1 + e) ^ 2) ≤ 1 + 10 * e := by
      rw [div_le_iff₀ hd]
      refine h5.trans ?_
      have e2 : e * e ≤ e * (1 / 10000) := mul_le_mul_of_nonneg_left he' he
      have e3 : e * e * e ≤ e * (1 / 10000) * 1 := mul_le_mul e2 (by linarith) he (by positivity)
      have : (1 + 10 * e) * (2 - (1 + e) ^ 2) = 1 + 8 * e - 21 * (e * e) - 10 * (e * e * e) := by ring
      linarith
    linarith

end windows

/-- not vacuous: binary32 rounding, 1000 samples, the Nuttall window is right to `1.2·10⁻⁵` -/
example (i : ℕ) (hi : i < 1000) :
    (let x := 2 * Real.pi * i / (((1000 : ℕ) : ℝ) - 1)
     |(@nuttall ℝ (rndFlt 24 24 true true) 1000).getD i 0 - (0.355768 - 0.487396 * Real.cos x + 0.144232 * Real.cos (2 * x) -
       0.012604 * Real.cos (3 * x))| ≤ 200 * (1 / 2 ^ 24)) := by
  intro x
  have hF := rndFlt_rounding 24 24 (by norm_num) (by norm_num) true true
  have := nuttall_error (F := rndFlt 24 24 true true) hF (by norm_num) 1000 i (by norm_num) hi (fun m hm => hF.ofNatD m (by omega))
  exact this.trans (windowsGrowth_linear (by norm_num) (by norm_num)).1

end Kofft.Props
