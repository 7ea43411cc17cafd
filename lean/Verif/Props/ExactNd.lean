import Verif.Props.ExactSpectra
import Verif.Props.NdFft
/-
C118: constant and impulse arrays are transformed without rounding error in two and three dimensions.
-/
namespace Kofft.Props
open Spec

section nd

variable {p : ℕ} [F : Flt ℝ]

/-- one line that is constant -/
theorem line_const (E : ExactWhereRepresentable p F) (cfg : Cfg) {K b s : ℕ} {x : List (Cx ℝ)} {c : Cx ℝ} (hc : CRepr p c)
    (h : ∀ i, i < 2 ^ K → x.getD (b + i * s) Cx.zero = c) {i : ℕ} (hi : i < 2 ^ K) :
    (freshOut cfg (lineOf x b s (2 ^ K))).getD i Cx.zero = if i = 0 then times (2 ^ K) c else ⟨0, 0⟩ := by
  have e : lineOf x b s (2 ^ K) = List.replicate (2 ^ K) c := by
    unfold lineOf
    rw [tab_congr (g := fun _ => c) h]
    simp [tab]
  rw [e, freshOut, if_pos (by rw [List.length_replicate]; exact isPow2_iff.mpr ⟨K, rfl⟩), freshPow_const E cfg K hc, impulse]
  cases i with
  | zero => rfl
  | succ i =>
    have : i < 2 ^ K - 1 := by omega
    simp [List.getD_eq_getElem?_getD, this]

/-- one line that is an impulse -/
theorem line_impulse (E : ExactWhereRepresentable p F) (cfg : Cfg) {K b s : ℕ} {x : List (Cx ℝ)} {r : Cx ℝ} (hr : CRepr p r)
    (h : ∀ i, i < 2 ^ K → x.getD (b + i * s) Cx.zero = if i = 0 then r else ⟨0, 0⟩) {i : ℕ} (hi : i < 2 ^ K) :
    (freshOut cfg (lineOf x b s (2 ^ K))).getD i Cx.zero = r := by
  have p2 : 0 < 2 ^ K := by positivity
  have e : lineOf x b s (2 ^ K) = impulse (2 ^ K) r := by
    unfold lineOf
    rw [tab_congr (g := fun i => if i = 0 then r else ⟨0, 0⟩) h, impulse]
    have : 2 ^ K = (2 ^ K - 1) + 1 := by omega
    rw [this]
    simp [tab, List.range_succ_eq_map, Function.comp_def]
  rw [e, freshOut, if_pos (by
    rw [show (impulse (2 ^ K) r).length = 2 ^ K by simp [impulse]; omega]; exact isPow2_iff.mpr ⟨K, rfl⟩),
    freshPow_impulse E cfg K hr]
  simp [List.getD_eq_getElem?_getD, hi]

omit F in
theorem times_zero (k : ℝ) : times k ⟨0, 0⟩ = ⟨0, 0⟩ := by simp [times]

omit F in
theorem times_times (j k : ℝ) (c : Cx ℝ) : times j (times k c) = times (j * k) c := by
  simp [times, mul_assoc]

/-- an array from its entries -/
theorem list_of_getD {l : List (Cx ℝ)} {n : ℕ} {f : ℕ → Cx ℝ} (hl : l.length = n) (h : ∀ i, i < n → l.getD i Cx.zero = f i) :
    l = tab n f := by
  rw [eq_tab_getD l Cx.zero, hl]
  exact tab_congr h

omit F in
theorem tab_impulse {n : ℕ} (hn : 0 < n) (r : Cx ℝ) : tab n (fun i => if i = 0 then r else ⟨0, 0⟩) = impulse n r := by
  obtain ⟨m, rfl⟩ : ∃ m, n = m + 1 := ⟨n - 1, by omega⟩
  simp [tab, impulse, List.range_succ_eq_map, Function.comp_def]

omit F in
theorem impulse_getD {n : ℕ} (r z : Cx ℝ) {i : ℕ} (hi : i < n) :
    (impulse n r).getD i z = if i = 0 then r else ⟨0, 0⟩ := by
  rw [← tab_impulse (by omega), tab_getD hi]

/-- `fft2d` on any planner of the stated kind, through its two passes -/
theorem fft2d_lines (cfg : Cfg) {R C : ℕ} {pl : Planner ℝ} (hp : ReachVia cfg (fun m => workSize m ≤ workSize (2 ^ C)) pl)
    (hsz : Unaffected cfg (workSize (2 ^ C)) (2 ^ R)) (data sc : List (Cx ℝ)) (hl : data.length = 2 ^ R * 2 ^ C)
    (hs : sc.length = 2 ^ R) :
    ∃ p' y sc' mid, fft2d cfg pl data (2 ^ R) (2 ^ C) sc = .ok (p', y, sc', .ok ()) ∧ y.length = 2 ^ R * 2 ^ C ∧
      (∀ q i, q < 2 ^ R → i < 2 ^ C → mid.getD (q * 2 ^ C + i) Cx.zero =
        (freshOut cfg (lineOf data (q * 2 ^ C) 1 (2 ^ C))).getD i Cx.zero) ∧
      ∀ c i, c < 2 ^ C → i < 2 ^ R → y.getD (c + i * 2 ^ C) Cx.zero =
        (freshOut cfg (lineOf mid c (2 ^ C) (2 ^ R))).getD i Cx.zero := by
  have hrr : fftRes cfg (2 ^ R) = .ok () := fftRes_ok (by positivity) (Or.inr ⟨R, rfl⟩)
  have hrc : fftRes cfg (2 ^ C) = .ok () := fftRes_ok (by positivity) (Or.inr ⟨C, rfl⟩)
  obtain ⟨s1, s2, e, b1, b2, b3, b4, -, b6⟩ := fft2d_run cfg pl (reachVia_inv hp) data (2 ^ R) (2 ^ C) sc hl (by positivity)
    (by positivity) hs
  rw [if_pos hrc, hrr] at e
  have hb := reachVia_invB (B := need (2 ^ C)) (fun m hm => hm) hp
  obtain ⟨c1, c2⟩ := b6 (need (2 ^ C)) le_rfl hb.2 (Or.inl le_rfl) hrc
  have hsafe : SafeAt cfg (max (need (2 ^ C)) (need (2 ^ R))) (2 ^ R) := by
    rcases safeAt_of hsz with h | h
    · exact Or.inl (max_le h le_rfl)
    · exact Or.inr h
  exact ⟨_, _, _, s1.data, e, by rw [b2, hl], c1, c2 _ (le_max_left _ _) (le_max_right _ _) hsafe hrr⟩

/-- The spectrum of a constant image: everything in the first bin, exactly. -/
theorem fft2d_constant_exact (E : ExactWhereRepresentable p F) (cfg : Cfg) (R C : ℕ) {c : Cx ℝ} (hc : CRepr p c)
    {pl : Planner ℝ} (hp : ReachVia cfg (fun m => workSize m ≤ workSize (2 ^ C)) pl)
    (hsz : Unaffected cfg (workSize (2 ^ C)) (2 ^ R)) (sc : List (Cx ℝ)) (hs : sc.length = 2 ^ R) :
    ∃ p' sc', fft2d cfg pl (List.replicate (2 ^ R * 2 ^ C) c) (2 ^ R) (2 ^ C) sc =
      .ok (p', impulse (2 ^ R * 2 ^ C) (times (2 ^ R * 2 ^ C) c), sc', .ok ()) := by
  obtain ⟨p', y, sc', mid, e, hy, h1, h2⟩ := fft2d_lines cfg hp hsz (List.replicate (2 ^ R * 2 ^ C) c) sc (by simp) hs
  have pC : 0 < 2 ^ C := by positivity
  have hm : ∀ q i, q < 2 ^ R → i < 2 ^ C → mid.getD (q * 2 ^ C + i) Cx.zero = if i = 0 then times (2 ^ C) c else ⟨0, 0⟩ := by
    intro q i hq hi
    rw [h1 q i hq hi]
    refine line_const E cfg hc (fun j hj => ?_) hi
    have : q * 2 ^ C + j * 1 < 2 ^ R * 2 ^ C := by
      have : (q + 1) * 2 ^ C ≤ 2 ^ R * 2 ^ C := Nat.mul_le_mul_right _ hq
      rw [Nat.add_mul] at this; omega
    rw [List.getD_eq_getElem?_getD, List.getElem?_replicate, if_pos this]; rfl
  have hv : ∀ d i, d < 2 ^ C → i < 2 ^ R → y.getD (d + i * 2 ^ C) Cx.zero =
      if i = 0 then times (2 ^ R) (if d = 0 then times (2 ^ C) c else ⟨0, 0⟩) else ⟨0, 0⟩ := by
    intro d i hd hi
    rw [h2 d i hd hi]
    refine line_const E cfg ?_ (fun j hj => ?_) hi
    · split
      · exact crepr_times hc C
      · exact crepr_zero
    · rw [Nat.add_comm, hm j d hj hd]
  have hyv : y = impulse (2 ^ R * 2 ^ C) (times (2 ^ R * 2 ^ C) c) := by
    rw [← tab_impulse (by positivity)]
    refine list_of_getD hy fun k hk => ?_
    have hd := Nat.mod_lt k pC
    have hq : k / 2 ^ C < 2 ^ R := Nat.div_lt_of_lt_mul (by rw [Nat.mul_comm]; exact hk)
    have := hv _ _ hd hq
    have hk' : k % 2 ^ C + k / 2 ^ C * 2 ^ C = k := Nat.mod_add_div' k (2 ^ C)
    rw [hk'] at this
    rw [this]
    by_cases h0 : k = 0
    · subst h0; simp [times_times]
    · rw [if_neg h0]
      split
      · rename_i hz
        rw [if_neg (by rw [hz] at hk'; omega), times_zero]
      · rfl
  rw [hyv] at e
  exact ⟨p', sc', e⟩

/-- The spectrum of an image with one non-zero pixel, in the corner: every bin holds exactly the pixel. -/
theorem fft2d_impulse_exact (E : ExactWhereRepresentable p F) (cfg : Cfg) (R C : ℕ) {r : Cx ℝ} (hr : CRepr p r)
    {pl : Planner ℝ} (hp : ReachVia cfg (fun m => workSize m ≤ workSize (2 ^ C)) pl)
    (hsz : Unaffected cfg (workSize (2 ^ C)) (2 ^ R)) (sc : List (Cx ℝ)) (hs : sc.length = 2 ^ R) :
    ∃ p' sc', fft2d cfg pl (impulse (2 ^ R * 2 ^ C) r) (2 ^ R) (2 ^ C) sc =
      .ok (p', List.replicate (2 ^ R * 2 ^ C) r, sc', .ok ()) := by
  have pC : 0 < 2 ^ C := by positivity
  have pN : 0 < 2 ^ R * 2 ^ C := by positivity
  obtain ⟨p', y, sc', mid, e, hy, h1, h2⟩ := fft2d_lines cfg hp hsz (impulse (2 ^ R * 2 ^ C) r) sc (by
    simp [impulse]; omega) hs
  have hm : ∀ q i, q < 2 ^ R → i < 2 ^ C → mid.getD (q * 2 ^ C + i) Cx.zero = if q = 0 then r else ⟨0, 0⟩ := by
    intro q i hq hi
    rw [h1 q i hq hi]
    refine line_impulse E cfg (by split; exacts [hr, crepr_zero]) (fun j hj => ?_) hi
    have hlt : q * 2 ^ C + j * 1 < 2 ^ R * 2 ^ C := by
      have : (q + 1) * 2 ^ C ≤ 2 ^ R * 2 ^ C := Nat.mul_le_mul_right _ hq
      rw [Nat.add_mul] at this; omega
    rw [impulse_getD _ _ hlt]
    by_cases hq0 : q = 0
    · subst hq0; simp
    · have : 0 < q * 2 ^ C := Nat.mul_pos (by omega) pC
      rw [if_neg (by omega), if_neg hq0]; simp
  have hv : ∀ d i, d < 2 ^ C → i < 2 ^ R → y.getD (d + i * 2 ^ C) Cx.zero = r := by
    intro d i hd hi
    rw [h2 d i hd hi]
    refine line_impulse E cfg hr (fun j hj => ?_) hi
    rw [Nat.add_comm, hm j d hj hd]
  have hyv : y = List.replicate (2 ^ R * 2 ^ C) r := by
    rw [list_of_getD (f := fun _ => r) hy fun k hk => ?_]
    · simp [tab]
    have hd := Nat.mod_lt k pC
    have hq : k / 2 ^ C < 2 ^ R := Nat.div_lt_of_lt_mul (by rw [Nat.mul_comm]; exact hk)
    have := hv _ _ hd hq
    rwa [Nat.mod_add_div' k (2 ^ C)] at this
  rw [hyv] at e
  exact ⟨p', sc', e⟩

/-- `fft3d` on any planner of the stated kind, through its three passes -/
theorem fft3d_lines (cfg : Cfg) {D R C : ℕ} {pl : Planner ℝ} (hp : ReachVia cfg (fun m => workSize m ≤ workSize (2 ^ D)) pl)
    (h1 : Unaffected cfg (workSize (2 ^ D)) (2 ^ R)) (h2 : Unaffected cfg (max (workSize (2 ^ D)) (workSize (2 ^ R))) (2 ^ C))
    (data tube row col : List (Cx ℝ)) (hl : data.length = 2 ^ D * 2 ^ R * 2 ^ C) (ht : tube.length = 2 ^ D)
    (hr : row.length = 2 ^ R) (hc : col.length = 2 ^ C) :
    ∃ p' y t' r' c' a b, fft3d cfg pl data (2 ^ D) (2 ^ R) (2 ^ C) tube row col = .ok (p', y, t', r', c', .ok ()) ∧
      y.length = 2 ^ D * 2 ^ R * 2 ^ C ∧
      (∀ q i, q < 2 ^ R * 2 ^ C → i < 2 ^ D → a.getD (q + i * (2 ^ R * 2 ^ C)) Cx.zero =
        (freshOut cfg (lineOf data q (2 ^ R * 2 ^ C) (2 ^ D))).getD i Cx.zero) ∧
      (∀ d c i, d < 2 ^ D → c < 2 ^ C → i < 2 ^ R → b.getD (d * 2 ^ R * 2 ^ C + c + i * 2 ^ C) Cx.zero =
        (freshOut cfg (lineOf a (d * 2 ^ R * 2 ^ C + c) (2 ^ C) (2 ^ R))).getD i Cx.zero) ∧
      ∀ q i, q < 2 ^ D * 2 ^ R → i < 2 ^ C → y.getD (q * 2 ^ C + i) Cx.zero =
        (freshOut cfg (lineOf b (q * 2 ^ C) 1 (2 ^ C))).getD i Cx.zero := by
  have e1 : fftRes cfg (2 ^ D) = .ok () := fftRes_ok (by positivity) (Or.inr ⟨D, rfl⟩)
  have e2 : fftRes cfg (2 ^ R) = .ok () := fftRes_ok (by positivity) (Or.inr ⟨R, rfl⟩)
  have e3 : fftRes cfg (2 ^ C) = .ok () := fftRes_ok (by positivity) (Or.inr ⟨C, rfl⟩)
  obtain ⟨s1, s2, s3, t', r', e, b1, b2, b3, b4, -, b6⟩ := fft3d_run cfg pl (reachVia_inv hp) data (2 ^ D) (2 ^ R) (2 ^ C)
    tube row col hl (by positivity) (by positivity) (by positivity) ht hr hc
  rw [fst3, e1, e2, e3, if_pos rfl, if_pos rfl] at e
  have hb := reachVia_invB (B := need (2 ^ D)) (fun m hm => hm) hp
  obtain ⟨c1, c2, c3⟩ := b6 (need (2 ^ D)) (max (need (2 ^ D)) (need (2 ^ R)))
    (max (max (need (2 ^ D)) (need (2 ^ R))) (need (2 ^ C))) hb.2 le_rfl (Or.inl le_rfl) e1 (le_max_left _ _) (le_max_right _ _)
    (by
      rcases safeAt_of h1 with h | h
      · exact Or.inl (max_le h le_rfl)
      · exact Or.inr h) e2 (le_max_left _ _) (le_max_right _ _)
    (by
      rcases safeAt_of h2 with h | h
      · exact Or.inl (max_le h le_rfl)
      · exact Or.inr h) e3
  exact ⟨_, _, _, _, _, s1.data, s2.data, e, by rw [b2, hl], c1, c2, c3⟩

/-- The spectrum of a constant volume: everything in the first bin, exactly. -/
theorem fft3d_constant_exact (E : ExactWhereRepresentable p F) (cfg : Cfg) (D R C : ℕ) {c : Cx ℝ} (hc : CRepr p c)
    {pl : Planner ℝ} (hp : ReachVia cfg (fun m => workSize m ≤ workSize (2 ^ D)) pl)
    (h1 : Unaffected cfg (workSize (2 ^ D)) (2 ^ R)) (h2 : Unaffected cfg (max (workSize (2 ^ D)) (workSize (2 ^ R))) (2 ^ C))
    (tube row col : List (Cx ℝ)) (ht : tube.length = 2 ^ D) (hr : row.length = 2 ^ R) (hcl : col.length = 2 ^ C) :
    ∃ p' t' r' c', fft3d cfg pl (List.replicate (2 ^ D * 2 ^ R * 2 ^ C) c) (2 ^ D) (2 ^ R) (2 ^ C) tube row col =
      .ok (p', impulse (2 ^ D * 2 ^ R * 2 ^ C) (times (2 ^ D * 2 ^ R * 2 ^ C) c), t', r', c', .ok ()) := by
  obtain ⟨p', y, t', r', c', a, b, e, hy, k1, k2, k3⟩ := fft3d_lines cfg hp h1 h2 (List.replicate (2 ^ D * 2 ^ R * 2 ^ C) c)
    tube row col (by simp) ht hr hcl
  have pC : 0 < 2 ^ C := by positivity
  have pR : 0 < 2 ^ R := by positivity
  have ha : ∀ q d, q < 2 ^ R * 2 ^ C → d < 2 ^ D → a.getD (q + d * (2 ^ R * 2 ^ C)) Cx.zero =
      if d = 0 then times (2 ^ D) c else ⟨0, 0⟩ := by
    intro q d hq hd
    rw [k1 q d hq hd]
    refine line_const E cfg hc (fun j hj => ?_) hd
    have : q + j * (2 ^ R * 2 ^ C) < 2 ^ D * 2 ^ R * 2 ^ C := by
      rw [mul_assoc]; exact line_lt hq hj
    rw [List.getD_eq_getElem?_getD, List.getElem?_replicate, if_pos this]; rfl
  have hb : ∀ d i r, d < 2 ^ D → i < 2 ^ C → r < 2 ^ R → b.getD (d * 2 ^ R * 2 ^ C + i + r * 2 ^ C) Cx.zero =
      if r = 0 then times (2 ^ R) (if d = 0 then times (2 ^ D) c else ⟨0, 0⟩) else ⟨0, 0⟩ := by
    intro d i r hd hi hr
    rw [k2 d i r hd hi hr]
    refine line_const E cfg (by split; exacts [crepr_times hc D, crepr_zero]) (fun j hj => ?_) hr
    have := ha (i + j * 2 ^ C) d (line_lt hi hj) hd
    rw [← this]
    congr 1; ring
  have hv : ∀ d r i, d < 2 ^ D → r < 2 ^ R → i < 2 ^ C → y.getD ((d * 2 ^ R + r) * 2 ^ C + i) Cx.zero =
      if i = 0 then times (2 ^ C) (if r = 0 then times (2 ^ R) (if d = 0 then times (2 ^ D) c else ⟨0, 0⟩) else ⟨0, 0⟩)
      else ⟨0, 0⟩ := by
    intro d r i hd hr hi
    have hq : d * 2 ^ R + r < 2 ^ D * 2 ^ R := by rw [Nat.add_comm]; exact line_lt hr hd
    rw [k3 _ i hq hi]
    refine line_const E cfg ?_ (fun j hj => ?_) hi
    · split
      · exact crepr_times (by split; exacts [crepr_times hc D, crepr_zero]) R
      · exact crepr_zero
    · rw [← hb d j r hd hj hr]
      congr 1; ring
  have hyv : y = impulse (2 ^ D * 2 ^ R * 2 ^ C) (times (2 ^ D * 2 ^ R * 2 ^ C) c) := by
    rw [← tab_impulse (by positivity)]
    refine list_of_getD hy fun k hk => ?_
    have hi := Nat.mod_lt k pC
    have hq : k / 2 ^ C < 2 ^ D * 2 ^ R := Nat.div_lt_of_lt_mul (by rw [Nat.mul_comm]; exact hk)
    have hr := Nat.mod_lt (k / 2 ^ C) pR
    have hd : k / 2 ^ C / 2 ^ R < 2 ^ D := Nat.div_lt_of_lt_mul (by rw [Nat.mul_comm]; exact hq)
    have e1 : k / 2 ^ C / 2 ^ R * 2 ^ R + k / 2 ^ C % 2 ^ R = k / 2 ^ C := Nat.div_add_mod' _ _
    have e2 : k / 2 ^ C * 2 ^ C + k % 2 ^ C = k := Nat.div_add_mod' _ _
    have := hv _ _ _ hd hr hi
    rw [e1, e2] at this
    rw [this]
    generalize k / 2 ^ C / 2 ^ R = d at *
    generalize k / 2 ^ C % 2 ^ R = r at *
    generalize k / 2 ^ C = q at *
    generalize k % 2 ^ C = i at *
    by_cases hi0 : i = 0
    · by_cases hr0 : r = 0
      · by_cases hd0 : d = 0
        · subst hi0 hr0 hd0
          have : k = 0 := by rw [← e2, ← e1]; simp
          rw [if_pos rfl, if_pos rfl, if_pos rfl, if_pos this, times_times, times_times]
          congr 1; ring
        · have : k ≠ 0 := by
            have : 0 < d * 2 ^ R := Nat.mul_pos (by omega) pR
            have : 0 < q * 2 ^ C := Nat.mul_pos (by omega) pC
            omega
          rw [if_neg this, if_neg hd0, if_pos hr0, if_pos hi0, times_zero, times_zero]
      · have : k ≠ 0 := by
          have : 0 < q * 2 ^ C := Nat.mul_pos (by omega) pC
          omega
        rw [if_neg this, if_neg hr0, if_pos hi0, times_zero]
    · rw [if_neg hi0, if_neg (by omega)]
  rw [hyv] at e
  exact ⟨p', t', r', c', e⟩

end nd

-- a 64 x 32 image in binary32, and a 4 x 8 x 16 volume in binary64
example : ∃ p' sc', @fft2d ℝ (rndFlt 24 24 true true) ⟨true, .f32, true, 8, false⟩ Planner.new
      (List.replicate (2 ^ 6 * 2 ^ 5) ⟨3, -1 / 2⟩) (2 ^ 6) (2 ^ 5) (List.replicate (2 ^ 6) ⟨0, 0⟩) =
    .ok (p', impulse (2 ^ 6 * 2 ^ 5) (times (2 ^ 6 * 2 ^ 5) ⟨3, -1 / 2⟩), sc', .ok ()) := by
  letI := rndFlt 24 24 true true
  have hr : CRepr 24 ⟨3, -1 / 2⟩ := ⟨⟨3, 0, by norm_num, by norm_num⟩, ⟨-1, -1, by norm_num, by norm_num⟩⟩
  have h1 : isPow2 (2 ^ 5) = true := by decide
  have h2 : isPow2 (2 ^ 6) = true := by decide
  exact fft2d_constant_exact (p := 24) (rndFlt_exactWhere (by norm_num) (by norm_num) true true)
    ⟨true, .f32, true, 8, false⟩ 6 5 hr .new (Or.inl (by simp only [workSize, h1, h2, if_true]; norm_num)) _
    List.length_replicate
example : Unaffected ⟨true, .f64, true, 8, false⟩ (workSize (2 ^ 2)) (2 ^ 3) ∧
    Unaffected ⟨true, .f64, true, 8, false⟩ (max (workSize (2 ^ 2)) (workSize (2 ^ 3))) (2 ^ 4) :=
  ⟨Or.inr ⟨⟨3, rfl⟩, Or.inl (by norm_num)⟩, Or.inr ⟨⟨4, rfl⟩, Or.inl (by norm_num)⟩⟩

end Kofft.Props
