import Verif.Spec.Pcm
import Verif.Props.Wavelet
import Verif.Props.RoundingSpectral
import Verif.Props.PixelFlt
import Verif.Props.WindowFlt
/-
C112: the Haar transform in floating point.
-/
namespace Kofft.Props
open Spec Finset

/-! ### The coefficients in exact arithmetic -/

section exact
variable [F : Flt ℝ]

omit F in
theorem padEven_even (x : List ℝ) (h : x.length % 2 = 0) : padEven x = x := by
  rw [padEven, if_neg (by omega)]

omit F in
theorem sumFrom_two (x : List ℝ) (i n : ℕ) : sumFrom x i (n + n) = sumFrom x i n + sumFrom x (i + n) n := by
  unfold sumFrom
  rw [sum_range_add]
  simp only [Nat.add_assoc]

/-- C112a. The coefficients of `levels` levels: the approximation holds the means of the blocks of `2^levels` samples, the
details of level `j` half the difference of the means of the two halves of each block of `2^(j+1)`. -/
theorem haar_multi_values (hF : Lawful F) : ∀ (levels m : ℕ) (x : List ℝ), x.length = 2 ^ levels * m →
    ∃ cur ds, multiForward haarForward levels x = .ok (cur, ds) ∧ cur.length = m ∧ ds.length = levels ∧
      (∀ i < m, cur.getD i 0 = sumFrom x (i * 2 ^ levels) (2 ^ levels) / 2 ^ levels) ∧
      ∀ j < levels, (ds.getD j []).length = 2 ^ (levels - 1 - j) * m ∧ ∀ i < 2 ^ (levels - 1 - j) * m,
        (ds.getD j []).getD i 0 =
          (sumFrom x (i * 2 ^ (j + 1)) (2 ^ j) - sumFrom x (i * 2 ^ (j + 1) + 2 ^ j) (2 ^ j)) / 2 ^ (j + 1)
  | 0, m, x, hx => by
    refine ⟨x, [], rfl, by simpa using hx, rfl, fun i _ => ?_, fun j hj => absurd hj (by omega)⟩
    simp [sumFrom]
  | l + 1, m, x, hx => by
    have hx2 : x.length = 2 * (2 ^ l * m) := by rw [hx]; ring
    obtain ⟨a, d, e, la, ld, hv⟩ := haar_forward_values (padEven x)
    rw [padEven_even x (by omega)] at e la ld hv
    have h2 : x.length / 2 = 2 ^ l * m := by omega
    rw [h2] at la ld hv
    simp only [hF.zero, hF.add, hF.sub, hF.div, two_lawful hF] at hv
    obtain ⟨cur, ds, e2, lc, lds, hc, hd⟩ := haar_multi_values hF l m a la
    have hsum : ∀ i n, i + n ≤ 2 ^ l * m → sumFrom a i n = sumFrom x (2 * i) (2 * n) / 2 := by
      intro i n hin
      unfold sumFrom
      induction n with
      | zero => simp
      | succ n ih =>
        rw [sum_range_succ, ih (by omega), show 2 * (n + 1) = 2 * n + 1 + 1 by ring, sum_range_succ, sum_range_succ,
          (hv (i + n) (by omega)).1, show 2 * (i + n) = 2 * i + 2 * n by ring, show 2 * i + 2 * n + 1 = 2 * i + (2 * n + 1) by ring]
        ring
    have hp : ∀ i n k : ℕ, i < n → i * k + k ≤ n * k := by
      intro i n k h
      calc i * k + k = (i + 1) * k := by ring
        _ ≤ n * k := Nat.mul_le_mul_right _ h
    refine ⟨cur, d :: ds, by rw [multiForward, padEven_even x (by omega), e, Outcome.bind_ok]; simp only [e2]; rfl, lc,
      by rw [List.length_cons, lds], fun i hi => ?_, fun j hj => ?_⟩
    · rw [hc i hi, hsum _ _ (by rw [Nat.mul_comm (2 ^ l) m]; exact hp i m _ hi), show 2 * (i * 2 ^ l) = i * 2 ^ (l + 1) by ring,
        show 2 * 2 ^ l = 2 ^ (l + 1) by ring, pow_succ (2 : ℝ)]
      rw [div_div]
      congr 1
      ring
    · cases j with
      | zero =>
        simp only [List.getD_cons_zero]
        rw [show l + 1 - 1 - 0 = l by omega]
        refine ⟨ld, fun i hi => ?_⟩
        rw [(hv i hi).2]
        simp [sumFrom, Nat.mul_comm i 2]
      | succ j =>
        simp only [List.getD_cons_succ]
        obtain ⟨q1, q2⟩ := hd j (by omega)
        rw [show l + 1 - 1 - (j + 1) = l - 1 - j by omega]
        refine ⟨q1, fun i hi => ?_⟩
        have hle : i * 2 ^ (j + 1) + 2 ^ (j + 1) ≤ 2 ^ l * m := by
          refine (hp i _ (2 ^ (j + 1)) hi).trans (le_of_eq ?_)
          rw [Nat.mul_right_comm, ← pow_add, show l - 1 - j + (j + 1) = l by omega]
        have hj2 : 2 ^ (j + 1) = 2 ^ j + 2 ^ j := by ring
        have hj0 : 0 < 2 ^ j := by positivity
        rw [q2 i hi, hsum _ _ (by omega), hsum _ _ (by omega), show 2 * (i * 2 ^ (j + 1)) = i * 2 ^ (j + 1 + 1) by ring,
          show 2 * (i * 2 ^ (j + 1) + 2 ^ j) = i * 2 ^ (j + 1 + 1) + 2 ^ (j + 1) by ring, show 2 * 2 ^ j = 2 ^ (j + 1) by ring,
          pow_succ (2 : ℝ) (j + 1)]
        rw [← sub_div, div_div]
        congr 1
        ring

end exact

/-! ### Integer samples -/

theorem pcm_repr {p : ℕ} {s : ℤ} {B : ℕ} {x : ℝ} (hB : B ≤ 2 ^ p) (hp : 1 ≤ p) (h : Pcm s B x) : IsRepr p x := by
  obtain ⟨m, hm, rfl⟩ := h
  have hB' : (B : ℤ) ≤ 2 ^ p := by exact_mod_cast hB
  rcases lt_or_eq_of_le (hm.trans hB') with hlt | heq
  · exact ⟨m, s, hlt, rfl⟩
  · have h1 : (1 : ℤ) < 2 ^ p := one_lt_pow₀ (by norm_num) (by omega)
    rcases (abs_eq (by positivity)).1 heq with rfl | rfl
    · refine ⟨1, s + p, by rw [abs_one]; exact h1, ?_⟩
      rw [zpow_add₀ (by norm_num)]
      push_cast
      rw [zpow_natCast]
      ring
    · refine ⟨-1, s + p, by rw [abs_neg, abs_one]; exact h1, ?_⟩
      rw [zpow_add₀ (by norm_num)]
      push_cast
      rw [zpow_natCast]
      ring

theorem pcm_add {s : ℤ} {B : ℕ} {x y : ℝ} (hx : Pcm s B x) (hy : Pcm s B y) : Pcm s (2 * B) (x + y) := by
  obtain ⟨m, hm, rfl⟩ := hx
  obtain ⟨k, hk, rfl⟩ := hy
  exact ⟨m + k, (abs_add_le _ _).trans (by push_cast; linarith), by push_cast; ring⟩

theorem pcm_sub {s : ℤ} {B : ℕ} {x y : ℝ} (hx : Pcm s B x) (hy : Pcm s B y) : Pcm s (2 * B) (x - y) := by
  obtain ⟨m, hm, rfl⟩ := hx
  obtain ⟨k, hk, rfl⟩ := hy
  exact ⟨m - k, (abs_sub _ _).trans (by push_cast; linarith), by push_cast; ring⟩

theorem pcm_half {s : ℤ} {B : ℕ} {x : ℝ} (hx : Pcm s B x) : Pcm (s - 1) B (x / 2) := by
  obtain ⟨m, hm, rfl⟩ := hx
  exact ⟨m, hm, by rw [zpow_sub₀ (by norm_num)]; simp; ring⟩

theorem pcm_zero {s : ℤ} {B : ℕ} : Pcm s B 0 := ⟨0, by simp, by simp⟩

theorem pcm_getD {s : ℤ} {B : ℕ} {x : List ℝ} (hx : ∀ v ∈ x, Pcm s B v) (i : ℕ) : Pcm s B (x.getD i 0) := by
  by_cases hi : i < x.length
  · rw [List.getD_eq_getElem _ _ hi]; exact hx _ (List.getElem_mem _)
  · rw [List.getD_eq_default _ _ (by omega)]; exact pcm_zero

section rounded
variable {p : ℕ} {G : Flt ℝ} (hG : Lawful G) [F : Flt ℝ]

theorem near_add (h : RoundsToNearest p F) (hp : 1 ≤ p) {s : ℤ} {B : ℕ} {x y : ℝ} (hB : 2 * B ≤ 2 ^ p) (hx : Pcm s B x) (hy : Pcm s B y) :
    F.div (F.add x y) (F.lit 2 0) = (x + y) / 2 := by
  have h1 := pcm_add hx hy
  have e1 := nearest_exact (pcm_repr hB hp h1) (h.add x y)
  have e2 := nearest_exact (pcm_repr hB hp (pcm_half h1)) (by have := h.div (x + y) 2 (by norm_num); exact this)
  rw [e1, h.two, e2]

theorem near_sub (h : RoundsToNearest p F) (hp : 1 ≤ p) {s : ℤ} {B : ℕ} {x y : ℝ} (hB : 2 * B ≤ 2 ^ p) (hx : Pcm s B x) (hy : Pcm s B y) :
    F.div (F.sub x y) (F.lit 2 0) = (x - y) / 2 := by
  have h1 := pcm_sub hx hy
  have e1 := nearest_exact (pcm_repr hB hp h1) (h.sub x y)
  have e2 := nearest_exact (pcm_repr hB hp (pcm_half h1)) (by have := h.div (x - y) 2 (by norm_num); exact this)
  rw [e1, h.two, e2]

/-- one level, rounded -/
theorem haar_pcm_step (h : RoundsToNearest p F) (hp : 1 ≤ p) {s : ℤ} {B : ℕ} (hB : 2 * B ≤ 2 ^ p) (x : List ℝ) (hx : ∀ v ∈ x, Pcm s B v) :
    haarForward x = .ok (tab (x.length / 2) fun i => (x.getD (2 * i) 0 + x.getD (2 * i + 1) 0) / 2,
      tab (x.length / 2) fun i => (x.getD (2 * i) 0 - x.getD (2 * i + 1) 0) / 2) := by
  rw [haarForward_ok]
  congr 2
  · exact tab_congr fun i _ => by rw [h.zero]; exact near_add h hp hB (pcm_getD hx _) (pcm_getD hx _)
  · exact tab_congr fun i _ => by rw [h.zero]; exact near_sub h hp hB (pcm_getD hx _) (pcm_getD hx _)

include hG in
omit F in
theorem haar_exact_step (x : List ℝ) :
    @haarForward ℝ G x = .ok (tab (x.length / 2) fun i => (x.getD (2 * i) 0 + x.getD (2 * i + 1) 0) / 2,
      tab (x.length / 2) fun i => (x.getD (2 * i) 0 - x.getD (2 * i + 1) 0) / 2) := by
  rw [haarForward_ok]
  simp only [hG.zero, hG.add, hG.sub, hG.div, two_lawful hG]

omit F in
theorem padEven_pcm {s : ℤ} {B : ℕ} {x : List ℝ} (hx : ∀ v ∈ x, Pcm s B v) : ∀ v ∈ padEven x, Pcm s B v := by
  unfold padEven
  split
  · cases hl : x.getLast? with
    | none => simpa using hx
    | some l =>
      intro e he
      simp only [List.mem_append, List.mem_singleton] at he
      rcases he with he | rfl
      · exact hx e he
      · exact hx _ (List.mem_of_getLast? hl)
  · exact hx

omit F in
theorem avg_pcm {s : ℤ} {B : ℕ} {x : List ℝ} (hx : ∀ v ∈ x, Pcm s B v) (n : ℕ) :
    ∀ v ∈ tab n fun i => (x.getD (2 * i) 0 + x.getD (2 * i + 1) 0) / 2, Pcm (s - 1) (2 * B) v := by
  intro v hv
  unfold tab at hv
  obtain ⟨i, -, rfl⟩ := List.mem_map.1 hv
  exact pcm_half (pcm_add (pcm_getD hx _) (pcm_getD hx _))

include hG in
/-- C112b. With `p` bits, up to `levels` levels with `2^levels B ≤ 2^p`, every Haar coefficient of integer samples of at most
`B` units is the exact one: no operation rounds. -/
theorem haar_pcm_exact (h : RoundsToNearest p F) (hp : 1 ≤ p) : ∀ (levels : ℕ) (s : ℤ) (B : ℕ) (x : List ℝ), (∀ v ∈ x, Pcm s B v) →
    2 ^ levels * B ≤ 2 ^ p → multiForward haarForward levels x = multiForward (@haarForward ℝ G) levels x
  | 0, _, _, _, _, _ => rfl
  | l + 1, s, B, x, hx, hB => by
    have hB' : 2 ^ l * (2 * B) ≤ 2 ^ p := by rw [← Nat.mul_assoc, ← pow_succ]; exact hB
    have hB1 : 2 * B ≤ 2 ^ p := (Nat.le_mul_of_pos_left _ (by positivity)).trans hB'
    have hx' := padEven_pcm hx
    rw [multiForward, multiForward, haar_pcm_step h hp hB1 _ hx', haar_exact_step hG, Outcome.bind_ok, Outcome.bind_ok]
    simp only []
    rw [haar_pcm_exact h hp l (s - 1) (2 * B) _ (avg_pcm hx' _) hB']

/-- one level and back -/
theorem haar_pcm_back (h : RoundsToNearest p F) (hp : 1 ≤ p) {s : ℤ} {B : ℕ} (hB : 2 * B ≤ 2 ^ p) (x : List ℝ) (hx : ∀ v ∈ x, Pcm s B v)
    (he : x.length % 2 = 0) :
    haarInverse (tab (x.length / 2) fun i => (x.getD (2 * i) 0 + x.getD (2 * i + 1) 0) / 2)
      (tab (x.length / 2) fun i => (x.getD (2 * i) 0 - x.getD (2 * i + 1) 0) / 2) = .ok x := by
  rw [haarInverse_ok _ _ (by rw [tab_length, tab_length]), tab_length]
  congr 1
  symm
  apply list_eq_tab' (by omega)
  intro i hi
  have hr : ∀ j, IsRepr p (x.getD j 0) := fun j => pcm_repr (by omega : B ≤ 2 ^ p) hp (pcm_getD hx j)
  unfold haarSyn
  by_cases h2 : i % 2 = 0
  · rw [if_pos h2, tab_getD (by omega), tab_getD (by omega)]
    obtain ⟨j, rfl⟩ : ∃ j, i = 2 * j := ⟨i / 2, by omega⟩
    rw [show 2 * j / 2 = j by omega]
    have e := h.add ((x.getD (2 * j) 0 + x.getD (2 * j + 1) 0) / 2) ((x.getD (2 * j) 0 - x.getD (2 * j + 1) 0) / 2)
    rw [show (x.getD (2 * j) 0 + x.getD (2 * j + 1) 0) / 2 + (x.getD (2 * j) 0 - x.getD (2 * j + 1) 0) / 2 = x.getD (2 * j) 0 by ring] at e
    rw [nearest_exact (hr _) e, List.getD_eq_getElem _ _ hi]
  · rw [if_neg h2, tab_getD (by omega), tab_getD (by omega)]
    obtain ⟨j, rfl⟩ : ∃ j, i = 2 * j + 1 := ⟨i / 2, by omega⟩
    rw [show (2 * j + 1) / 2 = j by omega]
    have e := h.sub ((x.getD (2 * j) 0 + x.getD (2 * j + 1) 0) / 2) ((x.getD (2 * j) 0 - x.getD (2 * j + 1) 0) / 2)
    rw [show (x.getD (2 * j) 0 + x.getD (2 * j + 1) 0) / 2 - (x.getD (2 * j) 0 - x.getD (2 * j + 1) 0) / 2 = x.getD (2 * j + 1) 0 by ring] at e
    rw [nearest_exact (hr _) e, List.getD_eq_getElem _ _ hi]

/-- C112c. Under the same condition the inverse returns the samples themselves (the last one twice when their number is odd). -/
theorem haar_pcm_lossless (h : RoundsToNearest p F) (hp : 1 ≤ p) (levels : ℕ) (s : ℤ) (B : ℕ) (x : List ℝ) (hx : ∀ v ∈ x, Pcm s B v)
    (hB : 2 ^ levels * B ≤ 2 ^ p) (he : EvenLevels levels x.length) :
    ∃ cur ds, multiForward haarForward levels x = .ok (cur, ds) ∧
      multiInverse haarInverse cur ds = .ok (if levels = 0 then x else padEven x) := by
  induction levels generalizing x s B with
  | zero => exact ⟨x, [], rfl, rfl⟩
  | succ l ih =>
    have hB' : 2 ^ l * (2 * B) ≤ 2 ^ p := by rw [← Nat.mul_assoc, ← pow_succ]; exact hB
    have hB1 : 2 * B ≤ 2 ^ p := (Nat.le_mul_of_pos_left _ (by positivity)).trans hB'
    obtain ⟨h1, h2⟩ := (evenLevels_succ l x.length).1 he
    have hx' := padEven_pcm hx
    have e := haar_pcm_step h hp hB1 _ hx'
    have hinv := haar_pcm_back h hp hB1 _ hx' (by rw [padEven_length]; omega)
    have ha : (padEven x).length / 2 = (x.length + 1) / 2 := by rw [padEven_length]; omega
    have ih' := ih (s - 1) (2 * B) _ (avg_pcm hx' ((padEven x).length / 2)) hB' (by rw [tab_length, ha]; exact h1)
    obtain ⟨cur, ds, e2, hok⟩ := ih'
    have hok' : multiInverse haarInverse cur ds =
        .ok (tab ((padEven x).length / 2) fun i => ((padEven x).getD (2 * i) 0 + (padEven x).getD (2 * i + 1) 0) / 2) := by
      rw [hok]
      split
      · rfl
      · rw [padEven_even _ (by rw [tab_length, ha]; omega)]
    refine ⟨cur, _ :: ds, by rw [multiForward, e, Outcome.bind_ok]; simp only [e2]; rfl, ?_⟩
    unfold multiInverse at hok' ⊢
    rw [List.reverse_cons, List.foldlM_append, hok', if_neg (Nat.succ_ne_zero l)]
    simp only [List.foldlM_cons, List.foldlM_nil]
    exact congrArg (· >>= pure) hinv

/-- 16-bit audio at either scale, in single precision: nine levels of any such length, no rounding. -/
theorem haar_audio_lossless (h : RoundsToNearest 24 F) (levels : ℕ) (hl : levels ≤ 9) (s : ℤ) (x : List ℝ) (hx : ∀ v ∈ x, Pcm s (2 ^ 15) v)
    (he : 2 ^ levels ∣ x.length) :
    ∃ cur ds, multiForward haarForward levels x = .ok (cur, ds) ∧ multiInverse haarInverse cur ds = .ok x := by
  have hB : 2 ^ levels * 2 ^ 15 ≤ 2 ^ 24 := by
    rw [← pow_add]; exact Nat.pow_le_pow_right (by norm_num) (by omega)
  have hev : EvenLevels levels x.length := by
    cases levels with
    | zero => left; rfl
    | succ l =>
      right
      obtain ⟨m, hm⟩ := he
      rw [hm, Nat.add_sub_cancel]
      refine ⟨m, ?_⟩
      rw [pow_succ]
      have : 2 ^ l * 2 * m + 1 = 2 * (2 ^ l * m) + 1 := by ring
      omega
  obtain ⟨cur, ds, e1, e2⟩ := haar_pcm_lossless h (by norm_num) levels s (2 ^ 15) x hx hB hev
  refine ⟨cur, ds, e1, e2.trans ?_⟩
  split
  · rfl
  · rename_i h0
    obtain ⟨m, hm⟩ := he
    obtain ⟨l, rfl⟩ : ∃ l, levels = l + 1 := ⟨levels - 1, by omega⟩
    rw [padEven_even x (by rw [hm, pow_succ, Nat.mul_right_comm, Nat.mul_mod_left])]

/-! ### The condition is sharp -/

omit F in
/-- an odd integer above `2^p` needs more than `p` bits, at any scale -/
theorem odd_not_repr {k s : ℤ} (hk : k % 2 = 1) (hp : 2 ^ p < |k|) : ¬ IsRepr p (k * (2 : ℝ) ^ s) := by
  rintro ⟨m, e, hm, h⟩
  rcases le_or_gt e s with hes | hes
  · obtain ⟨d, rfl⟩ : ∃ d : ℕ, s = e + d := ⟨(s - e).toNat, by omega⟩
    rw [zpow_add₀ (by norm_num), zpow_natCast, mul_comm ((2 : ℝ) ^ e), ← mul_assoc] at h
    have h1 : (k : ℝ) * 2 ^ d = m := mul_right_cancel₀ (zpow_ne_zero e (by norm_num)) h
    have h2 : k * 2 ^ d = m := by exact_mod_cast h1
    rw [← h2, abs_mul] at hm
    have h3 : (1 : ℤ) ≤ |2 ^ d| := by rw [abs_of_pos (by positivity)]; exact one_le_pow₀ (by norm_num)
    nlinarith [abs_nonneg k]
  · obtain ⟨d, rfl⟩ : ∃ d : ℕ, e = s + (d + 1 : ℕ) := ⟨(e - s - 1).toNat, by omega⟩
    rw [zpow_add₀ (by norm_num), zpow_natCast, mul_comm ((2 : ℝ) ^ s) (2 ^ (d + 1)), ← mul_assoc] at h
    have h1 : (k : ℝ) = m * 2 ^ (d + 1) := mul_right_cancel₀ (zpow_ne_zero s (by norm_num)) h
    have h2 : k = m * 2 ^ (d + 1) := by exact_mod_cast h1
    rw [pow_succ, ← mul_assoc] at h2
    omega

theorem multi_repr (h : RoundsToNearest p F) : ∀ (levels : ℕ) (x cur : List ℝ) (ds : List (List ℝ)), (∀ v ∈ x, IsRepr p v) →
    multiForward haarForward levels x = .ok (cur, ds) → ∀ v ∈ cur, IsRepr p v
  | 0, x, cur, ds, hx, e => by
    simp only [multiForward, Outcome.ok.injEq, Prod.mk.injEq] at e
    rw [← e.1]; exact hx
  | l + 1, x, cur, ds, _, e => by
    rw [multiForward, haarForward_ok, Outcome.bind_ok] at e
    simp only [] at e
    cases hm : multiForward haarForward l (tab ((padEven x).length / 2) fun i =>
        ((padEven x).getD (2 * i) Flt.zero +. (padEven x).getD (2 * i + 1) Flt.zero) /. two) with
    | ok v =>
      obtain ⟨c, d⟩ := v
      rw [hm] at e
      simp only [Outcome.bind_ok] at e
      obtain ⟨rfl, -⟩ := Prod.mk.inj (Outcome.ok.inj e)
      refine multi_repr h l _ c d ?_ hm
      intro v hv
      unfold tab at hv
      obtain ⟨i, -, rfl⟩ := List.mem_map.1 hv
      unfold two
      rw [h.two]
      exact (h.div _ 2 (by norm_num)).1
    | panic => rw [hm] at e; cases e
    | hang => rw [hm] at e; cases e

include hG in
/-- C112d. The condition is sharp: one level more, or samples one unit of range more, and there are samples whose coefficients
are not the exact ones. -/
theorem haar_pcm_sharp (h : RoundsToNearest p F) (levels B : ℕ) (hl : 0 < levels) (hB : 2 ^ p < 2 ^ levels * B) (hp : 1 ≤ p) :
    ∃ x : List ℝ, x.length = 2 ^ levels ∧ (∀ v ∈ x, Pcm 0 B v) ∧
      multiForward haarForward levels x ≠ multiForward (@haarForward ℝ G) levels x := by
  have hB0 : 0 < B := by
    rcases Nat.eq_zero_or_pos B with rfl | h0
    · simp at hB
    · exact h0
  obtain ⟨l, rfl⟩ : ∃ l, levels = l + 1 := ⟨levels - 1, by omega⟩
  set f : ℕ → ℝ := fun i => (B : ℝ) - if i = 0 then 1 else 0 with hf
  refine ⟨tab (2 ^ (l + 1)) f, tab_length _ _, ?_, fun heq => ?_⟩
  · intro v hv
    unfold tab at hv
    obtain ⟨i, -, rfl⟩ := List.mem_map.1 hv
    refine ⟨(B : ℤ) - if i = 0 then 1 else 0, ?_, by rw [hf]; push_cast; simp⟩
    split
    · rw [abs_of_nonneg (by omega)]; omega
    · simp
  · obtain ⟨cur, ds, e, lc, -, hc, -⟩ := haar_multi_values (F := G) hG (l + 1) 1 (tab (2 ^ (l + 1)) f) (by rw [tab_length, mul_one])
    rw [e, multiForward, haarForward_ok, Outcome.bind_ok] at heq
    simp only [] at heq
    have hv := hc 0 (by norm_num)
    have hs : sumFrom (tab (2 ^ (l + 1)) f) (0 * 2 ^ (l + 1)) (2 ^ (l + 1)) = ((2 ^ (l + 1) * B - 1 : ℤ) : ℝ) := by
      unfold sumFrom
      rw [zero_mul, sum_congr rfl (g := f) (fun k hk => by rw [zero_add, tab_getD (mem_range.1 hk)]), hf]
      simp
    rw [hs] at hv
    cases hm : multiForward haarForward l (tab ((padEven (tab (2 ^ (l + 1)) f)).length / 2) fun i =>
        ((padEven (tab (2 ^ (l + 1)) f)).getD (2 * i) Flt.zero +. (padEven (tab (2 ^ (l + 1)) f)).getD (2 * i + 1) Flt.zero) /. two) with
    | ok v =>
      obtain ⟨c, d⟩ := v
      rw [hm] at heq
      simp only [Outcome.bind_ok] at heq
      obtain ⟨rfl, -⟩ := Prod.mk.inj (Outcome.ok.inj heq)
      have hr := multi_repr h l _ c d (by
        intro v hv
        unfold tab at hv
        obtain ⟨i, -, rfl⟩ := List.mem_map.1 hv
        unfold two
        rw [h.two]
        exact (h.div _ 2 (by norm_num)).1) hm
      have hr0 : IsRepr p (c.getD 0 0) := by
        rw [List.getD_eq_getElem _ _ (by omega)]; exact hr _ (List.getElem_mem _)
      rw [hv] at hr0
      have hB' : (2 : ℤ) ^ p < 2 ^ (l + 1) * B := by exact_mod_cast hB
      obtain ⟨p', rfl⟩ : ∃ q, p = q + 1 := ⟨p - 1, by omega⟩
      refine odd_not_repr (p := p' + 1) (k := 2 ^ (l + 1) * B - 1) (s := -(l + 1 : ℕ)) ?_ ?_ ?_
      · rw [pow_succ, mul_right_comm]; omega
      · rw [abs_of_pos]
        · rw [pow_succ, pow_succ (2 : ℤ) l, mul_right_comm] at hB' ⊢
          omega
        · have : (0 : ℤ) < 2 ^ (p' + 1) := by positivity
          omega
      · rw [zpow_neg, zpow_natCast, ← div_eq_mul_inv]; exact hr0
    | panic => rw [hm] at heq; cases heq
    | hang => rw [hm] at heq; cases heq

end rounded

/-! ### Any samples -/

/-- Lists of equal length, the second of values of at most `M`, the first off by at most `(g - 1) M`. -/
def NearL (g M : ℝ) (a b : List ℝ) : Prop :=
  a.length = b.length ∧ ∀ i, |a.getD i 0 - b.getD i 0| ≤ (g - 1) * M ∧ |b.getD i 0| ≤ M

theorem padEven_getD (x : List ℝ) (i : ℕ) (hi : i < (padEven x).length) : (padEven x).getD i 0 = x.getD (min i (x.length - 1)) 0 := by
  unfold padEven at hi ⊢
  split
  · rename_i ho
    rw [if_pos ho] at hi
    cases hl : x.getLast? with
    | none => rw [List.getLast?_eq_none_iff] at hl; subst hl; simp at ho
    | some l =>
      rw [hl] at hi
      simp only [] at hi ⊢
      rw [List.length_append, List.length_singleton] at hi
      by_cases h2 : i < x.length
      · rw [min_eq_left (by omega), List.getD_append _ _ _ _ h2]
      · obtain rfl : i = x.length := by omega
        rw [min_eq_right (by omega), List.getD_append_right _ _ _ _ (by omega), Nat.sub_self]
        rw [List.getLast?_eq_getElem?] at hl
        rw [List.getD_eq_getElem?_getD, List.getD_eq_getElem?_getD, hl]
        rfl
  · rename_i ho
    rw [if_neg ho] at hi
    rw [min_eq_left (by omega)]

theorem NearL.pad {g M : ℝ} {a b : List ℝ} (hM : 0 ≤ M) (hg : 1 ≤ g) (h : NearL g M a b) : NearL g M (padEven a) (padEven b) := by
  have hl : (padEven a).length = (padEven b).length := by rw [padEven_length, padEven_length, h.1]
  refine ⟨hl, fun i => ?_⟩
  by_cases hi : i < (padEven a).length
  · rw [padEven_getD a i hi, padEven_getD b i (by omega), h.1]; exact h.2 _
  · rw [List.getD_eq_default _ _ (by omega), List.getD_eq_default _ _ (by omega), sub_self, abs_zero]
    exact ⟨mul_nonneg (by linarith) hM, hM⟩

section error
variable {u v t : ℝ} {G : Flt ℝ} (hG : Lawful G) [F : Flt ℝ]

omit F in
theorem nearL_tab {g M : ℝ} (hM : 0 ≤ M) (hg : 1 ≤ g) {n : ℕ} {f f' : ℕ → ℝ}
    (h : ∀ i < n, |f i - f' i| ≤ (g - 1) * M ∧ |f' i| ≤ M) : NearL g M (tab n f) (tab n f') := by
  refine ⟨by rw [tab_length, tab_length], fun i => ?_⟩
  by_cases hi : i < n
  · rw [tab_getD hi, tab_getD hi]; exact h i hi
  · rw [List.getD_eq_default _ _ (by rw [tab_length]; omega), List.getD_eq_default _ _ (by rw [tab_length]; omega), sub_self, abs_zero]
    exact ⟨mul_nonneg (by linarith) hM, hM⟩

theorem half_sum_err (hF : Rounding F u v t) {g M a a' s e : ℝ} (hs : |s| ≤ 2 * M) (he : |a - s| ≤ (g - 1) * (2 * M)) (hg : 1 ≤ g)
    (hM : 0 ≤ M) (ha : |a' - a| ≤ u * |a|) (hd : e = F.div a' (F.lit 2 0)) : |e - s / 2| ≤ (g * (1 + u) ^ 2 - 1) * M := by
  have hu := hF.u_nonneg
  subst hd
  have d := hF.div a' 2 (by norm_num)
  rw [hF.two]
  have e1 : |a| ≤ g * (2 * M) := by
    have := abs_sub_abs_le_abs_sub a s; nlinarith
  have e2 : |a' - s| ≤ (g * (1 + u) - 1) * (2 * M) := by
    have := abs_sub_le a' a s
    nlinarith [mul_le_mul_of_nonneg_left e1 hu]
  have e3 : |a'| ≤ g * (1 + u) * (2 * M) := by
    have := abs_sub_abs_le_abs_sub a' s; nlinarith
  have e4 : |a' / 2| ≤ g * (1 + u) * M := by
    rw [abs_div, abs_of_pos (show (0 : ℝ) < 2 by norm_num)]; linarith
  have e5 : |a' / 2 - s / 2| ≤ (g * (1 + u) - 1) * M := by
    rw [← sub_div, abs_div, abs_of_pos (show (0 : ℝ) < 2 by norm_num)]; linarith
  have := abs_sub_le (F.div a' 2) (a' / 2) (s / 2)
  nlinarith [mul_le_mul_of_nonneg_left e4 hu]

include hG in
theorem haar_near (hF : Rounding F u v t) {g M : ℝ} (hM : 0 ≤ M) (hg : 1 ≤ g) {x x' : List ℝ} (h : NearL g M x x') :
    ∃ a d a' d', haarForward x = .ok (a, d) ∧ @haarForward ℝ G x' = .ok (a', d') ∧ NearL (g * (1 + u) ^ 2) M a a' ∧
      NearL (g * (1 + u) ^ 2) M d d' ∧ a'.length = x'.length / 2 ∧ d'.length = x'.length / 2 := by
  have hu := hF.u_nonneg
  have hg2 : 1 ≤ g * (1 + u) ^ 2 := by
    have : 1 ≤ (1 + u) ^ 2 := one_le_pow₀ (by linarith)
    nlinarith
  refine ⟨_, _, _, _, haarForward_ok x, haar_exact_step hG x', ?_, ?_, tab_length _ _, tab_length _ _⟩
  · rw [h.1]
    refine nearL_tab hM hg2 fun i hi => ?_
    obtain ⟨p1, p2⟩ := h.2 (2 * i)
    obtain ⟨q1, q2⟩ := h.2 (2 * i + 1)
    have hs : |x'.getD (2 * i) 0 + x'.getD (2 * i + 1) 0| ≤ 2 * M := (abs_add_le _ _).trans (by linarith)
    refine ⟨half_sum_err hF hs ?_ hg hM (hF.add (x.getD (2 * i) 0) (x.getD (2 * i + 1) 0)) (by rw [hF.zero]; rfl), ?_⟩
    · rw [show x.getD (2 * i) 0 + x.getD (2 * i + 1) 0 - (x'.getD (2 * i) 0 + x'.getD (2 * i + 1) 0) =
        (x.getD (2 * i) 0 - x'.getD (2 * i) 0) + (x.getD (2 * i + 1) 0 - x'.getD (2 * i + 1) 0) by ring]
      exact (abs_add_le _ _).trans (by linarith)
    · rw [abs_div, abs_of_pos (show (0 : ℝ) < 2 by norm_num)]; linarith
  · rw [h.1]
    refine nearL_tab hM hg2 fun i hi => ?_
    obtain ⟨p1, p2⟩ := h.2 (2 * i)
    obtain ⟨q1, q2⟩ := h.2 (2 * i + 1)
    have hs : |x'.getD (2 * i) 0 - x'.getD (2 * i + 1) 0| ≤ 2 * M := (abs_sub _ _).trans (by linarith)
    refine ⟨half_sum_err hF hs ?_ hg hM (hF.sub (x.getD (2 * i) 0) (x.getD (2 * i + 1) 0)) (by rw [hF.zero]; rfl), ?_⟩
    · rw [show x.getD (2 * i) 0 - x.getD (2 * i + 1) 0 - (x'.getD (2 * i) 0 - x'.getD (2 * i + 1) 0) =
        (x.getD (2 * i) 0 - x'.getD (2 * i) 0) - (x.getD (2 * i + 1) 0 - x'.getD (2 * i + 1) 0) by ring]
      exact (abs_sub _ _).trans (by linarith)
    · rw [abs_div, abs_of_pos (show (0 : ℝ) < 2 by norm_num)]; linarith

theorem syn_err (hF : Rounding F u v t) {E D M a d c s r : ℝ} (hs : |s| ≤ M) (hE : |a - r| ≤ (E - 1) * M) (hD : |d - (s - r)| ≤ (D - 1) * M)
    (hc : |c - (a + d)| ≤ u * |a + d|) : |c - s| ≤ ((1 + u) * (E + (D - 1)) - 1) * M := by
  have hu := hF.u_nonneg
  have e1 : |a + d - s| ≤ (E - 1 + (D - 1)) * M := by
    rw [show a + d - s = (a - r) + (d - (s - r)) by ring]
    exact (abs_add_le _ _).trans (by linarith)
  have e2 : |a + d| ≤ (E + (D - 1)) * M := by
    have := abs_sub_abs_le_abs_sub (a + d) s; nlinarith
  have := abs_sub_le c (a + d) s
  nlinarith [mul_le_mul_of_nonneg_left e2 hu]

/-- one level back -/
theorem haarInv_near (hF : Rounding F u v t) {E D M : ℝ} (hM : 0 ≤ M) (hE1 : 1 ≤ E) (hD1 : 1 ≤ D) {x y d : List ℝ} (he : x.length % 2 = 0)
    (hx : ∀ i, |x.getD i 0| ≤ M)
    (hy : NearL E M y (tab (x.length / 2) fun i => (x.getD (2 * i) 0 + x.getD (2 * i + 1) 0) / 2))
    (hd : NearL D M d (tab (x.length / 2) fun i => (x.getD (2 * i) 0 - x.getD (2 * i + 1) 0) / 2)) :
    ∃ z, haarInverse y d = .ok z ∧ NearL ((1 + u) * (E + (D - 1))) M z x := by
  have hu := hF.u_nonneg
  have ly : y.length = x.length / 2 := by rw [hy.1, tab_length]
  have ld : d.length = x.length / 2 := by rw [hd.1, tab_length]
  refine ⟨_, haarInverse_ok y d (by omega), by rw [tab_length]; omega, fun i => ⟨?_, hx i⟩⟩
  by_cases hi : i < x.length
  · rw [tab_getD (by omega)]
    unfold haarSyn
    rw [hF.zero]
    have h1 := (hy.2 (i / 2)).1
    have h2 := (hd.2 (i / 2)).1
    rw [tab_getD (by omega)] at h1 h2
    by_cases h3 : i % 2 = 0
    · rw [if_pos h3]
      obtain ⟨j, rfl⟩ : ∃ j, i = 2 * j := ⟨i / 2, by omega⟩
      rw [show 2 * j / 2 = j by omega] at h1 h2 ⊢
      refine syn_err hF (hx (2 * j)) h1 ?_ (hF.add _ _)
      rw [show x.getD (2 * j) 0 - (x.getD (2 * j) 0 + x.getD (2 * j + 1) 0) / 2 = (x.getD (2 * j) 0 - x.getD (2 * j + 1) 0) / 2 by ring]
      exact h2
    · rw [if_neg h3]
      obtain ⟨j, rfl⟩ : ∃ j, i = 2 * j + 1 := ⟨i / 2, by omega⟩
      rw [show (2 * j + 1) / 2 = j by omega] at h1 h2 ⊢
      refine syn_err hF (d := -d.getD j 0) (hx (2 * j + 1)) h1 ?_ (by rw [← sub_eq_add_neg]; exact hF.sub _ _)
      rw [show x.getD (2 * j + 1) 0 - (x.getD (2 * j) 0 + x.getD (2 * j + 1) 0) / 2 = -((x.getD (2 * j) 0 - x.getD (2 * j + 1) 0) / 2) by ring,
        ← neg_add', abs_neg, ← sub_eq_add_neg]
      exact h2
  · rw [List.getD_eq_default _ _ (by rw [tab_length]; omega), List.getD_eq_default _ _ (by omega), sub_self, abs_zero]
    exact mul_nonneg (by nlinarith) hM

include hG in
theorem multi_near (hF : Rounding F u v t) {M : ℝ} (hM : 0 ≤ M) : ∀ (levels : ℕ) (g : ℝ) (x x' : List ℝ), 1 ≤ g → NearL g M x x' →
    ∃ cur ds cur' ds', multiForward haarForward levels x = .ok (cur, ds) ∧ multiForward (@haarForward ℝ G) levels x' = .ok (cur', ds') ∧
      NearL (g * (1 + u) ^ (2 * levels)) M cur cur' ∧ ds.length = levels ∧ ds'.length = levels ∧
      (∀ j < levels, NearL (g * (1 + u) ^ (2 * (j + 1))) M (ds.getD j []) (ds'.getD j [])) ∧
      (EvenLevels levels x'.length → ∃ y, multiInverse haarInverse cur ds = .ok y ∧
        NearL ((1 + u) ^ levels * (g * (1 + u) ^ (2 * levels) + levels * (g * (1 + u) ^ (2 * levels) - 1))) M y
          (if levels = 0 then x' else padEven x'))
  | 0, g, x, x', hg, h => by
    refine ⟨x, [], x', [], rfl, rfl, by simpa using h, rfl, rfl, fun j hj => absurd hj (by omega), fun _ => ⟨x, rfl, by simpa using h⟩⟩
  | l + 1, g, x, x', hg, h => by
    have hu := hF.u_nonneg
    have hu1 : (1 : ℝ) ≤ 1 + u := by linarith
    have hpad := h.pad hM hg
    obtain ⟨a, d, a', d', e, e', na, nd, la, ld⟩ := haar_near hG hF hM hg hpad
    have hg2 : 1 ≤ g * (1 + u) ^ 2 := by
      have : 1 ≤ (1 + u) ^ 2 := one_le_pow₀ hu1
      nlinarith
    obtain ⟨cur, ds, cur', ds', f, f', nc, lds, lds', nds, hinv⟩ := multi_near hF hM l (g * (1 + u) ^ 2) a a' hg2 na
    have hq : ∀ k, g * (1 + u) ^ 2 * (1 + u) ^ (2 * k) = g * (1 + u) ^ (2 * (k + 1)) := by intro k; ring
    refine ⟨cur, d :: ds, cur', d' :: ds', by rw [multiForward, e, Outcome.bind_ok]; simp only [f]; rfl,
      by rw [multiForward, e', Outcome.bind_ok]; simp only [f']; rfl, by rw [← hq]; exact nc, by simp [lds], by simp [lds'], ?_, ?_⟩
    · intro j hj
      cases j with
      | zero => simpa using nd
      | succ j => rw [← hq]; simpa using nds j (by omega)
    · intro hev
      obtain ⟨h1, h2⟩ := (evenLevels_succ l x'.length).1 hev
      have hlen : a'.length = (x'.length + 1) / 2 := by rw [la, padEven_length]; omega
      obtain ⟨y, hy, ny⟩ := hinv (by rw [hlen]; exact h1)
      have ny' : NearL ((1 + u) ^ l * (g * (1 + u) ^ 2 * (1 + u) ^ (2 * l) + l * (g * (1 + u) ^ 2 * (1 + u) ^ (2 * l) - 1))) M y a' := by
        split at ny
        · exact ny
        · rwa [padEven_even a' (by rw [hlen]; omega)] at ny
      rw [haar_exact_step hG] at e'
      obtain ⟨rfl, rfl⟩ := Prod.mk.inj (Outcome.ok.inj e')
      set K := g * (1 + u) ^ (2 * (l + 1)) with hK
      rw [hq] at ny'
      have hK1 : g * (1 + u) ^ 2 ≤ K := by
        rw [hK, ← hq]
        exact le_mul_of_one_le_right (by linarith) (one_le_pow₀ hu1)
      have hp : 1 ≤ (1 + u) ^ l := one_le_pow₀ hu1
      have hKl : 1 ≤ K + l * (K - 1) := by
        have : 0 ≤ (l : ℝ) * (K - 1) := mul_nonneg (Nat.cast_nonneg _) (by linarith)
        linarith
      obtain ⟨z, hz, nz⟩ := haarInv_near hF hM (by nlinarith) hg2 (by rw [padEven_length]; omega) (fun i => (hpad.2 i).2) ny' nd
      refine ⟨z, ?_, nz.1, fun i => ⟨((nz.2 i).1).trans (mul_le_mul_of_nonneg_right ?_ hM), (nz.2 i).2⟩⟩
      · unfold multiInverse at hy ⊢
        rw [List.reverse_cons, List.foldlM_append, hy]
        simp only [List.foldlM_cons, List.foldlM_nil]
        exact congrArg (· >>= pure) hz
      · have : g * (1 + u) ^ 2 - 1 ≤ (1 + u) ^ l * (K - 1) := by nlinarith
        have h3 : (1 + u) ^ (l + 1) * (K + ((l + 1 : ℕ) : ℝ) * (K - 1)) = (1 + u) * ((1 + u) ^ l * (K + l * (K - 1)) + (1 + u) ^ l * (K - 1)) := by
          push_cast; ring
        rw [h3]
        have := mul_le_mul_of_nonneg_left this (show 0 ≤ 1 + u by linarith)
        linarith

include hG in
/-- C112e. Any samples of at most `M`: the approximation after `levels` levels is within `((1+u)^(2 levels) - 1) M` of the exact one,
the details of level `j` within `((1+u)^(2(j+1)) - 1) M`, and the inverse returns every sample within
`((1+u)^levels (1 + (levels + 1) ((1+u)^(2 levels) - 1)) - 1) M` - about `(2 levels² + 3 levels) u M`. -/
theorem haar_multi_error (hF : Rounding F u v t) (levels : ℕ) (M : ℝ) (x : List ℝ) (hM : 0 ≤ M) (hx : ∀ e ∈ x, |e| ≤ M) :
    ∃ cur ds cur' ds', multiForward haarForward levels x = .ok (cur, ds) ∧ multiForward (@haarForward ℝ G) levels x = .ok (cur', ds') ∧
      cur.length = cur'.length ∧ (∀ i, |cur.getD i 0 - cur'.getD i 0| ≤ ((1 + u) ^ (2 * levels) - 1) * M) ∧
      (∀ j < levels, (ds.getD j []).length = (ds'.getD j []).length ∧
        ∀ i, |(ds.getD j []).getD i 0 - (ds'.getD j []).getD i 0| ≤ ((1 + u) ^ (2 * (j + 1)) - 1) * M) ∧
      (EvenLevels levels x.length → ∃ y, multiInverse haarInverse cur ds = .ok y ∧
        y.length = (if levels = 0 then x.length else 2 * ((x.length + 1) / 2)) ∧
        ∀ i < x.length, |y.getD i 0 - x.getD i 0| ≤ ((1 + u) ^ levels * (1 + (levels + 1) * ((1 + u) ^ (2 * levels) - 1)) - 1) * M) := by
  have h0 : NearL 1 M x x := by
    refine ⟨rfl, fun i => ⟨by simp, ?_⟩⟩
    by_cases hi : i < x.length
    · rw [List.getD_eq_getElem _ _ hi]; exact hx _ (List.getElem_mem _)
    · rw [List.getD_eq_default _ _ (by omega), abs_zero]; exact hM
  obtain ⟨cur, ds, cur', ds', e, e', nc, -, -, nd, hy⟩ := multi_near hG hF hM levels 1 x x le_rfl h0
  refine ⟨cur, ds, cur', ds', e, e', nc.1, fun i => by have := (nc.2 i).1; rwa [one_mul] at this, fun j hj => ⟨(nd j hj).1, fun i => ?_⟩, fun hev => ?_⟩
  · have := ((nd j hj).2 i).1; rwa [one_mul] at this
  · obtain ⟨y, h1, h2⟩ := hy hev
    refine ⟨y, h1, ?_, fun i hi => ?_⟩
    · rw [h2.1]; split
      · rfl
      · rw [padEven_length]
    · have h3 := (h2.2 i).1
      have h4 : (if levels = 0 then x else padEven x).getD i 0 = x.getD i 0 := by
        split
        · rfl
        · rw [padEven_getD x i (by rw [padEven_length]; omega), min_eq_left (by omega)]
      rw [h4] at h3
      refine h3.trans (le_of_eq ?_)
      ring

end error

/-! ### The hypotheses are met -/

/-- a sawtooth through the whole range of 16 bits, any number of blocks of 512 samples, single precision -/
noncomputable def sawtooth (n : ℕ) : List ℝ := (List.range n).map fun i => (((i % 65536 : ℕ) : ℝ) - 32768) * 2 ^ (-15 : ℤ)

theorem sawtooth_pcm (n : ℕ) : ∀ v ∈ sawtooth n, Pcm (-15) (2 ^ 15) v := by
  intro v hv
  obtain ⟨i, -, rfl⟩ := List.mem_map.1 hv
  have := Nat.mod_lt i (show 65536 > 0 by norm_num)
  refine ⟨((i % 65536 : ℕ) : ℤ) - 32768, ?_, by rw [Int.cast_sub, Int.cast_natCast]; norm_num⟩
  rw [abs_le]
  constructor <;> norm_num <;> omega

example (m : ℕ) : letI := rndFlt 24 24 true true
    ∃ cur ds, multiForward haarForward 9 (sawtooth (2 ^ 9 * m)) = .ok (cur, ds) ∧ multiInverse haarInverse cur ds = .ok (sawtooth (2 ^ 9 * m)) :=
  letI := rndFlt 24 24 true true
  haar_audio_lossless (rndFlt_nearest (by norm_num) true true) 9 le_rfl (-15) _ (sawtooth_pcm _) ⟨m, by rw [sawtooth, List.length_map, List.length_range]⟩

/-- and ten levels may round -/
example : letI := rndFlt 24 24 true true
    ∃ x : List ℝ, x.length = 2 ^ 10 ∧ (∀ v ∈ x, Pcm 0 (2 ^ 15) v) ∧
      multiForward haarForward 10 x ≠ multiForward (@haarForward ℝ (realFlt true)) 10 x :=
  letI := rndFlt 24 24 true true
  haar_pcm_sharp (realFlt_lawful true) (rndFlt_nearest (by norm_num) true true) 10 (2 ^ 15) (by norm_num) (by norm_num) (by norm_num)

/-- the error of nine levels and back, for a single-precision unit roundoff: below 193 u -/
example : (1 + (2 : ℝ)⁻¹ ^ 24) ^ 9 * (1 + (9 + 1) * ((1 + (2 : ℝ)⁻¹ ^ 24) ^ (2 * 9) - 1)) - 1 ≤ 193 * (2 : ℝ)⁻¹ ^ 24 := by norm_num

end Kofft.Props
