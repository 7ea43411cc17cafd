import Verif.Model.Wavelet
import Verif.Lib.Loop
import Verif.Lib.Loop2
import Verif.Lib.Lawful
/-
Evaluating the loops of the wavelet transforms.
-/
namespace Kofft
variable {T : Type} [Flt T]

/-! ### Haar -/

theorem haarStep_loop (x a d : List T) (n : Nat) (ha : a.length = n) (hd : d.length = n) (hx : 2 * n ≤ x.length) :
    forRange 0 n (a, d) (haarStep x) =
      .ok (tab n fun i => (x.getD (2 * i) Flt.zero +. x.getD (2 * i + 1) Flt.zero) /. two,
        tab n fun i => (x.getD (2 * i) Flt.zero -. x.getD (2 * i + 1) Flt.zero) /. two) := by
  rw [forRange_eq (fun i =>
    (tab n fun k => if k < i then (x.getD (2 * k) Flt.zero +. x.getD (2 * k + 1) Flt.zero) /. two else a.getD k Flt.zero,
     tab n fun k => if k < i then (x.getD (2 * k) Flt.zero -. x.getD (2 * k + 1) Flt.zero) /. two else d.getD k Flt.zero))
    (Nat.zero_le _)]
  · simp only [Outcome.ok.injEq, Prod.mk.injEq]
    constructor <;> exact tab_congr fun k hk => by rw [if_pos hk]
  · simp only [Nat.not_lt_zero, if_false]
    rw [← ha, ← eq_tab_getD, ha, ← hd, ← eq_tab_getD]
  · intro i _ hi
    simp only [haarStep]
    rw [rd_getD Flt.zero (by omega), Outcome.bind_ok, rd_getD Flt.zero (by omega), Outcome.bind_ok, wr_tab hi,
      Outcome.bind_ok, wr_tab hi, Outcome.bind_ok, Outcome.pure_eq]
    simp only [Outcome.ok.injEq, Prod.mk.injEq]
    constructor <;>
    · apply tab_congr; intro k hk
      by_cases h : k = i
      · subst h; simp
      · simp only [h, if_false]
        by_cases h2 : k < i
        · rw [if_pos h2, if_pos (by omega)]
        · rw [if_neg h2, if_neg (by omega)]

theorem haarForward_ok (x : List T) : haarForward x =
    .ok (tab (x.length / 2) fun i => (x.getD (2 * i) Flt.zero +. x.getD (2 * i + 1) Flt.zero) /. two,
        tab (x.length / 2) fun i => (x.getD (2 * i) Flt.zero -. x.getD (2 * i + 1) Flt.zero) /. two) :=
  haarStep_loop x _ _ _ (by simp) (by simp) (by omega)

/-- Sample `t` of the Haar synthesis. -/
def haarSyn (a d : List T) (t : Nat) : T :=
  if t % 2 = 0 then a.getD (t / 2) Flt.zero +. d.getD (t / 2) Flt.zero
  else a.getD (t / 2) Flt.zero -. d.getD (t / 2) Flt.zero

theorem haarInv_prefix (a d o : List T) (n : Nat) (ha : n ≤ a.length) (hd : n ≤ d.length) (ho : 2 * n ≤ o.length) :
    forRange 0 n o (haarInvStep a d) =
      .ok (tab o.length fun t => if t < 2 * n then haarSyn a d t else o.getD t Flt.zero) := by
  rw [forRange_eq (fun i => tab o.length fun t => if t < 2 * i then haarSyn a d t else o.getD t Flt.zero)
    (Nat.zero_le _)]
  · simp only [Nat.mul_zero, Nat.not_lt_zero, if_false]
    exact eq_tab_getD o _
  · intro i _ hi
    simp only [haarInvStep]
    rw [rd_getD Flt.zero (by omega), Outcome.bind_ok, rd_getD Flt.zero (by omega), Outcome.bind_ok,
      wr_tab (by omega), Outcome.bind_ok, wr_tab (by omega)]
    congr 1; apply tab_congr; intro k hk
    by_cases h : k = 2 * i + 1
    · subst h
      rw [if_pos rfl, if_pos (by omega), haarSyn, if_neg (by omega), show (2 * i + 1) / 2 = i by omega]
    · rw [if_neg h]
      by_cases h2 : k = 2 * i
      · subst h2
        rw [if_pos rfl, if_pos (by omega), haarSyn, if_pos (by omega), show (2 * i) / 2 = i by omega]
      · rw [if_neg h2]
        by_cases h3 : k < 2 * i
        · rw [if_pos h3, if_pos (by omega)]
        · rw [if_neg h3, if_neg (by omega)]

theorem haarInv_loop (a d o : List T) (hd : a.length ≤ d.length) (ho : o.length = 2 * a.length) :
    forRange 0 a.length o (haarInvStep a d) = .ok (tab (2 * a.length) (haarSyn a d)) := by
  rw [haarInv_prefix a d o _ (Nat.le_refl _) hd (by omega), ho]
  congr 1; exact tab_congr fun t ht => by rw [if_pos ht]

theorem haarInverse_ok (a d : List T) (hd : a.length ≤ d.length) :
    haarInverse a d = .ok (tab (2 * a.length) (haarSyn a d)) := by
  unfold haarInverse
  exact haarInv_loop a d _ hd (by rw [List.length_replicate]; omega)

theorem haarInverse_panic (a d : List T) (hd : d.length < a.length) : haarInverse a d = .panic := by
  unfold haarInverse
  refine forRange_panic_at (fun o => o.length = 2 * a.length) hd 0 _ (Nat.zero_le _) (by simp; omega) ?_ ?_
  · intro i s _ hi hs
    simp only [haarInvStep]
    rw [rd_getD Flt.zero (by omega), Outcome.bind_ok, rd_getD Flt.zero (by omega), Outcome.bind_ok,
      wr_ok (by omega), Outcome.bind_ok, wr_ok (by simp; omega)]
    exact ⟨_, rfl, by simp [hs]⟩
  · intro s hs
    simp only [haarInvStep]
    rw [rd_ok hd, Outcome.bind_ok, rd_panic (Nat.le_refl _), Outcome.bind_panic]

/-! ### Batches -/

theorem pairBatch_ok {α β γ : Type} (f : α → Outcome (β × γ)) (g : α → β × γ) :
    ∀ xs : List α, (∀ x ∈ xs, f x = .ok (g x)) →
      pairBatch f xs = .ok (xs.map fun x => (g x).1, xs.map fun x => (g x).2)
  | [], _ => rfl
  | x :: xs, h => by
    rw [pairBatch, h x (by simp), Outcome.bind_ok, pairBatch_ok f g xs (fun y hy => h y (by simp [hy]))]
    rfl

theorem zipBatch_ok {α β γ : Type} (f : α → β → Outcome γ) (g : α → β → γ) :
    ∀ (xs : List α) (ys : List β), (∀ p ∈ xs.zip ys, f p.1 p.2 = .ok (g p.1 p.2)) →
      zipBatch f xs ys = .ok (List.zipWith g xs ys)
  | [], _, _ => by simp [zipBatch]
  | _ :: _, [], _ => by simp [zipBatch]
  | x :: xs, y :: ys, h => by
    rw [zipBatch, h (x, y) (by simp), Outcome.bind_ok, zipBatch_ok f g xs ys (fun p hp => h p (by simp [hp]))]
    rfl

/-! ### Reflection -/

/-- The loop of `reflect` stops whenever there are at least two samples. -/
theorem reflectLoop_ok (n : Int) (hn : 2 ≤ n) : ∀ (fuel : Nat) (idx : Int), 2 * idx.natAbs + 2 ≤ fuel + (if 0 ≤ idx then 1 else 0) →
    ∃ r : Int, reflectLoop n fuel idx = .ok r ∧ 0 ≤ r ∧ r < n ∧ ((2 * (n - 1)) ∣ (r - idx) ∨ (2 * (n - 1)) ∣ (r + idx))
  | 0, idx, h => by
    exfalso; split at h <;> omega
  | fuel + 1, idx, h => by
    rw [reflectLoop]
    by_cases hneg : idx < 0
    · rw [if_pos (Or.inl hneg), if_pos hneg]
      obtain ⟨r, e, h0, h1, hd⟩ := reflectLoop_ok n hn fuel (-idx) (by
        rw [if_neg (by omega)] at h; rw [if_pos (by omega)]; omega)
      refine ⟨r, e, h0, h1, ?_⟩
      rcases hd with hd | hd
      · right; rwa [sub_neg_eq_add] at hd
      · left; rwa [← sub_eq_add_neg] at hd
    · by_cases hge : n ≤ idx
      · rw [if_pos (Or.inr hge), if_neg hneg]
        obtain ⟨r, e, h0, h1, hd⟩ := reflectLoop_ok n hn fuel (2 * (n - 1) - idx) (by
          rw [if_pos (by omega)] at h
          split <;> omega)
        refine ⟨r, e, h0, h1, ?_⟩
        rcases hd with hd | hd
        · right
          have : r + idx = (r - (2 * (n - 1) - idx)) + 2 * (n - 1) := by ring
          rw [this]; exact dvd_add hd (dvd_refl _)
        · left
          have : r - idx = (r + (2 * (n - 1) - idx)) - 2 * (n - 1) := by ring
          rw [this]; exact dvd_sub hd (dvd_refl _)
      · rw [if_neg (by omega)]
        exact ⟨idx, rfl, by omega, by omega, Or.inl (by simp)⟩

/-- The index `reflect` yields for a signal of `len ≥ 2` samples: the signal is continued by mirroring at both end
samples, with period `2 (len - 1)`. -/
def mirIdx (len : Nat) (idx : Int) : Nat :=
  let r := (idx % (2 * ((len : Int) - 1))).toNat
  if r < len then r else 2 * (len - 1) - r

theorem mirIdx_lt {len : Nat} (h : 2 ≤ len) (idx : Int) : mirIdx len idx < len := by
  unfold mirIdx
  have h1 := Int.emod_lt_of_pos idx (show (0 : Int) < 2 * ((len : Int) - 1) by omega)
  have h0 := Int.emod_nonneg idx (show 2 * ((len : Int) - 1) ≠ 0 by omega)
  simp only []
  split <;> omega

theorem mirIdx_unique {len : Nat} (h : 2 ≤ len) (idx r : Int) (h0 : 0 ≤ r) (h1 : r < len)
    (hd : (2 * ((len : Int) - 1)) ∣ (r - idx) ∨ (2 * ((len : Int) - 1)) ∣ (r + idx)) : r.toNat = mirIdx len idx := by
  unfold mirIdx
  set P : Int := 2 * ((len : Int) - 1) with hP
  have hPpos : 0 < P := by omega
  simp only []
  rcases hd with hd | hd
  · have e : idx % P = r := by
      have h := Int.modEq_iff_dvd.2 hd
      rw [Int.ModEq, Int.emod_eq_of_lt h0 (show r < P by omega)] at h
      exact h
    rw [e, if_pos (by omega)]
  · by_cases hr : r = 0
    · subst hr
      rw [zero_add] at hd
      rw [Int.emod_eq_zero_of_dvd hd]; simp; omega
    · have e : idx % P = P - r := by
        rw [← Int.emod_eq_of_lt (show 0 ≤ P - r by omega) (show P - r < P by omega)]
        refine Int.modEq_iff_dvd.2 ?_
        rw [show P - r - idx = P - (r + idx) by ring]; exact dvd_sub (dvd_refl _) hd
      rw [e]
      split <;> omega

theorem reflectIdx_ok {len : Nat} (h : 2 ≤ len) (idx : Int) : reflectIdx len idx = .ok (mirIdx len idx) := by
  unfold reflectIdx
  obtain ⟨r, e, h0, h1, hd⟩ := reflectLoop_ok len (by omega) (2 * idx.natAbs + 3) idx (by split <;> omega)
  rw [e, Outcome.bind_ok, Outcome.pure_eq, mirIdx_unique h idx r h0 h1 hd]

theorem mirIdx_self {len : Nat} (h : 2 ≤ len) {i : Nat} (hi : i < len) : mirIdx len i = i := by
  rw [← mirIdx_unique h i i (by omega) (by omega) (Or.inl (by simp))]; simp

/-- On a single sample the loop never stops for an index `≥ 1`: it goes `idx, -idx, idx, ...`. -/
theorem reflectLoop_one : ∀ (fuel : Nat) (idx : Int), idx ≠ 0 → reflectLoop 1 fuel idx = .hang
  | 0, _, _ => rfl
  | fuel + 1, idx, h => by
    rw [reflectLoop, if_pos (by omega)]
    split
    · exact reflectLoop_one fuel (-idx) (by omega)
    · exact reflectLoop_one fuel _ (by omega)

theorem reflectRd_ok {x : List T} (h : 2 ≤ x.length) (idx : Int) :
    reflectRd x idx = .ok (x.getD (mirIdx x.length idx) Flt.zero) := by
  unfold reflectRd
  rw [reflectIdx_ok h, Outcome.bind_ok, rd_getD Flt.zero (mirIdx_lt h idx)]

/-! ### Filter banks -/

/-- Left-to-right accumulation `acc + f 0 + f 1 + ...`. -/
def accS (init : T) (f : Nat → T) : Nat → T
  | 0 => init
  | k + 1 => accS init f k +. f k

theorem bankForward_ok (h g x : List T) (hg : h.length ≤ g.length) : bankForward h g x =
    .ok (tab (x.length / 2) fun i => accS Flt.zero
          (fun k => h.getD k Flt.zero *. x.getD (mirIdx x.length ((2 * i + k : Nat) : Int)) Flt.zero) h.length,
      tab (x.length / 2) fun i => accS Flt.zero
          (fun k => g.getD k Flt.zero *. x.getD (mirIdx x.length ((2 * i + k : Nat) : Int)) Flt.zero) h.length) := by
  unfold bankForward
  simp only []
  set n := x.length / 2 with hn
  set A : Nat → Nat → T := fun i k => accS Flt.zero
          (fun k => h.getD k Flt.zero *. x.getD (mirIdx x.length ((2 * i + k : Nat) : Int)) Flt.zero) k with hA
  set D : Nat → Nat → T := fun i k => accS Flt.zero
          (fun k => g.getD k Flt.zero *. x.getD (mirIdx x.length ((2 * i + k : Nat) : Int)) Flt.zero) k with hD
  rw [forRange_eq (fun i => (tab n fun k => if k < i then A k h.length else Flt.zero,
     tab n fun k => if k < i then D k h.length else Flt.zero)) (Nat.zero_le _)]
  · simp only [Outcome.ok.injEq, Prod.mk.injEq]
    constructor <;> exact tab_congr fun k hk => by rw [if_pos hk]
  · simp only [Nat.not_lt_zero, if_false, replicate_eq_tab]
  · intro i _ hi
    rw [forRange_eq (fun k => (tab n fun t => if t < i then A t h.length else if t = i then A i k else Flt.zero,
      tab n fun t => if t < i then D t h.length else if t = i then D i k else Flt.zero)) (Nat.zero_le _)]
    · simp only [Outcome.ok.injEq, Prod.mk.injEq]
      constructor <;>
      · apply tab_congr; intro t _
        by_cases h1 : t < i
        · rw [if_pos h1, if_pos (by omega)]
        · rw [if_neg h1]
          by_cases h2 : t = i
          · rw [if_pos h2, if_pos (by omega), h2]
          · rw [if_neg h2, if_neg (by omega)]
    · simp only [Prod.mk.injEq]
      constructor <;>
      · apply tab_congr; intro t _
        by_cases h1 : t < i
        · rw [if_pos h1, if_pos h1]
        · rw [if_neg h1, if_neg h1]; simp [hA, hD, accS]
    · intro k _ hk
      rw [show (2 * (i : Int) + (k : Int)) = ((2 * i + k : Nat) : Int) by push_cast; ring,
        reflectRd_ok (by omega), Outcome.bind_ok, rd_getD Flt.zero hk, Outcome.bind_ok, rd_getD Flt.zero (by omega),
        Outcome.bind_ok, rd_tab hi, Outcome.bind_ok, rd_tab hi, Outcome.bind_ok, wr_tab hi, Outcome.bind_ok, wr_tab hi,
        Outcome.bind_ok, Outcome.pure_eq]
      simp only [Outcome.ok.injEq, Prod.mk.injEq]
      constructor <;>
      · apply tab_congr; intro t _
        by_cases h1 : t = i
        · subst h1; simp [hA, hD, accS]
        · simp [h1]

theorem dot4_ok (c x : List T) (hc : c.length = 4) (hx : 2 ≤ x.length) (j : Nat) : dot4 c x (j : Int) =
    .ok ((((c.getD 0 Flt.zero *. x.getD (mirIdx x.length (j : Nat)) Flt.zero) +.
      (c.getD 1 Flt.zero *. x.getD (mirIdx x.length ((j + 1 : Nat) : Int)) Flt.zero)) +.
      (c.getD 2 Flt.zero *. x.getD (mirIdx x.length ((j + 2 : Nat) : Int)) Flt.zero)) +.
      (c.getD 3 Flt.zero *. x.getD (mirIdx x.length ((j + 3 : Nat) : Int)) Flt.zero)) := by
  unfold dot4
  simp only [rd_getD (l := c) Flt.zero (show 0 < c.length by omega), rd_getD (l := c) Flt.zero (show 1 < c.length by omega),
    rd_getD (l := c) Flt.zero (show 2 < c.length by omega), rd_getD (l := c) Flt.zero (show 3 < c.length by omega),
    reflectRd_ok hx, Outcome.bind_ok, Outcome.pure_eq, Nat.cast_add, Nat.cast_one, Nat.cast_ofNat]

theorem db2Forward_ok (x : List T) : db2Forward x =
    .ok (tab (x.length / 2) fun i =>
      (((((db2H : List T).getD 0 Flt.zero *. x.getD (mirIdx x.length ((2 * i : Nat) : Int)) Flt.zero) +.
      ((db2H : List T).getD 1 Flt.zero *. x.getD (mirIdx x.length ((2 * i + 1 : Nat) : Int)) Flt.zero)) +.
      ((db2H : List T).getD 2 Flt.zero *. x.getD (mirIdx x.length ((2 * i + 2 : Nat) : Int)) Flt.zero)) +.
      ((db2H : List T).getD 3 Flt.zero *. x.getD (mirIdx x.length ((2 * i + 3 : Nat) : Int)) Flt.zero)),
      tab (x.length / 2) fun i =>
      (((((db2G : List T).getD 0 Flt.zero *. x.getD (mirIdx x.length ((2 * i : Nat) : Int)) Flt.zero) +.
      ((db2G : List T).getD 1 Flt.zero *. x.getD (mirIdx x.length ((2 * i + 1 : Nat) : Int)) Flt.zero)) +.
      ((db2G : List T).getD 2 Flt.zero *. x.getD (mirIdx x.length ((2 * i + 2 : Nat) : Int)) Flt.zero)) +.
      ((db2G : List T).getD 3 Flt.zero *. x.getD (mirIdx x.length ((2 * i + 3 : Nat) : Int)) Flt.zero))) := by
  unfold db2Forward
  simp only []
  set n := x.length / 2 with hn
  set A : Nat → T := fun i =>
      (((((db2H : List T).getD 0 Flt.zero *. x.getD (mirIdx x.length ((2 * i : Nat) : Int)) Flt.zero) +.
      ((db2H : List T).getD 1 Flt.zero *. x.getD (mirIdx x.length ((2 * i + 1 : Nat) : Int)) Flt.zero)) +.
      ((db2H : List T).getD 2 Flt.zero *. x.getD (mirIdx x.length ((2 * i + 2 : Nat) : Int)) Flt.zero)) +.
      ((db2H : List T).getD 3 Flt.zero *. x.getD (mirIdx x.length ((2 * i + 3 : Nat) : Int)) Flt.zero)) with hA
  set D : Nat → T := fun i =>
      (((((db2G : List T).getD 0 Flt.zero *. x.getD (mirIdx x.length ((2 * i : Nat) : Int)) Flt.zero) +.
      ((db2G : List T).getD 1 Flt.zero *. x.getD (mirIdx x.length ((2 * i + 1 : Nat) : Int)) Flt.zero)) +.
      ((db2G : List T).getD 2 Flt.zero *. x.getD (mirIdx x.length ((2 * i + 2 : Nat) : Int)) Flt.zero)) +.
      ((db2G : List T).getD 3 Flt.zero *. x.getD (mirIdx x.length ((2 * i + 3 : Nat) : Int)) Flt.zero)) with hD
  rw [forRange_eq (fun i => (tab n fun k => if k < i then A k else Flt.zero,
     tab n fun k => if k < i then D k else Flt.zero)) (Nat.zero_le _)]
  · simp only [Outcome.ok.injEq, Prod.mk.injEq]
    constructor <;> exact tab_congr fun k hk => by rw [if_pos hk]
  · simp only [Nat.not_lt_zero, if_false, replicate_eq_tab]
  · intro i _ hi
    rw [show (2 * (i : Int)) = ((2 * i : Nat) : Int) by push_cast; ring, dot4_ok _ _ rfl (by omega), Outcome.bind_ok,
      wr_tab hi, Outcome.bind_ok, dot4_ok _ _ rfl (by omega), Outcome.bind_ok, wr_tab hi, Outcome.bind_ok,
      Outcome.pure_eq]
    simp only [Outcome.ok.injEq, Prod.mk.injEq]
    constructor <;>
    · apply tab_congr; intro t _
      by_cases h1 : t = i
      · subst h1; simp [hA, hD]
      · by_cases h2 : t < i
        · rw [if_neg h1, if_pos h2, if_pos (by omega)]
        · rw [if_neg h1, if_neg h2, if_neg (by omega)]

/-- Sample `t` of the synthesis after the first `i` values and `k` taps of value `i`. -/
def synV (g h a d : List T) (len : Nat) (t : Nat) : Nat → T
  | 0 => Flt.zero
  | m + 1 =>
    let i := m / g.length
    let k := m % g.length
    if mirIdx len ((2 * i + k : Nat) : Int) = t then
      synV g h a d len t m +. ((g.getD k Flt.zero *. a.getD i Flt.zero) +. (h.getD k Flt.zero *. d.getD i Flt.zero))
    else synV g h a d len t m

theorem bankInverse_prefix (g h a d : List T) (n : Nat) (hg : g.length ≤ h.length) (ha : n ≤ a.length) (hd : n ≤ d.length) :
    ∀ (body), (∀ i o, body i o = forRange 0 g.length o fun k o => do
      let idx ← reflectIdx (a.length * 2) (((2 * i : Nat) : Int) + (k : Int))
      let gk ← rd g k
      let hk ← rd h k
      let a ← rd a i
      let d ← rd d i
      let v ← rd o idx
      wr o idx (v +. ((gk *. a) +. (hk *. d)))) →
    forRange 0 n (List.replicate (a.length * 2) Flt.zero) body =
      .ok (tab (a.length * 2) fun t => synV g h a d (a.length * 2) t (n * g.length)) := by
  intro body hbody
  set len := a.length * 2 with hlen
  rw [forRange_eq (fun i => tab len fun t => synV g h a d len t (i * g.length)) (Nat.zero_le _)]
  · simp [replicate_eq_tab, synV]
  · intro i _ hi
    rw [hbody, forRange_eq (fun k => tab len fun t => synV g h a d len t (i * g.length + k)) (Nat.zero_le _)]
    · rw [Nat.succ_mul]
    · rfl
    · intro k _ hk
      have h2 : 2 ≤ len := by omega
      rw [show (((2 * i : Nat) : Int) + (k : Int)) = ((2 * i + k : Nat) : Int) by push_cast; ring,
        reflectIdx_ok h2, Outcome.bind_ok, rd_getD Flt.zero hk, Outcome.bind_ok, rd_getD Flt.zero (by omega),
        Outcome.bind_ok, rd_getD Flt.zero (by omega), Outcome.bind_ok, rd_getD Flt.zero (by omega), Outcome.bind_ok,
        rd_tab (mirIdx_lt h2 _), Outcome.bind_ok, wr_tab (mirIdx_lt h2 _)]
      congr 1; apply tab_congr; intro t _
      rw [show i * g.length + (k + 1) = (i * g.length + k) + 1 by omega, synV]
      have e1 : (i * g.length + k) / g.length = i := by
        rw [Nat.mul_comm, Nat.mul_add_div (by omega), Nat.div_eq_of_lt hk, Nat.add_zero]
      have e2 : (i * g.length + k) % g.length = k := by
        rw [Nat.mul_comm, Nat.mul_add_mod, Nat.mod_eq_of_lt hk]
      simp only [e1, e2]
      by_cases ht : t = mirIdx len ((2 * i + k : Nat) : Int)
      · subst ht; simp only [if_true]
      · rw [if_neg ht, if_neg (fun h => ht h.symm)]

theorem bankInverse_ok (g h a d : List T) (hg : g.length ≤ h.length) (hd : a.length ≤ d.length) :
    bankInverse g h a d =
      .ok (tab (a.length * 2) fun t => synV g h a d (a.length * 2) t (a.length * g.length)) :=
  bankInverse_prefix g h a d a.length hg (Nat.le_refl _) hd _ (fun _ _ => rfl)

theorem bankInverse_panic (g h a d : List T) (hg0 : 0 < g.length) (hg : g.length ≤ h.length) (hd : d.length < a.length) :
    bankInverse g h a d = .panic := by
  unfold bankInverse
  simp only []
  have h2 : 2 ≤ a.length * 2 := by omega
  refine forRange_panic_at (fun o => o.length = a.length * 2) hd 0 _ (Nat.zero_le _) (by simp) ?_ ?_
  · intro i s _ hi hs
    have := forRange_ok (lo := 0) (hi := g.length) (s := s) (f := fun k o => do
      let idx ← reflectIdx (a.length * 2) (((2 * i : Nat) : Int) + (k : Int))
      let gk ← rd g k
      let hk ← rd h k
      let a ← rd a i
      let d ← rd d i
      let v ← rd o idx
      wr o idx (v +. ((gk *. a) +. (hk *. d)))) (fun _ o => o.length = a.length * 2) (Nat.zero_le _) hs (by
        intro k o _ hk ho
        have hm := mirIdx_lt h2 (((2 * i : Nat) : Int) + (k : Int))
        rw [reflectIdx_ok h2, Outcome.bind_ok, rd_getD Flt.zero hk, Outcome.bind_ok, rd_getD Flt.zero (by omega),
          Outcome.bind_ok, rd_getD Flt.zero (by omega), Outcome.bind_ok, rd_getD Flt.zero (by omega), Outcome.bind_ok,
          rd_getD Flt.zero (by omega), Outcome.bind_ok, wr_ok (by omega)]
        exact ⟨_, rfl, by simp [ho]⟩)
    exact this
  · intro s hs
    rw [forRange_succ hg0]
    rw [reflectIdx_ok h2, Outcome.bind_ok, rd_getD Flt.zero hg0, Outcome.bind_ok, rd_getD Flt.zero (by omega),
          Outcome.bind_ok, rd_getD Flt.zero hd, Outcome.bind_ok, rd_panic (Nat.le_refl _), Outcome.bind_panic]
    rfl

end Kofft
