import Verif.Proof.Strategy
import Verif.Proof.Radix4Wrong
/-
`fft_radix4` as a sequence of passes over tables of values, for every arithmetic and every power of four.
-/
namespace Kofft

variable {T : Type} [Flt T]

/-- The running factor after `j` multiplications. -/
def wIt (s : Cx T) : Nat → Cx T
  | 0 => ⟨Flt.one, Flt.zero⟩
  | j + 1 => (wIt s j).mul s

theorem r4At_tab {n b q : Nat} (f : Nat → Cx T) (w1 w2 w3 : Cx T) (hq : 0 < q) (h : b + 3 * q < n) :
    r4At (tab n f) b q (2 * q) w1 w2 w3 = .ok (tab n (fun t =>
      if t = b + 3 * q then bf4 (f b) ((f (b + q)).mul w1) ((f (b + 2 * q)).mul w2) ((f (b + 3 * q)).mul w3) 3
      else if t = b + 2 * q then bf4 (f b) ((f (b + q)).mul w1) ((f (b + 2 * q)).mul w2) ((f (b + 3 * q)).mul w3) 2
      else if t = b + q then bf4 (f b) ((f (b + q)).mul w1) ((f (b + 2 * q)).mul w2) ((f (b + 3 * q)).mul w3) 1
      else if t = b then bf4 (f b) ((f (b + q)).mul w1) ((f (b + 2 * q)).mul w2) ((f (b + 3 * q)).mul w3) 0
      else f t)) := by
  unfold r4At
  rw [rd_tab (by omega), Outcome.bind_ok, rd_tab (by omega), Outcome.bind_ok, rd_tab (by omega),
    Outcome.bind_ok, rd_tab (by omega), Outcome.bind_ok]
  simp only
  rw [wr_tab (by omega), Outcome.bind_ok, wr_tab (by omega), Outcome.bind_ok, wr_tab (by omega),
    Outcome.bind_ok, wr_tab (by omega)]
  congr 1

/-- The value at offset `c` of quarter `r` after one group with quarters of length `q` starting at `i`. -/
def r4Val (q i : Nat) (s1 s2 s3 : Cx T) (f : Nat → Cx T) (c r : Nat) : Cx T :=
  bf4 (f (i + c)) ((f (i + c + q)).mul (wIt s1 c)) ((f (i + c + 2 * q)).mul (wIt s2 c)) ((f (i + c + 3 * q)).mul (wIt s3 c)) r

theorem quarter_cases {q i t : Nat} (hq : 0 < q) (h1 : i ≤ t) (h2 : t < i + 4 * q) :
    ∃ c r, c < q ∧ r < 4 ∧ t = i + c + r * q ∧ (t - i) % q = c ∧ (t - i) / q = r := by
  have hr : (t - i) / q < 4 := by rw [Nat.div_lt_iff_lt_mul hq]; omega
  have hd := Nat.mod_add_div (t - i) q
  refine ⟨(t - i) % q, (t - i) / q, Nat.mod_lt _ hq, hr, ?_, rfl, rfl⟩
  rw [Nat.mul_comm ((t - i) / q)]
  omega

/-- The buffer after the butterflies at offsets below `j`. -/
def r4Part (q i : Nat) (s1 s2 s3 : Cx T) (f : Nat → Cx T) (j t : Nat) : Cx T :=
  if i ≤ t ∧ t < i + 4 * q ∧ (t - i) % q < j then r4Val q i s1 s2 s3 f ((t - i) % q) ((t - i) / q) else f t

theorem r4Part_at {q i : Nat} (s1 s2 s3 : Cx T) (f : Nat → Cx T) (hq : 0 < q) {j c r : Nat} (hc : c < q) (hr : r < 4) :
    r4Part q i s1 s2 s3 f j (i + c + r * q) = if c < j then r4Val q i s1 s2 s3 f c r else f (i + c + r * q) := by
  have e1 : (i + c + r * q - i) % q = c := by
    rw [show i + c + r * q - i = c + q * r by rw [Nat.mul_comm q r]; omega, Nat.add_mul_mod_self_left, Nat.mod_eq_of_lt hc]
  have e2 : (i + c + r * q - i) / q = r := by
    rw [show i + c + r * q - i = c + q * r by rw [Nat.mul_comm q r]; omega, Nat.add_mul_div_left _ _ hq, Nat.div_eq_of_lt hc, Nat.zero_add]
  have h3 : r * q ≤ 3 * q := Nat.mul_le_mul_right _ (by omega)
  unfold r4Part
  rw [e1, e2]
  by_cases h : c < j
  · rw [if_pos ⟨by omega, by omega, h⟩, if_pos h]
  · rw [if_neg (fun h' => h h'.2.2), if_neg h]

theorem r4Part_step {n q i j : Nat} (s1 s2 s3 : Cx T) (f : Nat → Cx T) (hq : 0 < q) (hj : j < q) (h : i + 4 * q ≤ n) :
    r4At (tab n (r4Part q i s1 s2 s3 f j)) (i + j) q (2 * q) (wIt s1 j) (wIt s2 j) (wIt s3 j) =
      .ok (tab n (r4Part q i s1 s2 s3 f (j + 1))) := by
  rw [r4At_tab _ _ _ _ hq (by omega)]
  congr 1
  apply tab_congr
  intro t ht
  have a0 : r4Part q i s1 s2 s3 f j (i + j) = f (i + j) := by
    have := r4Part_at (i := i) s1 s2 s3 f hq (j := j) hj (show 0 < 4 by norm_num)
    rwa [Nat.zero_mul, Nat.add_zero, if_neg (lt_irrefl _)] at this
  have a1 : r4Part q i s1 s2 s3 f j (i + j + q) = f (i + j + q) := by
    have := r4Part_at (i := i) s1 s2 s3 f hq (j := j) hj (show 1 < 4 by norm_num)
    rwa [Nat.one_mul, if_neg (lt_irrefl _)] at this
  have a2 : r4Part q i s1 s2 s3 f j (i + j + 2 * q) = f (i + j + 2 * q) := by
    have := r4Part_at (i := i) s1 s2 s3 f hq (j := j) hj (show 2 < 4 by norm_num)
    rwa [if_neg (lt_irrefl _)] at this
  have a3 : r4Part q i s1 s2 s3 f j (i + j + 3 * q) = f (i + j + 3 * q) := by
    have := r4Part_at (i := i) s1 s2 s3 f hq (j := j) hj (show 3 < 4 by norm_num)
    rwa [if_neg (lt_irrefl _)] at this
  rw [a0, a1, a2, a3]
  by_cases hin : i ≤ t ∧ t < i + 4 * q
  · obtain ⟨c, r, hc, hr, rfl, -, -⟩ := quarter_cases hq hin.1 hin.2
    rw [r4Part_at s1 s2 s3 f hq hc hr, r4Part_at s1 s2 s3 f hq hc hr]
    by_cases hcj : c = j
    · subst hcj
      rw [if_pos (show c < c + 1 by omega)]
      unfold r4Val
      interval_cases r
      · rw [if_neg (by omega), if_neg (by omega), if_neg (by omega), if_pos (by omega)]
      · rw [if_neg (by omega), if_neg (by omega), if_pos (by omega)]
      · rw [if_neg (by omega), if_pos (by omega)]
      · rw [if_pos (by omega)]
    · have h1 : c < j + 1 ↔ c < j := by omega
      simp only [h1]
      have key : ∀ r', r' < 4 → i + c + r * q ≠ i + j + r' * q := by
        intro r' hr' e
        apply hcj
        have e2 : (c + q * r) % q = (j + q * r') % q := by congr 1; rw [Nat.mul_comm q r, Nat.mul_comm q r']; omega
        rw [Nat.add_mul_mod_self_left, Nat.add_mul_mod_self_left, Nat.mod_eq_of_lt hc, Nat.mod_eq_of_lt hj] at e2
        exact e2
      have k0 := key 0 (by norm_num)
      have k1 := key 1 (by norm_num)
      have k2 := key 2 (by norm_num)
      have k3 := key 3 (by norm_num)
      rw [if_neg (by omega), if_neg (by omega), if_neg (by omega), if_neg (by omega)]
  · have hn1 : ∀ j, r4Part q i s1 s2 s3 f j t = f t := by
      intro j
      unfold r4Part
      rw [if_neg (fun h' => hin ⟨h'.1, h'.2.1⟩)]
    rw [hn1, hn1, if_neg (by omega), if_neg (by omega), if_neg (by omega), if_neg (by omega)]

theorem r4Group_tab {n len i m : Nat} (f : Nat → Cx T) (s1 s2 s3 : Cx T) (hm : 0 < m) (hlen : len = 4 * (2 * m)) (h : i + len ≤ n) :
    r4Group len i s1 s2 s3 (tab n f) = .ok (tab n (fun t =>
      if i ≤ t ∧ t < i + len then r4Val (2 * m) i s1 s2 s3 f ((t - i) % (2 * m)) ((t - i) / (2 * m)) else f t)) := by
  have h4 : len / 4 = 2 * m := by omega
  have h2 : len / 2 = 2 * (2 * m) := by omega
  generalize hq : 2 * m = q at *
  obtain ⟨s, e, ⟨hx, hj, hev, w1, w2, w3⟩, hc⟩ := whileF_ok
    (cond := fun s : R4St T => decide (s.j + 1 < q))
    (body := fun s => do
      let x ← r4At s.x (i + s.j) q (2 * q) s.w1 s.w2 s.w3
      let w1 := s.w1.mul s1
      let w2 := s.w2.mul s2
      let w3 := s.w3.mul s3
      let x ← r4At x (i + (s.j + 1)) q (2 * q) w1 w2 w3
      pure ({ j := s.j + 2, w1 := w1.mul s1, w2 := w2.mul s2, w3 := w3.mul s3, x := x } : R4St T))
    (fun s => s.x = tab n (r4Part q i s1 s2 s3 f s.j) ∧ s.j ≤ q ∧ s.j % 2 = 0 ∧ s.w1 = wIt s1 s.j ∧ s.w2 = wIt s2 s.j ∧
      s.w3 = wIt s3 s.j) (fun s => q - s.j) (q + 1)
    { j := 0, w1 := ⟨Flt.one, Flt.zero⟩, w2 := ⟨Flt.one, Flt.zero⟩, w3 := ⟨Flt.one, Flt.zero⟩, x := tab n f }
    (by simp only; omega)
    ⟨tab_congr (fun t _ => by unfold r4Part; rw [if_neg (fun h => Nat.not_lt_zero _ h.2.2)]), Nat.zero_le _, rfl, rfl, rfl, rfl⟩ (by
      rintro s ⟨hx, hj, hev, w1, w2, w3⟩ hc
      simp only [decide_eq_true_eq] at hc
      simp only [hx, w1, w2, w3]
      rw [r4Part_step s1 s2 s3 f (by omega) (by omega) (by omega), Outcome.bind_ok]
      have := r4Part_step (n := n) (i := i) (j := s.j + 1) s1 s2 s3 f (show 0 < q by omega) (by omega) (by omega)
      simp only [wIt] at this
      rw [this, Outcome.bind_ok]
      exact ⟨_, rfl, ⟨rfl, by simp only; omega, by simp only; omega, rfl, rfl, rfl⟩, by simp only; omega⟩)
  simp only [decide_eq_false_iff_not] at hc
  have hjq : s.j = q := by omega
  unfold r4Group
  simp only [h4, h2]
  rw [e]
  simp only [Outcome.bind_ok]
  rw [if_neg (by omega), hx, hjq]
  simp only [Outcome.pure_eq]
  congr 1
  apply tab_congr
  intro t ht
  unfold r4Part
  by_cases hin : i ≤ t ∧ t < i + len
  · rw [if_pos hin, if_pos ⟨hin.1, by omega, Nat.mod_lt _ (by omega)⟩]
  · rw [if_neg hin, if_neg (fun h' => hin ⟨h'.1, by omega⟩)]

/-- One whole pass. -/
def r4Pass (q : Nat) (s1 s2 s3 : Cx T) (f : Nat → Cx T) (t : Nat) : Cx T :=
  r4Val q (4 * q * (t / (4 * q))) s1 s2 s3 f (t % (4 * q) % q) (t % (4 * q) / q)

theorem r4Pass_loop {n m : Nat} (f : Nat → Cx T) (s1 s2 s3 : Cx T) (hm : 0 < m) (hd : 4 * (2 * m) ∣ n) :
    stepLoop n (4 * (2 * m)) (tab n f) (fun i x => r4Group (4 * (2 * m)) i s1 s2 s3 x) =
      .ok (tab n (r4Pass (2 * m) s1 s2 s3 f)) := by
  obtain ⟨L, hL⟩ : ∃ L, L = 4 * (2 * m) := ⟨_, rfl⟩
  have hL0 : 0 < L := by omega
  obtain ⟨s, e, h⟩ := stepLoop_ok (n := n) (len := L) (f := fun i x => r4Group L i s1 s2 s3 x) (s := tab n f)
    (fun i z => z = tab n (fun t => if t < i then r4Pass (2 * m) s1 s2 s3 f t else f t)) hL0 (by rw [hL]; exact hd)
    (tab_congr (by simp)) (by
      rintro k z hk rfl
      have hkL : (k + 1) * L = k * L + L := by ring
      rw [r4Group_tab _ s1 s2 s3 hm hL (by omega)]
      refine ⟨_, rfl, ?_⟩
      apply tab_congr
      intro t ht
      by_cases h1 : k * L ≤ t ∧ t < k * L + L
      · rw [if_pos h1, if_pos (by omega)]
        have hdiv : t / L = k := by
          rw [Nat.div_eq_iff hL0]; constructor <;> [skip; skip]
          · exact h1.1
          · omega
        have hmod : t % L = t - k * L := by
          have := Nat.mod_add_div t L
          rw [hdiv, Nat.mul_comm] at this
          omega
        unfold r4Pass
        rw [← hL, hdiv, hmod, Nat.mul_comm L k]
        unfold r4Val
        have hc : (t - k * L) % (2 * m) < 2 * m := Nat.mod_lt _ (by omega)
        simp only []
        generalize (t - k * L) % (2 * m) = c at *
        rw [if_neg (show ¬ k * L + c < k * L by omega), if_neg (show ¬ k * L + c + 2 * m < k * L by omega),
          if_neg (show ¬ k * L + c + 2 * (2 * m) < k * L by omega), if_neg (show ¬ k * L + c + 3 * (2 * m) < k * L by omega)]
      · rw [if_neg h1]
        by_cases h2 : t < k * L
        · rw [if_pos h2, if_pos (by omega)]
        · rw [if_neg h2, if_neg (by omega)])
  rw [← hL, e, h]
  congr 1
  apply tab_congr
  intro t ht
  rw [if_pos ht]

/-- The buffer after the passes of lengths `4, 16, …, 4^s`. -/
def r4Run (cfg : Cfg) (f : Nat → Cx T) : Nat → Nat → Cx T
  | 0 => f
  | 1 => fun t => bf4 (f (4 * (t / 4))) (f (4 * (t / 4) + 1)) (f (4 * (t / 4) + 2)) (f (4 * (t / 4) + 3)) (t % 4)
  | s + 2 => r4Pass (4 ^ (s + 1)) (twAt cfg (4 ^ (s + 2)) 1) (twAt cfg (4 ^ (s + 2)) 2) (twAt cfg (4 ^ (s + 2)) 3)
      (r4Run cfg f (s + 1))

/-- `fft_radix4` on `4^k` samples: a rearrangement, then the passes. -/
theorem fftRadix4_run (cfg : Cfg) (p : Planner T) (x : List (Cx T)) (hI : Inv cfg p) (k : Nat) (hk : x.length = 4 ^ k)
    (g : Nat → Cx T) (hg : revLoop 2 x = .ok (tab (4 ^ k) g)) :
    ∃ p', fftRadix4 cfg p x = .ok (p', tab (4 ^ k) (r4Run cfg g k), .ok ()) ∧ Inv cfg p' := by
  have hk2 : x.length = 2 ^ (2 * k) := by rw [hk, pow_mul]; norm_num
  have hp : isPow2 x.length = true := isPow2_iff.mpr ⟨_, hk2⟩
  have he : x.length.log2 % 2 = 0 := by rw [hk2, log2_pow']; omega
  unfold fftRadix4
  simp only [hp, he, Bool.not_true, Bool.false_or, ne_eq, not_true, decide_false, Bool.false_eq_true,
    if_false, hg, Outcome.bind_ok]
  rw [hk]
  set n := 4 ^ k with hn
  obtain ⟨s, e, ⟨j, hj, hx, hI', hj2⟩, hc⟩ := whileF_ok
    (cond := fun s : Nat × Planner T × List (Cx T) => decide (s.1 ≤ n))
    (body := fun s => do
        let (len, p, x) := s
        if len = 4 then do
          let x ← stepLoop n len x r4First
          pure (len * 4, p, x)
        else do
          let (p, tws) := p.getTwiddles cfg len
          let s1 ← rd tws 1
          let s2 ← rd tws 2
          let s3 ← rd tws 3
          let x ← stepLoop n len x fun i x => r4Group len i s1 s2 s3 x
          pure (len * 4, p, x))
    (fun s => ∃ j, s.1 = 4 ^ (j + 1) ∧ s.2.2 = tab n (r4Run cfg g j) ∧ Inv cfg s.2.1 ∧ j ≤ k)
    (fun s => n + 1 - s.1) (n + 1) (4, p, tab n g)
    (by simp only; omega) ⟨0, rfl, rfl, hI, Nat.zero_le _⟩ (by
      rintro ⟨len, p1, y⟩ ⟨j, hj, hy, hI1, hjk⟩ hc
      simp only [decide_eq_true_eq] at hc hj hy hI1
      have hjk' : j + 1 ≤ k := by
        rw [hj, hn] at hc
        exact (Nat.pow_le_pow_iff_right (by norm_num)).mp hc
      have hdvd : len ∣ n := by rw [hj, hn]; exact pow_dvd_pow 4 hjk'
      have hlt : len < len * 4 := by
        have : 0 < len := by rw [hj]; positivity
        omega
      cases j with
      | zero =>
        have hl4 : len = 4 := by simpa using hj
        obtain ⟨m, hm⟩ := hdvd
        rw [hl4] at hm
        simp only [hl4, if_true, hy]
        rw [hm]
        have : r4Run cfg g 0 = g := rfl
        rw [this, r4First_loop]
        rw [← hm]
        exact ⟨_, rfl, ⟨1, by norm_num, rfl, hI1, hjk'⟩, by simp only; omega⟩
      | succ j =>
        have hq : len = 4 * 4 ^ (j + 1) := by rw [hj, pow_succ]; ring
        have hq2 : 4 ^ (j + 1) = 2 * (2 * 4 ^ j) := by rw [pow_succ]; ring
        have h4j : 0 < 4 ^ j := by positivity
        have hl4 : ¬ len = 4 := by omega
        simp only [hl4, if_false]
        obtain ⟨t1, t2, -⟩ := getTwiddles_inv cfg p1 len hI1
        have hl := twiddles_tab (T := T) cfg len
        rw [t1, hl, rd_tab (by omega), Outcome.bind_ok, rd_tab (by omega), Outcome.bind_ok, rd_tab (by omega),
          Outcome.bind_ok, hy]
        have := r4Pass_loop (n := n) (m := 2 * 4 ^ j) (r4Run cfg g (j + 1)) (twAt cfg len 1) (twAt cfg len 2) (twAt cfg len 3)
          (by omega) (by rw [← hq2, ← hq]; exact hdvd)
        rw [← hq2, ← hq] at this
        rw [this]
        refine ⟨_, rfl, ⟨j + 2, by simp only; rw [hj, ← pow_succ], ?_, t2, hjk'⟩, by simp only; omega⟩
        simp only [r4Run]
        rw [hj])
  simp only [decide_eq_false_iff_not, not_le] at hc
  have hjk : j = k := by
    rw [hj, hn] at hc
    have := (Nat.pow_lt_pow_iff_right (a := 4) (by norm_num)).mp hc
    omega
  rw [e]
  refine ⟨_, ?_, hI'⟩
  rw [Outcome.bind_ok, hx, hjk]

end Kofft
