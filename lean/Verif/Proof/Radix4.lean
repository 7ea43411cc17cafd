import Verif.Proof.Api
/-
`fft_radix4`: total, keeps the length, touches only the twiddle cache.
-/
namespace Kofft

variable {T : Type} [Flt T] {σ : Type}

/-- Rule for `while i < n { body; i += len }` when `len` divides `n`. -/
theorem stepLoop_ok {n len : Nat} {f : Nat → σ → Outcome σ} (I : Nat → σ → Prop) {s : σ}
    (hlen : 0 < len) (hdvd : len ∣ n) (h0 : I 0 s)
    (step : ∀ k s, (k + 1) * len ≤ n → I (k * len) s →
      ∃ s', f (k * len) s = .ok s' ∧ I ((k + 1) * len) s') :
    ∃ s', stepLoop n len s f = .ok s' ∧ I n s' := by
  obtain ⟨s', e, ⟨hI, hd, hle⟩, hc⟩ := whileF_ok
    (cond := fun s : Nat × σ => decide (s.1 < n))
    (body := fun s => do
      let y ← f s.1 s.2
      pure (s.1 + len, y))
    (fun s => I s.1 s.2 ∧ len ∣ s.1 ∧ s.1 ≤ n) (fun s => n - s.1) (n + 1) (0, s)
    (by simp) ⟨h0, dvd_zero _, Nat.zero_le _⟩ (by
      rintro ⟨i, s⟩ ⟨hI, ⟨k, hk⟩, hle⟩ hc
      simp only [decide_eq_true_eq] at hc
      obtain ⟨m, hm⟩ := hdvd
      simp only at hk hI hle
      have hik : i = k * len := by rw [hk, Nat.mul_comm]
      have hlt : k < m := by
        by_contra hge
        have : len * m ≤ len * k := Nat.mul_le_mul_left _ (by omega)
        omega
      have hle2 : (k + 1) * len ≤ n := by
        rw [hm, Nat.mul_comm len m]; exact Nat.mul_le_mul_right _ hlt
      subst hik
      obtain ⟨s', e, h'⟩ := step k s hle2 hI
      have e3 : (k + 1) * len = k * len + len := by ring
      refine ⟨(k * len + len, s'), by simp only [e, Outcome.bind_ok, Outcome.pure_eq], ⟨?_, ?_, ?_⟩, ?_⟩
      · rw [e3] at h'; exact h'
      · exact ⟨k + 1, by simp only; ring⟩
      · simp only; omega
      · simp only; omega)
  simp only [decide_eq_false_iff_not] at hc
  have : s'.1 = n := by omega
  refine ⟨s'.2, ?_, by rw [← this]; exact hI⟩
  unfold stepLoop
  rw [e]; rfl

theorem swapAt_ok {α : Type} (l : List α) {i j : Nat} (hi : i < l.length) (hj : j < l.length) :
    swapAt l i j = .ok ((l.set i l[j]).set j l[i]) := by
  unfold swapAt
  rw [rd_ok hi, Outcome.bind_ok, rd_ok hj, Outcome.bind_ok, wr_ok hi, Outcome.bind_ok,
    wr_ok (by simpa using hj)]

theorem revStep_ok {sh K j : Nat} (hsh : 0 < sh) (hj : j < 2 ^ K) :
    ∃ j', revStep sh (2 ^ K) j = .ok j' ∧ j' < 2 ^ K := by
  have hb : 2 ^ K >>> sh < 2 ^ K := by
    rw [Nat.shiftRight_eq_div_pow]
    exact Nat.div_lt_self (Nat.pow_pos (by norm_num)) (Nat.one_lt_two_pow (by omega))
  obtain ⟨s, e, ⟨h1, h2⟩, -⟩ := whileF_ok
    (cond := fun s : Nat × Nat => decide (s.1 &&& s.2 ≠ 0))
    (body := fun s => pure (s.1 ^^^ s.2, s.2 >>> sh))
    (fun s => s.1 < 2 ^ K ∧ s.2 < 2 ^ K) (fun s => s.2) (2 ^ K + 2) (j, 2 ^ K >>> sh)
    (by simp only; omega) ⟨hj, hb⟩ (by
      rintro ⟨a, b⟩ ⟨ha, hb⟩ hc
      simp only [decide_eq_true_eq] at hc ha hb
      have hb0 : 0 < b := by
        rcases Nat.eq_zero_or_pos b with h | h
        · subst h; simp at hc
        · exact h
      have hlt : b >>> sh < b := by
        rw [Nat.shiftRight_eq_div_pow]
        exact Nat.div_lt_self hb0 (Nat.one_lt_two_pow (by omega))
      exact ⟨_, rfl, ⟨Nat.xor_lt_two_pow ha hb, by simp only; omega⟩, hlt⟩)
  refine ⟨s.1 ^^^ s.2, ?_, Nat.xor_lt_two_pow h1 h2⟩
  unfold revStep
  rw [e]; rfl

theorem revLoop_ok {α : Type} {sh : Nat} (x : List α) (hsh : 0 < sh) (hp : isPow2 x.length = true) :
    ∃ y, revLoop sh x = .ok y ∧ y.length = x.length := by
  obtain ⟨K, hK⟩ := isPow2_iff.mp hp
  obtain ⟨s, e, h1, h2⟩ := forRange_ok (f := fun i (s : Nat × List α) => do
      let j ← revStep sh x.length s.1
      if i < j then do
        let x ← swapAt s.2 i j
        pure (j, x)
      else pure (j, s.2))
    (fun _ s => s.1 < x.length ∧ s.2.length = x.length) (lo := 1) (hi := x.length) (s := (0, x))
    (isPow2_pos hp) ⟨isPow2_pos hp, rfl⟩ (by
      rintro i ⟨j, y⟩ hi1 hi2 ⟨hj, hy⟩
      simp only at hj hy
      obtain ⟨j', e, hj'⟩ := revStep_ok (sh := sh) (K := K) hsh (by rw [← hK]; exact hj)
      rw [← hK] at e hj'
      simp only [e, Outcome.bind_ok]
      split
      · rw [swapAt_ok y (by omega) (by omega), Outcome.bind_ok]
        exact ⟨_, rfl, hj', by simpa using hy⟩
      · exact ⟨_, rfl, hj', hy⟩)
  refine ⟨s.2, ?_, h2⟩
  unfold revLoop
  simp only [e]; rfl

theorem r4At_ok (x : List (Cx T)) {b q h : Nat} (w1 w2 w3 : Cx T) (h1 : b + 3 * q < x.length)
    (h2 : b + h < x.length) : ∃ y, r4At x b q h w1 w2 w3 = .ok y ∧ y.length = x.length := by
  unfold r4At
  rw [rd_ok (show b < x.length by omega), Outcome.bind_ok, rd_ok (show b + q < x.length by omega),
    Outcome.bind_ok, rd_ok h2, Outcome.bind_ok, rd_ok h1, Outcome.bind_ok]
  rcases butterfly4 _ _ _ _ with ⟨x0, x1, x2, x3⟩
  simp only
  rw [wr_ok (show b < x.length by omega), Outcome.bind_ok, wr_ok (by simp; omega), Outcome.bind_ok,
    wr_ok (by simp; omega), Outcome.bind_ok, wr_ok (by simp; omega)]
  exact ⟨_, rfl, by simp⟩

theorem r4First_ok (x : List (Cx T)) {i : Nat} (h : i + 3 < x.length) :
    ∃ y, r4First i x = .ok y ∧ y.length = x.length := by
  unfold r4First
  rw [rd_ok (show i < x.length by omega), Outcome.bind_ok, rd_ok (show i + 1 < x.length by omega),
    Outcome.bind_ok, rd_ok (show i + 2 < x.length by omega), Outcome.bind_ok, rd_ok h, Outcome.bind_ok]
  rcases butterfly4 _ _ _ _ with ⟨x0, x1, x2, x3⟩
  simp only
  rw [wr_ok (show i < x.length by omega), Outcome.bind_ok, wr_ok (by simp; omega), Outcome.bind_ok,
    wr_ok (by simp; omega), Outcome.bind_ok, wr_ok (by simp; omega)]
  exact ⟨_, rfl, by simp⟩

theorem r4Group_ok (x : List (Cx T)) {len i : Nat} (s1 s2 s3 : Cx T) (hq : len = 4 * (len / 4))
    (h : i + len ≤ x.length) : ∃ y, r4Group len i s1 s2 s3 x = .ok y ∧ y.length = x.length := by
  have hh : len / 2 = 2 * (len / 4) := by omega
  generalize hq' : len / 4 = q at *
  obtain ⟨s, e, ⟨h1, h2⟩, hc⟩ := whileF_ok
    (cond := fun s : R4St T => decide (s.j + 1 < q))
    (body := fun s => do
      let x ← r4At s.x (i + s.j) q (len / 2) s.w1 s.w2 s.w3
      let w1 := s.w1.mul s1
      let w2 := s.w2.mul s2
      let w3 := s.w3.mul s3
      let x ← r4At x (i + (s.j + 1)) q (len / 2) w1 w2 w3
      pure ({ j := s.j + 2, w1 := w1.mul s1, w2 := w2.mul s2, w3 := w3.mul s3, x := x } : R4St T))
    (fun s => s.x.length = x.length ∧ s.j ≤ q) (fun s => q - s.j) (q + 1)
    { j := 0, w1 := ⟨Flt.one, Flt.zero⟩, w2 := ⟨Flt.one, Flt.zero⟩, w3 := ⟨Flt.one, Flt.zero⟩, x := x }
    (by simp only; omega) ⟨rfl, Nat.zero_le _⟩ (by
      rintro s ⟨hs, hj⟩ hc
      simp only [decide_eq_true_eq] at hc
      obtain ⟨y1, e1, hy1⟩ := r4At_ok s.x s.w1 s.w2 s.w3 (b := i + s.j) (q := q) (h := len / 2)
        (by omega) (by omega)
      obtain ⟨y2, e2, hy2⟩ := r4At_ok y1 (s.w1.mul s1) (s.w2.mul s2) (s.w3.mul s3)
        (b := i + (s.j + 1)) (q := q) (h := len / 2) (by omega) (by omega)
      simp only [e1, Outcome.bind_ok, e2]
      exact ⟨_, rfl, ⟨by simp only; omega, by simp only; omega⟩, by simp only; omega⟩)
  unfold r4Group
  simp only [hq'] at *
  rw [e]
  simp only [Outcome.bind_ok]
  split
  · obtain ⟨y, e, hy⟩ := r4At_ok s.x s.w1 s.w2 s.w3 (b := i + s.j) (q := q) (h := len / 2)
      (by omega) (by omega)
    exact ⟨y, e, by omega⟩
  · exact ⟨s.x, rfl, h1⟩

theorem getTwiddles_inv (cfg : Cfg) (p : Planner T) (n : Nat) (hI : Inv cfg p) :
    (p.getTwiddles cfg n).2 = twiddles cfg n ∧ Inv cfg (p.getTwiddles cfg n).1 ∧
      Agree (p.getTwiddles cfg n).1 p := by
  obtain ⟨c, hc, hg⟩ := getTwiddles_spec cfg p n hI.cache
  rw [hg]
  exact ⟨rfl, ⟨hc, hI.blu, hI.split, hI.scr⟩, rfl, rfl, rfl⟩

theorem pow4_mul4_dvd {n len k m : Nat} (hn : n = 4 ^ m) (hlen : len = 4 ^ k) (hle : len ≤ n) :
    len ∣ n := by
  subst hn hlen
  exact pow_dvd_pow 4 ((Nat.pow_le_pow_iff_right (by norm_num)).mp hle)

theorem fftRadix4_ok (cfg : Cfg) (p : Planner T) (x : List (Cx T)) (hI : Inv cfg p)
    (hp : isPow2 x.length = true) (he : x.length.log2 % 2 = 0) :
    ∃ p' y, fftRadix4 cfg p x = .ok (p', y, .ok ()) ∧ Inv cfg p' ∧ y.length = x.length ∧
      Agree p' p := by
  obtain ⟨m, hm⟩ : ∃ m, x.length = 4 ^ m := by
    refine ⟨x.length.log2 / 2, ?_⟩
    conv_lhs => rw [pow2_eq hp]
    rw [show (4 : Nat) = 2 ^ 2 by norm_num, ← pow_mul]
    congr 1; omega
  obtain ⟨x1, e1, hl1⟩ := revLoop_ok (sh := 2) x (by norm_num) hp
  unfold fftRadix4
  simp only [hp, he, Bool.not_true, Bool.false_or, ne_eq, not_true, decide_false, Bool.false_eq_true,
    if_false, e1, Outcome.bind_ok]
  set n := x.length with hn
  obtain ⟨s, e, ⟨k, hk, hlen, hI', hag, hk2⟩, -⟩ := whileF_ok
    (cond := fun s : Nat × Planner T × List (Cx T) => decide (s.1 ≤ n))
    (body := fun s => do
        let (len, p, x) := s
        if len = 4 then do
          let x ← stepLoop n len x r4First
          pure (len * 4, p, x)
        else do
          let (p, tws) := p.getTwiddles cfg len
          let s1 ← rd tws 1
          let s2 ← rd tws 2
          let s3 ← rd tws 3
          let x ← stepLoop n len x fun i x => r4Group len i s1 s2 s3 x
          pure (len * 4, p, x))
    (fun s => ∃ k, s.1 = 4 ^ k ∧ s.2.2.length = n ∧ Inv cfg s.2.1 ∧ Agree s.2.1 p ∧ 1 ≤ k)
    (fun s => n + 1 - s.1) (n + 1) (4, p, x1)
    (by simp only; omega) ⟨1, rfl, hl1, hI, ⟨rfl, rfl, rfl⟩, le_rfl⟩ (by
      rintro ⟨len, p1, y⟩ ⟨k, hk, hy, hI1, ha1, hk1⟩ hc
      simp only [decide_eq_true_eq] at hc hk hy hI1 ha1
      have hdvd : len ∣ n := pow4_mul4_dvd hm hk hc
      have hpos : 0 < len := by rw [hk]; exact Nat.pow_pos (by norm_num)
      have hk' : len * 4 = 4 ^ (k + 1) := by rw [hk, pow_succ]
      have h4 : len = 4 * (len / 4) := by
        have : 4 ∣ len := by rw [hk]; exact dvd_pow_self 4 (by omega)
        omega
      by_cases hl4 : len = 4
      · simp only [hl4, if_true]
        obtain ⟨z, ez, hz⟩ := stepLoop_ok (n := n) (len := 4) (f := r4First) (s := y)
          (fun _ z => z.length = n) (by norm_num) (by rw [← hl4]; exact hdvd) hy (by
            intro k z hk hz
            obtain ⟨z', e, h⟩ := r4First_ok z (i := k * 4) (by omega)
            exact ⟨z', e, by omega⟩)
        rw [ez]
        refine ⟨_, rfl, ⟨2, by norm_num, hz, hI1, ha1, by norm_num⟩, ?_⟩
        simp only; omega
      · simp only [hl4, if_false]
        obtain ⟨t1, t2, t3⟩ := getTwiddles_inv cfg p1 len hI1
        have h8 : 8 ≤ len / 2 := by
          have : 2 ≤ k := by
            by_contra hlt
            have : k = 1 := by omega
            subst this; simp at hk; omega
          have : 4 ^ 2 ≤ len := by rw [hk]; exact Nat.pow_le_pow_right (by norm_num) this
          omega
        have hl := twiddles_length (T := T) cfg len
        rw [t1, rd_ok (show 1 < (twiddles (T := T) cfg len).length by omega), Outcome.bind_ok,
          rd_ok (show 2 < (twiddles (T := T) cfg len).length by omega), Outcome.bind_ok,
          rd_ok (show 3 < (twiddles (T := T) cfg len).length by omega), Outcome.bind_ok]
        obtain ⟨z, ez, hz⟩ := stepLoop_ok (n := n) (len := len) (s := y)
          (f := fun i x => r4Group len i (twiddles (T := T) cfg len)[1] (twiddles (T := T) cfg len)[2]
            (twiddles (T := T) cfg len)[3] x)
          (fun _ z => z.length = n) hpos hdvd hy (by
            intro k z hk hz
            have e3 : (k + 1) * len = k * len + len := by ring
            obtain ⟨z', e, h⟩ := r4Group_ok z (len := len) (i := k * len)
              (twiddles (T := T) cfg len)[1] (twiddles (T := T) cfg len)[2]
              (twiddles (T := T) cfg len)[3] h4 (by omega)
            exact ⟨z', e, by omega⟩)
        rw [ez]
        refine ⟨_, rfl, ⟨k + 1, hk', hz, t2, ⟨t3.1.trans ha1.1, t3.2.1.trans ha1.2.1,
          t3.2.2.trans ha1.2.2⟩, by omega⟩, ?_⟩
        simp only; omega)
  rw [e]
  exact ⟨_, _, rfl, hI', hlen, hag⟩

theorem fftRadix4_fallback (cfg : Cfg) (p : Planner T) (x : List (Cx T))
    (h : isPow2 x.length = false ∨ x.length.log2 % 2 ≠ 0) : fftRadix4 cfg p x = fft cfg p x := by
  unfold fftRadix4
  rcases h with h | h <;> simp [h]

end Kofft
