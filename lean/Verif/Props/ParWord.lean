import Verif.Model.ParWord
import Verif.Props.Plan
import Verif.Proof.Reach
/-
C96: deciding about the parallel path on machine words.
-/
namespace Kofft.Props
open Spec
variable {T : Type} [Flt T]

/-- What the calibration would measure with unbounded integers: `131072` elements of eight bytes copied in `nanos` nanoseconds, in
elements per second. -/
def _root_.Kofft.ParHost.vars (h : ParHost) : ParVars :=
  ⟨h.threshold, h.cacheBytes, h.perCoreWork, h.blockSize, h.threads, h.cpus, 131072 * 1000000000 / max h.nanos 1⟩

/-- The product of the settings without overrides, the calibration having given `c`. -/
def _root_.Kofft.ParHost.product (h : ParHost) (c : ℕ) : ℕ :=
  max (h.cacheBytes.getD (32 * 1024) / 8) (max (max (h.perCoreWork.getD 4096) c) (h.blockSize.getD 1024)) *
    h.threads.getD (max h.cpus 1)

/-- The same with the overrides. -/
def _root_.Kofft.ParHost.productOv (h : ParHost) (o : ParOv) (c : ℕ) : ℕ :=
  max (orEnv o.cacheBytes (h.cacheBytes.getD (32 * 1024)) / 8)
    (max (max (orEnv o.perCoreWork (h.perCoreWork.getD 4096)) c) (orEnv o.blockSize (h.blockSize.getD 1024))) *
    orEnv o.threads (h.threads.getD (max h.cpus 1))

/-- The same without `std`. -/
def _root_.Kofft.Spec.productNoStd (o : ParOv) : ℕ :=
  max (orEnv o.cacheBytes (32 * 1024) / 8) (max (orEnv o.perCoreWork 4096) (orEnv o.blockSize 1024)) * orEnv o.threads 1

theorem word_val_ok {w : Word} {v : ℕ} (h : v < 2 ^ w.bits) : w.val v = .ok v := by unfold Word.val; rw [if_pos h]

theorem word_val_panic {w : Word} {v : ℕ} (h : 2 ^ w.bits ≤ v) (hc : w.checks = true) : w.val v = .panic := by
  unfold Word.val; rw [if_neg (by omega), if_pos hc]

theorem word_val_release {w : Word} {v : ℕ} (hc : w.checks = false) : w.val v = .ok (v % 2 ^ w.bits) := by
  unfold Word.val
  by_cases h : v < 2 ^ w.bits
  · rw [if_pos h, Nat.mod_eq_of_lt h]
  · rw [if_neg h, hc]; simp

theorem elems_eq : (2 ^ 20 / 8 * 1000000000 : ℕ) = 131072 * 1000000000 := by norm_num

theorem calibratedW_ok {w : Word} {nanos : ℕ} (hw : 131072 * 1000000000 < 2 ^ w.bits) (hn : nanos < 2 ^ w.bits) :
    calibratedW w nanos = .ok (max (131072 * 1000000000 / max nanos 1) 4096) := by
  unfold calibratedW Word.mul
  rw [elems_eq, word_val_ok hw, Outcome.bind_ok]
  have h1 : max nanos 1 < 2 ^ w.bits := max_lt hn (by omega)
  rw [Nat.mod_eq_of_lt h1, if_neg (by omega)]

/-- C96, partial: on a target whose words hold `131072·10⁹` (so on every 64-bit target) and for a calibration copy that takes less than
`2^bits` nanoseconds, as long as the products of the settings fit in a word, the decision is made without panicking, with and without
overflow checks, and is the one C23 describes. Missing: smaller words and larger products, where it is false
(`parallel_small_word_panics`, `parallel_huge_settings`). -/
theorem parallel_word_agrees_partial (std : Bool) (w : Word) (h : ParHost) (o : ParOv) (n : ℕ)
    (hw : 131072 * 1000000000 < 2 ^ w.bits) (hn : h.nanos < 2 ^ w.bits)
    (hp : h.product (max (131072 * 1000000000 / max h.nanos 1) 4096) < 2 ^ w.bits)
    (ho : h.productOv o (max (131072 * 1000000000 / max h.nanos 1) 4096) < 2 ^ w.bits)
    (hs : productNoStd o < 2 ^ w.bits) :
    ifftDecideW std w h o n = .ok (ifftParallel std h.vars o n) := by
  have e1 : w.mul _ _ = _ := word_val_ok hp
  have e2 : w.mul _ _ = _ := word_val_ok ho
  have e3 : w.mul _ _ = _ := word_val_ok hs
  cases std
  · unfold ifftDecideW ifftParallel shouldParallelizeNoStdW shouldParallelizeNoStd
    simp only [Bool.false_eq_true, if_false]
    by_cases ht : o.threshold ≠ 0
    · simp only [ht, ne_eq, not_false_eq_true, if_true]
    · simp only [ht, ne_eq, not_true_eq_false, if_false]
      rw [e3]
      rfl
  · unfold ifftDecideW ifftParallel parThresholdW parThreshold
    simp only [if_true, calibratedW_ok hw hn, Outcome.bind_ok]
    rw [e1]
    have key : ∀ base, shouldParallelizeW w h o n base = .ok (shouldParallelize (ParEnv.of h.vars) o n base) := by
      intro base
      unfold shouldParallelizeW shouldParallelize
      simp only [calibratedW_ok hw hn, Outcome.bind_ok]
      rw [e2]
      generalize (if o.threshold ≠ 0 then o.threshold else base) = t
      by_cases h0 : t ≠ 0
      · rw [if_pos h0, if_pos h0]
      · rw [if_neg h0, if_neg h0]; rfl
    have hth : (ParEnv.of h.vars).threshold = h.threshold.getD 0 := rfl
    by_cases ht : h.threshold.getD 0 ≠ 0
    · rw [if_pos ht, hth, if_pos ht, Outcome.bind_ok]; exact key _
    · rw [if_neg ht, hth, if_neg ht, Outcome.bind_ok]; exact key _

/-- C96: with `KOFFT_PAR_FFT_THRESHOLD` set to a number other than zero the decision never panics, on any target. -/
theorem parallel_threshold_set (w : Word) (h : ParHost) (o : ParOv) (n : ℕ) (ht : h.threshold.getD 0 ≠ 0) :
    ifftDecideW true w h o n = .ok (decide ((if o.threshold ≠ 0 then o.threshold else h.threshold.getD 0) ≤ n)) := by
  unfold ifftDecideW parThresholdW shouldParallelizeW
  simp only [if_true, ht, ne_eq, not_false_eq_true, Outcome.bind_ok]
  have h0 : ¬ (if ¬ o.threshold = 0 then o.threshold else h.threshold.getD 0) = 0 := by
    by_cases h : o.threshold = 0
    · simpa [h] using ht
    · simpa [h] using h
  simp only [h0, not_false_eq_true, if_true]

/-- C96: exactly when the decision panics with overflow checks (debug profile). -/
theorem parallel_panics_iff_debug (w : Word) (h : ParHost) (o : ParOv) (n : ℕ) (hc : w.checks = true) :
    ifftDecideW true w h o n = .panic ↔ h.threshold.getD 0 = 0 ∧
      (2 ^ w.bits ≤ 131072 * 1000000000 ∨ max h.nanos 1 % 2 ^ w.bits = 0 ∨
        2 ^ w.bits ≤ h.product (max (131072 * 1000000000 / (max h.nanos 1 % 2 ^ w.bits)) 4096) ∨
        (h.threads.getD (max h.cpus 1) = 0 ∧ o.threshold = 0 ∧
          2 ^ w.bits ≤ h.productOv o (max (131072 * 1000000000 / (max h.nanos 1 % 2 ^ w.bits)) 4096))) := by
  by_cases ht : h.threshold.getD 0 ≠ 0
  · rw [parallel_threshold_set w h o n ht]
    simp [ht]
  · rw [not_not] at ht
    simp only [ht, true_and]
    unfold ifftDecideW parThresholdW
    simp only [if_true, ht, ne_eq, not_true_eq_false, if_false]
    by_cases h1 : 2 ^ w.bits ≤ 131072 * 1000000000
    · have : calibratedW w h.nanos = .panic := by
        unfold calibratedW Word.mul
        rw [elems_eq, word_val_panic h1 hc]; rfl
      rw [this]
      simp [h1]
    · by_cases h2 : max h.nanos 1 % 2 ^ w.bits = 0
      · have : calibratedW w h.nanos = .panic := by
          unfold calibratedW Word.mul
          rw [elems_eq, word_val_ok (by omega), Outcome.bind_ok, if_pos h2]
        rw [this]
        simp [h2]
      · have hcal : calibratedW w h.nanos = .ok (max (131072 * 1000000000 / (max h.nanos 1 % 2 ^ w.bits)) 4096) := by
          unfold calibratedW Word.mul
          rw [elems_eq, word_val_ok (by omega), Outcome.bind_ok, if_neg h2]
        rw [hcal, Outcome.bind_ok]
        set c := max (131072 * 1000000000 / (max h.nanos 1 % 2 ^ w.bits)) 4096 with ec
        have hc1 : 4096 ≤ c := le_max_right _ _
        simp only [h1, h2, false_or]
        have eP : ∀ v, w.mul (max (h.cacheBytes.getD (32 * 1024) / 8) (max (max (h.perCoreWork.getD 4096) c) (h.blockSize.getD 1024)))
            (h.threads.getD (max h.cpus 1)) = v ↔ w.val (h.product c) = v := fun _ => Iff.rfl
        by_cases h3 : 2 ^ w.bits ≤ h.product c
        · rw [(eP _).2 (word_val_panic h3 hc)]
          simp [h3]
        · rw [(eP _).2 (word_val_ok (by omega)), Outcome.bind_ok]
          simp only [h3, false_or]
          unfold shouldParallelizeW
          simp only []
          by_cases h4 : h.threads.getD (max h.cpus 1) = 0
          · have hz : h.product c = 0 := by unfold ParHost.product; rw [h4, Nat.mul_zero]
            rw [hz]
            by_cases h5 : o.threshold ≠ 0
            · simp [h5]
            · rw [not_not] at h5
              simp only [h5, ne_eq, not_true_eq_false, if_false, hcal, Outcome.bind_ok, h4, true_and]
              have eQ : ∀ v, w.mul (max (orEnv o.cacheBytes (h.cacheBytes.getD (32 * 1024)) / 8)
                  (max (max (orEnv o.perCoreWork (h.perCoreWork.getD 4096)) c) (orEnv o.blockSize (h.blockSize.getD 1024))))
                  (orEnv o.threads 0) = v ↔ w.val (h.productOv o c) = v := by
                intro v; unfold ParHost.productOv Word.mul; rw [h4]
              by_cases h6 : 2 ^ w.bits ≤ h.productOv o c
              · rw [(eQ _).2 (word_val_panic h6 hc)]
                simp [h6]
              · rw [(eQ _).2 (word_val_ok (by omega)), Outcome.bind_ok]
                simp [h6]
          · have hz : h.product c ≠ 0 := by
              unfold ParHost.product
              refine Nat.mul_ne_zero ?_ h4
              have : c ≤ max (h.cacheBytes.getD (32 * 1024) / 8) (max (max (h.perCoreWork.getD 4096) c) (h.blockSize.getD 1024)) :=
                le_max_of_le_right (le_max_of_le_left (le_max_right _ _))
              omega
            rw [if_pos (by split <;> assumption)]
            simp [h4]

/-- C96: exactly when it panics without overflow checks (release profile): only on a division by zero, when the copy took a
multiple of `2^bits` nanoseconds. -/
theorem parallel_panics_iff_release (w : Word) (h : ParHost) (o : ParOv) (n : ℕ) (hc : w.checks = false) :
    ifftDecideW true w h o n = .panic ↔ h.threshold.getD 0 = 0 ∧ max h.nanos 1 % 2 ^ w.bits = 0 := by
  by_cases ht : h.threshold.getD 0 ≠ 0
  · rw [parallel_threshold_set w h o n ht]
    simp [ht]
  · rw [not_not] at ht
    unfold ifftDecideW parThresholdW
    simp only [if_true, ht, ne_eq, not_true_eq_false, if_false, true_and]
    by_cases h2 : max h.nanos 1 % 2 ^ w.bits = 0
    · have : calibratedW w h.nanos = .panic := by
        unfold calibratedW Word.mul
        rw [word_val_release hc, Outcome.bind_ok, if_pos h2]
      rw [this]
      simp [h2]
    · obtain ⟨c, hcal⟩ : ∃ c, calibratedW w h.nanos = .ok c := by
        unfold calibratedW Word.mul
        rw [word_val_release hc, Outcome.bind_ok, if_neg h2]
        exact ⟨_, rfl⟩
      rw [hcal, Outcome.bind_ok]
      unfold Word.mul
      rw [word_val_release hc, Outcome.bind_ok]
      unfold shouldParallelizeW
      simp only [h2, iff_false]
      generalize (if o.threshold ≠ 0 then o.threshold else _) = t
      by_cases h0 : t ≠ 0
      · rw [if_pos h0]; simp
      · rw [if_neg h0, hcal, Outcome.bind_ok]
        unfold Word.mul
        rw [word_val_release hc, Outcome.bind_ok]
        simp

/-- Lengths whose transform asks for the threshold: above 8, except 16. -/
theorem asksThreshold_iff (n : ℕ) (h0 : n ≠ 0) : asksThreshold n = true ↔ 8 < n ∧ n ≠ 16 := by
  unfold asksThreshold
  by_cases h2 : isPow2 n = true
  · rw [if_pos h2]
    obtain ⟨k, rfl⟩ := isPow2_iff.1 h2
    simp only [decide_eq_true_eq]
    constructor
    · intro h; omega
    · rintro ⟨h, h'⟩
      have hk : 4 < k := by
        by_contra hk
        have : k ≤ 4 := by omega
        interval_cases k <;> simp_all
      calc 16 = 2 ^ 4 := by norm_num
        _ < 2 ^ k := Nat.pow_lt_pow_right (by norm_num) hk
  · rw [if_neg h2]
    simp only [decide_eq_true_eq]
    have h16 : n ≠ 16 := by rintro rfl; exact h2 (by decide)
    have h8 : n ≠ 8 := by rintro rfl; exact h2 (by decide)
    simp only [h16, ne_eq, not_false_eq_true, and_true]
    unfold nextPow2
    constructor
    · intro h
      by_contra hn
      have : 2 ^ Nat.clog 2 (2 * n - 1) ≤ 2 ^ 4 := Nat.pow_le_pow_right (by norm_num)
        ((Nat.clog_le_iff_le_pow (by norm_num)).2 (by omega))
      omega
    · intro h
      have := Nat.le_pow_clog (b := 2) (by norm_num) (2 * n - 1)
      omega

/-- C96, negation: on a target whose words do not hold `131072·10⁹` (every 32-bit target), built with the `parallel` and `std` features
and overflow checks, every `fft` of more than eight elements other than sixteen and every `ifft` of more than one element panics,
unless `KOFFT_PAR_FFT_THRESHOLD` is set. -/
theorem parallel_small_word_panics (w : Word) (h : ParHost) (o : ParOv) (o1 o2 : List ℕ) (cfg : Cfg) (p : Planner T)
    (x : List (Cx T)) (hw : 2 ^ w.bits ≤ 131072 * 1000000000) (hc : w.checks = true) (ht : h.threshold.getD 0 = 0)
    (hs : cfg.std = true) :
    (8 < x.length → x.length ≠ 16 → fftHost w h cfg p x = .panic) ∧
    (1 < x.length → ifftHost w h o o1 o2 cfg p x = .panic) := by
  constructor
  · intro h8 h16
    unfold fftHost
    rw [if_pos ⟨hs, (asksThreshold_iff _ (by omega)).2 ⟨h8, h16⟩, by omega⟩]
    unfold parThresholdW
    rw [if_neg (by simpa using ht)]
    have : calibratedW w h.nanos = .panic := by
      unfold calibratedW Word.mul
      rw [elems_eq, word_val_panic hw hc]; rfl
    rw [this]; rfl
  · intro h1
    unfold ifftHost
    rw [if_neg (by omega), hs, (parallel_panics_iff_debug w h o x.length hc).2 ⟨ht, Or.inl hw⟩]
    rfl

/-- C96: whatever the target and the settings, a call either panics while deciding or returns what the sequential one returns. -/
theorem parallel_host_result (w : Word) (h : ParHost) (o : ParOv) (cfg : Cfg) (p : Planner T) (hp : Reach cfg p)
    (x : List (Cx T)) (o1 o2 : List ℕ) (h1 : o1.Perm (List.range x.length)) (h2 : o2.Perm (List.range x.length)) :
    (fftHost w h cfg p x = .panic ∨ fftHost w h cfg p x = fft cfg p x) ∧
    (ifftHost w h o o1 o2 cfg p x = .panic ∨ ifftHost w h o o1 o2 cfg p x = ifft cfg p x) ∧
    (1 < x.length → (ifftHost w h o o1 o2 cfg p x = .panic ↔ ifftDecideW cfg.std w h o x.length = .panic)) := by
  have nohang : ∀ v, w.val v ≠ .hang := by
    intro v; unfold Word.val; split
    · simp
    · split <;> simp
  have hcal : ∀ k, calibratedW w k ≠ .hang := by
    intro k; unfold calibratedW Word.mul
    cases hv : w.val (2 ^ 20 / 8 * 1000000000) with
    | ok v => rw [Outcome.bind_ok]; split <;> simp
    | panic => intro hh; cases hh
    | hang => exact absurd hv (nohang _)
  have hthr : parThresholdW w h ≠ .hang := by
    unfold parThresholdW
    split
    · simp
    · cases hv : calibratedW w h.nanos with
      | ok v => rw [Outcome.bind_ok]; exact nohang _
      | panic => intro hh; cases hh
      | hang => exact absurd hv (hcal _)
  have hdec : ∀ n, ifftDecideW cfg.std w h o n ≠ .hang := by
    intro n
    unfold ifftDecideW
    split
    · cases hv : parThresholdW w h with
      | ok v =>
        rw [Outcome.bind_ok]
        unfold shouldParallelizeW
        simp only []
        generalize (if o.threshold ≠ 0 then o.threshold else _) = t
        by_cases h0 : t ≠ 0
        · rw [if_pos h0]; simp
        · rw [if_neg h0]
          cases hv : calibratedW w h.nanos with
          | ok v =>
            rw [Outcome.bind_ok]
            generalize hm : w.mul _ _ = m
            cases m with
            | ok v => rw [Outcome.bind_ok]; simp
            | panic => intro hh; cases hh
            | hang => exact absurd hm (nohang _)
          | panic => intro hh; cases hh
          | hang => exact absurd hv (hcal _)
      | panic => intro hh; cases hh
      | hang => exact absurd hv hthr
    · unfold shouldParallelizeNoStdW
      split
      · simp
      · generalize hm : w.mul _ _ = m
        cases m with
        | ok v => rw [Outcome.bind_ok]; simp
        | panic => intro hh; cases hh
        | hang => exact absurd hm (nohang _)
  have hrun : ∀ y, ∃ v, ifft cfg p y = .ok v := by
    intro y
    obtain ⟨q, e, -⟩ := (ifft_opOk cfg).run p y (reach_inv hp)
    exact ⟨_, e⟩
  refine ⟨?_, ?_, ?_⟩
  · unfold fftHost
    split
    · cases hv : parThresholdW w h with
      | ok v => exact Or.inr rfl
      | panic => exact Or.inl rfl
      | hang => exact absurd hv hthr
    · exact Or.inr rfl
  · unfold ifftHost
    split
    · exact Or.inr rfl
    · cases hv : ifftDecideW cfg.std w h o x.length with
      | ok v => rw [Outcome.bind_ok]; exact Or.inr (ifftPar_same cfg v p hp x o1 o2 h1 h2)
      | panic => exact Or.inl rfl
      | hang => exact absurd hv (hdec _)
  · intro hx
    unfold ifftHost
    rw [if_neg (by omega)]
    cases hv : ifftDecideW cfg.std w h o x.length with
    | ok v =>
      rw [Outcome.bind_ok, ifftPar_same cfg v p hp x o1 o2 h1 h2]
      obtain ⟨u, e⟩ := hrun x
      rw [e]; simp
    | panic => exact ⟨fun _ => rfl, fun _ => rfl⟩
    | hang => exact absurd hv (hdec _)

theorem huge_aux (checks : Bool) (nanos n M : ℕ) (hn : nanos < 2 ^ 64) (hM : 131072 * 1000000000 ≤ M) (h2 : M * 2 = 2 ^ 64) :
    ifftDecideW true ⟨64, checks⟩ ⟨none, none, some M, none, none, 2, nanos⟩ {} n = if checks then .panic else .ok true := by
  have hcal := calibratedW_ok (w := ⟨64, checks⟩) (nanos := nanos) (by norm_num) hn
  have hle : max (131072 * 1000000000 / max nanos 1) 4096 ≤ M :=
    max_le ((Nat.div_le_self _ _).trans hM) (le_trans (by norm_num) hM)
  generalize max (131072 * 1000000000 / max nanos 1) 4096 = q at hcal hle
  have hm : max (32 * 1024 / 8) (max (max M q) 1024) = M := by
    rw [max_eq_left hle, max_eq_left (le_trans (by norm_num) hM), max_eq_right (le_trans (by norm_num) hM)]
  have ht : max 2 1 = 2 := rfl
  have hp : (⟨none, none, some M, none, none, 2, nanos⟩ : ParHost).product q = 2 ^ 64 := by
    unfold ParHost.product
    rw [← h2]
    exact congrArg (· * 2) hm
  have ho : (⟨none, none, some M, none, none, 2, nanos⟩ : ParHost).productOv {} q = 2 ^ 64 := hp
  have e1 : parThresholdW ⟨64, checks⟩ ⟨none, none, some M, none, none, 2, nanos⟩ = Word.val ⟨64, checks⟩ (2 ^ 64) := by
    rw [← hp]
    unfold parThresholdW
    rw [if_neg (by simp), hcal]
    rfl
  have e2 : shouldParallelizeW ⟨64, checks⟩ ⟨none, none, some M, none, none, 2, nanos⟩ {} n 0 =
      Word.val ⟨64, checks⟩ (2 ^ 64) >>= fun p => .ok (decide (n ≥ p)) := by
    rw [← ho]
    unfold shouldParallelizeW
    simp only [ne_eq, not_true_eq_false, if_false]
    rw [hcal]
    rfl
  unfold ifftDecideW
  rw [if_pos rfl, e1]
  cases checks
  · have e0 : Word.val ⟨64, false⟩ (2 ^ 64) = .ok 0 := by rw [word_val_release rfl, Nat.mod_self]
    rw [e0, Outcome.bind_ok, e2, e0, Outcome.bind_ok]
    simp
  · have e0 : Word.val ⟨64, true⟩ (2 ^ 64) = .panic := word_val_panic (le_refl _) rfl
    rw [e0]
    rfl

/-- C96, negation on 64-bit targets: asking for `2^63` elements per core (to switch the parallel path off) on a machine with two
processors panics with overflow checks, and without makes every `ifft` take the parallel path, however short. -/
theorem parallel_huge_settings (checks : Bool) (nanos n : ℕ) (hn : nanos < 2 ^ 64) :
    ifftDecideW true ⟨64, checks⟩ ⟨none, none, some (2 ^ 63), none, none, 2, nanos⟩ {} n =
      if checks then .panic else .ok true := by
  refine huge_aux checks nanos n (2 ^ 63) hn (by norm_num) (by norm_num)

/-- C96: on a 32-bit target without overflow checks the calibration is not the number of elements per second. -/
theorem parallel_release_calibration (nanos : ℕ) (h0 : 0 < nanos) (hn : nanos < 2 ^ 32) :
    calibratedW ⟨32, false⟩ nanos = .ok (max (2483027968 / nanos) 4096) := by
  unfold calibratedW Word.mul
  rw [word_val_release rfl, Outcome.bind_ok]
  simp only []
  rw [max_eq_left (by omega : 1 ≤ nanos), Nat.mod_eq_of_lt hn, if_neg (by omega),
    show (2 ^ 20 / 8 * 1000000000 % 2 ^ 32 : ℕ) = 2483027968 by norm_num]

/-! ### The hypotheses are met -/

/-- A common machine: nothing set, eight processors, the copy takes 50 µs. -/
example (o : ParOv) (checks : Bool) (n : ℕ) (ho : o = {}) :
    ifftDecideW true ⟨64, checks⟩ ⟨none, none, none, none, none, 8, 50000⟩ o n = .ok (decide (20971520000 ≤ n)) := by
  subst ho
  rw [parallel_word_agrees_partial true ⟨64, checks⟩ ⟨none, none, none, none, none, 8, 50000⟩ {} n (by norm_num) (by norm_num)
    (by norm_num [ParHost.product]) (by norm_num [ParHost.productOv, orEnv]) (by norm_num [productNoStd, orEnv])]
  norm_num [ifftParallel, ParHost.vars, ParEnv.of, parThreshold, shouldParallelize]

/-- The same on a 32-bit target in the debug profile. -/
example (n : ℕ) : ifftDecideW true ⟨32, true⟩ ⟨none, none, none, none, none, 8, 50000⟩ {} n = .panic :=
  (parallel_panics_iff_debug _ _ _ _ rfl).2 ⟨rfl, Or.inl (by norm_num)⟩

end Kofft.Props
