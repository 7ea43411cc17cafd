import Verif.Spec.Rfft
import Verif.Lib.Loop
/-
What the real-FFT kernels compute, for any arithmetic.
-/
namespace Kofft
variable {T : Type} [Flt T]

/-- Entry `k` of the table for `m`. -/
def rtw (m : Nat) : Nat → Cx T
  | 0 => ⟨Flt.one, Flt.zero⟩
  | k + 1 => (rtw m k).mul ⟨Flt.cos ((-. Flt.pi) /. Flt.ofNat m), Flt.sin ((-. Flt.pi) /. Flt.ofNat m)⟩

theorem rfftTable_eq (m : Nat) : rfftTable (T := T) m = .ok (tab m (rtw m)) := by
  unfold rfftTable
  dsimp only
  rw [forRange_eq (s := (([] : List (Cx T)), (⟨Flt.one, Flt.zero⟩ : Cx T)))
    (fun i => (tab i (rtw m), rtw m i)) (Nat.zero_le _) rfl]
  · rfl
  · intro i _ _
    simp only [Outcome.pure_eq, ← tab_succ]
    rfl

/-- Adjacent samples as complex numbers. -/
def packed (x : List T) : List (Cx T) :=
  tab (x.length / 2) fun i => ⟨x.getD (2 * i) Flt.zero, x.getD (2 * i + 1) Flt.zero⟩

/-- Forward post-processing. -/
def rfftPost (bin : Cx T → Cx T → Cx T → Cx T) (y : List (Cx T)) : List (Cx T) :=
  tab (y.length + 1) fun k =>
    if k = 0 then ⟨(y.getD 0 Cx.zero).re +. (y.getD 0 Cx.zero).im, Flt.zero⟩
    else if k = y.length then ⟨(y.getD 0 Cx.zero).re -. (y.getD 0 Cx.zero).im, Flt.zero⟩
    else bin (rtw y.length k) (y.getD k Cx.zero) (y.getD (y.length - k) Cx.zero)

/-- Inverse pre-processing. -/
def irfftPre (bin : Cx T → Cx T → Cx T → Cx T) (m : Nat) (X : List (Cx T)) : List (Cx T) :=
  tab m fun k =>
    if k = 0 then
      ⟨((X.getD 0 Cx.zero).re +. (X.getD m Cx.zero).re) *. Flt.lit 5 1,
        ((X.getD 0 Cx.zero).re -. (X.getD m Cx.zero).re) *. Flt.lit 5 1⟩
    else bin (rtw m k) (X.getD k Cx.zero) (X.getD (m - k) Cx.zero)

/-- Real and imaginary parts alternating. -/
def unpacked (y : List (Cx T)) : List T :=
  tab (2 * y.length) fun j =>
    if j % 2 = 0 then (y.getD (j / 2) Cx.zero).re else (y.getD (j / 2) Cx.zero).im

theorem packReal_eq (input : List T) (m : Nat) (dst : List (Cx T)) (h : 2 * m ≤ input.length)
    (hd : m ≤ dst.length) :
    packReal input m dst = .ok (tab dst.length fun k => if k < m then
      ⟨input.getD (2 * k) Flt.zero, input.getD (2 * k + 1) Flt.zero⟩ else dst.getD k Cx.zero) := by
  unfold packReal
  conv_lhs => rw [eq_tab_getD dst Cx.zero]
  rw [fill_tab (v := fun k => (⟨input.getD (2 * k) Flt.zero, input.getD (2 * k + 1) Flt.zero⟩ : Cx T))
    (Nat.zero_le _)]
  · congr 1
    apply tab_congr
    intro k hk
    simp
  · intro i s _ hi hs
    rw [rd_getD Flt.zero (by omega), Outcome.bind_ok, rd_getD Flt.zero (by omega), Outcome.bind_ok,
      wr_ok (by omega)]

theorem unpackReal_eq (sc : List (Cx T)) (m : Nat) (out : List T) (h : m ≤ sc.length)
    (hd : out.length = 2 * m) : unpackReal sc m out = .ok (unpacked (sc.take m)) := by
  unfold unpackReal
  conv_lhs => rw [eq_tab_getD out Flt.zero, hd]
  rw [forRange_eq (s := tab (2 * m) (fun i => out.getD i Flt.zero))
    (fun i => tab (2 * m) fun j => if j < 2 * i then
      (if j % 2 = 0 then (sc.getD (j / 2) Cx.zero).re else (sc.getD (j / 2) Cx.zero).im)
      else out.getD j Flt.zero) (Nat.zero_le _) (tab_congr fun j _ => by simp)]
  · congr 1
    unfold unpacked
    rw [List.length_take, min_eq_left h]
    apply tab_congr
    intro j hj
    rw [if_pos hj]
    have e : (sc.take m).getD (j / 2) Cx.zero = sc.getD (j / 2) Cx.zero := by
      simp only [List.getD_eq_getElem?_getD]
      rw [List.getElem?_take_of_lt (by omega)]
    rw [e]
  · intro i _ hi
    rw [rd_getD Cx.zero (by omega), Outcome.bind_ok, wr_tab (by omega), Outcome.bind_ok,
      wr_tab (by omega)]
    congr 1
    apply tab_congr
    intro j hj
    by_cases h1 : j = 2 * i + 1
    · subst h1
      rw [if_pos rfl, if_pos (by omega), if_neg (by omega), show (2 * i + 1) / 2 = i by omega]
    · rw [if_neg h1]
      by_cases h2 : j = 2 * i
      · subst h2
        rw [if_pos rfl, if_pos (by omega), if_pos (by omega), show (2 * i) / 2 = i by omega]
      · rw [if_neg h2]
        by_cases h3 : j < 2 * i
        · simp only [h3, if_true, show j < 2 * (i + 1) by omega]
        · simp only [h3, if_false, show ¬ j < 2 * (i + 1) by omega]

theorem take_tab_if {α : Type} {m n : Nat} {f g : Nat → α} (h : m ≤ n) :
    (tab n fun k => if k < m then f k else g k).take m = tab m f := by
  rw [tab_take, min_eq_left h]
  apply tab_congr
  intro i hi
  rw [if_pos hi]

theorem drop_tab_if {α : Type} {m : Nat} {l : List α} {f : Nat → α} {d : α} (h : m ≤ l.length) :
    (tab l.length fun k => if k < m then f k else l.getD k d).drop m = l.drop m := by
  conv_rhs => rw [eq_tab_getD l d]
  rw [tab_drop, tab_drop]
  apply tab_congr
  intro i hi
  rw [if_neg (by omega)]

/-- Result of the kernel once the inner transform has run. -/
def rfftFin {S : Type} (bin : Cx T → Cx T → Cx T → Cx T) (m : Nat) (output scratch : List (Cx T)) :
    S × List (Cx T) × Res → Outcome (S × List (Cx T) × List (Cx T) × Res)
  | (s', y, .error e) => .ok (s', y ++ output.drop m, scratch, .error e)
  | (s', y, .ok _) => .ok (s', rfftPost bin y, y ++ scratch.drop m, .ok ())

theorem getD_append_left' {α : Type} {a b : List α} {i : Nat} {d : α} (h : i < a.length) :
    (a ++ b).getD i d = a.getD i d := by
  simp [List.getD_eq_getElem?_getD, List.getElem?_append_left h]

theorem postLoop_eq (bin : Cx T → Cx T → Cx T → Cx T) (y output sc : List (Cx T)) (m : Nat) (hm : 0 < m)
    (hy : y.length = m) (hout : output.length = m + 1) :
    (do
      let y0 ← rd (y ++ sc) 0
      let output ← wr output 0 ⟨y0.re +. y0.im, Flt.zero⟩
      let output ← wr output m ⟨y0.re -. y0.im, Flt.zero⟩
      forRange 1 m output fun k o => do
        let a ← rd (y ++ sc) k
        let c ← rd (y ++ sc) (m - k)
        let w ← rd (tab m (rtw m)) k
        wr o k (bin w a c)) = .ok (rfftPost bin y) := by
  have hg : ∀ i, i < m → rd (y ++ sc) i = .ok (y.getD i Cx.zero) := by
    intro i hi
    rw [rd_getD Cx.zero (by simp; omega), getD_append_left' (by omega)]
  rw [hg 0 hm, Outcome.bind_ok, eq_tab_getD output Cx.zero, hout, wr_tab (by omega), Outcome.bind_ok,
    wr_tab (by omega), Outcome.bind_ok]
  rw [fill_tab (v := fun k => bin (rtw m k) (y.getD k Cx.zero) (y.getD (m - k) Cx.zero)) hm]
  · unfold rfftPost
    rw [hy]
    congr 1
    apply tab_congr
    intro k hk
    by_cases h0 : k = 0
    · subst h0; rw [if_neg (by omega), if_neg (by omega), if_pos rfl, if_pos rfl]
    · rw [if_neg h0]
      by_cases h1 : k = m
      · subst h1; simp only [if_true, show ¬ (1 ≤ k ∧ k < k) by omega, if_false, h0]
      · simp only [h1, h0, if_false, show 1 ≤ k ∧ k < m by omega, and_self, if_true]
  · intro i s h1 h2 hs
    rw [hg i h2, Outcome.bind_ok, hg (m - i) (by omega), Outcome.bind_ok, rd_tab h2, Outcome.bind_ok,
      wr_ok (by omega)]

theorem rfftDirect_eq {S : Type} (bin : Cx T → Cx T → Cx T → Cx T) (op : StOp S T) (s : S) (hop : OpLen op s)
    (input : List T) (output scratch : List (Cx T)) (m : Nat) (hm : 0 < m) (hn : input.length = 2 * m)
    (hout : output.length = m + 1) (hs : m ≤ scratch.length) :
    rfftDirect bin op s input output scratch (tab m (rtw m)) =
      op s (packed input) >>= rfftFin bin m output scratch := by
  unfold rfftDirect
  simp only [show ¬ input.length = 0 by omega, if_false, show ¬ input.length % 2 ≠ 0 by omega,
    show input.length / 2 = m by omega, hout, ne_eq, not_true, false_or, show ¬ scratch.length < m by omega]
  rw [packReal_eq input m output (by omega) (by omega), Outcome.bind_ok]
  have e1 : (tab output.length fun k => if k < m then
      (⟨input.getD (2 * k) Flt.zero, input.getD (2 * k + 1) Flt.zero⟩ : Cx T)
      else output.getD k Cx.zero).take m = packed input := by
    rw [take_tab_if (by omega)]; unfold packed; rw [show input.length / 2 = m by omega]
  rw [e1, drop_tab_if (by omega)]
  cases ho : op s (packed input) with
  | panic => rfl
  | hang => rfl
  | ok v =>
    obtain ⟨s', y, r⟩ := v
    have hy : y.length = m := by
      rw [hop _ _ _ _ ho]; unfold packed; rw [tab_length]; omega
    simp only [Outcome.bind_ok]
    cases r with
    | error e => rfl
    | ok u =>
      have := postLoop_eq bin y (y ++ output.drop m) (scratch.drop m) m hm hy
        (by rw [List.length_append, List.length_drop]; omega)
      simp only [rfftFin]
      rw [show (y ++ output.drop m).take m = y by rw [← hy, List.take_left']; rfl]
      simp only [← bind_assoc] at this ⊢
      rw [this, Outcome.bind_ok]

/-- Result of the inverse kernel once the inner transform has run. -/
def irfftFin {S : Type} (m : Nat) (output : List T) (scratch : List (Cx T)) :
    S × List (Cx T) × Res → Outcome (S × List T × List (Cx T) × Res)
  | (s', y, .error e) => .ok (s', output, y ++ scratch.drop m, .error e)
  | (s', y, .ok _) => .ok (s', unpacked y, y ++ scratch.drop m, .ok ())

theorem preLoop_eq (bin : Cx T → Cx T → Cx T → Cx T) (X sc : List (Cx T)) (m : Nat) (hm : 0 < m)
    (hX : X.length = m + 1) (hs : m ≤ sc.length) :
    (do
      let i0 ← rd X 0
      let im ← rd X m
      let scratch ← wr sc 0 ⟨(i0.re +. im.re) *. Flt.lit 5 1, (i0.re -. im.re) *. Flt.lit 5 1⟩
      forRange 1 m scratch fun k sc => do
        let a ← rd X k
        let c ← rd X (m - k)
        let w ← rd (tab m (rtw m)) k
        wr sc k (bin w a c)) = .ok (irfftPre bin m X ++ sc.drop m) := by
  rw [rd_getD Cx.zero (by omega), Outcome.bind_ok, rd_getD Cx.zero (by omega), Outcome.bind_ok]
  conv_lhs => rw [eq_tab_getD sc Cx.zero]
  rw [wr_tab (by omega), Outcome.bind_ok,
    fill_tab (v := fun k => bin (rtw m k) (X.getD k Cx.zero) (X.getD (m - k) Cx.zero)) hm]
  · congr 1
    conv_rhs => rw [eq_tab_getD sc Cx.zero]
    unfold irfftPre
    rw [tab_drop, tab_append, show m + (sc.length - m) = sc.length by omega]
    apply tab_congr
    intro k hk
    by_cases h0 : k = 0
    · subst h0; rw [if_neg (by omega), if_pos rfl, if_pos hm, if_pos rfl]
    · by_cases h1 : k < m
      · rw [if_pos (by omega), if_pos h1, if_neg h0]
      · rw [if_neg (by omega), if_neg h0, if_neg h1, show m + (k - m) = k by omega]
  · intro i s h1 h2 hs
    rw [rd_getD Cx.zero (by omega), Outcome.bind_ok, rd_getD Cx.zero (by omega), Outcome.bind_ok,
      rd_tab h2, Outcome.bind_ok, wr_ok (by omega)]

theorem irfftPre_length (bin : Cx T → Cx T → Cx T → Cx T) (m : Nat) (X : List (Cx T)) :
    (irfftPre bin m X).length = m := by simp [irfftPre]

theorem irfftDirect_eq {S : Type} (bin : Cx T → Cx T → Cx T → Cx T) (op : StOp S T) (s : S) (hop : OpLen op s)
    (input : List (Cx T)) (output : List T) (scratch : List (Cx T)) (m : Nat) (hm : 0 < m)
    (hn : output.length = 2 * m) (hin : input.length = m + 1) (hs : m ≤ scratch.length) :
    irfftDirect bin op s input output scratch (tab m (rtw m)) =
      op s (irfftPre bin m input) >>= irfftFin m output scratch := by
  unfold irfftDirect
  simp only [show ¬ output.length = 0 by omega, if_false, show ¬ output.length % 2 ≠ 0 by omega,
    show output.length / 2 = m by omega, hin, ne_eq, not_true, false_or, show ¬ scratch.length < m by omega]
  have := preLoop_eq bin input scratch m hm hin hs
  simp only [← bind_assoc] at this ⊢
  rw [this, Outcome.bind_ok]
  have hl := irfftPre_length bin m input
  rw [show (irfftPre bin m input ++ scratch.drop m).take m = irfftPre bin m input from
      List.take_left' hl,
    show (irfftPre bin m input ++ scratch.drop m).drop m = scratch.drop m from
      List.drop_left' hl]
  cases ho : op s (irfftPre bin m input) with
  | panic => rfl
  | hang => rfl
  | ok v =>
    obtain ⟨s', y, r⟩ := v
    have hy : y.length = m := by rw [hop _ _ _ _ ho, hl]
    simp only [Outcome.bind_ok]
    cases r with
    | error e => rfl
    | ok u =>
      simp only [irfftFin]
      rw [unpackReal_eq _ m output (by simp; omega) hn, Outcome.bind_ok, ← hy, List.take_left']
      rfl

/-! ### The planner -/

/-- All cached tables are the freshly computed ones. -/
def RInv (rp : RfftPlanner T) : Prop :=
  (∀ m t, rp.cache m = some t → t = tab m (rtw m)) ∧
  (∀ m t, rp.packCache m = some t → t = tab m (rtw m))

theorem cacheGet_ok (c : Nat → Option (List (Cx T))) (h : ∀ m t, c m = some t → t = tab m (rtw m)) (m : Nat) :
    ∃ c', cacheGet c m = .ok (c', tab m (rtw m)) ∧ ∀ m t, c' m = some t → t = tab m (rtw m) := by
  unfold cacheGet
  cases hc : c m with
  | some t => exact ⟨c, by rw [h m t hc], h⟩
  | none =>
    refine ⟨mapInsert c m (tab m (rtw m)), by simp [rfftTable_eq], ?_⟩
    intro k t
    unfold mapInsert
    by_cases hk : k = m
    · subst hk; simp only [if_true, Option.some.injEq]; exact fun e => e.symm
    · simp only [hk, if_false]; exact h k t

theorem getTwiddles_ok (rp : RfftPlanner T) (h : RInv rp) (m : Nat) :
    ∃ rp', rp.getTwiddles m = .ok (rp', tab m (rtw m)) ∧ RInv rp' ∧ rp'.scratch = rp.scratch := by
  obtain ⟨c, e, hc⟩ := cacheGet_ok rp.cache h.1 m
  exact ⟨{ rp with cache := c }, by simp [RfftPlanner.getTwiddles, e], ⟨hc, h.2⟩, rfl⟩

theorem getPackTwiddles_ok (rp : RfftPlanner T) (h : RInv rp) (m : Nat) :
    ∃ rp', rp.getPackTwiddles m = .ok (rp', tab m (rtw m)) ∧ RInv rp' ∧ rp'.scratch = rp.scratch := by
  obtain ⟨c, e, hc⟩ := cacheGet_ok rp.packCache h.2 m
  exact ⟨{ rp with packCache := c }, by simp [RfftPlanner.getPackTwiddles, e], ⟨h.1, hc⟩, rfl⟩

theorem rnew_ok : ∃ rp : RfftPlanner T, RfftPlanner.new = .ok rp ∧ RInv rp := by
  have step : ∀ (l : List Nat) (rp : RfftPlanner T), RInv rp → ∃ rp' : RfftPlanner T,
      l.foldlM (fun (rp : RfftPlanner T) m => do
        let (rp, _) ← rp.getTwiddles m
        let (rp, _) ← rp.getPackTwiddles m
        pure rp) rp = .ok rp' ∧ RInv rp' := by
    intro l
    induction l with
    | nil => intro rp h; exact ⟨rp, rfl, h⟩
    | cons m l ih =>
      intro rp h
      obtain ⟨r1, e1, h1, -⟩ := getTwiddles_ok rp h m
      obtain ⟨r2, e2, h2, -⟩ := getPackTwiddles_ok r1 h1 m
      obtain ⟨r3, e3, h3⟩ := ih r2 h2
      refine ⟨r3, ?_, h3⟩
      rw [List.foldlM_cons, e1, Outcome.bind_ok]
      simp only [e2, Outcome.bind_ok, Outcome.pure_eq]
      exact e3
  exact step _ _ ⟨fun _ _ h => by simp at h, fun _ _ h => by simp at h⟩

/-- What `rfft` does, given what the inner transform does. -/
def rfftVal {S : Type} (bin : Cx T → Cx T → Cx T → Cx T) (op : StOp S T) (s : S) (input : List T)
    (output : List (Cx T)) : Outcome (S × List (Cx T) × Res) :=
  let n := input.length
  if n = 0 then .ok (s, output, .error .EmptyInput)
  else if n % 2 ≠ 0 then .ok (s, output, .error .InvalidValue)
  else if output.length ≠ n / 2 + 1 then .ok (s, output, .error .MismatchedLengths)
  else op s (packed input) >>= fun v => match v with
    | (s', y, .error e) => .ok (s', y ++ output.drop (n / 2), .error e)
    | (s', y, .ok _) => .ok (s', rfftPost bin y, .ok ())

/-- What `irfft` does, given what the inner transform does. -/
def irfftVal {S : Type} (bin : Cx T → Cx T → Cx T → Cx T) (op : StOp S T) (s : S) (input : List (Cx T))
    (output : List T) : Outcome (S × List T × Res) :=
  let n := output.length
  if n = 0 then .ok (s, output, .error .EmptyInput)
  else if n % 2 ≠ 0 then .ok (s, output, .error .InvalidValue)
  else if input.length ≠ n / 2 + 1 then .ok (s, output, .error .MismatchedLengths)
  else op s (irfftPre bin (n / 2) input) >>= fun v => match v with
    | (s', _, .error e) => .ok (s', output, .error e)
    | (s', y, .ok _) => .ok (s', unpacked y, .ok ())

/-- Forget the scratch buffer. -/
def dropScratch {S A B : Type} (v : S × A × B × Res) : S × A × Res := (v.1, v.2.1, v.2.2.2)

theorem rfftDirect_val {S : Type} (bin : Cx T → Cx T → Cx T → Cx T) (op : StOp S T) (s : S) (hop : OpLen op s)
    (input : List T) (output scratch : List (Cx T)) (hs : input.length / 2 ≤ scratch.length) :
    (rfftDirect bin op s input output scratch (tab (input.length / 2) (rtw (input.length / 2))) >>=
      fun v => .ok (dropScratch v)) = rfftVal bin op s input output := by
  unfold rfftVal
  by_cases h0 : input.length = 0
  · unfold rfftDirect; simp only [h0, if_true]; rfl
  by_cases h1 : input.length % 2 ≠ 0
  · unfold rfftDirect; simp only [h0, h1, if_false, if_true, ne_eq, not_false_eq_true]; rfl
  by_cases h2 : output.length ≠ input.length / 2 + 1
  · unfold rfftDirect; simp only [h0, h1, h2, if_false, if_true, true_or, ne_eq, not_false_eq_true]; rfl
  simp only [h0, h1, h2, if_false]
  rw [rfftDirect_eq bin op s hop input output scratch (input.length / 2) (by omega) (by omega) (by omega) hs,
    bind_assoc]
  congr 1
  funext v
  obtain ⟨s', y, r⟩ := v
  cases r <;> rfl

theorem irfftDirect_val {S : Type} (bin : Cx T → Cx T → Cx T → Cx T) (op : StOp S T) (s : S) (hop : OpLen op s)
    (input : List (Cx T)) (output : List T) (scratch : List (Cx T)) (hs : output.length / 2 ≤ scratch.length) :
    (irfftDirect bin op s input output scratch (tab (output.length / 2) (rtw (output.length / 2))) >>=
      fun v => .ok (dropScratch v)) = irfftVal bin op s input output := by
  unfold irfftVal
  by_cases h0 : output.length = 0
  · unfold irfftDirect; simp only [h0, if_true]; rfl
  by_cases h1 : output.length % 2 ≠ 0
  · unfold irfftDirect; simp only [h0, h1, if_false, if_true, ne_eq, not_false_eq_true]; rfl
  by_cases h2 : input.length ≠ output.length / 2 + 1
  · unfold irfftDirect; simp only [h0, h1, h2, if_false, if_true, true_or, ne_eq, not_false_eq_true]; rfl
  simp only [h0, h1, h2, if_false]
  rw [irfftDirect_eq bin op s hop input output scratch (output.length / 2) (by omega) (by omega) (by omega) hs,
    bind_assoc]
  congr 1
  funext v
  obtain ⟨s', y, r⟩ := v
  cases r <;> rfl

/-- Forget planner and scratch. -/
def dropPS {P S A B : Type} (v : P × S × A × B × Res) : S × A × Res := (v.2.1, v.2.2.1, v.2.2.2.2)

theorem plannerRfftWS_eq {S : Type} (simd : Bool) (rp : RfftPlanner T) (hrp : RInv rp) (op : StOp S T) (s : S)
    (input : List T) (output scratch : List (Cx T)) :
    ∃ rp', RInv rp' ∧ rp'.scratch = rp.scratch ∧ rp.rfftWithScratch simd op s input output scratch =
      rfftDirect (rBinOf simd) op s input output scratch (tab (input.length / 2) (rtw (input.length / 2))) >>=
        fun v => .ok (rp', v) := by
  obtain ⟨r1, e1, h1, k1⟩ := getTwiddles_ok rp hrp (input.length / 2)
  obtain ⟨r2, e2, h2, k2⟩ := getPackTwiddles_ok r1 h1 (input.length / 2)
  refine ⟨r2, h2, k2.trans k1, ?_⟩
  unfold RfftPlanner.rfftWithScratch
  simp only [e1, e2, Outcome.bind_ok, Outcome.pure_eq]

theorem plannerIrfftWS_eq {S : Type} (simd : Bool) (rp : RfftPlanner T) (hrp : RInv rp) (op : StOp S T) (s : S)
    (input : List (Cx T)) (output : List T) (scratch : List (Cx T)) :
    ∃ rp', RInv rp' ∧ rp'.scratch = rp.scratch ∧ rp.irfftWithScratch simd op s input output scratch =
      irfftDirect (irBinOf simd) op s input output scratch (tab (output.length / 2) (rtw (output.length / 2))) >>=
        fun v => .ok (rp', v) := by
  obtain ⟨r1, e1, h1, k1⟩ := getTwiddles_ok rp hrp (output.length / 2)
  obtain ⟨r2, e2, h2, k2⟩ := getPackTwiddles_ok r1 h1 (output.length / 2)
  refine ⟨r2, h2, k2.trans k1, ?_⟩
  unfold RfftPlanner.irfftWithScratch
  simp only [e1, e2, Outcome.bind_ok, Outcome.pure_eq]

theorem plannerRfftWS_val {S : Type} (simd : Bool) (rp : RfftPlanner T) (hrp : RInv rp) (op : StOp S T)
    (s : S) (hop : OpLen op s) (input : List T) (output scratch : List (Cx T))
    (hs : input.length / 2 ≤ scratch.length) :
    (rp.rfftWithScratch simd op s input output scratch >>= fun v => .ok (dropPS v)) =
      rfftVal (rBinOf simd) op s input output := by
  obtain ⟨rp', -, -, e⟩ := plannerRfftWS_eq simd rp hrp op s input output scratch
  rw [e, bind_assoc, ← rfftDirect_val (rBinOf simd) op s hop input output scratch hs]
  rfl

theorem plannerIrfftWS_val {S : Type} (simd : Bool) (rp : RfftPlanner T) (hrp : RInv rp) (op : StOp S T)
    (s : S) (hop : OpLen op s) (input : List (Cx T)) (output : List T) (scratch : List (Cx T))
    (hs : output.length / 2 ≤ scratch.length) :
    (rp.irfftWithScratch simd op s input output scratch >>= fun v => .ok (dropPS v)) =
      irfftVal (irBinOf simd) op s input output := by
  obtain ⟨rp', -, -, e⟩ := plannerIrfftWS_eq simd rp hrp op s input output scratch
  rw [e, bind_assoc, ← irfftDirect_val (irBinOf simd) op s hop input output scratch hs]
  rfl

theorem grow_take_length (l : List (Cx T)) (n : Nat) (z : Cx T) : ((grow l n z).take n).length = n := by
  rw [List.length_take, grow_length]; omega

theorem plannerRfft_val {S : Type} (simd : Bool) (rp : RfftPlanner T) (hrp : RInv rp) (op : StOp S T)
    (s : S) (hop : OpLen op s) (input : List T) (output : List (Cx T)) :
    (rp.rfft simd op s input output >>= fun v => .ok v.2) = rfftVal (rBinOf simd) op s input output := by
  have h := plannerRfftWS_val simd { rp with scratch := [] } hrp op s hop input output
    ((grow rp.scratch (input.length / 2) Cx.zero).take (input.length / 2)) (by rw [grow_take_length])
  rw [← h]
  unfold RfftPlanner.rfft
  simp only [bind_assoc]
  rfl

theorem plannerIrfft_val {S : Type} (simd : Bool) (rp : RfftPlanner T) (hrp : RInv rp) (op : StOp S T)
    (s : S) (hop : OpLen op s) (input : List (Cx T)) (output : List T) :
    (rp.irfft simd op s input output >>= fun v => .ok v.2) = irfftVal (irBinOf simd) op s input output := by
  have h := plannerIrfftWS_val simd { rp with scratch := [] } hrp op s hop input output
    ((grow rp.scratch (output.length / 2) Cx.zero).take (output.length / 2)) (by rw [grow_take_length])
  rw [← h]
  unfold RfftPlanner.irfft
  simp only [bind_assoc]
  rfl

theorem rfftWS_val {S : Type} (simd : Bool) (op : StOp S T) (s : S) (hop : OpLen op s)
    (input : List T) (output scratch : List (Cx T)) (hs : input.length / 2 ≤ scratch.length) :
    (rfftWithScratch simd op s input output scratch >>= fun v => .ok (dropScratch v)) =
      rfftVal (rBinOf simd) op s input output := by
  obtain ⟨rp, e, h⟩ := rnew_ok (T := T)
  rw [← plannerRfftWS_val simd rp h op s hop input output scratch hs]
  unfold rfftWithScratch
  rw [e, Outcome.bind_ok, bind_assoc]
  rfl

theorem irfftWS_val {S : Type} (simd : Bool) (op : StOp S T) (s : S) (hop : OpLen op s)
    (input : List (Cx T)) (output : List T) (scratch : List (Cx T)) (hs : output.length / 2 ≤ scratch.length) :
    (irfftWithScratch simd op s input output scratch >>= fun v => .ok (dropScratch v)) =
      irfftVal (irBinOf simd) op s input output := by
  obtain ⟨rp, e, h⟩ := rnew_ok (T := T)
  rw [← plannerIrfftWS_val simd rp h op s hop input output scratch hs]
  unfold irfftWithScratch
  rw [e, Outcome.bind_ok, bind_assoc]
  rfl

theorem rfft_val {S : Type} (simd : Bool) (op : StOp S T) (un : Nat → Cx T) (s : S) (hop : OpLen op s)
    (input : List T) (output : List (Cx T)) :
    rfft simd op un s input output = rfftVal (rBinOf simd) op s input output := by
  rw [← rfftWS_val simd op s hop input output ((List.range (input.length / 2)).map un) (by simp)]
  rfl

theorem irfft_val {S : Type} (simd : Bool) (op : StOp S T) (un : Nat → Cx T) (s : S) (hop : OpLen op s)
    (input : List (Cx T)) (output : List T) :
    irfft simd op un s input output = irfftVal (irBinOf simd) op s input output := by
  rw [← irfftWS_val simd op s hop input output ((List.range (output.length / 2)).map un) (by simp)]
  rfl

theorem rfftPacked_val {S : Type} (rp : RfftPlanner T) (hrp : RInv rp) (op : StOp S T) (s : S) (hop : OpLen op s)
    (input : List T) (output scratch : List (Cx T)) (hs : input.length / 2 ≤ scratch.length) :
    (rfftPacked rp op s input output scratch >>= fun v => .ok (dropPS v)) =
      (rfftVal rBin op s input output >>= fun v => .ok (v.1, match v.2.2 with
        | .error _ => (output, v.2.2) | .ok _ => v.2)) := by
  unfold rfftVal rfftPacked
  by_cases h0 : input.length = 0
  · simp only [h0, if_true]; rfl
  by_cases h1 : input.length % 2 ≠ 0
  · simp only [h0, h1, if_false, if_true, ne_eq, not_false_eq_true]; rfl
  by_cases h2 : output.length ≠ input.length / 2 + 1
  · simp only [h0, h1, h2, if_false, if_true, true_or, ne_eq, not_false_eq_true]; rfl
  simp only [h0, h1, h2, if_false, false_or, show ¬ scratch.length < input.length / 2 by omega]
  obtain ⟨m, hm⟩ : ∃ m, input.length / 2 = m := ⟨_, rfl⟩
  rw [hm, packReal_eq input m scratch (by omega) (by omega), Outcome.bind_ok, take_tab_if (by omega),
    drop_tab_if (by omega)]
  have e1 : (tab m fun k => (⟨input.getD (2 * k) Flt.zero, input.getD (2 * k + 1) Flt.zero⟩ : Cx T)) =
      packed input := by unfold packed; rw [hm]
  rw [e1]
  cases ho : op s (packed input) with
  | panic => rfl
  | hang => rfl
  | ok v =>
    obtain ⟨s', y, r⟩ := v
    have hy : y.length = m := by
      rw [hop _ _ _ _ ho]; unfold packed; rw [tab_length]; omega
    simp only [Outcome.bind_ok]
    cases r with
    | error e => rfl
    | ok u =>
      have := postLoop_eq rBin y output (scratch.drop m) m (by omega) hy (by omega)
      obtain ⟨rp', e, -, -⟩ := getTwiddles_ok rp hrp m
      simp only [e, Outcome.bind_ok]
      simp only [← bind_assoc] at this ⊢
      rw [this, Outcome.bind_ok]
      rfl

theorem irfftPacked_val {S : Type} (rp : RfftPlanner T) (hrp : RInv rp) (op : StOp S T) (s : S) (hop : OpLen op s)
    (input : List (Cx T)) (output : List T) (scratch : List (Cx T)) (hs : output.length / 2 ≤ scratch.length) :
    (irfftPacked rp op s input output scratch >>= fun v => .ok (dropPS v)) =
      irfftVal irBin op s input output := by
  rw [← irfftDirect_val irBin op s hop input output scratch hs]
  unfold irfftPacked irfftDirect
  by_cases h0 : output.length = 0
  · simp only [h0, if_true]; rfl
  by_cases h1 : output.length % 2 ≠ 0
  · simp only [h0, h1, if_false, if_true, ne_eq, not_false_eq_true]; rfl
  by_cases h2 : input.length ≠ output.length / 2 + 1
  · simp only [h0, h1, h2, if_false, if_true, true_or, ne_eq, not_false_eq_true]; rfl
  simp only [h0, h1, h2, if_false, false_or, show ¬ scratch.length < output.length / 2 by omega]
  obtain ⟨m, hm⟩ : ∃ m, output.length / 2 = m := ⟨_, rfl⟩
  rw [hm]
  obtain ⟨rp', e, -, -⟩ := getTwiddles_ok rp hrp m
  simp only [e, Outcome.bind_ok]
  have := preLoop_eq irBin input scratch m (by omega) (by omega) (by omega)
  simp only [← bind_assoc] at this ⊢
  rw [this]
  simp only [Outcome.bind_ok]
  cases op s ((irfftPre irBin m input ++ scratch.drop m).take m) with
  | panic => rfl
  | hang => rfl
  | ok v =>
    obtain ⟨s', y, r⟩ := v
    cases r with
    | error e => rfl
    | ok u =>
      simp only [Outcome.bind_ok]
      cases unpackReal (y ++ List.drop m (irfftPre irBin m input ++ List.drop m scratch)) m output <;> rfl

/-! ### Reachable planners -/

theorem ok_of_bind {α β : Type} {x : Outcome α} {f : α → Outcome β} {b : β} (h : x >>= f = .ok b) :
    ∃ a, x = .ok a ∧ f a = .ok b := by
  cases x with
  | ok a => exact ⟨a, rfl, h⟩
  | panic => simp at h
  | hang => simp at h

theorem rreach_inv {simd : Bool} {rp : RfftPlanner T} (h : RReach simd rp) : RInv rp := by
  induction h with
  | new e =>
    obtain ⟨rp', e', h'⟩ := rnew_ok (T := T)
    rw [e] at e'; cases e'; exact h'
  | getTwiddles _ e ih =>
    obtain ⟨rp', e', h', -⟩ := getTwiddles_ok _ ih _
    rw [e] at e'; cases e'; exact h'
  | getPackTwiddles _ e ih =>
    obtain ⟨rp', e', h', -⟩ := getPackTwiddles_ok _ ih _
    rw [e] at e'; cases e'; exact h'
  | @rfft rp rp' S op s input output v _ e ih =>
    unfold RfftPlanner.rfft at e
    dsimp only at e
    obtain ⟨r2, h2, -, e2⟩ := plannerRfftWS_eq simd { rp with scratch := [] } ih op s input output
      ((grow rp.scratch (input.length / 2) Cx.zero).take (input.length / 2))
    rw [e2] at e
    obtain ⟨a, ea, e⟩ := ok_of_bind e
    obtain ⟨b, eb, ea⟩ := ok_of_bind ea
    cases ea; cases e
    exact h2
  | @irfft rp rp' S op s input output v _ e ih =>
    unfold RfftPlanner.irfft at e
    dsimp only at e
    obtain ⟨r2, h2, -, e2⟩ := plannerIrfftWS_eq simd { rp with scratch := [] } ih op s input output
      ((grow rp.scratch (output.length / 2) Cx.zero).take (output.length / 2))
    rw [e2] at e
    obtain ⟨a, ea, e⟩ := ok_of_bind e
    obtain ⟨b, eb, ea⟩ := ok_of_bind ea
    cases ea; cases e
    exact h2
  | @rfftWithScratch rp rp' S op s input output sc v _ e ih =>
    obtain ⟨r2, h2, -, e2⟩ := plannerRfftWS_eq simd rp ih op s input output sc
    rw [e2] at e
    obtain ⟨a, ea, e⟩ := ok_of_bind e
    cases e
    exact h2
  | @irfftWithScratch rp rp' S op s input output sc v _ e ih =>
    obtain ⟨r2, h2, -, e2⟩ := plannerIrfftWS_eq simd rp ih op s input output sc
    rw [e2] at e
    obtain ⟨a, ea, e⟩ := ok_of_bind e
    cases e
    exact h2
  | @rfftPacked rp rp' S op s input output sc v _ e ih =>
    unfold Kofft.rfftPacked at e
    dsimp only at e
    split_ifs at e
    · cases e; exact ih
    · cases e; exact ih
    · cases e; exact ih
    · obtain ⟨a, -, e⟩ := ok_of_bind e
      obtain ⟨⟨s', y, r⟩, -, e⟩ := ok_of_bind e
      cases r with
      | error => cases e; exact ih
      | ok =>
        obtain ⟨_, -, e⟩ := ok_of_bind e
        obtain ⟨_, -, e⟩ := ok_of_bind e
        obtain ⟨_, -, e⟩ := ok_of_bind e
        obtain ⟨r2, e2, h2, -⟩ := getTwiddles_ok rp ih (input.length / 2)
        rw [e2] at e
        simp only [Outcome.bind_ok] at e
        obtain ⟨_, -, e⟩ := ok_of_bind e
        cases e; exact h2
  | @irfftPacked rp rp' S op s input output sc v _ e ih =>
    unfold Kofft.irfftPacked at e
    dsimp only at e
    split_ifs at e
    · cases e; exact ih
    · cases e; exact ih
    · cases e; exact ih
    · obtain ⟨_, -, e⟩ := ok_of_bind e
      obtain ⟨_, -, e⟩ := ok_of_bind e
      obtain ⟨_, -, e⟩ := ok_of_bind e
      obtain ⟨r2, e2, h2, -⟩ := getTwiddles_ok rp ih (output.length / 2)
      rw [e2] at e
      simp only [Outcome.bind_ok] at e
      obtain ⟨_, -, e⟩ := ok_of_bind e
      obtain ⟨⟨s', y, r⟩, -, e⟩ := ok_of_bind e
      cases r with
      | error => cases e; exact h2
      | ok =>
        obtain ⟨_, -, e⟩ := ok_of_bind e
        cases e; exact h2

end Kofft
