import Verif.Proof.Stft
/-
The streaming inverse short-time transform: one push and one flush in closed form, and the invariant
that relates them to the batch overlap-add.
-/
namespace Kofft
open Spec

variable {T : Type} [Flt T]

omit [Flt T] in
/-- A loop that updates two buffers at position `off + i`, each from their values there. -/
theorem fill2_tab {n lo hi off : Nat} {f g : Nat → T} (v u : Nat → T)
    {body : Nat → List T × List T → Outcome (List T × List T)} (hle : lo ≤ hi)
    (hb : ∀ i (F G : Nat → T), lo ≤ i → i < hi → F (off + i) = f (off + i) → G (off + i) = g (off + i) →
      body i (tab n F, tab n G) = .ok (tab n (fun k => if k = off + i then v k else F k),
        tab n (fun k => if k = off + i then u k else G k))) :
    forRange lo hi (tab n f, tab n g) body =
      .ok (tab n (fun k => if off + lo ≤ k ∧ k < off + hi then v k else f k),
        tab n (fun k => if off + lo ≤ k ∧ k < off + hi then u k else g k)) := by
  rw [forRange_eq (fun j => (tab n (fun k => if off + lo ≤ k ∧ k < off + j then v k else f k),
        tab n (fun k => if off + lo ≤ k ∧ k < off + j then u k else g k))) hle]
  · congr 1 <;> apply tab_congr <;> intro p _ <;> rw [if_neg (by omega)]
  · intro i h1 h2
    rw [hb i _ _ h1 h2 (by rw [if_neg (by omega)]) (by rw [if_neg (by omega)])]
    have key : ∀ (a b : Nat → T) p, (if p = off + i then a p else if off + lo ≤ p ∧ p < off + i then a p else b p) =
        if off + lo ≤ p ∧ p < off + (i + 1) then a p else b p := by
      intro a b p
      by_cases hp : p = off + i
      · rw [if_pos hp, if_pos (by omega)]
      · rw [if_neg hp]
        by_cases h : off + lo ≤ p ∧ p < off + i
        · rw [if_pos h, if_pos (by omega)]
        · rw [if_neg h, if_neg (by omega)]
    congr 2 <;> apply tab_congr <;> intro p _ <;> exact key _ _ p

theorem emit_eq {n lo hi : Nat} (f g : Nat → T) (hle : lo ≤ hi) (hn : hi ≤ n) :
    emit lo hi (tab n f) (tab n g) =
      .ok (tab n (fun k => if lo ≤ k ∧ k < hi then divNorm (f k) (g k) else f k),
        tab n (fun k => if lo ≤ k ∧ k < hi then Flt.zero else g k)) := by
  unfold emit
  have := fill2_tab (n := n) (lo := lo) (hi := hi) (off := 0) (f := f) (g := g)
    (fun k => divNorm (f k) (g k)) (fun _ => Flt.zero)
    (body := fun i st => do
      let v ← rd st.2 i
      let a ← rd st.1 i
      let b ← wr st.1 i (normSample a v)
      let n ← wr st.2 i Flt.zero
      pure (b, n)) hle ?_
  · rw [this]; simp only [Nat.zero_add]
  · intro i F G h1 h2 hF hG
    simp only [Nat.zero_add] at hF hG ⊢
    rw [rd_tab (by omega), Outcome.bind_ok, rd_tab (by omega), Outcome.bind_ok, wr_tab (by omega), Outcome.bind_ok,
      wr_tab (by omega), Outcome.bind_ok, hF, hG]
    simp only [Outcome.pure_eq]
    congr 2
    apply tab_congr
    intro p _
    by_cases hp : p = i
    · subst hp; rw [if_pos rfl, if_pos rfl]; rfl
    · rw [if_neg hp, if_neg hp]

/-- Emission past the end of the buffer panics. -/
theorem emit_panic {n lo hi : Nat} (f g : Nat → T) (hle : lo ≤ n) (hn : n < hi) :
    emit lo hi (tab n f) (tab n g) = .panic := by
  have e := emit_eq (n := n) f g hle le_rfl
  unfold emit at e ⊢
  have hsplit : ∀ (c i : Nat) (s : List T × List T) (body : Nat → List T × List T → Outcome (List T × List T)),
      lo + c + 1 = i → forRange lo i s body = forRange lo (lo + c) s body >>= fun s' => body (lo + c) s' := by
    intro c i s body hi'
    rw [← hi']
    exact forRange_succ_last (by omega)
  have hmore : ∀ (c : Nat), forRange lo (n + 1 + c) (tab n f, tab n g) (fun i (st : List T × List T) => do
      let v ← rd st.2 i
      let a ← rd st.1 i
      let b ← wr st.1 i (normSample a v)
      let n ← wr st.2 i Flt.zero
      pure (b, n)) = .panic := by
    intro c
    induction c with
    | zero =>
      rw [Nat.add_zero, forRange_succ_last hle, e, Outcome.bind_ok]
      simp [rd]
    | succ c ih =>
      rw [show n + 1 + (c + 1) = n + 1 + c + 1 by omega, forRange_succ_last (by omega), ih]
      rfl
  obtain ⟨c, rfl⟩ : ∃ c, hi = n + 1 + c := ⟨hi - (n + 1), by omega⟩
  exact hmore c

omit [Flt T] in
theorem resize_tab (n m : Nat) (f : Nat → T) (z : T) (h : n ≤ m) :
    resize (tab n f) m z = tab m (fun k => if k < n then f k else z) := by
  unfold resize
  rw [tab_take, replicate_eq_tab, tab_append, tab_length, Nat.min_eq_right h, show n + (m - n) = m by omega]

/-- The overlap-add part of a push. -/
def pushAdd (w : List T) (y : List (Cx T)) (pos win : Nat) (B : Nat → T) (p : Nat) : T :=
  if pos ≤ p ∧ p < pos + win then B p +. ((y.getD (p - pos) Cx.zero).re *. w.getD (p - pos) Flt.zero) else B p

def pushNorm (w : List T) (pos win : Nat) (N : Nat → T) (p : Nat) : T :=
  if pos ≤ p ∧ p < pos + win then N p +. (w.getD (p - pos) Flt.zero *. w.getD (p - pos) Flt.zero) else N p

theorem push_add (w : List T) (y : List (Cx T)) (pos win L : Nat) (B N : Nat → T) (hw : win ≤ w.length)
    (hy : win ≤ y.length) (hL : pos + win ≤ L) :
    (forRange 0 win (tab L B, tab L N) fun i bn => do
        let wi ← rd w i
        let c ← rd y i
        let a ← rd bn.1 (pos + i)
        let b ← wr bn.1 (pos + i) (a +. (c.re *. wi))
        let v ← rd bn.2 (pos + i)
        let n ← wr bn.2 (pos + i) (v +. (wi *. wi))
        pure (b, n)) = .ok (tab L (pushAdd w y pos win B), tab L (pushNorm w pos win N)) := by
  have := fill2_tab (n := L) (lo := 0) (hi := win) (off := pos) (f := B) (g := N)
    (fun p => B p +. ((y.getD (p - pos) Cx.zero).re *. w.getD (p - pos) Flt.zero))
    (fun p => N p +. (w.getD (p - pos) Flt.zero *. w.getD (p - pos) Flt.zero))
    (body := fun i bn => do
        let wi ← rd w i
        let c ← rd y i
        let a ← rd bn.1 (pos + i)
        let b ← wr bn.1 (pos + i) (a +. (c.re *. wi))
        let v ← rd bn.2 (pos + i)
        let n ← wr bn.2 (pos + i) (v +. (wi *. wi))
        pure (b, n)) (Nat.zero_le _) ?_
  · rw [this]; simp only [Nat.add_zero]; rfl
  · intro i F G _ h2 hF hG
    rw [rd_getD Flt.zero (by omega), Outcome.bind_ok, rd_getD Cx.zero (by omega), Outcome.bind_ok,
      rd_tab (by omega), Outcome.bind_ok, wr_tab (by omega), Outcome.bind_ok, rd_tab (by omega), Outcome.bind_ok,
      wr_tab (by omega), Outcome.bind_ok, hF, hG]
    simp only [Outcome.pure_eq]
    congr 2 <;> apply tab_congr <;> intro p _ <;> by_cases hp : p = pos + i
    · subst hp; rw [if_pos rfl, if_pos rfl, show pos + i - pos = i by omega]
    · rw [if_neg hp, if_neg hp]
    · subst hp; rw [if_pos rfl, if_pos rfl, show pos + i - pos = i by omega]
    · rw [if_neg hp, if_neg hp]

/-- The buffer after a push, at position `p`: normalised where just emitted, zero in the fresh region. -/
def pushBuf (w : List T) (y : List (Cx T)) (pos out win hop L : Nat) (B N : Nat → T) (p : Nat) : T :=
  if pos + win ≤ p ∧ p < pos + win + hop then Flt.zero
  else if p < L then
    (if out ≤ p ∧ p < out + hop then divNorm (pushAdd w y pos win B p) (pushNorm w pos win N p)
      else pushAdd w y pos win B p)
  else Flt.zero

def pushNrm (w : List T) (pos out win hop L : Nat) (N : Nat → T) (p : Nat) : T :=
  if pos + win ≤ p ∧ p < pos + win + hop then Flt.zero
  else if p < L then (if out ≤ p ∧ p < out + hop then Flt.zero else pushNorm w pos win N p)
  else Flt.zero

theorem push_eq {S : Type} (iop : StOp S T) (st : IstftStream T) (s s' : S) (frame y : List (Cx T)) (L : Nat)
    (B N : Nat → T) (hB : st.buffer = tab L B) (hN : st.norm = tab L N) (hf : frame.length = st.winLen)
    (hy : y.length = st.winLen) (hw : st.winLen ≤ st.window.length) (hi : iop s frame = .ok (s', y, .ok ()))
    (h1 : st.bufPos + st.winLen ≤ L) (h2 : st.outPos + st.hop ≤ L) :
    st.push iop s frame = .ok
      ({ st with
          timeBuf := y
          buffer := tab (max L (st.bufPos + st.hop + st.winLen))
            (pushBuf st.window y st.bufPos st.outPos st.winLen st.hop L B N)
          norm := tab (max L (st.bufPos + st.hop + st.winLen))
            (pushNrm st.window st.bufPos st.outPos st.winLen st.hop L N)
          bufPos := st.bufPos + st.hop
          outPos := st.outPos + st.hop
          frameCount := st.frameCount + 1 }, s',
        .ok (tab st.hop fun i =>
          pushBuf st.window y st.bufPos st.outPos st.winLen st.hop L B N (st.outPos + i))) := by
  unfold IstftStream.push
  rw [if_neg (by omega), hi, Outcome.bind_ok]
  simp only
  rw [hB, hN, push_add _ _ _ _ _ _ _ hw (by omega) h1, Outcome.bind_ok]
  simp only
  rw [emit_eq _ _ (Nat.le_add_right _ _) h2, Outcome.bind_ok]
  simp only [tab_length]
  have hres : ∀ f : Nat → T, (if st.bufPos + st.hop + st.winLen > L then
      resize (tab L f) (st.bufPos + st.hop + st.winLen) Flt.zero else tab L f) =
      tab (max L (st.bufPos + st.hop + st.winLen)) (fun k => if k < L then f k else Flt.zero) := by
    intro f
    by_cases hc : st.bufPos + st.hop + st.winLen > L
    · rw [if_pos hc, resize_tab _ _ _ _ (by omega), Nat.max_eq_right (by omega)]
    · rw [if_neg hc, Nat.max_eq_left (by omega)]
      apply tab_congr
      intro p hp; rw [if_pos hp]
  rw [hres, hres]
  generalize hM : max L (st.bufPos + st.hop + st.winLen) = M
  have := fill2_tab (n := M) (lo := 0) (hi := st.hop) (off := st.bufPos + st.winLen)
    (f := fun k => if k < L then (if st.outPos ≤ k ∧ k < st.outPos + st.hop then
        divNorm (pushAdd st.window y st.bufPos st.winLen B k) (pushNorm st.window st.bufPos st.winLen N k)
        else pushAdd st.window y st.bufPos st.winLen B k) else Flt.zero)
    (g := fun k => if k < L then (if st.outPos ≤ k ∧ k < st.outPos + st.hop then Flt.zero
        else pushNorm st.window st.bufPos st.winLen N k) else Flt.zero)
    (fun _ => Flt.zero) (fun _ => Flt.zero)
    (body := fun i bn => do
        let idx := st.bufPos + st.hop + st.winLen - st.hop + i
        let b ← wr bn.1 idx Flt.zero
        let n ← wr bn.2 idx Flt.zero
        pure (b, n)) (Nat.zero_le _) ?_
  · rw [this, Outcome.bind_ok]
    simp only [tab_length, Nat.add_zero]
    rw [if_pos (by omega), tab_drop, tab_take]
    rw [show st.outPos + st.hop - st.outPos = st.hop by omega, Nat.min_eq_left (by omega)]
    rfl
  · intro i F G _ h2 hF hG
    simp only
    rw [wr_tab (by omega), Outcome.bind_ok, wr_tab (by omega), Outcome.bind_ok,
      show st.bufPos + st.hop + st.winLen - st.hop + i = st.bufPos + st.winLen + i by omega]
    rfl

/-- A push panics when the samples to emit lie past the buffer. -/
theorem push_panic {S : Type} (iop : StOp S T) (st : IstftStream T) (s s' : S) (frame y : List (Cx T)) (L : Nat)
    (B N : Nat → T) (hB : st.buffer = tab L B) (hN : st.norm = tab L N) (hf : frame.length = st.winLen)
    (hy : y.length = st.winLen) (hw : st.winLen ≤ st.window.length) (hi : iop s frame = .ok (s', y, .ok ()))
    (h1 : st.bufPos + st.winLen ≤ L) (h0 : st.outPos ≤ L) (h2 : L < st.outPos + st.hop) :
    st.push iop s frame = .panic := by
  unfold IstftStream.push
  rw [if_neg (by omega), hi, Outcome.bind_ok]
  simp only
  rw [hB, hN, push_add _ _ _ _ _ _ _ hw (by omega) h1, Outcome.bind_ok]
  simp only
  rw [emit_panic _ _ h0 h2]
  rfl

/-! ### The invariant -/

theorem olaK_zero (window : List T) (hop : Nat) (ys : List (List (Cx T))) (init : T) (p : Nat) :
    olaK window hop ys 0 init p = init := rfl

/-- Frames `j ≥ k` do not reach positions below `k * hop`. -/
theorem olaK_done (window : List T) (hop : Nat) (ys : List (List (Cx T))) (init : T) (k F p : Nat)
    (hk : k ≤ F) (hp : p < k * hop) : olaK window hop ys F init p = olaK window hop ys k init p := by
  obtain ⟨d, rfl⟩ := Nat.exists_eq_add_of_le hk
  induction d with
  | zero => rfl
  | succ d ih =>
    rw [← Nat.add_assoc, olaK_succ, olaStep, if_neg, ih (by omega)]
    have : k * hop ≤ (k + d) * hop := Nat.mul_le_mul_right _ (by omega)
    omega

theorem normAt_done (window : List T) (hop : Nat) (k F p : Nat)
    (hk : k ≤ F) (hp : p < k * hop) : normAt window hop F p = normAt window hop k p := by
  obtain ⟨d, rfl⟩ := Nat.exists_eq_add_of_le hk
  induction d with
  | zero => rfl
  | succ d ih =>
    rw [← Nat.add_assoc, normAt_succ, if_neg, ih (by omega)]
    have : k * hop ≤ (k + d) * hop := Nat.mul_le_mul_right _ (by omega)
    omega

/-- The first `k` frames do not reach `(k-1) * hop + win` and beyond. -/
theorem olaK_far (window : List T) (hop : Nat) (ys : List (List (Cx T))) (init : T) (k p : Nat)
    (hp : k * hop + window.length ≤ p + hop) : olaK window hop ys k init p = init := by
  induction k with
  | zero => rfl
  | succ k ih =>
    have : (k + 1) * hop = k * hop + hop := Nat.succ_mul _ _
    rw [olaK_succ, olaStep, if_neg (by omega), ih (by omega)]

theorem normAt_far (window : List T) (hop k p : Nat)
    (hp : k * hop + window.length ≤ p + hop) : normAt window hop k p = Flt.zero := by
  induction k with
  | zero => rfl
  | succ k ih =>
    have : (k + 1) * hop = k * hop + hop := Nat.succ_mul _ _
    rw [normAt_succ, if_neg (by omega), ih (by omega)]

/-- The stream after the first `k` of the time-domain frames `ys`. -/
structure StInv (window : List T) (hop : Nat) (ys : List (List (Cx T))) (k : Nat) (st : IstftStream T) : Prop where
  hwin : st.winLen = window.length
  htake : st.window.take window.length = window
  hhop : st.hop = hop
  hpos : st.bufPos = k * hop
  out : st.outPos = k * hop
  cnt : st.frameCount = k
  len : ∃ L, k * hop + window.length ≤ L ∧
    st.buffer = tab L (fun p => if p < k * hop then
      divNorm (olaK window hop ys k Flt.zero p) (normAt window hop k p) else olaK window hop ys k Flt.zero p) ∧
    st.norm = tab L (fun p => if p < k * hop then Flt.zero else normAt window hop k p)

theorem push_inv {S : Type} (iop : StOp S T) (window : List T) (hop : Nat) (ys : List (List (Cx T))) (k : Nat)
    (st : IstftStream T) (h : StInv window hop ys k st) (hh : hop ≤ window.length) (s s' : S)
    (frame : List (Cx T)) (hf : frame.length = window.length) (hy : (ys.getD k []).length = window.length)
    (hi : iop s frame = .ok (s', ys.getD k [], .ok ())) :
    ∃ st', st.push iop s frame = .ok (st', s', .ok (tab hop fun i =>
        divNorm (olaK window hop ys (k + 1) Flt.zero (k * hop + i)) (normAt window hop (k + 1) (k * hop + i)))) ∧
      StInv window hop ys (k + 1) st' := by
  obtain ⟨hw, ht, hhop, hpos, hout, hcnt, L, hL, hB, hN⟩ := h
  have hwl : window.length ≤ st.window.length := by
    have := congrArg List.length ht
    rw [List.length_take] at this; omega
  have hwg : ∀ i, i < window.length → st.window.getD i Flt.zero = window.getD i Flt.zero := by
    intro i hi
    conv_rhs => rw [← ht]
    simp [List.getD_eq_getElem?_getD, hi]
  have hsk : (k + 1) * hop = k * hop + hop := Nat.succ_mul _ _
  have e := push_eq iop st s s' frame (ys.getD k []) L _ _ hB hN (by omega) (by omega) (by omega) hi (by omega)
    (by omega)
  rw [hhop, hout, hpos, hw] at e
  have hadd : ∀ p, k * hop ≤ p → pushAdd st.window (ys.getD k []) (k * hop) window.length
      (fun p => if p < k * hop then
      divNorm (olaK window hop ys k Flt.zero p) (normAt window hop k p) else olaK window hop ys k Flt.zero p) p =
      olaK window hop ys (k + 1) Flt.zero p := by
    intro p hp
    unfold pushAdd
    rw [olaK_succ, olaStep]
    simp only [show ¬ p < k * hop by omega, if_false]
    by_cases hc : k * hop ≤ p ∧ p < k * hop + window.length
    · rw [if_pos hc, if_pos hc, hwg _ (by omega)]
    · rw [if_neg hc, if_neg hc]
  have hnrm : ∀ p, k * hop ≤ p → pushNorm st.window (k * hop) window.length
      (fun p => if p < k * hop then Flt.zero else normAt window hop k p) p = normAt window hop (k + 1) p := by
    intro p hp
    unfold pushNorm
    rw [normAt_succ]
    simp only [show ¬ p < k * hop by omega, if_false]
    by_cases hc : k * hop ≤ p ∧ p < k * hop + window.length
    · rw [if_pos hc, if_pos hc, hwg _ (by omega)]
    · rw [if_neg hc, if_neg hc]
  have hbuf : ∀ p, pushBuf st.window (ys.getD k []) (k * hop) (k * hop) window.length hop L
      (fun p => if p < k * hop then
      divNorm (olaK window hop ys k Flt.zero p) (normAt window hop k p) else olaK window hop ys k Flt.zero p)
      (fun p => if p < k * hop then Flt.zero else normAt window hop k p) p =
      if p < (k + 1) * hop then divNorm (olaK window hop ys (k + 1) Flt.zero p) (normAt window hop (k + 1) p)
      else olaK window hop ys (k + 1) Flt.zero p := by
    intro p
    unfold pushBuf
    by_cases h1 : k * hop + window.length ≤ p
    · rw [if_neg (show ¬ p < (k + 1) * hop by omega), olaK_far _ _ _ _ _ _ (by omega)]
      by_cases h2 : p < k * hop + window.length + hop
      · rw [if_pos ⟨h1, h2⟩]
      · rw [if_neg (by omega)]
        by_cases h3 : p < L
        · rw [if_pos h3, if_neg (by omega), hadd p (by omega), olaK_far _ _ _ _ _ _ (by omega)]
        · rw [if_neg h3]
    · rw [if_neg (by omega), if_pos (by omega)]
      by_cases h2 : p < k * hop
      · rw [if_neg (by omega), if_pos (by omega), olaK_done _ _ _ _ k (k + 1) p (by omega) h2,
          normAt_done _ _ k (k + 1) p (by omega) h2]
        unfold pushAdd
        rw [if_neg (by omega)]
        exact if_pos h2
      · rw [hadd p (by omega), hnrm p (by omega)]
        by_cases h3 : p < (k + 1) * hop
        · rw [if_pos (by omega), if_pos h3]
        · rw [if_neg (by omega), if_neg h3]
  have hnb : ∀ p, pushNrm st.window (k * hop) (k * hop) window.length hop L
      (fun p => if p < k * hop then Flt.zero else normAt window hop k p) p =
      if p < (k + 1) * hop then Flt.zero else normAt window hop (k + 1) p := by
    intro p
    unfold pushNrm
    by_cases h1 : k * hop + window.length ≤ p
    · rw [if_neg (show ¬ p < (k + 1) * hop by omega), normAt_far _ _ _ _ (by omega)]
      by_cases h2 : p < k * hop + window.length + hop
      · rw [if_pos ⟨h1, h2⟩]
      · rw [if_neg (by omega)]
        by_cases h3 : p < L
        · rw [if_pos h3, if_neg (by omega), hnrm p (by omega), normAt_far _ _ _ _ (by omega)]
        · rw [if_neg h3]
    · rw [if_neg (by omega), if_pos (by omega)]
      by_cases h2 : p < k * hop
      · rw [if_neg (by omega), if_pos (by omega)]
        unfold pushNorm
        rw [if_neg (by omega)]
        exact if_pos h2
      · by_cases h3 : p < (k + 1) * hop
        · rw [if_pos (by omega), if_pos h3]
        · rw [if_neg (by omega), if_neg h3, hnrm p (by omega)]
  rw [funext hbuf, funext hnb] at e
  have hch : (tab hop fun i => if k * hop + i < (k + 1) * hop then
      divNorm (olaK window hop ys (k + 1) Flt.zero (k * hop + i)) (normAt window hop (k + 1) (k * hop + i))
      else olaK window hop ys (k + 1) Flt.zero (k * hop + i)) = tab hop fun i =>
      divNorm (olaK window hop ys (k + 1) Flt.zero (k * hop + i)) (normAt window hop (k + 1) (k * hop + i)) := by
    apply tab_congr
    intro i hi
    rw [if_pos (by omega)]
  rw [hch] at e
  refine ⟨_, e, ?_⟩
  · refine ⟨rfl, ht, rfl, by simp only; omega, by simp only; omega, by simp only; omega,
      max L (k * hop + hop + window.length), by omega, ?_, ?_⟩
    · rfl
    · rfl

/-- A fresh stream satisfies the invariant. -/
theorem new_inv (winLen hop : Nat) (window : List T) (st : IstftStream T) (hw : winLen ≤ window.length)
    (h : IstftStream.new winLen hop window = .ok st) (ys : List (List (Cx T))) :
    StInv (window.take winLen) hop ys 0 st := by
  unfold IstftStream.new at h
  by_cases h0 : hop = 0
  · simp [h0] at h
  rw [if_neg h0] at h
  cases h
  have hl : (window.take winLen).length = winLen := by simp; omega
  refine ⟨hl.symm, by rw [hl], rfl, by simp, by simp, rfl, winLen + hop * 2, by rw [hl]; omega, ?_, ?_⟩
  · simp only [replicate_eq_tab]
    apply tab_congr
    intro p _
    simp [olaK]
  · simp only [replicate_eq_tab]
    apply tab_congr
    intro p _
    simp [normAt]

theorem pushAll_inv {S : Type} (iop : StOp S T) {P : S → Prop} (hP : Keeps iop P) (window : List T) (hop : Nat)
    (hh : hop ≤ window.length) (ys : List (List (Cx T))) :
    ∀ (frames : List (List (Cx T))) (k : Nat) (st : IstftStream T) (s s' : S), P s →
      (∀ fr ∈ frames, fr.length = window.length) → StInv window hop ys k st → k + frames.length = ys.length →
      runAll iop s frames = .ok (s', ys.drop k, .ok ()) →
      ∃ st' cs, pushAll iop st s frames = .ok (st', s', .ok cs) ∧ cs.length = frames.length ∧
        (∀ c ∈ cs, c.length = hop) ∧ StInv window hop ys (k + frames.length) st' ∧
        cs.flatten = tab (frames.length * hop) (fun i =>
          divNorm (olaK window hop ys ys.length Flt.zero (k * hop + i))
            (normAt window hop ys.length (k * hop + i))) := by
  intro frames
  induction frames with
  | nil =>
    intro k st s s' _ _ hI _ hr
    simp only [runAll, Outcome.ok.injEq, Prod.mk.injEq] at hr
    exact ⟨st, [], by rw [pushAll, hr.1], rfl, by simp, hI, by simp [tab]⟩
  | cons x xs ih =>
    intro k st s s' hs hf hI hk hr
    rw [List.length_cons] at hk
    rw [List.drop_eq_getElem_cons (by omega), runAll] at hr
    obtain ⟨⟨s1, y, r⟩, h1, h2⟩ := ok_of_bind hr
    cases r with
    | error e => simp at h2
    | ok u =>
      obtain ⟨⟨s2, ys2, r2⟩, h3, h4⟩ := ok_of_bind h2
      simp only [Outcome.ok.injEq, Prod.mk.injEq, List.cons.injEq] at h4
      obtain ⟨rfl, ⟨rfl, rfl⟩, rfl⟩ := h4
      obtain ⟨hy, hs1⟩ := hP _ _ _ _ _ hs h1
      have hxl := hf x (by simp)
      have hg : ys[k] = ys.getD k [] := by simp [List.getD_eq_getElem?_getD, show k < ys.length by omega]
      rw [hg] at h1 hy
      obtain ⟨st1, e1, hI1⟩ := push_inv iop window hop ys k st hI hh s s1 x hxl (by omega) h1
      obtain ⟨st2, cs, e2, hl, hc, hI2, hfl⟩ := ih (k + 1) st1 s1 s2 hs1 (fun fr h => hf fr (by simp [h])) hI1
        (by omega) h3
      have hsk : (k + 1) * hop = k * hop + hop := Nat.succ_mul _ _
      refine ⟨st2, _ :: cs, by rw [pushAll, e1, Outcome.bind_ok]; simp only; rw [e2, Outcome.bind_ok], by simp [hl],
        ?_, by rw [List.length_cons, show k + (xs.length + 1) = k + 1 + xs.length by omega]; exact hI2, ?_⟩
      · intro c h
        rcases List.mem_cons.mp h with h | h
        · rw [h, tab_length]
        · exact hc c h
      · rw [List.flatten_cons, hfl, tab_append, List.length_cons,
          show hop + xs.length * hop = (xs.length + 1) * hop by ring]
        apply tab_congr
        intro i hi
        by_cases h : i < hop
        · rw [if_pos h, olaK_done window hop ys Flt.zero (k + 1) ys.length _ (by omega) (by omega),
            normAt_done window hop (k + 1) ys.length _ (by omega) (by omega)]
        · rw [if_neg h, show (k + 1) * hop + (i - hop) = k * hop + i by omega]

theorem flush_inv (window : List T) (hop : Nat) (hh : hop ≤ window.length) (h0 : 0 < hop)
    (ys : List (List (Cx T))) (k : Nat) (hk : 0 < k) (st : IstftStream T) (h : StInv window hop ys k st) :
    ∃ st', st.flush = .ok (st', tab (window.length - hop) (fun i =>
        divNorm (olaK window hop ys k Flt.zero (k * hop + i)) (normAt window hop k (k * hop + i)))) ∧
      st'.flush = .ok (st', []) := by
  obtain ⟨hw, ht, hhop, hpos, hout, hcnt, L, hL, hB, hN⟩ := h
  by_cases hc : hop = window.length
  · have e : st.flush = .ok (st, []) := by
      unfold IstftStream.flush
      rw [if_neg (by omega)]
      simp only
      rw [if_pos (by omega)]
    exact ⟨st, by rw [e]; simp [tab, hc], e⟩
  · have hkh : hop ≤ k * hop := Nat.le_mul_of_pos_left _ hk
    have e : st.flush = .ok ({ st with
        buffer := tab L (fun p => if k * hop ≤ p ∧ p < k * hop + window.length - hop then
          divNorm (olaK window hop ys k Flt.zero p) (normAt window hop k p) else
            if p < k * hop then divNorm (olaK window hop ys k Flt.zero p) (normAt window hop k p)
            else olaK window hop ys k Flt.zero p)
        norm := tab L (fun p => if k * hop ≤ p ∧ p < k * hop + window.length - hop then Flt.zero else
            if p < k * hop then Flt.zero else normAt window hop k p)
        outPos := k * hop + window.length - hop }, tab (window.length - hop) (fun i =>
        divNorm (olaK window hop ys k Flt.zero (k * hop + i)) (normAt window hop k (k * hop + i)))) := by
      unfold IstftStream.flush
      rw [if_neg (by omega)]
      simp only
      rw [if_neg (by omega), hB, hN, hout, hpos, hw, hhop, emit_eq _ _ (by omega) (by omega), Outcome.bind_ok]
      simp only
      congr 2
      · congr 1
        · apply tab_congr
          intro p _
          by_cases h : k * hop ≤ p ∧ p < k * hop + window.length - hop
          · rw [if_pos h, if_pos h, if_neg (by omega), if_neg (by omega)]
          · rw [if_neg h, if_neg h]
      · rw [tab_drop, tab_take, Nat.min_eq_left (by omega),
          show k * hop + window.length - hop - k * hop = window.length - hop by omega]
        apply tab_congr
        intro i hi
        rw [if_pos (by omega), if_neg (by omega), if_neg (by omega)]
    refine ⟨_, e, ?_⟩
    unfold IstftStream.flush
    simp only
    rw [if_neg (by omega), if_pos (by rw [hpos, hw, hhop])]

end Kofft
