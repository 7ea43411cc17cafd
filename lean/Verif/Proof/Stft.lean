import Verif.Spec.Stft
import Verif.Proof.NdFft
import Verif.Proof.Rfft
/-
Short-time transforms: loops to closed forms.
-/
namespace Kofft
open Spec

variable {T : Type} [Flt T]

theorem segment_length (signal window : List T) (start : Nat) :
    (segment signal window start).length = window.length := by simp [Spec.segment]

theorem segment_tab (signal window : List T) (start : Nat) :
    segment signal window start = tab window.length fun i =>
    ⟨if start + i < signal.length then signal.getD (start + i) Flt.zero *. window.getD i Flt.zero
     else Flt.zero, Flt.zero⟩ := rfl

theorem fillFrame_eq (signal window : List T) (start : Nat) (frame : List (Cx T))
    (h : window.length ≤ frame.length) :
    fillFrame signal window start frame =
      .ok (segment signal window start ++ frame.drop window.length) := by
  unfold fillFrame
  rw [eq_tab_getD frame Cx.zero]
  rw [fill_tab (v := fun i => ⟨if start + i < signal.length then
      signal.getD (start + i) Flt.zero *. window.getD i Flt.zero else Flt.zero, Flt.zero⟩) (Nat.zero_le _)]
  · congr 1
    rw [segment_tab, tab_drop, tab_append, show window.length + (frame.length - window.length) =
      frame.length by omega]
    apply tab_congr
    intro i hi
    by_cases h : i < window.length
    · simp [h]
    · simp [h, show window.length + (i - window.length) = i by omega]
  · intro i s _ hi hs
    by_cases h1 : start + i < signal.length
    · rw [if_pos h1, if_pos h1, rd_getD Flt.zero h1, Outcome.bind_ok, rd_getD Flt.zero hi, Outcome.bind_ok]
      simp only [Outcome.pure_eq, Outcome.bind_ok]
      rw [wr_ok (by omega)]
    · rw [if_neg h1, if_neg h1]
      simp only [Outcome.pure_eq, Outcome.bind_ok]
      rw [wr_ok (by omega)]

theorem fillFrame_eq' (signal window : List T) (start : Nat) (frame : List (Cx T))
    (h : frame.length = window.length) :
    fillFrame signal window start frame = .ok (segment signal window start) := by
  rw [fillFrame_eq _ _ _ _ (by omega), List.drop_eq_nil_of_le (by omega), List.append_nil]

omit [Flt T] in
theorem resize_length {α : Type} (l : List α) (n : Nat) (z : α) : (resize l n z).length = n := by
  simp [resize]; omega

theorem drop_set_lt {α : Type} (l : List α) (i k : Nat) (v : α) (h : i < k) : (l.set i v).drop k = l.drop k := by
  apply List.ext_getElem?
  intro j
  simp only [List.getElem?_drop, List.getElem?_set]
  rw [if_neg (by omega)]

theorem take_succ_set {α : Type} (l : List α) (k : Nat) (v : α) (h : k < l.length) :
    (l.set k v).take (k + 1) = l.take k ++ [v] := by
  rw [List.take_succ]
  congr 1
  · apply List.ext_getElem?
    intro j
    simp only [List.getElem?_take, List.getElem?_set]
    by_cases hj : j < k
    · rw [if_pos hj, if_pos hj, if_neg (by omega)]
    · rw [if_neg hj, if_neg hj]
  · simp [h]

/-- The loop of `stft` is `runAll` on the segments. -/
theorem stft_loop {S : Type} (op : StOp S T) (signal window : List T) (hop : Nat) :
    ∀ (cnt k : Nat) (s : S) (o : List (List (Cx T))), k + cnt = o.length →
      loopRes cnt k (s, o) (fun idx st => do
        let frame ← rd st.2 idx
        let frame := resize frame window.length Cx.zero
        let frame ← fillFrame signal window (idx * hop) frame
        let (s, y, r) ← op st.1 frame
        let o ← wr st.2 idx y
        .ok ((s, o), r)) =
      runAll op s ((List.range cnt).map fun f => segment signal window ((k + f) * hop)) >>= fun v =>
        .ok ((v.1, o.take k ++ v.2.1 ++ o.drop (k + v.2.1.length)), v.2.2) := by
  intro cnt
  induction cnt with
  | zero => intro k s o h; simp [loopRes, runAll]
  | succ cnt ih =>
    intro k s o h
    rw [loopRes_succ, List.range_succ_eq_map, List.map_cons, List.map_map, runAll]
    have hk : k < o.length := by omega
    simp only [rd_ok hk, Outcome.bind_ok, Nat.add_zero]
    rw [fillFrame_eq' _ _ _ _ (resize_length _ _ _), Outcome.bind_ok]
    rcases op s (segment signal window (k * hop)) with ⟨s', y, r⟩ | _ | _
    · simp only [Outcome.bind_ok, wr_ok hk]
      cases r with
      | error e =>
        simp only [Outcome.bind_ok]
        congr 2
        rw [List.length_singleton]
        congr 1
        rw [← take_succ_set o k y hk, ← drop_set_lt o k (k + 1) y (by omega), List.take_append_drop]
      | ok u =>
        simp only
        rw [ih (k + 1) s' (o.set k y) (by simp; omega)]
        have : (List.map ((fun f => segment signal window ((k + f) * hop)) ∘ Nat.succ) (List.range cnt)) =
            List.map (fun f => segment signal window ((k + 1 + f) * hop)) (List.range cnt) := by
          apply List.map_congr_left
          intro f _
          simp only [Function.comp]
          rw [show k + f.succ = k + 1 + f by omega]
        rw [this, bind_assoc]
        congr 1
        funext w
        obtain ⟨s2, ys, r⟩ := w
        simp only [Outcome.bind_ok]
        congr 3
        rw [take_succ_set o k y hk, drop_set_lt _ _ _ _ (by omega), List.length_cons,
          show k + 1 + ys.length = k + (ys.length + 1) by omega]
        simp
    · rfl
    · rfl

theorem divCeil_le {n h k : Nat} (hh : 0 < h) : divCeil n h ≤ k ↔ n ≤ k * h := by
  unfold divCeil
  rw [← Nat.lt_succ_iff, Nat.div_lt_iff_lt_mul hh, Nat.succ_mul]
  omega

theorem stft_eq {S : Type} (op : StOp S T) (s : S) (signal window : List T) (hop : Nat)
    (output : List (List (Cx T))) (hh : 0 < hop) (ho : divCeil signal.length hop ≤ output.length) :
    stft op s signal window hop output =
      runAll op s (segments signal window hop output.length) >>= fun v =>
        .ok (v.1, v.2.1 ++ output.drop v.2.1.length, v.2.2) := by
  unfold stft
  rw [if_neg (by omega), if_neg (by omega), stft_loop op signal window hop output.length 0 s output (by simp)]
  simp only [bind_assoc, Nat.zero_add, List.take_zero, List.nil_append, Outcome.bind_ok, segments]

/-! ### Streaming -/

theorem nextFrame_eq {S : Type} (op : StOp S T) (st : StftStream T) (s : S) (buf : List (Cx T))
    (hb : buf.length = st.window.length) (hp : st.pos < st.signal.length) :
    st.nextFrame op s buf = op s (segment st.signal st.window st.pos) >>= fun v =>
      match v with
      | (s, y, .error e) => .ok (st, s, y, .error e)
      | (s, y, .ok _) => .ok ({ st with pos := st.pos + st.hop }, s, y, .ok true) := by
  unfold StftStream.nextFrame
  rw [if_neg (by omega), if_neg (by omega), fillFrame_eq' _ _ _ _ hb, Outcome.bind_ok]
  congr 1
  funext v
  obtain ⟨s, y, r⟩ := v
  cases r <;> rfl

theorem streamAll_eq {S : Type} (op : StOp S T) {P : S → Prop} (hP : Keeps op P) (signal window : List T)
    (hop : Nat) (hh : 0 < hop) :
    ∀ (cnt fuel k : Nat) (s : S) (buf : List (Cx T)), P s → buf.length = window.length → cnt < fuel →
      divCeil signal.length hop = k + cnt →
      streamAll op fuel ⟨signal, window, hop, k * hop⟩ s buf =
        runAll op s ((List.range cnt).map fun f => segment signal window ((k + f) * hop)) := by
  intro cnt
  induction cnt with
  | zero =>
    intro fuel k s buf hPs hb hf hk
    obtain ⟨fuel, rfl⟩ : ∃ f, fuel = f + 1 := ⟨fuel - 1, by omega⟩
    have : signal.length ≤ k * hop := (divCeil_le hh).mp (by omega)
    simp [streamAll, StftStream.nextFrame, hb, this, runAll]
  | succ cnt ih =>
    intro fuel k s buf hPs hb hf hk
    obtain ⟨fuel, rfl⟩ : ∃ f, fuel = f + 1 := ⟨fuel - 1, by omega⟩
    have hlt : k * hop < signal.length := by
      by_contra hc
      have := (divCeil_le (n := signal.length) hh).mpr (not_lt.mp hc)
      omega
    rw [streamAll, nextFrame_eq op _ s buf hb hlt, List.range_succ_eq_map, List.map_cons, List.map_map, runAll,
      Nat.add_zero, bind_assoc]
    rcases hq : op s (segment signal window (k * hop)) with ⟨s', y, r⟩ | _ | _
    · simp only [Outcome.bind_ok]
      cases r with
      | error e => rfl
      | ok u =>
        simp only [Outcome.bind_ok]
        obtain ⟨hy, hPs'⟩ := hP _ _ _ _ _ hPs hq
        rw [segment_length] at hy
        have := ih fuel (k + 1) s' y hPs' hy (by omega) (by omega)
        rw [show (k + 1) * hop = k * hop + hop by ring] at this
        rw [this]
        congr 2
        apply List.map_congr_left
        intro f _
        simp only [Function.comp]
        rw [show k + f.succ = k + 1 + f by omega]
    · rfl
    · rfl

/-! ### What a successful run means -/

theorem runAll_ok {S : Type} (op : StOp S T) : ∀ (xs : List (List (Cx T))) (s s' : S) (ys),
    runAll op s xs = .ok (s', ys, .ok ()) →
    ys.length = xs.length ∧ ∃ st : Nat → S, st 0 = s ∧ st xs.length = s' ∧
      ∀ k, k < xs.length → op (st k) (xs.getD k []) = .ok (st (k + 1), ys.getD k [], .ok ()) := by
  intro xs
  induction xs with
  | nil =>
    intro s s' ys h
    simp only [runAll, Outcome.ok.injEq, Prod.mk.injEq] at h
    obtain ⟨rfl, rfl, -⟩ := h
    exact ⟨rfl, fun _ => s, rfl, rfl, fun k hk => by simp at hk⟩
  | cons x xs ih =>
    intro s s' ys h
    rw [runAll] at h
    obtain ⟨⟨s1, y, r⟩, h1, h2⟩ := ok_of_bind h
    cases r with
    | error e => simp at h2
    | ok u =>
      obtain ⟨⟨s2, ys2, r2⟩, h3, h4⟩ := ok_of_bind h2
      simp only [Outcome.ok.injEq, Prod.mk.injEq] at h4
      obtain ⟨rfl, rfl, rfl⟩ := h4
      obtain ⟨hl, st, e0, e1, e2⟩ := ih s1 s2 ys2 h3
      refine ⟨by simp [hl], fun k => if k = 0 then s else st (k - 1), by simp, by simp [e1], ?_⟩
      intro k hk
      cases k with
      | zero => simp [h1, e0]
      | succ k => simpa using e2 k (by simpa using hk)

theorem runAll_take {S : Type} (op : StOp S T) : ∀ (xs : List (List (Cx T))) (s : S) (st : Nat → S)
    (ys : List (List (Cx T))), ys.length = xs.length → st 0 = s →
      (∀ k, k < xs.length → op (st k) (xs.getD k []) = .ok (st (k + 1), ys.getD k [], .ok ())) →
      runAll op s xs = .ok (st xs.length, ys, .ok ()) := by
  intro xs
  induction xs with
  | nil =>
    intro s st ys hl h0 _
    have : ys = [] := List.length_eq_zero_iff.mp hl
    subst this; simp [runAll, h0]
  | cons x xs ih =>
    intro s st ys hl h0 h
    cases ys with
    | nil => simp at hl
    | cons y ys =>
      rw [runAll, ← h0]
      have h1 := h 0 (by simp)
      simp only [List.getD_cons_zero] at h1
      rw [h1, Outcome.bind_ok]
      simp only
      rw [ih (st 1) (fun k => st (k + 1)) ys (by simpa using hl) rfl
        (fun k hk => by simpa using h (k + 1) (by simpa using hk))]
      simp

theorem loopRes_ok {σ : Type} {f : Nat → σ → Outcome (σ × Res)} (g : Nat → σ) (cnt : Nat)
    (h : ∀ i, i < cnt → f i (g i) = .ok (g (i + 1), .ok ())) :
    loopRes cnt 0 (g 0) f = .ok (g cnt, .ok ()) := by
  have : ∀ c i, i + c = cnt → loopRes c i (g i) f = .ok (g cnt, .ok ()) := by
    intro c
    induction c with
    | zero => intro i hi; rw [show i = cnt by omega]; rfl
    | succ c ih =>
      intro i hi
      rw [loopRes_succ, h i (by omega)]
      exact ih (i + 1) (by omega)
  exact this cnt 0 (by omega)

/-! ### Overlap-add -/

/-- One overlap-add step at position `p`. -/
def olaStep (window : List T) (hop : Nat) (ys : List (List (Cx T))) (p : Nat) (acc : T) (f : Nat) : T :=
  if f * hop ≤ p ∧ p < f * hop + window.length then
    acc +. (((ys.getD f []).getD (p - f * hop) Cx.zero).re *. window.getD (p - f * hop) Flt.zero)
  else acc

/-- Overlap-add of the first `k` frames. -/
def olaK (window : List T) (hop : Nat) (ys : List (List (Cx T))) (k : Nat) (init : T) (p : Nat) : T :=
  (List.range k).foldl (olaStep window hop ys p) init

theorem olaK_succ (window : List T) (hop : Nat) (ys : List (List (Cx T))) (k : Nat) (init : T) (p : Nat) :
    olaK window hop ys (k + 1) init p = olaStep window hop ys p (olaK window hop ys k init p) k := by
  simp [olaK, List.range_succ]

theorem olaAt_eq (window : List T) (hop : Nat) (ys : List (List (Cx T))) (init : T) (p : Nat) :
    olaAt window hop ys init p = olaK window hop ys ys.length init p := rfl

theorem normAt_succ (window : List T) (hop k : Nat) (p : Nat) :
    normAt window hop (k + 1) p =
      if k * hop ≤ p ∧ p < k * hop + window.length then
        normAt window hop k p +. (window.getD (p - k * hop) Flt.zero *. window.getD (p - k * hop) Flt.zero)
      else normAt window hop k p := by
  simp only [normAt, List.range_succ, List.foldl_append, List.foldl_cons, List.foldl_nil]

theorem olaFrame_eq (window : List T) (start : Nat) (frame : List (Cx T)) (N : Nat) (f g : Nat → T)
    (hl : window.length ≤ frame.length) :
    olaFrame window start frame (tab N f) (tab N g) = .ok
      (tab N (fun p => if start ≤ p ∧ p < start + window.length then
          f p +. ((frame.getD (p - start) Cx.zero).re *. window.getD (p - start) Flt.zero) else f p),
       tab N (fun p => if start ≤ p ∧ p < start + window.length then
          g p +. (window.getD (p - start) Flt.zero *. window.getD (p - start) Flt.zero) else g p)) := by
  unfold olaFrame
  rw [forRange_eq (fun k => (tab N (fun p => if start ≤ p ∧ p < start + k then
          f p +. ((frame.getD (p - start) Cx.zero).re *. window.getD (p - start) Flt.zero) else f p),
       tab N (fun p => if start ≤ p ∧ p < start + k then
          g p +. (window.getD (p - start) Flt.zero *. window.getD (p - start) Flt.zero) else g p)))
       (Nat.zero_le _)]
  · congr 1 <;> apply tab_congr <;> intro p _ <;> rw [if_neg (by omega)]
  · intro k _ hk
    simp only [tab_length]
    by_cases hs : start + k < N
    · rw [if_pos hs, rd_getD Cx.zero (by omega), Outcome.bind_ok, rd_getD Flt.zero hk, Outcome.bind_ok,
        rd_tab hs, Outcome.bind_ok, wr_tab hs, Outcome.bind_ok, rd_tab hs, Outcome.bind_ok, wr_tab hs,
        Outcome.bind_ok, Outcome.pure_eq]
      congr 2 <;> apply tab_congr <;> intro p _ <;> by_cases hp : p = start + k
      · subst hp
        rw [if_pos rfl, if_neg (by omega), if_pos (by omega), show start + k - start = k by omega]
      · rw [if_neg hp]
        by_cases h : start ≤ p ∧ p < start + k
        · rw [if_pos h, if_pos (by omega)]
        · rw [if_neg h, if_neg (by omega)]
      · subst hp
        rw [if_pos rfl, if_neg (by omega), if_pos (by omega), show start + k - start = k by omega]
      · rw [if_neg hp]
        by_cases h : start ≤ p ∧ p < start + k
        · rw [if_pos h, if_pos (by omega)]
        · rw [if_neg h, if_neg (by omega)]
    · rw [if_neg hs, Outcome.pure_eq]
      congr 2 <;> apply tab_congr <;> intro p hp <;> by_cases h : start ≤ p ∧ p < start + k
      · rw [if_pos h, if_pos (by omega)]
      · rw [if_neg h, if_neg (by omega)]
      · rw [if_pos h, if_pos (by omega)]
      · rw [if_neg h, if_neg (by omega)]

theorem normalize_eq (N : Nat) (f g : Nat → T) :
    normalize (tab N f) (tab N g) = .ok (tab N fun p => divNorm (f p) (g p)) := by
  unfold normalize
  rw [tab_length, forRange_eq (fun k => tab N fun p => if p < k then divNorm (f p) (g p) else f p)
    (Nat.zero_le _)]
  · congr 1
    apply tab_congr
    intro p hp
    rw [if_pos hp]
  · apply tab_congr
    intro p _
    simp
  · intro k _ hk
    rw [rd_tab hk, Outcome.bind_ok, rd_tab hk, Outcome.bind_ok, wr_tab hk]
    congr 1
    apply tab_congr
    intro p _
    by_cases hp : p = k
    · subst hp; simp [normSample, divNorm]
    · rw [if_neg hp]
      by_cases h : p < k
      · rw [if_pos h, if_pos (by omega)]
      · rw [if_neg h, if_neg (by omega)]

theorem istft_eq {S : Type} (iop : StOp S T) {P : S → Prop} (hP : Keeps iop P) (s s' : S) (hPs : P s)
    (frames ys : List (List (Cx T))) (window : List T) (hop : Nat) (output scratch : List T) (hh : 0 < hop)
    (hs : scratch.length = output.length) (hf : ∀ fr ∈ frames, fr.length = window.length)
    (hr : runAll iop s frames = .ok (s', ys, .ok ())) :
    istft iop s frames window hop output scratch = .ok (s', ys,
      tab output.length (fun p => divNorm (olaAt window hop ys (output.getD p Flt.zero) p)
        (normAt window hop ys.length p)),
      tab output.length (normAt window hop ys.length), .ok ()) := by
  obtain ⟨hl, st, e0, e1, e2⟩ := runAll_ok iop frames s s' ys hr
  have hfk : ∀ k, k < frames.length → (frames.getD k []).length = window.length := by
    intro k hk
    rw [List.getD_eq_getElem?_getD, List.getElem?_eq_getElem hk]
    exact hf _ (List.getElem_mem hk)
  have hPk : ∀ k, k ≤ frames.length → P (st k) := by
    intro k
    induction k with
    | zero => intro _; rw [e0]; exact hPs
    | succ k ih => intro hk; exact (hP _ _ _ _ _ (ih (by omega)) (e2 k (by omega))).2
  have hyk : ∀ k, k < frames.length → (ys.getD k []).length = window.length := by
    intro k hk
    rw [(hP _ _ _ _ _ (hPk k (by omega)) (e2 k hk)).1, hfk k hk]
  let g : Nat → OlaSt S T := fun k => ⟨st k, ys.take k ++ frames.drop k,
    tab output.length (fun p => olaK window hop ys k (output.getD p Flt.zero) p),
    tab output.length (normAt window hop k)⟩
  have h0 : (⟨s, frames, output, scratch.map fun _ => (Flt.zero : T)⟩ : OlaSt S T) = g 0 := by
    simp only [g, e0, List.take_zero, List.nil_append, List.drop_zero]
    congr 1
    · conv_lhs => rw [eq_tab_getD output Flt.zero]
      rfl
    · rw [← hs]
      apply list_eq_tab' (by simp)
      intro i hi
      simp [normAt]
  unfold istft
  rw [if_neg (by omega), if_neg (by omega)]
  simp only [h0]
  rw [loopRes_ok g frames.length, Outcome.bind_ok]
  · simp only [g]
    rw [normalize_eq, Outcome.bind_ok, e1, List.drop_length, List.append_nil, ← hl, List.take_length]
    rfl
  · intro k hk
    simp only [g]
    have hrd : rd (ys.take k ++ frames.drop k) k = .ok (frames.getD k []) := by
      have hk' : k < (ys.take k ++ frames.drop k).length := by simp; omega
      rw [rd_getD [] hk', List.getD_append_right _ _ _ _ (by simp)]
      congr 1
      simp [List.getD_eq_getElem?_getD, Nat.min_eq_left (show k ≤ ys.length by omega)]
    unfold istftStep
    simp only
    rw [hrd, Outcome.bind_ok, if_neg (by rw [hfk k hk]; simp), e2 k hk, Outcome.bind_ok]
    simp only
    rw [wr_ok (by simp; omega), Outcome.bind_ok, olaFrame_eq _ _ _ _ _ _ (by rw [hyk k hk]), Outcome.bind_ok]
    simp only
    congr 3
    · have : (ys.take k ++ frames.drop k).set k (ys.getD k []) = ys.take (k + 1) ++ frames.drop (k + 1) := by
        rw [List.set_append_right _ _ (by simp)]
        have h1 : k - (ys.take k).length = 0 := by simp; omega
        rw [h1, List.drop_eq_getElem_cons hk, List.set_cons_zero]
        have hky : k < ys.length := by omega
        have hg : ys.getD k [] = ys[k] := by simp [List.getD_eq_getElem?_getD, hky]
        rw [← List.take_concat_get' ys k hky, hg, List.append_assoc]
        rfl
      exact this
    · apply tab_congr
      intro p _
      rw [olaK_succ, olaStep]
    · apply tab_congr
      intro p _
      rw [normAt_succ]

end Kofft
