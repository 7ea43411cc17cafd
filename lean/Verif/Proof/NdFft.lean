import Verif.Model.NdFft
import Verif.Proof.Dft
/-
Passes of the multi-dimensional transforms: every pass transforms a family of disjoint lines.
-/
namespace Kofft
open Spec

variable {T : Type} [Flt T]

/-- The line `b, b + s, …, b + (n-1) s` of a buffer. -/
def lineOf (x : List (Cx T)) (b s n : Nat) : List (Cx T) := tab n fun i => x.getD (b + i * s) Cx.zero

/-- A step that transforms the line `(b, s, n)` of a buffer of length `N` in place. -/
structure LineStep (cfg : Cfg) (N b s n : Nat) (m : Nat)
    (step : NdSt T → Outcome (NdSt T × Res)) : Prop where
  run : ∀ st : NdSt T, Inv cfg st.p → st.data.length = N → st.sc.length = m →
    ∃ st', step st = .ok (st', fftRes cfg n) ∧ Inv cfg st'.p ∧ st'.data.length = N ∧ st'.sc.length = m ∧
      (∀ B, need n ≤ B → st.p.splitRe.length ≤ B → st.p.bluScratch.length ≤ B →
        st'.p.splitRe.length ≤ B ∧ st'.p.bluScratch.length ≤ B) ∧
      (∀ e, fftRes cfg n = .error e → st'.data = st.data) ∧
      (fftRes cfg n = .ok () →
        (∀ i, i < n → st'.data.getD (b + i * s) Cx.zero =
          (fftBuf cfg st.p (lineOf st.data b s n)).getD i Cx.zero) ∧
        (∀ k, (∀ i, i < n → k ≠ b + i * s) → st'.data.getD k Cx.zero = st.data.getD k Cx.zero))
  via : ∀ (st st' : NdSt T) r, Inv cfg st.p → st.data.length = N → st.sc.length = m → step st = .ok (st', r) →
    ∃ y, fft cfg st.p (lineOf st.data b s n) = .ok (st'.p, y, r)

theorem sliceFft_line (cfg : Cfg) {N b n : Nat} (m : Nat) (h : b + n ≤ N) :
    LineStep (T := T) cfg N b 1 n m (sliceFft cfg b n) := by
  have via : ∀ (st st' : NdSt T) r, Inv cfg st.p → st.data.length = N → st.sc.length = m → sliceFft cfg b n st = .ok (st', r) →
      ∃ y, fft cfg st.p (lineOf st.data b 1 n) = .ok (st'.p, y, r) := by
    intro st st' r hI hl hm e
    have hline : (st.data.drop b).take n = lineOf st.data b 1 n := by
      unfold lineOf
      apply list_eq_tab' (by simp; omega)
      intro i hi
      have hi' : i < n := by simp at hi; omega
      have : b + i < st.data.length := by omega
      simp [List.getD_eq_getElem?_getD, this]
    obtain ⟨p', e', -⟩ := (fft_opOk cfg).run st.p (lineOf st.data b 1 n) hI
    unfold sliceFft at e
    rw [if_pos (by omega), hline, e'] at e
    simp only [Outcome.bind_ok, Outcome.ok.injEq, Prod.mk.injEq] at e
    rw [← e.1, ← e.2]
    exact ⟨_, e'⟩
  refine ⟨?_, via⟩
  intro st hI hl hm
  have hline : (st.data.drop b).take n = lineOf st.data b 1 n := by
    unfold lineOf
    apply list_eq_tab' (by simp; omega)
    intro i hi
    have hi' : i < n := by simp at hi; omega
    have : b + i < st.data.length := by omega
    simp [List.getD_eq_getElem?_getD, this]
  obtain ⟨p', e, h1, h2, h3⟩ := (fft_opOk cfg).run st.p (lineOf st.data b 1 n) hI
  have hll : (lineOf st.data b 1 n).length = n := by simp [lineOf]
  rw [hll] at e h2 h3
  have e2 : sliceFft cfg b n st = .ok (⟨p', st.data.take b ++ fftBuf cfg st.p (lineOf st.data b 1 n) ++
      st.data.drop (b + n), st.sc⟩, fftRes cfg n) := by
    unfold sliceFft
    rw [if_pos (by omega), hline, e]; rfl
  refine ⟨_, e2, h1, ?_, hm, h3, ?_, ?_⟩
  · simp [h2]; omega
  · intro er hr
    simp only
    rw [fftBuf_err cfg _ _ (by rw [hll]; exact hr), ← hline]
    rw [List.append_assoc]
    conv_rhs => rw [← List.take_append_drop b st.data]
    congr 1
    conv_rhs => rw [← List.take_append_drop n (st.data.drop b)]
    rw [List.drop_drop]
  · intro hr
    simp only
    have hb : (st.data.take b).length = b := by simp; omega
    constructor
    · intro i hi
      rw [Nat.mul_one, List.append_assoc, List.getD_append_right _ _ _ _ (by rw [hb]; omega), hb,
        List.getD_append _ _ _ _ (by rw [h2]; omega), show b + i - b = i by omega]
    · intro k hk
      rw [List.append_assoc]
      by_cases hkb : k < b
      · rw [List.getD_append _ _ _ _ (by rw [hb]; omega)]
        simp [List.getD_eq_getElem?_getD, List.getElem?_take, hkb]
      · have : b + n ≤ k := by
          by_contra hc
          exact hk (k - b) (by omega) (by omega)
        rw [List.getD_append_right _ _ _ _ (by rw [hb]; omega), hb,
          List.getD_append_right _ _ _ _ (by rw [h2]; omega), h2]
        simp [List.getD_eq_getElem?_getD, show b + n + (k - b - n) = k by omega]

theorem stridedAt_line (cfg : Cfg) {N b s n : Nat} (hs : 0 < s) (hn : 0 < n)
    (h : b + (n - 1) * s < N) :
    LineStep (T := T) cfg N b s n n (stridedAt cfg b s) := by
  have via : ∀ (st st' : NdSt T) r, Inv cfg st.p → st.data.length = N → st.sc.length = n → stridedAt cfg b s st = .ok (st', r) →
      ∃ y, fft cfg st.p (lineOf st.data b s n) = .ok (st'.p, y, r) := by
    intro st st' r hI hl hm e
    have hx : stridedSeq (st.data.drop b) s n = lineOf st.data b s n := by
      unfold stridedSeq lineOf
      apply tab_congr
      intro i _
      simp [List.getD_eq_getElem?_getD]
    have hdl : (st.data.drop b).length = N - b := by simp [hl]
    obtain ⟨p', e0, e', -⟩ := strided_run (fft_opOk cfg) st.p (st.data.drop b) s st.sc hI hs
      (by omega) (by rw [hdl, hm]; omega)
    unfold stridedAt at e
    rw [if_pos (by omega), e'] at e
    simp only [Outcome.bind_ok, Outcome.ok.injEq, Prod.mk.injEq] at e
    rw [hm, hx] at e0
    rw [← e.1, ← e.2, hm]
    exact ⟨_, e0⟩
  refine ⟨?_, via⟩
  intro st hI hl hm
  have hx : stridedSeq (st.data.drop b) s n = lineOf st.data b s n := by
    unfold stridedSeq lineOf
    apply tab_congr
    intro i _
    simp [List.getD_eq_getElem?_getD]
  have hll : (lineOf st.data b s n).length = n := by simp [lineOf]
  have hdl : (st.data.drop b).length = N - b := by simp [hl]
  obtain ⟨p', -, e, h1, h2, h3⟩ := strided_run (fft_opOk cfg) st.p (st.data.drop b) s st.sc hI hs
    (by omega) (by rw [hdl, hm]; omega)
  rw [hm, hx] at e h2
  rw [hm] at h3
  have hb : (st.data.take b).length = b := by simp; omega
  rcases fftRes_cases cfg n with hr | ⟨er, hr⟩
  · rw [hr] at e ⊢
    have e2 : stridedAt cfg b s st = .ok (⟨p', st.data.take b ++ stridedPut (st.data.drop b) s n
        (fftBuf cfg st.p (lineOf st.data b s n)), fftBuf cfg st.p (lineOf st.data b s n)⟩, .ok ()) := by
      unfold stridedAt
      rw [if_pos (by omega), e]; rfl
    refine ⟨_, e2, h1, ?_, h2, h3, fun _ h => by simp at h, ?_⟩
    · simp [stridedPut]; omega
    · intro _
      constructor
      · intro i hi
        have hlt : i * s < N - b := by
          have : i * s ≤ (n - 1) * s := Nat.mul_le_mul_right _ (by omega)
          omega
        simp only
        rw [List.getD_append_right _ _ _ _ (by rw [hb]; omega), hb, show b + i * s - b = i * s by omega,
          stridedPut, tab_getD (by rw [hdl]; omega), Nat.mul_mod_left, Nat.mul_div_cancel _ hs,
          if_pos ⟨rfl, hi⟩]
      · intro k hk
        simp only
        by_cases hkb : k < b
        · rw [List.getD_append _ _ _ _ (by rw [hb]; omega)]
          simp [List.getD_eq_getElem?_getD, List.getElem?_take, hkb]
        · rw [List.getD_append_right _ _ _ _ (by rw [hb]; omega), hb]
          by_cases hkN : k < N
          · rw [stridedPut, tab_getD (by rw [hdl]; omega), if_neg]
            · simp [List.getD_eq_getElem?_getD, show b + (k - b) = k by omega]
            · rintro ⟨h1, h2⟩
              apply hk _ h2
              have := Nat.div_add_mod (k - b) s
              rw [h1, Nat.mul_comm] at this
              omega
          · have h1 : (stridedPut (st.data.drop b) s n (fftBuf cfg st.p (lineOf st.data b s n))).length
                ≤ k - b := by simp [stridedPut]; omega
            simp only [List.getD_eq_getElem?_getD]
            rw [List.getElem?_eq_none h1, List.getElem?_eq_none (by omega)]
  · rw [hr] at e ⊢
    have e2 : stridedAt cfg b s st = .ok (⟨p', st.data.take b ++ st.data.drop b,
        fftBuf cfg st.p (lineOf st.data b s n)⟩, .error er) := by
      unfold stridedAt
      rw [if_pos (by omega), e]; rfl
    refine ⟨_, e2, h1, ?_, h2, h3, ?_, fun h => by simp at h⟩
    · simp; omega
    · intro _ _; simp

/-! ### `loopRes` -/

theorem loopRes_succ {σ : Type} (f : Nat → σ → Outcome (σ × Res)) (cnt i : Nat) (s : σ) :
    loopRes (cnt + 1) i s f = f i s >>= fun v => match v with
      | (s', .error e) => .ok (s', .error e)
      | (s', .ok _) => loopRes cnt (i + 1) s' f := rfl

theorem loopRes_congr {σ : Type} {f g : Nat → σ → Outcome (σ × Res)} :
    ∀ (cnt i : Nat) (s : σ), (∀ j s, i ≤ j → j < i + cnt → f j s = g j s) →
      loopRes cnt i s f = loopRes cnt i s g
  | 0, _, _, _ => rfl
  | cnt + 1, i, s, h => by
    unfold loopRes
    rw [h i s le_rfl (by omega)]
    congr 1
    funext v
    obtain ⟨s', r⟩ := v
    cases r with
    | error e => rfl
    | ok u => exact loopRes_congr cnt (i + 1) s' (fun j s h1 h2 => h j s (by omega) (by omega))

theorem loopRes_add {σ : Type} {f : Nat → σ → Outcome (σ × Res)} :
    ∀ (a b i : Nat) (s : σ), loopRes (a + b) i s f = loopRes a i s f >>= fun v => match v with
      | (s', .error e) => .ok (s', .error e)
      | (s', .ok _) => loopRes b (i + a) s' f
  | 0, b, i, s => by rw [Nat.zero_add]; rfl
  | a + 1, b, i, s => by
    rw [show a + 1 + b = (a + b) + 1 by omega, loopRes_succ, loopRes_succ, bind_assoc]
    congr 1
    funext v
    obtain ⟨s', r⟩ := v
    cases r with
    | error e => rfl
    | ok u =>
      simp only
      rw [loopRes_add a b (i + 1) s', show i + 1 + a = i + (a + 1) by omega]

theorem loopRes_shift {σ : Type} {f : Nat → σ → Outcome (σ × Res)} :
    ∀ (cnt i k : Nat) (s : σ), loopRes cnt (i + k) s f = loopRes cnt i s (fun j s => f (j + k) s)
  | 0, _, _, _ => rfl
  | cnt + 1, i, k, s => by
    unfold loopRes
    congr 1
    funext v
    obtain ⟨s', r⟩ := v
    cases r with
    | error e => rfl
    | ok u =>
      simp only
      rw [show i + k + 1 = (i + 1) + k by omega, loopRes_shift cnt (i + 1) k s']

/-- Two nested loops are one loop over the pairs. -/
theorem loopRes_nested {σ : Type} {f : Nat → σ → Outcome (σ × Res)} (R C : Nat) (s : σ) :
    loopRes R 0 s (fun r s => loopRes C 0 s fun c s => f (r * C + c) s) = loopRes (R * C) 0 s f := by
  have : ∀ R k s, loopRes R k s (fun r s => loopRes C 0 s fun c s => f (r * C + c) s) =
      loopRes (R * C) (k * C) s f := by
    intro R
    induction R with
    | zero => intro k s; simp [loopRes]
    | succ R ih =>
      intro k s
      rw [show (R + 1) * C = C + R * C by ring, loopRes_succ, loopRes_add C]
      have : loopRes C (k * C) s f = loopRes C 0 s fun c s => f (k * C + c) s := by
        have h := loopRes_shift (f := f) C 0 (k * C) s
        rw [Nat.zero_add] at h
        rw [h]
        apply loopRes_congr
        intro j s _ _
        rw [Nat.add_comm]
      rw [this]
      congr 1
      funext v
      obtain ⟨s', r⟩ := v
      cases r with
      | error e => rfl
      | ok u =>
        simp only
        rw [ih, show (k + 1) * C = k * C + C by ring]
  simpa using this R 0 s

/-- Leftovers no longer than `B`. -/
def Bnd (B : Nat) (p : Planner T) : Prop := p.splitRe.length ≤ B ∧ p.bluScratch.length ≤ B

/-- With leftovers of at most `B`, a transform of length `n` behaves as on a fresh transformer. -/
def SafeAt (cfg : Cfg) (B n : Nat) : Prop :=
  B ≤ need n ∨ (isPow2 n = true ∧ (n ≤ 16 ∨ cfg.kind = .other))

omit [Flt T] in
theorem compat_of_safe {cfg : Cfg} {B n : Nat} {p : Planner T} (hB : Bnd B p) (hs : SafeAt cfg B n) :
    Compat cfg p n := by
  rcases hs with h | ⟨h, h'⟩
  · exact ⟨Or.inr (Or.inr (hB.1.trans h)), Or.inr (hB.2.trans h)⟩
  · refine ⟨?_, Or.inl h⟩
    rcases h' with h' | h'
    · left; rw [need, if_pos h]; exact h'
    · right; left; exact h'

/-- A pass over the disjoint lines `b q` (`q < Q`). -/
theorem pass_run (cfg : Cfg) {N s n m Q : Nat} {b : Nat → Nat}
    {step : Nat → NdSt T → Outcome (NdSt T × Res)}
    (hstep : ∀ q, q < Q → LineStep (T := T) cfg N (b q) s n m (step q))
    (hdis : ∀ q q' i i', q < Q → q' < Q → i < n → i' < n → b q + i * s = b q' + i' * s → q = q')
    (st : NdSt T) (hI : Inv cfg st.p) (hl : st.data.length = N) (hm : st.sc.length = m) (hQ : 0 < Q) :
    ∃ st', loopRes Q 0 st step = .ok (st', fftRes cfg n) ∧ Inv cfg st'.p ∧ st'.data.length = N ∧
      st'.sc.length = m ∧
      (∀ B, need n ≤ B → Bnd B st.p → Bnd B st'.p) ∧
      (∀ e, fftRes cfg n = .error e → st'.data = st.data) ∧
      (∀ B, need n ≤ B → Bnd B st.p → SafeAt cfg B n → fftRes cfg n = .ok () →
        ∀ q i, q < Q → i < n → st'.data.getD (b q + i * s) Cx.zero =
          (freshOut cfg (lineOf st.data (b q) s n)).getD i Cx.zero) ∧
      (fftRes cfg n = .ok () → ∀ i, i < n → st'.data.getD (b 0 + i * s) Cx.zero =
          (fftBuf cfg st.p (lineOf st.data (b 0) s n)).getD i Cx.zero) := by
  rcases fftRes_cases cfg n with hr | ⟨er, hr⟩
  · rw [hr]
    have key : ∀ cnt j (t : NdSt T), j + cnt = Q → Inv cfg t.p → t.data.length = N → t.sc.length = m →
        ∃ st', loopRes cnt j t step = .ok (st', .ok ()) ∧ Inv cfg st'.p ∧ st'.data.length = N ∧
          st'.sc.length = m ∧ (∀ B, need n ≤ B → Bnd B t.p → Bnd B st'.p) ∧
          (∀ k, (∀ q i, j ≤ q → q < Q → i < n → k ≠ b q + i * s) →
            st'.data.getD k Cx.zero = t.data.getD k Cx.zero) ∧
          (∀ B, need n ≤ B → Bnd B t.p → SafeAt cfg B n →
            ∀ q i, j ≤ q → q < Q → i < n → st'.data.getD (b q + i * s) Cx.zero =
              (freshOut cfg (lineOf t.data (b q) s n)).getD i Cx.zero) ∧
          (0 < cnt → ∀ i, i < n → st'.data.getD (b j + i * s) Cx.zero =
              (fftBuf cfg t.p (lineOf t.data (b j) s n)).getD i Cx.zero) := by
      intro cnt
      induction cnt with
      | zero =>
        intro j t hj h1 h2 h3
        exact ⟨t, rfl, h1, h2, h3, fun _ _ h => h, fun _ _ => rfl, fun _ _ _ _ q i h h' => by omega, fun h => by omega⟩
      | succ cnt ih =>
        intro j t hj h1 h2 h3
        obtain ⟨t1, e1, a1, a2, a3, a4, -, a6⟩ := (hstep j (by omega)).run t h1 h2 h3
        obtain ⟨a6, a7⟩ := a6 hr
        obtain ⟨st', e2, b1, b2, b3, b4, b5, b6, -⟩ := ih (j + 1) t1 (by omega) a1 a2 a3
        refine ⟨st', ?_, b1, b2, b3, ?_, ?_, ?_, ?_⟩
        · unfold loopRes
          rw [e1, hr]
          exact e2
        · intro B hB hb
          exact b4 B hB (a4 B hB hb.1 hb.2)
        · intro k hk
          rw [b5 k (fun q i hq hQ hi => hk q i (by omega) hQ hi), a7 k (fun i hi => hk j i le_rfl (by omega) hi)]
        · intro B hB hb hs q i hq hQ hi
          by_cases hqj : q = j
          · subst hqj
            rw [b5 _ (fun q' i' hq' hQ' hi' he => by
              have := hdis q q' i i' hQ hQ' hi hi' he; omega), a6 i hi,
              fftBuf_fresh cfg _ _ h1 (by simpa [lineOf] using hr)
                (by simpa [lineOf] using compat_of_safe hb hs)]
          · rw [b6 B hB (a4 B hB hb.1 hb.2) hs q i (by omega) hQ hi]
            congr 2
            unfold lineOf
            apply tab_congr
            intro i' hi'
            rw [a7]
            intro i'' hi'' he
            exact hqj (hdis q j i' i'' hQ (by omega) hi' hi'' he)
        · intro _ i hi
          rw [b5 _ (fun q' i' hq' hQ' hi' he => by
              have := hdis j q' i i' (by omega) hQ' hi hi' he; omega), a6 i hi]
    obtain ⟨st', e, b1, b2, b3, b4, b5, b6, b7⟩ := key Q 0 st (by omega) hI hl hm
    exact ⟨st', e, b1, b2, b3, b4, fun e h => by simp at h,
      fun B h1 h2 h3 _ q i hq hi => b6 B h1 h2 h3 q i (Nat.zero_le _) hq hi, fun _ => b7 hQ⟩
  · obtain ⟨t1, e1, a1, a2, a3, a4, a5, -⟩ := (hstep 0 hQ).run st hI hl hm
    obtain ⟨Q, rfl⟩ : ∃ Q', Q = Q' + 1 := ⟨Q - 1, by omega⟩
    refine ⟨t1, ?_, a1, a2, a3, fun B hB hb => a4 B hB hb.1 hb.2, a5, fun _ _ _ _ h => by rw [hr] at h; simp at h,
      fun h => by rw [hr] at h; simp at h⟩
    unfold loopRes
    rw [e1, hr]; rfl

/-! ### The passes of 2D and 3D transforms -/

theorem line_lt {R C c i : Nat} (hc : c < C) (hi : i < R) : c + i * C < R * C := by
  have : (i + 1) * C ≤ R * C := Nat.mul_le_mul_right _ hi
  rw [Nat.add_mul, Nat.one_mul] at this; omega

theorem divmod_inj {C a b i j : Nat} (ha : a < C) (hb : b < C) (h : a + i * C = b + j * C) :
    a = b ∧ i = j := by
  have h0 : 0 < C := by omega
  have h1 := congrArg (· % C) h
  have h2 := congrArg (· / C) h
  simp only [Nat.add_mul_mod_self_right, Nat.add_mul_div_right _ _ h0, Nat.mod_eq_of_lt ha,
    Nat.mod_eq_of_lt hb, Nat.div_eq_of_lt ha, Nat.div_eq_of_lt hb, Nat.zero_add] at h1 h2
  exact ⟨h1, h2⟩

theorem slice_pass (cfg : Cfg) {Q C N m : Nat} (hN : Q * C ≤ N) (hQ : 0 < Q)
    (st : NdSt T) (hI : Inv cfg st.p) (hl : st.data.length = N) (hm : st.sc.length = m) :
    ∃ st', loopRes Q 0 st (fun q s => sliceFft cfg (q * C) C s) = .ok (st', fftRes cfg C) ∧
      Inv cfg st'.p ∧ st'.data.length = N ∧ st'.sc.length = m ∧
      (∀ B, need C ≤ B → Bnd B st.p → Bnd B st'.p) ∧
      (∀ e, fftRes cfg C = .error e → st'.data = st.data) ∧
      (∀ B, need C ≤ B → Bnd B st.p → SafeAt cfg B C → fftRes cfg C = .ok () →
        ∀ q i, q < Q → i < C → st'.data.getD (q * C + i) Cx.zero =
          (freshOut cfg (lineOf st.data (q * C) 1 C)).getD i Cx.zero) ∧
      (fftRes cfg C = .ok () → ∀ i, i < C → st'.data.getD i Cx.zero =
          (fftBuf cfg st.p (lineOf st.data 0 1 C)).getD i Cx.zero) := by
  have h := pass_run (T := T) cfg (N := N) (s := 1) (n := C) (m := m) (Q := Q) (b := fun q => q * C)
    (step := fun q s => sliceFft cfg (q * C) C s)
    (fun q hq => sliceFft_line cfg m (by
      have : (q + 1) * C ≤ Q * C := Nat.mul_le_mul_right _ hq
      rw [Nat.add_mul, Nat.one_mul] at this; omega))
    (fun q q' i i' _ _ hi hi' he => (divmod_inj hi hi' (by simpa [Nat.add_comm] using he)).2)
    st hI hl hm hQ
  obtain ⟨st', e, b1, b2, b3, b4, b5, b6, b7⟩ := h
  exact ⟨st', e, b1, b2, b3, b4, b5, by simpa using b6, by simpa using b7⟩

theorem strided_pass (cfg : Cfg) {R C N : Nat} (hN : N = R * C) (hR : 0 < R) (hC : 0 < C)
    (st : NdSt T) (hI : Inv cfg st.p) (hl : st.data.length = N) (hm : st.sc.length = R) :
    ∃ st', loopRes C 0 st (fun c s => stridedAt cfg c C s) = .ok (st', fftRes cfg R) ∧
      Inv cfg st'.p ∧ st'.data.length = N ∧ st'.sc.length = R ∧
      (∀ B, need R ≤ B → Bnd B st.p → Bnd B st'.p) ∧
      (∀ e, fftRes cfg R = .error e → st'.data = st.data) ∧
      (∀ B, need R ≤ B → Bnd B st.p → SafeAt cfg B R → fftRes cfg R = .ok () →
        ∀ c i, c < C → i < R → st'.data.getD (c + i * C) Cx.zero =
          (freshOut cfg (lineOf st.data c C R)).getD i Cx.zero) ∧
      (fftRes cfg R = .ok () → ∀ i, i < R → st'.data.getD (0 + i * C) Cx.zero =
          (fftBuf cfg st.p (lineOf st.data 0 C R)).getD i Cx.zero) :=
  pass_run (T := T) cfg (N := N) (s := C) (n := R) (m := R) (Q := C) (b := fun c => c)
    (step := fun c s => stridedAt cfg c C s)
    (fun q hq => stridedAt_line cfg hC hR (by subst hN; exact line_lt hq (by omega)))
    (fun q q' i i' h h' hi hi' he => (divmod_inj h h' he).1)
    st hI hl hm hC

theorem plane_idx {D R C d c i : Nat} (hd : d < D) (hc : c < C) (hi : i < R) :
    d * R * C + c + i * C < D * R * C := by
  have h1 : c + i * C < R * C := line_lt hc hi
  have : (d + 1) * (R * C) ≤ D * (R * C) := Nat.mul_le_mul_right _ hd
  rw [Nat.add_mul, Nat.one_mul] at this
  rw [Nat.mul_assoc, Nat.mul_assoc]; omega

theorem plane_pass (cfg : Cfg) {D R C N : Nat} (hN : N = D * R * C) (hD : 0 < D) (hR : 0 < R) (hC : 0 < C)
    (st : NdSt T) (hI : Inv cfg st.p) (hl : st.data.length = N) (hm : st.sc.length = R) :
    ∃ st', loopRes D 0 st (fun d s => loopRes C 0 s fun c s => stridedAt cfg (d * R * C + c) C s) =
        .ok (st', fftRes cfg R) ∧
      Inv cfg st'.p ∧ st'.data.length = N ∧ st'.sc.length = R ∧
      (∀ B, need R ≤ B → Bnd B st.p → Bnd B st'.p) ∧
      (∀ e, fftRes cfg R = .error e → st'.data = st.data) ∧
      (∀ B, need R ≤ B → Bnd B st.p → SafeAt cfg B R → fftRes cfg R = .ok () →
        ∀ d c i, d < D → c < C → i < R → st'.data.getD (d * R * C + c + i * C) Cx.zero =
          (freshOut cfg (lineOf st.data (d * R * C + c) C R)).getD i Cx.zero) := by
  have hq : ∀ d c, c < C → (d * C + c) / C = d ∧ (d * C + c) % C = c := by
    intro d c hc
    rw [Nat.add_comm, Nat.add_mul_div_right _ _ hC, Nat.div_eq_of_lt hc, Nat.add_mul_mod_self_right,
      Nat.mod_eq_of_lt hc]
    simp
  have hqd : ∀ q, q < D * C → q / C < D := fun q h => Nat.div_lt_of_lt_mul (by rwa [Nat.mul_comm])
  have hqc : ∀ q, q % C < C := fun q => Nat.mod_lt _ hC
  have e : loopRes D 0 st (fun d s => loopRes C 0 s fun c s => stridedAt cfg (d * R * C + c) C s) =
      loopRes (D * C) 0 st fun q s => stridedAt cfg (q / C * R * C + q % C) C s := by
    rw [← loopRes_nested D C st]
    apply loopRes_congr
    intro d s _ _
    apply loopRes_congr
    intro c s _ hc
    rw [(hq d c (by omega)).1, (hq d c (by omega)).2]
  obtain ⟨st', e', h1, h2, h3, h4, h5, h6, -⟩ := pass_run (T := T) cfg (N := N) (s := C) (n := R) (m := R) (Q := D * C)
    (b := fun q => q / C * R * C + q % C)
    (step := fun q s => stridedAt cfg (q / C * R * C + q % C) C s)
    (fun q hq => stridedAt_line cfg hC hR (by
      subst hN; exact plane_idx (hqd q hq) (hqc q) (by omega)))
    (fun q q' i i' h h' hi hi' he => by
      have e1 : ∀ q i, q / C * R * C + q % C + i * C = q % C + (i + q / C * R) * C := by intros; ring
      rw [e1, e1] at he
      obtain ⟨a1, a2⟩ := divmod_inj (hqc q) (hqc q') he
      obtain ⟨-, a4⟩ := divmod_inj hi hi' a2
      rw [← Nat.div_add_mod q C, ← Nat.div_add_mod q' C, a1, a4])
    st hI hl hm (Nat.mul_pos hD hC)
  refine ⟨st', by rw [e]; exact e', h1, h2, h3, h4, h5, ?_⟩
  intro B hB hb hs hr d c i hd hc hi
  have := h6 B hB hb hs hr (d * C + c) i (by rw [Nat.add_comm]; exact line_lt hc hd) hi
  simpa only [(hq d c hc).1, (hq d c hc).2] using this

end Kofft
