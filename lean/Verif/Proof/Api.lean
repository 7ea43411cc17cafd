import Verif.Model.Api
import Verif.Proof.RunFft
/-
Consequences of `fft_run` for the rest of the scalar interface.
-/
namespace Kofft

variable {T : Type} [Flt T]

/-! ### Which part of the planner matters -/

/-- Two planners that agree on the leftovers `fft` can see. -/
def Agree (p q : Planner T) : Prop :=
  p.splitRe = q.splitRe ∧ p.splitIm = q.splitIm ∧ p.bluScratch = q.bluScratch

theorem bluRun_congr (cfg : Cfg) {p q : Planner T} (h : Agree p q) (x : List (Cx T)) :
    bluRun cfg p x = bluRun cfg q x := by
  obtain ⟨h1, h2, h3⟩ := h
  unfold bluRun
  simp only [h3, powOut_congr cfg h1 h2, powNext_congr' cfg h1 h2]
  generalize hp1 : ({ p with bluScratch := q.bluScratch, splitRe := _, splitIm := _ } : Planner T) = p1
  generalize hq1 : ({ q with splitRe := _, splitIm := _ } : Planner T) = q1
  have e1 : p1.splitRe = q1.splitRe := by subst hp1 hq1; rfl
  have e2 : p1.splitIm = q1.splitIm := by subst hp1 hq1; rfl
  simp only [powOut_congr cfg e1 e2, powNext_congr' cfg e1 e2]

theorem fftOut_congr (cfg : Cfg) {p q : Planner T} (h : Agree p q) (x : List (Cx T)) :
    fftOut cfg p x = fftOut cfg q x := by
  unfold fftOut
  rw [bluRun_congr cfg h, powOut_congr cfg h.1 h.2.1, powNext_congr' cfg h.1 h.2.1, h.2.2]

theorem fftRes_cases (cfg : Cfg) (n : Nat) :
    fftRes cfg n = .ok () ∨ ∃ e, fftRes cfg n = .error e := by
  cases h : fftRes cfg n with
  | ok u => left; rfl
  | error e => right; exact ⟨e, rfl⟩

/-- `op` behaves like a total in-place transform with the error codes of `fft`, whose outcome
depends on the planner only through the leftovers. -/
structure OpOk (cfg : Cfg) (op : FftOp T) (out : Planner T → List (Cx T) → List (Cx T)) : Prop where
  run : ∀ p x, Inv cfg p → ∃ p', op p x = .ok (p', out p x, fftRes cfg x.length) ∧ Inv cfg p' ∧
    (out p x).length = x.length ∧
    (∀ B, need x.length ≤ B → p.splitRe.length ≤ B → p.bluScratch.length ≤ B →
        p'.splitRe.length ≤ B ∧ p'.bluScratch.length ≤ B)
  agree : ∀ p q x p' q' y z r s, Inv cfg p → Inv cfg q → Agree p q →
    op p x = .ok (p', y, r) → op q x = .ok (q', z, s) → y = z ∧ r = s ∧ Agree p' q'

/-- What `fft` leaves in the buffer. -/
def fftBuf (cfg : Cfg) (p : Planner T) (x : List (Cx T)) : List (Cx T) :=
  match fftRes cfg x.length with
  | .ok _ => (fftOut cfg p x).1
  | .error _ => x

theorem fft_opOk (cfg : Cfg) : OpOk (T := T) cfg (fft cfg) (fftBuf cfg) := by
  constructor
  · intro p x hI
    obtain ⟨p', y, e, h1, h2, h3, h4, h5, h6, h7⟩ := fft_run cfg p x hI
    have hy : y = fftBuf cfg p x := by
      unfold fftBuf
      rcases fftRes_cases cfg x.length with h | ⟨e, h⟩
      · rw [h]; simp only; rw [← h6 h]
      · rw [h]; exact (h3 e h).1
    subst hy
    exact ⟨p', e, h1, h2, h7⟩
  · intro p q x p' q' y z r s hp hq ha e1 e2
    obtain ⟨p1, y1, e1', h1, h2, h3, h4, h5, h6, h7⟩ := fft_run cfg p x hp
    obtain ⟨q1, z1, e2', g1, g2, g3, g4, g5, g6, g7⟩ := fft_run cfg q x hq
    rw [e1] at e1'; rw [e2] at e2'
    simp only [Outcome.ok.injEq, Prod.mk.injEq] at e1' e2'
    obtain ⟨rfl, rfl, rfl⟩ := e1'
    obtain ⟨rfl, rfl, rfl⟩ := e2'
    rcases fftRes_cases cfg x.length with h | ⟨e, h⟩
    · have a := h6 h
      have b := g6 h
      rw [fftOut_congr cfg ha, ← b] at a
      simp only [Prod.mk.injEq] at a
      exact ⟨a.1, rfl, a.2.1.1, a.2.1.2, a.2.2⟩
    · obtain ⟨rfl, rfl⟩ := h3 e h
      obtain ⟨rfl, rfl⟩ := g3 e h
      exact ⟨rfl, rfl, ha⟩

theorem fftBuf_fresh (cfg : Cfg) (p : Planner T) (x : List (Cx T)) (hI : Inv cfg p)
    (hr : fftRes cfg x.length = .ok ()) (hc : Compat cfg p x.length) :
    fftBuf cfg p x = freshOut cfg x := by
  obtain ⟨p', y, e, h1, h2, h3, h4, h5, h6, h7⟩ := fft_run cfg p x hI
  rw [← h4 hr hc, fftBuf, hr]
  simp only
  rw [← h6 hr]

theorem fftBuf_err (cfg : Cfg) (p : Planner T) (x : List (Cx T)) {e : FftError}
    (hr : fftRes cfg x.length = .error e) : fftBuf cfg p x = x := by
  rw [fftBuf, hr]

/-! ### `ifft` -/

/-- What `ifft` leaves in the buffer. -/
def ifftBuf (cfg : Cfg) (p : Planner T) (x : List (Cx T)) : List (Cx T) :=
  if x.length = 0 ∨ x.length = 1 then x
  else
    match fftRes cfg x.length with
    | .ok _ => (fftBuf cfg p (x.map Cx.conj)).map (ifftPost (Flt.one /. Flt.ofNat x.length))
    | .error _ => x.map Cx.conj

theorem fftRes_zero (cfg : Cfg) : fftRes cfg 0 = .error .EmptyInput := by simp [fftRes]

theorem fftRes_one (cfg : Cfg) : fftRes cfg 1 = .ok () := by
  have : isPow2 1 = true := by decide
  simp [fftRes, this]

theorem fftRes_pow2 (cfg : Cfg) {n : Nat} (h : isPow2 n = true) : fftRes cfg n = .ok () := by
  have := isPow2_pos h
  have h0 : n ≠ 0 := by omega
  simp [fftRes, h, h0]

theorem fftRes_std {cfg : Cfg} (hs : cfg.std = true) {n : Nat} (h : 0 < n) :
    fftRes cfg n = .ok () := by
  have h0 : n ≠ 0 := by omega
  simp [fftRes, hs, h0]

theorem ifft_opOk (cfg : Cfg) : OpOk (T := T) cfg (ifft cfg) (ifftBuf cfg) := by
  have hl : ∀ x : List (Cx T), (x.map Cx.conj).length = x.length := by simp
  constructor
  · intro p x hI
    by_cases h0 : x.length = 0
    · have hx : x = [] := List.length_eq_zero_iff.mp h0
      subst hx
      exact ⟨p, by simp [ifft, ifftWith, ifftBuf, fftRes_zero], hI, rfl, fun B _ h1 h2 => ⟨h1, h2⟩⟩
    by_cases h1 : x.length = 1
    · exact ⟨p, by simp [ifft, ifftWith, ifftBuf, h1, fftRes_one], hI, by simp [ifftBuf, h1],
        fun B _ h1 h2 => ⟨h1, h2⟩⟩
    obtain ⟨p', e, i1, i2, i3⟩ := (fft_opOk cfg).run p (x.map Cx.conj) hI
    rw [hl] at e i2 i3
    refine ⟨p', ?_, i1, ?_, i3⟩
    · unfold ifft ifftWith ifftBuf
      simp only [h0, h1, if_false, e, Outcome.bind_ok, false_or]
      rcases fftRes_cases cfg x.length with h | ⟨e, h⟩
      · simp only [h]
      · simp only [h]
        rw [fftBuf_err cfg p (x.map Cx.conj) (by rw [hl]; exact h)]
    · unfold ifftBuf
      simp only [h0, h1, if_false, false_or]
      rcases fftRes_cases cfg x.length with h | ⟨e, h⟩
      · simp only [h]; simpa using i2
      · simp only [h]; simp
  · intro p q x p' q' y z r s hp hq ha e1 e2
    unfold ifft ifftWith at e1 e2
    by_cases h0 : x.length = 0
    · simp only [h0, if_true, Outcome.ok.injEq, Prod.mk.injEq] at e1 e2
      obtain ⟨rfl, rfl, rfl⟩ := e1
      obtain ⟨rfl, rfl, rfl⟩ := e2
      exact ⟨rfl, rfl, ha⟩
    by_cases h1 : x.length = 1
    · simp only [h1, if_true, Nat.one_ne_zero, if_false, Outcome.ok.injEq, Prod.mk.injEq] at e1 e2
      obtain ⟨rfl, rfl, rfl⟩ := e1
      obtain ⟨rfl, rfl, rfl⟩ := e2
      exact ⟨rfl, rfl, ha⟩
    obtain ⟨p1, f1, -⟩ := (fft_opOk cfg).run p (x.map Cx.conj) hp
    obtain ⟨q1, f2, -⟩ := (fft_opOk cfg).run q (x.map Cx.conj) hq
    obtain ⟨k1, -, k3⟩ := (fft_opOk cfg).agree _ _ _ _ _ _ _ _ _ hp hq ha f1 f2
    simp only [h0, h1, if_false, f1, f2, Outcome.bind_ok] at e1 e2
    rcases fftRes_cases cfg (x.map Cx.conj).length with h | ⟨e, h⟩
    · simp only [h, Outcome.ok.injEq, Prod.mk.injEq] at e1 e2
      obtain ⟨rfl, rfl, rfl⟩ := e1
      obtain ⟨rfl, rfl, rfl⟩ := e2
      exact ⟨by rw [k1], rfl, k3⟩
    · simp only [h, Outcome.ok.injEq, Prod.mk.injEq] at e1 e2
      obtain ⟨rfl, rfl, rfl⟩ := e1
      obtain ⟨rfl, rfl, rfl⟩ := e2
      exact ⟨by rw [k1], rfl, k3⟩

/-! ### `stockham_fft` -/

theorem splitSimd_fft_irrel (cfg : Cfg) (f g : FftOp T) (p : Planner T) (re im : List T)
    (h : isPow2 re.length = true) (h16 : 16 < re.length) :
    splitSimd cfg f p re im = splitSimd cfg g p re im := by
  unfold splitSimd
  have h0 : ¬ re.length = 0 := by omega
  have h1 : ¬ re.length ≤ 16 := by omega
  simp only [h0, h, h1, if_false, Bool.not_true, decide_false, Bool.or_self, Bool.false_eq_true]

theorem stockham_fft_irrel (cfg : Cfg) (f g : FftOp T) (p : Planner T) (x : List (Cx T))
    (hs : SplitOk p) (h : isPow2 x.length = true) (h16 : 16 < x.length) :
    stockham cfg f p x = stockham cfg g p x := by
  unfold stockham
  have h0 : ¬ x.length = 0 := by omega
  have h1 : ¬ x.length ≤ 16 := by omega
  simp only [h0, h, h1, if_false, Bool.not_true, Bool.false_eq_true]
  by_cases hk : cfg.kind = .f32 ∨ cfg.kind = .f64
  · simp only [hk, if_true]
    have hl : (copyPrefix (x.map Cx.re) (grow (p.getTwiddles cfg x.length).1.splitRe x.length
        Flt.zero)).length = max p.splitRe.length x.length := by
      rw [copyPrefix_length, grow_length]
      congr 1
      unfold Planner.getTwiddles
      split
      · rfl
      · split <;> rfl
    rw [splitSimd_fft_irrel cfg f g]
    · rw [hl]
      rcases hs.2 with h' | h'
      · rw [h']; simpa using h
      · exact max_pow2 h'.1 h
    · rw [hl]; omega
  · simp only [hk, if_false]

theorem stockhamFft_eq (cfg : Cfg) (p : Planner T) (x : List (Cx T)) (hI : Inv cfg p)
    (hn : 2 ≤ x.length) : stockhamFft cfg p x = fft cfg p x := by
  have h0 : ¬ x.length = 0 := by omega
  have h1 : ¬ x.length = 1 := by omega
  by_cases hp : isPow2 x.length = true
  · by_cases h16 : x.length ≤ 16
    · have e : fft cfg p x = fftBody cfg (fftF cfg 3) p x := rfl
      rw [e]
      unfold stockhamFft stockham fftBody
      simp only [h0, h1, hp, h16, if_false, if_true, decide_true, Bool.and_self, Bool.not_true,
        Bool.false_eq_true]
    · have e : fft cfg p x = fftBody cfg (fftF cfg 3) p x := rfl
      rw [e]
      unfold stockhamFft fftBody
      have hand := (and_pred_eq_zero_iff (by omega)).mpr hp
      simp only [h0, h1, hp, h16, hand, if_false, if_true, decide_false, Bool.false_and,
        Bool.false_eq_true]
      exact stockham_fft_irrel cfg _ _ p x hI.split hp (by omega)
  · have hp' : isPow2 x.length = false := by simpa using hp
    unfold stockhamFft stockham
    simp only [h0, hp', if_false, Bool.not_false, if_true]

theorem stockhamFft_one (cfg : Cfg) (p : Planner T) (x : List (Cx T)) (hn : x.length = 1) :
    stockhamFft cfg p x = .panic := by
  have hp : isPow2 1 = true := by decide
  unfold stockhamFft stockham smallKernel
  simp [hn, hp]

theorem stockhamFft_zero (cfg : Cfg) (p : Planner T) (x : List (Cx T)) (hn : x.length = 0) :
    stockhamFft cfg p x = .ok (p, x, .error .EmptyInput) := by
  unfold stockhamFft stockham
  simp [hn]

/-! ### Gathering and scattering -/

theorem gather_tab (src : List (Cx T)) (stride n : Nat) (dst : List (Cx T)) (hn : n ≤ dst.length)
    (hs : ∀ i, i < n → i * stride < src.length) :
    gather src stride n dst =
      .ok (tab n (fun i => src.getD (i * stride) Cx.zero) ++ dst.drop n) := by
  unfold gather
  rw [forRange_eq (fun k => tab dst.length
    (fun i => if i < k then src.getD (i * stride) Cx.zero else dst.getD i Cx.zero)) (Nat.zero_le _)]
  · congr 1
    rw [← (copyN_tab (m := n) (n := n) (k := dst.length)
      (f := fun i => src.getD (i * stride) Cx.zero) (g := fun i => dst.getD i Cx.zero)
      le_rfl hn).2, ← eq_tab_getD, List.take_of_length_le (by simp)]
  · conv_lhs => rw [eq_tab_getD dst Cx.zero]
    exact tab_congr (by simp)
  · intro k _ hk
    rw [rd_getD Cx.zero (hs k hk), Outcome.bind_ok, wr_tab (by omega)]
    congr 1
    apply tab_congr
    intro i _
    by_cases hik : i = k
    · simp [hik]
    · rw [if_neg hik]
      by_cases h2 : i < k
      · rw [if_pos h2, if_pos (by omega)]
      · rw [if_neg h2, if_neg (by omega)]

theorem scatter_tab (src : List (Cx T)) (stride n : Nat) (dst : List (Cx T)) (h0 : 0 < stride)
    (hn : n ≤ src.length) (hd : ∀ i, i < n → i * stride < dst.length) :
    scatter src stride n dst = .ok (tab dst.length fun k =>
      if k % stride = 0 ∧ k / stride < n then src.getD (k / stride) Cx.zero
      else dst.getD k Cx.zero) := by
  unfold scatter
  rw [forRange_eq (fun m => tab dst.length fun k =>
      if k % stride = 0 ∧ k / stride < m then src.getD (k / stride) Cx.zero
      else dst.getD k Cx.zero) (Nat.zero_le _)]
  · conv_lhs => rw [eq_tab_getD dst Cx.zero]
    exact tab_congr (by simp)
  · intro m _ hm
    rw [rd_getD Cx.zero (show m < src.length by omega), Outcome.bind_ok, wr_tab (hd m hm)]
    congr 1
    apply tab_congr
    intro k _
    by_cases hik : k = m * stride
    · subst hik
      rw [if_pos rfl, Nat.mul_mod_left, Nat.mul_div_cancel _ h0, if_pos ⟨rfl, by omega⟩]
    · rw [if_neg hik]
      by_cases h2 : k % stride = 0 ∧ k / stride < m
      · rw [if_pos h2, if_pos ⟨h2.1, by omega⟩]
      · rw [if_neg h2, if_neg]
        rintro ⟨h3, h4⟩
        apply h2
        refine ⟨h3, ?_⟩
        by_contra h5
        have : k / stride = m := by omega
        have := Nat.div_add_mod k stride
        apply hik
        rw [h3] at this
        rw [← ‹k / stride = m›, Nat.mul_comm]
        omega

end Kofft
