import Verif.Proof.Api
/-
The split-complex interface.
-/
namespace Kofft

variable {T : Type} [Flt T]

omit [Flt T] in
theorem zip_tab (re im : List T) (h : re.length = im.length) (d : T) :
    List.zipWith Cx.mk re im = tab re.length (fun i => ⟨re.getD i d, im.getD i d⟩) := by
  conv_lhs => rw [eq_tab_getD re d, eq_tab_getD im d, ← h]
  rw [tab_zipWith]

omit [Flt T] in
theorem zip_map_re (re im : List T) (h : re.length = im.length) :
    (List.zipWith Cx.mk re im).map Cx.re = re := by
  apply List.ext_getElem
  · simp [h]
  · intro i h1 h2; simp

omit [Flt T] in
theorem zip_map_im (re im : List T) (h : re.length = im.length) :
    (List.zipWith Cx.mk re im).map Cx.im = im := by
  apply List.ext_getElem
  · simp [h]
  · intro i h1 h2; simp

/-- The write-back loop of the split interface. -/
theorem unzip_loop (buf : List (Cx T)) (re im : List T) (h1 : buf.length = re.length)
    (h2 : re.length = im.length) :
    forRange 0 re.length (re, im) (fun i (s : List T × List T) => do
      let c ← rd buf i
      let re ← wr s.1 i c.re
      let im ← wr s.2 i c.im
      pure (re, im)) = .ok (buf.map Cx.re, buf.map Cx.im) := by
  set n := re.length with hn
  rw [forRange_eq (fun k => (tab n (fun i => if i < k then (buf.getD i Cx.zero).re else re.getD i Flt.zero),
    tab n (fun i => if i < k then (buf.getD i Cx.zero).im else im.getD i Flt.zero))) (Nat.zero_le _)]
  · have e : buf = tab n (fun i => buf.getD i Cx.zero) := by rw [← h1]; exact eq_tab_getD _ _
    conv_rhs => rw [e, tab_map, tab_map]
    congr 2
    · exact tab_congr (fun i hi => by simp [hi])
    · exact tab_congr (fun i hi => by simp [hi])
  · simp only [Nat.not_lt_zero, if_false]
    rw [hn, ← eq_tab_getD, ← hn, h2, ← eq_tab_getD]
  · intro k _ hk
    rw [rd_getD Cx.zero (by omega)]
    simp only [Outcome.bind_ok]
    rw [wr_tab (by omega), Outcome.bind_ok, wr_tab (by omega), Outcome.bind_ok]
    simp only [Outcome.pure_eq]
    congr 2 <;>
    · apply tab_congr
      intro i _
      by_cases hik : i = k
      · simp [hik]
      · rw [if_neg hik]
        by_cases h2 : i < k
        · rw [if_pos h2, if_pos (by omega)]
        · rw [if_neg h2, if_neg (by omega)]

theorem zip_loop (re im : List T) (h : re.length = im.length) :
    forRange 0 re.length ([] : List (Cx T)) (fun i b => do
      let r ← rd re i
      let m ← rd im i
      pure (b ++ [⟨r, m⟩])) = .ok (List.zipWith Cx.mk re im) := by
  rw [zip_tab re im h Flt.zero,
    forRange_eq (fun k => tab k (fun i => (⟨re.getD i Flt.zero, im.getD i Flt.zero⟩ : Cx T)))
      (Nat.zero_le _)]
  · rfl
  · intro k _ hk
    rw [rd_getD Flt.zero hk, Outcome.bind_ok, rd_getD Flt.zero (by omega), Outcome.bind_ok,
      Outcome.pure_eq, tab_succ]

/-- `splitVia` in terms of the interleaved transform. -/
theorem splitVia_run {cfg : Cfg} {op : FftOp T} {out : Planner T → List (Cx T) → List (Cx T)}
    (ho : OpOk cfg op out) (p : Planner T) (re im : List T) (hI : Inv cfg p)
    (h : re.length = im.length) :
    ∃ p', splitVia op p re im = .ok (p',
        (match fftRes cfg re.length with
          | .ok _ => (out p (List.zipWith Cx.mk re im)).map Cx.re
          | .error _ => re),
        (match fftRes cfg re.length with
          | .ok _ => (out p (List.zipWith Cx.mk re im)).map Cx.im
          | .error _ => im), fftRes cfg re.length) ∧ Inv cfg p' := by
  have hz : (List.zipWith Cx.mk re im).length = re.length := by simp [h]
  obtain ⟨p', e, h1, h2, h3⟩ := ho.run p (List.zipWith Cx.mk re im) hI
  rw [hz] at e h2
  refine ⟨p', ?_, h1⟩
  unfold splitVia
  simp only [zip_loop re im h, Outcome.bind_ok, e]
  rcases fftRes_cases cfg re.length with hr | ⟨er, hr⟩
  · simp only [hr]
    rw [unzip_loop _ re im h2 h]
    rfl
  · simp only [hr]

/-- The interleaved value of a split transform. -/
def splitBuf (cfg : Cfg) (p : Planner T) (z : List (Cx T)) : List (Cx T) :=
  if isPow2 z.length = true ∧ 16 < z.length then stkOut cfg Cx.mulPlain z else fftBuf cfg p z

theorem splitSimd_run (cfg : Cfg) (p : Planner T) (re im : List T) (hI : Inv cfg p)
    (h : re.length = im.length) :
    ∃ p', splitSimd cfg (fft cfg) p re im = .ok (p',
        (splitBuf cfg p (List.zipWith Cx.mk re im)).map Cx.re,
        (splitBuf cfg p (List.zipWith Cx.mk re im)).map Cx.im, fftRes cfg re.length) ∧ Inv cfg p' ∧
      (splitBuf cfg p (List.zipWith Cx.mk re im)).length = re.length ∧
      (∀ B, need re.length ≤ B → p.splitRe.length ≤ B → p.bluScratch.length ≤ B →
        p'.splitRe.length ≤ B ∧ p'.bluScratch.length ≤ B) := by
  have hz : (List.zipWith Cx.mk re im).length = re.length := by simp [h]
  by_cases h0 : re.length = 0
  · refine ⟨p, ?_, hI, ?_, fun B _ h1 h2 => ⟨h1, h2⟩⟩
    · have e1 : re = [] := List.length_eq_zero_iff.mp h0
      have e2 : im = [] := List.length_eq_zero_iff.mp (by omega)
      subst e1 e2
      unfold splitSimd splitBuf
      simp [fftRes_zero, fftBuf]
    · unfold splitBuf
      rw [hz, if_neg (by omega), fftBuf_err (e := .EmptyInput), hz]
      rw [hz, h0, fftRes_zero]
  by_cases hp : isPow2 re.length = true ∧ 16 < re.length
  · obtain ⟨hp, h16⟩ := hp
    obtain ⟨K, hK, hLK⟩ := pow2_gt16 hp h16
    obtain ⟨c, a, b, hc, e⟩ := splitSimd_pow2 cfg (fft cfg) p
      (fun i => ⟨re.getD i Flt.zero, im.getD i Flt.zero⟩) K hK hI.cache
    have hb : splitBuf cfg p (List.zipWith Cx.mk re im) = stkOut cfg Cx.mulPlain
        (tab (2 ^ K) fun i => ⟨re.getD i Flt.zero, im.getD i Flt.zero⟩) := by
      unfold splitBuf
      rw [hz, if_pos ⟨hp, h16⟩, zip_tab re im h Flt.zero, ← hLK]
    rw [hb, stkOut_tab, tab_map, tab_map, tab_length]
    simp only at e
    rw [← hLK, ← eq_tab_getD, h, ← eq_tab_getD, ← h] at e
    refine ⟨{ p with cache := c, splitScratchRe := a, splitScratchIm := b }, ?_, ?_, hLK.symm, ?_⟩
    · rw [e, fftRes_pow2 cfg hp, hLK]
    · exact ⟨hc, hI.blu, hI.split, hI.scr⟩
    · exact fun B _ h1 h2 => ⟨h1, h2⟩
  · obtain ⟨p', e, h1, h2, h3⟩ := (fft_opOk cfg).run p (List.zipWith Cx.mk re im) hI
    rw [hz] at e h2 h3
    have hb : splitBuf cfg p (List.zipWith Cx.mk re im) = fftBuf cfg p (List.zipWith Cx.mk re im) := by
      unfold splitBuf; rw [hz, if_neg hp]
    have hcond : (!isPow2 re.length || decide (re.length ≤ 16)) = true := by
      simp only [not_and_or] at hp
      rcases hp with hp | hp
      · simp [hp]
      · simp [show re.length ≤ 16 by omega]
    rw [hb]
    refine ⟨p', ?_, h1, h2, h3⟩
    unfold splitSimd
    simp only [h0, hcond, if_false, if_true, e, Outcome.bind_ok]
    rcases fftRes_cases cfg re.length with hr | ⟨er, hr⟩
    · simp only [hr]
      rw [unzip_loop _ re im h2 h]
      rfl
    · simp only [hr]
      rw [fftBuf_err cfg p _ (by rw [hz]; exact hr), zip_map_re re im h, zip_map_im re im h]

/-- For f32/f64 and power-of-two lengths, the split result is the fresh interleaved one. -/
theorem splitBuf_pow2 (cfg : Cfg) (p : Planner T) (z : List (Cx T)) (hp : isPow2 z.length = true)
    (hk : cfg.kind = .f32 ∨ cfg.kind = .f64) : splitBuf cfg p z = freshOut cfg z := by
  unfold splitBuf freshOut
  rw [if_pos hp]
  by_cases h16 : 16 < z.length
  · rw [if_pos ⟨hp, h16⟩]
    unfold freshPow powOut bigOut
    rw [if_neg (by omega), if_neg (by omega), if_pos hk, stale_nil _ _ (by simp [Planner.new]),
      List.append_nil, List.take_of_length_le (by rw [stkOut_length])]
  · rw [if_neg (by omega), fftBuf, fftRes_pow2 cfg hp]
    simp only [fftOut, hp, if_true]
    exact powOut_fresh cfg p z (Or.inl (by omega))

theorem splitBuf_fresh (cfg : Cfg) (p : Planner T) (z : List (Cx T)) (hI : Inv cfg p)
    (hr : fftRes cfg z.length = .ok ()) (hc : Compat cfg p z.length)
    (hk : cfg.kind = .f32 ∨ cfg.kind = .f64) : splitBuf cfg p z = freshOut cfg z := by
  by_cases hp : isPow2 z.length = true
  · exact splitBuf_pow2 cfg p z hp hk
  · unfold splitBuf
    rw [if_neg (by tauto), fftBuf_fresh cfg p z hI hr hc]

end Kofft
