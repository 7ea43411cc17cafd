import Verif.Proof.Crash
import Verif.Proof.Dft
import Verif.Props.Core
/-
C91: a call that is abandoned half way (a panic unwinds out of it and is caught) leaves a usable transformer behind.
-/
namespace Kofft.Props
open Spec

section
variable {T : Type} [Flt T]

/-- The instants of a call include its beginning and, if it returns, its end. -/
theorem during_begin_end (cfg : Cfg) (p : Planner T) (c : Method T) :
    p ∈ c.during cfg p ∧ ∀ q, c.after cfg p = .ok q → q ∈ c.during cfg p :=
  ⟨method_entry cfg p c, fun q e => method_exit cfg p q c e⟩

theorem strided_returns {cfg : Cfg} {op : FftOp T} {out} (ho : OpOk cfg op out) (p : Planner T) (hI : Inv cfg p) (x : List (Cx T))
    (stride : Nat) (sc : List (Cx T)) : ∃ v, strided op p x stride sc = .ok v := by
  by_cases h0 : stride = 0
  · exact ⟨_, by unfold strided; rw [if_pos h0]⟩
  by_cases h1 : sc.length = 0
  · exact ⟨_, by unfold strided; simp only; rw [if_neg h0, if_pos h1]⟩
  by_cases h2 : x.length < (sc.length - 1) * stride + 1
  · exact ⟨_, by unfold strided; simp only; rw [if_neg h0, if_neg h1, if_pos h2]⟩
  obtain ⟨p1, -, e1, -⟩ := strided_run ho p x stride sc hI (by omega) (by omega) (by omega)
  exact ⟨_, e1⟩

/-- C91a. After any session in which calls returned or were abandoned at any instant, every further method call returns - no
panic, no endless loop -, except `stockham_fft` of a single element, which always panics. -/
theorem abandoned_then_returns (cfg : Cfg) (p : Planner T) (hp : Survives cfg (fun _ => True) p) (c : Method T)
    (hc : ∀ x, c = .stockham x → x.length ≠ 1) : ∃ q, c.after cfg p = .ok q := by
  have hI := survives_inv hp
  have op : ∀ inv : Bool, ∃ out, OpOk (T := T) cfg (if inv then ifft cfg else fft cfg) out := by
    intro inv; cases inv
    · exact ⟨_, fft_opOk cfg⟩
    · exact ⟨_, ifft_opOk cfg⟩
  have fin : ∀ {β : Type} {o : Outcome (Planner T × β)}, (∃ v, o = .ok v) → ∃ q, (o >>= fun v => Outcome.ok v.1) = .ok q := by
    rintro β o ⟨v, rfl⟩; exact ⟨v.1, rfl⟩
  have hfft : ∀ x, ∃ v, fft cfg p x = .ok v := fun x => by
    obtain ⟨p', e, -⟩ := (fft_opOk cfg).run p x hI; exact ⟨_, e⟩
  have hifft : ∀ x, ∃ v, ifft cfg p x = .ok v := fun x => by
    obtain ⟨p', e, -⟩ := (ifft_opOk cfg).run p x hI; exact ⟨_, e⟩
  have hr4 : ∀ x, ∃ v, fftRadix4 cfg p x = .ok v := fun x => by
    by_cases h2 : isPow2 x.length = true ∧ x.length.log2 % 2 = 0
    · obtain ⟨p1, y1, e1, -⟩ := fftRadix4_ok cfg p x hI h2.1 h2.2; exact ⟨_, e1⟩
    · rw [fftRadix4_fallback cfg p x (by
        rcases not_and_or.mp h2 with h | h
        · left; simpa using h
        · exact Or.inr h)]
      exact hfft x
  have hst : ∀ x : List (Cx T), x.length ≠ 1 → ∃ v, stockhamFft cfg p x = .ok v := fun x h1 => by
    by_cases h0 : x.length = 0
    · exact ⟨_, stockhamFft_zero cfg p x h0⟩
    · rw [stockhamFft_eq cfg p x hI (by omega)]; exact hfft x
  have hsp : ∀ re im : List T, re.length = im.length → ∃ v, splitSimd cfg (fft cfg) p re im = .ok v := fun re im hl => by
    obtain ⟨p1, e1, -⟩ := splitSimd_run cfg p re im hI hl; exact ⟨_, e1⟩
  have hvia : ∀ (o : FftOp T) (out), OpOk cfg o out → ∀ re im : List T, re.length = im.length →
      ∃ v, splitVia o p re im = .ok v := fun o out ho re im hl => by
    have hz : (List.zipWith Cx.mk re im).length = re.length := by simp [hl]
    obtain ⟨p1, e1, h1, h2, h3⟩ := ho.run p (List.zipWith Cx.mk re im) hI
    rw [hz] at e1 h2
    unfold splitVia
    simp only [zip_loop re im hl, Outcome.bind_ok, e1]
    rcases fftRes_cases cfg re.length with hr | ⟨er, hr⟩
    · simp only [hr]
      rw [unzip_loop _ re im h2 hl]
      exact ⟨_, rfl⟩
    · simp only [hr]; exact ⟨_, rfl⟩
  cases c with
  | plain inv x =>
    cases inv
    · exact fin (hfft x)
    · exact fin (hifft x)
  | stockham x => exact fin (hst x (hc x rfl))
  | radix4 x => exact fin (hr4 x)
  | strategy st x =>
    refine fin ?_
    unfold fftWithStrategy
    simp only
    split
    · exact ⟨_, rfl⟩
    split
    · exact ⟨_, rfl⟩
    rename_i h1
    split
    · exact hfft x
    · split
      · exact hr4 x
      · exact hfft x
    · exact hst x h1
    · exact hfft x
  | split inv re im =>
    cases inv
    · refine fin (o := fftSplit cfg p re im) ?_
      unfold fftSplit
      split
      · exact ⟨_, rfl⟩
      rename_i hl
      have hl : re.length = im.length := by simpa using hl
      split
      · exact hsp re im hl
      · exact hvia _ _ (fft_opOk cfg) re im hl
    · refine fin (o := ifftSplit cfg p re im) ?_
      unfold ifftSplit
      split
      · exact ⟨_, rfl⟩
      rename_i hl
      have hl : re.length = im.length := by simpa using hl
      split
      · obtain ⟨v, hv⟩ := hsp re (im.map Flt.neg) (by simpa using hl)
        obtain ⟨a, b, c, r⟩ := v
        simp only [hv, Outcome.bind_ok]
        cases r <;> exact ⟨_, rfl⟩
      · exact hvia _ _ (ifft_opOk cfg) re im hl
  | strided inv x stride sc =>
    obtain ⟨out, ho⟩ := op inv
    exact fin (strided_returns ho p hI x stride sc)
  | stridedAlloc inv x stride =>
    obtain ⟨out, ho⟩ := op inv
    refine fin ?_
    unfold stridedAlloc
    simp only
    obtain ⟨v, hv⟩ := strided_returns ho { p with scratch := [] } (hI.withScratch []) x stride
      ((grow p.scratch (if stride = 0 then 0 else x.length / stride) Cx.zero).take (if stride = 0 then 0 else x.length / stride))
    obtain ⟨a, b, c, d⟩ := v
    rw [hv]
    exact ⟨_, rfl⟩
  | oopStrided inv x si o so =>
    obtain ⟨out, ho⟩ := op inv
    refine fin ?_
    by_cases h1 : si = 0 ∨ so = 0
    · exact ⟨_, by unfold oopStrided; rw [if_pos h1]⟩
    by_cases h2 : x.length % si ≠ 0 ∨ o.length % so ≠ 0
    · exact ⟨_, by unfold oopStrided; rw [if_neg h1, if_pos h2]⟩
    by_cases h3 : o.length / so ≠ x.length / si
    · exact ⟨_, by unfold oopStrided; simp only; rw [if_neg h1, if_neg h2, if_pos h3]⟩
    push Not at h1 h2 h3
    have hx : x.length = x.length / si * si := by
      have := Nat.div_add_mod x.length si; rw [h2.1, Nat.mul_comm] at this; omega
    have hy : o.length = x.length / si * so := by
      have := Nat.div_add_mod o.length so; rw [h2.2, Nat.mul_comm, h3] at this; omega
    obtain ⟨p1, s, e0, e1, -⟩ := oopStrided_run ho p x si o so _ hI (by omega) (by omega) hx hy
    exact ⟨_, e1⟩

/-- C91b. After such a session `fft` and `ifft` return exactly what they return on a new transformer - same buffer, same code -,
provided no call of the session, finished or abandoned, used a larger internal size. -/
theorem abandoned_then_fresh (cfg : Cfg) (x : List (Cx T)) (p : Planner T)
    (hp : Survives cfg (fun m => workSize m ≤ workSize x.length) p) :
    (∃ p1 p2 y r, fft cfg p x = .ok (p1, y, r) ∧ fft cfg Planner.new x = .ok (p2, y, r)) ∧
    (∃ p1 p2 y r, ifft cfg p x = .ok (p1, y, r) ∧ ifft cfg Planner.new x = .ok (p2, y, r)) := by
  have hI := survives_inv hp
  have hB := survives_invB (B := need x.length) (fun m hm => hm) hp
  have hc : Compat cfg p x.length := ⟨Or.inr (Or.inr hB.2.1), Or.inr hB.2.2⟩
  constructor
  · obtain ⟨p1, e1, -⟩ := (fft_opOk cfg).run p x hI
    obtain ⟨p2, e2, -⟩ := (fft_opOk cfg).run (Planner.new : Planner T) x (inv_new cfg)
    have : fftBuf cfg p x = fftBuf cfg Planner.new x := by
      rcases fftRes_cases cfg x.length with hr | ⟨er, hr⟩
      · rw [fftBuf_fresh cfg p x hI hr hc, fftBuf_fresh cfg _ x (inv_new cfg) hr (compat_new cfg _)]
      · rw [fftBuf_err cfg p x hr, fftBuf_err cfg _ x hr]
    rw [this] at e1
    exact ⟨p1, p2, _, _, e1, e2⟩
  · obtain ⟨p1, e1, -⟩ := (ifft_opOk cfg).run p x hI
    obtain ⟨p2, e2, -⟩ := (ifft_opOk cfg).run (Planner.new : Planner T) x (inv_new cfg)
    have : ifftBuf cfg p x = ifftBuf cfg Planner.new x := by
      unfold ifftBuf
      split
      · rfl
      · rcases fftRes_cases cfg x.length with hr | ⟨er, hr⟩
        · have hr' : fftRes cfg (x.map Cx.conj).length = .ok () := by simpa using hr
          rw [fftBuf_fresh cfg p (x.map Cx.conj) hI hr' (by simpa using hc),
            fftBuf_fresh cfg _ (x.map Cx.conj) (inv_new cfg) hr' (compat_new cfg _)]
        · have hr' : fftRes cfg (x.map Cx.conj).length = .error er := by simpa using hr
          rw [fftBuf_err cfg p _ hr', fftBuf_err cfg _ _ hr']
    rw [this] at e1
    exact ⟨p1, p2, _, _, e1, e2⟩

/-- Non-vacuity: a 64-point transform abandoned after its buffers were taken out - the table stays, the buffers are gone -, then a
64-point transform on what is left. -/
example (x : List (Cx T)) (hx : x.length = 64) : ∃ q : Planner T,
    Survives ⟨true, .f32, false, 4, false⟩ (fun m => workSize m ≤ workSize x.length) q ∧ q.cache 64 ≠ none ∧ q.splitRe = [] ∧
      ∃ p1 p2 y r, fft ⟨true, .f32, false, 4, false⟩ q x = .ok (p1, y, r) ∧
        fft ⟨true, .f32, false, 4, false⟩ Planner.new x = .ok (p2, y, r) := by
  have hs : Survives ⟨true, .f32, false, 4, false⟩ (fun m => workSize m ≤ workSize x.length)
      { ((Planner.new : Planner T).getTwiddles ⟨true, .f32, false, 4, false⟩ 64).1 with
        scratch := [], splitRe := [], splitIm := [] } := by
    refine .abandoned (.plain false x) .new (le_refl _) ?_
    have hp : isPow2 64 = true := by decide
    simp [Method.during, fftSeen, fftSeenF, fftDepth, fftSeenBody, stockhamSeen, hx, hp]
  refine ⟨_, hs, ?_, rfl, (abandoned_then_fresh _ x _ hs).1⟩
  simp [Planner.getTwiddles, Planner.new, preLookup]

end

/-- C91c. So, in exact arithmetic, they are the DFT and the inverse DFT. -/
theorem abandoned_then_dft [F : Flt ℝ] (hF : Lawful F) (cfg : Cfg) (x : List (Cx ℝ)) (hx : 0 < x.length)
    (hn : cfg.std = true ∨ ∃ k, x.length = 2 ^ k) (p : Planner ℝ)
    (hp : Survives cfg (fun m => workSize m ≤ workSize x.length) p) :
    (∃ p' y, fft cfg p x = .ok (p', y, .ok ()) ∧ IsDft x y) ∧ ∃ p' y, ifft cfg p x = .ok (p', y, .ok ()) ∧ IsIdft x y := by
  obtain ⟨⟨p1, p2, y, r, e1, e2⟩, q1, q2, z, s, f1, f2⟩ := abandoned_then_fresh cfg x p hp
  obtain ⟨a, b, ea, hd⟩ := fft_is_dft_used hF cfg x hx hn Planner.new .new
  obtain ⟨c, d, ec, hi⟩ := ifft_is_idft hF cfg x hx hn Planner.new .new
  rw [e2] at ea
  rw [f2] at ec
  simp only [Outcome.ok.injEq, Prod.mk.injEq] at ea ec
  obtain ⟨-, rfl, rfl⟩ := ea
  obtain ⟨-, rfl, rfl⟩ := ec
  exact ⟨⟨p1, _, e1, hd⟩, q1, _, f1, hi⟩

end Kofft.Props
