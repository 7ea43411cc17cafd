import Verif.Props.History
import Verif.Proof.HistBlu
import Verif.Spec.History
/-
C79, every length: exactly which lengths a used transformer still transforms correctly.
-/
namespace Kofft.Props
open Spec

/-- The unit impulse at index 0, of length `n`. -/
noncomputable def _root_.Kofft.Spec.impulse0 (n : ℕ) : List (Cx ℝ) := tab n (fun t => if t = 0 then ⟨1, 0⟩ else ⟨0, 0⟩)

/-- Not a power of two: one of two inputs gets a wrong answer when either leftover is too long. -/
theorem wrong_of_long_blu [F : Flt ℝ] (hF : Lawful F) (cfg : Cfg) (hstd : cfg.std = true) (p : Planner ℝ) (hI : Inv cfg p) (n : ℕ)
    (hn : 0 < n) (hnp : isPow2 n = false)
    (hL : workSize n < p.bluScratch.length ∨
      (16 < workSize n ∧ (cfg.kind = .f32 ∨ cfg.kind = .f64) ∧ workSize n < p.splitRe.length)) :
    ∃ x, (x = List.replicate n ⟨0, 0⟩ ∨ x = impulse0 n) ∧
      ∃ p' y, fft cfg p x = .ok (p', y, .ok ()) ∧ ¬ IsDft x y := by
  have hws : workSize n = bluM n := by rw [workSize, if_neg (by rw [hnp]; simp)]; rfl
  rw [hws] at hL
  have run : ∀ x : List (Cx ℝ), x.length = n → ∃ p', fft cfg p x = .ok (p', (bluRun cfg p x).1, .ok ()) := by
    intro x hx
    obtain ⟨p', y, e, -, -, -, -, -, h6, -⟩ := fft_run cfg p x hI
    rw [fftRes_std hstd (by omega)] at e h6
    have := h6 rfl
    rw [fftOut, if_neg (by rw [hx, hnp]; simp)] at this
    have hy := congrArg Prod.fst this
    simp only at hy
    exact ⟨p', by rw [e, hy]⟩
  have hz : (List.replicate n (⟨0, 0⟩ : Cx ℝ)).length = n := by simp
  have hi : (impulse0 n).length = n := by simp [impulse0]
  obtain ⟨p1, e1⟩ := run _ hz
  obtain ⟨p2, e2⟩ := run _ hi
  by_contra hc
  push Not at hc
  have d1 := hc _ (Or.inl rfl) p1 _ e1
  have d2 := hc _ (Or.inr rfl) p2 _ e2
  have e0 : ∀ t, sig (List.replicate n (⟨0, 0⟩ : Cx ℝ)) t = 0 := fun t => sig_replicate_zero _ t
  have s1 : ∀ t, sig (impulse0 n) t = if t = 0 then 1 else 0 := by
    intro t
    unfold impulse0
    by_cases ht : t < n
    · rw [sig_eq hF, tab_getD ht]
      split <;> rfl
    · rw [if_neg (by omega)]
      unfold sig
      rw [List.getElem?_eq_none (by rw [tab_length]; omega)]
  have b1 : sig (bluRun cfg p (List.replicate n ⟨0, 0⟩)).1 0 = 0 := by
    rw [d1.2 0 (by omega)]
    simp [dft, e0]
  have b2 : sig (bluRun cfg p (impulse0 n)).1 0 = 1 := by
    rw [d2.2 0 (by omega), hi]
    unfold dft
    rw [Finset.sum_eq_single 0]
    · rw [s1]; simp [W_zero]
    · intro t _ ht; rw [s1, if_neg ht, zero_mul]
    · intro h; simp at h; omega
  have hm0 : 0 < bluM n := isPow2_pos (bluM_pow2 n)
  have key := bluRun_response hF cfg p hI.split hI.scr _ _ n _ _ _ hz hi hn rfl rfl rfl
    (by rw [at', at', ← sig_eq hF, ← sig_eq hF, s1, e0, if_pos rfl, zero_add])
    (fun t ht => by rw [at', at', ← sig_eq hF, ← sig_eq hF, s1, e0, if_neg ht])
  rw [at', at', ← sig_eq hF, ← sig_eq hF, b1, b2, sub_zero, eq_comm, div_eq_one_iff_eq (by exact_mod_cast hm0.ne')] at key
  have key : runLen cfg p (max p.bluScratch.length (bluM n)) = bluM n := by exact_mod_cast key
  have hge := runLen_ge cfg p (max p.bluScratch.length (bluM n))
  rcases hL with h | ⟨h16, hk, h⟩
  · omega
  · rw [runLen, if_pos ⟨by omega, hk⟩] at key
    omega

theorem other_of_not {cfg : Cfg} (h : ¬ cfg.kind = .other) : cfg.kind = .f32 ∨ cfg.kind = .f64 := by
  cases hk : cfg.kind <;> simp_all

/-- A transformer in any reachable state computes the DFT of every input of length `n` exactly when its leftovers fit. -/
theorem fft_fit_iff [F : Flt ℝ] (hF : Lawful F) (cfg : Cfg) (p : Planner ℝ) (hI : Inv cfg p) (n : ℕ) (hn : 0 < n)
    (hok : cfg.std = true ∨ ∃ k, n = 2 ^ k) :
    (∀ x : List (Cx ℝ), x.length = n → ∃ p' y, fft cfg p x = .ok (p', y, .ok ()) ∧ IsDft x y) ↔ Compat cfg p n := by
  have hr : fftRes cfg n = .ok () := fftRes_ok hn hok
  constructor
  · intro H
    have hnw := need_eq_workSize n
    have contra : ∀ x : List (Cx ℝ), x.length = n → ¬ ∃ p' y, fft cfg p x = .ok (p', y, .ok ()) ∧ ¬ IsDft x y := by
      rintro x hx ⟨p', y, e, hd⟩
      obtain ⟨p'', y', e', hd'⟩ := H x hx
      rw [e] at e'
      simp only [Outcome.ok.injEq, Prod.mk.injEq, and_true] at e'
      rw [← e'.2] at hd'
      exact hd hd'
    by_cases hp : isPow2 n = true
    · refine ⟨?_, Or.inl hp⟩
      by_contra hc
      push Not at hc
      obtain ⟨h16, hk, hlt⟩ := hc
      have hk := other_of_not hk
      rw [need, if_pos hp] at h16 hlt
      obtain ⟨k, rfl⟩ := isPow2_iff.mp hp
      have hk4 : 4 < k := by
        by_contra hc
        have : 2 ^ k ≤ 2 ^ 4 := Nat.pow_le_pow_right (by norm_num) (by omega)
        omega
      obtain ⟨x, hx, hw⟩ := wrong_of_long_inv hF cfg hk p hI k hk4 (by rw [leftover_length hI]; exact hlt)
      refine contra x ?_ hw
      rcases hx with rfl | rfl <;> simp [impulse1]
    · have hpf : isPow2 n = false := by simpa using hp
      have hstd : cfg.std = true := by
        rcases hok with h | h
        · exact h
        · exact absurd (isPow2_iff.mpr h) hp
      by_contra hc
      have : workSize n < p.bluScratch.length ∨
          (16 < workSize n ∧ (cfg.kind = .f32 ∨ cfg.kind = .f64) ∧ workSize n < p.splitRe.length) := by
        by_contra hd
        push Not at hd
        apply hc
        rw [Compat, hnw]
        refine ⟨?_, Or.inr hd.1⟩
        by_cases h16 : workSize n ≤ 16
        · exact Or.inl h16
        · by_cases hk : cfg.kind = .other
          · exact Or.inr (Or.inl hk)
          · exact Or.inr (Or.inr (hd.2 (by omega) (other_of_not hk)))
      obtain ⟨x, hx, hw⟩ := wrong_of_long_blu hF cfg hstd p hI n hn hpf this
      refine contra x ?_ hw
      rcases hx with rfl | rfl <;> simp [impulse0]
  · intro hc x hx
    obtain ⟨p', e, -⟩ := (fft_opOk cfg).run p x hI
    subst hx
    rw [hr, fftBuf_fresh cfg p x hI hr hc] at e
    exact ⟨p', _, e, freshOut_isDft hF cfg x hn⟩

/-- The inverse is right for `x` exactly when the forward transform is right for the conjugate of `x`. -/
theorem ifft_right_iff [F : Flt ℝ] (hF : Lawful F) (cfg : Cfg) (p : Planner ℝ) (x : List (Cx ℝ)) (hI : Inv cfg p)
    (h2 : 1 < x.length) (hr : fftRes cfg x.length = .ok ()) :
    IsIdft x (ifftBuf cfg p x) ↔ IsDft (x.map Cx.conj) (fftBuf cfg p (x.map Cx.conj)) := by
  have hl : (x.map Cx.conj).length = x.length := by simp
  obtain ⟨-, -, -, hbl, -⟩ := (fft_opOk cfg).run p (x.map Cx.conj) hI
  rw [hl] at hbl
  have e3 : ∀ c : Cx ℝ, toC (ifftPost (F.div F.one (F.ofNat x.length)) c) = (starRingEnd ℂ) (toC c) / x.length := by
    intro c
    have hs : F.div F.one (F.ofNat x.length) = 1 / (x.length : ℝ) := by rw [hF.div, hF.one, hF.ofNat]
    unfold ifftPost
    simp only [hs]
    rw [show (⟨F.mul c.re (1 / (x.length : ℝ)), F.mul (F.neg c.im) (1 / (x.length : ℝ))⟩ : Cx ℝ) =
      ⟨F.mul c.conj.re (1 / (x.length : ℝ)), F.mul c.conj.im (1 / (x.length : ℝ))⟩ from rfl,
      toC_scale hF, toC_conj hF]
    push_cast
    rw [mul_one_div]
  have hn0 : (x.length : ℂ) ≠ 0 := by exact_mod_cast (show x.length ≠ 0 by omega)
  have hb : ifftBuf cfg p x = (fftBuf cfg p (x.map Cx.conj)).map (ifftPost (Flt.one /. Flt.ofNat x.length)) := by
    rw [ifftBuf, if_neg (by omega), hr]
  rw [hb, IsIdft, IsDft, hl, List.length_map]
  refine and_congr_right (fun _ => forall₂_congr (fun t ht => ?_))
  rw [sig_map _ _ _ (by omega), idft_conj]
  have hx : dft x.length (sig (x.map Cx.conj)) t = dft x.length (fun k => (starRingEnd ℂ) (sig x k)) t := by
    apply dft_congr
    intro k hk
    rw [sig_map _ _ _ hk, sig_get _ _ hk, toC_conj hF]
  rw [hx]
  have he := e3 (fftBuf cfg p (x.map Cx.conj))[t]
  rw [sig_get _ _ (show t < (fftBuf cfg p (x.map Cx.conj)).length by omega)]
  constructor
  · intro h
    have := he.symm.trans h
    rw [div_left_inj' hn0] at this
    exact (starRingEnd ℂ).injective this
  · intro h
    rw [← h]
    exact he

theorem ifft_fit_iff [F : Flt ℝ] (hF : Lawful F) (cfg : Cfg) (p : Planner ℝ) (hI : Inv cfg p) (n : ℕ) (hn : 0 < n)
    (hok : cfg.std = true ∨ ∃ k, n = 2 ^ k) :
    (∀ x : List (Cx ℝ), x.length = n → ∃ p' y, ifft cfg p x = .ok (p', y, .ok ()) ∧ IsIdft x y) ↔ Compat cfg p n := by
  have hr : fftRes cfg n = .ok () := fftRes_ok hn hok
  constructor
  · intro H
    by_cases h1 : n = 1
    · subst h1
      have h1 : isPow2 1 = true := by decide
      exact ⟨Or.inl (by rw [need, if_pos h1]; norm_num), Or.inl h1⟩
    rw [← fft_fit_iff hF cfg p hI n hn hok]
    intro x hx
    have hl : (x.map Cx.conj).length = n := by simpa using hx
    obtain ⟨p', y, e, hd⟩ := H _ hl
    obtain ⟨p1, e1, -⟩ := (ifft_opOk cfg).run p (x.map Cx.conj) hI
    rw [e] at e1
    simp only [Outcome.ok.injEq, Prod.mk.injEq] at e1
    rw [e1.2.1, ifft_right_iff hF cfg p _ hI (by omega) (by rw [hl]; exact hr)] at hd
    have hcc : (x.map Cx.conj).map Cx.conj = x := by
      rw [List.map_map]
      conv_rhs => rw [← List.map_id x]
      refine List.map_congr_left (fun c _ => toC_inj ?_)
      simp only [Function.comp, id, toC_conj hF, Complex.conj_conj]
    rw [hcc] at hd
    obtain ⟨p2, e2, -⟩ := (fft_opOk cfg).run p x hI
    rw [hx, hr] at e2
    exact ⟨p2, _, e2, hd⟩
  · intro hc x hx
    obtain ⟨p', e, -⟩ := (ifft_opOk cfg).run p x hI
    subst hx
    rw [hr] at e
    exact ⟨p', _, e, ifftBuf_isIdft hF cfg p x hI hr hc⟩

/-! ### The history, from outside -/

/-- What a sequence of transforms leaves behind. -/
structure Left (cfg : Cfg) (ms : List ℕ) {T : Type} [Flt T] (p : Planner T) : Prop where
  inv : Inv cfg p
  split : ∀ m ∈ ms, 16 < workSize m → workSize m ≤ p.splitRe.length
  bound : ∀ B, (∀ m ∈ ms, workSize m ≤ B) → p.splitRe.length ≤ B ∧ p.bluScratch.length ≤ B
  scr : ∀ m ∈ ms, isPow2 m = false → workSize m ≤ p.bluScratch.length
  scr' : p.bluScratch.length = 0 ∨ ∃ m ∈ ms, isPow2 m = false ∧ p.bluScratch.length = workSize m

theorem left_fft {T : Type} [Flt T] {cfg : Cfg} {ms : List ℕ} {p p' : Planner T} {x y : List (Cx T)} (h : Left cfg ms p)
    (e : fft cfg p x = .ok (p', y, .ok ())) : Left cfg (x.length :: ms) p' := by
  have g := fft_grows' cfg p x p' y _ h.inv e
  have s := fft_scratch' cfg p x p' y _ h.inv e
  obtain ⟨p1, y1, e1, h1, -, h3, -, -, h6, h7⟩ := fft_run cfg p x h.inv
  rw [e] at e1
  simp only [Outcome.ok.injEq, Prod.mk.injEq] at e1
  obtain ⟨e1, e2, e3⟩ := e1
  subst e1 e2
  rw [need_eq_workSize] at g s h7
  have h6 := h6 e3.symm
  refine ⟨h1, ?_, ?_, ?_, ?_⟩
  · intro m hm h16
    rcases List.mem_cons.mp hm with rfl | hm
    · exact g.2 rfl h16
    · exact (h.split m hm h16).trans g.1
  · intro B hB
    have hb := h.bound B (fun m hm => hB m (List.mem_cons_of_mem _ hm))
    exact h7 B (hB _ List.mem_cons_self) hb.1 hb.2
  · intro m hm hp
    rcases List.mem_cons.mp hm with rfl | hm
    · exact s.2 rfl hp
    · exact (h.scr m hm hp).trans s.1
  · unfold fftOut at h6
    by_cases hp : isPow2 x.length = true
    · rw [if_pos hp] at h6
      have := congrArg (fun v => v.2.2) h6
      simp only at this
      rw [this]
      rcases h.scr' with h0 | ⟨m, hm, hm'⟩
      · exact Or.inl h0
      · exact Or.inr ⟨m, List.mem_cons_of_mem _ hm, hm'⟩
    · rw [if_neg hp] at h6
      have := congrArg (fun v => v.2.2.length) h6
      simp only [bluRun_scr_length cfg p x h.inv] at this
      have hpf : isPow2 x.length = false := by simpa using hp
      have hw : bluM x.length = workSize x.length := by rw [workSize, if_neg hp]; rfl
      rw [hw] at this
      rw [this]
      rcases le_total p.bluScratch.length (workSize x.length) with hle | hle
      · exact Or.inr ⟨x.length, List.mem_cons_self, hpf, by omega⟩
      · rcases h.scr' with h0 | ⟨m, hm, hm'⟩
        · exact Or.inr ⟨x.length, List.mem_cons_self, hpf, by omega⟩
        · exact Or.inr ⟨m, List.mem_cons_of_mem _ hm, hm'.1, by omega⟩

theorem left_ifft {T : Type} [Flt T] {cfg : Cfg} {ms : List ℕ} {p p' : Planner T} {x y : List (Cx T)} (h : Left cfg ms p)
    (e : ifft cfg p x = .ok (p', y, .ok ())) : Left cfg (x.length :: ms) p' := by
  unfold ifft ifftWith at e
  by_cases h0 : x.length = 0
  · simp [h0] at e
  by_cases h1 : x.length = 1
  · simp [h1] at e
    rw [← e.1, h1]
    have hw : workSize 1 = 1 := by decide
    refine ⟨h.inv, ?_, ?_, ?_, ?_⟩
    · intro m hm h16
      rcases List.mem_cons.mp hm with rfl | hm
      · omega
      · exact h.split m hm h16
    · intro B hB
      exact h.bound B (fun m hm => hB m (List.mem_cons_of_mem _ hm))
    · intro m hm hp
      rcases List.mem_cons.mp hm with rfl | hm
      · simp [show isPow2 1 = true by decide] at hp
      · exact h.scr m hm hp
    · rcases h.scr' with h0 | ⟨m, hm, hm'⟩
      · exact Or.inl h0
      · exact Or.inr ⟨m, List.mem_cons_of_mem _ hm, hm'⟩
  obtain ⟨p1, f1, -⟩ := (fft_opOk cfg).run p (x.map Cx.conj) h.inv
  simp only [h0, h1, if_false, f1, Outcome.bind_ok] at e
  rcases fftRes_cases cfg (x.map Cx.conj).length with hr | ⟨er, hr⟩
  · rw [hr] at f1
    have := left_fft h f1
    rw [List.length_map] at this
    simp only [hr, Outcome.ok.injEq, Prod.mk.injEq] at e
    rw [← e.1]; exact this
  · simp only [hr] at e
    simp at e

theorem performed_left {T : Type} [Flt T] {cfg : Cfg} {ms : List ℕ} {p : Planner T} (h : Performed cfg ms p) : Left cfg ms p := by
  induction h with
  | new => exact ⟨inv_new cfg, by simp, fun B _ => ⟨Nat.zero_le _, Nat.zero_le _⟩, by simp, Or.inl rfl⟩
  | fft _ e ih => exact left_fft ih e
  | ifft _ e ih => exact left_ifft ih e

theorem performed_compat {T : Type} [Flt T] {cfg : Cfg} {ms : List ℕ} {p : Planner T} (h : Performed cfg ms p) (n : ℕ) :
    Compat cfg p n ↔ ∀ m ∈ ms, Unspoilt cfg n m := by
  have h := performed_left h
  rw [Compat, need_eq_workSize]
  constructor
  · rintro ⟨c1, c2⟩ m hm
    by_cases hle : workSize m ≤ workSize n
    · exact Or.inl hle
    refine Or.inr ⟨?_, ?_⟩
    · by_cases hp : isPow2 m = true
      · exact Or.inr (isPow2_iff.mp hp)
      · rcases c2 with c | c
        · exact Or.inl (isPow2_iff.mp c)
        · have := h.scr m hm (by simpa using hp); omega
    · rcases c1 with c | c | c
      · exact Or.inl c
      · exact Or.inr c
      · by_cases h16 : 16 < workSize m
        · have := h.split m hm h16; omega
        · left; omega
  · intro H
    constructor
    · by_cases hall : ∀ m ∈ ms, workSize m ≤ workSize n
      · exact Or.inr (Or.inr (h.bound _ hall).1)
      · push Not at hall
        obtain ⟨m, hm, hlt⟩ := hall
        rcases H m hm with c | ⟨-, c | c⟩
        · omega
        · exact Or.inl c
        · exact Or.inr (Or.inl c)
    · rcases h.scr' with h0 | ⟨m, hm, hp, he⟩
      · right; omega
      · rcases H m hm with c | ⟨⟨k, c⟩ | c, -⟩
        · right; omega
        · exact Or.inl (isPow2_iff.mpr ⟨k, c⟩)
        · rw [isPow2_iff.mpr c] at hp; cases hp

/-- C79e. For every sequence of successful transforms, every element type and every length `n` the transformer accepts:
afterwards `fft` computes the DFT of **every** input of length `n` exactly when no length of the sequence spoils `n`. -/
theorem fft_history_iff [F : Flt ℝ] (hF : Lawful F) (cfg : Cfg) (ms : List ℕ) (p : Planner ℝ) (hp : Performed cfg ms p) (n : ℕ)
    (hn : 0 < n) (hok : cfg.std = true ∨ ∃ k, n = 2 ^ k) :
    (∀ x : List (Cx ℝ), x.length = n → ∃ p' y, fft cfg p x = .ok (p', y, .ok ()) ∧ IsDft x y) ↔
      ∀ m ∈ ms, Unspoilt cfg n m := by
  rw [fft_fit_iff hF cfg p (performed_left hp).inv n hn hok, performed_compat hp]

/-- C79f. The same for the inverse. -/
theorem ifft_history_iff [F : Flt ℝ] (hF : Lawful F) (cfg : Cfg) (ms : List ℕ) (p : Planner ℝ) (hp : Performed cfg ms p) (n : ℕ)
    (hn : 0 < n) (hok : cfg.std = true ∨ ∃ k, n = 2 ^ k) :
    (∀ x : List (Cx ℝ), x.length = n → ∃ p' y, ifft cfg p x = .ok (p', y, .ok ()) ∧ IsIdft x y) ↔
      ∀ m ∈ ms, Unspoilt cfg n m := by
  rw [ifft_fit_iff hF cfg p (performed_left hp).inv n hn hok, performed_compat hp]

/-- C79g. Once a transformer has performed a successful `fft` of a length `m` that spoils `n` (`n` not a power of two), then
whatever is called afterwards there is an input of length `n` for which `fft` reports success and returns something other than the
DFT. -/
theorem fft_spoilt_blu [F : Flt ℝ] (hF : Lawful F) (cfg : Cfg) (hstd : cfg.std = true) (p0 p1 p : Planner ℝ)
    (hp : Reach cfg p0) (z w : List (Cx ℝ)) (e : fft cfg p0 z = .ok (p1, w, .ok ())) (hlater : Later cfg p1 p) (n : ℕ)
    (hn : 0 < n) (hnp : ¬ ∃ k, n = 2 ^ k) (hs : ¬ Unspoilt cfg n z.length) :
    ∃ x : List (Cx ℝ), x.length = n ∧ ∃ p' y, fft cfg p x = .ok (p', y, .ok ()) ∧ ¬ IsDft x y := by
  have hI := reach_inv hp
  have hp1 : Reach cfg p1 := .fft hp trivial e
  have hg := (fft_grows' cfg p0 z p1 w _ hI e).2 rfl
  have hc := (fft_scratch' cfg p0 z p1 w _ hI e).2 rfl
  rw [need_eq_workSize] at hg hc
  have hnp' : isPow2 n = false := by
    by_contra h
    exact hnp (isPow2_iff.mp (by simpa using h))
  unfold Unspoilt at hs
  push Not at hs
  obtain ⟨hlt, hs⟩ := hs
  have : ∃ x, (x = List.replicate n ⟨0, 0⟩ ∨ x = impulse0 n) ∧ ∃ p' y, fft cfg p x = .ok (p', y, .ok ()) ∧ ¬ IsDft x y := by
    by_cases hz : isPow2 z.length = true
    · obtain ⟨h16, hk⟩ := hs (Or.inr (isPow2_iff.mp hz))
      have hG : InvG cfg (workSize z.length) 0 p := later_invG ⟨reach_inv hp1, hg (by omega), Nat.zero_le _⟩ hlater
      exact wrong_of_long_blu hF cfg hstd p hG.1 n hn hnp' (Or.inr ⟨by omega, other_of_not hk, by have := hG.2.1; omega⟩)
    · have hG : InvG cfg 0 (workSize z.length) p :=
        later_invG ⟨reach_inv hp1, Nat.zero_le _, hc (by simpa using hz)⟩ hlater
      exact wrong_of_long_blu hF cfg hstd p hG.1 n hn hnp' (Or.inl (by have := hG.2.2; omega))
  obtain ⟨x, hx, hw⟩ := this
  exact ⟨x, by rcases hx with rfl | rfl <;> simp [impulse0], hw⟩

/-- Both outcomes of C79e occur: 100 samples are worked on at size 256. Afterwards 64, 33 and 9 samples come out wrong on `f32`,
3 samples and 16 samples: 3 wrong, 16 right; 200 right. On other element types 64 stays right and 33 is wrong. -/
example : ¬ Unspoilt ⟨true, .f32, false, 4, false⟩ 64 100 ∧ ¬ Unspoilt ⟨true, .f32, false, 4, false⟩ 33 100 ∧
    ¬ Unspoilt ⟨true, .f32, false, 4, false⟩ 3 100 ∧ Unspoilt ⟨true, .f32, false, 4, false⟩ 16 100 ∧
    Unspoilt ⟨true, .f32, false, 4, false⟩ 200 100 ∧ Unspoilt ⟨true, .other, false, 4, false⟩ 64 100 ∧
    ¬ Unspoilt ⟨true, .other, false, 4, false⟩ 33 100 := by
  have h64 : workSize 64 = 64 := by decide
  have h33 : workSize 33 = 128 := by decide
  have h3 : workSize 3 = 8 := by decide
  have h16 : workSize 16 = 16 := by decide
  have h100 : workSize 100 = 256 := by decide
  have h200 : workSize 200 = 512 := by decide
  have n100 : ¬ ∃ k, 100 = 2 ^ k := fun h => by have := isPow2_iff.mpr h; revert this; decide
  have n33 : ¬ ∃ k, 33 = 2 ^ k := fun h => by have := isPow2_iff.mpr h; revert this; decide
  have n3 : ¬ ∃ k, 3 = 2 ^ k := fun h => by have := isPow2_iff.mpr h; revert this; decide
  refine ⟨?_, ?_, ?_, ?_, ?_, ?_, ?_⟩ <;> unfold Unspoilt <;> rw [h100]
  · rw [h64]; simp
  · rw [h33]; simp [n33, n100]
  · rw [h3]; simp only [n3, n100]; simp
  · rw [h16]; exact Or.inr ⟨Or.inl ⟨4, by norm_num⟩, Or.inl le_rfl⟩
  · rw [h200]; left; norm_num
  · exact Or.inr ⟨Or.inl ⟨6, by norm_num⟩, Or.inr rfl⟩
  · rw [h33]; simp [n33, n100]

/-- `Performed` is inhabited by non-trivial histories: 100 zeros, then 64 zeros backwards. -/
example : ∃ F : Flt ℝ, Lawful F ∧ ∃ p : Planner ℝ, @Performed ℝ F ⟨true, .f32, false, 4, false⟩ [64, 100] p := by
  letI := realFlt true
  refine ⟨realFlt true, realFlt_lawful true, ?_⟩
  have h1 : (List.replicate 100 (⟨0, 0⟩ : Cx ℝ)).length = 100 := List.length_replicate
  have h2 : (List.replicate 64 (⟨0, 0⟩ : Cx ℝ)).length = 64 := List.length_replicate
  obtain ⟨p1, e1, i1, -⟩ := (fft_opOk (⟨true, .f32, false, 4, false⟩ : Cfg)).run (Planner.new : Planner ℝ)
    (List.replicate 100 ⟨0, 0⟩) (inv_new _)
  rw [h1, fftRes_ok (by norm_num) (Or.inl rfl)] at e1
  obtain ⟨p2, e2, -⟩ := (ifft_opOk (⟨true, .f32, false, 4, false⟩ : Cfg)).run p1 (List.replicate 64 ⟨0, 0⟩) i1
  rw [h2, fftRes_ok (by norm_num) (Or.inl rfl)] at e2
  have q1 := Performed.fft .new e1
  have q2 := Performed.ifft q1 e2
  rw [h1, h2] at q2
  exact ⟨p2, q2⟩

end Kofft.Props
