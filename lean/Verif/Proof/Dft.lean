import Verif.Spec.Signal
import Verif.Proof.Exact
import Verif.Proof.Reach
/-
Bridge between the exact characterisation and the specification.
-/
namespace Kofft
open Spec Complex

variable [F : Flt ℝ]

theorem sig_eq (h : Lawful F) (x : List (Cx ℝ)) (t : ℕ) : sig x t = toC (x.getD t Cx.zero) := by
  unfold sig
  cases hx : x[t]? with
  | some c => simp [List.getD_eq_getElem?_getD, hx, toC]
  | none => simp [List.getD_eq_getElem?_getD, hx, toC_zero h]

theorem sig_map (x : List (Cx ℝ)) (f : Cx ℝ → Cx ℝ) (t : ℕ) (ht : t < x.length) :
    sig (x.map f) t = toC (f x[t]) := by
  unfold sig
  simp [ht, toC]

omit F in
theorem sig_get (x : List (Cx ℝ)) (t : ℕ) (ht : t < x.length) : sig x t = toC x[t] := by
  unfold sig
  simp [ht, toC]

omit F in
theorem sig_ext {x y : List (Cx ℝ)} (hl : y.length = x.length)
    (h : ∀ t, t < x.length → sig y t = sig x t) : y = x := by
  apply List.ext_getElem hl
  intro i h1 h2
  have := h i h2
  rw [sig_get _ _ h1, sig_get _ _ h2] at this
  exact toC_inj this

theorem freshOut_isDft (h : Lawful F) (cfg : Cfg) (x : List (Cx ℝ)) (hn : 0 < x.length) :
    IsDft x (freshOut cfg x) := by
  refine ⟨?_, ?_⟩
  · unfold freshOut
    split
    · rename_i hp; exact freshPow_length cfg x hp
    · simp [bluOut, bluPost]
  · intro k hk
    rw [sig_eq h, freshOut_exact h cfg x k hk]
    exact dft_congr (fun t _ => (sig_eq h x t).symm) k

theorem freshOut_length (cfg : Cfg) (x : List (Cx ℝ)) : (freshOut cfg x).length = x.length := by
  unfold freshOut
  split
  · rename_i hp; exact freshPow_length cfg x hp
  · simp [bluOut, bluPost]

omit F in
theorem sig_replicate_zero (n t : ℕ) : sig (List.replicate n ⟨0, 0⟩) t = 0 := by
  unfold sig
  rw [List.getElem?_replicate]
  split
  · rename_i h
    split at h
    · cases h; rfl
    · simp at h
  · rfl

omit F in
theorem dft_one (x : ℕ → ℂ) : dft 1 x 0 = x 0 := by
  simp [dft, W]

omit F in
theorem idft_one (x : ℕ → ℂ) : idft 1 x 0 = x 0 := by
  simp [idft]

theorem ifftBuf_isIdft (h : Lawful F) (cfg : Cfg) (p : Planner ℝ) (x : List (Cx ℝ)) (hI : Inv cfg p)
    (hr : fftRes cfg x.length = .ok ()) (hc : Compat cfg p x.length) :
    IsIdft x (ifftBuf cfg p x) := by
  have hn : x.length ≠ 0 := by
    intro h0; rw [h0, fftRes_zero] at hr; simp at hr
  unfold ifftBuf
  by_cases h1 : x.length = 1
  · rw [if_pos (Or.inr h1)]
    refine ⟨rfl, ?_⟩
    intro t ht
    have : t = 0 := by omega
    subst this
    rw [h1, idft_one]
  · rw [if_neg (by tauto), hr]
    simp only
    have hl : (x.map Cx.conj).length = x.length := by simp
    rw [fftBuf_fresh cfg p (x.map Cx.conj) hI (by rw [hl]; exact hr) (by rw [hl]; exact hc)]
    obtain ⟨d1, d2⟩ := freshOut_isDft h cfg (x.map Cx.conj) (by rw [hl]; omega)
    rw [hl] at d1 d2
    refine ⟨by simpa using d1, ?_⟩
    intro t ht
    rw [sig_map _ _ _ (by omega), idft_conj]
    have := d2 t ht
    rw [sig_get _ _ (by omega)] at this
    have e2 : dft x.length (sig (x.map Cx.conj)) t =
        dft x.length (fun k => (starRingEnd ℂ) (sig x k)) t := by
      apply dft_congr
      intro k hk
      rw [sig_map _ _ _ hk, sig_get _ _ hk, toC_conj h]
    rw [e2] at this
    rw [← this]
    have e3 : ∀ c : Cx ℝ, toC (ifftPost (F.div F.one (F.ofNat x.length)) c) =
        (starRingEnd ℂ) (toC c) / x.length := by
      intro c
      have hs : F.div F.one (F.ofNat x.length) = 1 / (x.length : ℝ) := by rw [h.div, h.one, h.ofNat]
      unfold ifftPost
      simp only [hs]
      rw [show (⟨F.mul c.re (1 / (x.length : ℝ)), F.mul (F.neg c.im) (1 / (x.length : ℝ))⟩ : Cx ℝ) =
        ⟨F.mul c.conj.re (1 / (x.length : ℝ)), F.mul c.conj.im (1 / (x.length : ℝ))⟩ from rfl,
        toC_scale h, toC_conj h]
      push_cast
      rw [mul_one_div]
    exact e3 _

omit F in
theorem idft_of_dft {x y : List (Cx ℝ)} (h1 : IsDft x y) : IsIdft y x := by
  refine ⟨h1.1.symm, ?_⟩
  intro t ht
  rw [h1.1] at ht ⊢
  rw [← idft_dft (sig x) ht]
  exact idft_congr (fun k hk => by rw [h1.2 k hk]) t

omit F in
theorem dft_of_idft {x y : List (Cx ℝ)} (h1 : IsIdft x y) : IsDft y x := by
  refine ⟨h1.1.symm, ?_⟩
  intro t ht
  rw [h1.1] at ht ⊢
  rw [← dft_idft (sig x) ht]
  exact dft_congr (fun k hk => by rw [h1.2 k hk]) t

omit F in
theorem isIdft_unique {x y z : List (Cx ℝ)} (h1 : IsIdft x y) (h2 : IsIdft x z) : y = z := by
  apply sig_ext (by rw [h1.1, h2.1])
  intro t ht
  rw [h2.1] at ht
  rw [h1.2 t ht, h2.2 t ht]

omit F in
theorem isDft_unique {x y z : List (Cx ℝ)} (h1 : IsDft x y) (h2 : IsDft x z) : y = z := by
  apply sig_ext (by rw [h1.1, h2.1])
  intro t ht
  rw [h2.1] at ht
  rw [h1.2 t ht, h2.2 t ht]

omit F in
/-- Planners whose history only contains transforms no larger than `n`'s. -/
theorem compat_of_reach {T : Type} [Flt T] {cfg : Cfg} {n : ℕ} {p : Planner T}
    (h : ReachVia cfg (fun m => workSize m ≤ workSize n) p) : Compat cfg p n := by
  have := reachVia_invB (B := need n) (fun m hm => hm) h
  exact ⟨Or.inr (Or.inr this.2.1), Or.inr this.2.2⟩

end Kofft
