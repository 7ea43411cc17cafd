import Verif.Props.Core
/-
Property C69: the laws of the DFT that users rely on, stated of the calls `fft` / `ifft` themselves: linearity,
Parseval, shift, modulation, conjugate symmetry of real signals, impulses and pure tones, circular and linear
convolution by multiplying spectra.
-/
namespace Kofft.Spec
open Finset

/-- A transformer that may be used at length `n`: the length is supported by the build (`std`, or a power of two) and
the transformer was so far used only with transforms that need no more room. A fresh one always qualifies. -/
structure Usable (F : Flt ℝ) (cfg : Cfg) (n : ℕ) (p : Planner ℝ) : Prop where
  pos : 0 < n
  len : cfg.std = true ∨ ∃ k, n = 2 ^ k
  hist : ReachVia cfg (fun m => workSize m ≤ workSize n) p

/-- Circular convolution with period `n`. -/
noncomputable def circConv (n : ℕ) (a b : ℕ → ℂ) (s : ℕ) : ℂ :=
  ∑ t ∈ range n, ∑ r ∈ range n, if (t + r) % n = s then a t * b r else 0

/-- Linear convolution. -/
noncomputable def linConv (a b : ℕ → ℂ) (s : ℕ) : ℂ := ∑ t ∈ range (s + 1), a t * b (s - t)

end Kofft.Spec

namespace Kofft
open Spec Complex Finset

variable [F : Flt ℝ]

theorem Spec.Usable.fft (hF : Lawful F) {cfg : Cfg} {n : ℕ} {p : Planner ℝ} (h : Usable F cfg n p) (x : List (Cx ℝ))
    (hx : x.length = n) : ∃ p' y, Kofft.fft cfg p x = .ok (p', y, .ok ()) ∧ Usable F cfg n p' ∧ y.length = n ∧
      ∀ k, k < n → sig y k = dft n (sig x) k := by
  subst hx
  obtain ⟨p', y, e, hd⟩ := Props.fft_is_dft_used hF cfg x h.pos h.len p h.hist
  exact ⟨p', y, e, ⟨h.pos, h.len, .fft h.hist le_rfl e⟩, hd.1, hd.2⟩

theorem Spec.Usable.ifft (hF : Lawful F) {cfg : Cfg} {n : ℕ} {p : Planner ℝ} (h : Usable F cfg n p) (x : List (Cx ℝ))
    (hx : x.length = n) : ∃ p' y, Kofft.ifft cfg p x = .ok (p', y, .ok ()) ∧ Usable F cfg n p' ∧ y.length = n ∧
      ∀ k, k < n → sig y k = idft n (sig x) k := by
  subst hx
  obtain ⟨p', y, e, hd⟩ := Props.ifft_is_idft hF cfg x h.pos h.len p h.hist
  exact ⟨p', y, e, ⟨h.pos, h.len, .ifft h.hist le_rfl e⟩, hd.1, hd.2⟩

omit F in
theorem circConv_eq {n : ℕ} (a b : ℕ → ℂ) {s : ℕ} (hs : s < n) :
    circConv n a b s = ∑ t ∈ range n, a t * b ((s + (n - t)) % n) := by
  unfold circConv
  apply sum_congr rfl
  intro t ht
  rw [mem_range] at ht
  rw [sum_eq_single ((s + (n - t)) % n)]
  · rw [if_pos]
    rw [Nat.add_mod_mod, show t + (s + (n - t)) = s + n by omega, Nat.add_mod_right, Nat.mod_eq_of_lt hs]
  · intro r hr hne
    rw [mem_range] at hr
    rw [if_neg]
    intro h
    apply hne
    have h1 : (t + r) % n = if t + r < n then t + r else t + r - n := by
      split
      · exact Nat.mod_eq_of_lt (by assumption)
      · rw [Nat.mod_eq_sub_mod (by omega), Nat.mod_eq_of_lt (by omega)]
    have h2 : (s + (n - t)) % n = if s < t then s + (n - t) else s - t := by
      split
      · exact Nat.mod_eq_of_lt (by omega)
      · rw [Nat.mod_eq_sub_mod (by omega), Nat.mod_eq_of_lt (by omega)]; omega
    rw [h1] at h
    rw [h2]
    split at h <;> split <;> omega
  · intro h; exact absurd (mem_range.mpr (Nat.mod_lt _ (by omega))) h

omit F in
/-- Without wrap-around the circular convolution is the linear one. -/
theorem circConv_linConv {n la lb : ℕ} {a b : ℕ → ℂ} (ha : ∀ t, la ≤ t → t < n → a t = 0)
    (hb : ∀ t, lb ≤ t → t < n → b t = 0) (hn : la + lb ≤ n + 1) {s : ℕ} (hs : s < n) :
    circConv n a b s = linConv a b s := by
  unfold circConv linConv
  have : ∀ t ∈ range n, ∑ r ∈ range n, (if (t + r) % n = s then a t * b r else 0) =
      if t ≤ s then a t * b (s - t) else 0 := by
    intro t ht
    rw [mem_range] at ht
    have e : ∀ r ∈ range n, (if (t + r) % n = s then a t * b r else 0) = if r = s - t then
        (if t ≤ s then a t * b (s - t) else 0) else 0 := by
      intro r hr
      rw [mem_range] at hr
      by_cases h1 : t + r < n
      · rw [Nat.mod_eq_of_lt h1]
        by_cases h2 : t + r = s
        · rw [if_pos h2, if_pos (by omega), if_pos (by omega), show s - t = r by omega]
        · rw [if_neg h2]
          by_cases h3 : r = s - t
          · rw [if_pos h3, if_neg (by omega)]
          · rw [if_neg h3]
      · have hz : a t * b r = 0 := by
          by_cases h2 : t < la
          · rw [hb r (by omega) hr, mul_zero]
          · rw [ha t (by omega) ht, zero_mul]
        rw [hz, ite_self]
        by_cases h3 : r = s - t
        · rw [if_pos h3, if_neg (by omega)]
        · rw [if_neg h3]
    rw [sum_congr rfl e, sum_ite_eq' (range n), if_pos (by rw [mem_range]; omega)]
  rw [sum_congr rfl this, ← sum_filter]
  apply sum_congr _ (fun _ _ => rfl)
  ext t
  simp only [mem_filter, mem_range]
  omega

omit F in
theorem W_conj_mul (n a : ℕ) : W n a * (starRingEnd ℂ) (W n a) = 1 := by
  rw [W_conj, mul_inv_cancel₀ (W_ne_zero n a)]

omit F in
theorem parseval {n : ℕ} (hn : n ≠ 0) (x : ℕ → ℂ) :
    ∑ k ∈ range n, ‖dft n x k‖ ^ 2 = n * ∑ t ∈ range n, ‖x t‖ ^ 2 := by
  have hc : ∀ z : ℂ, ((‖z‖ ^ 2 : ℝ) : ℂ) = z * (starRingEnd ℂ) z := by
    intro z; rw [mul_conj, normSq_eq_norm_sq]
  have : ((∑ k ∈ range n, ‖dft n x k‖ ^ 2 : ℝ) : ℂ) = ((n * ∑ t ∈ range n, ‖x t‖ ^ 2 : ℝ) : ℂ) := by
    push_cast
    have h1 : ∀ k ∈ range n, (‖dft n x k‖ : ℂ) ^ 2 =
        ∑ t ∈ range n, ∑ s ∈ range n, x t * (starRingEnd ℂ) (x s) * (W n (k * t) * (W n (k * s))⁻¹) := by
      intro k _
      rw [← ofReal_pow, hc, dft, map_sum, sum_mul_sum]
      refine sum_congr rfl fun t _ => sum_congr rfl fun s _ => ?_
      rw [map_mul, W_conj]; ring
    rw [sum_congr rfl h1, sum_comm, mul_sum]
    apply sum_congr rfl
    intro t ht
    rw [sum_comm]
    have h2 : ∀ s ∈ range n, ∑ k ∈ range n, x t * (starRingEnd ℂ) (x s) * (W n (k * t) * (W n (k * s))⁻¹) =
        if s = t then x t * (starRingEnd ℂ) (x s) * n else 0 := by
      intro s hs
      rw [← mul_sum, sum_W_inv (mem_range.mp ht) (mem_range.mp hs)]
      by_cases h : t = s
      · rw [if_pos h, if_pos h.symm]
      · rw [if_neg h, if_neg (fun e => h e.symm), mul_zero]
    rw [sum_congr rfl h2, sum_ite_eq' (range n), if_pos ht, ← ofReal_pow, hc]; ring
  exact_mod_cast this

end Kofft

namespace Kofft.Props
open Spec Complex Finset

variable [F : Flt ℝ]

/-- C69a. Linearity: transforming `x`, `y` and a buffer holding `α·x + β·y`, one after the other on one transformer,
gives `X`, `Y` and `α·X + β·Y`. -/
theorem fft_linear (hF : Lawful F) (cfg : Cfg) (n : ℕ) (p : Planner ℝ) (hp : Usable F cfg n p) (x y z : List (Cx ℝ))
    (hx : x.length = n) (hy : y.length = n) (hz : z.length = n) (α β : ℂ)
    (hlin : ∀ t, t < n → sig z t = α * sig x t + β * sig y t) :
    ∃ p1 p2 p3 X Y Z, fft cfg p x = .ok (p1, X, .ok ()) ∧ fft cfg p1 y = .ok (p2, Y, .ok ()) ∧
      fft cfg p2 z = .ok (p3, Z, .ok ()) ∧ ∀ k, k < n → sig Z k = α * sig X k + β * sig Y k := by
  obtain ⟨p1, X, e1, u1, -, h1⟩ := hp.fft hF x hx
  obtain ⟨p2, Y, e2, u2, -, h2⟩ := u1.fft hF y hy
  obtain ⟨p3, Z, e3, u3, -, h3⟩ := u2.fft hF z hz
  refine ⟨p1, p2, p3, X, Y, Z, e1, e2, e3, ?_⟩
  intro k hk
  rw [h1 k hk, h2 k hk, h3 k hk, dft_congr hlin, dft, dft, dft, mul_sum, mul_sum, ← sum_add_distrib]
  exact sum_congr rfl fun t _ => by ring

/-- C69b. Parseval: `fft` multiplies the energy by `n`, `ifft` divides it by `n`. -/
theorem fft_parseval (hF : Lawful F) (cfg : Cfg) (n : ℕ) (p : Planner ℝ) (hp : Usable F cfg n p) (x : List (Cx ℝ))
    (hx : x.length = n) :
    ∃ p1 X, fft cfg p x = .ok (p1, X, .ok ()) ∧ X.length = n ∧
      ∑ k ∈ range n, ‖sig X k‖ ^ 2 = n * ∑ t ∈ range n, ‖sig x t‖ ^ 2 := by
  obtain ⟨p1, X, e1, u1, hl, h1⟩ := hp.fft hF x hx
  refine ⟨p1, X, e1, hl, ?_⟩
  rw [← parseval (by have := hp.pos; omega) (sig x)]
  exact sum_congr rfl fun k hk => by rw [h1 k (mem_range.mp hk)]

theorem ifft_parseval (hF : Lawful F) (cfg : Cfg) (n : ℕ) (p : Planner ℝ) (hp : Usable F cfg n p) (X : List (Cx ℝ))
    (hX : X.length = n) :
    ∃ p1 x, ifft cfg p X = .ok (p1, x, .ok ()) ∧ x.length = n ∧
      ∑ t ∈ range n, ‖sig x t‖ ^ 2 = (∑ k ∈ range n, ‖sig X k‖ ^ 2) / n := by
  obtain ⟨p1, x, e1, u1, hl, h1⟩ := hp.ifft hF X hX
  refine ⟨p1, x, e1, hl, ?_⟩
  have hn : (n : ℝ) ≠ 0 := by exact_mod_cast (by have := hp.pos; omega : n ≠ 0)
  have := parseval (n := n) (by have := hp.pos; omega) (idft n (sig X))
  rw [eq_div_iff hn, mul_comm]
  rw [sum_congr rfl (g := fun t => ‖idft n (sig X) t‖ ^ 2) (fun k hk => by rw [h1 k (mem_range.mp hk)]), ← this]
  exact sum_congr rfl fun k hk => by rw [dft_idft _ (mem_range.mp hk)]

/-- C69c. Time shift: reading the signal `d` samples later (cyclically) multiplies bin `k` by `exp(+2πi k d / n)`. -/
theorem fft_shift (hF : Lawful F) (cfg : Cfg) (n : ℕ) (p : Planner ℝ) (hp : Usable F cfg n p) (x y : List (Cx ℝ))
    (hx : x.length = n) (hy : y.length = n) (d : ℕ) (hsh : ∀ t, t < n → sig y t = sig x ((t + d) % n)) :
    ∃ p1 p2 X Y, fft cfg p x = .ok (p1, X, .ok ()) ∧ fft cfg p1 y = .ok (p2, Y, .ok ()) ∧
      ∀ k, k < n → sig Y k = sig X k * exp (2 * Real.pi * I * (k * d : ℕ) / n) := by
  have hn : n ≠ 0 := by have := hp.pos; omega
  obtain ⟨p1, X, e1, u1, -, h1⟩ := hp.fft hF x hx
  obtain ⟨p2, Y, e2, u2, -, h2⟩ := u1.fft hF y hy
  refine ⟨p1, p2, X, Y, e1, e2, ?_⟩
  intro k hk
  rw [h1 k hk, h2 k hk, ← W_inv, eq_mul_inv_iff_mul_eq₀ (W_ne_zero n _), dft, sum_mul, dft]
  have e : ∀ t ∈ range n, sig y t * W n (k * t) * W n (k * d) =
      (fun s => sig x s * W n (k * s)) ((t + d) % n) := by
    intro t ht
    show _ = sig x ((t + d) % n) * W n (k * ((t + d) % n))
    rw [hsh t (mem_range.mp ht), W_mul_mod hn, mul_add, W_add]; ring
  rw [sum_congr rfl e]
  refine sum_bij (fun t _ => (t + d) % n) ?_ ?_ ?_ ?_
  · intro t _; exact mem_range.mpr (Nat.mod_lt _ (by omega))
  · intro a ha b hb hab
    rw [mem_range] at ha hb
    have := Nat.ModEq.add_right_cancel' (n := n) d (show a + d ≡ b + d [MOD n] from hab)
    rwa [Nat.ModEq, Nat.mod_eq_of_lt ha, Nat.mod_eq_of_lt hb] at this
  · intro s hs
    rw [mem_range] at hs
    refine ⟨(s + (n - d % n)) % n, mem_range.mpr (Nat.mod_lt _ (by omega)), ?_⟩
    have hd := Nat.mod_lt d (by omega : 0 < n)
    show ((s + (n - d % n)) % n + d) % n = s
    rw [Nat.mod_add_mod, ← Nat.add_mod_mod, show s + (n - d % n) + d % n = s + n by omega, Nat.add_mod_right,
      Nat.mod_eq_of_lt hs]
  · intro t _; rfl

/-- C69d. Modulation: multiplying sample `t` by `exp(+2πi f t / n)` moves bin `k` to bin `k + f` (cyclically). -/
theorem fft_modulation (hF : Lawful F) (cfg : Cfg) (n : ℕ) (p : Planner ℝ) (hp : Usable F cfg n p)
    (x y : List (Cx ℝ)) (hx : x.length = n) (hy : y.length = n) (f : ℕ)
    (hm : ∀ t, t < n → sig y t = sig x t * exp (2 * Real.pi * I * (f * t : ℕ) / n)) :
    ∃ p1 p2 X Y, fft cfg p x = .ok (p1, X, .ok ()) ∧ fft cfg p1 y = .ok (p2, Y, .ok ()) ∧
      ∀ k, k < n → sig Y ((k + f) % n) = sig X k := by
  have hn : n ≠ 0 := by have := hp.pos; omega
  obtain ⟨p1, X, e1, u1, -, h1⟩ := hp.fft hF x hx
  obtain ⟨p2, Y, e2, u2, -, h2⟩ := u1.fft hF y hy
  refine ⟨p1, p2, X, Y, e1, e2, ?_⟩
  intro k hk
  rw [h1 k hk, h2 _ (Nat.mod_lt _ (by omega)), dft, dft]
  apply sum_congr rfl
  intro t ht
  rw [hm t (mem_range.mp ht), ← W_inv, mul_comm ((k + f) % n), W_mul_mod hn, mul_comm t, add_mul, W_add]
  have := W_ne_zero n (f * t)
  field_simp

/-- C69e. Real signals have conjugate-symmetric spectra; in particular bin 0 is real. -/
theorem fft_real_symmetric (hF : Lawful F) (cfg : Cfg) (n : ℕ) (p : Planner ℝ) (hp : Usable F cfg n p)
    (x : List (Cx ℝ)) (hx : x.length = n) (hreal : ∀ t, t < n → (sig x t).im = 0) :
    ∃ p1 X, fft cfg p x = .ok (p1, X, .ok ()) ∧
      ∀ k, k < n → sig X ((n - k) % n) = (starRingEnd ℂ) (sig X k) := by
  have hn : n ≠ 0 := by have := hp.pos; omega
  obtain ⟨p1, X, e1, u1, -, h1⟩ := hp.fft hF x hx
  refine ⟨p1, X, e1, ?_⟩
  intro k hk
  rw [h1 k hk, h1 _ (Nat.mod_lt _ (by omega)), dft, dft, map_sum]
  apply sum_congr rfl
  intro t ht
  rw [map_mul, mul_comm ((n - k) % n), W_mul_mod hn, W_conj]
  congr 1
  · exact (conj_eq_iff_im.mpr (hreal t (mem_range.mp ht))).symm
  · apply eq_inv_of_mul_eq_one_left
    rw [← W_add, mul_comm k t, ← mul_add, Nat.sub_add_cancel hk.le, W_mul_self hn]

/-- C69f. The impulse at position `d` transforms to `exp(-2πi k d / n)`, of magnitude 1 in every bin. -/
theorem fft_impulse (hF : Lawful F) (cfg : Cfg) (n : ℕ) (p : Planner ℝ) (hp : Usable F cfg n p) (x : List (Cx ℝ))
    (hx : x.length = n) (d : ℕ) (hd : d < n) (himp : ∀ t, t < n → sig x t = if t = d then 1 else 0) :
    ∃ p1 X, fft cfg p x = .ok (p1, X, .ok ()) ∧ ∀ k, k < n → sig X k = W n (k * d) := by
  obtain ⟨p1, X, e1, u1, -, h1⟩ := hp.fft hF x hx
  refine ⟨p1, X, e1, ?_⟩
  intro k hk
  rw [h1 k hk, dft_congr himp, dft, sum_eq_single d]
  · rw [if_pos rfl, one_mul]
  · intro t _ h; rw [if_neg h, zero_mul]
  · intro h; exact absurd (mem_range.mpr hd) h

/-- C69g. The pure tone `exp(+2πi f t / n)` ends up in bin `f` alone, with the value `n`. -/
theorem fft_tone (hF : Lawful F) (cfg : Cfg) (n : ℕ) (p : Planner ℝ) (hp : Usable F cfg n p) (x : List (Cx ℝ))
    (hx : x.length = n) (f : ℕ) (hf : f < n)
    (htone : ∀ t, t < n → sig x t = exp (2 * Real.pi * I * (f * t : ℕ) / n)) :
    ∃ p1 X, fft cfg p x = .ok (p1, X, .ok ()) ∧ ∀ k, k < n → sig X k = if k = f then (n : ℂ) else 0 := by
  obtain ⟨p1, X, e1, u1, -, h1⟩ := hp.fft hF x hx
  refine ⟨p1, X, e1, ?_⟩
  intro k hk
  rw [h1 k hk, dft, ← sum_W_inv hk hf]
  apply sum_congr rfl
  intro t ht
  rw [htone t (mem_range.mp ht), ← W_inv, mul_comm, mul_comm k, mul_comm f]

/-- C69h. Fast convolution: transform `a` and `b`, multiply the spectra with the crate's complex product, transform
back, all on one transformer: the circular convolution. -/
theorem fft_circular_convolution (hF : Lawful F) (cfg : Cfg) (n : ℕ) (p : Planner ℝ) (hp : Usable F cfg n p)
    (a b : List (Cx ℝ)) (ha : a.length = n) (hb : b.length = n) :
    ∃ p1 p2 p3 A B c, fft cfg p a = .ok (p1, A, .ok ()) ∧ fft cfg p1 b = .ok (p2, B, .ok ()) ∧
      ifft cfg p2 (List.zipWith Cx.mul A B) = .ok (p3, c, .ok ()) ∧ c.length = n ∧
      ∀ s, s < n → sig c s = circConv n (sig a) (sig b) s := by
  obtain ⟨p1, A, e1, u1, l1, h1⟩ := hp.fft hF a ha
  obtain ⟨p2, B, e2, u2, l2, h2⟩ := u1.fft hF b hb
  have hl : (List.zipWith Cx.mul A B).length = n := by rw [List.length_zipWith, l1, l2, Nat.min_self]
  obtain ⟨p3, c, e3, u3, l3, h3⟩ := u2.ifft hF _ hl
  refine ⟨p1, p2, p3, A, B, c, e1, e2, e3, l3, ?_⟩
  intro s hs
  rw [h3 s hs, circConv_eq _ _ hs, ← idft_mul _ _ hs]
  apply idft_congr
  intro k hk
  rw [sig_get _ _ (by rw [hl]; exact hk), List.getElem_zipWith, toC_mul hF, ← h1 k hk, ← h2 k hk,
    sig_get _ _ (by rw [l1]; exact hk), sig_get _ _ (by rw [l2]; exact hk)]

/-- C69i. Fast linear convolution: a signal of `la` samples and a filter of `lb`, both padded with zeros to
`n ≥ la + lb - 1`: the result is their linear convolution in every position. -/
theorem fft_linear_convolution (hF : Lawful F) (cfg : Cfg) (n : ℕ) (p : Planner ℝ) (hp : Usable F cfg n p)
    (x h : List (Cx ℝ)) (hn : x.length + h.length ≤ n + 1) (hx : x.length ≤ n) (hh : h.length ≤ n) :
    ∃ p1 p2 p3 A B c, fft cfg p (x ++ List.replicate (n - x.length) Cx.zero) = .ok (p1, A, .ok ()) ∧
      fft cfg p1 (h ++ List.replicate (n - h.length) Cx.zero) = .ok (p2, B, .ok ()) ∧
      ifft cfg p2 (List.zipWith Cx.mul A B) = .ok (p3, c, .ok ()) ∧ c.length = n ∧
      ∀ s, s < n → sig c s = linConv (sig x) (sig h) s := by
  have pad : ∀ (y : List (Cx ℝ)) (t : ℕ), sig (y ++ List.replicate (n - y.length) Cx.zero) t = sig y t := by
    intro y t
    rw [sig_eq hF, sig_eq hF, List.getD_eq_getElem?_getD, List.getD_eq_getElem?_getD]
    by_cases ht : t < y.length
    · rw [List.getElem?_append_left ht]
    · rw [List.getElem?_append_right (by omega), List.getElem?_eq_none (l := y) (by omega),
        List.getElem?_replicate]
      split <;> rfl
  have none : ∀ (y : List (Cx ℝ)) (t : ℕ), y.length ≤ t → sig y t = 0 := by
    intro y t ht
    unfold sig
    rw [List.getElem?_eq_none ht]
  obtain ⟨p1, p2, p3, A, B, c, e1, e2, e3, l, hc⟩ := fft_circular_convolution hF cfg n p hp
    (x ++ List.replicate (n - x.length) Cx.zero) (h ++ List.replicate (n - h.length) Cx.zero)
    (by rw [List.length_append, List.length_replicate]; omega)
    (by rw [List.length_append, List.length_replicate]; omega)
  refine ⟨p1, p2, p3, A, B, c, e1, e2, e3, l, ?_⟩
  intro s hs
  rw [hc s hs, funext (pad x), funext (pad h)]
  exact circConv_linConv (fun t ht _ => none x t ht) (fun t ht _ => none h t ht) hn hs

/-- The hypotheses are met by a fresh transformer: at length 12 with `std`, at length 32 in every build. -/
example (cfg : Cfg) (h : cfg.std = true) : Usable F cfg 12 Planner.new := ⟨by norm_num, Or.inl h, .new⟩
example (cfg : Cfg) : Usable F cfg 32 Planner.new := ⟨by norm_num, Or.inr ⟨5, by norm_num⟩, .new⟩

/-- The linear convolution specification on a case: `(1 + 2z)(3 + 4z) = 3 + 10z + 8z²`. -/
example : linConv (sig [⟨1, 0⟩, ⟨2, 0⟩]) (sig [⟨3, 0⟩, ⟨4, 0⟩]) 1 = 10 := by
  simp only [linConv, sum_range_succ, range_zero, sum_empty, sig]
  apply Complex.ext <;> (simp; try norm_num)

end Kofft.Props
