import Verif.Proof.Exact
/-
The chirp transform written as a sum over the chirps the code computed, when the convolution itself is exact.
-/
namespace Kofft
open Spec Complex Finset

variable [F : Flt ℝ]

set_option maxHeartbeats 1000000 in
/-- The chirp transform as a sum over the computed chirps, when everything else is exact. -/
theorem bluOut_chirps_gen (cfg : Cfg) (x : List (Cx ℝ))
    (hpow : ∀ y : List (Cx ℝ), y.length = bluM x.length → ∀ k, k < y.length →
      toC ((freshPow cfg y).getD k Cx.zero) = dft y.length (fun t => toC (y.getD t Cx.zero)) k)
    (hmul : ∀ a b : Cx ℝ, toC (a.mul b) = toC a * toC b) (hconj : ∀ a : Cx ℝ, toC a.conj = (starRingEnd ℂ) (toC a))
    (hz : toC Cx.zero = 0) (hmulR : ∀ a b : ℝ, F.mul a b = a * b)
    (hrec : F.div F.one (F.ofNat (bluM x.length)) = 1 / (bluM x.length : ℝ)) (k : Nat) (hk : k < x.length) :
    toC ((bluOut cfg x).getD k Cx.zero) = (∑ r ∈ range x.length, toC (x.getD r Cx.zero) * toC (chirpAt x.length r) *
      toC (bAt x.length ((k + (bluM x.length - r)) % bluM x.length))) * toC (chirpAt x.length k) := by
  set n := x.length with hnx
  set m := bluM n with hm
  have hmge : 2 * n - 1 ≤ m := bluM_ge n
  have hmp : isPow2 m = true := bluM_pow2 n
  have hm0 : 0 < m := isPow2_pos hmp
  set A := bluA n m m (fun i => x.getD i Cx.zero) (fun _ => Cx.zero) with hA
  have hAl : A.length = m := by simp [hA, bluA]
  set B := tab m (bAt (T := ℝ) n) with hB
  have hBl : B.length = m := by simp [hB]
  let a : ℕ → ℂ := fun t => toC (A.getD t Cx.zero)
  let b : ℕ → ℂ := fun t => toC (B.getD t Cx.zero)
  set FA := freshPow cfg A with hFA
  set FB := freshPow cfg B with hFB
  have hFAl : FA.length = m := by rw [hFA, freshPow_length cfg A (by rw [hAl]; exact hmp), hAl]
  have hFBl : FB.length = m := by rw [hFB, freshPow_length cfg B (by rw [hBl]; exact hmp), hBl]
  have eFA : ∀ j, j < m → toC (FA.getD j Cx.zero) = dft m a j := by
    intro j hj
    have := hpow A hAl j (by omega)
    rwa [hAl] at this
  have eFB : ∀ j, j < m → toC (FB.getD j Cx.zero) = dft m b j := by
    intro j hj
    have := hpow B hBl j (by omega)
    rwa [hBl] at this
  set M := bluMid FA FB with hM
  have hMtab : M = tab m (fun i => ((FA.getD i Cx.zero).mul (FB.getD i Cx.zero)).conj) := by
    have t1 : FA = tab m (fun i => FA.getD i Cx.zero) := by
      conv_lhs => rw [eq_tab_getD FA Cx.zero, hFAl]
    have t2 : FB = tab m (fun i => FB.getD i Cx.zero) := by
      conv_lhs => rw [eq_tab_getD FB Cx.zero, hFBl]
    have : M = (copyPrefix (List.zipWith Cx.mul (tab m fun i => FA.getD i Cx.zero)
        (tab m fun i => FB.getD i Cx.zero)) (tab m fun i => FA.getD i Cx.zero)).map Cx.conj := by
      rw [← t1, ← t2, hM]; rfl
    rw [this, tab_zipWith, (copyN_tab (m := m) le_rfl le_rfl).1, tab_map]
    apply tab_congr
    intro i hi
    simp [hi]
  have hMl : M.length = m := by rw [hMtab]; simp
  have eM : ∀ j, j < m → toC (M.getD j Cx.zero) = (starRingEnd ℂ) (dft m a j * dft m b j) := by
    intro j hj
    rw [hMtab, tab_getD hj, hconj, hmul, eFA j hj, eFB j hj]
  set R := freshPow cfg M with hR
  have eR : ∀ j, j < m → toC (R.getD j Cx.zero) =
      dft m (fun i => (starRingEnd ℂ) (dft m a i * dft m b i)) j := by
    intro j hj
    have := hpow M hMl j (by omega)
    rw [hMl] at this
    rw [hR, this]
    exact dft_congr (fun t ht => eM t ht) j
  have hout : bluOut cfg x = bluPost n m R := rfl
  rw [hout, bluPost, tab_getD hk, hmul]
  congr 1
  have hconv : toC (⟨F.mul (R.getD k Cx.zero).conj.re (F.div F.one (F.ofNat m)),
      F.mul (R.getD k Cx.zero).conj.im (F.div F.one (F.ofNat m))⟩ : Cx ℝ) =
      ∑ t ∈ range m, a t * b ((k + (m - t)) % m) := by
    rw [hrec, ← idft_mul a b (show k < m by omega), idft_conj, ← eR k (by omega), ← hconj]
    apply Complex.ext
    · simp [hmulR]; rfl
    · simp [hmulR]; rfl
  refine hconv.trans ?_
  have hsub : ∑ t ∈ range m, a t * b ((k + (m - t)) % m) = ∑ t ∈ range n, a t * b ((k + (m - t)) % m) := by
    symm
    apply sum_subset
    · intro t ht; rw [mem_range] at *; omega
    · intro t ht1 ht2
      rw [mem_range] at *
      have : a t = 0 := by
        show toC (A.getD t Cx.zero) = 0
        rw [hA, bluA, tab_getD ht1, if_neg (by omega), if_pos ht1, hz]
      rw [this, zero_mul]
  rw [hsub]
  apply sum_congr rfl
  intro t ht
  rw [mem_range] at ht
  have ea : a t = toC (x.getD t Cx.zero) * toC (chirpAt n t) := by
    show toC (A.getD t Cx.zero) = _
    rw [hA, bluA, tab_getD (by omega), if_pos ht, hmul]
  have eb : b ((k + (m - t)) % m) = toC (bAt n ((k + (m - t)) % m)) := by
    show toC (B.getD _ Cx.zero) = _
    rw [hB, tab_getD (Nat.mod_lt _ hm0)]
  rw [ea, eb]

end Kofft
