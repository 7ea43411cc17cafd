import Verif.Proof.Dft
/-
Properties C09-C14, C16: the rest of the scalar interface.
-/
namespace Kofft.Props
open Spec

variable {T : Type} [Flt T]

/-- The two directions, so that each statement covers `fft*` and `ifft*` methods. -/
def IsOp (cfg : Cfg) (op : FftOp T) : Prop := op = fft cfg ∨ op = ifft cfg

theorem IsOp.opOk {cfg : Cfg} {op : FftOp T} (h : IsOp cfg op) : ∃ out, OpOk cfg op out := by
  rcases h with rfl | rfl
  · exact ⟨_, fft_opOk cfg⟩
  · exact ⟨_, ifft_opOk cfg⟩

/-! ### C09: out of place -/

/-- C09a. Lengths differ: `MismatchedLengths`, output and transformer untouched. Lengths equal:
exactly the in-place transform of a copy of the input, whatever the output held before. -/
theorem out_of_place_spec (cfg : Cfg) (op : FftOp T) (hop : IsOp cfg op) (p : Planner T)
    (hp : Reach cfg p) (x o : List (Cx T)) :
    ∃ p' o' r, outOfPlace op p x o = .ok (p', o', r) ∧ o'.length = o.length ∧
      (x.length ≠ o.length → p' = p ∧ o' = o ∧ r = .error .MismatchedLengths) ∧
      (x.length = o.length → op p x = .ok (p', o', r)) ∧
      (r = .error .MismatchedLengths → x.length ≠ o.length) := by
  obtain ⟨out, ho⟩ := hop.opOk
  by_cases h : x.length = o.length
  · obtain ⟨p', e, h1, h2, -⟩ := ho.run p x (reach_inv hp)
    refine ⟨p', _, _, ?_, h2.trans h, fun hn => absurd h hn, fun _ => e, ?_⟩
    · unfold outOfPlace; rw [if_neg (by simpa using h)]; exact e
    · intro hr
      unfold fftRes at hr
      split at hr
      · simp at hr
      · split at hr <;> simp at hr
  · exact ⟨p, o, _, by unfold outOfPlace; rw [if_pos h], rfl, fun _ => ⟨rfl, rfl, rfl⟩,
      fun hn => absurd hn h, fun _ => h⟩

/-- C09b. `fft_vec`/`ifft_vec` return the buffer the in-place transform leaves, or its error. -/
theorem vec_spec (cfg : Cfg) (op : FftOp T) (hop : IsOp cfg op) (p : Planner T) (hp : Reach cfg p)
    (x : List (Cx T)) :
    ∃ p' y r, op p x = .ok (p', y, r) ∧
      opVec op p x = .ok (p', match r with | .ok _ => .ok y | .error e => .error e) := by
  obtain ⟨out, ho⟩ := hop.opOk
  obtain ⟨p', e, -⟩ := ho.run p x (reach_inv hp)
  refine ⟨p', _, _, e, ?_⟩
  unfold opVec
  rw [e]
  simp only [Outcome.bind_ok]
  cases fftRes cfg x.length <;> rfl

example (cfg : Cfg) (a b : Cx T) : IsOp (T := T) cfg (ifft cfg) ∧ Reach cfg (Planner.new : Planner T) ∧
    ([a, b] : List (Cx T)).length = ([b, b] : List (Cx T)).length := ⟨Or.inr rfl, .new, rfl⟩

/-! ### C10: in-place strided transforms -/

omit [Flt T] in
/-- C10a. The argument errors: nothing is touched. -/
theorem strided_errors (op : FftOp T) (p : Planner T) (x : List (Cx T)) (stride : Nat)
    (sc : List (Cx T)) :
    (stride = 0 → strided op p x stride sc = .ok (p, x, sc, .error .InvalidStride)) ∧
    (stride ≠ 0 → sc = [] → strided op p x stride sc = .ok (p, x, sc, .ok ())) ∧
    (stride ≠ 0 → sc ≠ [] → x.length < (sc.length - 1) * stride + 1 →
      strided op p x stride sc = .ok (p, x, sc, .error .MismatchedLengths)) := by
  refine ⟨?_, ?_, ?_⟩
  · intro h; simp [strided, h]
  · intro h h'; simp [strided, h, h']
  · intro h h' h''
    have : sc.length ≠ 0 := by simpa using h'
    unfold strided
    simp only [h, this, h'', if_false, if_true]

theorem stridedSeq_get (x : List (Cx T)) (stride n i : Nat) (hi : i < n)
    (h : i * stride < x.length) : (stridedSeq x stride n)[i]? = x[i * stride]? := by
  unfold stridedSeq
  rw [tab_getElem?, if_pos hi, List.getD_eq_getElem?_getD, List.getElem?_eq_getElem h]
  rfl

theorem stridedPut_hit (x y : List (Cx T)) (stride n i : Nat) (hs : 0 < stride) (hi : i < n)
    (hy : y.length = n) (h : i * stride < x.length) :
    (stridedPut x stride n y)[i * stride]? = y[i]? := by
  unfold stridedPut
  rw [tab_getElem?, if_pos h, Nat.mul_mod_left, Nat.mul_div_cancel _ hs, if_pos ⟨rfl, hi⟩,
    List.getD_eq_getElem?_getD, List.getElem?_eq_getElem (by omega)]
  rfl

theorem stridedPut_miss (x y : List (Cx T)) (stride n k : Nat)
    (hk : ¬ ∃ i, i < n ∧ k = i * stride) :
    (stridedPut x stride n y)[k]? = x[k]? := by
  unfold stridedPut
  rw [tab_getElem?]
  by_cases h : k < x.length
  · rw [if_pos h, if_neg, List.getD_eq_getElem?_getD, List.getElem?_eq_getElem h]
    · rfl
    · rintro ⟨h1, h2⟩
      refine hk ⟨k / stride, h2, ?_⟩
      have := Nat.div_add_mod k stride
      rw [h1, Nat.mul_comm] at this
      omega
  · rw [if_neg h, List.getElem?_eq_none (by omega)]

/-- C10b. The regular case: with `n = scratch.len() ≥ 1`, `g` the `n` strided elements and
`(y, r)` what the plain transform makes of `g`: the call returns `r`; on success the strided
positions hold `y`, every other position is unchanged; on failure nothing is changed. -/
theorem strided_spec (cfg : Cfg) (op : FftOp T) (hop : IsOp cfg op) (p : Planner T)
    (hp : Reach cfg p) (x : List (Cx T)) (stride : Nat) (sc : List (Cx T)) (hs : 0 < stride)
    (hn : 0 < sc.length) (hl : (sc.length - 1) * stride < x.length) :
    ∃ g p' y r x', g.length = sc.length ∧ (∀ i, i < sc.length → g[i]? = x[i * stride]?) ∧
      op p g = .ok (p', y, r) ∧ strided op p x stride sc = .ok (p', x', y, r) ∧
      x'.length = x.length ∧
      (r = .ok () → (∀ i, i < sc.length → x'[i * stride]? = y[i]?) ∧
        ∀ k, (¬ ∃ i, i < sc.length ∧ k = i * stride) → x'[k]? = x[k]?) ∧
      (r ≠ .ok () → x' = x) := by
  obtain ⟨out, ho⟩ := hop.opOk
  obtain ⟨p', e, e', -, h2, -⟩ := strided_run ho p x stride sc (reach_inv hp) hs hn hl
  have hb : ∀ i, i < sc.length → i * stride < x.length := by
    intro i hi
    have : i * stride ≤ (sc.length - 1) * stride := Nat.mul_le_mul_right _ (by omega)
    omega
  refine ⟨stridedSeq x stride sc.length, p', _, _, _, by simp [stridedSeq], ?_, e, e', ?_, ?_, ?_⟩
  · intro i hi; exact stridedSeq_get x stride _ i hi (hb i hi)
  · rcases fftRes_cases cfg sc.length with hr | ⟨er, hr⟩
    · simp only [hr]; simp [stridedPut]
    · simp only [hr]
  · intro hr
    simp only [hr]
    exact ⟨fun i hi => stridedPut_hit x _ stride _ i hs hi h2 (hb i hi),
      fun k hk => stridedPut_miss x _ stride _ k hk⟩
  · intro hne
    rcases fftRes_cases cfg sc.length with hr | ⟨er, hr⟩
    · exact absurd hr hne
    · simp only [hr]

/-- C10c. The previous content of the scratch buffer does not matter. -/
theorem strided_scratch_irrelevant (cfg : Cfg) (op : FftOp T) (hop : IsOp cfg op) (p : Planner T)
    (hp : Reach cfg p) (x : List (Cx T)) (stride : Nat) (sc sc' : List (Cx T))
    (h : sc.length = sc'.length) :
    ∃ p' x' s s' r, strided op p x stride sc = .ok (p', x', s, r) ∧
      strided op p x stride sc' = .ok (p', x', s', r) := by
  by_cases h0 : stride = 0
  · exact ⟨p, x, sc, sc', _, (strided_errors op p x stride sc).1 h0, (strided_errors op p x stride sc').1 h0⟩
  by_cases h1 : sc = []
  · have : sc' = [] := by rw [← List.length_eq_zero_iff, ← h, h1]; rfl
    exact ⟨p, x, sc, sc', _, (strided_errors op p x stride sc).2.1 h0 h1,
      (strided_errors op p x stride sc').2.1 h0 this⟩
  have h1' : sc' ≠ [] := by
    intro h'; apply h1; rw [← List.length_eq_zero_iff, h, h']; rfl
  by_cases h2 : x.length < (sc.length - 1) * stride + 1
  · exact ⟨p, x, sc, sc', _, (strided_errors op p x stride sc).2.2 h0 h1 h2,
      (strided_errors op p x stride sc').2.2 h0 h1' (by rw [← h]; exact h2)⟩
  have hpos : 0 < sc.length := List.length_pos_iff.mpr h1
  obtain ⟨out, ho⟩ := hop.opOk
  obtain ⟨p1, e1, e1', -⟩ := strided_run ho p x stride sc (reach_inv hp) (by omega) hpos (by omega)
  obtain ⟨p2, e2, e2', -⟩ := strided_run ho p x stride sc' (reach_inv hp) (by omega) (by omega)
    (by rw [← h]; omega)
  rw [← h] at e2 e2'
  rw [e1] at e2
  simp only [Outcome.ok.injEq, Prod.mk.injEq] at e2
  rw [← e2.1] at e2'
  exact ⟨_, _, _, _, _, e1', e2'⟩

example : 0 < (List.replicate 3 (0 : Nat)).length ∧
    ((List.replicate 3 0).length - 1) * 2 < (List.replicate 6 0).length := by decide

/-! ### C11: allocating wrappers -/

theorem stridedAlloc_of {op : FftOp T} {p p1 : Planner T} {x x' s : List (Cx T)} {stride : Nat}
    {r : Res} (n : Nat) (hn : n = if stride = 0 then 0 else x.length / stride)
    (e : strided op { p with scratch := [] } x stride ((grow p.scratch n Cx.zero).take n) =
      .ok (p1, x', s, r)) :
    stridedAlloc op p x stride =
      .ok ({ p1 with scratch := s ++ (grow p.scratch n Cx.zero).drop n }, x', r) := by
  unfold stridedAlloc
  simp only [← hn, e, Outcome.bind_ok]

/-- C11. `fft_strided_alloc`/`ifft_strided_alloc` return and write what the explicit call with any
scratch of `len / stride` elements does, and leave a transformer with the same leftovers. -/
theorem strided_alloc_eq (cfg : Cfg) (op : FftOp T) (hop : IsOp cfg op) (p : Planner T)
    (hp : Reach cfg p) (x : List (Cx T)) (stride : Nat) (sc : List (Cx T))
    (h : sc.length = x.length / stride) :
    ∃ p1 p2 x' s r, stridedAlloc op p x stride = .ok (p1, x', r) ∧
      strided op p x stride sc = .ok (p2, x', s, r) ∧ p1.splitRe = p2.splitRe ∧
      p1.splitIm = p2.splitIm ∧ p1.bluScratch = p2.bluScratch := by
  by_cases h0 : stride = 0
  · subst h0
    have e := stridedAlloc_of (op := op) (p := p) (x := x) 0 (by simp)
      ((strided_errors op _ x 0 _).1 rfl)
    exact ⟨_, p, x, sc, _, e, (strided_errors op p x 0 sc).1 rfl, rfl, rfl, rfl⟩
  have e0 : (if stride = 0 then 0 else x.length / stride) = x.length / stride := if_neg h0
  set n := x.length / stride with hn
  set sc' := (grow p.scratch n Cx.zero).take n with hsc'
  have hl' : sc'.length = n := by
    rw [hsc', List.length_take, grow_length]; omega
  by_cases h1 : sc = []
  · have hn0 : n = 0 := by rw [← h, h1]; rfl
    have h1' : sc' = [] := by rw [← List.length_eq_zero_iff, hl', hn0]
    have e := stridedAlloc_of (op := op) (p := p) (x := x) n e0.symm
      ((strided_errors op _ x stride _).2.1 h0 h1')
    exact ⟨_, p, x, sc, _, e, (strided_errors op p x stride sc).2.1 h0 h1, rfl, rfl, rfl⟩
  have hpos : 0 < sc.length := List.length_pos_iff.mpr h1
  have hlt : (n - 1) * stride < x.length := by
    have h1 : n * stride ≤ x.length := Nat.div_mul_le_self _ _
    have h2 : (n - 1) * stride + stride = n * stride := by
      rw [← Nat.succ_mul]; congr 1; omega
    omega
  obtain ⟨out, ho⟩ := hop.opOk
  obtain ⟨p1, e1, e1', -⟩ := strided_run ho { p with scratch := [] } x stride sc'
    ((reach_inv hp).withScratch []) (by omega) (by omega) (by rw [hl']; exact hlt)
  obtain ⟨p2, e2, e2', -⟩ := strided_run ho p x stride sc (reach_inv hp) (by omega) hpos
    (by rw [h]; exact hlt)
  rw [hl'] at e1 e1'
  rw [h] at e2 e2'
  have hag : Agree { p with scratch := ([] : List (Cx T)) } p := ⟨rfl, rfl, rfl⟩
  obtain ⟨k1, -, k3⟩ := ho.agree _ _ _ _ _ _ _ _ _ ((reach_inv hp).withScratch []) (reach_inv hp)
    hag e1 e2
  rw [k1] at e1'
  exact ⟨_, p2, _, _, _, stridedAlloc_of n e0.symm e1', e2', k3.1, k3.2.1, k3.2.2⟩

example : (List.replicate 3 0).length = (List.replicate 7 0).length / 2 := by decide

/-! ### C12: out-of-place strided -/

/-- C12a. Argument errors: exactly these, nothing is touched. -/
theorem oop_strided_errors (op : FftOp T) (p : Planner T) (x : List (Cx T)) (si : Nat)
    (o : List (Cx T)) (so : Nat) :
    ((si = 0 ∨ so = 0 ∨ ¬ si ∣ x.length ∨ ¬ so ∣ o.length) →
      oopStrided op p x si o so = .ok (p, o, .error .InvalidStride)) ∧
    (si ≠ 0 → so ≠ 0 → si ∣ x.length → so ∣ o.length → x.length / si ≠ o.length / so →
      oopStrided op p x si o so = .ok (p, o, .error .MismatchedLengths)) := by
  constructor
  · intro h
    unfold oopStrided
    by_cases h1 : si = 0 ∨ so = 0
    · rw [if_pos h1]
    · rw [if_neg h1, if_pos]
      rw [Nat.dvd_iff_mod_eq_zero, Nat.dvd_iff_mod_eq_zero] at h
      tauto
  · intro h1 h2 h3 h4 h5
    unfold oopStrided
    rw [Nat.dvd_iff_mod_eq_zero] at h3 h4
    rw [if_neg (by tauto), if_neg (by tauto)]
    simp only
    rw [if_pos (fun h => h5 h.symm)]

/-- C12b. The regular case, `n` elements on both sides: `output[i*out_stride]` is element `i` of the
transform of the gathered input, other output elements are unchanged. -/
theorem oop_strided_spec (cfg : Cfg) (op : FftOp T) (hop : IsOp cfg op) (p : Planner T)
    (hp : Reach cfg p) (x : List (Cx T)) (si : Nat) (o : List (Cx T)) (so n : Nat) (hsi : 0 < si)
    (hso : 0 < so) (hx : x.length = n * si) (hol : o.length = n * so) :
    ∃ g p1 p2 y r o', g.length = n ∧ (∀ i, i < n → g[i]? = x[i * si]?) ∧
      op p g = .ok (p1, y, r) ∧ oopStrided op p x si o so = .ok (p2, o', r) ∧
      o'.length = o.length ∧
      (r = .ok () → (∀ i, i < n → o'[i * so]? = y[i]?) ∧
        ∀ k, (¬ ∃ i, i < n ∧ k = i * so) → o'[k]? = o[k]?) ∧
      (r ≠ .ok () → o' = o) ∧
      p1.splitRe = p2.splitRe ∧ p1.splitIm = p2.splitIm ∧ p1.bluScratch = p2.bluScratch := by
  obtain ⟨out, ho⟩ := hop.opOk
  obtain ⟨p2, s, e2, e2', -⟩ := oopStrided_run ho p x si o so n (reach_inv hp) hsi hso hx hol
  obtain ⟨p1, e1, -, hl, -⟩ := ho.run p (stridedSeq x si n) (reach_inv hp)
  have hag : Agree p { p with scratch := ([] : List (Cx T)) } := ⟨rfl, rfl, rfl⟩
  obtain ⟨k1, -, k3⟩ := ho.agree _ _ _ _ _ _ _ _ _ (reach_inv hp) ((reach_inv hp).withScratch [])
    hag e1 e2
  have hsl : (stridedSeq x si n).length = n := by simp [stridedSeq]
  rw [hsl] at e1 hl
  rw [← k1] at e2'
  have hb : ∀ i, i < n → i * si < x.length := by
    intro i hi; rw [hx]; exact Nat.mul_lt_mul_of_pos_right hi hsi
  have hb' : ∀ i, i < n → i * so < o.length := by
    intro i hi; rw [hol]; exact Nat.mul_lt_mul_of_pos_right hi hso
  refine ⟨stridedSeq x si n, p1, _, _, _, _, hsl, ?_, e1, e2', ?_, ?_, ?_, k3.1, k3.2.1, k3.2.2⟩
  · intro i hi; exact stridedSeq_get x si _ i hi (hb i hi)
  · rcases fftRes_cases cfg n with hr | ⟨er, hr⟩
    · simp only [hr]; simp [stridedPut]
    · simp only [hr]
  · intro hr
    simp only [hr]
    exact ⟨fun i hi => stridedPut_hit o _ so _ i hso hi hl (hb' i hi),
      fun k hk => stridedPut_miss o _ so _ k hk⟩
  · intro hne
    rcases fftRes_cases cfg n with hr | ⟨er, hr⟩
    · exact absurd hr hne
    · simp only [hr]

example : (List.replicate 12 0).length = 4 * 3 ∧ (List.replicate 8 0).length = 4 * 2 := by decide

/-! ### C13: split-complex interface -/

/-- C13a. Unequal lengths: `MismatchedLengths`, nothing touched. -/
theorem split_mismatch (cfg : Cfg) (p : Planner T) (re im : List T) (h : re.length ≠ im.length) :
    fftSplit cfg p re im = .ok (p, re, im, .error .MismatchedLengths) ∧
    ifftSplit cfg p re im = .ok (p, re, im, .error .MismatchedLengths) := by
  constructor
  · unfold fftSplit; rw [if_pos h]
  · unfold ifftSplit; rw [if_pos h]

/-- C13b. `fft_split` gives the components of what a fresh transformer's `fft` gives on the
interleaved buffer, bit for bit: on every reachable transformer for powers of two, and
otherwise when no earlier call used a larger internal transform. -/
theorem fft_split_eq (cfg : Cfg) (p : Planner T) (hp : Reach cfg p) (re im : List T)
    (h : re.length = im.length)
    (hh : (∃ k, re.length = 2 ^ k) ∨ ReachVia cfg (fun m => workSize m ≤ workSize re.length) p) :
    ∃ p1 p2 re' im' y r, fftSplit cfg p re im = .ok (p1, re', im', r) ∧
      fft cfg Planner.new (List.zipWith Cx.mk re im) = .ok (p2, y, r) ∧
      y.length = re.length ∧ re' = y.map Cx.re ∧ im' = y.map Cx.im := by
  set z := List.zipWith Cx.mk re im with hz
  have hzl : z.length = re.length := by simp [hz, h]
  have hI := reach_inv hp
  obtain ⟨p2, e2, -, hl2, -⟩ := (fft_opOk cfg).run (Planner.new : Planner T) z (inv_new cfg)
  rw [hzl] at e2 hl2
  have hne : ¬ re.length ≠ im.length := by simpa using h
  by_cases hk : cfg.kind = .f32 ∨ cfg.kind = .f64
  · obtain ⟨p1, e1, -⟩ := splitSimd_run cfg p re im hI h
    rw [← hz] at e1
    have hb : splitBuf cfg p z = fftBuf cfg Planner.new z := by
      rcases fftRes_cases cfg re.length with hr | ⟨er, hr⟩
      · rw [fftBuf_fresh cfg _ z (inv_new cfg) (by rw [hzl]; exact hr) (compat_new cfg _)]
        rcases hh with hpow | hh
        · exact splitBuf_pow2 cfg p z (by rw [hzl]; exact isPow2_iff.mpr hpow) hk
        · exact splitBuf_fresh cfg p z hI (by rw [hzl]; exact hr)
            (by rw [hzl]; exact compat_of_reach hh) hk
      · unfold splitBuf
        rw [if_neg, fftBuf_err cfg _ z (by rw [hzl]; exact hr),
          fftBuf_err cfg _ z (by rw [hzl]; exact hr)]
        rintro ⟨hpw, -⟩
        rw [hzl] at hpw
        rw [fftRes_pow2 cfg hpw] at hr
        simp at hr
    rw [hb] at e1
    refine ⟨p1, p2, _, _, _, _, ?_, e2, hl2, rfl, rfl⟩
    unfold fftSplit
    rw [if_neg hne, if_pos hk, e1]
  · have hh' : Compat cfg p re.length := by
      rcases hh with hpow | hh
      · exact ⟨Or.inr (Or.inl (by cases hc : cfg.kind <;> simp_all)), Or.inl (isPow2_iff.mpr hpow)⟩
      · exact compat_of_reach hh
    obtain ⟨p1, e1, -⟩ := splitVia_run (fft_opOk cfg) p re im hI h
    rw [← hz] at e1
    refine ⟨p1, p2, _, _, _, _, ?_, e2, hl2, rfl, rfl⟩
    unfold fftSplit
    rw [if_neg hne, if_neg hk, e1]
    rcases fftRes_cases cfg re.length with hr | ⟨er, hr⟩
    · simp only [hr]
      rw [fftBuf_fresh cfg _ z (inv_new cfg) (by rw [hzl]; exact hr) (compat_new cfg _),
        fftBuf_fresh cfg p z hI (by rw [hzl]; exact hr) (by rw [hzl]; exact hh')]
    · simp only [hr]
      rw [fftBuf_err cfg _ z (by rw [hzl]; exact hr), hz, zip_map_re re im h, zip_map_im re im h]

/-- C13c. `ifft_split` gives the components of a fresh `ifft`, bit for bit, for `n ≥ 2`, when the two
spellings of the scale factor (`1/(n as f64)` and `1/from_f32(n as f32)`) agree and the transform
succeeds. -/
theorem ifft_split_eq (cfg : Cfg) (p : Planner T) (hp : Reach cfg p) (re im : List T)
    (h : re.length = im.length) (hn : 2 ≤ re.length)
    (hs : (Flt.ofNatD re.length : T) = Flt.ofNat re.length)
    (hr : cfg.std = true ∨ ∃ k, re.length = 2 ^ k)
    (hh : (∃ k, re.length = 2 ^ k) ∨ ReachVia cfg (fun m => workSize m ≤ workSize re.length) p) :
    ∃ p1 p2 re' im' y, ifftSplit cfg p re im = .ok (p1, re', im', .ok ()) ∧
      ifft cfg Planner.new (List.zipWith Cx.mk re im) = .ok (p2, y, .ok ()) ∧
      y.length = re.length ∧ re' = y.map Cx.re ∧ im' = y.map Cx.im := by
  set z := List.zipWith Cx.mk re im with hz
  have hzl : z.length = re.length := by simp [hz, h]
  have hI := reach_inv hp
  have hr' : fftRes cfg re.length = .ok () := by
    rcases hr with hr | hr
    · exact fftRes_std hr (by omega)
    · exact fftRes_pow2 cfg (isPow2_iff.mpr hr)
  obtain ⟨p2, e2, -, hl2, -⟩ := (ifft_opOk cfg).run (Planner.new : Planner T) z (inv_new cfg)
  rw [hzl, hr'] at e2
  rw [hzl] at hl2
  have hne : ¬ re.length ≠ im.length := by simpa using h
  have hcl : (z.map Cx.conj).length = re.length := by simp [hzl]
  have hbuf : ifftBuf cfg Planner.new z = (freshOut cfg (z.map Cx.conj)).map
      (ifftPost (Flt.one /. Flt.ofNat re.length)) := by
    unfold ifftBuf
    rw [hzl, if_neg (by omega), hr']
    simp only
    rw [fftBuf_fresh cfg _ _ (inv_new cfg) (by rw [hcl]; exact hr') (compat_new cfg _)]
  by_cases hk : cfg.kind = .f32 ∨ cfg.kind = .f64
  · have him : re.length = (im.map Flt.neg).length := by simp [h]
    obtain ⟨p1, e1, -, hl1, -⟩ := splitSimd_run cfg p re (im.map Flt.neg) hI him
    have hzc : List.zipWith Cx.mk re (im.map Flt.neg) = z.map Cx.conj := by
      rw [hz, List.map_zipWith, List.zipWith_map_right]; rfl
    rw [hzc] at e1 hl1
    have hb : splitBuf cfg p (z.map Cx.conj) = freshOut cfg (z.map Cx.conj) := by
      rcases hh with hpow | hh
      · exact splitBuf_pow2 cfg p _ (by rw [hcl]; exact isPow2_iff.mpr hpow) hk
      · exact splitBuf_fresh cfg p _ hI (by rw [hcl]; exact hr')
          (by rw [hcl]; exact compat_of_reach hh) hk
    rw [hb, hr'] at e1
    rw [hb] at hl1
    refine ⟨p1, p2, _, _, _, ?_, e2, hl2, rfl, rfl⟩
    unfold ifftSplit
    rw [if_neg hne, if_pos hk]
    simp only [e1, Outcome.bind_ok, List.length_map, hl1, hs, hbuf, List.map_map, Function.comp_def,
      ifftPost]
  · have hh' : Compat cfg p re.length := by
      rcases hh with hpow | hh
      · exact ⟨Or.inr (Or.inl (by cases hc : cfg.kind <;> simp_all)), Or.inl (isPow2_iff.mpr hpow)⟩
      · exact compat_of_reach hh
    obtain ⟨p1, e1, -⟩ := splitVia_run (ifft_opOk cfg) p re im hI h
    rw [← hz, hr'] at e1
    simp only at e1
    have hb : ifftBuf cfg p z = ifftBuf cfg Planner.new z := by
      rw [hbuf]
      unfold ifftBuf
      rw [hzl, if_neg (by omega), hr']
      simp only
      rw [fftBuf_fresh cfg p _ hI (by rw [hcl]; exact hr') (by rw [hcl]; exact hh')]
    rw [hb] at e1
    refine ⟨p1, p2, _, _, _, ?_, e2, hl2, rfl, rfl⟩
    unfold ifftSplit
    rw [if_neg hne, if_neg hk, e1]

/-- C13d. In exact arithmetic `ifft_split` computes the inverse DFT for every `n ≥ 1`. -/
theorem ifft_split_is_idft [F : Flt ℝ] (hF : Lawful F) (cfg : Cfg) (p : Planner ℝ)
    (hp : Reach cfg p) (re im : List ℝ) (h : re.length = im.length) (hn : 1 ≤ re.length)
    (hr : cfg.std = true ∨ ∃ k, re.length = 2 ^ k)
    (hh : (∃ k, re.length = 2 ^ k) ∨ ReachVia cfg (fun m => workSize m ≤ workSize re.length) p) :
    ∃ p1 re' im', ifftSplit cfg p re im = .ok (p1, re', im', .ok ()) ∧
      re'.length = re.length ∧ im'.length = re.length ∧
      IsIdft (List.zipWith Cx.mk re im) (List.zipWith Cx.mk re' im') := by
  have hzl : (List.zipWith Cx.mk re im).length = re.length := by simp [h]
  by_cases h2 : 2 ≤ re.length
  · obtain ⟨p1, p2, re', im', y, e1, e2, hl, rfl, rfl⟩ :=
      ifft_split_eq cfg p hp re im h h2 (by rw [hF.ofNatD, hF.ofNat]) hr hh
    have hr' : fftRes cfg re.length = .ok () := by
      rcases hr with hr | hr
      · exact fftRes_std hr (by omega)
      · exact fftRes_pow2 cfg (isPow2_iff.mpr hr)
    obtain ⟨p3, e3, -⟩ := (ifft_opOk cfg).run (Planner.new : Planner ℝ) (List.zipWith Cx.mk re im)
      (inv_new cfg)
    rw [e2] at e3
    simp only [Outcome.ok.injEq, Prod.mk.injEq] at e3
    have hid := ifftBuf_isIdft hF cfg Planner.new (List.zipWith Cx.mk re im) (inv_new cfg)
      (by rw [hzl]; exact hr') (compat_new cfg _)
    rw [← e3.2.1] at hid
    refine ⟨p1, _, _, e1, by simp [hl], by simp [hl], ?_⟩
    have : List.zipWith Cx.mk (y.map Cx.re) (y.map Cx.im) = y := by
      rw [List.zipWith_map]
      simp
    rw [this]
    exact hid
  · have h1 : re.length = 1 := by omega
    obtain ⟨r, rfl⟩ := List.length_eq_one_iff.mp h1
    obtain ⟨i, rfl⟩ := List.length_eq_one_iff.mp (h.symm.trans h1)
    have hid : IsIdft [(⟨r, i⟩ : Cx ℝ)] [⟨r, i⟩] := by
      refine ⟨rfl, ?_⟩
      intro t ht
      have : t = 0 := by simpa using ht
      subst this
      exact (idft_one _).symm
    by_cases hk : cfg.kind = .f32 ∨ cfg.kind = .f64
    · obtain ⟨p1, e1, -⟩ := splitSimd_run cfg p [r] ([i].map Flt.neg) (reach_inv hp) rfl
      have hb : splitBuf cfg p (List.zipWith Cx.mk [r] ([i].map Flt.neg)) =
          [(⟨r, F.neg i⟩ : Cx ℝ)] := by
        rw [splitBuf_pow2 cfg p (List.zipWith Cx.mk [r] ([i].map Flt.neg)) (isPow2_pow 0) hk]
        rfl
      rw [hb] at e1
      have hfr : fftRes cfg [r].length = .ok () := fftRes_one cfg
      rw [hfr] at e1
      refine ⟨p1, [r], [i], ?_, rfl, rfl, hid⟩
      unfold ifftSplit
      rw [if_neg (by simp), if_pos hk]
      simp only [e1, Outcome.bind_ok]
      simp only [List.map_cons, List.map_nil, List.length_singleton, hF.ofNatD,
        hF.neg, hF.mul, hF.div, hF.one]
      simp
    · obtain ⟨p1, e1, -⟩ := splitVia_run (ifft_opOk cfg) p [r] [i] (reach_inv hp) rfl
      have hfr : fftRes cfg [r].length = .ok () := fftRes_one cfg
      rw [hfr] at e1
      refine ⟨p1, [r], [i], ?_, rfl, rfl, hid⟩
      unfold ifftSplit
      rw [if_neg (by simp), if_neg hk, e1]
      rfl

/-- Hypotheses of C13 are met: a used transformer and a power of two in f32. -/
example : ((⟨true, .f32, false, 4, false⟩ : Cfg).kind = .f32 ∨
    (⟨true, .f32, false, 4, false⟩ : Cfg).kind = .f64) ∧
    ∃ k, (List.replicate 8 (0 : ℝ)).length = 2 ^ k := ⟨Or.inl rfl, 3, by simp⟩

/-! ### C14: vector width -/

/-- The end of `ifft` (proof helper). -/
def ifftTail (x : List (Cx T)) (s : Planner T × List (Cx T) × Res) :
    Outcome (Planner T × List (Cx T) × Res) :=
  match s.2.2 with
  | .error e => .ok (s.1, s.2.1, .error e)
  | .ok _ => .ok (s.1, s.2.1.map (ifftPost (Flt.one /. Flt.ofNat x.length)), .ok ())

/-- C14. The same build with a different vector width (including none): from transformers with the
same leftovers, `fft` and `ifft` return the same buffer and result bit for bit, never fault, and
leave the same leftovers, so the equality persists over any sequence of calls. -/
theorem lanes_irrelevant (cfg : Cfg) (w : Nat) (p q : Planner T) (hp : Reach cfg p)
    (hq : Reach { cfg with lanes := w } q) (h1 : p.splitRe = q.splitRe)
    (h2 : p.splitIm = q.splitIm) (h3 : p.bluScratch = q.bluScratch) (x : List (Cx T)) :
    (∃ p' q' y r, fft cfg p x = .ok (p', y, r) ∧ fft { cfg with lanes := w } q x = .ok (q', y, r) ∧
      p'.splitRe = q'.splitRe ∧ p'.splitIm = q'.splitIm ∧ p'.bluScratch = q'.bluScratch) ∧
    (∃ p' q' y r, ifft cfg p x = .ok (p', y, r) ∧ ifft { cfg with lanes := w } q x = .ok (q', y, r) ∧
      p'.splitRe = q'.splitRe ∧ p'.splitIm = q'.splitIm ∧ p'.bluScratch = q'.bluScratch) := by
  have key : ∀ x : List (Cx T), ∃ p' q' y r, fft cfg p x = .ok (p', y, r) ∧
      fft { cfg with lanes := w } q x = .ok (q', y, r) ∧
      p'.splitRe = q'.splitRe ∧ p'.splitIm = q'.splitIm ∧ p'.bluScratch = q'.bluScratch := by
    intro x
    obtain ⟨p', y, e1, -, -, a3, -, -, a6, -⟩ := fft_run cfg p x (reach_inv hp)
    obtain ⟨q', z, e2, -, -, b3, -, -, b6, -⟩ := fft_run { cfg with lanes := w } q x (reach_inv hq)
    have hres : fftRes { cfg with lanes := w } x.length = fftRes cfg x.length := rfl
    rw [hres] at e2 b3 b6
    rcases fftRes_cases cfg x.length with hr | ⟨er, hr⟩
    · have a := a6 hr
      have b := b6 hr
      have hc : fftOut { cfg with lanes := w } q x = fftOut cfg q x := rfl
      rw [hc, ← fftOut_congr cfg ⟨h1, h2, h3⟩, ← a] at b
      simp only [Prod.mk.injEq] at b
      obtain ⟨rfl, ⟨c1, c2⟩, c3⟩ := b
      exact ⟨p', q', _, _, e1, e2, c1.symm, c2.symm, c3.symm⟩
    · obtain ⟨rfl, rfl⟩ := a3 er hr
      obtain ⟨rfl, rfl⟩ := b3 er hr
      exact ⟨_, _, _, _, e1, e2, h1, h2, h3⟩
  refine ⟨key x, ?_⟩
  obtain ⟨p', q', y, r, e1, e2, c⟩ := key (x.map Cx.conj)
  by_cases h0 : x.length = 0
  · exact ⟨p, q, x, .error .EmptyInput, by simp [ifft, ifftWith, h0], by simp [ifft, ifftWith, h0],
      h1, h2, h3⟩
  by_cases h1' : x.length = 1
  · exact ⟨p, q, x, .ok (), by simp [ifft, ifftWith, h1'], by simp [ifft, ifftWith, h1'],
      h1, h2, h3⟩
  have g1 : ifft cfg p x = ifftTail x (p', y, r) := by
    unfold ifft ifftWith ifftTail
    simp only [h0, h1', if_false, e1, Outcome.bind_ok]
    rfl
  have g2 : ifft { cfg with lanes := w } q x = ifftTail x (q', y, r) := by
    unfold ifft ifftWith ifftTail
    simp only [h0, h1', if_false, e2, Outcome.bind_ok]
    rfl
  cases r with
  | ok u => exact ⟨p', q', _, .ok (), g1, g2, c⟩
  | error er => exact ⟨p', q', _, .error er, g1, g2, c⟩

/-- C14, split interface: `fft_split` on caller buffers, every width. -/
theorem lanes_irrelevant_split (cfg : Cfg) (w : Nat) (p q : Planner T) (hp : Reach cfg p)
    (hq : Reach { cfg with lanes := w } q) (re im : List T) (k : Nat) (hk : re.length = 2 ^ k)
    (h : re.length = im.length) (hkind : cfg.kind = .f32 ∨ cfg.kind = .f64) :
    ∃ p' q' re' im' r, fftSplit cfg p re im = .ok (p', re', im', r) ∧
      fftSplit { cfg with lanes := w } q re im = .ok (q', re', im', r) := by
  obtain ⟨p1, p2, re1, im1, y1, r1, e1, f1, -, rfl, rfl⟩ :=
    fft_split_eq cfg p hp re im h (Or.inl ⟨k, hk⟩)
  obtain ⟨q1, q2, re2, im2, y2, r2, e2, f2, -, rfl, rfl⟩ :=
    fft_split_eq { cfg with lanes := w } q hq re im h (Or.inl ⟨k, hk⟩)
  obtain ⟨⟨p', q', y, r, g1, g2, -⟩, -⟩ := lanes_irrelevant cfg w (Planner.new : Planner T)
    Planner.new .new .new rfl rfl rfl (List.zipWith Cx.mk re im)
  rw [f1] at g1
  rw [f2] at g2
  simp only [Outcome.ok.injEq, Prod.mk.injEq] at g1 g2
  obtain ⟨-, rfl, rfl⟩ := g1
  obtain ⟨-, rfl, rfl⟩ := g2
  exact ⟨_, _, _, _, _, e1, e2⟩

/-- Two different builds, both with fresh transformers, satisfy the hypotheses. -/
example (cfg : Cfg) : Reach cfg (Planner.new : Planner T) ∧
    Reach { cfg with lanes := 0 } (Planner.new : Planner T) := ⟨.new, .new⟩

end Kofft.Props
