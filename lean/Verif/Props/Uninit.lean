import Verif.Props.Backend
import Verif.Proof.Rfft
/-
C90: uninitialised memory. `rfft`, `irfft` and the trait's `fft_strided_alloc`/`ifft_strided_alloc` hand out memory that nothing has
been written to; the `SAFETY` comments promise that it is written before it is read.
-/
namespace Kofft.Props
variable {T : Type} [Flt T]

/-- C90a. `rfft`: whatever the uninitialised scratch memory holds, the call does the same: same output, same result, same state
of the transformer - for every implementation of the complex transform (which, being in place, keeps the length). -/
theorem rfft_uninit {S : Type} (simd : Bool) (op : StOp S T) (s : S) (hop : OpLen op s) (u u' : Nat → Cx T) (input : List T) (output : List (Cx T)) :
    rfft simd op u s input output = rfft simd op u' s input output := by
  rw [rfft_val simd op u s hop, rfft_val simd op u' s hop]

/-- C90b. `irfft` likewise. -/
theorem irfft_uninit {S : Type} (simd : Bool) (op : StOp S T) (s : S) (hop : OpLen op s) (u u' : Nat → Cx T) (input : List (Cx T)) (output : List T) :
    irfft simd op u s input output = irfft simd op u' s input output := by
  rw [irfft_val simd op u s hop, irfft_val simd op u' s hop]

/-- C90c. `fft_strided_alloc` and `ifft_strided_alloc` of every back end likewise; and a SIMD back end returns what a new scalar
transformer returns. -/
theorem strided_alloc_uninit (cfg : Cfg) (b : Backend) (inv : Bool) (u u' : Nat → Cx T) (p : Planner T) (x : List (Cx T))
    (stride : Nat) :
    b.stridedAlloc cfg inv u p x stride = b.stridedAlloc cfg inv u' p x stride ∧
    ∀ feat, ∃ q y r, Backend.scalar.stridedAlloc cfg inv u Planner.new x stride = .ok (q, y, r) ∧
      (Backend.simd feat).stridedAlloc cfg inv u' p x stride = .ok (p, y, r) := by
  have hop : IsOp cfg (if inv then ifft cfg else fft cfg : FftOp T) := by
    cases inv
    · exact Or.inl rfl
    · exact Or.inr rfl
  have key : ∀ (v : Nat → Cx T) (feat : Bool), ∃ q y r,
      Backend.scalar.stridedAlloc cfg inv u Planner.new x stride = .ok (q, y, r) ∧
      (Backend.simd feat).stridedAlloc cfg inv v p x stride = .ok (p, y, r) := by
    intro v feat
    obtain ⟨q, y, s1, s2, r, e1, e2⟩ := strided_scratch_irrelevant cfg _ hop Planner.new .new x stride
      ((grow ([] : List (Cx T)) (if stride = 0 then 0 else x.length / stride) Cx.zero).take (if stride = 0 then 0 else x.length / stride))
      ((List.range (if stride = 0 then 0 else x.length / stride)).map v) (by simp [grow])
    let rest : List (Cx T) := (grow ([] : List (Cx T)) (if stride = 0 then 0 else x.length / stride) Cx.zero).drop
      (if stride = 0 then 0 else x.length / stride)
    refine ⟨{ q with scratch := s1 ++ rest }, y, r, ?_, ?_⟩
    · show stridedAlloc _ Planner.new x stride = _
      unfold stridedAlloc
      simp only [show ({ (Planner.new : Planner T) with scratch := [] }) = Planner.new from rfl,
        show (Planner.new : Planner T).scratch = [] from rfl]
      rw [e1]
      rfl
    · show stridedAllocDefault _ v p x stride = _
      unfold stridedAllocDefault Backend.strided
      simp only []
      rw [e2]
      rfl
  refine ⟨?_, fun feat => key u' feat⟩
  cases b with
  | scalar => rfl
  | simd feat =>
    obtain ⟨q, y, r, e, h⟩ := key u feat
    obtain ⟨q', y', r', e', h'⟩ := key u' feat
    rw [e] at e'
    simp only [Outcome.ok.injEq, Prod.mk.injEq] at e'
    rw [h, h', e'.2.1, e'.2.2]

/-- The hypothesis holds of the library's own transformer. -/
example (cfg : Cfg) (simd : Bool) (u u' : Nat → Cx T) (x : List T) (out : List (Cx T)) :
    rfft simd (fft cfg) u Planner.new x out = rfft simd (fft cfg) u' Planner.new x out := by
  refine rfft_uninit simd (fft cfg) Planner.new (fun x q y r e => ?_) u u' x out
  obtain ⟨q', e', -, hl, -⟩ := (fft_opOk cfg).run (Planner.new : Planner T) x (inv_new cfg)
  rw [e] at e'
  simp only [Outcome.ok.injEq, Prod.mk.injEq] at e'
  rw [e'.2.1]; exact hl

end Kofft.Props
