import Verif.Props.IstftStream
import Verif.Props.Wavelet
/-
C88: locality. Bit for bit, in every arithmetic: each output of the short-time and wavelet transforms depends only on the input
around it.
-/
namespace Kofft.Props
open Spec

section
variable {T : Type} [Flt T]

theorem segment_local (x y window : List T) (s t : ℕ)
    (h : ∀ i, i < window.length → x[s + i]? = y[t + i]?) : Spec.segment x window s = Spec.segment y window t := by
  unfold Spec.segment
  apply List.map_congr_left
  intro i hi
  have hi : i < window.length := by simpa using hi
  have h := h i hi
  have hl : s + i < x.length ↔ t + i < y.length := by
    constructor <;> intro hc
    · by_contra hn
      rw [List.getElem?_eq_getElem hc, List.getElem?_eq_none (by omega)] at h
      cases h
    · by_contra hn
      rw [List.getElem?_eq_getElem hc, List.getElem?_eq_none (by omega)] at h
      cases h
  by_cases hc : s + i < x.length
  · rw [if_pos hc, if_pos (hl.mp hc), List.getD_eq_getElem?_getD (l := x), List.getD_eq_getElem?_getD (l := y), h]
  · rw [if_neg hc, if_neg (fun h' => hc (hl.mpr h'))]

/-- C88a. `stft`: if frame `f` of one signal and frame `g` of another cover the same samples, the two output frames are
bit-identical, whatever the rest of the signals, their lengths, the hops, the numbers of frames, what the output buffers held, and
what each transformer did before (with transforms no larger). -/
theorem stft_local (cfg : Cfg) (p q : Planner T) (x y window : List T) (hop hop' : ℕ) (ox oy : List (List (Cx T)))
    (hh : 0 < hop) (hh' : 0 < hop') (hox : x.length ≤ ox.length * hop) (hoy : y.length ≤ oy.length * hop')
    (hw : 0 < window.length) (hn : cfg.std = true ∨ ∃ k, window.length = 2 ^ k)
    (hp : ReachVia cfg (fun m => workSize m ≤ workSize window.length) p)
    (hq : ReachVia cfg (fun m => workSize m ≤ workSize window.length) q) :
    ∃ p' q' a b, stft (fft cfg) p x window hop ox = .ok (p', a, .ok ()) ∧
      stft (fft cfg) q y window hop' oy = .ok (q', b, .ok ()) ∧
      ∀ f g, f < ox.length → g < oy.length →
        (∀ i, i < window.length → x[f * hop + i]? = y[g * hop' + i]?) → a[f]? = b[g]? := by
  obtain ⟨p', a, e1, l1, -, h1⟩ := stft_frames_fresh cfg p x window hop ox hh hox hw hn hp
  obtain ⟨q', b, e2, l2, -, h2⟩ := stft_frames_fresh cfg q y window hop' oy hh' hoy hw hn hq
  refine ⟨p', q', a, b, e1, e2, fun f g hf hg h => ?_⟩
  obtain ⟨r, e3⟩ := h1 f hf
  obtain ⟨s, e4⟩ := h2 g hg
  rw [segment_local x y window (f * hop) (g * hop') h, e4] at e3
  have : b.getD g [] = a.getD f [] := congrArg (fun v => v.2.1) (Outcome.ok.inj e3)
  rw [List.getElem?_eq_getElem (by omega), List.getElem?_eq_getElem (by omega)]
  simpa [List.getD_eq_getElem?_getD, show f < a.length by omega, show g < b.length by omega] using this.symm

/-- C88b. Dropping the first hop of the signal drops the first frame and changes nothing else, bit for bit. -/
theorem stft_shift (cfg : Cfg) (p q : Planner T) (x window : List T) (hop : ℕ) (ox oy : List (List (Cx T)))
    (hh : 0 < hop) (hox : x.length ≤ ox.length * hop) (hoy : x.length - hop ≤ oy.length * hop)
    (hw : 0 < window.length) (hn : cfg.std = true ∨ ∃ k, window.length = 2 ^ k)
    (hp : ReachVia cfg (fun m => workSize m ≤ workSize window.length) p)
    (hq : ReachVia cfg (fun m => workSize m ≤ workSize window.length) q) :
    ∃ p' q' a b, stft (fft cfg) p x window hop ox = .ok (p', a, .ok ()) ∧
      stft (fft cfg) q (x.drop hop) window hop oy = .ok (q', b, .ok ()) ∧
      ∀ f, f + 1 < ox.length → f < oy.length → a[f + 1]? = b[f]? := by
  obtain ⟨p', q', a, b, e1, e2, h⟩ := stft_local cfg p q x (x.drop hop) window hop hop ox oy hh hh hox
    (by simpa using hoy) hw hn hp hq
  refine ⟨p', q', a, b, e1, e2, fun f hf hg => h (f + 1) f hf hg fun i _ => ?_⟩
  rw [List.getElem?_drop, show (f + 1) * hop + i = hop + (f * hop + i) by ring]

/-- C88c. A stream never looks ahead: with any transformer, `next_frame` on two streams at the same position whose signals agree
on the window (and may differ elsewhere and in length) leaves the transformer and the buffer bit-identical and returns the same. -/
theorem stream_local {S : Type} (op : StOp S T) (s : S) (u v : StftStream T) (buf : List (Cx T)) (hwin : u.window = v.window)
    (hpos : u.pos = v.pos) (hu : u.pos < u.signal.length) (hv : v.pos < v.signal.length)
    (h : ∀ i, i < u.window.length → u.signal[u.pos + i]? = v.signal[v.pos + i]?) :
    (u.nextFrame op s buf >>= fun w => Outcome.ok w.2) = (v.nextFrame op s buf >>= fun w => Outcome.ok w.2) := by
  by_cases hb : buf.length = u.window.length
  · have e : fillFrame u.signal u.window u.pos buf = fillFrame v.signal v.window v.pos buf := by
      rw [fillFrame_eq' _ _ _ _ hb, fillFrame_eq' _ _ _ _ (by rw [hb, hwin]), ← hwin, segment_local _ _ _ _ _ h]
    unfold StftStream.nextFrame
    rw [if_neg (by omega), if_neg (by omega), if_neg (by rw [← hwin]; omega), if_neg (by omega), e]
    simp only [fillFrame_eq' v.signal v.window v.pos buf (by rw [hb, hwin]), Outcome.bind_ok]
    cases op s (Spec.segment v.signal v.window v.pos) with
    | panic => rfl
    | hang => rfl
    | ok w =>
      obtain ⟨s', y, r⟩ := w
      cases r with
      | error er => rfl
      | ok _ => rfl
  · unfold StftStream.nextFrame
    rw [if_pos hb, if_pos (by rw [← hwin]; exact hb)]
    rfl

private theorem foldl_pad {α : Type} (g : α → ℕ → α) (a : α) (n d : ℕ) :
    (List.range n).foldl g a = (List.range (n + d)).foldl (fun acc f => if f < n then g acc f else acc) a := by
  induction d with
  | zero =>
    rw [Nat.add_zero]
    have : ∀ (l : List ℕ) (a : α), (∀ f ∈ l, f < n) → l.foldl g a = l.foldl (fun acc f => if f < n then g acc f else acc) a := by
      intro l
      induction l with
      | nil => intro a _; rfl
      | cons k l ih =>
        intro a h
        rw [List.foldl_cons, List.foldl_cons, if_pos (h k (by simp)), ih _ (fun f hf => h f (by simp [hf]))]
    exact this _ _ (by simp)
  | succ d ih =>
    rw [← Nat.add_assoc, List.range_succ, List.foldl_append, ← ih]
    simp

private theorem foldl_cover {α : Type} (g g' : α → ℕ → α) (a : α) (n m : ℕ)
    (h : ∀ f acc, (if f < n then g acc f else acc) = if f < m then g' acc f else acc) :
    (List.range n).foldl g a = (List.range m).foldl g' a := by
  rw [foldl_pad g a n m, foldl_pad g' a m n, Nat.add_comm m n]
  congr 1
  funext acc f
  exact h f acc

/-- C88d. `istft`: an output sample depends only on what the output buffer held there and on the frames that cover it, bit for bit;
the other frames, the number of frames, the length of the output, the scratch contents and earlier (no larger) transforms do not
matter. -/
theorem istft_local (cfg : Cfg) (p q : Planner T) (fx fy : List (List (Cx T))) (window : List T) (hop : ℕ)
    (ox oy sx sy : List T) (hh : 0 < hop) (hsx : sx.length = ox.length) (hsy : sy.length = oy.length)
    (hfx : ∀ fr ∈ fx, fr.length = window.length) (hfy : ∀ fr ∈ fy, fr.length = window.length)
    (hw : 0 < window.length) (hn : cfg.std = true ∨ ∃ k, window.length = 2 ^ k)
    (hp : ReachVia cfg (fun m => workSize m ≤ workSize window.length) p)
    (hq : ReachVia cfg (fun m => workSize m ≤ workSize window.length) q) :
    ∃ p' q' gx gy a b tx ty, istft (ifft cfg) p fx window hop ox sx = .ok (p', gx, a, tx, .ok ()) ∧
      istft (ifft cfg) q fy window hop oy sy = .ok (q', gy, b, ty, .ok ()) ∧
      ∀ t, t < ox.length → t < oy.length → ox[t]? = oy[t]? →
        (∀ f, f * hop ≤ t → t < f * hop + window.length → fx[f]? = fy[f]?) → a[t]? = b[t]? := by
  obtain ⟨p', e1⟩ := runAll_ifft_fresh cfg window.length (fftRes_ok (by omega) hn) fx p hfx hp
  obtain ⟨q', e2⟩ := runAll_ifft_fresh cfg window.length (fftRes_ok (by omega) hn) fy q hfy hq
  obtain ⟨a, tx, f1, la, -, h1⟩ := istft_bit_exact (ifft cfg) (keeps_ifft_reach cfg) p p'
    (Kofft.ReachVia.mono (fun _ _ => trivial) hp) fx _ window hop ox sx hh hsx hfx e1
  obtain ⟨b, ty, f2, lb, -, h2⟩ := istft_bit_exact (ifft cfg) (keeps_ifft_reach cfg) q q'
    (Kofft.ReachVia.mono (fun _ _ => trivial) hq) fy _ window hop oy sy hh hsy hfy e2
  refine ⟨p', q', _, _, a, b, tx, ty, f1, f2, fun t ht ht' ho hc => ?_⟩
  have hlen : ∀ f, f * hop ≤ t → t < f * hop + window.length → (f < fx.length ↔ f < fy.length) := by
    intro f h3 h4
    have := hc f h3 h4
    constructor <;> intro hf <;> by_contra hn
    · rw [List.getElem?_eq_getElem hf, List.getElem?_eq_none (by omega)] at this; cases this
    · rw [List.getElem?_eq_getElem hf, List.getElem?_eq_none (by omega)] at this; cases this
  have hN : normAt window hop fx.length t = normAt window hop fy.length t := by
    unfold normAt
    apply foldl_cover
    intro f acc
    by_cases hcov : f * hop ≤ t ∧ t < f * hop + window.length
    · have := hlen f hcov.1 hcov.2
      by_cases hf : f < fx.length
      · rw [if_pos hf, if_pos (this.mp hf)]
      · rw [if_neg hf, if_neg (fun h => hf (this.mpr h))]
    · simp [hcov]
  have hO : olaAt window hop (fx.map (ifftBuf cfg Planner.new)) (ox.getD t Flt.zero) t =
      olaAt window hop (fy.map (ifftBuf cfg Planner.new)) (oy.getD t Flt.zero) t := by
    unfold olaAt
    rw [List.getD_eq_getElem?_getD (l := ox), List.getD_eq_getElem?_getD (l := oy), ho]
    apply foldl_cover
    intro f acc
    rw [List.length_map, List.length_map]
    by_cases hcov : f * hop ≤ t ∧ t < f * hop + window.length
    · have h3 := hlen f hcov.1 hcov.2
      have h4 := hc f hcov.1 hcov.2
      by_cases hf : f < fx.length
      · rw [if_pos hf, if_pos (h3.mp hf), if_pos hcov, if_pos hcov, List.getD_eq_getElem?_getD (l := fx.map _),
          List.getD_eq_getElem?_getD (l := fy.map _), List.getElem?_map, List.getElem?_map, h4]
      · rw [if_neg hf, if_neg (fun h => hf (h3.mpr h))]
    · simp [hcov]
  have := (h1 t ht).2
  rw [hO, hN, ← (h2 t ht').2] at this
  rw [List.getElem?_eq_getElem (by omega), List.getElem?_eq_getElem (by omega)]
  simpa [List.getD_eq_getElem?_getD, show t < a.length by omega, show t < b.length by omega] using this

/-- C88e. `haar_forward`: coefficient pair `i` depends on samples `2i` and `2i+1` only. -/
theorem haar_local (x y : List T) : ∃ a d a' d', haarForward x = .ok (a, d) ∧ haarForward y = .ok (a', d') ∧
    ∀ i j, 2 * i + 1 < x.length → 2 * j + 1 < y.length → x[2 * i]? = y[2 * j]? → x[2 * i + 1]? = y[2 * j + 1]? →
      a[i]? = a'[j]? ∧ d[i]? = d'[j]? := by
  obtain ⟨a, d, e, la, ld, h⟩ := haar_forward_values x
  obtain ⟨a', d', e', la', ld', h'⟩ := haar_forward_values y
  refine ⟨a, d, a', d', e, e', fun i j hi hj h0 h1 => ?_⟩
  obtain ⟨u1, u2⟩ := h i (by omega)
  obtain ⟨v1, v2⟩ := h' j (by omega)
  rw [List.getD_eq_getElem?_getD (l := x), List.getD_eq_getElem?_getD (l := x), h0, h1,
    ← List.getD_eq_getElem?_getD, ← List.getD_eq_getElem?_getD] at u1 u2
  rw [← v1] at u1
  rw [← v2] at u2
  have ia : i < a.length := by omega
  have ja : j < a'.length := by omega
  have id : i < d.length := by omega
  have jd : j < d'.length := by omega
  rw [List.getElem?_eq_getElem ia, List.getElem?_eq_getElem ja, List.getElem?_eq_getElem id, List.getElem?_eq_getElem jd]
  constructor
  · simpa [List.getD_eq_getElem?_getD, ia, ja] using u1
  · simpa [List.getD_eq_getElem?_getD, id, jd] using u2

/-- What it means for an analysis filter bank to have taps reaching over `L` samples: away from the end of the signal, coefficient
pair `i` depends on samples `2i … 2i+L-1` only. -/
def _root_.Kofft.Spec.LocalBank (L : ℕ) (fwd : List T → Outcome (List T × List T)) : Prop :=
  ∀ x y : List T, ∃ a d a' d', fwd x = .ok (a, d) ∧ fwd y = .ok (a', d') ∧
    ∀ i j, 2 * i + L ≤ x.length → 2 * j + L ≤ y.length → (∀ k, k < L → x[2 * i + k]? = y[2 * j + k]?) →
      a[i]? = a'[j]? ∧ d[i]? = d'[j]?

private theorem tab_local {n m : ℕ} {f g : ℕ → T} {i j : ℕ} (hi : i < n) (hj : j < m) (h : f i = g j) :
    (tab n f)[i]? = (tab m g)[j]? := by
  rw [List.getElem?_eq_getElem (by simpa using hi), List.getElem?_eq_getElem (by simpa using hj)]
  simp [tab, h]

private theorem mir_local (x y : List T) (L i j k : ℕ) (hL : 2 ≤ L) (hx : 2 * i + L ≤ x.length) (hy : 2 * j + L ≤ y.length)
    (h : ∀ k, k < L → x[2 * i + k]? = y[2 * j + k]?) (hk : k < L) :
    x.getD (mirIdx x.length ((2 * i + k : Nat) : Int)) Flt.zero = y.getD (mirIdx y.length ((2 * j + k : Nat) : Int)) Flt.zero := by
  rw [mirIdx_self (by omega) (by omega), mirIdx_self (by omega) (by omega), List.getD_eq_getElem?_getD, List.getD_eq_getElem?_getD, h k hk]

private theorem accS_congr' (a : T) (f g : ℕ → T) (n : ℕ) (h : ∀ k, k < n → f k = g k) : accS a f n = accS a g n := by
  induction n with
  | zero => rfl
  | succ n ih => rw [accS, accS, ih (fun k hk => h k (by omega)), h n (by omega)]

private theorem bank_local (h g : List T) (L : ℕ) (hL : 2 ≤ L) (hh : h.length = L) (hg : g.length = L) :
    LocalBank L (bankForward h g) := by
  intro x y
  refine ⟨_, _, _, _, bankForward_ok h g x (by omega), bankForward_ok h g y (by omega), fun i j hi hj he => ⟨?_, ?_⟩⟩ <;>
  · refine tab_local (by omega) (by omega) ?_
    apply accS_congr'
    intro k hk
    rw [mir_local x y L i j k hL hi hj he (by omega)]

/-- C88f. The Daubechies, Symlet and Coiflet analyses are local: 4, 8, 8 and 6 samples. -/
theorem wavelets_local : LocalBank 4 (db2Forward (T := T)) ∧ LocalBank 8 (db4Forward (T := T)) ∧
    LocalBank 8 (sym4Forward (T := T)) ∧ LocalBank 6 (coif1Forward (T := T)) := by
  refine ⟨?_, bank_local _ _ 8 (by norm_num) rfl rfl, bank_local _ _ 8 (by norm_num) rfl rfl, bank_local _ _ 6 (by norm_num) rfl rfl⟩
  intro x y
  refine ⟨_, _, _, _, db2Forward_ok x, db2Forward_ok y, fun i j hi hj he => ?_⟩
  have e := fun k hk => mir_local x y 4 i j k (by norm_num) hi hj he hk
  have e0 := e 0 (by norm_num)
  rw [Nat.add_zero, Nat.add_zero] at e0
  refine ⟨tab_local (by omega) (by omega) ?_, tab_local (by omega) (by omega) ?_⟩ <;>
    rw [e0, e 1 (by norm_num), e 2 (by norm_num), e 3 (by norm_num)]

end

/-- Two signals that differ, in contents and length, only outside samples 2 to 5: frame 1 of both (hop 2, window 4) covers exactly
these. -/
example : (∀ i, i < 4 → ([1, 2, 3, 4, 5, 6, 7] : List ℝ)[1 * 2 + i]? = ([9, 9, 3, 4, 5, 6, 0, 0, 8] : List ℝ)[1 * 2 + i]?) := by
  intro i hi
  have : i = 0 ∨ i = 1 ∨ i = 2 ∨ i = 3 := by omega
  rcases this with rfl | rfl | rfl | rfl <;> rfl

/-- Sample 3 with hop 2 and window 4 is covered by frames 0 and 1 only: the others may differ. -/
example (a b c d : List (Cx ℝ)) : ∀ f, f * 2 ≤ 3 → 3 < f * 2 + 4 → [a, b, c][f]? = [a, b, d, d][f]? := by
  intro f h1 h2
  have : f = 0 ∨ f = 1 := by omega
  rcases this with rfl | rfl <;> rfl

end Kofft.Props
