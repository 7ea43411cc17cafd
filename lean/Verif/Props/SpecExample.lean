import Verif.Model.SpecExample
import Verif.Spec.Example
import Verif.Props.Sanity
/-
C93: the `spectrogram` example program.
-/
namespace Kofft.Props
open Kofft.Sanity Kofft.SpecExample

section generic
variable {T : Type} [Flt T]

/-- Every command line has a reading. -/
theorem reads_total : ∀ args : List String, ∃ fl pa na, Spec.Reads args fl pa na
  | [] => ⟨_, _, _, .nil⟩
  | [a] => by
    by_cases h1 : a = "--floor"
    · subst h1; exact ⟨_, _, _, .floorLast⟩
    · by_cases h2 : a = "--palette"
      · subst h2; exact ⟨_, _, _, .paletteLast⟩
      · exact ⟨_, _, _, .name a h1 h2 .nil⟩
  | a :: v :: rest => by
    by_cases h1 : a = "--floor"
    · subst h1
      obtain ⟨fl, pa, na, h⟩ := reads_total rest
      exact ⟨_, _, _, .floor v h⟩
    · by_cases h2 : a = "--palette"
      · subst h2
        obtain ⟨fl, pa, na, h⟩ := reads_total rest
        exact ⟨_, _, _, .palette v h⟩
      · obtain ⟨fl, pa, na, h⟩ := reads_total (v :: rest)
        exact ⟨_, _, _, .name a h1 h2 h⟩

/-- The locals after the loop: the names seen before it, then those read, if there are at most two in all. -/
def final (f : T) (p : Colormap) : List String → Option (Args T)
  | [] => some ⟨none, none, f, p⟩
  | [i] => some ⟨some i, none, f, p⟩
  | [i, o] => some ⟨some i, some o, f, p⟩
  | _ => none

/-- What the loop makes of a reading, from any state with the names seen so far. -/
theorem argLoop_reads (parseF : String → Option T) {args fl pa na : List String} (h : Spec.Reads args fl pa na) :
    ∀ (f : T) (p : Colormap),
      (argLoop parseF args ⟨none, none, f, p⟩ = final (Spec.lastReadable parseF f fl)
        (Spec.lastReadable (some ∘ Colormap.parse) p pa) na) ∧
      (∀ i, argLoop parseF args ⟨some i, none, f, p⟩ = final (Spec.lastReadable parseF f fl)
        (Spec.lastReadable (some ∘ Colormap.parse) p pa) (i :: na)) ∧
      (∀ i o, argLoop parseF args ⟨some i, some o, f, p⟩ = final (Spec.lastReadable parseF f fl)
        (Spec.lastReadable (some ∘ Colormap.parse) p pa) (i :: o :: na)) := by
  have hl : ∀ {α : Type} (read : String → Option α) (d : α) (v : String) (l : List String),
      Spec.lastReadable read d (v :: l) = Spec.lastReadable read ((read v).getD d) l := by
    intro α read d v l
    unfold Spec.lastReadable
    cases hr : read v with
    | none => simp [List.filterMap_cons, hr]
    | some x =>
      simp only [List.filterMap_cons, hr, Option.getD_some]
      cases l.filterMap read with
      | nil => rfl
      | cons y t => simp [List.getLastD]
  induction h with
  | nil => intro f p; exact ⟨rfl, fun _ => rfl, fun _ _ => rfl⟩
  | floorLast => intro f p; exact ⟨rfl, fun _ => rfl, fun _ _ => rfl⟩
  | paletteLast => intro f p; exact ⟨rfl, fun _ => rfl, fun _ _ => rfl⟩
  | floor v _ ih =>
    intro f p
    obtain ⟨h1, h2, h3⟩ := ih ((parseF v).getD f) p
    simp only [hl]
    exact ⟨h1, h2, h3⟩
  | palette v _ ih =>
    intro f p
    obtain ⟨h1, h2, h3⟩ := ih f (Colormap.parse v)
    simp only [hl, Function.comp, Option.getD_some]
    exact ⟨h1, h2, h3⟩
  | @name rest fl pa na a n1 n2 hr ih =>
    intro f p
    obtain ⟨h1, h2, h3⟩ := ih f p
    have e1 : argLoop parseF (a :: rest) ⟨none, none, f, p⟩ = argLoop parseF rest ⟨some a, none, f, p⟩ := by
      cases rest with
      | nil => simp only [argLoop, if_neg n1, if_neg n2]
      | cons v t => rw [argLoop]; simp only [if_neg n1, if_neg n2]
    have e2 : ∀ i, argLoop parseF (a :: rest) ⟨some i, none, f, p⟩ = argLoop parseF rest ⟨some i, some a, f, p⟩ := by
      intro i
      cases rest with
      | nil => simp only [argLoop, if_neg n1, if_neg n2]
      | cons v t => rw [argLoop]; simp only [if_neg n1, if_neg n2]
    have e3 : ∀ i o, argLoop parseF (a :: rest) ⟨some i, some o, f, p⟩ = none := by
      intro i o
      cases rest with
      | nil => simp only [argLoop, if_neg n1, if_neg n2]
      | cons v t => rw [argLoop]; simp only [if_neg n1, if_neg n2]
    refine ⟨?_, fun i => ?_, fun i o => ?_⟩
    · rw [e1, h2]
    · rw [e2, h3]
    · rw [e3]; rfl

theorem exColumn_ok (ext : Colormap → T → Rgb) (cmap : Colormap) (mx fd : T) (w h x : ℕ) (hx : x < w) (bins : List T)
    (hb : bins.length = h) (G : ℕ → ℕ → Rgb) :
    SpecExample.column ext cmap mx fd h x bins (imgOf w h G) = .ok (imgOf w h fun x' y' =>
      if x' = x then colorFromMagnitude8 ext (bins.getD (h - 1 - y') Flt.zero) mx fd cmap else G x' y') := by
  unfold SpecExample.column
  rw [forRange_eq (fun i => imgOf w h fun x' y' => if x' = x ∧ h - 1 - y' < i then
      colorFromMagnitude8 ext (bins.getD (h - 1 - y') Flt.zero) mx fd cmap else G x' y') (Nat.zero_le _)]
  · congr 1
    apply imgOf_congr
    intro x' y' hx' hy'
    by_cases e : x' = x
    · rw [if_pos e, if_pos ⟨e, by omega⟩]
    · rw [if_neg e, if_neg (fun h => e h.1)]
  · apply imgOf_congr
    intro x' y' hx' hy'
    rw [if_neg (fun h => Nat.not_lt_zero _ h.2)]
  · intro i _ hi
    rw [rd_getD Flt.zero hi, Outcome.bind_ok]
    rw [if_pos (by omega), imgOf_put w h _ hx (by omega)]
    congr 1
    apply imgOf_congr
    intro x' y' hx' hy'
    by_cases e : x' = x ∧ y' = h - 1 - i
    · rw [if_pos e, if_pos ⟨e.1, by omega⟩, show h - 1 - y' = i by omega]
    · rw [if_neg e]
      by_cases e2 : x' = x ∧ h - 1 - y' < i
      · rw [if_pos e2, if_pos ⟨e2.1, by omega⟩]
      · rw [if_neg e2, if_neg]
        rintro ⟨a, b⟩
        by_cases hh : h - 1 - y' = i
        · exact e ⟨a, by omega⟩
        · exact e2 ⟨a, by omega⟩

/-- C93: the image. For any samples, in any arithmetic and build: no panic and no error; one column per frame of
`stft_magnitudes` (window 1024, hop 512), 512 rows; bin `b` of frame `x` is drawn in column `x`, `b` rows above the
bottom, in the colour of its magnitude relative to the largest magnitude. -/
theorem example_image (cfg : Cfg) (par : Option (List ℕ)) (ext : Colormap → T → Rgb) (fd : T) (cmap : Colormap)
    (samples : List T) (hpar : Spec.validOrder par (divCeil samples.length 512)) :
    ∃ mags mx img, stftMagnitudes cfg par samples 1024 512 = .ok (.ok (mags, mx)) ∧
      draw cfg par ext fd cmap samples = .ok (.ok img) ∧
      img.w = divCeil samples.length 512 ∧ img.h = 512 ∧
      ∀ x b, x < img.w → b < 512 → img.get? x (511 - b) =
        some (colorFromMagnitude8 ext ((mags.getD x []).getD b Flt.zero) mx fd cmap) := by
  obtain ⟨mags, mx, e, h1, h2, h3⟩ := stft_magnitudes_spec cfg par samples 1024 512 (by omega) (by omega)
    (Or.inr ⟨10, rfl⟩) hpar
  have hloop : forRange 0 mags.length (Img.new mags.length 512) (fun x img => do
      let frame ← rd mags x
      SpecExample.column ext cmap mx fd 512 x frame img) = .ok (imgOf mags.length 512 fun x' y' =>
        colorFromMagnitude8 ext ((mags.getD x' []).getD (512 - 1 - y') Flt.zero) mx fd cmap) := by
    rw [forRange_eq (fun i => imgOf mags.length 512 fun x' y' => if x' < i then
        colorFromMagnitude8 ext ((mags.getD x' []).getD (512 - 1 - y') Flt.zero) mx fd cmap else ⟨0, 0, 0⟩)
        (Nat.zero_le _)]
    · congr 1
      apply imgOf_congr
      intro x' y' hx' _
      rw [if_pos hx']
    · unfold Img.new imgOf
      simp only [Nat.not_lt_zero, if_false]
      rw [replicate_eq_tab]
    · intro i _ hi
      rw [rd_getD [] hi, Outcome.bind_ok, exColumn_ok _ _ _ _ _ _ _ hi _ (h2 i hi).1]
      congr 1
      apply imgOf_congr
      intro x' y' hx' _
      by_cases e1 : x' = i
      · rw [if_pos e1, if_pos (by omega), e1]
      · rw [if_neg e1]
        by_cases e2 : x' < i
        · rw [if_pos e2, if_pos (by omega)]
        · rw [if_neg e2, if_neg (by omega)]
  refine ⟨mags, mx, imgOf mags.length 512 fun x' y' =>
    colorFromMagnitude8 ext ((mags.getD x' []).getD (512 - 1 - y') Flt.zero) mx fd cmap, e, ?_, h1, rfl, ?_⟩
  · unfold draw
    rw [e, Outcome.bind_ok]
    simp only []
    rw [hloop, Outcome.bind_ok]
    rfl
  · intro x b hx hb
    have g1 := imgOf_get mags.length 512 (fun x' y' =>
        colorFromMagnitude8 ext ((mags.getD x' []).getD (512 - 1 - y') Flt.zero) mx fd cmap) (x := x) hx
        (show 511 - b < 512 by omega)
    simp only [show 512 - 1 - (511 - b) = b by omega] at g1
    exact g1

/-- C93: the program, for every command line and every file contents. It never panics; it prints the usage and exits
with status 1 exactly when the command line does not name exactly two files; otherwise it returns an error exactly when
the first file cannot be opened or one of its samples cannot be decoded; otherwise it saves to the second file the image
of the samples `v / 32767` with the last readable `--floor` (default −120 dB) and the last `--palette` (default
fire). -/
theorem example_main (cfg : Cfg) (par : Option (List ℕ)) (ext : Colormap → T → Rgb) (parseF : String → Option T)
    (ofI16 : ℤ → T) (wav : String → Option (List (Option ℤ))) (args fl pa na : List String)
    (hr : Spec.Reads args fl pa na)
    (hpar : ∀ f l, wav f = some l → Spec.validOrder par (divCeil l.length 512)) :
    (na.length ≠ 2 → SpecExample.main cfg par ext parseF ofI16 wav args = .ok .usage) ∧
    ∀ i o, na = [i, o] →
      (wav i = none ∨ (∃ l, wav i = some l ∧ none ∈ l) →
        SpecExample.main cfg par ext parseF ofI16 wav args = .ok .error) ∧
      ∀ vals : List ℤ, wav i = some (vals.map some) → ∃ img,
        SpecExample.main cfg par ext parseF ofI16 wav args = .ok (.save o img) ∧
        draw cfg par ext (Spec.lastReadable parseF (-. Flt.ofNatD 120) fl)
          (Spec.lastReadable (some ∘ Colormap.parse) .fire pa) (vals.map fun v => ofI16 v /. ofI16 32767) =
          .ok (.ok img) := by
  have hA := (argLoop_reads parseF hr (-. Flt.ofNatD 120) .fire).1
  refine ⟨fun hn => ?_, ?_⟩
  · unfold SpecExample.main
    rw [hA]
    match na, hn with
    | [], _ => rfl
    | [_], _ => rfl
    | _ :: _ :: _ :: _, _ => rfl
  · rintro i o rfl
    simp only [final] at hA
    refine ⟨?_, ?_⟩
    · rintro (h | ⟨l, h, hm⟩)
      · unfold SpecExample.main
        rw [hA]
        simp only [h]
      · have hnone : l.mapM id = none := by
          clear h
          induction l with
          | nil => simp at hm
          | cons a t ih =>
            cases a with
            | none => simp
            | some a =>
              have : none ∈ t := by simpa using hm
              simp [ih this]
        unfold SpecExample.main
        rw [hA]
        simp only [h, hnone]
    · intro vals h
      have hsome : (vals.map some).mapM id = some vals := by
        clear h
        induction vals with
        | nil => rfl
        | cons a t ih => simp [ih]
      have hv := hpar _ _ h
      rw [List.length_map] at hv
      obtain ⟨mags, mx, img, -, e, -⟩ := example_image cfg par ext
        (Spec.lastReadable parseF (-. Flt.ofNatD 120) fl) (Spec.lastReadable (some ∘ Colormap.parse) .fire pa)
        (vals.map fun v => ofI16 v /. ofI16 32767) (by rw [List.length_map]; exact hv)
      refine ⟨img, ?_, e⟩
      unfold SpecExample.main
      rw [hA]
      simp only [h, hsome, readWav, e, Outcome.bind_ok]
      rfl

/-- A reading, computed. -/
def readOf : List String → List String × List String × List String
  | [] => ([], [], [])
  | [a] => if a = "--floor" then ([], [], []) else if a = "--palette" then ([], [], []) else ([], [], [a])
  | a :: v :: rest =>
    if a = "--floor" then (v :: (readOf rest).1, (readOf rest).2.1, (readOf rest).2.2)
    else if a = "--palette" then ((readOf rest).1, v :: (readOf rest).2.1, (readOf rest).2.2)
    else ((readOf (v :: rest)).1, (readOf (v :: rest)).2.1, a :: (readOf (v :: rest)).2.2)

theorem reads_readOf {args fl pa na : List String} (h : Spec.Reads args fl pa na) : readOf args = (fl, pa, na) := by
  induction h with
  | nil => rfl
  | floor v _ ih => rw [readOf, if_pos rfl, ih]
  | palette v _ ih => rw [readOf, if_neg (by decide), if_pos rfl, ih]
  | floorLast => rfl
  | paletteLast => rfl
  | @name rest _ _ _ a n1 n2 _ ih =>
    cases rest with
    | nil =>
      rw [readOf, if_neg n1, if_neg n2]
      simp only [readOf, Prod.mk.injEq] at ih
      obtain ⟨rfl, rfl, rfl⟩ := ih
      rfl
    | cons v t => rw [readOf, if_neg n1, if_neg n2, ih]

/-- C93: every command line has exactly one reading. -/
theorem example_reading (args : List String) :
    ∃ fl pa na, Spec.Reads args fl pa na ∧
      ∀ fl' pa' na', Spec.Reads args fl' pa' na' → fl' = fl ∧ pa' = pa ∧ na' = na := by
  obtain ⟨fl, pa, na, h⟩ := reads_total args
  refine ⟨fl, pa, na, h, fun fl' pa' na' h' => ?_⟩
  have := (reads_readOf h').symm.trans (reads_readOf h)
  simpa using this

/-- A command line with both options, one of them unreadable: the reading and what follows from it. -/
example (cfg : Cfg) (ext : Colormap → T → Rgb) (ofI16 : ℤ → T) (a : T) : ∃ img,
    SpecExample.main cfg none ext (fun s => if s = "-90" then some a else none) ofI16
      (fun _ => some ([5, -7].map some)) ["in.wav", "--floor", "-90", "--palette", "Legacy", "--floor", "x", "out.png"] =
      .ok (.save "out.png" img) ∧
    draw cfg none ext a .legacy [ofI16 5 /. ofI16 32767, ofI16 (-7) /. ofI16 32767] = .ok (.ok img) := by
  have hr : Spec.Reads ["in.wav", "--floor", "-90", "--palette", "Legacy", "--floor", "x", "out.png"] ["-90", "x"]
      ["Legacy"] ["in.wav", "out.png"] :=
    .name _ (by decide) (by decide) (.floor _ (.palette _ (.floor _ (.name _ (by decide) (by decide) .nil))))
  obtain ⟨img, h1, h2⟩ := ((example_main cfg none ext (fun s => if s = "-90" then some a else none) ofI16
    (fun _ => some ([5, -7].map some)) _ _ _ _ hr (by intro _ _ _ o h; cases h)).2 _ _ rfl).2 _ rfl
  refine ⟨img, h1, ?_⟩
  have e1 : Spec.lastReadable (fun s => if s = "-90" then some a else none) (-. Flt.ofNatD 120) ["-90", "x"] = a := by
    simp [Spec.lastReadable]
  have e2 : Spec.lastReadable (some ∘ Colormap.parse) .fire ["Legacy"] = Colormap.legacy := by
    decide +kernel
  rw [e1, e2] at h2
  exact h2

end generic
end Kofft.Props
