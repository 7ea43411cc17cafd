import Verif.Model.SanityIo
import Verif.Spec.Svg
import Verif.Props.Sanity
/-
C102: the SVG export. C103: reading audio containers.
-/
namespace Kofft.Props
open Kofft.Sanity

/-! ### SVG -/

private theorem enum_eq (w h : ℕ) (hw : 0 < w) : ∀ (cs : List Rgb) (k : ℕ) (x y : ℕ),
    (x < w ∧ k = y * w + x ∨ x = w ∧ k = (y + 1) * w) →
    enumPixels w x y cs = (List.range cs.length).map fun i => ((k + i) % w, (k + i) / w, cs.getD i ⟨0, 0, 0⟩)
  | [], _, _, _, _ => rfl
  | c :: cs, k, x, y, hk => by
    have e : (List.range (c :: cs).length).map (fun i => ((k + i) % w, (k + i) / w, (c :: cs).getD i ⟨0, 0, 0⟩)) =
        (k % w, k / w, c) :: (List.range cs.length).map fun i => ((k + 1 + i) % w, (k + 1 + i) / w, cs.getD i ⟨0, 0, 0⟩) := by
      rw [List.length_cons, List.range_succ_eq_map, List.map_cons, List.map_map]
      congr 1
      apply List.map_congr_left
      intro i _
      simp only [Function.comp_def, List.getD_cons_succ]
      rw [show k + i.succ = k + 1 + i by omega]
    rw [e, enumPixels]
    rcases hk with ⟨hx, hk⟩ | ⟨hx, hk⟩
    · rw [if_neg (by omega), enum_eq w h hw cs (k + 1) (x + 1) y (by
        by_cases hxw : x + 1 < w
        · exact Or.inl ⟨hxw, by omega⟩
        · exact Or.inr ⟨by omega, by rw [Nat.add_mul]; omega⟩)]
      have h1 : k % w = x := by rw [hk, Nat.mul_comm y, Nat.mul_add_mod, Nat.mod_eq_of_lt hx]
      have h2 : k / w = y := by rw [hk, Nat.mul_comm y, Nat.mul_add_div hw, Nat.div_eq_of_lt hx, Nat.add_zero]
      rw [h1, h2]
    · have h1 : k % w = 0 := by rw [hk, Nat.mul_mod_left]
      have h2 : k / w = y + 1 := by rw [hk, Nat.mul_div_cancel _ hw]
      rw [if_pos (by omega), h1, h2]
      congr 1
      by_cases hw1 : 1 < w
      · exact enum_eq w h hw cs (k + 1) 1 (y + 1) (Or.inl ⟨hw1, by omega⟩)
      · exact enum_eq w h hw cs (k + 1) 1 (y + 1) (Or.inr ⟨by omega, by rw [Nat.add_mul (y + 1)]; omega⟩)

private theorem foldl_rects {α : Type} (f : α → Rect) : ∀ (l : List α) (d : Doc),
    l.foldl (fun doc p => { doc with rects := doc.rects ++ [f p] }) d = ⟨d.viewBox, d.rects ++ l.map f⟩
  | [], d => by simp
  | a :: l, d => by rw [List.foldl_cons, foldl_rects f l]; simp

private theorem hexByte_hex : ∀ v, v < 256 → ∃ a b, hex02 v = [a, b] ∧ Spec.hexByte a b = some v := by
  intro v hv
  have key : ∀ d, d < 16 → Spec.hexVal (hexDigit d) = some d := by decide
  have h0 : Spec.hexVal '0' = some 0 := by decide
  by_cases h : v < 16
  · refine ⟨'0', hexDigit v, by rw [hex02, hex, if_pos h]; rfl, ?_⟩
    simp [Spec.hexByte, key v h, h0]
  · refine ⟨hexDigit (v / 16), hexDigit (v % 16), ?_, ?_⟩
    · rw [hex02, hex, if_neg h, hex, if_pos (by omega)]
      rfl
    · simp only [Spec.hexByte, key (v / 16) (by omega), key (v % 16) (by omega)]
      rw [Nat.div_add_mod]

theorem cssColor_fill (c : Rgb) (h : c.r < 65536 ∧ c.g < 65536 ∧ c.b < 65536) :
    Spec.cssColor (fillOf c) = some (c.r / 256, c.g / 256, c.b / 256) := by
  obtain ⟨a1, b1, e1, f1⟩ := hexByte_hex (c.r / 256) (by omega)
  obtain ⟨a2, b2, e2, f2⟩ := hexByte_hex (c.g / 256) (by omega)
  obtain ⟨a3, b3, e3, f3⟩ := hexByte_hex (c.b / 256) (by omega)
  rw [fillOf, e1, e2, e3]
  simp [Spec.cssColor, f1, f2, f3]

private theorem filter_single {α : Type} (n i0 : ℕ) (hi : i0 < n) (f : ℕ → α) (p : α → Bool)
    (hp : ∀ i, i < n → (p (f i) = true ↔ i = i0)) : ((List.range n).map f).filter p = [f i0] := by
  rw [List.filter_map]
  have : (List.range n).filter (p ∘ f) = (List.range n).filter (· == i0) := by
    apply List.filter_congr
    intro i hi'
    rw [List.mem_range] at hi'
    have := hp i hi'
    by_cases h : i = i0
    · simp [h, (hp i0 hi).2 rfl]
    · have h2 : p (f i) = false := by
        by_contra hc
        exact h (this.1 (by simpa using hc))
      simp [h, h2]
  rw [this, List.filter_beq, List.count_eq_one_of_mem List.nodup_range (List.mem_range.mpr hi)]
  rfl

/-- C102. The SVG of a 16-bit image: the view box has the size of the image, there is exactly one rectangle per pixel, one
unit wide and high, at the coordinates of the pixel, and its `fill` is a CSS colour that denotes exactly the pixel of
the 8-bit PNG of the same image. -/
theorem svg_pixels (img : Img) (hl : img.px.length = img.w * img.h)
    (h16 : ∀ c ∈ img.px, c.r < 65536 ∧ c.g < 65536 ∧ c.b < 65536) :
    (saveSvg img).viewBox = (0, 0, img.w, img.h) ∧ (saveSvg img).rects.length = img.w * img.h ∧
    (∀ r ∈ (saveSvg img).rects, r.width = 1 ∧ r.height = 1 ∧ r.x < img.w ∧ r.y < img.h) ∧
    ∀ x y, x < img.w → y < img.h → ∃ r c, (saveSvg img).rects.filter (fun r => r.x = x ∧ r.y = y) = [r] ∧
      (to8 img).get? x y = some c ∧ Spec.cssColor r.fill = some (c.r, c.g, c.b) := by
  by_cases hw : img.w = 0
  · have h0 : img.px = [] := List.eq_nil_of_length_eq_zero (by rw [hl, hw, Nat.zero_mul])
    have : saveSvg img = ⟨(0, 0, img.w, img.h), []⟩ := by
      rw [saveSvg, h0]; rfl
    rw [this]
    simp [hw]
  have hw : 0 < img.w := by omega
  have hs : saveSvg img = ⟨(0, 0, img.w, img.h), (List.range (img.w * img.h)).map fun i =>
      (⟨i % img.w, i / img.w, 1, 1, fillOf (img.px.getD i ⟨0, 0, 0⟩)⟩ : Rect)⟩ := by
    unfold saveSvg
    rw [foldl_rects (fun p : ℕ × ℕ × Rgb => (⟨p.1, p.2.1, 1, 1, fillOf p.2.2⟩ : Rect)),
      enum_eq img.w img.h hw img.px 0 0 0 (Or.inl ⟨hw, by simp⟩), List.map_map, hl]
    simp [Function.comp_def]
  rw [hs]
  refine ⟨rfl, by simp, ?_, ?_⟩
  · intro r hr
    simp only [List.mem_map, List.mem_range] at hr
    obtain ⟨i, hi, rfl⟩ := hr
    exact ⟨rfl, rfl, Nat.mod_lt _ hw, Nat.div_lt_of_lt_mul hi⟩
  · intro x y hx hy
    have hlt : y * img.w + x < img.w * img.h := by
      calc y * img.w + x < y * img.w + img.w := by omega
        _ = (y + 1) * img.w := by ring
        _ ≤ img.h * img.w := Nat.mul_le_mul_right _ hy
        _ = img.w * img.h := Nat.mul_comm _ _
    have hlt' : y * img.w + x < img.px.length := by omega
    refine ⟨_, ⟨(img.px[y * img.w + x]).r / 256 % 256, (img.px[y * img.w + x]).g / 256 % 256,
      (img.px[y * img.w + x]).b / 256 % 256⟩, filter_single (img.w * img.h) (y * img.w + x) hlt _ _ ?_, ?_, ?_⟩
    · intro i hi
      simp only [decide_eq_true_eq]
      constructor
      · rintro ⟨h1, h2⟩
        rw [← Nat.div_add_mod i img.w, h1, h2, Nat.mul_comm]
      · rintro rfl
        rw [Nat.mul_comm, Nat.mul_add_mod, Nat.mod_eq_of_lt hx, Nat.mul_add_div hw, Nat.div_eq_of_lt hx, Nat.add_zero]
        exact ⟨rfl, rfl⟩
    · unfold Img.get? to8
      simp only []
      rw [if_pos ⟨hx, hy⟩, List.getElem?_map, List.getElem?_eq_getElem hlt']
      rfl
    · have hc := h16 _ (List.getElem_mem hlt')
      show Spec.cssColor (fillOf (img.px.getD (y * img.w + x) ⟨0, 0, 0⟩)) = _
      rw [List.getD_eq_getElem _ _ hlt', cssColor_fill _ hc, Nat.mod_eq_of_lt (a := _ / 256), Nat.mod_eq_of_lt (a := _ / 256),
        Nat.mod_eq_of_lt (a := _ / 256)] <;> omega

/-- C102 is not vacuous: two pixels. -/
example : (saveSvg ⟨2, 1, [⟨65535, 0, 32768⟩, ⟨2570, 255, 256⟩]⟩).rects.map (fun r => (r.x, r.y, r.fill)) =
    [(0, 0, "#ff0080".toList), (1, 0, "#0a0001".toList)] := by
  have h1 : hex02 255 = ['f', 'f'] := by rw [hex02, hex, if_neg (by norm_num), hex, if_pos (by norm_num)]; decide
  have h2 : hex02 128 = ['8', '0'] := by rw [hex02, hex, if_neg (by norm_num), hex, if_pos (by norm_num)]; decide
  have h3 : hex02 0 = ['0', '0'] := by rw [hex02, hex, if_pos (by norm_num)]; decide
  have h4 : hex02 10 = ['0', 'a'] := by rw [hex02, hex, if_pos (by norm_num)]; decide
  have h5 : hex02 1 = ['0', '1'] := by rw [hex02, hex, if_pos (by norm_num)]; decide
  show [(0, 0, '#' :: (hex02 (65535 / 256) ++ hex02 (0 / 256) ++ hex02 (32768 / 256))),
    (1, 0, '#' :: (hex02 (2570 / 256) ++ hex02 (255 / 256) ++ hex02 (256 / 256)))] = _
  norm_num only [h1, h2, h3, h4, h5]
  decide

/-! ### Audio -/

section audio
variable {T : Type} [Flt T]

omit [Flt T] in
private theorem upper_cases {P : Char → Prop} (h : ∀ n, 65 ≤ n → n ≤ 90 → P (Char.ofNat n)) (c : Char)
    (hc : 'A' ≤ c ∧ c ≤ 'Z') : P c := by
  have h1 : 65 ≤ c.toNat := hc.1
  have h2 : c.toNat ≤ 90 := hc.2
  have := h c.toNat h1 h2
  rwa [Char.ofNat_toNat] at this

omit [Flt T] in
private theorem lower_w (c : Char) : lowerAscii c = 'w' ↔ c = 'w' ∨ c = 'W' := by
  by_cases hc : 'A' ≤ c ∧ c ≤ 'Z'
  · refine upper_cases (P := fun c => lowerAscii c = 'w' ↔ c = 'w' ∨ c = 'W') ?_ c hc
    intro n h1 h2
    interval_cases n <;> decide
  · rw [lowerAscii, if_neg hc]
    constructor
    · exact Or.inl
    · rintro (h | rfl)
      · exact h
      · exact absurd (by decide) hc

omit [Flt T] in
private theorem lower_a (c : Char) : lowerAscii c = 'a' ↔ c = 'a' ∨ c = 'A' := by
  by_cases hc : 'A' ≤ c ∧ c ≤ 'Z'
  · refine upper_cases (P := fun c => lowerAscii c = 'a' ↔ c = 'a' ∨ c = 'A') ?_ c hc
    intro n h1 h2
    interval_cases n <;> decide
  · rw [lowerAscii, if_neg hc]
    constructor
    · exact Or.inl
    · rintro (h | rfl)
      · exact h
      · exact absurd (by decide) hc

omit [Flt T] in
private theorem lower_v (c : Char) : lowerAscii c = 'v' ↔ c = 'v' ∨ c = 'V' := by
  by_cases hc : 'A' ≤ c ∧ c ≤ 'Z'
  · refine upper_cases (P := fun c => lowerAscii c = 'v' ↔ c = 'v' ∨ c = 'V') ?_ c hc
    intro n h1 h2
    interval_cases n <;> decide
  · rw [lowerAscii, if_neg hc]
    constructor
    · exact Or.inl
    · rintro (h | rfl)
      · exact h
      · exact absurd (by decide) hc

/-- The file name has an extension, and it reads `wav` in any mixture of upper and lower case. -/
def _root_.Kofft.Spec.NamedWav (ext : Option (List Char)) : Prop :=
  ∃ a b c, ext = some [a, b, c] ∧ (a = 'w' ∨ a = 'W') ∧ (b = 'a' ∨ b = 'A') ∧ (c = 'v' ∨ c = 'V')

omit [Flt T] in
private theorem isWav_iff (ext : Option (List Char)) : isWav ext = true ↔ Spec.NamedWav ext := by
  unfold isWav Spec.NamedWav
  cases ext with
  | none => simp
  | some ext =>
    simp only [decide_eq_true_eq, Option.some.injEq]
    constructor
    · intro h
      match ext, h with
      | [a, b, c], h =>
        simp only [List.map_cons, List.map_nil, List.cons.injEq, and_true] at h
        exact ⟨a, b, c, rfl, (lower_w a).1 h.1, (lower_a b).1 h.2.1, (lower_v c).1 h.2.2⟩
      | [], h => simp at h
      | [_], h => simp at h
      | [_, _], h => simp at h
      | _ :: _ :: _ :: _ :: _, h => simp at h
    · rintro ⟨a, b, c, rfl, h1, h2, h3⟩
      simp only [List.map_cons, List.map_nil, (lower_w a).2 h1, (lower_a b).2 h2, (lower_v c).2 h3]

/-- The packets among the answers of a reader. -/
def _root_.Kofft.Spec.packetsOf (es : List (Event T)) : List (Packet T) :=
  es.filterMap fun e => match e with | .packet p => some p | _ => none

/-- The stream goes on: decoded packets and requests to reset the decoder. -/
def _root_.Kofft.Spec.GoesOn (es : List (Event T)) : Prop :=
  ∀ e ∈ es, e = .reset ∨ ∃ p, e = .packet p

/-- A packet as announced: `c` channels, as many samples as it says, no longer than `room` frames. -/
def _root_.Kofft.Spec.AsAnnounced (c room : ℕ) (p : Packet T) : Prop :=
  p.channels = c ∧ p.data.length = p.frames * c ∧ p.frames ≤ room

/-- How many frames the intermediate buffer holds: the room the decoder gave the first packet. -/
def _root_.Kofft.Spec.firstRoom (es : List (Event T)) : ℕ := ((Spec.packetsOf es).head?.map Packet.capacity).getD 0

private def mixAll (c : ℕ) (ps : List (Packet T)) (acc : List T) : Outcome (List T) :=
  (ps.map Packet.data).foldlM (fun acc p => do
    let m ← mixDown c p
    Outcome.ok (acc ++ m)) acc

omit [Flt T] in
private theorem packetsOf_reset (es : List (Event T)) : Spec.packetsOf (.reset :: es) = Spec.packetsOf es := rfl
omit [Flt T] in
private theorem packetsOf_packet (p : Packet T) (es : List (Event T)) :
    Spec.packetsOf (.packet p :: es) = p :: Spec.packetsOf es := rfl

private theorem mixDown_ne (c : ℕ) (hc : 0 < c) (p : List T) : ∃ m, mixDown c p = .ok m := by
  unfold mixDown
  by_cases h : c = 1
  · exact ⟨_, if_pos h⟩
  · exact ⟨_, by rw [if_neg h, if_neg (by omega)]⟩

private theorem mixAll_ok (c : ℕ) (hc : 0 < c) : ∀ (ps : List (Packet T)) (acc : List T), ∃ m, mixAll c ps acc = .ok m
  | [], acc => ⟨acc, rfl⟩
  | p :: ps, acc => by
    obtain ⟨m, hm⟩ := mixDown_ne c hc p.data
    obtain ⟨m', h'⟩ := mixAll_ok c hc ps (acc ++ m)
    exact ⟨m', by rw [mixAll, List.map_cons, List.foldlM_cons, hm, Outcome.bind_ok]; exact h'⟩

/-- the state after a stream of packets as announced -/
private theorem loop_run (c room : ℕ) : ∀ (es rest : List (Event T)) (acc : List T),
    Spec.GoesOn es → (∀ p ∈ Spec.packetsOf es, Spec.AsAnnounced c room p) →
    decodeLoop c (es ++ rest) acc (some (room * c)) =
      mixAll c (Spec.packetsOf es) acc >>= fun s => decodeLoop c rest s (some (room * c))
  | [], rest, acc, _, _ => rfl
  | e :: es, rest, acc, hg, hp => by
    have hg' : Spec.GoesOn es := fun x hx => hg x (by simp [hx])
    rcases hg e (by simp) with rfl | ⟨p, rfl⟩
    · rw [List.cons_append, decodeLoop]
      exact loop_run c room es rest acc hg' hp
    · rw [packetsOf_packet] at hp ⊢
      obtain ⟨h1, h2, h3⟩ := hp p (by simp)
      rw [List.cons_append, decodeLoop]
      simp only [Option.getD_some]
      rw [if_pos ⟨by rw [h1]; exact Nat.mul_le_mul_right _ h3, by rw [h1]⟩, List.take_of_length_le (by omega)]
      rw [mixAll, List.map_cons, List.foldlM_cons]
      cases hm : mixDown c p.data with
      | ok m =>
        simp only [Outcome.bind_ok]
        exact loop_run c room es rest (acc ++ m) hg' fun q hq => hp q (by simp [hq])
      | panic => rfl
      | hang => rfl

private theorem loop_run0 (c : ℕ) : ∀ (es rest : List (Event T)) (acc : List T),
    Spec.GoesOn es → (∀ p ∈ Spec.packetsOf es, Spec.AsAnnounced c (Spec.firstRoom es) p) →
    decodeLoop c (es ++ rest) acc none =
      mixAll c (Spec.packetsOf es) acc >>= fun s => decodeLoop c rest s
        (if Spec.packetsOf es = [] then none else some (Spec.firstRoom es * c))
  | [], rest, acc, _, _ => rfl
  | e :: es, rest, acc, hg, hp => by
    have hg' : Spec.GoesOn es := fun x hx => hg x (by simp [hx])
    rcases hg e (by simp) with rfl | ⟨p, rfl⟩
    · rw [List.cons_append, decodeLoop]
      exact loop_run0 c es rest acc hg' hp
    · have hroom : Spec.firstRoom (.packet p :: es) = p.capacity := rfl
      rw [hroom, packetsOf_packet] at hp ⊢
      rw [if_neg (by simp)]
      obtain ⟨h1, h2, h3⟩ := hp p (by simp)
      rw [List.cons_append, decodeLoop]
      simp only [Option.getD_none]
      rw [if_pos ⟨by exact Nat.mul_le_mul_right _ h3, by rw [h1]⟩, List.take_of_length_le (by omega), h1]
      rw [mixAll, List.map_cons, List.foldlM_cons]
      cases hm : mixDown c p.data with
      | ok m =>
        simp only [Outcome.bind_ok]
        exact loop_run c p.capacity es rest (acc ++ m) hg' fun q hq => hp q (by simp [hq])
      | panic => rfl
      | hang => rfl

/-- C103a. Reading a container whose packets are as announced and no longer than the room the decoder gave the first one:
up to the end of the stream the packets are joined in order and mixed down (`readPackets`, C68), requests to reset the
decoder in between change nothing, and what the reader would answer after the end of the stream is not looked at. -/
theorem read_audio_stream (ofI16 : ℤ → T) (ext : Option (List Char)) (hext : ¬ Spec.NamedWav ext)
    (wav : Except Unit (List ℤ × ℕ)) (n : Option ℕ) (rate c : ℕ) (hc : 0 < c) (es rest : List (Event T))
    (hg : Spec.GoesOn es) (hp : ∀ p ∈ Spec.packetsOf es, Spec.AsAnnounced c (Spec.firstRoom es) p) :
    ∃ s, readPackets c n ((Spec.packetsOf es).map Packet.data) = .ok s ∧
      readAudio ofI16 ext wav (.ok ⟨n, some rate, some c⟩) (es ++ .eof :: rest) = .ok (.ok (s, rate)) := by
  obtain ⟨s, hs⟩ := mixAll_ok c hc (Spec.packetsOf es) []
  refine ⟨match n with | some n => s.take n | none => s, ?_, ?_⟩
  · unfold readPackets
    rw [show (List.foldlM _ [] _ : Outcome (List T)) = .ok s from hs, Outcome.bind_ok]
    cases n <;> rfl
  · unfold readAudio
    rw [if_neg (fun h => hext ((isWav_iff ext).1 h))]
    simp only []
    rw [loop_run0 c es _ [] hg hp, hs, Outcome.bind_ok]
    rfl

/-- C103b. The first failure before the end of the stream, of the reader (other than the end of the stream and the request
to reset) or of the decoder on a single packet, makes the whole call fail: the samples decoded so far are dropped. -/
theorem read_audio_fails (ofI16 : ℤ → T) (ext : Option (List Char)) (hext : ¬ Spec.NamedWav ext)
    (wav : Except Unit (List ℤ × ℕ)) (n : Option ℕ) (rate c : ℕ) (hc : 0 < c) (es rest : List (Event T))
    (hg : Spec.GoesOn es) (hp : ∀ p ∈ Spec.packetsOf es, Spec.AsAnnounced c (Spec.firstRoom es) p)
    (e : Event T) (he : e = .bad ∨ e = .fail) :
    readAudio ofI16 ext wav (.ok ⟨n, some rate, some c⟩) (es ++ e :: rest) = .ok (.error ()) := by
  obtain ⟨s, hs⟩ := mixAll_ok c hc (Spec.packetsOf es) []
  unfold readAudio
  rw [if_neg (fun h => hext ((isWav_iff ext).1 h))]
  simp only []
  rw [loop_run0 c es _ [] hg hp, hs, Outcome.bind_ok]
  rcases he with rfl | rfl <;> rfl

/-- C103c, negative. A packet longer than the room the decoder gave the first packet makes the call panic. -/
theorem read_audio_growing_packet_panics (ofI16 : ℤ → T) (ext : Option (List Char)) (hext : ¬ Spec.NamedWav ext)
    (wav : Except Unit (List ℤ × ℕ)) (n : Option ℕ) (rate c : ℕ) (hc : 0 < c) (es rest : List (Event T))
    (hg : Spec.GoesOn es) (hp : ∀ p ∈ Spec.packetsOf es, Spec.AsAnnounced c (Spec.firstRoom es) p)
    (hne : Spec.packetsOf es ≠ []) (q : Packet T) (hq : q.channels = c) (hbig : Spec.firstRoom es < q.frames) :
    readAudio ofI16 ext wav (.ok ⟨n, some rate, some c⟩) (es ++ .packet q :: rest) = .panic := by
  obtain ⟨s, hs⟩ := mixAll_ok c hc (Spec.packetsOf es) []
  unfold readAudio
  rw [if_neg (fun h => hext ((isWav_iff ext).1 h))]
  simp only []
  rw [loop_run0 c es _ [] hg hp, hs, Outcome.bind_ok, if_neg hne, decodeLoop]
  simp only [Option.getD_some]
  rw [if_neg (by
    rintro ⟨h1, -⟩
    rw [hq] at h1
    have := Nat.le_of_mul_le_mul_right h1 hc
    omega)]
  rfl

/-- C103c, negative. So does a non-empty packet with fewer channels than announced. -/
theorem read_audio_fewer_channels_panics (ofI16 : ℤ → T) (ext : Option (List Char)) (hext : ¬ Spec.NamedWav ext)
    (wav : Except Unit (List ℤ × ℕ)) (n : Option ℕ) (rate c : ℕ) (hc : 0 < c) (es rest : List (Event T))
    (hg : Spec.GoesOn es) (hp : ∀ p ∈ Spec.packetsOf es, Spec.AsAnnounced c (Spec.firstRoom es) p)
    (q : Packet T) (hq : q.channels < c) (hf : 0 < q.frames) :
    readAudio ofI16 ext wav (.ok ⟨n, some rate, some c⟩) (es ++ .packet q :: rest) = .panic := by
  obtain ⟨s, hs⟩ := mixAll_ok c hc (Spec.packetsOf es) []
  unfold readAudio
  rw [if_neg (fun h => hext ((isWav_iff ext).1 h))]
  simp only []
  rw [loop_run0 c es _ [] hg hp, hs, Outcome.bind_ok, decodeLoop]
  rw [if_neg (by
    rintro ⟨-, h1⟩
    have := Nat.le_of_mul_le_mul_left h1 hf
    omega)]
  rfl

/-- C103d. A file named as a WAV file is read by the WAV reader alone; a file without sample rate or channel count is refused. -/
theorem read_audio_other (ofI16 : ℤ → T) (ext : Option (List Char)) (wav : Except Unit (List ℤ × ℕ))
    (track : Except Unit Track) (es : List (Event T)) :
    (Spec.NamedWav ext → readAudio ofI16 ext wav track es = .ok (wav.map fun w => (readWav ofI16 w.1, w.2))) ∧
    (¬ Spec.NamedWav ext → (∀ t, track = .ok t → t.sampleRate = none ∨ t.channels = none) →
      readAudio ofI16 ext wav track es = .ok (.error ())) := by
  constructor
  · intro h
    unfold readAudio
    rw [if_pos ((isWav_iff ext).2 h)]
    cases wav <;> rfl
  · intro h ht
    unfold readAudio
    rw [if_neg (fun h' => h ((isWav_iff ext).1 h'))]
    cases track with
    | error e => rfl
    | ok t =>
      obtain ⟨n, r, c⟩ := t
      rcases ht _ rfl with h | h
      · cases h; rfl
      · cases h; cases r <;> rfl

/-- C103 is not vacuous: two stereo packets with a reset in between, and what follows the end is ignored. -/
example (ofI16 : ℤ → T) (a b c d e f : T) (wav : Except Unit (List ℤ × ℕ)) (n : Option ℕ) :
    ∃ s, readPackets 2 n [[a, b, c, d], [e, f]] = .ok s ∧
      readAudio ofI16 (some "mp3".toList) wav (.ok ⟨n, some 44100, some 2⟩)
        [.packet ⟨2, 2, 2, [a, b, c, d]⟩, .reset, .packet ⟨1, 1, 2, [e, f]⟩, .eof, .fail] = .ok (.ok (s, 44100)) := by
  refine read_audio_stream ofI16 _ (by rw [← isWav_iff]; decide) wav n 44100 2 (by norm_num)
    [.packet ⟨2, 2, 2, [a, b, c, d]⟩, .reset, .packet ⟨1, 1, 2, [e, f]⟩] [.fail] ?_ ?_
  · intro e he
    simp only [List.mem_cons, List.not_mem_nil, or_false] at he
    rcases he with rfl | rfl | rfl <;> simp
  · intro p hp
    rw [packetsOf_packet, packetsOf_reset, packetsOf_packet] at hp
    simp only [List.mem_cons] at hp
    rcases hp with rfl | rfl | hp
    · exact ⟨rfl, rfl, le_rfl⟩
    · exact ⟨rfl, rfl, by show 1 ≤ 2; norm_num⟩
    · simp [Spec.packetsOf] at hp

end audio

end Kofft.Props
