import Verif.Model.Sanity
import Verif.Props.StftMag
/-
C67: the spectrogram image; C68: reading samples.
-/
namespace Kofft.Props
open Kofft.Sanity

section generic
variable {T : Type} [Flt T]

/-- An image given by a function of the coordinates. -/
def imgOf (w h : ℕ) (G : ℕ → ℕ → Rgb) : Img := ⟨w, h, tab (w * h) fun p => G (p % w) (p / w)⟩

theorem imgOf_get (w h : ℕ) (G : ℕ → ℕ → Rgb) {x y : ℕ} (hx : x < w) (hy : y < h) :
    (imgOf w h G).get? x y = some (G x y) := by
  have hw : 0 < w := by omega
  have hlt : y * w + x < w * h := by
    calc y * w + x < y * w + w := by omega
      _ = (y + 1) * w := by ring
      _ ≤ h * w := Nat.mul_le_mul_right _ hy
      _ = w * h := Nat.mul_comm _ _
  unfold Img.get? imgOf
  rw [if_pos ⟨hx, hy⟩]
  simp only []
  rw [List.getElem?_eq_getElem (by simpa using hlt), tab_getElem, Nat.mul_comm, Nat.mul_add_mod, Nat.mod_eq_of_lt hx,
    Nat.mul_add_div hw, Nat.div_eq_of_lt hx, Nat.add_zero]

theorem imgOf_put (w h : ℕ) (G : ℕ → ℕ → Rgb) {x y : ℕ} (hx : x < w) (hy : y < h) (c : Rgb) :
    (imgOf w h G).put x y c = .ok (imgOf w h fun x' y' => if x' = x ∧ y' = y then c else G x' y') := by
  have hw : 0 < w := by omega
  have hlt : y * w + x < w * h := by
    calc y * w + x < y * w + w := by omega
      _ = (y + 1) * w := by ring
      _ ≤ h * w := Nat.mul_le_mul_right _ hy
      _ = w * h := Nat.mul_comm _ _
  unfold Img.put imgOf
  rw [if_pos ⟨hx, hy⟩]
  simp only []
  rw [wr_tab hlt, Outcome.bind_ok]
  congr 2
  apply tab_congr
  intro p hp
  by_cases h1 : p = y * w + x
  · rw [if_pos h1, if_pos]
    subst h1
    constructor
    · rw [Nat.mul_comm, Nat.mul_add_mod, Nat.mod_eq_of_lt hx]
    · rw [Nat.mul_comm, Nat.mul_add_div hw, Nat.div_eq_of_lt hx, Nat.add_zero]
  · rw [if_neg h1, if_neg]
    rintro ⟨rfl, rfl⟩
    exact h1 (by rw [Nat.mul_comm, Nat.div_add_mod])

theorem imgOf_congr (w h : ℕ) {G G' : ℕ → ℕ → Rgb} (hG : ∀ x y, x < w → y < h → G x y = G' x y) :
    imgOf w h G = imgOf w h G' := by
  unfold imgOf
  congr 1
  apply tab_congr
  intro p hp
  by_cases hw : w = 0
  · subst hw; simp at hp
  · exact hG _ _ (Nat.mod_lt _ (by omega)) (Nat.div_lt_of_lt_mul hp)

theorem column_ok (ext : Colormap → T → Rgb) (cmap : Colormap) (mx dr : T) (w h x : ℕ) (hx : x < w) (bins : List T)
    (hb : bins.length = h) (G : ℕ → ℕ → Rgb) :
    column ext cmap mx dr h x bins (imgOf w h G) = .ok (imgOf w h fun x' y' =>
      if x' = x then colorFromMagnitude16 ext (bins.getD (h - 1 - y') Flt.zero) mx (-. dr) cmap else G x' y') := by
  unfold column
  rw [forRange_eq (fun i => imgOf w h fun x' y' => if x' = x ∧ h - 1 - y' < i then
      colorFromMagnitude16 ext (bins.getD (h - 1 - y') Flt.zero) mx (-. dr) cmap else G x' y') (Nat.zero_le _)]
  · congr 1
    apply imgOf_congr
    intro x' y' hx' hy'
    by_cases e : x' = x
    · rw [if_pos e, if_pos ⟨e, by omega⟩]
    · rw [if_neg e, if_neg (fun h => e h.1)]
  · apply imgOf_congr
    intro x' y' hx' hy'
    rw [if_neg (fun h => Nat.not_lt_zero _ h.2)]
  · intro i _ hi
    rw [rd_getD Flt.zero hi, Outcome.bind_ok]
    rw [if_pos (by omega), imgOf_put w h _ hx (by omega)]
    congr 1
    apply imgOf_congr
    intro x' y' hx' hy'
    by_cases e : x' = x ∧ y' = h - 1 - i
    · rw [if_pos e, if_pos ⟨e.1, by omega⟩, show h - 1 - y' = i by omega]
    · rw [if_neg e]
      by_cases e2 : x' = x ∧ h - 1 - y' < i
      · rw [if_pos e2, if_pos ⟨e2.1, by omega⟩]
      · rw [if_neg e2, if_neg]
        rintro ⟨a, b⟩
        by_cases hh : h - 1 - y' = i
        · exact e ⟨a, by omega⟩
        · exact e2 ⟨a, by omega⟩

omit [Flt T] in
theorem byte257 {k : ℕ} (h : k ≤ 255) : k * 257 / 256 % 256 = k := by
  rw [show k * 257 = 256 * k + k by ring, Nat.mul_add_div (by norm_num), Nat.div_eq_of_lt (by omega), Nat.add_zero,
    Nat.mod_eq_of_lt (by omega)]

/-- What is drawn for a frame of `h` magnitudes: the magnitudes themselves, or their logarithmically rebinned
version (`log_scale_bins`, C57). -/
def _root_.Kofft.Spec.Shown (mode : ScaleMode) (h : ℕ) (frame bins : List T) : Prop :=
  match mode with
  | .linear => bins = frame
  | .log => logScaleBins frame (h - 1) = .ok bins

/-- C67. The image tool, for a window of at least two samples: no panic; one column per frame and one row per
frequency bin of `stft_magnitudes` (hop of half a window); the pixel in column `x`, `b` rows above the bottom, has
the colour of bin `b` of frame `x` relative to the largest magnitude, over the dynamic range; the 8-bit image
holds exactly the 8-bit colours. In log mode the arithmetic must map bins into the range (true in exact
arithmetic, `map_bin_to_pixel_spec`); `ext` are the palettes of the `colorous` crate, assumed to be bytes. -/
theorem sanity_image (cfg : Cfg) (par : Option (List ℕ)) (ext : Colormap → T → Rgb)
    (hext : ∀ c t, (ext c t).r ≤ 255 ∧ (ext c t).g ≤ 255 ∧ (ext c t).b ≤ 255) (winLen : ℕ) (hw : 2 ≤ winLen)
    (hn : cfg.std = true ∨ ∃ k, winLen = 2 ^ k) (mode : ScaleMode)
    (hlog : mode = .log → ∀ b, b < winLen / 2 → mapBinToPixel T b (winLen / 2 - 1) ≤ winLen / 2 - 1)
    (dr : T) (cmap : Colormap) (samples : List T)
    (hpar : Spec.validOrder par (divCeil samples.length (winLen / 2))) :
    ∃ mags mx img, stftMagnitudes cfg par samples winLen (winLen / 2) = .ok (.ok (mags, mx)) ∧
      render cfg par ext winLen mode dr cmap samples = .ok (.ok img) ∧
      img.w = divCeil samples.length (winLen / 2) ∧ img.h = winLen / 2 ∧
      ∀ x, x < img.w → ∃ bins, Spec.Shown mode (winLen / 2) (mags.getD x []) bins ∧ bins.length = winLen / 2 ∧
        ∀ b, b < winLen / 2 →
          img.get? x (winLen / 2 - 1 - b) = some (colorFromMagnitude16 ext (bins.getD b Flt.zero) mx (-. dr) cmap) ∧
          (to8 img).get? x (winLen / 2 - 1 - b) =
            some (colorFromMagnitude8 ext (bins.getD b Flt.zero) mx (-. dr) cmap) := by
  have hh : 0 < winLen / 2 := by omega
  obtain ⟨mags, mx, e, h1, h2, h3⟩ := stft_magnitudes_spec cfg par samples winLen (winLen / 2) hh (by omega) hn hpar
  have hdef : ∃ h, winLen / 2 = h := ⟨_, rfl⟩
  obtain ⟨h, hdef⟩ := hdef
  rw [hdef] at hlog hh e h1 h2 ⊢
  have hfl : ∀ x, x < mags.length → (mags.getD x []).length = h := fun x hx => (h2 x hx).1
  have hbins : ∀ x, x < mags.length → ∃ bins, binsOf mode h (mags.getD x []) = .ok bins ∧
      Spec.Shown mode h (mags.getD x []) bins ∧ bins.length = h := by
    intro x hx
    have hl := hfl x hx
    cases mode with
    | linear => exact ⟨_, rfl, rfl, hl⟩
    | log =>
      obtain ⟨out, e1, e2, -⟩ := (log_scale_bins_spec (mags.getD x []) (h - 1)).1 (by rw [hl]; exact hlog rfl)
      refine ⟨out, ?_, e1, by omega⟩
      unfold binsOf
      simp only []
      rw [if_pos ⟨by omega, hh⟩, List.take_of_length_le (by omega), e1]
  obtain ⟨B, hB⟩ : ∃ B : ℕ → List T, ∀ x, x < mags.length → binsOf mode h (mags.getD x []) = .ok (B x) ∧
      Spec.Shown mode h (mags.getD x []) (B x) ∧ (B x).length = h := by
    classical
    refine ⟨fun x => if hx : x < mags.length then (hbins x hx).choose else [], fun x hx => ?_⟩
    simp only [dif_pos hx]
    exact (hbins x hx).choose_spec
  have hloop : forRange 0 mags.length (Img.new mags.length h) (fun x img => do
      let frame ← rd mags x
      let bins ← binsOf mode h frame
      column ext cmap mx dr h x bins img) = .ok (imgOf mags.length h fun x' y' =>
        colorFromMagnitude16 ext ((B x').getD (h - 1 - y') Flt.zero) mx (-. dr) cmap) := by
    rw [forRange_eq (fun i => imgOf mags.length h fun x' y' => if x' < i then
        colorFromMagnitude16 ext ((B x').getD (h - 1 - y') Flt.zero) mx (-. dr) cmap else ⟨0, 0, 0⟩) (Nat.zero_le _)]
    · congr 1
      apply imgOf_congr
      intro x' y' hx' _
      rw [if_pos hx']
    · unfold Img.new imgOf
      simp only [Nat.not_lt_zero, if_false]
      rw [replicate_eq_tab]
    · intro i _ hi
      rw [rd_getD [] hi, Outcome.bind_ok, (hB i hi).1, Outcome.bind_ok, column_ok _ _ _ _ _ _ _ hi _ (hB i hi).2.2]
      congr 1
      apply imgOf_congr
      intro x' y' hx' _
      by_cases e1 : x' = i
      · rw [if_pos e1, if_pos (by omega), e1]
      · rw [if_neg e1]
        by_cases e2 : x' < i
        · rw [if_pos e2, if_pos (by omega)]
        · rw [if_neg e2, if_neg (by omega)]
  have hren : render cfg par ext winLen mode dr cmap samples = .ok (.ok (imgOf mags.length h fun x' y' =>
        colorFromMagnitude16 ext ((B x').getD (h - 1 - y') Flt.zero) mx (-. dr) cmap)) := by
    unfold render
    rw [hdef, e, Outcome.bind_ok]
    simp only []
    rw [hloop, Outcome.bind_ok]
    rfl
  refine ⟨mags, mx, _, e, hren, h1, rfl, ?_⟩
  · intro x hx
    have hx' : x < mags.length := hx
    refine ⟨B x, (hB x hx').2.1, (hB x hx').2.2, ?_⟩
    intro b hb
    have g1 := imgOf_get mags.length h (fun x' y' =>
        colorFromMagnitude16 ext ((B x').getD (h - 1 - y') Flt.zero) mx (-. dr) cmap) hx' (show h - 1 - b < h by omega)
    simp only [show h - 1 - (h - 1 - b) = b by omega] at g1
    refine ⟨g1, ?_⟩
    have hby := map_color_bytes ext hext
      ((magnitudeToDb ((B x).getD b Flt.zero) mx (-. dr) -. (-. dr)) /. (-. (-. dr))) cmap
    have : ∀ im : Img, (to8 im).get? x (h - 1 - b) = (im.get? x (h - 1 - b)).map
        fun c => ⟨c.r / 256 % 256, c.g / 256 % 256, c.b / 256 % 256⟩ := by
      intro im
      unfold Img.get? to8
      simp only []
      split <;> simp
    rw [this, g1]
    simp only [Option.map_some, colorFromMagnitude16, colorFromMagnitude8, Option.some.injEq]
    generalize mapColor8 ext _ cmap = c at hby ⊢
    obtain ⟨r, g, b⟩ := c
    simp only [Rgb.mk.injEq] at *
    exact ⟨byte257 hby.1, byte257 hby.2.1, byte257 hby.2.2⟩

/-- C67. Windows shorter than two samples: the hop would be 0, and the tool panics. -/
theorem sanity_short_window_panics (cfg : Cfg) (par : Option (List ℕ)) (ext : Colormap → T → Rgb) (winLen : ℕ)
    (hw : winLen < 2) (mode : ScaleMode) (dr : T) (cmap : Colormap) (samples : List T) :
    render cfg par ext winLen mode dr cmap samples = .panic := by
  unfold render
  rw [show winLen / 2 = 0 by omega, stft_magnitudes_hop_zero_panics]
  rfl

end generic

/-- C67 is not vacuous, and in exact arithmetic log mode needs no assumption: 5 samples, window 4. -/
example [F : Flt ℝ] (hF : Lawful F) (cfg : Cfg) (ext : Colormap → ℝ → Rgb)
    (hext : ∀ c t, (ext c t).r ≤ 255 ∧ (ext c t).g ≤ 255 ∧ (ext c t).b ≤ 255) (mode : ScaleMode) :
    ∃ img, render cfg none ext 4 mode 120 .inferno ([1, 2, 3, 4, 5] : List ℝ) = .ok (.ok img) ∧ img.w = 3 ∧ img.h = 2 := by
  obtain ⟨mags, mx, img, -, e, h1, h2, -⟩ := sanity_image cfg none ext hext 4 (by norm_num) (Or.inr ⟨2, rfl⟩) mode
    (by intro _ b hb; exact ((map_bin_to_pixel_spec hF 1).2.2.2 b (by omega)).2) 120 .inferno
    ([1, 2, 3, 4, 5] : List ℝ) (by intro o ho; cases ho)
  exact ⟨img, e, h1, h2⟩

section audio
variable {T : Type} [Flt T]

/-- The average of frame `i` of interleaved samples with `c` channels, in the order of the code. -/
def _root_.Kofft.Spec.frameMean (c : ℕ) (all : List T) (i : ℕ) : T :=
  ((List.range c).map fun k => all.getD (i * c + k) Flt.zero).foldl Flt.add Flt.zero /. Flt.ofNatD c

theorem divCeil_mul {c m : ℕ} (hc : 0 < c) : divCeil (m * c) c = m := by
  unfold divCeil
  rw [show m * c + c - 1 = c * m + (c - 1) by rw [Nat.mul_comm]; omega, Nat.mul_add_div hc,
    Nat.div_eq_of_lt (by omega), Nat.add_zero]

theorem mixDown_ok (c m : ℕ) (hc : 2 ≤ c) (p : List T) (hp : p.length = m * c) :
    mixDown c p = .ok (tab m (Spec.frameMean c p)) := by
  unfold mixDown
  rw [if_neg (by omega), if_neg (by omega), chunks, hp, divCeil_mul (by omega), List.map_map]
  congr 1
  apply tab_congr
  intro i hi
  simp only [Function.comp_def, Spec.frameMean]
  congr 2
  have hle : (i + 1) * c ≤ m * c := Nat.mul_le_mul_right _ hi
  rw [Nat.add_mul, Nat.one_mul] at hle
  apply List.ext_getElem
  · rw [List.length_take, List.length_drop, List.length_map, List.length_range]; omega
  · intro k h1 h2
    rw [List.length_map, List.length_range] at h2
    rw [List.getElem_take, List.getElem_drop, List.getElem_map, List.getElem_range, List.getD_eq_getElem _ _ (by omega)]

theorem frameMean_append_left (c m : ℕ) (a b : List T) (ha : a.length = m * c) {i : ℕ} (hi : i < m) :
    Spec.frameMean c (a ++ b) i = Spec.frameMean c a i := by
  unfold Spec.frameMean
  congr 2
  apply List.map_congr_left
  intro k hk
  rw [List.mem_range] at hk
  have hle : (i + 1) * c ≤ m * c := Nat.mul_le_mul_right _ hi
  rw [Nat.add_mul, Nat.one_mul] at hle
  rw [List.getD_append _ _ _ _ (by omega)]

theorem frameMean_append_right (c m : ℕ) (a b : List T) (ha : a.length = m * c) (i : ℕ) :
    Spec.frameMean c (a ++ b) (m + i) = Spec.frameMean c b i := by
  unfold Spec.frameMean
  congr 2
  apply List.map_congr_left
  intro k hk
  rw [List.getD_append_right _ _ _ _ (by rw [ha, Nat.add_mul]; omega), ha]
  congr 1
  rw [Nat.add_mul]; omega

/-- C68a. Decoding a file with several channels: sample `i` is the average of the channels of frame `i`, whatever the
packets the decoder cut the stream into (each a whole number of frames), and the result stops at the frame count
announced by the container. -/
theorem read_audio_mixes_partial (c : ℕ) (hc : 2 ≤ c) (packets : List (List T)) (hp : ∀ p ∈ packets, c ∣ p.length)
    (n : Option ℕ) : ∃ out, readPackets c n packets = .ok out ∧
      out.length = min (packets.flatten.length / c) (n.getD (packets.flatten.length / c)) ∧
      ∀ i, i < out.length → out[i]? = some (Spec.frameMean c packets.flatten i) := by
  have key : ∀ (packets : List (List T)) (acc : List T), (∀ p ∈ packets, c ∣ p.length) →
      ∃ m, packets.flatten.length = m * c ∧
      packets.foldlM (fun acc p => do
        let m ← mixDown c p
        Outcome.ok (acc ++ m)) acc = .ok (acc ++ tab m (Spec.frameMean c packets.flatten)) := by
    intro packets
    induction packets with
    | nil => intro acc _; exact ⟨0, by simp, by simp [tab]⟩
    | cons p ps ih =>
      intro acc hp
      obtain ⟨m1, hm1⟩ := hp p (by simp)
      rw [Nat.mul_comm] at hm1
      obtain ⟨m2, h1, h2⟩ := ih (acc ++ tab m1 (Spec.frameMean c p)) (fun q hq => hp q (by simp [hq]))
      refine ⟨m1 + m2, ?_, ?_⟩
      · rw [List.flatten_cons, List.length_append, hm1, h1]; ring
      · rw [List.foldlM_cons, mixDown_ok c m1 hc p hm1, Outcome.bind_ok, Outcome.bind_ok, h2, List.append_assoc]
        congr 2
        rw [List.flatten_cons]
        apply List.ext_getElem
        · simp
        · intro i h1 h2
          rw [tab_length] at h2
          rw [tab_getElem]
          by_cases hi : i < m1
          · rw [List.getElem_append_left (by simpa using hi), tab_getElem, frameMean_append_left c m1 p _ hm1 hi]
          · rw [List.getElem_append_right (by simpa using hi), tab_getElem]
            simp only [tab_length]
            rw [← frameMean_append_right c m1 p _ hm1, show m1 + (i - m1) = i by omega]
  obtain ⟨m, hm, e⟩ := key packets [] hp
  rw [List.nil_append] at e
  have hdiv : packets.flatten.length / c = m := by rw [hm, Nat.mul_div_cancel _ (by omega)]
  rw [hdiv]
  unfold readPackets
  rw [e, Outcome.bind_ok]
  cases n with
  | none =>
    refine ⟨_, rfl, by simp, ?_⟩
    intro i hi
    rw [tab_length] at hi
    rw [tab_getElem?, if_pos hi]
  | some n =>
    refine ⟨_, rfl, by simp [Nat.min_comm], ?_⟩
    intro i hi
    rw [List.length_take, tab_length] at hi
    rw [List.getElem?_take, if_pos (by omega), tab_getElem?, if_pos (by omega)]

/-- C68a. A file that claims to have no channels: the call panics at its first packet. -/
theorem read_audio_no_channels (packets : List (List T)) (n : Option ℕ) :
    readPackets 0 n packets = if packets = [] then .ok [] else .panic := by
  unfold readPackets
  cases packets with
  | nil => cases n <;> simp <;> rfl
  | cons p ps => rw [if_neg (by simp), List.foldlM_cons]; rfl

/-- C68a. A mono file: the packets one after the other. -/
theorem read_audio_mono (packets : List (List T)) (n : Option ℕ) :
    readPackets 1 n packets = .ok (match n with | some n => packets.flatten.take n | none => packets.flatten) := by
  have key : ∀ (packets : List (List T)) (acc : List T), packets.foldlM (fun acc p => do
        let m ← mixDown 1 p
        Outcome.ok (acc ++ m)) acc = .ok (acc ++ packets.flatten) := by
    intro packets
    induction packets with
    | nil => intro acc; simp
    | cons p ps ih =>
      intro acc
      have : mixDown 1 p = .ok p := by unfold mixDown; rw [if_pos rfl]
      rw [List.foldlM_cons, this, Outcome.bind_ok, Outcome.bind_ok, ih, List.flatten_cons, List.append_assoc]
  unfold readPackets
  rw [key, Outcome.bind_ok, List.nil_append]
  cases n <;> rfl

/-- C68b. WAV files take another path, which does not look at the channel count: the result has one entry per sample
of the file, not per frame. -/
theorem read_wav_interleaved (ofI16 : ℤ → T) (s : List ℤ) :
    (readWav ofI16 s).length = s.length ∧
    ∀ i, i < s.length → (readWav ofI16 s)[i]? = some (ofI16 (s.getD i 0) /. ofI16 32767) := by
  refine ⟨by simp [readWav], ?_⟩
  intro i hi
  unfold readWav
  rw [List.getElem?_map, List.getElem?_eq_getElem hi, List.getD_eq_getElem _ _ hi]
  rfl

/-- C68c, negative: so the same stereo signal does not read the same from a WAV file and from another format, whatever
the samples, as soon as there is one. -/
theorem read_wav_not_mixed (ofI16 : ℤ → T) (s : List ℤ) (m : ℕ) (hm : 0 < m) (hs : s.length = m * 2) :
    ∃ out, readPackets 2 none [s.map fun v => ofI16 v /. ofI16 32767] = .ok out ∧ out.length = m ∧
      (readWav ofI16 s).length = 2 * m ∧ readWav ofI16 s ≠ out := by
  obtain ⟨out, e, hl, -⟩ := read_audio_mixes_partial 2 le_rfl [s.map fun v => ofI16 v /. ofI16 32767]
    (by intro p hp; rw [List.mem_singleton] at hp; subst hp; rw [List.length_map, hs]; exact ⟨m, by ring⟩) none
  have hl' : out.length = m := by
    rw [hl]; simp [hs]
  refine ⟨out, e, hl', ?_, ?_⟩
  · rw [(read_wav_interleaved ofI16 s).1, hs]; ring
  · intro h
    have := congrArg List.length h
    rw [(read_wav_interleaved ofI16 s).1, hs, hl'] at this
    omega

end audio

/-- C68 is not vacuous: two stereo packets of 2 and 1 frames. -/
example [F : Flt ℝ] (hF : Lawful F) :
    ∃ out, readPackets 2 (some 2) ([[1, 3, 5, 7], [2, 4]] : List (List ℝ)) = .ok out ∧ out.length = 2 ∧
      out[1]? = some 6 := by
  obtain ⟨out, e, h1, h2⟩ := read_audio_mixes_partial 2 le_rfl ([[1, 3, 5, 7], [2, 4]] : List (List ℝ))
    (by intro p hp; simp at hp; rcases hp with rfl | rfl <;> decide) (some 2)
  have hl : out.length = 2 := by rw [h1]; rfl
  refine ⟨out, e, hl, ?_⟩
  rw [h2 1 (by omega)]
  simp [Spec.frameMean, List.range_succ, hF.add, hF.div, hF.zero, hF.ofNatD]
  norm_num

end Kofft.Props
