import Verif.Model.Xtask
import Mathlib.Data.List.Basic
/-
C61: the build configuration.
-/
namespace Kofft.Props
open Xtask

/-- `contains` is the substring relation. -/
theorem contains_iff (s pat : List Char) : contains s pat = true ↔ pat <:+: s := by
  induction s with
  | nil => simp [contains]
  | cons c rest ih =>
    rw [contains, Bool.or_eq_true, ih, List.isPrefixOf_iff_prefix, List.infix_cons_iff]

theorem splitGo_word (ws : Char → Bool) (w : List Char) (hw : ∀ c ∈ w, ws c = false) (cur rest : List Char) :
    splitGo ws cur (w ++ rest) = splitGo ws (cur ++ w) rest := by
  induction w generalizing cur with
  | nil => simp
  | cons c w ih =>
    rw [List.cons_append, splitGo, if_neg (by simp [hw c (by simp)]), ih (fun c h => hw c (by simp [h]))]
    simp

theorem splitGo_ws (ws : Char → Bool) (g : List Char) (hg : ∀ c ∈ g, ws c = true) (rest : List Char) :
    splitGo ws [] (g ++ rest) = splitGo ws [] rest := by
  induction g with
  | nil => simp
  | cons c g ih =>
    rw [List.cons_append, splitGo, if_pos (hg c (by simp)), if_pos (show ([] : List Char).isEmpty = true from rfl), ih (fun c h => hg c (by simp [h]))]

/-- Words and the white space around them, as one string: `gap₀ w₁ gap₁ w₂ gap₂ …`. -/
def _root_.Kofft.Spec.spaced (lead : List Char) : List (List Char × List Char) → List Char
  | [] => lead
  | (w, gap) :: rest => lead ++ w ++ Spec.spaced gap rest

/-- C61: `split_whitespace` returns exactly the words, whatever white space surrounds and separates them. -/
theorem split_whitespace_spec (ws : Char → Bool) (lead : List Char) (parts : List (List Char × List Char))
    (hl : ∀ c ∈ lead, ws c = true) (hw : ∀ p ∈ parts, p.1 ≠ [] ∧ (∀ c ∈ p.1, ws c = false) ∧ (∀ c ∈ p.2, ws c = true))
    (hsep : ∀ p ∈ parts.dropLast, p.2 ≠ []) :
    splitWhitespace ws (Spec.spaced lead parts) = parts.map Prod.fst := by
  unfold splitWhitespace
  induction parts generalizing lead with
  | nil =>
    have := splitGo_ws ws lead hl []
    rw [List.append_nil] at this
    rw [Spec.spaced, this]; rfl
  | cons p rest ih =>
    obtain ⟨w, gap⟩ := p
    obtain ⟨h1, h2, h3⟩ := hw (w, gap) (by simp)
    simp only at h1 h2 h3
    rw [Spec.spaced, List.append_assoc, splitGo_ws ws lead hl, splitGo_word ws w h2, List.nil_append, List.map_cons]
    have ihh := ih gap h3 (fun p hp => hw p (by simp [hp])) (by
      intro p hp
      apply hsep
      cases rest with
      | nil => simp at hp
      | cons q rest => rw [List.dropLast_cons_of_ne_nil (by simp)]; simp [hp])
    have hwne : w.isEmpty = false := by cases w <;> simp_all
    -- after the word
    cases rest with
    | nil =>
      rw [Spec.spaced] at ihh ⊢
      cases gap with
      | nil => rw [splitGo, hwne]; rfl
      | cons c g =>
        rw [splitGo, if_pos (h3 c (by simp)), hwne]
        have := splitGo_ws ws g (fun c h => h3 c (by simp [h])) []
        rw [List.append_nil] at this
        rw [this]; rfl
    | cons q rest =>
      have hg : gap ≠ [] := hsep (w, gap) (by simp)
      cases gap with
      | nil => exact absurd rfl hg
      | cons c g =>
        have hc := h3 c (by simp)
        have e : Spec.spaced (c :: g) (q :: rest) = c :: Spec.spaced g (q :: rest) := by
          obtain ⟨w2, g2⟩ := q; simp [Spec.spaced]
        rw [e] at ihh ⊢
        rw [splitGo, if_pos hc, if_pos (show ([] : List Char).isEmpty = true from rfl)] at ihh
        rw [splitGo, if_pos hc, hwne, ← ihh]
        rfl

theorem splitGo_words (ws : Char → Bool) (s cur : List Char) (hcur : ∀ c ∈ cur, ws c = false) :
    ∀ w ∈ splitGo ws cur s, w ≠ [] ∧ ∀ c ∈ w, ws c = false := by
  induction s generalizing cur with
  | nil =>
    intro w hw
    rw [splitGo] at hw
    split at hw
    · simp at hw
    · rename_i h
      simp only [List.mem_singleton] at hw; subst hw
      exact ⟨by intro h'; simp [h'] at h, hcur⟩
  | cons c s ih =>
    intro w hw
    rw [splitGo] at hw
    split at hw
    · split at hw
      · exact ih [] (by simp) w hw
      · rename_i h
        rcases List.mem_cons.1 hw with rfl | hw
        · exact ⟨by intro h'; simp [h'] at h, hcur⟩
        · exact ih [] (by simp) w hw
    · rename_i h
      exact ih (cur ++ [c]) (by
        intro d hd
        rcases List.mem_append.1 hd with hd | hd
        · exact hcur d hd
        · simp only [List.mem_singleton] at hd; subst hd; simpa using h) w hw

/-- C61: joining words with spaces and splitting again gives the words back: cargo receives exactly the configured features. -/
theorem features_arg_round_trip (ws : Char → Bool) (hsp : ws ' ' = true) (fs : List (List Char))
    (hf : ∀ w ∈ fs, w ≠ [] ∧ ∀ c ∈ w, ws c = false) : splitWhitespace ws (joinSpace fs) = fs := by
  unfold splitWhitespace
  induction fs with
  | nil => rfl
  | cons w rest ih =>
    obtain ⟨h1, h2⟩ := hf w (by simp)
    have hwne : w.isEmpty = false := by cases w <;> simp_all
    cases rest with
    | nil =>
      have := splitGo_word ws w h2 [] []
      rw [List.append_nil, List.nil_append] at this
      rw [joinSpace, this, splitGo, hwne]; rfl
    | cons q rest =>
      rw [joinSpace, splitGo_word ws w h2, List.nil_append, splitGo, if_pos hsp, hwne,
        ih (fun w hw => hf w (by simp [hw]))]
      · rfl
      · simp

theorem extra_fold (l acc : List (List Char)) (h : ∀ w ∈ l, w ≠ []) :
    l.foldl (fun fs feat => if feat.isEmpty then fs else fs ++ [feat]) acc = acc ++ l := by
  induction l generalizing acc with
  | nil => simp
  | cons w l ih =>
    have : w.isEmpty = false := by cases w <;> simp_all
    rw [List.foldl_cons, this, if_neg (by simp), ih _ (fun w hw => h w (by simp [hw]))]
    simp

/-- C61: the features are the architecture's, then `parallel` for more than one processor, then the words of the extra
features, in order; the benchmark is the parallel one exactly when `parallel` is among them. -/
theorem compute_config_features (ws : Char → Bool) (arch cpuFlags : List Char) (nproc : ℕ) (extra : List Char) :
    (computeConfig ws arch cpuFlags nproc extra).features =
      (archConfig arch cpuFlags).1 ++ (if 1 < nproc then ["parallel".toList] else []) ++ splitWhitespace ws extra ∧
    ((computeConfig ws arch cpuFlags nproc extra).example_ =
      if "parallel".toList ∈ (computeConfig ws arch cpuFlags nproc extra).features then "parallel_benchmark".toList
      else "benchmark".toList) ∧
    ("parallel".toList ∈ (computeConfig ws arch cpuFlags nproc extra).features ↔
      1 < nproc ∨ "parallel".toList ∈ splitWhitespace ws extra) := by
  have he : ∀ w ∈ splitWhitespace ws extra, w ≠ [] := fun w hw => (splitGo_words ws extra [] (by simp) w hw).1
  have hf : (computeConfig ws arch cpuFlags nproc extra).features =
      (archConfig arch cpuFlags).1 ++ (if 1 < nproc then ["parallel".toList] else []) ++ splitWhitespace ws extra := by
    unfold computeConfig
    simp only []
    rw [extra_fold _ _ he]
    by_cases h : 1 < nproc
    · rw [if_pos h, if_pos h]
    · rw [if_neg h, if_neg h, List.append_nil]
  have hnot : "parallel".toList ∉ (archConfig arch cpuFlags).1 := by
    unfold archConfig
    split
    · split
      · decide
      · split
        · decide
        · split <;> decide
    · split <;> decide
  refine ⟨hf, ?_, ?_⟩
  · unfold computeConfig
    simp only [List.any_eq_true, beq_iff_eq, exists_eq_right]
  · rw [hf]
    simp only [List.mem_append]
    by_cases h : 1 < nproc
    · simp [h]
    · simp only [h, if_false, List.not_mem_nil, or_false, false_or]
      exact ⟨fun h' => h'.resolve_left hnot, Or.inr⟩

/-- C61: which SIMD level: on x86-64 the strongest one the processor flags mention, with the matching compiler flags; on ARM64
`aarch64`; never more than one. -/
theorem compute_config_simd (ws : Char → Bool) (arch flags : List Char) (nproc : ℕ) (extra : List Char) :
    (("x86_64".toList <:+: arch ∧ "avx512f".toList <:+: flags →
      archConfig arch flags = (["x86_64".toList, "avx512".toList], some "-C target-feature=+avx512f,+fma".toList)) ∧
    ("x86_64".toList <:+: arch ∧ ¬ "avx512f".toList <:+: flags ∧ "avx2".toList <:+: flags →
      archConfig arch flags = (["x86_64".toList, "avx2".toList], some "-C target-feature=+avx2,+fma".toList)) ∧
    ("x86_64".toList <:+: arch ∧ ¬ "avx512f".toList <:+: flags ∧ ¬ "avx2".toList <:+: flags ∧ "sse4_1".toList <:+: flags →
      archConfig arch flags = (["x86_64".toList, "sse".toList], none)) ∧
    ("x86_64".toList <:+: arch ∧ ¬ "avx512f".toList <:+: flags ∧ ¬ "avx2".toList <:+: flags ∧ ¬ "sse4_1".toList <:+: flags →
      archConfig arch flags = (["x86_64".toList], none)) ∧
    (¬ "x86_64".toList <:+: arch ∧ ("aarch64".toList <:+: arch ∨ "arm64".toList <:+: arch) →
      archConfig arch flags = (["aarch64".toList], none)) ∧
    (¬ "x86_64".toList <:+: arch ∧ ¬ "aarch64".toList <:+: arch ∧ ¬ "arm64".toList <:+: arch →
      archConfig arch flags = ([], none))) ∧
    (computeConfig ws arch flags nproc extra).rustflags = (archConfig arch flags).2 := by
  refine ⟨?_, rfl⟩
  unfold archConfig
  refine ⟨?_, ?_, ?_, ?_, ?_, ?_⟩
  · rintro ⟨h1, h2⟩
    rw [if_pos ((contains_iff _ _).2 h1), if_pos ((contains_iff _ _).2 h2)]
  · rintro ⟨h1, h2, h3⟩
    rw [if_pos ((contains_iff _ _).2 h1), if_neg (fun h => h2 ((contains_iff _ _).1 h)), if_pos ((contains_iff _ _).2 h3)]
  · rintro ⟨h1, h2, h3, h4⟩
    rw [if_pos ((contains_iff _ _).2 h1), if_neg (fun h => h2 ((contains_iff _ _).1 h)),
      if_neg (fun h => h3 ((contains_iff _ _).1 h)), if_pos ((contains_iff _ _).2 h4)]
  · rintro ⟨h1, h2, h3, h4⟩
    rw [if_pos ((contains_iff _ _).2 h1), if_neg (fun h => h2 ((contains_iff _ _).1 h)),
      if_neg (fun h => h3 ((contains_iff _ _).1 h)), if_neg (fun h => h4 ((contains_iff _ _).1 h))]
  · rintro ⟨h1, h2⟩
    rw [if_neg (fun h => h1 ((contains_iff _ _).1 h)), if_pos]
    rw [Bool.or_eq_true, contains_iff, contains_iff]; exact h2
  · rintro ⟨h1, h2, h3⟩
    rw [if_neg (fun h => h1 ((contains_iff _ _).1 h)), if_neg]
    rw [Bool.or_eq_true, contains_iff, contains_iff]; exact fun h => h.elim h2 h3

/-- C61: every command receives the features that were computed: splitting its `--features` argument gives them back, and without
features there is no such argument; the benchmarks also get the compiler flags and the example. -/
theorem commands_spec (ws : Char → Bool) (hsp : ws ' ' = true)
    (hws : ∀ c ∈ "x86_64avx512avx2sseaarch64parallel".toList, ws c = false) (arch flags : List Char) (nproc : ℕ) (extra : List Char) :
    let cfg := computeConfig ws arch flags nproc extra
    (cfg.features = [] → featureArgs cfg = []) ∧
    (cfg.features ≠ [] → ∃ s, featureArgs cfg = ["--features".toList, s] ∧ splitWhitespace ws s = cfg.features) ∧
    buildCommand cfg = ⟨"cargo".toList, "build".toList :: featureArgs cfg, []⟩ ∧
    testCommand cfg = ⟨"cargo".toList, "test".toList :: featureArgs cfg, []⟩ ∧
    (benchmarkCommand cfg).env = (cfg.rustflags.map fun f => ("RUSTFLAGS".toList, f)).toList ∧
    (benchLibsCommand cfg).env = (cfg.rustflags.map fun f => ("RUSTFLAGS".toList, f)).toList ∧
    cfg.example_ ∈ (benchmarkCommand cfg).args ∧
    (∀ a ∈ featureArgs cfg, a ∈ (benchmarkCommand cfg).args ∧ a ∈ (benchLibsCommand cfg).args) := by
  intro cfg
  have hwords : ∀ w ∈ cfg.features, w ≠ [] ∧ ∀ c ∈ w, ws c = false := by
    intro w hw
    rw [(compute_config_features ws arch flags nproc extra).1] at hw
    have hmem : ∀ w' : List Char, w' ≠ [] → (∀ c ∈ w', c ∈ "x86_64avx512avx2sseaarch64parallel".toList) →
        w' ≠ [] ∧ ∀ c ∈ w', ws c = false := fun w' h1 h2 => ⟨h1, fun c hc => hws c (h2 c hc)⟩
    rcases List.mem_append.1 hw with hw | hw
    · rcases List.mem_append.1 hw with hw | hw
      · have : w ∈ ["x86_64".toList, "avx512".toList, "avx2".toList, "sse".toList, "aarch64".toList] := by
          unfold archConfig at hw
          split at hw
          · split at hw
            · revert hw; simp; rintro (h | h) <;> simp [h]
            · split at hw
              · revert hw; simp; rintro (h | h) <;> simp [h]
              · split at hw
                · revert hw; simp; rintro (h | h) <;> simp [h]
                · revert hw; simp; rintro rfl; simp
          · split at hw
            · revert hw; simp; rintro rfl; simp
            · simp at hw
        simp only [List.mem_cons, List.not_mem_nil, or_false] at this
        rcases this with rfl | rfl | rfl | rfl | rfl <;> exact hmem _ (by decide) (by decide)
      · split at hw
        · simp only [List.mem_singleton] at hw; subst hw; exact hmem _ (by decide) (by decide)
        · simp at hw
    · exact splitGo_words ws extra [] (by simp) w hw
  refine ⟨?_, ?_, rfl, rfl, ?_, ?_, ?_, ?_⟩
  · intro h; simp [featureArgs, BuildConfig.featuresArg, h]
  · intro h
    refine ⟨joinSpace cfg.features, ?_, features_arg_round_trip ws hsp _ hwords⟩
    have : cfg.features.isEmpty = false := by cases hc : cfg.features <;> simp_all
    simp only [featureArgs, BuildConfig.featuresArg, this]
    rfl
  · unfold benchmarkCommand flagEnv; cases cfg.rustflags <;> rfl
  · unfold benchLibsCommand flagEnv; cases cfg.rustflags <;> rfl
  · simp [benchmarkCommand]
  · intro a ha
    exact ⟨List.mem_append.2 (Or.inr ha), List.mem_append.2 (Or.inr ha)⟩

example : (computeConfig Char.isWhitespace "x86_64".toList "flags: avx2".toList 2 " simd  wasm ".toList).features =
    ["x86_64".toList, "avx2".toList, "parallel".toList, "simd".toList, "wasm".toList] := by decide

end Kofft.Props
