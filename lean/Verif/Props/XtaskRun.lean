import Verif.Props.Xtask
/-
C77: what `cargo xtask` runs.
-/
namespace Kofft.Props
open Xtask

/-- The words of a command line, as written in the documentation. -/
def _root_.Kofft.Spec.words (s : String) : List (List Char) := splitWhitespace (· == ' ') s.toList

/-- The features given to cargo: nothing, or `--features` and one argument. -/
def _root_.Kofft.Spec.withFeatures (fs : List (List Char)) : List (List Char) :=
  if fs = [] then [] else ["--features".toList, joinSpace fs]

/-- A shell line that runs one command after the other and stops at the first that fails. -/
def _root_.Kofft.Spec.stopAtFailure : List String → List Char
  | [] => []
  | [c] => c.toList
  | c :: cs => c.toList ++ " && ".toList ++ Spec.stopAtFailure cs

theorem featureArgs_eq (cfg : BuildConfig) : featureArgs cfg = Spec.withFeatures cfg.features := by
  unfold featureArgs BuildConfig.featuresArg Spec.withFeatures
  cases h : cfg.features <;> simp

/-- C77a: the command behind every subcommand, argument by argument, with the environment it gets. Only the benchmarks get the
compiler flags. -/
theorem xtask_commands (cfg : BuildConfig) (i o : List Char) (exec : List Cmd → Cmd → Option (Option Int)) :
    let flags := (cfg.rustflags.map fun f => ("RUSTFLAGS".toList, f)).toList
    let feats := Spec.withFeatures cfg.features
    (Xtask.main cfg exec .build).1 = [⟨"cargo".toList, Spec.words "build" ++ feats, []⟩] ∧
    (Xtask.main cfg exec .test).1 = [⟨"cargo".toList, Spec.words "test" ++ feats, []⟩] ∧
    (Xtask.main cfg exec .clippy).1 = [⟨"cargo".toList, Spec.words "clippy --all-targets --all-features", []⟩] ∧
    (Xtask.main cfg exec .fmt).1 = [⟨"cargo".toList, Spec.words "fmt --all", []⟩] ∧
    (Xtask.main cfg exec .benchmark).1 =
      [⟨"cargo".toList, Spec.words "run --example" ++ cfg.example_ :: "--release".toList :: feats, flags⟩] ∧
    (Xtask.main cfg exec .benchLibs).1 =
      [⟨"cargo".toList, Spec.words "bench --manifest-path kofft-bench/Cargo.toml" ++ feats, flags⟩] ∧
    (Xtask.main cfg exec .updateBenchReadme).1 = [⟨"cargo".toList,
      Spec.words "run --manifest-path kofft-bench/Cargo.toml --example update_bench_readme --release" ++ feats, flags⟩] ∧
    (Xtask.main cfg exec .webSpectrogram).1 = [⟨"sh".toList, ["-c".toList, Spec.stopAtFailure ["cd web-spectrogram", "wasm-pack build --target web",
      "rm -rf static", "mkdir -p static/pkg", "cp -r pkg/* static/pkg/", "cp index.html app.mjs manifest.json sw.js static/",
      "cargo run -p web-spectrogram"]], []⟩] ∧
    (Xtask.main cfg exec (.sanity i o)).1 = [⟨"cargo".toList, Spec.words "run -r -p sanity-check --" ++ [i, o], []⟩] := by
  have hf : flagEnv cfg = (cfg.rustflags.map fun f => ("RUSTFLAGS".toList, f)).toList := by
    unfold flagEnv; cases cfg.rustflags <;> rfl
  simp only [Xtask.main, buildCommand, testCommand, clippyCommand, fmtCommand, benchmarkCommand, benchLibsCommand,
    updateBenchReadmeCommand, webSpectrogramCommand, sanityCommand, featureArgs_eq, hf]
  have w1 : Spec.words "build" = ["build".toList] := by decide +kernel
  have w2 : Spec.words "test" = ["test".toList] := by decide +kernel
  have w3 : Spec.words "clippy --all-targets --all-features" =
    ["clippy".toList, "--all-targets".toList, "--all-features".toList] := by decide +kernel
  have w4 : Spec.words "fmt --all" = ["fmt".toList, "--all".toList] := by decide +kernel
  have w5 : Spec.words "run --example" = ["run".toList, "--example".toList] := by decide +kernel
  have w6 : Spec.words "bench --manifest-path kofft-bench/Cargo.toml" =
    ["bench".toList, "--manifest-path".toList, "kofft-bench/Cargo.toml".toList] := by decide +kernel
  have w7 : Spec.words "run --manifest-path kofft-bench/Cargo.toml --example update_bench_readme --release" =
    ["run".toList, "--manifest-path".toList, "kofft-bench/Cargo.toml".toList, "--example".toList,
    "update_bench_readme".toList, "--release".toList] := by decide +kernel
  have w8 : Spec.words "run -r -p sanity-check --" =
    ["run".toList, "-r".toList, "-p".toList, "sanity-check".toList, "--".toList] := by decide +kernel
  have w9 : webScript = Spec.stopAtFailure ["cd web-spectrogram", "wasm-pack build --target web",
      "rm -rf static", "mkdir -p static/pkg", "cp -r pkg/* static/pkg/", "cp index.html app.mjs manifest.json sw.js static/",
      "cargo run -p web-spectrogram"] := by decide +kernel
  rw [w1, w2, w3, w4, w5, w6, w7, w8, w9]
  simp

/-- C77b: every subcommand ends with the exit code of the last command it ran; 1 if that was killed by a signal, an I/O error if
it could not be started. It runs at least one command. -/
theorem xtask_exit (cfg : BuildConfig) (exec : List Cmd → Cmd → Option (Option Int)) (s : Sub) :
    ∃ hist last, (Xtask.main cfg exec s).1 = hist ++ [last] ∧
      (Xtask.main cfg exec s).2 = match exec hist last with
        | none => .ioError
        | some none => .code 1
        | some (some c) => .code c := by
  have key : ∀ r, exitOf r = match r with
        | none => .ioError
        | some none => .code 1
        | some (some c) => .code c := by
    intro r; rcases r with _ | _ | _ <;> rfl
  cases s
  case analyze =>
    unfold Xtask.main
    simp only []
    cases h : exec [] fmtCommand with
    | none => exact ⟨[], fmtCommand, rfl, by simp [h]⟩
    | some st =>
      by_cases h0 : st = some 0
      · subst h0
        exact ⟨[fmtCommand], clippyCommand, by simp, by simp [key]⟩
      · exact ⟨[], fmtCommand, by simp [h0], by simp [h0, key, h]⟩
  all_goals exact ⟨[], _, rfl, key _⟩

/-- C77c: `analyze` checks the formatting first and runs clippy exactly when the formatting passes; it succeeds exactly when both
do. -/
theorem xtask_analyze (cfg : BuildConfig) (exec : List Cmd → Cmd → Option (Option Int)) :
    ((Xtask.main cfg exec .analyze).1 = [fmtCommand, clippyCommand] ↔ exec [] fmtCommand = some (some 0)) ∧
    ((Xtask.main cfg exec .analyze).1 = [fmtCommand] ↔ exec [] fmtCommand ≠ some (some 0)) ∧
    ((Xtask.main cfg exec .analyze).2 = .code 0 ↔
      exec [] fmtCommand = some (some 0) ∧ exec [fmtCommand] clippyCommand = some (some 0)) := by
  have key : ∀ r, exitOf r = .code 0 ↔ r = some (some 0) := by
    intro r
    rcases r with _ | _ | c
    · simp [exitOf]
    · simp [exitOf]
    · simp [exitOf]
  unfold Xtask.main
  simp only []
  cases h : exec [] fmtCommand with
  | none => simp
  | some st =>
    by_cases h0 : st = some 0
    · subst h0
      simp [key]
    · simp [h0, key]

/-! ### Detection -/

theorem dropWhile_nil (ws : Char → Bool) (s : List Char) : s.dropWhile ws = [] ↔ ∀ c ∈ s, ws c = true := by
  induction s with
  | nil => simp
  | cons c s ih =>
    rw [List.dropWhile_cons]
    by_cases h : ws c = true
    · simp [h, ih]
    · simp [h]

theorem trim_isEmpty (ws : Char → Bool) (s : List Char) : (trim ws s).isEmpty = true ↔ ∀ c ∈ s, ws c = true := by
  unfold trim
  rw [List.isEmpty_iff, List.reverse_eq_nil_iff, dropWhile_nil]
  constructor
  · intro h c hc
    by_contra hn
    have hne : s.dropWhile ws ≠ [] := fun h' => hn ((dropWhile_nil ws s).mp h' c hc)
    obtain ⟨d, r, e⟩ : ∃ d r, s.dropWhile ws = d :: r := by
      cases hd : s.dropWhile ws with
      | nil => exact absurd hd hne
      | cons d r => exact ⟨d, r, rfl⟩
    have h1 := h d (by rw [e]; simp)
    have h2 := List.head?_dropWhile_not ws s
    rw [e] at h2
    simp [h1] at h2
  · intro h c hc
    rw [List.mem_reverse] at hc
    exact h c ((List.dropWhile_sublist ws).subset hc)

/-- Line feeds and the text between them, as one string. -/
def _root_.Kofft.Spec.unlines : List (List Char) → List Char
  | [] => []
  | l :: ls => l ++ '\n' :: Spec.unlines ls

theorem linesGo_line (l : List Char) (hl : '\n' ∉ l) (cur rest : List Char) :
    linesGo cur (l ++ '\n' :: rest) =
      (if (cur ++ l).getLast? = some '\r' then (cur ++ l).dropLast else cur ++ l) :: linesGo [] rest := by
  induction l generalizing cur with
  | nil => rw [List.nil_append, linesGo, if_pos rfl, List.append_nil]
  | cons c l ih =>
    rw [List.cons_append, linesGo, if_neg (by rintro rfl; simp at hl), ih (by simp_all)]
    simp

/-- `lines` splits text into its lines. -/
theorem lines_unlines (ls : List (List Char)) (h : ∀ l ∈ ls, '\n' ∉ l ∧ l.getLast? ≠ some '\r') :
    lines (Spec.unlines ls) = ls := by
  unfold lines
  induction ls with
  | nil => rfl
  | cons l ls ih =>
    obtain ⟨h1, h2⟩ := h l (by simp)
    rw [Spec.unlines, linesGo_line l h1, List.nil_append, if_neg h2, ih (fun l hl => h l (by simp [hl]))]

/-- C77d: the architecture is the variable `ARCH` when it is set to more than white space, else the trimmed output of `uname`, else
empty; the processor flags are the first line of `lscpu` mentioning "flags", else the output of `sysctl`, else empty; one processor is
assumed when the number is unknown. -/
theorem xtask_detect (ws : Char → Bool) (lower : List Char → List Char) (env uname lscpu sysctl : Option (List Char))
    (nproc : Option ℕ) (extra : Option (List Char)) :
    ∃ arch flags, detectConfig ws lower env uname lscpu sysctl nproc extra =
        computeConfig ws arch flags (nproc.getD 1) (extra.getD []) ∧
      (∀ a, env = some a → (∃ c ∈ a, ws c = false) → arch = a) ∧
      ((∀ a, env = some a → ∀ c ∈ a, ws c = true) → ∀ o, uname = some o → arch = trim ws o) ∧
      ((∀ a, env = some a → ∀ c ∈ a, ws c = true) → uname = none → arch = []) ∧
      (∀ before l after, (∀ k ∈ before ++ l :: after, '\n' ∉ k ∧ k.getLast? ≠ some '\r') →
        lscpu = some (Spec.unlines (before ++ l :: after)) → "flags".toList <:+: lower l →
        (∀ k ∈ before, ¬ "flags".toList <:+: lower k) → flags = l) ∧
      (lscpu = none → ∀ o, sysctl = some o → flags = o) ∧
      (∀ ls, (∀ k ∈ ls, '\n' ∉ k ∧ k.getLast? ≠ some '\r') → lscpu = some (Spec.unlines ls) →
        (∀ k ∈ ls, ¬ "flags".toList <:+: lower k) → flags = sysctl.getD []) := by
  refine ⟨_, _, rfl, ?_, ?_, ?_, ?_, ?_, ?_⟩
  · rintro a rfl ⟨c, hc, hw⟩
    have : (trim ws a).isEmpty = false := by
      rw [← Bool.not_eq_true, trim_isEmpty]
      intro h; rw [h c hc] at hw; cases hw
    simp [detectArch, this]
  · rintro h o rfl
    unfold detectArch
    cases env with
    | none => rfl
    | some a => simp [(trim_isEmpty ws a).mpr (h a rfl)]
  · rintro h rfl
    unfold detectArch
    cases env with
    | none => rfl
    | some a => simp [(trim_isEmpty ws a).mpr (h a rfl)]
  · rintro before l after hl rfl hm hb
    unfold detectCpuFlags
    rw [Option.bind_some, lines_unlines _ hl, List.find?_append, List.find?_eq_none.mpr, Option.none_or,
      List.find?_cons_of_pos (p := fun l => contains (lower l) "flags".toList) ((contains_iff _ _).2 hm)]
    intro k hk; rw [contains_iff]; exact hb k hk
  · rintro rfl o rfl; rfl
  · rintro ls hl rfl hn
    unfold detectCpuFlags
    rw [Option.bind_some, lines_unlines _ hl, List.find?_eq_none.mpr]
    intro k hk; rw [contains_iff]; exact hn k hk

/-- Non-vacuity: a two-line `lscpu` output. -/
example : (∀ k ∈ [] ++ "Flags: sse avx2".toList :: ["x".toList], '\n' ∉ k ∧ k.getLast? ≠ some '\r') ∧
    "flags".toList <:+: "flags: sse avx2".toList ∧ (∃ c ∈ " x86".toList, (c == ' ') = false) := by
  refine ⟨by decide, ⟨[], ": sse avx2".toList, by decide⟩, 'x', by decide, by decide⟩

end Kofft.Props
