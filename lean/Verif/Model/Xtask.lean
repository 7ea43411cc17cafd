import Verif.Model.Base
/-
`xtask/src/lib.rs` and `xtask/src/main.rs`: the build configuration, the commands derived from it and the dispatch. Strings are
lists of characters. The environment, the output of the probes and the effect of running a command are parameters.
-/
namespace Kofft.Xtask

/-- `str::contains`. -/
def contains (s pat : List Char) : Bool :=
  match s with
  | [] => pat.isEmpty
  | c :: rest => pat.isPrefixOf (c :: rest) || contains rest pat

/-- `str::split_whitespace`, `ws` being the characters with the property White_Space: the word being read, then the rest. -/
def splitGo (ws : Char → Bool) : List Char → List Char → List (List Char)
  | cur, [] => if cur.isEmpty then [] else [cur]
  | cur, c :: rest => if ws c then (if cur.isEmpty then splitGo ws [] rest else cur :: splitGo ws [] rest)
      else splitGo ws (cur ++ [c]) rest

/-- `str::split_whitespace`. -/
def splitWhitespace (ws : Char → Bool) (s : List Char) : List (List Char) := splitGo ws [] s

/-- `xtask/src/lib.rs:6-11` `struct BuildConfig`. -/
structure BuildConfig where
  features : List (List Char)
  rustflags : Option (List Char)
  example_ : List Char
  deriving DecidableEq

/-- `[String]::join(" ")`. -/
def joinSpace : List (List Char) → List Char
  | [] => []
  | [w] => w
  | w :: ws => w ++ ' ' :: joinSpace ws

/-- `xtask/src/lib.rs:15-21` `features_arg`. -/
def BuildConfig.featuresArg (cfg : BuildConfig) : Option (List Char) :=
  if cfg.features.isEmpty then none else some (joinSpace cfg.features)

/-- The architecture part of `compute_config` (`xtask/src/lib.rs:72-89`): features and `RUSTFLAGS`. -/
def archConfig (arch cpuFlags : List Char) : List (List Char) × Option (List Char) :=
  if contains arch "x86_64".toList then
    if contains cpuFlags "avx512f".toList then
      (["x86_64".toList, "avx512".toList], some "-C target-feature=+avx512f,+fma".toList)
    else if contains cpuFlags "avx2".toList then
      (["x86_64".toList, "avx2".toList], some "-C target-feature=+avx2,+fma".toList)
    else if contains cpuFlags "sse4_1".toList then (["x86_64".toList, "sse".toList], none)
    else (["x86_64".toList], none)
  else if contains arch "aarch64".toList || contains arch "arm64".toList then (["aarch64".toList], none)
  else ([], none)

/-- `xtask/src/lib.rs:71-113` `compute_config`. -/
def computeConfig (ws : Char → Bool) (arch cpuFlags : List Char) (nproc : Nat) (extra : List Char) : BuildConfig :=
  let (features, rustflags) := archConfig arch cpuFlags
  let features := if nproc > 1 then features ++ ["parallel".toList] else features
  let features := (splitWhitespace ws extra).foldl (fun fs feat => if feat.isEmpty then fs else fs ++ [feat]) features
  ⟨features, rustflags, if features.any (· == "parallel".toList) then "parallel_benchmark".toList else "benchmark".toList⟩

/-- A `std::process::Command`: program, arguments, environment variables set. -/
structure Cmd where
  program : List Char
  args : List (List Char)
  env : List (List Char × List Char)
  deriving DecidableEq

/-- `if let Some(f) = cfg.features_arg() { cmd.arg("--features").arg(f) }`. -/
def featureArgs (cfg : BuildConfig) : List (List Char) :=
  match cfg.featuresArg with
  | some f => ["--features".toList, f]
  | none => []

/-- `if let Some(rf) = &cfg.rustflags { cmd.env("RUSTFLAGS", rf) }`. -/
def flagEnv (cfg : BuildConfig) : List (List Char × List Char) :=
  match cfg.rustflags with
  | some rf => [("RUSTFLAGS".toList, rf)]
  | none => []

/-- `xtask/src/lib.rs:115-122` `build_command`. -/
def buildCommand (cfg : BuildConfig) : Cmd := ⟨"cargo".toList, ["build".toList] ++ featureArgs cfg, []⟩

/-- `xtask/src/lib.rs:124-131` `test_command`. -/
def testCommand (cfg : BuildConfig) : Cmd := ⟨"cargo".toList, ["test".toList] ++ featureArgs cfg, []⟩

/-- `xtask/src/lib.rs:145-155` `benchmark_command`. -/
def benchmarkCommand (cfg : BuildConfig) : Cmd :=
  ⟨"cargo".toList, ["run".toList, "--example".toList, cfg.example_, "--release".toList] ++ featureArgs cfg, flagEnv cfg⟩

/-- `xtask/src/lib.rs:157-167` `bench_libs_command`. -/
def benchLibsCommand (cfg : BuildConfig) : Cmd :=
  ⟨"cargo".toList, ["bench".toList, "--manifest-path".toList, "kofft-bench/Cargo.toml".toList] ++ featureArgs cfg, flagEnv cfg⟩

/-- `xtask/src/lib.rs:133-137` `clippy_command`. -/
def clippyCommand : Cmd := ⟨"cargo".toList, ["clippy".toList, "--all-targets".toList, "--all-features".toList], []⟩

/-- `xtask/src/lib.rs:139-143` `fmt_command`. -/
def fmtCommand : Cmd := ⟨"cargo".toList, ["fmt".toList, "--all".toList], []⟩

/-- `xtask/src/lib.rs:169-185` `update_bench_readme_command`. -/
def updateBenchReadmeCommand (cfg : BuildConfig) : Cmd :=
  ⟨"cargo".toList, ["run".toList, "--manifest-path".toList, "kofft-bench/Cargo.toml".toList, "--example".toList,
    "update_bench_readme".toList, "--release".toList] ++ featureArgs cfg, flagEnv cfg⟩

/-- The script of `xtask/src/lib.rs:197`. -/
def webScript : List Char :=
  "cd web-spectrogram && wasm-pack build --target web && rm -rf static && mkdir -p static/pkg && cp -r pkg/* static/pkg/ && cp index.html app.mjs manifest.json sw.js static/ && cargo run -p web-spectrogram".toList

/-- `xtask/src/lib.rs:193-200` `web_spectrogram_command`. -/
def webSpectrogramCommand : Cmd := ⟨"sh".toList, ["-c".toList, webScript], []⟩

/-- `xtask/src/lib.rs:187-191` `sanity_command`. -/
def sanityCommand (input output : List Char) : Cmd :=
  ⟨"cargo".toList, ["run".toList, "-r".toList, "-p".toList, "sanity-check".toList, "--".toList, input, output], []⟩

/-! ### Detection -/

/-- `str::trim` for the white space `ws`. -/
def trim (ws : Char → Bool) (s : List Char) : List Char := ((s.dropWhile ws).reverse.dropWhile ws).reverse

/-- `xtask/src/lib.rs:33-44` `detect_arch`: `env` is the variable `ARCH` (`none` when unset or not Unicode), `uname` the output of
`uname -m` (`none` when it cannot be run). -/
def detectArch (ws : Char → Bool) (env uname : Option (List Char)) : List Char :=
  match env with
  | some arch => if !(trim ws arch).isEmpty then arch else (uname.map (trim ws)).getD []
  | none => (uname.map (trim ws)).getD []

/-- `str::lines`: split at line feeds, a trailing line feed ends the last line, one carriage return before the line feed is
dropped. `cur` is the line being read. -/
def linesGo : List Char → List Char → List (List Char)
  | cur, [] => if cur.isEmpty then [] else [cur]
  | cur, c :: rest => if c = '\n' then (if cur.getLast? = some '\r' then cur.dropLast else cur) :: linesGo [] rest
      else linesGo (cur ++ [c]) rest

/-- `str::lines`. -/
def lines (s : List Char) : List (List Char) := linesGo [] s

/-- `xtask/src/lib.rs:46-62` `detect_cpu_flags`; `lower` is `to_lowercase`, `lscpu` and `sysctl` the output of the two programs
(`none` when they cannot be run). -/
def detectCpuFlags (lower : List Char → List Char) (lscpu sysctl : Option (List Char)) : List Char :=
  match lscpu.bind fun s => (lines s).find? fun l => contains (lower l) "flags".toList with
  | some l => l
  | none => sysctl.getD []

/-- `xtask/src/lib.rs:25-31` `detect_config` with `xtask/src/lib.rs:64-68` `detect_nproc` (`none`: unknown). -/
def detectConfig (ws : Char → Bool) (lower : List Char → List Char) (env uname lscpu sysctl : Option (List Char))
    (nproc : Option Nat) (extra : Option (List Char)) : BuildConfig :=
  computeConfig ws (detectArch ws env uname) (detectCpuFlags lower lscpu sysctl) (nproc.getD 1) (extra.getD [])

/-! ### Dispatch (`xtask/src/main.rs`) -/

/-- `xtask/src/main.rs:12-32` `enum Commands`. -/
inductive Sub where
  | build | test | clippy | fmt | analyze | benchmark | benchLibs | updateBenchReadme | webSpectrogram
  | sanity (input output : List Char)

/-- What became of the process: an I/O error (a program could not be started), or the exit code. -/
inductive Exit where
  | ioError
  | code (c : Int)
  deriving DecidableEq

/-- `status.code().unwrap_or(1)` of the last command (`xtask/src/main.rs:58`); a status is `none` when the program was killed by a
signal. -/
def exitOf : Option (Option Int) → Exit
  | none => .ioError
  | some none => .code 1
  | some (some c) => .code c

/-- `xtask/src/main.rs:35-59` `main`: the commands run, in order, and how it ends. `exec hist c` is the result of running `c` after
the commands `hist` (`none`: it could not be started). -/
def main (cfg : BuildConfig) (exec : List Cmd → Cmd → Option (Option Int)) : Sub → List Cmd × Exit
  | .build => ([buildCommand cfg], exitOf (exec [] (buildCommand cfg)))
  | .test => ([testCommand cfg], exitOf (exec [] (testCommand cfg)))
  | .clippy => ([clippyCommand], exitOf (exec [] clippyCommand))
  | .fmt => ([fmtCommand], exitOf (exec [] fmtCommand))
  | .analyze =>
    match exec [] fmtCommand with
    | none => ([fmtCommand], .ioError)
    | some st => if st ≠ some 0 then ([fmtCommand], exitOf (some st))
      else ([fmtCommand, clippyCommand], exitOf (exec [fmtCommand] clippyCommand))
  | .benchmark => ([benchmarkCommand cfg], exitOf (exec [] (benchmarkCommand cfg)))
  | .benchLibs => ([benchLibsCommand cfg], exitOf (exec [] (benchLibsCommand cfg)))
  | .updateBenchReadme => ([updateBenchReadmeCommand cfg], exitOf (exec [] (updateBenchReadmeCommand cfg)))
  | .webSpectrogram => ([webSpectrogramCommand], exitOf (exec [] webSpectrogramCommand))
  | .sanity i o => ([sanityCommand i o], exitOf (exec [] (sanityCommand i o)))

end Kofft.Xtask
