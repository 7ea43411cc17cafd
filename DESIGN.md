# Formal model of okian/kofft in Lean 4 — design

## 1. Shape of the model

* `lean/Verif/Spec/*`  small, model-independent mathematical specifications (DFT, DCT, overlap-add, ...).
* `lean/Verif/Model/*` the code, function by function; every `def` cites file and lines in /repo.
* `lean/Verif/Lib/*` model-independent helper lemmas (loops, roots of unity, trigonometric sums, error calculus).
* `lean/Verif/Proof/*` lemmas about the model.
* `lean/Verif/Props/*` one file per group of properties; the theorems listed in MANIFEST.json live here,
  each followed by an `example` showing that its hypotheses are met by a concrete non-trivial case.

### Numbers
The crate is generic over `trait Float`. The model is generic over `class Flt T`, a *signature without laws*:
addition, multiplication, `sin`, `cos`, `mul_add`, `from_f32` of literals, comparison, ....
Two kinds of theorems follow:

* **structural theorems** quantify over *every* `Flt T` (so in particular over IEEE f32 and f64 with any libm):
  no panic, no out-of-bounds access, termination, error codes, frame conditions, bit-for-bit equality
  of two code paths, history (in)dependence.
* **exactness theorems** take `T = ℝ` and a hypothesis `Lawful` saying that every operation is the real operation
  and every decimal constant denotes its ideal value (`0.70710677` ↦ `√2/2`, `PI` ↦ `π`, ...).
  They say that the algorithm computes the right mathematical function. Outside their domains the real operations are
  Mathlib's (`x / 0 = 0`, `log x = log |x|`, `sqrt x = 0` for `x < 0`), where the code gets infinities or NaN: theorems whose
  claim depends on it exclude those arguments (`2 ≤ len`, `0 < sr`, `dr ≠ 0`), and C55, C104, C105 say what the code does there.
  (C48: for a negative sample rate below -1400 the logarithm in `mel_filterbank` is outside its domain.)
* **nearest-rounding theorems** (C104, C105) take `T = ℝ` and `RoundsToNearest p F` (`Spec/Nearest.lean`): every operation returns a
  nearest number with `p` significant bits, ties broken in any way.
* **range theorems** (C85) take any number type with a denotation and the hypothesis `Ieee F N u η Ω v t` (`Spec/Ieee.lean`): overflow and
  gradual underflow as in IEEE 754; `Lib/IeeeFlt.lean` constructs binary floating point of bounded range that meets it.
* **accuracy theorems** (C64, C65, C72-C76, C78) take `T = ℝ` and a hypothesis `Rounding F u v t` (`Spec/Rounding.lean`), the standard
  model of floating-point arithmetic: every operation has relative error at most `u`, every conversion through `f32`
  at most `v`, `sin`/`cos` absolute error at most `t`. Overflow, underflow, NaN are outside this model.
  `Lib/RndFlt.lean` shows it is inhabited by round-to-nearest with any number of digits.

### Effects
* `&mut [T]` buffers are `List`s returned as new values; every index (safe or raw pointer) goes through `rd`/`wr`,
  which yield `Outcome.panic` out of bounds; so "no panic" theorems cover raw-pointer bounds as well.
* `Outcome α = ok a | panic | hang`; `Result<_, FftError>` is ordinary data inside `ok`.
* `while` loops and the mutual recursion `fft → stockham → fft_split_simd → fft` carry fuel; exhausting it is `hang`,
  and the totality theorems show it never happens.
* The planner (interior mutability) is an explicit state: `fft : Cfg → Planner → List → Outcome (Planner × List × Result)`.
* Build configuration (`std`, element type dispatch through `TypeId`, SIMD lane widths, `fma`, `precomputed-twiddles`,
  `parallel`) is a value `Cfg`; theorems quantify over it.
* SIMD blocks are modelled as "load W lanes of four vectors, compute, store W lanes of four vectors".
* rayon `par_iter_mut().for_each` is modelled as element updates applied in an arbitrary order (a permutation).

### Deliberate simplifications (trusted base)
* `usize`/`isize`/`u32` are `Nat`/`Int`: arithmetic overflow and allocation failure are not modelled, except for the
  products of indices that are converted to a float (C70) and for the shape, stride and frame arithmetic of C82
  (underflow of `usize` subtraction *is* modelled as `panic` where it can happen).
* `HashMap` is a partial function; `Arc` is its content.
* NaN, infinities, signed zero and subnormals are only covered through the universally quantified `Flt T`.
* Modelled outside the core crate: `build.rs` tables, `xtask` (build configuration, detection, command lines, exit codes; external programs are parameters), `web-spectrogram/src/lib.rs`
  (`State`, `compute_frame`, `stft_magnitudes`), `sanity-check` (rendering, down-mixing).
* What is not modelled: argument parsing, example and benchmark code, audio decoding (`hound`, `symphonia`), PNG/SVG encoding,
  wasm-bindgen glue, the `axum` server, `calibrated_per_core_work` timing (an arbitrary number), `colorous` palettes
  (uninterpreted), BLAKE3 (uninterpreted function), the file system (a parameter).
* The link between model and Rust text is by reading; nothing is executed.

## 2. Plan per property

| id | modelled | proof plan |
|----|----------|-----------|
| C01 | kernels, Stockham (interleaved and split), planner | stage invariant: after stage s, src[k·n2+j] is the n1-point DFT of x[j+n2·t]; induction on stages |
| C02 | Bluestein path, get_bluestein | circular convolution theorem + DFT inversion on lists |
| C03 | fft, ifft | conjugation trick + orthogonality |
| C04 | all of fft/ifft | planner invariant preserved by every operation; loop invariants for bounds |
| C05 | same | false of the code: negation with a witness (64-point then 32-point transform); partial theorem for non-shrinking histories |
| C06 | same | exact characterisation from the Stockham prefix lemma |
| C07, C08 | get_twiddles, build.rs | recurrence = powers of a root of unity; cache invariant |
| C09–C12 | out-of-place and strided entry points | unfolding + loop invariants, frame conditions |
| C13, C14 | fft_split*, SIMD loops | lane loop = scalar loop for any W |
| C15, C16 | strategies, fft_radix4 | negation for Radix4 at n = 16; positive for the rest |
| C17 | SimdFft*Impl, new_fft_impl | equality for n ≠ 1, panic witness at n = 1 |
| C18 | FftPlan | same-length histories keep the planner compatible |
| C19 | factorize, mixed radix | fuel-bounded loops; product/primality invariants; hang at 0 |
| C20 | fft_inplace_stack | bit-reversal counter = reversal permutation; DIT induction |
| C21 | batch | fold; mixed-size counterexample inherited from C05 |
| C22, C23 | parallel decision logic | permutation-invariance of disjoint updates; counterexample for ineffective knobs |
| C24–C28 | rfft.rs | even/odd split identity over ℂ |
| C29–C31 | ndfft.rs | row/column composition; negation for mixed sizes (via C05) |
| C32–C37 | stft.rs | loop invariants; stream/batch simulation relation |
| C38–C43 | dct/dst/dht | trigonometric orthogonality |
| C44–C48 | czt, goertzel, hilbert, cepstrum | direct |
| C49–C52 | wavelet.rs | direct; negations with witnesses |
| C53, C54 | windows | real analysis |
| C55–C58 | visual/spectrogram.rs | real analysis |
| C59 | SongIndex | invariant over operation histories, negations |
| C60 | num.rs conversions | list induction |
| C62, C63 | stft::frame, inverse_frame; DstPlanner | loop invariants; cache invariant |
| C64 | standard rounding model | calculus of relative errors (`Apx`), one factor per level; Bluestein as three transforms; Euclidean norm: an exact level multiplies the energy by 2, a computed one errs by at most one level factor |
| C65 | the same with `f32` conversions only | exact list of the lengths at which the conversions cost nothing (iff); there the arithmetic agrees with one that converts at full precision, so the C64 bound applies; witnesses of the error elsewhere |
| C66 | web-spectrogram streaming state | invariant over call sequences; exactness through C01 |
| C67, C68 | sanity-check image and down-mix | loop invariants over the pixel grid; negation for WAV |
| C69 | `fft`, `ifft`, complex product | corollaries of C01-C03 over finite sums |
| C70 | `usize` wrapping as part of the integer-to-float conversion | transfer: all converted integers stay below the word size; witness at n = 100000 |
| C71 | README section replacement | first-occurrence lemma for `find` |
| C72 | standard rounding model, real FFT kernels | as C64: inner transform, table by repeated rotation, one product and three roundings per bin; exact split identities over ℂ |
| C73 | standard rounding model, direct cosine/sine/Hartley sums | relative error of the computed angle, Lipschitz bound for cos and sin, then one rounding per term and per addition |
| C74 | standard rounding model, short-time transforms | C64 for each frame, induction over the frames for both accumulators, relative error of a quotient |
| C75 | standard rounding model, 2D and 3D transforms | C64 for each line; growth factors multiply over the passes |
| C76 | standard rounding model, stack transforms | induction over the passes with block structure of C20; each pass multiplies the growth by one addition, one product and one rotated factor |
| C77 | xtask main, detection | external programs are an arbitrary function of what ran before; case analysis on subcommands; induction over lines |
| C78 | SIMD back-end methods, TwiddleFactorBuffer | each call is a call on a new planner; default split by the loop lemmas of C08; table by exp identities and the rounding calculus |
| C79 | scalar fft, batch, fft2d after any history | leftovers only grow (induction over histories); a short transform is the long transform of input plus leftovers; zeros and an impulse cannot both be right (primitive roots of unity); for other lengths the response of bin 0 to an impulse at 0 is L/m, L the length really run, m the length needed |
| C80 | fft_radix4 | the loop composes exchanges in the lower half (invariant); each pass multiplies the digit-reversed DFT length by four (induction); the impulse at n/2 stays put |
| C81 | czt, hilbert, plan_dct2, haar, windows | growth-factor calculus; induction over the samples (czt); composition of the FFT bounds (hilbert, DCT) |
| C82 | `Model/Machine.lean`: strided, 2-D, 3-D and short-time transforms with word arithmetic that panics or wraps | loop invariants: every index stays below the last one; exact characterisation of the overflowing strided and 2-D calls; witnesses at 64 bits |
| C83 | `Spec.LinRel`: relations preserved by linear operations; `Spec.Session`: calls, replies, sessions on one transformer. | Side-by-side runs (`ORel`): every statement of the model is shown to respect the relation; induction over the session. Corollaries for powers of two in `rndFlt`, for zeros in every `Rounding` arithmetic, for all scalars in exact arithmetic. |
| C84 | The same, with the relation that holds between all numbers. | Instance of C83. |
| C85 | `Spec.Denote`/`Spec.Ieee` (`Spec/Ieee.lean`): numbers denote reals when finite; operations on finite operands whose exact result is within range are finite and correct up to a relative plus a subnormal absolute error; nothing is assumed otherwise. | The calculus of C64 redone with finiteness carried along (`Lib/IApx`): each value is finite and within `(g-1)A` of its exact value, `A ≥ D > 0`; every step checks the room left below `Ω`. `Lib/IeeeFlt` builds binary floating point with a bounded range and proves it meets the hypotheses. Overflow (`Spec/Overflow.lean`, `Proof/Overflow.lean`): Parseval gives a bin where the chirp spectrum is at least √5, the error calculus holds up to the product of spectra, which is lost there; `Sticky` carries the loss to every output. |
| C86 | `Spec.Sticky` (`Spec/Sticky.lean`): finite results have finite operands. | Contrapositive, on the closed forms: a finite output of a stage has finite inputs at all positions it depends on, and after all stages it depends on all (`Proof/Sticky`). Multi-dimensional: each pass over disjoint lines spreads a bad number over its line (`Props/StickyNd`). Later transforms: invariant that the leftovers of the transformer hold no finite number. |
| C87 | `Spec/Retain.lean`: `Served` (call histories over a set of lengths), `held` (scalars kept), the same for the real, DCT and DST planners, and `Accepted` for the inverse stream. | Post-condition calculus (`Lib/OPost`) over every method: buffers stay within the largest internal transform, table keys within the lengths used; then summation. The stream: exact size invariant, and unboundedness from totality of `push_frame`. |
| C88 | the models of C32-C34, C49, C51; `Spec.LocalBank` | two-run theorems from the bit-exact values of each frame, sample and coefficient |
| C89 | `Model/Borrow.lean`: for every array, the list of the pointers made and the accesses through them; `Spec/Borrow.lean`: Stacked Borrows and Tree Borrows, location by location | invariants of the borrow stack and tree for the valid calls, a pointer that stays invalid for the others; the passes are linked to the value model; bounds: each pass touches every index once (permutation of the range) |
| C90 | the models of C11 and C25; `stridedAllocDefault` | two runs with different memory contents, from the closed forms in which the scratch buffer does not occur |
| C91 | `Model/Crash`: the contents of the planner at every instant of each method; `Spec/Crash`: sessions of finished and abandoned calls | the planner invariant of C01/C08 holds at every instant; closed forms of the later call |
| C92 | `Model/Exclusive`: where each method acquires and releases the reference and runs element operations; `Spec/Exclusive`: references alive after a trace | traces are nested brackets (induction over the call structure); cache invariants for the second transform of a length; an explicit overlapping trace for the negation |
| C93 | `Model/SpecExample`: the argument loop, the samples, the image loop of `examples/spectrogram.rs`; the WAV decoder and number parser are parameters; `Spec/Example`: a reading of a command line as an inductive relation | induction on the reading; loop invariants on the image (shared with C67) and C58 for the magnitudes |
| C94 | `Model/Settings`: the override cells and `OnceLock`s of `src/fft.rs:47-306` as shared state, a call's decision as the sequence of its accesses, runs as arbitrary lists of events (setter, environment change, begin, next access). Accesses are interleaved; a leaf `OnceLock` is filled in one step | invariants over runs: published values agree with the environment (unchanged environment), every cell a call can still read is filled (changing environment); a concrete run for the limit |
| C95 | `Spec/Cost`: the model is run on formal expressions (`Flt Expr`): the result of an addition is the expression itself. `Cost given k wanted`: a straight-line program of at most k operations computes the wanted expressions from the given ones. Limitation: identical operations on identical operands count once, so recomputation of the same value is not visible | composition of straight-line programs along the closed forms of C01; lower bound: the n² accumulating additions of the direct transforms are pairwise different expressions |
| C96 | `Model/ParWord`: `calibrated_per_core_work`, `parallel_fft_threshold`, `should_parallelize_fft` on words of any size with and without overflow checks (`Word` of `Model/Machine`), `fft`/`ifft` of a `parallel` build | agreement with the unbounded model of C23 where nothing overflows; exact conditions for a panic in both profiles; result by C22. False on 32-bit targets: negations proved |
| C97 | `Model/AllocCount`: the counting allocator as a transition system of any number of threads; modification order of `PEAK_BYTES`, coherent stale reads | invariant over all schedules (`inv_step`); counts by counting lemmas. False when memory from before the reset is freed: negation proved |
| C98 | `Model/BenchFile`: `save_results` on JSON values (what `derive(Serialize, Deserialize)` writes and accepts), the report, the two files and every state in which a run can be stopped | report by induction on the records and `mergeSort`; files by induction over the history. False for zero durations and failing renames: negations proved |
| C99 | `Model/BenchFile`: the updater's `Deserialize` (its own key names), the table, `main` | by computation on the JSON the benchmark writes, for every file; table by `List.splitOn`; README by C71. False: negation proved |
| C100 | the C03/C72 model of `rfft`/`irfft` over the C85 arithmetic (`Spec/Ieee`, with the literal 0.5) | the error calculus of C85 (`IAp`): table, one bin, whole half spectrum, on top of C85's transform lemma |
| C101 | the C24 model of `stft` and the C29/C30 models of `fft2d`/`fft3d` over the C85 arithmetic | the error calculus of C85 applied to the windowed product, then line by line and pass by pass |
| C102 | `save_svg` up to the call of the svg crate: the pixel iterator with its counters, `{:02x}`, the elements in order (`Model/SanityIo`); CSS colours separately (`Spec/Svg`) | closed form of the iterator by induction; the parser applied to the formatter |
| C103 | `read_audio` over the sequence of answers of the external reader and decoder (`Model/SanityIo`): extension test, track parameters, the loop with its intermediate buffer | induction over the answers; the result is `readPackets` of C68 |
| C104 | `goertzel_f32` (`Model/Spectral`) under the rounding model `Rounding` and under rounding to nearest with free ties (`Spec/Nearest`); bound in `Spec/GoertzelErr` | the pair of states `s₁ - e^{-iw}s₂` is only rotated by the recurrence, so errors add up linearly; the counterexample by computing the nearest 24-bit numbers |
| C105 | windows of `Model/Window` under rounding to nearest (`Spec/Nearest`) and with non-finite results of division by zero (`Spec/Sticky`) | rounding is monotone and does not cross representable numbers; a non-finite value stays non-finite |
| C106 | `mapBinToPixel`, `logScaleBins` and the image tool under rounding to nearest (`Spec/Nearest`), with a growing logarithm (`Spec/PixelLog`) | the rounded quotient cannot pass the representable number max_bin + 1/2; for 128 bins the three roundings are computed exactly from bounds on log 2 |
| C107 | the trigonometric transforms, cepstral functions, analytic signal, wavelets and chirp Z-transform in arithmetic with a bounded range (`Spec/Ieee`, `Spec/Range`) | every intermediate value is finite with an explicit bound, by induction on the accumulation loops; C85 for the transforms inside |
| C108 | `melFilterbank`, `melBins`, `mfcc`, `realCepstrum` in arithmetic with relative errors (`Spec/Rounding`, `Spec/MelErr`) | forward error analysis of each loop; perturbation of log, sqrt and 10^x; C64 for the transforms inside |
| C109 | the display functions in arithmetic rounding to nearest (`Spec/Display`) and, for the magnitudes, with relative errors (`Spec/Rounding`) | palettes as sums of clamped ramps: Lipschitz, and each computed segment close to it; perturbation of log10 and of the clamped position; monotone rounding for the order |
| C110 | the whole image tool (`Sanity.render`) run in two arithmetics, one rounding, one exact | errors of the magnitudes (C109) and of their maximum (1-Lipschitz); logarithm of the floored magnitudes is Lipschitz relative to the floor; palettes are piecewise linear with slope at most 2550; then integer parts |
| C111 | the model run on formal expressions (`Flt Expr`), results counted by the shortest straight-line program containing them | composition of the counts of the parts: induction on levels, frames, samples; fft counts from the operation-count properties |
| C112 | multi-level Haar analysis and synthesis (`multiForward haarForward`, `multiInverse haarInverse`) under `RoundsToNearest p` and `Rounding u` | induction on levels: sums of grid points are representable; an odd integer above 2^p is not; error recursion for the rest |
| C113 | the direct transforms under `Rounding F u v t` | error bound of each (C73), coefficients of at most 1 or 2, inversion of the specifications (C38, C39, C41, C43) |
| C114 | `kaiser`, `bessel0` against `I0` (an infinite series, `Spec/Kaiser`) under `Lawful`, under `Rounding` + `RoundsToNearest` + `Libm`, and under `Loses` (overflow) | geometric bound of the tail; factors of closeness through the loop; powers bounded below until they overflow |
| C115 | `blackman`, `nuttall`, `bohman`, `bartlett` under `Rounding F u v t` | relative errors through the angle, Lipschitz cosine, weights adding up to 1 |
| C116 | `fft`, `ifft` under `ExactWhereRepresentable p F` | values of the Stockham stages by induction on the stage: zeros stay zeros, constants double; entry 0 of every table is 1 |
| C117 | `fft`, `rfft` under `ExactWhereRepresentable p F` | the first block after each stage is a tree of additions of samples with equal remainder; integer sums stay below 2^p |
| C118 | `fft2d`, `fft3d` under `ExactWhereRepresentable p F` | C116 line by line through the passes |
| C119 | `fft`, `ifft`, `Complex::mul` under `Rounding F u v t` | the norm-wise error of C64 through Parseval, Cauchy–Schwarz for the product of spectra, and the circular/linear convolution theorems of C69 |
| C120 | `fft`, `ifft`, stack transforms under `Rounding F u v t` | norm-wise (C64) and pointwise (C76) round-trip bounds, closed forms of the growth factors, nearest integer of a number within 1/2 |
| C121 | `app.mjs` canvas renderer on the bytes of the image (`Model/WebApp`) | invariant of the two nested loops; composed with C66 |
| C122 | `app.mjs` WebGL renderer: sampling positions, shader, in real arithmetic (`Model/WebApp`) | exact position of the sampled texel, iff for the layouts, iff for the levels, palette equality by cases |
| C123 | `sw.js` as a cache-first state machine over arbitrary histories (`Model/WebApp`) | closed form of the cache after a history by induction |
| C124 | `examples/dct_usage.rs`, pipeline of `examples/embedded_example.rs` (`Model/Examples`) | fold over positions equals the library's loop; composition of two forward transforms in closed form |
| C125 | repeated calls of the modelled transforms | induction over the trips from the one-trip bound of C64, C72, C76 with a triangle inequality |
| C126 | composition of the modelled transforms in rounded arithmetic | error bounds of C72 and C74 with counting of overlapping frames, closed form of the growth factor |
| C127 | pairs of the modelled transforms in two rounded arithmetics | triangle inequality on the error bounds of C72, C73 and C75 |
| C128 | the db2 loops in rounded arithmetic | the two terms that make an interior sample, in the order the code adds them; ten roundings each |
| C61 | xtask compute_config | case analysis over arbitrary string predicates |

## 3. Trusted base
* Lean 4.33.0's kernel.
* Mathlib's definitions of ℝ, ℂ, sin, cos, exp, π, √ and finite sums, which occur in the statements.
* The reading of /repo recorded in the citation on each definition of `Model/*`, and the simplifications of section 1.
* Axioms (output of `#print axioms`; no axiom is added by this project). Names are in `Kofft.Props`.
  * no axioms: `complex_vec_new_spec`, `czt_linear`, `dst_planner_transparent`, `duplicates_get_two_ids`, `flatten2d_nil`, `identify_known_name`, `knobs_documented_false`, `threshold_revert`
  * `propext` only: `db_scale_zero_range`, `dct_example_short_table`, `example_reading`, `factorize_zero_hangs`, `hash_file_chunking`, `hash_file_read_error`, `identify_unknown_name`, `index_song_spec`, `istft_stream_empty`, `kaiser_total`, `map_color_bytes`, `nostd_heuristic`, `read_audio_mono`, `read_audio_no_channels`, `same_name_shares_id`, `settings_torn`, `simd_stateless`, `song_index_monotone`, `split_mismatch`, `stft_magnitudes_hop_zero_panics`, `strided_errors`, `threshold_override`, `tukey_clamp`, `window_lengths`, `window_one_not_finite`
  * `propext`, `Quot.sound`: `alloc_peak_any`, `alloc_peak_real`, `complex_vec_round_trip`, `cssColor_fill`, `czt_not_finite`, `decision_of_settings`, `decision_of_settings_nostd`, `dht_word_size_partial`, `dst_scratch_length`, `during_begin_end`, `environment_read_once`, `features_arg_round_trip`, `goertzel_errors`, `goertzel_linear`, `haar_batch_inverse`, `haar_inverse_values`, `heuristic_partial`, `knobs_ignored`, `map_color_u16_spec`, `parallel_linear`, `parallel_release_calibration`, `parallel_threshold_set`, `parallel_word_agrees_partial`, `planner_exclusive`, `read_audio_fails`, `read_audio_fewer_channels_panics`, `read_audio_growing_packet_panics`, `read_audio_other`, `read_audio_stream`, `readme_again`, `readme_grows`, `readme_section`, `reflect_one_hangs`, `rfft_short_scratch`, `rfft_simd_same`, `sanity_short_window_panics`, `session_linear`, `session_map`, `session_shape`, `song_index_provenance`, `split_whitespace_spec`, `std_heuristic`, `stft_word_partial`, `stft_word_required`, `streamRead_linear`, `stream_linear`, `strided_word_partial`, `sw_answers`, `sw_offline_false`, `sw_offline_partial`, `sw_stale`, `trig_batch`, `trig_linear`, `wavelet_linear`
  * `propext`, `Classical.choice`, `Quot.sound`: all other theorems listed in MANIFEST.json.

### Which file is modelled where

| file in /repo | model | not modelled |
|---|---|---|
| `build.rs` | `Model/Fft`, `Model/Num` | reading the environment and writing the file (only the generated values are modelled) |
| `examples/dct_usage.rs` | `Model/Examples` | printing |
| `examples/embedded_example.rs` | `Model/Examples` | steps 1-5 (library calls on literals) and printing |
| `examples/spectrogram.rs` | `Model/SpecExample` | PNG encoding |
| `kofft-bench/benches/bench_fft.rs` | `Model/AllocCount`, `Model/BenchFile` |  |
| `kofft-bench/examples/update_bench_readme.rs` | `Model/BenchFile`, `Model/Readme` | file reading and writing, JSON parsing |
| `sanity-check/src/lib.rs` | `Model/Sanity`, `Model/SanityIo` | `hound`/`symphonia` decoding, PNG and SVG encoding |
| `sanity-check/src/main.rs` | `Model/Sanity` | argument parsing |
| `src/cepstrum.rs` | `Model/Spectral` |  |
| `src/czt.rs` | `Model/Spectral` |  |
| `src/dct.rs` | `Model/Trig` |  |
| `src/dst.rs` | `Model/Trig` |  |
| `src/fft.rs` | `Model/Api`, `Model/Base`, `Model/Borrow`, `Model/Crash`, `Model/Exclusive`, `Model/Fft`, `Model/Kernels`, `Model/Machine`, `Model/Num`, `Model/ParWord`, `Model/Parallel`, `Model/Plan`, `Model/Settings`, `Model/Stack` | `Default`/constructor boilerplate; `calibrated_per_core_work` timing (an arbitrary number); trait plumbing |
| `src/fft_kernels.rs` | `Model/Kernels`, `Model/Num` |  |
| `src/goertzel.rs` | `Model/Spectral` |  |
| `src/hartley.rs` | `Model/Trig` |  |
| `src/hilbert.rs` | `Model/Spectral` |  |
| `src/lib.rs` | re-exports only, nothing to model |  |
| `src/media/index.rs` | `Model/SongIndex` | BLAKE3 and the file system (uninterpreted) |
| `src/ndfft.rs` | `Model/Machine`, `Model/NdFft` |  |
| `src/num.rs` | `Model/Num` | the impls of `Float` for `f32`/`f64` (they are the abstract `Flt`); trivial accessors |
| `src/rfft.rs` | `Model/Rfft` | macro-generated trait forwarding |
| `src/stft.rs` | `Model/Machine`, `Model/Stft` |  |
| `src/visual/spectrogram.rs` | `Model/Visual` | `colorous` palettes (uninterpreted) |
| `src/wavelet.rs` | `Model/Wavelet` | macro instances of the generic multi-level functions are covered by the generic definition |
| `src/window.rs` | `Model/Window` |  |
| `src/window_more.rs` | `Model/Window` |  |
| `web-spectrogram/app.mjs` | `Model/WebApp` | DOM, audio decoding, WebGL set-up; the two syntax errors of the file are repaired in the model |
| `web-spectrogram/src/lib.rs` | `Model/Web` | wasm-bindgen accessors and one-line forwarding functions |
| `web-spectrogram/sw.js` | `Model/WebApp` | matching of addresses is equality |
| `xtask/src/lib.rs` | `Model/Xtask` |  |
| `xtask/src/main.rs` | `Model/Xtask` |  |
| `web-spectrogram/src/main.rs`, other `examples/*`, other `kofft-bench/*`, `tests/*` | not modelled | HTTP server, demonstrations that call the library on literals, benchmark set-up and test code |
