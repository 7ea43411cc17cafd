{"id": "C01", "title": "fft of a power-of-two buffer is the DFT", "statement": "Calling fft on a fresh transformer with a buffer of length n = 2^k replaces entry k by sum over t<n of x[t]*exp(-2*pi*i*k*t/n), in natural order, when the floating type is replaced by exact real arithmetic with ideal constants.", "quantifier": "every k, every buffer of 2^k complex values, every build configuration (element type f32/f64/other, SIMD lane width, fma on/off, precomputed twiddles on/off)", "why_tests_cant": "tests compare a handful of sizes and vectors with a naive DFT; a wrong index in one stage of one size is invisible elsewhere", "anchors": ["src/fft.rs: ScalarFftImpl::fft, stockham_fft_with_threshold, fft_split_simd", "src/fft_kernels.rs: fft2, fft4, fft8, fft16"]}
{"id": "C02", "title": "fft of an arbitrary length is the DFT", "statement": "With the std feature, calling fft on a fresh transformer with a buffer of any length n>=1 (Bluestein for non powers of two) yields the n-point DFT in exact arithmetic.", "quantifier": "every n>=1, every buffer, every build configuration with std", "why_tests_cant": "the Bluestein padding length, chirp wrap-around and convolution must be right for every n, not for the sampled primes", "anchors": ["src/fft.rs: ScalarFftImpl::fft, FftPlanner::get_bluestein"]}
{"id": "C03", "title": "ifft inverts fft and fft inverts ifft", "statement": "On one transformer, fft followed by ifft (and ifft followed by fft) on a buffer of length n>=1 returns the original buffer in exact arithmetic, when the transformer was fresh before the first call.", "quantifier": "every n>=1 (power of two without std), every buffer, every configuration", "why_tests_cant": "round trips are sampled with a tolerance; a scale or conjugation error for particular sizes escapes", "anchors": ["src/fft.rs: ScalarFftImpl::fft, ScalarFftImpl::ifft"]}
{"id": "C04", "title": "fft/ifft never panic, never access out of bounds, always terminate, and report exactly the documented errors", "statement": "For every reachable transformer state and every input, fft and ifft return (no panic, no out-of-bounds access on safe or raw pointers, no infinite loop); the error is EmptyInput iff the buffer is empty, NonPowerOfTwoNoStd iff std is off and the length is not a power of two, otherwise Ok; the buffer length never changes.", "quantifier": "every history of planner use, every buffer, every configuration, every floating-point semantics", "why_tests_cant": "raw-pointer loops are only exercised for tested sizes and histories; absence of out-of-bounds access is universal", "anchors": ["src/fft.rs: ScalarFftImpl::fft, stockham_fft_with_threshold, fft_split_simd, ifft"]}
{"id": "C05", "title": "results do not depend on what the transformer computed before", "statement": "The output of fft on a transformer that has already been used equals, bit for bit, the output of fft on a fresh transformer.", "quantifier": "every history of previous calls, every input", "why_tests_cant": "depends on the whole history of buffer sizes; tests almost always use a fresh instance or one size", "anchors": ["src/fft.rs: FftPlanner (split_re, split_im, bluestein_scratch), stockham_fft_with_threshold, ScalarFftImpl::fft"]}
{"id": "C06", "title": "exact behaviour of a reused transformer", "statement": "On a reused transformer whose largest previous power-of-two transform had length L>n, an fft of length n=2^k>16 (f32/f64) returns the first n outputs of the L-point transform of the input followed by leftovers of the previous result; when L<=n, or n<=16, or the element type is neither f32 nor f64, the result is the fresh one.", "quantifier": "every reachable state, every power-of-two input, every floating-point semantics", "why_tests_cant": "characterises all histories at once", "anchors": ["src/fft.rs: stockham_fft_with_threshold, fft_split_simd"]}
{"id": "C07", "title": "twiddle tables are correct and cache-transparent", "statement": "get_twiddles(n) returns n/2 entries equal to exp(-2*pi*i*k/n) in exact arithmetic; whatever was requested before, it returns the same table bit for bit.", "quantifier": "every n, every sequence of earlier requests", "why_tests_cant": "cache correctness is a property of all request histories", "anchors": ["src/fft.rs: FftPlanner::get_twiddles", "build.rs: main"]}
{"id": "C08", "title": "the precomputed-twiddles feature does not change the mathematical result", "statement": "Enabling precomputed-twiddles returns tables of the same length denoting the same exact values for every n, so fft denotes the same transform with and without the feature.", "quantifier": "every n, every input", "why_tests_cant": "needs all sizes of the table and all inputs", "anchors": ["src/fft.rs: FftPlanner::get_twiddles", "build.rs: main"]}
{"id": "C09", "title": "out-of-place transforms equal in-place ones", "statement": "fft_out_of_place/ifft_out_of_place, fft_vec/ifft_vec return exactly what fft/ifft would leave in a copy of the input, leave the input alone, reject unequal lengths with MismatchedLengths without touching the output.", "quantifier": "every transformer state, every pair of buffers, every floating-point semantics", "why_tests_cant": "bitwise for all inputs and states", "anchors": ["src/fft.rs: FftImpl::fft_out_of_place, ifft_out_of_place, ScalarFftImpl::fft_vec, ifft_vec"]}
{"id": "C10", "title": "in-place strided transforms touch only the strided elements", "statement": "fft_strided(input, stride, scratch) with n = scratch.len(): stride 0 gives InvalidStride; n=0 is a no-op; input shorter than (n-1)*stride+1 gives MismatchedLengths with input untouched; otherwise elements at i*stride (i<n) become the transform of the gathered elements and every other element is unchanged. Same for ifft_strided.", "quantifier": "every buffer, stride, scratch length and content, transformer state, floating-point semantics", "why_tests_cant": "frame property over all buffers and strides", "anchors": ["src/fft.rs: ScalarFftImpl::fft_strided, ifft_strided"]}
{"id": "C11", "title": "the allocating strided wrappers equal the explicit ones", "statement": "fft_strided_alloc/ifft_strided_alloc give the same result on the data as fft_strided/ifft_strided with a scratch buffer of length input.len()/stride, for any leftover content of the internal scratch.", "quantifier": "every state, buffer and stride", "why_tests_cant": "scratch is reused across calls of all sizes", "anchors": ["src/fft.rs: ScalarFftImpl::fft_strided_alloc, ifft_strided_alloc"]}
{"id": "C12", "title": "out-of-place strided transforms gather, transform and scatter", "statement": "fft_out_of_place_strided: exact error conditions (zero or non-dividing stride: InvalidStride; different element counts: MismatchedLengths); on success output[i*out_stride] is the transform of the gathered input and all other output elements are unchanged; input is unchanged.", "quantifier": "every pair of buffers and strides, every state", "why_tests_cant": "all stride combinations", "anchors": ["src/fft.rs: ScalarFftImpl::fft_out_of_place_strided, ifft_out_of_place_strided"]}
{"id": "C13", "title": "split-complex and interleaved transforms agree", "statement": "fft_split on separate real and imaginary buffers returns, bit for bit, the components of what fft of a fresh transformer returns on the interleaved buffer: on every transformer for power-of-two lengths, otherwise when no larger transform was run before. ifft_split does the same for ifft (n >= 2) where the two spellings of the scale factor, 1/(n as f64) and 1/(n as f32), agree, and computes the inverse DFT in exact arithmetic. Unequal lengths give MismatchedLengths and leave both buffers unchanged.", "quantifier": "every pair of buffers, configuration and (for power-of-two lengths) every history", "why_tests_cant": "bit equality over all inputs, sizes and SIMD widths", "anchors": ["src/fft.rs: ScalarFftImpl::fft_split, ifft_split, fft_split_simd, FftImpl::fft_split"]}
{"id": "C14", "title": "SIMD lane width does not change results", "statement": "The vectorised butterfly loop gives bit-for-bit the result of the scalar loop for every lane width, and never reads or writes outside the buffers.", "quantifier": "every lane width, every power-of-two length, every input, every floating-point semantics", "why_tests_cant": "tests run one target's width", "anchors": ["src/fft.rs: fft_split_simd (x86_64, aarch64, scalar variants)"]}
{"id": "C15", "title": "fft_with_strategy computes the same transform for every strategy", "statement": "fft_with_strategy(x, s) gives the DFT of x for each s in {Radix2, Radix4, SplitRadix, Auto}.", "quantifier": "every strategy, every length, every input", "why_tests_cant": "Radix4 is only tested on lengths where a wrong digit reversal is harmless or only for Ok-ness", "anchors": ["src/fft.rs: fft_with_strategy, fft_radix4, FftPlanner::plan_strategy"]}
{"id": "C16", "title": "Auto strategy selection", "statement": "plan_strategy(n) is SplitRadix exactly for powers of two greater than one, Auto otherwise, and Auto/Radix2/SplitRadix strategies equal plain fft bit for bit for n>=2 on a fresh transformer.", "quantifier": "every n and input", "why_tests_cant": "all lengths", "anchors": ["src/fft.rs: FftPlanner::plan_strategy, fft_with_strategy"]}
{"id": "C17", "title": "the SIMD backends agree with the scalar one", "statement": "new_fft_impl().fft(x) returns exactly what the scalar implementation returns, for all platforms.", "quantifier": "every platform configuration, every input including lengths 0 and 1", "why_tests_cant": "length 1 is untested; platforms are not all available", "anchors": ["src/fft.rs: new_fft_impl, SimdFftX86_64Impl, SimdFftAarch64Impl, SimdFftWasmImpl, stockham_fft"]}
{"id": "C18", "title": "FftPlan: length check, correctness and history independence", "statement": "A plan for n rejects buffers of any other length with MismatchedLengths without touching them; on buffers of length n>=2 fft is the DFT (for non-Radix4 strategies or f32), ifft its inverse, and results never depend on earlier calls of the same plan.", "quantifier": "every n, strategy, element type, history of calls on the plan", "why_tests_cant": "all histories", "anchors": ["src/fft.rs: FftPlan::new, fft, ifft, fft_out_of_place, ifft_out_of_place, fft_split, ifft_split"]}
{"id": "C19", "title": "mixed-radix entry points and factorisation", "statement": "factorize(n) for n>=1 terminates and returns primes whose product is n; fft_mixed_radix returns the DFT for every n>=1 and EmptyInput for n=0; fft_mixed_radix_with_twiddles does so for n>=2.", "quantifier": "every n, every input", "why_tests_cant": "unbounded n", "anchors": ["src/fft.rs: factorize, fft_mixed_radix, fft_mixed_radix_with_twiddles"]}
{"id": "C20", "title": "stack-only FFT", "statement": "fft_inplace_stack / ifft_inplace_stack on power-of-two N compute the DFT and its inverse in exact arithmetic, return EmptyInput/NonPowerOfTwoNoStd exactly for N=0/non powers of two leaving the buffer unchanged, and never index out of bounds.", "quantifier": "every N, every buffer", "why_tests_cant": "bit reversal must be a permutation for all N", "anchors": ["src/fft.rs: fft_inplace_stack, ifft_inplace_stack"]}
{"id": "C21", "title": "batch and multi-channel transforms are element-wise", "statement": "batch/multi_channel (and inverses) transform every buffer as a fresh transformer would, stop at the first error leaving later buffers untouched.", "quantifier": "every list of buffers", "why_tests_cant": "lists of all lengths and mixed sizes", "anchors": ["src/fft.rs: batch, batch_inverse, multi_channel, multi_channel_inverse"]}
{"id": "C22", "title": "parallel settings never change results", "statement": "ifft gives bit-for-bit the same result whether or not the parallel path is taken, for any thresholds, environment values, overrides and any order in which worker threads process elements.", "quantifier": "every setting, every schedule, every input", "why_tests_cant": "schedules and settings cannot be enumerated", "anchors": ["src/fft.rs: should_parallelize_fft, ScalarFftImpl::ifft, set_parallel_fft_*"]}
{"id": "C23", "title": "parallel tuning knobs behave as documented", "statement": "A nonzero threshold override parallelises exactly when n>=threshold; passing 0 reverts to the built-in heuristic; changing the L1-cache, per-core-work, block-size or thread overrides changes the decision as the documented formula says.", "quantifier": "every n and every combination of settings and environment values", "why_tests_cant": "global settings interact", "anchors": ["src/fft.rs: should_parallelize_fft, parallel_fft_threshold, set_parallel_fft_l1_cache, set_parallel_fft_per_core_work, set_parallel_fft_threads, set_parallel_fft_block_size"]}
{"id": "C24", "title": "rfft is the non-negative half of the DFT", "statement": "rfft of an even-length real signal of length N writes exactly bins 0..N/2 of its DFT (exact arithmetic, fresh transformer); odd N gives InvalidValue, empty EmptyInput, wrong output length MismatchedLengths.", "quantifier": "every even N, every signal", "why_tests_cant": "all sizes", "anchors": ["src/rfft.rs: RfftPlanner::rfft, rfft_with_scratch, rfft_direct, build_twiddle_table"]}
{"id": "C25", "title": "irfft inverts rfft", "statement": "irfft applied to the output of rfft returns the signal (exact arithmetic, fresh transformers). irfft always returns (any arithmetic, any transformer): EmptyInput exactly for an empty output, InvalidValue for an odd one, MismatchedLengths when the spectrum does not have N/2+1 bins, and every error leaves the output as it was.", "quantifier": "every even N, every signal", "why_tests_cant": "all sizes and signals", "anchors": ["src/rfft.rs: RfftPlanner::irfft, irfft_direct"]}
{"id": "C26", "title": "rfft planner history and scratch independence", "statement": "rfft/irfft through a planner return results that depend only on the signal and on the transformer passed in, never on which lengths were planned before or on scratch contents.", "quantifier": "every planner history, every signal, every scratch content, every floating-point semantics", "why_tests_cant": "all histories", "anchors": ["src/rfft.rs: RfftPlanner::get_twiddles, get_pack_twiddles, rfft, irfft"]}
{"id": "C27", "title": "packed, direct and SIMD real kernels agree", "statement": "rfft_packed/irfft_packed return bit for bit the same output as the direct kernels; the AVX/NEON kernels agree with the direct kernel whenever addition and multiplication are commutative, subtracting is adding the negative and complex multiply is not fused.", "quantifier": "every signal, every floating-point semantics", "why_tests_cant": "all inputs", "anchors": ["src/rfft.rs: rfft_packed, irfft_packed, rfft_direct_f32_avx, irfft_direct_f32_avx, rfft_direct_f32_neon"]}
{"id": "C28", "title": "stack-only real FFT", "statement": "rfft_stack writes bins 0..N/2 of the DFT, irfft_stack inverts it, with documented size errors.", "quantifier": "every power-of-two N", "why_tests_cant": "all sizes", "anchors": ["src/rfft.rs: rfft_stack, irfft_stack"]}
{"id": "C29", "title": "2D FFT is the two-dimensional DFT", "statement": "fft2d_inplace on a rows x cols array computes the 2D DFT (exact arithmetic, fresh transformer), rejects wrong sizes with MismatchedLengths without touching data.", "quantifier": "all rows, cols, data", "why_tests_cant": "mixed sizes share one transformer whose buffers are reused", "anchors": ["src/ndfft.rs: fft2d_inplace"]}
{"id": "C30", "title": "3D FFT is the three-dimensional DFT", "statement": "fft3d_inplace computes the 3D DFT (exact arithmetic, fresh transformer), rejects wrong sizes.", "quantifier": "all depth, rows, cols, data", "why_tests_cant": "mixed sizes share one transformer", "anchors": ["src/ndfft.rs: fft3d_inplace"]}
{"id": "C31", "title": "flatten_2d / flatten_3d", "statement": "flatten returns row-major data with flat[(d*rows+r)*cols+c] = data[d][r][c] and the dimensions, or MismatchedLengths exactly when the input is ragged.", "quantifier": "all nested vectors", "why_tests_cant": "all shapes", "anchors": ["src/ndfft.rs: flatten_2d, flatten_3d"]}
{"id": "C32", "title": "stft frames are windowed DFTs", "statement": "stft writes into output[f] the transform of signal[f*hop+i]*window[i] zero padded past the end, for every frame in output; hop 0: InvalidHopSize; fewer than ceil(len/hop) frames: MismatchedLengths.", "quantifier": "all signals, windows, hops, numbers of frames", "why_tests_cant": "all combinations", "anchors": ["src/stft.rs: stft"]}
{"id": "C33", "title": "streaming and parallel STFT equal batch STFT", "statement": "StftStream yields exactly ceil(len/hop) frames equal to those of stft on the same transformer, then false forever; parallel() equals stft with a fresh transformer under any schedule.", "quantifier": "all signals, windows, hops, schedules", "why_tests_cant": "all stream lengths", "anchors": ["src/stft.rs: StftStream::next_frame, parallel, frame"]}
{"id": "C34", "title": "istft is normalised overlap-add", "statement": "istft into a zeroed buffer gives at position p sum_f frame_f[p-f*hop].re*window[p-f*hop] divided by sum of squared windows where that exceeds 1e-8 and undivided elsewhere; errors exactly as documented.", "quantifier": "all frames, windows, hops, output lengths", "why_tests_cant": "all overlaps", "anchors": ["src/stft.rs: istft, inverse_frame"]}
{"id": "C35", "title": "istft inverts stft", "statement": "For every position whose accumulated squared window exceeds 1e-8, istft(stft(x)) returns the signal sample (exact arithmetic, fresh transformer, zeroed output).", "quantifier": "all signals, windows, hops", "why_tests_cant": "depends on every overlap pattern", "anchors": ["src/stft.rs: stft, istft"]}
{"id": "C36", "title": "streaming ISTFT equals batch ISTFT", "statement": "Pushing frames one by one and then flushing returns, concatenated, exactly the samples of the batch istft of the same frames.", "quantifier": "all numbers of frames, window lengths, hops, frame contents, floating-point semantics", "why_tests_cant": "buffer bookkeeping over unbounded streams", "anchors": ["src/stft.rs: IstftStream::push_frame, flush"]}
{"id": "C37", "title": "parallel ISTFT equals batch ISTFT", "statement": "inverse_parallel into a zeroed buffer equals istft wherever the window sum is above the threshold, under any schedule, and is 0 elsewhere.", "quantifier": "all frames, windows, hops, schedules", "why_tests_cant": "all schedules", "anchors": ["src/stft.rs: inverse_parallel"]}
{"id": "C38", "title": "DCT-II and DCT-III are inverse up to n/2", "statement": "dct3(dct2(x)) = (n/2) x and dct2(dct3(x)) = (n/2) x in exact arithmetic.", "quantifier": "every n>=1 and x", "why_tests_cant": "all n", "anchors": ["src/dct.rs: dct2, dct3"]}
{"id": "C39", "title": "DCT-I and DCT-IV are self inverse up to scale", "statement": "dct1(dct1(x)) = 2(n-1) x for n>=2, dct4(dct4(x)) = (n/2) x in exact arithmetic.", "quantifier": "every n and x", "why_tests_cant": "all n", "anchors": ["src/dct.rs: dct1, dct4"]}
{"id": "C40", "title": "planned DCT-II equals the direct one", "statement": "The closure returned by plan_dct2(n) applied to a buffer of length n writes dct2 of it (exact arithmetic), whatever lengths the planner handled before; unequal output length: MismatchedLengths.", "quantifier": "every n, input, planner history", "why_tests_cant": "buffers reused across sizes", "anchors": ["src/dct.rs: DctPlanner::plan_dct2, dct2_with_table, get_cos_table"]}
{"id": "C41", "title": "DST-I and DST-IV are self inverse up to scale; DST-III inverts DST-II", "statement": "dst1(dst1(x)) = ((n+1)/2) x; dst4(dst4(x)) = (n/2) x; dst3(dst2(x)) = c x for a constant c depending on n only (documented).", "quantifier": "every n and x", "why_tests_cant": "all n", "anchors": ["src/dst.rs: dst1, dst2, dst3, dst4"]}
{"id": "C42", "title": "stack DCT/DST equal the heap versions", "statement": "dct1/dct2/dst2/dst3/dst4 stack variants return bit for bit the heap result for N a power of two >= 2 and NonPowerOfTwoNoStd otherwise, leaving output unchanged.", "quantifier": "every N and input, every floating-point semantics", "why_tests_cant": "const generics are instantiated for a few N", "anchors": ["src/dct.rs: dct1_inplace_stack, dct2_inplace_stack", "src/dst.rs: dst2_inplace_stack, dst2_inplace_stack_fft, dst3_inplace_stack_fft, dst4_inplace_stack"]}
{"id": "C43", "title": "DHT is self inverse up to n", "statement": "dht(dht(x)) = n x and dht relates to the DFT by Re - Im, exact arithmetic.", "quantifier": "every n and x", "why_tests_cant": "all n", "anchors": ["src/hartley.rs: dht"]}
{"id": "C44", "title": "CZT evaluates the z-transform on a spiral", "statement": "czt output k = sum_t x[t] * a^(-t) * w^(k t) for a != 0; with a=1, w=exp(-2 pi i/n), m=n it is the DFT; for a=0 every output is x[0].", "quantifier": "every x, m, w, a", "why_tests_cant": "all parameters", "anchors": ["src/czt.rs: czt_f32"]}
{"id": "C45", "title": "Goertzel returns the DFT magnitude", "statement": "In exact arithmetic goertzel returns |X(k)| with k = floor(f*n/sr), and the radicand is never negative; in any arithmetic it errors exactly on empty input or non-positive sample rate. (For floating point see C104.)", "quantifier": "every signal and frequency", "why_tests_cant": "all frequencies including negative and above Nyquist", "anchors": ["src/goertzel.rs: goertzel_f32"]}
{"id": "C46", "title": "analytic signal", "statement": "hilbert_analytic of a power-of-two-length signal has the signal as real part and a spectrum that is zero on negative frequencies, doubled on positive ones; documented errors otherwise.", "quantifier": "every signal", "why_tests_cant": "all sizes", "anchors": ["src/hilbert.rs: hilbert_analytic"]}
{"id": "C47", "title": "real cepstrum", "statement": "real_cepstrum returns the inverse DFT of log(|X|+1e-12), documented errors otherwise; result has the input length.", "quantifier": "every signal", "why_tests_cant": "all sizes", "anchors": ["src/cepstrum.rs: real_cepstrum"]}
{"id": "C48", "title": "mel filterbank and MFCC", "statement": "mel_filterbank returns num_filters energies, never panics, is additive and non-negative for non-negative spectra; mfcc returns num_coeffs values or InvalidValue exactly when num_coeffs > num_mel, and is a prefix of the full coefficient vector.", "quantifier": "every spectrum, rate and counts", "why_tests_cant": "all parameters", "anchors": ["src/cepstrum.rs: mel_filterbank, mfcc, mfcc_batch"]}
{"id": "C49", "title": "Haar round trip", "statement": "haar_inverse(haar_forward(x)) = x for even length (first 2*floor(n/2) samples in general), haar_forward(haar_inverse(a,d)) = (a,d), stack variants equal heap ones.", "quantifier": "every signal", "why_tests_cant": "all lengths", "anchors": ["src/wavelet.rs: haar_forward, haar_inverse, haar_forward_inplace_stack, haar_inverse_inplace_stack"]}
{"id": "C50", "title": "multi-level Haar round trip", "statement": "haar_inverse_multi(haar_forward_multi(x, levels)) starts with x, for every length and number of levels.", "quantifier": "every signal and level count", "why_tests_cant": "odd intermediate lengths", "anchors": ["src/wavelet.rs: multi_level_forward, multi_level_inverse"]}
{"id": "C51", "title": "Daubechies/Symlet/Coiflet reconstruct", "statement": "inverse(forward(x)) equals x away from the boundary for db2, db4, sym4 and coif1 with ideal taps.", "quantifier": "every signal and interior position", "why_tests_cant": "all signals", "anchors": ["src/wavelet.rs: db2_forward, db2_inverse, db4_forward, db4_inverse, sym4_forward, coif1_forward"]}
{"id": "C52", "title": "boundary reflection stays in range", "statement": "index reflection used by the wavelet transforms terminates and yields an index inside the signal, so the forward and inverse transforms never panic or hang.", "quantifier": "every signal length and index", "why_tests_cant": "termination for all lengths", "anchors": ["src/wavelet.rs: reflect closures"]}
{"id": "C53", "title": "window functions: length, range, symmetry", "statement": "hann, hamming, blackman, bartlett, nuttall, tukey, bohman, kaiser return len values in their documented range with the periodic or symmetric property, and stack variants equal heap ones.", "quantifier": "every length and parameter", "why_tests_cant": "all lengths", "anchors": ["src/window.rs: hann, hamming, blackman, kaiser", "src/window_more.rs: tukey, bartlett, bohman, nuttall"]}
{"id": "C54", "title": "Hann overlap-add constancy", "statement": "periodic Hann windows shifted by hop = len/2 (len even) sum to 1 at every position.", "quantifier": "every even length", "why_tests_cant": "all lengths", "anchors": ["src/window.rs: hann"]}
{"id": "C55", "title": "decibel conversion", "statement": "magnitude_to_db(m,max,floor) >= floor, is monotone in m, equals 0 at m=max; db_scale is within [0,1] for every range but 0, and monotone for a positive reference and range; with the range 0 it is NaN at the reference (clamping does not remove it).", "quantifier": "all magnitudes", "why_tests_cant": "all reals", "anchors": ["src/visual/spectrogram.rs: magnitude_to_db, db_scale"]}
{"id": "C56", "title": "colour mapping", "statement": "palettes map into bytes without wrap-around, end points are the documented colours, Gray/Legacy are monotone, and 16-bit colours are 257 times the 8-bit ones.", "quantifier": "all t", "why_tests_cant": "all reals", "anchors": ["src/visual/spectrogram.rs: map_color_u8, map_color_u16, color_from_magnitude_u8"]}
{"id": "C57", "title": "logarithmic bin mapping", "statement": "In exact arithmetic map_bin_to_pixel maps 0..=max_bin into 0..=max_bin monotonically with fixed end points; log_scale_bins never panics for up to max_bin+1 values and returns the average per pixel (in floating point: C106).", "quantifier": "all bins, all values", "why_tests_cant": "all sizes", "anchors": ["src/visual/spectrogram.rs: map_bin_to_pixel, log_scale_bins"]}
{"id": "C58", "title": "stft_magnitudes", "statement": "returns ceil(len/hop) rows of win_len/2 non-negative magnitudes with their maximum; hop 0 is reported as an error.", "quantifier": "all signals, windows, hops", "why_tests_cant": "all parameters", "anchors": ["src/visual/spectrogram.rs: stft_magnitudes, compute_stft"]}
{"id": "C59", "title": "song index identifies by name, then by content", "statement": "After any sequence of index_song/identify calls: identify on a known file name never reads the file and returns the id registered for that name; files with equal content get equal ids; unknown songs are added; two different songs never share an id.", "quantifier": "every sequence of operations and every file system content", "why_tests_cant": "all histories", "anchors": ["src/media/index.rs: SongIndex::index_song, identify"]}
{"id": "C60", "title": "split/interleaved conversions are lossless", "statement": "ComplexVec/SplitComplex conversions to and from interleaved form are mutually inverse and panic exactly when lengths differ.", "quantifier": "all buffers", "why_tests_cant": "all lengths", "anchors": ["src/num.rs: ComplexVec, SplitComplex, copy_from_complex, copy_to_complex"]}
{"id": "C61", "title": "build configuration", "statement": "compute_config enables at most one x86 SIMD level with the strongest available preferred, parallel iff nproc>1 or requested, and keeps the extra features in order.", "quantifier": "all inputs", "why_tests_cant": "string inputs are unbounded", "anchors": ["xtask/src/lib.rs: compute_config"]}
{"id": "C62", "title": "single-frame STFT helpers", "statement": "frame transforms exactly the windowed zero-padded segment at start; inverse_frame adds the windowed real part of the inverse transform at start and touches nothing else; over all frames inverse_frame accumulates the numerator of istft.", "quantifier": "all signals, windows, positions, transformers, floating-point semantics", "why_tests_cant": "all overlaps and buffer lengths", "anchors": ["src/stft.rs: frame, inverse_frame"]}
{"id": "C63", "title": "DST planner tables do not depend on history", "statement": "DstPlanner::plan_dst2/3/4(n) return the same table bit for bit whatever was planned before, namely sin(pi (i+1/2)/n) for types II and IV and sin(pi i/n) for III (exact arithmetic); the scratch slice handed out has exactly the requested length.", "quantifier": "every planner history, length and input, every floating-point semantics", "why_tests_cant": "caches keyed by length under arbitrary call histories", "anchors": ["src/dst.rs: DstPlanner"]}
{"id": "C64", "title": "floating-point accuracy of fft and ifft", "statement": "In any arithmetic whose operations are exact up to a relative error u (integer conversions and kernel constants up to v, sin/cos/table printing up to t, no overflow or underflow), every bin of fft is within (G-1)*w*sum|x| of the exact DFT, ifft within (G*S-1)*w*sum|X|/n of the inverse DFT, and fft followed by ifft within (G^2*S-1)*w^2*sum|x| of the input, where G, S, w are explicit functions of u, v, t, n and the configuration. For 2^K >= 32 points with tables built by rotation this is at most 16*K*2^K*u*sum|x|, with build-time tables at most 50*K*u*sum|x|. In the Euclidean norm the relative error of fft is at most E-1, of ifft E*S-1 and of fft followed by ifft E^2*S-1, with E = G for powers of two above 16 (so at most 50*K*u with build-time tables and 16*K*2^K*u with rotation tables) and E = 1+(G-1)*w*sqrt(n) otherwise.", "quantifier": "all inputs, all lengths, all configurations, all histories of transforms no larger, all rounding behaviours within the error parameters, with fused or unfused multiply-add", "why_tests_cant": "a worst-case bound over all inputs and all lengths", "anchors": ["src/fft.rs: fft, ifft, get_twiddles, stockham_fft, get_bluestein", "src/fft_kernels.rs", "build.rs"]}
{"id": "C65", "title": "double-precision transforms have double-precision accuracy", "statement": "For f64 the error of fft is a modest multiple of 2^-53 * sum|x| for every length.", "quantifier": "all lengths and inputs", "why_tests_cant": "holds or fails only at particular lengths and inputs", "anchors": ["src/fft.rs: get_bluestein (T::from_f32((i*i) as f32))", "src/fft_kernels.rs: fft8, fft16 constants"]}
{"id": "C66", "title": "streaming spectrogram of the web module", "statement": "After any sequence of compute_frame, set_colormap and reset_state calls, compute_frame never panics and returns either nothing or the next row of the spectrogram of all samples received since the last reset: row r covers samples [512r, 512r+1024), bin k coloured relative to the largest magnitude of the earlier rows and of bins 0..k, with the colour map in force; 512 opaque RGBA pixels. With chunks of at most 512 samples the rows returned do not depend on how the samples were split and none is lost or repeated; with larger chunks at most one row per call is returned, so the output falls behind without bound. stft_magnitudes returns the library's magnitudes flattened row by row.", "quantifier": "every history of calls, every chunking, every sample value and floating-point semantics, every back end new_fft_impl may choose", "why_tests_cant": "hidden state (buffer, running maximum, transformer, colour map) under arbitrary call histories", "anchors": ["web-spectrogram/src/lib.rs: State, compute_frame, set_colormap, reset_state, stft_magnitudes"]}
{"id": "C67", "title": "spectrogram image", "statement": "The image tool draws one column per STFT frame (hop of half a window) and one row per bin, low frequencies at the bottom; each pixel has the colour of its bin (or of the averaged bins of its row in log mode) relative to the largest magnitude of the file; the 8-bit image holds exactly the 8-bit colours of the 16-bit image. It never panics for windows of at least two samples, and always panics for shorter ones.", "quantifier": "every signal, window length, palette, dynamic range, scale mode, thread schedule", "why_tests_cant": "index arithmetic over all sizes", "anchors": ["sanity-check/src/main.rs: main", "sanity-check/src/lib.rs: save_png"]}
{"id": "C68", "title": "audio files are read as mono", "statement": "Reading an audio file yields one sample per frame, the average of its channels, independently of how the decoder cuts the stream into packets and of the file format, and no more than the announced number of frames.", "quantifier": "every channel count, packetisation and sample sequence", "why_tests_cant": "all packetisations; false for WAV files with several channels", "anchors": ["sanity-check/src/lib.rs: read_audio, read_wav"]}
{"id": "C69", "title": "the laws of the DFT hold of the calls", "statement": "In exact arithmetic, for every supported length and every transformer not used with larger transforms: fft is linear; it multiplies the energy by n and ifft divides it by n (Parseval); a cyclic shift of the signal multiplies bin k by a phase; modulation shifts the bins; a real signal has a conjugate-symmetric spectrum; an impulse has a flat spectrum; a pure tone fills exactly one bin; fft, pointwise product of the spectra and ifft is circular convolution, and linear convolution when the signals are zero-padded to at least the sum of their lengths minus one.", "quantifier": "all lengths supported by the build, all signals, shifts, frequencies and filters, all transformer histories with no larger transform", "why_tests_cant": "Each law quantifies over pairs of signals and over all lengths (including the chirp path); tests check a few random signals with a tolerance.", "anchors": ["src/fft.rs: fft, ifft", "src/num.rs: Complex::mul"]}
{"id": "C70", "title": "results do not depend on the pointer width", "statement": "A transform gives the same result on 32-bit and 64-bit targets, i.e. wrapping usize arithmetic never reaches the result. (True for lengths up to the square root of the address space and for all powers of two; false for other lengths: on 32-bit targets the chirp index i*i wraps for non-power-of-two lengths above 65536 and the result is wrong; likewise the product i*k of the discrete Hartley transform.)", "quantifier": "all word sizes, all lengths, all inputs, all floating-point arithmetics", "why_tests_cant": "Test machines are 64-bit, and transforms of over 65536 points of non-power-of-two length are not in any test; wrapping is silent in release mode.", "anchors": ["src/hartley.rs: dht", "src/fft.rs: FftPlanner::get_bluestein (line 417)", "src/fft.rs: fft, ifft"]}
{"id": "C71", "title": "updating the benchmark section of a README", "statement": "update_readme replaces exactly the text between the first start marker and the first end marker (plus a newline) by the new table and changes nothing else when the markers come in that order; running it again leaves only the newest table; without both markers the file is not written; if the end marker is first mentioned before the start marker the text from that mention on is duplicated and the file grows on every run.", "quantifier": "all file contents, markers and tables", "why_tests_cant": "File contents are unbounded and the tool has no tests.", "anchors": ["kofft-bench/examples/update_bench_readme.rs: update_readme"]}
{"id": "C72", "title": "floating-point accuracy of the real transforms", "statement": "In any arithmetic whose operations are exact up to a relative error (as in C64), every bin 0..=N/2 written by rfft is within (G*B-1)*2w*sum|x| of the exact DFT bin, every sample written by irfft is within (B*G*S-1)*w*2*sum|X|/m of the inverse DFT of the conjugate-symmetric extension, and rfft followed by irfft on one transformer returns the signal within ((G*B)^2*S-1)*4w^2*sum|x|, where G is the growth of the inner m=N/2 point transform, B that of the bin combination (table by repeated rotation, one product, three roundings), S the scaling; for the direct and the SIMD kernel and whatever the uninitialised scratch holds.", "quantifier": "all rounding arithmetics, all even lengths, all signals and half spectra, both kernels, all transformers used before only with transforms no larger", "why_tests_cant": "Error bounds quantify over all signals, lengths and rounding behaviours.", "anchors": ["src/rfft.rs: rfft_direct", "src/rfft.rs: irfft_direct", "src/rfft.rs: rfft_direct_f32_avx", "src/rfft.rs: build_twiddle_table"]}
{"id": "C73", "title": "floating-point accuracy of the direct cosine, sine and Hartley transforms", "statement": "In any arithmetic whose operations are exact up to a relative error (as in C64), dct1 (at least two samples), dct2, dct3, dct4, dst1, dst2, dst4 and dht return in every sample a value within (D-1)*sum|x| (twice that for dct1 and dht) of the real transform, where D depends only on the length and the unit errors; dst3 is within that bound of the sum it evaluates. To first order D-1 is at most 100*n*eps: the computed angles are not reduced, so the error grows with the length.", "quantifier": "all rounding arithmetics, all lengths, all signals", "why_tests_cant": "Error bounds quantify over all signals, lengths and rounding behaviours.", "anchors": ["src/dct.rs: dct1, dct2, dct3, dct4", "src/dst.rs: dst1, dst2, dst3, dst4", "src/hartley.rs: dht"]}
{"id": "C74", "title": "floating-point accuracy of the short-time transforms", "statement": "In any arithmetic whose operations are exact up to a relative error (as in C64), every bin of every frame written by stft is within ((1+u)*G-1)*w*sum|x*window| of the windowed DFT of its segment, and stft followed by istft with the same window and hop into a zeroed buffer returns every sample at which the accumulated squared window D is safely above 1e-8 (above (1+u)*1e-8 after allowing for its own rounding error) within (R-1)*w^2*S/D, where S sums the magnitudes of the windowed segments covering the sample and R is the growth of two transforms, the scaling, the windowing, the accumulation over the frames and the division.", "quantifier": "all rounding arithmetics, all signals, windows, hop sizes and frame counts, all transformers used before only with transforms no larger", "why_tests_cant": "Error bounds quantify over all signals, lengths and rounding behaviours.", "anchors": ["src/stft.rs: stft", "src/stft.rs: istft"]}
{"id": "C75", "title": "floating-point accuracy of the two- and three-dimensional transforms", "statement": "In any arithmetic whose operations are exact up to a relative error (as in C64), and under the size conditions of C29 and C30, every bin written by fft2d_inplace is within (G_c*G_r-1)*w_r*w_c*sum|x| of the two-dimensional DFT and every bin written by fft3d_inplace within (G_d*G_r*G_c-1)*w_d*w_r*w_c*sum|x| of the three-dimensional DFT, G and w being the growth and weight of the one-dimensional transforms.", "quantifier": "all rounding arithmetics, all array shapes and contents, all transformers used before only with transforms no larger", "why_tests_cant": "Error bounds quantify over all arrays, shapes and rounding behaviours.", "anchors": ["src/ndfft.rs: fft2d_inplace", "src/ndfft.rs: fft3d_inplace"]}
{"id": "C76", "title": "floating-point accuracy of the stack-only transforms", "statement": "In any arithmetic whose operations are exact up to a relative error (as in C64), fft_inplace_stack on 2^K values returns in every bin a value within (G-1)*sum|x| of the DFT, ifft_inplace_stack within (G*(1+u)^2-1)*sum|x|/n of the inverse DFT, the two together return every sample within (G^2*(1+u)^2-1)*sum|x|, and rfft_stack and irfft_stack satisfy the same bounds for the bins 0..=N/2 and for the conjugate-symmetric inverse (twice the sum). G depends only on K and the unit errors, and G-1 <= 40*n*eps when 20*n*eps <= 1: the factors come from repeated rotation, so the error is linear in the length.", "quantifier": "all rounding arithmetics, all power-of-two lengths, all signals", "why_tests_cant": "Error bounds quantify over all signals, lengths and rounding behaviours.", "anchors": ["src/fft.rs: fft_inplace_stack", "src/fft.rs: ifft_inplace_stack", "src/rfft.rs: rfft_stack", "src/rfft.rs: irfft_stack"]}
{"id": "C77", "title": "the xtask runner", "statement": "Each xtask subcommand runs exactly the documented cargo (or wasm-pack) command lines with the computed features; the process ends with the exit code of the last command it ran, with 1 if that was killed by a signal, and with an I/O error if it could not be started; analyze checks the formatting first, runs clippy exactly when the formatting passes and succeeds exactly when both do. The architecture is the ARCH variable when it is more than white space, else the trimmed uname output; the flags are the first lscpu line mentioning them, else the sysctl output.", "quantifier": "all configurations, all outcomes of the started commands depending on what ran before, all environments and tool outputs", "why_tests_cant": "The exit behaviour must hold for every sequence of outcomes of external programs and the detection for every tool output.", "anchors": ["xtask/src/main.rs: main", "xtask/src/lib.rs: detect_arch", "xtask/src/lib.rs: detect_cpu_flags", "xtask/src/lib.rs: detect_config"]}
{"id": "C78", "title": "SIMD back ends keep no history; published twiddle tables", "statement": "Every method of a SIMD back end (fft, ifft, fft_split, ifft_split, the strided and out-of-place strided transforms, fft_with_strategy) returns, whatever was computed before, bit for bit what a new scalar transformer returns for the same call, so in exact arithmetic it is the DFT; the only exception is length 1, where fft and fft_split panic. TwiddleFactorBuffer::new(n).get(k) is exp(-2 pi i k/n) for k < n/2, to within an error that does not grow with n; for n/2 <= k < n and even n it has the opposite sign; it panics exactly for n < 2.", "quantifier": "all back ends, prior states, lengths, strides, buffers, strategies; all n and k; all rounding arithmetics", "why_tests_cant": "Independence from the history is a statement about all call sequences; the error bound about all n, k and all arithmetics.", "anchors": ["src/fft.rs: SimdFftX86_64Impl", "src/fft.rs: SimdFftAarch64Impl", "src/fft.rs: SimdFftWasmImpl", "src/fft.rs: FftImpl::fft_split", "src/fft.rs: TwiddleFactorBuffer"]}
{"id": "C79", "title": "exactly when a used transformer is still correct", "statement": "On f32/f64, for a power of two n above 16, a transformer computes the DFT of every input of length n if and only if no larger internal size was used before. Once an fft of any length m has succeeded, no sequence of later calls repairs it: for every power of two n with 16 < n < (internal size of m) some input of length n gets a success with a wrong result. For every sequence of successful fft and ifft calls with lengths ms on a new transformer, every element type and every accepted length n (power of two or not): afterwards fft (and likewise ifft) is right for every input of length n if and only if every m in ms has an internal size no larger than that of n, or one of n, m is a power of two and the internal size of n is at most 16 or the element type is not f32/f64; a length n that is not a power of two stays spoilt whatever is called later. Likewise a batch (forward or inverse) of any accepted lengths is right for all data if and only if no earlier length and no preceding length of the batch spoils a later one in that sense. fft2d_inplace on a new transformer, for every accepted number of rows and columns and every element type, is the two-dimensional DFT for all data if and only if the column length is not spoilt, in the above sense, by the row length.", "quantifier": "all histories of public calls before and after, all sizes, all inputs, all contents of the first buffer, exact arithmetic", "why_tests_cant": "It is an exact characterisation over all call histories and inputs; a test shows one wrong run.", "anchors": ["src/fft.rs: ScalarFftImpl::fft", "src/fft.rs: ScalarFftImpl::stockham_fft", "src/fft.rs: batch", "src/ndfft.rs: fft2d_inplace"]}
{"id": "C80", "title": "what the radix-4 strategy computes", "statement": "On every length 4^k, after any history, fft_radix4 succeeds and returns the DFT of a fixed rearrangement of its input (one permutation of the indices per length). For k >= 2 the rearrangement is never the identity: with std, the Radix4 strategy and Radix4 plans (other than f32) return, for the impulse in the middle, the spectrum of the impulse at index 2, on every such length.", "quantifier": "all k, inputs, histories, configurations, exact arithmetic", "why_tests_cant": "A test shows one wrong length; the permutation statement is for all lengths and inputs.", "anchors": ["src/fft.rs: ScalarFftImpl::fft_radix4", "src/fft.rs: fft_with_strategy", "src/fft.rs: FftPlan::fft"]}
{"id": "C81", "title": "accuracy of the derived transforms", "statement": "In rounding arithmetic: every bin of the chirp Z-transform, every sample of the analytic signal (power-of-two length), every output of a planned DCT-II (planner with any history), every sample returned by the Haar transform followed by its inverse, and every sample of the Hann and Hamming windows differs from the exact value by at most an explicit bound in the unit roundoff and the length.", "quantifier": "all signals, lengths, spirals, planner histories, arithmetics with relative error u", "why_tests_cant": "Rounding errors depend on the data and the length; a bound for all of them is not a finite check.", "anchors": ["src/czt.rs: czt_f32", "src/hilbert.rs: hilbert_analytic", "src/dct.rs: DctPlanner::plan_dct2", "src/wavelet.rs: haar_forward, haar_inverse", "src/window.rs: hann, hamming"]}
{"id": "C82", "title": "sizes near the limit of usize are handled like any others", "statement": "Calls whose sizes and strides come near the limit of the machine word behave as on unbounded integers: the size checks of the strided, two- and three-dimensional transforms reject what does not fit the buffer, and the frame positions of stft, istft and the streaming transform never overflow. (True whenever the last index fits in a word, and always for the streaming transform and for stft with no more frames than the signal needs. False otherwise: in release mode the products in the size checks wrap, so an absurd shape panics on an index instead of reporting MismatchedLengths - it never returns Ok - and surplus frames of stft/istft with a huge hop wrap back into the signal.)", "quantifier": "all word sizes, with and without overflow checks, all shapes, strides, hops, buffers, transformer histories", "why_tests_cant": "Overflowing shapes are never allocated in tests, behaviour differs between debug and release profiles, and wrapped products coincide with valid sizes only for particular shapes.", "anchors": ["src/fft.rs: fft_strided, ifft_strided", "src/ndfft.rs: fft2d_inplace, fft3d_inplace", "src/stft.rs: stft, istft, StftStream::next_frame"]}
{"id": "C83", "title": "Linear relations between inputs carry over exactly to the outputs", "statement": "Take any relation between numbers that linear operations preserve (it relates zero to zero and goes through addition, subtraction, negation, multiplication of the data by a constant, fused multiply-add, halving and the division of overlap-add). Two sessions with new transformers that make the same calls on data so related (transforms, split, strided, batches, radix-4 and strategies, 2-D and 3-D, real FFT, short-time transforms) end the same way, return the same results, and every number in every buffer is related to its counterpart; likewise the cosine, sine, Hartley and wavelet transforms, the chirp Z-transform, the analytic signal, the streams and the parallel short-time transforms. Consequences: scaling all data by a power of two scales every output by exactly that power, without one rounding differing (away from overflow and underflow); all-zero data give exactly zero outputs; in exact arithmetic every scalar may be taken out.", "quantifier": "all linear relations, all arithmetics, all configurations, all sequences of calls of all lengths with all data", "why_tests_cant": "a test scales a few signals; the claim concerns every intermediate rounding of every call after every history", "anchors": ["src/fft.rs: fft, ifft, fft_split, ifft_split, fft_strided, fft_radix4, fft_with_strategy, batch", "src/ndfft.rs: fft2d_inplace, fft3d_inplace", "src/rfft.rs: rfft_with_scratch, irfft_with_scratch", "src/stft.rs: stft, istft, StftStream, IstftStream, parallel, inverse_parallel", "src/dct.rs", "src/dst.rs", "src/hartley.rs", "src/wavelet.rs", "src/czt.rs", "src/hilbert.rs"]}
{"id": "C84", "title": "Success, failure and panic are decided by sizes alone", "statement": "Whether a call returns Ok, which error it returns, whether it panics, and the lengths of the buffers it leaves never depend on the numbers in the data (infinities and NaNs included): two sessions with the same calls on data of the same lengths end the same way with the same results call by call. The same holds for the cosine, sine and Hartley transforms.", "quantifier": "all arithmetics, all configurations, all sequences of calls, all pairs of data sets of equal lengths", "why_tests_cant": "a value-dependent failure (a NaN reaching a comparison, a zero divisor, a rounding that changes an index) would only show for particular numbers after a particular history", "anchors": ["src/fft.rs: fft, ifft, fft_split, fft_strided, fft_radix4, fft_with_strategy", "src/ndfft.rs", "src/rfft.rs", "src/stft.rs", "src/dct.rs", "src/dst.rs", "src/hartley.rs"]}
{"id": "C85", "title": "Transforms of moderate finite data neither overflow nor lose accuracy to underflow", "statement": "In floating-point arithmetic with a bounded exponent range (overflow gives a non-finite value, underflow is gradual), `fft` and `ifft` of finite samples whose magnitudes sum to less than the largest finite number divided by an explicit factor return Ok with only finite outputs, on any transformer used before with transforms no larger; every output is within an explicit relative error of the exact (inverse) DFT plus an explicit multiple of the underflow threshold. For f32 and 2^K points, 5 <= K <= 16: data summing to at most 2^125 stay finite, with an error of at most 16 K 2^K 2^-23 times the sum of the magnitudes (plus 2^K 2^-100). Without the room outputs are lost: two samples whose sum exceeds the largest number make the first of two bins non-finite; and for every length that is not a power of two, an impulse between 0.7 and 0.9 of the largest number, whose exact transform is that finite number in every bin, comes back as Ok with every bin non-finite (if the accumulated rounding error up to the product of spectra is small).", "quantifier": "all arithmetics meeting the IEEE-style model (binary32 and binary64 shown to), all configurations, all lengths up to 2^31, all finite data with enough room, all histories with transforms no larger", "why_tests_cant": "overflow of one intermediate value or a subnormal intermediate result happens only for particular magnitudes at particular positions; tests use values near 1", "anchors": ["src/fft.rs: fft, ifft, fft_bluestein, stockham_fft, fft2, fft4, fft8, fft16"]}
{"id": "C86", "title": "A NaN or infinity in the input shows in every output, and can spoil later transforms", "statement": "In an arithmetic where a finite sum, difference, product, negation or multiply-add has finite operands and a finite quotient a finite dividend (IEEE 754), a single non-finite input sample makes every bin of a successful fft, ifft and rfft, every output pair of irfft, every output of dct1-4, dst1-4 and dht, and every bin of every stft frame covering it non-finite (even where the window is zero), and likewise every element of a two- or three-dimensional transform, every sample of the analytic signal and both parts of every point of the chirp Z-transform: non-finite data are never silently turned into finite results. The converse of isolation fails: after a power-of-two fft of more than 16 samples with a non-finite sample on an f32/f64 transformer, every later fft of a smaller power-of-two length above 16 on it returns only non-finite bins, whatever its input, until one at least as long as the first is run.", "quantifier": "all such arithmetics (binary32/binary64 with lost results shown to be one), all configurations, lengths, positions of the bad sample, transformer histories, and all sequences of later smaller transforms", "why_tests_cant": "the bad sample can be at any position of any length and propagates through different kernels; spoiling needs a particular order of calls on one transformer", "anchors": ["src/fft.rs: fft, ifft, stockham_fft, fft_bluestein, fft2, fft4, fft8, fft16", "src/rfft.rs: rfft, irfft", "src/stft.rs: stft", "src/dct.rs, dst.rs, hartley.rs", "src/ndfft.rs: fft2d_inplace, fft3d_inplace", "src/hilbert.rs: hilbert_analytic", "src/czt.rs: czt_f32"]}
{"id": "C87", "title": "Memory kept by planners does not grow with the number of calls; that of an inverse stream does", "statement": "Whatever sequence of calls it has served, a transformer keeps at most 51*S+12 scalars in its buffers and cached tables together, where S is the sum of the distinct transform lengths used; a real-FFT planner at most 6*S+2040 (S over half lengths), a DCT planner at most 11*S+2042, a DST planner at most 4*S. So a long-running program that uses a fixed set of lengths uses bounded memory. The inverse stream has no such bound: after F accepted frames its two buffers hold exactly win_len + hop*max(2,F) samples each, so a stream that is fed forever exhausts memory although it only needs win_len samples.", "quantifier": "all finite sets of lengths, all sequences of calls of all public methods with those lengths (failing ones included), all data and arithmetics; for the stream all windows, hops, interleavings of pushes, rejected pushes and flushes, and every bound", "why_tests_cant": "growth only shows over an unbounded number of calls, and a cache or buffer could grow on a particular interleaving of lengths and entry points only", "anchors": ["src/fft.rs: FftPlanner, ScalarFftImpl (get_twiddles, get_bluestein, stockham_fft, fft_split_simd, fft_strided_alloc, fft_out_of_place_strided)", "src/rfft.rs: RfftPlanner", "src/dct.rs: DctPlanner", "src/dst.rs: DstPlanner", "src/stft.rs: IstftStream::push_frame"]}
{"id": "C88", "title": "Short-time and wavelet transforms are local", "statement": "Bit for bit, in every arithmetic: a frame of stft depends only on the samples its window covers (and on the window) - not on the other samples, the length of the signal, the hop, the number or contents of the output buffers, or on earlier transforms no larger; dropping the first hop of the signal drops the first frame and changes nothing else; StftStream never looks ahead of the current window; an output sample of istft depends only on what the buffer held there and on the frames covering it; a Haar coefficient pair depends on its two samples only, and Daubechies-2/4, Symlet-4 and Coiflet-1 coefficients on 4, 8, 8 and 6 consecutive samples away from the end.", "quantifier": "all pairs of signals (or frame lists) that agree where it matters, of any lengths, all windows, hops, positions, transformers and their histories, all arithmetics", "why_tests_cant": "independence of the rest of the input is a statement about all pairs of inputs; a test compares a few", "anchors": ["src/stft.rs: stft, StftStream::next_frame, istft", "src/wavelet.rs: haar_forward, db2_forward, db4_forward, sym4_forward, coif1_forward"]}
{"id": "C89", "title": "The unsafe code never uses an invalid pointer", "statement": "A call of fft, ifft, fft_split or ifft_split never reads or writes through a reference or raw pointer that the aliasing rules of Rust have invalidated, nor outside the array a pointer was made from, whatever the length. (False in general: by both published rule sets, Stacked Borrows and Tree Borrows, transforms of f32/f64 data of length 2^k, or padded to 2^k, are free of violations exactly if k <= 4 or k is even; for element types of the caller's own Stacked Borrows is violated for every 2^k > 16; and the parallel branch of ifft violates both for every length from 2 on. All accesses, the unchecked ones included, stay inside their arrays, without exception.)", "quantifier": "all lengths, all element types, all SIMD widths, forward and inverse, sequential and parallel, interleaved and split layout; every array the call touches", "why_tests_cant": "a use of an invalidated pointer usually computes the right result in a given build; the rules only license the compiler to miscompile it, and a checker such as Miri sees only the lengths it is run on", "anchors": ["src/fft.rs: stockham_fft_with_threshold, fft_split_simd, ScalarFftImpl::fft, ScalarFftImpl::ifft, fft_split, ifft_split"]}
{"id": "C90", "title": "Uninitialised memory never reaches a result", "statement": "rfft, irfft, fft_strided_alloc and ifft_strided_alloc work in scratch memory that has never been written. Whatever that memory holds, the call returns the same result, writes the same output, bit for bit, and leaves the transformer in the same state - for rfft/irfft with every implementation of the complex transform, for the strided calls on every back end in the library; and the strided calls of the SIMD back ends return what a new scalar transformer returns.", "quantifier": "all contents of the uninitialised memory, all inputs and output buffers (valid or not), all strides, all back ends and transformer states, all arithmetics (also ones with trap or poison values)", "why_tests_cant": "what uninitialised memory holds is up to the allocator; a test sees one content, typically zeros or the leftovers of the previous call", "anchors": ["src/rfft.rs: RealFftImpl::rfft, RealFftImpl::irfft", "src/fft.rs: FftImpl::fft_strided_alloc, FftImpl::ifft_strided_alloc"]}
{"id": "C91", "title": "An abandoned call leaves a usable transformer", "statement": "If a call is abandoned at any instant - a panic (an element operation that panics, a failed allocation) unwinds out of it and is caught - the transformer stays usable: after any session of calls, each finished or abandoned anywhere, every further method call returns (stockham_fft of one element excepted, which always panics), and fft and ifft return exactly what they return on a new transformer - hence the DFT and its inverse - provided no call of the session, finished or abandoned, used a larger internal size.", "quantifier": "all sessions of fft, ifft, stockham_fft, fft_radix4, fft_with_strategy, split, strided and out-of-place strided calls on one ScalarFftImpl, all instants at which each is abandoned, all inputs, all arithmetics, all element types and build features", "why_tests_cant": "the instants at which a call can be abandoned and the sessions before it are unbounded; each leaves other caches and buffers behind", "anchors": ["src/fft.rs: ScalarFftImpl, FftPlanner, ScalarFftImpl::stockham_fft, fft_split_simd, FftImpl::fft, FftImpl::ifft, fft_radix4"]}
{"id": "C92", "title": "The unchecked references to the planner never overlap", "statement": "A transformer hands itself mutable references to its planner without any run-time check. Whatever calls are made one after the other on whatever transformers in whatever states, at no instant are two references to the same planner alive, and none outlives its call (the temporary transformer inside get_bluestein has its own planner) - provided operations of the element type do not call back into the transformer. Tables are computed once: after a transform of some length, forward or inverse, a further one of that length runs no element operation while the reference is alive. The proviso is necessary: the first power-of-two transform above 16 of a user-defined element type runs element operations while the reference is alive, and an operation that calls the same transformer - safe code - makes a second one.", "quantifier": "all sequences of calls of all methods on any number of transformers, all planner states, inputs, element types and build features, every instant of each call", "why_tests_cant": "aliasing of references has no observable effect in a run; Miri sees only the paths a test takes", "anchors": ["src/fft.rs: ScalarFftImpl, planner_mut, FftPlanner::get_twiddles, FftPlanner::get_bluestein, stockham_fft_with_threshold, fft_split_simd, FftImpl for ScalarFftImpl, fft_radix4"]}
{"id": "C93", "title": "The spectrogram example does what its usage line says, for every command line and file", "statement": "The spectrogram example never panics. It prints its usage and exits with status 1 exactly when the command line does not name exactly two files: --floor and --palette take the next word as their value, whatever it is and wherever they stand, and every other word is a file name. Otherwise it returns an error exactly when the first file cannot be opened or one of its samples cannot be decoded; otherwise it saves to the second file an image with one column per half window of 512 samples (rounded up) and 512 rows, low frequencies at the bottom, in which each pixel has the colour of its own magnitude (samples divided by 32767, Hann window of 1024) relative to the largest one, for the last readable --floor (default -120 dB) and the last --palette (default fire). A file without samples gives an image of width 0.", "quantifier": "all command lines, all file contents (any number of samples, unreadable files and samples), all element arithmetics, schedules and build features", "why_tests_cant": "command lines and sample counts are unbounded; the example's own tests never run main", "anchors": ["examples/spectrogram.rs: main", "src/visual/spectrogram.rs: stft_magnitudes, color_from_magnitude_u8, Colormap::parse"]}
{"id": "C94", "title": "Parallel settings shared by threads: honoured, environment read once, results unaffected", "statement": "The parallel settings are process-wide and may be changed by any thread at any time. For every interleaving of setter calls, environment changes, fft calls and ifft calls: an ifft call that begins after the last setter call decides about the parallel path exactly as a single-threaded program with the overrides then in force would (C23), however its reads interleave with those of other calls; once some call has decided, later changes of the environment variables, the processor count or the clock have no effect on any decision; and whatever is decided, the result is bit for bit that of the sequential path. The guarantee does not extend to calls that overlap with setter calls: each setting is a cell of its own, so such a call may decide by a combination of settings that was never in force (which affects speed only).", "quantifier": "all sequences of setter calls, environment changes and accesses of any number of concurrent fft and ifft calls; all lengths and inputs; with and without std", "why_tests_cant": "the interleavings of concurrent calls are unbounded and tests cannot force them; the cells that remember the environment are filled once per process", "anchors": ["src/fft.rs: PARALLEL_FFT_* cells (51-75), set_parallel_fft_* (175-208), parallel_fft_threshold, should_parallelize_fft, ScalarFftImpl::ifft"]}
{"id": "C95", "title": "Operation counts: fft takes O(n log n) arithmetic operations for every length, the direct transforms n²", "statement": "For every length n (with std; powers of two without), fft of n elements computes its result with at most 245·n·log2 n arithmetic operations (additions, multiplications, fused operations, sines, ...), tables included; for n = 2^k at most 5·2^k·k + 3·2^k + 5, and only 5·2^k·k once the transformer has done that length before; for other lengths at most 60n(log2 n + 2) + 62n + 6, and 40n(log2 n + 2) + 55n + 6 when repeated. ifft needs at most 250·n·log2 n, the real transforms of n samples at most 125 and 130·n·log2 n, goertzel of n samples at most 3n + 15. The cosine and sine transforms dct2, dct4, dst1, dst2, dst4 are computed directly: at most 9n² operations, and for independent inputs no way of obtaining exactly these results takes fewer than n². Counted are distinct operations of the element type that contribute to the outputs; repeating the very same operation on the same operands counts once, index arithmetic and memory traffic are not counted.", "quantifier": "all lengths, inputs, configurations; every history of a transformer consisting of successful calls of internal size no larger than the present one", "why_tests_cant": "complexity is a statement about all lengths; timing tests depend on the machine and on the lengths tried, and a fallback to quadratic time at some lengths is easily missed", "anchors": ["src/fft.rs: ScalarFftImpl::fft, ifft, stockham_fft, bluestein", "src/rfft.rs: rfft, irfft", "src/dct.rs, src/dst.rs, src/goertzel.rs"]}
{"id": "C96", "title": "Deciding about the parallel path on machine words", "statement": "In a build with the parallel feature, fft and ifft decide about the parallel path without panicking, and as documented (C23), on every target, for every setting and however long the calibration copy takes. (True on 64-bit targets as long as the products of the settings fit in a word, and on every target when KOFFT_PAR_FFT_THRESHOLD is set. False otherwise: the calibration multiplies 131072 by 10^9, so on a 32-bit target with overflow checks every fft of more than eight elements other than sixteen and every ifft of more than one panics; in release it wraps. Huge settings overflow on 64-bit targets too: asking for 2^63 elements per core panics in debug and, in release, sends every ifft down the parallel path. What does not panic returns exactly the sequential result.)", "quantifier": "all word sizes, with and without overflow checks, all environment variables, overrides, processor counts and calibration times; all lengths, inputs and transformer histories", "why_tests_cant": "tests run on one target and profile, with one set of environment variables per process; overflowing settings are not tried", "anchors": ["src/fft.rs: calibrated_per_core_work, parallel_fft_threshold, should_parallelize_fft, ScalarFftImpl::fft, ScalarFftImpl::ifft"]}
{"id": "C97", "title": "The allocation figures of the benchmark under every schedule", "statement": "After reset_alloc, however the threads of the process interleave their allocations and frees and whatever stale values the relaxed loads return, once no thread is inside the allocator alloc_stats returns the number of blocks allocated since the reset and the largest number of bytes in use at one time since then; no thread ever blocks, and a thread retries only when another one has raised the peak. (The peak is wrong when memory allocated before the reset is freed after it: the byte counter wraps below zero, and the next smaller allocation reports a peak near 2^64. What is reported is characterised exactly for every schedule.)", "quantifier": "all numbers of threads, all sequences of allocations and frees, all interleavings of the atomic operations and all stale reads allowed by coherence, all word sizes", "why_tests_cant": "the compare-exchange loop fails only under rare interleavings; a test sees one schedule", "anchors": ["kofft-bench/benches/bench_fft.rs: CountingAllocator, update_peak, reset_alloc, alloc_stats"]}
{"id": "C98", "title": "Benchmark results are reported faithfully and never lost", "statement": "save_results writes the measurements of the run, and nothing else, sorted by transform, size and time; each is compared with the same measurement of the previous file; exactly those that no rival beat are marked best. The previous results are kept in previous.json, and wherever a run is stopped the last readable results are still in one of the two files. (Holds as long as renaming works and no duration is measured as zero. A zero duration makes the rate infinite, which is written as null and cannot be read back: the next run overwrites that file and compares with nothing. If the rename fails, the error is ignored and the good file overwritten in place.)", "quantifier": "all measurements, all previous contents of the two files, all histories of runs, each stopped at any point", "why_tests_cant": "loss needs a crash between two particular system calls or a clock that did not advance; the order and the marks must be right for every list of results", "anchors": ["kofft-bench/benches/bench_fft.rs: save_results, BenchFile, BenchRecord, EnvInfo"]}
{"id": "C99", "title": "The README updater shows the results of the last benchmark", "statement": "update_bench_readme replaces the section between the markers of benchmarks/README.md by a table with a line for each result in benchmarks/latest.json, in order. (False: it requires the keys _os and _peak_bytes, while the benchmark writes os and peak_bytes, so it fails on every file the benchmark writes and never changes the README. On files with the keys it wants the claim holds.)", "quantifier": "all results files, all README texts", "why_tests_cant": "the claim is about every file the benchmark can write and every README", "anchors": ["kofft-bench/examples/update_bench_readme.rs: main, update_readme, BenchFile, EnvInfo, BenchRecord", "kofft-bench/benches/bench_fft.rs: BenchFile, EnvInfo, BenchRecord"]}
{"id": "C100", "title": "Real transforms of finite data stay finite", "statement": "In IEEE-like arithmetic with a bounded exponent range, rfft of finite real samples and irfft of finite bins, of any supported length and with either kernel, return only finite numbers as long as the sum of the magnitudes leaves a stated room below the largest number; each result is within a stated relative error of the exact (inverse) DFT plus a stated absolute error for underflow.", "quantifier": "all finite inputs with room below the largest number, all lengths, both kernels, any uninitialised scratch, all transformers used before only with transforms no larger, all arithmetics meeting the error bounds", "why_tests_cant": "overflow and underflow depend on every intermediate value of every input; tests sample a few magnitudes", "anchors": ["src/rfft.rs: RfftPlanner::rfft, RfftPlanner::irfft, RealFftNum, rfft_direct, irfft_direct, build_twiddle_table"]}
{"id": "C101", "title": "Short-time and multi-dimensional transforms of finite data stay finite", "statement": "In IEEE-like arithmetic with a bounded exponent range, stft of a finite signal with a finite window succeeds, and every frame whose windowed samples leave a stated room below the largest number contains only finite numbers; the same holds for fft2d and fft3d on finite data (under the size conditions of C29 and C30). Each bin is within a stated relative error of the exact transform plus a stated absolute error for underflow.", "quantifier": "all finite signals, windows, hops and arrays with room below the largest number, all supported sizes, all transformers used before only with transforms no larger, all arithmetics meeting the error bounds", "why_tests_cant": "overflow and underflow depend on every intermediate value of every pass for every input; tests sample a few magnitudes", "anchors": ["src/stft.rs: stft", "src/ndfft.rs: fft2d_inplace, fft3d_inplace"]}
{"id": "C102", "title": "The SVG export shows the 8-bit image", "statement": "The SVG written for an image has a view box of the image's size and exactly one rectangle per pixel, one unit wide and high, at the pixel's coordinates; its fill is a CSS colour #rrggbb that denotes exactly the pixel the 8-bit PNG of the same image holds.", "quantifier": "every image size and every 16-bit pixel content", "why_tests_cant": "all sizes and all 2^48 colours; the existing test only looks for the svg tag", "anchors": ["sanity-check/src/lib.rs: save_svg, save_png"]}
{"id": "C103", "title": "Audio containers: end of stream, resets, failures", "statement": "Reading a file whose extension is not wav (in any case) returns the packets up to the end of the stream joined in order and mixed down, cut to the announced number of frames, with the announced sample rate; requests to reset the decoder change nothing and nothing after the end of the stream is looked at. Any other failure of the reader, or of the decoder on a single packet, makes the whole call fail. The call panics if a packet is longer than the room of the first one or has fewer channels than announced. A wav file is read by the WAV reader alone; without sample rate or channel count the file is refused.", "quantifier": "every sequence of answers of the container reader and decoder, every packetisation, channel count, frame count and extension", "why_tests_cant": "all packetisations and all places where a failure can occur; the panics need a decoder whose packets grow", "anchors": ["sanity-check/src/lib.rs: read_audio, read_wav"]}
{"id": "C104", "title": "Goertzel in floating point: error bound, NaN for ordinary input, the bin below", "statement": "In floating point with rounding unit u the value under goertzel_f32's square root differs from the squared magnitude of the signal's transform at the bin the function computes by at most 12 n^2 e (sum |x|)^2, e a small multiple of the rounding errors, as long as n(n+1)e <= 1; so it is positive when the magnitude exceeds that. It can be negative otherwise: in every 24-bit arithmetic that rounds to nearest, however ties are broken, the two-sample signal [11863283, -11863279] at frequency 0 makes the function take the square root of -33554432, i.e. return NaN, although nothing overflows and the exact magnitude is 4. And because the bin is found by rounding down, the f32 nearest to the frequency of a bin can select the bin below: for 205 samples at 8000 Hz the frequencies of bins 28 and 29 give the same answer for every signal.", "quantifier": "every signal length (within the stated limit), every signal, frequency and sample rate; every arithmetic meeting the rounding model", "why_tests_cant": "an error bound ranges over all signals; the NaN occurs for about one in 10^5 inputs where the true magnitude is tiny", "anchors": ["src/goertzel.rs: goertzel_f32"]}
{"id": "C105", "title": "Windows in floating point: square roots, range, length one", "statement": "After rounding to nearest, however ties are broken, the Kaiser window of any length from 2 on never takes the square root of a negative number, and the Bartlett window stays between 0 and 1 as long as its length is representable. The Bartlett, Bohman, Nuttall and Kaiser windows of length 1 consist of one value that is not finite (0/0).", "quantifier": "every length and sample, every precision and tie-breaking rule; every arithmetic where division by zero is not finite", "why_tests_cant": "all lengths, also those where the index is no longer exactly representable; all roundings", "anchors": ["src/window.rs: kaiser, bessel0", "src/window_more.rs: bartlett, bohman, nuttall"]}
{"id": "C106", "title": "Logarithmic frequency axis in floating point: no panic; the top row of 128 bins is empty", "statement": "After rounding to nearest, however ties are broken, with a logarithm that is monotone up to a small relative error, map_bin_to_pixel maps every bin up to max_bin to a pixel up to max_bin, bin 0 to pixel 0 and max_bin to max_bin or max_bin - 1, so log_scale_bins never panics on up to max_bin + 1 values and the image tool never panics in log mode, as long as twice max_bin is representable and the error is small against 1/max_bin. Unlike in exact arithmetic the top end is not fixed: in f32 with the logarithm of 128 correctly rounded, bin 127 of 128 is drawn on pixel 126, so the last value of log_scale_bins is always 0, and the top row of a logarithmic image from 256-sample windows always has the colour of magnitude 0.", "quantifier": "every bin and max_bin, every precision and tie-breaking rule; every spectrum; every sound", "why_tests_cant": "a panic would need one particular size for which rounding crosses an integer; all sizes; all logarithm implementations", "anchors": ["src/visual/spectrogram.rs: map_bin_to_pixel, log_scale_bins", "sanity-check/src/main.rs"]}
{"id": "C107", "title": "Cosine, sine and Hartley transforms, mel energies, MFCC, cepstra, analytic signals, wavelets and the chirp Z-transform of moderate data are finite", "statement": "In arithmetic with a bounded exponent range (rounding, gradual underflow, overflow), finite input never produces an infinity or a NaN as long as the magnitudes leave room: the eight cosine and sine transforms and the Hartley transform return finite outputs when (1+u)^n (7 sum|x| + 4n) and 400 n^2 are below the largest number; mel_filterbank of finite magnitudes that are not negative returns finite energies that are not negative, and mfcc finite coefficients, at every sample rate, even zero, negative, infinite or NaN; real_cepstrum and hilbert_analytic of a power of two of samples are finite when the square of the spectrum (for the analytic signal: the spectrum) leaves room. For f32: up to 65536 samples whose magnitudes sum to at most 2^125 (trigonometric, MFCC), 2^60 (cepstrum), 2^100 (analytic signal). The analysis functions of all five wavelets (Haar, db2, db4, sym4, coif1) return finite coefficients: for f32, for any number of samples of magnitude at most 2^120, and over up to 20 levels of magnitude at most 2^50; their synthesis functions return finite samples, for f32 for up to 8192 pairs of coefficients of magnitude at most 2^100. Haar synthesis over several levels, when it returns, returns samples of magnitude at most (2(1+u))^levels times the largest coefficient. The chirp Z-transform of finite samples returns finite bins when the powers of the ratio and of the inverse starting point leave room: for f32, with starting point 1 and a ratio of magnitude at most 1 + 2^-22, for n samples of magnitude at most 2^100 and m bins with n (m + 2) < 2^20.", "quantifier": "every length, every finite signal within the stated size, every sample rate, every arithmetic with the stated error bounds", "why_tests_cant": "overflow, a negative argument of the logarithm or a NaN in an intermediate value could occur for one particular signal or length only", "anchors": ["src/dct.rs", "src/dst.rs", "src/hartley.rs", "src/cepstrum.rs: real_cepstrum, mel_filterbank, mfcc", "src/hilbert.rs: hilbert_analytic", "src/wavelet.rs", "src/czt.rs"]}
{"id": "C108", "title": "Mel filter edges, mel energies, MFCC and cepstra are accurate in rounded arithmetic", "statement": "In arithmetic whose operations have relative error u, conversions v, and library functions (sqrt, ln, log10, pow) w: every filter edge that mel_filterbank uses lies within a stated number of bins of the exact edge 700(10^x-1)(n+1)/sr, so that for f32, 8 to 192 kHz and up to 65536 magnitudes it is off by at most one bin; each energy differs from the triangular sum over those bins by at most a relative error of about n+5 roundings (of the sum of absolute values, so a true relative error for magnitudes); mfcc differs from the cosine transform of the logarithms of those sums plus 1e-12, and real_cepstrum of a power of two of samples from the inverse Fourier transform of ln(|X|+1e-12), by at most an explicit bound that tends to zero with u, v, w.", "quantifier": "every signal and length, every number of filters and coefficients, every sample rate, every arithmetic with the stated error bounds", "why_tests_cant": "rounding errors depend on all the bits of the data; cancellation in the edge frequency or in the logarithm of a small number could strike for one input only", "anchors": ["src/cepstrum.rs: real_cepstrum, mel_filterbank, mfcc"]}
{"id": "C109", "title": "Spectrogram magnitudes, decibels and colours in rounded arithmetic: right up to one unit per colour component", "statement": "In floating point with at least 20 bits, rounding to nearest, and a log10 with a relative error of at most 1e-5: color_from_magnitude_u8 (any magnitude and reference, floor of at most -1 dB) and the palette applied to db_scale (any magnitude, positive reference, range of at least 1 dB) return, for the palettes fire, legacy, gray and rainbow, a colour whose every component differs by at most one from the colour in exact arithmetic; magnitude_to_db is within 42u dB plus a relative error u+2w; db_scale lies in [0,1], within 42u/range+4u+2w; at and above the reference the result is exactly the last colour, at zero exactly the first; on the grey palette a larger magnitude is never darker (if log10 is monotone); each value of stft_magnitudes is the modulus of the Hann-windowed DFT up to an explicit multiple of the sum of the absolute values of the samples under the window, and the second result is exactly the largest returned value.", "quantifier": "every magnitude, reference, floor or range, palette, signal, window length, hop, schedule; every such arithmetic", "why_tests_cant": "a colour differing by more than one step, a brighter pixel for a smaller magnitude or a wrong end colour could occur for one particular bit pattern near a stop or an integer", "anchors": ["src/visual/spectrogram.rs: stft_magnitudes, magnitude_to_db, db_scale, map_color_u8, lerp_u8, rainbow_color_u8, color_from_magnitude_u8"]}
{"id": "C110", "title": "The spectrogram image in rounded arithmetic against the exact image", "statement": "Rendering the same samples (linear frequency scale, palettes fire, legacy, gray and rainbow, range of at least 1 dB) in floating point with at least 20 bits and in exact arithmetic gives images of the same size, and the pixels of frame x and bin y differ in each 8-bit component by at most 3/2 + 70000 e/range, where e is the error bound of the magnitudes divided by the exact magnitude of the bin (or, for fainter bins, by the magnitude range decibels below the largest): one unit when e is at most range/150000. In single precision with precomputed tables, windows of 32 to 1024 samples and a range of at least 50 dB this makes every pixel with a magnitude of at least an eighth of the largest sum of absolute sample values under a window right up to one unit per component. A file whose largest magnitude exceeds the error bound has a pixel in exactly the last colour; a silent file gives exactly the first colour everywhere, on either scale.", "quantifier": "every file, window length, palette, dynamic range, thread schedule of either run, and every such arithmetic", "why_tests_cant": "the image depends on every sample and on the rounding of thousands of operations per pixel; a test compares a few files", "anchors": ["sanity-check/src/main.rs: main", "src/visual/spectrogram.rs: stft_magnitudes, color_from_magnitude_u16", "sanity-check/src/lib.rs: save_png"]}
{"id": "C111", "title": "Operation counts of the derived transforms", "statement": "The floating-point operations needed for the results, each evaluated once, are at most: 2n for one level of the Haar analysis of n samples, 4(n + levels) for any number of levels, 2n for the inverse to n samples (so linear however many levels); F(245 n log2 n + n + 8) for a short-time transform of F frames with a window of n, F(250 n log2 n + 4n) + N for its inverse into N samples; 8n^2 for the Hartley transform; 22nm + 6m + 6 for the chirp z-transform of n samples at m points; 495 n log2 n + 2n + 8 for the analytic signal and 495 n log2 n + 6n + 8 for the real cepstrum; 245 R C (log2 R + log2 C) + 8 (R + C) for a two-dimensional R by C transform and the corresponding count in three dimensions; 2 L n for one level of analysis with any filters of L taps and 4 L m for one level of synthesis from m pairs (7 n and 16 m for db2), 4 L (n + levels) for any number of levels of it (14 (n + levels) for db2) and 4 L n for their synthesis to n samples.", "quantifier": "every input length, number of levels, frames and points, every configuration, and (for the short-time transform) every planner history through transforms no larger than the window", "why_tests_cant": "a benchmark measures a few sizes on one machine; the growth rate is a statement about all sizes", "anchors": ["src/wavelet.rs: haar_forward, haar_inverse, haar_forward_multi, haar_inverse_multi", "src/stft.rs: stft, istft", "src/hartley.rs: dht", "src/czt.rs: czt_f32", "src/hilbert.rs: hilbert_analytic", "src/cepstrum.rs: real_cepstrum", "src/ndfft.rs: fft2d_inplace, fft3d_inplace", "src/wavelet.rs: db2_forward, db2_inverse"]}
{"id": "C112", "title": "The Haar transform in floating point: integer samples are lossless, any samples are accurate", "statement": "In exact arithmetic the approximation after L levels consists of the means of the blocks of 2^L samples and the details of level j of half the differences of the means of the two halves of each block of 2^(j+1). With p bits and rounding to nearest, for integer samples of at most B units (at any power-of-two scale) and 2^L B <= 2^p, every coefficient of L levels is exactly that value and the inverse returns exactly the samples: 16-bit audio in single precision through nine levels. The condition is sharp: whenever 2^L B > 2^p there are such samples with an inexact coefficient. For arbitrary samples of size at most M and unit roundoff u, coefficients of level j are within ((1+u)^(2j) - 1) M of the exact ones and the inverse returns every sample within ((1+u)^L (1 + (L+1)((1+u)^(2L) - 1)) - 1) M.", "quantifier": "every signal, number of levels, precision, scale, and every rounding to nearest however ties are broken", "why_tests_cant": "losslessness is a statement about every signal of a given bit depth; a test tries a few", "anchors": ["src/wavelet.rs: haar_forward, haar_inverse, multi_level_forward, multi_level_inverse"]}
{"id": "C113", "title": "Cosine, sine and Hartley transforms there and back in rounded arithmetic", "statement": "In rounding arithmetic (unit roundoff u, conversions accurate to v, cos and sin to t) dct3 after dct2, dct2 after dct3, dct4 twice, dct1 twice, dst1 twice, dst4 twice and dht twice return the n/2, n/2, n/2, 2(n-1), (n+1)/2, n/2 and n fold of every sample with an error of at most (g^2 - 1) n S (four times that for dct1 and dht), where S is the sum of the absolute samples and g = directGrowth(u,v,t,n); g^2 - 1 is at most 210 n e when all accuracies are e and n e <= 1/1000.", "quantifier": "every input (at least two samples for dct1) and every arithmetic obeying the standard model of rounding", "why_tests_cant": "a bound on the error of every input and length", "anchors": ["src/dct.rs: dct1, dct2, dct3, dct4", "src/dst.rs: dst1, dst4", "src/hartley.rs: dht"]}
{"id": "C114", "title": "The Kaiser window against the true Bessel function", "statement": "For a shape |beta| <= 14 the Kaiser window is the textbook window I0(beta sqrt(1-r^2))/I0(beta) with the true (infinite) series of I0: to a relative 2^-24 in exact arithmetic at every length, and in rounded arithmetic (rounding to nearest, accuracy u, square root to w) at lengths 2..1025 to a relative kaiserGrowth(u,w,beta)-1, below 1/20000 in binary32. For |beta| >= 21 the powers in the series overflow binary32: at every odd length 3..1025 kaiser returns a window whose middle sample is not a number.", "quantifier": "every length, shape and arithmetic in the stated ranges", "why_tests_cant": "compares a truncated, rounded series with an infinite one for every shape and length; overflow for every large shape", "anchors": ["src/window.rs: kaiser, bessel0"]}
{"id": "C115", "title": "Blackman, Nuttall, Bohman and Bartlett windows in rounded arithmetic", "statement": "In rounding arithmetic (unit roundoff u, cos and sin accurate to t, integers up to the length exact) every sample of the Blackman and Nuttall windows is within windowsGrowth(u,t)-1 of its cosine sum, every sample of the Bohman window of the source within three times that of its formula, and every sample of the Bartlett window within 4 (c^5/(2-(1+u)^2) - 1), c = 1/(1-u), of the triangle 2 min(i, len-1-i)/(len-1); with u = t = e <= 1/10000 these are at most 200 e, 600 e and 40 e, whatever the length.", "quantifier": "every length (at least two, one for blackman), sample and arithmetic obeying the standard model of rounding", "why_tests_cant": "a bound on the error of every sample of every length", "anchors": ["src/window.rs: blackman", "src/window_more.rs: bartlett, bohman, nuttall"]}
{"id": "C116", "title": "Impulses and constant signals are transformed without rounding error", "statement": "For every power-of-two length n and every sample that is a floating-point number, fft of the impulse (the sample, then zeros) puts exactly the sample in every bin, fft of the constant signal puts exactly n times the sample in bin 0 and exactly zero in every other bin, and ifft of either spectrum gives back exactly the signal; in f32 and f64, with or without FMA, SIMD and precomputed tables, also on a planner already used for transforms that need no more working memory. (Overflow and underflow left out; the two zeros compared as equal.)", "quantifier": "every power-of-two length, representable complex sample, configuration and planner history of the stated kind, and arithmetic that is exact where the result is representable (whatever the rounding direction)", "why_tests_cant": "exact equality for every length and every sample; tests compare a few lengths with a tolerance", "anchors": ["src/fft.rs: fft, ifft, stockham_fft, FftPlanner::get_twiddles", "src/fft_kernels.rs: fft2, fft4, fft8, fft16", "build.rs"]}
{"id": "C117", "title": "Bins 0 and n/2 are exact for integer signals and exactly real for real signals", "statement": "For every power-of-two length n >= 2 in floating-point arithmetic: bins 0 and n/2 of fft of a real signal have imaginary part exactly zero; for complex samples with integer parts whose magnitudes add up to less than 2^p (p the number of significant bits) bin 0 is exactly the sum and bin n/2 exactly the alternating sum; the same holds of rfft for integer samples (n >= 4); and a transform of length 4 of such samples has no rounding error in any bin. With or without FMA, SIMD and precomputed tables, also on a planner already used for transforms that need no more working memory.", "quantifier": "every power-of-two length, signal of the stated kind, configuration, planner history of the stated kind, and arithmetic that is exact where the result is representable", "why_tests_cant": "exact equality for every length and signal; tests compare with a tolerance", "anchors": ["src/fft.rs: fft, stockham_fft", "src/fft_kernels.rs: fft2, fft4, fft8, fft16", "src/rfft.rs: rfft_direct"]}
{"id": "C118", "title": "Constant and impulse arrays are transformed without rounding error in two and three dimensions", "statement": "For power-of-two sizes in floating-point arithmetic, fft2d of a constant image puts exactly rows*cols times the value in the first bin and exactly zero in every other bin, fft2d of an image whose only non-zero pixel is the corner puts exactly that pixel in every bin, and fft3d of a constant volume puts exactly depth*rows*cols times the value in the first bin and exactly zero elsewhere (sizes for which leftovers of earlier passes do not matter, see C29 and C30).", "quantifier": "every power-of-two shape of the stated kind, representable value, configuration, planner history of the stated kind, and arithmetic that is exact where the result is representable", "why_tests_cant": "exact equality for every shape and value; tests compare with a tolerance", "anchors": ["src/ndfft.rs: fft2d_inplace, fft3d_inplace", "src/fft.rs: fft, fft_strided"]}
{"id": "C119", "title": "The laws of the DFT in rounded arithmetic; integer polynomials are multiplied exactly", "statement": "In floating-point arithmetic the computed spectrum has sqrt(n) times the norm of the signal, that of a real signal is conjugate symmetric, and transforming a sum agrees with adding the transforms, all up to the relative error of the transform. Fast convolution (fft both, multiply the spectra, ifft) differs from the true circular or zero-padded linear convolution by at most (g^3 (1+m) s - 1) sqrt(n) |a||b|, where g, m, s are the growth factors of one transform, one complex product and the final scaling. With build-time tables and 32 to 1024 points this is 200 log2(n) u sqrt(n) |a||b|, so whenever that is below one half, rounding the result of convolving integer sequences to the nearest integers gives exactly the coefficients of the product polynomial (in binary64: 512 coefficients up to 10000).", "quantifier": "every length the build supports, signal, configuration, planner history of the stated kind, and arithmetic with relative rounding error u", "why_tests_cant": "the bound holds for every pair of signals and every rounding; tests compare a few convolutions with a tolerance", "anchors": ["src/fft.rs: fft, ifft", "src/num.rs: Complex::mul", "build.rs: tables"]}
{"id": "C120", "title": "Integer samples survive fft and ifft: rounding gives them back exactly", "statement": "If the samples are integers of absolute value at most M, then fft followed by ifft on the same transformer, with the result rounded to the nearest integers, returns exactly the samples whenever the relative error bound times sqrt(n) M is below one half; with build-time tables and 32 to 1024 points it is enough that 102 log2(n) u sqrt(n) M < 1/2 (8-bit samples at 1024 points in binary32), with rotation tables that 33 n log2(n) u sqrt(n) M < 1/2 (16-bit samples at 65536 points in binary64). For the stack-only transforms 90 n u n M < 1/2 is enough (8-bit samples at 16 points in binary32).", "quantifier": "every supported length, integer signal within the bound, configuration, planner history of the stated kind, and arithmetic with relative rounding error u", "why_tests_cant": "bit-exact recovery for every integer signal of a size; tests try a few signals", "anchors": ["src/fft.rs: fft, ifft, fft_inplace_stack, ifft_inplace_stack", "build.rs: tables"]}
{"id": "C121", "title": "The web page draws every frame and bin where it belongs (canvas renderer)", "statement": "On a canvas without WebGL the page writes every pixel of the image exactly once with an opaque colour: column x, row y from the top shows bin y of frame x, in the colour the library assigns to its magnitude relative to the loudest one with a floor of -80 dB and the rainbow palette, for every selected file. The page's own decibel function is the library's with a floor of -240 dB.", "quantifier": "every sample sequence, image size, magnitude array, colour function, order of the parallel frames", "why_tests_cant": "tests draw one image of two pixels", "anchors": ["web-spectrogram/app.mjs: drawSpectrogramCanvas, magnitudeToDb, initApp", "web-spectrogram/src/lib.rs: stft_magnitudes, color_from_magnitude_u8"]}
{"id": "C122", "title": "The WebGL renderer shows the same picture as the canvas renderer", "statement": "For every spectrogram the WebGL renderer shows the same value at every pixel as the canvas renderer, at the same level and in the same colour. (Only the palettes agree: at equal levels the library's bytes are the shader's components times 255 rounded down. The WebGL pixel in column x, row y shows array element (height-1-y)*width+x instead of x*height+y, so the pictures agree for all data exactly for images of one row; and the shader uses the natural logarithm, so the levels agree exactly at full scale or above and at 80 dB below or under.)", "quantifier": "every image size, magnitude array, pixel, pair of magnitudes, level", "why_tests_cant": "the WebGL test runs on stubs that draw nothing; the claim is about every pixel of every image", "anchors": ["web-spectrogram/app.mjs: drawSpectrogramWebGL, drawSpectrogramCanvas", "src/visual/spectrogram.rs: color_from_magnitude_u8, rainbow_color_u8"]}
{"id": "C123", "title": "The service worker makes the page available off line and up to date", "statement": "After installation the page works without the network, and with the network the page gets current files. (Proved: after any history the four listed files are answered from the last successful installation and every other address is passed on, so the listed files do work off line; but updates are never seen until the worker is installed again, and the WebAssembly module is never available off line.)", "quantifier": "every history of installations and requests, every behaviour of the network at each event, every address", "why_tests_cant": "no test runs the worker; the claim is about every history", "anchors": ["web-spectrogram/sw.js: install, fetch handlers"]}
{"id": "C124", "title": "The examples compute what they say", "statement": "In the DCT example the planned transform, the naive transform and the library's DCT-II give bit-identical results for every input, when the plan was made for its length; the pipeline of the embedded example returns the windowed signal with bins 4 and above attenuated to a tenth, transformed back to time. (The first half is proved; a plan for a shorter length leaves later outputs zero unnoticed. The second is false: the step marked as the inverse is a second forward transform, so the result is n times the filtered signal reversed in time, and the first sample is right only if it is zero.)", "quantifier": "every arithmetic and input sequence for the DCT; every window and power-of-two signal for the pipeline", "why_tests_cant": "examples are only compiled; a run prints one literal signal", "anchors": ["examples/dct_usage.rs: dct2_naive, Dct2Planner", "examples/embedded_example.rs: main, step 6", "src/fft.rs: fft_inplace_stack", "src/dct.rs: dct2"]}
{"id": "C125", "title": "Repeated round trips drift at most geometrically", "statement": "Transforming a buffer there and back m times on one transformer always succeeds, returns the signal exactly in exact arithmetic, and in rounded arithmetic changes it by at most (G^m - 1) times its norm, where G - 1 is the error bound of one round trip; while m(G-1) is at most 1 that is at most 2m(G-1), i.e. linear in the number of trips (closed forms for both kinds of tables). Integer samples are recovered by rounding once at the end. The same holds for the stack-only and the real transforms.", "quantifier": "every number of trips, supported length, usable transformer, signal, arithmetic with bounded rounding error", "why_tests_cant": "a test repeats ten trips on four samples; the claim is for every number of trips, length and signal", "anchors": ["src/fft.rs: fft, ifft, fft_inplace_stack, ifft_inplace_stack", "src/rfft.rs: rfft_with_scratch, irfft_with_scratch", "src/lib.rs: test_fft_roundtrip_repeated"]}
{"id": "C126", "title": "PCM audio survives the real and the short-time transforms losslessly", "statement": "Integer samples bounded by M that go through rfft and irfft, or through stft and istft with a window bounded by B, are recovered exactly by rounding to the nearest integer, at every sample where the accumulated squared window is at least d, as long as the error bound is below one half; with build-time tables, windows of 2^K samples (32 to 1024), c hops per window and N frames the condition is (113 K u + 4 (N+3) u) c 2^K M B^2 / d < 1/2. With the library's own Hann window and at least two hops per window every sample from the first full overlap on is recovered if (113 K u + 4 (N+3) u) 32 2^K M < 1/2, which ten minutes of 16-bit audio meet in double precision.", "quantifier": "every integer signal, window, hop, number of frames, usable transformer, arithmetic with bounded rounding error meeting the condition", "why_tests_cant": "tests compare a few samples with a tolerance; the claim is bit-exact recovery for every recording", "anchors": ["src/stft.rs: stft, istft", "src/rfft.rs: rfft_with_scratch, irfft_with_scratch"]}
{"id": "C127", "title": "The different ways to the same spectrum agree in rounded arithmetic", "statement": "The spectra of the same samples computed by two builds (feature flags, vector lanes, build-time or run-time tables, single or double precision) with two transformers of any history differ in the Euclidean norm by at most the sum of the two error bounds times the norm of the spectrum; the same for the inverse transform, for the stack-only transform against fft, for the real transform against fft of the same real signal (with either the heap or the stack version), and for the Hartley transform against real part minus imaginary part of fft.", "quantifier": "every length the transformers support, every signal, every two builds and histories, every two arithmetics with bounded rounding error", "why_tests_cant": "tests compare the implementations on a few signals of a few lengths with one build", "anchors": ["src/fft.rs: fft, ifft, fft_inplace_stack", "src/rfft.rs: rfft_with_scratch, rfft_stack", "src/hartley.rs: dht"]}
{"id": "C128", "title": "The Daubechies-2 transform in rounded arithmetic; 16-bit audio is recovered", "statement": "db2_inverse after db2_forward in floating-point arithmetic of unit roundoff u returns every interior sample (from the third to the fourth last) up to (2.8((1+u)^10-1) + 10^-15) times the largest sample, for signals of any length; integer samples bounded by M with that bound below one half are recovered exactly by rounding to the nearest integer, in particular every recording of 16-bit samples in single precision. Over L levels on 2^L m samples the same holds from sample 2^(L+1)-2 to sample n-1-3*2^(L-1), with the error growing by a factor 2.8 per level.", "quantifier": "every signal, every length, every arithmetic with bounded rounding error", "why_tests_cant": "tests compare a few samples with a tolerance", "anchors": ["src/wavelet.rs: db2_forward, db2_inverse, multi_level_forward, multi_level_inverse"]}
