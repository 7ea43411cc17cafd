{
 "claims": [
  {
   "property": "C01",
   "status": "proved",
   "theorems": [
    "Kofft.Props.fft_pow2_is_dft"
   ],
   "note": "exact arithmetic"
  },
  {
   "property": "C02",
   "status": "proved",
   "theorems": [
    "Kofft.Props.fft_is_dft",
    "Kofft.Props.fft_is_dft_used"
   ],
   "note": "exact arithmetic, std"
  },
  {
   "property": "C03",
   "status": "proved",
   "theorems": [
    "Kofft.Props.ifft_is_idft",
    "Kofft.Props.ifft_fft_id",
    "Kofft.Props.fft_ifft_id"
   ],
   "note": ""
  },
  {
   "property": "C04",
   "status": "proved",
   "theorems": [
    "Kofft.Props.fft_total",
    "Kofft.Props.ifft_total"
   ],
   "note": ""
  },
  {
   "property": "C05",
   "status": "partial",
   "theorems": [
    "Kofft.Props.fft_history_independent_partial",
    "Kofft.Props.fft_history_dependent"
   ],
   "note": "false in general (stale split buffers): negation proved, and the claim proved for histories without larger transforms"
  },
  {
   "property": "C06",
   "status": "proved",
   "theorems": [
    "Kofft.Props.fft_used_exact",
    "Kofft.Props.fft_depends_only_on_leftovers"
   ],
   "note": "The cases with the fresh result: fft_used_exact with no leftovers, and fft_history_independent_partial (C05)."
  },
  {
   "property": "C07",
   "status": "proved",
   "theorems": [
    "Kofft.Props.twiddles_correct",
    "Kofft.Props.twiddles_cache_transparent"
   ],
   "note": ""
  },
  {
   "property": "C08",
   "status": "proved",
   "theorems": [
    "Kofft.Props.precomputed_same",
    "Kofft.Props.precomputed_same_fft"
   ],
   "note": ""
  },
  {
   "property": "C09",
   "status": "proved",
   "theorems": [
    "Kofft.Props.out_of_place_spec",
    "Kofft.Props.vec_spec"
   ],
   "note": ""
  },
  {
   "property": "C10",
   "status": "proved",
   "theorems": [
    "Kofft.Props.strided_errors",
    "Kofft.Props.strided_spec",
    "Kofft.Props.strided_scratch_irrelevant"
   ],
   "note": ""
  },
  {
   "property": "C11",
   "status": "proved",
   "theorems": [
    "Kofft.Props.strided_alloc_eq"
   ],
   "note": ""
  },
  {
   "property": "C12",
   "status": "proved",
   "theorems": [
    "Kofft.Props.oop_strided_errors",
    "Kofft.Props.oop_strided_spec"
   ],
   "note": ""
  },
  {
   "property": "C13",
   "status": "proved",
   "theorems": [
    "Kofft.Props.split_mismatch",
    "Kofft.Props.fft_split_eq",
    "Kofft.Props.ifft_split_eq",
    "Kofft.Props.ifft_split_is_idft"
   ],
   "note": ""
  },
  {
   "property": "C14",
   "status": "proved",
   "theorems": [
    "Kofft.Props.lanes_irrelevant",
    "Kofft.Props.lanes_irrelevant_split"
   ],
   "note": ""
  },
  {
   "property": "C15",
   "status": "partial",
   "theorems": [
    "Kofft.Props.strategy_is_dft_partial",
    "Kofft.Props.strategy_total",
    "Kofft.Props.radix4_wrong",
    "Kofft.Props.radix4_always_wrong",
    "Kofft.Props.radix4_rearranged"
   ],
   "note": "false for Radix4 with std on lengths 4^k, k>=2: negation proved (radix4_wrong); proved for everything else"
  },
  {
   "property": "C16",
   "status": "proved",
   "theorems": [
    "Kofft.Props.plan_strategy_spec",
    "Kofft.Props.strategy_same_as_fft"
   ],
   "note": ""
  },
  {
   "property": "C17",
   "status": "partial",
   "theorems": [
    "Kofft.Props.backend_fft_same_partial",
    "Kofft.Props.backend_ifft_same",
    "Kofft.Props.simd_stateless",
    "Kofft.Props.simd_len1_panics",
    "Kofft.Props.backend_len1_iff"
   ],
   "note": "false at length 1 (panic): negation proved"
  },
  {
   "property": "C18",
   "status": "partial",
   "theorems": [
    "Kofft.Props.plan_rejects",
    "Kofft.Props.plan_out_of_place",
    "Kofft.Props.plan_history_independent",
    "Kofft.Props.plan_eq_fft",
    "Kofft.Props.plan_fft_is_dft_partial",
    "Kofft.Props.plan_ifft_is_idft_partial",
    "Kofft.Props.plan_split",
    "Kofft.Props.plan_len1_panics",
    "Kofft.Props.plan_radix4_wrong",
    "Kofft.Props.plan_radix4_always_wrong"
   ],
   "note": "length check and history independence proved in full; DFT fails for f32 Radix2/Radix4 plans of length 1 (panic) and for f64 Radix4 plans of length 4^k, k>=2: negations proved"
  },
  {
   "property": "C19",
   "status": "proved",
   "theorems": [
    "Kofft.Props.factorize_spec",
    "Kofft.Props.factorize_terminates",
    "Kofft.Props.factorize_zero_hangs",
    "Kofft.Props.mixed_radix_same",
    "Kofft.Props.mixed_radix_is_dft",
    "Kofft.Props.mixed_radix_tw_same",
    "Kofft.Props.mixed_radix_tw_small"
   ],
   "note": ""
  },
  {
   "property": "C20",
   "status": "proved",
   "theorems": [
    "Kofft.Props.fft_stack_is_dft",
    "Kofft.Props.ifft_stack_is_idft",
    "Kofft.Props.stack_errors",
    "Kofft.Props.stack_round_trip"
   ],
   "note": "exact arithmetic for the DFT; errors and totality in any arithmetic"
  },
  {
   "property": "C21",
   "status": "partial",
   "theorems": [
    "Kofft.Props.batch_spec_partial",
    "Kofft.Props.batch_total",
    "Kofft.Props.batch_mixed_wrong"
   ],
   "note": "false when a larger buffer precedes a smaller one (negation proved); proved for non-decreasing internal sizes; totality and error behaviour proved in full"
  },
  {
   "property": "C22",
   "status": "proved",
   "theorems": [
    "Kofft.Props.parallel_same"
   ],
   "note": "schedules as orders of independent updates"
  },
  {
   "property": "C23",
   "status": "partial",
   "theorems": [
    "Kofft.Props.threshold_override",
    "Kofft.Props.threshold_revert",
    "Kofft.Props.heuristic_partial",
    "Kofft.Props.knobs_ignored",
    "Kofft.Props.knobs_documented_false",
    "Kofft.Props.nostd_heuristic",
    "Kofft.Props.std_heuristic"
   ],
   "note": "true without std (nostd_heuristic); with std the non-threshold overrides have no effect unless KOFFT_PAR_FFT_THREADS=0: negation proved, exact decision in std_heuristic"
  },
  {
   "property": "C24",
   "status": "proved",
   "theorems": [
    "Kofft.Props.rfft_is_half_dft",
    "Kofft.Props.rfft_total"
   ],
   "note": "std, or N/2 a power of two"
  },
  {
   "property": "C25",
   "status": "proved",
   "theorems": [
    "Kofft.Props.irfft_is_inverse_dft",
    "Kofft.Props.irfft_rfft_id",
    "Kofft.Props.irfft_total"
   ],
   "note": ""
  },
  {
   "property": "C26",
   "status": "proved",
   "theorems": [
    "Kofft.Props.rfft_planner_transparent",
    "Kofft.Props.irfft_planner_transparent",
    "Kofft.Props.rfft_tables",
    "Kofft.Props.rfft_short_scratch"
   ],
   "note": ""
  },
  {
   "property": "C27",
   "status": "proved",
   "theorems": [
    "Kofft.Props.rfft_packed_same",
    "Kofft.Props.irfft_packed_same",
    "Kofft.Props.rfft_simd_same"
   ],
   "note": ""
  },
  {
   "property": "C28",
   "status": "proved",
   "theorems": [
    "Kofft.Props.rfft_stack_is_half_dft",
    "Kofft.Props.irfft_stack_is_inverse_dft",
    "Kofft.Props.stack_real_round_trip",
    "Kofft.Props.rfft_stack_errors",
    "Kofft.Props.irfft_stack_errors"
   ],
   "note": ""
  },
  {
   "property": "C29",
   "status": "partial",
   "theorems": [
    "Kofft.Props.fft2d_total",
    "Kofft.Props.fft2d_is_dft_partial",
    "Kofft.Props.fft2d_not_dft",
    "Kofft.Props.fft2d_history_partial"
   ],
   "note": "False as stated for fewer rows than columns on f32/f64 (fft2d_not_dft); proved whenever the column transforms cannot see leftovers of the row transforms; totality and error codes proved in full."
  },
  {
   "property": "C30",
   "status": "partial",
   "theorems": [
    "Kofft.Props.fft3d_total",
    "Kofft.Props.fft3d_is_dft_partial",
    "Kofft.Props.fft3d_not_dft",
    "Kofft.Props.fft3d_history_partial"
   ],
   "note": "False as stated for decreasing sizes on f32/f64 (fft3d_not_dft); proved whenever no pass can see leftovers of an earlier pass; totality and error codes proved in full."
  },
  {
   "property": "C31",
   "status": "proved",
   "theorems": [
    "Kofft.Props.flatten2d_ok",
    "Kofft.Props.flatten2d_error",
    "Kofft.Props.flatten2d_nil",
    "Kofft.Props.flatten3d_ok",
    "Kofft.Props.flatten3d_error"
   ],
   "note": ""
  },
  {
   "property": "C32",
   "status": "proved",
   "theorems": [
    "Kofft.Props.stft_transforms_segments",
    "Kofft.Props.stft_frames_fresh",
    "Kofft.Props.stft_is_windowed_dft",
    "Kofft.Props.stft_total"
   ],
   "note": ""
  },
  {
   "property": "C33",
   "status": "proved",
   "theorems": [
    "Kofft.Props.stream_transforms_segments",
    "Kofft.Props.stream_eq_batch",
    "Kofft.Props.stream_end",
    "Kofft.Props.parallel_eq_batch",
    "Kofft.Props.parallel_total"
   ],
   "note": "schedules as orders of independent frames"
  },
  {
   "property": "C34",
   "status": "proved",
   "theorems": [
    "Kofft.Props.istft_bit_exact",
    "Kofft.Props.istft_is_overlap_add",
    "Kofft.Props.istft_total"
   ],
   "note": ""
  },
  {
   "property": "C35",
   "status": "proved",
   "theorems": [
    "Kofft.Props.istft_stft_reconstructs"
   ],
   "note": "exact arithmetic"
  },
  {
   "property": "C36",
   "status": "partial",
   "theorems": [
    "Kofft.Props.istft_stream_eq_batch_partial",
    "Kofft.Props.istft_stream_empty",
    "Kofft.Props.istft_stream_never_panics",
    "Kofft.Props.istft_stream_panics"
   ],
   "note": "proved bit for bit for hop <= win_len <= window.len(); false for hop > win_len (third push panics): negation proved"
  },
  {
   "property": "C37",
   "status": "proved",
   "theorems": [
    "Kofft.Props.istft_parallel_value",
    "Kofft.Props.istft_parallel_eq_batch",
    "Kofft.Props.istft_parallel_short_frame",
    "Kofft.Props.istft_parallel_error",
    "Kofft.Props.istft_parallel_schedule",
    "Kofft.Props.istft_parallel_schedule_error",
    "Kofft.Props.istft_parallel_schedule_eq_batch"
   ],
   "note": ""
  },
  {
   "property": "C38",
   "status": "proved",
   "theorems": [
    "Kofft.Props.dct2_spec",
    "Kofft.Props.dct3_spec",
    "Kofft.Props.dct3_dct2",
    "Kofft.Props.dct2_dct3"
   ],
   "note": "exact arithmetic"
  },
  {
   "property": "C39",
   "status": "proved",
   "theorems": [
    "Kofft.Props.dct1_spec",
    "Kofft.Props.dct4_spec",
    "Kofft.Props.dct1_dct1",
    "Kofft.Props.dct1_small",
    "Kofft.Props.dct4_dct4"
   ],
   "note": "exact arithmetic"
  },
  {
   "property": "C40",
   "status": "proved",
   "theorems": [
    "Kofft.Props.plan_dct2_exact",
    "Kofft.Props.plan_dct2_errors",
    "Kofft.Props.plan_dct2_longer_panics"
   ],
   "note": "exactness in exact arithmetic with std or a power-of-two length (else the closure reports NonPowerOfTwoNoStd); errors in any arithmetic"
  },
  {
   "property": "C41",
   "status": "partial",
   "theorems": [
    "Kofft.Props.dst1_spec",
    "Kofft.Props.dst2_spec",
    "Kofft.Props.dst3_spec",
    "Kofft.Props.dst4_spec",
    "Kofft.Props.dst1_dst1",
    "Kofft.Props.dst4_dst4",
    "Kofft.Props.dst3_dst2_partial",
    "Kofft.Props.dst3_not_inverse"
   ],
   "note": "dst3 after dst2 is no multiple of the identity for any n>=2: negation proved; exact value of dst3(dst2 x) proved; the DST-I and DST-IV parts proved in full"
  },
  {
   "property": "C42",
   "status": "proved",
   "theorems": [
    "Kofft.Props.trig_stack",
    "Kofft.Props.trig_total",
    "Kofft.Props.trig_batch"
   ],
   "note": ""
  },
  {
   "property": "C43",
   "status": "proved",
   "theorems": [
    "Kofft.Props.dht_spec",
    "Kofft.Props.dht_dht",
    "Kofft.Props.dht_dft"
   ],
   "note": "exact arithmetic"
  },
  {
   "property": "C44",
   "status": "proved",
   "theorems": [
    "Kofft.Props.czt_spec",
    "Kofft.Props.czt_zero_start",
    "Kofft.Props.czt_dft"
   ],
   "note": "exact arithmetic"
  },
  {
   "property": "C45",
   "status": "proved",
   "theorems": [
    "Kofft.Props.goertzel_spec",
    "Kofft.Props.goertzel_dft",
    "Kofft.Props.goertzel_errors",
    "Kofft.Props.goertzel_radicand_nonneg"
   ],
   "note": "exact arithmetic; errors in any arithmetic; floating point: C104"
  },
  {
   "property": "C46",
   "status": "proved",
   "theorems": [
    "Kofft.Props.hilbert_spec",
    "Kofft.Props.hilbert_errors"
   ],
   "note": "exact arithmetic; errors and totality in any arithmetic"
  },
  {
   "property": "C47",
   "status": "proved",
   "theorems": [
    "Kofft.Props.cepstrum_spec",
    "Kofft.Props.cepstrum_errors"
   ],
   "note": "exact arithmetic; errors and totality in any arithmetic"
  },
  {
   "property": "C48",
   "status": "proved",
   "theorems": [
    "Kofft.Props.mel_total",
    "Kofft.Props.mel_spec",
    "Kofft.Props.mel_nonneg",
    "Kofft.Props.mel_linear",
    "Kofft.Props.mel_edges",
    "Kofft.Props.mel_upper_half_ignored",
    "Kofft.Props.mfcc_total",
    "Kofft.Props.mfcc_spec",
    "Kofft.Props.mfcc_batch_spec"
   ],
   "note": "totality in any arithmetic; values in exact arithmetic"
  },
  {
   "property": "C49",
   "status": "proved",
   "theorems": [
    "Kofft.Props.haar_forward_values",
    "Kofft.Props.haar_inverse_values",
    "Kofft.Props.haar_stack_eq",
    "Kofft.Props.haar_batch_forward",
    "Kofft.Props.haar_batch_inverse",
    "Kofft.Props.haar_roundtrip",
    "Kofft.Props.haar_roundtrip_coeffs"
   ],
   "note": "bit-exact values, panics exactly on too few differences / wrong buffer lengths; round trips in exact arithmetic"
  },
  {
   "property": "C50",
   "status": "partial",
   "theorems": [
    "Kofft.Props.multi_total",
    "Kofft.Props.haar_multi_len5_panics",
    "Kofft.Props.haar_multi_roundtrip_partial",
    "Kofft.Props.haar_multi_roundtrip_false",
    "Kofft.Props.padEven_prefix"
   ],
   "note": "false: recomposition panics whenever an odd length occurs strictly between levels (exact characterisation, any arithmetic, any of the five wavelets); holds otherwise"
  },
  {
   "property": "C51",
   "status": "partial",
   "theorems": [
    "Kofft.Props.four_tap_interior",
    "Kofft.Props.db2_taps",
    "Kofft.Props.db2_interior_partial",
    "Kofft.Props.db2_last_partial",
    "Kofft.Props.db2_ends_false",
    "Kofft.Props.db2_odd_last_partial",
    "Kofft.Props.db2_odd_ends_false",
    "Kofft.Props.db2_two_partial",
    "Kofft.Props.db2_four_partial",
    "Kofft.Props.db4_blind",
    "Kofft.Props.db4_not_reconstructing",
    "Kofft.Props.sym4_blind",
    "Kofft.Props.sym4_not_reconstructing",
    "Kofft.Props.coif1_blind",
    "Kofft.Props.coif1_not_reconstructing"
   ],
   "note": "db2 reconstructs the interior and the last sample (exactly with ideal taps, to 1e-15 with the decimal ones) and, in even lengths from 6 on, provably no other sample (lengths 2 and 4: both samples, and the last; odd lengths from 7 on: exactly positions 2..n-5 and n-2 of the n-1 returned); db4, sym4 and coif1 provably do not"
  },
  {
   "property": "C52",
   "status": "proved",
   "theorems": [
    "Kofft.Props.reflect_in_range",
    "Kofft.Props.reflect_examples",
    "Kofft.Props.reflect_one_hangs",
    "Kofft.Props.wavelets_total"
   ],
   "note": "termination and range of reflect for every index; analysis total, synthesis panics exactly on too few details"
  },
  {
   "property": "C53",
   "status": "partial",
   "theorems": [
    "Kofft.Props.window_lengths",
    "Kofft.Props.kaiser_total",
    "Kofft.Props.window_stack_eq",
    "Kofft.Props.tukey_clamp",
    "Kofft.Props.hann_spec",
    "Kofft.Props.hamming_spec",
    "Kofft.Props.blackman_spec",
    "Kofft.Props.nuttall_spec",
    "Kofft.Props.bartlett_spec",
    "Kofft.Props.kaiser_spec",
    "Kofft.Props.tukey_spec",
    "Kofft.Props.bohman_values_partial",
    "Kofft.Props.bohman_false"
   ],
   "note": "all windows except bohman, for which range and symmetry are proved false; kaiser(0) panics with overflow checks; symmetric windows need len >= 2"
  },
  {
   "property": "C54",
   "status": "proved",
   "theorems": [
    "Kofft.Props.hann_cola",
    "Kofft.Props.hann_half_overlap"
   ],
   "note": "generalised to any overlap factor R >= 2"
  },
  {
   "property": "C55",
   "status": "proved",
   "theorems": [
    "Kofft.Props.magnitude_to_db_spec",
    "Kofft.Props.db_scale_spec",
    "Kofft.Props.db_scale_zero_range"
   ],
   "note": "exact arithmetic; with a range above 200 dB db_scale never reaches 0 (finding)"
  },
  {
   "property": "C56",
   "status": "proved",
   "theorems": [
    "Kofft.Props.map_color_bytes",
    "Kofft.Props.map_color_u16_spec",
    "Kofft.Props.map_color_clamp",
    "Kofft.Props.palette_ends",
    "Kofft.Props.gray_spec",
    "Kofft.Props.legacy_spec",
    "Kofft.Props.fire_spec",
    "Kofft.Props.rainbow_spec",
    "Kofft.Props.palettes_monotone",
    "Kofft.Props.color_from_magnitude_spec",
    "Kofft.Props.colormap_parse_spec"
   ],
   "note": "exact arithmetic for the shapes, any arithmetic for the byte range; the colorous palettes are an external crate, taken as a parameter"
  },
  {
   "property": "C57",
   "status": "proved",
   "theorems": [
    "Kofft.Props.map_bin_to_pixel_spec",
    "Kofft.Props.log_scale_bins_spec",
    "Kofft.Props.log_scale_bins_mean"
   ],
   "note": "mean bit-exact in any arithmetic; pixel range and monotonicity in exact arithmetic"
  },
  {
   "property": "C58",
   "status": "partial",
   "theorems": [
    "Kofft.Props.stft_magnitudes_spec",
    "Kofft.Props.stft_magnitudes_errors",
    "Kofft.Props.stft_magnitudes_exact_partial",
    "Kofft.Props.stft_magnitudes_hop_zero_panics"
   ],
   "note": "hop 0 panics instead of returning an error; everything else proved"
  },
  {
   "property": "C59",
   "status": "partial",
   "theorems": [
    "Kofft.Props.identify_known_name",
    "Kofft.Props.identify_unknown_name",
    "Kofft.Props.index_song_spec",
    "Kofft.Props.song_index_provenance",
    "Kofft.Props.song_index_monotone",
    "Kofft.Props.identify_sticky",
    "Kofft.Props.identify_classifies_partial",
    "Kofft.Props.hash_file_chunking",
    "Kofft.Props.hash_file_read_error",
    "Kofft.Props.same_name_shares_id",
    "Kofft.Props.duplicates_get_two_ids"
   ],
   "note": "equal ids iff equal hashes is proved on a fixed disk where equal names mean equal contents and for identify-only histories; without that it is proved false (same name in two directories; index_song of duplicates)"
  },
  {
   "property": "C60",
   "status": "proved",
   "theorems": [
    "Kofft.Props.complex_vec_round_trip",
    "Kofft.Props.complex_vec_new_spec",
    "Kofft.Props.copy_from_complex_spec",
    "Kofft.Props.copy_to_complex_spec",
    "Kofft.Props.copy_round_trip"
   ],
   "note": ""
  },
  {
   "property": "C61",
   "status": "proved",
   "theorems": [
    "Kofft.Props.compute_config_features",
    "Kofft.Props.compute_config_simd",
    "Kofft.Props.commands_spec",
    "Kofft.Props.split_whitespace_spec",
    "Kofft.Props.features_arg_round_trip"
   ],
   "note": ""
  },
  {
   "property": "C64",
   "status": "proved",
   "theorems": [
    "Kofft.Props.fft_error",
    "Kofft.Props.ifft_error",
    "Kofft.Props.round_trip_error",
    "Kofft.Props.fft_error_rotation_tables",
    "Kofft.Props.fft_error_precomputed",
    "Kofft.Props.fft_error_l2",
    "Kofft.Props.ifft_error_l2",
    "Kofft.Props.round_trip_error_l2",
    "Kofft.Props.fft_error_l2_precomputed",
    "Kofft.Props.fft_error_l2_rotation"
   ],
   "note": "standard model of floating-point arithmetic; overflow and underflow excluded"
  },
  {
   "property": "C65",
   "status": "partial",
   "theorems": [
    "Kofft.Props.fft_f64_exact_iff",
    "Kofft.Props.fft_f64_safe_accuracy_partial",
    "Kofft.Props.fft_f64_safe_exact",
    "Kofft.Props.fft_f64_long_error",
    "Kofft.Props.fft_f64_pow2_accuracy_partial",
    "Kofft.Props.fft_f64_not_double_precision",
    "Kofft.Props.fft8_f64_not_double_precision"
   ],
   "note": "false in general: integers and kernel constants go through f32; the lengths at which that costs nothing are determined exactly (1, 2, 4, powers of two from 32, other lengths 9 to 4097), the accuracy bound is proved there, and every other length is proved wrong"
  },
  {
   "property": "C66",
   "status": "proved",
   "theorems": [
    "Kofft.Props.web_compute_frame",
    "Kofft.Props.web_row_shape",
    "Kofft.Props.web_chunks",
    "Kofft.Props.web_backlog",
    "Kofft.Props.web_stft_flat",
    "Kofft.Props.web_row_exact"
   ],
   "note": ""
  },
  {
   "property": "C67",
   "status": "proved",
   "theorems": [
    "Kofft.Props.sanity_image",
    "Kofft.Props.sanity_short_window_panics"
   ],
   "note": "log mode: in a rounding arithmetic the bins are assumed to be mapped into range, which is proved for exact arithmetic (C57) and for rounding to nearest (C106)"
  },
  {
   "property": "C68",
   "status": "partial",
   "theorems": [
    "Kofft.Props.read_audio_mixes_partial",
    "Kofft.Props.read_audio_mono",
    "Kofft.Props.read_audio_no_channels",
    "Kofft.Props.read_wav_interleaved",
    "Kofft.Props.read_wav_not_mixed"
   ],
   "note": "false for WAV files with several channels (read_wav ignores the channel count): negation proved; proved for every other format"
  },
  {
   "property": "C69",
   "status": "proved",
   "theorems": [
    "Kofft.Props.fft_linear",
    "Kofft.Props.fft_parseval",
    "Kofft.Props.ifft_parseval",
    "Kofft.Props.fft_shift",
    "Kofft.Props.fft_modulation",
    "Kofft.Props.fft_real_symmetric",
    "Kofft.Props.fft_impulse",
    "Kofft.Props.fft_tone",
    "Kofft.Props.fft_circular_convolution",
    "Kofft.Props.fft_linear_convolution"
   ],
   "note": "Exact arithmetic; the transformer may have been used before with transforms no larger."
  },
  {
   "property": "C70",
   "status": "partial",
   "theorems": [
    "Kofft.Props.fft_word_size_partial",
    "Kofft.Props.ifft_word_size_partial",
    "Kofft.Props.fft_is_dft_word_partial",
    "Kofft.Props.fft_32bit_wrong",
    "Kofft.Props.dht_word_size_partial",
    "Kofft.Props.dht_32bit_wrong"
   ],
   "note": "False in general: fft_32bit_wrong is a 100000-point counterexample on 32-bit targets. Proved for every length up to 2^(B/2) and every power of two below 2^B, bit for bit, for every arithmetic; for the Hartley transform whenever (n-1)^2 fits."
  },
  {
   "property": "C71",
   "status": "proved",
   "theorems": [
    "Kofft.Props.readme_section",
    "Kofft.Props.readme_no_marker",
    "Kofft.Props.readme_again",
    "Kofft.Props.readme_grows"
   ],
   "note": "All four clauses, for any markers and any text."
  },
  {
   "property": "C72",
   "status": "proved",
   "theorems": [
    "Kofft.Props.rfft_error",
    "Kofft.Props.irfft_error",
    "Kofft.Props.rfft_round_trip_error"
   ],
   "note": "standard model of floating-point arithmetic; overflow and underflow excluded"
  },
  {
   "property": "C73",
   "status": "proved",
   "theorems": [
    "Kofft.Props.dct1_error",
    "Kofft.Props.dct2_error",
    "Kofft.Props.dct3_error",
    "Kofft.Props.dct4_error",
    "Kofft.Props.dst1_error",
    "Kofft.Props.dst2_error",
    "Kofft.Props.dst3_error",
    "Kofft.Props.dst4_error",
    "Kofft.Props.dht_error",
    "Kofft.Props.directGrowth_linear"
   ],
   "note": "standard model of floating-point arithmetic; overflow and underflow excluded"
  },
  {
   "property": "C74",
   "status": "proved",
   "theorems": [
    "Kofft.Props.stft_error",
    "Kofft.Props.istft_stft_error"
   ],
   "note": "standard model of floating-point arithmetic; overflow and underflow excluded"
  },
  {
   "property": "C75",
   "status": "proved",
   "theorems": [
    "Kofft.Props.fft2d_error",
    "Kofft.Props.fft3d_error"
   ],
   "note": "standard model of floating-point arithmetic; overflow and underflow excluded; shapes as in C29, C30"
  },
  {
   "property": "C76",
   "status": "proved",
   "theorems": [
    "Kofft.Props.fft_stack_error",
    "Kofft.Props.ifft_stack_error",
    "Kofft.Props.stack_round_trip_error",
    "Kofft.Props.rfft_stack_error",
    "Kofft.Props.irfft_stack_error",
    "Kofft.Props.stackGrowth_linear"
   ],
   "note": "Overflow and underflow are outside the rounding model."
  },
  {
   "property": "C77",
   "status": "proved",
   "theorems": [
    "Kofft.Props.xtask_commands",
    "Kofft.Props.xtask_exit",
    "Kofft.Props.xtask_analyze",
    "Kofft.Props.xtask_detect"
   ],
   "note": "External programs and the character classes are parameters; printing is not modelled."
  },
  {
   "property": "C78",
   "status": "proved",
   "theorems": [
    "Kofft.Props.split_default_spec",
    "Kofft.Props.simd_fft_fresh",
    "Kofft.Props.simd_ifft_fresh",
    "Kofft.Props.simd_split_fresh",
    "Kofft.Props.simd_strided_fresh",
    "Kofft.Props.simd_oop_strided_fresh",
    "Kofft.Props.simd_strategy_fresh",
    "Kofft.Props.simd_split_len1_panics",
    "Kofft.Props.simd_fft_is_dft",
    "Kofft.Props.twiddle_get_panics",
    "Kofft.Props.twiddle_get_exact",
    "Kofft.Props.twiddle_get_error"
   ],
   "note": "The SIMD structs call the scalar code; the crate has no vector kernels of its own for them."
  },
  {
   "property": "C79",
   "status": "proved",
   "theorems": [
    "Kofft.Props.fft_used_iff",
    "Kofft.Props.fft_spoilt",
    "Kofft.Props.fft_history_iff",
    "Kofft.Props.ifft_history_iff",
    "Kofft.Props.fft_spoilt_blu",
    "Kofft.Props.batch_spoilt",
    "Kofft.Props.batch_history_iff",
    "Kofft.Props.batch_inverse_history_iff",
    "Kofft.Props.fft2d_iff",
    "Kofft.Props.fft2d_history_iff"
   ],
   "note": "Exact characterisation of the history effect behind C05, C21 and C29."
  },
  {
   "property": "C80",
   "status": "proved",
   "theorems": [
    "Kofft.Props.radix4_rearranged",
    "Kofft.Props.radix4_always_wrong",
    "Kofft.Props.plan_radix4_always_wrong"
   ],
   "note": "Generalises radix4_wrong of C15 to all lengths 4^k and all histories."
  },
  {
   "property": "C81",
   "status": "proved",
   "theorems": [
    "Kofft.Props.czt_error",
    "Kofft.Props.cztGrowth_linear",
    "Kofft.Props.hilbert_error",
    "Kofft.Props.plan_dct2_error",
    "Kofft.Props.haar_round_trip_error",
    "Kofft.Props.window_error",
    "Kofft.Props.windowGrowth_f32"
   ],
   "note": "Standard model: no overflow or underflow; comparison for equality exact."
  },
  {
   "property": "C82",
   "status": "partial",
   "theorems": [
    "Kofft.Props.strided_word_partial",
    "Kofft.Props.strided_word_overflow",
    "Kofft.Props.fft2d_word_partial",
    "Kofft.Props.fft2d_word_overflow",
    "Kofft.Props.fft3d_word_partial",
    "Kofft.Props.stft_word_partial",
    "Kofft.Props.stft_word_required",
    "Kofft.Props.istft_word_partial",
    "Kofft.Props.stream_word",
    "Kofft.Props.stft_64bit_wrong",
    "Kofft.Props.istft_64bit_wrong",
    "Kofft.Props.fft2d_64bit_panics",
    "Kofft.Props.strided_64bit_panics",
    "Kofft.Props.fft3d_word_wrong"
   ],
   "note": "False in general (the five negations). The overflowing strided and two-dimensional calls are characterised exactly; for the others the non-overflowing range is proved."
  },
  {
   "property": "C83",
   "status": "proved",
   "theorems": [
    "Kofft.Props.session_linear",
    "Kofft.Props.session_map",
    "Kofft.Props.session_scale",
    "Kofft.Props.session_silence",
    "Kofft.Props.session_homogeneous",
    "Kofft.Props.trig_linear",
    "Kofft.Props.wavelet_linear",
    "Kofft.Props.czt_linear",
    "Kofft.Props.hilbert_linear",
    "Kofft.Props.parallel_linear",
    "Kofft.Props.stream_linear",
    "Kofft.Props.streamRead_linear",
    "Kofft.Props.linRel_scale",
    "Kofft.Props.linRel_silence"
   ],
   "note": "Bit-exact, any arithmetic; scaling is stated for binary floating point with p digits and unbounded exponents."
  },
  {
   "property": "C84",
   "status": "proved",
   "theorems": [
    "Kofft.Props.session_shape",
    "Kofft.Props.trig_shape"
   ],
   "note": "Windows and the sum-of-squares scratch are parameters of the calls here, not data."
  },
  {
   "property": "C85",
   "status": "proved",
   "theorems": [
    "Kofft.Props.fft_ieee",
    "Kofft.Props.ifft_ieee",
    "Kofft.Props.fft_binary32",
    "Kofft.Props.fft_pair_overflows",
    "Kofft.Props.fft_impulse_overflows",
    "Kofft.Props.binary32",
    "Kofft.Props.binary64",
    "Kofft.Props.binFlt_overflows"
   ],
   "note": "Range of libm functions: sin/cos of finite arguments are assumed finite and within t."
  },
  {
   "property": "C86",
   "status": "proved",
   "theorems": [
    "Kofft.Props.fft_not_finite",
    "Kofft.Props.ifft_not_finite",
    "Kofft.Props.rfft_not_finite",
    "Kofft.Props.irfft_not_finite",
    "Kofft.Props.stft_not_finite",
    "Kofft.Props.trig_not_finite",
    "Kofft.Props.fft2d_not_finite",
    "Kofft.Props.fft3d_not_finite",
    "Kofft.Props.hilbert_not_finite",
    "Kofft.Props.czt_not_finite",
    "Kofft.Props.fft_poison",
    "Kofft.Props.binFlt_sticky"
   ],
   "note": "irfft ignores the imaginary parts of the first and last bin (C05). fft_poison is a defect: finite inputs, non-finite outputs."
  },
  {
   "property": "C87",
   "status": "proved",
   "theorems": [
    "Kofft.Props.retained_bounded",
    "Kofft.Props.rfft_retained_bounded",
    "Kofft.Props.dct_retained_bounded",
    "Kofft.Props.dst_retained_bounded",
    "Kofft.Props.istft_stream_memory",
    "Kofft.Props.istft_stream_unbounded"
   ],
   "note": "IstftStream buffers are never compacted (a defect): exact growth and unboundedness proved."
  },
  {
   "property": "C88",
   "status": "proved",
   "theorems": [
    "Kofft.Props.stft_local",
    "Kofft.Props.stft_shift",
    "Kofft.Props.stream_local",
    "Kofft.Props.istft_local",
    "Kofft.Props.haar_local",
    "Kofft.Props.wavelets_local"
   ],
   "note": "Any arithmetic, bit for bit."
  },
  {
   "property": "C89",
   "status": "partial",
   "theorems": [
    "Kofft.Props.fft_pow2_pointers_partial",
    "Kofft.Props.fft_other_length_pointers_partial",
    "Kofft.Props.fft_custom_pointers_partial",
    "Kofft.Props.split_pointers_partial",
    "Kofft.Props.ifft_pow2_pointers_partial",
    "Kofft.Props.ifft_other_length_pointers_partial",
    "Kofft.Props.ifft_parallel_pointers_invalid",
    "Kofft.Props.passes_agree",
    "Kofft.Props.fft_accesses_in_bounds",
    "Kofft.Props.ifft_accesses_in_bounds",
    "Kofft.Props.split_accesses_in_bounds",
    "Kofft.Props.passes_touch_once"
   ],
   "note": "The claim is false of the code: exactly when it holds is proved for both rule sets (fresh transformer; no protectors; one range per array)."
  },
  {
   "property": "C90",
   "status": "proved",
   "theorems": [
    "Kofft.Props.rfft_uninit",
    "Kofft.Props.irfft_uninit",
    "Kofft.Props.strided_alloc_uninit"
   ],
   "note": "Any arithmetic, bit for bit."
  },
  {
   "property": "C91",
   "status": "proved",
   "theorems": [
    "Kofft.Props.during_begin_end",
    "Kofft.Props.abandoned_then_returns",
    "Kofft.Props.abandoned_then_fresh",
    "Kofft.Props.abandoned_then_dft"
   ],
   "note": "Unwinding is modelled as stopping with the planner as it is; an allocation failure that aborts the process is outside."
  },
  {
   "property": "C92",
   "status": "proved",
   "theorems": [
    "Kofft.Props.planner_exclusive",
    "Kofft.Props.tables_computed_once",
    "Kofft.Props.reentry_overlaps"
   ],
   "note": "reentry_overlaps: the negation without the proviso."
  },
  {
   "property": "C93",
   "status": "proved",
   "theorems": [
    "Kofft.Props.example_main",
    "Kofft.Props.example_image",
    "Kofft.Props.example_reading"
   ],
   "note": ""
  },
  {
   "property": "C94",
   "status": "proved",
   "theorems": [
    "Kofft.Props.decision_of_settings",
    "Kofft.Props.decision_of_settings_nostd",
    "Kofft.Props.environment_read_once",
    "Kofft.Props.any_decision_same_result",
    "Kofft.Props.settings_torn"
   ],
   "note": ""
  },
  {
   "property": "C95",
   "status": "proved",
   "theorems": [
    "Kofft.Props.fft_operations_pow2",
    "Kofft.Props.fft_operations_any",
    "Kofft.Props.fft_n_log_n",
    "Kofft.Props.fft_operations_again",
    "Kofft.Props.fft_operations_again_any",
    "Kofft.Props.ifft_operations",
    "Kofft.Props.rfft_operations",
    "Kofft.Props.irfft_operations",
    "Kofft.Props.direct_transforms_quadratic",
    "Kofft.Props.goertzel_linear"
   ],
   "note": ""
  },
  {
   "property": "C96",
   "status": "partial",
   "theorems": [
    "Kofft.Props.parallel_word_agrees_partial",
    "Kofft.Props.parallel_threshold_set",
    "Kofft.Props.parallel_panics_iff_debug",
    "Kofft.Props.parallel_panics_iff_release",
    "Kofft.Props.parallel_small_word_panics",
    "Kofft.Props.parallel_host_result",
    "Kofft.Props.parallel_huge_settings",
    "Kofft.Props.parallel_release_calibration"
   ],
   "note": "False on 32-bit targets in the debug profile and for settings whose product overflows (negations proved); when a decision panics is characterised exactly in both profiles."
  },
  {
   "property": "C97",
   "status": "partial",
   "theorems": [
    "Kofft.Props.alloc_count",
    "Kofft.Props.alloc_peak_partial",
    "Kofft.Props.alloc_peak_any",
    "Kofft.Props.alloc_peak_real",
    "Kofft.Props.alloc_retries",
    "Kofft.Props.alloc_steps",
    "Kofft.Props.alloc_progress",
    "Kofft.Props.alloc_peak_wraps"
   ],
   "note": "The peak is the largest number of bytes in use only if what is freed after the reset was allocated after it; what is reported otherwise is characterised exactly (alloc_peak_any), with a counterexample (alloc_peak_wraps)."
  },
  {
   "property": "C98",
   "status": "partial",
   "theorems": [
    "Kofft.Props.bench_report_same",
    "Kofft.Props.bench_report_sorted",
    "Kofft.Props.bench_report_prev",
    "Kofft.Props.bench_report_best",
    "Kofft.Props.bench_report_winner",
    "Kofft.Props.bench_saved",
    "Kofft.Props.bench_crash_safe_partial",
    "Kofft.Props.bench_last_good_partial",
    "Kofft.Props.bench_zero_time_lost",
    "Kofft.Props.bench_rename_fails",
    "Kofft.Props.codec_exists"
   ],
   "note": "The report clauses are proved in full. Keeping the results needs renames that succeed and rates that are finite; the negations are proved."
  },
  {
   "property": "C99",
   "status": "partial",
   "theorems": [
    "Kofft.Props.updater_rejects",
    "Kofft.Props.updater_rejects_saved",
    "Kofft.Props.updater_partial",
    "Kofft.Props.table_lines"
   ],
   "note": "False for every file the benchmark writes (updater_rejects); proved for files with the keys the updater wants."
  },
  {
   "property": "C100",
   "status": "proved",
   "theorems": [
    "Kofft.Props.rfft_ieee",
    "Kofft.Props.irfft_ieee",
    "Kofft.Props.rfft_binary32",
    "Kofft.Props.binGrowth_le",
    "Kofft.Props.binary32"
   ],
   "note": "Bounds in closed form for binary32 lengths 2*2^K, K = 5..16 (rfft_binary32)."
  },
  {
   "property": "C101",
   "status": "proved",
   "theorems": [
    "Kofft.Props.stft_ieee",
    "Kofft.Props.fft2d_ieee",
    "Kofft.Props.fft3d_ieee"
   ],
   "note": "For stft the room is asked frame by frame."
  },
  {
   "property": "C102",
   "status": "proved",
   "theorems": [
    "Kofft.Props.svg_pixels",
    "Kofft.Props.cssColor_fill"
   ],
   "note": "The serialisation by the svg crate is not modelled."
  },
  {
   "property": "C103",
   "status": "proved",
   "theorems": [
    "Kofft.Props.read_audio_stream",
    "Kofft.Props.read_audio_fails",
    "Kofft.Props.read_audio_growing_packet_panics",
    "Kofft.Props.read_audio_fewer_channels_panics",
    "Kofft.Props.read_audio_other"
   ],
   "note": "The assertion inside copy_interleaved_ref of the external crate is an assumption of the model."
  },
  {
   "property": "C104",
   "status": "proved",
   "theorems": [
    "Kofft.Props.goertzel_accuracy",
    "Kofft.Props.goertzel_radicand_pos",
    "Kofft.Props.goertzel_nan",
    "Kofft.Props.goertzel_bin_below"
   ],
   "note": "The bin is the one the function computes in its own arithmetic; for f n / rate within rounding of an integer it can differ from the exact floor."
  },
  {
   "property": "C105",
   "status": "proved",
   "theorems": [
    "Kofft.Props.kaiser_radicand_nonneg",
    "Kofft.Props.bartlett_range_rounded",
    "Kofft.Props.window_one_not_finite"
   ],
   "note": "In exact arithmetic see C53."
  },
  {
   "property": "C106",
   "status": "proved",
   "theorems": [
    "Kofft.Props.map_bin_in_range",
    "Kofft.Props.log_scale_bins_no_panic",
    "Kofft.Props.log_scale_top_empty",
    "Kofft.Props.sanity_image_log_no_panic",
    "Kofft.Props.sanity_image_top_empty"
   ],
   "note": "In exact arithmetic see C57."
  },
  {
   "property": "C107",
   "status": "proved",
   "theorems": [
    "Kofft.Props.trig_finite",
    "Kofft.Props.mel_finite",
    "Kofft.Props.mfcc_finite",
    "Kofft.Props.cepstrum_finite",
    "Kofft.Props.hilbert_finite",
    "Kofft.Props.trig_binary32",
    "Kofft.Props.mfcc_binary32",
    "Kofft.Props.cepstrum_binary32",
    "Kofft.Props.hilbert_binary32",
    "Kofft.Props.binary32_elementary",
    "Kofft.Props.haar_finite",
    "Kofft.Props.haar_inverse_finite",
    "Kofft.Props.bank_finite",
    "Kofft.Props.db2_finite",
    "Kofft.Props.bank_inverse_finite",
    "Kofft.Props.haar_multi_finite",
    "Kofft.Props.haar_multi_inverse_finite",
    "Kofft.Props.wavelet_binary32",
    "Kofft.Props.wavelet_inverse_binary32",
    "Kofft.Props.wavelet_multi_binary32",
    "Kofft.Props.czt_finite",
    "Kofft.Props.czt_binary32"
   ],
   "note": "The other direction (NaN in, NaN out) is C86."
  },
  {
   "property": "C108",
   "status": "proved",
   "theorems": [
    "Kofft.Props.mel_error",
    "Kofft.Props.mfcc_error",
    "Kofft.Props.cepstrum_error",
    "Kofft.Props.mel_bins_error",
    "Kofft.Props.mel_bins_neighbour",
    "Kofft.Props.mel_bins_binary32",
    "Kofft.Props.melGrowth_linear",
    "Kofft.Props.rndFlt_libm"
   ],
   "note": "The energy bound is stated for the edges the program computes; how far these are from the exact ones is mel_bins_error. Exact arithmetic: C47, C48."
  },
  {
   "property": "C109",
   "status": "proved",
   "theorems": [
    "Kofft.Props.colour_close",
    "Kofft.Props.magnitude_colour_error",
    "Kofft.Props.scaled_colour_error",
    "Kofft.Props.magnitude_to_db_error",
    "Kofft.Props.db_scale_error",
    "Kofft.Props.palette_ends_rounded",
    "Kofft.Props.magnitude_colour_ends",
    "Kofft.Props.db_scale_ends",
    "Kofft.Props.brightness_monotone",
    "Kofft.Props.stft_magnitudes_error",
    "Kofft.Props.rndFlt_display"
   ],
   "note": "The colorous palettes (viridis, plasma, inferno) are an external crate. Exact arithmetic: C55, C56, C58."
  },
  {
   "property": "C110",
   "status": "proved",
   "theorems": [
    "Kofft.Props.image_error",
    "Kofft.Props.image_binary32",
    "Kofft.Props.image_peak",
    "Kofft.Props.image_silent",
    "Kofft.Props.colour_within",
    "Kofft.Props.colour_of_perturbed"
   ],
   "note": "Linear scale; on the logarithmic scale the assignment of bins to rows may itself differ between arithmetics (C106). image_silent covers both scales."
  },
  {
   "property": "C111",
   "status": "proved",
   "theorems": [
    "Kofft.Props.haar_forward_operations",
    "Kofft.Props.haar_multi_operations",
    "Kofft.Props.haar_multi_inverse_operations",
    "Kofft.Props.stft_operations",
    "Kofft.Props.istft_operations",
    "Kofft.Props.dht_operations",
    "Kofft.Props.czt_operations",
    "Kofft.Props.hilbert_operations",
    "Kofft.Props.cepstrum_operations",
    "Kofft.Props.fft2d_operations",
    "Kofft.Props.fft3d_operations",
    "Kofft.Props.bank_forward_operations",
    "Kofft.Props.bank_inverse_operations",
    "Kofft.Props.db2_operations",
    "Kofft.Props.bank_multi_operations",
    "Kofft.Props.bank_multi_inverse_operations",
    "Kofft.Props.db2_multi_operations"
   ],
   "note": "Upper bounds on arithmetic operations; index arithmetic and copies are not counted."
  },
  {
   "property": "C112",
   "status": "proved",
   "theorems": [
    "Kofft.Props.haar_multi_values",
    "Kofft.Props.haar_pcm_exact",
    "Kofft.Props.haar_pcm_lossless",
    "Kofft.Props.haar_audio_lossless",
    "Kofft.Props.haar_pcm_sharp",
    "Kofft.Props.haar_multi_error"
   ],
   "note": "For the lengths for which the synthesis does not panic (C50)."
  },
  {
   "property": "C113",
   "status": "proved",
   "theorems": [
    "Kofft.Props.dct2_dct3_trip",
    "Kofft.Props.dct4_trip",
    "Kofft.Props.dct1_trip",
    "Kofft.Props.dst1_trip",
    "Kofft.Props.dst4_trip",
    "Kofft.Props.dht_trip",
    "Kofft.Props.tripGrowth_linear"
   ],
   "note": "standard model of floating-point arithmetic; overflow and underflow excluded"
  },
  {
   "property": "C114",
   "status": "proved",
   "theorems": [
    "Kofft.Props.bessel0_series",
    "Kofft.Props.kaiser_truncation",
    "Kofft.Props.kaiser_error",
    "Kofft.Props.kaiserGrowth_binary32",
    "Kofft.Props.kaiser_centre_lost"
   ],
   "note": "underflow excluded in the accuracy theorem; the last theorem is a defect of the code: NaN for beta >= 21"
  },
  {
   "property": "C115",
   "status": "proved",
   "theorems": [
    "Kofft.Props.blackman_error",
    "Kofft.Props.nuttall_error",
    "Kofft.Props.bohman_error",
    "Kofft.Props.bartlett_error",
    "Kofft.Props.windowsGrowth_linear"
   ],
   "note": "standard model of floating-point arithmetic; the tukey window is not covered: its taper length is a floor of a rounded product"
  },
  {
   "property": "C116",
   "status": "proved",
   "theorems": [
    "Kofft.Props.fft_impulse_exact",
    "Kofft.Props.fft_constant_exact"
   ],
   "note": "unbounded exponent range; signed zeros identified"
  },
  {
   "property": "C117",
   "status": "proved",
   "theorems": [
    "Kofft.Props.fft_real_bins",
    "Kofft.Props.fft_integer_bins",
    "Kofft.Props.rfft_integer_bins",
    "Kofft.Props.fft4_integer"
   ],
   "note": "unbounded exponent range; signed zeros identified"
  },
  {
   "property": "C118",
   "status": "proved",
   "theorems": [
    "Kofft.Props.fft2d_constant_exact",
    "Kofft.Props.fft2d_impulse_exact",
    "Kofft.Props.fft3d_constant_exact"
   ],
   "note": "unbounded exponent range; signed zeros identified; shapes not affected by the leftover bug of C29/C30"
  },
  {
   "property": "C119",
   "status": "proved",
   "theorems": [
    "Kofft.Props.fft_parseval_rounded",
    "Kofft.Props.fft_real_symmetric_rounded",
    "Kofft.Props.fft_additive_rounded",
    "Kofft.Props.circular_convolution_error",
    "Kofft.Props.linear_convolution_error",
    "Kofft.Props.convGrowth_precomputed",
    "Kofft.Props.integer_convolution_exact"
   ],
   "note": "unbounded exponent range"
  },
  {
   "property": "C120",
   "status": "proved",
   "theorems": [
    "Kofft.Props.integer_round_trip",
    "Kofft.Props.integer_round_trip_precomputed",
    "Kofft.Props.integer_round_trip_rotation",
    "Kofft.Props.stack_integer_round_trip"
   ],
   "note": "unbounded exponent range"
  },
  {
   "property": "C121",
   "status": "proved",
   "theorems": [
    "Kofft.Props.canvas_pixels",
    "Kofft.Props.page_shows_frames",
    "Kofft.Props.page_db"
   ],
   "note": "app.mjs as committed has two syntax errors; modelled with the leftover lines removed. DOM and audio decoding not modelled"
  },
  {
   "property": "C122",
   "status": "partial",
   "theorems": [
    "Kofft.Props.shader_rainbow_partial",
    "Kofft.Props.webgl_pixel",
    "Kofft.Props.renderers_agree_iff",
    "Kofft.Props.canvas_level",
    "Kofft.Props.levels_agree_iff"
   ],
   "note": "false in general: transposed texture upload and natural logarithm; exact conditions proved. Ideal texture upload and real arithmetic assumed"
  },
  {
   "property": "C123",
   "status": "partial",
   "theorems": [
    "Kofft.Props.sw_answers",
    "Kofft.Props.sw_stale",
    "Kofft.Props.sw_offline_false",
    "Kofft.Props.sw_offline_partial"
   ],
   "note": "false in general; negations proved. URL matching is equality of addresses; the page itself never registers the worker"
  },
  {
   "property": "C124",
   "status": "partial",
   "theorems": [
    "Kofft.Props.dct_example_agrees",
    "Kofft.Props.dct_example_short_table",
    "Kofft.Props.embedded_pipeline_partial",
    "Kofft.Props.embedded_pipeline_inverse_iff"
   ],
   "note": "false for the embedded example (forward transform used as inverse); exact result and iff proved"
  },
  {
   "property": "C125",
   "status": "proved",
   "theorems": [
    "Kofft.Props.cycles_error",
    "Kofft.Props.cycles_exact",
    "Kofft.Props.cycles_error_precomputed",
    "Kofft.Props.cycles_error_rotation",
    "Kofft.Props.integer_cycles",
    "Kofft.Props.stack_cycles_error",
    "Kofft.Props.real_cycles_error"
   ],
   "note": "norms: l2 for fft/ifft, sum of absolute values for the stack-only and real transforms"
  },
  {
   "property": "C126",
   "status": "proved",
   "theorems": [
    "Kofft.Props.integer_rfft_trip",
    "Kofft.Props.integer_stft_trip",
    "Kofft.Props.integer_stft_trip_precomputed",
    "Kofft.Props.hann_power",
    "Kofft.Props.integer_stft_trip_hann"
   ],
   "note": "sufficient condition; the zeroed output buffer is the documented way to call istft"
  },
  {
   "property": "C127",
   "status": "proved",
   "theorems": [
    "Kofft.Props.builds_agree",
    "Kofft.Props.builds_agree_inverse",
    "Kofft.Props.stack_agrees",
    "Kofft.Props.rfft_agrees",
    "Kofft.Props.rfft_stack_agrees",
    "Kofft.Props.dht_agrees"
   ],
   "note": "explicit growth factors"
  },
  {
   "property": "C128",
   "status": "proved",
   "theorems": [
    "Kofft.Props.synV_four",
    "Kofft.Props.db2_interior_error",
    "Kofft.Props.db2_multi_interior",
    "Kofft.Props.db2_integer_trip",
    "Kofft.Props.db2_multi_integer_trip",
    "Kofft.Props.db2_audio_lossless"
   ],
   "note": "interior samples; what happens at the ends is in C51"
  },
  {
   "property": "C62",
   "status": "proved",
   "theorems": [
    "Kofft.Props.frame_transforms_segment",
    "Kofft.Props.frame_short_panics",
    "Kofft.Props.inverse_frame_adds",
    "Kofft.Props.inverse_frame_accumulates"
   ],
   "note": ""
  },
  {
   "property": "C63",
   "status": "proved",
   "theorems": [
    "Kofft.Props.dst_planner_transparent",
    "Kofft.Props.dst_tables",
    "Kofft.Props.dst_scratch_length"
   ],
   "note": ""
  }
 ]
}