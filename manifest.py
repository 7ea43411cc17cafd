#!/usr/bin/env python3
"""Regenerates MANIFEST.json. One entry per property: id, status (P proved, Q partial, N not applicable), theorems, note."""
import json
P='Kofft.Props.'
M=[
('C01','P','fft_pow2_is_dft','exact arithmetic'),
('C02','P','fft_is_dft fft_is_dft_used','exact arithmetic, std'),
('C03','P','ifft_is_idft ifft_fft_id fft_ifft_id',''),
('C04','P','fft_total ifft_total',''),
('C05','Q','fft_history_independent_partial fft_history_dependent','false in general (stale split buffers): negation proved, and the claim proved for histories without larger transforms'),
('C06','P','fft_used_exact fft_depends_only_on_leftovers','The cases with the fresh result: fft_used_exact with no leftovers, and fft_history_independent_partial (C05).'),
('C07','P','twiddles_correct twiddles_cache_transparent',''),
('C08','P','precomputed_same precomputed_same_fft',''),
('C09','P','out_of_place_spec vec_spec',''),
('C10','P','strided_errors strided_spec strided_scratch_irrelevant',''),
('C11','P','strided_alloc_eq',''),
('C12','P','oop_strided_errors oop_strided_spec',''),
('C13','P','split_mismatch fft_split_eq ifft_split_eq ifft_split_is_idft',''),
('C14','P','lanes_irrelevant lanes_irrelevant_split',''),
('C15','Q','strategy_is_dft_partial strategy_total radix4_wrong radix4_always_wrong radix4_rearranged','false for Radix4 with std on lengths 4^k, k>=2: negation proved (radix4_wrong); proved for everything else'),
('C16','P','plan_strategy_spec strategy_same_as_fft',''),
('C17','Q','backend_fft_same_partial backend_ifft_same simd_stateless simd_len1_panics backend_len1_iff','false at length 1 (panic): negation proved'),
('C18','Q','plan_rejects plan_out_of_place plan_history_independent plan_eq_fft plan_fft_is_dft_partial plan_ifft_is_idft_partial plan_split plan_len1_panics plan_radix4_wrong plan_radix4_always_wrong','length check and history independence proved in full; DFT fails for f32 Radix2/Radix4 plans of length 1 (panic) and for f64 Radix4 plans of length 4^k, k>=2: negations proved'),
('C19','P','factorize_spec factorize_terminates factorize_zero_hangs mixed_radix_same mixed_radix_is_dft mixed_radix_tw_same mixed_radix_tw_small',''),
('C20','P','fft_stack_is_dft ifft_stack_is_idft stack_errors stack_round_trip','exact arithmetic for the DFT; errors and totality in any arithmetic'),
('C21','Q','batch_spec_partial batch_total batch_mixed_wrong','false when a larger buffer precedes a smaller one (negation proved); proved for non-decreasing internal sizes; totality and error behaviour proved in full'),
('C22','P','parallel_same','schedules as orders of independent updates'),
('C23','Q','threshold_override threshold_revert heuristic_partial knobs_ignored knobs_documented_false nostd_heuristic std_heuristic','true without std (nostd_heuristic); with std the non-threshold overrides have no effect unless KOFFT_PAR_FFT_THREADS=0: negation proved, exact decision in std_heuristic'),
('C24','P','rfft_is_half_dft rfft_total','std, or N/2 a power of two'),
('C25','P','irfft_is_inverse_dft irfft_rfft_id irfft_total',''),
('C26','P','rfft_planner_transparent irfft_planner_transparent rfft_tables rfft_short_scratch',''),
('C27','P','rfft_packed_same irfft_packed_same rfft_simd_same',''),
('C28','P','rfft_stack_is_half_dft irfft_stack_is_inverse_dft stack_real_round_trip rfft_stack_errors irfft_stack_errors',''),
('C29','Q','fft2d_total fft2d_is_dft_partial fft2d_not_dft fft2d_history_partial','False as stated for fewer rows than columns on f32/f64 (fft2d_not_dft); proved whenever the column transforms cannot see leftovers of the row transforms; totality and error codes proved in full.'),
('C30','Q','fft3d_total fft3d_is_dft_partial fft3d_not_dft fft3d_history_partial','False as stated for decreasing sizes on f32/f64 (fft3d_not_dft); proved whenever no pass can see leftovers of an earlier pass; totality and error codes proved in full.'),
('C31','P','flatten2d_ok flatten2d_error flatten2d_nil flatten3d_ok flatten3d_error',''),
('C32','P','stft_transforms_segments stft_frames_fresh stft_is_windowed_dft stft_total',''),
('C33','P','stream_transforms_segments stream_eq_batch stream_end parallel_eq_batch parallel_total','schedules as orders of independent frames'),
('C34','P','istft_bit_exact istft_is_overlap_add istft_total',''),
('C35','P','istft_stft_reconstructs','exact arithmetic'),
('C36','Q','istft_stream_eq_batch_partial istft_stream_empty istft_stream_never_panics istft_stream_panics','proved bit for bit for hop <= win_len <= window.len(); false for hop > win_len (third push panics): negation proved'),
('C37','P','istft_parallel_value istft_parallel_eq_batch istft_parallel_short_frame istft_parallel_error istft_parallel_schedule istft_parallel_schedule_error istft_parallel_schedule_eq_batch',''),
('C38','P','dct2_spec dct3_spec dct3_dct2 dct2_dct3','exact arithmetic'),
('C39','P','dct1_spec dct4_spec dct1_dct1 dct1_small dct4_dct4','exact arithmetic'),
('C40','P','plan_dct2_exact plan_dct2_errors plan_dct2_longer_panics','exactness in exact arithmetic with std or a power-of-two length (else the closure reports NonPowerOfTwoNoStd); errors in any arithmetic'),
('C41','Q','dst1_spec dst2_spec dst3_spec dst4_spec dst1_dst1 dst4_dst4 dst3_dst2_partial dst3_not_inverse','dst3 after dst2 is no multiple of the identity for any n>=2: negation proved; exact value of dst3(dst2 x) proved; the DST-I and DST-IV parts proved in full'),
('C42','P','trig_stack trig_total trig_batch',''),
('C43','P','dht_spec dht_dht dht_dft','exact arithmetic'),
('C44','P','czt_spec czt_zero_start czt_dft','exact arithmetic'),
('C45','P','goertzel_spec goertzel_dft goertzel_errors goertzel_radicand_nonneg','exact arithmetic; errors in any arithmetic; floating point: C104'),
('C46','P','hilbert_spec hilbert_errors','exact arithmetic; errors and totality in any arithmetic'),
('C47','P','cepstrum_spec cepstrum_errors','exact arithmetic; errors and totality in any arithmetic'),
('C48','P','mel_total mel_spec mel_nonneg mel_linear mel_edges mel_upper_half_ignored mfcc_total mfcc_spec mfcc_batch_spec','totality in any arithmetic; values in exact arithmetic'),
('C49','P','haar_forward_values haar_inverse_values haar_stack_eq haar_batch_forward haar_batch_inverse haar_roundtrip haar_roundtrip_coeffs','bit-exact values, panics exactly on too few differences / wrong buffer lengths; round trips in exact arithmetic'),
('C50','Q','multi_total haar_multi_len5_panics haar_multi_roundtrip_partial haar_multi_roundtrip_false padEven_prefix','false: recomposition panics whenever an odd length occurs strictly between levels (exact characterisation, any arithmetic, any of the five wavelets); holds otherwise'),
('C51','Q','four_tap_interior db2_taps db2_interior_partial db2_last_partial db2_ends_false db2_odd_last_partial db2_odd_ends_false db2_two_partial db2_four_partial db4_blind db4_not_reconstructing sym4_blind sym4_not_reconstructing coif1_blind coif1_not_reconstructing','db2 reconstructs the interior and the last sample (exactly with ideal taps, to 1e-15 with the decimal ones) and, in even lengths from 6 on, provably no other sample (lengths 2 and 4: both samples, and the last; odd lengths from 7 on: exactly positions 2..n-5 and n-2 of the n-1 returned); db4, sym4 and coif1 provably do not'),
('C52','P','reflect_in_range reflect_examples reflect_one_hangs wavelets_total','termination and range of reflect for every index; analysis total, synthesis panics exactly on too few details'),
('C53','Q','window_lengths kaiser_total window_stack_eq tukey_clamp hann_spec hamming_spec blackman_spec nuttall_spec bartlett_spec kaiser_spec tukey_spec bohman_values_partial bohman_false','all windows except bohman, for which range and symmetry are proved false; kaiser(0) panics with overflow checks; symmetric windows need len >= 2'),
('C54','P','hann_cola hann_half_overlap','generalised to any overlap factor R >= 2'),
('C55','P','magnitude_to_db_spec db_scale_spec db_scale_zero_range','exact arithmetic; with a range above 200 dB db_scale never reaches 0 (finding)'),
('C56','P','map_color_bytes map_color_u16_spec map_color_clamp palette_ends gray_spec legacy_spec fire_spec rainbow_spec palettes_monotone color_from_magnitude_spec colormap_parse_spec','exact arithmetic for the shapes, any arithmetic for the byte range; the colorous palettes are an external crate, taken as a parameter'),
('C57','P','map_bin_to_pixel_spec log_scale_bins_spec log_scale_bins_mean','mean bit-exact in any arithmetic; pixel range and monotonicity in exact arithmetic'),
('C58','Q','stft_magnitudes_spec stft_magnitudes_errors stft_magnitudes_exact_partial stft_magnitudes_hop_zero_panics','hop 0 panics instead of returning an error; everything else proved'),
('C59','Q','identify_known_name identify_unknown_name index_song_spec song_index_provenance song_index_monotone identify_sticky identify_classifies_partial hash_file_chunking hash_file_read_error same_name_shares_id duplicates_get_two_ids','equal ids iff equal hashes is proved on a fixed disk where equal names mean equal contents and for identify-only histories; without that it is proved false (same name in two directories; index_song of duplicates)'),
('C60','P','complex_vec_round_trip complex_vec_new_spec copy_from_complex_spec copy_to_complex_spec copy_round_trip',''),
('C61','P','compute_config_features compute_config_simd commands_spec split_whitespace_spec features_arg_round_trip',''),
('C64','P','fft_error ifft_error round_trip_error fft_error_rotation_tables fft_error_precomputed fft_error_l2 ifft_error_l2 round_trip_error_l2 fft_error_l2_precomputed fft_error_l2_rotation','standard model of floating-point arithmetic; overflow and underflow excluded'),
('C65','Q','fft_f64_exact_iff fft_f64_safe_accuracy_partial fft_f64_safe_exact fft_f64_long_error fft_f64_pow2_accuracy_partial fft_f64_not_double_precision fft8_f64_not_double_precision','false in general: integers and kernel constants go through f32; the lengths at which that costs nothing are determined exactly (1, 2, 4, powers of two from 32, other lengths 9 to 4097), the accuracy bound is proved there, and every other length is proved wrong'),
('C66','P','web_compute_frame web_row_shape web_chunks web_backlog web_stft_flat web_row_exact',''),
('C67','P','sanity_image sanity_short_window_panics','log mode: in a rounding arithmetic the bins are assumed to be mapped into range, which is proved for exact arithmetic (C57) and for rounding to nearest (C106)'),
('C68','Q','read_audio_mixes_partial read_audio_mono read_audio_no_channels read_wav_interleaved read_wav_not_mixed','false for WAV files with several channels (read_wav ignores the channel count): negation proved; proved for every other format'),
('C69','P','fft_linear fft_parseval ifft_parseval fft_shift fft_modulation fft_real_symmetric fft_impulse fft_tone fft_circular_convolution fft_linear_convolution','Exact arithmetic; the transformer may have been used before with transforms no larger.'),
('C70','Q','fft_word_size_partial ifft_word_size_partial fft_is_dft_word_partial fft_32bit_wrong dht_word_size_partial dht_32bit_wrong','False in general: fft_32bit_wrong is a 100000-point counterexample on 32-bit targets. Proved for every length up to 2^(B/2) and every power of two below 2^B, bit for bit, for every arithmetic; for the Hartley transform whenever (n-1)^2 fits.'),
('C71','P','readme_section readme_no_marker readme_again readme_grows','All four clauses, for any markers and any text.'),
('C72','P','rfft_error irfft_error rfft_round_trip_error','standard model of floating-point arithmetic; overflow and underflow excluded'),
('C73','P','dct1_error dct2_error dct3_error dct4_error dst1_error dst2_error dst3_error dst4_error dht_error directGrowth_linear','standard model of floating-point arithmetic; overflow and underflow excluded'),
('C74','P','stft_error istft_stft_error','standard model of floating-point arithmetic; overflow and underflow excluded'),
('C75','P','fft2d_error fft3d_error','standard model of floating-point arithmetic; overflow and underflow excluded; shapes as in C29, C30'),
('C76','P','fft_stack_error ifft_stack_error stack_round_trip_error rfft_stack_error irfft_stack_error stackGrowth_linear','Overflow and underflow are outside the rounding model.'),
 ('C77','P','xtask_commands xtask_exit xtask_analyze xtask_detect','External programs and the character classes are parameters; printing is not modelled.'),
('C78','P','split_default_spec simd_fft_fresh simd_ifft_fresh simd_split_fresh simd_strided_fresh simd_oop_strided_fresh simd_strategy_fresh simd_split_len1_panics simd_fft_is_dft twiddle_get_panics twiddle_get_exact twiddle_get_error','The SIMD structs call the scalar code; the crate has no vector kernels of its own for them.'),
('C79','P','fft_used_iff fft_spoilt fft_history_iff ifft_history_iff fft_spoilt_blu batch_spoilt batch_history_iff batch_inverse_history_iff fft2d_iff fft2d_history_iff','Exact characterisation of the history effect behind C05, C21 and C29.'),
('C80','P','radix4_rearranged radix4_always_wrong plan_radix4_always_wrong','Generalises radix4_wrong of C15 to all lengths 4^k and all histories.'),
('C81','P','czt_error cztGrowth_linear hilbert_error plan_dct2_error haar_round_trip_error window_error windowGrowth_f32','Standard model: no overflow or underflow; comparison for equality exact.'),
('C82','Q','strided_word_partial strided_word_overflow fft2d_word_partial fft2d_word_overflow fft3d_word_partial stft_word_partial stft_word_required istft_word_partial stream_word stft_64bit_wrong istft_64bit_wrong fft2d_64bit_panics strided_64bit_panics fft3d_word_wrong','False in general (the five negations). The overflowing strided and two-dimensional calls are characterised exactly; for the others the non-overflowing range is proved.'),
('C83','P','session_linear session_map session_scale session_silence session_homogeneous trig_linear wavelet_linear czt_linear hilbert_linear parallel_linear stream_linear streamRead_linear linRel_scale linRel_silence','Bit-exact, any arithmetic; scaling is stated for binary floating point with p digits and unbounded exponents.'),
('C84','P','session_shape trig_shape','Windows and the sum-of-squares scratch are parameters of the calls here, not data.'),
('C85','P','fft_ieee ifft_ieee fft_binary32 fft_pair_overflows fft_impulse_overflows binary32 binary64 binFlt_overflows','Range of libm functions: sin/cos of finite arguments are assumed finite and within t.'),
('C86','P','fft_not_finite ifft_not_finite rfft_not_finite irfft_not_finite stft_not_finite trig_not_finite fft2d_not_finite fft3d_not_finite hilbert_not_finite czt_not_finite fft_poison binFlt_sticky','irfft ignores the imaginary parts of the first and last bin (C05). fft_poison is a defect: finite inputs, non-finite outputs.'),
('C87','P','retained_bounded rfft_retained_bounded dct_retained_bounded dst_retained_bounded istft_stream_memory istft_stream_unbounded','IstftStream buffers are never compacted (a defect): exact growth and unboundedness proved.'),
('C88','P','stft_local stft_shift stream_local istft_local haar_local wavelets_local','Any arithmetic, bit for bit.'),
('C89','Q','fft_pow2_pointers_partial fft_other_length_pointers_partial fft_custom_pointers_partial split_pointers_partial ifft_pow2_pointers_partial ifft_other_length_pointers_partial ifft_parallel_pointers_invalid passes_agree fft_accesses_in_bounds ifft_accesses_in_bounds split_accesses_in_bounds passes_touch_once','The claim is false of the code: exactly when it holds is proved for both rule sets (fresh transformer; no protectors; one range per array).'),
('C90','P','rfft_uninit irfft_uninit strided_alloc_uninit','Any arithmetic, bit for bit.'),
('C91','P','during_begin_end abandoned_then_returns abandoned_then_fresh abandoned_then_dft','Unwinding is modelled as stopping with the planner as it is; an allocation failure that aborts the process is outside.'),
('C92','P','planner_exclusive tables_computed_once reentry_overlaps','reentry_overlaps: the negation without the proviso.'),
('C93','P','example_main example_image example_reading',''),
('C94','P','decision_of_settings decision_of_settings_nostd environment_read_once any_decision_same_result settings_torn',''),
('C95','P','fft_operations_pow2 fft_operations_any fft_n_log_n fft_operations_again fft_operations_again_any ifft_operations rfft_operations irfft_operations direct_transforms_quadratic goertzel_linear',''),
('C96','Q','parallel_word_agrees_partial parallel_threshold_set parallel_panics_iff_debug parallel_panics_iff_release parallel_small_word_panics parallel_host_result parallel_huge_settings parallel_release_calibration','False on 32-bit targets in the debug profile and for settings whose product overflows (negations proved); when a decision panics is characterised exactly in both profiles.'),
('C97','Q','alloc_count alloc_peak_partial alloc_peak_any alloc_peak_real alloc_retries alloc_steps alloc_progress alloc_peak_wraps','The peak is the largest number of bytes in use only if what is freed after the reset was allocated after it; what is reported otherwise is characterised exactly (alloc_peak_any), with a counterexample (alloc_peak_wraps).'),
('C98','Q','bench_report_same bench_report_sorted bench_report_prev bench_report_best bench_report_winner bench_saved bench_crash_safe_partial bench_last_good_partial bench_zero_time_lost bench_rename_fails codec_exists','The report clauses are proved in full. Keeping the results needs renames that succeed and rates that are finite; the negations are proved.'),
('C99','Q','updater_rejects updater_rejects_saved updater_partial table_lines','False for every file the benchmark writes (updater_rejects); proved for files with the keys the updater wants.'),
('C100','P','rfft_ieee irfft_ieee rfft_binary32 binGrowth_le binary32','Bounds in closed form for binary32 lengths 2*2^K, K = 5..16 (rfft_binary32).'),
('C101','P','stft_ieee fft2d_ieee fft3d_ieee','For stft the room is asked frame by frame.'),
('C102','P','svg_pixels cssColor_fill','The serialisation by the svg crate is not modelled.'),
('C103','P','read_audio_stream read_audio_fails read_audio_growing_packet_panics read_audio_fewer_channels_panics read_audio_other','The assertion inside copy_interleaved_ref of the external crate is an assumption of the model.'),
('C104','P','goertzel_accuracy goertzel_radicand_pos goertzel_nan goertzel_bin_below','The bin is the one the function computes in its own arithmetic; for f n / rate within rounding of an integer it can differ from the exact floor.'),
('C105','P','kaiser_radicand_nonneg bartlett_range_rounded window_one_not_finite','In exact arithmetic see C53.'),
('C106','P','map_bin_in_range log_scale_bins_no_panic log_scale_top_empty sanity_image_log_no_panic sanity_image_top_empty','In exact arithmetic see C57.'),
('C107','P','trig_finite mel_finite mfcc_finite cepstrum_finite hilbert_finite trig_binary32 mfcc_binary32 cepstrum_binary32 hilbert_binary32 binary32_elementary haar_finite haar_inverse_finite bank_finite db2_finite bank_inverse_finite haar_multi_finite haar_multi_inverse_finite wavelet_binary32 wavelet_inverse_binary32 wavelet_multi_binary32 czt_finite czt_binary32','The other direction (NaN in, NaN out) is C86.'),
('C108','P','mel_error mfcc_error cepstrum_error mel_bins_error mel_bins_neighbour mel_bins_binary32 melGrowth_linear rndFlt_libm','The energy bound is stated for the edges the program computes; how far these are from the exact ones is mel_bins_error. Exact arithmetic: C47, C48.'),
('C109','P','colour_close magnitude_colour_error scaled_colour_error magnitude_to_db_error db_scale_error palette_ends_rounded magnitude_colour_ends db_scale_ends brightness_monotone stft_magnitudes_error rndFlt_display','The colorous palettes (viridis, plasma, inferno) are an external crate. Exact arithmetic: C55, C56, C58.'),
('C110','P','image_error image_binary32 image_peak image_silent colour_within colour_of_perturbed','Linear scale; on the logarithmic scale the assignment of bins to rows may itself differ between arithmetics (C106). image_silent covers both scales.'),
('C111','P','haar_forward_operations haar_multi_operations haar_multi_inverse_operations stft_operations istft_operations dht_operations czt_operations hilbert_operations cepstrum_operations fft2d_operations fft3d_operations bank_forward_operations bank_inverse_operations db2_operations bank_multi_operations bank_multi_inverse_operations db2_multi_operations','Upper bounds on arithmetic operations; index arithmetic and copies are not counted.'),
('C112','P','haar_multi_values haar_pcm_exact haar_pcm_lossless haar_audio_lossless haar_pcm_sharp haar_multi_error','For the lengths for which the synthesis does not panic (C50).'),
('C113','P','dct2_dct3_trip dct4_trip dct1_trip dst1_trip dst4_trip dht_trip tripGrowth_linear','standard model of floating-point arithmetic; overflow and underflow excluded'),
('C114','P','bessel0_series kaiser_truncation kaiser_error kaiserGrowth_binary32 kaiser_centre_lost','underflow excluded in the accuracy theorem; the last theorem is a defect of the code: NaN for beta >= 21'),
('C115','P','blackman_error nuttall_error bohman_error bartlett_error windowsGrowth_linear','standard model of floating-point arithmetic; the tukey window is not covered: its taper length is a floor of a rounded product'),
('C116','P','fft_impulse_exact fft_constant_exact','unbounded exponent range; signed zeros identified'),
('C117','P','fft_real_bins fft_integer_bins rfft_integer_bins fft4_integer','unbounded exponent range; signed zeros identified'),
('C118','P','fft2d_constant_exact fft2d_impulse_exact fft3d_constant_exact','unbounded exponent range; signed zeros identified; shapes not affected by the leftover bug of C29/C30'),
('C119','P','fft_parseval_rounded fft_real_symmetric_rounded fft_additive_rounded circular_convolution_error linear_convolution_error convGrowth_precomputed integer_convolution_exact','unbounded exponent range'),
('C120','P','integer_round_trip integer_round_trip_precomputed integer_round_trip_rotation stack_integer_round_trip','unbounded exponent range'),
('C121','P','canvas_pixels page_shows_frames page_db','app.mjs as committed has two syntax errors; modelled with the leftover lines removed. DOM and audio decoding not modelled'),
('C122','Q','shader_rainbow_partial webgl_pixel renderers_agree_iff canvas_level levels_agree_iff','false in general: transposed texture upload and natural logarithm; exact conditions proved. Ideal texture upload and real arithmetic assumed'),
('C123','Q','sw_answers sw_stale sw_offline_false sw_offline_partial','false in general; negations proved. URL matching is equality of addresses; the page itself never registers the worker'),
('C124','Q','dct_example_agrees dct_example_short_table embedded_pipeline_partial embedded_pipeline_inverse_iff','false for the embedded example (forward transform used as inverse); exact result and iff proved'),
('C125','P','cycles_error cycles_exact cycles_error_precomputed cycles_error_rotation integer_cycles stack_cycles_error real_cycles_error','norms: l2 for fft/ifft, sum of absolute values for the stack-only and real transforms'),
('C126','P','integer_rfft_trip integer_stft_trip integer_stft_trip_precomputed hann_power integer_stft_trip_hann','sufficient condition; the zeroed output buffer is the documented way to call istft'),
('C127','P','builds_agree builds_agree_inverse stack_agrees rfft_agrees rfft_stack_agrees dht_agrees','explicit growth factors'),
('C128','P','synV_four db2_interior_error db2_multi_interior db2_integer_trip db2_multi_integer_trip db2_audio_lossless','interior samples; what happens at the ends is in C51'),
('C62','P','frame_transforms_segment frame_short_panics inverse_frame_adds inverse_frame_accumulates',''),
('C63','P','dst_planner_transparent dst_tables dst_scratch_length',''),
]
S={'P':'proved','Q':'partial','N':'not_applicable'}
json.dump({'claims':[{'property':i,'status':S[s],'theorems':[P+t for t in th.split()],'note':n} for i,s,th,n in M]},open('/verif/MANIFEST.json','w'),indent=1)
