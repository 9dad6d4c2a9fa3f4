{
 "claims": [
  {
   "property": "C01",
   "status": "proved",
   "theorems": [
    "Ssq.C01_default_pad_length",
    "Ssq.C01_next_power_of_two_refuted"
   ],
   "note": "The docstring (\"next power of 2\") is refuted separately."
  },
  {
   "property": "C02",
   "status": "partial",
   "theorems": [
    "Ssq.C02_C03_padding_partial",
    "Ssq.C02_symmetric_zero_left_refuted",
    "Ssq.C02_symmetric_long_refuted",
    "Ssq.C02_symmetric_iff",
    "Ssq.C02_unsupported_rejected",
    "Ssq.C02_shrink_rejected"
   ],
   "note": "False of the code for padtype='symmetric' outside N < L <= 3N; exact condition proved (C02_symmetric_iff)."
  },
  {
   "property": "C03",
   "status": "partial",
   "theorems": [
    "Ssq.C02_C03_padding_partial",
    "Ssq.C02_symmetric_iff",
    "Ssq.C03_refuted"
   ],
   "note": "False of the code for padtype='symmetric' outside N < L <= 3N (C03_refuted); all other schemes unconditional."
  },
  {
   "property": "C04",
   "status": "partial",
   "theorems": [
    "Ssq.C04_tones",
    "Ssq.C04_call",
    "Ssq.C04_aligned_partial",
    "Ssq.C04_rpadded",
    "Ssq.C04_refuted"
   ],
   "note": "False of the code with the default N=None: the result has n2 extra columns (C04_refuted), and 3D input always raises ValueError. C04_aligned_partial proves alignment when N is passed, C04_rpadded for padded input, C04_tones the derivative itself."
  },
  {
   "property": "C05",
   "status": "proved",
   "theorems": [
    "Ssq.C05_buffer_frames",
    "Ssq.C05_buffer_batched"
   ],
   "note": ""
  },
  {
   "property": "C06",
   "status": "proved",
   "theorems": [
    "Ssq.C06_buffer_parallel",
    "Ssq.C06_buffer_gpu"
   ],
   "note": ""
  },
  {
   "property": "C07",
   "status": "proved",
   "theorems": [
    "Ssq.C07_stft_entries",
    "Ssq.C07_centre_tap",
    "Ssq.C07_fft_length"
   ],
   "note": "1D numpy path; symmetric padding under the guard of C02."
  },
  {
   "property": "C08",
   "status": "partial",
   "theorems": [
    "Ssq.C08_istft_stft_partial",
    "Ssq.C08_positive_window",
    "Ssq.istft_uncovered_zero",
    "Ssq.C08_nola_refuted"
   ],
   "note": "Exact at every sample whose window-power sum exceeds the threshold; \"NOLA implies everywhere\" is false of the code."
  },
  {
   "property": "C09",
   "status": "partial",
   "theorems": [
    "Ssq.C09_short_fft_empty_refuted",
    "Ssq.C09_length_partial"
   ],
   "note": "False of the code for n_fft 1 and 2 (empty result); proved for n_fft >= 3."
  },
  {
   "property": "C10",
   "status": "partial",
   "theorems": [
    "Ssq.C10_get_window_partial",
    "Ssq.C10_too_long_rejected",
    "Ssq.C10_array_length_iff",
    "Ssq.C10_length_refuted",
    "Ssq.C10_centre",
    "Ssq.C10_values_partial"
   ],
   "note": "False for arrays whose length is not win_len; exact condition proved. Tap values: C10_values_partial."
  },
  {
   "property": "C11",
   "status": "partial",
   "theorems": [
    "Ssq.C11_short_array_window_refuted",
    "Ssq.C11_same_window_length_partial"
   ],
   "note": "False of the code for short array windows; holds when the window length in effect is passed."
  },
  {
   "property": "C12",
   "status": "proved",
   "theorems": [
    "Ssq.C12_modulation_phase"
   ],
   "note": ""
  },
  {
   "property": "C13",
   "status": "partial",
   "theorems": [
    "Ssq.C13_derivative_units_partial",
    "Ssq.C13_unmodulated_ignores_fs_refuted",
    "Ssq.C13_unmodulated_refuted"
   ],
   "note": "False of the code for modulated=False."
  },
  {
   "property": "C14",
   "status": "partial",
   "theorems": [
    "Ssq.C14_inverse_partial",
    "Ssq.C14_unit_rate",
    "Ssq.C14_rate_refuted"
   ],
   "note": "False of the code: the inverse is multiplied by the sampling frequency (C14_rate_refuted). C14_inverse_partial gives the exact value returned for every signal, window, n_fft, pad type, gamma, flipud, get_w, device and sampling frequency; C14_unit_rate is the claim itself for fs=1 and even n_fft. Odd n_fft: exact formula only."
  },
  {
   "property": "C15",
   "status": "proved",
   "theorems": [
    "Ssq.C15_rejects",
    "Ssq.C15_accepts"
   ],
   "note": "Both directions: rejection whatever the other arguments, acceptance for every other value when the remaining arguments are usable."
  },
  {
   "property": "C16",
   "status": "proved",
   "theorems": [
    "Ssq.C16_two_pass",
    "Ssq.C16_fused_cwt",
    "Ssq.C16_fused_stft"
   ],
   "note": ""
  },
  {
   "property": "C17",
   "status": "proved",
   "theorems": [
    "Ssq.C17_two_pass",
    "Ssq.C17_fused"
   ],
   "note": "CPU and GPU index functions. Arbitrary grids: see C69."
  },
  {
   "property": "C18",
   "status": "proved",
   "theorems": [
    "Ssq.C18_weights",
    "Ssq.C18_lin",
    "Ssq.C18_fused"
   ],
   "note": "Ties go to the even row on CPU and to the larger row on GPU."
  },
  {
   "property": "C19",
   "status": "proved",
   "theorems": [
    "Ssq.C19_log",
    "Ssq.C19_fused"
   ],
   "note": ""
  },
  {
   "property": "C20",
   "status": "proved",
   "theorems": [
    "Ssq.C20_piecewise",
    "Ssq.C20_fused"
   ],
   "note": ""
  },
  {
   "property": "C21",
   "status": "proved",
   "theorems": [
    "Ssq.C21_schedule",
    "Ssq.C21_indexed_sum",
    "Ssq.C21_indexed_sum_simple",
    "Ssq.C21_onfly",
    "Ssq.C21_fast"
   ],
   "note": "Load/store granularity, arbitrary addition."
  },
  {
   "property": "C22",
   "status": "proved",
   "theorems": [
    "Ssq.C22_two_pass",
    "Ssq.C22_fused"
   ],
   "note": ""
  },
  {
   "property": "C23",
   "status": "partial",
   "theorems": [
    "Ssq.C23_cwt_partial",
    "Ssq.C23_stft_partial",
    "Ssq.C23_refuted",
    "Ssq.fast_eq_onfly_cwt",
    "Ssq.fast_eq_onfly_stft"
   ],
   "note": "False of the code for cells with |Wx| = gamma exactly; proved when there are none."
  },
  {
   "property": "C24",
   "status": "proved",
   "theorems": [
    "Ssq.C24_phase",
    "Ssq.C24_two_pass_cwt",
    "Ssq.C24_two_pass_stft",
    "Ssq.C24_fused"
   ],
   "note": ""
  },
  {
   "property": "C25",
   "status": "proved",
   "theorems": [
    "Ssq.C25_linear",
    "Ssq.C25_zero"
   ],
   "note": ""
  },
  {
   "property": "C26",
   "status": "partial",
   "theorems": [
    "Ssq.C26_sum_partial",
    "Ssq.C26_refuted"
   ],
   "note": "The full statement is false of the code: ssqueeze replaces Wx by the squeezing measure before the fused kernels compute the phase from it, so 'abs', 'lebesgue' and functions give another Tx with get_w=False (refuted for 'abs'). Proved for 'sum' with no cell of modulus exactly gamma."
  },
  {
   "property": "C27",
   "status": "partial",
   "theorems": [
    "Ssq.C27_linear_partial",
    "Ssq.C27_log_partial",
    "Ssq.C27_noflip",
    "Ssq.C27_refuted"
   ],
   "note": "Proved for the STFT (either flipud) on uniform grids and for the CWT with flipud=True on geometric and two-segment grids. False for the CWT with flipud=False: C27_noflip shows that for every such call the returned frequencies are in the opposite order."
  },
  {
   "property": "C28",
   "status": "proved",
   "theorems": [
    "Ssq.C28_log",
    "Ssq.C28_linear",
    "Ssq.C28_piecewise",
    "Ssq.C28_maximal"
   ],
   "note": "log, linear and log-piecewise; 'maximal' range is non-degenerate for N>=3; the internal assertion of the piecewise scheme is shown to hold when the two slopes differ."
  },
  {
   "property": "C29",
   "status": "partial",
   "theorems": [
    "Ssq.C29_check_iff",
    "Ssq.C29_errors",
    "Ssq.C29_downstream_partial",
    "Ssq.C29_downstream_refuted",
    "Ssq.C29_triple_refuted"
   ],
   "note": "The checker is characterised exactly (C29_check_iff). The second half is false of the code: a list or a tuple of another length is accepted and then fails downstream."
  },
  {
   "property": "C30",
   "status": "proved",
   "theorems": [
    "Ssq.C30_smart",
    "Ssq.C30_brute",
    "Ssq.C30_smart_eq_brute",
    "Ssq.C30_default"
   ],
   "note": "For any sorting permutation argsort may return."
  },
  {
   "property": "C31",
   "status": "partial",
   "theorems": [
    "Ssq.C31_refuted",
    "Ssq.C31_out_of_grid_refuted",
    "Ssq.C31_lin_partial",
    "Ssq.C31_log_partial"
   ],
   "note": "False of the code: the clamp uses the number of rows of the matrix. Proved when that equals the grid length."
  },
  {
   "property": "C32",
   "status": "partial",
   "theorems": [
    "Ssq.C32_valid",
    "Ssq.C32_optimal_partial",
    "Ssq.C32_refuted"
   ],
   "note": "Validity of the indices is proved for every input. Exact optimality is false of the code, which accepts any predecessor within eps of the best (C32_refuted); C32_optimal_partial bounds the excess by (nT-1)*eps for every order of the iterations, on inputs with energy in every column."
  },
  {
   "property": "C33",
   "status": "partial",
   "theorems": [
    "Ssq.C33_modulo",
    "Ssq.C33_last_partial",
    "Ssq.C33_global_partial",
    "Ssq.C33_refuted"
   ],
   "note": "False of the code with more rows than columns: the index of the best row is reduced modulo the number of columns (C33_modulo is exact). Proved for nF <= nT."
  },
  {
   "property": "C34",
   "status": "partial",
   "theorems": [
    "Ssq.C34_cleared_partial",
    "Ssq.C34_repeated",
    "Ssq.C34_refuted"
   ],
   "note": "False of the code for ridges in the first bw rows, where the slice bound is negative and nothing is cleared: C34_repeated shows the next ridge is the same one. Proved where the earlier ridge is at row bw or above."
  },
  {
   "property": "C35",
   "status": "partial",
   "theorems": [
    "Ssq.C35_order_partial",
    "Ssq.C35_refuted"
   ],
   "note": "False of the code for near ties (C35_refuted); proved for every order of iterations when no cell has two near-best predecessors. The order of the prange iterations is modelled; torn reads inside one iteration are not."
  },
  {
   "property": "C36",
   "status": "proved",
   "theorems": [
    "Ssq.C36_linear"
   ],
   "note": ""
  },
  {
   "property": "C37",
   "status": "partial",
   "theorems": [
    "Ssq.C37_rows_partial",
    "Ssq.C37_succeeds",
    "Ssq.C37_gmw_rejected",
    "Ssq.C37_vectorized_partial",
    "Ssq.C37_refuted",
    "Ssq.C37_shift",
    "Ssq.C37_rows_any"
   ],
   "note": "Rows and equality of the two code paths proved for wavelets without imaginary part, shift equivariance for all. False of the code for complex wavelets: the imaginary part is dropped by a test over all rows in one path and over one row in the other (C37_refuted). C37_rows_any gives all rows for every wavelet and code path, with the test that drops imaginary parts made explicit."
  },
  {
   "property": "C38",
   "status": "proved",
   "theorems": [
    "Ssq.C38_derivative",
    "Ssq.C38_tone"
   ],
   "note": ""
  },
  {
   "property": "C39",
   "status": "proved",
   "theorems": [
    "Ssq.C39_phase",
    "Ssq.C39_one_row_log",
    "Ssq.C39_one_row_linear"
   ],
   "note": "Default flipud; nearest on a log scale for geometric frequency grids, on a linear scale for uniform ones."
  },
  {
   "property": "C40",
   "status": "proved",
   "theorems": [
    "Ssq.C40_filter_any",
    "Ssq.C40_exact_any",
    "Ssq.C40_necessary_any",
    "Ssq.C40_filter",
    "Ssq.C40_exact",
    "Ssq.C40_necessary",
    "Ssq.C40_xlen_default"
   ],
   "note": "One-integral inverse, for every wavelet (complex dtype included, with its test for dropping imaginary parts), pad type, trimmed or padded, every array of positive scales that icwt accepts. The theorems without _any are the case of real wavelets with explicit weights. The two-integral inverse is C98."
  },
  {
   "property": "C41",
   "status": "partial",
   "theorems": [
    "Ssq.C41_equal_partial",
    "Ssq.C41_linear",
    "Ssq.C41_refuted"
   ],
   "note": "Equality proved for log and log-piecewise scales. False of the code for linear scales: icwt multiplies by pi/4 where issq_cwt has the scale step (C41_linear gives both values, C41_refuted a witness)."
  },
  {
   "property": "C42",
   "status": "partial",
   "theorems": [
    "Ssq.C42_count",
    "Ssq.C42_mean_partial",
    "Ssq.C42_refuted"
   ],
   "note": "False of the code for piecewise scales: x_mean is added once per piece (C42_count gives the exact count)."
  },
  {
   "property": "C43",
   "status": "partial",
   "theorems": [
    "Ssq.C43_contents",
    "Ssq.C43_sum_exact",
    "Ssq.C43_split_partial",
    "Ssq.C43_single_curve",
    "Ssq.C43_overlap_refuted",
    "Ssq.C43_band_below_takes_row_zero",
    "Ssq.C43_one_given"
   ],
   "note": "False of the code for overlapping bands (C43_overlap_refuted). C43_contents and C43_sum_exact give the exact components, remainder and sum for all curves; C43_split_partial is the claim for disjoint bands, C43_single_curve for every single curve."
  },
  {
   "property": "C44",
   "status": "partial",
   "theorems": [
    "Ssq.C44_log_partial",
    "Ssq.C44_refuted"
   ],
   "note": "The scales never reach max_scale (refuted); geometric, increasing, and within 2 voices of the bounds (proved)."
  },
  {
   "property": "C45",
   "status": "partial",
   "theorems": [
    "Ssq.C45_infer_partial",
    "Ssq.C45_process_partial",
    "Ssq.C45_refuted"
   ],
   "note": "False of the code for fewer than 3 scales; proved otherwise."
  },
  {
   "property": "C46",
   "status": "proved",
   "theorems": [
    "Ssq.C46_piecewise",
    "Ssq.C46_transition",
    "Ssq.C46_few_scales_refuted"
   ],
   "note": "Too few scales raise UnboundLocalError (C46_few_scales_refuted); whenever a grid is returned the property holds."
  },
  {
   "property": "C47",
   "status": "partial",
   "theorems": [
    "Ssq.C47_string",
    "Ssq.C47_string_reject",
    "Ssq.C47_other",
    "Ssq.C47_array_partial",
    "Ssq.C47_array_refuted"
   ],
   "note": "Strings fully characterised. Positivity of arrays is not enforced (refuted)."
  },
  {
   "property": "C48",
   "status": "partial",
   "theorems": [
    "Ssq.C48_fs_t_partial",
    "Ssq.C48_refuted",
    "Ssq.C48_negative_refuted",
    "Ssq.C48_nonuniform_refuted"
   ],
   "note": "fs from a time vector can be infinite or negative, and the vector non-uniform (refuted); the rest proved."
  },
  {
   "property": "C49",
   "status": "proved",
   "theorems": [
    "Ssq.C49_xifn"
   ],
   "note": ""
  },
  {
   "property": "C50",
   "status": "partial",
   "theorems": [
    "Ssq.C50_inverse",
    "Ssq.C50_sorted_partial",
    "Ssq.C50_odd_refuted"
   ],
   "note": "Mutual inverses for every length; ascending frequencies proved for even lengths and refuted for every odd length >= 3."
  },
  {
   "property": "C51",
   "status": "proved",
   "theorems": [
    "Ssq.C51_gmw",
    "Ssq.C51_gmw_pos",
    "Ssq.C51_order_one_negative",
    "Ssq.C51_bump",
    "Ssq.C51_cmhat",
    "Ssq.C51_hhhat",
    "Ssq.C51_morlet",
    "Ssq.C51_analytic"
   ],
   "note": "Exact arithmetic (no underflow)."
  },
  {
   "property": "C52",
   "status": "proved",
   "theorems": [
    "Ssq.C52_peak"
   ],
   "note": ""
  },
  {
   "property": "C53",
   "status": "proved",
   "theorems": [
    "Ssq.C53_order_zero",
    "Ssq.C53_laguerre",
    "Ssq.C53_formula"
   ],
   "note": ""
  },
  {
   "property": "C54",
   "status": "proved",
   "theorems": [
    "Ssq.C54_nCk",
    "Ssq.C54_nCk_beyond",
    "Ssq.C54_cumulants",
    "Ssq.C54_every_list",
    "Ssq.C54_additive"
   ],
   "note": "nCk(n,k) is 1 for k > n (C54_nCk_beyond), where the binomial coefficient is 0."
  },
  {
   "property": "C55",
   "status": "partial",
   "theorems": [
    "Ssq.C55_tolerance_partial",
    "Ssq.C55_exact_partial",
    "Ssq.C55_last",
    "Ssq.C55_nohalf",
    "Ssq.C55_close",
    "Ssq.C55_interrupted",
    "Ssq.C55_after_error",
    "Ssq.C55_aliased",
    "Ssq.C55_refuted",
    "Ssq.C55_nothing",
    "Ssq.C55_samples"
   ],
   "note": "False of the code: nohalf is not part of the cache key, scales are compared by allclose, an exception between the two cache updates or an in-place edit of the returned array leaves a wrong entry. Proved, for every history of completed calls with one nohalf and no edits, that the samples are those of scales within the allclose tolerance (exact when all scale arrays used are farther apart)."
  },
  {
   "property": "C56",
   "status": "partial",
   "theorems": [
    "Ssq.C56_return_partial",
    "Ssq.C56_exception",
    "Ssq.C56_refuted"
   ],
   "note": "False of the code when cwt raises after setting wavelet.N (C56_exception says exactly when); proved for every call that returns."
  },
  {
   "property": "C57",
   "status": "partial",
   "theorems": [
    "Ssq.C57_uncached",
    "Ssq.C57_value_partial",
    "Ssq.C57_kept_partial",
    "Ssq.C57_direction",
    "Ssq.C57_overwritten",
    "Ssq.C57_refuted"
   ],
   "note": "Holds in full with caching off, the default (C57_uncached). With caching on: forward and inverse share a key (C57_direction) and the output buffer of an earlier result is overwritten (C57_overwritten)."
  },
  {
   "property": "C58",
   "status": "partial",
   "theorems": [
    "Ssq.C58_atomic",
    "Ssq.C58_accepted",
    "Ssq.C58_history_partial",
    "Ssq.C58_cwt_left",
    "Ssq.C58_stuck",
    "Ssq.C58_refuted"
   ],
   "note": "False of the code: the members of a tuple are not validated, and an exception inside cwt leaves the patience it set, after which every later cwt with the default argument keeps it (C58_stuck)."
  },
  {
   "property": "C59",
   "status": "proved",
   "theorems": [
    "Ssq.C59_defaults",
    "Ssq.C59_returned"
   ],
   "note": "Section named by the caller ('module.obj'); for the section derived from the calling frame see C88."
  },
  {
   "property": "C60",
   "status": "proved",
   "theorems": [
    "Ssq.C60_parallel",
    "Ssq.C60_parallel_env",
    "Ssq.C60_parallel_other",
    "Ssq.C60_gpu"
   ],
   "note": "A configured False counts as 0. C60_parallel_other: against the docstring ('former overrides latter'), SSQ_PARALLEL='1' does not override a configured 0."
  },
  {
   "property": "C61",
   "status": "partial",
   "theorems": [
    "Ssq.C61_parse_partial",
    "Ssq.C61_value",
    "Ssq.C61_spaces",
    "Ssq.C61_repeated",
    "Ssq.C61_refuted"
   ],
   "note": "False of the code: a line holding only spaces raises ValueError (C61_spaces) and a repeated module heading drops the earlier section (C61_repeated). Proved for all files with empty blank lines and sections given once, any spacing, any text after END."
  },
  {
   "property": "C62",
   "status": "partial",
   "theorems": [
    "Ssq.C62_cover",
    "Ssq.C62_launch",
    "Ssq.C62_refuted",
    "Ssq.C62_grid_partial",
    "Ssq.C62_cells",
    "Ssq.C62_columns"
   ],
   "note": "Coverage (exactly one thread per cell or column) and schedule independence hold for every shape. The full statement is refuted because the 2D launch is not accepted by CUDA beyond 2097120 columns (gridDim.y limit); the limits themselves are taken from the CUDA guide."
  },
  {
   "property": "C63",
   "status": "partial",
   "theorems": [
    "Ssq.C63_refuted",
    "Ssq.C63_replace_partial",
    "Ssq.C63_self",
    "Ssq.C63_rejects",
    "Ssq.C63_under_abs",
    "Ssq.C63_under_abs_cases",
    "Ssq.C63_under_abs_default",
    "Ssq.C63_zero_denormals",
    "Ssq.C63_zero_denormals_strided"
   ],
   "note": "Refuted when the reference is an overlapping view of the array; proved otherwise (no reference, or one elsewhere in memory). Also: replace_under_abs needs a reference although it is documented as optional, zero_denormals does nothing to a non-contiguous array. Real values only."
  },
  {
   "property": "C64",
   "status": "partial",
   "theorems": [
    "Ssq.C64_min_neglect",
    "Ssq.C64_min_neglect_empty",
    "Ssq.C64_max_result",
    "Ssq.C64_max_global",
    "Ssq.C64_refuted",
    "Ssq.C64_terminates_partial",
    "Ssq.C64_occ_result",
    "Ssq.C64_occ_exact",
    "Ssq.C64_occ_refuted"
   ],
   "note": "Termination is refuted when int(steps_per_search * step_size) = 0 and proved when it is positive. find_first_occurrence is refuted as documented; what it does return is proved. Exact arithmetic."
  },
  {
   "property": "C65",
   "status": "partial",
   "theorems": [
    "Ssq.C65_lchirp",
    "Ssq.C65_echirp_pc",
    "Ssq.C65_echirp_partial",
    "Ssq.C65_hchirp_partial",
    "Ssq.C65_refuted",
    "Ssq.C65_tmax_zero",
    "Ssq.C65_flat"
   ],
   "note": "lchirp and echirp_pc in full. echirp raises for tmax = 0 and neither echirp nor hchirp is finite for equal frequencies (refuted); proved otherwise."
  },
  {
   "property": "C66",
   "status": "proved",
   "theorems": [
    "Ssq.C66_sine",
    "Ssq.C66_span",
    "Ssq.C66_gauss",
    "Ssq.C66_exp"
   ],
   "note": "Exact arithmetic; am_exp for 0 < amin < amax and tmax other than 0."
  },
  {
   "property": "C67",
   "status": "partial",
   "theorems": [
    "Ssq.C67_refuted",
    "Ssq.C67_distinct_partial",
    "Ssq.C67_single",
    "Ssq.C67_count",
    "Ssq.C67_served",
    "Ssq.C67_rejects",
    "Ssq.C67_demo",
    "Ssq.C67_all"
   ],
   "note": "False of the code: results are filed by name, so repeated names (also 'am-x' beside 'cosine:am-x') collapse to one, possibly returned bare. Proved for distinct names, which covers 'all'."
  },
  {
   "property": "C68",
   "status": "partial",
   "theorems": [
    "Ssq.C68_refuted",
    "Ssq.C68_range_partial",
    "Ssq.C68_peak"
   ],
   "note": "False of the code for a single unpadded sample (the repaired index 1 is the sampling rate; an assertion fires); proved for two samples or more."
  },
  {
   "property": "C69",
   "status": "partial",
   "theorems": [
    "Ssq.C69_refuted",
    "Ssq.C69_partial",
    "Ssq.C17_two_pass",
    "Ssq.C17_fused"
   ],
   "note": "False of the code; C69_partial gives the grids for which it holds."
  },
  {
   "property": "C70",
   "status": "proved",
   "theorems": [
    "Ssq.C70_phase_cwt",
    "Ssq.C70_phase_stft",
    "Ssq.C70_instantaneous",
    "Ssq.C70_invariant"
   ],
   "note": ""
  },
  {
   "property": "C71",
   "status": "proved",
   "theorems": [
    "Ssq.C71_batched",
    "Ssq.C71_succeeds"
   ],
   "note": ""
  },
  {
   "property": "C72",
   "status": "partial",
   "theorems": [
    "Ssq.C72_same_partial",
    "Ssq.C72_doubled",
    "Ssq.C72_refuted"
   ],
   "note": "False of the code: for the name 'log-piecewise' (the default) whose scales have no transition the result is exactly doubled (C72_doubled). C72_same_partial proves equality otherwise (log: three or more scales; linear and piecewise: arrays recognised as such)."
  },
  {
   "property": "C73",
   "status": "partial",
   "theorems": [
    "Ssq.C73_dominant_partial",
    "Ssq.C73_silent",
    "Ssq.C73_refuted"
   ],
   "note": "False of the code once a column has no energy: from there on the ridge is row 0 (C73_silent). Proved when every column has energy and nF <= nT."
  },
  {
   "property": "C74",
   "status": "proved",
   "theorems": [
    "Ssq.C74_rescale"
   ],
   "note": ""
  },
  {
   "property": "C75",
   "status": "proved",
   "theorems": [
    "Ssq.C75_reported"
   ],
   "note": ""
  },
  {
   "property": "C76",
   "status": "proved",
   "theorems": [
    "Ssq.C76_same_cwt"
   ],
   "note": "order=0, difftype='trig' (the modelled call)."
  },
  {
   "property": "C77",
   "status": "proved",
   "theorems": [
    "Ssq.C77_orthonormal",
    "Ssq.C77_orthogonal",
    "Ssq.C77_scaled"
   ],
   "note": ""
  },
  {
   "property": "C78",
   "status": "proved",
   "theorems": [
    "Ssq.C78_moments",
    "Ssq.C78_frequencies",
    "Ssq.C78_curvature"
   ],
   "note": ""
  },
  {
   "property": "C79",
   "status": "partial",
   "theorems": [
    "Ssq.C79_accepts_partial",
    "Ssq.C79_float_order",
    "Ssq.C79_errors",
    "Ssq.C79_refuted"
   ],
   "note": "False of the code: an integer-valued positive float order passes the checker and then raises TypeError (C79_float_order). C79_accepts_partial is the exact acceptance set for all other orders."
  },
  {
   "property": "C80",
   "status": "partial",
   "theorems": [
    "Ssq.C80_array_partial",
    "Ssq.C80_zeroed",
    "Ssq.C80_refuted"
   ],
   "note": "False of the code: negative entries of the array are set to zero in place (C80_zeroed is the exact effect); unchanged when there are none."
  },
  {
   "property": "C81",
   "status": "proved",
   "theorems": [
    "Ssq.C81_samples",
    "Ssq.C81_ok"
   ],
   "note": ""
  },
  {
   "property": "C82",
   "status": "partial",
   "theorems": [
    "Ssq.C82_morsewave_partial",
    "Ssq.C82_negative",
    "Ssq.C82_zero_beta",
    "Ssq.C82_refuted"
   ],
   "note": "False of the code for negative frequencies (ValueError) and beta = 0 (ZeroDivisionError); proved for positive frequencies and beta > 0."
  },
  {
   "property": "C83",
   "status": "partial",
   "theorems": [
    "Ssq.C83_nonneg_partial",
    "Ssq.C83_opposite",
    "Ssq.C83_cancel",
    "Ssq.C83_real_part",
    "Ssq.C83_refuted"
   ],
   "note": "False of the code: the test compares a signed ratio of sums, so an imaginary part of opposite sign or with zero sum is dropped whatever its size."
  },
  {
   "property": "C84",
   "status": "partial",
   "theorems": [
    "Ssq.C84_reset",
    "Ssq.C84_history_partial",
    "Ssq.C84_refuted"
   ],
   "note": "Reset is proved for every history and iteration order. Without a reset the properties keep the value for an earlier length (C84_refuted); C84_history_partial says which values are possible and which properties are always right."
  },
  {
   "property": "C85",
   "status": "partial",
   "theorems": [
    "Ssq.C85_exact",
    "Ssq.C85_1024_partial",
    "Ssq.C85_refuted"
   ],
   "note": "False of the code for N other than 1024: the mean is taken at the default N (C85_exact is the exact value, for every even N). force_int=True, nondim=False; odd N not covered."
  },
  {
   "property": "C86",
   "status": "partial",
   "theorems": [
    "Ssq.C86_ignored",
    "Ssq.C86_centred_partial",
    "Ssq.C86_refuted"
   ],
   "note": "False of the code: 'force_int or True' ignores the argument (C86_ignored)."
  },
  {
   "property": "C87",
   "status": "proved",
   "theorems": [
    "Ssq.C87_morlet",
    "Ssq.C87_cmhat",
    "Ssq.C87_hhhat"
   ],
   "note": ""
  },
  {
   "property": "C88",
   "status": "partial",
   "theorems": [
    "Ssq.C88_caller_partial",
    "Ssq.C88_refuted"
   ],
   "note": "False of the code: rstrip('.py') removes trailing letters p and y of the name itself. No call in the package relies on it."
  },
  {
   "property": "C89",
   "status": "proved",
   "theorems": [
    "Ssq.C89_nonalias"
   ],
   "note": "Exact arithmetic; the estimate takes the maximum over 50000 times, which include both ends, where the monotone frequencies are largest."
  },
  {
   "property": "C90",
   "status": "proved",
   "theorems": [
    "Ssq.C90_parameters"
   ],
   "note": "For the shapes of defaults listed in Spec.DefaultsFor."
  },
  {
   "property": "C91",
   "status": "partial",
   "theorems": [
    "Ssq.C91_refuted",
    "Ssq.C91_filled",
    "Ssq.C91_repeat_partial"
   ],
   "note": "False of the code: the caller's dicts are filled with defaults and 'snr' is replaced by the measured value. Proved without noise."
  },
  {
   "property": "C92",
   "status": "partial",
   "theorems": [
    "Ssq.C92_refuted",
    "Ssq.C92_seed_partial"
   ],
   "note": "False of the code for seed=0, which counts as no seed; proved for every other seed."
  },
  {
   "property": "C93",
   "status": "partial",
   "theorems": [
    "Ssq.C93_refuted",
    "Ssq.C93_geometric_partial",
    "Ssq.C93_ends",
    "Ssq.C93_rejects"
   ],
   "note": "False of the code for frequencies not in geometric progression: only the end scales are looked up. Exact arithmetic."
  },
  {
   "property": "C94",
   "status": "partial",
   "theorems": [
    "Ssq.C94_refuted",
    "Ssq.C94_padded",
    "Ssq.C94_cwt",
    "Ssq.C94_unbound",
    "Ssq.C94_squeeze_partial",
    "Ssq.C94_rejects"
   ],
   "note": "False of the code: Sfs is not passed on, rpadded does not unpad, and get_w with the default difftype fails. Numeric content of the transforms is a parameter."
  },
  {
   "property": "C95",
   "status": "proved",
   "theorems": [
    "Ssq.C95_values",
    "Ssq.C95_threshold",
    "Ssq.C95_tone",
    "Ssq.C95_tone_periodic"
   ],
   "note": "Exact arithmetic; at least two columns; a threshold other than 0 (0 means the default)."
  },
  {
   "property": "C96",
   "status": "partial",
   "theorems": [
    "Ssq.C96_refuted",
    "Ssq.C96_values",
    "Ssq.C96_tone_partial",
    "Ssq.C96_empty",
    "Ssq.C96_rejects"
   ],
   "note": "False of the code: the values are cycles per sample, not Hz, and the last column holds the total phase of the row. C96_values is exact for every row."
  },
  {
   "property": "C97",
   "status": "partial",
   "theorems": [
    "Ssq.C97_average",
    "Ssq.C97_list",
    "Ssq.C97_single",
    "Ssq.C97_scales",
    "Ssq.C97_rejects",
    "Ssq.C97_batch_partial",
    "Ssq.C97_batch_refuted",
    "Ssq.C97_norm_refuted",
    "Ssq.C97_norm_partial",
    "Ssq.C97_negative_refuted",
    "Ssq.C97_nonpositive"
   ],
   "note": "False of the code in three ways: a batch with named scales gets scales made for the number of signals, l1_norm is not enforced unless order 0 is included, and a negative integer order computes order 0. Proved otherwise."
  },
  {
   "property": "C98",
   "status": "partial",
   "theorems": [
    "Ssq.C98_values_partial",
    "Ssq.C98_succeeds",
    "Ssq.C98_rejects",
    "Ssq.C98_refuted",
    "Ssq.C98_pieces",
    "Ssq.C98_filter",
    "Ssq.C98_exact"
   ],
   "note": "False of the code for padtype=None (ValueError) and rpadded=True (UnboundLocalError). Values proved for log, linear and two-segment scales; reconstruction for periodic signals whose length is a power of two. Missing: reconstruction under other paddings."
  },
  {
   "property": "C99",
   "status": "partial",
   "theorems": [
    "Ssq.C99_partial",
    "Ssq.C99_refuted",
    "Ssq.C99_numeric",
    "Ssq.C99_numeric_orders",
    "Ssq.C99_numeric_short",
    "Ssq.C99_unpadded",
    "Ssq.C99_negative",
    "Ssq.C99_default",
    "Ssq.C99_default_runs"
   ],
   "note": "False of the code: with difftype='numeric' Wx keeps the padding less eight columns and dWx all of it (C99_refuted: 24 columns for 16 samples), Tx loses columns if fewer than four samples were padded on the right, and with higher orders the transform is trimmed twice; with a higher order and padtype=None as many columns are lost as the left pad would have had; a negative order is an UnboundLocalError. True otherwise (C99_partial). For signals so short that the left pad has fewer than four samples, the numeric derivative leaves Tx and w without columns (C99_numeric_short)."
  },
  {
   "property": "C100",
   "status": "proved",
   "theorems": [
    "Ssq.C100_same_cwt"
   ],
   "note": "The frequency range is that of the order-0 wavelet whatever the order."
  },
  {
   "property": "C101",
   "status": "proved",
   "theorems": [
    "Ssq.C101_batched",
    "Ssq.C101_succeeds"
   ],
   "note": ""
  },
  {
   "property": "C102",
   "status": "partial",
   "theorems": [
    "Ssq.C102_ssqueeze_partial",
    "Ssq.C102_lebesgue",
    "Ssq.C102_refuted",
    "Ssq.C102_ssq_cwt",
    "Ssq.C102_ssq_cwt_succeeds",
    "Ssq.C102_ssq_stft",
    "Ssq.C102_get_w"
   ],
   "note": "False of the code for squeezing='lebesgue': each cell counts one over the number of signals instead of one over the number of rows (C102_lebesgue is exact). True for every other squeezing."
  },
  {
   "property": "C103",
   "status": "partial",
   "theorems": [
    "Ssq.C103_refuted",
    "Ssq.C103_transform_partial",
    "Ssq.C103_rows"
   ],
   "note": "False of the code: Wx[:, n1:n1+N] cuts the scales of a batch instead of its padding, so that nothing is left when there are no more scales than left padding. The derivatives are right."
  },
  {
   "property": "C104",
   "status": "proved",
   "theorems": [
    "Ssq.C104_options",
    "Ssq.C104_forms",
    "Ssq.C104_succeeds",
    "Ssq.C104_rejects",
    "Ssq.C104_parameters",
    "Ssq.C104_dtype"
   ],
   "note": ""
  },
  {
   "property": "C105",
   "status": "partial",
   "theorems": [
    "Ssq.C105_refuted",
    "Ssq.C105_order_refuted",
    "Ssq.C105_option_refuted",
    "Ssq.C105_name_partial",
    "Ssq.C105_options_partial",
    "Ssq.C105_object_partial",
    "Ssq.C105_argument"
   ],
   "note": "False of the code in three ways: the norm of the first call is written into the options dictionary of the caller's tuple, so that a later call with the other l1_norm uses the wrong norm (C105_refuted); objects of order > 0 are not checked (C105_order_refuted); a norm in the options that contradicts l1_norm is used (C105_option_refuted). True for names, for the first call with options that do not name a norm, and for objects of order 0."
  },
  {
   "property": "C106",
   "status": "partial",
   "theorems": [
    "Ssq.C106_refuted",
    "Ssq.C106_function_refuted",
    "Ssq.C106_dtype_partial",
    "Ssq.C106_class",
    "Ssq.C106_strings",
    "Ssq.C106_function",
    "Ssq.C106_function_text"
   ],
   "note": "False of the code: a numpy class such as np.float64 is a ValueError since its text ends in a quote and a bracket (C106_refuted); custom functions ignore dtype (C106_function_refuted). True for strings and dtype objects with the built-in wavelets."
  },
  {
   "property": "C107",
   "status": "partial",
   "theorems": [
    "Ssq.C107_refuted",
    "Ssq.C107_names_partial"
   ],
   "note": "False of the code: every name that begins with 'gmw' is taken for 'gmw' by cwt. True of all other names."
  },
  {
   "property": "C108",
   "status": "partial",
   "theorems": [
    "Ssq.C108_centered",
    "Ssq.C108_symmetric",
    "Ssq.C108_peak_partial",
    "Ssq.C108_refuted"
   ],
   "note": "The peak is not at N//2 in general for odd N (C108_refuted: multiplying by (-1)^k moves by N/2, which is not an integer). True for even N."
  },
  {
   "property": "C109",
   "status": "partial",
   "theorems": [
    "Ssq.C109_zeroes",
    "Ssq.C109_unchanged",
    "Ssq.C109_off",
    "Ssq.C109_refuted",
    "Ssq.C109_order0_partial"
   ],
   "note": "False of the code for orders other than 0: nan_checks is not passed on, so that nan_checks=False is ignored (C109_refuted). True for order 0."
  },
  {
   "property": "C110",
   "status": "proved",
   "theorems": [
    "Ssq.C110_phase",
    "Ssq.C110_tx",
    "Ssq.C110_numeric"
   ],
   "note": ""
  },
  {
   "property": "C111",
   "status": "partial",
   "theorems": [
    "Ssq.C111_value",
    "Ssq.C111_terminates",
    "Ssq.C111_refuted",
    "Ssq.C111_mono_refuted",
    "Ssq.C111_left_partial",
    "Ssq.C111_right_partial"
   ],
   "note": "False of the code in two ways: with cutoff -1 the peak is not excluded (C111_refuted), and a lesser cutoff gives a greater scale on either side of the peak (C111_mono_refuted; the reverse direction is C111_left_partial and C111_right_partial, for searches that fit into one block of 10000 steps). The value at the greatest bin is right within one search step."
  },
  {
   "property": "C112",
   "status": "partial",
   "theorems": [
    "Ssq.C112_value",
    "Ssq.C112_terminates",
    "Ssq.C112_bin_loc",
    "Ssq.C112_bin_amp",
    "Ssq.C112_refuted",
    "Ssq.C112_positive_partial"
   ],
   "note": "Positivity is false of the code: with N = 8 the only candidate is frequency zero and the scale is 0 (C112_refuted); it is negative for bins of negative frequency. C112_positive_partial says exactly when it is positive."
  },
  {
   "property": "C113",
   "status": "partial",
   "theorems": [
    "Ssq.C113_symmetric",
    "Ssq.C113_cutoffs_partial",
    "Ssq.C113_terminates",
    "Ssq.C113_max_ignored",
    "Ssq.C113_refuted"
   ],
   "note": "False of the code: max_cutoff is validated but not used (C113_max_ignored, C113_refuted). The symmetry holds up to a fifth of the spacing."
  },
  {
   "property": "C114",
   "status": "partial",
   "theorems": [
    "Ssq.C114_total",
    "Ssq.C114_shape",
    "Ssq.C114_error_partial",
    "Ssq.C114_adm_ssq",
    "Ssq.C114_adm_cwt",
    "Ssq.C114_warning_one",
    "Ssq.C114_warning_refuted"
   ],
   "note": "The part on the warning is false of the code: the part above 0.1, up to 160, is still added (C114_warning_refuted). The interval between 0.1 and the first point of the main mesh is never integrated, whence the term |f(0.1)|/500 in C114_error_partial."
  },
  {
   "property": "C115",
   "status": "partial",
   "theorems": [
    "Ssq.C115_time",
    "Ssq.C115_odd",
    "Ssq.C115_even",
    "Ssq.C115_negative",
    "Ssq.C115_area_refuted",
    "Ssq.C115_area_partial",
    "Ssq.C115_resolution",
    "Ssq.C115_fails",
    "Ssq.C115_std_t",
    "Ssq.C115_width_partial",
    "Ssq.C115_width_refuted",
    "Ssq.C115_scale",
    "Ssq.C115_both",
    "Ssq.C115_neither"
   ],
   "note": "False of the code for even lengths: fftshift of the frequency grid puts +pi first, so that the trapezoidal rule subtracts a panel of width pi + pi/N (C115_even says by how much); the area can be negative (C115_negative) and std_w can exceed pi (C115_width_refuted). True for odd lengths."
  },
  {
   "property": "C116",
   "status": "partial",
   "theorems": [
    "Ssq.C116_order_partial",
    "Ssq.C116_order_refuted"
   ],
   "note": "False of the code for short signals: with four samples padded to eight max_scale is 0 and below min_scale (C116_order_refuted). Proved from 21 points on for wavelets with one peak at 0.02 or above."
  },
  {
   "property": "C117",
   "status": "partial",
   "theorems": [
    "Ssq.C117_all",
    "Ssq.C117_columns",
    "Ssq.C117_rows_refuted",
    "Ssq.C117_rows_fails",
    "Ssq.C117_rows_partial",
    "Ssq.C117_threshold",
    "Ssq.C117_scaling"
   ],
   "note": "mad with axis=1 is false of the code: the row means are subtracted along the columns, wrong for square arrays (C117_rows_refuted) and a ValueError for others (C117_rows_fails). The threshold uses axis=None and is right."
  },
  {
   "property": "C118",
   "status": "partial",
   "theorems": [
    "Ssq.C118_refuted",
    "Ssq.C118_partial"
   ],
   "note": "False of the code: it returns t1 > t0, that is True when the parallel run is slower (C118_refuted, C118_partial)."
  },
  {
   "property": "C119",
   "status": "partial",
   "theorems": [
    "Ssq.C119_zero",
    "Ssq.C119_scale",
    "Ssq.C119_rms_partial",
    "Ssq.C119_fails",
    "Ssq.C119_complex_refuted"
   ],
   "note": "Proved for real signals; false of the code for complex ones, as x**2 is not |x|^2 (C119_complex_refuted)."
  },
  {
   "property": "C120",
   "status": "proved",
   "theorems": [
    "Ssq.C120_where",
    "Ssq.C120_empty"
   ],
   "note": ""
  },
  {
   "property": "C121",
   "status": "proved",
   "theorems": [
    "Ssq.C121_samples",
    "Ssq.C121_endpoint",
    "Ssq.C121_whole",
    "Ssq.C121_empty"
   ],
   "note": ""
  },
  {
   "property": "C122",
   "status": "proved",
   "theorems": [
    "Ssq.C122_value",
    "Ssq.C122_fails",
    "Ssq.C122_bounds",
    "Ssq.C122_nondim",
    "Ssq.C122_formula",
    "Ssq.C122_amplitude"
   ],
   "note": ""
  },
  {
   "property": "C123",
   "status": "partial",
   "theorems": [
    "Ssq.C123_peak",
    "Ssq.C123_even",
    "Ssq.C123_range_refuted",
    "Ssq.C123_range_partial"
   ],
   "note": "The place of the maximum is proved. The range 0 to pi is false of the code for even wavelets, whose negative maximum is met first (C123_even, C123_range_refuted); proved where negative frequencies are weaker."
  },
  {
   "property": "C124",
   "status": "partial",
   "theorems": [
    "Ssq.C124_expansive_partial",
    "Ssq.C124_one_file",
    "Ssq.C124_saved",
    "Ssq.C124_memory",
    "Ssq.C124_killed_refuted",
    "Ssq.C124_two_refuted",
    "Ssq.C124_refuted"
   ],
   "note": "False of the code if a process is killed while saving (the file is emptied before it is written) or if two processes run at a time (the last to save drops the other's plans). Proved for processes one after the other that are not killed while saving; and at every moment one of the two files has kept everything (C124_one_file)."
  },
  {
   "property": "C125",
   "status": "partial",
   "theorems": [
    "Ssq.C125_partial",
    "Ssq.C125_refuted",
    "Ssq.C125_integers",
    "Ssq.C125_roundtrip",
    "Ssq.C125_accepts",
    "Ssq.C125_tuple"
   ],
   "note": "False of the code for integer arrays (TypeError) and for irfft with an n that does not fit the number of bins (scipy cuts or pads, pyFFTW raises). C125_partial says exactly when it succeeds."
  },
  {
   "property": "C126",
   "status": "partial",
   "theorems": [
    "Ssq.C126_given_refuted",
    "Ssq.C126_given_partial",
    "Ssq.C126_ignored",
    "Ssq.C126_order_refuted",
    "Ssq.C126_order_partial",
    "Ssq.C126_parallel"
   ],
   "note": "False of the code: fmax2 without fmax1 is ignored, and with fmax1 = N/2 both chirps end at N/2. The rest is proved."
  },
  {
   "property": "C127",
   "status": "partial",
   "theorems": [
    "Ssq.C127_samples",
    "Ssq.C127_length_refuted",
    "Ssq.C127_length_partial",
    "Ssq.C127_time_refuted",
    "Ssq.C127_time_partial",
    "Ssq.C127_empty"
   ],
   "note": "False of the code: N mod len(freqs) samples are missing, and with tmin other than 0 the times are wrong (one tone from 1 to 2: time stands still). Tones and their places are proved, times for tmin = 0."
  },
  {
   "property": "C128",
   "status": "partial",
   "theorems": [
    "Ssq.C128_partial",
    "Ssq.C128_none",
    "Ssq.C128_refuted",
    "Ssq.C128_middle"
   ],
   "note": "False of the code for an overlap below one sample: slice(-0, None) is the whole signal. Proved from one sample on."
  },
  {
   "property": "C129",
   "status": "proved",
   "theorems": [
    "Ssq.C129_packed_bands",
    "Ssq.C129_cubic_bands",
    "Ssq.C129_not_aliased",
    "Ssq.C129_bounded"
   ],
   "note": "Exact arithmetic; scipy.signal.sweep_poly as documented."
  },
  {
   "property": "C130",
   "status": "partial",
   "theorems": [
    "Ssq.C130_refuted",
    "Ssq.C130_new",
    "Ssq.C130_partial",
    "Ssq.C130_shared",
    "Ssq.C130_caller"
   ],
   "note": "False of the code: instances without arguments share the module's dictionary, and the caller's dictionary is filled in. Proved for instances with dictionaries of their own."
  },
  {
   "property": "C131",
   "status": "partial",
   "theorems": [
    "Ssq.C131_partial",
    "Ssq.C131_fails",
    "Ssq.C131_free",
    "Ssq.C131_overwrites",
    "Ssq.C131_refuted",
    "Ssq.C131_fails_refuted",
    "Ssq.C131_dot_refuted"
   ],
   "note": "False of the code: a stem of digits (1.gif beside 11.gif) loses to str.replace, w.gif beside w_.gif raises, and names ending in a dot are overwritten. Proved for stems with a character that is no digit and names that end otherwise."
  },
  {
   "property": "C132",
   "status": "proved",
   "theorems": [
    "Ssq.C132_length",
    "Ssq.C132_sorted",
    "Ssq.C132_middle",
    "Ssq.C132_fails",
    "Ssq.C132_frames"
   ],
   "note": "Exact arithmetic; rendering is not modelled."
  },
  {
   "property": "C133",
   "status": "partial",
   "theorems": [
    "Ssq.C133_sound",
    "Ssq.C133_partial",
    "Ssq.C133_stuck",
    "Ssq.C133_refuted"
   ],
   "note": "False of the code: a start at the upper bound times a power of 1.1 goes to and fro until it raises. Proved for all other starts within 1.1**100."
  },
  {
   "property": "C134",
   "status": "partial",
   "theorems": [
    "Ssq.C134_drawn",
    "Ssq.C134_partial",
    "Ssq.C134_room",
    "Ssq.C134_one_refuted",
    "Ssq.C134_columns_refuted",
    "Ssq.C134_no_y_refuted",
    "Ssq.C134_refuted"
   ],
   "note": "False of the code: one curve raises, of three in two columns two are drawn, and without Y only the first. What is drawn is proved exactly."
  },
  {
   "property": "C135",
   "status": "proved",
   "theorems": [
    "Ssq.C135_ticks",
    "Ssq.C135_fails"
   ],
   "note": "Exact arithmetic for linspace; formatting of labels is not modelled."
  },
  {
   "property": "C136",
   "status": "partial",
   "theorems": [
    "Ssq.C136_given",
    "Ssq.C136_width",
    "Ssq.C136_partial",
    "Ssq.C136_one",
    "Ssq.C136_refuted",
    "Ssq.C136_wider_refuted",
    "Ssq.C136_fixed"
   ],
   "note": "False of the code: each call takes 3.6% off the limits, so the third curve over one range hides the ends of all. Proved: closed form of the limits, given limits are kept. With auto_xlims=False it holds for every history (C136_fixed)."
  },
  {
   "property": "C137",
   "status": "partial",
   "theorems": [
    "Ssq.C137_partial",
    "Ssq.C137_limits",
    "Ssq.C137_given",
    "Ssq.C137_refuted"
   ],
   "note": "Limits are proved in full; that options combine is false: complex goes with none of the others. The combinations that work are proved exactly."
  },
  {
   "property": "C138",
   "status": "partial",
   "theorems": [
    "Ssq.C138_filterbank",
    "Ssq.C138_filterbank_off",
    "Ssq.C138_tf",
    "Ssq.C138_waveforms_partial",
    "Ssq.C138_orders",
    "Ssq.C138_refuted",
    "Ssq.C138_orders_drawn"
   ],
   "note": "False of the code: the filter bank is off for every length, wavelet_tf for odd ones, viz_gmw_orders unless N is 1024 or 1025. wavelet_waveforms is proved, the error of the others is given exactly."
  },
  {
   "property": "C139",
   "status": "partial",
   "theorems": [
    "Ssq.C139_line",
    "Ssq.C139_partial",
    "Ssq.C139_refuted"
   ],
   "note": "That centres are rows is false of the code (default line offset with slope 1 ends beyond the last row); the exact condition is proved, and so is the line."
  },
  {
   "property": "C140",
   "status": "partial",
   "theorems": [
    "Ssq.C140_partial",
    "Ssq.C140_given",
    "Ssq.C140_fails",
    "Ssq.C140_refuted"
   ],
   "note": "Proved without xlims and with auto_xlims. False of the code with xlims, or with auto_xlims=False: ax_equal then raises UnboundLocalError (C140_fails, C140_refuted)."
  },
  {
   "property": "C141",
   "status": "partial",
   "theorems": [
    "Ssq.C141_zero",
    "Ssq.C141_partial",
    "Ssq.C141_refuted"
   ],
   "note": "False of the code: the sums are finite, and the two resolutions are taken on different grids; a continuous wavelet with area 0 at the default length is given (C141_zero). Only nonnegativity is proved."
  },
  {
   "property": "C142",
   "status": "partial",
   "theorems": [
    "Ssq.C142_ratio",
    "Ssq.C142_partial",
    "Ssq.C142_cyclic",
    "Ssq.C142_refuted"
   ],
   "note": "False of the code: freq_resolution divides by the peak at length 1024 whatever N is. The exact ratio of the areas is proved for all lengths (C142_ratio), and equality when the peaks agree."
  },
  {
   "property": "C143",
   "status": "partial",
   "theorems": [
    "Ssq.C143_history",
    "Ssq.C143_partial",
    "Ssq.C143_refused",
    "Ssq.C143_refuted"
   ],
   "note": "False after a refused assignment: N is stored before the axis is computed. The state after every history is proved exactly (C143_history)."
  },
  {
   "property": "C144",
   "status": "partial",
   "theorems": [
    "Ssq.C144_partial",
    "Ssq.C144_refuses",
    "Ssq.C144_row",
    "Ssq.C144_row_refused",
    "Ssq.C144_zero_dim",
    "Ssq.C144_refuted"
   ],
   "note": "False of the code for a single row of scales as long as the axis, which is multiplied entry by entry. Proved for None, numbers, 1D arrays and columns."
  },
  {
   "property": "C145",
   "status": "proved",
   "theorems": [
    "Ssq.C145_cwt_shift",
    "Ssq.C145_ssq_cwt_shift"
   ],
   "note": "A squeezing function of the user's own must commute with the shift."
  },
  {
   "property": "C146",
   "status": "proved",
   "theorems": [
    "Ssq.C146_cwt_reverse",
    "Ssq.C146_ssq_cwt_reverse"
   ],
   "note": "A squeezing function of the user's own must commute with reversal and conjugation."
  },
  {
   "property": "C147",
   "status": "partial",
   "theorems": [
    "Ssq.C147_partial",
    "Ssq.C147_refuted"
   ],
   "note": "Proved except for 'lebesgue' without get_w, of which it is false: the threshold is then compared with 1/M."
  },
  {
   "property": "C148",
   "status": "partial",
   "theorems": [
    "Ssq.C148_partial",
    "Ssq.C148_refuted"
   ],
   "note": "Proved for log, piecewise and linear layouts whose steps are at least machine epsilon in both units, and arrays whose scale type is recognized alike. False of the code below that: a tone of 2 Hz is moved to another row in units of 2^60 s."
  },
  {
   "property": "C149",
   "status": "proved",
   "theorems": [
    "Ssq.C149_stft_shift",
    "Ssq.C149_ssq_stft_shift"
   ],
   "note": "A squeezing function of the user's own must commute with the shift."
  },
  {
   "property": "C150",
   "status": "partial",
   "theorems": [
    "Ssq.C150_stft_scale",
    "Ssq.C150_partial",
    "Ssq.C150_refuted"
   ],
   "note": "Proved with get_w, for 'sum', and for 'abs' with a positive factor. False of 'abs' without get_w: -x has other frequencies than x, because the modulus of the transform is used to compute them."
  },
  {
   "property": "C151",
   "status": "partial",
   "theorems": [
    "Ssq.C151_partial",
    "Ssq.C151_refuted"
   ],
   "note": "False of the code: Tx is multiplied by c as well, exactly (proved for modulated=True, frequencies recognized as linear in both units and steps of at least machine epsilon)."
  },
  {
   "property": "C152",
   "status": "proved",
   "theorems": [
    "Ssq.C152_cutoffs",
    "Ssq.C152_refuses",
    "Ssq.C152_presets",
    "Ssq.cwtScalebounds_all"
   ],
   "note": "The greatest cutoff is only checked: by C113 it does not change the result. The check of equal cutoffs is made by the search, after the least scale has been found."
  },
  {
   "property": "C153",
   "status": "proved",
   "theorems": [
    "Ssq.C153_superposition"
   ],
   "note": ""
  },
  {
   "property": "C154",
   "status": "proved",
   "theorems": [
    "Ssq.C154_tones_log",
    "Ssq.C154_tones_linear",
    "Ssq.bump_band"
   ],
   "note": "Tones in one row are returned as their sum."
  },
  {
   "property": "C155",
   "status": "proved",
   "theorems": [
    "Ssq.C155_first_dense",
    "Ssq.C155_refuses",
    "Ssq.C155_monotone",
    "Ssq.C155_make_scales"
   ],
   "note": "Real samples, span of at least one."
  },
  {
   "property": "C156",
   "status": "partial",
   "theorems": [
    "Ssq.C156_partial",
    "Ssq.C156_refuted",
    "Ssq.C156_sum_refuted"
   ],
   "note": "False of the code at ties: 'all' calls peaks exactly tol bins away too dense, 'sum' calls a sum of exactly tol not too dense. Proved without such ties, and for 'any' always."
  },
  {
   "property": "C157",
   "status": "proved",
   "theorems": [
    "Ssq.C157_bounds",
    "Ssq.C157_linear",
    "Ssq.C157_linear_recognised"
   ],
   "note": "Exact arithmetic; thresholds as in the code."
  },
  {
   "property": "C158",
   "status": "proved",
   "theorems": [
    "Ssq.C158_recognised",
    "Ssq.C158_refused",
    "Ssq.C158_transition"
   ],
   "note": "Exact arithmetic; thresholds as in the code."
  },
  {
   "property": "C159",
   "status": "proved",
   "theorems": [
    "Ssq.C159_stft_linear",
    "Ssq.C159_superposition"
   ],
   "note": "Non-vacuity: the example of C160."
  },
  {
   "property": "C160",
   "status": "proved",
   "theorems": [
    "Ssq.C160_windows",
    "Ssq.C160_stft",
    "Ssq.C160_rows",
    "Ssq.C160_recovered"
   ],
   "note": "The window's derivative must not be changed by zero_denormals; frequency steps of at least machine epsilon. The factor fs is that of C14."
  },
  {
   "property": "C161",
   "status": "proved",
   "theorems": [
    "Ssq.C161_kernel",
    "Ssq.C161_sum",
    "Ssq.C161_inverse",
    "Ssq.C161_ieee"
   ],
   "note": "Without overflow and underflow."
  },
  {
   "property": "C162",
   "status": "proved",
   "theorems": [
    "Ssq.C162_row",
    "Ssq.C162_drow",
    "Ssq.C162_cwt",
    "Ssq.C162_factor",
    "Ssq.C162_icwt",
    "Ssq.C162_icwt_rows",
    "Ssq.C162_roundtrip",
    "Ssq.C162_cwt_l2",
    "Ssq.C162_roundtrip_l2"
   ],
   "note": "Both normalizations. Without overflow and underflow; the accuracy of the FFTs and of the sampled wavelets is a hypothesis."
  },
  {
   "property": "C163",
   "status": "partial",
   "theorems": [
    "Ssq.C163_phase",
    "Ssq.C163_rows",
    "Ssq.C163_columns_partial",
    "Ssq.C163_refuted"
   ],
   "note": "Single entries of Tx jump when a frequency crosses the middle between two rows, so the full claim is false of the code (and of the method); phases, rows and column sums are stable."
  },
  {
   "property": "C164",
   "status": "proved",
   "theorems": [
    "Ssq.C164_local",
    "Ssq.C164_noise",
    "Ssq.C164_laws",
    "Ssq.C164_rows_linear",
    "Ssq.C164_rows_log"
   ],
   "note": "Exact arithmetic; the rows are stated for flipud=True, squeezing='sum', a positive threshold and one frequency per scale."
  },
  {
   "property": "C165",
   "status": "proved",
   "theorems": [
    "Ssq.C165_strongest",
    "Ssq.C165_ridges",
    "Ssq.C165_tones",
    "Ssq.C165_cwt_linear",
    "Ssq.C165_cwt_log"
   ],
   "note": "All ridges but the last are at row bw or above (below it the clearing wraps around, see C34); at least as many columns as rows (see C33)."
  },
  {
   "property": "C166",
   "status": "partial",
   "theorems": [
    "Ssq.C166_samples",
    "Ssq.C166_short",
    "Ssq.C166_auto",
    "Ssq.C166_tone",
    "Ssq.C166_default_aliases",
    "Ssq.C166_refuted",
    "Ssq.C166_nonalias_partial",
    "Ssq.C166_odd_partial",
    "Ssq.C166_title_refuted",
    "Ssq.C166_title_partial"
   ],
   "note": "Default fmax=N//2 exceeds half the sampling rate N-1 of a grid with its endpoint when N is even: the last step is over half a turn, and from N=80 within the tolerance of the warning. The title shows N/2 where the signal has N//2."
  },
  {
   "property": "C167",
   "status": "proved",
   "theorems": [
    "Ssq.C167_local",
    "Ssq.C167_exact",
    "Ssq.C167_laws",
    "Ssq.C167_rows"
   ],
   "note": "Modulated STFT; the window's derivative must not be changed by zero_denormals; rows over the default frequencies, with squeezing='sum' and a positive threshold."
  },
  {
   "property": "C168",
   "status": "proved",
   "theorems": [
    "Ssq.C168_ridges"
   ],
   "note": "All ridges but the last are at row bw or above, at least as many columns as rows (as C165). The factor fs is that of C14."
  },
  {
   "property": "C169",
   "status": "partial",
   "theorems": [
    "Ssq.C169_refuted",
    "Ssq.C169_partial",
    "Ssq.C169_off_partial",
    "Ssq.C169_gpu"
   ],
   "note": "False of the code: parallel=False is overruled by the global switch in four functions ('parallel or IS_PARALLEL()'), and parallel=True is ignored by ssqueeze_fast for the STFT. The partial theorem says which function obeys what."
  },
  {
   "property": "C170",
   "status": "proved",
   "theorems": [
    "Ssq.C170_frame",
    "Ssq.C170_roundtrip",
    "Ssq.stftWith_exact",
    "Ssq.istftWith_exact"
   ],
   "note": "Without overflow and underflow; the accuracy of the FFTs is a hypothesis; the window is the computed one."
  },
  {
   "property": "C171",
   "status": "proved",
   "theorems": [
    "Ssq.C171_roundtrip"
   ],
   "note": "squeezing='sum', full inversion, frequencies in safe bins (as C41). Without overflow and underflow; the accuracy of the FFTs and of the sampled wavelets is a hypothesis."
  },
  {
   "property": "C172",
   "status": "proved",
   "theorems": [
    "Ssq.C172_stft",
    "Ssq.C172_roundtrip"
   ],
   "note": "squeezing='sum', default frequencies, full inversion, no cell removed by the threshold in exact arithmetic (as C14). Without overflow and underflow; the accuracy of the FFTs is a hypothesis."
  },
  {
   "property": "C173",
   "status": "partial",
   "theorems": [
    "Ssq.C173_refuted",
    "Ssq.C173_cwt_partial",
    "Ssq.C173_ssq_cwt_partial",
    "Ssq.C173_wavelets",
    "Ssq.C173_stft"
   ],
   "note": "False for padtype='zero': the edges of the constant show in the transform. Proved for all other paddings and for padtype=None."
  },
  {
   "property": "C174",
   "status": "proved",
   "theorems": [
    "Ssq.C174_stft",
    "Ssq.C174_ssq_stft"
   ],
   "note": "n_fft must be given, since its default depends on the hop (C07_fft_length)."
  },
  {
   "property": "C175",
   "status": "partial",
   "theorems": [
    "Ssq.C175_refuted",
    "Ssq.C175_zero_partial",
    "Ssq.C175_reflect_partial",
    "Ssq.C175_others",
    "Ssq.C175_default",
    "Ssq.C175_frames"
   ],
   "note": "False of the code as a plain equality: torch refuses to reflect by the signal's length or more, e.g. three samples to the default length of eight. The partial theorems say exactly when."
  },
  {
   "property": "C176",
   "status": "proved",
   "theorems": [
    "Ssq.C176_frames",
    "Ssq.C176_stft",
    "Ssq.C176_rows",
    "Ssq.C176_bound",
    "Ssq.C176_stable"
   ],
   "note": "Scales at least 0."
  },
  {
   "property": "C177",
   "status": "proved",
   "theorems": [
    "Ssq.C177_phase",
    "Ssq.C177_negative",
    "Ssq.C177_piecewise_named",
    "Ssq.C177_piecewise_default",
    "Ssq.C177_ssq_cwt",
    "Ssq.C177_computed",
    "Ssq.C177_ssq_stft"
   ],
   "note": "The success part is for a CWT of three or more scales and samples."
  },
  {
   "property": "C178",
   "status": "proved",
   "theorems": [
    "Ssq.C178_refine"
   ],
   "note": "Sx only: dSx uses a spectrally differentiated window, which depends on n_fft."
  },
  {
   "property": "C179",
   "status": "proved",
   "theorems": [
    "Ssq.C179_istft",
    "Ssq.C179_icwt",
    "Ssq.C179_issq_cwt",
    "Ssq.C179_issq_stft",
    "Ssq.C179_icwt2"
   ],
   "note": "The two-integral inverse for arrays whose rows have the stated length."
  },
  {
   "property": "C180",
   "status": "proved",
   "theorems": [
    "Ssq.C180_istft"
   ],
   "note": "win_exp=1 (the default)."
  },
  {
   "property": "C181",
   "status": "partial",
   "theorems": [
    "Ssq.C181_refuted",
    "Ssq.C181_rows_partial"
   ],
   "note": "False of the code for a wavelet of complex dtype on the vectorised path: its imaginary part is dropped or kept at all scales together, so a row can depend on the other scales. Proved for wavelets of real dtype, and for all wavelets with vectorized=False."
  },
  {
   "property": "C182",
   "status": "proved",
   "theorems": [
    "Ssq.C182_stft_reverse",
    "Ssq.C182_ssq_stft_reverse"
   ],
   "note": "modulated=True. A user's own squeezing function must commute with reversal and conjugation."
  },
  {
   "property": "C183",
   "status": "proved",
   "theorems": [
    "Ssq.C183_icwt",
    "Ssq.C183_converges",
    "Ssq.C183_ssq",
    "Ssq.C183_gmw",
    "Ssq.C183_icwt2"
   ],
   "note": "Exact arithmetic; the admissibility constant is a parameter."
  },
  {
   "property": "C184",
   "status": "partial",
   "theorems": [
    "Ssq.C184_refuted",
    "Ssq.C184_args_partial",
    "Ssq.C184_values",
    "Ssq.C184_kernels"
   ],
   "note": "False of the code: a Morse wavelet without centered_scale, called with an array of its own dtype, sets the negative entries of that array to zero (`w *= w_nonneg` in the kernels). Proved for all other calls, with the exact effect for these; the values are right in all cases."
  },
  {
   "property": "C185",
   "status": "proved",
   "theorems": [
    "Ssq.C185_integrate",
    "Ssq.C185_nowarn",
    "Ssq.C185_adm_ssq",
    "Ssq.C185_adm_cwt",
    "Ssq.C185_default",
    "Ssq.C185_default_value"
   ],
   "note": "Exact arithmetic."
  },
  {
   "property": "C186",
   "status": "proved",
   "theorems": [
    "Ssq.C186_analytic"
   ],
   "note": "Real wavelets; untrimmed rows."
  },
  {
   "property": "C187",
   "status": "partial",
   "theorems": [
    "Ssq.C187_refuted",
    "Ssq.C187_cost_partial",
    "Ssq.C187_exact"
   ],
   "note": "False of the code in double precision: the backward pass compares with an absolute tolerance of one machine epsilon, which rounding exceeds for costs above 1; it then falls back to the forward minimum of that column, with a jump of arbitrary penalty. Proved: the excess is at most these penalties plus eps and five roundings per column, and there are none if eps exceeds three roundings. Costs and penalties are arbitrary finite matrices; with exact arithmetic the model is that of C32."
  },
  {
   "property": "C188",
   "status": "proved",
   "theorems": [
    "Ssq.C188_phasor",
    "Ssq.C188_amplitude",
    "Ssq.C188_gmw"
   ],
   "note": "Exact arithmetic; no padding."
  },
  {
   "property": "C189",
   "status": "proved",
   "theorems": [
    "Ssq.C189_cwt",
    "Ssq.C189_cwt_row",
    "Ssq.C189_stft"
   ],
   "note": "Exact arithmetic; untrimmed rows for cwt."
  },
  {
   "property": "C190",
   "status": "proved",
   "theorems": [
    "Ssq.C190_column",
    "Ssq.C190_cwt_log"
   ],
   "note": "Exact arithmetic."
  },
  {
   "property": "C191",
   "status": "proved",
   "theorems": [
    "Ssq.C191_rows"
   ],
   "note": "Exact arithmetic."
  },
  {
   "property": "C192",
   "status": "partial",
   "theorems": [
    "Ssq.C192_centre",
    "Ssq.C192_width_partial",
    "Ssq.C192_odd_flat",
    "Ssq.C192_refuted"
   ],
   "note": "False of the code for odd lengths: the frequency axis starts with its largest entry, and the width of a flat spectrum grows like the square root of the length (C192_odd_flat). Proved for even lengths; the centre frequency for all lengths. Exact arithmetic."
  },
  {
   "property": "C193",
   "status": "proved",
   "theorems": [
    "Ssq.C193_smoother",
    "Ssq.C193_straight"
   ],
   "note": "Exact arithmetic apart from the tolerance eps. With fewer columns than rows the ridge is not optimal (C33)."
  },
  {
   "property": "C194",
   "status": "proved",
   "theorems": [
    "Ssq.C194_tile",
    "Ssq.C194_pad"
   ],
   "note": "Exact arithmetic; the sampling rate is not given by a time vector."
  },
  {
   "property": "C195",
   "status": "proved",
   "theorems": [
    "Ssq.C195_convolution",
    "Ssq.C195_impulse"
   ],
   "note": "Exact arithmetic. For odd lengths psifn is not centred on a sample (C108)."
  },
  {
   "property": "C196",
   "status": "proved",
   "theorems": [
    "Ssq.C196_prefix",
    "Ssq.C196_peel"
   ],
   "note": "Exact arithmetic."
  },
  {
   "property": "C197",
   "status": "proved",
   "theorems": [
    "Ssq.C197_local",
    "Ssq.C197_edges"
   ],
   "note": "Exact arithmetic."
  },
  {
   "property": "C198",
   "status": "proved",
   "theorems": [
    "Ssq.C198_gamma_cwt",
    "Ssq.C198_inverse",
    "Ssq.C198_gamma_stft"
   ],
   "note": "Exact arithmetic."
  },
  {
   "property": "C199",
   "status": "partial",
   "theorems": [
    "Ssq.C199_noise_partial",
    "Ssq.C199_none",
    "Ssq.C199_last",
    "Ssq.C199_refuted"
   ],
   "note": "False of the code for snr=0, which is falsy: no noise is added (C199_refuted). Proved for every other SNR. Exact arithmetic."
  },
  {
   "property": "C200",
   "status": "partial",
   "theorems": [
    "Ssq.C200_assembled_partial",
    "Ssq.C200_palindrome",
    "Ssq.C200_rejects",
    "Ssq.C200_refuted"
   ],
   "note": "False of the code: tmin, tmax or endpoint among the modulator's parameters are passed twice, a TypeError (C200_rejects). Proved if there are none."
  },
  {
   "property": "C201",
   "status": "proved",
   "theorems": [
    "Ssq.C201_follows",
    "Ssq.C201_ranked"
   ],
   "note": "Every transform with nF <= nT, penalty >= 0, bandwidth and schedule. Non-vacuity: a component alternating between two rows at penalty 1/10, any length up to 2^40."
  },
  {
   "property": "C202",
   "status": "proved",
   "theorems": [
    "Ssq.C202_cwt",
    "Ssq.C202_ssq"
   ],
   "note": "Exact arithmetic. Non-vacuity: a tone of 8 samples and every second sample of it."
  },
  {
   "property": "C203",
   "status": "partial",
   "theorems": [
    "Ssq.C203_rows_partial",
    "Ssq.C203_refuted"
   ],
   "note": "Proved for the first ridge and every reordering; false for later ridges, since one more row is cleared above a ridge than below it."
  },
  {
   "property": "C204",
   "status": "proved",
   "theorems": [
    "Ssq.C204_reverse"
   ],
   "note": "The hypothesis that each ridge is unrivalled is implied by the margins of C201 (leads_unrivalled)."
  },
  {
   "property": "C205",
   "status": "proved",
   "theorems": [
    "Ssq.C205_cwt_linear",
    "Ssq.C205_cwt_log",
    "Ssq.C205_stft"
   ],
   "note": "Squeezing 'sum'; ssq_stft over the default frequencies. Exact arithmetic. onlyNearest_uniform gives the half-row condition."
  },
  {
   "property": "C206",
   "status": "proved",
   "theorems": [
    "Ssq.C206_frequency",
    "Ssq.C206_instantaneous",
    "Ssq.C206_ridge",
    "Ssq.C206_ridge_log",
    "Ssq.C206_stft"
   ],
   "note": "Exact arithmetic; cwt without padding, ridges for linear and logarithmic frequencies and squeezing 'sum'. Non-vacuity: a chirp of growing amplitude with a nonzero cell, a tone's ridge."
  },
  {
   "property": "C207",
   "status": "partial",
   "theorems": [
    "Ssq.C207_single_partial",
    "Ssq.C207_unknown",
    "Ssq.C207_overview",
    "Ssq.C207_refuted"
   ],
   "note": "False for 'waveforms', whose scale has no default: viz('waveforms') raises TypeError. What the visuals draw is not modelled."
  },
  {
   "property": "C208",
   "status": "proved",
   "theorems": [
    "Ssq.C208_filter"
   ],
   "note": "Exact arithmetic, padtype=None (with padding the filter sees the padded signal). Non-vacuity: a moving average of four samples."
  },
  {
   "property": "C209",
   "status": "partial",
   "theorems": [
    "Ssq.C209_cwt",
    "Ssq.C209_ssq",
    "Ssq.C209_squeeze",
    "Ssq.C209_icwt_partial",
    "Ssq.C209_refuted"
   ],
   "note": "False for the constants the code computes: integrate_analytic decides convergence by absolute thresholds, so that adm_ssq raises for a wavelet multiplied by 1e-10. Proved for all else, and for the inverse given the constant."
  },
  {
   "property": "C210",
   "status": "proved",
   "theorems": [
    "Ssq.C210_two_pass",
    "Ssq.C210_fused"
   ],
   "note": "Exact arithmetic, grids on which no rounding leaves the range (Spec.SafeGrid). Non-vacuity: a two-segment grid of four rows."
  },
  {
   "property": "C211",
   "status": "proved",
   "theorems": [
    "Ssq.C211_cwt",
    "Ssq.C211_ssq_cwt",
    "Ssq.C211_ssq_stft",
    "Ssq.C211_ssq_full",
    "Ssq.C211_origin"
   ],
   "note": "Exact arithmetic: in floats the differences of t vary by rounding."
  },
  {
   "property": "C212",
   "status": "proved",
   "theorems": [
    "Ssq.C212_stft"
   ],
   "note": "Exact arithmetic. Non-vacuity: a frame reaching over the start of six samples, padded periodically."
  },
  {
   "property": "C213",
   "status": "partial",
   "theorems": [
    "Ssq.C213_outcome_partial",
    "Ssq.C213_one_device_partial",
    "Ssq.C213_switch",
    "Ssq.C213_refuted"
   ],
   "note": "False of the code: Psih returns samples kept on the other device, or cannot compare scales with them, so that repeating a call after a switch raises TypeError every time (C213_switch). Proved: these are the only failures, and everything else is right."
  },
  {
   "property": "C214",
   "status": "partial",
   "theorems": [
    "Ssq.C214_own_partial",
    "Ssq.C214_shared_partial",
    "Ssq.C214_ends",
    "Ssq.C214_silent",
    "Ssq.C214_cold",
    "Ssq.C214_refuted",
    "Ssq.C214_loop_sound",
    "Ssq.C214_uncached_sound",
    "Ssq.C214_loop_own_partial",
    "Ssq.C214_loop_shared_partial",
    "Ssq.C214_loop_ends",
    "Ssq.C214_loop_raises",
    "Ssq.C214_mixed_raises",
    "Ssq.C214_all_vectorized"
   ],
   "note": "False of the code for a shared wavelet: a thread can silently get the samples for another thread's scales (C214_silent), or raise although all calls are equal (C214_cold). Proved for a wavelet per thread, and for a shared one whose length and cache are right already. With vectorized=False or cache_wavelet=False a call is never silently wrong, whatever other threads do with its wavelet, but it may raise (C214_loop_raises)."
  },
  {
   "property": "C215",
   "status": "proved",
   "theorems": [
    "Ssq.C215_stft",
    "Ssq.C215_ssq_stft"
   ],
   "note": "Exact arithmetic. Non-vacuity: six samples in three columns, and ssq_stft of twelve, played twice."
  },
  {
   "property": "C216",
   "status": "partial",
   "theorems": [
    "Ssq.C216_titles",
    "Ssq.C216_own_partial",
    "Ssq.C216_refuted"
   ],
   "note": "False of the code when fn returns the same dictionary for several signals: test_transforms writes the first signal's title into it, and later transforms stand under the first title. Exact description (C216_titles) and the case of a new dictionary for each signal proved."
  },
  {
   "property": "C217",
   "status": "partial",
   "theorems": [
    "Ssq.C217_stft_partial",
    "Ssq.C217_cwt_off",
    "Ssq.C217_size",
    "Ssq.C217_refuted"
   ],
   "note": "False of the code: for the CWT ridges are drawn at len(Tf) - r on an image turned upside down, where their row is at len(Tf) - 1 - r, so every ridge is off by one row and those of row 0 are outside; w and h are not passed on. True for the STFT."
  },
  {
   "property": "C218",
   "status": "partial",
   "theorems": [
    "Ssq.C218_rows_partial",
    "Ssq.C218_one",
    "Ssq.C218_name",
    "Ssq.C218_layout",
    "Ssq.C218_refuted"
   ],
   "note": "False of the code: one wavelet fails with an IndexError (squeezed axes), wavelets given by name fail with an AttributeError (the list of instances is made but not used), and tight_kw is overwritten by all six defaults. Two or more instances are drawn in order."
  },
  {
   "property": "C219",
   "status": "partial",
   "theorems": [
    "Ssq.C219_lines_partial",
    "Ssq.C219_refused",
    "Ssq.C219_refuted"
   ],
   "note": "False of the code for the number 0: `if vlines:` skips it, so vlines=0 draws nothing. Every other documented argument draws its lines."
  },
  {
   "property": "C220",
   "status": "partial",
   "theorems": [
    "Ssq.C220_cwt_partial",
    "Ssq.C220_conj",
    "Ssq.C220_refuted"
   ],
   "note": "False of the code: the cast to the wavelet's real dtype drops the imaginary part (numpy warns, ssqueezepy does not raise). With a Morse wavelet the result is right exactly when the imaginary part is constant; a signal and its conjugate always get the same transforms."
  },
  {
   "property": "C221",
   "status": "partial",
   "theorems": [
    "Ssq.C221_cwt_partial",
    "Ssq.C221_stft_partial",
    "Ssq.C221_collapse",
    "Ssq.C221_tone",
    "Ssq.C221_refuted"
   ],
   "note": "False of the code: the CWT frequencies are returned in decreasing order, and the kernels replace a negative step by EPS64 (with a warning), so that every cell up to the greatest frequency goes to the row labelled with the greatest frequency; a tone ends up there wherever it is. Put back into increasing order, the frequencies reproduce the call exactly, as do those of ssq_stft without flipud."
  },
  {
   "property": "C222",
   "status": "partial",
   "theorems": [
    "Ssq.C222_scales_partial",
    "Ssq.C222_rows_partial",
    "Ssq.C222_refuted"
   ],
   "note": "False of the code for the first scale only: make_scales starts below min_scale (at the exponent rounded down), and with more voices it starts higher. All other scales and rows are kept, as every d-th of the new ones, and so is the first scale if it is not below min_scale."
  },
  {
   "property": "C223",
   "status": "partial",
   "theorems": [
    "Ssq.C223_equal_partial",
    "Ssq.C223_rows",
    "Ssq.C223_first_two",
    "Ssq.C223_refuted"
   ],
   "note": "False of the code if the number of frequencies differs from the number of rows: Tx always has the rows of the transform and only the first two (linear) frequencies are used, so with more frequencies than rows the returned labels are off by the difference. Proved for linear frequencies as many as rows; for any number, which grid the rows really stand for."
  },
  {
   "property": "C224",
   "status": "proved",
   "theorems": [
    "Ssq.C224_cwt",
    "Ssq.C224_stft",
    "Ssq.C224_cwt_result",
    "Ssq.C224_stft_result",
    "Ssq.C224_not_preserved",
    "Ssq.C224_arguments"
   ],
   "note": "Numerical contents are uninterpreted functions; a squeezing function acts on its argument only (it does not reach other arrays through a closure)."
  },
  {
   "property": "C225",
   "status": "partial",
   "theorems": [
    "Ssq.C225_refuted",
    "Ssq.C225_cwt_partial",
    "Ssq.C225_stft_partial",
    "Ssq.C225_given",
    "Ssq.C225_shared"
   ],
   "note": "The full statement is false: C225_refuted (ssq_freqs and Sfs of ssq_stft are one array by default). The partial theorems show every other pair independent and Tx, Wx, w, dWx (and Sfs) apart from the arguments; C225_given and C225_shared say exactly what is shared and how."
  },
  {
   "property": "C226",
   "status": "partial",
   "theorems": [
    "Ssq.C226_refuted",
    "Ssq.C226_threads",
    "Ssq.C226_restored_refuted",
    "Ssq.C226_sequential_partial",
    "Ssq.C226_same_partial",
    "Ssq.C226_values"
   ],
   "note": "False of the code: the FFT of the signal uses the patience in force before the call, and overlapping calls leave the setting of another call in force after all have returned (C226_threads). Proved for calls one after another (including refused ones), and for every schedule when all ask for the settings in force. Reading or putting back the two settings is one step."
  },
  {
   "property": "C227",
   "status": "partial",
   "theorems": [
    "Ssq.C227_refuted",
    "Ssq.C227_cwt",
    "Ssq.C227_user",
    "Ssq.C227_ssq_cwt_partial",
    "Ssq.C227_higher_refuted",
    "Ssq.C227_freqs",
    "Ssq.C227_stft",
    "Ssq.C227_stft_default",
    "Ssq.C227_icwt",
    "Ssq.C227_icwt_refuted",
    "Ssq.C227_roundtrip",
    "Ssq.C227_istft",
    "Ssq.C227_issq"
   ],
   "note": "False of the code for the frequencies made by ssq_cwt, for icwt in some modes, for components and for the derivative with higher orders. Proved for all transforms and phases of cwt, ssq_cwt, stft and ssq_stft, for istft and whole inversions; for icwt an exact condition. CPU arrays; numpy's and scipy's rules for types are part of the model."
  },
  {
   "property": "C228",
   "status": "partial",
   "theorems": [
    "Ssq.C228_text",
    "Ssq.C228_no_len",
    "Ssq.C228_same_partial",
    "Ssq.C228_refuted"
   ],
   "note": "False of the code: two GMWs that differ in centered_scale have the same description. Proved: the exact text, the text without the length, and that equal descriptions mean equal names, shown options and lengths (texts of values without separators, different values looking different)."
  },
  {
   "property": "C229",
   "status": "partial",
   "theorems": [
    "Ssq.C229_linear_partial",
    "Ssq.C229_real_partial",
    "Ssq.C229_dilate",
    "Ssq.C229_refuted"
   ],
   "note": "False of the code for complex dtypes: Wavelet.__call__ drops the imaginary part of f but not that of i*f. Proved for real dtypes and wherever nothing is dropped; dilation for all wavelets."
  },
  {
   "property": "C230",
   "status": "partial",
   "theorems": [
    "Ssq.C230_linear_partial",
    "Ssq.C230_phase_partial",
    "Ssq.C230_refuted"
   ],
   "note": "False of the code where window values are denormal: get_window replaces them by zeros. Proved for all windows of which nothing is replaced (in particular in exact arithmetic)."
  },
  {
   "property": "C231",
   "status": "proved",
   "theorems": [
    "Ssq.C231_std_t",
    "Ssq.C231_std_w",
    "Ssq.C231_harea",
    "Ssq.C231_unknown",
    "Ssq.C231_units"
   ],
   "note": "Returned arrays; exact reals; plots are not modelled."
  },
  {
   "property": "C232",
   "status": "partial",
   "theorems": [
    "Ssq.C232_one",
    "Ssq.C232_runs_partial",
    "Ssq.C232_same_file",
    "Ssq.C232_changed",
    "Ssq.C232_refuted"
   ],
   "note": "False of the code: _maybe_title writes the file's options into the user's dict, so the dict changes and later plots keep the old file's options. Proved: exactly which options are drawn in every history (the first file that has the option), and the full claim while the file is unchanged."
  },
  {
   "property": "C233",
   "status": "proved",
   "theorems": [
    "Ssq.C233_stats",
    "Ssq.C233_unique",
    "Ssq.C233_perm",
    "Ssq.C233_affine",
    "Ssq.C233_bounds",
    "Ssq.C233_constant",
    "Ssq.C233_tail"
   ],
   "note": "Exact reals; the plot and the printed text are not modelled."
  },
  {
   "property": "C234",
   "status": "proved",
   "theorems": [
    "Ssq.C234_cmhat",
    "Ssq.C234_hhhat",
    "Ssq.C234_bump",
    "Ssq.C234_morlet",
    "Ssq.C234_found",
    "Ssq.C234_finds",
    "Ssq.C234_peak_ct",
    "Ssq.C234_gmw",
    "Ssq.C234_gmw_found"
   ],
   "note": "Exact reals."
  },
  {
   "property": "C235",
   "status": "proved",
   "theorems": [
    "Ssq.C235_bin",
    "Ssq.C235_cmhat",
    "Ssq.C235_hhhat",
    "Ssq.C235_morlet",
    "Ssq.C235_default",
    "Ssq.C235_gmw",
    "Ssq.C235_gmw_default"
   ],
   "note": "Exact reals; real wavelets (bump is complex for om != 0 and not covered)."
  },
  {
   "property": "C236",
   "status": "partial",
   "theorems": [
    "Ssq.C236_block_partial",
    "Ssq.C236_refuted",
    "Ssq.C236_min_scale",
    "Ssq.C236_default"
   ],
   "note": "False of the code: a value passed between the last point of one block of 10000 and the first point of the next is missed, as the largest step is taken within a block; a ramp is the witness and ends in ValueError. Proved for values passed within a block. Exact arithmetic."
  },
  {
   "property": "C237",
   "status": "proved",
   "theorems": [
    "Ssq.C237_block",
    "Ssq.C237_maximal",
    "Ssq.C237_gmw",
    "Ssq.C237_morlet",
    "Ssq.C237_from",
    "Ssq.C237_cmhat",
    "Ssq.C237_hhhat"
   ],
   "note": "Exact reals; real wavelets. morlet for mu between 10 b + 2 and 10 b + 9.4 with any b, up to 998; cmhat and hhhat with their default parameters, others by C237_from."
  },
  {
   "property": "C238",
   "status": "proved",
   "theorems": [
    "Ssq.C238_bin",
    "Ssq.C238_covers"
   ],
   "note": "Exact reals; real wavelets."
  }
 ]
}