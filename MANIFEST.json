{
 "claims": [
  {
   "property": "C01",
   "status": "partial",
   "theorems": [
    "Verif.C01_canonical",
    "Verif.C01_canonical_release_partial",
    "Verif.C01_negative_factor_breaks",
    "Verif.C01_negative_factor_never_returns"
   ],
   "note": "Proved for all expressions except multiplication by a negative int (library defect, shown in C01_negative_factor_*); release builds: C01_canonical_release_partial."
  },
  {
   "property": "C02",
   "status": "proved",
   "theorems": [
    "Verif.C02_exact",
    "Verif.C02_exact_release",
    "Verif.C02_zero_divisor_refused",
    "Verif.C02_compound"
   ],
   "note": ""
  },
  {
   "property": "C03",
   "status": "proved",
   "theorems": [
    "Verif.C03_compare",
    "Verif.C03_compare_integer",
    "Verif.C03_representation_unique"
   ],
   "note": ""
  },
  {
   "property": "C04",
   "status": "partial",
   "theorems": [
    "Verif.C04_rounding_partial",
    "Verif.C04_floor_iff",
    "Verif.C04_ceil_iff",
    "Verif.C04_floor_add_frac",
    "Verif.C04_negative_wrong"
   ],
   "note": "floor/ceil are wrong for negative non-integers (C04_negative_wrong); C04_floor_iff/C04_ceil_iff characterise exactly when they are right."
  },
  {
   "property": "C05",
   "status": "proved",
   "theorems": [
    "Verif.C05_no_overflow",
    "Verif.C05_int64",
    "Verif.C05_product_sharp"
   ],
   "note": ""
  },
  {
   "property": "C06",
   "status": "proved",
   "theorems": [
    "Verif.C06_intersection",
    "Verif.C06_hull",
    "Verif.C06_union",
    "Verif.C06_shift"
   ],
   "note": ""
  },
  {
   "property": "C07",
   "status": "partial",
   "theorems": [
    "Verif.C07_equality_partial",
    "Verif.C07_equality_exact",
    "Verif.C07_equality_wrong"
   ],
   "note": "operator== compares start points only and treats the ends as booleans (C07_equality_wrong); exact characterisation proved."
  },
  {
   "property": "C08",
   "status": "proved",
   "theorems": [
    "Verif.C08_transform_unary",
    "Verif.C08_transform_binary"
   ],
   "note": ""
  },
  {
   "property": "C09",
   "status": "proved",
   "theorems": [
    "Verif.C09_reduce_any_op",
    "Verif.C09_reduce_fold",
    "Verif.C09_reduce_scalar_order"
   ],
   "note": ""
  },
  {
   "property": "C10",
   "status": "proved",
   "theorems": [
    "Verif.C10_transformReduce_any_op",
    "Verif.C10_innerProduct_any_op",
    "Verif.C10_dotProduct"
   ],
   "note": ""
  },
  {
   "property": "C11",
   "status": "proved",
   "theorems": [
    "Verif.C11_compensated_sum",
    "Verif.C11_carry_zero",
    "Verif.C11_compensated_innerProduct"
   ],
   "note": ""
  },
  {
   "property": "C12",
   "status": "proved",
   "theorems": [
    "Verif.C12_naive",
    "Verif.C12_slide",
    "Verif.C12_reduce",
    "Verif.C12_reduceVec"
   ],
   "note": ""
  },
  {
   "property": "C13",
   "status": "proved",
   "theorems": [
    "Verif.C13_accumulate"
   ],
   "note": ""
  },
  {
   "property": "C14",
   "status": "proved",
   "theorems": [
    "Verif.C14_offset",
    "Verif.C14_lengths",
    "Verif.C14_full",
    "Verif.C14_central",
    "Verif.C14_full_into",
    "Verif.C14_central_into",
    "Verif.C14_symmetric"
   ],
   "note": ""
  },
  {
   "property": "C15",
   "status": "proved",
   "theorems": [
    "Verif.C15_overlapAdd",
    "Verif.C15_pipeline_real",
    "Verif.C15_pipeline_complex",
    "Verif.C15_pipeline_mixed",
    "Verif.C15_real",
    "Verif.C15_complex",
    "Verif.C15_equals_direct",
    "Verif.C15_allocating",
    "Verif.C15_full",
    "Verif.C15_central"
   ],
   "note": ""
  },
  {
   "property": "C16",
   "status": "proved",
   "theorems": [
    "Verif.C16_auto_legal"
   ],
   "note": ""
  },
  {
   "property": "C17",
   "status": "proved",
   "theorems": [
    "Verif.C17_feed_conv",
    "Verif.C17_feed_ola",
    "Verif.C17_stream_conv",
    "Verif.C17_chunk_invariant_conv",
    "Verif.C17_stream_ola",
    "Verif.C17_stream_ola_real",
    "Verif.C17_ola_refuses"
   ],
   "note": ""
  },
  {
   "property": "C18",
   "status": "proved",
   "theorems": [
    "Verif.C18_state"
   ],
   "note": ""
  },
  {
   "property": "C19",
   "status": "proved",
   "theorems": [
    "Verif.C19_full",
    "Verif.C19_full_ola",
    "Verif.C19_central",
    "Verif.C19_central_ola",
    "Verif.C19_stateful_zero_state"
   ],
   "note": ""
  },
  {
   "property": "C20",
   "status": "proved",
   "theorems": [
    "Verif.C20_directFormI",
    "Verif.C20_response_unique",
    "Verif.C20_refuses_small_order"
   ],
   "note": ""
  },
  {
   "property": "C21",
   "status": "partial",
   "theorems": [
    "Verif.C21_directFormII_actual",
    "Verif.C21_directFormII_monic_partial",
    "Verif.C21_nonmonic_wrong",
    "Verif.C21_same_as_directFormI",
    "Verif.C21_zpk"
   ],
   "note": "Holds for monic denominators (C21_directFormII_monic_partial); for others the library normalises only the leading coefficient: C21_directFormII_actual says exactly what is computed and C21_nonmonic_wrong refutes the full claim."
  },
  {
   "property": "C22",
   "status": "proved",
   "theorems": [
    "Verif.C22_cascade",
    "Verif.C22_unique",
    "Verif.C22_order"
   ],
   "note": ""
  },
  {
   "property": "C23",
   "status": "proved",
   "theorems": [
    "Verif.C23_chunks_directFormI",
    "Verif.C23_chunks_directFormII",
    "Verif.C23_chunks_cascade",
    "Verif.C23_fresh_accepts",
    "Verif.C23_reset",
    "Verif.C23_shape",
    "Verif.C23_set_order"
   ],
   "note": ""
  },
  {
   "property": "C24",
   "status": "proved",
   "theorems": [
    "Verif.C24_zpk_value",
    "Verif.C24_transferFunction"
   ],
   "note": ""
  },
  {
   "property": "C25",
   "status": "partial",
   "theorems": [
    "Verif.C25_value_partial",
    "Verif.C25_constant_wrong",
    "Verif.C25_order",
    "Verif.C25_realizations_agree"
   ],
   "note": "Holds for every system with at least one zero or pole (C25_value_partial), including equality of the filtered outputs of all realizations (C25_realizations_agree). A system without roots loses its gain (C25_constant_wrong); order() reports one too many (C25_order)."
  },
  {
   "property": "C26",
   "status": "proved",
   "theorems": [
    "Verif.C26_accepts_iff",
    "Verif.C26_roots",
    "Verif.C26_order"
   ],
   "note": ""
  },
  {
   "property": "C27",
   "status": "partial",
   "theorems": [
    "Verif.C27_reachable_wf",
    "Verif.C27_regroup",
    "Verif.C27_resize_partial",
    "Verif.C27_resize_wrong"
   ],
   "note": "regroup fully proved; resize proved unless a nonempty set of real roots grows (C27_resize_partial), where the library corrupts the pairs or has undefined behaviour (C27_resize_wrong)."
  },
  {
   "property": "C28",
   "status": "proved",
   "theorems": [
    "Verif.C28_partition",
    "Verif.C28_rejects"
   ],
   "note": ""
  },
  {
   "property": "C29",
   "status": "proved",
   "theorems": [
    "Verif.C29_decompose",
    "Verif.C29_rejects",
    "Verif.C29_normalize",
    "Verif.C29_normalize_zero"
   ],
   "note": ""
  },
  {
   "property": "C30",
   "status": "proved",
   "theorems": [
    "Verif.C30_decimate",
    "Verif.C30_expand",
    "Verif.C30_roundtrip",
    "Verif.C30_zero_rate"
   ],
   "note": ""
  },
  {
   "property": "C31",
   "status": "partial",
   "theorems": [
    "Verif.C31_interpolate_partial",
    "Verif.C31_unreached_unwritten",
    "Verif.C31_last_unreached",
    "Verif.C31_stale_wrong",
    "Verif.C31_interpolateAlloc",
    "Verif.C31_expand_convolve"
   ],
   "note": "The allocating form is proved in full (C31_interpolateAlloc, C31_expand_convolve). The in-place form is right at every output that a phase reaches (C31_interpolate_partial) and leaves the unreached ones unwritten (C31_unreached_unwritten, C31_last_unreached, C31_stale_wrong)."
  },
  {
   "property": "C32",
   "status": "proved",
   "theorems": [
    "Verif.C32_resample",
    "Verif.C32_rejects",
    "Verif.C32_zero_rate"
   ],
   "note": ""
  },
  {
   "property": "C33",
   "status": "proved",
   "theorems": [
    "Verif.C33_interpolation_seamless",
    "Verif.C33_resampling_seamless"
   ],
   "note": ""
  },
  {
   "property": "C34",
   "status": "proved",
   "theorems": [
    "Verif.C34_interpolation",
    "Verif.C34_interpolation_central",
    "Verif.C34_resampleFull",
    "Verif.C34_resampleCentral",
    "Verif.C34_central_empty",
    "Verif.C34_delay"
   ],
   "note": ""
  },
  {
   "property": "C35",
   "status": "proved",
   "theorems": [
    "Verif.C35_full_bins",
    "Verif.C35_conjugate_symmetric",
    "Verif.C35_half_agrees",
    "Verif.C35_complex_roundtrip",
    "Verif.C35_real_roundtrip"
   ],
   "note": ""
  },
  {
   "property": "C36",
   "status": "proved",
   "theorems": [
    "Verif.C36_fftShift",
    "Verif.C36_zero_bin",
    "Verif.C36_inverse"
   ],
   "note": ""
  },
  {
   "property": "C37",
   "status": "proved",
   "theorems": [
    "Verif.C37_roundtrip",
    "Verif.C37_nearest"
   ],
   "note": ""
  },
  {
   "property": "C38",
   "status": "proved",
   "theorems": [
    "Verif.C38_insert",
    "Verif.C38_append",
    "Verif.C38_prepend",
    "Verif.C38_self_append_undefined",
    "Verif.C38_push_back",
    "Verif.C38_clear",
    "Verif.C38_resize",
    "Verif.C38_erase",
    "Verif.C38_erase_one",
    "Verif.C38_extract_front",
    "Verif.C38_extract_back",
    "Verif.C38_extract_too_much",
    "Verif.C38_extract_then_restore",
    "Verif.C38_fifo_history"
   ],
   "note": ""
  },
  {
   "property": "C39",
   "status": "proved",
   "theorems": [
    "Verif.C39_view_of_signal",
    "Verif.C39_view_of_position_and_size",
    "Verif.C39_size",
    "Verif.C39_get",
    "Verif.C39_set",
    "Verif.C39_front_back",
    "Verif.C39_subsignal",
    "Verif.C39_subsignal_from",
    "Verif.C39_first",
    "Verif.C39_last",
    "Verif.C39_composition",
    "Verif.C39_subsignal_refused",
    "Verif.C39_subsignal_wraps",
    "Verif.C39_first_last_refused",
    "Verif.C39_disjoint_writes"
   ],
   "note": ""
  },
  {
   "property": "C40",
   "status": "proved",
   "theorems": [
    "Verif.C40_vector_vector",
    "Verif.C40_vector_scalar",
    "Verif.C40_scalar_vector",
    "Verif.C40_size_mismatch_refused",
    "Verif.C40_operator_vector_vector",
    "Verif.C40_operator_vector_scalar",
    "Verif.C40_operator_scalar_vector",
    "Verif.C40_compound_equals_operator",
    "Verif.C40_compound_scalar_equals_operator"
   ],
   "note": ""
  },
  {
   "property": "C41",
   "status": "proved",
   "theorems": [
    "Verif.C41_sum",
    "Verif.C41_mean",
    "Verif.C41_sumSquare",
    "Verif.C41_norm",
    "Verif.C41_meanSquare",
    "Verif.C41_rootMeanSquare",
    "Verif.C41_variance",
    "Verif.C41_variance_eq_meanSquare_sub",
    "Verif.C41_variance_zero_iff",
    "Verif.C41_variance_affine",
    "Verif.C41_standardDeviation",
    "Verif.C41_standardDeviation_about",
    "Verif.C41_correctedVariance",
    "Verif.C41_skewness",
    "Verif.C41_kurtosis",
    "Verif.C41_correctedSkewness",
    "Verif.C41_correctedKurtosis",
    "Verif.C41_covariance",
    "Verif.C41_covariance_laws",
    "Verif.C41_correctedCovariance"
   ],
   "note": ""
  },
  {
   "property": "C42",
   "status": "partial",
   "theorems": [
    "Verif.C42_centralMoment_partial",
    "Verif.C42_about_partial",
    "Verif.C42_order_zero_wrong",
    "Verif.C42_even_wrong"
   ],
   "note": "Proved for order 2, order 4 and every odd order. Order 0 and even orders of six and more are computed wrongly by the library: C42_order_zero_wrong, C42_even_wrong."
  },
  {
   "property": "C43",
   "status": "proved",
   "theorems": [
    "Verif.C43_correlation",
    "Verif.C43_degenerate",
    "Verif.C43_linear"
   ],
   "note": ""
  },
  {
   "property": "C44",
   "status": "proved",
   "theorems": [
    "Verif.C44_max",
    "Verif.C44_min"
   ],
   "note": ""
  },
  {
   "property": "C45",
   "status": "proved",
   "theorems": [
    "Verif.C45_linSpace",
    "Verif.C45_linSpace_range",
    "Verif.C45_linSpace_new",
    "Verif.C45_logSpace",
    "Verif.C45_logSpace_bad_base",
    "Verif.C45_logSpace_new"
   ],
   "note": ""
  },
  {
   "property": "C46",
   "status": "proved",
   "theorems": [
    "Verif.C46_hamming",
    "Verif.C46_blackman",
    "Verif.C46_blackmanHarris",
    "Verif.C46_flatTop",
    "Verif.C46_flatTop_one",
    "Verif.C46_rectangular",
    "Verif.C46_triangular",
    "Verif.C46_gaussian",
    "Verif.C46_gaussian_degenerate",
    "Verif.C46_lanczos",
    "Verif.C46_kaiser",
    "Verif.C46_kaiser_negative",
    "Verif.C46_gains",
    "Verif.C46_allocating"
   ],
   "note": "Flat top and Gaussian windows need two samples (C46_flatTop_one, C46_gaussian_degenerate); the flat top window exceeds one by 3e-9 because its coefficients do not sum to one. The The Dolph-Chebyshev window is C68."
  },
  {
   "property": "C47",
   "status": "partial",
   "theorems": [
    "Verif.C47_sineWave",
    "Verif.C47_sawtoothWave_partial",
    "Verif.C47_pwmWave_partial",
    "Verif.C47_squareWave_partial",
    "Verif.C47_sineChirp",
    "Verif.C47_sawtoothChirp_partial",
    "Verif.C47_pwmChirp_partial",
    "Verif.C47_squareChirp_partial",
    "Verif.C47_sawtooth_negative_wrong",
    "Verif.C47_pwm_negative_wrong",
    "Verif.C47_zero_rate"
   ],
   "note": "Sine waves and chirps fully proved. Sawtooth, PWM and square waves proved for phases that are not negative; for negative phases the library leaves the range and is not periodic (C47_sawtooth_negative_wrong, C47_pwm_negative_wrong)."
  },
  {
   "property": "C48",
   "status": "partial",
   "theorems": [
    "Verif.C48_mirror",
    "Verif.C48_complement",
    "Verif.C48_shift_inplace_partial",
    "Verif.C48_shift_separate_wrong",
    "Verif.C48_shift_even_wrong",
    "Verif.C48_refused",
    "Verif.C48_mirror_twice",
    "Verif.C48_complement_twice",
    "Verif.C48_symmetric"
   ],
   "note": "Mirroring and complement in full. ShiftResponse proved in place for odd lengths (C48_shift_inplace_partial); into a separate signal it leaves the middle tap unwritten (C48_shift_separate_wrong) and for even lengths it is not a modulation (C48_shift_even_wrong)."
  },
  {
   "property": "C49",
   "status": "proved",
   "theorems": [
    "Verif.C49_odd",
    "Verif.C49_even",
    "Verif.C49_refused",
    "Verif.C49_windowed_hilbert"
   ],
   "note": ""
  },
  {
   "property": "C50",
   "status": "partial",
   "theorems": [
    "Verif.C50_lowpass_partial",
    "Verif.C50_lowpass_zero_sum",
    "Verif.C50_lowpass_cutoff_zero_wrong",
    "Verif.C50_highpass_partial",
    "Verif.C50_bandpass_partial",
    "Verif.C50_bandstop_partial",
    "Verif.C50_even_refused",
    "Verif.C50_given_window",
    "Verif.C50_sum_pos"
   ],
   "note": "All odd lengths, windows whose product with the ideal response has nonzero sum, and every cutoff but zero, which the description accepts and where the kernel is 0/0 (C50_lowpass_cutoff_zero_wrong). Even lengths are refused (C50_even_refused)."
  },
  {
   "property": "C51",
   "status": "partial",
   "theorems": [
    "Verif.C51_odd_partial",
    "Verif.C51_even_wrong",
    "Verif.C51_one_point_wrong",
    "Verif.C51_grid_wrong"
   ],
   "note": "Odd lengths: every tap written, symmetric, optimal (C51_odd_partial). Even lengths: the last tap is never written (C51_even_wrong); a grid of one point divides by zero (C51_one_point_wrong). The QR solver of Eigen is a parameter; IsLeastSquares is assumed of it only for the optimality clause."
  },
  {
   "property": "C52",
   "status": "proved",
   "theorems": [
    "Verif.C52_fir_windowed",
    "Verif.C52_fir_leastSquares",
    "Verif.C52_iir",
    "Verif.C52_sorted",
    "Verif.C52_not_finite",
    "Verif.C52_other_setters",
    "Verif.C52_window_ripple",
    "Verif.C52_defaults"
   ],
   "note": ""
  },
  {
   "property": "C53",
   "status": "proved",
   "theorems": [
    "Verif.C53_segmentation",
    "Verif.C53_order",
    "Verif.C53_clean",
    "Verif.C53_unique",
    "Verif.C53_empty_wrong",
    "Verif.C53_empty_first_band",
    "Verif.C53_lowpass",
    "Verif.C53_highpass",
    "Verif.C53_bandpass",
    "Verif.C53_bandstop",
    "Verif.C53_classify"
   ],
   "note": "Exact arithmetic. FitLoss (erf/exp sums) is a parameter: the edges are proved to lie in their bands whatever the loss. An empty response is undefined behaviour (C53_empty_wrong); the first band may be empty (C53_empty_first_band)."
  },
  {
   "property": "C54",
   "status": "proved",
   "theorems": [
    "Verif.C54_first_maximum",
    "Verif.C54_first_minimum",
    "Verif.C54_ripple",
    "Verif.C54_ripple_edges",
    "Verif.C54_fit_edges",
    "Verif.C54_band_edges"
   ],
   "note": "Exact arithmetic, no NaN."
  },
  {
   "property": "C55",
   "status": "proved",
   "theorems": [
    "Verif.C55_poles",
    "Verif.C55_magnitude"
   ],
   "note": ""
  },
  {
   "property": "C56",
   "status": "proved",
   "theorems": [
    "Verif.C56_value",
    "Verif.C56_stable",
    "Verif.C56_frequency",
    "Verif.C56_factor"
   ],
   "note": ""
  },
  {
   "property": "C57",
   "status": "partial",
   "theorems": [
    "Verif.C57_lowpass_partial",
    "Verif.C57_highpass_partial",
    "Verif.C57_highpass_half",
    "Verif.C57_bandpass_partial",
    "Verif.C57_bandpass_half",
    "Verif.C57_bandstop_partial",
    "Verif.C57_more_zeros_wrong"
   ],
   "note": "Proved for every system with no more zeros than poles and all zeros and poles in the closed unit disk. Excluded: highpass cutoff exactly 1/2 and bandpass width exactly 1/2, where the library divides by zero (C57_highpass_half, C57_bandpass_half), and systems with more zeros than poles, where the gain exponent underflows (C57_more_zeros_wrong)."
  },
  {
   "property": "C58",
   "status": "proved",
   "theorems": [
    "Verif.C58_bracket",
    "Verif.C58_terminates",
    "Verif.C58_root_core",
    "Verif.C58_root",
    "Verif.C58_exact_never_ends",
    "Verif.C58_newton_fixes",
    "Verif.C58_newton_affine",
    "Verif.C58_newton_result",
    "Verif.C58_nonneg",
    "Verif.C58_rounded_core",
    "Verif.C58_rounded_root",
    "Verif.C58_noisy_root"
   ],
   "note": "C58_bracket/C58_terminates for any rounding of the midpoint; with tolerance 0 exact bisection never ends (C58_exact_never_ends). Underflow of the product of function values not modelled."
  },
  {
   "property": "C59",
   "status": "proved",
   "theorems": [
    "Verif.C59_nextPowerOfTwo"
   ],
   "note": ""
  },
  {
   "property": "C60",
   "status": "proved",
   "theorems": [
    "Verif.C60_roots",
    "Verif.C60_rejects"
   ],
   "note": ""
  },
  {
   "property": "C61",
   "status": "partial",
   "theorems": [
    "Verif.C61_lowpass",
    "Verif.C61_highpass_partial",
    "Verif.C61_highpass_half",
    "Verif.C61_bandpass_partial",
    "Verif.C61_bandpass_half",
    "Verif.C61_bandstop",
    "Verif.C61_odd_order",
    "Verif.C61_butterworth_lowpass",
    "Verif.C61_butterworth_bandpass"
   ],
   "note": "Lowpass and bandstop in full; highpass and bandpass except cutoff 1/2 and width 1/2 (the library defaults), where the design divides by zero (C61_highpass_half, C61_bandpass_half)."
  },
  {
   "property": "C62",
   "status": "proved",
   "theorems": [
    "Verif.C62_poles",
    "Verif.C62_prototype",
    "Verif.C62_magnitude",
    "Verif.C62_passband",
    "Verif.C62_unsupported_wrong",
    "Verif.C62_lowpass"
   ],
   "note": "Orders 1..32 supported by the code's 32-bit shift; other orders are undefined behaviour (C62_unsupported_wrong). Real arithmetic."
  },
  {
   "property": "C63",
   "status": "proved",
   "theorems": [
    "Verif.C63_roots",
    "Verif.C63_prototype",
    "Verif.C63_magnitude",
    "Verif.C63_stopband",
    "Verif.C63_lowpass",
    "Verif.C63_negative_ripple_wrong"
   ],
   "note": "Real arithmetic. Negative ripple gives an unstable prototype (C63_negative_ripple_wrong)."
  },
  {
   "property": "C64",
   "status": "proved",
   "theorems": [
    "Verif.C64_allocating",
    "Verif.C64_into",
    "Verif.C64_short_output_overruns"
   ],
   "note": "Sizes are not compared by the two-argument form: C64_short_output_overruns."
  },
  {
   "property": "C65",
   "status": "partial",
   "theorems": [
    "Verif.C65_highpass_partial",
    "Verif.C65_lowpass_partial",
    "Verif.C65_bandpass_partial",
    "Verif.C65_bandstop_partial",
    "Verif.C65_weights",
    "Verif.C65_split_design_partial",
    "Verif.C65_band_design_partial",
    "Verif.C65_zero_width_wrong",
    "Verif.C65_hilbert_partial",
    "Verif.C65_hilbert_default_wrong",
    "Verif.C65_hilbert_grid_wrong"
   ],
   "note": "Proved for transitions with a width. A zero width, which the descriptions accept, inverts the low pass and is not a number at the edge (C65_zero_width_wrong); the default Hilbert description throws (C65_hilbert_default_wrong) and its grid is ignored (C65_hilbert_grid_wrong)."
  },
  {
   "property": "C66",
   "status": "partial",
   "theorems": [
    "Verif.C66_arbitrary_partial",
    "Verif.C66_given_window",
    "Verif.C66_unique",
    "Verif.C66_grid_wrong",
    "Verif.C66_even_refused"
   ],
   "note": "Everything is proved for every odd length, response and window except that the wanted response is sampled on the grid 2k/(n-1) of the code instead of the bins 2k/n of the filter; C66_grid_wrong exhibits the difference."
  },
  {
   "property": "C67",
   "status": "proved",
   "theorems": [
    "Verif.C67_impulse",
    "Verif.C67_empty_wrong",
    "Verif.C67_system",
    "Verif.C67_forms_agree"
   ],
   "note": "C67_empty_wrong: with an empty impulse response and no hint the size of the transform wraps around and the allocation throws."
  },
  {
   "property": "C68",
   "status": "proved",
   "theorems": [
    "Verif.C68_dolphChebyshev",
    "Verif.C68_sidelobes",
    "Verif.C68_one_wrong",
    "Verif.C68_attenuation_range"
   ],
   "note": "C68_one_wrong: the window of one sample divides by zero. C68_attenuation_range: other attenuations have no window."
  },
  {
   "property": "C69",
   "status": "proved",
   "theorems": [
    "Verif.C69_accuracy",
    "Verif.C69_infinite",
    "Verif.C69_equal",
    "Verif.C69_complex"
   ],
   "note": "Exact arithmetic; eps is the epsilon of the number type, at most 1/2000. C69_complex only for nonnegative real arguments."
  },
  {
   "property": "C70",
   "status": "partial",
   "theorems": [
    "Verif.C70_complex_real",
    "Verif.C70_arcsn_imaginary",
    "Verif.C70_K",
    "Verif.C70_K_one",
    "Verif.C70_arcsn",
    "Verif.C70_arccn",
    "Verif.C70_arcdn",
    "Verif.C70_sign_wrong",
    "Verif.C70_sign_right"
   ],
   "note": "C70_K, C70_arcsn/arccn/arcdn for arguments in [0,1]; negative arguments are refuted by C70_sign_wrong (the right values are in C70_sign_right). The complex inverse functions are modelled; proved on the real and imaginary axes (C70_complex_real, C70_arcsn_imaginary)."
  },
  {
   "property": "C71",
   "status": "partial",
   "theorems": [
    "Verif.C71_complex_relations",
    "Verif.C71_complex_analytic",
    "Verif.C71_complex",
    "Verif.C71_amplitude_unique",
    "Verif.C71_amplitude",
    "Verif.C71_amplitude_one",
    "Verif.C71_amplitude_refuses",
    "Verif.C71_sncndn",
    "Verif.C71_functions",
    "Verif.C71_functions_one",
    "Verif.C71_large_modulus_wrong",
    "Verif.C71_large_argument_wrong"
   ],
   "note": "Proved for |k| <= 1 (k = 1 exactly, |k| < 1 with error bound), exact arithmetic, eps the epsilon of the type. Moduli above one are refuted by C71_large_modulus_wrong and C71_large_argument_wrong. C71_complex_analytic shows that the formulas used as the specification of the complex functions are the analytic continuation."
  },
  {
   "property": "C72",
   "status": "proved",
   "theorems": [
    "Verif.C72_roots",
    "Verif.C72_search_returns",
    "Verif.C72_design",
    "Verif.C72_lowpass",
    "Verif.C72_impossible",
    "Verif.C72_example_fine"
   ],
   "note": "For positive orders; for order zero the code divides by zero without using the result, which is outside the model."
  },
  {
   "property": "C73",
   "status": "proved",
   "theorems": [
    "Verif.C73_sum",
    "Verif.C73_sum_linear",
    "Verif.C73_mean",
    "Verif.C73_mean_empty",
    "Verif.C73_sumSquare",
    "Verif.C73_meanSquare",
    "Verif.C73_norm",
    "Verif.C73_rootMeanSquare",
    "Verif.C73_dotProduct",
    "Verif.C73_varianceAbout",
    "Verif.C73_variance",
    "Verif.C73_standardDeviation",
    "Verif.C73_covarianceAbout",
    "Verif.C73_covariance"
   ],
   "note": ""
  },
  {
   "property": "C74",
   "status": "proved",
   "theorems": [
    "Verif.C74_compensated_kernel",
    "Verif.C74_sliding_kernel",
    "Verif.C74_convolution",
    "Verif.C74_convolution_alloc"
   ],
   "note": ""
  },
  {
   "property": "C75",
   "status": "proved",
   "theorems": [
    "Verif.C75_selectivity",
    "Verif.C75_exact",
    "Verif.C75_limit",
    "Verif.C75_ripples",
    "Verif.C75_ripples_lowpass",
    "Verif.C75_exact_exists"
   ],
   "note": "The precision from which on the library's design is within a given deviation of the exact filter is shown to exist, not computed; the 32 iterations that EllipticAM allows put a floor of 2^-16383 under the epsilons considered."
  },
  {
   "property": "C76",
   "status": "proved",
   "theorems": [
    "Verif.C76_forward",
    "Verif.C76_backward",
    "Verif.C76_front_end_forward",
    "Verif.C76_front_end_backward",
    "Verif.C76_roundtrip",
    "Verif.C76_mixed_radix",
    "Verif.C76_bluestein",
    "Verif.C76_empty"
   ],
   "note": ""
  },
  {
   "property": "C77",
   "status": "proved",
   "theorems": [
    "Verif.C77_twiddle_table",
    "Verif.C77_twiddle_table_memory",
    "Verif.C77_factorize",
    "Verif.C77_good_size_cmplx",
    "Verif.C77_good_size_real",
    "Verif.C77_largest_prime_factor",
    "Verif.C77_literals",
    "Verif.C77_literal_square_roots"
   ],
   "note": ""
  },
  {
   "property": "C78",
   "status": "proved",
   "theorems": [
    "Verif.C78_forward",
    "Verif.C78_backward",
    "Verif.C78_front_end_forward",
    "Verif.C78_front_end_backward",
    "Verif.C78_roundtrip",
    "Verif.C78_mixed_radix_forward",
    "Verif.C78_mixed_radix_backward",
    "Verif.C78_bluestein_forward",
    "Verif.C78_bluestein_backward",
    "Verif.C78_factorize",
    "Verif.C78_empty"
   ],
   "note": ""
  },
  {
   "property": "C79",
   "status": "proved",
   "theorems": [
    "Verif.C79_plan_of_length",
    "Verif.C79_failure",
    "Verif.C79_mutual_exclusion",
    "Verif.C79_changes_locked",
    "Verif.C79_no_duplicates",
    "Verif.C79_cached_built",
    "Verif.C79_least_recently_used",
    "Verif.C79_build_only_if_old",
    "Verif.C79_few_lengths",
    "Verif.C79_progress",
    "Verif.C79_bounded_steps",
    "Verif.C79_call_ends",
    "Verif.C79_complex_transform",
    "Verif.C79_real_forward",
    "Verif.C79_real_backward"
   ],
   "note": ""
  },
  {
   "property": "C80",
   "status": "proved",
   "theorems": [
    "Verif.C80_loss_is_derivative",
    "Verif.C80_mirror",
    "Verif.C80_stationary",
    "Verif.C80_recovers",
    "Verif.C80_edges"
   ],
   "note": ""
  },
  {
   "property": "C81",
   "status": "proved",
   "theorems": [
    "Verif.C81_error",
    "Verif.C81_error_linear",
    "Verif.C81_sign",
    "Verif.C81_correctly_rounded",
    "Verif.C81_monotone",
    "Verif.C81_integer"
   ],
   "note": ""
  },
  {
   "property": "C82",
   "status": "proved",
   "theorems": [
    "Verif.C82_bounded",
    "Verif.C82_forgets",
    "Verif.C82_decays",
    "Verif.C82_steady_state",
    "Verif.C82_unstable",
    "Verif.C82_history",
    "Verif.C82_realizations",
    "Verif.C82_butterworth_lowpass",
    "Verif.C82_fir"
   ],
   "note": ""
  },
  {
   "property": "C83",
   "status": "proved",
   "theorems": [
    "Verif.C83_direct_form_I_explicit",
    "Verif.C83_direct_form_I",
    "Verif.C83_direct_form_II_explicit",
    "Verif.C83_direct_form_II",
    "Verif.C83_cascade_explicit",
    "Verif.C83_cascade"
   ],
   "note": "Direct form II for monic denominators (for others the form itself is wrong, see C21)."
  },
  {
   "property": "C84",
   "status": "proved",
   "theorems": [
    "Verif.C84_bands",
    "Verif.C84_response",
    "Verif.C84_butterworth",
    "Verif.C84_chebyshev1",
    "Verif.C84_chebyshev2",
    "Verif.C84_elliptic",
    "Verif.C84_streams"
   ],
   "note": "Cutoffs for which the library divides by zero are excluded in the statement (they are the subject of C61_highpass_half, C61_bandpass_half)."
  },
  {
   "property": "C85",
   "status": "proved",
   "theorems": [
    "Verif.C85_expand",
    "Verif.C85_decimate",
    "Verif.C85_alias_free",
    "Verif.C85_sampling",
    "Verif.C85_interpolate",
    "Verif.C85_interpolate_error",
    "Verif.C85_resample_error",
    "Verif.C85_resample_delay",
    "Verif.C85_constant"
   ],
   "note": "Over exact real and complex arithmetic, with the library's rational position arithmetic in 64 bit integers (sizes bounded so that it does not overflow, as in C32)."
  },
  {
   "property": "C86",
   "status": "proved",
   "theorems": [
    "Verif.C86_gain",
    "Verif.C86_stays_stable",
    "Verif.C86_output",
    "Verif.C86_frequency_response",
    "Verif.C86_cascade",
    "Verif.C86_direct_form_I",
    "Verif.C86_direct_form_II"
   ],
   "note": "Gain at most doubles (C86_gain), stability (C86_stays_stable), frequency response, output, cascade; combined with the rounding errors of C83 for direct forms I and II."
  },
  {
   "property": "C87",
   "status": "partial",
   "theorems": [
    "Verif.C87_polyphase_values",
    "Verif.C87_polyphase_no_leak",
    "Verif.C87_factored_partial",
    "Verif.C87_factored_assign_wrong",
    "Verif.C87_factored_repaired"
   ],
   "note": "Proved in full for PolyphaseFilter. For FactoredPolynomial proved for all histories without assignment; assignment is undefined behaviour in the code (no return statement), C87_factored_assign_wrong; with the return statements added all histories are right, C87_factored_repaired."
  },
  {
   "property": "C88",
   "status": "proved",
   "theorems": [
    "Verif.C88_feed",
    "Verif.C88_stream",
    "Verif.C88_two_cuts",
    "Verif.C88_interpolate",
    "Verif.C88_interpolateAlloc",
    "Verif.C88_decompose",
    "Verif.C88_resample"
   ],
   "note": "FIR streaming by convolution blocks (not overlap-add, whose FFT is exact in this model). Exact results and magnitudes are those of Spec/FirFilter and Spec/Resample applied to the values of the floats."
  },
  {
   "property": "C89",
   "status": "proved",
   "theorems": [
    "Verif.C89_mixed_radix",
    "Verif.C89_scaled",
    "Verif.C89_roundtrip",
    "Verif.C89_power_of_two",
    "Verif.C89_twiddle_table"
   ],
   "note": "The mixed-radix plan (cfftp), which is correct for every length; Bluestein's plan, chosen for some lengths with large prime factors, is C90. The accuracy of sin, cos and of the literal constants is a hypothesis (LitsOk, TwOpsOk), met by the concrete binary64/binary32 example. The condition 192 (h (Q+1))^2 u <= 1 bounds the sum of the prime factors, not the length."
  },
  {
   "property": "C90",
   "status": "proved",
   "theorems": [
    "Verif.C90_bluestein",
    "Verif.C90_complex_fft",
    "Verif.C90_padding"
   ],
   "note": "Real-data plans (rfftp) are covered in exact arithmetic (C78). The cost comparison of pocketfft_c is an arbitrary function in the model, so the result holds for either choice. The bound is a worst case over inputs: it grows like N^2 for inputs bounded in magnitude."
  },
  {
   "property": "C91",
   "status": "proved",
   "theorems": [
    "Verif.C91_overlap_add",
    "Verif.C91_chunk",
    "Verif.C91_transform_any",
    "Verif.C91_transform_smooth",
    "Verif.C91_complex",
    "Verif.C91_complex_any"
   ],
   "note": "Complex signals end to end. For real signals C91_overlap_add applies to any chunk pipeline with a known error; the real-data transform is covered in exact arithmetic (C78). Contraction of a*b+c inside std::complex products is not modelled. Bounds U and V must not be below the smallest normal number (they are upper bounds, so this is no restriction)."
  },
  {
   "property": "C92",
   "status": "proved",
   "theorems": [
    "Verif.C92_interpol_cutoff",
    "Verif.C92_resample_cutoff",
    "Verif.C92_interpolate",
    "Verif.C92_resample"
   ],
   "note": "The cutoff arithmetic is in rounded double; interpolation and resampling themselves are over exact reals here (their rounding error is C88). No phases and rate 0, where the helpers divide by zero, are excluded."
  },
  {
   "property": "C93",
   "status": "proved",
   "theorems": [
    "Verif.C93_linSpace",
    "Verif.C93_hamming",
    "Verif.C93_blackman",
    "Verif.C93_blackmanHarris",
    "Verif.C93_triangular",
    "Verif.C93_symmetric"
   ],
   "note": "Hypotheses met by single precision for every length up to 2^100 (proved). Contraction of a*b+c inside one element of the Blackman and Blackman-Harris expressions is not modelled; the flat top, Gaussian, Kaiser, Lanczos and Dolph-Chebyshev windows are covered over exact reals only (C46, C47)."
  },
  {
   "property": "C94",
   "status": "proved",
   "theorems": [
    "Verif.C94_samples_scaled",
    "Verif.C94_forward",
    "Verif.C94_backward",
    "Verif.C94_scaled",
    "Verif.C94_spectrum",
    "Verif.C94_samples",
    "Verif.C94_plan_selected"
   ],
   "note": "C94_plan_selected: for these lengths the mixed radix plan is the one chosen. Lengths with a prime factor above 5 go through radfg/radbg or Bluestein and are covered for exact arithmetic (C78) and for complex data in rounded arithmetic (C89, C90)."
  },
  {
   "property": "C95",
   "status": "proved",
   "theorems": [
    "Verif.C95_transform",
    "Verif.C95_chunk",
    "Verif.C95_chunk_smooth",
    "Verif.C95_real"
   ],
   "note": "The complex case and every chunk length is C91. C95_transform instantiates the abstract pipeline theorem C95_chunk with the library's transforms (C94)."
  },
  {
   "property": "C96",
   "status": "proved",
   "theorems": [
    "Verif.C96_feed",
    "Verif.C96_stream",
    "Verif.C96_real"
   ],
   "note": "C96_feed and C96_stream hold for any type with a rounded addition and any approximate circular convolution of the chunks (so also for complex signals with C91_chunk); C96_real is the statement for real floating point signals and the library's own transforms. The explicit chunk size (not the automatic one) is covered."
  },
  {
   "property": "C97",
   "status": "proved",
   "theorems": [
    "Verif.C97_real",
    "Verif.C97_complex",
    "Verif.C97_factored",
    "Verif.C97_real_roots"
   ],
   "note": "C97_real and C97_complex are Horner's scheme at real and complex arguments, C97_factored and C97_real_roots the factored form at real arguments (any reduction order). The factored form at complex arguments is covered in exact arithmetic only."
  },
  {
   "property": "C98",
   "status": "proved",
   "theorems": [
    "Verif.C98_expand",
    "Verif.C98_left_half_plane"
   ],
   "note": "C98_expand and, without cancellation, C98_left_half_plane. The magnitudes are the coefficients of the polynomial with every root factor replaced by its magnitudes (expandedMagnitude)."
  },
  {
   "property": "C99",
   "status": "proved",
   "theorems": [
    "Verif.C99_symmetric",
    "Verif.C99_lowpass",
    "Verif.C99_symmetric_given",
    "Verif.C99_lowpass_given",
    "Verif.C99_response",
    "Verif.C99_response_given"
   ],
   "note": "The floating point low pass with a window function or a given window. Assumptions about std::sin and pi are in Spec/FloatFir.lean; the windows themselves in floating point are C93. The high pass is C100; the band pass and band stop are C101."
  },
  {
   "property": "C100",
   "status": "proved",
   "theorems": [
    "Verif.C100_symmetric",
    "Verif.C100_highpass"
   ],
   "note": "Assumptions about std::sin, pi and the literal -1 are hypotheses, satisfied by the example. Band pass and band stop are C101."
  },
  {
   "property": "C101",
   "status": "proved",
   "theorems": [
    "Verif.C101_bandpass_symmetric",
    "Verif.C101_bandstop_symmetric",
    "Verif.C101_shift"
   ],
   "note": "The accuracy is that of the shift; the accuracy of the low pass it is applied to is C99. The two are not combined into one bound for the response, and the rounding of the band centre and half width is not bounded."
  }
 ]
}