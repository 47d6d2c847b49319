{
 "claims": [
  {
   "property": "C01",
   "status": "proved",
   "theorems": [
    "SciCpp.C01_sum_eq",
    "SciCpp.C01_prod_eq",
    "SciCpp.C01_reduce_eq_fold",
    "SciCpp.C01_sum_prod_all"
   ],
   "note": "All lengths, filters, and any associative operation with identity."
  },
  {
   "property": "C02",
   "status": "proved",
   "theorems": [
    "SciCpp.C02_binary64",
    "SciCpp.C02_sum_rounding_error"
   ],
   "note": "Standard rounding model |rnd x - x| <= u|x|; overflow/underflow not modelled."
  },
  {
   "property": "C03",
   "status": "proved",
   "theorems": [
    "SciCpp.C03_map_unary",
    "SciCpp.C03_map_binary",
    "SciCpp.C03_map2_spec"
   ],
   "note": "Every overload of unary and binary map; the scalar operators are unary maps with a captured scalar."
  },
  {
   "property": "C04",
   "status": "partial",
   "theorems": [
    "SciCpp.C04_lvalue_destroyed",
    "SciCpp.C04_lvalue_survives_iff",
    "SciCpp.C04_argument_preserved_partial"
   ],
   "note": "False of the code for non-const lvalues of same-type unary operations (argument is moved from): negation and exact extent proved; the rest proved."
  },
  {
   "property": "C05",
   "status": "proved",
   "theorems": [
    "SciCpp.C05_filter_spec",
    "SciCpp.C05_trim_spec"
   ],
   "note": ""
  },
  {
   "property": "C06",
   "status": "proved",
   "theorems": [
    "SciCpp.C06_mask_spec"
   ],
   "note": ""
  },
  {
   "property": "C07",
   "status": "proved",
   "theorems": [
    "SciCpp.C07_argwhere_spec"
   ],
   "note": ""
  },
  {
   "property": "C08",
   "status": "partial",
   "theorems": [
    "SciCpp.C08_argcmp_all",
    "SciCpp.C08_argmax_argmin",
    "SciCpp.C08_nanargmax_wrong",
    "SciCpp.C08_argcmp_filter_partial",
    "SciCpp.C08_argcmp_exact",
    "SciCpp.C08_argcmp_none"
   ],
   "note": "Unfiltered proved; filtered version false of the code (index starts at 0, numeric.hpp:734): negation proved, partial when the first element is accepted."
  },
  {
   "property": "C09",
   "status": "proved",
   "theorems": [
    "SciCpp.C09_cumsum_spec",
    "SciCpp.C09_nancumsum_spec"
   ],
   "note": ""
  },
  {
   "property": "C10",
   "status": "proved",
   "theorems": [
    "SciCpp.C10_diff_spec",
    "SciCpp.C10_diff_negative",
    "SciCpp.C10_cumsum_diff"
   ],
   "note": ""
  },
  {
   "property": "C11",
   "status": "partial",
   "theorems": [
    "SciCpp.C11_trapz_single_ub",
    "SciCpp.C11_trapz_partial"
   ],
   "note": "One sample is UB in the code (sum(first+1,last-1) on a reversed range): negation proved."
  },
  {
   "property": "C12",
   "status": "proved",
   "theorems": [
    "SciCpp.C12_inner_spec",
    "SciCpp.C12_inner_bilinear",
    "SciCpp.C12_vdot_spec"
   ],
   "note": ""
  },
  {
   "property": "C13",
   "status": "partial",
   "theorems": [
    "SciCpp.C13_comparisons_ordered_partial",
    "SciCpp.C13_ieee_eq_ne_lt_gt",
    "SciCpp.C13_nan_wrong"
   ],
   "note": "<=, >= are implemented as negated < and give true on NaN: negation proved; ordered elements proved for all operators, IEEE semantics for ==, !=, <, >."
  },
  {
   "property": "C14",
   "status": "proved",
   "theorems": [
    "SciCpp.C14_amin_float",
    "SciCpp.C14_nan_exact",
    "SciCpp.C14_ptp_float",
    "SciCpp.C14_amax_amin_ptp",
    "SciCpp.C14_amax_amin_order",
    "SciCpp.C14_empty",
    "SciCpp.C14_amax_float",
    "SciCpp.C14_nan_position"
   ],
   "note": "Over any linear order; empty input gives NaN (0 for integral types)."
  },
  {
   "property": "C15",
   "status": "partial",
   "theorems": [
    "SciCpp.C15_mean",
    "SciCpp.C15_mean_nan",
    "SciCpp.C15_average",
    "SciCpp.C15_mean_bounds",
    "SciCpp.C15_mean_overflow_false",
    "SciCpp.C15_mean_int_false",
    "SciCpp.C15_mean_int_partial"
   ],
   "note": "Exact arithmetic over any characteristic-0 field, at most 2^31-1 accepted elements; the 32-bit count overflow and integer truncation are proved as negations."
  },
  {
   "property": "C16",
   "status": "proved",
   "theorems": [
    "SciCpp.C16_median_is_half_quantile",
    "SciCpp.C16_median",
    "SciCpp.C16_median_empty",
    "SciCpp.C16_median_perm",
    "SciCpp.C16_median_bounds",
    "SciCpp.C16_median_filter",
    "SciCpp.C16_median_int_false"
   ],
   "note": "Every implementation of std::nth_element; integer midpoint truncation proved."
  },
  {
   "property": "C17",
   "status": "partial",
   "theorems": [
    "SciCpp.C17_quantile_partial",
    "SciCpp.C17_quantile_discrete_partial",
    "SciCpp.C17_quantile_midpoint_partial",
    "SciCpp.C17_quantile_exact_partial",
    "SciCpp.C17_quantile_monotone_partial",
    "SciCpp.C17_quantile_ends",
    "SciCpp.C17_quantile_bounds",
    "SciCpp.C17_quantile_small",
    "SciCpp.C17_quantile_range",
    "SciCpp.C17_iqr_partial",
    "SciCpp.C17_quantile_false"
   ],
   "note": "False of the code near integer positions (almost_equal snaps the index): negation for every positive tolerance, exact extent proved."
  },
  {
   "property": "C18",
   "status": "proved",
   "theorems": [
    "SciCpp.C18_covariance",
    "SciCpp.C18_too_few",
    "SciCpp.C18_boundaries",
    "SciCpp.C18_hermitian",
    "SciCpp.C18_translation",
    "SciCpp.C18_permutation",
    "SciCpp.C18_var_nonneg"
   ],
   "note": "Exact arithmetic over any characteristic-0 star field, fewer than 2^31 samples."
  },
  {
   "property": "C19",
   "status": "partial",
   "theorems": [
    "SciCpp.C19_filtered_var_partial",
    "SciCpp.C19_short_arrays",
    "SciCpp.C19_empty_block_is_nan",
    "SciCpp.C19_nanvar_false",
    "SciCpp.C19_nancovariance_false",
    "SciCpp.C19_filtered_covariance_exact",
    "SciCpp.C19_filtered_var_exact"
   ],
   "note": "Exact extent: the filtered variance (and covariance of two arrays with agreeing filters) is correct when every block of the pairwise recursion has an accepted element and NaN when some block has none (C19_filtered_var_exact, C19_filtered_covariance_exact). False of the code for wholly rejected blocks (0/0 mean times zero weight, stats.hpp:407, 433-444) and for nancovariance with NaNs on different sides: negations proved."
  },
  {
   "property": "C20",
   "status": "partial",
   "theorems": [
    "SciCpp.C20_moment",
    "SciCpp.C20_moment_01",
    "SciCpp.C20_nanmoment",
    "SciCpp.C20_nanmoment2_partial",
    "SciCpp.C20_trim_moment_false",
    "SciCpp.C20_kurtosis",
    "SciCpp.C20_kurtosis_affine",
    "SciCpp.C20_skew",
    "SciCpp.C20_skew_affine",
    "SciCpp.C20_sem"
   ],
   "note": "Filtered moments: proved for NaN filters of order >= 3; false of the code for value filters such as Trim (filter re-applied to powers): negation proved; order 2 inherits the C19 block condition (partial)."
  },
  {
   "property": "C21",
   "status": "proved",
   "theorems": [
    "SciCpp.C21_cov_matrix",
    "SciCpp.C21_determinant"
   ],
   "note": "Hermitian positive semidefinite over RCLike (real and complex data)."
  },
  {
   "property": "C22",
   "status": "partial",
   "theorems": [
    "SciCpp.C22_counts_partial",
    "SciCpp.C22_requirements",
    "SciCpp.C22_infinity_false",
    "SciCpp.C22_above_false"
   ],
   "note": "Every floating point sample and edge incl. NaN/infinities, any rounding. Partial: samples above the last edge that almost_equal accepts are counted by the code (+inf whenever the last edge is finite and non-zero; 2.0 for the last edge 2-2^-52): negations proved."
  },
  {
   "property": "C23",
   "status": "proved",
   "theorems": [
    "SciCpp.C23_uniform_eq_searched",
    "SciCpp.C23_binary64_false"
   ],
   "note": "Exact arithmetic, all samples incl. NaN and infinities; a binary64 counterexample is proved."
  },
  {
   "property": "C24",
   "status": "proved",
   "theorems": [
    "SciCpp.C24_density",
    "SciCpp.C24_overflow_false"
   ],
   "note": "Fewer than 2^31 counted samples (quantifier); beyond that the int cast overflows, proved as a negation."
  },
  {
   "property": "C25",
   "status": "partial",
   "theorems": [
    "SciCpp.C25_coverage_partial",
    "SciCpp.C25_binary64_false",
    "SciCpp.C25_nan_false",
    "SciCpp.C25_zero_bins",
    "SciCpp.C25_empty"
   ],
   "note": "Exact arithmetic. False of the code in binary64 (histogram({-29,0},7) loses the maximum) and for a leading NaN (UB): negations proved."
  },
  {
   "property": "C26",
   "status": "partial",
   "theorems": [
    "SciCpp.C26_refl",
    "SciCpp.C26_finite",
    "SciCpp.C26_symm",
    "SciCpp.C26_special",
    "SciCpp.C26_infinity_false",
    "SciCpp.C26_bound_partial",
    "SciCpp.C26_arrays",
    "SciCpp.C26_array_equal",
    "SciCpp.C26_array_equal_exact",
    "SciCpp.C26_ieee_finite",
    "SciCpp.C26_ieee_refl",
    "SciCpp.C26_ieee_symm",
    "SciCpp.C26_ieee_special"
   ],
   "note": "Reflexive, symmetric, NaN and infinities for any rounding; in every IEEE format the complete condition for two finite numbers with overflow and underflow (C26_ieee_finite), reflexivity, symmetry and the special values (C26_ieee_refl, C26_ieee_symm, C26_ieee_special). Partial: an infinity is almost_equal to every finite non-zero number (negation proved)."
  },
  {
   "property": "C27",
   "status": "proved",
   "theorems": [
    "SciCpp.C27_linspace",
    "SciCpp.C27_equally_spaced",
    "SciCpp.C27_constant",
    "SciCpp.C27_int"
   ],
   "note": "Exact arithmetic in any field; integer truncation described (C27_int). Floating point: C92."
  },
  {
   "property": "C28",
   "status": "partial",
   "theorems": [
    "SciCpp.C28_arange_partial",
    "SciCpp.C28_arange_negative_partial",
    "SciCpp.C28_arange_false",
    "SciCpp.C28_example",
    "SciCpp.C28_wrong_sign"
   ],
   "note": "False of the code when step does not divide the interval (count is truncated, not rounded up): negation for all such inputs; the rest proved."
  },
  {
   "property": "C29",
   "status": "proved",
   "theorems": [
    "SciCpp.C29_logspace"
   ],
   "note": "Exact real arithmetic."
  },
  {
   "property": "C30",
   "status": "partial",
   "theorems": [
    "SciCpp.C30_concat_const",
    "SciCpp.C30_concat_categories_partial",
    "SciCpp.C30_concat_convert",
    "SciCpp.C30_mixed_types_false",
    "SciCpp.C30_not_convertible_false",
    "SciCpp.C30_variadic",
    "SciCpp.C30_laws",
    "SciCpp.C30_flip_lvalue_false"
   ],
   "note": "All lengths and categories for one element type. Partial, negations proved: mixed element types (rvalue operand's type wins), non-convertible types (an operand is dropped), flip of a non-const lvalue reverses the caller's array."
  },
  {
   "property": "C31",
   "status": "proved",
   "theorems": [
    "SciCpp.C31_prime_factors",
    "SciCpp.C31_multiplicities"
   ],
   "note": "All n >= 1 (unbounded naturals; an overflow of the trial divisor's square is a compile error): increasing primes, positive exponents, product n, exponents = multiplicities, capacity ct_log2(n) never exceeded."
  },
  {
   "property": "C32",
   "status": "partial",
   "theorems": [
    "SciCpp.C32_is_prime_partial",
    "SciCpp.C32_one_and_negative_false",
    "SciCpp.C32_next_prime",
    "SciCpp.C32_next_prime_false",
    "SciCpp.C32_prime_list",
    "SciCpp.C32_is_prime_64_partial",
    "SciCpp.C32_overflow_false"
   ],
   "note": "is_prime: all n >= 2, and on 64-bit integers exactly: undefined (overflow of divisor*divisor) for the n >= 3037000493^2 without a prime factor up to 3037000495, correct otherwise; next_prime, prime_list: n >= 1. False of the code for 1, for negative integers coprime to 6 and for the prime 9223372006790004737: negations proved."
  },
  {
   "property": "C33",
   "status": "proved",
   "theorems": [
    "SciCpp.C33_ct_log2",
    "SciCpp.C33_power",
    "SciCpp.C33_ct_root"
   ],
   "note": "power over any monoid; ct_log2 = floor(log2)+1; ct_root's Newton iteration in an exact field."
  },
  {
   "property": "C34",
   "status": "partial",
   "theorems": [
    "SciCpp.C34_root",
    "SciCpp.C34_multiply",
    "SciCpp.C34_divide",
    "SciCpp.C34_power",
    "SciCpp.C34_common",
    "SciCpp.C34_canonical_partial",
    "SciCpp.C34_root_rational",
    "SciCpp.C34_multiply_rational",
    "SciCpp.C34_root_power",
    "SciCpp.C34_canonical_false"
   ],
   "note": "Multiplication, division, power, root and common_ratio denote exactly the real operation for every valid pair. Canonical representation proved for equal roots and for every result that denotes a rational number (so root followed by power restores the type); false of the code in general (negation proved)."
  },
  {
   "property": "C35",
   "status": "proved",
   "theorems": [
    "SciCpp.C35_add_sub",
    "SciCpp.C35_neg",
    "SciCpp.C35_sub_eq_add_neg",
    "SciCpp.C35_comm",
    "SciCpp.C35_assoc",
    "SciCpp.C35_add_sub_cancel",
    "SciCpp.C35_offset_not_additive",
    "SciCpp.C35_int"
   ],
   "note": "All scales incl. roots, real and complex values; commutativity as types and values; integer representation for plain scales (always compiles, exact)."
  },
  {
   "property": "C36",
   "status": "partial",
   "theorems": [
    "SciCpp.C36_mul_partial",
    "SciCpp.C36_div_partial",
    "SciCpp.C36_inv",
    "SciCpp.C36_mul_div_cancel",
    "SciCpp.C36_mul_comm",
    "SciCpp.C36_root_pow",
    "SciCpp.C36_root",
    "SciCpp.C36_pow",
    "SciCpp.C36_norm",
    "SciCpp.C36_offset_false"
   ],
   "note": "All scales and dimensions incl. roots, real and complex values, units without offset; (a*b)/b = a and pow<n>(root<n>(a)) = a as type and value for plain a. Partial: an offset of the left operand is dropped (negation proved)."
  },
  {
   "property": "C37",
   "status": "partial",
   "theorems": [
    "SciCpp.C37_compare_partial",
    "SciCpp.C37_root_false",
    "SciCpp.C37_strict_total_partial"
   ],
   "note": "All offsets, floating point and integer representations. Partial: plain scales; the comparisons ignore the root of a scale: negation proved."
  },
  {
   "property": "C38",
   "status": "partial",
   "theorems": [
    "SciCpp.C38_eval",
    "SciCpp.C38_cast_iff",
    "SciCpp.C38_cast_partial",
    "SciCpp.C38_roundtrip_iff",
    "SciCpp.C38_offset_false",
    "SciCpp.C38_implicit_int",
    "SciCpp.C38_int_false",
    "SciCpp.C38_int_offset",
    "SciCpp.C38_int_offset_iff"
   ],
   "note": "Exact condition proved (offsets agree or target scale is 1), round trip likewise; celsius to fahrenheit is wrong (negation), explicit non-harmonic integer casts give 0 (negation); implicit integer conversions are exact."
  },
  {
   "property": "C39",
   "status": "partial",
   "theorems": [
    "SciCpp.C39_scalar",
    "SciCpp.C39_int_factor_false",
    "SciCpp.C39_int_factor_partial",
    "SciCpp.C39_int_quantity_false"
   ],
   "note": "Floating point factors in full; integral factors other than 1 and -1 give 0: negations proved."
  },
  {
   "property": "C40",
   "status": "proved",
   "theorems": [
    "SciCpp.C40_convolve_full",
    "SciCpp.C40_convolve_poly",
    "SciCpp.C40_convolve_comm",
    "SciCpp.C40_convolve_assoc",
    "SciCpp.C40_convolve_bilinear",
    "SciCpp.C40_convolve_unit",
    "SciCpp.C40_convolve_empty"
   ],
   "note": "All lengths over any commutative semiring; boundary behaviour of empty operands stated separately."
  },
  {
   "property": "C41",
   "status": "proved",
   "theorems": [
    "SciCpp.C41_fftconvolve_complex",
    "SciCpp.C41_fftconvolve_real"
   ],
   "note": "Eigen::FFT modelled as the exact DFT over the complex numbers; all arrays not both empty with at most 2^30 elements in total (int(fft_size))."
  },
  {
   "property": "C42",
   "status": "proved",
   "theorems": [
    "SciCpp.C42_correlate",
    "SciCpp.C42_correlate_swap"
   ],
   "note": "Any involutive ring conjugation (identity for real types)."
  },
  {
   "property": "C43",
   "status": "proved",
   "theorems": [
    "SciCpp.C43_next_fast_len",
    "SciCpp.C43_bounds",
    "SciCpp.C43_overflow"
   ],
   "note": "Every n with max(5, 2n) representable in the integer type; no out-of-bounds read, no overflow, termination."
  },
  {
   "property": "C44",
   "status": "partial",
   "theorems": [
    "SciCpp.C44_overloads_agree_partial",
    "SciCpp.C44_empty_false",
    "SciCpp.C44_inverse",
    "SciCpp.C44_elements",
    "SciCpp.C44_lvalue_false"
   ],
   "note": "All non-empty lengths, both overloads. Partial: an empty const array is UB and named non-const vectors are moved from (negations proved)."
  },
  {
   "property": "C45",
   "status": "proved",
   "theorems": [
    "SciCpp.C45_fftfreq",
    "SciCpp.C45_rfftfreq",
    "SciCpp.C45_requirements"
   ],
   "note": "Exact arithmetic over any linearly ordered field."
  },
  {
   "property": "C46",
   "status": "partial",
   "theorems": [
    "SciCpp.C46_zero_padding",
    "SciCpp.C46_elements",
    "SciCpp.C46_subvector_partial",
    "SciCpp.C46_subvector_false"
   ],
   "note": "zero_padding in full; subvector partial: len is clamped without the offset, so some arguments read out of bounds (negation proved)."
  },
  {
   "property": "C47",
   "status": "partial",
   "theorems": [
    "SciCpp.C47_filler_symmetric",
    "SciCpp.C47_symmetric",
    "SciCpp.C47_periodic_partial",
    "SciCpp.C47_textbook_partial",
    "SciCpp.C47_get_window",
    "SciCpp.C47_range",
    "SciCpp.C47_flattop_negative",
    "SciCpp.C47_one_point_nan",
    "SciCpp.C47_tukey_periodic_wrong",
    "SciCpp.C47_tukey_even_wrong"
   ],
   "note": "Symmetry for every element type and sample function; textbook values, ranges and the periodic rule for all 17 window functions (exact reals). Partial: Tukey with alpha >= 1 ignores Periodic, even-length Tukey windows deviate from the definition, one-point windows are NaN, flattop is negative at its ends: negations proved."
  },
  {
   "property": "C48",
   "status": "proved",
   "theorems": [
    "SciCpp.C48_gains",
    "SciCpp.C48_enbw_bound",
    "SciCpp.C48_boxcar",
    "SciCpp.C48_hann_bandwidth"
   ],
   "note": "All fields/ordered fields, every window with non-zero sum (enbw over the exact field; a zero sum divides by zero and is excluded); Hann bandwidth 1.5 bins."
  },
  {
   "property": "C49",
   "status": "proved",
   "theorems": [
    "SciCpp.C49_segments_fit",
    "SciCpp.C49_welch",
    "SciCpp.C49_full_overlap_ub",
    "SciCpp.C49_short_signal_ub",
    "SciCpp.C49_very_short_signal"
   ],
   "note": "Exact arithmetic, exact DFT; every length, window, overlap (also negative), scaling, real and complex signals. Boundaries proved: full overlap and slightly short signals are undefined behaviour, very short signals give zeros or NaN."
  },
  {
   "property": "C50",
   "status": "proved",
   "theorems": [
    "SciCpp.C50_never_terminates_abnormally",
    "SciCpp.C50_no_deadlock",
    "SciCpp.C50_terminates",
    "SciCpp.C50_result",
    "SciCpp.C50_eq_sequential",
    "SciCpp.C50_schedule_independent",
    "SciCpp.C50_each_segment_once",
    "SciCpp.C50_can_return",
    "SciCpp.C50_rounding_order_visible"
   ],
   "note": "Main thread and n workers as a transition system with arbitrary interleavings (sequentially consistent memory; `res` read and write are separate steps). Every n >= 1 and nseg; safety, mutual exclusion, no deadlock, bounded length, each segment once; result equals the sequential sum for every commutative associative addition; binary64 witness that the order is visible under rounding."
  },
  {
   "property": "C51",
   "status": "partial",
   "theorems": [
    "SciCpp.C51_coherence_partial",
    "SciCpp.C51_symmetric",
    "SciCpp.C51_one",
    "SciCpp.C51_scaled_signal",
    "SciCpp.C51_mixed_false"
   ],
   "note": "All pairs of one kind and length. Partial: one real and one complex signal violate a requirement (negation proved). Exact arithmetic; in binary64 the bound 1, the symmetry and coherence(x, x) = 1 hold up to rounding only, see C118."
  },
  {
   "property": "C52",
   "status": "partial",
   "theorems": [
    "SciCpp.C52_csd",
    "SciCpp.C52_csd_hermitian",
    "SciCpp.C52_csd_self",
    "SciCpp.C52_tfestimate_value",
    "SciCpp.C52_tfestimate_partial",
    "SciCpp.C52_tfestimate_false"
   ],
   "note": "csd: all kinds and lengths incl. mixed and zero padded. tfestimate returns the conjugate gain (negation proved)."
  },
  {
   "property": "C53",
   "status": "partial",
   "theorems": [
    "SciCpp.C53_consistent",
    "SciCpp.C53_computations_leave_no_trace",
    "SciCpp.C53_last_set",
    "SciCpp.C53_repeatable_partial",
    "SciCpp.C53_periodogram_false",
    "SciCpp.C53_setter_order"
   ],
   "note": "Histories of calls. Partial: periodogram resets the overlap for good (negation proved); it acts exactly as noverlap(0)."
  },
  {
   "property": "C54",
   "status": "proved",
   "theorems": [
    "SciCpp.C54_onesided_folded",
    "SciCpp.C54_parseval"
   ],
   "note": "All real signals, both parities, all scalings; Parseval."
  },
  {
   "property": "C55",
   "status": "proved",
   "theorems": [
    "SciCpp.C55_polyval",
    "SciCpp.C55_polyval_array",
    "SciCpp.C55_polyadd",
    "SciCpp.C55_polysub",
    "SciCpp.C55_polymul",
    "SciCpp.C55_polymulx",
    "SciCpp.C55_class_ops",
    "SciCpp.C55_class_empty_ub"
   ],
   "note": "Functional API and Polynomial class operators; the class operators are UB when exactly one coefficient vector is empty (proved)."
  },
  {
   "property": "C56",
   "status": "proved",
   "theorems": [
    "SciCpp.C56_polypow",
    "SciCpp.C56_polypow_succ"
   ],
   "note": "Vector loop and array recursion proved equal to the k-fold product."
  },
  {
   "property": "C57",
   "status": "partial",
   "theorems": [
    "SciCpp.C57_polydiv_partial",
    "SciCpp.C57_polydiv_monic_partial",
    "SciCpp.C57_polydiv_identity_false"
   ],
   "note": "False of the code for non-monic divisors of degree >= 1: the quotient is never divided by the leading coefficient (polynomial.hpp:185-192). Negation proved; remainder and the exact scaled identity proved for all inputs."
  },
  {
   "property": "C58",
   "status": "partial",
   "theorems": [
    "SciCpp.C58_polyder_partial",
    "SciCpp.C58_polyder_convention_false",
    "SciCpp.C58_polyint",
    "SciCpp.C58_negative_order_ub",
    "SciCpp.C58_polyint_empty_ub"
   ],
   "note": "polyint proved. polyder uses the opposite storage order (polynomial.hpp:334,346): negation proved; exact description (derivative of the reversed list, any order) proved."
  },
  {
   "property": "C59",
   "status": "partial",
   "theorems": [
    "SciCpp.C59_polytrim_partial",
    "SciCpp.C59_polytrim_nonneg_partial",
    "SciCpp.C59_polytrim_idem",
    "SciCpp.C59_polytrim_false"
   ],
   "note": "False of the code: trailing coefficients are dropped when c <= tol, not |c| <= tol (polynomial.hpp:549). Negation, exact behaviour, idempotence and the non-negative case proved."
  },
  {
   "property": "C60",
   "status": "proved",
   "theorems": [
    "SciCpp.C60_polyfromroots",
    "SciCpp.C60_polyfromroots_roots"
   ],
   "note": "Vector sizes below 2^64."
  },
  {
   "property": "C61",
   "status": "partial",
   "theorems": [
    "SciCpp.C61_polyvander_partial",
    "SciCpp.C61_polyvander_deg0_ub",
    "SciCpp.C61_polyvander_polyval",
    "SciCpp.C61_companion_charpoly",
    "SciCpp.C61_companion_eigenvalue",
    "SciCpp.C61_companion_const_ub"
   ],
   "note": "Companion: full characteristic polynomial identity. Vandermonde proved for deg >= 1; deg = 0 is UB in the code (polynomial.hpp:504, proved)."
  },
  {
   "property": "C62",
   "status": "partial",
   "theorems": [
    "SciCpp.C62_line_fields_partial",
    "SciCpp.C62_empty_fields_shift_columns",
    "SciCpp.C62_other_column_lists",
    "SciCpp.C62_file_lines",
    "SciCpp.C62_loadtxt_tuples",
    "SciCpp.C62_loadtxt_tuples_plain",
    "SciCpp.C62_loadtxt_matrix",
    "SciCpp.C62_matrix_pitfalls",
    "SciCpp.C62_loader_usecols",
    "SciCpp.C62_loader_setters",
    "SciCpp.C62_loader_last_set",
    "SciCpp.C62_usecols_twice",
    "SciCpp.C62_fromstring_string_ignores_type",
    "SciCpp.C62_complex_fields"
   ],
   "note": "Every file, option and increasing column list: lines, selected fields, tuple rows with converters and filters (exact condition for being defined), matrix rows. Partial: empty fields shift columns, repeated/decreasing/negative columns, setting usecols twice, blank lines and filters in matrix files, fromstring(std::string) ignoring its type, complex numbers with a minus sign: negations proved."
  },
  {
   "property": "C63",
   "status": "proved",
   "theorems": [
    "SciCpp.C63_roundtrip",
    "SciCpp.C63_int_roundtrip",
    "SciCpp.C63_long_integers",
    "SciCpp.C63_limits",
    "SciCpp.C63_array_lines"
   ],
   "note": "Every table (any number of rows and columns, any cell contents meeting the quantifier); integers round-trip as numbers over the range of int. Sharpness: negations outside the quantifier proved. The decimal printing of floating point numbers is not modelled."
  },
  {
   "property": "C64",
   "status": "partial",
   "theorems": [
    "SciCpp.C64_stream_partial",
    "SciCpp.C64_prefix",
    "SciCpp.C64_repeated_calls_identical",
    "SciCpp.C64_scalar_is_first",
    "SciCpp.C64_normal"
   ],
   "note": "Engine and distributions abstract. Same seed gives the same stream, prefix property. Partial: successive calls are re-seeded and return identical data (negation proved)."
  },
  {
   "property": "C65",
   "status": "proved",
   "theorems": [
    "SciCpp.C65_lerp",
    "SciCpp.C65_rounded",
    "SciCpp.C65_lerp_arrays",
    "SciCpp.C65_lerp_arrays_rounded",
    "SciCpp.C65_lerp_arrays_categories"
   ],
   "note": "Exact, and for every monotone rounding incl. binary64. Arrays (Props/LerpArr.lean): C65_lerp_arrays, C65_lerp_arrays_rounded, C65_lerp_arrays_categories."
  },
  {
   "property": "C66",
   "status": "proved",
   "theorems": [
    "SciCpp.C66_rescaling",
    "SciCpp.C66_affine_invariance",
    "SciCpp.C66_through_data",
    "SciCpp.C66_degenerate_ub",
    "SciCpp.C66_integer_queries"
   ],
   "note": "Any ordered field, any spline (a parameter): rescaling, affine invariance, passage through the data. Integer queries are rescaled in integer arithmetic (negation proved); degenerate data are undefined behaviour."
  },
  {
   "property": "C67",
   "status": "partial",
   "theorems": [
    "SciCpp.C67_sawtooth_partial",
    "SciCpp.C67_sawtooth_array",
    "SciCpp.C67_negative_times",
    "SciCpp.C67_rounding_overshoot",
    "SciCpp.C67_unit_impulse"
   ],
   "note": "sawtooth for all times >= 0 and widths (exact reals), unit_impulse in full. Partial: negative times leave the range or are undefined, rounding overshoots 1 (negations proved)."
  },
  {
   "property": "C68",
   "status": "partial",
   "theorems": [
    "SciCpp.C68_full_partial",
    "SciCpp.C68_summary",
    "SciCpp.C68_line_width",
    "SciCpp.C68_notation",
    "SciCpp.C68_fixed_text",
    "SciCpp.C68_integers_lose_zeros",
    "SciCpp.C68_integers_example",
    "SciCpp.C68_scalar"
   ],
   "note": "Every array and option setting at the level of printed fields; text of numbers in fixed notation. Partial: trailing zeros of integers are blanked (negation proved)."
  },
  {
   "property": "C69",
   "status": "partial",
   "theorems": [
    "SciCpp.C69_power",
    "SciCpp.C69_power_nonneg_partial",
    "SciCpp.C69_negative_exponent_false",
    "SciCpp.C69_negative_example"
   ],
   "note": "x^|n| proved for all n in every monoid. Partial: the claim for negative n is false of the code (pow<-n>(x) = x^n): negation proved."
  },
  {
   "property": "C70",
   "status": "partial",
   "theorems": [
    "SciCpp.C70_ifft_fft",
    "SciCpp.C70_irfft_rfft",
    "SciCpp.C70_irfft_default_even_partial",
    "SciCpp.C70_irfft_default_odd_false",
    "SciCpp.C70_empty",
    "SciCpp.C70_bins",
    "SciCpp.C70_linear"
   ],
   "note": "Exact DFT. ifft(fft(x)) and irfft with explicit length in full. Partial: irfft with the default length is false of the code for odd lengths (UB for one point, one sample too short otherwise): negation proved."
  },
  {
   "property": "C71",
   "status": "partial",
   "theorems": [
    "SciCpp.C71_templates",
    "SciCpp.C71_template_dims",
    "SciCpp.C71_aliases",
    "SciCpp.C71_literals",
    "SciCpp.C71_literal_value",
    "SciCpp.C71_rounded_units",
    "SciCpp.C71_scale_parameter",
    "SciCpp.C71_composite_units_partial",
    "SciCpp.C71_km_per_hour_false",
    "SciCpp.C71_knot_false",
    "SciCpp.C71_inverted_scale_false",
    "SciCpp.C71_kilosiemens_false",
    "SciCpp.C71_teratonne_dyne_false",
    "SciCpp.C71_tonnes"
   ],
   "note": "Exact: all 53 quantity templates have the SI dimension and pass the scale through (the two conductivities invert it); all 567 unit aliases and 454 literals with rational SI values denote their unit if and only if they are not in the lists wrongAliases / wrongLiterals (teratonne, km/h, knot, pound_force, poundal, kilogram_force, dyne, prefixed siemens; _flm, _flx); the remaining ones (degree, parsec, psi, mmHg, ...) are within stated relative errors. Partial because those units are wrong in the code."
  },
  {
   "property": "C72",
   "status": "partial",
   "theorems": [
    "SciCpp.C72_base_primes",
    "SciCpp.C72_sound",
    "SciCpp.C72_complete_partial",
    "SciCpp.C72_fractional_false"
   ],
   "note": "Same type implies same exponents for all expressions; converse for integer exponents; false for fractional exponents (negation proved)."
  },
  {
   "property": "C73",
   "status": "partial",
   "theorems": [
    "SciCpp.C73_fmin",
    "SciCpp.C73_more_same_type_partial",
    "SciCpp.C73_cos_tan",
    "SciCpp.C73_inverse_trig",
    "SciCpp.C73_inverse_trig_dimension",
    "SciCpp.C73_atan2_partial",
    "SciCpp.C73_dimensionless_partial",
    "SciCpp.C73_log_iff",
    "SciCpp.C73_sinc",
    "SciCpp.C73_same_type_partial",
    "SciCpp.C73_fmax",
    "SciCpp.C73_fma_iff",
    "SciCpp.C73_fma_false",
    "SciCpp.C73_exp_iff",
    "SciCpp.C73_exp_false",
    "SciCpp.C73_sin"
   ],
   "note": "abs, fmin, fmax, hypot, fma, cbrt-like and same-type functions, trigonometric and inverse trigonometric functions, atan2, exp, log, sinc: every unit without offset. Partial: log/exp ignore the scale of a dimensionless quantity (iff proved)."
  },
  {
   "property": "C74",
   "status": "proved",
   "theorems": [
    "SciCpp.C74_instantaneous_frequency"
   ],
   "note": "Every real polynomial and time (derivative of the phase)."
  },
  {
   "property": "C75",
   "status": "partial",
   "theorems": [
    "SciCpp.C75_polyfit_least_squares_partial",
    "SciCpp.C75_polyfit_exact_partial",
    "SciCpp.C75_polyfit_sizes",
    "SciCpp.C75_polyfit_constant_ub"
   ],
   "note": "Any solver of least squares problems as parameter (shown to exist over the reals), exact arithmetic, every data set and degree >= 1. Partial: degree 0 is undefined behaviour (negation proved)."
  },
  {
   "property": "C76",
   "status": "proved",
   "theorems": [
    "SciCpp.C76_array_scalar",
    "SciCpp.C76_scalar_array",
    "SciCpp.C76_negate",
    "SciCpp.C76_array_array",
    "SciCpp.C76_masks",
    "SciCpp.C76_float_comm",
    "SciCpp.C76_int_comm",
    "SciCpp.C76_modulus_float",
    "SciCpp.C76_modulus_zero",
    "SciCpp.C76_int_div_mod",
    "SciCpp.C76_int_overflow_false",
    "SciCpp.C76_float_ops",
    "SciCpp.C76_int_ops"
   ],
   "note": "Every element type with commutative + and * (instantiated for rounded floats with special values and bounded integers), every length, value category and container; UB for different lengths and integer overflow."
  },
  {
   "property": "C77",
   "status": "partial",
   "theorems": [
    "SciCpp.C77_gmean",
    "SciCpp.C77_gmean_pow",
    "SciCpp.C77_bounds",
    "SciCpp.C77_am_gm",
    "SciCpp.C77_scale",
    "SciCpp.C77_zero",
    "SciCpp.C77_nan",
    "SciCpp.C77_infinite",
    "SciCpp.C77_filtered",
    "SciCpp.C77_nangmean",
    "SciCpp.C77_named_vector_false",
    "SciCpp.C77_argument_unchanged_partial"
   ],
   "note": "Exact reals with infinities and NaN. Partial: named non-const arrays are overwritten (negation proved)."
  },
  {
   "property": "C78",
   "status": "partial",
   "theorems": [
    "SciCpp.C78_counts_range_partial",
    "SciCpp.C78_counts_scott_partial",
    "SciCpp.C78_counts_doane_partial",
    "SciCpp.C78_counts_fd_auto_partial",
    "SciCpp.C78_iqr_exists",
    "SciCpp.C78_almost_constant_false",
    "SciCpp.C78_every_sample_counted_partial",
    "SciCpp.C78_constant",
    "SciCpp.C78_empty"
   ],
   "note": "Exact reals, every data set whose extremes are not almost equal; every sample counted for any positive width. Partial: almost-equal but different data use the unwidened range for the width and give unboundedly many bins (negation proved)."
  },
  {
   "property": "C79",
   "status": "partial",
   "theorems": [
    "SciCpp.C79_quartiles",
    "SciCpp.C79_fliers",
    "SciCpp.C79_last_call_wins",
    "SciCpp.C79_drawing",
    "SciCpp.C79_hidden",
    "SciCpp.C79_vector_false",
    "SciCpp.C79_defined_partial",
    "SciCpp.C79_widths_partial",
    "SciCpp.C79_capwidths_false"
   ],
   "note": "Exact arithmetic; every data and every history of calls; sciplot is the list of drawing requests. Partial: data held in a vector are undefined behaviour (width lists sized before the data), capwidths(w) changes the boxes instead of the caps: negations proved."
  },
  {
   "property": "C80",
   "status": "partial",
   "theorems": [
    "SciCpp.C80_curves",
    "SciCpp.C80_first_length",
    "SciCpp.C80_second_length_false",
    "SciCpp.C80_hist_log_false",
    "SciCpp.C80_hist_log_partial",
    "SciCpp.C80_csd_psd_false",
    "SciCpp.C80_marker",
    "SciCpp.C80_marker_types",
    "SciCpp.C80_spectrum_history",
    "SciCpp.C80_hist_history_partial",
    "SciCpp.C80_hist_step_false"
   ],
   "note": "Every number of curves and history. Partial: only the first curve's length is checked, log(false) does not undo log(true), the csd plot shows |P|^2: negations proved."
  },
  {
   "property": "C81",
   "status": "proved",
   "theorems": [
    "SciCpp.C81_fields",
    "SciCpp.C81_lossless",
    "SciCpp.C81_by_type"
   ],
   "note": "Tuples of any number of components of any types."
  },
  {
   "property": "C82",
   "status": "proved",
   "theorems": [
    "SciCpp.C82_round_trip",
    "SciCpp.C82_size",
    "SciCpp.C82_matrix",
    "SciCpp.C82_row_order_false",
    "SciCpp.C82_huge_false"
   ],
   "note": "Eigen represented by its storage (default column-major). Sizes beyond the vector are UB (proved), as are vectors of 2^31 elements."
  },
  {
   "property": "C83",
   "status": "partial",
   "theorems": [
    "SciCpp.C83_mul_partial",
    "SciCpp.C83_div_partial",
    "SciCpp.C83_polar_partial",
    "SciCpp.C83_polar_any_unit",
    "SciCpp.C83_complex_exp_false"
   ],
   "note": "Exact complex numbers, units without offset. Partial: the exponential of a complex quantity accepts any dimension and depends on the unit (negation proved)."
  },
  {
   "property": "C84",
   "status": "partial",
   "theorems": [
    "SciCpp.C84_rounding_partial",
    "SciCpp.C84_unit_dependent_false"
   ],
   "note": "Exact reals, units without offset. Partial: the result depends on the unit (negation proved)."
  },
  {
   "property": "C85",
   "status": "partial",
   "theorems": [
    "SciCpp.C85_dimensions",
    "SciCpp.C85_values",
    "SciCpp.C85_relations",
    "SciCpp.C85_double",
    "SciCpp.C85_float_partial",
    "SciCpp.C85_float_magnetons_false",
    "SciCpp.C85_pi_e",
    "SciCpp.C85_gamma_zeta3"
   ],
   "note": "Dimensions for every T; values within 1e-9 of CODATA in exact arithmetic and in double, 1e-6 in float; float muB and muN underflow to 0: C85_float_magnetons_false."
  },
  {
   "property": "C86",
   "status": "partial",
   "theorems": [
    "SciCpp.C86_call_alive",
    "SciCpp.C86_call2_alive",
    "SciCpp.C86_temporary_false",
    "SciCpp.C86_argument_exact",
    "SciCpp.C86_pow",
    "SciCpp.C86_pow_n",
    "SciCpp.C86_fabs"
   ],
   "note": "Every functor, array, value category and lifetime. Partial: vectorize keeps a reference to its functor, so a closure made from a temporary is undefined behaviour when called (C86_temporary_false); a named non-const array argument is emptied or overwritten (exact iff C86_argument_exact)."
  },
  {
   "property": "C87",
   "status": "partial",
   "theorems": [
    "SciCpp.C87_tmean",
    "SciCpp.C87_tmean_bounds",
    "SciCpp.C87_tvar_exact",
    "SciCpp.C87_nanmean",
    "SciCpp.C87_nanvar_exact",
    "SciCpp.C87_nan_free",
    "SciCpp.C87_nan_order_statistics",
    "SciCpp.C87_nanquantile_partial",
    "SciCpp.C87_filtered_quantile",
    "SciCpp.C87_tvar_false"
   ],
   "note": "Exact arithmetic with NaN, less than 2^31 accepted elements, finite limits; order statistics for arrays without infinities. Partial: tvar, tstd, tsem, nanvar, nanstd, nansem are NaN when a whole block is rejected (exact iff, and C87_tvar_false)."
  },
  {
   "property": "C88",
   "status": "proved",
   "theorems": [
    "SciCpp.C88_covariance",
    "SciCpp.C88_var",
    "SciCpp.C88_binary64",
    "SciCpp.C88_mean",
    "SciCpp.C88_inner",
    "SciCpp.C88_polyval",
    "SciCpp.C88_convolve",
    "SciCpp.C88_cumsum",
    "SciCpp.C88_trapz"
   ],
   "note": "RFl rnd: any rounding with relative error at most u (instances: binary64, u = 2^-53, C88_binary64), no overflow or underflow; counts representable and below 2^31. Sum: C02."
  },
  {
   "property": "C89",
   "status": "proved",
   "theorems": [
    "SciCpp.C89_sum_mean_nonneg",
    "SciCpp.C89_inner_self_nonneg",
    "SciCpp.C89_var_nonneg",
    "SciCpp.C89_sum_mono",
    "SciCpp.C89_mean_mono",
    "SciCpp.C89_cumsum_mono",
    "SciCpp.C89_diff_sign",
    "SciCpp.C89_scale_sum_mean",
    "SciCpp.C89_scale_inner",
    "SciCpp.C89_scale_covariance_same_sign",
    "SciCpp.C89_scale_covariance",
    "SciCpp.C89_binary64_rounding"
   ],
   "note": "RFl rnd with NaN and infinities; rounding hypotheses met by binary64 (C89_binary64_rounding); no overflow or underflow. Less than 2^31 elements for mean and variance."
  },
  {
   "property": "C90",
   "status": "partial",
   "theorems": [
    "SciCpp.C90_inner_symm",
    "SciCpp.C90_covariance_symm_partial",
    "SciCpp.C90_mean_range_false",
    "SciCpp.C90_var_constant_false",
    "SciCpp.C90_covariance_symm_false"
   ],
   "note": "Partial: false of the code. covariance(x,y) and covariance(y,x) differ in the last bit for arrays of more than 64 elements (the combination step multiplies in a different order, stats.hpp:440; C90_covariance_symm_false, exact symmetry up to 64 elements proved); the mean of {0.1,0.1,0.1} exceeds its maximum and its variance is not zero (C90_mean_range_false, C90_var_constant_false)."
  },
  {
   "property": "C91",
   "status": "proved",
   "theorems": [
    "SciCpp.C91_sum",
    "SciCpp.C91_mean",
    "SciCpp.C91_nansum",
    "SciCpp.C91_covariance",
    "SciCpp.C91_var",
    "SciCpp.C91_cumsum"
   ],
   "note": "RFl rnd (every rounding function that keeps positive values positive for mean, covariance and variance), no overflow; less than 2^31 elements for mean and variance. Also prim_rd_iff, prim_wr_iff: indexed accesses of the model succeed exactly inside the array."
  },
  {
   "property": "C92",
   "status": "partial",
   "theorems": [
    "SciCpp.C92_rounded_partial",
    "SciCpp.C92_error",
    "SciCpp.C92_end_false"
   ],
   "note": "RFl rnd (binary64 as instance), no overflow or underflow. First element, monotonicity and the error bound proved. Partial: the last element is not exactly stop (linspace(-29,0,8).back() = 2^-48, C92_end_false)."
  },
  {
   "property": "C93",
   "status": "proved",
   "theorems": [
    "SciCpp.C93_sum",
    "SciCpp.C93_mean",
    "SciCpp.C93_inner",
    "SciCpp.C93_polyval",
    "SciCpp.C93_cumsum",
    "SciCpp.C93_binary64",
    "SciCpp.C93_underflow"
   ],
   "note": "IFl f: any binary format with gradual underflow and overflow to infinity (binary64, binary32), no signed zeros. Mean: fewer than 2^31 accepted elements and at least 31 significant bits (double). Polyval: error bound for finite results."
  },
  {
   "property": "C94",
   "status": "partial",
   "theorems": [
    "SciCpp.C94_linspace_partial",
    "SciCpp.C94_overflow_false"
   ],
   "note": "IFl f. linspace: error bound and finiteness when the difference stop - start cannot overflow; mean: see C93_mean. Partial: mean({M,M}) = inf and linspace(-M,M,3) = {NaN,inf,inf} for the largest double M (C94_overflow_false)."
  },
  {
   "property": "C95",
   "status": "proved",
   "theorems": [
    "SciCpp.C95_sum",
    "SciCpp.C95_prod",
    "SciCpp.C95_sum_order_false",
    "SciCpp.C95_sum_abs",
    "SciCpp.C95_mean",
    "SciCpp.C95_cum",
    "SciCpp.C95_diff",
    "SciCpp.C95_inner",
    "SciCpp.C95_median",
    "SciCpp.C95_median_false"
   ],
   "note": "Any signed range [lo, hi]; mean for fewer than 2^31 accepted elements. The stronger claim 'defined whenever the exact result is representable' is false of the code: sum({INT_MAX,1,-1}) and median({INT_MAX,INT_MAX}) overflow (C95_sum_order_false, C95_median_false)."
  },
  {
   "property": "C96",
   "status": "proved",
   "theorems": [
    "SciCpp.C96_spectrum",
    "SciCpp.C96_scale",
    "SciCpp.C96_width",
    "SciCpp.C96_winvis",
    "SciCpp.C96_sizes",
    "SciCpp.C96_zero_window"
   ],
   "note": "Exact DFT and exact reals with IEEE special values for log10. A window whose samples are all zero is undefined behaviour (C96_zero_window)."
  },
  {
   "property": "C97",
   "status": "proved",
   "theorems": [
    "SciCpp.C97_number",
    "SciCpp.C97_six_digits",
    "SciCpp.C97_reload",
    "SciCpp.C97_digits_lost_false",
    "SciCpp.C97_table",
    "SciCpp.C97_complex",
    "SciCpp.C97_complex_lost_false",
    "SciCpp.C97_leading_space",
    "SciCpp.C97_no_number"
   ],
   "note": "printf/strtod modelled after their specification (correct rounding, no signed zeros). The stronger claim that numbers are restored is false of the code: more than six significant digits are dropped (C97_digits_lost_false) and complex numbers below half a millionth come back as 0 (C97_complex_lost_false). complex<float> is not covered: %lf into a float is undefined."
  },
  {
   "property": "C98",
   "status": "proved",
   "theorems": [
    "SciCpp.C98_real",
    "SciCpp.C98_special",
    "SciCpp.C98_complex",
    "SciCpp.C98_tuple",
    "SciCpp.C98_notation",
    "SciCpp.C98_array",
    "SciCpp.C98_complex_array",
    "SciCpp.C98_tuple_array",
    "SciCpp.C98_scalar",
    "SciCpp.C98_defects_false"
   ],
   "note": "Output streams (setw, setprecision, fixed, scientific) modelled after their specification, no signed zeros; the notation rule for arrays without NaN. Not in the claim, shown by C98_defects_false: precision 0 in fixed notation blanks integer zeros (1200 is shown as 12), -inf takes fifteen columns, an array starting with NaN is never shown in scientific notation."
  },
  {
   "property": "C99",
   "status": "partial",
   "theorems": [
    "SciCpp.C99_root_rounded_partial",
    "SciCpp.C99_root_double_partial",
    "SciCpp.C99_special",
    "SciCpp.C99_root_false",
    "SciCpp.C99_sqrt",
    "SciCpp.C99_sqrt_exact"
   ],
   "note": "Any rounding of relative error u without limits of the exponent, N*u <= 1/16: when the iteration stops the result is within 12u of the root. Partial: it does not always stop (cube root of 4, fourth root of 2 alternate between two doubles for ever), and the cube root of 1e-200 is inf: C99_root_false. Square roots are complete: C99_sqrt proves that ct_root<2> returns for every positive finite float or double (subnormals and the largest number included) and the result is one of the two neighbours of the root, the exact root if it is representable (C99_sqrt_exact)."
  },
  {
   "property": "C100",
   "status": "proved",
   "theorems": [
    "SciCpp.C100_compare",
    "SciCpp.C100_decides",
    "SciCpp.C100_three_units",
    "SciCpp.C100_same_type_order",
    "SciCpp.C100_base_unit",
    "SciCpp.C100_decides_offset",
    "SciCpp.C100_same_unit_false",
    "SciCpp.C100_transitive_false",
    "SciCpp.C100_offset_false",
    "SciCpp.C100_nan_false"
   ],
   "note": "IFl f with StdFmt f (binary64, binary32), units with rational scale (root 1) whose cross products are below 2^(frac+1), no signed zeros, no contraction to fma. Not in the claim and false of the code: distinct doubles of the same unit can compare equal (1.9 inch and its successor, 1e303 and 2e303 inch, 0 and 1e-14 degrees Celsius: C100_same_unit_false), == and < are not transitive across three units (C100_transitive_false), -273.15 degrees Celsius < 1e-14 K is not reported correctly (C100_offset_false), NaN quantities satisfy <= and >= (C100_nan_false)."
  },
  {
   "property": "C101",
   "status": "proved",
   "theorems": [
    "SciCpp.C101_almost_equal",
    "SciCpp.C101_almost_equal_false",
    "SciCpp.C101_cast",
    "SciCpp.C101_amount",
    "SciCpp.C101_exact",
    "SciCpp.C101_same_unit",
    "SciCpp.C101_mono",
    "SciCpp.C101_roundtrip",
    "SciCpp.C101_exact_false",
    "SciCpp.C101_add",
    "SciCpp.C101_add_exact",
    "SciCpp.C101_cast_offset",
    "SciCpp.C101_eval"
   ],
   "note": "As C100; almost_equal for a rounding without limits of the exponent. The bounds are in the code's own formula for offsets (C38 says when that formula is right). Not in the claim and false of the code: 15e9 ns converts to 15.000000000000002 s although both compare equal, 7 inch to cm and back is not 7 inch (C101_exact_false); 1 inch is not almost_equal to its conversion with the default tolerance (C101_almost_equal_false)."
  },
  {
   "property": "C102",
   "status": "proved",
   "theorems": [
    "SciCpp.C102_history",
    "SciCpp.C102_undo",
    "SciCpp.C102_add_agrees",
    "SciCpp.C102_count",
    "SciCpp.C102_undo_false"
   ],
   "note": "History and undo in exact real arithmetic without division by zero, any unit incl. offsets and roots; += agreement for any representation type (root 1). Undoing is false in double (C102_undo_false)."
  },
  {
   "property": "C103",
   "status": "partial",
   "theorems": [
    "SciCpp.C103_compiles",
    "SciCpp.C103_result",
    "SciCpp.C103_arguments_partial",
    "SciCpp.C103_named_false"
   ],
   "note": "Arrays of bool (the only element type that can be overwritten by a comparison). Partial: less_equal and greater forward each argument with the category of the other, so greater(x, temporary) empties a named vector x, and they do not compile for arguments of different constness or type (C103_named_false, C103_compiles)."
  },
  {
   "property": "C104",
   "status": "partial",
   "theorems": [
    "SciCpp.C104_chain",
    "SciCpp.C104_programs_partial",
    "SciCpp.C104_independent",
    "SciCpp.C104_chain_false",
    "SciCpp.C104_spectrum_false"
   ],
   "note": "Any class whose setters change the object and return a copy. Partial: the setters return by value, so a chain of several setters on a named object applies only the first one to it (C104_chain, C104_chain_false, C104_spectrum_false); proved for programs that set one option per statement, assign the chain back, or configure temporaries."
  },
  {
   "property": "C105",
   "status": "proved",
   "theorems": [
    "SciCpp.C105_last_set",
    "SciCpp.C105_columns",
    "SciCpp.C105_vector",
    "SciCpp.C105_roundtrip_int",
    "SciCpp.C105_roundtrip_double"
   ],
   "note": "Vector and matrix results without filters, at least two columns for the round trip."
  },
  {
   "property": "C106",
   "status": "partial",
   "theorems": [
    "SciCpp.C106_sound",
    "SciCpp.C106_exact",
    "SciCpp.C106_noise_partial",
    "SciCpp.C106_complex",
    "SciCpp.C106_own",
    "SciCpp.C106_noise_false"
   ],
   "note": "Exact for all quantities with integer exponents. Partial: the two noise densities (per square root of a frequency) are recognised exactly when the dimension is stored as a square root; the same dimension formed from fourth roots is rejected (C106_noise_false)."
  },
  {
   "property": "C107",
   "status": "partial",
   "theorems": [
    "SciCpp.C107_values",
    "SciCpp.C107_extremes",
    "SciCpp.C107_infinity_partial",
    "SciCpp.C107_infinity",
    "SciCpp.C107_nan",
    "SciCpp.C107_own",
    "SciCpp.C107_infinity_false"
   ],
   "note": "IFl f with StdFmt f; units with rational scale, num*den below 2^(frac+1), no offset. Partial: strictness of infinity() is false outside base units, because comparisons multiply both sides by num*den: in kilometres max() == infinity() (C107_infinity_false); C107_infinity_partial characterises it."
  },
  {
   "property": "C108",
   "status": "partial",
   "theorems": [
    "SciCpp.C108_compiles",
    "SciCpp.C108_value_partial",
    "SciCpp.C108_variadic",
    "SciCpp.C108_chain",
    "SciCpp.C108_compiles_false"
   ],
   "note": "One element type. Partial: an expression compiles exactly when no | has a reusable vector (moved, temporary or computed) on both sides (C108_compiles): (a | b) | (c | d) and concatenate(std::move(a), b, c) are ambiguous calls (C108_compiles_false); what compiles has the right value."
  },
  {
   "property": "C109",
   "status": "partial",
   "theorems": [
    "SciCpp.C109_median",
    "SciCpp.C109_median_range",
    "SciCpp.C109_median_false",
    "SciCpp.C109_quantile_between",
    "SciCpp.C109_quantile_element",
    "SciCpp.C109_quantile_ends",
    "SciCpp.C109_quantile_linear",
    "SciCpp.C109_quantile_mono_partial",
    "SciCpp.C109_quantile_mono_false",
    "SciCpp.C109_percentile",
    "SciCpp.C109_float_ub"
   ],
   "note": "double for the LINEAR mode; every rounding exact on the indices otherwise; overflow only in the median. Partial: the midpoint overflows when the sum of the middle elements does, median({M, M}) is infinite (C109_median_false); LINEAR is not monotone, a position just below a power of two is cut to the integer below (C109_quantile_mono_false), and monotone otherwise; with a float probability arrays of more than 2^24 elements can be read past the end (C109_float_ub)."
  },
  {
   "property": "C110",
   "status": "partial",
   "theorems": [
    "SciCpp.C110_polyval",
    "SciCpp.C110_polyval_64_partial",
    "SciCpp.C110_polyval_false",
    "SciCpp.C110_polyadd",
    "SciCpp.C110_polysub",
    "SciCpp.C110_convolve_swap",
    "SciCpp.C110_convolve",
    "SciCpp.C110_convolve_defined",
    "SciCpp.C110_polyder",
    "SciCpp.C110_polyint",
    "SciCpp.C110_polyint_false"
   ],
   "note": "Every integer type, exact iff for the conditions of definedness. Partial: polyval goes through double (std::fma), exact for types of at most 53 bits; for 64-bit integers polyval(x, {2^53+1}) is 2^53 and polyval(x, {2^63-1}) is undefined (C110_polyval_false; exact below 2^53: C110_polyval_64_partial); polyint truncates (C110_polyint, C110_polyint_false)."
  },
  {
   "property": "C111",
   "status": "partial",
   "theorems": [
    "SciCpp.C111_outer_edges",
    "SciCpp.C111_constant",
    "SciCpp.C111_constant_large_false",
    "SciCpp.C111_defined",
    "SciCpp.C111_bins_partial",
    "SciCpp.C111_lost_false",
    "SciCpp.C111_overflow_false",
    "SciCpp.C111_below_false",
    "SciCpp.C111_density"
   ],
   "note": "Every IEEE format with overflow and underflow. Partial: histogram(x, 10) of 2^52, ..., 2^52+14 loses four samples inside the range, because the step is the difference of two rounded edges (C111_lost_false); a distance to the first edge that overflows loses the sample, +infinity is counted in the last bin (C111_overflow_false); a negative subnormal is counted in the bin starting at 0 (C111_below_false). Proved: definedness for all bins and samples (C111_defined), exact placement, order, error bound and coverage up to the error (C111_bins_partial), density (C111_density). Outer edges are the extremes of the samples, widened by one half each when they are almost equal (C111_outer_edges, C111_constant); for the constant samples {2^53} the widening is lost to rounding and the bins violate their own requirement (C111_constant_large_false)."
  },
  {
   "property": "C112",
   "status": "partial",
   "theorems": [
    "SciCpp.C112_logspace",
    "SciCpp.C112_logspace_mono",
    "SciCpp.C112_logspace_end_false",
    "SciCpp.C112_logspace_int",
    "SciCpp.C112_logspace_int_false",
    "SciCpp.C112_arange_partial",
    "SciCpp.C112_arange_false",
    "SciCpp.C112_arange_neg",
    "SciCpp.C112_long",
    "SciCpp.C112_long_false"
   ],
   "note": "Every rounding with relative error u, monotone and exact on the indices; pow is arbitrary. Partial: logspace(0., 1., 50) ends at the exponent 1 - 2^-53 (C112_logspace_end_false); logspace(0, 1, 3) of int is {1, 1, 1} (C112_logspace_int_false; exact elements: C112_logspace_int); arange(2^52, 2^52 + 1, 0.25) contains stop (C112_arange_false; at most stop and complete up to two roundings: C112_arange_partial; decreasing ranges mirror increasing ones: C112_arange_neg); linspace(0.f, 1.f, 2^25 + 1) ends at 0.5 because the float indices stop at 2^24 (C112_long, C112_long_false)."
  },
  {
   "property": "C113",
   "status": "partial",
   "theorems": [
    "SciCpp.C113_linspace",
    "SciCpp.C113_logspace",
    "SciCpp.C113_linspace_ieee",
    "SciCpp.C113_types",
    "SciCpp.C113_arange_partial",
    "SciCpp.C113_arange_offset",
    "SciCpp.C113_arange_false"
   ],
   "note": "linspace and logspace for every arithmetic with commutative product. Partial: arange of quantities whose step has the wrong direction can list elements, because the scaled ends compare equal (C113_arange_false); it does not compile for units with offset (C113_arange_offset). Scales with a root are not covered."
  },
  {
   "property": "C114",
   "status": "proved",
   "theorems": [
    "SciCpp.C114_classes",
    "SciCpp.C114_filters",
    "SciCpp.C114_partition",
    "SciCpp.C114_trim",
    "SciCpp.C114_complex",
    "SciCpp.C114_quantity_false"
   ],
   "note": "Every IEEE format, zeros without sign. On quantities the functions look at the stored number: 0 °C is zero and 2^-1030 of a unit 1024 m is subnormal though equal to 2^-1020 m, which is normal (C114_quantity_false)."
  },
  {
   "property": "C115",
   "status": "proved",
   "theorems": [
    "SciCpp.C115_sum",
    "SciCpp.C115_mean",
    "SciCpp.C115_inner",
    "SciCpp.C115_polyval",
    "SciCpp.C115_cumsum",
    "SciCpp.C115_convolve",
    "SciCpp.C115_diff",
    "SciCpp.C115_binary64",
    "SciCpp.C115_sharp"
   ],
   "note": "Every IEEE format with overflow and underflow; the limit is sharp (C115_sharp)."
  },
  {
   "property": "C116",
   "status": "partial",
   "theorems": [
    "SciCpp.C116_hamming_range",
    "SciCpp.C116_hann",
    "SciCpp.C116_hamming",
    "SciCpp.C116_kaiser",
    "SciCpp.C116_gaussian",
    "SciCpp.C116_parzen",
    "SciCpp.C116_bartlett_partial",
    "SciCpp.C116_bartlett_exact",
    "SciCpp.C116_bartlett_negative",
    "SciCpp.C116_gaussian_nan",
    "SciCpp.C116_kaiser_nan",
    "SciCpp.C116_blackman_negative",
    "SciCpp.C116_element_types",
    "SciCpp.C116_cosine_error"
   ],
   "note": "IEEE formats (ranges) and any rounding with relative error u (cosine sums); cos, exp, sqrt and the Bessel function are arbitrary functions with the stated ranges. Partial: bartlett<double>(6) starts and ends with -2^-53 (C116_bartlett_negative) and every blackman<double> with -2^-56 when cos is correctly rounded (C116_blackman_negative); gaussian with an underflowing variance and kaiser with an overflowing I0(beta) have a NaN in the centre (C116_gaussian_nan, C116_kaiser_nan); blackman, nuttall, blackmanharris, flattop and get_window do not compile for float and long double (C116_element_types). Symmetry for any arithmetic is C47_filler_symmetric. Distances of the other windows: C117."
  },
  {
   "property": "C117",
   "status": "partial",
   "theorems": [
    "SciCpp.C117_cosine",
    "SciCpp.C117_bohman",
    "SciCpp.C117_lanczos",
    "SciCpp.C117_gaussian",
    "SciCpp.C117_parzen",
    "SciCpp.C117_kaiser",
    "SciCpp.C117_general_gaussian",
    "SciCpp.C117_tukey_partial",
    "SciCpp.C117_tukey_ends",
    "SciCpp.C117_small",
    "SciCpp.C117_tukey_range",
    "SciCpp.C117_tukey_end"
   ],
   "note": "Every rounding with relative error u that represents the half integers up to twice the number of points (double to 2^53); library functions with a given accuracy are parameters; overflow and underflow are excluded. Partial: tukey for an odd number of points (with an even number the code itself departs from the textbook, C47); its bound is proportional to 1/alpha, and tukey(3, 2^-53) is {1, 1, 1} where the textbook has 0 at the ends (C117_tukey_end). C117_tukey_ends: the windows for alpha <= 0 and alpha >= 1."
  },
  {
   "property": "C118",
   "status": "proved",
   "theorems": [
    "SciCpp.C118_segment",
    "SciCpp.C118_segment_complex",
    "SciCpp.C118_welch",
    "SciCpp.C118_csd",
    "SciCpp.C118_coherence",
    "SciCpp.C118_coherence_exact",
    "SciCpp.C118_tfestimate",
    "SciCpp.C118_schedule",
    "SciCpp.C118_coherence_above_one",
    "SciCpp.C118_coherence_self",
    "SciCpp.C118_coherence_asymmetric"
   ],
   "note": "Any rounding with relative error u < 1, without overflow and underflow, that represents 1/2, 2 and the number of segments; the transforms and the complex mean are arbitrary functions; complex products are the textbook formula. In binary64 the coherence of two signals can be 1 + 2^-52 (C118_coherence_above_one), that of a signal with itself 1 - 2^-53 (C118_coherence_self), and coherence(x, y) can differ from coherence(y, x) (C118_coherence_asymmetric). Signals of different sizes or kinds are covered by the exact model only (C51, C52). C118_segment, C118_segment_complex: what is transformed (samples, mean removed, times window), with error bound for real signals."
  },
  {
   "property": "C119",
   "status": "proved",
   "theorems": [
    "SciCpp.C119_fftfreq",
    "SciCpp.C119_rfftfreq",
    "SciCpp.C119_fftfreq_float_stuck"
   ],
   "note": "Any odd rounding with relative error u that represents the integers up to n, without overflow and underflow. The limit matters in float: all frequencies of fftfreq<float>(33554440) are equal (C119_fftfreq_float_stuck)."
  },
  {
   "property": "C120",
   "status": "proved",
   "theorems": [
    "SciCpp.C120_sound",
    "SciCpp.C120_static",
    "SciCpp.C120_dimensions",
    "SciCpp.C120_units",
    "SciCpp.C120_homogeneous",
    "SciCpp.C120_complete",
    "SciCpp.C120_fractional_false",
    "SciCpp.C120_mixed_false",
    "SciCpp.C120_overloads"
   ],
   "note": "double idealised as real numbers, units without offset; division by zero and roots of negative numbers are outside the model. Sound for all expressions (C120_sound, C120_static, C120_dimensions, C120_units, C120_homogeneous), complete for expressions without roots, fmax, fmin and hypot (C120_complete). Consistent expressions with fractional exponents such as root<4>(x) * root<4>(x) + sqrt(x) do not compile (C120_fractional_false), nor do a dimensionless quantity plus a number and fmax of metres and kilometres (C120_mixed_false); the operators need equal representation types (C120_overloads): metre<double> * second<float> is ambiguous."
  },
  {
   "property": "C121",
   "status": "partial",
   "theorems": [
    "SciCpp.C121_power",
    "SciCpp.C121_prime_factors",
    "SciCpp.C121_prime_factors_false",
    "SciCpp.C121_root",
    "SciCpp.C121_multiply",
    "SciCpp.C121_divide",
    "SciCpp.C121_pow",
    "SciCpp.C121_multiply_root",
    "SciCpp.C121_multiply_sound",
    "SciCpp.C121_divide_sound",
    "SciCpp.C121_pow_sound",
    "SciCpp.C121_root_sound",
    "SciCpp.C121_common",
    "SciCpp.C121_common_sound",
    "SciCpp.C121_expressions_partial",
    "SciCpp.C121_values",
    "SciCpp.C121_conversion",
    "SciCpp.C121_conversion_false",
    "SciCpp.C121_pow_length",
    "SciCpp.C121_order_false",
    "SciCpp.C121_add",
    "SciCpp.C121_add_false"
   ],
   "note": "An overflow in a constant expression is a compile error. Whatever compiles has the exact type and value (C121_expressions_partial, C121_values). Exact conditions for compiling: power, prime_factors, roots, products with roots, and for ratios without root products, quotients, powers, common scales, sums and conversions (C121_power, C121_root, C121_multiply, C121_divide, C121_pow, C121_common, C121_add, C121_conversion). Partial because the second half is false: the factorisation of a prime from 3037000499^2 on overflows (C121_prime_factors_false), intermediate results overflow although the result fits (C121_order_false, C121_add_false: exametre + attometre), and some conversions between units of the library do not compile (C121_conversion_false: light years to millimetres). Not modelled: compiler limits on evaluation steps and template depth (factoring a large prime needs up to 3e9 steps), arithmetic of offsets."
  },
  {
   "property": "C122",
   "status": "proved",
   "theorems": [
    "SciCpp.C122_polypow",
    "SciCpp.C122_polyfromroots",
    "SciCpp.C122_value",
    "SciCpp.C122_fromroots_value",
    "SciCpp.C122_at_root",
    "SciCpp.C122_polyadd",
    "SciCpp.C122_polyder",
    "SciCpp.C122_polyint",
    "SciCpp.C122_polydiv",
    "SciCpp.C122_polydiv_short",
    "SciCpp.C122_polydiv_remainder"
   ],
   "note": "Same model functions as C55-C60, instantiated with rounded arithmetic. Bounds are against Mathlib polynomials with the absolute values of the coefficients (PolyNear, absPoly). Overflow and underflow are outside the rounding model. C122_polydiv_remainder: in binary64 (1+x)(1+49x) is computed exactly but dividing it by 1+49x leaves the remainder 2^-53."
  },
  {
   "property": "C123",
   "status": "partial",
   "theorems": [
    "SciCpp.C123_rescaling",
    "SciCpp.C123_separated",
    "SciCpp.C123_through_data_partial",
    "SciCpp.C123_through_separated",
    "SciCpp.C123_pow2",
    "SciCpp.C123_collapse_false",
    "SciCpp.C123_shift",
    "SciCpp.C123_scale_false",
    "SciCpp.C123_float_query_false",
    "SciCpp.C123_overflow_false"
   ],
   "note": "Partial because false in part: distinct binary64 abscissae can get the same knot (C123_collapse_false; they do not when further apart than 2((1+u)^2/(1-u)-1) times the range, C123_separated, C123_through_separated), exact tripling changes the knots (C123_scale_false; powers of two and exact shifts do not, C123_pow2, C123_shift), a float query at a data point can be rescaled to NaN (C123_float_query_false), and a range that overflows gives the knots 0, 0, NaN (C123_overflow_false). C123_rescaling is the first half in full. The spline of Eigen is a parameter."
  },
  {
   "property": "C124",
   "status": "proved",
   "theorems": [
    "SciCpp.Ovl.C124_mul",
    "SciCpp.Ovl.C124_div",
    "SciCpp.Ovl.C124_commutes",
    "SciCpp.Ovl.C124_product_units",
    "SciCpp.Ovl.C124_quotient_units",
    "SciCpp.Ovl.C124_ambiguous",
    "SciCpp.Ovl.C124_compiles",
    "SciCpp.Ovl.C124_category",
    "SciCpp.Ovl.C124_const_array_false",
    "SciCpp.Ovl.C124_offset_order_false",
    "SciCpp.Ovl.C124_nested_arrays_false",
    "SciCpp.Ovl.C124_map_destination",
    "SciCpp.Ovl.C124_map_unary"
   ],
   "note": "Overload resolution itself is modelled: template argument deduction, viability with enable_if, ranking of reference bindings and partial ordering of function templates ([temp.deduct.call], [over.ics.rank], [temp.deduct.partial]) for the forms of parameters that occur. C124_mul and C124_div: the exact table (Spec/Overload.lean) of what compiles and the result types. C124_ambiguous: the only ambiguous calls. C124_product_units, C124_quotient_units: the units. C124_compiles, C124_commutes, C124_category: consequences. C124_map_destination proves the choice of overloads that the model of C04 assumes. Counterexamples to simpler rules: C124_const_array_false, C124_offset_order_false (an array of metres times degrees Celsius compiles, one metre times degrees Celsius does not), C124_nested_arrays_false. An array of arrays times a scalar on the right does not compile because the operator its elements need is declared later in numeric.hpp. Operators +, - and comparisons are C132; Eigen types are not in this model."
  },
  {
   "property": "C125",
   "status": "proved",
   "theorems": [
    "SciCpp.AEv.C125_safe",
    "SciCpp.AEv.C125_undefined",
    "SciCpp.AEv.C125_exact",
    "SciCpp.AEv.C125_pure",
    "SciCpp.AEv.C125_const",
    "SciCpp.AEv.C125_order",
    "SciCpp.AEv.C125_twice",
    "SciCpp.AEv.C125_array",
    "SciCpp.AEv.C125_orderDependent"
   ],
   "note": "The naive claim that every expression has its element by element value is false: a unary operator or scalar operator applied to a non-const named array overwrites it (C04), so `-a + a` is undefined for vectors in every order (C125_twice), gives -2a for std::array (C125_array), and `-a + (a + b)` depends on the order of evaluation (C125_orderDependent). C125_exact, C125_undefined: for vectors the value is right in all orders exactly when no operand of an operator overwrites an array that the other operand reads; C125_safe gives value and final contents of all arrays, C125_order independence of the order, C125_pure and C125_const expressions that change nothing. Not modelled: std::move of a const array (does not compile), elements of different types as different Lean types."
  },
  {
   "property": "C126",
   "status": "proved",
   "theorems": [
    "SciCpp.C126_moment_scale",
    "SciCpp.C126_kurtosis_scale",
    "SciCpp.C126_skew_scale",
    "SciCpp.C126_sem_scale",
    "SciCpp.C126_average_scale",
    "SciCpp.C126_even_moment_nonneg",
    "SciCpp.C126_kurtosis_nonneg",
    "SciCpp.C126_moment_error",
    "SciCpp.C126_sqrt64_correct",
    "SciCpp.C126_double",
    "SciCpp.C126_kurtosis_one_false",
    "SciCpp.C126_shift_false"
   ],
   "note": "Same model functions as C20, instantiated with rounded arithmetic (RFl rnd; overflow and underflow outside the model). C126_double is the binary64 instance with a correctly rounded square root that is defined and proved correct (C126_sqrt64_correct). Not claimed because false: Pearson's kurtosis >= 1 (C126_kurtosis_one_false: {0,0.1,0,0.1,0,0.1}) and invariance under exact shifts (C126_shift_false: the kurtosis of {0,1} is 1, that of {2^52,2^52+1} is 2)."
  },
  {
   "property": "C127",
   "status": "proved",
   "theorems": [
    "SciCpp.C127_sound",
    "SciCpp.C127_defined",
    "SciCpp.C127_compiles",
    "SciCpp.C127_denotes",
    "SciCpp.C127_right_iff",
    "SciCpp.C127_means",
    "SciCpp.C127_difference_false"
   ],
   "note": "Same evaluator and type checker as C120 (Model/QExpr.lean), without the restriction to units without offset. C127_sound/_defined/_compiles quantify over all expressions, C127_denotes and C127_right_iff give each operation in terms of absolute values, C127_means the linear combinations that are right. Real arithmetic (no rounding); the comparison operators are C37."
  },
  {
   "property": "C128",
   "status": "proved",
   "theorems": [
    "SciCpp.C128_compiles",
    "SciCpp.C128_mean",
    "SciCpp.C128_covariance",
    "SciCpp.C128_var",
    "SciCpp.C128_std_sem",
    "SciCpp.C128_moment",
    "SciCpp.C128_kurtosis_skew",
    "SciCpp.C128_average",
    "SciCpp.C128_average_numbers",
    "SciCpp.C128_moment_01",
    "SciCpp.C128_moment_zero_false",
    "SciCpp.C128_celsius",
    "SciCpp.C128_ptp_offset_false",
    "SciCpp.C128_unit_change",
    "SciCpp.C128_unit_change_ratio",
    "SciCpp.C128_mean_error",
    "SciCpp.C128_mean_constant_false"
   ],
   "note": "Types (Model/QStats.lean: sumTy, covTy, momentTy, ...) and values are modelled separately; a value of quantities differs from that of numbers by the division through the reciprocal. Findings: C128_mean_constant_false, C128_moment_zero_false, C128_celsius (the third moment of Celsius temperatures compiles, their variance does not), C128_ptp_offset_false. Units with irrational scales (roots) are outside: sum does not compile for some of them. Overflow of the integer arithmetic of the types is outside the model (C121)."
  },
  {
   "property": "C129",
   "status": "proved",
   "theorems": [
    "SciCpp.C129_welch_compiles",
    "SciCpp.C129_welch_type",
    "SciCpp.C129_welch_numbers",
    "SciCpp.C129_float_false",
    "SciCpp.C129_csd_type",
    "SciCpp.C129_celsius_false",
    "SciCpp.C129_coherence_type",
    "SciCpp.C129_tfestimate_type",
    "SciCpp.C129_fs_type",
    "SciCpp.C129_fs_hertz",
    "SciCpp.C129_welch_units",
    "SciCpp.C129_csd_units",
    "SciCpp.C129_coherence_units",
    "SciCpp.C129_tfestimate_units",
    "SciCpp.C129_coherence_operators",
    "SciCpp.C129_coherence_values",
    "SciCpp.C129_tfestimate_same",
    "SciCpp.C129_tfestimate_different",
    "SciCpp.C129_tfestimate_error",
    "SciCpp.C129_tfestimate_rounding",
    "SciCpp.C129_coherence_rounding"
   ],
   "note": "Element types through the overload resolution of C124 (Model/QSpectral.lean), values through the models of C49-C52 (exact) and C118 (rounded). Findings: C129_float_false (Spectrum<float> compiles for complex signals only, because `v = 2.0 * std::move(v)` yields doubles), C129_celsius_false, C129_tfestimate_rounding, C129_coherence_rounding. Rounding of fs(q) itself and units with irrational scales are outside."
  },
  {
   "property": "C130",
   "status": "proved",
   "theorems": [
    "SciCpp.C130_compiles",
    "SciCpp.C130_trapz",
    "SciCpp.C130_trapz_number",
    "SciCpp.C130_trapz_single_ub",
    "SciCpp.C130_inner",
    "SciCpp.C130_cumsum",
    "SciCpp.C130_diff",
    "SciCpp.C130_prod",
    "SciCpp.C130_cumprod",
    "SciCpp.C130_mod",
    "SciCpp.C130_celsius_false",
    "SciCpp.C130_distance",
    "SciCpp.C130_percent"
   ],
   "note": "Exact arithmetic (Model/QNumeric.lean) on top of C09-C12, C34 and C128. Findings: C130_celsius_false (diff of 10 °C and 20 °C is 10 °C, that is 283.15 K), C130_percent (the product of percents does not compile, the cumulative product does), C130_trapz_single_ub. convolve of quantities and inner of complex quantities do not compile (initialised from a number) and are not modelled."
  },
  {
   "property": "C131",
   "status": "proved",
   "theorems": [
    "SciCpp.C131_sawtooth",
    "SciCpp.C131_periodic",
    "SciCpp.C131_width",
    "SciCpp.C131_nan",
    "SciCpp.C131_negative_times",
    "SciCpp.C131_binary64",
    "SciCpp.C131_drift_false",
    "SciCpp.C131_sweep",
    "SciCpp.C131_turns",
    "SciCpp.C131_sweep_empty"
   ],
   "note": "Model/WaveformsF.lean; unbounded exponents, std::cos is a parameter with its error bound. C131_binary64 instantiates binary64. Findings: C131_drift_false, C131_nan (a NaN or infinite time fails a requirement on the width in the branch for the falling part), C131_negative_times (values below -1), C67_rounding_overshoot."
  },
  {
   "property": "C132",
   "status": "proved",
   "theorems": [
    "SciCpp.Ovl.C132_add",
    "SciCpp.Ovl.C132_sub",
    "SciCpp.Ovl.C132_neg",
    "SciCpp.Ovl.C132_compare",
    "SciCpp.Ovl.C132_unambiguous",
    "SciCpp.Ovl.C132_category",
    "SciCpp.Ovl.C132_commutes",
    "SciCpp.Ovl.C132_commutes_array",
    "SciCpp.Ovl.C132_sum_units",
    "SciCpp.Ovl.C132_difference_units",
    "SciCpp.Ovl.C132_compiles",
    "SciCpp.Ovl.C132_nested_arrays_false",
    "SciCpp.Ovl.C132_nested_compare_false",
    "SciCpp.Ovl.C132_array_compare",
    "SciCpp.Ovl.C132_complex_units_false",
    "SciCpp.Ovl.C132_dimensionless_false"
   ],
   "note": "Model/OverloadAdd.lean over the overload resolution of C124, with the two-phase lookup of the bodies of the templates in numeric.hpp (an operator body sees the operators on arrays declared up to itself). C132_add, C132_sub, C132_neg, C132_compare: the exact tables (Spec/OverloadAdd.lean). C132_unambiguous, C132_category, C132_commutes, C132_commutes_array, C132_sum_units, C132_difference_units, C132_compiles, C132_array_compare: consequences. Counterexamples to simpler rules: C132_nested_arrays_false, C132_nested_compare_false, C132_complex_units_false, C132_dimensionless_false. Values are in C35 and C36; Eigen types and C++20's rewritten comparisons are outside."
  },
  {
   "property": "C133",
   "status": "proved",
   "theorems": [
    "SciCpp.C133_convolve_complex",
    "SciCpp.C133_convolve_real",
    "SciCpp.C133_element",
    "SciCpp.C133_integers",
    "SciCpp.C133_correlate_complex",
    "SciCpp.C133_correlate_real",
    "SciCpp.C133_butterfly",
    "SciCpp.C133_element_lost"
   ],
   "note": "Model/FftF.lean: fft, rfft, ifft, irfft, fftconvolve and correlate over an abstract arithmetic and an abstract Eigen::FFT. C133_convolve_complex, C133_convolve_real, C133_correlate_complex, C133_correlate_real: the bound in norm, against `convolve` over the complex/real numbers; C133_element: per element; C133_integers: recovery of integer convolutions by rounding; C133_butterfly: a concrete two-point transform is accurate to (1+u)^2-1, so the hypotheses can be met; C133_element_lost: in binary64, {1}*{1, 2^-60} gives {1, 0} by transforms while the direct method is exact. Overflow and underflow are not modelled (unbounded exponents)."
  },
  {
   "property": "C134",
   "status": "partial",
   "theorems": [
    "SciCpp.C134_quantile_partial",
    "SciCpp.C134_percentile",
    "SciCpp.C134_iqr_partial",
    "SciCpp.C134_edges_partial",
    "SciCpp.C134_edges_count",
    "SciCpp.C134_histogram",
    "SciCpp.C134_float_false",
    "SciCpp.C134_celsius_false"
   ],
   "note": "Model/HistTy.lean: the types of lerp, quantile, percentile, iqr, bin_width, linspace, histogram_bin_edges and histogram, computed through the overload resolution of C124 and C132. C134_quantile_partial, C134_percentile, C134_iqr_partial: exactly which element types compile, and the result type; C134_edges_partial: exactly which rules compile for which elements; C134_edges_count: a number of bins compiles for all; C134_histogram: when histograms compile, and the unit of a density; C134_float_false, C134_celsius_false: quantiles and AUTO bins of float do not compile, no rule compiles for degrees Celsius. Integer types are represented by int."
  },
  {
   "property": "C135",
   "status": "partial",
   "theorems": [
    "SciCpp.C135_nonneg",
    "SciCpp.C135_symmetric",
    "SciCpp.C135_short",
    "SciCpp.C135_short_defined",
    "SciCpp.C135_short_error_partial",
    "SciCpp.C135_constant_partial",
    "SciCpp.C135_constant_false",
    "SciCpp.C135_two_blocks_false",
    "SciCpp.C135_long_false",
    "SciCpp.C135_kurtosis_false",
    "SciCpp.C135_example"
   ],
   "note": "Model/IntVar.lean: the blockwise covariance with integer arithmetic, every operation checked for overflow and division by zero. C135_nonneg, C135_symmetric: all lengths; C135_short, C135_short_defined, C135_short_error_partial: at most 64 elements; C135_constant_partial: equal elements, at most 128. Negations: C135_constant_false (129 elements 1000 have the variance 248062: the combined mean is `1 / n = 0` times the sum), C135_two_blocks_false (65 elements: 246153 instead of 249940.8), C135_long_false (92682 or more elements of int: always undefined), C135_kurtosis_false (division by zero for {0, 1})."
  },
  {
   "property": "C136",
   "status": "partial",
   "theorems": [
    "SciCpp.C136_average",
    "SciCpp.C136_average_defined",
    "SciCpp.C136_average_between",
    "SciCpp.C136_average_mean",
    "SciCpp.C136_pow",
    "SciCpp.C136_moment_partial",
    "SciCpp.C136_moment_filter",
    "SciCpp.C136_moment_defined",
    "SciCpp.C136_sem_same",
    "SciCpp.C136_sem_partial",
    "SciCpp.C136_sem_empty",
    "SciCpp.C136_skew_overflow",
    "SciCpp.C136_skew_partial",
    "SciCpp.C136_sem_false",
    "SciCpp.C136_skew_false",
    "SciCpp.C136_moment_false",
    "SciCpp.C136_average_false"
   ],
   "note": "Model/IntStats.lean. C136_average, C136_average_defined, C136_average_between, C136_average_mean; C136_pow (an equivalence); C136_moment_partial, C136_moment_filter, C136_moment_defined; C136_sem_partial, C136_sem_same, C136_sem_empty; C136_skew_partial, C136_skew_overflow. Negations: C136_sem_false (the standard error of {1..10} is 0), C136_skew_false (undefined for {0, 100}, 0/0 for {0, 1}), C136_moment_false (the third moment of {1, 2, 4} is 2 instead of 20/27; filters select powers of deviations), C136_average_false."
  },
  {
   "property": "C137",
   "status": "partial",
   "theorems": [
    "SciCpp.C137_sum_prod",
    "SciCpp.C137_order",
    "SciCpp.C137_cumulative",
    "SciCpp.C137_inner",
    "SciCpp.C137_diff",
    "SciCpp.C137_diff_nth",
    "SciCpp.C137_cumsum_diff",
    "SciCpp.C137_ptp",
    "SciCpp.C137_mean",
    "SciCpp.C137_average",
    "SciCpp.C137_median",
    "SciCpp.C137_covariance_partial",
    "SciCpp.C137_variance_partial",
    "SciCpp.C137_wrap_false",
    "SciCpp.C137_median_false"
   ],
   "note": "Model/UInt.lean and the generic models at Fin N. C137_sum_prod, C137_order, C137_cumulative, C137_inner, C137_diff, C137_diff_nth, C137_cumsum_diff, C137_ptp, C137_mean, C137_average, C137_median; C137_covariance_partial, C137_variance_partial (at most 64 elements: longer arrays go through the combination step, whose factor 1/(n1+n2) is 0 in integer division, as for signed integers, C135). Negations: C137_wrap_false (the mean of {4294967295, 1} is 0, 1 - 4294967295 is 2, the variance of {0, 2147483648} is 0), C137_median_false (the median of {4294967295, 1} is 0)."
  },
  {
   "property": "C138",
   "status": "partial",
   "theorems": [
    "SciCpp.C138_lerp",
    "SciCpp.C138_lerp_unsigned",
    "SciCpp.C138_lerp_unsigned_decreasing",
    "SciCpp.C138_quantile",
    "SciCpp.C138_quantile_unsigned",
    "SciCpp.C138_iqr",
    "SciCpp.C138_edges_range",
    "SciCpp.C138_edges_fd",
    "SciCpp.C138_distinct",
    "SciCpp.C138_counts_partial",
    "SciCpp.C138_counts_scott_partial",
    "SciCpp.C138_doane_overflow",
    "SciCpp.C138_counts_doane_partial",
    "SciCpp.C138_scott_false",
    "SciCpp.C138_doane_false",
    "SciCpp.C138_lerp_unsigned_false"
   ],
   "note": "Model/IntQuant.lean (real results: the rounding of double is not modelled here). C138_lerp, C138_lerp_unsigned, C138_lerp_unsigned_decreasing (t*N too large); C138_quantile, C138_quantile_unsigned, C138_iqr; C138_edges_range, C138_edges_fd, C138_distinct, C138_counts_partial, C138_counts_scott_partial, C138_counts_doane_partial, C138_doane_overflow. Negations: C138_scott_false ({0, 0, 0, 1, 1, 1}: one bin as int, two or more as double), C138_doane_false ({0, 100, 200}: undefined), C138_lerp_unsigned_false (lerp(5u, 3u, 0.5) is 2147483652)."
  },
  {
   "property": "C139",
   "status": "proved",
   "theorems": [
    "SciCpp.C139_covariance",
    "SciCpp.C139_var",
    "SciCpp.C139_cov_binary64",
    "SciCpp.C139_div",
    "SciCpp.C139_div_exact",
    "SciCpp.C139_sum",
    "SciCpp.C139_mean",
    "SciCpp.C139_empty",
    "SciCpp.C139_inner",
    "SciCpp.C139_vdot",
    "SciCpp.C139_vdot_symm",
    "SciCpp.C139_vdot_self",
    "SciCpp.C139_prod",
    "SciCpp.C139_cumsum",
    "SciCpp.C139_convolve",
    "SciCpp.C139_correlate",
    "SciCpp.C139_var_nonneg",
    "SciCpp.C139_cov_symm",
    "SciCpp.C139_values",
    "SciCpp.C139_polyfromroots",
    "SciCpp.C139_segment"
   ],
   "note": "Model/ComplexF.lean instantiates the generic reductions with complex numbers (product as (ac - bd) + (ad + bc)i, quotient by Smith's method of libgcc; neither overflow nor underflow, nor contraction to fused operations). C139_sum, C139_prod, C139_mean, C139_cumsum, C139_inner, C139_vdot, C139_convolve, C139_correlate (bounds against sums in ℂ), C139_vdot_symm, C139_vdot_self, C139_cov_symm, C139_var_nonneg, C139_empty, C139_values (exact values). C139_covariance, C139_var, C139_cov_binary64: accuracy of covariance and variance with any number of elements (Props/ComplexCov.lean). C139_polyfromroots: coefficients of the polynomial with given complex roots, the leading one exactly 1 (Props/ComplexPoly.lean). C139_segment: the mean of C139 in the segments of complex signals (C118). C139_div: the quotient of two complex numbers has errors of at most about 7 units of roundoff times the sum of the magnitudes of the terms of its components, C139_div_exact: in exact arithmetic it is the quotient of ℂ (Props/ComplexDiv.lean)."
  },
  {
   "property": "C140",
   "status": "proved",
   "theorems": [
    "SciCpp.EigenView.C140_now",
    "SciCpp.EigenView.C140_alias",
    "SciCpp.EigenView.C140_dangling",
    "SciCpp.EigenView.C140_move",
    "SciCpp.EigenView.C140_snapshot_false",
    "SciCpp.EigenView.C140_array"
   ],
   "note": "Model/EigenView.lean models buffers, capacities and the operations of vectors (of the standard library) that keep, replace or release a buffer. C140_now, C140_alias, C140_move, C140_dangling, C140_array (quantified over all histories); C140_snapshot_false: the conversion is not a snapshot."
  },
  {
   "property": "C141",
   "status": "proved",
   "theorems": [
    "SciCpp.PolyObj.C141_programs",
    "SciCpp.PolyObj.C141_eq",
    "SciCpp.PolyObj.C141_eq_false",
    "SciCpp.PolyObj.C141_moved"
   ],
   "note": "Model/PolyObj.lean: a store of coefficient vectors; += and -= of an object with itself are modelled as the loops that read what the previous iterations wrote. C141_programs is a refinement proof against the ring of polynomials (Spec/PolyObj.lean); C141_eq; C141_eq_false: P - P and Polynomial{0} are the same polynomial and compare unequal; C141_moved. Coefficients are elements of a commutative ring: rounding is in C55 and C139, moving an object to itself and trim() are not statements of the model (trim is C59)."
  },
  {
   "property": "C142",
   "status": "proved",
   "theorems": [
    "SciCpp.C142_ifft_fft",
    "SciCpp.C142_parseval",
    "SciCpp.C142_irfft_rfft",
    "SciCpp.C142_irfft_odd_false"
   ],
   "note": "C142_ifft_fft, C142_irfft_rfft, C142_parseval, C142_irfft_odd_false, on Model/FftF.lean. The transforms of Eigen are a parameter with the accuracy hypothesis Spec.Accurate; C133_butterfly shows that the two-point transform in binary64 meets it. Exact round trips are C70."
  },
  {
   "property": "C143",
   "status": "proved",
   "theorems": [
    "SciCpp.Roots.C143_roots",
    "SciCpp.Roots.C143_back",
    "SciCpp.Roots.C143_from_roots",
    "SciCpp.Roots.C143_constant",
    "SciCpp.Roots.C143_residual",
    "SciCpp.Roots.C143_float"
   ],
   "note": "Model/Roots.lean. The eigenvalues of Eigen are a parameter: Spec.Exact (roots of the characteristic polynomial) for C143_roots, C143_back, C143_from_roots, and NearEigenvalue for C143_residual, C143_float; C143_constant. Overflow of the quotients of the companion matrix is not modelled (unbounded exponents)."
  },
  {
   "property": "C144",
   "status": "proved",
   "theorems": [
    "SciCpp.C144_median",
    "SciCpp.C144_quantile",
    "SciCpp.C144_quantile_reflect",
    "SciCpp.C144_nearest_reflect_false",
    "SciCpp.C144_quantile_monotone_map",
    "SciCpp.C144_quantile_perm",
    "SciCpp.C144_mean",
    "SciCpp.C144_mean_append",
    "SciCpp.C144_covariance",
    "SciCpp.C144_mean_add",
    "SciCpp.C144_covariance_add",
    "SciCpp.C144_median_optimal",
    "SciCpp.C144_mean_optimal",
    "SciCpp.C144_mean_median",
    "SciCpp.C144_var_ptp",
    "SciCpp.C144_chebyshev",
    "SciCpp.C144_std_triangle"
   ],
   "note": "Exact arithmetic, fewer than 2^31 elements. C144_quantile holds for every tolerance of the integer test of the index. Reflection: exact test (tolerance 0) and every method but NEAREST, whose ties go to the even index: C144_nearest_reflect_false."
  },
  {
   "property": "C145",
   "status": "proved",
   "theorems": [
    "SciCpp.C145_welch_gain",
    "SciCpp.C145_constant",
    "SciCpp.C145_csd_gain",
    "SciCpp.C145_coherence",
    "SciCpp.C145_tfestimate",
    "SciCpp.C145_csd_add",
    "SciCpp.C145_fs",
    "SciCpp.C145_window_gain",
    "SciCpp.C145_tone",
    "SciCpp.C145_tone_real"
   ],
   "note": "Exact arithmetic, on the model of C49-C54. The two signals of csd have one length (zero padding does not commute with an offset). C145_tfestimate: the conjugate is that of C52_tfestimate_false."
  },
  {
   "property": "C146",
   "status": "proved",
   "theorems": [
    "SciCpp.C146_trapz_error",
    "SciCpp.C146_trapz_converges",
    "SciCpp.C146_trapz_affine",
    "SciCpp.C146_trapz_linear",
    "SciCpp.C146_trapz_additive",
    "SciCpp.C146_trapz_mono",
    "SciCpp.C146_trapz_reverse",
    "SciCpp.C146_sum_diff",
    "SciCpp.C146_diff_linear",
    "SciCpp.C146_diff_polynomial",
    "SciCpp.C146_diff_mean_value"
   ],
   "note": "Exact arithmetic on the models of C10, C11 and C27 with real elements; floating point errors are in C88. The error bound uses the trapezoidal rule of Mathlib."
  },
  {
   "property": "C147",
   "status": "proved",
   "theorems": [
    "SciCpp.C147_convolve_sum",
    "SciCpp.C147_convolve_delay",
    "SciCpp.C147_correlate_bound",
    "SciCpp.C147_autocorrelation",
    "SciCpp.C147_delay",
    "SciCpp.C147_margin",
    "SciCpp.C147_delay_robust",
    "SciCpp.C147_delay_noise"
   ],
   "note": "Exact arithmetic: commutative semirings, complex numbers, and any ordered field for the delay. Model of C40, C42 and C08. The errors of C147_delay_robust are any perturbation of the correlation values (rounding, FFT method, noise)."
  },
  {
   "property": "C148",
   "status": "proved",
   "theorems": [
    "SciCpp.C148_permutation",
    "SciCpp.C148_concatenate",
    "SciCpp.C148_monotone_map",
    "SciCpp.C148_affine",
    "SciCpp.C148_cumulative"
   ],
   "note": "The searching histogram (use_uniform_bins = false), model of C22. C148_affine is in exact arithmetic; C148_cumulative needs, as C22, that no sample above the last edge is close to it."
  },
  {
   "property": "C149",
   "status": "proved",
   "theorems": [
    "SciCpp.C149_piecewise_linear",
    "SciCpp.C149_affine",
    "SciCpp.C149_range",
    "SciCpp.C149_monotone",
    "SciCpp.C149_superposition",
    "SciCpp.C149_error"
   ],
   "note": "Exact arithmetic, model of C66. The spline library is a parameter: a spline of degree 1 fitted to increasing abscissae is assumed to be the piecewise linear function through the data (such a library is shown to exist)."
  },
  {
   "property": "C150",
   "status": "proved",
   "theorems": [
    "SciCpp.C150_normal_equations",
    "SciCpp.C150_balance",
    "SciCpp.C150_pythagoras",
    "SciCpp.C150_decomposition",
    "SciCpp.C150_unique",
    "SciCpp.C150_superposition",
    "SciCpp.C150_degree",
    "SciCpp.C150_projection"
   ],
   "note": "Exact arithmetic, model and solver of C75 (a solver over the reals is shown to exist). Degree 0 is undefined (C75)."
  },
  {
   "property": "C151",
   "status": "proved",
   "theorems": [
    "SciCpp.C151_order",
    "SciCpp.C151_iff",
    "SciCpp.C151_append",
    "SciCpp.C151_vieta",
    "SciCpp.C151_sum_product",
    "SciCpp.C151_shift",
    "SciCpp.C151_scale"
   ],
   "note": "Exact arithmetic, fewer than 2^64 - 1 roots; model of C60 and C55."
  },
  {
   "property": "C152",
   "status": "proved",
   "theorems": [
    "SciCpp.C152_definition",
    "SciCpp.C152_parseval",
    "SciCpp.C152_real",
    "SciCpp.C152_shift",
    "SciCpp.C152_tone",
    "SciCpp.C152_frequency",
    "SciCpp.C152_cosine",
    "SciCpp.C152_twice",
    "SciCpp.C152_impulse",
    "SciCpp.C152_circular"
   ],
   "note": "Exact arithmetic on the model of C70, where the transform of Eigen is the exact discrete Fourier transform; rounding errors are in C142."
  },
  {
   "property": "C153",
   "status": "proved",
   "theorems": [
    "SciCpp.C153_filter",
    "SciCpp.C153_mask_filter",
    "SciCpp.C153_mask_mask",
    "SciCpp.C153_argwhere",
    "SciCpp.C153_sum"
   ],
   "note": "Models of C01, C05, C06 and C07. C153_sum is for commutative additions without rounding."
  }
 ]
}