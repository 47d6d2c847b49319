NOTES.update({
"C01": "All lengths, filters, and any associative operation with identity.",
"C02": "Standard rounding model |rnd x - x| <= u|x|; overflow/underflow not modelled.",
"C03": "Every overload of unary and binary map; the scalar operators are unary maps with a captured scalar.",
"C04": "False of the code for non-const lvalues of same-type unary operations (argument is moved from): negation and exact extent proved; the rest proved.",
"C05": "", "C06": "", "C07": "",
"C08": "Unfiltered proved; filtered version false of the code (index starts at 0, numeric.hpp:734): negation proved, partial when the first element is accepted.",
"C09": "", "C10": "",
"C11": "One sample is UB in the code (sum(first+1,last-1) on a reversed range): negation proved.",
"C12": "",
"C13": "<=, >= are implemented as negated < and give true on NaN: negation proved; ordered elements proved for all operators, IEEE semantics for ==, !=, <, >.",
})

NOTES.update({
"C40": "All lengths over any commutative semiring; boundary behaviour of empty operands stated separately.",
"C42": "Any involutive ring conjugation (identity for real types).",
"C55": "Functional API and Polynomial class operators; the class operators are UB when exactly one coefficient vector is empty (proved).",
"C56": "Vector loop and array recursion proved equal to the k-fold product.",
"C57": "False of the code for non-monic divisors of degree >= 1: the quotient is never divided by the leading coefficient (polynomial.hpp:185-192). Negation proved; remainder and the exact scaled identity proved for all inputs.",
"C58": "polyint proved. polyder uses the opposite storage order (polynomial.hpp:334,346): negation proved; exact description (derivative of the reversed list, any order) proved.",
"C59": "False of the code: trailing coefficients are dropped when c <= tol, not |c| <= tol (polynomial.hpp:549). Negation, exact behaviour, idempotence and the non-negative case proved.",
"C60": "Vector sizes below 2^64.",
"C61": "Companion: full characteristic polynomial identity. Vandermonde proved for deg >= 1; deg = 0 is UB in the code (polynomial.hpp:504, proved).",
})

NOTES.update({
"C14": "Over any linear order; empty input gives NaN (0 for integral types).",
"C15": "Exact arithmetic over any characteristic-0 field, at most 2^31-1 accepted elements; the 32-bit count overflow and integer truncation are proved as negations.",
"C16": "Every implementation of std::nth_element; integer midpoint truncation proved.",
"C17": "False of the code near integer positions (almost_equal snaps the index): negation for every positive tolerance, exact extent proved.",
})

NOTES.update({
"C18": "Exact arithmetic over any characteristic-0 star field, fewer than 2^31 samples.",
"C19": "False of the code when a whole accumulation block is rejected (0/0 mean times zero weight is NaN, stats.hpp:407, 433-444) and for nancovariance with NaNs on both sides: negations proved. Partial: <= 64 elements, or no 32 consecutive rejected elements.",
"C20": "Filtered moments: proved for NaN filters of order >= 3; false of the code for value filters such as Trim (filter re-applied to powers): negation proved; order 2 inherits the C19 block condition (partial).",
"C21": "Hermitian positive semidefinite over RCLike (real and complex data).",
"C69": "x^|n| proved for all n in every monoid; the claim for negative n is false of the code (pow<-n>(x) = x^n): negation proved.",
})

NOTES.update({
"C22": "Every floating point sample and edge incl. NaN/infinities, any rounding. Partial: samples above the last edge that almost_equal accepts are counted by the code (+inf whenever the last edge is finite and non-zero; 2.0 for the last edge 2-2^-52): negations proved.",
"C23": "Exact arithmetic, all samples incl. NaN and infinities; a binary64 counterexample is proved.",
"C24": "Fewer than 2^31 counted samples; the int cast overflow is proved as a negation.",
"C25": "Exact arithmetic. False of the code in binary64 (histogram({-29,0},7) loses the maximum) and for a leading NaN (UB): negations proved.",
"C26": "Reflexive, symmetric, NaN and infinities for any rounding. Partial: an infinity is almost_equal to every finite non-zero number (negation proved).",
"C27": "Any field; in rounded arithmetic first element and monotonicity; the last element is not exactly stop in binary64 (witness proved); int truncation described.",
"C28": "False of the code when step does not divide the interval (count is truncated, not rounded up): negation for all such inputs; the rest proved.",
"C29": "Exact real arithmetic.",
"C65": "Exact, and for every monotone rounding incl. binary64. Arrays (Props/LerpArr.lean): C65_lerp_arrays, C65_lerp_arrays_rounded, C65_lerp_arrays_categories.",
})

NOTES.update({
"C30": "All lengths and categories for one element type. Negations proved: mixed element types (rvalue operand's type wins), non-convertible types (an operand is dropped), flip of a non-const lvalue reverses the caller's array.",
"C44": "All lengths. Negations proved: empty const array is UB; lvalue vectors are moved from.",
"C45": "Exact arithmetic over any linearly ordered field.",
"C46": "zero_padding in full; subvector partial: len is clamped without the offset, so some arguments read out of bounds (negation proved).",
})

NOTES.update({
"C41": "Eigen::FFT modelled as the exact DFT over the complex numbers; all arrays not both empty with at most 2^30 elements in total (int(fft_size)).",
"C43": "Every n with max(5, 2n) representable in the integer type; no out-of-bounds read, no overflow, termination.",
"C70": "Exact DFT. irfft with the default length is false of the code for odd lengths (UB for one point, one sample too short otherwise): negation proved.",
})

NOTES.update({
"C31": "All n >= 1 (unbounded naturals; the 64-bit overflow of the trial divisor's square is not modelled): increasing primes, positive exponents, product n, exponents = multiplicities, capacity ct_log2(n) never exceeded.",
"C32": "Proved for all n >= 2 (is_prime) and n >= 1 (next_prime, prime_list). False of the code for 1 and for negative integers coprime to 6: negations proved.",
"C33": "power over any monoid; ct_log2 = floor(log2)+1; ct_root's Newton iteration in an exact field.",
"C34": "Multiplication, division, power, root and common_ratio denote exactly the real operation for every valid pair. Canonical representation proved for equal roots only; false of the code in general (negation proved).",
})

NOTES.update({
"C34": "Multiplication, division, power, root and common_ratio denote exactly the real operation for every valid pair. Canonical representation proved for equal roots and for every result that denotes a rational number (so root followed by power restores the type); false of the code in general (negation proved).",
"C35": "All scales incl. roots, real and complex values; commutativity as types and values; integer representation for plain scales (always compiles, exact).",
"C36": "All scales and dimensions incl. roots, real and complex values; (a*b)/b = a and pow<n>(root<n>(a)) = a as type and value for plain a. An offset of the left operand is dropped: negation proved.",
"C37": "All offsets, floating point and integer representations. Partial: plain scales; the comparisons ignore the root of a scale: negation proved.",
"C38": "Exact condition proved (offsets agree or target scale is 1), round trip likewise; celsius to fahrenheit is wrong (negation), explicit non-harmonic integer casts give 0 (negation); implicit integer conversions are exact.",
"C39": "Floating point factors in full; integral factors other than 1 and -1 give 0: negations proved.",
"C71": "Scale parameter passed through for 14 quantity templates and every plain scale; composite imperial units proved; km/h, knot, siemens prefixes, thermal conductivity, teratonne, dyne are wrong in the code: negations proved.",
"C72": "Same type implies same exponents for all expressions; converse for integer exponents; false for fractional exponents (negation proved).",
"C73": "abs, hypot, fmax, sin proved; exact conditions for fma and exp, which ignore scales (negations proved).",
})

NOTES.update({
"C47": "Symmetry for every element type and sample function; textbook values, ranges and the periodic rule for all 17 window functions (exact reals). Partial: Tukey with alpha >= 1 ignores Periodic, even-length Tukey windows deviate from the definition, one-point windows are NaN, flattop is negative at its ends: negations proved.",
"C48": "All fields/ordered fields, every window with non-zero sum (enbw over the exact field; a zero sum divides by zero and is excluded); Hann bandwidth 1.5 bins.",
})

NOTES.update({
"C50": "Main thread and n workers as a transition system with arbitrary interleavings (sequentially consistent memory; `res` read and write are separate steps). Every n >= 1 and nseg; safety, mutual exclusion, no deadlock, bounded length, each segment once; result equals the sequential sum for every commutative associative addition; binary64 witness that the order is visible under rounding.",
})

NOTES.update({
"C49": "Exact arithmetic, exact DFT; every length, window, overlap (also negative), scaling, real and complex signals. Boundaries proved: full overlap and slightly short signals are undefined behaviour, very short signals give zeros or NaN.",
"C51": "All pairs of one kind and length. Partial: one real and one complex signal violate a requirement (negation proved). Exact arithmetic; in binary64 the bound 1, the symmetry and coherence(x, x) = 1 hold up to rounding only, see C118.",
"C52": "csd: all kinds and lengths incl. mixed and zero padded. tfestimate returns the conjugate gain (negation proved).",
"C53": "Histories of calls. Partial: periodogram resets the overlap for good (negation proved); it acts exactly as noverlap(0).",
"C54": "All real signals, both parities, all scalings; Parseval.",
})

NOTES.update({
"C62": "Every file, option and increasing column list: lines, selected fields, tuple rows with converters and filters (exact condition for being defined), matrix rows. Partial: empty fields shift columns, repeated/decreasing/negative columns, setting usecols twice, blank lines and filters in matrix files, fromstring(std::string) ignoring its type, complex numbers with a minus sign: negations proved.",
"C63": "Every table (any number of rows and columns, any cell contents meeting the quantifier); integers round-trip as numbers over the range of int. Sharpness: negations outside the quantifier proved. The decimal printing of floating point numbers is not modelled.",
})

NOTES.update({
"C64": "Engine and distributions abstract. Same seed gives the same stream, prefix property. Partial: successive calls are re-seeded and return identical data (negation proved).",
"C66": "Any ordered field, any spline (a parameter): rescaling, affine invariance, passage through the data. Integer queries are rescaled in integer arithmetic (negation proved); degenerate data are undefined behaviour.",
"C67": "sawtooth for all times >= 0 and widths (exact reals), unit_impulse in full. Partial: negative times leave the range or are undefined, rounding overshoots 1 (negations proved).",
"C68": "Every array and option setting at the level of printed fields; text of numbers in fixed notation. Partial: trailing zeros of integers are blanked (negation proved).",
"C74": "Every real polynomial and time (derivative of the phase).",
"C75": "Any solver of least squares problems as parameter (shown to exist over the reals), exact arithmetic, every data set and degree >= 1. Partial: degree 0 is undefined behaviour (negation proved).",
})

NOTES.update({
"C76": "Every element type with commutative + and * (instantiated for rounded floats with special values and bounded integers), every length, value category and container; UB for different lengths and integer overflow.",
"C77": "Exact reals with infinities and NaN. Partial: named non-const arrays are overwritten (negation proved).",
"C78": "Exact reals, every data set whose extremes are not almost equal; every sample counted for any positive width. Partial: almost-equal but different data use the unwidened range for the width and give unboundedly many bins (negation proved).",
})

NOTES.update({
"C79": "Exact arithmetic; every data and every history of calls; sciplot is the list of drawing requests. Partial: data held in a vector are undefined behaviour (width lists sized before the data), capwidths(w) changes the boxes instead of the caps: negations proved.",
"C80": "Every number of curves and history. Partial: only the first curve's length is checked, log(false) does not undo log(true), the csd plot shows |P|^2: negations proved.",
})

NOTES.update({
"C81": "Tuples of any number of components of any types.",
"C82": "Eigen represented by its storage (default column-major). Sizes beyond the vector are UB (proved), as are vectors of 2^31 elements.",
})

NOTES.update({
"C73": "abs, fmin, fmax, hypot, fma, cbrt-like and same-type functions, trigonometric and inverse trigonometric functions, atan2, exp, log, sinc: every unit without offset. Partial: log/exp ignore the scale of a dimensionless quantity (iff proved).",
"C83": "Exact complex numbers, units without offset. Partial: the exponential of a complex quantity accepts any dimension and depends on the unit (negation proved).",
"C84": "Exact reals, units without offset. Partial: the result depends on the unit (negation proved).",
})

NOTES.update({
"C71": "Exact: all 53 quantity templates have the SI dimension and pass the scale through (the two conductivities invert it); all 567 unit aliases and 454 literals with rational SI values denote their unit if and only if they are not in the lists wrongAliases / wrongLiterals (teratonne, km/h, knot, pound_force, poundal, kilogram_force, dyne, prefixed siemens; _flm, _flx); the remaining ones (degree, parsec, psi, mmHg, ...) are within stated relative errors. Partial because those units are wrong in the code.",
"C85": "Dimensions for every T; values within 1e-9 of CODATA in exact arithmetic and in double, 1e-6 in float; float muB and muN underflow to 0: C85_float_magnetons_false.",
})
STATUS["C85"] = "partial"

NOTES.update({
"C86": "Every functor, array, value category and lifetime. Partial: vectorize keeps a reference to its functor, so a closure made from a temporary is undefined behaviour when called (C86_temporary_false); a named non-const array argument is emptied or overwritten (exact iff C86_argument_exact).",
})
STATUS["C86"] = "partial"

NOTES.update({
"C19": "Exact extent: the filtered variance (and covariance of two arrays with agreeing filters) is correct when every block of the pairwise recursion has an accepted element and NaN when some block has none (C19_filtered_var_exact, C19_filtered_covariance_exact). False of the code for wholly rejected blocks (0/0 mean times zero weight, stats.hpp:407, 433-444) and for nancovariance with NaNs on different sides: negations proved.",
"C87": "Exact arithmetic with NaN, less than 2^31 accepted elements, finite limits; order statistics for arrays without infinities. Partial: tvar, tstd, tsem, nanvar, nanstd, nansem are NaN when a whole block is rejected (exact iff, and C87_tvar_false).",
})
STATUS["C87"] = "partial"

NOTES.update({
"C88": "RFl rnd: any rounding with relative error at most u (instances: binary64, u = 2^-53, C88_binary64), no overflow or underflow; counts representable and below 2^31. Sum: C02.",
"C89": "RFl rnd with NaN and infinities; rounding hypotheses met by binary64 (C89_binary64_rounding); no overflow or underflow. Less than 2^31 elements for mean and variance.",
"C90": "Partial: false of the code. covariance(x,y) and covariance(y,x) differ in the last bit for arrays of more than 64 elements (the combination step multiplies in a different order, stats.hpp:440; C90_covariance_symm_false, exact symmetry up to 64 elements proved); the mean of {0.1,0.1,0.1} exceeds its maximum and its variance is not zero (C90_mean_range_false, C90_var_constant_false).",
})
STATUS["C90"] = "partial"

NOTES.update({
"C91": "RFl rnd (every rounding function that keeps positive values positive for mean, covariance and variance), no overflow; less than 2^31 elements for mean and variance. Also prim_rd_iff, prim_wr_iff: indexed accesses of the model succeed exactly inside the array.",
})

NOTES.update({
"C92": "RFl rnd (binary64 as instance), no overflow or underflow. First element, monotonicity and the error bound proved. Partial: the last element is not exactly stop (linspace(-29,0,8).back() = 2^-48, C92_end_false).",
"C27": "Exact arithmetic in any field; integer truncation described (C27_int). Floating point: C92.",
"C24": "Fewer than 2^31 counted samples (quantifier); beyond that the int cast overflows, proved as a negation.",
"C69": "x^|n| proved for all n in every monoid. Partial: the claim for negative n is false of the code (pow<-n>(x) = x^n): negation proved.",
"C70": "Exact DFT. ifft(fft(x)) and irfft with explicit length in full. Partial: irfft with the default length is false of the code for odd lengths (UB for one point, one sample too short otherwise): negation proved.",
"C44": "All non-empty lengths, both overloads. Partial: an empty const array is UB and named non-const vectors are moved from (negations proved).",
"C30": "All lengths and categories for one element type. Partial, negations proved: mixed element types (rvalue operand's type wins), non-convertible types (an operand is dropped), flip of a non-const lvalue reverses the caller's array.",
"C36": "All scales and dimensions incl. roots, real and complex values, units without offset; (a*b)/b = a and pow<n>(root<n>(a)) = a as type and value for plain a. Partial: an offset of the left operand is dropped (negation proved).",
})

NOTES.update({
"C93": "IFl f: any binary format with gradual underflow and overflow to infinity (binary64, binary32), no signed zeros. Mean: fewer than 2^31 accepted elements and at least 31 significant bits (double). Polyval: error bound for finite results.",
"C94": "IFl f. linspace: error bound and finiteness when the difference stop - start cannot overflow; mean: see C93_mean. Partial: mean({M,M}) = inf and linspace(-M,M,3) = {NaN,inf,inf} for the largest double M (C94_overflow_false).",
})

NOTES.update({
"C95": "Any signed range [lo, hi]; mean for fewer than 2^31 accepted elements. The stronger claim 'defined whenever the exact result is representable' is false of the code: sum({INT_MAX,1,-1}) and median({INT_MAX,INT_MAX}) overflow (C95_sum_order_false, C95_median_false).",
})

NOTES.update({
"C96": "Exact DFT and exact reals with IEEE special values for log10. A window whose samples are all zero is undefined behaviour (C96_zero_window).",
})

NOTES.update({
"C97": "printf/strtod modelled after their specification (correct rounding, no signed zeros). The stronger claim that numbers are restored is false of the code: more than six significant digits are dropped (C97_digits_lost_false) and complex numbers below half a millionth come back as 0 (C97_complex_lost_false). complex<float> is not covered: %lf into a float is undefined.",
})

NOTES.update({
"C98": "Output streams (setw, setprecision, fixed, scientific) modelled after their specification, no signed zeros; the notation rule for arrays without NaN. Not in the claim, shown by C98_defects_false: precision 0 in fixed notation blanks integer zeros (1200 is shown as 12), -inf takes fifteen columns, an array starting with NaN is never shown in scientific notation.",
})

NOTES.update({
"C31": "All n >= 1 (unbounded naturals; an overflow of the trial divisor's square is a compile error): increasing primes, positive exponents, product n, exponents = multiplicities, capacity ct_log2(n) never exceeded.",
"C32": "is_prime: all n >= 2, and on 64-bit integers exactly: undefined (overflow of divisor*divisor) for the n >= 3037000493^2 without a prime factor up to 3037000495, correct otherwise; next_prime, prime_list: n >= 1. False of the code for 1, for negative integers coprime to 6 and for the prime 9223372006790004737: negations proved.",
"C99": "Any rounding of relative error u without limits of the exponent, N*u <= 1/16: when the iteration stops the result is within 12u of the root. Partial: it does not always stop (cube root of 4, fourth root of 2 alternate between two doubles for ever), and the cube root of 1e-200 is inf: C99_root_false. Square roots are complete: C99_sqrt proves that ct_root<2> returns for every positive finite float or double (subnormals and the largest number included) and the result is one of the two neighbours of the root, the exact root if it is representable (C99_sqrt_exact).",
})

NOTES.update({
"C100": "IFl f with StdFmt f (binary64, binary32), units with rational scale (root 1) whose cross products are below 2^(frac+1), no signed zeros, no contraction to fma. Not in the claim and false of the code: distinct doubles of the same unit can compare equal (1.9 inch and its successor, 1e303 and 2e303 inch, 0 and 1e-14 degrees Celsius: C100_same_unit_false), == and < are not transitive across three units (C100_transitive_false), -273.15 degrees Celsius < 1e-14 K is not reported correctly (C100_offset_false), NaN quantities satisfy <= and >= (C100_nan_false).",
"C101": "As C100; almost_equal for a rounding without limits of the exponent. The bounds are in the code's own formula for offsets (C38 says when that formula is right). Not in the claim and false of the code: 15e9 ns converts to 15.000000000000002 s although both compare equal, 7 inch to cm and back is not 7 inch (C101_exact_false); 1 inch is not almost_equal to its conversion with the default tolerance (C101_almost_equal_false).",
"C102": "History and undo in exact real arithmetic without division by zero, any unit incl. offsets and roots; += agreement for any representation type (root 1). Undoing is false in double (C102_undo_false).",
})

NOTES.update({
"C103": "Arrays of bool (the only element type that can be overwritten by a comparison). Partial: less_equal and greater forward each argument with the category of the other, so greater(x, temporary) empties a named vector x, and they do not compile for arguments of different constness or type (C103_named_false, C103_compiles).",
"C104": "Any class whose setters change the object and return a copy. Partial: the setters return by value, so a chain of several setters on a named object applies only the first one to it (C104_chain, C104_chain_false, C104_spectrum_false); proved for programs that set one option per statement, assign the chain back, or configure temporaries.",
"C105": "Vector and matrix results without filters, at least two columns for the round trip.",
})

NOTES.update({
"C106": "Exact for all quantities with integer exponents. Partial: the two noise densities (per square root of a frequency) are recognised exactly when the dimension is stored as a square root; the same dimension formed from fourth roots is rejected (C106_noise_false).",
"C107": "IFl f with StdFmt f; units with rational scale, num*den below 2^(frac+1), no offset. Partial: strictness of infinity() is false outside base units, because comparisons multiply both sides by num*den: in kilometres max() == infinity() (C107_infinity_false); C107_infinity_partial characterises it.",
})

NOTES.update({
"C108": "One element type. Partial: an expression compiles exactly when no | has a reusable vector (moved, temporary or computed) on both sides (C108_compiles): (a | b) | (c | d) and concatenate(std::move(a), b, c) are ambiguous calls (C108_compiles_false); what compiles has the right value.",
})

NOTES.update({
"C109": "double for the LINEAR mode; every rounding exact on the indices otherwise; overflow only in the median. Partial: the midpoint overflows when the sum of the middle elements does, median({M, M}) is infinite (C109_median_false); LINEAR is not monotone, a position just below a power of two is cut to the integer below (C109_quantile_mono_false), and monotone otherwise; with a float probability arrays of more than 2^24 elements can be read past the end (C109_float_ub).",
})

NOTES.update({
"C110": "Every integer type, exact iff for the conditions of definedness. Partial: polyval goes through double (std::fma), exact for types of at most 53 bits; for 64-bit integers polyval(x, {2^53+1}) is 2^53 and polyval(x, {2^63-1}) is undefined (C110_polyval_false; exact below 2^53: C110_polyval_64_partial); polyint truncates (C110_polyint, C110_polyint_false).",
})

NOTES.update({
"C111": "Every IEEE format with overflow and underflow. Partial: histogram(x, 10) of 2^52, ..., 2^52+14 loses four samples inside the range, because the step is the difference of two rounded edges (C111_lost_false); a distance to the first edge that overflows loses the sample, +infinity is counted in the last bin (C111_overflow_false); a negative subnormal is counted in the bin starting at 0 (C111_below_false). Proved: definedness for all bins and samples (C111_defined), exact placement, order, error bound and coverage up to the error (C111_bins_partial), density (C111_density).",
})

NOTES.update({
"C112": "Every rounding with relative error u, monotone and exact on the indices; pow is arbitrary. Partial: logspace(0., 1., 50) ends at the exponent 1 - 2^-53 (C112_logspace_end_false); logspace(0, 1, 3) of int is {1, 1, 1} (C112_logspace_int_false; exact elements: C112_logspace_int); arange(2^52, 2^52 + 1, 0.25) contains stop (C112_arange_false; at most stop and complete up to two roundings: C112_arange_partial; decreasing ranges mirror increasing ones: C112_arange_neg); linspace(0.f, 1.f, 2^25 + 1) ends at 0.5 because the float indices stop at 2^24 (C112_long, C112_long_false).",
"C113": "linspace and logspace for every arithmetic with commutative product. Partial: arange of quantities whose step has the wrong direction can list elements, because the scaled ends compare equal (C113_arange_false); it does not compile for units with offset (C113_arange_offset). Scales with a root are not covered.",
})

NOTES.update({
"C114": "Every IEEE format, zeros without sign. On quantities the functions look at the stored number: 0 °C is zero and 2^-1030 of a unit 1024 m is subnormal though equal to 2^-1020 m, which is normal (C114_quantity_false).",
"C115": "Every IEEE format with overflow and underflow; the limit is sharp (C115_sharp).",
})

NOTES.update({
"C116": "IEEE formats (ranges) and any rounding with relative error u (cosine sums); cos, exp, sqrt and the Bessel function are arbitrary functions with the stated ranges. Partial: bartlett<double>(6) starts and ends with -2^-53 (C116_bartlett_negative) and every blackman<double> with -2^-56 when cos is correctly rounded (C116_blackman_negative); gaussian with an underflowing variance and kaiser with an overflowing I0(beta) have a NaN in the centre (C116_gaussian_nan, C116_kaiser_nan); blackman, nuttall, blackmanharris, flattop and get_window do not compile for float and long double (C116_element_types). Symmetry for any arithmetic is C47_filler_symmetric. Distances of the other windows: C117.",
})

NOTES.update({
"C117": "Every rounding with relative error u that represents the half integers up to twice the number of points (double to 2^53); library functions with a given accuracy are parameters; overflow and underflow are excluded. Partial: tukey for an odd number of points (with an even number the code itself departs from the textbook, C47); its bound is proportional to 1/alpha, and tukey(3, 2^-53) is {1, 1, 1} where the textbook has 0 at the ends (C117_tukey_end). C117_tukey_ends: the windows for alpha <= 0 and alpha >= 1.",
})

NOTES.update({
"C118": "Any rounding with relative error u < 1, without overflow and underflow, that represents 1/2, 2 and the number of segments; the transforms and the complex mean are arbitrary functions; complex products are the textbook formula. In binary64 the coherence of two signals can be 1 + 2^-52 (C118_coherence_above_one), that of a signal with itself 1 - 2^-53 (C118_coherence_self), and coherence(x, y) can differ from coherence(y, x) (C118_coherence_asymmetric). Signals of different sizes or kinds are covered by the exact model only (C51, C52). C118_segment, C118_segment_complex: what is transformed (samples, mean removed, times window), with error bound for real signals.",
"C119": "Any odd rounding with relative error u that represents the integers up to n, without overflow and underflow. The limit matters in float: all frequencies of fftfreq<float>(33554440) are equal (C119_fftfreq_float_stuck).",
})

NOTES.update({
"C26": "Reflexive, symmetric, NaN and infinities for any rounding; in every IEEE format the complete condition for two finite numbers with overflow and underflow (C26_ieee_finite), reflexivity, symmetry and the special values (C26_ieee_refl, C26_ieee_symm, C26_ieee_special). Partial: an infinity is almost_equal to every finite non-zero number (negation proved).",
})
NOTES["C111"] += " Outer edges are the extremes of the samples, widened by one half each when they are almost equal (C111_outer_edges, C111_constant); for the constant samples {2^53} the widening is lost to rounding and the bins violate their own requirement (C111_constant_large_false)."

NOTES.update({
"C120": "double idealised as real numbers, units without offset; division by zero and roots of negative numbers are outside the model. Sound for all expressions (C120_sound, C120_static, C120_dimensions, C120_units, C120_homogeneous), complete for expressions without roots, fmax, fmin and hypot (C120_complete). Consistent expressions with fractional exponents such as root<4>(x) * root<4>(x) + sqrt(x) do not compile (C120_fractional_false), nor do a dimensionless quantity plus a number and fmax of metres and kilometres (C120_mixed_false); the operators need equal representation types (C120_overloads): metre<double> * second<float> is ambiguous.",
})

NOTES.update({
"C121": "An overflow in a constant expression is a compile error. Whatever compiles has the exact type and value (C121_expressions_partial, C121_values). Exact conditions for compiling: power, prime_factors, roots, products with roots, and for ratios without root products, quotients, powers, common scales, sums and conversions (C121_power, C121_root, C121_multiply, C121_divide, C121_pow, C121_common, C121_add, C121_conversion). Partial because the second half is false: the factorisation of a prime from 3037000499^2 on overflows (C121_prime_factors_false), intermediate results overflow although the result fits (C121_order_false, C121_add_false: exametre + attometre), and some conversions between units of the library do not compile (C121_conversion_false: light years to millimetres). Not modelled: compiler limits on evaluation steps and template depth (factoring a large prime needs up to 3e9 steps), arithmetic of offsets.",
})

NOTES.update({
"C122": "Same model functions as C55-C60, instantiated with rounded arithmetic. Bounds are against Mathlib polynomials with the absolute values of the coefficients (PolyNear, absPoly). Overflow and underflow are outside the rounding model. C122_polydiv_remainder: in binary64 (1+x)(1+49x) is computed exactly but dividing it by 1+49x leaves the remainder 2^-53.",
})

NOTES.update({
"C123": "Partial because false in part: distinct binary64 abscissae can get the same knot (C123_collapse_false; they do not when further apart than 2((1+u)^2/(1-u)-1) times the range, C123_separated, C123_through_separated), exact tripling changes the knots (C123_scale_false; powers of two and exact shifts do not, C123_pow2, C123_shift), a float query at a data point can be rescaled to NaN (C123_float_query_false), and a range that overflows gives the knots 0, 0, NaN (C123_overflow_false). C123_rescaling is the first half in full. The spline of Eigen is a parameter.",
})

NOTES.update({
"C124": "Overload resolution itself is modelled: template argument deduction, viability with enable_if, ranking of reference bindings and partial ordering of function templates ([temp.deduct.call], [over.ics.rank], [temp.deduct.partial]) for the forms of parameters that occur. C124_mul and C124_div: the exact table (Spec/Overload.lean) of what compiles and the result types. C124_ambiguous: the only ambiguous calls. C124_product_units, C124_quotient_units: the units. C124_compiles, C124_commutes, C124_category: consequences. C124_map_destination proves the choice of overloads that the model of C04 assumes. Counterexamples to simpler rules: C124_const_array_false, C124_offset_order_false (an array of metres times degrees Celsius compiles, one metre times degrees Celsius does not), C124_nested_arrays_false. An array of arrays times a scalar on the right does not compile because the operator its elements need is declared later in numeric.hpp. Operators +, - and comparisons are C132; Eigen types are not in this model.",
})

NOTES.update({
"C125": "The naive claim that every expression has its element by element value is false: a unary operator or scalar operator applied to a non-const named array overwrites it (C04), so `-a + a` is undefined for vectors in every order (C125_twice), gives -2a for std::array (C125_array), and `-a + (a + b)` depends on the order of evaluation (C125_orderDependent). C125_exact, C125_undefined: for vectors the value is right in all orders exactly when no operand of an operator overwrites an array that the other operand reads; C125_safe gives value and final contents of all arrays, C125_order independence of the order, C125_pure and C125_const expressions that change nothing. Not modelled: std::move of a const array (does not compile), elements of different types as different Lean types.",
})

NOTES.update({
"C126": "Same model functions as C20, instantiated with rounded arithmetic (RFl rnd; overflow and underflow outside the model). C126_double is the binary64 instance with a correctly rounded square root that is defined and proved correct (C126_sqrt64_correct). Not claimed because false: Pearson's kurtosis >= 1 (C126_kurtosis_one_false: {0,0.1,0,0.1,0,0.1}) and invariance under exact shifts (C126_shift_false: the kurtosis of {0,1} is 1, that of {2^52,2^52+1} is 2).",
})

NOTES.update({
"C127": "Same evaluator and type checker as C120 (Model/QExpr.lean), without the restriction to units without offset. C127_sound/_defined/_compiles quantify over all expressions, C127_denotes and C127_right_iff give each operation in terms of absolute values, C127_means the linear combinations that are right. Real arithmetic (no rounding); the comparison operators are C37.",
})

NOTES.update({
"C128": "Types (Model/QStats.lean: sumTy, covTy, momentTy, ...) and values are modelled separately; a value of quantities differs from that of numbers by the division through the reciprocal. Findings: C128_mean_constant_false, C128_moment_zero_false, C128_celsius (the third moment of Celsius temperatures compiles, their variance does not), C128_ptp_offset_false. Units with irrational scales (roots) are outside: sum does not compile for some of them. Overflow of the integer arithmetic of the types is outside the model (C121).",
})

NOTES.update({
"C129": 'Element types through the overload resolution of C124 (Model/QSpectral.lean), values through the models of C49-C52 (exact) and C118 (rounded). Findings: C129_float_false (Spectrum<float> compiles for complex signals only, because `v = 2.0 * std::move(v)` yields doubles), C129_celsius_false, C129_tfestimate_rounding, C129_coherence_rounding. Rounding of fs(q) itself and units with irrational scales are outside.',
})

NOTES.update({
"C130": 'Exact arithmetic (Model/QNumeric.lean) on top of C09-C12, C34 and C128. Findings: C130_celsius_false (diff of 10 °C and 20 °C is 10 °C, that is 283.15 K), C130_percent (the product of percents does not compile, the cumulative product does), C130_trapz_single_ub. convolve of quantities and inner of complex quantities do not compile (initialised from a number) and are not modelled.',
})

NOTES.update({
"C131": 'Model/WaveformsF.lean; unbounded exponents, std::cos is a parameter with its error bound. C131_binary64 instantiates binary64. Findings: C131_drift_false, C131_nan (a NaN or infinite time fails a requirement on the width in the branch for the falling part), C131_negative_times (values below -1), C67_rounding_overshoot.',
})

NOTES.update({
"C132": "Model/OverloadAdd.lean over the overload resolution of C124, with the two-phase lookup of the bodies of the templates in numeric.hpp (an operator body sees the operators on arrays declared up to itself). C132_add, C132_sub, C132_neg, C132_compare: the exact tables (Spec/OverloadAdd.lean). C132_unambiguous, C132_category, C132_commutes, C132_commutes_array, C132_sum_units, C132_difference_units, C132_compiles, C132_array_compare: consequences. Counterexamples to simpler rules: C132_nested_arrays_false, C132_nested_compare_false, C132_complex_units_false, C132_dimensionless_false. Values are in C35 and C36; Eigen types and C++20's rewritten comparisons are outside.",
})

NOTES.update({
"C133": 'Model/FftF.lean: fft, rfft, ifft, irfft, fftconvolve and correlate over an abstract arithmetic and an abstract Eigen::FFT. C133_convolve_complex, C133_convolve_real, C133_correlate_complex, C133_correlate_real: the bound in norm, against `convolve` over the complex/real numbers; C133_element: per element; C133_integers: recovery of integer convolutions by rounding; C133_butterfly: a concrete two-point transform is accurate to (1+u)^2-1, so the hypotheses can be met; C133_element_lost: in binary64, {1}*{1, 2^-60} gives {1, 0} by transforms while the direct method is exact. Overflow and underflow are not modelled (unbounded exponents).',
})

NOTES.update({
"C134": 'Model/HistTy.lean: the types of lerp, quantile, percentile, iqr, bin_width, linspace, histogram_bin_edges and histogram, computed through the overload resolution of C124 and C132. C134_quantile_partial, C134_percentile, C134_iqr_partial: exactly which element types compile, and the result type; C134_edges_partial: exactly which rules compile for which elements; C134_edges_count: a number of bins compiles for all; C134_histogram: when histograms compile, and the unit of a density; C134_float_false, C134_celsius_false: quantiles and AUTO bins of float do not compile, no rule compiles for degrees Celsius. Integer types are represented by int.',
})

NOTES.update({
"C135": 'Model/IntVar.lean: the blockwise covariance with integer arithmetic, every operation checked for overflow and division by zero. C135_nonneg, C135_symmetric: all lengths; C135_short, C135_short_defined, C135_short_error_partial: at most 64 elements; C135_constant_partial: equal elements, at most 128. Negations: C135_constant_false (129 elements 1000 have the variance 248062: the combined mean is `1 / n = 0` times the sum), C135_two_blocks_false (65 elements: 246153 instead of 249940.8), C135_long_false (92682 or more elements of int: always undefined), C135_kurtosis_false (division by zero for {0, 1}).',
})

NOTES.update({
"C136": 'Model/IntStats.lean. C136_average, C136_average_defined, C136_average_between, C136_average_mean; C136_pow (an equivalence); C136_moment_partial, C136_moment_filter, C136_moment_defined; C136_sem_partial, C136_sem_same, C136_sem_empty; C136_skew_partial, C136_skew_overflow. Negations: C136_sem_false (the standard error of {1..10} is 0), C136_skew_false (undefined for {0, 100}, 0/0 for {0, 1}), C136_moment_false (the third moment of {1, 2, 4} is 2 instead of 20/27; filters select powers of deviations), C136_average_false.',
})

NOTES.update({
"C137": 'Model/UInt.lean and the generic models at Fin N. C137_sum_prod, C137_order, C137_cumulative, C137_inner, C137_diff, C137_diff_nth, C137_cumsum_diff, C137_ptp, C137_mean, C137_average, C137_median; C137_covariance_partial, C137_variance_partial (at most 64 elements: longer arrays go through the combination step, whose factor 1/(n1+n2) is 0 in integer division, as for signed integers, C135). Negations: C137_wrap_false (the mean of {4294967295, 1} is 0, 1 - 4294967295 is 2, the variance of {0, 2147483648} is 0), C137_median_false (the median of {4294967295, 1} is 0).',
})

NOTES.update({
"C138": 'Model/IntQuant.lean (real results: the rounding of double is not modelled here). C138_lerp, C138_lerp_unsigned, C138_lerp_unsigned_decreasing (t*N too large); C138_quantile, C138_quantile_unsigned, C138_iqr; C138_edges_range, C138_edges_fd, C138_distinct, C138_counts_partial, C138_counts_scott_partial, C138_counts_doane_partial, C138_doane_overflow. Negations: C138_scott_false ({0, 0, 0, 1, 1, 1}: one bin as int, two or more as double), C138_doane_false ({0, 100, 200}: undefined), C138_lerp_unsigned_false (lerp(5u, 3u, 0.5) is 2147483652).',
})

NOTES.update({
"C139": "Model/ComplexF.lean instantiates the generic reductions with complex numbers (product as (ac - bd) + (ad + bc)i, quotient by Smith's method of libgcc; neither overflow nor underflow, nor contraction to fused operations). C139_sum, C139_prod, C139_mean, C139_cumsum, C139_inner, C139_vdot, C139_convolve, C139_correlate (bounds against sums in ℂ), C139_vdot_symm, C139_vdot_self, C139_cov_symm, C139_var_nonneg, C139_empty, C139_values (exact values). C139_covariance, C139_var, C139_cov_binary64: accuracy of covariance and variance with any number of elements (Props/ComplexCov.lean). C139_polyfromroots: coefficients of the polynomial with given complex roots, the leading one exactly 1 (Props/ComplexPoly.lean). C139_segment: the mean of C139 in the segments of complex signals (C118). C139_div: the quotient of two complex numbers has errors of at most about 7 units of roundoff times the sum of the magnitudes of the terms of its components, C139_div_exact: in exact arithmetic it is the quotient of ℂ (Props/ComplexDiv.lean).",
})

NOTES.update({
"C140": 'Model/EigenView.lean models buffers, capacities and the operations of vectors (of the standard library) that keep, replace or release a buffer. C140_now, C140_alias, C140_move, C140_dangling, C140_array (quantified over all histories); C140_snapshot_false: the conversion is not a snapshot.',
})

NOTES.update({
"C141": 'Model/PolyObj.lean: a store of coefficient vectors; += and -= of an object with itself are modelled as the loops that read what the previous iterations wrote. C141_programs is a refinement proof against the ring of polynomials (Spec/PolyObj.lean); C141_eq; C141_eq_false: P - P and Polynomial{0} are the same polynomial and compare unequal; C141_moved. Coefficients are elements of a commutative ring: rounding is in C55 and C139, moving an object to itself and trim() are not statements of the model (trim is C59).',
})

NOTES.update({
"C142": 'C142_ifft_fft, C142_irfft_rfft, C142_parseval, C142_irfft_odd_false, on Model/FftF.lean. The transforms of Eigen are a parameter with the accuracy hypothesis Spec.Accurate; C133_butterfly shows that the two-point transform in binary64 meets it. Exact round trips are C70.',
})

NOTES.update({
"C143": 'Model/Roots.lean. The eigenvalues of Eigen are a parameter: Spec.Exact (roots of the characteristic polynomial) for C143_roots, C143_back, C143_from_roots, and NearEigenvalue for C143_residual, C143_float; C143_constant. Overflow of the quotients of the companion matrix is not modelled (unbounded exponents).',
})

NOTES.update({
"C144": 'Exact arithmetic, fewer than 2^31 elements. C144_quantile holds for every tolerance of the integer test of the index. Reflection: exact test (tolerance 0) and every method but NEAREST, whose ties go to the even index: C144_nearest_reflect_false.',
})

NOTES.update({
"C145": 'Exact arithmetic, on the model of C49-C54. The two signals of csd have one length (zero padding does not commute with an offset). C145_tfestimate: the conjugate is that of C52_tfestimate_false.',
})

NOTES.update({
"C146": 'Exact arithmetic on the models of C10, C11 and C27 with real elements; floating point errors are in C88. The error bound uses the trapezoidal rule of Mathlib.',
})

NOTES.update({
"C147": 'Exact arithmetic: commutative semirings, complex numbers, and any ordered field for the delay. Model of C40, C42 and C08. The errors of C147_delay_robust are any perturbation of the correlation values (rounding, FFT method, noise).',
})

NOTES.update({
"C148": 'The searching histogram (use_uniform_bins = false), model of C22. C148_affine is in exact arithmetic; C148_cumulative needs, as C22, that no sample above the last edge is close to it.',
})

NOTES.update({
"C149": 'Exact arithmetic, model of C66. The spline library is a parameter: a spline of degree 1 fitted to increasing abscissae is assumed to be the piecewise linear function through the data (such a library is shown to exist).',
})

NOTES.update({
"C150": 'Exact arithmetic, model and solver of C75 (a solver over the reals is shown to exist). Degree 0 is undefined (C75).',
})

NOTES.update({
"C151": 'Exact arithmetic, fewer than 2^64 - 1 roots; model of C60 and C55.',
})

NOTES.update({
"C152": 'Exact arithmetic on the model of C70, where the transform of Eigen is the exact discrete Fourier transform; rounding errors are in C142.',
})

NOTES.update({
"C153": 'Models of C01, C05, C06 and C07. C153_sum is for commutative additions without rounding.',
})
