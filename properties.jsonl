{"id": "C01", "title": "Reductions are independent of the blocking scheme", "statement": "sum, prod, nansum and nanprod of an array return exactly the left-to-right fold of + (resp. *) over the elements accepted by the filter, starting at 0 (resp. 1), together with the number of accepted elements, whatever the length of the array and however the recursive block splitting falls.", "quantifier": "every array length, every element type with an associative operation and identity, every filter predicate", "why_tests_cant": "the splitting depends on the length through repeated halving against a block size of 64; tests sample a handful of lengths", "anchors": ["scicpp/core/functional.hpp: pairwise_accumulate, filter_reduce, filter_reduce_associative", "scicpp/core/numeric.hpp: sum, prod, nansum, nanprod"]}
{"id": "C02", "title": "Summation rounding error grows logarithmically", "statement": "When every floating point addition has relative error at most u, the result of sum on n elements differs from the exact sum by at most ((1+u)^(64+ceil(log2 n)) - 1) times the sum of absolute values, for every rounding behaviour allowed by that model.", "quantifier": "every array length, every data, every rounding function obeying the standard model", "why_tests_cant": "the worst-case rounding cannot be found by sampling data", "anchors": ["scicpp/core/functional.hpp: pairwise_accumulate", "scicpp/core/numeric.hpp: sum"]}
{"id": "C03", "title": "Element-wise operations act element by element", "statement": "Unary map and every array operator (negation, scalar and array +,-,*,/,%) return an array of the same length whose i-th element is the operation applied to the i-th operand elements; for binary operations the arrays must have the same size, otherwise the precondition is violated. The result does not depend on whether operands are named objects, constants or temporaries.", "quantifier": "every length, every element operation, every combination of operand value categories", "why_tests_cant": "eight overload paths times in-place/out-of-place specialisations times all lengths", "anchors": ["scicpp/core/functional.hpp: map", "scicpp/core/numeric.hpp: operators"]}
{"id": "C04", "title": "Computing with a named array does not modify it", "statement": "Calling map, an arithmetic operator, a vectorised maths function, cumsum, cumprod, flip, fftshift, ... on a named (lvalue) array leaves that array unchanged.", "quantifier": "every array and every value category of the argument", "why_tests_cant": "tests only pass const objects or temporaries; the property is about overload selection for all arguments", "anchors": ["scicpp/core/functional.hpp: map(UnaryOp, Array&&)", "scicpp/core/numeric.hpp: cumsum(Array&&), cumprod(Array&&), operators", "scicpp/core/manips.hpp: flip", "scicpp/signal/fft.hpp: fftshift"]}
{"id": "C05", "title": "filter keeps exactly the accepted elements in order", "statement": "filter(a, p) is the order-preserving subsequence of a of the elements satisfying p; filtering twice with the same predicate is the same as once; filters with limits (trimmed statistics) accept exactly the declared interval, honouring each inclusive flag.", "quantifier": "every array and every predicate", "why_tests_cant": "the in-place remove/erase works on arbitrary data", "anchors": ["scicpp/core/functional.hpp: filter, filters::Trim"]}
{"id": "C06", "title": "mask selects exactly the flagged elements", "statement": "mask(a, m) with a.size()==m.size() returns the elements a[i] with m[i] true in order; the out-of-place, rvalue in-place and mask_array versions agree.", "quantifier": "every array and every mask of the same length", "why_tests_cant": "the in-place version overwrites the array it is still reading", "anchors": ["scicpp/core/numeric.hpp: mask, mask_array"]}
{"id": "C07", "title": "argwhere and nonzero return exactly the matching indices", "statement": "argwhere(a,p) returns the strictly increasing list of all indices i such that p(a[i]) holds; taking a at those indices equals filter(a,p).", "quantifier": "every array and every predicate", "why_tests_cant": "index set of arbitrary size", "anchors": ["scicpp/core/numeric.hpp: argwhere, nonzero"]}
{"id": "C08", "title": "argmax/argmin return the first extreme element", "statement": "argmax (argmin) returns the smallest index of a maximal (minimal) element; nanargmax/nanargmin return the smallest index of a maximal (minimal) element among the elements accepted by the filter.", "quantifier": "every non-empty array (with at least one accepted element) and every filter", "why_tests_cant": "depends on the position of rejected elements", "anchors": ["scicpp/core/numeric.hpp: detail::argcmp, argmax, argmin, nanargmax, nanargmin"]}
{"id": "C09", "title": "cumsum and cumprod are prefix folds", "statement": "The i-th element of cumsum(a) (cumprod(a)) is the sum (product) of a[0..i]; the length is unchanged; nancumsum/nancumprod do the same on the accepted elements only.", "quantifier": "every array", "why_tests_cant": "all lengths and element types", "anchors": ["scicpp/core/numeric.hpp: cumsum, cumprod, nancumsum", "scicpp/core/functional.hpp: cumacc"]}
{"id": "C10", "title": "diff is the n-th finite difference", "statement": "diff(a,n) has length max(0,len(a)-n) and element i equals the n-th forward difference sum_k (-1)^(n-k) C(n,k) a[i+k]; the array (compile-time n) and vector versions agree; cumsum of diff recovers a up to its first element.", "quantifier": "every array and every order n", "why_tests_cant": "unbounded order and length", "anchors": ["scicpp/core/numeric.hpp: diff, detail::diff_once"]}
{"id": "C11", "title": "trapz is the composite trapezoidal rule", "statement": "trapz(f,dx) equals the sum over consecutive samples of dx*(f[i]+f[i+1])/2, for every array; zero for arrays with fewer than two samples.", "quantifier": "every array length", "why_tests_cant": "the single-sample boundary is not exercised", "anchors": ["scicpp/core/numeric.hpp: trapz"]}
{"id": "C12", "title": "inner/dot/vdot are the (sesqui)linear products", "statement": "inner(a,b) is the sum of a[i]*b[i], vdot(a,b) the sum of conj(a[i])*b[i]; they are bilinear (sesquilinear), vdot(b,a)=conj(vdot(a,b)), vdot(a,a) is real and non-negative and zero only for the zero vector; unequal lengths violate the precondition.", "quantifier": "every pair of arrays of equal length", "why_tests_cant": "blockwise recursion over two sequences", "anchors": ["scicpp/core/numeric.hpp: inner, dot, vdot", "scicpp/core/functional.hpp: pairwise_accumulate (two ranges)"]}
{"id": "C13", "title": "Array comparisons agree with scalar comparisons", "statement": "less, less_equal, greater, greater_equal, equal, not_equal and the array-scalar operators ==,!=,<,<=,>,>= yield at index i the value of the corresponding scalar comparison of the i-th elements, including IEEE unordered (NaN) operands.", "quantifier": "every pair of arrays, including those containing NaN", "why_tests_cant": "derived operators are built by negation", "anchors": ["scicpp/core/numeric.hpp: less, less_equal, greater_equal, greater, operators"]}
{"id": "C14", "title": "amax, amin and ptp are attained bounds", "statement": "amax(a) is an element of a and is >= every element; amin dually; ptp = amax - amin >= 0; on empty arrays the result is NaN.", "quantifier": "every array of ordered elements", "why_tests_cant": "all lengths", "anchors": ["scicpp/core/stats.hpp: amax, amin, ptp"]}
{"id": "C15", "title": "mean and average", "statement": "mean(a, filter) is the sum of accepted elements divided by their number; it lies between the minimum and maximum accepted elements; average(a,w) is sum(w*a)/sum(w); empty input or (for average) size mismatch gives NaN; no accepted element gives NaN.", "quantifier": "every array, filter and weights", "why_tests_cant": "all lengths", "anchors": ["scicpp/core/stats.hpp: mean, average, nanmean, tmean"]}
{"id": "C16", "title": "median does not depend on the selection algorithm", "statement": "median(a) is the middle order statistic for odd length and the mean of the two middle order statistics for even length, for every rearrangement std::nth_element may legally produce; it is invariant under permutations of a, and bounded by amin and amax; nanmedian is the median of the non-NaN elements; a named argument is not modified.", "quantifier": "every array, every nth_element outcome", "why_tests_cant": "the post-state of nth_element is implementation-defined", "anchors": ["scicpp/core/stats.hpp: detail::median_inplace, median, nanmedian"]}
{"id": "C17", "title": "quantile implements the declared interpolation of order statistics", "statement": "For 0<=q<=1, with h=q*(n-1): LOWER returns the floor(h)-th order statistic, HIGHER the ceil(h)-th, NEAREST the round-half-even(h)-th, MIDPOINT the mean of the two, and LINEAR the linear interpolation at h, for every nth_element outcome; the value is between amin and amax, 0 gives the minimum and 1 the maximum; quantile is non-decreasing in q.", "quantifier": "every array, every q in [0,1], every interpolation method, every nth_element outcome", "why_tests_cant": "near-integer ranks are measure-zero for random tests", "anchors": ["scicpp/core/stats.hpp: detail::quantile_inplace, detail::quantile_interp_index, quantile, percentile"]}
{"id": "C18", "title": "Blockwise covariance equals the textbook covariance", "statement": "covariance<ddof>(x,y) = sum (x_i - mean x) conj(y_i - mean y) / (n-ddof) for every length, whatever the recursive block structure; symmetric (hermitian); covariance(x,x)=var(x)>=0; invariant by translation; +inf when n-ddof<=0; NaN on empty input.", "quantifier": "every pair of equal-length arrays, every ddof", "why_tests_cant": "the combine formula must be right for every split", "anchors": ["scicpp/core/stats.hpp: covariance, var"]}
{"id": "C19", "title": "Filtered (NaN-ignoring) variance equals variance of the accepted elements", "statement": "var(x, filter) (nanvar, tvar) equals the textbook variance of the accepted elements, and the returned count is their number.", "quantifier": "every array, every filter, every ddof", "why_tests_cant": "depends on how rejected elements fall into 64-blocks", "anchors": ["scicpp/core/stats.hpp: covariance, var, nanvar, tvar"]}
{"id": "C20", "title": "Moments, skewness, kurtosis", "statement": "moment<n>(x) is the n-th central moment; moment<1>=0, moment<2>=var; kurtosis(Fisher)=m4/m2^2-3, Pearson kurtosis >= 1; with a filter the moments are those of the accepted elements; skewness and kurtosis are invariant under positive affine maps.", "quantifier": "every array, every n, every filter", "why_tests_cant": "quantifies over all arrays and orders", "anchors": ["scicpp/core/stats.hpp: moment, kurtosis, skew"]}
{"id": "C21", "title": "cov is a symmetric positive semidefinite 2x2 matrix", "statement": "cov(x,y) has var(x), var(y) on the diagonal, covariance and its conjugate off diagonal, and non-negative determinant (Cauchy-Schwarz).", "quantifier": "every pair of equal-length arrays with more than ddof samples", "why_tests_cant": "inequality over all data", "anchors": ["scicpp/core/stats.hpp: cov"]}
{"id": "C22", "title": "Histogram counts partition the data", "statement": "With sorted bins, histogram returns bins.size()-1 counts; hist[i] is the number of samples x with bins[i]<=x<bins[i+1] (last bin closed); the counts sum to the number of samples in [bins.front(), bins.back()]; samples outside and NaN are ignored.", "quantifier": "every data set, every sorted bin vector", "why_tests_cant": "all data, including values on edges and infinities", "anchors": ["scicpp/core/histogram.hpp: histogram (search version)", "scicpp/core/equal.hpp: almost_equal"]}
{"id": "C23", "title": "Uniform-bin histogram agrees with the searched one", "statement": "On equally spaced bins the index-computing histogram and the binary-search histogram return the same counts (in exact arithmetic).", "quantifier": "every data set, every number of uniform bins", "why_tests_cant": "off-by-one at every edge", "anchors": ["scicpp/core/histogram.hpp: histogram<density, UniformBins>"]}
{"id": "C24", "title": "Density histogram integrates to one", "statement": "histogram<Density> satisfies sum(density[i]*(bins[i+1]-bins[i])) = 1 whenever at least one sample falls inside the bins and bins are strictly increasing.", "quantifier": "every data set with fewer than 2^31 counted samples, every strictly increasing bin vector", "why_tests_cant": "identity over all inputs", "anchors": ["scicpp/core/histogram.hpp: histogram"]}
{"id": "C25", "title": "Automatic bin edges cover the data", "statement": "histogram_bin_edges(x, nbins) returns nbins+1 equally spaced edges from min to max (widened by 0.5 on both sides when they coincide), so every sample is counted: the counts of histogram(x,nbins) sum to the number of samples.", "quantifier": "every data set and nbins>=1", "why_tests_cant": "all data incl. constant arrays", "anchors": ["scicpp/core/histogram.hpp: detail::outer_edges, histogram_bin_edges, histogram(x, nbins)"]}
{"id": "C26", "title": "almost_equal is reflexive, symmetric and separates distinct magnitudes", "statement": "almost_equal is reflexive (NaN compared with NaN by design), symmetric, true only when both are NaN, equal infinities, or |a-b| <= rel_tol*max(|a|,|b|)-like bound; an infinity is never almost equal to a finite number or to the opposite infinity.", "quantifier": "every pair of floating point values and tolerance", "why_tests_cant": "special values crossed with all finite values", "anchors": ["scicpp/core/equal.hpp: detail::fp_equal_predicate, almost_equal"]}
{"id": "C27", "title": "linspace is equally spaced with exact endpoints", "statement": "linspace(start,stop,n) has n elements, element i equals start+i*(stop-start)/(n-1), the first is start and the last is stop, n=1 gives start, n=0 gives the empty array; the array and vector versions agree.", "quantifier": "every start, stop, n (exact arithmetic; integers when n-1 divides stop-start)", "why_tests_cant": "all n", "anchors": ["scicpp/core/range.hpp: linspace"]}
{"id": "C28", "title": "arange enumerates the half-open range", "statement": "arange(start,stop,step) contains exactly the values start+i*step, i>=0, lying in [start,stop) (resp. (stop,start] for negative step); a step of the wrong sign gives an empty array.", "quantifier": "every start, stop, step != 0", "why_tests_cant": "boundary rounding of the count", "anchors": ["scicpp/core/range.hpp: arange"]}
{"id": "C29", "title": "logspace is geometric", "statement": "logspace(a,b,n)[i] = base^(linspace(a,b,n)[i]); first 10^a, last 10^b, constant ratio.", "quantifier": "every a,b,n", "why_tests_cant": "all n", "anchors": ["scicpp/core/range.hpp: logspace"]}
{"id": "C30", "title": "concatenate and flip are list append and reverse", "statement": "concatenate(a,b) has length |a|+|b| and lists a then b; associative with the empty array as unit; flip reverses, flip(flip(a))=a, and flip(concatenate(a,b))=concatenate(flip(b),flip(a)); results do not depend on value categories of the arguments.", "quantifier": "every pair of arrays and value categories", "why_tests_cant": "overload set per value category", "anchors": ["scicpp/core/manips.hpp: concatenate, flip"]}
{"id": "C31", "title": "prime factorisation is correct", "statement": "prime_factors(n), n>=1, returns distinct primes with positive exponents, in increasing order, whose product is n, and never overflows its fixed capacity.", "quantifier": "every positive integer", "why_tests_cant": "all integers", "anchors": ["scicpp/core/units/arithmetic.hpp: prime_factors, ct_log2"]}
{"id": "C32", "title": "is_prime and next_prime decide primality", "statement": "is_prime(n) holds iff n is prime, and next_prime(n) is the least prime greater than n.", "quantifier": "every integer", "why_tests_cant": "all integers", "anchors": ["scicpp/core/units/arithmetic.hpp: is_prime, next_prime"]}
{"id": "C33", "title": "Compile-time integer arithmetic", "statement": "power(x,n)=x^n by squaring; ct_log2 is floor(log2)+1; lcm/gcd-based ratio operations are exact.", "quantifier": "every base and exponent", "why_tests_cant": "all integers", "anchors": ["scicpp/core/units/arithmetic.hpp: ct_log2, power, int_pow"]}
{"id": "C34", "title": "Root-ratio scale arithmetic is sound and canonical", "statement": "Scale factors (Num/Den)^(1/Root) multiply, divide, invert, take roots and powers exactly: the real number denoted by the result is the product, quotient, ... of the operands'; and equal numbers are represented by the same type.", "quantifier": "every pair of root ratios", "why_tests_cant": "all numerators, denominators, roots", "anchors": ["scicpp/core/units/arithmetic.hpp: root_ratio, root_ratio_multiply, root_ratio_divide, root_ratio_root"]}
{"id": "C35", "title": "Quantity addition and subtraction across scales", "statement": "For quantities of one dimension in different scales (units without offset), a+b and a-b denote the sum and difference of the denoted base-unit values; + is commutative and associative on denotations. With a common offset (temperatures) the values above the offset are added.", "quantifier": "every pair of scales and values (exact representation type)", "why_tests_cant": "all scale pairs", "anchors": ["scicpp/core/units/quantity.hpp: operator+, operator-, common_quantity_t"]}
{"id": "C36", "title": "Quantity multiplication and division compose dimensions", "statement": "a*b and a/b denote the product/quotient of base-unit values and have the sum/difference of dimension exponents; (a*b)/b has the dimension of a and the value of a; sqrt(q)^2 restores value and dimension.", "quantifier": "every pair of quantities", "why_tests_cant": "all dimension vectors and scales", "anchors": ["scicpp/core/units/quantity.hpp: operator*, operator/, quantity_multiply, quantity_divide, quantity_root", "scicpp/core/units/maths.hpp: sqrt, pow"]}
{"id": "C37", "title": "Quantity comparisons compare the denoted values", "statement": "For two quantities of the same dimension, ==, !=, <, <=, >, >= hold iff the corresponding relation holds for the denoted base-unit values; hence < is a strict total order across units.", "quantifier": "every pair of scales, offsets and values", "why_tests_cant": "all scale/offset pairs", "anchors": ["scicpp/core/units/quantity.hpp: operator==, operator<"]}
{"id": "C38", "title": "Unit conversion preserves the denoted quantity", "statement": "Converting a quantity to another unit of the same dimension preserves its base-unit value (scale*v+offset) and converting back restores it, including units with offsets (kelvin, celsius, fahrenheit) and integer representations.", "quantifier": "every pair of units (scale and offset) and every value", "why_tests_cant": "conversion chains over all unit pairs", "anchors": ["scicpp/core/units/quantity.hpp: quantity_cast, quantity constructor, value()"]}
{"id": "C39", "title": "Quantity scalar division", "statement": "q/k denotes the value of q divided by k, and (q*k)/k=q, for every non-zero factor k, including integer factors with floating point quantities and integer representations.", "quantifier": "every quantity, every factor", "why_tests_cant": "representation type promotion", "anchors": ["scicpp/core/units/quantity.hpp: operator*(quantity, scalar), operator/(quantity, scalar)"]}
{"id": "C40", "title": "convolve is the full linear convolution", "statement": "convolve(a,v) (direct) has length n+m-1 and k-th element sum_{i+j=k} a[i] v[j]; commutative, bilinear, associative, with unit impulse as identity; equals the coefficients of the product polynomial.", "quantifier": "every pair of non-empty arrays", "why_tests_cant": "all lengths; the operands are swapped when the second is longer", "anchors": ["scicpp/signal/convolve.hpp: direct_convolve, convolve"]}
{"id": "C41", "title": "FFT convolution equals direct convolution", "statement": "convolve<FFT> returns, for exact DFTs, the same array as the direct method: the zero padding length never causes wrap-around.", "quantifier": "every pair of non-empty arrays", "why_tests_cant": "aliasing depends on the padded length for all sizes", "anchors": ["scicpp/signal/convolve.hpp: fftconvolve", "scicpp/signal/fft.hpp: next_fast_len, zero_padding, rfft, irfft"]}
{"id": "C42", "title": "correlate is convolution with the reversed conjugate", "statement": "correlate(a,v)[k] = sum_i a[i+k-(m-1)] conj(v[i]) for every lag; correlate(v,a) is the reversed conjugate of correlate(a,v).", "quantifier": "every pair of non-empty arrays", "why_tests_cant": "all lags and lengths", "anchors": ["scicpp/signal/convolve.hpp: correlate"]}
{"id": "C43", "title": "next_fast_len returns the least 5-smooth length", "statement": "next_fast_len(n) is the smallest number >= n of the form 2^a 3^b 5^c, and the search stays inside its Hamming-number generator.", "quantifier": "every n", "why_tests_cant": "all n up to size_t", "anchors": ["scicpp/signal/fft.hpp: next_fast_len, detail::Hamming"]}
{"id": "C44", "title": "fftshift and ifftshift are mutually inverse rotations", "statement": "fftshift rotates the zero-frequency sample to index n/2, ifftshift undoes it; const and rvalue overloads agree; both are length-preserving permutations, for every length including 0.", "quantifier": "every array length, odd and even", "why_tests_cant": "parity-dependent offsets", "anchors": ["scicpp/signal/fft.hpp: fftshift, ifftshift"]}
{"id": "C45", "title": "fftfreq/rfftfreq list the DFT bin frequencies", "statement": "fftfreq(n,d)[k] = k/(n d) for k<(n+1)/2 and (k-n)/(n d) otherwise; rfftfreq(n,d) has n/2+1 elements k/(n d); fftshift(fftfreq) is strictly increasing.", "quantifier": "every n>=1 and d>0", "why_tests_cant": "parity-dependent", "anchors": ["scicpp/signal/fft.hpp: fftfreq, rfftfreq"]}
{"id": "C46", "title": "zero_padding and subvector keep the prefix", "statement": "zero_padding(v,n) has n elements (n>=len), first those of v, then zeros; subvector(v,len,off) returns v[off..off+len) and never reads outside v.", "quantifier": "every vector, length, offset", "why_tests_cant": "boundary combinations", "anchors": ["scicpp/signal/fft.hpp: zero_padding", "scicpp/core/utils.hpp: subvector"]}
{"id": "C47", "title": "Windows are symmetric (or periodic on request)", "statement": "Every symmetric window of M points satisfies w[i]=w[M-1-i] exactly; the periodic version of M points equals the symmetric version of M+1 points without its last sample; values of Bartlett, Hann, Hamming, ... lie in [0,1].", "quantifier": "every window type, every M", "why_tests_cant": "all lengths and both parities", "anchors": ["scicpp/signal/windows.hpp: detail::symmetric_filler, bartlett, hann, hamming, ..."]}
{"id": "C48", "title": "Window gains and noise bandwidth", "statement": "s1 = (sum w)^2, s2 = sum w^2, enbw = fs*s2/s1; enbw*N >= fs with equality only for constant windows.", "quantifier": "every window vector with non-zero sum", "why_tests_cant": "inequality over all vectors", "anchors": ["scicpp/signal/windows.hpp: s1, s2, enbw"]}
{"id": "C49", "title": "Welch segments tile the signal inside its bounds", "statement": "For a signal at least as long as the window and 0<=noverlap<nperseg, welch averages exactly 1+floor((N-nperseg)/(nperseg-noverlap)) segments, each of nperseg samples fully inside the signal, and no further full segment would fit.", "quantifier": "every signal length, window length and overlap", "why_tests_cant": "integer division boundaries", "anchors": ["scicpp/signal/spectral.hpp: welch_impl, welch2_impl, compute_spectrum"]}
{"id": "C50", "title": "Multithreaded spectrum equals the sequential one under every schedule", "statement": "For every number of threads and every interleaving of the worker threads, every segment is accumulated exactly once, all threads are joined, the loop terminates, and the accumulated spectrum equals the sequential sum (addition commutative/associative).", "quantifier": "every nseg, every nthreads, every schedule", "why_tests_cant": "schedules cannot be enumerated by tests", "anchors": ["scicpp/signal/spectral.hpp: compute_segments_multithread, compute_spectrum"]}
{"id": "C51", "title": "Coherence lies in [0,1]", "statement": "coherence(x,y) is between 0 and 1 at each frequency where both spectra are non-zero, is symmetric in x and y, equals 1 when y is a scalar multiple of x and with a single segment.", "quantifier": "every pair of signals of equal length, every window and overlap", "why_tests_cant": "inequality over all signals", "anchors": ["scicpp/signal/spectral.hpp: coherence, csd, welch"]}
{"id": "C52", "title": "csd is hermitian and contains welch; tfestimate is the gain", "statement": "csd(y,x)=conj(csd(x,y)); csd(x,x)=welch(x); if y is x filtered such that Y(f)=H(f)X(f) on every segment, tfestimate(x,y) returns H(f).", "quantifier": "every pair of signals", "why_tests_cant": "complex conjugation conventions are invisible on real test ratios", "anchors": ["scicpp/signal/spectral.hpp: csd, welch, tfestimate"]}
{"id": "C53", "title": "Spectrum configuration is not changed by computing", "statement": "Calling periodogram, welch, csd, coherence or tfestimate does not change the configuration, so the same call later gives the same answer whatever was computed in between; configuration setters commute with computations.", "quantifier": "every history of configuration and computation calls", "why_tests_cant": "histories are unbounded", "anchors": ["scicpp/signal/spectral.hpp: periodogram, noverlap, window, set_parameters"]}
{"id": "C54", "title": "One-sided spectra conserve power", "statement": "For real signals, the one-sided spectrum returned equals the two-sided one folded (all bins doubled except DC and, for even nperseg, Nyquist), so that total power is preserved (Parseval).", "quantifier": "every real segment, both parities", "why_tests_cant": "identity over all signals", "anchors": ["scicpp/signal/spectral.hpp: normalize"]}
{"id": "C55", "title": "polyval, polyadd, polysub, polymul, polymulx form the polynomial ring", "statement": "polyval(x, .) is a ring homomorphism: value of polyadd/polysub/polymul/polymulx results are the sum/difference/product/x-multiple of the values for every x; lengths are max(n,m), n+m-1, n+1.", "quantifier": "every pair of polynomials and every x", "why_tests_cant": "all degrees", "anchors": ["scicpp/polynomials/polynomial.hpp: polyval, polyadd, polysub, polymul, polymulx"]}
{"id": "C56", "title": "polypow is repeated multiplication", "statement": "polypow(P,k) equals the k-fold product; value at x is polyval(P,x)^k; length k*(N-1)+1; array and vector versions agree.", "quantifier": "every polynomial and k", "why_tests_cant": "all k", "anchors": ["scicpp/polynomials/polynomial.hpp: polypow"]}
{"id": "C57", "title": "polydiv satisfies the Euclidean division identity", "statement": "polydiv(u,v) with non-zero leading coefficient of v returns (q,r) with u = q*v + r and deg r < deg v.", "quantifier": "every u, v", "why_tests_cant": "all degrees and leading coefficients", "anchors": ["scicpp/polynomials/polynomial.hpp: polydiv, detail::polydiv_impl"]}
{"id": "C58", "title": "polyder and polyint are derivative and antiderivative", "statement": "polyder(P) has the coefficients of P' in the storage convention used by polyval; polyint(P) is an antiderivative; polyder(polyint(P)) = P.", "quantifier": "every polynomial", "why_tests_cant": "all degrees", "anchors": ["scicpp/polynomials/polynomial.hpp: polyder, polyint"]}
{"id": "C59", "title": "polytrim does not change the polynomial", "statement": "polytrim(P, tol) removes only trailing coefficients with |c|<=tol; with tol 0 the polynomial function is unchanged; idempotent.", "quantifier": "every polynomial and tolerance", "why_tests_cant": "sign of trailing coefficients", "anchors": ["scicpp/polynomials/polynomial.hpp: polytrim"]}
{"id": "C60", "title": "polyfromroots vanishes exactly at the given roots", "statement": "polyfromroots(r) is monic of degree len(r) and its value at x is the product of (x-r_i).", "quantifier": "every root list", "why_tests_cant": "all lengths", "anchors": ["scicpp/polynomials/polynomial.hpp: polyfromroots"]}
{"id": "C61", "title": "Companion and Vandermonde matrices", "statement": "polyvander(x,deg)(i,j)=x_i^j for all 0<=j<=deg; the companion matrix of P has P's roots as eigenvalues (C^T v(r) = r v(r) with v(r)=(1,r,...,r^(n-1)) when P(r)=0).", "quantifier": "every x, deg, polynomial", "why_tests_cant": "all sizes", "anchors": ["scicpp/polynomials/polynomial.hpp: polyvander, polycompanion"]}
{"id": "C62", "title": "Text parsing maps file columns to values", "statement": "Reading a delimited text file yields, for every data line in order (after skiprows, comment lines excluded, at most max_rows), exactly the fields selected by usecols, in file order; empty fields do not shift later columns.", "quantifier": "every file content and option combination", "why_tests_cant": "all texts and option histories", "anchors": ["scicpp/core/io.hpp: detail::iterate_line, detail::iterate_file, loadtxt, TxtLoader"]}
{"id": "C63", "title": "savetxt/loadtxt round trip", "statement": "Data written by savetxt and read back with loadtxt using the same delimiter gives the same table of fields in the same order.", "quantifier": "every table whose printed fields are not empty, contain neither delimiter, newline nor NUL, and whose rows do not start with the comment character", "why_tests_cant": "all tables", "anchors": ["scicpp/core/io.hpp: savetxt, loadtxt"]}
{"id": "C64", "title": "Random generation is deterministic in the seed", "statement": "Random arrays depend only on the seed and the size; a longer request extends a shorter one (prefix property); successive calls do not return identical data unless re-seeded.", "quantifier": "every call history", "why_tests_cant": "histories", "anchors": ["scicpp/core/random.hpp: rand, randn, random"]}
{"id": "C65", "title": "lerp is exact at the ends and monotone", "statement": "lerp(a,b,t) = a+t(b-a); lerp(a,b,0)=a, lerp(a,b,1)=b; monotone in t; between a and b for t in [0,1]; all implementation branches agree. For two arrays of one length it does so element by element, keeping named arguments.", "quantifier": "every a,b,t", "why_tests_cant": "branch selection on signs", "anchors": ["scicpp/core/maths.hpp: lerp"]}
{"id": "C66", "title": "Interpolation depends on abscissae only through their relative position", "statement": "interp1d(x,y) rescales abscissae affinely to [0,1] with the smallest going to 0 and the largest to 1, and evaluates at the equally rescaled point: shifting and scaling all abscissae (by a positive factor) together with the query does not change the answer, and if the underlying spline passes through its data then interp1d(x,y)(x[i]) = y[i].", "quantifier": "every abscissae with max > min, every ordinates, every query, every affine change of units", "why_tests_cant": "all data sets and unit changes", "anchors": ["scicpp/core/interpolate.hpp: interp1d, detail::SplineFunction"]}
{"id": "C67", "title": "Waveforms stay in range", "statement": "sawtooth returns values in [-1,1], is periodic with period 2*pi, rises on the first width fraction of the period and falls on the rest, for every time; unit_impulse(n, idx) has exactly one 1, at idx, when idx < n and is zero otherwise.", "quantifier": "every t, duty cycle, width, length and index", "why_tests_cant": "all reals including negative times", "anchors": ["scicpp/signal/waveforms.hpp: sawtooth, unit_impulse"]}
{"id": "C68", "title": "Printing shows every element or summarises symmetrically", "statement": "print of an array of at most the threshold shows all elements in order; above it shows exactly edgeitems leading and trailing elements in order around an ellipsis.", "quantifier": "every array and print options", "why_tests_cant": "all lengths", "anchors": ["scicpp/core/print.hpp: print"]}
{"id": "C69", "title": "power by squaring computes x^n", "statement": "pow<n>(x)=x^n for every integer n (x invertible for negative n).", "quantifier": "every n, x", "why_tests_cant": "all n", "anchors": ["scicpp/core/maths.hpp: pow", "scicpp/core/units/maths.hpp: pow"]}
{"id": "C70", "title": "Inverse transforms undo the transforms", "statement": "ifft(fft(x)) = x and irfft(rfft(x)) = x (default and explicit length) for every signal; fft is linear, has one bin per sample and its first bin is the sum of the samples (exact arithmetic).", "quantifier": "every non-empty signal of either parity", "why_tests_cant": "all lengths and values", "anchors": ["scicpp/signal/fft.hpp: fft, ifft, rfft, irfft"]}
{"id": "C71", "title": "Unit definitions denote the units they are named after", "statement": "Every unit alias and literal (km/h, knot, mph, square/cubic imperial units, kWh, prefixed siemens, tonnes, force units, ...) has the dimension of its quantity and the scale of the product, quotient or power of the units it is named after; each derived quantity template passes its scale parameter through.", "quantifier": "every unit, every scale parameter, every value", "why_tests_cant": "tests compare a few literals, and some test expectations repeat the wrong scale", "anchors": ["scicpp/core/units/units.hpp: kilometer_per_hour, knot, teratonne, dyne", "scicpp/core/units/electromagnetism.hpp: electrical_conductivity", "scicpp/core/units/thermal.hpp: thermal_conductivity"]}
{"id": "C72", "title": "The encoding of physical dimensions is faithful", "statement": "For all products, quotients, powers and roots of base dimensions, the computed dimension type is the same if and only if the vectors of physical exponents are the same.", "quantifier": "every dimension expression, of any size", "why_tests_cant": "infinitely many dimension expressions", "anchors": ["scicpp/core/units/quantity.hpp: dimension, base_dimension, dimensional_system", "scicpp/core/units/units.hpp: DimSystem"]}
{"id": "C73", "title": "Mathematical functions of quantities respect units", "statement": "abs, fmax, hypot, fma, exp, sin of quantities denote the same function of the denoted base-unit values, whatever units the arguments are expressed in.", "quantifier": "every unit and every value", "why_tests_cant": "all scales and values", "anchors": ["scicpp/core/units/maths.hpp: fabs, fmax, hypot, fma, exp, sin, to_radian"]}
{"id": "C74", "title": "sweep_poly has the requested instantaneous frequency", "statement": "sweep_poly(t, P) is a cosine whose phase is 2*pi times an antiderivative of the polynomial P, so that its instantaneous frequency at every time t is P(t).", "quantifier": "every polynomial and every time", "why_tests_cant": "all polynomials and times", "anchors": ["scicpp/signal/waveforms.hpp: sweep_poly"]}
{"id": "C75", "title": "polyfit returns the least squares polynomial", "statement": "polyfit(x, y, deg) returns deg+1 coefficients that minimise the sum of squared residuals; data lying on a polynomial of that degree with more than deg distinct abscissae give its coefficients back.", "quantifier": "every data set and every degree", "why_tests_cant": "all data sets and degrees", "anchors": ["scicpp/polynomials/polynomial.hpp: polyfit", "scicpp/linalg/solve.hpp: lstsq"]}
{"id": "C76", "title": "Array operators act element by element", "statement": "array-scalar, scalar-array and array-array +, -, *, /, %, unary minus and the mask operators !, &&, || return the array whose i-th element is the operator applied to the i-th operands; arrays of different lengths are rejected; const operands are unchanged; % is the truncated remainder with the sign of the dividend.", "quantifier": "every array length, element value (floating point with special values, bounded integers) and value category of the operands", "why_tests_cant": "all arrays and values", "anchors": ["scicpp/core/numeric.hpp: operators::operator+, operator-, operator*, operator/, operator%, operator&&, operator||, operator!"]}
{"id": "C77", "title": "Geometric mean", "statement": "gmean(x) is the n-th root of the product of the n samples, lies between the smallest and the largest, is at most the arithmetic mean, scales with the data, is 0 when a sample is 0, NaN for no samples or a negative one; gmean(x, p) is the gmean of the samples passing p; the argument is only read.", "quantifier": "every array of samples and predicate (exact reals with infinities and NaN)", "why_tests_cant": "all arrays", "anchors": ["scicpp/core/stats.hpp: gmean, nangmean"]}
{"id": "C78", "title": "Automatic bin counts", "statement": "histogram_bin_edges<method>(x) returns equal bins from min to max (widened by 1/2 on both sides when they are almost equal) whose number is the textbook count of the method (ceil(sqrt n), ceil(2 n^(1/3)), ceil(log2 n + 1), Scott, Doane, Freedman-Diaconis and auto = max of FD and Sturges, falling back to one bin for zero widths); every sample then falls into a bin.", "quantifier": "every data set and method", "why_tests_cant": "all data sets", "anchors": ["scicpp/core/histogram.hpp: bin_width, histogram_bin_edges, BinEdgesMethod"]}
{"id": "C79", "title": "Box plots show the statistics of the data under the current options", "statement": "For every data (array or vector of samples) and every history of option calls, boxplot draws for the i-th data set at abscissa i+1 the median, quartiles, whiskers at median +- whis*iqr, the samples outside the whiskers as fliers and the mean, as the last call of each option says; the quartiles enclose the median; for whis >= 1 every flier is outside the box; capwidths(w) sets the cap widths.", "quantifier": "every data, every history of calls", "why_tests_cant": "all data and call histories", "anchors": ["scicpp/plots/boxplot.hpp: detail::boxplot, data_stats, boxplot"]}
{"id": "C80", "title": "Plots draw the given curves with the options of the last calls", "statement": "plot(x, y...) followed by any history of calls draws exactly the given curves in order; curve j has the colour of the last color() call or the j-th default colour (cyclically), the label of the last label()/labels() call, and the grid of the last display_grid(); all curves must have the length of the abscissae; the logarithmic scale of hist follows the last log() call; the csd plot of a signal with itself is its psd plot.", "quantifier": "every number of curves, every data and history of calls", "why_tests_cant": "all call histories", "anchors": ["scicpp/plots/plot.hpp: detail::plot", "scicpp/plots/hist.hpp: detail::histplot::log", "scicpp/plots/spectrum.hpp: csd, psd", "scicpp/plots/utils.hpp: marker"]}
{"id": "C81", "title": "Fields of arrays of tuples", "statement": "get_field<I>(a) and the components of unpack(a) have one entry per tuple, in order; unpacking loses no information; selection by type works exactly when the type is unique.", "quantifier": "every array length, number and type of components", "why_tests_cant": "all arrays and tuple types", "anchors": ["scicpp/core/tuple.hpp: get_field, unpack"]}
{"id": "C82", "title": "Conversions between containers and Eigen vectors", "statement": "A vector converted to an Eigen vector has the same elements in the same order and converts back to itself; an explicit size selects the first elements and is never larger than the vector; to_std_container of a matrix lists element (i,j) at i + j*rows.", "quantifier": "every vector of less than 2^31 elements, every size, every matrix", "why_tests_cant": "all sizes", "anchors": ["scicpp/linalg/utils.hpp: to_eigen_matrix, to_eigen_array, to_std_container"]}
{"id": "C83", "title": "Complex quantities", "statement": "Products, quotients, sums, abs, arg and polar of complex quantities denote the complex operations on the base-unit values: abs keeps the unit, arg is an angle, polar(abs(z), arg(z)) is z again for angles in any unit; a second argument of polar that is not an angle, or the exponential of a dimensional quantity, is rejected.", "quantifier": "every complex quantity of any dimension and unit", "why_tests_cant": "all values and units", "anchors": ["scicpp/core/units/quantity.hpp: operators", "scicpp/core/units/maths.hpp: abs, arg, polar, exp"]}
{"id": "C84", "title": "Rounding functions of quantities", "statement": "floor, ceil, trunc and round of a quantity keep the unit and return the whole number of units that is the largest not above, the smallest not below, the nearest towards zero, the nearest; the result depends on the unit the quantity is expressed in only when it must.", "quantifier": "every quantity value and unit", "why_tests_cant": "all values and units", "anchors": ["scicpp/core/units/maths.hpp: floor, ceil, trunc, round"]}
{"id": "C85", "title": "Physical and mathematical constants", "statement": "Every physical constant has its SI dimension and is expressed in SI units; its value is the CODATA 2018 recommended value (up to the rounding of the recommended value) in exact arithmetic and, for T = double and float, up to the precision of T; the defining relations (mu0*eps0*c^2 = 1, K_J*Phi0 = 1, R_K = h/e^2, ...) hold; pi, e, Euler's constant and Apery's constant zeta(3) are correct to more digits than double holds.", "quantifier": "every constant, every floating point type T", "why_tests_cant": "every instantiation type", "anchors": ["scicpp/core/constants.hpp: pi, e, euler_gamma, apery_cst, physical_constants"]}
{"id": "C86", "title": "Vectorised functions", "statement": "A function made by vectorize, and sin, cos, exp, ... of maths.hpp, applied to a scalar gives the function value, applied to an array the array of function values in order, applied to two arrays of equal length the element-wise values; pow broadcasts scalars over arrays; the arguments keep their contents.", "quantifier": "every functor, every scalar or array of any length and value category", "why_tests_cant": "all arrays, value categories and functor lifetimes", "anchors": ["scicpp/core/functional.hpp: vectorize", "scicpp/core/maths.hpp: sin, cos, pow, fabs, hypot"]}
{"id": "C87", "title": "NaN-ignoring and trimmed statistics", "statement": "nanmean, nanvar, nanstd, nansem, nanmedian, nanquantile, nanpercentile, naniqr give the statistic of the elements that are not NaN; tmean, tvar, tstd, tsem the statistic of the elements within the limits (each limit included or not); the trimmed mean lies between the limits; without NaN the nan variants agree with the plain ones.", "quantifier": "every array of any length with NaNs anywhere, every pair of limits, ddof and interpolation", "why_tests_cant": "all arrays and positions of rejected elements", "anchors": ["scicpp/core/stats.hpp: nanmean, tmean, nanvar, tvar, nanstd, tstd, nansem, tsem, nanmedian, nanquantile, nanpercentile, naniqr", "scicpp/core/functional.hpp: filters::Trim, filters::not_nan"]}
{"id": "C88", "title": "Rounding errors of the reductions", "statement": "In floating point, with every operation rounded to relative error u, the computed mean, inner product, cumulative sum, polynomial value, direct convolution, trapezoidal rule, covariance and variance of finite data are finite and differ from the exact value by at most ((1+u)^k - 1) times the same expression of the magnitudes, where k is a small constant plus a multiple of ceil(log2 n) for the blocked reductions (mean, inner, trapz, covariance, variance), the number of terms for convolve and cumsum, and the number of coefficients for polyval.", "quantifier": "every array of finite values of any length, every rounding with bounded relative error", "why_tests_cant": "all arrays and roundings", "anchors": ["scicpp/core/stats.hpp: mean, covariance, var", "scicpp/core/numeric.hpp: sum, inner, cumsum, trapz", "scicpp/polynomials/polynomial.hpp: polyval", "scicpp/signal/convolve.hpp: convolve"]}
{"id": "C89", "title": "Signs, order and exact scaling in floating point", "statement": "In floating point, NaN and infinities included: the sum and mean of non-negative values, the inner product of an array with itself and every variance are never negative; sum and mean are monotone in every element; cumulative sums of non-negative values never decrease; a first difference has the sign of the exact one; negating the data or multiplying it by a power of two changes sum, mean, inner product, covariance and variance by exactly that factor.", "quantifier": "every array of floating point values of any length, every filter, every sign and power of two", "why_tests_cant": "all arrays and factors", "anchors": ["scicpp/core/stats.hpp: mean, covariance, var", "scicpp/core/numeric.hpp: sum, inner, cumsum, diff"]}
{"id": "C90", "title": "Symmetry and range in floating point", "statement": "In floating point inner(a, b) = inner(b, a) and covariance(x, y) = covariance(y, x) exactly, the mean of an array lies between its least and its greatest element, and the variance of a constant array is zero.", "quantifier": "every array of floating point values of any length", "why_tests_cant": "all arrays", "anchors": ["scicpp/core/stats.hpp: mean, covariance, var", "scicpp/core/numeric.hpp: inner"]}
{"id": "C91", "title": "Special values in the reductions", "statement": "In floating point the sum (with or without a filter, also nansum), the mean and each cumulative sum of data with NaN and infinities is NaN exactly when the accepted elements contain a NaN or infinities of both signs, infinite exactly when they contain infinities of one sign only, finite exactly when they are all finite; covariance and variance are NaN when an accepted element is NaN or infinite.", "quantifier": "every array of any length with NaNs and infinities anywhere, every filter and rounding", "why_tests_cant": "all arrays and positions of special values", "anchors": ["scicpp/core/stats.hpp: mean, covariance, var", "scicpp/core/numeric.hpp: sum, nansum, cumsum"]}
{"id": "C92", "title": "linspace in floating point", "statement": "In floating point linspace(start,stop,n) has n elements, the first is exactly start, the last exactly stop, the elements never decrease when start <= stop, and each is within a few units of rounding of the exact value.", "quantifier": "every n representable, every start and stop, every rounding with bounded relative error", "why_tests_cant": "all values", "anchors": ["scicpp/core/range.hpp: linspace"]}
{"id": "C93", "title": "Rounding errors in IEEE arithmetic with overflow and underflow", "statement": "In IEEE double (float) arithmetic with overflow to infinity and gradual underflow, whenever the sum, filtered sum, mean, inner product, cumulative sum or polynomial value of finite representable data comes out finite it differs from the exact value by at most ((1+u)^k - 1) times the same expression of the magnitudes, plus one half of the smallest number for each product or division (none for sums); and it is finite whenever the sum of the magnitudes, enlarged by (1+u)^k, is below the overflow threshold.", "quantifier": "every array of finite representable values of any length, every filter, every binary format", "why_tests_cant": "all values and lengths", "anchors": ["scicpp/core/numeric.hpp: sum, inner, cumsum", "scicpp/core/stats.hpp: mean", "scicpp/polynomials/polynomial.hpp: polyval"]}
{"id": "C94", "title": "No spurious overflow", "statement": "The mean of finite doubles and every element of linspace(start, stop, n) between finite doubles is a finite double close to the exact value, which is itself in range.", "quantifier": "every finite representable data, start, stop and n", "why_tests_cant": "all values", "anchors": ["scicpp/core/stats.hpp: mean", "scicpp/core/range.hpp: linspace"]}
{"id": "C95", "title": "Integer reductions and overflow", "statement": "sum, prod, mean, cumsum, cumprod and diff of signed integers are exact (mean truncated towards zero) and are defined exactly when the value of every initial segment of the accepted elements (every difference of order up to n for diff) is representable; inner/dot/vdot is exact when defined, and defined whenever the absolute values of the products add up to a representable number; median is the middle element, or half the sum of the two middle elements, defined exactly when that sum is representable.", "quantifier": "every integer range, every array of any length, every filter, every category, every correct nth_element", "why_tests_cant": "all values, orders and lengths", "anchors": ["scicpp/core/functional.hpp: filter_reduce_associative, cumacc", "scicpp/core/numeric.hpp: sum, prod, cumsum, cumprod, diff, inner", "scicpp/core/stats.hpp: mean, median"]}
{"id": "C96", "title": "Window visualisation", "statement": "winvis draws, for every window whose samples do not add up to zero, its frequency response at the frequencies k/(11N) relative to the response at zero, in decibels (0 dB at zero, never above 0 dB for non-negative windows, independent of the scale of the window), with as many values as frequencies, and reports as 3 dB width four times the frequency of the lowest bin closest to -3 dB among the bins of at least -3 dB; windows of different sizes violate a requirement.", "quantifier": "every number of windows, every size and every sample values", "why_tests_cant": "all windows and sizes", "anchors": ["scicpp/plots/winvis.hpp: winvis, window_spectrum_db, mainlobe_width"]}
{"id": "C97", "title": "Saved floating point numbers read back", "statement": "A table of doubles written with savetxt and read with loadtxt comes back with the same shape and its numbers to six significant digits: NaN and infinities come back as themselves, every finite number comes back as the double nearest to a decimal of six significant digits nearest to it, hence unchanged when it is the double nearest to a decimal of at most six digits (in the normal range), otherwise changed by a relative error of at most 5.0001e-6; saving again what was loaded gives the same text (double and float, normal range); the parts of complex numbers come back within half a millionth.", "quantifier": "every double, every table of any size, every delimiter and comment character not used in numbers", "why_tests_cant": "all numbers and tables", "anchors": ["scicpp/core/io.hpp: savetxt, loadtxt, to_number, detail::format"]}
{"id": "C98", "title": "The text of printed numbers", "statement": "For every finite number and every precision of at least one, what print/println shows reads back as the number rounded to the precision: in fixed notation a nearest multiple of 10^-p, in scientific notation a nearest decimal of p+1 digits (blanks written in place of trailing zeros do not change it), in a field of at least twelve characters; NaN and infinities are shown as the strings of the options; a complex number as real part, sign, magnitude and j, a tuple as all components in order; scientific notation is used for a whole array exactly when some finite non-zero magnitude is below 1E-4 or the ratio of two exceeds 1000.", "quantifier": "every number, precision, array of any length up to the threshold, all options", "why_tests_cant": "all numbers, precisions and arrays", "anchors": ["scicpp/core/print.hpp: print, println, detail::ElementFormater, detail::use_scientific_notation"]}
{"id": "C99", "title": "Compile-time roots in floating point", "statement": "For every N and every non-negative double x, ct_root<N>(x) returns, and returns the N-th root of x to within a few units of rounding (x itself for N = 1, 0 for 0); NaN for negative x.", "quantifier": "every N and every double", "why_tests_cant": "all N and all numbers", "anchors": ["scicpp/core/units/arithmetic.hpp: ct_root, detail::root_newton_raphson, eval"]}
{"id": "C100", "title": "Comparing floating point quantities", "statement": "Comparing finite floating point quantities in two units without offset (numerators times denominators representable) never contradicts the amounts: what is reported as smaller is smaller, equal amounts compare equal, exactly one of <, == and > holds, reports over three units are never cyclic; amounts further apart than the rounding of two products (of two products and sums for units with an offset) are compared correctly when nothing overflows; within one type < is a strict weak order, NaN is never == or <, and in the base unit the comparison is that of the numbers.", "quantifier": "every pair of units, every finite value of every IEEE format of at least 24 bits", "why_tests_cant": "all units and values", "anchors": ["scicpp/core/units/quantity.hpp: quantity::operator==, operator!=, operator<, operator<=, operator>, operator>="]}
{"id": "C101", "title": "Converting and adding floating point quantities", "statement": "A conversion between units of equal offset is within two roundings of the exact one, exact when the ratio of the units and the result are representable, monotone, the identity for the same unit, within four roundings of the start after a round trip; with different offsets, and for eval(), within three roundings; sums and differences in different units are in the common unit and within two roundings of each term, exact for whole numbers of common units; a quantity and its conversion are almost_equal<k> for every k >= 7.", "quantifier": "every pair of units (rational scales), every finite value of every IEEE format of at least 24 bits", "why_tests_cant": "all units and values", "anchors": ["scicpp/core/units/quantity.hpp: quantity_cast, quantity::quantity, operator+, operator-, eval", "scicpp/core/equal.hpp: almost_equal"]}
{"id": "C102", "title": "Histories of updates of a quantity", "statement": "After any sequence of +=, -=, *=, /=, ++ and -- a quantity keeps its unit, denotes the amount obtained by performing the updates on amounts, and every expression has returned the new amount (the old one for x++ and x--); the inverse sequence restores the quantity (exact arithmetic); a += b and a -= b agree with a + b and a - b for every representation type; counting with ++ in double is exact up to 2^53.", "quantifier": "every unit, every sequence of updates of any length", "why_tests_cant": "all histories", "anchors": ["scicpp/core/units/quantity.hpp: quantity::operator+=, operator-=, operator*=, operator/=, operator++, operator--"]}
{"id": "C103", "title": "Comparing arrays of every value category", "statement": "equal, not_equal, less, less_equal, greater and greater_equal compile for named, const and temporary arrays alike, give the array of element comparisons (sizes must agree), and leave named arguments unchanged.", "quantifier": "every combination of value categories and containers, arrays of any length, element type bool and others", "why_tests_cant": "all categories", "anchors": ["scicpp/core/numeric.hpp: equal, not_equal, less, less_equal, greater, greater_equal", "scicpp/core/functional.hpp: map"]}
{"id": "C104", "title": "Chains of configuration calls", "statement": "x.s1(..).s2(..)...sk(..) configures: its value has all settings applied in order, and so has x afterwards; no other object is changed; a program of such statements leaves every object with the settings last given to it.", "quantifier": "every class with setters (Spectrum, TxtLoader, TxtSaver, plots), every program of configuration statements on any number of objects", "why_tests_cant": "all programs", "anchors": ["scicpp/signal/spectral.hpp: Spectrum::fs, noverlap, nthreads, window", "scicpp/core/io.hpp: TxtLoader, TxtSaver", "scicpp/plots/plot.hpp: plot", "scicpp/plots/hist.hpp: hist", "scicpp/plots/boxplot.hpp: boxplot"]}
{"id": "C105", "title": "Saver and loader objects", "statement": "TxtLoader::load uses the options last given; it returns the columns (one per data type, entry i of column j being field j of row i) or, packed, the rows; load_vector returns the same values row after row with the number of columns; columns of numbers saved by a TxtSaver and loaded by a TxtLoader with the same delimiter come back (ints unchanged, doubles to six digits).", "quantifier": "every sequence of setter calls, file, number of columns and rows", "why_tests_cant": "all histories and files", "anchors": ["scicpp/core/io.hpp: TxtLoader::load, TxtLoader::load_vector, TxtSaver::save"]}
{"id": "C106", "title": "Quantity traits", "statement": "is_<quantity><T> (is_length, is_energy, is_voltage, ...) holds for a quantity type exactly when the physical exponents of its dimension are those of the quantity in the SI, whatever its scale and offset and however the dimension was formed by products, quotients, powers and roots; a complex number is classified by its value type; anything that is not a quantity is rejected; every alias passes its own trait.", "quantifier": "every trait, every dimension expression of any depth, every scale and offset", "why_tests_cant": "all expressions and scales", "anchors": ["scicpp/core/units/units.hpp: is_length, is_time, is_mass, ...", "scicpp/core/units/electromagnetism.hpp: is_voltage, is_current_noise_density, ...", "scicpp/core/units/quantity.hpp: is_same_dimension"]}
{"id": "C107", "title": "Numeric limits of quantities", "statement": "In every unit without offset numeric_limits<quantity> are the extremes: no finite quantity compares above max() or below lowest(), no positive one below denorm_min(), no positive normal one below min(), no quantity above one compares below one plus epsilon(); infinity() is strictly above every finite quantity; quiet_NaN() neither equals nor is ordered with anything, itself included.", "quantifier": "every unit without offset whose scale is exactly representable, every finite value of every IEEE format", "why_tests_cant": "all units and values", "anchors": ["scicpp/core/units/maths.hpp: std::numeric_limits<quantity>", "scicpp/core/units/quantity.hpp: quantity::operator==, operator<"]}
{"id": "C108", "title": "Concatenation expressions", "statement": "Every expression built from named, moved and temporary arrays and vectors with | and concatenate(a1, ..., an) compiles and yields the contents of its operands from left to right, whatever the grouping and the order of evaluation; operands that are not moved keep their contents.", "quantifier": "every expression tree of any shape and depth, every mix of std::array and std::vector, every evaluation order, moved objects used once", "why_tests_cant": "all expression trees and value categories", "anchors": ["scicpp/core/manips.hpp: concatenate, operators::operator|"]}
{"id": "C109", "title": "Medians and quantiles in floating point", "statement": "On finite floating point data and for every selection algorithm, median is the middle element or the correctly rounded midpoint of the two middle ones, finite and within the range of the data; quantile and percentile are defined for every probability in range and every interpolation mode, lie between the two elements next to the position q (n - 1), equal the extremes at 0 and 1, return elements of the data in the LOWER, HIGHER and NEAREST modes, follow the piecewise linear curve through the sorted data in the LINEAR mode, and never decrease when the probability increases.", "quantifier": "every finite array of any length, every probability, every mode, every behaviour of nth_element, the rounding of the type", "why_tests_cant": "all arrays and probabilities", "anchors": ["scicpp/core/stats.hpp: median, detail::median_inplace, quantile, detail::quantile_inplace, quantile_interp_index, percentile"]}
{"id": "C110", "title": "Integer polynomials and convolutions", "statement": "With signed integer coefficients polyval, polyadd, polysub, polymul, convolve, polyder and polyint return the exact polynomial values and coefficients whenever these and the intermediate values are representable, and are otherwise undefined; polyint returns an antiderivative.", "quantifier": "every list of coefficients of any length, every point, every signed integer type", "why_tests_cant": "all coefficients and points, overflow depends on every intermediate value", "anchors": ["scicpp/polynomials/polynomial.hpp: polyval, polyadd, polysub, polymul, polyder, polyint", "scicpp/signal/convolve.hpp: detail::direct_convolve_impl"]}
{"id": "C111", "title": "Histograms in floating point", "statement": "With bins accepted by the requirements, counting with computed indices never leaves the bins and counts no sample twice, whatever the samples (NaN, infinities); NaN and -infinity are not counted; larger samples never go to smaller bins; a sample goes to the bin of its position (x - front) / step up to two roundings; every sample between the first and the last edge is counted; the density bars integrate to one up to rounding.", "quantifier": "every floating point format, every sorted list of bins, every list of samples of any length", "why_tests_cant": "all samples, bins and roundings", "anchors": ["scicpp/core/histogram.hpp: histogram, almost_equal, outer_edges, histogram_bin_edges"]}
{"id": "C112", "title": "Logarithmic, stepped and long ranges in floating point", "statement": "logspace(start, stop, n, base) raises base to exponents that start exactly at start, never decrease for start <= stop and are equally spaced up to rounding, the last being stop; arange(start, stop, step) lists the correctly rounded start + i step of the half-open interval, none beyond stop and none missing; every element of a linspace of any length is at its position.", "quantifier": "every rounding, all ends, steps and lengths, any pow", "why_tests_cant": "all lengths and roundings; the long ranges have 2^24 elements or more", "anchors": ["scicpp/core/range.hpp: logspace_filler, logspace, arange, linspace_filler"]}
{"id": "C113", "title": "Ranges of quantities", "statement": "linspace, logspace and arange of quantities of one type have the values of the same range of the stored numbers, in the same unit, for every unit and every arithmetic; arguments of different types are rejected.", "quantifier": "every unit with a rational scale, all ends and lengths, exact, rounded and IEEE arithmetic", "why_tests_cant": "all units, ends and lengths", "anchors": ["scicpp/core/range.hpp: linspace, logspace, arange", "scicpp/core/units/quantity.hpp: quantity::operator++, operator+, operator-, operator<"]}
{"id": "C114", "title": "Filters and classification of floating point numbers", "statement": "isnan, isinf, isfinite and isnormal agree with the numeric limits of the type for every value; positive, strictly_negative and is-NaN (strictly_positive, negative and is-NaN) split every array without loss or duplication, in order; not_zero accepts everything but zero, NaN included; Trim accepts the values between its limits and never NaN; a complex number is NaN when one of its parts is.", "quantifier": "every format, every value (NaN, infinities, subnormals), every array of any length", "why_tests_cant": "all values and arrays", "anchors": ["scicpp/core/functional.hpp: filters::not_nan, not_zero, strictly_positive, positive, strictly_negative, negative, Trim, filter", "scicpp/core/units/maths.hpp: isnan, isinf, isfinite, isnormal"]}
{"id": "C115", "title": "Integers in floating point are added and multiplied without error", "statement": "On data that are integers (or multiples of one power of two) sum, inner, cumsum, diff of any order, convolve, polymul and polyval at an integer give exactly the mathematical result, and mean the correctly rounded one, as long as the magnitudes add up to at most 2^53 (2^24 in float), whatever the length of the data and the blocking.", "quantifier": "every list of multiples of 2^k, every k in the range of the format, every format", "why_tests_cant": "all data, orders and lengths", "anchors": ["scicpp/core/numeric.hpp: sum, inner, cumsum, diff", "scicpp/core/stats.hpp: mean", "scicpp/signal/convolve.hpp: detail::direct_convolve_impl", "scicpp/polynomials/polynomial.hpp: polyval, polymul"]}
{"id": "C116", "title": "Windows in floating point", "statement": "In every floating point type the windows are available, have no NaN, read the same in both directions and have their samples between 0 and 1 (boxcar, bartlett, hann, hamming, blackman, parzen, kaiser, gaussian), whatever rounding errors the library functions make inside their range; the samples of bartlett and of the cosine sums are within a few roundings of the textbook values.", "quantifier": "every number of points, every format, every parameter, every cosine, exponential, square root and Bessel function with the usual ranges", "why_tests_cant": "all sizes, parameters and roundings of the library functions", "anchors": ["scicpp/signal/windows.hpp: bartlett, general_cosine, general_hamming, hann, hamming, blackman, gaussian, kaiser, parzen, get_window"]}
{"id": "C117", "title": "Distance of floating point windows from the textbook", "statement": "Every sample of the cosine, bohman, lanczos, gaussian, general_gaussian, parzen, kaiser and tukey windows is within an explicit bound of the textbook value, of the size of the rounding error u, the errors of the library functions and of pi, and independent of the number of points; tukey samples stay between 0 and 1.", "quantifier": "every number of points, symmetric and periodic, every parameter, every rounding, all library functions with a given accuracy", "why_tests_cant": "all sizes and parameters, real-valued textbook formulas", "anchors": ["scicpp/signal/windows.hpp: cosine, bohman, lanczos, gaussian, general_gaussian, parzen, kaiser, tukey", "scicpp/core/units/maths.hpp: sinc"]}
{"id": "C118", "title": "Spectra in floating point", "statement": "With any number of threads and any schedule, welch returns for every bin the mean power of the transformed segments, scaled, up to n + 7 relative rounding errors (n segments), nonnegative for a positive scaling; csd the mean cross power with an error of the same order relative to the geometric mean of the two powers; tfestimate likewise; coherence is NaN exactly where one of the powers is zero and elsewhere a nonnegative number within 5n + 29 rounding errors of the exact coherence, which lies between 0 and 1.", "quantifier": "every transform (any function), window, overlap, scaling, pair of signals of one kind and size, order of accumulation and rounding", "why_tests_cant": "all signals, schedules and roundings", "anchors": ["scicpp/signal/spectral.hpp: Spectrum::welch, csd, coherence, tfestimate, compute_spectrum, welch_impl, welch2_impl, normalize"]}
{"id": "C119", "title": "Frequencies in floating point", "statement": "fftfreq(n, d) and rfftfreq(n, d) in floating point list every k/(n d) up to two rounding errors; bin 0 is exactly 0, opposite bins are exactly opposite, rfftfreq agrees bit for bit with the nonnegative half of fftfreq, and the frequencies are strictly increasing, as long as n + 1 < 1/u.", "quantifier": "every n, every spacing d > 0, every odd rounding with relative error u", "why_tests_cant": "all lengths and spacings", "anchors": ["scicpp/signal/fft.hpp: fftfreq_impl, rfftfreq_impl, fftfreq, rfftfreq"]}
{"id": "C120", "title": "Expressions of quantities", "statement": "Whenever an expression of numbers and quantities (sums, differences, products, quotients, powers, roots, conversions, abs, fmax, fmin, hypot) compiles, its type has the dimension that dimensional analysis gives and its amount in base units is the expression evaluated on the amounts, whatever units the variables and intermediate results are in; an inconsistent expression does not compile; every expression that compiles is homogeneous under a change of base units; a consistent expression of sums, differences, products, quotients, powers, abs and conversions of quantities whose dimensions are whole powers compiles, provided sums and conversions do not mix numbers and quantities.", "quantifier": "every expression of any depth, every unit without offset, every value", "why_tests_cant": "all programs built from the operators", "anchors": ["scicpp/core/units/quantity.hpp: operator+, operator-, operator*, operator/, root, quantity_cast", "scicpp/core/units/maths.hpp: pow, sqrt, cbrt, abs, fmax, fmin, hypot"]}
{"id": "C121", "title": "64-bit compile-time unit arithmetic", "statement": "The library computes the dimensions and scales of units in 64-bit integers at compile time. An expression that compiles has exactly the type that exact arithmetic gives, and every unit, power, product, quotient, root, sum or conversion whose resulting ratio, in lowest terms, fits in 64 bits compiles.", "quantifier": "every unit expression, every pair of units, every power and root", "why_tests_cant": "all ratios up to 2^63 and all expressions", "anchors": ["scicpp/core/units/arithmetic.hpp: power, prime_factors, compute_root, root_ratio_root_impl, root_ratio_multiply_impl, root_ratio_power_impl, common_root_ratio", "scicpp/core/units/quantity.hpp: common_quantity_t, quantity_cast"]}
{"id": "C122", "title": "Polynomial algebra in floating point", "statement": "In rounded arithmetic with relative error u per operation (no overflow or underflow), polyadd and polysub return the correctly rounded sums and differences; polypow(P, n) has the coefficients of P^n up to (1+u)^(n(n deg P+2))-1 times those of |P|^n; polyfromroots has the coefficients of the product of the x - r up to (1+u)^(2N)-1 times those of the product of the x + |r|, so that evaluating it at one of its roots gives at most ((1+u)^(3N+1)-1) times the product of the |x|+|r|; m-fold polyder and polyint have relative error (1+u)^m-1 per coefficient (with respect to what exact arithmetic returns, C58); polydiv is backward stable: the quotient and remainder are exact (in the sense of C57) for a dividend perturbed coefficientwise by 1/(1-u)^(min(n, m-n+1)+3)-1 times the same combination of absolute values.", "quantifier": "every polynomial, power, number of roots, order and rounding function", "why_tests_cant": "all coefficients, degrees and roundings", "anchors": ["scicpp/polynomials/polynomial.hpp: polyadd, polysub, polypow, polyfromroots, polyval, polyder, polyint, polydiv, polydiv_impl"]}
{"id": "C123", "title": "Interpolation in floating point", "statement": "On finite floating point data interp1d rescales the smallest abscissa exactly to 0, the largest exactly to 1 and the others, in order, into [0,1] with relative error (1+u)^2/(1-u)-1, and rescales a query by the same function; distinct abscissae stay distinct, so that with a spline through its data interp1d(x,y)(x[i]) is exactly y[i], also for float queries; shifting the abscissae and the query exactly, or scaling them, does not change the answer.", "quantifier": "every finite data set and query, every rounding function", "why_tests_cant": "all abscissae and roundings", "anchors": ["scicpp/core/interpolate.hpp: interp1d, SplineFunction, scaled_value, scaled_values"]}
{"id": "C124", "title": "Operator overload resolution", "statement": "For two operands that are numbers, complex numbers, quantities, complex quantities or arrays of these nested to any depth, C++ overload resolution among the operators * and / of the library and of <complex> either selects one operator or none, except that two quantities with different representation types, or whose right operand has an offset unit, are ambiguous; the product or quotient, when it compiles, has the product or quotient of the units; without offsets it compiles unless a complex number meets a real quantity or complex operands have different representation types, and its type does not depend on the order (two scalars); a scalar times an array of arrays and an array of arrays over a scalar compile, an array of arrays times a scalar on the right and two arrays of arrays do not; value categories matter only when a complex quantity meets an array (a const array does not compile). The binary map writes into an operand only if that operand is an rvalue of the result type; the unary map leaves the argument alone only if it is const.", "quantifier": "every pair of operand types of any nesting depth, every unit, every value category and constness", "why_tests_cant": "all instantiations of the templates", "anchors": ["scicpp/core/units/quantity.hpp: operator*, operator/", "scicpp/core/numeric.hpp: operators::operator*, operators::operator/", "scicpp/core/functional.hpp: map"]}
{"id": "C125", "title": "Expressions of arrays", "statement": "An expression of named arrays built from the operators and vectorised functions of the library, in which no operator has an operand that overwrites an array that the other operand reads, evaluates, whatever order the compiler evaluates operands in, to the element by element value of the contents the arrays had before; arrays that it does not overwrite keep their contents and overwritten vectors are empty afterwards. An array is overwritten when it is not const and the direct operand of a unary operator, a scalar operator or a vectorised function that keeps the element type, or when it is moved and its storage reused. For vectors that are not empty the condition is also necessary: an expression that violates it is undefined in some order of evaluation.", "quantifier": "every expression of any depth, every assignment of arrays of equal size, const or not, vector or std::array, every order of evaluation", "why_tests_cant": "all expressions and all evaluation orders", "anchors": ["scicpp/core/numeric.hpp: operators::operator-, operator!, operator+, operator*, operator/", "scicpp/core/functional.hpp: map, vectorize"]}
{"id": "C126", "title": "Moments, skewness, kurtosis, standard error and weighted average in floating point", "statement": "In rounded arithmetic, NaN and infinities included, multiplying the data by +-2^k multiplies every central moment of order n by (+-2^k)^n and the standard error by 2^k, leaves both kurtoses unchanged and gives the skewness the sign of the factor, all bit for bit; average(c f, d w) is c average(f, w) bit for bit for c = +-2^j, d = 2^k; even moments and Pearson's kurtosis are never negative and Fisher's is never below -3; a moment of order n >= 3 of N finite numbers is finite and within ((1+u)^(L+n(L+5))-1) times the mean of (|x|+mean|x|)^n of the exact one, L = 65+ceil(log2 N).", "quantifier": "every array of floating point numbers of any length, every order n, every k, every filter that does not look at scale factors, every rounding function", "why_tests_cant": "all arrays, orders and roundings", "anchors": ["scicpp/core/stats.hpp: moment, kurtosis, skew, sem, average", "scicpp/core/units/maths.hpp: pow"]}
{"id": "C127", "title": "Units with an offset", "statement": "An expression of quantities and numbers whose units may have an offset (degrees Celsius, Fahrenheit) compiles exactly when it compiles with all offsets replaced by 0 and its offsets obey the rules: operands of + - fmax fmin hypot have the same offset, right operands of * and / between quantities have offset 0; numbers leave the offset alone, products, quotients, inverses, powers and roots have offset 0. Its value is the same expression of the readings (what the scale shows): offsets enter only in conversions, which add the difference of the offsets in units of the target. So +, -, unary -, * and / give what the operation gives on the absolute values exactly when the offset is 0 (20 C - 10 C is a temperature of 10 C, that is 283.15 K), weighted means, fmax and fmin for every offset, and abs when the value is neither negative nor below the offset.", "quantifier": "every expression of any depth, all units with any dimension, scale and offset, all real values", "why_tests_cant": "all expressions, units and values", "anchors": ["scicpp/core/units/quantity.hpp: quantity_cast, common_quantity_t, operator+, operator-, operator*, operator/, inv, root", "scicpp/core/units/maths.hpp: abs, fmax, fmin, hypot, pow"]}
{"id": "C128", "title": "Statistics of quantities", "statement": "On arrays of quantities whose units have rational scales: sum, mean, median, ptp and the central moments of order 3 and more compile for every unit, variance, standard deviation, standard error, kurtosis and skewness exactly for units without an offset, the covariance exactly when neither unit has one, the weighted average with quantities as weights likewise, the covariance matrix only for equal dimensions. In exact arithmetic the mean, converted to the base unit with the zero point, is the mean of the converted values (also in degrees Celsius); covariance, variance, standard deviation, standard error, weighted average and moments of order n >= 2 have the product, square, first, first, first and n-th power of the unit and, converted to base units, are those of the data in base units; kurtosis and skewness are dimensionless with scale 1 and do not depend on the unit. In rounded arithmetic changing the unit by a power of two commutes bit for bit with all of them, and the mean is within (1+u)^(66+ceil(log2 N))-1 times the mean of the absolute values. Not claimed, because false: moment<0> is 1 (it is 1 in the unit of the data), ptp of Celsius temperatures is a temperature difference, the mean of quantities is bit for bit the mean of their values (a quantity is divided by a number by multiplying with its reciprocal: the mean of 49 times 1 m is less than 1 m).", "quantifier": "every unit with a rational scale and any dimension and offset, every array of any length, every order n and number of degrees of freedom, every rounding function", "why_tests_cant": "all units, arrays and roundings", "anchors": ["scicpp/core/stats.hpp: mean, covariance, var, std, sem, moment, kurtosis, skew, cov, ptp, average, median", "scicpp/core/units/quantity.hpp: operator/, operator+, operator-, operator*", "scicpp/core/units/maths.hpp: pow, sqrt", "scicpp/core/functional.hpp: filter_reduce"]}
{"id": "C129", "title": "Spectra of quantities", "statement": "For signals whose elements are numbers, complex numbers, quantities or complex quantities (units with rational scales): welch and periodogram compile exactly when the representation is that of the object, the unit has no offset and the signal is complex or the representation is double; the power spectrum of a signal in the unit U has the unit U^2, the density U^2 s, the cross spectrum of units U and V has U V or U V s, the coherence is dimensionless with scale 1, the transfer function has the unit V/U. In exact arithmetic the numbers returned, converted to base units, are the spectra, cross spectra and transfer function of the data in base units, and the coherence does not depend on the units. fs accepts numbers and frequencies only, and stores hertz whatever the unit. In rounded arithmetic the coherence of two signals with units and the transfer function between equal units are bit for bit those of the numbers; between different units the transfer function is computed with the reciprocal of the spectrum and stays within 1/(1-u)^(2n+12)-1 times the root of the ratio of the powers, NaN where the power is zero. Not claimed, because false: spectra of real signals with T = float (they do not compile), transfer functions of different units bit for bit those of the numbers, cross spectra of Celsius temperatures with numbers have a unit without offset.", "quantifier": "every unit with a rational scale and any dimension and offset, real and complex elements, every scaling, every signal of any length, every valid configuration, every rounding function and order of accumulation", "why_tests_cant": "all units, signals, roundings and schedules", "anchors": ["scicpp/signal/spectral.hpp: Spectrum::fs, welch, periodogram, csd, coherence, tfestimate, normalize, detail::element_type", "scicpp/core/units/quantity.hpp: representation_t, quantity_multiply, quantity_divide, operator/", "scicpp/core/units/maths.hpp: norm", "scicpp/core/units/units.hpp: frequency, is_frequency"]}
{"id": "C130", "title": "Numeric functions of quantities", "statement": "For arrays of quantities of units with rational scales: cumsum, diff and trapz with a number as spacing (or numbers with a quantity as spacing) compile for every unit; trapz over a quantity compiles exactly when neither unit has an offset, inner and dot exactly when the second unit has none, prod exactly for dimensionless quantities of scale 1, cumprod exactly for dimensionless quantities (percents included). trapz and inner have the product of the units, cumsum, diff, cumprod, prod and % the unit of the data, and the results in base units are those of the data in base units: trapezoidal rule, inner product, running sums, forward differences of any order, running products, remainders. One sample is undefined for trapz. Not claimed, because false: with temperatures in degrees Celsius diff, cumsum, trapz and % answer in degrees Celsius, zero point included.", "quantifier": "every unit with a rational scale, any dimension and offset, every array of reals of any length, every order of differences", "why_tests_cant": "all units, arrays and orders", "anchors": ["scicpp/core/numeric.hpp: prod, cumsum, cumprod, trapz, diff, inner, dot, vdot, operator%, detail::modulus", "scicpp/core/units/quantity.hpp: operator+, operator*, quantity(const quantity<T2, Dim, Scale2, Offset2> &)", "scicpp/core/functional.hpp: filter_reduce, cumacc"]}
{"id": "C131", "title": "Waveforms in floating point", "statement": "In rounded arithmetic, sawtooth(t, width) with a width in [0, 1] and any finite times t >= 0 does not fail; every value is within 5u (width 1) or 13u/(1 - width) of the triangle wave of period 2*pi<T>, u the unit roundoff and pi<T> the floating constant, and with the default width no value leaves [-1, 1]; adding any number of exact periods 2*pi<T> to the time gives the same value; a width outside [0, 1] or NaN fails the requirement. sweep_poly(t, P, phi), for every non-empty list of coefficients, is within eps + ((1+u)^(L+4)-1)*2*pi*sum |P_i/(i+1)| |t|^(i+1) + u|phi| + 2|pi<T>-pi||F(t)| of cos(2*pi*F(t) + phi), where F is the integral of the frequency P and eps the error of std::cos, and stays within [-1, 1] if std::cos does. Not claimed, because false: that the period is 2*pi (half a period is lost at t = 80600000000000064), and times that are negative or NaN.", "quantifier": "every rounding with unit roundoff u (binary64 included), every width, list of times, list of coefficients, phase and cosine", "why_tests_cant": "all numbers and lists", "anchors": ["scicpp/signal/waveforms.hpp: sawtooth, sweep_poly", "scicpp/polynomials/polynomial.hpp: polyval, polyint", "scicpp/core/constants.hpp: pi"]}
{"id": "C132", "title": "Which sums, differences and comparisons compile, and their types", "statement": "For real and complex numbers and quantities and arrays of them, of every nesting depth, element type, unit and value category, which overload a + b, a - b, -a and the six comparisons select is never ambiguous and never depends on value categories. Two scalars add (and subtract) exactly when both are numbers or both quantities, the representation types agree (except two real numbers), dimensions and offsets agree, and, if one is complex, the scales agree too; the result has the common dimension and offset and a scale that both are whole multiples of; the type does not depend on the order. Arrays act element by element. Real quantities of one representation type and dimension compare whatever their scales and offsets; complex ones only for equality and in exactly the same unit. An array and a scalar compare element by element, two arrays of the same type as wholes (one boolean). Not claimed, because false: that arrays of arrays behave like arrays (array of arrays + scalar, -array, and !=, <=, >, >= do not compile, while scalar + array, array - scalar, == and < do), that complex metres and kilometres add, and that a dimensionless quantity adds to a number.", "quantifier": "every pair of operand types (any nesting depth, unit, representation type) and of value categories", "why_tests_cant": "all types", "anchors": ["scicpp/core/units/quantity.hpp: quantity operator+, operator-, comparisons", "scicpp/core/numeric.hpp: operators namespace"]}
{"id": "C133", "title": "convolve<FFT> and correlate<FFT> in floating point", "statement": "In floating point arithmetic of unit roundoff u, for any transform library accurate to a relative error e in the Euclidean norm at the transform length s that the function chooses (the next 5-smooth length), convolve<FFT>(a, v) and correlate<FFT>(a, v) of finite data, real or complex, return arrays of the length of the exact convolution with finite elements only, within ((1+e)^3 (1+sqrt(2)((1+u)^2-1)) - 1) sqrt(s) |a| |v| of the exact convolution, both in norm and element by element; for integer data whose bound is under one half, rounding the result gives the exact convolution. Not claimed, because false: that single elements are accurate relative to themselves.", "quantifier": "every rounding function of relative error u, every transform library of the stated accuracy, all arrays not both empty (at most 2^30 elements in total), all values", "why_tests_cant": "all lengths and values; the bound depends on the length of the transform", "anchors": ["scicpp/signal/convolve.hpp: fftconvolve, convolve<FFT>, correlate<FFT>", "scicpp/signal/fft.hpp: fft, ifft, rfft, irfft, next_fast_len"]}
{"id": "C134", "title": "Element types of quantiles, bin edges and histograms", "statement": "For arrays of int, float or double and of quantities of float or double with any rational scale and any offset: quantile, percentile and iqr return the type of the elements (double for int); histogram_bin_edges<method> and histogram_bin_edges(nbins) return a vector of the type of the elements (double for int); histogram counts in integers and, with density, returns the type of the bins for numbers and the inverse unit for quantities. Not claimed, because false: that these functions compile for every one of these types. Quantiles compile exactly for int, double and quantities of double; the bin rules exactly for int and double (all), float (SQRT, SCOTT, RICE, STURGES), quantities of double without offset (all) and quantities of float without offset (SCOTT); a given number of bins for all; searched histograms for all, computed indices for all units without offset.", "quantifier": "all element types: number types, and quantities of every dimension, rational scale and offset; all seven bin rules; both histogram modes", "why_tests_cant": "infinitely many units; a unit test instantiates a few types and cannot show that an instantiation does not compile", "anchors": ["scicpp/core/stats.hpp: quantile, percentile, iqr, ptp", "scicpp/core/histogram.hpp: detail::bin_width, histogram_bin_edges, histogram", "scicpp/core/maths.hpp: lerp", "scicpp/core/range.hpp: linspace"]}
{"id": "C135", "title": "Variance, covariance and kurtosis of integers", "statement": "For arrays of signed integers of any range: the variance, when it is defined, is never negative and covariance(a, b) = covariance(b, a), for every filter, correction and length. For at most 64 elements the covariance is the sum of the products of the deviations from the truncated means, divided by the count minus the correction and truncated (0 when there are too few elements); it is defined when 4*n*M^2 is representable for elements of magnitude at most M; the variance differs from the exact variance by less than 1; the variance of at most 128 equal elements is 0. Not claimed, because false: that any of the last statements holds for longer arrays, that the variance of a long array of int is defined, and that kurtosis is defined.", "quantifier": "every signed integer type, all arrays, filters and corrections", "why_tests_cant": "all lengths: the blockwise combination behaves differently above 64, 128 and 92681 elements", "anchors": ["scicpp/core/stats.hpp: covariance, var, moment, kurtosis", "scicpp/core/functional.hpp: pairwise_accumulate"]}
{"id": "C136", "title": "Averages, powers, moments, skewness and standard error of integers", "statement": "For arrays of signed integers of any range: average(f, w), when it is defined, is the weighted average truncated towards zero, less than 1 away from it, between the least and the greatest element when no weight is negative, and equal to the mean when the weights are equal; it is defined when the sums of absolute products and weights are representable and the weights do not add up to 0, and undefined when they do. pow<n> is defined exactly when the power is representable, and is then exact. The moments of order 3 and more are the truncated means of the powers of the deviations from the truncated mean, the standard error is the root of the truncated quotient of the variance by the count and undefined without an accepted element, the skewness is m3 / sqrt(m2^3) for the integer moments. Not claimed, because false: that the moments, the standard error and the skewness are those of the data, or defined.", "quantifier": "every signed integer type, all arrays, weights, orders, filters and corrections", "why_tests_cant": "all arrays and orders; truncation and overflow depend on the values and the type", "anchors": ["scicpp/core/stats.hpp: average, moment, sem, std, skew", "scicpp/core/units/maths.hpp: pow"]}
{"id": "C137", "title": "Reductions and statistics of unsigned integers", "statement": "For arrays of an unsigned integer type with N values (unsigned, std::size_t): sum, prod, cumsum, cumprod, inner, dot and vdot are always defined, exact modulo N, and sum and prod do not depend on the order of the elements. The n-th differences are the finite differences modulo N: a difference that is not negative is exact, a negative one comes out N too large, and cumulating the first differences restores the array. ptp is exact. mean, average and median are computed from the sums modulo N and rounded down: they are the mean, the average and the median rounded down when these sums are less than N. The variance of at most 64 elements not greater than M is less than 1 away from the variance when n*M^2 < N, although the deviations from the mean wrap around. Not claimed, because false: that the mean, the median or the variance is right without these conditions.", "quantifier": "every unsigned type of at least 31 bits, all arrays, filters, orders of difference and corrections", "why_tests_cant": "all arrays of all lengths; wrapping around depends on the values", "anchors": ["scicpp/core/stats.hpp: ptp, average, median, mean, covariance, var", "scicpp/core/functional.hpp: pairwise_accumulate", "scicpp/core/numeric.hpp: sum, prod, cumsum, cumprod, inner, diff"]}
{"id": "C138", "title": "Interpolation, quantiles and automatic bin edges of integers", "statement": "lerp of two signed integers of a type never overflows and is a + t*(b - a); lerp of unsigned integers is so when a <= b or b is 0. Quantiles and interquartile ranges of signed and unsigned integers are always those of the converted numbers, for every interpolation and every selection algorithm. The bin edges of integers by the square-root, Rice, Sturges and AUTO rules are those of the converted numbers when the range of the data is representable and undefined otherwise, those by the Freedman-Diaconis rule always are; two different integers are not almost equal, so the numbers of bins are those of the rules. With Scott's and Doane's rules the truncated variance and the integer skewness are used: a single bin when they vanish or are not defined by a division by 0, undefined when the cube of the variance is not representable. Not claimed, because false: that Scott's and Doane's rules give the same bins as for the converted numbers, and lerp of unsigned integers in decreasing order.", "quantifier": "every signed two's complement or symmetric type, every unsigned type, all arrays, positions, methods, selection algorithms and tolerances", "why_tests_cant": "all arrays and values; overflow and wrapping depend on the values", "anchors": ["scicpp/core/maths.hpp: lerp", "scicpp/core/stats.hpp: quantile, percentile, iqr, ptp", "scicpp/core/histogram.hpp: bin_width, outer_edges, histogram_bin_edges"]}
{"id": "C139", "title": "Reductions of complex numbers in floating point", "statement": "For arrays of finite complex numbers, with components rounded with relative error at most u: sum, prod, mean, cumsum, inner, dot, vdot, direct convolve and correlate are finite and within ((1+u)^k - 1) times the sum (product) of the terms' |re|+|im| of the exact complex result, with k given by the number of operations (logarithmic in the length for the blocked reductions); vdot conjugates its first argument and correlate its second. vdot(y,x) is the conjugate of vdot(x,y) bit for bit, vdot(x,x) has imaginary part exactly 0 and is not negative, covariance and var are within such a bound of the exact values for every number of elements, and so are the coefficients of polyfromroots of complex roots (its leading coefficient is exactly 1); covariance of at most 64 pairs is hermitian bit for bit, and var is never negative. The quotient of two complex numbers with a non-zero divisor is finite, with componentwise errors of a few units of roundoff times the sum of the magnitudes of the terms, and exact in exact arithmetic. The mean of an empty array and covariances with too few elements are 0, not NaN or infinity, because numeric_limits is not specialised for complex numbers.", "quantifier": "every rounding of relative error at most u, all arrays of finite complex numbers, filters and numbers of degrees of freedom", "why_tests_cant": "all arrays and roundings; error bounds cannot be enumerated", "anchors": ["scicpp/core/numeric.hpp: sum, prod, cumsum, inner, dot, vdot", "scicpp/core/stats.hpp: mean, covariance, var, std", "scicpp/signal/convolve.hpp: convolve, correlate"]}
{"id": "C140", "title": "Eigen views of vectors and their lifetime", "statement": "to_eigen_matrix(v) and to_eigen_array(v) of a std::vector are views of its storage: at once they read as the first elements of v, and after any history of operations on any vectors in which v is neither destroyed nor moved from and is not grown beyond its capacity they read as the first elements v has then (not as a copy of what it had); after v is moved to another vector the view is a view of that vector; once v is destroyed, grown beyond its capacity or given a larger one, reading the view is undefined behaviour whatever happens later, so that a converted temporary cannot be used after its full expression. The conversions of a std::array are copies of its first elements, and an explicit size beyond the array compiles and reads out of bounds.", "quantifier": "all vectors, requested sizes and all finite histories of operations on vectors before and after the conversion", "why_tests_cant": "all histories of operations: a dangling or stale view is not visible in the tests of single calls", "anchors": ["scicpp/linalg/utils.hpp: to_eigen_matrix, to_eigen_array", "scicpp/linalg/solve.hpp: lstsq"]}
{"id": "C141", "title": "Programs on Polynomial objects", "statement": "Any sequence of statements on Polynomial objects (constructions from coefficients or a degree, copies, moves, +=, -=, *= by a polynomial or by a coefficient of any of the objects, +, -, *, products by a scalar, mulx), in which the operands may be the same object, runs without undefined behaviour as long as no operand has been moved from and not assigned since; afterwards every object denotes the polynomial of the ring of polynomials the statements mean: its coefficients, its value at every point, and degree() as the formal degree, which bounds the degree from above. Two objects compare equal exactly when both the polynomials and the formal degrees are equal. Adding to, subtracting from or adding an object that has been moved from is undefined behaviour, since its degree() is 2^64 - 1; assigning to it makes it usable again.", "quantifier": "all commutative rings of coefficients (exact arithmetic), all finite programs and all choices of aliased operands", "why_tests_cant": "all programs: tests apply one operation to fresh objects and never the same object twice in one statement", "anchors": ["scicpp/polynomials/polynomial.hpp: Polynomial"]}
{"id": "C142", "title": "Round trips of the transforms in floating point", "statement": "If the transforms of the library are accurate to a relative error e in the Euclidean norm, then ifft(fft(x)), with or without the length, and irfft(rfft(x), x.size()), and irfft(rfft(x)) for an even number of samples, have as many elements as x, are finite, and differ from x by at most ((1+e)^2 - 1) times its Euclidean norm; the norm of fft(x) is sqrt(n) times the norm of x up to the relative error e. For an odd number of samples irfft(rfft(x)) lacks one sample, and is undefined behaviour for a single one.", "quantifier": "all arrays of finite samples (up to 2^31 elements), all roundings, all transform libraries with the stated accuracy, all negative lengths", "why_tests_cant": "all inputs and all roundings: tests compare a few arrays of small integers", "anchors": ["scicpp/signal/fft.hpp: fft, rfft, ifft, irfft"]}
{"id": "C143", "title": "Roots of polynomials", "statement": "polyroots(P) of a polynomial of degree d >= 1 with a non-zero leading coefficient has d elements; with exact eigenvalues they are the roots of P with their multiplicities: P is its leading coefficient times the product of the factors x - r, P(z) = 0 exactly for the listed numbers, polyfromroots(polyroots(P)) is P divided by its leading coefficient, and polyroots(polyfromroots(rs)) is a permutation of rs. With computed eigenvalues, each an eigenvalue of a matrix whose entries are within eta of those of the companion matrix computed in floating point of unit roundoff u, the polynomial is at most |lead| b there and some root is within the d-th root of b, where b is an explicit bound proportional to eta + u M, M bounding the coefficients relative to the leading one. polyroots of a constant or empty array is undefined behaviour.", "quantifier": "all polynomials over a subfield of the complex numbers (or with floating point coefficients), all degrees, all eigenvalue solvers with the stated guarantee, all roundings", "why_tests_cant": "all degrees, coefficients and solvers: tests compare the roots of one polynomial with tolerances", "anchors": ["scicpp/polynomials/polynomial.hpp: polyroots, polycompanion, polyfromroots"]}
{"id": "C144", "title": "Change of unit, reflection, monotone transformation and optimality of the statistics", "statement": "The statistics follow a change of unit of the data: mean, median and every quantile (with a non-negative factor, for every interpolation method) of c*x + d are c times those of x plus d; covariance(c1*x + d1, c2*y + d2) is c1*conj(c2)*covariance(x, y) and covariance is additive in its arguments, as is the mean; the mean of appended arrays is the mean of the means weighted by the lengths. A negative factor exchanges q and 1-q and LOWER and HIGHER; LOWER, HIGHER and NEAREST quantiles commute with every monotone function; quantiles do not depend on the order of the data. The mean minimises the sum of squares, the median the sum of absolute deviations; mean and median are within one standard deviation, var<0> <= ptp^2/4, at most n*var/d^2 samples are d or more from the mean, std(x+y) <= std(x) + std(y).", "quantifier": "all arrays, factors, offsets, probabilities, methods, monotone functions and selection algorithms (exact arithmetic)", "why_tests_cant": "metamorphic laws over all data and all factors: tests check a few results", "anchors": ["scicpp/core/stats.hpp: mean, median, quantile, covariance, var, ptp"]}
{"id": "C145", "title": "Gain, offset, superposition and calibration of spectra", "statement": "welch(a*x + b) is |a|^2 welch(x) in every bin, with the same frequencies, for real and complex gains and offsets; the spectrum of a constant is zero. csd(a*x + b, a'*y + b') is conj(a)*a'*csd(x, y) and csd is additive in its arguments. coherence does not depend on (non-zero) gains and offsets of either signal, NaN bins included; tfestimate is multiplied by the ratio of the gains (conjugated for complex gains, as its result is). Multiplying fs by r multiplies the frequencies by r, divides densities by r and leaves SPECTRUM and NONE unchanged; multiplying the window by a non-zero constant changes neither DENSITY nor SPECTRUM. Calibration: a complex tone of amplitude A in bin k gives |A|^2 in that bin of the SPECTRUM and |A|^2 divided by the noise bandwidth in the DENSITY; a real tone gives A^2/2 when the window has no component at twice its frequency; for every phase, offset, number of segments and overlap.", "quantifier": "all signals at least one window long, gains, offsets, windows, overlaps, sampling frequencies, tones and phases (exact arithmetic)", "why_tests_cant": "laws over all signals, windows and overlaps: tests compare a few spectra with reference values", "anchors": ["scicpp/signal/spectral.hpp: Spectrum::welch, csd, coherence, tfestimate, window, fs"]}
{"id": "C146", "title": "Integrating and differentiating sampled functions", "statement": "Sampling f with linspace(a, b, N+1) and calling trapz(samples, (b-a)/N) gives the integral of f from a to b with an error of at most |b-a|^3 M / (12 N^2) when |f''| <= M on the interval, so the result converges to the integral; it is exact for affine functions. trapz is linear in the samples and the spacing, monotone, additive over adjacent intervals sharing a sample and invariant under reversal. The sum of diff(x) is the last element minus the first; diff of order n is linear; on equally spaced samples of a polynomial of degree n the n-th differences are the constant n! a_n h^n and those of a higher order are zero; the difference quotient of samples of a differentiable function is a value of the derivative between both samples.", "quantifier": "all twice differentiable (differentiable, polynomial) functions, intervals, numbers of samples and orders (exact arithmetic)", "why_tests_cant": "error bounds and limits over all functions and numbers of samples: tests evaluate a few", "anchors": ["scicpp/core/numeric.hpp: trapz, diff, cumsum", "scicpp/core/range.hpp: linspace"]}
{"id": "C147", "title": "Laws of convolution and correlation, delay estimation", "statement": "sum(convolve(a, v)) = sum(a) sum(v); delaying an input of convolve by d samples delays the result by d samples. No value of correlate(a, v) has a square above the product of the energies of a and v; correlate(a, a) has the energy of a at index size(a)-1 and no larger value. When a signal that is not zero is received with a delay of d samples, a positive gain and any number of trailing zeros, argmax(correlate(received, a)) is d + size(a) - 1: the delay is recovered for every signal. Every signal that is not zero has a positive margin between its energy and its other autocorrelation values, and the delay is still recovered when every correlation value has an error below half of the gain times the margin, in particular under additive noise whose energy times that of the signal is below the square of that bound.", "quantifier": "all non-empty signals, delays, positive gains and trailing zeros (exact arithmetic)", "why_tests_cant": "laws over all signals and delays: tests correlate a few short arrays", "anchors": ["scicpp/signal/convolve.hpp: convolve, correlate", "scicpp/core/numeric.hpp: argmax"]}
{"id": "C148", "title": "Laws of the histogram", "statement": "The histogram of permuted samples is the same and that of concatenated data is the element-wise sum of the histograms, for every rounding and also for NaN and infinite samples. Applying a strictly increasing map to edges and samples does not change the counts unless it changes which of the samples above the last edge are close to it; in particular a change of unit x -> c x + t with c > 0. The first k counts sum to the number of samples x with bins[0] <= x < bins[k].", "quantifier": "every rounding, all sorted edges and samples, strictly increasing maps", "why_tests_cant": "laws over all data sets, edges and maps: tests count a few samples", "anchors": ["scicpp/core/histogram.hpp: histogram"]}
{"id": "C149", "title": "Linear interpolation", "statement": "With increasing abscissae interp1d<SLINEAR>(x, y), and interp1d of two points for every kind, is the piecewise linear function through the points (x[i], y[i]). Hence between the first and the last abscissa it reproduces affine functions exactly, stays within any bounds of the ordinates, is non-decreasing when they are, is linear in the ordinates, and interpolates samples of a function of Lipschitz constant L, each with an error of at most d, with an error of at most d + L gap / 2, where gap is the largest distance of neighbouring abscissae.", "quantifier": "all increasing abscissae, ordinates and queries between them (exact arithmetic)", "why_tests_cant": "laws and error bounds over all data sets and functions: tests evaluate a few queries", "anchors": ["scicpp/core/interpolate.hpp: interp1d, SplineFunction"]}
{"id": "C150", "title": "Laws of the least squares fit", "statement": "The residuals of polyfit(x, y, deg) are orthogonal to every power of the abscissae up to deg, so they sum to zero and the energy of the data is that of the fitted values plus that of the residuals; for every other polynomial of the degree the sum of squared residuals is that of the fit plus the squared distance to the fit. With more distinct abscissae than the degree the fit is the only solution of these equations, is linear in the ordinates, and fitting the fitted values returns the same polynomial. A fit of a higher degree never has a larger sum of squared residuals.", "quantifier": "all data sets and degrees of at least 1, every solver of least squares problems (exact arithmetic)", "why_tests_cant": "optimality and linearity over all data sets: tests fit a few", "anchors": ["scicpp/polynomials/polynomial.hpp: polyfit", "scicpp/linalg/solve.hpp: lstsq"]}
{"id": "C151", "title": "Polynomials and their roots", "statement": "polyfromroots does not depend on the order of the roots, and over a domain two lists of roots give the same polynomial only if one is a permutation of the other. polymul of the polynomials of two lists of roots is polyfromroots of the concatenated list. The coefficient of x^k is (-1)^(n-k) times the elementary symmetric function of order n-k of the roots: the leading coefficient is 1, the next one minus the sum of the roots, the constant term (-1)^n times their product. Adding t to every root shifts the graph by t; multiplying every root by c gives Q with Q(c x) = c^n P(x).", "quantifier": "all lists of roots in a commutative ring (domain for the converse)", "why_tests_cant": "algebraic laws for every list of roots: tests expand a few", "anchors": ["scicpp/polynomials/polynomial.hpp: polyfromroots, polymul"]}
{"id": "C152", "title": "Laws of the discrete Fourier transform", "statement": "Bin k of fft(x) is the sum of x[j] exp(-2 pi i j k / n). The energy of the spectrum is n times that of the signal; the spectrum of a real signal has conjugate bins k and n-k and a real bin 0; a circular shift of the signal by d multiplies bin k by exp(2 pi i d k / n) and changes no magnitude. A complex tone of m periods has n times its amplitude in bin m and zero elsewhere, also when its frequency is given as fftfreq(n, d)[m] with samples spaced by d; a cosine has half of that in the bins m and n-m. Transforming twice gives n times the circularly reversed signal, the spectrum of an impulse is one everywhere, and ifft of a product of spectra is the circular convolution.", "quantifier": "all non-empty signals, shifts, numbers of samples and bins (exact arithmetic)", "why_tests_cant": "laws of the transform for every signal and length: tests transform a few arrays", "anchors": ["scicpp/signal/fft.hpp: fft, ifft, fftfreq"]}
{"id": "C153", "title": "Selecting elements", "statement": "Filtering twice is filtering with the conjunction, in either order; filtering commutes with concatenation and reversal, and the elements accepted by a filter and by its negation are together the array. mask(a, p mapped over a) is filter(a, p), and masking the result of a mask with the masked second mask is masking with the conjunction. argwhere finds as many indices as the filter accepts elements, the elements at these indices are the accepted ones, and the indices of a concatenation are those of the parts, the second moved. A sum with a filter is the sum of the filtered array, the sums over a filter and over its negation add up to the sum, and sums with a filter add over concatenation, together with the numbers of elements.", "quantifier": "all arrays, predicates and masks", "why_tests_cant": "algebraic laws over all arrays and predicates: tests select from a few", "anchors": ["scicpp/core/functional.hpp: filter, filter_reduce_associative", "scicpp/core/numeric.hpp: mask, argwhere, sum"]}
