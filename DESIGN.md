# Formal model of SciCpp in Lean 4

## Layout

* `lean/Verif/Model/*.lean` — the model: one Lean definition per C++ function, each with a comment
  citing file and lines in `/repo` and stating simplifications.
* `lean/Verif/Spec/*.lean` — small independent specifications (only when Mathlib has none).
* `lean/Verif/Proofs/*.lean` — helper lemmas.
* `lean/Verif/Props/*.lean` — the property theorems `Cnn_…`, each with a non-vacuity `example`.
* `properties.jsonl` — the English properties (generated by `tools/gen_props.py`).
* `MANIFEST.json` — property → theorems (generated by `tools/gen_manifest.py`).
* `seeded/LOG.jsonl` — the log of seeded-bug experiments against the theorems.

## Modelling conventions

* A range or container is the `List` of its elements. Functions that mutate return the new contents.
* Undefined behaviour is a distinct outcome (`Res.ub`): a failed `scicpp_require` (an `assert` in
  debug builds, `__builtin_unreachable()` under NDEBUG), out-of-bounds access, integer division by
  zero, signed overflow where the property is about it, unrepresentable float→integer cast. At the
  type level (units) `Res.ub` means "does not compile".
* Overload selection by value category is explicit (`Cat`: const lvalue, lvalue, rvalue; derived from the
  rules of overload resolution in C124), with the
  contents of the argument object after the call as part of the result; `Cont` distinguishes
  `std::vector` (empty after a move) from `std::array`.
* Numbers. Five arithmetics are used, and every theorem says which:
  1. an arbitrary algebraic structure (monoid, field, ordered field, star field, ℝ, ℂ): exact
     arithmetic, "every input" over every such structure;
  2. `Fl` / `Ex K` / `XR`: exact numbers with NaN and infinities (IEEE special value rules), when the
     property is about special values;
  3. `RFl rnd`: NaN, ±∞ and rationals with **every arithmetic result rounded** by an arbitrary
     `rnd : ℚ → ℚ`. Theorems quantify over every `rnd` with the stated hypothesis (monotone, relative
     error ≤ u, sign preserving, odd, …). `F64 = RFl rnd64` is IEEE-754 binary64 to nearest even with
     unbounded exponents, `F32` is binary32 with gradual underflow; both are proved to satisfy the
     hypotheses and used for the counterexamples in actual `double`/`float` arithmetic;
  4. `ℤ` with C++ truncated division; 32-bit conversions (`toI32`) and overflow where a property
     depends on them (counts of `mean`, density histograms, array operators).
  5. `IFl f` (`Model/Ieee.lean`): a binary format with gradual underflow and overflow to infinity.
  No signed zero. Overflow and underflow are modelled only by `IFl` (C93, C94) and `F32` (underflow).
* `signed_size_t`/`size_t` are ℕ/ℤ without wrap-around unless the property is about it.
* Standard library algorithms are modelled by their specification in the C++ standard;
  where the standard leaves freedom (`std::nth_element`, thread schedules) the theorem quantifies
  over every allowed outcome.
* External code. `Eigen::FFT` is the exact DFT over ℂ with Eigen's half-spectrum convention; the Eigen
  spline and the QR solver are parameters with their mathematical contract as hypothesis (shown to be
  satisfiable); Eigen vectors and matrices are their (column-major) storage; `sciplot` is the list of
  drawing requests received; `<random>` engines and distributions are an abstract state machine;
  the file system returns `none` or the contents of a file; number formatting by `operator<<` is a
  parameter (concrete for integers and fixed notation).
* Units: the template arguments `Dim`, `Scale`, `Offset` of a quantity are a run-time structure `QTy`,
  so equality of C++ types is equality of values; `Spec/Quantity.lean` defines the base-unit value a
  quantity denotes. Unit aliases and literals are generated from the headers
  (`tools/gen_units.py` → `Model/UnitData.lean`) and compared with an independent table of SI
  definitions (`Spec/SIUnits.lean`); constants with CODATA 2018 (`Spec/Codata.lean`).
* Threads: `Model/Threads.lean` is a transition system of one main thread and n workers with arbitrary
  interleavings (sequentially consistent; reading and writing the shared result are separate steps).
* `vectorize` keeps a reference to its functor: `Model/Vectorize.lean` has a store of live objects.

## What is modelled and what is not

`COVERAGE.md` (generated by `tools/coverage.py`) lists for every header the code lines cited by a model
definition and those that are not. Not modelled:

* type traits and concepts (`meta.hpp`, `QUANTITY_TRAIT`), forwarding overloads that only select a
  container or a default argument, include guards, `using` declarations;
* character-level layout of printed numbers beyond `print.hpp`'s own trimming and line breaking;
* `io.hpp` overloads that only repackage options, except where cited; the decimal conversion of
  floating point numbers by the C++ library;
* the sizes and times of execution, memory allocation failure, exceptions thrown by the library,
  data races below the level of the transition system, `constexpr` evaluation limits;
* rounding inside `std::sin`, `std::exp`, `std::log`, `std::pow`, Eigen; complex rounding;
* `/repo/tests`, benchmarks, examples.

## Disagreements between the code and the properties

For these the full property is kept in `properties.jsonl`, its negation on a concrete or general input is
proved (`*_false`), and the part that holds is proved (`*_partial`, often with an exact "if and only if").

| property | what the code does |
|---|---|
| C04, C44, C77, C86 | a named non-const `std::vector` argument of a same-type unary operation is moved from (left empty) or overwritten |
| C08 | filtered `argmax/argmin` start with index 0 even when element 0 is rejected (numeric.hpp:734) |
| C11 | `trapz` of one sample is undefined behaviour |
| C13 | `<=`, `>=` are negated `<`: true for NaN operands |
| C15, C24 | element counts are cast to `int` (overflow beyond 2^31-1); integer means truncate |
| C16 | the median of an even number of integers truncates |
| C17 | quantiles near integer positions snap to the order statistic (`almost_equal`) |
| C19, C87 | filtered variance is NaN as soon as one block of the pairwise recursion is wholly rejected |
| C20 | the filter of `moment<n>` is applied again to the powers |
| C22, C25, C26 | an infinity is `almost_equal` to every finite non-zero number; values above the last edge are counted; binary64 edges may lose the maximum; a leading NaN is UB |
| C28 | `arange` truncates the number of elements instead of rounding up |
| C30 | `concatenate` of different element types depends on value categories; `flip` of a non-const lvalue reverses the caller's array |
| C32 | 1 and negative numbers coprime to 6 are "prime"; `is_prime` overflows for primes from 3037000493² on |
| C34, C37 | equal root ratios may have different types; comparisons ignore the root of a scale |
| C36, C38, C39 | offsets are dropped by `*` and `/`; celsius → fahrenheit is wrong; integral factors truncate to 0 |
| C46 | `subvector` clamps the length without the offset (out-of-bounds read) |
| C47 | Tukey ignores `Periodic` for alpha ≥ 1; one point windows are NaN |
| C51, C52, C53 | mixed real/complex coherence asserts; `tfestimate` returns the conjugate gain; `periodogram` resets the overlap |
| C57, C58, C59, C61 | `polydiv` never divides by the leading coefficient; `polyder` uses the opposite storage order; `polytrim` compares c, not \|c\|; `polyvander` of degree 0 is UB |
| C62 | empty fields shift later columns; `usecols` twice appends; repeated columns, complex with minus sign |
| C64 | every call re-seeds the generator |
| C67 | `sawtooth` leaves [-1,1] for negative times |
| C68 | trailing zeros of printed integers are blanked |
| C69 | `pow<-n>(x)` is `x^n` |
| C70 | `irfft` with default length is wrong for odd lengths |
| C71 | 23 unit aliases and 17 literals have a wrong scale (km/h, knot, teratonne, pound_force, …) |
| C72, C73, C83, C84 | fractional dimensions are not canonical; `log`/`exp` ignore the scale; complex `exp` accepts any dimension; rounding functions depend on the unit |
| C75 | `polyfit` of degree 0 is UB |
| C78 | almost constant data give unboundedly many bins |
| C79, C80 | `boxplot` of a vector is UB, `capwidths` sets the box widths; only the first curve's length is checked; `log(false)` does not undo `log(true)`; STEP and BARSTACKED histograms draw nothing; the csd plot shows \|P\|² |
| C85 | `float` Bohr and nuclear magneton are 0 |
| C86 | `vectorize` of a temporary functor keeps a dangling reference |
| C90, C92 | covariance not exactly symmetric, mean outside [min,max], variance of a constant not 0, `linspace` end not exact in binary64 |
| C94 | `mean({M, M})` is infinite and `linspace(-M, M, 3)` is {NaN, inf, inf} for the largest double M |
| C95 | the order of the elements decides whether an integer sum overflows; the median of {INT_MAX, INT_MAX} overflows (also outside the claim) |
| C96 | `winvis` of a window of zeros is UB |
| C97 | `savetxt` keeps six significant digits (1234567 is read back as 1234570), six decimals for complex numbers |
| C98 | with precision 0 zeros of the integer part are blanked (1200 is shown as 12); `-inf` takes fifteen columns; an array starting with NaN is never shown in scientific notation |
| C99 | `ct_root<3>(4.0)` and `ct_root<4>(2.0)` never return; `ct_root<3>(1e-200)` is infinite |
| C100 | distinct doubles of one unit compare equal (1.9 in and its successor, 1e303/2e303 in, 0 °C/1e-14 °C); `==`, `<` not transitive over three units; `-273.15 °C < 1e-14 K` wrong; NaN quantities satisfy `<=` and `>=` |
| C101 | 15e9 ns converts to 15.000000000000002 s though `==`; 7 in → cm → in is not 7 in; 1 in is not `almost_equal` to its conversion to cm, but 1/1024 fm is to 100/1024 fm |
| C103 | `greater(x, temporary)` and `less_equal(x, temporary)` empty a named `std::vector<bool>` x; they do not compile for arguments of different constness |
| C104 | setters return copies: `l.delimiter(',').skiprows(1);` on a named `TxtLoader` (`Spectrum`, plot, …) applies only the first setting |
| C106 | `is_current_noise_density` (and the voltage one) reject types with the right exponents built from fourth roots |
| C107 | in kilometres (any unit with num·den > 1) `numeric_limits::max()` compares equal to `infinity()` |
| C108 | `(a \| b) \| (c \| d)` and `concatenate(std::move(a), b, c)` of vectors do not compile (ambiguous overloads) |
| C109 | `quantile(v, 1.0f)` of 2^24 + 4 floats dereferences `end()`; the linear quantile of `{0, 0, 1}` is 3/4 at 7/8 and 0 at 1 - 2^-53; `median({max, max})` is infinite |
| C110 | `polyval` of 64-bit integers is computed in `double`: `polyval(x, {2^53 + 1})` is 2^53, `polyval(x, {2^63 - 1})` overflows the conversion; `polyint` of integers truncates the coefficients |
| C111 | `histogram(x, 10)` of 2^52 … 2^52+14 loses four samples inside the range (the step is the difference of two rounded edges); a distance to the first edge that overflows loses the sample while `+∞` is counted; with bins `{0, 2, 4}` the sample -2^-1074 is counted; the constant samples {2^53} get edges that violate the library's own requirement on bins (v-1/2 and v+1/2 both round to v), so `histogram({2^53}, 10)` aborts |
| C112 | the last exponent of `logspace(0., 1., 50)` is 1 - 2^-53; `logspace(0, 1, 3)` of `int` is `{1, 1, 1}`; `arange(2^52, 2^52+1, .25)` contains `stop`; `linspace(0.f, 1.f, 2^25+1)` ends at 0.5 (its indices stop at 2^24) |
| C113 | `arange` of minutes with a step of the wrong direction lists two elements when the ends compare equal after scaling by 60 |
| C114 | `not_zero(0 °C)` is false; `isnormal` of two equal lengths can differ (the stored number is classified) |
| C116 | `bartlett<double>(6)` and every `blackman<double>(m)` have negative end samples; `gaussian(5, 2^-540)` and `kaiser` with overflowing `I0(beta)` have NaN in the centre; `get_window<float>` does not compile |
| C117 | `tukey(3, 2^-53)` is `{1, 1, 1}`: `1 - 2/alpha` loses the 1, the textbook window ends in 0 |
| C118 | in binary64 `coherence` can be `1 + 2^-52`, `coherence(x, x)` can be `1 - 2^-53`, and `coherence(x, y) ≠ coherence(y, x)` |
| C119 | all frequencies of `fftfreq<float>(33554440)` are equal: the counter stops at 16777220 |
| C120 | consistent expressions that do not compile: `root<4>(x) * root<4>(x) + sqrt(x)`; a dimensionless quantity plus a number; `fmax` of metres and kilometres; `metre<double> * second<float>` (ambiguous) | `C120_fractional_false`, `C120_mixed_false`, `C120_overloads` |
| C121 | `prime_factors` of a prime ≥ 3037000499² overflows; `(x*x)/x` does not compile for x : m^40 although `x*(x/x)` does; exametre + attometre, light year → millimetre, parsec → millimetre, astronomical unit → nanometre do not compile; `pow<63>` of a length | `C121_prime_factors_false`, `C121_order_false`, `C121_add_false`, `C121_conversion_false`, `C121_pow_length` |
| C122 | in binary64 `polydiv` of the exactly computed product (1+x)(1+49x) by 1+49x leaves the remainder 2⁻⁵³ (`C122_polydiv_remainder`) |
| C123 | abscissae 2⁻⁶⁰ and 2⁻⁵⁹ between -1 and 1 get the same knot; tripling the abscissae exactly changes the knots; `float` queries on abscissae that coincide in `float` are NaN; a range above the largest double gives knots 0, 0, NaN |
| C124 | a complex quantity times a const array does not compile (a non-const one does); an array of metres times a temperature in degrees Celsius compiles although metres times degrees Celsius is ambiguous; numbers times arrays of arrays compile, arrays of arrays times numbers and products of two arrays of arrays do not; `std::complex<double>` times a real quantity does not compile |
| C125 | `-a + a` with a non-const vector fails the size check (undefined behaviour) in every order of evaluation; with a std::array it is `-2a`; `-a + (a + b)` is right or undefined depending on the order in which the compiler evaluates the operands (`C125_twice`, `C125_array`, `C125_orderDependent`) |
| C126 | in `double` Pearson's kurtosis can be below 1 (`{0,0.1,0,0.1,0,0.1}`) and is not invariant under exact shifts: that of `{0,1}` is 1, that of `{2^52, 2^52+1}` is 2 |
| C127 | for units with an offset the operators act on the readings: `20 °C - 10 °C` is a temperature (283.15 K), not a difference; `20 °C * 3 m` drops the offset and `3 m * 20 °C` does not compile |
| C128 | the mean of 49 times 1 m is less than 1 m (of numbers it is exact); `moment<0>` is 1 in the unit of the data; the third moment of °C compiles, the variance does not; `ptp` of °C is a temperature, not a difference |
| C129 | `Spectrum<float>` does not compile for real signals; the cross spectrum (not density) of °C with numbers has the offset of 273.15 K; the transfer function between different units, and the coherence of a signal with units with one without, are rounded differently from those of the numbers (not 1 for equal values) |
| C130 | `diff`, `cumsum`, `trapz(f, 2.)` and `%` of temperatures in °C compile and answer in °C: the difference of 10 °C and 20 °C is 283.15 K; `trapz(°C, s)` does not compile; `prod` of percents does not compile while `cumprod` does |
| C131 | `sawtooth` has period `2*pi<T>`: half a period off at t = 80600000000000064; a NaN time with the default width fails the requirement `width < 1`; negative times give values below -1 |
| C132 | array of arrays + scalar, its negation and `!=`, `<=`, `>`, `>=` with a scalar do not compile, scalar + array of arrays, array - scalar, `==` and `<` do; complex metres and kilometres do not add; a dimensionless quantity and a number do not add |
| C133 | single elements of a convolution by transforms can be lost entirely: `{1}` with `{1, 2^-60}` gives `{1, 0}` |
| C134 | `quantile`, `percentile`, `iqr` of `float` do not compile (`lerp` returns a `double`); AUTO, FD and DOANE bins of `float` neither; quantities of `float` only SCOTT; units with an offset none |
| C135 | the variance of 129 equal integers 1000 is 248062 (`raw_t{1} / raw_t(n)` is 0); undefined for every `int` array of 92682 or more elements; `kurtosis` of `{0, 1}` divides by zero |
| C136 | the standard error of the integers `{1, ..., 10}` is 0; `skew` of `int` is undefined whenever the variance is 1291 or more (`{0, 100}`) and 0/0 for `{0, 1}`; `sem` of an empty integer array divides by zero |
| C137 | `mean` and `median` of the `unsigned` `{4294967295, 1}` are 0, and the variance of `{0, 2147483648}` is 0 (the sums and squares wrap around) |
| C138 | `lerp(5u, 3u, 0.5)` is 2147483652; Scott's bin edges of the integers `{0, 0, 0, 1, 1, 1}` form a single bin (the variance is truncated to 0); Doane's of `{0, 100, 200}` overflow |
| C139 | the mean of an empty array of `std::complex` is 0 and the variance with too few elements is 0 (`numeric_limits` of the primary template), where real arrays give NaN and infinity |
| C140 | `to_eigen_matrix` of a vector is a view: assignments to the vector change it, growth and temporaries leave it dangling; `to_eigen_matrix<5>` of an array of 3 compiles and reads out of bounds |
| C141 | `P - P != Polynomial{0}`; `+=` and `-=` with a moved-from `Polynomial` are undefined behaviour (`degree()` is 2^64-1) |
| C142 | `irfft(rfft(x))` of an odd number of samples has one sample less, in floating point as in exact arithmetic |
| C143 | `polyroots` of a constant polynomial is undefined behaviour (`col(-1)`) |
| C144 | the NEAREST quantile is not symmetric: the nearest median of `{0, 1}` is 0, of `{0, -1}` is -1 |
| C145 | none beyond the conjugate of `tfestimate` (C52) |
| C146 | none |
| C147 | none |
| C148 | none beyond C22 |
| C149 | none |
| C150 | none beyond C75 |
| C151 | none |
| C152 | none beyond C70 |
| C153 | none |
| C98 | printing a scalar NaN or infinity reads the strings of a destroyed `PrintOptions` |

## Trusted base

Lean 4.33.0's kernel and Mathlib definitions used in statements; the axioms `propext`,
`Classical.choice`, `Quot.sound` (checked with `#print axioms`, see `tools/axioms.sh`); the reading
of the C++ code recorded in the model comments; the C++ standard semantics of the library
algorithms listed above. No axioms are added; no compiled evaluation is used.

## Plan per property

| id | modelled | proof |
|---|---|---|
| C01 | `filter_reduce`, `pairwise_accumulate`, `sum`, `prod` on lists over any monoid | strong induction on length; homomorphism lemma |
| C02 | `sum` with each addition rounded | induction; factor `(1+u)` per rounding, depth ≤ ⌈log₂ n⌉ |
| C03 | unary/binary `map` overload set | case split + induction |
| C04 | same, with argument state after call, `cumsum` | false for lvalues: negation + exact extent + partial |
| C05–C07 | in-place `remove_if`, mask loops, `argwhere` | loop invariants |
| C08 | `argcmp` | loop invariant; filtered version false (index starts at 0): negation + partial |
| C09–C10 | `partial_sum`, `adjacent_difference` loops | induction; binomial forward difference formula |
| C11 | `trapz` with UB at one sample | negation + partial |
| C12 | two-range pairwise recursion | induction; ℂ positivity |
| C13 | comparison functions over linear orders and `Fl` | negation for NaN with `<=`/`>=`, partial |
| C14–C15 | `amax/amin/ptp/mean/average` | induction |
| C16–C17 | `median_inplace`, `quantile_inplace` for every `nth_element` outcome | order-statistics lemma: any list partitioned at k has the k-th sorted element there |
| C18–C21 | `covariance` recursion, `var`, `moment`, `cov` | algebraic combine identity; Cauchy–Schwarz; filtered version false across empty blocks (`Fl`) |
| C22–C25 | `histogram` both versions, edges | counting lemmas on sorted bins; +∞ counterexample |
| C26 | `fp_equal_predicate` on `Fl` | case analysis; infinity counterexample |
| C27–C29 | `linspace`, `arange`, `logspace` | algebra; arange counterexample |
| C30 | `concatenate`, `flip` overload sets | induction; value-category counterexamples |
| C31–C33 | compile-time integer arithmetic | number theory with Mathlib `Nat.Prime` |
| C34 | root ratios over ℝ | `Real.rpow`; non-canonical counterexample |
| C35–C39 | quantities as value + (dimension, scale, offset) types | field algebra; offset and integer counterexamples |
| C40–C42 | direct/FFT convolution, correlate | polynomials coefficients; exact DFT inversion |
| C43 | Hamming generator and `next_fast_len` | invariant: heads of three multiples queues |
| C44–C46 | shifts, frequencies, padding | list rotation |
| C47–C48 | windows filler, gains | index algebra; Cauchy–Schwarz |
| C49–C54 | `Spectrum` configuration state machine, segmentation, thread schedules, csd algebra | invariants over histories and schedules |
| C55–C61 | polynomial functions | ring homomorphism via Mathlib `Polynomial` or Horner evaluation; counterexamples for polydiv, polyder, polytrim, polyvander |
| C62–C63 | line tokenizer, file iteration, savetxt | list/char induction; counterexamples for empty fields |
| C64 | seeded generator as a pure stream | determinism, prefix; repeated-call counterexample |
| C65–C69 | lerp, interp1d (Eigen spline a parameter), waveforms, print, power | algebra/induction |
| C70 | `fft/ifft/rfft/irfft` through the exact DFT | orthogonality of roots of unity; odd default length is a counterexample |
| C71 | generated tables of aliases and literals, quantity templates | kernel evaluation of every table row against SI definitions (finite tables), general theorems over the scale parameter |
| C72 | dimension expressions as root ratios of primes | unique factorisation |
| C73, C83, C84 | `units/maths.hpp`, complex quantities | algebra on denotations; iff conditions |
| C74 | `sweep_poly` | derivative of the phase (`HasDerivAt`) |
| C75 | `polyfit` with any least squares solver | normal equations; uniqueness from Vandermonde |
| C76 | array operators over an element arithmetic with UB | `map`/`transform` lemmas of C03 |
| C77 | `gmean` over extended reals | exp/log of sums, AM-GM |
| C78 | bin width methods | real analysis of ceil/roots; histogram coverage |
| C79, C80 | option state machines of the plots | induction over histories of calls |
| C81, C82 | tuples, Eigen storage | loop invariants |
| C85 | constants in exact, binary64 and binary32 arithmetic | rational bounds on π and e, Euler-Maclaurin enclosures of Euler's constant and ζ(3), kernel evaluation of each constant |
| C86 | `vectorize` with a store of functors | case analysis on lifetime and category |
| C87 | nan/trimmed statistics | C19's exact block condition |
| C88 | reductions in `RFl rnd` | forward error analysis (`Proofs/Approx.lean`) by induction on the recursion |
| C89 | same | sign, monotonicity, exact scaling homomorphisms (`Proofs/FloatScale.lean`) |
| C90 | same | commutativity of rounded operations; binary64 counterexamples |
| C91 | same with NaN and infinities | classification of sums by special values |
| C92 | `linspace` in `RFl rnd` | monotone rounding, error analysis |
| C93, C94 | the generic reductions instantiated with `IFl f` (`Model/Ieee.lean`): IEEE formats with gradual underflow and overflow | `ApproxI`: error analysis conditional on finiteness, plus finiteness from magnitude bounds; sums of representable numbers never underflow |
| C95 | `CInt lo hi` (`Model/IntRed.lean`): signed integers with overflow as poison, the generic reductions instantiated with it; the integral branch is sequential | induction over the accepted elements: defined iff every intermediate value is representable, then exact; pairwise induction for `inner`; order statistics for `median` |
| C96 | `windowSpectrumDb`, `mainlobeWidth`, `winvis` (`Model/Winvis.lean`) over the exact DFT and `XR` | transform of the padded window is a phase times the response of the window; triangle inequality; C08 for the search (first element accepted) |
| C97 | `fmtG`, `fmtF`, `fmtComplex`, `atof`, `scanLf` (`Model/FloatText.lean`): `printf`/`strtod` after their specification, IEEE rounding of `Model/Ieee.lean` | the digits and exponent are a nearest decimal; scanning the layout gives back its exact value; separation of six digit decimals gives stability of a second save; C63 for tables |
| C98 | `numText`, `putScalar`, `putComplex`, `putTuple`, `useScientificFl`, `printReals` … (`Model/PrintNum.lean`): the character stream with width, notation and precision; layout of `Model/Print.lean` | digits are a nearest decimal; scanning gives back the value; monotone rounding (`Proofs/IeeeMono.lean`) for the notation rule; C68 for whole arrays |
| C99 | `ctRootF` (`Model/CtRoot.lean`) over `RFl rnd` and `IFl f` | calculus `Near` of relative errors (`Proofs/Near.lean`) at the fixed point; two-cycles by evaluation and induction. Square roots (`Props/Sqrt.lean`): in units of the binade of the root the iteration is an integer-valued map, strictly decreasing above the root (`nstep_lt`), whose two lowest values cannot alternate because the radicand is a multiple of 2^frac in those units (`nstep_no_cycle`); hence it stops at a neighbour of the root |
| C100 | `qfEq`, `qfLt`, … (`Model/QFloat.lean`) over `IFl f` | monotonicity of rounding for the non-contradiction, `ApproxI` bounds for the decision; counterexamples by evaluation |
| C101 | `quantityCastF`, `qfAdd`, `qfSub`, `qfEval`, `almostEqualQ` | gcd calculus of the scales, then error bounds of two or three roundings |
| C102 | `qUpd`, `qHistory` | induction over the history against a specification on amounts |
| C103 | `cmpBool` (`Model/CmpCat.lean`) | case analysis over categories, `zipWith` algebra |
| C104 | `chainCall`, `cfgRun` (`Model/Fluent.lean`), any class | induction over programs against the expected semantics |
| C105 | `Loader`, `Saver` (`Model/Fluent.lean`) | C62, C63, C97 composed; induction over setter calls |
| C106 | `isTrait` (`Model/Traits.lean`) over the templates of `Model/UnitData.lean` | C72 completeness for integer exponents; root component for the noise densities |
| C107 | `limMax`, `limMin`, … (`Model/Limits.lean`) over `IFl f` | grid of representable numbers (`expo_spec`); C100 monotonicity |
| C108 | `CExpr` (`Model/ConcatExpr.lean`): overload resolution, operands by reference | induction over expressions with a frame invariant for the named objects |
| C109 | `quantileF`, `medianF` (`Model/QuantF.lean`): the rounded operations around any `nth_element` | order statistics, monotone rounding, exact analysis of which positions `almost_equal` takes for integers |
| C110 | generic models at `CInt`, `fmaInt` through binary64 (`Model/IntPoly.lean`) | induction over Horner steps and the convolution loops, exactness of binary64 below 2^53 |
| C111 | `histogramUI`, `fpEqualI`, `histogramAutoI`, `densityF` (`Model/HistF.lean`) in every IEEE format | counting-loop lemma of C22, monotonicity and idempotence of the rounding (index in range), rounding error of difference and quotient, errors of the bars |
| C112 | `logspace`, `arange`, `linspace` (`Model/Range.lean`), `logspaceInt` (`Model/RangeQ.lean`) over `RFl rnd`, `IFl f` | error calculus; exactness of the indices below 2^p and absorption at 2^p (ties to even) |
| C113 | `linspaceQ`, `logspaceQ`, `arangeQ` (`Model/RangeQ.lean`) | common type of one type is itself; induction over the indices; monotone comparisons |
| C114 | `fpclassify`, `isnanF`, …, `Filters.*` (`Model/Filters.lean`) over `IFl f` | case analysis; the greatest finite number (C107); permutation of three filters |
| C115 | the models of C01, C12, C09, C10, C40, C55 over `IFl f` | calculus of exact multiples of 2^k below 2^(p+k) (`Proofs/Exactly.lean`), same inductions as the error bounds |
| C116 | `bartlettK`, `generalCosineK`, `gaussianK`, `kaiserK`, `parzenK` (`Model/WindowsF.lean`), generic in the arithmetic, library functions as parameters | rounding is monotone and keeps representable bounds; error calculus `Approx`; Lipschitz cosine |
| C117 | `cosineWinK`, `bohmanK`, `generalGaussianK`, `lanczosK`, `tukeyK` (`Model/WindowsF2.lean`) | multiplicative error calculus `Rel` (products of factors 1+δ); Lipschitz bounds of sin, cos, sinc, exp of powers and I0 |
| C118 | `CK`, `segK`, `computeSpectrumK`, `ComputeSpectrumMT`, `welchK`, `csdK`, `coherenceK`, `tfestimateK` (`Model/SpectralF.lean`) | `Rel` for sums of squares, `Dev` (absolute errors relative to a bound) for cross spectra, Cauchy-Schwarz over ℚ, the order of the threads from C50 |
| C119 | `fftfreqK`, `rfftfreqK` (`Model/SpectralF.lean`) | exact counter, one rounding of `d n` and one of the quotient; strictness from `(n + 1) u < 1` |
| C120 | `QEx` (expressions), `QEx.type` (the compiler), `QEx.eval`, overload resolution `pickCand`; specification `HasDim` (dimensional analysis) and `QEx.amount` | induction on the expression: each operator preserves "typed with the dimension of dimensional analysis, amount = operator on amounts"; homogeneity by a second induction on the specification; uniqueness of plain dimensions (C34) for completeness |
| C121 | `Model/Arith64.lean`: the arithmetic of units again with every `intmax_t` product checked (`ub` = compile error) | `powI64` against `a^n` by strong induction with an abstract check; factorisation loop refines the unbounded one while z ≤ √2⁶³; reduced fractions (`Fits64`) for `std::ratio`; refinement of `QEx.type` by induction on expressions |
| C122 | the functions of `Model/Poly.lean` over `RFl rnd` (operator classes only, so that rounded arithmetic is an instance) | products by `C88_convolve` and an error calculus for coefficient lists against Mathlib polynomials (`PolyNear`), powers and roots by induction; `polydiv` by a loop invariant per coefficient counting the subtractions that hit it |
| C123 | `Model/InterpF.lean`: `interp1d` over a number type with comparison, subtraction and division, and a second type for the query | closed form of the rescaling on finite data; error analysis of one quotient; separation from the error bound; counterexamples evaluated by the kernel |
| C124 | `Model/Overload.lean`: deduction, viability, ranking and partial ordering of the templates `operator*`, `operator/`, `map` on a grammar of types | resolution computed for every pair of type shapes, types of the bodies, induction on nesting depth; comparison with the table in `Spec/Overload.lean` |
| C125 | `Model/ArrExpr.lean`: expressions of named arrays of any depth, evaluated with a store of named arrays and an arbitrary order of evaluation | specification in `Spec/ArrExpr.lean` (element by element value, overwritten arrays, no interference); induction on the expression in both directions |
| C126 | the functions of `Model/Stats.lean` instantiated with `RFl rnd` (rounding to nearest or any other rounding function, no overflow) | power by squaring, the mean and the pairwise covariance commute with scaling (`C89_scale_covariance_same_sign`); signs by `RFl.NN`; the error bound by the `Approx` calculus, induction on the exponent and on the list |
| C127 | the evaluator and type checker of C120 (`QEx`), units with any offset; `Spec/Offset.lean`: rules for offsets, meaning on readings | structural induction with one lemma per operator (`BinO`, `UnO`); compilation by splitting a type into its offset and the rest (`Split`) |
| C128 | `Model/QStats.lean`: result types of the statistics templates and the values with division through the reciprocal | types through the algebra of C34 (plain scales are canonical); values: in exact arithmetic equal to those of numbers, then scaling lemmas of the textbook formulas; rounded: scaling by exact factors through the blocked recursion, `Approx` |
| C129 | `Model/QSpectral.lean`: the element types computed by the templates of `Spectrum<T>`, the operators selected for the quotients | types: overload resolution of C124 and the algebra of C34; values: homogeneity of the periodogram sums and C49-C52; rounded: C118 with one more rounding for the reciprocal |
| C130 | `Model/QNumeric.lean`: the types computed by the templates of numeric.hpp on quantities, values with the conversion of `cumprod` | types: algebra of C34; values: C09-C12 with linearity |
| C131 | `Model/WaveformsF.lean`: the loop of C67 and `sweep_poly` in `RFl` | exact fmod, rounding error of each branch; C88, C122 and the Lipschitz bound of cos |
| C132 | `Model/OverloadAdd.lean`: the candidates for `+`, `-`, `==`, … with the declarations visible in each body | resolution for every pair of shapes, induction on nesting depth; comparison with `Spec/OverloadAdd.lean` |
| C133 | `Model/FftF.lean`: the transforms with `Eigen::FFT` as a parameter of stated accuracy | Parseval, Cauchy–Schwarz and the rounding error of a complex product, composed; Hermitian extension for real data |
| C134 | `Model/HistTy.lean`: the types of the statements of these functions, through the overload resolution | specifications C124 and C132 of the operators on each element type, then cases on the bin rule |
| C135 | `Model/IntVar.lean`: the statements of `covariance` with checked integer operations | induction over the recursion of `pairwise_accumulate`; the algebra of truncated means for one block; evaluation of the blocks for the counterexamples |
| C136 | `Model/IntStats.lean`: the statements of the functions with checked integer operations, real square roots | inversion of the checked operations, C95 and C135 for sums, inner products, means and variances; strong induction on the exponent |
| C137 | `Model/UInt.lean`: the statements of the functions over `Fin N` | residues: every operation of `Fin N` is the integer operation modulo `N`; C01, C09, C10, C12 for the loops, C135 for the variance |
| C138 | `Model/IntQuant.lean`: the statements of the functions, differences of elements in the element type, real results | both `nth_element` give order statistics, which commute with monotone conversions; C17, C78, C135 and C136 |
| C139 | `Model/ComplexF.lean`: `CppNum` of complex numbers over rounded reals | calculus of relative errors for both components (`Proofs/ComplexF.lean`), product rule for |re|+|im|; invariants over the blocks |
| C140 | `Model/EigenView.lean`: heap of buffers, owners, capacities, operations | invariant (every vector owns one live buffer, no two share one), induction over histories |
| C141 | `Model/PolyObj.lean`: store, statements, in-place loops | refinement: relation between coefficient vectors and pairs (polynomial, formal degree), induction over programs |
| C142 | `Model/FftF.lean` (fftK, rfftK, ifftK, irfftK) | Parseval for the forward and inverse transform, triangle inequality in the Euclidean norm |
| C143 | `Model/Roots.lean`: companion matrix in any arithmetic, eigenvalue solver as a parameter | characteristic polynomial of the companion matrix (C61), algebraic closedness; residual: rows of the eigenvalue equation weighted by powers, components of the eigenvector bounded from the last one by induction |
| C144 | models of C14-C18 | sorted data under monotone and antitone maps, order statistics; shift of sums of squares; pairing of order statistics; Cauchy-Schwarz and Minkowski by induction |
| C145 | `Model/Spectral.lean` | the mean-free windowed transform of a segment is linear and kills offsets; tones: geometric sums of roots of unity |
| C146 | `Model/Numeric.lean`, `Model/Range.lean` | trapz of samples is the trapezoidal sum of Mathlib; forward differences of polynomials; mean value theorem |
| C147 | `Model/Poly.lean`, `Model/Numeric.lean` | double sums; Cauchy-Schwarz; a shifted signal of finite support differs from the signal |
| C148 | `Model/Histogram.lean` | counts by bin index of C22, which depends on comparisons with the edges only |
| C149 | `Model/Interp.lean` | the rescaling to [0, 1] cancels in the piecewise linear formula; convex combinations |
| C150 | `Model/Interp.lean` | variation of one coefficient of the minimum; orthogonality; C75_polyfit_exact for uniqueness |
| C151 | `Model/Poly.lean` | C60 and unique factorisation, Vieta's formulas of Mathlib |
| C152 | `Model/Dft.lean`, `Model/Fft.lean` | orthogonality of the roots of unity, reindexing modulo n |
| C153 | `Model/Functional.lean`, `Model/Numeric.lean` | C01, C05, C06, C07 and the laws of `List.filter` |
