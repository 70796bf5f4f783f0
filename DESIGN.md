# Design: machine-checked model of eDSP

Source studied: `/repo` (mohabouje/eDSP, header-only C++14 library plus thin C and
Python bindings).  The code is read as text; it is never compiled or run here.
The model and all proofs live in the Lake project `/verif/lean` (Lean 4.33.0,
Mathlib imported one module at a time).

## 1. Layout

* `lean/Verif/Model/*.lean` – the model: one Lean definition per C++ function,
  each with a comment giving file and line numbers in `/repo`.
* `lean/Verif/Spec/*.lean` – small independent specifications (bounded deque,
  difference equation, ...), written without reference to the model.
* `lean/Verif/Lemmas/*.lean` – helper lemmas.
* `lean/Verif/Props/Cxx_*.lean` – the property theorems, one file per property or
  per small group, each with concrete examples meeting the hypotheses.

## 2. Conventions of the model

* **Undefined behaviour is an outcome.**  Imperative operations return
  `Except Fault _` where `Fault` names the kind of misuse (division/modulo by
  zero, out-of-range access, failed `assert`, use of a closed handle ...).  A
  theorem saying "defined" says that no fault is produced.
* **Asserts** (`assert`, `meta::expects`, `meta::ensure`) are contract checks: in a
  debug build they abort, in a release build (`-DNDEBUG`) execution continues.
  The model reports the failed check as a fault.
* **Integers.** `size_t`/`ptrdiff_t`/`int32_t` are modelled with their wrap-around
  where the property is about indices or overflow, and as `Nat`/`Int` elsewhere
  (stated per module).
* **Floating point.** `float`/`double` arithmetic is modelled by exact arithmetic in
  a linearly ordered field or in the real numbers.  Rounding, NaN, infinities
  and denormals are *not* modelled, except where a definition says otherwise (rounding to p bits,
  ties to even, in C92–C96, C100, C101, C107, C115–C117 and C120, `Spec/Float`; the exponent is not bounded, except
  below in C101, `Spec/Subnormal`):
  division by zero is always an explicit outcome or an explicit hypothesis, never the
  totalised `x / 0 = 0`.
* A loop over iterators is a fold or a structural recursion over the list of the
  values in the range; an output iterator is the list of values written.

## 3. Per-property plan

| id | title | what is modelled / how it is proved |
|---|---|---|
| C01 | ring_buffer is a bounded deque for every history | Model ring_span/ring_buffer with size_t wrap and faults; refinement to a bounded deque by induction over the operation list. |
| C02 | a full ring buffer holds exactly the last N values | Corollary of the refinement: fold of pushes = last N values. |
| C03 | ring buffer never touches memory outside its storage; misuse is exactly empty pop / zero-capacity access | Same model; faults characterised exactly; invariant front<cap, size<=cap, cap<2^63. |
| C04 | moving a fixed_ring_buffer yields an independent, equal buffer | Heap model of two fixed_ring_buffers with aliased span; negation by a concrete history, partial theorem for histories without move. |
| C05 | clear and resize are indistinguishable from a fresh buffer | Observational equivalence after clear/resize from the refinement. |
| C06 | biquad realises its difference equation | Biquad over any field; induction over the input with invariant on (w0,w1). |
| C07 | biquad block processing is independent of chunking, and reset replays | List append law of the filter loop; state equality after reset. |
| C08 | biquad and cascade are linear and time invariant | Linearity by induction over the signal; time invariance from zero state. |
| C09 | stability() decides pole location and guarantees decay and bounded output | Jury triangle <-> roots in unit disc over C; decay by spectral/convolution bound. |
| C10 | coefficient setters behave like reconstruction | Negation for set_a0 with witness; other setters proved. |
| C11 | pole/zero constructors place the requested poles and zeros | Polynomial identities; negation for the one-pole constructor. |
| C12 | cascade is ordered composition and never writes past its capacity | Cascade as fold of stages; composition, commutation through transfer polynomials. |
| C13 | moving_average output is the mean of the last N samples | Model on top of the ring buffer; invariant accumulated = sum of window; negation after reset/resize. |
| C14 | moving_rms output is the root mean square of the last N samples | Same with squares. |
| C15 | median and moving_median return a median | Negation (stub). |
| C16 | RBJ designs are stable with the prescribed response at 0 and Nyquist | Real arithmetic with sin/cos of w0; Jury conditions. |
| C17 | Zoelzer designs are stable with the prescribed DC/Nyquist gains | Real arithmetic with K = tan(pi fc/fs). |
| C18 | bilinear low-pass/high-pass transforms map stable analog prototypes to stable digital filters | Complex Moebius map; norm inequality. |
| C19 | Butterworth analog prototype has exactly `order` left-half-plane poles on the unit circle | Complex exponentials; product formula. |
| C20 | pole/zero layout counts poles and stages correctly | Layout state machine; invariant on counts. |
| C21 | clipping stays in range, fixes in-range values and is idempotent | List map facts over a linear order. |
| C22 | linspace hits both endpoints with uniform spacing | Loop induction over a field. |
| C23 | binary_search finds the first occurrence in a sorted range | std::lower_bound loop modelled; loop invariant; the C binding returns −1 for absent values. |
| C24 | linear_search, index_of and contains agree on the first occurrence | List induction. |
| C25 | padder and concatenate write exactly the output range | Output buffer model with faults. |
| C26 | normalize maps the peak to 1 and preserves shape | Ordered field. |
| C27 | string split/join round trip | List Char model of getline loop; induction. |
| C28 | trim removes exactly the maximal blank prefix/suffix | dropWhile-style loops; induction. |
| C29 | is_power_two and next_power_two are exact on 32-bit integers | BitVec 32 with overflow faults; bit-smearing lemma. |
| C30 | is_prime / is_odd / is_even classify integers correctly | Negation with witness, partial for the part that holds. |
| C31 | mean, variance and moments obey their defining laws | Finite sums over R. |
| C32 | skewness and kurtosis are affine invariant and satisfy Pearson's inequality | Cauchy-Schwarz on central moments. |
| C33 | classical means are ordered | AM-GM from Mathlib; power mean. |
| C34 | peak, max, min report an attained extremum at its first index | std::max_element loop; invariant; negation for the binding. |
| C35 | peak2peak is the difference between maximum and minimum | Negation with witness; partial for non-negative data. |
| C36 | unit converters are mutually inverse and monotone | Real log/exp identities. |
| C37 | bark conversion round-trips and is monotone across its pieces | Piecewise analysis. |
| C38 | windows are symmetric, bounded and of the requested size | Trigonometric identities on indices; negation for welch. |
| C39 | oscillators keep time and amplitude | State machine over calls; periodicity from floor/fract. |
| C40 | square oscillator keeps its duty ratio when the frequency changes | Negation with witness; partial when set_frequency is not called after set_duty. |
| C41 | ADSR envelope stays in [0,1] and follows its phases | State machine invariant. |
| C42 | AR envelope follower tracks the signal level | Negation; state machine. |
| C43 | decoder/encoder handles are released exactly once | Handle life-cycle state machine with a log of library calls; negation for libsndfile, proof for libaudiofile. |
| C44 | decoder read delivers the file prefix in order, never past the buffer | Read loop with arbitrary short reads; induction on remaining. |
| C45 | discrete Fourier transforms equal their sums and are undone by their inverses | FFTW by its documented contract (sums over C); orthogonality of the roots of unity gives both round trips; negations for odd sizes and size 1. |
| C46 | conv is the linear convolution and xcorr the linear correlation, scaled as requested | Convolution theorem on finite sums, zero padding to 2n removes the wrap-around; negations for the two scalings. |
| C47 | an FFT engine computes the transform it is asked for | Engine with its cached plan as a state machine; histories of one kind by induction, negations for mixed histories. |
| C48 | fast cosine transforms equal the cosine sums and are undone by the inverse | Both recursions over two swapped memory blocks, induction on the exponent; negation for all sizes 48*2^e and for the Hartley loop. |
| C49 | spectral features stay in their documented ranges | Loops as finite sums; weighted-mean and variance inequalities, concavity of the logarithm; negations for zero lines and single lines. |
| C50 | rolloff is the least index accumulating the requested energy fraction | Loop invariant on the prefix energy; negation at exact ties. |
| C51 | temporal features equal their definitions | Folds as finite sums; amdf/asdf as nested loops on memory with a disjoint output; negations for rms and azcr. |
| C52 | flux, slope, decrease, variation, irregularity, snr equal their definitions | Closed forms of what the code computes for all inputs, negations of the documented formulas with witnesses, and the inputs for which they agree. |
| C53 | noise generators stay bounded and are causal filters of white noise | Invariants of the recurrences under any conversion that does not grow values (identity, truncation); closed form by induction; negations for integer samples. |
| C54 | environment access is atomic: set then get returns the value | Interleaving semantics with a mutex, two-step bodies and a heap of texts; linearisation invariant by induction over all schedules; negations with concrete schedules. |
| C55 | Butterworth low-pass design has the maximally flat magnitude response | Whole chain modelled: analog prototype, bilinear map, cascade construction, gain normalisation; product of pole distances via roots of unity. |
| C56 | Butterworth high-pass design has the mirrored maximally flat response | Same chain with the high-pass map. |
| C57 | Chebyshev I designs have equiripple pass bands of the requested ripple | Same chain; product over the ellipse via Chebyshev polynomials. |
| C58 | Chebyshev II designs reach the requested stop-band attenuation | Same chain with finite zeros. |
| C59 | Butterworth shelves have the requested shelf gain | Same chain, normalised at Nyquist. |
| C60 | ceil, floor, round and fix store the integers they are named after | Memory model; exact arithmetic in a floor field. |
| C61 | rectify stores absolute values; derivative stores neighbouring differences | Memory model; std::adjacent_difference loop; induction. |
| C62 | sign, fract, half, inv, square and distances equal their definitions | Ordered-field arithmetic; negations for the distances. |
| C63 | melspace, erbspace, barkspace and centspace sample the scale from min to max | linspace on memory, then element-wise conversion; negation for the spacing. |
| C64 | complex2real and real2complex are inverse | Loops on memory; induction. |
| C65 | ADSR times, rates and targets set are the ones in effect | Exact sample counts of attack and release by induction on samples; negations for `release_rate` and the attack target. |
| C66 | encoder stores exactly the ranges written and a decoder reads them back | Induction over writes, composed with C44; negations for empty and long ranges. |
| C67 | hilbert stores the analytic signal of a real range | Finite Fourier sums: reflecting and conjugating the bins gives the real part, orthogonality the bins; the list of bins determines the samples; the cosine as an instance. |
| C68 | spectrum stores the power of each bin and conserves energy | Parseval from the circular correlation at lag 0, folded at the middle bin; shift by a permutation of the sum. |
| C69 | hartley, dct and idct store the documented sums and invert each other | Orthogonality of cosines and sines; the second composition of dct and idct from the first (square matrices). The scale of the documentation fails and its negation is proved. |
| C70 | cepstrum stores the inverse transform of the log magnitudes | Same steps as autocorrelation; `log 0` is a fault of the model, and the set of inputs that reach it is characterised. |
| C71 | band-pass designs have the textbook response between the requested edges | The transform sends each root to the two solutions of a quadratic (complex square root); products over the pairs give the prototype at a rational function of z, which on the unit circle is the textbook frequency. |
| C72 | band-stop designs reject the band between the requested edges | Same with the reciprocal map. |
| C73 | a Butterworth band shelf boosts its band and nothing else | Same map as C71, normalised where the map is infinite. |
| C74 | Chebyshev shelves reach the requested gain with the requested ripple | Poles and zeros on two ellipses: the product formula of C57 for both, so the response is a ratio of two Chebyshev forms; algebra gives the requested levels. Chains of C56, C71 and C73. |
| C75 | a stable filter answers a sinusoid with a sinusoid, after a vanishing transient | The particular solution is the real part of H times a complex exponential; the difference obeys the homogeneous recursion, which decays for stable coefficients (C08); induction over the sections, each fed a signal that settles. |
| C76 | freq samples the frequency response of the recursion its coefficients describe | The Horner-like loop is a polynomial in 1/z; the recursion is stated separately (Spec/Freq) and checked on exponentials; composed with C75. |
| C77 | a resampler reports what it wrote, fits the documented output range and owns its converter | The converter is an arbitrary state machine meeting its documented contract; handle life-cycle by an invariant over all programs without copies; negations for the rest. |
| C78 | the Python resampler returns the resampled signal | Wrapper modelled on top of C77; proved for one channel, negation for more. |
| C79 | searching a string view finds the first or last match, or npos | Each search loop against 'least/greatest position with property P' (Spec/StringView); negations for the empty text at the end and the empty view. |
| C80 | string views are compared, cut, read and printed as the text they show | A view is a pointer and a length into a block; each function against the list of characters shown; the order is the lexicographic order of lists. |
| C81 | spans and subspans stay inside the elements they were made from | Index arithmetic in a signed 64 bit type with overflow as a fault; exact parts for all in-range requests, negations for overflowing and fixed-extent ones. |
| C82 | every program with optionals behaves as with std::optional | A world of objects with a flag and a storage; reading, destroying or overwriting a value that is not there is a fault; refinement of an abstract map by every program. |
| C83 | every program with expecteds behaves as the proposal says | Same with a storage that holds a value, an error or nothing. |
| C84 | a Python function works on the elements of the array it is given | A numpy array is an offset, a stride, a type and a length over a memory of words; what the bindings pass on against the elements. |
| C85 | a Python function of two arrays uses the elements of both or rejects them | Same with two arrays. |
| C86 | real2complex, Decoder.read and get_environment return to Python what they found | The wrappers over the modelled functions, with reshape raising for wrong sizes. |
| C87 | log messages are printed completely, in order, and only if their level asks for it | A world with the text printed; induction over programs against the documented text (Spec/Logger). |
| C88 | the library reports what it was built with and the tags of audio files | The macros of a build are a parameter; case analysis over all builds. |
| C89 | continuous_leq returns the equivalent sound level of the last frames | On top of the moving average (C13); concavity of the logarithm gives the bound and the case of equality. |
| C90 | the spectral functions of the Python package return the documented transforms, and their inverses undo them | The wrappers allocate arrays and call the C functions on top of the modelled transforms (C45, C67–C70); round trips from the inversion theorems. |
| C91 | Python functions that create arrays return arrays of the requested size, completely filled | A fresh array holds arbitrary memory (a parameter); the C functions write into it. |
| C92 | the moving average and the moving root mean square stay correct in floating point arithmetic, however long the signal | Every operation rounded to p bits (Spec/Float); the running sum follows an exact recurrence with one rounding per operation, bounded by induction over the signal; sums on a grid are exact. |
| C93 | an oscillator keeps its pitch however long it runs | The clock is a rounded sum; a sum of equal steps reaches a fixed point (absorption), by monotonicity. Pitch from the grid of numbers between 256 and 512. |
| C94 | mean, energy, power and variance in floating point arithmetic are the exact ones up to a relative error | Standard forward error analysis by induction over the list; exactness on a grid. |
| C95 | linspace in floating point arithmetic stores N values from x1 to x2 | Induction over the points; witnesses evaluated step by step in exact arithmetic. |
| C96 | normalize in floating point arithmetic keeps within -1 and 1, reaches it exactly, and keeps signs and order | Rounding is monotone, odd and fixes 1. |
| C97 | the oscillator and filter objects of the Python package are independent streams that do not depend on how their samples are requested | State machine over a list of objects with commands as in Python; generate and filter by induction over the samples; reduced to C39/C40 and C13/C14 for the values. |
| C98 | melspace, erbspace, barkspace and centspace of the Python package return an array of the requested size or raise | Fresh memory is an arbitrary list; the functions reduce to C63; three kinds of outcome (array, exception, end of the interpreter). |
| C99 | the string functions of the Python package work on Python strings, Unicode included | Texts are lists of characters, converted to UTF-8 bytes and back; an ASCII code occurs in the bytes only where the character does, so that cutting and joining commute with the conversion; then C27 and C28. |
| C100 | the output of a stable biquad or cascade in float or double stays near the exact output for ever | Every operation of tick rounded. The difference of the rounded and the exact state obeys the recurrence of the filter, driven by the rounding errors, which is split at the two poles; induction over the samples, then over the stages. The violation by an invariant state. |
| C101 | a stable biquad in float or double falls silent after the end of the input | Rounding with a relative and an absolute error (gradual underflow). A norm of the state, built from the poles, contracts with every sample up to the absolute error; induction over the samples. The violation by an invariant. |
| C102 | an any object owns one copy of its value and gives it back under its own type only | A heap of holders with freed cells; refinement to a list of optional values by induction over the program, with the invariant that the pointers of the objects are distinct and exactly the cells in use. (any_cast to a reference does not compile.) |
| C103 | a variant holds the value of one alternative and destroys it exactly once | Objects with a number and a cell that holds a live value or none; values overwritten without a destructor are recorded. Refinement to a list of tagged values by induction over the program; the partial theorem leaves out the operations for which a violation is proved. |
| C104 | get, visit, comparison and hashing of a variant agree with the value it holds | The model of C103. The largest size is characterised without the code's recursion; induction over the visited variants. |
| C105 | a sample that is not finite spoils only what depends on it, and ordinary samples give finite results | Arithmetic with infinities and NaN (Spec/Ieee.lean) over any rounding; numbers that are not finite spread through the state by induction over the calls. Freedom from overflow: the bounds on the rounded state of C100 and on the running sums of C92, compared with the limit at every operation. |
| C106 | extrema, sums, normalization and clipping treat samples that are not finite alike wherever they are, and do not overflow on the way | The loops of C34 and C94 in the arithmetic of Spec/Ieee.lean; the comparison is a weak order on the numbers that are not NaN, and the loop invariant names the best of them; sums by induction with the limit compared at every step. |
| C107 | an ADSR envelope in float or double stays between 0 and 1 and each of its phases ends after about the time asked for | The switch of adsr.hpp with each operation rounded to `p` bits (`q` in double expressions); the level is an invariant of the history; one rounded step is within half a unit in the last place of the exact step, so by induction the ramp arrives if the rate is above it; a smaller step rounds back, a step of exactly half a unit moves at most once, to an even significand (`Lemmas/RampDecision`), which decides every rate. |
| C108 | an FFT engine is a value: it can be copied, assigned and destroyed, and used with any arrays | The libraries by their documented contracts, plans and work buffers as heaps; a relation between the engines as values and the world, preserved by every operation of a careful program (induction); negations by running the shortest careless programs in an arbitrary state. |
| C109 | threads that work on different objects do not interfere | Every call as the list of its accesses to what threads share, threads interleaved access by access; invariant of every execution: each access comes from a call of its thread and the environment is touched under the mutex; negations for every program with two such calls by running each thread up to its call. |
| C110 | ring buffers are independent of each other, moved ones included | Blocks of memory, objects with the block they own and the block their span points at; invariant: every object owns a block of its own and shows the deque of its variable, by induction over the program; negations after every careful program. |
| C111 | iterators of a ring buffer are positions in a deque | Iterators as 64-bit indices with int arguments, programs as trees; simulation between program runs on the buffer and on a deque with positions, by induction over the tree; negations for every history leaving a large buffer. |
| C112 | functions given the iterators of a ring buffer work on its contents | The array at the address of the first element of the representation of C01; exact criterion by the addresses of the elements, and by the number of pushes (closed form of the span after pushes, by induction). |
| C113 | the functions on integer samples return the exact results | Integers with promotion, wrap-around of conversions and overflow as a fault; sums by induction modulo 2^w, so that intermediate wraps of narrow types cancel; results compared with rational and real numbers cut towards zero; negations for every signal outside the range. |
| C114 | moving average and moving root mean square of integer samples | The window as in C13, the accumulator equal to the sum of the window modulo 2^w, by induction over the signal; floor of the root by Nat.sqrt; negations for every constant signal and every first sample of the kind. |
| C115 | windows in floating point arithmetic | Every operation rounded, literals through double, the angle by relative errors of each operation, the terms by absolute errors; ranges by monotonicity of rounding and ties to even, largest sums computed for both precisions; the stuck loop of triangular by induction; the negative value of blackman from the exact literals. |
| C116 | RBJ designs in floating point arithmetic | Every operation rounded; the angle by relative errors, sine and cosine by their Lipschitz bounds, one lemma for a quotient of two approximated numbers; stability from the distance to the exact design; the two violations from the ties around 1. |
| C117 | Angle and level converters in floating point arithmetic | Every operation rounded; a calculus of relative errors (composition, product, quotient), the logarithm of a number near 1 and the power of ten near 0; the two counterexamples to exactness by evaluating four roundings. |
| C118 | The output of a function may overwrite its input | Calls on ranges of one memory block; induction over the loop with the untouched rest of the source as invariant; the exact echo for a destination inside the source; the first two writes of the difference functions. |
| C119 | Processing a file block by block | The loop of the program over the models of read, in-place processing and write; induction over the rounds, with the rest of the file as measure; the response to a concatenation as the composition of the responses. |
| C120 | Auditory scales in floating point arithmetic | Every operation rounded; relative errors propagated through the operations, the logarithm and the exponential; Lipschitz constants of the piecewise Bark corrections, so that a wrong branch after rounding costs no more than the rounding; the addition of 1 that absorbs a small frequency. |
| C121 | Centroid, spread and crest in floating point arithmetic | Every operation rounded; a calculus of factors (1 + 2^-p)^k for sums, products, quotients and roots of non-negative numbers; the loops rewritten as sums over lists; the counter exact up to 2^p and fixed there. |
| C122 | Means, norm, flatness and entropy in floating point arithmetic | Every operation rounded; the calculus of factors of C121 and the summation bound of C94; infinite and undefined partial sums are separate values; that no line exceeds the computed sum makes every computed probability at most 1. |
| C123 | Moments, RMS and difference functions in floating point arithmetic | Every operation rounded; the calculus of factors of C121 for even powers and sums of magnitudes, an error bound relative to the magnitudes for odd powers, by induction on the power and on the list; Cauchy-Schwarz for the range of the kurtosis; a mean that differs from three equal samples (C94) for the violation. |
| C124 | Roll-off, zero crossings, durations and levels in floating point arithmetic | Every operation rounded; the loop of the roll-off stops at the first partial sum above the limit and these are the partial sums of the energy; counters exact up to 2^p by induction and fixed from there on; the level from the factor of the power and C117. |
| C125 | Ring buffers after exceptions and after pushing their own elements | A throwing push is shown to be a push of what is left in the slot it reaches, a push of an own element a push of the value of its slot, read after the indices changed; then the refinement of C01 carries over by induction on the history. The violation holds in every reachable state with room, and at a full buffer the lost element is named. |
| C126 | RBJ shelves in float and double | Every intermediate value is compared to the exact one relative to the common magnitude 1 + A + β; one lemma for quotients; the high shelf is the low shelf with cos replaced by -cos and odd coefficients negated, because rounding is odd. 0 dB makes numerators and denominators equal numbers, so the state of the filter stays 0. The violation: the sine term is less than a quarter of the last place and is lost in both a0 and a2. |
| C127 | silence and equal return the right verdict | The sum of squares by induction; the rounded power from the bound of C94; for numbers that are not finite an invariant: no partial sum is below zero. The violation near the threshold: fifteen squares below half a unit in the last place of 1 are all lost. |
| C128 | A change of level by a power of two changes nothing but the level | Rounding to p bits commutes with the factor (rnd_gain); every loop by induction on the signal with the multiplied accumulator, the moving filters through their closed form of C92, the filters by induction on time with the multiplied delays. The factor 3 shows that powers of two are needed (C128_other_gains). |
| C129 | Frequencies count only relative to the sample rate | The designs use the frequency only in a quotient with the rate; for the objects a simulation between an object and the same object in the other unit, kept by every call (heard_map). In floating point rounding commutes with the factor (rnd_gain). The counterexample for other factors is computed from the rounded reciprocal of 98. |
| C130 | Filters multiply the energy of a signal by at most the square of their largest gain | The chain of sections as an identity between power series; the part X/A decays because the sections are stable, so its truncations turn the identity into one between polynomials up to an error that vanishes, and Parseval at the roots of unity compares coefficients with values on the unit circle. The converse feeds cosine and sine and takes the mean of the squares. The gains are those of C16, C55-C59 and C72, extended to the missing points by continuity. |
| C131 | Windowed frames added up give the signal back | The values stored are those of C38; the frames that contain a sample meet the window at R equally spaced places, where cosines add up to 0 (orthogonality of roots of unity). |
| C132 | Statistics do not depend on the order of the samples | Every loop is a sum or an extremum: a sum over a permutation is the same, loops that can fail do so with one kind of failure only. The rounded versions follow from the error bounds and the exactness of C94. |
| C133 | Zeros around and between the samples add nothing | A step of each loop with a zero leaves the state as it is; in floating point arithmetic because the sums are numbers with p bits (invariant). The bins from the sums of C45. |
| C134 | The mu-law compresses as documented and its expansion undoes it | Loop by reduction to std::transform (C25); values by the laws of logarithms; louder by strict concavity of the logarithm. |
| C135 | Zoelzer designs computed in float or double | Relative errors composed operation by operation, every intermediate sum of positive terms; the tangent of the rounded angle by the addition theorem; exact zeros since doubling is exact; the violations because coefficients near 2 and 1 are multiples of 2^-p. |
| C136 | A generated tone is recognised by the library's own analysis | The samples of the oscillator (C39) are two roots of unity with the phase of the frame; orthogonality gives the bins, sums and squares; the spectrum by C68, the features by C34, C49 and C50, the difference functions by C51. |
| C137 | Filtering, convolution and correlation agree | Filters at rest are linear, causal and shift invariant (C06, C08), so induction on the frame gives the convolution sum with their impulse response; convolution and correlation by C46; the delayed autocorrelation has its strict maximum at the delay since the sum of squared differences is positive; the peak by C34. |
| C138 | A filter designed and run in float or double follows the exact filter for ever | The computed coefficients are within delta of the exact ones (C116, C135); the poles then stay in a disc (Lemmas/Perturbation), the difference of the two exact responses satisfies the recursion of one of them driven by a small input, and the rounding of the running filter is bounded by C100. |
| C139 | A frame played backwards | The transform of the mirrored frame is the conjugate transform times a root of unity (also with zeros appended); sums over pairs at a distance are mirrored term by term; the analytic signal is determined by its bins (C67); the rest by C13, C22, C34, C46, C49, C51 and C68 to C70. |
| C140 | Settings changed while an oscillator or a filter is running | The oscillator follows an abstract tone with a running phase (Spec/Tone) call by call while the frequency stays. Setting the frequency multiplies the whole time played: after n samples raising it by rate/(2n) flips the sign of the next sample, and a sweep f + c t plays as f + 2 c t; adding 2 pi (old - new) timestamp to the phase makes up for it. The bound on the retuned filter holds because each setter clears the state (so that the run since the last setting is that of a fresh filter, Lemmas/RoundedBiquad); for the same reason setting a coefficient to its own value is heard. |
| C141 | A shelf at 0 dB is transparent, and the opposite gain undoes a shelf | Stages at rest are multiplication of power series by quotients of polynomials; two filters cancel exactly when numerators and denominators multiply to the same polynomial, which is decided on the unit circle (C141_undone_iff). True of the shelves of the cookbook and of the Butterworth shelves of even order. Odd orders leave an all-pass behind, since the numerator of a first-order section is reversed (biquad.hpp 233-242): the first sample is multiplied by a number below 1 even at 0 dB. Zoelzer shelves are transparent at 0 dB, but a cut boosts (low shelf) or uses the wrong coefficients (high shelf), so the opposite gain does not undo them. For the cookbook shelves of 0 dB in float and double see C126_identity. The Butterworth band shelf is undone for every order and transparent at 0 dB, with one corner excepted: odd order, 0 dB, tan(pi bw/fs) = 1 and a centre at or above fs/4. There the matched pair of the layout is taken for a first-order section and its numerator is reversed (C141_band_shelf_violates). The Chebyshev shelves are not part of this property. |
| C142 | Files with several channels are read and written frame by frame | Contract of libsndfile with several channels: a number of items that is no multiple of the channels is refused with 0, seeks count frames. Closed form of the number of samples the read loop delivers, by strong induction on the samples still to come; the file as a list of frames. True if the internal buffer holds whole frames or the request fits in it. False otherwise: with the default buffer of 1024 samples and 3, 5, 6 or 7 channels every request for more than 1024 samples returns 0, as at the end of the file. The assumption of C44_consecutive and C119 that the library delivers at least one sample while some are left is not met in those cases. |
| C143 | The resampler in builds with libresample uses every sample it reports as read | libresample as an arbitrary state machine whose stored samples are factor times the used ones up to a constant. The room passed to the library is the length of the input (libresample_impl.hpp 56-57), so that for a factor above 1 the samples used are at most (length + K) / factor: proved for every such converter. For factors below 1 and blocks of more than 2K / (1 - factor) samples everything is used. The number of channels is ignored, reset does nothing, a factor that is not positive leaves a null handle without an error. `valid_ratio` is not static in this class, so that resampler::valid_ratio does not compile in such a build. |
| C144 | compute of a histogram stores the bins of the samples | The documented histogram as a specification (IsHistogram); the body of compute is empty, so that the destination is unchanged for every input, which is proved to contradict it. |
| C145 | The correlation finds the delay of an amplified and disturbed copy, and the period of a frame | Composition of the models of xcorr, autocorr, peak and peakabs; the strict inequality of the autocorrelation, with either sign, and Cauchy-Schwarz for the error. |
| C146 | Windows have the published gain and noise bandwidth and leak only into their own number of bins | The values of C38 with the coefficients of C131; product-to-sum formulas under the transform of C45; sums and sums of squares by orthogonality; the bins of an oscillator frame from C136. |
| C147 | The C functions exchange complex numbers as pairs of real cells | One block of real cells; the loops cell by cell, invariants for the overlapping case by induction; the transforms through a complex view of the same cells, on top of C45 and C67. |
| C148 | Filter designs do not depend on the checks of the standard library | The calls of std::polar made explicit with a flag for the check; equality with the unchecked design where the modulus is 1, the first iteration of the loop of the shelves otherwise. |
| C149 | A signal split into bands adds up again | Samples: the weighted states of sections with one denominator stay 0, by induction over the frame. Energies: Parseval at the roots of unity for the truncated response of the common denominator, the rest decays; the gains come from C55, C56 and the prototypes of C16, C17. |
| C150 | Filter responses move the way their parameters are turned | From the exact responses of C55 to C57 and the prototypes of C16 and C17: monotonicity of the tangent, of powers and of the Chebyshev polynomials beyond 1 (by induction on their recurrence), completing the square for the resonance, the roots of the two quadratics for the bandwidth. |
| C151 | The statistics of a signal follow from those of its blocks | Induction over the list of blocks for the sums; the characterisation of extrema and peaks (C34) and its uniqueness for the extrema; the law of total variance. Violated by `rms`, whose sum starts with 1 in every block, and by `peak2peak`, which subtracts absolute values. |
| C152 | Spectra of repeated, spread, thinned out, modulated and shifted frames | Over the model of the transforms (C45, C68): the sum over L n samples is split into blocks, the blocks are summed with the orthogonality of the roots of unity, and the stored half is related to the whole by conjugation. |
| C153 | Element-wise functions in floating point arithmetic | Over the specification of binary floating point numbers (Spec/Float): an integer less than 1 away from a number of p bits has p bits; a difference not larger than both operands has p bits (Sterbenz); numbers within half a unit below 1 are rounded to 1, the others are not; monotonicity of rounding for the rest. |
| C154 | What the moving average and the moving root mean square remove and keep | C13 and C14 give every output as the aggregate of the window; the window of a signal is written as a sum over N consecutive samples; sums of cosines telescope after multiplication by 2 sin(w/2). |
| C155 | Sign and phase with which filter designs let signals through | The signed transfer values follow from the prototypes of C16/C17 (by continuity at Nyquist) and, for cascades, from the sections the designs consist of; C75 turns them into outputs. High-passes of odd order violate the claim: the constructor from one pole and one zero reverses the numerator, -zero + z^-1 instead of 1 - zero z^-1, which for the zero 1 is a change of sign. |
| C156 | Which low-passes never exceed the range of their input | Both properties are equivalent to an impulse response without negative values. For sections: real poles give a monotone recursion; for complex poles the quotient of neighbouring values falls by a fixed amount; for a negative sum of the poles the alternating part wins. For the higher orders: an impulse response without negative values makes the gain fall at least like the square of the frequency, and keeps it below 1 at all other frequencies, which contradicts the flat response (Butterworth, Chebyshev II) and the ripple (Chebyshev I). |
| C157 | How late slow changes come out of a filter | A section in the right state answers a ramp by a ramp, and runs of a stable section approach each other. Factor and offset are value and slope of the transfer function at frequency 0: for bilinear images of quadratics they follow from the identity of two polynomials of degree 4 at five points, for cascades gains multiply and delays add. The sum of the Butterworth delays is a telescoping sum of sines. |
| C158 | How long a resonant filter rings after its input stops | After the input the outputs obey a recursion of order two. A quadratic form in two neighbouring outputs is multiplied by the last coefficient in every step (induction); it is positive definite exactly for complex poles, which is quality above 1/2 for all designs, and so bounds the outputs from both sides. |
| C159 | Small disturbances of the samples change the results by no more than themselves | Sums by induction over the pair of signals. Roots of sums of squares by induction with one Cauchy-Schwarz step per sample, for any common start value (the code of rms starts at 1). The standard deviation by the least-squares property of the mean. The moving filters through their windows (C13, C14); elementwise operations through the memory model. |
| C160 | Larger samples never give smaller results | Induction over the pair of signals; the moving filters through their windows (C13, C14); elementwise operations are monotone functions applied by the memory model. A linear time-invariant filter is increasing exactly if its impulse response is nowhere negative, which C156 decides for the designs. |
| C161 | What mean, deviation, extrema and levels say about the samples | The inequalities of Chebyshev, Samuelson and Bhatia-Davis for the values the model returns, by sums over the list. For rms the upper bound is false because its sum starts at 1 (negation proved for all signals of constant magnitude); the rest is kept as a partial theorem. |
| C162 | Small disturbances in transforms, convolutions and filters | The transforms and the convolution through the sums they store (C45, C46, C69). The outputs of a linear time-invariant device differ by at most the sum of the magnitudes of its impulse response times eps, and some disturbance attains this; the sum is bounded for stable sections (C09), and 1 for a filter that passes constants exactly if no value of the impulse response is negative (C156). |
| C163 | The difference functions and the autocorrelation of a frame agree with each other | Through the sums stored by the three functions (C51, C46); the square of a difference expanded, the Cauchy-Schwarz inequality, and sums of terms that are not negative. |
| C164 | Spectral features of spectra that are mixed, amplified or given another axis | Through the sums of C49: first and second moments are additive in the lines, and the spread is the second moment less the square of the first. Exact arithmetic; gains that are powers of two in floating point are in C128. |
| C165 | The extreme values of the spectral features tell what the spectrum looks like | The gap between the value and its bound (C49) written as a sum of terms that are not negative, or as the gap in log z <= z - 1; the gap is zero exactly if every term is. Exact arithmetic. |
| C166 | A filter reported as unstable can be driven to any level | The part of the state that belongs to the pole follows a recursion of first order, driven by the value of the numerator at the pole. Outside the circle one of the inputs 0 and 1, 0, 0, ... makes it grow; on the circle the sinusoid of the pole is in resonance. Exact arithmetic. |
| C167 | What skewness, kurtosis and equal means say about the samples | The gap in Pearson's inequality is the mean of the squares of a quadratic polynomial of the deviations, which is zero exactly if all deviations are among its two roots; the bounds through the farthest sample (C161); symmetry through the invariance under reflection and order (C32, C132); the means through equality in log z <= z - 1. Exact arithmetic. |
| C168 | A frame and its spectrum are not both concentrated | The triangle inequality for the forward and the backward sum; the counts follow by applying both to the sums of magnitudes; conjugate symmetry for the half that is not stored. Uses the contract of the external transform library (C45). Exact arithmetic. |
| C169 | What can be recovered from the output of a filter | Induction over the samples: the difference equation can be solved for the newest sample unless its coefficient is zero; a frame of one sample shows that it cannot otherwise. The exchanged rows through C141, its stability through C09. Exact arithmetic. |
| C170 | The autocorrelation of a frame and its spectrum tell the same | The square of a trigonometric sum sorted by lags, by induction on the number of samples; the converse through the inversion of the discrete Fourier transform and its conjugate symmetry (C45, C46, C68). Uses the contract of the external transform library. Exact arithmetic. |
| C171 | The energy of a frame in its Hartley, cosine and analytic transforms | Each transform followed by its transpose is a multiple of the identity (C45, C69), so the energies agree; for hilbert the bins are folded at the middle (C67, C68). Uses the contract of the external transform library. Exact arithmetic. |
| C172 | Windows rise to their middle and fall from there | The cosine windows are polynomials in 1 - cos without negative coefficients, apart from the constant; cos falls between 0 and pi; the second half through symmetry (C38). welch, which is not symmetric for even lengths, directly. Exact arithmetic. |
| C173 | Steps on the logarithmic scales are ratios | Functional equations of the logarithm and the exponential on the models of C36; strict concavity of the logarithm through (x+z)/2 = y implies xz < y^2; the stored values from C63. Exact arithmetic. |
| C174 | The transforms of a convolution | The convolution theorem by exchanging the order of a triangular double sum; terms behind the frame vanish by a + b <= n + 1; what the functions store from C45, C46, C68 and C70. Exact arithmetic. |
| C175 | Sum, centroid and spread of a convolution | Weighted sums over the convolution become double sums over the frames by exchanging a triangular double sum; first and second moments; what the functions return from C46 and C49. Exact arithmetic. |
| C176 | Products of frames and products of spectra | Both laws by exchanging the order of summation; a difference modulo n in the exponent of a root of unity; the inversion formula of C45. Exact arithmetic. |
| C177 | How large convolutions and correlations become | Cauchy-Schwarz, once with the magnitudes of one frame as weights; the truncation to the frame only removes terms; what is stored from C46. Exact arithmetic. |
| C178 | The derivative among filters, convolutions and correlations | The derivative is the frame less the frame delayed by one sample; filters are linear, time invariant and causal (C137). For conv by the sums of C46. The energy by expanding squares. Exact arithmetic. |
| C179 | The moving average among filters, derivatives and convolutions | By C13 a new moving average weights the last N samples alike, so it is linear, time invariant and causal; two such maps exchange because both are convolutions with their impulse responses (C137) and convolution is associative and commutative. The sum of differences telescopes. Exact arithmetic; the states after reset and resize (C13 violations) are excluded by starting from a new object. |
| C180 | The imaginary parts of the analytic signal | The bins of the imaginary parts follow from those of the analytic signal (C67): -i or i times those of the frame, zero at bins 0 and n/2. Orthogonality from Parseval's identity for the sum and the difference of frame and imaginary parts; the other laws because the bins determine the samples (C67_determined). Exact arithmetic. |
| C181 | Filtering a frame backwards | Each output is the sum over the impulse response (C137); the sums over all pairs of positions are exchanged. conv and xcorr by their sums (C46). Exact arithmetic, raw scale of xcorr. |
| C182 | What the samples coming out of a filter add up to | The partial sums of the impulse response tend to g (C156); the sum of the outputs is the sum over the frame of these partial sums, by exchanging sums. The answers to constants are those of C155. Odd Butterworth orders in builds without assertions, as in C55. Exact arithmetic. |
| C183 | How late the bulk of a frame comes out of a filter | The answers to constants and ramps (C157) give the limits of the sum and of the first moment of the impulse response, because the answers settle geometrically; the moment of the output is a combination of both, by exchanging sums; the sum of the output is C182. Exact arithmetic. |
| C184 | Stable filters forget, and answer periodic signals periodically | The answer to a constant settles geometrically when all sections are stable (C157's lemmas), so the impulse response is bounded by a geometric sequence; the difference of two outputs is a finite sum of delayed impulse responses, and the samples of the output one period apart form Cauchy sequences, whose limits make up the periodic answer; summed over a period the output is the sum of the impulse response so far times the sum of the input over a period, up to finitely many late values of the impulse response. Exact arithmetic. |
| C185 | The spectral lines of the answer to a periodic signal | The answers to complex exponentials (C75's lemmas) give the limit of the sums of the impulse response times powers of 1/z, the transfer function at z on the unit circle; the sum of the output over a period with the weights of bin k is that sum times bin k of the signal, up to finitely many late values of the impulse response. Exact arithmetic. |
| C186 | The power of the answer to a periodic signal | Parseval (C68) on one period of the answer, whose bins are those of the signal times the gains (C185). Exact arithmetic. |
| C187 | What filters do to the harmonics of a periodic signal | C185 with the gains of C55, C56 and C16. Exact arithmetic. |
| C188 | Signals that fade, settle or approach each other, through stable filters | The impulse response is bounded by a geometric sequence (C184), so the sum that gives sample n is dominated by a summable sequence while every term tends to zero. Exact arithmetic. |
| C189 | Signals without end whose samples have a finite sum | The impulse response is absolutely summable (C184) with the sum g; the output is the Cauchy product of it and the signal. Exact arithmetic. |
| C190 | Signals that settle, approach each other or repeat, through the moving average and the moving root mean square | From the formula for sample k of C13 and C14 (mean and root mean square of the last n samples): a finite sum of shifted signals. Exact arithmetic. |

## 4. Trusted base

* The Lean 4 kernel and the axioms `propext`, `Classical.choice`, `Quot.sound` (no other axiom is used; checked with `#print axioms`).
* That the definitions in `Verif/Model` read the cited C++ lines correctly; the conventions of section 2.

* Contracts of foreign libraries, used as definitions in the model and not proved:
  FFTW (`fftw_execute` of a plan computes the documented sums; `Model/Spectral`), libsndfile and libaudiofile (open, read,
  write, close on an abstract file; `Model/Io`, `Model/Tracks`), the C library (`getenv`, `setenv`; `Model/Environment`), the C++ standard
  algorithms (`std::transform`, `copy`, `fill`, `accumulate`, `inner_product`, `minmax_element`, `adjacent_difference`, ...
  written out as loops; `Model/Memory`, `Model/Sequences`), the mathematical functions of `<cmath>` (exact real functions
  with an explicit domain fault). The pseudo random engines are not modelled: the samples drawn are a parameter.

### 4.1 Modelled code (under include/edsp unless said otherwise)

| area | files | model |
|---|---|---|
| ring buffers | types/ring_span, ring_buffer, fixed_ring_buffer | RingSpan, RingBuffer, FixedRingBuffer |
| biquads, cascades and responses | filter/biquad, biquad_cascade, filter.hpp (freq) | Biquad, Freq |
| moving filters | filter/moving_average, moving_rms, moving_median | MovingFilters |
| filter design | filter/internal: RBJ, Zoelzer, Butterworth, Chebyshev I and II prototypes, low-pass/high-pass/band-pass/band-stop transforms, Butterworth and Chebyshev shelves, layout to cascade | Designers, AnalogDesign, Layout, Bands, ChebShelf, StdPolar |
| algorithms | algorithm/*, feature/temporal energy..rms | Sequences, Memory |
| statistics | statistics/* | Statistics |
| numerics, converters, strings | math/numeric, converter/*, string/* | Numeric, Converters, Strings |
| windows, oscillators, envelopes | windowing/*, oscillators/*, experimental/envelope/* | Windows, Oscillators, Envelopes |
| spectral | spectral/*, the FFTW and pffft engines under spectral/internal | Spectral, Lee |
| features | feature/* | Features, ContinuousLeq |
| views and holders | types/string_view, span, optional, expected (thirdparty/nonstd) | StringView, Span, Holders |
| files and resampling | io/decoder, encoder, resampler and their implementations | Io, Resampler |
| noise, environment | random/noise (brown, pink), core/system | Noise, Environment |
| logging, library information, tags | core/logger, core/library_info, io/metadata | Logger, LibraryInfo |
| Python bindings | bindings/python/src: array arguments of all functions, converter.cpp, decoder and resampler in io.cpp, core.cpp | PyBindings, Resampler |
| Python spectral, algorithm, windowing functions | bindings/python/src/spectral.cpp, algorithm.cpp, windowing.cpp with bindings/c/src | PySpectral, PyCreate |
| rounding of the filters, oscillators, statistics | filter/moving_*_filter, oscillators, statistics/mean, variance, moment, feature/temporal/energy, power, algorithm/linspace, normalize | RoundedMoving, RoundedOscillators, RoundedSums |
| rounding of the element-wise functions | math/numeric: fract, half, inv, square, distance; algorithm/amplifier, clipper, derivative (floor, ceil, round, fix, rectify are exact) | RoundedElements |
| Zoelzer designs, rounded | include/edsp/filter/internal/zoelzer_designer.hpp (low-pass, high-pass, band-pass) | RoundedZoelzer |
| mu-law | include/edsp/experimental/quantizer/mu_law_compressor.hpp (with the compression factor captured) | MuLaw |
| order of samples, zeros | the reductions and features of C31-C34, C49-C51, C94, C121 | Order, Statistics, Features |
| overlap-add | the windows of C38 | Windows |
| energy | the sections, cascades and designs of the other properties | Biquad, Designers, AnalogDesign, Bands |
| unit of time | the designs, oscillators, envelopes and durations of the other properties | Designers, AnalogDesign, Bands, ChebShelf, Oscillators, Envelopes, Features and the Rounded* versions |
| levels multiplied by powers of two | the functions of C92-C96, C100, C107, C121-C124, C127 | Rounded*, Verdicts |
| silence, equal in floating point | algorithm/silence.hpp 40-42, algorithm/equal.hpp 40-56 | Verdicts |
| RBJ shelves in floating point | filter/internal/rbj_designer.hpp 115-152 | RoundedShelves |
| exceptions and own elements in ring buffers | types/ring_buffer.hpp, thirdparty/nonstd/ring_span.hpp | RingExceptions |
| rounding of moments, counts and levels | statistics/{moment,skewness,kurtosis,max}.hpp, feature/temporal/{rms,amdf,asdf,azcr,duration,leq}.hpp, feature/statistics/rolloff.hpp | RoundedMoments, RoundedCounts |
| rounding of features and means | feature/statistics/{centroid,spread,crest,flatness,entropy}.hpp, feature/spectral/spectral_entropy.hpp, statistics/{max,norm,harmonic_mean,geometric_mean}.hpp | RoundedFeatures |
| rounding of the auditory converters | auditory/converter/*.hpp | RoundedAuditory |
| reading, processing and writing a file in blocks | libsndfile_decoder_impl.hpp 142-157, libsndfile_encoder_impl.hpp 138-146, biquad.hpp 319-323 | Pipeline |
| resampler with libresample | io/internal/resampler/libresample_impl.hpp, io/resampler.hpp | LibResample |
| histogram | statistics/histogram.hpp | Histogram |
| files with several channels: read, seek, current, frames, samples, write | libsndfile_decoder_impl.hpp 46-72, 114-157, libsndfile_encoder_impl.hpp 49-81, 138-146 | Tracks |
| filters and envelopes on overlapping ranges | biquad.hpp 319-323, biquad_cascade.hpp 218-222, moving_average_filter.hpp 113-115, moving_rms_filter.hpp 114-116, adsr.hpp 195-198, ar.hpp 206-210 | InPlace |
| angle and level converters in floating point | converter/{deg2rad,rad2deg,mag2db,pow2db,db2mag,db2pow}.hpp with float and double | RoundedConverters |
| RBJ designs in floating point | rbj_designer.hpp 37-112 with float and double | RoundedRbj |
| windows in floating point | windowing/* with float and double | RoundedWindows |
| integer samples | statistics/mean, max, feature/temporal/energy, power, duration, azcr, algorithm/rectify, normalize, derivative, amplifier, filter/moving_average_filter, moving_rms_filter with signed integer types | IntSamples, IntMoving |
| iterators of ring buffers, their use as pointers | include/edsp/thirdparty/nonstd/ring_span.hpp 656-817, feature/temporal/amdf.hpp, asdf.hpp, spectral/dft.hpp, dct.hpp, hartley.hpp, hilbert.hpp | RingIterators, RingPointers |
| several ring buffers, moves | include/edsp/types/ring_buffer.hpp, thirdparty/nonstd/ring_span.hpp 352-376 | RingBuffers |
| Threads | what the functions of include/edsp share: the planner of FFTW (spectral/internal/libfftw_impl.hpp), the settings of core/logger.hpp, the environment of core/system.hpp | Threads |
| FFT engines as objects | include/edsp/spectral/fft_engine.hpp and spectral/internal | FftObjects |
| ADSR envelope with rounding | include/edsp/experimental/envelope/adsr.hpp | RoundedEnvelopes |
| extrema, sums, normalization, clipping with infinities and NaN | include/edsp/statistics, algorithm, feature/temporal | ExtendedReductions |
| filters with infinities and NaN | include/edsp/filter/biquad.hpp, biquad_cascade.hpp, moving_average_filter.hpp, moving_rms_filter.hpp | Extended |
| any, variant | include/edsp/types/any.hpp, types/variant.hpp, thirdparty/nonstd/any.hpp, variant.hpp | AnyBox, Variant |
| rounding of the biquads | include/edsp/filter/biquad.hpp, biquad_cascade.hpp (tick, filter, stability) | RoundedBiquad |
| complex arrays of the C package | bindings/c/src/converter.cpp 57-71, bindings/c/src/spectral.c 69-94 | CArrays |
| Python objects, auditory, strings | bindings/python/src/oscillator.cpp, filter.cpp, auditory.cpp, string.cpp | PyObjects, PyAuditory, PyStrings |

### 4.2 Not modelled

Rounding of floating point numbers outside C92–C96, C100, C101, C107, C115–C117, C120–C124, C126–C129, C132, C133, C135, C138 and C153, overflow, infinities and NaN outside C105
and C106 (where the sign of zero is left out), underflow outside C101; the C and Python bindings except where a property names them; `random_generator`
(its constructor does not compile), `perlin_noise_generator` (calls `lerp` with mixed types, does not compile with an
integer type and `std::uniform_int_distribution` admits no other); libsamplerate and libresample themselves (they enter as arbitrary converters meeting their documented contracts); meta programming headers; `audspace` (passes a number where the functions it calls take an iterator, does not compile); the factories `make_filter`,
`make_oscillator` and `make_window` (compile-time dispatch to the classes modelled). The
lambdas of `mu_law_compressor` use a parameter they do not capture, so that they do not compile; C134 is about the
bodies as they read. `derivative` and `silence` have a template parameter that cannot be
deduced: they can be called with explicit template arguments only, and are modelled as called that way. Integer sample
types are modelled in C113 and C114 only; everywhere else the samples are exact or rounded real numbers.

## 5. Violations found

Where the code does not have a property, the negation is proved for a witness or a whole class of inputs.  The list
quotes the comment of each such theorem.

* `C100_constant_violates`: **C100 is violated**: whatever the precision, there is a filter that `stability()` accepts and that answers a single sample of 3/4, followed by silence, with 3/4 for ever. The exact output tends to 0.
* `C100_stability_violates`: **C100**: `stability()` is not complete: there are stable filters whose coefficients have `p` bits that it rejects.
* `C101_underflow_violates`: **C101 is violated**: a stable filter `y = x + a y'` with `1/2 < a < 1`, whatever the precision, never falls silent: after one positive sample followed by zeros every output is at least the smallest positive number (a subnormal one), and the state never returns to 0. The exact output tends to 0.
* `C102_lvalue_violates`: **C102, storing a variable is violated**: a box made from a variable that is not const, or assigned it, takes the value out of the variable.
* `C102_throw_violates`: **C102, exceptions of storing a variable are violated**: the constructor that copies a const variable is declared noexcept, so a copy that throws ends the program, also in an assignment; the specification passes on the exception and leaves everything alone.
* `C103_assign_violates`: **C103, assignment is violated**: assigning a variant, moving one, or assigning a variable, to a variant that holds the same alternative, puts the new value over the old one, whose destructor never runs. For values that own memory that is a leak.
* `C103_emplace_violates`: **C103, emplacing by number is violated**: a second alternative of the same type cannot be chosen; the variant says it holds the first.
* `C103_self_violates`: **C103, self-assignment is violated**: assigning a variant to itself copies the value from the storage in which the copy is being made.
* `C103_throw_violates`: **C103, exceptions of assignment are violated**: if copying the value throws when both variants hold the same alternative, then the target still has its number but no value, and destroying it destroys what is not there.
* `C104_foreign_violates`: **C104, a foreign type is violated**: a variant without a value claims to hold any type that is not among its alternatives, and `get` of such a type reads a value that is not there.
* `C104_get_violates`: **C104, reading is violated**: if the number of an alternative is the size in bytes of the largest one, then a variant that holds it says so, but neither `get` nor `get_if` gives the value: all throw. Nor can two such variants be compared.
* `C104_hash_violates`: **C104, hashing is violated**: two variants that hold the same value of a one-byte alternative, one of which held a larger one before, differ in their hashes; so do two with different padding.
* `C104_repeated_violates`: **C104, a repeated type is violated**: a variant that holds an alternative that is not the first of its type does not give its value to `get` by number, and denies holding the type.
* `C104_swap_violates`: **C104, exchanging is violated**: if the number of an alternative is the size in bytes of the largest one, then exchanging two variants that hold it throws, in a function declared noexcept, which ends the program.
* `C104_visit_violates`: **C104, visiting is violated**: visiting a variant without a value does not throw, but gives a default result that the visitor never computed.
* `C105_average_violates`: **C105 is violated** by `moving_average`: whatever comes before and after a sample that is infinite or not a number, samples, `reset()` or `resize()`, no later result is finite. Without `reset` and `resize` every call returns, the window holds the sample for `n` calls only.
* `C105_biquad_violates`: **C105 is violated** by `biquad`: from a sample that is infinite or not a number on, no output is finite, for ever. This holds for every filter, also without feedback, whose outputs depend on three samples only (`fir_depends`).
* `C105_cascade_violates`: **C105 is violated** by cascades as well: no output from the sample on is finite.
* `C105_overflow_violates`: **C105 is violated** by overflow: two samples of half the limit, whose mean over any window is below the limit, and no result of the moving average is finite from the second on.
* `C105_rms_violates`: **C105 is violated** by `moving_rms` in the same way.
* `C106_amplifier_violates`: **C106 is violated** by `amplifier`: the factor 0, which silences every signal, turns an infinite sample into NaN, and the limits let it pass.
* `C106_clip_violates`: **C106 is violated** by `clipper`: a NaN is not clipped.
* `C106_extrema_violates`: **C106 is violated**: a NaN as the first sample is the maximum, the minimum and the peak, whatever follows.
* `C106_mean_violates`: **C106 is violated** by `mean`: the mean of two samples of half the limit `2^e` is infinite, though the exact mean is one of them.
* `C106_normalize_inf_violates`: **C106 is violated** by `normalize`: if there is an infinite sample, all finite samples become 0 and the infinite ones NaN.
* `C106_normalize_violates`: **C106 is violated** by `normalize`: if the first sample is NaN, all results are.
* `C106_order_violates`: **C106 is violated**: the same samples in another order have another maximum.
* `C106_rssq_violates`: **C106 is violated** by `rssq`, `rms` and `energy`-like sums: the root sum of squares of one sample, its magnitude, is infinite from the square root of the limit on.
* `C107_attackTime_violates`: **C107, attack time violated**: with an attack time of 800 seconds at 44.1 kHz a `float` note never ends its attack and never gets above one half.
* `C107_attack_violates`: **C107, attack violated**: a rate of at most `2^(-p-1)` never brings a fresh note above one half; the exact envelope of C41 arrives.
* `C107_decay_violates`: **C107, decay violated**: from 1 a decay by at most `2^(-p-1)` stays at 1 for ever.
* `C107_releaseTime_violates`: **C107, release time violated**: a `float` note held at level 1 with a release time of 1000 seconds at 44.1 kHz stays at level 1 for ever after `key_off`.
* `C107_release_violates`: **C107, release violated**: from 1 a release by at most `2^(-p-1)` stays at 1 for ever.
* `C108_arrays_violates`: **C108, other arrays are violated**: an engine that has transformed in place may not be used from one array to another, and the other way round; nor for arrays of another alignment.
* `C108_assign_violates`: **C108, assignment is violated**: after assigning a fresh engine to a used one the plan is never destroyed, although all engines are.
* `C108_conv_violates`: **C108, convolution with other allocators is violated**: `conv` and `xcorr` take the allocator as a parameter; if it does not give the two inputs the same alignment, a plan is executed on arrays it was not made for.
* `C108_copy_violates`: **C108, copies are violated**: a copy of an engine that has been used destroys its plan once more, in any program.
* `C108_kinds_violates`: **C108, two transforms on one engine are violated**: an engine that has made one transform may not make another that reads or writes another type of numbers; and if it may, it makes the first transform once more.
* `C108_pffft_copy_violates`: **C108, copies of a pffft engine are violated**: also a copy of an unused engine, as both free the work buffer.
* `C108_pffft_factor_violates`: **C108, sizes of pffft are violated**: nor is there a setup, real or complex, for a multiple of 7.
* `C108_pffft_mixed_violates`: **C108, mixed use of a pffft engine is violated**: after a cosine transform, which needs no setup but makes a real one, a complex transform uses that.
* `C108_pffft_real_violates`: **C108, sizes of pffft are violated**: the constructor accepts every multiple of 16, but a real transform needs a multiple of 32: there is no setup, and the transform uses none.
* `C109_environment_violates`: **C109, the environment is violated**: the text that `get_env` returns is read without the mutex.
* `C109_fft_violates`: **C109, transforms are violated**: whenever two threads make a transform (or destroy an engine), each on objects of its own, some interleaving of the program has a data race in the planner of FFTW.
* `C109_logger_violates`: **C109, the logger is violated**: setting the default name in one thread races with every message of another thread, and setting level or path with reading it.
* `C10_set_a0_violates`: **C10 is false for `set_a0`**: the default filter after `set_a0(2)` answers 1 to the sample 1, the filter constructed from the coefficients it reports answers 1/2.
* `C110_clear_violates`: **C110 is violated** by `clear()`: a buffer that was moved from and cleared has no room for an element, whatever capacity it had: `push_back` divides by zero.
* `C110_dangling_violates`: **C110 is violated** by a buffer that was moved from: it still claims to have its elements, and reading them when the destination is gone is an access to memory given back.
* `C110_moved_from_violates`: **C110 is violated** by a buffer that was moved from: after any careful program, when a full buffer is moved and then pushed to, the value turns up in the destination, in place of its first element.
* `C110_self_violates`: **C110 is violated** by `x = std::move(x)`: the elements are given back, and the span still points at them.
* `C111_read_violates`: **C111 violated.** In every buffer of more than `2^32` elements, `*(begin() + 2^32)` is the first element.
* `C111_size_violates`: **C111 violated.** In every buffer of `2^31` or more elements, after any history, `begin() + (end() - begin())` is not `end()`, though it means just that.
* `C112_window_violates`: **C112 violated.** And it leaves the storage after every other number of pushes: with a window that slides by one sample, `n - 1` times out of `n`.
* `C112_wrapped_violates`: **C112 violated.** After every history that leaves a buffer whose elements do not lie one after the other, every function that works on the address of the first element leaves the storage.
* `C113_azcr_violates`: **C113 is violated by `azcr`**: whatever the number of crossings, the rate is 0, except that it is 1 if every sample differs in sign from the one before.
* `C113_derivative_violates`: **C113 is violated by the derivative of any range with a larger jump**: the values stored are not the differences, or the behaviour is undefined.
* `C113_duration_violates`: **C113 is violated by every signal of between `2^(w-1)` and `2^w` samples**: its duration is negative.
* `C113_effective_duration_violates`: **C113 is violated by `effective_duration`** for every sample rate that the sample type does not hold: the conversion of the rate is undefined.
* `C113_energy_overflow_violates`: In wider types it is undefined behaviour.
* `C113_energy_violates`: **C113 is violated by the energy of ordinary samples** of at most 16 bits: it is too small by at least `2^w` as soon as the sum of the squares is not a value of the type.
* `C113_maxabs_violates`: **C113 is violated by every range that contains the lowest value**: the largest absolute value returned is that value, which is negative; with 32 bits or more it is undefined behaviour.
* `C113_mean_length_violates`: In a type narrower than `int` a number of samples that is a multiple of `2^w` is a division by zero.
* `C113_mean_overflow_violates`: In a type as wide as `int` a sum that leaves the type is undefined behaviour, wherever it happens.
* `C113_mean_violates`: **C113 is violated by the mean of loud samples.** In a type narrower than `int`, `n` equal samples `A` whose sum is not a value of the type do not have the mean `A`.
* `C113_normalize_int_violates`: **C113 is violated by normalize with an integer output**: every sample but those of largest absolute value becomes 0.
* `C113_normalize_sign_violates`: **C113 is violated by normalize for every range with a full-scale negative sample**: all signs are inverted.
* `C113_rectify_violates`: The lowest value is converted out of range.
* `C114_average_length_violates`: A length that is a multiple of `2^w` makes the first sample a division by zero.
* `C114_average_violates`: **C114 is violated by loud constant signals**: the average of samples `A` whose `N`-fold is not a value of the type settles below `A` (for ever).
* `C114_rms_overflow_violates`: In wider types a square that does not fit is undefined at once.
* `C114_rms_violates`: **C114 is violated by ordinary samples** of at most 16 bits: one sample whose square is between `2^(w-1)` and `2^w - N` makes a new filter take the root of a negative number and convert the result, which is undefined.
* `C115_blackman_violates`: **C115 violated: `blackman` starts with a negative number**, in every range of N ≥ 2 cells: -2^-26 in `float`, -2^-56 in `double`, although the published value is 0.
* `C115_triangular_violates`: **C115 violated: long `triangular` windows are constant.** For N > 2^(p+2) cells (2^26 + 1 for `float`) the same number, at most 1/1000, is stored in every cell: `initial += 2` has no effect. The published value in the middle is at least 999/1000.
* `C116_silent_violates`: **Violation.** The exact low-pass passes a constant unchanged (C16). With a correctly rounded cosine, when the cutoff is so low that 2·(2π·fc/fs)² ≤ 2^-p, the designed filter is silent: every output is 0, for every input.
* `C116_undamped_violates`: **Violation.** The exact designs are stable for every quality (C16). With a correctly rounded sine and any cosine, when 2·(2π·fc/fs) ≤ Q·2^-p the second feedback coefficient is exactly 1 in all four designs: none is stable, and `stability()` returns false.
* `C118_difference_violates`: **C118 (difference functions in place), violated.** `amdf` and `asdf` with the destination equal to the source do not depend on the first two samples: those are overwritten before they are used.
* `C118_difference_zero_violates`: **C118 (difference functions in place), violated: wrong values.** On the signal x₀, x₁, 0, …, 0 of any length from 2 on, in place, both functions store zeros only; for x₀ ≠ x₁ the difference functions are positive at lag 1.
* `C118_overlap_violates`: **C118 (output that begins inside the input), violated.** If the destination begins `k` cells after the source, a function that works sample by sample uses its own results as samples from the `k`-th on: cell `i` of the result is the function applied `i / k + 1` times to sample `i mod k`.
* `C11_single_violates`: **C11 is false for the one pole / one zero constructor**: with pole 0 and zero 1/2 the numerator does not vanish at the requested zero.
* `C121_centroid_violates`: **C121 is violated**: the centroid of a spectrum whose only line is the last of four is above the last index.
* `C121_long_violates`: **C121 is violated** by long spectra: the index counts in the type of the elements and stops at `2^p` (for `float` 16777216), so that a single line beyond is reported there.
* `C122_entropy_violates`: **C122**, entropy: not a number as soon as a probability is 0, though `0 log 0` is 0.
* `C122_spectral_entropy_violates`: **C122**, spectral entropy: not a number as soon as a line is 0.
* `C123_constant_violates`: **C123 is violated** by constant signals: three equal samples can have a skewness and a kurtosis of 1, because their computed mean differs from them.
* `C123_rms_violates`: **C123 is violated** by the RMS: that of silence is never 0.
* `C124_azcr_violates`: **C124 is violated** by signals with more than `2^p + 1` samples: a signal that changes its sign at every one of `2^(p+1)` steps (12 minutes of CD audio in single precision) gets the rate 1/2.
* `C124_duration_violates`: **C124 is violated** by longer signals: with `2^p + 1` samples of `p` bits one sample is lost, even if the quotient has more bits.
* `C125_full_violates`: **C125 is violated** at a full buffer too: the throwing call drops the oldest element and puts what the throwing assignment left of it at the other end.
* `C125_strong_violates`: **C125 is violated.** A push that throws never leaves the buffer as it was, in any reachable state with room: the size has grown by one, with a value nobody pushed at that end. This also holds for elements whose own assignment has the strong guarantee (`broken = id`), and for `emplace_back` and `emplace_front` when the constructor throws.
* `C126_undamped_violates`: **Violation.** The exact shelves are stable for every quality (C16). With a correctly rounded sine, when `3 √A (2π fc/fs) ≤ Q 2^-p min(1, A)` (gains up to 120 dB) the second feedback coefficient is exactly 1: neither shelf is stable, and `stability()` returns false.
* `C127_equal_violates`: **C127 is violated** by NaN: a range with a NaN is not equal to any range, not even to itself.
* `C127_rounded_violates`: **C127 is violated** in every precision near the threshold: the frame of a 1 and fifteen samples 2^-j, where p < 2 j ≤ p + 2, is silent for a threshold that is a number with `p` bits and less than its power.
* `C127_upto_violates`: **C127 is violated** at the threshold: the documentation calls a frame with a power "up to a threshold" silent, but a frame whose power is the threshold is not; so no frame at all, not even one of zeros, is silent for the threshold 0.
* `C128_azcr_violates`: **C128 is violated by `azcr`** when the polarity is turned round: 0 counts as positive.
* `C128_rms_silent_violates`: In floating point arithmetic, silence has the same positive RMS at every level.
* `C128_rms_violates`: **C128 is violated by `rms`**, in exact arithmetic for every signal and every factor that changes the level: its sum starts with 1.
* `C129_sawtooth_violates`: **C129 is violated in floating point for other factors**: a rising sawtooth of 1 Hz at 2 Hz in `double` starts its second period at -1, as it started the first; at 49 Hz and 98 Hz, where the product of the frequency and the accumulated time is rounded to just below 1, it is at the other end of its range.
* `C130_bandpass_violates`: **C130 is false of the band-passes.** A Butterworth band-pass centred at a quarter of the sample rate increases the energy of some frame.
* `C131_ends_violates`: **C131 is false of the other windows.** Hamming, Blackman-Harris, Blackman-Nuttall and flat-top windows do not end at 0, so that whatever the overlap every `M`-th sample of a constant signal comes out different from its neighbours.
* `C131_even_violates`: **C131 is false of Hann windows of even length**, the usual ones: `2 M` samples (`M ≥ 3`) every `M` give a constant signal back with a ripple.
* `C132_peak_violates`: What does depend on the order: where the peak is, and which sign the peak of the absolute values has.
* `C132_rounded_violates`: **C132** is false in floating point arithmetic, whatever the precision: four samples have the mean 0 in one order and 1/4 in another.
* `C134_inverse_violates`: **C134 is violated**: expansion does not undo compression. Every sample comes back multiplied by `µ / ln(1 + µ) > 1` (46 for `µ = 255`), so every sample but 0 comes back too loud.
* `C135_dc_violates`: **Violation.** The exact low-pass passes a constant unchanged (C17). When the cutoff is so low that 16·tan²(π·fc/fs) ≤ 2^-p, the computed one is unstable or takes a constant to less than a third.
* `C135_undamped_violates`: **Violation.** The exact designs are stable for every quality (C17). When 4·tan(π·fc/fs) ≤ Q·2^-p and 4·tan²(π·fc/fs) ≤ 2^-p, the second feedback coefficient is exactly 1 in all three designs: none is stable, and `stability()` returns false.
* `C136_rms_violates`: **The root mean square of such a frame is not `A/√2`**: `rms` starts its sum at 1.
* `C136_square_violates`: **The mean of the square oscillator has the wrong sign**: one period with the duty `k/N` has the power `A²` and the mean `A(1 - 2k/N)`, where a signal that is active for the share `k/N` of the period has the mean `A(2k/N - 1)`.
* `C138_silent_violates`: **Violation.** The condition `38400 k² ≤ 2^p` cannot be dropped: for a very low cutoff the designed low-pass outputs 0 for ever for the constant 1, while the output of the exact one tends to 1.
* `C13_reset_violates`: **C13 is false with `reset`**: length 2, samples 4, 4, then `reset`, then 1 returns 5; the mean of the samples since the reset is 1 (1/2 with a leading zero).
* `C13_resize_violates`: **C13 is false with `resize`**: even on a new filter, `resize(2)` and the samples 6, 2 return 6 and 1 instead of 3 and 4.
* `C140_frequency_violates`: **C140, frequency violated**: after `n` samples of a sine or a triangle, raising the frequency by `r / (2n)`, ever less as `n` grows, turns the signal over: the next sample is the negative of that of the tone that goes on.
* `C140_setter_violates`: **C140, filters violated**: setting a coefficient to the value it already has is heard: what the filter holds is thrown away, and the output jumps by it.
* `C140_sweep_violates`: **C140, sweeps violated**: a sweep that sets the frequency to `f + c t` before the sample at time `t` is not the tone of these frequencies but that of `f + 2 c t` (half a sample later): it ends twice as far away as asked for.
* `C141_band_shelf_violates`: **C141 is false of the band shelf in one corner.** Odd order, 0 dB, a band as wide as a quarter of the sample rate (`tan (π bw / fs) = 1`) and a centre not below a quarter of the sample rate, release build: the first sample of every frame is multiplied by a number less than 1 in absolute value. With the centre exactly at a quarter of the sample rate that number is 0.
* `C141_butterworth_odd_violates`: **C141 is false of the odd orders.** Low and high shelf of every odd order, every cutoff and every gain: after the shelf and the one with the opposite gain the first sample of every frame is multiplied by a number less than 1 in absolute value; the same goes for a shelf of 0 dB alone.
* `C141_zoelzer_high_violates`: **C141 is false of the Zoelzer high shelf.** For some gain the shelf with the opposite gain does not give the frame back: cutoff at a quarter of the sample rate, boost to the double.
* `C141_zoelzer_low_violates`: **C141 is false of the Zoelzer low shelf.** For every gain other than 0 dB the shelf with the opposite gain does not give the frame back: both raise the low frequencies.
* `C142_blocks_violates`: The same program with blocks longer than a buffer that does not hold whole frames receives nothing, ever.
* `C142_long_violates`: A request longer than the buffer, when the buffer does not hold whole frames: nothing is delivered and nothing moves, however many frames are left — whole frames asked for or not.
* `C142_ragged_violates`: A request that is not a number of whole frames and no longer than the buffer delivers nothing.
* `C142_write_violates`: A number of samples that is not a number of whole frames: none of them is stored.
* `C143_builds_violates`: **C143, the two libraries are violated**: the same program, with two channels, is told the numbers of frames by one build and the numbers of samples by the other.
* `C143_channels_violates`: **C143 is violated by more than one channel**: the number of channels is not passed on, so that the samples of all channels are converted as those of one. A converter that is one sample late gives the left channel the samples of the right one.
* `C143_documented_size_violates`: **C143 is violated by destinations of the documented size**, `λ N` samples with `λ` the input rate divided by the output rate: a factor of at least 2 and a converter that fills the room it is told it has.
* `C143_factor_violates`: **C143 is violated by factors that are not positive**: the constructor accepts them, reports no error, and every call uses a handle that does not exist; `valid_ratio` accepts everything.
* `C143_lost_violates`: **C143 is violated by every factor above 1**: the room the library is told it has is the length of the input, not `factor` times it. Whatever the converter, as long as it changes the rate by `factor`, it can use at most the `factor`-th part of a stream, and all of it is reported as read.
* `C143_reset_violates`: **C143, starting again is violated**: `reset` reports success and does nothing; a converter that is one sample late begins the next signal with the last sample of the previous one.
* `C144_compute_violates`: **C144 is violated by every histogram**: `compute` stores nothing and counts nothing. Whatever the samples and the number of bins, the destination still holds what it held, so that it is no histogram unless it already was one.
* `C148_shelf_violates`: **C148 is violated by the Butterworth shelves.** With the checks switched on every low, high or band shelf of order 2 or more ends the program, whatever the gain, the frequencies and the build: both moduli handed to `std::polar` are negative.
* `C149_band_violates`: **C149 is false of the band filters.** The band-pass and the band-stop of the same band, centred at a quarter of the sample rate, give out more energy than went in for some frame.
* `C14_resize_violates`: **C14 is false with `resize`**: on a new filter, after `resize(2)`, the samples 2, 1, 1 make the filter take the square root of a negative number.
* `C151_peak2peak_violates`: **C151 is violated by `peak2peak`**: the whole may have a smaller value than one of its parts.
* `C151_repeated_rms_violates`: **C151 is violated by `rms`**: playing a frame more than once lowers its RMS.
* `C151_rms_violates`: **C151 is violated by `rms`**, for every signal of two or more blocks of the same length: the square of the RMS is not the mean of the squares of those of the blocks, nor is the RMS the RMS of them, since each sum starts with 1.
* `C153_clip_violates`: The claim that the outputs stay within the limits: false for limits with more bits than the samples, as with `double` limits and `float` samples.
* `C153_fract_violates`: The claim fract(x) ∈ [0, 1) for all numbers: false in every precision, for the negative numbers next to 0.
* `C155_butterworth_high_violates`: **C155 is violated by every Butterworth high-pass of odd order**: at Nyquist, the far end of its pass band, it answers every alternating signal with the opposite one, and a sinusoid at the cutoff comes out with the opposite sign, as well.
* `C155_chebyshev_high_violates`: **C155 is violated by every Chebyshev II high-pass of odd order**: alternating samples come out with the opposite sign.
* `C15_median_violates`: **C15 is false**: `median` of a sequence of ones is not a median of it.
* `C15_moving_median_violates`: `moving_median` returns 0 whatever the samples, and so is wrong on the constant signal 1.
* `C161_rms_violates`: **C161 is false of `rms`**: its square exceeds the power by `1/N` for every signal, so that for signals of constant magnitude it exceeds the largest magnitude.
* `C17_high_shelf_cut_violates`: **C17**, high shelf, cut: neither the gain at DC nor the gain at Nyquist is the prescribed one. Cutoff a quarter of the sample rate, cut to one half: the gain at DC is 5/8 (prescribed 1) and at Nyquist 1/8 (prescribed 1/2).
* `C17_low_shelf_cut_violates`: **C17**, low shelf, cut: the section is stable with gain 1 at Nyquist, but its gain at DC is `10^(-gainDb/20)`: asking for a cut of any size yields a boost of that size.
* `C19_odd_debug_violates`: **C19 is violated in debug builds for every odd order**: the real pole is inserted together with a zero at infinity, whose imaginary part is not 0, and the contract check of the pair fails.
* `C20_size_violates`: **C20 is violated.** After every history that leaves an even number of poles, `size()` reports one stage too many; and an empty layout, which needs no biquad, has a stage 0 that `at` returns.
* `C22_integer_output_violates`: **C22 is violated for integral output types**: the increment is truncated, so the last value need not be the end point, and `N = 1` divides by zero.
* `C24_index_of_violates`: **C24 is violated on longer ranges**: the offset is cast to a 32-bit integer, so a value whose first occurrence is at an offset `n` with `2^31 ≤ n < 2^32` is reported at the negative index `n − 2^32`.
* `C26_normalize_rms_violates`: **C26 is violated by normalize_rms on every input**: the RMS it divides by is computed from a sum that starts at 1, so the mean square of the result is `E / (1 + E) < 1`, `E` the energy of the input.
* `C27_join_violates`: **C27 (NUL characters violate the round trip).** Whenever a piece holds a NUL character, joining cuts the text off there: the joined text never contains a NUL.
* `C28_trim_violates`: **C28 (negative characters violate the claim).** Text whose first non-blank character is below −1 (every non-ASCII character of a signed `char` except 255) is passed to `std::isspace` outside its domain.
* `C29_is_power_two_violates`: **C29 (the smallest integer).** `is_power_two` of -2^31 computes `tmp - 1` with signed overflow.
* `C30_is_prime_violates`: **C30 (violated).** `is_prime` is false for every prime above 3.
* `C30_parity_violates`: **C30 (parity violated).** Every negative odd integer is reported as even.
* `C31_c_moment_violates`: **C31 is violated by the C function `moment`**: it answers 0 for every order above 8.
* `C31_moment_zero_violates`: **C31 (order 0 violated).** The 0-th moment of every non-empty sample is 1, but `moment<0>` is 0.
* `C34_c_peak_abs_violates`: **C34 is violated by the C function `peak_abs`**: it ignores negative peaks.
* `C35_peak2peak_violates`: **C35 (peak2peak violated).** For every range of non-positive numbers the result has the wrong sign, and for a range with a negative minimum and a positive maximum it is too small by twice the smaller of the two absolute values.
* `C35_peak2rms_violates`: **C35 (peak2rms violated).** The ratio of the peak to the root mean square is at least 1, but every constant range gives less than 1.
* `C36_cent_violates`: **C36 (low frequencies violate the round trip).** Every frequency strictly between 0 and `cent0` comes back negative.
* `C38_welch_violates`: **C38 is violated by `welch` for every even N ≥ 2**: the first value stored is 0, the last one is not.
* `C39_negative_time_violates`: **C39 is violated at negative times** (reachable through `set_timestamp`): a sawtooth of amplitude 1, width 1/2 and frequency 1 gives -2 at the time -1/4, because `std::fmod` is negative there.
* `C40_frequency_violates`: **C40 is violated by `set_frequency`**: for every non-zero duty, `duty()` changes with the frequency, while the samples generated stay those of the frequency of the construction.
* `C40_inverted_violates`: **C40 is violated by the output**: with N samples per period and the duty k/N, one period is k samples of -A followed by N - k samples of A, so the signal is active for the fraction 1 - duty of the period.
* `C41_retrigger_violates`: **C41 is violated by a second `key_on`** before `key_off`: the attack is then aimed at the sustain level, and one sample after `key_on` the gain drops from 3/4 to 1/2 where it should rise.
* `C42_violates`: **C42 is violated by every follower**: whatever its times, its sample rate and its history, one sample takes the output to a normal input level exactly, where a follower with positive times keeps a fraction `exp(-1/(T fs)) > 0` of the distance it starts from.
* `C43_copy_violates`: **C43 is violated by copies**: the classes declare a destructor but keep the implicit copy; a copy of an object with an open file, and the object, both close it.
* `C43_sndfile_violates`: **C43 is violated by the libsndfile classes**: opening a file and closing it makes the destructor close it again; and after `close`, `is_open()` is still true.
* `C44_audiofile_skips_violates`: **C44 is violated by the libaudiofile decoder** also when its buffer is large enough: reading 2 samples of the two-channel file 1, 2, 3, 4 delivers 1 and 2 but skips 3 and 4: the next read finds the end of the file.
* `C44_audiofile_violates`: **C44 is violated by the libaudiofile decoder** on files with several channels: it asks for frames where its buffer holds samples. Any request for at least one internal buffer's worth of samples of a file long enough overruns the buffer.
* `C45_imaginary_violates`: C45: a half spectrum whose first bin is not real is not recovered.
* `C45_odd_violates`: C45, odd lengths from 3 on: the inverse real transform of the real transform stores one sample less than the sequence has; the last cell keeps what it held.
* `C45_one_violates`: C45, length 1: the inverse real transform of the single bin is asked for a transform of size 0.
* `C46_biased_violates`: C46, biased estimate: every lag is half of the biased estimate `R(l)/n`, as soon as that is not 0.
* `C46_dft_long_violates`: The transform itself is limited to frames of less than 2^31 samples.
* `C46_long_violates`: **C46 is false for long frames**: the transforms have twice the size of a frame, and from 2^30 samples on this does not fit the `int` of the engine, although the frame itself can still be transformed.
* `C46_unbiased_violates`: C46, unbiased estimate: the option changes nothing, the raw correlation is stored; the unbiased estimate would be `R(l)/(n-l)`.
* `C47_idct_violates`: C47 is violated: an inverse cosine transform on an engine that has made a cosine transform makes a cosine transform again.
* `C47_inverse_violates`: C47 is violated: an inverse complex transform on an engine that has made a forward one makes a forward one again.
* `C47_mixed_violates`: C47 is violated: an inverse real transform on an engine that has made a real transform executes the wrong sort of plan, whatever the data.
* `C48_dht_violates`: C48 is violated for every other signal: each coefficient lacks the first sample.
* `C48_multiple_violates`: C48 is violated: the engine accepts the sizes `48·2^e`, and the first coefficient it stores for the unit impulse at sample 1 is 0; twice the cosine sum is 2.
* `C49_entropy_one_violates`: C49 is violated for a spectrum of one line: 0 divided by 0.
* `C49_entropy_zero_violates`: C49 is violated when a probability is 0: the entropy is well defined (here 0), the result is not a number.
* `C49_spread_formula_violates`: The documentation gives the mean squared deviation itself as the spread; the code returns its root.
* `C50_tie_violates`: C50 is violated: where a prefix has exactly the requested share the code goes on (half of the energy of 1, 1 is reached by the first sample; all of the energy of 1, 0, 0 too), and what it returns is not an index.
* `C51_azcr_violates`: C51 is violated at zeros: the documented rate of 0, -1, 0 is 0, the code returns 1; and a single sample gives 0/0.
* `C51_rms_violates`: C51 is violated by `rms` for every signal: the square of the result exceeds the mean square by 1/N.
* `C52_decrease_violates`: C52 is violated by `decrease` for every sequence: the counter starts at 0 and the first term is 0/0.
* `C52_flux_logarithmic_violates`: C52 is violated by `flux` with the logarithmic distance, which is signed too: for spectra without a zero line whose sums are taken over the right ranges, the flux is a difference of sums of logarithms, so that a permutation of a spectrum has flux 0.
* `C52_flux_manhattan_violates`: C52 is violated by `flux` with the Manhattan distance, which sums signed differences: where the sums are taken over the right ranges, the result is 0 for every two spectra, different or not.
* `C52_flux_violates`: C52 is violated by `flux`: two equal spectra one behind the other do not have flux 0.
* `C52_irregularity_flat_violates`: A flat spectrum of at least two lines has irregularity 0, and `spectral_irregularity` never returns 0 for it.
* `C52_irregularity_violates`: C52 is violated by `spectral_irregularity`: the numerator is the number of lines whatever they are, and the last line does not count.
* `C52_slope_flat_violates`: A flat spectrum has slope 0; `slope` returns 1/3.
* `C52_slope_violates`: C52 is violated by `slope`: whatever the data, the result is one over the sum of the axis.
* `C52_snr_violates`: C52 is violated by `snr`: a constant signal has no power to compare, and yet with two more samples between the two signals `snr` answers 10 log10((1/2)/(1/4)); with the signals the other way round in memory it reads backwards and with both at the same place it divides by 0.
* `C52_variation_violates`: C52 is violated by `variation`: spectra without a common line have variation 1, `variation` returns 0.
* `C53_brown_silent_violates`: C53 is violated for integer samples (the only ones `std::uniform_int_distribution` admits): brown noise of white samples within ±49 is silence for ever.
* `C53_pink_silent_violates`: And pink noise of white samples within ±1 is silence for ever.
* `C53_range_violates`: Brown noise leaves the interval given to the constructor: with white samples of 1 the limit is 3.5, and every value below is passed.
* `C54_invalid_violates`: C54 is violated for a name with `=`: the code is that of an unknown error, not of an invalid argument.
* `C54_null_violates`: C54 is violated for a default view: `get_env` passes its null pointer on before it looks at the length.
* `C54_part_violates`: C54 is violated for a view that does not end where its text ends: asked for A, the first character of "AB", the library looks for AB.
* `C54_view_violates`: C54 is violated by what `get_env` returns: a view into the environment, read after the mutex is given back. Thread 0 is told that A is x, thread 1 sets A, and the text thread 0 holds is gone.
* `C55_odd_debug_violates`: **C55/C56 are violated in debug builds for every odd order**: both designs stop at a failed contract check, at every cutoff.
* `C57_odd_debug_violates`: **C57/C58 are violated in debug builds for every odd order.**
* `C62_distance_violates`: **C62 (distances, what fails).** The Manhattan distance is negative whenever the second argument is larger, so it is not symmetric, and the euclidean one violates the triangle inequality.
* `C63_spacing_violates`: **C63 is violated**: `melspace` over [0, 1400] Hz with three cells stores three values whose first step is larger than the second, so they are not uniformly spaced on the mel scale.
* `C65_release_rate_violates`: **C65 is violated by `release_rate()`**: it returns the release time, so that after `set_release_rate(r)` it reports -1, never the rate.
* `C65_target_violates`: **C65 is violated by the attack target**: the target set by the user is used for the first note only; after the next `key_off` the following note rises to 1, whatever target had been set.
* `C66_empty_violates`: **C66 is violated by empty ranges**: writing an empty range that ends its storage, as `write(v.begin(), v.end())` of an empty vector, dereferences its past-the-end iterator.
* `C66_long_violates`: **C66 is violated by long ranges**: the length is narrowed to 32 bits, so that 2^32 samples and more lose 2^32 of them without any error.
* `C69_dct_violates`: C69 is violated: the documentation of `dct` promises the plain sums, but a single sample comes back doubled.
* `C70_documented_violates`: C70 is violated: the documentation promises `|F⁻¹ log |F x|²|²`; the single sample 2 gives `log 2` instead of `(log 4)²`.
* `C70_no_mean_violates`: In particular samples that add up to 0 have no cepstrum.
* `C70_zero_bin_violates`: C70 is violated: if some bin of the padded transform vanishes, the logarithm of 0 is taken.
* `C71_centre_gain_violates`: **C71 is violated: a band-pass amplifies its pass band.** For every band centred at a quarter of the sample rate, every order and every bandwidth, the gain of the Butterworth band-pass at its centre is strictly above 1.
* `C71_cheb_odd_debug_violates`: The same for the Chebyshev designs of both kinds.
* `C71_odd_debug_violates`: **C71/C72 are violated in debug builds for every odd order.**
* `C72_edges_violates`: **C72 is violated: the band edges are not at −3 dB.** For every order and every band whose width is not exactly a quarter of the sample rate, the gain of the Butterworth band-stop at both edges differs from `1/√2`.
* `C73_odd_debug_violates`: **C73 is violated in debug builds for odd orders when the gain, or its inverse, is `(1 / tan (π bw/fs))^(2n)`**: one image of the single pole or zero is then 0, which the contract check on the pairs rejects.
* `C74_large_ripple_boost_violates`: **C74 is violated by a ripple that is not smaller than the boost.** For every order, every boost and every such ripple the design succeeds (odd orders: unless its real zero is mapped to infinity, which divides by 0), but the gain is not the one requested at the innermost extremum of the shelf, or is above 0 dB at the cutoff, where it should be `ripple` dB or more below the requested gain.
* `C74_large_ripple_violates`: **C74 is violated by a ripple that is not smaller than the cut.** For every cut, every such ripple and every odd order the gain at frequency 0 is not the one requested.
* `C74_odd_debug_violates`: **C74 is violated in debug builds for band shelves of odd order** whose single pole or zero has 0 as an image: the contract check on the pairs fails.
* `C74_zero_gain_violates`: **C74 is violated at 0 dB.** A shelf of 0 dB, which should change nothing, divides by 0 for every order and every ripple that is not negative.
* `C77_copy_violates`: **C77, copies are violated**: copying a resampler and letting both go releases the library handle twice, in any program that has kept its books until then.
* `C77_counter_violates`: **C77 is violated for more than one channel**: the counter returned, documented as the number of samples computed and recommended for resizing the destination, is smaller than the number of samples stored, whenever something is generated.
* `C77_documented_size_violates`: **C77 is violated by the documented destination size.** The documentation asks for `λN` samples with `λ` the input rate divided by the output rate, the inverse of the factor given to the constructor. For every factor of at least 2 and every input of at least one frame a conforming converter then makes the call write outside the destination.
* `C77_short_blocks_violates`: **C77 is violated by short blocks.** If no block has as many as `1/ratio` frames, nothing is ever generated, however many blocks are sent and whatever the converter does with them.
* `C77_zero_channels_violates`: **C77, a constructor without channels is violated**: with 0 channels, accepted by the constructor, every call divides by zero.
* `C78_channels_violates`: **C78 is violated for more than one channel**: whenever something is generated the result is copied into an array that is too short.
* `C79_find_last_violates`: **C79, find_last_of and find_last_not_of are violated on an empty view**: instead of returning `npos` they call themselves without end.
* `C79_find_violates`: **C79, find, is violated by an empty text at the end**: it occurs there, but is not found. In particular an empty view does not find itself.
* `C80_output_violates`: **C80, output is violated on a stream without adjustment flags** (every fresh stream): each text that is to be filled up is filled on the wrong side, which shows as soon as it does not begin with fill characters.
* `C81_extent_violates`: **C81, the size of a span with a fixed extent is violated**: it may be made of fewer elements than its extent, and `subspan<offset>()` then views cells that do not belong to it.
* `C81_overflow_violates`: **C81, the check of `subspan` is violated by large counts**: on every span with an element, an offset of 1 and the greatest count overflow in the check itself, instead of being rejected.
* `C82_copy_violates`: **C82, exceptions of copy assignment are violated**: if the moves of the contained type are noexcept, as those of `std::string` are, then a copy assignment in which copying the value throws does not pass on the exception, but ends the program.
* `C83_chain_violates`: **C83, a chained assignment is violated**: `(a = b) = c` leaves `a` with the content of `b`, as the first assignment returns a copy of `a` instead of `a`.
* `C83_throw_violates`: **C83, a throwing move is violated**: if the move constructor of the value throws while a value and an error are exchanged, the object with the error is left without content, so that its destructor destroys an object that does not exist; assignments do the same.
* `C84_integers_violates`: **C84 is violated by integer arrays**: the bits of the integers are taken for floating point numbers, so that a function of an array of non-negative integers below 2^52 works on the integers divided by 2^1074.
* `C84_large_integers_violates`: **C84 is violated by large integers** too: `e · 2^52 + m`, where `m < 2^52` and `1 ≤ e ≤ 2046`, is taken for `(2^52 + m) · 2^(e - 1075)`, and the integer 2^63 less for the same number with a minus sign.
* `C84_large_violates`: **C84 is violated by arrays with 2^31 to 2^32 - 1 elements** by all functions implemented in C: the size is converted to a negative number.
* `C84_negative_integers_violates`: **C84 is violated by small negative integers**: an array that begins with an integer between -2^52 and -1 begins with NaN for the function.
* `C84_reversed_violates`: **C84 is violated by reversed views**: every function of `x[::-1]`, from two elements on, reads behind the end of the memory of `x`.
* `C84_step_violates`: **C84 is violated by slices with a step**: a function of `x[::k]` works on the first numbers of `x` instead of on every `k`-th. For example the sum over `x[::2]` of 1, 2, 3, 4 is 3 instead of 4.
* `C85_longer_violates`: **C85 is violated by a second array that is longer**: its additional elements are ignored silently.
* `C85_rank_violates`: **C85 is violated by arrays with several dimensions**: the features of two arrays accept one of them to have any number of dimensions, and use its first numbers only: here a table of 2 times 2 numbers as the first array.
* `C85_shorter_violates`: **C85 is violated by a second array that is shorter than the first**: instead of rejecting the pair, every function of two arrays (weighted centroid and spread, flux, slope, variation, conv, xcorr) reads behind the end of the second one.
* `C86_end_violates`: **C86, Decoder.read is violated at the end of a file**: if less samples are delivered than requested, the call raises an exception and the samples are lost.
* `C86_environment_violates`: **C86, get_environment is violated by variables that do not exist**: instead of returning the documented error number it makes a string of a null pointer.
* `C86_real2complex_violates`: **C86, real2complex is violated for every input**: the function reads the array it is to fill, so that the result is whatever number was in memory, followed by zeros, independent of the input.
* `C86_shape_violates`: **C86, the shape of Decoder.read is violated** for two or more channels: whenever an array is returned, it has one dimension instead of frames times channels.
* `C87_endl_violates`: **C87, tab and endl are violated**: they print the numbers of the characters, `9` and `10`, instead of the characters.
* `C87_level_violates`: **C87, the levels are violated**: a message is printed on the standard output whatever the minimum level is, also if logging is off, and also if it is for a file.
* `C87_null_violates`: **C87, strings with a null character are violated**: the rest is not printed.
* `C87_overrun_violates`: **C87, views into memory without a null character are violated**: printing them reads outside the memory.
* `C87_view_violates`: **C87, views are violated**: what is printed does not depend on the length of the view; of a view of the first `n` characters of a text it is the whole text.
* `C88_date_violates`: **C88, the date is violated**: `get_build_date` returns the time of the build, in every build whose date and time differ.
* `C88_encoder_violates`: **C88, the encoder is violated**: every build with libaudiofile reports it, and encodes with libsndfile.
* `C88_fft_violates`: **C88, the transform library is violated**: every build that computes its transforms with PFFFT reports FFTW.
* `C88_tags_violates`: **C88, tags are violated**: reading a field of a file that is missing or not recognised dereferences a null pointer; there is no function to ask whether the file could be read.
* `C89_levels_violates`: **C89 is violated for changing levels**: two frames, with levels 0 dB and 20 dB, and a window of two frames: the value returned is 10 dB; the equivalent level is more than 17 dB.
* `C89_silent_violates`: **C89 is violated by silence**: a silent frame makes the estimator evaluate the logarithm of zero (a failed assertion in a debug build), although the equivalent level of the last frames is defined.
* `C89_start_violates`: **C89 is violated at the start**: of one frame of level `L` (or the first of many) an estimator over `n` frames returns `L / n`; for a level of 60 dB and 3 frames that is 20 dB.
* `C90_complex_rfft_violates`: C90 is violated: `rfft` of a complex array transforms the parts of the first half of the elements, one after the other, and leaves the other half out.
* `C90_odd_violates`: C90 is violated: for an odd number of elements `irfft(rfft(x))` has one element less than `x`.
* `C90_real_fft_violates`: C90 is violated: given a real array, `fft` and `ifft` read twice as many numbers as there are.
* `C90_real_irfft_violates`: C90 is violated: so does `irfft`, for at least two elements.
* `C90_short_violates`: C90 is violated: a second array that is shorter than the first is read beyond its end.
* `C91_pad_violates`: C91 is violated: `pad` to a smaller size aborts in a debug build and writes behind the new array in a release build.
* `C91_uninitialised_violates`: C91 is violated: a size is cut to 32 bits, so an array of 2^32 numbers is returned as it came, whatever its memory holds.
* `C92_average_violates`: **C92 is violated**: after the samples 1 and `s` (any number with less than half a unit in the last place of 1) and at least `n` zeros, the moving average is negative, and stays so for ever, although no sample was: what is lost when `s` is added to 1 is missing when `s` is subtracted.
* `C92_rms_violates`: **C92 is violated**: the moving root mean square of 1, a small `b` and at least `n` zeros is not a number, for ever.
* `C93_clock_violates`: **C93 is violated**: the clock of every `float` oscillator at 44100 Hz never passes 512 seconds, however many samples are generated.
* `C93_pitch_violates`: **C93 is violated**: from 256 seconds on, every sample of a `float` oscillator at 44100 Hz advances the clock by 1/32768 of a second: the frequency is 34 percent too high (a 440 Hz tone sounds at 592 Hz).
* `C93_stop_violates`: **C93 is violated**: whatever the precision, the waveform, the sampling period and the sine of the library, after some number of samples every further sample is the same and `timestamp()` does not change any more.
* `C94_constant_violates`: **C94 is violated**: the mean of three equal numbers can be smaller than all of them, and their variance is not 0.
* `C94_long_violates`: **C94 is violated**: sums do not grow beyond 2^p when ones are added. The mean of 2^(p+1) ones is 1/2, that of 2^(p+j) ones is 2^-j (in `float` from 2^24 elements on, six minutes of sound), and their energy is 2^p.
* `C95_beyond_violates`: **C95 is violated**: in `float`, the last value of `linspace(d, 0.f, 1.f, 11)` is greater than 1.
* `C95_count_violates`: **C95 is violated**: for `N = 2^p + 1` (16777217 in `float`) only `N - 1` values are stored, as the number of values is rounded; the last position keeps what it held.
* `C95_short_violates`: **C95 is violated**: in `double`, the last value of `linspace(d, 0., 1., 7)` is less than 1.
* `C97_empty_violates`: **C97 is violated**: a size below 1, such as 0 or 0.5, is accepted, and the first sample then divides by the size of the window, 0, to find its first element.
* `C97_size_violates`: **C97 is violated**: the size of a moving filter is a floating point number; a negative one (or 2^64) is converted to an unsigned number, which is undefined.
* `C98_negative_violates`: **C98 is violated**: a negative size does not raise a Python exception; in all four functions, whatever the frequencies, it ends the interpreter.
* `C99_case_violates`: **C99 is violated**: `to_upper` and `to_lower` of a text with any character outside ASCII is undefined behaviour (a negative `char` is handed to `std::toupper`), and only then.
* `C99_join_violates`: **C99 is violated (join).** The result of `join` stops at the first NUL of any of the texts.
* `C99_long_delimiter_violates`: **C99 is violated (delimiter).** A delimiter of several characters is cut to its first one without notice, and an empty delimiter stands for NUL.
* `C99_trim_violates`: **C99 is violated**: `trim` and `ltrim` of a text whose first character that is not blank lies outside ASCII, and `rtrim` of one whose last such character does, is undefined behaviour.
* `C99_wide_delimiter_violates`: **C99 is violated (delimiter outside ASCII).** With a delimiter outside ASCII, a text that contains it can make `split` raise: the text consisting of the delimiter alone always does, although there is nothing to return.
