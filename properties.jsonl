{"id": "C01", "title": "ring_buffer is a bounded deque for every history", "statement": "A ring_buffer of capacity N>0 is observationally a bounded double-ended queue: after any history of push_back, emplace_back, emplace_front, pop_front, pop_back, clear, resize, every observation (size, capacity, empty, full, front, back, the sequence seen by forward iteration from begin() to end(), by reverse iteration) is the one given by a plain list in which adding at one end of a full list first drops the element at the other end.", "quantifier": "every capacity N>0, every element type/value, every finite history of the operations, every observation after it", "why_tests_cant": "The wrap-around arithmetic depends on (front index, size, capacity) reached by unbounded histories; a test exercises only a few wrap positions of a few capacities.", "anchors": ["include/edsp/types/ring_buffer.hpp: ring_buffer (ctor, push_back, emplace_back, emplace_front, pop_front, pop_back, clear, resize, front, back, begin, end)", "include/edsp/thirdparty/nonstd/ring_span.hpp: ring_span, ring_iterator"]}
{"id": "C02", "title": "a full ring buffer holds exactly the last N values", "statement": "After pushing any sequence xs at the back of a ring_buffer of capacity N>0 (constructed empty, or constructed with a fill value v), iterating it yields exactly the last N entries of xs (respectively of N copies of v followed by xs), oldest first; nothing older survives and nothing recent is lost.", "quantifier": "every N>0, every fill value, every finite sequence xs of any length", "why_tests_cant": "It is a statement about arbitrarily long pushes past the wrap point for all capacities.", "anchors": ["include/edsp/types/ring_buffer.hpp: ring_buffer(size_type), ring_buffer(size_type, const T&), push_back", "include/edsp/thirdparty/nonstd/ring_span.hpp: push_back, increment_front_and_back_, back_"]}
{"id": "C03", "title": "ring buffer never touches memory outside its storage; misuse is exactly empty pop / zero-capacity access", "statement": "For every history, each operation either performs only slot accesses with index < capacity and keeps size <= capacity, or it is a fault; and it is a fault exactly when it is a pop on an empty buffer (assert) or a push/emplace/pop/front/back on a buffer of capacity 0 (modulo by zero). In particular pushes on a buffer with capacity >= 1 are always defined, and front()/back() on an empty buffer of positive capacity read a stale slot but stay inside the storage.", "quantifier": "every capacity including 0 (default constructed) up to vector::max_size, every finite history", "why_tests_cant": "Absence of out-of-range accesses on every path of every history cannot be sampled; asserts are compiled out in release builds.", "anchors": ["include/edsp/types/ring_buffer.hpp: ring_buffer", "include/edsp/thirdparty/nonstd/ring_span.hpp: normalize_, at, front_, back_, pop_front, pop_back, push_back"]}
{"id": "C04", "title": "moving a fixed_ring_buffer yields an independent, equal buffer", "statement": "After `fixed_ring_buffer b(std::move(a))` (or move assignment) b contains the elements a had, and later operations on a (or its destruction) do not change what b contains. (The code violates this: the span inside b keeps pointing at the array inside a.)", "quantifier": "every capacity, every history before the move, every history on either object after it", "why_tests_cant": "Needs reasoning about aliasing over all later histories; a test that does not touch the source after the move sees nothing wrong.", "anchors": ["include/edsp/types/fixed_ring_buffer.hpp: fixed_ring_buffer(fixed_ring_buffer&&), operator=, ring_"]}
{"id": "C05", "title": "clear and resize are indistinguishable from a fresh buffer", "statement": "After clear() (respectively resize(M), M>0) a ring_buffer behaves, for every later history of defined operations, exactly like a freshly constructed empty buffer of capacity N (respectively M); the stale contents of the storage are never observable.", "quantifier": "every prior history, every M>0, every later history", "why_tests_cant": "Stale-slot leaks only show for particular pre/post histories.", "anchors": ["include/edsp/types/ring_buffer.hpp: clear, resize", "include/edsp/types/fixed_ring_buffer.hpp: clear"]}
{"id": "C06", "title": "biquad realises its difference equation", "statement": "Starting from a fresh or reset state, for every input signal x the n-th output of biquad::operator()/filter is y[n] = b0 x[n] + b1 x[n-1] + b2 x[n-2] - a1 y[n-1] - a2 y[n-2] with all samples of negative index equal to 0, for every n, where the coefficients are those reported after normalisation by a0.", "quantifier": "every coefficient tuple with a0 != 0, every input sequence of any length, every n (exact arithmetic)", "why_tests_cant": "The transposed direct-form-II state only equals the difference equation by an invariant over the whole history.", "anchors": ["include/edsp/filter/biquad.hpp: biquad(a0..b2), tick, filter, reset"]}
{"id": "C07", "title": "biquad block processing is independent of chunking, and reset replays", "statement": "Filtering a signal in one call, or split into any consecutive chunks over any number of calls, or sample by sample, gives the same output sequence; and after reset() (from any state) the filter produces exactly what a newly built filter with the same coefficients produces.", "quantifier": "every coefficient set, every state, every signal, every way of splitting it", "why_tests_cant": "Infinitely many splits and preceding states.", "anchors": ["include/edsp/filter/biquad.hpp: filter, tick, reset", "include/edsp/filter/biquad_cascade.hpp: filter, tick, reset"]}
{"id": "C08", "title": "biquad and cascade are linear and time invariant", "statement": "From rest, filter(alpha*x + beta*y) = alpha*filter(x) + beta*filter(y), and delaying the input by k zero samples delays the output by k zero samples, for biquads and for cascades of any number of stages.", "quantifier": "every coefficient set and number of stages, every pair of signals of equal length, every alpha, beta, k (exact arithmetic)", "why_tests_cant": "Universally quantified algebraic law over signals.", "anchors": ["include/edsp/filter/biquad.hpp: tick, filter", "include/edsp/filter/biquad_cascade.hpp: tick, filter"]}
{"id": "C09", "title": "stability() decides pole location and guarantees decay and bounded output", "statement": "stability() returns true exactly when both (complex) roots of z^2 + a1 z + a2 lie strictly inside the unit circle; and when it returns true, from any state the response to zero input tends to 0 and every bounded input produces a bounded output.", "quantifier": "all real a1, a2; every initial state; every bounded infinite input", "why_tests_cant": "Statement about all coefficients and infinite signals; tests see only finite prefixes.", "anchors": ["include/edsp/filter/biquad.hpp: stability, tick"]}
{"id": "C10", "title": "coefficient setters behave like reconstruction", "statement": "After calling any of set_a0, set_a1, set_a2, set_b0, set_b1, set_b2 the filter behaves as one freshly constructed from the coefficients it now reports; and constructing with a common factor in all six coefficients gives the same filter. (The setter law is violated by set_a0: the stored a0 is reported but never used.)", "quantifier": "every coefficient set, every setter argument, every subsequent input", "why_tests_cant": "The law relates two objects over all signals.", "anchors": ["include/edsp/filter/biquad.hpp: set_a0, set_a1, set_a2, set_b0, set_b1, set_b2, biquad(a0..b2), tick"]}
{"id": "C11", "title": "pole/zero constructors place the requested poles and zeros", "statement": "A biquad built from one (pole, zero) pair has transfer function numerator vanishing exactly at z=zero and denominator vanishing at z=pole; built from two poles and two zeros (real or conjugate) its numerator and denominator vanish exactly at the requested zeros/poles, with real coefficients. (Violated by the one pole/zero constructor: its numerator coefficients are swapped, putting the zero at 1/zero.)", "quantifier": "all complex/real poles and zeros accepted by the constructor", "why_tests_cant": "Claim over all pole/zero placements, not samples.", "anchors": ["include/edsp/filter/biquad.hpp: biquad(pole, zero), biquad(pole_first, zero_first, pole_second, zero_second)"]}
{"id": "C12", "title": "cascade is ordered composition and never writes past its capacity", "statement": "A biquad_cascade<T,N> built by k <= N push_back/emplace_back calls outputs, for every signal, stage k applied to ... stage 1 applied to the signal; an empty (or cleared) cascade is the identity; from rest the order of the stages does not matter; size() is the number of stages pushed since the last clear; and a push when k = N is outside the contract (undefined when asserts are off), never otherwise.", "quantifier": "every N, every list of stages, every signal, every history of push/clear/reset/filter", "why_tests_cant": "Composition and history properties over unbounded data; overflow only at the boundary.", "anchors": ["include/edsp/filter/biquad_cascade.hpp: push_back, emplace_back, tick, filter, reset, clear, size"]}
{"id": "C13", "title": "moving_average output is the mean of the last N samples", "statement": "For a moving_average<T>(N), N>0, after any history of samples, the value returned for a sample is the arithmetic mean of the last N samples (samples before the first count as 0); and this stays true after reset() and resize() with the history restarted. (The code violates the second half: reset/resize do not clear the running sum.)", "quantifier": "every N>0, every sample sequence, every interleaving of reset/resize (exact arithmetic)", "why_tests_cant": "The running sum must agree with the window after unbounded histories; the test suite has this test commented out.", "anchors": ["include/edsp/filter/moving_average_filter.hpp: moving_average (ctor, reset, resize, operator(), filter)"]}
{"id": "C14", "title": "moving_rms output is the root mean square of the last N samples", "statement": "For a moving_rms<T>(N), N>0, the value returned for each sample is sqrt of the mean of squares of the last N samples (zeros before the first), and the quantity under the root is never negative; also after reset()/resize(). (Second half violated as in C13.)", "quantifier": "every N>0, every sample sequence, every interleaving of reset/resize (exact arithmetic)", "why_tests_cant": "As C13; plus the non-negativity of a running difference of squares for every history.", "anchors": ["include/edsp/filter/moving_rms_filter.hpp: moving_rms (ctor, reset, resize, operator(), filter)"]}
{"id": "C15", "title": "median and moving_median return a median", "statement": "statistics::median of a non-empty sequence is a value m with at least half of the elements <= m and at least half >= m, and moving_median returns the median of the last N samples. (Violated: median is a stub returning 0.)", "quantifier": "every non-empty sequence, every N>0, every history", "why_tests_cant": "Order-statistics claim over all inputs; the repo's test only checks size().", "anchors": ["include/edsp/statistics/median.hpp: median", "include/edsp/filter/moving_median_filter.hpp: moving_median"]}
{"id": "C16", "title": "RBJ designs are stable with the prescribed response at 0 and Nyquist", "statement": "For every sample rate fs>0, every 0<fc<fs/2, every Q>0 (and gain), the RBJ low-pass/high-pass/band-pass/all-pass/shelf sections satisfy stability(), and have the prescribed magnitude at DC and Nyquist (LP: 1 and 0; HP: 0 and 1; BP: 0 and 0; all-pass: modulus 1 at every frequency; shelves: A^2 on the shelf side and 1 on the other).", "quantifier": "every fs, fc, Q, gain in the stated open ranges; for the all-pass every frequency", "why_tests_cant": "Continuum of parameters; a grid of tests cannot exclude an unstable corner.", "anchors": ["include/edsp/filter/internal/rbj_designer.hpp", "include/edsp/filter/biquad.hpp: stability"]}
{"id": "C17", "title": "Zoelzer designs are stable with the prescribed DC/Nyquist gains", "statement": "For every 0<fc<fs/2 and Q>0 the Zoelzer low-pass/high-pass/band-pass sections are stable with DC/Nyquist gains (1,0)/(0,1)/(0,0), and the shelves (boost and cut) give the prescribed shelf gain on the shelf side and 1 on the other. (Violated by both cut branches: the low shelf boosts by the requested cut, the high shelf passes its coefficients in the wrong places.)", "quantifier": "every fs, fc, Q, gain in the stated ranges", "why_tests_cant": "Continuum of parameters and a rarely taken branch.", "anchors": ["include/edsp/filter/internal/zoelzer_designer.hpp"]}
{"id": "C18", "title": "bilinear low-pass/high-pass transforms map stable analog prototypes to stable digital filters", "statement": "For every cutoff strictly between 0 and Nyquist, the low-pass and high-pass s->z mapping sends every analog point with negative real part strictly inside the unit circle, every point of the imaginary axis on it, infinity to z=-1 (LP) / z=1 (HP), and conjugates to conjugates; hence conjugate pole pairs give real, stable biquads.", "quantifier": "every cutoff, every complex analog pole/zero including infinity", "why_tests_cant": "Complex-analytic fact over a continuum.", "anchors": ["include/edsp/filter/internal/bilinear/lowpass_transformer.hpp", "include/edsp/filter/internal/bilinear/highpass_transformer.hpp", "include/edsp/filter/internal/abstract_designer.hpp"]}
{"id": "C19", "title": "Butterworth analog prototype has exactly `order` left-half-plane poles on the unit circle", "statement": "For every order n>=1 the Butterworth low-pass analog design inserts exactly n poles, all of modulus 1 with negative real part, closed under conjugation, the product of (s - p) evaluated on the imaginary axis having squared modulus 1 + w^(2n), and n zeros at infinity.", "quantifier": "every order n >= 1, every frequency w", "why_tests_cant": "Trigonometric identity for all orders.", "anchors": ["include/edsp/filter/internal/butterworth_designer.hpp: LowPassAnalogDesigner", "include/edsp/filter/internal/bilinear/layout_base.hpp"]}
{"id": "C20", "title": "pole/zero layout counts poles and stages correctly", "statement": "After any sequence of insertions into an empty layout the reported number of poles is the number inserted and the reported number of stages is the number of biquads needed, i.e. ceil(poles/2), and at(i) is defined exactly for i below it.", "quantifier": "every capacity, every insertion sequence (single, conjugate, pair)", "why_tests_cant": "Bookkeeping over all insertion histories.", "anchors": ["include/edsp/filter/internal/bilinear/layout_base.hpp: LayoutBase::insert, insert_conjugate, size, at, poles, reset"]}
{"id": "C21", "title": "clipping stays in range, fixes in-range values and is idempotent", "statement": "Every output of clipper (and of amplifier with bounds) lies in [min,max] when min<=max; a value already in range is unchanged; clipping twice equals clipping once; output length equals input length; the map is monotone.", "quantifier": "every min<=max, every input sequence", "why_tests_cant": "Range claims over all values.", "anchors": ["include/edsp/algorithm/clipper.hpp: clipper", "include/edsp/algorithm/amplifier.hpp: amplifier"]}
{"id": "C22", "title": "linspace hits both endpoints with uniform spacing", "statement": "linspace(x1,x2,N) for N>=2 produces N values, the i-th being x1 + i (x2-x1)/(N-1), so the first is x1 and the last is x2; for N=1 it produces the single value x1 and for N=0 nothing. (For an integral element type the increment is truncated, so the last value is not x2, and N=1 divides by zero: shown as a violation.)", "quantifier": "every x1, x2 and N (exact arithmetic; N=1 exposes a division by zero)", "why_tests_cant": "All N.", "anchors": ["include/edsp/algorithm/linspace.hpp: linspace", "include/edsp/algorithm/logspace.hpp: logspace"]}
{"id": "C23", "title": "binary_search finds the first occurrence in a sorted range", "statement": "On a range sorted increasingly binary_search returns the position of the first element not less than the value; hence it finds a value iff it is present and then at its first occurrence; the C/Python binding returns -1 iff the value is absent.", "quantifier": "every sorted range of any length, every value", "why_tests_cant": "All lengths, duplicates and absent values; tests only look up present values.", "anchors": ["include/edsp/algorithm/binary_search.hpp: binary_search", "bindings/c/src/algorithm.c: binary_search"]}
{"id": "C24", "title": "linear_search, index_of and contains agree on the first occurrence", "statement": "linear_search returns the first position holding the value or the end; index_of returns that position or -1 (violated for positions from 2^31 on, where the 32-bit result wraps); contains is true iff the value occurs; on sorted input linear_search and binary_search find the same position when the value is present.", "quantifier": "every range, every value", "why_tests_cant": "All inputs.", "anchors": ["include/edsp/algorithm/linear_search.hpp", "include/edsp/algorithm/indexof.hpp", "bindings/c/src/algorithm.c: linear_search, index_of, contains"]}
{"id": "C25", "title": "padder and concatenate write exactly the output range", "statement": "padder writes the input followed by zeros and fills exactly the output range when the output is at least as long as the input; concatenate writes the two inputs in order, exactly |a|+|b| values; a shorter output range is outside the contract (writes past the end).", "quantifier": "every input and output length", "why_tests_cant": "Out-of-range writes for all length combinations.", "anchors": ["include/edsp/algorithm/padder.hpp: padder", "include/edsp/algorithm/concatenate.hpp: concatenate"]}
{"id": "C26", "title": "normalize maps the peak to 1 and preserves shape", "statement": "normalize of a sequence with non-zero peak multiplies every sample by one and the same positive factor, the largest absolute value of the result is 1, and normalising again changes nothing; normalize_rms yields unit RMS (violated on every input: the sum of squares starts at 1).", "quantifier": "every sequence not identically zero (exact arithmetic)", "why_tests_cant": "All sequences.", "anchors": ["include/edsp/algorithm/normalize.hpp: normalize, normalize_rms"]}
{"id": "C27", "title": "string split/join round trip", "statement": "Splitting by a delimiter never yields an empty piece or a piece containing the delimiter; joining non-empty delimiter-free pieces and splitting gives the pieces back; splitting a string and joining drops exactly the empty segments, so split(join(split s)) = split s. (Pieces with an embedded NUL character violate it: join appends C strings and truncates them.)", "quantifier": "every string, every delimiter, every list of pieces", "why_tests_cant": "All strings with leading/trailing/repeated delimiters.", "anchors": ["include/edsp/string/split.hpp: split", "include/edsp/string/join.hpp: join"]}
{"id": "C28", "title": "trim removes exactly the maximal blank prefix/suffix", "statement": "ltrim/rtrim/trim return the string without its maximal leading/trailing/both runs of blanks: the result is a contiguous piece of the input, does not start/end with a blank, what was removed is all blank; trim is idempotent and ltrim and rtrim commute. tolower/toupper preserve length, are idempotent, and change ASCII letters only. (Violated for characters with negative code: the ctype functions are called outside their domain.)", "quantifier": "every string", "why_tests_cant": "All strings (all-blank and empty included).", "anchors": ["include/edsp/string/trim.hpp: ltrim, rtrim, trim", "include/edsp/string/to_lower.hpp", "include/edsp/string/to_upper.hpp"]}
{"id": "C29", "title": "is_power_two and next_power_two are exact on 32-bit integers", "statement": "is_power_two(x) is true iff x = 2^k for some k, for every int32 x; next_power_two(x) is the least power of two >= x for every 1 <= x <= 2^30, with no signed overflow. (is_power_two of the least integer overflows.)", "quantifier": "all 2^32 integers", "why_tests_cant": "2^32 inputs with sign and overflow corners; proved by bit-vector reasoning, not by enumeration.", "anchors": ["include/edsp/math/numeric.hpp: is_power_two, next_power_two"]}
{"id": "C30", "title": "is_prime / is_odd / is_even classify integers correctly", "statement": "is_prime(n) is true iff n is prime; is_odd(n) is true iff n is odd, is_even(n) iff n is even, for all integers. (Violated: is_prime is false for every prime > 3; is_odd is false for negative odd numbers.)", "quantifier": "every integer n", "why_tests_cant": "Infinite domain.", "anchors": ["include/edsp/math/numeric.hpp: is_prime, is_odd, is_even"]}
{"id": "C31", "title": "mean, variance and moments obey their defining laws", "statement": "For every non-empty sequence: min <= mean <= max; variance is the mean squared deviation, is >= 0, is 0 iff all samples are equal, is unchanged by adding a constant and scales with the square of a factor; the first central moment is 0; moment<n> is the n-th central moment for every n >= 1 (moment<0> is 0 instead of 1, and the C function moment returns 0 for orders above 8); standard_deviation squared is the variance. An empty sequence has no mean (0/0).", "quantifier": "every non-empty sequence of reals, every shift/scale, every order n", "why_tests_cant": "Universal algebraic laws.", "anchors": ["include/edsp/statistics/mean.hpp", "include/edsp/statistics/variance.hpp", "include/edsp/statistics/moment.hpp", "include/edsp/statistics/variance.hpp: standard_deviation"]}
{"id": "C32", "title": "skewness and kurtosis are affine invariant and satisfy Pearson's inequality", "statement": "For every non-constant sequence skewness is invariant under x -> a x + b with a>0 (and changes sign for a<0), kurtosis is invariant for every a != 0, kurtosis >= 1 and kurtosis >= skewness^2 + 1.", "quantifier": "every non-constant sequence, every affine map", "why_tests_cant": "Inequality over all data sets.", "anchors": ["include/edsp/statistics/skewness.hpp", "include/edsp/statistics/kurtosis.hpp", "include/edsp/statistics/moment.hpp"]}
{"id": "C33", "title": "classical means are ordered", "statement": "For every non-empty sequence of positive numbers harmonic_mean <= geometric_mean <= mean, each lies between min and max, all coincide on constant sequences, and generalized_mean with beta=1 is the mean and with beta=-1 the harmonic mean, and it is monotone in beta.", "quantifier": "every non-empty positive sequence", "why_tests_cant": "Inequalities over all data.", "anchors": ["include/edsp/statistics/harmonic_mean.hpp", "include/edsp/statistics/geometric_mean.hpp", "include/edsp/statistics/generalized_mean.hpp", "include/edsp/statistics/mean.hpp"]}
{"id": "C34", "title": "peak, max, min report an attained extremum at its first index", "statement": "peak returns the first index of a maximal element and its value, peakabs the first index of an element of maximal absolute value; max/min/maxabs/minabs return attained extreme values; the C binding peak_abs agrees with peakabs. (Binding violated: it calls peak.)", "quantifier": "every non-empty sequence", "why_tests_cant": "All inputs with ties.", "anchors": ["include/edsp/statistics/peak.hpp", "include/edsp/statistics/max.hpp", "include/edsp/statistics/min.hpp", "bindings/c/src/statistics.c: peak_abs"]}
{"id": "C35", "title": "peak2peak is the difference between maximum and minimum", "statement": "peak2peak of a non-empty sequence is max - min (hence >= 0 and invariant under adding a constant), and peak2rms is max|x| / rms >= 1. (Both are violated: peak2peak computes |max| - |min|, peak2rms divides by an rms whose sum of squares starts at 1.)", "quantifier": "every non-empty sequence", "why_tests_cant": "All inputs; the existing test data may be all of one sign.", "anchors": ["include/edsp/converter/peak2peak.hpp", "include/edsp/converter/peak2rms.hpp"]}
{"id": "C36", "title": "unit converters are mutually inverse and monotone", "statement": "db2mag/mag2db, db2pow/pow2db, deg2rad/rad2deg, hertz2mel/mel2hertz, hertz2erb/erb2hertz, hertz2cent/cent2hertz are mutually inverse on their domains and strictly increasing; pow2db(m^2) = mag2db(m). (Frequencies strictly between 0 and 440*2^(-4.75) Hz violate the cent round trip: they come back negative.)", "quantifier": "every real in the respective domain (exact arithmetic)", "why_tests_cant": "Continuum.", "anchors": ["include/edsp/converter/db2mag.hpp", "include/edsp/converter/mag2db.hpp", "include/edsp/converter/deg2rad.hpp", "include/edsp/auditory/converter/*.hpp"]}
{"id": "C37", "title": "bark conversion round-trips and is monotone across its pieces", "statement": "bark2hertz(hertz2bark(f)) = f for every f >= 0, hertz2bark is increasing over all of its three pieces, hertz2bark(bark2hertz(z)) = z for every Bark value from that of 0 Hz up to the limit of the scale.", "quantifier": "every frequency, including the piece boundaries", "why_tests_cant": "Piecewise definition over a continuum.", "anchors": ["include/edsp/auditory/converter/hertz2bark.hpp", "include/edsp/auditory/converter/bark2hertz.hpp"]}
{"id": "C38", "title": "windows are symmetric, bounded and of the requested size", "statement": "For every N>=2 each window (bartlett, blackman, blackman_harris, blackman_nutall, flattop, hamming, hanning, triangular, boxcar, rectangular, welch) writes N values, is symmetric w[i] = w[N-1-i], has no value above 1, is non-negative (except flattop, whose ends are negative) and has its maximum 1 at the centre of an odd length. (Violations: welch is neither symmetric nor the documented window for even N, by an integer division; flattop peaks at 1.000000003; at N=1 every window but boxcar, rectangular and triangular divides 0 by 0.)", "quantifier": "every N >= 2, every index", "why_tests_cant": "All N.", "anchors": ["include/edsp/windowing/*.hpp"]}
{"id": "C39", "title": "oscillators keep time and amplitude", "statement": "After n calls from time t an oscillator's timestamp is t + n/sample_rate; the n outputs are the sine/square/sawtooth/triangular wave sampled at the times t + i/sample_rate; every output is bounded by the amplitude; outputs are periodic with period 1/frequency; generation in chunks equals generation at once. (For times >= 0; at negative times, reachable with set_timestamp, the sawtooth leaves the amplitude range.)", "quantifier": "every amplitude >= 0, sample rate, frequency, phase/duty/width, every n (exact arithmetic)", "why_tests_cant": "Unbounded running time.", "anchors": ["include/edsp/oscillators/sinusoidal.hpp", "include/edsp/oscillators/square.hpp", "include/edsp/oscillators/sawtooth.hpp", "include/edsp/oscillators/triangular.hpp"]}
{"id": "C40", "title": "square oscillator keeps its duty ratio when the frequency changes", "statement": "duty() reports the ratio last set, and the output is high for exactly that fraction of each period, whatever sequence of set_frequency/set_sample_rate/set_duty calls was made. (Violated: after set_frequency, the duty is stored in seconds of the old period, and the samples keep the old period; and always by the output, which is high for the fraction 1 - duty of the period.)", "quantifier": "every sequence of setters", "why_tests_cant": "Histories of setters.", "anchors": ["include/edsp/oscillators/square.hpp: set_duty, duty, operator()", "include/edsp/oscillators/sinusoidal.hpp: set_frequency"]}
{"id": "C41", "title": "ADSR envelope stays in [0,1] and follows its phases", "statement": "For every history of key_on, key_off and samples with positive rates/times and sustain level in [0,1], the envelope output stays in [0,1], the phases advance only idle->attack->decay->sustain->release->idle (with key_on/key_off jumps), attack is increasing, decay and release decreasing, and idle outputs 0. (Attack is violated by a second key_on before key_off: it aims at the sustain level and drops to it in one sample.)", "quantifier": "every parameter choice in range, every event history", "why_tests_cant": "State machine over unbounded histories.", "anchors": ["include/edsp/experimental/envelope/adsr.hpp"]}
{"id": "C42", "title": "AR envelope follower tracks the signal level", "statement": "For an attack/release envelope follower with positive times the output moves strictly towards the input level and converges geometrically to a constant input level, at the attack rate when rising, the release rate when falling. (Violated: the gains are never set, so the output equals the input.)", "quantifier": "every parameter choice, every signal", "why_tests_cant": "Infinite signals.", "anchors": ["include/edsp/experimental/envelope/ar.hpp"]}
{"id": "C43", "title": "decoder/encoder handles are released exactly once", "statement": "For every history of open, close, destruction of a decoder or encoder, each opened library handle is closed exactly once and never used after close; is_open() is true iff a handle is open. (Violated by the libsndfile implementations: close() keeps the pointer, so a later close/open/destructor closes it again; and by copies of a decoder or encoder, which close the same handle.)", "quantifier": "every history of API calls", "why_tests_cant": "Lifecycle histories.", "anchors": ["include/edsp/io/internal/decoder/libsndfile_decoder_impl.hpp: open, close, is_open, ~", "include/edsp/io/internal/encoder/libsndfile_encoder_impl.hpp", "include/edsp/io/internal/decoder/libaudiofile_decoder_impl.hpp"]}
{"id": "C44", "title": "decoder read delivers the file prefix in order, never past the buffer", "statement": "read(first,last) writes the next min(requested, remaining) samples of the file in order, returns exactly how many it wrote, never writes past last, and consecutive reads concatenate to the file contents whatever the block sizes. (Violated by the libaudiofile decoder for files with several channels: it counts frames where its buffer holds samples.)", "quantifier": "every file length, every internal chunk size N, every sequence of read sizes, every pattern of short reads by the library", "why_tests_cant": "Chunk/remainder arithmetic over all sizes.", "anchors": ["include/edsp/io/internal/decoder/libsndfile_decoder_impl.hpp: read", "include/edsp/io/internal/decoder/libaudiofile_decoder_impl.hpp: read"]}
{"id": "C45", "title": "discrete Fourier transforms equal their sums and are undone by their inverses", "statement": "cdft/dft store the documented Fourier sums (dft the n/2+1 non-redundant ones) and touch nothing else; cidft(cdft(x)) = x = cdft(cidft(x)); idft(dft(x)) = x including the scale factor; make_ifft_size(make_fft_size(n)) = n. (Violated for odd n, where idft delivers n-1 other samples, and for n = 1, where it fails.)", "quantifier": "every n, every signal of length n, every placement in memory (exact arithmetic)", "why_tests_cant": "All sizes and signals.", "anchors": ["include/edsp/spectral/fft_engine.hpp (make_fft_size, make_ifft_size)", "include/edsp/spectral/dft.hpp"]}
{"id": "C46", "title": "conv is the linear convolution and xcorr the linear correlation, scaled as requested", "statement": "conv of two length-n sequences stores the first n samples of their linear convolution (commutative, with the unit impulse as identity; no wrap-around); xcorr stores the lags 0..n-1 of the linear cross correlation, divided by 1 (None), by n (Biased) or by n-lag (Unbiased). (The scalings are violated: Biased divides by the padded transform size and Unbiased is ignored; from 2^30 samples on the padded size does not fit the int of the engine.)", "quantifier": "every n, every pair of signals, every overlap of the ranges (exact arithmetic)", "why_tests_cant": "Convolution theorem for all sizes.", "anchors": ["include/edsp/spectral/convolution.hpp", "include/edsp/spectral/correlation.hpp"]}
{"id": "C47", "title": "an FFT engine computes the transform it is asked for", "statement": "Whatever sequence of transforms (dft, idft, dct, dht, cdft, ...) is requested from one engine object, each call performs the requested transform. (Violated: the first plan is cached and reused for every kind.)", "quantifier": "every sequence of requests on one engine", "why_tests_cant": "Histories of calls.", "anchors": ["include/edsp/spectral/internal/libfftw_impl.hpp"]}
{"id": "C48", "title": "fast cosine transforms equal the cosine sums and are undone by the inverse", "statement": "In the build without FFTW, dct stores 2 sum_i x_i cos((i+1/2) k pi/n) and idct x_0 + 2 sum_{k>=1} x_k cos((i+1/2) k pi/n), exactly what the FFTW build stores; dct then idct with its scaling restores the input; dht stores the Hartley sums, for every size the engine accepts. (Violated for accepted sizes that are not powers of two, such as 48, and by dht, which omits the first sample.)", "quantifier": "every accepted transform size, every input, every placement in memory (exact arithmetic)", "why_tests_cant": "Recursive algorithm over all sizes and inputs.", "anchors": ["include/edsp/spectral/internal/libpffft_impl.hpp"]}
{"id": "C49", "title": "spectral features stay in their documented ranges", "statement": "For every non-negative magnitude sequence with positive sum: centroid lies in [0,N-1] (weighted: within the span of the axis), spread is non-negative and at most half that span, crest lies in [1/N,1], flatness in [0,1] for positive data, and the entropy of a positive distribution of at least two lines lies in [0,1]; each equals its defining sum. (Entropy is violated by a zero line and by one line; spread is the root of the documented value.)", "quantifier": "every such sequence", "why_tests_cant": "Inequalities over all data.", "anchors": ["include/edsp/feature/statistics/*.hpp", "include/edsp/feature/spectral/spectral_entropy.hpp"]}
{"id": "C50", "title": "rolloff is the least index accumulating the requested energy fraction", "statement": "rolloff(percentage) times N is the least index whose cumulative energy reaches the given percentage of the total energy; it is monotone in the percentage, inside the range, and independent of the scale of the signal. (Violated when the cumulative energy meets the percentage exactly: the next index is returned.)", "quantifier": "every sequence that is not silent, every percentage in [0,1)", "why_tests_cant": "All data.", "anchors": ["include/edsp/feature/statistics/rolloff.hpp"]}
{"id": "C51", "title": "temporal features equal their definitions", "statement": "energy, power, rms, rssq, azcr, amdf, asdf, duration, effective_duration, leq and loudness equal their defining sums for every input; azcr is in [0,1]; amdf and asdf write only their output and vanish exactly at the periods of the signal; effective_duration falls with the threshold and ignores scale; scaling by c adds 20 log10|c| to leq. (rms is violated for every input: the sum of squares starts at 1. azcr is violated by samples that are 0 and by a single sample.)", "quantifier": "every non-empty input and lag", "why_tests_cant": "All data.", "anchors": ["include/edsp/feature/temporal/*.hpp", "include/edsp/feature/perceptual/loudness.hpp"]}
{"id": "C52", "title": "flux, slope, decrease, variation, irregularity, snr equal their definitions", "statement": "These features equal their published defining formulas for every input. (Violated by each of them in a different way: decrease divides 0 by 0 for every input; slope is one over the sum of the axis whatever the data; flux and snr take one of their sums over the wrong range; variation drops the cross sum; irregularity counts lines instead of differences.)", "quantifier": "every pair of equally long inputs", "why_tests_cant": "All data.", "anchors": ["include/edsp/feature/statistics/flux.hpp", "include/edsp/feature/statistics/slope.hpp", "include/edsp/feature/statistics/decrease.hpp", "include/edsp/feature/statistics/variation.hpp", "include/edsp/feature/spectral/spectral_irregularity.hpp", "include/edsp/feature/temporal/snr.hpp"]}
{"id": "C53", "title": "noise generators stay bounded and are causal filters of white noise", "statement": "With white samples within [-A,A], brown noise stays within 3.5 A for ever and pink noise within 7.62 A, for floating and for integer samples; in exact arithmetic every output is a fixed combination of the white samples drawn so far (one-pole filters). (Violated: the outputs leave the interval given to the constructor, and for integer samples, the only ones the white generator admits, brown noise of white samples within +-49 and pink noise within +-1 are silence.)", "quantifier": "every infinite white-noise sequence", "why_tests_cant": "Infinite random sequences.", "anchors": ["include/edsp/random/noise/brown_noise_generator.hpp", "include/edsp/random/noise/pink_noise_generator.hpp"]}
{"id": "C54", "title": "environment access is atomic: set then get returns the value", "statement": "For every interleaving of get_env, set_env and exist calls from any threads, the calls behave like the same calls made one after the other; at most one thread is inside and it can always go on; get after set of the same name returns the set value unless another set intervened; exist is true iff get succeeds. (Violated for views that do not end with their text, for a null view, for the error code of an invalid name, and by the returned view, whose text a later set may release.)", "quantifier": "every schedule of every number of threads", "why_tests_cant": "Schedules.", "anchors": ["include/edsp/core/system.hpp: get_env, set_env, exist"]}
{"id": "C55", "title": "Butterworth low-pass design has the maximally flat magnitude response", "statement": "A Butterworth low-pass of order n with cutoff fc at sampling rate fs succeeds for every order up to the maximum, consists of ceil(n/2) stable sections, and its gain at digital frequency w is 1/sqrt(1+(tan(w/2)/tan(pi fc/fs))^(2n)): 1 at 0, 1/sqrt 2 at the cutoff, 0 at Nyquist. (In a debug build every odd order fails an assertion instead.)", "quantifier": "every order, capacity, cutoff strictly between 0 and fs/2, every frequency (exact arithmetic)", "why_tests_cant": "Infinitely many designs and frequencies.", "anchors": ["include/edsp/filter/internal/butterworth_designer.hpp", "include/edsp/filter/internal/abstract_designer.hpp", "include/edsp/filter/internal/bilinear/lowpass_transformer.hpp"]}
{"id": "C56", "title": "Butterworth high-pass design has the mirrored maximally flat response", "statement": "A Butterworth high-pass of order n succeeds, is stable, and its gain at w is 1/sqrt(1+(tan(pi fc/fs)/tan(w/2))^(2n)): 0 at frequency 0, 1/sqrt 2 at the cutoff, 1 at Nyquist.", "quantifier": "every order, capacity, cutoff strictly between 0 and fs/2, every frequency (exact arithmetic)", "why_tests_cant": "Infinitely many designs and frequencies.", "anchors": ["include/edsp/filter/internal/butterworth_designer.hpp", "include/edsp/filter/internal/bilinear/highpass_transformer.hpp"]}
{"id": "C57", "title": "Chebyshev I designs have equiripple pass bands of the requested ripple", "statement": "A Chebyshev I low-pass (high-pass) of order n and ripple r dB succeeds, is stable, and has gain 1/sqrt(1+(10^(r/10)-1) T_n(x)^2) with x = tan(w/2)/tan(pi fc/fs) (its inverse); hence the gain stays within [-r dB, 0 dB] over the whole pass band and is exactly -r dB at the cutoff. (In a debug build every odd order fails an assertion instead.)", "quantifier": "every order, ripple r > 0, cutoff strictly between 0 and fs/2, every frequency (exact arithmetic)", "why_tests_cant": "Infinitely many designs and frequencies.", "anchors": ["include/edsp/filter/internal/chebyshev_I_designer.hpp", "include/edsp/filter/internal/abstract_designer.hpp"]}
{"id": "C58", "title": "Chebyshev II designs reach the requested stop-band attenuation", "statement": "A Chebyshev II low-pass (high-pass) of order n and attenuation r dB succeeds, is stable, has gain 1 at frequency 0 (Nyquist) and gain |T_n(x)|/sqrt(T_n(x)^2+10^(r/10)-1) with x = tan(pi fc/fs)/tan(w/2) (its inverse); hence the gain is at most -r dB over the whole stop band. (In a debug build every odd order fails an assertion instead.)", "quantifier": "every order, attenuation r > 0, cutoff strictly between 0 and fs/2, every frequency (exact arithmetic)", "why_tests_cant": "Infinitely many designs and frequencies.", "anchors": ["include/edsp/filter/internal/chebyshev_II_designer.hpp", "include/edsp/filter/internal/abstract_designer.hpp"]}
{"id": "C59", "title": "Butterworth shelves have the requested shelf gain", "statement": "A Butterworth low shelf (high shelf) of order n with gain g dB succeeds in debug and release builds (built without the checks of the standard library, see C148), is stable, has gain G = 10^(g/20) at frequency 0 (Nyquist), 1 at Nyquist (0) and squared gain (G+y^(2n))/(1/G+y^(2n)) with y = tan(w/2)/tan(pi fc/fs) (its inverse) in between.", "quantifier": "every order, gain in dB (boost or cut), cutoff strictly between 0 and fs/2, every frequency (exact arithmetic)", "why_tests_cant": "Infinitely many designs and frequencies.", "anchors": ["include/edsp/filter/internal/butterworth_designer.hpp", "include/edsp/filter/internal/abstract_designer.hpp"]}
{"id": "C60", "title": "ceil, floor, round and fix store the integers they are named after", "statement": "ceil/floor/round/fix write, for every element of the input range and in order, the least integer not below it, the greatest integer not above it, the nearest integer (halves away from zero), and the integer part towards zero; nothing else in memory changes.", "quantifier": "every range of every length, every element (exact arithmetic)", "why_tests_cant": "All values, with ties and signs.", "anchors": ["include/edsp/algorithm/ceil.hpp", "include/edsp/algorithm/floor.hpp", "include/edsp/algorithm/round.hpp", "include/edsp/algorithm/fix.hpp"]}
{"id": "C61", "title": "rectify stores absolute values; derivative stores neighbouring differences", "statement": "rectify writes the absolute value of each element in order; derivative writes the first element followed by the differences of neighbours, so that its running sums give the signal back; nothing else in memory changes.", "quantifier": "every range of every length", "why_tests_cant": "All inputs.", "anchors": ["include/edsp/algorithm/rectify.hpp", "include/edsp/algorithm/derivative.hpp"]}
{"id": "C62", "title": "sign, fract, half, inv, square and distances equal their definitions", "statement": "sign is -1 for negative and 1 for other arguments, |x| = sign(x)*x; fract(x) is in [0,1) and x - fract(x) is an integer; half and inv are x/2 and 1/x (inv of 0 is not finite); distance<manhattan> is |a-b|, distance<euclidean> the root of the squared difference, distance<logarithmic> log(|a|/|b|) and undefined when an argument is 0. (The first two are violated: the manhattan distance can be negative, the euclidean one returns the square.)", "quantifier": "every real argument (exact arithmetic)", "why_tests_cant": "All values and signs.", "anchors": ["include/edsp/math/numeric.hpp: sign, square, fract, inv, half, distance"]}
{"id": "C63", "title": "melspace, erbspace, barkspace and centspace sample the scale from min to max", "statement": "Each function fills exactly its output range with strictly increasing values from the converted minimum to the converted maximum, uniformly spaced on the scale. (Uniform spacing is violated: the frequencies are spaced uniformly in Hertz and converted afterwards.)", "quantifier": "every output range with at least two cells, every 0 < min < max (exact arithmetic)", "why_tests_cant": "All sizes and bounds.", "anchors": ["include/edsp/auditory/melspace.hpp", "include/edsp/auditory/erbspace.hpp", "include/edsp/auditory/barkspace.hpp", "include/edsp/auditory/centspace.hpp"]}
{"id": "C64", "title": "complex2real and real2complex are inverse", "statement": "complex2real stores the real parts in one output and the imaginary parts in the other; real2complex of these two gives the complex sequence back; a real sequence made complex splits into itself and zeros; nothing behind the written cells changes.", "quantifier": "every sequence of every length, every pair of outputs long enough", "why_tests_cant": "All sequences.", "anchors": ["include/edsp/converter/complex2real.hpp", "include/edsp/converter/real2complex.hpp"]}
{"id": "C65", "title": "ADSR times, rates and targets set are the ones in effect", "statement": "An attack of set_attack_time(t) from silence lasts exactly the samples needed to cover t seconds, and so does a release of set_release_time(t) from any level; attack_time, decay_time and release_time report what was set, and a change of sample rate keeps them; release_rate() reports the rate set and the attack target set is used by every note. (The last two are violated: release_rate() returns the release time, and key_off forgets the attack target.)", "quantifier": "every time, sample rate, level and number of samples (exact arithmetic)", "why_tests_cant": "All parameter values and unbounded histories.", "anchors": ["include/edsp/experimental/envelope/adsr.hpp: set_attack_time, set_decay_time, set_release_time, set_sample_rate, release_rate, key_on, key_off"]}
{"id": "C66", "title": "encoder stores exactly the ranges written and a decoder reads them back", "statement": "Consecutive write(first,last) calls store the samples of the ranges in order, and a decoder reads the concatenation back whatever block sizes are used on either side. (Violated by empty ranges at the end of their storage, which dereference the past-the-end iterator, and by ranges of 2^31 samples or more, whose length is narrowed to int.)", "quantifier": "every sequence of ranges, every block size", "why_tests_cant": "All sizes and sequences.", "anchors": ["include/edsp/io/internal/encoder/libsndfile_encoder_impl.hpp: write", "include/edsp/io/internal/decoder/libsndfile_decoder_impl.hpp: read"]}
{"id": "C67", "title": "hilbert stores the analytic signal of a real range", "statement": "hilbert of n real samples writes exactly n complex samples whose real parts are the input samples and whose discrete Fourier transform is the input's with the negative frequencies removed, the positive ones doubled and bins 0 and n/2 kept; a cosine with a whole number of periods becomes cos + i sin (a 90 degree shift in the imaginary part). An empty range is not accepted.", "quantifier": "every number of samples, even or odd, and every sample (exact arithmetic)", "why_tests_cant": "All lengths and samples, including the odd/even boundary bins.", "anchors": ["include/edsp/spectral/hilbert.hpp: hilbert", "include/edsp/spectral/internal/libfftw_impl.hpp"]}
{"id": "C68", "title": "spectrum stores the power of each bin and conserves energy", "statement": "spectrum of n real samples writes exactly n/2+1 non-negative values, the squared magnitudes of the first Fourier bins; counting the inner bins twice they add up to n times the sum of the squared samples; scaling the samples by c scales the values by c^2 and a circular shift of the samples leaves them unchanged; the destination may overlap the source; an empty range is rejected.", "quantifier": "every number of samples, every sample, scale factor and shift (exact arithmetic)", "why_tests_cant": "All lengths and samples.", "anchors": ["include/edsp/spectral/spectrum.hpp: spectrum"]}
{"id": "C69", "title": "hartley, dct and idct store the documented sums and invert each other", "statement": "hartley of n samples writes the n documented sums, equal to the real minus the imaginary part of the Fourier bins, and applied twice gives n times the samples; dct and idct write the documented sums, idct after dct and dct after idct give the input back, for every n and not only powers of two. (The scale of the documented sums is violated: dct stores twice the documented values and idct the documented values divided by n.)", "quantifier": "every number of samples and every sample (exact arithmetic)", "why_tests_cant": "All lengths and samples.", "anchors": ["include/edsp/spectral/hartley.hpp: hartley", "include/edsp/spectral/dct.hpp: dct, idct"]}
{"id": "C70", "title": "cepstrum stores the inverse transform of the log magnitudes", "statement": "cepstrum of n samples writes exactly the first n samples of the inverse transform of the logarithms of the magnitudes of the zero-padded transform; a level change by c adds log|c| to sample 0 only; an empty range is rejected; every input gives finite values and the documented formula |F^-1 log|F x|^2|^2 holds. (The last two are violated: samples whose padded transform has a zero bin, for instance any with sum 0, take the logarithm of 0, and neither square of the formula is taken.)", "quantifier": "every number of samples, every sample and level (exact arithmetic)", "why_tests_cant": "All lengths and samples.", "anchors": ["include/edsp/spectral/cepstrum.hpp: cepstrum"]}
{"id": "C71", "title": "band-pass designs have the textbook response between the requested edges", "statement": "A Butterworth band-pass of order n has n stable sections, gain 0 at frequency 0 and at Nyquist, gain 1 at the (warped) centre and gain 1/sqrt(1+W^(2n)) elsewhere, W being the textbook low-pass to band-pass frequency, so that both requested edges are exactly at -3 dB; Chebyshev I keeps the requested ripple inside the band and Chebyshev II the requested attenuation outside it. (The level is violated: the whole response is multiplied by a constant other than 1, because the code normalises at the square root of the sum of the edge tangents instead of the product; and every odd order fails a contract check in debug builds.)", "quantifier": "every order, every band strictly inside (0, fs/2), every frequency, every ripple and attenuation (exact arithmetic)", "why_tests_cant": "Infinitely many designs and frequencies.", "anchors": ["include/edsp/filter/internal/bilinear/bandpass_transformer.hpp", "include/edsp/filter/internal/butterworth_designer.hpp", "include/edsp/filter/internal/chebyshev_I_designer.hpp", "include/edsp/filter/internal/chebyshev_II_designer.hpp", "include/edsp/filter/internal/abstract_designer.hpp"]}
{"id": "C72", "title": "band-stop designs reject the band between the requested edges", "statement": "A Butterworth band-stop of order n has n stable sections, gain 1 at frequency 0 and at Nyquist, gain 0 at the (warped) centre and gain 1/sqrt(1+W^(2n)) elsewhere, W being the textbook low-pass to band-stop frequency, so that both requested edges are exactly at -3 dB; Chebyshev I and II likewise with their polynomials. (The edges are violated: W is multiplied by a factor that is 1 only if the bandwidth is a quarter of the sample rate; and every odd order fails a contract check in debug builds.)", "quantifier": "every order, every band strictly inside (0, fs/2), every frequency, every ripple and attenuation (exact arithmetic)", "why_tests_cant": "Infinitely many designs and frequencies.", "anchors": ["include/edsp/filter/internal/bilinear/bandstop_transformer.hpp", "include/edsp/filter/internal/butterworth_designer.hpp", "include/edsp/filter/internal/chebyshev_I_designer.hpp", "include/edsp/filter/internal/chebyshev_II_designer.hpp", "include/edsp/filter/internal/abstract_designer.hpp"]}
{"id": "C73", "title": "a Butterworth band shelf boosts its band and nothing else", "statement": "A Butterworth band shelf of order n has n stable sections; its gain is the requested gain G at the (warped) centre, exactly sqrt(G) at both requested edges and 1 at frequency 0 and at Nyquist, with the textbook formula in between. (Violated in debug builds for odd orders when the gain or its inverse is (1/tan(pi bandwidth/fs))^(2n), e.g. 0 dB and a bandwidth of fs/4: a contract check aborts the program.)", "quantifier": "every order, every band strictly inside (0, fs/2), every gain in dB, every frequency (exact arithmetic)", "why_tests_cant": "Infinitely many designs and frequencies.", "anchors": ["include/edsp/filter/internal/bilinear/bandpass_transformer.hpp", "include/edsp/filter/internal/butterworth_designer.hpp", "include/edsp/filter/internal/abstract_designer.hpp"]}
{"id": "C74", "title": "Chebyshev shelves reach the requested gain with the requested ripple", "statement": "A Chebyshev I or II low shelf (high shelf, band shelf) of order n with gain g dB and ripple r dB has ceil(n/2) (band: n) stable sections; on the shelf its gain stays between g and the level r dB closer to 0 dB, which it takes exactly at the requested cutoff or band edges, beyond the edge it stays between that level and 0 dB, and it is exactly 0 dB at the far end (frequency 0 and/or Nyquist), following the textbook formula with the Chebyshev polynomial; 0 dB changes nothing. (Violated for 0 dB, which divides by zero and gives undefined coefficients, and for a ripple that is not smaller than the cut or boost, which is accepted and gives another gain than requested. Also in debug builds for band shelves of odd order whose real pole or zero is mapped to 0. The Chebyshev II shelves are the same filters as the Chebyshev I ones.)", "quantifier": "every order, every cutoff or band strictly inside (0, fs/2), every gain and ripple in dB, every frequency (exact arithmetic)", "why_tests_cant": "Infinitely many designs and frequencies.", "anchors": ["include/edsp/filter/internal/chebyshev_I_designer.hpp", "include/edsp/filter/internal/chebyshev_II_designer.hpp", "include/edsp/filter/internal/bilinear/bandpass_transformer.hpp"]}
{"id": "C75", "title": "a stable filter answers a sinusoid with a sinusoid, after a vanishing transient", "statement": "Filtering a sinusoid of amplitude A, frequency w and phase p with a stable section or a cascade of stable sections, in whatever state it is, gives a sinusoid of the same frequency, of amplitude |H|A and phase p + arg H, where H is the transfer function at w, up to an error that decays exponentially. In particular the cutoff of a Butterworth low-pass is where a tone comes out with 1/sqrt(2) of its amplitude.", "quantifier": "every stable coefficient set, every state, every amplitude, frequency and phase, every time (exact arithmetic)", "why_tests_cant": "The claim is about unbounded time and a limit; a test sees finitely many samples of finitely many tones.", "anchors": ["include/edsp/filter/biquad.hpp", "include/edsp/filter/biquad_cascade.hpp"]}
{"id": "C76", "title": "freq samples the frequency response of the recursion its coefficients describe", "statement": "freq(b, a, K) stores K values, the k-th being B/A at the k-th of K equidistant frequencies from 0 up to Nyquist; the k-th value is exactly the factor by which the recursion with these coefficients multiplies a complex exponential of that frequency, and for a second order filter it predicts the amplitude and phase of the steady state of biquad; it is defined exactly if no value is asked for or both ranges have a coefficient and A has no zero at a sampled frequency.", "quantifier": "every pair of coefficient ranges, every number of points (exact arithmetic)", "why_tests_cant": "All coefficient ranges and numbers of points.", "anchors": ["include/edsp/filter.hpp: freq"]}
{"id": "C77", "title": "a resampler reports what it wrote, fits the documented output range and owns its converter", "statement": "process stores exactly as many output samples as it reports, reads no more than the input range, stays inside an output range of the documented size, loses no samples of short blocks, and the library handle is released exactly once. (Violated: with two or more channels frames are reported instead of samples; the documented output size divides by the factor although the code multiplies, so that following it overruns the range; blocks shorter than 1/factor frames never generate output; a resampler of 0 channels divides by zero; a copy releases the handle twice.)", "quantifier": "every conforming sample rate converter, every factor, channel count, input and destination; every program that creates, copies and destroys resamplers", "why_tests_cant": "All converters, factors, blocks and object histories.", "anchors": ["include/edsp/io/resampler.hpp", "include/edsp/io/internal/resampler/libsamplerate_impl.hpp"]}
{"id": "C78", "title": "the Python resampler returns the resampled signal", "statement": "The Python method process returns an array with exactly the samples the converter generated. (Violated for two or more channels: the array is resized to frames and the copy reads or drops samples.)", "quantifier": "every conforming sample rate converter, factor, channel count and input", "why_tests_cant": "All converters and inputs.", "anchors": ["bindings/python/src/io.cpp: resampler_process_wrapper"]}
{"id": "C79", "title": "searching a string view finds the first or last match, or npos", "statement": "find, rfind, find_first_of, find_first_not_of, find_last_of and find_last_not_of of string_view return the least (last forms: greatest) admissible position of a match as the standard defines it, and npos exactly if there is none; they always return. (Violated: find of an empty text at the end of the view gives npos instead of the length; find_last_of and find_last_not_of of an empty view never return.)", "quantifier": "every view, every searched text or set, every start position", "why_tests_cant": "All texts and positions.", "anchors": ["include/edsp/types/string_view.hpp", "include/edsp/thirdparty/nonstd/string_view.hpp: find, rfind, find_first_of, find_last_of, find_first_not_of, find_last_not_of"]}
{"id": "C80", "title": "string views are compared, cut, read and printed as the text they show", "statement": "substr, compare (and the parts overloads), starts_with, ends_with, operator[], at, front, back, remove_prefix, remove_suffix, copy and construction from a C string agree with the operations on the text shown, never touch a character outside it, and throw exactly for positions behind the end; printing pads to the width of the stream as for std::string. (Violated: a stream without adjustment flags pads on the wrong side.)", "quantifier": "every text, every view of it, every position, count and width", "why_tests_cant": "All texts, positions and widths.", "anchors": ["include/edsp/types/string_view.hpp", "include/edsp/thirdparty/nonstd/string_view.hpp: substr, compare, starts_with, ends_with, copy, operator<<"]}
{"id": "C81", "title": "spans and subspans stay inside the elements they were made from", "statement": "A span shows exactly the elements it was made from; first, last and subspan show exactly the requested part, and an access or subspan outside the elements is rejected by a contract check. (Violated: for large counts the check of subspan itself overflows, which is undefined behaviour, and a span of fixed extent can be made of fewer elements, whereupon subspan<offset>() shows elements that are not its own.)", "quantifier": "every container, every offset, count and index of the index type", "why_tests_cant": "All sizes, offsets and counts, including extreme ones.", "anchors": ["include/edsp/types/span.hpp", "include/edsp/thirdparty/nonstd/span.hpp"]}
{"id": "C82", "title": "every program with optionals behaves as with std::optional", "statement": "Whatever sequence of constructions, copies, moves, assignments, emplaces, swaps, resets and destructions a program performs on any number of optional objects, every one afterwards holds exactly the value the standard prescribes or none; no value is read, destroyed, overwritten or leaked that should not be; an exception of the contained type is passed on and leaves the objects as the standard says; value() throws exactly if there is none, and comparison orders empty first. (Violated: a copy assignment in which copying throws ends the program if the moves of the type are noexcept.)", "quantifier": "every program of operations on any number of optionals, every contained type with or without throwing operations, debug and release builds", "why_tests_cant": "All histories of operations over all objects and all points at which an exception can be thrown.", "anchors": ["include/edsp/types/optional.hpp", "include/edsp/thirdparty/nonstd/optional.hpp"]}
{"id": "C83", "title": "every program with expecteds behaves as the proposal says", "statement": "Whatever sequence of constructions, copies, assignments, swaps and destructions a program performs on any number of expected objects, every one afterwards holds exactly the prescribed value or error, nothing that is not there is read or destroyed, and exceptions are passed on without effect. (Violated: (a = b) = c leaves a with the content of b; a throwing move during an exchange of value and error leaves an object without content, whose destructor then destroys what does not exist.)", "quantifier": "every program of operations on any number of expecteds", "why_tests_cant": "All histories of operations and all exceptions.", "anchors": ["include/edsp/types/expected.hpp", "include/edsp/thirdparty/nonstd/expected.hpp"]}
{"id": "C84", "title": "a Python function works on the elements of the array it is given", "statement": "A function of the Python package called with a one-dimensional numpy array computes its result from the elements of that array, whatever its strides, type and size; arrays of other dimensions are rejected. (Violated: slices with a step use the wrong elements, reversed views are read out of bounds, integer arrays are reinterpreted as floating point bits, and arrays with 2^31 elements or more get a negative size in the functions implemented in C.)", "quantifier": "every one-dimensional numpy array (offset, stride, type, length) in every memory", "why_tests_cant": "All strides, element types and lengths, including lengths beyond 2^31.", "anchors": ["bindings/python/src/algorithm.cpp", "bindings/python/src/statistics.cpp", "bindings/python/src/spectral.cpp", "bindings/python/src/feature_temporal.cpp", "bindings/python/src/feature_statistics.cpp", "bindings/python/src/feature_spectral.cpp"]}
{"id": "C85", "title": "a Python function of two arrays uses the elements of both or rejects them", "statement": "The Python functions of two arrays (weighted centroid, spread, flux, slope, variation, conv, xcorr, equal, concatenate) compute their result from the elements of both arrays and raise an exception for arrays that do not fit. (Violated: a shorter second array is read out of bounds, a longer one is cut silently, and arrays with more dimensions are accepted and used in part.)", "quantifier": "every pair of numpy arrays", "why_tests_cant": "All pairs of lengths and shapes.", "anchors": ["bindings/python/src/feature_statistics.cpp: execute_two_inputs", "bindings/python/src/spectral.cpp", "bindings/python/src/algorithm.cpp"]}
{"id": "C86", "title": "real2complex, Decoder.read and get_environment return to Python what they found", "statement": "In Python real2complex returns the complex array with the given real parts, Decoder.read the samples delivered in an array of frames times channels, and get_environment the value of the variable or an error number. (Violated: real2complex ignores its input; Decoder.read raises at the end of a file and has one dimension for several channels; get_environment of a missing variable makes a string of a null pointer.)", "quantifier": "every input array, every file and request, every environment", "why_tests_cant": "All arrays, files, requests and environments.", "anchors": ["bindings/python/src/converter.cpp: real2complex_python", "bindings/python/src/io.cpp: decoder_wrapper", "bindings/python/src/core.cpp: get_environment_python"]}
{"id": "C87", "title": "log messages are printed completely, in order, and only if their level asks for it", "statement": "A program that logs prints exactly the messages whose level reaches the minimum level, each item once, in order, followed by a space; messages for a file go to the file. (Violated: neither the level nor the file has any effect; tab and endl print the numbers 9 and 10; a string view is printed beyond its end; a string is cut at a null character.)", "quantifier": "every program of log statements and level changes, every list of items", "why_tests_cant": "All programs, texts and views.", "anchors": ["include/edsp/core/logger.hpp"]}
{"id": "C88", "title": "the library reports what it was built with and the tags of audio files", "statement": "In every build configuration the reported transform, codec and resample libraries are those that do the work, the date and time are those of the build, and the metadata of every file are its tags, empty if there are none. (Violated: builds with PFFFT report FFTW; builds with libaudiofile encode with libsndfile; get_build_date of the C interface returns the time; the metadata of an unreadable file dereferences a null pointer.)", "quantifier": "every build configuration, every file", "why_tests_cant": "A test runs in one build configuration.", "anchors": ["include/edsp/core/library_info.hpp: fft_library, codec_library", "bindings/c/src/core.c: get_build_date", "include/edsp/io/internal/encoder/encoder_impl.hpp", "include/edsp/io/internal/metadata/libtag_impl.hpp"]}
{"id": "C89", "title": "continuous_leq returns the equivalent sound level of the last frames", "statement": "extract of continuous_leq over n frames returns, for every frame, the level of the mean energy of the last n frames. (Violated: it returns the mean of the levels, which is smaller for frames of different levels; the first n - 1 values count missing frames as 0 dB; a silent frame evaluates the logarithm of zero. It is proved that the value never exceeds the true level and equals it exactly for frames of one level.)", "quantifier": "every window length, every sequence of frames of any lengths", "why_tests_cant": "All sequences of frames; the inequality is between real functions.", "anchors": ["include/edsp/feature/temporal/leq.hpp: continuous_leq"]}
{"id": "C90", "title": "the spectral functions of the Python package return the documented transforms, and their inverses undo them", "statement": "For every one-dimensional contiguous array, rfft, irfft, fft, ifft, dct, idct, hartley, hilbert, spectrum, cepstrum, conv and xcorr return the documented transform of its elements with the documented number of values, and ifft(fft(z)), irfft(rfft(x)) and idct(dct(x)) return what was passed in. (Violated: fft, ifft and irfft of a real array read behind its end; rfft of a complex array transforms the parts of the first half of its elements; irfft(rfft(x)) of an odd number of elements is one shorter; conv and xcorr with a shorter second array read behind its end.)", "quantifier": "every real or complex array of fewer than 2^31 elements", "why_tests_cant": "All lengths and all contents; round trips are identities of sums over every length.", "anchors": ["bindings/python/src/spectral.cpp", "bindings/c/src/spectral.c"]}
{"id": "C91", "title": "Python functions that create arrays return arrays of the requested size, completely filled", "statement": "abs, ceil, floor, round, trunc, clip, scale, normalize, pad, linspace, logspace and the windows of the Python package return an array of the requested (or the given) size whose every element was computed as documented; a negative size raises an exception. (Violated: pad to a smaller size writes behind the new array; a size of 2^32 is cut to 0, so that uninitialised memory is returned.)", "quantifier": "every array, every size, every content of uninitialised memory", "why_tests_cant": "All sizes, including those beyond 32 bits, and all contents of fresh memory.", "anchors": ["bindings/python/src/algorithm.cpp", "bindings/python/src/windowing.cpp", "bindings/c/src/algorithm.c", "bindings/c/src/windowing.c"]}
{"id": "C92", "title": "the moving average and the moving root mean square stay correct in floating point arithmetic, however long the signal", "statement": "With samples that are rounded numbers, every output of moving_average is the mean of the last n samples up to a rounding error that does not grow with the length of the signal, and every output of moving_rms is a number. (Violated: the error of a cancelled large sample stays in the sum for ever, and moving_rms of a pulse, a small sample and zeros is NaN from then on. Exact for samples of few levels, such as 16 bit samples; otherwise the error is bounded by a function of the number of samples seen.)", "quantifier": "every precision, every window length, every signal of any length", "why_tests_cant": "The error builds up over unboundedly many samples; a test runs finitely many and cannot bound the error of the rest.", "anchors": ["include/edsp/filter/moving_average_filter.hpp", "include/edsp/filter/moving_rms_filter.hpp"]}
{"id": "C93", "title": "an oscillator keeps its pitch however long it runs", "statement": "Sample number n of an oscillator is the waveform at n times the sampling period, up to a rounding error that does not change the pitch; the sampling period added to the clock is the same for every sample. (Violated: the clock is a sum of rounded numbers. For every precision, waveform and sampling rate it stops after finitely many samples and the output is constant from then on; in float at 44100 Hz the clock never passes 512 s, and from 256 s on it advances by 1/32768 s per sample, which is not 1/44100 s.)", "quantifier": "every precision, waveform, sampling rate, frequency and number of samples", "why_tests_cant": "Appears after millions of samples; a statement about all numbers of samples.", "anchors": ["include/edsp/oscillators/sinusoidal.hpp", "include/edsp/oscillators/square.hpp", "include/edsp/oscillators/sawtooth.hpp", "include/edsp/oscillators/triangular.hpp"]}
{"id": "C94", "title": "mean, energy, power and variance in floating point arithmetic are the exact ones up to a relative error", "statement": "For all sequences of rounded numbers, mean, energy, power and variance differ from the exact values by at most a small multiple of the rounding unit per element, energy, power and variance are not negative, sums of small whole numbers are exact, and the mean of equal numbers is that number, with variance 0. (Violated: the mean of three equal numbers can be smaller than each and their variance is then not 0; the mean of 2^(p+1) ones is 1/2.)", "quantifier": "every precision, every sequence of any length", "why_tests_cant": "Error bounds for all lengths and contents.", "anchors": ["include/edsp/statistics/mean.hpp", "include/edsp/statistics/variance.hpp", "include/edsp/statistics/moment.hpp", "include/edsp/feature/temporal/energy.hpp", "include/edsp/feature/temporal/power.hpp"]}
{"id": "C95", "title": "linspace in floating point arithmetic stores N values from x1 to x2", "statement": "linspace(d, x1, x2, N) stores N values, the first is x1, the last is x2, and value i is x1 + i (x2 - x1)/(N - 1) up to a relative error of a few rounding units. (Violated: the last value of linspace(d, 0., 1., 7) is below 1, that of linspace(d, 0.f, 1.f, 11) above 1, and for N = 2^24 + 1 in float only N - 1 values are stored.)", "quantifier": "every precision, every range, every number of points", "why_tests_cant": "Error bounds and end points for all ranges and numbers of points.", "anchors": ["include/edsp/algorithm/linspace.hpp"]}
{"id": "C96", "title": "normalize in floating point arithmetic keeps within -1 and 1, reaches it exactly, and keeps signs and order", "statement": "For every sequence of rounded numbers with an element other than 0, normalize gives a number for every element, all within -1 and 1, the largest exactly 1 or -1; signs and order are kept, every element is the quotient by the peak up to a relative error of half a unit in the last place, and normalising again changes nothing.", "quantifier": "every precision, every sequence", "why_tests_cant": "All contents; rounding cases that exceed 1 by one unit would be missed by samples.", "anchors": ["include/edsp/algorithm/normalize.hpp", "include/edsp/statistics/max.hpp"]}
{"id": "C97", "title": "the oscillator and filter objects of the Python package are independent streams that do not depend on how their samples are requested", "statement": "Each oscillator object continues where its last call stopped, so two calls of n and m samples give the same samples as one call of n + m; a call on one object changes no other object; filtering an array gives an array of the same length, the same values as filtering its samples one by one, and the moving average and root mean square of the last window. A negative number of samples raises and changes nothing. (Violated: the window size is given as a real number and converted to an unsigned integer; sizes of -1 or less, or of 2^64 or more, are undefined behaviour, and sizes below 1 give an object whose first sample divides by zero.)", "quantifier": "all sequences of calls on any number of objects, all sizes and samples", "why_tests_cant": "The claim is about all interleavings of calls and all ways of cutting a signal into calls.", "anchors": ["bindings/python/src/oscillator.cpp", "bindings/python/src/filter.cpp"]}
{"id": "C98", "title": "melspace, erbspace, barkspace and centspace of the Python package return an array of the requested size or raise", "statement": "For 0 < min < max and a size of at least 2 the result has the requested size, starts with the converted minimum, ends with the converted maximum and strictly increases; converted back to Hertz, melspace and erbspace give equally spaced frequencies; size 0 gives an empty array and size 1 the converted minimum; an impossible size raises an exception. (Violated: a negative size ends the interpreter, since the exception leaves a noexcept function; the values are not equally spaced on the scale.)", "quantifier": "all frequencies and sizes, whatever the fresh memory holds", "why_tests_cant": "All sizes and frequencies; the result must not depend on uninitialised memory.", "anchors": ["bindings/python/src/auditory.cpp", "include/edsp/auditory/melspace.hpp"]}
{"id": "C99", "title": "the string functions of the Python package work on Python strings, Unicode included", "statement": "split cuts any text at the delimiter and returns the non-empty pieces, join puts the delimiter between the texts, and one undoes the other; trim removes the blanks at the ends; to_upper and to_lower map the letters and leave the rest; no call is undefined or raises on valid text. (Violated: to_upper and to_lower of any text with a character outside ASCII, and trim of a text that begins or ends with one, is undefined behaviour; a delimiter of several characters is cut to its first byte without notice, so that a delimiter outside ASCII makes split raise; join stops at NUL.)", "quantifier": "all texts, delimiters and numbers of pieces", "why_tests_cant": "All Unicode texts; a byte of one character may look like a delimiter or a blank for some texts only.", "anchors": ["bindings/python/src/string.cpp", "include/edsp/string/split.hpp", "include/edsp/string/join.hpp"]}
{"id": "C100", "title": "the output of a stable biquad or cascade in float or double stays near the exact output for ever", "statement": "For a filter that stability() accepts, started at rest, the samples returned in floating point arithmetic differ from those of exact arithmetic by at most a fixed multiple of the unit roundoff times the largest input, however long the signal; a cascade of such filters likewise; stability() accepts exactly the stable filters. (Violated: at every precision there is a filter that stability() accepts and that answers one sample of 3/4 followed by silence with 3/4 for ever, although the exact output tends to 0; stability() rejects some stable filters, since it rounds 1 + a2.)", "quantifier": "all coefficients, signals of any length and any bound, all precisions, all numbers of stages", "why_tests_cant": "The error is fed back and accumulates over the whole signal; a test sees finitely many samples of one filter.", "anchors": ["include/edsp/filter/biquad.hpp", "include/edsp/filter/biquad_cascade.hpp"]}
{"id": "C101", "title": "a stable biquad in float or double falls silent after the end of the input", "statement": "A filter that stability() accepts and that receives only zeros from some sample on returns to 0 from any state, also when its numbers underflow. (Violated: a filter y = x + a y' with 1/2 < a < 1 never returns to 0 after one positive sample; it goes on with subnormal numbers for ever. What holds with enough bits: the output falls exponentially below a fixed multiple of the smallest positive number; without underflow it tends to 0.)", "quantifier": "all stable coefficients, states, signals, precisions and smallest exponents", "why_tests_cant": "The claim is about the limit of an infinite signal and every state from which the silence begins.", "anchors": ["include/edsp/filter/biquad.hpp"]}
{"id": "C102", "title": "an any object owns one copy of its value and gives it back under its own type only", "statement": "After every program of constructions, copies, moves, assignments (to itself included), emplacements, exchanges, resets and destructions, each any object reports whether it has a value and its type; any_cast to that type gives the value, and to any other throws or is null; each value on the heap has exactly one owner and is freed when its owner goes, once; storing a variable leaves the variable as it is; an exception while a value is copied reaches the caller and leaves all objects as they were. (Violated: storing a variable that is not const moves from it, so that the caller's variable is emptied; an exception thrown while a const variable is copied ends the program, as the constructor is noexcept.)", "quantifier": "all programs of any length on any number of objects, all values and types, exceptions at any copy", "why_tests_cant": "Aliasing, double frees and leaks depend on the whole sequence of operations.", "anchors": ["include/edsp/types/any.hpp", "include/edsp/thirdparty/nonstd/any.hpp"]}
{"id": "C103", "title": "a variant holds the value of one alternative and destroys it exactly once", "statement": "After every program of constructions, copies, moves, assignments, emplacements, exchanges and destructions each variant holds the number and value that the last operation on it gave; no value is destroyed twice or never; a failed emplacement leaves no value; an exception in a copy leaves the target with a value or none. (Violated: copy or move assignment from a variant with the same alternative constructs over the old value, which is never destroyed, and from itself reads an overwritten value; if that copy throws, the variant still claims the alternative and its destructor destroys what is not there; emplacing the second of two equal types sets the number of the first.)", "quantifier": "all lists of alternatives, all programs of any length on any number of objects", "why_tests_cant": "Leaks and double destruction depend on the whole sequence of operations and on which copies throw.", "anchors": ["include/edsp/types/variant.hpp", "include/edsp/thirdparty/nonstd/variant.hpp"]}
{"id": "C104", "title": "get, visit, comparison and hashing of a variant agree with the value it holds", "statement": "get, get_if and holds_alternative, by type or by number, give the held value and refuse every other alternative; equality and order compare the number and then the value, and are an equivalence and a strict weak order; visit calls the visitor once with the values in the order of the arguments and throws if one has none; equal variants have equal hashes. (Violated: an alternative whose number equals the size in bytes of the largest one, as the second of variant<char, bool>, can be stored but get, get_if and comparison throw, and swap ends the program; the second of two equal types cannot be read; a variant without a value claims to hold every type that is not among its alternatives; visiting it returns a default result; the hash depends on what the storage held before and on padding.)", "quantifier": "all lists of alternatives, all values, any number of visited variants", "why_tests_cant": "The wrong refusal depends on the sizes of all the alternatives; the hash on the history of the object.", "anchors": ["include/edsp/types/variant.hpp", "include/edsp/thirdparty/nonstd/variant.hpp"]}
{"id": "C105", "title": "a sample that is not finite spoils only what depends on it, and ordinary samples give finite results", "statement": "When a sample of the input is infinite or not a number, the filters give finite results again as soon as no sample that counts is affected: after three samples for a biquad without feedback, after n samples for a moving average or root mean square over n; reset() makes a filter as good as new; and as long as the samples are of moderate size no result is infinite or not a number, however long the signal. (Violated: after one sample that is infinite or NaN no biquad, with or without feedback, and no cascade gives a finite output again, until reset; the moving average and moving root mean square never again, not even after reset() or resize(), as the running sum is never cleared; two samples of half the largest number overflow the running sum of the moving average for ever, though their mean is in range.)", "quantifier": "all filters and coefficients, all signals of any length, every position and kind of the bad sample, all sequences of calls, every rounding, any precision and range", "why_tests_cant": "Loss for ever shows only in all later results; freedom from overflow is about every bounded signal of any length.", "anchors": ["include/edsp/filter/biquad.hpp", "include/edsp/filter/biquad_cascade.hpp", "include/edsp/filter/moving_average_filter.hpp", "include/edsp/filter/moving_rms_filter.hpp"]}
{"id": "C106", "title": "extrema, sums, normalization and clipping treat samples that are not finite alike wherever they are, and do not overflow on the way", "statement": "The maximum, minimum and peak of a signal do not depend on where a NaN is: it is ignored or reported; normalizing keeps the shape of the finite samples; clipping (alone or after amplifying) gives samples within the limits; a sample that is not finite shows in the mean, energy, power and root mean square; and the mean and the root sum of squares of finite samples are finite if the exact value is in range. (Violated: a NaN as the first sample is the maximum, minimum and peak whatever follows, at any other place it is ignored; normalize then makes every sample NaN, and with an infinite sample it makes all finite samples 0; a NaN passes the clipper; the factor 0 turns an infinite sample into NaN past the limits; the mean of two samples of half the largest number and the root sum of squares of one sample above the root of the largest number are infinite.)", "quantifier": "all signals of any length, every position of the bad sample, every rounding, any precision and range", "why_tests_cant": "The result depends on the position of the NaN and on the size of intermediate sums.", "anchors": ["include/edsp/statistics/max.hpp", "include/edsp/statistics/min.hpp", "include/edsp/statistics/peak.hpp", "include/edsp/statistics/mean.hpp", "include/edsp/algorithm/normalize.hpp", "include/edsp/algorithm/clipper.hpp", "include/edsp/algorithm/amplifier.hpp", "include/edsp/feature/temporal/energy.hpp", "include/edsp/feature/temporal/power.hpp", "include/edsp/feature/temporal/rms.hpp", "include/edsp/feature/temporal/rssq.hpp"]}
{"id": "C107", "title": "an ADSR envelope in float or double stays between 0 and 1 and each of its phases ends after about the time asked for", "statement": "Whatever operations are called with arguments in range, no operation fails, the level is between 0 and 1 (0 when idle) and no sample is amplified, in any binary precision; the attack, decay and release end, after the number of samples that rate or time ask for up to the rounding of each step, and the level is near the exact one on the way; rates and levels that are multiples of one power of two give the exact envelope. (Violated for slow phases: with p significant bits an attack by at most 2^(-p-1) per sample, as an attack time of 800 seconds at 44.1 kHz in float, never gets above one half; a decay or a release from 1 that slow, as a release time of 1000 seconds, stays at 1 for ever, so the note never becomes idle.)", "quantifier": "all precisions, all histories of operations with arguments in range, all rates, times and levels, all inputs", "why_tests_cant": "The rounding error adds up over hundreds of thousands of samples, and a phase that never ends cannot be observed.", "anchors": ["include/edsp/experimental/envelope/adsr.hpp"]}
{"id": "C108", "title": "an FFT engine is a value: it can be copied, assigned and destroyed, and used with any arrays", "statement": "Every program that creates, uses, copies, assigns and destroys FFT engines keeps the contract of the FFT library: it executes only plans that exist, on arrays they may be executed on, makes the transforms asked for, destroys every plan and work buffer exactly once, and leaves none behind. (Violated: an FFTW engine that has made one transform may not make one on other types of numbers, and makes the first one again if asked for another on the same types; a copy of a used FFTW engine, or any copy of a pffft engine, releases the same resource twice; assigning to a used engine leaks its plan; an engine that has worked in place may not be used from one array to another, nor for arrays of another alignment, so conv and xcorr with an allocator of small alignment do what FFTW forbids; a pffft engine accepts every multiple of 16, but has no real transform for 16, 48, ... and none at all for sizes with other factors than 2, 3, 5; after a cosine transform a pffft engine makes complex transforms with a real setup.)", "quantifier": "all programs over any number of engines, all arrays and alignments, both libraries, all sizes", "why_tests_cant": "Undefined behaviour and leaks do not show in results, and the alignment depends on the allocator.", "anchors": ["include/edsp/spectral/fft_engine.hpp", "include/edsp/spectral/internal/libfftw_impl.hpp", "include/edsp/spectral/internal/libpffft_impl.hpp", "include/edsp/spectral/convolution.hpp", "include/edsp/spectral/correlation.hpp"]}
{"id": "C109", "title": "threads that work on different objects do not interfere", "statement": "Threads that call the library on objects of their own (and read objects that nobody changes) never race, in no interleaving, and never block each other for ever. (Violated: two threads that make a transform, or any call that contains one, race in the planner of FFTW, which is not thread safe and which the library neither locks nor asks to be safe; setting the default name of the logger races with every message of another thread, setting level or path with reading it; the text returned by get_env is read outside the mutex that guards set_env.)", "quantifier": "all programs of all threads, any number of threads, all interleavings", "why_tests_cant": "A race shows only in some interleavings, and rarely.", "anchors": ["include/edsp/spectral/internal/libfftw_impl.hpp", "include/edsp/core/logger.hpp", "include/edsp/core/system.hpp"]}
{"id": "C110", "title": "ring buffers are independent of each other, moved ones included", "statement": "In every program that makes, moves, assigns, resizes, uses and destroys ring buffers, every buffer behaves as a bounded deque of its own, untouched by what is done to the others; a move hands over the contents; all memory is given back, once. (Violated: a buffer that was moved from still points at the elements it gave away: pushing to it changes the destination, reading it after the destination is destroyed reads memory given back, clearing it leaves a buffer without capacity on which push_back divides by zero; assigning a buffer to itself by move leaves it pointing at memory given back.)", "quantifier": "all programs over any number of ring buffers, all element types, all capacities below 2^63", "why_tests_cant": "Aliasing between a moved-from object and its successor shows only in particular orders of use.", "anchors": ["include/edsp/types/ring_buffer.hpp", "include/edsp/types/ring_span.hpp", "include/edsp/thirdparty/nonstd/ring_span.hpp"]}
{"id": "C111", "title": "iterators of a ring buffer are positions in a deque", "statement": "A program that uses a ring buffer through its calls and through iterators - moving them by any distance, subtracting, comparing, reading and writing through them, so every algorithm of the standard library - does what it does on a deque where an iterator is a position; positions survive calls of the buffer; std::transform over begin() and end() maps the contents. (Violated for buffers of 2^31 elements and more: the distance is cut to an int, so begin() + (end() - begin()) is not end(), and *(begin() + 2^32) is the first element.)", "quantifier": "all programs as trees over reads, writes, moves, comparisons, differences and calls; all element types; all histories before and after", "why_tests_cant": "The programs are infinitely many and depend on what they read; the failing sizes need gigabytes.", "anchors": ["include/edsp/thirdparty/nonstd/ring_span.hpp", "include/edsp/types/ring_buffer.hpp"]}
{"id": "C112", "title": "functions given the iterators of a ring buffer work on its contents", "statement": "Every function of the library that takes a pair of iterators and is given begin() and end() of a ring buffer works on the contents of the buffer, front first; output to begin() replaces its first elements. (Violated by amdf, asdf, dft, idft, cdft, cidft, dct, idct, hartley, the output of hilbert, the resamplers and the encoder, which take the address of the first element for an array: right exactly if the elements lie one after the other in memory; with a window of n samples that slides by one they read outside the storage n - 1 times out of n.)", "quantifier": "all histories of calls, all capacities, all functions of the array", "why_tests_cant": "Whether the contents wrap depends on the whole history; reading past the end often goes unnoticed.", "anchors": ["include/edsp/feature/temporal/amdf.hpp", "include/edsp/feature/temporal/asdf.hpp", "include/edsp/spectral/dft.hpp", "include/edsp/spectral/dct.hpp", "include/edsp/spectral/hartley.hpp", "include/edsp/spectral/hilbert.hpp", "include/edsp/io/internal/resampler/libsamplerate_impl.hpp", "include/edsp/io/internal/encoder/libsndfile_encoder_impl.hpp", "include/edsp/types/ring_buffer.hpp"]}
{"id": "C113", "title": "the functions on integer samples return the exact results", "statement": "On samples of a signed integer type (8, 16 or 32 bits) mean, energy, power, maxabs, rectify, normalize, derivative, amplifier, duration, effective_duration and azcr return what they return on the same numbers in exact arithmetic, without the fraction where the result is an integer. (Proved where sums and lengths are values of the sample type, and always for the amplifier with clipping limits. Violated otherwise: the mean of equal loud samples is smaller than the samples, one 16-bit sample of 182 has negative energy, a 16-bit range containing -32768 has a negative maxabs so that normalize inverts the sign of every sample, one second of 16-bit sound at 48 kHz has a negative duration, effective_duration converts every sample rate from 2^15 on out of range, azcr is 0 unless every sample crosses, normalize to integers leaves 0, -1 and 1.)", "quantifier": "all widths of the type, all ranges of samples, all lengths", "why_tests_cant": "Whether sums and lengths leave the type depends on level and length of the whole signal.", "anchors": ["include/edsp/statistics/mean.hpp", "include/edsp/statistics/max.hpp", "include/edsp/feature/temporal/energy.hpp", "include/edsp/feature/temporal/power.hpp", "include/edsp/feature/temporal/duration.hpp", "include/edsp/feature/temporal/azcr.hpp", "include/edsp/algorithm/rectify.hpp", "include/edsp/algorithm/normalize.hpp", "include/edsp/algorithm/derivative.hpp", "include/edsp/algorithm/amplifier.hpp"]}
{"id": "C114", "title": "moving average and moving root mean square of integer samples", "statement": "A moving_average over a signed integer type returns the mean of the last N samples without its fraction whenever their sum is a value of the type, however long the signal and whatever sums occurred before; a moving_rms returns the root mean square of the last N samples without its fraction. (Proved; for moving_rms and for types of 32 bits and more if no sum leaves the type. Violated: constant samples A with N A beyond the type settle below A; a length that is a multiple of 2^w divides by zero; one sample whose square is in the upper half of the range makes moving_rms convert a NaN.)", "quantifier": "all signals, all lengths, all widths", "why_tests_cant": "Unbounded signals; the failures depend on level and length.", "anchors": ["include/edsp/filter/moving_average_filter.hpp", "include/edsp/filter/moving_rms_filter.hpp"]}
{"id": "C115", "title": "windows in floating point arithmetic", "statement": "In float and double, every window function fills a range of N cells with numbers within 128 units of 2^-p of the published window (p = 24 or 53 bits), all of them between 0 and 1 (flattop excepted, which is negative by definition). (Proved for every length N of at least 2, for any cosine that errs by at most 2^-p; welch for odd N; triangular for N up to 2^p. Violated: blackman starts with a negative number for every length, in float and in double; triangular windows of more than 2^26 float cells are constant.)", "quantifier": "all lengths, all cells, float and double, every cosine function of the accuracy stated", "why_tests_cant": "Unbounded lengths, and the sign of the first value depends on the rounding of three literals.", "anchors": ["include/edsp/windowing/bartlett.hpp", "include/edsp/windowing/blackman.hpp", "include/edsp/windowing/blackman_harris.hpp", "include/edsp/windowing/blackman_nuttall.hpp", "include/edsp/windowing/flattop.hpp", "include/edsp/windowing/hamming.hpp", "include/edsp/windowing/hanning.hpp", "include/edsp/windowing/boxcar.hpp", "include/edsp/windowing/rectangular.hpp", "include/edsp/windowing/triangular.hpp", "include/edsp/windowing/welch.hpp"]}
{"id": "C116", "title": "RBJ designs in floating point arithmetic", "statement": "In float and double, each coefficient of the RBJ low-pass, high-pass, band-pass and all-pass returned by the designer is within 64 units of 2^-p, times 1 + 1/Q, of the exact design (p = 24 or 53 bits), and the filter is stable. (Accuracy proved for every cutoff below half the sample rate and every Q > 0 with 2^-p*(1+1/Q) at most 1/1000, for any sine and cosine that err by at most 2^-p; stability proved when the cosine of the cutoff is not too close to 1 and the damping not too close to 0. Violated: with a correctly rounded cosine, a low-pass whose cutoff is below about 1.2 Hz at 44100 samples per second in float has all its numerator coefficients 0 and outputs 0 for every input; with a correctly rounded sine, a quality above 2*(2*pi*fc/fs)*2^p gives a second feedback coefficient of exactly 1, an unstable filter, in all four designs.)", "quantifier": "all cutoffs, sample rates and qualities, all inputs, float and double, every sine and cosine function of the accuracy stated", "why_tests_cant": "Real parameters; the coefficients depend on rounding of each operation and a test at one cutoff says nothing about another.", "anchors": ["include/edsp/filter/internal/rbj_designer.hpp", "include/edsp/filter/biquad.hpp"]}
{"id": "C117", "title": "Angle and level converters in floating point arithmetic", "statement": "In float and double (p = 24 or 53 bits), deg2rad and rad2deg have a relative error of at most 8 * 2^-p for every angle, lose at most 5 * 2^-p there and back, keep the order of angles, are odd, and rad2deg of the library's pi is exactly 180. If log10 and pow have relative errors of at most e, mag2db and pow2db of every positive value have a relative error of at most 1.01 * (2^-p + e), 0 dB stands for exactly 1, db2mag and db2pow of x have a relative error of at most (2^-p + e) * (|x| + 2), a level there and back is off by at most (2^-p + e) * (3|x| + 24) decibels, and a value there and back by a relative error of (2^-p + e) * (13 |log10 x| + 2). The way back is not exact: one degree in float returns as 1 - 2^-24 and 59 degrees in double as 59 - 2^-47, so their whole parts are 0 and 58.", "quantifier": "all angles, all levels and all positive values, all precisions from 24 to 53 bits, every logarithm and power function of the accuracy stated", "why_tests_cant": "Every float is a different rounding; tests compare a few values with a tolerance and cannot bound the error for all.", "anchors": ["include/edsp/converter/deg2rad.hpp", "include/edsp/converter/rad2deg.hpp", "include/edsp/converter/mag2db.hpp", "include/edsp/converter/pow2db.hpp", "include/edsp/converter/db2mag.hpp", "include/edsp/converter/db2pow.hpp"]}
{"id": "C118", "title": "The output of a function may overwrite its input", "statement": "A filter, an envelope or a difference function whose destination is the source range, or begins anywhere not strictly inside it, stores the results for the samples that were in the source before the call, leaves the object as with separate ranges, and changes nothing else. (Proved for the filter functions of biquad, biquad_cascade, moving_average and moving_rms and for apply of both envelopes, failing calls included. Violated for a destination that begins k cells inside the source: from the k-th sample on, results are used as samples, exactly f applied i / k + 1 times to sample i mod k. Violated in place by amdf and asdf: the result never depends on the first two samples, and for x0, x1, 0, ..., 0 it is 0 everywhere.)", "quantifier": "all objects and states, all arrays, all positions of the two ranges, all lengths", "why_tests_cant": "An aliasing bug shows only for overlapping arguments; the positions, lengths and states form an unbounded space.", "anchors": ["include/edsp/filter/biquad.hpp", "include/edsp/filter/biquad_cascade.hpp", "include/edsp/filter/moving_average_filter.hpp", "include/edsp/filter/moving_rms_filter.hpp", "include/edsp/experimental/envelope/adsr.hpp", "include/edsp/experimental/envelope/ar.hpp", "include/edsp/feature/temporal/amdf.hpp", "include/edsp/feature/temporal/asdf.hpp"]}
{"id": "C119", "title": "Processing a file block by block", "statement": "A program that reads a file in blocks, processes each block in place with an object that turns samples into samples, and writes it, stores exactly the samples the object returns for the whole rest of the file in one piece: the loop ends, the result and the final state of the object do not depend on the block size (1 to 2^31 - 1), on the decoder's internal buffer or on how many samples the audio library delivers per request, and a call that fails, fails alike. In particular the file written by a biquad or a cascade is its response to the whole file. (The audio library is assumed to deliver at least one sample while any is left and to store every sample it is given.)", "quantifier": "all files and positions in them, all block and buffer sizes, all patterns of short reads, all objects and states, failing ones included", "why_tests_cant": "The number of blocks, their sizes and the short reads form an unbounded space; a test fixes one file and one block size.", "anchors": ["include/edsp/io/decoder.hpp", "include/edsp/io/encoder.hpp", "include/edsp/io/internal/decoder/libsndfile_decoder_impl.hpp", "include/edsp/io/internal/encoder/libsndfile_encoder_impl.hpp", "include/edsp/filter/biquad.hpp", "include/edsp/filter/biquad_cascade.hpp"]}
{"id": "C120", "title": "Auditory scales in floating point arithmetic", "statement": "In float and double (p = 24 or 53 bits; the converters compute in double and round the result), with library functions whose relative errors are at most e: the mel value of every frequency from 0 on, however small, has a relative error of at most 1.02 * (2^-p + 3 * 2^-53 + e), and a frequency converted to mel and back a relative error of (2^-p + 6 * 2^-53 + e) * (2.2 + 1.1 * ln(1 + f/700)). The ERB number has that relative error plus an absolute error of 100 * 2^-53, and a frequency there and back an error relative to f + 229 Hz; every frequency up to 2^-46 Hz has the ERB number 0 and comes back as 0. The cents of a frequency are off by at most s * (3.2 * 1200 * |log2 f| + 28000) with s = 2^-p + 2 * 2^-53 + e, and every frequency from 27.5 Hz on returns with a relative error of s * (18 ln f + 1.1); negative values convert to the negative of what their absolute value converts to. The Bark value is off by a rounding and 230 * 2^-53, whatever the rounding does to the choice of the correction, and a frequency returns within (2^-p/800 + 2^-53/120) * (1960 + f)^2 Hz plus a rounding.", "quantifier": "all frequencies in the ranges stated, all precisions from 24 to 53 bits, every logarithm and exponential function of the accuracy stated", "why_tests_cant": "Every frequency is a different rounding; tests compare a few values with a tolerance, and errors near the ends of the pieces or of tiny frequencies need exactly those inputs.", "anchors": ["include/edsp/auditory/converter/hertz2mel.hpp", "include/edsp/auditory/converter/mel2hertz.hpp", "include/edsp/auditory/converter/hertz2erb.hpp", "include/edsp/auditory/converter/erb2hertz.hpp", "include/edsp/auditory/converter/hertz2cent.hpp", "include/edsp/auditory/converter/cent2hertz.hpp", "include/edsp/auditory/converter/hertz2bark.hpp", "include/edsp/auditory/converter/bark2hertz.hpp"]}
{"id": "C121", "title": "Centroid, spread and crest in floating point arithmetic", "statement": "In floating point arithmetic with p bits: the centroid of a non-negative spectrum of n lines with a positive line, over a non-negative axis, is the centre of gravity up to a factor of (1 + 2^-p)^(2n+2); the spread is the root of the scatter about the centroid computed, which is the true scatter plus the squared error of the centroid, up to a factor (1 + 2^-p)^k with k growing like n. Without an axis the counter of the loop is a floating point number; it is exact up to 2^p + 1 lines and then stops. The crest is the largest magnitude over the sum of the magnitudes, up to n + 1 roundings, positive and never above 1. The centroid may leave the axis: of four lines of which only the last is not silent it can come out above 3.", "quantifier": "all spectra of numbers with p bits of any length, all precisions p, all non-negative axes", "why_tests_cant": "The rounding errors depend on every line and on the order of summation; tests compare a few spectra with a tolerance and do not reach spectra of 2^24 lines.", "anchors": ["include/edsp/feature/statistics/centroid.hpp", "include/edsp/feature/statistics/spread.hpp", "include/edsp/feature/statistics/crest.hpp", "include/edsp/statistics/max.hpp"]}
{"id": "C122", "title": "Means, norm, flatness and entropy in floating point arithmetic", "statement": "In floating point arithmetic with p bits: the harmonic mean of n positive numbers is exact up to n + 3 roundings (factors 1 + 2^-p) and 0 if an element is 0; the norm of any signal is exact up to n/2 + 2 roundings; the geometric mean of positive numbers, with a logarithm and an exponential of relative error e, is the n-th root of the product up to the factor 1 +- e and exp(d), where |d| is at most the mean magnitude of the logarithms times (1 + e)(1 + 2^-p)^(n+2) - 1; it is 0 if an element is 0 and not a number if one is negative; the flatness is the quotient of the geometric and the arithmetic mean up to n + 3 more roundings. The entropy and the spectral entropy of positive values are never negative and exact up to (1 + e)/(1 - e), n + 3 roundings and, for the spectral entropy, log2 K bits and a factor K = (1 + 2^-p)^(n+1) from the normalization. Both entropies should give a line that is 0 no weight.", "quantifier": "all lists of numbers of any length, all precisions, every library function of the accuracy stated", "why_tests_cant": "The errors depend on every element and on the order of summation, and near cancellation of the logarithms no tolerance relative to the result is right; tests try a few lists.", "anchors": ["include/edsp/statistics/harmonic_mean.hpp", "include/edsp/statistics/geometric_mean.hpp", "include/edsp/statistics/norm.hpp", "include/edsp/feature/statistics/flatness.hpp", "include/edsp/feature/statistics/entropy.hpp", "include/edsp/feature/spectral/spectral_entropy.hpp"]}
{"id": "C123", "title": "Moments, RMS and difference functions in floating point arithmetic", "statement": "In floating point arithmetic with p bits, for every signal of n samples that is not empty: a moment of even order N about any centre is not negative and exact up to n + 2N + 1 roundings (factors 1 + 2^-p); one of odd order has an error of at most ((1 + 2^-p)^(n+2N+1) - 1) times the mean of the magnitudes summed. If a sample differs from the mean that was computed, the kurtosis is positive, exact about that mean up to 3n + 21 roundings, and at least 1 and at most n up to the same; the skewness has an error of at most ((1 + 2^-p)^(2n+n/2+18) - 1) times the quotient taken with magnitudes. The average magnitude and squared difference functions are not negative and exact up to n - i + 3 and n - i + 5 roundings at lag i. A constant signal should have no skewness and no kurtosis, and the RMS of silence should be 0.", "quantifier": "all signals of any length, all precisions p, all orders N, all lags i below the length", "why_tests_cant": "The errors depend on all samples, their order and on cancellation about the mean; tests compare a few signals with a tolerance.", "anchors": ["include/edsp/statistics/moment.hpp", "include/edsp/statistics/skewness.hpp", "include/edsp/statistics/kurtosis.hpp", "include/edsp/feature/temporal/rms.hpp", "include/edsp/feature/temporal/amdf.hpp", "include/edsp/feature/temporal/asdf.hpp"]}
{"id": "C124", "title": "Roll-off, zero crossings, durations and levels in floating point arithmetic", "statement": "In floating point arithmetic with samples of p bits: the roll-off of n samples is the share (k-1)/n of a position k such that the samples before it hold at most the given percentage of the energy and the first k samples hold at least it, both up to 2n + 2 roundings (or k = n); it is correctly rounded and below 1 for n up to 2^p; percentages of 1 and more give the last sample and a larger percentage never an earlier one. The zero crossing rate is the correctly rounded share of adjacent samples of which exactly one is negative. The duration is the correctly rounded quotient of the length and the rate. The effective duration counts every sample above the threshold and none below it, samples within one rounding of the threshold excepted; a threshold of 1 or more counts none. The equivalent level of a signal that is not silent is off by at most 5(n+3) 2^-p decibels plus the relative error of the logarithm; silence has none.", "quantifier": "all signals of any length, all precisions of samples and parameters, all percentages and thresholds, every logarithm of the accuracy stated", "why_tests_cant": "Counters of p bits stop at 2^p and cumulative energies differ from the exact ones in every bit pattern; tests use short signals.", "anchors": ["include/edsp/feature/statistics/rolloff.hpp", "include/edsp/feature/temporal/azcr.hpp", "include/edsp/feature/temporal/duration.hpp", "include/edsp/feature/temporal/leq.hpp", "include/edsp/feature/temporal/energy.hpp", "include/edsp/math/numeric.hpp"]}
{"id": "C125", "title": "Ring buffers after exceptions and after pushing their own elements", "statement": "A ring buffer of elements that throw stays usable: for every history in which any call may throw and the exception is caught, everything observable is that of a bounded deque on which each throwing push pushed some value, each throwing pop popped, and a throwing resize or a throwing copy of an argument did nothing; no later call faults except a push at capacity 0 and a pop of an empty buffer. Pushing an element of the buffer itself pushes the value it had before the call, also when the push drops that element, so push_back(front()) rotates a full buffer. A call that throws should leave the buffer as it was, as those of the standard containers do.", "quantifier": "all element types, all values left behind by throwing assignments and moves, all capacities, all finite histories of calls that return or throw", "why_tests_cant": "Which slot a throwing assignment hits depends on the whole history; tests use numbers, which never throw, and push values from outside.", "anchors": ["include/edsp/types/ring_buffer.hpp", "include/edsp/thirdparty/nonstd/ring_span.hpp"]}
{"id": "C126", "title": "RBJ shelves in float and double", "statement": "A low or high shelf designed in float or double has coefficients close to the exact ones, for every cutoff below Nyquist, every quality and every gain that leave the leading coefficient well above the rounding errors, with explicit bounds; where there is room it is stable and stability() returns true. With a gain of 0 dB it returns every sample unchanged, bit for bit. It should be stable for every quality, as the exact design is.", "quantifier": "all precisions from float to double, all sines, cosines and powers of ten of the given accuracy, all cutoffs, qualities and gains; for 0 dB all signals and all positions", "why_tests_cant": "Three parameters and the rounding of about twenty operations; a test samples a few designs and compares to a tolerance.", "anchors": ["include/edsp/filter/internal/rbj_designer.hpp"]}
{"id": "C127", "title": "silence and equal return the right verdict", "statement": "silence of a frame with samples is true exactly if the mean of the squares is below the threshold; hence quieter frames, joined silent frames and higher thresholds stay silent, one part of a cut silent frame is silent, and frames with NaN, infinities or no samples are never silent. In float and double the verdict is right unless the power is within a factor of (1+2^-p)^(n+2) of the threshold. equal is true exactly of equal sequences, with a predicate exactly of sequences of one length with related elements. (Violated: a power of exactly the threshold, documented as silent, is not; the rounded power may fall on the other side of the threshold; a range with a NaN is not equal to itself.)", "quantifier": "all frames, thresholds, precisions and sequences", "why_tests_cant": "The verdict changes at one point of a continuum; a test looks at a few frames far from it.", "anchors": ["include/edsp/algorithm/silence.hpp", "include/edsp/algorithm/equal.hpp", "include/edsp/feature/temporal/power.hpp"]}
{"id": "C128", "title": "A change of level by a power of two changes nothing but the level", "statement": "Multiplying every sample by \u00b12^k multiplies the results in float and double exactly, bit for bit: mean, harmonic mean, moving average, biquads and cascades, ADSR, oscillators (amplitude) and linspace (end points) by the factor; energy, power, variance and asdf by its square; norm, amdf and the moving RMS by its magnitude. Kurtosis, crest, centroid, spread, spectral entropy, roll-off and effective duration stay the same; skewness and normalize up to the polarity; the verdict of silence with the threshold multiplied by the square. (Violated: rms, whose sum starts with 1, and the rate of zero crossings when the polarity is turned round.)", "quantifier": "all precisions, signals of any length, exponents k of any sign, both polarities, all filters and states; no overflow or underflow", "why_tests_cant": "A test compares a few signals at a few levels with a tolerance and cannot see that no signal and no level leaves another rounding error.", "anchors": ["include/edsp/statistics/mean.hpp", "include/edsp/statistics/variance.hpp", "include/edsp/statistics/norm.hpp", "include/edsp/statistics/skewness.hpp", "include/edsp/statistics/kurtosis.hpp", "include/edsp/statistics/harmonic_mean.hpp", "include/edsp/feature/temporal/energy.hpp", "include/edsp/feature/temporal/power.hpp", "include/edsp/feature/temporal/rms.hpp", "include/edsp/feature/temporal/azcr.hpp", "include/edsp/feature/temporal/amdf.hpp", "include/edsp/feature/temporal/asdf.hpp", "include/edsp/feature/temporal/duration.hpp", "include/edsp/feature/statistics/crest.hpp", "include/edsp/feature/statistics/centroid.hpp", "include/edsp/feature/statistics/spread.hpp", "include/edsp/feature/statistics/rolloff.hpp", "include/edsp/feature/spectral/spectral_entropy.hpp", "include/edsp/algorithm/normalize.hpp", "include/edsp/algorithm/linspace.hpp", "include/edsp/algorithm/silence.hpp", "include/edsp/filter/biquad.hpp", "include/edsp/filter/biquad_cascade.hpp", "include/edsp/filter/moving_average_filter.hpp", "include/edsp/filter/moving_rms_filter.hpp"]}
{"id": "C129", "title": "Frequencies count only relative to the sample rate", "statement": "Multiplying the sample rate and every frequency by the same factor, and dividing every time by it, changes nothing a user can hear: the RBJ, Zoelzer, Butterworth and Chebyshev designs return the same coefficients or the same fault; sine, square and sawtooth oscillators, ADSR envelopes and attack/release followers return the same samples for every history of calls; durations are divided by the factor. In float and double the same holds bit for bit when the factor is a power of two. (Violated in double for other factors: a sawtooth of 49 Hz at 98 Hz is at the top of its range where the sawtooth of 1 Hz at 2 Hz is at the bottom.)", "quantifier": "all factors (positive, or not zero for the designs), all frequencies, rates, orders, gains and times, debug and release builds, all histories of calls; in floating point all precisions and all powers of two", "why_tests_cant": "A test designs a few filters at a few rates and compares with a tolerance; it cannot cover all rates, all histories of setters and calls, and bitwise equality.", "anchors": ["include/edsp/filter/internal/rbj_designer.hpp", "include/edsp/filter/internal/zoelzer_designer.hpp", "include/edsp/filter/internal/butterworth_designer.hpp", "include/edsp/filter/internal/chebyshev_I_designer.hpp", "include/edsp/filter/internal/chebyshev_II_designer.hpp", "include/edsp/oscillators/sinusoidal.hpp", "include/edsp/oscillators/square.hpp", "include/edsp/oscillators/sawtooth.hpp", "include/edsp/experimental/envelope/adsr.hpp", "include/edsp/experimental/envelope/ar.hpp", "include/edsp/feature/temporal/duration.hpp"]}
{"id": "C130", "title": "Filters multiply the energy of a signal by at most the square of their largest gain", "statement": "A stable filter section or cascade at rest multiplies the energy (sum of squares) of no frame by more than G^2 exactly when it amplifies no frequency by more than G, and keeps at least m^2 of it (after enough silence) when it keeps at least m of every amplitude. So the Butterworth and Chebyshev low-pass, high-pass and band-stop designs increase the energy of no frame, the Butterworth shelves multiply it by at most the square of their gain, the RBJ all-pass conserves it, the RBJ low-pass and high-pass increase it for no frame exactly when 2 Q^2 <= 1, and the RBJ band-pass multiplies it by at most Q^2 and by no smaller factor. (Violated by the Butterworth band-pass: centred at a quarter of the sample rate it increases the energy of some frame.)", "quantifier": "all frames of any length, all stable sections and cascades of any size, all orders, cutoff frequencies, quality factors, ripples and gains, debug and release builds", "why_tests_cant": "The bound quantifies over all signals of all lengths and is attained only in the limit; a test feeds a few signals.", "anchors": ["include/edsp/filter/biquad.hpp", "include/edsp/filter/biquad_cascade.hpp", "include/edsp/filter/internal/rbj_designer.hpp", "include/edsp/filter/internal/butterworth_designer.hpp", "include/edsp/filter/internal/chebyshev_I_designer.hpp", "include/edsp/filter/internal/chebyshev_II_designer.hpp", "include/edsp/filter/internal/abstract_designer.hpp"]}
{"id": "C131", "title": "Windowed frames added up give the signal back", "statement": "Cutting a signal into frames that start every M samples, multiplying each by a window and adding the results where they overlap gives the signal back times a constant: R/2 for a Hann window of R M + 1 samples (R >= 2), 0.42 R for a Blackman window (R >= 3), 1 for a Bartlett window of 2 M + 1 and a triangular window of 2 M samples, R for a rectangular window of R M samples. (Violated by Hamming, Blackman-Harris, Blackman-Nuttall and flat-top windows, whose end values are not 0: every M-th sample comes out different, by exactly the end value; and by Hann windows of even length 2 M >= 6 every M samples.)", "quantifier": "all signals, all sample positions after the first frame, all frame lengths and overlaps of the stated form", "why_tests_cant": "A test tries a few lengths with a tolerance; constancy for all lengths and all positions needs the sum of cosines.", "anchors": ["include/edsp/windowing/hanning.hpp", "include/edsp/windowing/hamming.hpp", "include/edsp/windowing/blackman.hpp", "include/edsp/windowing/blackman_harris.hpp", "include/edsp/windowing/blackman_nuttall.hpp", "include/edsp/windowing/flattop.hpp", "include/edsp/windowing/bartlett.hpp", "include/edsp/windowing/triangular.hpp", "include/edsp/windowing/boxcar.hpp", "include/edsp/windowing/rectangular.hpp"]}
{"id": "C132", "title": "Statistics do not depend on the order of the samples", "statement": "Means, moments, variance, skewness, kurtosis, norms, extreme values, peak to peak, peak to RMS, energy, power, RMS, crest, flatness, entropies, levels, loudness, durations and the verdict of silence are the same for the samples in any order, failures included. In floating point arithmetic the extreme values still are; mean and energy are for samples of M levels (PCM) as long as the exact sums fit the significand, and otherwise change by a bounded rounding error. (Violated in floating point arithmetic in general: in every precision four samples have the mean 0 in one order and 1/4 in another. The index of the peak and the sign found by peakabs depend on the order.)", "quantifier": "all sequences, all permutations, all precisions", "why_tests_cant": "A test shuffles a few vectors; there are n! orders, and rounding hides the difference between a dependence and an error.", "anchors": ["include/edsp/statistics/mean.hpp", "include/edsp/statistics/moment.hpp", "include/edsp/statistics/skewness.hpp", "include/edsp/statistics/kurtosis.hpp", "include/edsp/statistics/norm.hpp", "include/edsp/statistics/harmonic_mean.hpp", "include/edsp/statistics/geometric_mean.hpp", "include/edsp/statistics/generalized_mean.hpp", "include/edsp/statistics/max.hpp", "include/edsp/statistics/min.hpp", "include/edsp/statistics/peak.hpp", "include/edsp/feature/temporal/energy.hpp", "include/edsp/feature/statistics/crest.hpp", "include/edsp/feature/statistics/flatness.hpp", "include/edsp/feature/statistics/entropy.hpp", "include/edsp/feature/spectral/spectral_entropy.hpp", "include/edsp/feature/temporal/duration.hpp"]}
{"id": "C133", "title": "Zeros around and between the samples add nothing", "statement": "Energy, root sum of squares, norm, loudness, largest absolute value and crest depend only on the samples that are not zero, and the power only on these and the number of samples; in floating point arithmetic the sums, energy, norm and crest are the same to the last bit. Zeros after the last bin of a spectrum change neither its centroid nor its spread (to the last bit in floating point arithmetic) nor the bin of its roll-off; k zeros before the first bin move the centroid by k and leave the spread. The transform of a frame continued with zeros to L times its length has the bins of the frame at every L-th place.", "quantifier": "all sequences, all places and numbers of zeros, all precisions, all frame lengths and L with L n < 2^31", "why_tests_cant": "A test pads a few frames; that no position of a zero can matter, not even in the last bit, is a statement about all of them.", "anchors": ["include/edsp/feature/temporal/energy.hpp", "include/edsp/feature/temporal/power.hpp", "include/edsp/feature/temporal/rssq.hpp", "include/edsp/statistics/norm.hpp", "include/edsp/statistics/max.hpp", "include/edsp/feature/perceptual/loudness.hpp", "include/edsp/feature/statistics/crest.hpp", "include/edsp/feature/statistics/centroid.hpp", "include/edsp/feature/statistics/spread.hpp", "include/edsp/feature/statistics/rolloff.hpp", "include/edsp/spectral/dft.hpp"]}
{"id": "C134", "title": "The mu-law compresses as documented and its expansion undoes it", "statement": "mu_law_compression stores the documented characteristic of every sample, also in place: odd, strictly increasing, 0 and the largest sample stay, every other sample becomes louder without passing the largest. inverse_mu_law_compression gives the samples back. (Violated: every sample comes back multiplied by mu / ln(1 + mu) > 1, because the expansion divides by the logarithm instead of mu.) The functions are taken as their bodies read: the lambdas do not capture the compression factor they use, so that as they stand they cannot be instantiated.", "quantifier": "all samples, all largest values > 0, all compression factors > 0, all ranges", "why_tests_cant": "A test compares a few values; shape and inversion are claims about every sample and every factor.", "anchors": ["include/edsp/experimental/quantizer/mu_law_compressor.hpp"]}
{"id": "C135", "title": "Zoelzer designs computed in float or double", "statement": "The Zoelzer low-pass, high-pass and band-pass computed in float or double are the exact designs up to rounding: every coefficient is within 132\u00b72^-p / cos(pi\u00b7fc/fs) of the exact one for every quality, those of the numerator relatively. The rejected frequencies (Nyquist, DC) are rejected exactly, as by the RBJ designs. With room for the rounding errors the filter is stable and stability() says so. (Violated without that room: for cutoffs with 16\u00b7tan\u00b2(pi\u00b7fc/fs) <= 2^-p \u2014 below 0.8 Hz at 44100 samples per second in float \u2014 the low-pass is unstable or takes a constant to less than a third; when 4\u00b7tan(pi\u00b7fc/fs) <= Q\u00b72^-p it is never stable.)", "quantifier": "all cutoffs, sample rates and qualities, all precisions from 24 to 53 bits, every tangent of one unit in the last place", "why_tests_cant": "A test designs a few filters and looks at a few frequencies; the bound covers every parameter, and the failures need cutoffs nobody tries.", "anchors": ["include/edsp/filter/internal/zoelzer_designer.hpp", "include/edsp/filter/biquad.hpp"]}
{"id": "C136", "title": "A generated tone is recognised by the library's own analysis", "statement": "A frame of N samples holding a whole number K of periods of the sine oscillator, taken from it at any time, has the mean 0 and the variance and power A\u00b2/2. Its transform is 0 in every bin except bin K, which holds N/2 times the amplitude and the phase of the tone at the first sample; the power spectrum is one line of height (A\u00b7N/2)\u00b2 in bin K, or in bin N-K above half the sample rate. Of this line the peak and the centroid are K, the spread is 0 and every roll-off below the whole energy is the position of bin K. The difference functions of any oscillator vanish at every lag that is a whole number of periods; a period of the triangle in an even number of samples has the mean 0. (Violated: rms of the tone is not A/\u221a2, since it adds 1 to the sum; the mean of the square oscillator with duty k/N is A(1-2k/N), the negative of the mean of a signal active for k/N of the period.)", "quantifier": "all reachable oscillators, all amplitudes, phases and frame times, all frame lengths and numbers of periods", "why_tests_cant": "A test analyses one tone with one frame length and a tolerance; a leak into other bins, a lost factor or a phase reference other than the first sample can hide below it.", "anchors": ["include/edsp/oscillators/sinusoidal.hpp", "include/edsp/oscillators/square.hpp", "include/edsp/oscillators/triangular.hpp", "include/edsp/spectral/spectrum.hpp", "include/edsp/feature/statistics/centroid.hpp", "include/edsp/feature/temporal/amdf.hpp", "include/edsp/feature/temporal/rms.hpp"]}
{"id": "C137", "title": "Filtering, convolution and correlation agree", "statement": "The convolution of a frame with the impulse response of a biquad or a cascade (its output for an impulse of the length of the frame, after a reset following any calls) is the output of the filter for the frame. The outputs of a moving average of length N are the convolution with N values 1/N. Convolution obeys superposition, does not depend on the grouping of three frames when the results are truncated to the frame as the library does, and with an impulse at index D delays a frame by D samples. The last sample of the convolution with a reversed frame is the lag 0 of the correlation with the frame. The peak of the correlation of a frame with a copy of it delayed by D samples is at the index D, for every scale option and every frame that is not zero; unless divided, its value is the energy of the frame.", "quantifier": "all cascades after all histories of calls, all frames of less than 2^30 samples, all delays and scale options, all positions in memory", "why_tests_cant": "A test compares one filter with one convolution; a wrong lag, a lost sample at the end of the frame or a circular wrap shows only for other lengths and delays.", "anchors": ["include/edsp/spectral/convolution.hpp", "include/edsp/spectral/correlation.hpp", "include/edsp/filter/biquad.hpp", "include/edsp/filter/biquad_cascade.hpp", "include/edsp/filter/moving_average_filter.hpp", "include/edsp/statistics/peak.hpp"]}
{"id": "C138", "title": "A filter designed and run in float or double follows the exact filter for ever", "statement": "An RBJ low-pass, high-pass, band-pass or all-pass, or a Zoelzer low-pass, high-pass or band-pass, with quality at least 1/2, designed and then run in the same arithmetic of p bits, never departs from the filter asked for: with k = 1 + 2Q/sin(2\u00b7pi\u00b7fc/fs), the output for any input within X stays within 2\u00b710^7\u00b7k^4\u00b72^-p\u00b7X of the output of the exact filter (for Zoelzer divided by cos(pi\u00b7fc/fs)), at every sample however long it runs. For other designs: coefficients off by at most delta, in a filter with coefficients of at most S and poles of modulus at most 1-1/k, move the output of the running filter by at most (1075200\u00b7S^4\u00b72^-p + 1641\u00b7S^3\u00b7delta)\u00b7k^4\u00b7X. (Proved when 38400\u00b7k^2 <= 2^p, for Zoelzer 2^p\u00b7cos(pi\u00b7fc/fs). Violated without that: for a very low cutoff the designed RBJ low-pass outputs 0 for ever for the constant 1 while the exact output tends to 1.)", "quantifier": "all cutoffs, sample rates and qualities of at least 1/2, all precisions from 24 to 53 bits, every sine, cosine and tangent of the accuracy stated, all bounded inputs, all sample positions", "why_tests_cant": "A test runs a finite signal through one filter; an error that accumulates slowly, or a pole moved out of the unit circle by the rounding of the design, shows after any number of samples.", "anchors": ["include/edsp/filter/internal/rbj_designer.hpp", "include/edsp/filter/internal/zoelzer_designer.hpp", "include/edsp/filter/biquad.hpp"]}
{"id": "C139", "title": "A frame played backwards", "statement": "Playing a frame backwards leaves its spectrum, autocorrelation (with every scale option), amdf, asdf, zero crossing rate and spread as they are, and its cepstrum too (or cepstrum fails for both). The cross correlation of two frames played backwards is that of the frames exchanged. Coefficient k of the dct is multiplied by (-1)^k; hilbert stores the conjugate analytic signal backwards; the centroid of mirrored lines is mirrored, and so is the position of a peak that is the only one. linspace with exchanged end points stores the values backwards. A moving average whose tail is kept (length - 1 zeros after the signal) gives the output backwards: it delays all frequencies alike.", "quantifier": "all frames of any length and content (within the int range of the FFT sizes), all positions in memory, all moving average lengths; exact arithmetic", "why_tests_cant": "A test reverses a few frames; a pair left out at one end, an off-by-one lag or an asymmetric border shows for other lengths or values only.", "anchors": ["include/edsp/spectral/spectrum.hpp", "include/edsp/spectral/cepstrum.hpp", "include/edsp/spectral/dct.hpp", "include/edsp/spectral/hilbert.hpp", "include/edsp/spectral/correlation.hpp", "include/edsp/feature/temporal/amdf.hpp", "include/edsp/feature/temporal/asdf.hpp", "include/edsp/feature/temporal/azcr.hpp", "include/edsp/feature/statistics/centroid.hpp", "include/edsp/feature/statistics/spread.hpp", "include/edsp/algorithm/linspace.hpp", "include/edsp/statistics/peak.hpp", "include/edsp/filter/moving_average_filter.hpp"]}
{"id": "C140", "title": "Settings changed while an oscillator or a filter is running", "statement": "Settings may be changed between any two samples. An oscillator plays the tone that goes on from where it was: amplitude, phase or width and sample rate take effect with the next sample, the phase runs on, and a frequency set anew changes the speed of the phase, not the phase (a linear sweep of the frequency setting is a linear chirp). A biquad whose coefficients are set in any order and as often as wanted stays bounded as long as it is stable by a margin whenever a sample comes, and setting a coefficient to the value it has changes nothing.", "quantifier": "all sequences of samples and settings of any length, all amplitudes, rates, frequencies, phases, widths and coefficients; exact arithmetic", "why_tests_cant": "A test changes a setting once or twice after a few samples and looks at a few values; a jump that grows with the time played, or a filter that jumps by what it holds, shows in long runs only.", "anchors": ["include/edsp/oscillators/sinusoidal.hpp", "include/edsp/oscillators/sawtooth.hpp", "include/edsp/oscillators/triangular.hpp", "include/edsp/filter/biquad.hpp"]}
{"id": "C141", "title": "A shelf at 0 dB is transparent, and the opposite gain undoes a shelf", "statement": "A low, high or band shelf of 0 dB returns every frame unchanged, and a shelf followed by the one with the same settings and the opposite gain returns the frame that went in, sample by sample.", "quantifier": "all frames of any length, all gains, cutoffs strictly between 0 and Nyquist, qualities, orders 1 to the capacity; exact arithmetic", "why_tests_cant": "A test looks at a few gains and frames and at amplitudes only; a phase that stays behind, or a cut that boosts, leaves the amplitudes a test looks at right at the end of the band it looks at.", "anchors": ["include/edsp/filter/internal/rbj_designer.hpp", "include/edsp/filter/internal/zoelzer_designer.hpp", "include/edsp/filter/internal/butterworth_designer.hpp", "include/edsp/filter/internal/bilinear/bandpass_transformer.hpp", "include/edsp/filter/biquad.hpp"]}
{"id": "C142", "title": "Files with several channels are read and written frame by frame", "statement": "Reading whole frames of a file with any number of channels delivers the next frames, all channels interleaved in their order, as many as were asked for or are left; seeking counts frames; whole frames written are read back unchanged whatever the sizes of the blocks.", "quantifier": "all numbers of channels, all files, all internal buffer sizes of the decoder, all positions and all lengths of the range", "why_tests_cant": "A test uses mono and stereo files and one block size; a number of channels that does not divide the internal buffer, with a block longer than that buffer, is met by no such test, and the failure looks like the end of the file.", "anchors": ["include/edsp/io/internal/decoder/libsndfile_decoder_impl.hpp", "include/edsp/io/internal/encoder/libsndfile_encoder_impl.hpp", "include/edsp/io/decoder.hpp", "include/edsp/io/encoder.hpp"]}
{"id": "C143", "title": "The resampler in builds with libresample uses every sample it reports as read", "statement": "In a build with libresample a resampler stores, block after block, the input at `factor` times its rate: every sample reported as read has been used, the samples stored are as many as reported and fit in the documented destination, the channels are converted separately, reset starts again, and the counts mean the same as in a build with libsamplerate.", "quantifier": "all converters meeting the contract of libresample, all factors, numbers of channels, streams of blocks of any lengths", "why_tests_cant": "Which samples a converter uses depends on its internal state and on the sizes of the blocks; a test of one block with one factor cannot show that for every factor above 1 a fixed part of every stream is dropped although it is reported as read.", "anchors": ["include/edsp/io/internal/resampler/libresample_impl.hpp", "include/edsp/io/internal/resampler/resampler_impl.hpp", "include/edsp/io/resampler.hpp"]}
{"id": "C144", "title": "compute of a histogram stores the bins of the samples", "statement": "After compute(first, last, out) the range from out holds one pair for each bin: its lower bound, equally spaced between the smallest and the largest sample, and the share of the samples that lie in it.", "quantifier": "all samples, numbers of bins, cache sizes and destinations", "why_tests_cant": "A test of the shape of the output or of an all-zero case passes when nothing is stored; only a statement about every destination shows that the call has no effect.", "anchors": ["include/edsp/statistics/histogram.hpp"]}
{"id": "C145", "title": "The correlation finds the delay of an amplified and disturbed copy, and the period of a frame", "statement": "Let the first frame passed to xcorr be the second one delayed by D samples, multiplied by any gain other than 0 and disturbed by an error. If the error is small against the distance between the autocorrelation at lag 0 and at other lags (always when there is none), peakabs of the result returns the index D, peak as well for a positive gain, and the value is the gain times the energy up to the error; with every scale option. The autocorrelation of a frame with period P is, at lag P, the energy of all but its last period, and no later lag exceeds it.", "quantifier": "all signals, delays, gains, errors, scale options and positions of the buffers, and all periodic frames", "why_tests_cant": "Tests correlate a few hand-made frames; that no signal, gain or small disturbance moves the peak is a Cauchy-Schwarz argument over all of them.", "anchors": ["include/edsp/spectral/correlation.hpp", "include/edsp/statistics/peak.hpp"]}
{"id": "C146", "title": "Windows have the published gain and noise bandwidth and leak only into their own number of bins", "statement": "A Hann, Hamming, Blackman, Blackman-Harris, Blackman-Nuttall or flat-top window of L+1 samples adds up to a0*L plus its first value, its squares to L*(a0^2 + half the sum of the squares of the other coefficients) plus the square of the first value. The transform of any frame of L samples times the first L values of the window is, in every bin, a0 times that of the frame plus half of each coefficient, with alternating sign, times the bins at that distance on both sides; so a tone of the sine oscillator with K periods in the frame shows a0*A*L/2 in bin K, its coefficients in the bins next to it and exactly 0 in all others.", "quantifier": "all lengths, frames, tones, phases and oscillator states, and the six cosine windows", "why_tests_cant": "A test transforms a few windowed tones with a tolerance that hides leakage; the identity is over all frames and lengths.", "anchors": ["include/edsp/windowing", "include/edsp/spectral/dft.hpp", "include/edsp/oscillators/sinusoidal.hpp"]}
{"id": "C147", "title": "The C functions exchange complex numbers as pairs of real cells", "statement": "In a C program a complex_t array is a sequence of pairs of real numbers. ri2complex stores the two arrays it is given in turn, real2complex every number and a zero, complex2real stores the two parts in the two arrays it is given; joining and splitting changes nothing. Exactly the cells of the output arrays change. complex2real may store the real or the imaginary parts at the beginning of the complex array itself; real2complex onto its own input keeps one number only. fft, ifft, complex_fft, complex_ifft and hilbert store their bins or samples as such pairs, in arrays of their own or in place, and the inverse of a transform gives the numbers back (ifft for even sizes, C45 has the others). A negative size is never taken for an empty array.", "quantifier": "all arrays, sizes and positions in memory that do not overlap in a way the C library of transforms excludes", "why_tests_cant": "Tests use separate arrays of a few numbers; which overlaps are harmless and that no other cell changes is a statement about every layout.", "anchors": ["bindings/c/src/converter.cpp", "bindings/c/src/spectral.c", "bindings/c/include/cedsp/types.h", "include/edsp/converter/complex2real.hpp", "include/edsp/converter/real2complex.hpp"]}
{"id": "C148", "title": "Filter designs do not depend on the checks of the standard library", "statement": "A design that succeeds also succeeds, with the same result, when the checks of the standard library are switched on (-D_GLIBCXX_ASSERTIONS): no designer hands std::polar a negative modulus, for which the standard defines no result. True of every pass filter. (Violated by the Butterworth low, high and band shelves of order 2 or more: with the checks they end the program for every gain and every frequency.)", "quantifier": "all designers, orders, gains, sample rates and frequencies", "why_tests_cant": "Whether the checks are switched on is decided by the compiler flags of the user; a test suite built without them passes, and no number of designs built with them shows that none fails.", "anchors": ["include/edsp/filter/internal/butterworth_designer.hpp", "include/edsp/filter/internal/abstract_designer.hpp"]}
{"id": "C149", "title": "A signal split into bands adds up again", "statement": "Low-pass, band-pass and high-pass of the same frequency and Q, made by Zoelzer's formulas and fed with the same samples from rest, add up to the input sample by sample; for the cookbook (RBJ) filters the same holds with the band-pass divided by Q, and low-pass plus high-pass is the mean of the input and the output of the all-pass. A Butterworth low-pass and high-pass of the same order and cutoff split the energy of every frame: at each frequency the squares of the gains add up to 1, the energies of the two outputs never exceed that of the frame, and with silence after the frame their sum tends to it. For the second-order RBJ and Zoelzer pairs this holds exactly when Q is 1/sqrt 2. In general, a bank of stable filters whose weighted squared gains add up to 1 keeps the weighted energy. (Violated by the Butterworth band-pass and band-stop of the same band: together they give out more energy than went in.)", "quantifier": "all frames, orders, sample rates, cutoff frequencies and quality factors; all finite banks of stable cascades", "why_tests_cant": "The identities hold for every input and in the limit of endless silence; a test sees finitely many frames and never the limit, and rounding hides a small defect in the sum.", "anchors": ["include/edsp/filter/internal/zoelzer_designer.hpp", "include/edsp/filter/internal/rbj_designer.hpp", "include/edsp/filter/internal/butterworth_designer.hpp", "include/edsp/filter/biquad.hpp", "include/edsp/filter/biquad_cascade.hpp"]}
{"id": "C150", "title": "Filter responses move the way their parameters are turned", "statement": "Below half the sample rate and above 0: the gain of a Butterworth low-pass falls strictly with the frequency and that of a high-pass rises. A higher order passes strictly more of every frequency on the passed side of the cutoff and strictly less of every frequency on the other side. Raising the cutoff makes the low-pass pass more and the high-pass less of every frequency. With x the warped frequency divided by the warped cutoff, the gain of a Butterworth low-pass of order n is below x^-n (20 n dB per decade) and its square is above 1 - x^(2n); the high-pass likewise with 1/x. Beyond the cutoff a Chebyshev I low-pass falls strictly with frequency, order and ripple, and with at least 3 dB of ripple it attenuates at least as much as the Butterworth filter of the same order. The second-order RBJ and Zoelzer low-pass and high-pass are monotone when 2 Q^2 <= 1; otherwise they have exactly one peak, of height Q/sqrt(1 - 1/(4 Q^2)), on the passed side of the cutoff. Their band-pass has its one peak at the centre and exactly two points 3 dB below it, whose warped frequencies have the square of the centre as product and differ by the centre divided by Q. (In release builds; in debug builds for even orders, see C55.)", "quantifier": "all orders, sample rates, cutoff and centre frequencies, ripples, quality factors and frequencies", "why_tests_cant": "Monotone behaviour between the sampled frequencies and for every pair of parameters cannot be sampled; a filter with a small dip or a slightly wrong order of poles passes tests at a few frequencies.", "anchors": ["include/edsp/filter/internal/butterworth_designer.hpp", "include/edsp/filter/internal/chebyshev_I_designer.hpp", "include/edsp/filter/internal/zoelzer_designer.hpp", "include/edsp/filter/internal/rbj_designer.hpp"]}
{"id": "C151", "title": "The statistics of a signal follow from those of its blocks", "statement": "A signal cut into blocks can be measured block by block. For blocks of any lengths: min, max, minabs and maxabs of the signal are the extrema of those of the blocks (also in floating point arithmetic); its peak is the one of the first block whose peak is highest, at its place counted from the beginning; energies and durations add up; rssq and norm are those of the list of the values of the blocks; mean and power are the averages weighted by the lengths; the zero crossings of two parts and the one at their seam are those of the whole; blocks that are all silent make a silent signal and blocks none of which is silent one that is not. For blocks of the same length: mean, power and the harmonic, geometric and generalized means (of positive samples) are the means of the same kind of those of the blocks, and the variance is the mean of the variances plus the variance of the means. Playing a frame k times multiplies its energy by k and keeps mean, moments, variance, skewness, kurtosis, power, RMS, level and silence. A part never has a larger peak-to-peak value than the whole.", "quantifier": "all signals, all ways to cut them, all lengths, all numbers of repetitions", "why_tests_cant": "Tests compare a few block sizes; that no cut and no signal gives a different result needs induction over the blocks.", "anchors": ["include/edsp/statistics/max.hpp", "include/edsp/statistics/min.hpp", "include/edsp/statistics/peak.hpp", "include/edsp/statistics/mean.hpp", "include/edsp/statistics/variance.hpp", "include/edsp/statistics/moment.hpp", "include/edsp/feature/temporal/energy.hpp", "include/edsp/feature/temporal/power.hpp", "include/edsp/feature/temporal/rms.hpp", "include/edsp/feature/temporal/azcr.hpp", "include/edsp/algorithm/silence.hpp", "include/edsp/converter/peak2peak.hpp"]}
{"id": "C152", "title": "Spectra of repeated, spread, thinned out, modulated and shifted frames", "statement": "The spectrum stored for a frame played L times is 0 except at every L-th bin, where it is L^2 times that of the frame. With L-1 zeros behind every sample it consists of copies of the spectrum of the frame, every other one mirrored. The complex transform of every L-th sample is the mean of the L bins that fall on each other (aliasing). Multiplying the samples by a cosine of p periods per frame moves half of each bin up and half of it down by p bins. Changing the sign of every other sample of a frame of even length turns the spectrum round. Adding a constant changes bin 0 only, by the number of samples times the constant.", "quantifier": "all frames, all lengths below 2^31, all factors L, all p, all constants, all memory layouts", "why_tests_cant": "These are identities between the transforms of two different frames for all lengths and factors; a wrong twiddle factor or a wrong number of stored bins for one residue of the length shows up only there.", "anchors": ["include/edsp/spectral/spectrum.hpp", "include/edsp/spectral/dft.hpp"]}
{"id": "C153", "title": "Element-wise functions in floating point arithmetic", "statement": "On floating point samples floor, ceil, round, fix and rectify store exact results; fract returns a value in [0, 1) that differs from the argument by an integer; half is exact; square and inv have a relative error of half a unit in the last place and keep sign and order. The amplifier has a relative error of one rounding for each conversion, never makes a sample louder with a factor of at most 1 nor quieter with a factor of at least 1, keeps the order of the samples and is exact for powers of two. With limits the outputs of amplifier and clipper are within the limits. The derivative has the sign of the change, is 0 exactly where the signal does not change, and is exact for neighbours within a factor of two and for the samples of sound files. (Violated: fract of the negative numbers next to 0 is 1, in every precision; with limits of more bits than the samples, such as double limits for float samples, the outputs exceed the limits.)", "quantifier": "all precisions, all arguments, all signals, all factors and limits", "why_tests_cant": "The failures of fract are a handful of exponents among all negative numbers; exactness is a statement about every pair of significands.", "anchors": ["include/edsp/math/numeric.hpp", "include/edsp/algorithm/amplifier.hpp", "include/edsp/algorithm/clipper.hpp", "include/edsp/algorithm/derivative.hpp", "include/edsp/algorithm/floor.hpp", "include/edsp/algorithm/ceil.hpp", "include/edsp/algorithm/round.hpp", "include/edsp/algorithm/fix.hpp", "include/edsp/algorithm/rectify.hpp"]}
{"id": "C154", "title": "What the moving average and the moving root mean square remove and keep", "statement": "A new moving average of N samples, once N samples were filtered, returns the mean of one period for every signal whose period divides N; removes a sinusoid of whole periods in the window exactly, whatever its level and phase, and leaves the constant it was added to; multiplies any other sinusoid by sin(N w/2)/(N sin(w/2)) and delays it by (N-1)/2 samples; delays ramps by (N-1)/2 samples; stays between the smallest and the largest of the last N samples and rises with a rising signal. The moving root mean square returns amplitude/sqrt(2) for a sinusoid of whole periods, sqrt(c^2 + A^2/2) with an offset, a constant for every signal whose period divides N, and lies between the absolute value of the average and the largest absolute value of the last N samples. Both forget everything before the last N samples.", "quantifier": "all lengths, all signals, all frequencies, amplitudes and phases, all times", "why_tests_cant": "The cancellation of whole periods is an identity for all N, frequencies and phases; a window one sample too short or too long leaves a small ripple only.", "anchors": ["include/edsp/filter/moving_average_filter.hpp", "include/edsp/filter/moving_rms_filter.hpp"]}
{"id": "C155", "title": "Sign and phase with which filter designs let signals through", "statement": "Whatever is left in the memory of the section, a second-order low-pass (RBJ, Zoelzer) answers constants with the same constant, alternating samples with 0 and a sinusoid at the cutoff with one Q times as large and a quarter of a period late; a high-pass answers constants with 0, alternating samples with the same samples, and the cutoff a quarter of a period early; a band-pass answers its centre in phase and removes constants and alternating samples; the all-pass leaves constants and alternating samples and inverts a sinusoid at its cutoff; shelves multiply constants or alternating samples by the gain in dB and leave the others. Butterworth and Chebyshev low-passes of every order keep the sign of constants, high-passes of every order that of alternating samples, and a sinusoid at a Butterworth cutoff is late (low-pass) or early (high-pass) by an eighth of a period per order, so that the sum of the two halves of a crossover of even order n has sqrt(2) cos(n pi/4) of the amplitude there.", "quantifier": "all sample rates, cutoffs, quality factors, gains, orders, ripples, states, amplitudes and phases", "why_tests_cant": "Magnitude responses, which tests check, do not see the sign; settling is a statement about all sufficiently late samples, and all orders and cutoffs cannot be tried.", "anchors": ["include/edsp/filter/internal/butterworth_designer.hpp", "include/edsp/filter/internal/rbj_designer.hpp", "include/edsp/filter/internal/zoelzer_designer.hpp", "include/edsp/filter/biquad.hpp"]}
{"id": "C156", "title": "Which low-passes never exceed the range of their input", "statement": "Started at rest, the second-order low-passes (RBJ, Zoelzer) never put out a value outside an interval that contains 0 and all samples if and only if the quality is at most 1/2 and the cutoff at most a quarter of the sampling rate; exactly then they also answer every rising signal with a rising one. The Butterworth low-pass of order 1 has both properties if and only if the cutoff is at most a quarter of the sampling rate. For every Butterworth and Chebyshev II low-pass of order 2 or more, whatever the cutoff and the ripple, there are samples whose outputs exceed their range and rising samples that do not come out rising; the same holds for Chebyshev I low-passes of odd order from 3 on, and those of even order do not keep signals rising. No cascade that keeps rising signals rising has a larger gain anywhere than for constants.", "quantifier": "all sample rates, cutoffs, quality factors, orders and ripples; all input sequences of every length", "why_tests_cant": "Never exceeding a range is a claim about all inputs of all lengths; the inputs that break it for a quality just above 1/2 are long and the excess tiny, so a test with steps or noise sees nothing.", "anchors": ["include/edsp/filter/internal/rbj_designer.hpp", "include/edsp/filter/internal/zoelzer_designer.hpp", "include/edsp/filter/internal/butterworth_designer.hpp", "include/edsp/filter/internal/chebyshev_I_designer.hpp", "include/edsp/filter/internal/chebyshev_II_designer.hpp", "include/edsp/filter/biquad.hpp"]}
{"id": "C157", "title": "How late slow changes come out of a filter", "statement": "Fed a signal that changes at a constant speed, from every state, the designs settle to: for the second-order low-passes (RBJ, Zoelzer) the same signal, late by 1/(2 Q tan(pi fc/fs)) samples; for the RBJ all-pass the same signal, late by twice that; for the Butterworth low-pass of order n the same signal, late by 1/(2 sin(pi/(2n)) tan(pi fc/fs)) samples; for the RBJ low shelf with A = 10^(gain/40) the signal A^2 times as high, late by (A-1)/(2 Q sqrt(A) tan(pi fc/fs)) samples, and for the high shelf the signal as it is, early by that time; for the band-passes a constant proportional to the speed, with factor 1/(2 tan(pi fc/fs)) (RBJ) and 1/(2 Q tan(pi fc/fs)) (Zoelzer); for the second-order high-passes and the Butterworth high-passes of order 2 and more, silence.", "quantifier": "all sample rates, cutoffs, quality factors, gains and orders; all speeds and start values; all states of the second-order sections", "why_tests_cant": "A test compares one filtered signal with one expected delay up to a tolerance; that the delay is exactly this number for every cutoff, quality and order, and is reached exponentially from every state, is a statement about limits of infinite runs.", "anchors": ["include/edsp/filter/internal/rbj_designer.hpp", "include/edsp/filter/internal/zoelzer_designer.hpp", "include/edsp/filter/internal/butterworth_designer.hpp", "include/edsp/filter/biquad.hpp"]}
{"id": "C158", "title": "How long a resonant filter rings after its input stops", "statement": "For every quality above 1/2, after every input and from every state, a second-order filter whose input has stopped either is silent from then on or rings with an amplitude that is multiplied by exactly one number per sample: its outputs stay below a multiple of that number's powers, and of any two neighbouring outputs one stays above another multiple. With alpha = sin(2 pi fc/fs)/(2Q) the number is sqrt((1-alpha)/(1+alpha)) for the RBJ low-pass, high-pass, band-pass and all-pass and for the Zoelzer low-pass, high-pass and band-pass; for the RBJ shelves it is the root of the quotient of the outer coefficients. It is silent at once only if its state is zero, and no other number fits.", "quantifier": "all sample rates, cutoffs, qualities above 1/2 and gains; all inputs of every length; all states", "why_tests_cant": "The rate of decay is a statement about the limit of infinite runs, with bounds from both sides for all inputs; a test sees finitely many samples of one input.", "anchors": ["include/edsp/filter/internal/rbj_designer.hpp", "include/edsp/filter/internal/zoelzer_designer.hpp", "include/edsp/filter/biquad.hpp"]}
{"id": "C159", "title": "Small disturbances of the samples change the results by no more than themselves", "statement": "If two signals of the same length differ by at most eps in every sample, then their means, maxima, minima, largest and smallest magnitudes, root mean squares and standard deviations differ by at most eps, their peak-to-peak values by at most 2 eps, and their norms and root sums of squares by at most sqrt(N) eps. Every output of the moving average and of the moving root mean square differs by at most eps. Clipping and rectifying the same segment leaves all cells within eps of each other, amplifying by c within max(1,|c|) eps. The zero crossing rate has no such bound: an arbitrarily small disturbance can change it from 0 to 1.", "quantifier": "all pairs of signals of every length, all eps, all window lengths, all segments, limits and factors", "why_tests_cant": "The bounds speak about all pairs of neighbouring signals of every length; a test compares a few pairs, and the worst disturbance is a different one for each result.", "anchors": ["include/edsp/statistics/mean.hpp", "include/edsp/statistics/max.hpp", "include/edsp/statistics/min.hpp", "include/edsp/statistics/variance.hpp", "include/edsp/statistics/norm.hpp", "include/edsp/feature/temporal/rms.hpp", "include/edsp/filter/moving_average_filter.hpp", "include/edsp/filter/moving_rms_filter.hpp", "include/edsp/algorithm/clipper.hpp", "include/edsp/algorithm/rectify.hpp", "include/edsp/algorithm/amplifier.hpp", "include/edsp/feature/temporal/rssq.hpp", "include/edsp/feature/temporal/azcr.hpp", "include/edsp/converter/peak2peak.hpp"]}
{"id": "C160", "title": "Larger samples never give smaller results", "statement": "If no sample of one signal exceeds that of another, then neither do its mean, its maximum, its minimum, nor any output of the moving average; and the same holds for every cell after clipping, amplifying by a factor that is not negative (with or without limits), ceil, floor, round or fix. If no sample is larger in magnitude, then neither are the largest and smallest magnitude, energy, power, root mean square, root sum of squares and norm, nor any output of the moving root mean square. The RBJ and Zoelzer low-passes have this property exactly for qualities up to 1/2 and cutoffs up to a quarter of the sample rate, the Butterworth low-pass of order n exactly for n = 1 and such cutoffs. The variance does not have it.", "quantifier": "all pairs of signals of every length, all window lengths, segments, limits and factors; all cutoffs, qualities, sample rates and orders", "why_tests_cant": "Order between results is a statement about all pairs of signals; a filter that violates it does so only for signals adapted to the one negative value of its impulse response, possibly very far from its beginning.", "anchors": ["include/edsp/statistics/mean.hpp", "include/edsp/statistics/max.hpp", "include/edsp/statistics/min.hpp", "include/edsp/statistics/norm.hpp", "include/edsp/feature/temporal/rms.hpp", "include/edsp/feature/temporal/energy.hpp", "include/edsp/filter/moving_average_filter.hpp", "include/edsp/filter/moving_rms_filter.hpp", "include/edsp/algorithm/clipper.hpp", "include/edsp/algorithm/amplifier.hpp", "include/edsp/algorithm/round.hpp", "include/edsp/filter/internal/rbj_designer.hpp", "include/edsp/filter/internal/zoelzer_designer.hpp"]}
{"id": "C161", "title": "What mean, deviation, extrema and levels say about the samples", "statement": "For every non-empty signal of N samples with mean m and standard deviation s: at most N/k^2 samples are k or more deviations from m (if s > 0); none is farther than sqrt(N-1) deviations; with smallest sample lo and largest sample hi the variance is at most (hi-m)(m-lo), which is at most a quarter of (hi-lo)^2, with equality in the first exactly for signals that take no other value than lo and hi; the power is m^2 plus the variance, and its root lies between the smallest and the largest magnitude and is at least |m|; the norm lies between the largest magnitude and sqrt(N) times it. The root mean square lies between the smallest and the largest magnitude.", "quantifier": "all signals of every length, all k > 0", "why_tests_cant": "These are inequalities over all signals of all lengths; the extremal signals, for which an off-by-one in a divisor shows, differ from bound to bound.", "anchors": ["include/edsp/statistics/mean.hpp", "include/edsp/statistics/variance.hpp", "include/edsp/statistics/moment.hpp", "include/edsp/statistics/max.hpp", "include/edsp/statistics/min.hpp", "include/edsp/statistics/norm.hpp", "include/edsp/feature/temporal/power.hpp", "include/edsp/feature/temporal/rms.hpp"]}
{"id": "C162", "title": "Small disturbances in transforms, convolutions and filters", "statement": "If two signals differ by at most eps in every sample, then the bins of their Fourier transforms of N samples differ by at most N eps, their Hartley coefficients by at most sqrt(2) N eps and their cosine coefficients by at most 2 N eps; their convolutions with the same sequence h by at most eps times the sum of |h|. For every cascade of stable sections there is one number L, whatever the length of the signals, with which the outputs differ by at most L eps. L = 1 will do for an RBJ or Zoelzer low-pass exactly if its quality is at most 1/2 and its cutoff at most a quarter of the sample rate, and for a Butterworth low-pass exactly if moreover its order is 1.", "quantifier": "all pairs of signals of every length, all eps, all frames and destinations; all stable cascades; all cutoffs, qualities, sample rates and orders", "why_tests_cant": "The worst disturbance is adapted to the bin, or to the whole impulse response of the filter, and gets worse with the length of the signal; a test tries a few short ones.", "anchors": ["include/edsp/spectral/dft.hpp", "include/edsp/spectral/hartley.hpp", "include/edsp/spectral/dct.hpp", "include/edsp/spectral/convolution.hpp", "include/edsp/filter/biquad.hpp", "include/edsp/filter/internal/rbj_designer.hpp", "include/edsp/filter/internal/zoelzer_designer.hpp"]}
{"id": "C163", "title": "The difference functions and the autocorrelation of a frame agree with each other", "statement": "For every frame of N samples and every lag k: N times the value of asdf plus twice the value of autocorr is the energy of the frame without its first k samples plus that of the frame without its last k samples; the value of amdf is not negative and its square is at most (N-k)/N times the value of asdf; and both are zero exactly if every sample equals the one k places before. An offset of the samples changes neither difference function, and a factor g multiplies amdf by |g| and asdf by g^2.", "quantifier": "all frames of every length (up to the size limit of the transform), all lags, destinations, factors and offsets", "why_tests_cant": "The identity connects three functions, one of them computed through Fourier transforms, for every lag of every frame; that a zero means a period and nothing else is a statement about all frames.", "anchors": ["include/edsp/feature/temporal/amdf.hpp", "include/edsp/feature/temporal/asdf.hpp", "include/edsp/spectral/correlation.hpp", "include/edsp/feature/temporal/energy.hpp"]}
{"id": "C164", "title": "Spectral features of spectra that are mixed, amplified or given another axis", "statement": "For two spectra of the same length with non-negative lines and positive sums, the centroid of their sum is the mean of the two centroids weighted by the sums (so it lies between them), and the square of the spread is the weighted mean of the squares plus x*y/(x+y)^2 times the squared distance of the centroids, where x and y are the sums (so the spread is at least the smaller of the two). A positive gain of a spectrum leaves centroid, spread, crest and, for positive lines, flatness as they are. Measured on the axis a*f+b instead of f, the weighted centroid c becomes a*c+b and the weighted spread s becomes |a|*s; on the axis 0, 1, 2, ... they are the centroid and the spread without an axis.", "quantifier": "all spectra of every length with non-negative lines, not all zero; all positive gains; all axes and all factors and offsets of the axis", "why_tests_cant": "The law of the mixture connects three calls for every pair of spectra; invariance under gains and axes is a statement about all gains and axes.", "anchors": ["include/edsp/feature/statistics/centroid.hpp", "include/edsp/feature/statistics/spread.hpp", "include/edsp/feature/statistics/crest.hpp", "include/edsp/feature/statistics/flatness.hpp"]}
{"id": "C165", "title": "The extreme values of the spectral features tell what the spectrum looks like", "statement": "For a spectrum of N non-negative lines, not all zero: the centroid is 0 exactly if only bin 0 is not zero, and N-1 exactly if only the last bin is; the spread is 0 exactly if there is a single line, and (N-1)/2 (for N >= 2) exactly if there are two equal lines in the first and the last bin and nothing between; the crest is 1 exactly if there is a single line and 1/N exactly if all lines have the same magnitude. For positive lines the flatness is 1 exactly if all lines are equal; for at least two positive lines the spectral entropy is positive, and it is 1 exactly if all lines are equal.", "quantifier": "all spectra of every length with non-negative (flatness, entropy: positive) lines", "why_tests_cant": "That no other spectrum reaches the extreme value is a statement about all spectra; a test can only show that the expected one does.", "anchors": ["include/edsp/feature/statistics/centroid.hpp", "include/edsp/feature/statistics/spread.hpp", "include/edsp/feature/statistics/crest.hpp", "include/edsp/feature/statistics/flatness.hpp", "include/edsp/feature/spectral/spectral_entropy.hpp"]}
{"id": "C166", "title": "A filter reported as unstable can be driven to any level", "statement": "If a biquad has a pole on or outside the unit circle that its numerator does not cancel, then from whatever state there is an input within -1 and 1 for which the output exceeds every level. So for a biquad without such a common factor stability() is true exactly if every bounded input gives a bounded output. With the numerator equal to the denominator the biquad at rest returns its input, whatever stability() says.", "quantifier": "all real coefficients, all states of the filter, all bounded inputs, all levels", "why_tests_cant": "That no bound exists is a statement about all levels and unbounded runs; a filter with poles on the circle can look harmless for as long as a test runs.", "anchors": ["include/edsp/filter/biquad.hpp"]}
{"id": "C167", "title": "What skewness, kurtosis and equal means say about the samples", "statement": "For samples that are not all the same: kurtosis is 1 exactly if every sample is one standard deviation away from the mean; kurtosis is the square of the skewness plus 1 exactly if there are only two different values; for N samples kurtosis is at most N-1 and the magnitude of skewness at most the root of N-1; samples that lie symmetrically around c have the mean c and the skewness 0. For positive samples two of the harmonic, geometric and arithmetic mean agree exactly if all samples are the same.", "quantifier": "all sequences of real samples of every length that are not constant (means: positive samples)", "why_tests_cant": "That no other samples reach the extreme value, and that none exceed it, are statements about all sequences.", "anchors": ["include/edsp/statistics/kurtosis.hpp", "include/edsp/statistics/skewness.hpp", "include/edsp/statistics/moment.hpp", "include/edsp/statistics/harmonic_mean.hpp", "include/edsp/statistics/geometric_mean.hpp", "include/edsp/statistics/mean.hpp"]}
{"id": "C168", "title": "A frame and its spectrum are not both concentrated", "statement": "For the complex transform of N samples: no bin is larger than the sum of the magnitudes of the samples; no sample is larger than the mean magnitude of the bins; and unless all samples are zero, the number of samples that are not zero times the number of bins that are not zero is at least N. For the transform of a real frame, which stores the bins up to N/2, the same holds with each stored bin counted twice; and if no sample is negative, no bin is larger than bin 0, which is real.", "quantifier": "all complex and all real frames of every length up to 2^31-1, at every position of the input and output memory", "why_tests_cant": "That no frame whatever has both few nonzero samples and few nonzero bins is a statement about all frames.", "anchors": ["include/edsp/spectral/dft.hpp", "include/edsp/spectral/internal/libfftw_impl.hpp"]}
{"id": "C169", "title": "What can be recovered from the output of a filter", "statement": "From the output of a biquad or a cascade, whatever its state, the input can be recovered exactly if no stage has a zero as its first feed-forward coefficient. Then the biquad with the two rows of coefficients exchanged exists, undoes the biquad and is undone by it, and it is reported as stable exactly if the zeros of the biquad lie within the unit circle. The low-pass, high-pass and band-pass of the cookbook lose nothing at any setting; the all-pass loses nothing except at the settings with sin w = 2 Q. The outputs of a moving average determine the samples, those of a moving root mean square determine them up to their signs and no further.", "quantifier": "all coefficients, states and signals of every length; for the designs all cutoffs strictly between 0 and Nyquist and all positive qualities; for the moving filters all lengths", "why_tests_cant": "That no two of all signals give the same output is a statement about all pairs of signals.", "anchors": ["include/edsp/filter/biquad.hpp", "include/edsp/filter/biquad_cascade.hpp", "include/edsp/filter/internal/rbj_designer.hpp", "include/edsp/filter/moving_average_filter.hpp", "include/edsp/filter/moving_rms_filter.hpp"]}
{"id": "C170", "title": "The autocorrelation of a frame and its spectrum tell the same", "statement": "For every frame of n samples with n zeros behind it, value k of the spectrum of the 2n samples is r0 + 2 sum_{l=1}^{n-1} r_l cos(pi k l/n) with the values r_l of the unscaled autocorrelation of the frame, and 2n times r_l is the corresponding cosine sum of the spectrum. So two frames have the same autocorrelation exactly if, with as many zeros behind them, they have the same spectrum.", "quantifier": "all frames of every length up to 2^30-1, at every position of the memory", "why_tests_cant": "That spectrum and autocorrelation never separate two frames differently is a statement about all pairs of frames.", "anchors": ["include/edsp/spectral/spectrum.hpp", "include/edsp/spectral/correlation.hpp"]}
{"id": "C171", "title": "The energy of a frame in its Hartley, cosine and analytic transforms", "statement": "For every frame of n samples: the squares of the values stored by hartley add up to n times the energy of the frame; the square of value 0 stored by dct and twice the squares of the others add up to 4 n times the energy; the imaginary part of the analytic signal stored by hilbert has the energy of the frame less 1/n times the square of the sum of the samples and, if n is even, less 1/n times the square of the sum with alternating signs: never more than the frame, and as much exactly if it contains neither a constant nor a component at half the sample rate.", "quantifier": "all real frames of every length up to 2^31-1, at every position of the memory", "why_tests_cant": "Conservation of energy is an identity for all frames; agreement on some of them does not show it.", "anchors": ["include/edsp/spectral/hartley.hpp", "include/edsp/spectral/dct.hpp", "include/edsp/spectral/hilbert.hpp"]}
{"id": "C172", "title": "Windows rise to their middle and fall from there", "statement": "The values stored by every window function except the constant ones and flattop grow strictly from the first cell up to the middle of the range and fall strictly from the middle to the last cell, for every length, even and odd, welch included. flattop does not: over seven cells its second value is less than its first.", "quantifier": "all windows and all output ranges of at least two cells", "why_tests_cant": "That no length has a dip somewhere in its window is a statement about all lengths and all cells.", "anchors": ["include/edsp/windowing/bartlett.hpp", "include/edsp/windowing/blackman.hpp", "include/edsp/windowing/blackman_harris.hpp", "include/edsp/windowing/blackman_nuttall.hpp", "include/edsp/windowing/flattop.hpp", "include/edsp/windowing/hamming.hpp", "include/edsp/windowing/hanning.hpp", "include/edsp/windowing/triangular.hpp", "include/edsp/windowing/welch.hpp"]}
{"id": "C173", "title": "Steps on the logarithmic scales are ratios", "statement": "mag2db and pow2db of a product are the sums of the levels and of a reciprocal the negated level; db2mag and db2pow of a sum are products; 20 dB of magnitude and 10 dB of power are a factor ten. hertz2cent moves by 1200 log2 r when a frequency is multiplied by r, by 1200 for an octave, is 5700 at 440 Hz and odd; a step of d cents in cent2hertz multiplies by 2^(d/1200) as long as neither end is negative. A step on the mel or ERB scale multiplies the frequency counted from -700 Hz or -1000/4.37 Hz by a factor that depends on the step only. Of neighbouring bands of equal width in Hertz the higher one is narrower on the mel, ERB and cent scales, so that the distances of the values stored by melspace, erbspace and centspace strictly shrink; those of barkspace need not: from 100 to 300 Hz in three cells they grow.", "quantifier": "all positive frequencies, magnitudes, powers and ratios; all output ranges of at least two cells", "why_tests_cant": "The laws relate the results for all pairs of frequencies; a table of values cannot show that a ratio gives the same step everywhere.", "anchors": ["include/edsp/converter/mag2db.hpp", "include/edsp/converter/pow2db.hpp", "include/edsp/converter/db2mag.hpp", "include/edsp/converter/db2pow.hpp", "include/edsp/auditory/converter/hertz2cent.hpp", "include/edsp/auditory/converter/cent2hertz.hpp", "include/edsp/auditory/converter/mel2hertz.hpp", "include/edsp/auditory/converter/erb2hertz.hpp", "include/edsp/auditory/melspace.hpp"]}
{"id": "C174", "title": "The transforms of a convolution", "statement": "For two frames of n samples, the first silent from position a on and the second from position b on, with a + b <= n + 1, so that conv keeps the whole convolution: the bins stored by dft for the convolution are the products of those of the frames, the values stored by spectrum the products of theirs, and the values stored by cepstrum the sums of theirs; cepstrum fails for the convolution exactly if it fails for one of the frames.", "quantifier": "all frames of all lengths up to 2^30 - 1 and all splits a + b <= n + 1", "why_tests_cant": "The law relates three functions of the library for all pairs of signals; a bin that is wrong only for some length or some pair is not found by trying.", "anchors": ["include/edsp/spectral/convolution.hpp", "include/edsp/spectral/cepstrum.hpp", "include/edsp/spectral/spectrum.hpp", "include/edsp/spectral/dft.hpp"]}
{"id": "C175", "title": "Sum, centroid and spread of a convolution", "statement": "For two frames of n samples, the first silent from position a on and the second from position b on, with a + b <= n + 1: the samples stored by conv add up to the product of the sums of the frames; centroid of the stored frame is the sum of the centroids of the frames whenever these exist; and for samples that are not negative, neither frame being silent, no stored sample is negative and the square of spread is the sum of the squares of the spreads.", "quantifier": "all frames of all lengths up to 2^30 - 1 and all splits a + b <= n + 1", "why_tests_cant": "The laws relate conv, centroid and spread for all pairs of frames and all lengths.", "anchors": ["include/edsp/spectral/convolution.hpp", "include/edsp/feature/statistics/centroid.hpp", "include/edsp/feature/statistics/spread.hpp"]}
{"id": "C176", "title": "Products of frames and products of spectra", "statement": "If a frame is the element-wise product of two frames of n samples (a frame and a window, for instance), the bins cdft stores for it are the convolution of the bins of the two frames around the circle, divided by n. If bins are the element-wise products of those cdft stores for two frames, cidft of them stores the convolution of the two frames around the circle.", "quantifier": "all pairs of complex frames of all lengths up to 2^31 - 1", "why_tests_cant": "The laws relate three transforms of all pairs of frames of all lengths.", "anchors": ["include/edsp/spectral/dft.hpp", "include/edsp/spectral/fft_engine.hpp", "include/edsp/spectral/internal/libfftw_impl.hpp"]}
{"id": "C177", "title": "How large convolutions and correlations become", "statement": "For all frames of n samples: the magnitudes of the samples stored by conv add up to at most the product of the sums of the magnitudes of the frames; their energy is at most the square of the sum of the magnitudes of either frame times the energy of the other; the square of every stored sample, and of every lag stored by xcorr without scaling, is at most the product of the energies of the frames. All bounds are attained.", "quantifier": "all pairs of frames of all lengths up to 2^30 - 1", "why_tests_cant": "Upper bounds over all signals; tests try some.", "anchors": ["include/edsp/spectral/convolution.hpp", "include/edsp/spectral/correlation.hpp", "include/edsp/feature/temporal/energy.hpp"]}
{"id": "C178", "title": "The derivative among filters, convolutions and correlations", "statement": "Differentiating a frame and then filtering it with a cascade that has been reset, whatever calls were made on it before, gives the samples obtained by filtering first and differentiating then. conv of a differentiated frame with another frame stores the derivative of what conv stores for the two frames. The energy of the derivative of a frame is twice the energy of the frame, less the square of the last sample and twice the correlation at lag 1, and at most four times the energy of the frame.", "quantifier": "all frames, all programs of calls on a cascade, all cascades", "why_tests_cant": "The laws exchange two operations for all signals and filters; tests compare single outputs.", "anchors": ["include/edsp/algorithm/derivative.hpp", "include/edsp/filter/biquad_cascade.hpp", "include/edsp/spectral/convolution.hpp", "include/edsp/feature/temporal/energy.hpp"]}
{"id": "C179", "title": "The moving average among filters, derivatives and convolutions", "statement": "Smoothing a signal with a new moving average and then filtering it with a cascade that has been reset, whatever calls were made on the cascade before, gives the samples obtained by filtering first and smoothing then. Two moving averages of any lengths can be exchanged. The moving average of length N of a differentiated frame is the derivative of its moving average, and each of its values is the change over the last N samples divided by N, samples before the frame counting as zero. conv of a smoothed frame with another frame stores the moving average of what conv stores for the frame itself.", "quantifier": "all frames and signals, all window lengths N with 0 < N < 2^63, all programs of calls on a cascade", "why_tests_cant": "The laws exchange two operations for all signals, lengths and filters; tests compare single outputs.", "anchors": ["include/edsp/filter/moving_average_filter.hpp", "include/edsp/filter/biquad_cascade.hpp", "include/edsp/algorithm/derivative.hpp", "include/edsp/spectral/convolution.hpp"]}
{"id": "C180", "title": "The imaginary parts of the analytic signal", "statement": "The imaginary parts hilbert stores for a frame add up to zero and are orthogonal to the frame. If the samples of a frame add up to zero, and for an even length also with alternating signs, then hilbert applied to these imaginary parts stores as imaginary parts the frame with the opposite sign. The analytic signal of a combination of two frames is the combination of their analytic signals, and that of a circularly shifted frame is the analytic signal of the frame shifted by as many samples.", "quantifier": "all frames of every length n with 0 < n < 2^31, all destinations with room for the result", "why_tests_cant": "The laws relate the outputs for different inputs, for all frames and lengths; tests compare single outputs.", "anchors": ["include/edsp/spectral/hilbert.hpp"]}
{"id": "C181", "title": "Filtering a frame backwards", "statement": "The sum of the products of a filtered frame with a second frame equals the sum of the products of the frame with the second one filtered backwards (reversed, filtered, reversed), for a cascade that has been reset, whatever calls were made on it before, and for a new moving average. Filtering a frame forwards and then backwards and comparing the result with the frame gives the energy of the frame filtered once, which is never negative, and of two frames either may be the one filtered both ways. The sum of the products of conv of two frames with a third frame equals that of the first frame with xcorr of the third and the second.", "quantifier": "all frames of equal length, all programs of calls on a cascade, all window lengths N with 0 < N < 2^63", "why_tests_cant": "The laws compare sums over the outputs for two arbitrary frames and all filters; tests compare single outputs.", "anchors": ["include/edsp/filter/biquad_cascade.hpp", "include/edsp/filter/moving_average_filter.hpp", "include/edsp/spectral/convolution.hpp", "include/edsp/spectral/correlation.hpp", "include/edsp/feature/temporal/energy.hpp"]}
{"id": "C182", "title": "What the samples coming out of a filter add up to", "statement": "A cascade after a reset, whatever calls were made on it before, that answers a constant 1 by settling to g, returns for every frame followed by zeros samples whose sum tends to g times the sum of the frame. So after a reset the low-passes and all-passes of second order and the RBJ high shelf keep the sum of every frame, the high-passes and band-passes bring it to zero, and the RBJ low shelf of G dB multiplies it by 10^(G/20); Butterworth low-passes of every order keep it, Butterworth high-passes bring it to zero (odd orders in builds without assertions).", "quantifier": "all frames, all programs of calls on a cascade, all cutoffs between 0 and Nyquist, all qualities, gains and orders", "why_tests_cant": "The sum runs over an infinite output and the law holds for all frames and parameters; tests stop after finitely many samples.", "anchors": ["include/edsp/filter/biquad.hpp", "include/edsp/filter/biquad_cascade.hpp", "include/edsp/filter/internal/rbj_designer.hpp", "include/edsp/filter/internal/zoelzer_designer.hpp", "include/edsp/filter/internal/butterworth_designer.hpp"]}
{"id": "C183", "title": "How late the bulk of a frame comes out of a filter", "statement": "The centre of a frame is the mean position of its samples weighted with their values. A cascade after a reset, whatever calls were made on it before, that makes ramps t samples late and lets constants through returns, for every frame whose samples do not add up to zero, followed by zeros, samples whose centre tends to that of the frame moved by t. So second-order low-passes move it by 1/(2 Q tan(pi fc/fs)) samples, the RBJ all-pass by twice as many, the RBJ shelves by (A-1)/(2 Q sqrt(A) tan(pi fc/fs)) samples with A = 10^(G/40), the low shelf to later and the high shelf to earlier positions, and a Butterworth low-pass of order n by 1/(2 sin(pi/2n) tan(pi fc/fs)) (odd orders in builds without assertions).", "quantifier": "all frames with a sum other than zero, all programs of calls on a cascade, all cutoffs between 0 and Nyquist, all qualities, gains and orders", "why_tests_cant": "The centre is that of an infinite output and the law holds for all frames and parameters; tests stop after finitely many samples.", "anchors": ["include/edsp/filter/biquad.hpp", "include/edsp/filter/biquad_cascade.hpp", "include/edsp/filter/internal/rbj_designer.hpp", "include/edsp/filter/internal/zoelzer_designer.hpp", "include/edsp/filter/internal/butterworth_designer.hpp"]}
{"id": "C184", "title": "Stable filters forget, and answer periodic signals periodically", "statement": "A cascade of sections that are all reported stable, after a reset and whatever calls were made on it before: the outputs for two signals that agree from some sample on approach each other, and the output for a signal of period P approaches, geometrically, exactly one signal of the same period P, whose mean over a period is that of the input times the factor by which the cascade multiplies constants. What an output settles to does not depend on the sample at which the filter starts, and a signal whose second half period is the first one upside down is answered by a signal of the same kind. Stability is needed: after a first sample 1 the running sum y(n) = x(n) + y(n-1), which is not reported stable, differs for ever from its answer to silence.", "quantifier": "all programs of calls on a cascade whose sections are reported stable, all signals, all periods", "why_tests_cant": "Both are limits over infinite signals, for every stable cascade and every periodic signal; tests see finite prefixes of some.", "anchors": ["include/edsp/filter/biquad.hpp", "include/edsp/filter/biquad_cascade.hpp"]}
{"id": "C185", "title": "The spectral lines of the answer to a periodic signal", "statement": "A cascade of sections that are all reported stable, after a reset and whatever calls were made on it before, fed with a signal of period P: bin k of the discrete Fourier transform of one period of what the output settles to is bin k of one period of the signal times the value of the transfer function at the angular frequency 2 pi k / P. So the magnitudes of the bins are multiplied by the gain at their frequency, and no line appears that the signal does not have.", "quantifier": "all programs of calls on a cascade whose sections are reported stable, all periods, all periodic signals, all bins", "why_tests_cant": "The answer is a limit over an infinite signal, and the law holds for every stable cascade, period and signal.", "anchors": ["include/edsp/filter/biquad.hpp", "include/edsp/filter/biquad_cascade.hpp", "include/edsp/spectral/dft.hpp"]}
{"id": "C186", "title": "The power of the answer to a periodic signal", "statement": "A cascade of sections that are all reported stable, after a reset and whatever calls were made on it before, fed with a signal of period P: the power (the mean of the squares over a period) of what the output settles to is the sum over the bins of one period of the signal of |bin|^2 / P^2 times the square of the gain at the frequency of the bin. So gains between m and M keep the power between m^2 and M^2 times that of the signal, and the RBJ all-pass leaves the power of every periodic signal as it is.", "quantifier": "all programs of calls on a cascade whose sections are reported stable, all periods, all periodic signals, all all-pass parameters", "why_tests_cant": "The power is that of a limit over an infinite signal, for every stable cascade and every periodic signal.", "anchors": ["include/edsp/filter/biquad.hpp", "include/edsp/filter/biquad_cascade.hpp", "include/edsp/filter/internal/rbj_designer.hpp", "include/edsp/spectral/dft.hpp"]}
{"id": "C187", "title": "What filters do to the harmonics of a periodic signal", "statement": "A Butterworth low-pass of order n answers every signal of period P with one of period P in which bin k of a period (2k < P) has 1/sqrt(1 + (tan(pi k/P)/tan(pi fc/fs))^(2n)) of its magnitude and the bin at the Nyquist frequency (2k = P) is zero. The high-pass leaves 1/sqrt(1 + (tan(pi fc/fs)/tan(pi k/P))^(2n)) of bin k, all of the bin at the Nyquist frequency and nothing of the constant part (odd orders of both in builds without assertions). The RBJ low-pass in a cascade multiplies the bin at its cutoff, if there is one, by Q.", "quantifier": "all orders, cutoffs, sample rates, qualities and periods, all periodic signals, all bins up to the Nyquist frequency", "why_tests_cant": "The answer is a limit over an infinite signal, and the law holds for every order, period and signal.", "anchors": ["include/edsp/filter/biquad.hpp", "include/edsp/filter/biquad_cascade.hpp", "include/edsp/filter/internal/butterworth_designer.hpp", "include/edsp/filter/internal/rbj_designer.hpp", "include/edsp/spectral/dft.hpp"]}
{"id": "C188", "title": "Signals that fade, settle or approach each other, through stable filters", "statement": "A cascade of sections that are all reported stable, after a reset and whatever calls were made on it before: if two signals approach each other, however slowly, so do the outputs; if a signal tends to a level, the output tends to that level times the factor by which the cascade multiplies constants; and if a signal approaches one of period P, the output approaches the answer to that one, a signal of period P.", "quantifier": "all programs of calls on a cascade whose sections are reported stable, all pairs of signals that approach each other, all limits and periods", "why_tests_cant": "Hypothesis and conclusion are about limits of infinite signals with no rate given; no finite test decides either.", "anchors": ["include/edsp/filter/biquad.hpp", "include/edsp/filter/biquad_cascade.hpp"]}
{"id": "C189", "title": "Signals without end whose samples have a finite sum", "statement": "A cascade after a reset, whatever calls were made on it before, that multiplies constants by g: if the absolute values of the samples of a signal have a finite sum, so have those of the output; the output then adds up to g times what the signal adds up to, and the sum of its absolute values is at most that of the signal times that of the answer to a single sample 1.", "quantifier": "all programs of calls on a cascade that settles for constants, all absolutely summable signals", "why_tests_cant": "The sums are over infinite outputs and the law holds for every summable signal.", "anchors": ["include/edsp/filter/biquad.hpp", "include/edsp/filter/biquad_cascade.hpp"]}
{"id": "C190", "title": "Signals that settle, approach each other or repeat, through the moving average and the moving root mean square", "statement": "If a signal tends to a level, its moving average tends to the same level and its moving root mean square to the absolute value of it, for every length of the filter; if two signals approach each other, however slowly, so do their moving averages; and a signal of any period, in whatever relation to the length of the filter, is answered with signals of the same period as soon as the window is full.", "quantifier": "all lengths up to 2^63, all signals with a limit, all pairs of signals that approach each other, all periods", "why_tests_cant": "Limits of infinite signals with no rate given, and all combinations of period and length; no finite test decides them.", "anchors": ["include/edsp/filter/moving_average_filter.hpp", "include/edsp/filter/moving_rms_filter.hpp"]}
