{"id": "C01", "title": "CRC value is the polynomial remainder", "statement": "For every supported width and every parameter set, crc::generic returns exactly the remainder (over GF(2)) of the initial value and the (optionally byte-reflected) message, shifted by the width, divided by x^w + poly, then optionally reflected over the width and XORed with xorOut, truncated to the width.", "quantifier": "all byte strings of any positive length, all polynomials, init, refIn, refOut, xorOut, all three widths", "why_tests_cant": "The message space is infinite and every preset has 2^(8n) messages of length n; check values of '123456789' exercise one point.", "anchors": ["src/crc.cpp: crc::generic, crc::reflect", "src/include/crc.hpp: crc8..crc32 wrappers"]}
{"id": "C02", "title": "CRC is affine in the message", "statement": "For three messages of the same length, the checksum of their bytewise XOR equals the XOR of the three checksums, for any fixed parameter set.", "quantifier": "all lengths, all triples of messages of equal length, all parameter sets", "why_tests_cant": "Requires all triples of messages.", "anchors": ["src/crc.cpp: crc::generic"]}
{"id": "C03", "title": "CRC detects every burst error not longer than its width", "statement": "When the generator polynomial is odd (every preset's is), two different messages of the same length that differ only inside a window of at most w consecutive bits (in transmission order) never get the same checksum; in particular every single-bit error is detected.", "quantifier": "all message lengths, all messages, all error patterns confined to w consecutive bits, all odd polynomials, all inits, reflections and xorOut", "why_tests_cant": "Number of messages and error patterns is unbounded.", "anchors": ["src/crc.cpp: crc::generic", "src/include/crc.hpp"]}
{"id": "C04", "title": "CRC guard behaviour and result range", "statement": "crc::generic returns 0 for a null buffer, zero length or an unknown mode, and otherwise a value that fits in the selected width; bits of poly, init and xorOut above the width have no influence on the result.", "quantifier": "all parameters and messages", "why_tests_cant": "Upper-bit independence quantifies over 2^(3*(32-w)) parameter combinations for every message.", "anchors": ["src/crc.cpp: crc::generic"]}
{"id": "C05", "title": "CRC of a message followed by its own checksum is the constant residue", "statement": "For a non-reflected parameter set with xorOut = 0, the checksum of any message followed by its own checksum (most significant byte first) is 0, for any init; so a receiver can verify a frame by checking for zero.", "quantifier": "all messages, all polynomials, all inits, three widths", "why_tests_cant": "Unbounded message space.", "anchors": ["src/crc.cpp: crc::generic"]}
{"id": "C06", "title": "Tapped delay line returns the i-th most recent sample", "statement": "After setup (or flush) with initial value v and any sequence of inserted samples, reading index i (0 <= i < n) returns the sample inserted i insertions ago, or v if fewer than i+1 samples have been inserted; getRecent returns index 0 and getOldest index n-1.", "quantifier": "all sequences of inserts and flushes of any length, all window sizes n >= 1, all indices", "why_tests_cant": "Behaviour depends on the whole insertion history and on wrap-around of two pointers; finite tests only cover some phases and sizes.", "anchors": ["src/tdl.cpp: tdl::setup, flush, insertSample, getAtIndex, getOldest, getRecent, operator[]", "src/include/tdl.hpp"]}
{"id": "C07", "title": "Delay line subscript is total", "statement": "operator[] returns the oldest sample for index -1 and an undefined-marker (NaN) for every other index outside 0..n-1, and never reads outside the window.", "quantifier": "all histories, all int indices, all window sizes", "why_tests_cant": "Out-of-window reads are undefined behaviour and are invisible to value-based tests.", "anchors": ["src/tdl.cpp: tdl::operator[]"]}
{"id": "C08", "title": "Delay line never touches memory outside its window", "statement": "No sequence of insertSample/flush/getOldest/getRecent/getAtIndex(i<n) calls reads or writes outside the user-provided n-element buffer.", "quantifier": "all call sequences, all window sizes n >= 1", "why_tests_cant": "Memory safety over all histories.", "anchors": ["src/tdl.cpp"]}
{"id": "C09", "title": "Single-bit operations change exactly the addressed bit", "statement": "setBit, clearBit, toggleBit and writeBit make readBit at the same index return 1, 0, the complement and the written value respectively, and leave every other bit unchanged.", "quantifier": "all buffer contents, all sizes, all pairs of in-range indices", "why_tests_cant": "2^(8n) buffer contents times n^2 index pairs.", "anchors": ["src/bitfield.cpp: setBit, clearBit, toggleBit, readBit, writeBit", "src/include/bitfield.hpp: bitSet, bitClear, bitToggle, bitGet"]}
{"id": "C10", "title": "Bit-field integers round-trip", "statement": "After writeUINTn(i, v, k) succeeds with the k-bit field entirely inside the area, readUINTn(i, k) returns v truncated to k bits, for every k from 1 to 32 and every alignment.", "quantifier": "all contents, all indices, all widths 1..32, all values", "why_tests_cant": "All alignments across word boundaries with all contents.", "anchors": ["src/bitfield.cpp: readUINTn, writeUINTn, read_uint32, write_uint32, maskMerge"]}
{"id": "C11", "title": "Bit-field writes never disturb neighbouring bits", "statement": "writeUINTn(i, v, k) changes no bit outside i..i+k-1; reading any bit j outside that interval gives the value it had before.", "quantifier": "all contents, indices, widths, values and all other bit positions", "why_tests_cant": "Framing over all states.", "anchors": ["src/bitfield.cpp: writeUINTn, write_uint32"]}
{"id": "C12", "title": "Bit-field reads return the addressed bits", "statement": "readUINTn(i, k) returns the number whose bit j is bit i+j of the area (bits past the end read as 0), for k in 1..32; bitfields never access words outside the area for in-range indices when the area is a whole number of 32-bit words.", "quantifier": "all contents, indices, widths", "why_tests_cant": "All alignments with all contents; memory safety is invisible to tests.", "anchors": ["src/bitfield.cpp: readUINTn, read_uint32"]}
{"id": "C13", "title": "clearAll, setAll and dump", "statement": "clearAll makes every bit 0, setAll makes every bit 1 and dump copies exactly the requested bytes and fails iff more bytes are requested than the area holds.", "quantifier": "all contents and sizes, all bit indices", "why_tests_cant": "All sizes and contents.", "anchors": ["src/bitfield.cpp: clearAll, setAll, dump"]}
{"id": "C14", "title": "sort produces an ordered permutation", "statement": "algorithm::sort with the default order leaves the array a permutation of its input, ordered by <, for every array and every length; the fixed-capacity interval stack it uses never overflows or drops an interval, and no access leaves the array.", "quantifier": "all arrays of every length over any type with a strict weak order", "why_tests_cant": "All arrays of all lengths; the stack-capacity argument is a worst case over all partitions.", "anchors": ["src/include/algorithm.hpp: algorithm::sort, sort_stack, swap"]}
{"id": "C15", "title": "sort honours a custom comparator", "statement": "algorithm::sort with a user-supplied comparator leaves the array a permutation of its input ordered by that comparator.", "quantifier": "all arrays and all strict weak orders", "why_tests_cant": "All arrays and all comparators.", "anchors": ["src/include/algorithm.hpp: algorithm::sort"]}
{"id": "C16", "title": "reverse reverses exactly the selected range", "statement": "algorithm::reverse(array, first, last) reverses the elements between the two inclusive positions, leaves all others unchanged, and is an involution.", "quantifier": "all arrays, all in-range first <= last", "why_tests_cant": "All arrays, lengths and ranges.", "anchors": ["src/include/algorithm.hpp: algorithm::reverse"]}
{"id": "C17", "title": "rotate is a cyclic shift", "statement": "algorithm::rotate(array, k) moves the element at position i to position (i + k) mod n (negative k rotates the other way), so rotating by k and then by -k restores the array.", "quantifier": "all arrays of every length n >= 1, all int k", "why_tests_cant": "All lengths, all shifts including multiples of the length.", "anchors": ["src/include/algorithm.hpp: algorithm::rotate"]}
{"id": "C18", "title": "binary_search finds an element iff it is present", "statement": "On an array ordered by <, algorithm::binary_search returns a pointer to an element equal to the key if one exists in the searched range and a null pointer otherwise; it always terminates and never reads outside the range.", "quantifier": "all sorted arrays, all keys", "why_tests_cant": "All arrays, all lengths.", "anchors": ["src/include/algorithm.hpp: algorithm::binary_search"]}
{"id": "C19", "title": "Range queries and updates over inclusive ranges", "statement": "find returns the first matching element or null; any_of/all_of/count_if agree with the logical quantifiers/cardinality over the range; fill sets exactly the range; for_each visits each element once in order.", "quantifier": "all arrays, all in-range first..last, all predicates", "why_tests_cant": "All arrays, ranges and predicates.", "anchors": ["src/include/algorithm.hpp: find, any_of, all_of, count_if, fill, for_each"]}
{"id": "C20", "title": "replace and replace_if replace all matches; find_if returns the first match", "statement": "replace/replace_if substitute every matching element in the range and find_if returns the first element satisfying the predicate, as documented.", "quantifier": "all arrays, ranges, predicates", "why_tests_cant": "All arrays and predicates.", "anchors": ["src/include/algorithm.hpp: replace, replace_if, find_if"]}
{"id": "C21", "title": "Fixed-point addition and subtraction are exact or flagged", "statement": "fp16 add and sub return the exact result whenever it is representable and the overflow sentinel whenever it is not, and never invoke undefined behaviour.", "quantifier": "all pairs of 32-bit raw values", "why_tests_cant": "2^64 operand pairs.", "anchors": ["src/fp16.cpp: fp16::add, sub, saturate", "src/include/fp16.hpp: operators + -"]}
{"id": "C22", "title": "Fixed-point multiplication is correctly rounded", "statement": "fp16 multiplication returns the exact product rounded to the nearest representable value (ties away from zero) whenever that is representable, and the overflow sentinel otherwise.", "quantifier": "all pairs of 32-bit raw values", "why_tests_cant": "2^64 operand pairs; the failing corner (wrapped cross products) is sparse.", "anchors": ["src/fp16.cpp: fp16::mul"]}
{"id": "C23", "title": "Fixed-point division is correctly rounded", "statement": "fp16 division returns the exact quotient rounded to nearest (ties away from zero) whenever it is representable, and the overflow sentinel otherwise; the division loops terminate.", "quantifier": "all pairs of raw values with non-zero divisor", "why_tests_cant": "2^64 operand pairs through a data-dependent loop.", "anchors": ["src/fp16.cpp: fp16::div"]}
{"id": "C24", "title": "Fixed-point square root is correctly rounded", "statement": "fp16 sqrt returns, for every positive x, the representable value nearest to the real square root, and the overflow sentinel for negative x as documented.", "quantifier": "all 2^32 raw values", "why_tests_cant": "Bit-by-bit algorithm over 2^31 inputs.", "anchors": ["src/fp16.cpp: fp16::sqrt", "src/include/fp16.hpp: sqrt documentation"]}
{"id": "C25", "title": "Fixed-point floor, ceil and rounding", "statement": "floor returns the largest integer not above x, ceil the smallest integer not below x (when representable), and rounding the nearest integer.", "quantifier": "all raw values", "why_tests_cant": "2^32 values each; undefined behaviour at the top of the range.", "anchors": ["src/fp16.cpp: fp16::ceil", "src/include/fp16.hpp: floor, rounding"]}
{"id": "C26", "title": "Fixed-point decimal text is the correctly rounded value", "statement": "toASCII writes an optional '-', the integer part without leading zeros, and (for decimals > 0) '.' followed by exactly `decimals` digits, such that the decimal number read back equals the value rounded to that many decimals (half up in magnitude); it fits in 13 bytes including the terminator.", "quantifier": "all raw values, all int decimals", "why_tests_cant": "2^32 values times each decimals setting; carry across the decimal point is rare.", "anchors": ["src/fp16.cpp: fp16::toASCII, fp16::itoa", "src/include/fp16.hpp: operator<<"]}
{"id": "C27", "title": "Angle wrapping", "statement": "wrapTo180 returns a value in [-180, 180] congruent to its argument modulo 360 and wrapToPi a value in [-pi, pi] (rounded to the format) congruent to its argument modulo the format's 2*pi; both terminate and never overflow.", "quantifier": "all raw values", "why_tests_cant": "2^32 values, loop iteration counts up to thousands.", "anchors": ["src/fp16.cpp: fp16::wrapToPi, wrapTo180"]}
{"id": "C28", "title": "Integer conversions of fixed-point values", "statement": "Converting an int in [-32768, 32767] to fp16 and back is the identity, and toInt returns the nearest integer (ties away from zero).", "quantifier": "all ints in range, all raw values", "why_tests_cant": "2^32 values and overflow at the extremes.", "anchors": ["src/fp16.cpp: fp16::toInt, fp16::fromInt"]}
{"id": "C29", "title": "Fixed-point comparisons and sign operations follow the numeric order", "statement": "The comparison operators order fp16 objects exactly as the numbers they denote; absolute value and unary minus return the exact magnitude/negation for every representable non-sentinel value.", "quantifier": "all pairs of raw values", "why_tests_cant": "2^64 pairs.", "anchors": ["src/fp16.cpp: fp16::absolute", "src/include/fp16.hpp: operators"]}
{"id": "C30", "title": "Floating-point floor, ceil, trunc and rounding are exact", "statement": "For every finite single-precision x, ffmath floor/ceil/trunc/rounding return the float whose value is exactly the mathematical floor/ceil/truncation/nearest integer (ties away from zero); infinities and NaNs are returned unchanged.", "quantifier": "all 2^32 bit patterns", "why_tests_cant": "2^32 bit patterns times four functions.", "anchors": ["src/ffmath.cpp: ffmath::floor, ceil, trunc, rounding"]}
{"id": "C31", "title": "Floating-point classification is exact", "statement": "classify/isNan/isInf/isFinite/isNormal/isSubnormal/isZero agree with the IEEE-754 meaning of the encoding for every bit pattern.", "quantifier": "all 2^32 bit patterns", "why_tests_cant": "All encodings.", "anchors": ["src/ffmath.cpp: ffmath::classify", "src/include/ffmath.hpp: isNan, isInf"]}
{"id": "C32", "title": "nextAfter returns the adjacent float", "statement": "For non-NaN x and y, nextAfter(x, y) is y when x = y, and otherwise the float adjacent to x in the direction of y: strictly between x and the result there is no other float value.", "quantifier": "all pairs of non-NaN floats", "why_tests_cant": "2^64 pairs.", "anchors": ["src/ffmath.cpp: ffmath::nextAfter"]}
{"id": "C33", "title": "copysign, absf and sign", "statement": "copysign(x, y) has the magnitude of x and the sign bit of y for all bit patterns; absf clears the sign.", "quantifier": "all pairs of bit patterns", "why_tests_cant": "2^64 pairs including NaNs and signed zeros.", "anchors": ["src/ffmath.cpp: ffmath::copysign, ffmath::absolute, ffmath::sign"]}
{"id": "C34", "title": "rexp/ldexp decompose and recompose a float", "statement": "rexp(x, e) returns m with 0.5 <= |m| < 1 and x = m*2^e (0 and exponent 0 for zero), and ldexp(m, e) = m*2^e whenever that is a normal float.", "quantifier": "all finite floats and all exponents", "why_tests_cant": "2^32 values times exponents.", "anchors": ["src/ffmath.cpp: ffmath::rexp, ffmath::ldexp"]}
{"id": "C35", "title": "inRangeCoerce clamps", "statement": "inRangeCoerce leaves its argument in [low, high], leaves in-range values untouched, returns true iff the value was already in range, and maps NaN into the range.", "quantifier": "all floats including NaN/inf, all ordered limits", "why_tests_cant": "2^96 triples including NaN.", "anchors": ["src/ffmath.cpp: ffmath::inRangeCoerce"]}
{"id": "C36", "title": "First-order and exponential smoothers stay inside the hull of their inputs", "statement": "In exact arithmetic the outputs of smootherLPF1, smootherEXPW and smootherKLMN after any input history lie between the minimum and the maximum of the samples received since the last reset, for every accepted configuration.", "quantifier": "all input sequences of any length, all accepted parameters, all reset points", "why_tests_cant": "Invariant over unbounded histories.", "anchors": ["src/smoother.cpp: smootherLPF1, smootherEXPW, smootherKLMN"]}
{"id": "C37", "title": "Moving-window mean equals the mean of the window", "statement": "In exact arithmetic smootherMWM2::smooth returns the arithmetic mean of the last n samples (the first sample after reset standing in for missing ones) at every step, although it only maintains a running sum; smootherMWM1 computes the same function.", "quantifier": "all input sequences, all window sizes n >= 1, all reset points", "why_tests_cant": "Running sums drift if any update is wrong; only an invariant over the whole history settles it.", "anchors": ["src/smoother.cpp: smootherMWM1, smootherMWM2", "src/tdl.cpp"]}
{"id": "C38", "title": "Constant inputs pass through every smoother unchanged", "statement": "In exact arithmetic, feeding a constant c after reset makes LPF1, LPF2, MWM1, MWM2, MOR1, MOR2, GMWF, EXPW, KLMN, ALNF and DESF output c forever.", "quantifier": "all constants, all accepted parameters, all numbers of steps", "why_tests_cant": "Needs induction over the number of steps for every parameter.", "anchors": ["src/smoother.cpp"]}
{"id": "C39", "title": "Outlier removal replaces outliers", "statement": "smootherMOR1 and smootherMOR2 return the sample itself when it deviates from the current mean by at most alpha*|mean| and the current mean otherwise, where the mean is the mean of the last n values they returned.", "quantifier": "all input sequences, all window sizes, all alpha", "why_tests_cant": "Depends on the full history.", "anchors": ["src/smoother.cpp: smootherMOR1, smootherMOR2"]}
{"id": "C40", "title": "Smoother configuration is accepted exactly when valid", "statement": "Each smoother's setup returns true exactly when the documented parameter constraints hold, from any previous state, and a rejected setup leaves the object unchanged.", "quantifier": "all parameter values, all prior states", "why_tests_cant": "All parameter values from every prior state.", "anchors": ["src/smoother.cpp: setup of every smoother", "src/include/smoother.hpp"]}
{"id": "C41", "title": "PID output always respects the saturation limits", "statement": "After a successful setup, every value returned by control() lies in the limits set by the last successful setSaturation (default 0..100), whatever the gains, mode, direction, adaptation, model reference and history, for any arithmetic including rounding (NaN excepted); before setup control() returns the set-point.", "quantifier": "all call sequences of setters and control, all real inputs, any rounding of + - * /", "why_tests_cant": "Unbounded histories and float-valued parameters.", "anchors": ["src/pid.cpp: pidController::control, saturate, setSaturation, setup"]}
{"id": "C42", "title": "PID setup validates its arguments", "statement": "setup succeeds iff the time step is positive, from any state, and configuration setters fail (returning false, changing nothing) before setup.", "quantifier": "all call sequences and arguments", "why_tests_cant": "All prior states.", "anchors": ["src/pid.cpp: pidController::setup and setters"]}
{"id": "C43", "title": "PID gains change only by explicit setters or completed auto-tuning", "statement": "Between calls of setGains/setParams/setSeries/setup, control() leaves the gains unchanged except on the single call at which the auto-tuning countdown reaches zero; isAutoTuningComplete() is true exactly after the enabled number of accepted estimation steps, and enabling 0 steps disables tuning.", "quantifier": "all histories, all counts, all estimator outcomes", "why_tests_cant": "Countdown up to 2^32 steps, all histories.", "anchors": ["src/pid.cpp: pidController::adaptGains, pidAutoTuning::step, enable, isComplete"]}
{"id": "C44", "title": "PID control law matches its difference equation", "statement": "In exact arithmetic, in automatic mode with no saturation active, no adaptation and epsilon dead-zone inactive, control() outputs Kc*(b*w-y) + Ki*(trapezoidal integral of the error) + Kd*(filtered derivative), and reset restores the initial state.", "quantifier": "all input sequences and gains", "why_tests_cant": "History-dependent.", "anchors": ["src/pid.cpp: pidController::control", "src/numa.cpp"]}
{"id": "C45", "title": "Linear interpolation is exact at the knots and stays between neighbours", "statement": "For strictly increasing abscissae, the linear method returns ty[i] at tx[i], is monotone between neighbours and within their ordinates, and extends the end segments outside the table.", "quantifier": "all tables of size >= 2, all x", "why_tests_cant": "All tables and all real x.", "anchors": ["src/interp1.cpp: interp1::linear"]}
{"id": "C46", "title": "Step interpolation methods", "statement": "For strictly increasing abscissae previous returns the ordinate of the last knot <= x (first knot below the table), next that of the first knot > x (last beyond the table), nearest that of a knot at minimal distance (the larger on ties); no method reads outside the tables.", "quantifier": "all tables of size >= 2, all x", "why_tests_cant": "All tables and all real x.", "anchors": ["src/interp1.cpp: interp1::next, previous, nearest"]}
{"id": "C47", "title": "Smooth interpolants pass through the knots", "statement": "In exact arithmetic and for strictly increasing abscissae, sine, cubic, hermite, spline and cSpline return ty[i] at x = tx[i] for every knot, without reading outside the tables.", "quantifier": "all tables accepted by the method, all knots", "why_tests_cant": "All tables.", "anchors": ["src/interp1.cpp: sine, cubic, hermite, spline, cSpline"]}
{"id": "C48", "title": "Discrete system implements its difference equation", "statement": "In exact arithmetic, the outputs of a discreteSystem set up with numerator b and denominator a satisfy a0*y[k] + a1*y[k-1] + ... = b0*u[k] + b1*u[k-1] + ... for every input history with zero initial state.", "quantifier": "all input sequences, all orders, all coefficients with a0 != 0", "why_tests_cant": "Unbounded histories, all orders.", "anchors": ["src/ltisys.cpp: discreteSystem::setup, update, updateFIR, ltisys::excite, normalizeTransferFunction"]}
{"id": "C49", "title": "Transport delay of N delays by exactly N samples", "statement": "transportDelay<N> returns the input of N calls ago (the initial value during the first N calls).", "quantifier": "all input sequences, all N", "why_tests_cant": "Unbounded histories.", "anchors": ["src/include/ltisys.hpp: transportDelay", "src/tdl.cpp"]}
{"id": "C50", "title": "Excited systems respect their saturation limits", "statement": "After a successful setSaturation(min, max), every non-NaN value returned by excite() lies in [min, max]; excite() returns 0 on an uninitialised system.", "quantifier": "all histories and inputs, any arithmetic", "why_tests_cant": "Unbounded histories.", "anchors": ["src/ltisys.cpp: ltisys::excite, saturate, setSaturation"]}
{"id": "C51", "title": "Continuous system integrates its transfer function", "statement": "A continuousSystem set up with equal numerator and denominator reproduces its input (static gain 1), and more generally realises its transfer function including direct feed-through.", "quantifier": "all inputs and coefficients", "why_tests_cant": "All histories and coefficients.", "anchors": ["src/ltisys.cpp: continuousSystem::setup, update"]}
{"id": "C52", "title": "Matrix operators obey matrix algebra", "statement": "In exact arithmetic +, -, *, scalar operations, compound assignments, transpose and indexing of mat<R,C> agree with the mathematical operations; post/pre increment and decrement add/subtract one to every element.", "quantifier": "all dimensions, all entries", "why_tests_cant": "All dimensions and values.", "anchors": ["src/include/mat.hpp"]}
{"id": "C53", "title": "Matrix inverse is an inverse", "statement": "In exact arithmetic inv() of a nonsingular matrix returns a matrix whose product with the original is the identity.", "quantifier": "all dimensions, all nonsingular matrices", "why_tests_cant": "All dimensions and values.", "anchors": ["src/include/mat.hpp: inv"]}
{"id": "C54", "title": "Numerical integration and derivation orders", "statement": "In exact arithmetic the rectangular, trapezoidal, and quadratic integrators are exact for sampled polynomials of degree 0, 1, 2 and the two-point/three-point derivatives for degree 1/2.", "quantifier": "all polynomials of the degree, all step sizes, all numbers of steps", "why_tests_cant": "Induction over the number of steps for all polynomials.", "anchors": ["src/numa.cpp: nState::integrate, derive", "src/include/numa.hpp"]}
{"id": "C55", "title": "Fuzzy rule programs evaluate to their rule-base semantics", "statement": "For every well-formed rule base encoded with the rule macros, inference() succeeds and stores for every rule the AND/OR combination (left to right) of its antecedent membership degrees (complemented for IS_NOT), multiplied by its rule weight, and never reads outside the rule array.", "quantifier": "all rule bases with any number of rules, antecedents, outputs and negations, all membership degrees", "why_tests_cant": "Program space is infinite.", "anchors": ["src/fis.cpp: inference, inferenceAntecedent, inferenceReachEnd, parseFuzzValue", "src/include/fis.hpp: rule macros"]}
{"id": "C56", "title": "Fuzzy operators and memberships stay in [0, 1]", "statement": "Min, Prod, Max, ProbOr, Sum and rule strengths are in [0, 1] for every float input (NaN included), and the algebraic membership functions return values in [0, 1] for every x when their parameters are ordered as documented.", "quantifier": "all inputs, all parameters", "why_tests_cant": "All float inputs.", "anchors": ["src/fisCore.cpp: Min, Prod, Max, ProbOr, Sum, bound, membership functions"]}
{"id": "C57", "title": "Fuzzy inference output respects the output range", "statement": "After deFuzzify() every output value is in its [min, max] range, whatever the rule base, memberships or de-fuzzification method (even when no rule fires).", "quantifier": "all states, all rule bases", "why_tests_cant": "All states.", "anchors": ["src/fis.cpp: deFuzzify", "src/fisCore.cpp: bound"]}
{"id": "C58", "title": "Fuzzy configuration tables", "statement": "setParameter and setDeFuzzMethod accept exactly the combinations allowed for the system type, installing the requested operator, and leave the system unchanged otherwise.", "quantifier": "all parameters, values, types and prior states", "why_tests_cant": "All prior states.", "anchors": ["src/fis.cpp: setParameter, setDeFuzzMethod"]}
{"id": "C59", "title": "Aggregation executes exactly the consequents of every rule", "statement": "For every well-formed rule base, aggregation visits, for each rule in order, each of its consequents exactly once with that rule's strength, and Sugeno/Tsukamoto outputs equal the weighted average/sum of the consequents of the rules with positive strength.", "quantifier": "all rule bases, strengths, inputs", "why_tests_cant": "Program space is infinite.", "anchors": ["src/fis.cpp: fuzzyAggregate, aggregationFindConsequent, inferenceConsequent", "src/fisCore.cpp: deFuzzWtAverage, deFuzzWtSum"]}
{"id": "C60", "title": "Maximum-based de-fuzzifiers pick the documented maximiser", "statement": "LOM returns the largest and SOM the smallest sampled abscissa at which the aggregated membership is maximal.", "quantifier": "all sampled membership curves", "why_tests_cant": "All curves.", "anchors": ["src/fisCore.cpp: deFuzzLOM, deFuzzSOM, deFuzzMOM"]}
{"id": "C61", "title": "The Gaussian filter is the normalised Gaussian-weighted mean", "statement": "In exact arithmetic, after an accepted setup every output of smootherGMWF is the mean of the last n samples weighted by exp(-(j-c)^2/(2 sigma^2)), j the age of the sample, normalised by the sum of the weights; before n samples have arrived the first sample stands in for the missing ones.", "quantifier": "all window sizes, deviations, offsets, input sequences and resets, any exponential function", "why_tests_cant": "Unit tests fix one kernel and a few samples; the claim is about every history.", "anchors": ["src/smoother.cpp: smootherGMWF", "src/ltisys.cpp: discreteSystem::updateFIR"]}
{"id": "C62", "title": "An input delay of nD cells shifts the input by nD-1 samples and nothing else", "statement": "After setDelay(w, nD, init) the outputs of a discreteSystem or continuousSystem are exactly those of the same system without delay fed with the input delayed by nD-1 samples (init first).", "quantifier": "all systems, states, input sequences and delays; any arithmetic", "why_tests_cant": "Unbounded histories, all interactions of ring buffer and system state.", "anchors": ["src/ltisys.cpp: ltisys::setDelay, excite", "src/tdl.cpp"]}
{"id": "C63", "title": "The recursive smoothers compute their textbook recursions over whole histories", "statement": "In exact arithmetic: LPF1 is the exponential mean (1-a) sum a^(k-i) x_i, LPF2 satisfies the second-order Butterworth difference equation, EXPW is the lambda-weighted mean, KLMN is the scalar Kalman filter with the Riccati recursion for its gain, DESF is Holt's double exponential smoothing; the first sample after setup or reset stands for the past.", "quantifier": "all parameters accepted by setup, all histories of samples and resets", "why_tests_cant": "The claims are about unbounded histories; unit tests compare a few samples within a tolerance.", "anchors": ["src/smoother.cpp: smootherLPF1, smootherLPF2, smootherEXPW, smootherKLMN, smootherDESF"]}
{"id": "C64", "title": "Smooth interpolants reproduce straight lines", "statement": "In exact arithmetic, when the table lies on a straight line, linear, hermite, spline, cSpline and cubic return the value of that line for every x (x within 2^-126 of a knot may give the ordinate of the knot); inside the table hermite returns the value of the polynomial of degree below n through the n knots.", "quantifier": "all tables, all lines and polynomials, all x", "why_tests_cant": "Unit tests compare a handful of abscissae with a tolerance.", "anchors": ["src/interp1.cpp: hermite, spline, cSpline, cubic, linear"]}
{"id": "C65", "title": "The spline method is piecewise cubic and continuously differentiable", "statement": "In exact arithmetic spline() evaluates on each segment one cubic through both end knots, neighbouring cubics have equal derivatives at the common knot, and the end cubics are used for extrapolation.", "quantifier": "all tables with at least four points, all x further than 2^-126 from the right knot of their segment", "why_tests_cant": "A smoothness claim about every table cannot be sampled.", "anchors": ["src/interp1.cpp: spline, slope"]}
{"id": "C66", "title": "The infinity norm is the greatest absolute row sum", "statement": "In exact arithmetic normInf() returns the maximum over the rows of the sum of the absolute values of the elements, and reads nothing outside the matrix.", "quantifier": "all dimensions, all entries", "why_tests_cant": "All sizes and entries; an out-of-bounds read need not be visible in a test.", "anchors": ["src/include/mat.hpp: normInf"]}
{"id": "C67", "title": "Mamdani outputs are the de-fuzzified aggregated region", "statement": "For every well-formed rule base, deFuzzify() of a Mamdani system samples, for every output, the region obtained by implicating each consequent with the strength of its rule and aggregating, at the centres of nPoints intervals of the range; with the default method the output is, in exact arithmetic, the centre of gravity of these samples, limited to the range; user arrays receive exactly these samples.", "quantifier": "all rule bases, strengths, membership functions, numbers of points", "why_tests_cant": "The claim ranges over every rule program and membership function; tests compare a few outputs with a tolerance.", "anchors": ["src/fis.cpp: deFuzzify, fuzzyAggregate, aggregationFindConsequent, aggregationConsequent", "src/fisCore.cpp: deFuzzCentroid"]}
{"id": "C68", "title": "Middle of maximum", "statement": "With the method mom the output is, in exact arithmetic, the midpoint of the sampled abscissae at which the aggregated membership is maximal.", "quantifier": "all sampled membership curves", "why_tests_cant": "Curves with several plateaus, plateaus at the border and equal neighbours are corner cases of an infinite space.", "anchors": ["src/fisCore.cpp: deFuzzMOM"]}
{"id": "C69", "title": "Membership functions have their documented shape", "statement": "In exact arithmetic: trimf and trapmf are 0 outside their support, 1 on their core and linear on the flanks; smf and linsmf rise monotonically from 0 to 1; zmf and linzmf are the corresponding falling curves (complements); gauss2mf has a Gaussian tail on both sides and is 1 in between.", "quantifier": "all parameters in the documented order, all x", "why_tests_cant": "Shape claims (monotone, complement, value on every piece) are about all x and parameters.", "anchors": ["src/fisCore.cpp: TriMF, TrapMF, SMF, ZMF, LinSMF, LinZMF, Gauss2MF"]}
{"id": "C70", "title": "Tsukamoto consequents invert their membership function at the rule strength", "statement": "The value of a Tsukamoto consequent is the abscissa at which the monotone set reaches the strength of the rule: tlinsmf, tlinzmf, tsmf, tzmf, tsigmf and tconcavemf are inverses of linsmf, linzmf, smf, zmf, sigmf, concavemf and are evaluated at the rule strength.", "quantifier": "all parameters, all strengths in (0, 1)", "why_tests_cant": "An inverse must hold for every strength; unit tests check isolated points.", "anchors": ["src/fisCore.cpp: TLinSMF, TLinZMF, TSMF, TZMF, TSigMF, TConcaveMF", "src/fis.cpp: aggregationConsequent"]}
{"id": "C71", "title": "Fuzzify, inference and deFuzzify compose to the fuzzy system", "statement": "fuzzify() limits every input to its range and evaluates every input set at it; running fuzzify(), inference() and deFuzzify() gives (exact arithmetic) the weighted average or sum (Sugeno) or the centre of gravity of the aggregated region (Mamdani) determined by the inputs, rules and sets alone, independent of the previous internal state.", "quantifier": "all systems, rule bases, inputs and previous states", "why_tests_cant": "Composition over every rule base and leftover state; tests run a handful of systems.", "anchors": ["src/fis.cpp: fuzzify, inference, deFuzzify"]}
{"id": "C72", "title": "Inputs and outputs of a fuzzy system are accessed by tag", "statement": "sys << t << v sets input t to v and nothing else, and is ignored for a tag that does not exist; sys[t] is the value of output t.", "quantifier": "all systems, tags and values", "why_tests_cant": "Out-of-range tags and the hidden selection state are not enumerated by tests.", "anchors": ["src/include/fis.hpp: operator<<, operator[]"]}
{"id": "C73", "title": "midpoint lies between its arguments and does not overflow", "statement": "In IEEE single precision midpoint(a, b) is commutative for finite arguments, never overflows, lies between a and b, and is the exact mean up to a relative error of 2^-24 plus an absolute error of 2^-125 (twice the smallest normal float).", "quantifier": "all pairs of finite floats", "why_tests_cant": "There are 2^64 pairs; the interesting cases (huge and tiny operands, mixed magnitudes) are rounding corner cases.", "anchors": ["src/ffmath.cpp: ffmath::midpoint"]}
{"id": "C74", "title": "lerp interpolates monotonically bounded and hits its end points", "statement": "In IEEE single precision lerp(a, b, t) for finite a, b and 0 <= t <= 1 is finite and lies between a and b, equals a at t = 0 and b at t = 1 exactly, and for t > 1 (end points of the same sign) never falls back behind b.", "quantifier": "all finite a, b and t", "why_tests_cant": "Rounding makes the naive formula miss the end point for some operands only; tests cannot enumerate them.", "anchors": ["src/ffmath.cpp: ffmath::lerp"]}
{"id": "C75", "title": "mod and the angle wrappers return a value in the documented interval", "statement": "In IEEE single precision mod(x, y) is defined, lies in [0, y) for y > 0 and (y, 0] for y < 0, is exactly the Euclidean remainder of integers, and returns x for y = 0; wrapTo360, wrapTo2Pi, wrapTo180 and wrapToPi return values in [0, 360), [0, 2pi), [-180, 180) and [-pi, pi).", "quantifier": "all finite floats", "why_tests_cant": "The boundary corrections depend on the rounding of the quotient; the failing inputs are isolated floats.", "anchors": ["src/ffmath.cpp: ffmath::mod, wrapToPi, wrapTo2Pi, wrapTo180, wrapTo360"]}
{"id": "C76", "title": "sqrt is an accurate square root with the IEEE special cases", "statement": "In IEEE single precision sqrt(x) is within 1.7e-6 (relative) of the real square root for every positive float, sqrt(0) = 0, sqrt of a negative number is NaN, NaN is propagated and sqrt(inf) = inf.", "quantifier": "all 2^32 bit patterns", "why_tests_cant": "The seed comes from integer arithmetic on the bit pattern; tests sample a handful of normal numbers and never subnormals or infinity.", "anchors": ["src/ffmath.cpp: ffmath::sqrt"]}
{"id": "C77", "title": "recip and rSqrt approximate the reciprocal and the reciprocal square root", "statement": "In IEEE single precision recip(x)*x is within 0.0026 of 1 for every nonzero finite float and rSqrt(x)*sqrt(x) is within 0.0019 of 1 for every positive float; rSqrt(0) = inf, rSqrt of a negative number is NaN, recip(inf) = rSqrt(inf) = 0 and recip(0) = inf.", "quantifier": "all 2^32 bit patterns", "why_tests_cant": "The worst case of a bit-trick seed lies at isolated mantissas; extreme exponents are not sampled by tests.", "anchors": ["src/ffmath.cpp: ffmath::recip, ffmath::rSqrt"]}
{"id": "C78", "title": "cbrt and rCbrt approximate the cube root and its reciprocal", "statement": "In IEEE single precision cbrt(x) is within 3.3e-5 (relative) of the real cube root and rCbrt(x) within 4e-7 of its reciprocal, for every nonzero finite float of either sign; cbrt(0) = 0, rCbrt(0) = inf.", "quantifier": "all finite floats", "why_tests_cant": "The integer seed divides the bit pattern by three; the worst case is at isolated mantissas and the sign bit matters only for negative arguments.", "anchors": ["src/ffmath.cpp: compute_cbrt, ffmath::cbrt, ffmath::rCbrt"]}
{"id": "C79", "title": "exp2 approximates the power of two, is exact on integers and never undefined on numbers", "statement": "In IEEE single precision exp2(x) is within 3.5e-7 (relative) of 2^x whenever 2^x is a normal float, exp2(k) = 2^k exactly for integers k, it is 0 below and infinite above the range, and no argument reaches undefined behaviour.", "quantifier": "all 2^32 bit patterns of x", "why_tests_cant": "The result is assembled from a float-to-int conversion, a shifted exponent field and a degree 5 polynomial; the overflow edge, the underflow edge and NaN are single points that sampled tests miss.", "anchors": ["src/ffmath.cpp: ffmath::exp2"]}
{"id": "C80", "title": "exp and expm1 approximate the exponential", "statement": "In IEEE single precision exp(x) is within 3.6e-7 + 7.4e-8*|x| (relative) of e^x whenever e^x is a normal float, exp(0) = 1, exp saturates to 0 and to infinity outside, a number never causes undefined behaviour, and expm1(x) keeps relative accuracy near zero.", "quantifier": "all finite floats", "why_tests_cant": "The error grows with |x| because the argument is multiplied by log2(e) in single precision; a finite sample cannot bound it.", "anchors": ["src/ffmath.cpp: ffmath::exp, ffmath::expm1"]}
{"id": "C81", "title": "log2 approximates the binary logarithm with relative accuracy everywhere", "statement": "In IEEE single precision log2(x) is within a relative error of 3.5e-7 of the real logarithm for every positive float, including arguments next to 1; it is exact on powers of two; log2(0) = -inf, log2 of a negative number is NaN, log2(inf) = inf and NaN is propagated.", "quantifier": "all 2^32 bit patterns of x", "why_tests_cant": "Relative accuracy near 1 (where the result vanishes) and the edge cases inf, NaN and subnormals are outside any sampled test.", "anchors": ["src/ffmath.cpp: ffmath::log2"]}
{"id": "C82", "title": "log, log10 and log1p approximate their logarithms", "statement": "In IEEE single precision log(x) and log10(x) are within relative errors of 4.2e-7 and 5e-7 for every positive float and log1p(x) is within 4.2e-7 (relative) of log(1+x) for every x > -1, also for tiny x; the special values at 0, 1, negative numbers, infinity and NaN are those of the C library.", "quantifier": "all floats", "why_tests_cant": "Universal accuracy claims; log1p exists for tiny arguments, which its tests do not exercise.", "anchors": ["src/ffmath.cpp: ffmath::log, ffmath::log10, ffmath::log1p"]}
{"id": "C83", "title": "pow and exp10 approximate real powers", "statement": "In IEEE single precision pow(b,e) is within a relative error of 3.6e-7 + 2.9e-7*|e*log2(b)| of b^e whenever the result is representable, pow(b,0) = 1 for every b, pow(2,k) = 2^k exactly, exp10(x) is within 3.6e-7 + 2.4e-7*|x| of 10^x, integer powers of negative bases are defined, and no argument is undefined behaviour.", "quantifier": "all pairs of floats", "why_tests_cant": "A two-argument accuracy claim; NaN intermediate results reach a float-to-integer conversion whose behaviour is undefined and which a test may execute without noticing.", "anchors": ["src/ffmath.cpp: ffmath::pow, ffmath::exp10"]}
{"id": "C84", "title": "The RMS estimator computes the documented two-stage estimate and stays within the signal's magnitudes", "statement": "After an accepted setup, for every sequence of samples, setups, parameter changes and resets of its stages, update() has no undefined behaviour and returns a value between the smallest and the largest magnitude of the samples received since that setup. For fixed parameters the outputs are the low-pass filtered moving means of the square roots of the exponentially weighted mean squares of the samples; they are |c| from the first sample for a signal of constant magnitude c, do not depend on the signs of the samples and scale with the signal. setup accepts exactly a non-null window of positive size.", "quantifier": "all histories, window sizes, parameters and real samples (exact arithmetic)", "why_tests_cant": "The estimate depends on the whole history through three chained filters with independent initialisation flags; tests look at one sine wave.", "anchors": ["src/rms.cpp: rms::setup, rms::update", "src/include/rms.hpp: class rms"]}
{"id": "C85", "title": "rms::setParams accepts exactly the usable parameters", "statement": "setParams(l, a) accepts exactly 0 < l <= 1 and the documented 0 < a < 1, changes nothing but the two parameters, changes nothing when it rejects, and after an accepted call the estimator still follows its input.", "quantifier": "all parameters and all objects; all later samples", "why_tests_cant": "The interval ends are excluded from typical tests, and a frozen output looks like a constant signal.", "anchors": ["src/rms.cpp: rms::setParams", "src/include/rms.hpp: rms::setParams"]}
{"id": "C86", "title": "sin approximates the sine, is bounded by one and odd", "statement": "In IEEE single precision sin(x) is finite and within 9.51e-4 + 1.01e-7*|x| of the real sine, never exceeds 1 in magnitude, and sin(-x) = -sin(x), for every finite x; infinities and NaN give NaN.", "quantifier": "all 2^32 bit patterns of x", "why_tests_cant": "The argument reduction adds and subtracts a large constant so that rounding finds the nearest even integer; whether that is right depends on the magnitude of the argument, which tests keep within a few periods.", "anchors": ["src/ffmath.cpp: ffmath::sin"]}
{"id": "C87", "title": "cos and tan follow from sin with the right periodicity", "statement": "In IEEE single precision cos(x) is finite, bounded by one and within 9.52e-4 + 1.62e-7*|x| of the cosine, sin^2 + cos^2 is close to one, cos is even, tan(x) is odd, finite for every finite x and approximates the tangent away from the poles; infinities and NaN give NaN.", "quantifier": "all bit patterns of x", "why_tests_cant": "The special case of cos is compared with a tolerance and covers a single float; the poles beyond the first one are not exercised by tests.", "anchors": ["src/ffmath.cpp: ffmath::cos, ffmath::tan"]}
{"id": "C88", "title": "isEqual with the default tolerance", "statement": "isEqual(a, b) is true for finite numbers exactly when they differ by at most FLT_MIN, so it is reflexive on numbers and symmetric, it is the equality of the values as soon as one operand reaches 2^-101 in magnitude, and it is false whenever an operand is infinite or NaN. It is an equivalence relation.", "quantifier": "all pairs of bit patterns", "why_tests_cant": "That the rounding of the difference never changes the answer is a statement about all pairs; non-transitivity shows only on three chosen operands.", "anchors": ["src/ffmath.cpp: ffmath::isEqual", "src/include/ffmath.hpp: ffmath::isEqual"]}
{"id": "C89", "title": "asin and acos approximate the inverse functions on [-1,1]", "statement": "In IEEE single precision asin(x) and acos(x) are finite and within 0.0122 of the arc sine and arc cosine for every |x| <= 1, asin is exactly odd, the results stay in [-pi/2, pi/2] and [0, pi], and arguments outside [-1,1] and NaN give NaN.", "quantifier": "all bit patterns of x", "why_tests_cant": "The two square roots cancel near zero and one of them vanishes at the ends; the ends of the interval are where the range is left.", "anchors": ["src/ffmath.cpp: ffmath::asin, ffmath::acos"]}
{"id": "C90", "title": "atan and atan2 return the angle in the right quadrant", "statement": "In IEEE single precision atan(x) is within 0.00622 of the arc tangent for every number, infinities included, and is exactly odd; atan2(y, x) is within 0.00624 of the polar angle of the point (x, y) for all finite y and x that are not both zero, and atan2(0, 0) = 0.", "quantifier": "all bit patterns", "why_tests_cant": "The quadrant logic is arithmetic (f, t) instead of branches; near the vertical axis, at the origin and for overflowing quotients it is a different formula that sampled tests do not reach.", "anchors": ["src/ffmath.cpp: ffmath::atan, ffmath::atan2"]}
{"id": "C91", "title": "sinh, cosh and tanh approximate the hyperbolic functions", "statement": "In IEEE single precision sinh(x) and cosh(x) are within (5.7e-7 + 7.6e-8*|x|)*cosh(x) of the real functions and finite whenever the real value is representable, cosh is never below one, and tanh(x) is within 4.2e-7 of the hyperbolic tangent and never exceeds one in magnitude, for every finite x.", "quantifier": "all bit patterns of x", "why_tests_cant": "All three are quotients of one exponential and its reciprocal; where the exponential overflows or underflows the quotient of two infinities appears, at arguments no test uses.", "anchors": ["src/ffmath.cpp: ffmath::sinh, ffmath::cosh, ffmath::tanh"]}
{"id": "C92", "title": "asinh, acosh and atanh approximate the inverse hyperbolic functions", "statement": "In IEEE single precision asinh(x), acosh(x) and atanh(x) agree with the inverse hyperbolic functions up to a small absolute and relative error on their whole domains, acosh(1) = 0, and arguments outside the domain and NaN give NaN; atanh is infinite at -1 and 1.", "quantifier": "all bit patterns of x", "why_tests_cant": "The textbook formulas cancel for negative arguments and overflow for large ones; the accuracy between sampled points and at the ends of the domain is a statement about every float.", "anchors": ["src/ffmath.cpp: ffmath::asinh, ffmath::acosh, ffmath::atanh"]}
{"id": "C93", "title": "hypot is the Euclidean length", "statement": "hypot(x, y) has no undefined behaviour for any arguments, is exactly symmetric, is infinite if an argument is, NaN otherwise if an argument is NaN, and is within a relative 2e-6 of the square root of x^2 + y^2 whenever that is representable, without intermediate overflow or underflow.", "quantifier": "all pairs of bit patterns", "why_tests_cant": "The scaling by powers of two has to be right for every pair of exponents; tests use a handful of pairs of similar size.", "anchors": ["src/ffmath.cpp: ffmath::hypot"]}
{"id": "C94", "title": "frac and rem decompose a number", "statement": "frac(x) = x - trunc(x) exactly, below one in magnitude and with the sign of x; rem(x, y) is exactly the remainder of the truncated division when both are integers up to 2^23, has the sign of x, is x for an infinite y, and is NaN for y = 0.", "quantifier": "all bit patterns; all integers up to 2^23", "why_tests_cant": "The quotient is rounded before it is truncated, so that near a multiple of y the remainder has the wrong sign; only selected operands show it.", "anchors": ["src/ffmath.cpp: ffmath::rem", "src/include/ffmath.hpp: ffmath::frac, ffmath::rem"]}
{"id": "C95", "title": "erf and erfc approximate the error function", "statement": "erf(x) is defined for every x, odd, stays in [-1, 1], tends to 1 and -1, and erfc(x) = 1 - erf(x) stays in [0, 2].", "quantifier": "all bit patterns of x", "why_tests_cant": "A wrong placement of a parenthesis changes the value for every argument; a range claim is about all floats.", "anchors": ["src/ffmath.cpp: ffmath::erf, ffmath::erfc"]}
{"id": "C96", "title": "normalize and map are the affine map between two intervals", "statement": "For xMin < xMax, normalize maps [xMin, xMax] monotonically into [0, 1], hits both ends exactly, and has a small relative error; map is monotone from [xMin, xMax] to [yMin, yMax], hits both ends exactly, and is accurate relative to the larger bound.", "quantifier": "all finite x, xMin, xMax, yMin, yMax", "why_tests_cant": "Monotonicity under rounding is a statement about all pairs of neighbouring floats; the upper end is missed only when the bounds have different magnitudes.", "anchors": ["src/ffmath.cpp: ffmath::normalize, ffmath::map"]}
{"id": "C97", "title": "inCircle decides membership of the closed disc", "statement": "inCircle(x, y, cx, cy, r) is true exactly if the distance of (x, y) from the centre is at most |r|: exactly for integer coordinates up to 2^23 and radii up to 4095, and for all finite arguments up to points within rounding of the circle; the centre is always inside.", "quantifier": "all finite coordinates and radii; all integers in range", "why_tests_cant": "Correct decisions next to the boundary, and overflow and underflow of the squares, depend on the rounding of every single operand.", "anchors": ["src/ffmath.cpp: ffmath::inCircle"]}
{"id": "C98", "title": "inPolygon decides membership of a polygon", "statement": "inPolygon reads only the given vertices, has no undefined behaviour, answers false outside of the bounding box and for NaN, true in the interior of the polygon and false outside of it.", "quantifier": "all points, all polygons with any number of vertices", "why_tests_cant": "The number of vertices is unbounded, and the crossing test divides by an expression that can vanish; tests check a few points.", "anchors": ["src/ffmath.cpp: ffmath::inPolygon"]}
{"id": "C99", "title": "factorial is the correctly rounded factorial of the integer part", "statement": "For 0 <= x <= 34, factorial(x) is floor(x)! rounded to the nearest float; above 34 it is infinite, below zero and for NaN it is NaN; it never reads outside of its table.", "quantifier": "all bit patterns x", "why_tests_cant": "The table entries are decimal literals whose rounding and whose index both have to be right for every float, including those just below an integer.", "anchors": ["src/ffmath.cpp: ffmath::factorial"]}
{"id": "C100", "title": "tgamma satisfies the functional equation and its special cases", "statement": "tgamma is defined for every float; tgamma(x+1) = x*tgamma(x) up to the rounding of that product, for x in [2^-23, 11) with x+1 exact; at the integers 1..34 it is within 1e-5 of the factorial; NaN, zeros, infinities and arguments above 171.624 give the documented values, negative integers infinity.", "quantifier": "all bit patterns x; all x whose successor is exact", "why_tests_cant": "Which reduction branch is taken depends on every bit of x, and the conversions to int inside are undefined outside of their range.", "anchors": ["src/ffmath.cpp: ffmath::tgamma"]}
{"id": "C101", "title": "lgamma has its zeros, poles and special values", "statement": "lgamma is NaN for NaN, infinite at the non-positive integers and at the infinities, zero at 1 and 2, and finite wherever the logarithm of the gamma function is representable.", "quantifier": "all bit patterns x", "why_tests_cant": "Recognising every non-positive integer among the floats, and finiteness over the whole range, are statements about all bit patterns.", "anchors": ["src/ffmath.cpp: ffmath::lgamma, lgamma_positive"]}
{"id": "C102", "title": "beta is symmetric and free of undefined behaviour", "statement": "beta(x, y) = beta(y, x) bit for bit; a NaN argument gives NaN; for all other arguments the evaluation is defined and has the sign of the beta function.", "quantifier": "all pairs of bit patterns", "why_tests_cant": "Whether the intermediate difference of logarithms can be NaN or overflow depends on both arguments.", "anchors": ["src/ffmath.cpp: ffmath::beta"]}
{"id": "C103", "title": "legendre is the Legendre polynomial", "statement": "In exact arithmetic legendre(n, x), and assoc_legendre(n, 0, x), is the Legendre polynomial of degree n at x, for every n; in binary32 a NaN gives NaN and the values at 1 and -1 are exactly 1 and (-1)^n.", "quantifier": "all degrees n, all x of an ordered field; all degrees in binary32 at the end points", "why_tests_cant": "The recurrence runs n times and the special cases at the ends must agree with it for every degree.", "anchors": ["src/ffmath.cpp: ffmath::legendre, poly_legendre_p"]}
{"id": "C104", "title": "hermite is the Hermite polynomial", "statement": "In exact arithmetic hermite(n, x) is the physicists' Hermite polynomial of degree n at x, for every n; in binary32 the result at an integer is exact as long as all values on the way are at most 2^24 in magnitude.", "quantifier": "all degrees n, all real x; all integer-valued floats in range", "why_tests_cant": "An off-by-one in the loop counter changes every degree above a few, and exactness of the float recurrence is a statement about all degrees.", "anchors": ["src/ffmath.cpp: ffmath::hermite"]}
{"id": "C105", "title": "assoc_legendre is the associated Legendre function", "statement": "In exact arithmetic assoc_legendre(n, m, x) is (1-x^2)^(m/2) times the m-th derivative of the Legendre polynomial of degree n, for |x| <= 1.", "quantifier": "all n, m; all x in [-1, 1]", "why_tests_cant": "The error of a wrong recurrence shows only for n >= m+2 and m >= 1; the reference is a derivative of arbitrary order.", "anchors": ["src/ffmath.cpp: ffmath::assoc_legendre"]}
{"id": "C106", "title": "assoc_laguerre is the associated Laguerre polynomial", "statement": "assoc_laguerre(n, m, x) is the sum of (-1)^i C(n+m, n-i) x^i / i!, in exact arithmetic where it evaluates the sum, and with the right sign and magnitude in binary32; negative arguments give NaN.", "quantifier": "all n, m below 128; all x >= 0", "why_tests_cant": "The function chooses among five formulas by n, m and x; each has to agree with the same polynomial for all degrees.", "anchors": ["src/ffmath.cpp: ffmath::assoc_laguerre, poly_laguerre_hyperg, poly_laguerre_large_n, ffmath::laguerre"]}
{"id": "C107", "title": "expint is the exponential integral", "statement": "expint(x) is defined for every bit pattern, is NaN for NaN and -infinity at zero, and is within a small relative error of Ei(x), the principal value of the integral of exp(t)/t, for every finite x; expint(infinity) is infinity.", "quantifier": "all finite bit patterns x", "why_tests_cant": "Ei is reached through four different expansions with data dependent stopping rules; each must be accurate and have the right sign over its whole range.", "anchors": ["src/ffmath.cpp: ffmath::expint, expint_Ei, expint_Ei_series, expint_Ei_asymp, expint_E1_series, expint_En_cont_frac, expint_E1_asymp"]}
{"id": "C108", "title": "comp_ellint_1 is the complete elliptic integral of the first kind", "statement": "For every modulus strictly between -1 and 1 comp_ellint_1(k) is a finite float within 3.1e-5 + 6e-8/(1-k^2), relatively, of the integral of 1/sqrt(1-k^2 sin^2 t) over a quarter period.", "quantifier": "all floats k with |k| < 1", "why_tests_cant": "The value is reached by an iteration with a data dependent stopping rule; its agreement with an integral, near the singularity at 1 in particular, is not a finite set of cases.", "anchors": ["src/ffmath.cpp: ffmath::comp_ellint_1, ellint_rf"]}
{"id": "C109", "title": "The elliptic integrals are even in the modulus, total and respect their domain", "statement": "The six elliptic integrals give the same bits for k and -k, are defined for every argument (no undefined behaviour), and return NaN for a NaN argument and for |k| > 1.", "quantifier": "all bit patterns k, nu, phi", "why_tests_cant": "The argument reduction rounds the amplitude to an integer for arbitrary floats, and the sign of k enters several products.", "anchors": ["src/ffmath.cpp: ffmath::comp_ellint_1, comp_ellint_2, comp_ellint_3, ellint_1, ellint_2, ellint_3"]}
{"id": "C110", "title": "The complete integrals of the second and third kind are accurate and right at the ends of their domain", "statement": "comp_ellint_2 and comp_ellint_3 are accurate to about 1e-5; at |k| = 1 and at nu = 1, which the documentation does not exclude, they have the limit values 1 and infinity, and comp_ellint_1(1) is infinity.", "quantifier": "all |k| <= 1, nu <= 1", "why_tests_cant": "The end points are reached through separate branches and the loss of accuracy comes from a helper shared with other functions.", "anchors": ["src/ffmath.cpp: ffmath::comp_ellint_1, comp_ellint_2, comp_ellint_3, ellint_rj, ellint_rc"]}
{"id": "C111", "title": "riemann_zeta is the Riemann zeta function for large arguments and right at its special values", "statement": "For every finite s >= 20 riemann_zeta(s) is defined, finite and within 1.3e-7 of the zeta function; riemann_zeta(1) is infinity, riemann_zeta(infinity) is 1 and a NaN gives NaN.", "quantifier": "all floats s >= 20; all NaNs", "why_tests_cant": "The summation stops by a data dependent rule and the terms come from pow and lgamma; that no float above 20 leads to undefined behaviour or to a wrong limit is not a finite set of cases.", "anchors": ["src/ffmath.cpp: ffmath::riemann_zeta, riemann_zeta_glob"]}
{"id": "C112", "title": "riemann_zeta is finite where the zeta function is", "statement": "riemann_zeta(s) is a finite float close to the zeta function for every finite s other than 1 at which the zeta function is representable, negative s included.", "quantifier": "all finite floats s other than 1", "why_tests_cant": "The reflection formula multiplies factors that overflow separately; which s are affected is a range of the whole float line.", "anchors": ["src/ffmath.cpp: ffmath::riemann_zeta"]}
{"id": "C113", "title": "cyl_bessel_i and cyl_bessel_j of order zero are the Bessel functions", "statement": "For order zero and every argument x >= 0 cyl_bessel_i(0, x) and cyl_bessel_j(0, x) are defined, finite and accurate (6e-6 for x <= 3.16) wherever the Bessel function is representable.", "quantifier": "all floats x >= 0", "why_tests_cant": "The power series stops by a data dependent rule; its accuracy has to be compared with an infinite series for every argument.", "anchors": ["src/ffmath.cpp: ffmath::cyl_bessel_i, cyl_bessel_j, cyl_bessel_ij_series"]}
{"id": "C114", "title": "The Bessel functions respect their domain", "statement": "cyl_bessel_i, cyl_bessel_j, cyl_bessel_k, cyl_neumann, sph_bessel and sph_neumann give NaN for a NaN argument, a negative order and a negative argument; at x = 0 they have the limit values 1 or 0, infinity and -infinity, for every finite order (an order of at most FLT_MIN counts as zero).", "quantifier": "all bit patterns nu and x; all orders n", "why_tests_cant": "Six functions test the domain separately; NaN, negative zero and infinite orders all have to take the right branch.", "anchors": ["src/ffmath.cpp: ffmath::cyl_bessel_i, cyl_bessel_j, cyl_bessel_k, cyl_neumann, sph_bessel, sph_neumann"]}
{"id": "C115", "title": "sph_bessel and sph_neumann are defined and accurate", "statement": "For every order below 128 and every argument x > 0, infinity included, sph_bessel and sph_neumann are defined, and they are within 1e-3 of the spherical Bessel functions for moderate arguments.", "quantifier": "all n < 128, all floats x > 0", "why_tests_cant": "The number of recurrence steps is a float converted to int; whether it is in range depends on the whole argument range.", "anchors": ["src/ffmath.cpp: ffmath::sph_bessel, sph_neumann, sph_bessel_jn, bessel_jn"]}
{"id": "C116", "title": "sph_legendre is the spherical associated Legendre function", "statement": "In exact arithmetic sph_legendre(l, m, theta) is (-1)^m sqrt((2l+1)/(4 pi) (l-m)!/(l+m)!) |sin theta|^m times the m-th derivative of the Legendre polynomial of degree l at cos theta, for every l >= m and every theta, and zero for m > l; in binary32 a NaN angle gives NaN and m > l gives zero.", "quantifier": "all degrees l and orders m, all real angles; all bit patterns for the special cases", "why_tests_cant": "The normalised recurrence carries square roots of ratios through an unbounded number of steps, and the start value passes through logarithms of the gamma function.", "anchors": ["src/ffmath.cpp: ffmath::sph_legendre"]}
{"id": "C117", "title": "sph_legendre is free of undefined behaviour", "statement": "For every degree below 128, every order and every finite angle the evaluation of sph_legendre is defined.", "quantifier": "all l < 128, all m, all finite floats theta", "why_tests_cant": "The exponential inside is undefined for NaN; whether a NaN can arise depends on the cosine leaving [-1, 1] for some float, and on the logarithms for every order.", "anchors": ["src/ffmath.cpp: ffmath::sph_legendre"]}
{"id": "C118", "title": "fp16 sine approximates the sine for every raw value", "statement": "fp16::sin is defined for every int32_t raw value and differs from the sine of that value by less than 0.0217; within one turn by less than 0.0083, and for arguments of magnitude up to 2.573 by less than 9.5e-5.", "quantifier": "all 2^32 raw values", "why_tests_cant": "The reduction subtracts an inexact period up to 5215 times and the series rounds at every step; the bound has to hold for every raw value.", "anchors": ["src/fp16.cpp: fp16::sin, fp16::wrapToPi"]}
{"id": "C119", "title": "fp16 sine is odd and stays within [-1, 1]", "statement": "fp16::sin(-x) = -fp16::sin(x), and the values stay within [-1, 1].", "quantifier": "all raw values", "why_tests_cant": "Symmetry and range over all arguments; the overflow of one power near the ends of the turn breaks the symmetry silently.", "anchors": ["src/fp16.cpp: fp16::sin"]}
{"id": "C120", "title": "fp16 cosine is defined, even and approximates the cosine", "statement": "fp16::cos is defined for every raw value, even, and close to the cosine (0.0218, and 1e-4 for arguments between -4.144 and 1.0025).", "quantifier": "all raw values", "why_tests_cant": "The quarter turn is added before the reduction; the affected arguments are a range at the end of the type.", "anchors": ["src/fp16.cpp: fp16::cos"]}
{"id": "C121", "title": "fp16 tangent approximates the tangent for moderate arguments", "statement": "For arguments of magnitude at most one fp16::tan is defined and within 5.5e-4 of the tangent.", "quantifier": "all raw values of magnitude at most one", "why_tests_cant": "Three roundings and two series are combined; the bound has to hold for all 131073 arguments.", "anchors": ["src/fp16.cpp: fp16::tan"]}
{"id": "C122", "title": "fp16 exponential is defined and monotone", "statement": "fp16::exp is defined for every raw value, its values are between 0 and the largest value, and x <= y implies exp(x) <= exp(y), across the special cases 0, 1 and the two ends.", "quantifier": "all pairs of raw values", "why_tests_cant": "Monotonicity relates all pairs; the number of terms depends on the argument and special values are spliced in.", "anchors": ["src/fp16.cpp: fp16::exp"]}
{"id": "C123", "title": "fp16 exponential is accurate", "statement": "The relative error of fp16::exp is below 5.2e-5 for arguments from 0 up to the logarithm of 2^15, the absolute error is below 6e-5 for negative arguments, and beyond the largest value is returned.", "quantifier": "all raw values", "why_tests_cant": "Rounding errors accumulate over up to 29 data dependent terms and the series is truncated by a data dependent rule.", "anchors": ["src/fp16.cpp: fp16::exp"]}
{"id": "C124", "title": "fp16 hyperbolic cosine and sine are accurate and symmetric", "statement": "fp16::cosh is even, fp16::sinh is odd (so zero at zero); both are defined for every raw value, within 1e-4 cosh(x) of the real functions below the logarithm of 2^15, and saturate beyond.", "quantifier": "all raw values", "why_tests_cant": "Needs the accuracy of the exponential at x and -x for every x and the absence of overflow of their sum.", "anchors": ["src/fp16.cpp: fp16::cosh, fp16::sinh"]}
{"id": "C125", "title": "fp16 hyperbolic tangent is odd, monotone, bounded and accurate", "statement": "fp16::tanh is defined for every raw value, odd, monotone, within [-1, 1], and within 1e-4 of the hyperbolic tangent.", "quantifier": "all pairs of raw values", "why_tests_cant": "Monotonicity relates all pairs and goes through a rounded quotient of two rounded series.", "anchors": ["src/fp16.cpp: fp16::tanh"]}
{"id": "C126", "title": "fp16 atan2 gives the polar angle in all four quadrants", "statement": "For every point (x, y) other than the origin with |x| + |y| <= 2^31 - 16 raw, fp16::atan2(y, x) is defined and within 0.0103 of the polar angle of the point in (-pi, pi].", "quantifier": "all pairs of raw values with |x| + |y| <= 2^31 - 16, except the origin", "why_tests_cant": "The branch-free absolute value is wrong in its low bits for large y, and the quadrant logic, a rounded quotient and a cubic are combined; the bound is over 2^63 pairs.", "anchors": ["src/fp16.cpp: fp16::atan2"]}
{"id": "C127", "title": "fp16 arc tangent is accurate", "statement": "fp16::atan is defined for every raw value and within 0.0103 of the arc tangent.", "quantifier": "all raw values", "why_tests_cant": "An approximation bound over the whole range, including the overflow of the sum 1 + |x|.", "anchors": ["src/fp16.cpp: fp16::atan"]}
{"id": "C128", "title": "fp16 arc sine and arc cosine are accurate on [-1, 1]", "statement": "fp16::asin and fp16::acos are within 0.0118 of the real functions for every argument in [-1, 1], end points included; outside asin is 0 and acos is pi/2.", "quantifier": "all raw values", "why_tests_cant": "Four rounded steps, with a division by a small rounded square root near the ends of the domain.", "anchors": ["src/fp16.cpp: fp16::asin, fp16::acos"]}
{"id": "C129", "title": "fp16 natural logarithm is accurate", "statement": "For every positive raw value x, fp16::log is defined and within 8.4e-5 + 0.0095/x of the natural logarithm of x/65536 (so within 1e-4 for arguments from 0.01 on); for zero and negative arguments it returns the overflow value.", "quantifier": "all raw values", "why_tests_cant": "Scaling loops and a Newton iteration with a data dependent number of steps on a rounded exponential; only a convergence argument covers all 2^31 arguments.", "anchors": ["src/fp16.cpp: fp16::log"]}
{"id": "C130", "title": "fp16 binary logarithm is accurate", "statement": "For every positive raw value fp16::log2 is defined and within 6.4e-5 of the binary logarithm, exactly so for powers of two; for zero and negative arguments it returns the overflow value.", "quantifier": "all raw values", "why_tests_cant": "Sixteen squarings double the accumulated rounding error; the reciprocal used below one may overflow.", "anchors": ["src/fp16.cpp: fp16::log2, fp16::log2i, fp16::rs"]}
{"id": "C131", "title": "fp16 integer powers are exact on integers and accurate on the unit interval", "statement": "For integers a and n with n >= 1, fp16::pow(a, n) is exactly a^n when that is representable and the overflow value when it is not; for |x| <= 1 the error of x^n is at most n half units.", "quantifier": "all integer pairs; all |x| <= 1 and n >= 1", "why_tests_cant": "Correctness for all exponents is an induction over the multiplication loop and its overflow test.", "anchors": ["src/fp16.cpp: fp16::pow, fp16::powi"]}
{"id": "C132", "title": "fp16 real powers are accurate", "statement": "For a base from 0.01 on, an exponent of magnitude at most 16 and a power between e^-10 and e^10, fp16::pow has relative error at most 1.01e-4 |y| + 6.1e-5 plus absolute error 6e-5; for negative bases and even negative or zero exponents the result is positive.", "quantifier": "all pairs of raw values in the ranges", "why_tests_cant": "Logarithm, product and exponential errors combine over a two-dimensional range.", "anchors": ["src/fp16.cpp: fp16::pow"]}
{"id": "C133", "title": "fp16 angle conversions are accurate", "statement": "fp16::degToRad and fp16::radToDeg succeed for every raw value; degToRad is within 5.1e-4 rad of the angle reduced to one turn around zero, radToDeg is within 1.8e-5 degrees, plus 1.5e-4 degrees for each turn removed, of the angle reduced by some number of turns.", "quantifier": "all raw values", "why_tests_cant": "The reduction modulo one turn uses rounded constants, so its error grows with the number of turns; the bound covers all 2^32 arguments.", "anchors": ["src/fp16.cpp: fp16::degToRad, fp16::radToDeg, fp16::wrapToPi, fp16::wrapTo180"]}
{"id": "C134", "title": "The first-order low-pass smoother never leaves the range of its samples in binary32", "statement": "In binary32 arithmetic with round to nearest, for every sequence of setup, reset and smooth calls on a new smootherLPF1 with finite samples of magnitude at most 1.7e38, every output is finite and lies between the least and the greatest sample seen since the last accepted setup or reset; a constant finite signal is reproduced exactly for ever.", "quantifier": "all call sequences, all parameters, all samples in range", "why_tests_cant": "Rounding errors could carry the state outside the hull after any number of steps; only an invariant about the rounded update covers all histories.", "anchors": ["src/smoother.cpp: smootherLPF1::smooth, smootherLPF1::setup"]}
{"id": "C135", "title": "The exponentially weighted smoother is stable in binary32", "statement": "In binary32 arithmetic, after an accepted setup with forgetting factor lambda <= 1 - 2^-16 and for samples of magnitude at most M (1e-30 <= M <= 1e38), every output of smootherEXPW is finite and of magnitude at most M (1 + 2^-20 / (1 - lambda)), however long the filter runs.", "quantifier": "all lambda, all sequences of samples and resets", "why_tests_cant": "The weight recursion and the reciprocal are rounded in every step; that the errors do not accumulate over unbounded time is an inductive fact.", "anchors": ["src/smoother.cpp: smootherEXPW::smooth, smootherEXPW::setup"]}
{"id": "C136", "title": "The running-sum moving average gives the mean of its window in binary32", "statement": "In binary32 arithmetic every output of smootherMWM2 is the correctly rounded mean of the last n samples, however long the filter runs.", "quantifier": "all window lengths, all sequences of samples and resets", "why_tests_cant": "The running sum is updated incrementally and never recomputed, so an error made once stays; a test sees only short histories.", "anchors": ["src/smoother.cpp: smootherMWM2::smooth", "src/tdl.cpp: tdl::insertSample"]}
{"id": "C137", "title": "The Kalman smoother never leaves the range of its samples in binary32", "statement": "In binary32 arithmetic, for every sequence of setup, reset and smooth calls with finite samples of magnitude at most 1.7e38 and noise covariances in proportion (2^-60 <= r <= 2^60, q and p from 0 to 2^20 r), every output of smootherKLMN is finite and lies between the least and the greatest sample seen since the last setup or reset.", "quantifier": "all call sequences, all covariances and samples in range", "why_tests_cant": "The rounded gain has to stay below one and the covariance bounded for ever, an invariant over unbounded histories.", "anchors": ["src/smoother.cpp: smootherKLMN::smooth, smootherKLMN::setup"]}
{"id": "C138", "title": "Linear interpolation is accurate in binary32", "statement": "In binary32 arithmetic, for every table with increasing abscissas whose gaps are between 1e-18 and 1e18 and whose ordinates have magnitude at most M <= 1e18, interp1 with the linear method is defined and finite, and inside the table within 9e-7 M + 1e-25 of the exact piecewise linear interpolant; T segment lengths outside the table it is within (9e-7 M + 1e-25) T of the line through the two end knots.", "quantifier": "all tables, all table lengths, all finite arguments in range", "why_tests_cant": "The slope is a rounded quotient of rounded differences; whether cancellation between close ordinates or abscissas can spoil the result depends on all tables at once.", "anchors": ["src/interp1.cpp: interp1::linear"]}
{"id": "C139", "title": "Matrix products are accurate in binary32, and exact for integers", "statement": "In binary32 arithmetic every entry of the product of two matrices with inner dimension c <= 2^17 is finite and within 1.01 (c+1) 2^-24 times the sum of the magnitudes of its terms (plus 3e-45 c) of the exact entry, as long as that sum is at most 1e38; for integer matrices the product is exact if that sum is at most 2^24.", "quantifier": "all dimensions, all finite entries in range", "why_tests_cant": "The error of a rounded dot product grows with its length; the bound is by induction on the length.", "anchors": ["src/include/mat.hpp: mat::operator*"]}
{"id": "C140", "title": "The FIR filter is accurate in binary32 for ever", "statement": "In binary32 arithmetic, for every coefficient list of length n <= 2^17 (or none) and every finite input sequence, every output of discreteSystem::updateFIR from a zero window is finite and within 1.01 (n+1) 2^-24 times the sum of the magnitudes of its terms (plus 3e-45 n) of the exact convolution, independently of how long the filter has run; integer coefficients and samples give the exact value while that sum is at most 2^24.", "quantifier": "all coefficient lists, all input sequences of any length", "why_tests_cant": "That errors do not accumulate with time is a statement about unbounded histories; a running-sum implementation, which tests do not distinguish, would drift.", "anchors": ["src/ltisys.cpp: discreteSystem::updateFIR"]}
{"id": "C141", "title": "The bisector splits the aggregated region in two halves", "statement": "For every rule base of a Mamdani system that can be aggregated (its items name existing outputs and sets, none is the negated set 123, whose code is that of THEN, and several consequents only with several outputs) and the bisector method, deFuzzify() gives every output, limited to its range, the first sampled abscissa at which the memberships of its aggregated region, summed from the left, reach one half of their total; in exact arithmetic the samples up to it carry at least and the samples before it less than half of the area. The search, which aggregates all outputs again for every abscissa, does not disturb the other outputs or the recorded regions.", "quantifier": "all rule bases, strengths, membership functions, numbers of outputs and of points; the first part for every arithmetic", "why_tests_cant": "The method re-runs the aggregation of the whole system inside the final loop over the outputs; that outputs already settled or still to come are not affected depends on all rule bases and orders.", "anchors": ["src/fisCore.cpp: fis::core::deFuzzBisector", "src/fis.cpp: fis::instance::deFuzzify, fis::instance::fuzzyAggregate"]}
{"id": "C142", "title": "The PID controller does not wind up", "statement": "After a saturation the controller recovers: the integral action and the signal before the limiter stay bounded for ever (bound independent of time) as long as the errors are bounded, in either direction of action.", "quantifier": "for all gains, sample times, limits, all set-point and process-value sequences with bounded errors, all times", "why_tests_cant": "The divergence depends on the gain/sampling-rate combination and takes many samples after the saturation; a unit test runs one set of gains for some samples. The sign error of the anti-windup in backward direction shows only after a saturation in that direction.", "anchors": ["src/pid.cpp: pidController::control", "src/numa.cpp: nState::derive, nState::integrate"]}
{"id": "C143", "title": "The auto-tuner's estimates converge to the plant", "statement": "In a loop with a plant y[k+1] = B u[k] - A y[k], whatever the set-points, gains, modes and limits, the recursive least squares of the auto-tuner never divides by zero (its divisor is at least the memory factor), the squared error of the estimates never exceeds a fixed multiple (2 + 2e-13/(1-l)) of its initial value, and with two consecutive linearly independent data it is at most l^(n+3)/1000 times the initial one times a constant of the two data.", "quantifier": "for all plants (A, B), all memory factors 0 < l < 1, all set-point sequences, all controller parameters and all times", "why_tests_cant": "The estimates at time n depend on the whole history of inputs; the covariance update is unsymmetric and has an added constant 1e-10 whose effect accumulates over time.", "anchors": ["src/pid.cpp: pidAutoTuning::step, pidAutoTuning::initialize, pidController::adaptGains, pidController::control"]}
{"id": "C144", "title": "An idle loop does not disable the auto-tuner", "statement": "Auto-tuning can be enabled at any time after it has been bound: a period in which the set-point and the process value are zero leaves the estimates and the covariance finite, so that tuning completes when it is enabled later.", "quantifier": "for all lengths of the idle period, all signals after it, in binary32", "why_tests_cant": "The covariance grows by 1/l per idle sample and overflows only after some 8000 samples; no unit test idles that long and the damage shows only when tuning is enabled later.", "anchors": ["src/pid.cpp: pidAutoTuning::step, pidController::enableAutoTuning, pidController::isAutoTuningComplete"]}
{"id": "C145", "title": "Switching between automatic and manual mode is bumpless", "statement": "Bumpless transfer is guaranteed (documentation of setMode and setManualInput): after a period at a constant output the first output after a switch from automatic to manual mode or back is as close to that output as desired.", "quantifier": "for all controllers, settings, outputs, set-points and process values", "why_tests_cant": "The transfer depends on the state accumulated during the whole period before the switch; it converges only for some gains and directions, and a test of one configuration with zero error shows no bump.", "anchors": ["src/pid.cpp: pidController::control, pidController::setMode"]}
{"id": "C146", "title": "In manual mode the manual input is the control signal", "statement": "In manual mode the value given to setManualInput() is used as the control signal (documentation of setMode), up to the saturation limits.", "quantifier": "for all manual inputs, gains and states", "why_tests_cant": "The manual signal passes an integrator; that the output never rests unless the manual input is zero is a statement about all states and executions.", "anchors": ["src/pid.cpp: pidController::control, pidController::setManualInput"]}
{"id": "C147", "title": "Recursive discrete systems are accurate in binary32 for ever", "statement": "A discrete system with normalised coefficients (den[0] = 1) whose denominator has an absolutely summable impulse response follows the exact solution of its difference equation, limited to the output range, with an error bounded independently of time by an explicit constant of the coefficients, of the sum G of the magnitudes of the impulse response and of the bound of the inputs; all outputs are finite.", "quantifier": "for all orders up to 131071, all binary32 coefficients of stable systems, all bounded binary32 input sequences of any length", "why_tests_cant": "Round-off errors feed back through the recursion; that they do not accumulate is a statement about unboundedly long runs and all coefficient sets.", "anchors": ["src/ltisys.cpp: discreteSystem::update, discreteSystem::updateFIR, discreteSystem::setup, ltisys::excite"]}
{"id": "C148", "title": "Integral action removes a persistent error", "statement": "With integral action and without derivative action, as long as an error of at least e0 > 0 persists the output of the automatic controller reaches its upper limit within a number of calls computed from e0, Ki, dt and the limit: there is no steady-state error that the controller tolerates (other than within epsilon).", "quantifier": "for all gains, states, limits, sampling times and all sequences of set-points and process values with persistent error", "why_tests_cant": "The statement is about executions of unbounded length and all error sequences.", "anchors": ["src/pid.cpp: pidController::control", "src/numa.cpp: nState::integrate"]}
{"id": "C149", "title": "The RMS estimate is accurate in binary32", "statement": "With the library's own square root and single-precision rounding, the RMS estimate of a signal whose magnitudes lie between a and A is finite and lies between a and A up to a small relative error, and the estimate of a signal after a disturbance returns to the magnitudes of the signal.", "quantifier": "for all windows, all binary32 signals with magnitudes in [1e-15, 1e18]", "why_tests_cant": "Rounding errors accumulate in the running sum over arbitrarily long runs; finitely many runs show neither the bound nor that an error persists for ever.", "anchors": ["src/rms.cpp: rms::update", "src/smoother.cpp: smootherEXPW::smooth, smootherMWM2::smooth, smootherLPF1::smooth", "src/ffmath.cpp: ffmath::sqrt"]}
{"id": "C150", "title": "Stable systems settle at their static gain", "statement": "If the (discretised) denominator of a system is stable, i.e. has an absolutely summable impulse response, then for every input that converges to U the output converges to the static gain of the transfer function times U, limited to the output range.", "quantifier": "for all orders, coefficients, integration rules, sampling times with a stable denominator and all convergent input sequences", "why_tests_cant": "Convergence is a statement about infinitely many samples and all convergent inputs; a finite run shows neither the limit nor its dependence on all coefficients.", "anchors": ["src/ltisys.cpp: continuousSystem::update, continuousSystem::setup, discreteSystem::update", "src/numa.cpp: nState::integrate"]}
{"id": "C151", "title": "tgamma is accurate for positive arguments", "statement": "For positive arguments whose gamma function is representable, tgamma() returns a finite number close to the gamma function of real analysis: within 1.5e-6 relatively below 12, and within 1e-6 x log x above.", "quantifier": "for all positive binary32 numbers", "why_tests_cant": "There are about 10^9 positive arguments, and the true values are those of a transcendental function which a test only has from another floating-point library.", "anchors": ["src/ffmath.cpp: ffmath::tgamma"]}
{"id": "C152", "title": "lgamma is accurate for positive arguments", "statement": "For positive arguments lgamma() returns a finite number within a relative error of five millionths of the logarithm of the gamma function of real analysis, also next to the zeros of that function at 1 and 2.", "quantifier": "for all positive binary32 numbers up to the limit 171.624 of the function", "why_tests_cant": "There are about 10^9 positive arguments; near the zeros a relative error bound is about cancellation that sampled comparisons against another library do not bound.", "anchors": ["src/ffmath.cpp: ffmath::lgamma, lgamma_positive"]}
{"id": "C153", "title": "beta is accurate for positive arguments", "statement": "For positive arguments whose beta function is representable, beta(x, y) returns a finite number whose relative distance from the beta function of real analysis is bounded by 1e-6 + 6e-6 (|log G(x)| + |log G(y)| + |log G(x + y)|), where G is the gamma function.", "quantifier": "for all pairs of positive binary32 numbers whose sum is at most 171", "why_tests_cant": "There are about 10^18 pairs of arguments; the error passes through three logarithms of the gamma function, a rounded sum of the arguments and an exponential.", "anchors": ["src/ffmath.cpp: ffmath::beta, ffmath::lgamma, ffmath::exp"]}
{"id": "C154", "title": "Membership functions are accurate and stay in [0, 1]", "statement": "The triangular, trapezoidal and S-ramp sets return a finite degree in [0, 1] within 2e-7 of the exact membership, the S, Z, Gaussian and spike curves within 1e-6, the sigmoid within 1.2e-6, and the pi, difference-of-sigmoids and product-of-sigmoids sets within 2.6e-6, also where the exponential overflows or underflows; the falling ramp returns 1 before and 0 behind its flank.", "quantifier": "for all finite inputs and parameters of moderate magnitude with flanks of positive width, in IEEE binary32 with the library's own exponential", "why_tests_cant": "There are about 10^28 combinations of an input and two parameters; the bound is about the accumulated rounding of quotients, squares and an exponential evaluated by the library itself, not about sampled grades.", "anchors": ["src/fisCore.cpp: TriMF, TrapMF, LinSMF, LinZMF, SMF, ZMF, PiMF, GaussMF, SpikeMF, SigMF, DSigMF, PSigMF"]}
{"id": "C155", "title": "The recursive smoothers settle on a constant signal from any history", "statement": "After an accepted setup and any sequence of samples and resets, feeding a constant c makes the outputs of smootherLPF1, smootherLPF2, smootherEXPW, smootherKLMN and smootherDESF converge to c, for every accepted configuration.", "quantifier": "for all accepted parameters, all finite histories of samples and resets and all constants, in exact real arithmetic", "why_tests_cant": "Convergence is a statement about infinitely many calls; in particular the poles of the second-order filter must lie inside the unit circle for every accepted parameter.", "anchors": ["src/smoother.cpp: smootherLPF1, smootherLPF2, smootherEXPW, smootherKLMN, smootherDESF"]}
{"id": "C156", "title": "The gain of the Kalman smoother converges to the steady state of the Riccati equation", "statement": "Whatever the samples, the resets and the initial covariance, the gain used by smootherKLMN converges to P / (P + r), where P is the positive solution of P^2 = q P + q r.", "quantifier": "for all accepted covariances, all histories and all infinite sample sequences, in exact real arithmetic", "why_tests_cant": "It is a limit statement about a non-linear recursion over infinitely many calls and all covariances.", "anchors": ["src/smoother.cpp: smootherKLMN::setup, smootherKLMN::smooth"]}
{"id": "C157", "title": "The double exponential smoother forecasts linear trends", "statement": "On a signal that rises by g per sample the outputs of smootherDESF, set up to forecast n steps, approach the signal n steps ahead, as Holt's method does.", "quantifier": "for all accepted parameters, all histories and all ramps, in exact real arithmetic", "why_tests_cant": "The steady forecast error is a limit over infinitely many calls for all parameters.", "anchors": ["src/smoother.cpp: smootherDESF::setup, smootherDESF::smooth", "src/include/smoother.hpp: smootherDESF"]}
{"id": "C158", "title": "The adaptive smoother is the least-mean-squares filter", "statement": "After an accepted setup, any history and a reset, every output of smootherALNF is the prediction w.h of the least-mean-squares filter whose history starts filled with the first sample and whose weights start at 1/n and move by a (x - w.h) h after every sample.", "quantifier": "for all accepted configurations, histories and infinite sample sequences, in exact arithmetic over any ordered field", "why_tests_cant": "It is a refinement over arbitrarily long runs with two arrays updated in place.", "anchors": ["src/smoother.cpp: smootherALNF::setup, smootherALNF::smooth"]}
{"id": "C159", "title": "The adaptive smoother is stable", "statement": "After an accepted setup and any history smootherALNF settles at a constant signal, and its outputs stay bounded for bounded signals.", "quantifier": "for all accepted learning rates, window sizes, histories and bounded signals, in exact real arithmetic", "why_tests_cant": "Boundedness and convergence concern infinite runs; instability only shows for signals large in proportion to the learning rate.", "anchors": ["src/smoother.cpp: smootherALNF::setup, smootherALNF::smooth"]}
{"id": "C160", "title": "De-fuzzification is accurate in binary32", "statement": "In binary32 a Mamdani output de-fuzzified by the centroid is the centroid of the sampled aggregated region, limited to the range of the output, up to 2.1 (n + 4) roundings of the scale of the universe; a Sugeno or Tsukamoto output is the weighted average (or sum) of the consequents of the firing rules up to a like number of roundings. No intermediate overflow or NaN is possible under the stated scales.", "quantifier": "for all systems, rule programs, aggregation and implication operators, numbers of points up to 65536 and all finite binary32 values", "why_tests_cant": "The error of two accumulated sums and their quotient depends on all samples, and the worst case of sample values is not found by tests.", "anchors": ["src/fis.cpp: deFuzzify, deFuzzCentroid, deFuzzWtAverage, deFuzzWtSum"]}
{"id": "C161", "title": "The Gaussian filter is accurate in binary32", "statement": "In binary32, with the library's exponential, after an accepted setup of smootherGMWF every output is for ever the mean of the last n samples weighted with the Gaussian of the configured centre and width, up to a small multiple of the greatest sample; in particular it is never a NaN.", "quantifier": "for all window sizes up to 1024, centres, widths and infinite sequences of finite samples and resets", "why_tests_cant": "The kernel is the result of n exponentials, a rounded sum and n divisions; the error for all centres, widths and samples, over unbounded runs, is out of reach of tests.", "anchors": ["src/smoother.cpp: smootherGMWF::setup, smootherGMWF::smooth"]}
{"id": "C162", "title": "The recursive smoothers follow their exact recursions in binary32 for ever", "statement": "A binary32 smootherLPF1 or smootherDESF and the same filter in exact arithmetic that receive the same calls never differ by more than a fixed small multiple of the greatest sample, however long they run: rounding errors do not accumulate.", "quantifier": "for all accepted coefficients not closer than 1e-4 to the limit of stability, all histories of samples and resets of any length", "why_tests_cant": "Accumulation of rounding over unbounded runs cannot be observed in finite tests, and the exact recursion is not computable by the tested code.", "anchors": ["src/smoother.cpp: smootherLPF1::smooth, smootherDESF::smooth"]}
{"id": "C163", "title": "Numerical integration and derivation converge to the calculus", "statement": "For a Lipschitz signal the integral computed by nState with any method approaches the true integral: the error is at most 1.25 L dt times the elapsed time. For a signal with Lipschitz derivative the three derivative methods approach the derivative at their points with an error of at most 4 K dt, and the methods of higher order (trapezoidal, Simpson, quadratic) have an error of at most 1.5 K dt^2 times the elapsed time.", "quantifier": "for all real signals (not only polynomials), start times, steps and numbers of steps, in exact arithmetic", "why_tests_cant": "Convergence is a statement on all signals and arbitrarily small steps; a test fixes one signal, one step and a tolerance.", "anchors": ["src/numa.cpp: nState::integrate, nState::derive"]}
{"id": "C164", "title": "Configuration calls of a fuzzy system act independently and the last one wins", "statement": "After any sequence of calls of setupInput, setupOutput, setInput, setupInputMF, setupOutputMF and setRuleWeights every input, output and membership function is exactly what the last call for each of its parts made of it, whatever the order; a call returns true exactly when its tags exist and otherwise has no effect. The named shapes select the functions of their names, heights are limited to 0..1 and ignored for the outputs of Sugeno and Tsukamoto systems, the points of de-fuzzification cover the configured range of an output exactly, and a region is stored only in arrays that are large enough.", "quantifier": "for all systems and all finite sequences of calls with all arguments", "why_tests_cant": "Tests configure a handful of systems in one fixed order; interference between calls for different tags is not exercised.", "anchors": ["src/fis.cpp: setupInput, setupOutput, setInput, getOutput, setMF, storeAggregatedRegion, setRuleWeights", "src/include/fis.hpp: setupInputMF, setupOutputMF"]}
{"id": "C165", "title": "Simulated continuous systems converge to the solution of their differential equation", "statement": "A continuousSystem set up with num / den and any integration method, excited with the samples of an input signal from rest, gives outputs that differ from the true response of the transfer function (the solution of the differential equation, limited to the output range) by at most a constant times the step, on every bounded interval of time.", "quantifier": "for all orders, coefficients, integration methods, input signals with a Lipschitz response, output limits, time intervals and steps", "why_tests_cant": "Convergence concerns arbitrarily small steps and every system; tests compare a few simulated samples with stored numbers.", "anchors": ["src/ltisys.cpp: continuousSystem::setup, continuousSystem::update, ltisys::excite", "src/numa.cpp: nState::integrate"]}
{"id": "C166", "title": "Integrators and derivatives in binary32 stay close to exact arithmetic", "statement": "With float arithmetic, every method of nState::integrate fed any samples differs after n steps from the same rule in exact arithmetic by at most n half roundings of the greatest magnitude the integral can have (plus 1e-6 of it), and every method of nState::derive gives the value of its formula up to 1.3e-6 times the greatest sample divided by the step. The integral of a positive constant keeps growing.", "quantifier": "for all methods, all sequences of finite samples, all steps from 1e-6 to 1e6 and all numbers of steps", "why_tests_cant": "Rounding errors accumulate over arbitrarily long runs; tests take a few dozen steps with loose tolerances.", "anchors": ["src/numa.cpp: nState::integrate, nState::derive", "src/include/numa.hpp: class nState"]}
{"id": "C167", "title": "The complete elliptic integral of the second kind is accurate", "statement": "For every float k strictly between -1 and 1, comp_ellint_2(k) is a finite number within 1.6e-4 times the complete integral of the first kind of the integral of sqrt(1 - k^2 sin^2) from 0 to pi/2, whatever the number of iterations its two inner loops need and although its reciprocal square root is good to three digits only.", "quantifier": "for all finite floats k with |k| < 1", "why_tests_cant": "The iteration count and the cancellation between the two Carlson integrals depend on k; tests compare a dozen values.", "anchors": ["src/ffmath.cpp: ffmath::comp_ellint_2, ellint_rd, ellint_rf, ffmath::rSqrt"]}
{"id": "C168", "title": "Cosine, bell, two-sided Gaussian and concave sets are accurate in binary32", "statement": "With float arithmetic and the library's own cos, exp and pow, the cosine set lies in [0, 1] within 5e-4 of the raised cosine on its support and of zero outside; the generalised bell lies in [0, 1] within 1e-5 + 7e-8|b| of 1/(1+|(x-c)/a|^(2b)) and is exactly one at the centre; the two-sided Gaussian lies in [0, 1] within 2.1e-6 of the product of its two factors; the concave set is within 1.9e-7 K + 3e-7 of its formula, K being the end of the flank in flank lengths. All four lie in [0, 1].", "quantifier": "for all finite inputs and parameters up to 1e9 in the stated ranges", "why_tests_cant": "The computed edges of the support differ from the exact ones, the library functions have their own errors, and a concave set exceeds one in the last place for rare inputs only.", "anchors": ["src/fisCore.cpp: core::CosineMF, core::GBellMF, core::Gauss2MF, core::ConcaveMF"]}
{"id": "C169", "title": "Sine interpolation is accurate in binary32", "statement": "In binary32 arithmetic with the library's cosine, for every table with increasing abscissas whose gaps are between 1e-18 and 1e18 and ordinates of magnitude at most M <= 1e18, interp1 with the sine method is finite and within (9.6e-4 + 1.5e-6 T) M of the half-wave through the knots of the segment that contains the argument (outside the table: of the nearest segment, T segment lengths away).", "quantifier": "all tables, all table lengths, all finite arguments within a million segment lengths", "why_tests_cant": "The error of the cosine and of the reduced angle grow with the distance; tests compare a handful of tables with loose tolerances.", "anchors": ["src/interp1.cpp: interp1::sine", "src/ffmath.cpp: ffmath::cos"]}
{"id": "C170", "title": "Spline interpolation is accurate in binary32", "statement": "In binary32 arithmetic, for every table of at least four knots with increasing abscissas whose gaps are between 1e-18 and 1e18 and ordinates of magnitude at most M (1e-18 <= M <= 1e18), interp1 with the spline method at any argument inside the table is finite and within 1.8e-5 M of the exact cubic through the two knots around the argument whose end tangents are the chords between neighbouring knots (one-sided at the ends); at the last knot the result is the last ordinate bit for bit.", "quantifier": "all tables, all table lengths, all finite arguments inside the table", "why_tests_cant": "Cancellation in the Hermite polynomials and in the slopes depends on every knot; tests use one table and a loose tolerance.", "anchors": ["src/interp1.cpp: interp1::spline", "src/interp1.cpp: interp1::slope"]}
{"id": "C171", "title": "Configuration of linear systems", "statement": "A discrete or continuous system that is not set up refuses setDelay, setSaturation, setInitStates and setIntegrationMethod, keeps all its members and answers every input with zero. setup accepts exactly when no pointer is null and the order is positive, after which the system is initialised; when it refuses nothing changes. setInitStates makes the given n values the states, in order, or zeros for a null pointer, and touches nothing else. The default limits are the smallest positive normal number and the largest finite number.", "quantifier": "all systems, all arguments, all arithmetics (limits: binary32)", "why_tests_cant": "Refused calls and partial writes would have to be tried in every state; tests only use the successful paths, and with first order systems a state array with the wrong values goes unnoticed.", "anchors": ["src/ltisys.cpp: ltisys::setDelay, ltisys::setSaturation, ltisys::excite", "src/ltisys.cpp: discreteSystem::setup, setInitStates", "src/ltisys.cpp: continuousSystem::setup, setInitStates, setIntegrationMethod"]}
{"id": "C172", "title": "Number of delays for a time", "statement": "In binary32 arithmetic delayFromTime( Time, dt ) is the whole number nearest to Time/dt for 0 <= Time and 0 < dt: whenever Time is a whole number of steps up to rounding the result is that number.", "quantifier": "all finite times and steps", "why_tests_cant": "The sum with one half is rounded; tests use a few decimal times.", "anchors": ["src/include/ltisys.hpp: delayFromTime"]}
{"id": "C173", "title": "PID: each configuration call changes its own settings only, and calls about different settings commute", "statement": "A configuration call of pidController succeeds exactly when the controller is set up (for the calls about the auto-tuner: bound to one) and its arguments are admissible; it then sets the members it is about and no other, and otherwise it changes nothing. Two calls about different settings may be made in either order with the same results and the same final state.", "quantifier": "all controller states, all pairs of configuration calls about different settings, any arithmetic", "why_tests_cant": "There are several hundred pairs of calls and infinitely many states; tests configure in one order.", "anchors": ["src/pid.cpp: setDirection, setParams, setGains, setExtraGains, setSaturation, setSeries, setEpsilon, setDerivativeFilter, setDerivativeFilterTimeConstant, setMode, setReferenceWeighting, setManualInput, reset, setModelReferenceControl, removeModelReferenceControl, unbindAutoTuning, enableAutoTuning, setAutoTuningParameters, setAutoTuningControllerType"]}
{"id": "C174", "title": "PID: the conversions of parameters keep the transfer function", "statement": "setParams gives the controller with the standard-form transfer function kc(1 + 1/(ti s) + td s); setSeries turns the gains of a series controller into those of the parallel controller with the same transfer function; setDerivativeFilterTimeConstant gives the coefficient exp(-dt/Tf), which lies in [0,1) and within 1e-6 of that number in binary32.", "quantifier": "all gains, frequencies, sampling periods and time constants", "why_tests_cant": "Identities of rational functions and an error bound over all periods and time constants.", "anchors": ["src/pid.cpp: setParams, setSeries, setDerivativeFilterTimeConstant"]}
{"id": "C175", "title": "Auto-tuner: the proposed gains scale with the process and the initial model matches the current gains", "statement": "In exact arithmetic the gains proposed by the auto-tuner are proportional to the speed and inversely proportional to the static gain of the process, with integral and derivative times that are fixed multiples of its time constant, for each type of controller; the model it starts from has static gain Kc/0.9 and time constant 0.3 Kc/Ki; tuning is complete exactly when a tuner is bound and its countdown is zero.", "quantifier": "all processes, speeds, gains and sampling periods", "why_tests_cant": "Identities of rational functions of four real parameters.", "anchors": ["src/pid.cpp: getEstimates, initialize, isAutoTuningComplete"]}
{"id": "C176", "title": "Model reference control: the adaptation opposes the model error, is bounded and stops during saturation", "statement": "In exact arithmetic the rate of the adapted parameter has the sign opposite to (y - yr)\u00b7yr, is zero only when the process follows the model or the reference is zero, and is at most gamma\u00b7|y - yr|/(2 sqrt(alpha)) in size however large the reference; while the anti-windup feedback exceeds the dead band the term is left out and its memory is kept.", "quantifier": "all controller states, process values and references", "why_tests_cant": "A bound over all real references and errors.", "anchors": ["src/pid.cpp: control (model reference part)"]}
{"id": "C177", "title": "PID: one control step is accurate in binary32", "statement": "In binary32, in automatic mode and forward direction without a model reference, control() returns the limited action Kc(b w - y) + Ki\u00b7integral + Kd\u00b7filtered derivative of the stored state, evaluated exactly, up to an error of a few rounding units of the size of each of the three terms plus the gain times the dead band.", "quantifier": "all finite states, gains, inputs and limits in the stated ranges (up to 1e9; sampling periods 1e-6 to 1e6)", "why_tests_cant": "Fifteen rounded operations and a dead band over a state of a dozen numbers.", "anchors": ["src/pid.cpp: control, error, saturate", "src/numa.cpp: integrate, derive"]}
{"id": "C178", "title": "Second-order low-pass smoother: in binary32 rounding does not accumulate and the output settles", "statement": "In binary32, after an accepted setup, the outputs of smootherLPF2 stay for ever within a fixed multiple of the largest sample magnitude M of the outputs that exact arithmetic gives with the same stored coefficients, and do not exceed 1.03 M; the multiple is 4e-7/a^2 (7e-6 for a above 0.45). Once the samples stay at a constant, the outputs settle within 1.6e-6/a^2 M of it (2e-5 M for a above 0.45), and for no accepted factor does the filter ignore its input.", "quantifier": "all accepted factors a, all infinite streams of finite samples with magnitude up to M", "why_tests_cant": "A recursion of order two run for ever: the rounding errors are fed back, and only the location of the stored poles bounds them.", "anchors": ["src/smoother.cpp: smootherLPF2::setup, smootherLPF2::smooth", "src/ffmath.cpp: sqrt"]}
{"id": "C179", "title": "First-order low-pass smoother: the output settles near a constant in binary32", "statement": "In binary32, for every accepted coefficient a and whatever the memory holds, feeding smootherLPF1 the constant c makes its outputs settle within 3.3e-7 M/(1-a) of c, where M bounds c and the memory; no accepted coefficient makes the filter ignore its input.", "quantifier": "all accepted coefficients, all finite memories and constants of magnitude up to M", "why_tests_cant": "Whether the rounded recursion stalls short of its limit is a statement about infinitely many calls.", "anchors": ["src/smoother.cpp: smootherLPF1::setup, smootherLPF1::smooth"]}
