# Formal model of qlibs-cpp: design

Source: `kmilo17pet/qlibs-cpp` in `/repo` (read as text, never built).
Proof assistant: Lean 4.33.0 with Mathlib. Properties: `properties.jsonl`.
Status per property: `MANIFEST.json`. Mutation log: `seeded/LOG.jsonl`.

## 1. Trusted base

* The Lean 4 kernel. Every theorem listed in `MANIFEST.json` depends on no
  axioms other than `propext`, `Classical.choice` and `Quot.sound`.
  No `sorry`, no own axioms, no `native_decide`, no `bv_decide`.
* The transcription from C++ to Lean. Each definition cites file and lines; a
  simplification is stated in the comment of the definition that makes it.
* The reading of C++ used by the transcription:
  * `uint32_t` is `BitVec 32` or a `Nat`/`Int` reduced mod 2^32; `int32_t` is an
    `Int` with an explicit range check (overflow is the outcome `ub`), or a
    `BitVec 32` where the code itself goes through unsigned arithmetic.
  * `>>` on a negative signed integer is arithmetic shift and unsigned->signed
    conversion is two's complement (guaranteed since C++20, universal before).
  * Reading or writing outside an array is the outcome `ub`
    (`Verif/Base.lean: Out`). A loop that does not terminate is `diverge`.
  * `size_t` is an unbounded `Nat` unless the code relies on wrap-around (then it
    is said so; e.g. `reverse(0, r-1)` with r = 0).
* Floating point. `real_t` is `float`. Four different treatments are used:
  1. functions that work on the *bit pattern* (`floor`, `ceil`, `trunc`,
     `rounding`, `classify`, `copysign`, `nextAfter`, `rexp`, `ldexp`) are
     modelled exactly on `BitVec 32`, with the IEEE-754 value as a rational;
  2. properties that only depend on comparisons (saturation, clamping, guards,
     step interpolation, fuzzy operators) are proved for an *arbitrary*
     arithmetic: + - * / are uninterpreted functions on a type with a partial
     order-like `<` that may contain NaN, so they hold for IEEE floats with any
     rounding;
  3. analytic properties (filters, linear systems, matrices, interpolation) are
     proved over an arbitrary linearly ordered field. Rounding, overflow to
     infinity and NaN are then **outside** the model and the property statement
     says "in exact arithmetic";
  4. the algorithms of `ffmath.cpp` are modelled in **IEEE-754 binary32 arithmetic**
     (`Verif/F32/Round.lean`, `Verif/F32/Ops.lean`): + - * / compute the exact
     rational result and round it to the nearest float, ties to even, with gradual
     underflow, overflow to infinity, signed zeros and NaN. That the rounding is
     the nearest float and ties go to even is proved (`rnd_nearest`, `rmag_tie`),
     not assumed. What is trusted: `float` is binary32, the default rounding mode
     is active, every operation is evaluated in `float` (`FLT_EVAL_METHOD` 0) and
     not contracted to a fused multiply-add, literals are correctly rounded, and a
     generated NaN is the quiet NaN `0x7FC00000` (only its being a NaN is used).
     `BitVec 32` with these operations is an instance of the "arbitrary
     arithmetic" of item 2 (`ieeeArith`, `ieeeLawful`), so those theorems apply
     to IEEE floats literally.

## 2. Layout

`lean/Verif/Base.lean`            outcome type (`ok`/`ub`/`diverge`)
`lean/Verif/<Mod>/Model.lean`     transcription of the code
`lean/Verif/<Mod>/Spec.lean`      independent specification (where needed)
`lean/Verif/<Mod>/Lemmas*.lean`   helper lemmas
`lean/Verif/<Mod>/Props.lean`     property theorems and their non-vacuity examples

## 3. Per-property plan

CRC (`crc.cpp`, exact, BitVec 32)
* C01 model `generic` literally; spec: remainder in `(ZMod 2)[X]` by the monic
  polynomial x^w + poly. Proof: one register step = multiplication by x mod P.
* C02 register update is linear over GF(2), induction over bytes.
* C03 difference register is (error polynomial) mod P; P odd => x is a unit, so a
  burst shorter than the width is non-zero mod P.
* C04 decision logic and masking invariant.  C05 from C01.

TDL (`tdl.cpp`, exact, polymorphic in the sample type)
* C06-C08 state (buffer, wr, rd) with pointer arithmetic checked; refinement to a
  list of the last n samples. Known defect: n = 1 indexes one past the window
  (witness); partial theorem for n >= 2.

Bitfield (`bitfield.cpp`, exact, byte array accessed as little-endian 32-bit words)
* C09-C13 abstraction to a function index -> Bool; read-over-write lemmas, then
  refinement over arbitrary call sequences.
  Known defects: width 0 shifts by 32 (UB); width 1 stores `value != 0` instead of the
  lowest bit (`C10_width_one_false`); an area that is not a whole number of words
  is read out of bounds (`C12_partial_word_ub`).

Algorithm (`algorithm.hpp`, exact, polymorphic)
* C14 Lomuto quicksort with explicit stack of capacity n; invariant: the stacked
  intervals are disjoint, of length >= 2, everything outside them is in final
  position. C15 comparator path is defective (witness), partial: output is still a
  permutation and memory safe. C16-C19 direct. C17, C20 have defects (witness).

fp16 (`fp16.cpp`, exact, Int with overflow = ub)
* C21 add/sub.
* C22 mul. Defects: cross products wrap (spurious and missed overflow), the rounding
  increment overflows at both ends of the range. Proved where the cross products fit.
* C23 div: functional correctness of the shift-subtract loops. Defects: `x = INT_MIN`,
  exact quotient -32768 (both UB).
* C24 sqrt: invariant of the digit loop (remainder + root^2). Defects: a remainder of
  2^15 or more is shifted into the sign bit (255 ulp error), zero and negative inputs
  return -32767.99998.
* C25 (defect: `rounding` adds one). C26 toASCII. C27 (defect: wrapToPi can return
  pi + 1 ulp). C28. C29 (defect: `absolute(Min)`).

ffmath (bit level, exact): C30-C35. Defects: `rexp(0)`, `ldexp` exponent wrap.

smoother (ordered field): C36-C40, C61, C63. Defects: MWM1 setup can never succeed,
  MOR2 returns the raw sample, GMWF accepts a null kernel and ignores its offset check,
  DESF starts with the trend equal to the sample and has no trend term in its level,
  ALNF with momentum reads outside its arrays and without momentum is refused.
pid: C41 (arbitrary arithmetic), C42 (defect: checks the old dt), C43 (defect:
  enable(0) does not disable), C44 (ordered field; defect: with the default derivative
  weight 0 the derivative uses the unweighted previous error), C142 anti-windup (invariant in exact
  arithmetic under a small-gain condition; defects: the derivative reads the state that the integrator has
  stored, which includes the anti-windup signal, so the signal feeds back on itself and the controller ends in NaN;
  in backward direction the anti-windup has the wrong sign and the controller locks up), C143 convergence of the
  auto-tuner's least squares in a closed loop (exact arithmetic), C144 the auto-tuner in an idle loop (binary32; defect:
  the covariance grows by 1/l per idle sample without bound, overflows after some 8000 samples and leaves NaN
  estimates for ever; fine for l = 1), C145 bumpless transfer (contraction of the tracking error over three samples; defects: the
  bump back to automatic mode is error/kw, and in backward direction or with derivative action the tracking diverges),
  C146 manual mode (defect: the manual input is integrated instead of being used as the control signal).
  C148 integral action (`Pid/Integral.lean`): a persistent error drives the output to its limit in exact arithmetic; in binary32
  it need not (defect: at small sampling times the increments of the integral vanish in the rounding and the output stays for ever).
interp1: C45-C47, C64, C65 (C46 any arithmetic, the rest exact; defects: cubic reads ty[i-2] at
  i = 1 and forgets to divide its differences by the spacing; sine has no break and always uses
  the last segment; next gives the second ordinate below the table and reads outside it for NaN).
ltisys: C48 (direct form 2: the internal history satisfies both halves of the equation;
  defects: normalisation called with swapped counts, default limits [FLT_MIN, FLT_MAX]
  clip zero and negative outputs), C49, C50 (arbitrary arithmetic, all call sequences),
  C51 (chain of integrators as formal power series in the delay; defect: missing direct
  feed-through), C62 (bisimulation with a system without delay), C140 (FIR filters in binary32),
  C147 (recursive systems in binary32: convolution with the impulse response bounds the effect of all roundings).
  C150 (`Ltisys/Settle.lean`): stable systems settle at their static gain; absolutely summable power series over the reals,
  stability being an absolutely summable impulse response. False with feed-through, which the code leaves out (C51).
mat: C52 (defects: prefix -- increments; a scalar argument that is an element of the matrix changes
  during the loop), C53 (no pivoting: the pivots are quotients of leading principal minors, so a
  vanishing minor of a nonsingular matrix divides by zero), C66 (defect: exchanged loop bounds).
  The compile-time checks (`static_assert`, overload resolution) are outside the model.
numa: C54 (the Simpson rule of the code is exact for constants only).  
fis: C55-C60, C67-C72. The rule macros are modelled as an encoding `program` of a list of rules, and
  inference/aggregation are proved to decode it (induction over rules, terms and consequents). Operators, ranges,
  aggregation visits, LOM for any arithmetic; averages, centroid, MOM and shapes in exact arithmetic.
  Defects found and proved: SOM behaves as LOM; MOM ignores all plateaus but the first; the implication accepts
  MAX and PROBOR; the number of evaluation points can never be set; a single-output rule with two consequents
  is undefined behaviour; a null strength array (the default argument) is written; the item of the negated set
  123 equals THEN; linzmf rises; gauss2mf has no right tail; tlinzmf = tlinsmf, tconcavemf = identity, tsmf and
  tzmf leave their interval; Tsukamoto consequents are evaluated at the first input; << with a missing tag
  overwrites the previously selected input; [] with a missing tag reads an input.
  Not modelled: the `system` template's constructors beyond what `instance::setup` does. The bisector
  (C141) aggregates the whole system again for every abscissa of every output; the proof carries the other outputs through as unchanged.
rms (ordered field with the exact square root): C84, C85. C149 (binary32 with `ffmath::sqrt`, `Rms/Float.lean`): the estimate stays
  within the magnitudes of the signal up to a drift of the window's running sum; defect: after one spike followed by silence the
  estimate is negative for ever. The three base classes are modelled by the smoother
  models. Defects: an update before `setup` is undefined behaviour (C84), `setParams( l, 1 )` is accepted
  although the documentation excludes it, and freezes the output (C85).
ffmath (IEEE arithmetic): C73- . `FloatModel.lean` transcribes lines 113-909 of `ffmath.cpp`,
`GammaModel.lean` lines 943-1284 and 1522-1536, `PolyModel.lean` lines 1286-1520 and 2088-2173.
  Defects found and proved: `mod` leaves its interval for large quotients (C75);
  the square root of every subnormal is negative and `sqrt(inf)` is NaN (C76); `recip(0)` is finite,
  `recip` of infinity and of the largest float and `rSqrt(inf)` are minus infinity (C77); `cbrt` of a negative number is lost because
  the sign bit enters the integer seed (C78); `exp2(127.5)` is infinite, `exp2(-126)` is 0 and `exp2(NaN)` is
  undefined (C79); `expm1(1e-8)` is 0 (C80); `log2(inf)` is 128, `log2(NaN)` a
  number and the exponent of a subnormal is misread (C81); `log1p(1e-8)` is 0 (C82); `pow` with a negative base and
  `pow(0, 0)` convert a NaN to an integer, which is undefined (C83); the argument reduction of `sin` works up to
  2.6e7, `sin(-26400004)` is below -20 (C86); `cos` is not exactly even and `tan(4.712389)` is infinite (C87);
  `isEqual` is not transitive (C88); `asin(1) > pi/2`, `acos(1) < 0` (C89); `atan(inf)` and `atan2(1e30, 1e-30)` are NaN,
  `atan2(0, 0)` and `atan2(0, FLT_MIN)` are pi/2 (C90); `tanh` is NaN from -44.4 down (C91); `asinh(-10000)` is
  minus infinity, `acosh` of large arguments and of a NaN is 89.13, `atanh(1)` is 44.36 (C92);
  `hypot` with a zero or a far smaller operand is wrong (C93); `rem(0, y)` is NaN and `rem` can have
  the wrong sign (C94); `erf` is negative below 6.912 because of a misplaced parenthesis, and
  `erf(NaN)` is undefined behaviour (C95); `map` can miss its upper end (C96); `inCircle` overflows
  (C97); `inPolygon` divides by `dx + py[i]`, so that no rectangle contains a point, and reads vertex 0
  of an empty polygon (C98).
- `tgamma` of a negative integer, and of a negative number down to `-FLT_MIN`, is NaN, not infinity as documented; `tgamma(-0)` is
  `+inf`; `tgamma(35)` is infinite although representable (C100). `lgamma` is infinite above 171.624, where the true value is
  representable up to about 4e36, and minus infinity at non-integers below -171.624 (C101). For this reason `beta(x, y)` converts a
  NaN to an integer (undefined behaviour) whenever one argument is above 171.624 and the other not negative; it also loses the sign
  of the beta function (C102).
- C151: `tgamma` of positive numbers against the gamma function of Mathlib. Its logarithm is enclosed by Stirling's series with explicit
  bounds (`StirlingReal.lean`); on `[1, 2]` the second derivative of the difference of logarithms is bounded by polynomial positivity
  checks in the kernel and integrated from the end points (`GammaReal.lean`, `GammaCore.lean`); the rounding errors of the Horner
  schemes, of the functional equation and of Stirling's branch follow in `GammaAcc.lean`. Defect: subnormal arguments give infinity.
- C152: `lgamma` in the same way. `LgammaReal.lean` bounds second differences (divided differences over three points) of `log Γ` by those of
  Stirling's series, so that each rational function of the code is compared with `log Γ` relatively to the distance from its zero
  (`LgammaCore.lean`); the polynomial checks use the integer Bernstein test of `F32/PolyInt.lean`. `LgammaAcc.lean` has the rounding errors
  interval by interval. Defect: `log`, and with it `lgamma`, ignores the exponent of subnormal numbers.
- C153: `beta` from C152 and C80; the rounding of `x + y` is handled with the convexity of `log Γ` (`BetaAcc.lean`).
- C154: the fuzzy membership functions in binary32 with the exponential of `ffmath` (`Fis/ShapesFloat.lean`, `Fis/ShapesExp.lean`); the transcendental class is instantiated by `Ffmath.exp`, which is defined for all arguments met here.
- C155 to C157 (`Smoother/Settle.lean`): settling of the recursive smoothers over the reals; the second-order filter by the Schur–Cohn
  quadratic form after rescaling by a radius below one. Defect (C157): `smootherDESF` lags a ramp by `(1 - a) / a` steps.
- C158, C159 (`Smoother/Adaptive.lean`): `smootherALNF` without momentum is the LMS filter; stable on constants with `n a c² < 2`.
  Defects: undefined behaviour with a momentum buffer, unbounded outputs for larger signals.
- C160 (`Fis/Float.lean`): the centroid, the weighted average and the weighted sum in true binary32, by the dot-product bound of
  `F32/Dot.lean`; total memberships below 1e-20 are excluded (the quotient of two tiny sums has no useful relative bound).
- C161 (`Smoother/FloatGauss.lean`): the Gaussian filter in true binary32 with `Ffmath.exp`. Defect: `setup` accepts configurations whose
  weights all underflow (centre 1/2, width 0.01, two cells); the kernel is then `0 / 0` and every output a NaN.
- C162 (`Smoother/FloatTrack.lean`): `smootherLPF1` and `smootherDESF` in binary32 run in lockstep with the same model over the reals; the
  error is the fixed point of a contraction.
- C163 (`Numa/Converge.lean`): integration and derivation against Mathlib's interval integral and derivative for every Lipschitz signal.
  The method called Simpson is only of first order (it spreads the three-point mean over one step instead of two).
- C164 (`Fis/Calls.lean`): sequences of configuration calls as independent last-writer-wins slots. Defect: no function compares a tag with
  the number of inputs, outputs or membership functions; a tag past the end is undefined behaviour although `false` is documented.
- C165 (`Ltisys/Converge.lean`): the chain of integrators is an explicit multistep scheme; a discrete Gronwall argument bounds its distance
  from the solution of the differential equation by a constant times the step (the histories start at zero, which costs two steps).
- C166 (`Numa/Float.lean`): the integrators and derivatives in binary32. Errors grow with the number of steps (proved up to a million); an
  integrator fed ones in steps of one counts to 16777216 and never gets further (`C166_stall_false`).
- C167 (`Ffmath/EllipticRdReal.lean`, `EllipticRd.lean`, `EllipticRdLoop.lean`, `EllipticSecond.lean`, `EllipticComp2.lean`): the accuracy of
  `comp_ellint_2`. Over the reals: duplication, monotony, scaling and the Legendre form of Carlson's R_D. In binary32: the quantity
  `3*sigma + power4*R_D( xn, yn, zn )` is kept by every step up to 5.6e-6, and `power4` stays below the distance of `zn` and `xn`, so the last
  term, whose reciprocal square root is good to 0.0019 only, has a small weight when the loop stops.
- C168 (`Fis/ShapesFloat2.lean`): cosine, generalised bell, two-sided Gaussian and concave sets in binary32, with the library's own `cos`, `pow`
  and `exp`. The specification functions `cosSet`, `gaussHalf` and `concaveSet` are stated over the reals. Finding: a concave set can exceed one by
  one unit in the last place (`C168_concave_false`), because `2e - i - x` is rounded twice.
- C169 (`Interp1/FloatSine.lean`): sine interpolation in binary32 with the library's cosine, compared with the half-wave `halfWave` over the reals.
  Inside the table the code always uses the last segment (the loop does not stop), so the claim for the containing segment is false
  (`C169_sine_false`).
- C170 (`Interp1/FloatSpline.lean`): spline interpolation in binary32, compared with the cubic `hermiteCubic` over the reals whose tangents are
  those of C65 (`tangent`). Covers the search, the tolerance band of `isEqual` and all three cases of the tangents. Extrapolation is not covered.
- C171 (`Ltisys/Lifecycle.lean`): configuration of linear systems. Finding: `continuousSystem::setInitStates` gives every state the first of
  the values (`C171_states_continuous_false`).
- C172 (`Ltisys/Lifecycle.lean`): `delayFromTime`. `floor( q + 0.5 )` is one too large just below one half and for odd numbers from 2^23 + 1
  on (`C172_half_false`, `C172_large_false`); the conversion of infinity (step zero) is undefined behaviour (`C172_zero_false`).
* C173: the calls that configure a PID controller are described by a condition and an update of the members they are about
  (`Op.guard`, `Op.args`, `Op.upd`, specifications), from which it follows that calls about different settings commute. Reset zeroes all
  memory.
* C174: `setSeries` on a pure integral controller (`Kc = 0`) divides zero by zero and leaves NaN in all gains while it reports success
  (`C174_series_false`); a long time constant gives the filter coefficient exactly 1 in binary32, which `setDerivativeFilter` refuses and
  which freezes the derivative (`C174_filter_false`).
* C175, C176: the formulas of the auto-tuner and of the model-reference term, in exact arithmetic. The term jumps to zero when the loop
  saturates (`C176_frozen`): the code drops it rather than holding the adapted parameter.
* C177: error analysis of one call of `control` in binary32; the dead band enters as an additive error, because the comparison with it is made
  on the rounded error.
- **C178** (`Smoother/FloatLpf2.lean`): the second-order smoother in binary32. For factors 0.01 to 0.45 the stored coefficients have
  two real poles in [0, 1); rounding adds at most `4e-7 / a² * M` for ever, and a constant is reached within `1.6e-6 / a² * M`.
  It is not true that every accepted factor gives a filter that follows its input: with `a = 1e-5` the filter started at 1 and fed
  zeros returns exactly 1 for ever (`C178_deaf_false`). From 0.45 on (`Smoother/FloatLpf2Fast.lean`) the recursion
  contracts in the maximum norm: `7e-6 * M` for ever, `2e-5 * M` for a constant. Other factors below 0.01 are open.
- **C179** (`Smoother/FloatSettle.lean`): the first-order smoother settles within `3.3e-7 * M / (1 - a)` of a constant for coefficients
  up to `1 - 1e-4`. It is not true of every accepted coefficient: with `a = 1 - 2^-24` a filter fed 0.75 and then ones returns 0.75
  for ever (`C179_deaf_false`).
- In exact arithmetic `legendre` and `hermite` are the polynomials of Mathlib (C103, C104); there `isEqual` is equality and `sqrt` the
  square root (class `ExactFF`). `assoc_legendre` divides only one summand of its recurrence and is wrong for `m >= 1`, `n = m + 2` at
  every `0 < |x| < 1` (C105). `assoc_laguerre` omits a factor at `x = 0`, uses an asymptotic formula for all degrees (`laguerre(3, 2)`
  is 0.45 instead of -1/3) and is never finite for `n + m >= 171` (C106).
- `expint` is accurate from `2^-20` to 36.044; it has the wrong sign everywhere between -1 and 0 (`expint_Ei` returns `E1(-x)`
  instead of `-E1(-x)`), is one percent too small from 36.044 on (the asymptotic series alternates where it should not) and is NaN at
  infinity (C107). The reference `eiR` is `gamma + log|x| + sum x^k/(k k!)`.
- `comp_ellint_1` is Legendre's integral to `3.1e-5 + 6e-8/(1-k^2)` for every `|k| < 1` (C108): `EllipticReal.lean` proves Carlson's
  duplication theorem for the improper integral `rfR` by substitution, `EllipticStep.lean`/`EllipticRf.lean` bound one float step, and
  `Elliptic.lean` the loop. The integrals of the first and third kind are NaN at `|k| = 1`, where they are infinite and the
  documentation promises NaN for `|k| > 1` only, and the third kind is off by 1e-3 because `ellint_rc` uses `rSqrt` (C110).
- `riemann_zeta` is within 1.3e-7 of Mathlib's `riemannZeta` for every `s >= 20` (C111) and never finite for `s <= -35`, where the zeta
  function is representable, because `lgamma` overflows `exp` (C112). The Bessel functions of order zero are compared with their power
  series as infinite sums (C113); Temme's continued fraction uses an old denominator, which makes `cyl_bessel_i(0, 5)` 3 percent too
  large, and `cyl_bessel_i(0, 88)` is infinite too early. `sph_bessel` and `sph_neumann` convert a float below `-2^31` to `int` for
  every `x >= 2147484416` (C115). All loops are bounded in the code (15000 or 1000 steps), so the models are fuel-free counts.
- `sph_legendre` is written over an arbitrary arithmetic with the elementary functions as parameters (`SphFns`): with the real functions
  it is the spherical associated Legendre function (C116); in binary32 it is defined up to angles of 2.5e7 (C117), and undefined where
  the library's cosine leaves `[-1, 1]`.
- `fp16` transcendental functions (C118-C125) are compared with the real functions of Mathlib; a raw value `r` stands for `r / 65536`.
  `Fp16/Trig.lean` rewrites the series of `sin` with nonnegative powers and bounds each rounding; the eleventh power overflows for
  `|x| > 168645` raw and the sentinel takes its place, which is where the large error (0.008) and the loss of oddness come from (C119).
  `cos` adds a quarter turn first, undefined for the last 102944 arguments (C120). `Fp16/Exp.lean` shows that the loop of `exp` is a
  monotone function of its argument (terms and number of terms both grow), which gives monotonicity and absence of overflow at once
  (C122); `Fp16/ExpReal.lean` bounds its error in 333 cells of the argument range, where a bound computed in natural numbers and proved
  sound is evaluated in the kernel (C123). `sinh(0)` is one (C124).
- `fp16::atan2` (C126) masks `y` with a shift by 28 instead of 31, so its absolute value is off by up to 15 raw units for `|y| >= 2^28`;
  the theorem shows that this does not matter, and that the result is the polar angle whenever `|x| + |y|` does not overflow. The origin
  gives 25737 radians. `asin` and `acos` divide by the error value of `sqrt(0)` at the end points, so `asin(1)` is about 0 (C128).
  `log` (C129) is Newton's iteration: the proof follows the error of the guess over the at most eleven steps and needs the accuracy of
  `exp` (C123). `log2` (C130) doubles `r + log2 x` in every step; the raw value 2 is a wrong special case (its reciprocal overflows).
  `pow` (C131, C132) puts the sign of a negative base in front of every power that is not a positive integer: `pow(-2, 0) = -1`, and
  `pow(-2, 15)` is undefined.
- Smoothers in binary32 (C134-C137). The same model (`Arith`) is instantiated with IEEE arithmetic. `F32/Hull.lean` proves that
  `x + a (y - x)`, each operation rounded, stays between `x` and `y` for `0 <= a < 1`; the low-pass and the Kalman filter follow from
  it. The exponentially weighted filter leaves the hull by rounding, by a bounded factor (C135). The moving average with a running
  sum (C136) is exact for quantised samples, but an outlier destroys the sum for good: after one sample 1e9 in the constant signal 0.1
  every output is 0.
- Interpolation, matrix products and FIR filters in binary32 (C138-C140). `F32/Dot.lean` bounds the rounding error of a dot product
  in the order of accumulation of the code, and shows it exact for integers while the sum of magnitudes is at most 2^24. Linear
  interpolation is accurate, but a knot is not reproduced exactly: the table 0, 13, 20 to 0, 7, 10 gives a value above 7 at 13 (C138).
  `F32/Error.lean` (rounding-error calculus) and `F32/Poly.lean` (a polynomial bound checker proved sound
  and run in the kernel) are proof tools and not definitions of the repository.

For a property that is false of the code, the theorem file contains the negation
with a concrete witness (`..._false`) and a `_partial` theorem with the
hypotheses under which the claim holds.
