{
 "claims": [
  {
   "property": "C01",
   "status": "proved",
   "theorems": [
    "Verif.Crc.C01_generic_is_remainder"
   ],
   "note": "exact BitVec model; all widths, messages and parameters"
  },
  {
   "property": "C02",
   "status": "proved",
   "theorems": [
    "Verif.Crc.C02_affine"
   ],
   "note": ""
  },
  {
   "property": "C03",
   "status": "proved",
   "theorems": [
    "Verif.Crc.C03_burst_detection",
    "Verif.Crc.C03_presets_odd"
   ],
   "note": ""
  },
  {
   "property": "C04",
   "status": "proved",
   "theorems": [
    "Verif.Crc.C04_guards",
    "Verif.Crc.C04_fits",
    "Verif.Crc.C04_high_bits_irrelevant"
   ],
   "note": ""
  },
  {
   "property": "C05",
   "status": "proved",
   "theorems": [
    "Verif.Crc.C05_zero_residue",
    "Verif.Crc.C05_residue"
   ],
   "note": "also for reflected parameter sets and arbitrary xorOut (constant residue)"
  },
  {
   "property": "C06",
   "status": "partial",
   "theorems": [
    "Verif.Tdl.C06_history_partial",
    "Verif.Tdl.C06_recent_oldest",
    "Verif.Tdl.C06_index_window_one_false",
    "Verif.Tdl.C06_window_one_witness"
   ],
   "note": "full claim is false of the code for window size 1 (reads one element past the window, proved); proved for every size >= 2"
  },
  {
   "property": "C07",
   "status": "partial",
   "theorems": [
    "Verif.Tdl.C07_subscript_partial",
    "Verif.Tdl.C07_subscript_out_of_range",
    "Verif.Tdl.C06_index_window_one_false"
   ],
   "note": "false only for window size 1, index 0"
  },
  {
   "property": "C08",
   "status": "partial",
   "theorems": [
    "Verif.Tdl.C08_memory_safe_partial",
    "Verif.Tdl.C06_history_partial",
    "Verif.Tdl.C08_empty_window_ub"
   ],
   "note": "mutating calls, newest and oldest reads safe for every size >= 1; indexed reads safe for size >= 2 and unsafe for size 1"
  },
  {
   "property": "C09",
   "status": "proved",
   "theorems": [
    "Verif.Bitfield.C09_history",
    "Verif.Bitfield.C09_single_bit"
   ],
   "note": "byte-level memory, every reachable state"
  },
  {
   "property": "C10",
   "status": "partial",
   "theorems": [
    "Verif.Bitfield.C10_roundtrip_partial",
    "Verif.Bitfield.C10_width_one_false",
    "Verif.Bitfield.C10_float_roundtrip"
   ],
   "note": "false of the code for width 1 with a non-zero even value (proved); proved for every other case"
  },
  {
   "property": "C11",
   "status": "proved",
   "theorems": [
    "Verif.Bitfield.C11_frame"
   ],
   "note": ""
  },
  {
   "property": "C12",
   "status": "proved",
   "theorems": [
    "Verif.Bitfield.C12_read",
    "Verif.Bitfield.C12_width_zero_ub",
    "Verif.Bitfield.C12_partial_word_ub",
    "Verif.Bitfield.C12_rejected",
    "Verif.Bitfield.C12_fresh"
   ],
   "note": ""
  },
  {
   "property": "C13",
   "status": "proved",
   "theorems": [
    "Verif.Bitfield.C13_clear_set_all",
    "Verif.Bitfield.C13_dump"
   ],
   "note": ""
  },
  {
   "property": "C14",
   "status": "proved",
   "theorems": [
    "Verif.Algorithm.C14_sorted",
    "Verif.Algorithm.C14_sorted_all",
    "Verif.Algorithm.C14_permutation"
   ],
   "note": "all arrays, ranges and strict weak orders; includes termination, bounds and stack capacity"
  },
  {
   "property": "C15",
   "status": "partial",
   "theorems": [
    "Verif.Algorithm.C15_comparator_partial",
    "Verif.Algorithm.C15_two_false",
    "Verif.Algorithm.C15_witness"
   ],
   "note": "false of the code: with a comparator every two-element array is exchanged (proved); permutation, termination and bounds proved"
  },
  {
   "property": "C16",
   "status": "proved",
   "theorems": [
    "Verif.Algorithm.C16_reverse"
   ],
   "note": ""
  },
  {
   "property": "C17",
   "status": "partial",
   "theorems": [
    "Verif.Algorithm.C17_rotate_partial",
    "Verif.Algorithm.C17_inverse_partial",
    "Verif.Algorithm.C17_negative_multiple_ub"
   ],
   "note": "false of the code for negative multiples of the length (undefined behaviour, proved); proved for every other k"
  },
  {
   "property": "C18",
   "status": "proved",
   "theorems": [
    "Verif.Algorithm.C18_binary_search",
    "Verif.Algorithm.C18_iff_present"
   ],
   "note": ""
  },
  {
   "property": "C19",
   "status": "proved",
   "theorems": [
    "Verif.Algorithm.C19_find",
    "Verif.Algorithm.C19_quantifiers",
    "Verif.Algorithm.C19_count",
    "Verif.Algorithm.C19_fill",
    "Verif.Algorithm.C19_for_each"
   ],
   "note": ""
  },
  {
   "property": "C20",
   "status": "partial",
   "theorems": [
    "Verif.Algorithm.C20_replace_partial",
    "Verif.Algorithm.C20_replace_eq",
    "Verif.Algorithm.C20_replace_false",
    "Verif.Algorithm.C20_find_if_partial",
    "Verif.Algorithm.C20_find_if_false"
   ],
   "note": "false of the code: replace/replace_if stop after the first match, find_if returns the last match (proved)"
  },
  {
   "property": "C21",
   "status": "proved",
   "theorems": [
    "Verif.Fp16.C21_add",
    "Verif.Fp16.C21_sub"
   ],
   "note": ""
  },
  {
   "property": "C22",
   "status": "partial",
   "theorems": [
    "Verif.Fp16.C22_mul_partial",
    "Verif.Fp16.C22_small_partial",
    "Verif.Fp16.C22_mixed_partial",
    "Verif.Fp16.C22_nonneg_partial",
    "Verif.Fp16.C22_spurious_overflow",
    "Verif.Fp16.C22_missed_overflow",
    "Verif.Fp16.C22_ub"
   ],
   "note": "false of the code (spurious and missed overflow, undefined increment: proved); correct rounding proved for magnitudes below 16384, for operands of opposite sign, and for representable products of non-negative operands"
  },
  {
   "property": "C23",
   "status": "partial",
   "theorems": [
    "Verif.Fp16.C23_div_partial",
    "Verif.Fp16.C23_div_zero",
    "Verif.Fp16.C23_ub"
   ],
   "note": "correct rounding and overflow detection proved for all non-sentinel operands; exact quotient -32768 and sentinel operands are undefined behaviour (proved)"
  },
  {
   "property": "C24",
   "status": "partial",
   "theorems": [
    "Verif.Fp16.C24_sqrt_partial",
    "Verif.Fp16.C24_upto_4096_partial",
    "Verif.Fp16.C24_large_false",
    "Verif.Fp16.C24_nonpositive"
   ],
   "note": "correct rounding proved for values up to 4096 (and beyond when the remainder is small); false of the code above (witness) and for every non-positive input (proved)"
  },
  {
   "property": "C25",
   "status": "partial",
   "theorems": [
    "Verif.Fp16.C25_floor",
    "Verif.Fp16.C25_ceil_partial",
    "Verif.Fp16.C25_rounding_false"
   ],
   "note": "floor proved; ceil proved except undefined behaviour at the top of the range; rounding is false of the code for every input (proved)"
  },
  {
   "property": "C26",
   "status": "proved",
   "theorems": [
    "Verif.Fp16.C26_text",
    "Verif.Fp16.C26_overflow"
   ],
   "note": ""
  },
  {
   "property": "C27",
   "status": "partial",
   "theorems": [
    "Verif.Fp16.C27_wrapTo180",
    "Verif.Fp16.C27_wrapToPi_partial",
    "Verif.Fp16.C27_wrapToPi_false"
   ],
   "note": "wrapTo180 proved in full; wrapToPi misses its upper bound by one unit (proved)"
  },
  {
   "property": "C28",
   "status": "partial",
   "theorems": [
    "Verif.Fp16.C28_roundtrip",
    "Verif.Fp16.C28_toInt_partial",
    "Verif.Fp16.C28_ub"
   ],
   "note": "undefined behaviour within half a unit of the ends of the range (proved)"
  },
  {
   "property": "C29",
   "status": "partial",
   "theorems": [
    "Verif.Fp16.C29_compare",
    "Verif.Fp16.C29_abs_neg_partial"
   ],
   "note": "absolute(-32767.99998) yields the sentinel although its magnitude is representable (proved)"
  },
  {
   "property": "C30",
   "status": "proved",
   "theorems": [
    "Verif.Ffmath.C30_floor",
    "Verif.Ffmath.C30_ceil",
    "Verif.Ffmath.C30_trunc",
    "Verif.Ffmath.C30_rounding",
    "Verif.Ffmath.C30_nonfinite"
   ],
   "note": "all 2^32 bit patterns; includes absence of signed overflow"
  },
  {
   "property": "C31",
   "status": "proved",
   "theorems": [
    "Verif.Ffmath.C31_classify",
    "Verif.Ffmath.C31_predicates"
   ],
   "note": ""
  },
  {
   "property": "C32",
   "status": "proved",
   "theorems": [
    "Verif.Ffmath.C32_special",
    "Verif.Ffmath.C32_nextAfter"
   ],
   "note": ""
  },
  {
   "property": "C33",
   "status": "proved",
   "theorems": [
    "Verif.Ffmath.C33_copysign_abs",
    "Verif.Ffmath.C33_sign"
   ],
   "note": ""
  },
  {
   "property": "C34",
   "status": "partial",
   "theorems": [
    "Verif.Ffmath.C34_rexp_partial",
    "Verif.Ffmath.C34_rexp_false",
    "Verif.Ffmath.C34_ldexp_partial",
    "Verif.Ffmath.C34_ldexp_false",
    "Verif.Ffmath.C34_roundtrip"
   ],
   "note": "false of the code for zero and subnormal arguments (proved); proved for every normal argument; ldexp(rexp(x)) = x proved for all patterns"
  },
  {
   "property": "C35",
   "status": "proved",
   "theorems": [
    "Verif.Ffmath.C35_inRangeCoerce"
   ],
   "note": ""
  },
  {
   "property": "C36",
   "status": "proved",
   "theorems": [
    "Verif.Smoother.C36_lpf1",
    "Verif.Smoother.C36_expw",
    "Verif.Smoother.C36_klmn"
   ],
   "note": "exact arithmetic, every sequence of setup/reset/smooth calls from a new object"
  },
  {
   "property": "C37",
   "status": "partial",
   "theorems": [
    "Verif.Smoother.C37_mwm2",
    "Verif.Smoother.C37_mwm1_partial",
    "Verif.Smoother.C40_mwm1_false"
   ],
   "note": "proved for smootherMWM2 from setup; smootherMWM1 computes the same but no call sequence can set it up (proved)"
  },
  {
   "property": "C38",
   "status": "partial",
   "theorems": [
    "Verif.Smoother.C38_lpf1",
    "Verif.Smoother.C38_lpf2",
    "Verif.Smoother.C38_expw",
    "Verif.Smoother.C38_klmn",
    "Verif.Smoother.C38_mwm1",
    "Verif.Smoother.C38_mwm2",
    "Verif.Smoother.C38_mor1",
    "Verif.Smoother.C38_mor2",
    "Verif.Smoother.C38_gmwf",
    "Verif.Smoother.C38_alnf_partial",
    "Verif.Smoother.C38_alnf_momentum_false",
    "Verif.Smoother.C38_desf_partial",
    "Verif.Smoother.C38_desf_false"
   ],
   "note": "proved for nine smoothers after any history; false of the code for DESF with a nonzero horizon and for ALNF with momentum (undefined behaviour), both proved"
  },
  {
   "property": "C39",
   "status": "partial",
   "theorems": [
    "Verif.Smoother.C39_mor1",
    "Verif.Smoother.C39_mor2_false"
   ],
   "note": "proved for smootherMOR1; smootherMOR2 returns every sample unchanged (proved)"
  },
  {
   "property": "C40",
   "status": "partial",
   "theorems": [
    "Verif.Smoother.C40_lpf1",
    "Verif.Smoother.C40_lpf2",
    "Verif.Smoother.C40_expw",
    "Verif.Smoother.C40_klmn",
    "Verif.Smoother.C40_desf",
    "Verif.Smoother.C40_mwm2",
    "Verif.Smoother.C40_mor1",
    "Verif.Smoother.C40_mor2",
    "Verif.Smoother.C40_alnf",
    "Verif.Smoother.C40_alnf_no_momentum_false",
    "Verif.Smoother.C40_mwm1_partial",
    "Verif.Smoother.C40_mwm1_false",
    "Verif.Smoother.C40_gmwf_partial",
    "Verif.Smoother.C40_gmwf_false",
    "Verif.Smoother.C40_gmwf_offset_false"
   ],
   "note": "any arithmetic; false of the code for MWM1, GMWF and the ALNF overload without momentum (proved)"
  },
  {
   "property": "C41",
   "status": "proved",
   "theorems": [
    "Verif.Pid.C41_saturation"
   ],
   "note": "any arithmetic and rounding, all call sequences including direct access to the public bases"
  },
  {
   "property": "C42",
   "status": "partial",
   "theorems": [
    "Verif.Pid.C42_setup_partial",
    "Verif.Pid.C42_setup_false",
    "Verif.Pid.C42_setters_before_setup"
   ],
   "note": "false of the code: setup tests the previously stored time step (proved); the setter half is proved"
  },
  {
   "property": "C43",
   "status": "partial",
   "theorems": [
    "Verif.Pid.C43_gains",
    "Verif.Pid.C43_countdown",
    "Verif.Pid.C43_enable_zero_false"
   ],
   "note": "gains and countdown proved for all histories; enabling 0 steps does not disable tuning (proved)"
  },
  {
   "property": "C44",
   "status": "partial",
   "theorems": [
    "Verif.Pid.C44_actual",
    "Verif.Pid.C44_law_partial",
    "Verif.Pid.C44_default_weight_false",
    "Verif.Pid.C44_reset",
    "Verif.Pid.C44_reset_after_setup",
    "Verif.Pid.C44_backward"
   ],
   "note": "documented law proved for derivative weight c = 1; false of the code for the default c = 0 (witness): the derivative uses the unweighted previous error; the law the code computes is proved for every c"
  },
  {
   "property": "C45",
   "status": "proved",
   "theorems": [
    "Verif.Interp1.C45_inside",
    "Verif.Interp1.C45_below",
    "Verif.Interp1.C45_above",
    "Verif.Interp1.C45_knot",
    "Verif.Interp1.C45_between",
    "Verif.Interp1.C45_mono"
   ],
   "note": "exact arithmetic over any linearly ordered field"
  },
  {
   "property": "C46",
   "status": "partial",
   "theorems": [
    "Verif.Interp1.C46_next_partial",
    "Verif.Interp1.C46_next_below_false",
    "Verif.Interp1.C46_next_nan_false",
    "Verif.Interp1.C46_previous",
    "Verif.Interp1.C46_nearest",
    "Verif.Interp1.C46_config"
   ],
   "note": "any arithmetic; previous and nearest proved; next is proved from the first knot on, below the table the code returns the second ordinate and for a NaN it reads outside the table (both proved)"
  },
  {
   "property": "C47",
   "status": "partial",
   "theorems": [
    "Verif.Interp1.C47_hermite",
    "Verif.Interp1.C47_spline",
    "Verif.Interp1.C47_cSpline",
    "Verif.Interp1.C47_cubic_partial",
    "Verif.Interp1.C47_cubic_ub_false",
    "Verif.Interp1.C47_sine_partial",
    "Verif.Interp1.C47_sine_false"
   ],
   "note": "hermite, spline and cSpline proved for every knot; cubic reads ty[-1] in the first segment and sine always uses the last segment (both proved)"
  },
  {
   "property": "C48",
   "status": "partial",
   "theorems": [
    "Verif.Ltisys.C48_difference_partial",
    "Verif.Ltisys.C48_unequal_false",
    "Verif.Ltisys.C48_saturation_false"
   ],
   "note": "proved for numerator and denominator of the same length, up to the output limits; false of the code otherwise: swapped counts read outside the arrays, and the default limits clip every value below FLT_MIN (both proved)"
  },
  {
   "property": "C49",
   "status": "proved",
   "theorems": [
    "Verif.Ltisys.C49_transportDelay"
   ],
   "note": ""
  },
  {
   "property": "C50",
   "status": "proved",
   "theorems": [
    "Verif.Ltisys.C50_discrete",
    "Verif.Ltisys.C50_continuous",
    "Verif.Ltisys.C50_discrete_accept",
    "Verif.Ltisys.C50_continuous_accept"
   ],
   "note": "any arithmetic and rounding, every sequence of calls"
  },
  {
   "property": "C51",
   "status": "partial",
   "theorems": [
    "Verif.Ltisys.C51_transfer_partial",
    "Verif.Ltisys.C51_method_partial",
    "Verif.Ltisys.C51_feedthrough_false"
   ],
   "note": "the strictly proper part is realised for every order, method and input sequence (power series identity); the feed-through is missing: equal numerator and denominator answer 0 (proved)"
  },
  {
   "property": "C52",
   "status": "partial",
   "theorems": [
    "Verif.Mat.C52_algebra",
    "Verif.Mat.C52_scalar",
    "Verif.Mat.C52_assign",
    "Verif.Mat.C52_assign_scalar_partial",
    "Verif.Mat.C52_alias_false",
    "Verif.Mat.C52_build",
    "Verif.Mat.C52_step_partial",
    "Verif.Mat.C52_preDec_false"
   ],
   "note": "proved for all dimensions except: prefix -- adds one (proved for every matrix), compound assignment with an element of the matrix itself reads the changing element (witness)"
  },
  {
   "property": "C53",
   "status": "partial",
   "theorems": [
    "Verif.Mat.C53_inverse_partial",
    "Verif.Mat.C53_zero_pivot",
    "Verif.Mat.C53_swap_false"
   ],
   "note": "proved for every matrix whose leading principal minors are nonzero; a zero pivot occurs exactly at the first vanishing minor (proved), so inv() fails for nonsingular matrices such as the 2x2 permutation (witness)"
  },
  {
   "property": "C54",
   "status": "proved",
   "theorems": [
    "Verif.Numa.C54_integrate",
    "Verif.Numa.C54_derive",
    "Verif.Numa.C54_history",
    "Verif.Numa.C54_simpson"
   ],
   "note": "in exact arithmetic over any linearly ordered field; the Simpson rule of the code is shown to be short by a1*dt^2/2 per step on linear signals"
  },
  {
   "property": "C55",
   "status": "partial",
   "theorems": [
    "Verif.Fis.C55_inference",
    "Verif.Fis.C55_exact",
    "Verif.Fis.C55_single_output_false",
    "Verif.Fis.C55_null_wi_false"
   ],
   "note": "proved for every rule base whose sets exist (a rule may have several consequents only if the system has several outputs) and a non-null strength array; the two excluded cases are undefined behaviour (witnesses)"
  },
  {
   "property": "C56",
   "status": "proved",
   "theorems": [
    "Verif.Fis.C56_operators",
    "Verif.Fis.C56_shapes",
    "Verif.Fis.C56_strength",
    "Verif.Fis.C56_algebraic",
    "Verif.Fis.C56_transcendental",
    "Verif.Fis.C56_weighted"
   ],
   "note": "operators, strengths, Tri/Trap/Rect/Singleton for any arithmetic with NaN; the other algebraic shapes in exact arithmetic; transcendental shapes from bounds on exp, tanh, cos, pow"
  },
  {
   "property": "C57",
   "status": "proved",
   "theorems": [
    "Verif.Fis.C57_range"
   ],
   "note": "any arithmetic, every state from which deFuzzify returns; min <= max or min is returned"
  },
  {
   "property": "C58",
   "status": "partial",
   "theorems": [
    "Verif.Fis.C58_parameter_partial",
    "Verif.Fis.C58_implication_false",
    "Verif.Fis.C58_evalPoints_false",
    "Verif.Fis.C58_method",
    "Verif.Fis.C58_invariant"
   ],
   "note": "exact acceptance table proved; the implication also accepts MAX and PROBOR and the number of points can never be set (proved)"
  },
  {
   "property": "C59",
   "status": "partial",
   "theorems": [
    "Verif.Fis.C59_visits_partial",
    "Verif.Fis.C59_output_partial",
    "Verif.Fis.C59_item_false"
   ],
   "note": "proved for every rule base without the negated set number 123, whose item equals THEN (witness: undefined behaviour); several consequents need several outputs"
  },
  {
   "property": "C60",
   "status": "partial",
   "theorems": [
    "Verif.Fis.C60_lom_partial",
    "Verif.Fis.C60_som_false"
   ],
   "note": "lom proved for any arithmetic; som is the same function (proved and witness); rule bases as in C59"
  },
  {
   "property": "C61",
   "status": "proved",
   "theorems": [
    "Verif.Smoother.C61_gaussian"
   ],
   "note": "exact arithmetic, abstract exponential"
  },
  {
   "property": "C62",
   "status": "proved",
   "theorems": [
    "Verif.Ltisys.C62_discrete_delay",
    "Verif.Ltisys.C62_continuous_delay"
   ],
   "note": ""
  },
  {
   "property": "C63",
   "status": "partial",
   "theorems": [
    "Verif.Smoother.C63_lpf1",
    "Verif.Smoother.C63_lpf2",
    "Verif.Smoother.C63_expw",
    "Verif.Smoother.C63_klmn",
    "Verif.Smoother.C63_desf_partial",
    "Verif.Smoother.C63_desf_false"
   ],
   "note": "proved for LPF1, LPF2, EXPW and KLMN; the level recursion of DESF lacks the trend term, so it is not Holt's method (proved)"
  },
  {
   "property": "C64",
   "status": "partial",
   "theorems": [
    "Verif.Interp1.C64_linear",
    "Verif.Interp1.C64_hermite",
    "Verif.Interp1.C64_hermite_line",
    "Verif.Interp1.C64_spline",
    "Verif.Interp1.C64_cSpline",
    "Verif.Interp1.C64_cubic_false"
   ],
   "note": "proved for linear, hermite, spline and cSpline; false of the code for cubic (witness)"
  },
  {
   "property": "C65",
   "status": "proved",
   "theorems": [
    "Verif.Interp1.C65_spline"
   ],
   "note": "exact arithmetic; knots further apart than 2^-126"
  },
  {
   "property": "C66",
   "status": "partial",
   "theorems": [
    "Verif.Mat.C66_normInf_partial",
    "Verif.Mat.C66_nonsquare_false"
   ],
   "note": "proved for square matrices of every size; every non-square matrix is read out of bounds (proved)"
  },
  {
   "property": "C67",
   "status": "partial",
   "theorems": [
    "Verif.Fis.C67_mamdani_partial",
    "Verif.Fis.C67_centroid_partial",
    "Verif.Fis.C141_bisector"
   ],
   "note": "every method (the bisector in C141); rule bases as in C59, which has the witnesses for the others"
  },
  {
   "property": "C68",
   "status": "partial",
   "theorems": [
    "Verif.Fis.C68_mom_partial",
    "Verif.Fis.C68_mom_false"
   ],
   "note": "the midpoint of the first maximal plateau is proved; further plateaus are ignored (witness)"
  },
  {
   "property": "C69",
   "status": "partial",
   "theorems": [
    "Verif.Fis.C69_tri",
    "Verif.Fis.C69_trap",
    "Verif.Fis.C69_sz",
    "Verif.Fis.C69_linS",
    "Verif.Fis.C69_linZ_false",
    "Verif.Fis.C69_gauss2_false"
   ],
   "note": "proved for trimf, trapmf, smf, zmf, linsmf; linzmf rises between its parameters and gauss2mf has no right tail (both proved for all parameters)"
  },
  {
   "property": "C70",
   "status": "partial",
   "theorems": [
    "Verif.Fis.C70_linS",
    "Verif.Fis.C70_sig",
    "Verif.Fis.C70_smf_partial",
    "Verif.Fis.C70_smf_false",
    "Verif.Fis.C70_zmf_false",
    "Verif.Fis.C70_concave_false",
    "Verif.Fis.C70_linZ_false",
    "Verif.Fis.C70_strength_false"
   ],
   "note": "tlinsmf and tsigmf are inverses, tsmf up to 1/2; tlinzmf equals tlinsmf, tconcavemf is the identity, tsmf and tzmf leave the interval, and the argument is the first input instead of the strength (all proved)"
  },
  {
   "property": "C71",
   "status": "partial",
   "theorems": [
    "Verif.Fis.C71_fuzzify",
    "Verif.Fis.C71_sugeno_partial",
    "Verif.Fis.C71_mamdani_partial"
   ],
   "note": "rule bases as in C59; Mamdani with the centroid"
  },
  {
   "property": "C72",
   "status": "partial",
   "theorems": [
    "Verif.Fis.C72_access_partial",
    "Verif.Fis.C72_select_false",
    "Verif.Fis.C72_index_false",
    "Verif.Fis.C72_index_ub_false"
   ],
   "note": "proved for existing tags; with a missing tag << overwrites the previously selected input and [] reads an input, possibly outside the array (proved)"
  },
  {
   "property": "C73",
   "status": "proved",
   "theorems": [
    "Verif.Ffmath.C73_comm",
    "Verif.Ffmath.C73_between",
    "Verif.Ffmath.C73_accuracy"
   ],
   "note": "IEEE binary32 arithmetic, all finite floats"
  },
  {
   "property": "C74",
   "status": "proved",
   "theorems": [
    "Verif.Ffmath.C74_between",
    "Verif.Ffmath.C74_zero",
    "Verif.Ffmath.C74_one",
    "Verif.Ffmath.C74_extrapolate"
   ],
   "note": "IEEE binary32 arithmetic, all finite floats"
  },
  {
   "property": "C75",
   "status": "partial",
   "theorems": [
    "Verif.Ffmath.C75_defined",
    "Verif.Ffmath.C75_range_partial",
    "Verif.Ffmath.C75_int",
    "Verif.Ffmath.C75_wrapTo360_partial",
    "Verif.Ffmath.C75_wrapTo2Pi_partial",
    "Verif.Ffmath.C75_wrapTo180_partial",
    "Verif.Ffmath.C75_wrapToPi_partial",
    "Verif.Ffmath.C75_false"
   ],
   "note": "range proved for quotients up to 2^22 and operands up to 2^126, wrappers up to 1e9 degrees or 1e7 radians; beyond that the result can leave the interval (witnesses: mod(FLT_MAX, y) = -inf, wrapTo360(6100000427) = -152)"
  },
  {
   "property": "C76",
   "status": "partial",
   "theorems": [
    "Verif.Ffmath.C76_accuracy_partial",
    "Verif.Ffmath.C76_special",
    "Verif.Ffmath.C76_nan",
    "Verif.Ffmath.C76_subnormal_false",
    "Verif.Ffmath.C76_inf_false"
   ],
   "note": "accuracy proved for every normal positive float; the root of every subnormal is negative and sqrt(inf) is NaN (both proved)"
  },
  {
   "property": "C77",
   "status": "partial",
   "theorems": [
    "Verif.Ffmath.C77_recip_partial",
    "Verif.Ffmath.C77_rSqrt_partial",
    "Verif.Ffmath.C77_special",
    "Verif.Ffmath.C77_false"
   ],
   "note": "recip proved for 2^-126 <= |x| < 2^124, rSqrt for finite x >= 2^-125; outside: recip(0) finite, recip(inf) = recip(FLT_MAX) = rSqrt(inf) = -inf, rSqrt wrong on subnormals (witnesses)"
  },
  {
   "property": "C78",
   "status": "partial",
   "theorems": [
    "Verif.Ffmath.C78_cbrt_partial",
    "Verif.Ffmath.C78_rCbrt_partial",
    "Verif.Ffmath.C78_zero",
    "Verif.Ffmath.C78_false"
   ],
   "note": "accuracy proved for every positive normal float; the cube root of a negative number is wrong (witnesses)"
  },
  {
   "property": "C79",
   "status": "partial",
   "theorems": [
    "Verif.Ffmath.C79_accuracy_partial",
    "Verif.Ffmath.C79_defined",
    "Verif.Ffmath.C79_limits",
    "Verif.Ffmath.C79_int",
    "Verif.Ffmath.C79_false"
   ],
   "note": "accuracy proved for -126 < x < 127.5, exactness for integers -126 < k <= 127, definedness for every non-NaN; exp2(127.5) = inf, exp2(-126) = 0 and exp2(NaN) is undefined behaviour (witnesses)"
  },
  {
   "property": "C80",
   "status": "partial",
   "theorems": [
    "Verif.Ffmath.C80_accuracy_partial",
    "Verif.Ffmath.C80_defined",
    "Verif.Ffmath.C80_limits",
    "Verif.Ffmath.C80_zero",
    "Verif.Ffmath.C80_expm1_partial",
    "Verif.Ffmath.C80_false"
   ],
   "note": "accuracy proved for -87.3 <= x <= 88.3; exp(88.5) = inf although e^88.5 is representable, and expm1 has only absolute accuracy near zero: expm1(1e-8) = 0 (witnesses)"
  },
  {
   "property": "C81",
   "status": "partial",
   "theorems": [
    "Verif.Ffmath.C81_accuracy_partial",
    "Verif.Ffmath.C81_pow2",
    "Verif.Ffmath.C81_special",
    "Verif.Ffmath.C81_false"
   ],
   "note": "proved for every normal positive float; log2(inf) = 128, log2(NaN) is a number, subnormals are misread (witnesses)"
  },
  {
   "property": "C82",
   "status": "partial",
   "theorems": [
    "Verif.Ffmath.C82_log_partial",
    "Verif.Ffmath.C82_log10_partial",
    "Verif.Ffmath.C82_log1p_partial",
    "Verif.Ffmath.C82_special",
    "Verif.Ffmath.C82_false"
   ],
   "note": "log and log10 proved for every normal positive float, log1p with an absolute error of 7e-8 in addition; log1p(1e-8) = 0 and the logarithms of inf and NaN are numbers (witnesses)"
  },
  {
   "property": "C83",
   "status": "partial",
   "theorems": [
    "Verif.Ffmath.C83_pow_partial",
    "Verif.Ffmath.C83_pow_zero",
    "Verif.Ffmath.C83_pow_two",
    "Verif.Ffmath.C83_exp10_partial",
    "Verif.Ffmath.C83_false"
   ],
   "note": "proved for normal positive bases and results inside the range; pow(-2,2) and pow(0,0) are undefined behaviour (witnesses)"
  },
  {
   "property": "C84",
   "status": "proved",
   "theorems": [
    "Verif.Rms.C84_hull",
    "Verif.Rms.C84_closed",
    "Verif.Rms.C84_default",
    "Verif.Rms.C84_sign",
    "Verif.Rms.C84_constant",
    "Verif.Rms.C84_scale",
    "Verif.Rms.C84_setup_accepts",
    "Verif.Rms.C84_no_setup"
   ],
   "note": "exact arithmetic with the exact square root; an update without setup is undefined behaviour (proved)"
  },
  {
   "property": "C85",
   "status": "partial",
   "theorems": [
    "Verif.Rms.C85_setParams_partial",
    "Verif.Rms.C85_frozen_false"
   ],
   "note": "the accepted set is proved to be 0 < l <= 1, 0 < a <= 1; a = 1 is accepted against the documentation and freezes the output for every later signal (proved)"
  },
  {
   "property": "C86",
   "status": "partial",
   "theorems": [
    "Verif.Ffmath.C86_accuracy_partial",
    "Verif.Ffmath.C86_bound_partial",
    "Verif.Ffmath.C86_odd_partial",
    "Verif.Ffmath.C86_special",
    "Verif.Ffmath.C86_false"
   ],
   "note": "proved for every finite |x| <= 2.6e7; beyond, sin(-26400004) < -20 while sin(26400004) = 0 (witness)"
  },
  {
   "property": "C87",
   "status": "partial",
   "theorems": [
    "Verif.Ffmath.C87_accuracy_partial",
    "Verif.Ffmath.C87_bound_partial",
    "Verif.Ffmath.C87_special",
    "Verif.Ffmath.C87_circle_partial",
    "Verif.Ffmath.C87_tan_partial",
    "Verif.Ffmath.C87_even_false",
    "Verif.Ffmath.C87_tan_false"
   ],
   "note": "cos proved for every finite |x| <= 2.5e7, tan for |x| <= 100 with |cos x| >= 0.02; cos is not exactly even and tan(4.712389) is infinite while tan(-4.712389) is finite (witnesses)"
  },
  {
   "property": "C88",
   "status": "partial",
   "theorems": [
    "Verif.Ffmath.C88_iff",
    "Verif.Ffmath.C88_refl",
    "Verif.Ffmath.C88_symm",
    "Verif.Ffmath.C88_exact",
    "Verif.Ffmath.C88_special",
    "Verif.Ffmath.C88_trans_false"
   ],
   "note": "everything proved except transitivity, which is false (witness 0, FLT_MIN, 2*FLT_MIN)"
  },
  {
   "property": "C89",
   "status": "partial",
   "theorems": [
    "Verif.Ffmath.C89_asin_partial",
    "Verif.Ffmath.C89_acos_partial",
    "Verif.Ffmath.C89_odd",
    "Verif.Ffmath.C89_domain",
    "Verif.Ffmath.C89_range_false"
   ],
   "note": "accuracy, oddness and domain proved on the whole of [-1,1]; the range claim is false: asin(1) > pi/2, acos(1) < 0, acos(-1) > pi (witnesses)"
  },
  {
   "property": "C90",
   "status": "partial",
   "theorems": [
    "Verif.Ffmath.C90_atan",
    "Verif.Ffmath.C90_odd",
    "Verif.Ffmath.C90_inf_false",
    "Verif.Ffmath.C90_atan2_partial",
    "Verif.Ffmath.C90_atan2_axis_partial",
    "Verif.Ffmath.C90_atan2_false"
   ],
   "note": "atan proved for every finite number, atan2 for |x| > FLT_MIN with quotient up to 1e38 and on the vertical axis; atan(inf) is NaN, atan2(0,0) = atan2(0,FLT_MIN) = pi/2, atan2(1e30,1e-30) is NaN (witnesses)"
  },
  {
   "property": "C91",
   "status": "partial",
   "theorems": [
    "Verif.Ffmath.C91_accuracy_partial",
    "Verif.Ffmath.C91_cosh_ge_one",
    "Verif.Ffmath.C91_tanh_partial",
    "Verif.Ffmath.C91_tanh_nan",
    "Verif.Ffmath.C91_false"
   ],
   "note": "sinh and cosh proved for |x| <= 87.3, tanh for every finite x >= -44.1; tanh is NaN for every x <= -44.4 (proved), sinh(88.5) = inf although representable (witness)"
  },
  {
   "property": "C92",
   "status": "partial",
   "theorems": [
    "Verif.Ffmath.C92_asinh_partial",
    "Verif.Ffmath.C92_asinh_neg_partial",
    "Verif.Ffmath.C92_acosh_partial",
    "Verif.Ffmath.C92_acosh_domain",
    "Verif.Ffmath.C92_atanh",
    "Verif.Ffmath.C92_atanh_domain",
    "Verif.Ffmath.C92_false"
   ],
   "note": "asinh proved on [-100, 1e18], acosh on [1, 1e18], atanh on (-1, 1); asinh(-10000) = -inf, acosh(1e30), acosh(inf) and acosh(NaN) are 89.13, atanh(1) = 44.36, atanh(NaN) = 44.56 (witnesses)"
  },
  {
   "property": "C93",
   "status": "partial",
   "theorems": [
    "Verif.Ffmath.C93_defined",
    "Verif.Ffmath.C93_special",
    "Verif.Ffmath.C93_comm",
    "Verif.Ffmath.C93_accuracy_partial",
    "Verif.Ffmath.C93_false"
   ],
   "note": "definedness, symmetry and special values proved for all arguments; accuracy for normal operands whose ratio is at most 2^50; hypot(1,0) is subnormal, hypot(0,0) is not zero, hypot(1e30,1e-30) < 1 (witnesses)"
  },
  {
   "property": "C94",
   "status": "partial",
   "theorems": [
    "Verif.Ffmath.C94_frac",
    "Verif.Ffmath.C94_rem_partial",
    "Verif.Ffmath.C94_zero",
    "Verif.Ffmath.C94_div_zero",
    "Verif.Ffmath.C94_sign_false"
   ],
   "note": "frac and y = 0 proved in full, rem for nonzero integers up to 2^23; rem(0,y) is NaN for every y (proved), rem(0.9,0.1) is negative, rem(3,inf) is NaN (witnesses)"
  },
  {
   "property": "C95",
   "status": "partial",
   "theorems": [
    "Verif.Ffmath.C95_saturated",
    "Verif.Ffmath.C95_range",
    "Verif.Ffmath.C95_erf_negative",
    "Verif.Ffmath.C95_false"
   ],
   "note": "the range of both and the upper limit are proved for all x; the rest is false: erf is in [-1,-1/2] for every x < 6.912 (proved), erf(0) = -0.75, erf(NaN) is undefined behaviour (witnesses)"
  },
  {
   "property": "C96",
   "status": "partial",
   "theorems": [
    "Verif.Ffmath.C96_range",
    "Verif.Ffmath.C96_ends",
    "Verif.Ffmath.C96_mono",
    "Verif.Ffmath.C96_accuracy",
    "Verif.Ffmath.C96_map_min",
    "Verif.Ffmath.C96_map_mono",
    "Verif.Ffmath.C96_map_partial",
    "Verif.Ffmath.C96_map_false"
   ],
   "note": "normalize proved in full, of map the lower end, monotonicity and accuracy; the upper end of map is missed: map(1,0,1,1e10,1) = 0 (witness)"
  },
  {
   "property": "C97",
   "status": "partial",
   "theorems": [
    "Verif.Ffmath.C97_int",
    "Verif.Ffmath.C97_decision_partial",
    "Verif.Ffmath.C97_center",
    "Verif.Ffmath.C97_false"
   ],
   "note": "exact on integers; for floats decided correctly outside a relative band of 4e-7 for radii in [1e-18,4e18]; where the squares overflow or underflow far points are inside (witnesses)"
  },
  {
   "property": "C98",
   "status": "partial",
   "theorems": [
    "Verif.Ffmath.C98_defined",
    "Verif.Ffmath.C98_box",
    "Verif.Ffmath.C98_nan",
    "Verif.Ffmath.C98_empty",
    "Verif.Ffmath.C98_rectilinear",
    "Verif.Ffmath.C98_false"
   ],
   "note": "memory safety, bounding box and NaN proved for any number of vertices; membership is false of the code: every rectilinear polygon is reported not to contain any point with y >= 0 (proved for all), a point outside a triangle is reported inside (witness); p = 0 is undefined behaviour (proved)"
  },
  {
   "property": "C99",
   "status": "proved",
   "theorems": [
    "Verif.Ffmath.C99_value",
    "Verif.Ffmath.C99_special",
    "Verif.Ffmath.C99_step"
   ],
   "note": "for all bit patterns; the documentation's 'NaN for non-positive x' is read as 'for negative x', factorial(0) = 1"
  },
  {
   "property": "C100",
   "status": "partial",
   "theorems": [
    "Verif.Ffmath.C100_defined",
    "Verif.Ffmath.C100_special",
    "Verif.Ffmath.C100_recurrence",
    "Verif.Ffmath.C100_recurrence_below",
    "Verif.Ffmath.C100_integer",
    "Verif.Ffmath.C100_negint",
    "Verif.Ffmath.C100_false"
   ],
   "note": "definedness and special values for all arguments, the functional equation bit for bit, the integers; negative integers give NaN instead of infinity (proved for all), tgamma(35) overflows too early, tiny negative arguments give NaN (witnesses); no accuracy bound between the integers"
  },
  {
   "property": "C101",
   "status": "partial",
   "theorems": [
    "Verif.Ffmath.C101_special",
    "Verif.Ffmath.C101_false_large",
    "Verif.Ffmath.C101_false_neg"
   ],
   "note": "special values proved; finiteness is false: infinite for every x > 171.624 (proved for all)"
  },
  {
   "property": "C102",
   "status": "partial",
   "theorems": [
    "Verif.Ffmath.C102_symm",
    "Verif.Ffmath.C102_nan",
    "Verif.Ffmath.C102_false",
    "Verif.Ffmath.C102_sign_false"
   ],
   "note": "symmetry and NaN proved for all arguments; undefined behaviour for every x > 171.624 with y >= 0 (proved for all), the sign is lost for negative arguments (witness)"
  },
  {
   "property": "C103",
   "status": "proved",
   "theorems": [
    "Verif.Ffmath.C103_legendre",
    "Verif.Ffmath.C103_assoc",
    "Verif.Ffmath.C103_ends"
   ],
   "note": "reference: Polynomial.shiftedLegendre of Mathlib; exact arithmetic for all n and x, the special values in binary32"
  },
  {
   "property": "C104",
   "status": "proved",
   "theorems": [
    "Verif.Ffmath.C104_hermite",
    "Verif.Ffmath.C104_int"
   ],
   "note": "reference: Polynomial.hermite of Mathlib, rescaled; exact arithmetic for all n and x, and exactness in binary32 at integers in range"
  },
  {
   "property": "C105",
   "status": "partial",
   "theorems": [
    "Verif.Ffmath.C105_assoc_partial",
    "Verif.Ffmath.C105_false"
   ],
   "note": "proved for m = 0 and for n <= m + 1; false for every m >= 1, n = m + 2 and 0 < |x| < 1 (proved for all): the division in the recurrence covers only one summand"
  },
  {
   "property": "C106",
   "status": "partial",
   "theorems": [
    "Verif.Ffmath.C106_assoc_partial",
    "Verif.Ffmath.C106_negative",
    "Verif.Ffmath.C106_false_zero",
    "Verif.Ffmath.C106_false_sign",
    "Verif.Ffmath.C106_false_large",
    "Verif.Ffmath.C106_false_overflow"
   ],
   "note": "proved for n <= 1, for m = 0 at x = 0 and for x >= 2(m+1)+4n; at x = 0 wrong for every n >= 2, m >= 1 (proved for all), in between wrong sign (witnesses) and never finite for n + m >= 171 (proved for all)"
  },
  {
   "property": "C107",
   "status": "partial",
   "theorems": [
    "Verif.Ffmath.C107_accuracy_partial",
    "Verif.Ffmath.C107_defined",
    "Verif.Ffmath.C107_special",
    "Verif.Ffmath.C107_false_sign",
    "Verif.Ffmath.C107_false_large",
    "Verif.Ffmath.C107_false_inf"
   ],
   "note": "reference: the convergent series of Ei; accurate for 2^-20 <= x < 36.044; defined for every bit pattern; false: positive for every x in (-1, -2^-126] (proved for all), one percent too small for every x in [36.044, 88] (proved for all), NaN at infinity; nothing proved for x <= -1, for |x| below the bounds and for x > 88"
  },
  {
   "property": "C108",
   "status": "proved",
   "theorems": [
    "Verif.Ffmath.C108_comp_ellint_1"
   ],
   "note": "reference: the integral of Mathlib over [0, pi/2]; for all floats |k| < 1"
  },
  {
   "property": "C109",
   "status": "proved",
   "theorems": [
    "Verif.Ffmath.C109_even",
    "Verif.Ffmath.C109_even_incomplete",
    "Verif.Ffmath.C109_domain",
    "Verif.Ffmath.C109_nan",
    "Verif.Ffmath.C109_defined"
   ],
   "note": "for all bit patterns"
  },
  {
   "property": "C110",
   "status": "partial",
   "theorems": [
    "Verif.Ffmath.C110_special_partial",
    "Verif.Ffmath.C110_false_one",
    "Verif.Ffmath.C110_false_third",
    "Verif.Ffmath.C110_false_rc"
   ],
   "note": "proved: infinity for nu = 1 and every |k| <= 1, comp_ellint_2 is 1 at the ends; false: NaN at |k| = 1 for the first and third kind, and the third kind is off by more than 1e-3 at k = 0, nu = 3/4, where the integral is pi (witnesses); the accuracy of comp_ellint_2 is the subject of C167"
  },
  {
   "property": "C111",
   "status": "proved",
   "theorems": [
    "Verif.Ffmath.C111_riemann_zeta_large",
    "Verif.Ffmath.C111_special"
   ],
   "note": "reference: riemannZeta of Mathlib; for all finite floats s >= 20 and all special values"
  },
  {
   "property": "C112",
   "status": "partial",
   "theorems": [
    "Verif.Ffmath.C112_false_negative",
    "Verif.Ffmath.C112_false_witness"
   ],
   "note": "false: for every finite s <= -35 no finite result is returned (proved for all), while the zeta function at -35 is below 1e13; between -35 and 20 nothing is proved"
  },
  {
   "property": "C113",
   "status": "partial",
   "theorems": [
    "Verif.Ffmath.C113_order_zero_partial",
    "Verif.Ffmath.C113_false_large",
    "Verif.Ffmath.C113_false_overflow"
   ],
   "note": "reference: the power series as an infinite sum; within 6e-6 for every 0 <= x <= 3.16 except the floats strictly between 2^-126 and 2^-125; beyond: cyl_bessel_i(0,5) is 3 percent too large and cyl_bessel_i(0,88) is infinite though I0(88) is representable (witnesses)"
  },
  {
   "property": "C114",
   "status": "proved",
   "theorems": [
    "Verif.Ffmath.C114_domain",
    "Verif.Ffmath.C114_at_zero",
    "Verif.Ffmath.C114_sph_at_zero"
   ],
   "note": "for all bit patterns and all orders"
  },
  {
   "property": "C115",
   "status": "partial",
   "theorems": [
    "Verif.Ffmath.C115_false_undefined",
    "Verif.Ffmath.C115_false_accuracy"
   ],
   "note": "false: undefined behaviour for every order below 128 and every x >= 2147484416, infinity included (proved for all); at x = 1, n = 0 the errors are above 1.4e-3 and 3e-3 (witnesses)"
  },
  {
   "property": "C116",
   "status": "proved",
   "theorems": [
    "Verif.Ffmath.C116_sph_legendre",
    "Verif.Ffmath.C116_special"
   ],
   "note": "reference: derivatives of Mathlib's Legendre polynomial; exact real arithmetic for all l, m and angles; NaN and m > l in binary32"
  },
  {
   "property": "C117",
   "status": "partial",
   "theorems": [
    "Verif.Ffmath.C117_defined_partial",
    "Verif.Ffmath.C117_false"
   ],
   "note": "proved for every l, every m <= 170 and every angle up to 2.5e7 in magnitude; at theta = -26400006 the cosine is -20 and the result undefined (witness)"
  },
  {
   "property": "C118",
   "status": "proved",
   "theorems": [
    "Verif.Fp16.C118_all",
    "Verif.Fp16.C118_turn"
   ],
   "note": "reference: Real.sin; for all raw values"
  },
  {
   "property": "C119",
   "status": "partial",
   "theorems": [
    "Verif.Fp16.C119_odd_partial",
    "Verif.Fp16.C119_false_odd",
    "Verif.Fp16.C119_false_range"
   ],
   "note": "odd for |x| <= 2.573; false beyond (the eleventh power overflows and the sentinel is used) and for the range (sin(103000) = 65537 > one), witnesses"
  },
  {
   "property": "C120",
   "status": "partial",
   "theorems": [
    "Verif.Fp16.C120_cos_partial",
    "Verif.Fp16.C120_core_partial",
    "Verif.Fp16.C120_false_ub",
    "Verif.Fp16.C120_false_even"
   ],
   "note": "accurate for x <= 2^31-1-102944; undefined for every larger x (proved for all); not even (witness)"
  },
  {
   "property": "C121",
   "status": "proved",
   "theorems": [
    "Verif.Fp16.C121_tan"
   ],
   "note": "reference: Real.tan"
  },
  {
   "property": "C122",
   "status": "proved",
   "theorems": [
    "Verif.Fp16.C122_monotone"
   ],
   "note": "for all pairs of raw values"
  },
  {
   "property": "C123",
   "status": "proved",
   "theorems": [
    "Verif.Fp16.C123_positive",
    "Verif.Fp16.C123_negative",
    "Verif.Fp16.C123_saturates"
   ],
   "note": "reference: Real.exp; for all raw values"
  },
  {
   "property": "C124",
   "status": "partial",
   "theorems": [
    "Verif.Fp16.C124_cosh_even",
    "Verif.Fp16.C124_cosh",
    "Verif.Fp16.C124_sinh_partial",
    "Verif.Fp16.C124_false_zero",
    "Verif.Fp16.C124_false_odd"
   ],
   "note": "cosh: everything; sinh: accurate and defined for x != 0; false: sinh(0) = 1, and sinh is not exactly odd (witnesses)"
  },
  {
   "property": "C125",
   "status": "proved",
   "theorems": [
    "Verif.Fp16.C125_tanh_shape",
    "Verif.Fp16.C125_tanh"
   ],
   "note": "for all raw values and all pairs"
  },
  {
   "property": "C126",
   "status": "proved",
   "theorems": [
    "Verif.Fp16.C126_atan2",
    "Verif.Fp16.C126_false_origin",
    "Verif.Fp16.C126_false_ub"
   ],
   "note": "reference: polar coordinates over the reals; for all points of the statement; beyond it the sum |x| + |y| overflows (witness) and the origin gives a number that is no angle (witness)"
  },
  {
   "property": "C127",
   "status": "partial",
   "theorems": [
    "Verif.Fp16.C127_atan_partial",
    "Verif.Fp16.C127_false"
   ],
   "note": "proved for |x| <= 2147418096; undefined (overflow) at both ends of the range (witnesses)"
  },
  {
   "property": "C128",
   "status": "partial",
   "theorems": [
    "Verif.Fp16.C128_asin_partial",
    "Verif.Fp16.C128_outside",
    "Verif.Fp16.C128_false"
   ],
   "note": "proved strictly inside and outside the domain; false at the two end points: asin(1) = -0.00002 (witness)"
  },
  {
   "property": "C129",
   "status": "proved",
   "theorems": [
    "Verif.Fp16.C129_log",
    "Verif.Fp16.C129_nonpositive"
   ],
   "note": "reference: Real.log; for all raw values"
  },
  {
   "property": "C130",
   "status": "partial",
   "theorems": [
    "Verif.Fp16.C130_log2_partial",
    "Verif.Fp16.C130_powers",
    "Verif.Fp16.C130_nonpositive",
    "Verif.Fp16.C130_false"
   ],
   "note": "reference: Real.logb 2; for all raw values but the value 2, where 0 is returned instead of -15 (witness)"
  },
  {
   "property": "C131",
   "status": "partial",
   "theorems": [
    "Verif.Fp16.C131_exact",
    "Verif.Fp16.C131_overflow",
    "Verif.Fp16.C131_unit",
    "Verif.Fp16.C131_false_ub"
   ],
   "note": "exactness for all integers; overflow value for positive bases; for the base -2 and exponent 15 the behaviour is undefined (witness)"
  },
  {
   "property": "C132",
   "status": "partial",
   "theorems": [
    "Verif.Fp16.C132_real_partial",
    "Verif.Fp16.C132_false_sign",
    "Verif.Fp16.C132_false_ub"
   ],
   "note": "accuracy for positive bases in the stated range; the sign is wrong for negative bases (witnesses)"
  },
  {
   "property": "C133",
   "status": "proved",
   "theorems": [
    "Verif.Fp16.C133_degToRad",
    "Verif.Fp16.C133_radToDeg"
   ],
   "note": "for all raw values"
  },
  {
   "property": "C134",
   "status": "proved",
   "theorems": [
    "Verif.Smoother.C134_hull",
    "Verif.Smoother.C134_const",
    "Verif.Smoother.C134_bound_needed"
   ],
   "note": "IEEE binary32 arithmetic, any call sequence; the bound 1.7e38 is needed (the difference of two samples overflows, witness)"
  },
  {
   "property": "C135",
   "status": "proved",
   "theorems": [
    "Verif.Smoother.C135_expw",
    "Verif.Smoother.C135_exact_false"
   ],
   "note": "IEEE binary32 arithmetic; the tolerance is needed: the exact hull is left (witness)"
  },
  {
   "property": "C136",
   "status": "partial",
   "theorems": [
    "Verif.Smoother.C136_mwm2_partial",
    "Verif.Smoother.C136_drift_partial",
    "Verif.Smoother.C136_false"
   ],
   "note": "for arbitrary samples of magnitude at most B the error after N calls is at most (N+2) B/2^22 (C136_drift_partial); exact when all samples are multiples of one power of two and n times the largest is at most 2^24 steps; false in general: one outlier 1e9 in a signal 0.1 makes every later output 0 (proved for all later times)"
  },
  {
   "property": "C137",
   "status": "proved",
   "theorems": [
    "Verif.Smoother.C137_klmn",
    "Verif.Smoother.C137_proportion_needed"
   ],
   "note": "IEEE binary32 arithmetic, any call sequence; the proportion of the covariances is needed (witness)"
  },
  {
   "property": "C138",
   "status": "proved",
   "theorems": [
    "Verif.Interp1.C138_inside",
    "Verif.Interp1.C138_outside",
    "Verif.Interp1.C138_exact_false"
   ],
   "note": "IEEE binary32 arithmetic; the tolerance is needed: at a knot the result differs from the ordinate and leaves the range of the table (witness)"
  },
  {
   "property": "C139",
   "status": "proved",
   "theorems": [
    "Verif.Mat.C139_product",
    "Verif.Mat.C139_integers",
    "Verif.Mat.C139_integers_bound"
   ],
   "note": "IEEE binary32 arithmetic; the bound 2^24 is needed (4097 * 4097, witness)"
  },
  {
   "property": "C140",
   "status": "proved",
   "theorems": [
    "Verif.Ltisys.C140_fir",
    "Verif.Ltisys.C140_integers"
   ],
   "note": "IEEE binary32 arithmetic, input sequences of any length, with and without coefficients"
  },
  {
   "property": "C141",
   "status": "proved",
   "theorems": [
    "Verif.Fis.C141_bisector",
    "Verif.Fis.C141_halves"
   ],
   "note": "rule bases that can be aggregated as in C59; the consequents must be defined at every abscissa"
  },
  {
   "property": "C142",
   "status": "partial",
   "theorems": [
    "Verif.Pid.C142_bounded_partial",
    "Verif.Pid.C142_backward_locked",
    "Verif.Pid.C142_backward_false",
    "Verif.Pid.C142_nan",
    "Verif.Pid.C142_pid_false"
   ],
   "note": "False of the code as stated. Proved in exact arithmetic for all inputs and times when Ki >= 0, Ki kw dt <= 1 and |Kd| kw/dt + Ki kw dt/2 < 1/2 (C142_bounded_partial). Otherwise the anti-windup signal feeds back through the derivative, which shares the state of the integrator: C142_pid_false, a PID with usual gains answers NaN for ever in binary32. In backward direction the feedback has the wrong sign: C142_backward_locked, C142_backward_false."
  },
  {
   "property": "C143",
   "status": "proved",
   "theorems": [
    "Verif.Pid.C143_bounded",
    "Verif.Pid.C143_converges"
   ],
   "note": "exact arithmetic; the tuner as bindAutoTuning leaves it (Start)"
  },
  {
   "property": "C144",
   "status": "partial",
   "theorems": [
    "Verif.Pid.C144_partial",
    "Verif.Pid.C144_dead",
    "Verif.Pid.C144_idle_false"
   ],
   "note": "False of the code: with the default memory factor the covariance overflows after some 8000 idle samples in binary32 and the estimates become NaN; tuning can then be enabled but never completes and the gains never change, whatever the later signals (C144_idle_false, C144_dead). Proved only for the memory factor 1 (C144_partial)."
  },
  {
   "property": "C145",
   "status": "partial",
   "theorems": [
    "Verif.Pid.C145_to_manual_partial",
    "Verif.Pid.C145_to_automatic_partial",
    "Verif.Pid.C145_error_false",
    "Verif.Pid.C145_backward_false",
    "Verif.Pid.C145_pid_false"
   ],
   "note": "False of the code. Proved (exact arithmetic): to manual mode with zero manual input for 0 < kw dt < 2; to automatic mode without derivative action for 0 < Ki kw dt < 2, where the bump tends to e/kw with e the error (zero at the set-point). Witnesses in binary32: a bump of the size of the error; jumps to a limit in backward direction and with derivative action."
  },
  {
   "property": "C146",
   "status": "partial",
   "theorems": [
    "Verif.Pid.C146_partial",
    "Verif.Pid.C146_false"
   ],
   "note": "False of the code: the manual input is integrated. C146_partial gives the true relation; C146_false: the output cannot rest strictly between the limits unless the manual input is zero."
  },
  {
   "property": "C147",
   "status": "proved",
   "theorems": [
    "Verif.Ltisys.C147_iir"
   ],
   "note": "stability enters as a bound G on the partial sums of the magnitudes of the impulse response; the bound B on the internal values must leave room for the rounding (G (M + eta) <= B)"
  },
  {
   "property": "C148",
   "status": "partial",
   "theorems": [
    "Verif.Pid.C148_partial",
    "Verif.Pid.C148_false"
   ],
   "note": "Proved in exact arithmetic for errors of positive sign. False of the code in binary32: with Ki = 1, dt = 1e-4 and the integral at 64 an error of 0.03 is never integrated and the output stays at 64 for ever, far from the limit 100 (C148_false)."
  },
  {
   "property": "C149",
   "status": "partial",
   "theorems": [
    "Verif.Rms.C149_partial",
    "Verif.Rms.C149_false"
   ],
   "note": "Proved with a drift (k+3) A/4000000 at the k-th call, for runs of up to two million calls and magnitudes between 1e-15 and 1e18. False of the code without the drift: one spike of 1e7 followed by silence leaves a negative RMS value -0.159 for ever (C149_false, parameters 0.1, 0.1, window of two)."
  },
  {
   "property": "C150",
   "status": "partial",
   "theorems": [
    "Verif.Ltisys.C150_continuous_partial",
    "Verif.Ltisys.C150_discrete_partial",
    "Verif.Ltisys.C150_lag",
    "Verif.Ltisys.C150_false"
   ],
   "note": "Proved over the reals without input delay; discrete systems with numerator and denominator of the same length. Continuous systems settle at the static gain less the feed-through b0; false of the code with feed-through: (s + 2) / (s + 1) settles at 1 instead of 2 (C150_false)."
  },
  {
   "property": "C151",
   "status": "partial",
   "theorems": [
    "Verif.Ffmath.C151_below",
    "Verif.Ffmath.C151_large",
    "Verif.Ffmath.C151_false"
   ],
   "note": "Proved against Mathlib's real gamma function for all normal numbers below 12 (relative error 1.5e-6) and from 12 to 34 (relative error 1e-6 x log x, below 1.2e-4). False of the code for subnormal arguments: tgamma(2^-127) is infinite (C151_false), and tgamma(35) is infinite (C100_false). Between 34 and 35 only the special values are covered."
  },
  {
   "property": "C152",
   "status": "partial",
   "theorems": [
    "Verif.Ffmath.C152_lgamma",
    "Verif.Ffmath.C152_false"
   ],
   "note": "Proved against Mathlib's real gamma function for all normal positive numbers up to 171.624, with relative error 5e-6. False of the code for subnormal arguments: at 2^-149 the result is below 89 instead of above 103 (C152_false)."
  },
  {
   "property": "C153",
   "status": "partial",
   "theorems": [
    "Verif.Ffmath.C153_beta"
   ],
   "note": "Proved against Mathlib's real gamma function for normal arguments with x + y <= 171 and a beta function between 1e-37 and 1e38. Missing: subnormal arguments (false like C152) and larger sums (undefined behaviour for some arguments, C102_false)."
  },
  {
   "property": "C154",
   "status": "proved",
   "theorems": [
    "Verif.Fis.C154_tri",
    "Verif.Fis.C154_trap",
    "Verif.Fis.C154_linS",
    "Verif.Fis.C154_linZ",
    "Verif.Fis.C154_sz",
    "Verif.Fis.C154_pi",
    "Verif.Fis.C154_gauss",
    "Verif.Fis.C154_spike",
    "Verif.Fis.C154_sig",
    "Verif.Fis.C154_dsig_psig"
   ],
   "note": "Proved in binary32 against the exact real membership functions. Piecewise shapes: magnitudes up to 1e18, flanks at least 1e-18 wide; S, Z and pi curves with feet at most a thousand widths from zero; exponential shapes: magnitudes up to 1e9, widths at least 1e-9. LinZMF is stated as the code has it (it rises between its feet, see the defect recorded for the falling ramp)."
  },
  {
   "property": "C155",
   "status": "proved",
   "theorems": [
    "Verif.Smoother.C155_lpf1",
    "Verif.Smoother.C155_lpf2",
    "Verif.Smoother.C155_expw",
    "Verif.Smoother.C155_klmn",
    "Verif.Smoother.C155_desf"
   ],
   "note": "exact arithmetic over the reals; the square root of LPF2 is any function positive on positive numbers"
  },
  {
   "property": "C156",
   "status": "proved",
   "theorems": [
    "Verif.Smoother.C156_gain"
   ],
   "note": "exact arithmetic over the reals"
  },
  {
   "property": "C157",
   "status": "partial",
   "theorems": [
    "Verif.Smoother.C157_ramp_partial",
    "Verif.Smoother.C157_false"
   ],
   "note": "False of the code: the level recursion lacks the trend term, the outputs approach the signal displaced by n - (1 - a)/a steps (proved for all parameters); with a = 1/4 a one-step forecast is two steps behind (C157_false)."
  },
  {
   "property": "C158",
   "status": "partial",
   "theorems": [
    "Verif.Smoother.C158_lms_partial",
    "Verif.Smoother.C158_false"
   ],
   "note": "Proved for objects without momentum buffer. With a momentum buffer of the documented size the first call is undefined behaviour (C158_false)."
  },
  {
   "property": "C159",
   "status": "partial",
   "theorems": [
    "Verif.Smoother.C159_settles_partial",
    "Verif.Smoother.C159_false"
   ],
   "note": "Proved for constants with n a c^2 < 2. False of the code in general: with two taps and learning rate 1/2 the outputs for 0, 2, 2, 2, ... are unbounded (C159_false); the step is not normalised."
  },
  {
   "property": "C160",
   "status": "proved",
   "theorems": [
    "Verif.Fis.C160_centroid",
    "Verif.Fis.C160_average",
    "Verif.Fis.C160_sum"
   ],
   "note": "true binary32 arithmetic with round to nearest even; total membership at least 1e-20"
  },
  {
   "property": "C161",
   "status": "partial",
   "theorems": [
    "Verif.Smoother.C161_gmwf_partial",
    "Verif.Smoother.C161_false"
   ],
   "note": "Proved for centres inside of the window and widths from 1/2 to 1e6. False of the code in general: setup accepts widths and centres for which all weights underflow, and every output is a NaN (C161_false)."
  },
  {
   "property": "C162",
   "status": "proved",
   "theorems": [
    "Verif.Smoother.C162_lpf1",
    "Verif.Smoother.C162_desf"
   ],
   "note": "true binary32 arithmetic against the model in exact real arithmetic; samples between 1e-30 and 1e29 in magnitude scale"
  },
  {
   "property": "C163",
   "status": "partial",
   "theorems": [
    "Verif.Numa.C163_integral",
    "Verif.Numa.C163_derivative",
    "Verif.Numa.C163_second_partial",
    "Verif.Numa.C163_simpson_false"
   ],
   "note": "First order proved for all methods and signals; second order proved for the trapezoidal and quadratic method and false of the method called Simpson, whose error for the signal t is 1/(2n) (C163_simpson_false)."
  },
  {
   "property": "C164",
   "status": "partial",
   "theorems": [
    "Verif.Fis.C164_config_partial",
    "Verif.Fis.C164_tags_false",
    "Verif.Fis.C164_shapes",
    "Verif.Fis.C164_getOutput",
    "Verif.Fis.C164_badShape",
    "Verif.Fis.C164_region",
    "Verif.Fis.C164_grid"
   ],
   "note": "Proved for tags that exist or are negative; a tag past the end is not refused but writes outside the array (C164_tags_false)."
  },
  {
   "property": "C165",
   "status": "partial",
   "theorems": [
    "Verif.Ltisys.C165_continuous_partial",
    "Verif.Ltisys.C51_feedthrough_false"
   ],
   "note": "Proved for strictly proper systems; the code leaves the feed-through num_0 / den_0 out of the output (C51_feedthrough_false), so the claim is false of systems with feed-through."
  },
  {
   "property": "C166",
   "status": "partial",
   "theorems": [
    "Verif.Numa.C166_integral_partial",
    "Verif.Numa.C166_derivative",
    "Verif.Numa.C166_stall_false"
   ],
   "note": "Accuracy proved for up to a million steps; without a bound on the number of steps it is false: an integrator fed ones stays at 16777216 forever (C166_stall_false)."
  },
  {
   "property": "C167",
   "status": "proved",
   "theorems": [
    "Verif.Ffmath.C167_comp_ellint_2",
    "Verif.Ffmath.ellintRd_accuracy",
    "Verif.Ffmath.e_legendre"
   ],
   "note": "Reference: the Legendre integral over the reals. Error at most 1.6e-4 times the integral of the first kind; at the ends (|k| = 1) the value is exactly 1 (C110)."
  },
  {
   "property": "C168",
   "status": "partial",
   "theorems": [
    "Verif.Fis.C168_cosine",
    "Verif.Fis.C168_gbell",
    "Verif.Fis.C168_gbell_peak",
    "Verif.Fis.C168_gauss2",
    "Verif.Fis.C168_concave_partial",
    "Verif.Fis.C168_concave_false"
   ],
   "note": "Concave sets: the accuracy is proved, but the bound by one is false (1 + 2^-23 for a concrete triple). Cosine: centre at most ten thousand widths. Bell: |b| <= 1000 and the power between 2^-120 and 2^120, or the input at the centre."
  },
  {
   "property": "C169",
   "status": "partial",
   "theorems": [
    "Verif.Interp1.C169_sine_partial",
    "Verif.Interp1.C169_sine_false"
   ],
   "note": "Proved below the table, above the table and for arguments in the last segment; inside the table the code always evaluates the last segment, so the claim is false for the others (witness)."
  },
  {
   "property": "C170",
   "status": "proved",
   "theorems": [
    "Verif.Interp1.C170_spline",
    "Verif.Interp1.C170_spline_last"
   ],
   "note": "Arguments inside the table, including the tolerance band of isEqual before a knot; the reference cubic is stated over the reals."
  },
  {
   "property": "C171",
   "status": "partial",
   "theorems": [
    "Verif.Ltisys.C171_refused",
    "Verif.Ltisys.C171_setup_discrete",
    "Verif.Ltisys.C171_setup_continuous",
    "Verif.Ltisys.C171_states_discrete",
    "Verif.Ltisys.C171_states_continuous_partial",
    "Verif.Ltisys.C171_states_continuous_false",
    "Verif.Ltisys.C171_limits"
   ],
   "note": "All parts hold except the initial states of continuous systems: every state gets the first value (witness)."
  },
  {
   "property": "C172",
   "status": "partial",
   "theorems": [
    "Verif.Ltisys.C172_delays_exact",
    "Verif.Ltisys.C172_delays_partial",
    "Verif.Ltisys.C172_half_false",
    "Verif.Ltisys.C172_large_false",
    "Verif.Ltisys.C172_zero_false"
   ],
   "note": "Exact within a quarter of a step of k steps, k <= 10^6; error bound up to 2^23 steps. Rounding of the sum breaks the claim just below half a step and above 2^23 steps (witnesses)."
  },
  {
   "property": "C173",
   "status": "proved",
   "theorems": [
    "Verif.Pid.C173_effect",
    "Verif.Pid.C173_independent"
   ],
   "note": "Any arithmetic, hence binary32 too."
  },
  {
   "property": "C174",
   "status": "partial",
   "theorems": [
    "Verif.Pid.C174_params",
    "Verif.Pid.C174_series",
    "Verif.Pid.C174_series_false",
    "Verif.Pid.C174_filter",
    "Verif.Pid.C174_no_filter",
    "Verif.Pid.C174_filter_real",
    "Verif.Pid.C174_filter_false"
   ],
   "note": "Transfer functions in exact arithmetic; the filter coefficient also in binary32. setSeries leaves NaN for a pure integral controller, and a long time constant gives the coefficient 1 (witnesses)."
  },
  {
   "property": "C175",
   "status": "proved",
   "theorems": [
    "Verif.Pid.C175_gains",
    "Verif.Pid.C175_initial",
    "Verif.Pid.C175_complete"
   ],
   "note": "Exact arithmetic, as stated."
  },
  {
   "property": "C176",
   "status": "proved",
   "theorems": [
    "Verif.Pid.C176_frozen",
    "Verif.Pid.C176_rate"
   ],
   "note": "Exact arithmetic, as stated."
  },
  {
   "property": "C177",
   "status": "proved",
   "theorems": [
    "Verif.Pid.C177_control"
   ],
   "note": "Default integration (trapezoidal) and derivation (two points) methods."
  },
  {
   "property": "C178",
   "status": "partial",
   "theorems": [
    "Verif.Smoother.C178_follows_partial",
    "Verif.Smoother.C178_settles_partial",
    "Verif.Smoother.C178_follows_fast_partial",
    "Verif.Smoother.C178_settles_fast_partial",
    "Verif.Smoother.C178_deaf_false"
   ],
   "note": "Proved for every accepted factor from 0.01 on and M from 1e-20 to 1e30 (up to 0.45 as stated; above with 7e-6 M, 2e-5 M for a constant, and without the bound 1.03 M). For a = 1e-5, which setup accepts, the filter started at 1 and fed zeros stays at 1 for ever (witness)."
  },
  {
   "property": "C179",
   "status": "partial",
   "theorems": [
    "Verif.Smoother.C179_settles_partial",
    "Verif.Smoother.C179_deaf_false"
   ],
   "note": "Proved for coefficients up to 1 - 1e-4 and M from 1e-30 to 1e30. With a = 1 - 2^-24, which setup accepts, a filter fed 0.75 and then ones stays at 0.75 for ever (witness)."
  }
 ]
}