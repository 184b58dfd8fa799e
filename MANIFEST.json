{
 "claims": [
  {
   "property": "C01",
   "status": "proved",
   "theorems": [
    "Eirin.Props.C01_add_exact_or_ub",
    "Eirin.Props.C01_sub_exact_or_ub",
    "Eirin.Props.C01_modular"
   ],
   "note": ""
  },
  {
   "property": "C02",
   "status": "proved",
   "theorems": [
    "Eirin.Props.C02_mul_floor",
    "Eirin.Props.C02_mul_error"
   ],
   "note": ""
  },
  {
   "property": "C03",
   "status": "proved",
   "theorems": [
    "Eirin.Props.C03_div_trunc",
    "Eirin.Props.C03_div_ub_iff"
   ],
   "note": ""
  },
  {
   "property": "C04",
   "status": "proved",
   "theorems": [
    "Eirin.Props.C04_divide",
    "Eirin.Props.C04_divideInt",
    "Eirin.Props.C04_divideBy",
    "Eirin.Props.C04_divideByInt"
   ],
   "note": ""
  },
  {
   "property": "C05",
   "status": "partial",
   "theorems": [
    "Eirin.Props.C05_mul_false",
    "Eirin.Props.C05_div_false",
    "Eirin.Props.C05_mul_partial",
    "Eirin.Props.C05_div_partial"
   ],
   "note": "False of the code: rounding products/quotients come out exactly doubled; refuted with a witness, and the exact doubled value is proved for every valid rounding type."
  },
  {
   "property": "C06",
   "status": "proved",
   "theorems": [
    "Eirin.Props.C06_add_comm",
    "Eirin.Props.C06_mul_comm",
    "Eirin.Props.C06_add_assoc",
    "Eirin.Props.C06_add_zero",
    "Eirin.Props.C06_mul_one",
    "Eirin.Props.C06_mul_zero",
    "Eirin.Props.C06_sub_self",
    "Eirin.Props.C06_add_sub_cancel",
    "Eirin.Props.C06_mul_mono"
   ],
   "note": ""
  },
  {
   "property": "C07",
   "status": "proved",
   "theorems": [
    "Eirin.Props.C07_compound",
    "Eirin.Props.C07_incdec",
    "Eirin.Props.C07_inc_wrong_without_one"
   ],
   "note": ""
  },
  {
   "property": "C08",
   "status": "proved",
   "theorems": [
    "Eirin.Props.C08_neg"
   ],
   "note": ""
  },
  {
   "property": "C09",
   "status": "proved",
   "theorems": [
    "Eirin.Props.C09_rem_ub_iff",
    "Eirin.Props.C09_rem"
   ],
   "note": ""
  },
  {
   "property": "C10",
   "status": "proved",
   "theorems": [
    "Eirin.Props.C10_add_sub",
    "Eirin.Props.C10_mul",
    "Eirin.Props.C10_div",
    "Eirin.Props.C10_int_over_fixed"
   ],
   "note": ""
  },
  {
   "property": "C11",
   "status": "partial",
   "theorems": [
    "Eirin.Props.C11_false",
    "Eirin.Props.C11_partial"
   ],
   "note": "False of the code: a negative dividend over an unsigned int is converted to unsigned; refuted, and proved for non-negative dividends."
  },
  {
   "property": "C12",
   "status": "proved",
   "theorems": [
    "Eirin.Props.C12_order",
    "Eirin.Props.C12_total",
    "Eirin.Props.C12_hash"
   ],
   "note": ""
  },
  {
   "property": "C13",
   "status": "proved",
   "theorems": [
    "Eirin.Props.C13_epsilon",
    "Eirin.Props.C13_nearly",
    "Eirin.Props.C13_trichotomy",
    "Eirin.Props.C13_refl_symm"
   ],
   "note": ""
  },
  {
   "property": "C14",
   "status": "proved",
   "theorems": [
    "Eirin.Props.C14_ofInt",
    "Eirin.Props.C14_roundtrip"
   ],
   "note": ""
  },
  {
   "property": "C15",
   "status": "proved",
   "theorems": [
    "Eirin.Props.C15_toInt_floor",
    "Eirin.Props.C15_toInt_total"
   ],
   "note": ""
  },
  {
   "property": "C16",
   "status": "partial",
   "theorems": [
    "Eirin.Props.C16_ofFloat",
    "Eirin.Props.C16_trunc_exists",
    "Eirin.Props.C16_toFloat_false",
    "Eirin.Props.C16_toFloat_partial",
    "Eirin.Props.C16_rounding_halves"
   ],
   "note": "float -> fixed proved (truncation, UB iff out of range); fixed -> float refuted (truncates to an integer) with the exact behaviour proved; rounding types halve positive floats."
  },
  {
   "property": "C17",
   "status": "partial",
   "theorems": [
    "Eirin.Props.C17_narrowing",
    "Eirin.Props.C17_narrowing_rounding",
    "Eirin.Props.C17_widening_false",
    "Eirin.Props.C17_widening_partial",
    "Eirin.Props.C17_roundtrip_partial"
   ],
   "note": "Narrowing proved; widening refuted (scaling overflows in the source storage type), with the exact domain of definedness proved."
  },
  {
   "property": "C18",
   "status": "partial",
   "theorems": [
    "Eirin.Props.C18_false",
    "Eirin.Props.C18_fractional",
    "Eirin.Props.C18_nonneg_partial",
    "Eirin.Props.C18_neg_is_ceil",
    "Eirin.Props.C18_rawIntegralPart"
   ],
   "note": "False for negative values (integral part is the ceiling of |x|); refuted; proved for non-negative values, negative behaviour characterised."
  },
  {
   "property": "C19",
   "status": "proved",
   "theorems": [
    "Eirin.Props.C19_signbit",
    "Eirin.Props.C19_limits"
   ],
   "note": ""
  },
  {
   "property": "C20",
   "status": "proved",
   "theorems": [
    "Eirin.Props.C20_pi",
    "Eirin.Props.C20_pi_2",
    "Eirin.Props.C20_pi_4",
    "Eirin.Props.C20_double_pi",
    "Eirin.Props.C20_e",
    "Eirin.Props.C20_log2e",
    "Eirin.Props.C20_log10e",
    "Eirin.Props.C20_inv_pi",
    "Eirin.Props.C20_inv_sqrtpi",
    "Eirin.Props.C20_ln2",
    "Eirin.Props.C20_ln10",
    "Eirin.Props.C20_sqrt2",
    "Eirin.Props.C20_sqrt3",
    "Eirin.Props.C20_inv_sqrt3",
    "Eirin.Props.C20_egamma",
    "Eirin.Props.C20_phi",
    "Eirin.Props.C20_every_pi",
    "Eirin.Props.C20_every_e",
    "Eirin.Props.C20_every_log",
    "Eirin.Props.C20_every_inv_pi",
    "Eirin.Props.C20_every_sqrt",
    "Eirin.Props.C20_every_egamma"
   ],
   "note": ""
  },
  {
   "property": "C21",
   "status": "proved",
   "theorems": [
    "Eirin.Props.C21_floor",
    "Eirin.Props.C21_floor_ub",
    "Eirin.Props.C21_floor_idem"
   ],
   "note": ""
  },
  {
   "property": "C22",
   "status": "partial",
   "theorems": [
    "Eirin.Props.C22_false",
    "Eirin.Props.C22_ceil_partial",
    "Eirin.Props.C22_ceil_ub",
    "Eirin.Props.C22_ceil_neg"
   ],
   "note": "False for negative values (refuted at -0.5, exact negative behaviour proved: never integral); proved for non-negative values whose ceiling is representable, UB above."
  },
  {
   "property": "C23",
   "status": "proved",
   "theorems": [
    "Eirin.Props.C23_trunc"
   ],
   "note": ""
  },
  {
   "property": "C24",
   "status": "proved",
   "theorems": [
    "Eirin.Props.C24_round"
   ],
   "note": ""
  },
  {
   "property": "C25",
   "status": "proved",
   "theorems": [
    "Eirin.Props.C25_abs",
    "Eirin.Props.C25_minmax"
   ],
   "note": ""
  },
  {
   "property": "C26",
   "status": "proved",
   "theorems": [
    "Eirin.Props.C26_modf"
   ],
   "note": ""
  },
  {
   "property": "C27",
   "status": "partial",
   "theorems": [
    "Eirin.Props.C27_exact",
    "Eirin.Props.C27_false",
    "Eirin.Props.C27_fmod_partial"
   ],
   "note": "False for negative dividends just below a multiple of b (refuted); proved exactly for a>=0 and up to b*ulp for a<0. C27_exact says for all signs of both arguments when it is right: unless the signs differ and the quotient lies less than one ulp below an integer, and what is returned then."
  },
  {
   "property": "C28",
   "status": "proved",
   "theorems": [
    "Eirin.Props.C28_sqrt",
    "Eirin.Props.C28_mono",
    "Eirin.Props.C28_perfect_square"
   ],
   "note": ""
  },
  {
   "property": "C29",
   "status": "partial",
   "theorems": [
    "Eirin.Props.C29_false",
    "Eirin.Props.C29_scaled_partial"
   ],
   "note": "False of the code for f != 16 (the result is scaled by 2^16/2^f); refuted at f=20, exact scaling proved for every f."
  },
  {
   "property": "C30",
   "status": "partial",
   "theorems": [
    "Eirin.Props.C30_false",
    "Eirin.Props.C30_nonpos",
    "Eirin.Props.C30_newton_partial",
    "Eirin.Props.C30_ub",
    "Eirin.Props.C30_findMsb"
   ],
   "note": "False near the maximum (undefined from raw 8432131806905434112 on, proved); below that bound the Newton result is proved within one ulp below / epsilon of the square."
  },
  {
   "property": "C31",
   "status": "partial",
   "theorems": [
    "Eirin.Props.C31_false",
    "Eirin.Props.C31_hypot_partial",
    "Eirin.Props.C31_symm",
    "Eirin.Props.C31_hypot_zero",
    "Eirin.Props.C31_hypot3_zero"
   ],
   "note": "'A few ulps' refuted for tiny arguments (hypot(255 ulp,0)=0); exact two-sided bound proved, 3 ulp once the result is at least 1/2; symmetry and hypot(x,0)<=|x| proved."
  },
  {
   "property": "C32",
   "status": "proved",
   "theorems": [
    "Eirin.Props.C32_log2_domain",
    "Eirin.Props.C32_log2_pow"
   ],
   "note": ""
  },
  {
   "property": "C33",
   "status": "proved",
   "theorems": [
    "Eirin.Props.C33_log2_accuracy",
    "Eirin.Props.C33_log2_mono"
   ],
   "note": ""
  },
  {
   "property": "C34",
   "status": "proved",
   "theorems": [
    "Eirin.Props.C34_log_domain",
    "Eirin.Props.C34_log_accuracy",
    "Eirin.Props.C34_log10_accuracy",
    "Eirin.Props.C34_log_mono"
   ],
   "note": ""
  },
  {
   "property": "C35",
   "status": "proved",
   "theorems": [
    "Eirin.Props.C35_integral_base",
    "Eirin.Props.C35_defined",
    "Eirin.Props.C35_zero",
    "Eirin.Props.C35_one"
   ],
   "note": ""
  },
  {
   "property": "C36",
   "status": "partial",
   "theorems": [
    "Eirin.Props.C36_false",
    "Eirin.Props.C36_inverse",
    "Eirin.Props.C36_integral_partial"
   ],
   "note": "False as stated (the running square underflows or wraps to zero: pow(0.001,-5), pow(256,-2) divide by zero; refuted); pow(b,-1)=1/b for every base and exact truncated 1/b^n for integral bases proved."
  },
  {
   "property": "C37",
   "status": "partial",
   "theorems": [
    "Eirin.Props.C37_zero",
    "Eirin.Props.C37_defined",
    "Eirin.Props.C37_false",
    "Eirin.Props.C37_unit_partial",
    "Eirin.Props.C37_negative"
   ],
   "note": "False of the code (the x^1 term of the series is halved): refuted; proved within 5e-5+12ulp of e^x - x/2 on [0,1); exp(0)=1; behaviour on negatives proved."
  },
  {
   "property": "C38",
   "status": "partial",
   "theorems": [
    "Eirin.Props.C38_false",
    "Eirin.Props.C38_nonneg_partial",
    "Eirin.Props.C38_negative_wrong"
   ],
   "note": "False for negative arguments (refuted; negative branch characterised); proved for non-negative arguments."
  },
  {
   "property": "C39",
   "status": "partial",
   "theorems": [
    "Eirin.Props.C39_error",
    "Eirin.Props.C39_accuracy",
    "Eirin.Props.C39_bounded_false",
    "Eirin.Props.C39_bounded_partial"
   ],
   "note": "Accuracy proved on |x|<=2pi for both types; boundedness refuted only at the minimum (abs overflow), proved for every other value."
  },
  {
   "property": "C40",
   "status": "proved",
   "theorems": [
    "Eirin.Props.C40_cos_shift",
    "Eirin.Props.C40_cos_accuracy",
    "Eirin.Props.C40_cos_defined",
    "Eirin.Props.C40_tan_throws",
    "Eirin.Props.C40_tan_quotient"
   ],
   "note": "cos shift/accuracy and tan quotient/throw proved; sin(lowest) is undefined, so tan/cos there are too."
  },
  {
   "property": "C41",
   "status": "proved",
   "theorems": [
    "Eirin.Props.C41_odd",
    "Eirin.Props.C41_accuracy"
   ],
   "note": ""
  },
  {
   "property": "C42",
   "status": "partial",
   "theorems": [
    "Eirin.Props.C42_false",
    "Eirin.Props.C42_lowest",
    "Eirin.Props.C42_domain_partial",
    "Eirin.Props.C42_endpoints",
    "Eirin.Props.C42_complement_partial",
    "Eirin.Props.C42_complement_edge",
    "Eirin.Props.C42_accuracy_partial"
   ],
   "note": "Refuted (asin(0.9) < -2, undefined at the minimum). Proved: throws iff |x|>1 for all values but the minimum, end points, complement identity for |x|<1, accuracy 0.0006 for |x|<=0.7."
  },
  {
   "property": "C43",
   "status": "partial",
   "theorems": [
    "Eirin.Props.C43_false",
    "Eirin.Props.C43_small",
    "Eirin.Props.C43_root_partial"
   ],
   "note": "Refuted (cbrt(-2) divides by zero; cbrt(94) overflows). Proved for 0<=x<94: defined, at most 1 ulp below and 28 ulp above the root (or early exit with |x-r^3| within (10+r) ulp)."
  },
  {
   "property": "C44",
   "status": "proved",
   "theorems": [
    "Eirin.Props.C44_degrees_radians",
    "Eirin.Props.C44_radians_degrees",
    "Eirin.Props.C44_monotone",
    "Eirin.Props.C44_points"
   ],
   "note": ""
  },
  {
   "property": "C45",
   "status": "proved",
   "theorems": [
    "Eirin.Props.C45_decimal",
    "Eirin.Props.C45_generic",
    "Eirin.Props.C45_digit"
   ],
   "note": ""
  },
  {
   "property": "C46",
   "status": "proved",
   "theorems": [
    "Eirin.Props.C46_bases"
   ],
   "note": ""
  },
  {
   "property": "C47",
   "status": "proved",
   "theorems": [
    "Eirin.Props.C47_value"
   ],
   "note": ""
  },
  {
   "property": "C48",
   "status": "proved",
   "theorems": [
    "Eirin.Props.C48_untouched",
    "Eirin.Props.C48_untouched_f32",
    "Eirin.Props.C48_bad_integer",
    "Eirin.Props.C48_bad_fraction"
   ],
   "note": ""
  },
  {
   "property": "C49",
   "status": "partial",
   "theorems": [
    "Eirin.Props.C49_false",
    "Eirin.Props.C49_undefined",
    "Eirin.Props.C49_overflow_partial"
   ],
   "note": "Refuted: 2^48 is accepted as 0 (modular shift), and very long numerals are undefined. Proved for integer parts below 2^47 / 2^95 and fractions that fit the divisor: rejected iff magnitude >= 2^15 / 2^31."
  },
  {
   "property": "C50",
   "status": "proved",
   "theorems": [
    "Eirin.Props.C50_round_trip"
   ],
   "note": ""
  },
  {
   "property": "C51",
   "status": "proved",
   "theorems": [
    "Eirin.Props.C51_same",
    "Eirin.Props.C51_accepts",
    "Eirin.Props.C51_prefix"
   ],
   "note": ""
  },
  {
   "property": "C52",
   "status": "partial",
   "theorems": [
    "Eirin.Props.C52_consumes",
    "Eirin.Props.C52_false",
    "Eirin.Props.C52_wrong_value",
    "Eirin.Props.C52_reads_partial"
   ],
   "note": "Refuted: white space is not skipped; 0.32768 is read as a negative number (32-bit scaling). Proved: a prefix is consumed for every stream; exact value and stop position for fractions of <=4 (fixed32) / <=9 (fixed64) digits."
  },
  {
   "property": "C53",
   "status": "partial",
   "theorems": [
    "Eirin.Props.C53_position",
    "Eirin.Props.C53_bad_integer",
    "Eirin.Props.C53_false",
    "Eirin.Props.C53_value_partial"
   ],
   "note": "Value refuted for long fractions (0.32768 negative); position never past the terminator and malformed text leaves everything alone, for every buffer; value proved for <=4 fraction digits."
  },
  {
   "property": "C54",
   "status": "partial",
   "theorems": [
    "Eirin.Props.C54_false",
    "Eirin.Props.C54_int_partial",
    "Eirin.Props.C54_digits",
    "Eirin.Props.C54_negative",
    "Eirin.Props.C54_undefined"
   ],
   "note": "False for negative non-integers (-1.5 prints -2): refuted and characterised as the ceiling; undefined within one of the minimum (proved). Proved for non-negative values and negative integers, all signed types."
  },
  {
   "property": "C55",
   "status": "partial",
   "theorems": [
    "Eirin.Props.C55_false",
    "Eirin.Props.C55_decimal_partial",
    "Eirin.Props.C55_negative"
   ],
   "note": "False for negative non-integers (-1.5 prints -2.5): refuted and characterised; proved for non-negative values and negative integers, every precision."
  },
  {
   "property": "C56",
   "status": "proved",
   "theorems": [
    "Eirin.Props.C56_debug",
    "Eirin.Props.C56_injective"
   ],
   "note": ""
  },
  {
   "property": "C57",
   "status": "partial",
   "theorems": [
    "Eirin.Props.C57_padding",
    "Eirin.Props.C57_padding_only",
    "Eirin.Props.C57_false",
    "Eirin.Props.C57_zero_partial"
   ],
   "note": "Padding proved for every body/width/fill/alignment; 'zero padding keeps the sign in front' holds in the integer modes (proved) and is false in g/f/? (refuted)."
  },
  {
   "property": "C58",
   "status": "partial",
   "theorems": [
    "Eirin.Props.C58_false",
    "Eirin.Props.C58_fields_partial",
    "Eirin.Props.C58_empty",
    "Eirin.Props.C58_unknown_type",
    "Eirin.Props.C58_width_overflow"
   ],
   "note": "False as stated: fill ':' is lost and an empty specification followed by an alignment character swallows the '}' (refuted); proved for every other specification string, plus format_error for unknown types."
  },
  {
   "property": "C59",
   "status": "proved",
   "theorems": [
    "Eirin.Props.C59_discard",
    "Eirin.Props.C59_period"
   ],
   "note": ""
  },
  {
   "property": "C60",
   "status": "partial",
   "theorems": [
    "Eirin.Props.C60_equal",
    "Eirin.Props.C60_same_seed",
    "Eirin.Props.C60_false",
    "Eirin.Props.C60_seed_partial"
   ],
   "note": "Equal engines stay equal and same-seed construction is proved; 'seed() restores the freshly constructed state' is false because seed() keeps the counter (refuted, partial form proved with the counter hypothesis)."
  },
  {
   "property": "C61",
   "status": "partial",
   "theorems": [
    "Eirin.Props.C61_range",
    "Eirin.Props.C61_false"
   ],
   "note": "Every output is within [min(), max()]: proved. 'max() is attainable' is false (refuted), so only the range half is a positive theorem."
  },
  {
   "property": "C62",
   "status": "partial",
   "theorems": [
    "Eirin.Props.C62_always_undefined",
    "Eirin.Props.C62_false",
    "Eirin.Props.C62_defined_partial"
   ],
   "note": "False for both shipped engines: every call in every state shifts by at least the width (proved undefined in C62_always_undefined). The partial theorem proves definedness for parameters whose shifts fit."
  },
  {
   "property": "C63",
   "status": "proved",
   "theorems": [
    "Eirin.Props.C63_draw",
    "Eirin.Props.C63_forward",
    "Eirin.Props.C63_pcg",
    "Eirin.Props.C63_pcg_state"
   ],
   "note": ""
  },
  {
   "property": "C64",
   "status": "partial",
   "theorems": [
    "Eirin.Props.C64_false",
    "Eirin.Props.C64_history_partial",
    "Eirin.Props.C64_narrowing"
   ],
   "note": "operator()(g, p) ignores the supplied parameters and the fixed64 adaptor over an int distribution narrows (both refuted with witnesses); proved: every draw uses the parameters set last, for every operation history without per-call parameters."
  },
  {
   "property": "C65",
   "status": "partial",
   "theorems": [
    "Eirin.Props.C65_false",
    "Eirin.Props.C65_nonneg_partial",
    "Eirin.Props.C65_negative"
   ],
   "note": "Proved for every non-negative angle. 'Negative angles give the negated sine' is false: the sign bit is cleared instead of negating (refuted); the actual reduction of negative angles is proved in C65_negative."
  },
  {
   "property": "C66",
   "status": "partial",
   "theorems": [
    "Eirin.Props.C66_false",
    "Eirin.Props.C66_defined_partial",
    "Eirin.Props.C66_too_many",
    "Eirin.Props.C66_negative"
   ],
   "note": "Definedness for every angle (and every iteration count up to 41, sine and cosine) proved, and from 42 iterations on every call is undefined (C66_too_many); oddness is false, already at 0 (refuted); C66_negative gives the exact relation that holds instead."
  },
  {
   "property": "C67",
   "status": "proved",
   "theorems": [
    "Eirin.Props.C67_lane",
    "Eirin.Props.C67_scalar",
    "Eirin.Props.C67_avx512",
    "Eirin.Props.C67_avx512_differs"
   ],
   "note": "Proved for the AVX2 code path (all lanes, plus equality with the scalar product for non-negative lanes). The __AVX512DQ__ build is characterised separately (C67_avx512) and shown to lose the integer part."
  },
  {
   "property": "C68",
   "status": "proved",
   "theorems": [
    "Eirin.Props.C68_fpint",
    "Eirin.Props.C68_reduce",
    "Eirin.Props.C68_avx512"
   ],
   "note": "Proved for the AVX2 code path, all four lanes and all 64-bit angles; with __AVX512DQ__ the reduction is the identity (C68_avx512)."
  },
  {
   "property": "C69",
   "status": "partial",
   "theorems": [
    "Eirin.Props.C69_false",
    "Eirin.Props.C69_value_false",
    "Eirin.Props.C69_swapped",
    "Eirin.Props.C69_integral_partial"
   ],
   "note": "False: lanes come back swapped and the product is not shifted (refuted; exact behaviour for all inputs in C69_swapped). Holds for equal integral angles below a full turn."
  },
  {
   "property": "C70",
   "status": "partial",
   "theorems": [
    "Eirin.Props.C70_false",
    "Eirin.Props.C70_twos_complement_false",
    "Eirin.Props.C70_roundtrip",
    "Eirin.Props.C70_saturates",
    "Eirin.Props.C70_add_partial",
    "Eirin.Props.C70_carry",
    "Eirin.Props.C70_words",
    "Eirin.Props.C70_unsigned",
    "Eirin.Props.C70_float"
   ],
   "note": "Round trip and saturation proved for all 64-bit words. Addition is false under either reading of the low word (refuted: carries); the partial theorem covers sums whose words do not carry, C70_carry says exactly when the two's-complement reading is right."
  },
  {
   "property": "C71",
   "status": "partial",
   "theorems": [
    "Eirin.Props.C71_false",
    "Eirin.Props.C71_floor_partial",
    "Eirin.Props.C71_shift"
   ],
   "note": "False at 64 fraction bits and above, where the shift is undefined (C71_shift, all values); proved for every double in [0, 2^63) and every fraction count that fits, with rounding of double arithmetic a parameter that is exact on representable results."
  },
  {
   "property": "C72",
   "status": "partial",
   "theorems": [
    "Eirin.Props.C72_value",
    "Eirin.Props.C72_false",
    "Eirin.Props.C72_coarse_partial",
    "Eirin.Props.C72_error",
    "Eirin.Props.C72_undefined"
   ],
   "note": "False: integer division truncates each factor, the result is constant (about 3.133) from four terms on (C72_value) and is never within 0.001 of pi; proved within 0.009 (never within 0.008), with the exact value, and undefined above 2^28 terms."
  },
  {
   "property": "C73",
   "status": "proved",
   "theorems": [
    "Eirin.Props.C73_lut"
   ],
   "note": "Proved for every 1 <= N < 2^31."
  },
  {
   "property": "C74",
   "status": "proved",
   "theorems": [
    "Eirin.Props.C74_accuracy",
    "Eirin.Props.C74_negative"
   ],
   "note": ""
  },
  {
   "property": "C75",
   "status": "partial",
   "theorems": [
    "Eirin.Props.C75_false",
    "Eirin.Props.C75_nonneg_partial",
    "Eirin.Props.C75_in_bounds"
   ],
   "note": "Definedness is false for some negative angles (refuted). Proved: for every table of unit-range entries with 2..4096 entries and every non-negative angle the result is the stated interpolation; no read outside the table for any angle and N < 2^31 (C75_in_bounds)."
  },
  {
   "property": "C76",
   "status": "partial",
   "theorems": [
    "Eirin.Props.C76_zero",
    "Eirin.Props.C76_false",
    "Eirin.Props.C76_coarse_partial"
   ],
   "note": "False: filling the table drops the fraction of each angle, so every angle in [0, 15/16) gives 0 (C76_zero). The partial theorem proves an error of at most 1.1 for every non-negative angle."
  },
  {
   "property": "C77",
   "status": "partial",
   "theorems": [
    "Eirin.Props.C77_false",
    "Eirin.Props.C77_accuracy_false",
    "Eirin.Props.C77_zero",
    "Eirin.Props.C77_negative_base",
    "Eirin.Props.C77_integral_partial",
    "Eirin.Props.C77_fraction"
   ],
   "note": "False of the code: a negative base with a non-negative exponent terminates the program (log throws domain_error inside the noexcept function), even for integral exponents (C77_negative_base); fractional exponents lose half the logarithm of the result (C77_accuracy_false, C77_fraction: the result is b^e - e ln b / 2 up to 5e-5 + 49 ulp). Proved: zero base, and equality with the integer power for positive bases and integral exponents."
  },
  {
   "property": "C78",
   "status": "partial",
   "theorems": [
    "Eirin.Props.C78_epsilon_false",
    "Eirin.Props.C78_false",
    "Eirin.Props.C78_zero",
    "Eirin.Props.C78_round_error_false",
    "Eirin.Props.C78_round_style_false",
    "Eirin.Props.C78_signed",
    "Eirin.Props.C78_digits_partial",
    "Eirin.Props.C78_digits_wrap",
    "Eirin.Props.C78_named"
   ],
   "note": "False: epsilon() is five ulps, denorm_min() and round_error() are 0, round_style is toward zero although products are floored, is_signed is wrong exactly for unsigned storage, digits wraps with few integer bits (all refuted). Proved: radix, digits and digits10 for every signed type that can hold them."
  },
  {
   "property": "C79",
   "status": "partial",
   "theorems": [
    "Eirin.Props.C79_extremes_partial",
    "Eirin.Props.C79_false",
    "Eirin.Props.C79_zero_step_diverges",
    "Eirin.Props.C79_overflow"
   ],
   "note": "False: the minimum search starts from 255, so larger smallest errors are misreported (refuted). Proved for all functions, ranges and positive steps: termination, maximum, and minimum when below 255; zero step diverges and an overflowing end point is undefined (proved)."
  },
  {
   "property": "C80",
   "status": "proved",
   "theorems": [
    "Eirin.Props.C80_odd",
    "Eirin.Props.C80_periodic",
    "Eirin.Props.C80_zero",
    "Eirin.Props.C80_small_false"
   ],
   "note": "Proved; C80_small_false shows that the small-angle range must be excluded."
  },
  {
   "property": "C81",
   "status": "proved",
   "theorems": [
    "Eirin.Props.C81_pythagoras",
    "Eirin.Props.C81_cos_even",
    "Eirin.Props.C81_even_exact_false"
   ],
   "note": "Proved; C81_even_exact_false shows that evenness of cos is not exact."
  },
  {
   "property": "C82",
   "status": "proved",
   "theorems": [
    "Eirin.Props.C82_injective"
   ],
   "note": ""
  },
  {
   "property": "C83",
   "status": "partial",
   "theorems": [
    "Eirin.Props.C83_text",
    "Eirin.Props.C83_injective",
    "Eirin.Props.C83_false",
    "Eirin.Props.C83_flags_partial",
    "Eirin.Props.C83_padding",
    "Eirin.Props.C83_length",
    "Eirin.Props.C83_width"
   ],
   "note": "Text and injectivity proved for streams without a field width; 'formatting left as it was' is false (refuted: dec is added to hex and stays), and holds exactly for streams in decimal mode (C83_flags_partial)."
  },
  {
   "property": "C84",
   "status": "proved",
   "theorems": [
    "Eirin.Props.C84_scale",
    "Eirin.Props.C84_product"
   ],
   "note": "Proved for fixed32 and fixed64."
  },
  {
   "property": "C85",
   "status": "proved",
   "theorems": [
    "Eirin.Props.C85_distrib",
    "Eirin.Props.C85_assoc",
    "Eirin.Props.C85_div_mul",
    "Eirin.Props.C85_mul_div",
    "Eirin.Props.C85_signs"
   ],
   "note": "Proved for every valid type without the rounding option."
  },
  {
   "property": "C86",
   "status": "proved",
   "theorems": [
    "Eirin.Props.C86_floor_mono",
    "Eirin.Props.C86_trunc",
    "Eirin.Props.C86_round",
    "Eirin.Props.C86_round_top",
    "Eirin.Props.C86_order"
   ],
   "note": "Proved; C86_round_top shows that without the half-unit margin round wraps to the minimum."
  },
  {
   "property": "C87",
   "status": "proved",
   "theorems": [
    "Eirin.Props.C87_mono_odd",
    "Eirin.Props.C87_chain"
   ],
   "note": "Proved for non-rounding targets."
  },
  {
   "property": "C88",
   "status": "partial",
   "theorems": [
    "Eirin.Props.C88_every_storage_partial",
    "Eirin.Props.C88_unsigned_minus",
    "Eirin.Props.C88_unsigned_false",
    "Eirin.Props.C88_sharp"
   ],
   "note": "False for unsigned storage at the single value 2^(bits-1), which is printed with a minus sign (C88_unsigned_minus, every unsigned type); proved for every other value of every type, and the bound on the fraction is sharp for wide signed storage (C88_sharp)."
  },
  {
   "property": "C89",
   "status": "partial",
   "theorems": [
    "Eirin.Props.C89_answers",
    "Eirin.Props.C89_usable_false",
    "Eirin.Props.C89_leaf",
    "Eirin.Props.C89_usable_partial"
   ],
   "note": "The answers and the single detection are proved for every sequence of questions; 'reported implies usable' is false (neither the operating system's AVX state nor the maximal CPUID leaf is checked: C89_usable_false, C89_leaf) and proved where both are in order."
  },
  {
   "property": "C90",
   "status": "proved",
   "theorems": [
    "Eirin.Props.C90_fixed",
    "Eirin.Props.C90_hex"
   ],
   "note": "Proved."
  },
  {
   "property": "C91",
   "status": "proved",
   "theorems": [
    "Eirin.Props.C91_equal",
    "Eirin.Props.C91_param",
    "Eirin.Props.C91_constructors",
    "Eirin.Props.C91_default",
    "Eirin.Props.C91_transfer"
   ],
   "note": "Proved; reset() is covered by the operation histories of C64."
  },
  {
   "property": "C92",
   "status": "partial",
   "theorems": [
    "Eirin.Props.C92_floor_partial",
    "Eirin.Props.C92_trunc",
    "Eirin.Props.C92_round",
    "Eirin.Props.C92_ceil_partial",
    "Eirin.Props.C92_false",
    "Eirin.Props.C92_floor_bottom",
    "Eirin.Props.C92_ceil_top_unsigned",
    "Eirin.Props.C92_abs"
   ],
   "note": "trunc, round and abs proved for every type; floor is wrong at the bottom of narrow signed types (refuted: floor(min) of an 8-bit type is positive; the exact behaviour is C92_floor_bottom) and ceil at the top of unsigned ones (C92_ceil_top_unsigned); proved elsewhere."
  },
  {
   "property": "C93",
   "status": "partial",
   "theorems": [
    "Eirin.Props.C93_false",
    "Eirin.Props.C93_wrong",
    "Eirin.Props.C93_round_trip_partial"
   ],
   "note": "False: extraction stops in the middle of long fractions or overflows (refuted, C93_wrong). Proved for multiples of 1/16 (fixed32) and 1/512 (fixed64) other than the minimum, with any following text."
  },
  {
   "property": "C94",
   "status": "partial",
   "theorems": [
    "Eirin.Props.C94_false",
    "Eirin.Props.C94_round_trip_partial",
    "Eirin.Props.C94_same_text"
   ],
   "note": "False for negative non-integers, which std::format misprints (C55). Proved for all other values, and the equality of the texts."
  },
  {
   "property": "C95",
   "status": "partial",
   "theorems": [
    "Eirin.Props.C95_false",
    "Eirin.Props.C95_witnesses",
    "Eirin.Props.C95_state_partial",
    "Eirin.Props.C95_ub",
    "Eirin.Props.C95_undefined",
    "Eirin.Props.C95_not_numeral",
    "Eirin.Props.C95_failed_stream"
   ],
   "note": "False: an integer at the end of the text is read and reported as a failure, text that is not a numeral is reported as a success with the object set to 0, and non-ASCII bytes are undefined (C95_witnesses, C95_undefined). Proved: the exact value, rest and state bits for every ASCII text and every type (C95_state_partial, C95_ub), and the behaviour on a failed stream."
  },
  {
   "property": "C96",
   "status": "partial",
   "theorems": [
    "Eirin.Props.C96_false",
    "Eirin.Props.C96_witness",
    "Eirin.Props.C96_written_partial",
    "Eirin.Props.C96_ub",
    "Eirin.Props.C96_length",
    "Eirin.Props.C96_exact",
    "Eirin.Props.C96_decimal"
   ],
   "note": "False: every character is inserted on its own, so the padding surrounds the first character (setw(5) << 12 gives six characters; with left: '1    2'). What is written is proved for every type and state; C96_exact: right exactly for a width of at most 1 or a one-character numeral."
  },
  {
   "property": "C97",
   "status": "partial",
   "theorems": [
    "Eirin.Props.C97_false",
    "Eirin.Props.C97_witnesses",
    "Eirin.Props.C97_lit",
    "Eirin.Props.C97_integer_partial",
    "Eirin.Props.C97_other_tokens",
    "Eirin.Props.C97_numeral",
    "Eirin.Props.C97_string",
    "Eirin.Props.C97_f32_integer",
    "Eirin.Props.C97_f32_float",
    "Eirin.Props.C97_agree"
   ],
   "note": "False: 010_f64 is ten; prefixes, separators and exponents return an indeterminate object (C97_witnesses, C97_other_tokens). C97_integer_partial gives the exact set of correct integer literals; string and fractional literals, _f32 wrap-around and agreement are proved."
  },
  {
   "property": "C98",
   "status": "partial",
   "theorems": [
    "Eirin.Props.C98_false",
    "Eirin.Props.C98_ascii_partial",
    "Eirin.Props.C98_bytes",
    "Eirin.Props.C98_single"
   ],
   "note": "False: check_ch narrows the code unit, so a wide character whose low byte is a digit is accepted as the number u-48 (C98_false, C98_single). Agreement on ASCII text and rejection of non-ASCII bytes proved."
  },
  {
   "property": "C99",
   "status": "partial",
   "theorems": [
    "Eirin.Props.C99_false",
    "Eirin.Props.C99_range_partial",
    "Eirin.Props.C99_integer",
    "Eirin.Props.C99_bounds",
    "Eirin.Props.C99_negative"
   ],
   "note": "False already on [0,1] (C37). Proved instead, wherever e^x fits in the type: the exact form e^x - e^n (x-n)/2 with its relative error, correctness at the integers, 0.81 e^x <= exp(x) <= 1.001 e^x, and bounds for negative arguments."
  },
  {
   "property": "C100",
   "status": "partial",
   "theorems": [
    "Eirin.Props.C100_false",
    "Eirin.Props.C100_layout_partial",
    "Eirin.Props.C100_shift",
    "Eirin.Props.C100_criterion",
    "Eirin.Props.C100_sharp",
    "Eirin.Props.C100_monotone"
   ],
   "note": "False: from 33 fraction bits on every call is undefined (C100_shift), and with 27 or more in 32-bit storage small arguments overflow. C100_criterion: defined everywhere exactly for at most 26 fraction bits in 32-bit and 32 in 64-bit storage; accuracy proved there; C100_sharp gives the exact domain otherwise; monotone."
  },
  {
   "property": "C101",
   "status": "partial",
   "theorems": [
    "Eirin.Props.C101_false",
    "Eirin.Props.C101_accuracy_partial",
    "Eirin.Props.C101_throws",
    "Eirin.Props.C101_unit"
   ],
   "note": "False next to the poles: 8 ulp left of -pi/2 the sign is wrong and 2 ulp right of it the quotient wraps. C101_accuracy_partial: the bound where |cos x| >= 1/1000; C101_throws: exceptions only below that; C101_unit: error at most 0.0028 on [-1, 1]."
  },
  {
   "property": "C102",
   "status": "partial",
   "theorems": [
    "Eirin.Props.C102_beyond_partial",
    "Eirin.Props.C102_asin_beyond_partial",
    "Eirin.Props.C102_false",
    "Eirin.Props.C102_polynomial_partial",
    "Eirin.Props.C102_wrong_sign",
    "Eirin.Props.C102_asin_wrong_sign"
   ],
   "note": "False: atan(2) is -1.47, asin(0.95) is -76.8, atan from about 6.9 on overflows. C102_polynomial_partial: atan is the fitted polynomial within 855 ulp on [-2.5, 2.5]; C102_wrong_sign: the wrong sign everywhere on 1.85 <= |x| <= 6 (both types); C102_beyond_partial: from one to 5/2 the error of atan grows with the argument, below 0.0035 up to 1.1, below 0.026 up to 1.25, above 0.155 from 1.5 on. C102_asin_wrong_sign: the wrong sign for 0.89 <= |x| <= 0.98; C102_asin_beyond_partial: asin is off by at most 0.005 up to 0.73, 0.027 up to 0.78, and by more than 0.14 from 0.84 to 0.92."
  },
  {
   "property": "C103",
   "status": "partial",
   "theorems": [
    "Eirin.Props.C103_false",
    "Eirin.Props.C103_no_follow",
    "Eirin.Props.C103_cut",
    "Eirin.Props.C103_follow_partial",
    "Eirin.Props.C103_value",
    "Eirin.Props.C103_digit_behind"
   ],
   "note": "False: the character behind the view takes part in the comparison (C103_false), and without one every call is undefined (C103_no_follow). C103_cut: a view is cut at the first occurrence of the character behind it; C103_follow_partial: independence of characters that do not occur in the view; C103_value: numerals with at most four fraction digits."
  },
  {
   "property": "C104",
   "status": "partial",
   "theorems": [
    "Eirin.Props.C104_restart_partial",
    "Eirin.Props.C104_false",
    "Eirin.Props.C104_distinct",
    "Eirin.Props.C104_ne"
   ],
   "note": "std::seed_seq::generate is modelled from the standard for two elements. Equality after seeding and distinctness for sequences differing in one word are proved for both engines; 'every state' is false for the 64-bit engine, which only receives 32 bits per member."
  },
  {
   "property": "C105",
   "status": "partial",
   "theorems": [
    "Eirin.Props.C105_false",
    "Eirin.Props.C105_three_bits",
    "Eirin.Props.C105_accuracy_partial",
    "Eirin.Props.C105_error"
   ],
   "note": "False with exactly three integer bits: pi * pi wraps in the coefficients, so sin(1) > 1.1 and cos(0) > 2 (C105_three_bits, both storage widths). Proved on every layout with at least four integer bits, and with the error formula for arguments of any size (C105_error)."
  },
  {
   "property": "C106",
   "status": "proved",
   "theorems": [
    "Eirin.Props.C106_accuracy",
    "Eirin.Props.C106_odd"
   ],
   "note": "Proved for every layout that can hold 1 (fraction counts 8 to bits-2), including those whose constants are widened rather than narrowed."
  },
  {
   "property": "C107",
   "status": "partial",
   "theorems": [
    "Eirin.Props.C107_false",
    "Eirin.Props.C107_steps_partial",
    "Eirin.Props.C107_lost"
   ],
   "note": "False: the xor_multiplier of pcg2014 is even, so _xor merges values that differ in the top bit (C107_false). C107_steps_partial: the other steps, and every step of pcg2014_64, are permutations; C107_lost: exactly which values are merged and that the results are exactly the even values."
  },
  {
   "property": "C108",
   "status": "partial",
   "theorems": [
    "Eirin.Props.C108_wraps",
    "Eirin.Props.C108_false",
    "Eirin.Props.C108_range_partial",
    "Eirin.Props.C108_signs"
   ],
   "note": "False: the squares wrap around silently, so hypot is 0 at all multiples of 256 (fixed32) or 65536 (fixed64), C108_wraps. C108_range_partial: accurate while the sum of squares stays below 2^15 or 1.9e9; C108_signs: the signs of the arguments do not matter."
  },
  {
   "property": "C109",
   "status": "proved",
   "theorems": [
    "Eirin.Props.C109_relative",
    "Eirin.Props.C109_absolute",
    "Eirin.Props.C109_even"
   ],
   "note": "Proved for every valid non-rounding layout that can hold 1, with a relative bound for bases from one and an absolute bound for bases up to one."
  },
  {
   "property": "C110",
   "status": "proved",
   "theorems": [
    "Eirin.Props.C110_value",
    "Eirin.Props.C110_integer",
    "Eirin.Props.C110_half",
    "Eirin.Props.C110_bounds",
    "Eirin.Props.C110_negative"
   ],
   "note": "Proved as stated; the term e^n (x-n)/2 is the defect of C37 (a coefficient of one half). The upper end of the argument range is where e^x plus the error still fits."
  },
  {
   "property": "C111",
   "status": "proved",
   "theorems": [
    "Eirin.Props.C111_large",
    "Eirin.Props.C111_small"
   ],
   "note": "Proved for both library types; the factor 0.8 (1.24 for bases below one) comes from the defect of exp (C37)."
  },
  {
   "property": "C112",
   "status": "proved",
   "theorems": [
    "Eirin.Props.C112_sqrt",
    "Eirin.Props.C112_nonpos",
    "Eirin.Props.C112_ub",
    "Eirin.Props.C112_hypot"
   ],
   "note": "Every 64-bit layout with at most 62 fraction bits; C112_ub gives the arguments on which the code overflows."
  },
  {
   "property": "C113",
   "status": "proved",
   "theorems": [
    "Eirin.Props.C113_whole",
    "Eirin.Props.C113_tan"
   ],
   "note": "Every signed layout with 8 to 59 fraction bits and at least five integer bits; arguments far from zero lose |x|/4 ulp because the reduction uses a rounded pi."
  },
  {
   "property": "C114",
   "status": "proved",
   "theorems": [
    "Eirin.Props.C114_accuracy",
    "Eirin.Props.C114_sharp",
    "Eirin.Props.C114_shift",
    "Eirin.Props.C114_monotone"
   ],
   "note": "Every layout; C114_sharp and C114_shift say exactly where the functions are undefined."
  },
  {
   "property": "C115",
   "status": "partial",
   "theorems": [
    "Eirin.Props.C115_accuracy_partial",
    "Eirin.Props.C115_domain",
    "Eirin.Props.C115_false",
    "Eirin.Props.C115_small"
   ],
   "note": "False in 32-bit storage unless f = 16, because sqrt is only right there (C29): C115_false, and C115_small shows that with 8 to 15 fraction bits every asin on [0.2, 0.7] is more than ten percent too small. C115_accuracy_partial and C115_domain: every 64-bit layout."
  },
  {
   "property": "C116",
   "status": "partial",
   "theorems": [
    "Eirin.Props.C116_accuracy_partial",
    "Eirin.Props.C116_factor",
    "Eirin.Props.C116_wrong",
    "Eirin.Props.C116_false"
   ],
   "note": "False with four to eight integer bits, where fixed(180) wraps to 4, -12, -12, 52 or -76 (C116_wrong: wrong for every |x| >= 1). C116_factor gives both functions on every layout with the wrapped factor; C116_accuracy_partial: the statement with at least nine integer bits."
  },
  {
   "property": "C117",
   "status": "partial",
   "theorems": [
    "Eirin.Props.C117_root",
    "Eirin.Props.C117_zero",
    "Eirin.Props.C117_false",
    "Eirin.Props.C117_cubes_back_partial"
   ],
   "note": "False with at most 13 fraction bits: epsilon() is zero there and cbrt(0) divides by zero (C117_zero, every such layout). C117_root and C117_cubes_back_partial: every layout with at least 16 fraction bits, at most one ulp below the root and at most 28 above it unless the loop stops early."
  },
  {
   "property": "C118",
   "status": "proved",
   "theorems": [
    "Eirin.Props.C118_value",
    "Eirin.Props.C118_overflow",
    "Eirin.Props.C118_rejects",
    "Eirin.Props.C118_accepts",
    "Eirin.Props.C118_round_trip"
   ],
   "note": "The constant is attained at 53 fraction bits (ten ulp lost, example in ParseAll.lean). Numerals whose fraction does not fit (FracFits) are the undefined cases of C49."
  },
  {
   "property": "C119",
   "status": "proved",
   "theorems": [
    "Eirin.Props.C119_reads",
    "Eirin.Props.C119_exact"
   ],
   "note": "An equivalence: C119_reads is for arbitrary numerals in range, C119_exact for printed values: it says for which values C93 holds and for which it fails. The minimum is C93_wrong."
  },
  {
   "property": "C120",
   "status": "partial",
   "theorems": [
    "Eirin.Props.C120_round_trip_partial",
    "Eirin.Props.C120_negative",
    "Eirin.Props.C120_false",
    "Eirin.Props.C120_same_text"
   ],
   "note": "C120_round_trip_partial proves it for non-negative values and negative integers on every layout; C120_negative shows that a negative non-integer is always read back one too low (the formatter prints the ceiling of the magnitude), so C120_false refutes the statement on every layout with at least five fraction bits. C120_same_text compares with operator<<."
  },
  {
   "property": "C121",
   "status": "proved",
   "theorems": [
    "Eirin.Props.C121_used",
    "Eirin.Props.C121_total",
    "Eirin.Props.C121_alias"
   ],
   "note": "Total characterisation with no range or length hypothesis; C118 and C49 follow the well-behaved part. The used prefix of the fraction is defined without reference to the model and shown unique."
  },
  {
   "property": "C122",
   "status": "partial",
   "theorems": [
    "Eirin.Props.C122_total",
    "Eirin.Props.C122_value_partial",
    "Eirin.Props.C122_overflow_partial",
    "Eirin.Props.C122_minus_one",
    "Eirin.Props.C122_false",
    "Eirin.Props.C122_round_trip"
   ],
   "note": "C122_total gives the outcome of both parsers on every numeral (division by zero from as many used fraction digits as the intermediate type has bits; divisor and value reduced modulo that type). C122_value_partial and C122_overflow_partial are the part of the statement that holds; C122_minus_one shows that every layout accepts -1, which refutes it (C122_false). C122_round_trip: printing then parsing. For f = 63 detail::parse does not compile (see DESIGN.md), so the first conjunct is about fixed_from_cstring only there."
  },
  {
   "property": "C123",
   "status": "proved",
   "theorems": [
    "Eirin.Props.C123_total",
    "Eirin.Props.C123_io"
   ],
   "note": "C123_total covers operator>> on every layout, C123_io the fixed32-only io::parse. The used prefix p of the fraction digits exists uniquely (C121_used), the wrapped quantities a and b exist uniquely (IsWrap)."
  },
  {
   "property": "C124",
   "status": "partial",
   "theorems": [
    "Eirin.Props.C124_special",
    "Eirin.Props.C124_truncates",
    "Eirin.Props.C124_halves",
    "Eirin.Props.C124_negative",
    "Eirin.Props.C124_false",
    "Eirin.Props.C124_negative_partial"
   ],
   "note": "C124_special, C124_truncates (non-rounding types), C124_halves (rounding types, non-negative values: half the value is stored, the defect known from C16, proved here in rounded arithmetic) and C124_negative (exact outcome for negative values). C124_false: -(0.5 - 2^-54) ulp becomes -1 ulp. C124_negative_partial: nearest when the subtraction of one half is exact, never more than one ulp away. The model of floating arithmetic (Model/Float.lean) is checked by rne_nearest (Lemmas/Float.lean)."
  },
  {
   "property": "C125",
   "status": "partial",
   "theorems": [
    "Eirin.Props.C125_nearest",
    "Eirin.Props.C125_exact_iff",
    "Eirin.Props.C125_false",
    "Eirin.Props.C125_exact_partial",
    "Eirin.Props.C125_named"
   ],
   "note": "C125_nearest (always defined, nearest to the integer part), C125_exact_iff (exact iff the integer is a number of the format), C125_named (fixed32 in every format, fixed64 in double and wider, with round trip). C125_false: (float)fixed64(2^24+1) is 2^24. C125_exact_partial: integers of at most p bits."
  },
  {
   "property": "C126",
   "status": "partial",
   "theorems": [
    "Eirin.Props.C126_table",
    "Eirin.Props.C126_text",
    "Eirin.Props.C126_default_partial",
    "Eirin.Props.C126_false",
    "Eirin.Props.C126_close_partial",
    "Eirin.Props.C126_verbatim_partial",
    "Eirin.Props.C126_literal"
   ],
   "note": "C126_text gives the whole text for every fraction <= 61 (literal shifted right by 61 - fraction); C126_default_partial: at 61 it is the table of numbers.hpp (C126_table ties the table to the constants of every layout). C126_false: for any other fraction the printed definition still says from_fixed_num_value<61>, e.g. at 32 log2e is 2^29 times too small. C126_close_partial: accuracy at the default. C126_verbatim_partial: at the default the text is numbers.hpp:26-102 character for character; C126_literal: the hexadecimal literal stands for the value, for every name and value."
  },
  {
   "property": "C127",
   "status": "partial",
   "theorems": [
    "Eirin.Props.C127_total",
    "Eirin.Props.C127_false",
    "Eirin.Props.C127_value_partial"
   ],
   "note": "False of negative values: they lose their fraction (C127_false: eval_value(-0.5, 32) is 0). C127_total gives the outcome in every case: undefined if the integral part does not fit, if n exceeds the table of bit values, or if the final shift is too wide; otherwise the bits modulo the width of the type, and the additions never overflow. C127_value_partial: the property for v >= 0 and the exact value for v < 0."
  },
  {
   "property": "C128",
   "status": "partial",
   "theorems": [
    "Eirin.Props.C128_one_cycle",
    "Eirin.Props.C128_false",
    "Eirin.Props.C128_neighbour",
    "Eirin.Props.C128_distinct_partial"
   ],
   "note": "False (C128_false) in the strongest way: C128_one_cycle shows that any two engines produce the same sequence up to a number of discarded calls, because the seed is added to state * multiplier with an odd multiplier. C128_neighbour: seed s + multiplier is seed s one call later. C128_distinct_partial: different seeds make unequal engines, and at equal positions the mixing starts from different values."
  },
  {
   "property": "C129",
   "status": "proved",
   "theorems": [
    "Eirin.Props.C129_large_base",
    "Eirin.Props.C129_small_base"
   ],
   "note": "C129_large_base, C129_small_base; extends C36 (integral bases, library types) to all bases and all non-rounding types. The hypotheses on the size of the squares or the result are needed: C36_false shows a wrong answer when a square overflows."
  },
  {
   "property": "C130",
   "status": "partial",
   "theorems": [
    "Eirin.Props.C130_zero",
    "Eirin.Props.C130_false",
    "Eirin.Props.C130_positive_partial",
    "Eirin.Props.C130_negative_partial",
    "Eirin.Props.C130_sides_partial"
   ],
   "note": "False (C130_false): the constant term of the polynomial is slightly below one, so exp(ulp) < exp(0) = 1 < exp(-ulp); C130_zero shows this on every layout. Everything else holds: C130_positive_partial and C130_negative_partial (monotone on each side of zero, including across the integers where the power and the polynomial change together), C130_sides_partial (exp(x) >= 1 >= exp(-x) as soon as x is at least 1.2e-4 + 28 ulp)."
  },
  {
   "property": "C131",
   "status": "proved",
   "theorems": [
    "Eirin.Props.C131_forward_error",
    "Eirin.Props.C131_sum",
    "Eirin.Props.C131_horner",
    "Eirin.Props.C131_dot"
   ],
   "note": "Proved by induction on the expression (C131_forward_error), with C131_sum, C131_horner and C131_dot as consequences for lists of any length."
  },
  {
   "property": "C132",
   "status": "proved",
   "theorems": [
    "Eirin.Props.C132_atan_tan",
    "Eirin.Props.C132_test_program",
    "Eirin.Props.C132_tan_atan",
    "Eirin.Props.C132_sin_asin"
   ],
   "note": "C132_atan_tan, C132_tan_atan and C132_sin_asin on the generic layouts; C132_test_program for fixed64 including the arguments at which the computed tangent exceeds one."
  },
  {
   "property": "C133",
   "status": "partial",
   "theorems": [
    "Eirin.Props.C133_false",
    "Eirin.Props.C133_exp_log_partial",
    "Eirin.Props.C133_exp_log_below_partial",
    "Eirin.Props.C133_log_exp_partial"
   ],
   "note": "False (C133_false): exp(log(1.6487)) = 1.3987 in fixed32, because exp lacks half of its linear term between the integers. What holds: C133_exp_log_partial (0.809 x <= exp(log x) <= 1.004 x for x >= 1), C133_exp_log_below_partial (0.996 x - ulp <= exp(log x) <= 1.25 x below one), C133_log_exp_partial (x - 0.223 <= log(exp x) <= x + 0.004)."
  },
  {
   "property": "C134",
   "status": "partial",
   "theorems": [
    "Eirin.Props.C134_false",
    "Eirin.Props.C134_sqrt_square_partial",
    "Eirin.Props.C134_square_sqrt_partial",
    "Eirin.Props.C134_newton_partial"
   ],
   "note": "False (C134_false): sqrt((1+ulp)^2) = 1 in fixed32, since the product is floored first. What holds: C134_sqrt_square_partial (never above |x|, equal exactly when x^2 is representable, at most one ulp below for |x| > 1/2), C134_square_sqrt_partial (the square of the root), C134_newton_partial (64-bit layouts)."
  },
  {
   "property": "C135",
   "status": "partial",
   "theorems": [
    "Eirin.Props.C135_none_increasing",
    "Eirin.Props.C135_false",
    "Eirin.Props.C135_trig_partial",
    "Eirin.Props.C135_atan_partial",
    "Eirin.Props.C135_sqrt_partial",
    "Eirin.Props.C135_cbrt_partial",
    "Eirin.Props.C135_hypot_partial"
   ],
   "note": "False for sin, tan, atan, asin, cbrt (fixed32) and sqrt (fixed64), with one witness each (C135_none_increasing): sin(9 ulp) < sin(8 ulp), and sqrt(32 ulp) < sqrt(31 ulp) in fixed64 by three percent. What holds: C135_trig_partial, C135_atan_partial, C135_sqrt_partial, C135_cbrt_partial (order up to an explicit slack) and C135_hypot_partial (exact, fixed32). For log2, log, log10, exp and the fixed32 sqrt see C100, C114, C130, C28."
  },
  {
   "property": "C136",
   "status": "partial",
   "theorems": [
    "Eirin.Props.C136_false",
    "Eirin.Props.C136_functions",
    "Eirin.Props.C136_arith_partial",
    "Eirin.Props.C136_functions_partial",
    "Eirin.Props.C136_pow_partial",
    "Eirin.Props.C136_hypot_partial"
   ],
   "note": "False (C136_false): 1 * 1 = 2 in the rounding variant, which turns sin(1) into -1.78, cos(0) into 0, exp(1) into 10.87 (C136_functions). What holds: C136_arith_partial and C136_functions_partial (everything not built on fixed*fixed or fixed/fixed is literally independent of the parameter, including printing, parsing and formatting); the damage has closed forms for pow (C136_pow_partial: pow(b, n) = (2b)^n) and hypot (C136_hypot_partial: a factor of the square root of two)."
  },
  {
   "property": "C137",
   "status": "partial",
   "theorems": [
    "Eirin.Props.C137_race",
    "Eirin.Props.C137_early",
    "Eirin.Props.C137_false",
    "Eirin.Props.C137_sound_partial",
    "Eirin.Props.C137_lost",
    "Eirin.Props.C137_first_alone_partial"
   ],
   "note": "False of the code: the flag is set before the bits, so a second thread is told that nothing is supported (C137_early), the accesses race (C137_race), and a lost update between two detecting threads makes features unavailable for ever (C137_lost). Proved: no schedule of any number of threads ever reports a feature the processor lacks, and if one thread completes a query first all later answers of all threads are right with no race."
  },
  {
   "property": "C138",
   "status": "partial",
   "theorems": [
    "Eirin.Props.C138_false",
    "Eirin.Props.C138_base_partial",
    "Eirin.Props.C138_exponent_partial",
    "Eirin.Props.C138_exponent_small_partial",
    "Eirin.Props.C138_negative_base_partial"
   ],
   "note": "False (C138_false): on fixed32 (1+2^-16)^-1024 comes out larger than (1+2^-16)^-1023. Proved for non-negative exponents on every non-rounding type: monotone in the base (C138_base_partial), increasing in the exponent for bases of at least one (C138_exponent_partial), decreasing for bases in (0,1] (C138_exponent_small_partial); for negative exponents decreasing in the base (C138_negative_base_partial)."
  },
  {
   "property": "C139",
   "status": "partial",
   "theorems": [
    "Eirin.Props.C139_false",
    "Eirin.Props.C139_sqrt_partial"
   ],
   "note": "False (C139_false) with 31 fraction bits in 32 bits: the sum of the two iterates wraps and sqrt(1.99) = 0.155. Proved for all layouts with at least three integer bits and all arguments (C139_sqrt_partial): the difference argument minus square wraps to a large value whenever the square is too large, so the loop is then never left early and nothing overflows, unlike on signed layouts (C112)."
  },
  {
   "property": "C140",
   "status": "partial",
   "theorems": [
    "Eirin.Props.C140_false",
    "Eirin.Props.C140_zero_partial",
    "Eirin.Props.C140_large_partial",
    "Eirin.Props.C140_small_partial",
    "Eirin.Props.C140_never_left",
    "Eirin.Props.C140_diverges",
    "Eirin.Props.C140_wide"
   ],
   "note": "False (C140_false): log2(0.5) on an unsigned 16.16 type is 65535. Proved: zero throws (C140_zero_partial); every argument of at least one is right to four units on all layouts with at least two integer bits and at most 32 fraction bits (C140_large_partial); below one the result exceeds the logarithm by a positive multiple of the span of the type (C140_small_partial); with 31 fraction bits in 32 bits the second loop is never left (C140_never_left, C140_diverges); with more than 32 fraction bits the first shift is undefined (C140_wide)."
  },
  {
   "property": "C141",
   "status": "partial",
   "theorems": [
    "Eirin.Props.C141_false",
    "Eirin.Props.C141_tan",
    "Eirin.Props.C141_sin_partial",
    "Eirin.Props.C141_cos_partial",
    "Eirin.Props.C141_cos_wraps_partial"
   ],
   "note": "False (C141_false): cos(1) on an unsigned 16.16 type is 65535.07, and tan(1) is 0 (C141_tan). Proved: sin is right up to half a turn and exceeds the sine by the span of the type from there to the full turn (C141_sin_partial); cos is right at zero and between three and five quarters of a turn (C141_cos_partial); below, it is the sine of an angle off by the span of the type (C141_cos_wraps_partial). Left open: sin within eight units of the full turn and of larger angles, where the reflected angle may wrap."
  },
  {
   "property": "C142",
   "status": "proved",
   "theorems": [
    "Eirin.Props.C142_value",
    "Eirin.Props.C142_bounds",
    "Eirin.Props.C142_signed"
   ],
   "note": "The defect of exp (the missing half of the linear coefficient, C37/C99/C110) is the same as on signed layouts."
  },
  {
   "property": "C143",
   "status": "partial",
   "theorems": [
    "Eirin.Props.C143_across_partial",
    "Eirin.Props.C143_half_partial",
    "Eirin.Props.C143_minus_two",
    "Eirin.Props.C143_false",
    "Eirin.Props.C143_root_partial",
    "Eirin.Props.C143_near_partial"
   ],
   "note": "False: cbrt(-2) divides by zero on every such layout, since the start value (x+2)/3 is 0 (C143_minus_two, C143_false). C143_root_partial: for every argument from -5 down the result is defined, negative, and within one ulp above and 28 below the root in magnitude unless the loop stops early with the cube within 10/65536. C143_near_partial: the same between -5 and -35/16 wherever the cube of |x|/(2 s^2), s = (|x|-2)/3, fits the type (a bound for the value of the first pass). C143_across_partial: the same between -29/16 and -11/16, where the start value is positive and the first pass jumps over zero. C143_half_partial: between -11/16 and -1/2, without a condition. Open: closer to -2 than that, where the cube in the stopping test leaves the type, and between -1/2 and 0, where scattered arguments divide by zero or overflow."
  },
  {
   "property": "C144",
   "status": "partial",
   "theorems": [
    "Eirin.Props.C144_false",
    "Eirin.Props.C144_zero_partial",
    "Eirin.Props.C144_large_partial",
    "Eirin.Props.C144_small_partial",
    "Eirin.Props.C144_monotone"
   ],
   "note": "False below one: the base-2 logarithm wraps and the division spreads the wrapped value, so log(1/2) is about 45425.6 on the 16.16 layout (C144_false); C144_small_partial gives the exact offset (n times ln 2 times the span of the type) for every argument in (0,1). C144_large_partial: from one on, the accuracy of the signed layouts over the whole unsigned range; C144_zero_partial: domain error at zero; C144_monotone: all three logarithms preserve order from one on."
  },
  {
   "property": "C145",
   "status": "partial",
   "theorems": [
    "Eirin.Props.C145_false",
    "Eirin.Props.C145_log2_partial",
    "Eirin.Props.C145_log_partial",
    "Eirin.Props.C145_diverges"
   ],
   "note": "False: in 16 bits with 12 fraction bits the logarithm of 2^-9 comes out as +7 (C145_false). C145_log2_partial: log2 is never undefined on layouts that hold the numbers below two, it is right to four ulp exactly when the integral part of the logarithm is representable and otherwise too large by a positive multiple of the span; C145_log_partial: log and log10 in the representable case; C145_diverges: on signed layouts without integer bits the first loop never ends."
  },
  {
   "property": "C146",
   "status": "partial",
   "theorems": [
    "Eirin.Props.C146_false",
    "Eirin.Props.C146_sqrt_partial",
    "Eirin.Props.C146_sharp"
   ],
   "note": "False: with 6 fraction bits in 8 bits the second iterate wraps to zero and is divided by (C146_false). C146_sqrt_partial: true on every layout with at least three bits besides the fraction, zero gives zero and negatives give -1; C146_sharp: on every other layout the root of the second largest number is wrong, so the condition is exact."
  },
  {
   "property": "C147",
   "status": "partial",
   "theorems": [
    "Eirin.Props.C147_false",
    "Eirin.Props.C147_value_partial",
    "Eirin.Props.C147_overflow_partial",
    "Eirin.Props.C147_zero_divisor",
    "Eirin.Props.C147_round_trip_partial"
   ],
   "note": "False: with 8-bit storage and 16-bit intermediate \"4096\" is accepted as zero (C147_false). C147_value_partial: in range and with as many fraction digits as the intermediate type can hold, the result is the floor of a prefix of the numeral, within 11 ulp below, exact without fraction; C147_overflow_partial: a too large numeral whose integer part fits the accumulator is rejected and the target keeps its value; C147_round_trip_partial: text printed by operator<< parses back within ten ulp, integers exactly, except the signed minimum and the unsigned 2^(bits-1); C147_zero_divisor: with a 16-bit intermediate type \"0.\" and sixteen or more zeros divides by zero."
  },
  {
   "property": "C148",
   "status": "proved",
   "theorems": [
    "Eirin.Props.C148_odd",
    "Eirin.Props.C148_periodic",
    "Eirin.Props.C148_zero",
    "Eirin.Props.C148_bounded",
    "Eirin.Props.C148_pythagoras",
    "Eirin.Props.C148_cos_even"
   ],
   "note": "C80 and C81 on every layout, and with bounds that do not grow with the argument."
  },
  {
   "property": "C149",
   "status": "partial",
   "theorems": [
    "Eirin.Props.C149_factor",
    "Eirin.Props.C149_accuracy_partial",
    "Eirin.Props.C149_wrong",
    "Eirin.Props.C149_two_bits",
    "Eirin.Props.C149_false"
   ],
   "note": "False with two to seven integer bits, where fixed(180) becomes 0, 4, 4, 20, 52 or 52: C149_two_bits (radians divides by zero for every argument), C149_wrong (wrong from 1 on with three to seven). C149_factor gives both functions with the reduced factor; C149_accuracy_partial: the statement with at least eight integer bits."
  },
  {
   "property": "C150",
   "status": "partial",
   "theorems": [
    "Eirin.Props.C150_mul",
    "Eirin.Props.C150_mul_defined",
    "Eirin.Props.C150_div_zero",
    "Eirin.Props.C150_div_partial",
    "Eirin.Props.C150_div_wrong",
    "Eirin.Props.C150_div_exact",
    "Eirin.Props.C150_false",
    "Eirin.Props.C150_add_sub",
    "Eirin.Props.C150_add_overflow",
    "Eirin.Props.C150_add_wide"
   ],
   "note": "Division is false for a negative dividend and an unsigned integer type at least as wide as int and as the storage: C150_false, C150_div_wrong (on every signed layout the least negative number divided by 2u is not 0), C150_div_exact (when the widths are equal: right exactly for n = 1 and n > 2^b + x); everything else: C150_div_partial, C150_div_zero. C150_mul, C150_mul_defined. Addition: C150_add_sub; the one exception, 16-bit unsigned storage with 15 fraction bits, where the sum in int overflows, is characterised in C150_add_overflow; C150_add_wide: on signed 32- and 64-bit storage an integer that is not representable makes the addition undefined even if the sum is representable."
  },
  {
   "property": "C151",
   "status": "partial",
   "theorems": [
    "Eirin.Props.C151_epsilon",
    "Eirin.Props.C151_nearly_partial",
    "Eirin.Props.C151_unsigned",
    "Eirin.Props.C151_false"
   ],
   "note": "False on unsigned storage of 32 and 64 bits: C151_false (nearly_eq(x,x) is false), C151_unsigned gives the outcome of all six on every such layout: with 14 or more fraction bits nothing is nearly equal to itself; nearly_gt is true of pairs x < y. C151_epsilon: the tolerance on every layout (zero with at most 13 fraction bits). C151_nearly_partial: the statement on signed storage, and on 8- and 16-bit storage, signed or not, for all pairs without exception."
  },
  {
   "property": "C152",
   "status": "partial",
   "theorems": [
    "Eirin.Props.C152_fmod",
    "Eirin.Props.C152_unsigned",
    "Eirin.Props.C152_unsigned_partial",
    "Eirin.Props.C152_false",
    "Eirin.Props.C152_modf"
   ],
   "note": "C152_fmod and C152_modf hold on every layout. The unsigned claim is false when the quotient is out of range (C152_false): C152_unsigned gives fmod in closed form for all arguments of every unsigned layout, C152_unsigned_partial that it is the modulus exactly when the quotient is in range."
  },
  {
   "property": "C153",
   "status": "partial",
   "theorems": [
    "Eirin.Props.C153_int",
    "Eirin.Props.C153_decimal_partial",
    "Eirin.Props.C153_sharp",
    "Eirin.Props.C153_false"
   ],
   "note": "C153_int holds for all values, including the lowest unit where the wide layouts have undefined behaviour. C153_statement (decimals on every unsigned layout) is false (C153_false); C153_decimal_partial proves it wherever ten is storable, C153_sharp that everywhere else the largest number below one is printed wrongly or read out of bounds."
  },
  {
   "property": "C154",
   "status": "proved",
   "theorems": [
    "Eirin.Props.C154_modular",
    "Eirin.Props.C154_wide",
    "Eirin.Props.C154_order",
    "Eirin.Props.C154_neg"
   ],
   "note": "C154_modular, C154_wide (induction on the list), C154_order, C154_neg."
  },
  {
   "property": "C155",
   "status": "partial",
   "theorems": [
    "Eirin.Props.C155_closed",
    "Eirin.Props.C155_false",
    "Eirin.Props.C155_unsigned_partial",
    "Eirin.Props.C155_narrow_partial",
    "Eirin.Props.C155_minus_one"
   ],
   "note": "False because the squares wrap silently (C155_false: hypot(256,0)=0 in unsigned 16.16; C155_minus_one: -1 in 16-bit storage). C155_unsigned_partial and C155_narrow_partial prove it whenever the sum of the squares is storable; C155_closed says for all arguments what is computed."
  },
  {
   "property": "C156",
   "status": "partial",
   "theorems": [
    "Eirin.Props.C156_unsigned",
    "Eirin.Props.C156_narrow",
    "Eirin.Props.C156_false",
    "Eirin.Props.C156_value_partial",
    "Eirin.Props.C156_round_trip_partial"
   ],
   "note": "False: the used fraction digits shifted left wrap on unsigned layouts with half or more fraction bits (C156_false: 0.65537 reads as 0 in unsigned 16.16). C156_unsigned and C156_narrow give the exact outcome on every numeral (division by zero from as many used digits as bits, int overflow in 16-bit storage); C156_value_partial gives the value when the power of ten fits and, on unsigned layouts, the shifted digits fit (always with fewer than half of the bits fraction); C156_round_trip_partial: printed values that are read back exactly."
  },
  {
   "property": "C157",
   "status": "partial",
   "theorems": [
    "Eirin.Props.C157_root",
    "Eirin.Props.C157_false",
    "Eirin.Props.C157_zero",
    "Eirin.Props.C157_cubes_back_partial"
   ],
   "note": "False: in unsigned 8.24 storage cbrt(17.47) is 6.49 because the cube of the start value wraps to just below the argument (C157_false), and with at most 13 fraction bits cbrt(0) divides by zero (C157_zero). C157_root: with 16 fraction bits or more it is always defined, at most one ulp below the root, and at most 28 above unless its cube agrees with the argument modulo the span of the type; C157_cubes_back_partial: it cubes back whenever the start value has a cube in range."
  },
  {
   "property": "C158",
   "status": "proved",
   "theorems": [
    "Eirin.Props.C158_large",
    "Eirin.Props.C158_small",
    "Eirin.Props.C158_shift",
    "Eirin.Props.C158_negative_base",
    "Eirin.Props.C158_whole"
   ],
   "note": "Generalises C111 from the two library types. C158_large, C158_small, C158_whole, C158_negative_base, and C158_shift for layouts on which log2 shifts out of range."
  },
  {
   "property": "C159",
   "status": "partial",
   "theorems": [
    "Eirin.Props.C159_half",
    "Eirin.Props.C159_false",
    "Eirin.Props.C159_one",
    "Eirin.Props.C159_defined",
    "Eirin.Props.C159_small_partial",
    "Eirin.Props.C159_domain",
    "Eirin.Props.C159_ends"
   ],
   "note": "False: atan(1/2) is wrong by more than 1/12 on every unsigned layout with four or more integer bits (C159_half), by 512 in 16.16 (C159_false). C159_defined: never undefined; C159_one: right at one; C159_small_partial: right where the square of the argument is below one ulp; C159_domain: asin and acos throw exactly above one and are defined below; C159_ends: asin(1), acos(0), acos(1) and arguments whose square is below one ulp."
  },
  {
   "property": "C160",
   "status": "partial",
   "theorems": [
    "Eirin.Props.C160_large_partial",
    "Eirin.Props.C160_whole_partial",
    "Eirin.Props.C160_half",
    "Eirin.Props.C160_false"
   ],
   "note": "False: pow(1/2, 1/2) exceeds 3/2 on every such layout, because the logarithm of the base wraps (C160_half, C160_false). C160_large_partial: for bases of at least one it lies between (0.8 - n ulp) b^e and 1.004 b^e; C160_whole_partial: whole exponents give the integer power for every base."
  },
  {
   "property": "C161",
   "status": "partial",
   "theorems": [
    "Eirin.Props.C161_units_partial",
    "Eirin.Props.C161_throws",
    "Eirin.Props.C161_wide",
    "Eirin.Props.C161_one_unit",
    "Eirin.Props.C161_false"
   ],
   "note": "False: a fill of two or more code units (every non-ASCII fill in UTF-8, everything outside the BMP in UTF-16) raises format_error (C161_false, C161_throws, C161_one_unit). C161_units_partial: fills of one code unit are right in every encoding; C161_wide: in UTF-32 every fill is."
  },
  {
   "property": "C162",
   "status": "proved",
   "theorems": [
    "Eirin.Props.C162_product",
    "Eirin.Props.C162_product_small",
    "Eirin.Props.C162_power",
    "Eirin.Props.C162_power_small",
    "Eirin.Props.C162_base",
    "Eirin.Props.C162_inexact"
   ],
   "note": "C162_product, C162_product_small (sums of exponents), C162_power, C162_power_small (powers of powers), C162_base (products of bases); C162_inexact: the laws do not hold exactly."
  },
  {
   "property": "C163",
   "status": "partial",
   "theorems": [
    "Eirin.Props.C163_extrapolates",
    "Eirin.Props.C163_constant_partial",
    "Eirin.Props.C163_false"
   ],
   "note": "False: integral_part of a negative quotient rounds away from zero, so a negative angle is moved further from zero by 2*pi*n, and the position left of the table is clamped to its last two entries. C163_extrapolates: exact form for every table; C163_constant_partial: with the library's 512-entry table every angle in [-131072, -7 ulp] gives sin(3) = 0.1411."
  },
  {
   "property": "C164",
   "status": "proved",
   "theorems": [
    "Eirin.Props.C164_double",
    "Eirin.Props.C164_scale",
    "Eirin.Props.C164_product",
    "Eirin.Props.C164_quotient"
   ],
   "note": "C164_double (every layout, whenever both logarithms return), C164_scale, C164_product, C164_quotient. On unsigned and narrow layouts the sum and difference laws are for factors of at least one, since smaller ones have logarithms outside the type (C140, C145)."
  },
  {
   "property": "C165",
   "status": "proved",
   "theorems": [
    "Eirin.Props.C165_pythagoras",
    "Eirin.Props.C165_sin_add",
    "Eirin.Props.C165_cos_add",
    "Eirin.Props.C165_double"
   ],
   "note": "C165_pythagoras, C165_sin_add, C165_cos_add, C165_double; every intermediate product and sum is shown to be defined."
  },
  {
   "property": "C166",
   "status": "partial",
   "theorems": [
    "Eirin.Props.C166_false",
    "Eirin.Props.C166_shift_partial",
    "Eirin.Props.C166_factor_partial"
   ],
   "note": "False: exp(1/2)*exp(1/2) = 1.96 but exp(1) = 2.72 (C166_false). C166_shift_partial: adding an integral argument multiplies the result correctly, with an explicit relative error. C166_factor_partial: for all pairs the product is between 0.65 and 1.25 times exp(x + y)."
  },
  {
   "property": "C167",
   "status": "proved",
   "theorems": [
    "Eirin.Props.C167_passes"
   ],
   "note": "C167_passes. cos(-x) = cos(x) does not hold either: negative angles are used without their sign bit (C65, C66); the circle bound holds for them as well."
  },
  {
   "property": "C168",
   "status": "partial",
   "theorems": [
    "Eirin.Props.C168_false",
    "Eirin.Props.C168_floor_partial",
    "Eirin.Props.C168_ceil_partial",
    "Eirin.Props.C168_trunc_partial",
    "Eirin.Props.C168_round_partial",
    "Eirin.Props.C168_ceil_neg"
   ],
   "note": "False for ceil of every negative number (C168_false: ceil(-1) = -1/65536; C168_ceil_neg gives the value on every signed type) and for floor within a unit of the minimum. C168_floor_partial, C168_ceil_partial, C168_trunc_partial (no restriction), C168_round_partial prove the laws elsewhere."
  },
  {
   "property": "C169",
   "status": "partial",
   "theorems": [
    "Eirin.Props.C169_false",
    "Eirin.Props.C169_unsigned_partial",
    "Eirin.Props.C169_narrow_partial",
    "Eirin.Props.C169_negative"
   ],
   "note": "Unsigned layouts: no exception (C169_unsigned_partial). Narrow layouts: non-negative numbers and negative integers (C169_narrow_partial); false for negative non-integers, which come back one too low (C169_false, C169_negative)."
  },
  {
   "property": "C170",
   "status": "partial",
   "theorems": [
    "Eirin.Props.C170_false",
    "Eirin.Props.C170_order_partial",
    "Eirin.Props.C170_signs"
   ],
   "note": "Signs: proved without exception (C170_signs). Order: two arguments, first two of three and a zero third proved without exception; exchanging the third proved when sums wrap (unsigned or narrow layouts) or the exact sum of squares fits (C170_order_partial); false otherwise on signed wide layouts: hypot(170,170,200) overflows, hypot(170,200,170) is 179.6 (C170_false)."
  },
  {
   "property": "C171",
   "status": "proved",
   "theorems": [
    "Eirin.Props.C171_returns",
    "Eirin.Props.C171_only_div_zero",
    "Eirin.Props.C171_cos_div_zero",
    "Eirin.Props.C171_logs",
    "Eirin.Props.C171_reached"
   ],
   "note": "C171_returns, C171_only_div_zero, C171_logs; C171_cos_div_zero: without an integer bit every call of cos and tan divides by zero; C171_reached: the allowed divisions by zero do happen."
  },
  {
   "property": "C172",
   "status": "partial",
   "theorems": [
    "Eirin.Props.C172_false",
    "Eirin.Props.C172_limits_partial",
    "Eirin.Props.C172_manual"
   ],
   "note": "Signed types: proved. False for unsigned types, where both are off by half the span (C172_false, C172_limits_partial). The formula the manual gives for the maximum is zero for every type (C172_manual)."
  },
  {
   "property": "C173",
   "status": "partial",
   "theorems": [
    "Eirin.Props.C173_logs",
    "Eirin.Props.C173_unsigned_partial",
    "Eirin.Props.C173_narrow_partial",
    "Eirin.Props.C173_eight_partial",
    "Eirin.Props.C173_shift",
    "Eirin.Props.C173_diverges",
    "Eirin.Props.C173_false"
   ],
   "note": "False as stated (C173_false: 3/16 to the power -3 on the signed 8-bit type with 4 fraction bits divides by zero). Proved: C173_unsigned_partial (always returns), C173_narrow_partial (outcome by signs: negative base ends the program), C173_eight_partial, C173_logs; C173_shift and C173_diverges give the layouts where no power is defined."
  },
  {
   "property": "C174",
   "status": "partial",
   "theorems": [
    "Eirin.Props.C174_false",
    "Eirin.Props.C174_agree_partial",
    "Eirin.Props.C174_negative",
    "Eirin.Props.C174_table"
   ],
   "note": "False for negative angles, whose sign bit CORDIC drops: sin(-1) is -0.84 by the series and -0.25 by CORDIC (C174_false). C174_agree_partial: every non-negative angle. C174_negative: for a negative angle CORDIC gives minus the series at the angle increased by half the span of the type. C174_table: the table-driven sine agrees with neither."
  },
  {
   "property": "C175",
   "status": "proved",
   "theorems": [
    "Eirin.Props.C175_add",
    "Eirin.Props.C175_sub_min",
    "Eirin.Props.C175_mul",
    "Eirin.Props.C175_order",
    "Eirin.Props.C175_not_exact"
   ],
   "note": "C175_add: sums and differences; the difference needs a subtrahend that does not narrow to the minimum, otherwise the narrow subtraction can overflow although the narrowed difference fits (C175_sub_min). C175_mul: products. C175_order: negation, min, max, order. C175_not_exact: the one-ulp bound is attained."
  },
  {
   "property": "C176",
   "status": "partial",
   "theorems": [
    "Eirin.Props.C176_false",
    "Eirin.Props.C176_outcome_partial",
    "Eirin.Props.C176_digit"
   ],
   "note": "False: 0.1 comes back as 0.0 (C176_false). C176_outcome_partial: the exact outcome for every such text: it survives exactly if it denotes a multiple of one ulp, otherwise it comes back one unit of the last decimal smaller. C176_digit: the surviving texts by divisibility of the decimals."
  },
  {
   "property": "C177",
   "status": "proved",
   "theorems": [
    "Eirin.Props.C177_atan_odd",
    "Eirin.Props.C177_asin_odd",
    "Eirin.Props.C177_acos_complement",
    "Eirin.Props.C177_acos_sum"
   ],
   "note": "C177_atan_odd, C177_asin_odd, C177_acos_complement, C177_acos_sum. Generalises the odd parts of C41, C42 and C106 to all arguments of all wide signed layouts."
  },
  {
   "property": "C178",
   "status": "proved",
   "theorems": [
    "Eirin.Props.C178_exact",
    "Eirin.Props.C178_rem",
    "Eirin.Props.C178_mul",
    "Eirin.Props.C178_div",
    "Eirin.Props.C178_trunc",
    "Eirin.Props.C178_floor",
    "Eirin.Props.C178_ceil",
    "Eirin.Props.C178_round",
    "Eirin.Props.C178_text",
    "Eirin.Props.C178_format"
   ],
   "note": "proved for all pairs of layouts; side conditions: results representable in both types, one unit of room for floor/ceil, room for one decimal digit above the fraction for text, and not the unsigned value with only the top bit set for stream output"
  },
  {
   "property": "C179",
   "status": "proved",
   "theorems": [
    "Eirin.Props.C179_signed",
    "Eirin.Props.C179_unsigned",
    "Eirin.Props.C179_zero",
    "Eirin.Props.C179_beyond",
    "Eirin.Props.C179_negative"
   ],
   "note": "C179_signed and C179_unsigned: integer Newton iteration with real-valued comparison (never more than one below the root by AM-GM; contraction by 2/3 while above root + t; the band below root + t is kept, by a polynomial inequality for large roots and a kernel-evaluated finite table of small ones). C179_negative: the mirror image for arguments from -5 downwards (the first step from the start value below the root lands above it). C179_zero: division by zero for the argument 0 on every such layout. C179_beyond: concrete failures outside the condition."
  },
  {
   "property": "C180",
   "status": "partial",
   "theorems": [
    "Eirin.Props.C180_lowest",
    "Eirin.Props.C180_false",
    "Eirin.Props.C180_domain_partial",
    "Eirin.Props.C180_accuracy"
   ],
   "note": "C180_false: asin(-128) = -128 for 16-bit storage with 8 fraction bits. C180_lowest: the lowest number on every such layout (complete finite table of layouts). C180_domain_partial: every other number outside [-1, 1] raises std::domain_error. C180_accuracy: error bound through the integer square root, the quotient and the atan polynomial, in the reals."
  },
  {
   "property": "C181",
   "status": "proved",
   "theorems": [
    "Eirin.Props.C181_operators",
    "Eirin.Props.C181_functions",
    "Eirin.Props.C181_powers",
    "Eirin.Props.C181_divide",
    "Eirin.Props.C181_trig",
    "Eirin.Props.C181_log2",
    "Eirin.Props.C181_logs",
    "Eirin.Props.C181_log_loops",
    "Eirin.Props.C181_text"
   ],
   "note": "C181_operators, C181_functions, C181_powers, C181_text: structural proof that neither an exception nor an endless loop is reachable, with inductions for the loops of sqrt, cbrt, pow and the parsers. C181_divide, C181_trig, C181_log2: exact conditions of the exceptions. C181_logs: log, log10 and pow(fixed, fixed). C181_log_loops: measure argument for the loops of log2."
  },
  {
   "property": "C182",
   "status": "proved",
   "theorems": [
    "Eirin.Props.C182_output",
    "Eirin.Props.C182_buffer",
    "Eirin.Props.C182_format",
    "Eirin.Props.C182_spec",
    "Eirin.Props.C182_extract",
    "Eirin.Props.C182_cordic"
   ],
   "note": "C182_output, C182_buffer: stream output. C182_format: std::format. C182_spec: the specification parser. C182_extract: operator>> with stream state. C182_cordic: CORDIC."
  },
  {
   "property": "C183",
   "status": "proved",
   "theorems": [
    "Eirin.Props.C183_signed",
    "Eirin.Props.C183_unsigned",
    "Eirin.Props.C183_zero",
    "Eirin.Props.C183_negative"
   ],
   "note": "C183_signed, C183_unsigned: arguments from 4/65536 up. C183_negative: from -5 down. C183_zero: below the tolerance. With C117 (at least 16 fraction bits) and C179 (at most 13) every signed non-rounding layout is covered."
  },
  {
   "property": "C184",
   "status": "proved",
   "theorems": [
    "Eirin.Props.C184_operators",
    "Eirin.Props.C184_functions",
    "Eirin.Props.C184_logs",
    "Eirin.Props.C184_text",
    "Eirin.Props.C184_io_parse"
   ],
   "note": "C184_operators, C184_functions, C184_logs, C184_text, C184_io_parse. Text output is C185."
  },
  {
   "property": "C185",
   "status": "partial",
   "theorems": [
    "Eirin.Props.C185_table_partial",
    "Eirin.Props.C185_sharp",
    "Eirin.Props.C185_no_integer_bit",
    "Eirin.Props.C185_false"
   ],
   "note": "False as stated (C185_false). C185_table_partial: holds wherever the number one is representable, on unsigned storage, on storage of at least 32 bits and on any storage with room for a decimal digit before the point; bases 2, 8 and 16 always. C185_sharp: on every other 8- and 16-bit signed layout a number below one makes both the stream and std::format read outside the table. C185_no_integer_bit: on signed storage without an integer bit every number other than zero and the smallest one does so in base 2, 8 and 16."
  },
  {
   "property": "C186",
   "status": "partial",
   "theorems": [
    "Eirin.Props.C186_false",
    "Eirin.Props.C186_log_partial",
    "Eirin.Props.C186_angle_partial"
   ],
   "note": "False as stated (C186_false: log(2) is 1.386). C186_log_partial: wherever log2 is defined, log and log10 are twice a number within a few ulps of the logarithm, reduced to the storage type, for 8 to 32 fraction bits. C186_angle_partial: radians is four times the angle within the stated error, degrees is four times a number near the angle, reduced to the storage type, for up to 60 fraction bits with nine integer bits."
  },
  {
   "property": "C187",
   "status": "partial",
   "theorems": [
    "Eirin.Props.C187_sqrt_partial",
    "Eirin.Props.C187_false"
   ],
   "note": "False as stated (C187_false: sqrt(4) is 2.828). C187_sqrt_partial: the result is the root of twice the argument, within one ulp and a relative error of 2^-47."
  },
  {
   "property": "C188",
   "status": "partial",
   "theorems": [
    "Eirin.Props.C188_false",
    "Eirin.Props.C188_hypot_partial"
   ],
   "note": "False as stated (C188_false: hypot(3, 4) is 10). C188_hypot_partial: the result is twice the length within the stated error, for two and for three arguments."
  },
  {
   "property": "C189",
   "status": "proved",
   "theorems": [
    "Eirin.Props.C189_dot",
    "Eirin.Props.C189_horner",
    "Eirin.Props.C189_loss"
   ],
   "note": "C189_dot and C189_horner are inductions on the list; C189_loss shows a loop of every length whose loss approaches one ulp per product."
  },
  {
   "property": "C190",
   "status": "proved",
   "theorems": [
    "Eirin.Props.C190_lerp",
    "Eirin.Props.C190_ends",
    "Eirin.Props.C190_mono",
    "Eirin.Props.C190_difference"
   ],
   "note": "C190_lerp, C190_ends and C190_mono; C190_difference shows that the condition on the difference is needed."
  },
  {
   "property": "C191",
   "status": "proved",
   "theorems": [
    "Eirin.Props.C191_rotate",
    "Eirin.Props.C191_length"
   ],
   "note": "C191_rotate (coordinates) and C191_length; built on C113 for the functions and on C02 for the products."
  },
  {
   "property": "C192",
   "status": "proved",
   "theorems": [
    "Eirin.Props.C192_cbrt"
   ],
   "note": "C192_cbrt. The doubled square under the doubled quotient gives the right Newton step; the computed cube is four times the cube, so the exit test never succeeds and the loop always makes 201 passes."
  },
  {
   "property": "C193",
   "status": "partial",
   "theorems": [
    "Eirin.Props.C193_fmod_partial",
    "Eirin.Props.C193_false"
   ],
   "note": "False as stated (C193_false: fmod(7, 2) is -21). C193_fmod_partial: the result is a - 2bk with k twice the quotient rounded down up to one ulp, hence within 2b(1 + ulp) of -3a."
  },
  {
   "property": "C194",
   "status": "proved",
   "theorems": [
    "Eirin.Props.C194_above",
    "Eirin.Props.C194_stall",
    "Eirin.Props.C194_below"
   ],
   "note": "C194_above, C194_below and C194_stall: inductions on the number of steps using the interpolation of C190."
  },
  {
   "property": "C195",
   "status": "partial",
   "theorems": [
    "Eirin.Props.C195_dot_partial",
    "Eirin.Props.C195_horner_partial",
    "Eirin.Props.C195_false"
   ],
   "note": "False as stated (C195_false: the product of one and one is two). C195_dot_partial: the loop yields twice the scalar product; C195_horner_partial: Horner's scheme evaluates the polynomial at twice the argument, both within the stated error. This is what happens to the polynomials inside sin, exp and atan on rounding types."
  },
  {
   "property": "C196",
   "status": "proved",
   "theorems": [
    "Eirin.Props.C196_normalize"
   ],
   "note": "C196_normalize, from C108 (hypot) and C03 (division)."
  },
  {
   "property": "C197",
   "status": "proved",
   "theorems": [
    "Eirin.Props.C197_positive",
    "Eirin.Props.C197_stall",
    "Eirin.Props.C197_negative"
   ],
   "note": "C197_positive, C197_stall, C197_negative, by induction on the number of steps."
  },
  {
   "property": "C198",
   "status": "partial",
   "theorems": [
    "Eirin.Props.C198_mean_partial",
    "Eirin.Props.C198_unsigned_partial",
    "Eirin.Props.C198_false"
   ],
   "note": "C198_mean_partial (what holds), C198_unsigned_partial (the exact wrong result), C198_false (witness on fixed32)."
  },
  {
   "property": "C199",
   "status": "partial",
   "theorems": [
    "Eirin.Props.C199_count",
    "Eirin.Props.C199_overflow",
    "Eirin.Props.C199_endless",
    "Eirin.Props.C199_unit_partial",
    "Eirin.Props.C199_false"
   ],
   "note": "C199_count, C199_overflow, C199_endless by induction on the passes; C199_unit_partial (when n passes), C199_false (a tenth on fixed32)."
  },
  {
   "property": "C200",
   "status": "partial",
   "theorems": [
    "Eirin.Props.C200_sum_partial",
    "Eirin.Props.C200_diff",
    "Eirin.Props.C200_overflow",
    "Eirin.Props.C200_false"
   ],
   "note": "C200_sum_partial and C200_overflow for (lo + hi) / 2, C200_false (witness on fixed32), C200_diff for the other midpoint; invariant of the loop in bisect_gen."
  },
  {
   "property": "C201",
   "status": "proved",
   "theorems": [
    "Eirin.Props.C201_filter",
    "Eirin.Props.C201_forget"
   ],
   "note": "C201_filter by induction on the input with the error bound as invariant; C201_forget from it."
  },
  {
   "property": "C202",
   "status": "proved",
   "theorems": [
    "Eirin.Props.C202_total",
    "Eirin.Props.C202_undo",
    "Eirin.Props.C202_defined",
    "Eirin.Props.C202_wide"
   ],
   "note": "C202_total, C202_undo, C202_defined, C202_wide, by induction on the list of updates."
  },
  {
   "property": "C203",
   "status": "partial",
   "theorems": [
    "Eirin.Props.C203_atan_partial",
    "Eirin.Props.C203_false"
   ],
   "note": "C203_atan_partial (what is computed), C203_false (witness); the error of each doubled product is propagated through the Horner scheme."
  },
  {
   "property": "C204",
   "status": "partial",
   "theorems": [
    "Eirin.Props.C204_positive_partial",
    "Eirin.Props.C204_negative_partial",
    "Eirin.Props.C204_false"
   ],
   "note": "C204_positive_partial and C204_negative_partial (what is computed), C204_false (witness); the error of each doubled product is propagated through the Horner scheme."
  },
  {
   "property": "C205",
   "status": "partial",
   "theorems": [
    "Eirin.Props.C205_pow_partial",
    "Eirin.Props.C205_false"
   ],
   "note": "C205_pow_partial (what is computed), C205_false (witness); invariant of the square-and-divide loop over the binary digits of the exponent."
  },
  {
   "property": "C206",
   "status": "partial",
   "theorems": [
    "Eirin.Props.C206_ends_partial",
    "Eirin.Props.C206_false"
   ],
   "note": "C206_ends_partial (what is computed), C206_false (witness)."
  },
  {
   "property": "C207",
   "status": "partial",
   "theorems": [
    "Eirin.Props.C207_cos_partial",
    "Eirin.Props.C207_false",
    "Eirin.Props.C207_tan_throws"
   ],
   "note": "C207_cos_partial (what is computed), C207_false (witness), C207_tan_throws (consequence for one type)."
  },
  {
   "property": "C208",
   "status": "partial",
   "theorems": [
    "Eirin.Props.C208_half_partial",
    "Eirin.Props.C208_stall_partial",
    "Eirin.Props.C208_false"
   ],
   "note": "C208_half_partial and C208_stall_partial (what is computed), C208_false (witness); induction over the steps with the invariant that the number of ulps is even and at least two."
  },
  {
   "property": "C209",
   "status": "partial",
   "theorems": [
    "Eirin.Props.C209_lerp_partial",
    "Eirin.Props.C209_reflect_partial",
    "Eirin.Props.C209_oscillate_partial",
    "Eirin.Props.C209_false"
   ],
   "note": "C209_lerp_partial, C209_reflect_partial and C209_oscillate_partial (what is computed), C209_false (witness); induction over the steps."
  },
  {
   "property": "C210",
   "status": "proved",
   "theorems": [
    "Eirin.Props.C210_det",
    "Eirin.Props.C210_swap",
    "Eirin.Props.C210_orient",
    "Eirin.Props.C210_lost"
   ],
   "note": "C210_det, C210_swap, C210_orient; C210_lost shows that a small turn can be reported as zero."
  },
  {
   "property": "C211",
   "status": "proved",
   "theorems": [
    "Eirin.Props.C211_reversible",
    "Eirin.Props.C211_injective"
   ],
   "note": "C211_reversible, C211_injective."
  },
  {
   "property": "C212",
   "status": "proved",
   "theorems": [
    "Eirin.Props.C212_det",
    "Eirin.Props.C212_swap",
    "Eirin.Props.C212_orient",
    "Eirin.Props.C212_doubled"
   ],
   "note": "C212_det, C212_swap, C212_orient; C212_doubled shows that the value of the unit square is two."
  },
  {
   "property": "C213",
   "status": "partial",
   "theorems": [
    "Eirin.Props.C213_floor_partial",
    "Eirin.Props.C213_nearest_partial",
    "Eirin.Props.C213_false",
    "Eirin.Props.C213_outside"
   ],
   "note": "C213_floor_partial is the property on non-rounding layouts, C213_nearest_partial with a margin on rounding ones; C213_false refutes it there; C213_outside shows that points a little outside can be found inside."
  },
  {
   "property": "C214",
   "status": "partial",
   "theorems": [
    "Eirin.Props.C214_false",
    "Eirin.Props.C214_value_partial",
    "Eirin.Props.C214_order_partial",
    "Eirin.Props.C214_ends"
   ],
   "note": "C214_value_partial, C214_order_partial, C214_ends; C214_false refutes the monotonicity."
  },
  {
   "property": "C215",
   "status": "proved",
   "theorems": [
    "Eirin.Props.C215_steps",
    "Eirin.Props.C215_rate",
    "Eirin.Props.C215_zero"
   ],
   "note": "C215_steps, C215_rate, C215_zero."
  },
  {
   "property": "C216",
   "status": "proved",
   "theorems": [
    "Eirin.Props.C216_curve",
    "Eirin.Props.C216_cubic",
    "Eirin.Props.C216_ends"
   ],
   "note": "C216_curve, C216_ends; C216_cubic shows that the exact scheme is the usual cubic polynomial."
  },
  {
   "property": "C217",
   "status": "partial",
   "theorems": [
    "Eirin.Props.C217_false",
    "Eirin.Props.C217_weights_partial",
    "Eirin.Props.C217_zero"
   ],
   "note": "C217_weights_partial, C217_zero; C217_false refutes that the shares add up to one."
  },
  {
   "property": "C218",
   "status": "partial",
   "theorems": [
    "Eirin.Props.C218_growth_partial",
    "Eirin.Props.C218_stuck",
    "Eirin.Props.C218_false"
   ],
   "note": "C218_growth_partial, C218_stuck; C218_false refutes the bound of one ulp per multiplication."
  },
  {
   "property": "C219",
   "status": "proved",
   "theorems": [
    "Eirin.Props.C219_pick",
    "Eirin.Props.C219_none",
    "Eirin.Props.C219_mono"
   ],
   "note": "C219_pick, C219_none, C219_mono."
  },
  {
   "property": "C220",
   "status": "partial",
   "theorems": [
    "Eirin.Props.C220_growth_partial",
    "Eirin.Props.C220_false"
   ],
   "note": "C220_growth_partial describes the result; C220_false refutes the expected one."
  },
  {
   "property": "C221",
   "status": "proved",
   "theorems": [
    "Eirin.Props.C221_products",
    "Eirin.Props.C221_quotients",
    "Eirin.Props.C221_cross",
    "Eirin.Props.C221_tie"
   ],
   "note": "C221_products, C221_quotients, C221_cross; C221_tie shows that different products may be computed as equal."
  },
  {
   "property": "C222",
   "status": "partial",
   "theorems": [
    "Eirin.Props.C222_false",
    "Eirin.Props.C222_elapsed_partial",
    "Eirin.Props.C222_wrapping_partial"
   ],
   "note": "C222_wrapping_partial is the property on unsigned and narrow storage, C222_elapsed_partial on every layout while the clock is defined; C222_false refutes it on fixed32."
  },
  {
   "property": "C223",
   "status": "proved",
   "theorems": [
    "Eirin.Props.C223_value",
    "Eirin.Props.C223_corners",
    "Eirin.Props.C223_order"
   ],
   "note": "C223_value, C223_corners; C223_order shows that the order of the directions matters."
  },
  {
   "property": "C224",
   "status": "proved",
   "theorems": [
    "Eirin.Props.C224_area",
    "Eirin.Props.C224_reverse",
    "Eirin.Props.C224_moved"
   ],
   "note": "C224_area, C224_reverse; C224_moved shows that the result may depend on the position."
  },
  {
   "property": "C225",
   "status": "proved",
   "theorems": [
    "Eirin.Props.C225_inside",
    "Eirin.Props.C225_accepted",
    "Eirin.Props.C225_margin"
   ],
   "note": "C225_inside, C225_accepted; C225_margin shows points close to the boundary with both answers."
  },
  {
   "property": "C226",
   "status": "partial",
   "theorems": [
    "Eirin.Props.C226_area_partial",
    "Eirin.Props.C226_reverse",
    "Eirin.Props.C226_false"
   ],
   "note": "C226_area_partial describes the result, C226_reverse the change of sign; C226_false refutes the expected value."
  },
  {
   "property": "C227",
   "status": "partial",
   "theorems": [
    "Eirin.Props.C227_false",
    "Eirin.Props.C227_weights_partial"
   ],
   "note": "C227_weights_partial; C227_false refutes that the shares add up to one."
  }
 ]
}