{"id": "C01", "title": "Addition and subtraction are exact or undefined, never silently wrong", "statement": "For a fixed-point type with 32- or 64-bit signed storage, x + y (and x - y) yields exactly the sum (difference) of the two represented numbers whenever that number is representable, and is undefined behaviour (signed overflow) otherwise; there is no third outcome. For unsigned storage the result is the exact sum modulo the storage range.", "quantifier": "every valid fixed-point type and every pair of values", "why_tests_cant": "2^64 (fixed32) or 2^128 (fixed64) operand pairs; overflow boundary for every type", "anchors": ["include/eirin/fixed.hpp: fixed_num::operator+, operator-"]}
{"id": "C02", "title": "Multiplication is the floor of the exact product and never undefined", "statement": "For every non-rounding fixed-point type, x * y never has undefined behaviour; the result is the largest representable number not exceeding the exact product (so the error is in [0, 1 ulp)) whenever that is in range, and that number wrapped modulo the storage size otherwise.", "quantifier": "every valid non-rounding type (any storage width, fraction, signedness) and every pair of values", "why_tests_cant": "needs all operand pairs and all template instances, including the widest intermediate products", "anchors": ["include/eirin/fixed.hpp: fixed_num::operator*"]}
{"id": "C03", "title": "Division truncates toward zero and is undefined exactly on zero divisors", "statement": "For every non-rounding type, x / y is undefined iff y == 0; otherwise it is the exact quotient truncated toward zero to a multiple of one ulp (wrapped modulo the storage size if it does not fit).", "quantifier": "every valid non-rounding type, every dividend and divisor", "why_tests_cant": "all operand pairs including min/-ulp; absence of UB is not observable by tests", "anchors": ["include/eirin/fixed.hpp: fixed_num::operator/"]}
{"id": "C04", "title": "divide / divide_by signal division by zero and otherwise agree with the operators", "statement": "divide and divide_by throw divide_by_zero iff the divisor is zero (fixed or signed integral), leave the object unchanged in that case, and otherwise return exactly what the unchecked / and /= operators return, in both rounding modes.", "quantifier": "every valid type, every dividend, every fixed or integral divisor", "why_tests_cant": "the iff ranges over all divisors and types", "anchors": ["include/eirin/fixed.hpp: fixed_num::divide, divide_by, operator/, operator/="]}
{"id": "C05", "title": "Rounding types round products and quotients to nearest", "statement": "For a type instantiated with rounding = true, x * y and x / y are the exact product/quotient rounded to the nearest representable number (ties away from zero) whenever it fits.", "quantifier": "every valid rounding type and every pair of values", "why_tests_cant": "needs all operand pairs; the shipped tests never instantiate rounding = true", "anchors": ["include/eirin/fixed.hpp: fixed_num::operator*, operator*=, operator/, operator/= (if constexpr(rounding))"]}
{"id": "C06", "title": "Algebraic laws of the arithmetic operators", "statement": "Addition and multiplication are commutative, addition is associative whenever defined, 0 is additive identity, 1 is multiplicative identity, x*0 = 0, x - x = 0, (x + y) - y = x whenever x + y is defined, and multiplication by a non-negative factor is monotone when no product overflows.", "quantifier": "every valid non-rounding type and all values", "why_tests_cant": "laws quantify over pairs/triples of all values", "anchors": ["include/eirin/fixed.hpp: fixed_num::operator+, operator-, operator*"]}
{"id": "C07", "title": "Compound assignment, increment and decrement agree with the binary operators", "statement": "x += y, x -= y, x *= y, x /= y, x %= y leave x equal to x + y, x - y, x * y, x / y, x % y (with the same undefined cases); ++ and -- add/subtract exactly one (for types in which one is representable); the postfix forms return the old value and the prefix forms the new value.", "quantifier": "every valid type in both rounding modes and all values", "why_tests_cant": "two separately written code paths must agree on every input", "anchors": ["include/eirin/fixed.hpp: fixed_num::operator+=, -=, *=, /=, %=, ++, --"]}
{"id": "C08", "title": "Negation is exact, self-inverse, and undefined only on the minimum value", "statement": "For 32/64-bit signed storage -x represents exactly the negated number and -(-x) == x for every x except the minimum value, for which it is undefined; x + (-x) == 0.", "quantifier": "every 32/64-bit signed type and every value", "why_tests_cant": "all values of the type", "anchors": ["include/eirin/fixed.hpp: fixed_num::operator-()"]}
{"id": "C09", "title": "Remainder: sign of dividend, magnitude below divisor, exact reconstruction", "statement": "x % y is undefined iff y == 0 or (32/64-bit signed storage) x is the minimum and y is minus one ulp; otherwise |x % y| < |y|, the result is 0 or has the sign of x, and x - (x % y) is an exact integer multiple of y.", "quantifier": "every valid type and all pairs of values", "why_tests_cant": "all operand pairs", "anchors": ["include/eirin/fixed.hpp: fixed_num::operator%, operator%="]}
{"id": "C10", "title": "Mixed fixed/signed-integer arithmetic matches exact arithmetic", "statement": "For a signed integer n whose type is no wider than the storage type: x + n, n + x, x - n, n - x are exact when n and the result are representable; x * n and n * x are the exact product when it is representable; x / n is the exact quotient truncated toward zero for n != 0 and n / y equals fixed(n) / y.", "quantifier": "every signed 32/64-bit-storage type, every value, every integer n in range", "why_tests_cant": "all pairs of values and integers", "anchors": ["include/eirin/fixed.hpp: operator+, -, *, / (fixed_num, std::integral), operator*=(integral), operator/=(integral)"]}
{"id": "C11", "title": "Dividing by an unsigned integer gives the numeric quotient", "statement": "For every fixed32 value x and every non-zero unsigned int n (n <= INT_MAX), x / n equals x / (int)n.", "quantifier": "every fixed32 value and non-zero unsigned divisor", "why_tests_cant": "usual arithmetic conversions only misbehave on negative dividends; needs all values", "anchors": ["include/eirin/fixed.hpp: operator/=(const std::integral auto&), divide(const std::integral auto&)"]}
{"id": "C12", "title": "Ordering, equality and hashing agree with the represented numbers", "statement": "The comparison operators are a total order identical to the numeric order of the represented rationals; == holds iff the numbers are equal; equal numbers hash equally (and fixed_hash is exactly the hash of the raw storage value).", "quantifier": "every valid type and all pairs of values", "why_tests_cant": "order laws range over all pairs/triples", "anchors": ["include/eirin/fixed.hpp: operator<=>, operator==, fixed_hash"]}
{"id": "C13", "title": "Nearly-comparisons form a consistent tolerance relation", "statement": "Whenever x - y does not overflow: nearly_eq(x,y) iff |x - y| <= nearly_compare_epsilon; nearly_ne is its negation; exactly one of nearly_lt, nearly_eq, nearly_gt holds; nearly_gt_eq / nearly_lt_eq are the negations of nearly_lt / nearly_gt; nearly_eq is reflexive and symmetric; for types with at least 16 fraction bits the epsilon is 5/65536.", "quantifier": "every valid 32/64-bit signed type and all pairs of values", "why_tests_cant": "all pairs of values and all types", "anchors": ["include/eirin/fixed.hpp: nearly_eq, nearly_ne, nearly_gt, nearly_lt, nearly_gt_eq, nearly_lt_eq, nearly_compare_epsilon"]}
{"id": "C14", "title": "Integer construction is exact and round-trips", "statement": "fixed(n) represents exactly n whenever n is within the integer range of the type, and converting it back to the integer yields n; out of range n is reduced modulo the storage size (no undefined behaviour).", "quantifier": "every valid type and every integer n", "why_tests_cant": "all integers and types", "anchors": ["include/eirin/fixed.hpp: fixed_num(std::integral), operator T() (integral)"]}
{"id": "C15", "title": "Conversion to integer is the floor", "statement": "Converting a fixed-point number to an integer type that can hold the result gives the greatest integer not exceeding it (so -1.5 gives -2), for every value.", "quantifier": "every valid type, every value, every sufficiently wide target integer type", "why_tests_cant": "all values", "anchors": ["include/eirin/fixed.hpp: operator T() (std::integral T)"]}
{"id": "C16", "title": "Conversion to and from floating point preserves the value", "statement": "Constructing from a finite floating value v (non-rounding type) gives v truncated toward zero to a multiple of one ulp, undefined iff that is out of range; converting a fixed number to double gives exactly the represented number, so fixed -> double -> fixed is the identity.", "quantifier": "every valid type, every value, every finite floating value", "why_tests_cant": "all values; floats modelled as exact rationals", "anchors": ["include/eirin/fixed.hpp: fixed_num(std::floating_point), operator T() (std::floating_point T)"]}
{"id": "C17", "title": "Conversion between fixed-point types preserves the value up to truncation", "statement": "Constructing one fixed-point type from another with at least as many fraction bits and a range containing the value yields exactly the same number (fixed32 -> fixed64); converting to fewer fraction bits truncates toward zero (fixed64 -> fixed32); fixed32 -> fixed64 -> fixed32 is the identity.", "quantifier": "every source value", "why_tests_cant": "all 2^32 / 2^64 source values; UB on overflow invisible to tests", "anchors": ["include/eirin/fixed.hpp: fixed_num(fixed_num<T,I,f,r>), from_fixed_num_value"]}
{"id": "C18", "title": "Integral and fractional parts decompose the value", "statement": "integral_part() is the integer part of |x| and fractional_part() carries the remaining fraction with the sign of x, so that |x| = integral_part + |fractional_part|/2^fraction.", "quantifier": "every valid signed type and every value", "why_tests_cant": "all values", "anchors": ["include/eirin/fixed.hpp: integral_part, fractional_part, raw_integral_part"]}
{"id": "C19", "title": "signbit and the advertised limits are exact", "statement": "signbit(x) is true iff x < 0; numeric_limits::min()/max() (and f32_min/f32_max/f64_min/f64_max) are the least/greatest values: every value lies between them; raw round trip from_internal_value/internal_value is the identity.", "quantifier": "every valid type and every value", "why_tests_cant": "all values of all types", "anchors": ["include/eirin/fixed.hpp: signbit, signbit_mask, numeric_limits<fixed_num>::min/max, from_internal_value", "include/eirin/math.hpp: max_value, min_value, f32_max, f32_min"]}
{"id": "C20", "title": "Mathematical constants are correctly truncated", "statement": "Each constant of numbers.hpp (pi, e, log2e, log10e, inv_pi, inv_sqrtpi, ln2, ln10, sqrt2, sqrt3, inv_sqrt3, egamma, phi) and of the class (pi, pi_2, pi_4, double_pi, e), for fixed32 and fixed64, is not above the true real number and less than one ulp below it; in every other type with enough room it is the true number truncated (rounded, for rounding types) to the type, up to the accuracy of the literal (2^-51; 2^-60 for pi and e).", "quantifier": "all constants, for every fixed-point type with room for the constant", "why_tests_cant": "the reference value is an irrational real; a test compares with another approximation", "anchors": ["include/eirin/numbers.hpp: *_v", "include/eirin/fixed.hpp: pi, pi_2, pi_4, double_pi, e"]}
{"id": "C21", "title": "floor is the greatest integral value not above x", "statement": "For signed 32/64-bit storage, floor(x) is the greatest integral number <= x for every x that is at least 2^fraction - 1 ulps above the minimum; it is idempotent; below that bound it is undefined.", "quantifier": "every signed 32/64-bit type with fraction <= bits-2, every value", "why_tests_cant": "all values, including the undefined tail", "anchors": ["include/eirin/math.hpp: floor"]}
{"id": "C22", "title": "ceil is the least integral value not below x", "statement": "ceil(x) is the least integral number >= x for every x whose ceiling is representable.", "quantifier": "every signed 32/64-bit type, every value", "why_tests_cant": "all values; the test-suite has no ceil test at all", "anchors": ["include/eirin/math.hpp: ceil"]}
{"id": "C23", "title": "trunc drops the fraction toward zero", "statement": "trunc(x) is the integral number obtained by truncating x toward zero, never undefined, idempotent, and |trunc(x)| <= |x| with the difference below 1.", "quantifier": "every valid signed type, every value", "why_tests_cant": "all values", "anchors": ["include/eirin/math.hpp: trunc"]}
{"id": "C24", "title": "round is round-half-away-from-zero", "statement": "round(x) is never undefined; whenever the nearest integral value (ties away from zero) is representable it is exactly that value; otherwise it wraps to the minimum.", "quantifier": "every signed type with fraction <= bits-2 and every value", "why_tests_cant": "all values, in particular all ties", "anchors": ["include/eirin/math.hpp: round"]}
{"id": "C25", "title": "abs, min and max", "statement": "abs(x) is exactly |x| for every x except the minimum (undefined for 32/64-bit storage); min/max return one of their arguments and are the lattice meet/join of the numeric order.", "quantifier": "every valid signed type and all values", "why_tests_cant": "all values", "anchors": ["include/eirin/math.hpp: abs, min, max"]}
{"id": "C26", "title": "modf splits x into an integral part and a fraction in [0,1)", "statement": "Whenever floor is defined, modf(x, ip) stores the floor in ip, returns f with 0 <= f < 1 and ip + f == x exactly.", "quantifier": "every signed 32/64-bit type and every value in floor's domain", "why_tests_cant": "all values", "anchors": ["include/eirin/math.hpp: modf"]}
{"id": "C27", "title": "fmod(a,b) is the mathematical modulus", "statement": "For b > 0 (and quotient in range) fmod(a,b) is congruent to a modulo b and lies in [0,b).", "quantifier": "all fixed32 pairs", "why_tests_cant": "all operand pairs", "anchors": ["include/eirin/math.hpp: fmod"]}
{"id": "C28", "title": "sqrt on fixed32 is the exact integer square root", "statement": "For every non-negative fixed32 x, sqrt(x) is the largest fixed32 r with r*r <= x in exact arithmetic (error in [0,1 ulp)), never undefined; consequently it is monotone and exact on perfect squares.", "quantifier": "all 2^31 non-negative fixed32 values", "why_tests_cant": "the bit algorithm has two code paths and up to 24 iterations per value", "anchors": ["include/eirin/math.hpp: sqrt (if constexpr std::is_same_v<T,int32_t>)"]}
{"id": "C29", "title": "sqrt on other 32-bit layouts", "statement": "For every fixed_num<int32_t,int64_t,f,false> and every non-negative x, sqrt(x) is the square root of x to within one ulp of the type.", "quantifier": "all fraction counts f and all values", "why_tests_cant": "all layouts and values; shipped tests only use f = 16", "anchors": ["include/eirin/math.hpp: sqrt (f > 16 / f <= 16 branches)"]}
{"id": "C30", "title": "sqrt on fixed64 (Newton)", "statement": "For every fixed64 x: negative x gives -1, zero gives 0, and for positive x the result r is defined and satisfies |r*r - x| < epsilon or is within a few ulps of the true root.", "quantifier": "all 2^64 values", "why_tests_cant": "Newton convergence and absence of overflow over all values", "anchors": ["include/eirin/math.hpp: sqrt (else branch)", "include/eirin/fixed.hpp: get_sqrt_init_value, sqrt_init_table, detail::find_msb"]}
{"id": "C31", "title": "hypot", "statement": "For fixed32, when the exact x*x+y*y stays in range, hypot(x,y)^2 <= x^2+y^2 and hypot is within a few ulps below the true value; hypot is symmetric, and hypot(x,0) never exceeds |x|.", "quantifier": "all fixed32 pairs without overflow", "why_tests_cant": "all pairs", "anchors": ["include/eirin/math.hpp: hypot"]}
{"id": "C32", "title": "log2: domain, termination and exact powers of two", "statement": "For fixed32 and fixed64, log2(x) throws domain_error iff x <= 0, terminates without undefined behaviour for every x > 0, and log2(2^k) == k exactly for every representable power of two.", "quantifier": "all values of fixed32 and fixed64", "why_tests_cant": "two data-dependent loops; all values", "anchors": ["include/eirin/math.hpp: log2"]}
{"id": "C33", "title": "log2: accuracy and monotonicity", "statement": "For every positive fixed32/fixed64 x, log2(x) never exceeds the true base-2 logarithm and is less than 5 ulp below it; x <= y implies log2(x) <= log2(y).", "quantifier": "all positive values (pairs for monotonicity)", "why_tests_cant": "accuracy against the real logarithm over all values", "anchors": ["include/eirin/math.hpp: log2"]}
{"id": "C34", "title": "log and log10 inherit log2's domain and accuracy", "statement": "log(x)/log10(x) throw domain_error iff x <= 0; otherwise they are within a proved number of ulps of the real natural/decimal logarithm and monotone.", "quantifier": "all positive fixed32/fixed64 values", "why_tests_cant": "all values versus a real function", "anchors": ["include/eirin/math.hpp: log, log10"]}
{"id": "C35", "title": "pow with non-negative integer exponent", "statement": "pow(b,0) = 1 and pow(b,1) = b for every b; for an integral base whose n-th power fits, pow(b,n) is exactly b^n for every n >= 0; it is never undefined for n >= 0.", "quantifier": "every type, base and non-negative exponent of any size", "why_tests_cant": "unbounded exponents, all bases", "anchors": ["include/eirin/math.hpp: pow (integral exponent)"]}
{"id": "C36", "title": "pow with negative integer exponent", "statement": "For non-zero b and n < 0, pow(b,n) is defined and pow(b,-1) = 1/b.", "quantifier": "every base and negative exponent", "why_tests_cant": "division by an underflowed power needs a search over all bases/exponents", "anchors": ["include/eirin/math.hpp: pow (integral exponent, e < 0)"]}
{"id": "C37", "title": "exp approximates the exponential function", "statement": "exp(0) = 1, and for every fixed32 x in [-1, 1] exp(x) is within 1% of e^x.", "quantifier": "all fixed32 values in the range", "why_tests_cant": "the tests only evaluate exp at 1, where the polynomial's argument is 0", "anchors": ["include/eirin/math.hpp: exp, detail::exp_expand"]}
{"id": "C38", "title": "sin is odd near zero", "statement": "For |x| below 0.00015, sin(x) = x (small-angle branch), hence sin(-x) = -sin(x).", "quantifier": "all values in the small-angle range", "why_tests_cant": "sign handling interacts with range reduction; tests only use sin(0)", "anchors": ["include/eirin/math.hpp: sin"]}
{"id": "C39", "title": "sin is accurate and bounded", "statement": "For every fixed32 x with |x| <= 2*pi (outside the small-angle range), sin(x) is defined and within 0.0003 of the real sine; for every fixed32 x, |sin(x)| <= 1 + 4 ulp.", "quantifier": "all fixed32 values", "why_tests_cant": "range reduction, quadrant folding and truncation over all values", "anchors": ["include/eirin/math.hpp: sin"]}
{"id": "C40", "title": "cos and tan", "statement": "cos(x) is sin shifted by a quarter turn and within 0.0003 of the real cosine on [-pi, pi] for fixed32; tan throws domain_error iff |cos(x)| <= 1 ulp and otherwise is the quotient sin/cos.", "quantifier": "all fixed32 values", "why_tests_cant": "all values", "anchors": ["include/eirin/math.hpp: cos, tan"]}
{"id": "C41", "title": "atan: odd, and accurate on [-1,1]", "statement": "For fixed32: atan(-x) = -atan(x) for every x except the minimum; atan(x) is within 0.0005 of the real arctangent for |x| <= 1.", "quantifier": "all fixed32 values", "why_tests_cant": "all values versus a real function", "anchors": ["include/eirin/math.hpp: atan"]}
{"id": "C42", "title": "asin and acos: domain and range", "statement": "asin/acos throw domain_error iff |x| > 1; asin(1) = pi/2, acos(1) = 0, acos(-1) = pi, acos(x) = pi/2 - asin(x); |asin(x)| <= pi/2 for all |x| <= 1.", "quantifier": "all fixed32 values", "why_tests_cant": "all values in [-1,1]", "anchors": ["include/eirin/math.hpp: asin, acos"]}
{"id": "C43", "title": "cbrt is defined for every input and cubes back", "statement": "cbrt(x) terminates, returns 0 for |x| below epsilon, and is defined for every x.", "quantifier": "all fixed32 values", "why_tests_cant": "Newton iteration may divide by an underflowed square; needs all values", "anchors": ["include/eirin/math.hpp: cbrt"]}
{"id": "C44", "title": "degrees and radians are mutually inverse up to rounding", "statement": "For fixed64 values of moderate size degrees(radians(x)) differs from x by a bounded number of ulps; both are monotone and map 0 to 0 and 180 to pi.", "quantifier": "all values in the stated range", "why_tests_cant": "all values", "anchors": ["include/eirin/math.hpp: degrees, radians"]}
{"id": "C45", "title": "Stream output in decimal is the exact decimal expansion", "statement": "For fixed32 and fixed64, operator<< writes a string that, read as a decimal numeral, denotes exactly the represented number; it is a well-formed numeral ('-'? digits ('.' digits)?) with no leading zeros, no trailing zeros, a '.' only if the fraction is non-zero.", "quantifier": "every value of the type, including the minimum", "why_tests_cant": "exactness for all 2^32 / 2^64 values", "anchors": ["include/eirin/fixed.hpp: copy_as_chars_to, operator<<"]}
{"id": "C46", "title": "Stream output in bases 2, 8 and 16 is exact", "statement": "With std::hex / std::oct (or neither flag: base 2) the written digits denote exactly the represented number in that base.", "quantifier": "every value of fixed32/fixed64 and each base", "why_tests_cant": "all values and bases", "anchors": ["include/eirin/fixed.hpp: copy_as_chars_to, operator<<"]}
{"id": "C47", "title": "Parsing a decimal literal: value, sign and precision", "statement": "For a numeral with an optional '-', integer digits and optional fraction digits whose magnitude is in range, the string literal operators / f32_from_cstring / fixed_from_cstring succeed; the result is the integer part exactly plus the truncation of a prefix of the fraction, negated for '-'; it never exceeds the exact magnitude and is less than 8 ulp (fixed32) below it; integers parse exactly.", "quantifier": "every well-formed numeral of bounded digit count (no intermediate overflow)", "why_tests_cant": "unbounded family of strings", "anchors": ["include/eirin/fixed.hpp: detail::parse, f32_from_cstring, fixed_from_cstring, operator\"\"_f32, operator\"\"_f64"]}
{"id": "C48", "title": "Parsing rejects malformed text and leaves the output untouched on failure", "statement": "detail::parse and f32_from_cstring return false whenever a character before the precision cut-off is not a digit (after the optional sign and single point), and whenever they return false the output object is unchanged.", "quantifier": "every byte string", "why_tests_cant": "all strings", "anchors": ["include/eirin/fixed.hpp: detail::parse, f32_from_cstring"]}
{"id": "C49", "title": "Parsing detects overflow", "statement": "The parsers return false iff the numeral's magnitude exceeds the largest representable value; they never return true with a wrong value.", "quantifier": "every numeral of any length", "why_tests_cant": "arbitrarily long digit strings", "anchors": ["include/eirin/fixed.hpp: detail::parse, f32_from_cstring, fixed_from_cstring"]}
{"id": "C50", "title": "Printing then parsing recovers the value", "statement": "For every fixed32 value x other than the minimum, parsing the text written by operator<< succeeds and recovers x up to 7 ulp, exactly x when x is integral.", "quantifier": "every fixed32 value", "why_tests_cant": "composition of two loops over all values", "anchors": ["include/eirin/fixed.hpp: copy_as_chars_to, detail::parse"]}
{"id": "C51", "title": "The string constructors agree with each other", "statement": "f32_from_cstring and the \"...\"_f32 parser return the same verdict and value on every string; on every string they accept, fixed_from_cstring<fixed32> accepts with the same value; fixed_from_cstring on text with trailing garbage behaves as on its longest numeric prefix.", "quantifier": "every byte string", "why_tests_cant": "three separately written parsers over all strings", "anchors": ["include/eirin/fixed.hpp: f32_from_cstring, detail::parse, fixed_from_cstring"]}
{"id": "C52", "title": "Stream extraction reads the numeral and stops after it", "statement": "operator>> consumes a prefix of the stream, leaves the first character that cannot continue the numeral, and stores the value of the consumed numeral; reading two whitespace-separated numbers reads both.", "quantifier": "every character sequence", "why_tests_cant": "all streams", "anchors": ["include/eirin/fixed.hpp: operator>>"]}
{"id": "C53", "title": "io::parse stops at the terminator and never moves past it", "statement": "io::parse returns the start pointer and leaves the output unchanged on a malformed numeral; otherwise it returns a position at or before the first terminator character, and stores the value of the numeral read.", "quantifier": "every buffer containing the terminator", "why_tests_cant": "all buffers", "anchors": ["include/eirin/io/parse.hpp: parse"]}
{"id": "C54", "title": "std::format integer modes print the integral part in the requested base", "statement": "With d/x/X/o/b/B the output (without padding) is the sign followed by the optional prefix and the digits of the integer part of |x| in that base; reading the digits back gives the integer part.", "quantifier": "every fixed32 value, base, sign mode and alternate flag", "why_tests_cant": "all values and option combinations", "anchors": ["include/eirin/io/format.hpp: fixed_num_formatter::format_to, int_to_string, append_sign, append_alt_prefix"]}
{"id": "C55", "title": "std::format default/f/g modes print the truncated decimal value", "statement": "Without a base the output is sign, integer part, and the fraction truncated to the requested precision (default 6); the denoted number is x truncated toward zero to that many digits; 'f' always prints exactly the requested number of fraction digits.", "quantifier": "every fixed32 value and precision", "why_tests_cant": "all values and precisions", "anchors": ["include/eirin/io/format.hpp: fixed_num_formatter::format_to"]}
{"id": "C56", "title": "std::format '?' prints the raw value", "statement": "The '?' mode prints the sign and hexadecimal digits of the raw stored integer, for every value including the minimum; distinct values print differently.", "quantifier": "every value of every type", "why_tests_cant": "all values", "anchors": ["include/eirin/io/format.hpp: format_debug_to"]}
{"id": "C57", "title": "std::format honours width, fill and alignment", "statement": "The output is never shorter than the width, equals the unpadded body when the body is at least as wide, and otherwise is the body with exactly the missing number of fill characters placed according to the alignment (left/right/centre); zero padding keeps the sign in front of the zeros.", "quantifier": "every body, width, fill, alignment", "why_tests_cant": "all option combinations and values", "anchors": ["include/eirin/io/format.hpp: output_aligned, format_to"]}
{"id": "C58", "title": "The format-specification parser accepts exactly the documented grammar", "statement": "Parsing [[fill]align][sign][#][0][width][.precision][type] followed by '}' recovers every field and stops at the '}'; an unknown type character raises format_error; an empty specification gives the defaults.", "quantifier": "every specification string", "why_tests_cant": "all specification strings", "anchors": ["include/eirin/io/format.hpp: std::formatter<fixed_num>::parse"]}
{"id": "C59", "title": "Random engine: discard(n) equals n draws", "statement": "For permuted_congruential_engine, discard(z) leaves the engine equal to the engine after z calls, for every z and every engine state; the sequence of states is periodic with period exactly 2^width.", "quantifier": "every engine state, every z", "why_tests_cant": "z is unbounded; all states", "anchors": ["include/eirin/random.hpp: permuted_congruential_engine::discard, operator()"]}
{"id": "C60", "title": "Random engine: equal engines produce equal sequences, seeding restarts", "statement": "Two engines comparing equal produce the same outputs forever; constructing with the same seed gives equal engines; calling seed(s) on any engine makes it equal to a freshly constructed engine with seed s.", "quantifier": "all engine states and histories", "why_tests_cant": "histories are unbounded", "anchors": ["include/eirin/random.hpp: permuted_congruential_engine::operator==, seed, constructors"]}
{"id": "C61", "title": "Random engine: advertised output range", "statement": "Every output lies in [min(), max()], and the advertised max() is attainable.", "quantifier": "every engine state", "why_tests_cant": "all states", "anchors": ["include/eirin/random.hpp: permuted_congruential_engine::generate, min, max"]}
{"id": "C62", "title": "Random engine: generation is well defined", "statement": "Calling the engine has no undefined behaviour in any state reachable from construction.", "quantifier": "every seed and every reachable state", "why_tests_cant": "UB is not observable by tests; all seeds", "anchors": ["include/eirin/random.hpp: mix_first, mix_second, generate"]}
{"id": "C63", "title": "Engine adapter forwards the engine's bits", "statement": "fixed_random_engine_adapter yields the engine's next output reinterpreted as the raw value of the fixed type; seed/discard/equality forward to the engine; default-constructed adapters are equal.", "quantifier": "every engine and history", "why_tests_cant": "all histories", "anchors": ["include/eirin/random.hpp: fixed_random_engine_adapter"]}
{"id": "C64", "title": "Distribution adapters stay within [a,b] and honour parameters", "statement": "For every history of param() calls and draws, a draw lies in [a(), b()] (assuming the underlying integer distribution does), param()/a()/b()/min()/max() report the last parameters set, and operator()(g, p) draws from the range p.", "quantifier": "every operation history and every underlying distribution honouring its contract", "why_tests_cant": "unbounded histories", "anchors": ["include/eirin/detail/distribution.hpp: fixed_int_distribution_adapter, fixed_distribution_adapter"]}
{"id": "C65", "title": "CORDIC range reduction", "statement": "For every non-negative angle the reduction yields an angle in [0, pi/2] together with the signs of the quadrant, congruent to the input up to the reflection; negative angles give the negated sine.", "quantifier": "every angle of fixed32/fixed64", "why_tests_cant": "all values", "anchors": ["include/eirin/ext/cordic.hpp: detail::cordic_optimize_angel"]}
{"id": "C66", "title": "CORDIC sine is defined and odd", "statement": "cordic_sine(x) is defined for every angle and cordic_sine(-x) = -cordic_sine(x).", "quantifier": "every angle", "why_tests_cant": "all values", "anchors": ["include/eirin/ext/cordic.hpp: cordic_sine, detail::cordic"]}
{"id": "C67", "title": "AVX lane multiplication equals the fixed64 product truncated toward zero", "statement": "Each lane of the AVX2 multiply is sign(a*b)*floor(|a*b|/2^32) modulo 2^64, for every pair of 64-bit lanes; for non-negative operands it equals the scalar fixed64 product.", "quantifier": "all pairs of 64-bit lanes", "why_tests_cant": "2^128 pairs", "anchors": ["include/eirin/ext/simd_math.hpp: detail::avx_mm256_mullo_epi64"]}
{"id": "C68", "title": "AVX angle reduction", "statement": "_mm256_fpint_epi64 truncates each lane toward zero to an integral fixed64; simd_reduce_angle returns, in order, each input minus an integral number of (fixed-point) full turns, with bounded magnitude.", "quantifier": "all lanes", "why_tests_cant": "all 64-bit values", "anchors": ["include/eirin/ext/simd_math.hpp: detail::_mm256_fpint_epi64, __avx__simd_reduce_angle, simd_reduce_angle"]}
{"id": "C69", "title": "SSE angle reduction keeps lane order and reduces angles", "statement": "simd_reduce_angle_2 returns the reduced angles in the order of its inputs and agrees with simd_reduce_angle lane-wise.", "quantifier": "all pairs of angles", "why_tests_cant": "all 64-bit values", "anchors": ["include/eirin/ext/simd_math.hpp: __sse_simd_reduce_angle, simd_reduce_angle_2"]}
{"id": "C70", "title": "ext::int128 behaves as a 128-bit integer", "statement": "Constructing from a 64-bit integer and converting back is the identity; conversion saturates when the high word is non-zero; addition adds the represented 128-bit numbers.", "quantifier": "all operand words", "why_tests_cant": "all 64-bit word combinations, in particular carries", "anchors": ["include/eirin/ext/builtin_ints.hpp: int128::int128, operator int64_t, operator+"]}
{"id": "C71", "title": "eval_value computes the truncated fixed-point representation", "statement": "For a non-negative value representable with the stated bits, eval_value(val, n) is floor(val * 2^n), for every n up to the table size.", "quantifier": "every value and fraction count", "why_tests_cant": "greedy bit loop over all values/fractions", "anchors": ["include/eirin/detail/util.hpp: eval_value, fraction_bits"]}
{"id": "C72", "title": "bbp_calc_pi converges to pi", "statement": "With enough terms, bbp_calc_pi<int64_t,61,N> is within 0.001 of pi.", "quantifier": "every number of terms N", "why_tests_cant": "N is unbounded", "anchors": ["include/eirin/detail/util.hpp: pi_calc::bbp_calc_pi"]}
{"id": "C73", "title": "Angle lookup tables are monotone and in range", "statement": "angels_lut<N> has N entries, entry 0 is 0, entries are non-decreasing and all are at most pi.", "quantifier": "every table size N that fits", "why_tests_cant": "unbounded N", "anchors": ["include/eirin/detail/util.hpp: lut::angels_lut"]}
{"id": "C74", "title": "CORDIC sine and cosine are accurate", "statement": "For every non-negative angle x, cordic_sine(x) and the cosine instantiation of the same loop are within (97 + x/3) ulps of sin x and cos x.", "quantifier": "every non-negative angle of fixed32/fixed64", "why_tests_cant": "all values; error accumulates over 41 truncating passes", "anchors": ["include/eirin/ext/cordic.hpp: cordic_sine, detail::cordic, detail::cordic_angels"]}
{"id": "C75", "title": "Table-driven sine is defined and stays inside its table", "statement": "lut_calc_sin<N> is defined for every angle, reads only entries 0..N-1 of its table, and returns the linear interpolation of two neighbouring entries (negated for odd half turns).", "quantifier": "every angle and every table size N", "why_tests_cant": "all 64-bit angles and all table sizes", "anchors": ["include/eirin/detail/util.hpp: lut::lut_calc_sin, lut::func_ptr_lut"]}
{"id": "C76", "title": "Table-driven sine is accurate", "statement": "With a std::sin within 2^-40 of the sine, lut_calc_sin<512>(x) is within 1/100 of sin x for every non-negative angle x.", "quantifier": "every non-negative angle and every sufficiently accurate std::sin", "why_tests_cant": "all 64-bit angles; the library function is a parameter", "anchors": ["include/eirin/detail/util.hpp: lut::lut_calc_sin, lut::__sin"]}
{"id": "C77", "title": "pow with a fixed-point exponent", "statement": "pow(b, e) of two fixed-point numbers is 0 for b = 0 (1 when e = 0 as well), agrees with the integer power whenever the exponent is integral, and is within 1/100 of b^e for b >= 1, e >= 0 with b^e <= 100.", "quantifier": "all bases and exponents of the two library types", "why_tests_cant": "two-argument function over all values; a noexcept function that can throw inside", "anchors": ["include/eirin/math.hpp: pow(fixed_num, fixed_num)"]}
{"id": "C78", "title": "numeric_limits describes the type", "statement": "Every member of numeric_limits<fixed_num> means what the standard says: is_signed iff negative values exist, radix 2, digits the number of non-sign bits, digits10 the decimal digits they carry, epsilon the gap above one, round_style/round_error describe the rounding of results, denorm_min the least positive value.", "quantifier": "every fixed-point type", "why_tests_cant": "all instantiations of the template", "anchors": ["include/eirin/fixed.hpp: std::numeric_limits<fixed_num>"]}
{"id": "C79", "title": "measure_esp reports the extreme errors", "statement": "perf::measure_esp terminates for a positive step that stays in range, and the reported maximum and minimum are the largest and smallest |std_func(x) - func(x)| over the sampled points, attained at the reported inputs.", "quantifier": "all functions, ranges and steps", "why_tests_cant": "the functions and the number of samples are arbitrary; loop invariant", "anchors": ["include/eirin/detail/perf.hpp: perf::measure_esp"]}
{"id": "C80", "title": "sin is exactly odd and exactly periodic", "statement": "Outside the small-angle range (|x| >= 0.00015), sin(-x) = -sin(x) exactly; sin(x) = sin(y) exactly whenever x and y have the same sign and differ by a multiple of double_pi(); and sin of a non-zero multiple of double_pi() is exactly 0.", "quantifier": "all values (but the minimum) of the two library types", "why_tests_cant": "pairs of 64-bit values", "anchors": ["include/eirin/math.hpp: sin"]}
{"id": "C81", "title": "sin and cos fit together", "statement": "On [-pi, pi], sin(x)^2 + cos(x)^2 is within 0.0013 of 1 and cos(x) is within 0.0006 of cos(-x).", "quantifier": "all values in [-pi, pi] of the two library types", "why_tests_cant": "all values", "anchors": ["include/eirin/math.hpp: sin, cos"]}
{"id": "C82", "title": "Different numbers are printed differently", "statement": "With any fixed combination of stream flags, two values are written as the same text iff they are equal.", "quantifier": "all pairs of values of the two library types, all flag combinations", "why_tests_cant": "pairs of 64-bit values", "anchors": ["include/eirin/fixed.hpp: operator<<, copy_as_chars_to"]}
{"id": "C83", "title": "Text of a random engine", "statement": "os << engine writes seed and state in plain decimal separated by one space whatever the stream's base flags, so the text determines the engine; and the insertion leaves the stream's formatting as it was.", "quantifier": "every engine and every stream formatting state", "why_tests_cant": "all states and flag combinations", "anchors": ["include/eirin/random.hpp: permuted_congruential_engine operator<<"]}
{"id": "C84", "title": "log2 turns products into sums", "statement": "log2(2^j * x) = log2(x) + j exactly whenever both arguments are representable, and log2(x*y) is within 8 ulp of log2(x) + log2(y) whenever the product is at least one and fits.", "quantifier": "all positive values of the two library types, all j", "why_tests_cant": "pairs of 64-bit values", "anchors": ["include/eirin/math.hpp: log2"]}
{"id": "C85", "title": "Products and quotients obey the laws of arithmetic up to a few ulps", "statement": "When nothing overflows: x*(y+z) equals x*y + x*z or exceeds it by one ulp; (x*y)*z and x*(y*z) differ by at most (|x|+|z|+1) ulp; (x/y)*y is within (|y|+1) ulp of x; (x*y)/y is within 1 + 1/|y| ulp of x; division is exactly odd in both arguments; (-x)*y is -(x*y) or one ulp below.", "quantifier": "all values of every non-rounding fixed-point type", "why_tests_cant": "triples of values, all instantiations", "anchors": ["include/eirin/fixed.hpp: operator*, operator/"]}
{"id": "C86", "title": "floor, trunc and round are monotone; trunc and round are odd", "statement": "x <= y implies floor(x) <= floor(y), trunc(x) <= trunc(y), round(x) <= round(y); trunc(-x) = -trunc(x), round(-x) = -round(x); floor(x) <= trunc(x) with equality for x >= 0, and round(x) is floor(x) or floor(x)+1.", "quantifier": "all values (for round: at least half below the maximum) of every signed type of at least 32 bits", "why_tests_cant": "pairs of values, all instantiations", "anchors": ["include/eirin/math.hpp: floor, trunc, round"]}
{"id": "C87", "title": "Narrowing conversions respect order, sign and composition", "statement": "Converting to a type with fewer fraction bits is monotone and odd, and converting through a type of intermediate precision gives the same result as converting directly.", "quantifier": "all pairs and triples of types, all values", "why_tests_cant": "all instantiations of a pair of templates", "anchors": ["include/eirin/fixed.hpp: converting constructor, from_fixed_num_value"]}
{"id": "C88", "title": "Every type with room for a decimal digit prints exactly", "statement": "For every storage type, of any width and signedness, in which ten times one is representable, operator<< in decimal writes the exact canonical numeral of every value; for signed storage of at least 32 bits the condition (five bits left of the fraction) is also necessary.", "quantifier": "every fixed-point type and every value", "why_tests_cant": "all instantiations of the template", "anchors": ["include/eirin/fixed.hpp: copy_as_chars_to"]}
{"id": "C89", "title": "The CPU feature query is answered from one detection and reports usable features", "statement": "Every answer of platform_support::supports_* equals the CPUID bit advertised by the processor on which the first question was asked, independent of the order and number of questions, and CPUID is executed for one detection only; a feature reported as supported can actually be used.", "quantifier": "every processor (function from CPUID leaves to registers), every build, every sequence of questions", "why_tests_cant": "needs all processors; the static state is shared by all queries of a program run", "anchors": ["include/eirin/ext/simd_math.hpp: platform_support"]}
{"id": "C90", "title": "The debug printer shows the lanes exactly and in order", "statement": "debug_m256i_log never fails; in fixed-point mode it prints the four lanes in order as exact decimal numerals of their fixed64 values, in raw mode as hexadecimal words.", "quantifier": "all 2^256 register contents, all names", "why_tests_cant": "2^256 inputs", "anchors": ["include/eirin/ext/simd_math.hpp: debug_m256i_log"]}
{"id": "C91", "title": "Distribution parameters and constructors are consistent", "statement": "Parameter sets compare equal iff they denote the same interval; out-of-order bounds are never accepted; both constructors build the same adapter; the default adapter covers the whole type; to_underlying returns the parameters of the wrapped distribution; transferring parameters between adapters makes them agree; reset() changes nothing.", "quantifier": "every fixed-point type, every underlying distribution honouring its contract, all bounds", "why_tests_cant": "quantifies over all distributions and bounds", "anchors": ["include/eirin/detail/distribution.hpp: param_type, constructors, reset, to_underlying"]}
{"id": "C92", "title": "The rounding functions are right on every storage type", "statement": "On every storage type, of 8 to 64 bits and either signedness, floor, trunc, round and abs (and ceil of non-negative numbers) return the mathematical result whenever it is representable.", "quantifier": "every fixed-point type and every value", "why_tests_cant": "all instantiations of the templates", "anchors": ["include/eirin/math.hpp: floor, ceil, trunc, round, abs"]}
{"id": "C93", "title": "operator>> reads back what operator<< wrote", "statement": "Inserting a number into a stream in decimal and extracting it again gives the same number and leaves exactly the text that followed it.", "quantifier": "all values, any following text", "why_tests_cant": "2^64 values and all continuations", "anchors": ["include/eirin/fixed.hpp: operator<<, operator>>"]}
{"id": "C94", "title": "The text of std::format parses back", "statement": "Parsing the text of std::format with precision p gives a number within 10^-p plus 8 ulp of the original, equal to it for integers; with a precision of at least the number of fraction bits the text for type g is the one written by operator<<.", "quantifier": "all values, all format specifications without width", "why_tests_cant": "2^64 values times all precisions", "anchors": ["include/eirin/io/format.hpp", "include/eirin/io/parse.hpp", "include/eirin/fixed.hpp: operator<<"]}
{"id": "C95", "title": "operator>> reports through the stream state whether a number was read", "statement": "is >> fp is defined whatever characters the stream holds, and afterwards failbit is set exactly when the text did not begin with a numeral.", "quantifier": "all texts (all code units, including non-ASCII), all stream states, all types", "why_tests_cant": "tests look at the value and not at the state bits, and use ASCII only", "anchors": ["include/eirin/fixed.hpp: operator>>"]}
{"id": "C96", "title": "operator<< honours the field width", "statement": "os << fp writes the numeral of the number, padded with the fill character to the field width as for a built-in number (left, right or internal), and resets the width.", "quantifier": "all values, all formatting states, all types", "why_tests_cant": "tests print with the default width", "anchors": ["include/eirin/fixed.hpp: operator<<"]}
{"id": "C97", "title": "A user-defined literal denotes its number", "statement": "An integer literal with suffix _f64 denotes the number it denotes without the suffix, for every form of literal ([lex.icon]) in range; _f32 and string literals agree with it.", "quantifier": "all integer literal tokens (decimal, octal, hexadecimal, binary, separators), all string literals", "why_tests_cant": "the tests use a handful of decimal literals", "anchors": ["include/eirin/fixed.hpp: literals"]}
{"id": "C98", "title": "The parser template rejects other characters for every character type", "statement": "For every character type, text with a code unit other than the ten digits, the point and a leading minus sign is not accepted, and ASCII text gives the same result as for char.", "quantifier": "all strings of code units", "why_tests_cant": "tests use char only", "anchors": ["include/eirin/fixed.hpp: detail::parse"]}
{"id": "C99", "title": "exp is accurate wherever its value fits", "statement": "For every x >= 0 such that e^x fits in the type with one percent to spare, exp(x) is within one percent of e^x.", "quantifier": "all arguments of fixed32 and fixed64 whose exponential fits", "why_tests_cant": "2^19 to 2^37 arguments; the tests sample a few", "anchors": ["include/eirin/math.hpp: exp, exp_expand"]}
{"id": "C100", "title": "log2 is right on every signed layout", "statement": "For every fixed-point type with signed storage of 32 or 64 bits, log2 throws domain_error exactly for non-positive numbers and otherwise is defined, never exceeds the true logarithm and is less than 4 ulp below it.", "quantifier": "every such type (all fraction widths, intermediate types, rounding or not) and every value", "why_tests_cant": "all instantiations of the template; the tests use two of them", "anchors": ["include/eirin/math.hpp: log2"]}
{"id": "C101", "title": "tan is accurate up to the pole", "statement": "On fixed32, for |x| <= pi, tan either throws or is within 7e-4/cos(x)^2 of the real tangent, and has its sign.", "quantifier": "all fixed32 values in [-pi, pi]", "why_tests_cant": "all values versus a real function, in particular next to the poles", "anchors": ["include/eirin/math.hpp: tan, sin, cos"]}
{"id": "C102", "title": "atan and asin outside the fitted range", "statement": "atan is defined for every x above the minimum, has the sign of x and stays within [-pi/2, pi/2]; asin is defined with the sign of x for all |x| <= 1.", "quantifier": "all values of fixed32 and fixed64", "why_tests_cant": "all values; the tests use a few arguments in [-1, 1]", "anchors": ["include/eirin/math.hpp: atan, asin"]}
{"id": "C103", "title": "io::parse of a string_view reads the view", "statement": "What io::parse(string_view, out) stores depends on the characters of the view only; a numeral is read with its value and the returned pointer is the end of the view.", "quantifier": "every view and everything that may follow it in memory", "why_tests_cant": "the character behind the view is arbitrary memory; tests always have a terminator there", "anchors": ["include/eirin/io/parse.hpp: parse(std::string_view, fixed32&)"]}
{"id": "C104", "title": "Seeding by a seed sequence", "statement": "seed(seed_seq&) replaces the whole engine state, so engines seeded by the same sequence are equal whatever their history; sequences differing in one word give different engines; every engine state can be produced by some sequence.", "quantifier": "all engines, histories and sequences of any length", "why_tests_cant": "sequences are unbounded; states are 2^64 or 2^128 many", "anchors": ["include/eirin/random.hpp: permuted_congruential_engine::seed(std::seed_seq&), operator!="]}
{"id": "C105", "title": "sin and cos are accurate on every signed layout", "statement": "On every fixed-point type with signed storage of any width, no rounding and at least 8 fraction bits that can hold a full turn, sin on [-2pi, 2pi] and cos on [-pi, pi] are defined and within 0.0003 plus 25 ulp of the real functions.", "quantifier": "every such type and every value in the range", "why_tests_cant": "all instantiations of the templates; the tests use two of them", "anchors": ["include/eirin/math.hpp: sin, cos"]}
{"id": "C106", "title": "atan is accurate and odd on every signed layout", "statement": "On every fixed-point type with signed storage of any width, no rounding, at least 8 fraction bits and room for 1, atan is defined on [-1, 1], odd, and within 0.00037 plus 7.7 ulp of the real arctangent.", "quantifier": "every such type and every value in [-1, 1]", "why_tests_cant": "all instantiations of the template; the tests use two of them", "anchors": ["include/eirin/math.hpp: atan"]}
{"id": "C107", "title": "The mixing steps of the engines lose nothing", "statement": "For both named engines and every seed, the map from state to mixed value, the _xor step and the multiplication of mix_second are permutations of the w-bit values.", "quantifier": "all 2^32 and 2^64 values and all seeds", "why_tests_cant": "bijectivity on 2^64 values cannot be enumerated", "anchors": ["include/eirin/random.hpp: permuted_congruential_engine::generate, _xor, mix_second, pcg2014, pcg2014_64"]}
{"id": "C108", "title": "hypot is accurate whenever it returns", "statement": "On fixed32 and fixed64, whenever hypot with two or three arguments returns h, h^2 differs from the sum of the squares by at most 2^-13 + 3 h ulp.", "quantifier": "all storable arguments of both library types", "why_tests_cant": "the failing arguments form a grid of multiples of 2^(f/2); the accuracy needs the square root's guarantee at every sum", "anchors": ["include/eirin/math.hpp:621-630"]}
{"id": "C109", "title": "Integer powers are accurate on every layout", "statement": "For b >= 1 with b^n representable, pow(b,n) lies between b^n (1 - n ulp) and b^n; for 0 <= b <= 1 it lies between b^n - n ulp and b^n; an even power of a negative base equals the power of its absolute value.", "quantifier": "every valid non-rounding layout that can hold 1, every base and every exponent", "why_tests_cant": "unbounded exponents and all layouts at once; needs an induction over square-and-multiply", "anchors": ["include/eirin/math.hpp:484-513"]}
{"id": "C110", "title": "exp on every signed layout", "statement": "On every signed non-rounding layout of any width with 8 to 60 fraction bits that holds 3, exp of a non-negative argument with integer part n equals e^x - e^n (x-n)/2 with a relative error of at most 6e-5 + (4n+14) ulp while that fits; at integers it is e^n up to this error, half way between integers it is more than 14 percent too small, and for negative arguments it lies between 0.997 e^x - ulp and 1.24 e^x.", "quantifier": "all such layouts and all arguments whose exponential fits", "why_tests_cant": "real analysis over all layouts; tests only cover the two library types at single points", "anchors": ["include/eirin/math.hpp:515-545"]}
{"id": "C111", "title": "pow(fixed, fixed) stays within a fixed factor of the real power", "statement": "For b >= 1, e >= 0 with b^e fitting, (0.8 - n ulp) b^e <= pow(b,e) <= 1.002 b^e with n the integer part of e; for 1.02/2^(integer bits) <= b <= 1, 0.997 b^e - (n+2) ulp <= pow(b,e) <= 1.241 b^e.", "quantifier": "all bases and exponents of both library types in range", "why_tests_cant": "two-dimensional input space of 2^64 or 2^128 pairs compared with a real function", "anchors": ["include/eirin/math.hpp:549-565"]}
{"id": "C112", "title": "sqrt and hypot on every 64-bit layout", "statement": "For every signed 64-bit layout with 1 to 62 fraction bits, sqrt of a positive x is defined (for even f: below 91% of the range) and never a full ulp below the root; it is at most half an ulp above it or the loop stopped with |x - r^2| < 5/65536. For even f it is undefined from 91.5% of the range (from 1 up when f = 62). hypot is as accurate as long as the sum of squares is below 91% of the range.", "quantifier": "all 62 layouts, all 2^63 arguments", "why_tests_cant": "2^69 pairs of layout and argument; the loop runs a fixed number of rounds from a table of initial guesses", "anchors": ["include/eirin/math.hpp:170-190", "include/eirin/fixed.hpp:36-49", "include/eirin/fixed.hpp:508-516", "include/eirin/math.hpp:620-629"]}
{"id": "C113", "title": "sin, cos and tan over the whole range of every layout", "statement": "On every signed non-rounding layout of any width with 8 to 59 fraction bits and at least five integer bits, cos of every storable number and sin of every storable number but the lowest is defined and within 0.0003 + (27 + |x|/4) ulp (20 for sin) of the real function; where the cosine is at least four times this error and 2^(bits-1-f) |cos x| >= 2, tan is defined and within twice the error over cos^2 x.", "quantifier": "all such layouts and all storable numbers", "why_tests_cant": "every layout times 2^64 arguments, compared with real functions", "anchors": ["include/eirin/math.hpp: sin, cos, tan"]}
{"id": "C114", "title": "log and log10 on every layout", "statement": "On every signed non-rounding layout with 8 to 26 fraction bits (32 in 64-bit storage) log and log10 throw for arguments up to zero and otherwise return a value within (4 + 0.7 |ln x|) ulp, or (2.3 + 0.31 |lg x|) ulp, of the real logarithm. They are monotone. With up to 32 fraction bits the same holds whenever the integral part of the binary logarithm can be stored, and otherwise they overflow; with 33 to 59 fraction bits they are undefined everywhere.", "quantifier": "all layouts and all storable arguments", "why_tests_cant": "all instantiations times up to 2^64 arguments, compared with real functions", "anchors": ["include/eirin/math.hpp:461-482", "include/eirin/math.hpp: log2"]}
{"id": "C115", "title": "asin and acos on every layout", "statement": "On every signed non-rounding layout with 8 to 60 fraction bits that can hold 4, asin and acos of every x with |x| <= 0.7 are defined and within 0.00045 + 12 ulp of the real functions; outside [-1, 1] both report a domain error and at the end points they return the constants.", "quantifier": "all such layouts and all arguments", "why_tests_cant": "all instantiations times all arguments, compared with real functions", "anchors": ["include/eirin/math.hpp:323-349"]}
{"id": "C116", "title": "degrees and radians on every signed layout", "statement": "On every signed non-rounding layout of any width with at most 60 fraction bits that can hold pi, radians(x) is within (5 + |x|/120) ulp of x*pi/180 for every x, and degrees(x) is x*180/pi within (180 + 29|x|) ulp, reduced to the range of the type.", "quantifier": "all such layouts and all arguments", "why_tests_cant": "all instantiations times all arguments, compared with multiples of the real pi", "anchors": ["include/eirin/math.hpp:591-618"]}
{"id": "C117", "title": "cbrt on every signed layout", "statement": "On every signed non-rounding layout with at least five integer bits (the sign included), for every non-negative argument whose start value (x+2)/3 has a cube in range, cbrt is defined and cubes back within 10/65536 + (1 + r + 84 r^2) ulp.", "quantifier": "all such layouts and all such arguments", "why_tests_cant": "all instantiations times all arguments and all iteration counts of the loop", "anchors": ["include/eirin/math.hpp:364-380"]}
{"id": "C118", "title": "String parsing on every signed layout", "statement": "On every signed layout of 32 or 64 storage bits with f <= bits-2, the string parsers accept a numeral in range whose fraction fits the decimal divisor, with a value at most the numeral and less than 11 ulp below it (exact for integers); they return false for one out of range; the strict parser rejects malformed text; and the text written by operator<< parses back within 10 ulp, exactly for integers.", "quantifier": "all such layouts (any fraction, any wider intermediate type), all numerals, all values", "why_tests_cant": "all instantiations of the template times all strings", "anchors": ["include/eirin/fixed.hpp: detail::parse, fixed_from_cstring, operator<<"]}
{"id": "C119", "title": "Exactly when operator>> inverts operator<<", "statement": "On every signed layout of 32 or 64 storage bits that operator<< can print, extracting the text of a value (other than the minimum) gives the value back and empties the stream if and only if the fraction digits taken as an integer and scaled by 2^f fit the storage type, ten to the number of fraction digits fits it, and the precision cut-off does not come before the last digit. The same condition decides, for any numeral in range, whether operator>> reads all of it and gives it truncated to a multiple of one ulp.", "quantifier": "all such layouts; all values but the minimum, and all numerals below the range bound", "why_tests_cant": "2^64 values per layout", "anchors": ["include/eirin/fixed.hpp: operator<<, operator>>"]}
{"id": "C120", "title": "Formatted text parses back on every layout", "statement": "On every signed layout of 32 or 64 bits that can be printed (room for 10 in the storage), the text std::format writes for a value with type f, F, g or G and precision p (at most 18 or 38 decimals) is accepted by fixed_from_cstring and the constexpr parser and gives the value back up to 10^-p and eleven ulp, integers exactly; with type g and at least as many decimals as fraction bits it is the text of operator<<.", "quantifier": "every signed 32/64-bit layout with 10*2^f representable, every storable value, every decimal format state without width and with sign '-'", "why_tests_cant": "Three independent pieces of code (formatter, printer, parser) must agree on infinitely many layouts and 2^64 values; the failing cases are all negative non-integers.", "anchors": ["include/eirin/io/format.hpp: fixed_num_formatter::format_to", "include/eirin/io/parse.hpp: fixed_from_cstring", "include/eirin/fixed.hpp: parse, operator<<"]}
{"id": "C121", "title": "The outcome of the string parsers on every numeral whatsoever", "statement": "For every signed layout of 32 or 64 bits and every decimal numeral, in range or not and with any number of digits, detail::parse and fixed_from_cstring have the same outcome: signed overflow (undefined behaviour) when the integer part or the power of ten of the used fraction digits exceeds the intermediate type; otherwise the floor of the used numeral reduced modulo the intermediate type, accepted iff that fits the storage (and negated for a leading minus, which overflows for the lowest value). Consequently integer parts count only modulo 2^(I.bits-f): 2^48+1 is accepted by fixed32 as 1.", "quantifier": "all signed layouts with 32- or 64-bit storage, all numerals of any length, both signs, all old values", "why_tests_cant": "The numerals that wrap or overflow have up to forty digits and no upper bound on length; the boundary between rejected, accepted-as-wrong and undefined depends on the cut-off position inside the fraction.", "anchors": ["include/eirin/fixed.hpp: detail::parse", "include/eirin/fixed.hpp: fixed_from_cstring"]}
{"id": "C122", "title": "The string parsers on unsigned layouts", "statement": "On every unsigned layout of 32 or 64 bits, detail::parse and fixed_from_cstring accept a numeral exactly when it has no minus sign (or denotes zero) and is below the bound of the type, and then store its value (up to the precision cut-off).", "quantifier": "all unsigned layouts with 32- or 64-bit storage, all numerals of any length, both signs; total outcome, including wrap-around and division by zero", "why_tests_cant": "The unsigned instantiation has its own arithmetic (everything wraps, nothing traps); the failures are a minus sign, integer parts beyond 2^(I.bits-f), and fractions with 64 or more leading zeros, none of which a sample of ordinary numerals contains.", "anchors": ["include/eirin/fixed.hpp: detail::parse", "include/eirin/fixed.hpp: fixed_from_cstring"]}
{"id": "C123", "title": "Outcome of operator>> and io::parse on every numeral", "statement": "On every signed layout of 32 or 64 bits, extracting a numeral of any length, followed by any text that cannot continue it, has exactly this outcome: signed overflow if the integer part or the power of ten of the used fraction digits exceeds the storage type; otherwise the integer part and the used fraction digits, each shifted left by the fraction bits and wrapped into the storage, are combined as (wrapped integer part) + trunc(wrapped digits / power of ten), negated for a minus sign, overflowing exactly when the sum or its negation does not fit, and the unused digits and the rest remain in the stream. io::parse on a numeral directly before the terminator has the same outcome for fixed32, returning a pointer to the first unused digit or the terminator.", "quantifier": "all signed 32- and 64-bit layouts, all numerals (any number of digits, either sign, with or without a fraction), all following texts, all previous values", "why_tests_cant": "Wrapping starts silently: from five fraction digits in a fixed32 the result is negative although every shorter prefix is read correctly, and the traps sit at sums of two wrapped quantities; enumerating numerals of unbounded length is impossible.", "anchors": ["include/eirin/fixed.hpp: operator>>", "include/eirin/io/parse.hpp: io::parse"]}
{"id": "C124", "title": "Construction from floating point in IEEE arithmetic", "statement": "Constructing a fixed-point number from a float, double or long double is undefined for NaN and infinities; for a finite value a non-rounding type stores the value truncated toward zero (undefined exactly when that does not fit), with no visible floating-point rounding; a rounding type stores the nearest value for negative arguments.", "quantifier": "all layouts, all binary formats with precision >= 2, units below one and range beyond 2^128 (binary32, binary64, x87 extended, binary128), all values of the format", "why_tests_cant": "The interesting arguments are one unit in the last place away from a half, subnormals and near-overflow values: there are 2^64 doubles and far more long doubles, and sampling rarely meets a double rounding.", "anchors": ["include/eirin/fixed.hpp: explicit fixed_num(std::floating_point)"]}
{"id": "C125", "title": "Conversion to floating point in IEEE arithmetic", "statement": "The conversion to float, double or long double is always defined and yields a number of the format nearest to the integer part; integral numbers convert exactly, and converting them back gives the same number.", "quantifier": "all layouts, all binary formats as in C124, all stored values", "why_tests_cant": "Exactness depends on the number of significant bits of the value against the precision of the target, a boundary that random samples of small values never reach.", "anchors": ["include/eirin/fixed.hpp: explicit operator T (floating)", "include/eirin/fixed.hpp: explicit fixed_num(std::floating_point)"]}
{"id": "C126", "title": "print_constants prints the definitions of numbers.hpp", "statement": "print_constants<int64_t>(fraction) prints, for each of the eleven constants, a definition whose literal, read with the fraction bits the definition states, is the constant to the requested precision; with the default argument it is literally the name and literal of numbers.hpp.", "quantifier": "all fraction arguments up to 61, all formats of long double (binary64, x87 extended, binary128), all eleven constants", "why_tests_cant": "The text depends on two roundings of decimal literals and a bit-by-bit loop in double arithmetic, and on the fraction argument, of which only the default is ever tried.", "anchors": ["include/eirin/detail/util.hpp: print_constants, eval_value, cst_lst", "include/eirin/numbers.hpp: log2e_v .. phi_v"]}
{"id": "C127", "title": "eval_value on every double, integer type and fraction count", "statement": "For every builtin integer type I, every finite double v and every fraction count n, eval_value<I>(v, n) yields trunc(v * 2^n) whenever that fits I. Its outcome is determined in all other cases too: which arguments are undefined, and what is stored when the value does not fit.", "quantifier": "every integer type of 8 to 64 bits, every double, every n", "why_tests_cant": "2^64 doubles, 8 types, and undefined cases that a constant expression would hide", "anchors": ["include/eirin/detail/util.hpp: eval_value, fraction_bits"]}
{"id": "C128", "title": "Different seeds give different random sequences", "statement": "Engines constructed from different seeds run through different sequences: neither is the other with some calls discarded.", "quantifier": "both engines, all pairs of seeds, all numbers of discarded calls, every treatment of over-wide shifts", "why_tests_cant": "A test compares prefixes for a few seeds; overlap of whole cycles of length 2^32 or 2^64 is invisible to it.", "anchors": ["include/eirin/random.hpp: permuted_congruential_engine::generate, discard, permuted_congruential_engine(UIntType)"]}
{"id": "C129", "title": "Negative integer powers stay within a bounded error of the exact power", "statement": "For a non-zero base b and n > 0, pow(b, -n) is 1/b^n up to an error of a number of ulps that is bounded in terms of n: for |b| at least one, at most one ulp too small per one in the binary representation of n and at most n ulps (relative) too large, as long as the squares formed on the way can be represented; for |b| below one, at most one ulp (relative) too small per binary one and at most n*ulp/b^n (relative) too large, as long as the result with that margin can be represented. Negating the base changes only the sign of odd powers.", "quantifier": "all non-rounding types that can represent one, all storable bases, all n below 2^64 whose squares/results fit", "why_tests_cant": "The error depends on base, exponent and type together and on how truncated squares combine with truncated quotients; a test only sees single points, usually with integral bases.", "anchors": ["include/eirin/math.hpp: pow(fixed, integer)"]}
{"id": "C130", "title": "exp is monotone", "statement": "x <= y implies exp(x) <= exp(y) wherever the values fit.", "quantifier": "all signed non-rounding layouts of any width with 12 to 60 fraction bits in which 3 is representable, all pairs of arguments whose exponentials fit", "why_tests_cant": "Monotonicity is about all pairs of arguments on all layouts; a spot check at well separated points cannot see a decrease between neighbours or at the joints between the integer powers.", "anchors": ["include/eirin/math.hpp: exp, detail::exp_expand"]}
{"id": "C131", "title": "Arithmetic expressions stay within their forward error bound", "statement": "Any expression built from + - * / and unary minus evaluates, without undefined behaviour, to a number whose distance from the exact rational value is at most the bound obtained by propagating errors and adding one ulp for each product and each quotient, provided every subexpression with its bound lies in range and no divisor can be zero. In particular sums are exact while the partial sums fit, Horner's rule on [-1,1] errs by at most one ulp per coefficient, and an inner product by at most one ulp per term.", "quantifier": "all expression trees, all valid non-rounding layouts (signed or unsigned, any width), all stored leaves; Horner and inner products for lists of every length", "why_tests_cant": "The set of programs is infinite; tests evaluate single operators on a few operands.", "anchors": ["include/eirin/fixed.hpp: operator+ operator- operator* operator/ unary minus"]}
{"id": "C132", "title": "The inverse trigonometric functions undo the direct ones", "statement": "atan(tan x) = x on [-pi/4, pi/4], tan(atan x) = x on [-1, 1], sin(asin x) = x and cos(acos x) = x for |x| <= 0.7, up to the errors of the two functions; in particular the quantity |atan(sin x / cos x) - x| that the test program samples is at most 0.00158 (0.0005 away from zero) for every fixed64 argument.", "quantifier": "all signed non-rounding layouts of any width with 8 to 59 fraction bits and at least four integer bits (asin/acos: the 64-bit ones), all arguments in the stated intervals", "why_tests_cant": "The test program samples this error in steps of 0.01 on one type and does not compare it with anything; the property is about every argument of every layout.", "anchors": ["include/eirin/math.hpp: sin, cos, tan, atan, asin, acos", "test/main.cpp: main (precision of atan)"]}
{"id": "C133", "title": "exp and log are mutually inverse", "statement": "exp(log(x)) = x and log(exp(x)) = x up to one percent of the result, wherever the intermediate values fit.", "quantifier": "all signed non-rounding layouts with 16 to 26 fraction bits (32 with 64-bit storage), all positive numbers whose size and reciprocal fit, all non-negative exponents", "why_tests_cant": "The tests check log(e) and exp(1) only, which are exactly the points where the error of exp vanishes; the error between the integers is only visible when all arguments are considered.", "anchors": ["include/eirin/math.hpp: exp, log"]}
{"id": "C134", "title": "sqrt undoes squaring", "statement": "sqrt(x * x) = |x| wherever the square fits; sqrt(x) * sqrt(x) is x up to the rounding of the root.", "quantifier": "all fixed32 numbers with a storable square; all non-negative fixed32 numbers; all 64-bit layouts with 1 to 61 fraction bits and squares in the domain of C112", "why_tests_cant": "The tests take roots of a handful of numbers and never compose sqrt with multiplication; the loss happens for every number whose square is not on the grid.", "anchors": ["include/eirin/math.hpp: sqrt", "include/eirin/fixed.hpp: operator*"]}
{"id": "C135", "title": "The elementary functions preserve the order of their arguments", "statement": "sin on [0, 3/2], tan on [0, 3/2], atan on [0, 1], asin on [0, 1], cbrt, sqrt and hypot are non-decreasing; cos on [0, pi] is non-increasing.", "quantifier": "all pairs of arguments; all signed non-rounding layouts of the respective accuracy theorems (fixed32 for hypot, all 64-bit layouts for sqrt)", "why_tests_cant": "Monotonicity is a statement about all pairs of arguments; tests compare single results with a tolerance, and the violations are between neighbouring arguments.", "anchors": ["include/eirin/math.hpp: sin, cos, tan, atan, asin, cbrt, sqrt, hypot"]}
{"id": "C136", "title": "The rounding parameter changes results in the last place only", "statement": "fixed_num<T, I, f, true> computes what fixed_num<T, I, f, false> computes, up to one unit in the last place of each multiplication and division.", "quantifier": "all storage types, fraction counts and values; pow: all rounding layouts, integral bases, exponents below 2^64; hypot: all pairs of the rounding variant of fixed32", "why_tests_cant": "The test suite instantiates only the truncating variants, so nothing in it distinguishes the two; the claim is about all types and values.", "anchors": ["include/eirin/fixed.hpp: operator*, operator/", "include/eirin/math.hpp: pow, hypot"]}
{"id": "C137", "title": "The CPU feature query is right when several threads ask first", "statement": "Under every schedule of any number of threads, calling the feature queries causes no data race and every answer is what the processor advertises.", "quantifier": "for all numbers of threads, schedules, processors and queries", "why_tests_cant": "a test runs a handful of schedules out of infinitely many, and the window between setting the flag and setting the bits is a few instructions", "anchors": ["include/eirin/ext/simd_math.hpp:28-107: platform_support"]}
{"id": "C138", "title": "Integer powers preserve the order of bases and exponents", "statement": "Where the exact powers fit, a larger non-negative base gives an integer power at least as large, and raising a base of at least one to a larger exponent, of either sign, gives a power at least as large.", "quantifier": "all non-rounding types (partials), all non-negative bases, all exponents of at most 64 bits", "why_tests_cant": "Order is a statement about all pairs of arguments; the failing pairs are a handful among billions and differ in the last digit.", "anchors": ["include/eirin/math.hpp:484-513: pow"]}
{"id": "C139", "title": "sqrt on unsigned layouts", "statement": "On every unsigned 32- and 64-bit layout sqrt is defined for every argument, never one unit or more below the root, and at most half a unit above it unless the loop was left early with the square at most 5/65536 below the argument.", "quantifier": "all unsigned 32- and 64-bit layouts, all fraction counts, all values", "why_tests_cant": "The tests instantiate signed types only; the failing layouts and arguments are a corner of a space of 2^32 or 2^64 values for each of 94 layouts.", "anchors": ["include/eirin/math.hpp:101-189: sqrt", "include/eirin/fixed.hpp:36-81, 508-516: initial guess"]}
{"id": "C140", "title": "log2 on unsigned layouts", "statement": "On every unsigned 32- and 64-bit layout log2 of zero throws, and log2 of a positive number is returned to within four units or an exception reports that the type cannot hold it.", "quantifier": "all unsigned 32- and 64-bit layouts, all fraction counts, all values", "why_tests_cant": "The tests take logarithms on signed types only, and never of an argument below one on a type that cannot hold the negative result.", "anchors": ["include/eirin/math.hpp:392-448: log2"]}
{"id": "C141", "title": "sin and cos on unsigned layouts", "statement": "On every unsigned layout with at least eight fraction bits and four integer bits, a sine or cosine of an angle in the first turn that is not negative is returned to the accuracy known for signed layouts.", "quantifier": "all unsigned 32- and 64-bit layouts with 8 to 59 fraction bits and at least four integer bits, all angles in the first turn", "why_tests_cant": "The tests instantiate signed types only; on unsigned types the intermediate angle of cos wraps for every argument below three quarters of a turn.", "anchors": ["include/eirin/math.hpp:202-272: sin, cos, tan"]}
{"id": "C142", "title": "exp on unsigned layouts", "statement": "On every unsigned layout with 8 to 60 fraction bits and at least three integer bits, exp returns e^x - e^n (x - n)/2 (n the integer part of x) to a relative error of 6e-5 plus 4n + 14 ulp wherever this fits, using the extra bit of range; with 16 fraction bits or more this lies between 0.81 e^x and 1.003 e^x; and where the result fits the signed 64-bit layout too, both layouts give the same raw value.", "quantifier": "all unsigned 32- and 64-bit layouts with 8 to 60 fraction bits and at least three integer bits, all arguments whose exponential fits", "why_tests_cant": "The tests instantiate signed types only and a handful of arguments; the branch on the sign, the integral part and the repeated squaring all depend on the storage type.", "anchors": ["include/eirin/math.hpp:517-545: exp_expand, exp"]}
{"id": "C143", "title": "cbrt of negative numbers", "statement": "On every signed layout with at least 16 fraction bits and five integer bits, cbrt of a negative number is defined, negative and cubes back to its argument, as far down as the mirrored positive numbers work (C117).", "quantifier": "all such layouts, all storable negative arguments with ((|x|+2)/3)^3 below the top of the range", "why_tests_cant": "cbrt has no test for negative arguments at all; the start value (x+2)/3 is the one for positive numbers and changes sign at -2.", "anchors": ["include/eirin/math.hpp:364-380: cbrt"]}
{"id": "C144", "title": "log and log10 on unsigned layouts", "statement": "On every unsigned layout with 8 to 32 fraction bits and at least three integer bits, log and log10 of a positive number are within a few ulp of the real logarithm, or an exception reports that the type cannot hold the result.", "quantifier": "all such 32- and 64-bit unsigned layouts, all storable arguments", "why_tests_cant": "The tests use signed types only; a negative logarithm has no representation in an unsigned type, and nothing in the code checks for it.", "anchors": ["include/eirin/math.hpp:461-465: log", "include/eirin/math.hpp:478-482: log10", "include/eirin/math.hpp:391-447: log2"]}
{"id": "C145", "title": "The logarithms on 8- and 16-bit layouts", "statement": "On every 8- and 16-bit layout, signed or unsigned, rounding or not, log2 throws a domain error at and below zero and otherwise returns the logarithm to four ulp.", "quantifier": "all layouts with storage narrower than int, any intermediate type, all storable arguments", "why_tests_cant": "The tests only use 32- and 64-bit storage; on narrower types the arithmetic happens in int and is narrowed on every store, so overflow is silent instead of undefined.", "anchors": ["include/eirin/math.hpp:391-447: log2", "include/eirin/math.hpp:461-465: log", "include/eirin/math.hpp:478-482: log10"]}
{"id": "C146", "title": "The square root on 8- and 16-bit layouts", "statement": "On every 8- and 16-bit layout, signed or unsigned, sqrt of a positive number is storable, less than one ulp below and at most half an ulp above the root.", "quantifier": "all truncating layouts with storage narrower than int, any intermediate type, all storable arguments", "why_tests_cant": "The tests only use 32- and 64-bit storage; on narrower types the sum of the two iterates is computed in int and narrowed silently, and the epsilon of the early exit is zero.", "anchors": ["include/eirin/math.hpp:101-189: sqrt", "include/eirin/fixed.hpp:36-49: sqrt_init_value", "include/eirin/fixed.hpp:508-516: get_sqrt_init_value"]}
{"id": "C147", "title": "String parsing on 8- and 16-bit layouts", "statement": "On every 8- and 16-bit layout both string parsers accept a well-formed decimal numeral exactly when its value is below the storage bound, and behave the same.", "quantifier": "all layouts with storage narrower than int, any intermediate type, all decimal numerals of any length", "why_tests_cant": "The tests parse only 32- and 64-bit types, whose accumulators trap on overflow; with a 16-bit accumulator the digits wrap silently and the divisor of the fraction reaches zero.", "anchors": ["include/eirin/fixed.hpp:682-751: detail::parse", "include/eirin/fixed.hpp:962-1032: fixed_from_cstring"]}
{"id": "C148", "title": "Symmetries of sine and cosine on every signed layout, for arguments of any size", "statement": "Outside the small-angle range sin is exactly odd and exactly periodic with double_pi(), and vanishes at its multiples; however large the argument, sin and cos stay within 1 + 4e-6 + 11.1 ulp, satisfy the Pythagorean identity to 0.001 + 90 ulp, and cos is even to 0.0006 + 56 ulp.", "quantifier": "all signed non-rounding layouts of any width with 8 to 59 fraction bits and at least four integer bits, all storable arguments but the minimum", "why_tests_cant": "The tests compare sine and cosine separately with the C library at a few angles of two layouts; they never relate two results and never use arguments where the truncated period has drifted.", "anchors": ["include/eirin/math.hpp:191-262: sin, cos", "include/eirin/fixed.hpp:230-260: double_pi, pi_2"]}
{"id": "C149", "title": "degrees and radians on every unsigned layout", "statement": "On every unsigned non-rounding layout of any width with at most 60 fraction bits that can hold pi, radians(x) is within (5 + x/120) ulp of x*pi/180 for every x, and degrees(x) is x*180/pi within (180 + 29 x) ulp, reduced to the range of the type.", "quantifier": "all such layouts and all arguments", "why_tests_cant": "all instantiations times all arguments; the tests have no unsigned type", "anchors": ["include/eirin/math.hpp:591-618: degrees, radians"]}
{"id": "C150", "title": "mixed integer arithmetic on every layout with every integer type", "statement": "On every layout and for every integer type of 8 to 128 bits, signed or not, fixed*integer is exact whenever the product is representable and otherwise the product reduced to the range or undefined; fixed/integer truncates the exact quotient toward zero whenever that is representable and is undefined for zero; and on unsigned and narrow layouts fixed+integer, fixed-integer and integer-fixed are the exact result reduced to the range, whether or not the integer is representable.", "quantifier": "all valid layouts, all integer types, all storable values, all integers of the type", "why_tests_cant": "all instantiations times all pairs; the tests use int with fixed32", "anchors": ["include/eirin/fixed.hpp:312-400: operator+=, -=, *=, /= (integral)", "include/eirin/fixed.hpp:824-882: the free operators"]}
{"id": "C151", "title": "the tolerance comparisons on every layout", "statement": "On every layout, for all values whose difference is representable, nearly_eq, nearly_ne, nearly_gt, nearly_lt, nearly_gt_eq and nearly_lt_eq compare the exact difference with the tolerance, which is 5/65536 cut (in rounding types rounded) to a multiple of the ulp.", "quantifier": "all valid layouts, all storable values", "why_tests_cant": "all instantiations times all pairs; the tests use fixed32", "anchors": ["include/eirin/fixed.hpp:201-204: epsilon", "include/eirin/fixed.hpp:237-240: nearly_compare_epsilon", "include/eirin/fixed.hpp:453-485: nearly_eq, nearly_ne, nearly_gt, nearly_lt, nearly_gt_eq, nearly_lt_eq"]}
{"id": "C152", "title": "fmod and modf on every layout", "statement": "On every non-rounding layout, signed or unsigned and of any width, fmod(a,b) is a - b*floor(a/b) whenever the quotient is in range and not just below an integer with the signs different; on unsigned layouts it is the modulus for every non-zero divisor; and modf splits every value into its floor and a fraction in [0,1).", "quantifier": "all such layouts and all arguments", "why_tests_cant": "all instantiations times all pairs; the tests try three pairs in fixed32", "anchors": ["include/eirin/math.hpp:563-578: fmod, modf"]}
{"id": "C153", "title": "std::format on unsigned and narrow layouts", "statement": "On every unsigned layout and on every signed layout of 8 or 16 bits, std::format with the integer types prints sign, prefix and digits of the integer part (for negative values the ceiling of the magnitude), and with the types g, G, f and F the decimals of the magnitude cut to the precision, for every value and on unsigned layouts of every fraction.", "quantifier": "all such layouts in which one is storable, all format states without width, all stored values", "why_tests_cant": "all instantiations times all values; the tests format fixed32 only", "anchors": ["include/eirin/io/format.hpp:56-182: format_to", "include/eirin/io/format.hpp:243-274: digits", "include/eirin/fixed.hpp:265-276: integral_part"]}
{"id": "C154", "title": "Sums of many numbers and negation", "statement": "Adding up a list with += is always defined on unsigned and narrow layouts and gives the exact total whenever that is representable, whatever the partial sums; on signed 32- and 64-bit layouts it is defined exactly when every partial sum is representable and is then exact; the order of the summands never changes a defined result. Negation on unsigned and narrow layouts is its own inverse and the inverse of addition.", "quantifier": "all layouts, all lists of stored values of any length, all permutations", "why_tests_cant": "lists of arbitrary length; the tests add two numbers", "anchors": ["include/eirin/fixed.hpp:301-310: operator+, operator+=", "include/eirin/fixed.hpp:413-416: unary operator-"]}
{"id": "C155", "title": "hypot on unsigned and narrow layouts", "statement": "On every unsigned and every 8- or 16-bit layout, hypot of two and of three arguments is the square root of the sum of the squares to the accuracy of sqrt plus one ulp per square.", "quantifier": "all unsigned 32- and 64-bit layouts and all truncating 8- and 16-bit layouts with at least three bits besides the fraction, all stored arguments", "why_tests_cant": "all instantiations times all pairs and triples; the tests call hypot in fixed32 only", "anchors": ["include/eirin/math.hpp:620-629: hypot"]}
{"id": "C156", "title": "operator>> on unsigned and narrow layouts", "statement": "On every unsigned layout of 32 or 64 bits and every 8- or 16-bit layout, extracting a numeral whose value and number of digits fit reads it to less than eleven ulps.", "quantifier": "all unsigned 32- and 64-bit layouts and all 8- and 16-bit layouts with one storable, all numerals of any length and either sign, all following texts", "why_tests_cant": "numerals of unbounded length times all instantiations; the failures need a digit string just past a power of two", "anchors": ["include/eirin/fixed.hpp:1034-1093: operator>>"]}
{"id": "C157", "title": "cbrt on unsigned layouts", "statement": "On every unsigned layout with at least four integer bits, for every argument whose start value (x+2)/3 has a square in range, cbrt is defined and cubes back within 10/65536 + (1 + r + 84 r^2) ulp.", "quantifier": "all unsigned 32- and 64-bit layouts and all such arguments", "why_tests_cant": "the cube in the loop test wraps silently, so wrong answers sit at isolated arguments (one in some ten million) that sampling does not meet", "anchors": ["include/eirin/math.hpp:364-380: cbrt"]}
{"id": "C158", "title": "pow(fixed, fixed) on every signed layout", "statement": "On every signed non-rounding layout of 32 bits with 16 to 26 fraction bits or 64 bits with 16 to 32, for a base of at least one and a non-negative exponent with integer part n, wherever b^e fits with two percent to spare, pow(b, e) is defined and lies between (0.8 - n ulp) b^e and 1.004 b^e; for a base between 1.02/2^(integer bits) and one it is defined and lies between 0.996 b^e - (n+2) ulp and 1.241 b^e. A whole exponent gives the integer power, a negative base ends the program. With 33 to 59 fraction bits it is undefined for every non-zero base and non-negative exponent.", "quantifier": "all such layouts, all stored bases and exponents", "why_tests_cant": "two-dimensional domain of up to 2^128 points in 28 layouts against a transcendental function; tests sample a few points of one layout", "anchors": ["include/eirin/math.hpp:549-565: pow", "include/eirin/math.hpp:519-547: exp"]}
{"id": "C159", "title": "atan, asin and acos on unsigned layouts", "statement": "On every unsigned layout of 32 or 64 bits with at least three integer bits, atan of a value in [0, 1] is defined and within 0.00037 + 7.7 ulp of the arctangent; asin and acos throw exactly above one.", "quantifier": "all unsigned 32- and 64-bit layouts and all stored arguments", "why_tests_cant": "the wrapped negative coefficient cancels at 0 and at 1, the two points a test checks, and is off everywhere between in a way that depends on the layout", "anchors": ["include/eirin/math.hpp:287-302: atan", "include/eirin/math.hpp:323-349: asin, acos"]}
{"id": "C160", "title": "pow(fixed, fixed) on unsigned layouts", "statement": "On every unsigned layout of 32 or 64 bits with 16 to 32 fraction bits and at least three integer bits, for a positive base and an exponent with integer part n, wherever b^e fits with two percent to spare, pow(b, e) lies between (0.8 - n ulp) b^e and 1.25 b^e, give or take n + 2 ulp.", "quantifier": "all such layouts, all stored bases and exponents", "why_tests_cant": "the failure needs a base below one and a fractional exponent on an unsigned type; whole exponents and larger bases, the usual test points, are right", "anchors": ["include/eirin/math.hpp:549-565: pow", "include/eirin/math.hpp:438-482: log2, log"]}
{"id": "C161", "title": "std::format in narrow and wide strings", "statement": "In every ASCII-compatible encoding of the format string (UTF-8 in char, UTF-16 or UTF-32 in wchar_t) a replacement field with any fill character other than ':' and the braces is parsed up to its '}' and writes the encoding of the text the character-level formatter gives.", "quantifier": "all ASCII-compatible encodings, all well-formed specifications, all text after the field, all layouts and values", "why_tests_cant": "needs a fill outside ASCII in a narrow string; tests use ASCII specifications and char only", "anchors": ["include/eirin/io/format.hpp:374-503: formatter::parse, format", "include/eirin/io/format.hpp:326-363: output_aligned"]}
{"id": "C162", "title": "Laws of integer exponents", "statement": "For an integer exponent pow(b,m)*pow(b,n) agrees with pow(b,m+n), pow(pow(b,m),n) with pow(b,mn), and pow(ab,n) with pow(a,n)*pow(b,n), up to the rounding of the multiplications: a relative (m+n), resp. (m+1)n ulp for bases from one on, and (m+n+1), (m+1)n, 2n+1 ulp for bases in [0,1].", "quantifier": "all valid truncating layouts that contain one (any width, signedness, point position), all bases, all pairs of exponents whose powers fit", "why_tests_cant": "binary exponentiation multiplies in a different order for m, n and m+n; tests compare single powers with literals", "anchors": ["include/eirin/math.hpp:484-513: pow(fixed, int)"]}
{"id": "C163", "title": "The table-driven sine of negative angles", "statement": "lut_calc_sin(-x) = -lut_calc_sin(x) up to two ulps.", "quantifier": "all angles up to 131072, every std::sin within 2^-40 of the sine; the extrapolation form for all table sizes from 2 to 4096 and all tables of numbers in [-1,1]", "why_tests_cant": "negative angles are never passed to it in tests or benchmarks; the wrong direction of the reduction is invisible for x >= 0", "anchors": ["include/eirin/detail/util.hpp:227-248: lut_calc_sin", "include/eirin/fixed.hpp:265-273: integral_part (rounds away from zero for negative values)"]}
{"id": "C164", "title": "Laws of the logarithm on every layout", "statement": "log2(2^j x) is log2(x) + j in the arithmetic of the type, hence exactly log2(x) + j whenever that is representable; log2(x*y) is within 8 ulp of log2(x) + log2(y) and log2(x/y) within 10 ulp of log2(x) - log2(y) whenever the product, resp. quotient, is at least one and fits.", "quantifier": "all signed 32/64-bit layouts with at most 26/32 fraction bits, all unsigned ones with at most 32, all 8- and 16-bit layouts holding the numbers below two, all arguments, all j; the doubling law for every valid layout", "why_tests_cant": "the scaling law is an exact equality between two runs with different loop counts, over all layouts; wrap-around on unsigned and narrow layouts is included", "anchors": ["include/eirin/math.hpp:392-448: log2"]}
{"id": "C165", "title": "Trigonometric identities on every signed layout", "statement": "sin(x)*sin(x) + cos(x)*cos(x), evaluated with the library's operators, is one up to 5e + 2 ulp; sin(x+y) and cos(x+y) agree with their addition formulas, and sin(2x), cos(2x) with the double-angle formulas, up to 6e + 2 ulp, where e = 3/10000 + (27 + M/4) ulp is the error of the functions for arguments up to M.", "quantifier": "all truncating signed layouts with 8 to 59 fraction bits and four integer bits (16, 32 and 64 bits wide), all pairs of arguments with e at most one half", "why_tests_cant": "relates up to nine calls on pairs of arguments; tests check single values", "anchors": ["include/eirin/math.hpp: sin, cos", "include/eirin/fixed.hpp:301-360: operator+, operator-, operator*"]}
{"id": "C166", "title": "exp turns sums into products", "statement": "exp(x) * exp(y), evaluated with the library's operators, is within 1% of exp(x + y).", "quantifier": "all pairs of non-negative arguments with sum at most 10 (fixed32); for the part that holds: all truncating signed layouts with 8 to 60 fraction bits that can represent 3", "why_tests_cant": "a relation between three calls on pairs of arguments; tests check exp of single values", "anchors": ["include/eirin/math.hpp:515-547: exp_expand, exp", "include/eirin/fixed.hpp:301-360: operator+, operator*"]}
{"id": "C167", "title": "CORDIC: the number of passes controls the accuracy, and results lie on the unit circle", "statement": "After n passes the CORDIC sine and cosine are within 2^(1-n) + 4^(-n) + 97 ulp (plus one ulp per half turn removed) of the sine and cosine of the angle the code works with (a negative angle without its sign bit); the computed point (cos, sin) is on the unit circle up to 4^(-n) + 59 ulp.", "quantifier": "fixed32 and fixed64, every pass count 1 to 41, every storable angle including the minimum", "why_tests_cant": "a convergence rate over all instantiations of the template; tests call the 41-pass instance at a few angles", "anchors": ["include/eirin/ext/cordic.hpp:74-140: cordic_optimize_angel, cordic"]}
{"id": "C168", "title": "Laws of the rounding functions on every storage type", "statement": "floor, ceil, trunc and round leave integral numbers unchanged (so they are idempotent), are monotone, and floor and ceil commute with adding integers; trunc and round are odd; floor = trunc on non-negative numbers; ceil is floor or floor + 1.", "quantifier": "every storage type (8 to 64 bits, signed or unsigned, any point position that leaves room for 1), all pairs of stored numbers", "why_tests_cant": "laws over pairs of numbers and all storage types, including the ones narrower than int where promotion changes the arithmetic", "anchors": ["include/eirin/math.hpp:31-75: ceil, floor, trunc, round"]}
{"id": "C169", "title": "Formatted text parses back on unsigned and narrow layouts", "statement": "What std::format writes with type g or f and precision p is accepted by both string parsers and gives back the number up to 10^-p and eleven ulp; integers come back exactly.", "quantifier": "every unsigned 32/64-bit layout and every 8/16-bit layout with 10 representable, every stored number, every decimal format state without width and with at most as many decimals as the intermediate type can take in", "why_tests_cant": "composition of the formatter and two parsers over all layouts, precisions and numbers", "anchors": ["include/eirin/io/format.hpp: formatter::format", "include/eirin/fixed.hpp: fixed_from_cstring, parse"]}
{"id": "C170", "title": "hypot does not depend on the order and the signs of its arguments", "statement": "hypot(x,y) and hypot(x,y,z) give the same outcome for every order of the arguments and after negating any of them; hypot(x,y,0) is hypot(x,y).", "quantifier": "every valid non-rounding layout, all stored numbers, including those for which the result wraps or is undefined", "why_tests_cant": "three-argument law over whole types, including inputs whose squares wrap; the interesting inputs are those no accuracy test would choose", "anchors": ["include/eirin/math.hpp:620-629: hypot"]}
{"id": "C171", "title": "No overflow in any mathematical function on unsigned and narrow types", "statement": "On unsigned storage and on storage narrower than int, sin, atan, degrees and floor return a number for every argument, so do cos (given one integer bit beside the sign), exp on unsigned types and integer powers with non-negative exponents; tan returns or throws; sqrt, hypot, asin, acos, cbrt, exp, negative powers, radians and fmod return, throw std::domain_error or divide by zero, and the logarithms on narrow types return, throw or (without an integer bit) never end. Nothing overflows and no shift is out of range.", "quantifier": "every valid non-rounding layout that is unsigned or narrower than int with at most 60 fraction bits, all stored arguments, all 64-bit exponents", "why_tests_cant": "absence of undefined behaviour over all arguments and layouts, including wrapped intermediate values that accuracy tests never look at", "anchors": ["include/eirin/math.hpp:101-629: sqrt, sin, cos, tan, atan, asin, acos, cbrt, log2, log, log10, pow, exp, fmod, degrees, radians, hypot"]}
{"id": "C172", "title": "The replacement limits for storage types unknown to the standard library", "statement": "Where numeric_limits<T> is not specialised, numeric_limits<fixed_num>::min and max (computed from the sign bit) are the smallest and the largest stored value.", "quantifier": "every storage type of 8 to 128 bits, signed or unsigned, every stored value", "why_tests_cant": "the branch is not compiled for the types of the test suite", "anchors": ["include/eirin/fixed.hpp:1167-1191: numeric_limits::min, max", "include/eirin/fixed.hpp:244-247: signbit_mask"]}
{"id": "C173", "title": "Every outcome of pow(fixed, fixed) on unsigned and narrow types", "statement": "A non-negative number raised to a power is returned as a number of the type, on every unsigned type and every type narrower than int. (False: a negative exponent divides by a power that has become zero, and the logarithm inside is undefined or endless on some layouts. Proved: total on unsigned types with room; outcome by the signs of the arguments on narrow types; total for positive base and non-negative exponent on the signed 8-bit types.)", "quantifier": "all unsigned and narrow layouts, all bases, all exponents", "why_tests_cant": "whether pow returns, divides by zero, terminates the program or never ends depends on wrapped intermediate results of three other functions on each layout", "anchors": ["include/eirin/math.hpp:549-565: pow(fixed, fixed)", "include/eirin/math.hpp:392-465: log2, log", "include/eirin/math.hpp:515-547: exp"]}
{"id": "C174", "title": "The implementations of sine and cosine agree", "statement": "For every angle but the minimum of the type, sin and cos of math.hpp and the CORDIC sine and cosine of ext/cordic.hpp give the same value up to 3/10000 and (117 + 3/5 |x|) ulp (sine) or (124 + 3/5 |x|) ulp (cosine).", "quantifier": "all angles of fixed32 and fixed64", "why_tests_cant": "Two unrelated algorithms (a series in a reduced angle, and 41 rotations with a table) have to give the same number for every angle. The bound grows with the angle because both reduce it with a rounded pi. A test compares a few angles.", "anchors": ["include/eirin/math.hpp:202-262: sin, cos", "include/eirin/ext/cordic.hpp:74-140: cordic_optimize_angel, cordic", "include/eirin/detail/util.hpp:227-248: lut_calc_sin"]}
{"id": "C175", "title": "Narrowing conversion commutes with arithmetic", "statement": "Let G have more fraction bits than F, both signed with at least 32 bits, F truncating. For numbers whose narrowed values are storable: narrowing a sum (difference) gives the sum (difference) of the narrowed numbers up to one ulp of F, and that sum is defined; narrowing a product gives the product of the narrowed numbers up to (|x| + |y| + 5/2) ulp; narrowing commutes exactly with negation, min and max; if the narrowed numbers compare less, so did the originals.", "quantifier": "all pairs of layouts, all pairs of numbers with storable narrowed values", "why_tests_cant": "Code that computes in fixed64 and stores fixed32, and code that converts first, are both common. Whether they agree depends on two truncations and on the rounding of the product in two formats. A test compares single results.", "anchors": ["include/eirin/fixed.hpp:186-188,489-520: converting constructor, from_fixed_num_value", "include/eirin/fixed.hpp:301-361,413-416: operator+, operator-, operator*", "include/eirin/math.hpp:84-99: min, max"]}
{"id": "C176", "title": "A decimal text survives parsing and formatting", "statement": "A non-negative decimal in range with p >= 1 decimals, where 10^p < 2^f, is parsed to a number that std::format with type f and precision p writes as the same text.", "quantifier": "all decimal texts n.d1...dp, all signed layouts with at least 32 bits and room for a decimal digit", "why_tests_cant": "The text passes through a truncation to binary and a truncation back to decimal. Which texts survive is a divisibility question about the decimals, and tests with .5 and .25 never see the loss.", "anchors": ["include/eirin/fixed.hpp: detail::parse, fixed_from_cstring", "include/eirin/io/format.hpp: fixed_num_formatter::format_to"]}
{"id": "C177", "title": "atan and asin are odd and acos is the complement of asin on every wide signed layout", "statement": "For every argument but the minimum the outcomes of atan and asin at x and -x mirror each other: opposite results, or the same undefined behaviour, or the same exception. acos x is half of pi minus asin x whenever 0 < |x| < 1 and is defined exactly when that difference can be stored; acos x + acos(-x) is pi or one ulp less.", "quantifier": "all arguments of all signed non-rounding layouts of 32 or 64 bits (asin, acos: fewer than 61 fraction bits and room for 4)", "why_tests_cant": "It must hold also where the results are far from the real functions: when the square wraps, when the root is inaccurate, when the quotient wraps. Tests compare a few accurate results.", "anchors": ["include/eirin/math.hpp:287-349: atan, asin, acos"]}
{"id": "C178", "title": "The same number gives the same result in every layout", "statement": "Let two fixed-point types of any width, signedness and fraction hold the same numbers. Then comparisons, minimum and maximum agree; sums, differences, negations and remainders that fit both types are equal; trunc, floor, ceil and round agree away from the ends of the ranges; products and quotients that fit both differ by less than the coarser unit, with the coarser type nearer to minus infinity (products) or to zero (quotients); and decimal stream output and std::format output (every format state, all types except ?) are the same text.", "quantifier": "for all pairs of valid types, all storable values denoting the same numbers, and all format states", "why_tests_cant": "the tests only exercise the predefined types, one at a time; no test compares two layouts, and the space of pairs of layouts and values is unbounded", "anchors": ["include/eirin/fixed.hpp:306-420: arithmetic", "include/eirin/math.hpp:32-75: ceil, floor, trunc", "include/eirin/io/format.hpp:56-182: format_to", "include/eirin/fixed.hpp:519-665: copy_as_chars_to, operator<<"]}
{"id": "C179", "title": "Cube root on layouts with few fraction bits and on 8- and 16-bit storage", "statement": "On every layout, signed or unsigned and of any width, with 2 to 13 fraction bits, at least 4 more bits of storage and no rounding, cbrt of a positive number x is defined and lies between the cube root minus one ulp and the cube root plus t ulps, where t is any number with 2^f <= (2t)^3 (1 up to 3 fraction bits, 4 for 8 bits, 11 for 13), provided the start value (x+2)/3 has its cube in range (signed) or its square in range (unsigned). For x <= -5 in signed storage, with the cube of (|x|+2)/3 in range, the result is within one ulp above and t ulps below the root. cbrt(0) divides by zero on all these layouts. Beyond the condition the result can be far off or the division undefined: 16-bit signed storage with 8 fraction bits has cbrt(43.875) = 15.29 and a division by zero at 45.86.", "quantifier": "All valid non-rounding layouts with 2 <= f <= 13 and f + 4 <= bits, all positive arguments within the stated condition, all admissible t; cbrt(0) on all of them.", "why_tests_cant": "These layouts never stop early (epsilon() is zero), so the result is whatever 201 passes of integer Newton steps leave; tests sample a few values of one layout, while the claim needs the descent of the iteration from above and its stationary band for every argument and layout.", "anchors": ["include/eirin/math.hpp:364-380: cbrt", "include/eirin/fixed.hpp:201-204: epsilon() is zero below 14 fraction bits"]}
{"id": "C180", "title": "asin and acos on 8- and 16-bit signed storage", "statement": "On 8- and 16-bit signed layouts without rounding that can hold one, asin and acos of any number outside [-1, 1] raise std::domain_error. This is false of the code at exactly one argument: the lowest number, whose absolute value wraps to itself. With at least three bits besides the fraction, asin(lowest) and atan(lowest) return lowest itself and acos(lowest) returns lowest + pi/2 instead of raising. Every other number outside [-1, 1] raises. For 16-bit storage with 8 to 13 fraction bits, asin and acos of every number in [-0.7, 0.7] are defined and within 0.00045 + 10.4 ulps (asin) and 0.00045 + 12 ulps (acos) of the true value.", "quantifier": "All valid 8- and 16-bit signed non-rounding layouts with any intermediate type and every storable argument (domain check); all 16-bit ones with 8 <= f <= 13 and all |x| <= 0.7 (accuracy).", "why_tests_cant": "The range check fails for a single argument out of 65536 on each narrow layout, and no test instantiates the functions on narrow storage; the accuracy bound is over all arguments and layouts.", "anchors": ["include/eirin/math.hpp:323-334: asin", "include/eirin/math.hpp:336-349: acos", "include/eirin/math.hpp:77-83: abs"]}
{"id": "C181", "title": "Which functions raise exceptions, and every loop ends", "statement": "For every layout (rounding types included) and all operands, no operator, conversion, tolerance comparison, string parser or noexcept function of math.hpp other than pow(fixed, fixed) raises an exception or loops forever. divide and its integer form raise divide_by_zero exactly for a zero divisor; tan raises domain_error exactly when the computed cosine is within one ulp of zero, asin and acos exactly when the computed absolute value exceeds one, log2 exactly for numbers that are not positive; log and log10 raise only what log2 raises; pow(fixed, fixed) can only end the program (std::terminate), and only for a negative base. With at least three bits besides the fraction the loops of the logarithms and of pow(fixed, fixed) end for every stored argument.", "quantifier": "All valid layouts with any storage, intermediate type and rounding flag; all operands, all texts, all exponents of at most 64 bits.", "why_tests_cant": "Absence of exceptions and termination are statements about every input of some forty functions on unboundedly many template instantiations; a test that does not hang says nothing about the next input.", "anchors": ["include/eirin/math.hpp:31-629: all functions", "include/eirin/fixed.hpp:603-645: divide", "include/eirin/fixed.hpp:682-1093: parsers", "include/eirin/io/parse.hpp:19-96: io::parse"]}
{"id": "C182", "title": "Text output, formatting, extraction and CORDIC end, and the length of the text", "statement": "For every valid layout (unsigned, narrow and rounding ones included) and every stored number: copy_as_chars_to and operator<< in every base of at least two end without an exception and write at most bits + fraction + 2 characters; the 514-character buffer is never filled, so the early flush is never taken; std::format with every specification ends without an exception and returns at least width and at most max(width, bits + 3 + precision) characters (precision 6 if none is given); formatter::parse ends on every text and raises at most std::format_error; operator>> ends on every stream in every state; the CORDIC functions end without an exception for every number of iterations.", "quantifier": "all valid layouts, all stored numbers, all bases >= 2, all format specifications (any fill, sign, width, precision, type), all texts, all stream states, all iteration counts", "why_tests_cant": "Loops that divide a 64-bit number until it is zero, over all layouts and bases, cannot be run for all inputs; a test only sees that the inputs it tries come back.", "anchors": ["include/eirin/fixed.hpp:518-602: copy_as_chars_to", "include/eirin/fixed.hpp:654-663: operator<<", "include/eirin/fixed.hpp:1034-1093: operator>>", "include/eirin/io/format.hpp:56-182: format_to", "include/eirin/io/format.hpp:374-495: formatter::parse", "include/eirin/ext/cordic.hpp:106-140: cordic"]}
{"id": "C183", "title": "Cube root with 14 or 15 fraction bits", "statement": "On every non-rounding layout with 14 or 15 fraction bits and at least four bits more than that, for every argument of at least 4/65536 (and, on signed storage, every argument of at most -5) for which the cube of (|x|+2)/3 is in range, cbrt is defined and has the sign of x; it is at most one ulp short of the cube root, and either at most t ulps beyond it (for every t with 2^f <= (2t)^3) or its cube is within 8/65536 + |r| ulp of x. Non-negative arguments below 4/65536 give exactly zero.", "quantifier": "all valid layouts with r = false, f = 14 or 15, f + 4 <= bits, signed and unsigned; all arguments in the stated ranges", "why_tests_cant": "The two layouts lie between the coarse ones, where the stopping test needs equality, and the fine ones, where it has slack; the number of passes and the rounding at each pass depend on the argument, of which there are up to 2^64.", "anchors": ["include/eirin/math.hpp:364-380: cbrt"]}
{"id": "C184", "title": "The kinds of undefined behaviour that can occur", "statement": "On every valid layout and for every argument, the operators, the assignment operators, divide, the conversions, the functions of math.hpp without logarithms (sqrt, cbrt, hypot, the trigonometric functions and their inverses, exp, integer powers, rounding, fmod, modf, degrees, radians) and the string parsers have no undefined behaviour other than overflow of a signed or floating-point conversion and division by zero: no shift count out of range, no read outside an array, no failed precondition, no uninitialised read, no endless loop. The logarithms and pow of two fixed-point numbers are the same with at most 32 fraction bits and three other bits; log2 has a shift count out of range exactly if there are more than 32 fraction bits. io::parse does not read past a buffer in which the terminator occurs.", "quantifier": "all valid layouts, all raw values, all integer operands of any type, all rational inputs, all texts", "why_tests_cant": "The absence of an error class over a whole library cannot be shown by running it: each of about forty functions has branches that depend on the layout, of which there are several hundred, and on up to three 64-bit arguments.", "anchors": ["include/eirin/fixed.hpp:301-442: operators", "include/eirin/math.hpp:31-629: functions", "include/eirin/fixed.hpp:682-751, 884-1093: parsers", "include/eirin/io/parse.hpp:19-96: io::parse"]}
{"id": "C185", "title": "Text output does not read outside the digit table", "statement": "On every valid layout, for every storable number, streaming (in base 2, 8, 10 or 16) and std::format (with every specification) never index the table of sixteen digits outside its bounds.", "quantifier": "all valid layouts, all storable raw values, all stream flags, all format states", "why_tests_cant": "The index is computed from the running remainder, which is wrapped by a narrowing store at each digit; whether it can become negative depends on the storage type and on the number of fraction bits, for every one of up to 2^64 values and 63 digits.", "anchors": ["include/eirin/fixed.hpp:518-602: copy_as_chars_to", "include/eirin/fixed.hpp:654-663: operator<<", "include/eirin/io/format.hpp:56-182: format_to", "include/eirin/io/format.hpp:188-241: format_debug_to"]}
{"id": "C186", "title": "Logarithms and angle conversions of rounding types", "statement": "On every signed rounding layout with 8 to 26 fraction bits, for every positive storable number below 8, log is within ten ulps of the natural logarithm and radians within ten ulps of the angle.", "quantifier": "all signed rounding layouts with 8 to 26 fraction bits, all positive storable raw values below 8", "why_tests_cant": "A single wrong factor in the rounding branches of operator* and operator/ spreads to every function built from them; a test of one function on the default (non-rounding) types exercises none of these branches, and the size of the error depends on how many products and quotients the function contains.", "anchors": ["include/eirin/fixed.hpp:335-346: operator*", "include/eirin/fixed.hpp:369-380: operator/", "include/eirin/math.hpp:462-482: log, log10", "include/eirin/math.hpp:595-618: degrees, radians"]}
{"id": "C187", "title": "Square root of 64-bit rounding types", "statement": "On every signed 64-bit rounding layout with up to 62 fraction bits, sqrt of every number from 5/65536 to a seventh of the range is within ten ulps of the root.", "quantifier": "all fraction bit counts from 1 to 62, all storable raw values in the stated range", "why_tests_cant": "The Newton iteration uses the rounding quotient in each of five steps and the rounding square in its exit test; only an invariant of the iteration describes its result for all of about 2^60 arguments on 62 layouts.", "anchors": ["include/eirin/math.hpp:167-188: sqrt, Newton iteration", "include/eirin/fixed.hpp:335-346: operator*", "include/eirin/fixed.hpp:369-380: operator/"]}
{"id": "C188", "title": "hypot of 64-bit rounding types", "statement": "On every signed 64-bit rounding layout with up to 62 fraction bits, hypot of two numbers whose squared length is between 5/65536 and a seventeenth of the range is within one percent of the length.", "quantifier": "all fraction bit counts from 1 to 62, all pairs and triples of storable raw values in the stated range", "why_tests_cant": "Two or three doubled products, their sums and five Newton steps with doubled quotients combine; the resulting factor cannot be read off from any of the parts, and pairs and triples of 64-bit numbers cannot be enumerated.", "anchors": ["include/eirin/math.hpp:620-629: hypot", "include/eirin/math.hpp:167-188: sqrt, Newton iteration", "include/eirin/fixed.hpp:335-346: operator*"]}
{"id": "C189", "title": "Scalar products and polynomials", "statement": "On every non-rounding layout the loop acc += x[i] * y[i] over arrays of any length is free of overflow, never above the exact scalar product and below it by at most one ulp per product, provided that the sum of the absolute products plus one ulp per product fits; Horner's scheme with any number of coefficients at an argument of absolute value at most one is free of overflow and within one ulp per step of the exact polynomial, provided that the sum of the absolute coefficients plus one ulp per step fits. The bound per product cannot be improved.", "quantifier": "all valid non-rounding layouts, all lengths, all lists of storable raw values", "why_tests_cant": "The statement covers loops of every length on every layout; a test runs a few fixed loops on a few layouts.", "anchors": ["include/eirin/fixed.hpp:306-310: operator+=", "include/eirin/fixed.hpp:335-346: operator*"]}
{"id": "C190", "title": "Linear interpolation", "statement": "On every non-rounding layout the expression a + (b - a) * t with t between 0 and 1 is defined whenever b - a is storable; its value is the exact interpolation rounded down, lies between a and b, equals a at t = 0 and b at t = 1, and is monotone in t. Without the condition on b - a it fails: an unsigned layout gives a number far outside the interval, a signed one overflows.", "quantifier": "all valid non-rounding layouts, all storable raw values a, b, t with b - a storable and t in [0,1]", "why_tests_cant": "The statement ranges over triples of raw values of every layout; rounding down could leave the interval or miss its ends for a single triple.", "anchors": ["include/eirin/fixed.hpp:301-304: operator+", "include/eirin/fixed.hpp:318-321: operator-", "include/eirin/fixed.hpp:335-346: operator*"]}
{"id": "C191", "title": "Rotation of a vector", "statement": "On every signed non-rounding layout with 8 to 59 fraction bits and five bits of room, rotating a vector by {x*cos(t) - y*sin(t), x*sin(t) + y*cos(t)} is free of overflow whenever one and a half times |x|+|y| plus two ulps fits; each coordinate is within (|x|+|y|) times the error of the trigonometric functions plus two ulps of the exact rotation, and the length changes by at most twice that product plus three ulps.", "quantifier": "all layouts of C113, all storable angles but the lowest whose error bound is at most one half, all storable vectors that fit", "why_tests_cant": "Angles and both coordinates range over every storable value of every layout; combinations of the rounding of four products, two sums and the two functions cannot be enumerated.", "anchors": ["include/eirin/math.hpp:203-242: sin", "include/eirin/math.hpp:256-262: cos", "include/eirin/fixed.hpp:335-346: operator*"]}
{"id": "C192", "title": "Cube root of rounding types", "statement": "On every signed 32- or 64-bit rounding layout with at least 16 fraction bits and five integer bits, for every argument from 5/65536 on whose start value (x+2)/3 has a cube below a fifth of the range, cbrt is defined and between 6 ulps below and 27 ulps above the exact root, although every product and every quotient of a rounding type is doubled.", "quantifier": "all signed wide rounding layouts with 16 or more fraction bits and five integer bits, all storable raw values in the stated range", "why_tests_cant": "The loop runs all its 201 passes with wrong products and quotients; only a proof shows that the two errors cancel for every argument and that the wrong exit test never fires.", "anchors": ["include/eirin/math.hpp:364-380: cbrt", "include/eirin/fixed.hpp:335-346: operator*", "include/eirin/fixed.hpp:369-380: operator/"]}
{"id": "C193", "title": "fmod of rounding types", "statement": "On every signed rounding layout the remainder fmod(a, b) of a non-negative number by a positive one is at least zero and less than the divisor, whenever four times the dividend and twice the quotient fit.", "quantifier": "all signed rounding layouts that can store one, all storable raw values in the stated range", "why_tests_cant": "The rounding branches are compiled only for rounding types; the result depends on two doubled operations around a floor, for every pair of raw values of every layout.", "anchors": ["include/eirin/math.hpp:567-571: fmod", "include/eirin/fixed.hpp:335-346: operator*", "include/eirin/fixed.hpp:369-380: operator/"]}
{"id": "C194", "title": "Exponential smoothing", "statement": "On every non-rounding layout the loop y = y + (x - y) * a with a factor above 0 and at most 1, started at y with x - y storable, reaches x exactly from above after at most as many steps as there are ulps between them; from below it never passes x and stands still after at most that many steps at a number less than one ulp divided by the factor away from x, and once that near it does not move.", "quantifier": "all valid non-rounding layouts, all storable targets, factors and start values with storable difference, all numbers of steps", "why_tests_cant": "The behaviour in the limit concerns every number of steps and every start value; rounding down makes the two directions different, which a test of one direction does not show.", "anchors": ["include/eirin/fixed.hpp:301-304: operator+", "include/eirin/fixed.hpp:318-321: operator-", "include/eirin/fixed.hpp:335-346: operator*"]}
{"id": "C195", "title": "Scalar products and polynomials of rounding types", "statement": "On every rounding layout the loop acc += x[i] * y[i] is within one ulp per product of the exact scalar product whenever twice the sum of the absolute products fits, and Horner's scheme at an argument of absolute value at most one half is within one ulp per step of the polynomial whenever the sum of the absolute coefficients fits.", "quantifier": "all valid rounding layouts, all lengths, all lists of storable raw values", "why_tests_cant": "Loops of every length on every rounding layout; the rounding branches are not compiled for the types that are usually tested.", "anchors": ["include/eirin/fixed.hpp:306-310: operator+=", "include/eirin/fixed.hpp:335-346: operator*"]}
{"id": "C196", "title": "Normalising a vector", "statement": "On fixed32 and fixed64, dividing both coordinates of a vector of length at least one by their hypot is defined as long as the squared length is below 32768 or 1.9e9; the squared length of the result differs from one by at most 1/8000 plus 8 ulps, its coordinates do not change sign, and its direction is that of the vector up to one ulp times the coordinates.", "quantifier": "both library types, all pairs of storable raw values in the stated range", "why_tests_cant": "Pairs of 32- or 64-bit numbers cannot be enumerated, and the error combines the early exit of the square root with two squares and two quotients.", "anchors": ["include/eirin/math.hpp:620-629: hypot", "include/eirin/math.hpp:167-188: sqrt", "include/eirin/fixed.hpp:369-380: operator/"]}
{"id": "C197", "title": "Damping a value by a factor below one", "statement": "On every non-rounding layout, repeatedly multiplying by a factor strictly between zero and one is always defined. A non-negative value reaches zero exactly after at most as many steps as it has ulps. A negative value never reaches zero: it grows until its absolute value is below one ulp divided by one minus the factor, and then stands still forever.", "quantifier": "all valid non-rounding layouts, all storable factors between zero and one, all storable values, all numbers of steps", "why_tests_cant": "The number of steps is unbounded and the place where a negative value gets stuck depends on factor and layout; a test sees a small number either way.", "anchors": ["include/eirin/fixed.hpp:335-346: operator*"]}
{"id": "C198", "title": "The mean of a list", "statement": "Adding up a list of numbers and dividing by its length gives the exact mean with the digits past the last place dropped, between the smallest and the largest number, whatever integer type the length has. False: divided by an unsigned length (v.size()), the mean of numbers with a negative sum is wrong; on 64-bit types the result is then never negative, and on fixed32 the mean of three times minus one is about 21844.3. It holds for signed or small length types and for sums that are not negative.", "quantifier": "all valid layouts, all integer types for the length, all lists whose partial sums are representable", "why_tests_cant": "The fault needs a signed fixed-point type, an unsigned divisor of at least its width and a negative sum; tests with positive data, or with literal int divisors, all pass.", "anchors": ["include/eirin/fixed.hpp:396-400: operator/=(integral)", "include/eirin/fixed.hpp:860-864: fixed / integral"]}
{"id": "C199", "title": "Counting loops over fixed-point numbers", "statement": "A loop for(x = a; x < b; x += h) with positive step takes exactly as many passes as over the reals, without drift, on every layout where the value that ends it is storable; otherwise it overflows on signed storage of at least 32 bits, and on unsigned or narrow storage a loop in steps of one from an integer never ends if no storable integer reaches the bound. One would also expect the loop from zero to one in steps of 1/n to take n passes. That is false: it takes n passes exactly if n divides 2^f, and more otherwise (n + 1 if n is at most the raw value of the step); a tenth on fixed32 gives eleven.", "quantifier": "all valid layouts, all storable starts, bounds and steps, all numbers of passes; all n up to 2^f for the unit interval on non-rounding layouts", "why_tests_cant": "The number of passes is unbounded, and the endless loop and the additional pass depend on layout, bound and step; a test of a loop with step 1/4 or 1/8 passes.", "anchors": ["include/eirin/fixed.hpp:301-310: operator+, operator+=", "include/eirin/fixed.hpp:369-380: operator/"]}
{"id": "C200", "title": "Bisection", "statement": "Bisection down to one ulp finds, for every predicate that is false at the lower and true at the upper end, a place where it becomes true, in at most k halvings of an interval of 2^k ulps. With the midpoint (lo + hi) / 2 this is false: on signed storage of at least 32 bits the sum overflows as soon as it is not storable, for example around 20000 on fixed32. It holds if the doubles of the ends are storable, and with the midpoint lo + (hi - lo) / 2 on every interval whose length is storable.", "quantifier": "all valid layouts, all predicates, all storable intervals, all numbers of halvings", "why_tests_cant": "The predicate is arbitrary and the interval is any of about 2^128 pairs; tests with small intervals around zero never meet the overflow.", "anchors": ["include/eirin/fixed.hpp:301-310: operator+, operator+=", "include/eirin/fixed.hpp:396-400: operator/=(integral)", "include/eirin/fixed.hpp:860-864: fixed / integral"]}
{"id": "C201", "title": "Recursive filters", "statement": "On every non-rounding layout the filter y = a * y + u with a coefficient of absolute value below one is defined for inputs of any length, stays in every interval that the filter with one ulp added maps to itself, and differs from the exact filter by at most ulp / (1 - |a|) however long it runs; with a coefficient that is not negative it is never too large. Two runs from different starts differ by at most |a|^n times the difference of the starts plus 2 ulp / (1 - |a|).", "quantifier": "all valid non-rounding layouts, all storable coefficients below one, all input lists of bounded numbers, all starts", "why_tests_cant": "The bound holds for runs of any length with arbitrary inputs; a test follows one input for a limited time.", "anchors": ["include/eirin/fixed.hpp:335-346: operator*", "include/eirin/fixed.hpp:301-310: operator+, operator+="]}
{"id": "C202", "title": "Running totals do not drift", "statement": "A total updated with += and -= any number of times, such as the sum over a sliding window, is congruent to the exact total on every layout and equal to it whenever that is representable; undoing the updates in reverse order is defined and returns exactly to the start. On unsigned and narrow storage every sequence of updates is defined; on signed storage of at least 32 bits it is defined exactly if no intermediate total leaves the range.", "quantifier": "all valid layouts, rounding or not, all lists of updates of any length, all starts", "why_tests_cant": "The number of updates is unbounded and the statement covers intermediate overflow, which tests avoid.", "anchors": ["include/eirin/fixed.hpp:306-310: operator+=", "include/eirin/fixed.hpp:323-327: operator-="]}
{"id": "C203", "title": "Arctangent of rounding types", "statement": "One would expect atan of a rounding type to be as accurate as that of the other types. That is false: every product is doubled, and for arguments up to one half the result is within 0.00037 + 8.2 ulp of arctan(2x) - x. In the rounding variant of fixed32 the arctangent of one half is 0.285 instead of 0.464.", "quantifier": "all signed rounding layouts with 8 to 60 fraction bits in which one is representable, all arguments of absolute value at most one half", "why_tests_cant": "Only the default (non-rounding) types are tested, and five doubled products combine to a closed form only for the whole polynomial.", "anchors": ["include/eirin/math.hpp:287-302: atan", "include/eirin/fixed.hpp:335-346: operator*"]}
{"id": "C204", "title": "Exponential function of rounding types", "statement": "One would expect exp of a rounding type to satisfy the same accuracy formula (C37, C110) as the other types. That is false: every product is doubled, so on (0, 1/2] the result is within 0.0001 + 23 ulp of 2(e^(2x) - x), and on [-1/2, 0) within 0.00006 + 14 ulp of 1/(e^(-2x) + x). In the rounding variant of fixed32 the exponential of one half is 4.44 instead of 1.65.", "quantifier": "all signed rounding layouts with 8 to 60 fraction bits and at least three integer bits, all arguments of absolute value at most one half", "why_tests_cant": "Only the default (non-rounding) types are tested, and six doubled products and a doubled quotient combine to a closed form only for the whole polynomial.", "anchors": ["include/eirin/math.hpp:517-545: exp_expand, exp", "include/eirin/fixed.hpp:335-346: operator*"]}
{"id": "C205", "title": "Negative integer powers of rounding types", "statement": "One would expect pow(2^j, -n) of a rounding type to be exactly 1/(2^j)^n whenever that is representable. That is false: every product and quotient of the loop is doubled, and the result is 4^c / (2 * 2^j)^n, where c is the number of set bits of n. In the rounding variant of fixed32, pow(1, -1) is two, and pow(2, -2) and pow(2, -3) are both one quarter.", "quantifier": "all rounding layouts with f + 3 <= bits, all powers of two 2^j and exponents n > 0 with (j+1) n <= f and (j+1) n + f < bits", "why_tests_cant": "Only the default (non-rounding) types are tested, and the factor depends on the binary digits of the exponent.", "anchors": ["include/eirin/math.hpp:484-513: pow", "include/eirin/fixed.hpp:335-394: operator*, operator/, operator/="]}
{"id": "C206", "title": "The ends of asin and acos of rounding types", "statement": "One would expect asin(1), asin(-1) and acos(0) of a rounding type to be within two ulps of pi/2, -pi/2 and pi/2. That is false: the division by two is doubled, and the values are within two ulps of pi, -pi and pi. In the rounding variant of fixed32, asin(1) is 3.1416.", "quantifier": "all signed rounding layouts with 8 to 60 fraction bits and at least three integer bits", "why_tests_cant": "Only the default (non-rounding) types are tested, and the statement ranges over every layout.", "anchors": ["include/eirin/math.hpp:323-349: asin, acos", "include/eirin/fixed.hpp:369-380: operator/"]}
{"id": "C207", "title": "The cosine of zero in rounding types", "statement": "One would expect the cosine of zero of a rounding type to be one up to a few ulps. That is false: the shift by a quarter turn is computed by a doubled division and becomes half a turn, the reduction doubles once more, and the result is within 49 ulps of zero. In the rounding variant of fixed32 the cosine of zero is zero and the tangent of zero raises domain_error.", "quantifier": "all signed rounding layouts with at least 8 fraction bits and at least five integer bits", "why_tests_cant": "Only the default (non-rounding) types are tested, and the result depends on how the errors of twenty doubled operations cancel on every layout.", "anchors": ["include/eirin/math.hpp:202-262: sin, cos", "include/eirin/math.hpp:264-272: tan", "include/eirin/fixed.hpp:369-380: operator/"]}
{"id": "C208", "title": "Damping in rounding types", "statement": "One would expect repeated multiplication by a factor of at most one half to bring a non-negative number of a rounding type to zero, as C197 shows for the other types. That is false: products are doubled, so with a factor of one half an even number of ulps never changes, and with any factor from a quarter to a half a positive even number of ulps never falls below two ulps.", "quantifier": "all rounding layouts, all factors from 1/4 to 1/2, all storable even numbers of ulps, any number of steps", "why_tests_cant": "Only the default (non-rounding) types are tested, and no number of steps that a test could take shows that zero is never reached.", "anchors": ["include/eirin/fixed.hpp:335-346: operator*"]}
{"id": "C209", "title": "Interpolation and smoothing in rounding types", "statement": "One would expect a + (b - a) t to stay between a and b for t in [0, 1] in a rounding type, as C190 shows for the other types. That is false: the result is within one ulp of a + 2(b - a)t, at t = 1 it is exactly the reflection 2b - a, and smoothing with factor one, which should reach the target in one step, jumps between the start and its reflection for ever.", "quantifier": "all rounding layouts, all operands for which the doubled expression fits, any number of smoothing steps", "why_tests_cant": "Only the default (non-rounding) types are tested, and endless oscillation cannot be observed in finitely many steps.", "anchors": ["include/eirin/fixed.hpp:335-346: operator*"]}
{"id": "C210", "title": "Determinants and the orientation of three points", "statement": "The expression a*d - b*c is less than one ulp away from the exact determinant. Its sign is never wrong: a positive (negative) result means that the exact determinant is positive (negative), and an exact zero is computed as zero. Exchanging the rows changes the sign of the result exactly. The usual orientation test of three points therefore never reports a turn in the wrong direction and reports points on a line as such; a turn of less than one ulp may be reported as none.", "quantifier": "all signed non-rounding layouts, all operands whose products and their sum fit with one ulp to spare, all points with storable differences", "why_tests_cant": "The claim concerns pairs of rounding errors over all quadruples of operands; tests sample a few.", "anchors": ["include/eirin/fixed.hpp:335-346: operator*", "include/eirin/fixed.hpp:318-321: operator-"]}
{"id": "C211", "title": "Leapfrog integration runs backwards exactly", "statement": "The update x += v*dt; v += acc(x)*dt, repeated any number of times with any force, can be undone: v -= acc(x)*dt; x -= v*dt, repeated as often, is free of undefined behaviour and leads back to the first position and velocity bit for bit, in spite of the rounding of every product and even if values wrapped around on the way. Hence two different states never run into the same state.", "quantifier": "all valid layouts, rounding or not, all forces with storable results, all time steps, all numbers of steps, all starts whose forward run is defined", "why_tests_cant": "The number of steps is unbounded and the force is an arbitrary function; tests compare a few steps within a tolerance.", "anchors": ["include/eirin/fixed.hpp:335-346: operator*", "include/eirin/fixed.hpp:306-310: operator+=", "include/eirin/fixed.hpp:323-327: operator-="]}
{"id": "C212", "title": "Determinants and the orientation of three points in rounding types", "statement": "On rounding types every product is doubled, so a*d - b*c is at most two ulps away from twice the exact determinant. Its sign is nevertheless never wrong, an exact zero is computed as zero, and exchanging the rows changes the sign of the result exactly. The orientation test of three points therefore never reports a turn in the wrong direction and reports points on a line as such.", "quantifier": "all signed rounding layouts, all operands for which twice the products and their sum fit with two ulps to spare, all points with storable differences", "why_tests_cant": "The claim concerns pairs of rounding errors, including ties, over all quadruples of operands; tests sample a few.", "anchors": ["include/eirin/fixed.hpp:335-346: operator*", "include/eirin/fixed.hpp:320-333: operator-"]}
{"id": "C213", "title": "Is a point inside a circle or sphere?", "statement": "The test 'sum of the squared coordinates <= r*r' finds every point inside the sphere to be inside. On non-rounding layouts this holds in every dimension, and a point found to be inside is at most one ulp per coordinate beyond the square of the radius. On rounding types it is false: (182, 182) ulps is found to be outside of the circle of 258 ulps in fixed32; it holds with a margin of half an ulp per coordinate and for the radius.", "quantifier": "all valid layouts, all dimensions, all storable coordinates and radii whose doubled squares fit with one ulp per coordinate to spare", "why_tests_cant": "The dimension is unbounded and the wrong answers occur only close to the boundary; tests with round numbers do not meet them.", "anchors": ["include/eirin/fixed.hpp:335-346: operator*", "include/eirin/fixed.hpp:306-310: operator+=", "include/eirin/fixed.hpp:446-449: operator<=>"]}
{"id": "C214", "title": "The blending function t*t*(3 - t - t)", "statement": "Between 0 and 1 the result is defined, lies between 0 and 1, is exact at both ends, never above the exact value and less than four ulps below it, and never decreases. The last part is false: on fixed32 the argument of 1638 ulps gives 118 ulps and the next one 117. It never falls by more than three ulps.", "quantifier": "all non-rounding valid layouts in which 3 is representable, all arguments between 0 and 1", "why_tests_cant": "The falls are a few ulps high at most and occur at scattered arguments; tests that compare within a tolerance do not see them.", "anchors": ["include/eirin/fixed.hpp:335-346: operator*", "include/eirin/fixed.hpp:320-333: operator-"]}
{"id": "C215", "title": "A fixed time step does not depend on the frame rate", "statement": "The loop 'acc += d; while(acc >= dt) { acc -= dt; step(); }' over any number of frames executes exactly as many steps as dt fits into the total time and keeps the rest exactly; two sequences of frames with the same total time give the same number of steps and the same rest. With dt equal to zero the inner loop never ends.", "quantifier": "all valid layouts, rounding or not, all positive time steps, all lists of frame times of any length for which dt - 1 ulp + d is storable", "why_tests_cant": "The number of frames is unbounded, and equality of two runs with different frames is a statement about pairs of runs.", "anchors": ["include/eirin/fixed.hpp:306-310: operator+=", "include/eirin/fixed.hpp:323-327: operator-=", "include/eirin/fixed.hpp:446-449: operator<=>"]}
{"id": "C216", "title": "Bezier curves of any degree", "statement": "De Casteljau's scheme (repeated a + (b - a)*t between neighbours) with n + 1 control values between lo and hi and a parameter between 0 and 1 is defined; the point lies between lo and hi, is never above the exact point and at most n ulps below it. The curve starts exactly at the first control value and ends exactly at the last one.", "quantifier": "all non-rounding valid layouts, all degrees, all control values in an interval whose length is storable with both signs, all parameters between 0 and 1", "why_tests_cant": "The degree is unbounded and the rounding errors of all levels accumulate; tests use a few cubic curves.", "anchors": ["include/eirin/fixed.hpp:301-304: operator+", "include/eirin/fixed.hpp:318-321: operator-", "include/eirin/fixed.hpp:335-346: operator*"]}
{"id": "C217", "title": "Weights divided by their sum", "statement": "Dividing nonnegative weights by their sum gives shares between 0 and 1, each the exact share rounded down, which add up to one. The last part is false: three equal weights on fixed32 give 65535/65536. The shares never add up to more than one and miss it by at most one ulp per weight. If all weights are zero the division is undefined.", "quantifier": "all non-rounding valid layouts in which 1 is representable, all lists of nonnegative weights of any length with a storable sum", "why_tests_cant": "The number of weights is unbounded and the missing part grows with it; tests use weights that divide evenly or a tolerance.", "anchors": ["include/eirin/fixed.hpp:306-310: operator+=", "include/eirin/fixed.hpp:369-380: operator/"]}
{"id": "C218", "title": "Compound growth", "statement": "Multiplying a nonnegative number n times by the same nonnegative factor is defined as long as the exact powers fit, never exceeds the exact result, and is at most n ulps below it. The last part is false: one ulp multiplied by 1.5 four times is still one ulp instead of five. The result is at most 1 + g + ... + g^(n-1) ulps below the exact one. With a factor of at least 1 and less than 2 one ulp never grows.", "quantifier": "all non-rounding valid layouts, all nonnegative factors and starts, all numbers of multiplications for which the exact powers fit with one ulp to spare", "why_tests_cant": "The number of multiplications is unbounded and the error depends on all of them.", "anchors": ["include/eirin/fixed.hpp:335-346: operator*"]}
{"id": "C219", "title": "Choosing an index by weights", "statement": "The loop 'if(r < w[i]) return i; r -= w[i];' over nonnegative weights with a nonnegative number below their exact total is defined and returns exactly the index whose piece contains the number, and this index has a positive weight; larger numbers never choose smaller indices. A number equal to the total, which a distribution with the closed range [0, total] may draw, chooses nothing.", "quantifier": "all valid layouts, rounding or not, all lists of nonnegative storable weights of any length, even if their total is not storable, all nonnegative numbers", "why_tests_cant": "The number of weights is unbounded; a wrong choice at a boundary between two pieces is hit by a random test with a probability of an ulp.", "anchors": ["include/eirin/fixed.hpp:323-327: operator-=", "include/eirin/fixed.hpp:446-449: operator<=>"]}
{"id": "C220", "title": "Compound growth in rounding types", "statement": "In a rounding type the result of n multiplications by the same factor is off by at most half an ulp per multiplication, grown by the following ones. This is false, because every product is doubled: one multiplied by one three times is eight. Instead the result is the start multiplied by the power of twice the factor, up to one ulp per multiplication, grown by the following ones.", "quantifier": "all rounding valid layouts, signed or not, all nonnegative factors and starts, all numbers of multiplications for which the doubled powers fit", "why_tests_cant": "The number of multiplications is unbounded; the test suite does not instantiate rounding types.", "anchors": ["include/eirin/fixed.hpp:335-346: operator*"]}
{"id": "C221", "title": "The order of computed products and quotients", "statement": "If one computed product is less than another, the exact products are in the same order, and equal exact products are computed equally; the same holds for quotients, with all signs. Comparing two fractions with positive denominators by cross multiplication is therefore never wrong. Different products may be computed as equal.", "quantifier": "all signed valid layouts, rounding or not, all operands for which twice the exact results fit with one ulp to spare; quotients: at least one integer bit besides the sign", "why_tests_cant": "The claim is about pairs of results over quadruples of operands; tests sample a few.", "anchors": ["include/eirin/fixed.hpp:335-346: operator*", "include/eirin/fixed.hpp:369-380: operator/", "include/eirin/fixed.hpp:446-449: operator<=>"]}
{"id": "C222", "title": "Elapsed time across a wrap of the clock", "statement": "If a clock is advanced with += any number of times, now - start is exactly the sum of the ticks whenever this sum is storable. On unsigned storage and on signed storage of 8 or 16 bits this holds even if the clock wraps around. On signed storage of at least 32 bits it is false, because the clock overflows with undefined behaviour; it holds as long as the clock itself does not overflow.", "quantifier": "all valid layouts, rounding or not, all starts, all lists of ticks of any length and sign with a storable sum", "why_tests_cant": "The number of ticks is unbounded, and a wrap of the clock needs a start close to the limit that tests do not choose.", "anchors": ["include/eirin/fixed.hpp:306-310: operator+=", "include/eirin/fixed.hpp:318-321: operator-"]}
{"id": "C223", "title": "Bilinear interpolation", "statement": "Interpolating between four corners, first in one direction and then in the other, with both parameters between 0 and 1 is defined; the result lies between the smallest and the largest corner, is never above the exact value and less than two ulps below it, and is exact at the four corners. Exchanging the two directions may change the result.", "quantifier": "all non-rounding valid layouts, all corners in an interval whose length is storable with both signs, all parameters between 0 and 1", "why_tests_cant": "The claim ranges over six raw values of every layout; tests sample a few.", "anchors": ["include/eirin/fixed.hpp:301-304: operator+", "include/eirin/fixed.hpp:318-321: operator-", "include/eirin/fixed.hpp:335-346: operator*"]}
{"id": "C224", "title": "The area of a polygon", "statement": "The sum of x*y' - y*x' over the edges of a polygon (twice its area) is defined and off by at most one ulp per edge. It does not depend on the order of the edges, and going around in the other direction changes the sign exactly. Moving the polygon may change the result.", "quantifier": "all signed non-rounding valid layouts, all lists of edges of any length whose absolute products add up, with one ulp per edge, to a number that fits", "why_tests_cant": "The number of edges is unbounded, and the exact change of sign is a statement about pairs of runs.", "anchors": ["include/eirin/fixed.hpp:335-346: operator*", "include/eirin/fixed.hpp:318-321: operator-", "include/eirin/fixed.hpp:306-310: operator+="]}
{"id": "C225", "title": "Is a point inside a convex polygon?", "statement": "The test that computes the orientation of the point with respect to every edge and rejects it if one is negative never rejects a point inside the polygon or on its boundary: a rejected point is strictly outside of an edge. On non-rounding layouts an accepted point is less than one ulp, measured by the doubled area of the triangle with the edge, outside of every edge.", "quantifier": "all signed valid layouts, the first part also on rounding ones, all lists of edges of any length, all points with storable differences for which twice the products fit with two ulps to spare", "why_tests_cant": "The number of edges is unbounded, and wrong answers could occur only for points very close to the boundary.", "anchors": ["include/eirin/fixed.hpp:335-346: operator*", "include/eirin/fixed.hpp:318-321: operator-", "include/eirin/fixed.hpp:446-449: operator<=>"]}
{"id": "C226", "title": "The area of a polygon in rounding types", "statement": "In a rounding type the sum of x*y' - y*x' over the edges of a polygon is twice its area, up to one ulp per edge. This is false, because every product is doubled: the unit square gives four instead of two. The sum is four times the area, up to two ulps per edge; it does not depend on the order of the edges, and going around in the other direction changes the sign exactly.", "quantifier": "all signed rounding valid layouts, all lists of edges of any length whose doubled absolute products add up, with two ulps per edge, to a number that fits", "why_tests_cant": "The number of edges is unbounded, and the exact change of sign is a statement about pairs of runs.", "anchors": ["include/eirin/fixed.hpp:335-346: operator*", "include/eirin/fixed.hpp:318-321: operator-", "include/eirin/fixed.hpp:306-310: operator+="]}
{"id": "C227", "title": "Weights divided by their sum in rounding types", "statement": "In a rounding type nonnegative weights divided by their sum give shares which add up to one, up to half an ulp per weight. This is false, because every quotient is doubled: two equal weights give one and one. Every share is twice the exact one rounded to the nearest, so it is never negative and never above two, and the shares add up to two, up to one ulp per weight.", "quantifier": "all rounding valid layouts with at most bits - 2 fraction bits in which 2 is representable, all lists of nonnegative weights of any length with a storable sum", "why_tests_cant": "The number of weights is unbounded and the deviation grows with it; no test divides several numbers in a rounding type and adds the results.", "anchors": ["include/eirin/fixed.hpp:306-310: operator+=", "include/eirin/fixed.hpp:369-380: operator/"]}
