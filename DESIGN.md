# Formal model of EirinFixed in Lean 4 — design

## 1. What is modelled, and how

`/repo/include/eirin` is a header-only C++20 fixed-point library.  Everything observable in it is integer
arithmetic with C++ conversion rules, a few loops, and string handling, so the model is a set of total,
computable Lean functions over `Int` / `Nat` / `List Char` / `BitVec`.

* **C++ semantics core** (`Verif/Cpp.lean`).  An integer type is `⟨bits, signed⟩`.  Values are `Int`s in the
  type's range.  Every C++ operation that can be undefined returns `Res α = ok a | ub reason | throw exn`;
  undefined behaviour is a *distinct outcome*, never assumed away.  C++20 rules are used: two's complement,
  narrowing conversions are modular, `<<` on signed values is modular, `>>` is arithmetic, shift counts must be
  below the width, signed `+ - *` overflow is UB, `/` and `%` are UB on a zero divisor and on `min / -1`.
  Integral promotions (`int8/int16 → int`) and the usual arithmetic conversions are modelled (`promote`, `common`).
  An exception leaving a `noexcept` function is the outcome `throw terminate`.  A loop that does not end is `ub diverges`. Use of an indeterminate object (a literal that failed to parse) is `ub uninit`.
* **A fixed-point type** is `FxTy = ⟨T, I, f, r⟩` (storage type, intermediate type, fraction bits, rounding);
  `FxTy.Valid` is the concept `fixed_num_check` plus "the types are the standard 8..128 bit integers".
  Theorems about the core are for *every* valid type; theorems about transcendental functions are for
  `fixed32` and/or `fixed64` as named in the statement.
* **Model modules** (`Verif/Model/*.lean`), one per header, function by function, each definition citing the lines it models.
* **Specification** (`Verif/Spec.lean`, `SpecText.lean`, `SpecFormat.lean`): small, model-independent: the rational
  number denoted by a raw value, rounding notions, the number denoted by a numeral, the layout of a padded field.
  Real-valued claims are stated with Mathlib's `Real.sin`, `Real.exp`, `Real.logb`, `√`, `π`, … directly.
* **Property theorems** (`Verif/Props/*.lean`), apart from helper lemmas (`Verif/Lemmas/*.lean`).  Next to each
  property theorem there is an `example` exhibiting a concrete, non-trivial instance of its hypotheses.
* **Conformance** (`Verif/Conformance.lean`): every deterministic expectation of the upstream test-suite
  (`/repo/test/main.cpp`, `/repo/test/test_io.cpp`), restated as an `example` about the model and checked by the kernel.
  It ties the model to the observed behaviour of the C++ code, which cannot be run here.

### When the code violates the property

Several properties, stated as a user would state them, are false of the code.  For these the file contains

* `def Cnn_statement : Prop` — the full statement;
* `theorem Cnn_…_false : ¬ Cnn_statement` — its refutation with a concrete witness;
* `theorem Cnn_…_partial` — the part that holds, with the extra hypothesis visible; where possible further theorems
  say exactly what the code does on the excluded inputs.

MANIFEST.json marks such claims `partial`.  No claim is partial because a proof is missing.
(C80 and C81 carry an extra `_false` theorem that only shows that a *stronger* statement would fail; they are `proved`.)

## 2. Headers and their models

| header | model | left out |
|---|---|---|
| `fixed.hpp` (class, operators, conversions, comparisons, limits) | `Model/Fixed.lean`, `Model/Float.lean` (IEEE conversions) | — |
| `fixed.hpp` (`operator<<`, `copy_as_chars_to`) | `Model/Print.lean`, `Model/Ostream.lean` (field width) | locale facets, stream failure |
| `fixed.hpp` (parsers, literals, `operator>>`), `io/parse.hpp` | `Model/Parse.lean`, `Model/Istream.lean` (stream state, non-ASCII units), `Model/Literals.lean`, `Model/ParseWide.lean` (other character types) | `badbit`, exception masks |
| `math.hpp` | `Model/Math.lean` | — |
| `numbers.hpp` and the class constants | `Model/Numbers.lean` | — |
| `io/format.hpp` | `Model/Format.lean`, `Model/FormatUnits.lean` (code units, any character type) | dynamic width/precision (`{}` inside the specification is not supported by the code either) |
| `random.hpp` | `Model/Random.lean`, `Model/SeedSeq.lean` | `seed_seq` on ranges other than two elements |
| `detail/distribution.hpp` | `Model/Random.lean` | the wrapped standard distributions (a parameter with a contract) |
| `ext/cordic.hpp` | `Model/Cordic.lean` | — |
| `ext/simd_math.hpp` | `Model/Simd.lean`, `Model/Platform.lean`, `Model/Threads.lean` | the intrinsics' lane semantics are taken from Intel's manual; `CPUID` is a parameter; the interleaving model of the feature query is sequentially consistent |
| `ext/builtin_ints.hpp` | `Model/Int128.lean` | — |
| `detail/util.hpp` | `Model/Util.lean`, `Model/Float.lean` (`print_constants`) | `bbp_calc_pi` for types of at most 4 bytes (does not compile: the intermediate type is the `std::conditional` struct itself) |
| `detail/perf.hpp` | `Model/Perf.lean` | wall-clock timing |
| `error.hpp`, `macro.hpp`, `eirin.hpp`, `detail/int128.hpp` | outcome `throw …`, type `i128` | compiler selection macros |

Modelling decisions worth knowing:

* `Model/Fixed.lean` takes floating-point arguments as exact rationals and conversions to floating point as exact.
  `Model/Float.lean` repeats both conversions in IEEE arithmetic (binary32, binary64, x87 extended, binary128; round to nearest even;
  NaN, infinities, overflow; `FLT_EVAL_METHOD == 0`; signed zeros are not told apart): C124 and C125.  In `eval_value` the rounding of
  `double` arithmetic is a function parameter whose only hypothesis is exactness on representable results; C126 instantiates it with
  IEEE rounding.  `std::sin` in the lookup table is a parameter.
* Operands whose evaluation order C++ leaves open (the two factors in `pow(fixed, fixed)`, the operands of `+` in the table
  interpolation) are evaluated left to right; the order can only change which undefined operation is met first.
* `std::hash`, standard distributions, standard engines are parameters; theorems quantify over all of them that
  honour the contract written in the hypothesis.
* `operator>>` classifies characters with `isdigit`; on units outside `unsigned char` this is undefined (`Model/Istream.lean`).
* `copy_as_chars_to` forms a pointer one before its buffer in one branch without reading it; this is not modelled as undefined.
* `os << engine` resolves to the engine's friend operator (more specialised than the free template); the classic locale is assumed.
* `fixed % integral` is declared but does not compile when instantiated, so it has no model.
* The engine's out-of-range shifts are `ub` in the standard reading (`shiftStd`); `shiftHw` models x86 masking, and the
  properties of the engines' sequences are proved for every treatment of such shifts.

## 3. Plan per property

| id | model | proof |
|---|---|---|
| C01–C03, C06–C10 | operators for generic `FxTy` in the `Res` monad | range arithmetic (`wrap` is identity on in-range values), floor/truncation lemmas |
| C04 | `divide`, `divide_by` with `throw` | case analysis |
| C05 | `if constexpr(rounding)` branches | exact characterisation: result is *twice* the rounded value ⇒ refutation |
| C11 | usual arithmetic conversions with unsigned | partial (x ≥ 0) + refutation |
| C12, C13 | comparison on raw values, epsilon constant | order of rationals `raw / 2^f` |
| C14–C17 | constructors/conversions; floating point modelled as exact rationals | floor/trunc lemmas; C16, C17 refuted in part |
| C18, C19 | bit-mask code as integer arithmetic | C18 partial for x ≥ 0, refuted below |
| C20 | constants as in source | Mathlib bounds on `Real.pi`, `Real.exp`, logarithms; own enclosure of γ |
| C21–C27 | `math.hpp` rounding functions | integer division lemmas |
| C28, C29 | the bit loop, recursion on the shift | loop invariant of digit-by-digit square root |
| C30 | Newton iteration (≤ 5 steps) | AM–GM invariant, quadratic error bound |
| C31 | composition | from C02, C28 |
| C32–C34 | `log2` loops | invariant in ℝ with `Real.logb`; lexicographic monotonicity |
| C35, C36, C77 | square-and-multiply; `exp(e * log b)` | induction on the exponent; composition of error bounds |
| C37–C43, C80, C81 | polynomial evaluations and range reductions | polynomial enclosures of sin/atan/exp, error propagation, witnesses for refutations |
| C44 | two divisions/multiplications | floor error bounds |
| C45, C46, C50, C82 | digit loops | induction with exact rational invariant; uniqueness of numerals |
| C47–C49, C51–C53 | the five parsers over `List Char` | induction over the string |
| C54–C58 | formatter and spec parser over `List Char` | induction/case analysis |
| C59–C62, C83 | PCG engine with an explicit outcome for out-of-range shifts | induction on number of draws; counter arithmetic modulo 2^w |
| C63, C64 | adapters over an abstract engine/distribution with a contract | invariant over operation histories |
| C65, C66, C74 | CORDIC | case analysis, loop invariant (rotation by the residual angle), error recurrence |
| C67–C69 | SIMD lanes as 64-bit words | split multiplication identity |
| C70 | two-word integer | arithmetic |
| C71–C73, C75, C76 | utilities, lookup tables | induction over the table / the terms |
| C78 | `numeric_limits` members | arithmetic, witnesses |
| C79 | `measure_esp` loop over arbitrary functions | loop invariant |
| C84 | `log2` | uniqueness of the normalised mantissa; C33 |
| C85–C87 | operators, rounding functions, conversions | floor/truncation inequalities in ℚ |
| C89, C90 | CPU feature cache as a state machine; debug text | invariant over question sequences; C45 |
| C91 | distribution parameters and constructors | case analysis over the contract |
| C88 | the printer for every storage type | the C45 induction over non-negative values; overflow witness |
| C92 | rounding on every storage type | the C21 argument with promoted arithmetic; exact wrap at the ends |
| C93 | `<<` then `>>` | printed digits bounded by divisibility; composition of C45 and C52 |
| C94 | `std::format` then parse; same text as `<<` | composition of C55 and C47; uniqueness of canonical numerals |
| C95 | state bits of `operator>>` | call-by-call transcription on a stream with `eofbit`/`failbit`; refinement of `streamIn` on ASCII; witnesses |
| C96 | field width of `operator<<` | per-character insertion; exact text and length; equivalence with the correct cases |
| C97 | user-defined literals | token grammar as an inductive spec; characterisation of the correct tokens; digit-string lemmas in bases 8 and 10 |
| C98 | `detail::parse` for every character type | refinement of `parseDetail` on ASCII; narrowing of `check_ch` |
| C99 | `exp` over the whole range | table of the integer powers of `e` against Mathlib's bounds on `e`; error analysis of the product; `C37` polynomial bound |
| C100 | `log2` for a generic layout | the loop invariants of C32/C33 with the layout as a parameter; finite cases for the two widest layouts |
| C101 | `tan` | quotient error from the C39/C40 bounds; witness beside the pole |
| C102 | `atan`, `asin` outside the fitted range | error analysis of the polynomial on wider intervals; sign of its cubic factor |
| C103 | `io::parse` of a `string_view` | model includes the memory behind the view; reduction to the body of C53 |
| C104 | `seed(seed_seq)` | `std::seed_seq::generate` modelled from the standard; each mixing step is injective |
| C105 | `sin`, `cos` on every signed layout, 16-bit ones included | error propagation for any layout with ulp at most 1/256 and room for 15 (`Lay`, `GL`); constants from C20 |
| C106 | `atan` on every signed layout | the same with room for 1.9 |
| C107 | mixing steps of the engines | odd multipliers are invertible mod 2^w; induction over the bits of `x*256 ^ x` |
| C108 | `hypot` | refuted by wrapping squares; composition of the product and square root bounds |
| C109 | integer `pow` on every layout | induction over square-and-multiply with the exact values carried along |
| C110 | `exp` on every signed layout | C109 for the powers of e, error propagation for the polynomial |
| C111 | `pow(fixed, fixed)` over its range | composition of C34, C99 and C109 |
| C112 | `sqrt`, `hypot` on every 64-bit layout | Newton iteration, quadratic convergence |
| C113 | `sin`, `cos`, `tan` over the whole range of every layout | argument reduction with a rounded pi, C105 |
| C114 | `log`, `log10` on every layout | C100 and a quotient error bound |
| C115 | `asin`, `acos` on every 64-bit layout; refuted for 32-bit storage | C112, C106 and quotient error bounds |
| C116 | `degrees`, `radians` on every signed layout; refuted where 180 does not fit | error bounds of the two roundings, C20 for every type |
| C117 | `cbrt` on every signed layout; refuted with few fraction bits | invariant of the Newton iteration (AM-GM) and contraction by 2/3 |
| C118 | string parsers and print-parse round trip on every signed layout | evaluation of the loops with a generic bound on what the cut-off drops |
| C119 | the values for which `operator>>` inverts `operator<<`, as an equivalence | both directions of the loop evaluation; the wrapped shift never gives the right quotient |
| C120 | `std::format` then parse on every layout | composition of C55 and C118, refutation for negative non-integers |
| C121 | Outcome of both string parsers on every numeral, including wrap-around and overflow | loop evaluation with overflow branches; shifted integer part is a multiple of 2^f so the addition cannot overflow |
| C122 | Outcome of both string parsers on every numeral in unsigned layouts | modular loop evaluation, 2^n divides 10^k iff n <= k |
| C123 | Outcome of extraction and io::parse on every numeral, including wrap-around and overflow | loop evaluation, wrapped shifts, both branches of every overflow test |
| C124 | Construction from float/double/long double including NaN, infinity and IEEE rounding | rounding to nearest proved correct, power-of-two scaling exact |
| C125 | Conversion to float/double/long double with IEEE rounding | rne_nearest on the integer part |
| C126 | Text printed by print_constants, for every fraction argument and long double format | C71 with IEEE rounding, finite tables by kernel evaluation |
| C127 | Outcome of eval_value for all types, doubles and fraction counts | invariant of the greedy loop modulo 2^bits; bit-vector lemma for the or |
| C128 | Sequences of differently seeded engines | the output depends on state * multiplier + seed only; permutation from C107 |
| C129 | Negative integer powers of arbitrary bases | invariant of the square-and-divide loop with one relative error per quantity |
| C130 | Monotonicity of exp | Horner's rule with truncated products and non-negative coefficients is monotone; error bounds of C110 across the integers |
| C131 | Forward error of whole expressions | structural induction over an expression language evaluated by the model operators |
| C132 | Inverse trigonometric round trips | error bounds of C105/C106/C113/C115 composed through Lipschitz bounds of the real functions |
| C133 | exp and log as inverses | composition of C110 and C114 |
| C134 | sqrt and squaring as inverses | composition of C02 with C28 and C112 |
| C135 | order preservation of the elementary functions | witnesses; accuracy theorems and real monotonicity |
| C136 | the rounding parameter | independence by congruence; C05 and induction on the exponent |
| C137 | interleaving model of the feature query, one memory access per step | invariants over schedules (lists of thread ids) by induction, explicit losing schedules |
| C138 | `floorPow`: square and multiply on integers without wrapping, shown equal to the code's loops | induction over the loop; the accumulator of n stays below the running square of n+1 |
| C139 | Newton branch of `sqrt` with unsigned wrap-around | quadratic convergence as in C112; the exit test characterised under wrap-around |
| C140 | `log2` with unsigned wrap-around | the loops computed modulo 2^B; error bound from C100; induction on the number of passes for non-termination |
| C141 | `sin`, `cos` with unsigned wrap-around | every operation on non-negative numbers agrees with the signed layout of the same fraction; accuracy from C105 |
| C142 | `exp` on unsigned types | the polynomial and the integer power are computed by exact non-negative operations, shared with the signed layout; accuracy from C110 |
| C143 | `cbrt` of negative numbers | refuted at -2 (zero start value); from -5 down one pass leads to the wrong-side start back above the root, then the mirrored loop contracts as in C117 |
| C144 | `log`, `log10` on unsigned types | quotient of C140 by the converted constant, shared with the signed layouts; offset below one computed |
| C145 | logarithms on narrow storage | loops carry the wrapped accumulator, as for unsigned types, with all arithmetic in `int`; the layouts without integer bits loop for ever |
| C146 | square root on narrow storage | the Newton bounds of C112 with silent narrowing; all five rounds are run since epsilon is zero; the remaining eight layout shapes by evaluation |
| C147 | string parsing on narrow storage | the accumulator invariant of C20 restated for any type whose values survive int arithmetic; the divisor is tracked modulo 2^16 |
| C148 | `sin`, `cos` symmetries on every signed layout, uniform in the argument | folding of the quarter turns is symmetric; both functions follow the real ones at the remainder modulo `double_pi()`, whose error therefore cancels |
| C149 | `degrees`, `radians` on every unsigned layout; refuted where 180 does not fit | as C116 |
| C150 | Mixed integer operators on every layout and every integer type; division refuted for wide unsigned integers | common type by a finite table over all type pairs, congruences modulo 2^bits |
| C151 | Tolerance comparisons on every layout; refuted on wide unsigned storage | finite table for the tolerance, case analysis of the modular difference |
| C152 | `fmod`, `modf` on every layout; unsigned `fmod` in closed form, refuted for quotients out of range | as C27; modular arithmetic of the quotient |
| C153 | `std::format` on unsigned and narrow layouts; refuted where ten is not storable, with the exact set of layouts | as C54 and C55; table of all layouts without room |
| C154 | Sums of lists: exact iff the total (modular layouts) resp. every partial sum (wide signed) is representable; order independence; negation | induction on the list, modular arithmetic |
| C155 | `hypot` on unsigned and narrow layouts; refuted when the squares overflow, closed form for all arguments | modular reduction of the sum; C139 and C146 |
| C156 | `operator>>` on unsigned and narrow layouts, outcome on every numeral; accuracy refuted and proved where nothing wraps | invariants of the two digit loops modulo the storage |
| C157 | `cbrt` on unsigned layouts; refuted where the cube of an iterate wraps onto the argument, proved where it fits | invariant of C117 with a bound on the square instead of the cube, contraction |
| C158 | `pow(fixed, fixed)` on every signed layout: relative bounds over the range that fits, undefined from 33 fraction bits | C114 (log), C110 (exp), C109 (integer power) composed, table of log(1) |
| C159 | `atan`, `asin`, `acos` on unsigned layouts; atan refuted inside (0, 1), proved at the ends; domain of asin and acos | modular normal form of the polynomial, tables over the layouts, C139 for the square root |
| C160 | `pow(fixed, fixed)` on unsigned layouts; refuted for bases below one with a fractional exponent, proved for bases from one and for whole exponents | C144, C142 and C109 composed; table over the layouts |
| C161 | the formatter on code units; refuted for fills of several code units, proved for all others and for UTF-32 | refinement of the character model: the parser commutes with decoding and consumes a prefix; the unpadded text is ASCII |
| C162 | sums, products of exponents and products of bases | error bounds of C109 combined; relative and absolute error of a power by induction |
| C163 | oddness refuted; what negative angles give: an extrapolation of the last two entries, the constant sin 3 for the library's table | case analysis of the reduction; integer interval reasoning; sine table of C76 |
| C164 | scaling law exact modulo the span of the type on every layout; product and quotient laws | relational induction over the three loops (two runs, counts shifted); then the accuracy of C100, C140, C145 |
| C165 | Pythagoras, addition and double-angle formulas in the library's own arithmetic | errors of C113 propagated through exact sums and floored products |
| C166 | exp(x)*exp(y) against exp(x+y), for integral y and for all y | relative errors of C110 propagated through the floored product |
| C167 | accuracy for every pass count, and the radius of the result | loop invariant of C74 stopped after n passes, with gain and leftover-angle tables checked for all n by the kernel |
| C168 | idempotence, monotonicity, oddness and shifts of floor/ceil/trunc/round | uniqueness of the integer characterised by C92 |
| C169 | format then parse on the layouts not covered by C120 | the text is a numeral (C153), its value bounds give the parsers' precondition (C122, C147) |
| C170 | symmetry of hypot | normal forms of + and *, modular associativity of the sum |
| C171 | no overflow where sums wrap | a four-level outcome predicate closed under sequencing; the constants divided by are non-zero on every layout (finite table) |
| C172 | fallback limits | evaluation over the ten storage types |
| C173 | outcome of pow(fixed, fixed) on unsigned and narrow layouts | outcome levels of C171, absence of exceptions by induction over the loops, finite tables for the 8-bit logarithm and exponential |
| C174 | sine and cosine: series against CORDIC | error bounds of both against the real functions |
| C175 | narrowing conversion against arithmetic | truncation of a sum against the sum of truncations |
| C176 | decimal text to number to text | floor in binary then floor in decimal, both multiples of 10^-p |
| C177 | symmetry of atan, asin, acos | same polynomial of the absolute value; negation commutes with the wrap except at the minimum, where both sides fail |
| C178 | two layouts holding the same number give the same result and the same text | uniqueness of the specified result (floor, trunc, nearest, numeral, cut decimals) applied to both types |
| C179 | cube root with 2 to 13 fraction bits, any storage | invariant of the integer Newton iteration, contraction over ℝ |
| C180 | asin and acos on narrow signed storage | finite table of layouts for the lowest number, error propagation over ℝ |
| C181 | exceptions and termination of all functions on all layouts | compositional predicate, induction on loop measures |
| C182 | termination, exceptions and text length of output, formatting, extraction and CORDIC | predicate `EndsIn` (ends, raises nothing, result satisfies P) closed under bind; number halves in every pass, unread characters decrease |
| C183 | cube root between the coarse and the fine layouts | loop invariant `x·D² ≤ (b+1)³` with the geometric decrease of C179 and a third way out through the stopping test |
| C184 | which kinds of undefined behaviour can occur at all | a class of outcomes closed under sequencing, with the shift counts bounded by `Valid` and the endless loops excluded by C181 |
| C185 | no read outside the digit table | invariant of value and divisor in the digit loops; for the failures induction on the exponent of the negative divisor and evaluation of the first digit |
| C186 | logarithms and angles of rounding types | doubled nearest quotient and product of C05, error of the rounded constants, C100 for log2 |
| C187 | square root of 64-bit rounding types | invariant of the Newton iteration with the doubled quotient: never more than one below the root of twice the argument, squared relative error in each step; the exit test never succeeds |
| C188 | hypot of 64-bit rounding types | doubled squares of C05, C187 and the root of a slightly wrong number |
| C189 | scalar products and Horner's scheme | induction on the list, C02 for each product, normal form of add |
| C190 | linear interpolation | floor of C02 between integers, normal forms of add and sub |
| C191 | rotation of a vector | C113, products and sums that fit, triangle inequality |
| C192 | cube root of rounding types | doubled products and quotients of C05, contraction of the Newton step by 2/3 |
| C193 | fmod of rounding types | C05 for product and quotient, C92 for floor |
| C194 | exponential smoothing | induction on the number of steps over C190 |
| C195 | scalar products and polynomials of rounding types | induction on the list, C05 for each product |
| C196 | normalising a vector | C108, C03 |
| C197 | damping | C02 |
| C198 | mean of a list | C154, C150 |
| C199 | counting loops | C01, C03, induction on the number of passes |
| C200 | bisection | C01, C150, loop invariant |
| C201 | recursive filters | C02, C01, induction on the input |
| C202 | running totals | normal forms of add and sub, induction on the list |
| C203 | arctangent of rounding types | C195 for products, polynomial bound of C41 at twice the argument |
| C204 | exponential function of rounding types | C195 for products, C05 for the quotient, polynomial bound of C37 at twice the argument |
| C205 | negative integer powers of rounding types | invariant over the binary digits of the exponent, C05 for products and quotients |
| C206 | ends of asin and acos of rounding types | C20 for the constant, C05 for the quotient |
| C207 | cosine of zero in rounding types | C20 for the constants, C05 for products and quotients, error propagation through reduction and polynomial |
| C208 | damping in rounding types | induction over the steps, C05 for products |
| C209 | interpolation and smoothing in rounding types | C05 for products, induction over the steps |
| C210 | determinants and orientation | both products are rounded in the same direction, so the error of the difference is less than one ulp |
| C211 | reversible integration | the backward step computes the same rounded products from the same operands and subtracts them exactly |
| C212 | determinants and orientation in rounding types | rounding to the nearest with ties away from zero is monotone, so the order of the products is kept |
| C213 | inside a circle or sphere | the sum of rounded-down squares is at most the rounded-down sum; on rounding types the errors can add up |
| C214 | smooth blending | the square may stay the same while the second factor shrinks, so the result can fall a little |
| C215 | fixed time step | additions and subtractions are exact, so the rest never drifts |
| C216 | Bezier curves | every interpolation rounds down by less than one ulp and stays between its neighbours |
| C217 | normalised weights | every quotient is rounded down, so the missing parts add up |
| C218 | compound growth | the rounding error of every step is multiplied by the following factors |
| C219 | choice by weights | subtraction is exact, so the boundaries are the exact partial sums |
| C220 | compound growth in rounding types | the missing halving doubles the factor in every step |
| C221 | order of products and quotients | rounding down, towards zero and to the nearest are monotone |
| C222 | elapsed time | sums and differences are exact modulo the storage size |
| C223 | bilinear interpolation | each of the two levels rounds down by less than one ulp |
| C224 | area of a polygon | every edge contributes a fixed raw number, which is negated when the edge is reversed |
| C225 | inside a convex polygon | the sign of the computed orientation is never wrong (C210, C212) |
| C226 | area of a polygon in rounding types | the missing halving doubles every product, symmetrically |
| C227 | normalised weights in rounding types | the missing halving doubles every quotient |

Properties after C227 follow the same pattern; MANIFEST.json lists the theorems of each.

## 4. Trusted base

* Lean 4.33.0 kernel.  `#print axioms` on every theorem listed in MANIFEST.json reports a subset of
  `propext`, `Classical.choice`, `Quot.sound`, and nothing else.
* No `sorry`, `admit`, own axioms, `native_decide`, `bv_decide`, `implemented_by`, `unsafe`.
  `decide +kernel` is used for closed facts about concrete values and for whole (finite) tables only.
* The faithfulness of the transcription from C++ to Lean (by reading; each definition cites its source lines;
  cross-checked by `Verif/Conformance.lean`).
* The definitions in `Verif/Spec*.lean` and the statements in `Verif/Props`.

## 5. Testing the theorems

`seeded/LOG.jsonl` records wrong programs: one-line edits of model definitions, or of the example programs that the later
properties are about (wrong boundary, missed case, swapped argument, dropped update), each rebuilt in a scratch copy.  For each it lists which declarations no longer check.
A mutant stops at the first failing module, so the claims that depend on the failing declarations are listed too
(`claim_theorems_lost`).  That list is not observed: it is computed from the dependency graph of the current theorems
whenever the log is regenerated, so it may name theorems added after the attempt, and it is cut to eight names when no
theorem of the claim itself is among them.

`outcome: detected` means that some proof no longer checks.  In about half of the entries a theorem of a claim is itself
among the failures; in the others a lemma below it fails.  A failing lemma is strong evidence if it states a value of
the edited function, but it does not by itself prove that the claim's statement excludes the edited program.  Where only a
lemma about the shape of a definition failed (`Quiet`, `Ends`), the attempt was repeated with that lemma stubbed in the
scratch copy (`stubbed_in_scratch`).

`claim_affected` says whether a theorem or example of the claim named in `breaks_claim` is among the failures, or a theorem of
it rests on a failing lemma.  It is false in 257 of the 870 detected attempts: there the build stopped in an earlier module
that the claim's proofs do not use, so the attempt says something about that earlier theorem and nothing about the named
claim.  The earlier theorem may even still be true of the edited program and fail only because its proof follows the
text.  Ten attempts of this kind, on example programs for rounding types and clocks, were repeated with the earlier theorems
stubbed; all ten then fail in the file of the claim itself.  The others have not been repeated.

Edits that turn out to be equivalent to the original program, and edits that do
not elaborate, are marked as such.
