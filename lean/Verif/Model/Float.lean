import Verif.Model.Util

/-! # Binary floating-point arithmetic, and the conversions of `fixed_num` in it

`Model/Fixed.lean` takes floating arithmetic to be exact; here the roundings, the overflow to infinity, infinities and NaN are modelled.
A finite value is its rational number (the sign of a zero is dropped: no function modelled here depends on it).  Arithmetic is IEEE 754
with rounding to nearest, ties to even (the default environment, and what compilers use for constants); every operation is rounded to the
type of its operands (`FLT_EVAL_METHOD == 0`). -/

namespace Eirin

/-- A binary format: precision `p`, the exponent `emin` of the smallest unit, and the overflow threshold `2^emax`. -/
structure FFmt where
  p : Nat
  emin : Int
  emax : Int
  deriving DecidableEq, Repr

/-- `float`: IEEE binary32. -/
def binary32 : FFmt := ⟨24, -149, 128⟩
/-- `double`: IEEE binary64. -/
def binary64 : FFmt := ⟨53, -1074, 1024⟩
/-- `long double` of the x86-64 System V ABI. -/
def x87Ext : FFmt := ⟨64, -16445, 16384⟩
/-- `long double` of the AArch64 ABI: IEEE binary128. -/
def binary128 : FFmt := ⟨113, -16494, 16384⟩

/-- A floating value: finite, infinite (`true` is negative), or not a number. -/
inductive Flt
  | fin (v : ℚ)
  | inf (neg : Bool)
  | nan
  deriving DecidableEq, Repr

/-- The nearest integer, ties to even. -/
def rneInt (q : ℚ) : Int :=
  if q - ⌊q⌋ < 1 / 2 then ⌊q⌋
  else if 1 / 2 < q - ⌊q⌋ then ⌊q⌋ + 1
  else if ⌊q⌋ % 2 = 0 then ⌊q⌋ else ⌊q⌋ + 1

/-- `⌊log2 |q|⌋` for `q ≠ 0`. -/
def ilog (q : ℚ) : Int :=
  let e : Int := (Nat.log2 q.num.natAbs : Int) - Nat.log2 q.den
  if (2 : ℚ) ^ e ≤ |q| then e else e - 1

/-- The exponent of the unit in the last place at `q`. -/
def unitExp (fmt : FFmt) (q : ℚ) : Int := Max.max (ilog q - fmt.p + 1) fmt.emin

/-- Rounding to `p` bits with exponents unbounded above. -/
def rne (fmt : FFmt) (q : ℚ) : ℚ :=
  if q = 0 then 0 else rneInt (q / 2 ^ unitExp fmt q) * 2 ^ unitExp fmt q

/-- The floating result of an operation whose exact result is `q`. -/
def fround (fmt : FFmt) (q : ℚ) : Flt :=
  if |rne fmt q| < 2 ^ fmt.emax then .fin (rne fmt q) else .inf (decide (q < 0))

/-- `a * b`. -/
def fmul (fmt : FFmt) : Flt → Flt → Flt
  | .fin a, .fin b => fround fmt (a * b)
  | .fin a, .inf s => if a = 0 then .nan else .inf (xor s (decide (a < 0)))
  | .inf s, .fin a => if a = 0 then .nan else .inf (xor s (decide (a < 0)))
  | .inf s, .inf t => .inf (xor s t)
  | .nan, _ => .nan
  | .inf _, .nan => .nan
  | .fin _, .nan => .nan

/-- `a - b`. -/
def fsub (fmt : FFmt) : Flt → Flt → Flt
  | .fin a, .fin b => fround fmt (a - b)
  | .fin _, .inf s => .inf (!s)
  | .inf s, .fin _ => .inf s
  | .inf s, .inf t => if s = t then .nan else .inf s
  | .nan, _ => .nan
  | .inf _, .nan => .nan
  | .fin _, .nan => .nan

/-- `a >= 0.0`. -/
def fge0 : Flt → Bool
  | .fin a => decide (0 ≤ a)
  | .inf s => !s
  | .nan => false

/-- `static_cast<t>(v)`: undefined unless `v` is finite and its truncation is representable. -/
def fltToInt (t : IntTy) : Flt → Res Int
  | .fin v => floatToInt t v
  | .inf _ => .ub .overflow
  | .nan => .ub .overflow

/-- `static_cast<floating type>(n)` of an integer. -/
def intToFlt (fmt : FFmt) (n : Int) : Flt := fround fmt n

variable (F : FxTy)

/-- `explicit fixed_num(std::floating_point val)`, builtin intermediate types; the format is that of the type of `val`, in which all of it
is computed. `fixed.hpp:157-183` (the `else` branch). -/
def ofFlt (fmt : FFmt) (v : Flt) : Res Int :=
  let m := intToFlt fmt (fractionMultiplier F)
  let half := Flt.fin (1 / 2)
  if F.r then
    if fge0 v then fltToInt F.T (fmul fmt (fmul fmt v m) half)
    else fltToInt F.T (fsub fmt (fmul fmt v m) half)
  else fltToInt F.T (fmul fmt v m)

/-- `explicit operator T()` for a floating target type. `fixed.hpp:293-299`. -/
def toFlt (fmt : FFmt) (x : Int) : Res Flt := do
  let q ← cdiv F.C x (fractionMultiplier F)
  pure (intToFlt fmt (F.T.wrap q))

/-! ### `print_constants` -/

/-- The decimal literals of `cst_lst` as exact numbers: numerator over `10^36`. `util.hpp:79-91`. -/
def cstLiterals : List ℚ :=
  [1442695040888963407359924681001892137 / 10 ^ 36,
   434294481903251827651128918916605082 / 10 ^ 36,
   318309886183790671537767526745028724 / 10 ^ 36,
   564189583547756286948079451560772586 / 10 ^ 36,
   693147180559945309417232121458176568 / 10 ^ 36,
   2302585092994045684017991454684364208 / 10 ^ 36,
   1414213562373095048801688724209698079 / 10 ^ 36,
   1732050807568877293527446341505872367 / 10 ^ 36,
   577350269189625764509148780501957456 / 10 ^ 36,
   577215664901532860606512090082402431 / 10 ^ 36,
   1618033988749894848204586834365638118 / 10 ^ 36]

/-- `csl_nme_lst`. `util.hpp:99-111`. -/
def cstNames : List String :=
  ["log2e", "log10e", "inv_pi", "inv_sqrtpi", "ln2", "ln10", "sqrt2", "sqrt3", "inv_sqrt3", "egamma", "phi"]

/-- `printf("%lx", n)`: lower-case hexadecimal digits without leading zeros, of the value as `unsigned long`. -/
def hexStr (n : Int) : String := String.ofList (Nat.toDigits 16 (u64.wrap n).toNat)

/-- The text printed for one constant. `util.hpp:129-130`. -/
def constantText (name : String) (v : Int) : String :=
  "\n// " ++ name ++ "\ntemplate <typename T>\nEIRIN_ALWAYS_INLINE constexpr enable_if_fixed<T> " ++ name ++ "_v()\n" ++
  "{\n\treturn T::template from_fixed_num_value<61>(0x" ++ hexStr v ++ "ll);\n}\n"

/-- The loop of `print_constants<int64_t>(fraction)`: the literal is a `long double` (format `ld`; the compiler rounds it to nearest) and is
converted to the `double` parameter of `eval_value`. `util.hpp:125-131`. -/
def printLoop (ld : FFmt) (fraction : Nat) : List (String × ℚ) → Res String
  | [] => .ok ""
  | (name, lit) :: rest => do
    let v ← evalValue (rne binary64) i64 (rne binary64 (rne ld lit)) fraction
    let t ← printLoop ld fraction rest
    pure (constantText name v ++ t)

/-- `print_constants<int64_t>(fraction)`: the text written to the standard output. `util.hpp:121-132`. -/
def printConstants (ld : FFmt) (fraction : Nat) : Res String := printLoop ld fraction (cstNames.zip cstLiterals)

end Eirin
