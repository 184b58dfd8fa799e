import Verif.Cpp
import Mathlib.Data.Rat.Floor

/-!
# Model of `/repo/include/eirin/fixed.hpp` — the class template `fixed_num` and its operators

A value of `fixed_num<T, I, f, r>` is represented by its `m_value` (an `Int` in the range of `T`).
`m_value` is the only data member (`fixed.hpp:669`).
-/

namespace Eirin

/-- Template arguments of `fixed_num<Type, IntermediateType, fraction, rounding>`. `fixed.hpp:119-121`. -/
structure FxTy where
  T : IntTy
  I : IntTy
  f : Nat
  r : Bool
  deriving DecidableEq, Repr

namespace FxTy

/-- The constraint `fixed_num_check` (`fixed.hpp:94-104`): `0 < fraction <= sizeof(Type)*8-1`,
`sizeof(I) > sizeof(T)`, same signedness; `T` one of the standard integer types and `I` one of the standard
integer types or the 128-bit extension type (`bool` and the character types are not modelled). -/
def Valid (F : FxTy) : Prop :=
  (F.T.bits = 8 ∨ F.T.bits = 16 ∨ F.T.bits = 32 ∨ F.T.bits = 64) ∧
  (F.I.bits = 16 ∨ F.I.bits = 32 ∨ F.I.bits = 64 ∨ F.I.bits = 128) ∧
  F.T.bits < F.I.bits ∧ F.I.signed = F.T.signed ∧ 0 < F.f ∧ F.f ≤ F.T.bits - 1
instance (F : FxTy) : Decidable F.Valid := by unfold Valid; infer_instance

/-- promoted storage type: the type in which `T`-typed operands are combined -/
abbrev P (F : FxTy) : IntTy := F.T.promote
/-- `common_type` of `IntermediateType` and `Type` -/
abbrev C (F : FxTy) : IntTy := IntTy.common F.I F.T

end FxTy

/-- `fixed32`, `fixed.hpp:765`. -/
def fixed32 : FxTy := ⟨i32, i64, 16, false⟩
/-- `fixed64`, `fixed.hpp:772`. -/
def fixed64 : FxTy := ⟨i64, i128, 32, false⟩

variable (F : FxTy)

/-- `static_cast<Type>(1) << fraction` (an expression of the promoted type).
The count is below the width by `Valid`. `fixed.hpp:271, 280, 420`; `math.hpp:35, 49, 64, 72`. -/
def oneShl : Int := F.P.wrap (2 ^ F.f)

/-- `fraction_multiplier = IntermediateType(1) << fraction`. `fixed.hpp:133`. -/
def fractionMultiplier : Int := F.I.wrap (2 ^ F.f)

/-! ### Constructors and conversions -/

/-- `explicit fixed_num(std::integral val)`: `static_cast<Type>(val) << fraction`, stored in `Type`.
`fixed.hpp:153-155`. -/
def ofInt (n : Int) : Int := F.T.wrap (F.P.wrap (F.T.wrap n * 2 ^ F.f))

/-- Truncation of a rational toward zero (the C++ floating-to-integer conversion). -/
def ratTrunc (q : ℚ) : Int := Int.tdiv q.num q.den

/-- `static_cast<Type>(floating value v)`: truncation, UB if not representable ([conv.fpint]/1). -/
def floatToInt (t : IntTy) (v : ℚ) : Res Int :=
  if t.InRange (ratTrunc v) then .ok (ratTrunc v) else .ub .overflow

/-- `explicit fixed_num(std::floating_point val)`, builtin intermediate types (`fixed.hpp:157-183`, the `else`
branch; the MSVC class-type branch is not modelled).  Simplification: a finite floating value is an exact rational
and the scaling by a power of two is exact (true in IEEE arithmetic without overflow); the `- 0.5` of the rounding
branch is taken exact. -/
def ofFloat (v : ℚ) : Res Int :=
  if F.r then
    if v ≥ 0 then floatToInt F.T (v * fractionMultiplier F * (1 / 2))
    else floatToInt F.T (v * fractionMultiplier F - 1 / 2)
  else floatToInt F.T (v * fractionMultiplier F)

/-- `explicit operator T()` for integral target type `U`: `static_cast<U>(m_value >> fraction)`. `fixed.hpp:287-291`. -/
def toInt (U : IntTy) (x : Int) : Int := U.wrap (x / 2 ^ F.f)

/-- `explicit operator T()` for floating target: `static_cast<T>(static_cast<value_type>(m_value / fraction_multiplier))`.
`fixed.hpp:293-299`. Simplification: the final integer-to-floating conversion is taken exact (true for `double` whenever
the integer has at most 53 bits, so for `fixed32` and `fixed64`). -/
def toFloat (x : Int) : Res ℚ := do
  let q ← cdiv F.C x (fractionMultiplier F)
  pure ((F.T.wrap q : Int) : ℚ)

/-- `from_fixed_num_value<srcFrac>(inner)` with `inner : S`; two overloads. `fixed.hpp:489-501`. -/
def fromFixedNumValue (S : IntTy) (srcFrac : Nat) (inner : Int) : Res Int :=
  if F.f < srcFrac then
    if F.r then do
      let m ← shl S 1 (srcFrac - F.f)
      let q ← cdiv S.promote inner m
      let h ← shl S 1 (srcFrac - F.f - 1)
      let q2 ← cdiv S.promote inner h
      let b ← cmod S.promote q2 2
      let s ← arith S.promote (q + b)
      pure (F.T.wrap s)
    else do
      let m ← shl S 1 (srcFrac - F.f)
      let q ← cdiv S.promote inner m
      pure (F.T.wrap q)
  else do
    let m ← shl S 1 (F.f - srcFrac)
    let p ← arith S.promote (inner * m)
    pure (F.T.wrap p)

/-- `explicit fixed_num(fixed_num<T,I,f,r> fp)`: conversion from fixed-point type `G` to `F`. `fixed.hpp:185-188`. -/
def convert (G : FxTy) (x : Int) : Res Int := fromFixedNumValue F G.T G.f x

/-- `from_internal_value`. `fixed.hpp:503-506`. -/
def fromInternal (v : Int) : Int := F.T.wrap v

/-- `epsilon()` and `nearly_compare_epsilon()`: both `from_fixed_num_value<64>(0x5000000000000ll)`. `fixed.hpp:201-204, 237-240`. -/
def epsilon : Res Int := fromFixedNumValue F i64 64 0x5000000000000

/-! ### Arithmetic operators -/

/-- `operator+(fixed)`. `fixed.hpp:301-304`. -/
def add (x y : Int) : Res Int := do
  let s ← arith F.P (x + y)
  pure (F.T.wrap s)

/-- `operator-(fixed)`. `fixed.hpp:318-321`. -/
def sub (x y : Int) : Res Int := do
  let s ← arith F.P (x - y)
  pure (F.T.wrap s)

/-- `operator*(fixed)`. `fixed.hpp:335-346`.  The operand conversions to the common type are value preserving. -/
def mul (x y : Int) : Res Int :=
  if F.r then do
    let p ← arith F.C (x * y)
    let h ← cdiv F.I.promote (fractionMultiplier F) 2
    let v ← cdiv F.C p h
    let m ← cmod F.C v 2
    let s ← arith F.C (v + m)
    pure (F.T.wrap s)
  else do
    let p ← arith F.C (x * y)
    let q ← shr F.C p F.f
    pure (F.T.wrap q)

/-- `operator/(fixed)`. `fixed.hpp:369-380`. -/
def div (x y : Int) : Res Int :=
  if F.r then do
    let n ← shl F.I x F.f
    let d ← arith F.I.promote (n * 2)
    let v ← cdiv F.C d y
    let m ← cmod F.C v 2
    let s ← arith F.C (v + m)
    pure (F.T.wrap s)
  else do
    let n ← shl F.I x F.f
    let q ← cdiv F.C n y
    pure (F.T.wrap q)

/-- `operator%(fixed)`. `fixed.hpp:402-405`. -/
def rem (x y : Int) : Res Int := do
  let m ← cmod F.P x y
  pure (F.T.wrap m)

/-- unary `operator-`. `fixed.hpp:413-416`. -/
def neg (x : Int) : Res Int := do
  let s ← arith F.P (-x)
  pure (F.T.wrap s)

/-! ### Compound assignment: each returns the new `m_value` of `*this` -/

/-- `operator+=(fixed)`. `fixed.hpp:306-310`. -/
def addAssign (x y : Int) : Res Int := do
  let s ← arith F.P (x + y)
  pure (F.T.wrap s)

/-- `operator-=(fixed)`. `fixed.hpp:323-327`. -/
def subAssign (x y : Int) : Res Int := do
  let s ← arith F.P (x - y)
  pure (F.T.wrap s)

/-- `operator*=(fixed)`. `fixed.hpp:348-361`. -/
def mulAssign (x y : Int) : Res Int :=
  if F.r then do
    let p ← arith F.C (x * y)
    let h ← cdiv F.I.promote (fractionMultiplier F) 2
    let v ← cdiv F.C p h
    let m ← cmod F.C v 2
    let s ← arith F.C (v + m)
    pure (F.T.wrap s)
  else do
    let p ← arith F.C (x * y)
    let q ← shr F.C p F.f
    pure (F.T.wrap q)

/-- `operator/=(fixed)`. `fixed.hpp:382-394`. -/
def divAssign (x y : Int) : Res Int :=
  if F.r then do
    let n ← shl F.I x F.f
    let d ← arith F.I.promote (n * 2)
    let v ← cdiv F.C d y
    let m ← cmod F.C v 2
    let s ← arith F.C (v + m)
    pure (F.T.wrap s)
  else do
    let n ← shl F.I x F.f
    let q ← cdiv F.C n y
    pure (F.T.wrap q)

/-- `operator%=(fixed)`. `fixed.hpp:407-411`. -/
def remAssign (x y : Int) : Res Int := do
  let m ← cmod F.P x y
  pure (F.T.wrap m)

/-- `operator+=(integral)`: `m_value += static_cast<Type>(val) << fraction`. `fixed.hpp:312-316`. -/
def addIntAssign (x n : Int) : Res Int := do
  let k ← shl F.T (F.T.wrap n) F.f
  let s ← arith F.P (x + k)
  pure (F.T.wrap s)

/-- `operator-=(integral)`. `fixed.hpp:329-333`. -/
def subIntAssign (x n : Int) : Res Int := do
  let k ← shl F.T (F.T.wrap n) F.f
  let s ← arith F.P (x - k)
  pure (F.T.wrap s)

/-- `operator*=(integral)` with `val : U`: `m_value *= val` in the common type of `Type` and `U`. `fixed.hpp:363-367`. -/
def mulIntAssign (U : IntTy) (x n : Int) : Res Int := do
  let K := IntTy.common F.T U
  let p ← arith K (K.wrap x * K.wrap n)
  pure (F.T.wrap p)

/-- `operator/=(integral)` with `val : U`: `m_value /= val`. `fixed.hpp:396-400`. -/
def divIntAssign (U : IntTy) (x n : Int) : Res Int := do
  let K := IntTy.common F.T U
  let q ← cdiv K (K.wrap x) (K.wrap n)
  pure (F.T.wrap q)

/-- prefix `++`: returns (new value of the object, returned value). `fixed.hpp:418-422`. -/
def preInc (x : Int) : Res (Int × Int) := do
  let s ← arith F.P (x + oneShl F)
  pure (F.T.wrap s, F.T.wrap s)

/-- postfix `++`. `fixed.hpp:424-429`. -/
def postInc (x : Int) : Res (Int × Int) := do
  let s ← arith F.P (x + oneShl F)
  pure (F.T.wrap s, x)

/-- prefix `--`. `fixed.hpp:431-435`. -/
def preDec (x : Int) : Res (Int × Int) := do
  let s ← arith F.P (x - oneShl F)
  pure (F.T.wrap s, F.T.wrap s)

/-- postfix `--`. `fixed.hpp:437-442`. -/
def postDec (x : Int) : Res (Int × Int) := do
  let s ← arith F.P (x - oneShl F)
  pure (F.T.wrap s, x)

/-! ### Mixed fixed/integral operators (free functions) -/

/-- `fixed + integral`. `fixed.hpp:824-828`. -/
def addInt (x n : Int) : Res Int := addIntAssign F x n
/-- `integral + fixed`. `fixed.hpp:830-834`. -/
def intAdd (n x : Int) : Res Int := addIntAssign F x n
/-- `fixed - integral`. `fixed.hpp:836-840`. -/
def subInt (x n : Int) : Res Int := subIntAssign F x n
/-- `integral - fixed`: `fixed(val) -= fp`. `fixed.hpp:842-846`. -/
def intSub (n x : Int) : Res Int := subAssign F (ofInt F n) x
/-- `fixed * integral`. `fixed.hpp:848-852`. -/
def mulInt (U : IntTy) (x n : Int) : Res Int := mulIntAssign F U x n
/-- `integral * fixed`. `fixed.hpp:854-858`. -/
def intMul (U : IntTy) (n x : Int) : Res Int := mulIntAssign F U x n
/-- `fixed / integral`. `fixed.hpp:860-864`. -/
def divInt (U : IntTy) (x n : Int) : Res Int := divIntAssign F U x n
/-- `integral / fixed`: `fixed(val) /= fp`. `fixed.hpp:866-870`. -/
def intDiv (n x : Int) : Res Int := divAssign F (ofInt F n) x
/-- `integral % fixed`: `fixed(val) %= fp`. `fixed.hpp:878-882`.  (`fixed % integral`, `fixed.hpp:872-876`, does not
compile when instantiated: there is no `operator%=(integral)` and the integral constructor is explicit.) -/
def intRem (n x : Int) : Res Int := remAssign F (ofInt F n) x

/-! ### Checked division -/

/-- `divide(integral)` with `val : U`. `fixed.hpp:604-610`. -/
def divideInt (U : IntTy) (x n : Int) : Res Int :=
  if n = 0 then .throw .divideByZero
  else do
    let K := IntTy.common F.T U
    let q ← cdiv K (K.wrap x) (K.wrap n)
    pure (F.T.wrap q)

/-- `divide(fixed)`. `fixed.hpp:612-626`. -/
def divide (x y : Int) : Res Int :=
  if y = 0 then .throw .divideByZero
  else if F.r then do
    let n ← shl F.I x F.f
    let d ← arith F.I.promote (n * 2)
    let v ← cdiv F.C d y
    let m ← cmod F.C v 2
    let s ← arith F.C (v + m)
    pure (F.T.wrap s)
  else do
    let n ← shl F.I x F.f
    let q ← cdiv F.C n y
    pure (F.T.wrap q)

/-- A mutating member call: outcome together with the object's value afterwards. -/
structure Mut where
  /-- what the call did: `ok ()`, undefined, or an exception -/
  outcome : Res Unit
  /-- `m_value` of the object after the call (meaningful unless the outcome is undefined) -/
  value : Int
  deriving DecidableEq, Repr

/-- Package a computed new value as a mutation of the object whose old value is `x`. -/
def Mut.ofRes (x : Int) : Res Int → Mut
  | .ok v => ⟨.ok (), v⟩
  | .ub u => ⟨.ub u, x⟩
  | .throw e => ⟨.throw e, x⟩

/-- `divide_by(integral)`. `fixed.hpp:628-635`. -/
def divideByInt (U : IntTy) (x n : Int) : Mut :=
  if n = 0 then ⟨.throw .divideByZero, x⟩
  else Mut.ofRes x (do
    let K := IntTy.common F.T U
    let q ← cdiv K (K.wrap x) (K.wrap n)
    pure (F.T.wrap q))

/-- `divide_by(fixed)`. `fixed.hpp:637-652`. -/
def divideBy (x y : Int) : Mut :=
  if y = 0 then ⟨.throw .divideByZero, x⟩
  else Mut.ofRes x (
    if F.r then do
      let n ← shl F.I x F.f
      let d ← arith F.I.promote (n * 2)
      let v ← cdiv F.C d y
      let m ← cmod F.C v 2
      let s ← arith F.C (v + m)
      pure (F.T.wrap s)
    else do
      let n ← shl F.I x F.f
      let q ← cdiv F.C n y
      pure (F.T.wrap q))

/-! ### Comparison and hashing -/

/-- `operator==` (defaulted, member-wise). `fixed.hpp:444`. -/
def eq (x y : Int) : Bool := decide (x = y)
/-- `operator<=>`: `m_value <=> rhs.m_value`. `fixed.hpp:446-449`. -/
def cmp (x y : Int) : Ordering := compare x y
/-- `x < y` as rewritten through `<=>`. -/
def lt (x y : Int) : Bool := cmp x y == .lt
/-- `x <= y` as rewritten through `<=>`. -/
def le (x y : Int) : Bool := cmp x y != .gt
/-- `x > y` as rewritten through `<=>`. -/
def gt (x y : Int) : Bool := cmp x y == .gt
/-- `x >= y` as rewritten through `<=>`. -/
def ge (x y : Int) : Bool := cmp x y != .lt

/-- `fixed_hash`: `std::hash<value_type>()(internal_value())`, with `std::hash<value_type>` a parameter. `fixed.hpp:1100-1108`. -/
def fixedHash (stdHash : Int → Nat) (x : Int) : Nat := stdHash x

/-- `nearly_eq`. `fixed.hpp:453-457`. -/
def nearlyEq (x y : Int) : Res Bool := do
  let d ← arith F.P (x - y)
  let e ← epsilon F
  let ne ← arith F.P (-e)
  pure (decide (d ≥ ne ∧ d ≤ e))

/-- `nearly_ne`. `fixed.hpp:459-463`. -/
def nearlyNe (x y : Int) : Res Bool := do
  let d ← arith F.P (x - y)
  let e ← epsilon F
  let ne ← arith F.P (-e)
  pure (decide (d < ne ∨ d > e))

/-- `nearly_gt`. `fixed.hpp:465-469`. -/
def nearlyGt (x y : Int) : Res Bool := do
  let d ← arith F.P (x - y)
  let e ← epsilon F
  pure (decide (d > e))

/-- `nearly_lt`. `fixed.hpp:471-475`. -/
def nearlyLt (x y : Int) : Res Bool := do
  let d ← arith F.P (x - y)
  let e ← epsilon F
  let ne ← arith F.P (-e)
  pure (decide (d < ne))

/-- `nearly_gt_eq`. `fixed.hpp:477-480`. -/
def nearlyGtEq (x y : Int) : Res Bool := do
  let b ← nearlyLt F x y
  pure (!b)

/-- `nearly_lt_eq`. `fixed.hpp:482-485`. -/
def nearlyLtEq (x y : Int) : Res Bool := do
  let b ← nearlyGt F x y
  pure (!b)

/-! ### Parts and bits -/

/-- `signbit_mask()`. `fixed.hpp:244-247`. -/
def signbitMask : Int := F.T.wrap (F.P.wrap (2 ^ (F.T.bits - 1)))

/-- `signbit(fp)`: bit test for signed storage, `false` for unsigned. `fixed.hpp:249-255`. -/
def signbit (x : Int) : Bool :=
  if F.T.signed then decide (band F.P x (signbitMask F) ≠ 0) else false

/-- `raw_integral_part()`: clear the sign bit, shift right. `fixed.hpp:257-263`. -/
def rawIntegralPart (x : Int) : Res Int := do
  let m := F.T.wrap (band F.P x (cnot F.T (signbitMask F)))
  let s ← shr F.T m F.f
  pure (F.T.wrap s)

/-- `integral_part()`. `fixed.hpp:265-276`. -/
def integralPart (x : Int) : Res Int := do
  let result ←
    if signbit F x then do
      let r0 := F.T.wrap (cnot F.T x)
      let s ← arith F.P (r0 + oneShl F)
      pure (F.T.wrap s)
    else pure x
  let s ← shr F.T result F.f
  pure (F.T.wrap s)

/-- `fractional_part()`: `m_value % (static_cast<Type>(1) << fraction)`. `fixed.hpp:278-281`. -/
def fractionalPart (x : Int) : Res Int := do
  let m ← cmod F.P x (oneShl F)
  pure (F.T.wrap m)

/-- `numeric_limits<fixed_num>::min()` (= `lowest()`). `fixed.hpp:1167-1178, 1193-1196`; `min_value`, `math.hpp:25-29`. -/
def limMin : Int := fromInternal F F.T.lo
/-- `numeric_limits<fixed_num>::max()`. `fixed.hpp:1180-1191`; `max_value`, `math.hpp:19-23`. -/
def limMax : Int := fromInternal F F.T.hi

/-! ### The other members of `numeric_limits<fixed_num>` -/

/-- `is_signed`. `fixed.hpp:1119`. -/
def limIsSigned (_F : FxTy) : Bool := true
/-- `radix = fixed_type(2)`. `fixed.hpp:1126`. -/
def limRadix : Int := ofInt F 2
/-- `digits = fixed_type(sizeof(T) * 8 - 1)`, the argument being a `size_t`. `fixed.hpp:1128`. -/
def limDigits : Int := ofInt F (F.T.bits - 1)
/-- `digits10 = fixed_type(static_cast<T>((sizeof(T) * 8 - 1) * 643L / 2136))`; the product is formed in `unsigned long`
(in `unsigned long long` or `long` on other data models; it is below `2^31` in each). `fixed.hpp:1133`. -/
def limDigits10 : Int := ofInt F (F.T.wrap (((F.T.bits - 1) * 643 / 2136 : Nat) : Int))
/-- `round_style`, the three values of `std::float_round_style` relevant here. `fixed.hpp:1146`. -/
inductive RoundStyle where
  | towardZero
  | toNearest
  | towardNegInfinity
  deriving DecidableEq, Repr
def limRoundStyle (_F : FxTy) : RoundStyle := .towardZero
/-- `epsilon()`. `fixed.hpp:1160`. -/
def limEpsilon : Res Int := epsilon F
/-- `round_error()`. `fixed.hpp:1161`. -/
def limRoundError : Int := ofInt F 0
/-- `denorm_min()`. `fixed.hpp:1165`. -/
def limDenormMin : Int := ofInt F 0

end Eirin
