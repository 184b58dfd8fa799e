import Verif.Model.Numbers
import Mathlib.Data.Rat.Floor

/-! # Model of `/repo/include/eirin/detail/util.hpp`

`double` values are rationals; `rnd : ℚ → ℚ` stands for the rounding of an exact result to a `double` and is a parameter.
`print_constants` is in `Model/Float.lean`. -/

namespace Eirin

/-- `a | b` for two values of type `t`. -/
def bor (t : IntTy) (a b : Int) : Int :=
  t.wrap ((BitVec.ofInt t.bits a ||| BitVec.ofInt t.bits b).toNat)

/-! ### `eval_value` -/

/-- `fraction_bit_value<N>::value`: `0.5`, then halves. `util.hpp:15-25`. -/
def bitValue (rnd : ℚ → ℚ) : Nat → ℚ
  | 0 => 1 / 2
  | n + 1 => rnd (bitValue rnd n / 2)

/-- The loop of `eval_value`: `s` iterations left, loop variable `i`. `util.hpp:62-71`. The table `fraction_bits<sizeof(I) * 8>()`
(`util.hpp:27-38`) has `I.bits` entries. -/
def evalLoop (rnd : ℚ → ℚ) (I : IntTy) (fraction : Nat) : Nat → Nat → Int → ℚ → Res Int
  | 0, _, res, _ => .ok res
  | s + 1, i, res, fr => do
    let cur ← if i - 1 < I.bits then .ok (bitValue rnd (i - 1)) else .ub .bounds
    if fr ≥ cur then do
      let b ← shl i64 1 (fraction - i)
      evalLoop rnd I fraction s (i + 1) (I.wrap (bor (IntTy.common I i64) res b)) (rnd (fr - cur))
    else evalLoop rnd I fraction s (i + 1) res fr

/-- `eval_value<I>(val, fraction)`. `util.hpp:55-73`. Simplification: `fraction` is non-negative (a negative one is an invalid shift). -/
def evalValue (rnd : ℚ → ℚ) (I : IntTy) (v : ℚ) (fraction : Nat) : Res Int := do
  let ip ← floatToInt I v
  let res ← evalLoop rnd I fraction fraction 1 0 (rnd (v - rnd (ip : ℚ)))
  let sh ← shl I ip fraction
  let s ← arith I.promote (res + sh)
  pure (I.wrap s)

/-! ### `bbp_calc_pi` -/

/-- The inner loop: `n` times `factor /= 16` in the intermediate type. `util.hpp:178-180`. -/
def bbpFactor : Nat → Int → Res Int
  | 0, x => .ok x
  | n + 1, x => do
    let y ← cdiv i128 x 16
    bbpFactor n y

/-- One iteration of the outer loop for `T = int64_t`, `intermediate_t = int128_t`. `util.hpp:177-188`. -/
def bbpTerm (fracMult : Int) (k : Int) (sum : Int) : Res Int := do
  let n ← arith i32 (4 * k)
  let factor ← bbpFactor n.toNat fracMult
  let k8 ← arith i32 (8 * k)
  let d1 ← arith i32 (k8 + 1)
  let f4 ← arith i128 (4 * factor)
  let t1 ← cdiv i128 f4 d1
  let d2 ← arith i32 (k8 + 4)
  let f2 ← arith i128 (2 * factor)
  let t2 ← cdiv i128 f2 d2
  let d3 ← arith i32 (k8 + 5)
  let f3 ← arith i128 (1 * factor)
  let t3 ← cdiv i128 f3 d3
  let d4 ← arith i32 (k8 + 6)
  let f1 ← arith i128 (1 * factor)
  let t4 ← cdiv i128 f1 d4
  let a ← arith i128 (t1 - t2)
  let b ← arith i128 (a - t3)
  let c ← arith i128 (b - t4)
  arith i128 (sum + c)

/-- The outer loop with `s` iterations left. `util.hpp:175-189`. -/
def bbpLoop (fracMult : Int) : Nat → Int → Int → Res Int
  | 0, _, sum => .ok sum
  | s + 1, k, sum => do
    let sum ← bbpTerm fracMult k sum
    bbpLoop fracMult s (k + 1) sum

/-- `bbp_calc_pi<int64_t, fraction, N>()`. `util.hpp:158-191`. -/
def bbpCalcPi (fraction N : Nat) : Res Int := do
  let m ← shl i128 1 fraction
  let sum ← bbpLoop m N 0 0
  pure (i64.wrap sum)

/-! ### Lookup tables -/

/-- The entries `i, …, N - 1` of `angels_lut` (`s` of them left). `util.hpp:202-205`. -/
def lutLoop (step : Int) : Nat → Nat → Res (List Int)
  | 0, _ => .ok []
  | s + 1, i => do
    let e ← mul fixed64 step (ofInt fixed64 i)
    let rest ← lutLoop step s (i + 1)
    pure (e :: rest)

/-- `angels_lut<N>()`. `util.hpp:196-207`. (`step` is a `constexpr` variable: a division by zero is rejected by the compiler; here it is
the outcome of the division.) -/
def angelsLut (N : Nat) : Res (List Int) := do
  let pi ← cPi fixed64
  let step ← div fixed64 pi (ofInt fixed64 N)
  lutLoop step N 0

/-- The loop of `func_ptr_lut`. `util.hpp:214-217`. -/
def funcLutLoop (func : Int → Res Int) (step : Int) : Nat → Nat → Res (List Int)
  | 0, _ => .ok []
  | s + 1, i => do
    let a ← mul fixed64 step (ofInt fixed64 i)
    let e ← func a
    let rest ← funcLutLoop func step s (i + 1)
    pure (e :: rest)

/-- `func_ptr_lut<N>(func)`. `util.hpp:209-219`. -/
def funcPtrLut (func : Int → Res Int) (N : Nat) : Res (List Int) := do
  let pi ← cPi fixed64
  let step ← div fixed64 pi (ofInt fixed64 N)
  funcLutLoop func step N 0

/-- `lut::__sin`: `fixed64(std::sin((double)x))`, with `std::sin` on doubles a parameter. `util.hpp:221-225`. -/
def lutSin (stdSin : ℚ → ℚ) (x : Int) : Res Int := do
  let d ← toFloat fixed64 x
  ofFloat fixed64 (stdSin d)

/-- `lut[idx]` of a `std::array` (no bounds check). -/
def lutGet (l : List Int) (i : Int) : Res Int :=
  if 0 ≤ i then match l[i.toNat]? with
    | some v => .ok v
    | none => .ub .bounds
  else .ub .bounds

/-- The linear interpolation of `lut_calc_sin<N>` at the reduced angle `xm`. `util.hpp:242-246`. -/
def lutAt (N : Nat) (lut : List Int) (pi xm : Int) : Res Int := do
  let st ← div fixed64 pi (ofInt fixed64 (N - 1))
  let pos ← div fixed64 xm st
  let ip ← integralPart fixed64 pos
  let m := i64.wrap (N - 2)
  let idx := if m < ip then m else ip
  let frac ← sub fixed64 pos (ofInt fixed64 idx)
  let a ← lutGet lut idx
  let w ← intSub fixed64 1 frac
  let l ← mul fixed64 a w
  let b ← lutGet lut (idx + 1)
  let r ← mul fixed64 b frac
  add fixed64 l r

/-- `lut_calc_sin<N>(x)` after the table has been built. `util.hpp:231-247`. `2_f64` is the value 2. -/
def lutInterp (N : Nat) (lut : List Int) (x : Int) : Res Int := do
  let pi ← cPi fixed64
  let twoPi ← mul fixed64 pi (2 ^ 33)
  let q ← div fixed64 x twoPi
  let n ← integralPart fixed64 q
  let t ← mulInt fixed64 i64 twoPi n
  let xm ← sub fixed64 x t
  if ge xm pi then do
    let y ← subAssign fixed64 xm pi
    let result ← lutAt N lut pi y
    neg fixed64 result
  else lutAt N lut pi xm

/-- `lut_calc_sin<N>(x)`. `util.hpp:227-248`. (The table is a function-local static: built on the first call, the same afterwards.) -/
def lutCalcSin (stdSin : ℚ → ℚ) (N : Nat) (x : Int) : Res Int := do
  let lut ← funcPtrLut (lutSin stdSin) N
  lutInterp N lut x

end Eirin
