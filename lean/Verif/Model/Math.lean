import Verif.Model.Numbers

/-! # Model of `/repo/include/eirin/math.hpp`

Functions take and return raw values (`m_value`).  `while` loops are modelled by structural recursion on a fuel argument;
running out of fuel is the outcome `.ub .diverges`, so "the loop terminates" is part of every theorem that states an
`ok` outcome. -/

namespace Eirin

variable (F : FxTy)

/-! ### Rounding functions -/

/-- `ceil`. `math.hpp:31-43`. -/
def ceil (x : Int) : Res Int := do
  let fm := oneShl F
  let v ← if x > 0 then do
      let m1 ← arith F.P (fm - 1)
      let s ← arith F.P (x + m1)
      pure (F.T.wrap s)
    else pure x
  if v < 0 then do
    let q ← cdiv F.P x fm
    let p ← arith F.P (q * fm)
    let a ← arith F.P (p + fm)
    let b ← arith F.P (a - 1)
    pure (fromInternal F b)
  else do
    let q ← cdiv F.P v fm
    let p ← arith F.P (q * fm)
    pure (fromInternal F p)

/-- `floor`. `math.hpp:45-58`. -/
def floor (x : Int) : Res Int := do
  let fm := oneShl F
  let v ← if x < 0 then do
      let m1 ← arith F.P (fm - 1)
      let s ← arith F.P (x - m1)
      pure (F.T.wrap s)
    else pure x
  if x < 0 ∧ v > 0 then do
    let q ← cdiv F.P x fm
    let p ← arith F.P (q * fm)
    let a ← arith F.P (p - fm)
    let b ← arith F.P (a + 1)
    pure (fromInternal F b)
  else do
    let q ← cdiv F.P v fm
    let p ← arith F.P (q * fm)
    pure (fromInternal F p)

/-- `trunc`. `math.hpp:60-66`. -/
def trunc (x : Int) : Res Int := do
  let fm := oneShl F
  let q ← cdiv F.P x fm
  let p ← arith F.P (q * fm)
  pure (fromInternal F p)

/-- `round`. `math.hpp:68-75`. -/
def round (x : Int) : Res Int := do
  let fm := oneShl F
  let h ← cdiv F.P fm 2
  let v ← cdiv F.P x h
  let a ← cdiv F.P v 2
  let b ← cmod F.P v 2
  let s ← arith F.P (a + b)
  let t ← shl F.P s F.f
  pure (fromInternal F t)

/-- `abs`. `math.hpp:77-83`. -/
def abs (x : Int) : Res Int := do
  let v ← if x < 0 then arith F.P (-x) else pure x
  pure (fromInternal F v)

/-- `min`. `math.hpp:85-91`. -/
def min (a b : Int) : Int := if a < b then a else b
/-- `max`. `math.hpp:93-99`. -/
def max (a b : Int) : Int := if a > b then a else b

/-! ### Square root -/

/-- One trial subtraction of the `int32_t` square root: `t = q + b; if(v >= t) { v -= t; q = t + b; }` on `uint64_t`s;
returns `(q, v)`. `math.hpp:126-131, 139-144, 152-157`. -/
def sqrtStep (q v b : Int) : Int × Int :=
  let t := u64.wrap (q + b)
  if v ≥ t then (u64.wrap (t + b), u64.wrap (v - t)) else (q, v)

/-- First loop: `while(b != 0x40)`, then `q >> 8`. `math.hpp:124-135`. -/
def sqrtLoopA : Nat → Int → Int → Int → Res Int
  | 0, _, _, _ => .ub .diverges
  | fuel + 1, q, v, b =>
    if b ≠ 0x40 then
      let s := sqrtStep q v b
      sqrtLoopA fuel s.1 (u64.wrap (s.2 * 2)) (b / 2)
    else .ok (q / 2 ^ 8)

/-- Inner loop of the second variant: `while(b > 0x20)`, then `q >> 7`. `math.hpp:150-161`. -/
def sqrtLoopC : Nat → Int → Int → Int → Res Int
  | 0, _, _, _ => .ub .diverges
  | fuel + 1, q, v, b =>
    if b > 0x20 then
      let s := sqrtStep q v b
      sqrtLoopC fuel s.1 (u64.wrap (s.2 * 2)) (b / 2)
    else .ok (q / 2 ^ 7)

/-- Second variant: `while(b > 0x40)` with the switch to the inner loop when bit 31 of `v` is set, then `q >> 8`.
`math.hpp:137-166`. -/
def sqrtLoopB : Nat → Int → Int → Int → Res Int
  | 0, _, _, _ => .ub .diverges
  | fuel + 1, q, v, b =>
    if b > 0x40 then
      let s := sqrtStep q v b
      if band u64 s.2 0x80000000 ≠ 0 then
        sqrtLoopC 32 (s.1 / 2) (s.2 / 2) (b / 2)
      else sqrtLoopB fuel s.1 (u64.wrap (s.2 * 2)) (b / 2)
    else .ok (q / 2 ^ 8)

/-- The `int32_t` branch of `sqrt`. `math.hpp:107-167`. -/
def sqrtBits (x : Int) : Res Int := do
  let v0 ← if F.f > 16 then shr F.T x (F.f - 16) else shl F.T x (16 - F.f)
  let v := u64.wrap v0
  let q ← if v < 0x40000200 then sqrtLoopA 32 0 v 0x40000000 else sqrtLoopB 32 0 v 0x40000000
  pure (fromInternal F (F.T.wrap q))

/-- `detail::find_msb` for a positive value: number of right shifts until zero, minus one. `fixed.hpp:63-81`. -/
def findMsbLoop : Nat → Int → Int → Int
  | 0, _, bits => bits
  | fuel + 1, v, bits => if v / 2 = 0 then bits else findMsbLoop fuel (v / 2) (bits + 1)

/-- `detail::find_msb`. `fixed.hpp:63-81`: `-1` for zero, otherwise the index of the top bit of `|value|`
(negation may overflow for the minimum). -/
def findMsb (t : IntTy) (v : Int) : Res Int :=
  if v = 0 then .ok (-1)
  else do
    let a ← if v < 0 then arith t.promote (-v) else pure v
    pure (findMsbLoop t.bits ((⟨t.bits, false⟩ : IntTy).wrap a) 0)

/-- `sqrt_init_value<T, F, E>::value()`. `fixed.hpp:36-49`.  The shifts wrap modularly as in C++20. -/
def sqrtInitValue (E : Nat) : Int :=
  let base := F.T.wrap (F.P.wrap (2 ^ (E / 2)))
  let value := if E % 2 ≠ 0 then F.T.wrap (base + base / 2) else base
  F.T.wrap (F.P.wrap (value * 2 ^ (F.f / 2 + F.f % 2)))

/-- `get_sqrt_init_value(exponent)`: the exponent is clamped to `[0, bits-1]`. `fixed.hpp:508-516`.
`base | (base >> 1)` equals `base + base/2` because `base` is a power of two. -/
def getSqrtInitValue (e : Int) : Int :=
  sqrtInitValue F (Min.min (Max.max e 0) (F.T.bits - 1)).toNat

/-- The Newton iteration of the generic branch: `for(int i = 0; i < 5; ++i)` with early exit. `math.hpp:180-187`. -/
def sqrtNewton (fp eps : Int) : Nat → Int → Res Int
  | 0, x => .ok x
  | n + 1, x => do
    let q ← div F fp x
    let s ← add F x q
    let x' ← divInt F i32 s 2
    let sq ← mul F x' x'
    let d ← sub F fp sq
    let a ← abs F d
    if lt a eps then .ok x' else sqrtNewton fp eps n x'

/-- `sqrt`. `math.hpp:101-189`. -/
def sqrt (x : Int) : Res Int :=
  if F.T = i32 then sqrtBits F x
  else if lt x (ofInt F 0) then .ok (ofInt F (-1))
  else if eq x (ofInt F 0) then .ok (ofInt F 0)
  else do
    let e ← findMsb F.T x
    let eps ← epsilon F
    sqrtNewton F x eps 5 (fromInternal F (getSqrtInitValue F e))

/-! ### Trigonometry -/

/-- The double literal `0.00015` (exact value of the IEEE double). `math.hpp:225`. -/
def lit00015 : ℚ := 5534023222112865 / 36893488147419103232

/-- The coefficients `a, b, c, d` of `sin`: `pi * pi / k`. `math.hpp:236-239`. -/
def sinCoeff (pi : Int) (k : Int) : Res Int := do
  let p ← mul F pi pi
  divInt F i32 p k

/-- The polynomial of `sin` on the reduced argument. `math.hpp:235-240`. -/
def sinPoly (pi x : Int) : Res Int := do
  let fp1 := ofInt F 1
  let x2 ← mul F x x
  let a ← sinCoeff F pi 24
  let b ← sinCoeff F pi 80
  let c ← sinCoeff F pi 168
  let d ← sinCoeff F pi 288
  let t4 ← mul F d x2
  let u4 ← sub F fp1 t4
  let t3a ← mul F c x2
  let t3 ← mul F t3a u4
  let u3 ← sub F fp1 t3
  let t2a ← mul F b x2
  let t2 ← mul F t2a u3
  let u2 ← sub F fp1 t2
  let t1a ← mul F a x2
  let t1 ← mul F t1a u2
  let u1 ← sub F fp1 t1
  let cpi ← cPi F
  let px ← mul F cpi x
  let r ← mul F px u1
  divInt F i32 r 2

/-- Range reduction of `sin` to quarter turns in `[0, 2]` with a sign flag: `math.hpp:206-220`. -/
def sinReduce (fp : Int) : Res (Int × Bool) := do
  let dp ← cDoublePi F
  let x0 ← remAssign F fp dp
  let p2 ← cPi2 F
  let x1 ← divAssign F x0 p2
  let x2 ← if lt x1 (ofInt F 0) then addAssign F x1 (ofInt F 4) else pure x1
  if gt x2 (ofInt F 2) then do
    let x3 ← subAssign F x2 (ofInt F 2)
    pure (x3, true)
  else pure (x2, false)

/-- `sin` with template argument `pi`. `math.hpp:202-242`. -/
def sinWith (pi fp : Int) : Res Int := do
  let (x, negative) ← sinReduce F fp
  let th ← ofFloat F lit00015
  let a ← abs F fp
  if lt a th then
    if negative then neg F fp else pure fp
  else do
    let x' ← if gt x (ofInt F 1) then sub F (ofInt F 2) x else pure x
    let res ← sinPoly F pi x'
    if negative then neg F res else pure res

/-- `sin` with the default `pi`. `math.hpp:202`. -/
def sin (fp : Int) : Res Int := do
  let pi ← cPi F
  sinWith F pi fp

/-- `cos` (default `pi`). `math.hpp:255-262`. -/
def cos (fp : Int) : Res Int := do
  let pi ← cPi F
  let pi2 ← div F pi (ofInt F 2)
  let dpi ← mul F pi (ofInt F 2)
  let arg ← if fp > 0 then do
      let s ← sub F dpi pi2
      sub F fp s
    else add F fp pi2
  sin F arg

/-- `tan`. `math.hpp:264-272`. -/
def tan (fp : Int) : Res Int := do
  let c ← cos F fp
  let a ← abs F c
  if a > 1 then do
    let s ← sin F fp
    div F s c
  else .throw .domainError

/-- `atan`. `math.hpp:287-302`. -/
def atan (fp : Int) : Res Int := do
  let a0 ← fromFixedNumValue F i64 61 0x17CE62CE264A340
  let a ← intMul F i32 (-1) a0
  let b ← fromFixedNumValue F i64 61 0x5191A2296020A80
  let c ← fromFixedNumValue F i64 61 0xA7BE2BC19C39800
  let x ← abs F fp
  let x2 ← mul F x x
  let p1 ← mul F a x2
  let p2 ← add F p1 b
  let p3 ← mul F p2 x2
  let p4 ← sub F p3 c
  let p5 ← mul F p4 x2
  let p6 ← mul F p5 x
  let result ← add F p6 x
  if band F.P (signbitMask F) fp ≠ 0 then neg F result else pure result

/-- `asin` (default `pi`). `math.hpp:323-334`. -/
def asin (fp : Int) : Res Int := do
  let pi ← cPi F
  let a ← abs F fp
  if gt a (ofInt F 1) then .throw .domainError
  else if eq fp (ofInt F 1) then div F pi (ofInt F 2)
  else if eq fp (ofInt F (-1)) then do
    let np ← neg F pi
    div F np (ofInt F 2)
  else do
    let sq ← mul F fp fp
    let d ← sub F (ofInt F 1) sq
    let s ← sqrt F d
    let q ← div F fp s
    atan F q

/-- `acos` (default `pi`). `math.hpp:336-349`. -/
def acos (fp : Int) : Res Int := do
  let pi ← cPi F
  let a ← abs F fp
  if gt a (ofInt F 1) then .throw .domainError
  else if eq fp (ofInt F 1) then pure (ofInt F 0)
  else if eq fp (ofInt F (-1)) then pure pi
  else if eq fp (ofInt F 0) then div F pi (ofInt F 2)
  else do
    let h ← divInt F i32 pi 2
    let s ← asin F fp
    sub F h s

/-! ### Cube root -/

/-- Loop of `cbrt`: `while(abs(fp - (x*x*x)) >= precision && iter_count <= iter_max)`; the fuel counts the remaining
iterations (`iter_max + 1` in total), so fuel `0` is the normal exit. `math.hpp:374-379`. -/
def cbrtLoop (fp prec : Int) : Nat → Int → Res Int
  | fuel, x => do
    let x2 ← mul F x x
    let x3 ← mul F x2 x
    let d ← sub F fp x3
    let a ← abs F d
    if ge a prec then
      match fuel with
      | 0 => pure x
      | fuel + 1 => do
        let y2 ← mul F x x
        let q ← div F fp y2
        let t ← mulInt F i32 x 2
        let s ← add F q t
        let x' ← divInt F i32 s 3
        cbrtLoop fp prec fuel x'
    else pure x

/-- `cbrt` with the default `iter_max = 200`. `math.hpp:364-380`. -/
def cbrt (fp : Int) : Res Int := do
  let a ← abs F fp
  let eps ← epsilon F
  if lt a eps then pure (ofInt F 0)
  else do
    let s ← addInt F fp 2
    let x ← divInt F i32 s 3
    let prec ← mulInt F i32 eps 2
    cbrtLoop F fp prec 201 x

/-! ### Logarithms -/

/-- First loop of `log2`: `while(x < (T(1u) << f)) { x <<= 1; y -= T(1u) << f; }`. `math.hpp:423-427`. -/
def log2Up : Nat → Int → Int → Res (Int × Int)
  | 0, _, _ => .ub .diverges
  | fuel + 1, x, y =>
    if x < oneShl F then do
      let x1 ← shl F.T x 1
      let y1 ← arith F.P (y - oneShl F)
      log2Up fuel (F.T.wrap x1) (F.T.wrap y1)
    else .ok (x, y)

/-- `static_cast<T>(2u) << f`. `math.hpp:429, 439`. -/
def twoShl : Int := F.P.wrap (F.T.wrap 2 * 2 ^ F.f)

/-- Second loop: `while(x >= (T(2u) << f)) { x >>= 1; y += T(1u) << f; }`. `math.hpp:429-433`. -/
def log2Down : Nat → Int → Int → Res (Int × Int)
  | 0, _, _ => .ub .diverges
  | fuel + 1, x, y =>
    if x ≥ twoShl F then do
      let y1 ← arith F.P (y + oneShl F)
      log2Down fuel (F.T.wrap (x / 2)) (F.T.wrap y1)
    else .ok (x, y)

/-- Third loop: repeated squaring, one output bit per iteration. `math.hpp:436-445`.
The comparison `z >= (T(2u) << f)` is value preserving (same signedness, `I` wider). -/
def log2Frac : Nat → Int → Int → Int → Res Int
  | 0, _, y, _ => .ok y
  | n + 1, z, y, b => do
    let sq ← arith F.I.promote (z * z)
    let z1 ← shr F.I sq F.f
    let z2 := F.I.wrap z1
    if z2 ≥ twoShl F then do
      let y1 ← arith F.P (y + b)
      log2Frac n (z2 / 2) (F.T.wrap y1) (b / 2)
    else log2Frac n z2 y (b / 2)

/-- `log2`. `math.hpp:392-448`. -/
def log2 (fp : Int) : Res Int := do
  let b0 ← shl u32 1 (F.f - 1)
  let b := F.T.wrap b0
  if le fp (ofInt F 0) then .throw .domainError
  else do
    let (x1, y1) ← log2Up F (F.T.bits + 1) fp 0
    let (x2, y2) ← log2Down F (F.T.bits + 1) x1 y1
    let y ← log2Frac F F.f x2 y2 b
    pure (fromInternal F y)

/-- `log` (natural), default `log2_e`. `math.hpp:461-465`. -/
def log (fp : Int) : Res Int := do
  let c ← fromFixedNumValue F i64 60 0x171547652B82FE00
  let l ← log2 F fp
  div F l c

/-- `log10`, default `log2_10`. `math.hpp:478-482`. -/
def log10 (fp : Int) : Res Int := do
  let c ← fromFixedNumValue F i64 60 0x35269E12F346E200
  let l ← log2 F fp
  div F l c

/-! ### Powers and exponentials -/

/-- Loop of integer `pow`, negative exponent: `for(auto i = b; e != 0; e /= 2, i *= i) if(e % 2 != 0) res /= i;`.
`math.hpp:498-502`. -/
def powNegLoop : Nat → Int → Int → Int → Res Int
  | 0, _, _, _ => .ub .diverges
  | fuel + 1, e, i, res =>
    if e ≠ 0 then do
      let res' ← if Int.tmod e 2 ≠ 0 then divAssign F res i else pure res
      let i' ← mulAssign F i i
      powNegLoop fuel (Int.tdiv e 2) i' res'
    else .ok res

/-- Loop of integer `pow`, non-negative exponent. `math.hpp:506-510`. -/
def powPosLoop : Nat → Int → Int → Int → Res Int
  | 0, _, _, _ => .ub .diverges
  | fuel + 1, e, i, res =>
    if e ≠ 0 then do
      let res' ← if Int.tmod e 2 ≠ 0 then mulAssign F res i else pure res
      let i' ← mulAssign F i i
      powPosLoop fuel (Int.tdiv e 2) i' res'
    else .ok res

/-- `pow(fixed, integral)`; `e` is a value of the exponent type, at most 64 bits wide. `math.hpp:484-513`.
The exponent type only matters through the range of `e`; the fuel exceeds the number of halvings of a 64-bit value. -/
def powInt (b e : Int) : Res Int :=
  if eq b (ofInt F 0) then
    if e = 0 then .ok (ofInt F 1) else .ok (ofInt F 0)
  else if e < 0 then powNegLoop F 66 e b (ofInt F 1)
  else powPosLoop F 66 e b (ofInt F 1)

/-- `detail::exp_expand`. `math.hpp:517-532`. -/
def expExpand (fp0 : Int) : Res Int := do
  let n ← integralPart F fp0
  let fp ← subIntAssign F fp0 n
  let a ← fromFixedNumValue F i64 63 0x01C798ECC0CBC856
  let b ← fromFixedNumValue F i64 63 0x04745859810836DA
  let c ← fromFixedNumValue F i64 63 0x15CFBB5C306F85F3
  let d ← fromFixedNumValue F i64 63 0x3FE26186C531F98E
  let e ← fromFixedNumValue F i64 63 0x40014D4407008BB0
  let f ← fromFixedNumValue F i64 63 0x7FFFF686446F1B43
  let eV ← cE F
  let p ← powInt F eV n
  let m1 ← mul F fp a
  let s1 ← add F b m1
  let m2 ← mul F fp s1
  let s2 ← add F c m2
  let m3 ← mul F fp s2
  let s3 ← add F d m3
  let m4 ← mul F fp s3
  let s4 ← add F e m4
  let m5 ← mul F fp s4
  let s5 ← add F f m5
  mul F p s5

/-- `exp`. `math.hpp:535-545`. -/
def exp (fp : Int) : Res Int :=
  if eq fp (ofInt F 0) then .ok (ofInt F 1)
  else if lt fp (ofInt F 0) then do
    let n ← neg F fp
    let x ← expExpand F n
    div F (ofInt F 1) x
  else expExpand F fp

/-- The body of `pow(fixed, fixed)`. `math.hpp:552-564`. -/
def powFixedBody (b e : Int) : Res Int :=
  if eq b (ofInt F 0) then
    if eq e (ofInt F 0) then .ok (ofInt F 1) else .ok (ofInt F 0)
  else do
    let q ← cdiv F.C e (fractionMultiplier F)
    let n := F.T.wrap q
    let e' ← subIntAssign F e n
    let p ← powInt F b n
    let l ← log F b
    let m ← mul F e' l
    let x ← exp F m
    mul F p x

/-- `pow(fixed, fixed)`, declared `noexcept`.  (The other functions of the library that are declared `noexcept` call nothing that throws.)
`math.hpp:549-565`. -/
def powFixed (b e : Int) : Res Int := nothrow (powFixedBody F b e)

/-! ### Remaining functions -/

/-- `fmod`. `math.hpp:567-571`. -/
def fmod (a b : Int) : Res Int := do
  let q ← div F a b
  let fl ← floor F q
  let p ← mul F b fl
  sub F a p

/-- `modf`: returns `(result, int_part)`. `math.hpp:573-578`. -/
def modf (x : Int) : Res (Int × Int) := do
  let ip ← floor F x
  let r ← sub F x ip
  pure (r, ip)

/-- `degrees` (default `pi`). `math.hpp:591-598`. -/
def degrees (rad : Int) : Res Int := do
  let pi ← cPi F
  let q ← div F rad pi
  mul F q (ofInt F 180)

/-- `radians` (default `pi`). `math.hpp:611-618`. -/
def radians (deg : Int) : Res Int := do
  let pi ← cPi F
  let q ← div F deg (ofInt F 180)
  mul F q pi

/-- `hypot(x, y)`. `math.hpp:620-624`. -/
def hypot (x y : Int) : Res Int := do
  let xx ← mul F x x
  let yy ← mul F y y
  let s ← add F xx yy
  sqrt F s

/-- `hypot(x, y, z)`. `math.hpp:625-629`. -/
def hypot3 (x y z : Int) : Res Int := do
  let xx ← mul F x x
  let yy ← mul F y y
  let s ← add F xx yy
  let zz ← mul F z z
  let t ← add F s zz
  sqrt F t

end Eirin
