import Verif.Model.Parse
import Verif.Model.Numbers

/-!
# CORDIC sine, function by function

Transcription of `/repo/include/eirin/ext/cordic.hpp`.  The constants are decimal strings parsed by `fixed_from_cstring`; the model
parses the same strings with the model of that parser.
-/

namespace Eirin

variable (F : FxTy)

/-- `cordic_k` / `K`: the first 22 characters of `"0.6072529350088812561694"` parsed by `fixed_from_cstring`.  The object `val` is
default-constructed before (its old value is irrelevant because parsing succeeds; `0` here). `cordic.hpp:13-22`. -/
def cordicK : Res Int := do
  let (_, v) ← fixedFromCstring F "0.60725293500888125616".toList 0
  pure v

/-- `angle_strs`. `cordic.hpp:30-45`. -/
def cordicAngleStrs : List String :=
  ["0.785398163397448", "0.463647609000806", "0.244978663126864",
   "0.124354994546761", "0.062418809995957", "0.031239833430268",
   "0.015623728620477", "0.007812341060101", "0.003906230131967",
   "0.001953122516479", "0.000976562189559", "0.000488281211195",
   "0.000244140620149", "0.000122070311894", "0.000061035156174",
   "0.000030517578116", "0.000015258789061", "0.000007629394531",
   "0.000003814697266", "0.000001907348633", "0.000000953674316",
   "0.000000476837158", "0.000000238418579", "0.000000119209290",
   "0.000000059604645", "0.000000029802322", "0.000000014901161",
   "0.000000007450581", "0.000000003725290", "0.000000001862645",
   "0.000000000931323", "0.000000000465661", "0.000000000232831",
   "0.000000000116415", "0.000000000058208", "0.000000000029104",
   "0.000000000014552", "0.000000000007276", "0.000000000003638",
   "0.000000000001819", "0.000000000000909"]

/-- One table entry: `fixed_from_cstring(angle_strs[i], 22, arr[i])`.  The literals have 17 characters, so the read of at most 22
characters meets the terminating NUL (not a digit), which is appended here. `cordic.hpp:46-48`. -/
def cordicAngle (s : String) : Res Int := do
  let (_, v) ← fixedFromCstring F (s.toList ++ ['\x00']) 0
  pure v

/-- `List.mapM` for `Res`, spelled out so that it reduces. -/
def resMap {α β : Type} (g : α → Res β) : List α → Res (List β)
  | [] => .ok []
  | a :: as => do
    let b ← g a
    let bs ← resMap g as
    pure (b :: bs)

/-- `cordic_angels::generate_values` / `values`. `cordic.hpp:28-53`. -/
def cordicAngles : Res (List Int) := resMap (cordicAngle F) cordicAngleStrs

/-- `angel(index)`: `values[index]`; an index outside the array is out of bounds. `cordic.hpp:56-62`. -/
def angel (i : Nat) : Res Int := do
  let t ← cordicAngles F
  match t[i]? with
  | some a => .ok a
  | none => .ub .bounds

/-- `1 - 2 * b` for a `bool`. -/
def flipSign (b : Bool) : Int := 1 - 2 * (if b then 1 else 0)

/-- `cordic_optimize_angel(Q, sin_sign, cos_sign)`: returns the reduced angle, `sin_sign` and `cos_sign` afterwards.  The initial value of
`sin_sign` is overwritten. `cordic.hpp:74-104`. -/
def cordicOptimizeAngel (Q cosSign : Int) : Res (Int × Int × Int) := do
  let pi ← cPi F
  let doublePi ← intMul F i32 2 pi
  let halfPi ← divInt F i32 pi 2
  let sinSign : Int := if lt Q (ofInt F 0) then -1 else 1
  let absValue := band F.P Q (cnot F.T (signbitMask F))
  let Q := fromInternal F (F.T.wrap absValue)
  let Q ← remAssign F Q doublePi
  let inSecondHalf := gt Q pi
  let Q ← if inSecondHalf then sub F Q pi else pure Q
  let sinSign := i8.wrap (sinSign * flipSign inSecondHalf)
  let cosSign := i8.wrap (cosSign * flipSign inSecondHalf)
  let inSecondQuad := gt Q halfPi
  let Q ← if inSecondQuad then sub F pi Q else pure Q
  let cosSign := i8.wrap (cosSign * flipSign inSecondQuad)
  pure (Q, sinSign, cosSign)

/-- One pass of the loop body: `(x, y, q)` afterwards. `cordic.hpp:117-130`. -/
def cordicStep (Q : Int) (i : Nat) (x y q : Int) : Res (Int × Int × Int) :=
  if lt q Q then do
    let sy ← shr F.I y i
    let temp ← arith F.I.promote (x - sy)
    let sx ← shr F.I x i
    let y' ← arith F.I.promote (y + sx)
    let a ← angel F i
    let q' ← addAssign F q a
    pure (F.I.wrap temp, F.I.wrap y', q')
  else do
    let sy ← shr F.I y i
    let temp ← arith F.I.promote (x + sy)
    let sx ← shr F.I x i
    let y' ← arith F.I.promote (y - sx)
    let a ← angel F i
    let q' ← subAssign F q a
    pure (F.I.wrap temp, F.I.wrap y', q')

/-- The loop `for(i = 0; i < count; ++i)`; the first argument is the number of passes left. `cordic.hpp:115-131`. -/
def cordicLoop (Q : Int) : Nat → Nat → Int → Int → Int → Res (Int × Int × Int)
  | 0, _, x, y, q => .ok (x, y, q)
  | n + 1, i, x, y, q => do
    let (x, y, q) ← cordicStep F Q i x y q
    cordicLoop Q n (i + 1) x y q

/-- `cordic<T, I, f, r, count, sine>(Q)`. `cordic.hpp:106-140`. -/
def cordic (count : Nat) (sine : Bool) (Q : Int) : Res Int := do
  let (Q, sinSign, cosSign) ← cordicOptimizeAngel F Q 1
  let k ← cordicK F
  let (x, y, _) ← cordicLoop F Q count 0 (F.I.wrap k) 0 (ofInt F 0)
  if sine then do
    let v ← arith (IntTy.common F.T i8) (F.T.wrap y * sinSign)
    pure (fromInternal F (F.T.wrap v))
  else do
    let v ← arith (IntTy.common F.T i8) (F.T.wrap x * cosSign)
    pure (fromInternal F (F.T.wrap v))

/-- `cordic_sine` (both overloads: `fixed64` and `fixed32`). `cordic.hpp:142-152`. -/
def cordicSine (x : Int) : Res Int := cordic F 41 true x

end Eirin
