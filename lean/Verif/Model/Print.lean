import Verif.Model.Fixed

/-!
# Model of the text output of `fixed_num`: `copy_as_chars_to` and `operator<<`

Output iterators are modelled by the list of characters written so far.  The decrement of `iter` past `buffer.begin()` at the end of
the `while(iter-- != buffer.begin())` loops (`fixed.hpp:568, 574`), which forms an invalid pointer that is never dereferenced, is not
counted as undefined behaviour.
-/

namespace Eirin

/-- The digit tables `"0123456789ABCDEF"` and `"0123456789abcdef"`. `fixed.hpp:526`, `format.hpp:19-20`. -/
def digitTable (up : Bool) : List Char :=
  if up then ['0', '1', '2', '3', '4', '5', '6', '7', '8', '9', 'A', 'B', 'C', 'D', 'E', 'F']
  else ['0', '1', '2', '3', '4', '5', '6', '7', '8', '9', 'a', 'b', 'c', 'd', 'e', 'f']

/-- `digits[digit]`; the array has 17 elements (terminating NUL), other indices are out of bounds. `fixed.hpp:564, 596`; `format.hpp:162, 233, 269`. -/
def digitAt (up : Bool) (d : Int) : Res Char :=
  if d < 0 then .ub .bounds
  else if d = 16 then .ok (Char.ofNat 0)
  else match (digitTable up)[d.toNat]? with
    | some c => .ok c
    | none => .ub .bounds

variable (F : FxTy)

/-- The type of `int_part % base` etc.: `Type` combined with `int`. -/
abbrev FxTy.D (F : FxTy) : IntTy := IntTy.common F.T i32

/-- The integer-digit loop `while(int_part > 0)`. `buf` is the part of `buffer` in use, last written character first; `out` the
characters already emitted.  When the 514-character buffer is full it is written out (backwards) and reset.
`fixed.hpp:561-572`. -/
def printInt (up : Bool) (base : Int) : Nat → Int → List Char → List Char → Res (List Char × List Char)
  | 0, _, _, _ => .ub .diverges
  | fuel + 1, ip, buf, out =>
    if ip > 0 then do
      let d ← cmod F.D (F.D.wrap ip) base
      let c ← digitAt up d
      let q ← cdiv F.D (F.D.wrap ip) base
      if (c :: buf).length = 514 then printInt up base fuel (F.T.wrap q) [] (out ++ (c :: buf))
      else printInt up base fuel (F.T.wrap q) (c :: buf) out
    else .ok (buf, out)

/-- The fraction loop `for(i = 0; i < fraction; ++i)`. `fixed.hpp:580-598`. -/
def printFrac (up : Bool) (base : Int) : Nat → Int → Int → List Char → Res (List Char)
  | 0, _, _, out => .ok out
  | n + 1, value, divisor, out =>
    if value = 0 then .ok out
    else do
      let m ← cmod F.D (F.D.wrap divisor) base
      let (v, dv) ← (if m = 0 then do
          let dv ← cdiv F.D (F.D.wrap divisor) base
          pure (value, F.T.wrap dv)
        else do
          let v ← arith F.D (F.D.wrap value * base)
          pure (F.T.wrap v, divisor) : Res (Int × Int))
      let t ← cdiv F.P v dv
      let d ← cmod F.D (F.D.wrap t) base
      let c ← digitAt up d
      let v' ← cmod F.P v dv
      printFrac up base n (F.T.wrap v') dv (out ++ [c])

/-- The sign character and the magnitude: `(characters, int_part, value)`. `fixed.hpp:534-550`. -/
def printSign (x : Int) : Res (List Char × Int × Int) :=
  if x = signbitMask F then do
    let s ← shr F.T x F.f
    let i ← arith F.P (cnot F.P s + 1)
    pure (['-'], F.T.wrap i, 0)
  else if x < 0 then do
    let v ← arith F.P (-x)
    let s ← shr F.T (F.T.wrap v) F.f
    pure (['-'], F.T.wrap s, F.T.wrap v)
  else do
    let s ← shr F.T x F.f
    pure ([], F.T.wrap s, x)

/-- `copy_as_chars_to(val, out, base, uppercase)`: the characters written. `fixed.hpp:518-602`. -/
def copyAsChars (x base : Int) (up : Bool) : Res (List Char) := do
  let d0 ← shl F.T 1 F.f
  let divisor := F.T.wrap d0
  let (sgn, ip, v) ← printSign F x
  let v0 ← cmod F.P v divisor
  let value := F.T.wrap v0
  let (buf, out) ← if ip = 0 then pure ([], sgn ++ ['0']) else printInt F up base (F.T.bits + 1) ip [] sgn
  let out := out ++ buf
  if value ≠ 0 then printFrac F up base F.f value divisor (out ++ ['.'])
  else pure out

/-- The base chosen by `operator<<` from the stream flags. `fixed.hpp:658`. -/
def streamBase (hex dec oct : Bool) : Int := if hex then 16 else if dec then 10 else if oct then 8 else 2

/-- `operator<<`: the characters appended to the stream (the stream itself is assumed good). `fixed.hpp:654-663`. -/
def streamOut (x : Int) (hex dec oct up : Bool) : Res (List Char) := copyAsChars F x (streamBase hex dec oct) up

end Eirin
