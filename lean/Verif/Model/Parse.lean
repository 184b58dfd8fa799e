import Verif.Model.Fixed

/-!
# Model of the text input of `fixed_num`

`detail::parse` (behind the `""_f32` / `""_f64` literals), `f32_from_cstring`, `fixed_from_cstring`, `operator>>` and `io::parse`.
A character range is a `List Char`; only the characters `-`, `.` and `0`–`9` are distinguished.  Each function returns the verdict
and the value of the output object afterwards (`old` is its value before the call).
-/

namespace Eirin

/-- `'0' <= ch && ch <= '9'`. `fixed.hpp:689-693, 900-904, 980-984`, `parse.hpp:43-46`. -/
def isDigit (c : Char) : Bool := decide (48 ≤ c.toNat ∧ c.toNat ≤ 57)

/-- `ch - '0'`, an `int`. -/
def digitVal (c : Char) : Int := (c.toNat : Int) - 48

/-- `acc = acc * 10 + (ch - '0')` with `acc : W`. `fixed.hpp:712, 731, 920, 940, 998, 1012, 1068, 1081`, `parse.hpp:56, 75`. -/
def accDigit (W : IntTy) (acc : Int) (c : Char) : Res Int := do
  let p ← arith (W.common i32) (acc * 10)
  let s ← arith (W.common i32) (p + digitVal c)
  pure (W.wrap s)

/-- `divisor *= 10` with `divisor : W`. `fixed.hpp:732, 941, 1013, 1082`, `parse.hpp:76`. -/
def mulTen (W : IntTy) (d : Int) : Res Int := do
  let p ← arith (W.common i32) (d * 10)
  pure (W.wrap p)

/-- Integer-part loop that rejects any character other than a digit or `.`: `none` is `return false`; otherwise the accumulated value
and the remaining characters. `fixed.hpp:708-713, 914-921`. -/
def intStrict (W : IntTy) : List Char → Int → Res (Option (Int × List Char))
  | [], a => .ok (some (a, []))
  | c :: cs, a =>
    if c = '.' then .ok (some (a, c :: cs))
    else if !isDigit c then .ok none
    else do
      let a' ← accDigit W a c
      intStrict W cs a'

/-- Integer-part loop that stops at the first character other than a digit. `fixed.hpp:994-999, 1064-1069`. -/
def intLenient (W : IntTy) : List Char → Int → Res (Int × List Char)
  | [], a => .ok (a, [])
  | c :: cs, a =>
    if c = '.' then .ok (a, c :: cs)
    else if !isDigit c then .ok (a, c :: cs)
    else do
      let a' ← accDigit W a c
      intLenient W cs a'

/-- Fraction loop: rejects a non-digit, stops when `dec_part > lim`. Returns `dec_part`, `divisor`, rest.
`fixed.hpp:722-733, 929-942`. -/
def fracStrict (W : IntTy) (lim : Int) : List Char → Int → Int → Res (Option (Int × Int × List Char))
  | [], dec, dv => .ok (some (dec, dv, []))
  | c :: cs, dec, dv =>
    if !isDigit c then .ok none
    else if dec > lim then .ok (some (dec, dv, c :: cs))
    else do
      let dec' ← accDigit W dec c
      let dv' ← mulTen W dv
      fracStrict W lim cs dec' dv'

/-- Fraction loop that stops at a non-digit or when `dec_part > lim`. `fixed.hpp:1007-1014, 1076-1083`. -/
def fracLenient (W : IntTy) (lim : Int) : List Char → Int → Int → Res (Int × Int × List Char)
  | [], dec, dv => .ok (dec, dv, [])
  | c :: cs, dec, dv =>
    if dec > lim ∨ !isDigit c then .ok (dec, dv, c :: cs)
    else do
      let dec' ← accDigit W dec c
      let dv' ← mulTen W dv
      fracLenient W lim cs dec' dv'

/-- `(int_part << f) + (dec_part << f) / divisor` with all three of type `W`, computed in the promoted type.
`fixed.hpp:734, 943, 1015, 1084`, `parse.hpp:78`. -/
def scaleParts (W : IntTy) (f : Nat) (ip dec dv : Int) : Res Int := do
  let a ← shl W ip f
  let b ← shl W dec f
  let q ← cdiv W.promote b dv
  arith W.promote (a + q)

/-- Strip the optional sign. `fixed.hpp:700-704, 906-910, 986-990, 1052-1060`, `parse.hpp:37-41`. -/
def takeSign : List Char → Bool × List Char
  | [] => (false, [])
  | c :: cs => if c = '-' then (true, cs) else (false, c :: cs)

variable (F : FxTy)

/-- The final range check, assignment and negation. `fixed.hpp:741-750, 1022-1031`. -/
def storeParsed (negative : Bool) (v old : Int) : Res (Bool × Int) :=
  if v > F.I.wrap F.T.hi ∨ v < F.I.wrap F.T.lo then .ok (false, old)
  else if negative then do
    let n ← neg F (fromInternal F v)
    pure (true, n)
  else pure (true, fromInternal F v)

/-- `max_fraction / 10` of `detail::parse`: `(((int64_t)1 << f) - 1) / 10`. `fixed.hpp:720, 726`. -/
def limDetail : Int := (2 ^ F.f - 1) / 10

/-- `detail::parse(str, len, fp)`: `(returned bool, fp afterwards)`. `fixed.hpp:682-751`.
Narrowing of `fixed_value` to `I` after the promoted addition is included. -/
def parseDetail (s : List Char) (old : Int) : Res (Bool × Int) := do
  let (negative, s) := takeSign s
  match ← intStrict F.I s 0 with
  | none => pure (false, old)
  | some (ip, rest) =>
    match rest with
    | '.' :: cs =>
      match ← fracStrict F.I (limDetail F) cs 0 1 with
      | none => pure (false, old)
      | some (dec, dv, _) => do
        let v ← scaleParts F.I F.f ip dec dv
        storeParsed F negative (F.I.wrap v) old
    | _ => do
      let v ← shl F.I ip F.f
      storeParsed F negative (F.I.wrap v) old

/-- Body of the literal operators that parse: `fixed fp; detail::parse(str, len, fp); return fp;`.  The verdict is ignored, and `fp` is
default-initialised, hence indeterminate, until `parse` succeeds (`C48_untouched`: it does not touch it otherwise). `fixed.hpp:787-820`. -/
def parseLit (s : List Char) : Res Int := do
  match ← parseDetail F s 0 with
  | (true, v) => pure v
  | (false, _) => .ub .uninit

/-- `f32_from_cstring`: hard-coded `int64_t` arithmetic for `fixed32`. `fixed.hpp:884-960`. -/
def f32FromCstring (s : List Char) (old : Int) : Res (Bool × Int) := do
  let (negative, s) := takeSign s
  match ← intStrict i64 s 0 with
  | none => pure (false, old)
  | some (ip, rest) =>
    let value : Res (Option Int) :=
      match rest with
      | '.' :: cs => do
        match ← fracStrict i64 (((1 <<< 16) - 1 : Int) / 10) cs 0 1 with
        | none => pure none
        | some (dec, dv, _) => do
          let v ← scaleParts i64 16 ip dec dv
          pure (some v)
      | _ => do
        let v ← shl i64 ip 16
        pure (some v)
    match ← value with
    | none => pure (false, old)
    | some v =>
      if v > i32.hi ∨ v < i32.lo then pure (false, old)
      else do
        let fp := fromInternal fixed32 (i32.wrap v)
        if negative then do
          let n ← neg fixed32 fp
          pure (true, n)
        else pure (true, fp)

/-- `max_fraction / 10` of `fixed_from_cstring` and `operator>>`: `((T(1) << f) - T(1)) / 10`. `fixed.hpp:1005, 1009, 1074, 1078`. -/
def limGeneric : Res Int := do
  let m ← arith F.P (oneShl F - 1)
  cdiv (IntTy.common F.P i32) ((IntTy.common F.P i32).wrap m) 10

/-- `fixed_from_cstring`. `fixed.hpp:962-1032`. -/
def fixedFromCstring (s : List Char) (old : Int) : Res (Bool × Int) := do
  let (negative, s) := takeSign s
  let (ip, rest) ← intLenient F.I s 0
  match rest with
  | '.' :: cs => do
    let lim ← limGeneric F
    let (dec, dv, _) ← fracLenient F.I lim cs 0 1
    let v ← scaleParts F.I F.f ip dec dv
    storeParsed F negative (F.I.wrap v) old
  | _ => do
    let v ← shl F.I ip F.f
    storeParsed F negative (F.I.wrap v) old

/-- `operator>>`: `(fp afterwards, characters left in the stream)`.  The stream is good and unbuffered characters are ASCII (so that
`isdigit` is applied within its domain); the state bits of the stream and other characters are in `Model/Istream.lean`.
`fixed.hpp:1034-1093`. -/
def streamIn (s : List Char) (old : Int) : Res (Int × List Char) :=
  match s with
  | [] => .ok (old, [])
  | _ => do
    let (negative, s) := takeSign s
    let (ip, rest) ← intLenient F.T s 0
    let (v, left) ← (match rest with
      | '.' :: cs => do
        let lim ← limGeneric F
        let (dec, dv, left) ← fracLenient F.T lim cs 0 1
        let v ← scaleParts F.T F.f ip dec dv
        pure (v, left)
      | _ => do
        let v ← shl F.T ip F.f
        pure (v, rest) : Res (Int × List Char))
    let fp := fromInternal F v
    if negative then do
      let n ← neg F fp
      pure (n, left)
    else pure (fp, left)

/-! ### `io::parse`: iteration ends at the first character *equal to* `*stop` -/

/-- `has_next()`: compares the characters `*start != *stop`; reading past the end of the buffer is out of bounds. `parse.hpp:32-35`. -/
def ioHasNext (stop : Char) : List Char → Res Bool
  | [] => .ub .bounds
  | c :: _ => .ok (decide (c ≠ stop))

/-- Integer loop of `io::parse`. `parse.hpp:50-57`. -/
def ioInt (stop : Char) : List Char → Int → Res (Option (Int × List Char))
  | [], _ => .ub .bounds
  | c :: cs, a =>
    if c = stop then .ok (some (a, c :: cs))
    else if c = '.' then .ok (some (a, c :: cs))
    else if !isDigit c then .ok none
    else do
      let a' ← accDigit i32 a c
      ioInt stop cs a'

/-- Fraction loop of `io::parse`. `parse.hpp:64-77`. -/
def ioFrac (stop : Char) (lim : Int) : List Char → Int → Int → Res (Option (Int × Int × List Char))
  | [], _, _ => .ub .bounds
  | c :: cs, dec, dv =>
    if c = stop then .ok (some (dec, dv, c :: cs))
    else if !isDigit c then .ok none
    else if dec > lim then .ok (some (dec, dv, c :: cs))
    else do
      let dec' ← accDigit i32 dec c
      let dv' ← mulTen i32 dv
      ioFrac stop lim cs dec' dv'

/-- `io::parse(start, stop, out)` on the buffer `buf` beginning at `start`, with `stop = *stop`: the remaining buffer at the returned
pointer and the output object. `parse.hpp:19-87`. -/
def ioParse (buf : List Char) (stop : Char) (old : Int) : Res (List Char × Int) := do
  let hn ← ioHasNext stop buf
  let (negative, s) := if hn then takeSign buf else (false, buf)
  match ← ioInt stop s 0 with
  | none => pure (buf, old)
  | some (ip, rest) => do
    let hn ← ioHasNext stop rest
    let value : Res (Option (Int × List Char)) :=
      match hn, rest with
      | true, '.' :: cs => do
        match ← ioFrac stop (((1 <<< 16) - 1 : Int) / 10) cs 0 1 with
        | none => pure none
        | some (dec, dv, left) => do
          let v ← scaleParts i32 16 ip dec dv
          pure (some (v, left))
      | _, _ => do
        let v ← shl i32 ip 16
        pure (some (v, rest))
    match ← value with
    | none => pure (buf, old)
    | some (v, left) => do
      let fp := fromInternal fixed32 v
      if negative then do
        let n ← neg fixed32 fp
        pure (left, n)
      else pure (left, fp)

/-- `io::parse(string_view, out)`: passes the addresses of the first character and of the one past the last; the latter is
dereferenced, so the character `after` the view takes part. `parse.hpp:89-96`. -/
def ioParseView (view : List Char) (after : List Char) (old : Int) : Res (List Char × Int) :=
  match after with
  | [] => .ub .bounds
  | stop :: _ => ioParse (view ++ after) stop old

end Eirin
