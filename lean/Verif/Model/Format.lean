import Verif.Model.Print

/-!
# Model of `/repo/include/eirin/io/format.hpp` — `fixed_num_formatter` and `std::formatter<fixed_num>`

`CharT` is `char`; strings and output iterators are lists of characters.
-/

namespace Eirin

/-- `state_type`. `align = none` is `'\0'`. `format.hpp:30-42`. -/
structure FmtState where
  align : Option Char := none
  sign : Char := '-'
  alt : Bool := false
  zero : Bool := false
  width : Int := 0
  precision : Int := -1
  type : Char := 'g'
  fill : Char := ' '
  deriving DecidableEq, Repr

/-- The unsigned type of the same width (`std::make_unsigned_t`). -/
def IntTy.unsigned (t : IntTy) : IntTy := ⟨t.bits, false⟩

/-- Magnitude of a `V` value as an unsigned number: `-(v + 1)` converted, plus one. `format.hpp:200-216, 256-264`. -/
def unsignedMag (V : IntTy) (v : Int) : Res (Bool × Int) :=
  if V.signed then
    if v < 0 then do
      let t ← arith V.promote (v + 1)
      let n ← arith V.promote (-t)
      pure (true, V.unsigned.wrap (V.unsigned.wrap n + 1))
    else pure (false, V.unsigned.wrap v)
  else pure (false, V.unsigned.wrap v)

/-- The loop `while(uval > 0) { push(digits[uval % base]); uval /= base; }` followed by `reverse` (the accumulator is built in reverse).
Unsigned division cannot fail for a non-zero base. `format.hpp:227-237, 266-272`. -/
def digitsLoop (up : Bool) (base : Int) : Nat → Int → List Char → Res (List Char)
  | 0, _, _ => .ub .diverges
  | fuel + 1, u, acc =>
    if u > 0 then do
      let c ← digitAt up (u % base)
      digitsLoop up base fuel (u / base) (c :: acc)
    else .ok acc

/-- `int_to_string`. `format.hpp:243-274`. -/
def intToString (V : IntTy) (v : Int) (base : Int) (up : Bool) : Res (List Char) :=
  if v = 0 then .ok ['0']
  else do
    let (_, u) ← unsignedMag V v
    digitsLoop up base (V.bits + 1) u []

/-- `append_sign`. `format.hpp:289-304`. -/
def appendSign (st : FmtState) (s : List Char) (neg : Bool) : List Char :=
  if st.sign = '+' then s ++ [if neg then '-' else '+']
  else if st.sign = ' ' then s ++ [if neg then '-' else ' ']
  else if neg then s ++ ['-'] else s

/-- `append_alt_prefix`. `format.hpp:306-324`. -/
def appendAltPrefix (s : List Char) (base : Int) (up : Bool) : List Char :=
  if base = 2 then s ++ ['0', if up then 'B' else 'b']
  else if base = 8 then s ++ ['0']
  else if base = 16 then s ++ ['0', if up then 'X' else 'x']
  else s

/-- `output_aligned`. `format.hpp:326-363`. -/
def outputAligned (st : FmtState) (body : List Char) : List Char :=
  if st.width ≤ 0 ∨ st.width ≤ (body.length : Int) then body
  else
    let pad := st.width.toNat - body.length
    let ch := if st.zero then '0' else st.fill
    let align := st.align.getD '>'
    if align = '<' then body ++ List.replicate pad ch
    else if align = '^' then List.replicate (pad / 2) ch ++ body ++ List.replicate (pad - pad / 2) ch
    else List.replicate pad ch ++ body

variable (F : FxTy)

/-- `format_debug_to`. `format.hpp:188-241`. -/
def formatDebug (st : FmtState) (x : Int) : Res (List Char) := do
  let (neg, u) ← unsignedMag F.T x
  let body := appendSign st [] neg
  let body := if st.alt then appendAltPrefix body 16 false else body
  let ds ← (if u = 0 then pure ['0'] else digitsLoop false 16 (F.T.bits + 1) u [] : Res (List Char))
  pure (outputAligned st (body ++ ds))

/-- The fraction-digit loop `for(i = 0; i < F && used_prec < eff_prec; ++i)`; returns the text and `used_prec`. `format.hpp:151-164`. -/
def fracLoop (up : Bool) (effPrec : Int) : Nat → Int → Int → List Char → Res (List Char × Int)
  | 0, _, used, out => .ok (out, used)
  | n + 1, bits, used, out =>
    if used < effPrec then
      if bits = 0 then .ok (out, used)
      else do
        let s ← arith F.P (bits * 10)
        let shifted := F.T.wrap s
        let d ← shr F.T shifted F.f
        let m ← arith F.P (oneShl F - 1)
        let b := F.T.wrap (band F.P shifted m)
        let c ← digitAt up (F.T.wrap d)
        fracLoop up effPrec n b (used + 1) (out ++ [c])
    else .ok (out, used)

/-- The trailing-zero loop of the `f`/`F` types. `format.hpp:168-178`. -/
def padZeros (used effPrec : Int) (out : List Char) : List Char :=
  if used < effPrec then (if used = 0 then out ++ ['.'] else out) ++ List.replicate (effPrec - used).toNat '0' else out

/-- The mode switch: `(int_only, uppercase, base)` for types other than `?`. `format.hpp:59-90`. -/
def fmtMode (type : Char) : Bool × Bool × Int :=
  if type = 'X' then (true, true, 16)
  else if type = 'x' then (true, false, 16)
  else if type = 'd' then (true, false, 10)
  else if type = 'o' then (true, false, 8)
  else if type = 'B' then (true, true, 2)
  else if type = 'b' then (true, false, 2)
  else (false, type = 'G' ∨ type = 'F', 10)

/-- `format_to`. `format.hpp:56-182`. -/
def formatTo (st : FmtState) (x : Int) : Res (List Char) :=
  if st.type = '?' then formatDebug F st x
  else do
    let (intOnly, up, base) := fmtMode st.type
    let neg := signbit F x
    let iv ← integralPart F x
    let digits ← intToString F.T iv base up
    let pre := appendSign st [] neg
    let pre := if st.alt && intOnly && decide (base ≠ 10) then appendAltPrefix pre base up else pre
    if intOnly then
      let total : Int := pre.length + digits.length
      let body :=
        if st.zero && decide (st.width > 0) && decide (total < st.width) then
          pre ++ List.replicate (st.width - total).toNat '0' ++ digits
        else pre ++ digits
      pure (outputAligned st body)
    else do
      let body := pre ++ digits
      let fr ← fractionalPart F x
      let fr ← (if F.T.signed && decide (fr < 0) then do
          let n ← arith F.P (-fr)
          pure (F.T.wrap n)
        else pure fr : Res Int)
      let effPrec : Int := if st.precision < 0 then 6 else st.precision
      let (body, used) ← (if fr ≠ 0 then fracLoop F up effPrec F.f fr 0 (body ++ ['.']) else pure (body, 0) : Res (List Char × Int))
      let body := if st.type = 'f' ∨ st.type = 'F' then padZeros used effPrec body else body
      pure (outputAligned st body)

/-! ### The format-specification parser (`std::formatter<fixed_num>::parse`) -/

/-- `*it >= '0' && *it <= '9'` -/
def isDig (c : Char) : Bool := decide ('0' ≤ c ∧ c ≤ '9')

/-- `*it == '<' || *it == '>' || *it == '^'` -/
def isAlign (c : Char) : Bool := c = '<' || c = '>' || c = '^'

/-- Skip of `digits ':'` at the beginning. `format.hpp:392-398`. -/
def skipArgId (s : List Char) : List Char :=
  match s.dropWhile isDig with
  | ':' :: rest => rest
  | _ => s

/-- `[[fill]align]`; `s` is not empty. `format.hpp:406-421`. -/
def parseAlign (s : List Char) (st : FmtState) : List Char × FmtState :=
  match s with
  | a :: b :: rest =>
    if isAlign b then (rest, { st with fill := a, align := some b })
    else if isAlign a then (b :: rest, { st with align := some a })
    else (s, st)
  | [a] => if isAlign a then ([], { st with align := some a }) else (s, st)
  | [] => (s, st)

/-- `[sign]`. `format.hpp:423-428`. -/
def parseSign (s : List Char) (st : FmtState) : List Char × FmtState :=
  match s with
  | c :: rest => if c = '+' ∨ c = '-' ∨ c = ' ' then (rest, { st with sign := c }) else (s, st)
  | [] => (s, st)

/-- `[#]`. `format.hpp:430-435`. -/
def parseAlt (s : List Char) (st : FmtState) : List Char × FmtState :=
  match s with
  | c :: rest => if c = '#' then (rest, { st with alt := true }) else (s, st)
  | [] => (s, st)

/-- `[0]`. `format.hpp:437-442`. -/
def parseZero (s : List Char) (st : FmtState) : List Char × FmtState :=
  match s with
  | c :: rest => if c = '0' then (rest, { st with zero := true }) else (s, st)
  | [] => (s, st)

/-- `while(digit) v = v * 10 + digit`, in `int`. `format.hpp:448-452, 460-464`. -/
def parseNum : List Char → Int → Res (List Char × Int)
  | [], v => .ok ([], v)
  | c :: rest, v =>
    if isDig c then do
      let p ← arith i32 (v * 10)
      let q ← arith i32 (p + ((c.toNat : Int) - 48))
      parseNum rest q
    else .ok (c :: rest, v)

/-- `[width]`. `format.hpp:444-453`. -/
def parseWidth (s : List Char) (st : FmtState) : Res (List Char × FmtState) :=
  match s with
  | c :: _ =>
    if isDig c then do
      let (rest, w) ← parseNum s 0
      pure (rest, { st with width := w })
    else pure (s, st)
  | [] => pure (s, st)

/-- `[.precision]`. `format.hpp:455-465`. -/
def parsePrec (s : List Char) (st : FmtState) : Res (List Char × FmtState) :=
  match s with
  | '.' :: rest => do
    let (rest, p) ← parseNum rest 0
    pure (rest, { st with precision := p })
  | _ => pure (s, st)

/-- The accepted type characters. `format.hpp:470-482`. -/
def fmtTypes : List Char := ['g', 'G', 'f', 'F', 'd', 'x', 'X', 'o', 'b', 'B', '?']

/-- `[type]`. `format.hpp:467-491`. -/
def parseType (s : List Char) (st : FmtState) : Res (List Char × FmtState) :=
  match s with
  | c :: rest =>
    if c ∈ fmtTypes then pure (rest, { st with type := c })
    else if c = '}' then pure (s, st)
    else .throw .formatError
  | [] => pure (s, st)

/-- `formatter::parse` on the characters from `ctx.begin()` to `ctx.end()`: the remaining characters at the returned iterator and the
state set. `format.hpp:374-495`. -/
def parseSpec (s : List Char) : Res (List Char × FmtState) :=
  if s = [] then .ok ([], {})
  else
    let s := skipArgId s
    if s = [] then .ok ([], {})
    else do
      let (s, st) := parseAlign s {}
      let (s, st) := parseSign s st
      let (s, st) := parseAlt s st
      let (s, st) := parseZero s st
      let (s, st) ← parseWidth s st
      let (s, st) ← parsePrec s st
      parseType s st

end Eirin
