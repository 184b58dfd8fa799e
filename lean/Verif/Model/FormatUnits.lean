import Verif.Model.Format

/-!
# `std::formatter<fixed_num, CharT>` on code units

`/repo/include/eirin/io/format.hpp` is a template over `CharT`.  `Model/Format.lean` treats the format string and the text as lists of
characters; here both are lists of code units of `CharT` (`char`, signed; or `wchar_t`), each given by its value.  The fill is one code unit.
-/

namespace Eirin

/-- The value of a character literal of the source, e.g. `'<'`, converted to `CharT` or promoted for a comparison. -/
def unit (c : Char) : Int := c.toNat

/-- `*it >= '0' && *it <= '9'`. `format.hpp:394, 445, 448, 460`. -/
def isDigU (u : Int) : Bool := decide (unit '0' ≤ u ∧ u ≤ unit '9')

/-- `*it == '<' || *it == '>' || *it == '^'`. `format.hpp:410, 416`. -/
def isAlignU (u : Int) : Bool := u = unit '<' || u = unit '>' || u = unit '^'

/-- Assignment of an ASCII code unit to a `char` field of the state. -/
def charOf (u : Int) : Char := Char.ofNat u.toNat

/-- Skip of `digits ':'`. `format.hpp:392-398`. -/
def skipArgIdU (s : List Int) : List Int :=
  match s.dropWhile isDigU with
  | c :: rest => if c = unit ':' then rest else s
  | [] => s

/-- `[[fill]align]`; the third component is `fill_ch`. `format.hpp:406-421`. -/
def parseAlignU (s : List Int) (st : FmtState) : List Int × FmtState × Int :=
  match s with
  | a :: b :: rest =>
    if isAlignU b then (rest, { st with align := some (charOf b) }, a)
    else if isAlignU a then (b :: rest, { st with align := some (charOf a) }, unit ' ')
    else (s, st, unit ' ')
  | [a] => if isAlignU a then ([], { st with align := some (charOf a) }, unit ' ') else (s, st, unit ' ')
  | [] => (s, st, unit ' ')

/-- `[sign]`. `format.hpp:423-428`. -/
def parseSignU (s : List Int) (st : FmtState) : List Int × FmtState :=
  match s with
  | c :: rest => if c = unit '+' ∨ c = unit '-' ∨ c = unit ' ' then (rest, { st with sign := charOf c }) else (s, st)
  | [] => (s, st)

/-- `[#]`. `format.hpp:430-435`. -/
def parseAltU (s : List Int) (st : FmtState) : List Int × FmtState :=
  match s with
  | c :: rest => if c = unit '#' then (rest, { st with alt := true }) else (s, st)
  | [] => (s, st)

/-- `[0]`. `format.hpp:437-442`. -/
def parseZeroU (s : List Int) (st : FmtState) : List Int × FmtState :=
  match s with
  | c :: rest => if c = unit '0' then (rest, { st with zero := true }) else (s, st)
  | [] => (s, st)

/-- `while(digit) v = v * 10 + static_cast<int>(*it - '0')`, in `int`. `format.hpp:448-452, 460-464`. -/
def parseNumU : List Int → Int → Res (List Int × Int)
  | [], v => .ok ([], v)
  | c :: rest, v =>
    if isDigU c then do
      let p ← arith i32 (v * 10)
      let q ← arith i32 (p + (c - 48))
      parseNumU rest q
    else .ok (c :: rest, v)

/-- `[width]`. `format.hpp:444-453`. -/
def parseWidthU (s : List Int) (st : FmtState) : Res (List Int × FmtState) :=
  match s with
  | c :: _ =>
    if isDigU c then do
      let (rest, w) ← parseNumU s 0
      pure (rest, { st with width := w })
    else pure (s, st)
  | [] => pure (s, st)

/-- `[.precision]`. `format.hpp:455-465`. -/
def parsePrecU (s : List Int) (st : FmtState) : Res (List Int × FmtState) :=
  match s with
  | c :: rest =>
    if c = unit '.' then do
      let (rest, p) ← parseNumU rest 0
      pure (rest, { st with precision := p })
    else pure (s, st)
  | [] => pure (s, st)

/-- `[type]`: the `switch` on the code unit. `format.hpp:467-491`. -/
def parseTypeU (s : List Int) (st : FmtState) : Res (List Int × FmtState) :=
  match s with
  | c :: rest =>
    if c ∈ fmtTypes.map unit then pure (rest, { st with type := charOf c })
    else if c = unit '}' then pure (s, st)
    else .throw .formatError
  | [] => pure (s, st)

/-- `formatter::parse` on code units: the remaining units, the state (without the fill) and the fill. `format.hpp:374-495`. -/
def parseSpecU (s : List Int) : Res (List Int × FmtState × Int) :=
  if s = [] then .ok ([], {}, unit ' ')
  else
    let s := skipArgIdU s
    if s = [] then .ok ([], {}, unit ' ')
    else do
      let (s, st, fill) := parseAlignU s {}
      let (s, st) := parseSignU s st
      let (s, st) := parseAltU s st
      let (s, st) := parseZeroU s st
      let (s, st) ← parseWidthU s st
      let (s, st) ← parsePrecU s st
      let (s, st) ← parseTypeU s st
      pure (s, st, fill)

/-- `output_aligned` on code units. `format.hpp:326-363`. -/
def outputAlignedU (st : FmtState) (fill : Int) (body : List Int) : List Int :=
  if st.width ≤ 0 ∨ st.width ≤ (body.length : Int) then body
  else
    let pad := st.width.toNat - body.length
    let ch := if st.zero then unit '0' else fill
    let align := st.align.getD '>'
    if align = '<' then body ++ List.replicate pad ch
    else if align = '^' then List.replicate (pad / 2) ch ++ body ++ List.replicate (pad - pad / 2) ch
    else List.replicate pad ch ++ body

variable (F : FxTy)

/-- The body of `format_to` up to the call of `output_aligned`; all its characters are literals or digits, converted to `CharT`.
`format.hpp:56-182, 188-240`. -/
def formatBody (st : FmtState) (x : Int) : Res (List Char) :=
  if st.type = '?' then do
    let (neg, u) ← unsignedMag F.T x
    let body := appendSign st [] neg
    let body := if st.alt then appendAltPrefix body 16 false else body
    let ds ← (if u = 0 then pure ['0'] else digitsLoop false 16 (F.T.bits + 1) u [] : Res (List Char))
    pure (body ++ ds)
  else do
    let (intOnly, up, base) := fmtMode st.type
    let neg := signbit F x
    let iv ← integralPart F x
    let digits ← intToString F.T iv base up
    let pre := appendSign st [] neg
    let pre := if st.alt && intOnly && decide (base ≠ 10) then appendAltPrefix pre base up else pre
    if intOnly then
      let total : Int := pre.length + digits.length
      let body :=
        if st.zero && decide (st.width > 0) && decide (total < st.width) then
          pre ++ List.replicate (st.width - total).toNat '0' ++ digits
        else pre ++ digits
      pure body
    else do
      let body := pre ++ digits
      let fr ← fractionalPart F x
      let fr ← (if F.T.signed && decide (fr < 0) then do
          let n ← arith F.P (-fr)
          pure (F.T.wrap n)
        else pure fr : Res Int)
      let effPrec : Int := if st.precision < 0 then 6 else st.precision
      let (body, used) ← (if fr ≠ 0 then fracLoop F up effPrec F.f fr 0 (body ++ ['.']) else pure (body, 0) : Res (List Char × Int))
      let body := if st.type = 'f' ∨ st.type = 'F' then padZeros used effPrec body else body
      pure body

/-- `format_to` on code units. `format.hpp:56-182`. -/
def formatToU (st : FmtState) (fill : Int) (x : Int) : Res (List Int) := do
  let body ← formatBody F st x
  pure (outputAlignedU st fill (body.map unit))

/-- A replacement field: `parse` on the units from the specification on, then `format` with the state it left; the units not consumed and the
text written. `format.hpp:374-503`. -/
def replaceField (s : List Int) (x : Int) : Res (List Int × List Int) := do
  let (rest, st, fill) ← parseSpecU s
  let t ← formatToU F st fill x
  pure (rest, t)

end Eirin
