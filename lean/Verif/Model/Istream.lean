import Verif.Model.Parse

/-!
# `operator>>` with the state of the stream and with characters outside ASCII

`/repo/include/eirin/fixed.hpp:1034-1093`, transcribed call by call on a model of `std::basic_istream` that keeps the two state bits the code
can influence.  `Model/Parse.lean` (`streamIn`) describes the same operator for ASCII text without the state bits; the two are proved to
agree in `Props/Istream.lean`.  Not modelled: `badbit`, an exception mask, and a stream buffer that fails.

A character is the value of a `CharT` converted to `int`: `-128…127` for a signed `char`, `0…255` for an unsigned one, and up to
`0x10FFFF` for `wchar_t`.
-/

namespace Eirin

/-- An input stream: the characters not yet read, `eofbit` and `failbit`. -/
structure IStr where
  rest : List Int
  eof : Bool := false
  fail : Bool := false
  deriving DecidableEq, Repr

namespace IStr

/-- `good()`. -/
def good (s : IStr) : Bool := !s.eof && !s.fail

/-- `peek()` ([istream.unformatted], [istream.sentry]): on a stream that is not good the sentry sets `failbit`; at the end of the characters
`eofbit` is set; `none` is `traits::eof()`. -/
def peek (s : IStr) : Option Int × IStr :=
  if s.good then
    match s.rest with
    | [] => (none, { s with eof := true })
    | c :: _ => (some c, s)
  else (none, { s with fail := true })

/-- `get()` ([istream.unformatted]): as `peek`, but extracts the character, and sets `failbit` as well if there is none. -/
def get (s : IStr) : Option Int × IStr :=
  if s.good then
    match s.rest with
    | [] => (none, { s with eof := true, fail := true })
    | c :: cs => (some c, { s with rest := cs })
  else (none, { s with fail := true })

/-- The lambda `has_next`: `is.peek()`, then `!is.eof()`. `fixed.hpp:1047-1051`. -/
def hasNext (s : IStr) : Bool × IStr := (!s.peek.2.eof, s.peek.2)

end IStr

/-- The conversion of the `int_type` to `CharT` in the lambdas `peek` and `next`; `traits::eof()` becomes `-1`. `fixed.hpp:1039-1046`. -/
def unitOf (c : Option Int) : Int := c.getD (-1)

/-- `isdigit(c)`: undefined unless `c` is `EOF` or a value of `unsigned char` (C17 7.4/1). -/
def isdigitC (c : Int) : Res Bool := if -1 ≤ c ∧ c ≤ 255 then .ok (decide (48 ≤ c ∧ c ≤ 57)) else .ub .precondition

/-- `acc = acc * 10 + (c - '0')` with `acc : W`. `fixed.hpp:1068, 1081`. -/
def accUnit (W : IntTy) (acc c : Int) : Res Int := do
  let p ← arith (W.common i32) (acc * 10)
  let d ← arith i32 (c - 48)
  let s ← arith (W.common i32) (p + d)
  pure (W.wrap s)

/-- The loop over the integer part; the first argument bounds the number of passes. `fixed.hpp:1064-1069`. -/
def extractInt (W : IntTy) : Nat → IStr → Int → Res (Int × IStr)
  | 0, _, _ => .ub .diverges
  | n + 1, s, a =>
    let h := s.hasNext
    if !h.1 then .ok (a, h.2)
    else
      let p := h.2.peek
      if unitOf p.1 = 46 then .ok (a, p.2)
      else do
        let p := p.2.peek
        let d ← isdigitC (unitOf p.1)
        if !d then .ok (a, p.2)
        else do
          let g := p.2.get
          let a' ← accUnit W a (unitOf g.1)
          extractInt W n g.2 a'

/-- The loop over the fraction. `fixed.hpp:1076-1083`. -/
def extractFrac (W : IntTy) (lim : Int) : Nat → IStr → Int → Int → Res (Int × Int × IStr)
  | 0, _, _, _ => .ub .diverges
  | n + 1, s, dec, dv =>
    let h := s.hasNext
    if !h.1 then .ok (dec, dv, h.2)
    else if dec > lim then .ok (dec, dv, h.2)
    else do
      let p := h.2.peek
      let d ← isdigitC (unitOf p.1)
      if !d then .ok (dec, dv, p.2)
      else do
        let g := p.2.get
        let dec' ← accUnit W dec (unitOf g.1)
        let dv' ← mulTen W dv
        extractFrac W lim n g.2 dec' dv'

variable (F : FxTy)

/-- `is >> fp`: the value of `fp` and the stream afterwards; `old` is the value before. `fixed.hpp:1034-1093`. -/
def extract (s : IStr) (old : Int) : Res (Int × IStr) :=
  let h := s.hasNext
  if !h.1 then .ok (old, h.2)
  else do
    let p := h.2.peek
    let negative := decide (unitOf p.1 = 45)
    let s := if negative then p.2.get.2 else p.2
    let (ip, s) ← extractInt F.T (s.rest.length + 1) s 0
    let h := s.hasNext
    let (dot, s) := if h.1 then (decide (unitOf h.2.peek.1 = 46), h.2.peek.2) else (false, h.2)
    let (v, s) ← (if dot then do
        let s := s.get.2
        let lim ← limGeneric F
        let (dec, dv, s) ← extractFrac F.T lim (s.rest.length + 1) s 0 1
        let v ← scaleParts F.T F.f ip dec dv
        pure (v, s)
      else do
        let v ← shl F.T ip F.f
        pure (v, s) : Res (Int × IStr))
    let fp := fromInternal F v
    if negative then do
      let n ← neg F fp
      pure (n, s)
    else pure (fp, s)

end Eirin
