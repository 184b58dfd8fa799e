import Verif.Model.Istream

/-!
# `detail::parse` for an arbitrary character type

`/repo/include/eirin/fixed.hpp:682-751` is a template over `CharT`.  `Model/Parse.lean` (`parseDetail`) describes it for text whose characters are
told apart as characters; here a character is the value of a code unit (`char`, `wchar_t`, `char8_t`, `char16_t`: promoted to `int`), and the
narrowing in the parameter of the lambda `check_ch` is part of the model.
-/

namespace Eirin

/-- `check_ch(u)`: the parameter is a `char`, so that the code unit is narrowed (`char` has 8 bits and is signed). `fixed.hpp:689-693`. -/
def checkCh (u : Int) : Bool := decide (48 ≤ (IntTy.mk 8 true).wrap u ∧ (IntTy.mk 8 true).wrap u ≤ 57)

/-- The loop over the integer part. `fixed.hpp:708-713`. -/
def intStrictW (W : IntTy) : List Int → Int → Res (Option (Int × List Int))
  | [], a => .ok (some (a, []))
  | u :: us, a =>
    if u = 46 then .ok (some (a, u :: us))
    else if !checkCh u then .ok none
    else do
      let a' ← accUnit W a u
      intStrictW W us a'

/-- The loop over the fraction. `fixed.hpp:722-733`. -/
def fracStrictW (W : IntTy) (lim : Int) : List Int → Int → Int → Res (Option (Int × Int × List Int))
  | [], dec, dv => .ok (some (dec, dv, []))
  | u :: us, dec, dv =>
    if !checkCh u then .ok none
    else if dec > lim then .ok (some (dec, dv, u :: us))
    else do
      let dec' ← accUnit W dec u
      let dv' ← mulTen W dv
      fracStrictW W lim us dec' dv'

/-- The optional sign. `fixed.hpp:700-704`. -/
def takeSignW : List Int → Bool × List Int
  | [] => (false, [])
  | u :: us => if u = 45 then (true, us) else (false, u :: us)

/-- `detail::parse(str, len, fp)` on code units: `(returned bool, fp afterwards)`. `fixed.hpp:682-751`. -/
def parseWide (F : FxTy) (s : List Int) (old : Int) : Res (Bool × Int) := do
  let (negative, s) := takeSignW s
  match ← intStrictW F.I s 0 with
  | none => pure (false, old)
  | some (ip, rest) =>
    match rest with
    | 46 :: us =>
      match ← fracStrictW F.I (limDetail F) us 0 1 with
      | none => pure (false, old)
      | some (dec, dv, _) => do
        let v ← scaleParts F.I F.f ip dec dv
        storeParsed F negative (F.I.wrap v) old
    | _ => do
      let v ← shl F.I ip F.f
      storeParsed F negative (F.I.wrap v) old

end Eirin
