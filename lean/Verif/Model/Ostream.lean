import Verif.Model.Print
import Verif.Model.Random

/-!
# `operator<<` with the field width of the stream

`/repo/include/eirin/fixed.hpp:654-663` writes through `std::ostream_iterator<char>`, whose assignment is `os << c`: every character is a formatted
insertion of its own.  `Model/Print.lean` (`streamOut`) gives the characters; here they pass through the stream.  `Ios` (`Model/Random.lean`) is the
formatting state.
-/

namespace Eirin

/-- `os << c` for a `char` ([ostream.inserters.character], [ostream.formatted.reqmts]/3): padded to the width, with the fill characters after the
character if the adjustment is `left` and before it otherwise; the width is reset. -/
def insertChar (s : Ios) (c : Char) : List Char × Ios :=
  let pad := List.replicate (s.width - 1) s.fill
  (if s.left then c :: pad else pad ++ [c], { s with width := 0 })

/-- The characters of `cs`, inserted one after the other. -/
def insertChars (s : Ios) : List Char → List Char × Ios
  | [] => ([], s)
  | c :: cs =>
    let (t, s) := insertChar s c
    let (u, s) := insertChars s cs
    (t ++ u, s)

/-- `os << fp`: the text that reaches the stream, and its formatting state afterwards. `fixed.hpp:654-663`. -/
def insertFixed (F : FxTy) (s : Ios) (x : Int) : Res (List Char × Ios) := do
  let cs ← streamOut F x s.hex s.dec s.oct s.uppercase
  pure (insertChars s cs)

end Eirin
