import Mathlib.Data.Nat.Digits.Defs
import Verif.SpecText

/-!
# Specification vocabulary for `std::format` output and format specifications

Independent of the model: numerals, signs and prefixes, truncated decimal fractions, padding, and the format-specification grammar.
-/

namespace Eirin.Spec

/-- `s` is the base-`b` numeral, without superfluous leading zeros, of the natural number `n`. -/
def IsNatText (b : Nat) (up : Bool) (s : List Char) (n : Nat) : Prop :=
  ∃ ds : List Nat, s = ds.map (digitOf up) ∧ (∀ d ∈ ds, d < b) ∧ NoLeadingZero ds ∧ digitsVal b ds = n

/-- The base-`b` numeral of a natural number. -/
def natText (b : Nat) (up : Bool) (n : Nat) : List Char :=
  if n = 0 then ['0'] else (Nat.digits b n).reverse.map (digitOf up)

/-- What the sign option prints: `-` for negative numbers; for the others `+`, a space, or nothing. -/
def signText (mode : Char) (neg : Bool) : List Char :=
  if neg then ['-'] else if mode = '+' then ['+'] else if mode = ' ' then [' '] else []

/-- The base prefix of the alternate form. -/
def baseText (b : Nat) (up : Bool) : List Char :=
  if b = 2 then (if up then ['0', 'B'] else ['0', 'b'])
  else if b = 8 then ['0']
  else if b = 16 then (if up then ['0', 'X'] else ['0', 'x'])
  else []

/-- The base and letter case of the integer presentation types. -/
def intType (c : Char) : Option (Nat × Bool) :=
  if c = 'd' then some (10, false)
  else if c = 'x' then some (16, false)
  else if c = 'X' then some (16, true)
  else if c = 'o' then some (8, false)
  else if c = 'b' then some (2, false)
  else if c = 'B' then some (2, true)
  else none

/-- `ds` are the decimals of `q ∈ [0, 1)` cut after `p` digits, without superfluous zeros: at most `p` digits, less than one unit of the
`p`-th digit below `q`, exact if shorter than `p`, and not ending in zero when exact. -/
def TruncDigits (p : Nat) (q : ℚ) (ds : List Nat) : Prop :=
  Decimal ds ∧ ds.length ≤ p ∧ fracVal 10 ds ≤ q ∧ q < fracVal 10 ds + 1 / 10 ^ p ∧
  (ds.length < p → fracVal 10 ds = q) ∧ (fracVal 10 ds = q → ∀ d, ds.getLast? = some d → d ≠ 0)

/-- `ds` are exactly the first `p` decimals of `q ∈ [0, 1)`. -/
def FixedDigits (p : Nat) (q : ℚ) (ds : List Nat) : Prop :=
  Decimal ds ∧ ds.length = p ∧ fracVal 10 ds ≤ q ∧ q < fracVal 10 ds + 1 / 10 ^ p

/-- `out` is `body` padded with `fill` to (at least) `width` characters according to the alignment; the default is right alignment, and
centring puts the odd character on the right. -/
def Padded (width : Nat) (fill : Char) (align : Option Char) (body out : List Char) : Prop :=
  ∃ l r : Nat, out = List.replicate l fill ++ body ++ List.replicate r fill ∧ out.length = max width body.length ∧
    (align = some '<' → l = 0) ∧ (align = some '^' → l ≤ r ∧ r ≤ l + 1) ∧ (align ≠ some '<' → align ≠ some '^' → r = 0)

/-! ### Format specifications `[[fill]align][sign][#][0][width][.precision][type]` -/

/-- A format specification. -/
structure FmtSpec where
  fillAlign : Option (Option Char × Char) := none
  sign : Option Char := none
  alt : Bool := false
  zero : Bool := false
  width : List Nat := []
  prec : Option (List Nat) := none
  type : Option Char := none

namespace FmtSpec

/-- The text of a specification. -/
def text (s : FmtSpec) : List Char :=
  (match s.fillAlign with | none => [] | some (none, a) => [a] | some (some f, a) => [f, a]) ++
  (s.sign.toList ++ ((if s.alt then ['#'] else []) ++ ((if s.zero then ['0'] else []) ++ (s.width.map (digitOf false) ++
  ((match s.prec with | none => [] | some ds => '.' :: ds.map (digitOf false)) ++ s.type.toList)))))

/-- The grammar: alignment, sign and type characters from their sets, decimal digits, a width that does not begin with the zero flag,
numbers that fit in an `int`. -/
structure WF (s : FmtSpec) : Prop where
  align : ∀ f a, s.fillAlign = some (f, a) → a ∈ ['<', '>', '^']
  sign : ∀ c, s.sign = some c → c ∈ ['+', '-', ' ']
  width : Decimal s.width
  width0 : s.zero = false → s.width.head? ≠ some 0
  widthFits : digitsVal 10 s.width < 2 ^ 31
  prec : ∀ ds, s.prec = some ds → Decimal ds ∧ digitsVal 10 ds < 2 ^ 31
  type : ∀ c, s.type = some c → c ∈ ['g', 'G', 'f', 'F', 'd', 'x', 'X', 'o', 'b', 'B', '?']

end FmtSpec

end Eirin.Spec
