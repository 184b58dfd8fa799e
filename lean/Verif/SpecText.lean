import Mathlib.Data.Rat.Defs
import Mathlib.Algebra.Field.Rat
import Mathlib.Algebra.Order.Field.Rat

/-!
# Specification vocabulary for text: numerals and the numbers they denote

Independent of the model: digit characters, positional value of digit strings, canonical numerals.
-/

namespace Eirin.Spec

/-- The character of digit `d` (`0`–`9`, then letters). -/
def digitOf (up : Bool) (d : Nat) : Char :=
  if d < 10 then Char.ofNat (48 + d) else Char.ofNat ((if up then 55 else 87) + d)

/-- Value of a string of digits in base `b`, most significant first. -/
def digitsVal (b : Nat) : List Nat → Nat := List.foldl (fun a d => a * b + d) 0

/-- Value of the digits after the point: `0.d₁d₂… = (d₁ + (d₂ + …)/b)/b`. -/
def fracVal (b : Nat) : List Nat → ℚ
  | [] => 0
  | d :: ds => (d + fracVal b ds) / b

/-- `is` are the digits of a natural number without superfluous leading zeros. -/
def NoLeadingZero (is : List Nat) : Prop := is = [0] ∨ ∃ d ds, is = d :: ds ∧ d ≠ 0

/-- The text `s` is the canonical base-`b` numeral of the number `q`: a sign exactly when `q` is negative, the integer digits without
leading zeros, and a point followed by digits without trailing zeros exactly when `q` is not an integer. -/
def IsNumeral (b : Nat) (up : Bool) (s : List Char) (q : ℚ) : Prop :=
  ∃ is fs : List Nat,
    s = (if q < 0 then ['-'] else []) ++ is.map (digitOf up) ++ (if fs = [] then [] else '.' :: fs.map (digitOf up)) ∧
    (∀ d ∈ is, d < b) ∧ (∀ d ∈ fs, d < b) ∧ NoLeadingZero is ∧ (∀ d, fs.getLast? = some d → d ≠ 0) ∧
    |q| = digitsVal b is + fracVal b fs

/-- The decimal numeral with an optional minus sign, integer digits `is` and, if present, a point and fraction digits. -/
def numeral (neg : Bool) (is : List Nat) (fs : Option (List Nat)) : List Char :=
  (if neg then ['-'] else []) ++ (is.map (digitOf false) ++ (match fs with | none => [] | some ds => '.' :: ds.map (digitOf false)))

/-- The digits after the point. -/
def fracDigits (fs : Option (List Nat)) : List Nat := fs.getD []

/-- The magnitude denoted by a decimal numeral. -/
def numeralMag (is : List Nat) (fs : Option (List Nat)) : ℚ := digitsVal 10 is + fracVal 10 (fracDigits fs)

/-- Every entry is a decimal digit. -/
def Decimal (ds : List Nat) : Prop := ∀ d ∈ ds, d < 10
instance (ds : List Nat) : Decidable (Decimal ds) := by unfold Decimal; infer_instance

/-- `c` is one of the characters `0`–`9`. -/
def DigitChar (c : Char) : Prop := '0' ≤ c ∧ c ≤ '9'
instance (c : Char) : Decidable (DigitChar c) := by unfold DigitChar; infer_instance

/-- The longest prefix of the form digits, point, digits (each part optional). -/
def unsignedPrefix (s : List Char) : List Char :=
  match s.dropWhile (fun c => decide (DigitChar c)) with
  | '.' :: cs => s.takeWhile (fun c => decide (DigitChar c)) ++ '.' :: cs.takeWhile (fun c => decide (DigitChar c))
  | _ => s.takeWhile (fun c => decide (DigitChar c))

/-- The longest prefix of the form sign, digits, point, digits (each part optional). -/
def numericPrefix : List Char → List Char
  | '-' :: s => '-' :: unsignedPrefix s
  | s => unsignedPrefix s

end Eirin.Spec
