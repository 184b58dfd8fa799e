import Verif.Model.Parse

/-!
# The user-defined literals

`/repo/include/eirin/fixed.hpp:775-822`.  Which operator a literal calls follows [lex.ext]: an integer (floating) literal uses the operator
taking `unsigned long long` (`long double`) if there is one, and otherwise the template that receives the characters of the token, separators
and prefixes included.  So the template `operator""_f32<chars...>` (794-802) is never called, and `_f64` always goes through the characters.
-/

namespace Eirin

/-- `n_f32` for an integer literal of value `n`. `fixed.hpp:777-780`. -/
def litF32Int (n : Nat) : Int := ofInt fixed32 n

/-- `v_f32` for a floating literal whose `long double` value is the rational `v`. `fixed.hpp:782-785`. -/
def litF32Float (v : ℚ) : Res Int := ofFloat fixed32 v

/-- `"s"_f32`. `fixed.hpp:787-792`. -/
def litF32Str (s : List Char) : Res Int := parseLit fixed32 s

/-- `"s"_f64`. `fixed.hpp:805-810`. -/
def litF64Str (s : List Char) : Res Int := parseLit fixed64 s

/-- `t_f64` for an integer or floating literal with the characters `t`. `fixed.hpp:812-820`. -/
def litF64Tok (t : List Char) : Res Int := parseLit fixed64 t

end Eirin
