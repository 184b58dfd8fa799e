import Verif.Model.Fixed

/-! # Model of `/repo/include/eirin/ext/builtin_ints.hpp` -/

namespace Eirin

/-- `class ext::int128`: the two `int64_t` members. `builtin_ints.hpp:65-66`. -/
structure Int128 where
  high : Int
  low : Int
  deriving DecidableEq, Repr

namespace Int128

/-- `explicit int128(std::integral val)` with `val` of any integer type of at most 8 bytes: the high word is zero and
the low word is `val` converted to `int64_t`. `builtin_ints.hpp:21-24`. -/
def ofInt (v : Int) : Int128 := ⟨0, i64.wrap v⟩

/-- `explicit int128(std::floating_point val)`: the value is converted to `int64_t` (undefined when its truncation does not
fit), the high word is zero. `builtin_ints.hpp:26-29`.  Simplification: a finite floating value is an exact rational. -/
def ofFloat (v : ℚ) : Res Int128 := do
  let l ← floatToInt i64 v
  pure ⟨0, l⟩

/-- `explicit int128(T high, T low)`. `builtin_ints.hpp:31-34`. -/
def ofWords (h l : Int) : Int128 := ⟨i64.wrap h, i64.wrap l⟩

/-- `high_bits()`. `builtin_ints.hpp:36-39`. -/
def highBits (x : Int128) : Int := x.high

/-- `low_bits()`. `builtin_ints.hpp:41-44`. -/
def lowBits (x : Int128) : Int := x.low

/-- `explicit operator int64_t()`. `builtin_ints.hpp:46-55`. -/
def toI64 (x : Int128) : Int := if x.high > 0 then i64.hi else if x.high < 0 then i64.lo else x.low

/-- `operator+`. `builtin_ints.hpp:57-62`. -/
def add (x y : Int128) : Res Int128 := do
  let h ← arith i64 (x.high + y.high)
  let l ← arith i64 (x.low + y.low)
  pure (ofWords h l)

end Int128
end Eirin
