import Verif.Model.Fixed

/-! # The named limits of `/repo/include/eirin/math.hpp:12-17` -/

namespace Eirin

/-- `f32_max`. `math.hpp:12`. -/
def f32Max : Int := fromInternal fixed32 0x7FFFFFFF
/-- `f32_min`; the literal has type `unsigned int` and is converted to `int32_t`. `math.hpp:13`. -/
def f32Min : Int := fromInternal fixed32 0x80000000
/-- `f64_max`. `math.hpp:15`. -/
def f64Max : Int := fromInternal fixed64 0x7FFFFFFFFFFFFFFF
/-- `f64_min`; the literal has type `unsigned long` and is converted to `int64_t`. `math.hpp:16`. -/
def f64Min : Int := fromInternal fixed64 0x8000000000000000

end Eirin
