import Verif.Model.Fixed

/-! # Model of `/repo/include/eirin/numbers.hpp` and of the constants of the class `fixed_num`

Every constant is `from_fixed_num_value<k>(literal)` with a `long long` literal. -/

namespace Eirin

variable (F : FxTy)

/-- `fixed_num::e()`, `fixed.hpp:206-209`; `numbers::e_v`, `numbers.hpp:14-18`. -/
def cE : Res Int := fromFixedNumValue F i64 61 0x56FC2A2C515DA54D
/-- `fixed_num::pi()`, `fixed.hpp:211-214`; `numbers::pi_v`, `numbers.hpp:21-25`. -/
def cPi : Res Int := fromFixedNumValue F i64 61 0x6487ED5110B4611A
/-- `fixed_num::pi_2()`, `fixed.hpp:216-221`. -/
def cPi2 : Res Int := fromFixedNumValue F i64 62 0x6487ED5110B4611A
/-- `fixed_num::pi_4()`, `fixed.hpp:223-228`. -/
def cPi4 : Res Int := fromFixedNumValue F i64 63 0x6487ED5110B4611A
/-- `fixed_num::double_pi()`, `fixed.hpp:230-235`. -/
def cDoublePi : Res Int := fromFixedNumValue F i64 60 0x6487ED5110B4611A
/-- `log2e_v`, `numbers.hpp:28-32`. -/
def cLog2e : Res Int := fromFixedNumValue F i64 61 0x2e2a8eca5705fc00
/-- `log10e_v`, `numbers.hpp:35-39`. -/
def cLog10e : Res Int := fromFixedNumValue F i64 61 0xde5bd8a93728700
/-- `inv_pi_v`, `numbers.hpp:42-46`. -/
def cInvPi : Res Int := fromFixedNumValue F i64 61 0xa2f9836e4e44180
/-- `inv_sqrtpi_v`, `numbers.hpp:49-53`. -/
def cInvSqrtPi : Res Int := fromFixedNumValue F i64 61 0x120dd750429b6d00
/-- `ln2_v`, `numbers.hpp:56-60`. -/
def cLn2 : Res Int := fromFixedNumValue F i64 61 0x162e42fefa39ef00
/-- `ln10_v`, `numbers.hpp:63-67`. -/
def cLn10 : Res Int := fromFixedNumValue F i64 61 0x49aec6eed5545800
/-- `sqrt2_v`, `numbers.hpp:70-74`. -/
def cSqrt2 : Res Int := fromFixedNumValue F i64 61 0x2d413cccfe779a00
/-- `sqrt3_v`, `numbers.hpp:77-81`. -/
def cSqrt3 : Res Int := fromFixedNumValue F i64 61 0x376cf5d0b0995400
/-- `inv_sqrt3_v`, `numbers.hpp:84-88`. -/
def cInvSqrt3 : Res Int := fromFixedNumValue F i64 61 0x1279a74590331c00
/-- `egamma_v`, `numbers.hpp:91-95`. -/
def cEgamma : Res Int := fromFixedNumValue F i64 61 0x12788cfc6fb61900
/-- `phi_v`, `numbers.hpp:98-102`. -/
def cPhi : Res Int := fromFixedNumValue F i64 61 0x33c6ef372fe95000

end Eirin
