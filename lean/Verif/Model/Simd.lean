import Verif.Model.Parse
import Verif.Model.Numbers

/-!
# SIMD angle reduction, function by function

Transcription of `/repo/include/eirin/ext/simd_math.hpp:111-234`.  A vector register of `n` 64-bit lanes is `Fin n → BitVec 64`; the
intrinsics are lane-wise functions as documented for x86 (Intel intrinsics guide), part of the trusted base.  `platform_support`
(CPUID queries) and the debug printer are in `Model/Platform.lean`.
-/

namespace Eirin

/-- A vector of `n` 64-bit lanes (`__m256i` for `n = 4`, `__m128i` for `n = 2`). -/
abbrev Vec (n : Nat) := Fin n → BitVec 64

variable {n : Nat}
/-- `_mm256_srli_epi64`: logical right shift of each lane (count below 64). -/
def vsrli (a : Vec n) (k : Nat) : Vec n := fun i => a i >>> k
/-- `_mm256_slli_epi64`: left shift of each lane (count below 64). -/
def vslli (a : Vec n) (k : Nat) : Vec n := fun i => a i <<< k
/-- `_mm256_sub_epi64`, `_mm_sub_epi64`: modular subtraction. -/
def vsub (a b : Vec n) : Vec n := fun i => a i - b i
/-- `_mm256_add_epi64`: modular addition. -/
def vadd (a b : Vec n) : Vec n := fun i => a i + b i
/-- `_mm256_xor_si256`. -/
def vxor (a b : Vec n) : Vec n := fun i => a i ^^^ b i
/-- `_mm256_and_si256`. -/
def vand (a b : Vec n) : Vec n := fun i => a i &&& b i
/-- `_mm256_setzero_si256`. -/
def vzero : Vec n := fun _ => 0
/-- `_mm256_set1_epi64x`. -/
def vset1 (x : BitVec 64) : Vec n := fun _ => x
/-- `_mm256_mul_epu32`: product of the low 32 bits of each lane, unsigned. -/
def vmulEpu32 (a b : Vec n) : Vec n := fun i => ((a i).setWidth 32).setWidth 64 * ((b i).setWidth 32).setWidth 64
/-- `_mm_mul_epi32`: product of the low 32 bits of each lane, signed. -/
def vmulEpi32 (a b : Vec n) : Vec n := fun i => ((a i).setWidth 32).signExtend 64 * ((b i).setWidth 32).signExtend 64
/-- `_mm256_mullo_epi64` (AVX-512DQ): low 64 bits of the product. -/
def vmullo (a b : Vec n) : Vec n := fun i => a i * b i

/-- `avx_mm256_mullo_epi64`; `dq` is whether `__AVX512DQ__` is defined. `simd_math.hpp:113-151`. -/
def avxMul (dq : Bool) (A B : Vec n) : Vec n :=
  if dq then vsrli (vmullo A B) 32
  else
    let signBitA := vsrli A 63
    let signMaskA := vsub vzero signBitA
    let signBitB := vsrli B 63
    let signMaskB := vsub vzero signBitB
    let absA := vsub (vxor A signMaskA) signMaskA
    let absB := vsub (vxor B signMaskB) signMaskB
    let lowMask : Vec n := vset1 0xFFFFFFFF
    let aLo := vand absA lowMask
    let aHi := vsrli absA 32
    let bLo := vand absB lowMask
    let bHi := vsrli absB 32
    let loLo := vmulEpu32 aLo bLo
    let hiHi := vmulEpu32 aHi bHi
    let hiLo := vmulEpu32 aHi bLo
    let loHi := vmulEpu32 aLo bHi
    let mid := vadd hiLo loHi
    let result := vadd (vadd mid (vslli hiHi 32)) (vsrli loLo 32)
    let sign := vxor signMaskA signMaskB
    vsub (vxor result sign) sign

/-- `_mm256_fpint_epi64`. `simd_math.hpp:153-169`. -/
def fpint (X : Vec n) : Vec n :=
  let signBit := vsrli X 63
  let signMask := vsub vzero signBit
  let absVal := vsub (vxor X signMask) signMask
  let integerPart := vslli (vsrli absVal 32) 32
  vsub (vxor integerPart signMask) signMask

/-- The literal `s_f64` (`detail::parse` into a default-constructed object). `fixed.hpp:812-820`. -/
def litF64 (s : String) : Res Int := parseLit fixed64 s.toList

/-- `(numbers::pi_f64 * 2_f64).internal_value()`. `simd_math.hpp:191, 207`. -/
def simdTwoPi : Res Int := do
  let pi ← cPi fixed64
  let two ← litF64 "2"
  mul fixed64 pi two

/-- `(1_f64 / (numbers::pi_f64 * 2_f64)).internal_value()`. `simd_math.hpp:192, 208`. -/
def simdInvTwoPi : Res Int := do
  let tp ← simdTwoPi
  let one ← litF64 "1"
  div fixed64 one tp

/-- `__avx__simd_reduce_angle`. `simd_math.hpp:188-197`. -/
def avxReduceAngle (dq : Bool) (x : Vec 4) : Res (Vec 4) := do
  let tp ← simdTwoPi
  let inv ← simdInvTwoPi
  let twoPi : Vec 4 := vset1 (BitVec.ofInt 64 tp)
  let invTwoPi : Vec 4 := vset1 (BitVec.ofInt 64 inv)
  let n := fpint (avxMul dq x invTwoPi)
  pure (vsub x (avxMul dq n twoPi))

/-- `__sse_simd_reduce_angle`; both constant arrays hold the same value in both elements. `simd_math.hpp:204-215`. -/
def sseReduceAngle (x : Vec 2) : Res (Vec 2) := do
  let tp ← simdTwoPi
  let inv ← simdInvTwoPi
  let twoPi : Vec 2 := vset1 (BitVec.ofInt 64 tp)
  let invTwoPi : Vec 2 := vset1 (BitVec.ofInt 64 inv)
  let n := vmulEpi32 x invTwoPi
  pure (vsub x (vmulEpi32 n twoPi))

/-- `simd_reduce_angle`: `_mm256_set_epi64x` takes the lanes from the highest to the lowest, so lane `i` is `xs[i]`; the result lists
lanes 0, 1, 2, 3. `simd_math.hpp:220-226`. -/
def simdReduceAngle (dq : Bool) (x0 x1 x2 x3 : Int) : Res (List Int) := do
  let xv : Vec 4 := fun i =>
    match i with
    | 0 => BitVec.ofInt 64 x0
    | 1 => BitVec.ofInt 64 x1
    | 2 => BitVec.ofInt 64 x2
    | 3 => BitVec.ofInt 64 x3
  let rv ← avxReduceAngle dq xv
  pure [fromInternal fixed64 (rv 0).toInt, fromInternal fixed64 (rv 1).toInt, fromInternal fixed64 (rv 2).toInt,
    fromInternal fixed64 (rv 3).toInt]

/-- `simd_reduce_angle_2`: `_mm_lddqu_si128` loads `xs[0]` into lane 0; the result lists lane 1, then lane 0. `simd_math.hpp:228-234`. -/
def simdReduceAngle2 (x0 x1 : Int) : Res (List Int) := do
  let xv : Vec 2 := fun i =>
    match i with
    | 0 => BitVec.ofInt 64 x0
    | 1 => BitVec.ofInt 64 x1
  let rv ← sseReduceAngle xv
  pure [fromInternal fixed64 (rv 1).toInt, fromInternal fixed64 (rv 0).toInt]

end Eirin
