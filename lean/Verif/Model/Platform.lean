import Verif.Model.Simd
import Verif.Model.Print

/-!
# CPU feature query and the debug printer of `/repo/include/eirin/ext/simd_math.hpp`

`simd_math.hpp:28-107` (`class platform_support`) and `simd_math.hpp:172-188` (`debug_m256i_log`).  The `CPUID` instruction is a
parameter: a function from leaf and sub-leaf to the four result registers.  Concurrent first calls are in `Model/Threads.lean`.
-/

namespace Eirin

/-- The registers `eax, ebx, ecx, edx` returned by `CPUID`. -/
structure CpuRegs where
  eax : BitVec 32
  ebx : BitVec 32
  ecx : BitVec 32
  edx : BitVec 32

/-- A processor, as far as `CPUID` shows it: leaf and sub-leaf to registers. -/
abbrev Cpu := Nat → Nat → CpuRegs

/-- The two static members `features_detected`, `features_flag`, together with the number of `CPUID` instructions executed so far
(not in the code; counted for the statements).  `std::bitset<8>` is a bit vector of length 8. `simd_math.hpp:30-34`. -/
structure Platform where
  detected : Bool := false
  flags : BitVec 8 := 0
  cpuids : Nat := 0

/-- `std::bitset::set(pos, value)`. -/
def bitsetSet (b : BitVec 8) (pos : Nat) (v : Bool) : BitVec 8 :=
  if v then b ||| (1#8 <<< pos) else b &&& ~~~(1#8 <<< pos)

/-- `std::bitset::test(pos)` (positions below 8 only). -/
def bitsetTest (b : BitVec 8) (pos : Nat) : Bool := (b >>> pos) &&& 1#8 != 0#8

/-- `(r & (1 << k)) != 0` -/
def maskBit (r : BitVec 32) (k : Nat) : Bool := r &&& (1#32 <<< k) != 0#32

/-- `detect_features`; `x86` is whether `EIRIN_ARCH_X86` is defined and the compiler is one of the three supported (the GCC/Clang branch
and the MSVC branch read the same leaves and bits). `simd_math.hpp:36-69`. -/
def detectFeatures (x86 : Bool) (cpu : Cpu) (s : Platform) : Platform :=
  if s.detected then s
  else
    let s := { s with detected := true }
    if x86 then
      let r := cpu 1 0
      let fl := s.flags
      let fl := bitsetSet fl 0 (maskBit r.edx 26)
      let fl := bitsetSet fl 1 (maskBit r.ecx 20)
      let fl := bitsetSet fl 2 (maskBit r.ecx 28)
      let r := cpu 7 0
      let fl := bitsetSet fl 3 (maskBit r.ebx 5)
      let fl := bitsetSet fl 4 (maskBit r.ebx 16)
      let fl := bitsetSet fl 5 (maskBit r.ebx 17)
      { s with flags := fl, cpuids := s.cpuids + 2 }
    else s

/-- The common shape of the six queries: detect, then test one bit. -/
def supportsBit (x86 : Bool) (pos : Nat) (cpu : Cpu) (s : Platform) : Bool × Platform :=
  let s := detectFeatures x86 cpu s
  (bitsetTest s.flags pos, s)

/-- `supports_sse2`. `simd_math.hpp:72-76`. -/
def supportsSse2 (x86 : Bool) : Cpu → Platform → Bool × Platform := supportsBit x86 0
/-- `supports_sse4_2`. `simd_math.hpp:78-82`. -/
def supportsSse42 (x86 : Bool) : Cpu → Platform → Bool × Platform := supportsBit x86 1
/-- `supports_avx`. `simd_math.hpp:84-88`. -/
def supportsAvx (x86 : Bool) : Cpu → Platform → Bool × Platform := supportsBit x86 2
/-- `supports_avx2`. `simd_math.hpp:90-94`. -/
def supportsAvx2 (x86 : Bool) : Cpu → Platform → Bool × Platform := supportsBit x86 3
/-- `supports_avx512_f`. `simd_math.hpp:96-100`. -/
def supportsAvx512f (x86 : Bool) : Cpu → Platform → Bool × Platform := supportsBit x86 4
/-- `supports_avx512_dq`. `simd_math.hpp:102-106`. -/
def supportsAvx512dq (x86 : Bool) : Cpu → Platform → Bool × Platform := supportsBit x86 5

/-! ### The debug printer -/

/-- The hexadecimal digits of a 64-bit word, most significant first, no leading zeros (`%lx`). -/
def hexWord : Nat → Nat → List Char → List Char
  | 0, _, acc => acc
  | fuel + 1, u, acc =>
    let c := (digitTable false).getD (u % 16) '?'
    if u / 16 = 0 then c :: acc else hexWord fuel (u / 16) (c :: acc)

/-- `debug_m256i_log<true>`: the text sent to `std::cout` (decimal mode, lower case; `std::endl` is the final newline).
`simd_math.hpp:175-182`. -/
def debugLogFixed (x : Vec 4) (name : List Char) : Res (List Char) := do
  let s1 ← copyAsChars fixed64 (x 0).toInt 10 false
  let s2 ← copyAsChars fixed64 (x 1).toInt 10 false
  let s3 ← copyAsChars fixed64 (x 2).toInt 10 false
  let s4 ← copyAsChars fixed64 (x 3).toInt 10 false
  pure ("DEBUG __m256i ".toList ++ name ++ " fixed point value: [".toList ++ s1 ++ [','] ++ s2 ++ [','] ++ s3 ++ [','] ++ s4 ++ [']', '\n'])

/-- `debug_m256i_log<false>`: the text printed by `printf` with `%lx` on four `int64_t`. `simd_math.hpp:183-186`. -/
def debugLogHex (x : Vec 4) (name : List Char) : List Char :=
  let h (i : Fin 4) := hexWord 16 (x i).toNat []
  "DEBUG __m256i ".toList ++ name ++ " fixed point value:[".toList ++ h 0 ++ [',', ' '] ++ h 1 ++ [',', ' '] ++ h 2 ++ [',', ' '] ++ h 3 ++
    [']', '\n']

end Eirin
