import Verif.Model.Math
import Verif.Model.Parse
import Verif.Model.Print
import Verif.Model.Format

/-! # The repository's own test expectations, evaluated in the model

Every deterministic `EXPECT_…` of `/repo/test/main.cpp` and `/repo/test/test_io.cpp` is restated as an `example` about the model and
checked by evaluation.  This validates the transcription; it is no substitute for the property theorems.  (The tests of
`TEST(FixedNum, Random)` depend on a random device and have no expectations; `TEST(FixedNum, Constants)` only logs.) -/

namespace Eirin.Conformance

/-- `n_f32` with an integer literal: `operator""_f32(unsigned long long)`. `fixed.hpp:777-780`. -/
def li32 (n : Int) : Int := ofInt fixed32 n
/-- `x_f32` with a floating literal: `operator""_f32(long double)`. `fixed.hpp:782-785`. -/
def ld32 (q : ℚ) : Res Int := ofFloat fixed32 q
/-- `x_f64`: the raw literal operator template, `detail::parse` of the characters (the result of `parse` is ignored). `fixed.hpp:812-820`. -/
def l64 (s : String) : Res Int := do
  let r ← parseDetail fixed64 s.toList 0
  pure r.2

/-- `expect_fixed_eq(lhs, rhs, eps)`. `test/main.cpp:85-112`. -/
def near (F : FxTy) (l r : Res Int) (eps : Res Int) : Res Bool := do
  let a ← l
  let b ← r
  let e ← eps
  let d ← sub F a b
  let m ← abs F d
  pure (!(gt m e))

abbrev eps32 : Res Int := epsilon fixed32
abbrev eps64 : Res Int := epsilon fixed64
/-- `arc_triangle_max_error = 0.0003_f32`. `test/main.cpp:82`. -/
def arc32 : Res Int := ld32 (3 / 10000)
/-- `arc_triangle_max_error_64 = 0.0003_f64`. `test/main.cpp:83`. -/
def arc64 : Res Int := l64 "0.0003"

/-! ### `TEST(FixedNum, Construct)` `main.cpp:14-26` -/
example : toInt fixed32 i32 (li32 0) = 0 := by decide +kernel
example : (do let r ← ioParse "-114.514a".toList 'a' 0; pure r.2) = (do neg fixed32 (← ld32 (114514 / 1000))) := by decide +kernel
example : (do let x ← l64 "0"; pure (toInt fixed64 i32 x)) = .ok 0 := by decide +kernel
example : l64 "-114.514" = (do neg fixed64 (← l64 "114.514")) := by decide +kernel

/-! ### `TEST(Fixed32, Operator)` `main.cpp:28-49` -/
example : preInc fixed32 (li32 0) = .ok (li32 1, li32 1) := by decide +kernel
example : (do add fixed32 (← ld32 (114 / 100)) (← ld32 (514 / 100))) = ld32 (628 / 100) := by decide +kernel
example : (do mulInt fixed32 i32 (← ld32 (114 / 100)) 2) = ld32 (228 / 100) := by decide +kernel
example : divInt fixed32 i32 (li32 514) 2 = .ok (li32 257) := by decide +kernel
example : divideInt fixed32 i32 (li32 514) 2 = .ok (li32 257) := by decide +kernel
example : rem fixed32 (li32 515) (li32 2) = .ok (li32 1) := by decide +kernel
example : (do let r ← preDec fixed32 (← ld32 (114 / 100)); pure r.2) = ld32 (14 / 100) := by decide +kernel
example : divideInt fixed32 i32 (li32 514) 0 = .throw .divideByZero := by decide +kernel

/-! ### `TEST(Fixed32, Rounding)` `main.cpp:51-57` -/
example : (do round fixed32 (← ld32 (114414 / 1000))) = .ok (li32 114) := by decide +kernel
example : (do round fixed32 (← ld32 (114514 / 1000))) = .ok (li32 115) := by decide +kernel
example : (do round fixed32 (← neg fixed32 (← ld32 (114414 / 1000)))) = neg fixed32 (li32 114) := by decide +kernel
example : (do round fixed32 (← neg fixed32 (← ld32 (114514 / 1000)))) = neg fixed32 (li32 115) := by decide +kernel

/-! ### `TEST(Fixed32, Decompression)` `main.cpp:59-78` -/
example : signbit fixed32 (li32 0) = false ∧ signbit fixed32 (li32 1) = false ∧ signbit fixed32 (li32 (-1)) = true := by decide +kernel
example : rawIntegralPart fixed32 (li32 1) = .ok 1 ∧ rawIntegralPart fixed32 (li32 (-1)) = .ok 32767 := by decide +kernel
example : integralPart fixed32 (li32 1) = .ok 1 ∧ integralPart fixed32 (li32 (-1)) = .ok 1 := by decide +kernel
example : fractionalPart fixed32 (li32 1) = .ok 0 ∧ fractionalPart fixed32 (li32 (-1)) = .ok 0 := by decide +kernel
example : (do integralPart fixed32 (← divInt fixed32 i32 (li32 1) 2)) = .ok 0 ∧
    (do fractionalPart fixed32 (← divInt fixed32 i32 (li32 1) 2)) = .ok (2 ^ 15) := by decide +kernel

/-! ### `TEST(Fixed32, Math)` `main.cpp:133-172` -/
example : (do abs fixed32 (← neg fixed32 (← ld32 (114514 / 1000)))) = ld32 (114514 / 1000) := by decide +kernel
example : sin fixed32 (li32 0) = .ok (li32 0) := by decide +kernel
example : near fixed32 (sin fixed32 (li32 1)) (ld32 (841471 / 1000000)) eps32 = .ok true := by decide +kernel
example : near fixed32 (do sin fixed32 (← divInt fixed32 i32 (← cPi fixed32) 6)) (ld32 (5 / 10)) eps32 = .ok true := by decide +kernel
example : cos fixed32 (li32 0) = .ok (li32 1) := by decide +kernel
example : near fixed32 (do cos fixed32 (← divInt fixed32 i32 (← cPi fixed32) 3)) (ld32 (5 / 10)) eps32 = .ok true := by decide +kernel
example : near fixed32 (cos fixed32 (li32 1)) (ld32 (540302 / 1000000)) eps32 = .ok true := by decide +kernel
example : tan fixed32 (li32 0) = .ok (li32 0) := by decide +kernel
example : near fixed32 (tan fixed32 (li32 1)) (ld32 (1557407 / 1000000)) eps32 = .ok true := by decide +kernel
example : near fixed32 (atan fixed32 (li32 0)) (.ok (li32 0)) arc32 = .ok true := by decide +kernel
example : near fixed32 (do atan fixed32 (← divInt fixed32 i32 (← cPi fixed32) 6)) (ld32 (482348 / 1000000)) arc32 = .ok true := by decide +kernel
example : near fixed32 (atan fixed32 (li32 1)) (ld32 (785398 / 1000000)) arc32 = .ok true := by decide +kernel
example : near fixed32 (asin fixed32 (li32 0)) (.ok (li32 0)) arc32 = .ok true := by decide +kernel
example : near fixed32 (do asin fixed32 (← ld32 (5 / 10))) (ld32 (523598 / 1000000)) arc32 = .ok true := by decide +kernel
example : near fixed32 (acos fixed32 (li32 0)) (ld32 (1570796 / 1000000)) arc32 = .ok true := by decide +kernel
example : near fixed32 (do acos fixed32 (← ld32 (5 / 10))) (ld32 (1047197 / 1000000)) arc32 = .ok true := by decide +kernel
example : sqrt fixed32 (li32 0) = .ok (li32 0) := by decide +kernel
example : sqrt fixed32 (li32 4) = .ok (li32 2) := by decide +kernel
example : (do sqrt fixed32 (← ld32 (114514 / 1000))) = ld32 (10701121 / 1000000) := by decide +kernel
example : near fixed32 (cbrt fixed32 (li32 0)) (.ok (li32 0)) eps32 = .ok true := by decide +kernel
example : cbrt fixed32 (li32 1) = .ok (li32 1) := by decide +kernel
example : cbrt fixed32 (li32 8) = .ok (li32 2) := by decide +kernel
example : cbrt fixed32 (li32 27) = .ok (li32 3) := by decide +kernel
example : log2 fixed32 (li32 2) = .ok (li32 1) := by decide +kernel
example : log2 fixed32 (li32 10) = ld32 (3321928 / 1000000) := by decide +kernel
example : near fixed32 (do log fixed32 (← cE fixed32)) (.ok (li32 1)) eps32 = .ok true := by decide +kernel
example : near fixed32 (do log fixed32 (← ld32 (114514 / 1000))) (ld32 (4740697 / 1000000)) eps32 = .ok true := by decide +kernel
example : near fixed32 (log10 fixed32 (li32 10)) (.ok (li32 1)) eps32 = .ok true := by decide +kernel
example : near fixed32 (do log10 fixed32 (← ld32 (114514 / 1000))) (ld32 (2058859 / 1000000)) eps32 = .ok true := by decide +kernel
example : near fixed32 (exp fixed32 (li32 1)) (cE fixed32) eps32 = .ok true := by decide +kernel
example : near fixed32 (radians fixed32 (li32 180)) (cPi fixed32) eps32 = .ok true := by decide +kernel
example : near fixed32 (do degrees fixed32 (← cPi fixed32)) (.ok (li32 180)) eps32 = .ok true := by decide +kernel

/-! ### `TEST(Fixed64, Operator)` `main.cpp:254-275` -/
example : (do let r ← preInc fixed64 (← l64 "0"); pure r.2) = l64 "1" := by decide +kernel
example : (do add fixed64 (← l64 "1.14") (← l64 "5.14")) = l64 "6.28" := by decide +kernel
example : (do mulInt fixed64 i32 (← l64 "1.14") 2) = l64 "2.28" := by decide +kernel
example : (do divInt fixed64 i32 (← l64 "514") 2) = l64 "257" := by decide +kernel
example : (do divideInt fixed64 i32 (← l64 "514") 2) = l64 "257" := by decide +kernel
example : (do rem fixed64 (← l64 "515") (← l64 "2")) = l64 "1" := by decide +kernel
example : (do let r ← preDec fixed64 (← l64 "1.14"); pure r.2) = l64 "0.14" := by decide +kernel
example : (do divideInt fixed64 i32 (← l64 "514") 0) = .throw .divideByZero := by decide +kernel

/-! ### `TEST(Fixed64, Rounding)` `main.cpp:277-283` -/
example : (do round fixed64 (← l64 "114.414")) = l64 "114" := by decide +kernel
example : (do round fixed64 (← l64 "114.514")) = l64 "115" := by decide +kernel
example : (do round fixed64 (← neg fixed64 (← l64 "114.414"))) = (do neg fixed64 (← l64 "114")) := by decide +kernel
example : (do round fixed64 (← neg fixed64 (← l64 "114.514"))) = (do neg fixed64 (← l64 "115")) := by decide +kernel

/-! ### `TEST(Fixed64, Decompression)` `main.cpp:285-304` -/
example : signbit fixed64 0 = false ∧ signbit fixed64 (ofInt fixed64 1) = false ∧ signbit fixed64 (ofInt fixed64 (-1)) = true := by decide +kernel
example : rawIntegralPart fixed64 (ofInt fixed64 1) = .ok 1 ∧ rawIntegralPart fixed64 (ofInt fixed64 (-1)) = .ok 2147483647 := by decide +kernel
example : integralPart fixed64 (ofInt fixed64 1) = .ok 1 ∧ integralPart fixed64 (ofInt fixed64 (-1)) = .ok 1 := by decide +kernel
example : fractionalPart fixed64 (ofInt fixed64 1) = .ok 0 ∧ fractionalPart fixed64 (ofInt fixed64 (-1)) = .ok 0 := by decide +kernel
example : (do integralPart fixed64 (← divInt fixed64 i32 (← l64 "1") 2)) = .ok 0 ∧
    (do fractionalPart fixed64 (← divInt fixed64 i32 (← l64 "1") 2)) = .ok (2 ^ 31) := by decide +kernel

/-! ### `TEST(Fixed64, Math)` `main.cpp:306-347` -/
example : (do abs fixed64 (← neg fixed64 (← l64 "114.514"))) = l64 "114.514" := by decide +kernel
example : (do sin fixed64 (← l64 "0")) = l64 "0" := by decide +kernel
example : near fixed64 (do sin fixed64 (← l64 "1")) (l64 "0.841471") eps64 = .ok true := by decide +kernel
example : near fixed64 (do sin fixed64 (← divInt fixed64 i32 (← cPi fixed64) 6)) (l64 "0.5") eps64 = .ok true := by decide +kernel
example : near fixed64 (do cos fixed64 (← l64 "0")) (l64 "1") eps64 = .ok true := by decide +kernel
example : near fixed64 (do cos fixed64 (← divInt fixed64 i32 (← cPi fixed64) 3)) (l64 "0.5") eps64 = .ok true := by decide +kernel
example : near fixed64 (do cos fixed64 (← l64 "1")) (l64 "0.540302") eps64 = .ok true := by decide +kernel
example : (do tan fixed64 (← l64 "0")) = l64 "0" := by decide +kernel
example : near fixed64 (do tan fixed64 (← l64 "1")) (l64 "1.557407") eps64 = .ok true := by decide +kernel
example : near fixed64 (do atan fixed64 (← l64 "0")) (l64 "0") arc64 = .ok true := by decide +kernel
example : near fixed64 (do atan fixed64 (← divInt fixed64 i32 (← cPi fixed64) 6)) (l64 "0.482348") arc64 = .ok true := by decide +kernel
example : near fixed64 (do atan fixed64 (← l64 "1")) (l64 "0.785398") arc64 = .ok true := by decide +kernel
example : near fixed64 (do asin fixed64 (← l64 "0")) (l64 "0") arc64 = .ok true := by decide +kernel
example : near fixed64 (do asin fixed64 (← l64 "0.5")) (l64 "0.523598") arc64 = .ok true := by decide +kernel
example : near fixed64 (do acos fixed64 (← l64 "0")) (l64 "1.570796") arc64 = .ok true := by decide +kernel
example : near fixed64 (do acos fixed64 (← l64 "0.5")) (l64 "1.047197") arc64 = .ok true := by decide +kernel
example : near fixed64 (do sqrt fixed64 (← l64 "0")) (l64 "0") eps64 = .ok true := by decide +kernel
example : near fixed64 (do sqrt fixed64 (← l64 "4")) (l64 "2") eps64 = .ok true := by decide +kernel
example : near fixed64 (do sqrt fixed64 (← l64 "114.514")) (l64 "10.701121") eps64 = .ok true := by decide +kernel
example : near fixed64 (do cbrt fixed64 (← l64 "0")) (l64 "0") eps64 = .ok true := by decide +kernel
example : near fixed64 (do cbrt fixed64 (← l64 "1")) (l64 "1") eps64 = .ok true := by decide +kernel
example : near fixed64 (do cbrt fixed64 (← l64 "8")) (l64 "2") eps64 = .ok true := by decide +kernel
example : near fixed64 (do cbrt fixed64 (← l64 "27")) (l64 "3") eps64 = .ok true := by decide +kernel
example : near fixed64 (do log2 fixed64 (← l64 "2")) (l64 "1") eps64 = .ok true := by decide +kernel
example : near fixed64 (do log2 fixed64 (← l64 "10")) (l64 "3.321928") eps64 = .ok true := by decide +kernel
example : near fixed64 (do log fixed64 (← cE fixed64)) (l64 "1") eps64 = .ok true := by decide +kernel
example : near fixed64 (do log fixed64 (← l64 "114.514")) (l64 "4.740697") eps64 = .ok true := by decide +kernel
example : near fixed64 (do log10 fixed64 (← l64 "10")) (l64 "1") eps64 = .ok true := by decide +kernel
example : near fixed64 (do log10 fixed64 (← l64 "114.514")) (l64 "2.058859") eps64 = .ok true := by decide +kernel
example : near fixed64 (do exp fixed64 (← l64 "1")) (cE fixed64) eps64 = .ok true := by decide +kernel
example : (do radians fixed64 (← l64 "180")) = cPi fixed64 := by decide +kernel
example : (do degrees fixed64 (← cPi fixed64)) = l64 "180" := by decide +kernel
example : (do radians fixed64 (← l64 "90")) = (do divInt fixed64 i32 (← cPi fixed64) 2) := by decide +kernel
example : (do degrees fixed64 (← divInt fixed64 i32 (← cPi fixed64) 2)) = l64 "90" := by decide +kernel

/-! ### `TEST(Fixed32, StdFormat)` `test_io.cpp:8-37` -/

/-- `std::format("{:spec}", x)`: the specification is parsed from behind the colon up to the closing brace. -/
def fmt (spec : String) (x : Res Int) : Res String := do
  let r ← parseSpec (spec.toList ++ ['}'])
  let s ← formatTo fixed32 r.2 (← x)
  pure (String.ofList s)

example : fmt "?" (.ok (li32 0)) = .ok "0" := by decide +kernel
example : fmt "#?" (neg fixed32 (li32 1)) = .ok "-0x10000" := by decide +kernel
example : fmt "d" (.ok (li32 0)) = .ok "0" := by decide +kernel
example : fmt "d" (neg fixed32 (li32 1)) = .ok "-1" := by decide +kernel
example : fmt "" (.ok (li32 0)) = .ok "0" := by decide +kernel
example : fmt "" (.ok (li32 1)) = .ok "1" := by decide +kernel
example : fmt "#04x" (.ok (li32 15)) = .ok "0x0f" := by decide +kernel
example : fmt "#04X" (.ok (li32 15)) = .ok "0X0F" := by decide +kernel
example : fmt "" (divInt fixed32 i32 (li32 1) 2) = .ok "0.5" := by decide +kernel
example : fmt "g" (divInt fixed32 i32 (li32 1) 2) = .ok "0.5" := by decide +kernel
example : fmt "f" (divInt fixed32 i32 (li32 1) 2) = .ok "0.500000" := by decide +kernel
example : fmt ".2f" (divInt fixed32 i32 (li32 1) 2) = .ok "0.50" := by decide +kernel
example : fmt "d" (cPi fixed32) = .ok "3" := by decide +kernel
example : fmt ".2g" (cPi fixed32) = .ok "3.14" := by decide +kernel
example : fmt ".2f" (cPi fixed32) = .ok "3.14" := by decide +kernel
example : fmt ".4f" (cPi fixed32) = .ok "3.1415" := by decide +kernel

/-! ### `TEST(Fixed32, OStream)` `test_io.cpp:41-52` -/
example : streamOut fixed32 (li32 0) false true false false = .ok ['0'] := by decide +kernel

end Eirin.Conformance
