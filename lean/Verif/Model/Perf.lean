import Verif.Model.Math

/-!
# Model of `/repo/include/eirin/detail/perf.hpp`

`measure_esp` is a template over the number type; it is modelled at the fixed-point types, for which the library's own
`abs`, comparison, subtraction and `+=` are used.
-/

namespace Eirin

variable (F : FxTy)

/-- `esp_ret`. `perf.hpp:15-26`. -/
structure EspRet where
  maxEsp : Int
  minEsp : Int
  maxInput : Int
  minInput : Int
  deriving DecidableEq, Repr

/-- One iteration of the loop body. `perf.hpp:34-46`. -/
def espStep (func stdFunc : Int → Res Int) (x : Int) (s : EspRet) : Res EspRet := do
  let v ← func x
  let w ← stdFunc x
  let d ← sub F w v
  let e ← Eirin.abs F d
  let s := if gt e s.maxEsp then { s with maxEsp := e, maxInput := x } else s
  let s := if lt e s.minEsp then { s with minEsp := e, minInput := x } else s
  pure s

/-- The loop `for(T x = start; x <= end; x += step)`.  The recursion is over a bound on the number of iterations; running out of it is
reported as divergence, so a result other than `diverges` does not depend on the bound. `perf.hpp:32-47`. -/
def espLoop (func stdFunc : Int → Res Int) (stop step : Int) : Nat → Int → EspRet → Res EspRet
  | 0, _, _ => .ub .diverges
  | n + 1, x, s =>
    if le x stop then do
      let s ← espStep F func stdFunc x s
      let x ← addAssign F x step
      espLoop func stdFunc stop step n x s
    else .ok s

/-- `measure_esp(start, end, step, func, std_func, initializer)`; `fuel` bounds the number of iterations. `perf.hpp:28-49`. -/
def measureEsp (func stdFunc : Int → Res Int) (init : Int → Res Int) (fuel : Nat) (start stop step : Int) : Res EspRet := do
  let m ← init 0
  let n ← init 0xFF
  let a ← init 0
  let b ← init 0
  espLoop F func stdFunc stop step fuel start ⟨m, n, a, b⟩

end Eirin
