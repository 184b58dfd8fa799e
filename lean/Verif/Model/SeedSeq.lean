import Verif.Model.Random

/-! # `std::seed_seq` as used by `/repo/include/eirin/random.hpp:106-112, 203-206`

`seed(std::seed_seq&)` lets the sequence fill a vector of two elements.  `generate` is specified by the standard
([rand.util.seedseq]/8); here for a range of `n = 2` elements, where `t = 0`, `p = q = 1`, and indices are taken modulo 2.
All operations are modulo `2^32`, also when the elements are 64 bits wide. -/

namespace Eirin

/-- `T(x) = x xor (x rshift 27)`. -/
def seedT (x : Nat) : Nat := x ^^^ (x / 2 ^ 27)

/-- Step `k` of the first transformation on the pair (`cur = begin[k]`, `oth = begin[k ± 1]`); `add` is the term added to `r1`: the size of the
sequence for `k = 0`, then `k mod 2` plus the word `v[k - 1]` (if there is one).  The result is again (`begin[k]`, `begin[k + 1]`). -/
def seedMix1 (cur oth add : Nat) : Nat × Nat :=
  let r1 := 1664525 * seedT (cur ^^^ oth ^^^ oth) % 2 ^ 32
  let r2 := (r1 + add) % 2 ^ 32
  (r2, ((oth + r1) % 2 ^ 32 + r2) % 2 ^ 32)

/-- Step `k` of the second transformation, `sub = k mod 2`. -/
def seedMix2 (cur oth sub : Nat) : Nat × Nat :=
  let r3 := 1566083941 * seedT ((cur + oth + oth) % 2 ^ 32) % 2 ^ 32
  let r4 := (r3 + (2 ^ 32 - sub)) % 2 ^ 32
  (r4, oth ^^^ r3 ^^^ r4)

/-- The first transformation for `k = k₀, k₀ + 1, …`: `adds` are the words still to be added. The pair is (`begin[k]`, `begin[k + 1]`). -/
def seedFirst : Nat → List Nat → Nat × Nat → Nat × Nat
  | _, [], s => s
  | k, w :: ws, s =>
    let (c, o) := seedMix1 s.1 s.2 (k % 2 + w)
    seedFirst (k + 1) ws (o, c)

/-- `seq.generate` into two elements, for the sequence with the 32-bit words `v`: `m = max(s + 1, 2)` first steps and two second steps, starting
from `0x8b8b8b8b`.  (For an empty sequence step `k = 1` adds `1` only.) -/
def seedGenerate2 (v : List Nat) : Nat × Nat :=
  let (c, o) := seedMix1 0x8b8b8b8b 0x8b8b8b8b v.length
  let ws := if v = [] then [0] else v
  let m := ws.length + 1
  let s := seedFirst 1 ws (o, c)
  let (c, o) := seedMix2 s.1 s.2 (m % 2)
  let (c, o) := seedMix2 o c ((m + 1) % 2)
  -- `c` is `begin[m + 1]`, `o` is `begin[m]`
  if m % 2 = 0 then (o, c) else (c, o)

variable (P : PcgParams)

/-- `seed(std::seed_seq&)` of the engine. `random.hpp:106-112`. -/
def Pcg.seedBy (e : Pcg) (v : List Nat) : Pcg := e.reseedSeq P (seedGenerate2 v).1 (seedGenerate2 v).2

/-- `operator!=` of the engine. `random.hpp:134-137`. -/
def Pcg.ne (a b : Pcg) : Bool := !Pcg.eq a b

/-- `operator!=` of the adapter. `random.hpp:218-221`. -/
def adapterNe (E : Engine) (a b : E.σ) : Bool := !adapterEq E a b

end Eirin
