import Verif.Model.Platform
import Mathlib.Logic.Function.Basic

/-!
# The CPU feature query called from several threads

`simd_math.hpp:28-107` again (see `Model/Platform.lean`), one memory access per step.  `features_detected` and `features_flag` are plain static
members: every access is an ordinary load or store, and `std::bitset::set` loads the word and stores it back.  Simplifications: memory is sequentially
consistent (the real machine and compiler allow more behaviours, so failures found here are real ones), all threads run on the same processor, and
the `CPUID` instruction, which touches no shared memory, belongs to the following store.
-/

namespace Eirin

/-- The two static members. `simd_math.hpp:30-34`. -/
structure SharedFlags where
  detected : Bool := false
  flags : BitVec 8 := 0
  deriving DecidableEq

/-- The bit the detection writes at each position. `simd_math.hpp:45-51`. -/
def detectBit (cpu : Cpu) : Fin 6 → Bool
  | 0 => maskBit (cpu 1 0).edx 26
  | 1 => maskBit (cpu 1 0).ecx 20
  | 2 => maskBit (cpu 1 0).ecx 28
  | 3 => maskBit (cpu 7 0).ebx 5
  | 4 => maskBit (cpu 7 0).ebx 16
  | 5 => maskBit (cpu 7 0).ebx 17

/-- Where a thread is; `q` is the position its query tests. -/
inductive Pc where
  /-- outside the class -/
  | idle
  /-- about to read `features_detected` (`simd_math.hpp:38`) -/
  | enter (q : Fin 6)
  /-- has read `false`, about to write `true` (`simd_math.hpp:40`) -/
  | claim (q : Fin 6)
  /-- about to load the word for the `i`-th `set` (`simd_math.hpp:45-51`) -/
  | load (q i : Fin 6)
  /-- about to store the word `w` it loaded, with bit `i` set or cleared -/
  | store (q i : Fin 6) (w : BitVec 8)
  /-- about to read the word in `test` (`simd_math.hpp:75, 81, 87, 93, 99, 105`) -/
  | test (q : Fin 6)
  /-- has returned `b` -/
  | answer (q : Fin 6) (b : Bool)
  deriving DecidableEq

/-- One step of a thread; an idle thread asks for the feature `ask`. -/
def Pc.step (x86 : Bool) (cpu : Cpu) (ask : Fin 6) (s : SharedFlags) : Pc → Pc × SharedFlags
  | .idle => (.enter ask, s)
  | .enter q => (if s.detected then .test q else .claim q, s)
  | .claim q => (if x86 then .load q 0 else .test q, { s with detected := true })
  | .load q i => (.store q i s.flags, s)
  | .store q i w => (if h : i.val + 1 < 6 then .load q ⟨i.val + 1, h⟩ else .test q, { s with flags := bitsetSet w i (detectBit cpu i) })
  | .test q => (.answer q (bitsetTest s.flags q), s)
  | .answer _ _ => (.idle, s)

/-- The shared members and the position of every thread. -/
structure Threads (ι : Type) where
  sh : SharedFlags := {}
  pc : ι → Pc := fun _ => .idle

/-- Thread `t` makes a step. -/
def Threads.step {ι : Type} [DecidableEq ι] (x86 : Bool) (cpu : Cpu) (c : Threads ι) (t : ι) (ask : Fin 6) : Threads ι :=
  ⟨((c.pc t).step x86 cpu ask c.sh).2, Function.update c.pc t ((c.pc t).step x86 cpu ask c.sh).1⟩

/-- The threads run under a schedule. -/
def Threads.run {ι : Type} [DecidableEq ι] (x86 : Bool) (cpu : Cpu) (sched : List (ι × Fin 6)) (c : Threads ι) : Threads ι :=
  sched.foldl (fun c a => c.step x86 cpu a.1 a.2) c

end Eirin
