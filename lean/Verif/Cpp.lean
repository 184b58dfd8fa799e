import Mathlib.Tactic.Ring
import Mathlib.Tactic.Linarith
import Mathlib.Tactic.NormNum
import Mathlib.Tactic.Positivity
import Mathlib.Algebra.Order.Ring.Int
import Mathlib.Data.Int.Order.Basic

/-!
# The fragment of C++20 integer semantics used by EirinFixed

This file models the *language*, not the library: integer types, conversions, and the built-in operators on
integers, as fixed by ISO C++20 (two's complement, [conv.integral], [expr.shift], [expr.mul], [expr.arith.conv]).

* A C++ integer value is an `Int`; the type it has is tracked by the function that manipulates it.
* Undefined behaviour is an explicit outcome `Res.ub`, exceptions are `Res.throw`.
* `__int128` (used by `fixed64`) is treated as an ordinary 128-bit signed type (GCC/Clang; `/repo/include/eirin/detail/int128.hpp:36-41`).
* Type sizes are those of LP64 / LLP64: `int` has 32 bits, `long long` 64 bits.
-/

namespace Eirin

/-- The kinds of undefined behaviour that the modelled code can exhibit. -/
inductive UB where
  /-- signed integer overflow, or a floating value not representable after truncation ([expr.pre]/4, [conv.fpint]) -/
  | overflow
  /-- integer division or remainder by zero ([expr.mul]/4) -/
  | divZero
  /-- shift count negative or not below the width of the promoted operand ([expr.shift]/1) -/
  | shift
  /-- read outside an array / past the end of a buffer -/
  | bounds
  /-- violated precondition of a standard-library component -/
  | precondition
  /-- use of an indeterminate value ([basic.indet], [dcl.init]/12 in C++20) -/
  | uninit
  /-- a loop that the model proves or assumes not to terminate normally -/
  | diverges
  deriving DecidableEq, Repr

/-- Exceptions thrown by the library. `/repo/include/eirin/error.hpp:8-13`, `math.hpp:271`, `format.hpp:489`. -/
inductive Exn where
  | divideByZero
  | domainError
  | formatError
  /-- an exception reached the boundary of a `noexcept` function: `std::terminate` is called ([except.spec]/5) -/
  | terminate
  deriving DecidableEq, Repr

/-- Outcome of evaluating a C++ expression. -/
inductive Res (α : Type) where
  | ok (a : α)
  | ub (u : UB)
  | throw (e : Exn)
  deriving DecidableEq, Repr

namespace Res
/-- Sequencing: the first non-`ok` outcome wins. -/
@[inline] def bind {α β : Type} : Res α → (α → Res β) → Res β
  | ok a, k => k a
  | ub u, _ => ub u
  | throw e, _ => throw e

instance : Monad Res where
  pure := ok
  bind := bind

variable {α β : Type}
@[simp] theorem bind_ok (a : α) (k : α → Res β) : (Res.ok a >>= k) = k a := rfl
@[simp] theorem bind_ub (u : UB) (k : α → Res β) : (Res.ub u >>= k) = .ub u := rfl
@[simp] theorem bind_throw (e : Exn) (k : α → Res β) : (Res.throw e >>= k) = .throw e := rfl
@[simp] theorem pure_eq (a : α) : (pure a : Res α) = .ok a := rfl
@[simp] theorem map_ok (g : α → β) (a : α) : g <$> (Res.ok a) = .ok (g a) := rfl
@[simp] theorem map_ub (g : α → β) (u : UB) : g <$> (Res.ub u : Res α) = .ub u := rfl
@[simp] theorem map_throw (g : α → β) (e : Exn) : g <$> (Res.throw e : Res α) = .throw e := rfl

/-- The outcome is undefined behaviour. -/
def IsUB : Res α → Prop
  | ub _ => True
  | _ => False
/-- The outcome is a normal value. -/
def IsOk : Res α → Prop
  | ok _ => True
  | _ => False
@[simp] theorem isUB_ok (a : α) : (Res.ok a).IsUB = False := rfl
@[simp] theorem isUB_ub (u : UB) : (Res.ub u : Res α).IsUB = True := rfl
@[simp] theorem isUB_throw (e : Exn) : (Res.throw e : Res α).IsUB = False := rfl
@[simp] theorem isOk_ok (a : α) : (Res.ok a).IsOk = True := rfl
@[simp] theorem isOk_ub (u : UB) : (Res.ub u : Res α).IsOk = False := rfl
@[simp] theorem isOk_throw (e : Exn) : (Res.throw e : Res α).IsOk = False := rfl
instance (r : Res α) : Decidable r.IsUB := by cases r <;> simp <;> infer_instance
instance (r : Res α) : Decidable r.IsOk := by cases r <;> simp <;> infer_instance
end Res

/-- The boundary of a `noexcept` function: an exception escaping the body terminates the program ([except.spec]/5). -/
def nothrow {α : Type} : Res α → Res α
  | .throw _ => .throw .terminate
  | r => r

/-- A C++ integer type: width in bits and signedness. -/
structure IntTy where
  bits : Nat
  signed : Bool
  deriving DecidableEq, Repr

namespace IntTy
/-- smallest value -/
def lo (t : IntTy) : Int := if t.signed then -(2 ^ (t.bits - 1)) else 0
/-- largest value -/
def hi (t : IntTy) : Int := if t.signed then 2 ^ (t.bits - 1) - 1 else 2 ^ t.bits - 1
/-- `n` is a value of type `t` -/
def InRange (t : IntTy) (n : Int) : Prop := t.lo ≤ n ∧ n ≤ t.hi
instance (t : IntTy) (n : Int) : Decidable (t.InRange n) := by unfold InRange; infer_instance
/-- Integral conversion to `t` ([conv.integral]/3): the unique value of `t` congruent to `n` modulo `2^bits`. -/
def wrap (t : IntTy) (n : Int) : Int :=
  if t.signed then Int.bmod n (2 ^ t.bits) else n % (2 ^ t.bits : Nat)
/-- Integral promotion ([conv.prom]): types narrower than `int` become `int`. -/
def promote (t : IntTy) : IntTy := if t.bits < 32 then ⟨32, true⟩ else t
/-- Usual arithmetic conversions ([expr.arith.conv]) on two integer types. -/
def common (a b : IntTy) : IntTy :=
  let a := promote a
  let b := promote b
  if a.signed = b.signed then (if a.bits ≤ b.bits then b else a)
  else if a.signed then (if a.bits ≤ b.bits then b else a)
  else (if b.bits ≤ a.bits then a else b)
end IntTy

abbrev i8 : IntTy := ⟨8, true⟩
abbrev i16 : IntTy := ⟨16, true⟩
abbrev i32 : IntTy := ⟨32, true⟩
abbrev i64 : IntTy := ⟨64, true⟩
abbrev i128 : IntTy := ⟨128, true⟩
abbrev u8 : IntTy := ⟨8, false⟩
abbrev u16 : IntTy := ⟨16, false⟩
abbrev u32 : IntTy := ⟨32, false⟩
abbrev u64 : IntTy := ⟨64, false⟩
abbrev u128 : IntTy := ⟨128, false⟩

/-- The result of an arithmetic operation whose exact value is `n`, performed in the (already promoted) type `t`:
unsigned arithmetic is modular, signed arithmetic out of range is UB ([basic.fundamental]/2, [expr.pre]/4). -/
def arith (t : IntTy) (n : Int) : Res Int :=
  if t.signed then (if t.InRange n then .ok n else .ub .overflow) else .ok (t.wrap n)

/-- `a / b` in the (already promoted) type `t` ([expr.mul]/4): truncation toward zero. -/
def cdiv (t : IntTy) (a b : Int) : Res Int :=
  if b = 0 then .ub .divZero
  else if t.signed ∧ ¬ t.InRange (Int.tdiv a b) then .ub .overflow
  else .ok (Int.tdiv a b)

/-- `a % b` in the (already promoted) type `t`; UB also when `a / b` is not representable ([expr.mul]/4). -/
def cmod (t : IntTy) (a b : Int) : Res Int :=
  if b = 0 then .ub .divZero
  else if t.signed ∧ ¬ t.InRange (Int.tdiv a b) then .ub .overflow
  else .ok (Int.tmod a b)

/-- `a << k` with `a` of type `t` ([expr.shift]/2, C++20): modular in the promoted type. -/
def shl (t : IntTy) (a : Int) (k : Nat) : Res Int :=
  if k < t.promote.bits then .ok (t.promote.wrap (a * 2 ^ k)) else .ub .shift

/-- `a >> k` with `a` of type `t` ([expr.shift]/3, C++20): arithmetic shift, rounding toward minus infinity. -/
def shr (t : IntTy) (a : Int) (k : Nat) : Res Int :=
  if k < t.promote.bits then .ok (a / 2 ^ k) else .ub .shift

/-- `~a` with `a` of type `t` ([expr.unary.op]/10). -/
def cnot (t : IntTy) (a : Int) : Int := t.promote.wrap (-a - 1)

/-- `a & b` for two values of type `t`. -/
def band (t : IntTy) (a b : Int) : Int :=
  t.wrap ((BitVec.ofInt t.bits a &&& BitVec.ofInt t.bits b).toNat)

/-! ### Basic facts about conversions -/

namespace IntTy

theorem lo_le_hi (t : IntTy) (_h : 0 < t.bits) : t.lo ≤ t.hi := by
  unfold lo hi
  have h1 : (1 : Int) ≤ 2 ^ (t.bits - 1) := one_le_pow₀ (by norm_num)
  have h2 : (1 : Int) ≤ 2 ^ t.bits := one_le_pow₀ (by norm_num)
  split <;> omega

theorem two_pow_pred (n : Nat) (h : 0 < n) : (2 : Int) ^ n = 2 * 2 ^ (n - 1) := by
  obtain ⟨m, rfl⟩ : ∃ m, n = m + 1 := ⟨n - 1, by omega⟩
  simp [pow_succ]; ring

theorem wrap_of_inRange {t : IntTy} {n : Int} (hb : 0 < t.bits) (h : t.InRange n) : t.wrap n = n := by
  obtain ⟨h1, h2⟩ := h
  unfold lo at h1; unfold hi at h2; unfold wrap
  cases hs : t.signed
  · simp only [hs] at h1 h2 ⊢
    simp only [Bool.false_eq_true, if_false] at *
    apply Int.emod_eq_of_lt h1
    push_cast; omega
  · simp only [hs, if_true] at h1 h2 ⊢
    have e := two_pow_pred t.bits hb
    have hpos : (0 : Int) < 2 ^ (t.bits - 1) := by positivity
    rw [Int.bmod_eq_of_le]
    · push_cast; omega
    · push_cast; omega

theorem wrap_inRange {t : IntTy} (n : Int) (hb : 0 < t.bits) : t.InRange (t.wrap n) := by
  unfold InRange lo hi wrap
  have e := two_pow_pred t.bits hb
  have hpos : (0 : Int) < 2 ^ (t.bits - 1) := by positivity
  cases hs : t.signed
  · simp only [Bool.false_eq_true, if_false]
    have hp : (0 : Int) < ((2 ^ t.bits : Nat) : Int) := by positivity
    have h1 := Int.emod_nonneg n (ne_of_gt hp)
    have h2 := Int.emod_lt_of_pos n hp
    push_cast at *
    constructor <;> omega
  · simp only [if_true]
    have hp : 0 < (2 ^ t.bits : Nat) := by positivity
    have h1 := Int.le_bmod (x := n) hp
    have h2 := Int.bmod_lt (x := n) hp
    push_cast at *
    constructor <;> omega

theorem wrap_dvd (t : IntTy) (n : Int) : ((2 : Int) ^ t.bits) ∣ (n - t.wrap n) := by
  unfold wrap
  split
  · have := Int.dvd_self_sub_bmod (x := n) (m := 2 ^ t.bits)
    push_cast at this; exact this
  · have := Int.dvd_self_sub_emod (x := n) (m := ((2 ^ t.bits : Nat) : Int))
    push_cast at this; simpa using this

theorem inRange_promote {t : IntTy} {n : Int} (hb : 0 < t.bits) (h : t.InRange n) : t.promote.InRange n := by
  unfold promote
  split
  · rename_i hlt
    obtain ⟨h1, h2⟩ := h
    unfold lo at h1; unfold hi at h2
    have a1 : (2 : Int) ^ (t.bits - 1) ≤ 2 ^ 31 := pow_le_pow_right₀ (by norm_num) (by omega)
    have a2 : (2 : Int) ^ t.bits ≤ 2 ^ 31 := pow_le_pow_right₀ (by norm_num) (by omega)
    unfold InRange lo hi
    simp only [if_true]
    cases hs : t.signed <;> simp only [hs, if_true, Bool.false_eq_true, if_false] at h1 h2 <;>
      norm_num at a1 a2 ⊢ <;> omega
  · exact h

end IntTy

theorem arith_of_inRange {t : IntTy} {n : Int} (hb : 0 < t.bits) (h : t.InRange n) : arith t n = .ok n := by
  unfold arith
  split
  · simp_all
  · rw [IntTy.wrap_of_inRange hb h]

theorem arith_signed {t : IntTy} {n : Int} (hs : t.signed = true) :
    arith t n = if t.InRange n then .ok n else .ub .overflow := by
  unfold arith; simp [hs]

end Eirin
