import Verif.Model.Math
import Verif.Lemmas.Arith
import Verif.Lemmas.Round
import Verif.Lemmas.Bits
import Verif.Props.Laws

/-! # Evaluation lemmas for signed storage of at least `int` width -/

namespace Eirin
open Spec

/-- A type with signed storage of 32 or 64 bits in which one is representable. -/
structure SW (F : FxTy) : Prop where
  valid : F.Valid
  sw : SignedWide F
  one : Storable F (2 ^ F.f)

theorem sw32 : SW fixed32 := ⟨by decide, by decide, by decide +kernel⟩
theorem sw64 : SW fixed64 := ⟨by decide, by decide, by decide +kernel⟩

/-- A type with signed storage of any width in which one is representable. -/
structure SG (F : FxTy) : Prop where
  valid : F.Valid
  sg : F.T.signed = true
  one : Storable F (2 ^ F.f)

theorem SW.gen {F : FxTy} (h : SW F) : SG F := ⟨h.valid, h.sw.1, h.one⟩

namespace SG
variable {F : FxTy} (h : SG F)
include h

theorem tpos : 0 < F.T.bits := h.valid.tpos
theorem lo_eq : F.T.lo = -(2 ^ (F.T.bits - 1)) := by unfold IntTy.lo; simp [h.sg]
theorem hi_eq : F.T.hi = 2 ^ (F.T.bits - 1) - 1 := by unfold IntTy.hi; simp [h.sg]
theorem lo_hi : F.T.lo = -F.T.hi - 1 := by rw [h.lo_eq, h.hi_eq]; ring
theorem d_le : (2 : Int) ^ F.f ≤ F.T.hi := h.one.2
theorem arith_ok {n : Int} (hn : F.T.InRange n) : arith F.P n = .ok n :=
  arith_of_inRange h.valid.ppos (IntTy.inRange_promote h.valid.tpos hn)
theorem wrap_ok {n : Int} (hn : F.T.InRange n) : F.T.wrap n = n := IntTy.wrap_of_inRange h.tpos hn
theorem from_ok {n : Int} (hn : F.T.InRange n) : fromInternal F n = n := h.wrap_ok hn
theorem one_eq : oneShl F = 2 ^ F.f := Props.oneShl_eq F h.valid h.one
theorem tdiv_inRange {x d : Int} (hx : F.T.InRange x) (hd : 0 < d) : F.T.InRange (Int.tdiv x d) := by
  rw [tdiv_inRange_iff hx (ne_of_gt hd) h.sg]; omega
theorem add_ok {x y : Int} (hn : F.T.InRange (x + y)) : add F x y = .ok (x + y) := by
  unfold add; rw [h.arith_ok hn, Res.bind_ok, h.wrap_ok hn]; rfl
theorem sub_ok {x y : Int} (hn : F.T.InRange (x - y)) : sub F x y = .ok (x - y) := by
  unfold sub; rw [h.arith_ok hn, Res.bind_ok, h.wrap_ok hn]; rfl
theorem neg_ok {x : Int} (hn : F.T.InRange (-x)) : neg F x = .ok (-x) := by
  unfold neg; rw [h.arith_ok hn, Res.bind_ok, h.wrap_ok hn]; rfl
theorem abs_ok {x : Int} (hx : F.T.InRange x) (hn : F.T.lo < x) : abs F x = .ok |x| := by
  unfold abs
  have := h.lo_hi
  by_cases h0 : x < 0
  · have hr : F.T.InRange (-x) := ⟨by have := hx.1; omega, by omega⟩
    simp only [if_pos h0, h.arith_ok hr, Res.bind_ok, h.from_ok hr, abs_of_neg h0, Res.pure_eq]
  · simp only [if_neg h0, Res.pure_eq, Res.bind_ok, h.from_ok hx, abs_of_nonneg (not_lt.1 h0)]
theorem zero_in : F.T.InRange 0 := by
  have := h.lo_hi; have := h.d_le
  have : (0 : Int) < 2 ^ F.f := by positivity
  constructor <;> omega
theorem mul_ok (hr : F.r = false) {x y : Int} (hx : F.T.InRange x) (hy : F.T.InRange y)
    (hn : F.T.InRange (x * y / 2 ^ F.f)) : mul F x y = .ok (x * y / 2 ^ F.f) := by
  rw [mul_nf h.valid hr hx hy, h.wrap_ok hn]
theorem div_ok (hr : F.r = false) {x y : Int} (hx : F.T.InRange x) (hy : y ≠ 0)
    (hn : F.T.InRange (Int.tdiv (x * 2 ^ F.f) y)) : div F x y = .ok (Int.tdiv (x * 2 ^ F.f) y) := by
  rw [div_nf h.valid hr hx, if_neg hy, h.wrap_ok hn]
end SG

namespace SW
variable {F : FxTy} (h : SW F)
include h

theorem p : F.P = F.T := h.valid.p_eq h.sw.2
theorem prom : F.T.promote = F.T := h.valid.p_eq h.sw.2
theorem tpos : 0 < F.T.bits := h.valid.tpos
theorem sg : F.T.signed = true := h.sw.1
omit h in
theorem dpos : (0 : Int) < 2 ^ F.f := by positivity
theorem lo_eq : F.T.lo = -(2 ^ (F.T.bits - 1)) := by unfold IntTy.lo; simp [h.sg]
theorem hi_eq : F.T.hi = 2 ^ (F.T.bits - 1) - 1 := by unfold IntTy.hi; simp [h.sg]
theorem lo_hi : F.T.lo = -F.T.hi - 1 := by rw [h.lo_eq, h.hi_eq]; ring
theorem d_le : (2 : Int) ^ F.f ≤ F.T.hi := h.one.2
theorem arith_ok {n : Int} (hn : F.T.InRange n) : arith F.P n = .ok n := by
  rw [h.p]; exact arith_of_inRange h.tpos hn
theorem arith_ub {n : Int} (hn : ¬ F.T.InRange n) : arith F.P n = .ub .overflow := by
  rw [h.p, arith_signed h.sg, if_neg hn]
theorem wrap_ok {n : Int} (hn : F.T.InRange n) : F.T.wrap n = n := IntTy.wrap_of_inRange h.tpos hn
theorem from_ok {n : Int} (hn : F.T.InRange n) : fromInternal F n = n := h.wrap_ok hn
theorem one_eq : oneShl F = 2 ^ F.f := Props.oneShl_eq F h.valid h.one
theorem tdiv_inRange {x d : Int} (hx : F.T.InRange x) (hd : 0 < d) : F.T.InRange (Int.tdiv x d) := by
  rw [tdiv_inRange_iff hx (ne_of_gt hd) h.sg]; omega
theorem cdiv_ok {x d : Int} (hx : F.T.InRange x) (hd : 0 < d) : cdiv F.P x d = .ok (Int.tdiv x d) := by
  rw [h.p]; unfold cdiv
  rw [if_neg (ne_of_gt hd), if_neg]
  rintro ⟨_, hc⟩; exact hc (h.tdiv_inRange hx hd)
theorem cmod_ok {x d : Int} (hx : F.T.InRange x) (hd : 0 < d) : cmod F.P x d = .ok (Int.tmod x d) := by
  rw [h.p]; unfold cmod
  rw [if_neg (ne_of_gt hd), if_neg]
  rintro ⟨_, hc⟩; exact hc (h.tdiv_inRange hx hd)
theorem add_ok {x y : Int} (hn : F.T.InRange (x + y)) : add F x y = .ok (x + y) := by
  unfold add; rw [h.arith_ok hn, Res.bind_ok, h.wrap_ok hn]; rfl
theorem sub_ok {x y : Int} (hn : F.T.InRange (x - y)) : sub F x y = .ok (x - y) := by
  unfold sub; rw [h.arith_ok hn, Res.bind_ok, h.wrap_ok hn]; rfl
theorem neg_ok {x : Int} (hn : F.T.InRange (-x)) : neg F x = .ok (-x) := by
  unfold neg; rw [h.arith_ok hn, Res.bind_ok, h.wrap_ok hn]; rfl
theorem add_ub {x y : Int} (hn : ¬ F.T.InRange (x + y)) : add F x y = .ub .overflow := by
  unfold add; rw [h.arith_ub hn]; rfl
theorem sub_ub {x y : Int} (hn : ¬ F.T.InRange (x - y)) : sub F x y = .ub .overflow := by
  unfold sub; rw [h.arith_ub hn]; rfl
theorem abs_ok {x : Int} (hx : F.T.InRange x) (hn : F.T.lo < x) : abs F x = .ok |x| := by
  unfold abs
  have := h.lo_hi
  by_cases h0 : x < 0
  · have hr : F.T.InRange (-x) := ⟨by have := hx.1; omega, by omega⟩
    simp only [if_pos h0, h.arith_ok hr, Res.bind_ok, h.from_ok hr, abs_of_neg h0, Res.pure_eq]
  · simp only [if_neg h0, Res.pure_eq, Res.bind_ok, h.from_ok hx, abs_of_nonneg (not_lt.1 h0)]
theorem abs_ub {x : Int} (hn : x = F.T.lo) : abs F x = .ub .overflow := by
  unfold abs
  have := h.lo_hi
  have := h.d_le; have := SW.dpos (F := F)
  rw [if_pos (by omega), h.arith_ub (by unfold IntTy.InRange; omega)]; rfl
theorem zero_in : F.T.InRange 0 := by
  have := h.lo_hi; have := h.d_le; have := SW.dpos (F := F)
  constructor <;> omega
theorem mul_ok (hr : F.r = false) {x y : Int} (hx : F.T.InRange x) (hy : F.T.InRange y)
    (hn : F.T.InRange (x * y / 2 ^ F.f)) : mul F x y = .ok (x * y / 2 ^ F.f) := by
  rw [mul_nf h.valid hr hx hy, h.wrap_ok hn]
theorem div_ok (hr : F.r = false) {x y : Int} (hx : F.T.InRange x) (hy : y ≠ 0)
    (hn : F.T.InRange (Int.tdiv (x * 2 ^ F.f) y)) : div F x y = .ok (Int.tdiv (x * 2 ^ F.f) y) := by
  rw [div_nf h.valid hr hx, if_neg hy, h.wrap_ok hn]
end SW

/-- Truncating division by a positive divisor, scaled back. -/
theorem tdiv_mul_spec (x : Int) {d : Int} (hd : 0 < d) :
    (0 ≤ x → 0 ≤ Int.tdiv x d * d ∧ Int.tdiv x d * d ≤ x ∧ x < Int.tdiv x d * d + d) ∧
    (x ≤ 0 → Int.tdiv x d * d ≤ 0 ∧ x ≤ Int.tdiv x d * d ∧ Int.tdiv x d * d - d < x) := by
  have key : ∀ x : Int, 0 ≤ x → 0 ≤ Int.tdiv x d * d ∧ Int.tdiv x d * d ≤ x ∧ x < Int.tdiv x d * d + d := by
    intro x hx
    have h1 := Int.tmod_add_tdiv_mul x d
    have h2 := Int.tmod_nonneg d hx
    have h3 := Int.tmod_lt_of_pos x hd
    have h4 := Int.tdiv_nonneg hx hd.le
    exact ⟨by positivity, by omega, by omega⟩
  refine ⟨key x, fun hx => ?_⟩
  obtain ⟨a, b, c⟩ := key (-x) (by omega)
  rw [Int.neg_tdiv, neg_mul] at a b c
  omega

end Eirin
