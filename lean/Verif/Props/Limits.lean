import Verif.Model.NamedLimits
import Verif.Lemmas.Mixed
import Verif.Props.Convert
import Verif.Props.Mixed

/-! # Property C78: the remaining members of `numeric_limits` describe the type. -/

namespace Eirin.Props
open Spec

/-- What the standard says the members mean ([numeric.limits.members]): `is_signed` tells whether negative values exist, `radix` is the
base of the representation, `digits` counts the non-sign radix digits, `digits10` is the number of decimal digits that always survive,
`epsilon` is the gap between one and the next larger value, `round_style` and `round_error` describe how results are rounded, and
`denorm_min` is the least positive value. -/
structure DescribesType (F : FxTy) : Prop where
  signed : limIsSigned F = true ↔ ∃ x, Storable F x ∧ val F x < 0
  radix : Representable F 2 → val F (limRadix F) = 2
  digits : Representable F F.T.bits → val F (limDigits F) = if F.T.signed then F.T.bits - 1 else F.T.bits
  digits10 : ∃ d : Nat, val F (limDigits10 F) = d ∧ (10 : Int) ^ d ≤ F.T.hi + 1 ∧ F.T.hi + 1 < 10 ^ (d + 1)
  eps : ∃ e, limEpsilon F = .ok e ∧ val F e = ulp F
  rounding : F.r = false → ∀ x y z, Storable F x → Storable F y → mul F x y = .ok z →
    val F F.T.lo ≤ val F x * val F y → val F x * val F y ≤ val F F.T.hi → limRoundStyle F = .towardZero → IsTrunc F (val F x * val F y) z
  roundError : ∀ x y z, Storable F x → Storable F y → mul F x y = .ok z → Storable F z → |val F z| < 1 →
    |val F x * val F y| < 1 → |val F x * val F y - val F z| ≤ val F (limRoundError F)
  denorm : 0 < val F (limDenormMin F)

/-- C78, the full statement (false, see `C78_false`). -/
def C78_statement : Prop := ∀ F : FxTy, F.Valid → DescribesType F

/-- C78: false already for `fixed32`: `epsilon()` is five ulps, `denorm_min()` is zero. -/
theorem C78_epsilon_false : ∃ e, limEpsilon fixed32 = .ok e ∧ val fixed32 e = 5 * ulp fixed32 := by
  refine ⟨5, by decide +kernel, ?_⟩
  unfold val ulp; norm_num [fixed32]

theorem C78_false : ¬ C78_statement := by
  intro h
  have := (h fixed32 (by decide)).denorm
  rw [show limDenormMin fixed32 = 0 by decide +kernel, val_zero] at this
  exact lt_irrefl _ this

/-- C78: `denorm_min()` and `round_error()` are zero in every type. -/
theorem C78_zero (F : FxTy) (hF : F.Valid) : val F (limDenormMin F) = 0 ∧ val F (limRoundError F) = 0 := by
  have h : Representable F ((0 : Int) : ℚ) := ⟨0, by
    constructor
    · unfold IntTy.lo; split <;> [(have : (0 : Int) < 2 ^ (F.T.bits - 1) := by positivity); skip] <;> omega
    · unfold IntTy.hi; have h1 : (0 : Int) < 2 ^ (F.T.bits - 1) := by positivity
      have h2 : (0 : Int) < 2 ^ F.T.bits := by positivity
      split <;> omega, by rw [val_zero]; rfl⟩
  have := ((C14_ofInt F hF 0).1 h).2
  unfold limDenormMin limRoundError
  rw [this]; norm_num

/-- C78: `round_error()` is refuted: products are not exact. -/
theorem C78_round_error_false : ∃ x y z, Storable fixed32 x ∧ Storable fixed32 y ∧ mul fixed32 x y = .ok z ∧
    val fixed32 (limRoundError fixed32) < |val fixed32 x * val fixed32 y - val fixed32 z| := by
  refine ⟨1, 1, 0, by decide +kernel, by decide +kernel, by decide +kernel, ?_⟩
  rw [(C78_zero fixed32 (by decide)).2]; unfold val; norm_num [fixed32]

/-- C78: `round_style` is refuted: products of opposite signs are rounded down, not toward zero. -/
theorem C78_round_style_false : ∃ x y z, Storable fixed32 x ∧ Storable fixed32 y ∧
    |val fixed32 x * val fixed32 y| < 1 ∧ mul fixed32 x y = .ok z ∧ limRoundStyle fixed32 = .towardZero ∧
    ¬ IsTrunc fixed32 (val fixed32 x * val fixed32 y) z := by
  refine ⟨-1, 1, -1, by decide +kernel, by decide +kernel, by unfold val; norm_num [fixed32], by decide +kernel, rfl, ?_⟩
  rintro ⟨_, h⟩
  have := (h (by unfold val; norm_num [fixed32])).2.1
  unfold val at this; norm_num [fixed32] at this

/-- C78: `is_signed` is wrong exactly for unsigned storage. -/
theorem C78_signed (F : FxTy) (hF : F.Valid) :
    (limIsSigned F = true ↔ ∃ x, Storable F x ∧ val F x < 0) ↔ F.T.signed = true := by
  have hb := hF.tpos
  constructor
  · intro h
    obtain ⟨x, hx, h0⟩ := h.1 rfl
    by_contra hs
    rw [← val_zero F, val_lt] at h0
    have := hx.1; unfold IntTy.lo at this; rw [if_neg hs] at this; omega
  · intro hs
    refine ⟨fun _ => ⟨-1, ?_, ?_⟩, fun _ => rfl⟩
    · have : (0 : Int) < 2 ^ (F.T.bits - 1) := by positivity
      unfold Storable IntTy.InRange IntTy.lo IntTy.hi; rw [if_pos hs, if_pos hs]; omega
    · rw [← val_zero F, val_lt]; omega

/-- C78, the part that holds: `radix` is two whenever two is representable, and with signed storage `digits` is the number of
non-sign bits and `digits10` the number of decimal digits that fit into them, whenever these counts are representable. -/
theorem C78_digits_partial (F : FxTy) (hF : F.Valid) :
    (Representable F 2 → val F (limRadix F) = 2) ∧
    (Representable F ((F.T.bits - 1 : Int) : ℚ) → F.T.signed = true → val F (limDigits F) = F.T.bits - 1 ∧
      F.T.hi + 1 = 2 ^ (F.T.bits - 1)) ∧
    (∃ d : Nat, (10 : Int) ^ d ≤ 2 ^ (F.T.bits - 1) ∧ (2 : Int) ^ (F.T.bits - 1) < 10 ^ (d + 1) ∧
      (Representable F ((d : Int) : ℚ) → val F (limDigits10 F) = d)) := by
  refine ⟨fun h => ?_, fun h hs => ⟨?_, ?_⟩, ?_⟩
  · exact ((C14_ofInt F hF 2).1 (by exact_mod_cast h)).2.trans (by norm_num)
  · have := ((C14_ofInt F hF (F.T.bits - 1)).1 h).2
    unfold limDigits; rw [this]; push_cast; ring
  · unfold IntTy.hi; rw [if_pos hs]; ring
  · refine ⟨(F.T.bits - 1) * 643 / 2136, ?_, ?_, fun h => ?_⟩
    · rcases hF.1 with e | e | e | e <;> rw [e] <;> norm_num
    · rcases hF.1 with e | e | e | e <;> rw [e] <;> norm_num
    · unfold limDigits10
      have hw : F.T.wrap (((F.T.bits - 1) * 643 / 2136 : Nat) : Int) = (((F.T.bits - 1) * 643 / 2136 : Nat) : Int) := by
        apply IntTy.wrap_of_inRange hF.tpos
        unfold IntTy.InRange IntTy.lo IntTy.hi
        rcases hF.1 with e | e | e | e <;> rw [e] <;> split <;> norm_num
      rw [hw, ((C14_ofInt F hF _).1 h).2]; push_cast; rfl

/-- C78: with too few integer bits the counts wrap around: `digits` of a type with 30 fraction bits is `-1`. -/
theorem C78_digits_wrap : (⟨i32, i64, 30, false⟩ : FxTy).Valid ∧ val ⟨i32, i64, 30, false⟩ (limDigits ⟨i32, i64, 30, false⟩) = -1 := by
  refine ⟨by decide, ?_⟩
  rw [show limDigits ⟨i32, i64, 30, false⟩ = -2 ^ 30 by decide +kernel]; unfold val; norm_num

example : fixed32.Valid ∧ Representable fixed32 ((31 : Int) : ℚ) ∧ limDigits fixed32 = 31 * 2 ^ 16 ∧ limDigits10 fixed32 = 9 * 2 ^ 16 ∧
    limDigits10 fixed64 = 18 * 2 ^ 32 ∧ limRadix fixed64 = 2 * 2 ^ 32 :=
  ⟨by decide, ⟨31 * 2 ^ 16, by decide +kernel, by unfold val; norm_num [fixed32]⟩, by decide +kernel⟩

/-- C78: the named limits are the ends of the storage range: no number of the type is above `f32_max` (`f64_max`) or below `f32_min` (`f64_min`), and
they are themselves numbers of the type. -/
theorem C78_named : (Storable fixed32 f32Max ∧ Storable fixed32 f32Min ∧ ∀ x, Storable fixed32 x → val fixed32 f32Min ≤ val fixed32 x ∧ val fixed32 x ≤ val fixed32 f32Max) ∧
    (Storable fixed64 f64Max ∧ Storable fixed64 f64Min ∧ ∀ x, Storable fixed64 x → val fixed64 f64Min ≤ val fixed64 x ∧ val fixed64 x ≤ val fixed64 f64Max) := by
  have e1 : f32Max = fixed32.T.hi := by decide +kernel
  have e2 : f32Min = fixed32.T.lo := by decide +kernel
  have e3 : f64Max = fixed64.T.hi := by decide +kernel
  have e4 : f64Min = fixed64.T.lo := by decide +kernel
  refine ⟨⟨by decide +kernel, by decide +kernel, fun x hx => ?_⟩, ⟨by decide +kernel, by decide +kernel, fun x hx => ?_⟩⟩
  · rw [e1, e2]; exact ⟨val_le.2 hx.1, val_le.2 hx.2⟩
  · rw [e3, e4]; exact ⟨val_le.2 hx.1, val_le.2 hx.2⟩
example : f32Max = 2147483647 ∧ f64Min = -2 ^ 63 ∧ Storable fixed32 5 := by decide +kernel

end Eirin.Props
