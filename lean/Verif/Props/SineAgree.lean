import Verif.Props.CordicAccuracy
import Verif.Props.TrigAll
import Verif.Props.LutSin

/-! # Property C174: the implementations of sine and cosine agree -/

namespace Eirin.Props
open Spec

/-- C174 as stated: for every angle but the minimum, the series of `math.hpp` and the CORDIC of `ext/cordic.hpp` agree. -/
def C174_statement : Prop := ∀ F, CordicTy F → ∀ x, Storable F x → F.T.lo < x →
  (∃ a b, sin F x = .ok a ∧ cordicSine F x = .ok b ∧ |val F a - val F b| ≤ 3 / 10000 + (117 + 3 / 5 * |val F x|) * ulp F) ∧
  ∃ a b, cos F x = .ok a ∧ cordic F 41 false x = .ok b ∧ |val F a - val F b| ≤ 3 / 10000 + (124 + 3 / 5 * |val F x|) * ulp F

/-- C174 is false of the code for negative angles, whose sign bit CORDIC drops: the sine of -1 is -0.84 by the series and -0.25 by CORDIC. -/
theorem C174_false : ¬ C174_statement := by
  intro h
  obtain ⟨⟨a, b, ha, hb, hab⟩, -⟩ := h fixed32 (Or.inl rfl) (-65536) (by decide +kernel) (by decide +kernel)
  have ea : sin fixed32 (-65536) = .ok (-55147) := by decide +kernel
  have eb : cordicSine fixed32 (-65536) = .ok (-16526) := by decide +kernel
  rw [ea] at ha; cases ha
  rw [eb] at hb; cases hb
  norm_num [val, ulp, fixed32, abs_le] at hab

/-- What remains of the difference of two approximations of the same number. -/
theorem agree_of {F : FxTy} {a b : Int} {t e1 e2 e : ℝ} (h1 : |rv F a - t| ≤ e1) (h2 : |rv F b - t| ≤ e2) (he : e1 + e2 ≤ e) : |rv F a - rv F b| ≤ e := by
  rw [abs_le] at *
  constructor <;> linarith [h1.1, h1.2, h2.1, h2.2]

/-- **C174 (partial).** For every non-negative angle. Full statement: `C174_statement`; for negative angles it is false. -/
theorem C174_agree_partial (F : FxTy) (hF : CordicTy F) (x : Int) (hx : Storable F x) (h0 : 0 ≤ val F x) :
    (∃ a b, sin F x = .ok a ∧ cordicSine F x = .ok b ∧ |val F a - val F b| ≤ 3 / 10000 + (117 + 3 / 5 * |val F x|) * ulp F) ∧
    ∃ a b, cos F x = .ok a ∧ cordic F 41 false x = .ok b ∧ |val F a - val F b| ≤ 3 / 10000 + (124 + 3 / 5 * |val F x|) * ulp F := by
  have hx0 : 0 ≤ x := by rw [← val_le (F := F), val_zero]; exact h0
  have lay : F.Valid ∧ F.T.signed = true ∧ F.r = false ∧ 8 ≤ F.f ∧ F.f ≤ 59 ∧ F.f + 5 ≤ F.T.bits ∧ F.T.lo < 0 := by
    rcases hF with rfl | rfl <;> decide +kernel
  obtain ⟨l1, l2, l3, l4, l5, l6, l7⟩ := lay
  obtain ⟨⟨c, ec, -, hc⟩, hs⟩ := C113_whole F l1 l2 l3 l4 l5 l6 x hx
  obtain ⟨s, es, -, hs⟩ := hs (by omega)
  obtain ⟨⟨v, ev, hv⟩, w, ew, hw⟩ := C74_accuracy F hF x hx hx0
  have X0 : 0 ≤ rv F x := by rw [← rv_eq]; exact_mod_cast h0
  simp only [rv_eq, uR_eq] at hc hs
  rw [abs_of_nonneg X0] at hc hs
  have hu := uR_pos F
  have back : ∀ (p q : Int) (k : ℚ), |rv F p - rv F q| ≤ 3 / 10000 + (k + 3 / 5 * rv F x) * uR F → |val F p - val F q| ≤ 3 / 10000 + (k + 3 / 5 * |val F x|) * ulp F := by
    intro p q k h
    rw [abs_of_nonneg h0]
    simp only [← rv_eq, ← uR_eq] at h
    have : ((|val F p - val F q| : ℚ) : ℝ) ≤ ((3 / 10000 + (k + 3 / 5 * val F x) * ulp F : ℚ) : ℝ) := by push_cast; exact h
    exact_mod_cast this
  have m : 0 ≤ rv F x * uR F := mul_nonneg X0 hu.le
  refine ⟨⟨s, v, es, ev, back s v 117 (agree_of hs hv ?_)⟩, c, w, ec, ew, back c w 124 (agree_of hc hw ?_)⟩ <;> push_cast <;> nlinarith

/-- For a negative angle CORDIC answers for another angle, larger by half the span of the type: the series at the two angles differ instead. -/
theorem C174_negative (F : FxTy) (hF : CordicTy F) (x : Int) (hx : Storable F x) (h0 : val F x < 0) :
    ∃ a b, sin F (x + 2 ^ (F.T.bits - 1)) = .ok a ∧ cordicSine F x = .ok b ∧
      |val F a + val F b| ≤ 3 / 10000 + (117 + 3 / 5 * val F (x + 2 ^ (F.T.bits - 1))) * ulp F := by
  have hx0 : x < 0 := by rw [← val_lt (F := F), val_zero]; exact h0
  have lay : F.Valid ∧ F.T.signed = true ∧ F.r = false ∧ 8 ≤ F.f ∧ F.f ≤ 59 ∧ F.f + 5 ≤ F.T.bits ∧ F.T.lo = -2 ^ (F.T.bits - 1) ∧ F.T.hi = 2 ^ (F.T.bits - 1) - 1 := by
    rcases hF with rfl | rfl <;> decide +kernel
  obtain ⟨l1, l2, l3, l4, l5, l6, l7, l8⟩ := lay
  have hx1 := hx.1
  have hS : Storable F (x + 2 ^ (F.T.bits - 1)) := ⟨by omega, by omega⟩
  obtain ⟨-, hs⟩ := C113_whole F l1 l2 l3 l4 l5 l6 _ hS
  obtain ⟨s, es, -, hs⟩ := hs (by have : (0 : Int) < 2 ^ (F.T.bits - 1) := by positivity
                                  omega)
  obtain ⟨v, ev, hv⟩ := C74_negative F hF x hx hx0
  have X0 : 0 ≤ rv F (x + 2 ^ (F.T.bits - 1)) := by
    have := (rv_le F (a := 0) (b := x + 2 ^ (F.T.bits - 1))).2 (by omega)
    simpa [rv] using this
  simp only [rv_eq, uR_eq] at hs
  rw [abs_of_nonneg X0] at hs
  have hu := uR_pos F
  have m : 0 ≤ rv F (x + 2 ^ (F.T.bits - 1)) * uR F := mul_nonneg X0 hu.le
  refine ⟨s, v, es, ev, ?_⟩
  have key : |rv F s + rv F v| ≤ 3 / 10000 + (117 + 3 / 5 * rv F (x + 2 ^ (F.T.bits - 1))) * uR F := by
    rw [abs_le] at *
    constructor <;> nlinarith [hs.1, hs.2, hv.1, hv.2]
  simp only [← rv_eq, ← uR_eq] at key
  have : ((|val F s + val F v| : ℚ) : ℝ) ≤ ((3 / 10000 + (117 + 3 / 5 * val F (x + 2 ^ (F.T.bits - 1))) * ulp F : ℚ) : ℝ) := by push_cast; exact key
  exact_mod_cast this

/-- The table agrees with neither: at one half it gives zero, the others more than 0.47. -/
theorem C174_table (s : ℚ → ℚ) (hs : SinApprox s) :
    lutCalcSin s 512 (2 ^ 31) = .ok 0 ∧ ∃ a b, sin fixed64 (2 ^ 31) = .ok a ∧ cordicSine fixed64 (2 ^ 31) = .ok b ∧ 47 / 100 < val fixed64 a ∧ 47 / 100 < val fixed64 b :=
  ⟨C76_zero s hs (2 ^ 31) (by norm_num) (by norm_num [val, fixed64]),
    2059117009, 2059117011, by decide +kernel, by decide +kernel, by norm_num [val, fixed64], by norm_num [val, fixed64]⟩

example : CordicTy fixed32 ∧ Storable fixed32 65536 ∧ 0 ≤ val fixed32 65536 ∧ sin fixed32 65536 = .ok 55147 ∧ cordicSine fixed32 65536 = .ok 55150 ∧
    cos fixed32 65536 = .ok 35410 ∧ cordic fixed32 41 false 65536 = .ok 35402 ∧ val fixed32 (-65536) < 0 := by
  refine ⟨Or.inl rfl, by decide +kernel, by norm_num [val, fixed32], by decide +kernel, by decide +kernel, by decide +kernel, by decide +kernel, by norm_num [val, fixed32]⟩

end Eirin.Props
