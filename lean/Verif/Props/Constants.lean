import Verif.Lemmas.RealConst
import Mathlib.Analysis.SpecialFunctions.Log.Base
import Verif.Model.Numbers
import Verif.Spec

/-! # Property C20: the mathematical constants are correctly truncated. -/

namespace Eirin.Props
open Spec Real

/-- `x` is the real number `ρ` truncated down to a multiple of one ulp of `F`. -/
def IsFloorReal (F : FxTy) (ρ : ℝ) (x : Int) : Prop := ((val F x : ℚ) : ℝ) ≤ ρ ∧ ρ < (val F x : ℚ) + (ulp F : ℚ)

/-- The constant expression `c` evaluates, in both library types, to the truncation of `ρ`. -/
def CorrectConstant (c : FxTy → Res Int) (ρ : ℝ) : Prop :=
  (∃ x, c fixed32 = .ok x ∧ Storable fixed32 x ∧ IsFloorReal fixed32 ρ x) ∧
  (∃ x, c fixed64 = .ok x ∧ Storable fixed64 x ∧ IsFloorReal fixed64 ρ x)

theorem correct_of {c : FxTy → Res Int} {ρ : ℝ} (a b : Int) (h32 : c fixed32 = .ok a) (h64 : c fixed64 = .ok b)
    (ha : Storable fixed32 a) (hb : Storable fixed64 b)
    (a1 : (a : ℝ) / 2 ^ 16 ≤ ρ) (a2 : ρ < ((a : ℝ) + 1) / 2 ^ 16) (b1 : (b : ℝ) / 2 ^ 32 ≤ ρ) (b2 : ρ < ((b : ℝ) + 1) / 2 ^ 32) :
    CorrectConstant c ρ := by
  refine ⟨⟨a, h32, ha, ?_⟩, ⟨b, h64, hb, ?_⟩⟩
  · unfold IsFloorReal val ulp; rw [show fixed32.f = 16 by rfl]; push_cast
    rw [add_div] at a2; exact ⟨a1, a2⟩
  · unfold IsFloorReal val ulp; rw [show fixed64.f = 32 by rfl]; push_cast
    rw [add_div] at b2; exact ⟨b1, b2⟩

open RealConst

theorem C20_pi : CorrectConstant cPi π := by
  refine correct_of 205887 13493037704 (by decide +kernel) (by decide +kernel) (by decide +kernel) (by decide +kernel) ?_ ?_ ?_ ?_ <;>
  · have := pi_gt_d20; have := pi_lt_d20; norm_num at *; linarith

theorem C20_pi_2 : CorrectConstant cPi2 (π / 2) := by
  refine correct_of 102943 6746518852 (by decide +kernel) (by decide +kernel) (by decide +kernel) (by decide +kernel) ?_ ?_ ?_ ?_ <;>
  · have := pi_gt_d20; have := pi_lt_d20; norm_num at *; linarith

theorem C20_pi_4 : CorrectConstant cPi4 (π / 4) := by
  refine correct_of 51471 3373259426 (by decide +kernel) (by decide +kernel) (by decide +kernel) (by decide +kernel) ?_ ?_ ?_ ?_ <;>
  · have := pi_gt_d20; have := pi_lt_d20; norm_num at *; linarith

theorem C20_double_pi : CorrectConstant cDoublePi (2 * π) := by
  refine correct_of 411774 26986075409 (by decide +kernel) (by decide +kernel) (by decide +kernel) (by decide +kernel) ?_ ?_ ?_ ?_ <;>
  · have := pi_gt_d20; have := pi_lt_d20; norm_num at *; linarith

theorem C20_e : CorrectConstant cE (Real.exp 1) := by
  refine correct_of 178145 11674931554 (by decide +kernel) (by decide +kernel) (by decide +kernel) (by decide +kernel) ?_ ?_ ?_ ?_ <;>
  · have := e_bounds.1; have := e_bounds.2; norm_num at *; linarith

theorem inv_bounds {ρ lo hi : ℝ} (h0 : 0 < lo) (h1 : lo < ρ) (h2 : ρ < hi) : hi⁻¹ < ρ⁻¹ ∧ ρ⁻¹ < lo⁻¹ := by
  constructor
  · exact inv_strictAnti₀ (by linarith) h2
  · exact inv_strictAnti₀ h0 h1

theorem C20_log2e : CorrectConstant cLog2e (Real.logb 2 (Real.exp 1)) := by
  have e : Real.logb 2 (Real.exp 1) = (Real.log 2)⁻¹ := by rw [Real.logb, Real.log_exp, one_div]
  obtain ⟨h1, h2⟩ := inv_bounds (by norm_num) log_two_gt log_two_lt
  rw [e]
  refine correct_of 94548 6196328018 (by decide +kernel) (by decide +kernel) (by decide +kernel) (by decide +kernel) ?_ ?_ ?_ ?_ <;>
  · norm_num at *; linarith

theorem C20_log10e : CorrectConstant cLog10e (Real.logb 10 (Real.exp 1)) := by
  have e : Real.logb 10 (Real.exp 1) = (Real.log 10)⁻¹ := by rw [Real.logb, Real.log_exp, one_div]
  obtain ⟨h1, h2⟩ := inv_bounds (by norm_num) log_ten_gt log_ten_lt
  rw [e]
  refine correct_of 28461 1865280596 (by decide +kernel) (by decide +kernel) (by decide +kernel) (by decide +kernel) ?_ ?_ ?_ ?_ <;>
  · norm_num at *; linarith

theorem C20_inv_pi : CorrectConstant cInvPi (π⁻¹) := by
  obtain ⟨h1, h2⟩ := inv_bounds (by norm_num) pi_gt_d20 pi_lt_d20
  refine correct_of 20860 1367130551 (by decide +kernel) (by decide +kernel) (by decide +kernel) (by decide +kernel) ?_ ?_ ?_ ?_ <;>
  · norm_num at *; linarith

theorem C20_inv_sqrtpi : CorrectConstant cInvSqrtPi ((√π)⁻¹) := by
  have s1 : (1.77245385090551 : ℝ) < √π := by
    apply Real.lt_sqrt_of_sq_lt; have := pi_gt_d20; norm_num at *; linarith
  have s2 : √π < (1.77245385090552 : ℝ) := by
    rw [Real.sqrt_lt' (by norm_num)]; have := pi_lt_d20; norm_num at *; linarith
  obtain ⟨h1, h2⟩ := inv_bounds (by norm_num) s1 s2
  refine correct_of 36974 2423175810 (by decide +kernel) (by decide +kernel) (by decide +kernel) (by decide +kernel) ?_ ?_ ?_ ?_ <;>
  · norm_num at *; linarith

theorem C20_ln2 : CorrectConstant cLn2 (Real.log 2) := by
  refine correct_of 45426 2977044471 (by decide +kernel) (by decide +kernel) (by decide +kernel) (by decide +kernel) ?_ ?_ ?_ ?_ <;>
  · have := log_two_gt; have := log_two_lt; norm_num at *; linarith

theorem C20_ln10 : CorrectConstant cLn10 (Real.log 10) := by
  refine correct_of 150902 9889527670 (by decide +kernel) (by decide +kernel) (by decide +kernel) (by decide +kernel) ?_ ?_ ?_ ?_ <;>
  · have := log_ten_gt; have := log_ten_lt; norm_num at *; linarith

theorem C20_sqrt2 : CorrectConstant cSqrt2 (√2) := by
  have s1 : (1.41421356237309 : ℝ) < √2 := Real.lt_sqrt_of_sq_lt (by norm_num)
  have s2 : √2 < (1.41421356237310 : ℝ) := by rw [Real.sqrt_lt' (by norm_num)]; norm_num
  refine correct_of 92681 6074000999 (by decide +kernel) (by decide +kernel) (by decide +kernel) (by decide +kernel) ?_ ?_ ?_ ?_ <;>
  · norm_num at *; linarith

theorem sqrt3_bounds : (1.73205080756887 : ℝ) < √3 ∧ √3 < (1.73205080756888 : ℝ) :=
  ⟨Real.lt_sqrt_of_sq_lt (by norm_num), by rw [Real.sqrt_lt' (by norm_num)]; norm_num⟩

theorem C20_sqrt3 : CorrectConstant cSqrt3 (√3) := by
  obtain ⟨h1, h2⟩ := sqrt3_bounds
  refine correct_of 113511 7439101573 (by decide +kernel) (by decide +kernel) (by decide +kernel) (by decide +kernel) ?_ ?_ ?_ ?_ <;>
  · norm_num at *; linarith

theorem C20_inv_sqrt3 : CorrectConstant cInvSqrt3 ((√3)⁻¹) := by
  obtain ⟨h1, h2⟩ := inv_bounds (by norm_num) sqrt3_bounds.1 sqrt3_bounds.2
  refine correct_of 37837 2479700524 (by decide +kernel) (by decide +kernel) (by decide +kernel) (by decide +kernel) ?_ ?_ ?_ ?_ <;>
  · norm_num at *; linarith

theorem C20_egamma : CorrectConstant cEgamma Real.eulerMascheroniConstant := by
  obtain ⟨h1, h2⟩ := gamma_bounds
  refine correct_of 37828 2479122403 (by decide +kernel) (by decide +kernel) (by decide +kernel) (by decide +kernel) ?_ ?_ ?_ ?_ <;>
  · norm_num at *; linarith

theorem C20_phi : CorrectConstant cPhi ((1 + √5) / 2) := by
  have s1 : (2.2360679774997 : ℝ) < √5 := Real.lt_sqrt_of_sq_lt (by norm_num)
  have s2 : √5 < (2.2360679774998 : ℝ) := by rw [Real.sqrt_lt' (by norm_num)]; norm_num
  refine correct_of 106039 6949403065 (by decide +kernel) (by decide +kernel) (by decide +kernel) (by decide +kernel) ?_ ?_ ?_ ?_ <;>
  · norm_num at *; linarith

example : cPi fixed32 = .ok 205887 ∧ cE fixed64 = .ok 11674931554 ∧ cEgamma fixed64 = .ok 2479122403 := by decide +kernel

end Eirin.Props
