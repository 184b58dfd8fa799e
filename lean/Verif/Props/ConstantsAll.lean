import Verif.Props.Constants
import Verif.Props.Convert

/-! # Property C20 for every fixed-point type: the constants are as accurate as the type and the literals allow. -/

namespace Eirin.Props
open Spec Real RealConst

/-- In every valid type with fewer than `k` fraction bits in which some integer `m` above `ρ` is representable, the constant is defined,
storable, and is `ρ` truncated (rounded, for rounding types) to the type up to an error `δ` of the literal. -/
def NearConstant (c : FxTy → Res Int) (k : Nat) (ρ δ : ℝ) : Prop :=
  ∀ (F : FxTy) (m : Int), F.Valid → F.f < k → ρ + 1 / 1000 ≤ m → Representable F m →
    ∃ x, c F = .ok x ∧ Storable F x ∧
      (F.r = false → ((val F x : ℚ) : ℝ) ≤ ρ + δ ∧ ρ - δ < (val F x : ℚ) + (ulp F : ℚ)) ∧
      (F.r = true → |((val F x : ℚ) : ℝ) - ρ| ≤ (ulp F : ℚ) / 2 + δ)

theorem near_of {c : FxTy → Res Int} {k : Nat} {L : Int} {ρ δ : ℝ} (hc : ∀ F, c F = fromFixedNumValue F i64 k L) (hk0 : 0 < k) (hk : k ≤ 63)
    (hL0 : 0 < L) (hL : L < 2 ^ 63) (hδ : δ ≤ 1 / 10000) (h1 : (L : ℝ) / 2 ^ k - ρ ≤ δ) (h2 : ρ - (L : ℝ) / 2 ^ k ≤ δ) : NearConstant c k ρ δ := by
  intro F m hF hf hm hrep
  set G : FxTy := ⟨i64, i128, k, false⟩ with hG
  have hGv : G.Valid := ⟨by simp [hG], by simp [hG], by simp [hG], by simp [hG], hk0, by simpa [hG] using hk⟩
  have hLs : Storable G L := by
    unfold Storable IntTy.InRange IntTy.lo IntTy.hi; simp [hG]; omega
  have hv : val G L = (L : ℚ) / 2 ^ k := rfl
  have hq0 : (0 : ℚ) < (L : ℚ) / 2 ^ k := div_pos (by exact_mod_cast hL0) (by positivity)
  obtain ⟨y, hy, hym⟩ := hrep
  -- a multiple of one ulp not above `m` is storable
  have hst : ∀ n : Int, 0 ≤ val F n → val F n ≤ m → Storable F n := by
    intro n a b
    rw [← hym, val_le] at b
    rw [← val_zero F, val_le] at a
    refine ⟨le_trans ?_ a, le_trans b hy.2⟩
    unfold IntTy.lo; split
    · exact neg_nonpos.2 (by positivity)
    · exact le_refl _
  have hmq : (L : ℚ) / 2 ^ k < m := by
    have : (((L : ℚ) / 2 ^ k : ℚ) : ℝ) < ((m : ℚ) : ℝ) := by push_cast; linarith
    exact_mod_cast this
  have hu := ulp_pos F
  have huh : ulp F ≤ 1 / 2 := by
    unfold ulp
    apply one_div_le_one_div_of_le (by norm_num)
    calc (2 : ℚ) = 2 ^ 1 := by norm_num
      _ ≤ 2 ^ F.f := pow_le_pow_right₀ (by norm_num) hF.fpos
  rw [hc]
  cases hr : F.r with
  | false =>
    obtain ⟨z, n, a1, a2, _, a4⟩ := C17_narrowing F G hF hGv hr hf L hLs
    rw [hv] at a2
    obtain ⟨b1, b2, b3⟩ := a2.1 hq0.le
    have hn := hst n b1 (le_trans b2 hmq.le)
    have e := a4 hn
    subst e
    refine ⟨z, a1, hn, fun _ => ?_, fun h => by cases h⟩
    have c1 : ((val F z : ℚ) : ℝ) ≤ (((L : ℚ) / 2 ^ k : ℚ) : ℝ) := by exact_mod_cast b2
    have c2 : (((L : ℚ) / 2 ^ k : ℚ) : ℝ) < ((val F z + ulp F : ℚ) : ℝ) := by exact_mod_cast b3
    push_cast at c1 c2
    constructor <;> linarith
  | true =>
    obtain ⟨z, n, a1, a2, _, a4⟩ := C17_narrowing_rounding F G hF hGv hr hf L hLs
    rw [hv] at a2
    have b := a2.1
    have hn0 : 0 ≤ val F n := by
      by_contra hc
      push Not at hc
      have : val F n ≤ val F (-1) := by rw [val_le]; rw [← val_zero F, val_lt] at hc; omega
      rw [val_neg, val_one] at this
      rw [abs_le] at b; linarith
    have hnm : val F n ≤ m := by
      by_contra hc
      push Not at hc
      rw [← hym] at hc
      have : val F (y + 1) ≤ val F n := by rw [val_le]; rw [val_lt] at hc; omega
      rw [val_add, val_one, hym] at this
      rw [abs_le] at b; linarith
    have hn := hst n hn0 hnm
    have e := a4 hn
    subst e
    refine ⟨z, a1, hn, (fun h => by cases h), fun _ => ?_⟩
    have c1 : ((|(L : ℚ) / 2 ^ k - val F z| : ℚ) : ℝ) ≤ ((ulp F / 2 : ℚ) : ℝ) := by exact_mod_cast b
    push_cast at c1
    rw [abs_le] at *
    constructor <;> linarith [c1.1, c1.2]

theorem C20_every_pi : NearConstant cPi 61 π (1 / 2 ^ 61) ∧ NearConstant cPi2 62 (π / 2) (1 / 2 ^ 61) ∧
    NearConstant cPi4 63 (π / 4) (1 / 2 ^ 61) ∧ NearConstant cDoublePi 60 (2 * π) (1 / 2 ^ 60) := by
  have h1 := pi_gt_d20; have h2 := pi_lt_d20
  refine ⟨near_of (fun _ => rfl) (by norm_num) (by norm_num) (by norm_num) (by norm_num) (by norm_num) ?_ ?_,
    near_of (fun _ => rfl) (by norm_num) (by norm_num) (by norm_num) (by norm_num) (by norm_num) ?_ ?_,
    near_of (fun _ => rfl) (by norm_num) (by norm_num) (by norm_num) (by norm_num) (by norm_num) ?_ ?_,
    near_of (fun _ => rfl) (by norm_num) (by norm_num) (by norm_num) (by norm_num) (by norm_num) ?_ ?_⟩ <;>
  · norm_num at *; linarith

theorem C20_every_e : NearConstant cE 61 (Real.exp 1) (1 / 2 ^ 61) := by
  obtain ⟨h1, h2⟩ := abs_sub_le_iff.1 exp_one_near_20
  refine near_of (fun _ => rfl) (by norm_num) (by norm_num) (by norm_num) (by norm_num) (by norm_num) ?_ ?_ <;>
  · norm_num at *; linarith

theorem C20_every_log : NearConstant cLn2 61 (Real.log 2) (1 / 2 ^ 51) ∧ NearConstant cLn10 61 (Real.log 10) (1 / 2 ^ 51) ∧
    NearConstant cLog2e 61 (Real.logb 2 (Real.exp 1)) (1 / 2 ^ 51) ∧ NearConstant cLog10e 61 (Real.logb 10 (Real.exp 1)) (1 / 2 ^ 51) := by
  have e2 : Real.logb 2 (Real.exp 1) = (Real.log 2)⁻¹ := by rw [Real.logb, Real.log_exp, one_div]
  have e10 : Real.logb 10 (Real.exp 1) = (Real.log 10)⁻¹ := by rw [Real.logb, Real.log_exp, one_div]
  obtain ⟨a1, a2⟩ := inv_bounds (by norm_num) log_two_gt log_two_lt
  obtain ⟨b1, b2⟩ := inv_bounds (by norm_num) log_ten_gt log_ten_lt
  have h1 := log_two_gt; have h2 := log_two_lt; have h3 := log_ten_gt; have h4 := log_ten_lt
  rw [e2, e10]
  refine ⟨near_of (fun _ => rfl) (by norm_num) (by norm_num) (by norm_num) (by norm_num) (by norm_num) ?_ ?_,
    near_of (fun _ => rfl) (by norm_num) (by norm_num) (by norm_num) (by norm_num) (by norm_num) ?_ ?_,
    near_of (fun _ => rfl) (by norm_num) (by norm_num) (by norm_num) (by norm_num) (by norm_num) ?_ ?_,
    near_of (fun _ => rfl) (by norm_num) (by norm_num) (by norm_num) (by norm_num) (by norm_num) ?_ ?_⟩
  · norm_num at h1 h2 ⊢; linarith
  · norm_num at h1 h2 ⊢; linarith
  · norm_num at h3 h4 ⊢; linarith
  · norm_num at h3 h4 ⊢; linarith
  · norm_num at a1 a2 ⊢; linarith
  · norm_num at a1 a2 ⊢; linarith
  · norm_num at b1 b2 ⊢; linarith
  · norm_num at b1 b2 ⊢; linarith

theorem C20_every_inv_pi : NearConstant cInvPi 61 (π⁻¹) (1 / 2 ^ 51) ∧ NearConstant cInvSqrtPi 61 ((√π)⁻¹) (1 / 2 ^ 51) := by
  obtain ⟨h1, h2⟩ := inv_bounds (by norm_num) pi_gt_d20 pi_lt_d20
  have s1 : (1.77245385090551602 : ℝ) < √π := by
    apply Real.lt_sqrt_of_sq_lt; have := pi_gt_d20; norm_num at *; linarith
  have s2 : √π < (1.77245385090551603 : ℝ) := by
    rw [Real.sqrt_lt' (by norm_num)]; have := pi_lt_d20; norm_num at *; linarith
  obtain ⟨h3, h4⟩ := inv_bounds (by norm_num) s1 s2
  refine ⟨near_of (fun _ => rfl) (by norm_num) (by norm_num) (by norm_num) (by norm_num) (by norm_num) ?_ ?_,
    near_of (fun _ => rfl) (by norm_num) (by norm_num) (by norm_num) (by norm_num) (by norm_num) ?_ ?_⟩
  · norm_num at h1 h2 ⊢; linarith
  · norm_num at h1 h2 ⊢; linarith
  · norm_num at h3 h4 ⊢; linarith
  · norm_num at h3 h4 ⊢; linarith

theorem C20_every_sqrt : NearConstant cSqrt2 61 (√2) (1 / 2 ^ 51) ∧ NearConstant cSqrt3 61 (√3) (1 / 2 ^ 51) ∧
    NearConstant cInvSqrt3 61 ((√3)⁻¹) (1 / 2 ^ 51) ∧ NearConstant cPhi 61 ((1 + √5) / 2) (1 / 2 ^ 51) := by
  have a1 : (1.41421356237309504 : ℝ) < √2 := Real.lt_sqrt_of_sq_lt (by norm_num)
  have a2 : √2 < (1.41421356237309505 : ℝ) := by rw [Real.sqrt_lt' (by norm_num)]; norm_num
  have b1 : (1.73205080756887729 : ℝ) < √3 := Real.lt_sqrt_of_sq_lt (by norm_num)
  have b2 : √3 < (1.73205080756887730 : ℝ) := by rw [Real.sqrt_lt' (by norm_num)]; norm_num
  have c1 : (2.23606797749978969 : ℝ) < √5 := Real.lt_sqrt_of_sq_lt (by norm_num)
  have c2 : √5 < (2.23606797749978970 : ℝ) := by rw [Real.sqrt_lt' (by norm_num)]; norm_num
  obtain ⟨d1, d2⟩ := inv_bounds (by norm_num) b1 b2
  refine ⟨near_of (fun _ => rfl) (by norm_num) (by norm_num) (by norm_num) (by norm_num) (by norm_num) ?_ ?_,
    near_of (fun _ => rfl) (by norm_num) (by norm_num) (by norm_num) (by norm_num) (by norm_num) ?_ ?_,
    near_of (fun _ => rfl) (by norm_num) (by norm_num) (by norm_num) (by norm_num) (by norm_num) ?_ ?_,
    near_of (fun _ => rfl) (by norm_num) (by norm_num) (by norm_num) (by norm_num) (by norm_num) ?_ ?_⟩
  · norm_num at a1 a2 ⊢; linarith
  · norm_num at a1 a2 ⊢; linarith
  · norm_num at b1 b2 ⊢; linarith
  · norm_num at b1 b2 ⊢; linarith
  · norm_num at d1 d2 ⊢; linarith
  · norm_num at d1 d2 ⊢; linarith
  · norm_num at c1 c2 ⊢; linarith
  · norm_num at c1 c2 ⊢; linarith

/-- The enclosure of the Euler–Mascheroni constant used here is coarser than the literal. -/
theorem C20_every_egamma : NearConstant cEgamma 61 Real.eulerMascheroniConstant (1 / 2 ^ 51) := by
  obtain ⟨h1, h2⟩ := gamma_sharp
  refine near_of (fun _ => rfl) (by norm_num) (by norm_num) (by norm_num) (by norm_num) (by norm_num) ?_ ?_ <;>
  · norm_num at h1 h2 ⊢; linarith

example : (⟨i64, i128, 50, true⟩ : FxTy).Valid ∧ cPi ⟨i64, i128, 50, true⟩ = .ok 3537118876014220 ∧
    (⟨u32, u64, 28, false⟩ : FxTy).Valid ∧ cE ⟨u32, u64, 28, false⟩ = .ok 729683222 ∧
    Storable ⟨u32, u64, 28, false⟩ (4 * 2 ^ 28) := by decide +kernel

end Eirin.Props
