import Verif.Props.Hypot
import Verif.Props.Dot

/-! # Property C196: making a vector one unit long -/

namespace Eirin.Props
open Spec

/-- `h = hypot(x, y); return {x / h, y / h};` -/
def normalize (F : FxTy) (x y : Int) : Res (Int × Int) := do
  let h ← hypot F x y
  let u ← div F x h
  let v ← div F y h
  pure (u, v)

/-- A quotient of absolute value at most `3/2` on one of the two library types. -/
theorem div_unit {F : FxTy} (hF : F = fixed32 ∨ F = fixed64) {x h : Int} (hx : Storable F x) (h0 : 0 < val F h) (hq : |val F x / val F h| ≤ 3 / 2) :
    ∃ u, div F x h = .ok u ∧ |val F u| ≤ |val F x / val F h| ∧ |val F x / val F h - val F u| ≤ ulp F ∧ 0 ≤ val F u * val F x := by
  have hV : F.Valid := by rcases hF with rfl | rfl; exacts [sw32.valid, sw64.valid]
  have hr : F.r = false := by rcases hF with rfl | rfl <;> rfl
  have hh : 2 ≤ val F F.T.hi := by rcases hF with rfl | rfl <;> norm_num [val, fixed32, fixed64, IntTy.hi, i32, i64]
  have hy : h ≠ 0 := by rintro rfl; rw [val_zero] at h0; exact lt_irrefl _ h0
  obtain ⟨z, n, e, ht, -, hn⟩ := (C03_div_trunc F hV hr x h hx).2 hy
  have hxq : val F x = val F x / val F h * val F h := (div_mul_cancel₀ _ h0.ne').symm
  generalize val F x / val F h = q at *
  obtain ⟨t1, t2⟩ := ht
  have hb : |val F n| ≤ |q| ∧ |q - val F n| ≤ ulp F ∧ 0 ≤ val F n * q := by
    rcases le_or_gt 0 q with h | h
    · obtain ⟨a, b, c⟩ := t1 h
      rw [abs_of_nonneg a, abs_of_nonneg h, abs_of_nonneg (by linarith)]
      exact ⟨b, by linarith, mul_nonneg a h⟩
    · obtain ⟨a, b, c⟩ := t2 h
      rw [abs_of_nonpos a, abs_of_neg h, abs_of_nonpos (by linarith)]
      exact ⟨by linarith, by linarith, mul_nonneg_of_nonpos_of_nonpos a h.le⟩
  have sn : Storable F n := storable_of_abs (by linarith [hb.1]) fun hs => by
    rcases hF with rfl | rfl <;> exact absurd hs (by decide)
  have := hn sn
  subst this
  refine ⟨z, e, hb.1, hb.2.1, ?_⟩
  rw [hxq, ← mul_assoc]
  exact mul_nonneg hb.2.2 h0.le

/-- C196: on `fixed32` and `fixed64`, dividing a vector of length at least one by its `hypot` is defined as long as the squared length is in the range
of C108; the result has the signs and (up to one ulp times the coordinates) the direction of the vector, and its squared length differs from one by at
most `1/8000 + 8 ulp`. -/
theorem C196_normalize (F : FxTy) (hF : F = fixed32 ∨ F = fixed64) (x y : Int) (hx : Storable F x) (hy : Storable F y)
    (h1 : 1 ≤ val F x ^ 2 + val F y ^ 2) (hB : val F x ^ 2 + val F y ^ 2 < if F.f = 16 then 2 ^ 15 else 19 * 10 ^ 8) :
    ∃ u v, normalize F x y = .ok (u, v) ∧ |val F u ^ 2 + val F v ^ 2 - 1| ≤ 1 / 8000 + 8 * ulp F ∧
      0 ≤ val F u * val F x ∧ 0 ≤ val F v * val F y ∧ |val F u * val F y - val F v * val F x| ≤ (|val F x| + |val F y|) * ulp F := by
  have z0 : Storable F 0 := by rcases hF with rfl | rfl <;> decide
  obtain ⟨⟨h, eh, h0, hh⟩, -⟩ := C108_range_partial F hF x y 0 hx hy z0 (by rw [val_zero]; simpa using hB)
  have hu := ulp_pos F
  have hu2 : ulp F ≤ 1 / 65536 := by rcases hF with rfl | rfl <;> norm_num [ulp, fixed32, fixed64]
  obtain ⟨a1, a2⟩ := abs_le.1 hh
  generalize hL : val F x ^ 2 + val F y ^ 2 = L at *
  have g1 : 0.999 ≤ val F h := by
    by_contra hc
    push Not at hc
    have : val F h ^ 2 ≤ 0.999 ^ 2 := pow_le_pow_left₀ h0 hc.le 2
    norm_num at *
    nlinarith
  have hp : 0 < val F h := by linarith
  have hp2 : 0 < val F h ^ 2 := by positivity
  have hu3 : 3 * val F h * ulp F ≤ val F h ^ 2 * (3.01 * ulp F) := by
    have k1 : 3 * val F h ≤ val F h ^ 2 * 3.01 := by norm_num at *; nlinarith
    have k2 := mul_le_mul_of_nonneg_right k1 hu.le
    linarith
  have hL2 : L ≤ val F h ^ 2 * (1 + 0.0001225 + 3.01 * ulp F) := by
    have : (1 : ℚ) / 2 ^ 13 ≤ val F h ^ 2 * 0.0001225 := by norm_num at *; nlinarith
    linarith
  have hL1 : val F h ^ 2 * (1 - 0.0001225 - 3.01 * ulp F) ≤ L := by
    have : (1 : ℚ) / 2 ^ 13 ≤ val F h ^ 2 * 0.0001225 := by norm_num at *; nlinarith
    linarith
  have e1 : (val F x / val F h) ^ 2 + (val F y / val F h) ^ 2 = L / val F h ^ 2 := by rw [div_pow, div_pow, ← add_div, hL]
  have q1 : L / val F h ^ 2 ≤ 1 + 0.0001225 + 3.01 * ulp F := by rw [div_le_iff₀ hp2]; linarith
  have q2 : 1 - 0.0001225 - 3.01 * ulp F ≤ L / val F h ^ 2 := by rw [le_div_iff₀ hp2]; linarith
  rw [← e1] at q1 q2
  have mx : |val F x / val F h| ≤ 1.001 := abs_le_of_sq_le_sq (by nlinarith [sq_nonneg (val F y / val F h)]) (by norm_num)
  have my : |val F y / val F h| ≤ 1.001 := abs_le_of_sq_le_sq (by nlinarith [sq_nonneg (val F x / val F h)]) (by norm_num)
  obtain ⟨u, eu, u1, u2, u3⟩ := div_unit hF hx hp (mx.trans (by norm_num))
  obtain ⟨v, ev, v1, v2, v3⟩ := div_unit hF hy hp (my.trans (by norm_num))
  have sq : ∀ p q : ℚ, |q| ≤ 1.001 → |p| ≤ |q| → |q - p| ≤ ulp F → p ^ 2 ≤ q ^ 2 ∧ q ^ 2 - 2.01 * ulp F ≤ p ^ 2 := by
    intro p q h1 h2 h3
    refine ⟨sq_le_sq.2 h2, ?_⟩
    have e : q ^ 2 - p ^ 2 = (q - p) * (q + p) := by ring
    have h4 : |(q - p) * (q + p)| ≤ ulp F * 2.01 := by
      rw [abs_mul]
      exact mul_le_mul h3 ((abs_add_le q p).trans (by linarith)) (abs_nonneg _) hu.le
    linarith [le_abs_self ((q - p) * (q + p))]
  obtain ⟨su1, su2⟩ := sq _ _ mx u1 u2
  obtain ⟨sv1, sv2⟩ := sq _ _ my v1 v2
  refine ⟨u, v, ?_, ?_, u3, v3, ?_⟩
  · unfold normalize
    rw [eh, Res.bind_ok, eu, Res.bind_ok, ev, Res.bind_ok, Res.pure_eq]
  · rw [abs_le]; constructor <;> norm_num at * <;> linarith
  · have e2 : val F u * val F y - val F v * val F x =
        (val F y / val F h - val F v) * val F x - (val F x / val F h - val F u) * val F y := by field_simp; ring
    rw [e2]
    refine (abs_sub _ _).trans ?_
    rw [abs_mul, abs_mul, add_mul]
    have b1 := mul_le_mul_of_nonneg_right v2 (abs_nonneg (val F x))
    have b2 := mul_le_mul_of_nonneg_right u2 (abs_nonneg (val F y))
    linarith

example : normalize fixed32 (3 * 65536) (-4 * 65536) = .ok (39321, -52428) ∧
    normalize fixed64 (3 * 2 ^ 32) (-4 * 2 ^ 32) = .ok (2576980257, -3435973677) := by
  constructor <;> decide +kernel

end Eirin.Props
