import Verif.Props.Dot

/-! # Property C201: recursive filters -/

namespace Eirin.Props
open Spec

/-- The first-order recursive filter `for(auto u : us) y = a * y + u;`. -/
def iir (F : FxTy) (a : Int) : Int → List Int → Res Int
  | y, [] => .ok y
  | y, u :: t => do
    let p ← mul F a y
    let s ← add F p u
    iir F a s t

/-- The exact filter. -/
def exactIir (F : FxTy) (a : Int) : ℚ → List Int → ℚ
  | y, [] => y
  | y, u :: t => exactIir F a (val F a * y + val F u) t

/-- C201: on every non-rounding layout, a recursive filter with a coefficient of absolute value less than one is defined for inputs of any length, its
output stays in every interval that the filter with one ulp added maps to itself, and its error never exceeds one ulp divided by one minus the absolute
value of the coefficient, however long it runs. With a coefficient that is not negative the output is never too large. -/
theorem C201_filter (F : FxTy) (hF : F.Valid) (hr : F.r = false) (a : Int) (ha : Storable F a) (h1 : |val F a| < 1) (U B : ℚ)
    (hB : B ≤ val F F.T.hi) (hinv : |val F a| * B + U + ulp F ≤ B) (us : List Int) (hu : ∀ u ∈ us, Storable F u ∧ |val F u| ≤ U) (y : Int)
    (hy : Storable F y) (hyB : |val F y| ≤ B) :
    ∃ z, iir F a y us = .ok z ∧ Storable F z ∧ |val F z| ≤ B ∧ |val F z - exactIir F a (val F y) us| * (1 - |val F a|) ≤ ulp F ∧
      (0 ≤ a → val F z ≤ exactIir F a (val F y) us) := by
  have hul := ulp_pos F
  have a0 := abs_nonneg (val F a)
  have gen : ∀ (us : List Int) (y : Int) (q : ℚ), (∀ u ∈ us, Storable F u ∧ |val F u| ≤ U) → Storable F y → |val F y| ≤ B →
      |val F y - q| * (1 - |val F a|) ≤ ulp F → (0 ≤ a → val F y ≤ q) →
      ∃ z, iir F a y us = .ok z ∧ Storable F z ∧ |val F z| ≤ B ∧ |val F z - exactIir F a q us| * (1 - |val F a|) ≤ ulp F ∧
        (0 ≤ a → val F z ≤ exactIir F a q us) := by
    intro us
    induction us with
    | nil => intro y q _ hy hyB he hle; exact ⟨y, rfl, hy, hyB, he, hle⟩
    | cons u t ih =>
      intro y q hu hy hyB he hle
      obtain ⟨su, uU⟩ := hu u (by simp)
      have u0 := abs_nonneg (val F u)
      have hay : |val F a * val F y| ≤ |val F a| * B := by
        rw [abs_mul]; exact mul_le_mul_of_nonneg_left hyB a0
      obtain ⟨p, ep, sp, p1, p2⟩ := mul_fit hF hr ha hy (by linarith)
      obtain ⟨y1, y2⟩ := abs_le.1 hay
      obtain ⟨u1, u2⟩ := abs_le.1 uU
      have hs : |val F p + val F u| ≤ B := by rw [abs_le]; constructor <;> linarith
      obtain ⟨es, ss⟩ := add_fit hF sp su (hs.trans hB)
      have e1 : val F (p + u) - (val F a * q + val F u) = (val F p - val F a * val F y) + val F a * (val F y - q) := by rw [val_add]; ring
      obtain ⟨z, ez, sz, z1, z2, z3⟩ := ih (p + u) (val F a * q + val F u) (fun v hv => hu v (by simp [hv])) ss (by rwa [val_add]) (by
        have b1 : |val F (p + u) - (val F a * q + val F u)| ≤ ulp F + |val F a| * |val F y - q| := by
          rw [e1]
          refine (abs_add_le _ _).trans (add_le_add ?_ (abs_mul _ _).le)
          rw [abs_le]; constructor <;> linarith
        have c0 : 0 ≤ 1 - |val F a| := by linarith
        nlinarith [mul_le_mul_of_nonneg_right b1 c0, mul_le_mul_of_nonneg_left he a0]) (fun h0 => by
        have va : 0 ≤ val F a := by rw [← val_zero F, val_le]; exact h0
        rw [val_add]
        nlinarith [mul_le_mul_of_nonneg_left (hle h0) va])
      refine ⟨z, ?_, sz, z1, z2, z3⟩
      unfold iir
      rw [ep, Res.bind_ok, es, Res.bind_ok, ez]
  exact gen us y (val F y) hu hy hyB (by rw [sub_self, abs_zero, zero_mul]; exact hul.le) fun _ => le_rfl

/-- C201: two runs of the filter on the same input from different starts approach each other: after `n` steps they differ by at most the difference of
the starts times the `n`-th power of the coefficient, plus two ulps divided by one minus the absolute value of the coefficient. -/
theorem C201_forget (F : FxTy) (hF : F.Valid) (hr : F.r = false) (a : Int) (ha : Storable F a) (h1 : |val F a| < 1) (U B : ℚ)
    (hB : B ≤ val F F.T.hi) (hinv : |val F a| * B + U + ulp F ≤ B) (us : List Int) (hu : ∀ u ∈ us, Storable F u ∧ |val F u| ≤ U) (y y' : Int)
    (hy : Storable F y) (hyB : |val F y| ≤ B) (hy' : Storable F y') (hyB' : |val F y'| ≤ B) :
    ∃ z z', iir F a y us = .ok z ∧ iir F a y' us = .ok z' ∧
      |val F z - val F z'| ≤ |val F a| ^ us.length * |val F y - val F y'| + 2 * (ulp F / (1 - |val F a|)) := by
  obtain ⟨z, e, -, -, z2, -⟩ := C201_filter F hF hr a ha h1 U B hB hinv us hu y hy hyB
  obtain ⟨z', e', -, -, z2', -⟩ := C201_filter F hF hr a ha h1 U B hB hinv us hu y' hy' hyB'
  refine ⟨z, z', e, e', ?_⟩
  have c0 : 0 < 1 - |val F a| := by linarith
  rw [← le_div_iff₀ c0] at z2 z2'
  have ex : ∀ (us : List Int) (q q' : ℚ), exactIir F a q us - exactIir F a q' us = val F a ^ us.length * (q - q') := by
    intro us
    induction us with
    | nil => intro q q'; simp [exactIir]
    | cons u t ih => intro q q'; unfold exactIir; rw [ih, List.length_cons, pow_succ]; ring
  have e1 : val F z - val F z' = (val F z - exactIir F a (val F y) us) + (-(val F z' - exactIir F a (val F y') us) + val F a ^ us.length * (val F y - val F y')) := by
    rw [← ex]; ring
  rw [e1]
  refine (abs_add_le _ _).trans ?_
  have := abs_add_le (-(val F z' - exactIir F a (val F y') us)) (val F a ^ us.length * (val F y - val F y'))
  rw [abs_neg, abs_mul, abs_pow] at this
  linarith

example : |val fixed32 58982| * 1000 + 10 + ulp fixed32 ≤ 1000 ∧ (1000 : ℚ) ≤ val fixed32 fixed32.T.hi ∧
    iir fixed32 58982 0 (List.replicate 200 65536) = .ok 655311 := by
  refine ⟨?_, ?_, by decide +kernel⟩ <;> norm_num [val, ulp, fixed32, IntTy.hi, i32]

end Eirin.Props
