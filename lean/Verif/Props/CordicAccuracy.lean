import Verif.Lemmas.CordicReal
import Verif.Props.Cordic

/-!
# C74: accuracy of the CORDIC sine and cosine

The error budget, in ulps: 57 for the truncating shifts of the 41 passes, 1–2 for the gain constant `K`, 23–24 for the angle table (whose
decimal strings are cut off by the parser), 11–14 for the angle left over after the last pass, and one per half turn removed by the
reduction (the library's `pi` is the floor of `π`).
-/

namespace Eirin.Props
open Spec

/-- The number of half turns removed is at most `x/3 + 1/2`; each contributes the error of the library's `pi`. -/
theorem reduce_trig {F : FxTy} {P X Q s c : Int} (h : Quadrant P X Q s c) (hX : 0 ≤ X) (h1 : rv F P ≤ Real.pi) (h2 : Real.pi ≤ rv F P + uR F)
    (h3 : 3 ≤ rv F P) :
    |s * Real.sin (rv F Q) - Real.sin (rv F X)| ≤ (rv F X / 3 + 1 / 2) * uR F ∧
    |c * Real.cos (rv F Q) - Real.cos (rv F X)| ≤ (rv F X / 3 + 1 / 2) * uR F := by
  obtain ⟨hQ0, hQ1, m, hm⟩ := h
  have hu := uR_pos F
  have hP0 : 0 < P := by
    have : rv F 0 < rv F P := by rw [show rv F 0 = 0 by simp [rv]]; linarith
    exact (rv_lt F).1 this
  have hQr : 2 * rv F Q ≤ rv F P := by
    have := (rv_le F).2 hQ1; rw [show (2 * Q : Int) = Q + Q by ring, rv_add] at this; linarith
  have hQ0r : 0 ≤ rv F Q := by
    have := (rv_le F).2 hQ0; rwa [show rv F 0 = 0 by simp [rv]] at this
  have hXr : 0 ≤ rv F X := by
    have := (rv_le F).2 hX; rwa [show rv F 0 = 0 by simp [rv]] at this
  -- common part: an angle that differs from `rv X` by `n` times the error of pi
  have key : ∀ (n : Int), 0 ≤ n → n * rv F P ≤ rv F X + rv F P / 2 →
      |n * Real.pi - n * rv F P| ≤ (rv F X / 3 + 1 / 2) * uR F := by
    intro n hn hb
    have hnR : (0 : ℝ) ≤ n := by exact_mod_cast hn
    have e : (n : ℝ) * Real.pi - n * rv F P = n * (Real.pi - rv F P) := by ring
    rw [e, abs_of_nonneg (mul_nonneg hnR (by linarith))]
    have hn2 : (n : ℝ) ≤ rv F X / 3 + 1 / 2 := by
      by_contra hc
      push Not at hc
      have : (rv F X / 3 + 1 / 2) * rv F P < n * rv F P := mul_lt_mul_of_pos_right hc (by linarith)
      nlinarith
    exact mul_le_mul hn2 (by linarith) (by linarith) (by linarith)
  have hrvm : ∀ j : Int, rv F (P * j) = j * rv F P := by intro j; unfold rv; push_cast; ring
  have fin : ∀ (A B : ℝ), |A - B| ≤ (rv F X / 3 + 1 / 2) * uR F →
      |Real.sin A - Real.sin B| ≤ (rv F X / 3 + 1 / 2) * uR F ∧ |Real.cos A - Real.cos B| ≤ (rv F X / 3 + 1 / 2) * uR F := by
    intro A B h
    exact ⟨le_trans (Real.abs_sin_sub_sin_le _ _) h, le_trans (Real.abs_cos_sub_cos_le _ _) h⟩
  have nonneg_n : ∀ n : Int, -rv F P / 2 ≤ n * rv F P → 0 ≤ n := by
    intro n hn
    by_contra hc
    push Not at hc
    have : (n : ℝ) ≤ -1 := by exact_mod_cast (by omega : n ≤ -1)
    nlinarith
  rcases hm with ⟨rfl, rfl, e⟩ | ⟨rfl, rfl, e⟩ | ⟨rfl, rfl, e⟩ | ⟨rfl, rfl, e⟩
  · -- X = 2 P m + Q
    have eX : rv F X = (2 * m : Int) * rv F P + rv F Q := by
      rw [e, rv_add, show 2 * P * m = P * (2 * m) by ring, hrvm]
    have hn : 0 ≤ 2 * m := nonneg_n _ (by linarith)
    have hk := key (2 * m) hn (by linarith)
    have := fin (rv F Q + m * (2 * Real.pi)) (rv F X) (by
      refine le_trans (le_of_eq ?_) hk
      rw [eX]; congr 1; push_cast; ring)
    rw [Real.sin_add_int_mul_two_pi, Real.cos_add_int_mul_two_pi] at this
    push_cast; rw [one_mul, one_mul]; exact this
  · -- X = 2 P m + P - Q
    have eX : rv F X = (2 * m + 1 : Int) * rv F P - rv F Q := by
      rw [e, show 2 * P * m + (P - Q) = P * (2 * m + 1) - Q by ring, rv_sub, hrvm]
    have hn : 0 ≤ 2 * m + 1 := nonneg_n _ (by linarith)
    have hk := key (2 * m + 1) hn (by linarith)
    have := fin (Real.pi - rv F Q + m * (2 * Real.pi)) (rv F X) (by
      refine le_trans (le_of_eq ?_) hk
      rw [eX]; congr 1; push_cast; ring)
    rw [Real.sin_add_int_mul_two_pi, Real.cos_add_int_mul_two_pi, Real.sin_pi_sub, Real.cos_pi_sub] at this
    push_cast; rw [one_mul, neg_one_mul]; exact this
  · -- X = 2 P m + P + Q
    have eX : rv F X = (2 * m + 1 : Int) * rv F P + rv F Q := by
      rw [e, show 2 * P * m + (P + Q) = P * (2 * m + 1) + Q by ring, rv_add, hrvm]
    have hn : 0 ≤ 2 * m + 1 := nonneg_n _ (by linarith)
    have hk := key (2 * m + 1) hn (by linarith)
    have := fin (rv F Q + Real.pi + m * (2 * Real.pi)) (rv F X) (by
      refine le_trans (le_of_eq ?_) hk
      rw [eX]; congr 1; push_cast; ring)
    rw [Real.sin_add_int_mul_two_pi, Real.cos_add_int_mul_two_pi, Real.sin_add_pi, Real.cos_add_pi] at this
    push_cast; rw [neg_one_mul, neg_one_mul]; exact this
  · -- X = 2 P m + 2 P - Q
    have eX : rv F X = (2 * m + 2 : Int) * rv F P - rv F Q := by
      rw [e, show 2 * P * m + (2 * P - Q) = P * (2 * m + 2) - Q by ring, rv_sub, hrvm]
    have hn : 0 ≤ 2 * m + 2 := nonneg_n _ (by linarith)
    have hk := key (2 * m + 2) hn (by linarith)
    have := fin (-rv F Q + ((m + 1 : Int) : ℝ) * (2 * Real.pi)) (rv F X) (by
      refine le_trans (le_of_eq ?_) hk
      rw [eX]; congr 1; push_cast; ring)
    rw [Real.sin_add_int_mul_two_pi, Real.cos_add_int_mul_two_pi, Real.sin_neg, Real.cos_neg] at this
    push_cast; rw [neg_one_mul, one_mul]; exact this

/-- The loop's accuracy for the two types. -/
theorem loop_accuracy {F : FxTy} (hF : CordicTy F) : ∃ k tab P, CT F k tab P ∧ rv F P ≤ Real.pi ∧ Real.pi ≤ rv F P + uR F ∧ 3 ≤ rv F P ∧
    ∀ Q, 0 ≤ Q → 2 * Q ≤ P →
      |((cloop tab Q 41 0 k 0 0).2.1 : ℝ) - 2 ^ F.f * Real.sin (rv F Q)| ≤ 96 ∧
      |((cloop tab Q 41 0 k 0 0).1 : ℝ) - 2 ^ F.f * Real.cos (rv F Q)| ≤ 96 := by
  have p1 := Real.pi_gt_d20
  have p2 := Real.pi_lt_d20
  rcases hF with rfl | rfl
  · refine ⟨_, _, _, ct32, ?_, ?_, ?_, ?_⟩
    · norm_num [rv, uR, fixed32] at *; linarith
    · norm_num [rv, uR, fixed32] at *; linarith
    · norm_num [rv, uR, fixed32]
    · intro Q h0 h1
      have hs : tab32.sum = 114226 := by decide +kernel
      have := cloop_accuracy (f := 16) (k := 39796) (Q := Q) ct32.len contracts32 ⟨h0, by omega⟩ 23 tSum32 2 (by norm_num) (by norm_num)
        (by norm_num) (by decide +kernel) (by decide +kernel)
      push_cast at this
      have e : (57 : ℝ) + 2 + 23 + 11 ≤ 96 := by norm_num
      exact ⟨le_trans this.1 e, le_trans this.2 e⟩
  · refine ⟨_, _, _, ct64, ?_, ?_, ?_, ?_⟩
    · norm_num [rv, uR, fixed64] at *; linarith
    · norm_num [rv, uR, fixed64] at *; linarith
    · norm_num [rv, uR, fixed64]
    · intro Q h0 h1
      have hs : tab64.sum = 7487358999 := by decide +kernel
      have := cloop_accuracy (f := 32) (k := 2608131496) (Q := Q) ct64.len contracts64 ⟨h0, by omega⟩ 24 tSum64 1 (by norm_num) (by norm_num)
        (by norm_num) (by decide +kernel) (by decide +kernel)
      push_cast at this
      have e : (57 : ℝ) + 1 + 24 + 14 ≤ 96 := by norm_num
      exact ⟨le_trans this.1 e, le_trans this.2 e⟩

/-- C74: for every non-negative angle the CORDIC sine, and the cosine instantiation of the same loop, are within `97 + x/3` ulps of the
real sine and cosine. -/
theorem C74_accuracy (F : FxTy) (hF : CordicTy F) (x : Int) (hx : Storable F x) (h0 : 0 ≤ x) :
    (∃ v, cordicSine F x = .ok v ∧ |rv F v - Real.sin (rv F x)| ≤ (97 + rv F x / 3) * uR F) ∧
    (∃ v, cordic F 41 false x = .ok v ∧ |rv F v - Real.cos (rv F x)| ≤ (97 + rv F x / 3) * uR F) := by
  obtain ⟨k, tab, P, h, p1, p2, p3, acc⟩ := loop_accuracy hF
  obtain ⟨e1, e2, _, _⟩ := h.cordic_ok hx 41 (le_refl _)
  have q := quadrant_red h.pi0 x
  obtain ⟨r1, r2⟩ := reduce_trig (F := F) q h0 p1 p2 p3
  obtain ⟨a1, a2⟩ := acc (credQ P x) q.1 q.2.1
  rw [mag_of_nonneg h0] at e1 e2
  rw [if_neg (by omega), one_mul] at e1
  have hu := uR_pos F
  have um := u_mul F
  have sgn1 : |((credC P x : Int) : ℝ)| = 1 := by
    have : |credC P x| = 1 := by unfold credC; simp only []; (repeat' split) <;> rfl
    exact_mod_cast this
  have sgn2 : |((credS P x : Int) : ℝ)| = 1 := by
    have : |credS P x| = 1 := by unfold credS; split <;> rfl
    exact_mod_cast this
  -- from raw units to values
  have conv : ∀ (y s : Int) (t : ℝ), |(s : ℝ)| = 1 → |(y : ℝ) - 2 ^ F.f * t| ≤ 96 → |rv F (y * s) - s * t| ≤ 96 * uR F := by
    intro y s t hs hy
    have e : rv F (y * s) - s * t = s * uR F * (y - 2 ^ F.f * t) := by
      rw [rv_u]; push_cast; linear_combination ((s : ℝ) * t) * um
    rw [e, abs_mul, abs_mul, hs, one_mul, abs_of_pos hu, mul_comm]
    exact mul_le_mul_of_nonneg_right hy hu.le
  have c1 := conv _ _ _ sgn2 a1
  have c2 := conv _ _ _ sgn1 a2
  have hx0 : 0 ≤ rv F x := by
    have := (rv_le F).2 h0; rwa [show rv F 0 = 0 by simp [rv]] at this
  refine ⟨⟨_, e1, ?_⟩, _, e2, ?_⟩
  · refine le_trans (abs_sub_le _ (credS P x * Real.sin (rv F (credQ P x))) _) ?_
    nlinarith
  · refine le_trans (abs_sub_le _ (credC P x * Real.cos (rv F (credQ P x))) _) ?_
    nlinarith

example : CordicTy fixed32 ∧ Storable fixed32 (100 * 2 ^ 16) ∧ (0 : Int) ≤ 100 * 2 ^ 16 := ⟨Or.inl rfl, by decide +kernel, by decide⟩

/-- C74 for negative angles: the result is near minus the sine of the angle `2^(bits-1-f) + x` that the code actually uses. -/
theorem C74_negative (F : FxTy) (hF : CordicTy F) (x : Int) (hx : Storable F x) (h0 : x < 0) :
    ∃ v, cordicSine F x = .ok v ∧
      |rv F v + Real.sin (rv F (x + 2 ^ (F.T.bits - 1)))| ≤ (97 + rv F (x + 2 ^ (F.T.bits - 1)) / 3) * uR F := by
  obtain ⟨k, tab, P, h⟩ := cordicTy_ct hF
  have hx' : Storable F (x + 2 ^ (F.T.bits - 1)) ∧ 0 ≤ x + 2 ^ (F.T.bits - 1) := by
    obtain ⟨a, b⟩ := hx
    have := h.sw.lo_eq; have := h.sw.hi_eq
    exact ⟨⟨by omega, by omega⟩, by omega⟩
  obtain ⟨v, e1, e2⟩ := C66_negative F hF x hx h0
  obtain ⟨⟨w, e3, hw⟩, _⟩ := C74_accuracy F hF _ hx'.1 hx'.2
  rw [e1] at e3
  have := Res.ok.inj e3
  subst this
  refine ⟨_, e2, ?_⟩
  rw [rv_neg, ← abs_neg]
  refine le_trans (le_of_eq ?_) hw
  congr 1; ring

example : CordicTy fixed64 ∧ Storable fixed64 (-5 * 2 ^ 32) ∧ (-5 * 2 ^ 32 : Int) < 0 := ⟨Or.inr rfl, by decide +kernel, by decide⟩

end Eirin.Props
