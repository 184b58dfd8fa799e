import Verif.Props.AtanWide
import Mathlib.Analysis.Calculus.Deriv.MeanValue

/-! # Property C102, arguments of `atan` beyond one

The fitted polynomial leaves the arctangent steadily: the deviation is increasing from one on. -/

namespace Eirin.Props
open Spec

/-- The arctangent minus the polynomial of `C102_polynomial_partial`. -/
noncomputable def atDev (t : ℝ) : ℝ := Real.arctan t - (t - 0.327622764 * t ^ 3 + 0.15931422 * t ^ 5 - 0.0464964749 * t ^ 7)

theorem atDev_neg (t : ℝ) : atDev (-t) = -atDev t := by
  unfold atDev; rw [Real.arctan_neg]; ring

/-- The numerator of the derivative of `atDev`, as a polynomial in `t`. -/
noncomputable def atNum (t : ℝ) : ℝ := 1 - (1 + t ^ 2) * (1 - 3 * 0.327622764 * t ^ 2 + 5 * 0.15931422 * t ^ 4 - 7 * 0.0464964749 * t ^ 6)

theorem atDev_deriv (t : ℝ) : HasDerivAt atDev (atNum t / (1 + t ^ 2)) t := by
  have h1 : (1 + t ^ 2) ≠ 0 := by positivity
  have h := (Real.hasDerivAt_arctan t).sub ((((hasDerivAt_id t).sub ((hasDerivAt_pow 3 t).const_mul 0.327622764)).add
    ((hasDerivAt_pow 5 t).const_mul 0.15931422)).sub ((hasDerivAt_pow 7 t).const_mul 0.0464964749))
  refine h.congr_deriv ?_
  unfold atNum
  rw [eq_div_iff h1, sub_mul, one_div, inv_mul_cancel₀ h1]
  norm_num
  ring

/-- The antiderivative of `atNum`. -/
noncomputable def atInt (t : ℝ) : ℝ :=
  (3 * 0.327622764 - 1) / 3 * t ^ 3 + (3 * 0.327622764 - 5 * 0.15931422) / 5 * t ^ 5 + (7 * 0.0464964749 - 5 * 0.15931422) / 7 * t ^ 7 + 7 * 0.0464964749 / 9 * t ^ 9

theorem atInt_deriv (t : ℝ) : HasDerivAt atInt (atNum t) t := by
  have h := ((((hasDerivAt_pow 3 t).const_mul ((3 * 0.327622764 - 1) / 3)).add ((hasDerivAt_pow 5 t).const_mul ((3 * 0.327622764 - 5 * 0.15931422) / 5))).add
    ((hasDerivAt_pow 7 t).const_mul ((7 * 0.0464964749 - 5 * 0.15931422) / 7))).add ((hasDerivAt_pow 9 t).const_mul (7 * 0.0464964749 / 9))
  refine h.congr_deriv ?_
  unfold atNum
  norm_num
  ring

theorem atNum_pos {t : ℝ} (h : 1 ≤ t) : 0 ≤ atNum t := by
  have hw : 1 ≤ t ^ 2 := one_le_pow₀ h
  have e : atNum t = t ^ 2 * ((3 * 0.327622764 - 1) + (3 * 0.327622764 - 5 * 0.15931422) * t ^ 2 + (7 * 0.0464964749 - 5 * 0.15931422) * (t ^ 2) ^ 2 +
    7 * 0.0464964749 * (t ^ 2) ^ 3) := by unfold atNum; ring
  rw [e]
  generalize t ^ 2 = w at *
  obtain ⟨v, rfl⟩ : ∃ v, w = 1 + v := ⟨w - 1, by ring⟩
  have hv : 0 ≤ v := by linarith
  have e2 : (3 * 0.327622764 - 1) + (3 * 0.327622764 - 5 * 0.15931422) * (1 + v) + (7 * 0.0464964749 - 5 * 0.15931422) * (1 + v) ^ 2 + 7 * 0.0464964749 * (1 + v) ^ 3 =
    (3 * 0.327622764 - 1 + 3 * 0.327622764 - 5 * 0.15931422 + 7 * 0.0464964749 - 5 * 0.15931422 + 7 * 0.0464964749) +
      (3 * 0.327622764 - 5 * 0.15931422 + 2 * (7 * 0.0464964749 - 5 * 0.15931422) + 3 * (7 * 0.0464964749)) * v +
      (7 * 0.0464964749 - 5 * 0.15931422 + 3 * (7 * 0.0464964749)) * v ^ 2 + 7 * 0.0464964749 * v ^ 3 := by ring
  rw [e2]
  norm_num
  positivity

/-- From one on the deviation increases. -/
theorem atDev_mono {s t : ℝ} (h1 : 1 ≤ s) (h : s ≤ t) : atDev s ≤ atDev t := by
  have hd : DifferentiableOn ℝ atDev (Set.Ici 1) := fun t _ => (atDev_deriv t).differentiableAt.differentiableWithinAt
  refine monotoneOn_of_deriv_nonneg (convex_Ici 1) hd.continuousOn (hd.mono interior_subset) (fun t ht => ?_) h1 (h1.trans h) h
  rw [interior_Ici] at ht
  rw [(atDev_deriv t).deriv]
  exact div_nonneg (atNum_pos (le_of_lt ht)) (by positivity)

/-- Its growth from one on is at most half that of `atInt`. -/
theorem atDev_upper {t : ℝ} (h : 1 ≤ t) : atDev t - atDev 1 ≤ (atInt t - atInt 1) / 2 := by
  have hd : ∀ t, HasDerivAt (fun t => atInt t / 2 - atDev t) (atNum t / 2 - atNum t / (1 + t ^ 2)) t := fun t =>
    ((atInt_deriv t).div_const 2).sub (atDev_deriv t)
  have hD : DifferentiableOn ℝ (fun t => atInt t / 2 - atDev t) (Set.Ici 1) := fun t _ => (hd t).differentiableAt.differentiableWithinAt
  have := monotoneOn_of_deriv_nonneg (convex_Ici 1) hD.continuousOn (hD.mono interior_subset) (fun t ht => ?_) (le_refl (1 : ℝ)) h h
  · simp only at this; linarith
  · rw [interior_Ici] at ht
    have ht' : (1 : ℝ) < t := ht
    rw [(hd t).deriv, sub_nonneg]
    exact div_le_div_of_nonneg_left (atNum_pos ht'.le) (by norm_num) (by nlinarith)

/-- Up to 3/2 it is at least 4/13 of that. -/
theorem atDev_lower : 4 / 13 * (atInt (3 / 2) - atInt 1) ≤ atDev (3 / 2) - atDev 1 := by
  have hd : ∀ t, HasDerivAt (fun t => atDev t - 4 / 13 * atInt t) (atNum t / (1 + t ^ 2) - 4 / 13 * atNum t) t := fun t =>
    (atDev_deriv t).sub ((atInt_deriv t).const_mul (4 / 13))
  have hD : DifferentiableOn ℝ (fun t => atDev t - 4 / 13 * atInt t) (Set.Icc 1 (3 / 2)) := fun t _ => (hd t).differentiableAt.differentiableWithinAt
  have := monotoneOn_of_deriv_nonneg (convex_Icc 1 (3 / 2)) hD.continuousOn (hD.mono interior_subset) (fun t ht => ?_)
    (Set.left_mem_Icc.2 (by norm_num : (1 : ℝ) ≤ 3 / 2)) (Set.right_mem_Icc.2 (by norm_num)) (by norm_num)
  · simp only at this; linarith
  · rw [interior_Icc] at ht
    obtain ⟨t1, t2⟩ := ht
    rw [(hd t).deriv, sub_nonneg, le_div_iff₀ (by positivity)]
    have h0 := atNum_pos t1.le
    have h2 : t ^ 2 ≤ (3 / 2) ^ 2 := pow_le_pow_left₀ (by linarith) t2.le 2
    have h3 := mul_le_mul_of_nonneg_left h2 h0
    linarith

theorem atDev_one : 1.7 / 10000 ≤ atDev 1 ∧ atDev 1 ≤ 2.1 / 10000 := by
  unfold atDev
  rw [Real.arctan_one]
  have g := Real.pi_gt_d6; have l := Real.pi_lt_d6
  norm_num at *
  constructor <;> linarith

theorem atDev_values : atDev (11 / 10) ≤ 35 / 10000 ∧ atDev (5 / 4) ≤ 26 / 1000 ∧ 155 / 1000 ≤ atDev (3 / 2) := by
  obtain ⟨a, b⟩ := atDev_one
  have u1 := atDev_upper (t := 11 / 10) (by norm_num)
  have u2 := atDev_upper (t := 5 / 4) (by norm_num)
  have l1 := atDev_lower
  unfold atInt at u1 u2 l1
  norm_num at u1 u2 l1 a b ⊢
  refine ⟨by linarith, by linarith, by linarith⟩

/-- The body of `atan` up to 5/4. -/
theorem atanBody_125 {F : FxTy} (k : AtC F) {x : Int} (h0 : 0 ≤ x) (h1 : rv F x ≤ 5 / 4) :
    ∃ r, atanBody F x = .ok r ∧ Ap F r (Trig.atP (rv F x)) 19 := by
  have h := k.lib
  have hX0 : 0 ≤ rv F x := by have := (rv_le F (a := 0) (b := x)).2 h0; simpa [rv] using this
  have hxs : Storable F x := h.st (by rw [abs_le]; constructor <;> linarith)
  have hx := Ap.exact (F := F) hxs
  generalize rv F x = X at *
  have hXa : |X| ≤ 5 / 4 := by rw [abs_le]; constructor <;> linarith
  have hW0 : 0 ≤ X * X := by positivity
  have hW1 : X * X ≤ 1.57 := by nlinarith
  have hWa : |X * X| ≤ 1.57 := by rw [abs_of_nonneg hW0]; exact hW1
  obtain ⟨ex2, hx2⟩ := Ap.mul h (5 / 4) (5 / 4) 1 hx hx hXa hXa (by norm_num) (by norm_num)
  obtain ⟨ep1, hp1⟩ := Ap.mul h 0.0465 1.57 2.7 k.aa hx2 (by rw [abs_neg, abs_of_nonneg] <;> norm_num) hWa (by norm_num) (by norm_num)
  unfold Trig.atP
  generalize X * X = W at *
  have n2 : |-(0x17CE62CE264A340 / 2 ^ 61 : ℝ) * W + 0x5191A2296020A80 / 2 ^ 61| ≤ 0.16 := by
    rw [abs_le]; norm_num; constructor <;> linarith
  obtain ⟨ep2, hp2⟩ := Ap.add h (M := 0.16) hp1 k.ab n2 (by norm_num)
  generalize -(0x17CE62CE264A340 / 2 ^ 61 : ℝ) * W + 0x5191A2296020A80 / 2 ^ 61 = P2 at *
  obtain ⟨ep3, hp3⟩ := Ap.mul h 0.16 1.57 7.1 hp2 hx2 n2 hWa (by norm_num) (by norm_num)
  have n3 : |P2 * W| ≤ 0.16 * 1.57 := by rw [abs_mul]; exact mul_le_mul n2 hWa (abs_nonneg _) (by norm_num)
  have n4 : |P2 * W - 0xA7BE2BC19C39800 / 2 ^ 61| ≤ 0.59 := by rw [abs_le] at *; norm_num at *; constructor <;> linarith [n3.1, n3.2]
  obtain ⟨ep4, hp4⟩ := Ap.sub h hp3 k.ac n4 (by norm_num)
  obtain ⟨ep5, hp5⟩ := Ap.mul h 0.59 1.57 14.4 hp4 hx2 n4 hWa (by norm_num) (by norm_num)
  have n5 : |(P2 * W - 0xA7BE2BC19C39800 / 2 ^ 61) * W| ≤ 0.93 := by
    rw [abs_mul]; have := mul_le_mul n4 hWa (abs_nonneg _) (by norm_num : (0 : ℝ) ≤ 0.59); norm_num at *; linarith
  obtain ⟨ep6, hp6⟩ := Ap.mul h 0.93 (5 / 4) 19 hp5 hx n5 hXa (by norm_num) (by norm_num)
  have n6 : |(P2 * W - 0xA7BE2BC19C39800 / 2 ^ 61) * W * X| ≤ 1.2 := by
    rw [abs_mul]; have := mul_le_mul n5 hXa (abs_nonneg _) (by norm_num : (0 : ℝ) ≤ 0.93); norm_num at *; linarith
  have n7 : |(P2 * W - 0xA7BE2BC19C39800 / 2 ^ 61) * W * X + X| ≤ 2.5 := by
    have := abs_add_le ((P2 * W - 0xA7BE2BC19C39800 / 2 ^ 61) * W * X) X; norm_num at *; linarith
  obtain ⟨er, hr⟩ := Ap.add h hp6 hx n7 (by norm_num)
  refine ⟨_, ?_, by rw [add_zero] at hr; exact hr⟩
  unfold atanBody
  rw [k.ea, k.eb, k.ec]
  simp only [Res.bind_ok, k.ea2, ex2, ep1, ep2, ep3, ep4, ep5, ep6, er]

/-- The polynomial, within 855 ulp up to 5/2 and within 20 ulp up to 5/4. -/
theorem atan_poly2 (F : FxTy) (hF : F = fixed32 ∨ F = fixed64) (x : Int) (hx : |val F x| ≤ 5 / 2) :
    ∃ r, atan F x = .ok r ∧ Storable F r ∧
      |val F r - (val F x - 0.327622764 * val F x ^ 3 + 0.15931422 * val F x ^ 5 - 0.0464964749 * val F x ^ 7)| ≤ (if |val F x| ≤ 5 / 4 then 20 else 855) * ulp F := by
  split
  · rename_i hc
    have hx' : |rv F x| ≤ 5 / 4 := by
      rw [← rv_eq]
      have : ((|val F x| : ℚ) : ℝ) ≤ ((5 / 4 : ℚ) : ℝ) := by exact_mod_cast hc
      push_cast at this; exact this
    obtain ⟨r, e, s, hr⟩ := atan_poly F hF x hx (K := 19) (by norm_num) (by exact_mod_cast atanBody_125 (atC_of hF) (abs_nonneg x) (by rw [rv_abs]; exact hx'))
    exact ⟨r, e, s, by norm_num at hr ⊢; exact hr⟩
  · exact C102_polynomial_partial F hF x hx

/-- The error of `atan` from one on is the deviation of the polynomial, up to a few ulps. -/
theorem atan_err (F : FxTy) (hF : F = fixed32 ∨ F = fixed64) (x : Int) (h1 : 1 ≤ |val F x|) (h2 : |val F x| ≤ 5 / 2) :
    ∃ r, atan F x = .ok r ∧ Storable F r ∧
      _root_.abs (α := ℝ) (_root_.abs (((val F r : ℚ) : ℝ) - Real.arctan (val F x : ℚ)) - atDev (_root_.abs ((val F x : ℚ) : ℝ))) ≤
        (if |val F x| ≤ 5 / 4 then 20 else 855) * (ulp F : ℚ) := by
  obtain ⟨r, e, s, hr⟩ := atan_poly2 F hF x h2
  refine ⟨r, e, s, ?_⟩
  have hr' : ((|val F r - (val F x - 0.327622764 * val F x ^ 3 + 0.15931422 * val F x ^ 5 - 0.0464964749 * val F x ^ 7)| : ℚ) : ℝ) ≤
      (((if |val F x| ≤ 5 / 4 then 20 else 855) * ulp F : ℚ) : ℝ) := by exact_mod_cast hr
  have h1' : (1 : ℝ) ≤ |((val F x : ℚ) : ℝ)| := by exact_mod_cast h1
  rw [Rat.cast_mul, apply_ite (fun q : ℚ => (q : ℝ))] at hr'
  push_cast at hr'
  generalize (if |val F x| ≤ 5 / 4 then (20 : ℝ) else 855) * ((ulp F : ℚ) : ℝ) = B at *
  generalize ((val F x : ℚ) : ℝ) = X at *
  generalize ((val F r : ℚ) : ℝ) = R at *
  have p1 := (atDev_one.1.trans (atDev_mono le_rfl h1'))
  have ed : |atDev X| = atDev |X| := by
    rcases abs_choice X with h | h
    · rw [h] at p1 ⊢; rw [abs_of_nonneg (by linarith)]
    · rw [h] at p1 ⊢; rw [atDev_neg] at p1 ⊢; rw [abs_of_neg (by linarith)]
  rw [← ed]
  have e2 : R - Real.arctan X = (R - (X - 0.327622764 * X ^ 3 + 0.15931422 * X ^ 5 - 0.0464964749 * X ^ 7)) - atDev X := by unfold atDev; ring
  have t1 := abs_abs_sub_abs_le (R - Real.arctan X) (-atDev X)
  rw [abs_neg] at t1
  refine t1.trans ?_
  rw [e2, sub_neg_eq_add, sub_add_cancel]
  norm_num at hr' ⊢
  exact hr'

/-- **C102 (partial, beyond one).** From one to 5/2 the error of `atan` grows with the argument: it stays below 0.0035 up to 1.1 and below 0.026 up to 1.25, and is
above 0.155 from 1.5 on, each up to rounding errors.  Full statement: `C102_statement`; it is false by `C102_false`. -/
theorem C102_beyond_partial (F : FxTy) (hF : F = fixed32 ∨ F = fixed64) (x : Int) (h1 : 1 ≤ |val F x|) (h2 : |val F x| ≤ 5 / 2) :
    ∃ r, atan F x = .ok r ∧ Storable F r ∧
      (|val F x| ≤ 11 / 10 → |((val F r : ℚ) : ℝ) - Real.arctan (val F x : ℚ)| ≤ 35 / 10000 + 20 * (ulp F : ℚ)) ∧
      (|val F x| ≤ 5 / 4 → |((val F r : ℚ) : ℝ) - Real.arctan (val F x : ℚ)| ≤ 26 / 1000 + 20 * (ulp F : ℚ)) ∧
      (3 / 2 ≤ |val F x| → 155 / 1000 - 855 * (ulp F : ℚ) ≤ |((val F r : ℚ) : ℝ) - Real.arctan (val F x : ℚ)|) ∧
      ∀ y, |val F x| ≤ |val F y| → |val F y| ≤ 5 / 2 → ∃ s, atan F y = .ok s ∧
        |((val F r : ℚ) : ℝ) - Real.arctan (val F x : ℚ)| ≤ |((val F s : ℚ) : ℝ) - Real.arctan (val F y : ℚ)| + 1710 * (ulp F : ℚ) := by
  obtain ⟨v1, v2, v3⟩ := atDev_values
  obtain ⟨r, e, s, hr⟩ := atan_err F hF x h1 h2
  have hu : (0 : ℝ) < (ulp F : ℚ) := by exact_mod_cast ulp_pos F
  have c1 : (1 : ℝ) ≤ |((val F x : ℚ) : ℝ)| := by exact_mod_cast h1
  have big : ∀ x, (if |val F x| ≤ 5 / 4 then (20 : ℝ) else 855) * (ulp F : ℚ) ≤ 855 * (ulp F : ℚ) := fun x =>
    mul_le_mul_of_nonneg_right (by split <;> norm_num) hu.le
  have bx := big x
  obtain ⟨ra, rb⟩ := abs_le.1 hr
  refine ⟨r, e, s, fun h => ?_, fun h => ?_, fun h => ?_, fun y hy h5 => ?_⟩
  · have h' : |((val F x : ℚ) : ℝ)| ≤ 11 / 10 := by
      have : ((|val F x| : ℚ) : ℝ) ≤ ((11 / 10 : ℚ) : ℝ) := by exact_mod_cast h
      push_cast at this; exact this
    rw [if_pos (by linarith)] at rb
    have := atDev_mono c1 h'
    linarith
  · have h' : |((val F x : ℚ) : ℝ)| ≤ 5 / 4 := by
      have : ((|val F x| : ℚ) : ℝ) ≤ ((5 / 4 : ℚ) : ℝ) := by exact_mod_cast h
      push_cast at this; exact this
    rw [if_pos h] at rb
    have := atDev_mono c1 h'
    linarith
  · have h' : 3 / 2 ≤ |((val F x : ℚ) : ℝ)| := by
      have : ((3 / 2 : ℚ) : ℝ) ≤ ((|val F x| : ℚ) : ℝ) := by exact_mod_cast h
      push_cast at this; exact this
    have := atDev_mono (by norm_num) h'
    linarith
  · obtain ⟨s, es, -, hs⟩ := atan_err F hF y (h1.trans hy) h5
    refine ⟨s, es, ?_⟩
    have h' : |((val F x : ℚ) : ℝ)| ≤ |((val F y : ℚ) : ℝ)| := by exact_mod_cast hy
    have := atDev_mono c1 h'
    have := big y
    obtain ⟨sa, sb⟩ := abs_le.1 hs
    linarith

example : atan fixed32 72089 = .ok 54385 ∧ 1 ≤ |val fixed32 72089| ∧ |val fixed32 72089| ≤ 11 / 10 ∧ atan fixed32 (-98304) = .ok (-53055) ∧
    3 / 2 ≤ |val fixed32 (-98304)| := by
  refine ⟨by decide +kernel, ?_, ?_, by decide +kernel, ?_⟩ <;> norm_num [val, fixed32]

/-- The quotient `x / sqrt(1 - x²)` in `asin` on `fixed32`, up to 0.92. -/
theorem asin_quot32 (x : Int) (h2 : |rv fixed32 x| ≤ 92 / 100) :
    ∃ q, asin fixed32 x = atan fixed32 q ∧ |rv fixed32 q - rv fixed32 x / Real.sqrt (1 - rv fixed32 x ^ 2)| ≤ 10 / 65536 := by
  have hxi : |x| < 65536 := by
    by_contra hc
    have : rv fixed32 65536 ≤ rv fixed32 |x| := (rv_le _).2 (by omega)
    rw [rv_abs, rv32] at this
    push_cast at this
    norm_num at this; linarith
  have hb := abs_lt.1 hxi
  have hS : Storable fixed32 x := in32 (by omega) (by omega)
  obtain ⟨s, es, hs, hs0, hs1, ea⟩ := asin_inner hS hxi
  refine ⟨_, ea, ?_⟩
  set X := rv fixed32 x with hXd
  have hX2 : X ^ 2 ≤ (92 / 100) ^ 2 := by rw [← sq_abs]; exact pow_le_pow_left₀ (abs_nonneg _) h2 2
  set S := Real.sqrt (1 - X ^ 2) with hSd
  have hS2 : S ^ 2 = 1 - X ^ 2 := Real.sq_sqrt (by norm_num at hX2; linarith)
  have hSn : 0 ≤ S := Real.sqrt_nonneg _
  have hSl : 0.39 ≤ S := by
    by_contra hc; push Not at hc
    norm_num at *
    nlinarith
  have hSu : S ≤ 1 := by nlinarith [sq_nonneg X]
  have hxr : (x : ℝ) = 65536 * X := by rw [hXd, rv32]; field_simp
  obtain ⟨_, hr1, hr2⟩ := hs
  have d1 := Int.ediv_mul_le (x * x) (by norm_num : (65536 : Int) ≠ 0)
  have d2 := Int.lt_ediv_add_one_mul_self (x * x) (by norm_num : (0 : Int) < 65536)
  generalize x * x / 65536 = w at *
  set T := (s : ℝ) / 65536 with hT
  have hsr : (s : ℝ) = 65536 * T := by rw [hT]; field_simp
  have hT1 : T ^ 2 ≤ 1 - X ^ 2 + 1 / 65536 := by
    have a : (s : ℝ) ^ 2 ≤ (65536 - w) * 65536 := by have : s ^ 2 ≤ (65536 - w) * 65536 := by simpa using hr1
                                                     exact_mod_cast this
    have b : (x : ℝ) * x < (w + 1) * 65536 := by exact_mod_cast d2
    rw [hsr] at a; rw [hxr] at b
    nlinarith
  have hT2 : 1 - X ^ 2 < (T + 1 / 65536) ^ 2 := by
    have a : (65536 - w) * 65536 < ((s : ℝ) + 1) ^ 2 := by have : (65536 - w) * 65536 < (s + 1) ^ 2 := by simpa using hr2
                                                           exact_mod_cast this
    have b : (w : ℝ) * 65536 ≤ x * x := by exact_mod_cast d1
    rw [hsr] at a; rw [hxr] at b
    nlinarith
  have hTn : 0 < T := by rw [hT]; positivity
  have hl : S - 1 / 65536 < T := by
    by_contra hc; push Not at hc
    nlinarith
  have hu : T ≤ S + 1.3 / 65536 := by
    by_contra hc; push Not at hc
    norm_num at *
    nlinarith
  -- the quotient
  have hq := tdiv_near (x * 65536) hs0
  set q := Int.tdiv (x * 65536) s with hqd
  set Q := rv fixed32 q with hQd
  have hqr : (q : ℝ) = 65536 * Q := by rw [hQd, rv32]; field_simp
  have hQ : |Q - X / T| ≤ 1 / 65536 := by
    push_cast at hq
    rw [hqr, hxr, hsr] at hq
    have e : 65536 * Q * (65536 * T) - 65536 * X * 65536 = (Q - X / T) * T * (65536 * 65536) := by field_simp
    rw [e, abs_mul, abs_mul, abs_of_pos hTn, abs_of_pos (by norm_num : (0 : ℝ) < 65536 * 65536)] at hq
    have : |Q - X / T| * 65536 ≤ 1 := by
      have : (|Q - X / T| * 65536) * (T * 65536) ≤ 1 * (T * 65536) := by linarith
      exact le_of_mul_le_mul_right this (by positivity)
    linarith
  have hXT : |X / T - X / S| ≤ 9 / 65536 := by
    have e : X / T - X / S = X * (S - T) / (T * S) := by field_simp
    rw [e, abs_div, abs_of_pos (by positivity : 0 < T * S), div_le_iff₀ (by positivity), abs_mul]
    have a : |S - T| ≤ 1.3 / 65536 := by rw [abs_le]; norm_num at *; constructor <;> linarith
    have b : |X| * |S - T| ≤ 92 / 100 * (1.3 / 65536) := mul_le_mul h2 a (abs_nonneg _) (by norm_num)
    have c : 0.15 ≤ T * S := by
      have : 0.389 ≤ T := by norm_num at *; linarith
      have := mul_le_mul this hSl (by norm_num) hTn.le
      norm_num at *; linarith
    norm_num at *; linarith
  have := abs_sub_le Q (X / T) (X / S); linarith

/-- **C102 (partial, `asin`).** On `fixed32` the error of `asin` is below 0.005 up to 0.73 and below 0.027 up to 0.78, and above 0.14 from 0.84 to 0.92. -/
theorem C102_asin_beyond_partial (x : Int) (h1 : 71 / 100 ≤ |val fixed32 x|) (h2 : |val fixed32 x| ≤ 92 / 100) :
    ∃ r, asin fixed32 x = .ok r ∧
      (|val fixed32 x| ≤ 73 / 100 → |((val fixed32 r : ℚ) : ℝ) - Real.arcsin (val fixed32 x : ℚ)| ≤ 5 / 1000) ∧
      (|val fixed32 x| ≤ 78 / 100 → |((val fixed32 r : ℚ) : ℝ) - Real.arcsin (val fixed32 x : ℚ)| ≤ 27 / 1000) ∧
      (84 / 100 ≤ |val fixed32 x| → 14 / 100 ≤ |((val fixed32 r : ℚ) : ℝ) - Real.arcsin (val fixed32 x : ℚ)|) := by
  have c1 : (71 / 100 : ℝ) ≤ |rv fixed32 x| := by
    rw [← rv_eq]
    have : ((71 / 100 : ℚ) : ℝ) ≤ ((|val fixed32 x| : ℚ) : ℝ) := by exact_mod_cast h1
    push_cast at this; exact this
  have c2 : |rv fixed32 x| ≤ 92 / 100 := by
    rw [← rv_eq]
    have : ((|val fixed32 x| : ℚ) : ℝ) ≤ ((92 / 100 : ℚ) : ℝ) := by exact_mod_cast h2
    push_cast at this; exact this
  obtain ⟨q, ea, hq⟩ := asin_quot32 x c2
  have hX2 : rv fixed32 x ^ 2 ≤ (92 / 100) ^ 2 := by rw [← sq_abs]; exact pow_le_pow_left₀ (abs_nonneg _) c2 2
  have hasin : Real.arcsin (rv fixed32 x) = Real.arctan (rv fixed32 x / Real.sqrt (1 - rv fixed32 x ^ 2)) :=
    Real.arcsin_eq_arctan ⟨by linarith [neg_abs_le (rv fixed32 x)], by linarith [le_abs_self (rv fixed32 x)]⟩
  -- bounds for `|x| / sqrt(1 - x²)`
  have up : ∀ b B : ℝ, 0 ≤ b → 0 < B → b ^ 2 * (1 + B ^ 2) ≤ B ^ 2 → |rv fixed32 x| ≤ b → |rv fixed32 x / Real.sqrt (1 - rv fixed32 x ^ 2)| ≤ B := by
    intro b B hb hB hbB hx
    have s0 : 0 < 1 - rv fixed32 x ^ 2 := by norm_num at hX2; linarith
    rw [abs_div, abs_of_pos (Real.sqrt_pos.2 s0), div_le_iff₀ (Real.sqrt_pos.2 s0)]
    refine abs_le_of_sq_le_sq' ?_ (by positivity) |>.2
    rw [mul_pow, Real.sq_sqrt s0.le]
    have := pow_le_pow_left₀ (abs_nonneg _) hx 2
    rw [sq_abs] at this ⊢
    nlinarith [sq_nonneg B]
  have dn : ∀ b B : ℝ, 0 ≤ b → 0 < B → B ^ 2 ≤ b ^ 2 * (1 + B ^ 2) → b ≤ |rv fixed32 x| → B ≤ |rv fixed32 x / Real.sqrt (1 - rv fixed32 x ^ 2)| := by
    intro b B hb hB hbB hx
    have s0 : 0 < 1 - rv fixed32 x ^ 2 := by norm_num at hX2; linarith
    rw [abs_div, abs_of_pos (Real.sqrt_pos.2 s0), le_div_iff₀ (Real.sqrt_pos.2 s0)]
    refine abs_le_of_sq_le_sq' ?_ (abs_nonneg _) |>.2
    rw [mul_pow, Real.sq_sqrt s0.le]
    have := pow_le_pow_left₀ hb hx 2
    rw [sq_abs] at this ⊢
    nlinarith [sq_nonneg B]
  have q1 := dn (71 / 100) 1.005 (by norm_num) (by norm_num) (by norm_num) c1
  have q2 := up (92 / 100) 2.4 (by norm_num) (by norm_num) (by norm_num) c2
  have lip := arctan_lip (rv fixed32 q) (rv fixed32 x / Real.sqrt (1 - rv fixed32 x ^ 2))
  rw [← hasin] at lip
  generalize hZ : rv fixed32 x / Real.sqrt (1 - rv fixed32 x ^ 2) = Z at *
  have z1 := abs_sub_abs_le_abs_sub Z (rv fixed32 q)
  have z2 := abs_sub_abs_le_abs_sub (rv fixed32 q) Z
  rw [abs_sub_comm Z] at z1
  have toQ : ∀ c : ℚ, |rv fixed32 q| ≤ c → |val fixed32 q| ≤ c := by
    intro c hc
    rw [← rv_eq] at hc
    exact_mod_cast hc
  have toQ' : ∀ c : ℚ, (c : ℝ) ≤ |rv fixed32 q| → c ≤ |val fixed32 q| := by
    intro c hc
    rw [← rv_eq] at hc
    exact_mod_cast hc
  obtain ⟨r, e, -, r1, r2, r3, -⟩ := C102_beyond_partial fixed32 (Or.inl rfl) q (toQ' 1 (by norm_num at *; linarith)) (toQ (5 / 2) (by norm_num at *; linarith))
  have t1 := abs_sub_le (rv fixed32 r) (Real.arctan (rv fixed32 q)) (Real.arcsin (rv fixed32 x))
  have t2 := abs_sub_le (rv fixed32 r) (Real.arcsin (rv fixed32 x)) (Real.arctan (rv fixed32 q))
  rw [abs_sub_comm (Real.arcsin (rv fixed32 x))] at t2
  have u32 : ((ulp fixed32 : ℚ) : ℝ) = 1 / 65536 := by unfold ulp; norm_num [fixed32]
  simp only [rv_eq, u32] at r1 r2 r3 ⊢
  refine ⟨r, by rw [ea, e], fun h => ?_, fun h => ?_, fun h => ?_⟩
  · have h' : |rv fixed32 x| ≤ 73 / 100 := by
      rw [← rv_eq]
      have : ((|val fixed32 x| : ℚ) : ℝ) ≤ ((73 / 100 : ℚ) : ℝ) := by exact_mod_cast h
      push_cast at this; exact this
    have := up (73 / 100) 1.09 (by norm_num) (by norm_num) (by norm_num) h'
    have := r1 (toQ (11 / 10) (by norm_num at *; linarith))
    norm_num at *; linarith
  · have h' : |rv fixed32 x| ≤ 78 / 100 := by
      rw [← rv_eq]
      have : ((|val fixed32 x| : ℚ) : ℝ) ≤ ((78 / 100 : ℚ) : ℝ) := by exact_mod_cast h
      push_cast at this; exact this
    have := up (78 / 100) 1.248 (by norm_num) (by norm_num) (by norm_num) h'
    have := r2 (toQ (5 / 4) (by norm_num at *; linarith))
    norm_num at *; linarith
  · have h' : 84 / 100 ≤ |rv fixed32 x| := by
      rw [← rv_eq]
      have : ((84 / 100 : ℚ) : ℝ) ≤ ((|val fixed32 x| : ℚ) : ℝ) := by exact_mod_cast h
      push_cast at this; exact this
    have := dn (84 / 100) 1.52 (by norm_num) (by norm_num) (by norm_num) h'
    have := r3 (toQ' (3 / 2) (by norm_num at *; linarith))
    norm_num at *; linarith

example : asin fixed32 47186 = .ok 52622 ∧ 71 / 100 ≤ |val fixed32 47186| ∧ |val fixed32 47186| ≤ 73 / 100 ∧ asin fixed32 (-55706) = .ok (-42952) ∧
    84 / 100 ≤ |val fixed32 (-55706)| ∧ |val fixed32 (-55706)| ≤ 92 / 100 := by
  refine ⟨by decide +kernel, ?_, ?_, by decide +kernel, ?_, ?_⟩ <;> norm_num [val, fixed32]

end Eirin.Props
