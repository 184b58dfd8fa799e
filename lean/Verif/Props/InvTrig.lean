import Verif.Props.TrigAll
import Verif.Props.AtanAll
import Verif.Props.AtanWide
import Verif.Props.AsinAll

/-! # C132: the inverse trigonometric functions undo the direct ones

The test program measures the error of `atan(sin(x) / cos(x))` on `[-π/4, π/4]` in steps of 0.01 (`test/main.cpp`, `main`); here it is bounded for every argument. -/

namespace Eirin.Props
open Spec Trig

theorem cos_sq_quarter {x : ℝ} (hx : |x| ≤ Real.pi / 4) : 1 / 2 ≤ Real.cos x ^ 2 ∧ 7 / 10 ≤ |Real.cos x| := by
  rw [abs_le] at hx
  have h2 : 0 ≤ Real.cos (2 * x) := Real.cos_nonneg_of_mem_Icc ⟨by linarith, by linarith⟩
  have h : 1 / 2 ≤ Real.cos x ^ 2 := by rw [Real.cos_sq]; linarith
  refine ⟨h, ?_⟩
  have := sq_abs (Real.cos x)
  nlinarith [abs_nonneg (Real.cos x)]

theorem fit_quarter {F : FxTy} (h : GL F) {c : ℝ} (hc : 2 / 3 ≤ |c|) : 2 ≤ 2 ^ (F.T.bits - 1 - F.f) * |c| := by
  have h5 := h.room
  have : (2 : ℝ) ^ 4 ≤ 2 ^ (F.T.bits - 1 - F.f) := pow_le_pow_right₀ (by norm_num) (by omega)
  nlinarith

/-- Sine and cosine away from zero have only the Taylor and rounding errors. -/
theorem sincos_sharp {F : FxTy} (h : GL F) {x : Int} (hx : 15 / 100000 ≤ |rv F x|) (hx1 : |rv F x| ≤ 1) :
    ∃ s c, sin F x = .ok s ∧ Storable F s ∧ cos F x = .ok c ∧ Storable F c ∧
      |rv F s - Real.sin (rv F x)| ≤ 4 / 1000000 + 24.5 * uR F ∧ |rv F c - Real.cos (rv F x)| ≤ 4 / 1000000 + 24.5 * uR F := by
  have hu := uR_pos F
  have hul := h.lay.u_le
  have xS : Storable F x := h.lay.st (by linarith)
  have sharp : ∀ a : Int, Storable F a → F.T.lo < a → 15 / 100000 ≤ |rv F a| →
      ∃ r, sin F a = .ok r ∧ Storable F r ∧ |rv F r - Real.sin (rv F a)| ≤ 4 / 1000000 + (17.7 + |rv F a| / 4) * uR F := by
    intro a aS alo ha
    obtain ⟨r, e, rS, hr⟩ := C105_error F h.sw.valid h.sw.sg h.r h.f8 h.f59 h.room a aS alo (by
      have : ((15 / 100000 : ℚ) : ℝ) ≤ ((|val F a| : ℚ) : ℝ) := by push_cast; rw [rv_eq]; exact ha
      exact_mod_cast this)
    rw [rv_eq, rv_eq, uR_eq] at hr
    exact ⟨r, e, rS, hr⟩
  have xlo : F.T.lo < x := by
    have : Storable F (x - 1) := h.lay.st (by
      have : rv F 1 = uR F := by rw [rv_u]; norm_num
      rw [rv_sub, this, abs_le]; rw [abs_le] at hx1; constructor <;> linarith [hx1.1, hx1.2])
    have := this.1; omega
  obtain ⟨s, es, sS, hs⟩ := sharp x xS xlo hx
  obtain ⟨a, ea, aS, alo, ha, hc, hb⟩ := cos_as_sin h x xS
  obtain ⟨c, ec, cS, hc'⟩ := sharp a aS alo (by linarith [hb hx1])
  refine ⟨s, c, es, sS, by rw [ea, ec], cS, ?_, ?_⟩
  · have : |rv F x| / 4 * uR F ≤ 1 / 4 * uR F := mul_le_mul_of_nonneg_right (by linarith) hu.le
    linarith
  · have : |rv F a| / 4 * uR F ≤ 3 / 2 * uR F := mul_le_mul_of_nonneg_right (by linarith) hu.le
    have := abs_sub_le (rv F c) (Real.sin (rv F a)) (Real.cos (rv F x))
    linarith

/-- The tangent on `[-π/4, π/4]`. -/
theorem tan_quarter {F : FxTy} (h : GL F) {x : Int} (hx : |rv F x| ≤ Real.pi / 4) :
    ∃ t, tan F x = .ok t ∧ Storable F t ∧ |rv F t - Real.tan (rv F x)| ≤ 12 / 10000 + 110 * uR F ∧
      (15 / 100000 ≤ |rv F x| → |rv F t - Real.tan (rv F x)| ≤ 16 / 1000000 + 98 * uR F) := by
  have l := Real.pi_lt_d4
  have hu := uR_pos F
  have hul := h.lay.u_le
  obtain ⟨c2, c1⟩ := cos_sq_quarter hx
  have hx1 : |rv F x| ≤ 1 := by linarith
  have xS : Storable F x := h.lay.st (by linarith)
  have fit := fit_quarter h (c := Real.cos (rv F x)) (by linarith)
  have quo : ∀ e : ℝ, 0 ≤ e → 2 * e / Real.cos (rv F x) ^ 2 ≤ 4 * e := by
    intro e he
    rw [div_le_iff₀ (by linarith)]; nlinarith
  by_cases hs : 15 / 100000 ≤ |rv F x|
  · obtain ⟨s, c, es, sS, ec, cS, hs', hc'⟩ := sincos_sharp h hs hx1
    obtain ⟨t, et, tS, ht⟩ := tan_from h es sS ec cS hs' hc' (by linarith) (by norm_num at hul ⊢; linarith) fit
    have := quo (4 / 1000000 + 24.5 * uR F) (by positivity)
    exact ⟨t, et, tS, by linarith, fun _ => by linarith⟩
  · have xlo : F.T.lo < x := by
      have : Storable F (x - 1) := h.lay.st (by
        have : rv F 1 = uR F := by rw [rv_u]; norm_num
        rw [rv_sub, this, abs_le]; rw [abs_le] at hx1; constructor <;> linarith [hx1.1, hx1.2])
      have := this.1; omega
    obtain ⟨s, es, sS, hs'⟩ := sin_whole h x xS xlo
    obtain ⟨c, ec, cS, hc⟩ := cos_whole h x xS
    have : |rv F x| / 4 * uR F ≤ 1 / 4 * uR F := mul_le_mul_of_nonneg_right (by linarith) hu.le
    obtain ⟨t, et, tS, ht⟩ := tan_from h (e := 3 / 10000 + 27.25 * uR F) es sS ec cS (by linarith) (by linarith) (by linarith)
      (by norm_num at hul ⊢; linarith) fit
    have := quo (3 / 10000 + 27.25 * uR F) (by positivity)
    exact ⟨t, et, tS, by linarith, fun h => absurd h hs⟩

/-- C132: on every signed layout with 8 to 59 fraction bits and four integer bits, for every `x` in `[-π/4, π/4]` the tangent is defined, and when the computed
tangent is within `[-1, 1]` its arctangent is `x` up to `0.00157 + 118 ulp`, and up to `0.00039 + 106 ulp` unless `x` is tiny. -/
theorem C132_atan_tan (F : FxTy) (hF : F.Valid) (hs : F.T.signed = true) (hr : F.r = false) (h8 : 8 ≤ F.f) (h59 : F.f ≤ 59)
    (hroom : F.f + 5 ≤ F.T.bits) (x : Int) (hx : |((val F x : ℚ) : ℝ)| ≤ Real.pi / 4) :
    ∃ t, tan F x = .ok t ∧ Storable F t ∧ (|val F t| ≤ 1 → ∃ r, atan F t = .ok r ∧ Storable F r ∧
      |((val F r : ℚ) : ℝ) - (val F x : ℚ)| ≤ 157 / 100000 + 118 * (ulp F : ℚ) ∧
      (15 / 100000 ≤ |val F x| → |((val F r : ℚ) : ℝ) - (val F x : ℚ)| ≤ 39 / 100000 + 106 * (ulp F : ℚ))) := by
  have h := gl_of hF hs hr h8 h59 hroom
  have g := Real.pi_gt_d4; have l := Real.pi_lt_d4
  rw [rv_eq] at hx
  obtain ⟨t, et, tS, t1, t2⟩ := tan_quarter h hx
  refine ⟨t, et, tS, fun ht => ?_⟩
  obtain ⟨r, er, rS, hr⟩ := C106_accuracy F hF hs hr h8 h.sw.one t ht
  rw [rv_eq, rv_eq, uR_eq] at hr
  have hx' := abs_le.1 hx
  have ea : Real.arctan (Real.tan (rv F x)) = rv F x := Real.arctan_tan (by linarith) (by linarith)
  have hl := arctan_lip (rv F t) (Real.tan (rv F x))
  rw [ea] at hl
  have tri := abs_sub_le (rv F r) (Real.arctan (rv F t)) (rv F x)
  have hu := uR_pos F
  refine ⟨r, er, rS, ?_, fun hx0 => ?_⟩
  · rw [rv_eq, rv_eq, uR_eq]; linarith
  · have hx0' : 15 / 100000 ≤ |rv F x| := by
      have : ((15 / 100000 : ℚ) : ℝ) ≤ ((|val F x| : ℚ) : ℝ) := by exact_mod_cast hx0
      push_cast at this; rw [rv_eq] at this; exact this
    have := t2 hx0'
    rw [rv_eq, rv_eq, uR_eq]; linarith

/-- C132: the loop of the test program, for every argument in `[-π/4, π/4]` of `fixed64` (also where the computed tangent exceeds one): the error
is at most 0.00158, and at most 0.0005 unless `x` is tiny. -/
theorem C132_test_program (x : Int) (hx : |((val fixed64 x : ℚ) : ℝ)| ≤ Real.pi / 4) :
    ∃ t r, tan fixed64 x = .ok t ∧ atan fixed64 t = .ok r ∧ |((val fixed64 r : ℚ) : ℝ) - (val fixed64 x : ℚ)| ≤ 158 / 100000 ∧
      (15 / 100000 ≤ |val fixed64 x| → |((val fixed64 r : ℚ) : ℝ) - (val fixed64 x : ℚ)| ≤ 5 / 10000) := by
  have h : GL fixed64 := gl_of (by decide) (by decide) rfl (by decide) (by decide) (by decide)
  have g := Real.pi_gt_d6; have l := Real.pi_lt_d6
  have hu : uR fixed64 = 1 / 2 ^ 32 := by unfold uR; rfl
  have hul : ((ulp fixed64 : ℚ) : ℝ) = 1 / 2 ^ 32 := by rw [uR_eq, hu]
  obtain ⟨t, et, tS, ht⟩ := C132_atan_tan fixed64 (by decide) (by decide) rfl (by decide) (by decide) (by decide) x hx
  by_cases h1 : |val fixed64 t| ≤ 1
  · obtain ⟨r, er, -, a, b⟩ := ht h1
    rw [hul] at a b
    exact ⟨t, r, et, er, by norm_num at a ⊢; linarith, fun hx0 => by have := b hx0; norm_num at this ⊢; linarith⟩
  · push Not at h1
    rw [rv_eq] at hx
    obtain ⟨t', et', -, a, b⟩ := tan_quarter h hx
    rw [et] at et'
    injection et' with e; subst e
    rw [hu] at a b
    have h1' : 1 < |rv fixed64 t| := by
      have : ((1 : ℚ) : ℝ) < ((|val fixed64 t| : ℚ) : ℝ) := by exact_mod_cast h1
      push_cast at this; rw [rv_eq] at this; exact this
    have hx' := abs_le.1 hx
    have tanle : |Real.tan (rv fixed64 x)| ≤ 1 := by
      obtain ⟨c2, -⟩ := cos_sq_quarter hx
      have := Real.sin_sq_add_cos_sq (rv fixed64 x)
      rw [Real.tan_eq_sin_div_cos, abs_div, div_le_one (by rw [abs_pos]; intro h; rw [h] at c2; norm_num at c2)]
      exact sq_le_sq.1 (by linarith)
    have tri0 := abs_sub_abs_le_abs_sub (rv fixed64 t) (Real.tan (rv fixed64 x))
    have hxl : 1 / 2 ≤ |rv fixed64 x| := by
      by_contra hc
      push Not at hc
      have hm : |Real.tan (rv fixed64 x)| ≤ 9 / 10 := by
        have hs := Real.abs_sin_le_abs (x := rv fixed64 x)
        obtain ⟨-, c1⟩ := cos_sq_quarter hx
        rw [Real.tan_eq_sin_div_cos, abs_div, div_le_iff₀ (by linarith)]; linarith
      norm_num at a; linarith
    have b' := b (by linarith)
    have tb : |rv fixed64 t| ≤ 1 + 17 / 1000000 := by norm_num at b'; linarith
    obtain ⟨r, er, rS, hr⟩ := C102_polynomial_partial fixed64 (.inr rfl) t (by
      have : ((|val fixed64 t| : ℚ) : ℝ) ≤ ((5 / 2 : ℚ) : ℝ) := by push_cast; rw [rv_eq]; linarith
      exact_mod_cast this)
    have hr' : |rv fixed64 r - (rv fixed64 t - 0.327622764 * rv fixed64 t ^ 3 + 0.15931422 * rv fixed64 t ^ 5 - 0.0464964749 * rv fixed64 t ^ 7)| ≤
        855 / 2 ^ 32 := by
      have : ((|val fixed64 r - (val fixed64 t - 0.327622764 * val fixed64 t ^ 3 + 0.15931422 * val fixed64 t ^ 5 - 0.0464964749 * val fixed64 t ^ 7)| : ℚ) : ℝ) ≤
          ((855 * ulp fixed64 : ℚ) : ℝ) := by exact_mod_cast hr
      push_cast at this
      rw [rv_eq, rv_eq, hul] at this
      linarith
    have key : |rv fixed64 r - rv fixed64 x| ≤ 5 / 10000 := by
      have ea : Real.arctan (Real.tan (rv fixed64 x)) = rv fixed64 x := Real.arctan_tan (by linarith) (by linarith)
      have lip := arctan_lip (rv fixed64 t) (Real.tan (rv fixed64 x))
      rw [ea] at lip
      have P : ∀ T : ℝ, 1 ≤ T → T ≤ 1 + 17 / 1000000 →
          |(T - 0.327622764 * T ^ 3 + 0.15931422 * T ^ 5 - 0.0464964749 * T ^ 7) - Real.arctan T| ≤ 4 / 10000 := by
        intro T h1 h2
        have l2 := arctan_lip T 1
        rw [Real.arctan_one, abs_of_nonneg (by linarith : 0 ≤ T - 1), abs_le] at l2
        have p3 : 1 ≤ T ^ 3 ∧ T ^ 3 ≤ 1 + 6 / 100000 := ⟨one_le_pow₀ h1, le_trans (pow_le_pow_left₀ (by linarith) h2 3) (by norm_num)⟩
        have p5 : 1 ≤ T ^ 5 ∧ T ^ 5 ≤ 1 + 9 / 100000 := ⟨one_le_pow₀ h1, le_trans (pow_le_pow_left₀ (by linarith) h2 5) (by norm_num)⟩
        have p7 : 1 ≤ T ^ 7 ∧ T ^ 7 ≤ 1 + 13 / 100000 := ⟨one_le_pow₀ h1, le_trans (pow_le_pow_left₀ (by linarith) h2 7) (by norm_num)⟩
        rw [abs_le]
        norm_num at *
        constructor <;> linarith [p3.1, p3.2, p5.1, p5.2, p7.1, p7.2, l2.1, l2.2]
      have Q : |(rv fixed64 t - 0.327622764 * rv fixed64 t ^ 3 + 0.15931422 * rv fixed64 t ^ 5 - 0.0464964749 * rv fixed64 t ^ 7) - Real.arctan (rv fixed64 t)| ≤
          4 / 10000 := by
        rcases le_total 0 (rv fixed64 t) with h0 | h0
        · rw [abs_of_nonneg h0] at h1' tb
          exact P _ h1'.le tb
        · rw [abs_of_nonpos h0] at h1' tb
          have := P _ h1'.le tb
          rw [Real.arctan_neg, ← abs_neg] at this
          refine le_of_eq_of_le (congrArg _ ?_) this
          ring
      have t1 := abs_sub_le (rv fixed64 r)
        (rv fixed64 t - 0.327622764 * rv fixed64 t ^ 3 + 0.15931422 * rv fixed64 t ^ 5 - 0.0464964749 * rv fixed64 t ^ 7) (rv fixed64 x)
      have t2 := abs_sub_le
        (rv fixed64 t - 0.327622764 * rv fixed64 t ^ 3 + 0.15931422 * rv fixed64 t ^ 5 - 0.0464964749 * rv fixed64 t ^ 7) (Real.arctan (rv fixed64 t))
        (rv fixed64 x)
      norm_num at hr' b' ⊢
      linarith
    refine ⟨t, r, et, er, ?_, fun _ => ?_⟩
    · rw [rv_eq, rv_eq]; linarith
    · rw [rv_eq, rv_eq]; exact key

/-- C132: the tangent of the arctangent, on `[-1, 1]`. -/
theorem C132_tan_atan (F : FxTy) (hF : F.Valid) (hs : F.T.signed = true) (hr : F.r = false) (h8 : 8 ≤ F.f) (h59 : F.f ≤ 59)
    (hroom : F.f + 5 ≤ F.T.bits) (x : Int) (hx : |val F x| ≤ 1) :
    ∃ a r, atan F x = .ok a ∧ tan F a = .ok r ∧ Storable F r ∧ |((val F r : ℚ) : ℝ) - (val F x : ℚ)| ≤ 22 / 10000 + 138 * (ulp F : ℚ) := by
  have h := gl_of hF hs hr h8 h59 hroom
  have hu := uR_pos F
  have hul := h.lay.u_le
  have l := Real.pi_lt_d4
  obtain ⟨a, ea, aS, ha⟩ := C106_accuracy F hF hs hr h8 h.sw.one x hx
  have hx' : |rv F x| ≤ 1 := by rw [← rv_eq]; exact_mod_cast hx
  rw [rv_eq, rv_eq, uR_eq] at ha
  have hq : |Real.arctan (rv F x)| ≤ Real.pi / 4 := by
    rw [abs_le] at hx' ⊢
    constructor
    · rw [← Real.arctan_one, ← Real.arctan_neg]; exact Real.arctan_strictMono.monotone hx'.1
    · rw [← Real.arctan_one]; exact Real.arctan_strictMono.monotone hx'.2
  obtain ⟨q2, q1⟩ := cos_sq_quarter hq
  have hcp : 0 < Real.cos (Real.arctan (rv F x)) := Real.cos_arctan_pos _
  rw [abs_of_pos hcp] at q1
  have hcc : |Real.cos (rv F a) - Real.cos (Real.arctan (rv F x))| ≤ |rv F a - Real.arctan (rv F x)| := Real.abs_cos_sub_cos_le _ _
  have hd : |rv F a - Real.arctan (rv F x)| ≤ 31 / 1000 := by norm_num at ha hul ⊢; linarith
  have q1' : 705 / 1000 ≤ Real.cos (Real.arctan (rv F x)) := by nlinarith
  have hca : 67 / 100 ≤ Real.cos (rv F a) := by
    have := abs_le.1 hcc
    linarith
  have ha1 : |rv F a| ≤ 1 := by
    have := abs_sub_abs_le_abs_sub (rv F a) (Real.arctan (rv F x))
    linarith
  have alo : F.T.lo < a := by
    have : Storable F (a - 1) := h.lay.st (by
      have : rv F 1 = uR F := by rw [rv_u]; norm_num
      rw [rv_sub, this, abs_le]; rw [abs_le] at ha1; constructor <;> linarith [ha1.1, ha1.2])
    have := this.1; omega
  obtain ⟨s, es, sS, hs'⟩ := sin_whole h a aS alo
  obtain ⟨c, ec, cS, hc⟩ := cos_whole h a aS
  have hm : |rv F a| / 4 * uR F ≤ 1 / 4 * uR F := mul_le_mul_of_nonneg_right (by linarith) hu.le
  have hab : |Real.cos (rv F a)| = Real.cos (rv F a) := abs_of_pos (by linarith)
  obtain ⟨r, er, rS, hr⟩ := tan_from h (e := 3 / 10000 + 27.25 * uR F) es sS ec cS (by linarith) (by linarith) (by linarith)
      (by rw [hab]; norm_num at hul ⊢; linarith) (fit_quarter h (by rw [hab]; linarith))
  refine ⟨a, r, ea, er, rS, ?_⟩
  rw [rv_eq, rv_eq, uR_eq]
  have e1 : 2 * (3 / 10000 + 27.25 * uR F) / Real.cos (rv F a) ^ 2 ≤ 4.46 * (3 / 10000 + 27.25 * uR F) := by
    rw [div_le_iff₀ (by positivity)]
    have : 2 / 4.46 ≤ Real.cos (rv F a) ^ 2 := by norm_num at hca ⊢; nlinarith
    have h0 : 0 ≤ 3 / 10000 + 27.25 * uR F := by positivity
    have := mul_le_mul_of_nonneg_left this h0
    norm_num at this ⊢; linarith
  have e2 : |Real.tan (rv F a) - rv F x| ≤ 2.12 * |rv F a - Real.arctan (rv F x)| := by
    conv_lhs => rw [← Real.tan_arctan (rv F x)]
    rw [Real.tan_eq_sin_div_cos, Real.tan_eq_sin_div_cos, div_sub_div _ _ (by linarith) hcp.ne', ← Real.sin_sub, abs_div,
      abs_of_pos (by positivity : 0 < Real.cos (rv F a) * Real.cos (Real.arctan (rv F x))), div_le_iff₀ (by positivity)]
    have hsin := Real.abs_sin_le_abs (x := rv F a - Real.arctan (rv F x))
    have hp : 1 / 2.12 ≤ Real.cos (rv F a) * Real.cos (Real.arctan (rv F x)) := by norm_num; nlinarith
    have := mul_le_mul_of_nonneg_left hp (abs_nonneg (rv F a - Real.arctan (rv F x)))
    norm_num at this ⊢; linarith
  have tri := abs_sub_le (rv F r) (Real.tan (rv F a)) (rv F x)
  norm_num at e1 e2 ha ⊢
  linarith

/-- C132: on the 64-bit layouts with 8 to 59 fraction bits the sine of the arcsine and the cosine of the arccosine give back every number up to 0.7. -/
theorem C132_sin_asin (f : Nat) (h8 : 8 ≤ f) (h1 : f ≤ 59) (x : Int) (hx : |val (L64 f) x| ≤ 7 / 10) :
    (∃ a r, asin (L64 f) x = .ok a ∧ sin (L64 f) a = .ok r ∧ |((val (L64 f) r : ℚ) : ℝ) - (val (L64 f) x : ℚ)| ≤ 75 / 100000 + 32 * (ulp (L64 f) : ℚ)) ∧
    (∃ a r, acos (L64 f) x = .ok a ∧ cos (L64 f) a = .ok r ∧ |((val (L64 f) r : ℚ) : ℝ) - (val (L64 f) x : ℚ)| ≤ 75 / 100000 + 41 * (ulp (L64 f) : ℚ)) := by
  have sw := sw_L64 (by omega) (by omega : f ≤ 62)
  have h : GL (L64 f) := ⟨sw.gen, rfl, h8, h1, by show f + 5 ≤ 64; omega⟩
  have hu := uR_pos (L64 f)
  have hul := h.lay.u_le
  have l := Real.pi_lt_d4
  have p0 := Real.pi_pos
  have hx' : |rv (L64 f) x| ≤ 7 / 10 := by
    have : ((|val (L64 f) x| : ℚ) : ℝ) ≤ ((7 / 10 : ℚ) : ℝ) := by exact_mod_cast hx
    push_cast at this; rw [rv_eq] at this; exact this
  have hx'' := abs_le.1 hx'
  obtain ⟨⟨a, ea, aS, ha⟩, b, eb, bS, hb⟩ := C115_accuracy_partial f h8 (by omega) x hx
  rw [rv_eq, rv_eq, uR_eq] at ha hb
  have nlo : ∀ z : Int, |rv (L64 f) z| ≤ 33 / 10 → (L64 f).T.lo < z := by
    intro z hz
    have : Storable (L64 f) (z - 1) := h.lay.st (by
      have : rv (L64 f) 1 = uR (L64 f) := by rw [rv_u]; norm_num
      rw [rv_sub, this, abs_le]; rw [abs_le] at hz; norm_num at hul ⊢; constructor <;> linarith [hz.1, hz.2])
    have := this.1; omega
  have b1 : |Real.arcsin (rv (L64 f) x)| ≤ 11 / 7 := by
    have := Real.neg_pi_div_two_le_arcsin (rv (L64 f) x)
    have := Real.arcsin_le_pi_div_two (rv (L64 f) x)
    rw [abs_le]; constructor <;> linarith
  have b2 : |Real.arccos (rv (L64 f) x)| ≤ 22 / 7 := by
    have := Real.arccos_nonneg (rv (L64 f) x)
    have := Real.arccos_le_pi (rv (L64 f) x)
    rw [abs_le]; constructor <;> linarith
  have t1 := abs_sub_abs_le_abs_sub (rv (L64 f) a) (Real.arcsin (rv (L64 f) x))
  have t2 := abs_sub_abs_le_abs_sub (rv (L64 f) b) (Real.arccos (rv (L64 f) x))
  constructor
  · have a1 : |rv (L64 f) a| ≤ 2 := by norm_num at ha hul; linarith
    obtain ⟨r, er, rS, hr⟩ := sin_whole h a aS (nlo a (by linarith))
    refine ⟨a, r, ea, er, ?_⟩
    rw [rv_eq, rv_eq, uR_eq]
    have lip := Real.abs_sin_sub_sin_le (rv (L64 f) a) (Real.arcsin (rv (L64 f) x))
    rw [Real.sin_arcsin (by linarith) (by linarith)] at lip
    have tri := abs_sub_le (rv (L64 f) r) (Real.sin (rv (L64 f) a)) (rv (L64 f) x)
    have hm : |rv (L64 f) a| / 4 * uR (L64 f) ≤ 1 / 2 * uR (L64 f) := mul_le_mul_of_nonneg_right (by linarith) hu.le
    norm_num at ha ⊢
    linarith
  · have a1 : |rv (L64 f) b| ≤ 4 := by norm_num at hb hul; linarith
    obtain ⟨r, er, rS, hr⟩ := cos_whole h b bS
    refine ⟨b, r, eb, er, ?_⟩
    rw [rv_eq, rv_eq, uR_eq]
    have lip := Real.abs_cos_sub_cos_le (rv (L64 f) b) (Real.arccos (rv (L64 f) x))
    rw [Real.cos_arccos (by linarith) (by linarith)] at lip
    have tri := abs_sub_le (rv (L64 f) r) (Real.cos (rv (L64 f) b)) (rv (L64 f) x)
    have hm : |rv (L64 f) b| / 4 * uR (L64 f) ≤ 1 * uR (L64 f) := mul_le_mul_of_nonneg_right (by linarith) hu.le
    norm_num at hb ⊢
    linarith

/-- The hypotheses are met, with the values of the model: `x = 0.7`. -/
example : |((val fixed64 3006477107 : ℚ) : ℝ)| ≤ Real.pi / 4 ∧ tan fixed64 3006477107 = .ok 3617601024 ∧ atan fixed64 3617601024 = .ok 3006772877 ∧
    sin (L64 32) 3006477107 = .ok 2766893900 := by
  have g := Real.pi_gt_d4
  refine ⟨?_, by decide +kernel, by decide +kernel, by decide +kernel⟩
  have : val fixed64 3006477107 = 3006477107 / 2 ^ 32 := rfl
  rw [this]; push_cast; rw [abs_of_nonneg (by positivity)]; norm_num at g ⊢; linarith

end Eirin.Props
