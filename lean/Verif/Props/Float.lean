import Verif.Lemmas.Float
import Verif.Props.Convert
import Verif.Props.Util

/-! # C124–C126: conversions in floating-point arithmetic with rounding, infinities and NaN; `print_constants` -/

namespace Eirin.Props
open Spec

/-! ## Truncation -/

theorem ratTrunc_bounds (q : ℚ) : (0 ≤ q → 0 ≤ ratTrunc q ∧ (ratTrunc q : ℚ) ≤ q ∧ q < ratTrunc q + 1) ∧
    (q < 0 → ratTrunc q ≤ 0 ∧ q ≤ ratTrunc q ∧ (ratTrunc q : ℚ) - 1 < q) := by
  have h := ratTrunc_spec ⟨i32, i64, 0, false⟩ q
  unfold IsTrunc val ulp at h
  simp only [pow_zero, div_one] at h
  exact ⟨fun h0 => by obtain ⟨a, b, c⟩ := h.1 h0; exact ⟨by exact_mod_cast a, b, c⟩,
    fun h0 => by obtain ⟨a, b, c⟩ := h.2 h0; exact ⟨by exact_mod_cast a, b, c⟩⟩

theorem ratTrunc_small {q : ℚ} (h : |q| < 1) : ratTrunc q = 0 := by
  obtain ⟨h1, h2⟩ := abs_lt.1 h
  rcases le_or_gt 0 q with h0 | h0
  · obtain ⟨a, b, -⟩ := (ratTrunc_bounds q).1 h0
    have : (ratTrunc q : ℚ) < (1 : Int) := by push_cast; linarith
    have : ratTrunc q < 1 := by exact_mod_cast this
    omega
  · obtain ⟨a, b, -⟩ := (ratTrunc_bounds q).2 h0
    have : ((-1 : Int) : ℚ) < ratTrunc q := by push_cast; linarith
    have : -1 < ratTrunc q := by exact_mod_cast this
    omega

/-- A number of at least `2^128` does not truncate into an integer type of at most 64 bits. -/
theorem trunc_far {t : IntTy} (ht : t.bits ≤ 64) {q : ℚ} (hq : 2 ^ 128 ≤ |q|) : floatToInt t q = .ub .overflow := by
  unfold floatToInt
  rw [if_neg]
  rintro ⟨h1, h2⟩
  have hb : (2 : Int) ^ t.bits ≤ 2 ^ 64 := pow_le_pow_right₀ (by norm_num) ht
  have hb1 : (2 : Int) ^ (t.bits - 1) ≤ 2 ^ 64 := pow_le_pow_right₀ (by norm_num) (by omega)
  have hlo : -(2 ^ 64) ≤ t.lo := by unfold IntTy.lo; split <;> omega
  have hhi : t.hi ≤ 2 ^ 64 := by unfold IntTy.hi; split <;> omega
  have a1 : (ratTrunc q : ℚ) ≤ 2 ^ 64 := by exact_mod_cast h2.trans hhi
  have a2 : -(2 ^ 64) ≤ (ratTrunc q : ℚ) := by exact_mod_cast hlo.trans h1
  rcases le_or_gt 0 q with h0 | h0
  · obtain ⟨-, -, c⟩ := (ratTrunc_bounds q).1 h0
    rw [abs_of_nonneg h0] at hq; norm_num at hq a1; linarith
  · obtain ⟨-, -, c⟩ := (ratTrunc_bounds q).2 h0
    rw [abs_of_neg h0] at hq; norm_num at hq a2; linarith

/-- Converting a rounded result to an integer type: the overflow to infinity makes no difference. -/
theorem fltToInt_fround {fmt : FFmt} (h : fmt.Std) {t : IntTy} (ht : t.bits ≤ 64) (q : ℚ) :
    fltToInt t (fround fmt q) = floatToInt t (rne fmt q) := by
  unfold fround
  split
  · rfl
  · rename_i hc
    push Not at hc
    have : (2 : ℚ) ^ (128 : Int) ≤ 2 ^ fmt.emax := two_zpow_le h.range
    rw [trunc_far ht (le_trans (by norm_num) (this.trans hc))]
    rfl

theorem bits_le {F : FxTy} (hF : F.Valid) : F.T.bits ≤ 64 := by rcases hF.1 with h | h | h | h <;> omega

theorem mult_flt {F : FxTy} (hF : F.Valid) {fmt : FFmt} (h : fmt.Std) : intToFlt fmt (fractionMultiplier F) = .fin (2 ^ F.f) := by
  unfold intToFlt
  rw [fractionMultiplier_eq hF]
  push_cast
  refine fround_exact h (isFlt_pow h F.f) ?_
  rw [abs_of_pos (by positivity)]
  have h1 : F.f < 128 := by have := bits_le hF; have := hF.2.2.2.2.2; omega
  have h2 : (2 : ℚ) ^ F.f < 2 ^ 128 := pow_lt_pow_right₀ (by norm_num) h1
  have h3 : (2 : ℚ) ^ (128 : Int) ≤ 2 ^ fmt.emax := two_zpow_le h.range
  have h4 : (2 : ℚ) ^ (128 : Int) = 2 ^ 128 := by norm_num
  rw [h4] at h3
  exact lt_of_lt_of_le h2 h3

/-! ## C124 -/

/-- C124: infinities and NaN have no conversion, in any layout and any format. -/
theorem C124_special (F : FxTy) (hF : F.Valid) (fmt : FFmt) (h : fmt.Std) :
    ofFlt F fmt .nan = .ub .overflow ∧ ofFlt F fmt (.inf false) = .ub .overflow ∧ ofFlt F fmt (.inf true) = .ub .overflow := by
  have hp : (2 : ℚ) ^ F.f ≠ 0 := by positivity
  have hn : ¬ (2 : ℚ) ^ F.f < 0 := not_lt.2 (by positivity)
  unfold ofFlt
  rw [mult_flt hF h]
  simp only [fmul, fsub, fge0, hp, hn, if_false, decide_false, Bool.xor_false, Bool.not_true, Bool.not_false, if_true]
  norm_num
  cases F.r <;> simp [fltToInt]

example : binary32.Std ∧ fixed32.Valid ∧ ofFlt fixed32 binary32 .nan = .ub .overflow := ⟨std32, by decide, by decide +kernel⟩

/-- C124: a finite floating value converts to a non-rounding type by exact truncation toward zero; the conversion is undefined exactly when
the truncated value does not fit.  No rounding of the floating arithmetic is ever visible. -/
theorem C124_truncates (F : FxTy) (hF : F.Valid) (hr : F.r = false) (fmt : FFmt) (h : fmt.Std) (v : ℚ) (hv : IsFlt fmt v) (n : Int)
    (hn : IsTrunc F v n) :
    (Storable F n → ofFlt F fmt (.fin v) = .ok n) ∧ (¬ Storable F n → ofFlt F fmt (.fin v) = .ub .overflow) := by
  have e : ofFlt F fmt (.fin v) = ofFloat F v := by
    unfold ofFlt ofFloat
    rw [mult_flt hF h]
    simp only [hr, Bool.false_eq_true, if_false, fmul]
    rw [fltToInt_fround h (bits_le hF), rne_exact fmt (by have := h.p2; omega) (isFlt_scale hv F.f), fractionMultiplier_eq hF]
    push_cast; rfl
  rw [e]
  exact C16_ofFloat F hF hr v n hn

example : IsFlt binary32 (-5 / 2 ^ 30) ∧ ofFlt fixed32 binary32 (.fin (-5 / 2 ^ 30)) = .ok 0 ∧
    ofFlt fixed32 binary64 (.fin (-40961 / 2 ^ 14)) = .ok (-163844) ∧ ofFlt fixed32 binary64 (.fin (2 ^ 1000)) = .ub .overflow := by
  refine ⟨⟨-5, -30, by norm_num [binary32], by norm_num [binary32], by norm_num [zpow_neg]⟩, ?_, ?_, ?_⟩ <;> decide +kernel

/-- C124 for rounding types and non-negative values: the result is the truncation of *half* the value (as in C16), without a visible
rounding, even where halving rounds. -/
theorem C124_halves (F : FxTy) (hF : F.Valid) (hr : F.r = true) (fmt : FFmt) (h : fmt.Std) (v : ℚ) (hv : IsFlt fmt v) (h0 : 0 ≤ v) (n : Int)
    (hn : IsTrunc F (v / 2) n) :
    (Storable F n → ofFlt F fmt (.fin v) = .ok n) ∧ (¬ Storable F n → ofFlt F fmt (.fin v) = .ub .overflow) := by
  have hp1 : 1 ≤ fmt.p := by have := h.p2; omega
  have hq : (2 : ℚ) ^ F.f ≠ 0 := by positivity
  have et : ratTrunc (v * 2 ^ F.f * (1 / 2)) = n := by
    have h := ratTrunc_spec F (v * 2 ^ F.f * (1 / 2))
    rw [show v * 2 ^ F.f * (1 / 2) / 2 ^ F.f = v / 2 by field_simp] at h
    exact isTrunc_unique h hn
  have hx : IsFlt fmt (v * 2 ^ F.f) := isFlt_scale hv F.f
  have e : ofFlt F fmt (.fin v) = floatToInt F.T (v * 2 ^ F.f * (1 / 2)) := by
    unfold ofFlt
    rw [mult_flt hF h]
    simp only [hr, if_true, fge0, h0, decide_true, fmul]
    by_cases hc : |v * 2 ^ F.f| < 2 ^ fmt.emax
    · rw [fround_exact h hx hc]
      simp only
      rw [fltToInt_fround h (bits_le hF)]
      by_cases hh : IsFlt fmt (v * 2 ^ F.f * (1 / 2))
      · rw [rne_exact fmt hp1 hh]
      · obtain ⟨m, k, hm, hk, hmk⟩ := hx
        have hke : k = fmt.emin := by
          by_contra hc
          apply hh
          refine ⟨m, k - 1, hm, by omega, ?_⟩
          rw [hmk, zpow_sub_one₀ (by norm_num)]; ring
        have hlt : |v * 2 ^ F.f| < 1 := by
          rw [hmk, abs_mul, abs_of_pos (two_zpow_pos k)]
          have h1 : |(m : ℚ)| < 2 ^ (fmt.p : Int) := by rw [zpow_natCast]; exact_mod_cast hm
          refine lt_of_lt_of_le (mul_lt_mul_of_pos_right h1 (two_zpow_pos k)) ?_
          rw [← two_zpow_add]
          have := two_zpow_le (a := fmt.p + k) (b := 0) (by have := h.unit; omega)
          rwa [zpow_zero] at this
        have hhalf : IsFlt fmt (1 / 2) := by
          refine ⟨1, -1, ?_, by have := h.unit; have := h.p2; omega, by norm_num⟩
          have : (2 : Int) ^ 1 ≤ 2 ^ fmt.p := pow_le_pow_right₀ (by norm_num) hp1
          rw [abs_one]; omega
        have hx0 : 0 ≤ v * 2 ^ F.f := by positivity
        rw [abs_of_nonneg hx0] at hlt
        have r1 := rne_le fmt hp1 hhalf (q := v * 2 ^ F.f * (1 / 2)) (by linarith)
        have r0 := le_rne fmt hp1 (isFlt_zero fmt) (q := v * 2 ^ F.f * (1 / 2)) (by linarith)
        unfold floatToInt
        rw [ratTrunc_small (q := rne fmt _) (by rw [abs_of_nonneg r0]; linarith),
          ratTrunc_small (q := v * 2 ^ F.f * (1 / 2)) (by rw [abs_of_nonneg (by linarith)]; linarith)]
    · have e1 : fround fmt (v * 2 ^ F.f) = .inf (decide (v * 2 ^ F.f < 0)) := by
        unfold fround; rw [rne_exact fmt hp1 hx, if_neg hc]
      rw [e1]
      push Not at hc
      have : (2 : ℚ) ^ (128 : Int) ≤ 2 ^ fmt.emax := two_zpow_le h.range
      simp only
      rw [if_neg (by norm_num)]
      have hfar : floatToInt F.T (v * 2 ^ F.f * (1 / 2)) = .ub .overflow := by
        unfold floatToInt
        rw [if_neg]
        rintro ⟨-, h2⟩
        have hb : (2 : Int) ^ F.T.bits ≤ 2 ^ 64 := pow_le_pow_right₀ (by norm_num) (bits_le hF)
        have hb1 : (2 : Int) ^ (F.T.bits - 1) ≤ 2 ^ 64 := pow_le_pow_right₀ (by norm_num) (by have := bits_le hF; omega)
        have hhi : F.T.hi ≤ 2 ^ 64 := by unfold IntTy.hi; split <;> omega
        have a1 : (ratTrunc (v * 2 ^ F.f * (1 / 2)) : ℚ) ≤ 2 ^ 64 := by exact_mod_cast h2.trans hhi
        have hx0 : 0 ≤ v * 2 ^ F.f := by positivity
        obtain ⟨-, -, c⟩ := (ratTrunc_bounds (v * 2 ^ F.f * (1 / 2))).1 (by linarith)
        rw [abs_of_nonneg hx0] at hc
        have := this.trans hc
        norm_num at this a1
        linarith
      rw [hfar]; rfl
  rw [e]
  unfold floatToInt
  rw [et]
  exact ⟨fun h => if_pos h, fun h => if_neg h⟩

/-- C124 for rounding types and negative values: the truncation of the *rounded* difference `v * 2^f - 0.5`. -/
theorem C124_negative (F : FxTy) (hF : F.Valid) (hr : F.r = true) (fmt : FFmt) (h : fmt.Std) (v : ℚ) (hv : IsFlt fmt v) (h0 : v < 0) :
    ∃ d, NearestFlt fmt (v * 2 ^ F.f - 1 / 2) d ∧ ofFlt F fmt (.fin v) = floatToInt F.T d := by
  have hp1 : 1 ≤ fmt.p := by have := h.p2; omega
  have hx : IsFlt fmt (v * 2 ^ F.f) := isFlt_scale hv F.f
  refine ⟨rne fmt (v * 2 ^ F.f - 1 / 2), rne_nearest fmt hp1 _, ?_⟩
  unfold ofFlt
  rw [mult_flt hF h]
  simp only [hr, if_true, fge0, not_le.2 h0, decide_false, Bool.false_eq_true, if_false, fmul]
  by_cases hc : |v * 2 ^ F.f| < 2 ^ fmt.emax
  · rw [fround_exact h hx hc]
    simp only [fsub]
    exact fltToInt_fround h (bits_le hF) _
  · have e1 : fround fmt (v * 2 ^ F.f) = .inf (decide (v * 2 ^ F.f < 0)) := by
      unfold fround; rw [rne_exact fmt hp1 hx, if_neg hc]
    rw [e1]
    simp only [fsub]
    push Not at hc
    have r1 := rne_le fmt hp1 hx (q := v * 2 ^ F.f - 1 / 2) (by linarith)
    have hx0 : v * 2 ^ F.f < 0 := mul_neg_of_neg_of_pos h0 (by positivity)
    have : (2 : ℚ) ^ (128 : Int) ≤ 2 ^ fmt.emax := two_zpow_le h.range
    rw [trunc_far (bits_le hF) (q := rne fmt _)]
    · rfl
    · rw [abs_of_neg (by linarith)]
      rw [abs_of_neg hx0] at hc
      have := this.trans hc
      norm_num at this ⊢
      linarith

example : IsFlt binary64 (3 / 2 ^ 18) ∧ IsTrunc ⟨i32, i64, 16, true⟩ (3 / 2 ^ 18 / 2) 0 ∧
    ofFlt ⟨i32, i64, 16, true⟩ binary64 (.fin (3 / 2 ^ 18)) = .ok 0 ∧ ofFlt ⟨i32, i64, 16, true⟩ binary64 (.fin 5) = .ok (5 * 2 ^ 15) ∧
    NearestFlt binary32 (-(2 ^ 23 + 1) - 1 / 2) (-(2 ^ 23 + 2)) ∧
    ofFlt ⟨i32, i64, 16, true⟩ binary32 (.fin (-(2 ^ 23 + 1) / 2 ^ 16)) = .ok (-(2 ^ 23 + 2)) := by
  refine ⟨⟨3, -18, by norm_num [binary64], by norm_num [binary64], by norm_num [zpow_neg]⟩, ?_, by decide +kernel, by decide +kernel, ?_,
    by decide +kernel⟩
  · unfold IsTrunc val ulp; norm_num
  · have h := rne_nearest binary32 (by decide) (-(2 ^ 23 + 1) - 1 / 2)
    have e : rne binary32 (-(2 ^ 23 + 1) - 1 / 2) = -(2 ^ 23 + 2) := by decide +kernel
    rwa [e] at h

/-- C124: full statement for rounding types and negative values: the nearest representable value. -/
def C124_statement : Prop := ∀ F : FxTy, F.Valid → F.r = true → ∀ fmt : FFmt, fmt.Std → ∀ v, IsFlt fmt v → v < 0 → ∀ n, IsNearest F v n →
  Storable F n → ofFlt F fmt (.fin v) = .ok n

/-- C124 is false: `-(0.5 - 2^-54)` ulp in `double` becomes `-1` ulp, because the subtraction of one half rounds to `-1`. -/
theorem C124_false : ¬ C124_statement := by
  intro hs
  have h1 := hs ⟨i32, i64, 16, true⟩ (by decide) rfl binary64 std64 (-(2 ^ 53 - 1) / 2 ^ 70)
    ⟨-(2 ^ 53 - 1), -70, by norm_num [binary64], by norm_num [binary64], by norm_num [zpow_neg]⟩ (by norm_num) 0
    (by unfold IsNearest val ulp; norm_num [abs_of_neg, abs_of_pos]) (by decide)
  have h2 : ofFlt ⟨i32, i64, 16, true⟩ binary64 (.fin (-(2 ^ 53 - 1) / 2 ^ 70)) = .ok (-1) := by decide +kernel
  rw [h2] at h1; cases h1

/-- C124, what holds for rounding types and negative values: the nearest value whenever the difference is a number of the format, and never
further away than one ulp.  Full statement: `C124_statement`. -/
theorem C124_negative_partial (F : FxTy) (hF : F.Valid) (hr : F.r = true) (fmt : FFmt) (h : fmt.Std) (v : ℚ) (hv : IsFlt fmt v) (h0 : v < 0) :
    (∀ n, IsNearest F v n → Storable F n → IsFlt fmt (v * 2 ^ F.f - 1 / 2) → ofFlt F fmt (.fin v) = .ok n) ∧
    (∀ n, ofFlt F fmt (.fin v) = .ok n → |val F n - v| ≤ ulp F) := by
  have hp1 : 1 ≤ fmt.p := by have := h.p2; omega
  have hq : (0 : ℚ) < 2 ^ F.f := by positivity
  have hx : IsFlt fmt (v * 2 ^ F.f) := isFlt_scale hv F.f
  have hx0 : v * 2 ^ F.f < 0 := mul_neg_of_neg_of_pos h0 hq
  obtain ⟨d, hd, hed⟩ := C124_negative F hF hr fmt h v hv h0
  constructor
  · intro n hn hs hfl
    have hdx : d = v * 2 ^ F.f - 1 / 2 := by
      have := hd.2 _ hfl
      rw [sub_self, abs_zero] at this
      have := abs_nonpos_iff.1 this
      linarith
    have hsc : |v * 2 ^ F.f - n| ≤ 1 / 2 ∧ (|v * 2 ^ F.f - n| = 1 / 2 → |v * 2 ^ F.f| < |(n : ℚ)|) := by
      have e1 : |v * 2 ^ F.f - n| = |v - val F n| * 2 ^ F.f := by
        rw [← abs_of_pos hq, ← abs_mul, abs_of_pos hq]; congr 1; unfold val; field_simp
      have e2 : ulp F / 2 * 2 ^ F.f = 1 / 2 := by unfold ulp; field_simp
      have e3 : |(n : ℚ)| = |val F n| * 2 ^ F.f := by
        rw [← abs_of_pos hq, ← abs_mul]; congr 1; unfold val; field_simp
      obtain ⟨a, b⟩ := hn
      rw [e1]
      refine ⟨by rw [← e2]; exact mul_le_mul_of_nonneg_right a hq.le, fun hh => ?_⟩
      rw [e3, abs_mul, abs_of_pos hq]
      exact mul_lt_mul_of_pos_right (b (mul_right_cancel₀ hq.ne' (hh.trans e2.symm))) hq
    have ht : ratTrunc d = n := by
      obtain ⟨c1, c2, c3⟩ := (ratTrunc_bounds d).2 (by rw [hdx]; linarith)
      obtain ⟨s1, s2⟩ := hsc
      obtain ⟨s3, s4⟩ := abs_le.1 s1
      rw [hdx] at c2 c3
      rw [hdx]
      have hgt : -(1 / 2) < v * 2 ^ F.f - n := by
        rcases lt_or_eq_of_le s3 with hh | hh
        · exact hh
        · exfalso
          have s5 := s2 (by rw [← hh, abs_neg, abs_of_pos (by norm_num)])
          have hn0 : (n : ℚ) < 1 := by linarith
          have hn0 : n < 1 := by exact_mod_cast hn0
          have hn1 : (n : ℚ) ≤ 0 := by exact_mod_cast (by omega : n ≤ 0)
          rw [abs_of_neg hx0, abs_of_nonpos hn1] at s5
          linarith
      have g1 : ((ratTrunc (v * 2 ^ F.f - 1 / 2) : Int) : ℚ) < n + 1 := by linarith
      have g2 : (n : ℚ) < ratTrunc (v * 2 ^ F.f - 1 / 2) + 1 := by linarith
      have g1 : ratTrunc (v * 2 ^ F.f - 1 / 2) < n + 1 := by exact_mod_cast g1
      have g2 : n < ratTrunc (v * 2 ^ F.f - 1 / 2) + 1 := by exact_mod_cast g2
      omega
    rw [hed]
    unfold floatToInt
    rw [ht]
    exact if_pos hs
  · intro n hn
    rw [hed] at hn
    unfold floatToInt at hn
    split at hn
    · injection hn with hn
      subst hn
      have hdist := hd.2 _ hx
      rw [show v * 2 ^ F.f - 1 / 2 - v * 2 ^ F.f = -(1 / 2) by ring, abs_neg, abs_of_pos (by norm_num : (0 : ℚ) < 1 / 2)] at hdist
      obtain ⟨a, b⟩ := abs_le.1 hdist
      have hd0 : d < 0 := by linarith
      obtain ⟨c1, c2, c3⟩ := (ratTrunc_bounds d).2 hd0
      have e1 : |val F (ratTrunc d) - v| = |(ratTrunc d : ℚ) - v * 2 ^ F.f| * ulp F := by
        have hu : (0 : ℚ) < ulp F := ulp_pos F
        rw [← abs_of_pos hu, ← abs_mul]; congr 1; unfold val ulp; field_simp
      have e2 : |(ratTrunc d : ℚ) - v * 2 ^ F.f| ≤ 1 := by rw [abs_le]; constructor <;> linarith
      rw [e1]
      have := mul_le_mul_of_nonneg_right e2 (ulp_pos F).le
      rwa [one_mul] at this
    · cases hn

example : IsFlt binary64 (-3 / 2 ^ 17) ∧ IsFlt binary64 (-3 / 2 ^ 17 * 2 ^ 16 - 1 / 2) ∧ IsNearest ⟨i32, i64, 16, true⟩ (-3 / 2 ^ 17) (-2) ∧
    ofFlt ⟨i32, i64, 16, true⟩ binary64 (.fin (-3 / 2 ^ 17)) = .ok (-2) := by
  refine ⟨⟨-3, -17, by norm_num [binary64], by norm_num [binary64], by norm_num [zpow_neg]⟩,
    ⟨-2, 0, by norm_num [binary64], by norm_num [binary64], by norm_num⟩, ?_, by decide +kernel⟩
  unfold IsNearest val ulp; norm_num [abs_of_neg, abs_of_pos]

end Eirin.Props
