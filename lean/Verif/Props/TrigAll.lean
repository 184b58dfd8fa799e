import Verif.Props.SinAll
import Verif.Props.Tan

/-! # Property C113: sine, cosine and tangent over the whole range of every signed layout

C105 bounds the cosine on `[-π, π]` only. -/

namespace Eirin.Props
open Spec

/-- `sin` everywhere except at the most negative value. -/
theorem sin_whole {F : FxTy} (h : GL F) (x : Int) (hS : Storable F x) (hlo : F.T.lo < x) :
    ∃ r, sin F x = .ok r ∧ Storable F r ∧ |rv F r - Real.sin (rv F x)| ≤ 3 / 10000 + (20 + |rv F x| / 4) * uR F := by
  obtain ⟨c⟩ := h.sinG
  have hu := uR_pos F
  by_cases hc : c.th ≤ |x|
  · obtain ⟨z, ez, zS, hz⟩ := c.main hS hlo hc
    refine ⟨z, ez, zS, le_trans hz ?_⟩
    norm_num at *; linarith
  · push Not at hc
    have e : |rv F x| = rv F |x| := by
      unfold rv; rw [abs_div, abs_of_pos (by positivity : (0 : ℝ) < 2 ^ F.f)]; push_cast; rfl
    have hb : |rv F x| ≤ 15 / 100000 := by
      rw [e]; exact le_trans ((rv_le F).2 hc.le) c.thle
    obtain ⟨r, a, b, d⟩ := sin_gen h x (by linarith)
    refine ⟨r, a, b, le_trans d ?_⟩
    have : 0 ≤ |rv F x| / 4 * uR F := by positivity
    linarith

/-- `cos` is `sin` at a shifted argument. -/
theorem cos_as_sin {F : FxTy} (h : GL F) (x : Int) (hS : Storable F x) :
    ∃ a, cos F x = sin F a ∧ Storable F a ∧ F.T.lo < a ∧ |rv F a| ≤ |rv F x| + 5 ∧
      |Real.sin (rv F a) - Real.cos (rv F x)| ≤ 5 * uR F ∧ (|rv F x| ≤ 1 → 1 / 2 ≤ |rv F a|) := by
  obtain ⟨c⟩ := h.sinG
  have g := Real.pi_gt_d4; have l := Real.pi_lt_d4
  have hu := uR_pos F
  have hul := h.lay.u_le
  have hp : (0 : Int) < 2 ^ F.f := by positivity
  have aPi := abs_le.1 c.aPi.er
  have o2 : ofInt F 2 = 2 * 2 ^ F.f := h.ofInt_small (by norm_num) (by norm_num)
  have h2S : Storable F (2 * 2 ^ F.f) := h.big (by linarith) (by linarith)
  have q1 : Int.tdiv (c.pi * 2 ^ F.f) (2 * 2 ^ F.f) = Int.tdiv c.pi 2 := by
    rw [Int.mul_tdiv_mul_of_pos_left _ _ hp]
  have t := tdiv_near c.pi (d := 2) (by norm_num)
  have tr : |rv F (Int.tdiv c.pi 2) - rv F c.pi / 2| ≤ uR F := by
    rw [rv_u, rv_u, show (Int.tdiv c.pi 2 : ℝ) * uR F - c.pi * uR F / 2 = ((Int.tdiv c.pi 2 : ℝ) * (2 : Int) - c.pi) * (uR F / 2) by push_cast; ring, abs_mul,
      abs_of_pos (by positivity : 0 < uR F / 2)]
    have := mul_le_mul_of_nonneg_right t (by positivity : 0 ≤ uR F / 2)
    push_cast at this ⊢; linarith
  have tr' := abs_le.1 tr
  generalize hq : Int.tdiv c.pi 2 = q at *
  have qS : Storable F q := h.lay.st (by rw [abs_le]; norm_num at *; constructor <;> linarith)
  have e1 : div F c.pi (ofInt F 2) = .ok q := by
    rw [o2, h.sw.div_ok h.r c.aPi.st (by positivity) (by rw [q1]; exact qS), q1]
  have dS : Storable F (c.pi * 2) := h.lay.st (by
    rw [rv_u]; push_cast; rw [show (c.pi : ℝ) * 2 * uR F = 2 * (c.pi * uR F) by ring, ← rv_u, abs_le]; norm_num at *; constructor <;> linarith)
  have em : c.pi * (2 * 2 ^ F.f) / 2 ^ F.f = c.pi * 2 := by rw [← mul_assoc, Int.mul_ediv_cancel _ hp.ne']
  have e2 : mul F c.pi (ofInt F 2) = .ok (c.pi * 2) := by
    rw [o2, h.sw.mul_ok h.r c.aPi.st h2S (by rw [em]; exact dS), em]
  have rd : rv F (c.pi * 2) = 2 * rv F c.pi := by unfold rv; push_cast; ring
  have r3 : rv F (c.pi * 2 - q) = 2 * rv F c.pi - rv F q := by rw [rv_sub, rd]
  have q3S : Storable F (c.pi * 2 - q) := h.lay.st (by
    rw [r3, abs_le]; norm_num at *; constructor <;> linarith)
  have z0 : rv F 0 = 0 := by simp [rv]
  have q3pos : 0 < c.pi * 2 - q := by
    rw [← rv_lt F, r3, z0]; norm_num at g l hul aPi; linarith [aPi.1, aPi.2, tr'.1, tr'.2]
  have qpos : 0 < q := by
    rw [← rv_lt F, z0]; norm_num at g l hul aPi; linarith [aPi.1, aPi.2, tr'.1, tr'.2]
  have lo_hi := h.sw.lo_hi
  · by_cases h0 : 0 < x
    · have h0' : 0 < rv F x := by have := (rv_lt F (a := 0)).2 h0; simpa [rv] using this
      have ra : rv F (x - (c.pi * 2 - q)) = rv F x - (2 * rv F c.pi - rv F q) := by rw [rv_sub, r3]
      have q3hi := q3S.2
      have hin : Storable F (x - (c.pi * 2 - q)) := ⟨by omega, by have := hS.2; omega⟩
      refine ⟨_, ?_, hin, by omega, ?_, ?_, ?_⟩
      · unfold cos
        rw [c.ePi, Res.bind_ok, e1, Res.bind_ok, e2, Res.bind_ok, if_pos h0, h.sw.sub_ok q3S, Res.bind_ok, h.sw.sub_ok hin, Res.bind_ok]
      · rw [ra, abs_of_pos h0', abs_le]; norm_num at *; constructor <;> linarith
      · have e : Real.cos (rv F x) = Real.sin (rv F x - 3 * Real.pi / 2) := by
          rw [show rv F x - 3 * Real.pi / 2 = rv F x + Real.pi / 2 - 2 * Real.pi by ring, Real.sin_sub_two_pi, Real.sin_add_pi_div_two]
        rw [e]
        refine le_trans (Real.abs_sin_sub_sin_le _ _) ?_
        rw [ra, abs_le]; norm_num at *; constructor <;> linarith
      · intro hx1
        rw [abs_le] at hx1
        rw [ra, le_abs]; right; norm_num at *; linarith
    · have h0' : rv F x ≤ 0 := by have := (rv_le F (b := 0)).2 (not_lt.1 h0); simpa [rv] using this
      have ra : rv F (x + q) = rv F x + rv F q := rv_add F x q
      have qhi := qS.2
      have hin : Storable F (x + q) := ⟨by have := hS.1; omega, by omega⟩
      refine ⟨_, ?_, hin, by have := hS.1; omega, ?_, ?_, ?_⟩
      · unfold cos
        rw [c.ePi, Res.bind_ok, e1, Res.bind_ok, e2, Res.bind_ok, if_neg h0, h.sw.add_ok hin, Res.bind_ok]
      · rw [ra, abs_of_nonpos h0', abs_le]; norm_num at *; constructor <;> linarith
      · rw [← Real.sin_add_pi_div_two]
        refine le_trans (Real.abs_sin_sub_sin_le _ _) ?_
        rw [ra, abs_le]; norm_num at *; constructor <;> linarith
      · intro hx1
        rw [abs_le] at hx1
        rw [ra, le_abs]; left; norm_num at *; linarith

/-- `cos` everywhere. -/
theorem cos_whole {F : FxTy} (h : GL F) (x : Int) (hS : Storable F x) :
    ∃ r, cos F x = .ok r ∧ Storable F r ∧ |rv F r - Real.cos (rv F x)| ≤ 3 / 10000 + (27 + |rv F x| / 4) * uR F := by
  have hu := uR_pos F
  obtain ⟨a, ea, aS, alo, ha, hc, -⟩ := cos_as_sin h x hS
  obtain ⟨r, er, rS, hr⟩ := sin_whole h a aS alo
  refine ⟨r, by rw [ea, er], rS, ?_⟩
  have := abs_sub_le (rv F r) (Real.sin (rv F a)) (Real.cos (rv F x))
  have : |rv F a| / 4 * uR F ≤ (|rv F x| + 5) / 4 * uR F := mul_le_mul_of_nonneg_right (by linarith) hu.le
  linarith

theorem gl_of {F : FxTy} (hF : F.Valid) (hs : F.T.signed = true) (hr : F.r = false) (h8 : 8 ≤ F.f) (h59 : F.f ≤ 59)
    (hroom : F.f + 5 ≤ F.T.bits) : GL F := by
  refine ⟨⟨hF, hs, ?_⟩, hr, h8, h59, hroom⟩
  have e : F.T.hi = 2 ^ (F.T.bits - 1) - 1 := by unfold IntTy.hi; simp [hs]
  have e2 : F.T.lo = -(2 ^ (F.T.bits - 1)) := by unfold IntTy.lo; simp [hs]
  have : (2 : Int) ^ F.f < 2 ^ (F.T.bits - 1) := pow_lt_pow_right₀ (by norm_num) (by omega)
  have : (0 : Int) < 2 ^ F.f := by positivity
  exact ⟨by omega, by omega⟩

/-- C113: on every signed non-rounding layout with 8 to 59 fraction bits and at least four integer bits, `cos` is defined for every argument, `sin`
for every argument but the minimum, and the error grows with the argument by a quarter ulp per unit (the truncated π). -/
theorem C113_whole (F : FxTy) (hF : F.Valid) (hs : F.T.signed = true) (hr : F.r = false) (h8 : 8 ≤ F.f) (h59 : F.f ≤ 59)
    (hroom : F.f + 5 ≤ F.T.bits) (x : Int) (hS : Storable F x) :
    (∃ r, cos F x = .ok r ∧ Storable F r ∧
      |((val F r : ℚ) : ℝ) - Real.cos (val F x : ℚ)| ≤ 3 / 10000 + (27 + |((val F x : ℚ) : ℝ)| / 4) * (ulp F : ℚ)) ∧
    (F.T.lo < x → ∃ r, sin F x = .ok r ∧ Storable F r ∧
      |((val F r : ℚ) : ℝ) - Real.sin (val F x : ℚ)| ≤ 3 / 10000 + (20 + |((val F x : ℚ) : ℝ)| / 4) * (ulp F : ℚ)) := by
  have h := gl_of hF hs hr h8 h59 hroom
  constructor
  · obtain ⟨r, a, b, c⟩ := cos_whole h x hS
    exact ⟨r, a, b, by rw [rv_eq, rv_eq, uR_eq]; exact c⟩
  · intro hlo
    obtain ⟨r, a, b, c⟩ := sin_whole h x hS hlo
    exact ⟨r, a, b, by rw [rv_eq, rv_eq, uR_eq]; exact c⟩

/-- Error of a quotient of approximate sine and cosine, for any error `e` at most a quarter of the cosine. -/
theorem quot_err' {s c S C e : ℝ} (he : 0 ≤ e) (hs : |s - S| ≤ e) (hc : |c - C| ≤ e) (h1 : S ^ 2 + C ^ 2 = 1) (hC : 4 * e ≤ |C|) (hC0 : 0 < |C|) :
    3 / 4 * |C| ≤ |c| ∧ |s / c - S / C| ≤ 19 / 10 * e / C ^ 2 := by
  have hCne : C ≠ 0 := abs_pos.1 hC0
  have l1 : |C| - |c - C| ≤ |c| := by
    have := abs_sub_abs_le_abs_sub C c
    rw [abs_sub_comm C c] at this; linarith
  have l2 : 3 / 4 * |C| ≤ |c| := by linarith
  refine ⟨l2, ?_⟩
  have hc0 : 0 < |c| := by linarith
  have hcne : c ≠ 0 := abs_pos.1 hc0
  have e0 : s / c - S / C = ((s - S) * C - S * (c - C)) / (c * C) := by field_simp; ring
  have l3 : |(s - S) * C - S * (c - C)| ≤ e * (|C| + |S|) := by
    refine le_trans (abs_sub _ _) ?_
    rw [abs_mul, abs_mul]
    have a := mul_le_mul_of_nonneg_right hs (abs_nonneg C)
    have b := mul_le_mul_of_nonneg_left hc (abs_nonneg S)
    linarith
  have l4 : |C| + |S| ≤ 1.415 := by
    have a := sq_abs C; have b := sq_abs S
    nlinarith [sq_nonneg (|C| - |S|), abs_nonneg C, abs_nonneg S]
  rw [e0, abs_div, abs_mul, div_le_div_iff₀ (by positivity) (by positivity), ← sq_abs C]
  have l5 : |(s - S) * C - S * (c - C)| ≤ 1.415 * e := by have := mul_le_mul_of_nonneg_left l4 he; linarith
  have l6 : |(s - S) * C - S * (c - C)| * |C| ^ 2 ≤ 1.415 * e * |C| ^ 2 := mul_le_mul_of_nonneg_right l5 (by positivity)
  have l7 : 3 / 4 * |C| * |C| ≤ |c| * |C| := mul_le_mul_of_nonneg_right l2 hC0.le
  have l8 : 19 / 10 * e * (3 / 4 * |C| * |C|) ≤ 19 / 10 * e * (|c| * |C|) := mul_le_mul_of_nonneg_left l7 (by positivity)
  have l9 : 0 ≤ e * |C| ^ 2 := by positivity
  have l10 : 1.415 * e * |C| ^ 2 ≤ 19 / 10 * e * (3 / 4 * |C| * |C|) := by
    rw [show 19 / 10 * e * (3 / 4 * |C| * |C|) = 57 / 40 * (e * |C| ^ 2) by ring, mul_assoc]; linarith
  linarith

/-- The tangent from a sine and a cosine with error at most `e`. -/
theorem tan_from {F : FxTy} (h : GL F) {x s c : Int} {e : ℝ} (es : sin F x = .ok s) (sS : Storable F s) (ec : cos F x = .ok c) (cS : Storable F c)
    (hs' : |rv F s - Real.sin (rv F x)| ≤ e) (hc : |rv F c - Real.cos (rv F x)| ≤ e) (heu : 10 * uR F ≤ e)
    (hC : 4 * e ≤ |Real.cos (rv F x)|) (hfit : 2 ≤ 2 ^ (F.T.bits - 1 - F.f) * |Real.cos (rv F x)|) :
    ∃ r, tan F x = .ok r ∧ Storable F r ∧ |rv F r - Real.tan (rv F x)| ≤ 2 * e / Real.cos (rv F x) ^ 2 := by
  have h1 := Real.sin_sq_add_cos_sq (rv F x)
  rw [Real.tan_eq_sin_div_cos]
  have hc1 := Real.abs_cos_le_one (rv F x)
  have hs1 := Real.abs_sin_le_one (rv F x)
  set S := Real.sin (rv F x)
  set C := Real.cos (rv F x)
  have hu := uR_pos F
  have hul := h.lay.u_le
  have hroom := h.room
  have he0 : 0 < e := by linarith
  have hC0 : 0 < |C| := by linarith
  obtain ⟨l1, l2⟩ := quot_err' he0.le hs' hc h1 hC hC0
  have hs4 : |rv F s| ≤ 5 / 4 := by
    have := abs_sub_abs_le_abs_sub (rv F s) S
    linarith
  have hcu : |rv F c| ≤ 5 / 4 := by
    have := abs_sub_abs_le_abs_sub (rv F c) C
    linarith
  have hc2 : 1 < |c| := by
    by_contra hcon
    have : |rv F c| ≤ uR F := by
      rw [rv_u, abs_mul, abs_of_pos (uR_pos F)]
      have : ((|c| : Int) : ℝ) ≤ 1 := by exact_mod_cast (by omega : |c| ≤ 1)
      push_cast at this
      have := mul_le_mul_of_nonneg_right this (uR_pos F).le
      linarith
    linarith
  have hclo : F.T.lo < c := by
    have h2 : Storable F (c - 1) := h.lay.st (by
      rw [rv_sub]
      have : rv F 1 = uR F := by rw [rv_u]; norm_num
      rw [this]
      rw [abs_le] at *; constructor <;> linarith)
    have := h2.1; omega
  have hc0 : c ≠ 0 := by rintro rfl; simp at hc2
  have ht := trunc_spec F (s * 2 ^ F.f) c hc0
  have hcq : (c : ℚ) ≠ 0 := by exact_mod_cast hc0
  have eq : ((s * 2 ^ F.f : Int) : ℚ) / c / 2 ^ F.f = val F s / val F c := by
    unfold val; push_cast; field_simp
  rw [eq] at ht
  have hn := isTrunc_near ht
  push_cast at hn
  rw [rv_eq, rv_eq, rv_eq] at hn
  set q := Int.tdiv (s * 2 ^ F.f) c
  have hcp : 0 < |rv F c| := by linarith
  have hqb : |rv F s / rv F c| ≤ 5 / 6 * 2 ^ (F.T.bits - 1 - F.f) := by
    rw [abs_div, div_le_iff₀ hcp]
    have a1 : 5 / 6 * 2 ^ (F.T.bits - 1 - F.f) * (3 / 4 * |C|) ≤ 5 / 6 * 2 ^ (F.T.bits - 1 - F.f) * |rv F c| :=
      mul_le_mul_of_nonneg_left l1 (by positivity)
    linarith
  have hqS : Storable F q := by
    have hq1 := abs_sub_abs_le_abs_sub (rv F q) (rv F s / rv F c)
    have hR : (16 : ℝ) ≤ 2 ^ (F.T.bits - 1 - F.f) := by
      have : (2 : ℝ) ^ 4 ≤ 2 ^ (F.T.bits - 1 - F.f) := pow_le_pow_right₀ (by norm_num) (by omega)
      norm_num at this; exact this
    have hq2 : |rv F q| < 2 ^ (F.T.bits - 1 - F.f) := by linarith
    unfold rv at hq2
    rw [abs_div, abs_of_pos (by positivity : (0 : ℝ) < 2 ^ F.f), div_lt_iff₀ (by positivity), ← pow_add,
      show F.T.bits - 1 - F.f + F.f = F.T.bits - 1 by omega] at hq2
    have hq3 : |q| < 2 ^ (F.T.bits - 1) := by exact_mod_cast hq2
    rw [abs_lt] at hq3
    exact ⟨by rw [h.sw.lo_eq]; omega, by rw [h.sw.hi_eq]; omega⟩
  refine ⟨q, ?_, hqS, ?_⟩
  · unfold tan
    rw [ec, Res.bind_ok, h.sw.abs_ok cS hclo, Res.bind_ok, if_pos (by omega), es, Res.bind_ok, h.sw.div_ok h.r sS hc0 hqS]
  · have hCsq : C ^ 2 ≤ 1 := by rw [← sq_abs]; exact pow_le_one₀ (abs_nonneg _) hc1
    have hCp : 0 < C ^ 2 := by rw [← sq_abs]; positivity
    have hu2 : uR F ≤ 1 / 10 * e / C ^ 2 := by
      rw [le_div_iff₀ hCp]
      have : uR F * C ^ 2 ≤ uR F * 1 := mul_le_mul_of_nonneg_left hCsq hu.le
      linarith
    have := abs_sub_le (rv F q) (rv F s / rv F c) (S / C)
    have e7 : 2 * e / C ^ 2 = 1 / 10 * e / C ^ 2 + 19 / 10 * e / C ^ 2 := by ring
    rw [e7]; linarith

/-- C113: the tangent on these layouts, for arguments of any size. With `e` the error of sine and cosine at `x`: if the real cosine is at least
`4 e` and the tangent has room (`2 / |cos x|` is within the range), `tan` is defined and within `2 e / cos² x` of the real tangent. -/
theorem C113_tan (F : FxTy) (hF : F.Valid) (hs : F.T.signed = true) (hr : F.r = false) (h8 : 8 ≤ F.f) (h59 : F.f ≤ 59)
    (hroom : F.f + 5 ≤ F.T.bits) (x : Int) (hS : Storable F x) (hlo : F.T.lo < x) (e : ℝ)
    (he : e = 3 / 10000 + (27 + |((val F x : ℚ) : ℝ)| / 4) * (ulp F : ℚ)) (hC : 4 * e ≤ |Real.cos (val F x : ℚ)|)
    (hfit : 2 ≤ 2 ^ (F.T.bits - 1 - F.f) * |Real.cos (val F x : ℚ)|) :
    ∃ r, tan F x = .ok r ∧ Storable F r ∧ |((val F r : ℚ) : ℝ) - Real.tan (val F x : ℚ)| ≤ 2 * e / Real.cos (val F x : ℚ) ^ 2 := by
  have h := gl_of hF hs hr h8 h59 hroom
  obtain ⟨s, es, sS, hs'⟩ := sin_whole h x hS hlo
  obtain ⟨c, ec, cS, hc⟩ := cos_whole h x hS
  simp only [rv_eq, uR_eq] at *
  have hu := uR_pos F
  have hxn : 0 ≤ |rv F x| / 4 * uR F := by positivity
  exact tan_from h es sS ec cS (le_trans hs' (by rw [he]; linarith)) (le_trans hc (by rw [he])) (by rw [he]; linarith) hC hfit

example : (⟨i64, i128, 40, false⟩ : FxTy).Valid ∧ cos ⟨i16, i32, 10, false⟩ (-2 ^ 15) = .ok 851 ∧ tan ⟨i16, i32, 10, false⟩ 1024 = .ok 1599 ∧ cos ⟨i64, i128, 40, false⟩ (-2 ^ 63) = .ok (-991490005819) ∧
    sin ⟨i64, i128, 40, false⟩ (-2 ^ 63) = .ub .overflow ∧ cos ⟨i64, i128, 40, false⟩ (1000 * 2 ^ 40) = .ok 618342333658 ∧
    tan ⟨i64, i128, 40, false⟩ (1000 * 2 ^ 40) = .ok 1616638541930 ∧ tan ⟨i32, i64, 20, false⟩ (2000 * 2 ^ 20) = .ok (-2653200) := by decide +kernel

/-- The hypotheses of `C113_tan` hold at `x = 1` with 40 fraction bits. -/
example : 4 * (3 / 10000 + (27 + |((val (⟨i64, i128, 40, false⟩ : FxTy) (2 ^ 40) : ℚ) : ℝ)| / 4) * (ulp (⟨i64, i128, 40, false⟩ : FxTy) : ℚ)) ≤
      |Real.cos ((val (⟨i64, i128, 40, false⟩ : FxTy) (2 ^ 40) : ℚ) : ℝ)| ∧
    2 ≤ (2 : ℝ) ^ (64 - 1 - 40) * |Real.cos ((val (⟨i64, i128, 40, false⟩ : FxTy) (2 ^ 40) : ℚ) : ℝ)| := by
  have e : val (⟨i64, i128, 40, false⟩ : FxTy) (2 ^ 40) = 1 := by norm_num [val]
  have e2 : ulp (⟨i64, i128, 40, false⟩ : FxTy) = 1 / 2 ^ 40 := rfl
  rw [e, e2]
  have h := Real.one_sub_sq_div_two_le_cos (x := ((1 : ℚ) : ℝ))
  have h2 := le_abs_self (Real.cos ((1 : ℚ) : ℝ))
  push_cast at *
  rw [abs_one]
  constructor <;> norm_num at * <;> linarith

end Eirin.Props
