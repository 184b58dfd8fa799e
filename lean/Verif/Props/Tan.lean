import Verif.Props.TrigSym

/-! # Property C101: accuracy of the tangent. -/

namespace Eirin.Props
open Spec

/-- C101 as stated: whenever the cosine is not tiny `tan` returns a number, and whatever it returns has the sign of the tangent
and is within `0.0007 / cos² x` of it. -/
def C101_statement : Prop := ∀ F, F = fixed32 ∨ F = fixed64 → ∀ x, |((val F x : ℚ) : ℝ)| ≤ Real.pi →
  (tan F x = .throw .domainError → |Real.cos (val F x : ℚ)| ≤ 1 / 1000) ∧
  (∀ r, tan F x = .ok r → 0 ≤ ((val F r : ℚ) : ℝ) * Real.tan (val F x : ℚ) ∧
    |((val F r : ℚ) : ℝ) - Real.tan (val F x : ℚ)| ≤ 7 / 10000 / Real.cos (val F x : ℚ) ^ 2)

/-- C101 is false of the code: eight ulp left of `-π/2` the tangent is large and positive, the result large and negative. -/
theorem C101_false : ¬ C101_statement := by
  intro h
  have e : tan fixed32 (-102951) = .ok (-536879104) := by decide +kernel
  have v : ((val fixed32 (-102951) : ℚ) : ℝ) = -(102951 / 65536) := by unfold val; push_cast; norm_num [fixed32]
  have w : ((val fixed32 (-536879104) : ℚ) : ℝ) = -(536879104 / 65536) := by
    unfold val; push_cast; norm_num [fixed32]
  have p1 := Real.pi_gt_d2
  have p2 := Real.pi_lt_d4
  have hx : |((val fixed32 (-102951) : ℚ) : ℝ)| ≤ Real.pi := by
    rw [v, abs_neg, abs_of_pos (by norm_num)]; norm_num at *; linarith
  obtain ⟨_, h2⟩ := h fixed32 (Or.inl rfl) (-102951) hx
  obtain ⟨h3, _⟩ := h2 _ e
  rw [v, w] at h3
  have ht : 0 < Real.tan (-(102951 / 65536)) := by
    rw [← Real.tan_add_pi]
    apply Real.tan_pos_of_pos_of_lt_pi_div_two <;> norm_num at * <;> linarith
  have := mul_pos (by norm_num : (0 : ℝ) < 536879104 / 65536) ht
  linarith

/-- Two ulp right of `-π/2` the quotient does not fit and wraps to the maximum; exactly there the minimum is returned. -/
example : tan fixed32 (-102941) = .ok 2147450880 ∧ tan fixed32 (-102945) = .ok (-2147483648) ∧ tan fixed32 (-102943) = .throw .domainError := by
  decide +kernel

theorem isTrunc_near {F : FxTy} {q : ℚ} {n : Int} (h : IsTrunc F q n) : |((val F n : ℚ) : ℝ) - (q : ℝ)| ≤ uR F := by
  have h1 : |val F n - q| ≤ ulp F := by
    rw [abs_le]
    rcases le_or_gt 0 q with h0 | h0
    · obtain ⟨_, a, b⟩ := h.1 h0; have := ulp_pos F; constructor <;> linarith
    · obtain ⟨_, a, b⟩ := h.2 h0; have := ulp_pos F; constructor <;> linarith
  have : ((|val F n - q| : ℚ) : ℝ) ≤ ((ulp F : ℚ) : ℝ) := by exact_mod_cast h1
  rw [uR_eq] at this
  push_cast at this; exact this

/-- Error of a quotient of approximate sine and cosine. -/
theorem quot_err {s c S C : ℝ} (hs : |s - S| ≤ 3 / 10000) (hc : |c - C| ≤ 3 / 10000) (h1 : S ^ 2 + C ^ 2 = 1) (hC : 1 / 1000 ≤ |C|) :
    7 / 10 * |C| ≤ |c| ∧ |s / c - S / C| ≤ 61 / 100000 / C ^ 2 := by
  have hC0 : 0 < |C| := lt_of_lt_of_le (by norm_num) hC
  have hCne : C ≠ 0 := abs_pos.1 hC0
  have l1 : |C| - |c - C| ≤ |c| := by
    have := abs_sub_abs_le_abs_sub C c
    rw [abs_sub_comm C c] at this; linarith
  have l2 : 7 / 10 * |C| ≤ |c| := by linarith
  refine ⟨l2, ?_⟩
  have hc0 : 0 < |c| := by linarith
  have hcne : c ≠ 0 := abs_pos.1 hc0
  have e : s / c - S / C = ((s - S) * C - S * (c - C)) / (c * C) := by field_simp; ring
  have l3 : |(s - S) * C - S * (c - C)| ≤ 3 / 10000 * (|C| + |S|) := by
    refine le_trans (abs_sub _ _) ?_
    rw [abs_mul, abs_mul]
    have a := mul_le_mul_of_nonneg_right hs (abs_nonneg C)
    have b := mul_le_mul_of_nonneg_left hc (abs_nonneg S)
    linarith
  have l4 : |C| + |S| ≤ 1.415 := by
    have a := sq_abs C; have b := sq_abs S
    nlinarith [sq_nonneg (|C| - |S|), abs_nonneg C, abs_nonneg S]
  rw [e, abs_div, abs_mul, div_le_div_iff₀ (by positivity) (by positivity), ← sq_abs C]
  have l5 : |(s - S) * C - S * (c - C)| ≤ 4245 / 10000000 := by norm_num at l4; linarith
  have l6 : |(s - S) * C - S * (c - C)| * |C| ^ 2 ≤ 4245 / 10000000 * |C| ^ 2 := mul_le_mul_of_nonneg_right l5 (by positivity)
  have l7 : 7 / 10 * |C| * |C| ≤ |c| * |C| := mul_le_mul_of_nonneg_right l2 hC0.le
  nlinarith [sq_nonneg |C|]

/-- C101 where the cosine is at least 0.001 in magnitude: `tan` is defined, has the right sign up to one ulp, and is within
`0.0007 / cos² x` of the real tangent (both library types, `|x| ≤ π`).
Full statement: `C101_statement`; next to the poles it is false (`C101_false`). -/
theorem C101_accuracy_partial (F : FxTy) (hF : F = fixed32 ∨ F = fixed64) (x : Int) (hx : |((val F x : ℚ) : ℝ)| ≤ Real.pi)
    (hC : 1 / 1000 ≤ |Real.cos (val F x : ℚ)|) :
    ∃ r, tan F x = .ok r ∧ Storable F r ∧ |((val F r : ℚ) : ℝ) - Real.tan (val F x : ℚ)| ≤ 7 / 10000 / Real.cos (val F x : ℚ) ^ 2 := by
  have h : Lib F := by rcases hF with rfl | rfl; exacts [lib32, lib64]
  obtain ⟨s, es, sS, hs⟩ := C39_accuracy F hF x (by have := Real.pi_pos; linarith)
  obtain ⟨c, ec, cS, hc⟩ := C40_cos_accuracy F hF x hx
  have h1 := Real.sin_sq_add_cos_sq ((val F x : ℚ) : ℝ)
  rw [Real.tan_eq_sin_div_cos]
  have hc1 := Real.abs_cos_le_one ((val F x : ℚ) : ℝ)
  have hs1 := Real.abs_sin_le_one ((val F x : ℚ) : ℝ)
  set S := Real.sin ((val F x : ℚ) : ℝ)
  set C := Real.cos ((val F x : ℚ) : ℝ)
  obtain ⟨l1, l2⟩ := quot_err hs hc h1 hC
  have hC0 : 0 < |C| := lt_of_lt_of_le (by norm_num) hC
  have hu := h.u_le
  have hcv : 7 / 10000 ≤ |((val F c : ℚ) : ℝ)| := by linarith
  -- the computed cosine is more than one ulp and is not the minimum
  have hc2 : 1 < |c| := by
    by_contra hcon
    have : |rv F c| ≤ uR F := by
      rw [rv_u, abs_mul, abs_of_pos (uR_pos F)]
      have : ((|c| : Int) : ℝ) ≤ 1 := by exact_mod_cast (by omega : |c| ≤ 1)
      push_cast at this
      have := mul_le_mul_of_nonneg_right this (uR_pos F).le
      linarith
    rw [rv_eq] at hcv
    norm_num at hu hcv; linarith
  have hcu : |rv F c| ≤ 2 := by
    rw [← rv_eq]
    have := abs_sub_abs_le_abs_sub ((val F c : ℚ) : ℝ) C
    linarith
  have hclo : F.T.lo < c := by
    have := rv_le F (a := c) (b := -3 * 2 ^ F.f)
    by_contra hcon
    have h3 : c ≤ -3 * 2 ^ F.f := by
      have := h.sw.lo_eq; have h5 := h.half_pow; have h6 := h.p15; have h7 := h.b
      have hp : (0 : Int) < 2 ^ F.f := by positivity
      rw [h7] at this
      nlinarith
    have h4 := this.2 h3
    rw [show ((-3 : Int)) * 2 ^ F.f = (-3 : Int) * 2 ^ F.f by rfl, rv_int] at h4
    push_cast at h4
    rw [abs_le] at hcu; linarith [hcu.1]
  have hc0 : c ≠ 0 := by rintro rfl; simp at hc2
  have ht := trunc_spec F (s * 2 ^ F.f) c hc0
  have hcq : (c : ℚ) ≠ 0 := by exact_mod_cast hc0
  have eq : ((s * 2 ^ F.f : Int) : ℚ) / c / 2 ^ F.f = val F s / val F c := by
    unfold val; push_cast; field_simp
  rw [eq] at ht
  have hn := isTrunc_near ht
  push_cast at hn
  have hsv : |((val F s : ℚ) : ℝ)| ≤ 2 := by
    have := abs_sub_abs_le_abs_sub ((val F s : ℚ) : ℝ) S
    linarith
  set q := Int.tdiv (s * 2 ^ F.f) c
  have hqb : |((val F s : ℚ) : ℝ) / ((val F c : ℚ) : ℝ)| ≤ 3000 := by
    rw [abs_div, div_le_iff₀ (by linarith)]; linarith
  have hqS : Storable F q := by
    apply h.st
    rw [← rv_eq]
    have := abs_sub_abs_le_abs_sub ((val F q : ℚ) : ℝ) (((val F s : ℚ) : ℝ) / ((val F c : ℚ) : ℝ))
    norm_num at hu; linarith
  refine ⟨q, ?_, hqS, ?_⟩
  · unfold tan
    rw [ec, Res.bind_ok, h.sw.abs_ok cS hclo, Res.bind_ok, if_pos (by omega), es, Res.bind_ok, h.sw.div_ok h.r sS hc0 hqS]
  · have hCsq : C ^ 2 ≤ 1 := by rw [← sq_abs]; exact pow_le_one₀ (abs_nonneg _) hc1
    have hCp : 0 < C ^ 2 := by rw [← sq_abs]; positivity
    have hu2 : uR F ≤ 9 / 100000 / C ^ 2 := by
      rw [le_div_iff₀ hCp]
      have : uR F * C ^ 2 ≤ uR F * 1 := mul_le_mul_of_nonneg_left hCsq (uR_pos F).le
      norm_num at hu; linarith
    have := abs_sub_le ((val F q : ℚ) : ℝ) (((val F s : ℚ) : ℝ) / ((val F c : ℚ) : ℝ)) (S / C)
    have e7 : (7 : ℝ) / 10000 / C ^ 2 = 9 / 100000 / C ^ 2 + 61 / 100000 / C ^ 2 := by ring
    rw [e7]; linarith

example : tan fixed32 51472 = .ok 65536 ∧ tan fixed32 (-51472) = .ok (-65538) ∧ tan fixed32 65536 = .ok 102064 := by decide +kernel

/-- C101: `domain_error` is only reported where the cosine is below 0.001, i.e. next to a pole. -/
theorem C101_throws (F : FxTy) (hF : F = fixed32 ∨ F = fixed64) (x : Int) (hx : |((val F x : ℚ) : ℝ)| ≤ Real.pi)
    (ht : tan F x = .throw .domainError) : |Real.cos (val F x : ℚ)| < 1 / 1000 := by
  by_contra hc
  push Not at hc
  obtain ⟨r, hr, _⟩ := C101_accuracy_partial F hF x hx hc
  rw [ht] at hr; cases hr

/-- C101: on `[-1, 1]` the error is below 0.0028. -/
theorem C101_unit (F : FxTy) (hF : F = fixed32 ∨ F = fixed64) (x : Int) (hx : |val F x| ≤ 1) :
    ∃ r, tan F x = .ok r ∧ |((val F r : ℚ) : ℝ) - Real.tan (val F x : ℚ)| ≤ 28 / 10000 := by
  have hx' : |((val F x : ℚ) : ℝ)| ≤ 1 := by exact_mod_cast hx
  have hcos : 1 / 2 ≤ Real.cos ((val F x : ℚ) : ℝ) := by
    have h1 := Real.one_sub_sq_div_two_le_cos (x := ((val F x : ℚ) : ℝ))
    have h2 : ((val F x : ℚ) : ℝ) ^ 2 ≤ 1 := by rw [← sq_abs]; exact pow_le_one₀ (abs_nonneg _) hx'
    linarith
  obtain ⟨r, hr, _, he⟩ := C101_accuracy_partial F hF x (by have := Real.pi_gt_three; linarith)
    (by rw [abs_of_pos (by linarith)]; linarith)
  refine ⟨r, hr, le_trans he ?_⟩
  rw [div_le_iff₀ (by positivity)]
  nlinarith

example : |val fixed32 65536| ≤ 1 ∧ tan fixed32 65536 = .ok 102064 := by
  constructor
  · norm_num [val, fixed32]
  · decide +kernel

end Eirin.Props
