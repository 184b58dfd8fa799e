import Verif.Lemmas.SinGen
import Verif.Props.Trig

/-! # Property C105: sine and cosine on every signed layout.

C39 and C40 cover the two library types.  Here the layout is arbitrary. -/

namespace Eirin.Props
open Spec

theorem sin_gen {F : FxTy} (h : GL F) (x : Int) (hx : |rv F x| ≤ 7) :
    ∃ r, sin F x = .ok r ∧ Storable F r ∧ |rv F r - Real.sin (rv F x)| ≤ 3 / 10000 + 20 * uR F := by
  obtain ⟨c⟩ := h.sinG
  have hu := uR_pos F
  have hul := h.lay.u_le
  have hS : Storable F x := h.lay.st (by linarith)
  have hlo : F.T.lo < x := by
    have h2 : Storable F (x - 1) := h.lay.st (by
      rw [rv_sub]
      have : rv F 1 = uR F := by rw [rv_u]; norm_num
      rw [this]
      rw [abs_le] at *; constructor <;> linarith)
    have := h2.1; omega
  by_cases hc : c.th ≤ |x|
  · obtain ⟨z, ez, zS, hz⟩ := c.main hS hlo hc
    refine ⟨z, ez, zS, le_trans hz ?_⟩
    have : |rv F x| / 4 * uR F ≤ 7 / 4 * uR F := mul_le_mul_of_nonneg_right (by linarith) hu.le
    norm_num at *; linarith
  · push Not at hc
    obtain ⟨w, s, er, -, -, -⟩ := c.reduce hS
    have hb : |rv F x| ≤ 15 / 100000 := by
      have e : |rv F x| = rv F |x| := by
        unfold rv; rw [abs_div, abs_of_pos (by positivity : (0 : ℝ) < 2 ^ F.f)]; push_cast; rfl
      rw [e]
      exact le_trans ((rv_le F).2 hc.le) c.thle
    have hnS : Storable F (-x) := h.lay.st (by rw [rv_neg, abs_neg]; linarith)
    have es : sin F x = .ok (if s then -x else x) := by
      unfold sin sinWith
      rw [c.ePi, Res.bind_ok, er, Res.bind_ok]
      simp only [c.eTh, h.sw.abs_ok hS hlo, Res.bind_ok]
      rw [if_pos (by rw [lt_iff]; exact hc)]
      cases s with
      | false => rfl
      | true => rw [if_pos rfl, h.sw.neg_ok hnS]; rfl
    have hsin : |Real.sin (rv F x)| ≤ |rv F x| := Real.abs_sin_le_abs
    refine ⟨_, es, ?_, ?_⟩
    · split
      · exact hnS
      · exact hS
    · have ha : |rv F (if s then -x else x)| = |rv F x| := by split <;> simp [rv_neg]
      have := abs_sub (rv F (if s then -x else x)) (Real.sin (rv F x))
      rw [ha] at this
      linarith

theorem cos_gen {F : FxTy} (h : GL F) (x : Int) (hx : |rv F x| ≤ Real.pi) :
    ∃ r, cos F x = .ok r ∧ Storable F r ∧ |rv F r - Real.cos (rv F x)| ≤ 3 / 10000 + 25 * uR F := by
  obtain ⟨c⟩ := h.sinG
  have g := Real.pi_gt_d4; have l := Real.pi_lt_d4
  have hu := uR_pos F
  have hul := h.lay.u_le
  have hp : (0 : Int) < 2 ^ F.f := by positivity
  have aPi := abs_le.1 c.aPi.er
  have o2 : ofInt F 2 = 2 * 2 ^ F.f := h.ofInt_small (by norm_num) (by norm_num)
  have h2S : Storable F (2 * 2 ^ F.f) := h.big (by linarith) (by linarith)
  have q1 : Int.tdiv (c.pi * 2 ^ F.f) (2 * 2 ^ F.f) = Int.tdiv c.pi 2 := by
    rw [Int.mul_tdiv_mul_of_pos_left _ _ hp]
  have t := tdiv_near c.pi (d := 2) (by norm_num)
  have tr : |rv F (Int.tdiv c.pi 2) - rv F c.pi / 2| ≤ uR F := by
    rw [rv_u, rv_u, show (Int.tdiv c.pi 2 : ℝ) * uR F - c.pi * uR F / 2 = ((Int.tdiv c.pi 2 : ℝ) * (2 : Int) - c.pi) * (uR F / 2) by push_cast; ring, abs_mul,
      abs_of_pos (by positivity : 0 < uR F / 2)]
    have := mul_le_mul_of_nonneg_right t (by positivity : 0 ≤ uR F / 2)
    push_cast at this ⊢; linarith
  have tr' := abs_le.1 tr
  generalize hq : Int.tdiv c.pi 2 = q at *
  have qS : Storable F q := h.lay.st (by rw [abs_le]; norm_num at *; constructor <;> linarith)
  have e1 : div F c.pi (ofInt F 2) = .ok q := by
    rw [o2, h.sw.div_ok h.r c.aPi.st (by positivity) (by rw [q1]; exact qS), q1]
  have dS : Storable F (c.pi * 2) := h.lay.st (by
    rw [rv_u]; push_cast; rw [show (c.pi : ℝ) * 2 * uR F = 2 * (c.pi * uR F) by ring, ← rv_u, abs_le]; norm_num at *; constructor <;> linarith)
  have em : c.pi * (2 * 2 ^ F.f) / 2 ^ F.f = c.pi * 2 := by rw [← mul_assoc, Int.mul_ediv_cancel _ hp.ne']
  have e2 : mul F c.pi (ofInt F 2) = .ok (c.pi * 2) := by
    rw [o2, h.sw.mul_ok h.r c.aPi.st h2S (by rw [em]; exact dS), em]
  have rd : rv F (c.pi * 2) = 2 * rv F c.pi := by unfold rv; push_cast; ring
  have r3 : rv F (c.pi * 2 - q) = 2 * rv F c.pi - rv F q := by rw [rv_sub, rd]
  have q3S : Storable F (c.pi * 2 - q) := h.lay.st (by
    rw [r3, abs_le]; norm_num at *; constructor <;> linarith)
  have hx' := abs_le.1 hx
  obtain ⟨a, ea, ha, hc⟩ : ∃ a, cos F x = sin F a ∧ |rv F a| ≤ 7 ∧ |Real.sin (rv F a) - Real.cos (rv F x)| ≤ 5 * uR F := by
    by_cases h0 : 0 < x
    · have h0' : 0 < rv F x := by have := (rv_lt F (a := 0)).2 h0; simpa [rv] using this
      have ra : rv F (x - (c.pi * 2 - q)) = rv F x - (2 * rv F c.pi - rv F q) := by rw [rv_sub, r3]
      have hb : |rv F (x - (c.pi * 2 - q))| ≤ 7 := by rw [ra, abs_le]; norm_num at *; constructor <;> linarith
      refine ⟨_, ?_, hb, ?_⟩
      · unfold cos
        rw [c.ePi, Res.bind_ok, e1, Res.bind_ok, e2, Res.bind_ok, if_pos h0, h.sw.sub_ok q3S, Res.bind_ok, h.sw.sub_ok (h.lay.st (by linarith)), Res.bind_ok]
      · have e : Real.cos (rv F x) = Real.sin (rv F x - 3 * Real.pi / 2) := by
          rw [show rv F x - 3 * Real.pi / 2 = rv F x + Real.pi / 2 - 2 * Real.pi by ring, Real.sin_sub_two_pi, Real.sin_add_pi_div_two]
        rw [e]
        refine le_trans (Real.abs_sin_sub_sin_le _ _) ?_
        rw [ra, abs_le]; norm_num at *; constructor <;> linarith
    · have h0' : rv F x ≤ 0 := by have := (rv_le F (b := 0)).2 (not_lt.1 h0); simpa [rv] using this
      have ra : rv F (x + q) = rv F x + rv F q := rv_add F x q
      have hb : |rv F (x + q)| ≤ 7 := by rw [ra, abs_le]; norm_num at *; constructor <;> linarith
      refine ⟨_, ?_, hb, ?_⟩
      · unfold cos
        rw [c.ePi, Res.bind_ok, e1, Res.bind_ok, e2, Res.bind_ok, if_neg h0, h.sw.add_ok (h.lay.st (by linarith)), Res.bind_ok]
      · rw [← Real.sin_add_pi_div_two]
        refine le_trans (Real.abs_sin_sub_sin_le _ _) ?_
        rw [ra, abs_le]; norm_num at *; constructor <;> linarith
  obtain ⟨r, er, rS, hr⟩ := sin_gen h a ha
  refine ⟨r, by rw [ea, er], rS, ?_⟩
  have := abs_sub_le (rv F r) (Real.sin (rv F a)) (Real.cos (rv F x))
  linarith

/-- C105 as stated: on every signed non-rounding layout with at least 8 fraction bits that can hold a full
turn (an integer above 2π), `sin` on `[-2π, 2π]` and `cos` on `[-π, π]` are defined and within 0.0003 plus 25 ulp of the real functions. -/
def C105_statement : Prop :=
  ∀ F : FxTy, F.Valid → F.T.signed = true → F.r = false → 8 ≤ F.f → Representable F 7 →
    (∀ x : Int, |((val F x : ℚ) : ℝ)| ≤ 2 * Real.pi →
      ∃ r, sin F x = .ok r ∧ Storable F r ∧ |((val F r : ℚ) : ℝ) - Real.sin (val F x : ℚ)| ≤ 3 / 10000 + 25 * (ulp F : ℚ)) ∧
    (∀ x : Int, |((val F x : ℚ) : ℝ)| ≤ Real.pi →
      ∃ r, cos F x = .ok r ∧ Storable F r ∧ |((val F r : ℚ) : ℝ) - Real.cos (val F x : ℚ)| ≤ 3 / 10000 + 25 * (ulp F : ℚ))

/-- C105 is false of the code when there are exactly three integer bits: `pi * pi` in the coefficients wraps, and `cos(0)` is above 2. -/
theorem C105_false : ¬ C105_statement := by
  intro h
  obtain ⟨r, e, -, hr⟩ := (h ⟨i32, i64, 28, false⟩ (by decide) (by decide) rfl (by decide) ⟨7 * 2 ^ 28, by decide, by norm_num [val]⟩).2 0
    (by simp [val]; positivity)
  have e2 : cos ⟨i32, i64, 28, false⟩ 0 = .ok 537923746 := by decide +kernel
  rw [e2] at e; cases e
  rw [val_zero] at hr
  rw [abs_le] at hr
  norm_num [val, ulp] at hr

/-- The two layouts with exactly three integer bits: `sin(1)` comes out above 1.1 and `cos(0)` above 2. -/
theorem C105_three_bits (F : FxTy) (hF : F = ⟨i32, i64, 28, false⟩ ∨ F = ⟨i64, i128, 60, false⟩) :
    F.Valid ∧ Representable F 7 ∧ (∃ r, sin F (2 ^ F.f) = .ok r ∧ 11 / 10 < val F r) ∧ ∃ r, cos F 0 = .ok r ∧ 2 < val F r := by
  rcases hF with rfl | rfl
  · exact ⟨by decide, ⟨7 * 2 ^ 28, by decide, by norm_num [val]⟩, ⟨297100666, by decide +kernel, by norm_num [val]⟩,
      ⟨537923746, by decide +kernel, by norm_num [val]⟩⟩
  · exact ⟨by decide, ⟨7 * 2 ^ 60, by decide, by norm_num [val]⟩, ⟨1276037643412239332, by decide +kernel, by norm_num [val]⟩,
      ⟨2310364898219938531, by decide +kernel, by norm_num [val]⟩⟩

/-- C105 with at least four integer bits besides the sign.  Full statement: `C105_statement`; what is missing are the two layouts of
`C105_three_bits`, for which it is false. -/
theorem C105_accuracy_partial (F : FxTy) (hF : F.Valid) (hs : F.T.signed = true) (hr : F.r = false) (h8 : 8 ≤ F.f) (h59 : F.f ≤ 59)
    (hroom : F.f + 5 ≤ F.T.bits) :
    (∀ x : Int, |((val F x : ℚ) : ℝ)| ≤ 2 * Real.pi →
      ∃ r, sin F x = .ok r ∧ Storable F r ∧ |((val F r : ℚ) : ℝ) - Real.sin (val F x : ℚ)| ≤ 3 / 10000 + 20 * (ulp F : ℚ)) ∧
    (∀ x : Int, |((val F x : ℚ) : ℝ)| ≤ Real.pi →
      ∃ r, cos F x = .ok r ∧ Storable F r ∧ |((val F r : ℚ) : ℝ) - Real.cos (val F x : ℚ)| ≤ 3 / 10000 + 25 * (ulp F : ℚ)) := by
  have one : Storable F (2 ^ F.f) := by
    have e : F.T.hi = 2 ^ (F.T.bits - 1) - 1 := by unfold IntTy.hi; simp [hs]
    have e2 : F.T.lo = -(2 ^ (F.T.bits - 1)) := by unfold IntTy.lo; simp [hs]
    have : (2 : Int) ^ F.f < 2 ^ (F.T.bits - 1) := pow_lt_pow_right₀ (by norm_num) (by omega)
    have : (0 : Int) < 2 ^ F.f := by positivity
    exact ⟨by omega, by omega⟩
  have h : GL F := ⟨⟨hF, hs, one⟩, hr, h8, h59, hroom⟩
  constructor
  · intro x hx
    rw [rv_eq] at hx
    have := Real.pi_lt_d2
    obtain ⟨r, a, b, c⟩ := sin_gen h x (by norm_num at *; linarith)
    refine ⟨r, a, b, ?_⟩
    rw [rv_eq, rv_eq, uR_eq]; exact c
  · intro x hx
    rw [rv_eq] at hx
    obtain ⟨r, a, b, c⟩ := cos_gen h x hx
    refine ⟨r, a, b, ?_⟩
    rw [rv_eq, rv_eq, uR_eq]; exact c

/-- Away from zero the error of `sin` on these layouts is the Taylor remainder plus rounding, for arguments of any size. -/
theorem C105_error (F : FxTy) (hF : F.Valid) (hs : F.T.signed = true) (hr : F.r = false) (h8 : 8 ≤ F.f) (h59 : F.f ≤ 59)
    (hroom : F.f + 5 ≤ F.T.bits) (x : Int) (hS : Storable F x) (hlo : F.T.lo < x) (hx : 15 / 100000 ≤ |val F x|) :
    ∃ r, sin F x = .ok r ∧ Storable F r ∧
      |((val F r : ℚ) : ℝ) - Real.sin (val F x : ℚ)| ≤ 4 / 1000000 + (17.7 + |((val F x : ℚ) : ℝ)| / 4) * (ulp F : ℚ) := by
  have one : Storable F (2 ^ F.f) := by
    have e : F.T.hi = 2 ^ (F.T.bits - 1) - 1 := by unfold IntTy.hi; simp [hs]
    have e2 : F.T.lo = -(2 ^ (F.T.bits - 1)) := by unfold IntTy.lo; simp [hs]
    have : (2 : Int) ^ F.f < 2 ^ (F.T.bits - 1) := pow_lt_pow_right₀ (by norm_num) (by omega)
    have : (0 : Int) < 2 ^ F.f := by positivity
    exact ⟨by omega, by omega⟩
  have h : GL F := ⟨⟨hF, hs, one⟩, hr, h8, h59, hroom⟩
  obtain ⟨c⟩ := h.sinG
  have hth : c.th ≤ |x| := by
    rw [← rv_le F]
    refine le_trans c.thle ?_
    have : |rv F x| = rv F |x| := by
      unfold rv; rw [abs_div, abs_of_pos (by positivity : (0 : ℝ) < 2 ^ F.f)]; push_cast; rfl
    rw [← this, ← rv_eq]
    have : ((15 / 100000 : ℚ) : ℝ) ≤ ((|val F x| : ℚ) : ℝ) := by exact_mod_cast hx
    push_cast at this; exact this
  obtain ⟨z, ez, zS, hz⟩ := c.main hS hlo hth
  refine ⟨z, ez, zS, ?_⟩
  rw [rv_eq, rv_eq, uR_eq]; linarith

example : (⟨i32, i64, 27, false⟩ : FxTy).Valid ∧ sin ⟨i16, i32, 10, false⟩ 1024 = .ok 862 ∧ sin ⟨i16, i64, 8, false⟩ 32767 = .ok 178 ∧ sin ⟨i32, i64, 27, false⟩ (2 ^ 27) = .ok 112940328 ∧
    cos ⟨i64, i128, 59, false⟩ (2 ^ 59) = .ok 311463073742221783 ∧ sin ⟨i64, i128, 8, false⟩ (2 ^ 8) = .ok 215 ∧
    (2 : Int) ^ 27 ≤ 15 * 2 ^ 27 := by decide +kernel

end Eirin.Props
