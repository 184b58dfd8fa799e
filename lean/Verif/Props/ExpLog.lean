import Verif.Props.LogDiv
import Verif.Props.ExpAll

/-! # C133: `exp` and `log` as mutual inverses -/

namespace Eirin.Props
open Spec

/-- C133 (as one would expect it): `exp(log(x))` is `x` within one percent. -/
def C133_statement : Prop :=
  ∀ x a r, Storable fixed32 x → 1 ≤ val fixed32 x → val fixed32 x ≤ 32000 → log fixed32 x = .ok a → exp fixed32 a = .ok r →
    |val fixed32 r - val fixed32 x| ≤ val fixed32 x / 100

/-- It is false: `exp(log(1.6487)) = 1.398…`. -/
theorem C133_false : ¬ C133_statement := by
  intro h
  have := h 108051 32768 91663 (by decide) (by norm_num [val, fixed32]) (by norm_num [val, fixed32]) (by decide +kernel) (by decide +kernel)
  norm_num [val, fixed32, abs_le] at this

/-- The sign of the logarithm. -/
theorem log_sign_one {F : FxTy} (ll : LL F) {x a : Int} (hx : Storable F x) (h0 : 0 < x) (ha : log F x = .ok a) :
    (2 ^ F.f ≤ x → 0 ≤ a) ∧ (x < 2 ^ F.f → a ≤ 0) := by
  have hp : (0 : Int) < 2 ^ F.f := by positivity
  have h := lg_of ll.sw.valid ll.sw.sw ll.h32 (by have := ll.h4; omega)
  obtain ⟨m, k, hn, hk, e1, e2, hok, hub⟩ := h.log2_raw hx h0
  have i1 := log2e_near
  obtain ⟨c, ec, sc, c1, c2, c3⟩ := ll.lk.const (L := 0x171547652B82FE00) (by norm_num) (by norm_num) (by rw [abs_le] at i1; norm_num at i1 ⊢; linarith) i1
  unfold log at ha
  rw [ec, Res.bind_ok] at ha
  have hlo : F.T.lo ≤ k * 2 ^ F.f := by
    by_contra hc
    rw [hub (by omega)] at ha; cases ha
  obtain ⟨eL, LS⟩ := hok hlo
  obtain ⟨ed, -⟩ := log_div_ok ll.sw.valid ll.r LS c1
  rw [eL, Res.bind_ok, ed] at ha
  injection ha with ha
  have f0 := fracOut_nonneg F.f F.f m
  have f1 := fracOut_lt F.f F.f m
  subst ha
  constructor
  · intro h1
    have hk0 : 0 ≤ k := by
      by_contra hc
      have : (2 : Int) * 2 ^ (k + F.f).toNat ≤ 2 ^ F.f := by
        rw [← pow_succ']
        exact pow_le_pow_right₀ (by norm_num) (by omega)
      omega
    exact Int.tdiv_nonneg (by positivity) (by omega)
  · intro h1
    have hk0 : k ≤ -1 := by
      by_contra hc
      have : (2 : Int) ^ F.f ≤ 2 ^ (k + F.f).toNat := pow_le_pow_right₀ (by norm_num) (by omega)
      omega
    have hL : k * 2 ^ F.f + fracOut F.f F.f m ≤ 0 := by nlinarith
    have : 0 ≤ Int.tdiv (-((k * 2 ^ F.f + fracOut F.f F.f m) * 2 ^ F.f)) c := Int.tdiv_nonneg (by nlinarith) (by omega)
    rw [Int.neg_tdiv] at this
    omega

/-- The layouts: `exp` and `log` both work. -/
structure EL (F : FxTy) : Prop where
  ll : LL F
  h16 : 16 ≤ F.f
  good : F.f ≤ 26 ∨ F.T.bits = 64 ∧ F.f ≤ 32

theorem EL.bits {F : FxTy} (h : EL F) : F.T.bits = 32 ∨ F.T.bits = 64 := by
  have := h.ll.sw.valid.1; have := h.ll.sw.sw.2; omega

theorem EL.three {F : FxTy} (h : EL F) : Representable F 3 := by
  have h4 := h.ll.h4
  have hp : (0 : Int) < 2 ^ F.f := by positivity
  have e : (3 : ℚ) = val F (3 * 2 ^ F.f) := by rw [val_int]; norm_num
  rw [e, representable_iff]
  have h1 : (2 : Int) ^ (F.f + 2) ≤ 2 ^ (F.T.bits - 1) := pow_le_pow_right₀ (by norm_num) (by omega)
  rw [pow_add] at h1
  exact ⟨by rw [h.ll.sw.lo_eq]; omega, by rw [h.ll.sw.hi_eq]; omega⟩

theorem EL.u {F : FxTy} (h : EL F) : uR F ≤ 1 / 65536 := by
  unfold uR
  apply div_le_div_of_nonneg_left (by norm_num) (by norm_num)
  have : (2 : ℝ) ^ 16 ≤ 2 ^ F.f := pow_le_pow_right₀ (by norm_num) h.h16
  norm_num at this ⊢; exact this

/-- The logarithm has an error of at most 0.0005 on these layouts. -/
theorem EL.log_ok {F : FxTy} (h : EL F) {x : Int} (hx : Storable F x) (h0 : 0 < x) :
    ∃ a, log F x = .ok a ∧ Storable F a ∧ |rv F a - Real.log (rv F x)| ≤ 5 / 10000 := by
  have hb := h.bits
  have hf := h.h16
  have hu := h.u
  have hu0 := uR_pos F
  obtain ⟨⟨a, ea, aS, ha⟩, -⟩ := (C114_accuracy F h.ll.sw.valid h.ll.sw.sw h.ll.r h.ll.h8 h.good x hx).2 (by rw [← val_zero F, val_lt]; exact h0)
  rw [rv_eq, rv_eq, uR_eq] at ha
  refine ⟨a, ea, aS, ha.trans ?_⟩
  have l2 := Real.log_two_lt_d9
  have l2' := Real.log_two_gt_d9
  have up : rv F x ≤ 2 ^ 47 := by
    unfold rv
    rw [div_le_iff₀ (by positivity)]
    have h1 : x ≤ 2 ^ 63 := by
      have := hx.2
      rw [h.ll.sw.hi_eq] at this
      have : (2 : Int) ^ (F.T.bits - 1) ≤ 2 ^ 63 := pow_le_pow_right₀ (by norm_num) (by omega)
      omega
    have h2 : (2 : ℝ) ^ 16 ≤ 2 ^ F.f := pow_le_pow_right₀ (by norm_num) hf
    have h3 : (x : ℝ) ≤ 2 ^ 63 := by exact_mod_cast h1
    norm_num at h2 h3 ⊢; linarith
  have dn : (2 : ℝ)⁻¹ ^ 32 ≤ rv F x := by
    unfold rv
    rw [le_div_iff₀ (by positivity)]
    have h2 : (2 : ℝ) ^ F.f ≤ 2 ^ 32 := pow_le_pow_right₀ (by norm_num) h.ll.h32
    have h3 : (1 : ℝ) ≤ x := by exact_mod_cast h0
    norm_num at h2 ⊢; linarith
  have hpos : 0 < rv F x := lt_of_lt_of_le (by positivity) dn
  have b1 : Real.log (rv F x) ≤ 33 := by
    have := Real.log_le_log hpos up
    rw [Real.log_pow] at this; norm_num at this l2; linarith
  have b2 : -33 ≤ Real.log (rv F x) := by
    have := Real.log_le_log (by positivity) dn
    rw [Real.log_pow, Real.log_inv] at this; norm_num at this l2; linarith
  have b3 : |Real.log (rv F x)| ≤ 33 := abs_le.2 ⟨b2, b1⟩
  have : (4 + 0.7 * |Real.log (rv F x)|) * uR F ≤ (4 + 0.7 * 33) * (1 / 65536) :=
    mul_le_mul (by linarith) hu hu0.le (by norm_num)
  norm_num at this ⊢; linarith

theorem exp_close {v a : ℝ} (hv : 0 < v) (h : |a - Real.log v| ≤ 5 / 10000) : 9995 / 10000 * v ≤ Real.exp a ∧ Real.exp a ≤ 10006 / 10000 * v := by
  rw [abs_le] at h
  have e : Real.exp a = Real.exp (a - Real.log v) * v := by
    rw [← Real.exp_log hv, ← Real.exp_add, Real.exp_log hv]; congr 1; ring
  have h1 := Real.add_one_le_exp (a - Real.log v)
  have h2 := Real.add_one_le_exp (-(a - Real.log v))
  have h3 : Real.exp (a - Real.log v) * Real.exp (-(a - Real.log v)) = 1 := by rw [← Real.exp_add, add_neg_cancel, Real.exp_zero]
  have h4 := Real.exp_pos (a - Real.log v)
  have h5 : Real.exp (a - Real.log v) ≤ 10006 / 10000 := by nlinarith
  rw [e]
  exact ⟨mul_le_mul_of_nonneg_right (by linarith) hv.le, mul_le_mul_of_nonneg_right h5 hv.le⟩

theorem el_of {F : FxTy} (hF : F.Valid) (hs : SignedWide F) (hr : F.r = false) (h16 : 16 ≤ F.f) (hg : F.f ≤ 26 ∨ F.T.bits = 64 ∧ F.f ≤ 32) : EL F :=
  ⟨ll_of hF hs hr (by omega) (by omega) (by have := hF.1; have := hs.2; omega), h16, hg⟩

/-- C133 (what holds): on the layouts with 16 to 26 fraction bits (32 with 64-bit storage), for every number of at least one with room above it,
`exp(log(x))` lies between `0.809 x` and `1.004 x`. -/
theorem C133_exp_log_partial (F : FxTy) (hF : F.Valid) (hs : SignedWide F) (hr : F.r = false) (h16 : 16 ≤ F.f) (hg : F.f ≤ 26 ∨ F.T.bits = 64 ∧ F.f ≤ 32)
    (x : Int) (hx : Storable F x) (h1 : 1 ≤ val F x) (hfit : val F x * (1004 / 1000) ≤ 2 ^ (F.T.bits - 1 - F.f)) :
    ∃ a r, log F x = .ok a ∧ exp F a = .ok r ∧ Storable F r ∧ 809 / 1000 * val F x ≤ val F r ∧ val F r ≤ 1004 / 1000 * val F x := by
  have h := el_of hF hs hr h16 hg
  have hx1 : 2 ^ F.f ≤ x := by
    have e : (1 : ℚ) = val F (1 * 2 ^ F.f) := by rw [val_int]; norm_num
    rw [e, val_le] at h1; linarith
  have hp : (0 : Int) < 2 ^ F.f := by positivity
  obtain ⟨a, ea, aS, ha⟩ := h.log_ok hx (by omega)
  have a0 := (log_sign_one h.ll hx (by omega) ea).1 hx1
  have hv : 0 < rv F x := by have := (rv_lt F (a := 0)).2 (show 0 < x by omega); simpa [rv] using this
  obtain ⟨b1, b2⟩ := exp_close hv ha
  have hfit' : rv F x * (1004 / 1000) ≤ 2 ^ (F.T.bits - 1 - F.f) := by
    have : ((val F x * (1004 / 1000) : ℚ) : ℝ) ≤ ((2 ^ (F.T.bits - 1 - F.f) : ℚ) : ℝ) := by exact_mod_cast hfit
    push_cast at this; rw [rv_eq] at this; exact this
  obtain ⟨r, er, rS, r1, r2⟩ := C110_bounds F hF hs.1 hr h16 (by have := h.ll.h32; omega) h.three a aS (by rw [← val_zero F, val_le]; exact a0)
    (by rw [rv_eq]; linarith)
  rw [rv_eq, rv_eq] at r1 r2
  refine ⟨a, r, ea, er, rS, ?_, ?_⟩
  · have : 809 / 1000 * rv F x ≤ rv F r := by linarith
    rw [← rv_eq, ← rv_eq] at this
    have : ((809 / 1000 * val F x : ℚ) : ℝ) ≤ ((val F r : ℚ) : ℝ) := by push_cast; exact this
    exact_mod_cast this
  · have : rv F r ≤ 1004 / 1000 * rv F x := by linarith
    rw [← rv_eq, ← rv_eq] at this
    have : ((val F r : ℚ) : ℝ) ≤ ((1004 / 1000 * val F x : ℚ) : ℝ) := by push_cast; exact this
    exact_mod_cast this

/-- C133 (what holds): below one, `exp(log(x))` lies between `0.996 x` less an ulp and `1.25 x`, wherever the reciprocal has room. -/
theorem C133_exp_log_below_partial (F : FxTy) (hF : F.Valid) (hs : SignedWide F) (hr : F.r = false) (h16 : 16 ≤ F.f) (hg : F.f ≤ 26 ∨ F.T.bits = 64 ∧ F.f ≤ 32)
    (x : Int) (hx : Storable F x) (h0 : 0 < val F x) (h1 : val F x < 1) (hfit : 1004 / 1000 ≤ val F x * 2 ^ (F.T.bits - 1 - F.f)) :
    ∃ a r, log F x = .ok a ∧ exp F a = .ok r ∧ 996 / 1000 * val F x - ulp F ≤ val F r ∧ val F r ≤ 125 / 100 * val F x := by
  have h := el_of hF hs hr h16 hg
  have hp : (0 : Int) < 2 ^ F.f := by positivity
  have hu := uR_pos F
  have hx1 : x < 2 ^ F.f := by
    have e : (1 : ℚ) = val F (1 * 2 ^ F.f) := by rw [val_int]; norm_num
    rw [e, val_lt] at h1; linarith
  have hx0 : 0 < x := by rw [← val_zero F, val_lt] at h0; exact h0
  obtain ⟨a, ea, aS, ha⟩ := h.log_ok hx hx0
  have a0 := (log_sign_one h.ll hx hx0 ea).2 hx1
  have hv : 0 < rv F x := by have := (rv_lt F (a := 0)).2 hx0; simpa [rv] using this
  obtain ⟨b1, b2⟩ := exp_close hv ha
  have back : ∀ r : Int, 996 / 1000 * rv F x - uR F ≤ rv F r → rv F r ≤ 125 / 100 * rv F x →
      996 / 1000 * val F x - ulp F ≤ val F r ∧ val F r ≤ 125 / 100 * val F x := by
    intro r r1 r2
    rw [← rv_eq, ← rv_eq, ← uR_eq] at r1
    rw [← rv_eq, ← rv_eq] at r2
    have q1 : ((996 / 1000 * val F x - ulp F : ℚ) : ℝ) ≤ ((val F r : ℚ) : ℝ) := by push_cast; exact r1
    have q2 : ((val F r : ℚ) : ℝ) ≤ ((125 / 100 * val F x : ℚ) : ℝ) := by push_cast; exact r2
    exact ⟨by exact_mod_cast q1, by exact_mod_cast q2⟩
  rcases eq_or_lt_of_le a0 with e0 | a0
  · subst e0
    have e1 : ofInt F 1 = 2 ^ F.f := by rw [ofInt_eq F hF, one_mul]; exact h.ll.sw.wrap_ok h.ll.sw.one
    have e0' : ofInt F 0 = 0 := by rw [ofInt_eq F hF, zero_mul]; exact h.ll.sw.wrap_ok h.ll.sw.zero_in
    have z0 : rv F 0 = 0 := by simp [rv]
    have o0 : rv F (2 ^ F.f) = 1 := by unfold rv; push_cast; exact div_self (by positivity)
    rw [z0, Real.exp_zero] at b1 b2
    have hx1' : rv F x < 1 := by rw [← o0, rv_lt]; exact hx1
    refine ⟨0, 2 ^ F.f, ea, ?_, back _ (by rw [o0]; linarith) (by rw [o0]; linarith)⟩
    unfold exp
    rw [e0', e1, if_pos (by rw [eq_iff])]
  · have hfit' : 1004 / 1000 ≤ rv F x * 2 ^ (F.T.bits - 1 - F.f) := by
      have : ((1004 / 1000 : ℚ) : ℝ) ≤ ((val F x * 2 ^ (F.T.bits - 1 - F.f) : ℚ) : ℝ) := by exact_mod_cast hfit
      push_cast at this; rw [rv_eq] at this; exact this
    have hE := Real.exp_pos (rv F a)
    have hR : (0 : ℝ) < 2 ^ (F.T.bits - 1 - F.f) := by positivity
    have fit2 : Real.exp (-(rv F a)) * (1003 / 1000) ≤ 2 ^ (F.T.bits - 1 - F.f) := by
      rw [Real.exp_neg, inv_mul_le_iff₀ hE]
      have := mul_le_mul_of_nonneg_right b1 hR.le
      nlinarith
    have naS : Storable F (-a) := by
      have h2 := Real.add_one_le_exp (-(rv F a))
      have h3 : -(rv F a) < 2 ^ (F.T.bits - 1 - F.f) := by
        have := Real.exp_pos (-(rv F a))
        linarith
      rw [← rv_neg] at h3
      unfold rv at h3
      have h4 := h.ll.h4
      rw [div_lt_iff₀ (by positivity), ← pow_add, show F.T.bits - 1 - F.f + F.f = F.T.bits - 1 by omega] at h3
      have h5 : -a < 2 ^ (F.T.bits - 1) := by exact_mod_cast h3
      exact ⟨by rw [h.ll.sw.lo_eq]; omega, by rw [h.ll.sw.hi_eq]; omega⟩
    obtain ⟨r, er, r1, r2⟩ := C110_negative F hF hs.1 hr h16 (by have := h.ll.h32; omega) h.three a naS (by rw [← val_zero F, val_lt]; exact a0)
      (by rw [rv_eq]; exact fit2)
    rw [rv_eq, rv_eq, uR_eq] at r1
    rw [rv_eq, rv_eq] at r2
    exact ⟨a, r, ea, er, back r (by linarith) (by linarith)⟩

/-- C133 (what holds): for `x ≥ 0` with `e^x` in range, `log(exp(x))` lies between `x - 0.223` and `x + 0.004`. -/
theorem C133_log_exp_partial (F : FxTy) (hF : F.Valid) (hs : SignedWide F) (hr : F.r = false) (h16 : 16 ≤ F.f) (hg : F.f ≤ 26 ∨ F.T.bits = 64 ∧ F.f ≤ 32)
    (x : Int) (hx : Storable F x) (h0 : 0 ≤ val F x) (hfit : Real.exp ((val F x : ℚ) : ℝ) * (1003 / 1000) ≤ 2 ^ (F.T.bits - 1 - F.f)) :
    ∃ y r, exp F x = .ok y ∧ log F y = .ok r ∧ Storable F r ∧ val F x - 223 / 1000 ≤ val F r ∧ val F r ≤ val F x + 4 / 1000 := by
  have h := el_of hF hs hr h16 hg
  obtain ⟨y, ey, yS, y1, y2⟩ := C110_bounds F hF hs.1 hr h16 (by have := h.ll.h32; omega) h.three x hx h0 hfit
  rw [rv_eq, rv_eq] at y1 y2
  have hE := Real.exp_pos (rv F x)
  have hyp : 0 < rv F y := lt_of_lt_of_le (by positivity) y1
  have y0 : 0 < y := by rw [← rv_lt F]; simpa [rv] using hyp
  obtain ⟨r, er, rS, hr⟩ := h.log_ok yS y0
  rw [abs_le] at hr
  have l1 := Real.log_le_log (by positivity) y1
  have l2 := Real.log_le_log hyp y2
  rw [Real.log_mul (by norm_num) hE.ne', Real.log_exp] at l1 l2
  have k1 : -(2 / 9) ≤ Real.log (81 / 100) := by
    have e : (81 / 100 : ℝ) = (9 / 10) ^ 2 := by norm_num
    rw [e, Real.log_pow]
    have := Real.one_sub_inv_le_log_of_pos (show (0 : ℝ) < 9 / 10 by norm_num)
    norm_num at this ⊢; linarith
  have k2 : Real.log (1003 / 1000) ≤ 3 / 1000 := by
    have := Real.log_le_sub_one_of_pos (show (0 : ℝ) < 1003 / 1000 by norm_num)
    norm_num at this ⊢; linarith
  refine ⟨y, r, ey, er, rS, ?_, ?_⟩
  · have : rv F x - 223 / 1000 ≤ rv F r := by linarith
    rw [← rv_eq, ← rv_eq] at this
    have : ((val F x - 223 / 1000 : ℚ) : ℝ) ≤ ((val F r : ℚ) : ℝ) := by push_cast; exact this
    exact_mod_cast this
  · have : rv F r ≤ rv F x + 4 / 1000 := by linarith
    rw [← rv_eq, ← rv_eq] at this
    have : ((val F r : ℚ) : ℝ) ≤ ((val F x + 4 / 1000 : ℚ) : ℝ) := by push_cast; exact this
    exact_mod_cast this

/-- The hypotheses are met at 20 on 24 fraction bits. -/
example : (⟨i32, i64, 24, false⟩ : FxTy).Valid ∧ SignedWide ⟨i32, i64, 24, false⟩ ∧ Storable ⟨i32, i64, 24, false⟩ (20 * 2 ^ 24) ∧
    1 ≤ val ⟨i32, i64, 24, false⟩ (20 * 2 ^ 24) ∧ val ⟨i32, i64, 24, false⟩ (20 * 2 ^ 24) * (1004 / 1000) ≤ 2 ^ (32 - 1 - 24) := by
  refine ⟨by decide, by decide, by decide, ?_, ?_⟩ <;> norm_num [val]

example : val fixed32 16384 < 1 ∧ 1004 / 1000 ≤ val fixed32 16384 * 2 ^ (32 - 1 - 16) := by norm_num [val, fixed32]

end Eirin.Props
