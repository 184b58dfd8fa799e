import Verif.Props.LogDiv
import Verif.Props.DegAll
import Verif.Props.RoundingFlag

/-! # Property C186: logarithms and angle conversions in rounding types -/

namespace Eirin.Props
open Spec Real

/-- C186 as one would expect it: rounding types compute the logarithm and convert angles to within ten ulps (a generous allowance). -/
def C186_statement : Prop :=
  ∀ F : FxTy, F.Valid → SignedWide F → F.r = true → 8 ≤ F.f → F.f ≤ 26 → ∀ x, Storable F x → 0 < val F x → val F x < 8 →
    (∃ r, log F x = .ok r ∧ |((val F r : ℚ) : ℝ) - Real.log (val F x : ℚ)| ≤ 10 * (ulp F : ℚ)) ∧
    (∃ r, radians F x = .ok r ∧ |((val F r : ℚ) : ℝ) - (val F x : ℚ) * π / 180| ≤ 10 * (ulp F : ℚ))

/-- C186 is false of the code: in the rounding variant of `fixed32`, `log(2)` is 1.386. -/
theorem C186_false : ¬ C186_statement := by
  intro h
  obtain ⟨⟨r, e, hr⟩, -⟩ := h exR32 (by decide) (by decide) rfl (by decide) (by decide) 131072 (by decide +kernel)
    (by norm_num [val, exR32]) (by norm_num [val, exR32])
  have e' : log exR32 131072 = .ok 90852 := by decide +kernel
  rw [e'] at e
  cases e
  have l3 := RealConst.log_two_lt
  have v2 : ((val exR32 131072 : ℚ) : ℝ) = 2 := by norm_num [val, exR32]
  have vr : ((val exR32 90852 : ℚ) : ℝ) = 90852 / 65536 := by norm_num [val, exR32]
  have u : ((ulp exR32 : ℚ) : ℝ) = 1 / 65536 := by norm_num [ulp, exR32]
  rw [v2, vr, u, abs_le] at hr
  norm_num at l3 hr
  linarith [hr.2]

/-- A divisor constant of the logarithms in a rounding type. -/
theorem const_r {F : FxTy} (h : F.Valid) (hr : F.r = true) (h8 : 8 ≤ F.f) (h32 : F.f ≤ 32) (h4 : Representable F 4) {L : Int} {lam : ℝ} (hL0 : 0 < L)
    (hL : (L : ℝ) / 2 ^ 60 ≤ 3.5) (hd : |lam - L / 2 ^ 60| ≤ 1 / 10 ^ 14) :
    ∃ c, fromFixedNumValue F i64 60 L = .ok c ∧ Storable F c ∧ lam - 0.004 ≤ rv F c ∧ |lam - rv F c| ≤ 1.001 * uR F := by
  have hL2 : L < 2 ^ 63 := by
    rw [div_le_iff₀ (by positivity)] at hL
    have : (L : ℝ) < ((2 ^ 63 : Int) : ℝ) := by push_cast; linarith
    exact_mod_cast this
  have hn := near_of (c := fun F => fromFixedNumValue F i64 60 L) (k := 60) (L := L) (ρ := (L : ℝ) / 2 ^ 60) (δ := 0) (fun _ => rfl)
    (by norm_num) (by norm_num) hL0 hL2 (by norm_num) (by simp) (by simp)
  obtain ⟨z, ez, sz, -, nz⟩ := hn F 4 h (by omega) (by push_cast; linarith) (by exact_mod_cast h4)
  have n1 := nz hr
  rw [rv_eq, uR_eq, abs_le] at n1
  have u1 : uR F ≤ 1 / 256 := by
    unfold uR
    apply div_le_div_of_nonneg_left (by norm_num) (by norm_num)
    have : (2 : ℝ) ^ 8 ≤ 2 ^ F.f := pow_le_pow_right₀ (by norm_num) h8
    norm_num at this ⊢; exact this
  have u2 : 1 / 2 ^ 32 ≤ uR F := by
    unfold uR
    apply div_le_div_of_nonneg_left (by norm_num) (by positivity)
    exact pow_le_pow_right₀ (by norm_num) h32
  have hu := uR_pos F
  rw [abs_le] at hd
  have hk : (1 : ℝ) / 10 ^ 14 ≤ 0.001 * uR F := by norm_num at u2 ⊢; linarith
  refine ⟨z, ez, sz, by norm_num at *; linarith, ?_⟩
  rw [abs_le]; constructor <;> linarith [n1.1, n1.2, hd.1, hd.2]

/-- A nearest multiple of the ulp, in the reals. -/
theorem nearest_rv {F : FxTy} {q : ℚ} {n : Int} (h : IsNearest F q n) : |rv F n - (q : ℝ)| ≤ uR F / 2 := by
  have := h.1
  have c : ((|q - val F n| : ℚ) : ℝ) ≤ ((ulp F / 2 : ℚ) : ℝ) := by exact_mod_cast this
  push_cast at c
  rw [rv_eq, uR_eq, abs_sub_comm] at c
  exact c

/-- Division of an approximate base-2 logarithm by a constant in a rounding type. -/
theorem log_div_r {F : FxTy} (h : F.Valid) (hr : F.r = true) (hf : F.f + 2 ≤ F.T.bits) {L c : Int} {lam ℓ : ℝ} (hL : Storable F L) (n1 : rv F L ≤ ℓ)
    (n2 : ℓ < rv F L + 4 * uR F) (hc : 1 ≤ rv F c) (hl0 : 0 < lam) (cl : |lam - rv F c| ≤ 1.001 * uR F) :
    ∃ z n, div F L c = .ok z ∧ IsWrap F (2 * n) z ∧
      |rv F n - ℓ / lam| ≤ ((4 + 1.001 * |ℓ / lam|) / rv F c + 1 / 2) * uR F := by
  have hc0 : c ≠ 0 := by
    rintro rfl
    unfold rv at hc; norm_num at hc
  obtain ⟨z, n, e, hn, hw⟩ := (C05_div_partial F h hr hf L c hL).2 hc0
  refine ⟨z, n, e, hw, ?_⟩
  have a := nearest_rv hn
  push_cast at a
  rw [rv_eq, rv_eq] at a
  have := log_quot hc hl0 cl n1 n2
  have := abs_sub_le (rv F n) (rv F L / rv F c) (ℓ / lam)
  rw [add_mul]
  linarith

/-- C186 (what happens instead): on every signed rounding layout with 8 to 32 fraction bits and four integer bits, wherever `log2` is defined the
natural and the decimal logarithm are *twice* a number `n` within a few ulps of the logarithm, reduced to the storage type. -/
theorem C186_log_partial (F : FxTy) (hF : F.Valid) (hs : SignedWide F) (hr : F.r = true) (h8 : 8 ≤ F.f) (h32 : F.f ≤ 32) (h4 : F.f + 4 ≤ F.T.bits)
    (x k : Int) (hx : Storable F x) (h1 : (2 : ℚ) ^ k ≤ val F x) (h2 : val F x < (2 : ℚ) ^ (k + 1)) (hk : Representable F k) :
    (∃ z n, log F x = .ok z ∧ IsWrap F (2 * n) z ∧
      |((val F n : ℚ) : ℝ) - Real.log (val F x : ℚ)| ≤ (3.5 + 0.7 * |Real.log (val F x : ℚ)|) * (ulp F : ℚ)) ∧
    (∃ z n, log10 F x = .ok z ∧ IsWrap F (2 * n) z ∧
      |((val F n : ℚ) : ℝ) - Real.logb 10 (val F x : ℚ)| ≤ (1.8 + 0.31 * |Real.logb 10 (val F x : ℚ)|) * (ulp F : ℚ)) := by
  have lg := lg_of hF hs h32 (by omega)
  have r4 := sw_rep_four lg.sw h4
  obtain ⟨L, eL, n1, n2⟩ := (C100_sharp F hF hs h32 (by omega) x k hx h1 h2).1 hk
  have h0 : 0 < val F x := lt_of_lt_of_le (by positivity) h1
  rw [← val_zero F, val_lt] at h0
  have hS := log2_st lg hx h0 eL
  rw [rv_eq, rv_eq] at n1 n2
  rw [uR_eq] at n2
  simp only [rv_eq, uR_eq]
  have l2 := RealConst.log_two_gt
  have l3 := RealConst.log_two_lt
  have t2 := RealConst.log_ten_gt
  have t3 := RealConst.log_ten_lt
  have hu := uR_pos F
  have p2 : (0 : ℝ) < Real.log 2 := by linarith
  have p10 : (0 : ℝ) < Real.log 10 := by linarith
  constructor
  · have i1 := log2e_near
    have i2 : (1.4426 : ℝ) ≤ (Real.log 2)⁻¹ := by
      rw [abs_le] at i1; norm_num at i1; linarith
    obtain ⟨c, ec, sc, c2, c3⟩ := const_r hF hr h8 h32 r4 (L := 0x171547652B82FE00) (by norm_num) (by norm_num) i1
    obtain ⟨z, n, eq, hw, hq⟩ := log_div_r hF hr (by omega) hS n1 n2 (show 1 ≤ rv F c by linarith) (by linarith) c3
    refine ⟨z, n, by unfold log; rw [ec, Res.bind_ok, eL, Res.bind_ok, eq], hw, ?_⟩
    have e : Real.logb 2 (rv F x) / (Real.log 2)⁻¹ = Real.log (rv F x) := by unfold Real.logb; field_simp
    rw [e] at hq
    refine hq.trans (mul_le_mul_of_nonneg_right ?_ hu.le)
    have hc0 : (0 : ℝ) < rv F c := by linarith
    have ha := abs_nonneg (Real.log (rv F x))
    have : (4 + 1.001 * |Real.log (rv F x)|) / rv F c ≤ 3 + 0.7 * |Real.log (rv F x)| := by
      rw [div_le_iff₀ hc0]
      have := mul_le_mul_of_nonneg_left (show (1.4386 : ℝ) ≤ rv F c by linarith) (show 0 ≤ 3 + 0.7 * |Real.log (rv F x)| by positivity)
      linarith
    linarith
  · have i1 := log2ten_near
    have i2 : (3.3219 : ℝ) ≤ Real.log 10 / Real.log 2 := by
      rw [abs_le] at i1; norm_num at i1; linarith
    obtain ⟨c, ec, sc, c2, c3⟩ := const_r hF hr h8 h32 r4 (L := 0x35269E12F346E200) (by norm_num) (by norm_num) i1
    obtain ⟨z, n, eq, hw, hq⟩ := log_div_r hF hr (by omega) hS n1 n2 (show 1 ≤ rv F c by linarith) (by linarith) c3
    refine ⟨z, n, by unfold log10; rw [ec, Res.bind_ok, eL, Res.bind_ok, eq], hw, ?_⟩
    have e : Real.logb 2 (rv F x) / (Real.log 10 / Real.log 2) = Real.logb 10 (rv F x) := by unfold Real.logb; field_simp
    rw [e] at hq
    refine hq.trans (mul_le_mul_of_nonneg_right ?_ hu.le)
    have hc0 : (0 : ℝ) < rv F c := by linarith
    have ha := abs_nonneg (Real.logb 10 (rv F x))
    have : (4 + 1.001 * |Real.logb 10 (rv F x)|) / rv F c ≤ 1.3 + 0.31 * |Real.logb 10 (rv F x)| := by
      rw [div_le_iff₀ hc0]
      have := mul_le_mul_of_nonneg_left (show (3.3179 : ℝ) ≤ rv F c by linarith) (show 0 ≤ 1.3 + 0.31 * |Real.logb 10 (rv F x)| by positivity)
      linarith
    linarith

example : exR32.Valid ∧ SignedWide exR32 ∧ log exR32 (10 * 65536) = .ok 301804 ∧ Representable exR32 3 ∧
    log ⟨i32, i64, 28, true⟩ (2 ^ 20) = .ok 1317922822 := by
  refine ⟨by decide, by decide, by decide +kernel, ⟨3 * 65536, by decide, by norm_num [val, exR32]⟩, by decide +kernel⟩

/-- `pi` in a rounding layout. -/
theorem pi_r {F : FxTy} (sg : SG F) (hr : F.r = true) (hf : F.f ≤ 60) (h4 : F.f + 4 ≤ F.T.bits) :
    ∃ pi, cPi F = .ok pi ∧ Storable F pi ∧ |rv F pi - π| ≤ uR F ∧ 2.8 ≤ rv F pi ∧ rv F pi ≤ 3.5 := by
  have hp : (0 : Int) < 2 ^ F.f := by positivity
  have e8 : (8 : Int) * 2 ^ F.f ≤ 2 ^ (F.T.bits - 1) := by
    rw [show (8 : Int) * 2 ^ F.f = 2 ^ (F.f + 3) by rw [pow_add]; ring]
    exact pow_le_pow_right₀ (by norm_num) (by omega)
  have hlo := sg.lo_eq
  have hhi := sg.hi_eq
  have s4 : Storable F (4 * 2 ^ F.f) := by constructor <;> omega
  obtain ⟨pi, e, sp, -, n⟩ := C20_every_pi.1 F 4 sg.valid (by omega) (by have := Real.pi_lt_d2; push_cast; norm_num at *; linarith)
    ⟨4 * 2 ^ F.f, s4, by rw [val_int]⟩
  have n1 := n hr
  rw [rv_eq, uR_eq] at n1
  have hu : (1 : ℝ) / 2 ^ 60 ≤ uR F := by
    unfold uR
    apply div_le_div_of_nonneg_left (by norm_num) (by positivity)
    exact pow_le_pow_right₀ (by norm_num) hf
  have hu2 : uR F ≤ 1 / 2 := by
    unfold uR
    apply div_le_div_of_nonneg_left (by norm_num) (by norm_num)
    have : (2 : ℝ) ^ 1 ≤ 2 ^ F.f := pow_le_pow_right₀ (by norm_num) sg.valid.fpos
    norm_num at this ⊢; exact this
  have h61 : (1 : ℝ) / 2 ^ 61 ≤ 0.5 * uR F := by norm_num at hu ⊢; linarith
  have g1 := Real.pi_gt_d2
  have g2 := Real.pi_lt_d2
  have n2 := abs_le.1 n1
  have h62 : (1 : ℝ) / 2 ^ 61 ≤ 0.01 := by norm_num
  norm_num at g1 g2
  refine ⟨pi, e, sp, by linarith, by linarith [n2.1], by linarith [n2.2]⟩

/-- A bound on the raw number from a bound on the value. -/
theorem raw_abs {F : FxTy} {n : Int} {B : ℝ} (h : |rv F n| ≤ B * uR F) : |(n : ℝ)| ≤ B := by
  have hu := uR_pos F
  rw [rv_u, abs_mul, abs_of_pos hu] at h
  exact le_of_mul_le_mul_right h hu

/-- C186 (what happens instead): on every signed rounding layout with up to 60 fraction bits and nine integer bits `radians` returns *four times*
the angle, and `degrees` the reduction to the storage type of four times a number near the angle. -/
theorem C186_angle_partial (F : FxTy) (hF : F.Valid) (hs : F.T.signed = true) (hr : F.r = true) (hf : F.f ≤ 60) (h9 : F.f + 9 ≤ F.T.bits) (x : Int)
    (hx : Storable F x) :
    (∃ z, radians F x = .ok z ∧
      |((val F z : ℚ) : ℝ) - 4 * ((val F x : ℚ) * π / 180)| ≤ (8 + |((val F x : ℚ) : ℝ)| / 45) * (ulp F : ℚ)) ∧
    (∃ z n, degrees F x = .ok z ∧ IsWrap F (4 * n) z ∧
      |((val F n : ℚ) : ℝ) - (val F x : ℚ) * 180 / π| ≤ (90 + 22 * |((val F x : ℚ) : ℝ)|) * (ulp F : ℚ)) := by
  have sg := sw_of hF hs (by omega : F.f + 4 ≤ F.T.bits)
  obtain ⟨pi, epi, spi, p1, p2, p3⟩ := pi_r sg hr hf (by omega)
  have hu := uR_pos F
  have hp : (0 : Int) < 2 ^ F.f := by positivity
  have hlo := sg.lo_eq
  have hhi := sg.hi_eq
  have e8 : (256 : Int) * 2 ^ F.f ≤ 2 ^ (F.T.bits - 1) := by
    rw [show (256 : Int) * 2 ^ F.f = 2 ^ (F.f + 8) by rw [pow_add]; ring]
    exact pow_le_pow_right₀ (by norm_num) (by omega)
  have hf2 : (2 : Int) ≤ 2 ^ F.f := by
    calc (2 : Int) = 2 ^ 1 := by norm_num
      _ ≤ 2 ^ F.f := pow_le_pow_right₀ (by norm_num) hF.fpos
  generalize hH : (2 : Int) ^ (F.T.bits - 1) = H at *
  have hH512 : (512 : ℝ) ≤ H := by exact_mod_cast (by omega : (512 : Int) ≤ H)
  have s180 : Storable F (180 * 2 ^ F.f) := by constructor <;> omega
  have e180 : ofInt F 180 = 180 * 2 ^ F.f := by rw [ofInt_eq F hF, IntTy.wrap_of_inRange hF.tpos s180]
  -- a number below the limit is storable
  have st : ∀ n : Int, |(n : ℝ)| ≤ H - 1 → Storable F n := by
    intro n hn
    obtain ⟨a, b⟩ := abs_le.1 hn
    have a' : -(H - 1) ≤ n := by exact_mod_cast a
    have b' : n ≤ H - 1 := by exact_mod_cast b
    constructor <;> omega
  have exact : ∀ {n z : Int}, IsWrap F n z → |(n : ℝ)| ≤ H - 1 → z = n := fun hw hn =>
    isWrap_unique hF.tpos hw ⟨st _ hn, by simp⟩
  have xH : |(x : ℝ)| ≤ H := by
    have a := hx.1; have b := hx.2
    rw [abs_le]
    exact ⟨by exact_mod_cast (by omega : -H ≤ x), by exact_mod_cast (by omega : x ≤ H)⟩
  have xu : |rv F x| = |(x : ℝ)| * uR F := by rw [rv_u, abs_mul, abs_of_pos hu]
  simp only [rv_eq, uR_eq]
  have two : ∀ n : Int, rv F (2 * n) = 2 * rv F n := fun n => by unfold rv; push_cast; ring
  have pi3 := Real.pi_gt_three
  have pi4 := Real.pi_lt_d2
  constructor
  · obtain ⟨z1, n1, d1, d2, d3⟩ := (C05_div_partial F hF hr (by omega) x (180 * 2 ^ F.f) hx).2 (by positivity)
    have d2 := nearest_rv d2
    push_cast at d2
    rw [rv_eq, rv_eq, rv_int] at d2
    push_cast at d2
    have b1 : |rv F n1| ≤ (|(x : ℝ)| / 180 + 1 / 2) * uR F := by
      have := abs_add_le (rv F n1 - rv F x / 180) (rv F x / 180)
      rw [sub_add_cancel, abs_div, xu, abs_of_pos (by norm_num : (0 : ℝ) < 180)] at this
      linarith
    have b1' := raw_abs b1
    have z1e : z1 = 2 * n1 := exact d3 (by push_cast; rw [abs_mul, abs_of_pos (by norm_num : (0 : ℝ) < 2)]; linarith)
    have sz1 := d3.1
    obtain ⟨z, n2, m1, m2, m3⟩ := C05_mul_partial F hF hr z1 pi sz1 spi
    have m2 := nearest_rv m2
    push_cast at m2
    rw [rv_eq, rv_eq] at m2
    have b2 : |rv F n2| ≤ ((|(x : ℝ)| / 90 + 1) * 3.5 + 1 / 2) * uR F := by
      have := abs_add_le (rv F n2 - rv F z1 * rv F pi) (rv F z1 * rv F pi)
      rw [sub_add_cancel, abs_mul, abs_of_pos (by linarith : 0 < rv F pi)] at this
      have e1 : |rv F z1| ≤ (|(x : ℝ)| / 90 + 1) * uR F := by
        rw [z1e, two, abs_mul, abs_of_pos (by norm_num : (0 : ℝ) < 2)]; linarith
      have := mul_le_mul e1 p3 (by linarith) (by positivity)
      linarith
    have b2' := raw_abs b2
    have ze : z = 2 * n2 := exact m3 (by push_cast; rw [abs_mul, abs_of_pos (by norm_num : (0 : ℝ) < 2)]; linarith)
    refine ⟨z, ?_, ?_⟩
    · unfold radians; rw [epi, Res.bind_ok, e180, d1, Res.bind_ok, m1]
    · have k1 : |rv F z1 - rv F x / 90| ≤ uR F := by
        rw [z1e, two, show 2 * rv F n1 - rv F x / 90 = 2 * (rv F n1 - rv F x / 180) by ring, abs_mul, abs_of_pos (by norm_num : (0 : ℝ) < 2)]
        linarith
      have k2 : |rv F z1 * rv F pi - rv F x / 90 * π| ≤ 3.5 * uR F + |rv F x| / 90 * uR F := by
        rw [show rv F z1 * rv F pi - rv F x / 90 * π = (rv F z1 - rv F x / 90) * rv F pi + rv F x / 90 * (rv F pi - π) by ring]
        refine (abs_add_le _ _).trans (add_le_add ?_ ?_)
        · rw [abs_mul, abs_of_pos (by linarith : 0 < rv F pi)]
          have := mul_le_mul k1 p3 (by linarith) hu.le
          linarith
        · rw [abs_mul, abs_div, abs_of_pos (by norm_num : (0 : ℝ) < 90)]
          exact mul_le_mul_of_nonneg_left p1 (by positivity)
      rw [ze, two, show 2 * rv F n2 - 4 * (rv F x * π / 180) = 2 * ((rv F n2 - rv F z1 * rv F pi) + (rv F z1 * rv F pi - rv F x / 90 * π)) by ring,
        abs_mul, abs_of_pos (by norm_num : (0 : ℝ) < 2)]
      have := abs_add_le (rv F n2 - rv F z1 * rv F pi) (rv F z1 * rv F pi - rv F x / 90 * π)
      have e : (8 + |rv F x| / 45) * uR F = 2 * (uR F / 2 + (3.5 * uR F + |rv F x| / 90 * uR F)) := by ring
      rw [e]
      linarith
  · have hpi0 : pi ≠ 0 := by rintro rfl; unfold rv at p2; norm_num at p2
    obtain ⟨z1, n1, d1, d2, d3⟩ := (C05_div_partial F hF hr (by omega) x pi hx).2 hpi0
    have d2 := nearest_rv d2
    push_cast at d2
    rw [rv_eq, rv_eq] at d2
    have b1 : |rv F n1| ≤ (|(x : ℝ)| / 2.8 + 1 / 2) * uR F := by
      have := abs_add_le (rv F n1 - rv F x / rv F pi) (rv F x / rv F pi)
      rw [sub_add_cancel, abs_div, xu, abs_of_pos (by linarith : 0 < rv F pi)] at this
      have : |(x : ℝ)| * uR F / rv F pi ≤ |(x : ℝ)| * uR F / 2.8 := div_le_div_of_nonneg_left (by positivity) (by norm_num) p2
      have : (|(x : ℝ)| / 2.8 + 1 / 2) * uR F = |(x : ℝ)| * uR F / 2.8 + uR F / 2 := by ring
      linarith
    have b1' := raw_abs b1
    have z1e : z1 = 2 * n1 := exact d3 (by push_cast; rw [abs_mul, abs_of_pos (by norm_num : (0 : ℝ) < 2)]; norm_num at b1' ⊢; linarith)
    have sz1 := d3.1
    obtain ⟨z, n2, m1, m2, m3⟩ := C05_mul_partial F hF hr z1 (180 * 2 ^ F.f) sz1 s180
    have m2 := nearest_rv m2
    push_cast at m2
    rw [rv_eq, rv_eq, rv_int] at m2
    have n2e : n2 = 2 * (180 * n1) := by
      have e : rv F n2 - rv F z1 * (180 : Int) = rv F (n2 - 2 * (180 * n1)) := by rw [z1e]; unfold rv; push_cast; ring
      rw [e] at m2
      have := raw_abs (F := F) (n := n2 - 2 * (180 * n1)) (B := 1 / 2) (by linarith)
      obtain ⟨a, b⟩ := abs_le.1 this
      have a' : ((-1 : Int) : ℝ) < ((n2 - 2 * (180 * n1) : Int) : ℝ) := by push_cast at a ⊢; linarith
      have b' : ((n2 - 2 * (180 * n1) : Int) : ℝ) < ((1 : Int) : ℝ) := by push_cast at b ⊢; linarith
      have a'' : -1 < n2 - 2 * (180 * n1) := by exact_mod_cast a'
      have b'' : n2 - 2 * (180 * n1) < 1 := by exact_mod_cast b'
      omega
    refine ⟨z, 180 * n1, ?_, ?_, ?_⟩
    · unfold degrees; rw [epi, Res.bind_ok, d1, Res.bind_ok, e180, m1]
    · rw [n2e] at m3
      rwa [show 4 * (180 * n1) = 2 * (2 * (180 * n1)) by ring]
    · have e : rv F (180 * n1) = 180 * rv F n1 := by unfold rv; push_cast; ring
      have hpp : (0 : ℝ) < rv F pi := by linarith
      have k : |rv F x / rv F pi - rv F x / π| ≤ |rv F x| * uR F / 8.4 := by
        rw [show rv F x / rv F pi - rv F x / π = rv F x * (-(rv F pi - π)) / (rv F pi * π) by field_simp; ring, abs_div, abs_mul, abs_neg,
          abs_of_pos (by positivity : 0 < rv F pi * π)]
        have : (8.4 : ℝ) ≤ rv F pi * π := by nlinarith
        exact div_le_div₀ (by positivity) (mul_le_mul_of_nonneg_left p1 (abs_nonneg _)) (by norm_num) this
      rw [e, show 180 * rv F n1 - rv F x * 180 / π = 180 * ((rv F n1 - rv F x / rv F pi) + (rv F x / rv F pi - rv F x / π)) by ring,
        abs_mul, abs_of_pos (by norm_num : (0 : ℝ) < 180)]
      have := abs_add_le (rv F n1 - rv F x / rv F pi) (rv F x / rv F pi - rv F x / π)
      have h0 : 0 ≤ |rv F x| * uR F := by positivity
      have e2 : (90 + 22 * |rv F x|) * uR F = 180 * (uR F / 2) + 22 * (|rv F x| * uR F) := by ring
      rw [e2]
      norm_num at k
      linarith

example : exR32.Valid ∧ radians exR32 (90 * 65536) = .ok 411774 ∧ degrees exR32 65536 = .ok 15019920 ∧
    degrees exR32 (500 * 65536) = .ok (-1080047312) := by decide +kernel

end Eirin.Props
