import Verif.Props.ConstantsAll
import Verif.Props.SqrtAll
import Verif.Props.Tan
import Verif.Lemmas.Lay
import Mathlib.Tactic.IntervalCases

/-! # Property C116: `degrees` and `radians` on every signed layout -/

namespace Eirin.Props
open Spec

/-- `pi` in a layout with at least four integer bits (the sign included). -/
theorem pi_layout {F : FxTy} (sw : SG F) (hr : F.r = false) (hf : F.f ≤ 60) (hb : F.f + 4 ≤ F.T.bits) :
    ∃ pi, cPi F = .ok pi ∧ 3 * 2 ^ F.f ≤ pi ∧ pi < 4 * 2 ^ F.f ∧ Storable F pi ∧ |rv F pi - Real.pi| ≤ 1.5 * uR F := by
  have hp : (0 : Int) < 2 ^ F.f := by positivity
  have e8 : (8 : Int) * 2 ^ F.f ≤ 2 ^ (F.T.bits - 1) := by
    rw [show (8 : Int) * 2 ^ F.f = 2 ^ (F.f + 3) by rw [pow_add]; ring]
    exact pow_le_pow_right₀ (by norm_num) (by omega)
  have hlo := sw.lo_eq
  have hhi := sw.hi_eq
  have s4 : Storable F (4 * 2 ^ F.f) := by constructor <;> omega
  obtain ⟨pi, e, sp, n, -⟩ := C20_every_pi.1 F 4 sw.valid (by omega) (by have := Real.pi_lt_d2; push_cast; norm_num at *; linarith)
    ⟨4 * 2 ^ F.f, s4, by rw [val_int]⟩
  obtain ⟨n1, n2⟩ := n hr
  rw [rv_eq] at n1 n2; rw [uR_eq] at n2
  have hu : (1 : ℝ) / 2 ^ 60 ≤ uR F := by
    unfold uR
    apply div_le_div_of_nonneg_left (by norm_num) (by positivity)
    exact pow_le_pow_right₀ (by norm_num) hf
  have h61 : (1 : ℝ) / 2 ^ 61 ≤ 0.5 * uR F := by norm_num at hu ⊢; linarith
  have g1 := Real.pi_gt_d2
  have g2 := Real.pi_lt_d2
  refine ⟨pi, e, ?_, ?_, sp, ?_⟩
  · have : rv F (3 * 2 ^ F.f) < rv F (pi + 1) := by
      rw [rv_int, rv_add, show rv F 1 = uR F by rw [rv_u]; push_cast; ring]; push_cast; norm_num at *; linarith
    have := (rv_lt F).1 this
    omega
  · refine (rv_lt F).1 (?_ : rv F pi < rv F (4 * 2 ^ F.f))
    rw [rv_int]; push_cast; norm_num at *; linarith
  · rw [abs_le]; constructor <;> linarith

/-- The integer that `fixed(180)` denotes in a layout with `k` integer bits: 180 reduced to `k` bits. -/
def IsFactor (F : FxTy) (c : Int) : Prop :=
  (2 : Int) ^ (F.T.bits - F.f) ∣ 180 - c ∧ -(2 ^ (F.T.bits - F.f - 1)) ≤ c ∧ c < 2 ^ (F.T.bits - F.f - 1)

theorem factor_big {F : FxTy} {c : Int} (hb : F.f + 9 ≤ F.T.bits) (hc : IsFactor F c) : c = 180 := by
  obtain ⟨⟨m, hm⟩, h2, h3⟩ := hc
  generalize hk : F.T.bits - F.f = k at *
  obtain ⟨j, rfl⟩ : ∃ j, k = j + 1 := ⟨k - 1, by omega⟩
  have e : (2 : Int) ^ 8 ≤ 2 ^ j := pow_le_pow_right₀ (by norm_num) (by omega)
  rw [Nat.add_sub_cancel] at h2 h3
  rw [pow_succ] at hm
  have m0 : m = 0 := by
    by_contra h
    rcases lt_or_gt_of_ne h with h | h
    · have : (2 : Int) ^ j * 2 * m ≤ 2 ^ j * 2 * (-1) := mul_le_mul_of_nonneg_left (by omega) (by positivity)
      norm_num at e; linarith
    · have : (2 : Int) ^ j * 2 * 1 ≤ 2 ^ j * 2 * m := mul_le_mul_of_nonneg_left (by omega) (by positivity)
      norm_num at e; linarith
  subst m0; omega

/-- With 4, 5, 6, 7 or 8 integer bits the factor is 4, -12, -12, 52 or -76. -/
theorem factor_small {F : FxTy} {c : Int} (h4 : F.f + 4 ≤ F.T.bits) (hb : F.T.bits ≤ F.f + 8) (hc : IsFactor F c) :
    c = 4 ∨ c = -12 ∨ c = 52 ∨ c = -76 := by
  obtain ⟨h1, h2, h3⟩ := hc
  have hk1 : 4 ≤ F.T.bits - F.f := by omega
  have hk2 : F.T.bits - F.f ≤ 8 := by omega
  generalize F.T.bits - F.f = k at *
  interval_cases k <;> norm_num at h1 h2 h3 <;> omega

theorem factor_ge {F : FxTy} {c : Int} (h4 : F.f + 4 ≤ F.T.bits) (hc : IsFactor F c) : 4 ≤ |c| := by
  by_cases hb : F.f + 9 ≤ F.T.bits
  · rw [factor_big hb hc]; norm_num
  · rcases factor_small h4 (by omega) hc with rfl | rfl | rfl | rfl <;> norm_num

theorem factor_range {F : FxTy} (sw : SG F) {c : Int} (h4 : F.f + 4 ≤ F.T.bits) (hc : IsFactor F c) : Storable F (c * 2 ^ F.f) := by
  obtain ⟨-, h2, h3⟩ := hc
  have hlo := sw.lo_eq
  have hhi := sw.hi_eq
  have hp : (0 : Int) < 2 ^ F.f := by positivity
  have e : (2 : Int) ^ (F.T.bits - F.f - 1) * 2 ^ F.f = 2 ^ (F.T.bits - 1) := by rw [← pow_add]; congr 1; omega
  constructor
  · have := mul_le_mul_of_nonneg_right h2 hp.le
    rw [neg_mul, e] at this; omega
  · have := mul_lt_mul_of_pos_right h3 hp
    rw [e] at this; omega

theorem factor_eq {F : FxTy} (sw : SG F) {c : Int} (h4 : F.f + 4 ≤ F.T.bits) (hc : IsFactor F c) : ofInt F 180 = c * 2 ^ F.f := by
  have hw := factor_range sw h4 hc
  rw [ofInt_eq F sw.valid]
  conv_rhs => rw [← sw.wrap_ok hw]
  apply IntTy.wrap_congr
  obtain ⟨⟨m, hm⟩, -⟩ := hc
  refine ⟨m, ?_⟩
  have e : (2 : Int) ^ F.T.bits = 2 ^ (F.T.bits - F.f) * 2 ^ F.f := by rw [← pow_add]; congr 1; omega
  rw [e, ← sub_mul, hm]; ring

theorem factor_exists {F : FxTy} (h4 : F.f + 4 ≤ F.T.bits) : ∃ c, IsFactor F c := by
  by_cases hb : F.f + 9 ≤ F.T.bits
  · refine ⟨180, ⟨0, by ring⟩, ?_, ?_⟩
    · have : (0 : Int) < 2 ^ (F.T.bits - F.f - 1) := by positivity
      omega
    · have : (2 : Int) ^ 8 ≤ 2 ^ (F.T.bits - F.f - 1) := pow_le_pow_right₀ (by norm_num) (by omega)
      norm_num at this; omega
  · unfold IsFactor
    have hk1 : 4 ≤ F.T.bits - F.f := by omega
    have hk2 : F.T.bits - F.f ≤ 8 := by omega
    generalize F.T.bits - F.f = k at *
    interval_cases k
    · exact ⟨4, by decide⟩
    · exact ⟨-12, by decide⟩
    · exact ⟨-12, by decide⟩
    · exact ⟨52, by decide⟩
    · exact ⟨-76, by decide⟩

theorem tdiv_abs_le (x : Int) {c : Int} (h0 : c ≠ 0) : |Int.tdiv x c| * |c| ≤ |x| ∧ |Int.tdiv x c * c - x| ≤ |c| := by
  have h1 := Int.tmod_add_tdiv_mul x c
  constructor
  · rw [Int.abs_eq_natAbs, Int.abs_eq_natAbs, Int.abs_eq_natAbs, Int.natAbs_tdiv]
    exact_mod_cast Nat.div_mul_le_self _ _
  · rw [show Int.tdiv x c * c - x = -Int.tmod x c by linarith, abs_neg, Int.abs_eq_natAbs, Int.abs_eq_natAbs, Int.natAbs_tmod]
    exact_mod_cast (Nat.mod_lt _ (Int.natAbs_pos.2 h0)).le

/-- Reals: the product of the two truncated numbers. -/
theorem rad_real {q p X c u π' : ℝ} (hu : 0 < u) (h1 : |q * c - X| ≤ |c| * u) (hc : 0 < |c|) (hp0 : 0 ≤ p) (hp : p ≤ 4) (hpi : |p - π'| ≤ 1.5 * u) :
    |q * p - X * π' / c| ≤ (4 + 1.5 * (|X| / |c|)) * u := by
  have hc0 : c ≠ 0 := abs_pos.1 hc
  have e : q * p - X * π' / c = (q * c - X) / c * p + X / c * (p - π') := by field_simp; ring
  have a1 : |(q * c - X) / c * p| ≤ u * 4 := by
    rw [abs_mul, abs_div, abs_of_nonneg hp0]
    apply mul_le_mul _ hp hp0 hu.le
    rw [div_le_iff₀ hc]; linarith
  have a2 : |X / c * (p - π')| ≤ |X| / |c| * (1.5 * u) := by
    rw [abs_mul, abs_div]
    exact mul_le_mul_of_nonneg_left hpi (by positivity)
  rw [e]
  have := abs_add_le ((q * c - X) / c * p) (X / c * (p - π'))
  linarith

/-- Reals: the quotient by the truncated constant. -/
theorem deg_real {q p X c u π' : ℝ} (h1 : |q * p - X| ≤ p * u) (hp : 3 ≤ p) (hπ : 3.14 ≤ π') (hpi : |p - π'| ≤ 1.5 * u) :
    |q * c - X * c / π'| ≤ |c| * (1 + 0.16 * |X|) * u := by
  have hp0 : p ≠ 0 := by linarith
  have hπ0 : π' ≠ 0 := by linarith
  have e : q * c - X * c / π' = c * ((q * p - X) / p + X * (π' - p) / (p * π')) := by field_simp; ring
  rw [e, abs_mul, mul_assoc]
  apply mul_le_mul_of_nonneg_left _ (abs_nonneg c)
  have a1 : |(q * p - X) / p| ≤ u := by
    rw [abs_div, abs_of_pos (by linarith : (0 : ℝ) < p), div_le_iff₀ (by linarith)]; linarith
  have hm : 9.42 ≤ p * π' := by nlinarith
  have a2 : |X * (π' - p) / (p * π')| ≤ 0.16 * |X| * u := by
    rw [abs_div, abs_of_pos (by linarith : (0 : ℝ) < p * π'), div_le_iff₀ (by linarith), abs_mul, abs_sub_comm]
    have hu : 0 ≤ u := by have := abs_nonneg (p - π'); linarith
    calc |X| * |p - π'| ≤ |X| * (1.5 * u) := mul_le_mul_of_nonneg_left hpi (abs_nonneg X)
      _ ≤ 0.16 * |X| * u * 9.42 := by have : 0 ≤ |X| * u := by positivity
                                      linarith
      _ ≤ _ := mul_le_mul_of_nonneg_left hm (by positivity)
  have := abs_add_le ((q * p - X) / p) (X * (π' - p) / (p * π'))
  linarith

/-- What `radians` and `degrees` compute on a layout whose `fixed(180)` is the integer `c`. -/
theorem deg_gen {F : FxTy} (sw : SG F) (hr : F.r = false) (hf : F.f ≤ 60) (h4 : F.f + 4 ≤ F.T.bits) {c : Int} (hc : IsFactor F c) {x : Int}
    (hx : Storable F x) :
    (∃ z, radians F x = .ok z ∧ |rv F z - rv F x * Real.pi / c| ≤ (5 + 1.5 * (|rv F x| / |(c : ℝ)|)) * uR F) ∧
    ∃ n z, degrees F x = .ok z ∧ IsWrap F n z ∧ (Storable F n → z = n) ∧
      |rv F n - rv F x * c / Real.pi| ≤ |(c : ℝ)| * (1 + 0.16 * |rv F x|) * uR F := by
  obtain ⟨pi, epi, p3, p4, sp, pn⟩ := pi_layout sw hr hf h4
  have hp : (0 : Int) < 2 ^ F.f := by positivity
  have hu := uR_pos F
  have c4 := factor_ge h4 hc
  have hc0 : c ≠ 0 := by rintro rfl; norm_num at c4
  have ec := factor_eq sw h4 hc
  have sc := factor_range sw h4 hc
  have hlh := sw.lo_hi
  have p0 : 0 < pi := by omega
  have hxl := hx.1
  have hxh := hx.2
  have rp3 : 3 ≤ rv F pi := by have := (rv_le F).2 p3; rw [rv_int] at this; exact_mod_cast this
  have rp4 : rv F pi ≤ 4 := by have := (rv_le F).2 p4.le; rw [rv_int] at this; exact_mod_cast this
  constructor
  · obtain ⟨t1, t2⟩ := tdiv_abs_le x hc0
    have ediv : Int.tdiv (x * 2 ^ F.f) (c * 2 ^ F.f) = Int.tdiv x c := Int.mul_tdiv_mul_of_pos_left _ _ hp
    have hq4 : 4 * |Int.tdiv x c| ≤ |x| := by
      have := mul_le_mul_of_nonneg_left c4 (abs_nonneg (Int.tdiv x c)); linarith
    have hx' : |x| ≤ F.T.hi + 1 := by rw [abs_le]; constructor <;> omega
    have t2' : |rv F (Int.tdiv x c) * c - rv F x| ≤ |(c : ℝ)| * uR F := by
      rw [rv_u, rv_u, show (Int.tdiv x c : ℝ) * uR F * c - x * uR F = ((Int.tdiv x c : ℝ) * c - x) * uR F by ring, abs_mul, abs_of_pos hu]
      apply mul_le_mul_of_nonneg_right _ hu.le
      exact_mod_cast t2
    have hd0 : div F x (c * 2 ^ F.f) = .ok (F.T.wrap (Int.tdiv x c)) := by
      rw [div_nf sw.valid hr hx, if_neg (mul_ne_zero hc0 hp.ne'), ediv]
    generalize Int.tdiv x c = q at *
    have hqa := abs_le.1 (le_refl |q|)
    have hd1 := sw.d_le
    have hqS : F.T.InRange q := by constructor <;> omega
    rw [sw.wrap_ok hqS] at hd0
    have hqp : |q * pi| < (F.T.hi + 1) * 2 ^ F.f := by
      rw [abs_mul, abs_of_pos p0]
      rcases eq_or_ne q 0 with rfl | hq0
      · rw [abs_zero, zero_mul]; exact mul_pos (by omega) hp
      calc |q| * pi < |q| * (4 * 2 ^ F.f) := mul_lt_mul_of_pos_left p4 (abs_pos.2 hq0)
        _ = (4 * |q|) * 2 ^ F.f := by ring
        _ ≤ (F.T.hi + 1) * 2 ^ F.f := mul_le_mul_of_nonneg_right (by omega) hp.le
    have hqp' := abs_lt.1 hqp
    have hz : F.T.InRange (q * pi / 2 ^ F.f) := by
      constructor
      · rw [Int.le_ediv_iff_mul_le hp]
        have : F.T.lo * 2 ^ F.f = -((F.T.hi + 1) * 2 ^ F.f) := by rw [hlh]; ring
        linarith [hqp'.1]
      · refine Int.lt_add_one_iff.1 ((Int.ediv_lt_iff_lt_mul hp).2 ?_)
        exact hqp'.2
    refine ⟨q * pi / 2 ^ F.f, ?_, ?_⟩
    · unfold radians
      rw [epi, Res.bind_ok, ec, hd0, Res.bind_ok, sw.mul_ok hr hqS sp hz]
    · have fl1 : ((q * pi / 2 ^ F.f : Int) : ℝ) * 2 ^ F.f ≤ q * pi := by exact_mod_cast Int.ediv_mul_le (q * pi) hp.ne'
      have fl2 : (q : ℝ) * pi < (((q * pi / 2 ^ F.f : Int) : ℝ) + 1) * 2 ^ F.f := by exact_mod_cast Int.lt_ediv_add_one_mul_self (q * pi) hp
      generalize q * pi / 2 ^ F.f = z at *
      have hm := u_mul F
      have fl : |rv F z - rv F q * rv F pi| ≤ uR F := by
        rw [rv_u, rv_u, rv_u]
        have uu : 0 < uR F * uR F := by positivity
        have f1 := mul_le_mul_of_nonneg_right fl1 uu.le
        have f2 := mul_le_mul_of_nonneg_right fl2.le uu.le
        rw [show (z : ℝ) * 2 ^ F.f * (uR F * uR F) = z * uR F * (2 ^ F.f * uR F) by ring, hm, mul_one] at f1
        rw [show ((z : ℝ) + 1) * 2 ^ F.f * (uR F * uR F) = (z + 1) * uR F * (2 ^ F.f * uR F) by ring, hm, mul_one] at f2
        rw [abs_le]; constructor <;> linarith
      have rr := rad_real (π' := Real.pi) hu t2' (by have : (0 : ℝ) < |(c : ℝ)| := abs_pos.2 (by exact_mod_cast hc0)
                                                     exact this) (by linarith : 0 ≤ rv F pi) rp4 pn
      have := abs_sub_le (rv F z) (rv F q * rv F pi) (rv F x * Real.pi / c)
      linarith
  · obtain ⟨t1, t2⟩ := tdiv_abs_le (x * 2 ^ F.f) p0.ne'
    rw [abs_of_pos p0] at t1 t2
    have hd0 : div F x pi = .ok (F.T.wrap (Int.tdiv (x * 2 ^ F.f) pi)) := by
      rw [div_nf sw.valid hr hx, if_neg p0.ne']
    generalize Int.tdiv (x * 2 ^ F.f) pi = q at *
    have hq3 : 3 * |q| ≤ |x| := by
      rw [abs_mul, abs_of_pos hp] at t1
      have := mul_le_mul_of_nonneg_left p3 (abs_nonneg q)
      by_contra hcon
      have : |x| * 2 ^ F.f < 3 * |q| * 2 ^ F.f := mul_lt_mul_of_pos_right (by omega) hp
      linarith
    have hqa := abs_le.1 (le_refl |q|)
    have hx' : |x| ≤ F.T.hi + 1 := by rw [abs_le]; constructor <;> omega
    have hd1 := sw.d_le
    have hqS : F.T.InRange q := by constructor <;> omega
    rw [sw.wrap_ok hqS] at hd0
    have em : q * (c * 2 ^ F.f) / 2 ^ F.f = q * c := by rw [← mul_assoc]; exact Int.mul_ediv_cancel _ hp.ne'
    refine ⟨q * c, F.T.wrap (q * c), ?_, isWrap_wrap sw.valid _, fun h => sw.wrap_ok h, ?_⟩
    · unfold degrees
      rw [epi, Res.bind_ok, hd0, Res.bind_ok, ec, mul_nf sw.valid hr hqS sc, em]
    · have t2' : |rv F q * rv F pi - rv F x| ≤ rv F pi * uR F := by
        have hm := u_mul F
        have t : |(q : ℝ) * pi - x * 2 ^ F.f| ≤ pi := by exact_mod_cast t2
        have e : rv F q * rv F pi - rv F x = ((q : ℝ) * pi - x * 2 ^ F.f) * (uR F * uR F) := by
          rw [rv_u, rv_u, rv_u]
          linear_combination (x : ℝ) * uR F * hm
        rw [e, abs_mul, abs_of_pos (by positivity : 0 < uR F * uR F), rv_u F pi]
        have := mul_le_mul_of_nonneg_right t (by positivity : 0 ≤ uR F * uR F)
        linarith
      rw [show rv F (q * c) = rv F q * c by unfold rv; push_cast; ring]
      exact deg_real t2' rp3 (by have := Real.pi_gt_d2; norm_num at *; linarith) pn

/-- C116 as one would like it: on every signed layout with room for `pi`, `radians` is right up to a few ulps and `degrees` is the right
number up to the amplified rounding error, reduced to the range of the type. -/
def C116_statement : Prop := ∀ F : FxTy, F.Valid → F.T.signed = true → F.r = false → F.f ≤ 60 → F.f + 4 ≤ F.T.bits → ∀ x, Storable F x →
  (∃ z, radians F x = .ok z ∧ |rv F z - rv F x * Real.pi / 180| ≤ (5 + |rv F x| / 120) * uR F) ∧
  ∃ n z, degrees F x = .ok z ∧ IsWrap F n z ∧ (Storable F n → z = n) ∧ |rv F n - rv F x * 180 / Real.pi| ≤ (180 + 29 * |rv F x|) * uR F

theorem sw_of {F : FxTy} (hF : F.Valid) (hs : F.T.signed = true) (h4 : F.f + 4 ≤ F.T.bits) : SG F := by
  refine ⟨hF, hs, ?_⟩
  have hsg := hs
  have : (2 : Int) ^ F.f * 2 ≤ 2 ^ (F.T.bits - 1) := by
    rw [← pow_succ]; exact pow_le_pow_right₀ (by norm_num) (by omega)
  have hp : (0 : Int) < 2 ^ F.f := by positivity
  unfold Storable IntTy.InRange IntTy.lo IntTy.hi
  simp only [hsg, if_true]
  constructor <;> omega

/-- C116, what holds: the statement on every layout with at least nine integer bits (the sign included), which can represent 180.
Missing: layouts with four to eight integer bits, where `C116_wrong` shows it to be false. -/
theorem C116_accuracy_partial (F : FxTy) (hF : F.Valid) (hs : F.T.signed = true) (hr : F.r = false) (hf : F.f ≤ 60) (h9 : F.f + 9 ≤ F.T.bits) (x : Int)
    (hx : Storable F x) :
    (∃ z, radians F x = .ok z ∧ |rv F z - rv F x * Real.pi / 180| ≤ (5 + |rv F x| / 120) * uR F) ∧
    ∃ n z, degrees F x = .ok z ∧ IsWrap F n z ∧ (Storable F n → z = n) ∧
      |rv F n - rv F x * 180 / Real.pi| ≤ (180 + 29 * |rv F x|) * uR F := by
  have h4 : F.f + 4 ≤ F.T.bits := by omega
  obtain ⟨c, hc⟩ := factor_exists h4
  have e := factor_big h9 hc
  subst e
  have hu := uR_pos F
  obtain ⟨⟨z, a, b⟩, n, y, d1, d2, d3, d4⟩ := deg_gen (sw_of hF hs h4) hr hf h4 hc hx
  refine ⟨⟨z, a, ?_⟩, n, y, d1, d2, d3, ?_⟩
  · push_cast at b
    norm_num at b ⊢
    linarith
  · push_cast at d4
    have : 0 ≤ |rv F x| * uR F := by positivity
    norm_num at d4 ⊢
    linarith

example : (⟨i32, i64, 16, false⟩ : FxTy).f + 9 ≤ (⟨i32, i64, 16, false⟩ : FxTy).T.bits ∧ radians fixed32 (90 * 65536) = .ok 102943 ∧
    degrees fixed32 102943 = .ok 5898060 ∧ degrees fixed32 (600 * 65536) = .ok (-2042001076) ∧ radians ⟨i16, i32, 6, false⟩ (90 * 64) = .ok 100 ∧ degrees ⟨i16, i32, 6, false⟩ 100 = .ok 5580 ∧
    radians ⟨i8, i16, 4, false⟩ 64 = .ok 50 ∧ radians (L64 40) (90 * 2 ^ 40) = .ok 1727108826178 := by
  decide +kernel

/-- C116: on every layout with at least four integer bits, both functions use, instead of 180, the integer `c` to which 180 wraps. -/
theorem C116_factor (F : FxTy) (hF : F.Valid) (hs : F.T.signed = true) (hr : F.r = false) (hf : F.f ≤ 60) (h4 : F.f + 4 ≤ F.T.bits) (c : Int)
    (hc : (2 : Int) ^ (F.T.bits - F.f) ∣ 180 - c ∧ -(2 ^ (F.T.bits - F.f - 1)) ≤ c ∧ c < 2 ^ (F.T.bits - F.f - 1)) (x : Int) (hx : Storable F x) :
    c ≠ 0 ∧ (∃ z, radians F x = .ok z ∧ |rv F z - rv F x * Real.pi / c| ≤ (5 + 1.5 * (|rv F x| / |(c : ℝ)|)) * uR F) ∧
    ∃ n z, degrees F x = .ok z ∧ IsWrap F n z ∧ (Storable F n → z = n) ∧
      |rv F n - rv F x * c / Real.pi| ≤ |(c : ℝ)| * (1 + 0.16 * |rv F x|) * uR F :=
  ⟨by rintro rfl; have := factor_ge h4 hc; norm_num at this, deg_gen (sw_of hF hs h4) hr hf h4 hc hx⟩

example : ((2 : Int) ^ (32 - 24) ∣ 180 - (-76) ∧ -(2 ^ (32 - 24 - 1)) ≤ (-76 : Int) ∧ (-76 : Int) < 2 ^ (32 - 24 - 1)) ∧
    radians ⟨i32, i64, 24, false⟩ (90 * 2 ^ 24) = .ok (-62416393) := by decide +kernel

/-- C116: with four to eight integer bits `radians` is wrong, by more than a fiftieth of its argument, from 1 on. -/
theorem C116_wrong (F : FxTy) (hF : F.Valid) (hs : F.T.signed = true) (hr : F.r = false) (h8 : 8 ≤ F.f) (hf : F.f ≤ 60) (h4 : F.f + 4 ≤ F.T.bits)
    (hb : F.T.bits ≤ F.f + 8) (x : Int) (hx : Storable F x) (h1 : 1 ≤ |rv F x|) :
    ∃ z, radians F x = .ok z ∧ |rv F x| / 50 < |rv F z - rv F x * Real.pi / 180| := by
  obtain ⟨c, hc⟩ := factor_exists h4
  have hu := uR_pos F
  have hu2 : uR F ≤ 1 / 256 := by
    unfold uR
    apply div_le_div_of_nonneg_left (by norm_num) (by positivity)
    have : (2 : ℝ) ^ 8 ≤ 2 ^ F.f := pow_le_pow_right₀ (by norm_num) h8
    norm_num at this ⊢; exact this
  obtain ⟨⟨z, a, b⟩, -⟩ := deg_gen (sw_of hF hs h4) hr hf h4 hc hx
  refine ⟨z, a, ?_⟩
  have g := Real.pi_gt_d2
  have key : ∀ d w : ℝ, |rv F z - rv F x * Real.pi / d| ≤ (5 + 1.5 * (|rv F x| / w)) * uR F → 4 ≤ w → 0.042 ≤ |Real.pi / d - Real.pi / 180| →
      |rv F x| / 50 < |rv F z - rv F x * Real.pi / 180| := by
    intro d w h hw hd
    have e : rv F x * Real.pi / d - rv F x * Real.pi / 180 = rv F x * (Real.pi / d - Real.pi / 180) := by ring
    have t := abs_sub_le (rv F x * Real.pi / d) (rv F z) (rv F x * Real.pi / 180)
    rw [e, abs_mul, abs_sub_comm (rv F x * Real.pi / d)] at t
    have t2 := mul_le_mul_of_nonneg_left hd (abs_nonneg (rv F x))
    have t3 : |rv F x| / w ≤ |rv F x| / 4 := div_le_div_of_nonneg_left (abs_nonneg _) (by norm_num) hw
    have t4 : (5 + 1.5 * (|rv F x| / w)) * uR F ≤ (5 + 1.5 * (|rv F x| / 4)) * (1 / 256) := by
      apply mul_le_mul _ hu2 hu.le (by positivity)
      linarith
    norm_num at t2 t4 ⊢
    linarith
  have p1 : 0.042 ≤ |Real.pi / 4 - Real.pi / 180| := by rw [le_abs]; left; norm_num at *; linarith
  have p2 : 0.042 ≤ |Real.pi / (-12) - Real.pi / 180| := by rw [le_abs]; right; norm_num at *; linarith
  have p3 : 0.042 ≤ |Real.pi / 52 - Real.pi / 180| := by rw [le_abs]; left; norm_num at *; linarith
  have p4 : 0.042 ≤ |Real.pi / (-76) - Real.pi / 180| := by rw [le_abs]; right; norm_num at *; linarith
  rcases factor_small h4 hb hc with rfl | rfl | rfl | rfl
  · exact key 4 4 (by norm_num at b ⊢; exact b) (by norm_num) p1
  · exact key (-12) 12 (by norm_num at b ⊢; exact b) (by norm_num) p2
  · exact key 52 52 (by norm_num at b ⊢; exact b) (by norm_num) p3
  · exact key (-76) 76 (by norm_num at b ⊢; exact b) (by norm_num) p4

example : (8 : Nat) ≤ 24 ∧ 24 + 4 ≤ 32 ∧ 32 ≤ 24 + 8 ∧ Storable ⟨i32, i64, 24, false⟩ (90 * 2 ^ 24) := by decide +kernel

theorem C116_false : ¬ C116_statement := by
  intro h
  have hS : Storable ⟨i32, i64, 24, false⟩ (90 * 2 ^ 24) := by decide +kernel
  have e : rv ⟨i32, i64, 24, false⟩ (90 * 2 ^ 24) = 90 := by unfold rv; norm_num
  have eu : uR ⟨i32, i64, 24, false⟩ = 1 / 2 ^ 24 := by unfold uR; norm_num
  obtain ⟨⟨z, a, b⟩, -⟩ := h ⟨i32, i64, 24, false⟩ (by decide) (by decide) rfl (by decide) (by decide) (90 * 2 ^ 24) hS
  obtain ⟨y, c, d⟩ := C116_wrong ⟨i32, i64, 24, false⟩ (by decide) (by decide) rfl (by decide) (by decide) (by decide) (by decide) (90 * 2 ^ 24) hS
    (by rw [e]; norm_num)
  rw [a] at c; cases c
  rw [e, eu] at b; rw [e] at d
  norm_num at b d
  linarith

end Eirin.Props
