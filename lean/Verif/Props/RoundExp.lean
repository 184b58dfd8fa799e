import Verif.Props.RoundAtan
import Verif.Props.ExpAll
import Verif.Props.RoundLog

/-! # Property C204: the exponential function of rounding types -/

namespace Eirin.Props
open Spec

/-- C204 as one would expect it from C37 and C110, whose formula already allows for the wrong linear coefficient: on `(0, 1/2]` the exponential
function of a rounding type is within a small error of `e^x - x/2`. -/
def C204_statement : Prop :=
  ∀ F : FxTy, F.Valid → F.T.signed = true → F.r = true → 8 ≤ F.f → F.f ≤ 60 → F.f + 4 ≤ F.T.bits → ∀ x, 0 < x → val F x ≤ 1 / 2 →
    ∃ r, exp F x = .ok r ∧ Storable F r ∧ |((val F r : ℚ) : ℝ) - (Real.exp (val F x : ℚ) - (val F x : ℚ) / 2)| ≤ 1 / 10000 + 23 * (ulp F : ℚ)

theorem layR8 {F : FxTy} (hF : F.Valid) (hs : F.T.signed = true) (hr : F.r = true) (h8 : 8 ≤ F.f) (h4 : F.f + 4 ≤ F.T.bits) : LayR F 7.9 := by
  have hpw : (2 : Int) ^ (F.f + 3) ≤ 2 ^ (F.T.bits - 1) := pow_le_pow_right₀ (by norm_num) (by omega)
  rw [pow_add] at hpw
  have hp : (0 : Int) < 2 ^ F.f := by positivity
  have hhi : F.T.hi = 2 ^ (F.T.bits - 1) - 1 := by unfold IntTy.hi; rw [if_pos hs]
  have hlo : F.T.lo = -2 ^ (F.T.bits - 1) := by unfold IntTy.lo; rw [if_pos hs]
  have h : SG F := ⟨hF, hs, by constructor <;> omega⟩
  have hu : uR F ≤ 1 / 256 := by
    unfold uR
    apply div_le_div_of_nonneg_left (by norm_num) (by norm_num)
    have : (2 : ℝ) ^ 8 ≤ 2 ^ F.f := pow_le_pow_right₀ (by norm_num) h8
    norm_num at this ⊢; exact this
  refine ⟨h, hr, hu, ?_, ?_⟩
  · intro z hz
    unfold rv at hz
    rw [abs_div, abs_of_pos (by positivity : (0 : ℝ) < 2 ^ F.f), div_le_iff₀ (by positivity)] at hz
    have h2 : |(z : ℝ)| < 8 * 2 ^ F.f := lt_of_le_of_lt hz (mul_lt_mul_of_pos_right (by norm_num) (by positivity))
    have hz' : |z| < 8 * 2 ^ F.f := by exact_mod_cast h2
    rw [abs_lt] at hz'
    constructor <;> omega
  · have h1 : rv F (8 * 2 ^ F.f - 1) ≤ rv F F.T.hi := by rw [rv_le, hhi]; omega
    rw [rv_sub, rv_int, show rv F 1 = uR F by rw [rv_u]; norm_num] at h1
    push_cast at h1
    norm_num at *
    linarith

/-- A coefficient of `exp_expand` in a rounding type. -/
theorem coeff63_r {F : FxTy} (h : LayR F 7.9) (hf : F.f < 63) {L : Int} (hL0 : 0 < L) (hL : L < 2 ^ 63) :
    ∃ z, fromFixedNumValue F i64 63 L = .ok z ∧ Ap F z (L / 2 ^ 63) 1 := by
  have hLr : (L : ℝ) / 2 ^ 63 ≤ 1 := by
    have : (L : ℝ) ≤ 2 ^ 63 := by exact_mod_cast hL.le
    rw [div_le_iff₀ (by positivity)]; linarith
  have h2 : Representable F 2 := by
    refine ⟨2 * 2 ^ F.f, h.st (by rw [rv_int]; norm_num), ?_⟩
    rw [val_int]; norm_num
  have hn := near_of (c := fun F => fromFixedNumValue F i64 63 L) (k := 63) (L := L) (ρ := (L : ℝ) / 2 ^ 63) (δ := 0) (fun _ => rfl)
    (by norm_num) (by norm_num) hL0 hL (by norm_num) (by simp) (by simp)
  obtain ⟨z, ez, sz, -, nz⟩ := hn F 2 h.sw.valid hf (by push_cast; linarith) (by exact_mod_cast h2)
  have n1 := nz h.r
  rw [rv_eq, uR_eq, abs_le] at n1
  exact ⟨z, ez, sz, by rw [abs_le]; constructor <;> linarith [uR_pos F, n1.1, n1.2]⟩

/-- What `exp_expand` computes on `[0, 1/2]` in a rounding type: twice the polynomial at twice the argument. -/
theorem expExpand_r {F : FxTy} (h : LayR F 7.9) (h60 : F.f ≤ 60) {x : Int} (h0 : 0 ≤ x) (h1 : rv F x ≤ 1 / 2) :
    ∃ r, expExpand F x = .ok r ∧ Ap F r (2 * expP (2 * rv F x)) 23 := by
  have hX0 : 0 ≤ rv F x := by have := (rv_le F (a := 0) (b := x)).2 h0; simpa [rv] using this
  have hxs : Storable F x := h.st (by rw [abs_le]; norm_num; constructor <;> linarith)
  have hlt : x < 2 ^ F.f := by
    have : rv F x < rv F (1 * 2 ^ F.f) := by rw [rv_int]; push_cast; linarith
    rw [rv_lt, one_mul] at this; exact this
  have hq : x / 2 ^ F.f = 0 := Int.ediv_eq_zero_of_lt h0 hlt
  obtain ⟨e1, hqm, -, -⟩ := intPart_nonneg' h.sw h.sw.valid.flt hxs h0
  have e2 : subIntAssign F x (x / 2 ^ F.f) = .ok (x - x / 2 ^ F.f * 2 ^ F.f) :=
    h.sw.subInt_ok hqm (by rw [hq, zero_mul, sub_zero]; exact hxs)
  rw [hq] at e1 e2
  rw [zero_mul, sub_zero] at e2
  have e3 : Representable F 3 := ⟨3 * 2 ^ F.f, h.st (by rw [rv_int]; norm_num), by rw [val_int]; norm_num⟩
  obtain ⟨ev, eev, -, -, -⟩ := C20_every_e F 3 h.sw.valid (by omega) (by have := Real.exp_one_lt_d9; push_cast; norm_num at *; linarith) (by exact_mod_cast e3)
  have o1 : ofInt F 1 = 2 ^ F.f := by rw [ofInt_eq F h.sw.valid, one_mul]; exact h.sw.wrap_ok h.sw.one
  have ep : powInt F ev 0 = .ok (2 ^ F.f) := by
    unfold powInt
    rw [if_pos rfl, if_neg (lt_irrefl _), o1]
    split
    · rfl
    · rfl
  obtain ⟨ca, ea, aa⟩ := coeff63_r h (by omega) (L := 0x01C798ECC0CBC856) (by norm_num) (by norm_num)
  obtain ⟨cb, eb, ab⟩ := coeff63_r h (by omega) (L := 0x04745859810836DA) (by norm_num) (by norm_num)
  obtain ⟨cc, ec, ac⟩ := coeff63_r h (by omega) (L := 0x15CFBB5C306F85F3) (by norm_num) (by norm_num)
  obtain ⟨cd, ed, ad⟩ := coeff63_r h (by omega) (L := 0x3FE26186C531F98E) (by norm_num) (by norm_num)
  obtain ⟨ce, ee, ae⟩ := coeff63_r h (by omega) (L := 0x40014D4407008BB0) (by norm_num) (by norm_num)
  obtain ⟨cf, ef, af⟩ := coeff63_r h (by omega) (L := 0x7FFFF686446F1B43) (by norm_num) (by norm_num)
  push_cast at aa ab ac ad ae af
  have hX := Ap.exact (F := F) hxs
  have hone : Ap F (2 ^ F.f) 1 0 := by
    have := Ap.exact (F := F) h.sw.one
    rwa [show rv F (2 ^ F.f) = 1 by have := rv_int F 1; rw [one_mul] at this; simpa using this] at this
  generalize rv F x = X at *
  have hXa : |X| ≤ 1 / 2 := by rw [abs_le]; constructor <;> linarith
  have pos : ∀ v m c m' : ℝ, 0 ≤ v → v ≤ m → 0 ≤ c → c + m ≤ m' → (0 ≤ c + 2 * (X * v) ∧ c + 2 * (X * v) ≤ m' ∧ |c + 2 * (X * v)| ≤ m') := by
    intro v m c m' hv hm hc hm'
    have t0 : 0 ≤ X * v := by positivity
    have t1 : X * v ≤ 1 / 2 * v := mul_le_mul_of_nonneg_right h1 hv
    have t2 : 0 ≤ c + 2 * (X * v) := by positivity
    refine ⟨t2, by linarith, ?_⟩
    rw [abs_of_nonneg t2]; linarith
  obtain ⟨m1, em1, hm1⟩ := LayR.mul h (1 / 2) 0.014 2 hX aa hXa (by rw [abs_of_nonneg] <;> norm_num) (by norm_num) (by norm_num)
  obtain ⟨n1, n1', n1a⟩ := pos (0x01C798ECC0CBC856 / 2 ^ 63) 0.014 (0x04745859810836DA / 2 ^ 63) 0.05 (by norm_num) (by norm_num) (by norm_num) (by norm_num)
  obtain ⟨es1, hs1⟩ := LayR.add h ab hm1 n1a (by norm_num)
  obtain ⟨m2, em2, hm2⟩ := LayR.mul h (1 / 2) 0.05 4 hX hs1 hXa n1a (by norm_num) (by norm_num)
  obtain ⟨n2, n2', n2a⟩ := pos _ 0.05 (0x15CFBB5C306F85F3 / 2 ^ 63) 0.23 n1 n1' (by norm_num) (by norm_num)
  obtain ⟨es2, hs2⟩ := LayR.add h ac hm2 n2a (by norm_num)
  obtain ⟨m3, em3, hm3⟩ := LayR.mul h (1 / 2) 0.23 6 hX hs2 hXa n2a (by norm_num) (by norm_num)
  obtain ⟨n3, n3', n3a⟩ := pos _ 0.23 (0x3FE26186C531F98E / 2 ^ 63) 0.8 n2 n2' (by norm_num) (by norm_num)
  obtain ⟨es3, hs3⟩ := LayR.add h ad hm3 n3a (by norm_num)
  obtain ⟨m4, em4, hm4⟩ := LayR.mul h (1 / 2) 0.8 8 hX hs3 hXa n3a (by norm_num) (by norm_num)
  obtain ⟨n4, n4', n4a⟩ := pos _ 0.8 (0x40014D4407008BB0 / 2 ^ 63) 1.4 n3 n3' (by norm_num) (by norm_num)
  obtain ⟨es4, hs4⟩ := LayR.add h ae hm4 n4a (by norm_num)
  obtain ⟨m5, em5, hm5⟩ := LayR.mul h (1 / 2) 1.4 10 hX hs4 hXa n4a (by norm_num) (by norm_num)
  obtain ⟨n5, n5', n5a⟩ := pos _ 1.4 (0x7FFFF686446F1B43 / 2 ^ 63) 2.5 n4 n4' (by norm_num) (by norm_num)
  obtain ⟨es5, hs5⟩ := LayR.add h af hm5 n5a (by norm_num)
  obtain ⟨r, er, hr⟩ := LayR.mul h 1 2.5 23 hone hs5 (by norm_num) n5a (by norm_num) (by norm_num)
  refine ⟨r, ?_, ?_⟩
  · unfold expExpand
    rw [e1, Res.bind_ok, e2, Res.bind_ok, ea, Res.bind_ok, eb, Res.bind_ok, ec, Res.bind_ok, ed, Res.bind_ok, ee, Res.bind_ok, ef, Res.bind_ok,
      eev, Res.bind_ok, ep, Res.bind_ok, em1, Res.bind_ok, es1, Res.bind_ok, em2, Res.bind_ok, es2, Res.bind_ok, em3, Res.bind_ok, es3, Res.bind_ok,
      em4, Res.bind_ok, es4, Res.bind_ok, em5, Res.bind_ok, es5, Res.bind_ok, er]
  · have e : 2 * expP (2 * X) = 2 * (1 * (0x7FFFF686446F1B43 / 2 ^ 63 + 2 * (X * (0x40014D4407008BB0 / 2 ^ 63 + 2 * (X * (0x3FE26186C531F98E / 2 ^ 63 +
        2 * (X * (0x15CFBB5C306F85F3 / 2 ^ 63 + 2 * (X * (0x04745859810836DA / 2 ^ 63 + 2 * (X * (0x01C798ECC0CBC856 / 2 ^ 63)))))))))))) := by
      unfold expP; ring
    rw [e]
    exact hr

/-- C204 (what happens instead): on `(0, 1/2]` the result is within `1e-4 + 23 ulp` of `2 (e^(2x) - x)`. -/
theorem C204_positive_partial (F : FxTy) (hF : F.Valid) (hs : F.T.signed = true) (hr : F.r = true) (h8 : 8 ≤ F.f) (h60 : F.f ≤ 60)
    (h4 : F.f + 4 ≤ F.T.bits) (x : Int) (h0 : 0 < x) (h1 : val F x ≤ 1 / 2) :
    ∃ r, exp F x = .ok r ∧ Storable F r ∧
      |((val F r : ℚ) : ℝ) - 2 * (Real.exp (2 * (val F x : ℚ)) - (val F x : ℚ))| ≤ 1 / 10000 + 23 * (ulp F : ℚ) := by
  have h := layR8 hF hs hr h8 h4
  have hx' : rv F x ≤ 1 / 2 := by
    rw [← rv_eq]
    have : ((val F x : ℚ) : ℝ) ≤ ((1 / 2 : ℚ) : ℝ) := by exact_mod_cast h1
    push_cast at this
    exact this
  have hX0 : 0 ≤ rv F x := by have := (rv_le F (a := 0) (b := x)).2 h0.le; simpa [rv] using this
  obtain ⟨r, e, hr'⟩ := expExpand_r h h60 h0.le hx'
  have o0 : ofInt F 0 = 0 := by rw [ofInt_eq F hF, zero_mul]; exact h.sw.wrap_ok h.sw.zero_in
  refine ⟨r, ?_, hr'.st, ?_⟩
  · unfold exp
    rw [o0, if_neg (by rw [eq_iff]; omega), if_neg (by rw [lt_iff]; omega), e]
  · rw [rv_eq, rv_eq, uR_eq]
    have hP := expP_near (2 * rv F x) (by linarith) (by linarith)
    have := hr'.er
    obtain ⟨a1, a2⟩ := abs_le.1 hP
    obtain ⟨b1, b2⟩ := abs_le.1 this
    rw [abs_le]; constructor <;> linarith

/-- C204 (what happens instead, negative arguments): on `[-1/2, 0)` the result is within `6e-5 + 14 ulp` of `1 / (e^(-2x) + x)`. -/
theorem C204_negative_partial (F : FxTy) (hF : F.Valid) (hs : F.T.signed = true) (hr : F.r = true) (h8 : 8 ≤ F.f) (h60 : F.f ≤ 60)
    (h4 : F.f + 4 ≤ F.T.bits) (x : Int) (h0 : x < 0) (h1 : -(1 / 2) ≤ val F x) :
    ∃ r, exp F x = .ok r ∧ Storable F r ∧
      |((val F r : ℚ) : ℝ) - 1 / (Real.exp (-(2 * (val F x : ℚ))) + (val F x : ℚ))| ≤ 6 / 100000 + 14 * (ulp F : ℚ) := by
  have h := layR8 hF hs hr h8 h4
  have hx' : rv F (-x) ≤ 1 / 2 := by
    rw [rv_neg, ← rv_eq]
    have : ((-(1 / 2) : ℚ) : ℝ) ≤ ((val F x : ℚ) : ℝ) := by exact_mod_cast h1
    push_cast at this
    linarith
  have hX0 : 0 ≤ rv F (-x) := by have := (rv_le F (a := 0) (b := -x)).2 (by omega); simpa [rv] using this
  have hn : Storable F (-x) := h.st (by rw [abs_of_nonneg hX0]; norm_num; linarith)
  obtain ⟨v, ev, hv⟩ := expExpand_r h h60 (x := -x) (by omega) hx'
  have o0 : ofInt F 0 = 0 := by rw [ofInt_eq F hF, zero_mul]; exact h.sw.wrap_ok h.sw.zero_in
  have o1 : ofInt F 1 = 2 ^ F.f := by rw [ofInt_eq F hF, one_mul]; exact h.sw.wrap_ok h.sw.one
  have r1 : rv F (2 ^ F.f) = 1 := by have := rv_int F 1; rw [one_mul] at this; simpa using this
  have hP := expP_near (2 * rv F (-x)) (by linarith) (by linarith)
  have hE := Real.add_one_le_exp (2 * rv F (-x))
  have hX : rv F x = -rv F (-x) := by rw [rv_neg, neg_neg]
  have hve := hv.er
  have hu := h.u_le
  have hu0 := uR_pos F
  rw [show -(2 * ((val F x : ℚ) : ℝ)) = 2 * rv F (-x) by rw [rv_eq, hX]; ring, rv_eq, hX]
  generalize rv F (-x) = X at *
  generalize Real.exp (2 * X) = E at *
  generalize expP (2 * X) = P at *
  obtain ⟨p1, p2⟩ := abs_le.1 hP
  obtain ⟨q1, q2⟩ := abs_le.1 hve
  have P1 : 0.999 ≤ P := by norm_num at *; linarith
  have D1 : 1 ≤ E + -X := by linarith
  have V1 : 1.9 ≤ rv F v := by norm_num at *; linarith
  have v0 : v ≠ 0 := by rintro rfl; norm_num [rv] at V1
  obtain ⟨z, n, e, hn', hw⟩ := (C05_div_partial F hF hr (by omega) (2 ^ F.f) v h.sw.one).2 v0
  have a := nearest_rv hn'
  push_cast at a
  rw [rv_eq, rv_eq, r1] at a
  have r2 : rv F (2 * n) = 2 * rv F n := by unfold rv; push_cast; ring
  -- the quotient
  have b : |1 / rv F v - 1 / (2 * P)| ≤ 6.2 * uR F := by
    rw [div_sub_div _ _ (by linarith) (by linarith), abs_div, abs_of_pos (by nlinarith : 0 < rv F v * (2 * P)), div_le_iff₀ (by nlinarith)]
    have : 1.9 * 1.998 ≤ rv F v * (2 * P) := mul_le_mul V1 (by norm_num at *; linarith) (by norm_num) (by linarith)
    have t : 6.2 * uR F * (1.9 * 1.998) ≤ 6.2 * uR F * (rv F v * (2 * P)) := mul_le_mul_of_nonneg_left this (by positivity)
    have w : |1 * (2 * P) - rv F v * 1| ≤ 23 * uR F := by rw [one_mul, mul_one, abs_sub_comm]; exact hve
    norm_num at t ⊢
    norm_num at w
    linarith
  have c : |1 / P - 1 / (E + -X)| ≤ 6 / 100000 := by
    rw [div_sub_div _ _ (by linarith) (by linarith), abs_div, abs_of_pos (by nlinarith : 0 < P * (E + -X)), div_le_iff₀ (by nlinarith)]
    have : 0.999 * 1 ≤ P * (E + -X) := mul_le_mul P1 D1 (by norm_num) (by linarith)
    have w : |1 * (E + -X) - P * 1| ≤ 5 / 100000 := by
      rw [abs_le]; constructor <;> linarith
    norm_num at *
    linarith
  have d : 1 / P = 2 * (1 / (2 * P)) := by field_simp
  obtain ⟨a1, a2⟩ := abs_le.1 a
  obtain ⟨b1, b2⟩ := abs_le.1 b
  obtain ⟨c1, c2⟩ := abs_le.1 c
  have D2 : 1 / (E + -X) ≤ 1 := by rw [div_le_one (by linarith)]; exact D1
  have D3 : 0 ≤ 1 / (E + -X) := by positivity
  have fin : |rv F (2 * n) - 1 / (E + -X)| ≤ 6 / 100000 + 14 * uR F := by
    rw [r2, abs_le]; constructor <;> norm_num at * <;> linarith
  have s2 : Storable F (2 * n) := h.st (by
    obtain ⟨f1, f2⟩ := abs_le.1 fin
    rw [abs_le]; constructor <;> linarith)
  have ez : z = 2 * n := isWrap_unique (by omega) hw ⟨s2, by simp⟩
  subst ez
  refine ⟨2 * n, ?_, s2, by rw [rv_eq, uR_eq]; exact fin⟩
  unfold exp
  rw [o0, o1, if_neg (by rw [eq_iff]; omega), if_pos (by rw [lt_iff]; omega), h.sw.neg_ok hn, Res.bind_ok, ev, Res.bind_ok, e]

example : exp fixed32r 32768 = .ok 290760 ∧ exp fixed32r (-32768) = .ok 29544 := by decide +kernel

/-- C204 is false of the code: in the rounding variant of `fixed32` the exponential of one half is 4.44 instead of 1.65 (or 1.40 by the formula of C37). -/
theorem C204_false : ¬ C204_statement := by
  intro h
  obtain ⟨r, e, -, hr⟩ := h fixed32r (by decide) rfl rfl (by decide) (by decide) (by decide) 32768 (by decide) (by norm_num [val, fixed32r])
  rw [show exp fixed32r 32768 = .ok 290760 by decide +kernel] at e
  cases e
  have v1 : ((val fixed32r 32768 : ℚ) : ℝ) = 1 / 2 := by norm_num [val, fixed32r]
  have v2 : ((val fixed32r 290760 : ℚ) : ℝ) = 290760 / 65536 := by norm_num [val, fixed32r]
  have u : ((ulp fixed32r : ℚ) : ℝ) = 1 / 65536 := by norm_num [ulp, fixed32r]
  have h1 : Real.exp (1 / 2) ≤ Real.exp 1 := Real.exp_le_exp.2 (by norm_num)
  have h2 := h1.trans_lt Real.exp_one_lt_d9
  rw [v1, v2, u] at hr
  have := (abs_le.1 hr).2
  clear h1
  norm_num at *
  linarith

end Eirin.Props
