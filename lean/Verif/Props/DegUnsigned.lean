import Verif.Props.DegAll

/-! # Property C149: `degrees` and `radians` on every unsigned layout -/

namespace Eirin.Props
open Spec

/-- `pi` in an unsigned layout with at least three integer bits. -/
theorem pi_unsigned {F : FxTy} (hF : F.Valid) (hs : F.T.signed = false) (hr : F.r = false) (hf : F.f ≤ 60) (hb : F.f + 3 ≤ F.T.bits) :
    ∃ pi, cPi F = .ok pi ∧ 3 * 2 ^ F.f ≤ pi ∧ pi < 4 * 2 ^ F.f ∧ Storable F pi ∧ |rv F pi - Real.pi| ≤ 1.5 * uR F := by
  have hp : (0 : Int) < 2 ^ F.f := by positivity
  have e8 : (8 : Int) * 2 ^ F.f ≤ 2 ^ F.T.bits := by
    rw [show (8 : Int) * 2 ^ F.f = 2 ^ (F.f + 3) by rw [pow_add]; ring]
    exact pow_le_pow_right₀ (by norm_num) (by omega)
  have hlo : F.T.lo = 0 := by unfold IntTy.lo; simp [hs]
  have hhi : F.T.hi = 2 ^ F.T.bits - 1 := by unfold IntTy.hi; simp [hs]
  have s4 : Storable F (4 * 2 ^ F.f) := by constructor <;> omega
  obtain ⟨pi, e, sp, n, -⟩ := C20_every_pi.1 F 4 hF (by omega) (by have := Real.pi_lt_d2; push_cast; norm_num at *; linarith)
    ⟨4 * 2 ^ F.f, s4, by rw [val_int]⟩
  obtain ⟨n1, n2⟩ := n hr
  rw [rv_eq] at n1 n2; rw [uR_eq] at n2
  have hu : (1 : ℝ) / 2 ^ 60 ≤ uR F := by
    unfold uR
    apply div_le_div_of_nonneg_left (by norm_num) (by positivity)
    exact pow_le_pow_right₀ (by norm_num) hf
  have h61 : (1 : ℝ) / 2 ^ 61 ≤ 0.5 * uR F := by norm_num at hu ⊢; linarith
  have g1 := Real.pi_gt_d2
  have g2 := Real.pi_lt_d2
  refine ⟨pi, e, ?_, ?_, sp, ?_⟩
  · have : rv F (3 * 2 ^ F.f) < rv F (pi + 1) := by
      rw [rv_int, rv_add, show rv F 1 = uR F by rw [rv_u]; push_cast; ring]; push_cast; norm_num at *; linarith
    have := (rv_lt F).1 this
    omega
  · refine (rv_lt F).1 (?_ : rv F pi < rv F (4 * 2 ^ F.f))
    rw [rv_int]; push_cast; norm_num at *; linarith
  · rw [abs_le]; constructor <;> linarith

/-- 180 reduced to the integer bits of an unsigned layout: 180 with eight bits or more, 52 with seven or six, 20 with five, 4 with four or three. -/
theorem ufactor {k : Nat} {c : Int} (h3 : 3 ≤ k) (hc : c = 180 % 2 ^ k) :
    (8 ≤ k → c = 180) ∧ (k ≤ 7 → c = 4 ∨ c = 20 ∨ c = 52) := by
  constructor
  · intro h8
    have e : (2 : Int) ^ 8 ≤ 2 ^ k := pow_le_pow_right₀ (by norm_num) h8
    norm_num at e
    rw [hc, Int.emod_eq_of_lt (by norm_num) (by omega)]
  · intro h7
    subst hc
    interval_cases k <;> norm_num

theorem ufactor_ge {k : Nat} {c : Int} (h3 : 3 ≤ k) (hc : c = 180 % 2 ^ k) : 4 ≤ c := by
  obtain ⟨a, b⟩ := ufactor h3 hc
  by_cases h : 8 ≤ k
  · rw [a h]; norm_num
  · rcases b (by omega) with rfl | rfl | rfl <;> norm_num

theorem ufactor_eq {F : FxTy} (hF : F.Valid) (hs : F.T.signed = false) {c : Int} (hc : c = 180 % 2 ^ (F.T.bits - F.f)) :
    Storable F (c * 2 ^ F.f) ∧ ofInt F 180 = c * 2 ^ F.f := by
  have hlo : F.T.lo = 0 := by unfold IntTy.lo; simp [hs]
  have hhi : F.T.hi = 2 ^ F.T.bits - 1 := by unfold IntTy.hi; simp [hs]
  have hp : (0 : Int) < 2 ^ F.f := by positivity
  have hfl := hF.flt
  have e : (2 : Int) ^ F.T.bits = 2 ^ (F.T.bits - F.f) * 2 ^ F.f := by rw [← pow_add]; congr 1; omega
  have hk : (0 : Int) < 2 ^ (F.T.bits - F.f) := by positivity
  have c0 : 0 ≤ c := by rw [hc]; exact Int.emod_nonneg _ hk.ne'
  have c1 : c < 2 ^ (F.T.bits - F.f) := by rw [hc]; exact Int.emod_lt_of_pos _ hk
  have hS : Storable F (c * 2 ^ F.f) := by
    constructor
    · rw [hlo]; positivity
    · have := mul_lt_mul_of_pos_right c1 hp
      rw [hhi, e]; omega
  refine ⟨hS, ?_⟩
  rw [ofInt_eq F hF]
  conv_rhs => rw [← IntTy.wrap_of_inRange hF.tpos hS]
  apply IntTy.wrap_congr
  refine ⟨180 / 2 ^ (F.T.bits - F.f), ?_⟩
  have := Int.emod_add_mul_ediv 180 (2 ^ (F.T.bits - F.f))
  rw [← hc] at this
  rw [e, ← sub_mul]
  linear_combination (-(2 : Int) ^ F.f) * this

/-- C149: on every unsigned layout with at least three integer bits both functions use, instead of 180, the remainder `c` of 180 modulo the
integer range. -/
theorem C149_factor (F : FxTy) (hF : F.Valid) (hs : F.T.signed = false) (hr : F.r = false) (hf : F.f ≤ 60) (h3 : F.f + 3 ≤ F.T.bits) (c : Int)
    (hc : c = 180 % 2 ^ (F.T.bits - F.f)) (x : Int) (hx : Storable F x) :
    4 ≤ c ∧ (∃ z, radians F x = .ok z ∧ Storable F z ∧ |rv F z - rv F x * Real.pi / c| ≤ (5 + 1.5 * (rv F x / c)) * uR F) ∧
    ∃ n z, degrees F x = .ok z ∧ IsWrap F n z ∧ (Storable F n → z = n) ∧
      |rv F n - rv F x * c / Real.pi| ≤ c * (1 + 0.16 * rv F x) * uR F := by
  obtain ⟨pi, epi, p3, p4, sp, pn⟩ := pi_unsigned hF hs hr hf h3
  have hlo : F.T.lo = 0 := by unfold IntTy.lo; simp [hs]
  have hp : (0 : Int) < 2 ^ F.f := by positivity
  have hu := uR_pos F
  have c4 := ufactor_ge (by omega) hc
  obtain ⟨sc, ec⟩ := ufactor_eq hF hs hc
  have hc0 : c ≠ 0 := by omega
  have p0 : 0 < pi := by omega
  have x0 : 0 ≤ x := by have := hx.1; omega
  have hxh := hx.2
  have rx0 : 0 ≤ rv F x := by have := (rv_le F).2 x0; simpa [rv] using this
  have cr : (4 : ℝ) ≤ c := by exact_mod_cast c4
  have rp3 : 3 ≤ rv F pi := by have := (rv_le F).2 p3; rw [rv_int] at this; exact_mod_cast this
  have rp4 : rv F pi ≤ 4 := by have := (rv_le F).2 p4.le; rw [rv_int] at this; exact_mod_cast this
  refine ⟨c4, ?_, ?_⟩
  · obtain ⟨t1, t2⟩ := tdiv_abs_le x hc0
    have ediv : Int.tdiv (x * 2 ^ F.f) (c * 2 ^ F.f) = Int.tdiv x c := Int.mul_tdiv_mul_of_pos_left _ _ hp
    have t2' : |rv F (Int.tdiv x c) * c - rv F x| ≤ |(c : ℝ)| * uR F := by
      rw [rv_u, rv_u, show (Int.tdiv x c : ℝ) * uR F * c - x * uR F = ((Int.tdiv x c : ℝ) * c - x) * uR F by ring, abs_mul, abs_of_pos hu]
      apply mul_le_mul_of_nonneg_right _ hu.le
      exact_mod_cast t2
    have hd0 : div F x (c * 2 ^ F.f) = .ok (F.T.wrap (Int.tdiv x c)) := by
      rw [div_nf hF hr hx, if_neg (mul_ne_zero hc0 hp.ne'), ediv]
    have q0 : 0 ≤ Int.tdiv x c := Int.tdiv_nonneg x0 (by omega)
    generalize Int.tdiv x c = q at *
    rw [abs_of_nonneg q0, abs_of_nonneg (by omega : 0 ≤ c), abs_of_nonneg x0] at t1
    have hq4 : 4 * q ≤ x := by
      have := mul_le_mul_of_nonneg_left c4 q0; linarith
    have hqS : F.T.InRange q := by constructor <;> omega
    rw [IntTy.wrap_of_inRange hF.tpos hqS] at hd0
    have hz0 : 0 ≤ q * pi / 2 ^ F.f := by positivity
    have hz1 : q * pi / 2 ^ F.f ≤ x := by
      rw [← Int.lt_add_one_iff, Int.ediv_lt_iff_lt_mul hp]
      have := mul_le_mul_of_nonneg_left p4.le q0
      have := mul_le_mul_of_nonneg_right hq4 hp.le
      linarith
    have hz : F.T.InRange (q * pi / 2 ^ F.f) := ⟨by omega, by omega⟩
    refine ⟨q * pi / 2 ^ F.f, ?_, hz, ?_⟩
    · unfold radians
      rw [epi, Res.bind_ok, ec, hd0, Res.bind_ok, mul_nf hF hr hqS sp, IntTy.wrap_of_inRange hF.tpos hz]
    · have fl1 : ((q * pi / 2 ^ F.f : Int) : ℝ) * 2 ^ F.f ≤ q * pi := by exact_mod_cast Int.ediv_mul_le (q * pi) hp.ne'
      have fl2 : (q : ℝ) * pi < (((q * pi / 2 ^ F.f : Int) : ℝ) + 1) * 2 ^ F.f := by exact_mod_cast Int.lt_ediv_add_one_mul_self (q * pi) hp
      generalize q * pi / 2 ^ F.f = z at *
      have hm := u_mul F
      have fl : |rv F z - rv F q * rv F pi| ≤ uR F := by
        rw [rv_u, rv_u, rv_u]
        have uu : 0 < uR F * uR F := by positivity
        have f1 := mul_le_mul_of_nonneg_right fl1 uu.le
        have f2 := mul_le_mul_of_nonneg_right fl2.le uu.le
        rw [show (z : ℝ) * 2 ^ F.f * (uR F * uR F) = z * uR F * (2 ^ F.f * uR F) by ring, hm, mul_one] at f1
        rw [show ((z : ℝ) + 1) * 2 ^ F.f * (uR F * uR F) = (z + 1) * uR F * (2 ^ F.f * uR F) by ring, hm, mul_one] at f2
        rw [abs_le]; constructor <;> linarith
      have rr := rad_real (π' := Real.pi) hu t2' (abs_pos.2 (by exact_mod_cast hc0)) (by linarith : 0 ≤ rv F pi) rp4 pn
      rw [abs_of_nonneg rx0, abs_of_nonneg (by linarith : (0 : ℝ) ≤ c)] at rr
      have := abs_sub_le (rv F z) (rv F q * rv F pi) (rv F x * Real.pi / c)
      linarith
  · obtain ⟨t1, t2⟩ := tdiv_abs_le (x * 2 ^ F.f) p0.ne'
    rw [abs_of_pos p0] at t1 t2
    have hd0 : div F x pi = .ok (F.T.wrap (Int.tdiv (x * 2 ^ F.f) pi)) := by
      rw [div_nf hF hr hx, if_neg p0.ne']
    have q0 : 0 ≤ Int.tdiv (x * 2 ^ F.f) pi := Int.tdiv_nonneg (by positivity) p0.le
    generalize Int.tdiv (x * 2 ^ F.f) pi = q at *
    have hq3 : 3 * q ≤ x := by
      rw [abs_mul, abs_of_pos hp, abs_of_nonneg q0, abs_of_nonneg x0] at t1
      have := mul_le_mul_of_nonneg_left p3 q0
      by_contra hcon
      have : x * 2 ^ F.f < 3 * q * 2 ^ F.f := mul_lt_mul_of_pos_right (by omega) hp
      linarith
    have hqS : F.T.InRange q := by constructor <;> omega
    rw [IntTy.wrap_of_inRange hF.tpos hqS] at hd0
    have em : q * (c * 2 ^ F.f) / 2 ^ F.f = q * c := by rw [← mul_assoc]; exact Int.mul_ediv_cancel _ hp.ne'
    refine ⟨q * c, F.T.wrap (q * c), ?_, isWrap_wrap hF _, fun h => IntTy.wrap_of_inRange hF.tpos h, ?_⟩
    · unfold degrees
      rw [epi, Res.bind_ok, hd0, Res.bind_ok, ec, mul_nf hF hr hqS sc, em]
    · have t2' : |rv F q * rv F pi - rv F x| ≤ rv F pi * uR F := by
        have hm := u_mul F
        have t : |(q : ℝ) * pi - x * 2 ^ F.f| ≤ pi := by exact_mod_cast t2
        have e : rv F q * rv F pi - rv F x = ((q : ℝ) * pi - x * 2 ^ F.f) * (uR F * uR F) := by
          rw [rv_u, rv_u, rv_u]
          linear_combination (x : ℝ) * uR F * hm
        rw [e, abs_mul, abs_of_pos (by positivity : 0 < uR F * uR F), rv_u F pi]
        have := mul_le_mul_of_nonneg_right t (by positivity : 0 ≤ uR F * uR F)
        linarith
      rw [show rv F (q * c) = rv F q * c by unfold rv; push_cast; ring]
      have := deg_real (c := c) t2' rp3 (by have := Real.pi_gt_d2; norm_num at *; linarith) pn
      rw [abs_of_nonneg rx0, abs_of_nonneg (by linarith : (0 : ℝ) ≤ c)] at this
      exact this

/-- C149 as one would like it: on every unsigned layout that can hold `pi`, `radians` is right up to a few ulps and `degrees` is the right number up to
the amplified rounding error, reduced to the range of the type. -/
def C149_statement : Prop := ∀ F : FxTy, F.Valid → F.T.signed = false → F.r = false → F.f ≤ 60 → F.f + 2 ≤ F.T.bits → ∀ x, Storable F x →
  (∃ z, radians F x = .ok z ∧ |rv F z - rv F x * Real.pi / 180| ≤ (5 + rv F x / 120) * uR F) ∧
  ∃ n z, degrees F x = .ok z ∧ IsWrap F n z ∧ (Storable F n → z = n) ∧ |rv F n - rv F x * 180 / Real.pi| ≤ (180 + 29 * rv F x) * uR F

/-- C149, what holds: the statement with at least eight integer bits, that is, whenever 180 can be represented.  Missing are the layouts with two to
seven integer bits, where `C149_wrong` and `C149_two_bits` show it to be false. -/
theorem C149_accuracy_partial (F : FxTy) (hF : F.Valid) (hs : F.T.signed = false) (hr : F.r = false) (hf : F.f ≤ 60) (h8 : F.f + 8 ≤ F.T.bits) (x : Int)
    (hx : Storable F x) :
    (∃ z, radians F x = .ok z ∧ |rv F z - rv F x * Real.pi / 180| ≤ (5 + rv F x / 120) * uR F) ∧
    ∃ n z, degrees F x = .ok z ∧ IsWrap F n z ∧ (Storable F n → z = n) ∧ |rv F n - rv F x * 180 / Real.pi| ≤ (180 + 29 * rv F x) * uR F := by
  have e := (ufactor (k := F.T.bits - F.f) (by omega) rfl).1 (by omega)
  have hu := uR_pos F
  have hlo : F.T.lo = 0 := by unfold IntTy.lo; simp [hs]
  have rx0 : 0 ≤ rv F x := by
    have := (rv_le F (a := 0) (b := x)).2 (by have := hx.1; omega); simpa [rv] using this
  obtain ⟨-, ⟨z, a, -, b⟩, n, y, d1, d2, d3, d4⟩ := C149_factor F hF hs hr hf (by omega) 180 e.symm x hx
  have : 0 ≤ rv F x * uR F := by positivity
  refine ⟨⟨z, a, ?_⟩, n, y, d1, d2, d3, ?_⟩
  · push_cast at b
    norm_num at b ⊢
    linarith
  · push_cast at d4
    norm_num at d4 ⊢
    linarith

/-- C149: with three to seven integer bits and at least eight fraction bits `radians` is wrong, by more than a fiftieth of its argument, from 1 on. -/
theorem C149_wrong (F : FxTy) (hF : F.Valid) (hs : F.T.signed = false) (hr : F.r = false) (h8 : 8 ≤ F.f) (hf : F.f ≤ 60) (h3 : F.f + 3 ≤ F.T.bits)
    (hb : F.T.bits ≤ F.f + 7) (x : Int) (hx : Storable F x) (h1 : 1 ≤ rv F x) :
    ∃ z, radians F x = .ok z ∧ rv F x / 50 < rv F z - rv F x * Real.pi / 180 := by
  have hu := uR_pos F
  have hu2 : uR F ≤ 1 / 256 := by
    unfold uR
    apply div_le_div_of_nonneg_left (by norm_num) (by positivity)
    have : (2 : ℝ) ^ 8 ≤ 2 ^ F.f := pow_le_pow_right₀ (by norm_num) h8
    norm_num at this ⊢; exact this
  obtain ⟨-, ⟨z, a, -, b⟩, -⟩ := C149_factor F hF hs hr hf h3 _ rfl x hx
  refine ⟨z, a, ?_⟩
  have g := Real.pi_gt_d2
  have key : ∀ w : ℝ, |rv F z - rv F x * Real.pi / w| ≤ (5 + 1.5 * (rv F x / w)) * uR F → 4 ≤ w → w ≤ 52 →
      rv F x / 50 < rv F z - rv F x * Real.pi / 180 := by
    intro w h hw hw2
    have t1 : rv F x * Real.pi / 52 ≤ rv F x * Real.pi / w := div_le_div_of_nonneg_left (by positivity) (by linarith) hw2
    have t3 : rv F x / w ≤ rv F x / 4 := div_le_div_of_nonneg_left (by linarith) (by norm_num) hw
    have t4 : (5 + 1.5 * (rv F x / w)) * uR F ≤ (5 + 1.5 * (rv F x / 4)) * (1 / 256) := by
      apply mul_le_mul _ hu2 hu.le (by positivity)
      linarith
    have t5 : rv F x * 3.14 ≤ rv F x * Real.pi := mul_le_mul_of_nonneg_left (by norm_num at g ⊢; linarith) (by linarith)
    rw [abs_le] at h
    norm_num at t4 t5 h ⊢
    linarith [h.1]
  rcases (ufactor (k := F.T.bits - F.f) (by omega) rfl).2 (by omega) with e | e | e
  · exact key 4 (by rw [e] at b; norm_num at b ⊢; exact b) (by norm_num) (by norm_num)
  · exact key 20 (by rw [e] at b; norm_num at b ⊢; exact b) (by norm_num) (by norm_num)
  · exact key 52 (by rw [e] at b; norm_num at b ⊢; exact b) (by norm_num) (by norm_num)

/-- C149: with two integer bits 180 becomes zero: `radians` divides by zero for every argument, and `degrees` returns zero. -/
theorem C149_two_bits (F : FxTy) (hF : F.Valid) (hs : F.T.signed = false) (hr : F.r = false) (h2 : F.T.bits = F.f + 2) (pi : Int) (hpi : cPi F = .ok pi)
    (hp0 : 0 < pi) (x : Int) (hx : Storable F x) : radians F x = .ub .divZero ∧ degrees F x = .ok 0 := by
  have e : ofInt F 180 = 0 := by
    obtain ⟨-, h⟩ := ufactor_eq hF hs (c := 0) (by rw [h2, Nat.add_sub_cancel_left]; norm_num)
    rw [h, zero_mul]
  have hlo : F.T.lo = 0 := by unfold IntTy.lo; simp [hs]
  have hhi : F.T.hi = 2 ^ F.T.bits - 1 := by unfold IntTy.hi; simp [hs]
  have h0 : Storable F 0 := ⟨by rw [hlo], by have : (0 : Int) < 2 ^ F.T.bits := by positivity
                                             omega⟩
  constructor
  · unfold radians
    rw [hpi, Res.bind_ok, e, div_nf hF hr hx, if_pos rfl, Res.bind_ub]
  · unfold degrees
    have hw : Storable F (F.T.wrap (Int.tdiv (x * 2 ^ F.f) pi)) := IntTy.wrap_inRange _ hF.tpos
    rw [hpi, Res.bind_ok, div_nf hF hr hx, if_neg hp0.ne', Res.bind_ok, e, mul_nf hF hr hw h0, mul_zero, Int.zero_ediv,
      IntTy.wrap_of_inRange hF.tpos h0]

theorem C149_false : ¬ C149_statement := by
  intro h
  obtain ⟨⟨z, a, -⟩, -⟩ := h ⟨u32, u64, 30, false⟩ (by decide) rfl rfl (by decide) (by decide) 0 (by decide +kernel)
  rw [show radians ⟨u32, u64, 30, false⟩ 0 = .ub .divZero by decide +kernel] at a
  cases a

example : (⟨u16, u32, 8, false⟩ : FxTy).Valid ∧ (⟨u16, u32, 8, false⟩ : FxTy).f + 8 ≤ (⟨u16, u32, 8, false⟩ : FxTy).T.bits ∧
    radians ⟨u16, u32, 8, false⟩ (90 * 256) = .ok 402 ∧ degrees ⟨u16, u32, 8, false⟩ 402 = .ok (90 * 256) ∧
    radians ⟨u64, u128, 56, false⟩ (90 * 2 ^ 56) = .ok 113187804032455044 ∧
    degrees ⟨u64, u128, 56, false⟩ (2 ^ 56) = .ok 4128596020240314120 := by decide +kernel
/-- Four integer bits: the radian value of 2 comes out as `2 π / 4`. -/
example : (180 : Int) % 2 ^ (32 - 28) = 4 ∧ radians ⟨u32, u64, 28, false⟩ (2 ^ 29) = .ok 421657428 := by decide +kernel
/-- Two integer bits. -/
example : cPi ⟨u8, u16, 6, false⟩ = .ok 201 ∧ radians ⟨u8, u16, 6, false⟩ 5 = .ub .divZero ∧ degrees ⟨u8, u16, 6, false⟩ 200 = .ok 0 := by decide +kernel

end Eirin.Props
