import Verif.Props.PowWhole
import Verif.Props.LogDiv
import Verif.Props.ExpAll

/-! # Property C158: `pow(fixed, fixed)` on every signed layout. -/

namespace Eirin.Props
open Spec

/-- The layouts on which `pow(fixed, fixed)` works: signed 32- or 64-bit storage, 16 to 26 fraction bits (to 32 in 64-bit storage). -/
structure PL (F : FxTy) : Prop where
  v : F.Valid
  s : SignedWide F
  r : F.r = false
  h16 : 16 ≤ F.f
  hg : F.f ≤ 26 ∨ F.T.bits = 64 ∧ F.f ≤ 32

namespace PL
variable {F : FxTy} (h : PL F)
include h
theorem bits : F.T.bits = 32 ∨ F.T.bits = 64 := by have := h.v.1; have := h.s.2; omega
theorem six : F.f + 6 ≤ F.T.bits := by have := h.bits; have := h.hg; omega
theorem f32 : F.f ≤ 32 := by have := h.hg; omega
theorem sw : SW F := by
  have hp : (0 : Int) < 2 ^ F.f := by positivity
  have h1 : (2 : Int) ^ (F.f + 3) ≤ 2 ^ (F.T.bits - 1) := pow_le_pow_right₀ (by norm_num) (by have := h.six; omega)
  rw [pow_add] at h1
  refine ⟨h.v, h.s, ?_, ?_⟩
  · unfold IntTy.lo; rw [h.s.1, if_pos rfl]; omega
  · unfold IntTy.hi; rw [h.s.1, if_pos rfl]; omega
theorem big : (32 : ℝ) ≤ 2 ^ (F.T.bits - 1 - F.f) := by
  have : (2 : ℝ) ^ 5 ≤ 2 ^ (F.T.bits - 1 - F.f) := pow_le_pow_right₀ (by norm_num) (by have := h.six; omega)
  norm_num at this ⊢; exact this
theorem u_le : uR F ≤ 1 / 65536 := by
  unfold uR
  have : (2 : ℝ) ^ 16 ≤ 2 ^ F.f := pow_le_pow_right₀ (by norm_num) h.h16
  exact one_div_le_one_div_of_le (by norm_num) (by norm_num at this ⊢; exact this)
theorem three : Representable F 3 := by
  refine ⟨3 * 2 ^ F.f, ⟨?_, ?_⟩, by rw [val_int]; norm_num⟩
  · have := h.sw.zero_in.1; have : (0 : Int) < 2 ^ F.f := by positivity
    omega
  · rw [h.sw.hi_eq]
    have : (2 : Int) ^ (F.f + 2) ≤ 2 ^ (F.T.bits - 1) := pow_le_pow_right₀ (by norm_num) (by have := h.six; omega)
    have : (0 : Int) < 2 ^ F.f := by positivity
    rw [pow_add] at *; omega
theorem ofInt0 : ofInt F 0 = 0 := by rw [ofInt_eq F h.v, zero_mul]; exact h.sw.wrap_ok h.sw.zero_in
theorem hi64 : F.T.hi < 2 ^ 64 := by
  rw [h.sw.hi_eq]
  have : (2 : Int) ^ (F.T.bits - 1) ≤ 2 ^ 64 := pow_le_pow_right₀ (by norm_num) (by have := h.bits; omega)
  omega
end PL

/-- The integer part of the exponent and what is left, for a storable exponent of any such layout. -/
theorem powSplit_sw {F : FxTy} (h : SW F) {e : Int} (he : Storable F e) :
    cdiv F.C e (fractionMultiplier F) = .ok (Int.tdiv e (2 ^ F.f)) ∧ F.T.InRange (Int.tdiv e (2 ^ F.f)) ∧
      subIntAssign F e (Int.tdiv e (2 ^ F.f)) = .ok (e - Int.tdiv e (2 ^ F.f) * 2 ^ F.f) ∧
      F.T.InRange (e - Int.tdiv e (2 ^ F.f) * 2 ^ F.f) := by
  have hp : (0 : Int) < 2 ^ F.f := by positivity
  obtain ⟨t1, t2⟩ := tdiv_mul_spec e hp
  have h0 := h.zero_in
  obtain ⟨s1, s2⟩ := he
  obtain ⟨z1, z2⟩ := h0
  have hm : F.T.InRange (Int.tdiv e (2 ^ F.f) * 2 ^ F.f) ∧ F.T.InRange (e - Int.tdiv e (2 ^ F.f) * 2 ^ F.f) := by
    rcases le_total 0 e with hc | hc
    · obtain ⟨a, b, c⟩ := t1 hc; exact ⟨⟨by omega, by omega⟩, ⟨by omega, by omega⟩⟩
    · obtain ⟨a, b, c⟩ := t2 hc; exact ⟨⟨by omega, by omega⟩, ⟨by omega, by omega⟩⟩
  have hq : F.T.InRange (Int.tdiv e (2 ^ F.f)) := h.tdiv_inRange ⟨s1, s2⟩ hp
  refine ⟨?_, hq, h.subInt_ok hm.1 hm.2, hm.2⟩
  unfold cdiv
  rw [fractionMultiplier_eq h.valid, if_neg hp.ne', if_neg]
  rintro ⟨_, hn⟩
  apply hn
  have hI : F.T.bits < F.I.bits := h.valid.2.2.1
  have hC : F.C.bits = F.I.bits ∧ F.C.signed = true := by
    have hb := h.valid.1; have hi := h.valid.2.1; have hsg := h.sw.1; have hsi := h.valid.2.2.2.1
    have h32 := h.sw.2
    obtain ⟨T, I, f, r⟩ := F
    obtain ⟨tb, ts⟩ := T
    obtain ⟨ib, is⟩ := I
    simp only at hb hi hsg hsi hI h32
    subst hsg; subst hsi
    rcases hi with rfl | rfl | rfl | rfl <;> rcases hb with rfl | rfl | rfl | rfl <;> first | omega | exact ⟨rfl, rfl⟩
  obtain ⟨q1, q2⟩ := hq
  rw [h.lo_eq] at q1
  rw [h.hi_eq] at q2
  have hle : (2 : Int) ^ (F.T.bits - 1) ≤ 2 ^ (F.I.bits - 1) := pow_le_pow_right₀ (by norm_num) (by omega)
  constructor
  · unfold IntTy.lo; rw [hC.2, if_pos rfl, hC.1]; omega
  · unfold IntTy.hi; rw [hC.2, if_pos rfl, hC.1]; omega

/-- `log(1)` on each of the layouts. -/
theorem log_one_tab : (∀ f, f < 27 → 16 ≤ f → log ⟨i32, i64, f, false⟩ (2 ^ f) = .ok 0 ∧ log ⟨i32, i128, f, false⟩ (2 ^ f) = .ok 0) ∧
    (∀ f, f < 33 → 16 ≤ f → log ⟨i64, i128, f, false⟩ (2 ^ f) = .ok 0) := by decide +kernel

theorem log_one {F : FxTy} (h : PL F) : log F (2 ^ F.f) = .ok 0 := by
  have hb := h.bits; have hi := h.v.2.1; have hsg := h.s.1; have hsi := h.v.2.2.2.1
  have hlt := h.v.2.2.1; have hr := h.r; have h16 := h.h16; have hg := h.hg
  clear h
  obtain ⟨T, I, f, r⟩ := F
  obtain ⟨tb, ts⟩ := T
  obtain ⟨ib, is⟩ := I
  simp only at hb hi hsg hsi hlt hr h16 hg
  subst hsg; subst hsi; subst hr
  rcases hb with rfl | rfl
  · obtain ⟨a, b⟩ := log_one_tab.1 f (by omega) h16
    rcases hi with rfl | rfl | rfl | rfl
    · omega
    · omega
    · exact a
    · exact b
  · rcases hi with rfl | rfl | rfl | rfl
    · omega
    · omega
    · omega
    · exact log_one_tab.2 f (by omega) h16

/-- The logarithm has the sign of `b - 1`. -/
theorem log_sign_pl {F : FxTy} (h : PL F) {b l : Int} (hb : Storable F b) (hb0 : 0 < val F b) (hl : log F b = .ok l) :
    (1 ≤ val F b → 0 ≤ l) ∧ (val F b ≤ 1 → l ≤ 0) := by
  have hone : Storable F (2 ^ F.f) := h.sw.one
  have hv1 : val F (2 ^ F.f) = 1 := by have := val_int F 1; rw [one_mul] at this; rw [this]; norm_num
  have z1 := log_one h
  have h8 : 8 ≤ F.f := by have := h.h16; omega
  obtain ⟨a', ha', _⟩ := ((C114_accuracy F h.v h.s h.r h8 h.hg _ hone).2 (by rw [hv1]; norm_num)).2
  obtain ⟨b', hb'', _⟩ := ((C114_accuracy F h.v h.s h.r h8 h.hg b hb).2 hb0).2
  have h4 : F.f + 4 ≤ F.T.bits := by have := h.six; omega
  constructor <;> intro hc
  · exact (val_le (F := F)).1 (C114_monotone F h.v h.s h.r h8 h.f32 h4 (2 ^ F.f) b 0 l a' b' hone hb (by rw [hv1]; norm_num) (by rw [hv1]; exact hc) z1 hl ha' hb'').1
  · exact (val_le (F := F)).1 (C114_monotone F h.v h.s h.r h8 h.f32 h4 b (2 ^ F.f) l 0 b' a' hb hone hb0 (by rw [hv1]; exact hc) hl z1 hb'' ha').1

/-- Bounds on the logarithm of a stored positive value. -/
theorem log_size {F : FxTy} (h : PL F) {b : Int} (hb : Storable F b) (hb0 : 0 < val F b) :
    -22.2 ≤ Real.log (rv F b) ∧ Real.log (rv F b) ≤ 44 := by
  have hB0 : 0 < rv F b := by rw [← rv_eq]; exact_mod_cast hb0
  have l2 := Real.log_two_lt_d9
  have l20 := Real.log_two_gt_d9
  constructor
  · have hbu : uR F ≤ rv F b := by
      have : 1 ≤ b := by have := (val_lt (F := F) (x := 0) (y := b)).1 (by rw [val_zero]; exact hb0); omega
      have := (rv_le F).2 this
      rwa [show rv F 1 = uR F by rw [rv_u]; norm_num] at this
    have hlog := Real.log_le_log (uR_pos F) hbu
    have hlu : Real.log (uR F) = -(F.f * Real.log 2) := by
      unfold uR; rw [one_div, Real.log_inv, Real.log_pow]
    have hf : (F.f : ℝ) ≤ 32 := by exact_mod_cast h.f32
    rw [hlu] at hlog
    have : (F.f : ℝ) * Real.log 2 ≤ 32 * 0.6931471808 := mul_le_mul hf l2.le (by linarith) (by norm_num)
    norm_num at this ⊢; linarith
  · have hle : rv F b ≤ 2 ^ 63 := by
      have h1 : (b : ℝ) ≤ 2 ^ 63 := by
        have := hb.2
        rw [h.sw.hi_eq] at this
        have : (2 : Int) ^ (F.T.bits - 1) ≤ 2 ^ 63 := pow_le_pow_right₀ (by norm_num) (by have := h.bits; omega)
        have : b ≤ 2 ^ 63 := by omega
        exact_mod_cast this
      unfold rv
      rw [div_le_iff₀ (by positivity)]
      have : (1 : ℝ) ≤ 2 ^ F.f := one_le_pow₀ (by norm_num)
      nlinarith
    have := Real.log_le_log hB0 hle
    rw [Real.log_pow] at this
    norm_num at this; linarith

/-- The argument `m` that `pow` passes to `exp`: the fractional part `t` of the exponent times the logarithm, within 36 ulp. -/
theorem pow_arg_pl {F : FxTy} (h : PL F) {b t : Int} (hb : Storable F b) (hb0 : 0 < val F b) (t0 : 0 ≤ t) (t1 : t < 2 ^ F.f) :
    ∃ l m, log F b = .ok l ∧ mul F t l = .ok m ∧ Storable F m ∧ Storable F (-m) ∧ (1 ≤ val F b → 0 ≤ m) ∧ (val F b ≤ 1 → m ≤ 0) ∧
      |rv F m - rv F t * Real.log (rv F b)| ≤ 36 * uR F := by
  have hp : (0 : Int) < 2 ^ F.f := by positivity
  have ht : Storable F t := ⟨by have := h.sw.zero_in.1; omega, by have := h.sw.d_le; omega⟩
  obtain ⟨l, hl, hlS, hle⟩ := ((C114_accuracy F h.v h.s h.r (by have := h.h16; omega) h.hg b hb).2 hb0).1
  obtain ⟨s1, s2⟩ := log_sign_pl h hb hb0 hl
  obtain ⟨g1, g2⟩ := log_size h hb hb0
  have hu := uR_pos F
  have hul := h.u_le
  rw [rv_eq, rv_eq, uR_eq] at hle
  have hle35 : |rv F l - Real.log (rv F b)| ≤ 35 * uR F := by
    refine le_trans hle (mul_le_mul_of_nonneg_right ?_ hu.le)
    have : |Real.log (rv F b)| ≤ 44 := abs_le.2 ⟨by norm_num at g1 ⊢; linarith, g2⟩
    norm_num; linarith
  have hlo := h.sw.lo_hi
  obtain ⟨z1, z2⟩ := h.sw.zero_in
  have hmb : (0 ≤ l → 0 ≤ t * l / 2 ^ F.f ∧ t * l / 2 ^ F.f ≤ l) ∧ (l ≤ 0 → t * l / 2 ^ F.f ≤ 0 ∧ l ≤ t * l / 2 ^ F.f) := by
    refine ⟨fun hc => ⟨Int.ediv_nonneg (mul_nonneg t0 hc) hp.le, ?_⟩, fun hc => ⟨?_, ?_⟩⟩
    · have : t * l ≤ 2 ^ F.f * l := by nlinarith
      calc t * l / 2 ^ F.f ≤ 2 ^ F.f * l / 2 ^ F.f := Int.ediv_le_ediv hp this
        _ = l := Int.mul_ediv_cancel_left _ hp.ne'
    · exact Int.ediv_le_of_le_mul hp (by rw [zero_mul]; exact mul_nonpos_of_nonneg_of_nonpos t0 hc)
    · rw [Int.le_ediv_iff_mul_le hp]; nlinarith
  -- the logarithm is far from the ends of the range
  have hlneg : F.T.lo < l := by
    rcases le_total 1 (val F b) with hc | hc
    · have := s1 hc; have := h.sw.d_le; omega
    · by_contra hcon
      have hlle : l ≤ F.T.lo := not_lt.1 hcon
      have hlr : rv F l ≤ rv F F.T.lo := (rv_le F).2 hlle
      have hlo32 : rv F F.T.lo ≤ -32 := by
        have e : rv F F.T.lo = -2 ^ (F.T.bits - 1 - F.f) := by
          rw [h.sw.lo_eq]
          unfold rv
          rw [show F.T.bits - 1 = (F.T.bits - 1 - F.f) + F.f by have := h.six; omega, pow_add]
          push_cast
          rw [neg_div, mul_div_assoc, div_self (by positivity), mul_one, Nat.add_sub_cancel]
        rw [e]; linarith [h.big]
      have := (abs_le.1 hle35).1
      norm_num at *; linarith
  obtain ⟨m, hmdef⟩ : ∃ m, m = t * l / 2 ^ F.f := ⟨_, rfl⟩
  rw [← hmdef] at hmb
  have hmS : Storable F m ∧ Storable F (-m) := by
    have := hlS.1; have := hlS.2
    rcases le_total 0 l with hc | hc
    · obtain ⟨a, c⟩ := hmb.1 hc
      exact ⟨⟨by omega, by omega⟩, ⟨by omega, by omega⟩⟩
    · obtain ⟨a, c⟩ := hmb.2 hc
      exact ⟨⟨by omega, by omega⟩, ⟨by omega, by omega⟩⟩
  have hm : mul F t l = .ok m := by
    have := h.sw.mul_ok h.r ht hlS (by rw [← hmdef]; exact hmS.1)
    rw [this, hmdef]
  refine ⟨l, m, hl, hm, hmS.1, hmS.2, fun hc => (hmb.1 (s1 hc)).1, fun hc => (hmb.2 (s2 hc)).1, ?_⟩
  have hT0 : 0 ≤ rv F t := by have := (rv_le F (a := 0) (b := t)).2 t0; simpa [rv] using this
  have hT1 : rv F t ≤ 1 := by
    have := (rv_le F (a := t) (b := 1 * 2 ^ F.f)).2 (by omega); rw [rv_int] at this; simpa using this
  obtain ⟨f1, f2⟩ := rv_floor F t l
  rw [← hmdef] at f1 f2
  have t1 : |rv F t * rv F l - rv F t * Real.log (rv F b)| ≤ 35 * uR F := by
    rw [← mul_sub, abs_mul, abs_of_nonneg hT0]
    calc rv F t * |rv F l - Real.log (rv F b)| ≤ 1 * (35 * uR F) := by gcongr
      _ = _ := one_mul _
  rw [abs_le] at t1 ⊢
  constructor <;> linarith [t1.1, t1.2]

/-- The steps of `pow` for a positive base and a non-negative exponent. -/
theorem pow_steps_pl {F : FxTy} (h : PL F) {b e p l m x : Int} (he : Storable F e) (e0 : 0 ≤ e) (hb0 : b ≠ 0)
    (hp : powInt F b (e / 2 ^ F.f) = .ok p) (hpS : Storable F p) (hl : log F b = .ok l) (hm : mul F (e - e / 2 ^ F.f * 2 ^ F.f) l = .ok m)
    (hx : exp F m = .ok x) (hxS : Storable F x) (hr : Storable F (p * x / 2 ^ F.f)) : powFixed F b e = .ok (p * x / 2 ^ F.f) := by
  obtain ⟨c1, c2, c3, c4⟩ := powSplit_sw h.sw he
  rw [Int.tdiv_eq_ediv_of_nonneg e0] at c1 c2 c3
  unfold powFixed powFixedBody
  rw [h.ofInt0, if_neg (by rw [eq_iff]; exact hb0), c1, Res.bind_ok]
  dsimp only
  rw [h.sw.wrap_ok c2, c3, Res.bind_ok, hp, Res.bind_ok, hl, Res.bind_ok, hm, Res.bind_ok, hx, Res.bind_ok, h.sw.mul_ok h.r hpS hxS hr]
  rfl

theorem exp_near_arg36 {m y u : ℝ} (hu : 0 < u) (hul : u ≤ 1 / 65536) (h : |m - y| ≤ 36 * u) :
    (1 - 36 * u) * Real.exp y ≤ Real.exp m ∧ Real.exp m ≤ (1 + 37 * u) * Real.exp y := by
  have hy := Real.exp_pos y
  have e : Real.exp m = Real.exp (m - y) * Real.exp y := by rw [← Real.exp_add]; congr 1; ring
  obtain ⟨a, b⟩ := abs_le.1 h
  rw [e]
  constructor
  · apply mul_le_mul_of_nonneg_right _ hy.le
    have := Real.add_one_le_exp (m - y); linarith
  · apply mul_le_mul_of_nonneg_right _ hy.le
    have h1 : Real.exp (m - y) ≤ Real.exp (36 * u) := Real.exp_le_exp.2 b
    have h2 := Real.exp_bound' (x := 36 * u) (by linarith) (by norm_num at *; linarith) (n := 2) (by norm_num)
    simp only [Finset.sum_range_succ, Finset.sum_range_zero] at h2
    norm_num [Nat.factorial] at h2
    nlinarith

/-- C158: for a base of at least one and a non-negative exponent with integer part `n`, wherever `b^e` fits with two percent to spare, `pow(b, e)` is defined, at
most `1.004 b^e` and at least `(0.8 - n ulp) b^e` (every signed layout of 32 bits with 16 to 26 and of 64 bits with 16 to 32 fraction bits). -/
theorem C158_large (F : FxTy) (hF : F.Valid) (hs : SignedWide F) (hr : F.r = false) (h16 : 16 ≤ F.f)
    (hg : F.f ≤ 26 ∨ F.T.bits = 64 ∧ F.f ≤ 32) (b e : Int) (hb : Storable F b) (he : Storable F e) (n : Nat) (hb1 : 1 ≤ val F b)
    (h0 : (n : ℚ) ≤ val F e) (h1 : val F e < n + 1)
    (hfit : ((val F b : ℚ) : ℝ) ^ ((val F e : ℚ) : ℝ) * (102 / 100) ≤ 2 ^ (F.T.bits - 1 - F.f)) :
    ∃ r, powFixed F b e = .ok r ∧ ((val F r : ℚ) : ℝ) ≤ 1004 / 1000 * ((val F b : ℚ) : ℝ) ^ ((val F e : ℚ) : ℝ) ∧
      (8 / 10 - n * ((ulp F : ℚ) : ℝ)) * ((val F b : ℚ) : ℝ) ^ ((val F e : ℚ) : ℝ) ≤ ((val F r : ℚ) : ℝ) := by
  have h : PL F := ⟨hF, hs, hr, h16, hg⟩
  have hp : (0 : Int) < 2 ^ F.f := by positivity
  have hfb : F.f < F.T.bits := h.sw.valid.flt
  have hb0 : 0 < val F b := by linarith
  have hbne : b ≠ 0 := by rintro rfl; rw [val_zero] at hb0; exact lt_irrefl _ hb0
  have e0 : 0 ≤ e := (val_le (F := F)).1 (by rw [val_zero]; exact le_trans (by positivity) h0)
  obtain ⟨hn, t0, t1, het⟩ := pow_parts n h0 h1
  obtain ⟨l, m, hl, hm, mS, -, mpos, -, hml⟩ := pow_arg_pl h hb hb0 t0 t1
  have hu := uR_pos F
  have hul := h.u_le
  have hB1 : 1 ≤ rv F b := by rw [← rv_eq]; exact_mod_cast hb1
  have hB0 : 0 < rv F b := by linarith
  have hsplit := rpow_split hB0 n _ het
  have hT0 : 0 ≤ rv F (e - e / 2 ^ F.f * 2 ^ F.f) := by have := (rv_le F (a := 0)).2 t0; simpa [rv] using this
  obtain ⟨x1, x2⟩ := exp_near_arg36 hu hul hml
  have hY1 : 1 ≤ Real.exp (rv F (e - e / 2 ^ F.f * 2 ^ F.f) * Real.log (rv F b)) := Real.one_le_exp (mul_nonneg hT0 (Real.log_nonneg hB1))
  have hP1 : 1 ≤ rv F b ^ n := one_le_pow₀ hB1
  simp only [rv_eq, uR_eq] at hfit ⊢
  rw [hsplit] at hfit ⊢
  generalize Real.exp (rv F (e - e / 2 ^ F.f * 2 ^ F.f) * Real.log (rv F b)) = Y at *
  have hle1 : rv F b ^ n ≤ rv F b ^ n * Y := by nlinarith
  have hle2 : Y ≤ rv F b ^ n * Y := by nlinarith
  -- the integer power
  have hhi : rv F F.T.hi = 2 ^ (F.T.bits - 1 - F.f) - uR F := by
    rw [h.sw.hi_eq, rv_u]
    push_cast
    rw [sub_mul, one_mul]
    congr 1
    unfold uR
    rw [show F.T.bits - 1 = (F.T.bits - 1 - F.f) + F.f by omega, pow_add]
    field_simp
    simp
  have hfitq : val F b ^ n ≤ val F F.T.hi := by
    have : rv F b ^ n ≤ rv F F.T.hi := by rw [hhi]; norm_num at hul; nlinarith
    rw [← rv_eq, ← rv_eq] at this
    exact_mod_cast this
  have hone : Representable F 1 := ⟨2 ^ F.f, h.sw.one, by have := val_int F 1; rw [one_mul] at this; rw [this]; norm_num⟩
  have hn64 : n < 2 ^ 64 := by
    have hh := he.2
    have := h.hi64
    have : (n : Int) ≤ e := by rw [← hn]; exact Int.ediv_le_self _ e0
    have : (n : Int) < 2 ^ 64 := by omega
    exact_mod_cast this
  obtain ⟨p, ep, pS, p1, p2, p0⟩ := C109_relative F h.sw.valid h.r hone b n hb hb1 hn64 hfitq
  have p1' : rv F p ≤ rv F b ^ n := by rw [← rv_eq, ← rv_eq]; exact_mod_cast p1
  have p2' : rv F b ^ n * (1 - n * uR F) ≤ rv F p := by rw [← rv_eq, ← rv_eq, ← uR_eq]; exact_mod_cast p2
  generalize rv F b ^ n = P at *
  have p0' : 0 ≤ rv F p := by rw [← rv_eq]; exact_mod_cast p0
  -- the exponential
  have hm0 := mpos hb1
  have hM0 : 0 ≤ val F m := by rw [← val_zero F, val_le]; exact hm0
  obtain ⟨x, hx, xS, y1, y2⟩ := C110_bounds F h.v h.s.1 h.r h.h16 (by have := h.f32; omega) h.three m mS hM0 (by
    rw [rv_eq]
    have : (1 + 37 * uR F) * Y ≤ 1.0006 * Y := mul_le_mul_of_nonneg_right (by norm_num at hul ⊢; linarith) (by linarith)
    norm_num at this; linarith)
  rw [rv_eq, rv_eq] at y1 y2
  have hx0 : 0 ≤ rv F x := le_trans (by positivity) y1
  obtain ⟨f1, f2⟩ := rv_floor F p x
  have up : rv F p * rv F x ≤ 1004 / 1000 * (P * Y) := by
    have a1 : rv F x ≤ 1004 / 1000 * Y := by norm_num at hul; nlinarith
    have := mul_le_mul p1' a1 hx0 (by linarith)
    linarith
  have q0 : 0 ≤ p * x / 2 ^ F.f := by
    have z0 : rv F 0 = 0 := by simp [rv]
    rw [← z0, rv_le] at p0' hx0
    exact Int.ediv_nonneg (mul_nonneg p0' hx0) hp.le
  have hst : Storable F (p * x / 2 ^ F.f) := by
    refine fits_of_lt' h.sw q0 hfb ?_
    have : 0 < P * Y := by positivity
    norm_num at up hfit ⊢; linarith
  refine ⟨_, pow_steps_pl h he e0 hbne (by rw [hn]; exact ep) pS hl hm hx xS hst, by linarith, ?_⟩
  by_cases hnu : (n : ℝ) * uR F ≤ 8 / 10
  · have a1 : 0.8094 * Y ≤ rv F x := by norm_num at hul ⊢; nlinarith
    have a2 : P * (1 - n * uR F) * (0.8094 * Y) ≤ rv F p * rv F x := mul_le_mul p2' a1 (by positivity) p0'
    have a3 : 1 ≤ P * Y := by nlinarith
    have a4 : 0 ≤ P * Y * (n * uR F) := by positivity
    have a5 : uR F ≤ P * Y * uR F := by nlinarith
    have a6 : P * Y * uR F ≤ P * Y * (1 / 65536) := mul_le_mul_of_nonneg_left hul (by linarith)
    norm_num at a2 ⊢
    nlinarith
  · have a1 : 0 ≤ rv F (p * x / 2 ^ F.f) := by have := (rv_le F (a := 0)).2 q0; simpa [rv] using this
    have a2 : (8 / 10 - n * uR F) * (P * Y) ≤ 0 := mul_nonpos_of_nonpos_of_nonneg (by linarith) (by positivity)
    linarith
example : powFixed ⟨i64, i128, 20, false⟩ (5 * 2 ^ 19) (9 * 2 ^ 18) = .ok 7490012 ∧ powFixed ⟨i32, i64, 20, false⟩ (5 * 2 ^ 19) (9 * 2 ^ 18) = .ok 7490012 := by
  decide +kernel
example : ∃ r, powFixed ⟨i32, i64, 24, false⟩ (2 * 2 ^ 24) (5 * 2 ^ 23) = .ok r := by
  obtain ⟨r, e, -⟩ := C158_large ⟨i32, i64, 24, false⟩ (by decide) (by decide) rfl (by decide) (by decide) (2 * 2 ^ 24) (5 * 2 ^ 23) (by decide +kernel)
    (by decide +kernel) 2 (by norm_num [val]) (by norm_num [val]) (by norm_num [val]) (by
      have e1 : ((val ⟨i32, i64, 24, false⟩ (2 * 2 ^ 24) : ℚ) : ℝ) = 2 := by norm_num [val]
      have e2 : ((val ⟨i32, i64, 24, false⟩ (5 * 2 ^ 23) : ℚ) : ℝ) = 5 / 2 := by norm_num [val]
      rw [e1, e2]
      have : (2 : ℝ) ^ (5 / 2 : ℝ) ≤ 2 ^ (3 : ℝ) := Real.rpow_le_rpow_of_exponent_le (by norm_num) (by norm_num)
      norm_num at this ⊢
      linarith)
  exact ⟨r, e⟩
/-- The exponential at the arguments `pow` uses for bases up to one. -/
theorem exp_nonpos_pl {F : FxTy} (h : PL F) {m : Int} (hm : m ≤ 0) (mS' : Storable F (-m))
    (hx : Real.exp (-rv F m) * (1003 / 1000) ≤ 2 ^ (F.T.bits - 1 - F.f)) :
    ∃ x, exp F m = .ok x ∧ 997 / 1000 * Real.exp (rv F m) - uR F ≤ rv F x ∧ rv F x ≤ 124 / 100 * Real.exp (rv F m) ∧ 0 ≤ x ∧ Storable F x := by
  have hu := uR_pos F
  have hone : Representable F 1 := ⟨2 ^ F.f, h.sw.one, by have := val_int F 1; rw [one_mul] at this; rw [this]; norm_num⟩
  have st : ∀ x : Int, rv F x ≤ 124 / 100 → 0 ≤ x → Storable F x := by
    intro x h1 h2
    refine fits_of_lt' h.sw h2 h.sw.valid.flt (lt_of_le_of_lt h1 ?_)
    have := h.big; norm_num at *; linarith
  have hM : rv F m ≤ 0 := by have := (rv_le F (b := 0)).2 hm; simpa [rv] using this
  have hE1 : Real.exp (rv F m) ≤ 1 := Real.exp_le_one_iff.2 hM
  have z0 : rv F 0 = 0 := by simp [rv]
  rcases eq_or_lt_of_le hm with rfl | hneg
  · obtain ⟨x, e, vx⟩ := C37_zero F h.sw.valid hone
    have rx : rv F x = 1 := by rw [← rv_eq, vx]; norm_num
    have x0 : 0 ≤ x := by rw [← rv_le F, z0, rx]; norm_num
    refine ⟨x, e, ?_, ?_, x0, st x (by rw [rx]; norm_num) x0⟩
    · rw [rx, z0, Real.exp_zero]; linarith
    · rw [rx, z0, Real.exp_zero]; norm_num
  · obtain ⟨x, e, x1, x2⟩ := C110_negative F h.v h.s.1 h.r h.h16 (by have := h.f32; omega) h.three m mS' (by rw [← val_zero F, val_lt]; exact hneg) (by rw [rv_eq]; exact hx)
    rw [rv_eq, rv_eq] at x1 x2
    rw [uR_eq] at x1
    have x0 : 0 ≤ x := by
      have : rv F (-1) < rv F x := by
        rw [rv_neg, show rv F 1 = uR F by rw [rv_u]; norm_num]
        have := Real.exp_pos (rv F m); linarith
      rw [rv_lt] at this; omega
    exact ⟨x, e, x1, x2, x0, st x (by linarith) x0⟩

/-- C158: for a base between `1.02 / 2^(integer bits)` and one and a non-negative exponent with integer part `n`, `pow(b, e)` is defined, at most `1.241 b^e` and
at least `0.996 b^e - (n + 2) ulp` (the same layouts). -/
theorem C158_small (F : FxTy) (hF : F.Valid) (hs : SignedWide F) (hr : F.r = false) (h16 : 16 ≤ F.f)
    (hg : F.f ≤ 26 ∨ F.T.bits = 64 ∧ F.f ≤ 32) (b e : Int) (hb : Storable F b) (he : Storable F e) (n : Nat) (hb1 : val F b ≤ 1)
    (hbl : 102 / 100 ≤ val F b * 2 ^ (F.T.bits - 1 - F.f)) (h0 : (n : ℚ) ≤ val F e) (h1 : val F e < n + 1) :
    ∃ r, powFixed F b e = .ok r ∧ ((val F r : ℚ) : ℝ) ≤ 1241 / 1000 * ((val F b : ℚ) : ℝ) ^ ((val F e : ℚ) : ℝ) ∧
      996 / 1000 * ((val F b : ℚ) : ℝ) ^ ((val F e : ℚ) : ℝ) - (n + 2) * ((ulp F : ℚ) : ℝ) ≤ ((val F r : ℚ) : ℝ) := by
  have h : PL F := ⟨hF, hs, hr, h16, hg⟩
  have hp : (0 : Int) < 2 ^ F.f := by positivity
  have hfb : F.f < F.T.bits := h.sw.valid.flt
  have hb0 : 0 < val F b := by
    by_contra hc
    have : val F b * 2 ^ (F.T.bits - 1 - F.f) ≤ 0 := mul_nonpos_of_nonpos_of_nonneg (not_lt.1 hc) (by positivity)
    linarith
  have hbne : b ≠ 0 := by rintro rfl; rw [val_zero] at hb0; exact lt_irrefl _ hb0
  have e0 : 0 ≤ e := (val_le (F := F)).1 (by rw [val_zero]; exact le_trans (by positivity) h0)
  obtain ⟨hn, t0, t1, het⟩ := pow_parts n h0 h1
  obtain ⟨l, m, hl, hm, mS, mS', -, mneg, hml⟩ := pow_arg_pl h hb hb0 t0 t1
  have hu := uR_pos F
  have hul := h.u_le
  have hB1 : rv F b ≤ 1 := by rw [← rv_eq]; exact_mod_cast hb1
  have hB0 : 0 < rv F b := by rw [← rv_eq]; exact_mod_cast hb0
  have hBl : 102 / 100 ≤ rv F b * 2 ^ (F.T.bits - 1 - F.f) := by
    have : ((102 / 100 : ℚ) : ℝ) ≤ ((val F b * 2 ^ (F.T.bits - 1 - F.f) : ℚ) : ℝ) := by exact_mod_cast hbl
    push_cast at this; rw [rv_eq] at this; exact this
  have hsplit := rpow_split hB0 n _ het
  have hT0 : 0 ≤ rv F (e - e / 2 ^ F.f * 2 ^ F.f) := by have := (rv_le F (a := 0)).2 t0; simpa [rv] using this
  have hT1 : rv F (e - e / 2 ^ F.f * 2 ^ F.f) ≤ 1 := by
    have := (rv_le F (b := 1 * 2 ^ F.f)).2 (show e - e / 2 ^ F.f * 2 ^ F.f ≤ 1 * 2 ^ F.f by omega); rw [rv_int] at this; simpa using this
  obtain ⟨x1, x2⟩ := exp_near_arg36 hu hul hml
  have hlog : Real.log (rv F b) ≤ 0 := Real.log_nonpos hB0.le hB1
  have hYb : rv F b ≤ Real.exp (rv F (e - e / 2 ^ F.f * 2 ^ F.f) * Real.log (rv F b)) := by
    conv_lhs => rw [← Real.exp_log hB0]
    exact Real.exp_le_exp.2 (by nlinarith)
  have hY1 : Real.exp (rv F (e - e / 2 ^ F.f * 2 ^ F.f) * Real.log (rv F b)) ≤ 1 :=
    Real.exp_le_one_iff.2 (mul_nonpos_of_nonneg_of_nonpos hT0 hlog)
  have hP0 : 0 ≤ rv F b ^ n := by positivity
  have hP1 : rv F b ^ n ≤ 1 := pow_le_one₀ hB0.le hB1
  simp only [rv_eq, uR_eq]
  rw [hsplit]
  generalize Real.exp (rv F (e - e / 2 ^ F.f * 2 ^ F.f) * Real.log (rv F b)) = Y at *
  have hY0 : 0 < Y := by linarith
  have hone : Representable F 1 := ⟨2 ^ F.f, h.sw.one, by have := val_int F 1; rw [one_mul] at this; rw [this]; norm_num⟩
  have hn64 : n < 2 ^ 64 := by
    have hh := he.2
    have := h.hi64
    have : (n : Int) ≤ e := by rw [← hn]; exact Int.ediv_le_self _ e0
    have : (n : Int) < 2 ^ 64 := by omega
    exact_mod_cast this
  obtain ⟨p, ep, pS, p1, p2, p0⟩ := C109_absolute F h.sw.valid h.r hone b n hb hb0.le hb1 hn64
  have p1' : rv F p ≤ rv F b ^ n := by rw [← rv_eq, ← rv_eq]; exact_mod_cast p1
  have p2' : rv F b ^ n - n * uR F ≤ rv F p := by rw [← rv_eq, ← rv_eq, ← uR_eq]; exact_mod_cast p2
  have p0' : 0 ≤ rv F p := by rw [← rv_eq]; exact_mod_cast p0
  generalize rv F b ^ n = P at *
  have hB : (0 : ℝ) < 2 ^ (F.T.bits - 1 - F.f) := by positivity
  obtain ⟨x, hx, y1, y2, x0, xS⟩ := exp_nonpos_pl h (mneg hb1) mS' (by
    rw [Real.exp_neg, inv_eq_one_div, div_mul_eq_mul_div, one_mul, div_le_iff₀ (Real.exp_pos _)]
    have a1 : 0.9994 * Y ≤ Real.exp (rv F m) := le_trans (mul_le_mul_of_nonneg_right (by norm_num at hul ⊢; linarith) hY0.le) x1
    have a2 : 102 / 100 ≤ Y * 2 ^ (F.T.bits - 1 - F.f) := le_trans hBl (mul_le_mul_of_nonneg_right hYb hB.le)
    have a3 : 0.9994 * Y * 2 ^ (F.T.bits - 1 - F.f) ≤ Real.exp (rv F m) * 2 ^ (F.T.bits - 1 - F.f) := mul_le_mul_of_nonneg_right a1 hB.le
    norm_num at a2 a3 ⊢
    nlinarith)
  have hx0 : 0 ≤ rv F x := by have := (rv_le F (a := 0)).2 x0; simpa [rv] using this
  obtain ⟨f1, f2⟩ := rv_floor F p x
  have x2' : Real.exp (rv F m) ≤ 1.0006 * Y := le_trans x2 (mul_le_mul_of_nonneg_right (by norm_num at hul ⊢; linarith) hY0.le)
  have x1' : 0.9994 * Y ≤ Real.exp (rv F m) := le_trans (mul_le_mul_of_nonneg_right (by norm_num at hul ⊢; linarith) hY0.le) x1
  have up : rv F p * rv F x ≤ 1241 / 1000 * (P * Y) := by
    have a1 : rv F x ≤ 1241 / 1000 * Y := by norm_num at x2' ⊢; linarith
    have := mul_le_mul p1' a1 hx0 hP0
    linarith
  have q0 : 0 ≤ p * x / 2 ^ F.f := by
    have z0 : rv F 0 = 0 := by simp [rv]
    rw [← z0, rv_le] at p0'
    exact Int.ediv_nonneg (mul_nonneg p0' x0) hp.le
  have hPY : P * Y ≤ 1 := by nlinarith
  have hst : Storable F (p * x / 2 ^ F.f) := by
    refine fits_of_lt' h.sw q0 hfb (lt_of_le_of_lt f1 (lt_of_le_of_lt up ?_))
    have : (2 : ℝ) ≤ 2 ^ (F.T.bits - 1 - F.f) := by
      linarith [h.big]
    norm_num at *; linarith
  refine ⟨_, pow_steps_pl h he e0 hbne (by rw [hn]; exact ep) pS hl hm hx xS hst, by linarith, ?_⟩
  have a1 : 0.9964 * Y - uR F ≤ rv F x := by norm_num at x1' ⊢; linarith
  have a2 : rv F p * (0.9964 * Y - uR F) ≤ rv F p * rv F x := mul_le_mul_of_nonneg_left a1 p0'
  have a3 : rv F p * uR F ≤ 1 * uR F := mul_le_mul_of_nonneg_right (by linarith) hu.le
  have a4 : (P - n * uR F) * (0.9964 * Y) ≤ rv F p * (0.9964 * Y) := mul_le_mul_of_nonneg_right p2' (by positivity)
  have a5 : (n * uR F) * (0.9964 * Y) ≤ (n * uR F) * 1 := mul_le_mul_of_nonneg_left (by norm_num; linarith) (by positivity)
  have a6 : 0 ≤ P * Y := by positivity
  norm_num at *
  nlinarith
example : powFixed ⟨i32, i64, 24, false⟩ (2 ^ 22) (5 * 2 ^ 23) = .ok 634194 ∧ PL ⟨i32, i64, 24, false⟩ ∧ val ⟨i32, i64, 24, false⟩ (2 ^ 22) = 1 / 4 ∧
    val ⟨i32, i64, 24, false⟩ (5 * 2 ^ 23) = 5 / 2 := by
  refine ⟨by decide +kernel, ⟨by decide, by decide, rfl, by decide, by decide⟩, by norm_num [val], by norm_num [val]⟩

/-- C158: with 33 to 59 fraction bits every `pow(b, e)` with a non-zero base and a non-negative exponent is undefined: the logarithm shifts too far. -/
theorem C158_shift (F : FxTy) (hF : F.Valid) (hs : SignedWide F) (hr : F.r = false) (h : 33 ≤ F.f) (h59 : F.f ≤ 59) (h4 : F.f + 4 ≤ F.T.bits)
    (b e : Int) (hb : Storable F b) (he : Storable F e) (hb0 : val F b ≠ 0) (he0 : 0 ≤ val F e) : powFixed F b e = .ub .shift := by
  have hsw : SW F := by
    have hp : (0 : Int) < 2 ^ F.f := by positivity
    have h1 : (2 : Int) ^ (F.f + 3) ≤ 2 ^ (F.T.bits - 1) := pow_le_pow_right₀ (by norm_num) (by omega)
    rw [pow_add] at h1
    refine ⟨hF, hs, ?_, ?_⟩
    · unfold IntTy.lo; rw [hs.1, if_pos rfl]; omega
    · unfold IntTy.hi; rw [hs.1, if_pos rfl]; omega
  have e0 : 0 ≤ e := (val_le (F := F)).1 (by rw [val_zero]; exact he0)
  have hbne : b ≠ 0 := by rintro rfl; rw [val_zero] at hb0; exact hb0 rfl
  obtain ⟨c1, c2, c3, c4⟩ := powSplit_sw hsw he
  rw [Int.tdiv_eq_ediv_of_nonneg e0] at c1 c2 c3
  have n0 : 0 ≤ e / 2 ^ F.f := Int.ediv_nonneg e0 (by positivity)
  have n1 : e / 2 ^ F.f < 2 ^ 64 := by
    have := c2.2
    rw [hsw.hi_eq] at this
    have : (2 : Int) ^ (F.T.bits - 1) ≤ 2 ^ 64 := pow_le_pow_right₀ (by norm_num) (by have := hF.1; omega)
    omega
  obtain ⟨p, hp, -⟩ := C35_defined F hF hr b (e / 2 ^ F.f) hb n0 n1
  have z : ofInt F 0 = 0 := by rw [ofInt_eq F hF, zero_mul]; exact hsw.wrap_ok hsw.zero_in
  unfold powFixed powFixedBody
  rw [z, if_neg (by rw [eq_iff]; exact hbne), c1, Res.bind_ok]
  dsimp only
  rw [hsw.wrap_ok c2, c3, Res.bind_ok, hp, Res.bind_ok, (C114_shift F hF hs hr h h59 h4 b).1, Res.bind_ub]
  rfl
example : powFixed ⟨i64, i128, 40, false⟩ (2 * 2 ^ 40) (5 * 2 ^ 39) = .ub .shift := by decide +kernel

/-- C158: a negative base ends the program: the logarithm throws inside a function declared `noexcept`. -/
theorem C158_negative_base (F : FxTy) (hF : F.Valid) (hs : SignedWide F) (hr : F.r = false) (h16 : 16 ≤ F.f)
    (hg : F.f ≤ 26 ∨ F.T.bits = 64 ∧ F.f ≤ 32) (b e : Int) (hb : Storable F b) (he : Storable F e)
    (hb0 : val F b < 0) (he0 : 0 ≤ val F e) : powFixed F b e = .throw .terminate := by
  have h : PL F := ⟨hF, hs, hr, h16, hg⟩
  have e0 : 0 ≤ e := (val_le (F := F)).1 (by rw [val_zero]; exact he0)
  have hbne : b ≠ 0 := by rintro rfl; rw [val_zero] at hb0; exact lt_irrefl _ hb0
  obtain ⟨c1, c2, c3, c4⟩ := powSplit_sw h.sw he
  rw [Int.tdiv_eq_ediv_of_nonneg e0] at c1 c2 c3
  obtain ⟨p, hp, -⟩ := C35_defined F hF hr b (e / 2 ^ F.f) hb (Int.ediv_nonneg e0 (by positivity)) (lt_of_le_of_lt c2.2 h.hi64)
  have hl := ((C114_accuracy F hF hs hr (by omega) hg b hb).1 hb0.le).1
  unfold powFixed powFixedBody
  rw [h.ofInt0, if_neg (by rw [eq_iff]; exact hbne), c1, Res.bind_ok]
  dsimp only
  rw [h.sw.wrap_ok c2, c3, Res.bind_ok, hp, Res.bind_ok, hl, Res.bind_throw]
  rfl
example : powFixed ⟨i64, i128, 20, false⟩ (-(2 ^ 20)) (2 ^ 21) = .throw .terminate := by decide +kernel

/-- C158: with a whole exponent the result is that of the integer power, for every positive base. -/
theorem C158_whole (F : FxTy) (hF : F.Valid) (hs : SignedWide F) (hr : F.r = false) (h16 : 16 ≤ F.f)
    (hg : F.f ≤ 26 ∨ F.T.bits = 64 ∧ F.f ≤ 32) (b : Int) (n : Nat) (hb : Storable F b) (hn : Storable F (n * 2 ^ F.f)) (hb0 : 0 < val F b) :
    ∃ r, powFixed F b (n * 2 ^ F.f) = .ok r ∧ powInt F b n = .ok r ∧ Storable F r := by
  have h : PL F := ⟨hF, hs, hr, h16, hg⟩
  have hp : (0 : Int) < 2 ^ F.f := by positivity
  have hbne : b ≠ 0 := by rintro rfl; rw [val_zero] at hb0; exact lt_irrefl _ hb0
  have hdiv : (n * 2 ^ F.f : Int) / 2 ^ F.f = n := Int.mul_ediv_cancel _ hp.ne'
  have e0 : (0 : Int) ≤ n * 2 ^ F.f := by positivity
  obtain ⟨c1, c2, c3, c4⟩ := powSplit_sw h.sw hn
  rw [Int.tdiv_eq_ediv_of_nonneg e0, hdiv] at c1 c2 c3
  rw [sub_self] at c3
  obtain ⟨p, ep, pS⟩ := C35_defined F hF hr b n hb (Int.natCast_nonneg n) (lt_of_le_of_lt c2.2 h.hi64)
  obtain ⟨l, hl, lS, -⟩ := ((C114_accuracy F hF hs hr (by omega) hg b hb).2 hb0).1
  have hm : mul F 0 l = .ok 0 := by
    have := h.sw.mul_ok hr (x := 0) (y := l) h.sw.zero_in lS (by rw [zero_mul, Int.zero_ediv]; exact h.sw.zero_in)
    rw [this, zero_mul, Int.zero_ediv]
  have h1 : ofInt F 1 = 2 ^ F.f := by rw [ofInt_eq F hF, one_mul]; exact h.sw.wrap_ok h.sw.one
  have hx : exp F 0 = .ok (2 ^ F.f) := by
    unfold exp
    rw [h.ofInt0, h1, if_pos (by rw [eq_iff])]
  have hpm : mul F p (2 ^ F.f) = .ok p := by
    have := h.sw.mul_ok hr (x := p) (y := 2 ^ F.f) pS h.sw.one (by rw [Int.mul_ediv_cancel _ hp.ne']; exact pS)
    rw [this, Int.mul_ediv_cancel _ hp.ne']
  refine ⟨p, ?_, ep, pS⟩
  unfold powFixed powFixedBody
  rw [h.ofInt0, if_neg (by rw [eq_iff]; exact hbne), c1, Res.bind_ok]
  dsimp only
  rw [h.sw.wrap_ok c2, c3, Res.bind_ok, ep, Res.bind_ok, hl, Res.bind_ok, hm, Res.bind_ok, hx, Res.bind_ok, hpm]
  rfl
example : powFixed ⟨i64, i128, 20, false⟩ (3 * 2 ^ 19) (3 * 2 ^ 20) = .ok 3538944 := by decide +kernel

end Eirin.Props
