import Verif.Props.PowFixed
import Verif.Props.ExpRange
import Verif.Props.PowAll

/-! # Property C111: fixed-point powers over the whole range in which their value fits. -/

namespace Eirin.Props
open Spec

/-- The logarithm has the sign of `b - 1`. -/
theorem log_sign (F : FxTy) (hF : F = fixed32 ∨ F = fixed64) {b l : Int} (hb : Storable F b) (hb0 : 0 < val F b) (hl : log F b = .ok l) :
    (1 ≤ val F b → 0 ≤ l) ∧ (val F b ≤ 1 → l ≤ 0) := by
  have h : Lib F := by rcases hF with rfl | rfl; exacts [lib32, lib64]
  have hone : Storable F (2 ^ F.f) := h.sw.one
  have hv1 : val F (2 ^ F.f) = 1 := by have := val_int F 1; rw [one_mul] at this; rw [this]; norm_num
  have z1 : log F (2 ^ F.f) = .ok 0 := by rcases hF with rfl | rfl <;> decide +kernel
  obtain ⟨a', ha', _⟩ := ((C34_log_domain F hF _ hone).2 (by rw [hv1]; norm_num)).2
  obtain ⟨b', hb'', _⟩ := ((C34_log_domain F hF b hb).2 hb0).2
  constructor <;> intro hc
  · exact (val_le (F := F)).1 (C34_log_mono F hF (2 ^ F.f) b 0 l a' b' hone hb (by rw [hv1]; norm_num) (by rw [hv1]; exact hc) z1 hl ha' hb'').1
  · exact (val_le (F := F)).1 (C34_log_mono F hF b (2 ^ F.f) l 0 b' a' hb hone hb0 (by rw [hv1]; exact hc) hl z1 hb'' ha').1

/-- The argument `m` that `pow` passes to `exp`: the fractional part `t` of the exponent times the logarithm, within 16 ulp. -/
theorem pow_arg (F : FxTy) (hF : F = fixed32 ∨ F = fixed64) {b t : Int} (hb : Storable F b) (hb0 : 0 < val F b) (t0 : 0 ≤ t) (t1 : t < 2 ^ F.f) :
    ∃ l m, log F b = .ok l ∧ mul F t l = .ok m ∧ Storable F m ∧ Storable F (-m) ∧ (1 ≤ val F b → 0 ≤ m) ∧ (val F b ≤ 1 → m ≤ 0) ∧
      |rv F m - rv F t * Real.log (rv F b)| ≤ 16 * uR F := by
  have h : Lib F := by rcases hF with rfl | rfl; exacts [lib32, lib64]
  have hp : (0 : Int) < 2 ^ F.f := by positivity
  have ht : Storable F t := ⟨by have := h.sw.zero_in.1; omega, by have := h.sw.d_le; omega⟩
  obtain ⟨l, hl, hle⟩ := C34_log_accuracy F hF b hb hb0
  obtain ⟨l', hl', hlS⟩ := ((C34_log_domain F hF b hb).2 hb0).1
  rw [hl] at hl'
  obtain rfl := Res.ok.inj hl'
  obtain ⟨s1, s2⟩ := log_sign F hF hb hb0 hl
  have hlo := h.sw.lo_hi
  obtain ⟨z1, z2⟩ := h.sw.zero_in
  have hmb : (0 ≤ l → 0 ≤ t * l / 2 ^ F.f ∧ t * l / 2 ^ F.f ≤ l) ∧ (l ≤ 0 → t * l / 2 ^ F.f ≤ 0 ∧ l ≤ t * l / 2 ^ F.f) := by
    refine ⟨fun hc => ⟨Int.ediv_nonneg (mul_nonneg t0 hc) hp.le, ?_⟩, fun hc => ⟨?_, ?_⟩⟩
    · have : t * l ≤ 2 ^ F.f * l := by nlinarith
      calc t * l / 2 ^ F.f ≤ 2 ^ F.f * l / 2 ^ F.f := Int.ediv_le_ediv hp this
        _ = l := Int.mul_ediv_cancel_left _ hp.ne'
    · exact Int.ediv_le_of_le_mul hp (by rw [zero_mul]; exact mul_nonpos_of_nonneg_of_nonpos t0 hc)
    · rw [Int.le_ediv_iff_mul_le hp]; nlinarith
  -- the logarithm is far from the ends of the range
  have hlneg : F.T.lo < l := by
    rcases le_total 1 (val F b) with hc | hc
    · have := s1 hc; have := h.sw.d_le; omega
    · by_contra hcon
      have hlle : l ≤ F.T.lo := not_lt.1 hcon
      simp only [rv_eq, uR_eq] at hle
      have hB0 : 0 < rv F b := by rw [← rv_eq]; exact_mod_cast hb0
      have hbu : uR F ≤ rv F b := by
        have : 1 ≤ b := by have := (val_lt (F := F) (x := 0) (y := b)).1 (by rw [val_zero]; exact hb0); omega
        have := (rv_le F).2 this
        rwa [show rv F 1 = uR F by rw [rv_u]; norm_num] at this
      have hlog := Real.log_le_log (uR_pos F) hbu
      have hlu : Real.log (uR F) = -(F.f * Real.log 2) := by
        unfold uR; rw [one_div, Real.log_inv, Real.log_pow]
      have l2 := Real.log_two_lt_d9
      have hlr : rv F l ≤ rv F F.T.lo := (rv_le F).2 hlle
      rcases hF with rfl | rfl
      · rw [show rv fixed32 fixed32.T.lo = -32768 by rw [show fixed32.T.lo = -2147483648 by decide, rvn32]; norm_num] at hlr
        rw [hlu, show ((fixed32.f : ℕ) : ℝ) = 16 by norm_num [fixed32]] at hlog
        rw [if_pos (by rfl), un32] at hle
        have := (abs_lt.1 hle).1
        norm_num at *; linarith
      · rw [show rv fixed64 fixed64.T.lo = -2147483648 by rw [show fixed64.T.lo = -9223372036854775808 by decide, rvn64]; norm_num] at hlr
        rw [hlu, show ((fixed64.f : ℕ) : ℝ) = 32 by norm_num [fixed64]] at hlog
        rw [if_neg (by decide), un64] at hle
        have := (abs_lt.1 hle).1
        norm_num at *; linarith
  obtain ⟨m, hmdef⟩ : ∃ m, m = t * l / 2 ^ F.f := ⟨_, rfl⟩
  rw [← hmdef] at hmb
  have hmS : Storable F m ∧ Storable F (-m) := by
    have := hlS.1; have := hlS.2
    rcases le_total 0 l with hc | hc
    · obtain ⟨a, c⟩ := hmb.1 hc
      exact ⟨⟨by omega, by omega⟩, ⟨by omega, by omega⟩⟩
    · obtain ⟨a, c⟩ := hmb.2 hc
      exact ⟨⟨by omega, by omega⟩, ⟨by omega, by omega⟩⟩
  have hm : mul F t l = .ok m := by
    have := h.sw.mul_ok h.r ht hlS (by rw [← hmdef]; exact hmS.1)
    rw [this, hmdef]
  refine ⟨l, m, hl, hm, hmS.1, hmS.2, fun hc => (hmb.1 (s1 hc)).1, fun hc => (hmb.2 (s2 hc)).1, ?_⟩
  have hu := uR_pos F
  have hT0 : 0 ≤ rv F t := by have := (rv_le F (a := 0) (b := t)).2 t0; simpa [rv] using this
  have hT1 : rv F t ≤ 1 := by
    have := (rv_le F (a := t) (b := 1 * 2 ^ F.f)).2 (by omega); rw [rv_int] at this; simpa using this
  have hle15 : |rv F l - Real.log (rv F b)| ≤ 15 * uR F := by
    rw [rv_eq, rv_eq, uR_eq] at hle
    refine le_trans hle.le ?_
    split <;> nlinarith
  obtain ⟨f1, f2⟩ := rv_floor F t l
  rw [← hmdef] at f1 f2
  have t1 : |rv F t * rv F l - rv F t * Real.log (rv F b)| ≤ 15 * uR F := by
    rw [← mul_sub, abs_mul, abs_of_nonneg hT0]
    calc rv F t * |rv F l - Real.log (rv F b)| ≤ 1 * (15 * uR F) := by gcongr
      _ = _ := one_mul _
  rw [abs_le] at t1 ⊢
  constructor <;> linarith [t1.1, t1.2]

/-- The steps of `pow` for a positive base and a non-negative exponent. -/
theorem pow_steps (F : FxTy) (hF : F = fixed32 ∨ F = fixed64) {b e p l m x : Int} (he : Storable F e) (e0 : 0 ≤ e) (hb0 : b ≠ 0)
    (hp : powInt F b (e / 2 ^ F.f) = .ok p) (hpS : Storable F p) (hl : log F b = .ok l) (hm : mul F (e - e / 2 ^ F.f * 2 ^ F.f) l = .ok m)
    (hx : exp F m = .ok x) (hxS : Storable F x) (hr : Storable F (p * x / 2 ^ F.f)) : powFixed F b e = .ok (p * x / 2 ^ F.f) := by
  have h : Lib F := by rcases hF with rfl | rfl; exacts [lib32, lib64]
  obtain ⟨c1, c2, c3, c4⟩ := powSplit h he
  rw [Int.tdiv_eq_ediv_of_nonneg e0] at c1 c2 c3
  unfold powFixed powFixedBody
  rw [h.ofInt0, if_neg (by rw [eq_iff]; exact hb0), c1, Res.bind_ok]
  dsimp only
  rw [h.sw.wrap_ok c2, c3, Res.bind_ok, hp, Res.bind_ok, hl, Res.bind_ok, hm, Res.bind_ok, hx, Res.bind_ok, h.sw.mul_ok h.r hpS hxS hr]
  rfl

/-- The exact power, split at the integer part of the exponent. -/
theorem rpow_split {B e : ℝ} (hB : 0 < B) (n : Nat) (t : ℝ) (he : e = n + t) : B ^ e = B ^ n * Real.exp (t * Real.log B) := by
  rw [he, Real.rpow_add hB, Real.rpow_natCast, Real.rpow_def_of_pos hB, mul_comm (Real.log B)]

theorem exp_near_arg {m y u : ℝ} (hu : 0 < u) (hul : u ≤ 1 / 65536) (h : |m - y| ≤ 16 * u) :
    (1 - 16 * u) * Real.exp y ≤ Real.exp m ∧ Real.exp m ≤ (1 + 17 * u) * Real.exp y := by
  have hy := Real.exp_pos y
  have e : Real.exp m = Real.exp (m - y) * Real.exp y := by rw [← Real.exp_add]; congr 1; ring
  obtain ⟨a, b⟩ := abs_le.1 h
  rw [e]
  constructor
  · apply mul_le_mul_of_nonneg_right _ hy.le
    have := Real.add_one_le_exp (m - y); linarith
  · apply mul_le_mul_of_nonneg_right _ hy.le
    have h1 : Real.exp (m - y) ≤ Real.exp (16 * u) := Real.exp_le_exp.2 b
    have h2 := Real.exp_bound' (x := 16 * u) (by linarith) (by norm_num at *; linarith) (n := 2) (by norm_num)
    simp only [Finset.sum_range_succ, Finset.sum_range_zero] at h2
    norm_num [Nat.factorial] at h2
    nlinarith

/-- Integer and fractional part of the exponent. -/
theorem pow_parts {F : FxTy} {e : Int} (n : Nat) (h0 : (n : ℚ) ≤ val F e) (h1 : val F e < n + 1) :
    e / 2 ^ F.f = n ∧ 0 ≤ e - e / 2 ^ F.f * 2 ^ F.f ∧ e - e / 2 ^ F.f * 2 ^ F.f < 2 ^ F.f ∧ rv F e = n + rv F (e - e / 2 ^ F.f * 2 ^ F.f) := by
  have hp : (0 : Int) < 2 ^ F.f := by positivity
  have i0 : (n : Int) * 2 ^ F.f ≤ e := (val_le (F := F)).1 (by rw [val_int]; exact_mod_cast h0)
  have i1 : e < ((n : Int) + 1) * 2 ^ F.f := (val_lt (F := F)).1 (by rw [val_int]; exact_mod_cast h1)
  have hn : e / 2 ^ F.f = n := (Int.ediv_eq_iff_of_pos hp).2 ⟨i0, by linarith⟩
  rw [hn]
  exact ⟨rfl, by omega, by linarith, by rw [rv_sub, rv_int]; push_cast; ring⟩

theorem fits_of_lt' {F : FxTy} (h : SW F) {z : Int} (h0 : 0 ≤ z) (hf : F.f < F.T.bits) (hz : rv F z < 2 ^ (F.T.bits - 1 - F.f)) : Storable F z := by
  unfold rv at hz
  rw [div_lt_iff₀ (by positivity), ← pow_add, show F.T.bits - 1 - F.f + F.f = F.T.bits - 1 by omega] at hz
  have hz' : z < 2 ^ (F.T.bits - 1) := by exact_mod_cast hz
  exact ⟨by have := h.zero_in.1; omega, by rw [h.hi_eq]; omega⟩

/-- C111: for a base of at least one and a non-negative exponent with integer part `n`, wherever `b^e` fits with two percent to spare, `pow(b, e)` is defined, at
most `1.002 b^e` and at least `(0.8 - n ulp) b^e` (both library types). -/
theorem C111_large (F : FxTy) (hF : F = fixed32 ∨ F = fixed64) (b e : Int) (hb : Storable F b) (he : Storable F e) (n : Nat) (hb1 : 1 ≤ val F b)
    (h0 : (n : ℚ) ≤ val F e) (h1 : val F e < n + 1)
    (hfit : ((val F b : ℚ) : ℝ) ^ ((val F e : ℚ) : ℝ) * (102 / 100) ≤ 2 ^ (F.T.bits - 1 - F.f)) :
    ∃ r, powFixed F b e = .ok r ∧ ((val F r : ℚ) : ℝ) ≤ 1002 / 1000 * ((val F b : ℚ) : ℝ) ^ ((val F e : ℚ) : ℝ) ∧
      (8 / 10 - n * ((ulp F : ℚ) : ℝ)) * ((val F b : ℚ) : ℝ) ^ ((val F e : ℚ) : ℝ) ≤ ((val F r : ℚ) : ℝ) := by
  have h : Lib F := by rcases hF with rfl | rfl; exacts [lib32, lib64]
  have hp : (0 : Int) < 2 ^ F.f := by positivity
  have hfb : F.f < F.T.bits := h.sw.valid.flt
  have hb0 : 0 < val F b := by linarith
  have hbne : b ≠ 0 := by rintro rfl; rw [val_zero] at hb0; exact lt_irrefl _ hb0
  have e0 : 0 ≤ e := (val_le (F := F)).1 (by rw [val_zero]; exact le_trans (by positivity) h0)
  obtain ⟨hn, t0, t1, het⟩ := pow_parts n h0 h1
  obtain ⟨l, m, hl, hm, mS, -, mpos, -, hml⟩ := pow_arg F hF hb hb0 t0 t1
  have hu := uR_pos F
  have hul := h.u_le
  have hB1 : 1 ≤ rv F b := by rw [← rv_eq]; exact_mod_cast hb1
  have hB0 : 0 < rv F b := by linarith
  have hsplit := rpow_split hB0 n _ het
  have hT0 : 0 ≤ rv F (e - e / 2 ^ F.f * 2 ^ F.f) := by have := (rv_le F (a := 0)).2 t0; simpa [rv] using this
  obtain ⟨x1, x2⟩ := exp_near_arg hu hul hml
  have hY1 : 1 ≤ Real.exp (rv F (e - e / 2 ^ F.f * 2 ^ F.f) * Real.log (rv F b)) := Real.one_le_exp (mul_nonneg hT0 (Real.log_nonneg hB1))
  have hP1 : 1 ≤ rv F b ^ n := one_le_pow₀ hB1
  simp only [rv_eq, uR_eq] at hfit ⊢
  rw [hsplit] at hfit ⊢
  generalize Real.exp (rv F (e - e / 2 ^ F.f * 2 ^ F.f) * Real.log (rv F b)) = Y at *
  have hle1 : rv F b ^ n ≤ rv F b ^ n * Y := by nlinarith
  have hle2 : Y ≤ rv F b ^ n * Y := by nlinarith
  -- the integer power
  have hhi : rv F F.T.hi = 2 ^ (F.T.bits - 1 - F.f) - uR F := by
    rw [h.sw.hi_eq, rv_u]
    push_cast
    rw [sub_mul, one_mul]
    congr 1
    unfold uR
    rw [show F.T.bits - 1 = (F.T.bits - 1 - F.f) + F.f by omega, pow_add]
    field_simp
    simp
  have hfitq : val F b ^ n ≤ val F F.T.hi := by
    have : rv F b ^ n ≤ rv F F.T.hi := by rw [hhi]; norm_num at hul; nlinarith
    rw [← rv_eq, ← rv_eq] at this
    exact_mod_cast this
  have hone : Representable F 1 := ⟨2 ^ F.f, h.sw.one, by have := val_int F 1; rw [one_mul] at this; rw [this]; norm_num⟩
  have hn64 : n < 2 ^ 64 := by
    have hh := (h.ofR he).2
    have : (2 : Int) ^ (2 * F.f - 1) ≤ 2 ^ 64 := pow_le_pow_right₀ (by norm_num) (by rcases h.f with e | e <;> omega)
    have : (n : Int) ≤ e := by rw [← hn]; exact Int.ediv_le_self _ e0
    have : (n : Int) < 2 ^ 64 := by omega
    exact_mod_cast this
  obtain ⟨p, ep, pS, p1, p2, p0⟩ := C109_relative F h.sw.valid h.r hone b n hb hb1 hn64 hfitq
  have p1' : rv F p ≤ rv F b ^ n := by rw [← rv_eq, ← rv_eq]; exact_mod_cast p1
  have p2' : rv F b ^ n * (1 - n * uR F) ≤ rv F p := by rw [← rv_eq, ← rv_eq, ← uR_eq]; exact_mod_cast p2
  generalize rv F b ^ n = P at *
  have p0' : 0 ≤ rv F p := by rw [← rv_eq]; exact_mod_cast p0
  -- the exponential
  have hm0 := mpos hb1
  have hM0 : 0 ≤ val F m := by rw [← val_zero F, val_le]; exact hm0
  obtain ⟨x, hx, y1, y2⟩ := C99_bounds F hF m mS hM0 (by
    rw [rv_eq]
    have : (1 + 17 * uR F) * Y ≤ 1.0003 * Y := mul_le_mul_of_nonneg_right (by norm_num at hul ⊢; linarith) (by linarith)
    norm_num at this; linarith)
  obtain ⟨x', hx', xS⟩ := C37_defined F hF m mS hm0
  rw [hx] at hx'
  obtain rfl := Res.ok.inj hx'
  rw [rv_eq, rv_eq] at y1 y2
  have hx0 : 0 ≤ rv F x := le_trans (by positivity) y1
  obtain ⟨f1, f2⟩ := rv_floor F p x
  have up : rv F p * rv F x ≤ 1002 / 1000 * (P * Y) := by
    have a1 : rv F x ≤ 1002 / 1000 * Y := by norm_num at hul; nlinarith
    have := mul_le_mul p1' a1 hx0 (by linarith)
    linarith
  have q0 : 0 ≤ p * x / 2 ^ F.f := by
    have z0 : rv F 0 = 0 := by simp [rv]
    rw [← z0, rv_le] at p0' hx0
    exact Int.ediv_nonneg (mul_nonneg p0' hx0) hp.le
  have hst : Storable F (p * x / 2 ^ F.f) := by
    refine fits_of_lt' h.sw q0 hfb ?_
    have : 0 < P * Y := by positivity
    norm_num at up hfit ⊢; linarith
  refine ⟨_, pow_steps F hF he e0 hbne (by rw [hn]; exact ep) pS hl hm hx xS hst, by linarith, ?_⟩
  by_cases hnu : (n : ℝ) * uR F ≤ 8 / 10
  · have a1 : 0.8096 * Y ≤ rv F x := by norm_num at hul ⊢; nlinarith
    have a2 : P * (1 - n * uR F) * (0.8096 * Y) ≤ rv F p * rv F x := mul_le_mul p2' a1 (by positivity) p0'
    have a3 : 1 ≤ P * Y := by nlinarith
    have a4 : 0 ≤ P * Y * (n * uR F) := by positivity
    have a5 : uR F ≤ P * Y * uR F := by nlinarith
    have a6 : P * Y * uR F ≤ P * Y * (1 / 65536) := mul_le_mul_of_nonneg_left hul (by linarith)
    norm_num at a2 ⊢
    nlinarith
  · have a1 : 0 ≤ rv F (p * x / 2 ^ F.f) := by have := (rv_le F (a := 0)).2 q0; simpa [rv] using this
    have a2 : (8 / 10 - n * uR F) * (P * Y) ≤ 0 := mul_nonpos_of_nonpos_of_nonneg (by linarith) (by positivity)
    linarith
example : powFixed fixed32 (5 * 2 ^ 15) (9 * 2 ^ 14) = .ok 468112 ∧ powFixed fixed64 (5 * 2 ^ 31) (21 * 2 ^ 31) = .ok 55379922695159 := by decide +kernel

/-- The exponential at the arguments `pow` uses for bases up to one. -/
theorem exp_nonpos (F : FxTy) (hF : F = fixed32 ∨ F = fixed64) {m : Int} (hm : m ≤ 0) (mS : Storable F m) (mS' : Storable F (-m))
    (hx : Real.exp (-rv F m) ≤ 99 / 100 * 2 ^ (F.T.bits - 1 - F.f)) :
    ∃ x, exp F m = .ok x ∧ 998 / 1000 * Real.exp (rv F m) - uR F ≤ rv F x ∧ rv F x ≤ 124 / 100 * Real.exp (rv F m) ∧ 0 ≤ x ∧ Storable F x := by
  have h : Lib F := by rcases hF with rfl | rfl; exacts [lib32, lib64]
  have hu := uR_pos F
  have hone : Representable F 1 := ⟨2 ^ F.f, h.sw.one, by have := val_int F 1; rw [one_mul] at this; rw [this]; norm_num⟩
  have st : ∀ x : Int, rv F x ≤ 124 / 100 → 0 ≤ x → Storable F x := by
    intro x h1 h2
    refine fits_of_lt' h.sw h2 h.sw.valid.flt (lt_of_le_of_lt h1 ?_)
    rcases hF with rfl | rfl <;> norm_num [fixed32, fixed64]
  have hM : rv F m ≤ 0 := by have := (rv_le F (b := 0)).2 hm; simpa [rv] using this
  have hE1 : Real.exp (rv F m) ≤ 1 := Real.exp_le_one_iff.2 hM
  have z0 : rv F 0 = 0 := by simp [rv]
  rcases eq_or_lt_of_le hm with rfl | hneg
  · obtain ⟨x, e, vx⟩ := C37_zero F h.sw.valid hone
    have rx : rv F x = 1 := by rw [← rv_eq, vx]; norm_num
    have x0 : 0 ≤ x := by rw [← rv_le F, z0, rx]; norm_num
    refine ⟨x, e, ?_, ?_, x0, st x (by rw [rx]; norm_num) x0⟩
    · rw [rx, z0, Real.exp_zero]; linarith
    · rw [rx, z0, Real.exp_zero]; norm_num
  · obtain ⟨x, e, x1, x2⟩ := C99_negative F hF m (by rw [← val_zero F, val_lt]; exact hneg) mS mS' (by rw [rv_eq]; exact hx)
    rw [rv_eq, rv_eq] at x1 x2
    rw [uR_eq] at x1
    have x0 : 0 ≤ x := by
      have : rv F (-1) < rv F x := by
        rw [rv_neg, show rv F 1 = uR F by rw [rv_u]; norm_num]
        have := Real.exp_pos (rv F m); linarith
      rw [rv_lt] at this; omega
    exact ⟨x, e, x1, x2, x0, st x (by linarith) x0⟩

/-- C111: for a base between `1.02 / 2^(integer bits)` and one and a non-negative exponent with integer part `n`, `pow(b, e)` is defined, at most `1.241 b^e` and
at least `0.997 b^e - (n + 2) ulp` (both library types). -/
theorem C111_small (F : FxTy) (hF : F = fixed32 ∨ F = fixed64) (b e : Int) (hb : Storable F b) (he : Storable F e) (n : Nat) (hb1 : val F b ≤ 1)
    (hbl : 102 / 100 ≤ val F b * 2 ^ (F.T.bits - 1 - F.f)) (h0 : (n : ℚ) ≤ val F e) (h1 : val F e < n + 1) :
    ∃ r, powFixed F b e = .ok r ∧ ((val F r : ℚ) : ℝ) ≤ 1241 / 1000 * ((val F b : ℚ) : ℝ) ^ ((val F e : ℚ) : ℝ) ∧
      997 / 1000 * ((val F b : ℚ) : ℝ) ^ ((val F e : ℚ) : ℝ) - (n + 2) * ((ulp F : ℚ) : ℝ) ≤ ((val F r : ℚ) : ℝ) := by
  have h : Lib F := by rcases hF with rfl | rfl; exacts [lib32, lib64]
  have hp : (0 : Int) < 2 ^ F.f := by positivity
  have hfb : F.f < F.T.bits := h.sw.valid.flt
  have hb0 : 0 < val F b := by
    by_contra hc
    have : val F b * 2 ^ (F.T.bits - 1 - F.f) ≤ 0 := mul_nonpos_of_nonpos_of_nonneg (not_lt.1 hc) (by positivity)
    linarith
  have hbne : b ≠ 0 := by rintro rfl; rw [val_zero] at hb0; exact lt_irrefl _ hb0
  have e0 : 0 ≤ e := (val_le (F := F)).1 (by rw [val_zero]; exact le_trans (by positivity) h0)
  obtain ⟨hn, t0, t1, het⟩ := pow_parts n h0 h1
  obtain ⟨l, m, hl, hm, mS, mS', -, mneg, hml⟩ := pow_arg F hF hb hb0 t0 t1
  have hu := uR_pos F
  have hul := h.u_le
  have hB1 : rv F b ≤ 1 := by rw [← rv_eq]; exact_mod_cast hb1
  have hB0 : 0 < rv F b := by rw [← rv_eq]; exact_mod_cast hb0
  have hBl : 102 / 100 ≤ rv F b * 2 ^ (F.T.bits - 1 - F.f) := by
    have : ((102 / 100 : ℚ) : ℝ) ≤ ((val F b * 2 ^ (F.T.bits - 1 - F.f) : ℚ) : ℝ) := by exact_mod_cast hbl
    push_cast at this; rw [rv_eq] at this; exact this
  have hsplit := rpow_split hB0 n _ het
  have hT0 : 0 ≤ rv F (e - e / 2 ^ F.f * 2 ^ F.f) := by have := (rv_le F (a := 0)).2 t0; simpa [rv] using this
  have hT1 : rv F (e - e / 2 ^ F.f * 2 ^ F.f) ≤ 1 := by
    have := (rv_le F (b := 1 * 2 ^ F.f)).2 (show e - e / 2 ^ F.f * 2 ^ F.f ≤ 1 * 2 ^ F.f by omega); rw [rv_int] at this; simpa using this
  obtain ⟨x1, x2⟩ := exp_near_arg hu hul hml
  have hlog : Real.log (rv F b) ≤ 0 := Real.log_nonpos hB0.le hB1
  have hYb : rv F b ≤ Real.exp (rv F (e - e / 2 ^ F.f * 2 ^ F.f) * Real.log (rv F b)) := by
    conv_lhs => rw [← Real.exp_log hB0]
    exact Real.exp_le_exp.2 (by nlinarith)
  have hY1 : Real.exp (rv F (e - e / 2 ^ F.f * 2 ^ F.f) * Real.log (rv F b)) ≤ 1 :=
    Real.exp_le_one_iff.2 (mul_nonpos_of_nonneg_of_nonpos hT0 hlog)
  have hP0 : 0 ≤ rv F b ^ n := by positivity
  have hP1 : rv F b ^ n ≤ 1 := pow_le_one₀ hB0.le hB1
  simp only [rv_eq, uR_eq]
  rw [hsplit]
  generalize Real.exp (rv F (e - e / 2 ^ F.f * 2 ^ F.f) * Real.log (rv F b)) = Y at *
  have hY0 : 0 < Y := by linarith
  have hone : Representable F 1 := ⟨2 ^ F.f, h.sw.one, by have := val_int F 1; rw [one_mul] at this; rw [this]; norm_num⟩
  have hn64 : n < 2 ^ 64 := by
    have hh := (h.ofR he).2
    have : (2 : Int) ^ (2 * F.f - 1) ≤ 2 ^ 64 := pow_le_pow_right₀ (by norm_num) (by rcases h.f with e | e <;> omega)
    have : (n : Int) ≤ e := by rw [← hn]; exact Int.ediv_le_self _ e0
    have : (n : Int) < 2 ^ 64 := by omega
    exact_mod_cast this
  obtain ⟨p, ep, pS, p1, p2, p0⟩ := C109_absolute F h.sw.valid h.r hone b n hb hb0.le hb1 hn64
  have p1' : rv F p ≤ rv F b ^ n := by rw [← rv_eq, ← rv_eq]; exact_mod_cast p1
  have p2' : rv F b ^ n - n * uR F ≤ rv F p := by rw [← rv_eq, ← rv_eq, ← uR_eq]; exact_mod_cast p2
  have p0' : 0 ≤ rv F p := by rw [← rv_eq]; exact_mod_cast p0
  generalize rv F b ^ n = P at *
  have hB : (0 : ℝ) < 2 ^ (F.T.bits - 1 - F.f) := by positivity
  obtain ⟨x, hx, y1, y2, x0, xS⟩ := exp_nonpos F hF (mneg hb1) mS mS' (by
    rw [Real.exp_neg, inv_eq_one_div, div_le_iff₀ (Real.exp_pos _)]
    have a1 : 0.9997 * Y ≤ Real.exp (rv F m) := le_trans (mul_le_mul_of_nonneg_right (by norm_num at hul ⊢; linarith) hY0.le) x1
    have a2 : 102 / 100 ≤ Y * 2 ^ (F.T.bits - 1 - F.f) := le_trans hBl (mul_le_mul_of_nonneg_right hYb hB.le)
    have a3 : 0.9997 * Y * 2 ^ (F.T.bits - 1 - F.f) ≤ Real.exp (rv F m) * 2 ^ (F.T.bits - 1 - F.f) := mul_le_mul_of_nonneg_right a1 hB.le
    norm_num at a2 a3 ⊢
    nlinarith)
  have hx0 : 0 ≤ rv F x := by have := (rv_le F (a := 0)).2 x0; simpa [rv] using this
  obtain ⟨f1, f2⟩ := rv_floor F p x
  have x2' : Real.exp (rv F m) ≤ 1.0003 * Y := le_trans x2 (mul_le_mul_of_nonneg_right (by norm_num at hul ⊢; linarith) hY0.le)
  have x1' : 0.9997 * Y ≤ Real.exp (rv F m) := le_trans (mul_le_mul_of_nonneg_right (by norm_num at hul ⊢; linarith) hY0.le) x1
  have up : rv F p * rv F x ≤ 1241 / 1000 * (P * Y) := by
    have a1 : rv F x ≤ 1241 / 1000 * Y := by norm_num at x2' ⊢; linarith
    have := mul_le_mul p1' a1 hx0 hP0
    linarith
  have q0 : 0 ≤ p * x / 2 ^ F.f := by
    have z0 : rv F 0 = 0 := by simp [rv]
    rw [← z0, rv_le] at p0'
    exact Int.ediv_nonneg (mul_nonneg p0' x0) hp.le
  have hPY : P * Y ≤ 1 := by nlinarith
  have hst : Storable F (p * x / 2 ^ F.f) := by
    refine fits_of_lt' h.sw q0 hfb (lt_of_le_of_lt f1 (lt_of_le_of_lt up ?_))
    have : (2 : ℝ) ≤ 2 ^ (F.T.bits - 1 - F.f) := by
      rcases hF with rfl | rfl <;> norm_num [fixed32, fixed64]
    norm_num at *; linarith
  refine ⟨_, pow_steps F hF he e0 hbne (by rw [hn]; exact ep) pS hl hm hx xS hst, by linarith, ?_⟩
  have a1 : 0.9976 * Y - uR F ≤ rv F x := by norm_num at x1' ⊢; linarith
  have a2 : rv F p * (0.9976 * Y - uR F) ≤ rv F p * rv F x := mul_le_mul_of_nonneg_left a1 p0'
  have a3 : rv F p * uR F ≤ 1 * uR F := mul_le_mul_of_nonneg_right (by linarith) hu.le
  have a4 : (P - n * uR F) * (0.9976 * Y) ≤ rv F p * (0.9976 * Y) := mul_le_mul_of_nonneg_right p2' (by positivity)
  have a5 : (n * uR F) * (0.9976 * Y) ≤ (n * uR F) * 1 := mul_le_mul_of_nonneg_left (by norm_num; linarith) (by positivity)
  have a6 : 0 ≤ P * Y := by positivity
  norm_num at *
  nlinarith
example : powFixed fixed32 (2 ^ 14) (5 * 2 ^ 15) = .ok 2477 := by decide +kernel

end Eirin.Props
