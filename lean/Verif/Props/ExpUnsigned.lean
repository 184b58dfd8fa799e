import Verif.Props.SinUnsigned
import Verif.Props.ExpMono
import Verif.Props.PowMono

/-! # C142: the exponential function on unsigned layouts -/

namespace Eirin.Props
open Eirin Spec

section
variable {B f : Nat} (hB : UB B) (h0 : 0 < f) (h1 : f + 3 ≤ B)
include hB h0 h1

/-- `integral_part` and the subtraction of the integral part on an unsigned layout. -/
theorem intPart_u {x : Int} (hx0 : 0 ≤ x) (hx1 : x < 2 ^ B) :
    integralPart (LU B f) x = .ok (x / 2 ^ f) ∧ subIntAssign (LU B f) x (x / 2 ^ f) = .ok (x - x / 2 ^ f * 2 ^ f) := by
  obtain ⟨hv, hz, hP, hT, h1s, _, _⟩ := lu_base hB h0 (by omega : f + 2 ≤ B)
  have hb : 0 < (LU B f).T.bits := hv.tpos
  have hp : (0 : Int) < 2 ^ f := by positivity
  have q0 : 0 ≤ x / 2 ^ f := Int.ediv_nonneg hx0 hp.le
  have q1 : x / 2 ^ f ≤ x := Int.ediv_le_self _ hx0
  have m1 : x / 2 ^ f * 2 ^ f ≤ x := Int.ediv_mul_le x hp.ne'
  have m0 : 0 ≤ x / 2 ^ f * 2 ^ f := by positivity
  have hq : (LU B f).T.InRange (x / 2 ^ f) := lu_in.2 ⟨q0, by omega⟩
  constructor
  · unfold integralPart
    have : signbit (LU B f) x ≠ true := by rw [Ne, signbit_iff hv (lu_in.2 ⟨hx0, hx1⟩)]; omega
    rw [if_neg this]
    simp only [Res.pure_eq, Res.bind_ok, shr]
    rw [hT, if_pos (by show f < B; omega), Res.bind_ok]
    show Res.ok ((LU B f).T.wrap (x / 2 ^ f)) = _
    rw [IntTy.wrap_of_inRange hb hq]
  · unfold subIntAssign shl
    rw [IntTy.wrap_of_inRange hb hq, hT, if_pos (by show f < B; omega)]
    have hm : (LU B f).T.InRange (x / 2 ^ f * 2 ^ (LU B f).f) := lu_in.2 ⟨m0, lt_of_le_of_lt m1 hx1⟩
    rw [Res.bind_ok, IntTy.wrap_of_inRange hb hm, hP, arith_u, Res.bind_ok]
    show Res.ok ((LU B f).T.wrap ((LU B f).T.wrap (x - x / 2 ^ f * 2 ^ f))) = _
    rw [IntTy.wrap_wrap, IntTy.wrap_of_inRange hb (lu_in.2 ⟨by omega, by omega⟩)]

omit h0 in
/-- The coefficients do not depend on the signedness. -/
theorem expK_u (h8 : 8 ≤ f) (h60 : f ≤ 60) {a b c d e g : Int} (k : ExpK (L64 f) a b c d e g) : ExpK (LU B f) a b c d e g := by
  have t : ∀ f < 61, 8 ≤ f → ∀ L ∈ [0x01C798ECC0CBC856, 0x04745859810836DA, 0x15CFBB5C306F85F3, 0x3FE26186C531F98E, 0x40014D4407008BB0, 0x7FFFF686446F1B43],
      fromFixedNumValue (LU 64 f) i64 63 L = fromFixedNumValue (L64 f) i64 63 L ∧
        (f < 30 → fromFixedNumValue (LU 32 f) i64 63 L = fromFixedNumValue (L64 f) i64 63 L) := by decide +kernel
  have u : ∀ L ∈ [0x01C798ECC0CBC856, 0x04745859810836DA, 0x15CFBB5C306F85F3, 0x3FE26186C531F98E, 0x40014D4407008BB0, 0x7FFFF686446F1B43],
      fromFixedNumValue (LU B f) i64 63 L = fromFixedNumValue (L64 f) i64 63 L := by
    intro L hL
    rcases hB with rfl | rfl
    · exact (t f (by omega) h8 L hL).2 (by omega)
    · exact (t f (by omega) h8 L hL).1
  exact ⟨by rw [u _ (by simp), k.ea], by rw [u _ (by simp), k.eb], by rw [u _ (by simp), k.ec], by rw [u _ (by simp), k.ed], by rw [u _ (by simp), k.ee],
    by rw [u _ (by simp), k.eg], k.ra, k.rb, k.rc, k.rd, k.re, k.rg⟩

theorem add_u {x y : Int} (x0 : 0 ≤ x) (y0 : 0 ≤ y) (h : x + y < 2 ^ B) : add (LU B f) x y = .ok (x + y) := by
  obtain ⟨hv, hs, _⟩ := lu_valid hB h0 h1
  rw [add_nf hv (lu_in.2 ⟨x0, by omega⟩) (lu_in.2 ⟨y0, by omega⟩), if_neg (fun h => hs h.1), IntTy.wrap_of_inRange hv.tpos (lu_in.2 ⟨by omega, h⟩)]

/-- One step of Horner's rule. -/
theorem horner_u {t s c k : Int} (t0 : 0 ≤ t) (t1 : t ≤ 2 ^ f) (s0 : 0 ≤ s) (s1 : s ≤ k * 2 ^ f) (hk : k < 7) (c0 : 0 ≤ c) (c1 : c ≤ 2 ^ f) :
    mul (LU B f) t s = .ok (t * s / 2 ^ f) ∧ add (LU B f) c (t * s / 2 ^ f) = .ok (c + t * s / 2 ^ f) ∧
      0 ≤ c + t * s / 2 ^ f ∧ c + t * s / 2 ^ f ≤ (k + 1) * 2 ^ f := by
  have hp : (0 : Int) < 2 ^ f := by positivity
  have h8 : 8 * (2 : Int) ^ f ≤ 2 ^ B := by
    have : (2 : Int) ^ (f + 3) ≤ 2 ^ B := pow_le_pow_right₀ (by norm_num) h1
    rw [pow_add] at this; omega
  have hk7 : k * (2 : Int) ^ f ≤ 6 * 2 ^ f := mul_le_mul_of_nonneg_right (by omega) hp.le
  obtain ⟨r0, r1⟩ := part_mul hp s0 s1 t0 t1
  rw [mul_comm s t] at r0 r1
  refine ⟨(nn_unsigned hB h0 h1 le_rfl).mul _ _ t0 (by omega) s0 (by omega) (by show t * s / 2 ^ f < 2 ^ B; omega), add_u hB h0 h1 c0 r0 (by omega), by omega, ?_⟩
  rw [add_mul, one_mul]; omega

/-- The polynomial part of `exp_expand` on an unsigned layout is that of the signed layout. -/
theorem expPoly_u (h8 : 8 ≤ f) (h60 : f ≤ 60) : ∃ H : Int → Int, IsExpPoly (LU B f) H ∧ IsExpPoly (L64 f) H := by
  have hl : Lay (L64 f) (1 / 256) 3.9 := lay_three (sw_L64 h0 (by omega)).gen rfl h8 (by show f + 3 ≤ 64; omega)
  obtain ⟨a, b, c, d, e, g, k, ap, ex⟩ := expExpand_const hl (by show f < 61; omega)
  have hp : (0 : Int) < 2 ^ f := by positivity
  have rng : ∀ x : Int, 0 ≤ x - x / 2 ^ f * 2 ^ f ∧ x - x / 2 ^ f * 2 ^ f < 2 ^ f := by
    intro x
    have := Int.ediv_mul_le x hp.ne'
    have := Int.lt_ediv_add_one_mul_self x hp
    exact ⟨by omega, by linarith⟩
  refine ⟨expHorner f a b c d e g, ?_, ?_⟩
  · intro ev x p eev hS x0 ep pS
    obtain ⟨hv, hs, _⟩ := lu_valid hB h0 h1
    obtain ⟨x0', x1⟩ := lu_in.1 hS
    obtain ⟨e1, e2⟩ := intPart_u hB h0 h1 x0 x1
    have ku := expK_u hB h1 h8 h60 k
    show Ap (LU B f) (expHorner f a b c d e g (x - x / 2 ^ f * 2 ^ f)) (expP (rv (LU B f) (x - x / 2 ^ f * 2 ^ f))) 11 ∧
      expExpand (LU B f) x = .ok ((LU B f).T.wrap (p * expHorner f a b c d e g (x - x / 2 ^ f * 2 ^ f) / 2 ^ f))
    obtain ⟨t0, t1⟩ := rng x
    generalize x - x / 2 ^ f * 2 ^ f = t at *
    obtain ⟨em1, es1, l1, u1⟩ := horner_u hB h0 h1 t0 t1.le k.ra.1 (k := 1) (by rw [one_mul]; exact k.ra.2) (by norm_num) k.rb.1 k.rb.2
    obtain ⟨em2, es2, l2, u2⟩ := horner_u hB h0 h1 t0 t1.le l1 u1 (by norm_num) k.rc.1 k.rc.2
    obtain ⟨em3, es3, l3, u3⟩ := horner_u hB h0 h1 t0 t1.le l2 u2 (by norm_num) k.rd.1 k.rd.2
    obtain ⟨em4, es4, l4, u4⟩ := horner_u hB h0 h1 t0 t1.le l3 u3 (by norm_num) k.re.1 k.re.2
    obtain ⟨em5, es5, l5, u5⟩ := horner_u hB h0 h1 t0 t1.le l4 u4 (by norm_num) k.rg.1 k.rg.2
    have h8' : 8 * (2 : Int) ^ f ≤ 2 ^ B := by
      have : (2 : Int) ^ (f + 3) ≤ 2 ^ B := pow_le_pow_right₀ (by norm_num) h1
      rw [pow_add] at this; omega
    have hst : Storable (LU B f) (expHorner f a b c d e g t) := lu_in.2 ⟨l5, lt_of_le_of_lt u5 (by omega)⟩
    refine ⟨⟨hst, (ap t t0 t1).er⟩, ?_⟩
    unfold expExpand
    rw [e1, Res.bind_ok, e2, Res.bind_ok, ku.ea, Res.bind_ok, ku.eb, Res.bind_ok, ku.ec, Res.bind_ok, ku.ed, Res.bind_ok, ku.ee, Res.bind_ok, ku.eg, Res.bind_ok,
      eev, Res.bind_ok]
    have ep' : powInt (LU B f) ev (x / 2 ^ f) = .ok p := ep
    rw [ep', Res.bind_ok, em1, Res.bind_ok, es1, Res.bind_ok, em2, Res.bind_ok, es2, Res.bind_ok, em3, Res.bind_ok, es3, Res.bind_ok,
      em4, Res.bind_ok, es4, Res.bind_ok, em5, Res.bind_ok, es5, Res.bind_ok]
    exact mul_nf hv rfl pS hst
  · intro ev x p eev hS x0 ep pS
    exact ⟨ap _ (rng x).1 (rng x).2, ex eev hS x0 ep pS⟩

end

theorem lu_hi {B f : Nat} (h : f ≤ B) : rv (LU B f) (LU B f).T.hi + uR (LU B f) = 2 ^ (B - f) := by
  rw [rv_u]
  show (((2 : Int) ^ B - 1 : Int) : ℝ) * (1 / 2 ^ f) + 1 / 2 ^ f = _
  push_cast
  rw [sub_mul, one_mul, sub_add_cancel]
  rw [show B = (B - f) + f by omega, pow_add]
  simp

theorem lu_three {B f : Nat} (h1 : f + 3 ≤ B) : Representable (LU B f) 3 := by
  have hp : (0 : Int) < 2 ^ f := by positivity
  have : (2 : Int) ^ (f + 3) ≤ 2 ^ B := pow_le_pow_right₀ (by norm_num) h1
  rw [pow_add] at this
  refine ⟨3 * 2 ^ f, lu_in.2 ⟨by positivity, by omega⟩, ?_⟩
  have := val_int (LU B f) 3
  rw [show (3 : Int) * 2 ^ (LU B f).f = 3 * 2 ^ f from rfl] at this
  rw [this]; norm_num

theorem one_of_three {F : FxTy} (h3 : Representable F 3) : Representable F 1 := by
  obtain ⟨z, zS, hz⟩ := h3
  have hp : (0 : Int) < 2 ^ F.f := by positivity
  have hlo : F.T.lo ≤ 0 := by unfold IntTy.lo; split <;> [exact neg_nonpos.2 (by positivity); exact le_rfl]
  have e : z = 3 * 2 ^ F.f := val_inj (F := F) (by rw [hz, val_int]; norm_num)
  exact ⟨1 * 2 ^ F.f, ⟨by omega, by have := zS.2; omega⟩, by rw [val_int]; norm_num⟩

theorem lu_u {B f : Nat} (h8 : 8 ≤ f) : uR (LU B f) ≤ 1 / 256 := by
  unfold uR
  apply div_le_div_of_nonneg_left (by norm_num) (by norm_num)
  have : (2 : ℝ) ^ 8 ≤ 2 ^ f := pow_le_pow_right₀ (by norm_num) h8
  norm_num at this ⊢; exact this

theorem div_of_vals {F : FxTy} {x : Int} {n : Nat} (h0 : (n : ℚ) ≤ val F x) (h1 : val F x < n + 1) : (n : Int) = x / 2 ^ F.f ∧ 0 ≤ x := by
  have hp : (0 : Int) < 2 ^ F.f := by positivity
  have i0 : (n : Int) * 2 ^ F.f ≤ x := (val_le (F := F)).1 (by rw [val_int]; exact_mod_cast h0)
  have i1 : x < ((n : Int) + 1) * 2 ^ F.f := (val_lt (F := F)).1 (by rw [val_int]; exact_mod_cast h1)
  exact ⟨((Int.ediv_eq_iff_of_pos hp).2 ⟨i0, by linarith⟩).symm, le_trans (by positivity) i0⟩

/-- C142: on the unsigned non-rounding layouts of 32 and 64 bits with 8 to 60 fraction bits and at least three integer bits, `exp` of an argument with integer
part `n` is `e^x - e^n (x - n) / 2` with a relative error of at most `6e-5` plus `4 n + 14` ulp, as long as `e^x` and this error fit. -/
theorem C142_value (B f : Nat) (hB : UB B) (h8 : 8 ≤ f) (h60 : f ≤ 60) (h3 : f + 3 ≤ B) (x : Int) (hS : Storable (LU B f) x)
    (n : Nat) (h0 : (n : ℚ) ≤ val (LU B f) x) (h1 : val (LU B f) x < n + 1)
    (hfit : Real.exp ((val (LU B f) x : ℚ) : ℝ) + Real.exp n * (6 / 100000 + (4 * n + 14) * ((ulp (LU B f) : ℚ) : ℝ)) ≤ 2 ^ (B - f)) :
    ∃ r, exp (LU B f) x = .ok r ∧ Storable (LU B f) r ∧
      |((val (LU B f) r : ℚ) : ℝ) - (Real.exp ((val (LU B f) x : ℚ) : ℝ) - Real.exp n * ((((val (LU B f) x : ℚ) : ℝ) - n) / 2))| ≤
        Real.exp n * (6 / 100000 + (4 * n + 14) * ((ulp (LU B f) : ℚ) : ℝ)) := by
  obtain ⟨hn, x0⟩ := div_of_vals h0 h1
  obtain ⟨hv, _⟩ := lu_valid hB (by omega) h3
  obtain ⟨H, hH, -⟩ := expPoly_u hB (by omega) h3 h8 h60
  simp only [rv_eq, uR_eq] at hfit ⊢
  obtain ⟨r, e, s, a, -⟩ := exp_genG hv rfl (lu_u h8) (show f < 61 by omega) (lu_three h3) hH hS n hn x0 (by rw [lu_hi (by omega)]; exact hfit)
  exact ⟨r, e, s, a⟩
example : exp (LU 32 16) (11 * 2 ^ 16) = .ok 3923754827 ∧ Storable (LU 32 16) (11 * 2 ^ 16) ∧
    exp ⟨i32, i64, 16, false⟩ (11 * 2 ^ 16) = .ok (-371146933) := by decide +kernel

/-- C142: with at least 16 fraction bits, `exp` lies between `0.81 e^x` and `1.003 e^x`. -/
theorem C142_bounds (B f : Nat) (hB : UB B) (h16 : 16 ≤ f) (h60 : f ≤ 60) (h3 : f + 3 ≤ B) (x : Int) (hS : Storable (LU B f) x)
    (hfit : Real.exp ((val (LU B f) x : ℚ) : ℝ) * (1003 / 1000) ≤ 2 ^ (B - f)) :
    ∃ r, exp (LU B f) x = .ok r ∧ Storable (LU B f) r ∧ 81 / 100 * Real.exp ((val (LU B f) x : ℚ) : ℝ) ≤ ((val (LU B f) r : ℚ) : ℝ) ∧
      ((val (LU B f) r : ℚ) : ℝ) ≤ 1003 / 1000 * Real.exp ((val (LU B f) x : ℚ) : ℝ) := by
  have x0 : 0 ≤ val (LU B f) x := by rw [← val_zero (LU B f), val_le]; exact (lu_in.1 hS).1
  have hn0 : ((⌊val (LU B f) x⌋₊ : ℕ) : ℚ) ≤ val (LU B f) x := Nat.floor_le x0
  have hlt := Nat.lt_floor_add_one (val (LU B f) x)
  generalize ⌊val (LU B f) x⌋₊ = n at *
  have hX0 : 0 ≤ ((val (LU B f) x : ℚ) : ℝ) - n := by
    have : ((n : ℚ) : ℝ) ≤ ((val (LU B f) x : ℚ) : ℝ) := by exact_mod_cast hn0
    rw [Rat.cast_natCast] at this; linarith
  have hE := Real.exp_pos n
  have a4 : Real.exp n ≤ Real.exp ((val (LU B f) x : ℚ) : ℝ) := Real.exp_le_exp.2 (by linarith)
  have hV := Real.exp_pos ((val (LU B f) x : ℚ) : ℝ)
  have hn39 : (n : ℝ) ≤ 39 := by
    by_contra hc
    have e1 : Real.exp 39 ≤ Real.exp n := Real.exp_le_exp.2 (not_le.1 hc).le
    have e2 : (2 : ℝ) ^ (B - f) ≤ 2 ^ 48 := pow_le_pow_right₀ (by norm_num) (by rcases hB with rfl | rfl <;> omega)
    have e3 : (2.7182818283 : ℝ) ^ 39 ≤ Real.exp 39 := by exact_mod_cast exp_nat_lo 39
    norm_num at e2 e3; linarith
  have hsm := mul_le_mul_of_nonneg_left (exp_small (F := LU B f) h16 hn39) hE.le
  obtain ⟨r, e, s, hr⟩ := C142_value B f hB (by omega) h60 h3 x hS n hn0 hlt (by rw [uR_eq]; linarith)
  refine ⟨r, e, s, ?_⟩
  rw [uR_eq] at hr
  generalize ((val (LU B f) x : ℚ) : ℝ) = V at *
  set X := V - n with hX
  have hsplit : Real.exp V = Real.exp n * Real.exp X := by rw [← Real.exp_add]; congr 1; rw [hX]; ring
  have a1 : X ≤ Real.exp X / Real.exp 1 := by
    rw [← Real.exp_sub]
    have := Real.add_one_le_exp (X - 1); linarith
  have a2 : Real.exp X / Real.exp 1 ≤ Real.exp X * (37 / 100) := by
    rw [div_le_iff₀ (Real.exp_pos 1), mul_assoc]
    have := Real.exp_one_gt_d9
    have := Real.exp_pos X
    nlinarith
  have a3 : Real.exp n * (X / 2) ≤ Real.exp V * (185 / 1000) := by
    rw [hsplit, mul_assoc]
    exact mul_le_mul_of_nonneg_left (by linarith) hE.le
  have a6 : 0 ≤ Real.exp n * (X / 2) := mul_nonneg hE.le (by linarith)
  rw [abs_le] at hr
  constructor <;> linarith [hr.1, hr.2]

/-- C142: wherever the exponential fits the signed 64-bit layout with the same number of fraction bits as well, both layouts give the same raw value. -/
theorem C142_signed (B f : Nat) (hB : UB B) (h8 : 8 ≤ f) (h60 : f ≤ 60) (h3 : f + 3 ≤ B) (x : Int) (hS : Storable (LU B f) x)
    (n : Nat) (h0 : (n : ℚ) ≤ val (LU B f) x) (h1 : val (LU B f) x < n + 1)
    (hfit : Real.exp ((val (LU B f) x : ℚ) : ℝ) + Real.exp n * (6 / 100000 + (4 * n + 14) * ((ulp (LU B f) : ℚ) : ℝ)) ≤ 2 ^ (B - f))
    (hfit' : Real.exp ((val (LU B f) x : ℚ) : ℝ) + Real.exp n * (6 / 100000 + (4 * n + 14) * ((ulp (LU B f) : ℚ) : ℝ)) ≤ 2 ^ (63 - f)) :
    exp (LU B f) x = exp ⟨i64, i128, f, false⟩ x := by
  show exp (LU B f) x = exp (L64 f) x
  obtain ⟨hn, x0⟩ := div_of_vals h0 h1
  obtain ⟨hv, _⟩ := lu_valid hB (by omega) h3
  obtain ⟨H, hH, hH'⟩ := expPoly_u hB (by omega) h3 h8 h60
  have hl : Lay (L64 f) (1 / 256) 3.9 := lay_three (sw_L64 (by omega) (by omega)).gen rfl h8 (by show f + 3 ≤ 64; omega)
  simp only [rv_eq, uR_eq] at hfit hfit'
  have h3' : Representable (L64 f) 3 := ⟨3 * 2 ^ f, hl.st (by rw [show rv (L64 f) (3 * 2 ^ f) = (3 : Int) from rv_int (L64 f) 3]; norm_num), by
    rw [show val (L64 f) (3 * 2 ^ f) = (3 : Int) from val_int (L64 f) 3]; norm_num⟩
  have hi' : rv (L64 f) (L64 f).T.hi + uR (L64 f) = 2 ^ (63 - f) := rv_hi_signed hl.sw
  have hx1 : x < 2 ^ 63 := by
    have a1 : rv (LU B f) x ≤ Real.exp (rv (LU B f) x) := by have := Real.add_one_le_exp (rv (LU B f) x); linarith
    have a2 : 0 ≤ Real.exp n * (6 / 100000 + (4 * n + 14) * uR (LU B f)) := by have := uR_pos (LU B f); positivity
    have a3 : rv (L64 f) x < rv (L64 f) (L64 f).T.hi + uR (L64 f) := by
      rw [hi']
      have := Real.add_one_le_exp (rv (LU B f) x)
      have e : rv (L64 f) x = rv (LU B f) x := rfl
      rw [e]; linarith
    have := (fits_of_lt_hi x0 a3).2
    rw [show (L64 f).T.hi = 2 ^ 63 - 1 by rfl] at this
    omega
  have hS' : Storable (L64 f) x := ⟨by rw [show (L64 f).T.lo = -2 ^ 63 by rfl]; omega, by rw [show (L64 f).T.hi = 2 ^ 63 - 1 by rfl]; omega⟩
  obtain ⟨r, e, -, -, sh⟩ := exp_genG hv rfl (lu_u h8) (show f < 61 by omega) (lu_three h3) hH hS n hn x0 (by rw [lu_hi (by omega)]; exact hfit)
  obtain ⟨r', e', -, -, sh'⟩ := exp_genG hl.sw.valid rfl hl.u_le (show f < 61 by omega) h3' hH' hS' n hn x0 (by rw [hi']; exact hfit')
  by_cases hx : x = 0
  · obtain ⟨p1, p2, -⟩ := pw_start hv (one_of_three (lu_three h3))
    obtain ⟨q1, q2, -⟩ := pw_start hl.sw.valid (one_of_three h3')
    unfold exp
    rw [p1, p2, q1, q2, if_pos (by rw [eq_iff]; exact hx), if_pos (by rw [eq_iff]; exact hx)]
  obtain ⟨ev, p, c1, c2, -, c3⟩ := sh hx
  obtain ⟨ev', p', d1, d2, -, d3⟩ := sh' hx
  have hE := Real.exp_pos n
  have hle : Real.exp n ≤ Real.exp (rv (LU B f) x) := Real.exp_le_exp.2 (by
    rw [← rv_eq]; exact_mod_cast h0)
  have hsm : ∀ W : ℝ, Real.exp (rv (LU B f) x) + Real.exp n * (6 / 100000 + (4 * n + 14) * uR (LU B f)) ≤ W →
      Real.exp n * (1 + (4 * n + 14) * uR (LU B f)) ≤ W := by
    intro W hW; nlinarith
  obtain ⟨ev1, _, a1, _, _, _, _, _, a5, a2, a3, a4⟩ := expPowG hv rfl (lu_u h8) (show f < 61 by omega) (lu_three h3) n (by rw [lu_hi (by omega)]; exact hsm _ hfit)
  obtain ⟨ev2, _, b1, _, _, _, _, _, b5, b2, b3, b4⟩ := expPowG hl.sw.valid rfl hl.u_le (show f < 61 by omega) h3' n (by rw [hi']; exact hsm _ hfit')
  rw [c1] at a1; cases a1
  rw [d1] at b1; cases b1
  have hev : ev = ev' := by
    have t : ∀ f < 61, 8 ≤ f → cE (LU 64 f) = cE (L64 f) ∧ (f < 30 → cE (LU 32 f) = cE (L64 f)) := by decide +kernel
    have : cE (LU B f) = cE (L64 f) := by
      rcases hB with rfl | rfl
      · exact (t f (by omega) h8).2 (by omega)
      · exact (t f (by omega) h8).1
    rw [c1, d1] at this; cases this; rfl
  subst hev
  have ev0 : 0 < ev := by rw [← val_lt (F := LU B f), val_zero]; linarith
  have n65 : n < 2 ^ 65 := lt_trans a4 (by norm_num)
  have g1 := powInt_floor hv rfl (one_of_three (lu_three h3)) a5 ev0 n65 (Or.inr a3)
  have g2 := powInt_floor hl.sw.valid rfl (one_of_three h3') b5 ev0 n65 (Or.inr b3)
  rw [c2] at g1; rw [d2] at g2
  cases g1; cases g2
  rw [e, e', c3, d3]
example : exp (LU 64 32) (5 * 2 ^ 31) = .ok 44388879911 ∧ exp ⟨i64, i128, 32, false⟩ (5 * 2 ^ 31) = .ok 44388879911 := by decide +kernel

end Eirin.Props
