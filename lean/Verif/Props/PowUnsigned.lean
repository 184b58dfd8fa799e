import Verif.Props.PowFixedAll
import Verif.Props.LnUnsigned
import Verif.Props.ExpUnsigned
import Verif.Props.AtanUnsigned

/-! # Property C160: `pow(fixed, fixed)` on unsigned layouts. -/

namespace Eirin.Props
open Spec

/-- C160 as stated: on every unsigned layout with 16 to 32 fraction bits `pow(b, e)` of a positive base lies between
`(0.8 - n ulp) b^e` and `1.25 b^e`, give or take `n + 2` ulp, wherever `b^e` fits with two percent to spare (`n` being the integer part of `e`). -/
def C160_statement : Prop := ∀ B f : Nat, UB B → 16 ≤ f → f ≤ 32 → f + 3 ≤ B → ∀ b e : Int, Storable (LU B f) b → Storable (LU B f) e →
  ∀ n : Nat, 0 < val (LU B f) b → (n : ℚ) ≤ val (LU B f) e → val (LU B f) e < n + 1 →
  ((val (LU B f) b : ℚ) : ℝ) ^ ((val (LU B f) e : ℚ) : ℝ) * (102 / 100) ≤ 2 ^ (B - f) →
  ∃ r, powFixed (LU B f) b e = .ok r ∧
    ((val (LU B f) r : ℚ) : ℝ) ≤ 125 / 100 * ((val (LU B f) b : ℚ) : ℝ) ^ ((val (LU B f) e : ℚ) : ℝ) + (n + 2) * ((ulp (LU B f) : ℚ) : ℝ) ∧
    (8 / 10 - n * ((ulp (LU B f) : ℚ) : ℝ)) * ((val (LU B f) b : ℚ) : ℝ) ^ ((val (LU B f) e : ℚ) : ℝ) - (n + 2) * ((ulp (LU B f) : ℚ) : ℝ) ≤
      ((val (LU B f) r : ℚ) : ℝ)

section
variable {B f : Nat} (hB : UB B) (h0 : 0 < f) (h1 : f + 3 ≤ B)
include hB h0 h1

/-- Splitting the exponent. -/
theorem u_split {e : Int} (he : 0 ≤ e ∧ e < 2 ^ B) :
    cdiv (LU B f).C e (fractionMultiplier (LU B f)) = .ok (e / 2 ^ f) ∧ (LU B f).T.wrap (e / 2 ^ f) = e / 2 ^ f ∧ 0 ≤ e / 2 ^ f ∧ e / 2 ^ f < 2 ^ 64 ∧
      subIntAssign (LU B f) e (e / 2 ^ f) = .ok (e - e / 2 ^ f * 2 ^ f) := by
  obtain ⟨hv, hs, hz⟩ := lu_valid hB h0 h1
  have hp : (0 : Int) < 2 ^ f := by positivity
  have q0 : 0 ≤ e / 2 ^ f := Int.ediv_nonneg he.1 hp.le
  have q1 : e / 2 ^ f ≤ e := Int.ediv_le_self _ he.1
  have hC : (LU B f).C.signed = false := by rcases hB with rfl | rfl <;> rfl
  have hB64 : (2 : Int) ^ B ≤ 2 ^ 64 := by rcases hB with rfl | rfl <;> norm_num
  refine ⟨?_, ?_, q0, by omega, (intPart_u hB h0 h1 he.1 he.2).2⟩
  · unfold cdiv
    rw [fractionMultiplier_eq hv]
    show (if (2 : Int) ^ f = 0 then _ else _) = _
    rw [if_neg hp.ne', if_neg (by rw [hC]; simp)]
    show Res.ok (Int.tdiv e (2 ^ f)) = _
    rw [Int.tdiv_eq_ediv_of_nonneg he.1]
  · rw [lu_wrap]; exact Int.emod_eq_of_lt q0 (by omega)

/-- The steps of `pow`. -/
theorem u_pow_steps {b e p l m x : Int} (he : 0 ≤ e ∧ e < 2 ^ B) (hb0 : b ≠ 0)
    (hp : powInt (LU B f) b (e / 2 ^ f) = .ok p) (hl : log (LU B f) b = .ok l) (hm : mul (LU B f) (e - e / 2 ^ f * 2 ^ f) l = .ok m)
    (hx : exp (LU B f) m = .ok x) : powFixed (LU B f) b e = nothrow (mul (LU B f) p x) := by
  obtain ⟨hv, hs, hz⟩ := lu_valid hB h0 h1
  obtain ⟨c1, c2, -, -, c3⟩ := u_split hB h0 h1 he
  unfold powFixed powFixedBody
  rw [hz, if_neg (by rw [eq_iff]; exact hb0), c1, Res.bind_ok]
  dsimp only
  rw [c2, c3, Res.bind_ok, hp, Res.bind_ok, hl, Res.bind_ok, hm, Res.bind_ok, hx, Res.bind_ok]
end

/-- The argument that `pow` passes to `exp`. -/
theorem u_pow_arg {B f : Nat} (hB : UB B) (h16 : 16 ≤ f) (h32 : f ≤ 32) (h3 : f + 3 ≤ B) {b t : Int} (hb : Storable (LU B f) b) (hb1 : 1 ≤ val (LU B f) b)
    (t0 : 0 ≤ t) (t1 : t < 2 ^ f) :
    ∃ l m, log (LU B f) b = .ok l ∧ mul (LU B f) t l = .ok m ∧ Storable (LU B f) m ∧
      |rv (LU B f) m - rv (LU B f) t * Real.log (rv (LU B f) b)| ≤ 36 * uR (LU B f) := by
  have hp : (0 : Int) < 2 ^ f := by positivity
  obtain ⟨⟨l, hl, hlS, hle⟩, -⟩ := C144_large_partial B f hB (by omega) h32 h3 b hb hb1
  obtain ⟨l0, l1⟩ := lu_in.1 hlS
  have hu := uR_pos (LU B f)
  rw [rv_eq, rv_eq, uR_eq] at hle
  have hB1 : 1 ≤ rv (LU B f) b := by rw [← rv_eq]; exact_mod_cast hb1
  have hlog0 : 0 ≤ Real.log (rv (LU B f) b) := Real.log_nonneg hB1
  have hlog1 : Real.log (rv (LU B f) b) ≤ 44 := by
    have h48 : rv (LU B f) b ≤ 2 ^ 48 := by
      have : b ≤ 2 ^ B := (lu_in.1 hb).2.le
      have hb' : (b : ℝ) ≤ 2 ^ B := by exact_mod_cast this
      show (b : ℝ) / 2 ^ f ≤ 2 ^ 48
      rw [div_le_iff₀ (by positivity), ← pow_add]
      exact le_trans hb' (pow_le_pow_right₀ (by norm_num) (by rcases hB with rfl | rfl <;> omega))
    have := Real.log_le_log (by linarith) h48
    rw [Real.log_pow] at this
    have l2 := Real.log_two_lt_d9
    norm_num at this; linarith
  have hle35 : |rv (LU B f) l - Real.log (rv (LU B f) b)| ≤ 35 * uR (LU B f) := by
    refine le_trans hle (mul_le_mul_of_nonneg_right ?_ hu.le)
    rw [abs_of_nonneg hlog0]; norm_num; linarith
  have m0 : 0 ≤ t * l / 2 ^ f := Int.ediv_nonneg (mul_nonneg t0 l0) hp.le
  have m1 : t * l / 2 ^ f ≤ l := by
    have : t * l ≤ 2 ^ f * l := by nlinarith
    calc t * l / 2 ^ f ≤ 2 ^ f * l / 2 ^ f := Int.ediv_le_ediv hp this
      _ = l := Int.mul_ediv_cancel_left _ hp.ne'
  have hfB : (2 : Int) ^ f ≤ 2 ^ B := pow_le_pow_right₀ (by norm_num) (by omega)
  have em : mul (LU B f) t l = .ok (t * l / 2 ^ f) :=
    (nn_unsigned hB (by omega) h3 le_rfl).mul t l t0 (by omega) l0 l1 (by show t * l / 2 ^ f < 2 ^ B; omega)
  refine ⟨l, _, hl, em, lu_in.2 ⟨m0, by omega⟩, ?_⟩
  have hT0 : 0 ≤ rv (LU B f) t := by have := (rv_le (LU B f) (a := 0) (b := t)).2 t0; simpa [rv] using this
  have hT1 : rv (LU B f) t ≤ 1 := by
    have := (rv_le (LU B f) (a := t) (b := 1 * 2 ^ f)).2 (by omega)
    have e := rv_int (LU B f) 1
    rw [show (1 : Int) * 2 ^ (LU B f).f = 1 * 2 ^ f from rfl] at e
    rw [e] at this; simpa using this
  obtain ⟨f1, f2⟩ := rv_floor (LU B f) t l
  rw [show t * l / 2 ^ (LU B f).f = t * l / 2 ^ f from rfl] at f1 f2
  have t1 : |rv (LU B f) t * rv (LU B f) l - rv (LU B f) t * Real.log (rv (LU B f) b)| ≤ 35 * uR (LU B f) := by
    rw [← mul_sub, abs_mul, abs_of_nonneg hT0]
    calc rv (LU B f) t * |rv (LU B f) l - Real.log (rv (LU B f) b)| ≤ 1 * (35 * uR (LU B f)) := by gcongr
      _ = _ := one_mul _
  rw [abs_le] at t1 ⊢
  constructor <;> linarith [t1.1, t1.2]

/-- C160 (bases of at least one): wherever `b^e` fits with two percent to spare, `pow(b, e)` is defined, at most `1.004 b^e` and at least `(0.8 - n ulp) b^e`. -/
theorem C160_large_partial (B f : Nat) (hB : UB B) (h16 : 16 ≤ f) (h32 : f ≤ 32) (h3 : f + 3 ≤ B) (b e : Int) (hb : Storable (LU B f) b)
    (he : Storable (LU B f) e) (n : Nat) (hb1 : 1 ≤ val (LU B f) b) (h0 : (n : ℚ) ≤ val (LU B f) e) (h1 : val (LU B f) e < n + 1)
    (hfit : ((val (LU B f) b : ℚ) : ℝ) ^ ((val (LU B f) e : ℚ) : ℝ) * (102 / 100) ≤ 2 ^ (B - f)) :
    ∃ r, powFixed (LU B f) b e = .ok r ∧ ((val (LU B f) r : ℚ) : ℝ) ≤ 1004 / 1000 * ((val (LU B f) b : ℚ) : ℝ) ^ ((val (LU B f) e : ℚ) : ℝ) ∧
      (8 / 10 - n * ((ulp (LU B f) : ℚ) : ℝ)) * ((val (LU B f) b : ℚ) : ℝ) ^ ((val (LU B f) e : ℚ) : ℝ) ≤ ((val (LU B f) r : ℚ) : ℝ) := by
  obtain ⟨hv, hs, hz⟩ := lu_valid hB (by omega) h3
  have hp : (0 : Int) < 2 ^ f := by positivity
  have hb0 : 0 < val (LU B f) b := by linarith
  have hbne : b ≠ 0 := by rintro rfl; rw [val_zero] at hb0; exact lt_irrefl _ hb0
  have heR := lu_in.1 he
  obtain ⟨hn, t0, t1, het⟩ := pow_parts (F := LU B f) n h0 h1
  change e / 2 ^ f = n at hn
  change 0 ≤ e - e / 2 ^ f * 2 ^ f at t0
  change e - e / 2 ^ f * 2 ^ f < 2 ^ f at t1
  change rv (LU B f) e = n + rv (LU B f) (e - e / 2 ^ f * 2 ^ f) at het
  obtain ⟨l, m, hl, hm, mS, hml⟩ := u_pow_arg hB h16 h32 h3 hb hb1 t0 t1
  obtain ⟨-, -, n0, n64, -⟩ := u_split hB (by omega : 0 < f) h3 heR
  have hu := uR_pos (LU B f)
  have hul : uR (LU B f) ≤ 1 / 65536 := by
    show (1 : ℝ) / 2 ^ f ≤ _
    have : (2 : ℝ) ^ 16 ≤ 2 ^ f := pow_le_pow_right₀ (by norm_num) h16
    exact one_div_le_one_div_of_le (by norm_num) (by norm_num at this ⊢; exact this)
  have hB1 : 1 ≤ rv (LU B f) b := by rw [← rv_eq]; exact_mod_cast hb1
  have hB0 : 0 < rv (LU B f) b := by linarith
  have hsplit := rpow_split hB0 n _ het
  have hT0 : 0 ≤ rv (LU B f) (e - e / 2 ^ f * 2 ^ f) := by have := (rv_le (LU B f) (a := 0)).2 t0; simpa [rv] using this
  obtain ⟨x1, x2⟩ := exp_near_arg36 hu hul hml
  have hY1 : 1 ≤ Real.exp (rv (LU B f) (e - e / 2 ^ f * 2 ^ f) * Real.log (rv (LU B f) b)) := Real.one_le_exp (mul_nonneg hT0 (Real.log_nonneg hB1))
  have hP1 : 1 ≤ rv (LU B f) b ^ n := one_le_pow₀ hB1
  simp only [rv_eq, uR_eq] at hfit ⊢
  rw [hsplit] at hfit ⊢
  generalize Real.exp (rv (LU B f) (e - e / 2 ^ f * 2 ^ f) * Real.log (rv (LU B f) b)) = Y at *
  have hle1 : rv (LU B f) b ^ n ≤ rv (LU B f) b ^ n * Y := by nlinarith
  have hle2 : Y ≤ rv (LU B f) b ^ n * Y := by nlinarith
  have hhi := lu_hi (B := B) (f := f) (by omega)
  have hfitq : val (LU B f) b ^ n ≤ val (LU B f) (LU B f).T.hi := by
    have : rv (LU B f) b ^ n ≤ rv (LU B f) (LU B f).T.hi := by norm_num at hul hhi; nlinarith
    rw [← rv_eq, ← rv_eq] at this
    exact_mod_cast this
  have hone : Representable (LU B f) 1 := one_of_three (lu_three h3)
  have hn64 : n < 2 ^ 64 := by rw [hn] at n64; exact_mod_cast n64
  obtain ⟨p, ep, pS, p1, p2, p0⟩ := C109_relative (LU B f) hv rfl hone b n hb hb1 hn64 hfitq
  have p1' : rv (LU B f) p ≤ rv (LU B f) b ^ n := by rw [← rv_eq, ← rv_eq]; exact_mod_cast p1
  have p2' : rv (LU B f) b ^ n * (1 - n * uR (LU B f)) ≤ rv (LU B f) p := by rw [← rv_eq, ← rv_eq, ← uR_eq]; exact_mod_cast p2
  generalize rv (LU B f) b ^ n = P at *
  have p0' : 0 ≤ rv (LU B f) p := by rw [← rv_eq]; exact_mod_cast p0
  obtain ⟨x, hx, xS, y1, y2⟩ := C142_bounds B f hB h16 (by omega) h3 m mS (by
    rw [rv_eq]
    have : (1 + 37 * uR (LU B f)) * Y ≤ 1.0006 * Y := mul_le_mul_of_nonneg_right (by norm_num at hul ⊢; linarith) (by linarith)
    norm_num at this; linarith)
  rw [rv_eq, rv_eq] at y1 y2
  have hx0 : 0 ≤ rv (LU B f) x := le_trans (by positivity) y1
  obtain ⟨f1, f2⟩ := rv_floor (LU B f) p x
  rw [show p * x / 2 ^ (LU B f).f = p * x / 2 ^ f from rfl] at f1 f2
  have up : rv (LU B f) p * rv (LU B f) x ≤ 1004 / 1000 * (P * Y) := by
    have a1 : rv (LU B f) x ≤ 1004 / 1000 * Y := by norm_num at hul; nlinarith
    have := mul_le_mul p1' a1 hx0 (by linarith)
    linarith
  obtain ⟨pl, ph⟩ := lu_in.1 pS
  obtain ⟨xl, xh⟩ := lu_in.1 xS
  have q0 : 0 ≤ p * x / 2 ^ f := Int.ediv_nonneg (mul_nonneg pl xl) hp.le
  have hst : p * x / 2 ^ f < 2 ^ B := by
    have h : rv (LU B f) (p * x / 2 ^ f) < 2 ^ (B - f) := by
      have : 0 < P * Y := by positivity
      norm_num at up hfit ⊢; linarith
    change ((p * x / 2 ^ f : Int) : ℝ) / 2 ^ f < 2 ^ (B - f) at h
    rw [div_lt_iff₀ (by positivity), ← pow_add, show B - f + f = B by omega] at h
    exact_mod_cast h
  refine ⟨p * x / 2 ^ f, ?_, by linarith, ?_⟩
  · rw [u_pow_steps hB (by omega) h3 heR hbne (by rw [hn]; exact ep) hl hm hx,
      (nn_unsigned hB (by omega) h3 le_rfl).mul p x pl ph xl xh hst]
    rfl
  by_cases hnu : (n : ℝ) * uR (LU B f) ≤ 8 / 10
  · have a1 : 0.8094 * Y ≤ rv (LU B f) x := by norm_num at hul ⊢; nlinarith
    have a2 : P * (1 - n * uR (LU B f)) * (0.8094 * Y) ≤ rv (LU B f) p * rv (LU B f) x := mul_le_mul p2' a1 (by positivity) p0'
    have a3 : 1 ≤ P * Y := by nlinarith
    have a4 : 0 ≤ P * Y * (n * uR (LU B f)) := by positivity
    have a5 : uR (LU B f) ≤ P * Y * uR (LU B f) := by nlinarith
    have a6 : P * Y * uR (LU B f) ≤ P * Y * (1 / 65536) := mul_le_mul_of_nonneg_left hul (by linarith)
    norm_num at a2 ⊢
    nlinarith
  · have a1 : 0 ≤ rv (LU B f) (p * x / 2 ^ f) := by have := (rv_le (LU B f) (a := 0)).2 q0; simpa [rv] using this
    have a2 : (8 / 10 - n * uR (LU B f)) * (P * Y) ≤ 0 := mul_nonpos_of_nonpos_of_nonneg (by linarith) (by positivity)
    linarith

example : Storable (LU 32 16) (2 * 2 ^ 16) ∧ 1 ≤ val (LU 32 16) (2 * 2 ^ 16) ∧ val (LU 32 16) (31 * 2 ^ 15) = 15.5 ∧
    powFixed (LU 32 16) (2 * 2 ^ 16) (31 * 2 ^ 15) = .ok 2664759296 := by
  refine ⟨by decide +kernel, by norm_num [val], by norm_num [val], by decide +kernel⟩

/-- C160 (whole exponents): the fixed-point power with a whole exponent is the integer power, for every base, on every unsigned layout with 8 to 32 fraction bits. -/
theorem C160_whole_partial (B f : Nat) (hB : UB B) (h8 : 8 ≤ f) (h32 : f ≤ 32) (h3 : f + 3 ≤ B) (b : Int) (n : Nat) (hb : Storable (LU B f) b)
    (hn : Storable (LU B f) (n * 2 ^ f)) : ∃ r, powFixed (LU B f) b (n * 2 ^ f) = .ok r ∧ powInt (LU B f) b n = .ok r ∧ Storable (LU B f) r := by
  obtain ⟨hv, hs, hz⟩ := lu_valid hB (by omega) h3
  have hp : (0 : Int) < 2 ^ f := by positivity
  have hfB : (2 : Int) ^ f < 2 ^ B := pow_lt_pow_right₀ (by norm_num) (by omega)
  have hnR := lu_in.1 hn
  have h1 : ofInt (LU B f) 1 = 2 ^ f := (lu_asin_k hB (by omega) h3).2.2.2.1
  have hdiv : (n * 2 ^ f : Int) / 2 ^ f = n := Int.mul_ediv_cancel _ hp.ne'
  by_cases hb0 : b = 0
  · subst hb0
    by_cases hn0 : n = 0
    · subst hn0
      refine ⟨2 ^ f, ?_, ?_, lu_in.2 ⟨hp.le, hfB⟩⟩
      · unfold powFixed powFixedBody
        rw [hz, h1, if_pos (by rw [eq_iff]), if_pos (by rw [eq_iff]; simp)]
        rfl
      · unfold powInt
        rw [hz, h1, if_pos (by rw [eq_iff]), if_pos (by rfl)]
    · have : (0 : Int) < n := by omega
      have : (0 : Int) < n * 2 ^ f := by positivity
      refine ⟨0, ?_, ?_, lu_in.2 ⟨le_rfl, by positivity⟩⟩
      · unfold powFixed powFixedBody
        rw [hz, if_pos (by rw [eq_iff]), if_neg (by rw [eq_iff]; omega)]
        rfl
      · unfold powInt
        rw [hz, if_pos (by rw [eq_iff]), if_neg (by omega)]
  · have hbp : 0 < b := by have := (lu_in.1 hb).1; omega
    have hbv : 0 < val (LU B f) b := by rw [← val_zero (LU B f), val_lt]; exact hbp
    obtain ⟨-, -, n0, n64, -⟩ := u_split hB (by omega : 0 < f) h3 hnR
    rw [hdiv] at n0 n64
    obtain ⟨p, ep, pS⟩ := C35_defined (LU B f) hv rfl b n hb n0 n64
    obtain ⟨l, hl, lS⟩ : ∃ l, log (LU B f) b = .ok l ∧ Storable (LU B f) l := by
      rcases lt_or_ge (val (LU B f) b) 1 with hc | hc
      · obtain ⟨-, -, -, ⟨l, e, S, -⟩, -⟩ := C144_small_partial B f hB h8 h32 h3 b hb hbv hc
        exact ⟨l, e, S⟩
      · obtain ⟨⟨l, e, S, -⟩, -⟩ := C144_large_partial B f hB h8 h32 h3 b hb hc
        exact ⟨l, e, S⟩
    have hm : mul (LU B f) (n * 2 ^ f - n * 2 ^ f / 2 ^ f * 2 ^ f) l = .ok 0 := by
      rw [hdiv, sub_self, u_mul hB (by omega) h3 ⟨le_rfl, by positivity⟩ (lu_in.1 lS), zero_mul, Int.zero_ediv, Int.zero_emod]
    have hx : exp (LU B f) 0 = .ok (2 ^ f) := by
      unfold exp
      rw [hz, h1, if_pos (by rw [eq_iff])]
    refine ⟨p, ?_, ep, pS⟩
    rw [u_pow_steps hB (by omega) h3 hnR hb0 (by rw [hdiv]; exact ep) hl hm hx, u_mul hB (by omega) h3 (lu_in.1 pS) ⟨hp.le, hfB⟩,
      Int.mul_ediv_cancel _ hp.ne', Int.emod_eq_of_lt (lu_in.1 pS).1 (lu_in.1 pS).2]
    rfl
example : powFixed (LU 32 16) 32768 (3 * 65536) = .ok 8192 ∧ Storable (LU 32 16) (3 * 65536) := by decide +kernel

/-- C160: on every unsigned layout with 16 to 32 fraction bits the square root of one half by way of `pow` exceeds 3/2: the logarithm has wrapped. -/
theorem C160_half (B f : Nat) (hB : UB B) (h16 : 16 ≤ f) (h32 : f ≤ 32) (h3 : f + 3 ≤ B) :
    ∃ r, powFixed (LU B f) (2 ^ (f - 1)) (2 ^ (f - 1)) = .ok r ∧ val (LU B f) (2 ^ (f - 1)) = 1 / 2 ∧ 3 / 2 < val (LU B f) r := by
  have a : ∀ f < 33, 16 ≤ f → (match powFixed (LU 64 f) (2 ^ (f - 1)) (2 ^ (f - 1)) with | .ok r => decide (3 * 2 ^ f < 2 * r) | _ => false) = true := by
    decide +kernel
  have b : ∀ f < 30, 16 ≤ f → (match powFixed (LU 32 f) (2 ^ (f - 1)) (2 ^ (f - 1)) with | .ok r => decide (3 * 2 ^ f < 2 * r) | _ => false) = true := by
    decide +kernel
  have key : (match powFixed (LU B f) (2 ^ (f - 1)) (2 ^ (f - 1)) with | .ok r => decide (3 * 2 ^ f < 2 * r) | _ => false) = true := by
    rcases hB with rfl | rfl
    · exact b f (by omega) h16
    · exact a f (by omega) h16
  have hv : val (LU B f) (2 ^ (f - 1)) = 1 / 2 := by
    show (((2 : Int) ^ (f - 1) : Int) : ℚ) / 2 ^ f = _
    rw [show f = (f - 1) + 1 by omega, pow_succ]
    push_cast
    rw [div_mul_eq_div_div, div_self (by positivity)]
  split at key
  · rename_i r e
    refine ⟨r, e, hv, ?_⟩
    have k := of_decide_eq_true key
    show _ < (r : ℚ) / 2 ^ f
    rw [lt_div_iff₀ (by positivity)]
    have : (3 * 2 ^ f : ℚ) < 2 * r := by exact_mod_cast k
    linarith
  · cases key
example : powFixed (LU 32 16) 32768 32768 = .ok 3096749987 := by decide +kernel

/-- C160 is false of the code. -/
theorem C160_false : ¬ C160_statement := by
  intro h
  have hv : ((val (LU 32 16) (2 ^ 15) : ℚ) : ℝ) = 1 / 2 := by norm_num [val]
  have hu : ((ulp (LU 32 16) : ℚ) : ℝ) = 1 / 65536 := by norm_num [ulp]
  have hle : (1 / 2 : ℝ) ^ (1 / 2 : ℝ) ≤ 1 := Real.rpow_le_one (by norm_num) (by norm_num) (by norm_num)
  obtain ⟨r, e, hr, -⟩ := h 32 16 (Or.inl rfl) (by norm_num) (by norm_num) (by norm_num) (2 ^ 15) (2 ^ 15) (by decide +kernel) (by decide +kernel) 0
    (by norm_num [val]) (by norm_num [val]) (by norm_num [val]) (by rw [hv]; norm_num at hle ⊢; linarith)
  obtain ⟨r', e', -, h'⟩ := C160_half 32 16 (Or.inl rfl) (by norm_num) (by norm_num) (by norm_num)
  rw [e'] at e
  obtain rfl := Res.ok.inj e
  rw [hv, hu] at hr
  have : (3 / 2 : ℝ) < ((val (LU 32 16) r' : ℚ) : ℝ) := by
    have := (Rat.cast_lt (K := ℝ)).2 h'
    push_cast at this ⊢; exact this
  norm_num at *
  linarith

end Eirin.Props
