import Verif.Props.ExpAll

/-! # C130: monotonicity of `exp` on every signed layout -/

namespace Eirin.Props
open Spec

/-- The arithmetic across an integer: the value below stays under the value above. -/
theorem exp_across {E E' A r s v u n m : ℝ} (hu : 0 < u) (hu12 : u ≤ 1 / 4096) (hE : 0 < E) (hEE : 2.7 * E ≤ E') (hn : n ≤ 39) (hm : m ≤ 39) 
    (hv1 : v ≤ 9 / 4) (hr : |r - E * v| ≤ E * (6 / 100000 + (4 * n + 14) * u)) (hA : E' ≤ A) (hs : |s - A| ≤ E' * (6 / 100000 + (4 * m + 14) * u)) : r ≤ s := by
  have h1 : (4 * n + 14) * u ≤ 170 / 4096 := by
    have := mul_le_mul (show 4 * n + 14 ≤ 170 by linarith) hu12 hu.le (by norm_num)
    linarith
  have h2 : (4 * m + 14) * u ≤ 170 / 4096 := by
    have := mul_le_mul (show 4 * m + 14 ≤ 170 by linarith) hu12 hu.le (by norm_num)
    linarith
  have e1 : E * (6 / 100000 + (4 * n + 14) * u) ≤ E * (5 / 100) := mul_le_mul_of_nonneg_left (by norm_num at h1 ⊢; linarith) hE.le
  have hE' : 0 < E' := by norm_num at hEE; linarith
  have e2 : E' * (6 / 100000 + (4 * m + 14) * u) ≤ E' * (5 / 100) := mul_le_mul_of_nonneg_left (by norm_num at h2 ⊢; linarith) hE'.le
  have e3 : E * v ≤ E * (9 / 4) := mul_le_mul_of_nonneg_left hv1 hE.le
  have := (abs_le.1 hr).2
  have := (abs_le.1 hs).1
  norm_num at hEE
  linarith

theorem exp_v_le {X : ℝ} (hX0 : 0 ≤ X) (hX1 : X ≤ 1) : Real.exp X - X / 2 ≤ 9 / 4 := by
  have a2 := Real.exp_one_lt_d9
  have a3 : Real.exp X * (1 + (1 - X)) ≤ Real.exp 1 := by
    have b1 : Real.exp X * Real.exp (1 - X) = Real.exp 1 := by rw [← Real.exp_add]; congr 1; ring
    have b2 := Real.add_one_le_exp (1 - X)
    rw [← b1]
    exact mul_le_mul_of_nonneg_left (by linarith) (Real.exp_pos X).le
  have a4 : 1 ≤ Real.exp X := Real.one_le_exp hX0
  nlinarith

/-- Spec: `e^x` and the margin of C110 fit into the layout. -/
def ExpFits (F : FxTy) (x : Int) : Prop :=
  Real.exp ((val F x : ℚ) : ℝ) + Real.exp ⌊val F x⌋ * (6 / 100000 + (4 * ⌊val F x⌋ + 14) * ((ulp F : ℚ) : ℝ)) ≤ 2 ^ (F.T.bits - 1 - F.f)

/-- For a positive argument: the value, its error and its shape. -/
theorem exp_shape {F : FxTy} (h : Lay F (1 / 256) 3.9) (hf : F.f < 61) {H : Int → Int} (hH : IsExpPoly F H) {x : Int} (hS : Storable F x) (h0 : 0 < x)
    (hfit : ExpFits F x) : ∃ n : Nat, ∃ r, (n : Int) = x / 2 ^ F.f ∧ (n : ℝ) ≤ 39 ∧ exp F x = .ok r ∧ Storable F r ∧
      (n : ℝ) ≤ rv F x ∧ rv F x ≤ n + 1 ∧
      |rv F r - (Real.exp (rv F x) - Real.exp n * ((rv F x - n) / 2))| ≤ Real.exp n * (6 / 100000 + (4 * n + 14) * uR F) ∧
      ∃ ev p, cE F = .ok ev ∧ powInt F ev n = .ok p ∧ 0 ≤ p ∧ r = p * H (x - x / 2 ^ F.f * 2 ^ F.f) / 2 ^ F.f := by
  have hp : (0 : Int) < 2 ^ F.f := by positivity
  have hu := uR_pos F
  have q0 : 0 ≤ x / 2 ^ F.f := Int.ediv_nonneg h0.le hp.le
  obtain ⟨n, hn⟩ := Int.eq_ofNat_of_zero_le q0
  have hfl : ⌊val F x⌋ = n := by
    rw [← hn]
    unfold val
    have := Rat.floor_intCast_div_natCast x (2 ^ F.f)
    push_cast at this
    exact this
  have hfit' : Real.exp (rv F x) + Real.exp n * (6 / 100000 + (4 * n + 14) * uR F) ≤ 2 ^ (F.T.bits - 1 - F.f) := by
    unfold ExpFits at hfit
    rw [hfl, rv_eq, uR_eq] at hfit
    exact_mod_cast hfit
  have h8 : 8 ≤ F.f := by
    by_contra h8
    have hul := h.u_le
    have : (2 : ℝ) ^ F.f ≤ 2 ^ 7 := pow_le_pow_right₀ (by norm_num) (by omega)
    unfold uR at hul
    rw [div_le_div_iff₀ (by positivity) (by norm_num)] at hul
    norm_num at this hul; linarith
  have b1 : (n : ℝ) ≤ rv F x := by
    have := (rv_le F).2 (Int.ediv_mul_le x hp.ne')
    rw [hn, rv_int] at this; exact_mod_cast this
  have b2 : rv F x ≤ n + 1 := by
    have := (rv_le F).2 (Int.lt_ediv_add_one_mul_self x hp).le
    rw [hn, rv_int] at this; exact_mod_cast this
  have hE : Real.exp n ≤ 2 ^ (F.T.bits - 1 - F.f) := by
    have e1 : Real.exp n ≤ Real.exp (rv F x) := Real.exp_le_exp.2 b1
    have e2 : 0 ≤ Real.exp n * (6 / 100000 + (4 * n + 14) * uR F) := by positivity
    linarith
  obtain ⟨r, e, s, a, sh⟩ := exp_genH h hf hH hS n hn.symm h0.le hfit'
  exact ⟨n, r, hn.symm, exp_n_lt h.sw.valid h8 hE, e, s, b1, b2, a, sh h0.ne'⟩

/-- Monotonicity for positive arguments. -/
theorem exp_mono_pos {F : FxTy} (h : Lay F (1 / 256) 3.9) (h12 : 12 ≤ F.f) (hf : F.f < 61) {x y : Int} (hx : Storable F x) (hy : Storable F y) (h0 : 0 < x)
    (hxy : x ≤ y) (fx : ExpFits F x) (fy : ExpFits F y) : ∃ r s, exp F x = .ok r ∧ exp F y = .ok s ∧ Storable F r ∧ Storable F s ∧ r ≤ s := by
  have hp : (0 : Int) < 2 ^ F.f := by positivity
  obtain ⟨H, hmono, hH⟩ := expExpand_horner h hf
  obtain ⟨n, r, hn, n39, er, rS, n1, n2, ra, ev, p, e1, e2, p0, hr⟩ := exp_shape h hf hH hx h0 fx
  obtain ⟨m, s, hm, m39, es, sS, m1, m2, sa, ev', p', e1', e2', p0', hs⟩ := exp_shape h hf hH hy (by omega) fy
  refine ⟨r, s, er, es, rS, sS, ?_⟩
  have hnm : x / 2 ^ F.f ≤ y / 2 ^ F.f := Int.ediv_le_ediv hp hxy
  rcases hnm.eq_or_lt with heq | hlt
  · have hnm' : n = m := by omega
    subst hnm'
    obtain rfl : ev = ev' := by rw [e1] at e1'; exact Res.ok.inj e1'
    obtain rfl : p = p' := by rw [e2] at e2'; exact Res.ok.inj e2'
    rw [hr, hs]
    apply Int.ediv_le_ediv hp
    apply mul_le_mul_of_nonneg_left _ p0
    have t0 : 0 ≤ x - x / 2 ^ F.f * 2 ^ F.f := by have := Int.ediv_mul_le x hp.ne'; omega
    exact hmono _ _ t0 (by rw [heq]; omega)
  · have hnm' : n + 1 ≤ m := by omega
    have hu := uR_pos F
    have hu12 : uR F ≤ 1 / 4096 := by
      unfold uR
      apply div_le_div_of_nonneg_left (by norm_num) (by norm_num)
      have : (2 : ℝ) ^ 12 ≤ 2 ^ F.f := pow_le_pow_right₀ (by norm_num) h12
      norm_num at this ⊢; exact this
    have hEE : 2.7 * Real.exp n ≤ Real.exp m := by
      have a1 : Real.exp ((n : ℝ) + 1) ≤ Real.exp m := Real.exp_le_exp.2 (by exact_mod_cast hnm')
      rw [Real.exp_add] at a1
      have a2 := Real.exp_one_gt_d9
      have a3 := mul_le_mul_of_nonneg_left a2.le (Real.exp_pos n).le
      have := Real.exp_pos n
      norm_num at *; linarith
    have hsx : Real.exp (rv F x) - Real.exp n * ((rv F x - n) / 2) = Real.exp n * (Real.exp (rv F x - n) - (rv F x - n) / 2) := by
      rw [mul_sub, ← Real.exp_add]; congr 2; ring
    have hsy : Real.exp m ≤ Real.exp (rv F y) - Real.exp m * ((rv F y - m) / 2) := by
      have e : Real.exp (rv F y) - Real.exp m * ((rv F y - m) / 2) = Real.exp m * (Real.exp (rv F y - m) - (rv F y - m) / 2) := by
        rw [mul_sub, ← Real.exp_add]; congr 2; ring
      rw [e]
      have a1 := Real.add_one_le_exp (rv F y - m)
      exact le_mul_of_one_le_right (Real.exp_pos _).le (by linarith)
    rw [hsx] at ra
    have := exp_across hu hu12 (Real.exp_pos n) hEE n39 m39
      (exp_v_le (by linarith) (by linarith)) ra hsy sa
    exact (rv_le F).1 this

/-- The value is positive. -/
theorem exp_value_pos {F : FxTy} (h : Lay F (1 / 256) 3.9) (h12 : 12 ≤ F.f) (hf : F.f < 61) {x : Int} (hx : Storable F x) (h0 : 0 < x)
    (fx : ExpFits F x) : ∃ r, exp F x = .ok r ∧ Storable F r ∧ 2 ^ F.f ≤ 2 * r ∧
      (12 / 100000 + 28 * uR F ≤ rv F x → 2 ^ F.f ≤ r) := by
  obtain ⟨H, hmono, hH⟩ := expExpand_horner h hf
  obtain ⟨n, r, hn, n39, er, rS, n1, n2, ra, -⟩ := exp_shape h hf hH hx h0 fx
  have hu := uR_pos F
  have hu12 : uR F ≤ 1 / 4096 := by
    unfold uR
    apply div_le_div_of_nonneg_left (by norm_num) (by norm_num)
    have : (2 : ℝ) ^ 12 ≤ 2 ^ F.f := pow_le_pow_right₀ (by norm_num) h12
    norm_num at this ⊢; exact this
  have hsy : Real.exp n * (1 + (rv F x - n) / 2) ≤ Real.exp (rv F x) - Real.exp n * ((rv F x - n) / 2) := by
    have e : Real.exp (rv F x) - Real.exp n * ((rv F x - n) / 2) = Real.exp n * (Real.exp (rv F x - n) - (rv F x - n) / 2) := by
      rw [mul_sub, ← Real.exp_add]; congr 2; ring
    rw [e]
    have a1 := Real.add_one_le_exp (rv F x - n)
    exact mul_le_mul_of_nonneg_left (by linarith) (Real.exp_pos _).le
  have hE1 : 1 ≤ Real.exp n := Real.one_le_exp (by positivity)
  have herr : (4 * (n : ℝ) + 14) * uR F ≤ 170 / 4096 := by
    have := mul_le_mul (show 4 * (n : ℝ) + 14 ≤ 170 by linarith) hu12 hu.le (by norm_num)
    linarith
  have hl := (abs_le.1 ra).1
  have one : rv F (2 ^ F.f) = 1 := by have := rv_int F 1; rw [one_mul] at this; simpa using this
  refine ⟨r, er, rS, ?_, fun hbig => ?_⟩
  · rw [← rv_le F, one]
    have e2 : rv F (2 * r) = 2 * rv F r := by unfold rv; push_cast; ring
    rw [e2]
    have : Real.exp n * (6 / 100000 + (4 * n + 14) * uR F) ≤ Real.exp n * (5 / 100) :=
      mul_le_mul_of_nonneg_left (by norm_num at herr ⊢; linarith) (by linarith)
    have : Real.exp n * 1 ≤ Real.exp n * (1 + (rv F x - n) / 2) := mul_le_mul_of_nonneg_left (by linarith) (by linarith)
    linarith
  · rw [← rv_le F, one]
    rcases Nat.eq_zero_or_pos n with h00 | hpos
    · subst h00
      simp only [Nat.cast_zero, Real.exp_zero, one_mul, sub_zero, mul_zero, zero_add] at *
      linarith
    · have hE2 : 2.7 ≤ Real.exp n := by
        have a1 : Real.exp 1 ≤ Real.exp n := Real.exp_le_exp.2 (by exact_mod_cast hpos)
        have a2 := Real.exp_one_gt_d9
        norm_num at a2 ⊢; linarith
      have : Real.exp n * (6 / 100000 + (4 * n + 14) * uR F) ≤ Real.exp n * (5 / 100) :=
        mul_le_mul_of_nonneg_left (by norm_num at herr ⊢; linarith) (by linarith)
      have : Real.exp n * 1 ≤ Real.exp n * (1 + (rv F x - n) / 2) := mul_le_mul_of_nonneg_left (by linarith) (by linarith)
      norm_num at hE2; linarith

/-- The reciprocal for a negative argument. -/
theorem exp_neg_shape {F : FxTy} (h : Lay F (1 / 256) 3.9) {x : Int} (hx : Storable F x) (h0 : 0 < x) {r : Int} (er : exp F x = .ok r) (hr : 2 ^ F.f ≤ 2 * r) : exp F (-x) = .ok (2 ^ F.f * 2 ^ F.f / r) ∧ Storable F (2 ^ F.f * 2 ^ F.f / r) := by
  have hp : (0 : Int) < 2 ^ F.f := by positivity
  have r0 : 0 < r := by omega
  have e0 : ofInt F 0 = 0 := by rw [ofInt_eq F h.sw.valid, zero_mul]; exact h.sw.wrap_ok h.sw.zero_in
  have e1 : ofInt F 1 = 2 ^ F.f := by rw [ofInt_eq F h.sw.valid, one_mul]; exact h.sw.wrap_ok h.sw.one
  have hq : 2 ^ F.f * 2 ^ F.f / r ≤ 2 * 2 ^ F.f := by
    apply Int.ediv_le_of_le_mul r0
    nlinarith
  have hq0 : 0 ≤ 2 ^ F.f * 2 ^ F.f / r := Int.ediv_nonneg (by positivity) r0.le
  have hqS : Storable F (2 ^ F.f * 2 ^ F.f / r) := h.st (by
    have a1 := (rv_le F).2 hq
    have a2 := (rv_le F).2 hq0
    rw [rv_int] at a1
    have z0 : rv F 0 = 0 := by simp [rv]
    rw [z0] at a2
    rw [abs_of_nonneg a2]; norm_num at *; linarith)
  have et : Int.tdiv (2 ^ F.f * 2 ^ F.f) r = 2 ^ F.f * 2 ^ F.f / r := Int.tdiv_eq_ediv_of_nonneg (by positivity)
  refine ⟨?_, hqS⟩
  unfold exp at er ⊢
  rw [e0, e1] at er ⊢
  rw [if_neg (by rw [eq_iff]; omega), if_neg (by rw [lt_iff]; omega)] at er
  rw [if_neg (by rw [eq_iff]; omega), if_pos (by rw [lt_iff]; omega), h.sw.neg_ok (by rw [neg_neg]; exact hx), Res.bind_ok, neg_neg, er, Res.bind_ok,
    h.sw.div_ok h.r h.sw.one r0.ne' (by rw [et]; exact hqS), et]

/-- C130: full statement: `exp` is monotone wherever its values fit. -/
def C130_statement : Prop := ∀ F : FxTy, F.Valid → F.T.signed = true → F.r = false → 12 ≤ F.f → F.f ≤ 60 → Representable F 3 →
  ∀ x y : Int, Storable F x → Storable F y → 0 ≤ val F x → val F x ≤ val F y → ExpFits F y →
    ∃ r s, exp F x = .ok r ∧ exp F y = .ok s ∧ val F r ≤ val F s

/-- C130: on every layout, `exp` decreases when the argument goes from zero to the smallest positive number, and from the negated
smallest positive number to zero. -/
theorem C130_zero (f : Nat) (hf : 1 ≤ f) (F : FxTy) (hF : (f ≤ 28 ∧ F = ⟨i32, i64, f, false⟩) ∨ (f ≤ 60 ∧ F = ⟨i64, i128, f, false⟩)) :
    ∃ r s t, exp F (-1) = .ok r ∧ exp F 0 = .ok s ∧ exp F 1 = .ok t ∧ t < s ∧ s < r := by
  have key : ∀ a b c : Res Int, (match a, b, c with | .ok r, .ok s, .ok t => decide (t < s ∧ s < r) | _, _, _ => false) = true →
      ∃ r s t, a = .ok r ∧ b = .ok s ∧ c = .ok t ∧ t < s ∧ s < r := by
    intro a b c h
    cases a <;> cases b <;> cases c <;> simp_all
  apply key
  rcases hF with ⟨h1, rfl⟩ | ⟨h1, rfl⟩
  · revert f; decide +kernel
  · revert f; decide +kernel

/-- C130 is false. -/
theorem C130_false : ¬ C130_statement := by
  intro h
  obtain ⟨r, s, hr, hs, hle⟩ := h fixed32 (by decide) (by decide) rfl (by decide) (by decide) ⟨3 * 2 ^ 16, by decide, by norm_num [val, fixed32]⟩ 0 1
    (by decide) (by decide) (by norm_num [val, fixed32]) (by norm_num [val, fixed32]) (by
      have hf : ⌊val fixed32 1⌋ = 0 := by rw [Int.floor_eq_zero_iff]; norm_num [val, fixed32]
      unfold ExpFits
      rw [hf]
      have h1 : Real.exp ((val fixed32 1 : ℚ) : ℝ) ≤ Real.exp 1 := Real.exp_le_exp.2 (by norm_num [val, fixed32])
      have h2 := Real.exp_one_lt_d9
      have h3 : ((ulp fixed32 : ℚ) : ℝ) = 1 / 65536 := by norm_num [ulp, fixed32]
      rw [h3, show fixed32.T.bits - 1 - fixed32.f = 15 by rfl]
      norm_num at h2 ⊢
      linarith)
  have e0 : exp fixed32 0 = .ok 65536 := by decide +kernel
  have e1 : exp fixed32 1 = .ok 65535 := by decide +kernel
  rw [e0] at hr; rw [e1] at hs
  cases hr; cases hs
  rw [val_le] at hle
  norm_num at hle

/-- C130: `exp` is monotone on the positive numbers. -/
theorem C130_positive_partial (F : FxTy) (hF : F.Valid) (hs : F.T.signed = true) (hr : F.r = false) (h12 : 12 ≤ F.f) (h60 : F.f ≤ 60) (h3 : Representable F 3)
    (x y : Int) (hx : Storable F x) (hy : Storable F y) (h0 : 0 < val F x) (hxy : val F x ≤ val F y) (fx : ExpFits F x) (fy : ExpFits F y) :
    ∃ r s, exp F x = .ok r ∧ exp F y = .ok s ∧ val F r ≤ val F s := by
  have h := lay_of hF hs hr (by omega) h3
  obtain ⟨r, s, e1, e2, -, -, e3⟩ := exp_mono_pos h h12 (by omega) hx hy ((val_lt (F := F)).1 (by rw [val_zero]; exact h0)) ((val_le (F := F)).1 hxy) fx fy
  exact ⟨r, s, e1, e2, (val_le (F := F)).2 e3⟩

/-- C130: `exp` is monotone on the negative numbers. -/
theorem C130_negative_partial (F : FxTy) (hF : F.Valid) (hs : F.T.signed = true) (hr : F.r = false) (h12 : 12 ≤ F.f) (h60 : F.f ≤ 60) (h3 : Representable F 3)
    (x y : Int) (hx : Storable F x) (hy : Storable F y) (h0 : 0 < val F x) (hxy : val F x ≤ val F y) (fx : ExpFits F x) (fy : ExpFits F y) :
    ∃ r s, exp F (-y) = .ok r ∧ exp F (-x) = .ok s ∧ val F r ≤ val F s := by
  have h := lay_of hF hs hr (by omega) h3
  have x0 : 0 < x := (val_lt (F := F)).1 (by rw [val_zero]; exact h0)
  have hxy' : x ≤ y := (val_le (F := F)).1 hxy
  have hp : (0 : Int) < 2 ^ F.f := by positivity
  obtain ⟨r, s, e1, e2, -, -, e3⟩ := exp_mono_pos h h12 (by omega) hx hy x0 hxy' fx fy
  obtain ⟨r', e1', -, l1, -⟩ := exp_value_pos h h12 (by omega) hx x0 fx
  obtain ⟨s', e2', -, l2, -⟩ := exp_value_pos h h12 (by omega) hy (by omega) fy
  obtain rfl : r = r' := by rw [e1] at e1'; exact Res.ok.inj e1'
  obtain rfl : s = s' := by rw [e2] at e2'; exact Res.ok.inj e2'
  refine ⟨_, _, (exp_neg_shape h hy (by omega) e2 l2).1, (exp_neg_shape h hx x0 e1 l1).1, ?_⟩
  rw [val_le]
  have r0 : 0 < r := by omega
  rw [Int.le_ediv_iff_mul_le r0]
  have a1 := Int.ediv_mul_le (2 ^ F.f * 2 ^ F.f) (show s ≠ 0 by omega)
  have a2 : 0 ≤ 2 ^ F.f * 2 ^ F.f / s := Int.ediv_nonneg (by positivity) (by omega)
  nlinarith

/-- C130: away from zero the two branches are on the right sides of one. -/
theorem C130_sides_partial (F : FxTy) (hF : F.Valid) (hs : F.T.signed = true) (hr : F.r = false) (h12 : 12 ≤ F.f) (h60 : F.f ≤ 60) (h3 : Representable F 3)
    (x : Int) (hx : Storable F x) (h0 : 12 / 100000 + 28 * ulp F ≤ val F x) (fx : ExpFits F x) :
    ∃ r s, exp F x = .ok r ∧ exp F (-x) = .ok s ∧ 1 ≤ val F r ∧ val F s ≤ 1 ∧ 0 ≤ val F s := by
  have h := lay_of hF hs hr (by omega) h3
  have hu : 0 < ulp F := ulp_pos F
  have x0 : 0 < x := (val_lt (F := F)).1 (by rw [val_zero]; linarith)
  have hp : (0 : Int) < 2 ^ F.f := by positivity
  obtain ⟨r, e1, -, l1, l2⟩ := exp_value_pos h h12 (by omega) hx x0 fx
  have h0' : ((12 / 100000 + 28 * ulp F : ℚ) : ℝ) ≤ ((val F x : ℚ) : ℝ) := by exact_mod_cast h0
  push_cast at h0'
  rw [rv_eq, uR_eq] at h0'
  have l3 := l2 h0'
  have one : val F (2 ^ F.f) = 1 := by have := val_int F 1; rw [one_mul] at this; simpa using this
  refine ⟨r, _, e1, (exp_neg_shape h hx x0 e1 l1).1, by rw [← one, val_le]; exact l3, ?_, ?_⟩
  · rw [← one, val_le]
    exact Int.ediv_le_of_le_mul (by omega) (mul_le_mul_of_nonneg_left l3 hp.le)
  · rw [← val_zero F, val_le]
    exact Int.ediv_nonneg (by positivity) (by omega)

example : ExpFits fixed32 65536 ∧ exp fixed32 (65536 / 2) = .ok 91663 ∧ exp fixed32 65535 = .ok 145365 ∧ exp fixed32 65536 = .ok 178142 ∧
    exp fixed32 (-65536) = .ok 24109 ∧ exp fixed32 1 = .ok 65535 := by
  refine ⟨?_, by decide +kernel⟩
  have hv : val fixed32 65536 = 1 := by norm_num [val, fixed32]
  have hu : ulp fixed32 = 1 / 65536 := by norm_num [ulp, fixed32]
  unfold ExpFits
  rw [hv, hu, show fixed32.T.bits - 1 - fixed32.f = 15 by rfl]
  have h2 := Real.exp_one_lt_d9
  norm_num at h2 ⊢
  linarith

end Eirin.Props
