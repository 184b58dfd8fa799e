import Verif.Props.ExpAll

/-! # C166: exp turns sums into products -/

namespace Eirin.Props
open Spec

/-- C166: the expected law: `exp(x) * exp(y)` within 1% of `exp(x + y)`. -/
def C166_statement : Prop :=
  ∀ x y z a b c d : Int, 0 ≤ val fixed32 x → 0 ≤ val fixed32 y → val fixed32 x + val fixed32 y ≤ 10 → add fixed32 x y = .ok z →
    exp fixed32 x = .ok a → exp fixed32 y = .ok b → mul fixed32 a b = .ok c → exp fixed32 z = .ok d →
    |val fixed32 c - val fixed32 d| ≤ 1 / 100 * val fixed32 d

/-- C166 is false of the code: `exp(1/2) * exp(1/2)` is 1.96, `exp(1)` is 2.72. -/
theorem C166_false : ¬ C166_statement := by
  intro h
  have h1 : exp fixed32 65536 = .ok 178142 := by decide +kernel
  have := h 32768 32768 65536 91663 91663 128205 178142 (by norm_num [val, fixed32]) (by norm_num [val, fixed32]) (by norm_num [val, fixed32])
    (by decide +kernel) (by decide +kernel) (by decide +kernel) (by decide +kernel) h1
  norm_num [val, fixed32, abs_le] at this

/-- Relative error of `exp` on `[k, k + 1)` by C110. -/
noncomputable def expErr (F : FxTy) (k : ℕ) : ℝ := 6 / 100000 + (4 * k + 14) * ((ulp F : ℚ) : ℝ)

theorem expErr_mono {F : FxTy} {j k : ℕ} (h : j ≤ k) : expErr F j ≤ expErr F k := by
  unfold expErr
  have u0 : (0 : ℝ) < ((ulp F : ℚ) : ℝ) := by exact_mod_cast ulp_pos F
  have : (j : ℝ) ≤ k := by exact_mod_cast h
  nlinarith

theorem expErr_pos (F : FxTy) (k : ℕ) : 0 < expErr F k := by
  unfold expErr
  have u0 : (0 : ℝ) < ((ulp F : ℚ) : ℝ) := by exact_mod_cast ulp_pos F
  positivity

/-- The product of two non-negative numbers whose product fits. -/
theorem fit_mul {F : FxTy} (hF : F.Valid) (hs : F.T.signed = true) (hr : F.r = false) {a b : Int} (ha : Storable F a) (hb : Storable F b)
    (a0 : 0 ≤ ((val F a : ℚ) : ℝ)) (b0 : 0 ≤ ((val F b : ℚ) : ℝ)) (hfit : ((val F a : ℚ) : ℝ) * (val F b : ℚ) < 2 ^ (F.T.bits - 1 - F.f)) :
    ∃ z, mul F a b = .ok z ∧ Storable F z ∧ ((val F z : ℚ) : ℝ) ≤ (val F a : ℚ) * (val F b : ℚ) ∧
      ((val F a : ℚ) : ℝ) * (val F b : ℚ) < ((val F z : ℚ) : ℝ) + (ulp F : ℚ) := by
  obtain ⟨z, n, h, ⟨f1, f2⟩, _, hn⟩ := C02_mul_floor F hF hr a b ha hb
  have g1 : ((val F n : ℚ) : ℝ) ≤ (val F a : ℚ) * (val F b : ℚ) := by exact_mod_cast f1
  have g2 : ((val F a : ℚ) : ℝ) * (val F b : ℚ) < ((val F n : ℚ) : ℝ) + (ulp F : ℚ) := by exact_mod_cast f2
  have hfb : F.f ≤ F.T.bits - 1 := hF.2.2.2.2.2
  have hS : Storable F n := by
    have e : F.T.hi = 2 ^ (F.T.bits - 1) - 1 := by unfold IntTy.hi; simp [hs]
    have e2 : F.T.lo = -(2 ^ (F.T.bits - 1)) := by unfold IntTy.lo; simp [hs]
    have hb' : (0 : Int) < 2 ^ (F.T.bits - 1) := by positivity
    constructor
    · rw [e2]
      have : (0 : ℚ) < val F (n + 1) := by
        rw [val_add, val_one]
        have h0 : (0 : ℝ) < ((val F n + ulp F : ℚ) : ℝ) := by push_cast; linarith [mul_nonneg a0 b0]
        exact_mod_cast h0
      rw [← val_zero F, val_lt] at this
      omega
    · rw [e]
      have h1 : ((val F n : ℚ) : ℝ) < 2 ^ (F.T.bits - 1 - F.f) := lt_of_le_of_lt g1 hfit
      have h2 : val F n < val F (2 ^ (F.T.bits - 1)) := by
        have : val F (2 ^ (F.T.bits - 1)) = 2 ^ (F.T.bits - 1 - F.f) := by
          unfold val; push_cast
          rw [div_eq_iff (by positivity), ← pow_add]; congr 1; omega
        rw [this]; exact_mod_cast h1
      rw [val_lt] at h2
      omega
  have := hn hS
  subst this
  exact ⟨z, h, hS, g1, g2⟩

theorem exp_prod_real {E M G k p q : ℝ} (hE : 0 < E) (hM : 1 ≤ M) (G0 : 1 ≤ G) (G1 : G ≤ 2.8) (ek : 0 < k) (he : k ≤ 1)
    (a1' : |p - E * G| ≤ E * k) (b1' : |q - M| ≤ M * k) : |p * q - E * M * G| ≤ 5 * (E * M * k) ∧ 0 ≤ p ∧ 0 ≤ q := by
  have M0 : 0 < M := by linarith
  refine ⟨?_, ?_, ?_⟩
  · have ee : p * q - E * M * G = (p - E * G) * M + E * G * (q - M) + (p - E * G) * (q - M) := by ring
    have s1 : |(p - E * G) * M| ≤ E * k * M := by rw [abs_mul, abs_of_pos M0]; gcongr
    have s2 : |E * G * (q - M)| ≤ E * 2.8 * (M * k) := by
      rw [abs_mul, abs_of_pos (by positivity)]; gcongr
    have s3 : |(p - E * G) * (q - M)| ≤ E * k * (M * 1) := by
      rw [abs_mul]
      exact mul_le_mul a1' (le_trans b1' (by gcongr)) (abs_nonneg _) (by positivity)
    rw [ee]
    have := abs_add_three ((p - E * G) * M) (E * G * (q - M)) ((p - E * G) * (q - M))
    have : 0 < E * M * k := by positivity
    linarith
  · have := (abs_le.1 a1').1
    have h1 : E * k ≤ E * 1 := by gcongr
    have h2 : E * 1 ≤ E * G := by gcongr
    linarith
  · have := (abs_le.1 b1').1
    have h1 : M * k ≤ M * 1 := by gcongr
    linarith

theorem exp_room {E M T k en em R : ℝ} (hE : 1 ≤ E) (hM : 1 ≤ M) (hT : 1 ≤ T) (k0 : 0 < k) (hn : en ≤ k) (hm : em ≤ k)
    (hfit : E * T * M + 5 * (E * M * k) < R) : E * T + E * en ≤ R ∧ M * (1 + em) ≤ R ∧ E * T * M + E * M * k ≤ R := by
  have EMk : 0 < E * M * k := by positivity
  have hk : E * en ≤ E * M * k := by
    calc E * en ≤ E * 1 * k := by rw [mul_one]; gcongr
      _ ≤ E * M * k := by gcongr
  have hk' : M * em ≤ E * M * k := by
    calc M * em ≤ 1 * M * k := by rw [one_mul]; gcongr
      _ ≤ E * M * k := by gcongr
  have h1 : E * T ≤ E * T * M := le_mul_of_one_le_right (by positivity) hM
  have h2 : M ≤ E * T * M := by
    have : 1 ≤ E * T := one_le_mul_of_one_le_of_one_le hE hT
    exact le_mul_of_one_le_left (by positivity) this
  refine ⟨by linarith, by linarith, by linarith⟩

/-- C166 (what holds, integer shifts): for a non-negative `x` with integral part `n` and an integer `m`, `exp(x) * exp(m)` agrees with `exp(x + m)`
up to six times the error of C110, relative to `e^(n + m)`.
Full statement: `C166_statement`; missing (false): sums of two fractions. -/
theorem C166_shift_partial (F : FxTy) (hF : F.Valid) (hs : F.T.signed = true) (hr : F.r = false) (h8 : 8 ≤ F.f) (h60 : F.f ≤ 60) (h3 : Representable F 3)
    (x y : Int) (n m : ℕ) (hx : Storable F x) (hy : Storable F y) (hz : Storable F (x + y)) (h0 : (n : ℚ) ≤ val F x) (h1 : val F x < n + 1)
    (hym : val F y = m) (he : expErr F (n + m) ≤ 1)
    (hfit : Real.exp ((val F (x + y) : ℚ) : ℝ) + 5 * (Real.exp ((n + m : ℕ) : ℝ) * expErr F (n + m)) < 2 ^ (F.T.bits - 1 - F.f)) :
    ∃ z a b c d, add F x y = .ok z ∧ exp F x = .ok a ∧ exp F y = .ok b ∧ mul F a b = .ok c ∧ exp F z = .ok d ∧
      |((val F c : ℚ) : ℝ) - (val F d : ℚ)| ≤ 6 * (Real.exp ((n + m : ℕ) : ℝ) * expErr F (n + m)) + (ulp F : ℚ) := by
  have hadd : add F x y = .ok (x + y) := by
    rw [add_nf hF hx hy, if_neg (fun c => c.2 hz), IntTy.wrap_of_inRange hF.tpos hz]
  have u0 : (0 : ℝ) < ((ulp F : ℚ) : ℝ) := by exact_mod_cast ulp_pos F
  have hnm : Real.exp ((n + m : ℕ) : ℝ) = Real.exp n * Real.exp m := by push_cast; exact Real.exp_add _ _
  have hX : Real.exp ((val F (x + y) : ℚ) : ℝ) = Real.exp ((val F x : ℚ) : ℝ) * Real.exp m := by
    rw [val_add, hym]; push_cast; exact Real.exp_add _ _
  have ek := expErr_pos F (n + m)
  have en' : expErr F n ≤ expErr F (n + m) := expErr_mono (Nat.le_add_right n m)
  have em' : expErr F m ≤ expErr F (n + m) := expErr_mono (Nat.le_add_left m n)
  have hE := Real.exp_pos (n : ℝ)
  have hM : 1 ≤ Real.exp (m : ℝ) := Real.one_le_exp (by positivity)
  have hN : 1 ≤ Real.exp (n : ℝ) := Real.one_le_exp (by positivity)
  have hX0 : (n : ℝ) ≤ ((val F x : ℚ) : ℝ) := by exact_mod_cast h0
  have hX1 : ((val F x : ℚ) : ℝ) < n + 1 := by exact_mod_cast h1
  -- the fraction
  obtain ⟨t, ht⟩ : ∃ t : ℝ, ((val F x : ℚ) : ℝ) = n + t := ⟨((val F x : ℚ) : ℝ) - n, by ring⟩
  have t0 : 0 ≤ t := by linarith
  have t1 : t < 1 := by linarith
  have hEx : Real.exp ((val F x : ℚ) : ℝ) = Real.exp n * Real.exp t := by rw [ht, Real.exp_add]
  have g1 : 1 + t ≤ Real.exp t := by linarith [Real.add_one_le_exp t]
  have g2 : Real.exp t ≤ 2.7182818286 := le_trans (Real.exp_le_exp.2 t1.le) Real.exp_one_lt_d9.le
  set E := Real.exp (n : ℝ)
  set M := Real.exp (m : ℝ)
  set T := Real.exp t
  set k := expErr F (n + m)
  rw [hX, hEx, hnm] at hfit
  obtain ⟨r1, r2, r3⟩ := exp_room hN hM (by linarith : 1 ≤ T) ek en' em' hfit
  obtain ⟨a, ha, aS, a1⟩ := C110_value F hF hs hr h8 h60 h3 x hx n h0 h1 (by rw [hEx]; exact r1)
  obtain ⟨b, hb, bS, b1⟩ := C110_integer F hF hs hr h8 h60 h3 y hy m hym (by rw [add_assoc]; exact r2)
  obtain ⟨d, hd, dS, d1⟩ := C110_value F hF hs hr h8 h60 h3 (x + y) hz (n + m) (by rw [val_add, hym]; push_cast; linarith)
    (by rw [val_add, hym]; push_cast; linarith) (by rw [hX, hEx, hnm]; exact r3)
  have d1' : |((val F d : ℚ) : ℝ) - E * M * (T - t / 2)| ≤ E * M * k := by
    have e : E * M * (T - t / 2) = Real.exp ((val F (x + y) : ℚ) : ℝ) -
        Real.exp ((n + m : ℕ) : ℝ) * ((((val F (x + y) : ℚ) : ℝ) - ((n + m : ℕ) : ℝ)) / 2) := by
      have hv : ((val F (x + y) : ℚ) : ℝ) = n + t + m := by rw [val_add, hym]; push_cast; rw [ht]
      rw [hX, hEx, hnm, hv]
      push_cast
      show E * M * (T - t / 2) = E * T * M - E * M * ((↑n + t + ↑m - (↑n + ↑m)) / 2)
      ring
    rw [e, ← hnm]; exact d1
  have a1' : |((val F a : ℚ) : ℝ) - E * (T - t / 2)| ≤ E * k := by
    have e : E * (T - t / 2) = Real.exp ((val F x : ℚ) : ℝ) - E * ((((val F x : ℚ) : ℝ) - n) / 2) := by
      rw [hEx, ht]; ring
    rw [e]
    refine le_trans a1 ?_
    show E * expErr F n ≤ E * k
    gcongr
  have b1' : |((val F b : ℚ) : ℝ) - M| ≤ M * k := le_trans b1 (by show M * expErr F m ≤ M * k; gcongr)
  have G0 : 1 ≤ T - t / 2 := by linarith
  have G1 : T - t / 2 ≤ 2.8 := by linarith
  set G := T - t / 2
  obtain ⟨key, a0, b0⟩ := exp_prod_real hE hM G0 G1 ek he a1' b1'
  rw [abs_le] at key
  obtain ⟨c, hc, cS, c1, c2⟩ := fit_mul hF hs hr aS bS a0 b0 (by
    have : E * M * G ≤ E * T * M := by
      have : E * M * G ≤ E * M * T := by
        have : G ≤ T := by show T - t / 2 ≤ T; linarith
        gcongr
      linarith
    linarith [key.2])
  refine ⟨x + y, a, b, c, d, hadd, ha, hb, hc, hd, ?_⟩
  rw [hnm]
  rw [abs_le] at d1' ⊢
  constructor <;> linarith [key.1, key.2, d1'.1, d1'.2]

example : add fixed32 98304 65536 = .ok 163840 ∧ exp fixed32 98304 = .ok 249165 ∧ exp fixed32 65536 = .ok 178142 ∧
    mul fixed32 249165 178142 = .ok 677288 ∧ exp fixed32 163840 = .ok 677299 := by decide +kernel
example : expErr fixed32 (1 + 1) ≤ 1 ∧ Real.exp ((val fixed32 163840 : ℚ) : ℝ) + 5 * (Real.exp ((1 + 1 : ℕ) : ℝ) * expErr fixed32 (1 + 1)) < 2 ^ (32 - 1 - 16) := by
  have h1 : expErr fixed32 (1 + 1) ≤ 1 / 1000 := by norm_num [expErr, ulp, fixed32]
  have e0 := expErr_pos fixed32 (1 + 1)
  have e3 : Real.exp 3 ≤ 27 := by
    have : Real.exp 3 = Real.exp 1 ^ 3 := by rw [← Real.exp_nat_mul]; norm_num
    rw [this]
    calc Real.exp 1 ^ 3 ≤ 3 ^ 3 := pow_le_pow_left₀ (Real.exp_pos 1).le (by have := Real.exp_one_lt_d9; linarith) 3
      _ = 27 := by norm_num
  have e2 : Real.exp ((1 + 1 : ℕ) : ℝ) ≤ 27 := le_trans (Real.exp_le_exp.2 (by norm_num)) e3
  have e25 : Real.exp ((val fixed32 163840 : ℚ) : ℝ) ≤ 27 := le_trans (Real.exp_le_exp.2 (by norm_num [val, fixed32])) e3
  refine ⟨by linarith, ?_⟩
  have : Real.exp ((1 + 1 : ℕ) : ℝ) * expErr fixed32 (1 + 1) ≤ 27 * (1 / 1000) := mul_le_mul e2 h1 e0.le (by norm_num)
  norm_num at this ⊢
  linarith

/-- C166 (what holds, all non-negative arguments): `exp(x) * exp(y)` is between `0.65` and `1.25` times `exp(x + y)`. -/
theorem C166_factor_partial (F : FxTy) (hF : F.Valid) (hs : F.T.signed = true) (hr : F.r = false) (h16 : 16 ≤ F.f) (h60 : F.f ≤ 60) (h3 : Representable F 3)
    (x y : Int) (hx : Storable F x) (hy : Storable F y) (hz : Storable F (x + y)) (h0 : 0 ≤ val F x) (h0y : 0 ≤ val F y)
    (hfit : Real.exp ((val F (x + y) : ℚ) : ℝ) * (1007 / 1000) ≤ 2 ^ (F.T.bits - 1 - F.f)) :
    ∃ z a b c d, add F x y = .ok z ∧ exp F x = .ok a ∧ exp F y = .ok b ∧ mul F a b = .ok c ∧ exp F z = .ok d ∧
      65 / 100 * val F d - ulp F ≤ val F c ∧ val F c ≤ 125 / 100 * val F d := by
  have hadd : add F x y = .ok (x + y) := by
    rw [add_nf hF hx hy, if_neg (fun c => c.2 hz), IntTy.wrap_of_inRange hF.tpos hz]
  have hX : Real.exp ((val F (x + y) : ℚ) : ℝ) = Real.exp ((val F x : ℚ) : ℝ) * Real.exp ((val F y : ℚ) : ℝ) := by
    rw [val_add]; push_cast; exact Real.exp_add _ _
  have x1 : 1 ≤ Real.exp ((val F x : ℚ) : ℝ) := Real.one_le_exp (by exact_mod_cast h0)
  have y1 : 1 ≤ Real.exp ((val F y : ℚ) : ℝ) := Real.one_le_exp (by exact_mod_cast h0y)
  have u0 : (0 : ℝ) < ((ulp F : ℚ) : ℝ) := by exact_mod_cast ulp_pos F
  have hz0 : 0 ≤ val F (x + y) := by rw [val_add]; linarith
  have hfz : Real.exp ((val F (x + y) : ℚ) : ℝ) * (1003 / 1000) ≤ 2 ^ (F.T.bits - 1 - F.f) := by
    have := Real.exp_pos ((val F (x + y) : ℚ) : ℝ); linarith
  obtain ⟨d, hd, -, d1, d2⟩ := C110_bounds F hF hs hr h16 h60 h3 (x + y) hz hz0 hfz
  obtain ⟨a, ha, aS, a1, a2⟩ := C110_bounds F hF hs hr h16 h60 h3 x hx h0 (by rw [hX] at hfz; nlinarith)
  obtain ⟨b, hb, bS, b1, b2⟩ := C110_bounds F hF hs hr h16 h60 h3 y hy h0y (by rw [hX] at hfz; nlinarith)
  rw [hX] at d1 d2 hfit
  set X := Real.exp ((val F x : ℚ) : ℝ)
  set Y := Real.exp ((val F y : ℚ) : ℝ)
  have hXY : 0 < X * Y := by positivity
  have p1 : 81 / 100 * X * (81 / 100 * Y) ≤ ((val F a : ℚ) : ℝ) * (val F b : ℚ) := mul_le_mul a1 b1 (by positivity) (by linarith)
  have p2 : ((val F a : ℚ) : ℝ) * (val F b : ℚ) ≤ 1003 / 1000 * X * (1003 / 1000 * Y) := mul_le_mul a2 b2 (by linarith) (by positivity)
  obtain ⟨c, hc, -, c1, c2⟩ := fit_mul hF hs hr aS bS (by linarith) (by linarith) (by nlinarith)
  refine ⟨x + y, a, b, c, d, hadd, ha, hb, hc, hd, ?_, ?_⟩
  · have : ((65 / 100 * val F d - ulp F : ℚ) : ℝ) ≤ ((val F c : ℚ) : ℝ) := by push_cast; nlinarith
    exact_mod_cast this
  · have : ((val F c : ℚ) : ℝ) ≤ ((125 / 100 * val F d : ℚ) : ℝ) := by push_cast; nlinarith
    exact_mod_cast this
example : Storable fixed32 (3 * 32768) ∧ Representable fixed32 3 ∧ exp fixed32 32768 = .ok 91663 ∧ exp fixed32 65536 = .ok 178142 ∧
    Real.exp ((val fixed32 (32768 + 65536) : ℚ) : ℝ) * (1007 / 1000) ≤ 2 ^ (32 - 1 - 16) := by
  refine ⟨by decide, ⟨3 * 65536, by decide, by norm_num [val, fixed32]⟩, by decide +kernel, by decide +kernel, ?_⟩
  have h1 : Real.exp ((val fixed32 (32768 + 65536) : ℚ) : ℝ) ≤ Real.exp (1 + 1) := Real.exp_le_exp.2 (by norm_num [val, fixed32])
  rw [Real.exp_add] at h1
  have := Real.exp_one_lt_d9
  have h0 := Real.exp_pos 1
  norm_num at h1 ⊢
  nlinarith

end Eirin.Props
