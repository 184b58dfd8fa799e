import Verif.Props.CbrtNeg

/-! # C143 between -29/16 and -1/2: the start value has the wrong sign -/

namespace Eirin.Props
open Spec

/-- Value after the first pass from the positive start value `b` (magnitude; the value is negative). -/
def xStep (D fp b : Int) : Int := (fp * D / (b * b / D) - 2 * b) / 3

/-- The first pass from a positive start value of at most half the root: the new value is beyond the root, on the right side. -/
theorem across_pass {D H E fp b : Int} (hE : 0 < E) (hD : D = 65536 * E) (hH : 16 * D ≤ H) (hb : b = (2 * D - fp) / 3) (h2 : 11 * D ≤ 16 * fp)
    (h5 : 16 * fp ≤ 29 * D) (hq : (9 * fp * D) ^ 3 * D < 8 * (fp - 2 * D) ^ 6 * H) :
    0 < b ∧ 2 * b ≤ D ∧ 0 < b * b / D ∧ b * b / D * D ≤ D * D ∧ 0 ≤ fp * D / (b * b / D) - 2 * b ∧ fp * D / (b * b / D) < H ∧
      GInv D H E fp (xStep D fp b) := by
  have hD0 : 0 < D := by omega
  obtain ⟨c, hc⟩ : ∃ c, c = 2 * D - fp := ⟨_, rfl⟩
  rw [← hc] at hb
  have hq : (9 * fp * D) ^ 3 * D < 8 * c ^ 6 * H := by
    have e : (fp - 2 * D) ^ 6 = c ^ 6 := by rw [hc]; ring
    rwa [e] at hq
  have c0 : 12288 ≤ c := by omega
  have a1 : c ≤ 3 * b + 2 := by omega
  have a2 : 3 * b ≤ c := by omega
  have a0 : 4095 ≤ b := by omega
  have aD : 16 * b ≤ 7 * D := by omega
  have d1 := Int.ediv_mul_le (b * b) hD0.ne'
  have d2 := Int.lt_ediv_add_one_mul_self (b * b) hD0
  have y1 : 0 < b * b / D := by
    have : 1 ≤ b * b / D := by
      rw [Int.le_ediv_iff_mul_le hD0]
      nlinarith
    omega
  have yD : b * b / D * D ≤ D * D := le_trans d1 (mul_le_mul (by omega) (by omega) (by omega) (by omega))
  unfold xStep
  generalize hyd : b * b / D = y at *
  have q1 := Int.ediv_mul_le (fp * D) (by omega : y ≠ 0)
  have q2 := Int.lt_ediv_add_one_mul_self (fp * D) (by omega : 0 < y)
  have q0 : 0 ≤ fp * D / y := Int.ediv_nonneg (mul_nonneg (by omega) hD0.le) (by omega)
  generalize hqd : fp * D / y = q at *
  -- the root is at least twice the start value
  have n8 : 8 * (b * (b * b)) ≤ fp * (D * D) := by
    have t1 : (16 * b) * (16 * b) ≤ (7 * D) * (7 * D) := mul_le_mul aD aD (by omega) (by omega)
    have t2 : (16 * b) * ((16 * b) * (16 * b)) ≤ (7 * D) * ((7 * D) * (7 * D)) := mul_le_mul aD t1 (by positivity) (by omega)
    have t3 := mul_le_mul_of_nonneg_right h2 (by positivity : 0 ≤ D * D)
    have t4 : 0 < D * (D * D) := by positivity
    linarith [show (16 * b) * ((16 * b) * (16 * b)) = 4096 * (b * (b * b)) by ring, show (7 * D) * ((7 * D) * (7 * D)) = 343 * (D * (D * D)) by ring,
      show 11 * D * (D * D) = 11 * (D * (D * D)) by ring, show 16 * fp * (D * D) = 16 * (fp * (D * D)) by ring]
  have tb : fp * (D * D) ≤ (q + 1) * (b * b) := by
    have e1 : fp * D * D ≤ (q + 1) * y * D := mul_le_mul_of_nonneg_right q2.le hD0.le
    have e2 : (q + 1) * (y * D) ≤ (q + 1) * (b * b) := mul_le_mul_of_nonneg_left d1 (by omega)
    linarith [show fp * D * D = fp * (D * D) by ring, show (q + 1) * y * D = (q + 1) * (y * D) by ring]
  have t8 : 8 * b ≤ q + 1 := by
    have : 8 * b * (b * b) ≤ (q + 1) * (b * b) := by linarith [show 8 * b * (b * b) = 8 * (b * (b * b)) by ring]
    exact le_of_mul_le_mul_right this (by positivity)
  have s0 : 0 ≤ (q - 2 * b) / 3 := by omega
  have s1 : 3 * ((q - 2 * b) / 3) ≤ q - 2 * b := by omega
  have hs : q + 1 - 2 * b ≤ 3 * ((q - 2 * b) / 3 + 1) := by omega
  generalize hgd : (q - 2 * b) / 3 = g at *
  have key : 2 * g * c ^ 2 ≤ 9 * fp * D ^ 2 := by
    have k1 : q * (b * b - D) ≤ fp * D * D := by
      have h1 : q * (b * b - D) ≤ q * (y * D) := mul_le_mul_of_nonneg_left (by rw [add_mul, one_mul] at d2; omega) q0
      have h2 := mul_le_mul_of_nonneg_right q1 hD0.le
      linarith [show q * y * D = q * (y * D) by ring]
    have k2 : 199 * (c * c) ≤ 200 * (9 * (b * b - D)) := by
      have h1 : (c - 2) * (c - 2) ≤ (3 * b) * (3 * b) := mul_le_mul (by omega) (by omega) (by omega) (by omega)
      have h3 : 3 * D ≤ 16 * c := by omega
      have h2 : 12288 * c ≤ c * c := mul_le_mul_of_nonneg_right c0 (by omega)
      linarith [show (c - 2) * (c - 2) = c * c - 4 * c + 4 by ring, show (3 * b) * (3 * b) = 9 * (b * b) by ring]
    have k3 : q * (199 * (c * c)) ≤ 200 * (9 * (fp * D * D)) := by
      have h1 := mul_le_mul_of_nonneg_left k2 q0
      linarith [show q * (200 * (9 * (b * b - D))) = 1800 * (q * (b * b - D)) by ring]
    have k6 : 3 * (g * (c * c)) ≤ q * (c * c) := by
      have := mul_le_mul_of_nonneg_right (by omega : 3 * g ≤ q) (by positivity : 0 ≤ c * c)
      linarith [show 3 * g * (c * c) = 3 * (g * (c * c)) by ring]
    have fD : 0 ≤ fp * D * D := by have : 0 ≤ fp := by omega
                                   positivity
    linarith [show 2 * g * c ^ 2 = 2 * (g * (c * c)) by ring, show 9 * fp * D ^ 2 = 9 * (fp * D * D) by ring, show q * (199 * (c * c)) = 199 * (q * (c * c)) by ring]
  have gc : g ^ 3 < H * D ^ 2 := by
    have h1 : (2 * g * c ^ 2) ^ 3 ≤ (9 * fp * D ^ 2) ^ 3 := pow_le_pow_left₀ (by positivity) key 3
    have h2 : (9 * fp * D ^ 2) ^ 3 < 8 * c ^ 6 * H * D ^ 2 := by
      have := mul_lt_mul_of_pos_right hq (by positivity : 0 < D ^ 2)
      linarith [show (9 * fp * D) ^ 3 * D * D ^ 2 = (9 * fp * D ^ 2) ^ 3 by ring]
    have h3 : (8 * c ^ 6) * g ^ 3 < (8 * c ^ 6) * (H * D ^ 2) := by
      linarith [show (2 * g * c ^ 2) ^ 3 = (8 * c ^ 6) * g ^ 3 by ring, show 8 * c ^ 6 * H * D ^ 2 = (8 * c ^ 6) * (H * D ^ 2) by ring]
    exact lt_of_mul_lt_mul_left h3 (by positivity)
  have c3 : q < H := by
    have sq : q ≤ 3 * g + 2 + 2 * b := by omega
    by_cases hc : g ≤ 3 * D
    · omega
    · have h1 : (3 * D) ^ 2 ≤ g ^ 2 := pow_le_pow_left₀ (by omega) (by omega) 2
      have h2 : (3 * D) ^ 2 * g ≤ g ^ 2 * g := mul_le_mul_of_nonneg_right h1 (by omega)
      have h3 : (9 * g) * D ^ 2 < H * D ^ 2 := by linarith [show (3 * D) ^ 2 * g = (9 * g) * D ^ 2 by ring, show g ^ 2 * g = g ^ 3 by ring]
      have h4 := lt_of_mul_lt_mul_right h3 (by positivity)
      omega
  refine ⟨by omega, by omega, by omega, yD, by omega, c3, ?_⟩
  refine ginv_of hE hD (by omega) s0 gc ?_
  have e3 : 27 * ((q + 1) * (b * b)) ≤ (q + 1 - 2 * b) ^ 3 := by
    have e : (q + 1 - 2 * b) ^ 3 - 27 * ((q + 1) * (b * b)) = (q + 1 - 8 * b) * (q + 1 + b) ^ 2 := by ring
    have : 0 ≤ (q + 1 - 8 * b) * (q + 1 + b) ^ 2 := mul_nonneg (by omega) (by positivity)
    omega
  have e4 : (q + 1 - 2 * b) ^ 3 ≤ (3 * (g + 1)) ^ 3 := pow_le_pow_left₀ (by omega) hs 3
  rw [mul_pow] at e4
  have e5 : fp * D ^ 2 = fp * (D * D) := by ring
  omega

/-- The first pass through the loop from a positive value. -/
theorem across_step {F : FxTy} (h : CG F) {D H E fp b : Int} (hE : 0 < E) (hD : D = 65536 * E) (hDF : (2 : Int) ^ F.f = D)
    (hHF : (2 : Int) ^ (F.T.bits - 1) = H) (h11 : D ≤ 2 * fp) (hfp : fp ≤ 2 * D) (b0 : 0 < b) (b1 : 2 * b ≤ D) (y0 : 0 < b * b / D)
    (yD : b * b / D * D ≤ D * D) (s0 : 0 ≤ fp * D / (b * b / D) - 2 * b) (hq : fp * D / (b * b / D) < H) (n : Nat) :
    cbrtLoop F (-fp) (10 * E) (n + 1) b = cbrtLoop F (-fp) (10 * E) n (-(xStep D fp b)) := by
  have hD0 : 0 < D := by omega
  have hH16 : 16 * D ≤ H := by rw [← hDF, ← hHF]; exact h.room
  have y1 : b * b / D ≤ D := le_of_mul_le_mul_right yD hD0
  have bS : F.T.InRange b := h.st' (by rw [hHF]; omega) (by rw [hHF]; omega)
  have fS : F.T.InRange (-fp) := h.st' (by rw [hHF]; omega) (by rw [hHF]; omega)
  have yS : F.T.InRange (b * b / D) := h.st' (by rw [hHF]; omega) (by rw [hHF]; omega)
  have e2 : mul F b b = .ok (b * b / D) := by
    have := h.sw.mul_ok h.r (x := b) (y := b) bS bS (by rw [hDF]; exact yS)
    rw [hDF] at this; exact this
  unfold xStep
  generalize b * b / D = y at *
  have w0 : 0 ≤ y * b / D := Int.ediv_nonneg (mul_nonneg y0.le b0.le) hD0.le
  have w1 : y * b / D ≤ D := by
    apply Int.ediv_le_of_le_mul hD0
    exact mul_le_mul y1 (by omega) b0.le hD0.le
  have e3 : mul F y b = .ok (y * b / D) := by
    have := h.sw.mul_ok h.r (x := y) (y := b) yS bS (by rw [hDF]; exact h.st' (by rw [hHF]; omega) (by rw [hHF]; omega))
    rw [hDF] at this; exact this
  generalize y * b / D = w at *
  have dS : F.T.InRange (-fp - w) := h.st' (by rw [hHF]; omega) (by rw [hHF]; omega)
  have e4 : sub F (-fp) w = .ok (-fp - w) := h.sw.sub_ok dS
  have e5 : abs F (-fp - w) = .ok (fp + w) := by
    rw [h.sw.abs_ok dS (by rw [h.sw.lo_eq, hHF]; omega), abs_of_neg (by omega)]
    congr 1; ring
  have tq : Int.tdiv (-fp * D) y = -(fp * D / y) := by
    rw [neg_mul, Int.neg_tdiv, tdiv_eq_ediv (mul_nonneg (by omega) hD0.le)]
  generalize fp * D / y = q at *
  have dq : div F (-fp) y = .ok (-q) := by
    have := h.sw.div_ok h.r (x := -fp) (y := y) fS (by omega) (by rw [hDF, tq]; exact h.st' (by rw [hHF]; omega) (by rw [hHF]; omega))
    rw [hDF, tq] at this; exact this
  have t : mulInt F i32 b 2 = .ok (b * 2) := h.sw.mulInt_ok bS (by decide) (h.st' (by rw [hHF]; omega) (by rw [hHF]; omega))
  have sS : F.T.InRange (-q + b * 2) := h.st' (by rw [hHF]; omega) (by rw [hHF]; omega)
  have s : add F (-q) (b * 2) = .ok (-q + b * 2) := h.sw.add_ok sS
  have x' : divInt F i32 (-q + b * 2) 3 = .ok (-((q - 2 * b) / 3)) := by
    rw [h.sw.divInt_ok sS (by norm_num) (by norm_num), show -q + b * 2 = -(q - 2 * b) by ring, Int.neg_tdiv, tdiv_eq_ediv (by omega)]
  rw [cbrtLoop_unf, e2, Res.bind_ok, e3, Res.bind_ok, e4, Res.bind_ok, e5, Res.bind_ok, if_pos (by rw [ge_iff]; omega)]
  dsimp only
  rw [Res.bind_ok, dq, Res.bind_ok, t, Res.bind_ok, s, Res.bind_ok, x', Res.bind_ok]

/-- **C143 (partial, arguments between -29/16 and -11/16).** The start value `(x + 2) / 3` is here positive and at most half the root; the first pass goes to
the other side of zero and beyond the root, up to the value `|x| / (2 s^2)`, with `s = (2 - |x|) / 3`.  If the cube of that fits the type, the same bound as
for the other ranges holds. -/
theorem C143_across_partial (F : FxTy) (hF : F.Valid) (hs : SignedWide F) (hr : F.r = false) (h16 : 16 ≤ F.f) (h5 : F.f + 5 ≤ F.T.bits)
    (x : Int) (hx : Storable F x) (h0 : -29 / 16 ≤ val F x) (h1 : val F x ≤ -11 / 16)
    (hc : (9 * -val F x / (2 * (-val F x - 2) ^ 2)) ^ 3 < val F F.T.hi + ulp F) :
    ∃ r, cbrt F x = .ok r ∧ val F r < 0 ∧
      (|val F x - val F r ^ 3| ≤ 10 / 65536 + (1 - val F r) * ulp F ∨
        (val F r - ulp F) ^ 3 ≤ val F x ∧ val F x ≤ (val F r + 28 * ulp F) ^ 3) := by
  have sw : SW F := sw_five hF hs h5
  have hb64 : F.T.bits ≤ 64 := by have := hF.1; omega
  have h : CG F := ⟨sw, hr, h16, by omega, h5⟩
  obtain ⟨E, hE, hDE, eE⟩ := h.unit
  have hroom := h.room
  have heps := h.eps
  rw [← eE] at heps
  have hhi := sw.hi_eq
  have hlo := sw.lo_eq
  have vv := val_real F
  have uu := ulp_real F
  obtain ⟨D, hDF⟩ : ∃ D : Int, (2 : Int) ^ F.f = D := ⟨_, rfl⟩
  obtain ⟨H, hHF⟩ : ∃ H : Int, (2 : Int) ^ (F.T.bits - 1) = H := ⟨_, rfl⟩
  rw [hDF] at hDE hroom uu
  simp only [hDF] at vv
  rw [hHF] at hroom hhi hlo
  have hH64 : H ≤ 2 ^ 63 := by
    rw [← hHF]; exact pow_le_pow_right₀ (by norm_num) (by omega)
  have hD0 : 0 < D := by omega
  have hDq : (0 : ℚ) < D := by exact_mod_cast hD0
  obtain ⟨m, rfl⟩ : ∃ m, x = -m := ⟨-x, by omega⟩
  rw [vv, le_div_iff₀ hDq] at h0
  rw [vv, div_le_iff₀ hDq] at h1
  push_cast at h0 h1
  have m1 : 11 * D ≤ 16 * m := by
    have : ((11 * D : Int) : ℚ) ≤ ((16 * m : Int) : ℚ) := by push_cast; linarith
    exact_mod_cast this
  have m2 : 16 * m ≤ 29 * D := by
    have : ((16 * m : Int) : ℚ) ≤ ((29 * D : Int) : ℚ) := by push_cast; linarith
    exact_mod_cast this
  have hfit : (9 * m * D) ^ 3 * D < 8 * (m - 2 * D) ^ 6 * H := by
    have b0 : ((m : ℚ) - 2 * D) ≠ 0 := by
      have : (16 * m : ℚ) ≤ 29 * D := by exact_mod_cast m2
      intro e; linarith
    rw [vv, vv, uu, hhi] at hc
    have e1 : 9 * -(((-m : Int) : ℚ) / D) / (2 * (-(((-m : Int) : ℚ) / D) - 2) ^ 2) = 9 * m * D / (2 * (m - 2 * D) ^ 2) := by
      have e : -(((-m : Int) : ℚ) / D) - 2 = (m - 2 * D) / D := by push_cast; field_simp
      rw [e]; push_cast; field_simp
    have e2 : ((H - 1 : Int) : ℚ) / D + 1 / D = H / D := by push_cast; ring
    rw [e1, e2, div_pow, div_lt_div_iff₀ (by positivity) hDq] at hc
    have h2 : (9 * (m : ℚ) * D) ^ 3 * D < 8 * (m - 2 * D) ^ 6 * H := by
      calc _ < _ := hc
        _ = _ := by ring
    exact_mod_cast h2
  have g94 : (m + 2 * D) ^ 3 < 27 * (H * D ^ 2) := by
    have h1 : (m + 2 * D) ^ 3 ≤ (4 * D) ^ 3 := pow_le_pow_left₀ (by omega) (by omega) 3
    have h2 : (16 * D) * D ^ 2 ≤ H * D ^ 2 := mul_le_mul_of_nonneg_right hroom (by positivity)
    have h3 : 0 < D ^ 3 := by positivity
    linarith [show (4 * D) ^ 3 = 64 * D ^ 3 by ring, show (16 * D) * D ^ 2 = 16 * D ^ 3 by ring]
  have rg : ∀ z : Int, -H ≤ z → z < H → F.T.InRange z := fun z a b => h.st' (by rw [hHF]; exact a) (by rw [hHF]; exact b)
  have ha : abs F (-m) = .ok m := by
    rw [sw.abs_ok hx (by omega), abs_of_neg (by omega), neg_neg]
  have hadd : addInt F (-m) 2 = .ok (2 * D - m) := by
    have := sw.addInt_ok (x := -m) (n := 2) (by rw [hDF]; exact rg _ (by omega) (by omega)) (by rw [hDF]; exact rg _ (by omega) (by omega))
    rw [hDF] at this; rw [this]; congr 1; ring
  have hdiv : divInt F i32 (2 * D - m) 3 = .ok ((2 * D - m) / 3) := by
    rw [sw.divInt_ok (rg _ (by omega) (by omega)) (by norm_num) (by norm_num), tdiv_eq_ediv (by omega)]
  have hprec : mulInt F i32 (5 * E) 2 = .ok (10 * E) := by
    rw [sw.mulInt_ok (rg _ (by omega) (by omega)) (by decide) (rg _ (by omega) (by omega))]
    congr 1; ring
  obtain ⟨p1, p2, p3, p4, p5, p6, gi⟩ := across_pass hE hDE hroom rfl m1 m2 hfit
  have hst := across_step h hE hDE hDF hHF (by omega) (by omega) p1 p2 p3 p4 p5 p6 200
  obtain ⟨g3, -⟩ := cube_lt hD0 hroom gi.cube
  obtain ⟨z, hz1, z0, hz⟩ := nLoop_fin h hE hDE hDF hHF (by omega) (by omega) g94 200 _ (by norm_num) gi (by have := gi.lo; omega)
  obtain ⟨k1, k2⟩ := neg_concl hE hDE hDF z0 hz
  refine ⟨-z, ?_, k1, k2⟩
  unfold cbrt
  rw [ha, heps, Res.bind_ok, Res.bind_ok, if_neg (by rw [lt_iff]; omega), hadd, Res.bind_ok, hdiv, Res.bind_ok, hprec, Res.bind_ok, hst, hz1]

example : cbrt fixed64 (-1 * 2 ^ 32) = .ok (-4295149248) ∧ -29 / 16 ≤ val fixed64 (-1 * 2 ^ 32) ∧ val fixed64 (-1 * 2 ^ 32) ≤ -11 / 16 ∧
    (9 * -val fixed64 (-1 * 2 ^ 32) / (2 * (-val fixed64 (-1 * 2 ^ 32) - 2) ^ 2)) ^ 3 < val fixed64 fixed64.T.hi + ulp fixed64 ∧
    cbrt fixed32 (-1 * 2 ^ 16) = .ok (-65536) := by
  refine ⟨by decide +kernel, ?_, ?_, ?_, by decide +kernel⟩ <;> norm_num [val, ulp, fixed64, IntTy.hi, i64]

/-- The second pass, from a value that is short of the root. -/
theorem short_pass {D H E fp a : Int} (hE : 0 < E) (hD : D = 65536 * E) (hH : 16 * D ≤ H) (h2 : D ≤ 2 * fp) (h5 : 16 * fp ≤ 11 * D)
    (a1 : 33 * D ≤ 100 * a) (a2 : a ≤ D) : NPass D H fp a ∧ GInv D H E fp (gStep D fp a) := by
  have hD0 : 0 < D := by omega
  have d1 := Int.ediv_mul_le (a * a) hD0.ne'
  have d2 := Int.lt_ediv_add_one_mul_self (a * a) hD0
  have y1 : 0 < a * a / D := by
    have : 1 ≤ a * a / D := by
      rw [Int.le_ediv_iff_mul_le hD0]
      nlinarith
    omega
  have hcube : a ^ 3 < H * D ^ 2 := by
    have h1 : a ^ 3 ≤ D ^ 3 := pow_le_pow_left₀ (by omega) a2 3
    have h2 : 16 * D * D ^ 2 ≤ H * D ^ 2 := mul_le_mul_of_nonneg_right hH (by positivity)
    have h3 : 0 < D ^ 3 := by positivity
    have e2 : 16 * D * D ^ 2 = 16 * D ^ 3 := by ring
    omega
  unfold gStep
  generalize hyd : a * a / D = y at *
  have q1 := Int.ediv_mul_le (fp * D) (by omega : y ≠ 0)
  have q2 := Int.lt_ediv_add_one_mul_self (fp * D) (by omega : 0 < y)
  have q0 : 0 ≤ fp * D / y := Int.ediv_nonneg (mul_nonneg (by omega) hD0.le) (by omega)
  generalize hqd : fp * D / y = q at *
  have k1 : q * (a * a - D) ≤ fp * (D * D) := by
    have h1 : q * (a * a - D) ≤ q * (y * D) := mul_le_mul_of_nonneg_left (by rw [add_mul, one_mul] at d2; omega) q0
    have h2 := mul_le_mul_of_nonneg_right q1 hD0.le
    linarith [show q * y * D = q * (y * D) by ring, show fp * D * D = fp * (D * D) by ring]
  have fD : 16 * (fp * (D * D)) ≤ 11 * (D * (D * D)) := by
    have := mul_le_mul_of_nonneg_right h5 (by positivity : 0 ≤ D * D)
    linarith [show 16 * fp * (D * D) = 16 * (fp * (D * D)) by ring, show 11 * D * (D * D) = 11 * (D * (D * D)) by ring]
  have D65 : 65536 * D ≤ D * D := mul_le_mul_of_nonneg_right (by omega) hD0.le
  have hb : 100 * (q + 2 * a) ≤ 735 * D := by
    by_cases hc : 2 * a ≤ D
    · -- `q ≤ 6.32 D`
      have s1 : (33 * D) * (33 * D) ≤ (100 * a) * (100 * a) := mul_le_mul a1 a1 (by omega) (by omega)
      have s2 : 1088 * (D * D) ≤ 10000 * (a * a - D) := by linarith [show (33 * D) * (33 * D) = 1089 * (D * D) by ring, show (100 * a) * (100 * a) = 10000 * (a * a) by ring]
      have s3 : q * (1088 * (D * D)) ≤ q * (10000 * (a * a - D)) := mul_le_mul_of_nonneg_left s2 q0
      have s4 : (16 * 1088 * q) * (D * D) ≤ (110000 * D) * (D * D) := by
        linarith [show q * (10000 * (a * a - D)) = 10000 * (q * (a * a - D)) by ring, show (16 * 1088 * q) * (D * D) = 16 * (q * (1088 * (D * D))) by ring,
          show (110000 * D) * (D * D) = 110000 * (D * (D * D)) by ring]
      have s5 := le_of_mul_le_mul_right s4 (by positivity)
      omega
    · -- `q ≤ 2.76 D`
      have s1 : D * D ≤ (2 * a) * (2 * a) := mul_le_mul (by omega) (by omega) (by omega) (by omega)
      have s2 : 249 * (D * D) ≤ 1000 * (a * a - D) := by linarith [show (2 * a) * (2 * a) = 4 * (a * a) by ring]
      have s3 : q * (249 * (D * D)) ≤ q * (1000 * (a * a - D)) := mul_le_mul_of_nonneg_left s2 q0
      have s4 : (16 * 249 * q) * (D * D) ≤ (11000 * D) * (D * D) := by
        linarith [show q * (1000 * (a * a - D)) = 1000 * (q * (a * a - D)) by ring, show (16 * 249 * q) * (D * D) = 16 * (q * (249 * (D * D))) by ring,
          show (11000 * D) * (D * D) = 11000 * (D * (D * D)) by ring]
      have s5 := le_of_mul_le_mul_right s4 (by positivity)
      omega
  have s0 : 0 ≤ (q + 2 * a) / 3 := by omega
  have s1 : 3 * ((q + 2 * a) / 3) ≤ q + 2 * a := by omega
  have hs := Int.lt_ediv_add_one_mul_self (q + 2 * a) (by norm_num : (0 : Int) < 3)
  generalize hgd : (q + 2 * a) / 3 = g at *
  refine ⟨⟨by omega, by rw [hyd]; omega, hcube, by rw [hyd, hqd]; omega⟩, ?_⟩
  refine ginv_of hE hD (by omega) s0 ?_ ?_
  · have h1 : (20 * g) ^ 3 ≤ (49 * D) ^ 3 := pow_le_pow_left₀ (by omega) (by omega) 3
    have h2 : 16 * D * D ^ 2 ≤ H * D ^ 2 := mul_le_mul_of_nonneg_right hH (by positivity)
    have h3 : 0 < D ^ 3 := by positivity
    rw [mul_pow, mul_pow] at h1
    have e2 : 16 * D * D ^ 2 = 16 * D ^ 3 := by ring
    omega
  · have e1 : fp * D ^ 2 ≤ (q + 1) * (y * D) := by
      have := mul_le_mul_of_nonneg_right q2.le hD0.le
      nlinarith
    have e2 : (q + 1) * (y * D) ≤ (q + 1) * (a * a) := mul_le_mul_of_nonneg_left d1 (by omega)
    have e3 := amgm (t := q + 1) (a := a) (by omega) (by omega)
    have e4 : (q + 1 + 2 * a) ^ 3 ≤ (3 * (g + 1)) ^ 3 := pow_le_pow_left₀ (by omega) (by omega) 3
    rw [mul_pow] at e4
    have e5 : (q + 1) * a * a = (q + 1) * (a * a) := by ring
    rw [e5] at e3
    omega

/-- The first pass for arguments between -11/16 and -1/2: across zero, but short of the root. -/
theorem across_short {D H E fp b : Int} (hE : 0 < E) (hD : D = 65536 * E) (hH : 16 * D ≤ H) (hb : b = (2 * D - fp) / 3) (h2 : D ≤ 2 * fp)
    (h5 : 16 * fp ≤ 11 * D) :
    0 < b ∧ 2 * b ≤ D ∧ 0 < b * b / D ∧ b * b / D * D ≤ D * D ∧ 0 ≤ fp * D / (b * b / D) - 2 * b ∧ fp * D / (b * b / D) < H ∧
      33 * D ≤ 100 * xStep D fp b ∧ xStep D fp b ≤ D := by
  have hD0 : 0 < D := by omega
  have b1 : 2 * b ≤ D := by omega
  have b2 : 437 * D ≤ 1000 * b := by omega
  have d1 := Int.ediv_mul_le (b * b) hD0.ne'
  have d2 := Int.lt_ediv_add_one_mul_self (b * b) hD0
  have y1 : 0 < b * b / D := by
    have : 1 ≤ b * b / D := by
      rw [Int.le_ediv_iff_mul_le hD0]
      nlinarith
    omega
  have yD : b * b / D * D ≤ D * D := le_trans d1 (mul_le_mul (by omega) (by omega) (by omega) (by omega))
  unfold xStep
  generalize hyd : b * b / D = y at *
  have q1 := Int.ediv_mul_le (fp * D) (by omega : y ≠ 0)
  have q2 := Int.lt_ediv_add_one_mul_self (fp * D) (by omega : 0 < y)
  have q0 : 0 ≤ fp * D / y := Int.ediv_nonneg (mul_nonneg (by omega) hD0.le) (by omega)
  generalize hqd : fp * D / y = q at *
  have D65 : 65536 * D ≤ D * D := mul_le_mul_of_nonneg_right (by omega) hD0.le
  have tb : fp * (D * D) ≤ (q + 1) * (b * b) := by
    have e1 : fp * D * D ≤ (q + 1) * y * D := mul_le_mul_of_nonneg_right q2.le hD0.le
    have e2 : (q + 1) * (y * D) ≤ (q + 1) * (b * b) := mul_le_mul_of_nonneg_left d1 (by omega)
    linarith [show fp * D * D = fp * (D * D) by ring, show (q + 1) * y * D = (q + 1) * (y * D) by ring]
  have lo : 2 * D ≤ q + 1 := by
    have s1 : (2 * b) * (2 * b) ≤ D * D := mul_le_mul b1 b1 (by omega) (by omega)
    have s2 : (q + 1) * ((2 * b) * (2 * b)) ≤ (q + 1) * (D * D) := mul_le_mul_of_nonneg_left s1 (by omega)
    have s3 := mul_le_mul_of_nonneg_right h2 (by positivity : 0 ≤ D * D)
    have s4 : 2 * D * (D * D) ≤ (q + 1) * (D * D) := by
      linarith [show (q + 1) * ((2 * b) * (2 * b)) = 4 * ((q + 1) * (b * b)) by ring, show 2 * fp * (D * D) = 2 * (fp * (D * D)) by ring,
        show 2 * D * (D * D) = 2 * (D * (D * D)) by ring, show D * (D * D) = D * (D * D) from rfl]
    exact le_of_mul_le_mul_right s4 (by positivity)
  have hi : 1000 * q ≤ 3610 * D := by
    have k1 : q * (b * b - D) ≤ fp * (D * D) := by
      have h1 : q * (b * b - D) ≤ q * (y * D) := mul_le_mul_of_nonneg_left (by rw [add_mul, one_mul] at d2; omega) q0
      have h2 := mul_le_mul_of_nonneg_right q1 hD0.le
      linarith [show q * y * D = q * (y * D) by ring, show fp * D * D = fp * (D * D) by ring]
    have fD : 16 * (fp * (D * D)) ≤ 11 * (D * (D * D)) := by
      have := mul_le_mul_of_nonneg_right h5 (by positivity : 0 ≤ D * D)
      linarith [show 16 * fp * (D * D) = 16 * (fp * (D * D)) by ring, show 11 * D * (D * D) = 11 * (D * (D * D)) by ring]
    have s1 : (437 * D) * (437 * D) ≤ (1000 * b) * (1000 * b) := mul_le_mul b2 b2 (by omega) (by omega)
    have s2 : 19090 * (D * D) ≤ 100000 * (b * b - D) := by
      linarith [show (437 * D) * (437 * D) = 190969 * (D * D) by ring, show (1000 * b) * (1000 * b) = 1000000 * (b * b) by ring]
    have s3 : q * (19090 * (D * D)) ≤ q * (100000 * (b * b - D)) := mul_le_mul_of_nonneg_left s2 q0
    have s4 : (16 * 19090 * q) * (D * D) ≤ (1100000 * D) * (D * D) := by
      linarith [show q * (100000 * (b * b - D)) = 100000 * (q * (b * b - D)) by ring, show (16 * 19090 * q) * (D * D) = 16 * (q * (19090 * (D * D))) by ring,
        show (1100000 * D) * (D * D) = 1100000 * (D * (D * D)) by ring]
    have s5 := le_of_mul_le_mul_right s4 (by positivity)
    omega
  exact ⟨by omega, b1, by omega, yD, by omega, by omega, by omega, by omega⟩

/-- **C143 (partial, arguments between -11/16 and -1/2).** The start value is positive, the first pass goes to the other side of zero but stays short of the
root, and the second one goes beyond it.  No condition on the range of the type is needed. -/
theorem C143_half_partial (F : FxTy) (hF : F.Valid) (hs : SignedWide F) (hr : F.r = false) (h16 : 16 ≤ F.f) (h5 : F.f + 5 ≤ F.T.bits)
    (x : Int) (hx : Storable F x) (h0 : -11 / 16 ≤ val F x) (h1 : val F x ≤ -1 / 2) :
    ∃ r, cbrt F x = .ok r ∧ val F r < 0 ∧
      (|val F x - val F r ^ 3| ≤ 10 / 65536 + (1 - val F r) * ulp F ∨
        (val F r - ulp F) ^ 3 ≤ val F x ∧ val F x ≤ (val F r + 28 * ulp F) ^ 3) := by
  have sw : SW F := sw_five hF hs h5
  have hb64 : F.T.bits ≤ 64 := by have := hF.1; omega
  have h : CG F := ⟨sw, hr, h16, by omega, h5⟩
  obtain ⟨E, hE, hDE, eE⟩ := h.unit
  have hroom := h.room
  have heps := h.eps
  rw [← eE] at heps
  have hhi := sw.hi_eq
  have hlo := sw.lo_eq
  have vv := val_real F
  have uu := ulp_real F
  obtain ⟨D, hDF⟩ : ∃ D : Int, (2 : Int) ^ F.f = D := ⟨_, rfl⟩
  obtain ⟨H, hHF⟩ : ∃ H : Int, (2 : Int) ^ (F.T.bits - 1) = H := ⟨_, rfl⟩
  rw [hDF] at hDE hroom uu
  simp only [hDF] at vv
  rw [hHF] at hroom hhi hlo
  have hH64 : H ≤ 2 ^ 63 := by
    rw [← hHF]; exact pow_le_pow_right₀ (by norm_num) (by omega)
  have hD0 : 0 < D := by omega
  have hDq : (0 : ℚ) < D := by exact_mod_cast hD0
  obtain ⟨m, rfl⟩ : ∃ m, x = -m := ⟨-x, by omega⟩
  rw [vv, le_div_iff₀ hDq] at h0
  rw [vv, div_le_iff₀ hDq] at h1
  push_cast at h0 h1
  have m1 : D ≤ 2 * m := by
    have : ((D : Int) : ℚ) ≤ ((2 * m : Int) : ℚ) := by push_cast; linarith
    exact_mod_cast this
  have m2 : 16 * m ≤ 11 * D := by
    have : ((16 * m : Int) : ℚ) ≤ ((11 * D : Int) : ℚ) := by push_cast; linarith
    exact_mod_cast this
  have g94 : (m + 2 * D) ^ 3 < 27 * (H * D ^ 2) := by
    have h1 : (m + 2 * D) ^ 3 ≤ (4 * D) ^ 3 := pow_le_pow_left₀ (by omega) (by omega) 3
    have h2 : (16 * D) * D ^ 2 ≤ H * D ^ 2 := mul_le_mul_of_nonneg_right hroom (by positivity)
    have h3 : 0 < D ^ 3 := by positivity
    linarith [show (4 * D) ^ 3 = 64 * D ^ 3 by ring, show (16 * D) * D ^ 2 = 16 * D ^ 3 by ring]
  have rg : ∀ z : Int, -H ≤ z → z < H → F.T.InRange z := fun z a b => h.st' (by rw [hHF]; exact a) (by rw [hHF]; exact b)
  have ha : abs F (-m) = .ok m := by
    rw [sw.abs_ok hx (by omega), abs_of_neg (by omega), neg_neg]
  have hadd : addInt F (-m) 2 = .ok (2 * D - m) := by
    have := sw.addInt_ok (x := -m) (n := 2) (by rw [hDF]; exact rg _ (by omega) (by omega)) (by rw [hDF]; exact rg _ (by omega) (by omega))
    rw [hDF] at this; rw [this]; congr 1; ring
  have hdiv : divInt F i32 (2 * D - m) 3 = .ok ((2 * D - m) / 3) := by
    rw [sw.divInt_ok (rg _ (by omega) (by omega)) (by norm_num) (by norm_num), tdiv_eq_ediv (by omega)]
  have hprec : mulInt F i32 (5 * E) 2 = .ok (10 * E) := by
    rw [sw.mulInt_ok (rg _ (by omega) (by omega)) (by decide) (rg _ (by omega) (by omega))]
    congr 1; ring
  obtain ⟨p1, p2, p3, p4, p5, p6, p7, p8⟩ := across_short hE hDE hroom rfl m1 m2
  have hst := across_step h hE hDE hDF hHF (by omega) (by omega) p1 p2 p3 p4 p5 p6 200
  have h5E : 5 * E ≤ m := by omega
  generalize xStep D m ((2 * D - m) / 3) = a at *
  obtain ⟨np, gi⟩ := short_pass hE hDE hroom m1 m2 p7 p8
  obtain ⟨g3, -⟩ := cube_lt hD0 hroom gi.cube
  have hpass := nLoop_step h hE hDE hDF hHF h5E (by omega) np 200
  have fin : ∃ z, cbrtLoop F (-m) (10 * E) 200 (-a) = .ok (-z) ∧ 0 < z ∧
      (|m - gCube D z| < 10 * E ∨ m * D ^ 2 ≤ (z + 1) ^ 3 ∧ (z - 28) ^ 3 ≤ m * D ^ 2) := by
    rw [hpass]
    by_cases hc : 10 * E ≤ |m - gCube D a|
    · rw [if_pos hc]
      exact nLoop_fin h hE hDE hDF hHF h5E (by omega) g94 199 _ le_rfl gi (by have := gi.lo; omega)
    · rw [if_neg hc]
      exact ⟨_, rfl, np.pos, Or.inl (by omega)⟩
  obtain ⟨z, hz1, z0, hz⟩ := fin
  obtain ⟨k1, k2⟩ := neg_concl hE hDE hDF z0 hz
  refine ⟨-z, ?_, k1, k2⟩
  unfold cbrt
  rw [ha, heps, Res.bind_ok, Res.bind_ok, if_neg (by rw [lt_iff]; omega), hadd, Res.bind_ok, hdiv, Res.bind_ok, hprec, Res.bind_ok, hst, hz1]

example : cbrt fixed64 (-1 * 2 ^ 31) = .ok (-3408918338) ∧ -11 / 16 ≤ val fixed64 (-1 * 2 ^ 31) ∧ val fixed64 (-1 * 2 ^ 31) ≤ -1 / 2 ∧
    cbrt fixed32 (-2 ^ 15) = .ok (-52016) := by
  refine ⟨by decide +kernel, ?_, ?_, by decide +kernel⟩ <;> norm_num [val, fixed64]

end Eirin.Props
