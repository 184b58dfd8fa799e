import Verif.Props.CbrtAll

/-! # Property C143: `cbrt` of negative numbers -/

namespace Eirin.Props
open Spec

/-- What the loop compares with: the cube of `-a` rounds down, so its magnitude rounds up. -/
def gCube (D a : Int) : Int := -(-(a * a / D * a) / D)

theorem gCube_bounds {D a : Int} (hD : 0 < D) : a * a / D * a ≤ gCube D a * D ∧ gCube D a * D < a * a / D * a + D := by
  unfold gCube
  generalize a * a / D * a = v
  have h1 := Int.ediv_mul_le (-v) hD.ne'
  have h2 := Int.lt_ediv_add_one_mul_self (-v) hD
  rw [neg_mul]
  constructor
  · omega
  · rw [add_mul, one_mul] at h2; omega

/-- What one pass needs: the state is negative, its cube and the quotient fit. -/
structure NPass (D H fp a : Int) : Prop where
  pos : 0 < a
  y : 0 < a * a / D
  cube : a ^ 3 < H * D ^ 2
  quot : fp * D / (a * a / D) + 2 * a < H

/-- One pass through the loop for a negative argument. -/
theorem nLoop_step {F : FxTy} (h : CG F) {D H E fp a : Int} (hE : 0 < E) (hD : D = 65536 * E) (hDF : (2 : Int) ^ F.f = D)
    (hHF : (2 : Int) ^ (F.T.bits - 1) = H) (h5 : 5 * E ≤ fp) (hfp : fp < H) (c : NPass D H fp a) (n : Nat) :
    cbrtLoop F (-fp) (10 * E) n (-a) =
      if 10 * E ≤ |fp - gCube D a| then
        match n with
        | 0 => .ok (-a)
        | n + 1 => cbrtLoop F (-fp) (10 * E) n (-(gStep D fp a))
      else .ok (-a) := by
  have hD0 : 0 < D := by omega
  have hH16 : 16 * D ≤ H := by rw [← hDF, ← hHF]; exact h.room
  obtain ⟨hlo, hy, hcube, hq⟩ := c
  obtain ⟨a3, a2⟩ := cube_lt hD0 hH16 hcube
  have a2 := a2 (by omega)
  have q0 : 0 ≤ fp * D / (a * a / D) := Int.ediv_nonneg (mul_nonneg (by omega) hD0.le) (by omega)
  have aS : F.T.InRange (-a) := h.st' (by rw [hHF]; omega) (by rw [hHF]; omega)
  have fS : F.T.InRange (-fp) := h.st' (by rw [hHF]; omega) (by rw [hHF]; omega)
  have y2 : a * a / D < H := Int.ediv_lt_of_lt_mul hD0 a2
  have yS : F.T.InRange (a * a / D) := h.st (by omega) (by rw [hHF]; omega)
  have e2 : mul F (-a) (-a) = .ok (a * a / D) := by
    have e : -a * -a = a * a := by ring
    have := h.sw.mul_ok h.r (x := -a) (y := -a) aS aS (by rw [hDF, e]; exact yS)
    rw [hDF, e] at this; exact this
  obtain ⟨w0, w1⟩ := gCube_bounds (a := a) hD0
  have hyle := Int.ediv_mul_le (a * a) hD0.ne'
  have w2 : a * a / D * a < H * D := by
    have h1 : a * a / D * D * a ≤ a * a * a := mul_le_mul_of_nonneg_right hyle (by omega)
    have h2 : (a * a / D * a) * D < (H * D) * D := by nlinarith
    exact lt_of_mul_lt_mul_right h2 hD0.le
  have w3 : gCube D a ≤ H := by
    have : gCube D a * D < (H + 1) * D := by rw [add_mul, one_mul]; omega
    have := lt_of_mul_lt_mul_right this hD0.le
    omega
  have w4 : 0 ≤ gCube D a := by
    have : 0 ≤ a * a / D * a := mul_nonneg hy.le (by omega)
    by_contra hc
    have : gCube D a * D < 0 := mul_neg_of_neg_of_pos (by omega) hD0
    omega
  have e3 : mul F (a * a / D) (-a) = .ok (-gCube D a) := by
    have e : a * a / D * -a / D = -gCube D a := by
      unfold gCube; rw [neg_neg, mul_neg]
    have := h.sw.mul_ok h.r (x := a * a / D) (y := -a) yS aS (by rw [hDF, e]; exact h.st' (by rw [hHF]; omega) (by rw [hHF]; omega))
    rw [hDF, e] at this; exact this
  generalize gCube D a = w at *
  have dS : F.T.InRange (-fp - -w) := h.st' (by rw [hHF]; omega) (by rw [hHF]; omega)
  have e4 : sub F (-fp) (-w) = .ok (-fp - -w) := h.sw.sub_ok dS
  have e5 : abs F (-fp - -w) = .ok |fp - w| := by
    rw [h.sw.abs_ok dS (by rw [h.sw.lo_eq, hHF]; omega)]
    rw [← abs_neg, show -(-fp - -w) = fp - w by ring]
  rw [cbrtLoop_unf, e2, Res.bind_ok, e3, Res.bind_ok, e4, Res.bind_ok, e5, Res.bind_ok]
  have hge : ge |fp - w| (10 * E) = true ↔ 10 * E ≤ |fp - w| := ge_iff
  by_cases hc : 10 * E ≤ |fp - w|
  · rw [if_pos (hge.2 hc), if_pos hc]
    cases n with
    | zero => rfl
    | succ n =>
      have tq : Int.tdiv (-fp * D) (a * a / D) = -(fp * D / (a * a / D)) := by
        rw [neg_mul, Int.neg_tdiv, tdiv_eq_ediv (mul_nonneg (by omega) hD0.le)]
      have q : div F (-fp) (a * a / D) = .ok (-(fp * D / (a * a / D))) := by
        have := h.sw.div_ok h.r (x := -fp) (y := a * a / D) fS (by omega) (by rw [hDF, tq]; exact h.st' (by rw [hHF]; omega) (by rw [hHF]; omega))
        rw [hDF, tq] at this; exact this
      have t : mulInt F i32 (-a) 2 = .ok (-a * 2) := h.sw.mulInt_ok aS (by decide) (h.st' (by rw [hHF]; omega) (by rw [hHF]; omega))
      have sS : F.T.InRange (-(fp * D / (a * a / D)) + -a * 2) := h.st' (by rw [hHF]; omega) (by rw [hHF]; omega)
      have s : add F (-(fp * D / (a * a / D))) (-a * 2) = .ok (-(fp * D / (a * a / D)) + -a * 2) := h.sw.add_ok sS
      have x' : divInt F i32 (-(fp * D / (a * a / D)) + -a * 2) 3 = .ok (-(gStep D fp a)) := by
        rw [h.sw.divInt_ok sS (by norm_num) (by norm_num), show -(fp * D / (a * a / D)) + -a * 2 = -(fp * D / (a * a / D) + 2 * a) by ring,
          Int.neg_tdiv, tdiv_eq_ediv (by omega)]
        rfl
      dsimp only
      rw [Res.bind_ok, q, Res.bind_ok, t, Res.bind_ok, s, Res.bind_ok, x', Res.bind_ok]
  · rw [if_neg (fun h => hc (hge.1 h)), if_neg hc]
    rfl

theorem npass_of {D H E fp a : Int} (hE : 0 < E) (hD : D = 65536 * E) (hH : 16 * D ≤ H) (h5 : 5 * E ≤ fp) (c : GInv D H E fp a) {r : ℝ} (r0 : 0 ≤ r)
    (hr : r ^ 3 = fp * D ^ 2) (hM : (r + 27) ^ 3 < H * D ^ 2) : NPass D H fp a := by
  have y1 := g_y hE hD c
  obtain ⟨-, q0, q1, -⟩ := c.step hE hD h5 r0 hr hM
  obtain ⟨q3, -⟩ := cube_lt (by omega) hH q1
  obtain ⟨a3, -⟩ := cube_lt (by omega) hH c.cube
  have := c.lo
  exact ⟨by omega, by omega, c.cube, by omega⟩

/-- The whole loop, from a start value that is not below the root. -/
theorem nLoop_spec {F : FxTy} (h : CG F) {D H E fp : Int} (hE : 0 < E) (hD : D = 65536 * E) (hDF : (2 : Int) ^ F.f = D)
    (hHF : (2 : Int) ^ (F.T.bits - 1) = H) (h5 : 5 * E ≤ fp) (hfp : fp < H) {r : ℝ} (r0 : 0 ≤ r)
    (hr : r ^ 3 = fp * D ^ 2) (hM : (r + 27) ^ 3 < H * D ^ 2) : ∀ (n : Nat) (a : Int), GInv D H E fp a →
    ∃ z, cbrtLoop F (-fp) (10 * E) n (-a) = .ok (-z) ∧ GInv D H E fp z ∧
      (|fp - gCube D z| < 10 * E ∨ (z : ℝ) - r - 27 ≤ (2 / 3) ^ n * (a - r - 27)) := by
  have hH16 : 16 * D ≤ H := by rw [← hDF, ← hHF]; exact h.room
  intro n
  induction n with
  | zero =>
    intro a c
    rw [nLoop_step h hE hD hDF hHF h5 hfp (npass_of hE hD hH16 h5 c r0 hr hM)]
    refine ⟨a, ?_, c, Or.inr (by norm_num)⟩
    split <;> rfl
  | succ n ih =>
    intro a c
    rw [nLoop_step h hE hD hDF hHF h5 hfp (npass_of hE hD hH16 h5 c r0 hr hM)]
    by_cases hc : 10 * E ≤ |fp - gCube D a|
    · rw [if_pos hc]
      obtain ⟨cs, -, -, hcon⟩ := c.step hE hD h5 r0 hr hM
      obtain ⟨z, hz1, hz2, hz3⟩ := ih _ cs
      refine ⟨z, hz1, hz2, hz3.imp_right fun h => ?_⟩
      have : (2 / 3 : ℝ) ^ n * ((gStep D fp a : ℝ) - r - 27) ≤ (2 / 3) ^ n * (2 / 3 * (a - r - 27)) :=
        mul_le_mul_of_nonneg_left (by linarith) (by positivity)
      rw [pow_succ]; linarith
    · rw [if_neg hc]
      exact ⟨a, rfl, c, Or.inl (by omega)⟩

/-- The first pass from a start value between one and two, which may be below the root. -/
theorem first_pass {D H E fp a : Int} (hE : 0 < E) (hD : D = 65536 * E) (hH : 16 * D ≤ H) (ha : a = (fp - 2 * D) / 3) (h5 : 5 * D ≤ fp) (h8 : fp < 8 * D) :
    NPass D H fp a ∧ GInv D H E fp (gStep D fp a) := by
  have hD0 : 0 < D := by omega
  have a1 : D ≤ a := by omega
  have a2 : a < 2 * D := by omega
  have a3 : fp ≤ 3 * a + 2 * D + 2 := by omega
  have a4 : 3 * a + 2 * D ≤ fp := by omega
  have d1 := Int.ediv_mul_le (a * a) hD0.ne'
  have d2 := Int.lt_ediv_add_one_mul_self (a * a) hD0
  have y1 : D ≤ a * a / D := by
    rw [Int.le_ediv_iff_mul_le hD0]
    exact mul_le_mul a1 a1 hD0.le (by omega)
  have hcube : a ^ 3 < H * D ^ 2 := by
    have h1 : a ^ 3 ≤ (2 * D) ^ 3 := pow_le_pow_left₀ (by omega) a2.le 3
    have h2 : 16 * D * D ^ 2 ≤ H * D ^ 2 := mul_le_mul_of_nonneg_right hH (by positivity)
    have h3 : 0 < D ^ 3 := by positivity
    have e1 : (2 * D) ^ 3 = 8 * D ^ 3 := by ring
    have e2 : 16 * D * D ^ 2 = 16 * D ^ 3 := by ring
    omega
  unfold gStep
  generalize hyd : a * a / D = y at *
  have q1 := Int.ediv_mul_le (fp * D) (by omega : y ≠ 0)
  have q2 := Int.lt_ediv_add_one_mul_self (fp * D) (by omega : 0 < y)
  have q0 : 0 ≤ fp * D / y := Int.ediv_nonneg (mul_nonneg (by omega) hD0.le) (by omega)
  generalize hqd : fp * D / y = q at *
  have hq : q ≤ 8 * D - 3 * a + 98 := by
    by_contra hc
    push Not at hc
    have h1 : (8 * D - 3 * a + 98) * y ≤ fp * D := le_trans (mul_le_mul_of_nonneg_right (by omega) (by omega)) q1
    have h2 : (8 * D - 3 * a + 98) * (y * D) ≤ fp * D * D := by
      have := mul_le_mul_of_nonneg_right h1 hD0.le
      linarith [show (8 * D - 3 * a + 98) * y * D = (8 * D - 3 * a + 98) * (y * D) by ring]
    have h3 : (8 * D - 3 * a + 98) * (a * a - D) ≤ (8 * D - 3 * a + 98) * (y * D) :=
      mul_le_mul_of_nonneg_left (by rw [add_mul, one_mul] at d2; omega) (by omega)
    have h4 : fp * D * D ≤ (3 * a + 2 * D + 2) * (D * D) := by
      have := mul_le_mul_of_nonneg_right a3 (mul_nonneg hD0.le hD0.le)
      linarith [show fp * D * D = fp * (D * D) by ring]
    have h5 : 0 ≤ (a - D) * (2 * D - a) * (3 * a + D) := mul_nonneg (mul_nonneg (by omega) (by omega)) (by omega)
    have h6 : D * D ≤ a * a := mul_le_mul a1 a1 hD0.le (by omega)
    have h7 : 65536 * D ≤ D * D := mul_le_mul_of_nonneg_right (by omega) hD0.le
    have h8 : 0 ≤ (a - D) * D := mul_nonneg (by omega) hD0.le
    nlinarith
  refine ⟨⟨by omega, by rw [hyd]; omega, hcube, by rw [hyd, hqd]; omega⟩, ?_⟩
  have s1 : (q + 2 * a) / 3 ≤ (7 * D + 98) / 3 := Int.ediv_le_ediv (by norm_num) (by omega)
  have s0 : 0 ≤ (q + 2 * a) / 3 := by omega
  have hs := Int.lt_ediv_add_one_mul_self (q + 2 * a) (by norm_num : (0 : Int) < 3)
  generalize (q + 2 * a) / 3 = a' at *
  refine ginv_of hE hD (by omega) s0 ?_ ?_
  · have h1 : (10 * a') ^ 3 ≤ (24 * D) ^ 3 := pow_le_pow_left₀ (by omega) (by omega) 3
    have h2 : 16 * D * D ^ 2 ≤ H * D ^ 2 := mul_le_mul_of_nonneg_right hH (by positivity)
    have h3 : 0 < D ^ 3 := by positivity
    rw [mul_pow, mul_pow] at h1
    have e2 : 16 * D * D ^ 2 = 16 * D ^ 3 := by ring
    omega
  · have e1 : fp * D ^ 2 ≤ (q + 1) * (y * D) := by
      have := mul_le_mul_of_nonneg_right q2.le hD0.le
      nlinarith
    have e2 : (q + 1) * (y * D) ≤ (q + 1) * (a * a) := mul_le_mul_of_nonneg_left d1 (by omega)
    have e3 := amgm (t := q + 1) (a := a) (by omega) (by omega)
    have e4 : (q + 1 + 2 * a) ^ 3 ≤ (3 * (a' + 1)) ^ 3 := pow_le_pow_left₀ (by omega) (by omega) 3
    rw [mul_pow] at e4
    have e5 : (q + 1) * a * a = (q + 1) * (a * a) := by ring
    rw [e5] at e3
    omega

theorem neg_pow_three (q : ℚ) : (-q) ^ 3 = -(q ^ 3) := by ring

/-- The first pass from a start value below one: the new value is beyond the root, and its cube fits if `9 m D / (2 (m - 2 D)^2)` does. -/
theorem near_pass {D H E fp a : Int} (hE : 0 < E) (hD : D = 65536 * E) (hH : 16 * D ≤ H) (ha : a = (fp - 2 * D) / 3) (h2 : 35 * D ≤ 16 * fp) (h5 : fp ≤ 5 * D)
    (hq : (9 * fp * D) ^ 3 * D < 8 * (fp - 2 * D) ^ 6 * H) : NPass D H fp a ∧ GInv D H E fp (gStep D fp a) := by
  have hD0 : 0 < D := by omega
  obtain ⟨b, hb⟩ : ∃ b, b = fp - 2 * D := ⟨_, rfl⟩
  rw [← hb] at ha hq
  have b1 : 3 * D ≤ 16 * b := by omega
  have b2 : b ≤ 3 * D := by omega
  have b3 : 5 * b ≤ 3 * fp := by omega
  have b0 : 12288 ≤ b := by omega
  have a1 : b ≤ 3 * a + 2 := by omega
  have a2 : 3 * a ≤ b := by omega
  have a0 : 4095 ≤ a := by omega
  have aD : a ≤ D := by omega
  have d1 := Int.ediv_mul_le (a * a) hD0.ne'
  have d2 := Int.lt_ediv_add_one_mul_self (a * a) hD0
  have y1 : 0 < a * a / D := by
    have : 1 ≤ a * a / D := by
      rw [Int.le_ediv_iff_mul_le hD0]
      nlinarith
    omega
  have hcube : a ^ 3 < H * D ^ 2 := by
    have h1 : a ^ 3 ≤ D ^ 3 := pow_le_pow_left₀ (by omega) aD 3
    have h2 : 16 * D * D ^ 2 ≤ H * D ^ 2 := mul_le_mul_of_nonneg_right hH (by positivity)
    have h3 : 0 < D ^ 3 := by positivity
    have e2 : 16 * D * D ^ 2 = 16 * D ^ 3 := by ring
    omega
  unfold gStep
  generalize hyd : a * a / D = y at *
  have q1 := Int.ediv_mul_le (fp * D) (by omega : y ≠ 0)
  have q2 := Int.lt_ediv_add_one_mul_self (fp * D) (by omega : 0 < y)
  have q0 : 0 ≤ fp * D / y := Int.ediv_nonneg (mul_nonneg (by omega) hD0.le) (by omega)
  generalize hqd : fp * D / y = q at *
  have s0 : 0 ≤ (q + 2 * a) / 3 := by omega
  have s1 : 3 * ((q + 2 * a) / 3) ≤ q + 2 * a := by omega
  have hs := Int.lt_ediv_add_one_mul_self (q + 2 * a) (by norm_num : (0 : Int) < 3)
  generalize hgd : (q + 2 * a) / 3 = g at *
  have key : 2 * g * b ^ 2 ≤ 9 * fp * D ^ 2 := by
    have k1 : q * (a * a - D) ≤ fp * D * D := by
      have h1 : q * (a * a - D) ≤ q * (y * D) := mul_le_mul_of_nonneg_left (by rw [add_mul, one_mul] at d2; omega) q0
      have h2 := mul_le_mul_of_nonneg_right q1 hD0.le
      linarith [show q * y * D = q * (y * D) by ring]
    have k2 : 199 * (b * b) ≤ 200 * (9 * (a * a - D)) := by
      have h1 : (b - 2) * (b - 2) ≤ (3 * a) * (3 * a) := mul_le_mul (by omega) (by omega) (by omega) (by omega)
      have h2 : 12288 * b ≤ b * b := mul_le_mul_of_nonneg_right b0 (by omega)
      linarith [show (b - 2) * (b - 2) = b * b - 4 * b + 4 by ring, show (3 * a) * (3 * a) = 9 * (a * a) by ring]
    have k3 : q * (199 * (b * b)) ≤ 200 * (9 * (fp * D * D)) := by
      have h1 := mul_le_mul_of_nonneg_left k2 q0
      linarith [show q * (200 * (9 * (a * a - D))) = 1800 * (q * (a * a - D)) by ring]
    have k4 : 5 * (b * (b * b)) ≤ 27 * (fp * D * D) := by
      have h1 : b * b ≤ (3 * D) * (3 * D) := mul_le_mul b2 b2 (by omega) (by omega)
      have h2 : b * (b * b) ≤ b * ((3 * D) * (3 * D)) := mul_le_mul_of_nonneg_left h1 (by omega)
      have h3 : (5 * b) * (D * D) ≤ (3 * fp) * (D * D) := mul_le_mul_of_nonneg_right b3 (by positivity)
      linarith [show b * ((3 * D) * (3 * D)) = 9 * (b * (D * D)) by ring, show (5 * b) * (D * D) = 5 * (b * (D * D)) by ring,
        show (3 * fp) * (D * D) = 3 * (fp * D * D) by ring]
    have k5 : 3 * (a * (b * b)) ≤ b * (b * b) := by
      have := mul_le_mul_of_nonneg_right a2 (by positivity : 0 ≤ b * b)
      linarith [show 3 * a * (b * b) = 3 * (a * (b * b)) by ring]
    have k6 : 3 * (g * (b * b)) ≤ q * (b * b) + 2 * (a * (b * b)) := by
      have := mul_le_mul_of_nonneg_right s1 (by positivity : 0 ≤ b * b)
      linarith [show 3 * g * (b * b) = 3 * (g * (b * b)) by ring, show (q + 2 * a) * (b * b) = q * (b * b) + 2 * (a * (b * b)) by ring]
    have fD : 0 ≤ fp * D * D := by have : 0 ≤ fp := by omega
                                   positivity
    linarith [show 2 * g * b ^ 2 = 2 * (g * (b * b)) by ring, show 9 * fp * D ^ 2 = 9 * (fp * D * D) by ring, show q * (199 * (b * b)) = 199 * (q * (b * b)) by ring]
  have gc : g ^ 3 < H * D ^ 2 := by
    have h1 : (2 * g * b ^ 2) ^ 3 ≤ (9 * fp * D ^ 2) ^ 3 := pow_le_pow_left₀ (by positivity) key 3
    have h2 : (9 * fp * D ^ 2) ^ 3 < 8 * b ^ 6 * H * D ^ 2 := by
      have := mul_lt_mul_of_pos_right hq (by positivity : 0 < D ^ 2)
      linarith [show (9 * fp * D) ^ 3 * D * D ^ 2 = (9 * fp * D ^ 2) ^ 3 by ring]
    have h3 : (8 * b ^ 6) * g ^ 3 < (8 * b ^ 6) * (H * D ^ 2) := by
      linarith [show (2 * g * b ^ 2) ^ 3 = (8 * b ^ 6) * g ^ 3 by ring, show 8 * b ^ 6 * H * D ^ 2 = (8 * b ^ 6) * (H * D ^ 2) by ring]
    exact lt_of_mul_lt_mul_left h3 (by positivity)
  have c3 : 3 * g + 2 < H := by
    by_cases hc : g ≤ 3 * D
    · omega
    · have h1 : (3 * D) ^ 2 ≤ g ^ 2 := pow_le_pow_left₀ (by omega) (by omega) 2
      have h2 : (3 * D) ^ 2 * g ≤ g ^ 2 * g := mul_le_mul_of_nonneg_right h1 (by omega)
      have h3 : (9 * g) * D ^ 2 < H * D ^ 2 := by linarith [show (3 * D) ^ 2 * g = (9 * g) * D ^ 2 by ring, show g ^ 2 * g = g ^ 3 by ring]
      have h4 := lt_of_mul_lt_mul_right h3 (by positivity)
      omega
  refine ⟨⟨by omega, by rw [hyd]; omega, hcube, by rw [hyd, hqd]; omega⟩, ?_⟩
  refine ginv_of hE hD (by omega) s0 gc ?_
  have e1 : fp * D ^ 2 ≤ (q + 1) * (y * D) := by
    have := mul_le_mul_of_nonneg_right q2.le hD0.le
    nlinarith
  have e2 : (q + 1) * (y * D) ≤ (q + 1) * (a * a) := mul_le_mul_of_nonneg_left d1 (by omega)
  have e3 := amgm (t := q + 1) (a := a) (by omega) (by omega)
  have e4 : (q + 1 + 2 * a) ^ 3 ≤ (3 * (g + 1)) ^ 3 := pow_le_pow_left₀ (by omega) (by omega) 3
  rw [mul_pow] at e4
  have e5 : (q + 1) * a * a = (q + 1) * (a * a) := by ring
  rw [e5] at e3
  omega

/-- The rest of the loop, from a value that is not short of the root. -/
theorem nLoop_fin {F : FxTy} (h : CG F) {D H E m : Int} (hE : 0 < E) (hD : D = 65536 * E) (hDF : (2 : Int) ^ F.f = D)
    (hHF : (2 : Int) ^ (F.T.bits - 1) = H) (g5 : 5 * E ≤ m) (hm : m < H) (hs : (m + 2 * D) ^ 3 < 27 * (H * D ^ 2)) (n : Nat) (a : Int)
    (hn : 199 ≤ n) (hinv : GInv D H E m a) (ha : a ≤ 2 ^ 63) :
    ∃ z, cbrtLoop F (-m) (10 * E) n (-a) = .ok (-z) ∧ 0 < z ∧
      (|m - gCube D z| < 10 * E ∨ m * D ^ 2 ≤ (z + 1) ^ 3 ∧ (z - 28) ^ 3 ≤ m * D ^ 2) := by
  have hH16 : 16 * D ≤ H := by rw [← hDF, ← hHF]; exact h.room
  have x0r : (0 : ℝ) ≤ m := by exact_mod_cast (by omega : 0 ≤ m)
  obtain ⟨c, c0, hcc⟩ := exists_root ((m : ℝ) * (D : ℝ) ^ 2) (by positivity)
  have hM := root_room (by omega) hH16 (by omega) hs c0 hcc
  obtain ⟨z, hz1, hz2, hz3⟩ := nLoop_spec h hE hD hDF hHF g5 hm c0 hcc hM n _ hinv
  have hz0 := hz2.lo
  refine ⟨z, hz1, by omega, hz3.imp_right fun h => ⟨hz2.root, ?_⟩⟩
  have hb : (a : ℝ) ≤ 2 ^ 63 := by exact_mod_cast ha
  have h28 : (z : ℝ) - 28 ≤ c := by
    have h1 : (2 / 3 : ℝ) ^ n * ((a : ℝ) - c - 27) ≤ (2 / 3) ^ n * 2 ^ 63 :=
      mul_le_mul_of_nonneg_left (by linarith) (by positivity)
    have h2 : (2 / 3 : ℝ) ^ n ≤ (2 / 3) ^ 199 := pow_le_pow_of_le_one (by norm_num) (by norm_num) hn
    have h3 := mul_le_mul_of_nonneg_right h2 (by norm_num : (0 : ℝ) ≤ 2 ^ 63)
    have h4 : (2 / 3 : ℝ) ^ 199 * 2 ^ 63 ≤ 1 := by norm_num
    linarith
  have hz0' : (2700 : ℝ) * E ≤ z := by exact_mod_cast hz0
  have hE1 : (1 : ℝ) ≤ E := by exact_mod_cast hE
  have h3 : ((z : ℝ) - 28) ^ 3 ≤ m * D ^ 2 := by
    rw [← hcc]; exact pow_le_pow_left₀ (by linarith) h28 3
  exact_mod_cast h3

/-- The loop of `cbrt`, from its start value on. -/
theorem nLoop_start {F : FxTy} (h : CG F) {D H E m : Int} (hE : 0 < E) (hD : D = 65536 * E) (hDF : (2 : Int) ^ F.f = D)
    (hHF : (2 : Int) ^ (F.T.bits - 1) = H) (h5 : 5 * D ≤ m ∨ 35 * D ≤ 16 * m ∧ m ≤ 5 * D ∧ (9 * m * D) ^ 3 * D < 8 * (m - 2 * D) ^ 6 * H) (hm : m < H)
    (hs : (m + 2 * D) ^ 3 < 27 * (H * D ^ 2)) :
    ∃ z, cbrtLoop F (-m) (10 * E) 201 (-((m - 2 * D) / 3)) = .ok (-z) ∧ 0 < z ∧
      (|m - gCube D z| < 10 * E ∨ m * D ^ 2 ≤ (z + 1) ^ 3 ∧ (z - 28) ^ 3 ≤ m * D ^ 2) := by
  have hD0 : 0 < D := by omega
  have hH16 : 16 * D ≤ H := by rw [← hDF, ← hHF]; exact h.room
  have hH64 : H ≤ 2 ^ 63 := by
    rw [← hHF]; exact pow_le_pow_right₀ (by norm_num) (by have := h.sw.valid.1; omega)
  have g5 : 5 * E ≤ m := by omega
  have fin := nLoop_fin h hE hD hDF hHF g5 hm hs
  by_cases h8 : m < 8 * D
  · obtain ⟨np, gi⟩ : NPass D H m ((m - 2 * D) / 3) ∧ GInv D H E m (gStep D m ((m - 2 * D) / 3)) := by
      rcases h5 with h5 | ⟨h2, h5, hq⟩
      · exact first_pass hE hD hH16 rfl h5 h8
      · exact near_pass hE hD hH16 rfl h2 h5 hq
    rw [nLoop_step h hE hD hDF hHF g5 hm np]
    by_cases hc : 10 * E ≤ |m - gCube D ((m - 2 * D) / 3)|
    · rw [if_pos hc]
      refine fin 200 _ (by norm_num) gi ?_
      obtain ⟨a3, -⟩ := cube_lt hD0 hH16 gi.cube
      have := gi.lo
      omega
    · rw [if_neg hc]
      exact ⟨_, rfl, np.pos, Or.inl (by omega)⟩
  · push Not at h8
    refine fin 201 _ (by norm_num) (ginv_of hE hD g5 (by omega) ?_ ?_) (by omega)
    · have e2 : (3 * ((m - 2 * D) / 3)) ^ 3 ≤ (m + 2 * D) ^ 3 := pow_le_pow_left₀ (by omega) (by omega) 3
      rw [mul_pow] at e2
      norm_num at e2
      omega
    · have e2 : (m - 2 * D) ^ 3 ≤ (3 * ((m - 2 * D) / 3 + 1)) ^ 3 := pow_le_pow_left₀ (by omega) (by omega) 3
      rw [mul_pow] at e2
      norm_num at e2
      have e3 : 27 * (m * D ^ 2) ≤ (m - 2 * D) ^ 3 := by
        have e : (m - 2 * D) ^ 3 - 27 * (m * D ^ 2) = (m - 8 * D) * (m + D) ^ 2 := by ring
        have : 0 ≤ (m - 8 * D) * (m + D) ^ 2 := mul_nonneg (by omega) (by positivity)
        omega
      omega

/-- C143 as one would like it: on every signed layout with at least 16 fraction bits and five integer bits, `cbrt` of every negative number down to where the
positive ones work (C117) is defined, negative, and cubes back. -/
def C143_statement : Prop := ∀ F : FxTy, F.Valid → SignedWide F → F.r = false → 16 ≤ F.f → F.f + 5 ≤ F.T.bits → ∀ x, Storable F x → val F x ≤ -1 →
  ((-val F x + 2) / 3) ^ 3 < val F F.T.hi + ulp F →
  ∃ r, cbrt F x = .ok r ∧ val F r < 0 ∧ |val F x - val F r ^ 3| ≤ 10 / 65536 + (1 - val F r + 84 * val F r ^ 2) * ulp F

/-- C143: the cube root of -2 divides by zero on every such layout, because the start value `(x + 2) / 3` is zero. -/
theorem C143_minus_two (F : FxTy) (hF : F.Valid) (hs : SignedWide F) (hr : F.r = false) (h16 : 16 ≤ F.f) (h5 : F.f + 5 ≤ F.T.bits) (x : Int) (hx : val F x = -2) :
    cbrt F x = .ub .divZero := by
  have sw : SW F := sw_five hF hs h5
  have h : CG F := ⟨sw, hr, h16, by have := hF.1; omega, h5⟩
  obtain ⟨E, hE, hDE, eE⟩ := h.unit
  have hroom := h.room
  have heps := h.eps
  rw [← eE] at heps
  have e : x = -2 * 2 ^ F.f := val_inj (F := F) (by rw [hx, val_int]; norm_num)
  have hlo := sw.lo_eq
  generalize hDF : (2 : Int) ^ F.f = D at *
  generalize hHF : (2 : Int) ^ (F.T.bits - 1) = H at *
  have rg : ∀ z : Int, -H ≤ z → z < H → F.T.InRange z := fun z a b => h.st' (by rw [hHF]; exact a) (by rw [hHF]; exact b)
  have ha : abs F x = .ok (2 * D) := by
    rw [sw.abs_ok (rg x (by omega) (by omega)) (by omega), abs_of_neg (by omega)]; congr 1; omega
  have hadd : addInt F x 2 = .ok 0 := by
    have := sw.addInt_ok (x := x) (n := 2) (by rw [hDF]; exact rg _ (by omega) (by omega)) (by rw [hDF]; exact rg _ (by omega) (by omega))
    rw [hDF] at this; rw [this]; congr 1; omega
  have hdiv : divInt F i32 0 3 = .ok 0 := by
    rw [sw.divInt_ok (rg _ (by omega) (by omega)) (by norm_num) (by norm_num)]; rfl
  have hprec : mulInt F i32 (5 * E) 2 = .ok (10 * E) := by
    rw [sw.mulInt_ok (rg _ (by omega) (by omega)) (by decide) (rg _ (by omega) (by omega))]
    congr 1; ring
  have m0 : mul F 0 0 = .ok 0 := by
    rw [sw.mul_ok hr (rg _ (by omega) (by omega)) (rg _ (by omega) (by omega)) (by simpa using rg 0 (by omega) (by omega))]; simp
  have s0 : sub F x 0 = .ok x := by
    rw [sw.sub_ok (by rw [sub_zero]; exact rg _ (by omega) (by omega)), sub_zero]
  have d0 : div F x 0 = .ub .divZero := by
    rw [div_nf hF hr (rg _ (by omega) (by omega)), if_pos rfl]
  unfold cbrt
  rw [ha, heps, Res.bind_ok, Res.bind_ok, if_neg (by rw [lt_iff]; omega), hadd, Res.bind_ok, hdiv, Res.bind_ok, hprec, Res.bind_ok,
    cbrtLoop_unf, m0, Res.bind_ok, m0, Res.bind_ok, s0, Res.bind_ok, ha, Res.bind_ok, if_pos (by rw [ge_iff]; omega)]
  dsimp only
  rw [Res.bind_ok, d0]
  rfl
example : val fixed32 (-2 * 65536) = -2 ∧ cbrt fixed32 (-2 * 65536) = .ub .divZero := ⟨by norm_num [val, fixed32], by decide +kernel⟩

theorem C143_false : ¬ C143_statement := by
  intro h
  have hx : val fixed32 (-2 * 65536) = -2 := by norm_num [val, fixed32]
  obtain ⟨r, hr, -⟩ := h fixed32 (by decide) (by decide) rfl (by decide) (by decide) (-2 * 65536) (by decide) (by rw [hx]; norm_num) (by
    rw [hx]; norm_num [val, ulp, fixed32, IntTy.hi, i32])
  rw [C143_minus_two fixed32 (by decide) (by decide) rfl (by decide) (by decide) _ hx] at hr
  cases hr

/-- What the loop guarantees, in terms of the values. -/
theorem neg_concl {F : FxTy} {D E m z : Int} (hE : 0 < E) (hDE : D = 65536 * E) (hDF : (2 : Int) ^ F.f = D) (z0 : 0 < z)
    (hz : |m - gCube D z| < 10 * E ∨ m * D ^ 2 ≤ (z + 1) ^ 3 ∧ (z - 28) ^ 3 ≤ m * D ^ 2) :
    val F (-z) < 0 ∧ (|val F (-m) - val F (-z) ^ 3| ≤ 10 / 65536 + (1 - val F (-z)) * ulp F ∨
      (val F (-z) - ulp F) ^ 3 ≤ val F (-m) ∧ val F (-m) ≤ (val F (-z) + 28 * ulp F) ^ 3) := by
  have vv := val_real F
  have uu := ulp_real F
  rw [hDF] at uu
  simp only [hDF] at vv
  have hD0 : 0 < D := by omega
  have hDq : (0 : ℚ) < D := by exact_mod_cast hD0
  have hDEq : (D : ℚ) = 65536 * E := by exact_mod_cast hDE
  have hEq : (1 : ℚ) ≤ E := by exact_mod_cast hE
  have zq : (0 : ℚ) < z := by exact_mod_cast z0
  refine ⟨?_, ?_⟩
  · rw [vv]; push_cast
    rw [neg_div]; exact neg_neg_of_pos (by positivity)
  · refine hz.imp (fun hz => ?_) (fun hz => ?_)
    · rw [vv, vv, uu]
      obtain ⟨d3, d4⟩ := gCube_bounds (a := z) hD0
      have d1 := Int.ediv_mul_le (z * z) hD0.ne'
      have d2 := Int.lt_ediv_add_one_mul_self (z * z) hD0
      generalize z * z / D = y at *
      generalize gCube D z = w at *
      obtain ⟨w1, w2⟩ := abs_lt.1 hz
      have k1 : (w - 1) * D * D ≤ z * z * z := by
        have a1 := mul_le_mul_of_nonneg_right d4.le hD0.le
        have a2 := mul_le_mul_of_nonneg_right d1 z0.le
        linarith [show y * z * D = y * D * z by ring, show (y * z + D) * D = y * z * D + D * D by ring, show (w - 1) * D * D = w * D * D - D * D by ring]
      have k2 : z * z * z ≤ w * D * D + z * D := by
        have a1 := mul_le_mul_of_nonneg_right d3 hD0.le
        have a2 := mul_le_mul_of_nonneg_right d2.le z0.le
        linarith [show y * z * D = y * D * z by ring, show (y + 1) * D * z = y * D * z + z * D by ring]
      have k1' : ((w : ℚ) - 1) * D * D ≤ z * z * z := by exact_mod_cast k1
      have k2' : (z : ℚ) * z * z ≤ w * D * D + z * D := by exact_mod_cast k2
      have w1q : (w : ℚ) - 10 * E ≤ m := by exact_mod_cast (by omega : w - 10 * E ≤ m)
      have w2q : (m : ℚ) ≤ w + 10 * E := by exact_mod_cast (by omega : m ≤ w + 10 * E)
      have e1 : ((-m : Int) : ℚ) / D - (((-z : Int) : ℚ) / D) ^ 3 = (z ^ 3 - m * D ^ 2) / D ^ 3 := by push_cast; field_simp; ring
      have e2 : (10 : ℚ) / 65536 + (1 - ((-z : Int) : ℚ) / D) * (1 / D) = (10 * E * D ^ 2 + D ^ 2 + z * D) / D ^ 3 := by
        push_cast
        rw [hDEq]; have : (E : ℚ) ≠ 0 := by linarith
        field_simp
        ring
      have DD : (0 : ℚ) ≤ D * D := by positivity
      have m1 := mul_le_mul_of_nonneg_right w1q DD
      have m2 := mul_le_mul_of_nonneg_right w2q DD
      have zD : 0 ≤ (z : ℚ) * D := by positivity
      rw [e1, e2, abs_div, abs_of_pos (by positivity : (0 : ℚ) < D ^ 3)]
      apply div_le_div_of_nonneg_right _ (by positivity)
      rw [abs_le]
      constructor
      · linarith [show (z : ℚ) * z * z = z ^ 3 by ring, show (D : ℚ) ^ 2 = D * D by ring, show ((w : ℚ) - 1) * D * D = w * D * D - D * D by ring,
          show ((w : ℚ) + 10 * E) * (D * D) = w * D * D + 10 * E * D ^ 2 by ring, show (m : ℚ) * (D * D) = m * D ^ 2 by ring]
      · linarith [show (z : ℚ) * z * z = z ^ 3 by ring, show (D : ℚ) ^ 2 = D * D by ring, show ((w : ℚ) - 10 * E) * (D * D) = w * D * D - 10 * E * D ^ 2 by ring,
          show (m : ℚ) * (D * D) = m * D ^ 2 by ring]
    · obtain ⟨r1, r2⟩ := hz
      have r1q : (m : ℚ) * D ^ 2 ≤ (z + 1) ^ 3 := by exact_mod_cast r1
      have r2q : ((z : ℚ) - 28) ^ 3 ≤ m * D ^ 2 := by exact_mod_cast r2
      rw [vv, vv, uu]
      have e1 : (((-z : Int) : ℚ) / D - 1 / D) ^ 3 = -((z + 1) ^ 3 / D ^ 3) := by
        push_cast; rw [← div_pow, ← neg_pow_three]; congr 1; ring
      have e2 : (((-z : Int) : ℚ) / D + 28 * (1 / D)) ^ 3 = -((z - 28) ^ 3 / D ^ 3) := by
        push_cast; rw [← div_pow, ← neg_pow_three]; congr 1; ring
      have e3 : ((-m : Int) : ℚ) / D = -(m * D ^ 2 / D ^ 3) := by push_cast; field_simp
      rw [e1, e2, e3]
      exact ⟨neg_le_neg (div_le_div_of_nonneg_right r1q (by positivity)), neg_le_neg (div_le_div_of_nonneg_right r2q (by positivity))⟩

/-- The cube root of a negative number, for both ranges of C143. -/
theorem neg_root (F : FxTy) (hF : F.Valid) (hs : SignedWide F) (hr : F.r = false) (h16 : 16 ≤ F.f) (h5 : F.f + 5 ≤ F.T.bits)
    (x : Int) (hx : Storable F x) 
    (h0 : val F x ≤ -5 ∧ ((-val F x + 2) / 3) ^ 3 < val F F.T.hi + ulp F ∨
      -5 ≤ val F x ∧ val F x ≤ -35 / 16 ∧ (9 * -val F x / (2 * (-val F x - 2) ^ 2)) ^ 3 < val F F.T.hi + ulp F) :
    ∃ r, cbrt F x = .ok r ∧ val F r < 0 ∧
      (|val F x - val F r ^ 3| ≤ 10 / 65536 + (1 - val F r) * ulp F ∨
        (val F r - ulp F) ^ 3 ≤ val F x ∧ val F x ≤ (val F r + 28 * ulp F) ^ 3) := by
  have sw : SW F := sw_five hF hs h5
  have hb64 : F.T.bits ≤ 64 := by have := hF.1; omega
  have h : CG F := ⟨sw, hr, h16, by omega, h5⟩
  obtain ⟨E, hE, hDE, eE⟩ := h.unit
  have hroom := h.room
  have heps := h.eps
  rw [← eE] at heps
  have hhi := sw.hi_eq
  have hlo := sw.lo_eq
  have hxl := hx.1
  have vv := val_real F
  have uu := ulp_real F
  obtain ⟨D, hDF⟩ : ∃ D : Int, (2 : Int) ^ F.f = D := ⟨_, rfl⟩
  obtain ⟨H, hHF⟩ : ∃ H : Int, (2 : Int) ^ (F.T.bits - 1) = H := ⟨_, rfl⟩
  rw [hDF] at hDE hroom uu
  simp only [hDF] at vv
  rw [hHF] at hroom hhi hlo
  have hD0 : 0 < D := by omega
  have hDq : (0 : ℚ) < D := by exact_mod_cast hD0
  have hDEq : (D : ℚ) = 65536 * E := by exact_mod_cast hDE
  have hEq : (1 : ℚ) ≤ E := by exact_mod_cast hE
  obtain ⟨m, rfl⟩ : ∃ m, x = -m := ⟨-x, by omega⟩
  have g5 : 5 * D ≤ m ∨ 35 * D ≤ 16 * m ∧ m ≤ 5 * D ∧ (9 * m * D) ^ 3 * D < 8 * (m - 2 * D) ^ 6 * H := by
    rcases h0 with ⟨h0, -⟩ | ⟨h0, h1, hc⟩
    · left
      rw [vv, div_le_iff₀ hDq] at h0
      push_cast at h0
      have : ((5 * D : Int) : ℚ) ≤ m := by push_cast; linarith
      exact_mod_cast this
    · right
      rw [vv, le_div_iff₀ hDq] at h0
      rw [vv, div_le_iff₀ hDq] at h1
      push_cast at h0 h1
      have m1 : ((35 * D : Int) : ℚ) ≤ ((16 * m : Int) : ℚ) := by push_cast; linarith
      have m2 : ((m : Int) : ℚ) ≤ ((5 * D : Int) : ℚ) := by push_cast; linarith
      refine ⟨by exact_mod_cast m1, by exact_mod_cast m2, ?_⟩
      have b0 : (0 : ℚ) < m - 2 * D := by push_cast at m1; linarith
      rw [vv, vv, uu, hhi] at hc
      have e1 : 9 * -(((-m : Int) : ℚ) / D) / (2 * (-(((-m : Int) : ℚ) / D) - 2) ^ 2) = 9 * m * D / (2 * (m - 2 * D) ^ 2) := by
        have e : -(((-m : Int) : ℚ) / D) - 2 = (m - 2 * D) / D := by push_cast; field_simp
        rw [e]; push_cast; field_simp
      have e2 : ((H - 1 : Int) : ℚ) / D + 1 / D = H / D := by push_cast; ring
      rw [e1, e2, div_pow, div_lt_div_iff₀ (by positivity) hDq] at hc
      have h2 : (9 * (m : ℚ) * D) ^ 3 * D < 8 * (m - 2 * D) ^ 6 * H := by
        calc _ < _ := hc
          _ = _ := by ring
      exact_mod_cast h2
  have g2 : 2 * D ≤ m := by omega
  have g94 : (m + 2 * D) ^ 3 < 27 * (H * D ^ 2) := by
    rcases h0 with ⟨-, hc⟩ | ⟨h0, -, -⟩
    · rw [vv, vv, uu, hhi] at hc
      have e1 : (-(((-m : Int) : ℚ) / D) + 2) / 3 = (m + 2 * D) / (3 * D) := by push_cast; field_simp
      have e2 : ((H - 1 : Int) : ℚ) / D + 1 / D = H / D := by push_cast; ring
      rw [e1, e2, div_pow, div_lt_div_iff₀ (by positivity) hDq] at hc
      have h1 : (((m : ℚ) + 2 * D) ^ 3) * D < (27 * (H * D ^ 2)) * D := by
        calc _ < _ := hc
          _ = _ := by ring
      have h2 := lt_of_mul_lt_mul_right h1 hDq.le
      exact_mod_cast h2
    · rw [vv, le_div_iff₀ hDq] at h0
      push_cast at h0
      have m2 : ((m : Int) : ℚ) ≤ ((5 * D : Int) : ℚ) := by push_cast; linarith
      have m3 : m ≤ 5 * D := by exact_mod_cast m2
      have h1 : (m + 2 * D) ^ 3 ≤ (7 * D) ^ 3 := pow_le_pow_left₀ (by omega) (by omega) 3
      have h2 : (16 * D) * D ^ 2 ≤ H * D ^ 2 := mul_le_mul_of_nonneg_right hroom (by positivity)
      have h3 : 0 < D ^ 3 := by positivity
      linarith [show (7 * D) ^ 3 = 343 * D ^ 3 by ring, show (16 * D) * D ^ 2 = 16 * D ^ 3 by ring]
  have ht : m + 2 * D < H := by
    by_cases hcc : m + 2 * D ≤ 9 * D
    · omega
    · push Not at hcc
      have h1 : (9 * D) ^ 2 ≤ (m + 2 * D) ^ 2 := pow_le_pow_left₀ (by omega) hcc.le 2
      have h2 : (9 * D) ^ 2 * (m + 2 * D) ≤ (m + 2 * D) ^ 2 * (m + 2 * D) := mul_le_mul_of_nonneg_right h1 (by omega)
      have h3 : (3 * (m + 2 * D)) * D ^ 2 < H * D ^ 2 := by linarith [show (m + 2 * D) ^ 2 * (m + 2 * D) = (m + 2 * D) ^ 3 by ring,
        show (9 * D) ^ 2 * (m + 2 * D) = 27 * ((3 * (m + 2 * D)) * D ^ 2) by ring]
      have h4 := lt_of_mul_lt_mul_right h3 (by positivity)
      omega
  have rg : ∀ z : Int, -H ≤ z → z < H → F.T.InRange z := fun z a b => h.st' (by rw [hHF]; exact a) (by rw [hHF]; exact b)
  have ha : abs F (-m) = .ok m := by
    rw [sw.abs_ok hx (by omega), abs_of_neg (by omega), neg_neg]
  have hadd : addInt F (-m) 2 = .ok (-(m - 2 * D)) := by
    have := sw.addInt_ok (x := -m) (n := 2) (by rw [hDF]; exact rg _ (by omega) (by omega)) (by rw [hDF]; exact rg _ (by omega) (by omega))
    rw [hDF] at this; rw [this]; congr 1; ring
  have hdiv : divInt F i32 (-(m - 2 * D)) 3 = .ok (-((m - 2 * D) / 3)) := by
    rw [sw.divInt_ok (rg _ (by omega) (by omega)) (by norm_num) (by norm_num), Int.neg_tdiv, tdiv_eq_ediv (by omega)]
  have hprec : mulInt F i32 (5 * E) 2 = .ok (10 * E) := by
    rw [sw.mulInt_ok (rg _ (by omega) (by omega)) (by decide) (rg _ (by omega) (by omega))]
    congr 1; ring
  obtain ⟨z, hz1, z0, hz⟩ := nLoop_start h hE hDE hDF hHF g5 (by omega) g94
  obtain ⟨k1, k2⟩ := neg_concl hE hDE hDF z0 hz
  refine ⟨-z, ?_, k1, k2⟩
  unfold cbrt
  rw [ha, heps, Res.bind_ok, Res.bind_ok, if_neg (by rw [lt_iff]; omega), hadd, Res.bind_ok, hdiv, Res.bind_ok, hprec, Res.bind_ok, hz1]

/-- C143: for arguments from -5 down to where the positive ones work, `cbrt` is defined and negative, and either the cube of the result is within `10/65536` and
the rounding errors of the argument (exit of the loop), or the result is at most one ulp short of the root and at most 28 beyond it. -/
theorem C143_root_partial (F : FxTy) (hF : F.Valid) (hs : SignedWide F) (hr : F.r = false) (h16 : 16 ≤ F.f) (h5 : F.f + 5 ≤ F.T.bits)
    (x : Int) (hx : Storable F x) (h0 : val F x ≤ -5) (hc : ((-val F x + 2) / 3) ^ 3 < val F F.T.hi + ulp F) :
    ∃ r, cbrt F x = .ok r ∧ val F r < 0 ∧
      (|val F x - val F r ^ 3| ≤ 10 / 65536 + (1 - val F r) * ulp F ∨
        (val F r - ulp F) ^ 3 ≤ val F x ∧ val F x ≤ (val F r + 28 * ulp F) ^ 3) :=
  neg_root F hF hs hr h16 h5 x hx (Or.inl ⟨h0, hc⟩)

example : cbrt fixed64 (-1000 * 2 ^ 32) = .ok (-42949673511) ∧ val fixed64 (-1000 * 2 ^ 32) ≤ -5 ∧
    ((-(-1000) + 2 : ℚ) / 3) ^ 3 < val fixed64 fixed64.T.hi + ulp fixed64 ∧ cbrt fixed32 (-6 * 2 ^ 16) = .ok (-119086) := by
  refine ⟨by decide +kernel, by norm_num [val, fixed64], ?_, by decide +kernel⟩
  unfold val ulp; norm_num [fixed64, IntTy.hi, i64]

/-- **C143 (partial, arguments between -5 and -35/16).** The start value `(x + 2) / 3` is here closer to zero than the root, and the first pass goes beyond the root: up to the value `|x| / (2 s^2)`, with `s = (|x| - 2) / 3`.
If the cube of that fits the type, then the same bound as above holds. -/
theorem C143_near_partial (F : FxTy) (hF : F.Valid) (hs : SignedWide F) (hr : F.r = false) (h16 : 16 ≤ F.f) (h5 : F.f + 5 ≤ F.T.bits)
    (x : Int) (hx : Storable F x) (h0 : -5 ≤ val F x) (h1 : val F x ≤ -35 / 16)
    (hc : (9 * -val F x / (2 * (-val F x - 2) ^ 2)) ^ 3 < val F F.T.hi + ulp F) :
    ∃ r, cbrt F x = .ok r ∧ val F r < 0 ∧
      (|val F x - val F r ^ 3| ≤ 10 / 65536 + (1 - val F r) * ulp F ∨
        (val F r - ulp F) ^ 3 ≤ val F x ∧ val F x ≤ (val F r + 28 * ulp F) ^ 3) :=
  neg_root F hF hs hr h16 h5 x hx (Or.inr ⟨h0, h1, hc⟩)

example : cbrt fixed64 (-3 * 2 ^ 32) = .ok (-6194414769) ∧ -5 ≤ val fixed64 (-3 * 2 ^ 32) ∧ val fixed64 (-3 * 2 ^ 32) ≤ -35 / 16 ∧
    (9 * -val fixed64 (-3 * 2 ^ 32) / (2 * (-val fixed64 (-3 * 2 ^ 32) - 2) ^ 2)) ^ 3 < val fixed64 fixed64.T.hi + ulp fixed64 ∧
    cbrt fixed32 (-3 * 2 ^ 16) = .ok (-94519) := by
  have e : val fixed64 (-3 * 2 ^ 32) = -3 := by norm_num [val, fixed64]
  rw [e]
  refine ⟨by decide +kernel, by norm_num, by norm_num, ?_, by decide +kernel⟩
  unfold val ulp; norm_num [fixed64, IntTy.hi, i64]

end Eirin.Props
