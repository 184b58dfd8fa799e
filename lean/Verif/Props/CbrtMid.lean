import Verif.Props.CbrtCoarse
import Verif.Props.Ends

/-! # Property C183: `cbrt` on layouts with 14 or 15 fraction bits

The two layouts between those of C117 (at least 16 fraction bits) and C179 (at most 13).  Here `epsilon()` is 4/65536, one or two units in the last place, and the
loop stops as soon as the rounded cube is within 8/65536 of the argument. -/

namespace Eirin.Props
open Spec

theorem ca_mid : CA (2 ^ 14) 13 ∧ CA (2 ^ 15) 16 := by
  have y : ∀ (D : Int), 0 < D → D ≤ 32768 → (∀ a : Nat, a < 182 → D ^ 2 ≤ ((a : Int) + 1) ^ 3 → D ≤ (a : Int) * a) →
      ∀ a : Int, 0 ≤ a → D ^ 2 ≤ (a + 1) ^ 3 → D ≤ a * a := by
    intro D d0 d1 t a a0 h
    by_cases hc : a < 182
    · obtain ⟨n, rfl⟩ := Int.eq_ofNat_of_zero_le a0
      exact t n (by omega) h
    · nlinarith
  refine ⟨⟨by norm_num, by norm_num, by norm_num, by norm_num, y _ (by norm_num) (by norm_num) (by decide +kernel), ?_⟩,
    ⟨by norm_num, by norm_num, by norm_num, by norm_num, y _ (by norm_num) (by norm_num) (by decide +kernel), ?_⟩⟩
  · intro fp a h1 _ _ _ h
    norm_num at h
    omega
  · intro fp a h1 _ _ _ h
    norm_num at h
    omega

theorem cf_eps_mid {F : FxTy} {D H : Int} (h : CF F D H) (h14 : 14 ≤ F.f) : epsilon F = .ok (2 ^ (F.f - 14)) := by
  have key : ∀ f < 16, 14 ≤ f → shl i64 1 (64 - f) = .ok (2 ^ (64 - f)) ∧ cdiv i64.promote 0x5000000000000 (2 ^ (64 - f)) = .ok (2 ^ (f - 14)) := by
    decide +kernel
  have h15 := h.f15
  have d0 := h.dpos
  have := h.room
  obtain ⟨k1, k2⟩ := key F.f (by omega) h14
  have hp : (2 : Int) ^ (F.f - 14) ≤ D := by
    rw [← h.d]; exact pow_le_pow_right₀ (by norm_num) (by omega)
  unfold epsilon fromFixedNumValue
  rw [if_pos (by omega), h.r, if_neg (by decide), k1, Res.bind_ok, k2, Res.bind_ok, IntTy.wrap_of_inRange h.v.tpos (h.inr (by positivity) (by omega))]
  rfl

/-- One pass with the stopping test: `d` is what the test compares with `p`. -/
theorem mid_pass {F : FxTy} {D H T fp a p : Int} (k : CF F D H) (c : CA D T) (h1 : 1 ≤ fp) (hfp : fp < H) (a0 : 0 ≤ a)
    (root : fp * D ^ 2 ≤ (a + 1) ^ 3) {r M : ℝ} (r0 : 0 ≤ r) (hr : r ^ 3 = fp * D ^ 2) (hM : r + T ≤ M) (hM2 : M * M < H * D) (hM3 : 3 * M < H)
    (ha : (a : ℝ) ≤ M) {w e d : Int} (hw : mul F (a * a / D) a = .ok w) (he : sub F fp w = .ok e) (hd : abs F e = .ok d) (n : Nat) :
    cbrtLoop F fp p n a = if p ≤ d then (match n with
      | 0 => .ok a
      | n + 1 => cbrtLoop F fp p n (gStep D fp a)) else .ok a := by
  obtain ⟨y1, q0, -, hq⟩ := coarse_step c h1 a0 root r0 hr
  have hD0 := c.d0
  have a0' : (0 : ℝ) ≤ a := by exact_mod_cast a0
  have T0 : (1 : ℝ) ≤ T := by exact_mod_cast c.t1
  have a3 : 3 * a < H := by
    have : 3 * (a : ℝ) < H := by linarith
    exact_mod_cast this
  have a2 : a * a < H * D := by
    have : (a : ℝ) * a < H * D := lt_of_le_of_lt (mul_le_mul ha ha a0' (by linarith)) hM2
    exact_mod_cast this
  have y2 : a * a / D < H := Int.ediv_lt_of_lt_mul hD0 a2
  have e2 := k.cf_mul a0 (by omega) a0 (by omega) y2
  have qa : fp * D / (a * a / D) + a * 2 < H := by
    have : ((fp * D / (a * a / D) : Int) : ℝ) + a * 2 < H := by
      rcases hq with ⟨_, h⟩ | ⟨_, h⟩ <;> linarith
    exact_mod_cast this
  have q := k.cf_div (by omega : 0 ≤ fp) hfp (by omega : 0 < a * a / D) (by omega)
  have t := k.cf_twice a0 (by omega)
  have s := k.cf_add q0 (by omega : 0 ≤ a * 2) qa
  have x' := k.cf_third (x := fp * D / (a * a / D) + a * 2) (by omega) qa
  rw [cbrtLoop_unf, e2, Res.bind_ok, hw, Res.bind_ok, he, Res.bind_ok, hd, Res.bind_ok]
  by_cases hp : p ≤ d
  · rw [if_pos hp, if_pos (by rw [ge_iff]; exact hp)]
    cases n with
    | zero => rfl
    | succ n =>
      dsimp only
      rw [Res.bind_ok, q, Res.bind_ok, t, Res.bind_ok, s, Res.bind_ok, x', Res.bind_ok]
      unfold gStep; rw [mul_comm a 2]
  · rw [if_neg hp, if_neg (by rw [ge_iff]; exact hp)]
    rfl

/-- The whole loop: the third possibility is that the test stopped it. -/
theorem mid_loop {F : FxTy} {D H T fp p : Int} (k : CF F D H) (c : CA D T) (h1 : 1 ≤ fp) (hfp : fp < H)
    {r M : ℝ} (r0 : 0 ≤ r) (hr : r ^ 3 = fp * D ^ 2) (hM : r + T ≤ M) (hM2 : M * M < H * D) (hM3 : 3 * M < H)
    (ht : ∀ a : Int, 0 ≤ a → (a : ℝ) ≤ M → ∃ w e d, mul F (a * a / D) a = .ok w ∧ sub F fp w = .ok e ∧ abs F e = .ok d ∧
      (d < p → |fp - a * a / D * a / D| < p)) :
    ∀ (n : Nat) (a : Int), 0 ≤ a → fp * D ^ 2 ≤ (a + 1) ^ 3 → (a : ℝ) ≤ M →
    ∃ z, cbrtLoop F fp p n a = .ok z ∧ 0 ≤ z ∧ (z : ℝ) ≤ M ∧ fp * D ^ 2 ≤ (z + 1) ^ 3 ∧
      ((z : ℝ) ≤ r + T ∨ (z : ℝ) - r ≤ (2 / 3) ^ n * (a - r) ∨ |fp - z * z / D * z / D| < p) := by
  intro n
  have T0 : (1 : ℝ) ≤ T := by exact_mod_cast c.t1
  induction n with
  | zero =>
    intro a a0 root ha
    obtain ⟨w, e, d, hw, he, hd, -⟩ := ht a a0 ha
    rw [mid_pass k c h1 hfp a0 root r0 hr hM hM2 hM3 ha hw he hd]
    refine ⟨a, ?_, a0, ha, root, Or.inr (Or.inl (by norm_num))⟩
    split <;> rfl
  | succ n ih =>
    intro a a0 root ha
    obtain ⟨w, e, d, hw, he, hd, hx⟩ := ht a a0 ha
    rw [mid_pass k c h1 hfp a0 root r0 hr hM hM2 hM3 ha hw he hd]
    by_cases hp : p ≤ d
    swap
    · rw [if_neg hp]
      exact ⟨a, rfl, a0, ha, root, Or.inr (Or.inr (hx (by omega)))⟩
    rw [if_pos hp]
    obtain ⟨-, q0, root', hq⟩ := coarse_step c h1 a0 root r0 hr
    have hg : (gStep D fp a : ℝ) * 3 ≤ ((fp * D / (a * a / D) : Int) : ℝ) + 2 * a := by
      have := Int.ediv_mul_le (fp * D / (a * a / D) + 2 * a) (by norm_num : (3 : Int) ≠ 0)
      unfold gStep; exact_mod_cast this
    have g0 : 0 ≤ gStep D fp a := by unfold gStep; omega
    have p0 : (0 : ℝ) ≤ (2 / 3) ^ n := by positivity
    have p1 : ((2 / 3 : ℝ)) ^ n ≤ 1 := pow_le_one₀ (by norm_num) (by norm_num)
    rcases hq with ⟨hc, hq⟩ | ⟨hc, hq⟩
    · obtain ⟨z, z1, z2, z3, z4, z5⟩ := ih _ g0 root' (by linarith)
      refine ⟨z, z1, z2, z3, z4, z5.imp_right fun h => h.imp_left fun h => ?_⟩
      have : (2 / 3 : ℝ) ^ n * ((gStep D fp a : ℝ) - r) ≤ (2 / 3) ^ n * (2 / 3 * (a - r)) := mul_le_mul_of_nonneg_left (by linarith) p0
      rw [pow_succ]; linarith
    · obtain ⟨z, z1, z2, z3, z4, z5⟩ := ih _ g0 root' (by linarith)
      refine ⟨z, z1, z2, z3, z4, ?_⟩
      rcases z5 with h | h | h
      · exact Or.inl h
      · left
        have e1 : (2 / 3 : ℝ) ^ n * ((gStep D fp a : ℝ) - r) ≤ (2 / 3) ^ n * T := mul_le_mul_of_nonneg_left (by linarith) p0
        have e2 : (2 / 3 : ℝ) ^ n * T ≤ 1 * T := mul_le_mul_of_nonneg_right p1 (by linarith)
        linarith
      · exact Or.inr (Or.inr h)

/-- From the cube of the start value being in range. -/
theorem mid_room {D H x : Int} (d0 : 0 < D) (room : 8 * D ≤ H) (x0 : 0 ≤ x) (g : (x + 2 * D) ^ 3 < 27 * (H * D ^ 2)) :
    x + 2 * D < H ∧ (x + 2 * D) ^ 2 < 9 * (H * D) := by
  have hD2 : 0 < D ^ 2 := by positivity
  constructor
  · by_contra hcc
    have e1 : H ^ 3 ≤ (x + 2 * D) ^ 3 := pow_le_pow_left₀ (by omega) (by omega) 3
    have e2 : (8 * D) ^ 2 ≤ H ^ 2 := pow_le_pow_left₀ (by omega) room 2
    have e3 : (8 * D) ^ 2 * H ≤ H ^ 2 * H := mul_le_mul_of_nonneg_right e2 (by omega)
    have e4 : 0 < H * D ^ 2 := mul_pos (by omega) hD2
    nlinarith
  · by_cases hcc : x + 2 * D ≤ 6 * D
    · have : (x + 2 * D) ^ 2 ≤ (6 * D) ^ 2 := pow_le_pow_left₀ (by omega) hcc 2
      have : 8 * D * D ≤ H * D := mul_le_mul_of_nonneg_right room d0.le
      nlinarith
    · push Not at hcc
      have h4 : (x + 2 * D) ^ 2 * (3 * D) ≤ (x + 2 * D) ^ 2 * (x + 2 * D) := mul_le_mul_of_nonneg_left (by omega) (by positivity)
      have h5 : (x + 2 * D) ^ 2 * 3 * D < 27 * (H * D) * D := by nlinarith
      have := lt_of_mul_lt_mul_right h5 d0.le
      omega

/-- The square and the cube of an iterate are in range. -/
theorem mid_cube {D H x a : Int} (d0 : 0 < D) (room : 8 * D ≤ H) (a0 : 0 ≤ a) (g : (x + 2 * D) ^ 3 < 27 * (H * D ^ 2)) (g2 : (x + 2 * D) ^ 2 < 9 * (H * D))
    (g1 : x + 2 * D < H) (ha : a < 2 * D ∨ 3 * a ≤ x + 2 * D) :
    a < H ∧ 0 ≤ a * a / D ∧ a * a / D < H ∧ 0 ≤ a * a / D * a / D ∧ a * a / D * a / D < H := by
  have hD2 : 0 < D ^ 2 := by positivity
  have a3 : a ^ 3 < H * D ^ 2 := by
    rcases ha with h | h
    · have e1 := pow_lt_pow_left₀ h a0 (n := 3) (by norm_num)
      have e2 : 8 * D * D ^ 2 ≤ H * D ^ 2 := mul_le_mul_of_nonneg_right room hD2.le
      nlinarith
    · have := pow_le_pow_left₀ (by omega) h 3
      rw [mul_pow] at this
      omega
  have y0 : 0 ≤ a * a / D := Int.ediv_nonneg (mul_nonneg a0 a0) d0.le
  have d1 := Int.ediv_mul_le (a * a) d0.ne'
  have a2 : a * a < H * D := by
    rcases ha with h | h
    · have e1 : a * a ≤ 2 * D * (2 * D) := mul_le_mul h.le h.le a0 (by omega)
      have e2 : 8 * D * D ≤ H * D := mul_le_mul_of_nonneg_right room d0.le
      nlinarith
    · have e1 : (3 * a) ^ 2 ≤ (x + 2 * D) ^ 2 := pow_le_pow_left₀ (by omega) h 2
      nlinarith
  have y2 : a * a / D < H := Int.ediv_lt_of_lt_mul d0 a2
  refine ⟨by omega, y0, y2, Int.ediv_nonneg (mul_nonneg y0 a0) d0.le, ?_⟩
  apply Int.ediv_lt_of_lt_mul d0
  have e1 : a * a / D * D * a ≤ a * a * a := mul_le_mul_of_nonneg_right d1 a0
  have e2 : a * a / D * a * D < H * D * D := by nlinarith
  exact lt_of_mul_lt_mul_right e2 d0.le

/-- The function on raw values; `p` is the bound of the stopping test, twice `epsilon()`. -/
theorem mid_core {F : FxTy} {D H T x : Int} (k : CF F D H) (h14 : 14 ≤ F.f) (c : CA D T) (h1 : 2 ^ (F.f - 14) ≤ x) (hx : x + 2 * D < H)
    (h2 : (x + 2 * D) ^ 2 < 9 * (H * D))
    (ht : ∀ a : Int, 0 ≤ a → a < 2 * D ∨ 3 * a ≤ x + 2 * D → ∃ w e d, mul F (a * a / D) a = .ok w ∧ sub F x w = .ok e ∧ abs F e = .ok d ∧
      (d < 2 ^ (F.f - 14) * 2 → |x - a * a / D * a / D| < 2 ^ (F.f - 14) * 2)) :
    ∃ z, cbrt F x = .ok z ∧ 0 ≤ z ∧ x * D ^ 2 ≤ (z + 1) ^ 3 ∧ ((z - T) ^ 3 ≤ x * D ^ 2 ∨ |x - z * z / D * z / D| < 2 ^ (F.f - 14) * 2) := by
  obtain ⟨E, hE⟩ : ∃ E : Int, (2 : Int) ^ (F.f - 14) = E := ⟨_, rfl⟩
  have E1 : 1 ≤ E := by rw [← hE]; exact one_le_pow₀ (by norm_num)
  have ED : E ≤ D := by rw [← hE, ← k.d]; exact pow_le_pow_right₀ (by norm_num) (by omega)
  rw [hE] at h1 ht ⊢
  have d0 := k.dpos
  have room := k.room
  have x0r : (0 : ℝ) ≤ x := by exact_mod_cast (by omega : 0 ≤ x)
  obtain ⟨r, r0, hr⟩ := exists_root ((x : ℝ) * (D : ℝ) ^ 2) (by positivity)
  obtain ⟨M, hMd⟩ : ∃ M : ℝ, M = Max.max (1.99 * (D : ℝ)) ((x + 2 * D) / 3) := ⟨_, rfl⟩
  have hD' : (0 : ℝ) < D := by exact_mod_cast d0
  have room' : 8 * (D : ℝ) ≤ H := by exact_mod_cast room
  have hx' : (x : ℝ) + 2 * D < H := by exact_mod_cast hx
  have h2' : ((x : ℝ) + 2 * D) ^ 2 < 9 * (H * D) := by exact_mod_cast h2
  have hM : r + T ≤ M := by
    rw [hMd]
    rcases coarse_room c hr with h | h
    · exact h.trans (le_max_left _ _)
    · exact h.trans (le_max_right _ _)
  have hMc : M = 1.99 * (D : ℝ) ∨ M = (x + 2 * D) / 3 := by rw [hMd]; exact max_choice _ _
  have hM2 : M * M < H * D := by
    rcases hMc with h | h <;> rw [h]
    · have : 8 * (D : ℝ) * D ≤ H * D := mul_le_mul_of_nonneg_right room' hD'.le
      have : 0 < (D : ℝ) * D := by positivity
      linarith
    · linarith [show (x + 2 * (D : ℝ)) / 3 * ((x + 2 * D) / 3) = (x + 2 * D) ^ 2 / 9 by ring]
  have hM3 : 3 * M < H := by
    rcases hMc with h | h <;> rw [h] <;> linarith
  have start : ((((x + 2 * D) / 3 : Int)) : ℝ) ≤ M := by
    have h3 := Int.ediv_mul_le (x + 2 * D) (by norm_num : (3 : Int) ≠ 0)
    have h4 : ((((x + 2 * D) / 3 : Int)) : ℝ) * 3 ≤ x + 2 * D := by exact_mod_cast h3
    have h5 : ((x : ℝ) + 2 * D) / 3 ≤ M := by rw [hMd]; exact le_max_right _ _
    linarith
  have root : x * D ^ 2 ≤ ((x + 2 * D) / 3 + 1) ^ 3 := by
    have e := amgm (t := x) (a := D) (by omega) (by omega)
    have e2 : (x + 2 * D) ^ 3 ≤ (3 * ((x + 2 * D) / 3 + 1)) ^ 3 := pow_le_pow_left₀ (by omega) (by omega) 3
    rw [mul_pow] at e2
    have e3 : x * D * D = x * D ^ 2 := by ring
    rw [e3] at e
    norm_num at e2
    omega
  obtain ⟨z, z1, z2, -, z4, z5⟩ := mid_loop k c (by omega) (by omega) r0 hr hM hM2 hM3 (fun a a0 ha => by
    refine ht a a0 ?_
    rcases hMc with h | h <;> rw [h] at ha
    · left
      have : (a : ℝ) < 2 * D := by linarith
      exact_mod_cast this
    · right
      have : 3 * (a : ℝ) ≤ x + 2 * D := by linarith
      exact_mod_cast this) 201 _ (by omega) root start
  have T0 : (1 : ℝ) ≤ T := by exact_mod_cast c.t1
  have zr : (z : ℝ) ≤ r + T ∨ |x - z * z / D * z / D| < E * 2 := by
    rcases z5 with h | h | h
    · exact Or.inl h
    · left
      have hH : H ≤ 2 ^ 64 := by
        have e1 := k.hi
        have e2 : F.T.hi ≤ 2 ^ 64 - 1 := by
          have hb : F.T.bits ≤ 64 := by have := k.v.1; omega
          unfold IntTy.hi
          split
          · have : (2 : Int) ^ (F.T.bits - 1) ≤ 2 ^ 64 := pow_le_pow_right₀ (by norm_num) (by omega)
            omega
          · have : (2 : Int) ^ F.T.bits ≤ 2 ^ 64 := pow_le_pow_right₀ (by norm_num) hb
            omega
        omega
      have hH' : (H : ℝ) ≤ 2 ^ 64 := by exact_mod_cast hH
      have e3 : (2 / 3 : ℝ) ^ 201 * ((((x + 2 * D) / 3 : Int) : ℝ) - r) ≤ (2 / 3 : ℝ) ^ 201 * 2 ^ 64 :=
        mul_le_mul_of_nonneg_left (by linarith) (by positivity)
      have e4 : (2 / 3 : ℝ) ^ 201 * 2 ^ 64 ≤ 1 := by norm_num
      linarith
    · exact Or.inr h
  refine ⟨z, ?_, z2, z4, zr.imp_left fun zr => ?_⟩
  · have hm : mulInt F i32 E 2 = .ok (E * 2) := k.cf_twice (by omega) (by omega)
    have heps := cf_eps_mid k h14
    rw [hE] at heps
    unfold cbrt
    rw [k.cf_abs (by omega) (by omega), Res.bind_ok, heps, Res.bind_ok, if_neg (by rw [lt_iff]; omega), k.cf_start (by omega) hx, Res.bind_ok,
      k.cf_third (by omega) hx, Res.bind_ok, hm, Res.bind_ok, z1]
  · have e : ((z : ℝ) - T) ^ 3 ≤ r ^ 3 := (Odd.strictMono_pow (by decide : Odd 3)).monotone (by linarith)
    rw [hr] at e
    exact_mod_cast e

/-- The stopping test in values. -/
theorem mid_vals {F : FxTy} {D x z E : Int} (hD : (2 : Int) ^ F.f = D) (hE : E * 16384 = D) (z0 : 0 ≤ z) (h : |x - z * z / D * z / D| < E * 2) :
    |val F x - val F z ^ 3| ≤ 8 / 65536 + val F z * ulp F := by
  have d0 : 0 < D := by rw [← hD]; positivity
  have hDq : (0 : ℚ) < D := by exact_mod_cast d0
  have vv := val_real F
  have uu := ulp_real F
  rw [hD] at uu
  simp only [hD] at vv
  have d1 := Int.ediv_mul_le (z * z) d0.ne'
  have d2 := Int.lt_ediv_add_one_mul_self (z * z) d0
  have y0 : 0 ≤ z * z / D := Int.ediv_nonneg (mul_nonneg z0 z0) d0.le
  generalize z * z / D = y at *
  have d3 := Int.ediv_mul_le (y * z) d0.ne'
  have d4 := Int.lt_ediv_add_one_mul_self (y * z) d0
  generalize y * z / D = w at *
  rw [abs_lt] at h
  -- `z³ / D² - z / D - 1 < w ≤ z³ / D²`
  have u1 : w * D * D ≤ z ^ 3 := by nlinarith
  have u2 : z ^ 3 ≤ (w + 1) * D * D + z * D := by nlinarith
  have u1' : (w : ℚ) * D * D ≤ z ^ 3 := by exact_mod_cast u1
  have u2' : (z : ℚ) ^ 3 ≤ (w + 1) * D * D + z * D := by exact_mod_cast u2
  have h1 : ((x : ℚ) - w) ≤ E * 2 - 1 := by exact_mod_cast (by omega : x - w ≤ E * 2 - 1)
  have h2 : -(E * 2 - 1 : ℚ) ≤ x - w := by exact_mod_cast (by omega : -(E * 2 - 1) ≤ x - w)
  have hEq : (E : ℚ) = D / 16384 := by
    rw [eq_div_iff (by norm_num)]; exact_mod_cast hE
  rw [vv, vv, uu, abs_le]
  have z0' : (0 : ℚ) ≤ z := by exact_mod_cast z0
  rw [hEq] at h1 h2
  have e1 : (z / D : ℚ) ^ 3 = z ^ 3 / D ^ 3 := div_pow _ _ _
  rw [e1]
  constructor
  · rw [neg_le_sub_iff_le_add, div_le_iff₀ (by positivity)]
    have : ((x : ℚ) / D + (8 / 65536 + z / D * (1 / D))) * D ^ 3 = (x + D / 8192) * D * D + z * D := by field_simp; ring
    rw [this]
    have : (w + 1 : ℚ) * D * D ≤ (x + D / 8192) * D * D := by
      apply mul_le_mul_of_nonneg_right _ hDq.le
      apply mul_le_mul_of_nonneg_right _ hDq.le
      linarith
    linarith
  · rw [sub_le_iff_le_add, ← sub_le_iff_le_add', le_div_iff₀ (by positivity)]
    have : ((x : ℚ) / D - (8 / 65536 + z / D * (1 / D))) * D ^ 3 = (x - D / 8192) * D * D - z * D := by field_simp; ring
    rw [this]
    have : (x - D / 8192 : ℚ) * D * D ≤ w * D * D := by
      apply mul_le_mul_of_nonneg_right _ hDq.le
      apply mul_le_mul_of_nonneg_right _ hDq.le
      linarith
    have : 0 ≤ (z : ℚ) * D := by positivity
    linarith

theorem ca_mid_table : ∀ f : Nat, 14 ≤ f → f ≤ 15 → ∃ T : Int, CA (2 ^ f) T ∧ ∀ t : Int, (2 : Int) ^ f ≤ (2 * t) ^ 3 → T ≤ t := by
  have least : ∀ (D T t : Int), 1 ≤ T → (2 * (T - 1)) ^ 3 < D → D ≤ (2 * t) ^ 3 → T ≤ t := by
    intro D T t t1 h h'
    by_contra hc
    have : (2 * t) ^ 3 ≤ (2 * (T - 1)) ^ 3 := (Odd.strictMono_pow (by decide : Odd 3)).monotone (by omega)
    omega
  intro f h1 h2
  interval_cases f
  · exact ⟨13, ca_mid.1, fun t => least _ _ t (by norm_num) (by norm_num)⟩
  · exact ⟨16, ca_mid.2, fun t => least _ _ t (by norm_num) (by norm_num)⟩

theorem unit_mid {F : FxTy} {D : Int} (hD : (2 : Int) ^ F.f = D) (h14 : 14 ≤ F.f) : (2 : Int) ^ (F.f - 14) * 16384 = D := by
  rw [← hD, show (16384 : Int) = 2 ^ 14 by norm_num, ← pow_add]
  congr 1
  omega

/-- The two conclusions together. -/
theorem mid_end {F : FxTy} {D T x z : Int} (hD : (2 : Int) ^ F.f = D) (h14 : 14 ≤ F.f) (z0 : 0 ≤ z) (z1 : x * D ^ 2 ≤ (z + 1) ^ 3)
    (z2 : (z - T) ^ 3 ≤ x * D ^ 2 ∨ |x - z * z / D * z / D| < 2 ^ (F.f - 14) * 2) (t : Nat) (ht : T ≤ t) :
    0 ≤ val F z ∧ val F x ≤ (val F z + ulp F) ^ 3 ∧ ((val F z - t * ulp F) ^ 3 ≤ val F x ∨ |val F x - val F z ^ 3| ≤ 8 / 65536 + val F z * ulp F) := by
  rcases z2 with h | h
  · obtain ⟨a, b, c⟩ := coarse_vals hD z0 z1 h t ht
    exact ⟨a, b, Or.inl c⟩
  · -- `coarse_vals` with a margin large enough to make its last hypothesis true
    have d0 : 0 < D := by rw [← hD]; positivity
    have x0 : (z - (z + x * D ^ 2 * x * D ^ 2 + 1)) ^ 3 ≤ x * D ^ 2 := by
      have e : z - (z + x * D ^ 2 * x * D ^ 2 + 1) = -((x * D ^ 2) ^ 2 + 1) := by ring
      rw [e]
      generalize x * D ^ 2 = v
      have h1 : -(v ^ 2 + 1) ≤ v := by nlinarith [sq_nonneg (v + 1), sq_nonneg v]
      have h2 : (v ^ 2 + 1) ≤ (v ^ 2 + 1) ^ 3 := by nlinarith [sq_nonneg v, sq_nonneg (v ^ 2), mul_nonneg (sq_nonneg v) (sq_nonneg (v ^ 2))]
      have h3 : (-(v ^ 2 + 1)) ^ 3 = -((v ^ 2 + 1) ^ 3) := by ring
      rw [h3]; linarith
    obtain ⟨a, b, -⟩ := coarse_vals hD z0 z1 x0 (z + x * D ^ 2 * x * D ^ 2 + 1).toNat (Int.self_le_toNat _)
    exact ⟨a, b, Or.inr (mid_vals hD (unit_mid hD h14) z0 h)⟩

theorem mid_start {F : FxTy} {D x : Int} (hD : (2 : Int) ^ F.f = D) (h14 : 14 ≤ F.f) (h0 : 4 / 65536 ≤ val F x) : 2 ^ (F.f - 14) ≤ x := by
  have hu := unit_mid hD h14
  have d0 : 0 < D := by rw [← hD]; positivity
  have hDq : (0 : ℚ) < D := by exact_mod_cast d0
  have vv := val_real F
  simp only [hD] at vv
  rw [vv, le_div_iff₀ hDq] at h0
  have hq : ((2 ^ (F.f - 14) : Int) : ℚ) * 16384 = D := by exact_mod_cast hu
  have : ((2 ^ (F.f - 14) : Int) : ℚ) ≤ x := by linarith
  exact_mod_cast this

/-- C183 (signed storage): for an argument of at least 4/65536 for which the cube of the start value `(x + 2) / 3` is in range, the result is at most one ulp below
the cube root, and it is at most `t` ulps above it (13 with 14 fraction bits, 16 with 15) unless the loop stopped early, with the cube within 8/65536 plus a
rounding error of the argument. -/
theorem C183_signed (F : FxTy) (hF : F.Valid) (hs : F.T.signed = true) (hr : F.r = false) (h14 : 14 ≤ F.f) (h15 : F.f ≤ 15) (h4 : F.f + 4 ≤ F.T.bits)
    (x : Int) (h0 : 4 / 65536 ≤ val F x) (hc : ((val F x + 2) / 3) ^ 3 < val F F.T.hi + ulp F) (t : Nat) (ht : 2 ^ F.f ≤ (2 * t) ^ 3) :
    ∃ r, cbrt F x = .ok r ∧ 0 ≤ val F r ∧ val F x ≤ (val F r + ulp F) ^ 3 ∧
      ((val F r - t * ulp F) ^ 3 ≤ val F x ∨ |val F x - val F r ^ 3| ≤ 8 / 65536 + val F r * ulp F) := by
  obtain ⟨D, hDF⟩ : ∃ D : Int, (2 : Int) ^ F.f = D := ⟨_, rfl⟩
  obtain ⟨H, hHF⟩ : ∃ H : Int, (2 : Int) ^ (F.T.bits - 1) = H := ⟨_, rfl⟩
  have hhi : F.T.hi = H - 1 := by unfold IntTy.hi; simp [hs, hHF]
  have hlo : F.T.lo = -H := by unfold IntTy.lo; simp [hs, hHF]
  have room : 8 * D ≤ H := by
    rw [← hDF, ← hHF, show (8 : Int) = 2 ^ 3 by norm_num, ← pow_add]
    exact pow_le_pow_right₀ (by norm_num) (by omega)
  have k : CF F D H := ⟨hF, hr, hDF, hhi, room, by omega, h15⟩
  have d0 := k.dpos
  have hDq : (0 : ℚ) < D := by exact_mod_cast d0
  obtain ⟨T, c, cl⟩ := ca_mid_table F.f h14 h15
  rw [hDF] at c cl
  have hT : T ≤ t := cl t (by rw [← hDF]; exact_mod_cast ht)
  have vv := val_real F
  have uu := ulp_real F
  rw [hDF] at uu
  simp only [hDF] at vv
  have xE := mid_start hDF h14 h0
  have x1 : 1 ≤ x := le_trans (one_le_pow₀ (by norm_num)) xE
  have g : (x + 2 * D) ^ 3 < 27 * (H * D ^ 2) := by
    rw [vv, vv, uu, hhi] at hc
    have e1 : ((x : ℚ) / D + 2) / 3 = (x + 2 * D) / (3 * D) := by field_simp
    have e2 : ((H - 1 : Int) : ℚ) / D + 1 / D = H / D := by push_cast; ring
    rw [e1, e2, div_pow, div_lt_div_iff₀ (by positivity) hDq] at hc
    have h1 : (((x : ℚ) + 2 * D) ^ 3) * D < (27 * (H * D ^ 2)) * D := by
      calc _ < _ := hc
        _ = _ := by ring
    have h2 := lt_of_mul_lt_mul_right h1 hDq.le
    exact_mod_cast h2
  have hD2 : 0 < D ^ 2 := by positivity
  obtain ⟨g1, g2⟩ := mid_room d0 room (by omega) g
  have sg : SG F := ⟨hF, hs, by unfold Storable; rw [hDF]; exact k.inr (by omega) (by omega)⟩
  obtain ⟨z, e, z0, z1, z2⟩ := mid_core k h14 c xE g1 g2 (by
    intro a a0 ha
    obtain ⟨a1, y0, y2, w0, w1⟩ := mid_cube d0 room a0 g g2 g1 ha
    have hsub := sg.sub_ok (x := x) (y := a * a / D * a / D) ⟨by omega, by omega⟩
    exact ⟨_, _, _, k.cf_mul y0 y2 a0 a1 w1, hsub, sg.abs_ok ⟨by omega, by omega⟩ (by omega), id⟩)
  exact ⟨z, e, mid_end hDF h14 z0 z1 z2 t hT⟩

example : cbrt ⟨i32, i64, 14, false⟩ (27 * 16384) = .ok (3 * 16384) ∧ (⟨i32, i64, 14, false⟩ : FxTy).Valid ∧ 2 ^ 14 ≤ (2 * 13) ^ 3 ∧ 2 ^ 15 ≤ (2 * 16) ^ 3 ∧
    ((val ⟨i32, i64, 14, false⟩ (27 * 16384) + 2) / 3) ^ 3 < val ⟨i32, i64, 14, false⟩ i32.hi + ulp ⟨i32, i64, 14, false⟩ := by
  refine ⟨by decide +kernel, by decide, by norm_num, by norm_num, ?_⟩
  norm_num [val, ulp, IntTy.hi, i32]

/-- C183 (unsigned storage), under the same condition. -/
theorem C183_unsigned (F : FxTy) (hF : F.Valid) (hs : F.T.signed = false) (hr : F.r = false) (h14 : 14 ≤ F.f) (h15 : F.f ≤ 15) (h4 : F.f + 4 ≤ F.T.bits)
    (x : Int) (h0 : 4 / 65536 ≤ val F x) (hc : ((val F x + 2) / 3) ^ 3 < val F F.T.hi + ulp F) (t : Nat) (ht : 2 ^ F.f ≤ (2 * t) ^ 3) :
    ∃ r, cbrt F x = .ok r ∧ 0 ≤ val F r ∧ val F x ≤ (val F r + ulp F) ^ 3 ∧
      ((val F r - t * ulp F) ^ 3 ≤ val F x ∨ |val F x - val F r ^ 3| ≤ 8 / 65536 + val F r * ulp F) := by
  obtain ⟨D, hDF⟩ : ∃ D : Int, (2 : Int) ^ F.f = D := ⟨_, rfl⟩
  obtain ⟨H, hHF⟩ : ∃ H : Int, (2 : Int) ^ F.T.bits = H := ⟨_, rfl⟩
  have hhi : F.T.hi = H - 1 := by unfold IntTy.hi; simp [hs, hHF]
  have hlo : F.T.lo = 0 := by unfold IntTy.lo; simp [hs]
  have room : 16 * D ≤ H := by
    rw [← hDF, ← hHF, show (16 : Int) = 2 ^ 4 by norm_num, ← pow_add]
    exact pow_le_pow_right₀ (by norm_num) (by omega)
  have d0 : 0 < D := by rw [← hDF]; positivity
  have k : CF F D H := ⟨hF, hr, hDF, hhi, by omega, by omega, h15⟩
  have hDq : (0 : ℚ) < D := by exact_mod_cast d0
  obtain ⟨T, c, cl⟩ := ca_mid_table F.f h14 h15
  rw [hDF] at c cl
  have hT : T ≤ t := cl t (by rw [← hDF]; exact_mod_cast ht)
  have vv := val_real F
  have uu := ulp_real F
  rw [hDF] at uu
  simp only [hDF] at vv
  have xE := mid_start hDF h14 h0
  have hu := unit_mid hDF h14
  have x1 : 1 ≤ x := le_trans (one_le_pow₀ (by norm_num)) xE
  have g : (x + 2 * D) ^ 3 < 27 * (H * D ^ 2) := by
    rw [vv, vv, uu, hhi] at hc
    have e1 : ((x : ℚ) / D + 2) / 3 = (x + 2 * D) / (3 * D) := by field_simp
    have e2 : ((H - 1 : Int) : ℚ) / D + 1 / D = H / D := by push_cast; ring
    rw [e1, e2, div_pow, div_lt_div_iff₀ (by positivity) hDq] at hc
    have h1 : (((x : ℚ) + 2 * D) ^ 3) * D < (27 * (H * D ^ 2)) * D := by
      calc _ < _ := hc
        _ = _ := by ring
    have h2 := lt_of_mul_lt_mul_right h1 hDq.le
    exact_mod_cast h2
  obtain ⟨g1, g2⟩ := mid_room d0 (by omega) (by omega) g
  have hns : ¬ SignedWide F := fun h => by have := h.1; rw [hs] at this; cases this
  obtain ⟨z, e, z0, z1, z2⟩ := mid_core k h14 c xE g1 g2 (by
    intro a a0 ha
    obtain ⟨a1, y0, y2, w0, w1⟩ := mid_cube d0 (by omega) a0 g g2 g1 ha
    have small : x < D → a * a / D * a / D ≤ 8 * D := by
      intro hx
      have a2 : a ≤ 2 * D := by omega
      have e1 : a * a / D ≤ 4 * D := by
        have := Int.ediv_le_ediv d0 (show a * a ≤ 4 * D * D by nlinarith)
        rwa [Int.mul_ediv_cancel _ d0.ne'] at this
      have := Int.ediv_le_ediv d0 (show a * a / D * a ≤ 8 * D * D by nlinarith)
      rwa [Int.mul_ediv_cancel _ d0.ne'] at this
    have hmul := k.cf_mul y0 y2 a0 a1 w1
    generalize a * a / D * a / D = w at *
    have hsub := sub_nf hF (x := x) (y := w) (k.inr (by omega) (by omega)) (k.inr w0 w1)
    rw [if_neg (fun h => hns h.1)] at hsub
    have wr := IntTy.wrap_inRange (t := F.T) (x - w) hF.tpos
    have d2 := wr.1
    have d3 := wr.2
    refine ⟨_, _, _, hmul, hsub, k.cf_abs (by omega) (by omega), ?_⟩
    generalize (2 : Int) ^ (F.f - 14) = E at *
    by_cases hxw : w ≤ x
    · rw [IntTy.wrap_of_inRange hF.tpos (k.inr (by omega) (by omega)), abs_of_nonneg (by omega)]
      exact id
    · have : F.T.wrap (x - w) = x - w + H := by
        have e1 : F.T.wrap (x - w) = F.T.wrap (x - w + H) := by
          have hn : ((2 ^ F.T.bits : Nat) : Int) = H := by push_cast; exact hHF
          unfold IntTy.wrap
          rw [hs, if_neg (by decide), if_neg (by decide), hn, Int.add_emod_right]
        rw [e1, IntTy.wrap_of_inRange hF.tpos (k.inr (by omega) (by omega))]
      rw [this]
      intro hlt
      exfalso
      by_cases hx : x < D
      · have := small hx; omega
      · omega)
  exact ⟨z, e, mid_end hDF h14 z0 z1 z2 t hT⟩

example : cbrt ⟨u32, u64, 15, false⟩ (8 * 32768) = .ok (2 * 32768) ∧ (⟨u32, u64, 15, false⟩ : FxTy).Valid ∧
    ((val ⟨u32, u64, 15, false⟩ (8 * 32768) + 2) / 3) ^ 3 < val ⟨u32, u64, 15, false⟩ u32.hi + ulp ⟨u32, u64, 15, false⟩ := by
  refine ⟨by decide +kernel, by decide, ?_⟩
  norm_num [val, ulp, IntTy.hi, u32]

/-- C183: below 4/65536 (zero, and one ulp with 15 fraction bits) the result is zero. -/
theorem C183_zero (F : FxTy) (hF : F.Valid) (hr : F.r = false) (h14 : 14 ≤ F.f) (h15 : F.f ≤ 15) (h4 : F.f + 4 ≤ F.T.bits) (x : Int)
    (h0 : 0 ≤ val F x) (h1 : val F x < 4 / 65536) : cbrt F x = .ok 0 := by
  obtain ⟨D, hDF⟩ : ∃ D : Int, (2 : Int) ^ F.f = D := ⟨_, rfl⟩
  have room : 8 * D ≤ F.T.hi + 1 := by
    rw [← hDF, show (8 : Int) = 2 ^ 3 by norm_num, ← pow_add]
    have h5 : (2 : Int) ^ (3 + F.f) ≤ 2 ^ (F.T.bits - 1) := pow_le_pow_right₀ (by norm_num) (by omega)
    have h6 : (2 : Int) ^ (F.T.bits - 1) ≤ 2 ^ F.T.bits := pow_le_pow_right₀ (by norm_num) (by omega)
    unfold IntTy.hi
    split <;> omega
  have k : CF F D (F.T.hi + 1) := ⟨hF, hr, hDF, by omega, room, by omega, h15⟩
  have d0 := k.dpos
  have hu := unit_mid hDF h14
  have hDq : (0 : ℚ) < D := by exact_mod_cast d0
  have vv := val_real F
  simp only [hDF] at vv
  rw [vv] at h0 h1
  have x0 : 0 ≤ x := by
    rw [le_div_iff₀ hDq, zero_mul] at h0; exact_mod_cast h0
  have x1 : x < 2 ^ (F.f - 14) := by
    rw [div_lt_iff₀ hDq] at h1
    have hq : ((2 ^ (F.f - 14) : Int) : ℚ) * 16384 = D := by exact_mod_cast hu
    have : (x : ℚ) < ((2 ^ (F.f - 14) : Int) : ℚ) := by linarith
    exact_mod_cast this
  unfold cbrt
  rw [k.cf_abs x0 (by omega), Res.bind_ok, cf_eps_mid k h14, Res.bind_ok, if_pos (by rw [lt_iff]; exact x1), ofInt_zero']
  rfl

example : cbrt ⟨i64, i128, 15, false⟩ 1 = .ok 0 ∧ cbrt ⟨u32, u64, 14, false⟩ 0 = .ok 0 ∧ val ⟨i64, i128, 15, false⟩ 1 < 4 / 65536 := by
  refine ⟨by decide +kernel, by decide +kernel, by norm_num [val]⟩

/-! ### Negative arguments -/

/-- One pass for a negative argument, with the stopping test. -/
theorem mid_pass_neg {F : FxTy} {D H m b p : Int} (k : CF F D H) (sg : SG F) (h1 : 1 ≤ m) (hm : m < H) (b0 : 0 ≤ b) (y1 : 1 ≤ b * b / D)
    (b3 : b ^ 3 < H * D ^ 2) (b2 : b * b < H * D) (qa : m * D / (b * b / D) + 2 * b < H) (n : Nat) :
    cbrtLoop F (-m) p n (-b) = if p ≤ |(-m) - b * b / D * -b / D| then (match n with
      | 0 => .ok (-b)
      | n + 1 => cbrtLoop F (-m) p n (-(gStep D m b))) else .ok (-b) := by
  have d0 := k.dpos
  have hlo : F.T.lo = -H := by have := sg.lo_hi; have := k.hi; omega
  have hhi := k.hi
  have inr : ∀ z : Int, -H ≤ z → z < H → F.T.InRange z := fun z a b => ⟨by omega, by omega⟩
  have q0 : 0 ≤ m * D / (b * b / D) := Int.ediv_nonneg (mul_nonneg (by omega) d0.le) (by omega)
  have y2 : b * b / D < H := Int.ediv_lt_of_lt_mul d0 b2
  have d1 := Int.ediv_mul_le (b * b) d0.ne'
  have e2 : mul F (-b) (-b) = .ok (b * b / D) := by
    have := sg.mul_ok k.r (inr (-b) (by omega) (by omega)) (inr (-b) (by omega) (by omega)) (by rw [neg_mul_neg, k.d]; exact inr _ (by omega) y2)
    rwa [neg_mul_neg, k.d] at this
  have w1 : b * b / D * b < H * D := by
    have e1 : b * b / D * D * b ≤ b * b * b := mul_le_mul_of_nonneg_right d1 b0
    have e2 : b * b / D * b * D < H * D * D := by nlinarith
    exact lt_of_mul_lt_mul_right e2 d0.le
  have v1 : -H ≤ b * b / D * -b / D := by
    rw [Int.le_ediv_iff_mul_le d0]; nlinarith
  have v2 : b * b / D * -b / D ≤ 0 := by
    have : 0 ≤ b * b / D * b := mul_nonneg (by omega) b0
    have := Int.ediv_le_ediv d0 (show b * b / D * -b ≤ 0 by rw [mul_neg]; omega)
    simpa using this
  have e3 : mul F (b * b / D) (-b) = .ok (b * b / D * -b / D) := by
    have := sg.mul_ok k.r (inr (b * b / D) (by omega) y2) (inr (-b) (by omega) (by omega)) (by rw [k.d]; exact inr _ v1 (by omega))
    rwa [k.d] at this
  have qd : div F (-m) (b * b / D) = .ok (-(m * D / (b * b / D))) := by
    have e : Int.tdiv (-m * 2 ^ F.f) (b * b / D) = -(m * D / (b * b / D)) := by
      rw [k.d, neg_mul, tdiv_neg_of_nonneg (mul_nonneg (by omega) d0.le)]
    rw [sg.div_ok k.r (inr (-m) (by omega) (by omega)) (by omega) (by rw [e]; exact inr _ (by omega) (by omega)), e]
  generalize b * b / D * -b / D = w at *
  have e4 := sg.sub_ok (x := -m) (y := w) (inr _ (by omega) (by omega))
  have e5 := sg.abs_ok (x := -m - w) (inr _ (by omega) (by omega)) (by omega)
  rw [cbrtLoop_unf, e2, Res.bind_ok, e3, Res.bind_ok, e4, Res.bind_ok, e5, Res.bind_ok]
  by_cases hp : p ≤ |(-m) - w|
  swap
  · rw [if_neg hp, if_neg (by rw [ge_iff]; exact hp)]
    rfl
  rw [if_pos hp, if_pos (by rw [ge_iff]; exact hp)]
  cases n with
  | zero => rfl
  | succ n =>
    have t := cf_twice' k.v (x := -b) (inr _ (by omega) (by omega)) (inr _ (by omega) (by omega))
    have s := sg.add_ok (x := -(m * D / (b * b / D))) (y := -b * 2) (inr _ (by omega) (by omega))
    have e6 : Int.tdiv (-(m * D / (b * b / D)) + -b * 2) 3 = -(gStep D m b) := by
      rw [show -(m * D / (b * b / D)) + -b * 2 = -(m * D / (b * b / D) + 2 * b) by ring, tdiv_neg_of_nonneg (by omega)]; rfl
    have g0 : 0 ≤ gStep D m b ∧ gStep D m b < H := by unfold gStep; omega
    have x' := cf_third' k.v (x := -(m * D / (b * b / D)) + -b * 2) (inr _ (by omega) (by omega)) (by rw [e6]; exact inr _ (by omega) (by omega))
    rw [e6] at x'
    dsimp only
    rw [Res.bind_ok, qd, Res.bind_ok, t, Res.bind_ok, s, Res.bind_ok, x', Res.bind_ok]

/-- The loop for a negative argument, from a value not below the root. -/
theorem mid_loop_neg {F : FxTy} {D H T m p : Int} (k : CF F D H) (sg : SG F) (c : CA D T) (h1 : 1 ≤ m) (hm : m < H)
    {r M : ℝ} (r0 : 0 ≤ r) (hr : r ^ 3 = m * D ^ 2) (hM : r + T ≤ M) (hMc : M ^ 3 < H * D ^ 2) (hM2 : M * M < H * D) (hM3 : 3 * M < H) :
    ∀ (n : Nat) (b : Int), 0 ≤ b → m * D ^ 2 ≤ (b + 1) ^ 3 → (b : ℝ) ≤ M →
    ∃ z, cbrtLoop F (-m) p n (-b) = .ok (-z) ∧ 0 ≤ z ∧ m * D ^ 2 ≤ (z + 1) ^ 3 ∧
      ((z : ℝ) ≤ r + T ∨ (z : ℝ) - r ≤ (2 / 3) ^ n * (b - r) ∨ |(-m) - z * z / D * -z / D| < p) := by
  have T0 : (1 : ℝ) ≤ T := by exact_mod_cast c.t1
  have pass : ∀ (n : Nat) (b : Int), 0 ≤ b → m * D ^ 2 ≤ (b + 1) ^ 3 → (b : ℝ) ≤ M → cbrtLoop F (-m) p n (-b) =
      if p ≤ |(-m) - b * b / D * -b / D| then (match n with
      | 0 => .ok (-b)
      | n + 1 => cbrtLoop F (-m) p n (-(gStep D m b))) else .ok (-b) := by
    intro n b b0 root hb
    obtain ⟨y1, -, -, hq⟩ := coarse_step c h1 b0 root r0 hr
    have b0' : (0 : ℝ) ≤ b := by exact_mod_cast b0
    refine mid_pass_neg k sg h1 hm b0 y1 ?_ ?_ ?_ n
    · have : (b : ℝ) ^ 3 < H * D ^ 2 := lt_of_le_of_lt (pow_le_pow_left₀ b0' hb 3) hMc
      exact_mod_cast this
    · have : (b : ℝ) * b < H * D := lt_of_le_of_lt (mul_le_mul hb hb b0' (by linarith)) hM2
      exact_mod_cast this
    · have : ((m * D / (b * b / D) : Int) : ℝ) + 2 * b < H := by
        rcases hq with ⟨_, h⟩ | ⟨_, h⟩ <;> linarith
      exact_mod_cast this
  intro n
  induction n with
  | zero =>
    intro b b0 root hb
    rw [pass 0 b b0 root hb]
    refine ⟨b, ?_, b0, root, Or.inr (Or.inl (by norm_num))⟩
    split <;> rfl
  | succ n ih =>
    intro a a0 root ha
    rw [pass (n + 1) a a0 root ha]
    by_cases hp : p ≤ |(-m) - a * a / D * -a / D|
    swap
    · rw [if_neg hp]
      exact ⟨a, rfl, a0, root, Or.inr (Or.inr (by omega))⟩
    rw [if_pos hp]
    obtain ⟨-, q0, root', hq⟩ := coarse_step c h1 a0 root r0 hr
    have hg : (gStep D m a : ℝ) * 3 ≤ ((m * D / (a * a / D) : Int) : ℝ) + 2 * a := by
      have := Int.ediv_mul_le (m * D / (a * a / D) + 2 * a) (by norm_num : (3 : Int) ≠ 0)
      unfold gStep; exact_mod_cast this
    have g0 : 0 ≤ gStep D m a := by unfold gStep; omega
    have p0 : (0 : ℝ) ≤ (2 / 3) ^ n := by positivity
    have p1 : ((2 / 3 : ℝ)) ^ n ≤ 1 := pow_le_one₀ (by norm_num) (by norm_num)
    rcases hq with ⟨hc, hq⟩ | ⟨hc, hq⟩
    · obtain ⟨z, z1, z2, z4, z5⟩ := ih _ g0 root' (by linarith)
      refine ⟨z, z1, z2, z4, z5.imp_right fun h => h.imp_left fun h => ?_⟩
      have : (2 / 3 : ℝ) ^ n * ((gStep D m a : ℝ) - r) ≤ (2 / 3) ^ n * (2 / 3 * (a - r)) := mul_le_mul_of_nonneg_left (by linarith) p0
      rw [pow_succ]; linarith
    · obtain ⟨z, z1, z2, z4, z5⟩ := ih _ g0 root' (by linarith)
      refine ⟨z, z1, z2, z4, ?_⟩
      rcases z5 with h | h | h
      · exact Or.inl h
      · left
        have e1 : (2 / 3 : ℝ) ^ n * ((gStep D m a : ℝ) - r) ≤ (2 / 3) ^ n * T := mul_le_mul_of_nonneg_left (by linarith) p0
        have e2 : (2 / 3 : ℝ) ^ n * T ≤ 1 * T := mul_le_mul_of_nonneg_right p1 (by linarith)
        linarith
      · exact Or.inr (Or.inr h)

/-- What the stopping test says for a negative argument: `z³ / D² - z / D < v ≤ z³ / D² + 1` for the rounded cube `v`. -/
theorem mid_exit_neg {D m z q : Int} (d0 : 0 < D) (z0 : 0 ≤ z) (h : |(-m) - z * z / D * -z / D| < q) :
    m * D ^ 2 ≤ z ^ 3 + q * D ^ 2 ∧ z ^ 3 ≤ m * D ^ 2 + q * D ^ 2 + z * D := by
  have d1 := Int.ediv_mul_le (z * z) d0.ne'
  have d2 := Int.lt_ediv_add_one_mul_self (z * z) d0
  have y0 : 0 ≤ z * z / D := Int.ediv_nonneg (mul_nonneg z0 z0) d0.le
  generalize z * z / D = y at *
  have d3 := Int.ediv_mul_le (y * -z) d0.ne'
  have d4 := Int.lt_ediv_add_one_mul_self (y * -z) d0
  generalize y * -z / D = w at *
  rw [abs_lt] at h
  have u1 : y * D * z ≤ z * z * z := mul_le_mul_of_nonneg_right d1 z0
  have u2 : z * z * z ≤ (y + 1) * D * z := mul_le_mul_of_nonneg_right d2.le z0
  have u3 := mul_le_mul_of_nonneg_right d3 d0.le
  have u4 := mul_le_mul_of_nonneg_right d4.le d0.le
  have hD2 : 0 < D ^ 2 := by positivity
  have v1 : (m + w) * D ^ 2 ≤ (q - 1) * D ^ 2 := mul_le_mul_of_nonneg_right (by omega) hD2.le
  have v2 : -((q - 1) * D ^ 2) ≤ (m + w) * D ^ 2 := by
    have := mul_le_mul_of_nonneg_right (show -(q - 1) ≤ m + w by omega) hD2.le
    linarith
  constructor <;> nlinarith

theorem mid_vals_neg {F : FxTy} {D m z E : Int} (hD : (2 : Int) ^ F.f = D) (hE : E * 16384 = D)
    (h1 : m * D ^ 2 ≤ z ^ 3 + E * 2 * D ^ 2) (h2 : z ^ 3 ≤ m * D ^ 2 + E * 2 * D ^ 2 + z * D) (z0 : 0 ≤ z) :
    |val F m - val F z ^ 3| ≤ 8 / 65536 + val F z * ulp F := by
  have d0 : 0 < D := by rw [← hD]; positivity
  have hDq : (0 : ℚ) < D := by exact_mod_cast d0
  have vv := val_real F
  have uu := ulp_real F
  rw [hD] at uu
  simp only [hD] at vv
  have h1' : (m : ℚ) * D ^ 2 ≤ z ^ 3 + E * 2 * D ^ 2 := by exact_mod_cast h1
  have h2' : (z : ℚ) ^ 3 ≤ m * D ^ 2 + E * 2 * D ^ 2 + z * D := by exact_mod_cast h2
  have hEq : (E : ℚ) = D / 16384 := by
    rw [eq_div_iff (by norm_num)]; exact_mod_cast hE
  have z0' : (0 : ℚ) ≤ z := by exact_mod_cast z0
  rw [hEq] at h1' h2'
  rw [vv, vv, uu, abs_le, div_pow]
  have zD : 0 ≤ (z : ℚ) * D := by positivity
  constructor
  · rw [neg_le_sub_iff_le_add, div_le_iff₀ (by positivity)]
    have : ((m : ℚ) / D + (8 / 65536 + z / D * (1 / D))) * D ^ 3 = m * D ^ 2 + D / 16384 * 2 * D ^ 2 + z * D := by field_simp; ring
    rw [this]
    exact h2'
  · rw [sub_le_iff_le_add, ← sub_le_iff_le_add', le_div_iff₀ (by positivity)]
    have : ((m : ℚ) / D - (8 / 65536 + z / D * (1 / D))) * D ^ 3 = m * D ^ 2 - D / 16384 * 2 * D ^ 2 - z * D := by field_simp; ring
    rw [this]
    linarith

/-- If the start value already passes the test, it is not below the root. -/
theorem mid_first {D m b E : Int} (dd : 16384 ≤ D) (b0 : 0 ≤ b) (E2 : E ≤ 2) (hb : 3 * b + 2 * D ≤ m) (h : m * D ^ 2 ≤ b ^ 3 + E * 2 * D ^ 2) :
    m * D ^ 2 ≤ (b + 1) ^ 3 := by
  have hD2 : 0 < D ^ 2 := by positivity
  have e1 : (3 * b + 2 * D) * D ^ 2 ≤ m * D ^ 2 := mul_le_mul_of_nonneg_right hb hD2.le
  have h5 : E * 2 * D ^ 2 ≤ 4 * D ^ 2 := mul_le_mul_of_nonneg_right (by omega) hD2.le
  have bb : 3 * D ≤ 2 * b := by
    by_contra hcc
    push Not at hcc
    have h6 : (2 * b) ^ 2 ≤ (3 * D) ^ 2 := pow_le_pow_left₀ (by omega) hcc.le 2
    have h7 := mul_le_mul_of_nonneg_left h6 b0
    have h8 : 0 < (3 * b + 8 * D - 16) * D ^ 2 := mul_pos (by omega) hD2
    linarith [show b * (2 * b) ^ 2 = 4 * b ^ 3 by ring, show b * (3 * D) ^ 2 = 9 * (b * D ^ 2) by ring,
      show (3 * b + 2 * D) * D ^ 2 = 3 * (b * D ^ 2) + 2 * D ^ 3 by ring,
      show (3 * b + 8 * D - 16) * D ^ 2 = 3 * (b * D ^ 2) + 8 * D ^ 3 - 16 * D ^ 2 by ring]
  have h6 : (3 * D) ^ 2 ≤ (2 * b) ^ 2 := pow_le_pow_left₀ (by omega) bb 2
  linarith [show (b + 1) ^ 3 = b ^ 3 + 3 * b ^ 2 + 3 * b + 1 by ring, show (3 * D) ^ 2 = 9 * D ^ 2 by ring, show (2 * b) ^ 2 = 4 * b ^ 2 by ring]

/-- C183 (negative arguments): from −5 downwards, as long as the cube of `(|x| + 2) / 3` is in range, the result is the mirror image: at most one ulp above the
cube root, and at most `t` ulps below it unless the loop stopped early. -/
theorem C183_negative (F : FxTy) (hF : F.Valid) (hs : F.T.signed = true) (hr : F.r = false) (h14 : 14 ≤ F.f) (h15 : F.f ≤ 15) (h4 : F.f + 4 ≤ F.T.bits)
    (x : Int) (h0 : val F x ≤ -5) (hc : ((-val F x + 2) / 3) ^ 3 < val F F.T.hi + ulp F) (t : Nat) (ht : 2 ^ F.f ≤ (2 * t) ^ 3) :
    ∃ r, cbrt F x = .ok r ∧ val F r ≤ 0 ∧ (val F r - ulp F) ^ 3 ≤ val F x ∧
      (val F x ≤ (val F r + t * ulp F) ^ 3 ∨ |val F x - val F r ^ 3| ≤ 8 / 65536 - val F r * ulp F) := by
  obtain ⟨m, rfl⟩ : ∃ m : Int, x = -m := ⟨-x, by ring⟩
  obtain ⟨D, hDF⟩ : ∃ D : Int, (2 : Int) ^ F.f = D := ⟨_, rfl⟩
  obtain ⟨H, hHF⟩ : ∃ H : Int, (2 : Int) ^ (F.T.bits - 1) = H := ⟨_, rfl⟩
  have hhi : F.T.hi = H - 1 := by unfold IntTy.hi; simp [hs, hHF]
  have hlo : F.T.lo = -H := by unfold IntTy.lo; simp [hs, hHF]
  have room : 8 * D ≤ H := by
    rw [← hDF, ← hHF, show (8 : Int) = 2 ^ 3 by norm_num, ← pow_add]
    exact pow_le_pow_right₀ (by norm_num) (by omega)
  have k : CF F D H := ⟨hF, hr, hDF, hhi, room, by omega, h15⟩
  have d0 := k.dpos
  have d4 : 4 ≤ D := by
    rw [← k.d, show (4 : Int) = 2 ^ 2 by norm_num]
    exact pow_le_pow_right₀ (by norm_num) k.f2
  have hDq : (0 : ℚ) < D := by exact_mod_cast d0
  obtain ⟨T, c, cl⟩ := ca_mid_table F.f h14 h15
  rw [hDF] at c cl
  have hT : T ≤ t := cl t (by rw [← hDF]; exact_mod_cast ht)
  have vn : val F (-m) = -val F m := by unfold val; push_cast; ring
  rw [vn] at h0 hc
  rw [neg_neg] at hc
  have vv := val_real F
  have uu := ulp_real F
  rw [hDF] at uu
  simp only [hDF] at vv
  have m5 : 5 * D ≤ m := by
    have : (5 : ℚ) ≤ m / D := by rw [vv] at h0; linarith
    rw [le_div_iff₀ hDq] at this
    exact_mod_cast this
  have g : (m + 2 * D) ^ 3 < 27 * (H * D ^ 2) := by
    rw [vv, vv, uu, hhi] at hc
    have e1 : ((m : ℚ) / D + 2) / 3 = (m + 2 * D) / (3 * D) := by field_simp
    have e2 : ((H - 1 : Int) : ℚ) / D + 1 / D = H / D := by push_cast; ring
    rw [e1, e2, div_pow, div_lt_div_iff₀ (by positivity) hDq] at hc
    have h1 : (((m : ℚ) + 2 * D) ^ 3) * D < (27 * (H * D ^ 2)) * D := by
      calc _ < _ := hc
        _ = _ := by ring
    have h2 := lt_of_mul_lt_mul_right h1 hDq.le
    exact_mod_cast h2
  have hD2 : 0 < D ^ 2 := by positivity
  have g1 : m + 2 * D < H := by
    by_contra hcc
    have e1 : H ^ 3 ≤ (m + 2 * D) ^ 3 := pow_le_pow_left₀ (by omega) (by omega) 3
    have e2 : (8 * D) ^ 2 ≤ H ^ 2 := pow_le_pow_left₀ (by omega) room 2
    have e3 : (8 * D) ^ 2 * H ≤ H ^ 2 * H := mul_le_mul_of_nonneg_right e2 (by omega)
    have e4 : 0 < H * D ^ 2 := mul_pos (by omega) hD2
    nlinarith
  have g2 : (m + 2 * D) ^ 2 < 9 * (H * D) := by
    have h4 : (m + 2 * D) ^ 2 * (3 * D) ≤ (m + 2 * D) ^ 2 * (m + 2 * D) := mul_le_mul_of_nonneg_left (by omega) (by positivity)
    have h5 : (m + 2 * D) ^ 2 * 3 * D < 27 * (H * D) * D := by nlinarith
    have := lt_of_mul_lt_mul_right h5 d0.le
    omega
  have sg : SG F := ⟨hF, hs, by unfold Storable; rw [hDF]; exact k.inr (by omega) (by omega)⟩
  have inr : ∀ z : Int, -H ≤ z → z < H → F.T.InRange z := fun z a b => ⟨by omega, by omega⟩
  -- the root
  have x0r : (0 : ℝ) ≤ m := by exact_mod_cast (by omega : 0 ≤ m)
  have hD' : (0 : ℝ) < D := by exact_mod_cast d0
  obtain ⟨r, r0, hr'⟩ := exists_root ((m : ℝ) * (D : ℝ) ^ 2) (by positivity)
  have hM : r + T ≤ ((m : ℝ) + 2 * D) / 3 := by
    have m5' : 5 * (D : ℝ) ≤ m := by exact_mod_cast m5
    rcases coarse_room c hr' with h | h
    · linarith
    · exact h
  have g' : ((m : ℝ) + 2 * D) ^ 3 < 27 * (H * D ^ 2) := by exact_mod_cast g
  have g2' : ((m : ℝ) + 2 * D) ^ 2 < 9 * (H * D) := by exact_mod_cast g2
  have g1' : (m : ℝ) + 2 * D < H := by exact_mod_cast g1
  obtain ⟨f1, f2, f3, f4, f5⟩ := coarse_first d4 m5
  have s3 : 3 * ((m - 2 * D) / 3) ≤ m + 2 * D := by omega
  have hs3 : (3 * ((m - 2 * D) / 3)) ^ 3 ≤ (m + 2 * D) ^ 3 := pow_le_pow_left₀ (by omega) s3 3
  have hs2 : (3 * ((m - 2 * D) / 3)) ^ 2 ≤ (m + 2 * D) ^ 2 := pow_le_pow_left₀ (by omega) s3 2
  rw [mul_pow] at hs3 hs2
  obtain ⟨E, hE⟩ : ∃ E : Int, (2 : Int) ^ (F.f - 14) = E := ⟨_, rfl⟩
  have hu := unit_mid hDF h14
  rw [hE] at hu
  have E0 : 1 ≤ E := by rw [← hE]; exact one_le_pow₀ (by norm_num)
  have E2 : E ≤ 2 := by
    rw [← hE, show (2 : Int) = 2 ^ 1 by norm_num, ← pow_mul]
    exact pow_le_pow_right₀ (by norm_num) (by omega)
  -- it is enough to find the result of the loop
  suffices key : ∃ z, cbrtLoop F (-m) (E * 2) 201 (-((m - 2 * D) / 3)) = .ok (-z) ∧ 0 ≤ z ∧ m * D ^ 2 ≤ (z + 1) ^ 3 ∧
      ((z - T) ^ 3 ≤ m * D ^ 2 ∨ |(-m) - z * z / D * -z / D| < E * 2) by
    obtain ⟨z, z1, z2, z4, z6⟩ := key
    have hz : cbrt F (-m) = .ok (-z) := by
      have hm : mulInt F i32 E 2 = .ok (E * 2) := k.cf_twice (by omega) (by omega)
      have heps := cf_eps_mid k h14
      rw [hE] at heps
      have ha := sg.abs_ok (x := -m) (inr _ (by omega) (by omega)) (by omega)
      have hst : addInt F (-m) 2 = .ok (-(m - 2 * D)) := by
        have r2 : F.T.InRange 2 := k.inr (by norm_num) (by omega)
        have rd : F.T.InRange (2 * D) := k.inr (by omega) (by omega)
        have rs : F.T.InRange (-m + 2 * D) := inr _ (by omega) (by omega)
        unfold addInt addIntAssign shl
        rw [if_pos (lt_of_lt_of_le hF.flt hF.tp), Res.bind_ok, IntTy.wrap_of_inRange hF.tpos r2, hDF,
          IntTy.wrap_of_inRange hF.ppos (IntTy.inRange_promote hF.tpos rd), arith_of_inRange hF.ppos (IntTy.inRange_promote hF.tpos rs), Res.bind_ok,
          IntTy.wrap_of_inRange hF.tpos rs, Res.pure_eq]
        congr 1; ring
      have e6 : Int.tdiv (-(m - 2 * D)) 3 = -((m - 2 * D) / 3) := tdiv_neg_of_nonneg (by omega)
      have hth := cf_third' hF (x := -(m - 2 * D)) (inr _ (by omega) (by omega)) (by rw [e6]; exact inr _ (by omega) (by omega))
      rw [e6] at hth
      unfold cbrt
      rw [ha, Res.bind_ok, heps, Res.bind_ok, if_neg (by rw [lt_iff, abs_neg, abs_of_nonneg (by omega)]; omega), hst, Res.bind_ok,
        hth, Res.bind_ok, hm, Res.bind_ok, z1]
    have vz : val F (-z) = -val F z := by unfold val; push_cast; ring
    have vals : 0 ≤ val F z ∧ val F m ≤ (val F z + ulp F) ^ 3 ∧ ((val F z - t * ulp F) ^ 3 ≤ val F m ∨ |val F m - val F z ^ 3| ≤ 8 / 65536 + val F z * ulp F) := by
      rcases z6 with h | h
      · obtain ⟨a, b, c⟩ := coarse_vals hDF z2 z4 h t hT
        exact ⟨a, b, Or.inl c⟩
      · obtain ⟨u1, u2⟩ := mid_exit_neg d0 z2 h
        have hp : 0 ≤ m * D ^ 2 := mul_nonneg (by omega) hD2.le
        obtain ⟨a, b, -⟩ := coarse_vals hDF z2 z4 (T := z) (by simpa using hp) z.toNat (Int.self_le_toNat _)
        exact ⟨a, b, Or.inr (mid_vals_neg hDF hu u1 u2 z2)⟩
    obtain ⟨v0, v1, v2⟩ := vals
    refine ⟨-z, hz, by rw [vz]; linarith, ?_, ?_⟩
    · rw [vz, vn, show (-val F z - ulp F) ^ 3 = -(val F z + ulp F) ^ 3 by ring]; linarith
    · rw [vz, vn]
      rcases v2 with h | h
      · left; rw [show (-val F z + t * ulp F) ^ 3 = -(val F z - t * ulp F) ^ 3 by ring]; linarith
      · right
        rw [show -val F m - (-val F z) ^ 3 = -(val F m - val F z ^ 3) by ring, abs_neg]
        linarith
  have first : cbrtLoop F (-m) (E * 2) 201 (-((m - 2 * D) / 3)) = if E * 2 ≤ |(-m) - (m - 2 * D) / 3 * ((m - 2 * D) / 3) / D * -((m - 2 * D) / 3) / D| then
      cbrtLoop F (-m) (E * 2) 200 (-(gStep D m ((m - 2 * D) / 3))) else .ok (-((m - 2 * D) / 3)) :=
    mid_pass_neg k sg (m := m) (b := (m - 2 * D) / 3) (by omega) (by omega) (by omega) f1 (by omega) (by nlinarith) (by omega) (200 + 1)
  rw [first]
  by_cases hp : E * 2 ≤ |(-m) - (m - 2 * D) / 3 * ((m - 2 * D) / 3) / D * -((m - 2 * D) / 3) / D|
  swap
  · -- stopped at the start value
    rw [if_neg hp]
    push Not at hp
    obtain ⟨u1, -⟩ := mid_exit_neg d0 (by omega) hp
    refine ⟨_, rfl, by omega, ?_, Or.inr hp⟩
    have hb2 : 3 * ((m - 2 * D) / 3) + 2 * D ≤ m := by omega
    have b0' : 0 ≤ (m - 2 * D) / 3 := by omega
    have dd : 16384 ≤ D := by omega
    generalize (m - 2 * D) / 3 = b at *
    exact mid_first dd b0' E2 hb2 u1
  rw [if_pos hp]
  have g0 : 0 ≤ gStep D m ((m - 2 * D) / 3) ∧ 3 * gStep D m ((m - 2 * D) / 3) ≤ m + 2 * D := by unfold gStep; omega
  obtain ⟨z, z1, z2, z4, z5⟩ := mid_loop_neg (p := E * 2) k sg c (by omega) (by omega) r0 hr' hM
    (by linarith [show (((m : ℝ) + 2 * D) / 3) ^ 3 = (m + 2 * D) ^ 3 / 27 by ring])
    (by linarith [show (((m : ℝ) + 2 * D) / 3) * ((m + 2 * D) / 3) = (m + 2 * D) ^ 2 / 9 by ring]) (by linarith) 200 _ g0.1 f5 (by
      have : 3 * (gStep D m ((m - 2 * D) / 3) : ℝ) ≤ m + 2 * D := by exact_mod_cast g0.2
      linarith)
  refine ⟨z, z1, z2, z4, ?_⟩
  have T0 : (1 : ℝ) ≤ T := by exact_mod_cast c.t1
  have fin : (z : ℝ) ≤ r + T → (z - T) ^ 3 ≤ m * D ^ 2 := by
    intro zr
    have e : ((z : ℝ) - T) ^ 3 ≤ r ^ 3 := (Odd.strictMono_pow (by decide : Odd 3)).monotone (by linarith)
    rw [hr'] at e
    exact_mod_cast e
  rcases z5 with h | h | h
  · exact Or.inl (fin h)
  · left
    apply fin
    have hH : H ≤ 2 ^ 64 := by
      rw [← hHF]
      have := hF.1
      exact pow_le_pow_right₀ (by norm_num) (by omega)
    have hH' : (H : ℝ) ≤ 2 ^ 64 := by exact_mod_cast hH
    have : 3 * (gStep D m ((m - 2 * D) / 3) : ℝ) ≤ m + 2 * D := by exact_mod_cast g0.2
    have e3 : (2 / 3 : ℝ) ^ 200 * ((gStep D m ((m - 2 * D) / 3) : ℝ) - r) ≤ (2 / 3 : ℝ) ^ 200 * 2 ^ 64 :=
      mul_le_mul_of_nonneg_left (by linarith) (by positivity)
    have e4 : (2 / 3 : ℝ) ^ 200 * 2 ^ 64 ≤ 1 := by norm_num
    linarith
  · exact Or.inr h

example : cbrt ⟨i32, i64, 15, false⟩ (-27 * 32768) = .ok (-3 * 32768) ∧ val ⟨i32, i64, 15, false⟩ (-27 * 32768) ≤ -5 ∧
    ((-val ⟨i32, i64, 15, false⟩ (-27 * 32768) + 2) / 3) ^ 3 < val ⟨i32, i64, 15, false⟩ i32.hi + ulp ⟨i32, i64, 15, false⟩ := by
  refine ⟨by decide +kernel, by norm_num [val], ?_⟩
  norm_num [val, ulp, IntTy.hi, i32]

end Eirin.Props
