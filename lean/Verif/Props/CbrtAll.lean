import Verif.Props.Cbrt
import Verif.Props.SqrtAll

/-! # Property C117: `cbrt` on every signed layout -/

namespace Eirin.Props
open Spec

/-- Layouts with at least 16 fraction bits and five integer bits (the sign included). -/
structure CG (F : FxTy) : Prop where
  sw : SW F
  r : F.r = false
  f16 : 16 ≤ F.f
  f62 : F.f ≤ 62
  b5 : F.f + 5 ≤ F.T.bits

namespace CG
variable {F : FxTy} (h : CG F)
include h

/-- `2^(f-16)`: one 65536th. -/
theorem unit : ∃ E : Int, 0 < E ∧ (2 : Int) ^ F.f = 65536 * E ∧ E = 2 ^ (F.f - 16) :=
  ⟨2 ^ (F.f - 16), by positivity, by rw [show (65536 : Int) = 2 ^ 16 by norm_num, ← pow_add]; congr 1; have := h.f16; omega, rfl⟩

theorem room : 16 * (2 : Int) ^ F.f ≤ 2 ^ (F.T.bits - 1) := by
  rw [show (16 : Int) * 2 ^ F.f = 2 ^ (F.f + 4) by rw [pow_add]; ring]
  exact pow_le_pow_right₀ (by norm_num) (by have := h.b5; omega)

theorem st {z : Int} (h0 : 0 ≤ z) (h1 : z < 2 ^ (F.T.bits - 1)) : F.T.InRange z := by
  have := h.sw.lo_eq; have := h.sw.hi_eq
  constructor <;> omega

theorem st' {z : Int} (h0 : -2 ^ (F.T.bits - 1) ≤ z) (h1 : z < 2 ^ (F.T.bits - 1)) : F.T.InRange z := by
  have := h.sw.lo_eq; have := h.sw.hi_eq
  constructor <;> omega

theorem eps : epsilon F = .ok (5 * 2 ^ (F.f - 16)) := by
  have key : ∀ f < 63, 16 ≤ f → shl i64 1 (64 - f) = .ok (2 ^ (64 - f)) ∧ cdiv i64.promote 0x5000000000000 (2 ^ (64 - f)) = .ok (5 * 2 ^ (f - 16)) := by
    decide +kernel
  have h62 := h.f62
  obtain ⟨k1, k2⟩ := key F.f (by omega) h.f16
  unfold epsilon fromFixedNumValue
  rw [if_pos (by omega), h.r, if_neg (by decide), k1, Res.bind_ok, k2, Res.bind_ok, h.sw.wrap_ok, Res.pure_eq]
  obtain ⟨E, e0, e1, rfl⟩ := h.unit
  have := h.room
  exact h.st (by omega) (by omega)

end CG

/-- A number whose cube fits is itself well inside the range. -/
theorem cube_lt {a D H : Int} (hD : 0 < D) (hH : 16 * D ≤ H) (h : a ^ 3 < H * D ^ 2) : 3 * a < H ∧ (0 ≤ a → a * a < H * D) := by
  by_cases hc : a ≤ 3 * D
  · refine ⟨by omega, fun h0 => ?_⟩
    have h1 : a * a ≤ 3 * D * (3 * D) := mul_le_mul hc hc h0 (by omega)
    have h2 : 16 * D * D ≤ H * D := mul_le_mul_of_nonneg_right hH hD.le
    have h3 : 0 < D * D := mul_pos hD hD
    nlinarith
  · push Not at hc
    have hD2 : 0 < D ^ 2 := by positivity
    have ha : 0 < a := by omega
    have h9 : 9 * D ^ 2 < a * a := by nlinarith
    have h1 : 9 * D ^ 2 * a < a ^ 3 := by nlinarith [mul_lt_mul_of_pos_right h9 ha]
    have h2 : (9 * a) * D ^ 2 < H * D ^ 2 := by nlinarith
    have h3 := lt_of_mul_lt_mul_right h2 hD2.le
    refine ⟨by omega, fun _ => ?_⟩
    have h4 : (a * a) * (3 * D) < a ^ 3 := by nlinarith [mul_lt_mul_of_pos_left hc (mul_pos ha ha)]
    have h5 : (a * a * 3) * D < (H * D) * D := by nlinarith
    have h6 := lt_of_mul_lt_mul_right h5 hD.le
    nlinarith [mul_pos ha ha]

/-- The iteration on integers. -/
def gStep (D fp a : Int) : Int := (fp * D / (a * a / D) + 2 * a) / 3

/-- State invariant. -/
structure GInv (D H E fp a : Int) : Prop where
  lo : 2700 * E ≤ a
  cube : a ^ 3 < H * D ^ 2
  root : fp * D ^ 2 ≤ (a + 1) ^ 3

theorem ginv_of {D H E fp a : Int} (hE : 0 < E) (hD : D = 65536 * E) (h5 : 5 * E ≤ fp) (h0 : 0 ≤ a) (hc : a ^ 3 < H * D ^ 2)
    (root : fp * D ^ 2 ≤ (a + 1) ^ 3) : GInv D H E fp a := by
  refine ⟨?_, hc, root⟩
  by_contra hcon
  have h1 : a + 1 ≤ 2700 * E := by omega
  have h2 : (a + 1) ^ 3 ≤ (2700 * E) ^ 3 := pow_le_pow_left₀ (by omega) h1 3
  have h3 : 5 * E * D ^ 2 ≤ fp * D ^ 2 := mul_le_mul_of_nonneg_right h5 (by positivity)
  subst hD
  have h4 : 0 < E ^ 3 := by positivity
  have e1 : (2700 * E) ^ 3 = 19683000000 * E ^ 3 := by ring
  have e2 : 5 * E * (65536 * E) ^ 2 = 21474836480 * E ^ 3 := by ring
  omega

theorem g_y {D H E fp a : Int} (hE : 0 < E) (hD : D = 65536 * E) (c : GInv D H E fp a) : 111 * E ≤ a * a / D := by
  have h1 := c.lo
  rw [Int.le_ediv_iff_mul_le (by omega), hD]
  have : 2700 * E * (2700 * E) ≤ a * a := mul_le_mul h1 h1 (by omega) (by omega)
  nlinarith [mul_pos hE hE]

/-- The quotient exceeds the root by at most 27. -/
theorem g_quot {D H E fp a : Int} (hE : 0 < E) (hD : D = 65536 * E) (h5 : 5 * E ≤ fp) (c : GInv D H E fp a) {r : ℝ} (r0 : 0 ≤ r)
    (hr : r ^ 3 = fp * D ^ 2) : ((fp * D / (a * a / D) : Int) : ℝ) ≤ r + 27 ∧ r ≤ a + 1 := by
  have y1 := g_y hE hD c
  obtain ⟨h1, -, h3⟩ := c
  have hD0 : 0 < D := by omega
  have d2 := Int.lt_ediv_add_one_mul_self (a * a) hD0
  generalize a * a / D = y at *
  have q1 := Int.ediv_mul_le (fp * D) (by omega : y ≠ 0)
  generalize fp * D / y = q at *
  have hE' : (1 : ℝ) ≤ E := by exact_mod_cast hE
  have hD' : (D : ℝ) = 65536 * E := by exact_mod_cast hD
  have h1' : (2700 : ℝ) * E ≤ a := by exact_mod_cast h1
  have h3' : (fp : ℝ) * D ^ 2 ≤ (a + 1) ^ 3 := by exact_mod_cast h3
  have d2' : (a : ℝ) * a < (y + 1) * D := by exact_mod_cast d2
  have q1' : (q : ℝ) * y ≤ fp * D := by exact_mod_cast q1
  have h5' : (5 : ℝ) * E ≤ fp := by exact_mod_cast h5
  have y1' : (111 : ℝ) * E ≤ y := by exact_mod_cast y1
  have hra : r ≤ a + 1 := by
    by_contra hc; push Not at hc
    have := pow_lt_pow_left₀ hc (by linarith) (n := 3) (by norm_num)
    linarith
  have hr27 : 2750 * E ≤ r := by
    by_contra hc; push Not at hc
    have h := pow_lt_pow_left₀ hc r0 (n := 3) (by norm_num)
    have h6 : 5 * (E : ℝ) * D ^ 2 ≤ fp * D ^ 2 := mul_le_mul_of_nonneg_right h5' (by positivity)
    rw [hr] at h
    rw [hD'] at h h6
    have e3 : 0 < (E : ℝ) ^ 3 := by positivity
    have e1 : (2750 * (E : ℝ)) ^ 3 = 20796875000 * E ^ 3 := by ring
    have e2 : 5 * (E : ℝ) * (65536 * E) ^ 2 = 21474836480 * E ^ 3 := by ring
    linarith
  refine ⟨?_, hra⟩
  by_contra hc; push Not at hc
  have hDp : (0 : ℝ) < D := by rw [hD']; linarith
  have e1 : (r + 27) * (y * D) < r ^ 3 := by
    have : (r + 27) * y < q * y := mul_lt_mul_of_pos_right hc (by linarith)
    have h7 : (r + 27) * y * D < fp * D * D := mul_lt_mul_of_pos_right (by linarith) hDp
    rw [hr]; linarith
  have e2 : (r - 1) ^ 2 - D < y * D := by
    have : (r - 1) ^ 2 ≤ a ^ 2 := pow_le_pow_left₀ (by linarith) (by linarith) 2
    linarith
  have e3 : (r + 27) * ((r - 1) ^ 2 - D) < (r + 27) * (y * D) := mul_lt_mul_of_pos_left e2 (by linarith)
  have e4 : (D : ℝ) * (r + 27) ≤ 23.84 * r * (r + 27) := mul_le_mul_of_nonneg_right (by rw [hD']; linarith) (by linarith)
  have e5 : 2750 * r ≤ r * r := mul_le_mul_of_nonneg_right (by linarith) r0
  nlinarith

/-- One step keeps the invariant. -/
theorem GInv.step {D H E fp a : Int} (hE : 0 < E) (hD : D = 65536 * E) (h5 : 5 * E ≤ fp) (c : GInv D H E fp a) {r : ℝ} (r0 : 0 ≤ r)
    (hr : r ^ 3 = fp * D ^ 2) (hM : (r + 27) ^ 3 < H * D ^ 2) :
    GInv D H E fp (gStep D fp a) ∧ 0 ≤ fp * D / (a * a / D) ∧ (fp * D / (a * a / D)) ^ 3 < H * D ^ 2 ∧
    (gStep D fp a : ℝ) - r ≤ 2 / 3 * (a - r) + 9 := by
  have y1 := g_y hE hD c
  obtain ⟨hq, hra⟩ := g_quot hE hD h5 c r0 hr
  obtain ⟨h1, h2, h3⟩ := c
  have hD0 : 0 < D := by omega
  have d1 := Int.ediv_mul_le (a * a) hD0.ne'
  unfold gStep
  generalize a * a / D = y at *
  have q2 := Int.lt_ediv_add_one_mul_self (fp * D) (by omega : 0 < y)
  have q0 : 0 ≤ fp * D / y := Int.ediv_nonneg (mul_nonneg (by omega) hD0.le) (by omega)
  generalize fp * D / y = q at *
  have hs := Int.lt_ediv_add_one_mul_self (q + 2 * a) (by norm_num : (0 : Int) < 3)
  have hs' := Int.ediv_mul_le (q + 2 * a) (by norm_num : (3 : Int) ≠ 0)
  have a0 : 0 ≤ (q + 2 * a) / 3 := by omega
  generalize (q + 2 * a) / 3 = a' at *
  have qcube : q ^ 3 < H * D ^ 2 := by
    have : (q : ℝ) ^ 3 ≤ (r + 27) ^ 3 := pow_le_pow_left₀ (by exact_mod_cast q0) hq 3
    have : (q : ℝ) ^ 3 < H * D ^ 2 := lt_of_le_of_lt this hM
    exact_mod_cast this
  have root : fp * D ^ 2 ≤ (a' + 1) ^ 3 := by
    have e1 : fp * D ^ 2 ≤ (q + 1) * (y * D) := by
      have := mul_le_mul_of_nonneg_right q2.le hD0.le
      nlinarith
    have e2 : (q + 1) * (y * D) ≤ (q + 1) * (a * a) := mul_le_mul_of_nonneg_left d1 (by omega)
    have e3 := amgm (t := q + 1) (a := a) (by omega) (by omega)
    have e4 : (q + 1 + 2 * a) ^ 3 ≤ (3 * (a' + 1)) ^ 3 := pow_le_pow_left₀ (by omega) (by omega) 3
    rw [mul_pow] at e4
    have e5 : (q + 1) * a * a = (q + 1) * (a * a) := by ring
    rw [e5] at e3
    omega
  have hs2 : (a' : ℝ) * 3 ≤ q + 2 * a := by exact_mod_cast hs'
  have cube : a' ^ 3 < H * D ^ 2 := by
    by_cases hc : r + 27 ≤ a
    · have : (a' : ℝ) ≤ a := by linarith
      have h : a' ≤ a := by exact_mod_cast this
      exact lt_of_le_of_lt (pow_le_pow_left₀ a0 h 3) h2
    · push Not at hc
      have h : (a' : ℝ) ≤ r + 27 := by linarith
      have : (a' : ℝ) ^ 3 ≤ (r + 27) ^ 3 := pow_le_pow_left₀ (by exact_mod_cast a0) h 3
      have : (a' : ℝ) ^ 3 < H * D ^ 2 := lt_of_le_of_lt this hM
      exact_mod_cast this
  exact ⟨ginv_of hE hD h5 a0 cube root, q0, qcube, by linarith⟩

theorem cbrtLoop_unf (F : FxTy) (fp prec : Int) (n : Nat) (x : Int) : cbrtLoop F fp prec n x = (do
    let x2 ← mul F x x
    let x3 ← mul F x2 x
    let d ← sub F fp x3
    let a ← abs F d
    if ge a prec then
      match n with
      | 0 => pure x
      | fuel + 1 => do
        let y2 ← mul F x x
        let q ← div F fp y2
        let t ← mulInt F i32 x 2
        let s ← add F q t
        let x' ← divInt F i32 s 3
        cbrtLoop F fp prec fuel x'
    else pure x) := by
  cases n <;> rfl

/-- One pass through the loop. -/
theorem gLoop_step {F : FxTy} (h : CG F) {D H E fp a : Int} (hE : 0 < E) (hD : D = 65536 * E) (hDF : (2 : Int) ^ F.f = D)
    (hHF : (2 : Int) ^ (F.T.bits - 1) = H) (h5 : 5 * E ≤ fp) (hfp : fp < H) (c : GInv D H E fp a) {r : ℝ} (r0 : 0 ≤ r)
    (hr : r ^ 3 = fp * D ^ 2) (hM : (r + 27) ^ 3 < H * D ^ 2) (n : Nat) :
    cbrtLoop F fp (10 * E) n a =
      if 10 * E ≤ |fp - a * a / D * a / D| then
        match n with
        | 0 => .ok a
        | n + 1 => cbrtLoop F fp (10 * E) n (gStep D fp a)
      else .ok a := by
  have y1 := g_y hE hD c
  obtain ⟨cs, q0, q1, -⟩ := c.step hE hD h5 r0 hr hM
  have hD0 : 0 < D := by omega
  have hH16 : 16 * D ≤ H := by rw [← hDF, ← hHF]; exact h.room
  have hlo := c.lo
  have hcl := cs.lo
  obtain ⟨a3, a2⟩ := cube_lt hD0 hH16 c.cube
  obtain ⟨q3, -⟩ := cube_lt hD0 hH16 q1
  have a2 := a2 (by omega)
  have aS : F.T.InRange a := h.st (by omega) (by rw [hHF]; omega)
  have fS : F.T.InRange fp := h.st (by omega) (by rw [hHF]; omega)
  have y2 : a * a / D < H := Int.ediv_lt_of_lt_mul hD0 a2
  have yS : F.T.InRange (a * a / D) := h.st (by omega) (by rw [hHF]; omega)
  have e2 : mul F a a = .ok (a * a / D) := by
    have := h.sw.mul_ok h.r (x := a) (y := a) aS aS (by rw [hDF]; exact yS)
    rw [hDF] at this; exact this
  have w0 : 0 ≤ a * a / D * a / D := Int.ediv_nonneg (mul_nonneg (by omega) (by omega)) hD0.le
  have w1 : a * a / D * a / D < H := by
    apply Int.ediv_lt_of_lt_mul hD0
    have hy := Int.ediv_mul_le (a * a) hD0.ne'
    have h1 : a * a / D * D * a ≤ a * a * a := mul_le_mul_of_nonneg_right hy (by omega)
    have h2 : (a * a / D * a) * D < (H * D) * D := by
      have := c.cube
      nlinarith
    exact lt_of_mul_lt_mul_right h2 hD0.le
  have e3 : mul F (a * a / D) a = .ok (a * a / D * a / D) := by
    have := h.sw.mul_ok h.r (x := a * a / D) (y := a) yS aS (by rw [hDF]; exact h.st w0 (by rw [hHF]; exact w1))
    rw [hDF] at this; exact this
  generalize a * a / D * a / D = w at *
  have dS : F.T.InRange (fp - w) := h.st' (by rw [hHF]; omega) (by rw [hHF]; omega)
  have e4 : sub F fp w = .ok (fp - w) := h.sw.sub_ok dS
  have e5 : abs F (fp - w) = .ok |fp - w| := h.sw.abs_ok dS (by rw [h.sw.lo_eq, hHF]; omega)
  rw [cbrtLoop_unf, e2, Res.bind_ok, e3, Res.bind_ok, e4, Res.bind_ok, e5, Res.bind_ok]
  have hge : ge |fp - w| (10 * E) = true ↔ 10 * E ≤ |fp - w| := ge_iff
  by_cases hc : 10 * E ≤ |fp - w|
  · rw [if_pos (hge.2 hc), if_pos hc]
    cases n with
    | zero => rfl
    | succ n =>
      have tq : Int.tdiv (fp * D) (a * a / D) = fp * D / (a * a / D) := tdiv_eq_ediv (mul_nonneg (by omega) hD0.le)
      have q : div F fp (a * a / D) = .ok (fp * D / (a * a / D)) := by
        have := h.sw.div_ok h.r (x := fp) (y := a * a / D) fS (by omega) (by rw [hDF, tq]; exact h.st q0 (by rw [hHF]; omega))
        rw [hDF, tq] at this; exact this
      have t : mulInt F i32 a 2 = .ok (a * 2) := h.sw.mulInt_ok aS (by decide) (h.st (by omega) (by rw [hHF]; omega))
      have sS : F.T.InRange (fp * D / (a * a / D) + a * 2) := h.st (by omega) (by rw [hHF]; omega)
      have s : add F (fp * D / (a * a / D)) (a * 2) = .ok (fp * D / (a * a / D) + a * 2) := h.sw.add_ok sS
      have x' : divInt F i32 (fp * D / (a * a / D) + a * 2) 3 = .ok (gStep D fp a) := by
        rw [h.sw.divInt_ok sS (by norm_num) (by norm_num), tdiv_eq_ediv (by omega)]
        unfold gStep; rw [mul_comm a 2]
      dsimp only
      rw [Res.bind_ok, q, Res.bind_ok, t, Res.bind_ok, s, Res.bind_ok, x', Res.bind_ok]
  · rw [if_neg (fun h => hc (hge.1 h)), if_neg hc]
    rfl

/-- The whole loop. -/
theorem gLoop_spec {F : FxTy} (h : CG F) {D H E fp : Int} (hE : 0 < E) (hD : D = 65536 * E) (hDF : (2 : Int) ^ F.f = D)
    (hHF : (2 : Int) ^ (F.T.bits - 1) = H) (h5 : 5 * E ≤ fp) (hfp : fp < H) {r : ℝ} (r0 : 0 ≤ r)
    (hr : r ^ 3 = fp * D ^ 2) (hM : (r + 27) ^ 3 < H * D ^ 2) : ∀ (n : Nat) (a : Int), GInv D H E fp a →
    ∃ z, cbrtLoop F fp (10 * E) n a = .ok z ∧ GInv D H E fp z ∧
      (|fp - z * z / D * z / D| < 10 * E ∨ (z : ℝ) - r - 27 ≤ (2 / 3) ^ n * (a - r - 27)) := by
  intro n
  induction n with
  | zero =>
    intro a c
    rw [gLoop_step h hE hD hDF hHF h5 hfp c r0 hr hM]
    refine ⟨a, ?_, c, Or.inr (by norm_num)⟩
    split <;> rfl
  | succ n ih =>
    intro a c
    rw [gLoop_step h hE hD hDF hHF h5 hfp c r0 hr hM]
    by_cases hc : 10 * E ≤ |fp - a * a / D * a / D|
    · rw [if_pos hc]
      obtain ⟨cs, -, -, hcon⟩ := c.step hE hD h5 r0 hr hM
      obtain ⟨z, hz1, hz2, hz3⟩ := ih _ cs
      refine ⟨z, hz1, hz2, hz3.imp_right fun h => ?_⟩
      have : (2 / 3 : ℝ) ^ n * ((gStep D fp a : ℝ) - r - 27) ≤ (2 / 3) ^ n * (2 / 3 * (a - r - 27)) :=
        mul_le_mul_of_nonneg_left (by linarith) (by positivity)
      rw [pow_succ]; linarith
    · rw [if_neg hc]
      exact ⟨a, rfl, c, Or.inl (by omega)⟩

/-- The root plus 27 has a cube in range. -/
theorem root_room {D H fp : Int} (hD : 65536 ≤ D) (hH : 16 * D ≤ H) (h0 : 0 ≤ fp) (hs : (fp + 2 * D) ^ 3 < 27 * (H * D ^ 2)) {r : ℝ} (r0 : 0 ≤ r)
    (hr : r ^ 3 = fp * D ^ 2) : (r + 27) ^ 3 < H * D ^ 2 := by
  have hD' : (65536 : ℝ) ≤ D := by exact_mod_cast hD
  have hH' : (16 : ℝ) * D ≤ H := by exact_mod_cast hH
  have hs' : ((fp : ℝ) + 2 * D) ^ 3 < 27 * (H * D ^ 2) := by exact_mod_cast hs
  have f0 : (0 : ℝ) ≤ fp := by exact_mod_cast h0
  by_cases hc : r ≤ 2.5 * D
  · have h1 : (r + 27) ^ 3 ≤ (2.501 * D) ^ 3 := pow_le_pow_left₀ (by linarith) (by linarith) 3
    have h2 : 16 * (D : ℝ) * D ^ 2 ≤ H * D ^ 2 := mul_le_mul_of_nonneg_right hH' (by positivity)
    have h3 : 0 < (D : ℝ) ^ 3 := by positivity
    have e : (2.501 * (D : ℝ)) ^ 3 = 2.501 ^ 3 * D ^ 3 := by ring
    norm_num at e h1 ⊢
    nlinarith
  · push Not at hc
    have hr2 : 6.25 * (D : ℝ) ^ 2 < r ^ 2 := by
      have := pow_lt_pow_left₀ hc (by linarith) (n := 2) (by norm_num)
      norm_num at this ⊢; nlinarith
    have h1 : 6.25 * (D : ℝ) ^ 2 * r ≤ r ^ 3 := by
      have := mul_le_mul_of_nonneg_right hr2.le r0
      linarith [show r ^ 2 * r = r ^ 3 by ring]
    have h2 : 6.25 * r ≤ fp := by
      have hp : 0 < (D : ℝ) ^ 2 := by positivity
      by_contra hcon; push Not at hcon
      have := mul_lt_mul_of_pos_right hcon hp
      linarith
    have h3 : (3 * (r + 27)) ^ 3 ≤ ((fp : ℝ) + 2 * D) ^ 3 := pow_le_pow_left₀ (by linarith) (by linarith) 3
    rw [mul_pow] at h3
    norm_num at h3
    linarith

theorem sw_five {F : FxTy} (hF : F.Valid) (hs : SignedWide F) (h5 : F.f + 5 ≤ F.T.bits) : SW F := by
  refine ⟨hF, hs, ?_⟩
  have hsg := hs.1
  have : (2 : Int) ^ F.f * 2 ≤ 2 ^ (F.T.bits - 1) := by
    rw [← pow_succ]; exact pow_le_pow_right₀ (by norm_num) (by omega)
  have hp : (0 : Int) < 2 ^ F.f := by positivity
  unfold Storable IntTy.InRange IntTy.lo IntTy.hi
  simp only [hsg, if_true]
  constructor <;> omega

theorem val_real (F : FxTy) (z : Int) : val F z = z / ((2 : Int) ^ F.f : Int) := by unfold val; push_cast; rfl
theorem ulp_real (F : FxTy) : ulp F = 1 / ((2 : Int) ^ F.f : Int) := by unfold ulp; push_cast; rfl

/-- C117, the root: on every signed non-rounding layout with at least 16 fraction bits and five integer bits (the sign included), for every
argument from 5/65536 on whose start value `(x + 2) / 3` has a cube in range, `cbrt` is defined, at most one ulp below the root, and either
at most 28 ulp above it or (early exit of the loop) its cube is within `10/65536 + r ulp` of the argument. -/
theorem C117_root (F : FxTy) (hF : F.Valid) (hs : SignedWide F) (hr : F.r = false) (h16 : 16 ≤ F.f) (h5 : F.f + 5 ≤ F.T.bits)
    (x : Int) (hx : Storable F x) (h0 : 5 / 65536 ≤ val F x) (hc : ((val F x + 2) / 3) ^ 3 < val F F.T.hi + ulp F) :
    ∃ r, cbrt F x = .ok r ∧ 1 / 25 ≤ val F r ∧ val F x ≤ (val F r + ulp F) ^ 3 ∧
      ((val F r - 28 * ulp F) ^ 3 ≤ val F x ∨ |val F x - val F r ^ 3| ≤ 10 / 65536 + val F r * ulp F) := by
  have sw : SW F := sw_five hF hs h5
  have hb64 : F.T.bits ≤ 64 := by have := hF.1; omega
  have h : CG F := ⟨sw, hr, h16, by omega, h5⟩
  have hH64 : (2 : Int) ^ (F.T.bits - 1) ≤ 2 ^ 63 := pow_le_pow_right₀ (by norm_num) (by omega)
  obtain ⟨E, hE, hDE, eE⟩ := h.unit
  have hroom := h.room
  have heps := h.eps
  rw [← eE] at heps
  have hhi := sw.hi_eq
  have hlo := sw.lo_eq
  have hxh := hx.2
  have vv := val_real F
  have uu := ulp_real F
  obtain ⟨D, hDF⟩ : ∃ D : Int, (2 : Int) ^ F.f = D := ⟨_, rfl⟩
  obtain ⟨H, hHF⟩ : ∃ H : Int, (2 : Int) ^ (F.T.bits - 1) = H := ⟨_, rfl⟩
  rw [hDF] at hDE hroom uu
  simp only [hDF] at vv
  rw [hHF] at hroom hhi hlo hH64
  have hD0 : 0 < D := by omega
  have hDq : (0 : ℚ) < D := by exact_mod_cast hD0
  have hDEq : (D : ℚ) = 65536 * E := by exact_mod_cast hDE
  have hEq : (1 : ℚ) ≤ E := by exact_mod_cast hE
  have g5 : 5 * E ≤ x := by
    rw [vv, le_div_iff₀ hDq, hDEq] at h0
    have : ((5 * E : Int) : ℚ) ≤ x := by push_cast; linarith
    exact_mod_cast this
  have g94 : (x + 2 * D) ^ 3 < 27 * (H * D ^ 2) := by
    rw [vv, vv, uu, hhi] at hc
    have e1 : ((x : ℚ) / D + 2) / 3 = (x + 2 * D) / (3 * D) := by field_simp
    have e2 : ((H - 1 : Int) : ℚ) / D + 1 / D = H / D := by push_cast; ring
    rw [e1, e2, div_pow, div_lt_div_iff₀ (by positivity) hDq] at hc
    have h1 : (((x : ℚ) + 2 * D) ^ 3) * D < (27 * (H * D ^ 2)) * D := by
      calc _ < _ := hc
        _ = _ := by ring
    have h2 := lt_of_mul_lt_mul_right h1 hDq.le
    exact_mod_cast h2
  have hfp : x < H := by omega
  have ht : x + 2 * D < H := by
    by_cases hcc : x + 2 * D ≤ 9 * D
    · omega
    · push Not at hcc
      have h1 : (9 * D) ^ 2 ≤ (x + 2 * D) ^ 2 := pow_le_pow_left₀ (by omega) hcc.le 2
      have h2 : (9 * D) ^ 2 * (x + 2 * D) ≤ (x + 2 * D) ^ 2 * (x + 2 * D) := mul_le_mul_of_nonneg_right h1 (by omega)
      have h3 : (3 * (x + 2 * D)) * D ^ 2 < H * D ^ 2 := by linarith [show (x + 2 * D) ^ 2 * (x + 2 * D) = (x + 2 * D) ^ 3 by ring,
        show (9 * D) ^ 2 * (x + 2 * D) = 27 * ((3 * (x + 2 * D)) * D ^ 2) by ring]
      have h4 := lt_of_mul_lt_mul_right h3 (by positivity)
      omega
  have ha : abs F x = .ok x := by
    have := sw.abs_ok hx (by omega)
    rwa [abs_of_nonneg (by omega)] at this
  have hadd : addInt F x 2 = .ok (x + 2 * D) := by
    have := sw.addInt_ok (x := x) (n := 2) (by rw [hDF]; exact h.st (by omega) (by rw [hHF]; omega)) (by rw [hDF]; exact h.st (by omega) (by rw [hHF]; omega))
    rw [hDF] at this; exact this
  have hdiv : divInt F i32 (x + 2 * D) 3 = .ok ((x + 2 * D) / 3) := by
    rw [sw.divInt_ok (h.st (by omega) (by rw [hHF]; omega)) (by norm_num) (by norm_num), tdiv_eq_ediv (by omega)]
  have hprec : mulInt F i32 (5 * E) 2 = .ok (10 * E) := by
    rw [sw.mulInt_ok (h.st (by omega) (by rw [hHF]; omega)) (by decide) (h.st (by omega) (by rw [hHF]; omega))]
    congr 1; ring
  have hinv : GInv D H E x ((x + 2 * D) / 3) := by
    refine ginv_of hE hDE g5 (by omega) ?_ ?_
    · have e2 : (3 * ((x + 2 * D) / 3)) ^ 3 ≤ (x + 2 * D) ^ 3 := pow_le_pow_left₀ (by omega) (by omega) 3
      rw [mul_pow] at e2
      norm_num at e2
      omega
    · have e := amgm (t := x) (a := D) (by omega) (by omega)
      have e2 : (x + 2 * D) ^ 3 ≤ (3 * ((x + 2 * D) / 3 + 1)) ^ 3 := pow_le_pow_left₀ (by omega) (by omega) 3
      rw [mul_pow] at e2
      have e3 : x * D * D = x * D ^ 2 := by ring
      rw [e3] at e
      norm_num at e2
      omega
  have x0r : (0 : ℝ) ≤ x := by exact_mod_cast (by omega : 0 ≤ x)
  obtain ⟨c, c0, hcc⟩ := exists_root ((x : ℝ) * (D : ℝ) ^ 2) (by positivity)
  have hM := root_room (by omega) hroom (by omega) g94 c0 hcc
  obtain ⟨z, hz1, hz2, hz3⟩ := gLoop_spec h hE hDE hDF hHF g5 hfp c0 hcc hM 201 _ hinv
  have hz0 := hz2.lo
  refine ⟨z, ?_, ?_, ?_, ?_⟩
  · unfold cbrt
    rw [ha, heps, Res.bind_ok, Res.bind_ok, if_neg (by rw [lt_iff]; omega), hadd, Res.bind_ok, hdiv, Res.bind_ok, hprec, Res.bind_ok, hz1]
  · rw [vv, div_le_div_iff₀ (by norm_num) hDq, hDEq]
    have : ((2700 * E : Int) : ℚ) ≤ z := by exact_mod_cast hz0
    push_cast at this
    linarith
  · have : (x : ℚ) * D ^ 2 ≤ (z + 1) ^ 3 := by exact_mod_cast hz2.root
    rw [vv, vv, uu]
    have e : ((z : ℚ) / D + 1 / D) ^ 3 = (z + 1) ^ 3 / D ^ 3 := by rw [← add_div, div_pow]
    rw [e, div_le_div_iff₀ hDq (by positivity)]
    have := mul_le_mul_of_nonneg_right this hDq.le
    linarith [show (x : ℚ) * D ^ 2 * D = x * D ^ 3 by ring]
  · rcases hz3 with h | h
    · right
      rw [vv, vv, uu]
      have d1 := Int.ediv_mul_le (z * z) hD0.ne'
      have d2 := Int.lt_ediv_add_one_mul_self (z * z) hD0
      generalize z * z / D = y at *
      have d3 := Int.ediv_mul_le (y * z) hD0.ne'
      have d4 := Int.lt_ediv_add_one_mul_self (y * z) hD0
      generalize y * z / D = w at *
      obtain ⟨w1, w2⟩ := abs_lt.1 h
      have zp : 0 < z := by omega
      have k1 : w * D * D ≤ z * z * z := by
        have a1 := mul_le_mul_of_nonneg_right d3 hD0.le
        have a2 := mul_le_mul_of_nonneg_right d1 zp.le
        linarith [show y * z * D = y * D * z by ring]
      have k2 : z * z * z ≤ (w + 1) * D * D + z * D := by
        have a1 := mul_le_mul_of_nonneg_right d4.le hD0.le
        have a2 := mul_le_mul_of_nonneg_right d2.le zp.le
        linarith [show y * z * D = y * D * z by ring, show (y + 1) * D * z = y * D * z + z * D by ring]
      have k1' : (w : ℚ) * D * D ≤ z * z * z := by exact_mod_cast k1
      have k2' : (z : ℚ) * z * z ≤ (w + 1) * D * D + z * D := by exact_mod_cast k2
      have w1q : (w : ℚ) + 1 - 10 * E ≤ x := by exact_mod_cast (by omega : w + 1 - 10 * E ≤ x)
      have w2q : (x : ℚ) ≤ w + 10 * E := by exact_mod_cast (by omega : x ≤ w + 10 * E)
      have zq : (0 : ℚ) < z := by exact_mod_cast zp
      have e1 : (x : ℚ) / D - (z / D) ^ 3 = (x * D ^ 2 - z ^ 3) / D ^ 3 := by field_simp
      have e2 : (10 : ℚ) / 65536 + z / D * (1 / D) = (10 * E * D ^ 2 + z * D) / D ^ 3 := by
        rw [hDEq]; have : (E : ℚ) ≠ 0 := by linarith
        field_simp
      have DD : (0 : ℚ) ≤ D * D := by positivity
      have m1 := mul_le_mul_of_nonneg_right w1q DD
      have m2 := mul_le_mul_of_nonneg_right w2q DD
      have zD : 0 ≤ (z : ℚ) * D := by positivity
      rw [e1, e2, abs_div, abs_of_pos (by positivity : (0 : ℚ) < D ^ 3)]
      apply div_le_div_of_nonneg_right _ (by positivity)
      rw [abs_le]
      constructor
      · linarith [show (z : ℚ) * z * z = z ^ 3 by ring, show (D : ℚ) ^ 2 = D * D by ring, show ((w : ℚ) + 1) * D * D = w * D * D + D * D by ring,
          show ((w : ℚ) + 1 - 10 * E) * (D * D) = w * D * D + D * D - 10 * E * D ^ 2 by ring, show (x : ℚ) * (D * D) = x * D ^ 2 by ring]
      · linarith [show (z : ℚ) * z * z = z ^ 3 by ring, show ((w : ℚ) + 10 * E) * (D * D) = w * D * D + 10 * E * D ^ 2 by ring,
          show (x : ℚ) * (D * D) = x * D ^ 2 by ring]
    · left
      have hb : (((x + 2 * D) / 3 : Int) : ℝ) ≤ 2 ^ 63 := by exact_mod_cast (by omega : (x + 2 * D) / 3 ≤ 2 ^ 63)
      have h28 : (z : ℝ) - 28 ≤ c := by
        have h1 : (2 / 3 : ℝ) ^ 201 * ((((x + 2 * D) / 3 : Int) : ℝ) - c - 27) ≤ (2 / 3) ^ 201 * 2 ^ 63 :=
          mul_le_mul_of_nonneg_left (by linarith) (by positivity)
        have h2 : (2 / 3 : ℝ) ^ 201 * 2 ^ 63 ≤ 1 := by norm_num
        linarith
      have hz0' : (2700 : ℝ) * E ≤ z := by exact_mod_cast hz0
      have hE1 : (1 : ℝ) ≤ E := by exact_mod_cast hE
      have h3 : ((z : ℝ) - 28) ^ 3 ≤ x * D ^ 2 := by
        rw [← hcc]; exact pow_le_pow_left₀ (by linarith) h28 3
      have h3' : ((z : ℚ) - 28) ^ 3 ≤ x * D ^ 2 := by exact_mod_cast h3
      rw [vv, vv, uu]
      have e : ((z : ℚ) / D - 28 * (1 / D)) ^ 3 = (z - 28) ^ 3 / D ^ 3 := by rw [show (z : ℚ) / D - 28 * (1 / D) = (z - 28) / D by ring, div_pow]
      rw [e, div_le_div_iff₀ (by positivity) hDq]
      have := mul_le_mul_of_nonneg_right h3' hDq.le
      linarith [show (x : ℚ) * D ^ 2 * D = x * D ^ 3 by ring]

example : cbrt fixed64 (1000 * 2 ^ 32) = .ok 42949673583 ∧ ((1000 + 2 : ℚ) / 3) ^ 3 < val fixed64 fixed64.T.hi + ulp fixed64 ∧
    cbrt (L64 40) (27 * 2 ^ 40) = .ok 3298535478234 ∧ cbrt fixed64 327680 = .ok 208010559 := by
  refine ⟨by decide +kernel, ?_, by decide +kernel, by decide +kernel⟩
  unfold val ulp; norm_num [fixed64, IntTy.hi, i64]

/-- C117 as one would like it: on every signed layout with five integer bits, for every non-negative argument whose start value has a cube in
range, `cbrt` is defined and cubes back. -/
def C117_statement : Prop := ∀ F : FxTy, F.Valid → SignedWide F → F.r = false → F.f + 5 ≤ F.T.bits → ∀ x, Storable F x → 0 ≤ val F x →
  ((val F x + 2) / 3) ^ 3 < val F F.T.hi + ulp F →
  ∃ r, cbrt F x = .ok r ∧ 0 ≤ val F r ∧ |val F x - val F r ^ 3| ≤ 10 / 65536 + (1 + val F r + 84 * val F r ^ 2) * ulp F

/-- C117: with at most 13 fraction bits the tolerance `epsilon()` is zero, the loop never stops early, and `cbrt(0)` divides by zero. -/
theorem C117_zero : ∀ f < 14, 0 < f → cbrt ⟨i32, i64, f, false⟩ 0 = .ub .divZero ∧ cbrt ⟨i64, i128, f, false⟩ 0 = .ub .divZero := by
  decide +kernel

theorem C117_false : ¬ C117_statement := by
  intro h
  obtain ⟨r, hr, -⟩ := h ⟨i32, i64, 8, false⟩ (by decide) (by decide) rfl (by decide) 0 (by decide +kernel) (by simp [val])
    (by unfold val ulp; norm_num [IntTy.hi, i32])
  rw [(C117_zero 8 (by norm_num) (by norm_num)).1] at hr
  cases hr

theorem cube_back {R X u : ℚ} (hu : 0 < u) (hu2 : u ≤ 1 / 65536) (hR : 1 / 25 ≤ R) (h1 : X ≤ (R + u) ^ 3) (h2 : (R - 28 * u) ^ 3 ≤ X) :
    |X - R ^ 3| ≤ (1 + R + 84 * R ^ 2) * u := by
  have e1 : (R + u) ^ 3 = R ^ 3 + 3 * R ^ 2 * u + (3 * R * u) * u + (u * u) * u := by ring
  have e2 : (R - 28 * u) ^ 3 = R ^ 3 - 84 * R ^ 2 * u + (2352 * R - 21952 * u) * (u * u) := by ring
  have a1 : (3 * R * u) * u ≤ R * u := mul_le_mul_of_nonneg_right (by nlinarith) hu.le
  have a2 : (u * u) * u ≤ 1 * u := mul_le_mul_of_nonneg_right (by nlinarith) hu.le
  have a3 : 0 ≤ (2352 * R - 21952 * u) * (u * u) := mul_nonneg (by linarith) (by positivity)
  have a4 : 0 ≤ R ^ 2 * u := by positivity
  have a5 : 0 ≤ R * u := by have : 0 ≤ R := by linarith
                            positivity
  rw [abs_le]
  constructor <;> linarith

/-- C117, what holds: the statement on every layout with at least 16 fraction bits (both library types included).
Missing: fewer than 16 fraction bits, where it is false at least at 0 (`C117_zero`). -/
theorem C117_cubes_back_partial (F : FxTy) (hF : F.Valid) (hs : SignedWide F) (hr : F.r = false) (h16 : 16 ≤ F.f) (h5 : F.f + 5 ≤ F.T.bits)
    (x : Int) (hx : Storable F x) (h0 : 0 ≤ val F x) (hc : ((val F x + 2) / 3) ^ 3 < val F F.T.hi + ulp F) :
    ∃ r, cbrt F x = .ok r ∧ 0 ≤ val F r ∧ |val F x - val F r ^ 3| ≤ 10 / 65536 + (1 + val F r + 84 * val F r ^ 2) * ulp F := by
  have hu := ulp_pos F
  have hu2 : ulp F ≤ 1 / 65536 := by
    unfold ulp
    apply one_div_le_one_div_of_le (by norm_num)
    calc (65536 : ℚ) = 2 ^ 16 := by norm_num
      _ ≤ 2 ^ F.f := pow_le_pow_right₀ (by norm_num) h16
  by_cases hb : 5 / 65536 ≤ val F x
  · obtain ⟨r, e, r0, b1, b2⟩ := C117_root F hF hs hr h16 h5 x hx hb hc
    refine ⟨r, e, by linarith, ?_⟩
    have p1 : 0 ≤ val F r * ulp F := mul_nonneg (by linarith) hu.le
    have p2 : 0 ≤ val F r ^ 2 * ulp F := by positivity
    rcases b2 with b | b
    · have := cube_back hu hu2 r0 b1 b
      linarith
    · linarith
  · push Not at hb
    have sw : SW F := sw_five hF hs h5
    have h : CG F := ⟨sw, hr, h16, by have := hF.1; omega, h5⟩
    obtain ⟨E, hE, hDE, eE⟩ := h.unit
    have heps := h.eps
    rw [← eE] at heps
    have x0 : 0 ≤ x := by rw [← val_zero F, val_le] at h0; exact h0
    have hroom := h.room
    have hlo := sw.lo_eq
    have xE : x < 5 * E := by
      have : val F x < val F (5 * E) := by
        refine lt_of_lt_of_le hb ?_
        rw [val_real, hDE, div_le_div_iff₀ (by norm_num) (by exact_mod_cast (by omega : 0 < 65536 * E))]
        push_cast; linarith
      exact val_lt.1 this
    have ha : abs F x = .ok x := by
      have := sw.abs_ok hx (by omega)
      rwa [abs_of_nonneg x0] at this
    refine ⟨0, ?_, by simp [val], ?_⟩
    · unfold cbrt
      rw [ha, heps, Res.bind_ok, Res.bind_ok, if_pos (by rw [lt_iff]; exact xE), sw.ofInt_ok (by rw [zero_mul]; exact sw.zero_in), zero_mul]
      rfl
    · rw [val_zero, show val F x - 0 ^ 3 = val F x by ring, abs_of_nonneg h0]
      have : 0 ≤ (1 + 0 + 84 * 0 ^ 2) * ulp F := by linarith
      linarith

example : ((0 + 2 : ℚ) / 3) ^ 3 < val fixed32 fixed32.T.hi + ulp fixed32 ∧ cbrt fixed32 4 = .ok 0 ∧ cbrt fixed64 (8 * 2 ^ 32) = .ok 8589955687 := by
  refine ⟨?_, by decide +kernel, by decide +kernel⟩
  unfold val ulp; norm_num [fixed32, IntTy.hi, i32]

end Eirin.Props
