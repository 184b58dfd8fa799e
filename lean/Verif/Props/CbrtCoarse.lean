import Verif.Props.CbrtAll
import Verif.Props.MixedAll
import Mathlib.Tactic.IntervalCases

/-! # Property C179: `cbrt` on layouts with at most 13 fraction bits

With at most 13 fraction bits `epsilon()` is zero, so the loop test always succeeds and all 201 passes are made.  The layouts of 8- and 16-bit storage
with a few spare bits are among these. -/

namespace Eirin.Props
open Spec

/-- The layouts: `D` is the unit `1`, `H` the first number above the range. -/
structure CF (F : FxTy) (D H : Int) : Prop where
  v : F.Valid
  r : F.r = false
  d : (2 : Int) ^ F.f = D
  hi : F.T.hi = H - 1
  room : 8 * D ≤ H
  f2 : 2 ≤ F.f
  f15 : F.f ≤ 15

namespace CF
variable {F : FxTy} {D H : Int} (h : CF F D H)
include h

theorem dpos : 0 < D := by rw [← h.d]; positivity

theorem inr {z : Int} (h0 : 0 ≤ z) (h1 : z < H) : F.T.InRange z := by
  refine ⟨?_, by have := h.hi; omega⟩
  have : F.T.lo ≤ 0 := by
    unfold IntTy.lo
    split
    · have : (0 : Int) < 2 ^ (F.T.bits - 1) := by positivity
      omega
    · exact le_rfl
  omega

theorem cf_mul {x y : Int} (x0 : 0 ≤ x) (x1 : x < H) (y0 : 0 ≤ y) (y1 : y < H) (e : x * y / D < H) : mul F x y = .ok (x * y / D) := by
  have := h.dpos
  rw [mul_nf h.v h.r (h.inr x0 x1) (h.inr y0 y1), h.d, IntTy.wrap_of_inRange h.v.tpos (h.inr (Int.ediv_nonneg (mul_nonneg x0 y0) this.le) e)]

theorem cf_div {x y : Int} (x0 : 0 ≤ x) (x1 : x < H) (y0 : 0 < y) (e : x * D / y < H) : div F x y = .ok (x * D / y) := by
  have d0 := h.dpos
  rw [div_nf h.v h.r (h.inr x0 x1), if_neg y0.ne', h.d, tdiv_eq_ediv (mul_nonneg x0 d0.le),
    IntTy.wrap_of_inRange h.v.tpos (h.inr (Int.ediv_nonneg (mul_nonneg x0 d0.le) y0.le) e)]

theorem cf_add {x y : Int} (x0 : 0 ≤ x) (y0 : 0 ≤ y) (e : x + y < H) : add F x y = .ok (x + y) := by
  have hn := h.inr (add_nonneg x0 y0) e
  unfold add
  rw [arith_of_inRange h.v.ppos (IntTy.inRange_promote h.v.tpos hn), Res.bind_ok, IntTy.wrap_of_inRange h.v.tpos hn]; rfl

theorem cf_twice {x : Int} (x0 : 0 ≤ x) (e : x * 2 < H) : mulInt F i32 x 2 = .ok (x * 2) := by
  obtain ⟨z, hz, -, hv⟩ := (C150_mul F h.v i32 (by unfold CInt; decide) x 2 (h.inr x0 (by omega)) (by decide)).2.1 (by
    rw [show val F x * ((2 : Int) : ℚ) = val F (x * 2) by unfold val; push_cast; ring, representable_iff]
    exact h.inr (by omega) e)
  rw [hz]
  congr 1
  exact val_inj (F := F) (by rw [hv]; unfold val; push_cast; ring)

theorem cf_third {x : Int} (x0 : 0 ≤ x) (e : x < H) : divInt F i32 x 3 = .ok (x / 3) := by
  have t := trunc_spec F x 3 (by norm_num)
  rw [show (x : ℚ) / ((3 : Int) : ℚ) / 2 ^ F.f = val F x / ((3 : Int) : ℚ) by unfold val; field_simp, tdiv_eq_ediv x0] at t
  exact C150_div_partial F h.v i32 (by unfold CInt; decide) x 3 (x / 3) (h.inr x0 e) (by decide) (by norm_num) (h.inr (by omega) (by omega)) t (Or.inl x0)

theorem cf_start {x : Int} (x0 : 0 ≤ x) (e : x + 2 * D < H) : addInt F x 2 = .ok (x + 2 * D) := by
  have d0 := h.dpos
  have r2 : F.T.InRange 2 := h.inr (by norm_num) (by omega)
  have rd : F.T.InRange (2 * D) := h.inr (by omega) (by omega)
  have rs : F.T.InRange (x + 2 * D) := h.inr (by omega) e
  unfold addInt addIntAssign shl
  rw [if_pos (lt_of_lt_of_le h.v.flt h.v.tp), Res.bind_ok, IntTy.wrap_of_inRange h.v.tpos r2, h.d,
    IntTy.wrap_of_inRange h.v.ppos (IntTy.inRange_promote h.v.tpos rd), arith_of_inRange h.v.ppos (IntTy.inRange_promote h.v.tpos rs), Res.bind_ok,
    IntTy.wrap_of_inRange h.v.tpos rs]
  rfl

theorem cf_abs {x : Int} (x0 : 0 ≤ x) (e : x < H) : abs F x = .ok x := by
  unfold abs
  rw [if_neg (by omega), Res.pure_eq, Res.bind_ok]
  show Res.ok (F.T.wrap x) = _
  rw [IntTy.wrap_of_inRange h.v.tpos (h.inr x0 e)]

theorem cf_eps (h13 : F.f ≤ 13) : epsilon F = .ok 0 := by
  have key : ∀ f < 14, 2 ≤ f → shl i64 1 (64 - f) = .ok (2 ^ (64 - f)) ∧ cdiv i64.promote 0x5000000000000 (2 ^ (64 - f)) = .ok 0 := by
    decide +kernel
  have h2 := h.f2
  have d0 := h.dpos
  have := h.room
  obtain ⟨k1, k2⟩ := key F.f (by omega) h.f2
  unfold epsilon fromFixedNumValue
  rw [if_pos (by omega), h.r, if_neg (by decide), k1, Res.bind_ok, k2, Res.bind_ok, IntTy.wrap_of_inRange h.v.tpos (h.inr le_rfl (by omega))]
  rfl

end CF

/-- What the analysis needs about the unit `D` and the margin `T`. -/
structure CA (D T : Int) : Prop where
  d0 : 0 < D
  t1 : 1 ≤ T
  t4 : 4 * T ≤ D
  t3 : D ≤ (2 * T) ^ 3
  y : ∀ a : Int, 0 ≤ a → D ^ 2 ≤ (a + 1) ^ 3 → D ≤ a * a
  small : ∀ fp a : Int, 1 ≤ fp → 0 ≤ a → fp * D ^ 2 ≤ (a + 1) ^ 3 → (a ≤ T ∨ (a - T) ^ 3 ≤ fp * D ^ 2) →
    T ^ 3 * (fp * D ^ 2) < (6 * T ^ 2 + 10 * T + 3) ^ 3 →
    fp * D / (a * a / D) + 2 * a ≤ 3 * T ∨ (fp * D / (a * a / D) + 2 * a - 3 * T) ^ 3 ≤ 27 * (fp * D ^ 2)

/-- One step of the iteration: never more than one below the root, and never above the larger of the old iterate and the root plus `T`. -/
theorem coarse_step {D T fp a : Int} (c : CA D T) (h1 : 1 ≤ fp) (a0 : 0 ≤ a) (root : fp * D ^ 2 ≤ (a + 1) ^ 3) {r : ℝ} (r0 : 0 ≤ r)
    (hr : r ^ 3 = fp * D ^ 2) :
    1 ≤ a * a / D ∧ 0 ≤ fp * D / (a * a / D) ∧ fp * D ^ 2 ≤ (gStep D fp a + 1) ^ 3 ∧
    ((r + T ≤ a ∧ ((fp * D / (a * a / D) : Int) : ℝ) ≤ r) ∨ (a < r + T ∧ ((fp * D / (a * a / D) : Int) : ℝ) + 2 * a ≤ 3 * (r + T))) := by
  obtain ⟨hD0, t1, -, t3, hy, hsm⟩ := c
  have hD2 : D ^ 2 ≤ fp * D ^ 2 := by nlinarith [sq_nonneg D]
  have y1 : 1 ≤ a * a / D := by
    rw [Int.le_ediv_iff_mul_le hD0, one_mul]
    exact hy a a0 (hD2.trans root)
  have sm := hsm fp a h1 a0 root
  have d1 := Int.ediv_mul_le (a * a) hD0.ne'
  have d2 := Int.lt_ediv_add_one_mul_self (a * a) hD0
  unfold gStep
  generalize a * a / D = y at *
  have q1 := Int.ediv_mul_le (fp * D) (by omega : y ≠ 0)
  have q2 := Int.lt_ediv_add_one_mul_self (fp * D) (by omega : 0 < y)
  have q0 : 0 ≤ fp * D / y := Int.ediv_nonneg (mul_nonneg (by omega) hD0.le) (by omega)
  generalize fp * D / y = q at *
  refine ⟨y1, q0, ?_, ?_⟩
  · have hs := Int.lt_ediv_add_one_mul_self (q + 2 * a) (by norm_num : (0 : Int) < 3)
    have b0 : 0 ≤ (q + 2 * a) / 3 := by omega
    generalize (q + 2 * a) / 3 = a' at *
    have e1 : fp * D ^ 2 ≤ (q + 1) * (y * D) := by
      have := mul_le_mul_of_nonneg_right q2.le hD0.le
      nlinarith
    have e2 : (q + 1) * (y * D) ≤ (q + 1) * (a * a) := mul_le_mul_of_nonneg_left d1 (by omega)
    have e3 := amgm (t := q + 1) (a := a) (by omega) (by omega)
    have e4 : (q + 1 + 2 * a) ^ 3 ≤ (3 * (a' + 1)) ^ 3 := pow_le_pow_left₀ (by omega) (by omega) 3
    rw [mul_pow] at e4
    have e5 : (q + 1) * a * a = (q + 1) * (a * a) := by ring
    rw [e5] at e3
    omega
  · have hD' : (0 : ℝ) < D := by exact_mod_cast hD0
    have t1' : (1 : ℝ) ≤ T := by exact_mod_cast t1
    have t3' : (D : ℝ) ≤ (2 * T) ^ 3 := by exact_mod_cast t3
    have d2' : (a : ℝ) * a < (y + 1) * D := by exact_mod_cast d2
    have q1' : (q : ℝ) * y ≤ fp * D := by exact_mod_cast q1
    have q0' : (0 : ℝ) ≤ q := by exact_mod_cast q0
    have a0' : (0 : ℝ) ≤ a := by exact_mod_cast a0
    have root' : r ^ 3 ≤ ((a : ℝ) + 1) ^ 3 := by rw [hr]; exact_mod_cast root
    have hD2' : (D : ℝ) ^ 2 ≤ r ^ 3 := by rw [hr]; exact_mod_cast hD2
    have hra : r ≤ a + 1 := by
      by_contra hc; push Not at hc
      have := pow_lt_pow_left₀ hc (by linarith) (n := 3) (by norm_num)
      linarith
    have hDr : (D : ℝ) ≤ 2 * T * r := by
      by_contra hc; push Not at hc
      have h := pow_lt_pow_left₀ hc (by positivity) (n := 3) (by norm_num)
      have e : (2 * (T : ℝ) * r) ^ 3 = (2 * T) ^ 3 * r ^ 3 := by ring
      have : (D : ℝ) * D ^ 2 ≤ (2 * T) ^ 3 * r ^ 3 := mul_le_mul t3' hD2' (by positivity) (by positivity)
      nlinarith
    have qq : (q : ℝ) * (y * D) ≤ r ^ 3 := by
      have := mul_le_mul_of_nonneg_right q1' hD'.le
      rw [hr]; nlinarith
    by_cases hc : r + T ≤ a
    · refine Or.inl ⟨hc, ?_⟩
      by_contra hq; push Not at hq
      have e1 : (r + T) ^ 2 ≤ (a : ℝ) ^ 2 := pow_le_pow_left₀ (by positivity) hc 2
      have e2 : r ^ 2 < y * D := by nlinarith
      have e3 : r * r ^ 2 ≤ q * (y * D) := mul_le_mul hq.le e2.le (by positivity) q0'
      have e4 : 0 < (q - r) * (y * D) := mul_pos (by linarith) (by nlinarith)
      have e5 : r * r ^ 2 ≤ r * (y * D) := mul_le_mul_of_nonneg_left e2.le r0
      nlinarith
    · push Not at hc
      refine Or.inr ⟨hc, ?_⟩
      by_cases hbig : 6 * (T : ℝ) ^ 2 + 10 * T + 3 ≤ T * r
      · by_contra hq; push Not at hq
        obtain ⟨s, hs⟩ : ∃ s : ℝ, (a : ℝ) = r + s := ⟨a - r, by ring⟩
        rw [hs] at hq hra hc d2'
        have s1 : -1 ≤ s := by linarith
        have s2 : s < T := by linarith
        have hk : 0 < r + 3 * T - 2 * s := by linarith
        have m1 : 0 ≤ r * (2 * T * r - D) := mul_nonneg r0 (by linarith)
        have m2 : 0 ≤ r * (3 * (s + 1) * (2 * T + 1 - s)) := mul_nonneg r0 (mul_nonneg (by linarith) (by linarith))
        have m3 : 0 ≤ (3 * T - 2 * s) * s ^ 2 := mul_nonneg (by linarith) (sq_nonneg s)
        have m4 : (3 * T - 2 * s) * D ≤ (3 * T + 2) * (2 * T * r) := mul_le_mul (by linarith) hDr hD'.le (by linarith)
        have m5 : 0 ≤ r * (T * r - (6 * T ^ 2 + 10 * T + 3)) := mul_nonneg r0 (by linarith)
        have poly : r ^ 3 ≤ (r + 3 * T - 2 * s) * ((r + s) * (r + s) - D) := by nlinarith
        have rp : 0 < r ^ 3 := lt_of_lt_of_le (by positivity) hD2'
        have pos : 0 < (r + s) * (r + s) - D := by
          by_contra hn; push Not at hn
          have := mul_nonpos_of_nonneg_of_nonpos hk.le hn
          linarith
        have e1 : (r + 3 * T - 2 * s) * ((r + s) * (r + s) - D) < q * ((r + s) * (r + s) - D) := mul_lt_mul_of_pos_right (by linarith) pos
        have e2 : (q : ℝ) * ((r + s) * (r + s) - D) ≤ q * (y * D) := mul_le_mul_of_nonneg_left (by linarith) q0'
        linarith
      · push Not at hbig
        have := sm (by
          by_cases ht : a ≤ T
          · exact Or.inl ht
          · right
            have : ((a : ℝ) - T) ^ 3 ≤ r ^ 3 := pow_le_pow_left₀ (by have : (T : ℝ) < a := by exact_mod_cast (not_le.1 ht)
                                                                     linarith) (by linarith) 3
            rw [hr] at this
            exact_mod_cast this) (by
          have h := pow_lt_pow_left₀ hbig (by positivity) (n := 3) (by norm_num)
          rw [mul_pow, hr] at h
          exact_mod_cast h)
        rcases this with h | h
        · have : (q : ℝ) + 2 * a ≤ 3 * T := by exact_mod_cast h
          linarith
        · have h' : ((q : ℝ) + 2 * a - 3 * T) ^ 3 ≤ (3 * r) ^ 3 := by
            rw [mul_pow, hr]; norm_num; exact_mod_cast h
          by_contra hn; push Not at hn
          have := pow_lt_pow_left₀ (show 3 * r < (q : ℝ) + 2 * a - 3 * T by linarith) (by linarith) (n := 3) (by norm_num)
          linarith

/-- One pass: the loop test succeeds whatever it compares. -/
theorem coarse_pass {F : FxTy} {D H T fp a : Int} (k : CF F D H) (c : CA D T) (h1 : 1 ≤ fp) (hfp : fp < H) (a0 : 0 ≤ a)
    (root : fp * D ^ 2 ≤ (a + 1) ^ 3) {r M : ℝ} (r0 : 0 ≤ r) (hr : r ^ 3 = fp * D ^ 2) (hM : r + T ≤ M) (hM2 : M * M < H * D) (hM3 : 3 * M < H)
    (ha : (a : ℝ) ≤ M) (ht : ∃ w e d, mul F (a * a / D) a = .ok w ∧ sub F fp w = .ok e ∧ abs F e = .ok d ∧ 0 ≤ d) (n : Nat) :
    cbrtLoop F fp 0 n a = match n with
      | 0 => .ok a
      | n + 1 => cbrtLoop F fp 0 n (gStep D fp a) := by
  obtain ⟨y1, q0, -, hq⟩ := coarse_step c h1 a0 root r0 hr
  obtain ⟨w, e, d, hw, he, hd, hd0⟩ := ht
  have hD0 := c.d0
  have a0' : (0 : ℝ) ≤ a := by exact_mod_cast a0
  have T0 : (1 : ℝ) ≤ T := by exact_mod_cast c.t1
  have a3 : 3 * a < H := by
    have : 3 * (a : ℝ) < H := by linarith
    exact_mod_cast this
  have a2 : a * a < H * D := by
    have : (a : ℝ) * a < H * D := lt_of_le_of_lt (mul_le_mul ha ha a0' (by linarith)) hM2
    exact_mod_cast this
  have y2 : a * a / D < H := Int.ediv_lt_of_lt_mul hD0 a2
  have e2 := k.cf_mul a0 (by omega) a0 (by omega) y2
  have qa : fp * D / (a * a / D) + a * 2 < H := by
    have : ((fp * D / (a * a / D) : Int) : ℝ) + a * 2 < H := by
      rcases hq with ⟨_, h⟩ | ⟨_, h⟩ <;> linarith
    exact_mod_cast this
  have q := k.cf_div (by omega : 0 ≤ fp) hfp (by omega : 0 < a * a / D) (by omega)
  have t := k.cf_twice a0 (by omega)
  have s := k.cf_add q0 (by omega : 0 ≤ a * 2) qa
  have x' := k.cf_third (x := fp * D / (a * a / D) + a * 2) (by omega) qa
  rw [cbrtLoop_unf, e2, Res.bind_ok, hw, Res.bind_ok, he, Res.bind_ok, hd, Res.bind_ok, if_pos (by rw [ge_iff]; exact hd0)]
  cases n with
  | zero => rfl
  | succ n =>
    dsimp only
    rw [Res.bind_ok, q, Res.bind_ok, t, Res.bind_ok, s, Res.bind_ok, x', Res.bind_ok]
    unfold gStep; rw [mul_comm a 2]

/-- The whole loop. -/
theorem coarse_loop {F : FxTy} {D H T fp : Int} (k : CF F D H) (c : CA D T) (h1 : 1 ≤ fp) (hfp : fp < H)
    {r M : ℝ} (r0 : 0 ≤ r) (hr : r ^ 3 = fp * D ^ 2) (hM : r + T ≤ M) (hM2 : M * M < H * D) (hM3 : 3 * M < H)
    (ht : ∀ a : Int, 0 ≤ a → (a : ℝ) ≤ M → ∃ w e d, mul F (a * a / D) a = .ok w ∧ sub F fp w = .ok e ∧ abs F e = .ok d ∧ 0 ≤ d) :
    ∀ (n : Nat) (a : Int), 0 ≤ a → fp * D ^ 2 ≤ (a + 1) ^ 3 → (a : ℝ) ≤ M →
    ∃ z, cbrtLoop F fp 0 n a = .ok z ∧ 0 ≤ z ∧ (z : ℝ) ≤ M ∧ fp * D ^ 2 ≤ (z + 1) ^ 3 ∧
      ((z : ℝ) ≤ r + T ∨ (z : ℝ) - r ≤ (2 / 3) ^ n * (a - r)) := by
  intro n
  have T0 : (1 : ℝ) ≤ T := by exact_mod_cast c.t1
  induction n with
  | zero =>
    intro a a0 root ha
    rw [coarse_pass k c h1 hfp a0 root r0 hr hM hM2 hM3 ha (ht a a0 ha)]
    exact ⟨a, rfl, a0, ha, root, Or.inr (by norm_num)⟩
  | succ n ih =>
    intro a a0 root ha
    rw [coarse_pass k c h1 hfp a0 root r0 hr hM hM2 hM3 ha (ht a a0 ha)]
    obtain ⟨-, q0, root', hq⟩ := coarse_step c h1 a0 root r0 hr
    have hg : (gStep D fp a : ℝ) * 3 ≤ ((fp * D / (a * a / D) : Int) : ℝ) + 2 * a := by
      have := Int.ediv_mul_le (fp * D / (a * a / D) + 2 * a) (by norm_num : (3 : Int) ≠ 0)
      unfold gStep; exact_mod_cast this
    have g0 : 0 ≤ gStep D fp a := by unfold gStep; omega
    have p0 : (0 : ℝ) ≤ (2 / 3) ^ n := by positivity
    have p1 : ((2 / 3 : ℝ)) ^ n ≤ 1 := pow_le_one₀ (by norm_num) (by norm_num)
    rcases hq with ⟨hc, hq⟩ | ⟨hc, hq⟩
    · obtain ⟨z, z1, z2, z3, z4, z5⟩ := ih _ g0 root' (by linarith)
      refine ⟨z, z1, z2, z3, z4, z5.imp_right fun h => ?_⟩
      have : (2 / 3 : ℝ) ^ n * ((gStep D fp a : ℝ) - r) ≤ (2 / 3) ^ n * (2 / 3 * (a - r)) := mul_le_mul_of_nonneg_left (by linarith) p0
      rw [pow_succ]; linarith
    · obtain ⟨z, z1, z2, z3, z4, z5⟩ := ih _ g0 root' (by linarith)
      refine ⟨z, z1, z2, z3, z4, Or.inl ?_⟩
      rcases z5 with h | h
      · exact h
      · have e1 : (2 / 3 : ℝ) ^ n * ((gStep D fp a : ℝ) - r) ≤ (2 / 3) ^ n * T := mul_le_mul_of_nonneg_left (by linarith) p0
        have e2 : (2 / 3 : ℝ) ^ n * T ≤ 1 * T := mul_le_mul_of_nonneg_right p1 (by linarith)
        linarith

/-- The inequality of `CA.small` at one point. -/
def smallOk (D T : Int) (fp a : Nat) : Bool :=
  !(decide (1 ≤ fp)) || !(decide ((fp : Int) * D ^ 2 ≤ ((a : Int) + 1) ^ 3)) || !(decide ((a : Int) ≤ T) || decide (((a : Int) - T) ^ 3 ≤ fp * D ^ 2)) ||
  decide ((fp : Int) * D / (a * a / D) + 2 * a ≤ 3 * T) || decide (((fp : Int) * D / (a * a / D) + 2 * a - 3 * T) ^ 3 ≤ 27 * (fp * D ^ 2))

theorem ca_mk (D T : Int) (B A : Nat) (d0 : 0 < D) (d1 : D ≤ 8192) (t1 : 1 ≤ T) (t4 : 4 * T ≤ D) (t3 : D ≤ (2 * T) ^ 3)
    (y : ∀ a : Nat, a < 91 → D ^ 2 ≤ ((a : Int) + 1) ^ 3 → D ≤ (a : Int) * a) (hB : (6 * T ^ 2 + 10 * T + 3) ^ 3 ≤ T ^ 3 * D ^ 2 * B)
    (hA : (6 * T ^ 2 + 10 * T + 3) ^ 3 ≤ T ^ 3 * (A - T) ^ 3) (hAT : T < A)
    (s : ∀ fp < B, ∀ a < A, smallOk D T fp a = true) : CA D T := by
  refine ⟨d0, t1, t4, t3, ?_, ?_⟩
  · intro a a0 h
    by_cases hc : a < 91
    · obtain ⟨n, rfl⟩ := Int.eq_ofNat_of_zero_le a0
      exact y n (by omega) h
    · nlinarith
  · intro fp a h1 a0 root hl hs
    have T3 : 0 < T ^ 3 := by positivity
    have TD : 0 < T ^ 3 * D ^ 2 := by positivity
    have hfp : fp < B := by
      have : T ^ 3 * D ^ 2 * fp < T ^ 3 * D ^ 2 * B := by linarith [show T ^ 3 * (fp * D ^ 2) = T ^ 3 * D ^ 2 * fp by ring]
      exact lt_of_mul_lt_mul_left this TD.le
    have ha : a < A := by
      by_contra hc
      rcases hl with h | h
      · omega
      · have e1 : ((A : Int) - T) ^ 3 ≤ (a - T) ^ 3 := pow_le_pow_left₀ (by omega) (by omega) 3
        have e2 := mul_le_mul_of_nonneg_left (e1.trans h) T3.le
        linarith
    obtain ⟨n, rfl⟩ := Int.eq_ofNat_of_zero_le (by omega : 0 ≤ fp)
    obtain ⟨m, rfl⟩ := Int.eq_ofNat_of_zero_le a0
    have := s n (by omega) m (by omega)
    unfold smallOk at this
    simp only [Bool.or_eq_true, Bool.not_eq_true', decide_eq_true_eq, decide_eq_false_iff_not, Bool.or_eq_false_iff, not_le] at this
    rcases this with (((h | h) | h) | h) | h
    · omega
    · omega
    · rcases hl with g | g <;> omega
    · exact Or.inl h
    · exact Or.inr h

/-- The margin for each number of fraction bits: the least `T` with `2 ^ f ≤ (2 T) ^ 3`. -/
theorem ca_table : ∀ f : Nat, 2 ≤ f → f ≤ 13 → ∃ T : Int, CA (2 ^ f) T ∧ ∀ t : Int, (2 : Int) ^ f ≤ (2 * t) ^ 3 → T ≤ t := by
  have least : ∀ (D T t : Int), 1 ≤ T → (2 * (T - 1)) ^ 3 < D → D ≤ (2 * t) ^ 3 → T ≤ t := by
    intro D T t t1 h h'
    by_contra hc
    by_cases t0 : 0 ≤ t
    · have := pow_le_pow_left₀ (by omega) (show 2 * t ≤ 2 * (T - 1) by omega) 3
      omega
    · have e : (2 * t) ^ 3 < 0 := by
        have : 0 < (-t) ^ 3 := pow_pos (by omega) 3
        nlinarith
      have : (0 : Int) ≤ (2 * (T - 1)) ^ 3 := pow_nonneg (by omega) 3
      omega
  intro f f2 f13
  interval_cases f
  · exact ⟨1, ca_mk _ 1 429 20 (by decide) (by decide) (by decide) (by decide) (by decide) (by decide +kernel) (by decide) (by decide) (by decide) (by decide +kernel), fun t => least _ _ t (by decide) (by decide)⟩
  · exact ⟨1, ca_mk _ 1 108 20 (by decide) (by decide) (by decide) (by decide) (by decide) (by decide +kernel) (by decide) (by decide) (by decide) (by decide +kernel), fun t => least _ _ t (by decide) (by decide)⟩
  · exact ⟨2, ca_mk _ 2 51 26 (by decide) (by decide) (by decide) (by decide) (by decide) (by decide +kernel) (by decide) (by decide) (by decide) (by decide +kernel), fun t => least _ _ t (by decide) (by decide)⟩
  · exact ⟨2, ca_mk _ 2 13 26 (by decide) (by decide) (by decide) (by decide) (by decide) (by decide +kernel) (by decide) (by decide) (by decide) (by decide +kernel), fun t => least _ _ t (by decide) (by decide)⟩
  · exact ⟨2, ca_mk _ 2 4 26 (by decide) (by decide) (by decide) (by decide) (by decide) (by decide +kernel) (by decide) (by decide) (by decide) (by decide +kernel), fun t => least _ _ t (by decide) (by decide)⟩
  · exact ⟨3, ca_mk _ 3 2 32 (by decide) (by decide) (by decide) (by decide) (by decide) (by decide +kernel) (by decide) (by decide) (by decide) (by decide +kernel), fun t => least _ _ t (by decide) (by decide)⟩
  · exact ⟨4, ca_mk _ 4 1 39 (by decide) (by decide) (by decide) (by decide) (by decide) (by decide +kernel) (by decide) (by decide) (by decide) (by decide +kernel), fun t => least _ _ t (by decide) (by decide)⟩
  · exact ⟨4, ca_mk _ 4 1 39 (by decide) (by decide) (by decide) (by decide) (by decide) (by decide +kernel) (by decide) (by decide) (by decide) (by decide +kernel), fun t => least _ _ t (by decide) (by decide)⟩
  · exact ⟨6, ca_mk _ 6 1 53 (by decide) (by decide) (by decide) (by decide) (by decide) (by decide +kernel) (by decide) (by decide) (by decide) (by decide +kernel), fun t => least _ _ t (by decide) (by decide)⟩
  · exact ⟨7, ca_mk _ 7 1 60 (by decide) (by decide) (by decide) (by decide) (by decide) (by decide +kernel) (by decide) (by decide) (by decide) (by decide +kernel), fun t => least _ _ t (by decide) (by decide)⟩
  · exact ⟨8, ca_mk _ 8 1 67 (by decide) (by decide) (by decide) (by decide) (by decide) (by decide +kernel) (by decide) (by decide) (by decide) (by decide +kernel), fun t => least _ _ t (by decide) (by decide)⟩
  · exact ⟨11, ca_mk _ 11 1 88 (by decide) (by decide) (by decide) (by decide) (by decide) (by decide +kernel) (by decide) (by decide) (by decide) (by decide +kernel), fun t => least _ _ t (by decide) (by decide)⟩

/-- The bound for the iterates: `M` is `1.99` or the start value, whichever is larger. -/
theorem coarse_room {D T fp : Int} (c : CA D T) {r : ℝ} (hr : r ^ 3 = fp * D ^ 2) :
    r + T ≤ 1.99 * D ∨ r + T ≤ (fp + 2 * D) / 3 := by
  have hD : (0 : ℝ) < D := by exact_mod_cast c.d0
  have t4 : 4 * (T : ℝ) ≤ D := by exact_mod_cast c.t4
  by_cases hc : r ≤ 1.74 * D
  · left; linarith
  · right
    push Not at hc
    -- with `r = u D`: `(u ^ 3 + 2) / 3 - u ≥ 1 / 4`
    have e : (fp : ℝ) = r ^ 3 / D ^ 2 := by rw [hr]; field_simp
    obtain ⟨u, hu⟩ : ∃ u : ℝ, r = u * D := ⟨r / D, by field_simp⟩
    have hu1 : 1.74 < u := by
      rw [hu] at hc; exact lt_of_mul_lt_mul_right hc hD.le
    have e2 : (fp : ℝ) = u ^ 3 * D := by rw [e, hu]; field_simp
    have h3 : 3 * u - 1.25 ≤ u ^ 3 := by nlinarith [sq_nonneg (u - 1), mul_pos (by linarith : 0 < u) (by linarith : 0 < u)]
    have := mul_le_mul_of_nonneg_right h3 hD.le
    rw [e2, hu]
    linarith

/-- The function on raw values, given that the test in the loop is always defined. -/
theorem coarse_core {F : FxTy} {D H T x : Int} (k : CF F D H) (h13 : F.f ≤ 13) (c : CA D T) (h1 : 1 ≤ x) (hx : x + 2 * D < H)
    (h2 : (x + 2 * D) ^ 2 < 9 * (H * D))
    (ht : ∀ a : Int, 0 ≤ a → a < 2 * D ∨ 3 * a ≤ x + 2 * D → ∃ w e d, mul F (a * a / D) a = .ok w ∧ sub F x w = .ok e ∧ abs F e = .ok d ∧ 0 ≤ d) :
    ∃ z, cbrt F x = .ok z ∧ 0 ≤ z ∧ x * D ^ 2 ≤ (z + 1) ^ 3 ∧ (z - T) ^ 3 ≤ x * D ^ 2 := by
  have d0 := k.dpos
  have room := k.room
  have x0r : (0 : ℝ) ≤ x := by exact_mod_cast (by omega : 0 ≤ x)
  obtain ⟨r, r0, hr⟩ := exists_root ((x : ℝ) * (D : ℝ) ^ 2) (by positivity)
  obtain ⟨M, hMd⟩ : ∃ M : ℝ, M = Max.max (1.99 * (D : ℝ)) ((x + 2 * D) / 3) := ⟨_, rfl⟩
  have hD' : (0 : ℝ) < D := by exact_mod_cast d0
  have room' : 8 * (D : ℝ) ≤ H := by exact_mod_cast room
  have hx' : (x : ℝ) + 2 * D < H := by exact_mod_cast hx
  have h2' : ((x : ℝ) + 2 * D) ^ 2 < 9 * (H * D) := by exact_mod_cast h2
  have hM : r + T ≤ M := by
    rw [hMd]
    rcases coarse_room c hr with h | h
    · exact h.trans (le_max_left _ _)
    · exact h.trans (le_max_right _ _)
  have hMc : M = 1.99 * (D : ℝ) ∨ M = (x + 2 * D) / 3 := by rw [hMd]; exact max_choice _ _
  have hM2 : M * M < H * D := by
    rcases hMc with h | h <;> rw [h]
    · have : 8 * (D : ℝ) * D ≤ H * D := mul_le_mul_of_nonneg_right room' hD'.le
      have : 0 < (D : ℝ) * D := by positivity
      linarith
    · linarith [show (x + 2 * (D : ℝ)) / 3 * ((x + 2 * D) / 3) = (x + 2 * D) ^ 2 / 9 by ring]
  have hM3 : 3 * M < H := by
    rcases hMc with h | h <;> rw [h] <;> linarith
  have start : ((((x + 2 * D) / 3 : Int)) : ℝ) ≤ M := by
    have h3 := Int.ediv_mul_le (x + 2 * D) (by norm_num : (3 : Int) ≠ 0)
    have h4 : ((((x + 2 * D) / 3 : Int)) : ℝ) * 3 ≤ x + 2 * D := by exact_mod_cast h3
    have h5 : ((x : ℝ) + 2 * D) / 3 ≤ M := by rw [hMd]; exact le_max_right _ _
    linarith
  have root : x * D ^ 2 ≤ ((x + 2 * D) / 3 + 1) ^ 3 := by
    have e := amgm (t := x) (a := D) (by omega) (by omega)
    have e2 : (x + 2 * D) ^ 3 ≤ (3 * ((x + 2 * D) / 3 + 1)) ^ 3 := pow_le_pow_left₀ (by omega) (by omega) 3
    rw [mul_pow] at e2
    have e3 : x * D * D = x * D ^ 2 := by ring
    rw [e3] at e
    norm_num at e2
    omega
  obtain ⟨z, z1, z2, -, z4, z5⟩ := coarse_loop k c h1 (by omega) r0 hr hM hM2 hM3 (fun a a0 ha => by
    refine ht a a0 ?_
    rcases hMc with h | h <;> rw [h] at ha
    · left
      have : (a : ℝ) < 2 * D := by linarith
      exact_mod_cast this
    · right
      have : 3 * (a : ℝ) ≤ x + 2 * D := by linarith
      exact_mod_cast this) 201 _ (by omega) root start
  have T0 : (1 : ℝ) ≤ T := by exact_mod_cast c.t1
  have zr : (z : ℝ) ≤ r + T := by
    rcases z5 with h | h
    · exact h
    · have hH : H ≤ 2 ^ 64 := by
        have e1 := k.hi
        have e2 : F.T.hi ≤ 2 ^ 64 - 1 := by
          have hb : F.T.bits ≤ 64 := by have := k.v.1; omega
          unfold IntTy.hi
          split
          · have : (2 : Int) ^ (F.T.bits - 1) ≤ 2 ^ 64 := pow_le_pow_right₀ (by norm_num) (by omega)
            omega
          · have : (2 : Int) ^ F.T.bits ≤ 2 ^ 64 := pow_le_pow_right₀ (by norm_num) hb
            omega
        omega
      have hH' : (H : ℝ) ≤ 2 ^ 64 := by exact_mod_cast hH
      have e3 : (2 / 3 : ℝ) ^ 201 * ((((x + 2 * D) / 3 : Int) : ℝ) - r) ≤ (2 / 3 : ℝ) ^ 201 * 2 ^ 64 :=
        mul_le_mul_of_nonneg_left (by linarith) (by positivity)
      have e4 : (2 / 3 : ℝ) ^ 201 * 2 ^ 64 ≤ 1 := by norm_num
      linarith
  refine ⟨z, ?_, z2, z4, ?_⟩
  · have hm : mulInt F i32 0 2 = .ok 0 := k.cf_twice le_rfl (by omega)
    unfold cbrt
    rw [k.cf_abs (by omega) (by omega), Res.bind_ok, k.cf_eps h13, Res.bind_ok, if_neg (by rw [lt_iff]; omega), k.cf_start (by omega) hx, Res.bind_ok,
      k.cf_third (by omega) hx, Res.bind_ok, hm, Res.bind_ok, z1]
  · have e : ((z : ℝ) - T) ^ 3 ≤ r ^ 3 := (Odd.strictMono_pow (by decide : Odd 3)).monotone (by linarith)
    rw [hr] at e
    exact_mod_cast e

/-- The conclusion for values. -/
theorem coarse_vals {F : FxTy} {D T x z : Int} (hD : (2 : Int) ^ F.f = D) (z0 : 0 ≤ z) (z1 : x * D ^ 2 ≤ (z + 1) ^ 3) (z2 : (z - T) ^ 3 ≤ x * D ^ 2)
    (t : Nat) (ht : T ≤ t) : 0 ≤ val F z ∧ val F x ≤ (val F z + ulp F) ^ 3 ∧ (val F z - t * ulp F) ^ 3 ≤ val F x := by
  have d0 : 0 < D := by rw [← hD]; positivity
  have hDq : (0 : ℚ) < D := by exact_mod_cast d0
  have vv := val_real F
  have uu := ulp_real F
  rw [hD] at uu
  simp only [hD] at vv
  refine ⟨?_, ?_, ?_⟩
  · rw [vv]
    have : (0 : ℚ) ≤ z := by exact_mod_cast z0
    positivity
  · have : (x : ℚ) * D ^ 2 ≤ (z + 1) ^ 3 := by exact_mod_cast z1
    rw [vv, vv, uu, show ((z : ℚ) / D + 1 / D) ^ 3 = (z + 1) ^ 3 / D ^ 3 by rw [← add_div, div_pow], div_le_div_iff₀ hDq (by positivity)]
    have := mul_le_mul_of_nonneg_right this hDq.le
    nlinarith
  · have h3 : (z - t) ^ 3 ≤ (z - T) ^ 3 := (Odd.strictMono_pow (by decide : Odd 3)).monotone (by omega)
    have : ((z : ℚ) - t) ^ 3 ≤ x * D ^ 2 := by exact_mod_cast h3.trans z2
    rw [vv, vv, uu, show ((z : ℚ) / D - t * (1 / D)) ^ 3 = (z - t) ^ 3 / D ^ 3 by rw [mul_one_div, ← sub_div, div_pow], div_le_div_iff₀ (by positivity) hDq]
    have := mul_le_mul_of_nonneg_right this hDq.le
    nlinarith

/-- C179 (signed storage of any width): for a positive argument for which the cube of the start value `(x + 2) / 3` is in range, the result is at most one ulp
below the cube root and at most `t` ulps above it, where `t` is any number with `2 ^ f ≤ (2 t) ^ 3`: 1 for up to 3 fraction bits, 4 for 8, 11 for 13. -/
theorem C179_signed (F : FxTy) (hF : F.Valid) (hs : F.T.signed = true) (hr : F.r = false) (h2 : 2 ≤ F.f) (h13 : F.f ≤ 13) (h4 : F.f + 4 ≤ F.T.bits)
    (x : Int) (h0 : 0 < val F x) (hc : ((val F x + 2) / 3) ^ 3 < val F F.T.hi + ulp F) (t : Nat) (ht : 2 ^ F.f ≤ (2 * t) ^ 3) :
    ∃ r, cbrt F x = .ok r ∧ 0 ≤ val F r ∧ val F x ≤ (val F r + ulp F) ^ 3 ∧ (val F r - t * ulp F) ^ 3 ≤ val F x := by
  obtain ⟨D, hDF⟩ : ∃ D : Int, (2 : Int) ^ F.f = D := ⟨_, rfl⟩
  obtain ⟨H, hHF⟩ : ∃ H : Int, (2 : Int) ^ (F.T.bits - 1) = H := ⟨_, rfl⟩
  have hhi : F.T.hi = H - 1 := by unfold IntTy.hi; simp [hs, hHF]
  have hlo : F.T.lo = -H := by unfold IntTy.lo; simp [hs, hHF]
  have room : 8 * D ≤ H := by
    rw [← hDF, ← hHF, show (8 : Int) = 2 ^ 3 by norm_num, ← pow_add]
    exact pow_le_pow_right₀ (by norm_num) (by omega)
  have k : CF F D H := ⟨hF, hr, hDF, hhi, room, h2, by omega⟩
  have d0 := k.dpos
  have hDq : (0 : ℚ) < D := by exact_mod_cast d0
  obtain ⟨T, c, cl⟩ := ca_table F.f h2 h13
  rw [hDF] at c cl
  have hT : T ≤ t := cl t (by rw [← hDF]; exact_mod_cast ht)
  have vv := val_real F
  have uu := ulp_real F
  rw [hDF] at uu
  simp only [hDF] at vv
  have x1 : 1 ≤ x := by
    have := (val_lt (F := F) (x := 0) (y := x)).1 (by rw [val_zero]; exact h0)
    omega
  have g : (x + 2 * D) ^ 3 < 27 * (H * D ^ 2) := by
    rw [vv, vv, uu, hhi] at hc
    have e1 : ((x : ℚ) / D + 2) / 3 = (x + 2 * D) / (3 * D) := by field_simp
    have e2 : ((H - 1 : Int) : ℚ) / D + 1 / D = H / D := by push_cast; ring
    rw [e1, e2, div_pow, div_lt_div_iff₀ (by positivity) hDq] at hc
    have h1 : (((x : ℚ) + 2 * D) ^ 3) * D < (27 * (H * D ^ 2)) * D := by
      calc _ < _ := hc
        _ = _ := by ring
    have h2 := lt_of_mul_lt_mul_right h1 hDq.le
    exact_mod_cast h2
  have hD2 : 0 < D ^ 2 := by positivity
  have hD3 : 0 < D * D ^ 2 := by positivity
  have g1 : x + 2 * D < H := by
    by_contra hcc
    have e1 : H ^ 3 ≤ (x + 2 * D) ^ 3 := pow_le_pow_left₀ (by omega) (by omega) 3
    have e2 : (8 * D) ^ 2 ≤ H ^ 2 := pow_le_pow_left₀ (by omega) room 2
    have e3 : (8 * D) ^ 2 * H ≤ H ^ 2 * H := mul_le_mul_of_nonneg_right e2 (by omega)
    have e4 : 0 < H * D ^ 2 := mul_pos (by omega) hD2
    nlinarith
  have g2 : (x + 2 * D) ^ 2 < 9 * (H * D) := by
    by_cases hcc : x + 2 * D ≤ 6 * D
    · have : (x + 2 * D) ^ 2 ≤ (6 * D) ^ 2 := pow_le_pow_left₀ (by omega) hcc 2
      have : 8 * D * D ≤ H * D := mul_le_mul_of_nonneg_right room d0.le
      nlinarith
    · push Not at hcc
      have h4 : (x + 2 * D) ^ 2 * (3 * D) ≤ (x + 2 * D) ^ 2 * (x + 2 * D) := mul_le_mul_of_nonneg_left (by omega) (by positivity)
      have h5 : (x + 2 * D) ^ 2 * 3 * D < 27 * (H * D) * D := by nlinarith
      have := lt_of_mul_lt_mul_right h5 d0.le
      omega
  have sg : SG F := ⟨hF, hs, by unfold Storable; rw [hDF]; exact k.inr (by omega) (by omega)⟩
  obtain ⟨z, e, z0, z1, z2⟩ := coarse_core k h13 c x1 g1 g2 (by
    intro a a0 ha
    have a3 : a ^ 3 < H * D ^ 2 := by
      rcases ha with h | h
      · have e1 := pow_lt_pow_left₀ h a0 (n := 3) (by norm_num)
        have e2 : 8 * D * D ^ 2 ≤ H * D ^ 2 := mul_le_mul_of_nonneg_right room hD2.le
        nlinarith
      · have := pow_le_pow_left₀ (by omega) h 3
        rw [mul_pow] at this
        omega
    have y0 : 0 ≤ a * a / D := Int.ediv_nonneg (mul_nonneg a0 a0) d0.le
    have d1 := Int.ediv_mul_le (a * a) d0.ne'
    have a2 : a * a < H * D := by
      rcases ha with h | h
      · have e1 : a * a ≤ 2 * D * (2 * D) := mul_le_mul h.le h.le a0 (by omega)
        have e2 : 8 * D * D ≤ H * D := mul_le_mul_of_nonneg_right room d0.le
        nlinarith
      · have e1 : (3 * a) ^ 2 ≤ (x + 2 * D) ^ 2 := pow_le_pow_left₀ (by omega) h 2
        nlinarith
    have a1 : a < H := by omega
    have y2 : a * a / D < H := Int.ediv_lt_of_lt_mul d0 a2
    have w0 : 0 ≤ a * a / D * a / D := Int.ediv_nonneg (mul_nonneg y0 a0) d0.le
    have w1 : a * a / D * a / D < H := by
      apply Int.ediv_lt_of_lt_mul d0
      have e1 : a * a / D * D * a ≤ a * a * a := mul_le_mul_of_nonneg_right d1 a0
      have e2 : a * a / D * a * D < H * D * D := by nlinarith
      exact lt_of_mul_lt_mul_right e2 d0.le
    have hsub := sg.sub_ok (x := x) (y := a * a / D * a / D) ⟨by omega, by omega⟩
    refine ⟨_, _, _, k.cf_mul y0 y2 a0 a1 w1, hsub, sg.abs_ok ⟨by omega, by omega⟩ (by omega), abs_nonneg _⟩)
  exact ⟨z, e, coarse_vals hDF z0 z1 z2 t hT⟩

example : cbrt ⟨i16, i32, 8, false⟩ (8 * 256) = .ok 512 ∧ cbrt ⟨i16, i32, 8, false⟩ (12 * 256) = .ok 586 ∧
    (⟨i16, i32, 8, false⟩ : FxTy).Valid ∧ Storable ⟨i16, i32, 8, false⟩ (12 * 256) ∧ 0 < val ⟨i16, i32, 8, false⟩ (12 * 256) ∧
    ((val ⟨i16, i32, 8, false⟩ (12 * 256) + 2) / 3) ^ 3 < val ⟨i16, i32, 8, false⟩ i16.hi + ulp ⟨i16, i32, 8, false⟩ ∧ 2 ^ 8 ≤ (2 * 4) ^ 3 := by
  refine ⟨by decide +kernel, by decide +kernel, by decide, by decide +kernel, by norm_num [val], ?_, by norm_num⟩
  norm_num [val, ulp, IntTy.hi, i16]

/-- C179 (unsigned storage of any width): here it is enough that the square of the start value is in range. -/
theorem C179_unsigned (F : FxTy) (hF : F.Valid) (hs : F.T.signed = false) (hr : F.r = false) (h2 : 2 ≤ F.f) (h13 : F.f ≤ 13) (h4 : F.f + 4 ≤ F.T.bits)
    (x : Int) (h0 : 0 < val F x) (hc : ((val F x + 2) / 3) ^ 2 < val F F.T.hi + ulp F) (t : Nat) (ht : 2 ^ F.f ≤ (2 * t) ^ 3) :
    ∃ r, cbrt F x = .ok r ∧ 0 ≤ val F r ∧ val F x ≤ (val F r + ulp F) ^ 3 ∧ (val F r - t * ulp F) ^ 3 ≤ val F x := by
  obtain ⟨D, hDF⟩ : ∃ D : Int, (2 : Int) ^ F.f = D := ⟨_, rfl⟩
  obtain ⟨H, hHF⟩ : ∃ H : Int, (2 : Int) ^ F.T.bits = H := ⟨_, rfl⟩
  have hhi : F.T.hi = H - 1 := by unfold IntTy.hi; simp [hs, hHF]
  have hlo : F.T.lo = 0 := by unfold IntTy.lo; simp [hs]
  have room : 16 * D ≤ H := by
    rw [← hDF, ← hHF, show (16 : Int) = 2 ^ 4 by norm_num, ← pow_add]
    exact pow_le_pow_right₀ (by norm_num) (by omega)
  have d0 : 0 < D := by rw [← hDF]; positivity
  have k : CF F D H := ⟨hF, hr, hDF, hhi, by omega, h2, by omega⟩
  have hDq : (0 : ℚ) < D := by exact_mod_cast d0
  obtain ⟨T, c, cl⟩ := ca_table F.f h2 h13
  rw [hDF] at c cl
  have hT : T ≤ t := cl t (by rw [← hDF]; exact_mod_cast ht)
  have vv := val_real F
  have uu := ulp_real F
  rw [hDF] at uu
  simp only [hDF] at vv
  have x1 : 1 ≤ x := by
    have := (val_lt (F := F) (x := 0) (y := x)).1 (by rw [val_zero]; exact h0)
    omega
  have g2 : (x + 2 * D) ^ 2 < 9 * (H * D) := by
    rw [vv, vv, uu, hhi] at hc
    have e1 : ((x : ℚ) / D + 2) / 3 = (x + 2 * D) / (3 * D) := by field_simp
    have e2 : ((H - 1 : Int) : ℚ) / D + 1 / D = H / D := by push_cast; ring
    rw [e1, e2, div_pow, div_lt_div_iff₀ (by positivity) hDq] at hc
    have h1 : (((x : ℚ) + 2 * D) ^ 2) * D < (9 * (H * D)) * D := by
      calc _ < _ := hc
        _ = _ := by ring
    have h2 := lt_of_mul_lt_mul_right h1 hDq.le
    exact_mod_cast h2
  have g1 : x + 2 * D < H := by
    by_contra hcc
    have e1 : H ^ 2 ≤ (x + 2 * D) ^ 2 := pow_le_pow_left₀ (by omega) (by omega) 2
    have e2 : 16 * D * H ≤ H * H := mul_le_mul_of_nonneg_right room (by omega)
    have e3 : 0 < D * H := mul_pos d0 (by omega)
    nlinarith
  have hns : ¬ SignedWide F := fun h => by have := h.1; rw [hs] at this; cases this
  obtain ⟨z, e, z0, z1, z2⟩ := coarse_core k h13 c x1 g1 g2 (by
    intro a a0 ha
    have a2 : a * a < H * D := by
      rcases ha with h | h
      · have e1 : a * a ≤ 2 * D * (2 * D) := mul_le_mul h.le h.le a0 (by omega)
        have e2 : 16 * D * D ≤ H * D := mul_le_mul_of_nonneg_right room d0.le
        nlinarith
      · have e1 : (3 * a) ^ 2 ≤ (x + 2 * D) ^ 2 := pow_le_pow_left₀ (by omega) h 2
        nlinarith
    have y0 : 0 ≤ a * a / D := Int.ediv_nonneg (mul_nonneg a0 a0) d0.le
    have y2 : a * a / D < H := Int.ediv_lt_of_lt_mul d0 a2
    have wr := fun n => IntTy.wrap_inRange (t := F.T) n hF.tpos
    have hsub := sub_nf hF (x := x) (y := F.T.wrap (a * a / D * a / 2 ^ F.f)) (k.inr (by omega) (by omega)) (wr _)
    rw [if_neg (fun h => hns h.1)] at hsub
    have d1 := wr (x - F.T.wrap (a * a / D * a / 2 ^ F.f))
    have d2 := d1.1
    have d3 := d1.2
    exact ⟨_, _, _, mul_nf hF hr (k.inr y0 y2) (k.inr a0 (by omega)), hsub, k.cf_abs (by omega) (by omega), by omega⟩)
  exact ⟨z, e, coarse_vals hDF z0 z1 z2 t hT⟩

example : cbrt ⟨u16, u32, 8, false⟩ (27 * 256) = .ok 768 ∧ (⟨u16, u32, 8, false⟩ : FxTy).Valid ∧ Storable ⟨u16, u32, 8, false⟩ (27 * 256) ∧
    0 < val ⟨u16, u32, 8, false⟩ (27 * 256) ∧
    ((val ⟨u16, u32, 8, false⟩ (27 * 256) + 2) / 3) ^ 2 < val ⟨u16, u32, 8, false⟩ u16.hi + ulp ⟨u16, u32, 8, false⟩ ∧ cbrt ⟨u8, u16, 4, false⟩ 100 = .ok 29 := by
  refine ⟨by decide +kernel, by decide, by decide +kernel, by norm_num [val], ?_, by decide +kernel⟩
  norm_num [val, ulp, IntTy.hi, u16]

/-- The loop for the argument zero: the iterate shrinks by a third each time until its square rounds to zero. -/
theorem coarse_zero_loop {F : FxTy} {D H : Int} (k : CF F D H) : ∀ (n : Nat) (a : Int), 0 ≤ a → a ≤ D → a * 2 ^ n ≤ 3 ^ n →
    cbrtLoop F 0 0 (n + 1) a = .ub .divZero := by
  have d0 := k.dpos
  have room := k.room
  have d4 : 4 ≤ D := by
    rw [← k.d, show (4 : Int) = 2 ^ 2 by norm_num]
    exact pow_le_pow_right₀ (by norm_num) k.f2
  have step : ∀ (n : Nat) (a : Int), 0 ≤ a → a ≤ D → cbrtLoop F 0 0 (n + 1) a =
      if a * a / D = 0 then .ub .divZero else cbrtLoop F 0 0 n (a * 2 / 3) := by
    intro n a a0 a1
    have a2 : a * a ≤ D * D := mul_le_mul a1 a1 a0 d0.le
    have y0 : 0 ≤ a * a / D := Int.ediv_nonneg (mul_nonneg a0 a0) d0.le
    have y1 : a * a / D ≤ D := by
      have := Int.ediv_le_ediv d0 a2
      rwa [Int.mul_ediv_cancel _ d0.ne'] at this
    have b2 : a * a / D * a ≤ D * D := mul_le_mul y1 a1 a0 d0.le
    have w0 : 0 ≤ a * a / D * a / D := Int.ediv_nonneg (mul_nonneg y0 a0) d0.le
    have w1 : a * a / D * a / D ≤ D := by
      have := Int.ediv_le_ediv d0 b2
      rwa [Int.mul_ediv_cancel _ d0.ne'] at this
    have e2 := k.cf_mul a0 (by omega) a0 (by omega) (by omega)
    have e3 := k.cf_mul y0 (by omega) a0 (by omega) (by omega)
    generalize a * a / D * a / D = w at *
    obtain ⟨e, d, he, hd, hd0⟩ : ∃ e d, sub F 0 w = .ok e ∧ abs F e = .ok d ∧ 0 ≤ d := by
      cases hs : F.T.signed
      · have hns : ¬ SignedWide F := fun h => by have := h.1; rw [hs] at this; cases this
        have hsub := sub_nf k.v (x := 0) (y := w) (k.inr le_rfl (by omega)) (k.inr w0 (by omega))
        rw [if_neg (fun h => hns h.1)] at hsub
        have d1 := IntTy.wrap_inRange (t := F.T) (0 - w) k.v.tpos
        have d2 := d1.1
        have d3 := d1.2
        have hlo : F.T.lo = 0 := by unfold IntTy.lo; simp [hs]
        have hhi := k.hi
        exact ⟨_, _, hsub, k.cf_abs (by omega) (by omega), by omega⟩
      · have sg : SG F := ⟨k.v, hs, by unfold Storable; rw [k.d]; exact k.inr (by omega) (by omega)⟩
        have h1 := sg.lo_hi
        have hhi := k.hi
        exact ⟨_, _, sg.sub_ok ⟨by omega, by omega⟩, sg.abs_ok ⟨by omega, by omega⟩ (by omega), abs_nonneg _⟩
    rw [cbrtLoop_unf, e2, Res.bind_ok, e3, Res.bind_ok, he, Res.bind_ok, hd, Res.bind_ok, if_pos (by rw [ge_iff]; exact hd0)]
    dsimp only
    rw [Res.bind_ok]
    by_cases hy : a * a / D = 0
    · rw [if_pos hy, hy, div_nf k.v k.r (k.inr le_rfl (by omega)), if_pos rfl, Res.bind_ub]
    · rw [if_neg hy]
      have q := k.cf_div (x := 0) (y := a * a / D) le_rfl (by omega) (by omega) (by rw [zero_mul, Int.zero_ediv]; omega)
      rw [zero_mul, Int.zero_ediv] at q
      have s := k.cf_add (x := 0) (y := a * 2) le_rfl (by omega) (by omega)
      rw [zero_add] at s
      rw [q, Res.bind_ok, k.cf_twice a0 (by omega), Res.bind_ok, s, Res.bind_ok, k.cf_third (by omega) (by omega), Res.bind_ok]
  intro n
  induction n with
  | zero =>
    intro a a0 a1 h
    rw [step _ _ a0 a1, if_pos]
    have : a ≤ 1 := by simpa using h
    exact Int.ediv_eq_zero_of_lt (mul_nonneg a0 a0) (by nlinarith)
  | succ n ih =>
    intro a a0 a1 h
    rw [step _ _ a0 a1]
    split
    · rfl
    · apply ih _ (by omega) (by omega)
      have h3 := Int.ediv_mul_le (a * 2) (by norm_num : (3 : Int) ≠ 0)
      have p : (0 : Int) < 2 ^ n := by positivity
      have := mul_le_mul_of_nonneg_right h3 p.le
      rw [pow_succ, pow_succ] at h
      nlinarith

/-- C179: zero itself has no cube root on these layouts: the function divides by zero (`epsilon()` is zero, so zero is not below it). -/
theorem C179_zero (F : FxTy) (hF : F.Valid) (hr : F.r = false) (h2 : 2 ≤ F.f) (h13 : F.f ≤ 13) (h4 : F.f + 4 ≤ F.T.bits) : cbrt F 0 = .ub .divZero := by
  obtain ⟨D, hDF⟩ : ∃ D : Int, (2 : Int) ^ F.f = D := ⟨_, rfl⟩
  have room : 8 * D ≤ F.T.hi + 1 := by
    rw [← hDF, show (8 : Int) = 2 ^ 3 by norm_num, ← pow_add]
    have h5 : (2 : Int) ^ (3 + F.f) ≤ 2 ^ (F.T.bits - 1) := pow_le_pow_right₀ (by norm_num) (by omega)
    have h6 : (2 : Int) ^ (F.T.bits - 1) ≤ 2 ^ F.T.bits := pow_le_pow_right₀ (by norm_num) (by omega)
    unfold IntTy.hi
    split <;> omega
  have k : CF F D (F.T.hi + 1) := ⟨hF, hr, hDF, by omega, room, h2, by omega⟩
  have d0 := k.dpos
  have d1 : D ≤ 8192 := by
    rw [← hDF, show (8192 : Int) = 2 ^ 13 by norm_num]
    exact pow_le_pow_right₀ (by norm_num) h13
  have hm : mulInt F i32 0 2 = .ok 0 := k.cf_twice le_rfl (by omega)
  unfold cbrt
  rw [k.cf_abs le_rfl (by omega), Res.bind_ok, k.cf_eps h13, Res.bind_ok, if_neg (by rw [lt_iff]; omega), k.cf_start le_rfl (by omega), Res.bind_ok,
    k.cf_third (by omega) (by omega), Res.bind_ok, hm, Res.bind_ok]
  refine coarse_zero_loop k 200 _ (by omega) (by omega) ?_
  have : (0 + 2 * D) / 3 ≤ 8192 := by omega
  have h3 : (0 + 2 * D) / 3 * (2 : Int) ^ 200 ≤ 8192 * 2 ^ 200 := mul_le_mul_of_nonneg_right this (by positivity)
  have h4 : (8192 : Int) * 2 ^ 200 ≤ 3 ^ 200 := by norm_num
  exact h3.trans h4

example : (⟨i8, i16, 4, false⟩ : FxTy).Valid ∧ cbrt ⟨i8, i16, 4, false⟩ 0 = .ub .divZero ∧ cbrt ⟨u16, u32, 12, false⟩ 0 = .ub .divZero := by decide +kernel

/-- C179: larger arguments can go wrong.  In 16-bit signed storage with 8 fraction bits the cube root of 45.86… divides by zero (the square of an iterate wraps to
zero), and that of 43.875 is 15.289 instead of 3.527: the difference in the loop test wraps to the lowest number, which is its own absolute value, and the
loop stops at once. -/
theorem C179_beyond : cbrt ⟨i16, i32, 8, false⟩ 11741 = .ub .divZero ∧ cbrt ⟨i16, i32, 8, false⟩ 11232 = .ok 3914 ∧
    val ⟨i16, i32, 8, false⟩ 11232 = 43.875 ∧ 15 < val ⟨i16, i32, 8, false⟩ 3914 := by
  refine ⟨by decide +kernel, by decide +kernel, by norm_num [val], by norm_num [val]⟩

/-! ### Negative arguments

In signed storage the iteration from `-b` for the argument `-m` is the mirror image of that from `b` for `m`, but the start value is `(m - 2) / 3`, below the root. -/

theorem cf_twice' {F : FxTy} (hF : F.Valid) {x : Int} (hx : F.T.InRange x) (e : F.T.InRange (x * 2)) : mulInt F i32 x 2 = .ok (x * 2) := by
  obtain ⟨z, hz, -, hv⟩ := (C150_mul F hF i32 (by unfold CInt; decide) x 2 hx (by decide)).2.1 (by
    rw [show val F x * ((2 : Int) : ℚ) = val F (x * 2) by unfold val; push_cast; ring, representable_iff]
    exact e)
  rw [hz]
  congr 1
  exact val_inj (F := F) (by rw [hv]; unfold val; push_cast; ring)

theorem cf_third' {F : FxTy} (hF : F.Valid) {x : Int} (hx : F.T.InRange x) (e : F.T.InRange (Int.tdiv x 3)) : divInt F i32 x 3 = .ok (Int.tdiv x 3) := by
  have t := trunc_spec F x 3 (by norm_num)
  rw [show (x : ℚ) / ((3 : Int) : ℚ) / 2 ^ F.f = val F x / ((3 : Int) : ℚ) by unfold val; field_simp] at t
  exact C150_div_partial F hF i32 (by unfold CInt; decide) x 3 _ hx (by decide) (by norm_num) e t (Or.inr (Or.inl rfl))

theorem tdiv_neg_of_nonneg {a b : Int} (h : 0 ≤ a) : Int.tdiv (-a) b = -(a / b) := by rw [Int.neg_tdiv, tdiv_eq_ediv h]

/-- One pass for a negative argument. -/
theorem coarse_pass_neg {F : FxTy} {D H m b : Int} (k : CF F D H) (sg : SG F) (h1 : 1 ≤ m) (hm : m < H) (b0 : 0 ≤ b) (y1 : 1 ≤ b * b / D)
    (b3 : b ^ 3 < H * D ^ 2) (b2 : b * b < H * D) (qa : m * D / (b * b / D) + 2 * b < H) (n : Nat) :
    cbrtLoop F (-m) 0 n (-b) = match n with
      | 0 => .ok (-b)
      | n + 1 => cbrtLoop F (-m) 0 n (-(gStep D m b)) := by
  have d0 := k.dpos
  have hlo : F.T.lo = -H := by have := sg.lo_hi; have := k.hi; omega
  have hhi := k.hi
  have inr : ∀ z : Int, -H ≤ z → z < H → F.T.InRange z := fun z a b => ⟨by omega, by omega⟩
  have q0 : 0 ≤ m * D / (b * b / D) := Int.ediv_nonneg (mul_nonneg (by omega) d0.le) (by omega)
  have y2 : b * b / D < H := Int.ediv_lt_of_lt_mul d0 b2
  have d1 := Int.ediv_mul_le (b * b) d0.ne'
  have e2 : mul F (-b) (-b) = .ok (b * b / D) := by
    have := sg.mul_ok k.r (inr (-b) (by omega) (by omega)) (inr (-b) (by omega) (by omega)) (by rw [neg_mul_neg, k.d]; exact inr _ (by omega) y2)
    rwa [neg_mul_neg, k.d] at this
  have w1 : b * b / D * b < H * D := by
    have e1 : b * b / D * D * b ≤ b * b * b := mul_le_mul_of_nonneg_right d1 b0
    have e2 : b * b / D * b * D < H * D * D := by nlinarith
    exact lt_of_mul_lt_mul_right e2 d0.le
  have v1 : -H ≤ b * b / D * -b / D := by
    rw [Int.le_ediv_iff_mul_le d0]; nlinarith
  have v2 : b * b / D * -b / D ≤ 0 := by
    have : 0 ≤ b * b / D * b := mul_nonneg (by omega) b0
    have := Int.ediv_le_ediv d0 (show b * b / D * -b ≤ 0 by rw [mul_neg]; omega)
    simpa using this
  have e3 : mul F (b * b / D) (-b) = .ok (b * b / D * -b / D) := by
    have := sg.mul_ok k.r (inr (b * b / D) (by omega) y2) (inr (-b) (by omega) (by omega)) (by rw [k.d]; exact inr _ v1 (by omega))
    rwa [k.d] at this
  have qd : div F (-m) (b * b / D) = .ok (-(m * D / (b * b / D))) := by
    have e : Int.tdiv (-m * 2 ^ F.f) (b * b / D) = -(m * D / (b * b / D)) := by
      rw [k.d, neg_mul, tdiv_neg_of_nonneg (mul_nonneg (by omega) d0.le)]
    rw [sg.div_ok k.r (inr (-m) (by omega) (by omega)) (by omega) (by rw [e]; exact inr _ (by omega) (by omega)), e]
  generalize b * b / D * -b / D = w at *
  have e4 := sg.sub_ok (x := -m) (y := w) (inr _ (by omega) (by omega))
  have e5 := sg.abs_ok (x := -m - w) (inr _ (by omega) (by omega)) (by omega)
  rw [cbrtLoop_unf, e2, Res.bind_ok, e3, Res.bind_ok, e4, Res.bind_ok, e5, Res.bind_ok, if_pos (by rw [ge_iff]; exact abs_nonneg _)]
  cases n with
  | zero => rfl
  | succ n =>
    have t := cf_twice' k.v (x := -b) (inr _ (by omega) (by omega)) (inr _ (by omega) (by omega))
    have s := sg.add_ok (x := -(m * D / (b * b / D))) (y := -b * 2) (inr _ (by omega) (by omega))
    have e6 : Int.tdiv (-(m * D / (b * b / D)) + -b * 2) 3 = -(gStep D m b) := by
      rw [show -(m * D / (b * b / D)) + -b * 2 = -(m * D / (b * b / D) + 2 * b) by ring, tdiv_neg_of_nonneg (by omega)]; rfl
    have g0 : 0 ≤ gStep D m b ∧ gStep D m b < H := by unfold gStep; omega
    have x' := cf_third' k.v (x := -(m * D / (b * b / D)) + -b * 2) (inr _ (by omega) (by omega)) (by rw [e6]; exact inr _ (by omega) (by omega))
    rw [e6] at x'
    dsimp only
    rw [Res.bind_ok, qd, Res.bind_ok, t, Res.bind_ok, s, Res.bind_ok, x', Res.bind_ok]

/-- The loop for a negative argument, from a value not below the root. -/
theorem coarse_loop_neg {F : FxTy} {D H T m : Int} (k : CF F D H) (sg : SG F) (c : CA D T) (h1 : 1 ≤ m) (hm : m < H)
    {r M : ℝ} (r0 : 0 ≤ r) (hr : r ^ 3 = m * D ^ 2) (hM : r + T ≤ M) (hMc : M ^ 3 < H * D ^ 2) (hM2 : M * M < H * D) (hM3 : 3 * M < H) :
    ∀ (n : Nat) (b : Int), 0 ≤ b → m * D ^ 2 ≤ (b + 1) ^ 3 → (b : ℝ) ≤ M →
    ∃ z, cbrtLoop F (-m) 0 n (-b) = .ok (-z) ∧ 0 ≤ z ∧ m * D ^ 2 ≤ (z + 1) ^ 3 ∧
      ((z : ℝ) ≤ r + T ∨ (z : ℝ) - r ≤ (2 / 3) ^ n * (b - r)) := by
  have T0 : (1 : ℝ) ≤ T := by exact_mod_cast c.t1
  have pass : ∀ (n : Nat) (b : Int), 0 ≤ b → m * D ^ 2 ≤ (b + 1) ^ 3 → (b : ℝ) ≤ M → cbrtLoop F (-m) 0 n (-b) = match n with
      | 0 => .ok (-b)
      | n + 1 => cbrtLoop F (-m) 0 n (-(gStep D m b)) := by
    intro n b b0 root hb
    obtain ⟨y1, -, -, hq⟩ := coarse_step c h1 b0 root r0 hr
    have b0' : (0 : ℝ) ≤ b := by exact_mod_cast b0
    refine coarse_pass_neg k sg h1 hm b0 y1 ?_ ?_ ?_ n
    · have : (b : ℝ) ^ 3 < H * D ^ 2 := lt_of_le_of_lt (pow_le_pow_left₀ b0' hb 3) hMc
      exact_mod_cast this
    · have : (b : ℝ) * b < H * D := lt_of_le_of_lt (mul_le_mul hb hb b0' (by linarith)) hM2
      exact_mod_cast this
    · have : ((m * D / (b * b / D) : Int) : ℝ) + 2 * b < H := by
        rcases hq with ⟨_, h⟩ | ⟨_, h⟩ <;> linarith
      exact_mod_cast this
  intro n
  induction n with
  | zero =>
    intro b b0 root hb
    rw [pass 0 b b0 root hb]
    exact ⟨b, rfl, b0, root, Or.inr (by norm_num)⟩
  | succ n ih =>
    intro a a0 root ha
    rw [pass (n + 1) a a0 root ha]
    obtain ⟨-, q0, root', hq⟩ := coarse_step c h1 a0 root r0 hr
    have hg : (gStep D m a : ℝ) * 3 ≤ ((m * D / (a * a / D) : Int) : ℝ) + 2 * a := by
      have := Int.ediv_mul_le (m * D / (a * a / D) + 2 * a) (by norm_num : (3 : Int) ≠ 0)
      unfold gStep; exact_mod_cast this
    have g0 : 0 ≤ gStep D m a := by unfold gStep; omega
    have p0 : (0 : ℝ) ≤ (2 / 3) ^ n := by positivity
    have p1 : ((2 / 3 : ℝ)) ^ n ≤ 1 := pow_le_one₀ (by norm_num) (by norm_num)
    rcases hq with ⟨hc, hq⟩ | ⟨hc, hq⟩
    · obtain ⟨z, z1, z2, z4, z5⟩ := ih _ g0 root' (by linarith)
      refine ⟨z, z1, z2, z4, z5.imp_right fun h => ?_⟩
      have : (2 / 3 : ℝ) ^ n * ((gStep D m a : ℝ) - r) ≤ (2 / 3) ^ n * (2 / 3 * (a - r)) := mul_le_mul_of_nonneg_left (by linarith) p0
      rw [pow_succ]; linarith
    · obtain ⟨z, z1, z2, z4, z5⟩ := ih _ g0 root' (by linarith)
      refine ⟨z, z1, z2, z4, Or.inl ?_⟩
      rcases z5 with h | h
      · exact h
      · have e1 : (2 / 3 : ℝ) ^ n * ((gStep D m a : ℝ) - r) ≤ (2 / 3) ^ n * T := mul_le_mul_of_nonneg_left (by linarith) p0
        have e2 : (2 / 3 : ℝ) ^ n * T ≤ 1 * T := mul_le_mul_of_nonneg_right p1 (by linarith)
        linarith

/-- The first step, from the start value `(m - 2) / 3` for `m ≥ 5`: it leads to a value not below the root and not above `(m + 2) / 3`. -/
theorem coarse_first {D m : Int} (d4 : 4 ≤ D) (h5 : 5 * D ≤ m) :
    1 ≤ (m - 2 * D) / 3 * ((m - 2 * D) / 3) / D ∧ D ≤ (m - 2 * D) / 3 ∧
    0 ≤ m * D / ((m - 2 * D) / 3 * ((m - 2 * D) / 3) / D) ∧
    m * D / ((m - 2 * D) / 3 * ((m - 2 * D) / 3) / D) + 2 * ((m - 2 * D) / 3) ≤ m + 2 * D ∧
    m * D ^ 2 ≤ (gStep D m ((m - 2 * D) / 3) + 1) ^ 3 := by
  obtain ⟨b, hb⟩ : ∃ b, (m - 2 * D) / 3 = b := ⟨_, rfl⟩
  have bD : D ≤ b := by omega
  have b3 : 3 * b ≤ m - 2 * D := by omega
  rw [hb]
  have d1 := Int.ediv_mul_le (b * b) (by omega : D ≠ 0)
  have yj : 2 * b - D ≤ b * b / D := by
    rw [Int.le_ediv_iff_mul_le (by omega)]
    nlinarith [sq_nonneg (b - D)]
  unfold gStep
  generalize b * b / D = y at *
  have q1 := Int.ediv_mul_le (m * D) (by omega : y ≠ 0)
  have q2 := Int.lt_ediv_add_one_mul_self (m * D) (by omega : 0 < y)
  have q0 : 0 ≤ m * D / y := Int.ediv_nonneg (mul_nonneg (by omega) (by omega)) (by omega)
  generalize m * D / y = q at *
  refine ⟨by omega, bD, q0, ?_, ?_⟩
  · by_contra hc
    push Not at hc
    have e1 : (m + 2 * D - 2 * b) * y < q * y := mul_lt_mul_of_pos_right (by omega) (by omega)
    have e2 : (m + 2 * D - 2 * b) * (2 * b - D) ≤ (m + 2 * D - 2 * b) * y := mul_le_mul_of_nonneg_left yj (by omega)
    -- `(m - 2 j) (D + 2 j) ≥ m D` with `b = D + j`
    have e3 : 0 ≤ (b - D) * (m - 2 * b + D) := mul_nonneg (by omega) (by omega)
    nlinarith
  · have hs := Int.lt_ediv_add_one_mul_self (q + 2 * b) (by norm_num : (0 : Int) < 3)
    have c0 : 0 ≤ (q + 2 * b) / 3 := by omega
    generalize (q + 2 * b) / 3 = a' at *
    have e1 : m * D ^ 2 ≤ (q + 1) * (y * D) := by
      have := mul_le_mul_of_nonneg_right q2.le (by omega : 0 ≤ D)
      nlinarith
    have e2 : (q + 1) * (y * D) ≤ (q + 1) * (b * b) := mul_le_mul_of_nonneg_left d1 (by omega)
    have e3 := amgm (t := q + 1) (a := b) (by omega) (by omega)
    have e4 : (q + 1 + 2 * b) ^ 3 ≤ (3 * (a' + 1)) ^ 3 := pow_le_pow_left₀ (by omega) (by omega) 3
    rw [mul_pow] at e4
    have e5 : (q + 1) * b * b = (q + 1) * (b * b) := by ring
    rw [e5] at e3
    omega

/-- C179 (negative arguments): from −5 downwards, as long as the cube of `(|x| + 2) / 3` is in range, the result is the mirror image: at most one ulp above the
cube root and at most `t` ulps below it. -/
theorem C179_negative (F : FxTy) (hF : F.Valid) (hs : F.T.signed = true) (hr : F.r = false) (h2 : 2 ≤ F.f) (h13 : F.f ≤ 13) (h4 : F.f + 4 ≤ F.T.bits)
    (x : Int) (h0 : val F x ≤ -5) (hc : ((-val F x + 2) / 3) ^ 3 < val F F.T.hi + ulp F) (t : Nat) (ht : 2 ^ F.f ≤ (2 * t) ^ 3) :
    ∃ r, cbrt F x = .ok r ∧ val F r ≤ 0 ∧ (val F r - ulp F) ^ 3 ≤ val F x ∧ val F x ≤ (val F r + t * ulp F) ^ 3 := by
  obtain ⟨m, rfl⟩ : ∃ m : Int, x = -m := ⟨-x, by ring⟩
  obtain ⟨D, hDF⟩ : ∃ D : Int, (2 : Int) ^ F.f = D := ⟨_, rfl⟩
  obtain ⟨H, hHF⟩ : ∃ H : Int, (2 : Int) ^ (F.T.bits - 1) = H := ⟨_, rfl⟩
  have hhi : F.T.hi = H - 1 := by unfold IntTy.hi; simp [hs, hHF]
  have hlo : F.T.lo = -H := by unfold IntTy.lo; simp [hs, hHF]
  have room : 8 * D ≤ H := by
    rw [← hDF, ← hHF, show (8 : Int) = 2 ^ 3 by norm_num, ← pow_add]
    exact pow_le_pow_right₀ (by norm_num) (by omega)
  have k : CF F D H := ⟨hF, hr, hDF, hhi, room, h2, by omega⟩
  have d0 := k.dpos
  have d4 : 4 ≤ D := by
    rw [← k.d, show (4 : Int) = 2 ^ 2 by norm_num]
    exact pow_le_pow_right₀ (by norm_num) k.f2
  have hDq : (0 : ℚ) < D := by exact_mod_cast d0
  obtain ⟨T, c, cl⟩ := ca_table F.f h2 h13
  rw [hDF] at c cl
  have hT : T ≤ t := cl t (by rw [← hDF]; exact_mod_cast ht)
  have vn : val F (-m) = -val F m := by unfold val; push_cast; ring
  rw [vn] at h0 hc
  rw [neg_neg] at hc
  have vv := val_real F
  have uu := ulp_real F
  rw [hDF] at uu
  simp only [hDF] at vv
  have m5 : 5 * D ≤ m := by
    have : (5 : ℚ) ≤ m / D := by rw [vv] at h0; linarith
    rw [le_div_iff₀ hDq] at this
    exact_mod_cast this
  have g : (m + 2 * D) ^ 3 < 27 * (H * D ^ 2) := by
    rw [vv, vv, uu, hhi] at hc
    have e1 : ((m : ℚ) / D + 2) / 3 = (m + 2 * D) / (3 * D) := by field_simp
    have e2 : ((H - 1 : Int) : ℚ) / D + 1 / D = H / D := by push_cast; ring
    rw [e1, e2, div_pow, div_lt_div_iff₀ (by positivity) hDq] at hc
    have h1 : (((m : ℚ) + 2 * D) ^ 3) * D < (27 * (H * D ^ 2)) * D := by
      calc _ < _ := hc
        _ = _ := by ring
    have h2 := lt_of_mul_lt_mul_right h1 hDq.le
    exact_mod_cast h2
  have hD2 : 0 < D ^ 2 := by positivity
  have g1 : m + 2 * D < H := by
    by_contra hcc
    have e1 : H ^ 3 ≤ (m + 2 * D) ^ 3 := pow_le_pow_left₀ (by omega) (by omega) 3
    have e2 : (8 * D) ^ 2 ≤ H ^ 2 := pow_le_pow_left₀ (by omega) room 2
    have e3 : (8 * D) ^ 2 * H ≤ H ^ 2 * H := mul_le_mul_of_nonneg_right e2 (by omega)
    have e4 : 0 < H * D ^ 2 := mul_pos (by omega) hD2
    nlinarith
  have g2 : (m + 2 * D) ^ 2 < 9 * (H * D) := by
    have h4 : (m + 2 * D) ^ 2 * (3 * D) ≤ (m + 2 * D) ^ 2 * (m + 2 * D) := mul_le_mul_of_nonneg_left (by omega) (by positivity)
    have h5 : (m + 2 * D) ^ 2 * 3 * D < 27 * (H * D) * D := by nlinarith
    have := lt_of_mul_lt_mul_right h5 d0.le
    omega
  have sg : SG F := ⟨hF, hs, by unfold Storable; rw [hDF]; exact k.inr (by omega) (by omega)⟩
  have inr : ∀ z : Int, -H ≤ z → z < H → F.T.InRange z := fun z a b => ⟨by omega, by omega⟩
  -- the root
  have x0r : (0 : ℝ) ≤ m := by exact_mod_cast (by omega : 0 ≤ m)
  have hD' : (0 : ℝ) < D := by exact_mod_cast d0
  obtain ⟨r, r0, hr'⟩ := exists_root ((m : ℝ) * (D : ℝ) ^ 2) (by positivity)
  have hM : r + T ≤ ((m : ℝ) + 2 * D) / 3 := by
    have m5' : 5 * (D : ℝ) ≤ m := by exact_mod_cast m5
    rcases coarse_room c hr' with h | h
    · linarith
    · exact h
  have g' : ((m : ℝ) + 2 * D) ^ 3 < 27 * (H * D ^ 2) := by exact_mod_cast g
  have g2' : ((m : ℝ) + 2 * D) ^ 2 < 9 * (H * D) := by exact_mod_cast g2
  have g1' : (m : ℝ) + 2 * D < H := by exact_mod_cast g1
  obtain ⟨f1, f2, f3, f4, f5⟩ := coarse_first d4 m5
  have s3 : 3 * ((m - 2 * D) / 3) ≤ m + 2 * D := by omega
  have hs3 : (3 * ((m - 2 * D) / 3)) ^ 3 ≤ (m + 2 * D) ^ 3 := pow_le_pow_left₀ (by omega) s3 3
  have hs2 : (3 * ((m - 2 * D) / 3)) ^ 2 ≤ (m + 2 * D) ^ 2 := pow_le_pow_left₀ (by omega) s3 2
  rw [mul_pow] at hs3 hs2
  have first : cbrtLoop F (-m) 0 201 (-((m - 2 * D) / 3)) = cbrtLoop F (-m) 0 200 (-(gStep D m ((m - 2 * D) / 3))) :=
    coarse_pass_neg k sg (m := m) (b := (m - 2 * D) / 3) (by omega) (by omega) (by omega) f1 (by omega) (by nlinarith) (by omega) (200 + 1)
  have g0 : 0 ≤ gStep D m ((m - 2 * D) / 3) ∧ 3 * gStep D m ((m - 2 * D) / 3) ≤ m + 2 * D := by unfold gStep; omega
  obtain ⟨z, z1, z2, z4, z5⟩ := coarse_loop_neg k sg c (by omega) (by omega) r0 hr' hM
    (by linarith [show (((m : ℝ) + 2 * D) / 3) ^ 3 = (m + 2 * D) ^ 3 / 27 by ring])
    (by linarith [show (((m : ℝ) + 2 * D) / 3) * ((m + 2 * D) / 3) = (m + 2 * D) ^ 2 / 9 by ring]) (by linarith) 200 _ g0.1 f5 (by
      have : 3 * (gStep D m ((m - 2 * D) / 3) : ℝ) ≤ m + 2 * D := by exact_mod_cast g0.2
      linarith)
  have T0 : (1 : ℝ) ≤ T := by exact_mod_cast c.t1
  have zr : (z : ℝ) ≤ r + T := by
    rcases z5 with h | h
    · exact h
    · have hH : H ≤ 2 ^ 64 := by
        rw [← hHF]
        have := hF.1
        exact pow_le_pow_right₀ (by norm_num) (by omega)
      have hH' : (H : ℝ) ≤ 2 ^ 64 := by exact_mod_cast hH
      have : 3 * (gStep D m ((m - 2 * D) / 3) : ℝ) ≤ m + 2 * D := by exact_mod_cast g0.2
      have e3 : (2 / 3 : ℝ) ^ 200 * ((gStep D m ((m - 2 * D) / 3) : ℝ) - r) ≤ (2 / 3 : ℝ) ^ 200 * 2 ^ 64 :=
        mul_le_mul_of_nonneg_left (by linarith) (by positivity)
      have e4 : (2 / 3 : ℝ) ^ 200 * 2 ^ 64 ≤ 1 := by norm_num
      linarith
  have z6 : (z - T) ^ 3 ≤ m * D ^ 2 := by
    have e : ((z : ℝ) - T) ^ 3 ≤ r ^ 3 := (Odd.strictMono_pow (by decide : Odd 3)).monotone (by linarith)
    rw [hr'] at e
    exact_mod_cast e
  obtain ⟨v0, v1, v2⟩ := coarse_vals hDF z2 z4 z6 t hT
  have hz : cbrt F (-m) = .ok (-z) := by
    have hm : mulInt F i32 0 2 = .ok 0 := k.cf_twice le_rfl (by omega)
    have ha := sg.abs_ok (x := -m) (inr _ (by omega) (by omega)) (by omega)
    have hst : addInt F (-m) 2 = .ok (-(m - 2 * D)) := by
      have r2 : F.T.InRange 2 := k.inr (by norm_num) (by omega)
      have rd : F.T.InRange (2 * D) := k.inr (by omega) (by omega)
      have rs : F.T.InRange (-m + 2 * D) := inr _ (by omega) (by omega)
      unfold addInt addIntAssign shl
      rw [if_pos (lt_of_lt_of_le hF.flt hF.tp), Res.bind_ok, IntTy.wrap_of_inRange hF.tpos r2, hDF,
        IntTy.wrap_of_inRange hF.ppos (IntTy.inRange_promote hF.tpos rd), arith_of_inRange hF.ppos (IntTy.inRange_promote hF.tpos rs), Res.bind_ok,
        IntTy.wrap_of_inRange hF.tpos rs, Res.pure_eq]
      congr 1; ring
    have e6 : Int.tdiv (-(m - 2 * D)) 3 = -((m - 2 * D) / 3) := tdiv_neg_of_nonneg (by omega)
    have hth := cf_third' hF (x := -(m - 2 * D)) (inr _ (by omega) (by omega)) (by rw [e6]; exact inr _ (by omega) (by omega))
    rw [e6] at hth
    unfold cbrt
    rw [ha, Res.bind_ok, k.cf_eps h13, Res.bind_ok, if_neg (by rw [lt_iff]; have := abs_nonneg (-m); omega), hst, Res.bind_ok,
      hth, Res.bind_ok, hm, Res.bind_ok, first, z1]
  have vz : val F (-z) = -val F z := by unfold val; push_cast; ring
  refine ⟨-z, hz, by rw [vz]; linarith, ?_, ?_⟩
  · rw [vz, vn, show (-val F z - ulp F) ^ 3 = -(val F z + ulp F) ^ 3 by ring]; linarith
  · rw [vz, vn, show (-val F z + t * ulp F) ^ 3 = -(val F z - t * ulp F) ^ 3 by ring]; linarith

example : cbrt ⟨i16, i32, 8, false⟩ (-8 * 256) = .ok (-512) ∧ val ⟨i16, i32, 8, false⟩ (-8 * 256) ≤ -5 ∧
    ((-val ⟨i16, i32, 8, false⟩ (-8 * 256) + 2) / 3) ^ 3 < val ⟨i16, i32, 8, false⟩ i16.hi + ulp ⟨i16, i32, 8, false⟩ ∧
    cbrt ⟨i32, i64, 12, false⟩ (-100 * 4096) = .ok (-19012) := by
  refine ⟨by decide +kernel, by norm_num [val], ?_, by decide +kernel⟩
  norm_num [val, ulp, IntTy.hi, i16]

end Eirin.Props
