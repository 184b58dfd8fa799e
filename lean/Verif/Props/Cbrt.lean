import Mathlib.Analysis.SpecialFunctions.Pow.Real
import Verif.Lemmas.Mixed
import Verif.Lemmas.Signed
import Verif.Lemmas.Log2

/-! # Properties C43 (cube root) and C44 (degrees and radians). -/

namespace Eirin.Props
open Spec

/-! ## C43 -/

def C43_statement : Prop := ∀ x, Storable fixed32 x → ∃ r, cbrt fixed32 x = .ok r

/-- C43 is false of the code: the start value `(x + 2) / 3` is zero for `x = -2` and the iteration divides by its square. -/
theorem C43_false : ¬ C43_statement := by
  intro h
  obtain ⟨r, hr⟩ := h (-2 * 65536) (by decide)
  have : cbrt fixed32 (-2 * 65536) = .ub .divZero := by decide +kernel
  rw [this] at hr; cases hr

/-- Further undefined inputs: the first positive one is 94 (start value 32, whose cube does not fit); near the maximum already
`x + 2` overflows. -/
example : cbrt fixed32 (94 * 65536) = .ub .overflow ∧ cbrt fixed32 (2 ^ 31 - 1) = .ub .overflow ∧ cbrt fixed32 (-2 ^ 31) = .ub .overflow := by
  decide +kernel

/-- C43: values below epsilon have cube root 0. -/
theorem C43_small (x : Int) (h : |val fixed32 x| < 5 / 65536) : cbrt fixed32 x = .ok 0 := by
  have h1 : |x| < 5 := by
    unfold val at h
    rw [show fixed32.f = 16 by rfl, abs_div, abs_of_pos (by positivity : (0 : ℚ) < 2 ^ 16), div_lt_div_iff₀ (by positivity) (by positivity)] at h
    have : ((|x| : Int) : ℚ) < ((5 : Int) : ℚ) := by push_cast; norm_num at h; linarith
    exact_mod_cast this
  have hb := abs_lt.1 h1
  unfold cbrt
  have ha : abs fixed32 x = .ok |x| := sw32.abs_ok (in32 (by omega) (by omega)) (by rw [show fixed32.T.lo = -2 ^ 31 by decide]; omega)
  have he : epsilon fixed32 = .ok 5 := by decide +kernel
  rw [ha, he, Res.bind_ok, Res.bind_ok, if_pos (by rw [lt_iff]; exact h1)]
  decide

theorem amgm {t a : Int} (ht : 0 ≤ t) (ha : 0 ≤ a) : 27 * (t * a * a) ≤ (t + 2 * a) ^ 3 := by
  nlinarith [mul_nonneg (sq_nonneg (t - a)) (by omega : 0 ≤ t + 8 * a)]

/-- State invariant of the Newton iteration: within range and not below the root by more than one ulp. -/
structure CInv (fp a : Int) : Prop where
  lo : 2700 ≤ a
  hi : a < 2 ^ 21
  root : fp * 2 ^ 32 ≤ (a + 1) ^ 3

theorem CInv.of_root {fp a : Int} (h5 : 5 ≤ fp) (h0 : 0 ≤ a) (hi : a < 2 ^ 21) (root : fp * 2 ^ 32 ≤ (a + 1) ^ 3) : CInv fp a := by
  refine ⟨?_, hi, root⟩
  by_contra hc
  have h1 : a + 1 ≤ 2700 := by omega
  have : (a + 1) ^ 3 ≤ 2700 ^ 3 := pow_le_pow_left₀ (by omega) h1 3
  omega

/-- the iteration on integers -/
def cStep (fp a : Int) : Int := (fp * 65536 / (a * a / 65536) + 2 * a) / 3

theorem y2_bounds {a : Int} (h1 : 2700 ≤ a) (h2 : a < 2 ^ 21) : 111 ≤ a * a / 65536 ∧ a * a / 65536 < 2 ^ 26 := by
  constructor
  · have : 2700 * 2700 ≤ a * a := by nlinarith
    omega
  · have : a * a < 2 ^ 21 * 2 ^ 21 := by nlinarith
    omega

theorem CInv.step {fp a : Int} (h5 : 5 ≤ fp) (h94 : fp < 6160384) (c : CInv fp a) :
    CInv fp (cStep fp a) ∧ 0 ≤ fp * 65536 / (a * a / 65536) ∧ fp * 65536 / (a * a / 65536) < 2 ^ 22 := by
  obtain ⟨h1, h2, h3⟩ := c
  obtain ⟨y1, y2⟩ := y2_bounds h1 h2
  unfold cStep
  have d1 := Int.ediv_mul_le (a * a) (by norm_num : (65536 : Int) ≠ 0)
  have d2 := Int.lt_ediv_add_one_mul_self (a * a) (by norm_num : (0 : Int) < 65536)
  generalize hy : a * a / 65536 = y at *
  have q1 := Int.ediv_mul_le (fp * 65536) (by omega : y ≠ 0)
  have q2 := Int.lt_ediv_add_one_mul_self (fp * 65536) (by omega : 0 < y)
  have q0 : 0 ≤ fp * 65536 / y := Int.ediv_nonneg (by omega) (by omega)
  generalize fp * 65536 / y = q at *
  have hs := Int.lt_ediv_add_one_mul_self (q + 2 * a) (by norm_num : (0 : Int) < 3)
  have hs' := Int.ediv_mul_le (q + 2 * a) (by norm_num : (3 : Int) ≠ 0)
  have a0 : 0 ≤ (q + 2 * a) / 3 := by omega
  generalize (q + 2 * a) / 3 = a' at *
  have root : fp * 2 ^ 32 ≤ (a' + 1) ^ 3 := by
    have e1 : fp * 2 ^ 32 ≤ (q + 1) * (y * 65536) := by nlinarith
    have e2 : (q + 1) * (y * 65536) ≤ (q + 1) * (a * a) := by nlinarith
    have e3 := amgm (t := q + 1) (a := a) (by omega) (by omega)
    have e4 : (q + 1 + 2 * a) ^ 3 ≤ (3 * (a' + 1)) ^ 3 := pow_le_pow_left₀ (by omega) (by omega) 3
    nlinarith
  have qup : q < 3 * 2 ^ 20 ∧ (2 ^ 20 ≤ a → q < 2 ^ 20) := by
    by_cases hc : 2 ^ 20 ≤ a
    · have : 2 ^ 20 * 2 ^ 20 ≤ a * a := by nlinarith
      have hy24 : 2 ^ 24 ≤ y := by omega
      have : q < 2 ^ 20 := by
        by_contra hq
        have : 2 ^ 20 * 2 ^ 24 ≤ q * y := by nlinarith
        omega
      omega
    · -- the root bound controls the quotient
      have hq : q < 3 * 2 ^ 20 := by
        by_contra hq
        push Not at hq hc
        have hlow : 3 * a ≤ q := by omega
        have e1 : (3 * a) * y ≤ q * y := by nlinarith
        have e2 : (3 * a) * y * 65536 ≤ (a + 1) ^ 3 := by nlinarith
        have e3 : 3 * a * (a * a - 65536) ≤ 3 * a * (y * 65536) := by nlinarith
        nlinarith [mul_nonneg (by omega : 0 ≤ a - 2700) (by omega : 0 ≤ a - 2700), mul_nonneg (mul_nonneg (by omega : 0 ≤ a - 2700) (by omega : 0 ≤ a - 2700)) (by omega : 0 ≤ a)]
      exact ⟨hq, fun h => absurd h hc⟩
  refine ⟨CInv.of_root h5 a0 ?_ root, q0, by omega⟩
  by_cases hc : 2 ^ 20 ≤ a
  · have := qup.2 hc; omega
  · omega

theorem cbrtLoop_unfold (fp prec : Int) (n : Nat) (x : Int) : cbrtLoop fixed32 fp prec n x = (do
    let x2 ← mul fixed32 x x
    let x3 ← mul fixed32 x2 x
    let d ← sub fixed32 fp x3
    let a ← abs fixed32 d
    if ge a prec then
      match n with
      | 0 => pure x
      | fuel + 1 => do
        let y2 ← mul fixed32 x x
        let q ← div fixed32 fp y2
        let t ← mulInt fixed32 i32 x 2
        let s ← add fixed32 q t
        let x' ← divInt fixed32 i32 s 3
        cbrtLoop fixed32 fp prec fuel x'
    else pure x) := by
  cases n <;> rfl

/-- One pass through the loop. -/
theorem cbrtLoop_step {fp a : Int} (h5 : 5 ≤ fp) (h94 : fp < 6160384) (c : CInv fp a) (n : Nat) :
    cbrtLoop fixed32 fp 10 n a =
      if 10 ≤ |fp - a * a / 65536 * a / 65536| then
        match n with
        | 0 => .ok a
        | n + 1 => cbrtLoop fixed32 fp 10 n (cStep fp a)
      else .ok a := by
  obtain ⟨y1, y2⟩ := y2_bounds c.lo c.hi
  obtain ⟨cs, q0, q1⟩ := c.step h5 h94
  have hlo := c.lo
  have hhi := c.hi
  have hcl := cs.lo
  have hch := cs.hi
  have ea : ((2 : Int) ^ fixed32.f) = 65536 := by rfl
  have e2 : mul fixed32 a a = .ok (a * a / 65536) := by
    have := sw32.mul_ok rfl (x := a) (y := a) (in32 (by omega) (by omega)) (in32 (by omega) (by omega)) (by rw [ea]; exact in32 (by omega) (by omega))
    rw [ea] at this; exact this
  have b3 : 0 ≤ a * a / 65536 * a / 65536 ∧ a * a / 65536 * a / 65536 < 2 ^ 31 := by
    constructor
    · exact Int.ediv_nonneg (mul_nonneg (by omega) (by omega)) (by norm_num)
    · have : a * a / 65536 * a < 2 ^ 26 * 2 ^ 21 := by nlinarith
      omega
  have e3 : mul fixed32 (a * a / 65536) a = .ok (a * a / 65536 * a / 65536) := by
    have := sw32.mul_ok rfl (x := a * a / 65536) (y := a) (in32 (by omega) (by omega)) (in32 (by omega) (by omega)) (by rw [ea]; exact in32 (by omega) (by omega))
    rw [ea] at this; exact this
  have e4 : sub fixed32 fp (a * a / 65536 * a / 65536) = .ok (fp - a * a / 65536 * a / 65536) := sw32.sub_ok (in32 (by omega) (by omega))
  have e5 : abs fixed32 (fp - a * a / 65536 * a / 65536) = .ok |fp - a * a / 65536 * a / 65536| :=
    sw32.abs_ok (in32 (by omega) (by omega)) (by rw [show fixed32.T.lo = -2 ^ 31 by decide]; omega)
  rw [cbrtLoop_unfold]
  simp only [e2, e3, e4, e5, Res.bind_ok]
  have hge : ge |fp - a * a / 65536 * a / 65536| 10 = true ↔ 10 ≤ |fp - a * a / 65536 * a / 65536| := ge_iff
  by_cases hc : 10 ≤ |fp - a * a / 65536 * a / 65536|
  · rw [if_pos (hge.2 hc), if_pos hc]
    cases n with
    | zero => rfl
    | succ n =>
      have q : div fixed32 fp (a * a / 65536) = .ok (fp * 65536 / (a * a / 65536)) := by
        have := sw32.div_ok rfl (x := fp) (y := a * a / 65536) (in32 (by omega) (by omega)) (by omega) (by
          rw [ea, tdiv_eq_ediv (by omega)]; exact in32 (by omega) (by omega))
        rw [ea, tdiv_eq_ediv (by omega)] at this; exact this
      have t : mulInt fixed32 i32 a 2 = .ok (a * 2) := sw32.mulInt_ok (in32 (by omega) (by omega)) (by decide) (in32 (by omega) (by omega))
      have s : add fixed32 (fp * 65536 / (a * a / 65536)) (a * 2) = .ok (fp * 65536 / (a * a / 65536) + a * 2) :=
        sw32.add_ok (in32 (by omega) (by omega))
      have x' : divInt fixed32 i32 (fp * 65536 / (a * a / 65536) + a * 2) 3 = .ok (cStep fp a) := by
        rw [sw32.divInt_ok (in32 (by omega) (by omega)) (by norm_num) (by norm_num), tdiv_eq_ediv (by omega)]
        unfold cStep; rw [mul_comm a 2]
      simp only [q, t, s, x', Res.bind_ok]
  · rw [if_neg (fun h => hc (hge.1 h)), if_neg hc]
    rfl

/-- The real cube root, scaled. -/
theorem exists_root (N : ℝ) (h : 0 ≤ N) : ∃ c : ℝ, 0 ≤ c ∧ c ^ 3 = N :=
  ⟨N ^ ((1 : ℝ) / 3), Real.rpow_nonneg h _, by
    rw [← Real.rpow_natCast, ← Real.rpow_mul h]; norm_num⟩

/-- Each step contracts the distance to the root by 2/3, up to 9 ulp. -/
theorem cStep_contract {fp a : Int} (h5 : 5 ≤ fp) (c : CInv fp a) {r : ℝ} (r0 : 0 ≤ r) (hr : r ^ 3 = fp * 2 ^ 32) :
    (cStep fp a : ℝ) - r ≤ 2 / 3 * (a - r) + 9 := by
  obtain ⟨h1, h2, h3⟩ := c
  obtain ⟨y1, y2⟩ := y2_bounds h1 h2
  unfold cStep
  have d2 := Int.lt_ediv_add_one_mul_self (a * a) (by norm_num : (0 : Int) < 65536)
  generalize a * a / 65536 = y at *
  have q1 := Int.ediv_mul_le (fp * 65536) (by omega : y ≠ 0)
  generalize fp * 65536 / y = q at *
  have hs' := Int.ediv_mul_le (q + 2 * a) (by norm_num : (3 : Int) ≠ 0)
  generalize (q + 2 * a) / 3 = a' at *
  have h1' : (2700 : ℝ) ≤ a := by exact_mod_cast h1
  have h3' : (fp : ℝ) * 2 ^ 32 ≤ (a + 1) ^ 3 := by exact_mod_cast h3
  have d2' : (a : ℝ) * a < (y + 1) * 65536 := by exact_mod_cast d2
  have q1' : (q : ℝ) * y ≤ fp * 65536 := by exact_mod_cast q1
  have hs2 : (a' : ℝ) * 3 ≤ q + 2 * a := by exact_mod_cast hs'
  have h5' : (5 : ℝ) ≤ fp := by exact_mod_cast h5
  have y1' : (111 : ℝ) ≤ y := by exact_mod_cast y1
  have hra : r ≤ a + 1 := by
    by_contra hc; push Not at hc
    have := pow_lt_pow_left₀ hc (by linarith) (n := 3) (by norm_num)
    linarith
  have hr27 : 2750 ≤ r := by
    by_contra hc; push Not at hc
    have := pow_lt_pow_left₀ hc r0 (n := 3) (by norm_num)
    norm_num at this hr
    linarith
  -- bound the quotient by r + 27
  have hq : (q : ℝ) ≤ r + 27 := by
    by_contra hc; push Not at hc
    have e1 : (r + 27) * (y * 65536) < r ^ 3 := by
      have : (r + 27) * y < q * y := mul_lt_mul_of_pos_right hc (by linarith)
      nlinarith
    have e2 : (r - 1) ^ 2 - 65536 < y * 65536 := by nlinarith
    have e3 : (r + 27) * ((r - 1) ^ 2 - 65536) < (r + 27) * (y * 65536) := mul_lt_mul_of_pos_left e2 (by linarith)
    nlinarith
  linarith

/-- The whole loop: defined, the invariant holds of the result, and the result is either an early exit or has contracted. -/
theorem cbrtLoop_spec {fp : Int} (h5 : 5 ≤ fp) (h94 : fp < 6160384) {r : ℝ} (r0 : 0 ≤ r) (hr : r ^ 3 = fp * 2 ^ 32) (n : Nat) :
    ∀ a, CInv fp a → ∃ z, cbrtLoop fixed32 fp 10 n a = .ok z ∧ CInv fp z ∧
      (|fp - z * z / 65536 * z / 65536| < 10 ∨ (z : ℝ) - r ≤ (2 / 3) ^ n * 2 ^ 21 + 27) := by
  have gen : ∀ n a, CInv fp a → ∃ z, cbrtLoop fixed32 fp 10 n a = .ok z ∧ CInv fp z ∧
      (|fp - z * z / 65536 * z / 65536| < 10 ∨ (z : ℝ) - r - 27 ≤ (2 / 3) ^ n * (a - r - 27)) := by
    intro n
    induction n with
    | zero =>
      intro a c
      rw [cbrtLoop_step h5 h94 c]
      refine ⟨a, ?_, c, Or.inr (by norm_num)⟩
      split <;> rfl
    | succ n ih =>
      intro a c
      rw [cbrtLoop_step h5 h94 c]
      by_cases hc : 10 ≤ |fp - a * a / 65536 * a / 65536|
      · rw [if_pos hc]
        obtain ⟨z, hz1, hz2, hz3⟩ := ih _ (c.step h5 h94).1
        refine ⟨z, hz1, hz2, hz3.imp_right fun h => ?_⟩
        have hcon := cStep_contract h5 c r0 hr
        have : (2 / 3 : ℝ) ^ n * ((cStep fp a : ℝ) - r - 27) ≤ (2 / 3) ^ n * (2 / 3 * (a - r - 27)) :=
          mul_le_mul_of_nonneg_left (by linarith) (by positivity)
        rw [pow_succ]; linarith
      · rw [if_neg hc]
        exact ⟨a, rfl, c, Or.inl (by omega)⟩
  intro a c
  obtain ⟨z, hz1, hz2, hz3⟩ := gen n a c
  refine ⟨z, hz1, hz2, hz3.imp_right fun h => ?_⟩
  have h2 : (a : ℝ) < 2 ^ 21 := by exact_mod_cast c.hi
  have : (2 / 3 : ℝ) ^ n * (a - r - 27) ≤ (2 / 3) ^ n * 2 ^ 21 := mul_le_mul_of_nonneg_left (by linarith) (by positivity)
  linarith

/-- C43 for `0 ≤ x < 94` (all of `fixed32`): `cbrt` is defined; the result is at most one ulp below the true cube root, and it is
either at most 28 ulp above the root or its cube is within `(10 + r)` ulp of `x` (the early exit of the loop).
Full statement: `C43_statement` (every `x`); false by `C43_false`.  Missing: the inputs where the start value's cube does not fit,
which are mostly undefined, and negative inputs. -/
theorem C43_root_partial (x : Int) (h5 : 5 * ulp fixed32 ≤ val fixed32 x) (h94 : val fixed32 x < 94) :
    ∃ r, cbrt fixed32 x = .ok r ∧ 0 < val fixed32 r ∧ val fixed32 x ≤ (val fixed32 r + ulp fixed32) ^ 3 ∧
      ((val fixed32 r - 28 * ulp fixed32) ^ 3 ≤ val fixed32 x ∨
        |val fixed32 x - val fixed32 r ^ 3| ≤ (10 + val fixed32 r) * ulp fixed32) := by
  have v : ∀ z, val fixed32 z = z / 65536 := by intro z; unfold val; norm_num [fixed32]
  have u : ulp fixed32 = 1 / 65536 := by unfold ulp; norm_num [fixed32]
  rw [v, u] at h5
  rw [v] at h94
  have g5 : 5 ≤ x := by
    have : ((5 : Int) : ℚ) ≤ x := by push_cast; linarith
    exact_mod_cast this
  have g94 : x < 6160384 := by
    have : (x : ℚ) < ((6160384 : Int) : ℚ) := by push_cast; linarith
    exact_mod_cast this
  have hx : Storable fixed32 x := in32 (by omega) (by omega)
  have ha : abs fixed32 x = .ok x := by
    have := sw32.abs_ok hx (by rw [show fixed32.T.lo = -2 ^ 31 by decide]; omega)
    rwa [abs_of_nonneg (by omega)] at this
  have he : epsilon fixed32 = .ok 5 := by decide +kernel
  have ea : ((2 : Int) ^ fixed32.f) = 65536 := by rfl
  have hadd : addInt fixed32 x 2 = .ok (x + 131072) := by
    have := sw32.addInt_ok (x := x) (n := 2) (by rw [ea]; exact in32 (by omega) (by omega)) (by rw [ea]; exact in32 (by omega) (by omega))
    rw [ea] at this; exact this
  have hdiv : divInt fixed32 i32 (x + 131072) 3 = .ok ((x + 131072) / 3) := by
    rw [sw32.divInt_ok (in32 (by omega) (by omega)) (by norm_num) (by norm_num), tdiv_eq_ediv (by omega)]
  have hprec : mulInt fixed32 i32 5 2 = .ok 10 := by decide +kernel
  have hinv : CInv x ((x + 131072) / 3) := by
    refine CInv.of_root g5 (by omega) (by omega) ?_
    have e := amgm (t := x) (a := 65536) (by omega) (by norm_num)
    have e2 : (x + 2 * 65536) ^ 3 ≤ (3 * ((x + 131072) / 3 + 1)) ^ 3 := pow_le_pow_left₀ (by omega) (by omega) 3
    nlinarith
  obtain ⟨c, c0, hc⟩ := exists_root ((x : ℝ) * 2 ^ 32) (by have : (0 : ℝ) ≤ x := by exact_mod_cast (by omega : 0 ≤ x)
                                                           positivity)
  obtain ⟨z, hz1, hz2, hz3⟩ := cbrtLoop_spec g5 g94 c0 hc 201 _ hinv
  refine ⟨z, ?_, ?_, ?_, ?_⟩
  · unfold cbrt
    rw [ha, he, Res.bind_ok, Res.bind_ok, if_neg (by rw [lt_iff]; omega), hadd, Res.bind_ok, hdiv, Res.bind_ok, hprec, Res.bind_ok, hz1]
  · rw [v]; have := hz2.lo; have : (0 : ℚ) < z := by exact_mod_cast (by omega : 0 < z)
    positivity
  · have : (x : ℚ) * 2 ^ 32 ≤ (z + 1) ^ 3 := by exact_mod_cast hz2.root
    rw [v, v, u]
    have e : ((z : ℚ) / 65536 + 1 / 65536) ^ 3 = (z + 1) ^ 3 / 2 ^ 48 := by ring
    rw [e, div_le_div_iff₀ (by norm_num) (by norm_num)]
    norm_num at *; linarith
  · rcases hz3 with h | h
    · right
      rw [v, v, u]
      have d1 := Int.ediv_mul_le (z * z) (by norm_num : (65536 : Int) ≠ 0)
      have d2 := Int.lt_ediv_add_one_mul_self (z * z) (by norm_num : (0 : Int) < 65536)
      generalize z * z / 65536 = y at *
      have d3 := Int.ediv_mul_le (y * z) (by norm_num : (65536 : Int) ≠ 0)
      have d4 := Int.lt_ediv_add_one_mul_self (y * z) (by norm_num : (0 : Int) < 65536)
      generalize y * z / 65536 = w at *
      have hz0 := hz2.lo
      obtain ⟨w1, w2⟩ := abs_lt.1 h
      have w1' : x - w ≥ -9 := by omega
      have w2' : x - w ≤ 9 := by omega
      have k1 : z * z * z ≥ w * 65536 * 65536 := by nlinarith
      have k2 : z * z * z ≤ (w + 1) * 65536 * 65536 + z * 65536 := by nlinarith
      have k1' : (z : ℚ) * z * z ≥ w * 65536 * 65536 := by exact_mod_cast k1
      have k2' : (z : ℚ) * z * z ≤ (w + 1) * 65536 * 65536 + z * 65536 := by exact_mod_cast k2
      have w1q : (x : ℚ) - w ≥ -9 := by exact_mod_cast w1'
      have w2q : (x : ℚ) - w ≤ 9 := by exact_mod_cast w2'
      have z0q : (2700 : ℚ) ≤ z := by exact_mod_cast hz0
      rw [abs_le]
      constructor
      · nlinarith
      · nlinarith
    · left
      have h28 : (z : ℝ) - 28 ≤ c := by
        have : (2 / 3 : ℝ) ^ 201 * 2 ^ 21 ≤ 1 := by norm_num
        linarith
      have hz0 : (2700 : ℝ) ≤ z := by exact_mod_cast hz2.lo
      have h3 : ((z : ℝ) - 28) ^ 3 ≤ x * 2 ^ 32 := by
        rw [← hc]; exact pow_le_pow_left₀ (by linarith) h28 3
      have h3' : ((z : ℚ) - 28) ^ 3 ≤ x * 2 ^ 32 := by exact_mod_cast h3
      rw [v, v, u]
      have e : ((z : ℚ) / 65536 - 28 * (1 / 65536)) ^ 3 = (z - 28) ^ 3 / 2 ^ 48 := by ring
      rw [e, div_le_div_iff₀ (by norm_num) (by norm_num)]
      norm_num at *; linarith

example : cbrt fixed32 (27 * 65536) = .ok 196608 ∧ cbrt fixed32 (94 * 65536 - 1) = .ok 297981 ∧ cbrt fixed32 5 = .ok 3174 := by decide +kernel

/-! ## C44 -/

structure DegC (F : FxTy) where
  lib : Lib F
  pi : Int
  ePi : cPi F = .ok pi
  lo : 3 * 2 ^ F.f ≤ pi
  hi : pi ≤ 4 * 2 ^ F.f
  e180 : ofInt F 180 = 180 * 2 ^ F.f
  s180 : Storable F (180 * 2 ^ F.f)

def degC32 : DegC fixed32 := ⟨lib32, 205887, by decide +kernel, by decide, by decide, by decide +kernel, by decide⟩
def degC64 : DegC fixed64 := ⟨lib64, 13493037704, by decide +kernel, by decide, by decide, by decide +kernel, by decide⟩

theorem tdiv_bounds (a : Int) {b : Int} (hb : 0 < b) :
    (0 ≤ a → 0 ≤ Int.tdiv a b ∧ Int.tdiv a b * b ≤ a ∧ a < Int.tdiv a b * b + b) ∧
    (a ≤ 0 → Int.tdiv a b ≤ 0 ∧ a ≤ Int.tdiv a b * b ∧ Int.tdiv a b * b - b < a) := by
  constructor
  · intro h
    rw [tdiv_eq_ediv h]
    have := Int.ediv_mul_le a hb.ne'
    have := Int.lt_ediv_add_one_mul_self a hb
    exact ⟨Int.ediv_nonneg h hb.le, by omega, by linarith⟩
  · intro h
    have e : Int.tdiv a b = -((-a) / b) := by rw [← tdiv_eq_ediv (by omega), Int.neg_tdiv, neg_neg]
    rw [e]
    have := Int.ediv_mul_le (-a) hb.ne'
    have := Int.lt_ediv_add_one_mul_self (-a) hb
    have := Int.ediv_nonneg (by omega : 0 ≤ -a) hb.le
    refine ⟨by omega, by linarith, by linarith⟩

theorem DegC.radians_eq {F : FxTy} (k : DegC F) {x : Int} (hx : Storable F x) :
    radians F x = .ok (Int.tdiv x 180 * k.pi / 2 ^ F.f) ∧ Storable F (Int.tdiv x 180 * k.pi / 2 ^ F.f) := by
  have h := k.lib
  have hp : (0 : Int) < 2 ^ F.f := by positivity
  have hlh := h.sw.lo_hi
  obtain ⟨b1, b2⟩ := tdiv_bounds x (by norm_num : (0 : Int) < 180)
  have hlo := hx.1
  have hhi := hx.2
  have hk1 := k.lo
  have hk2 := k.hi
  have hq : F.T.InRange (Int.tdiv x 180) := by
    rcases le_total 0 x with h0 | h0
    · have := b1 h0; constructor <;> omega
    · have := b2 h0; constructor <;> omega
  have hq4 : F.T.lo ≤ 4 * Int.tdiv x 180 ∧ 4 * Int.tdiv x 180 ≤ F.T.hi := by
    rcases le_total 0 x with h0 | h0
    · have := b1 h0; constructor <;> omega
    · have := b2 h0; constructor <;> omega
  have ediv : Int.tdiv (x * 2 ^ F.f) (180 * 2 ^ F.f) = Int.tdiv x 180 := Int.mul_tdiv_mul_of_pos_left _ _ hp
  have hd : div F x (180 * 2 ^ F.f) = .ok (Int.tdiv x 180) := by
    have := h.sw.div_ok h.r hx (y := 180 * 2 ^ F.f) (by positivity) (by rw [ediv]; exact hq)
    rwa [ediv] at this
  have hr : F.T.InRange (Int.tdiv x 180 * k.pi / 2 ^ F.f) := by
    generalize Int.tdiv x 180 = q at *
    constructor
    · rw [Int.le_ediv_iff_mul_le hp]
      rcases le_total 0 q with h0 | h0
      · have : 0 ≤ q * k.pi := mul_nonneg h0 (by omega)
        have : F.T.lo * 2 ^ F.f ≤ 0 := mul_nonpos_of_nonpos_of_nonneg (by omega) hp.le
        omega
      · nlinarith
    · refine Int.lt_add_one_iff.1 ((Int.ediv_lt_iff_lt_mul hp).2 ?_)
      rcases le_total 0 q with h0 | h0
      · nlinarith
      · have : q * k.pi ≤ 0 := mul_nonpos_of_nonpos_of_nonneg h0 (by omega)
        have : 0 < (F.T.hi + 1) * 2 ^ F.f := mul_pos (by omega) hp
        omega
  have hpiS : F.T.InRange k.pi := by
    obtain ⟨_, h180⟩ := k.s180
    constructor <;> omega
  refine ⟨?_, hr⟩
  unfold radians
  rw [k.ePi, Res.bind_ok, k.e180, hd, Res.bind_ok, h.sw.mul_ok h.r hq hpiS hr]

theorem DegC.degrees_eq {F : FxTy} (k : DegC F) {x : Int} (hx : |x| * 60 ≤ F.T.hi) :
    degrees F x = .ok (Int.tdiv (x * 2 ^ F.f) k.pi * 180) ∧ Storable F (Int.tdiv (x * 2 ^ F.f) k.pi * 180) := by
  have h := k.lib
  have hp : (0 : Int) < 2 ^ F.f := by positivity
  have hlh := h.sw.lo_hi
  have hk1 := k.lo
  have hxa := abs_le.1 (le_refl |x|)
  have hxS : Storable F x := by constructor <;> omega
  obtain ⟨b1, b2⟩ := tdiv_bounds (x * 2 ^ F.f) (by omega : 0 < k.pi)
  have hq3 : 3 * |Int.tdiv (x * 2 ^ F.f) k.pi| ≤ |x| := by
    rcases le_total 0 x with h0 | h0
    · obtain ⟨c1, c2, _⟩ := b1 (mul_nonneg h0 hp.le)
      rw [abs_of_nonneg c1, abs_of_nonneg h0]
      by_contra hc
      nlinarith
    · obtain ⟨c1, c2, _⟩ := b2 (mul_nonpos_of_nonpos_of_nonneg h0 hp.le)
      rw [abs_of_nonpos c1, abs_of_nonpos h0]
      by_contra hc
      nlinarith
  have hqa := abs_le.1 (le_refl |Int.tdiv (x * 2 ^ F.f) k.pi|)
  have hq : F.T.InRange (Int.tdiv (x * 2 ^ F.f) k.pi) := by constructor <;> omega
  have hr : F.T.InRange (Int.tdiv (x * 2 ^ F.f) k.pi * 180) := by constructor <;> omega
  have hd := h.sw.div_ok h.r hxS (by omega : k.pi ≠ 0) hq
  have em : Int.tdiv (x * 2 ^ F.f) k.pi * (180 * 2 ^ F.f) / 2 ^ F.f = Int.tdiv (x * 2 ^ F.f) k.pi * 180 := by
    rw [← mul_assoc]; exact Int.mul_ediv_cancel _ hp.ne'
  refine ⟨?_, hr⟩
  unfold degrees
  rw [k.ePi, Res.bind_ok, hd, Res.bind_ok, k.e180, h.sw.mul_ok h.r hq k.s180 (by rw [em]; exact hr), em]

noncomputable def degC_of {F : FxTy} (hF : F = fixed32 ∨ F = fixed64) : DegC F :=
  if h : F = fixed32 then h ▸ degC32 else (hF.resolve_left h) ▸ degC64

/-- C44: `degrees(radians(x))` is defined, less than 180 ulp above and less than 360 ulp below `x`, for every `x` of either library
type whose angle `y = radians(x)` is small enough to be scaled back (`60 |y|` in range). -/
theorem C44_degrees_radians (F : FxTy) (hF : F = fixed32 ∨ F = fixed64) (x y : Int) (hx : Storable F x) (hy : radians F x = .ok y)
    (hsz : |y| * 60 ≤ F.T.hi) :
    ∃ z, degrees F y = .ok z ∧ val F x - 360 * ulp F < val F z ∧ val F z < val F x + 180 * ulp F := by
  have k := degC_of hF
  have hp : (0 : Int) < 2 ^ F.f := by positivity
  have hk1 := k.lo
  have hpi : 0 < k.pi := by omega
  rw [(k.radians_eq hx).1] at hy
  cases hy
  refine ⟨_, (k.degrees_eq hsz).1, ?_⟩
  clear hsz
  obtain ⟨b1, b2⟩ := tdiv_bounds x (by norm_num : (0 : Int) < 180)
  have hq : |x - Int.tdiv x 180 * 180| < 180 := by
    rw [abs_lt]
    rcases le_total 0 x with h0 | h0
    · have := b1 h0; constructor <;> omega
    · have := b2 h0; constructor <;> omega
  clear b1 b2
  generalize Int.tdiv x 180 = q at *
  have d1 := Int.ediv_mul_le (q * k.pi) hp.ne'
  have d2 := Int.lt_ediv_add_one_mul_self (q * k.pi) hp
  generalize q * k.pi / 2 ^ F.f = y at *
  obtain ⟨b1, b2⟩ := tdiv_bounds (y * 2 ^ F.f) hpi
  have ht : q - 1 ≤ Int.tdiv (y * 2 ^ F.f) k.pi ∧ Int.tdiv (y * 2 ^ F.f) k.pi ≤ q := by
    generalize Int.tdiv (y * 2 ^ F.f) k.pi = t at *
    rcases le_total 0 (y * 2 ^ F.f) with h0 | h0
    · obtain ⟨_, c2, c3⟩ := b1 h0
      constructor
      · by_contra hc
        nlinarith
      · by_contra hc
        nlinarith
    · obtain ⟨_, c2, c3⟩ := b2 h0
      constructor
      · by_contra hc
        nlinarith
      · by_contra hc
        nlinarith
  generalize Int.tdiv (y * 2 ^ F.f) k.pi = t at *
  obtain ⟨h1, h2⟩ := abs_lt.1 hq
  have e1 : val F x - 360 * ulp F = val F (x - 360) := by rw [val_sub]; unfold val ulp; push_cast; ring
  have e2 : val F x + 180 * ulp F = val F (x + 180) := by rw [val_add]; unfold val ulp; push_cast; ring
  rw [e1, e2, val_lt, val_lt]
  constructor <;> omega

/-- C44, the other round trip: `radians(degrees(r))` is within 5 ulp of `r`. -/
theorem C44_radians_degrees (F : FxTy) (hF : F = fixed32 ∨ F = fixed64) (r : Int) (hr : |r| * 60 ≤ F.T.hi) :
    ∃ d z, degrees F r = .ok d ∧ radians F d = .ok z ∧ |val F z - val F r| ≤ 5 * ulp F := by
  have k := degC_of hF
  have hp : (0 : Int) < 2 ^ F.f := by positivity
  have hk1 := k.lo
  have hk2 := k.hi
  have hpi : 0 < k.pi := by omega
  obtain ⟨e1, s1⟩ := k.degrees_eq hr
  obtain ⟨e2, _⟩ := k.radians_eq s1
  refine ⟨_, _, e1, e2, ?_⟩
  rw [Int.mul_tdiv_cancel _ (by norm_num : (180 : Int) ≠ 0)]
  clear e1 e2 s1 hr
  obtain ⟨b1, b2⟩ := tdiv_bounds (r * 2 ^ F.f) hpi
  have ht : |r * 2 ^ F.f - Int.tdiv (r * 2 ^ F.f) k.pi * k.pi| < k.pi := by
    rw [abs_lt]
    rcases le_total 0 (r * 2 ^ F.f) with h0 | h0
    · have := b1 h0; constructor <;> omega
    · have := b2 h0; constructor <;> omega
  clear b1 b2
  generalize Int.tdiv (r * 2 ^ F.f) k.pi = t at *
  have d1 := Int.ediv_mul_le (t * k.pi) hp.ne'
  have d2 := Int.lt_ediv_add_one_mul_self (t * k.pi) hp
  generalize t * k.pi / 2 ^ F.f = z at *
  obtain ⟨h1, h2⟩ := abs_lt.1 ht
  have hz : |z - r| ≤ 5 := by
    rw [abs_le]
    constructor
    · by_contra hc
      push Not at hc
      have : z - r ≤ -6 := by omega
      nlinarith
    · by_contra hc
      push Not at hc
      have : 6 ≤ z - r := by omega
      nlinarith
  rw [← val_sub]
  have e : |val F (z - r)| = val F |z - r| := by
    unfold val; rw [abs_div, abs_of_pos (by positivity : (0 : ℚ) < 2 ^ F.f)]; push_cast; rfl
  have e5 : 5 * ulp F = val F 5 := by unfold val ulp; push_cast; ring
  rw [e, e5, val_le]; exact hz

/-- C44: `radians` is defined everywhere and monotone; `degrees` is defined and monotone as long as the result can be represented. -/
theorem C44_monotone (F : FxTy) (hF : F = fixed32 ∨ F = fixed64) (x y : Int) (hx : Storable F x) (hy : Storable F y)
    (hxy : val F x ≤ val F y) :
    (∃ a b, radians F x = .ok a ∧ radians F y = .ok b ∧ val F a ≤ val F b) ∧
    (|x| * 60 ≤ F.T.hi → |y| * 60 ≤ F.T.hi → ∃ a b, degrees F x = .ok a ∧ degrees F y = .ok b ∧ val F a ≤ val F b) := by
  have k := degC_of hF
  have hp : (0 : Int) < 2 ^ F.f := by positivity
  have hk1 := k.lo
  have hpi : 0 < k.pi := by omega
  rw [val_le] at hxy
  constructor
  · refine ⟨_, _, (k.radians_eq hx).1, (k.radians_eq hy).1, ?_⟩
    rw [val_le]
    apply Int.ediv_le_ediv hp
    exact mul_le_mul_of_nonneg_right (Int.tdiv_le_tdiv (by norm_num) hxy) hpi.le
  · intro h1 h2
    refine ⟨_, _, (k.degrees_eq h1).1, (k.degrees_eq h2).1, ?_⟩
    rw [val_le]
    exact mul_le_mul_of_nonneg_right (Int.tdiv_le_tdiv hpi (mul_le_mul_of_nonneg_right hxy hp.le)) (by norm_num)

/-- C44: `0` maps to `0` and `180` to `pi` and back. -/
theorem C44_points (F : FxTy) (hF : F = fixed32 ∨ F = fixed64) :
    ∃ pi d, cPi F = .ok pi ∧ val F d = 180 ∧ radians F d = .ok pi ∧ degrees F pi = .ok d ∧ radians F 0 = .ok 0 ∧ degrees F 0 = .ok 0 := by
  rcases hF with rfl | rfl
  · exact ⟨205887, 180 * 65536, by decide +kernel, by norm_num [val, fixed32], by decide +kernel⟩
  · exact ⟨13493037704, 180 * 2 ^ 32, by decide +kernel, by norm_num [val, fixed64], by decide +kernel⟩

example : radians fixed64 (90 * 2 ^ 32) = .ok 6746518852 ∧ degrees fixed64 6746518852 = .ok 386547056640 ∧
    |(6746518852 : Int)| * 60 ≤ fixed64.T.hi ∧ radians fixed32 (90 * 65536) = .ok 102943 ∧ degrees fixed32 102943 = .ok 5898060 := by decide +kernel

end Eirin.Props
