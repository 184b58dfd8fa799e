import Verif.Props.Exp
import Mathlib.Analysis.Complex.ExponentialBounds
import Mathlib.Tactic.IntervalCases

/-!
# C99: the exponential function over the whole range in which its value fits
-/

namespace Eirin.Props
open Eirin Eirin.Spec

/-! ### The powers of the constant `e` that `exp_expand` multiplies with -/

theorem exp_nat_eq (n : Nat) : Real.exp n = Real.exp 1 ^ n := by
  rw [← Real.exp_nat_mul, mul_one]

theorem exp_nat_lo (n : Nat) : (2.7182818283 : ℝ) ^ n ≤ Real.exp n := by
  rw [exp_nat_eq]; exact pow_le_pow_left₀ (by norm_num) Real.exp_one_gt_d9.le n
theorem exp_nat_hi (n : Nat) : Real.exp n ≤ (2.7182818286 : ℝ) ^ n := by
  rw [exp_nat_eq]; exact pow_le_pow_left₀ (Real.exp_pos 1).le Real.exp_one_lt_d9.le n

theorem exp_nat_near (n : Nat) {q η : ℝ} (hη : 0 ≤ η ∧ η ≤ 1) (lo : (1 - η) * 2.7182818286 ^ n ≤ q) (hi : q ≤ (1 + η) * 2.7182818283 ^ n) :
    |q - Real.exp n| ≤ Real.exp n * η := by
  have h1 := mul_le_mul_of_nonneg_left (exp_nat_hi n) (show (0 : ℝ) ≤ 1 - η by linarith [hη.2])
  have h2 := mul_le_mul_of_nonneg_left (exp_nat_lo n) (show (0 : ℝ) ≤ 1 + η by linarith [hη.1])
  rw [abs_le]
  constructor <;> linarith

theorem expTab32 (n : Nat) (hn : n ≤ 10) :
    ∃ p, powInt fixed32 178145 (n : Int) = .ok p ∧ Storable fixed32 p ∧ |rv fixed32 p - Real.exp n| ≤ Real.exp n * (3 / 100000) := by
  interval_cases n
  · exact ⟨65536, by decide +kernel, by decide +kernel, exp_nat_near 0 (by norm_num) (by rw [rvn32]; norm_num) (by rw [rvn32]; norm_num)⟩
  · exact ⟨178145, by decide +kernel, by decide +kernel, exp_nat_near 1 (by norm_num) (by rw [rvn32]; norm_num) (by rw [rvn32]; norm_num)⟩
  · exact ⟨484247, by decide +kernel, by decide +kernel, exp_nat_near 2 (by norm_num) (by rw [rvn32]; norm_num) (by rw [rvn32]; norm_num)⟩
  · exact ⟨1316317, by decide +kernel, by decide +kernel, exp_nat_near 3 (by norm_num) (by rw [rvn32]; norm_num) (by rw [rvn32]; norm_num)⟩
  · exact ⟨3578112, by decide +kernel, by decide +kernel, exp_nat_near 4 (by norm_num) (by rw [rvn32]; norm_num) (by rw [rvn32]; norm_num)⟩
  · exact ⟨9726299, by decide +kernel, by decide +kernel, exp_nat_near 5 (by norm_num) (by rw [rvn32]; norm_num) (by rw [rvn32]; norm_num)⟩
  · exact ⟨26438751, by decide +kernel, by decide +kernel, exp_nat_near 6 (by norm_num) (by rw [rvn32]; norm_num) (by rw [rvn32]; norm_num)⟩
  · exact ⟨71867823, by decide +kernel, by decide +kernel, exp_nat_near 7 (by norm_num) (by rw [rvn32]; norm_num) (by rw [rvn32]; norm_num)⟩
  · exact ⟨195356529, by decide +kernel, by decide +kernel, exp_nat_near 8 (by norm_num) (by rw [rvn32]; norm_num) (by rw [rvn32]; norm_num)⟩
  · exact ⟨531033155, by decide +kernel, by decide +kernel, exp_nat_near 9 (by norm_num) (by rw [rvn32]; norm_num) (by rw [rvn32]; norm_num)⟩
  · exact ⟨1443493852, by decide +kernel, by decide +kernel, exp_nat_near 10 (by norm_num) (by rw [rvn32]; norm_num) (by rw [rvn32]; norm_num)⟩

theorem expTab64 (n : Nat) (hn : n ≤ 21) :
    ∃ p, powInt fixed64 11674931554 (n : Int) = .ok p ∧ Storable fixed64 p ∧ |rv fixed64 p - Real.exp n| ≤ Real.exp n * (4 / 1000000000) := by
  interval_cases n
  · exact ⟨4294967296, by decide +kernel, by decide +kernel, exp_nat_near 0 (by norm_num) (by rw [rvn64]; norm_num) (by rw [rvn64]; norm_num)⟩
  · exact ⟨11674931554, by decide +kernel, by decide +kernel, exp_nat_near 1 (by norm_num) (by rw [rvn64]; norm_num) (by rw [rvn64]; norm_num)⟩
  · exact ⟨31735754290, by decide +kernel, by decide +kernel, exp_nat_near 2 (by norm_num) (by rw [rvn64]; norm_num) (by rw [rvn64]; norm_num)⟩
  · exact ⟨86266724194, by decide +kernel, by decide +kernel, exp_nat_near 3 (by norm_num) (by rw [rvn64]; norm_num) (by rw [rvn64]; norm_num)⟩
  · exact ⟨234497268766, by decide +kernel, by decide +kernel, exp_nat_near 4 (by norm_num) (by rw [rvn64]; norm_num) (by rw [rvn64]; norm_num)⟩
  · exact ⟨637429664480, by decide +kernel, by decide +kernel, exp_nat_near 5 (by norm_num) (by rw [rvn64]; norm_num) (by rw [rvn64]; norm_num)⟩
  · exact ⟨1732713473782, by decide +kernel, by decide +kernel, exp_nat_near 6 (by norm_num) (by rw [rvn64]; norm_num) (by rw [rvn64]; norm_num)⟩
  · exact ⟨4710003549438, by decide +kernel, by decide +kernel, exp_nat_near 7 (by norm_num) (by rw [rvn64]; norm_num) (by rw [rvn64]; norm_num)⟩
  · exact ⟨12803117059803, by decide +kernel, by decide +kernel, exp_nat_near 8 (by norm_num) (by rw [rvn64]; norm_num) (by rw [rvn64]; norm_num)⟩
  · exact ⟨34802480449678, by decide +kernel, by decide +kernel, exp_nat_near 9 (by norm_num) (by rw [rvn64]; norm_num) (by rw [rvn64]; norm_num)⟩
  · exact ⟨94602950186472, by decide +kernel, by decide +kernel, exp_nat_near 10 (by norm_num) (by rw [rvn64]; norm_num) (by rw [rvn64]; norm_num)⟩
  · exact ⟨257157480395753, by decide +kernel, by decide +kernel, exp_nat_near 11 (by norm_num) (by rw [rvn64]; norm_num) (by rw [rvn64]; norm_num)⟩
  · exact ⟨699026505978587, by decide +kernel, by decide +kernel, exp_nat_near 12 (by norm_num) (by rw [rvn64]; norm_num) (by rw [rvn64]; norm_num)⟩
  · exact ⟨1900151048723699, by decide +kernel, by decide +kernel, exp_nat_near 13 (by norm_num) (by rw [rvn64]; norm_num) (by rw [rvn64]; norm_num)⟩
  · exact ⟨5165146066790642, by decide +kernel, by decide +kernel, exp_nat_near 14 (by norm_num) (by rw [rvn64]; norm_num) (by rw [rvn64]; norm_num)⟩
  · exact ⟨14040322693889574, by decide +kernel, by decide +kernel, exp_nat_near 15 (by norm_num) (by rw [rvn64]; norm_num) (by rw [rvn64]; norm_num)⟩
  · exact ⟨38165554042677072, by decide +kernel, by decide +kernel, exp_nat_near 16 (by norm_num) (by rw [rvn64]; norm_num) (by rw [rvn64]; norm_num)⟩
  · exact ⟨103744732022458410, by decide +kernel, by decide +kernel, exp_nat_near 17 (by norm_num) (by rw [rvn64]; norm_num) (by rw [rvn64]; norm_num)⟩
  · exact ⟨282007419839528326, by decide +kernel, by decide +kernel, exp_nat_near 18 (by norm_num) (by rw [rvn64]; norm_num) (by rw [rvn64]; norm_num)⟩
  · exact ⟨766575644796440535, by decide +kernel, by decide +kernel, exp_nat_near 19 (by norm_num) (by rw [rvn64]; norm_num) (by rw [rvn64]; norm_num)⟩
  · exact ⟨2083768645289573629, by decide +kernel, by decide +kernel, exp_nat_near 20 (by norm_num) (by rw [rvn64]; norm_num) (by rw [rvn64]; norm_num)⟩
  · exact ⟨5664270442937722803, by decide +kernel, by decide +kernel, exp_nat_near 21 (by norm_num) (by rw [rvn64]; norm_num) (by rw [rvn64]; norm_num)⟩

/-- What the range argument needs to know about a library type. -/
structure ExpT (F : FxTy) where
  k : ExpC F
  N : Nat
  η : ℝ
  K : ℝ
  B : ℝ
  hη : 0 ≤ η ∧ η ≤ 1
  tab : ∀ n : Nat, n ≤ N → ∃ p, powInt F k.ev (n : Int) = .ok p ∧ Storable F p ∧ |rv F p - Real.exp n| ≤ Real.exp n * η
  B0 : 0 < B
  top : B ≤ 2.7182818283 ^ (N + 1)
  fits : ∀ z : Int, -1 ≤ rv F z → rv F z < B → Storable F z
  hK : 9 / 4 * η + (1 + η) * (5 / 100000 + 12 * uR F) + uR F ≤ 5 / 100000 + K * uR F
  small : 5 / 100000 + K * uR F ≤ 1 / 1000

noncomputable def expT32 : ExpT fixed32 where
  k := expC32
  N := 10
  η := 3 / 100000
  K := 19
  B := 32768
  hη := by norm_num
  tab := expTab32
  B0 := by norm_num
  top := by norm_num
  fits z h1 h2 := by
    rw [rvn32] at h1 h2
    have a : (-65536 : ℝ) ≤ z := by linarith
    have b : (z : ℝ) < 2147483648 := by linarith
    have a' : (-65536 : Int) ≤ z := by exact_mod_cast a
    have b' : z < 2147483648 := by exact_mod_cast b
    exact ⟨by show (-2147483648 : Int) ≤ z; omega, by show z ≤ (2147483647 : Int); omega⟩
  hK := by rw [un32]; norm_num
  small := by rw [un32]; norm_num

noncomputable def expT64 : ExpT fixed64 where
  k := expC64
  N := 21
  η := 4 / 1000000000
  K := 60
  B := 2147483648
  hη := by norm_num
  tab := expTab64
  B0 := by norm_num
  top := by norm_num
  fits z h1 h2 := by
    rw [rvn64] at h1 h2
    have a : (-4294967296 : ℝ) ≤ z := by linarith
    have b : (z : ℝ) < 9223372036854775808 := by linarith
    have a' : (-4294967296 : Int) ≤ z := by exact_mod_cast a
    have b' : z < 9223372036854775808 := by exact_mod_cast b
    exact ⟨by show (-9223372036854775808 : Int) ≤ z; omega, by show z ≤ (9223372036854775807 : Int); omega⟩
  hK := by rw [un64]; norm_num
  small := by rw [un64]; norm_num

theorem rv_floor (F : FxTy) (p s : Int) : rv F (p * s / 2 ^ F.f) ≤ rv F p * rv F s ∧ rv F p * rv F s - uR F ≤ rv F (p * s / 2 ^ F.f) := by
  have hp : (0 : Int) < 2 ^ F.f := by positivity
  have h1 := Int.ediv_mul_le (p * s) hp.ne'
  have h2 := Int.lt_ediv_add_one_mul_self (p * s) hp
  have h1' : ((p * s / 2 ^ F.f : Int) : ℝ) * 2 ^ F.f ≤ p * s := by exact_mod_cast h1
  have h2' : (p : ℝ) * s ≤ (((p * s / 2 ^ F.f : Int) : ℝ) + 1) * 2 ^ F.f := by exact_mod_cast h2.le
  have hq : (0 : ℝ) < 2 ^ F.f := by positivity
  unfold rv uR
  constructor
  · rw [div_mul_div_comm, div_le_div_iff₀ hq (by positivity)]
    nlinarith
  · rw [div_mul_div_comm, div_sub_div _ _ (by positivity) hq.ne', div_le_div_iff₀ (by positivity) hq]
    nlinarith [mul_pos hq hq]

/-- `exp_expand` on a non-negative argument whose exponential fits. -/
theorem exp_range {F : FxTy} (T : ExpT F) {x : Int} (hS : Storable F x) (h0 : 0 ≤ x) (hx : Real.exp (rv F x) ≤ 99 / 100 * T.B) (n : Nat)
    (hn : (n : Int) = x / 2 ^ F.f) :
    ∃ r, exp F x = .ok r ∧ |rv F r - (Real.exp (rv F x) - Real.exp n * ((rv F x - n) / 2))| ≤ Real.exp n * (5 / 100000 + T.K * uR F) := by
  have h := T.k.lib
  have hu := uR_pos F
  have hp : (0 : Int) < 2 ^ F.f := by positivity
  have hsm := T.small
  obtain ⟨-, -, -, t0, t1⟩ := intPart_nonneg h hS h0
  have ht : rv F (x - x / 2 ^ F.f * 2 ^ F.f) = rv F x - n := by
    rw [rv_sub, ← hn, rv_int]; push_cast; rfl
  have hX0 : 0 ≤ rv F x - n := by
    have := (rv_le F (a := 0) (b := x - x / 2 ^ F.f * 2 ^ F.f)).2 t0
    rw [ht] at this; simpa [rv] using this
  have hX1 : rv F x - n ≤ 1 := by
    have := (rv_le F (a := x - x / 2 ^ F.f * 2 ^ F.f) (b := 1 * 2 ^ F.f)).2 (by rw [one_mul]; exact t1.le)
    rw [ht, rv_int] at this; simpa using this
  have hen : (0 : ℝ) < Real.exp n := Real.exp_pos _
  have hen1 : (1 : ℝ) ≤ Real.exp n := Real.one_le_exp (by positivity)
  have hsplit : Real.exp (rv F x) = Real.exp n * Real.exp (rv F x - n) := by rw [← Real.exp_add]; congr 1; ring
  unfold exp
  rw [h.ofInt0, h.ofInt1]
  by_cases hz : x = 0
  · refine ⟨2 ^ F.f, by rw [if_pos (by rw [eq_iff]; exact hz)], ?_⟩
    have e1 : rv F (2 ^ F.f) = 1 := by have := rv_int F 1; rw [one_mul] at this; simpa using this
    have e2 : n = 0 := by
      have : (n : Int) = 0 := by rw [hn, hz, Int.zero_ediv]
      exact_mod_cast this
    have e3 : rv F 0 = 0 := by simp [rv]
    have hK0 := T.hK
    have hη := T.hη.1
    rw [hz, e1, e2, e3]
    simp only [Nat.cast_zero, Real.exp_zero, sub_zero, zero_div, mul_zero, sub_self, abs_zero, one_mul]
    nlinarith
  · rw [if_neg (by rw [eq_iff]; exact hz), if_neg (by rw [lt_iff]; omega)]
    obtain ⟨p, s, ep, -, hs, e⟩ := expExpand_nonneg T.k hS h0
    rw [e]
    -- the integer part is small
    have hnN : n ≤ T.N := by
      by_contra hc
      have hc : T.N + 1 ≤ n := by omega
      have a1 : (2.7182818283 : ℝ) ^ (T.N + 1) ≤ 2.7182818283 ^ n := pow_le_pow_right₀ (by norm_num) hc
      have a2 := exp_nat_lo n
      have a3 : Real.exp n ≤ Real.exp (rv F x) := Real.exp_le_exp.2 (by linarith)
      have := T.top
      have := T.B0
      linarith
    obtain ⟨p', ep', -, hpe⟩ := T.tab n hnN
    rw [← hn] at ep
    rw [ep] at ep'
    obtain rfl : p = p' := Res.ok.inj ep'
    have hse := hs.er
    rw [ht] at hse
    have hpoly := expP_near _ hX0 hX1
    set X := rv F x - n with hXd
    set E := Real.exp n with hE
    set v := Real.exp X - X / 2 with hv
    have hsv : |rv F s - v| ≤ 5 / 100000 + 12 * uR F := by
      have := abs_sub_le (rv F s) (expP X) v
      linarith
    have hv0 : 0 ≤ v := by
      have := Real.add_one_le_exp X
      rw [hv]; linarith
    have hv1 : v ≤ 9 / 4 := by
      have a1 : Real.exp X ≤ Real.exp 1 := Real.exp_le_exp.2 hX1
      have a2 := Real.exp_one_lt_d9
      -- `e^X - X/2` is at most `e - 1/2` on `[0, 1]`
      have a3 : Real.exp X * (1 + (1 - X)) ≤ Real.exp 1 := by
        have b1 : Real.exp X * Real.exp (1 - X) = Real.exp 1 := by rw [← Real.exp_add]; congr 1; ring
        have b2 := Real.add_one_le_exp (1 - X)
        rw [← b1]
        exact mul_le_mul_of_nonneg_left (by linarith) (Real.exp_pos X).le
      have a4 : 1 ≤ Real.exp X := Real.one_le_exp hX0
      rw [hv]
      nlinarith
    have hη := T.hη
    have hmain : |rv F p * rv F s - E * v| ≤ E * (9 / 4 * T.η + (1 + T.η) * (5 / 100000 + 12 * uR F)) := by
      have e1 : rv F p * rv F s - E * v = (rv F p - E) * v + rv F p * (rv F s - v) := by ring
      have hpa : |rv F p| ≤ E * (1 + T.η) := by
        have := abs_sub_abs_le_abs_sub (rv F p) E
        rw [abs_of_pos hen] at this
        linarith
      rw [e1]
      have b1 : |(rv F p - E) * v| ≤ E * T.η * (9 / 4) := by
        rw [abs_mul, abs_of_nonneg hv0]
        exact mul_le_mul hpe hv1 hv0 (mul_nonneg hen.le hη.1)
      have b2 : |rv F p * (rv F s - v)| ≤ E * (1 + T.η) * (5 / 100000 + 12 * uR F) := by
        rw [abs_mul]
        exact mul_le_mul hpa hsv (abs_nonneg _) (by have := hη.1; positivity)
      have := abs_add_le ((rv F p - E) * v) (rv F p * (rv F s - v))
      linarith
    obtain ⟨f1, f2⟩ := rv_floor F p s
    have hfl : |rv F (p * s / 2 ^ F.f) - E * v| ≤ E * (5 / 100000 + T.K * uR F) := by
      have c1 : E * (9 / 4 * T.η + (1 + T.η) * (5 / 100000 + 12 * uR F) + uR F) ≤ E * (5 / 100000 + T.K * uR F) :=
        mul_le_mul_of_nonneg_left T.hK hen.le
      have c2 : uR F ≤ E * uR F := by nlinarith
      rw [abs_le] at hmain ⊢
      constructor <;> linarith [hmain.1, hmain.2]
    have hEv : E * v = Real.exp (rv F x) - E * (X / 2) := by rw [hsplit, hv]; ring
    have hst : Storable F (p * s / 2 ^ F.f) := by
      have d1 : E * (5 / 100000 + T.K * uR F) ≤ E * (1 / 1000) := mul_le_mul_of_nonneg_left hsm hen.le
      have d2 : E ≤ Real.exp (rv F x) := Real.exp_le_exp.2 (by linarith)
      have d3 : 0 ≤ E * (X / 2) := mul_nonneg hen.le (by linarith)
      have d4 := T.B0
      rw [abs_le] at hfl
      have d5 : E * (1 / 1000) ≤ E * v := by
        apply mul_le_mul_of_nonneg_left _ hen.le
        have := Real.add_one_le_exp X
        rw [hv]; linarith
      refine T.fits _ (by linarith [hfl.1]) (by linarith [hfl.2])
    refine ⟨_, by rw [h.sw.wrap_ok hst], ?_⟩
    rw [← hEv]
    exact hfl

/-- The range data of the two library types, with the error constant. -/
theorem expT_of {F : FxTy} {K : ℕ} (hF : (F = fixed32 ∧ K = 19) ∨ (F = fixed64 ∧ K = 60)) :
    ∃ T : ExpT F, T.K = K ∧ T.B = 2 ^ (F.T.bits - 1 - F.f) := by
  rcases hF with ⟨rfl, rfl⟩ | ⟨rfl, rfl⟩
  · exact ⟨expT32, by norm_num [expT32], by norm_num [expT32, fixed32]⟩
  · exact ⟨expT64, by norm_num [expT64], by norm_num [expT64, fixed64]⟩

/-- C99 as stated, for `fixed32`: wherever `e^x` fits (with one percent to spare), `exp(x)` is within one percent of it. -/
def C99_statement : Prop := ∀ x, Storable fixed32 x → 0 ≤ x → Real.exp ((val fixed32 x : ℚ) : ℝ) ≤ 99 / 100 * 2 ^ 15 →
  ∃ r, exp fixed32 x = .ok r ∧ |((val fixed32 r : ℚ) : ℝ) - Real.exp ((val fixed32 x : ℚ) : ℝ)| ≤ Real.exp ((val fixed32 x : ℚ) : ℝ) / 100

/-- It does not hold, for the reason of `C37_false` (a coefficient is half of what it should be). -/
theorem C99_false : ¬ C99_statement := by
  intro h
  obtain ⟨r, hr, hle⟩ := h 32768 (by decide) (by norm_num) (by
    rw [rv_eq, rvn32]
    have := Real.exp_bound' (x := 1 / 2) (by norm_num) (by norm_num) (n := 1) (by norm_num)
    norm_num [Finset.sum_range_succ] at this ⊢
    linarith)
  have e : exp fixed32 32768 = .ok 91663 := by decide +kernel
  rw [e] at hr; cases hr
  rw [rv_eq, rv_eq, rvn32, rvn32] at hle
  have lo := Real.sum_le_exp_of_nonneg (x := 1 / 2) (by norm_num) 4
  simp only [Finset.sum_range_succ, Finset.sum_range_zero] at lo
  norm_num [Nat.factorial] at lo hle
  rw [abs_le] at hle
  linarith [hle.1]

/-- C99 (partial), what holds instead: with `n` the integer part of `x`, `exp(x)` is `e^x - e^n (x - n) / 2` up to a relative error of `5e-5` plus 19 ulp
(`fixed32`) or 60 ulp (`fixed64`), wherever `e^x` fits.  Missing from the full statement: the term `e^n (x - n) / 2` is an error of the code. -/
theorem C99_range_partial (F : FxTy) (K : ℕ) (hF : (F = fixed32 ∧ K = 19) ∨ (F = fixed64 ∧ K = 60)) (x : Int) (hS : Storable F x) (n : ℕ)
    (h0 : (n : ℚ) ≤ val F x) (h1 : val F x < n + 1) (hx : Real.exp ((val F x : ℚ) : ℝ) ≤ 99 / 100 * 2 ^ (F.T.bits - 1 - F.f)) :
    ∃ r, exp F x = .ok r ∧
      |((val F r : ℚ) : ℝ) - (Real.exp ((val F x : ℚ) : ℝ) - Real.exp n * ((((val F x : ℚ) : ℝ) - n) / 2))| ≤
        Real.exp n * (5 / 100000 + K * ((ulp F : ℚ) : ℝ)) := by
  obtain ⟨T, hK, hB⟩ := expT_of hF
  have hp : (0 : Int) < 2 ^ F.f := by positivity
  have i0 : (n : Int) * 2 ^ F.f ≤ x := (val_le (F := F)).1 (by rw [val_int]; exact_mod_cast h0)
  have i1 : x < ((n : Int) + 1) * 2 ^ F.f := (val_lt (F := F)).1 (by rw [val_int]; exact_mod_cast h1)
  have hn : (n : Int) = x / 2 ^ F.f := by
    symm
    exact (Int.ediv_eq_iff_of_pos hp).2 ⟨i0, by linarith⟩
  simp only [rv_eq, uR_eq] at hx ⊢
  rw [← hK]
  exact exp_range T hS (le_trans (by positivity) i0) (by rw [hB]; exact hx) n hn
example : exp fixed32 (32768 + 65536 * 9) = .ok 742738221 ∧ exp fixed64 (2 ^ 32 * 20) = .ok 2083766291268047932 := by decide +kernel

/-- C99: at the integers the defective coefficient does not matter: `exp(n)` has a relative error of at most `5e-5` plus 19 (60) ulp. -/
theorem C99_integer (F : FxTy) (K : ℕ) (hF : (F = fixed32 ∧ K = 19) ∨ (F = fixed64 ∧ K = 60)) (x : Int) (hS : Storable F x) (n : ℕ)
    (h0 : val F x = n) (hx : Real.exp n ≤ 99 / 100 * 2 ^ (F.T.bits - 1 - F.f)) :
    ∃ r, exp F x = .ok r ∧ |((val F r : ℚ) : ℝ) - Real.exp n| ≤ Real.exp n * (5 / 100000 + K * ((ulp F : ℚ) : ℝ)) := by
  have hc : ((val F x : ℚ) : ℝ) = n := by rw [h0]; simp
  obtain ⟨r, e, hr⟩ := C99_range_partial F K hF x hS n (by rw [h0]) (by rw [h0]; linarith) (by rw [hc]; exact hx)
  refine ⟨r, e, ?_⟩
  rw [hc] at hr
  simpa using hr
example : exp fixed32 (10 * 65536) = .ok 1443471826 := by decide +kernel

/-- C99: a bound without the exact form: `exp(x)` is never above `1.001 e^x` and never below `0.81 e^x`, wherever `e^x` fits. -/
theorem C99_bounds (F : FxTy) (hF : F = fixed32 ∨ F = fixed64) (x : Int) (hS : Storable F x) (h0 : 0 ≤ val F x)
    (hx : Real.exp ((val F x : ℚ) : ℝ) ≤ 99 / 100 * 2 ^ (F.T.bits - 1 - F.f)) :
    ∃ r, exp F x = .ok r ∧ 81 / 100 * Real.exp ((val F x : ℚ) : ℝ) ≤ ((val F r : ℚ) : ℝ) ∧
      ((val F r : ℚ) : ℝ) ≤ 1001 / 1000 * Real.exp ((val F x : ℚ) : ℝ) := by
  obtain ⟨K, hK⟩ : ∃ K : ℕ, (F = fixed32 ∧ K = 19) ∨ (F = fixed64 ∧ K = 60) := by
    rcases hF with h | h
    exacts [⟨19, Or.inl ⟨h, rfl⟩⟩, ⟨60, Or.inr ⟨h, rfl⟩⟩]
  obtain ⟨T, hTK, -⟩ := expT_of hK
  have hsm := T.small
  rw [hTK] at hsm
  have hn0 : ((⌊val F x⌋₊ : ℕ) : ℚ) ≤ val F x := Nat.floor_le h0
  obtain ⟨r, e, hr⟩ := C99_range_partial F K hK x hS ⌊val F x⌋₊ hn0 (Nat.lt_floor_add_one _) hx
  have hlt := Nat.lt_floor_add_one (val F x)
  refine ⟨r, e, ?_⟩
  generalize ⌊val F x⌋₊ = n at *
  rw [uR_eq] at hr
  have hX0 : 0 ≤ ((val F x : ℚ) : ℝ) - n := by
    have : ((n : ℚ) : ℝ) ≤ ((val F x : ℚ) : ℝ) := by exact_mod_cast hn0
    rw [Rat.cast_natCast] at this; linarith
  generalize ((val F x : ℚ) : ℝ) = V at *
  set X := V - n with hX
  have hsplit : Real.exp V = Real.exp n * Real.exp X := by rw [← Real.exp_add]; congr 1; rw [hX]; ring
  have hen : (0 : ℝ) < Real.exp n := Real.exp_pos _
  have a1 : X ≤ Real.exp X / Real.exp 1 := by
    rw [← Real.exp_sub]
    have := Real.add_one_le_exp (X - 1); linarith
  have a2 : Real.exp X / Real.exp 1 ≤ Real.exp X * (37 / 100) := by
    rw [div_le_iff₀ (Real.exp_pos 1), mul_assoc]
    have := Real.exp_one_gt_d9
    have := Real.exp_pos X
    nlinarith
  have a3 : Real.exp n * (X / 2) ≤ Real.exp V * (185 / 1000) := by
    rw [hsplit, mul_assoc]
    exact mul_le_mul_of_nonneg_left (by linarith) hen.le
  have a4 : Real.exp n ≤ Real.exp V := Real.exp_le_exp.2 (by linarith)
  have a5 : Real.exp n * (5 / 100000 + K * uR F) ≤ Real.exp V * (1 / 1000) :=
    mul_le_mul a4 hsm (by have := uR_pos F; positivity) (Real.exp_pos V).le
  have a6 : 0 ≤ Real.exp n * (X / 2) := mul_nonneg hen.le (by linarith)
  have hV := Real.exp_pos V
  rw [abs_le] at hr
  constructor <;> linarith [hr.1, hr.2]
example : exp fixed64 (7 * 2 ^ 31) = .ok 120661485642 := by decide +kernel

/-- C99: for negative arguments the value lies between `0.998 e^x` less an ulp and `1.24 e^x`, wherever `e^-x` fits. -/
theorem C99_negative (F : FxTy) (hF : F = fixed32 ∨ F = fixed64) (x : Int) (h0 : val F x < 0) (hS : Storable F x) (hlo : Storable F (-x))
    (hx : Real.exp (-((val F x : ℚ) : ℝ)) ≤ 99 / 100 * 2 ^ (F.T.bits - 1 - F.f)) :
    ∃ r, exp F x = .ok r ∧ 998 / 1000 * Real.exp ((val F x : ℚ) : ℝ) - ((ulp F : ℚ) : ℝ) ≤ ((val F r : ℚ) : ℝ) ∧
      ((val F r : ℚ) : ℝ) ≤ 124 / 100 * Real.exp ((val F x : ℚ) : ℝ) := by
  obtain ⟨K, hK⟩ : ∃ K : ℕ, (F = fixed32 ∧ K = 19) ∨ (F = fixed64 ∧ K = 60) := by
    rcases hF with h | h
    exacts [⟨19, Or.inl ⟨h, rfl⟩⟩, ⟨60, Or.inr ⟨h, rfl⟩⟩]
  obtain ⟨T, -, hTB⟩ := expT_of hK
  have hlib : Lib F := T.k.lib
  have hxneg : x < 0 := (val_lt (F := F)).1 (by rw [val_zero]; exact h0)
  have hlox : F.T.lo < x := by have := hlo.2; have := hlib.sw.lo_hi; omega
  obtain ⟨y, ey, y1, y2⟩ := C99_bounds F hF (-x) hlo (by rw [val_neg]; linarith) (by rw [val_neg]; push_cast; exact hx)
  rw [val_neg] at y1 y2
  push_cast at y1 y2
  rw [Real.exp_neg] at y1 y2
  have hE := Real.exp_pos ((val F x : ℚ) : ℝ)
  have hE1 : Real.exp ((val F x : ℚ) : ℝ) ≤ 1 := by
    rw [Real.exp_le_one_iff]; exact_mod_cast h0.le
  generalize hEd : Real.exp ((val F x : ℚ) : ℝ) = E at *
  have hyp : (0 : ℝ) < ((val F y : ℚ) : ℝ) := lt_of_lt_of_le (by positivity) y1
  have hyq : 0 < val F y := by exact_mod_cast hyp
  obtain ⟨r, hr⟩ := C16_trunc_exists F (1 / val F y)
  have hinv0 : 0 ≤ 1 / val F y := by positivity
  have hr' : 0 ≤ val F r ∧ val F r ≤ 1 / val F y ∧ 1 / val F y - ulp F ≤ val F r := by
    obtain ⟨a, b, c⟩ := hr.1 hinv0
    exact ⟨a, b, by linarith⟩
  have b1 : 1 / ((val F y : ℚ) : ℝ) ≤ 124 / 100 * E := by
    rw [div_le_iff₀ hyp]
    have : 124 / 100 * E * (81 / 100 * E⁻¹) ≤ 124 / 100 * E * ((val F y : ℚ) : ℝ) := mul_le_mul_of_nonneg_left y1 (by positivity)
    have e : 124 / 100 * E * (81 / 100 * E⁻¹) = 124 * 81 / 10000 := by field_simp; norm_num
    rw [e] at this
    norm_num at this ⊢
    linarith
  have b2 : 998 / 1000 * E ≤ 1 / ((val F y : ℚ) : ℝ) := by
    rw [le_div_iff₀ hyp]
    have : 998 / 1000 * E * ((val F y : ℚ) : ℝ) ≤ 998 / 1000 * E * (1001 / 1000 * E⁻¹) := mul_le_mul_of_nonneg_left y2 (by positivity)
    have e : 998 / 1000 * E * (1001 / 1000 * E⁻¹) = 998 * 1001 / 1000000 := by field_simp; norm_num
    rw [e] at this
    norm_num at this ⊢
    linarith
  obtain ⟨c1, c2, c3⟩ := hr'
  have c1' : (0 : ℝ) ≤ ((val F r : ℚ) : ℝ) := by exact_mod_cast c1
  have c2' : ((val F r : ℚ) : ℝ) ≤ 1 / ((val F y : ℚ) : ℝ) := by exact_mod_cast c2
  have c3' : 1 / ((val F y : ℚ) : ℝ) - ((ulp F : ℚ) : ℝ) ≤ ((val F r : ℚ) : ℝ) := by exact_mod_cast c3
  have hB2 : (2 : ℝ) ≤ T.B := by
    rw [hTB]
    rcases hF with rfl | rfl <;> norm_num [fixed32, fixed64]
  have hrS : Storable F r := T.fits r (by rw [← rv_eq]; linarith) (by rw [← rv_eq]; linarith)
  refine ⟨r, C37_negative F hF x y r hS hxneg hlox ey hyq.ne' hr hrS, by linarith, by linarith⟩
example : exp fixed32 (-5 * 65536) = .ok 441 := by decide +kernel

end Eirin.Props
