import Verif.Props.Mixed
import Verif.Lemmas.Bits

/-! # Properties C14–C19: construction, conversions, parts, limits. -/

namespace Eirin.Props
open Spec

/-! ## C14 -/

/-- C14: construction from an integer is exact when the integer is representable, and otherwise the exact raw value
reduced modulo the storage size (no undefined behaviour: the model function is total). -/
theorem C14_ofInt (F : FxTy) (hF : F.Valid) (n : Int) :
    (Representable F n → Storable F (ofInt F n) ∧ val F (ofInt F n) = n) ∧ IsWrap F (n * 2 ^ F.f) (ofInt F n) := by
  refine ⟨fun h => ?_, ?_⟩
  · obtain ⟨a, b, _⟩ := ofInt_exact F hF n h; exact ⟨a, b⟩
  · rw [ofInt_eq F hF]; exact isWrap_wrap hF _

/-- C14: round trip through any integer type holding the value. -/
theorem C14_roundtrip (F : FxTy) (hF : F.Valid) (U : IntTy) (hU : 0 < U.bits) (n : Int) (hn : Representable F n)
    (hr : U.InRange n) : toInt F U (ofInt F n) = n := by
  obtain ⟨_, _, e⟩ := ofInt_exact F hF n hn
  unfold toInt
  rw [e, Int.mul_ediv_cancel _ (by positivity), IntTy.wrap_of_inRange hU hr]

example : fixed32.Valid ∧ Representable fixed32 ((-32768 : Int) : ℚ) ∧ i32.InRange (-32768) ∧
    toInt fixed32 i32 (ofInt fixed32 (-32768)) = -32768 ∧ ofInt fixed32 32768 = -2 ^ 31 := by
  refine ⟨by decide, ⟨-2 ^ 31, by decide +kernel, by norm_num [val, fixed32]⟩, by decide +kernel, by decide +kernel,
    by decide +kernel⟩

/-! ## C15 -/

/-- C15: conversion to an integer type wide enough for the result is the floor. -/
theorem C15_toInt_floor (F : FxTy) (U : IntTy) (hU : 0 < U.bits) (x k : Int)
    (hk : (k : ℚ) ≤ val F x ∧ val F x < k + 1) (hr : U.InRange k) : toInt F U x = k := by
  have hp : (0 : Int) < 2 ^ F.f := by positivity
  have hq : (0 : ℚ) < 2 ^ F.f := by positivity
  have e : x / 2 ^ F.f = k := by
    unfold val at hk
    rw [le_div_iff₀ hq, div_lt_iff₀ hq] at hk
    have h1 : k * 2 ^ F.f ≤ x := by exact_mod_cast hk.1
    have h2 : x < (k + 1) * 2 ^ F.f := by exact_mod_cast hk.2
    apply le_antisymm
    · have := (Int.ediv_lt_iff_lt_mul hp).2 h2; omega
    · exact (Int.le_ediv_iff_mul_le hp).2 h1
  unfold toInt
  rw [e, IntTy.wrap_of_inRange hU hr]

/-- C15: for a target at least as wide as the storage and of the same signedness the floor always fits, for every value. -/
theorem C15_toInt_total (F : FxTy) (hF : F.Valid) (x : Int) (hx : Storable F x) :
    (toInt F F.T x : ℚ) ≤ val F x ∧ val F x < toInt F F.T x + 1 := by
  have hp : (0 : Int) < 2 ^ F.f := by positivity
  have hq : (0 : ℚ) < 2 ^ F.f := by positivity
  have h1 := Int.ediv_mul_le x (ne_of_gt hp)
  have h2 := Int.lt_ediv_add_one_mul_self x hp
  have hr : F.T.InRange (x / 2 ^ F.f) := by
    obtain ⟨a, b⟩ := hx
    have hone : (1 : Int) ≤ 2 ^ F.f := hp
    have hh0 : 0 ≤ F.T.hi := by
      unfold IntTy.hi
      have h1 : (1 : Int) ≤ 2 ^ (F.T.bits - 1) := one_le_pow₀ (by norm_num)
      have h2 : (1 : Int) ≤ 2 ^ F.T.bits := one_le_pow₀ (by norm_num)
      split <;> omega
    have hl0 : F.T.lo ≤ 0 := by
      unfold IntTy.lo; split
      · have : (0 : Int) < 2 ^ (F.T.bits - 1) := by positivity
        omega
      · exact le_refl _
    constructor
    · rw [Int.le_ediv_iff_mul_le hp]; nlinarith
    · have : x / 2 ^ F.f < F.T.hi + 1 := by rw [Int.ediv_lt_iff_lt_mul hp]; nlinarith
      omega
  unfold toInt
  rw [IntTy.wrap_of_inRange hF.tpos hr]
  unfold val
  rw [le_div_iff₀ hq, div_lt_iff₀ hq]
  exact ⟨by exact_mod_cast h1, by exact_mod_cast h2⟩

example : toInt fixed32 i32 (-98304) = -2 ∧ ((-2 : Int) : ℚ) ≤ val fixed32 (-98304) ∧
    val fixed32 (-98304) < ((-2 : Int) : ℚ) + 1 ∧ Storable fixed32 (-98304) := by
  refine ⟨by decide +kernel, ?_, ?_, by decide +kernel⟩ <;> norm_num [val, fixed32]

/-! ## C16 -/

theorem ratTrunc_spec (F : FxTy) (q : ℚ) : IsTrunc F (q / 2 ^ F.f) (ratTrunc q) := by
  have h := trunc_spec F q.num q.den (by exact_mod_cast q.den_nz)
  have e : (q.num : ℚ) / ((q.den : Int) : ℚ) = q := by
    rw [Int.cast_natCast]; exact Rat.num_div_den q
  rw [e] at h
  exact h

/-- C16: construction from a finite floating value truncates it toward zero to a multiple of one ulp, and is undefined
iff the truncated value is not storable (non-rounding types). -/
theorem C16_ofFloat (F : FxTy) (hF : F.Valid) (hr : F.r = false) (v : ℚ) (n : Int) (hn : IsTrunc F v n) :
    (Storable F n → ofFloat F v = .ok n) ∧ (¬ Storable F n → ofFloat F v = .ub .overflow) := by
  have hq : (2 : ℚ) ^ F.f ≠ 0 := by positivity
  have e : ratTrunc (v * fractionMultiplier F) = n := by
    have h := ratTrunc_spec F (v * fractionMultiplier F)
    rw [fractionMultiplier_eq hF] at h ⊢
    push_cast at h ⊢
    rw [mul_div_assoc, div_self hq, mul_one] at h
    exact isTrunc_unique h hn
  unfold ofFloat floatToInt
  simp only [hr, Bool.false_eq_true, if_false, e]
  constructor
  · intro h; rw [if_pos (show F.T.InRange n from h)]
  · intro h; rw [if_neg (show ¬ F.T.InRange n from h)]

/-- The hypothesis of `C16_ofFloat` always has a solution. -/
theorem C16_trunc_exists (F : FxTy) (v : ℚ) : ∃ n, IsTrunc F v n := by
  refine ⟨ratTrunc (v * 2 ^ F.f), ?_⟩
  have h := ratTrunc_spec F (v * 2 ^ F.f)
  have hq : (2 : ℚ) ^ F.f ≠ 0 := by positivity
  rwa [mul_div_assoc, div_self hq, mul_one] at h

example : ofFloat fixed32 (-3 / 7) = .ok (-28086) ∧ IsTrunc fixed32 (-3 / 7) (-28086) ∧ Storable fixed32 (-28086) ∧
    ofFloat fixed32 40000 = .ub .overflow := by
  refine ⟨by decide +kernel, ?_, by decide +kernel, by decide +kernel⟩
  unfold IsTrunc val ulp fixed32; norm_num

/-- C16 as stated for the other direction: conversion to floating point is exact. -/
def C16_toFloat_statement : Prop := ∀ x, Storable fixed32 x → toFloat fixed32 x = .ok (val fixed32 x)

/-- C16 is false of the code for non-integral values: `(double)1.5_f32` is `1.0` (integer division before the cast). -/
theorem C16_toFloat_false : ¬ C16_toFloat_statement := by
  intro h
  have h1 := h 98304 (by decide +kernel)
  have h2 : toFloat fixed32 98304 = .ok 1 := by decide +kernel
  rw [h1] at h2
  have : val fixed32 98304 = 1 := by injection h2
  norm_num [val, fixed32] at this

/-- C16, what holds: the conversion to floating point yields the value truncated toward zero to an *integer*; it is
exact iff the number is integral.  Full statement: `C16_toFloat_statement`. -/
theorem C16_toFloat_partial (F : FxTy) (hF : F.Valid) (x : Int) (hx : Storable F x) :
    ∃ k : Int, toFloat F x = .ok k ∧ (0 ≤ val F x → (k : ℚ) ≤ val F x ∧ val F x < k + 1) ∧
      (val F x < 0 → val F x ≤ k ∧ (k : ℚ) - 1 < val F x) ∧ (Integral F x → (k : ℚ) = val F x) := by
  have hp : (0 : Int) < 2 ^ F.f := by positivity
  have ht := trunc_spec ⟨F.T, F.I, 0, F.r⟩ x (2 ^ F.f) (ne_of_gt hp)
  have ev : (x : ℚ) / ((2 ^ F.f : Int) : ℚ) / 2 ^ 0 = val F x := by unfold val; push_cast; simp
  simp only at ht
  rw [ev] at ht
  have hkr : F.T.InRange (Int.tdiv x (2 ^ F.f)) := by
    have := natAbs_tdiv_le x (2 ^ F.f)
    obtain ⟨a, b⟩ := hx
    rcases le_total 0 x with h0 | h0
    · have h1 : 0 ≤ Int.tdiv x (2 ^ F.f) := Int.tdiv_nonneg h0 hp.le
      rw [abs_of_nonneg h0, abs_of_nonneg h1] at this
      exact ⟨by
        have hl0 : F.T.lo ≤ 0 := by
          unfold IntTy.lo; split
          · have : (0 : Int) < 2 ^ (F.T.bits - 1) := by positivity
            omega
          · exact le_refl _
        omega, by omega⟩
    · have h1 : Int.tdiv x (2 ^ F.f) ≤ 0 := by
        have := Int.tdiv_nonneg (a := -x) (b := 2 ^ F.f) (by omega) hp.le
        rw [Int.neg_tdiv] at this; omega
      rw [abs_of_nonpos h0, abs_of_nonpos h1] at this
      exact ⟨by omega, by
        have hh0 : 0 ≤ F.T.hi := by
          unfold IntTy.hi
          have h1 : (1 : Int) ≤ 2 ^ (F.T.bits - 1) := one_le_pow₀ (by norm_num)
          have h2 : (1 : Int) ≤ 2 ^ F.T.bits := one_le_pow₀ (by norm_num)
          split <;> omega
        omega⟩
  have hcd : cdiv F.I.promote x (2 ^ F.f) = .ok (Int.tdiv x (2 ^ F.f)) := by
    apply cdiv_ip_ok hF (ne_of_gt hp)
    intro hs
    have h1 := mul_abs_lt_ip hF (.of_inRange hx) (two_pow_f_bounded hF) hs
    rw [abs_mul, abs_of_pos hp] at h1
    have : |x| ≤ |x| * 2 ^ F.f := by nlinarith [abs_nonneg x]
    omega
  refine ⟨Int.tdiv x (2 ^ F.f), ?_, ?_, ?_, ?_⟩
  · unfold toFloat
    rw [hF.c_eq, fractionMultiplier_eq hF, hcd, Res.bind_ok, IntTy.wrap_of_inRange hF.tpos hkr]; rfl
  · intro h
    obtain ⟨_, b, c⟩ := ht.1 h
    unfold val at b
    unfold val ulp at c
    simp only [pow_zero, div_one] at b c
    exact ⟨b, c⟩
  · intro h
    obtain ⟨_, b, c⟩ := ht.2 h
    unfold val at b
    unfold val ulp at c
    simp only [pow_zero, div_one] at b c
    exact ⟨b, c⟩
  · rintro ⟨k, hk⟩
    have : x = k * 2 ^ F.f := val_inj (F := F) (by rw [hk, val_int])
    rw [hk, this, Int.mul_tdiv_cancel _ (ne_of_gt hp)]

example : toFloat fixed32 (-98304) = .ok (-1) ∧ toFloat fixed64 (7 * 2 ^ 32) = .ok 7 ∧ Storable fixed32 (-98304) := by
  decide +kernel

/-- C16 for rounding types: positive floating values are constructed at *half* their value (stray factor 0.5). -/
theorem C16_rounding_halves (F : FxTy) (hF : F.Valid) (hr : F.r = true) (v : ℚ) (hv : 0 ≤ v) (n : Int)
    (hn : IsTrunc F (v / 2) n) (hs : Storable F n) : ofFloat F v = .ok n := by
  have hq : (2 : ℚ) ^ F.f ≠ 0 := by positivity
  have e : ratTrunc (v * fractionMultiplier F * (1 / 2)) = n := by
    have h := ratTrunc_spec F (v * fractionMultiplier F * (1 / 2))
    rw [fractionMultiplier_eq hF] at h ⊢
    push_cast at h ⊢
    have e2 : v * 2 ^ F.f * (1 / 2) / 2 ^ F.f = v / 2 := by field_simp
    rw [e2] at h
    exact isTrunc_unique h hn
  unfold ofFloat floatToInt
  simp only [hr, if_true, ge_iff_le, hv, e]
  rw [if_pos (show F.T.InRange n from hs)]

example : ofFloat exR32 3 = .ok 98304 ∧ IsTrunc exR32 (3 / 2) 98304 := by
  refine ⟨by decide +kernel, ?_⟩
  unfold IsTrunc val ulp exR32; norm_num

/-! ## C17 -/

theorem tdiv_tdiv_two (a b : Int) : Int.tdiv a (b * 2) = Int.tdiv (Int.tdiv a b) 2 := by
  have hn : (Int.tdiv a (b * 2)).natAbs = (Int.tdiv (Int.tdiv a b) 2).natAbs := by
    rw [Int.natAbs_tdiv, Int.natAbs_tdiv, Int.natAbs_tdiv, Int.natAbs_mul]
    exact (Nat.div_div_eq_div_mul _ _ _).symm
  rcases Int.natAbs_eq_natAbs_iff.1 hn with h | h
  · exact h
  · rcases le_total 0 a with ha | ha <;> rcases le_total 0 b with hb | hb
    · have h1 := Int.tdiv_nonneg (a := a) (b := b * 2) ha (by omega)
      have h2 := Int.tdiv_nonneg (Int.tdiv_nonneg ha hb) (by norm_num : (0 : Int) ≤ 2)
      omega
    · have h1 := Int.tdiv_nonneg (a := a) (b := (-b) * 2) ha (by omega)
      have h2 := Int.tdiv_nonneg (Int.tdiv_nonneg ha (by omega : 0 ≤ -b)) (by norm_num : (0 : Int) ≤ 2)
      rw [neg_mul, Int.tdiv_neg] at h1
      rw [Int.tdiv_neg, Int.neg_tdiv] at h2
      omega
    · have h1 := Int.tdiv_nonneg (a := -a) (b := b * 2) (by omega) (by omega)
      have h2 := Int.tdiv_nonneg (Int.tdiv_nonneg (by omega : 0 ≤ -a) hb) (by norm_num : (0 : Int) ≤ 2)
      rw [Int.neg_tdiv] at h1
      rw [Int.neg_tdiv, Int.neg_tdiv] at h2
      omega
    · have h1 := Int.tdiv_nonneg (a := -a) (b := (-b) * 2) (by omega) (by omega)
      have h2 := Int.tdiv_nonneg (Int.tdiv_nonneg (by omega : 0 ≤ -a) (by omega : 0 ≤ -b)) (by norm_num : (0 : Int) ≤ 2)
      rw [neg_mul, Int.tdiv_neg, Int.neg_tdiv, neg_neg] at h1
      rw [Int.tdiv_neg, Int.neg_tdiv a, neg_neg] at h2
      omega

/-- Raw factor between two types: `T(1) << d` for `d` below the storage width. -/
theorem shl_one (G : FxTy) (hG : G.Valid) (d : Nat) (hd : d + 2 ≤ G.T.bits ∨ (G.T.signed = false ∧ d < G.T.bits)) :
    shl G.T 1 d = .ok (2 ^ d) := by
  have htp := hG.tp
  unfold FxTy.P at htp
  unfold shl
  rw [if_pos (by omega), one_mul, IntTy.wrap_of_inRange hG.ppos]
  apply IntTy.inRange_promote hG.tpos
  have hp : (0 : Int) < 2 ^ d := by positivity
  have hp2 : (0 : Int) < 2 ^ (G.T.bits - 1) := by positivity
  unfold IntTy.InRange IntTy.lo IntTy.hi
  rcases hd with hd | ⟨hs, hd⟩
  · have h1 : (2 : Int) ^ d < 2 ^ (G.T.bits - 1) := pow_lt_pow_right₀ (by norm_num) (by omega)
    have h2 : (2 : Int) ^ d < 2 ^ G.T.bits := pow_lt_pow_right₀ (by norm_num) (by omega)
    split <;> omega
  · have h2 : (2 : Int) ^ d < 2 ^ G.T.bits := pow_lt_pow_right₀ (by norm_num) hd
    rw [hs]; simp; omega

/-- C17: converting to a type with fewer fraction bits truncates toward zero (wrapped to the storage), never undefined
(non-rounding target). -/
theorem C17_narrowing (F G : FxTy) (_hF : F.Valid) (hG : G.Valid) (hr : F.r = false) (hf : F.f < G.f) (x : Int)
    (hx : Storable G x) :
    ∃ z n, convert F G x = .ok z ∧ IsTrunc F (val G x) n ∧ IsWrap F n z ∧ (Storable F n → z = n) := by
  have hGf := hG.flt
  have hFf := _hF.fpos
  have hp : (0 : Int) < 2 ^ (G.f - F.f) := by positivity
  refine ⟨F.T.wrap (Int.tdiv x (2 ^ (G.f - F.f))), Int.tdiv x (2 ^ (G.f - F.f)), ?_, ?_, isWrap_wrap _hF _,
    fun h => IntTy.wrap_of_inRange _hF.tpos h⟩
  · unfold convert fromFixedNumValue
    rw [if_pos hf]
    simp only [hr, Bool.false_eq_true, if_false]
    rw [shl_one G hG _ (.inl (by omega)), Res.bind_ok]
    have hxp := IntTy.inRange_promote hG.tpos hx
    unfold cdiv
    rw [if_neg (ne_of_gt hp), if_neg]
    · rfl
    · rintro ⟨hs, hc⟩
      apply hc
      rw [tdiv_inRange_iff hxp (ne_of_gt hp) hs]
      omega
  · have := trunc_spec F x (2 ^ (G.f - F.f)) (ne_of_gt hp)
    have e : (x : ℚ) / ((2 ^ (G.f - F.f) : Int) : ℚ) / 2 ^ F.f = val G x := by
      unfold val
      push_cast
      rw [div_div, ← pow_add]; congr 2; omega
    rwa [e] at this

/-- C17: converting to a rounding type with fewer fraction bits rounds to nearest, ties away from zero. -/
theorem C17_narrowing_rounding (F G : FxTy) (hF : F.Valid) (hG : G.Valid) (hr : F.r = true) (hf : F.f < G.f) (x : Int)
    (hx : Storable G x) :
    ∃ z n, convert F G x = .ok z ∧ IsNearest F (val G x) n ∧ IsWrap F n z ∧ (Storable F n → z = n) := by
  have hGf := hG.flt
  have hFf := hF.fpos
  have hp : (0 : Int) < 2 ^ (G.f - F.f) := by positivity
  have hp1 : (0 : Int) < 2 ^ (G.f - F.f - 1) := by positivity
  have hpp : (2 : Int) ^ (G.f - F.f) = 2 * 2 ^ (G.f - F.f - 1) := IntTy.two_pow_pred _ (by omega)
  obtain ⟨n, h1, h2⟩ := round_twice x (2 ^ (G.f - F.f)) (ne_of_gt hp)
  have ev : Int.tdiv (2 * x) (2 ^ (G.f - F.f)) = Int.tdiv x (2 ^ (G.f - F.f - 1)) := by
    rw [hpp]; exact Int.mul_tdiv_mul_of_pos _ _ (by norm_num)
  rw [ev] at h1
  have hq : Int.tdiv x (2 ^ (G.f - F.f)) = Int.tdiv (Int.tdiv x (2 ^ (G.f - F.f - 1))) 2 := by
    rw [hpp, mul_comm, tdiv_tdiv_two]
  have hsum : Int.tdiv x (2 ^ (G.f - F.f)) + Int.tmod (Int.tdiv x (2 ^ (G.f - F.f - 1))) 2 = n := by
    rw [hq]
    have := Int.tmod_add_mul_tdiv (Int.tdiv x (2 ^ (G.f - F.f - 1))) 2
    omega
  refine ⟨F.T.wrap n, n, ?_, ?_, isWrap_wrap hF _, fun h => IntTy.wrap_of_inRange hF.tpos h⟩
  · have hxp := IntTy.inRange_promote hG.tpos hx
    have hcd : ∀ d : Int, 0 < d → cdiv G.T.promote x d = .ok (Int.tdiv x d) := by
      intro d hd
      unfold cdiv
      rw [if_neg (ne_of_gt hd), if_neg]
      rintro ⟨hs, hc⟩
      apply hc
      rw [tdiv_inRange_iff hxp (ne_of_gt hd) hs]
      omega
    have hvr : ∀ d : Int, 0 < d → G.T.promote.InRange (Int.tdiv x d) := by
      intro d hd
      cases hs : G.T.promote.signed
      · have hx0 : 0 ≤ x := by
          have := hxp.1; unfold IntTy.lo at this; simpa [hs] using this
        have h1 : Int.tdiv x d = x / d := Int.tdiv_eq_ediv_of_nonneg hx0
        rw [h1]
        refine ⟨?_, le_trans (Int.ediv_le_self _ hx0) hxp.2⟩
        have : 0 ≤ x / d := Int.ediv_nonneg hx0 hd.le
        unfold IntTy.lo; simpa [hs] using this
      · rw [tdiv_inRange_iff hxp (ne_of_gt hd) hs]; omega
    unfold convert fromFixedNumValue
    rw [if_pos hf]
    simp only [hr, if_true]
    rw [shl_one G hG _ (.inl (by omega)), Res.bind_ok, hcd _ hp, Res.bind_ok, shl_one G hG _ (.inl (by omega)),
      Res.bind_ok, hcd _ hp1, Res.bind_ok]
    have hcm : cmod G.T.promote (Int.tdiv x (2 ^ (G.f - F.f - 1))) 2 = .ok (Int.tmod (Int.tdiv x (2 ^ (G.f - F.f - 1))) 2) := by
      unfold cmod
      rw [if_neg (by norm_num), if_neg]
      rintro ⟨hs, hc⟩
      apply hc
      rw [tdiv_inRange_iff (hvr _ hp1) (by norm_num) hs]
      omega
    rw [hcm, Res.bind_ok, hsum]
    have hnr : G.T.promote.InRange n := by
      rw [← hsum]
      have hmod : -1 ≤ Int.tmod (Int.tdiv x (2 ^ (G.f - F.f - 1))) 2 ∧ Int.tmod (Int.tdiv x (2 ^ (G.f - F.f - 1))) 2 ≤ 1 := by
        have := Int.natAbs_tmod (Int.tdiv x (2 ^ (G.f - F.f - 1))) 2
        have h2 : (Int.tmod (Int.tdiv x (2 ^ (G.f - F.f - 1))) 2).natAbs < 2 := by rw [this]; exact Nat.mod_lt _ (by norm_num)
        omega
      -- |x / 2^d| ≤ |x| / 2
      have hhalf : 2 * |Int.tdiv x (2 ^ (G.f - F.f))| ≤ |x| := by
        have a1 := natAbs_tdiv_le x (2 ^ (G.f - F.f - 1))
        have a2 := Int.natAbs_tdiv (Int.tdiv x (2 ^ (G.f - F.f - 1))) 2
        rw [← hq] at a2
        have a3 : (Int.tdiv x (2 ^ (G.f - F.f))).natAbs * 2 ≤ (Int.tdiv x (2 ^ (G.f - F.f - 1))).natAbs := by
          rw [a2]; exact Nat.div_mul_le_self _ _
        rw [Int.abs_eq_natAbs] at *
        rw [Int.abs_eq_natAbs] at *
        omega
      obtain ⟨b1, b2⟩ := hxp
      have hbits : 4 ≤ G.T.promote.bits := by have := hG.1; have := hG.tp; unfold FxTy.P at this; omega
      have hpw : (8 : Int) ≤ 2 ^ (G.T.promote.bits - 1) := by
        calc (8 : Int) = 2 ^ 3 := by norm_num
          _ ≤ _ := pow_le_pow_right₀ (by norm_num) (by omega)
      have hpw2 := IntTy.two_pow_pred G.T.promote.bits (by omega)
      have habs := abs_le.1 (show |Int.tdiv x (2 ^ (G.f - F.f))| ≤ |x| / 2 by omega)
      unfold IntTy.lo at b1; unfold IntTy.hi at b2
      unfold IntTy.InRange IntTy.lo IntTy.hi
      cases hs : G.T.promote.signed <;> simp only [hs, if_true, Bool.false_eq_true, if_false] at b1 b2 ⊢
      · rw [abs_of_nonneg b1] at habs
        have h0 : 0 ≤ Int.tdiv x (2 ^ (G.f - F.f)) := Int.tdiv_nonneg b1 hp.le
        have h0' : 0 ≤ Int.tmod (Int.tdiv x (2 ^ (G.f - F.f - 1))) 2 :=
          Int.tmod_nonneg _ (Int.tdiv_nonneg b1 hp1.le)
        omega
      · rcases abs_cases x with ⟨hc, _⟩ | ⟨hc, _⟩ <;> rw [hc] at habs <;> omega
    rw [arith_of_inRange hG.ppos hnr]; rfl
  · have := nearest_scale F h2
    have e : (x : ℚ) / ((2 ^ (G.f - F.f) : Int) : ℚ) / 2 ^ F.f = val G x := by
      unfold val
      push_cast
      rw [div_div, ← pow_add]; congr 2; omega
    rwa [e] at this

example : convert fixed32 fixed64 (3 * 2 ^ 31) = .ok 98304 ∧ convert fixed32 fixed64 (-1) = .ok 0 ∧
    convert exR32 fixed64 (2 ^ 15) = .ok 1 ∧ convert exR32 fixed64 (-2 ^ 15) = .ok (-1) ∧
    fixed32.f < fixed64.f ∧ Storable fixed64 (3 * 2 ^ 31) := by decide +kernel

/-- C17 as stated for widening: `fixed64(x)` of a `fixed32` is exact for every value. -/
def C17_widening_statement : Prop :=
  ∀ x, Storable fixed32 x → ∃ z, convert fixed64 fixed32 x = .ok z ∧ val fixed64 z = val fixed32 x

/-- C17 is false of the code: converting `0.5` from `fixed32` to `fixed64` overflows (the scaling is done in `int32_t`). -/
theorem C17_widening_false : ¬ C17_widening_statement := by
  intro h
  obtain ⟨z, hz, _⟩ := h 32768 (by decide +kernel)
  have : convert fixed64 fixed32 32768 = .ub .overflow := by decide +kernel
  rw [this] at hz; cases hz

/-- C17: precisely when widening is defined, and that it is then exact: the scaled raw value must fit the *source*
storage (at least 32-bit signed source).  Full statement: `C17_widening_statement` (fails for `|x| ≥ 0.5` from `fixed32`). -/
theorem C17_widening_partial (F G : FxTy) (hF : F.Valid) (hG : G.Valid) (hGs : SignedWide G) (hFs : F.T.signed = true)
    (hb : G.T.bits ≤ F.T.bits) (hf : G.f ≤ F.f) (hd : F.f - G.f + 2 ≤ G.T.bits) (x : Int) (_hx : Storable G x) :
    (G.T.InRange (x * 2 ^ (F.f - G.f)) → ∃ z, convert F G x = .ok z ∧ Storable F z ∧ val F z = val G x) ∧
    (¬ G.T.InRange (x * 2 ^ (F.f - G.f)) → convert F G x = .ub .overflow) := by
  have hp : G.T.promote = G.T := hG.p_eq hGs.2
  unfold convert fromFixedNumValue
  rw [if_neg (by omega), shl_one G hG _ (.inl hd), Res.bind_ok, hp, arith_signed hGs.1]
  constructor
  · intro h
    have hs : F.T.InRange (x * 2 ^ (F.f - G.f)) := by
      obtain ⟨a, b⟩ := h
      have h : (2 : Int) ^ (G.T.bits - 1) ≤ 2 ^ (F.T.bits - 1) := pow_le_pow_right₀ (by norm_num) (by omega)
      unfold IntTy.lo at a; unfold IntTy.hi at b
      unfold IntTy.InRange IntTy.lo IntTy.hi
      simp only [hGs.1, hFs, if_true] at *; omega
    refine ⟨x * 2 ^ (F.f - G.f), ?_, hs, ?_⟩
    · rw [if_pos h, Res.bind_ok, IntTy.wrap_of_inRange hF.tpos hs]; rfl
    · unfold val
      push_cast
      have e : (2 : ℚ) ^ F.f = 2 ^ (F.f - G.f) * 2 ^ G.f := by rw [← pow_add]; congr 1; omega
      have h1 : (2 : ℚ) ^ (F.f - G.f) ≠ 0 := by positivity
      have h2 : (2 : ℚ) ^ G.f ≠ 0 := by positivity
      rw [e]; field_simp
  · intro h; rw [if_neg h]; rfl

example : fixed32.T.InRange (-32768 * 2 ^ (fixed64.f - fixed32.f)) ∧ convert fixed64 fixed32 (-32768) = .ok (-2 ^ 31) ∧
    SignedWide fixed32 ∧ fixed64.f - fixed32.f + 2 ≤ fixed32.T.bits ∧ convert fixed64 fixed32 32767 = .ok 2147418112 := by
  decide +kernel

/-- C17: where the widening is defined, `fixed32 → fixed64 → fixed32` is the identity. -/
theorem C17_roundtrip_partial (x z : Int) (hx : Storable fixed32 x) (h : convert fixed64 fixed32 x = .ok z) :
    convert fixed32 fixed64 z = .ok x := by
  have hw := C17_widening_partial fixed64 fixed32 (by decide) (by decide) (by decide) rfl (by decide) (by decide)
    (by decide) x hx
  by_cases hr : fixed32.T.InRange (x * 2 ^ (fixed64.f - fixed32.f))
  · obtain ⟨z', h1, h2, h3⟩ := hw.1 hr
    rw [h] at h1; cases h1
    obtain ⟨w, n, a1, a2, _, a4⟩ := C17_narrowing fixed32 fixed64 (by decide) (by decide) rfl (by decide) z h2
    rw [h3] at a2
    have : n = x := by
      apply isTrunc_unique a2
      have := ulp_pos fixed32
      exact ⟨fun h => ⟨h, le_refl _, by linarith⟩, fun h => ⟨h.le, le_refl _, by linarith⟩⟩
    rw [a1, a4 (by rw [this]; exact hx), this]
  · rw [hw.2 hr] at h; cases h

example : convert fixed64 fixed32 (-12345) = .ok (-12345 * 65536) ∧ convert fixed32 fixed64 (-12345 * 65536) = .ok (-12345) := by
  decide +kernel

/-! ## C18 -/

/-- C18 as stated: `integral_part` is the integer part of `|x|`. -/
def C18_statement : Prop :=
  ∀ x, Storable fixed32 x → ∃ i fr : Int, integralPart fixed32 x = .ok i ∧ fractionalPart fixed32 x = .ok fr ∧
    |val fixed32 x| = i + |val fixed32 fr| ∧ |val fixed32 fr| < 1

/-- C18 is false of the code: for `-0.5` the integral part is `1`. -/
theorem C18_false : ¬ C18_statement := by
  intro h
  obtain ⟨i, fr, h1, h2, h3, _⟩ := h (-32768) (by decide +kernel)
  have e1 : integralPart fixed32 (-32768) = .ok 1 := by decide +kernel
  have e2 : fractionalPart fixed32 (-32768) = .ok (-32768) := by decide +kernel
  rw [h1] at e1; rw [h2] at e2
  cases e1; cases e2
  norm_num [val, fixed32, abs_of_pos, abs_of_neg] at h3

/-- C18: the fractional part is the remainder after truncation, with the sign of `x`, for every value of a type with a
representable one. -/
theorem C18_fractional (F : FxTy) (hF : F.Valid) (h1 : Storable F (2 ^ F.f)) (x : Int) (hx : Storable F x) :
    ∃ fr, fractionalPart F x = .ok fr ∧ |val F fr| < 1 ∧ 0 ≤ val F fr * val F x ∧ ∃ k : Int, val F x - val F fr = k := by
  have h := C09_rem F hF x (2 ^ F.f)
  have e : fractionalPart F x = rem F x (2 ^ F.f) := by
    unfold fractionalPart rem; rw [oneShl_eq F hF h1]
  have hv1 : val F (2 ^ F.f) = 1 := by have := val_int F 1; simpa using this
  have hub := C09_rem_ub_iff F hF x (2 ^ F.f) hx
  have hp : (0 : Int) < 2 ^ F.f := by positivity
  rw [rem_nf hF hx, if_neg (ne_of_gt hp), if_neg (by rintro ⟨_, _, h⟩; omega)] at h
  obtain ⟨_, a, b, _, k, hk⟩ := h _ hx rfl
  refine ⟨Int.tmod x (2 ^ F.f), ?_, ?_, b, k, ?_⟩
  · rw [e, rem_nf hF hx, if_neg (ne_of_gt hp), if_neg (by rintro ⟨_, _, h⟩; omega)]
  · rw [hv1] at a; simpa using a
  · rw [hk, hv1, mul_one]

/-- C18 restricted to non-negative values: the decomposition is right.  Full statement: `C18_statement`. -/
theorem C18_nonneg_partial (F : FxTy) (hF : F.Valid) (h1 : Storable F (2 ^ F.f)) (x : Int) (hx : Storable F x) (hx0 : 0 ≤ x) :
    ∃ i fr : Int, integralPart F x = .ok i ∧ fractionalPart F x = .ok fr ∧ val F x = i + val F fr ∧
      0 ≤ val F fr ∧ val F fr < 1 := by
  have hp : (0 : Int) < 2 ^ F.f := by positivity
  have hsb : ¬ signbit F x = true := by rw [signbit_iff hF hx]; omega
  have hq : (0 : ℚ) < 2 ^ F.f := by positivity
  have hfr : fractionalPart F x = .ok (x % 2 ^ F.f) := by
    have e : fractionalPart F x = rem F x (2 ^ F.f) := by
      unfold fractionalPart rem; rw [oneShl_eq F hF h1]
    rw [e, rem_nf hF hx, if_neg (ne_of_gt hp), if_neg (by rintro ⟨_, _, h⟩; omega),
      Int.tmod_eq_emod_of_nonneg hx0]
  have hir : F.T.InRange (x / 2 ^ F.f) := by
    have h0 : 0 ≤ x / 2 ^ F.f := Int.ediv_nonneg hx0 hp.le
    have h2 : x / 2 ^ F.f ≤ x := Int.ediv_le_self _ hx0
    refine ⟨?_, le_trans h2 hx.2⟩
    have hl0 : F.T.lo ≤ 0 := by
      unfold IntTy.lo; split
      · have : (0 : Int) < 2 ^ (F.T.bits - 1) := by positivity
        omega
      · exact le_refl _
    omega
  refine ⟨x / 2 ^ F.f, x % 2 ^ F.f, ?_, hfr, ?_, ?_, ?_⟩
  · unfold integralPart
    rw [if_neg hsb]
    simp only [Res.pure_eq, Res.bind_ok, shr]
    rw [if_pos hF.flt_p, Res.bind_ok, IntTy.wrap_of_inRange hF.tpos hir]
  · unfold val
    have := Int.emod_add_mul_ediv x (2 ^ F.f)
    have h2 : (x : ℚ) = (x % 2 ^ F.f : Int) + 2 ^ F.f * (x / 2 ^ F.f : Int) := by exact_mod_cast this.symm
    rw [h2, add_div, mul_div_cancel_left₀ _ (ne_of_gt hq), add_comm]
  · unfold val; apply div_nonneg _ hq.le
    exact_mod_cast Int.emod_nonneg x (ne_of_gt hp)
  · unfold val; rw [div_lt_one hq]
    exact_mod_cast Int.emod_lt_of_pos x hp

/-- C18, what the code does for negative values (signed storage, `x` at least one above the minimum integer range):
the integral part is the *ceiling* of `|x|`. -/
theorem C18_neg_is_ceil (F : FxTy) (hF : F.Valid) (hs : SignedWide F) (h1 : Storable F (2 ^ F.f)) (x : Int)
    (hx : Storable F x) (hx0 : x < 0) (hlo : Storable F (x - 2 ^ F.f)) :
    ∃ i : Int, integralPart F x = .ok i ∧ |val F x| ≤ i ∧ (i : ℚ) < |val F x| + 1 := by
  have hp : (0 : Int) < 2 ^ F.f := by positivity
  have hq : (0 : ℚ) < 2 ^ F.f := by positivity
  have hpT : F.T.promote = F.T := hF.p_eq hs.2
  have hsb : signbit F x = true := by rw [signbit_iff hF hx]; exact hx0
  have rng : ∀ n : Int, x ≤ n → n ≤ -x - 1 + 2 ^ F.f → F.T.InRange n := by
    intro n a b
    obtain ⟨c, _⟩ := hlo
    obtain ⟨d, _⟩ := hx
    unfold IntTy.lo at c d
    unfold IntTy.InRange IntTy.lo IntTy.hi
    simp only [hs.1, if_true] at *; omega
  have hone := oneShl_eq F hF h1
  have r1 : F.T.InRange (-x - 1) := rng _ (by omega) (by omega)
  have r2 : F.T.InRange (-x - 1 + 2 ^ F.f) := rng _ (by omega) (by omega)
  have h0 : 0 ≤ -x - 1 + 2 ^ F.f := by omega
  have r3 : F.T.InRange ((-x - 1 + 2 ^ F.f) / 2 ^ F.f) := by
    have a := Int.ediv_nonneg h0 hp.le
    have b := Int.ediv_le_self (2 ^ F.f) h0
    exact rng _ (by omega) (by omega)
  have e1 := Int.ediv_mul_le (-x - 1 + 2 ^ F.f) (ne_of_gt hp)
  have e2 := Int.lt_ediv_add_one_mul_self (-x - 1 + 2 ^ F.f) hp
  refine ⟨(-x - 1 + 2 ^ F.f) / 2 ^ F.f, ?_, ?_, ?_⟩
  · unfold integralPart cnot shr FxTy.P
    rw [if_pos hsb, hpT, hone, IntTy.wrap_of_inRange hF.tpos r1, IntTy.wrap_of_inRange hF.tpos r1,
      ]
    simp only []
    rw [arith_of_inRange hF.tpos r2]
    simp only [Res.pure_eq, Res.bind_ok]
    rw [IntTy.wrap_of_inRange hF.tpos r2, if_pos hF.flt, Res.bind_ok, IntTy.wrap_of_inRange hF.tpos r3]
  · have hxq : val F x < 0 := by unfold val; exact div_neg_of_neg_of_pos (by exact_mod_cast hx0) hq
    rw [abs_of_neg hxq]
    unfold val
    rw [← neg_div, div_le_iff₀ hq]
    have : -x ≤ ((-x - 1 + 2 ^ F.f) / 2 ^ F.f) * 2 ^ F.f := by
      rw [add_mul, one_mul] at e2; omega
    exact_mod_cast this
  · have hxq : val F x < 0 := by unfold val; exact div_neg_of_neg_of_pos (by exact_mod_cast hx0) hq
    rw [abs_of_neg hxq]
    unfold val
    rw [← neg_div, ← sub_lt_iff_lt_add, lt_div_iff₀ hq]
    have : ((-x - 1 + 2 ^ F.f) / 2 ^ F.f - 1) * 2 ^ F.f < -x := by
      rw [sub_mul, one_mul]; omega
    exact_mod_cast this

/-- `raw_integral_part` of a non-negative value is its integer part. -/
theorem C18_rawIntegralPart (F : FxTy) (hF : F.Valid) (hs : SignedWide F) (x : Int) (hx : Storable F x) (hx0 : 0 ≤ x) :
    rawIntegralPart F x = .ok (x / 2 ^ F.f) := by
  have hp : (0 : Int) < 2 ^ F.f := by positivity
  have hpT : F.T.promote = F.T := hF.p_eq hs.2
  have hm : cnot F.T (signbitMask F) = 2 ^ (F.T.bits - 1) - 1 := by
    unfold cnot
    rw [signbitMask_eq hF hs.1, hpT, neg_neg]
    apply IntTy.wrap_of_inRange hF.tpos
    have : (0 : Int) < 2 ^ (F.T.bits - 1) := by positivity
    unfold IntTy.InRange IntTy.lo IntTy.hi; simp only [hs.1, if_true]; omega
  have hlt : x < 2 ^ (F.T.bits - 1) := by
    have := hx.2; unfold IntTy.hi at this; simp only [hs.1, if_true] at this; omega
  have hb : band F.P x (2 ^ (F.T.bits - 1) - 1) = x := by
    rw [band_lowmask _ _ (by unfold FxTy.P; rw [hpT]; have := hF.tpos; omega)]
    exact Int.emod_eq_of_lt hx0 hlt
  have hir : F.T.InRange (x / 2 ^ F.f) := by
    have h0 : 0 ≤ x / 2 ^ F.f := Int.ediv_nonneg hx0 hp.le
    have h2 : x / 2 ^ F.f ≤ x := Int.ediv_le_self _ hx0
    refine ⟨?_, le_trans h2 hx.2⟩
    unfold IntTy.lo; simp only [hs.1, if_true]
    have : (0 : Int) < 2 ^ (F.T.bits - 1) := by positivity
    omega
  unfold rawIntegralPart shr
  rw [hm, hb, IntTy.wrap_of_inRange hF.tpos hx]
  simp only []
  rw [if_pos (show F.f < F.T.promote.bits from hF.flt_p), Res.bind_ok, IntTy.wrap_of_inRange hF.tpos hir]
  rfl

example : integralPart fixed32 229376 = .ok 3 ∧ fractionalPart fixed32 229376 = .ok 32768 ∧
    integralPart fixed32 (-229376) = .ok 4 ∧ fractionalPart fixed32 (-229376) = .ok (-32768) ∧
    rawIntegralPart fixed32 229376 = .ok 3 ∧ Storable fixed32 (-229376 - 65536) ∧ Storable fixed32 (2 ^ fixed32.f) := by
  decide +kernel

/-! ## C19 -/

/-- C19: `signbit(x)` iff `x < 0`, for every valid type and value. -/
theorem C19_signbit (F : FxTy) (hF : F.Valid) (x : Int) (hx : Storable F x) : signbit F x = true ↔ val F x < 0 := by
  rw [signbit_iff hF hx, ← val_zero F, val_lt]

/-- C19: `numeric_limits::min/max` are storable and bound every value; the raw round trip is the identity. -/
theorem C19_limits (F : FxTy) (hF : F.Valid) (x : Int) (hx : Storable F x) :
    Storable F (limMin F) ∧ Storable F (limMax F) ∧ val F (limMin F) ≤ val F x ∧ val F x ≤ val F (limMax F) ∧
    fromInternal F x = x := by
  have hl : F.T.InRange F.T.lo := ⟨le_refl _, F.T.lo_le_hi hF.tpos⟩
  have hh : F.T.InRange F.T.hi := ⟨F.T.lo_le_hi hF.tpos, le_refl _⟩
  unfold limMin limMax fromInternal
  rw [IntTy.wrap_of_inRange hF.tpos hl, IntTy.wrap_of_inRange hF.tpos hh, IntTy.wrap_of_inRange hF.tpos hx, val_le, val_le]
  exact ⟨hl, hh, hx.1, hx.2, rfl⟩

example : signbit fixed32 (-1) = true ∧ signbit fixed32 (2 ^ 31 - 1) = false ∧ signbit exI16 (-5) = true ∧
    limMin fixed32 = -2 ^ 31 ∧ limMax fixed64 = 2 ^ 63 - 1 ∧ signbit exU32 (2 ^ 32 - 1) = false := by decide +kernel

end Eirin.Props
