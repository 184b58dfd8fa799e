import Verif.Lemmas.Newton

/-! # Properties C28–C31: square root and hypotenuse. -/

namespace Eirin.Props
open Spec

/-! ## C28 -/

theorem sqrt32_raw {x : Int} (hx : Storable fixed32 x) (h0 : 0 ≤ x) :
    ∃ r, sqrt fixed32 x = .ok r ∧ IsRoot (x * 2 ^ 16) r ∧ Storable fixed32 r := by
  have hlt := (of_in32 hx).2
  obtain ⟨r, h1, h2, h3⟩ := sqrt_i32 (F := fixed32) rfl (by decide) (x := x) h0 hlt (by
    rw [if_neg (by decide), show 16 - fixed32.f = 0 by rfl, pow_zero, mul_one]
    exact (IntTy.wrap_of_inRange (t := i32) (by decide) hx).symm)
  exact ⟨r, h1, h2, h3⟩

theorem val32_sq_le {r x : Int} : val fixed32 r ^ 2 ≤ val fixed32 x ↔ r ^ 2 ≤ x * 2 ^ 16 := by
  unfold val
  rw [show fixed32.f = 16 by rfl, div_pow, div_le_div_iff₀ (by positivity) (by positivity)]
  have : ((r : ℚ) ^ 2 * 2 ^ 16 ≤ x * (2 ^ 16) ^ 2 ↔ (r : ℚ) ^ 2 ≤ x * 2 ^ 16) := by
    rw [pow_two ((2 : ℚ) ^ 16), ← mul_assoc, mul_le_mul_iff_left₀ (by norm_num)]
  rw [this]; exact_mod_cast Iff.rfl

theorem val32_lt_sq {r x : Int} : val fixed32 x < (val fixed32 r + ulp fixed32) ^ 2 ↔ x * 2 ^ 16 < (r + 1) ^ 2 := by
  rw [← val_one, ← val_add, ← not_le, val32_sq_le, not_le]

/-- C28: for every non-negative `fixed32` value, `sqrt` is defined and is the largest `r` with `r² ≤ x`, less than one ulp
below the true root. -/
theorem C28_sqrt (x : Int) (hx : Storable fixed32 x) (h0 : 0 ≤ val fixed32 x) :
    ∃ r, sqrt fixed32 x = .ok r ∧ Storable fixed32 r ∧ 0 ≤ val fixed32 r ∧ val fixed32 r ^ 2 ≤ val fixed32 x ∧
      val fixed32 x < (val fixed32 r + ulp fixed32) ^ 2 ∧
      (∀ s, val fixed32 s ^ 2 ≤ val fixed32 x → val fixed32 s ≤ val fixed32 r) := by
  rw [← val_zero fixed32, val_le] at h0
  obtain ⟨r, h1, ⟨a, b, c⟩, h3⟩ := sqrt32_raw hx h0
  refine ⟨r, h1, h3, by rw [← val_zero fixed32, val_le]; exact a, val32_sq_le.2 b, val32_lt_sq.2 c, fun s hs => ?_⟩
  rw [val32_sq_le] at hs
  rw [val_le]
  have : s < r + 1 := lt_of_pow_lt_pow_left₀ 2 (by omega) (lt_of_le_of_lt hs c)
  omega

/-- C28: `sqrt` is monotone on the non-negative values. -/
theorem C28_mono (x y a b : Int) (hx : Storable fixed32 x) (hy : Storable fixed32 y) (h0 : 0 ≤ val fixed32 x)
    (hxy : val fixed32 x ≤ val fixed32 y) (ha : sqrt fixed32 x = .ok a) (hb : sqrt fixed32 y = .ok b) :
    val fixed32 a ≤ val fixed32 b := by
  rw [← val_zero fixed32, val_le] at h0
  rw [val_le] at hxy
  obtain ⟨r, h1, h2, _⟩ := sqrt32_raw hx h0
  obtain ⟨s, h3, h4, _⟩ := sqrt32_raw hy (le_trans h0 hxy)
  rw [ha] at h1; cases h1
  rw [hb] at h3; cases h3
  rw [val_le]; exact h2.mono h4 (mul_le_mul_of_nonneg_right hxy (by norm_num))

/-- C28: exact on perfect squares. -/
theorem C28_perfect_square (x s : Int) (hx : Storable fixed32 x) (hs : 0 ≤ val fixed32 s)
    (h : val fixed32 x = val fixed32 s ^ 2) : sqrt fixed32 x = .ok s := by
  have hs' : 0 ≤ s := by rw [← val_zero fixed32, val_le] at hs; exact hs
  have h0 : 0 ≤ val fixed32 x := by rw [h]; positivity
  rw [← val_zero fixed32, val_le] at h0
  obtain ⟨r, h1, h2, _⟩ := sqrt32_raw hx h0
  have : IsRoot (x * 2 ^ 16) s := by
    refine ⟨hs', val32_sq_le.1 h.ge, val32_lt_sq.1 ?_⟩
    rw [h]; exact pow_lt_pow_left₀ (by have := ulp_pos fixed32; linarith) hs (by norm_num)
  rw [h1, h2.unique this]

example : sqrt fixed32 (2 * 65536) = .ok 92681 ∧ sqrt fixed32 (9 * 65536) = .ok (3 * 65536) ∧
    sqrt fixed32 (2 ^ 31 - 1) = .ok 11863283 ∧ sqrt fixed32 (2 ^ 30 + 513) = .ok 8388610 ∧ Storable fixed32 (2 * 65536) ∧
    val fixed32 (9 * 65536) = val fixed32 (3 * 65536) ^ 2 := by
  refine ⟨by decide +kernel, by decide +kernel, by decide +kernel, by decide +kernel, by decide +kernel, ?_⟩
  norm_num [val, fixed32]

/-! ## C29 -/

/-- C29 as stated. -/
def C29_statement : Prop := ∀ f : Nat, 0 < f → f ≤ 31 → ∀ x, Storable ⟨i32, i64, f, false⟩ x → 0 ≤ x →
  ∃ r, sqrt ⟨i32, i64, f, false⟩ x = .ok r ∧
    val ⟨i32, i64, f, false⟩ x ≤ (val ⟨i32, i64, f, false⟩ r + ulp ⟨i32, i64, f, false⟩) ^ 2

/-- C29 is false of the code: with 20 fraction bits `sqrt(4)` is `0.125`. -/
theorem C29_false : ¬ C29_statement := by
  intro h
  obtain ⟨r, h1, h2⟩ := h 20 (by norm_num) (by norm_num) (4 * 2 ^ 20) (by decide +kernel) (by norm_num)
  have e : sqrt ⟨i32, i64, 20, false⟩ (4 * 2 ^ 20) = .ok 131072 := by decide +kernel
  rw [h1] at e; cases e
  norm_num [val, ulp] at h2

/-- C29, what holds: the result `r` is the root of `x` scaled by `2^16/2^f` (correct only for `f = 16`):
`(2^f·r)² ≤ 2^32·x < (2^f·r + 1)² + 2^16`, provided the pre-shift of `x` does not overflow (`f < 16`).
Full statement: `C29_statement`. -/
theorem C29_scaled_partial (f : Nat) (hf : 0 < f) (hf2 : f ≤ 31) (x : Int) (hx : Storable ⟨i32, i64, f, false⟩ x)
    (h0 : 0 ≤ x) (hsh : f ≤ 16 → x * 2 ^ (16 - f) < 2 ^ 31) :
    ∃ r, sqrt ⟨i32, i64, f, false⟩ x = .ok r ∧ Storable ⟨i32, i64, f, false⟩ r ∧ 0 ≤ val ⟨i32, i64, f, false⟩ r ∧
      (2 ^ f * val ⟨i32, i64, f, false⟩ r) ^ 2 ≤ 2 ^ 32 * val ⟨i32, i64, f, false⟩ x ∧
      2 ^ 32 * val ⟨i32, i64, f, false⟩ x < (2 ^ f * val ⟨i32, i64, f, false⟩ r + 1) ^ 2 + 2 ^ 16 := by
  have hlt : x < 2 ^ 31 := (of_in32 hx).2
  have key : ∀ v : Int, 0 ≤ v → v < 2 ^ 31 →
      (v = if f > 16 then x / 2 ^ (f - 16) else i32.wrap (x * 2 ^ (16 - f))) →
      v * 2 ^ f ≤ x * 2 ^ 16 → x * 2 ^ 16 < v * 2 ^ f + 2 ^ f →
      ∃ r, sqrt ⟨i32, i64, f, false⟩ x = .ok r ∧ Storable ⟨i32, i64, f, false⟩ r ∧ 0 ≤ val ⟨i32, i64, f, false⟩ r ∧
      (2 ^ f * val ⟨i32, i64, f, false⟩ r) ^ 2 ≤ 2 ^ 32 * val ⟨i32, i64, f, false⟩ x ∧
      2 ^ 32 * val ⟨i32, i64, f, false⟩ x < (2 ^ f * val ⟨i32, i64, f, false⟩ r + 1) ^ 2 + 2 ^ 16 := by
    intro v hv0 hv1 hv hle hge
    obtain ⟨r, r1, ⟨a, b, c⟩, r3⟩ := sqrt_i32 (F := ⟨i32, i64, f, false⟩) rfl hf2 hv0 hv1 hv
    have hq : (0 : ℚ) < 2 ^ f := by positivity
    have er : 2 ^ f * val ⟨i32, i64, f, false⟩ r = r := by unfold val; field_simp
    have ex : 2 ^ f * (2 ^ 32 * val ⟨i32, i64, f, false⟩ x) = 2 ^ 32 * x := by unfold val; field_simp
    have hle' : (v : ℚ) * 2 ^ f ≤ x * 2 ^ 16 := by exact_mod_cast hle
    have hge' : (x : ℚ) * 2 ^ 16 < v * 2 ^ f + 2 ^ f := by exact_mod_cast hge
    have b' : (r : ℚ) ^ 2 ≤ v * 2 ^ 16 := by exact_mod_cast b
    have c' : (v : ℚ) * 2 ^ 16 + 1 ≤ (r + 1) ^ 2 := by exact_mod_cast c
    refine ⟨r, r1, r3, ?_, ?_, ?_⟩
    · rw [← val_zero, val_le]; exact a
    · rw [er]
      apply le_of_mul_le_mul_left _ hq
      rw [ex]
      nlinarith
    · rw [er]
      apply lt_of_mul_lt_mul_left _ hq.le
      rw [ex]
      nlinarith
  by_cases h16 : f > 16
  · have hd : (0 : Int) < 2 ^ (f - 16) := by positivity
    have e1 := Int.ediv_mul_le x (ne_of_gt hd)
    have e2 := Int.lt_ediv_add_one_mul_self x hd
    have ep : (2 : Int) ^ f = 2 ^ (f - 16) * 2 ^ 16 := by rw [← pow_add]; congr 1; omega
    apply key (x / 2 ^ (f - 16)) (Int.ediv_nonneg h0 hd.le) (lt_of_le_of_lt (Int.ediv_le_self _ h0) hlt) (by rw [if_pos h16])
    · rw [ep, ← mul_assoc]; exact mul_le_mul_of_nonneg_right e1 (by norm_num)
    · rw [ep]; nlinarith
  · have hs := hsh (by omega)
    have hp : (0 : Int) < 2 ^ (16 - f) := by positivity
    have ep : (2 : Int) ^ 16 = 2 ^ (16 - f) * 2 ^ f := by rw [← pow_add]; congr 1; omega
    apply key (x * 2 ^ (16 - f)) (by positivity) hs
    · have h0' : 0 ≤ x * 2 ^ (16 - f) := by positivity
      rw [if_neg h16]
      exact (IntTy.wrap_of_inRange (t := i32) (by decide) (in32 (by omega) hs)).symm
    · rw [ep]; nlinarith
    · rw [ep]
      have : (0 : Int) < 2 ^ f := by positivity
      nlinarith

example : sqrt ⟨i32, i64, 20, false⟩ (4 * 2 ^ 20) = .ok 131072 ∧ sqrt ⟨i32, i64, 12, false⟩ (4 * 2 ^ 12) = .ok 131072 ∧
    (4 * 2 ^ 12 : Int) * 2 ^ (16 - 12) < 2 ^ 31 ∧ Storable ⟨i32, i64, 12, false⟩ (4 * 2 ^ 12) := by decide +kernel

/-! ## C30 -/

/-- C30 as stated, with one ulp for "a few ulps". -/
def C30_statement : Prop := ∀ x, Storable fixed64 x → 0 < x →
  ∃ r, sqrt fixed64 x = .ok r ∧ (|val fixed64 x - val fixed64 r ^ 2| < 5 / 65536 ∨
    (val fixed64 r - ulp fixed64) ^ 2 < val fixed64 x ∧ val fixed64 x < (val fixed64 r + ulp fixed64) ^ 2)

/-- C30 is false of the code: near the maximum, `x*x` wraps and `fp - x*x` overflows. -/
theorem C30_false : ¬ C30_statement := by
  intro h
  obtain ⟨r, h1, _⟩ := h (2 ^ 63 - 1) (by decide +kernel) (by norm_num)
  rw [sqrt64_ub (by decide +kernel) (by norm_num)] at h1
  cases h1

/-- C30: negative numbers give `-1`, zero gives zero. -/
theorem C30_nonpos (x : Int) (h : x ≤ 0) :
    (val fixed64 x < 0 → ∃ z, sqrt fixed64 x = .ok z ∧ val fixed64 z = -1) ∧
    (val fixed64 x = 0 → sqrt fixed64 x = .ok 0) := by
  have hz : ofInt fixed64 0 = 0 := by decide +kernel
  have hm : ofInt fixed64 (-1) = -2 ^ 32 := by decide +kernel
  constructor
  · intro hlt
    rw [← val_zero fixed64, val_lt] at hlt
    refine ⟨-2 ^ 32, ?_, by norm_num [val, fixed64]⟩
    unfold sqrt
    rw [if_neg (by decide), hz, if_pos (by rw [lt_iff]; exact hlt), hm]
  · intro heq
    have : x = 0 := val_inj (F := fixed64) (by rw [heq, val_zero])
    subst this; decide +kernel

/-- C30, the domain on which it holds: for every positive value below about `1.83·2^30` the result is defined, is never more
than one ulp below the true root, and either its square is within `epsilon` of `x` or it is at most half an ulp above the
true root.  Full statement: `C30_statement` (fails from `sqrt64Bound` on, see `C30_ub`). -/
theorem C30_newton_partial (x : Int) (h0 : 0 < x) (hB : x < 8432131806905434112) :
    ∃ r, sqrt fixed64 x = .ok r ∧ 0 ≤ val fixed64 r ∧ val fixed64 x < (val fixed64 r + ulp fixed64) ^ 2 ∧
      (|val fixed64 x - val fixed64 r ^ 2| < 5 / 65536 ∨ (val fixed64 r - ulp fixed64 / 2) ^ 2 ≤ val fixed64 x) := by
  obtain ⟨r, h1, h2, h3, _, h4⟩ := sqrt64_raw h0 hB
  refine ⟨r, h1, by rw [← val_zero fixed64, val_le]; exact h2, ?_, ?_⟩
  · unfold val ulp
    rw [show fixed64.f = 32 by rfl, ← add_div, div_pow, lt_div_iff₀ (by positivity), div_mul_eq_mul_div, div_lt_iff₀ (by positivity)]
    have : ((x * 2 ^ 32 : Int) : ℚ) < (((r + 1) ^ 2 : Int) : ℚ) := by exact_mod_cast h3
    push_cast at this
    have := mul_lt_mul_of_pos_right this (show (0 : ℚ) < 2 ^ 32 by norm_num)
    norm_num at *; linarith
  · rcases h4 with h4 | h4
    · left
      have e1 := Int.ediv_mul_le (r ^ 2) (show (2 : Int) ^ 32 ≠ 0 by norm_num)
      have e2 := Int.lt_ediv_add_one_mul_self (r ^ 2) (show (0 : Int) < 2 ^ 32 by norm_num)
      rw [abs_lt] at h4
      have l1 : (x - 327680) * 2 ^ 32 < r ^ 2 := by nlinarith
      have l2 : r ^ 2 < (x + 327680) * 2 ^ 32 := by nlinarith
      have l1' : ((x : ℚ) - 327680) * 2 ^ 32 < r ^ 2 := by exact_mod_cast l1
      have l2' : (r : ℚ) ^ 2 < (x + 327680) * 2 ^ 32 := by exact_mod_cast l2
      unfold val
      rw [show fixed64.f = 32 by rfl, abs_lt, div_pow]
      norm_num at *
      constructor <;> linarith
    · right
      have h4' : (2 * (r : ℚ) - 1) ^ 2 ≤ 4 * (x * 2 ^ 32) := by exact_mod_cast h4
      unfold val ulp
      rw [show fixed64.f = 32 by rfl]
      have e : ((r : ℚ) / 2 ^ 32 - 1 / 2 ^ 32 / 2) ^ 2 = (2 * r - 1) ^ 2 / (4 * (2 ^ 32 * 2 ^ 32)) := by ring
      rw [e, div_le_div_iff₀ (by positivity) (by positivity)]
      nlinarith

/-- C30: from the bound on, `sqrt` is undefined. -/
theorem C30_ub (x : Int) (hx : Storable fixed64 x) (hB : 8432131806905434112 ≤ x) : sqrt fixed64 x = .ub .overflow :=
  sqrt64_ub hB (of_in64 hx).2

example : sqrt fixed64 (2 * 2 ^ 32) = .ok 6074010122 ∧ sqrt fixed64 (8432131806905434112 - 1) = .ok 190304309846677 ∧
    sqrt fixed64 8432131806905434112 = .ub .overflow ∧ sqrt fixed64 1 = .ok 65536 ∧ sqrt fixed64 (-5) = .ok (-2 ^ 32) := by
  decide +kernel

/-! ## C31 -/

/-- C31 as stated, with 4 ulps for "a few ulps". -/
def C31_statement : Prop := ∀ x y, Storable fixed32 x → Storable fixed32 y →
  val fixed32 x ^ 2 + val fixed32 y ^ 2 < 2 ^ 15 →
  ∃ h, hypot fixed32 x y = .ok h ∧ val fixed32 h ^ 2 ≤ val fixed32 x ^ 2 + val fixed32 y ^ 2 ∧
    val fixed32 x ^ 2 + val fixed32 y ^ 2 < (val fixed32 h + 4 * ulp fixed32) ^ 2

/-- C31 is false of the code: `hypot(255 ulp, 0) = 0` because the square underflows. -/
theorem C31_false : ¬ C31_statement := by
  intro h
  obtain ⟨r, h1, _, h2⟩ := h 255 0 (by decide +kernel) (by decide +kernel) (by norm_num [val, fixed32])
  have e : hypot fixed32 255 0 = .ok 0 := by decide +kernel
  rw [h1] at e; cases e
  norm_num [val, ulp, fixed32] at h2

theorem hypot_raw (x y : Int) (hx : Storable fixed32 x) (hy : Storable fixed32 y) (hr : x ^ 2 + y ^ 2 < 2 ^ 47) :
    ∃ h, hypot fixed32 x y = .ok h ∧ IsRoot ((x ^ 2 / 2 ^ 16 + y ^ 2 / 2 ^ 16) * 2 ^ 16) h := by
  have hx2 : 0 ≤ x ^ 2 := sq_nonneg x
  have hy2 : 0 ≤ y ^ 2 := sq_nonneg y
  have hxi : fixed32.T.InRange (x * x / 2 ^ fixed32.f) := by
    rw [← pow_two, show fixed32.f = 16 by rfl]; exact in32 (by norm_num at *; omega) (by norm_num at *; omega)
  have hyi : fixed32.T.InRange (y * y / 2 ^ fixed32.f) := by
    rw [← pow_two, show fixed32.f = 16 by rfl]; exact in32 (by norm_num at *; omega) (by norm_num at *; omega)
  have ex : x * x / 2 ^ fixed32.f = x ^ 2 / 2 ^ 16 := by rw [← pow_two]; rfl
  have ey : y * y / 2 ^ fixed32.f = y ^ 2 / 2 ^ 16 := by rw [← pow_two]; rfl
  have hs : fixed32.T.InRange (x ^ 2 / 2 ^ 16 + y ^ 2 / 2 ^ 16) := in32 (by norm_num at *; omega) (by norm_num at *; omega)
  obtain ⟨r, h1, h2, _⟩ := sqrt32_raw hs (by norm_num at *; omega)
  refine ⟨r, ?_, h2⟩
  unfold hypot
  rw [sw32.mul_ok rfl hx hx hxi, Res.bind_ok, sw32.mul_ok rfl hy hy hyi, Res.bind_ok, ex, ey, sw32.add_ok hs, Res.bind_ok, h1]

/-- C31, what holds when the exact `x² + y²` stays in range: `hypot` never exceeds the true value, its square is less than
`2` ulp (plus the rounding of the root) below `x² + y²`, and it is less than 3 ulp below the true value as soon as the
result is at least one half.  Full statement: `C31_statement` (the absolute error is large only for tiny arguments). -/
theorem C31_hypot_partial (x y : Int) (hx : Storable fixed32 x) (hy : Storable fixed32 y)
    (hr : val fixed32 x ^ 2 + val fixed32 y ^ 2 < 2 ^ 15) :
    ∃ h, hypot fixed32 x y = .ok h ∧ 0 ≤ val fixed32 h ∧ val fixed32 h ^ 2 ≤ val fixed32 x ^ 2 + val fixed32 y ^ 2 ∧
      val fixed32 x ^ 2 + val fixed32 y ^ 2 < (val fixed32 h + ulp fixed32) ^ 2 + 2 * ulp fixed32 ∧
      (1 / 2 ≤ val fixed32 h → val fixed32 x ^ 2 + val fixed32 y ^ 2 < (val fixed32 h + 3 * ulp fixed32) ^ 2) := by
  have hr' : x ^ 2 + y ^ 2 < 2 ^ 47 := by
    unfold val at hr
    rw [show fixed32.f = 16 by rfl, div_pow, div_pow, ← add_div, div_lt_iff₀ (by positivity)] at hr
    have : (x : ℚ) ^ 2 + y ^ 2 < 2 ^ 47 := by norm_num at *; linarith
    exact_mod_cast this
  obtain ⟨h, h1, a, b, c⟩ := hypot_raw x y hx hy hr'
  have e1 := Int.ediv_mul_le (x ^ 2) (show (2 : Int) ^ 16 ≠ 0 by norm_num)
  have e2 := Int.lt_ediv_add_one_mul_self (x ^ 2) (show (0 : Int) < 2 ^ 16 by norm_num)
  have e3 := Int.ediv_mul_le (y ^ 2) (show (2 : Int) ^ 16 ≠ 0 by norm_num)
  have e4 := Int.lt_ediv_add_one_mul_self (y ^ 2) (show (0 : Int) < 2 ^ 16 by norm_num)
  have b1 : h ^ 2 ≤ x ^ 2 + y ^ 2 := by rw [add_mul] at b; omega
  have c1 : x ^ 2 + y ^ 2 < (h + 1) ^ 2 + 2 * 2 ^ 16 := by rw [add_mul] at c e2 e4; omega
  have b1' : (h : ℚ) ^ 2 ≤ x ^ 2 + y ^ 2 := by exact_mod_cast b1
  have c1' : (x : ℚ) ^ 2 + y ^ 2 < (h + 1) ^ 2 + 2 * 2 ^ 16 := by exact_mod_cast c1
  refine ⟨h, h1, by rw [← val_zero fixed32, val_le]; exact a, ?_, ?_, ?_⟩
  · unfold val; rw [show fixed32.f = 16 by rfl]
    rw [div_pow, div_pow, div_pow, ← add_div]
    exact div_le_div_of_nonneg_right b1' (by positivity)
  · unfold val ulp; rw [show fixed32.f = 16 by rfl]
    have e : ((h : ℚ) / 2 ^ 16 + 1 / 2 ^ 16) ^ 2 + 2 * (1 / 2 ^ 16) = ((h + 1) ^ 2 + 2 * 2 ^ 16) / (2 ^ 16) ^ 2 := by ring
    rw [e, div_pow, div_pow, ← add_div]
    exact div_lt_div_of_pos_right c1' (by positivity)
  · unfold val ulp; rw [show fixed32.f = 16 by rfl]
    intro hh
    have hh' : (2 : ℚ) ^ 15 ≤ h := by rw [le_div_iff₀ (by positivity)] at hh; norm_num at *; linarith
    have e : ((h : ℚ) / 2 ^ 16 + 3 * (1 / 2 ^ 16)) ^ 2 = (h + 3) ^ 2 / (2 ^ 16) ^ 2 := by ring
    rw [e, div_pow, div_pow, ← add_div]
    apply div_lt_div_of_pos_right _ (by positivity)
    nlinarith

/-- C31: `hypot` is symmetric, for every pair of values (including the undefined cases). -/
theorem C31_symm (F : FxTy) (hF : F.Valid) (hr : F.r = false) (x y : Int) (hx : Storable F x)
    (hy : Storable F y) : hypot F x y = hypot F y x := by
  unfold hypot
  rw [mul_nf hF hr hx hx, mul_nf hF hr hy hy]
  simp only [Res.bind_ok]
  rw [C06_add_comm]

/-- C31: `hypot(x, 0)` never exceeds `|x|`. -/
theorem C31_hypot_zero (x : Int) (hx : Storable fixed32 x) (hr : val fixed32 x ^ 2 < 2 ^ 15) :
    ∃ h, hypot fixed32 x 0 = .ok h ∧ val fixed32 h ≤ |val fixed32 x| := by
  obtain ⟨h, h1, h2, h3, _⟩ := C31_hypot_partial x 0 hx (by decide +kernel) (by rw [val_zero]; simpa using hr)
  refine ⟨h, h1, ?_⟩
  rw [val_zero] at h3
  have : val fixed32 h ^ 2 ≤ |val fixed32 x| ^ 2 := by rw [sq_abs]; linarith
  exact le_of_sq_le_sq this (abs_nonneg _)

example : hypot fixed32 (3 * 65536) (4 * 65536) = .ok (5 * 65536) ∧ hypot fixed32 (3 * 65536) (-4 * 65536) = .ok (5 * 65536) ∧
    Storable fixed32 (-4 * 65536) ∧ hypot fixed32 (150 * 65536) (150 * 65536) = .ub .overflow := by decide +kernel

/-- C31: the three-argument form agrees with the two-argument form when the last argument is zero. -/
theorem C31_hypot3_zero (x y : Int) (hx : Storable fixed32 x) (hy : Storable fixed32 y) : hypot3 fixed32 x y 0 = hypot fixed32 x y := by
  have hz : mul fixed32 0 0 = .ok 0 := by decide +kernel
  unfold hypot3 hypot
  rw [mul_nf sw32.valid rfl hx hx, mul_nf sw32.valid rfl hy hy]
  simp only [Res.bind_ok, hz]
  cases hadd : add fixed32 (fixed32.T.wrap (x * x / 2 ^ fixed32.f)) (fixed32.T.wrap (y * y / 2 ^ fixed32.f)) with
  | ok s =>
    simp only [Res.bind_ok]
    have hs : Storable fixed32 s := by
      unfold add at hadd
      cases ha : arith fixed32.P (fixed32.T.wrap (x * x / 2 ^ fixed32.f) + fixed32.T.wrap (y * y / 2 ^ fixed32.f)) with
      | ok v => rw [ha] at hadd; simp at hadd; rw [← hadd]; exact IntTy.wrap_inRange _ (by decide)
      | ub u => rw [ha] at hadd; simp at hadd
      | throw u => rw [ha] at hadd; simp at hadd
    rw [C06_add_zero fixed32 sw32.valid s hs, Res.bind_ok]
  | ub u => rfl
  | throw u => rfl

example : hypot3 fixed32 (1 * 65536) (2 * 65536) (2 * 65536) = .ok (3 * 65536) ∧
    hypot3 fixed32 (3 * 65536) (4 * 65536) 0 = .ok (5 * 65536) := by decide +kernel

/-- C30, the exponent the initial guess is looked up with: `find_msb` yields `-1` for zero and otherwise the index of the top bit of the
magnitude; at the smallest value of a type at least as wide as `int` its negation overflows. -/
theorem C30_findMsb (t : IntTy) (ht : 32 ≤ t.bits) (v : Int) (hv : t.InRange v) :
    (v = 0 → findMsb t v = .ok (-1)) ∧
    (t.signed = true → v = -2 ^ (t.bits - 1) → findMsb t v = .ub .overflow) ∧
    (v ≠ 0 → (t.signed = true → v ≠ -2 ^ (t.bits - 1)) → ∃ e : Nat, findMsb t v = .ok e ∧ (2 : Int) ^ e ≤ |v| ∧ |v| < 2 ^ (e + 1)) := by
  have hpr : t.promote = t := by unfold IntTy.promote; rw [if_neg (by omega)]
  have hb : ∃ n, t.bits = n + 1 := ⟨t.bits - 1, by omega⟩
  obtain ⟨n, hn⟩ := hb
  have h2 : (2 : Int) ^ t.bits = 2 * 2 ^ (t.bits - 1) := by rw [hn, pow_succ]; simp; ring
  have hpos : (0 : Int) < 2 ^ (t.bits - 1) := by positivity
  have hr := hv
  unfold IntTy.InRange IntTy.lo IntTy.hi at hr
  refine ⟨fun h => by unfold findMsb; rw [if_pos h], ?_, ?_⟩
  · intro hs h
    have hne : v ≠ 0 := by rw [h]; omega
    unfold findMsb
    rw [if_neg hne, if_pos (by rw [h]; omega), hpr]
    unfold arith
    rw [hs, if_pos rfl, if_neg]
    · rfl
    · unfold IntTy.InRange IntTy.lo IntTy.hi
      simp only [hs, if_true, h]
      omega
  · intro hne hmin
    have habs : |v| < 2 ^ t.bits := by
      rw [abs_lt]
      cases hs : t.signed <;> simp only [hs, if_true, if_false, Bool.false_eq_true] at hr <;> constructor <;> omega
    obtain ⟨e, he, h3, h4⟩ := findMsbLoop_spec n |v| 0 (abs_pos.2 hne) (by rw [← hn]; exact habs)
    refine ⟨e, ?_, h3, h4⟩
    have hw : (⟨t.bits, false⟩ : IntTy).wrap |v| = |v| :=
      IntTy.wrap_of_inRange (by show 0 < t.bits; omega) ⟨by unfold IntTy.lo; simp, by
        unfold IntTy.hi; simp only [Bool.false_eq_true, if_false]; omega⟩
    have ha : v < 0 → arith t.promote (-v) = .ok |v| := by
      · intro hneg
        rw [hpr, abs_of_neg hneg]
        have hs : t.signed = true := by
          cases hs : t.signed
          · simp only [hs, Bool.false_eq_true, if_false] at hr; omega
          · rfl
        have := hmin hs
        exact arith_of_inRange (by omega) ⟨by
          unfold IntTy.lo; simp only [hs, if_true] at hr ⊢; omega, by unfold IntTy.hi; simp only [hs, if_true] at hr ⊢; omega⟩
    unfold findMsb
    rw [if_neg hne]
    by_cases hneg : v < 0
    · simp only [if_pos hneg, ha hneg, Res.bind_ok, hw, Res.pure_eq]
      rw [hn, he]; simp
    · simp only [if_neg hneg, Res.bind_ok, Res.pure_eq]
      rw [abs_of_nonneg (not_lt.1 hneg)] at hw he
      rw [hw, hn, he]; simp

example : findMsb i64 (2 ^ 40 + 5) = .ok 40 ∧ findMsb i64 (-9) = .ok 3 ∧ findMsb i64 0 = .ok (-1) ∧ findMsb i32 (-2 ^ 31) = .ub .overflow := by
  decide +kernel

end Eirin.Props
