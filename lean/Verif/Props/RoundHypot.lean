import Verif.Props.RoundSqrt

/-! # Property C188: `hypot` of 64-bit rounding types -/

namespace Eirin.Props
open Eirin Spec

/-- C188 as one would expect it: on 64-bit rounding types `hypot` is within one percent of the length. -/
def C188_statement : Prop :=
  ∀ f : Nat, 0 < f → f ≤ 62 → ∀ x y, Storable (R64 f) x → Storable (R64 f) y → ∀ L : ℚ, L = val (R64 f) x ^ 2 + val (R64 f) y ^ 2 →
    5 / 65536 ≤ L → 8 * ulp (R64 f) ≤ L → L < 2 ^ (63 - f) / 17 →
    ∃ r, hypot (R64 f) x y = .ok r ∧ |((val (R64 f) r : ℚ) : ℝ) - √((L : ℚ) : ℝ)| ≤ √((L : ℚ) : ℝ) / 100

/-- C188 is false of the code: `hypot(3, 4) = 10` in `fixed_num<int64_t, int128, 32, true>`. -/
theorem C188_false : ¬ C188_statement := by
  intro h
  obtain ⟨r, e, hr⟩ := h 32 (by norm_num) (by norm_num) (3 * 2 ^ 32) (4 * 2 ^ 32) (by decide +kernel) (by decide +kernel) 25 (by norm_num [val])
    (by norm_num) (by norm_num [ulp]) (by norm_num)
  have e' : hypot (R64 32) (3 * 2 ^ 32) (4 * 2 ^ 32) = .ok (10 * 2 ^ 32) := by decide +kernel
  rw [e'] at e
  cases e
  have w : ((val (R64 32) (10 * 2 ^ 32) : ℚ) : ℝ) = 10 := by norm_num [val]
  rw [w, show (((25 : ℚ)) : ℝ) = 5 ^ 2 by norm_num, Real.sqrt_sq (by norm_num), abs_le] at hr
  norm_num at hr

/-- The square of a storable number, in values. -/
theorem square_R64 {f : Nat} (hf0 : 0 < f) (hf1 : f ≤ 62) {x : Int} (hx : Storable (R64 f) x) (hfit : val (R64 f) x ^ 2 < 2 ^ (63 - f) / 7) :
    ∃ S, mul (R64 f) x x = .ok S ∧ 0 ≤ S ∧ |val (R64 f) S - 2 * val (R64 f) x ^ 2| ≤ ulp (R64 f) := by
  have hF := (sw_R64 hf0 hf1).valid
  have hp : (0 : ℚ) < 2 ^ f := by positivity
  obtain ⟨z, n, e, ⟨hn, -⟩, hw⟩ := C05_mul_partial (R64 f) hF rfl x x hx hx
  have hu := ulp_pos (R64 f)
  have vu : ∀ k : Int, val (R64 f) k = k * ulp (R64 f) := fun k => by unfold val ulp; ring
  rw [← pow_two, abs_le] at hn
  have hsq := sq_nonneg (val (R64 f) x)
  have n0 : 0 ≤ n := by
    by_contra hc
    have : (n : ℚ) ≤ -1 := by exact_mod_cast (by omega : n ≤ -1)
    have h2 := hn.2
    rw [vu n] at h2
    nlinarith
  have e63 : (2 : ℚ) ^ (63 - f) = 2 ^ 63 * ulp (R64 f) := by
    have : (2 : ℚ) ^ (63 - f) * 2 ^ f = 2 ^ 63 := by rw [← pow_add]; congr 1; omega
    unfold ulp; field_simp; exact this
  have n1 : 2 * n < 2 ^ 63 := by
    have h1 := hn.1
    rw [vu n] at h1
    have h2 : (2 * n : ℚ) * ulp (R64 f) < 2 ^ 63 * ulp (R64 f) := by
      rw [e63] at hfit; norm_num at hfit ⊢; linarith
    have h3 : (2 * n : ℚ) < 2 ^ 63 := lt_of_mul_lt_mul_right h2 hu.le
    exact_mod_cast h3
  have ze : z = 2 * n := isWrap_unique hF.tpos hw ⟨in64 (by norm_num; omega) n1, by simp⟩
  refine ⟨z, e, by omega, ?_⟩
  have : val (R64 f) z = 2 * val (R64 f) n := by rw [ze, vu, vu]; push_cast; ring
  rw [this, abs_le]
  constructor <;> linarith

/-- The root of a slightly wrong number. -/
theorem root_near {s L u : ℝ} {k : ℝ} (hL : 0 < L) (hs : 0 ≤ s) (h : |s - 2 * L| ≤ k * u) : |√(2 * s) - 2 * √L| ≤ k * u / √L := by
  have hl : 0 < √L := Real.sqrt_pos.2 hL
  have h2 := Real.sqrt_nonneg (2 * s)
  have e1 : √L ^ 2 = L := Real.sq_sqrt hL.le
  have e2 : √(2 * s) ^ 2 = 2 * s := Real.sq_sqrt (by linarith)
  rw [le_div_iff₀ hl]
  have : |√(2 * s) - 2 * √L| * (√(2 * s) + 2 * √L) = 2 * |s - 2 * L| := by
    rw [← abs_of_nonneg (show 0 ≤ √(2 * s) + 2 * √L by linarith), ← abs_mul, ← abs_of_pos (show (0 : ℝ) < 2 by norm_num), ← abs_mul,
      abs_of_pos (show (0 : ℝ) < 2 by norm_num)]
    congr 1
    nlinarith
  have h3 := abs_nonneg (√(2 * s) - 2 * √L)
  nlinarith

/-- The common part of the two functions: the root of a sum of `k` squares. -/
theorem hypot_tail {f : Nat} (hf0 : 0 < f) (hf1 : f ≤ 62) {S : Int} {L k : ℚ} (hS : Storable (R64 f) S) (hk : k ≤ 3)
    (h : |val (R64 f) S - 2 * L| ≤ k * ulp (R64 f)) (h1 : 5 / 65536 ≤ L) (h2 : 8 * ulp (R64 f) ≤ L) (h3 : L < 2 ^ (63 - f) / 17) :
    ∃ r, sqrt (R64 f) S = .ok r ∧ Storable (R64 f) r ∧
      |((val (R64 f) r : ℚ) : ℝ) - 2 * √(L : ℝ)| ≤ (1 + 4 / √(L : ℝ)) * (ulp (R64 f) : ℚ) + √(L : ℝ) / 2 ^ 46 := by
  have hu := ulp_pos (R64 f)
  have hku : k * ulp (R64 f) ≤ 3 * ulp (R64 f) := mul_le_mul_of_nonneg_right hk hu.le
  obtain ⟨a, b⟩ := abs_le.1 h
  obtain ⟨r, e, sr, hr⟩ := C187_sqrt_partial f hf0 hf1 S hS (by linarith) (by linarith) (by linarith)
  refine ⟨r, e, sr, ?_⟩
  have hL : (0 : ℝ) < (L : ℝ) := by
    have : 0 < L := by linarith
    exact_mod_cast this
  have hk' : (((|val (R64 f) S - 2 * L| : ℚ)) : ℝ) ≤ ((3 * ulp (R64 f) : ℚ) : ℝ) := by exact_mod_cast h.trans hku
  push_cast at hk'
  have hs0 : (0 : ℝ) ≤ ((val (R64 f) S : ℚ) : ℝ) := by
    have : 0 ≤ val (R64 f) S := by linarith
    exact_mod_cast this
  have m := root_near hL hs0 hk'
  have hur : (0 : ℝ) < ((ulp (R64 f) : ℚ) : ℝ) := by exact_mod_cast hu
  generalize ((ulp (R64 f) : ℚ) : ℝ) = u at *
  generalize √(2 * ((val (R64 f) S : ℚ) : ℝ)) = w at *
  have hl : 0 < √(L : ℝ) := Real.sqrt_pos.2 hL
  generalize √(L : ℝ) = l at *
  obtain ⟨m1, m2⟩ := abs_le.1 m
  have hq : 0 < u / l := by positivity
  have e1 : 3 * u / l = 3 * (u / l) := by ring
  have e2 : (1 + 4 / l) * u = u + 4 * (u / l) := by ring
  rw [e1] at m m1 m2
  rw [e2]
  have := abs_sub_le ((val (R64 f) r : ℚ) : ℝ) w (2 * l)
  have hw : w / 2 ^ 47 ≤ l / 2 ^ 46 + u / l := by norm_num; linarith
  linarith

theorem val_lt_hi {f : Nat} (hf1 : f ≤ 62) {S : Int} (h0 : 0 ≤ S) (h : val (R64 f) S < 2 ^ (63 - f)) : Storable (R64 f) S := by
  have e63 : (2 : ℚ) ^ (63 - f) * 2 ^ f = 2 ^ 63 := by rw [← pow_add]; congr 1; omega
  unfold val at h
  rw [div_lt_iff₀ (by positivity)] at h
  change (S : ℚ) < 2 ^ (63 - f) * 2 ^ f at h
  rw [e63] at h
  exact in64 (by norm_num; omega) (by exact_mod_cast h)

/-- C188 (what happens instead): on every signed 64-bit rounding layout with up to 62 fraction bits `hypot` is *twice* the length, wherever the
squared length is not below `5/65536` and eight ulps and not above a seventeenth of the range; with two and with three arguments. -/
theorem C188_hypot_partial (f : Nat) (hf0 : 0 < f) (hf1 : f ≤ 62) (x y z : Int) (hx : Storable (R64 f) x) (hy : Storable (R64 f) y)
    (hz : Storable (R64 f) z) :
    (∀ L : ℚ, L = val (R64 f) x ^ 2 + val (R64 f) y ^ 2 → 5 / 65536 ≤ L → 8 * ulp (R64 f) ≤ L → L < 2 ^ (63 - f) / 17 →
      ∃ r, hypot (R64 f) x y = .ok r ∧ Storable (R64 f) r ∧
        |((val (R64 f) r : ℚ) : ℝ) - 2 * √(L : ℝ)| ≤ (1 + 4 / √(L : ℝ)) * (ulp (R64 f) : ℚ) + √(L : ℝ) / 2 ^ 46) ∧
    (∀ L : ℚ, L = val (R64 f) x ^ 2 + val (R64 f) y ^ 2 + val (R64 f) z ^ 2 → 5 / 65536 ≤ L → 8 * ulp (R64 f) ≤ L → L < 2 ^ (63 - f) / 17 →
      ∃ r, hypot3 (R64 f) x y z = .ok r ∧ Storable (R64 f) r ∧
        |((val (R64 f) r : ℚ) : ℝ) - 2 * √(L : ℝ)| ≤ (1 + 4 / √(L : ℝ)) * (ulp (R64 f) : ℚ) + √(L : ℝ) / 2 ^ 46) := by
  have sw := sw_R64 hf0 hf1
  have qx := sq_nonneg (val (R64 f) x)
  have qy := sq_nonneg (val (R64 f) y)
  have qz := sq_nonneg (val (R64 f) z)
  have hu := ulp_pos (R64 f)
  constructor
  · intro L hL h1 h2 h3
    obtain ⟨a, ea, a0, ha⟩ := square_R64 hf0 hf1 hx (by linarith)
    obtain ⟨b, eb, b0, hb⟩ := square_R64 hf0 hf1 hy (by linarith)
    obtain ⟨ha1, ha2⟩ := abs_le.1 ha
    obtain ⟨hb1, hb2⟩ := abs_le.1 hb
    have hS : Storable (R64 f) (a + b) := val_lt_hi hf1 (by omega) (by rw [val_add]; linarith)
    obtain ⟨r, er, sr, hr⟩ := hypot_tail hf0 hf1 (L := L) (k := 2) hS (by norm_num)
      (by rw [val_add, abs_le]; constructor <;> linarith) h1 h2 h3
    exact ⟨r, by unfold hypot; rw [ea, Res.bind_ok, eb, Res.bind_ok, sw.add_ok hS, Res.bind_ok, er], sr, hr⟩
  · intro L hL h1 h2 h3
    obtain ⟨a, ea, a0, ha⟩ := square_R64 hf0 hf1 hx (by linarith)
    obtain ⟨b, eb, b0, hb⟩ := square_R64 hf0 hf1 hy (by linarith)
    obtain ⟨c, ec, c0, hc⟩ := square_R64 hf0 hf1 hz (by linarith)
    obtain ⟨ha1, ha2⟩ := abs_le.1 ha
    obtain ⟨hb1, hb2⟩ := abs_le.1 hb
    obtain ⟨hc1, hc2⟩ := abs_le.1 hc
    have hS : Storable (R64 f) (a + b) := val_lt_hi hf1 (by omega) (by rw [val_add]; linarith)
    have hT : Storable (R64 f) (a + b + c) := val_lt_hi hf1 (by omega) (by rw [val_add, val_add]; linarith)
    obtain ⟨r, er, sr, hr⟩ := hypot_tail hf0 hf1 (L := L) (k := 3) hT (by norm_num)
      (by rw [val_add, val_add, abs_le]; constructor <;> linarith) h1 h2 h3
    exact ⟨r, by unfold hypot3; rw [ea, Res.bind_ok, eb, Res.bind_ok, sw.add_ok hS, Res.bind_ok, ec, Res.bind_ok, sw.add_ok hT, Res.bind_ok, er],
      sr, hr⟩

example : hypot (R64 32) (3 * 2 ^ 32) (4 * 2 ^ 32) = .ok (10 * 2 ^ 32) ∧ hypot3 (R64 32) (2 ^ 32) (2 * 2 ^ 32) (2 * 2 ^ 32) = .ok (6 * 2 ^ 32) ∧
    (8 * ulp (R64 32) ≤ 25 ∧ (25 : ℚ) < 2 ^ (63 - 32) / 17) := by
  refine ⟨by decide +kernel, by decide +kernel, by norm_num [ulp], by norm_num⟩

end Eirin.Props
