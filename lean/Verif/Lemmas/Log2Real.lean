import Verif.Lemmas.Log2

/-! # Real-number error analysis of `log2`. -/

namespace Eirin
open Real

theorem logb_succ {f : Nat} {s : ℝ} (hs : 2 ^ f ≤ s) :
    logb 2 ((s + 1) / 2 ^ f) ≤ logb 2 (s / 2 ^ f) + 1.4427 / 2 ^ f := by
  have hp : (0 : ℝ) < 2 ^ f := by positivity
  have hs0 : 0 < s := lt_of_lt_of_le hp hs
  have e : (s + 1) / 2 ^ f = s / 2 ^ f * (1 + 1 / s) := by field_simp
  rw [e, logb_mul (by positivity) (by positivity)]
  have h1 : Real.log (1 + 1 / s) ≤ 1 / s := by
    have := log_le_sub_one_of_pos (show (0 : ℝ) < 1 + 1 / s by positivity); linarith
  have h2 : 1 / s ≤ 1 / 2 ^ f := one_div_le_one_div_of_le hp hs
  have hl := RealConst.log_two_gt
  have h3 : logb 2 (1 + 1 / s) ≤ 1.4427 / 2 ^ f := by
    unfold logb
    rw [div_le_iff₀ (by norm_num at hl; linarith)]
    have : (1 : ℝ) / 2 ^ f ≤ 1.4427 / 2 ^ f * Real.log 2 := by
      rw [div_mul_eq_mul_div]
      apply div_le_div_of_nonneg_right _ hp.le
      norm_num at hl ⊢; linarith
    linarith
  linarith

theorem frac_real (f n : Nat) {z : Int} (h1 : 2 ^ f ≤ z) (h2 : z < 2 * 2 ^ f) :
    (fracOut f n z : ℝ) / 2 ^ n ≤ logb 2 (z / 2 ^ f) ∧
    logb 2 (z / 2 ^ f) < ((fracOut f n z : ℝ) + 1) / 2 ^ n + 1.4427 / 2 ^ f * (1 - 1 / 2 ^ n) := by
  have hp : (0 : ℝ) < 2 ^ f := by positivity
  induction n generalizing z with
  | zero =>
    have h1' : (2 : ℝ) ^ f ≤ z := by exact_mod_cast h1
    have h2' : (z : ℝ) < 2 * 2 ^ f := by exact_mod_cast h2
    simp only [fracOut, pow_zero, div_one, Int.cast_zero, zero_add, sub_self, mul_zero, add_zero]
    constructor
    · exact logb_nonneg (by norm_num) (by rw [le_div_iff₀ hp]; linarith)
    · rw [logb_lt_iff_lt_rpow (by norm_num) (by apply div_pos _ hp; linarith), rpow_one, div_lt_iff₀ hp]; exact h2'
  | succ n ih =>
    obtain ⟨n1, n2⟩ := next_mant h1 h2
    have hq : (0 : Int) < 2 ^ f := by positivity
    have hz : (0 : ℝ) < z := by have : (0 : Int) < z := by omega
                                exact_mod_cast this
    have hn : (0 : ℝ) < 2 ^ n := by positivity
    -- the generic step: next mantissa `s`, output bit `β`
    have step : ∀ (s : Int) (β : ℝ), 2 ^ f ≤ s → s < 2 * 2 ^ f → (s : ℝ) ≤ z * z / 2 ^ f / 2 ^ β → (z : ℝ) * z / 2 ^ f / 2 ^ β < s + 1 →
        (β * 2 ^ n + fracOut f n s) / 2 ^ (n + 1) ≤ logb 2 (z / 2 ^ f) ∧
        logb 2 (z / 2 ^ f) < (β * 2 ^ n + fracOut f n s + 1) / 2 ^ (n + 1) + 1.4427 / 2 ^ f * (1 - 1 / 2 ^ (n + 1)) := by
      intro s β a b c d
      obtain ⟨i1, i2⟩ := ih a b
      have a' : (2 : ℝ) ^ f ≤ s := by exact_mod_cast a
      have hs0 : (0 : ℝ) < s := by linarith
      have hβ : (0 : ℝ) < 2 ^ β := by positivity
      have e : logb 2 (z * z / 2 ^ f / 2 ^ β / 2 ^ f) = 2 * logb 2 (z / 2 ^ f) - β := by
        have : (z : ℝ) * z / 2 ^ f / 2 ^ β / 2 ^ f = (z / 2 ^ f) * (z / 2 ^ f) / 2 ^ β := by field_simp
        rw [this, logb_div (by positivity) (by positivity), logb_mul (by positivity) (by positivity), logb_rpow (by norm_num) (by norm_num)]
        ring
      have l1 : logb 2 (s / 2 ^ f) ≤ 2 * logb 2 (z / 2 ^ f) - β := by
        rw [← e]
        exact logb_le_logb_of_le (by norm_num) (by positivity) (div_le_div_of_nonneg_right c hp.le)
      have l2 : 2 * logb 2 (z / 2 ^ f) - β ≤ logb 2 ((s + 1) / 2 ^ f) := by
        rw [← e]
        exact logb_le_logb_of_le (by norm_num) (by positivity) (div_le_div_of_nonneg_right d.le hp.le)
      have l3 := logb_succ a'
      rw [pow_succ]
      constructor
      · rw [div_mul_eq_div_div, add_div, mul_div_assoc, div_self hn.ne', mul_one]
        linarith
      · have e2 : (β * 2 ^ n + fracOut f n s + 1) / (2 ^ n * 2) + 1.4427 / 2 ^ f * (1 - 1 / (2 ^ n * 2)) =
          (β + ((fracOut f n s + 1) / 2 ^ n + 1.4427 / 2 ^ f * (1 - 1 / 2 ^ n)) + 1.4427 / 2 ^ f) / 2 := by
          field_simp; ring
        rw [e2]; linarith
    have f1 : ((z * z / 2 ^ f : Int) : ℝ) ≤ z * z / 2 ^ f := by
      rw [le_div_iff₀ hp]; have := Int.ediv_mul_le (z * z) hq.ne'; exact_mod_cast this
    have f2 : (z : ℝ) * z / 2 ^ f < ((z * z / 2 ^ f : Int) : ℝ) + 1 := by
      rw [div_lt_iff₀ hp]; have := Int.lt_ediv_add_one_mul_self (z * z) hq; exact_mod_cast this
    rw [fracOut]
    by_cases hc : 2 * 2 ^ f ≤ z * z / 2 ^ f
    · rw [if_pos hc]
      have g1 : (2 : ℝ) * ((z * z / 2 ^ f / 2 : Int) : ℝ) ≤ ((z * z / 2 ^ f : Int) : ℝ) := by
        have : 2 * (z * z / 2 ^ f / 2) ≤ z * z / 2 ^ f := by omega
        exact_mod_cast this
      have g2 : ((z * z / 2 ^ f : Int) : ℝ) + 1 ≤ 2 * ((z * z / 2 ^ f / 2 : Int) : ℝ) + 2 := by
        have : z * z / 2 ^ f + 1 ≤ 2 * (z * z / 2 ^ f / 2) + 2 := by omega
        exact_mod_cast this
      have := step (z * z / 2 ^ f / 2) 1 (by omega) (by omega) (by rw [rpow_one, le_div_iff₀ (by norm_num)]; linarith)
        (by rw [rpow_one, div_lt_iff₀ (by norm_num)]; linarith)
      rw [one_mul] at this
      push_cast
      exact this
    · rw [if_neg hc]
      have := step (z * z / 2 ^ f) 0 n1 (by omega) (by rw [rpow_zero, div_one]; exact f1) (by rw [rpow_zero, div_one]; exact f2)
      rw [zero_mul, zero_add] at this
      exact this

/-- The mantissa/exponent split loses at most `1.4427` ulp, and never increases. -/
theorem norm_real {f : Nat} {x m k : Int} (h : Norm f x m k) (h0 : 0 < x) :
    k + logb 2 (m / 2 ^ f) ≤ logb 2 (x / 2 ^ f) ∧ logb 2 (x / 2 ^ f) ≤ k + logb 2 (m / 2 ^ f) + 1.4427 / 2 ^ f := by
  have hp : (0 : ℝ) < 2 ^ f := by positivity
  have hx : (0 : ℝ) < x := by exact_mod_cast h0
  have hm' : (2 : ℝ) ^ f ≤ m := by exact_mod_cast h.lo
  have hm : (0 : ℝ) < m := by linarith
  rcases lt_or_ge k 0 with hk | hk
  · have e := h.neg hk
    have e' : (m : ℝ) = x * 2 ^ (-k).toNat := by rw [e]; push_cast; rfl
    have : logb 2 (m / 2 ^ f) = logb 2 (x / 2 ^ f) - k := by
      have e3 : (m : ℝ) / 2 ^ f = x / 2 ^ f * 2 ^ (-k).toNat := by rw [e']; ring
      rw [e3, logb_mul (by positivity) (by positivity), ← rpow_natCast 2 (-k).toNat, logb_rpow (by norm_num) (by norm_num)]
      have : (((-k).toNat : Int) : ℝ) = -k := by rw [Int.toNat_of_nonneg (by omega)]; push_cast; rfl
      rw [Int.cast_natCast] at this
      rw [this]; ring
    rw [this]
    constructor
    · linarith
    · have : (0 : ℝ) ≤ 1.4427 / 2 ^ f := by positivity
      linarith
  · have e := h.pos hk
    have hq : (0 : Int) < 2 ^ k.toNat := by positivity
    have f1 : (m : ℝ) * 2 ^ k.toNat ≤ x := by
      have := Int.ediv_mul_le x hq.ne'; rw [← e] at this; exact_mod_cast this
    have f2 : (x : ℝ) < (m + 1) * 2 ^ k.toNat := by
      have := Int.lt_ediv_add_one_mul_self x hq; rw [← e] at this; exact_mod_cast this
    have key : ∀ y : ℝ, 0 < y → logb 2 (y * 2 ^ k.toNat / 2 ^ f) = k + logb 2 (y / 2 ^ f) := by
      intro y hy
      have e3 : y * 2 ^ k.toNat / 2 ^ f = 2 ^ k.toNat * (y / 2 ^ f) := by ring
      rw [e3, logb_mul (by positivity) (by positivity), ← rpow_natCast 2 k.toNat, logb_rpow (by norm_num) (by norm_num)]
      have : ((k.toNat : Int) : ℝ) = k := by rw [Int.toNat_of_nonneg hk]
      rw [Int.cast_natCast] at this
      rw [this]
    constructor
    · rw [← key m hm]
      exact logb_le_logb_of_le (by norm_num) (by positivity) (div_le_div_of_nonneg_right f1 hp.le)
    · have := logb_succ hm'
      have h2 : logb 2 (x / 2 ^ f) ≤ k + logb 2 ((m + 1) / 2 ^ f) := by
        rw [← key (m + 1) (by linarith)]
        exact logb_le_logb_of_le (by norm_num) (by positivity) (div_le_div_of_nonneg_right f2.le hp.le)
      linarith

end Eirin
