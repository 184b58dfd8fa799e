import Mathlib.Analysis.Real.Pi.Bounds
import Mathlib.Analysis.Complex.ExponentialBounds
import Mathlib.NumberTheory.Harmonic.EulerMascheroni
import Mathlib.Analysis.Real.Sqrt

/-! # Rational enclosures of real constants (facts of mathematics, nothing about the code) -/

namespace Eirin.RealConst
open Real Filter Topology

theorem log_two_gt : (0.69314718055994530 : ℝ) < log 2 := by
  have h := sum_range_le_log_div (x := 1 / 3) (by norm_num) (by norm_num) 18
  rw [show ((1 : ℝ) + 1 / 3) / (1 - 1 / 3) = 2 by norm_num] at h
  norm_num [Finset.sum_range_succ] at h ⊢
  linarith

theorem log_two_lt : log 2 < (0.69314718055994532 : ℝ) := by
  have h := log_div_le_sum_range_add (x := 1 / 3) (by norm_num) (by norm_num) 18
  rw [show ((1 : ℝ) + 1 / 3) / (1 - 1 / 3) = 2 by norm_num] at h
  norm_num [Finset.sum_range_succ] at h ⊢
  linarith

theorem log_54_gt : (0.22314355131420975 : ℝ) < log (5 / 4) := by
  have h := sum_range_le_log_div (x := 1 / 9) (by norm_num) (by norm_num) 9
  rw [show ((1 : ℝ) + 1 / 9) / (1 - 1 / 9) = 5 / 4 by norm_num] at h
  norm_num [Finset.sum_range_succ] at h ⊢
  linarith

theorem log_54_lt : log (5 / 4) < (0.22314355131420977 : ℝ) := by
  have h := log_div_le_sum_range_add (x := 1 / 9) (by norm_num) (by norm_num) 9
  rw [show ((1 : ℝ) + 1 / 9) / (1 - 1 / 9) = 5 / 4 by norm_num] at h
  norm_num [Finset.sum_range_succ] at h ⊢
  linarith

theorem log_ten_split : log 10 = 3 * log 2 + log (5 / 4) := by
  have h2 : (3 : ℝ) * log 2 = log (2 ^ 3) := by rw [log_pow]; norm_num
  rw [h2, ← log_mul (by norm_num) (by norm_num)]
  norm_num

theorem log_ten_gt : (2.3025850929940456 : ℝ) < log 10 := by
  rw [log_ten_split]; have := log_two_gt; have := log_54_gt; norm_num at *; linarith

theorem log_ten_lt : log 10 < (2.3025850929940458 : ℝ) := by
  rw [log_ten_split]; have := log_two_lt; have := log_54_lt; norm_num at *; linarith

theorem e_bounds : (2.7182818284590452 : ℝ) < Real.exp 1 ∧ Real.exp 1 < (2.7182818284590453 : ℝ) := by
  have h := abs_sub_le_iff.1 exp_one_near_20
  obtain ⟨h1, h2⟩ := h
  constructor <;> norm_num at * <;> linarith

/-! ### The Euler–Mascheroni constant -/

/-- Upper approximations of `γ`. -/
noncomputable def gU (n : ℕ) : ℝ := harmonic n - log n - 1 / (2 * n) + 1 / (12 * n ^ 2)
/-- Lower approximations of `γ`. -/
noncomputable def gL (n : ℕ) : ℝ := gU n - 1 / (120 * n ^ 4)

theorem log_step {n : ℝ} (hn : 1 ≤ n) :
    (1 : ℝ) / 2 * log ((n + 1) / n) ≥ 1 / (2 * n + 1) + (1 / (2 * n + 1)) ^ 3 / 3 ∧
    (1 : ℝ) / 2 * log ((n + 1) / n) ≤ 1 / (2 * n + 1) + (1 / (2 * n + 1)) ^ 3 / 3 + (1 / (2 * n + 1)) ^ 5 / 5 +
      (1 / (2 * n + 1)) ^ 7 / (1 - (1 / (2 * n + 1)) ^ 2) := by
  have ht : 0 < 1 / (2 * n + 1) := by positivity
  have ht1 : 1 / (2 * n + 1) < 1 := by rw [div_lt_one (by positivity)]; linarith
  have e : (1 + 1 / (2 * n + 1)) / (1 - 1 / (2 * n + 1)) = (n + 1) / n := by
    have h1 : (1 : ℝ) - 1 / (2 * n + 1) = 2 * n / (2 * n + 1) := by field_simp; ring
    rw [h1]; field_simp; ring
  have l := sum_range_le_log_div ht.le ht1 2
  have u := log_div_le_sum_range_add ht.le ht1 3
  rw [e] at l u
  norm_num [Finset.sum_range_succ] at l u ⊢
  constructor
  · linarith
  · linarith

theorem gU_anti {n : ℕ} (hn : 1 ≤ n) : gU (n + 1) ≤ gU n := by
  have hn' : (1 : ℝ) ≤ n := by exact_mod_cast hn
  have hs := (log_step hn').1
  have hl : log ((n + 1 : ℕ) : ℝ) = log n + log (((n : ℝ) + 1) / n) := by
    rw [← log_mul (by positivity) (by positivity)]; congr 1; push_cast; field_simp
  unfold gU
  rw [harmonic_succ, hl]
  push_cast
  have key : (1 / (2 * (n : ℝ) + 1) + (1 / (2 * n + 1)) ^ 3 / 3) * 2 ≥
      ((n : ℝ) + 1)⁻¹ + 1 / (2 * n) - 1 / (2 * (n + 1)) - 1 / (12 * n ^ 2) + 1 / (12 * (n + 1) ^ 2) := by
    rw [ge_iff_le, ← sub_nonneg]
    have : (1 / (2 * (n : ℝ) + 1) + (1 / (2 * n + 1)) ^ 3 / 3) * 2 -
      (((n : ℝ) + 1)⁻¹ + 1 / (2 * n) - 1 / (2 * (n + 1)) - 1 / (12 * n ^ 2) + 1 / (12 * (n + 1) ^ 2)) =
      (2 * n ^ 2 + 2 * n + 1) / (12 * n ^ 2 * (n + 1) ^ 2 * (2 * n + 1) ^ 3) := by
      field_simp; ring
    rw [this]; positivity
  linarith

theorem gL_mono {n : ℕ} (hn : 1 ≤ n) : gL n ≤ gL (n + 1) := by
  have hn' : (1 : ℝ) ≤ n := by exact_mod_cast hn
  have hs := (log_step hn').2
  have hl : log ((n + 1 : ℕ) : ℝ) = log n + log (((n : ℝ) + 1) / n) := by
    rw [← log_mul (by positivity) (by positivity)]; congr 1; push_cast; field_simp
  unfold gL gU
  rw [harmonic_succ, hl]
  push_cast
  have e : (1 : ℝ) - (1 / (2 * n + 1)) ^ 2 = 4 * n * (n + 1) / (2 * n + 1) ^ 2 := by field_simp; ring
  rw [e] at hs
  have key : (1 / (2 * (n : ℝ) + 1) + (1 / (2 * n + 1)) ^ 3 / 3 + (1 / (2 * n + 1)) ^ 5 / 5 +
      (1 / (2 * n + 1)) ^ 7 / (4 * n * (n + 1) / (2 * n + 1) ^ 2)) * 2 ≤
      ((n : ℝ) + 1)⁻¹ + 1 / (2 * n) - 1 / (2 * (n + 1)) - 1 / (12 * n ^ 2) + 1 / (12 * (n + 1) ^ 2)
        + 1 / (120 * n ^ 4) - 1 / (120 * (n + 1) ^ 4) := by
    rw [← sub_nonneg]
    field_simp
    ring_nf
    positivity
  linarith

theorem gU_le {n : ℕ} (hn : 1 ≤ n) (k : ℕ) : gU (n + k) ≤ gU n := by
  induction k with
  | zero => exact le_refl _
  | succ k ih => exact le_trans (gU_anti (n := n + k) (by omega)) ih

theorem gL_ge {n : ℕ} (hn : 1 ≤ n) (k : ℕ) : gL n ≤ gL (n + k) := by
  induction k with
  | zero => exact le_refl _
  | succ k ih => exact le_trans ih (gL_mono (n := n + k) (by omega))

theorem tendsto_gU : Tendsto gU atTop (𝓝 eulerMascheroniConstant) := by
  have h0 : Tendsto (fun n : ℕ => 1 / (n : ℝ)) atTop (𝓝 0) := tendsto_one_div_atTop_nhds_zero_nat
  have h1 : Tendsto (fun n : ℕ => (1 / 2) * (1 / (n : ℝ))) atTop (𝓝 ((1 / 2) * 0)) := h0.const_mul _
  have h2 : Tendsto (fun n : ℕ => (1 / 12) * ((1 / (n : ℝ)) ^ 2)) atTop (𝓝 ((1 / 12) * 0 ^ 2)) := (h0.pow 2).const_mul _
  have h := (tendsto_harmonic_sub_log.sub h1).add h2
  have e : eulerMascheroniConstant - 1 / 2 * 0 + 1 / 12 * 0 ^ 2 = eulerMascheroniConstant := by ring
  rw [e] at h
  refine h.congr (fun n => ?_)
  unfold gU
  ring

theorem tendsto_gL : Tendsto gL atTop (𝓝 eulerMascheroniConstant) := by
  have h0 : Tendsto (fun n : ℕ => 1 / (n : ℝ)) atTop (𝓝 0) := tendsto_one_div_atTop_nhds_zero_nat
  have h2 : Tendsto (fun n : ℕ => (1 / 120) * ((1 / (n : ℝ)) ^ 4)) atTop (𝓝 ((1 / 120) * 0 ^ 4)) := (h0.pow 4).const_mul _
  have h := tendsto_gU.sub h2
  have e : eulerMascheroniConstant - 1 / 120 * 0 ^ 4 = eulerMascheroniConstant := by ring
  rw [e] at h
  refine h.congr (fun n => ?_)
  unfold gL
  ring

theorem gamma_le {n : ℕ} (hn : 1 ≤ n) : eulerMascheroniConstant ≤ gU n := by
  refine le_of_tendsto tendsto_gU ?_
  filter_upwards [eventually_ge_atTop n] with m hm
  obtain ⟨k, rfl⟩ := Nat.exists_eq_add_of_le hm
  exact gU_le hn k

theorem le_gamma {n : ℕ} (hn : 1 ≤ n) : gL n ≤ eulerMascheroniConstant := by
  refine ge_of_tendsto tendsto_gL ?_
  filter_upwards [eventually_ge_atTop n] with m hm
  obtain ⟨k, rfl⟩ := Nat.exists_eq_add_of_le hm
  exact gL_ge hn k

theorem harmonic_128 : (5.43314709258 : ℚ) < harmonic 128 ∧ harmonic 128 < 5.43314709259 := by
  unfold harmonic
  constructor <;> norm_num [Finset.sum_range_succ]

theorem log_128 : log ((128 : ℕ) : ℝ) = 7 * log 2 := by
  have h2 : (7 : ℝ) * log 2 = log (2 ^ 7) := by rw [log_pow]; norm_num
  rw [h2]; norm_num

theorem gamma_bounds : (0.5772156648 : ℝ) < eulerMascheroniConstant ∧ eulerMascheroniConstant < (0.57721566495 : ℝ) := by
  have hu := gamma_le (n := 128) (by norm_num)
  have hl := le_gamma (n := 128) (by norm_num)
  unfold gL at hl
  unfold gU at hu hl
  rw [log_128] at hu hl
  have a := log_two_gt
  have b := log_two_lt
  have c : ((5.43314709258 : ℚ) : ℝ) < harmonic 128 := by exact_mod_cast harmonic_128.1
  have d : (harmonic 128 : ℝ) < ((5.43314709259 : ℚ) : ℝ) := by exact_mod_cast harmonic_128.2
  norm_num at *
  constructor <;> linarith

/-- Sharper upper approximations of `γ`. -/
noncomputable def gU2 (n : ℕ) : ℝ := gL n + 1 / (252 * n ^ 6)
/-- Sharper lower approximations of `γ`. -/
noncomputable def gL2 (n : ℕ) : ℝ := gU2 n - 1 / (240 * n ^ 8)

theorem log_step2 {n : ℝ} (hn : 1 ≤ n) :
    (1 : ℝ) / 2 * log ((n + 1) / n) ≥ 1 / (2 * n + 1) + (1 / (2 * n + 1)) ^ 3 / 3 + (1 / (2 * n + 1)) ^ 5 / 5 + (1 / (2 * n + 1)) ^ 7 / 7 ∧
    (1 : ℝ) / 2 * log ((n + 1) / n) ≤ 1 / (2 * n + 1) + (1 / (2 * n + 1)) ^ 3 / 3 + (1 / (2 * n + 1)) ^ 5 / 5 + (1 / (2 * n + 1)) ^ 7 / 7 +
      (1 / (2 * n + 1)) ^ 9 / 9 + (1 / (2 * n + 1)) ^ 11 / (1 - (1 / (2 * n + 1)) ^ 2) := by
  have ht : 0 < 1 / (2 * n + 1) := by positivity
  have ht1 : 1 / (2 * n + 1) < 1 := by rw [div_lt_one (by positivity)]; linarith
  have e : (1 + 1 / (2 * n + 1)) / (1 - 1 / (2 * n + 1)) = (n + 1) / n := by
    have h1 : (1 : ℝ) - 1 / (2 * n + 1) = 2 * n / (2 * n + 1) := by field_simp; ring
    rw [h1]; field_simp; ring
  have l := sum_range_le_log_div ht.le ht1 4
  have u := log_div_le_sum_range_add ht.le ht1 5
  rw [e] at l u
  norm_num [Finset.sum_range_succ] at l u ⊢
  constructor
  · linarith
  · linarith

theorem gU2_anti {n : ℕ} (hn : 1 ≤ n) : gU2 (n + 1) ≤ gU2 n := by
  have hn' : (1 : ℝ) ≤ n := by exact_mod_cast hn
  have hs := (log_step2 hn').1
  have hl : log ((n + 1 : ℕ) : ℝ) = log n + log (((n : ℝ) + 1) / n) := by
    rw [← log_mul (by positivity) (by positivity)]; congr 1; push_cast; field_simp
  unfold gU2 gL gU
  rw [harmonic_succ, hl]
  push_cast
  have key : ((n : ℝ) + 1)⁻¹ + 1 / (2 * n) - 1 / (2 * (n + 1)) - 1 / (12 * n ^ 2) + 1 / (12 * (n + 1) ^ 2)
        + 1 / (120 * n ^ 4) - 1 / (120 * (n + 1) ^ 4) - 1 / (252 * n ^ 6) + 1 / (252 * (n + 1) ^ 6) ≤
      (1 / (2 * (n : ℝ) + 1) + (1 / (2 * n + 1)) ^ 3 / 3 + (1 / (2 * n + 1)) ^ 5 / 5 + (1 / (2 * n + 1)) ^ 7 / 7) * 2 := by
    rw [← sub_nonneg]
    field_simp
    ring_nf
    positivity
  linarith

theorem gL2_mono {n : ℕ} (hn : 1 ≤ n) : gL2 n ≤ gL2 (n + 1) := by
  have hn' : (1 : ℝ) ≤ n := by exact_mod_cast hn
  have hs := (log_step2 hn').2
  have hl : log ((n + 1 : ℕ) : ℝ) = log n + log (((n : ℝ) + 1) / n) := by
    rw [← log_mul (by positivity) (by positivity)]; congr 1; push_cast; field_simp
  unfold gL2 gU2 gL gU
  rw [harmonic_succ, hl]
  push_cast
  have e : (1 : ℝ) - (1 / (2 * n + 1)) ^ 2 = 4 * n * (n + 1) / (2 * n + 1) ^ 2 := by field_simp; ring
  rw [e] at hs
  have key : (1 / (2 * (n : ℝ) + 1) + (1 / (2 * n + 1)) ^ 3 / 3 + (1 / (2 * n + 1)) ^ 5 / 5 + (1 / (2 * n + 1)) ^ 7 / 7 +
      (1 / (2 * n + 1)) ^ 9 / 9 + (1 / (2 * n + 1)) ^ 11 / (4 * n * (n + 1) / (2 * n + 1) ^ 2)) * 2 ≤
      ((n : ℝ) + 1)⁻¹ + 1 / (2 * n) - 1 / (2 * (n + 1)) - 1 / (12 * n ^ 2) + 1 / (12 * (n + 1) ^ 2)
        + 1 / (120 * n ^ 4) - 1 / (120 * (n + 1) ^ 4) - 1 / (252 * n ^ 6) + 1 / (252 * (n + 1) ^ 6)
        + 1 / (240 * n ^ 8) - 1 / (240 * (n + 1) ^ 8) := by
    rw [← sub_nonneg]
    field_simp
    ring_nf
    positivity
  linarith

theorem tendsto_gU2 : Tendsto gU2 atTop (𝓝 eulerMascheroniConstant) := by
  have h0 : Tendsto (fun n : ℕ => 1 / (n : ℝ)) atTop (𝓝 0) := tendsto_one_div_atTop_nhds_zero_nat
  have h2 : Tendsto (fun n : ℕ => (1 / 252) * ((1 / (n : ℝ)) ^ 6)) atTop (𝓝 ((1 / 252) * 0 ^ 6)) := (h0.pow 6).const_mul _
  have h := tendsto_gL.add h2
  have e : eulerMascheroniConstant + 1 / 252 * 0 ^ 6 = eulerMascheroniConstant := by ring
  rw [e] at h
  refine h.congr (fun n => ?_)
  unfold gU2
  ring

theorem tendsto_gL2 : Tendsto gL2 atTop (𝓝 eulerMascheroniConstant) := by
  have h0 : Tendsto (fun n : ℕ => 1 / (n : ℝ)) atTop (𝓝 0) := tendsto_one_div_atTop_nhds_zero_nat
  have h2 : Tendsto (fun n : ℕ => (1 / 240) * ((1 / (n : ℝ)) ^ 8)) atTop (𝓝 ((1 / 240) * 0 ^ 8)) := (h0.pow 8).const_mul _
  have h := tendsto_gU2.sub h2
  have e : eulerMascheroniConstant - 1 / 240 * 0 ^ 8 = eulerMascheroniConstant := by ring
  rw [e] at h
  refine h.congr (fun n => ?_)
  unfold gL2
  ring

theorem gamma_le2 {n : ℕ} (hn : 1 ≤ n) : eulerMascheroniConstant ≤ gU2 n := by
  refine le_of_tendsto tendsto_gU2 ?_
  filter_upwards [eventually_ge_atTop n] with m hm
  induction m, hm using Nat.le_induction with
  | base => exact le_refl _
  | succ m hm ih => exact le_trans (gU2_anti (le_trans hn hm)) ih

theorem le_gamma2 {n : ℕ} (hn : 1 ≤ n) : gL2 n ≤ eulerMascheroniConstant := by
  refine ge_of_tendsto tendsto_gL2 ?_
  filter_upwards [eventually_ge_atTop n] with m hm
  induction m, hm using Nat.le_induction with
  | base => exact le_refl _
  | succ m hm ih => exact le_trans ih (gL2_mono (le_trans hn hm))

theorem harmonic_128_sharp : (5.43314709258917237 : ℚ) < harmonic 128 ∧ harmonic 128 < 5.43314709258917238 := by
  unfold harmonic
  constructor <;> norm_num [Finset.sum_range_succ]

theorem gamma_sharp : (0.5772156649015327 : ℝ) < eulerMascheroniConstant ∧ eulerMascheroniConstant < (0.5772156649015330 : ℝ) := by
  have hu := gamma_le2 (n := 128) (by norm_num)
  have hl := le_gamma2 (n := 128) (by norm_num)
  unfold gL2 at hl
  unfold gU2 gL gU at hu hl
  rw [log_128] at hu hl
  have a := log_two_gt
  have b := log_two_lt
  have c : ((5.43314709258917237 : ℚ) : ℝ) < harmonic 128 := by exact_mod_cast harmonic_128_sharp.1
  have d : (harmonic 128 : ℝ) < ((5.43314709258917238 : ℚ) : ℝ) := by exact_mod_cast harmonic_128_sharp.2
  norm_num at *
  constructor <;> linarith

end Eirin.RealConst
