import Verif.Lemmas.Poly
import Mathlib.Analysis.SpecialFunctions.Trigonometric.Deriv
import Mathlib.Analysis.Calculus.Deriv.MeanValue
import Mathlib.Analysis.Calculus.Deriv.Add
import Mathlib.Analysis.Calculus.Deriv.Pow

/-! # Taylor bounds for sine, cosine. -/

namespace Eirin.Trig
open Finset

/-- A function with non-negative derivative that vanishes at `0` is non-negative on `[0, ∞)`. -/
theorem nonneg_of_deriv (f f' : ℝ → ℝ) (h0 : f 0 = 0) (hd : ∀ y, HasDerivAt f (f' y) y) (hp : ∀ y, 0 ≤ y → 0 ≤ f' y) :
    ∀ y, 0 ≤ y → 0 ≤ f y := by
  intro y hy
  have hm : MonotoneOn f (Set.Ici 0) := by
    apply monotoneOn_of_deriv_nonneg (convex_Ici 0)
    · exact fun x _ => (hd x).continuousAt.continuousWithinAt
    · exact fun x _ => (hd x).differentiableAt.differentiableWithinAt
    · intro x hx
      rw [interior_Ici] at hx
      rw [(hd x).deriv]
      exact hp x (le_of_lt hx)
  have := hm (Set.mem_Ici.2 le_rfl) (Set.mem_Ici.2 hy) hy
  rwa [h0] at this

/-- Taylor polynomials. -/
noncomputable def sinS (n : Nat) (y : ℝ) : ℝ := ∑ k ∈ range n, (-1) ^ k * (y ^ (2 * k + 1) / (2 * k + 1).factorial)
noncomputable def cosS (n : Nat) (y : ℝ) : ℝ := ∑ k ∈ range n, (-1) ^ k * (y ^ (2 * k) / (2 * k).factorial)

theorem sinS_deriv (n : Nat) (y : ℝ) : HasDerivAt (sinS n) (cosS n y) y := by
  unfold sinS cosS
  have : (fun y : ℝ => ∑ k ∈ range n, (-1) ^ k * (y ^ (2 * k + 1) / ((2 * k + 1).factorial : ℝ))) =
    ∑ k ∈ range n, fun y : ℝ => (-1) ^ k * (y ^ (2 * k + 1) / ((2 * k + 1).factorial : ℝ)) := by
    funext z; simp
  rw [this]
  refine HasDerivAt.sum (fun k _ => ?_)
  have h := ((hasDerivAt_pow (2 * k + 1) y).div_const ((2 * k + 1).factorial : ℝ)).const_mul ((-1 : ℝ) ^ k)
  refine h.congr_deriv ?_
  rw [Nat.factorial_succ]
  have : ((2 * k).factorial : ℝ) ≠ 0 := by positivity
  have h2 : ((2 * k + 1 : ℕ) : ℝ) ≠ 0 := by positivity
  push_cast at h2 ⊢
  field_simp

theorem cosS_deriv (n : Nat) (y : ℝ) : HasDerivAt (cosS (n + 1)) (-sinS n y) y := by
  unfold sinS cosS
  have : (fun y : ℝ => ∑ k ∈ range (n + 1), (-1) ^ k * (y ^ (2 * k) / ((2 * k).factorial : ℝ))) =
    fun y => (∑ k ∈ range n, (-1) ^ (k + 1) * (y ^ (2 * k + 2) / ((2 * k + 2).factorial : ℝ))) + 1 := by
    funext z; rw [sum_range_succ']; simp [Nat.mul_add]
  rw [this]
  refine HasDerivAt.add_const 1 ?_
  have : (fun y : ℝ => ∑ k ∈ range n, (-1) ^ (k + 1) * (y ^ (2 * k + 2) / ((2 * k + 2).factorial : ℝ))) =
    ∑ k ∈ range n, fun y : ℝ => (-1) ^ (k + 1) * (y ^ (2 * k + 2) / ((2 * k + 2).factorial : ℝ)) := by
    funext z; simp
  rw [this, ← sum_neg_distrib]
  refine HasDerivAt.sum (fun k _ => ?_)
  have h := ((hasDerivAt_pow (2 * k + 2) y).div_const ((2 * k + 2).factorial : ℝ)).const_mul ((-1 : ℝ) ^ (k + 1))
  refine h.congr_deriv ?_
  rw [show 2 * k + 2 = (2 * k + 1) + 1 by ring, Nat.factorial_succ (2 * k + 1)]
  have : ((2 * k + 1).factorial : ℝ) ≠ 0 := by positivity
  have h2 : ((2 * k + 1 + 1 : ℕ) : ℝ) ≠ 0 := by positivity
  push_cast at h2 ⊢
  simp only [pow_succ (-1 : ℝ) k]
  field_simp

theorem taylor (n : Nat) : (∀ y : ℝ, 0 ≤ y → 0 ≤ (-1) ^ (n + 1) * (Real.cos y - cosS (n + 1) y)) ∧
    (∀ y : ℝ, 0 ≤ y → 0 ≤ (-1) ^ (n + 1) * (Real.sin y - sinS (n + 1) y)) := by
  have step : ∀ n : Nat, (∀ y : ℝ, 0 ≤ y → 0 ≤ (-1) ^ (n + 1) * (Real.cos y - cosS (n + 1) y)) →
      (∀ y : ℝ, 0 ≤ y → 0 ≤ (-1) ^ (n + 1) * (Real.sin y - sinS (n + 1) y)) := by
    intro n h
    refine nonneg_of_deriv _ (fun y => (-1) ^ (n + 1) * (Real.cos y - cosS (n + 1) y)) ?_ ?_ h
    · simp [sinS]
    · intro y; exact ((Real.hasDerivAt_sin y).sub (sinS_deriv (n + 1) y)).const_mul _
  induction n with
  | zero =>
    have : (∀ y : ℝ, 0 ≤ y → 0 ≤ (-1) ^ (0 + 1) * (Real.cos y - cosS (0 + 1) y)) := by
      intro y _; simp [cosS]; exact Real.cos_le_one y
    exact ⟨this, step 0 this⟩
  | succ n ih =>
    have : (∀ y : ℝ, 0 ≤ y → 0 ≤ (-1) ^ (n + 1 + 1) * (Real.cos y - cosS (n + 1 + 1) y)) := by
      refine nonneg_of_deriv _ (fun y => (-1) ^ (n + 1 + 1) * (-Real.sin y - -sinS (n + 1) y)) ?_ ?_ ?_
      · simp only [cosS, sum_range_succ' _ (n + 1)]; simp
      · intro y; exact ((Real.hasDerivAt_cos y).sub (cosS_deriv (n + 1) y)).const_mul _
      · intro y hy
        have := ih.2 y hy
        rw [pow_succ]; linarith
    exact ⟨this, step (n + 1) this⟩

/-- The degree-9 Taylor polynomial of sine is accurate to `y^11 / 11!` for `y ≥ 0`. -/
theorem sin_taylor9 (y : ℝ) (hy : 0 ≤ y) :
    Real.sin y ≤ y - y ^ 3 / 6 + y ^ 5 / 120 - y ^ 7 / 5040 + y ^ 9 / 362880 ∧
    y - y ^ 3 / 6 + y ^ 5 / 120 - y ^ 7 / 5040 + y ^ 9 / 362880 - y ^ 11 / 39916800 ≤ Real.sin y := by
  have h1 := (taylor 4).2 y hy
  have h2 := (taylor 5).2 y hy
  simp only [sinS, sum_range_succ, sum_range_zero] at h1 h2
  norm_num [Nat.factorial] at h1 h2
  constructor <;> linarith

end Eirin.Trig
