import Verif.Props.Dot
import Verif.Props.Lerp

/-! # Property C218: compound growth -/

namespace Eirin.Props
open Spec

/-- `for(i = 0; i < n; ++i) x = x * g;`. -/
def grow (F : FxTy) (g : Int) : Nat → Int → Res Int
  | 0, x => .ok x
  | n + 1, x => mul F x g >>= grow F g n

/-- The sum of the powers below `n`. -/
def powerSum (g : ℚ) : Nat → ℚ
  | 0 => 0
  | n + 1 => powerSum g n + g ^ n

/-- C218 (as one would expect it): after `n` multiplications the result is at most `n` ulps off. -/
def C218_statement : Prop :=
  ∀ F : FxTy, F.Valid → F.r = false → ∀ (g x z : Int) (n : Nat), Storable F g → Storable F x → 0 ≤ g → 0 ≤ x →
    (∀ k ≤ n, val F x * val F g ^ k + ulp F ≤ val F F.T.hi) → grow F g n x = .ok z → |val F z - val F x * val F g ^ n| ≤ n * ulp F

/-- C218: the result is never above the exact one; the rounding error of every multiplication grows with the following ones. -/
theorem C218_growth_partial (F : FxTy) (hF : F.Valid) (hr : F.r = false) (g x : Int) (n : Nat) (hg : Storable F g) (hx : Storable F x) (g0 : 0 ≤ g)
    (x0 : 0 ≤ x) (hfit : ∀ k ≤ n, val F x * val F g ^ k + ulp F ≤ val F F.T.hi) :
    ∃ z, grow F g n x = .ok z ∧ 0 ≤ z ∧ val F z ≤ val F x * val F g ^ n ∧ val F x * val F g ^ n ≤ val F z + powerSum (val F g) n * ulp F := by
  have hu := ulp_pos F
  have vg : 0 ≤ val F g := by rw [← val_zero F, val_le]; exact g0
  induction n generalizing x with
  | zero => exact ⟨x, rfl, x0, by simp, by simp [powerSum]⟩
  | succ n ih =>
    have vx : 0 ≤ val F x := by rw [← val_zero F, val_le]; exact x0
    have hxg := mul_nonneg vx vg
    obtain ⟨p, ep, sp, p1, p2⟩ := mul_fit hF hr hx hg (by
      have := hfit 1 (by omega)
      rw [pow_one] at this
      rw [abs_of_nonneg hxg]; exact this)
    have p0 : 0 ≤ p := by
      have : val F 0 < val F (p + 1) := by rw [val_zero, val_add, val_one]; linarith
      rw [val_lt] at this; omega
    have step : ∀ k : Nat, val F p * val F g ^ k ≤ val F x * val F g ^ (k + 1) := fun k => by
      have := mul_le_mul_of_nonneg_right p1 (pow_nonneg vg k)
      rw [pow_succ']; linarith
    obtain ⟨z, ez, z0, z1, z2⟩ := ih p sp p0 fun k hk => by linarith [step k, hfit (k + 1) (by omega)]
    refine ⟨z, by unfold grow; rw [ep, Res.bind_ok, ez], z0, by linarith [step n], ?_⟩
    have := mul_le_mul_of_nonneg_right p2.le (pow_nonneg vg n)
    unfold powerSum
    rw [pow_succ']
    linarith

/-- C218: with a factor of at least 1 and less than 2, one ulp never grows. -/
theorem C218_stuck (F : FxTy) (hF : F.Valid) (hr : F.r = false) (g : Int) (hg : Storable F g) (g1 : 1 ≤ val F g) (g2 : val F g < 2) (n : Nat) :
    grow F g n 1 = .ok 1 := by
  have hu := ulp_pos F
  have v1 : val F (2 ^ F.f) = 1 := by have := val_int F 1; simpa using this
  have hp : (1 : Int) ≤ 2 ^ F.f := by exact_mod_cast Nat.one_le_two_pow
  have hpg : (2 : Int) ^ F.f ≤ g := by rw [← val_le (F := F), v1]; exact g1
  have s1 : Storable F 1 := ⟨(zero_fits F).1.trans (by norm_num), by have := hg.2; omega⟩
  obtain ⟨z, m, e, ⟨h1, h2⟩, -, hz⟩ := C02_mul_floor F hF hr 1 g s1 hg
  rw [val_one] at h1 h2
  have hm : m = 1 := by
    have a1 : val F 1 < val F (m + 1) := by rw [val_add, val_one]; nlinarith
    have a2 : val F m < val F 2 := by
      rw [show (2 : Int) = 1 + 1 by norm_num, val_add, val_one]; nlinarith
    rw [val_lt] at a1 a2
    omega
  subst hm
  rw [hz s1] at e
  induction n with
  | zero => rfl
  | succ n ih => unfold grow; rw [e, Res.bind_ok, ih]

/-- One ulp multiplied by 1.5 four times is still one ulp, instead of five. -/
theorem C218_false : ¬ C218_statement := by
  intro h
  have := h fixed32 (by decide) rfl 98304 1 1 4 (by decide) (by decide) (by norm_num) (by norm_num) (by
    intro k hk
    obtain rfl | rfl | rfl | rfl | rfl : k = 0 ∨ k = 1 ∨ k = 2 ∨ k = 3 ∨ k = 4 := by omega
    all_goals norm_num [val, ulp, fixed32, i32, IntTy.hi]) (by decide +kernel)
  norm_num [val, ulp, fixed32, abs_le] at this

example : grow fixed32 98304 5 65536 = .ok 497664 ∧ grow fixed32 98304 6 196608 = .ok 2239488 ∧ grow fixed32 98304 6 3 = .ok 28 := by decide +kernel

example : powerSum (3 / 2) 4 = 65 / 8 := by norm_num [powerSum]

end Eirin.Props
