import Verif.Props.Growth
import Verif.Props.RoundDot

/-! # Property C220: compound growth in rounding types -/

namespace Eirin.Props
open Spec

/-- C220 (as one would expect it): after `n` multiplications the result is off by at most half an ulp per multiplication, grown by the following ones. -/
def C220_statement : Prop :=
  ∀ F : FxTy, F.Valid → F.r = true → ∀ (g x z : Int) (n : Nat), Storable F g → Storable F x → 0 ≤ g → 0 ≤ x →
    (∀ k ≤ n, val F x * (2 * val F g) ^ k + powerSum (2 * val F g) k * ulp F ≤ val F F.T.hi) → grow F g n x = .ok z →
    |val F z - val F x * val F g ^ n| ≤ powerSum (val F g) n * (ulp F / 2)

/-- C220 (what happens instead): the factor is doubled. The result is the start multiplied by the power of *twice* the factor, up to one ulp per
multiplication, grown by the following ones. -/
theorem C220_growth_partial (F : FxTy) (hF : F.Valid) (hr : F.r = true) (g x : Int) (n : Nat) (hg : Storable F g) (hx : Storable F x) (g0 : 0 ≤ g)
    (x0 : 0 ≤ x) (hfit : ∀ k ≤ n, val F x * (2 * val F g) ^ k + powerSum (2 * val F g) k * ulp F ≤ val F F.T.hi) :
    ∃ z, grow F g n x = .ok z ∧ 0 ≤ z ∧ |val F z - val F x * (2 * val F g) ^ n| ≤ powerSum (2 * val F g) n * ulp F := by
  have hu := ulp_pos F
  have vg : 0 ≤ 2 * val F g := by
    have : 0 ≤ val F g := by rw [← val_zero F, val_le]; exact g0
    linarith
  induction n generalizing x with
  | zero => exact ⟨x, rfl, x0, by simp [powerSum]⟩
  | succ n ih =>
    have vx : 0 ≤ val F x := by rw [← val_zero F, val_le]; exact x0
    have hxg : 0 ≤ val F x * val F g := by nlinarith
    have f1 : 2 * |val F x * val F g| + ulp F ≤ val F F.T.hi := by
      have := hfit 1 (by omega)
      simp only [powerSum, pow_one, pow_zero, zero_add, one_mul] at this
      rw [abs_of_nonneg hxg]; linarith
    obtain ⟨p, ep, sp, hp⟩ := mul_fit_r hF hr hx hg f1
    obtain ⟨p1, p2⟩ := abs_le.1 hp
    have p0 : 0 ≤ p := by
      obtain ⟨z, m, e, hm, hw⟩ := C05_mul_partial F hF hr x g hx hg
      have m0 : 0 ≤ m := by
        obtain ⟨m1, m2⟩ := abs_le.1 hm.1
        have : val F (-1) < val F m := by rw [val_neg, val_one]; linarith
        rw [val_lt] at this; omega
      have v2 : val F (2 * m) = 2 * val F m := by rw [two_mul, val_add, two_mul]
      have sm : Storable F (2 * m) := by
        refine storable_of_abs ?_ fun _ => by omega
        obtain ⟨m1, m2⟩ := abs_le.1 hm.1
        have : 0 ≤ val F m := by rw [← val_zero F, val_le]; exact m0
        rw [abs_of_nonneg hxg] at f1
        rw [v2, abs_of_nonneg (by linarith)]; linarith
      have hz : z = 2 * m := isWrap_unique hF.tpos hw ⟨sm, by simp⟩
      have : p = z := Res.ok.inj (ep.symm.trans e)
      omega
    have up : ∀ k : Nat, val F p * (2 * val F g) ^ k ≤ val F x * (2 * val F g) ^ (k + 1) + (2 * val F g) ^ k * ulp F := fun k => by
      have := mul_le_mul_of_nonneg_right (show val F p ≤ val F x * (2 * val F g) + ulp F by linarith) (pow_nonneg vg k)
      rw [pow_succ']; linarith
    have down : val F x * (2 * val F g) ^ (n + 1) ≤ val F p * (2 * val F g) ^ n + (2 * val F g) ^ n * ulp F := by
      have := mul_le_mul_of_nonneg_right (show val F x * (2 * val F g) ≤ val F p + ulp F by linarith) (pow_nonneg vg n)
      rw [pow_succ']; linarith
    obtain ⟨z, ez, z0, hz⟩ := ih p sp p0 fun k hk => by
      have := hfit (k + 1) (by omega)
      unfold powerSum at this
      linarith [up k]
    obtain ⟨z1, z2⟩ := abs_le.1 hz
    refine ⟨z, by unfold grow; rw [ep, Res.bind_ok, ez], z0, ?_⟩
    have := up n
    conv_rhs => unfold powerSum
    rw [abs_le]
    constructor <;> linarith

/-- One multiplied by one three times is eight. -/
theorem C220_false : ¬ C220_statement := by
  intro h
  have := h fixed32r (by decide) rfl 65536 65536 524288 3 (by decide) (by decide) (by norm_num) (by norm_num) (by
    intro k hk
    obtain rfl | rfl | rfl | rfl : k = 0 ∨ k = 1 ∨ k = 2 ∨ k = 3 := by omega
    all_goals norm_num [powerSum, val, ulp, fixed32r, i32, IntTy.hi]) (by decide +kernel)
  norm_num [powerSum, val, ulp, fixed32r, abs_le] at this

example : grow fixed32r 49152 4 65536 = .ok 331776 ∧ val fixed32r 65536 * (2 * val fixed32r 49152) ^ 4 = val fixed32r 331776 := by
  refine ⟨by decide +kernel, by norm_num [val, fixed32r]⟩

end Eirin.Props
