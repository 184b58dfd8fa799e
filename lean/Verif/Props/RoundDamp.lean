import Verif.Props.Damp
import Verif.Props.RoundPowNeg

/-! # Property C208: damping in rounding types -/

namespace Eirin.Props
open Spec

/-- C208 as one would expect it from C197: a non-negative number reaches zero after at most as many steps as it has ulps. -/
def C208_statement : Prop :=
  ∀ F : FxTy, F.Valid → F.r = true → ∀ q, Storable F q → 0 < val F q → val F q ≤ 1 / 2 → ∀ (n : Nat) (y : Int), Storable F y → 0 ≤ y → y ≤ n →
    damp F q n y = .ok 0

/-- C208 (what happens instead): with a factor of one half an even number of ulps stays what it is, for ever. -/
theorem C208_half_partial (F : FxTy) (hF : F.Valid) (hr : F.r = true) (q : Int) (hq : Storable F q) (h2 : val F q = 1 / 2) (y : Int) (hy : Storable F y)
    (he : 2 ∣ y) (n : Nat) : damp F q n y = .ok y := by
  obtain ⟨m, rfl⟩ := he
  have step : mul F (2 * m) q = .ok (2 * m) := by
    obtain ⟨z, k, e, hn, hw⟩ := C05_mul_partial F hF hr _ _ hy hq
    have hk : k = m := nearest_self (by rw [two_mul, val_add, h2]; ring) hn
    subst hk
    rw [e, isWrap_unique hF.tpos hw ⟨hy, by simp⟩]
  induction n with
  | zero => rfl
  | succ n ih => unfold damp; rw [step, Res.bind_ok, ih]

/-- C208 (what happens instead): with any factor between a quarter and a half, a positive even number of ulps never falls below two ulps. -/
theorem C208_stall_partial (F : FxTy) (hF : F.Valid) (hr : F.r = true) (q : Int) (hq : Storable F q) (h1 : 1 / 4 ≤ val F q) (h2 : val F q ≤ 1 / 2)
    (n : Nat) (y : Int) (hy : Storable F y) (he : 2 ∣ y) (h0 : 2 ≤ y) : ∃ z, damp F q n y = .ok z ∧ Storable F z ∧ 2 ≤ z ∧ z ≤ y := by
  induction n generalizing y with
  | zero => exact ⟨y, rfl, hy, h0, le_rfl⟩
  | succ n ih =>
    obtain ⟨m, rfl⟩ := he
    obtain ⟨w, k, e, hn, hw⟩ := C05_mul_partial F hF hr _ _ hy hq
    have hu := ulp_pos F
    have hm1 : 1 ≤ m := by omega
    have hv : val F (2 * m) = 2 * val F m := by rw [two_mul, val_add, two_mul]
    have hm : ulp F ≤ val F m := by rw [← val_one F, val_le]; exact hm1
    rw [hv] at hn
    have lo : ulp F / 2 ≤ 2 * val F m * val F q := by nlinarith
    have hi : 2 * val F m * val F q ≤ val F m := by nlinarith
    obtain ⟨a, b⟩ := abs_le.1 hn.1
    have k1 : 1 ≤ k := by
      by_contra hc
      have hk0 : k ≤ 0 := by omega
      have hkv : val F k ≤ 0 := by rw [← val_zero F, val_le]; exact hk0
      have hke : val F k = 0 := by linarith
      have := hn.2 (by rw [hke, sub_zero, abs_of_nonneg (by linarith)]; linarith)
      rw [hke, abs_zero] at this
      exact absurd this (not_lt.2 (abs_nonneg _))
    have k2 : k ≤ m := by
      have : val F k < val F (m + 1) := by rw [val_add, val_one]; linarith
      rw [val_lt] at this; omega
    have sk : Storable F (2 * k) := storable_shrink hy (by omega)
    have : w = 2 * k := isWrap_unique hF.tpos hw ⟨sk, by simp⟩
    subst this
    obtain ⟨z, ez, s1, s2, s3⟩ := ih (2 * k) sk ⟨k, rfl⟩ (by omega)
    exact ⟨z, by unfold damp; rw [e, Res.bind_ok, ez], s1, s2, by omega⟩

example : mul fixed32r 65536 32768 = .ok 65536 ∧ mul fixed32r 2 16384 = .ok 2 ∧ damp fixed32r 16385 20 65536 = .ok 2 ∧ damp fixed32 32768 20 65536 = .ok 0 := by
  decide +kernel

/-- C208 is false of the code: half of two ulps of the rounding variant of `fixed32` is two ulps. -/
theorem C208_false : ¬ C208_statement := by
  intro h
  have h1 := h fixed32r (by decide) rfl 32768 (by decide) (by norm_num [val, fixed32r]) (by norm_num [val, fixed32r]) 2 2 (by decide) (by norm_num) (by norm_num)
  rw [C208_half_partial fixed32r (by decide) rfl 32768 (by decide) (by norm_num [val, fixed32r]) 2 (by decide) ⟨1, rfl⟩ 2] at h1
  exact absurd (Res.ok.inj h1) (by norm_num)

end Eirin.Props
