import Verif.Props.SqrtAll

/-! # C134: squaring and `sqrt` -/

namespace Eirin.Props
open Spec

/-- C134 (as one would expect it): `sqrt(x * x)` is `|x|`. -/
def C134_statement : Prop :=
  ∀ x m r, Storable fixed32 x → Representable fixed32 (val fixed32 m) → mul fixed32 x x = .ok m → sqrt fixed32 m = .ok r → val fixed32 x ^ 2 < 2 ^ 15 →
    val fixed32 r = |val fixed32 x|

/-- It is false: the product is rounded down before the root is taken: `x = 1 + ulp` gives 1. -/
theorem C134_false : ¬ C134_statement := by
  intro h
  have := h 65537 65538 65536 (by decide) (representable_iff.2 (by decide)) (by decide +kernel) (by decide +kernel) (by norm_num [val, fixed32])
  norm_num [val, fixed32] at this

/-- The square as the multiplication computes it. -/
theorem square_floor {F : FxTy} (hF : F.Valid) (hr : F.r = false) {x : Int} (hx : Storable F x) (hs : F.T.signed = true)
    (hfit : val F x ^ 2 < 2 ^ (F.T.bits - 1 - F.f)) (hb : F.f + 1 ≤ F.T.bits) :
    ∃ m, mul F x x = .ok m ∧ Storable F m ∧ 0 ≤ val F m ∧ val F m ≤ val F x ^ 2 ∧ val F x ^ 2 < val F m + ulp F := by
  obtain ⟨z, n, h1, ⟨h2, h3⟩, -, h4⟩ := C02_mul_floor F hF hr x x hx hx
  rw [← pow_two] at h2 h3
  have hu := ulp_pos F
  have n0 : 0 ≤ n := by
    by_contra hc
    have : val F n ≤ -ulp F := by
      rw [← val_one, ← val_neg, val_le]; omega
    have := sq_nonneg (val F x)
    linarith
  have hnS : Storable F n := by
    have h5 : val F n < 2 ^ (F.T.bits - 1 - F.f) := lt_of_le_of_lt h2 hfit
    unfold val at h5
    rw [div_lt_iff₀ (by positivity), ← pow_add, show F.T.bits - 1 - F.f + F.f = F.T.bits - 1 by omega] at h5
    have h6 : n < 2 ^ (F.T.bits - 1) := by exact_mod_cast h5
    have e : F.T.hi = 2 ^ (F.T.bits - 1) - 1 := by unfold IntTy.hi; simp [hs]
    have e2 : F.T.lo = -(2 ^ (F.T.bits - 1)) := by unfold IntTy.lo; simp [hs]
    have : (0 : Int) < 2 ^ (F.T.bits - 1) := by positivity
    exact ⟨by omega, by omega⟩
  rw [h4 hnS] at h1
  exact ⟨n, h1, hnS, by rw [← val_zero F, val_le]; exact n0, h2, h3⟩

/-- From the two inequalities on the root to the distance from `|x|`. -/
theorem root_lower {v r m u : ℚ} (hu : 0 < u) (_hv : 0 ≤ v) (r0 : 0 ≤ r) (h1 : v ^ 2 < m + u) (h2 : m < (r + u) ^ 2) (hhalf : 1 / 2 + u ≤ v) : v - 2 * u < r := by
  by_contra hc
  push Not at hc
  have : (r + u) ^ 2 ≤ (v - u) ^ 2 := pow_le_pow_left₀ (by linarith) (by linarith) 2
  nlinarith

/-- C134 (what holds for `fixed32`): wherever the square fits, `sqrt(x * x)` is defined, never above `|x|`, and equal to it exactly when the square is a
multiple of the ulp; above one half it is at most one ulp below. -/
theorem C134_sqrt_square_partial (x : Int) (hx : Storable fixed32 x) (hfit : val fixed32 x ^ 2 < 2 ^ 15) :
    ∃ m r, mul fixed32 x x = .ok m ∧ sqrt fixed32 m = .ok r ∧ val fixed32 r ≤ |val fixed32 x| ∧
      (val fixed32 r = |val fixed32 x| ↔ Representable fixed32 (val fixed32 x ^ 2)) ∧
      val fixed32 x ^ 2 - ulp fixed32 < (val fixed32 r + ulp fixed32) ^ 2 ∧
      (1 / 2 < |val fixed32 x| → |val fixed32 x| - ulp fixed32 ≤ val fixed32 r) := by
  obtain ⟨m, em, mS, m0, m1, m2⟩ := square_floor (F := fixed32) (by decide) rfl hx rfl hfit (by decide)
  obtain ⟨r, er, rS, r0, r1, r2, r3⟩ := C28_sqrt m mS m0
  have hu := ulp_pos fixed32
  have habs : val fixed32 |x| = |val fixed32 x| := by
    unfold val; push_cast; rw [abs_div, abs_of_pos (by positivity : (0 : ℚ) < 2 ^ fixed32.f)]
  have hsq := sq_abs (val fixed32 x)
  have up : val fixed32 r ≤ |val fixed32 x| := by
    have : val fixed32 r ^ 2 ≤ |val fixed32 x| ^ 2 := by linarith
    exact le_of_sq_le_sq this (abs_nonneg _)
  refine ⟨m, r, em, er, up, ⟨fun h => ?_, fun h => ?_⟩, by linarith, fun h => ?_⟩
  · rw [h, hsq] at r1
    have : val fixed32 m = val fixed32 x ^ 2 := le_antisymm m1 r1
    rw [← this]; exact representable_iff.2 mS
  · obtain ⟨n, hn, hnv⟩ := h
    have e : n = m := by
      have a1 : val fixed32 m ≤ val fixed32 n := by rw [hnv]; exact m1
      have a2 : val fixed32 n < val fixed32 (m + 1) := by rw [val_add, val_one, hnv]; exact m2
      rw [val_le] at a1; rw [val_lt] at a2; omega
    subst e
    have := r3 |x| (by rw [habs, hsq, hnv])
    rw [habs] at this
    exact le_antisymm up this
  · have grid : 1 / 2 + ulp fixed32 ≤ |val fixed32 x| := by
      have e : (1 / 2 : ℚ) = val fixed32 32768 := by norm_num [val, fixed32]
      rw [← habs, e, val_lt] at h
      rw [← habs, e, ← val_one, ← val_add, val_le]; omega
    have := root_lower hu (abs_nonneg _) r0 (by rw [hsq]; exact m2) r2 grid
    have h2 : val fixed32 (|x| - 2) < val fixed32 r := by
      rw [val_sub, habs, show (2 : Int) = 1 + 1 by norm_num, val_add, val_one]; linarith
    rw [val_lt] at h2
    rw [← habs, ← val_one, ← val_sub, val_le]; omega

/-- C134 (what holds for `fixed32`): the square of the root falls short of the number by less than two roots' ulps and a bit. -/
theorem C134_square_sqrt_partial (x : Int) (hx : Storable fixed32 x) (h0 : 0 ≤ val fixed32 x) :
    ∃ r q, sqrt fixed32 x = .ok r ∧ mul fixed32 r r = .ok q ∧ val fixed32 q ≤ val fixed32 x ∧
      val fixed32 x - (2 * val fixed32 r + 1 + ulp fixed32) * ulp fixed32 < val fixed32 q := by
  obtain ⟨r, er, rS, r0, r1, r2, r3⟩ := C28_sqrt x hx h0
  have hxlt : val fixed32 x < 2 ^ 15 := by
    unfold val
    rw [div_lt_iff₀ (by positivity)]
    have := (of_in32 hx).2
    have : (x : ℚ) < ((2 ^ 31 : Int) : ℚ) := by exact_mod_cast this
    norm_num [fixed32] at this ⊢; exact this
  obtain ⟨m, em, mS, m0, m1, m2⟩ := square_floor (F := fixed32) (by decide) rfl rS rfl (lt_of_le_of_lt r1 hxlt) (by decide)
  refine ⟨r, m, er, em, by linarith, ?_⟩
  nlinarith

/-- C134 (what holds on the 64-bit layouts): wherever the square is in the domain of C112, `sqrt(x * x)` is defined and at least `|x| - ulp` (above
one half); it is above `|x|` only if Newton's loop was left early, by less than `5/65536` in the square. -/
theorem C134_newton_partial (f : Nat) (hf0 : 0 < f) (hf1 : f ≤ 61) (x : Int) (hx : Storable (L64 f) x) (hfit : val (L64 f) x ^ 2 < 91 / 100 * 2 ^ (63 - f))
    (hpos : ulp (L64 f) ≤ val (L64 f) x ^ 2) :
    ∃ m r, mul (L64 f) x x = .ok m ∧ sqrt (L64 f) m = .ok r ∧ Storable (L64 f) r ∧
      (val (L64 f) r ≤ |val (L64 f) x| ∨ val (L64 f) r ^ 2 < val (L64 f) x ^ 2 + 5 / 65536) ∧
      (1 / 2 < |val (L64 f) x| → |val (L64 f) x| - ulp (L64 f) ≤ val (L64 f) r) := by
  have hu := ulp_pos (L64 f)
  have hF := (sw_L64 hf0 (by omega : f ≤ 62)).valid
  have p63 : (0 : ℚ) < 2 ^ (63 - f) := by positivity
  obtain ⟨m, em, mS, m0, m1, m2⟩ := square_floor (F := L64 f) hF rfl hx rfl
    (by show _ < (2 : ℚ) ^ (64 - 1 - f); rw [show 64 - 1 - f = 63 - f by omega]; linarith) (by show f + 1 ≤ 64; omega)
  have mpos : 0 < val (L64 f) m := by linarith
  obtain ⟨r, er, rS, r0, r1, r2⟩ := C112_sqrt f hf0 (by omega) m mS mpos (fun _ => by linarith) (fun h => by omega)
  have hsq := sq_abs (val (L64 f) x)
  have habs : val (L64 f) |x| = |val (L64 f) x| := by
    unfold val; push_cast; rw [abs_div, abs_of_pos (by positivity : (0 : ℚ) < 2 ^ (L64 f).f)]
  refine ⟨m, r, em, er, rS, ?_, fun h => ?_⟩
  · rcases r2 with h | h
    · right; rw [abs_lt] at h; linarith
    · left
      have hv := abs_nonneg (val (L64 f) x)
      by_contra hc
      push Not at hc
      have h1 : |val (L64 f) x| + ulp (L64 f) ≤ val (L64 f) r := by
        rw [← habs, val_lt] at hc
        rw [← habs, ← val_one, ← val_add, val_le]; omega
      have : (|val (L64 f) x| + ulp (L64 f) / 2) ^ 2 ≤ (val (L64 f) r - ulp (L64 f) / 2) ^ 2 := pow_le_pow_left₀ (by linarith) (by linarith) 2
      nlinarith
  · have e : (1 / 2 : ℚ) = val (L64 f) (2 ^ (f - 1)) := by
      unfold val
      push_cast
      rw [eq_div_iff (by positivity)]
      show 1 / 2 * (2 : ℚ) ^ f = _
      obtain ⟨k, rfl⟩ : ∃ k, f = k + 1 := ⟨f - 1, by omega⟩
      rw [pow_succ, Nat.add_sub_cancel]; ring
    have grid : 1 / 2 + ulp (L64 f) ≤ |val (L64 f) x| := by
      rw [← habs, e, val_lt] at h
      rw [← habs, e, ← val_one, ← val_add, val_le]; omega
    have := root_lower hu (abs_nonneg _) r0 (by rw [hsq]; exact m2) r1 grid
    have h2 : val (L64 f) (|x| - 2) < val (L64 f) r := by
      rw [val_sub, habs, show (2 : Int) = 1 + 1 by norm_num, val_add, val_one]; linarith
    rw [val_lt] at h2
    rw [← habs, ← val_one, ← val_sub, val_le]; omega

example : mul fixed32 (-196608) (-196608) = .ok 589824 ∧ sqrt fixed32 589824 = .ok 196608 ∧ val fixed32 (-196608) ^ 2 < 2 ^ 15 ∧
    mul fixed64 (3 * 2 ^ 31) (3 * 2 ^ 31) = .ok (9 * 2 ^ 30) ∧ sqrt fixed64 (9 * 2 ^ 30) = .ok (3 * 2 ^ 31) ∧ mul fixed32 100 100 = .ok 0 := by
  refine ⟨by decide +kernel, by decide +kernel, ?_, by decide +kernel, by decide +kernel, by decide +kernel⟩
  norm_num [val, fixed32]

end Eirin.Props
