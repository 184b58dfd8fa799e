import Verif.Props.Lerp

/-! # Property C194: exponential smoothing -/

namespace Eirin.Props
open Spec

/-- The loop `for(i = 0; i < n; ++i) y = y + (x - y) * a;`. -/
def smooth (F : FxTy) (x a : Int) : Nat → Int → Res Int
  | 0, y => .ok y
  | n + 1, y => do
    let z ← lerp F y x a
    smooth F x a n z

/-- What both directions need of the layout, the target and the factor. -/
structure SmoothOk (F : FxTy) (x a : Int) : Prop where
  valid : F.Valid
  tr : F.r = false
  sx : Storable F x
  sa : Storable F a
  pos : 0 < val F a
  one : val F a ≤ 1

/-- Numbers between zero and a storable number are storable. -/
theorem storable_shrink {F : FxTy} {d e : Int} (hd : Storable F d) (h : (0 ≤ e ∧ e ≤ d) ∨ (d ≤ e ∧ e ≤ 0)) : Storable F e := by
  have h0 := zero_fits F
  have := hd.1; have := hd.2; have := h0.1; have := h0.2
  constructor <;> omega

/-- Numbers between two storable numbers are storable. -/
theorem storable_mid {F : FxTy} {c d e : Int} (hc : Storable F c) (hd : Storable F d) (h1 : c ≤ e) (h2 : e ≤ d) : Storable F e :=
  ⟨hc.1.trans h1, h2.trans hd.2⟩

/-- C194: from above the loop reaches the target exactly, after at most as many steps as there are ulps in between. -/
theorem C194_above (F : FxTy) (x a : Int) (h : SmoothOk F x a) (n : Nat) (y : Int) (hy : Storable F y) (hd : Storable F (x - y)) (hxy : x ≤ y)
    (hn : y - x ≤ n) : smooth F x a n y = .ok x := by
  induction n generalizing y with
  | zero => unfold smooth; congr 1; push_cast at hn; omega
  | succ n ih =>
    obtain ⟨k, e, ⟨f1, -⟩, hk⟩ := lerp_core h.valid h.tr hy h.sx h.sa hd h.pos.le h.one
    have hb : x ≤ y + k ∧ y + k ≤ y ∧ (y ≠ x → k ≤ -1) := by
      refine ⟨by omega, by omega, fun hne => ?_⟩
      have hlt : val F x < val F y := by rw [val_lt]; omega
      have : val F k < 0 := lt_of_le_of_lt f1 (mul_neg_of_neg_of_pos (by linarith) h.pos)
      rw [← val_zero F, val_lt] at this
      omega
    have hk' : y = x → k = 0 := fun hyx => by omega
    unfold smooth
    rw [e, Res.bind_ok]
    refine ih (y + k) (storable_mid h.sx hy hb.1 hb.2.1) (storable_shrink hd (by omega)) hb.1 ?_
    push_cast at hn
    by_cases hyx : y = x
    · have := hk' hyx; omega
    · have := hb.2.2 hyx; omega

/-- C194: near enough below the target the loop stands still. -/
theorem C194_stall (F : FxTy) (x a : Int) (h : SmoothOk F x a) (y : Int) (hy : Storable F y) (hd : Storable F (x - y)) (hyx : y ≤ x)
    (hs : (val F x - val F y) * val F a < ulp F) (n : Nat) : smooth F x a n y = .ok y := by
  induction n with
  | zero => rfl
  | succ n ih =>
    obtain ⟨k, e, ⟨f1, f2⟩, hk⟩ := lerp_core h.valid h.tr hy h.sx h.sa hd h.pos.le h.one
    have k0 : k = 0 := by
      have : val F k < val F 1 := by rw [val_one]; linarith
      rw [val_lt] at this
      omega
    subst k0
    unfold smooth
    rw [e, Res.bind_ok, add_zero, ih]

/-- C194: from below the loop never passes the target, and after at most as many steps as there are ulps in between it stands still at a number whose
distance from the target is less than one ulp divided by the factor. -/
theorem C194_below (F : FxTy) (x a : Int) (h : SmoothOk F x a) (n : Nat) (y : Int) (hy : Storable F y) (hd : Storable F (x - y)) (hyx : y ≤ x)
    (hn : x - y ≤ n) : ∃ z, smooth F x a n y = .ok z ∧ y ≤ z ∧ z ≤ x ∧ (val F x - val F z) * val F a < ulp F ∧ smooth F x a 1 z = .ok z := by
  have last : ∀ z, Storable F z → Storable F (x - z) → z ≤ x → (val F x - val F z) * val F a < ulp F → smooth F x a 1 z = .ok z :=
    fun z h1 h2 h3 h4 => C194_stall F x a h z h1 h2 h3 h4 1
  induction n generalizing y with
  | zero =>
    have e : y = x := by push_cast at hn; omega
    subst e
    have hz : (val F y - val F y) * val F a < ulp F := by rw [sub_self, zero_mul]; exact ulp_pos F
    exact ⟨y, rfl, le_rfl, le_rfl, hz, last y hy hd le_rfl hz⟩
  | succ n ih =>
    by_cases hs : (val F x - val F y) * val F a < ulp F
    · exact ⟨y, C194_stall F x a h y hy hd hyx hs (n + 1), le_rfl, hyx, hs, last y hy hd hyx hs⟩
    · push Not at hs
      obtain ⟨k, e, ⟨f1, f2⟩, hk⟩ := lerp_core h.valid h.tr hy h.sx h.sa hd h.pos.le h.one
      have k1 : 1 ≤ k := by
        have : val F 0 < val F k := by rw [val_zero]; linarith
        rw [val_lt] at this
        omega
      push_cast at hn
      obtain ⟨z, ez, z1, z2, z3, z4⟩ := ih (y + k) (storable_mid hy h.sx (by omega) (by omega)) (storable_shrink hd (by omega)) (by omega) (by omega)
      refine ⟨z, ?_, by omega, z2, z3, z4⟩
      unfold smooth
      rw [e, Res.bind_ok, ez]

example : SmoothOk fixed32 65536 6554 ∧ smooth fixed32 65536 6554 200 0 = .ok 65527 ∧ smooth fixed32 65536 6554 200 131072 = .ok 65536 ∧
    Storable fixed32 (65536 - 131072) := by
  refine ⟨⟨by decide, rfl, by decide, by decide, ?_, ?_⟩, by decide +kernel, by decide +kernel, by decide⟩ <;> norm_num [val, fixed32]

end Eirin.Props
