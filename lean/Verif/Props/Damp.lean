import Verif.Props.Smooth

/-! # Property C197: damping -/

namespace Eirin.Props
open Spec

/-- The loop `for(i = 0; i < n; ++i) y = y * q;`. -/
def damp (F : FxTy) (q : Int) : Nat → Int → Res Int
  | 0, y => .ok y
  | n + 1, y => do
    let z ← mul F y q
    damp F q n z

/-- What is needed of the layout and the factor. -/
structure DampOk (F : FxTy) (q : Int) : Prop where
  valid : F.Valid
  tr : F.r = false
  sq : Storable F q
  pos : 0 < val F q
  one : val F q < 1

/-- One step. -/
theorem damp_core {F : FxTy} {q : Int} (h : DampOk F q) {y : Int} (hy : Storable F y) :
    ∃ z, mul F y q = .ok z ∧ Storable F z ∧ IsFloor F (val F y * val F q) z ∧ (0 ≤ y → 0 ≤ z) ∧ (0 < y → z < y) ∧ (y < 0 → y ≤ z ∧ z < 0) := by
  obtain ⟨z, n, e, hfl, -, h4⟩ := C02_mul_floor F h.valid h.tr y q hy h.sq
  have ⟨f1, f2⟩ := hfl
  have hu := ulp_pos F
  have hq0 := h.pos
  have hq1 := h.one
  have p1 : 0 ≤ y → 0 ≤ n := fun hy0 => by
    have : 0 ≤ val F y := by rw [← val_zero F, val_le]; exact hy0
    have : val F (-1) < val F n := by rw [val_neg, val_one]; nlinarith [mul_nonneg this hq0.le]
    rw [val_lt] at this; omega
  have p2 : 0 < y → n < y := fun hy0 => by
    have hv : 0 < val F y := by rw [← val_zero F, val_lt]; exact hy0
    have : val F n < val F y := lt_of_le_of_lt f1 (by nlinarith)
    rwa [val_lt] at this
  have p3 : y < 0 → y ≤ n ∧ n < 0 := fun hy0 => by
    have hv : val F y < 0 := by rw [← val_zero F, val_lt]; exact hy0
    constructor
    · have : val F y < val F (n + 1) := by rw [val_add, val_one]; nlinarith
      rw [val_lt] at this; omega
    · have : val F n < 0 := lt_of_le_of_lt f1 (mul_neg_of_neg_of_pos hv hq0)
      rwa [← val_zero F, val_lt] at this
  have p4 : y = 0 → n = 0 := fun hy0 => by
    rw [hy0, val_zero, zero_mul] at f1 f2
    rw [← val_zero F, val_le] at f1
    have : val F 0 < val F (n + 1) := by rw [val_zero, val_add, val_one]; linarith
    rw [val_lt] at this; omega
  have sn : Storable F n := storable_shrink hy (by omega)
  have := h4 sn
  subst this
  exact ⟨z, e, sn, hfl, p1, p2, p3⟩

/-- C197: a non-negative number reaches zero exactly, after at most as many steps as it has ulps, and stays there. -/
theorem C197_positive (F : FxTy) (q : Int) (h : DampOk F q) (n : Nat) (y : Int) (hy : Storable F y) (h0 : 0 ≤ y) (hn : y ≤ n) : damp F q n y = .ok 0 := by
  induction n generalizing y with
  | zero => unfold damp; congr 1; push_cast at hn; omega
  | succ n ih =>
    obtain ⟨z, e, sz, ⟨f1, -⟩, p1, p2, -⟩ := damp_core h hy
    unfold damp
    rw [e, Res.bind_ok]
    push_cast at hn
    refine ih z sz (p1 h0) ?_
    rcases eq_or_lt_of_le h0 with h00 | h00
    · rw [← h00, val_zero, zero_mul, ← val_zero F, val_le] at f1
      omega
    · have := p2 h00
      omega

/-- C197: a negative number small enough stands still. -/
theorem C197_stall (F : FxTy) (q : Int) (h : DampOk F q) (y : Int) (hy : Storable F y) (h0 : y < 0) (hs : -val F y * (1 - val F q) < ulp F) (n : Nat) :
    damp F q n y = .ok y := by
  induction n with
  | zero => rfl
  | succ n ih =>
    obtain ⟨z, e, sz, ⟨f1, -⟩, -, -, p3⟩ := damp_core h hy
    have : val F z < val F (y + 1) := by rw [val_add, val_one]; nlinarith
    rw [val_lt] at this
    have := p3 h0
    have ze : z = y := by omega
    unfold damp
    rw [e, Res.bind_ok, ze, ih]

/-- C197: a negative number never reaches zero: it grows for at most as many steps as it has ulps and then stands still at a number of absolute value
less than one ulp divided by one minus the factor. -/
theorem C197_negative (F : FxTy) (q : Int) (h : DampOk F q) (n : Nat) (y : Int) (hy : Storable F y) (h0 : y < 0) (hn : -y ≤ n) :
    ∃ z, damp F q n y = .ok z ∧ y ≤ z ∧ z < 0 ∧ -val F z * (1 - val F q) < ulp F ∧ damp F q 1 z = .ok z := by
  induction n generalizing y with
  | zero => push_cast at hn; omega
  | succ n ih =>
    by_cases hs : -val F y * (1 - val F q) < ulp F
    · exact ⟨y, C197_stall F q h y hy h0 hs (n + 1), le_rfl, h0, hs, C197_stall F q h y hy h0 hs 1⟩
    · push Not at hs
      obtain ⟨z, e, sz, ⟨-, f2⟩, -, -, p3⟩ := damp_core h hy
      have : val F y < val F z := by nlinarith
      rw [val_lt] at this
      push_cast at hn
      obtain ⟨p3a, p3b⟩ := p3 h0
      obtain ⟨w, ew, w1, w2, w3, w4⟩ := ih z sz p3b (by omega)
      refine ⟨w, ?_, by omega, w2, w3, w4⟩
      unfold damp
      rw [e, Res.bind_ok, ew]

example : DampOk fixed32 64881 ∧ damp fixed32 64881 2000 (10 * 65536) = .ok 0 ∧ damp fixed32 64881 2000 (-10 * 65536) = .ok (-100) := by
  refine ⟨⟨by decide, rfl, by decide, ?_, ?_⟩, by decide +kernel, by decide +kernel⟩ <;> norm_num [val, fixed32]

end Eirin.Props
