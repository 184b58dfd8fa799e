import Verif.Model.Fixed
import Mathlib.Algebra.Order.Field.Rat
import Mathlib.Algebra.Order.Ring.Abs
import Mathlib.Algebra.Order.AbsoluteValue.Basic
import Mathlib.Tactic.FieldSimp
import Mathlib.Tactic.GCongr

/-!
# Specification vocabulary

Everything here is independent of the model functions: what number a raw value denotes, and what it means for a raw
value to be the exact / floored / truncated / nearest representation of a rational number.
-/

namespace Eirin.Spec

/-- The rational number denoted by the stored integer `x` in type `F`. -/
def val (F : FxTy) (x : Int) : ℚ := (x : ℚ) / 2 ^ F.f

/-- One unit in the last place of type `F`. -/
def ulp (F : FxTy) : ℚ := 1 / 2 ^ F.f

/-- `x` is a storable value of type `F`. -/
def Storable (F : FxTy) (x : Int) : Prop := F.T.InRange x

/-- The number `q` has a representation in `F`. -/
def Representable (F : FxTy) (q : ℚ) : Prop := ∃ x, Storable F x ∧ val F x = q

/-- `n` (an unbounded multiple of one ulp) is the largest one not exceeding `q`. -/
def IsFloor (F : FxTy) (q : ℚ) (n : Int) : Prop := val F n ≤ q ∧ q < val F n + ulp F

/-- `n` is `q` truncated toward zero to a multiple of one ulp. -/
def IsTrunc (F : FxTy) (q : ℚ) (n : Int) : Prop :=
  (0 ≤ q → 0 ≤ val F n ∧ val F n ≤ q ∧ q < val F n + ulp F) ∧
  (q < 0 → val F n ≤ 0 ∧ q ≤ val F n ∧ val F n - ulp F < q)

/-- `n` is `q` rounded to the nearest multiple of one ulp, ties away from zero. -/
def IsNearest (F : FxTy) (q : ℚ) (n : Int) : Prop :=
  |q - val F n| ≤ ulp F / 2 ∧ (|q - val F n| = ulp F / 2 → |q| < |val F n|)

/-- `z` is `n` reduced modulo the storage size into the storage range. -/
def IsWrap (F : FxTy) (n z : Int) : Prop := Storable F z ∧ (2 : Int) ^ F.T.bits ∣ n - z

/-- `x` denotes an integer. -/
def Integral (F : FxTy) (x : Int) : Prop := ∃ k : Int, val F x = k

/-- Signed storage of at least `int` width (so that arithmetic is not promoted to a wider type). -/
def SignedWide (F : FxTy) : Prop := F.T.signed = true ∧ 32 ≤ F.T.bits

instance (F : FxTy) : Decidable (SignedWide F) := by unfold SignedWide; infer_instance
instance (F : FxTy) (x : Int) : Decidable (Storable F x) := by unfold Storable; infer_instance

/-! ### The vocabulary is functional: these relations determine their result -/

theorem ulp_pos (F : FxTy) : 0 < ulp F := by unfold ulp; positivity

theorem val_inj {F : FxTy} {x y : Int} (h : val F x = val F y) : x = y := by
  unfold val at h
  have hp : (0 : ℚ) < 2 ^ F.f := by positivity
  have := (div_left_inj' (ne_of_gt hp)).1 h
  exact_mod_cast this

theorem val_le {F : FxTy} {x y : Int} : val F x ≤ val F y ↔ x ≤ y := by
  unfold val
  have hp : (0 : ℚ) < 2 ^ F.f := by positivity
  rw [div_le_div_iff_of_pos_right hp]; exact_mod_cast Iff.rfl

theorem val_lt {F : FxTy} {x y : Int} : val F x < val F y ↔ x < y := by
  unfold val
  have hp : (0 : ℚ) < 2 ^ F.f := by positivity
  rw [div_lt_div_iff_of_pos_right hp]; exact_mod_cast Iff.rfl

theorem val_add (F : FxTy) (x y : Int) : val F (x + y) = val F x + val F y := by
  unfold val; push_cast; ring

theorem val_sub (F : FxTy) (x y : Int) : val F (x - y) = val F x - val F y := by
  unfold val; push_cast; ring

theorem val_neg (F : FxTy) (x : Int) : val F (-x) = - val F x := by
  unfold val; push_cast; ring

theorem val_one (F : FxTy) : val F 1 = ulp F := by unfold val ulp; norm_num

theorem val_zero (F : FxTy) : val F 0 = 0 := by unfold val; norm_num

theorem val_int (F : FxTy) (k : Int) : val F (k * 2 ^ F.f) = k := by
  unfold val
  have hp : (2 : ℚ) ^ F.f ≠ 0 := by positivity
  push_cast; field_simp

theorem isFloor_unique {F : FxTy} {q : ℚ} {m n : Int} (hm : IsFloor F q m) (hn : IsFloor F q n) : m = n := by
  have h1 : val F m < val F (n + 1) := by rw [val_add, val_one]; exact lt_of_le_of_lt hm.1 hn.2
  have h2 : val F n < val F (m + 1) := by rw [val_add, val_one]; exact lt_of_le_of_lt hn.1 hm.2
  rw [val_lt] at h1 h2; omega

theorem isTrunc_unique {F : FxTy} {q : ℚ} {m n : Int} (hm : IsTrunc F q m) (hn : IsTrunc F q n) : m = n := by
  rcases le_or_gt 0 q with h | h
  · exact isFloor_unique (hm.1 h).2 (hn.1 h).2
  · obtain ⟨_, a, b⟩ := hm.2 h
    obtain ⟨_, c, d⟩ := hn.2 h
    have h1 : val F (m - 1) < val F n := by rw [val_sub, val_one]; linarith
    have h2 : val F (n - 1) < val F m := by rw [val_sub, val_one]; linarith
    rw [val_lt] at h1 h2; omega

theorem isWrap_unique {F : FxTy} {n z w : Int} (hb : 0 < F.T.bits) (hz : IsWrap F n z) (hw : IsWrap F n w) : z = w := by
  obtain ⟨⟨a1, a2⟩, a3⟩ := hz
  obtain ⟨⟨b1, b2⟩, b3⟩ := hw
  have hd : (2 : Int) ^ F.T.bits ∣ z - w := by
    have := Int.dvd_sub b3 a3
    have e : n - w - (n - z) = z - w := by ring
    rwa [e] at this
  have hr : F.T.hi - F.T.lo < 2 ^ F.T.bits := by
    unfold IntTy.hi IntTy.lo
    have := IntTy.two_pow_pred F.T.bits hb
    split <;> omega
  obtain ⟨k, hk⟩ := hd
  have hp : (0 : Int) < 2 ^ F.T.bits := by positivity
  have : k = 0 := by
    by_contra hne
    rcases lt_or_gt_of_ne hne with h | h
    · nlinarith
    · nlinarith
  subst this; simp at hk; omega

end Eirin.Spec
