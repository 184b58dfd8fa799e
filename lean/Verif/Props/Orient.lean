import Verif.Props.Bisect
import Verif.Props.Dot

/-! # Property C210: determinants and the orientation of three points -/

namespace Eirin.Props
open Spec

/-- The expression `a * d - b * c`. -/
def det2 (F : FxTy) (a b c d : Int) : Res Int := do
  let p ← mul F a d
  let q ← mul F b c
  sub F p q

/-- The turn of three points: `(qx - px) * (ry - py) - (qy - py) * (rx - px)`. -/
def orient (F : FxTy) (px py qx qy rx ry : Int) : Res Int := do
  let a ← sub F qx px
  let d ← sub F ry py
  let b ← sub F qy py
  let c ← sub F rx px
  det2 F a b c d

/-- What is needed for a determinant: the operands are storable, and both products and their difference fit with one ulp to spare. -/
structure DetFits (F : FxTy) (a b c d : Int) : Prop where
  sa : Storable F a
  sb : Storable F b
  sc : Storable F c
  sd : Storable F d
  fit : |val F a * val F d| + |val F b * val F c| + ulp F ≤ val F F.T.hi

theorem floor_fit {F : FxTy} (hF : F.Valid) (hr : F.r = false) (hs : F.T.signed = true) {x y : Int} (hx : Storable F x) (hy : Storable F y)
    (hfit : |val F x * val F y| + ulp F ≤ val F F.T.hi) : ∃ n, mul F x y = .ok n ∧ Storable F n ∧ IsFloor F (val F x * val F y) n := by
  obtain ⟨z, n, e, hfl, -, h4⟩ := C02_mul_floor F hF hr x y hx hy
  have sn : Storable F n := by
    refine storable_of_abs ?_ (fun h => by rw [hs] at h; cases h)
    obtain ⟨m1, m2⟩ := abs_le.1 (le_refl |val F x * val F y|)
    have := hfl.1; have := hfl.2; have := ulp_pos F
    rw [abs_le]; constructor <;> linarith
  rw [h4 sn] at e
  exact ⟨n, e, sn, hfl⟩

theorem floor_eq {F : FxTy} {q : ℚ} {m n : Int} (hm : IsFloor F q m) (hn : IsFloor F q n) : m = n := by
  have h1 : val F m < val F (n + 1) := by rw [val_add, val_one]; linarith [hm.1, hn.2]
  have h2 : val F n < val F (m + 1) := by rw [val_add, val_one]; linarith [hn.1, hm.2]
  rw [val_lt] at h1 h2
  omega

theorem det_core {F : FxTy} (hF : F.Valid) (hr : F.r = false) (hs : F.T.signed = true) {a b c d : Int} (h : DetFits F a b c d) :
    ∃ m n, det2 F a b c d = .ok (m - n) ∧ Storable F (m - n) ∧ IsFloor F (val F a * val F d) m ∧ IsFloor F (val F b * val F c) n := by
  have hu := ulp_pos F
  have n1 := abs_nonneg (val F a * val F d)
  have n2 := abs_nonneg (val F b * val F c)
  obtain ⟨m, em, sm, fm⟩ := floor_fit hF hr hs h.sa h.sd (by linarith [h.fit])
  obtain ⟨n, en, sn, fn⟩ := floor_fit hF hr hs h.sb h.sc (by linarith [h.fit])
  have st : Storable F (m - n) := by
    refine storable_of_abs ?_ (fun h => by rw [hs] at h; cases h)
    obtain ⟨a1, a2⟩ := abs_le.1 (le_refl |val F a * val F d|)
    obtain ⟨b1, b2⟩ := abs_le.1 (le_refl |val F b * val F c|)
    have := fm.1; have := fm.2; have := fn.1; have := fn.2; have := h.fit
    rw [val_sub, abs_le]; constructor <;> linarith
  exact ⟨m, n, by unfold det2; rw [em, Res.bind_ok, en, Res.bind_ok, sub_storable hF sm sn st], st, fm, fn⟩

/-- C210: the computed determinant is less than one ulp away from the exact one; its sign is never wrong, and an exact zero is computed as zero. -/
theorem C210_det (F : FxTy) (hF : F.Valid) (hr : F.r = false) (hs : F.T.signed = true) (a b c d : Int) (h : DetFits F a b c d) :
    ∃ r, det2 F a b c d = .ok r ∧ Storable F r ∧ |val F r - (val F a * val F d - val F b * val F c)| < ulp F ∧
      (0 < r → 0 < val F a * val F d - val F b * val F c) ∧ (r < 0 → val F a * val F d - val F b * val F c < 0) ∧
      (val F a * val F d - val F b * val F c = 0 → r = 0) := by
  obtain ⟨m, n, e, st, ⟨m1, m2⟩, ⟨n1, n2⟩⟩ := det_core hF hr hs h
  refine ⟨m - n, e, st, ?_, fun hp => ?_, fun hn => ?_, fun h0 => ?_⟩
  · rw [val_sub, abs_lt]; constructor <;> linarith
  · have : val F (n + 1) ≤ val F m := by rw [val_le]; omega
    rw [val_add, val_one] at this; linarith
  · have : val F (m + 1) ≤ val F n := by rw [val_le]; omega
    rw [val_add, val_one] at this; linarith
  · have hq : val F a * val F d = val F b * val F c := by linarith
    have := floor_eq (F := F) (q := val F a * val F d) ⟨m1, m2⟩ (by rw [hq]; exact ⟨n1, n2⟩)
    omega

/-- C210: exchanging the rows changes the sign exactly. -/
theorem C210_swap (F : FxTy) (hF : F.Valid) (hr : F.r = false) (hs : F.T.signed = true) (a b c d : Int) (h : DetFits F a b c d) :
    ∃ r, det2 F a b c d = .ok r ∧ det2 F c d a b = .ok (-r) := by
  obtain ⟨m, n, e, -, fm, fn⟩ := det_core hF hr hs h
  obtain ⟨m', n', e', -, fm', fn'⟩ := det_core hF hr hs (a := c) (b := d) (c := a) (d := b) ⟨h.sc, h.sd, h.sa, h.sb, by
    rw [mul_comm (val F c), mul_comm (val F d)]; linarith [h.fit]⟩
  rw [mul_comm] at fm' fn'
  rw [floor_eq fm' fn, floor_eq fn' fm] at e'
  exact ⟨m - n, e, by rw [e']; congr 1; ring⟩

/-- C210: the turn of three points whose differences are storable is never reported with the wrong sign, and points on a line are reported as such. -/
theorem C210_orient (F : FxTy) (hF : F.Valid) (hr : F.r = false) (hs : F.T.signed = true) (px py qx qy rx ry : Int)
    (s1 : Storable F px) (s2 : Storable F py) (s3 : Storable F qx) (s4 : Storable F qy) (s5 : Storable F rx) (s6 : Storable F ry)
    (h : DetFits F (qx - px) (qy - py) (rx - px) (ry - py)) :
    ∃ r, orient F px py qx qy rx ry = .ok r ∧
      (0 < r → 0 < (val F qx - val F px) * (val F ry - val F py) - (val F qy - val F py) * (val F rx - val F px)) ∧
      (r < 0 → (val F qx - val F px) * (val F ry - val F py) - (val F qy - val F py) * (val F rx - val F px) < 0) ∧
      ((val F qx - val F px) * (val F ry - val F py) - (val F qy - val F py) * (val F rx - val F px) = 0 → r = 0) := by
  obtain ⟨r, e, -, -, h1, h2, h3⟩ := C210_det F hF hr hs _ _ _ _ h
  rw [val_sub, val_sub, val_sub, val_sub] at h1 h2 h3
  refine ⟨r, ?_, h1, h2, h3⟩
  unfold orient
  rw [sub_storable hF s3 s1 h.sa, Res.bind_ok, sub_storable hF s6 s2 h.sd, Res.bind_ok, sub_storable hF s4 s2 h.sb, Res.bind_ok,
    sub_storable hF s5 s1 h.sc, Res.bind_ok, e]

example : orient fixed32 0 0 65536 1 131072 2 = .ok 0 ∧ orient fixed32 0 0 65536 0 65536 3 = .ok 3 ∧ orient fixed32 0 0 65536 3 65536 0 = .ok (-3) := by
  decide +kernel

example : DetFits fixed32 65536 0 65536 3 := ⟨by decide, by decide, by decide, by decide, by norm_num [val, ulp, fixed32, i32, IntTy.hi]⟩

/-- C210: a small turn may be reported as none: the sign is lost, but not reversed. -/
theorem C210_lost : orient fixed32 0 0 100 0 100 100 = .ok 0 ∧ 0 < (val fixed32 100 - val fixed32 0) * (val fixed32 100 - val fixed32 0) := by
  refine ⟨by decide +kernel, by norm_num [val, fixed32]⟩

end Eirin.Props
