import Verif.Props.Orient
import Verif.Props.RoundDot

/-! # Property C212: determinants and the orientation of three points in rounding types -/

namespace Eirin.Props
open Spec

theorem nearest_lt {F : FxTy} {p q : ℚ} {m n : Int} (hm : IsNearest F p m) (hn : IsNearest F q n) (h : n < m) : q < p := by
  have hu := ulp_pos F
  have hle : val F n + ulp F ≤ val F m := by
    have : val F (n + 1) ≤ val F m := by rw [val_le]; omega
    rw [val_add, val_one] at this; exact this
  obtain ⟨m1, m2⟩ := hm
  obtain ⟨n1, n2⟩ := hn
  obtain ⟨a1, a2⟩ := abs_le.1 m1
  obtain ⟨b1, b2⟩ := abs_le.1 n1
  by_contra hc
  have hq : q = val F n + ulp F / 2 := by linarith
  have hp : p = val F n + ulp F / 2 := by linarith
  have hv : val F m = val F n + ulp F := by linarith
  have t1 := n2 (by rw [hq, add_sub_cancel_left, abs_of_pos (by linarith)])
  have t2 := m2 (by rw [hp, hv, show val F n + ulp F / 2 - (val F n + ulp F) = -(ulp F / 2) by ring, abs_neg, abs_of_pos (by linarith)])
  rw [hq] at t1
  rw [hp, hv] at t2
  rcases lt_or_ge n 0 with h0 | h0
  · have : val F (n + 1) ≤ val F 0 := by rw [val_le]; omega
    rw [val_add, val_one, val_zero] at this
    rw [abs_of_nonpos this, abs_of_nonpos (by linarith)] at t2
    linarith
  · have : val F 0 ≤ val F n := by rw [val_le]; exact h0
    rw [val_zero] at this
    rw [abs_of_nonneg this, abs_of_nonneg (by linarith)] at t1
    linarith

theorem nearest_eq {F : FxTy} {q : ℚ} {m n : Int} (hm : IsNearest F q m) (hn : IsNearest F q n) : m = n := by
  rcases lt_trichotomy m n with h | h | h
  · exact absurd (nearest_lt hn hm h) (lt_irrefl _)
  · exact h
  · exact absurd (nearest_lt hm hn h) (lt_irrefl _)

/-- What is needed for a determinant of a rounding type: the operands are storable, and twice both products and their difference fit with two ulps to
spare. -/
structure DetFitsR (F : FxTy) (a b c d : Int) : Prop where
  sa : Storable F a
  sb : Storable F b
  sc : Storable F c
  sd : Storable F d
  fit : 2 * |val F a * val F d| + 2 * |val F b * val F c| + 2 * ulp F ≤ val F F.T.hi

theorem nearest_fit {F : FxTy} (hF : F.Valid) (hr : F.r = true) (hs : F.T.signed = true) {x y : Int} (hx : Storable F x) (hy : Storable F y)
    (hfit : 2 * |val F x * val F y| + ulp F ≤ val F F.T.hi) : ∃ n, mul F x y = .ok (2 * n) ∧ Storable F (2 * n) ∧ IsNearest F (val F x * val F y) n := by
  obtain ⟨z, n, e, hn, hw⟩ := C05_mul_partial F hF hr x y hx hy
  have v2 : val F (2 * n) = 2 * val F n := by rw [two_mul, val_add, two_mul]
  have sn : Storable F (2 * n) := by
    refine storable_of_abs ?_ (fun h => by rw [hs] at h; cases h)
    obtain ⟨m1, m2⟩ := abs_le.1 (le_refl |val F x * val F y|)
    obtain ⟨n1, n2⟩ := abs_le.1 hn.1
    rw [v2, abs_le]; constructor <;> linarith
  have : z = 2 * n := isWrap_unique hF.tpos hw ⟨sn, by simp⟩
  rw [this] at e
  exact ⟨n, e, sn, hn⟩

theorem detR_core {F : FxTy} (hF : F.Valid) (hr : F.r = true) (hs : F.T.signed = true) {a b c d : Int} (h : DetFitsR F a b c d) :
    ∃ m n, det2 F a b c d = .ok (2 * (m - n)) ∧ Storable F (2 * (m - n)) ∧ IsNearest F (val F a * val F d) m ∧ IsNearest F (val F b * val F c) n := by
  have hu := ulp_pos F
  have n1 := abs_nonneg (val F a * val F d)
  have n2 := abs_nonneg (val F b * val F c)
  obtain ⟨m, em, sm, fm⟩ := nearest_fit hF hr hs h.sa h.sd (by linarith [h.fit])
  obtain ⟨n, en, sn, fn⟩ := nearest_fit hF hr hs h.sb h.sc (by linarith [h.fit])
  have hmn : 2 * m - 2 * n = 2 * (m - n) := by ring
  have v2 : val F (2 * (m - n)) = 2 * (val F m - val F n) := by rw [two_mul, val_add, val_sub, two_mul]
  have st : Storable F (2 * (m - n)) := by
    refine storable_of_abs ?_ (fun h => by rw [hs] at h; cases h)
    obtain ⟨a1, a2⟩ := abs_le.1 (le_refl |val F a * val F d|)
    obtain ⟨b1, b2⟩ := abs_le.1 (le_refl |val F b * val F c|)
    obtain ⟨c1, c2⟩ := abs_le.1 fm.1
    obtain ⟨d1, d2⟩ := abs_le.1 fn.1
    have := h.fit
    rw [v2, abs_le]; constructor <;> linarith
  refine ⟨m, n, ?_, st, fm, fn⟩
  unfold det2
  rw [em, Res.bind_ok, en, Res.bind_ok, sub_storable hF sm sn (by rw [hmn]; exact st), hmn]

/-- C212: the computed determinant is at most two ulps away from twice the exact one; its sign is never wrong, and an exact zero is computed as zero. -/
theorem C212_det (F : FxTy) (hF : F.Valid) (hr : F.r = true) (hs : F.T.signed = true) (a b c d : Int) (h : DetFitsR F a b c d) :
    ∃ r, det2 F a b c d = .ok r ∧ Storable F r ∧ |val F r - 2 * (val F a * val F d - val F b * val F c)| ≤ 2 * ulp F ∧
      (0 < r → 0 < val F a * val F d - val F b * val F c) ∧ (r < 0 → val F a * val F d - val F b * val F c < 0) ∧
      (val F a * val F d - val F b * val F c = 0 → r = 0) := by
  obtain ⟨m, n, e, st, fm, fn⟩ := detR_core hF hr hs h
  refine ⟨_, e, st, ?_, fun hp => ?_, fun hn => ?_, fun h0 => ?_⟩
  · obtain ⟨c1, c2⟩ := abs_le.1 fm.1
    obtain ⟨d1, d2⟩ := abs_le.1 fn.1
    rw [two_mul (m - n), val_add, val_sub, abs_le]; constructor <;> linarith
  · have := nearest_lt fm fn (by omega); linarith
  · have := nearest_lt fn fm (by omega); linarith
  · have hq : val F a * val F d = val F b * val F c := by linarith
    rw [← hq] at fn
    have := nearest_eq fm fn
    omega

/-- C212: exchanging the rows changes the sign exactly. -/
theorem C212_swap (F : FxTy) (hF : F.Valid) (hr : F.r = true) (hs : F.T.signed = true) (a b c d : Int) (h : DetFitsR F a b c d) :
    ∃ r, det2 F a b c d = .ok r ∧ det2 F c d a b = .ok (-r) := by
  obtain ⟨m, n, e, -, fm, fn⟩ := detR_core hF hr hs h
  obtain ⟨m', n', e', -, fm', fn'⟩ := detR_core hF hr hs (a := c) (b := d) (c := a) (d := b) ⟨h.sc, h.sd, h.sa, h.sb, by
    rw [mul_comm (val F c), mul_comm (val F d)]; linarith [h.fit]⟩
  rw [mul_comm] at fm' fn'
  rw [nearest_eq fm' fn, nearest_eq fn' fm] at e'
  exact ⟨_, e, by rw [e']; congr 1; ring⟩

/-- C212: the turn of three points whose differences are storable is never reported with the wrong sign, and points on a line are reported as such. -/
theorem C212_orient (F : FxTy) (hF : F.Valid) (hr : F.r = true) (hs : F.T.signed = true) (px py qx qy rx ry : Int)
    (s1 : Storable F px) (s2 : Storable F py) (s3 : Storable F qx) (s4 : Storable F qy) (s5 : Storable F rx) (s6 : Storable F ry)
    (h : DetFitsR F (qx - px) (qy - py) (rx - px) (ry - py)) :
    ∃ r, orient F px py qx qy rx ry = .ok r ∧
      (0 < r → 0 < (val F qx - val F px) * (val F ry - val F py) - (val F qy - val F py) * (val F rx - val F px)) ∧
      (r < 0 → (val F qx - val F px) * (val F ry - val F py) - (val F qy - val F py) * (val F rx - val F px) < 0) ∧
      ((val F qx - val F px) * (val F ry - val F py) - (val F qy - val F py) * (val F rx - val F px) = 0 → r = 0) := by
  obtain ⟨r, e, -, -, h1, h2, h3⟩ := C212_det F hF hr hs _ _ _ _ h
  rw [val_sub, val_sub, val_sub, val_sub] at h1 h2 h3
  refine ⟨r, ?_, h1, h2, h3⟩
  unfold orient
  rw [sub_storable hF s3 s1 h.sa, Res.bind_ok, sub_storable hF s6 s2 h.sd, Res.bind_ok, sub_storable hF s4 s2 h.sb, Res.bind_ok,
    sub_storable hF s5 s1 h.sc, Res.bind_ok, e]

example : orient fixed32r 0 0 65536 1 131072 2 = .ok 0 ∧ orient fixed32r 0 0 65536 0 65536 3 = .ok 6 ∧ orient fixed32r 0 0 65536 3 65536 0 = .ok (-6) := by
  decide +kernel

example : DetFitsR fixed32r 65536 0 65536 3 := ⟨by decide, by decide, by decide, by decide, by norm_num [val, ulp, fixed32r, i32, IntTy.hi]⟩

/-- C212: the value itself is twice the determinant: for the unit square it is two. -/
theorem C212_doubled : det2 fixed32r 65536 0 0 65536 = .ok 131072 ∧ val fixed32r 131072 = 2 ∧
    val fixed32r 65536 * val fixed32r 65536 - val fixed32r 0 * val fixed32r 0 = 1 := by
  refine ⟨by decide +kernel, by norm_num [val, fixed32r], by norm_num [val, fixed32r]⟩

end Eirin.Props
