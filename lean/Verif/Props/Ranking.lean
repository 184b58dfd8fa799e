import Verif.Props.RoundOrient

/-! # Property C221: the order of computed products and quotients -/

namespace Eirin.Props
open Spec

theorem floor_lt {F : FxTy} {p q : ℚ} {m n : Int} (hm : IsFloor F p m) (hn : IsFloor F q n) (h : n < m) : q < p := by
  have : val F (n + 1) ≤ val F m := by rw [val_le]; omega
  rw [val_add, val_one] at this
  linarith [hm.1, hn.2]

theorem trunc_lt {F : FxTy} {p q : ℚ} {m n : Int} (hm : IsTrunc F p m) (hn : IsTrunc F q n) (h : n < m) : q < p := by
  have hv : val F (n + 1) ≤ val F m := by rw [val_le]; omega
  rw [val_add, val_one] at hv
  have hu := ulp_pos F
  rcases lt_or_ge p 0 with hp | hp <;> rcases lt_or_ge q 0 with hq | hq
  · have := hm.2 hp; have := hn.2 hq; linarith
  · have := hm.2 hp; have := hn.1 hq; linarith
  · linarith
  · have := hm.1 hp; have := hn.1 hq; linarith

theorem trunc_fit {F : FxTy} (hF : F.Valid) (hr : F.r = false) (hs : F.T.signed = true) {x y : Int} (hx : Storable F x) (hy : y ≠ 0)
    (hfit : |val F x / val F y| ≤ val F F.T.hi) : ∃ n, div F x y = .ok n ∧ IsTrunc F (val F x / val F y) n := by
  obtain ⟨z, n, e, ht, -, h4⟩ := (C03_div_trunc F hF hr x y hx).2 hy
  have sn : Storable F n := by
    refine storable_of_abs ?_ (fun h => by rw [hs] at h; cases h)
    obtain ⟨m1, m2⟩ := abs_le.1 hfit
    rcases lt_or_ge (val F x / val F y) 0 with h | h
    · have := ht.2 h; rw [abs_le]; constructor <;> linarith
    · have := ht.1 h; rw [abs_le]; constructor <;> linarith
  rw [h4 sn] at e
  exact ⟨n, e, ht⟩

theorem nearest_div_fit {F : FxTy} (hF : F.Valid) (hr : F.r = true) (hf : F.f + 2 ≤ F.T.bits) (hs : F.T.signed = true) {x y : Int} (hx : Storable F x)
    (hy : y ≠ 0) (hfit : 2 * |val F x / val F y| + ulp F ≤ val F F.T.hi) : ∃ n, div F x y = .ok (2 * n) ∧ IsNearest F (val F x / val F y) n := by
  obtain ⟨z, n, e, hn, hw⟩ := (C05_div_partial F hF hr hf x y hx).2 hy
  have v2 : val F (2 * n) = 2 * val F n := by rw [two_mul, val_add, two_mul]
  have sn : Storable F (2 * n) := by
    refine storable_of_abs ?_ (fun h => by rw [hs] at h; cases h)
    obtain ⟨m1, m2⟩ := abs_le.1 (le_refl |val F x / val F y|)
    obtain ⟨n1, n2⟩ := abs_le.1 hn.1
    rw [v2, abs_le]; constructor <;> linarith
  have : z = 2 * n := isWrap_unique hF.tpos hw ⟨sn, by simp⟩
  rw [this] at e
  exact ⟨n, e, hn⟩

/-- Computed numbers `z`, `w` for the exact `p`, `q`: their order is never wrong, and equal exact numbers are computed equally. -/
def Ranks (z w : Int) (p q : ℚ) : Prop := (z < w → p < q) ∧ (w < z → q < p) ∧ (p = q → z = w)

theorem ranks_of_lt {z w : Int} {p q : ℚ} (h1 : z < w → p < q) (h2 : w < z → q < p) : Ranks z w p q := by
  refine ⟨h1, h2, fun h => ?_⟩
  rcases lt_trichotomy z w with h' | h' | h'
  · have := h1 h'; linarith
  · exact h'
  · have := h2 h'; linarith

/-- C221: two computed products are never in the wrong order. -/
theorem C221_products (F : FxTy) (hF : F.Valid) (hs : F.T.signed = true) (x y u v : Int) (hx : Storable F x) (hy : Storable F y) (hu : Storable F u)
    (hv : Storable F v) (h1 : 2 * |val F x * val F y| + ulp F ≤ val F F.T.hi) (h2 : 2 * |val F u * val F v| + ulp F ≤ val F F.T.hi) :
    ∃ z w, mul F x y = .ok z ∧ mul F u v = .ok w ∧ Ranks z w (val F x * val F y) (val F u * val F v) := by
  have n1 := abs_nonneg (val F x * val F y)
  have n2 := abs_nonneg (val F u * val F v)
  cases hr : F.r
  · obtain ⟨m, em, -, fm⟩ := floor_fit hF hr hs hx hy (by linarith)
    obtain ⟨n, en, -, fn⟩ := floor_fit hF hr hs hu hv (by linarith)
    exact ⟨m, n, em, en, ranks_of_lt (floor_lt fn fm) (floor_lt fm fn)⟩
  · obtain ⟨m, em, -, fm⟩ := nearest_fit hF hr hs hx hy h1
    obtain ⟨n, en, -, fn⟩ := nearest_fit hF hr hs hu hv h2
    exact ⟨2 * m, 2 * n, em, en, ranks_of_lt (fun h => nearest_lt fn fm (by omega)) (fun h => nearest_lt fm fn (by omega))⟩

/-- C221: two computed quotients are never in the wrong order. -/
theorem C221_quotients (F : FxTy) (hF : F.Valid) (hs : F.T.signed = true) (hf : F.f + 2 ≤ F.T.bits) (x y u v : Int) (hx : Storable F x) (hy : y ≠ 0)
    (hu : Storable F u) (hv : v ≠ 0) (h1 : 2 * |val F x / val F y| + ulp F ≤ val F F.T.hi) (h2 : 2 * |val F u / val F v| + ulp F ≤ val F F.T.hi) :
    ∃ z w, div F x y = .ok z ∧ div F u v = .ok w ∧ Ranks z w (val F x / val F y) (val F u / val F v) := by
  have n1 := abs_nonneg (val F x / val F y)
  have n2 := abs_nonneg (val F u / val F v)
  have hp := ulp_pos F
  cases hr : F.r
  · obtain ⟨m, em, fm⟩ := trunc_fit hF hr hs hx hy (by linarith)
    obtain ⟨n, en, fn⟩ := trunc_fit hF hr hs hu hv (by linarith)
    exact ⟨m, n, em, en, ranks_of_lt (trunc_lt fn fm) (trunc_lt fm fn)⟩
  · obtain ⟨m, em, fm⟩ := nearest_div_fit hF hr hf hs hx hy h1
    obtain ⟨n, en, fn⟩ := nearest_div_fit hF hr hf hs hu hv h2
    exact ⟨2 * m, 2 * n, em, en, ranks_of_lt (fun h => nearest_lt fn fm (by omega)) (fun h => nearest_lt fm fn (by omega))⟩

/-- C221: comparing two fractions with positive denominators by cross multiplication is never wrong. -/
theorem C221_cross (F : FxTy) (hF : F.Valid) (hs : F.T.signed = true) (a b c d : Int) (ha : Storable F a) (hb : Storable F b) (hc : Storable F c)
    (hd : Storable F d) (b0 : 0 < b) (d0 : 0 < d) (h1 : 2 * |val F a * val F d| + ulp F ≤ val F F.T.hi)
    (h2 : 2 * |val F c * val F b| + ulp F ≤ val F F.T.hi) :
    ∃ z w, mul F a d = .ok z ∧ mul F c b = .ok w ∧ Ranks z w (val F a / val F b) (val F c / val F d) := by
  obtain ⟨z, w, ez, ew, r1, r2, r3⟩ := C221_products F hF hs a d c b ha hd hc hb h1 h2
  have vb : 0 < val F b := by rw [← val_zero F, val_lt]; exact b0
  have vd : 0 < val F d := by rw [← val_zero F, val_lt]; exact d0
  refine ⟨z, w, ez, ew, ranks_of_lt (fun h => ?_) (fun h => ?_)⟩
  · rw [div_lt_div_iff₀ vb vd]; exact r1 h
  · rw [div_lt_div_iff₀ vd vb]; exact r2 h

example : mul fixed32 65537 65537 = .ok 65538 ∧ mul fixed32 65536 65538 = .ok 65538 ∧ mul fixed32r 300 400 = .ok 4 ∧ mul fixed32r 300 600 = .ok 6 ∧
    div fixed32 65536 (3 * 65536) = .ok 21845 ∧ div fixed32 (-65536) (3 * 65536) = .ok (-21845) := by decide +kernel

/-- C221: different products may be computed as equal. -/
theorem C221_tie : mul fixed32 65537 65537 = mul fixed32 65536 65538 ∧ val fixed32 65536 * val fixed32 65538 < val fixed32 65537 * val fixed32 65537 := by
  refine ⟨by decide +kernel, by norm_num [val, fixed32]⟩

end Eirin.Props
