import Verif.Props.Sums

/-! # Property C190: linear interpolation -/

namespace Eirin.Props
open Spec

/-- The expression `a + (b - a) * t`. -/
def lerp (F : FxTy) (a b t : Int) : Res Int := do
  let d ← sub F b a
  let p ← mul F d t
  add F a p

/-- Zero is storable. -/
theorem zero_fits (F : FxTy) : Storable F 0 := by
  constructor
  · unfold IntTy.lo; split <;> [exact neg_nonpos.2 (by positivity); exact le_rfl]
  · unfold IntTy.hi; split <;> exact sub_nonneg.2 (one_le_pow₀ (by norm_num))

/-- The interpolated value before it is looked at more closely. -/
theorem lerp_core {F : FxTy} (hF : F.Valid) (hr : F.r = false) {a b t : Int} (ha : Storable F a) (hb : Storable F b) (ht : Storable F t)
    (hd : Storable F (b - a)) (t0 : 0 ≤ val F t) (t1 : val F t ≤ 1) :
    ∃ n, lerp F a b t = .ok (a + n) ∧ IsFloor F ((val F b - val F a) * val F t) n ∧ ((0 ≤ n ∧ n ≤ b - a) ∨ (b - a ≤ n ∧ n ≤ 0 ∧ b < a)) := by
  have es : sub F b a = .ok (b - a) := by
    rw [sub_nf hF hb ha, if_neg (fun h => h.2 hd), IntTy.wrap_of_inRange hF.tpos hd]
  obtain ⟨z, n, e, hfl, -, h4⟩ := C02_mul_floor F hF hr (b - a) t hd ht
  have ⟨h1, h2⟩ := hfl
  have hu := ulp_pos F
  have hcase : (0 ≤ n ∧ n ≤ b - a) ∨ (b - a ≤ n ∧ n ≤ 0 ∧ b < a) := by
    rcases le_or_gt 0 (b - a) with h | h
    · left
      have d0 : 0 ≤ val F (b - a) := by rw [← val_zero F, val_le]; exact h
      constructor
      · have : val F (-1) < val F n := by rw [val_neg, val_one]; nlinarith [mul_nonneg d0 t0]
        rw [val_lt] at this; omega
      · rw [← val_le (F := F)]; nlinarith
    · right
      have d0 : val F (b - a) < 0 := by rw [← val_zero F, val_lt]; exact h
      refine ⟨?_, ?_, by omega⟩
      · have : val F (b - a) < val F (n + 1) := by rw [val_add, val_one]; nlinarith
        rw [val_lt] at this; omega
      · rw [← val_le (F := F), val_zero]; nlinarith
  have h0 : F.T.lo ≤ 0 ∧ 0 ≤ F.T.hi := zero_fits F
  have sn : Storable F n := by
    have := hd.1
    have := hd.2
    constructor <;> omega
  have := h4 sn
  subst this
  have ss : Storable F (a + z) := by
    have := ha.1
    have := ha.2
    have := hb.1
    have := hb.2
    constructor <;> omega
  refine ⟨z, ?_, by rwa [val_sub] at hfl, hcase⟩
  unfold lerp
  rw [es, Res.bind_ok, e, Res.bind_ok, add_nf hF ha sn, if_neg (fun h => h.2 ss), IntTy.wrap_of_inRange hF.tpos ss]

/-- C190: on every non-rounding layout `a + (b - a) * t` with `t` between 0 and 1 is defined whenever `b - a` is storable, lies between `a` and
`b`, and is the exact interpolation rounded down. -/
theorem C190_lerp (F : FxTy) (hF : F.Valid) (hr : F.r = false) (a b t : Int) (ha : Storable F a) (hb : Storable F b) (ht : Storable F t)
    (hd : Storable F (b - a)) (t0 : 0 ≤ val F t) (t1 : val F t ≤ 1) :
    ∃ z, lerp F a b t = .ok z ∧ ((a ≤ z ∧ z ≤ b) ∨ (b ≤ z ∧ z ≤ a)) ∧ IsFloor F (val F a + (val F b - val F a) * val F t) z := by
  obtain ⟨n, e, ⟨h1, h2⟩, h⟩ := lerp_core hF hr ha hb ht hd t0 t1
  refine ⟨a + n, e, by omega, ?_, ?_⟩
  · rw [val_add]; linarith
  · rw [val_add]; linarith

/-- C190: the ends of the interval are met exactly. -/
theorem C190_ends (F : FxTy) (hF : F.Valid) (hr : F.r = false) (a b : Int) (ha : Storable F a) (hb : Storable F b) (hd : Storable F (b - a)) :
    lerp F a b 0 = .ok a ∧ (Storable F (2 ^ F.f) → lerp F a b (2 ^ F.f) = .ok b) := by
  have hu := ulp_pos F
  constructor
  · have h0 : Storable F 0 := zero_fits F
    obtain ⟨z, e, -, h1, h2⟩ := C190_lerp F hF hr a b 0 ha hb h0 hd (by rw [val_zero]) (by rw [val_zero]; norm_num)
    rw [val_zero, mul_zero, add_zero] at h1 h2
    rw [val_le] at h1
    rw [← val_one F, ← val_add, val_lt] at h2
    rw [e, show z = a by omega]
  · intro h
    have v1 : val F (2 ^ F.f) = 1 := by unfold val; push_cast; field_simp
    obtain ⟨z, e, -, h1, h2⟩ := C190_lerp F hF hr a b _ ha hb h hd (by rw [v1]; norm_num) (by rw [v1])
    rw [v1, mul_one, add_sub_cancel] at h1 h2
    rw [val_le] at h1
    rw [← val_one F, ← val_add, val_lt] at h2
    rw [e, show z = b by omega]

/-- C190: the interpolation follows `t` in the direction from `a` to `b`. -/
theorem C190_mono (F : FxTy) (hF : F.Valid) (hr : F.r = false) (a b s t : Int) (ha : Storable F a) (hb : Storable F b) (hs : Storable F s)
    (ht : Storable F t) (hd : Storable F (b - a)) (s0 : 0 ≤ val F s) (hst : s ≤ t) (t1 : val F t ≤ 1) :
    ∃ y z, lerp F a b s = .ok y ∧ lerp F a b t = .ok z ∧ (a ≤ b → y ≤ z) ∧ (b ≤ a → z ≤ y) := by
  have hv : val F s ≤ val F t := by rwa [val_le]
  obtain ⟨y, ey, -, y1, y2⟩ := C190_lerp F hF hr a b s ha hb hs hd s0 (hv.trans t1)
  obtain ⟨z, ez, -, z1, z2⟩ := C190_lerp F hF hr a b t ha hb ht hd (s0.trans hv) t1
  refine ⟨y, z, ey, ez, fun h => ?_, fun h => ?_⟩
  · have hab : val F a ≤ val F b := by rwa [val_le]
    have : val F y < val F (z + 1) := by rw [val_add, val_one]; nlinarith
    rw [val_lt] at this; omega
  · have hab : val F b ≤ val F a := by rwa [val_le]
    have : val F z < val F (y + 1) := by rw [val_add, val_one]; nlinarith
    rw [val_lt] at this; omega

example : lerp fixed32 65536 (-131072) 16384 = .ok 16384 ∧ lerp ⟨u8, u16, 4, false⟩ 16 80 8 = .ok 48 ∧ Storable fixed32 (-131072 - 65536) ∧
    0 ≤ val fixed32 16384 ∧ val fixed32 16384 ≤ 1 := by
  refine ⟨by decide +kernel, by decide +kernel, by decide +kernel, by norm_num [val, fixed32], by norm_num [val, fixed32]⟩

/-- C190: the difference must be storable: on an unsigned layout a falling interpolation is wrong, on a signed layout a long one overflows. -/
theorem C190_difference : lerp ⟨u32, u64, 16, false⟩ 131072 65536 32768 = .ok 2147581952 ∧
    lerp fixed32 (-2147483648) 2147483647 32768 = .ub .overflow := by
  constructor <;> decide +kernel

end Eirin.Props
