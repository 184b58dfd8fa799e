import Verif.Props.Bezier

/-! # Property C223: bilinear interpolation -/

namespace Eirin.Props
open Spec

/-- `lerp(lerp(a, b, s), lerp(c, d, s), t)`. -/
def bilinear (F : FxTy) (a b c d s t : Int) : Res Int := do
  let p ← lerp F a b s
  let q ← lerp F c d s
  lerp F p q t

/-- The exact bilinear interpolation. -/
def exactBilinear (a b c d s t : ℚ) : ℚ := (1 - s) * (1 - t) * a + s * (1 - t) * b + (1 - s) * t * c + s * t * d

/-- C223: with both parameters between 0 and 1 the result is defined, lies between the smallest and the largest corner, and is never above the exact value
and less than two ulps below it. -/
theorem C223_value (F : FxTy) (hF : F.Valid) (hr : F.r = false) (lo hi a b c d s t : Int) (h : Spread F lo hi) (ha : lo ≤ a ∧ a ≤ hi)
    (hb : lo ≤ b ∧ b ≤ hi) (hc : lo ≤ c ∧ c ≤ hi) (hd : lo ≤ d ∧ d ≤ hi) (ss : Storable F s) (st : Storable F t) (s0 : 0 ≤ val F s)
    (s1 : val F s ≤ 1) (t0 : 0 ≤ val F t) (t1 : val F t ≤ 1) :
    ∃ z, bilinear F a b c d s t = .ok z ∧ lo ≤ z ∧ z ≤ hi ∧ val F z ≤ exactBilinear (val F a) (val F b) (val F c) (val F d) (val F s) (val F t) ∧
      exactBilinear (val F a) (val F b) (val F c) (val F d) (val F s) (val F t) < val F z + 2 * ulp F := by
  have hu := ulp_pos F
  have st' : ∀ {x : Int}, lo ≤ x ∧ x ≤ hi → Storable F x := fun hx => storable_mid h.sl h.sh hx.1 hx.2
  have sd' : ∀ {x y : Int}, lo ≤ x ∧ x ≤ hi → lo ≤ y ∧ y ≤ hi → Storable F (y - x) := fun hx hy =>
    storable_mid h.down h.up (by omega) (by omega)
  obtain ⟨p, ep, hp, p1, p2⟩ := C190_lerp F hF hr a b s (st' ha) (st' hb) ss (sd' ha hb) s0 s1
  obtain ⟨q, eq, hq, q1, q2⟩ := C190_lerp F hF hr c d s (st' hc) (st' hd) ss (sd' hc hd) s0 s1
  have hp' : lo ≤ p ∧ p ≤ hi := by omega
  have hq' : lo ≤ q ∧ q ≤ hi := by omega
  obtain ⟨z, ez, hz, z1, z2⟩ := C190_lerp F hF hr p q t (st' hp') (st' hq') st (sd' hp' hq') t0 t1
  have w : exactBilinear (val F a) (val F b) (val F c) (val F d) (val F s) (val F t) =
      (val F a + (val F b - val F a) * val F s) * (1 - val F t) + (val F c + (val F d - val F c) * val F s) * val F t := by
    unfold exactBilinear; ring
  refine ⟨z, by unfold bilinear; rw [ep, Res.bind_ok, eq, Res.bind_ok, ez], by omega, by omega, ?_, ?_⟩
  · have h1 := mul_le_mul_of_nonneg_right p1 (show 0 ≤ 1 - val F t by linarith)
    have h2 := mul_le_mul_of_nonneg_right q1 t0
    rw [w]; linarith
  · have h1 := mul_le_mul_of_nonneg_right p2.le (show 0 ≤ 1 - val F t by linarith)
    have h2 := mul_le_mul_of_nonneg_right q2.le t0
    rw [w]; linarith

/-- C223: the corners are exact. -/
theorem C223_corners (F : FxTy) (hF : F.Valid) (hr : F.r = false) (h1 : Storable F (2 ^ F.f)) (lo hi a b c d : Int) (h : Spread F lo hi)
    (ha : lo ≤ a ∧ a ≤ hi) (hb : lo ≤ b ∧ b ≤ hi) (hc : lo ≤ c ∧ c ≤ hi) (hd : lo ≤ d ∧ d ≤ hi) :
    bilinear F a b c d 0 0 = .ok a ∧ bilinear F a b c d (2 ^ F.f) 0 = .ok b ∧ bilinear F a b c d 0 (2 ^ F.f) = .ok c ∧
      bilinear F a b c d (2 ^ F.f) (2 ^ F.f) = .ok d := by
  have e : ∀ {x y : Int}, lo ≤ x ∧ x ≤ hi → lo ≤ y ∧ y ≤ hi → lerp F x y 0 = .ok x ∧ lerp F x y (2 ^ F.f) = .ok y := fun hx hy => by
    have := C190_ends F hF hr _ _ (storable_mid h.sl h.sh hx.1 hx.2) (storable_mid h.sl h.sh hy.1 hy.2) (storable_mid h.down h.up (by omega) (by omega))
    exact ⟨this.1, this.2 h1⟩
  unfold bilinear
  refine ⟨?_, ?_, ?_, ?_⟩
  · rw [(e ha hb).1, Res.bind_ok, (e hc hd).1, Res.bind_ok, (e ha hc).1]
  · rw [(e ha hb).2, Res.bind_ok, (e hc hd).2, Res.bind_ok, (e hb hd).1]
  · rw [(e ha hb).1, Res.bind_ok, (e hc hd).1, Res.bind_ok, (e ha hc).2]
  · rw [(e ha hb).2, Res.bind_ok, (e hc hd).2, Res.bind_ok, (e hb hd).2]

example : bilinear fixed32 0 65536 131072 (-65536) 32768 16384 = .ok 32768 ∧ bilinear fixed32 0 65536 131072 (-65536) 65536 65536 = .ok (-65536) := by
  decide +kernel

/-- C223: the order of the two directions matters: interpolating first along the other one may give another result. -/
theorem C223_order : bilinear fixed32 0 0 1 3 32768 32768 = .ok 1 ∧ bilinear fixed32 0 1 0 3 32768 32768 = .ok 0 := by decide +kernel

end Eirin.Props
