import Verif.Props.RoundDot
import Verif.Props.Lerp
import Verif.Lemmas.Mixed

/-! # Property C213: is a point inside a circle or sphere? -/

namespace Eirin.Props
open Spec

/-- The coordinates, each paired with itself. -/
def squares (cs : List Int) : List (Int × Int) := cs.map fun c => (c, c)

/-- The test `for(c : cs) s += c * c; return s <= r * r;`. -/
def inSphere (F : FxTy) (cs : List Int) (r : Int) : Res Bool := do
  let s ← dotFrom F 0 (squares cs)
  let q ← mul F r r
  pure (le s q)

/-- The exact square of the distance. -/
def exactSq (F : FxTy) (cs : List Int) : ℚ := (cs.map fun c => val F c ^ 2).sum

theorem squares_dot (F : FxTy) (cs : List Int) : exactDot F (squares cs) = exactSq F cs := by
  unfold exactDot exactSq squares
  rw [List.map_map]
  congr 1
  exact List.map_congr_left fun c _ => by simp [sq]

theorem squares_abs (F : FxTy) (cs : List Int) : exactAbsDot F (squares cs) = exactSq F cs := by
  unfold exactAbsDot exactSq squares
  rw [List.map_map]
  congr 1
  exact List.map_congr_left fun c _ => by simp [sq]

theorem squares_mem {F : FxTy} {cs : List Int} (h : ∀ c ∈ cs, Storable F c) : ∀ q ∈ squares cs, Storable F q.1 ∧ Storable F q.2 := by
  intro q hq
  obtain ⟨c, hc, rfl⟩ := List.mem_map.1 hq
  exact ⟨h c hc, h c hc⟩

/-- Coordinates and radius are storable, and twice the squares fit with one ulp per coordinate to spare. -/
structure SphereFits (F : FxTy) (cs : List Int) (r : Int) : Prop where
  sc : ∀ c ∈ cs, Storable F c
  sr : Storable F r
  fc : 2 * exactSq F cs + cs.length * ulp F ≤ val F F.T.hi
  fr : 2 * val F r ^ 2 + ulp F ≤ val F F.T.hi

/-- C213 (as one would expect it): a point inside the sphere is always found to be inside. -/
def C213_statement : Prop :=
  ∀ F : FxTy, F.Valid → ∀ (cs : List Int) (r : Int), SphereFits F cs r → exactSq F cs ≤ val F r ^ 2 → inSphere F cs r = .ok true

theorem exactSq_nonneg (F : FxTy) (cs : List Int) : 0 ≤ exactSq F cs := by
  refine List.sum_nonneg fun v hv => ?_
  obtain ⟨w, -, rfl⟩ := List.mem_map.1 hv
  positivity

/-- C213 on non-rounding layouts, in every dimension: a point inside is always found to be inside, and a point found to be inside is at most
one ulp per coordinate beyond the square of the radius. -/
theorem C213_floor_partial (F : FxTy) (hF : F.Valid) (hr : F.r = false) (cs : List Int) (r : Int) (h : SphereFits F cs r) :
    ∃ b, inSphere F cs r = .ok b ∧ (exactSq F cs ≤ val F r ^ 2 → b = true) ∧
      (b = true → exactSq F cs ≤ val F r ^ 2 + cs.length * ulp F) := by
  have hu := ulp_pos F
  have hn := exactSq_nonneg F cs
  have hlen : (squares cs).length = cs.length := by simp [squares]
  obtain ⟨s, es, -, s1, s2⟩ := C189_dot F hF hr (squares cs) (squares_mem h.sc) 0 (zero_fits F) (by
    rw [squares_abs, val_zero, abs_zero, hlen]; linarith [h.fc])
  obtain ⟨q, eq, -, q1, q2⟩ := mul_fit hF hr h.sr h.sr (by
    rw [← sq, abs_of_nonneg (sq_nonneg _)]; nlinarith [h.fr, sq_nonneg (val F r)])
  rw [squares_dot, val_zero, zero_add] at s1 s2
  rw [hlen] at s2
  rw [← sq] at q1 q2
  refine ⟨le s q, by unfold inSphere; rw [es, Res.bind_ok, eq, Res.bind_ok]; rfl, fun hi => ?_, fun hb => ?_⟩
  · rw [le_iff]
    have : val F s < val F (q + 1) := by rw [val_add, val_one]; linarith
    rw [val_lt] at this; omega
  · rw [le_iff, ← val_le (F := F)] at hb
    linarith

/-- C213 on rounding layouts, in every dimension: a point is found to be inside if it is half an ulp per coordinate and for the radius inside, and a
point found to be inside is at most as much outside. -/
theorem C213_nearest_partial (F : FxTy) (hF : F.Valid) (hr : F.r = true) (cs : List Int) (r : Int) (h : SphereFits F cs r) :
    ∃ b, inSphere F cs r = .ok b ∧ (exactSq F cs + (cs.length + 1) * (ulp F / 2) ≤ val F r ^ 2 → b = true) ∧
      (b = true → exactSq F cs ≤ val F r ^ 2 + (cs.length + 1) * (ulp F / 2)) := by
  have hu := ulp_pos F
  have hlen : (squares cs).length = cs.length := by simp [squares]
  obtain ⟨s, es, -, s1⟩ := C195_dot_partial F hF hr (squares cs) (squares_mem h.sc) 0 (zero_fits F) (by
    rw [squares_abs, val_zero, abs_zero, hlen]; linarith [h.fc])
  obtain ⟨q, eq, -, q1⟩ := mul_fit_r hF hr h.sr h.sr (by
    rw [← sq, abs_of_nonneg (sq_nonneg _)]; linarith [h.fr])
  rw [squares_dot, val_zero, zero_add, hlen] at s1
  rw [← sq] at q1
  obtain ⟨a1, a2⟩ := abs_le.1 s1
  obtain ⟨b1, b2⟩ := abs_le.1 q1
  refine ⟨le s q, by unfold inSphere; rw [es, Res.bind_ok, eq, Res.bind_ok]; rfl, fun hi => ?_, fun hb => ?_⟩
  · rw [le_iff, ← val_le (F := F)]
    linarith
  · rw [le_iff, ← val_le (F := F)] at hb
    linarith

example : inSphere fixed32 [196608, 262144] 327680 = .ok true ∧ inSphere fixed32 [196608, 262145] 327680 = .ok false ∧
    inSphere fixed32 [65536, 131072, 131072] 196608 = .ok true := by decide +kernel

example : SphereFits fixed32 [196608, 262144] 327680 :=
  ⟨by decide, by decide, by norm_num [exactSq, val, ulp, fixed32, i32, IntTy.hi], by norm_num [val, ulp, fixed32, i32, IntTy.hi]⟩

/-- In the rounding type the point (182, 182) ulps is found to be outside of the circle of 258 ulps. -/
theorem C213_false : ¬ C213_statement := by
  intro h
  have e : inSphere fixed32r [182, 182] 258 = .ok false := by decide +kernel
  have := h fixed32r (by decide) [182, 182] 258
    ⟨by decide, by decide, by norm_num [exactSq, val, ulp, fixed32r, i32, IntTy.hi], by norm_num [val, ulp, fixed32r, i32, IntTy.hi]⟩
    (by norm_num [exactSq, val, fixed32r])
  rw [e] at this
  cases this

/-- C213: the margin is needed on non-rounding layouts too: a point a little outside is found to be inside. -/
theorem C213_outside : inSphere fixed32 [255, 255] 1 = .ok true ∧ val fixed32 1 ^ 2 < exactSq fixed32 [255, 255] := by
  refine ⟨by decide +kernel, by norm_num [exactSq, val, fixed32]⟩

end Eirin.Props
