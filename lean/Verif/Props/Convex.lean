import Verif.Props.Area
import Verif.Props.RoundOrient
import Verif.Lemmas.Mixed

/-! # Property C225: is a point inside a convex polygon? -/

namespace Eirin.Props
open Spec

/-- The loop `for(e : edges) if(orient(e.p, e.q, r) < 0) return false; return true;`. -/
def insideConvex (F : FxTy) (rx ry : Int) : List Edge → Res Bool
  | [] => .ok true
  | e :: l => do
    let o ← orient F e.x e.y e.x' e.y' rx ry
    if lt o 0 then .ok false else insideConvex F rx ry l

/-- The exact side of the point `(rx, ry)`: positive on the left of the edge, zero on its line. -/
def Edge.side (F : FxTy) (rx ry : Int) (e : Edge) : ℚ :=
  (val F e.x' - val F e.x) * (val F ry - val F e.y) - (val F e.y' - val F e.y) * (val F rx - val F e.x)

/-- What is needed for an edge: coordinates and differences are storable, and twice the products fit with two ulps to spare. -/
structure Edge.Near (F : FxTy) (rx ry : Int) (e : Edge) : Prop where
  ok : e.Ok F
  fits : DetFitsR F (e.x' - e.x) (e.y' - e.y) (rx - e.x) (ry - e.y)

theorem Edge.orient_side {F : FxTy} (hF : F.Valid) (hs : F.T.signed = true) {rx ry : Int} (sx : Storable F rx) (sy : Storable F ry) {e : Edge}
    (h : e.Near F rx ry) : ∃ o, orient F e.x e.y e.x' e.y' rx ry = .ok o ∧ (0 < o → 0 < e.side F rx ry) ∧ (o < 0 → e.side F rx ry < 0) := by
  obtain ⟨⟨h1, h2, h3, h4⟩, hd⟩ := h
  cases hr : F.r
  · have n1 := abs_nonneg (val F (e.x' - e.x) * val F (ry - e.y))
    have n2 := abs_nonneg (val F (e.y' - e.y) * val F (rx - e.x))
    have hu := ulp_pos F
    obtain ⟨o, eo, o1, o2, -⟩ := C210_orient F hF hr hs e.x e.y e.x' e.y' rx ry h1 h2 h3 h4 sx sy
      ⟨hd.sa, hd.sb, hd.sc, hd.sd, by linarith [hd.fit]⟩
    exact ⟨o, eo, o1, o2⟩
  · obtain ⟨o, eo, o1, o2, -⟩ := C212_orient F hF hr hs e.x e.y e.x' e.y' rx ry h1 h2 h3 h4 sx sy hd
    exact ⟨o, eo, o1, o2⟩

/-- C225: for every number of edges the test is defined. A point that is on the right side of, or on, every edge is never rejected: the result `false`
means that the point is strictly outside of an edge. -/
theorem C225_inside (F : FxTy) (hF : F.Valid) (hs : F.T.signed = true) (rx ry : Int) (sx : Storable F rx) (sy : Storable F ry) (l : List Edge)
    (hl : ∀ e ∈ l, e.Near F rx ry) :
    ∃ b, insideConvex F rx ry l = .ok b ∧ ((∀ e ∈ l, 0 ≤ e.side F rx ry) → b = true) ∧ (b = false → ∃ e ∈ l, e.side F rx ry < 0) := by
  induction l with
  | nil => exact ⟨true, rfl, fun _ => rfl, fun h => by cases h⟩
  | cons e l ih =>
    obtain ⟨b, eb, b1, b2⟩ := ih fun x hx => hl x (by simp [hx])
    obtain ⟨o, eo, -, o2⟩ := Edge.orient_side hF hs sx sy (hl e (by simp))
    by_cases ho : o < 0
    · refine ⟨false, ?_, fun h => ?_, fun _ => ⟨e, by simp, o2 ho⟩⟩
      · unfold insideConvex
        rw [eo, Res.bind_ok, if_pos (lt_iff.2 ho)]
      · have := h e (by simp); have := o2 ho; linarith
    · refine ⟨b, ?_, fun h => b1 fun x hx => h x (by simp [hx]), fun h => ?_⟩
      · unfold insideConvex
        rw [eo, Res.bind_ok, if_neg (by rw [lt_iff]; exact ho), eb]
      · obtain ⟨x, hx, hn⟩ := b2 h
        exact ⟨x, by simp [hx], hn⟩

/-- C225: on non-rounding layouts an accepted point is less than one ulp (of the doubled area) on the wrong side of an edge. -/
theorem C225_accepted (F : FxTy) (hF : F.Valid) (hr : F.r = false) (hs : F.T.signed = true) (rx ry : Int) (sx : Storable F rx) (sy : Storable F ry)
    (l : List Edge) (hl : ∀ e ∈ l, e.Near F rx ry) (h : insideConvex F rx ry l = .ok true) : ∀ e ∈ l, -ulp F < e.side F rx ry := by
  induction l with
  | nil => intro e he; cases he
  | cons e l ih =>
    obtain ⟨⟨h1, h2, h3, h4⟩, hd⟩ := hl e (by simp)
    have n1 := abs_nonneg (val F (e.x' - e.x) * val F (ry - e.y))
    have n2 := abs_nonneg (val F (e.y' - e.y) * val F (rx - e.x))
    have hu := ulp_pos F
    obtain ⟨o, eo, -, near, -⟩ := C210_det F hF hr hs (e.x' - e.x) (e.y' - e.y) (rx - e.x) (ry - e.y)
      ⟨hd.sa, hd.sb, hd.sc, hd.sd, by linarith [hd.fit]⟩
    have eo' : orient F e.x e.y e.x' e.y' rx ry = .ok o := by
      unfold orient
      rw [sub_storable hF h3 h1 hd.sa, Res.bind_ok, sub_storable hF sy h2 hd.sd, Res.bind_ok, sub_storable hF h4 h2 hd.sb, Res.bind_ok,
        sub_storable hF sx h1 hd.sc, Res.bind_ok, eo]
    unfold insideConvex at h
    rw [eo', Res.bind_ok] at h
    by_cases ho : o < 0
    · rw [if_pos (lt_iff.2 ho)] at h
      cases h
    · rw [if_neg (by rw [lt_iff]; exact ho)] at h
      intro x hx
      rcases List.mem_cons.1 hx with rfl | hx
      · have : 0 ≤ val F o := by rw [← val_zero F, val_le]; omega
        obtain ⟨a, b⟩ := abs_lt.1 near
        rw [val_sub, val_sub, val_sub, val_sub] at a b
        unfold Edge.side
        linarith
      · exact ih (fun y hy => hl y (by simp [hy])) h x hx

/-- A triangle: a point inside, one on the boundary, one outside, on both kinds of types. -/
example : insideConvex fixed32 65536 65536 [⟨0, 0, 262144, 0⟩, ⟨262144, 0, 0, 262144⟩, ⟨0, 262144, 0, 0⟩] = .ok true ∧
    insideConvex fixed32r 131072 131072 [⟨0, 0, 262144, 0⟩, ⟨262144, 0, 0, 262144⟩, ⟨0, 262144, 0, 0⟩] = .ok true ∧
    insideConvex fixed32 131072 131073 [⟨0, 0, 262144, 0⟩, ⟨262144, 0, 0, 262144⟩, ⟨0, 262144, 0, 0⟩] = .ok false := by decide +kernel

example : Edge.Near fixed32 65536 65536 ⟨262144, 0, 0, 262144⟩ :=
  ⟨by unfold Edge.Ok; decide, ⟨by decide, by decide, by decide, by decide, by norm_num [val, ulp, fixed32, i32, IntTy.hi, abs_of_nonneg, abs_of_neg]⟩⟩

/-- C225: a point a little outside may be rejected (the first two) or accepted (the third). -/
theorem C225_margin : insideConvex fixed32 100 (-1) [⟨0, 0, 200, 0⟩] = .ok false ∧ insideConvex fixed32 0 0 [⟨0, 1, 200, 1⟩] = .ok false ∧
    insideConvex fixed32 200 0 [⟨0, 0, 100, 200⟩] = .ok true ∧ Edge.side fixed32 200 0 ⟨0, 0, 100, 200⟩ < 0 := by
  refine ⟨by decide +kernel, by decide +kernel, by decide +kernel, by norm_num [Edge.side, val, fixed32]⟩

end Eirin.Props
