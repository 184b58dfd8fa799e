import Verif.Props.Orient
import Verif.Props.RoundLerp

/-! # Property C224: the area of a polygon -/

namespace Eirin.Props
open Spec

/-- An edge from `(x, y)` to `(x', y')`. -/
structure Edge where
  x : Int
  y : Int
  x' : Int
  y' : Int

/-- The edge in the other direction. -/
def Edge.flip (e : Edge) : Edge := ⟨e.x', e.y', e.x, e.y⟩

/-- The loop `for(e : edges) s += e.x * e.y' - e.y * e.x';`, which computes twice the area of a polygon. -/
def areaFrom (F : FxTy) : Int → List Edge → Res Int
  | s, [] => .ok s
  | s, e :: l => do
    let d ← det2 F e.x e.y e.x' e.y'
    let s' ← addAssign F s d
    areaFrom F s' l

/-- The exact contribution of an edge. -/
def Edge.exact (F : FxTy) (e : Edge) : ℚ := val F e.x * val F e.y' - val F e.y * val F e.x'

/-- An upper bound for the numbers that occur with an edge. -/
def Edge.size (F : FxTy) (e : Edge) : ℚ := |val F e.x * val F e.y'| + |val F e.y * val F e.x'| + ulp F

/-- The coordinates are storable. -/
def Edge.Ok (F : FxTy) (e : Edge) : Prop := Storable F e.x ∧ Storable F e.y ∧ Storable F e.x' ∧ Storable F e.y'

/-- Both products rounded down. -/
def Edge.raw (F : FxTy) (e : Edge) : Int := ⌊val F e.x * val F e.y' / ulp F⌋ - ⌊val F e.y * val F e.x' / ulp F⌋

theorem floor_raw_div (F : FxTy) (q : ℚ) : IsFloor F q ⌊q / ulp F⌋ := by
  have hu := ulp_pos F
  have hv : ∀ n : Int, val F n = n * ulp F := fun n => by unfold val ulp; ring
  have h1 := Int.floor_le (q / ulp F)
  have h2 := Int.lt_floor_add_one (q / ulp F)
  rw [le_div_iff₀ hu] at h1
  rw [div_lt_iff₀ hu] at h2
  refine ⟨by rw [hv]; exact h1, by rw [hv]; linarith⟩

theorem Edge.det {F : FxTy} (hF : F.Valid) (hr : F.r = false) (hs : F.T.signed = true) {e : Edge} (h : e.Ok F) (hfit : e.size F ≤ val F F.T.hi) :
    det2 F e.x e.y e.x' e.y' = .ok (e.raw F) ∧ Storable F (e.raw F) := by
  obtain ⟨h1, h2, h3, h4⟩ := h
  obtain ⟨m, n, ed, st, fm, fn⟩ := det_core hF hr hs ⟨h1, h2, h3, h4, hfit⟩
  have : m - n = e.raw F := by
    unfold Edge.raw
    rw [floor_eq fm (floor_raw_div F _), floor_eq fn (floor_raw_div F _)]
  rw [← this]
  exact ⟨ed, st⟩

theorem Edge.raw_near (F : FxTy) (e : Edge) : |val F (e.raw F) - e.exact F| < ulp F := by
  have h1 := floor_raw_div F (val F e.x * val F e.y')
  have h2 := floor_raw_div F (val F e.y * val F e.x')
  unfold Edge.raw Edge.exact
  rw [val_sub, abs_lt]
  constructor <;> linarith [h1.1, h1.2, h2.1, h2.2]

theorem Edge.raw_flip (F : FxTy) (e : Edge) : e.flip.raw F = -e.raw F := by
  unfold Edge.raw Edge.flip
  rw [mul_comm (val F e.x'), mul_comm (val F e.y')]
  ring

theorem Edge.size_flip (F : FxTy) (e : Edge) : e.flip.size F = e.size F := by
  unfold Edge.size Edge.flip
  rw [mul_comm (val F e.x'), mul_comm (val F e.y')]
  ring

theorem Edge.raw_size (F : FxTy) (e : Edge) : |val F (e.raw F)| ≤ e.size F := by
  obtain ⟨h1, h2⟩ := abs_lt.1 (e.raw_near F)
  obtain ⟨a1, a2⟩ := abs_le.1 (le_refl |val F e.x * val F e.y'|)
  obtain ⟨b1, b2⟩ := abs_le.1 (le_refl |val F e.y * val F e.x'|)
  unfold Edge.exact at h1 h2
  unfold Edge.size
  rw [abs_le]; constructor <;> linarith

theorem area_raw {F : FxTy} (hF : F.Valid) (hr : F.r = false) (hs : F.T.signed = true) (l : List Edge) (hl : ∀ e ∈ l, e.Ok F) (s : Int)
    (ss : Storable F s) (hfit : |val F s| + (l.map (Edge.size F)).sum ≤ val F F.T.hi) : areaFrom F s l = .ok (s + (l.map (Edge.raw F)).sum) := by
  induction l generalizing s with
  | nil => simp [areaFrom]
  | cons e l ih =>
    rw [List.map_cons, List.sum_cons] at hfit
    have hn : 0 ≤ (l.map (Edge.size F)).sum := by
      refine List.sum_nonneg fun v hv => ?_
      obtain ⟨w, -, rfl⟩ := List.mem_map.1 hv
      exact (abs_nonneg _).trans (w.raw_size F)
    have n1 := abs_nonneg (val F s)
    have n2 := e.raw_size F
    have n3 := abs_add_le (val F s) (val F (e.raw F))
    obtain ⟨ed, sd⟩ := Edge.det hF hr hs (hl e (by simp)) (by linarith)
    have sa : Storable F (s + e.raw F) := storable_of_abs (by rw [val_add]; linarith) (fun h => by rw [hs] at h; cases h)
    unfold areaFrom
    rw [ed, Res.bind_ok, show addAssign F s (e.raw F) = add F s (e.raw F) from rfl, add_storable hF ss sd sa, Res.bind_ok,
      ih (fun x hx => hl x (by simp [hx])) (s + e.raw F) sa (by rw [val_add]; linarith), List.map_cons, List.sum_cons, add_assoc]

/-- C224: twice the area of a polygon with any number of edges is defined and off by less than one ulp per edge. -/
theorem C224_area (F : FxTy) (hF : F.Valid) (hr : F.r = false) (hs : F.T.signed = true) (l : List Edge) (hl : ∀ e ∈ l, e.Ok F)
    (hfit : (l.map (Edge.size F)).sum ≤ val F F.T.hi) :
    ∃ z, areaFrom F 0 l = .ok z ∧ |val F z - (l.map (Edge.exact F)).sum| ≤ l.length * ulp F := by
  refine ⟨_, area_raw hF hr hs l hl 0 (zero_fits F) (by rw [val_zero, abs_zero, zero_add]; exact hfit), ?_⟩
  rw [zero_add]
  clear hfit hl
  induction l with
  | nil => simp [val_zero]
  | cons e l ih =>
    obtain ⟨h1, h2⟩ := abs_lt.1 (e.raw_near F)
    obtain ⟨i1, i2⟩ := abs_le.1 ih
    rw [List.map_cons, List.sum_cons, List.map_cons, List.sum_cons, val_add, List.length_cons, abs_le]
    push_cast
    constructor <;> linarith

/-- C224: the order of the edges does not matter, and going around in the other direction changes the sign exactly. -/
theorem C224_reverse (F : FxTy) (hF : F.Valid) (hr : F.r = false) (hs : F.T.signed = true) (l m k : List Edge) (hl : ∀ e ∈ l, e.Ok F)
    (hfit : (l.map (Edge.size F)).sum ≤ val F F.T.hi) (hm : m.Perm l) (hk : k.Perm (l.map Edge.flip)) :
    ∃ z, areaFrom F 0 l = .ok z ∧ areaFrom F 0 m = .ok z ∧ areaFrom F 0 k = .ok (-z) := by
  have hz : |val F 0| = 0 := by rw [val_zero, abs_zero]
  refine ⟨_, area_raw hF hr hs l hl 0 (zero_fits F) (by rw [hz, zero_add]; exact hfit), ?_, ?_⟩
  · rw [area_raw hF hr hs m (fun e he => hl e (hm.mem_iff.1 he)) 0 (zero_fits F) (by rw [hz, zero_add, (hm.map _).sum_eq]; exact hfit), (hm.map _).sum_eq]
  · have e1 : (l.map Edge.flip).map (Edge.size F) = l.map (Edge.size F) := by
      rw [List.map_map]; exact List.map_congr_left fun e _ => e.size_flip F
    have e2 : ((l.map Edge.flip).map (Edge.raw F)).sum = -(l.map (Edge.raw F)).sum := by
      clear e1 hfit hl hm hk
      induction l with
      | nil => rfl
      | cons e l ih => rw [List.map_cons, List.map_cons, List.sum_cons, ih, e.raw_flip, List.map_cons, List.sum_cons]; ring
    rw [area_raw hF hr hs k (fun e he => by
      obtain ⟨w, hw, rfl⟩ := List.mem_map.1 (hk.mem_iff.1 he)
      obtain ⟨a, b, c, d⟩ := hl w hw
      exact ⟨c, d, a, b⟩) 0 (zero_fits F) (by rw [hz, zero_add, (hk.map _).sum_eq, e1]; exact hfit), (hk.map _).sum_eq, e2]
    congr 1
    ring

/-- The unit square. -/
example : areaFrom fixed32 0 [⟨0, 0, 65536, 0⟩, ⟨65536, 0, 65536, 65536⟩, ⟨65536, 65536, 0, 65536⟩, ⟨0, 65536, 0, 0⟩] = .ok 131072 ∧
    areaFrom fixed32 0 [⟨0, 0, 0, 65536⟩, ⟨0, 65536, 65536, 65536⟩, ⟨65536, 65536, 65536, 0⟩, ⟨65536, 0, 0, 0⟩] = .ok (-131072) := by decide +kernel

/-- C224: moving a polygon may change its computed area: a square with sides of 200 ulps, at the origin and moved by 56 ulps. -/
theorem C224_moved : areaFrom fixed32 0 [⟨0, 0, 200, 0⟩, ⟨200, 0, 200, 200⟩, ⟨200, 200, 0, 200⟩, ⟨0, 200, 0, 0⟩] = .ok 0 ∧
    areaFrom fixed32 0 [⟨56, 56, 256, 56⟩, ⟨256, 56, 256, 256⟩, ⟨256, 256, 56, 256⟩, ⟨56, 256, 56, 56⟩] = .ok 2 := by decide +kernel

end Eirin.Props
