import Verif.Props.Area
import Verif.Props.RoundOrient

/-! # Property C226: the area of a polygon in rounding types -/

namespace Eirin.Props
open Spec

/-- An upper bound for the numbers that occur with an edge in a rounding type. -/
def Edge.sizeR (F : FxTy) (e : Edge) : ℚ := 2 * |val F e.x * val F e.y'| + 2 * |val F e.y * val F e.x'| + 2 * ulp F

/-- The computed contribution of an edge. -/
def Edge.computed (F : FxTy) (e : Edge) : Int :=
  match det2 F e.x e.y e.x' e.y' with
  | .ok z => z
  | _ => 0

/-- C226 (as one would expect it): the loop computes twice the area, up to one ulp per edge. -/
def C226_statement : Prop :=
  ∀ F : FxTy, F.Valid → F.r = true → F.T.signed = true → ∀ (l : List Edge) (z : Int), (∀ e ∈ l, e.Ok F) →
    (l.map (Edge.sizeR F)).sum ≤ val F F.T.hi → areaFrom F 0 l = .ok z → |val F z - (l.map (Edge.exact F)).sum| ≤ l.length * ulp F

theorem Edge.sizeR_nonneg (F : FxTy) (e : Edge) : 0 ≤ e.sizeR F := by
  have := ulp_pos F
  unfold Edge.sizeR; positivity

theorem Edge.sizeR_flip (F : FxTy) (e : Edge) : e.flip.sizeR F = e.sizeR F := by
  unfold Edge.sizeR Edge.flip
  rw [mul_comm (val F e.x'), mul_comm (val F e.y')]
  ring

theorem Edge.detR {F : FxTy} (hF : F.Valid) (hr : F.r = true) (hs : F.T.signed = true) {e : Edge} (h : e.Ok F) (hfit : e.sizeR F ≤ val F F.T.hi) :
    det2 F e.x e.y e.x' e.y' = .ok (e.computed F) ∧ Storable F (e.computed F) ∧ |val F (e.computed F) - 2 * e.exact F| ≤ 2 * ulp F ∧
      e.flip.computed F = -e.computed F := by
  obtain ⟨h1, h2, h3, h4⟩ := h
  have hd : DetFitsR F e.x e.y e.x' e.y' := ⟨h1, h2, h3, h4, hfit⟩
  obtain ⟨r, er, sr, nr, -⟩ := C212_det F hF hr hs _ _ _ _ hd
  obtain ⟨r', er', ef⟩ := C212_swap F hF hr hs _ _ _ _ hd
  have hrr : r' = r := Res.ok.inj (er'.symm.trans er)
  rw [hrr] at ef
  have c1 : e.computed F = r := by unfold Edge.computed; rw [er]
  have c2 : e.flip.computed F = -r := by unfold Edge.computed Edge.flip; dsimp only; rw [ef]
  rw [c1, c2]
  exact ⟨er, sr, nr, rfl⟩

theorem area_rawR {F : FxTy} (hF : F.Valid) (hr : F.r = true) (hs : F.T.signed = true) (l : List Edge) (hl : ∀ e ∈ l, e.Ok F) (s : Int)
    (ss : Storable F s) (hfit : |val F s| + (l.map (Edge.sizeR F)).sum ≤ val F F.T.hi) :
    areaFrom F s l = .ok (s + (l.map (Edge.computed F)).sum) ∧
      |val F (l.map (Edge.computed F)).sum - 2 * (l.map (Edge.exact F)).sum| ≤ 2 * l.length * ulp F ∧
      ((l.map Edge.flip).map (Edge.computed F)).sum = -(l.map (Edge.computed F)).sum := by
  induction l generalizing s with
  | nil => simp [areaFrom, val_zero]
  | cons e l ih =>
    rw [List.map_cons, List.sum_cons] at hfit
    have hn : 0 ≤ (l.map (Edge.sizeR F)).sum := by
      refine List.sum_nonneg fun v hv => ?_
      obtain ⟨w, -, rfl⟩ := List.mem_map.1 hv
      exact w.sizeR_nonneg F
    have n1 := abs_nonneg (val F s)
    obtain ⟨ed, sd, near, fl⟩ := Edge.detR hF hr hs (hl e (by simp)) (by linarith)
    obtain ⟨d1, d2⟩ := abs_le.1 near
    have n2 : |val F (e.computed F)| ≤ e.sizeR F := by
      obtain ⟨a1, a2⟩ := abs_le.1 (le_refl |val F e.x * val F e.y'|)
      obtain ⟨b1, b2⟩ := abs_le.1 (le_refl |val F e.y * val F e.x'|)
      unfold Edge.exact at d1 d2
      unfold Edge.sizeR
      rw [abs_le]; constructor <;> linarith
    have n3 := abs_add_le (val F s) (val F (e.computed F))
    have sa : Storable F (s + e.computed F) := storable_of_abs (by rw [val_add]; linarith) (fun h => by rw [hs] at h; cases h)
    obtain ⟨i1, i2, i3⟩ := ih (fun x hx => hl x (by simp [hx])) (s + e.computed F) sa (by rw [val_add]; linarith)
    obtain ⟨j1, j2⟩ := abs_le.1 i2
    refine ⟨?_, ?_, ?_⟩
    · unfold areaFrom
      rw [ed, Res.bind_ok, show addAssign F s (e.computed F) = add F s (e.computed F) from rfl, add_storable hF ss sd sa, Res.bind_ok, i1, List.map_cons,
        List.sum_cons, add_assoc]
    · rw [List.map_cons, List.sum_cons, List.map_cons, List.sum_cons, val_add, List.length_cons, abs_le]
      push_cast
      constructor <;> linarith
    · rw [List.map_cons, List.map_cons, List.sum_cons, i3, fl, List.map_cons, List.sum_cons]; ring

/-- C226 (what happens instead): the loop computes *four* times the area, up to two ulps per edge. -/
theorem C226_area_partial (F : FxTy) (hF : F.Valid) (hr : F.r = true) (hs : F.T.signed = true) (l : List Edge) (hl : ∀ e ∈ l, e.Ok F)
    (hfit : (l.map (Edge.sizeR F)).sum ≤ val F F.T.hi) :
    ∃ z, areaFrom F 0 l = .ok z ∧ |val F z - 2 * (l.map (Edge.exact F)).sum| ≤ 2 * l.length * ulp F := by
  obtain ⟨a, b, -⟩ := area_rawR hF hr hs l hl 0 (zero_fits F) (by rw [val_zero, abs_zero, zero_add]; exact hfit)
  rw [zero_add] at a
  exact ⟨_, a, b⟩

/-- C226: the order of the edges does not matter, and going around in the other direction changes the sign exactly. -/
theorem C226_reverse (F : FxTy) (hF : F.Valid) (hr : F.r = true) (hs : F.T.signed = true) (l m k : List Edge) (hl : ∀ e ∈ l, e.Ok F)
    (hfit : (l.map (Edge.sizeR F)).sum ≤ val F F.T.hi) (hm : m.Perm l) (hk : k.Perm (l.map Edge.flip)) :
    ∃ z, areaFrom F 0 l = .ok z ∧ areaFrom F 0 m = .ok z ∧ areaFrom F 0 k = .ok (-z) := by
  have hz : |val F 0| = 0 := by rw [val_zero, abs_zero]
  obtain ⟨a, -, c⟩ := area_rawR hF hr hs l hl 0 (zero_fits F) (by rw [hz, zero_add]; exact hfit)
  have e1 : (l.map Edge.flip).map (Edge.sizeR F) = l.map (Edge.sizeR F) := by
    rw [List.map_map]; exact List.map_congr_left fun e _ => e.sizeR_flip F
  have b := (area_rawR hF hr hs m (fun e he => hl e (hm.mem_iff.1 he)) 0 (zero_fits F) (by rw [hz, zero_add, (hm.map _).sum_eq]; exact hfit)).1
  have d := (area_rawR hF hr hs k (fun e he => by
    obtain ⟨w, hw, rfl⟩ := List.mem_map.1 (hk.mem_iff.1 he)
    obtain ⟨a, b, c, d⟩ := hl w hw
    exact ⟨c, d, a, b⟩) 0 (zero_fits F) (by rw [hz, zero_add, (hk.map _).sum_eq, e1]; exact hfit)).1
  rw [zero_add] at a b d
  rw [(hm.map _).sum_eq] at b
  rw [(hk.map _).sum_eq, c] at d
  exact ⟨_, a, b, d⟩

/-- The unit square: four instead of two. -/
theorem C226_false : ¬ C226_statement := by
  intro h
  have := h fixed32r (by decide) rfl rfl [⟨0, 0, 65536, 0⟩, ⟨65536, 0, 65536, 65536⟩, ⟨65536, 65536, 0, 65536⟩, ⟨0, 65536, 0, 0⟩] 262144
    (by unfold Edge.Ok; decide) (by norm_num [Edge.sizeR, val, ulp, fixed32r, i32, IntTy.hi]) (by decide +kernel)
  norm_num [Edge.exact, val, ulp, fixed32r, abs_le] at this

example : areaFrom fixed32r 0 [⟨0, 0, 0, 65536⟩, ⟨0, 65536, 65536, 65536⟩, ⟨65536, 65536, 65536, 0⟩, ⟨65536, 0, 0, 0⟩] = .ok (-262144) := by decide +kernel

end Eirin.Props
