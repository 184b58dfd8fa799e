import Verif.Props.Sums
import Verif.Props.CountLoop
import Verif.Props.Smooth

/-! # Property C217: weights divided by their sum -/

namespace Eirin.Props
open Spec

/-- `for(w : ws) w = w / s;`. -/
def divAll (F : FxTy) (s : Int) : List Int → Res (List Int)
  | [] => .ok []
  | w :: ws => do
    let q ← div F w s
    let r ← divAll F s ws
    pure (q :: r)

/-- `s = 0; for(w : ws) s += w; for(w : ws) w = w / s;`. -/
def weights (F : FxTy) (ws : List Int) : Res (List Int) := do
  let s ← sumFrom F 0 ws
  divAll F s ws

/-- `q` is the share of `w` in `s`, rounded down. -/
def IsShare (F : FxTy) (s w q : Int) : Prop := 0 ≤ q ∧ q ≤ 2 ^ F.f ∧ IsFloor F (val F w / val F s) q

/-- C217 (as one would expect it): the shares of nonnegative weights add up to one. -/
def C217_statement : Prop :=
  ∀ F : FxTy, F.Valid → F.r = false → Storable F (2 ^ F.f) → ∀ ws qs : List Int, (∀ w ∈ ws, Storable F w ∧ 0 ≤ w) → Storable F ws.sum → 0 < ws.sum →
    weights F ws = .ok qs → qs.sum = 2 ^ F.f

/-- Three equal weights on `fixed32`: one ulp is missing. -/
theorem C217_false : ¬ C217_statement := by
  intro h
  have := h fixed32 (by decide) rfl (by decide) [65536, 65536, 65536] [21845, 21845, 21845] (by decide) (by decide) (by decide) (by decide +kernel)
  revert this; decide

theorem sumFrom_nonneg {F : FxTy} (hF : F.Valid) (ws : List Int) (h : ∀ w ∈ ws, Storable F w ∧ 0 ≤ w) (s : Int) (s0 : 0 ≤ s)
    (hs : Storable F (s + ws.sum)) : sumFrom F s ws = .ok (s + ws.sum) := by
  induction ws generalizing s with
  | nil => simp [sumFrom]
  | cons w ws ih =>
    obtain ⟨sw, w0⟩ := h w (by simp)
    have hn : 0 ≤ ws.sum := List.sum_nonneg fun x hx => (h x (by simp [hx])).2
    rw [List.sum_cons] at hs ⊢
    have z := zero_fits F
    unfold sumFrom
    rw [addAssign_exact hF (storable_mid z hs s0 (by omega)) sw (storable_mid z hs (by omega) (by omega))]
    rw [← add_assoc] at hs ⊢
    exact ih (fun x hx => h x (by simp [hx])) (s + w) (by omega) hs

theorem divAll_shares {F : FxTy} (hF : F.Valid) (hr : F.r = false) (h1 : Storable F (2 ^ F.f)) {s : Int} (s0 : 0 < s) (ws : List Int)
    (h : ∀ w ∈ ws, Storable F w ∧ 0 ≤ w ∧ w ≤ s) : ∃ qs, divAll F s ws = .ok qs ∧ List.Forall₂ (IsShare F s) ws qs := by
  have v1 : val F (2 ^ F.f) = 1 := by have := val_int F 1; simpa using this
  have hs : 0 < val F s := by rw [← val_zero F, val_lt]; exact s0
  induction ws with
  | nil => exact ⟨[], rfl, .nil⟩
  | cons w ws ih =>
    obtain ⟨qs, e, hq⟩ := ih fun x hx => h x (by simp [hx])
    obtain ⟨sw, w0, w1⟩ := h w (by simp)
    obtain ⟨z, n, ez, ht, -, hz⟩ := (C03_div_trunc F hF hr w s sw).2 (by omega)
    have hw : 0 ≤ val F w := by rw [← val_zero F, val_le]; exact w0
    obtain ⟨n0, n1, n2⟩ := ht.1 (by positivity)
    have hle : val F w / val F s ≤ 1 := by rw [div_le_one hs, val_le]; exact w1
    have n0' : 0 ≤ n := by rwa [← val_zero F, val_le] at n0
    have n1' : n ≤ 2 ^ F.f := by rw [← val_le (F := F), v1]; linarith
    rw [hz (storable_mid (zero_fits F) h1 n0' n1')] at ez
    refine ⟨n :: qs, ?_, .cons ⟨n0', n1', n1, n2⟩ hq⟩
    unfold divAll
    rw [ez, Res.bind_ok, e, Res.bind_ok]
    rfl

theorem shares_sum {F : FxTy} {s : Int} {ws qs : List Int} (h : List.Forall₂ (IsShare F s) ws qs) :
    val F qs.sum ≤ val F ws.sum / val F s ∧ val F ws.sum / val F s ≤ val F qs.sum + ws.length * ulp F := by
  induction h with
  | nil => simp [val_zero]
  | @cons w q ws qs hq hl ih =>
    obtain ⟨-, -, q1, q2⟩ := hq
    obtain ⟨i1, i2⟩ := ih
    rw [List.sum_cons, List.sum_cons, val_add, val_add, add_div, List.length_cons]
    push_cast
    constructor <;> linarith

/-- C217: every share is the exact one rounded down and lies between 0 and 1; together they never exceed one and miss it by at most one ulp per
weight. -/
theorem C217_weights_partial (F : FxTy) (hF : F.Valid) (hr : F.r = false) (h1 : Storable F (2 ^ F.f)) (ws : List Int)
    (h : ∀ w ∈ ws, Storable F w ∧ 0 ≤ w) (hs : Storable F ws.sum) (s0 : 0 < ws.sum) :
    ∃ qs, weights F ws = .ok qs ∧ List.Forall₂ (IsShare F ws.sum) ws qs ∧ val F qs.sum ≤ 1 ∧ 1 ≤ val F qs.sum + ws.length * ulp F := by
  obtain ⟨qs, e, hq⟩ := divAll_shares hF hr h1 s0 ws fun w hw =>
    ⟨(h w hw).1, (h w hw).2, List.single_le_sum (fun x hx => (h x hx).2) w hw⟩
  have hv : 0 < val F ws.sum := by rw [← val_zero F, val_lt]; exact s0
  have := shares_sum hq
  rw [div_self hv.ne'] at this
  refine ⟨qs, ?_, hq, this⟩
  unfold weights
  rw [sumFrom_nonneg hF ws h 0 le_rfl (by rwa [zero_add]), Res.bind_ok, zero_add, e]

/-- C217: if all weights are zero, the division by their sum is undefined. -/
theorem C217_zero (F : FxTy) (hF : F.Valid) (hr : F.r = false) (ws : List Int) (h : ∀ w ∈ ws, w = 0) (hn : ws ≠ []) : weights F ws = .ub .divZero := by
  have hsum : ws.sum = 0 := List.sum_eq_zero h
  have z := zero_fits F
  unfold weights
  rw [sumFrom_nonneg hF ws (fun w hw => by rw [h w hw]; exact ⟨z, le_rfl⟩) 0 le_rfl (by rw [hsum]; exact z), Res.bind_ok, zero_add, hsum]
  match ws, hn with
  | w :: ws, _ =>
    unfold divAll
    rw [(C03_div_trunc F hF hr w 0 (by rw [h w (by simp)]; exact z)).1 rfl]
    rfl

example : weights fixed32 [65536, 131072, 65536] = .ok [16384, 32768, 16384] ∧ weights fixed32 [1, 2, 4] = .ok [9362, 18724, 37449] ∧
    weights fixed32 [0, 0] = .ub .divZero := by decide +kernel

end Eirin.Props
