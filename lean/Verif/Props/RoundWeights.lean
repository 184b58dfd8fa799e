import Verif.Props.Weights
import Verif.Props.Ranking

/-! # Property C227: weights divided by their sum in rounding types -/

namespace Eirin.Props
open Spec

/-- C227 (as one would expect it): the shares of nonnegative weights add up to one, up to half an ulp per weight. -/
def C227_statement : Prop :=
  ∀ F : FxTy, F.Valid → F.r = true → F.f + 2 ≤ F.T.bits → Storable F (2 * 2 ^ F.f) → ∀ ws qs : List Int, (∀ w ∈ ws, Storable F w ∧ 0 ≤ w) →
    Storable F ws.sum → 0 < ws.sum → weights F ws = .ok qs → |val F qs.sum - 1| ≤ ws.length * (ulp F / 2)

/-- Two equal weights: each share is one. -/
theorem C227_false : ¬ C227_statement := by
  intro h
  have := h fixed32r (by decide) rfl (by decide) (by decide) [65536, 65536] [65536, 65536] (by decide) (by decide) (by decide) (by decide +kernel)
  norm_num [val, ulp, fixed32r, abs_le] at this

/-- `q` is *twice* the share of `w` in `s`, rounded to the nearest. -/
def IsDoubleShare (F : FxTy) (s w q : Int) : Prop := ∃ n, q = 2 * n ∧ 0 ≤ n ∧ n ≤ 2 ^ F.f ∧ IsNearest F (val F w / val F s) n

theorem divAll_double {F : FxTy} (hF : F.Valid) (hr : F.r = true) (hf : F.f + 2 ≤ F.T.bits) (h1 : Storable F (2 * 2 ^ F.f)) {s : Int} (s0 : 0 < s)
    (ws : List Int) (h : ∀ w ∈ ws, Storable F w ∧ 0 ≤ w ∧ w ≤ s) : ∃ qs, divAll F s ws = .ok qs ∧ List.Forall₂ (IsDoubleShare F s) ws qs := by
  have hu := ulp_pos F
  have v1 : val F (2 ^ F.f) = 1 := by have := val_int F 1; simpa using this
  have hs : 0 < val F s := by rw [← val_zero F, val_lt]; exact s0
  induction ws with
  | nil => exact ⟨[], rfl, .nil⟩
  | cons w ws ih =>
    obtain ⟨qs, e, hq⟩ := ih fun x hx => h x (by simp [hx])
    obtain ⟨sw, w0, w1⟩ := h w (by simp)
    obtain ⟨z, n, ez, hn, hw⟩ := (C05_div_partial F hF hr hf w s sw).2 (by omega)
    have vw : 0 ≤ val F w := by rw [← val_zero F, val_le]; exact w0
    have h0 : 0 ≤ val F w / val F s := by positivity
    have hle : val F w / val F s ≤ 1 := by rw [div_le_one hs, val_le]; exact w1
    obtain ⟨a1, a2⟩ := abs_le.1 hn.1
    have n0 : 0 ≤ n := by
      have : val F (-1) < val F n := by rw [val_neg, val_one]; linarith
      rw [val_lt] at this; omega
    have n1 : n ≤ 2 ^ F.f := by
      have : val F n < val F (2 ^ F.f + 1) := by rw [val_add, val_one, v1]; linarith
      rw [val_lt] at this; omega
    have hz : z = 2 * n := isWrap_unique hF.tpos hw ⟨storable_mid (zero_fits F) h1 (by omega) (by omega), by simp⟩
    rw [hz] at ez
    refine ⟨2 * n :: qs, ?_, .cons ⟨n, rfl, n0, n1, hn⟩ hq⟩
    unfold divAll
    rw [ez, Res.bind_ok, e, Res.bind_ok]
    rfl

theorem double_sum {F : FxTy} {s : Int} {ws qs : List Int} (h : List.Forall₂ (IsDoubleShare F s) ws qs) :
    |val F qs.sum - 2 * (val F ws.sum / val F s)| ≤ ws.length * ulp F := by
  induction h with
  | nil => simp [val_zero]
  | @cons w q ws qs hq hl ih =>
    obtain ⟨n, rfl, -, -, hn⟩ := hq
    obtain ⟨a1, a2⟩ := abs_le.1 hn.1
    obtain ⟨i1, i2⟩ := abs_le.1 ih
    have v2 : val F (2 * n) = 2 * val F n := by rw [two_mul, val_add, two_mul]
    rw [List.sum_cons, List.sum_cons, val_add, val_add, add_div, List.length_cons, v2, abs_le]
    push_cast
    constructor <;> linarith

/-- C227 (what happens instead): every share is twice the exact one, rounded to the nearest, and together they are two, up to one ulp per weight. -/
theorem C227_weights_partial (F : FxTy) (hF : F.Valid) (hr : F.r = true) (hf : F.f + 2 ≤ F.T.bits) (h1 : Storable F (2 * 2 ^ F.f)) (ws : List Int)
    (h : ∀ w ∈ ws, Storable F w ∧ 0 ≤ w) (hs : Storable F ws.sum) (s0 : 0 < ws.sum) :
    ∃ qs, weights F ws = .ok qs ∧ List.Forall₂ (IsDoubleShare F ws.sum) ws qs ∧ |val F qs.sum - 2| ≤ ws.length * ulp F := by
  obtain ⟨qs, e, hq⟩ := divAll_double hF hr hf h1 s0 ws fun w hw =>
    ⟨(h w hw).1, (h w hw).2, List.single_le_sum (fun x hx => (h x hx).2) w hw⟩
  have hv : 0 < val F ws.sum := by rw [← val_zero F, val_lt]; exact s0
  have := double_sum hq
  rw [div_self hv.ne', mul_one] at this
  refine ⟨qs, ?_, hq, this⟩
  unfold weights
  rw [sumFrom_nonneg hF ws h 0 le_rfl (by rwa [zero_add]), Res.bind_ok, zero_add, e]

example : weights fixed32r [65536, 131072, 65536] = .ok [32768, 65536, 32768] ∧ weights fixed32r [1, 1, 1] = .ok [43690, 43690, 43690] := by decide +kernel

end Eirin.Props
