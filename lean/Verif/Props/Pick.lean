import Verif.Props.Sums
import Verif.Props.Smooth
import Verif.Props.Bisect
import Verif.Lemmas.Mixed

/-! # Property C219: choosing an index by weights -/

namespace Eirin.Props
open Spec

/-- `for(i = 0; i < n; ++i) { if(r < w[i]) return i; r -= w[i]; } return none;`. -/
def pick (F : FxTy) : List Int → Int → Res (Option Nat)
  | [], _ => .ok none
  | w :: ws, r =>
    if lt r w then .ok (some 0) else do
      let r' ← subAssign F r w
      let i ← pick F ws r'
      pure (i.map (· + 1))

/-- `i` is the index whose piece of the line contains `r`, if the weights are laid out one after the other from zero. -/
def IsPick (F : FxTy) (ws : List Int) (r : Int) (i : Nat) : Prop :=
  i < ws.length ∧ total F 0 (ws.take i) ≤ val F r ∧ val F r < total F 0 (ws.take (i + 1))

theorem isPick_iff {F : FxTy} {ws : List Int} {r : Int} {i : Nat} :
    IsPick F ws r i ↔ i < ws.length ∧ (ws.take i).sum ≤ r ∧ r < (ws.take (i + 1)).sum := by
  unfold IsPick
  rw [total_eq, total_eq, zero_add, zero_add, val_le, val_lt]

theorem pick_core {F : FxTy} (hF : F.Valid) (ws : List Int) (h : ∀ w ∈ ws, Storable F w ∧ 0 ≤ w) (r : Int) (hr : Storable F r) (r0 : 0 ≤ r) :
    (ws.sum ≤ r ∧ pick F ws r = .ok none) ∨ ∃ i, pick F ws r = .ok (some i) ∧ IsPick F ws r i := by
  induction ws generalizing r with
  | nil => exact .inl ⟨by simpa using r0, rfl⟩
  | cons w ws ih =>
    obtain ⟨sw, w0⟩ := h w (by simp)
    by_cases hw : r < w
    · refine .inr ⟨0, by unfold pick; rw [if_pos (lt_iff.2 hw)], isPick_iff.2 ⟨by simp, by simpa using r0, by simpa using hw⟩⟩
    · have hs : Storable F (r - w) := storable_mid (zero_fits F) hr (by omega) (by omega)
      have e : pick F (w :: ws) r = (do let i ← pick F ws (r - w); pure (i.map (· + 1))) := by
        conv_lhs => unfold pick
        rw [if_neg (by rw [lt_iff]; exact hw), show subAssign F r w = sub F r w from rfl, sub_storable hF hr sw hs, Res.bind_ok]
      rw [e]
      rcases ih (fun x hx => h x (by simp [hx])) (r - w) hs (by omega) with ⟨h1, h2⟩ | ⟨i, h1, h2⟩
      · left
        rw [h2, Res.bind_ok, List.sum_cons]
        exact ⟨by omega, rfl⟩
      · right
        rw [isPick_iff] at h2
        rw [h1, Res.bind_ok]
        refine ⟨i + 1, rfl, isPick_iff.2 ⟨by simp; omega, ?_, ?_⟩⟩
        · rw [List.take_succ_cons, List.sum_cons]; omega
        · rw [List.take_succ_cons, List.sum_cons]; omega

/-- C219: for every list of nonnegative weights and every nonnegative number below their exact total, the loop is defined and returns the index whose
piece contains the number. The weight of this index is positive. -/
theorem C219_pick (F : FxTy) (hF : F.Valid) (ws : List Int) (h : ∀ w ∈ ws, Storable F w ∧ 0 ≤ w) (r : Int) (hr : Storable F r) (r0 : 0 ≤ r)
    (h1 : val F r < total F 0 ws) : ∃ i, pick F ws r = .ok (some i) ∧ IsPick F ws r i ∧ ∃ w, ws[i]? = some w ∧ 0 < w := by
  rw [total_eq, zero_add, val_lt] at h1
  rcases pick_core hF ws h r hr r0 with ⟨h2, -⟩ | ⟨i, h2, h3⟩
  · omega
  · refine ⟨i, h2, h3, ?_⟩
    rw [isPick_iff] at h3
    obtain ⟨l, a, b⟩ := h3
    refine ⟨ws[i], List.getElem?_eq_getElem l, ?_⟩
    rw [List.sum_take_succ _ _ l] at b
    omega

/-- C219: a number that is not below the total chooses nothing. -/
theorem C219_none (F : FxTy) (hF : F.Valid) (ws : List Int) (h : ∀ w ∈ ws, Storable F w ∧ 0 ≤ w) (r : Int) (hr : Storable F r) (r0 : 0 ≤ r)
    (h1 : total F 0 ws ≤ val F r) : pick F ws r = .ok none := by
  rw [total_eq, zero_add, val_le] at h1
  rcases pick_core hF ws h r hr r0 with ⟨-, h2⟩ | ⟨i, -, h3⟩
  · exact h2
  · rw [isPick_iff] at h3
    have : (ws.take (i + 1)).sum ≤ ws.sum := by
      conv_rhs => rw [← List.take_append_drop (i + 1) ws, List.sum_append]
      have : 0 ≤ (ws.drop (i + 1)).sum := List.sum_nonneg fun x hx => (h x (List.mem_of_mem_drop hx)).2
      omega
    omega

/-- C219: two numbers in order choose two indices in order. -/
theorem C219_mono (F : FxTy) (hF : F.Valid) (ws : List Int) (h : ∀ w ∈ ws, Storable F w ∧ 0 ≤ w) (r s : Int) (i j : Nat) (hr : Storable F r)
    (hs : Storable F s) (r0 : 0 ≤ r) (hrs : r ≤ s) (hi : pick F ws r = .ok (some i)) (hj : pick F ws s = .ok (some j)) : i ≤ j := by
  have get : ∀ {x : Int} {k : Nat}, Storable F x → 0 ≤ x → pick F ws x = .ok (some k) → IsPick F ws x k := by
    intro x k sx x0 e
    rcases pick_core hF ws h x sx x0 with ⟨-, h2⟩ | ⟨k', h2, h3⟩
    · rw [e] at h2; cases h2
    · rw [e] at h2; cases h2; exact h3
  have a := isPick_iff.1 (get hr r0 hi)
  have b := isPick_iff.1 (get hs (r0.trans hrs) hj)
  by_contra hc
  have : (ws.take (j + 1)).sum ≤ (ws.take i).sum := by
    have e : ws.take (j + 1) = (ws.take i).take (j + 1) := by rw [List.take_take, min_eq_left (by omega)]
    rw [e]
    conv_rhs => rw [← List.take_append_drop (j + 1) (ws.take i), List.sum_append]
    have : 0 ≤ ((ws.take i).drop (j + 1)).sum := List.sum_nonneg fun x hx => (h x (List.mem_of_mem_take (List.mem_of_mem_drop hx))).2
    omega
  omega

example : pick fixed32 [65536, 0, 32768] 65535 = .ok (some 0) ∧ pick fixed32 [65536, 0, 32768] 65536 = .ok (some 2) ∧
    pick fixed32 [65536, 0, 32768] 98304 = .ok none := by decide +kernel

end Eirin.Props
