import Verif.Props.CountLoop
import Verif.Props.Smooth
import Verif.Props.Bisect

/-! # Property C215: a fixed time step does not depend on the frame rate -/

namespace Eirin.Props
open Spec

/-- `while(acc >= dt) { acc -= dt; ++n; }`, with the number of passes cut off at `fuel`: a loop that would go on is `.ub .diverges`. -/
def drain (F : FxTy) (dt : Int) : Nat → Int → Nat → Res (Int × Nat)
  | 0, _, _ => .ub .diverges
  | fuel + 1, a, n =>
    if ge a dt then do
      let a' ← subAssign F a dt
      drain F dt fuel a' (n + 1)
    else .ok (a, n)

/-- `for(d : frames) { acc += d; while(acc >= dt) { acc -= dt; ++n; } }`. -/
def frames (F : FxTy) (dt : Int) (fuel : Nat) : List Int → Int × Nat → Res (Int × Nat)
  | [], s => .ok s
  | d :: l, s => do
    let a ← addAssign F s.1 d
    let s' ← drain F dt fuel a s.2
    frames F dt fuel l s'

theorem drain_exact {F : FxTy} (hF : F.Valid) {dt : Int} (hdt : Storable F dt) (h0 : 0 < dt) (fuel : Nat) (a : Int) (n : Nat) (ha : Storable F a)
    (a0 : 0 ≤ a) (hf : a < fuel * dt) : ∃ (b : Int) (k : Nat), drain F dt fuel a n = .ok (b, n + k) ∧ 0 ≤ b ∧ b < dt ∧ b + k * dt = a := by
  induction fuel generalizing a n with
  | zero => push_cast at hf; omega
  | succ fuel ih =>
    unfold drain
    by_cases h : dt ≤ a
    · have hs : Storable F (a - dt) := storable_mid (zero_fits F) ha (by omega) (by omega)
      obtain ⟨b, k, e, b0, b1, b2⟩ := ih (a - dt) (n + 1) hs (by omega) (by push_cast at hf; linarith)
      refine ⟨b, k + 1, ?_, b0, b1, by push_cast; linarith⟩
      rw [if_pos (ge_iff.2 h), show subAssign F a dt = sub F a dt from rfl, sub_storable hF ha hdt hs, Res.bind_ok, e, show n + 1 + k = n + (k + 1) by omega]
    · exact ⟨a, 0, by rw [if_neg (by rw [ge_iff]; exact h)]; rfl, a0, by omega, by simp⟩

/-- C215: on every layout, rounding or not, the number of time steps is exactly the whole number of times the step fits into the total time, and the
rest is kept exactly, after any number of frames of any lengths. -/
theorem C215_steps (F : FxTy) (hF : F.Valid) (dt : Int) (hdt : Storable F dt) (h0 : 0 < dt) (fuel : Nat) (l : List Int)
    (hl : ∀ d ∈ l, Storable F d ∧ 0 ≤ d ∧ Storable F (dt - 1 + d) ∧ dt + d ≤ fuel * dt) (a : Int) (n : Nat) (a0 : 0 ≤ a) (a1 : a < dt) :
    ∃ (b : Int) (m : Nat), frames F dt fuel l (a, n) = .ok (b, n + m) ∧ 0 ≤ val F b ∧ val F b < val F dt ∧
      val F b + m * val F dt = val F a + (l.map (val F)).sum := by
  induction l generalizing a n with
  | nil =>
    refine ⟨a, 0, rfl, by rw [← val_zero F, val_le]; exact a0, val_lt.2 a1, by simp⟩
  | cons d l ih =>
    obtain ⟨sd, d0, hs, hf⟩ := hl d (by simp)
    have sa : Storable F a := storable_mid (zero_fits F) hdt a0 a1.le
    have sad : Storable F (a + d) := storable_mid (zero_fits F) hs (by omega) (by omega)
    obtain ⟨b, k, e, b0, b1, b2⟩ := drain_exact hF hdt h0 fuel (a + d) n sad (by omega) (by omega)
    obtain ⟨c, m, e', c0, c1, c2⟩ := ih (fun x hx => hl x (by simp [hx])) b (n + k) b0 b1
    refine ⟨c, k + m, ?_, c0, c1, ?_⟩
    · unfold frames
      rw [addAssign_exact hF sa sd sad, Res.bind_ok]
      dsimp only
      rw [e, Res.bind_ok, e', Nat.add_assoc]
    · have hb := congrArg (val F) b2
      rw [val_add, val_add] at hb
      have hk : val F ((k : Int) * dt) = k * val F dt := by unfold val; push_cast; ring
      rw [hk] at hb
      rw [List.map_cons, List.sum_cons]
      push_cast
      linarith

/-- C215: two sequences of frames with the same total time give the same number of steps and the same rest. -/
theorem C215_rate (F : FxTy) (hF : F.Valid) (dt : Int) (hdt : Storable F dt) (h0 : 0 < dt) (fuel : Nat) (l l' : List Int)
    (hl : ∀ d ∈ l, Storable F d ∧ 0 ≤ d ∧ Storable F (dt - 1 + d) ∧ dt + d ≤ fuel * dt)
    (hl' : ∀ d ∈ l', Storable F d ∧ 0 ≤ d ∧ Storable F (dt - 1 + d) ∧ dt + d ≤ fuel * dt) (a : Int) (n : Nat) (a0 : 0 ≤ a) (a1 : a < dt)
    (hsum : (l.map (val F)).sum = (l'.map (val F)).sum) : ∃ s, frames F dt fuel l (a, n) = .ok s ∧ frames F dt fuel l' (a, n) = .ok s := by
  obtain ⟨b, m, e, b0, b1, b2⟩ := C215_steps F hF dt hdt h0 fuel l hl a n a0 a1
  obtain ⟨b', m', e', b0', b1', b2'⟩ := C215_steps F hF dt hdt h0 fuel l' hl' a n a0 a1
  have hd : 0 < val F dt := by rw [← val_zero F, val_lt]; exact h0
  have hm : m = m' := by
    rcases lt_trichotomy m m' with h | h | h
    · have : (m : ℚ) + 1 ≤ m' := by exact_mod_cast h
      nlinarith
    · exact h
    · have : (m' : ℚ) + 1 ≤ m := by exact_mod_cast h
      nlinarith
  subst hm
  have hb : b = b' := val_inj (F := F) (by linarith)
  subst hb
  exact ⟨_, e, e'⟩

/-- Frames of 1/60 s and of 1/30 s, in steps of 0.02 s: the same number of steps and the same rest. -/
example : frames fixed32 1311 10 [1092, 1092, 1092, 1092, 1092, 1092] (0, 0) = .ok (1308, 4) ∧
    frames fixed32 1311 10 [2184, 2184, 2184] (0, 0) = .ok (1308, 4) := by decide +kernel

/-- C215: with a time step of zero the inner loop never ends. -/
theorem C215_zero (F : FxTy) (hF : F.Valid) (fuel : Nat) (a : Int) (n : Nat) (ha : Storable F a) (a0 : 0 ≤ a) : drain F 0 fuel a n = .ub .diverges := by
  induction fuel generalizing n with
  | zero => rfl
  | succ fuel ih =>
    unfold drain
    rw [if_pos (ge_iff.2 a0), show subAssign F a 0 = sub F a 0 from rfl, sub_storable hF ha (zero_fits F) (by rw [sub_zero]; exact ha), Res.bind_ok, sub_zero, ih]

example : drain fixed32 0 20 65536 0 = .ub .diverges ∧ drain fixed32 1 20 15 0 = .ok (0, 15) := by decide +kernel

end Eirin.Props
