import Verif.Props.Undo

/-! # Property C211: leapfrog integration runs backwards exactly -/

namespace Eirin.Props
open Spec

/-- One step of `x += v * dt; v += acc(x) * dt;`. -/
def leap (F : FxTy) (dt : Int) (acc : Int → Res Int) (s : Int × Int) : Res (Int × Int) := do
  let p ← mul F s.2 dt
  let x ← addAssign F s.1 p
  let a ← acc x
  let q ← mul F a dt
  let v ← addAssign F s.2 q
  pure (x, v)

/-- The same step backwards: `v -= acc(x) * dt; x -= v * dt;`. -/
def leapBack (F : FxTy) (dt : Int) (acc : Int → Res Int) (s : Int × Int) : Res (Int × Int) := do
  let a ← acc s.1
  let q ← mul F a dt
  let v ← subAssign F s.2 q
  let p ← mul F v dt
  let x ← subAssign F s.1 p
  pure (x, v)

/-- A number of steps. -/
def repeatRes {α : Type} (f : α → Res α) : Nat → α → Res α
  | 0, s => .ok s
  | n + 1, s => f s >>= repeatRes f n

theorem leap_ok_bind {α β : Type} {m : Res α} {k : α → Res β} {b : β} (h : (m >>= k) = .ok b) : ∃ a, m = .ok a ∧ k a = .ok b := by
  cases m with
  | ok a => exact ⟨a, rfl, h⟩
  | ub u => cases h
  | throw e => cases h

theorem mul_storable {F : FxTy} (hF : F.Valid) {x y z : Int} (hx : Storable F x) (hy : Storable F y) (h : mul F x y = .ok z) : Storable F z := by
  cases hr : F.r
  · obtain ⟨w, n, e, -, hw, -⟩ := C02_mul_floor F hF hr x y hx hy
    rw [e] at h
    exact Res.ok.inj h ▸ hw.1
  · obtain ⟨w, n, e, -, hw⟩ := C05_mul_partial F hF hr x y hx hy
    rw [e] at h
    exact Res.ok.inj h ▸ hw.1

theorem leap_inv {F : FxTy} (hF : F.Valid) {dt : Int} (hdt : Storable F dt) {acc : Int → Res Int}
    (hacc : ∀ x z, Storable F x → acc x = .ok z → Storable F z) {s t : Int × Int} (h1 : Storable F s.1) (h2 : Storable F s.2)
    (h : leap F dt acc s = .ok t) : Storable F t.1 ∧ Storable F t.2 ∧ leapBack F dt acc t = .ok s := by
  obtain ⟨x, v⟩ := s
  unfold leap at h
  obtain ⟨p, ep, h⟩ := leap_ok_bind h
  obtain ⟨x', ex, h⟩ := leap_ok_bind h
  obtain ⟨a, ea, h⟩ := leap_ok_bind h
  obtain ⟨q, eq, h⟩ := leap_ok_bind h
  obtain ⟨v', ev, h⟩ := leap_ok_bind h
  have ht : (x', v') = t := Res.ok.inj h
  subst ht
  have sp := mul_storable hF h2 hdt ep
  have ux : update F x (true, p) = .ok x' := ex
  have sx := (update_wrap hF h1 sp ux).1.1
  have sa := hacc _ _ sx ea
  have sq := mul_storable hF sa hdt eq
  have uv : update F v (true, q) = .ok v' := ev
  have sv := (update_wrap hF h2 sq uv).1.1
  have bv : subAssign F v' q = .ok v := update_undo hF h2 sq uv
  have bx : subAssign F x' p = .ok x := update_undo hF h1 sp ux
  refine ⟨sx, sv, ?_⟩
  unfold leapBack
  dsimp only at ep ⊢
  rw [ea, Res.bind_ok, eq, Res.bind_ok, bv, Res.bind_ok, ep, Res.bind_ok, bx, Res.bind_ok]
  rfl

theorem repeatRes_snoc {α : Type} (f : α → Res α) (n : Nat) (s : α) : repeatRes f (n + 1) s = repeatRes f n s >>= f := by
  induction n generalizing s with
  | zero =>
    show f s >>= repeatRes f 0 = f s
    cases f s <;> rfl
  | succ n ih =>
    show f s >>= repeatRes f (n + 1) = (f s >>= repeatRes f n) >>= f
    cases f s with
    | ok a => exact ih a
    | ub u => rfl
    | throw e => rfl

/-- C211: if any number of leapfrog steps with any force runs without undefined behaviour or exception, then as many backward steps lead back to the
first position and velocity exactly. -/
theorem C211_reversible (F : FxTy) (hF : F.Valid) (dt : Int) (hdt : Storable F dt) (acc : Int → Res Int)
    (hacc : ∀ x z, Storable F x → acc x = .ok z → Storable F z) (n : Nat) (s t : Int × Int) (h1 : Storable F s.1) (h2 : Storable F s.2)
    (h : repeatRes (leap F dt acc) n s = .ok t) : repeatRes (leapBack F dt acc) n t = .ok s := by
  induction n generalizing s with
  | zero => cases h; rfl
  | succ n ih =>
    obtain ⟨m, em, hm⟩ := leap_ok_bind h
    obtain ⟨s1, s2, eb⟩ := leap_inv hF hdt hacc h1 h2 em
    rw [repeatRes_snoc, ih m s1 s2 hm, Res.bind_ok, eb]

/-- C211: two different states never run into the same state. -/
theorem C211_injective (F : FxTy) (hF : F.Valid) (dt : Int) (hdt : Storable F dt) (acc : Int → Res Int)
    (hacc : ∀ x z, Storable F x → acc x = .ok z → Storable F z) (n : Nat) (s s' t : Int × Int) (h1 : Storable F s.1) (h2 : Storable F s.2)
    (h1' : Storable F s'.1) (h2' : Storable F s'.2) (h : repeatRes (leap F dt acc) n s = .ok t) (h' : repeatRes (leap F dt acc) n s' = .ok t) : s = s' := by
  have a := C211_reversible F hF dt hdt acc hacc n s t h1 h2 h
  have b := C211_reversible F hF dt hdt acc hacc n s' t h1' h2' h'
  rw [a] at b
  exact Res.ok.inj b

/-- An oscillator: the force is the negative position. Forty steps forward and back. -/
example : repeatRes (leap fixed32 6554 (neg fixed32)) 40 (65536, 0) = .ok (-45234, 49758) ∧
    repeatRes (leapBack fixed32 6554 (neg fixed32)) 40 (-45234, 49758) = .ok (65536, 0) := by decide +kernel

end Eirin.Props
