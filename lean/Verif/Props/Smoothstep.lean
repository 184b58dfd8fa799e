import Verif.Props.Smooth
import Verif.Props.Bisect
import Verif.Props.Dot

/-! # Property C214: the blending function `t * t * (3 - t - t)` -/

namespace Eirin.Props
open Spec

/-- The expression `t * t * (3 - t - t)`. -/
def smoothstep (F : FxTy) (t : Int) : Res Int := do
  let p ← mul F t t
  let a ← sub F (3 * 2 ^ F.f) t
  let b ← sub F a t
  mul F p b

/-- The exact blending function. -/
def exactStep (t : ℚ) : ℚ := t ^ 2 * (3 - 2 * t)

theorem exactStep_mono {a b : ℚ} (ha : 0 ≤ a) (hab : a ≤ b) (hb : b ≤ 1) : exactStep a ≤ exactStep b := by
  have h1 : a ^ 2 ≤ a := by nlinarith
  have h2 : b ^ 2 ≤ b := by nlinarith
  have h3 : 2 * (a * b) ≤ a + b := by nlinarith [sq_nonneg (a - b)]
  have h : exactStep b - exactStep a = (b - a) * (3 * (a + b) - 2 * (a ^ 2 + a * b + b ^ 2)) := by unfold exactStep; ring
  have : 0 ≤ (b - a) * (3 * (a + b) - 2 * (a ^ 2 + a * b + b ^ 2)) := mul_nonneg (by linarith) (by linarith)
  linarith

/-- C214 (as one would expect it): the blending function never decreases between 0 and 1. -/
def C214_statement : Prop :=
  ∀ F : FxTy, F.Valid → F.r = false → Storable F (3 * 2 ^ F.f) → ∀ t u a b : Int, 0 ≤ t → t ≤ u → u ≤ 2 ^ F.f →
    smoothstep F t = .ok a → smoothstep F u = .ok b → a ≤ b

/-- On `fixed32` the argument 1638 ulps gives 118 ulps, and 1639 ulps give 117. -/
theorem C214_false : ¬ C214_statement := by
  intro h
  have := h fixed32 (by decide) rfl (by decide) 1638 1639 118 117 (by norm_num) (by norm_num) (by decide) (by decide +kernel) (by decide +kernel)
  omega

/-- C214: between 0 and 1 the result is defined, lies between 0 and 1, is never above the exact value and less than four ulps below it. -/
theorem C214_value_partial (F : FxTy) (hF : F.Valid) (hr : F.r = false) (h3 : Storable F (3 * 2 ^ F.f)) (t : Int) (h0 : 0 ≤ t) (h1 : t ≤ 2 ^ F.f) :
    ∃ a, smoothstep F t = .ok a ∧ 0 ≤ a ∧ a ≤ 2 ^ F.f ∧ val F a ≤ exactStep (val F t) ∧ exactStep (val F t) < val F a + 4 * ulp F := by
  have hu := ulp_pos F
  have hp : (1 : Int) ≤ 2 ^ F.f := by exact_mod_cast Nat.one_le_two_pow
  have z := zero_fits F
  have v1 : val F (2 ^ F.f) = 1 := by have := val_int F 1; simpa using this
  have v3 : val F (3 * 2 ^ F.f) = 3 := by have := val_int F 3; simpa using this
  have u1 : ulp F ≤ 1 := by rw [← v1, ← val_one, val_le]; exact hp
  have hi : 3 ≤ val F F.T.hi := by rw [← v3, val_le]; exact h3.2
  have st : Storable F t := storable_mid z h3 h0 (by omega)
  have t0 : 0 ≤ val F t := by rw [← val_zero F, val_le]; exact h0
  have t1 : val F t ≤ 1 := by rw [← v1, val_le]; exact h1
  have tt : val F t * val F t ≤ 1 := by nlinarith
  have tn : 0 ≤ val F t * val F t := mul_nonneg t0 t0
  obtain ⟨p, ep, sp, p1, p2⟩ := mul_fit hF hr st st (by rw [abs_of_nonneg tn]; linarith)
  have sa : Storable F (3 * 2 ^ F.f - t) := storable_mid z h3 (by omega) (by omega)
  have sb : Storable F (3 * 2 ^ F.f - t - t) := storable_mid z h3 (by omega) (by omega)
  have p0 : 0 ≤ p := by
    have : val F 0 < val F (p + 1) := by rw [val_zero, val_add, val_one]; linarith
    rw [val_lt] at this; omega
  have p0' : 0 ≤ val F p := by rw [← val_zero F, val_le]; exact p0
  have vb : val F (3 * 2 ^ F.f - t - t) = 3 - 2 * val F t := by rw [val_sub, val_sub, v3]; ring
  have hb : 0 ≤ 3 - 2 * val F t := by linarith
  have hx : exactStep (val F t) = val F t * val F t * (3 - 2 * val F t) := by unfold exactStep; ring
  have x1 : exactStep (val F t) ≤ 1 := by
    have := exactStep_mono t0 t1 le_rfl
    have e1 : exactStep 1 = 1 := by norm_num [exactStep]
    linarith
  have q1 : val F p * (3 - 2 * val F t) ≤ exactStep (val F t) := by rw [hx]; exact mul_le_mul_of_nonneg_right p1 hb
  have q0 : 0 ≤ val F p * (3 - 2 * val F t) := mul_nonneg p0' hb
  have q2 : exactStep (val F t) ≤ val F p * (3 - 2 * val F t) + 3 * ulp F := by
    rw [hx]
    have := mul_le_mul_of_nonneg_right p2.le hb
    nlinarith [mul_nonneg hu.le t0]
  obtain ⟨a, ea, -, a1, a2⟩ := mul_fit hF hr sp sb (by rw [vb, abs_of_nonneg q0]; linarith)
  rw [vb] at a1 a2
  refine ⟨a, ?_, ?_, ?_, by linarith, by linarith⟩
  · unfold smoothstep
    rw [ep, Res.bind_ok, sub_storable hF h3 st sa, Res.bind_ok, sub_storable hF sa st sb, Res.bind_ok, ea]
  · have : val F 0 < val F (a + 1) := by rw [val_zero, val_add, val_one]; linarith
    rw [val_lt] at this; omega
  · have : val F a ≤ val F (2 ^ F.f) := by rw [v1]; linarith
    rwa [val_le] at this

/-- C214: the result never falls by more than three ulps. -/
theorem C214_order_partial (F : FxTy) (hF : F.Valid) (hr : F.r = false) (h3 : Storable F (3 * 2 ^ F.f)) (t u a b : Int) (h0 : 0 ≤ t) (h1 : t ≤ u)
    (h2 : u ≤ 2 ^ F.f) (ea : smoothstep F t = .ok a) (eb : smoothstep F u = .ok b) : a ≤ b + 3 := by
  obtain ⟨a', ea', -, -, a1, -⟩ := C214_value_partial F hF hr h3 t h0 (h1.trans h2)
  obtain ⟨b', eb', -, -, -, b1⟩ := C214_value_partial F hF hr h3 u (h0.trans h1) h2
  cases Res.ok.inj (ea.symm.trans ea')
  cases Res.ok.inj (eb.symm.trans eb')
  have v1 : val F (2 ^ F.f) = 1 := by have := val_int F 1; simpa using this
  have := exactStep_mono (a := val F t) (b := val F u) (by rw [← val_zero F, val_le]; exact h0) (val_le.2 h1) (by rw [← v1, val_le]; exact h2)
  have v4 : val F (b + 4) = val F b + 4 * ulp F := by
    rw [show b + 4 = b + 1 + 1 + 1 + 1 by ring, val_add, val_add, val_add, val_add, val_one]; ring
  have : val F a < val F (b + 4) := by rw [v4]; linarith
  rw [val_lt] at this; omega

/-- C214: the ends are exact. -/
theorem C214_ends (F : FxTy) (hF : F.Valid) (hr : F.r = false) (h3 : Storable F (3 * 2 ^ F.f)) :
    smoothstep F 0 = .ok 0 ∧ smoothstep F (2 ^ F.f) = .ok (2 ^ F.f) := by
  have hu := ulp_pos F
  have hp : (1 : Int) ≤ 2 ^ F.f := by exact_mod_cast Nat.one_le_two_pow
  have z := zero_fits F
  have v1 : val F (2 ^ F.f) = 1 := by have := val_int F 1; simpa using this
  have v3 : val F (3 * 2 ^ F.f) = 3 := by have := val_int F 3; simpa using this
  have u1 : ulp F ≤ 1 := by rw [← v1, ← val_one, val_le]; exact hp
  have hi : 3 ≤ val F F.T.hi := by rw [← v3, val_le]; exact h3.2
  have s1 : Storable F (2 ^ F.f) := storable_mid z h3 (by omega) (by omega)
  have s2 : Storable F (3 * 2 ^ F.f - 2 ^ F.f) := storable_mid z h3 (by omega) (by omega)
  have s4 : Storable F (3 * 2 ^ F.f - 0) := by rw [sub_zero]; exact h3
  have key : ∀ {x y n : Int}, Storable F x → Storable F y → |val F x * val F y| + ulp F ≤ val F F.T.hi → val F x * val F y = val F n → mul F x y = .ok n := by
    intro x y n hx hy hfit hv
    obtain ⟨p, ep, -, p1, p2⟩ := mul_fit hF hr hx hy hfit
    rw [hv] at p1 p2
    rw [← val_one, ← val_add, val_lt] at p2
    rw [val_le] at p1
    rw [ep, show p = n by omega]
  constructor
  · unfold smoothstep
    rw [key (n := 0) z z (by rw [val_zero, zero_mul, abs_zero]; linarith) (by rw [val_zero, zero_mul]), Res.bind_ok, sub_storable hF h3 z s4, Res.bind_ok,
      sub_storable hF s4 z (by rw [sub_zero]; exact s4), Res.bind_ok, sub_zero, sub_zero]
    exact key z h3 (by rw [val_zero, zero_mul, abs_zero]; linarith) (by rw [val_zero, zero_mul])
  · have e1 : 3 * 2 ^ F.f - 2 ^ F.f - 2 ^ F.f = (2 : Int) ^ F.f := by ring
    have m1 : mul F (2 ^ F.f) (2 ^ F.f) = .ok (2 ^ F.f) := key s1 s1 (by rw [v1, one_mul, abs_one]; linarith) (by rw [v1, one_mul])
    unfold smoothstep
    rw [m1, Res.bind_ok, sub_storable hF h3 s1 s2, Res.bind_ok, sub_storable hF s2 s1 (by rw [e1]; exact s1), Res.bind_ok, e1, m1]

example : smoothstep fixed32 32768 = .ok 32768 ∧ smoothstep fixed32 362 = .ok 2 ∧ 5 * ulp fixed32 < exactStep (val fixed32 362) := by
  refine ⟨by decide +kernel, by decide +kernel, by norm_num [exactStep, val, ulp, fixed32]⟩

end Eirin.Props
