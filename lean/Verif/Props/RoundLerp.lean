import Verif.Props.Smooth
import Verif.Props.Bisect
import Verif.Props.RoundPowNeg
import Verif.Props.RoundDot

/-! # Property C209: interpolation and smoothing in rounding types -/

namespace Eirin.Props
open Spec

/-- C209 as one would expect it from C190: interpolation stays between its ends. -/
def C209_statement : Prop :=
  ∀ F : FxTy, F.Valid → F.r = true → ∀ a b t, Storable F a → Storable F b → Storable F t → Storable F (b - a) → 0 ≤ val F t → val F t ≤ 1 →
    ∃ z, lerp F a b t = .ok z ∧ ((a ≤ z ∧ z ≤ b) ∨ (b ≤ z ∧ z ≤ a))

theorem add_storable {F : FxTy} (hF : F.Valid) {x y : Int} (hx : Storable F x) (hy : Storable F y) (hs : Storable F (x + y)) :
    add F x y = .ok (x + y) := by
  rw [add_nf hF hx hy, if_neg fun h => h.2 hs, IntTy.wrap_of_inRange hF.tpos hs]

/-- C209 (what happens instead): the result is within one ulp of `a + 2 (b - a) t`, if that fits. -/
theorem C209_lerp_partial (F : FxTy) (hF : F.Valid) (hr : F.r = true) (a b t : Int) (ha : Storable F a) (hb : Storable F b) (ht : Storable F t)
    (hd : Storable F (b - a)) (hfit : |val F a| + 2 * |(val F b - val F a) * val F t| + ulp F ≤ val F F.T.hi) :
    ∃ z, lerp F a b t = .ok z ∧ Storable F z ∧ |val F z - (val F a + 2 * ((val F b - val F a) * val F t))| ≤ ulp F := by
  obtain ⟨p, ep, sp, hp⟩ := mul_fit_r hF hr hd ht (by rw [val_sub]; have := abs_nonneg (val F a); linarith)
  rw [val_sub] at hp
  obtain ⟨e, s⟩ := add_fit hF ha sp (by
    obtain ⟨p1, p2⟩ := abs_le.1 hp
    obtain ⟨a1, a2⟩ := abs_le.1 (le_refl |val F a|)
    obtain ⟨m1, m2⟩ := abs_le.1 (le_refl |(val F b - val F a) * val F t|)
    rw [abs_le]; constructor <;> linarith)
  refine ⟨a + p, ?_, s, ?_⟩
  · unfold lerp
    rw [sub_storable hF hb ha hd, Res.bind_ok, ep, Res.bind_ok, e]
  · rw [val_add, show val F a + val F p - (val F a + 2 * ((val F b - val F a) * val F t)) = val F p - 2 * ((val F b - val F a) * val F t) by ring]
    exact hp

/-- C209 (what happens instead): at one the result is the reflection `2 b - a` of the start at the end. -/
theorem C209_reflect_partial (F : FxTy) (hF : F.Valid) (hr : F.r = true) (a b : Int) (ha : Storable F a) (hb : Storable F b) (h1 : Storable F (2 ^ F.f))
    (hd : Storable F (b - a)) (hd2 : Storable F (2 * (b - a))) (hs : Storable F (2 * b - a)) : lerp F a b (2 ^ F.f) = .ok (2 * b - a) := by
  have v1 : val F (2 ^ F.f) = 1 := by have := val_int F 1; rw [one_mul] at this; rw [this]; norm_num
  obtain ⟨z, k, e, hn, hw⟩ := C05_mul_partial F hF hr _ _ hd h1
  have hk : k = b - a := nearest_self (by rw [v1, mul_one]) hn
  subst hk
  have : z = 2 * (b - a) := isWrap_unique hF.tpos hw ⟨hd2, by simp⟩
  subst this
  have es : a + 2 * (b - a) = 2 * b - a := by ring
  unfold lerp
  rw [sub_storable hF hb ha hd, Res.bind_ok, e, Res.bind_ok, add_storable hF ha hd2 (by rw [es]; exact hs), es]

/-- C209 (what happens instead): smoothing with factor one, which should reach the target `x` in one step, jumps between the start and its reflection
for ever. -/
theorem C209_oscillate_partial (F : FxTy) (hF : F.Valid) (hr : F.r = true) (x y : Int) (hx : Storable F x) (hy : Storable F y) (h1 : Storable F (2 ^ F.f))
    (hd : Storable F (x - y)) (hd2 : Storable F (2 * (x - y))) (he : Storable F (y - x)) (he2 : Storable F (2 * (y - x))) (hs : Storable F (2 * x - y))
    (n : Nat) : smooth F x (2 ^ F.f) n y = .ok (if n % 2 = 0 then y else 2 * x - y) := by
  have s1 : lerp F y x (2 ^ F.f) = .ok (2 * x - y) := C209_reflect_partial F hF hr y x hy hx h1 hd hd2 hs
  have e1 : x - (2 * x - y) = y - x := by ring
  have e2 : 2 * x - (2 * x - y) = y := by ring
  have s2 : lerp F (2 * x - y) x (2 ^ F.f) = .ok y := by
    have := C209_reflect_partial F hF hr (2 * x - y) x hs hx h1 (by rw [e1]; exact he) (by rw [e1]; exact he2) (by rw [e2]; exact hy)
    rwa [e2] at this
  have key : ∀ n, smooth F x (2 ^ F.f) n y = .ok (if n % 2 = 0 then y else 2 * x - y) ∧
      smooth F x (2 ^ F.f) n (2 * x - y) = .ok (if n % 2 = 0 then 2 * x - y else y) := by
    intro n
    induction n with
    | zero => exact ⟨rfl, rfl⟩
    | succ n ih =>
      unfold smooth
      rw [s1, s2, Res.bind_ok, Res.bind_ok, ih.1, ih.2]
      rcases Nat.mod_two_eq_zero_or_one n with h | h
      · have h' : (n + 1) % 2 = 1 := by omega
        simp [h, h']
      · have h' : (n + 1) % 2 = 0 := by omega
        simp [h, h']
  exact (key n).1

example : lerp fixed32r 0 65536 65536 = .ok 131072 ∧ lerp fixed32r 0 65536 32768 = .ok 65536 ∧ smooth fixed32r 65536 65536 7 0 = .ok 131072 ∧
    smooth fixed32r 65536 65536 8 0 = .ok 0 := by decide +kernel

/-- C209 is false of the code: in the rounding variant of `fixed32`, interpolation from zero to one at one gives two. -/
theorem C209_false : ¬ C209_statement := by
  intro h
  obtain ⟨z, e, hz⟩ := h fixed32r (by decide) rfl 0 65536 65536 (by decide) (by decide) (by decide) (by decide) (by norm_num [val, fixed32r])
    (by norm_num [val, fixed32r])
  have e0 : lerp fixed32r 0 65536 65536 = .ok 131072 := by decide +kernel
  have : z = 131072 := Res.ok.inj (e.symm.trans e0)
  omega

end Eirin.Props
