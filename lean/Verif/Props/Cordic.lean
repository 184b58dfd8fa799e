import Verif.Lemmas.Cordic
import Verif.Spec

/-!
# C65–C66: CORDIC sine

Spec: the library's own `pi` of the type is `P` (raw).  A reduced angle `Q` with signs `(s, c)` represents the angle `X` if `X` is,
modulo `2 P`, one of `Q`, `P - Q`, `P + Q`, `2 P - Q`, the four reflections having the sine/cosine signs `(+,+)`, `(+,-)`, `(-,-)`, `(-,+)`.
-/

namespace Eirin.Props
open Spec

/-- The two types for which `cordic_sine` exists (`cordic.hpp:142-152`). -/
def CordicTy (F : FxTy) : Prop := F = fixed32 ∨ F = fixed64

/-- `Q ∈ [0, P/2]` stands for the angle `X` in the quadrant whose sine and cosine signs are `s` and `c`. -/
def Quadrant (P X Q s c : Int) : Prop :=
  0 ≤ Q ∧ 2 * Q ≤ P ∧ ∃ m : Int,
    (s = 1 ∧ c = 1 ∧ X = 2 * P * m + Q) ∨ (s = 1 ∧ c = -1 ∧ X = 2 * P * m + (P - Q)) ∨
    (s = -1 ∧ c = -1 ∧ X = 2 * P * m + (P + Q)) ∨ (s = -1 ∧ c = 1 ∧ X = 2 * P * m + (2 * P - Q))

theorem cordicTy_ct {F : FxTy} (hF : CordicTy F) : ∃ k tab P, CT F k tab P := by
  rcases hF with rfl | rfl
  · exact ⟨_, _, _, ct32⟩
  · exact ⟨_, _, _, ct64⟩

theorem quadrant_red {P : Int} (hP : 0 < P) (X : Int) : Quadrant P X (credQ P X) (credS P X) (credC P X) := by
  have r0 := Int.emod_nonneg X (show P * 2 ≠ 0 by omega)
  have r1 := Int.emod_lt_of_pos X (show 0 < P * 2 by omega)
  have e : X = 2 * P * (X / (P * 2)) + X % (P * 2) := by
    have := Int.mul_ediv_add_emod X (P * 2); linarith
  unfold Quadrant credQ credS credC
  generalize X % (P * 2) = r at *
  generalize X / (P * 2) = m at *
  simp only []
  by_cases c1 : P < r
  · simp only [if_pos c1]
    by_cases c2 : P / 2 < r - P
    · simp only [if_pos c2]
      refine ⟨by omega, by omega, m, Or.inr (Or.inr (Or.inr ⟨by first | rfl | decide, by first | rfl | decide, ?_⟩))⟩; linarith
    · simp only [if_neg c2]
      refine ⟨by omega, by omega, m, Or.inr (Or.inr (Or.inl ⟨by first | rfl | decide, by first | rfl | decide, ?_⟩))⟩; linarith
  · simp only [if_neg c1]
    by_cases c2 : P / 2 < r
    · simp only [if_pos c2]
      refine ⟨by omega, by omega, m, Or.inr (Or.inl ⟨by first | rfl | decide, by first | rfl | decide, ?_⟩)⟩; linarith
    · simp only [if_neg c2]
      refine ⟨by omega, by omega, m, Or.inl ⟨by first | rfl | decide, by first | rfl | decide, ?_⟩⟩; linarith

theorem mag_of_nonneg {F : FxTy} {x : Int} (h : 0 ≤ x) : cmag F x = x := by unfold cmag; rw [if_neg (by omega)]
theorem mag_of_neg {F : FxTy} {x : Int} (h : x < 0) : cmag F x = x + 2 ^ (F.T.bits - 1) := by unfold cmag; rw [if_pos h]

/-- C65: full statement. -/
def C65_statement : Prop :=
  ∀ F, CordicTy F → ∀ x, Storable F x →
    (0 ≤ x → ∃ P Q s c, cPi F = .ok P ∧ cordicOptimizeAngel F x 1 = .ok (Q, s, c) ∧ Quadrant P x Q s c) ∧
    (x < 0 → Storable F (-x) → ∃ v, cordicSine F (-x) = .ok v ∧ cordicSine F x = .ok (-v))

/-- C65 is false of the code: for negative angles the "absolute value" clears the sign bit of the two's complement
representation, so `-1.0` is treated as `32767.0`; `cordic_sine(1) = 55150`, `cordic_sine(-1) = -16526` (raw, `fixed32`). -/
theorem C65_false : ¬ C65_statement := by
  intro h
  obtain ⟨v, e1, e2⟩ := (h fixed32 (Or.inl rfl) (-65536) (by decide +kernel)).2 (by decide) (by decide +kernel)
  have e3 : cordicSine fixed32 (- -65536) = .ok 55150 := by decide +kernel
  have e4 : cordicSine fixed32 (-65536) = .ok (-16526) := by decide +kernel
  rw [e3] at e1; rw [e4] at e2
  have e1 := Res.ok.inj e1; have e2 := Res.ok.inj e2
  omega

/-- C65 for every non-negative angle: the reduced angle lies in `[0, pi/2]`, with the quadrant's signs and congruent to the input up
to the reflection.  Full statement: `C65_statement`; missing (false): negative angles give the negated sine. -/
theorem C65_nonneg_partial (F : FxTy) (hF : CordicTy F) (x : Int) (hx : Storable F x) (h0 : 0 ≤ x) :
    ∃ P Q s c, cPi F = .ok P ∧ cordicOptimizeAngel F x 1 = .ok (Q, s, c) ∧ Storable F Q ∧ Quadrant P x Q s c := by
  obtain ⟨k, tab, P, h⟩ := cordicTy_ct hF
  refine ⟨P, _, _, _, h.piE, h.reduce_ok hx, ?_, ?_⟩
  · have q := quadrant_red h.pi0 (cmag F x)
    have := h.sw.lo_hi; have := h.pi2
    exact ⟨by have := q.1; have := h.pi0; omega, by have := q.2.1; have := q.1; omega⟩
  · have q := quadrant_red h.pi0 (cmag F x)
    rw [mag_of_nonneg h0] at q ⊢
    rw [if_neg (by omega), one_mul]; exact q

example : CordicTy fixed64 ∧ Storable fixed64 (40 * 2 ^ 32) ∧ (0 : Int) ≤ 40 * 2 ^ 32 := ⟨Or.inr rfl, by decide +kernel, by decide⟩
example : Quadrant 205887 (7 * 65536) 46978 1 1 := ⟨by decide, by decide, 1, Or.inl ⟨rfl, rfl, by decide⟩⟩

/-- C65, what happens to negative angles: the reduction is that of `x + 2^(bits-1)` (not of `-x`), with the sine sign flipped. -/
theorem C65_negative (F : FxTy) (hF : CordicTy F) (x : Int) (hx : Storable F x) (h0 : x < 0) :
    ∃ P Q s c, cPi F = .ok P ∧ cordicOptimizeAngel F x 1 = .ok (Q, -s, c) ∧ Quadrant P (x + 2 ^ (F.T.bits - 1)) Q s c := by
  obtain ⟨k, tab, P, h⟩ := cordicTy_ct hF
  refine ⟨P, _, _, _, h.piE, ?_, quadrant_red h.pi0 _⟩
  rw [h.reduce_ok hx, mag_of_neg h0, if_pos h0, neg_one_mul]

example : CordicTy fixed32 ∧ Storable fixed32 (-65536) ∧ (-65536 : Int) < 0 := ⟨Or.inl rfl, by decide +kernel, by decide⟩

/-- C66: full statement. -/
def C66_statement : Prop :=
  ∀ F, CordicTy F → ∀ x, Storable F x →
    ∃ v, cordicSine F x = .ok v ∧ Storable F v ∧ (Storable F (-x) → cordicSine F (-x) = .ok (-v))

/-- C66 is false of the code (oddness; already at zero, where `fixed64` gives `-3` raw). -/
theorem C66_false : ¬ C66_statement := by
  intro h
  obtain ⟨v, e1, _, e2⟩ := h fixed64 (Or.inr rfl) 0 (by decide +kernel)
  have e3 : cordicSine fixed64 0 = .ok (-3) := by decide +kernel
  have e2 := e2 (by decide +kernel)
  rw [e3] at e1; rw [Int.neg_zero, e3] at e2
  have e1 := Res.ok.inj e1; have e2 := Res.ok.inj e2
  omega

/-- C66, definedness: `cordic_sine`, and the cosine instantiation of the same loop, at every iteration count up to 41, return a value for
every angle of the type (no overflow, shift or table-index error).
Full statement: `C66_statement`; missing (false): oddness. -/
theorem C66_defined_partial (F : FxTy) (hF : CordicTy F) (x : Int) (hx : Storable F x) :
    (∃ v, cordicSine F x = .ok v ∧ Storable F v ∧ Storable F (-v)) ∧
    ∀ n ≤ 41, ∀ sine, ∃ v, cordic F n sine x = .ok v ∧ Storable F v := by
  obtain ⟨k, tab, P, h⟩ := cordicTy_ct hF
  have sgn1 : ∀ X, |credC P X| = 1 := by
    intro X; unfold credC; simp only []; (repeat' split) <;> rfl
  have sgn2 : ∀ X, |((if x < 0 then -1 else 1) * credS P X : Int)| = 1 := by
    intro X; unfold credS; split <;> split <;> rfl
  have key : ∀ n ≤ 41, (∃ v, cordic F n true x = .ok v ∧ |v| ≤ F.T.hi) ∧ ∃ v, cordic F n false x = .ok v ∧ |v| ≤ F.T.hi := by
    intro n hn
    obtain ⟨e1, e2, b1, b2⟩ := h.cordic_ok hx n hn
    refine ⟨⟨_, e1, ?_⟩, _, e2, ?_⟩
    · rw [abs_mul, sgn2, mul_one]; exact b2
    · rw [abs_mul, sgn1, mul_one]; exact b1
  refine ⟨?_, ?_⟩
  · obtain ⟨⟨v, e, b⟩, _⟩ := key 41 (le_refl _)
    exact ⟨v, e, h.tIn b, h.tIn (by rwa [abs_neg])⟩
  · intro n hn sine
    obtain ⟨⟨v, e, b⟩, v', e', b'⟩ := key n hn
    cases sine
    · exact ⟨v', e', h.tIn b'⟩
    · exact ⟨v, e, h.tIn b⟩

example : CordicTy fixed32 ∧ Storable fixed32 (-2 ^ 31) := ⟨Or.inl rfl, by decide +kernel⟩

theorem cordicLoop_split {F : FxTy} (Q : Int) (b : Nat) : ∀ (a i : Nat) (x y q : Int) (r : Int × Int × Int), cordicLoop F Q a i x y q = .ok r →
    cordicLoop F Q (a + b) i x y q = cordicLoop F Q b (i + a) r.1 r.2.1 r.2.2 := by
  intro a
  induction a with
  | zero => intro i x y q r h; rw [cordicLoop] at h; cases h; rw [Nat.zero_add, Nat.add_zero]
  | succ a ih =>
    intro i x y q r h
    rw [show a + 1 + b = (a + b) + 1 by omega, show i + (a + 1) = i + 1 + a by omega]
    rw [cordicLoop] at h
    conv_lhs => rw [cordicLoop]
    cases e1 : cordicStep F Q i x y q with
    | ub u => rw [e1] at h; simp at h
    | throw u => rw [e1] at h; simp at h
    | ok t =>
      rw [e1, Res.bind_ok] at h
      rw [Res.bind_ok]
      exact ih (i + 1) _ _ _ r h

/-- C66, the iteration count: from 42 iterations on, every call reads past the end of the table of angles (or overflows before). -/
theorem C66_too_many (F : FxTy) (hF : CordicTy F) (x : Int) (hx : Storable F x) (n : Nat) (hn : 41 < n) (sine : Bool) :
    (cordic F n sine x).IsUB := by
  obtain ⟨k, tab, P, h⟩ := cordicTy_ct hF
  obtain ⟨m, rfl⟩ : ∃ m, n = 41 + (m + 1) := ⟨n - 42, by omega⟩
  have hz : ofInt F 0 = 0 := by rw [h.sw.ofInt_ok (by simpa using h.sw.zero_in)]; simp
  have hk : F.I.wrap k = k := IntTy.wrap_of_inRange (by have := h.ibits; omega) h.kIn.2
  obtain ⟨e, -, -⟩ := h.loop_ok (Q := credQ P (cmag F x)) 41 0 k 0 0 (by omega) (by rw [abs_of_nonneg h.kIn.1, growB])
    (by simpa [growB] using h.kIn.1) (by simp)
  have hA : ∀ v : Int, (∃ w, arith F.I.promote v = .ok w) ∨ (arith F.I.promote v).IsUB := by
    intro v; unfold arith; split <;> [split; skip] <;> simp
  have hg : angel F 41 = .ub .bounds := by
    unfold angel
    rw [h.tabE, Res.bind_ok, List.getElem?_eq_none (by rw [h.len])]
  have hloop : ∀ (a b c : Int), (cordicLoop F (credQ P (cmag F x)) (m + 1) (0 + 41) a b c).IsUB := by
    intro a b c
    rw [cordicLoop, cordicStep]
    have hs : ∀ v : Int, shr F.I v (0 + 41) = .ok (v / 2 ^ 41) := by
      intro v; unfold shr; rw [if_pos (by rw [h.iprom]; have := h.ibits; omega)]
    by_cases hc : lt c (credQ P (cmag F x)) = true
    · rw [if_pos hc, hs, Res.bind_ok]
      rcases hA (a - b / 2 ^ 41) with ⟨w, hw⟩ | hw
      · rw [hw, Res.bind_ok, hs, Res.bind_ok]
        rcases hA (b + a / 2 ^ 41) with ⟨w', hw'⟩ | hw'
        · rw [hw', Res.bind_ok, hg]; trivial
        · cases hh : arith F.I.promote (b + a / 2 ^ 41) <;> rw [hh] at hw' <;> simp at hw' ⊢
      · cases hh : arith F.I.promote (a - b / 2 ^ 41) <;> rw [hh] at hw <;> simp at hw ⊢
    · rw [if_neg hc, hs, Res.bind_ok]
      rcases hA (a + b / 2 ^ 41) with ⟨w, hw⟩ | hw
      · rw [hw, Res.bind_ok, hs, Res.bind_ok]
        rcases hA (b - a / 2 ^ 41) with ⟨w', hw'⟩ | hw'
        · rw [hw', Res.bind_ok, hg]; trivial
        · cases hh : arith F.I.promote (b - a / 2 ^ 41) <;> rw [hh] at hw' <;> simp at hw' ⊢
      · cases hh : arith F.I.promote (a + b / 2 ^ 41) <;> rw [hh] at hw <;> simp at hw ⊢
  unfold cordic
  rw [h.reduce_ok hx, Res.bind_ok, h.kE]
  simp only [Res.bind_ok, hk, hz]
  have e' := cordicLoop_split _ (m + 1) 41 0 k 0 0 _ e
  rw [e']
  have := hloop (cloop tab (credQ P (cmag F x)) 41 0 k 0 0).1 (cloop tab (credQ P (cmag F x)) 41 0 k 0 0).2.1 (cloop tab (credQ P (cmag F x)) 41 0 k 0 0).2.2
  cases hr : cordicLoop F (credQ P (cmag F x)) (m + 1) (0 + 41) (cloop tab (credQ P (cmag F x)) 41 0 k 0 0).1
      (cloop tab (credQ P (cmag F x)) 41 0 k 0 0).2.1 (cloop tab (credQ P (cmag F x)) 41 0 k 0 0).2.2 with
  | ub u => exact trivial
  | ok t => rw [hr] at this; exact absurd this (by simp)
  | throw u => rw [hr] at this; exact absurd this (by simp)

example : Storable fixed32 65536 ∧ (cordic fixed32 42 true 65536) = .ub .bounds := by decide +kernel

/-- C66, what replaces oddness: the sine of a negative angle is minus the sine of `x + 2^(bits-1)`. -/
theorem C66_negative (F : FxTy) (hF : CordicTy F) (x : Int) (hx : Storable F x) (h0 : x < 0) :
    ∃ v, cordicSine F (x + 2 ^ (F.T.bits - 1)) = .ok v ∧ cordicSine F x = .ok (-v) := by
  obtain ⟨k, tab, P, h⟩ := cordicTy_ct hF
  have hx' : F.T.InRange (x + 2 ^ (F.T.bits - 1)) ∧ 0 ≤ x + 2 ^ (F.T.bits - 1) := by
    obtain ⟨a, b⟩ := hx
    have := h.sw.lo_eq; have := h.sw.hi_eq
    exact ⟨⟨by omega, by omega⟩, by omega⟩
  refine ⟨_, (h.cordic_ok hx'.1 41 (le_refl _)).1, ?_⟩
  unfold cordicSine
  rw [(h.cordic_ok hx 41 (le_refl _)).1, mag_of_nonneg hx'.2, mag_of_neg h0, if_pos h0, if_neg (by omega)]
  congr 1; ring

example : CordicTy fixed64 ∧ Storable fixed64 (-2 ^ 32) ∧ (-2 ^ 32 : Int) < 0 := ⟨Or.inr rfl, by decide +kernel, by decide⟩

end Eirin.Props
