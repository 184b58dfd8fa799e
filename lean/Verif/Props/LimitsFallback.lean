import Verif.Props.Convert

/-! # C172: the limits of storage types unknown to the standard library -/

namespace Eirin

/-- `numeric_limits<fixed_num>::min()` when `numeric_limits<T>` is not specialised: `from_internal_value(signbit_mask())`.
`fixed.hpp:1173-1177`. -/
def limMinFallback (F : FxTy) : Int := fromInternal F (signbitMask F)
/-- `numeric_limits<fixed_num>::max()` when `numeric_limits<T>` is not specialised: `from_internal_value(~signbit_mask())`.
`fixed.hpp:1186-1190`. -/
def limMaxFallback (F : FxTy) : Int := fromInternal F (cnot F.T (signbitMask F))
/-- The formula the manual gives for the maximum: `~static_cast<Type>(1) << (sizeof(Type) * 8 - 1)`. `docs/math.rst`, note. -/
def limMaxManual (F : FxTy) : Res Int := do
  let m ← shl F.T (F.T.wrap (cnot F.T (F.T.wrap 1))) (F.T.bits - 1)
  pure (fromInternal F m)

namespace Props
open Spec

/-- C172 as stated: the replacement limits are the smallest and the largest stored value. -/
def C172_statement : Prop := ∀ F : FxTy, (F.T.bits = 8 ∨ F.T.bits = 16 ∨ F.T.bits = 32 ∨ F.T.bits = 64 ∨ F.T.bits = 128) → ∀ x, Storable F x →
  Storable F (limMinFallback F) ∧ Storable F (limMaxFallback F) ∧ limMinFallback F ≤ x ∧ x ≤ limMaxFallback F

theorem C172_false : ¬ C172_statement := by
  intro h
  have := (h ⟨⟨128, false⟩, ⟨256, false⟩, 64, false⟩ (by decide) 0 (by decide)).2.2.1
  have e : limMinFallback ⟨⟨128, false⟩, ⟨256, false⟩, 64, false⟩ = 2 ^ 127 := by decide +kernel
  rw [e] at this
  norm_num at this

theorem fallback_eq : ∀ b ∈ [8, 16, 32, 64, 128], ∀ s : Bool,
    let t : IntTy := ⟨b, s⟩
    t.wrap (t.wrap (t.promote.wrap (2 ^ (t.bits - 1)))) = (if s then t.lo else 2 ^ (b - 1)) ∧
    t.wrap (cnot t (t.wrap (t.promote.wrap (2 ^ (t.bits - 1))))) = 2 ^ (b - 1) - 1 ∧
    (shl t (t.wrap (cnot t (t.wrap 1))) (b - 1) >>= fun m => pure (t.wrap m)) = Res.ok 0 := by decide +kernel

/-- C172: right for every signed type; for unsigned types both are half the span off.
Full statement: `C172_statement`; missing (false): unsigned storage. -/
theorem C172_limits_partial (F : FxTy) (hb : F.T.bits = 8 ∨ F.T.bits = 16 ∨ F.T.bits = 32 ∨ F.T.bits = 64 ∨ F.T.bits = 128) (x : Int) (hx : Storable F x) :
    (F.T.signed = true → Storable F (limMinFallback F) ∧ Storable F (limMaxFallback F) ∧ limMinFallback F ≤ x ∧ x ≤ limMaxFallback F) ∧
    (F.T.signed = false → limMinFallback F = 2 ^ (F.T.bits - 1) ∧ limMaxFallback F = 2 ^ (F.T.bits - 1) - 1) := by
  have hm : F.T.bits ∈ [8, 16, 32, 64, 128] := by rcases hb with c | c | c | c | c <;> rw [c] <;> decide
  obtain ⟨e1, e2, -⟩ := fallback_eq F.T.bits hm F.T.signed
  have f1 : limMinFallback F = (if F.T.signed then F.T.lo else 2 ^ (F.T.bits - 1)) := e1
  have f2 : limMaxFallback F = 2 ^ (F.T.bits - 1) - 1 := e2
  constructor
  · intro hs
    have f3 : F.T.hi = 2 ^ (F.T.bits - 1) - 1 := by unfold IntTy.hi; simp [hs]
    rw [hs, if_pos rfl] at f1
    rw [f1, f2, ← f3]
    exact ⟨⟨le_rfl, hx.1.trans hx.2⟩, ⟨hx.1.trans hx.2, le_rfl⟩, hx.1, hx.2⟩
  · intro hs
    rw [hs, if_neg (by decide)] at f1
    exact ⟨f1, f2⟩
example : Storable ⟨⟨128, true⟩, ⟨256, true⟩, 64, false⟩ (-1) ∧ limMaxFallback ⟨⟨128, true⟩, ⟨256, true⟩, 64, false⟩ = 2 ^ 127 - 1 := by decide +kernel

/-- C172: the formula of the manual gives zero for every type. -/
theorem C172_manual (F : FxTy) (hb : F.T.bits = 8 ∨ F.T.bits = 16 ∨ F.T.bits = 32 ∨ F.T.bits = 64 ∨ F.T.bits = 128) : limMaxManual F = .ok 0 := by
  have hm : F.T.bits ∈ [8, 16, 32, 64, 128] := by rcases hb with c | c | c | c | c <;> rw [c] <;> decide
  exact (fallback_eq F.T.bits hm F.T.signed).2.2
example : fixed64.T.bits = 64 := rfl

end Props
end Eirin
