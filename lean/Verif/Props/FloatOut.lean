import Verif.Props.Float

/-! # C125: conversion to floating point in a format of bounded precision -/

namespace Eirin.Props
open Spec

theorem toFlt_eq (F : FxTy) (fmt : FFmt) (x : Int) : toFlt F fmt x = (toFloat F x >>= fun q => .ok (fround fmt q)) := by
  unfold toFlt toFloat intToFlt
  cases cdiv F.C x (fractionMultiplier F) <;> rfl

theorem storable_abs {F : FxTy} (hF : F.Valid) {x : Int} (hx : Storable F x) : |(x : ℚ)| ≤ 2 ^ 64 := by
  have hb : (2 : Int) ^ F.T.bits ≤ 2 ^ 64 := pow_le_pow_right₀ (by norm_num) (bits_le hF)
  have hb1 : (2 : Int) ^ (F.T.bits - 1) ≤ 2 ^ 64 := pow_le_pow_right₀ (by norm_num) (by have := bits_le hF; omega)
  have hlo : -(2 ^ 64) ≤ F.T.lo := by unfold IntTy.lo; split <;> omega
  have hhi : F.T.hi ≤ 2 ^ 64 := by unfold IntTy.hi; split <;> omega
  obtain ⟨a, b⟩ := hx
  rw [abs_le]
  exact ⟨by exact_mod_cast hlo.trans a, by exact_mod_cast b.trans hhi⟩

/-- C125: the conversion is always defined and yields a number of the format nearest to the integer part (truncated toward zero). -/
theorem C125_nearest (F : FxTy) (hF : F.Valid) (fmt : FFmt) (h : fmt.Std) (x : Int) (hx : Storable F x) :
    ∃ (k : Int) (r : ℚ), toFlt F fmt x = .ok (.fin r) ∧ NearestFlt fmt k r ∧ (0 ≤ val F x → (k : ℚ) ≤ val F x ∧ val F x < k + 1) ∧
      (val F x < 0 → val F x ≤ k ∧ (k : ℚ) - 1 < val F x) ∧ (Integral F x → (k : ℚ) = val F x) := by
  have hp1 : 1 ≤ fmt.p := by have := h.p2; omega
  obtain ⟨k, e, h1, h2, h3⟩ := C16_toFloat_partial F hF x hx
  refine ⟨k, rne fmt k, ?_, rne_nearest fmt hp1 _, h1, h2, h3⟩
  rw [toFlt_eq, e, Res.bind_ok]
  have hv : |val F x| ≤ 2 ^ 64 := by
    unfold val
    have hq : (1 : ℚ) ≤ 2 ^ F.f := one_le_pow₀ (by norm_num)
    rw [abs_div, abs_of_pos (by positivity : (0 : ℚ) < 2 ^ F.f), div_le_iff₀ (by positivity)]
    have := storable_abs hF hx
    nlinarith
  obtain ⟨v1, v2⟩ := abs_le.1 hv
  have hk : -(2 ^ 65) ≤ (k : ℚ) ∧ (k : ℚ) ≤ 2 ^ 65 := by
    rcases le_or_gt 0 (val F x) with h0 | h0
    · obtain ⟨a, b⟩ := h1 h0; constructor <;> norm_num at * <;> linarith
    · obtain ⟨a, b⟩ := h2 h0; constructor <;> norm_num at * <;> linarith
  have r1 := rne_le fmt hp1 (isFlt_pow h 65) hk.2
  have r2 := le_rne fmt hp1 (isFlt_neg (isFlt_pow h 65)) hk.1
  have h3 : (2 : ℚ) ^ (128 : Int) ≤ 2 ^ fmt.emax := two_zpow_le h.range
  unfold fround
  rw [if_pos]
  refine lt_of_lt_of_le ?_ h3
  refine lt_of_le_of_lt (abs_le.2 ⟨r2, r1⟩) ?_
  norm_num

/-- C125: an integral number converts to itself exactly when it is a number of the format. -/
theorem C125_exact_iff (F : FxTy) (hF : F.Valid) (fmt : FFmt) (h : fmt.Std) (x : Int) (hx : Storable F x) (hi : Integral F x) :
    toFlt F fmt x = .ok (.fin (val F x)) ↔ IsFlt fmt (val F x) := by
  obtain ⟨k, r, e, hn, -, -, hk⟩ := C125_nearest F hF fmt h x hx
  have hk := hk hi
  rw [e]
  rw [hk] at hn
  constructor
  · intro he
    have : r = val F x := by injection he with he; injection he
    rw [← this]; exact hn.1
  · intro hf
    have := hn.2 _ hf
    rw [sub_self, abs_zero] at this
    have := abs_nonpos_iff.1 this
    rw [show r = val F x by linarith]

/-- C125: full statement. -/
def C125_statement : Prop := ∀ F : FxTy, F.Valid → ∀ fmt : FFmt, fmt.Std → ∀ x, Storable F x → Integral F x →
  toFlt F fmt x = .ok (.fin (val F x))

/-- C125 is false: `(float)fixed64(2^24 + 1)` is `2^24`. -/
theorem C125_false : ¬ C125_statement := by
  intro hs
  have h1 := hs fixed64 (by decide) binary32 std32 ((2 ^ 24 + 1) * 2 ^ 32) (by decide) ⟨2 ^ 24 + 1, by norm_num [val, fixed64]⟩
  have h2 : toFlt fixed64 binary32 ((2 ^ 24 + 1) * 2 ^ 32) = .ok (.fin (2 ^ 24)) := by decide +kernel
  rw [h2] at h1
  injection h1 with h1
  injection h1 with h1
  norm_num [val, fixed64] at h1

/-- C125, what holds: integers of at most `p` bits convert exactly, and a non-rounding type converts them back to the same number.
Full statement: `C125_statement`. -/
theorem C125_exact_partial (F : FxTy) (hF : F.Valid) (fmt : FFmt) (h : fmt.Std) (x : Int) (hx : Storable F x) (hi : Integral F x)
    (hb : |val F x| ≤ 2 ^ fmt.p) :
    toFlt F fmt x = .ok (.fin (val F x)) ∧ (F.r = false → ofFlt F fmt (.fin (val F x)) = .ok x) := by
  have hf : IsFlt fmt (val F x) := by
    obtain ⟨k, hk⟩ := hi
    rw [hk] at hb ⊢
    exact isFlt_int h (by exact_mod_cast hb)
  refine ⟨(C125_exact_iff F hF fmt h x hx hi).2 hf, fun hr => ?_⟩
  refine (C124_truncates F hF hr fmt h _ hf x ?_).1 hx
  have hu := ulp_pos F
  exact ⟨fun h0 => ⟨h0, le_refl _, by linarith⟩, fun h0 => ⟨h0.le, le_refl _, by linarith⟩⟩

/-- C125 for the two named types: `fixed32` converts integers exactly to every format, `fixed64` to `double` and wider ones. -/
theorem C125_named (fmt : FFmt) (h : fmt.Std) (x : Int) :
    (24 ≤ fmt.p → Storable fixed32 x → Integral fixed32 x → toFlt fixed32 fmt x = .ok (.fin (val fixed32 x)) ∧
      ofFlt fixed32 fmt (.fin (val fixed32 x)) = .ok x) ∧
    (53 ≤ fmt.p → Storable fixed64 x → Integral fixed64 x → toFlt fixed64 fmt x = .ok (.fin (val fixed64 x)) ∧
      ofFlt fixed64 fmt (.fin (val fixed64 x)) = .ok x) := by
  constructor
  · intro hp hx hi
    have h1 : (2 : ℚ) ^ 24 ≤ 2 ^ fmt.p := pow_le_pow_right₀ (by norm_num) hp
    have hb : |val fixed32 x| ≤ 2 ^ 24 := by
      obtain ⟨a, b⟩ := hx
      have a : (-2147483648 : Int) ≤ x := a
      have b : x ≤ (2147483647 : Int) := b
      have a : (-2147483648 : ℚ) ≤ x := by exact_mod_cast a
      have b : (x : ℚ) ≤ 2147483647 := by exact_mod_cast b
      rw [abs_le]; unfold val fixed32; norm_num; constructor <;> linarith
    obtain ⟨c, d⟩ := C125_exact_partial fixed32 (by decide) fmt h x hx hi (hb.trans h1)
    exact ⟨c, d rfl⟩
  · intro hp hx hi
    have h1 : (2 : ℚ) ^ 53 ≤ 2 ^ fmt.p := pow_le_pow_right₀ (by norm_num) hp
    have hb : |val fixed64 x| ≤ 2 ^ 53 := by
      obtain ⟨a, b⟩ := hx
      have a : (-9223372036854775808 : Int) ≤ x := a
      have b : x ≤ (9223372036854775807 : Int) := b
      have a : (-9223372036854775808 : ℚ) ≤ x := by exact_mod_cast a
      have b : (x : ℚ) ≤ 9223372036854775807 := by exact_mod_cast b
      rw [abs_le]; unfold val fixed64; norm_num; constructor <;> linarith
    obtain ⟨c, d⟩ := C125_exact_partial fixed64 (by decide) fmt h x hx hi (hb.trans h1)
    exact ⟨c, d rfl⟩

example : toFlt fixed64 binary32 (-(2 ^ 24 + 3) * 2 ^ 32 - 77) = .ok (.fin (-(2 ^ 24 + 4))) ∧
    toFlt fixed64 binary64 (-(2 ^ 24 + 3) * 2 ^ 32) = .ok (.fin (-(2 ^ 24 + 3))) ∧
    Storable fixed64 (-(2 ^ 24 + 3) * 2 ^ 32) ∧ Integral fixed64 (-(2 ^ 24 + 3) * 2 ^ 32) ∧
    ofFlt fixed64 binary64 (.fin (-(2 ^ 24 + 3))) = .ok (-(2 ^ 24 + 3) * 2 ^ 32) :=
  ⟨by decide +kernel, by decide +kernel, by decide +kernel, ⟨-(2 ^ 24 + 3), by norm_num [val, fixed64]⟩, by decide +kernel⟩

end Eirin.Props
