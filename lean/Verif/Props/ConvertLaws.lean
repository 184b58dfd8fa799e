import Verif.Props.Convert

/-! # Property C87: narrowing conversions respect order, sign and composition. -/

namespace Eirin.Props
open Spec

theorem isTrunc_mono {F : FxTy} {p q : ℚ} {m n : Int} (hm : IsTrunc F p m) (hn : IsTrunc F q n) (h : p ≤ q) : m ≤ n := by
  have key : val F m < val F n + ulp F := by
    rcases le_or_gt 0 p with h0 | h0
    · obtain ⟨_, b, _⟩ := hm.1 h0
      obtain ⟨_, _, c⟩ := hn.1 (le_trans h0 h)
      linarith
    · obtain ⟨a, _, c⟩ := hm.2 h0
      rcases le_or_gt 0 q with h1 | h1
      · obtain ⟨a', _, _⟩ := hn.1 h1; linarith [ulp_pos F]
      · obtain ⟨_, b', _⟩ := hn.2 h1; linarith
  rw [← val_one, ← val_add, val_lt] at key
  omega

theorem isTrunc_neg {F : FxTy} {q : ℚ} {n : Int} (h : IsTrunc F q n) : IsTrunc F (-q) (-n) := by
  have u := ulp_pos F
  constructor
  · intro h0
    rw [val_neg]
    rcases lt_or_eq_of_le h0 with h1 | h1
    · obtain ⟨a, b, c⟩ := h.2 (by linarith); exact ⟨by linarith, by linarith, by linarith⟩
    · obtain ⟨a, b, c⟩ := h.1 (by linarith); exact ⟨by linarith, by linarith, by linarith⟩
  · intro h0
    rw [val_neg]
    obtain ⟨a, b, c⟩ := h.1 (by linarith); exact ⟨by linarith, by linarith, by linarith⟩

/-- A number of `F` written with more fraction bits. -/
theorem val_refine {F H : FxTy} (hf : F.f ≤ H.f) (n : Int) : val F n = val H (n * 2 ^ (H.f - F.f)) := by
  unfold val
  push_cast
  have e : (2 : ℚ) ^ H.f = 2 ^ (H.f - F.f) * 2 ^ F.f := by rw [← pow_add]; congr 1; omega
  have h1 : (2 : ℚ) ^ (H.f - F.f) ≠ 0 := by positivity
  rw [e]; field_simp

theorem isTrunc_trans {F H : FxTy} (hf : F.f ≤ H.f) {q : ℚ} {m n : Int} (hm : IsTrunc H q m) (hn : IsTrunc F (val H m) n) :
    IsTrunc F q n := by
  have uh := ulp_pos H
  have uf := ulp_pos F
  constructor
  · intro h0
    obtain ⟨a, b, c⟩ := hm.1 h0
    obtain ⟨a', b', c'⟩ := hn.1 a
    refine ⟨a', by linarith, ?_⟩
    rw [← val_one, ← val_add, val_refine hf, val_lt] at c'
    have : val H (m + 1) ≤ val F (n + 1) := by rw [val_refine hf, val_le]; omega
    rw [val_add, val_add, val_one, val_one] at this
    linarith
  · intro h0
    obtain ⟨a, b, c⟩ := hm.2 h0
    rcases lt_or_eq_of_le a with a0 | a0
    · obtain ⟨a', b', c'⟩ := hn.2 a0
      refine ⟨a', by linarith, ?_⟩
      rw [← val_one, ← val_sub, val_refine hf, val_lt] at c'
      have : val F (n - 1) ≤ val H (m - 1) := by rw [val_refine hf, val_le]; omega
      rw [val_sub, val_sub, val_one, val_one] at this
      linarith
    · obtain ⟨a', b', c'⟩ := hn.1 (by linarith)
      have e : val F n = 0 := by linarith
      refine ⟨by linarith, by linarith, ?_⟩
      have h1 : val H (0 - 1) < q := by rw [val_sub, val_zero, val_one]; linarith
      have h2 : val F (-1) ≤ val H (0 - 1) := by
        rw [val_refine hf, val_le]
        have : (1 : Int) ≤ 2 ^ (H.f - F.f) := one_le_pow₀ (by norm_num)
        omega
      rw [val_neg, val_one] at h2
      linarith

/-- C87: conversion to a type with fewer fraction bits is monotone and odd, as long as the results are values of the target. -/
theorem C87_mono_odd (F G : FxTy) (hF : F.Valid) (hG : G.Valid) (hr : F.r = false) (hf : F.f < G.f) (x y m n : Int)
    (hx : Storable G x) (hy : Storable G y) (hm : IsTrunc F (val G x) m) (hn : IsTrunc F (val G y) n) (hms : Storable F m)
    (hns : Storable F n) :
    convert F G x = .ok m ∧ convert F G y = .ok n ∧ (val G x ≤ val G y → val F m ≤ val F n) ∧
      (val G y = - val G x → val F n = - val F m) := by
  obtain ⟨z, k, e1, t1, -, s1⟩ := C17_narrowing F G hF hG hr hf x hx
  obtain ⟨w, l, e2, t2, -, s2⟩ := C17_narrowing F G hF hG hr hf y hy
  have := isTrunc_unique t1 hm; subst this
  have := isTrunc_unique t2 hn; subst this
  refine ⟨by rw [e1, s1 hms], by rw [e2, s2 hns], fun h => val_le.2 (isTrunc_mono hm hn h), fun h => ?_⟩
  rw [h] at hn
  rw [← val_neg, isTrunc_unique hn (isTrunc_neg hm)]

example : convert fixed32 fixed64 (3 * 2 ^ 31 + 65535) = .ok 98304 ∧ convert fixed32 fixed64 (-(3 * 2 ^ 31 + 65535)) = .ok (-98304) ∧
    convert fixed32 fixed64 (3 * 2 ^ 31 + 65536) = .ok 98305 := by decide +kernel

/-- C87: going through a type of intermediate precision gives the same result as converting directly. -/
theorem C87_chain (F H G : FxTy) (hF : F.Valid) (hH : H.Valid) (hG : G.Valid) (hFr : F.r = false) (hHr : H.r = false)
    (h1 : F.f < H.f) (h2 : H.f < G.f) (x m : Int) (hx : Storable G x) (hm : IsTrunc H (val G x) m) (hms : Storable H m) :
    convert H G x = .ok m ∧ convert F H m = convert F G x := by
  obtain ⟨z, k, e1, t1, -, s1⟩ := C17_narrowing H G hH hG hHr h2 x hx
  obtain ⟨w, l, e2, t2, w2, -⟩ := C17_narrowing F G hF hG hFr (by omega) x hx
  obtain ⟨v, n, e3, t3, w3, -⟩ := C17_narrowing F H hF hH hFr h1 m hms
  have := isTrunc_unique t1 hm; subst this
  refine ⟨by rw [e1, s1 hms], ?_⟩
  have := isTrunc_unique (isTrunc_trans h1.le t1 t3) t2; subst this
  rw [e2, e3, isWrap_unique hF.tpos w2 w3]

def exI64 : FxTy := ⟨i64, i128, 20, false⟩

example : exI64.Valid ∧ convert exI64 fixed64 (-(5 * 2 ^ 30 + 123456)) = .ok (-1310750) ∧ convert fixed32 exI64 (-1310750) = .ok (-81921) ∧
    convert fixed32 fixed64 (-(5 * 2 ^ 30 + 123456)) = .ok (-81921) := by decide +kernel

end Eirin.Props
