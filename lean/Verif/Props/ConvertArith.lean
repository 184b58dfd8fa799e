import Verif.Props.ConvertLaws
import Verif.Model.Math
import Verif.Lemmas.Mixed

/-! # C175: conversion to another fixed-point type against arithmetic -/

namespace Eirin.Props
open Spec

theorem isTrunc_abs {F : FxTy} {q : ℚ} {n : Int} (h : IsTrunc F q n) : |q - val F n| < ulp F ∧ |val F n| ≤ |q| := by
  have u := ulp_pos F
  rcases le_or_gt 0 q with h0 | h0
  · obtain ⟨a, b, c⟩ := h.1 h0
    rw [abs_of_nonneg a, abs_of_nonneg h0]
    exact ⟨by rw [abs_lt]; constructor <;> linarith, b⟩
  · obtain ⟨a, b, c⟩ := h.2 h0
    rw [abs_of_nonpos a, abs_of_neg h0]
    exact ⟨by rw [abs_lt]; constructor <;> linarith, by linarith⟩

theorem isTrunc_sum {F : FxTy} {p q : ℚ} {m n k : Int} (hm : IsTrunc F p m) (hn : IsTrunc F q n)
    (hk : IsTrunc F (p + q) k) (hsm : Storable F m) (hsn : Storable F n) (hsk : Storable F k) :
    Storable F (m + n) ∧ |m + n - k| ≤ 1 := by
  have u := ulp_pos F
  have e1 : val F 1 = ulp F := val_one F
  have e2 : val F 2 = 2 * ulp F := by
    rw [show (2 : Int) = 1 + 1 by norm_num, val_add, e1]; ring
  obtain ⟨m1, m2⟩ := hsm
  obtain ⟨n1, n2⟩ := hsn
  obtain ⟨k1, k2⟩ := hsk
  have z0 := val_zero F
  have up {a b : Int} (h : val F a < val F b + 2 * ulp F) : a ≤ b + 1 := by
    have : a < b + 2 := (val_lt (F := F)).1 (by rw [val_add, e2]; exact h)
    omega
  have le0 {a : Int} (h : 0 ≤ val F a) : 0 ≤ a := by rwa [← z0, val_le] at h
  have ge0 {a : Int} (h : val F a ≤ 0) : a ≤ 0 := by rwa [← z0, val_le] at h
  have va := val_add F m n
  suffices hh : ((F.T.lo ≤ m + n) ∧ (m + n ≤ F.T.hi)) ∧ m + n ≤ k + 1 ∧ k ≤ m + n + 1 by
    exact ⟨hh.1, abs_le.2 ⟨by omega, by omega⟩⟩
  rcases le_or_gt 0 p with hp | hp <;> rcases le_or_gt 0 q with hq | hq
  · obtain ⟨a, b, c⟩ := hm.1 hp
    obtain ⟨a', b', c'⟩ := hn.1 hq
    obtain ⟨a'', b'', c''⟩ := hk.1 (by linarith)
    have t1 := le0 a
    have t2 := le0 a'
    have t3 : m + n < k + 1 := (val_lt (F := F)).1 (by rw [va, val_add, e1]; linarith)
    have t4 := up (a := k) (b := m + n) (by rw [va]; linarith)
    refine ⟨⟨by omega, by omega⟩, by omega, by omega⟩
  · obtain ⟨a, b, c⟩ := hm.1 hp
    obtain ⟨a', b', c'⟩ := hn.2 hq
    have t1 := le0 a
    have t2 := ge0 a'
    refine ⟨⟨by omega, by omega⟩, ?_⟩
    rcases le_or_gt 0 (p + q) with h | h
    · obtain ⟨a'', b'', c''⟩ := hk.1 h
      exact ⟨up (by rw [va]; linarith), up (by rw [va]; linarith)⟩
    · obtain ⟨a'', b'', c''⟩ := hk.2 h
      exact ⟨up (by rw [va]; linarith), up (by rw [va]; linarith)⟩
  · obtain ⟨a, b, c⟩ := hm.2 hp
    obtain ⟨a', b', c'⟩ := hn.1 hq
    have t1 := ge0 a
    have t2 := le0 a'
    refine ⟨⟨by omega, by omega⟩, ?_⟩
    rcases le_or_gt 0 (p + q) with h | h
    · obtain ⟨a'', b'', c''⟩ := hk.1 h
      exact ⟨up (by rw [va]; linarith), up (by rw [va]; linarith)⟩
    · obtain ⟨a'', b'', c''⟩ := hk.2 h
      exact ⟨up (by rw [va]; linarith), up (by rw [va]; linarith)⟩
  · obtain ⟨a, b, c⟩ := hm.2 hp
    obtain ⟨a', b', c'⟩ := hn.2 hq
    obtain ⟨a'', b'', c''⟩ := hk.2 (by linarith)
    have t1 := ge0 a
    have t2 := ge0 a'
    have t3 : k < m + n + 1 := (val_lt (F := F)).1 (by rw [val_add, e1, va]; linarith)
    have t4 := up (a := m + n) (b := k) (by rw [va]; linarith)
    refine ⟨⟨by omega, by omega⟩, by omega, by omega⟩

theorem val_abs_int (F : FxTy) (a b : Int) (h : |a - b| ≤ 1) : |val F a - val F b| ≤ ulp F := by
  obtain ⟨h1, h2⟩ := abs_le.1 h
  rw [← val_sub, ← val_one, abs_le, ← val_neg, val_le, val_le]
  exact ⟨h1, h2⟩

/-- Narrowing of a value whose truncation is storable. -/
theorem convert_trunc {F G : FxTy} (hF : F.Valid) (hG : G.Valid) (hr : F.r = false) (hf : F.f < G.f) {x n : Int}
    (hx : Storable G x) (hn : IsTrunc F (val G x) n) (hs : Storable F n) : convert F G x = .ok n := by
  obtain ⟨z, k, e, t, -, s⟩ := C17_narrowing F G hF hG hr hf x hx
  have := isTrunc_unique t hn; subst this
  rw [e, s hs]

/-- C175, sums and differences: narrowing the sum of two numbers gives the sum of the narrowed numbers up to one unit in
the last place, and the latter sum is defined whenever the three narrowed numbers are storable.  For differences the subtrahend must not
narrow to the minimum (`C175_sub_min`). -/
theorem C175_add (F G : FxTy) (hF : F.Valid) (hG : G.Valid) (hFs : SignedWide F) (hGs : SignedWide G) (hr : F.r = false)
    (hf : F.f < G.f) (x y s m n k : Int) (hx : Storable G x) (hy : Storable G y) (hs : Storable G s)
    (hm : IsTrunc F (val G x) m) (hn : IsTrunc F (val G y) n) (hk : IsTrunc F (val G s) k)
    (hms : Storable F m) (hns : Storable F n) (hks : Storable F k) :
    convert F G x = .ok m ∧ convert F G y = .ok n ∧ convert F G s = .ok k ∧
      (add G x y = .ok s → ∃ t, add F m n = .ok t ∧ |val F t - val F k| ≤ ulp F) ∧
      (sub G x y = .ok s → n ≠ F.T.lo → ∃ t, sub F m n = .ok t ∧ |val F t - val F k| ≤ ulp F) := by
  refine ⟨convert_trunc hF hG hr hf hx hm hms, convert_trunc hF hG hr hf hy hn hns, convert_trunc hF hG hr hf hs hk hks,
    fun h => ?_, fun h hnl => ?_⟩
  · have e : val G s = val G x + val G y := by
      by_cases hrep : Representable G (val G x + val G y)
      · obtain ⟨z, e1, -, e2⟩ := (C01_add_exact_or_ub G hG hGs x y hx hy).1 hrep
        rw [h] at e1; cases e1; exact e2
      · rw [(C01_add_exact_or_ub G hG hGs x y hx hy).2 hrep] at h; cases h
    rw [e] at hk
    obtain ⟨s1, s2⟩ := isTrunc_sum hm hn hk hms hns hks
    refine ⟨m + n, ?_, val_abs_int F _ _ s2⟩
    obtain ⟨z, e1, -, e2⟩ := (C01_add_exact_or_ub F hF hFs m n hms hns).1 (by rw [← val_add, representable_iff]; exact s1)
    rw [← val_add] at e2
    rw [e1, val_inj e2]
  · have e : val G s = val G x - val G y := by
      by_cases hrep : Representable G (val G x - val G y)
      · obtain ⟨z, e1, -, e2⟩ := (C01_sub_exact_or_ub G hG hGs x y hx hy).1 hrep
        rw [h] at e1; cases e1; exact e2
      · rw [(C01_sub_exact_or_ub G hG hGs x y hx hy).2 hrep] at h; cases h
    have e' : val G s + val G y = val G x := by rw [e]; ring
    -- `m = trunc (s + y)` is within one of `k + n`
    rw [← e'] at hm
    have key := isTrunc_sum hk hn hm hks hns hms
    have s2 : |m - n - k| ≤ 1 := by
      have := abs_le.1 key.2
      exact abs_le.2 ⟨by omega, by omega⟩
    -- storable: same signs stay between the two, opposite signs are bounded by the narrowed difference
    rw [e'] at hm
    have hn' := isTrunc_neg hn
    have hst : Storable F (m - n) := by
      have z0 := val_zero F
      have u := ulp_pos F
      have le0 {a : Int} (h : 0 ≤ val F a) : 0 ≤ a := by rwa [← z0, val_le] at h
      have ge0 {a : Int} (h : val F a ≤ 0) : a ≤ 0 := by rwa [← z0, val_le] at h
      obtain ⟨m1, m2⟩ := hms
      obtain ⟨n1, n2⟩ := hns
      obtain ⟨k1, k2⟩ := hks
      have lohi : F.T.lo = -(F.T.hi + 1) := by unfold IntTy.lo IntTy.hi; rw [hFs.1]; simp
      have vs := val_sub F m n
      have e1 : val F 1 = ulp F := val_one F
      rw [e] at hk
      rcases le_or_gt 0 (val G x) with hp | hp <;> rcases le_or_gt 0 (val G y) with hq | hq
      · have t1 := le0 (hm.1 hp).1
        have t2 := le0 (hn.1 hq).1
        constructor <;> omega
      · obtain ⟨a, b, c⟩ := hm.1 hp
        obtain ⟨a', b', c'⟩ := hn.2 hq
        obtain ⟨a'', b'', c''⟩ := hk.1 (by linarith)
        have t1 := le0 a
        have t2 := ge0 a'
        have t3 : m - n < k + 1 := (val_lt (F := F)).1 (by rw [vs, val_add, e1]; linarith)
        constructor <;> omega
      · obtain ⟨a, b, c⟩ := hm.2 hp
        obtain ⟨a', b', c'⟩ := hn.1 hq
        obtain ⟨a'', b'', c''⟩ := hk.2 (by linarith)
        have t1 := ge0 a
        have t2 := le0 a'
        have t3 : k < m - n + 1 := (val_lt (F := F)).1 (by rw [val_add, e1, vs]; linarith)
        constructor <;> omega
      · have t1 := ge0 (hm.2 hp).1
        have t2 := ge0 (hn.2 hq).1
        constructor <;> omega
    refine ⟨m - n, ?_, val_abs_int F _ _ s2⟩
    obtain ⟨z, e1, -, e2⟩ := (C01_sub_exact_or_ub F hF hFs m n hms hns).1 (by rw [← val_sub, representable_iff]; exact hst)
    rw [← val_sub] at e2
    rw [e1, val_inj e2]

/-- The exception of `C175_add` is real: `(-2^-17) - (-32768)` narrows to the largest `fixed32`, while subtracting the
narrowed numbers overflows. -/
theorem C175_sub_min : sub fixed64 (-32768) (-2 ^ 47) = .ok (2 ^ 47 - 32768) ∧
    convert fixed32 fixed64 (2 ^ 47 - 32768) = .ok (2 ^ 31 - 1) ∧ convert fixed32 fixed64 (-32768) = .ok 0 ∧
    convert fixed32 fixed64 (-2 ^ 47) = .ok (-2 ^ 31) ∧ sub fixed32 0 (-2 ^ 31) = .ub .overflow := by decide +kernel

example : ∃ m n k : Int, Storable fixed64 (10 ^ 10) ∧ IsTrunc fixed32 (val fixed64 (10 ^ 10)) m ∧ Storable fixed32 m ∧
    IsTrunc fixed32 (val fixed64 (-10 ^ 9 + 1)) n ∧ Storable fixed32 n ∧ IsTrunc fixed32 (val fixed64 (9 * 10 ^ 9 + 1)) k ∧
    Storable fixed32 k ∧ add fixed64 (10 ^ 10) (-10 ^ 9 + 1) = .ok (9 * 10 ^ 9 + 1) ∧ n ≠ fixed32.T.lo ∧ m + n = k := by
  refine ⟨152587, -15258, 137329, by decide +kernel, ?_, by decide +kernel, ?_, by decide +kernel, ?_, by decide +kernel,
    by decide +kernel, by decide +kernel, by decide +kernel⟩ <;> (unfold IsTrunc val ulp fixed32 fixed64; norm_num)

/-- C175, products: narrowing the product gives the product of the narrowed numbers up to `|x| + |y| + 5/2` units in the
last place. -/
theorem C175_mul (F G : FxTy) (hF : F.Valid) (hG : G.Valid) (hr : F.r = false) (hGr : G.r = false)
    (hf : F.f < G.f) (x y s m n k : Int) (hx : Storable G x) (hy : Storable G y)
    (hfit : val G G.T.lo ≤ val G x * val G y ∧ val G x * val G y < val G G.T.hi + ulp G)
    (hfit' : val F F.T.lo ≤ val G x * val G y ∧ val G x * val G y < val F F.T.hi + ulp F)
    (hs : mul G x y = .ok s) (hss : Storable G s)
    (hm : IsTrunc F (val G x) m) (hn : IsTrunc F (val G y) n) (hk : IsTrunc F (val G s) k)
    (hms : Storable F m) (hns : Storable F n) (hks : Storable F k) :
    convert F G s = .ok k ∧ ∃ t, mul F m n = .ok t ∧
      |val F t - val F k| ≤ (|val G x| + |val G y| + 5 / 2) * ulp F := by
  refine ⟨convert_trunc hF hG hr hf hss hk hks, ?_⟩
  have hg := C02_mul_error G hG hGr x y s hx hy hfit hs
  obtain ⟨t, l, e1, -, -, -⟩ := C02_mul_floor F hF hr m n hms hns
  obtain ⟨xm, xa⟩ := isTrunc_abs hm
  obtain ⟨yn, ya⟩ := isTrunc_abs hn
  obtain ⟨sk, -⟩ := isTrunc_abs hk
  have u := ulp_pos F
  have ug : ulp G ≤ ulp F / 2 := by
    unfold ulp
    have : (2 : ℚ) ^ F.f * 2 ≤ 2 ^ G.f := by
      rw [← pow_succ]; exact pow_le_pow_right₀ (by norm_num) hf
    rw [div_div]
    exact one_div_le_one_div_of_le (by positivity) this
  have lo0 : val F F.T.lo ≤ 0 := by
    rw [← val_zero F, val_le]
    unfold IntTy.lo; split
    · have : (0 : Int) < 2 ^ (F.T.bits - 1) := by positivity
      omega
    · exact le_refl _
  have hi0 : 0 ≤ val F F.T.hi := by
    rw [← val_zero F, val_le]
    unfold IntTy.hi
    have h1 : (1 : Int) ≤ 2 ^ (F.T.bits - 1) := one_le_pow₀ (by norm_num)
    have h2 : (1 : Int) ≤ 2 ^ F.T.bits := one_le_pow₀ (by norm_num)
    split <;> omega
  -- the product of the narrowed numbers lies between 0 and the product
  have hb : |val F m * val F n| ≤ |val G x * val G y| := by
    rw [abs_mul, abs_mul]; exact mul_le_mul xa ya (abs_nonneg _) (abs_nonneg _)
  have sgn {q : ℚ} {j : Int} (h : IsTrunc F q j) : 0 ≤ q * val F j ∧ (0 ≤ q → 0 ≤ val F j) ∧ (q ≤ 0 → val F j ≤ 0) := by
    rcases le_or_gt 0 q with h0 | h0
    · obtain ⟨a, b, c⟩ := h.1 h0
      exact ⟨mul_nonneg h0 a, fun _ => a, fun h' => by linarith⟩
    · obtain ⟨a, b, c⟩ := h.2 h0
      exact ⟨mul_nonneg_of_nonpos_of_nonpos h0.le a, fun h' => by linarith, fun _ => a⟩
  have hmn : (0 ≤ val G x * val G y → 0 ≤ val F m * val F n) ∧ (val G x * val G y ≤ 0 → val F m * val F n ≤ 0) := by
    obtain ⟨-, a1, a2⟩ := sgn hm
    obtain ⟨-, b1, b2⟩ := sgn hn
    rcases lt_trichotomy (val G x) 0 with p | p | p
    · rcases lt_trichotomy (val G y) 0 with q | q | q
      · exact ⟨fun _ => mul_nonneg_of_nonpos_of_nonpos (a2 p.le) (b2 q.le), fun h => absurd h (not_le.2 (mul_pos_of_neg_of_neg p q))⟩
      · have : val F n = 0 := le_antisymm (b2 q.le) (b1 q.ge)
        rw [this]; simp
      · exact ⟨fun h => absurd h (not_le.2 (mul_neg_of_neg_of_pos p q)), fun _ => mul_nonpos_of_nonpos_of_nonneg (a2 p.le) (b1 q.le)⟩
    · have : val F m = 0 := le_antisymm (a2 p.le) (a1 p.ge)
      rw [this]; simp
    · rcases lt_trichotomy (val G y) 0 with q | q | q
      · exact ⟨fun h => absurd h (not_le.2 (mul_neg_of_pos_of_neg p q)), fun _ => mul_nonpos_of_nonneg_of_nonpos (a1 p.le) (b2 q.le)⟩
      · have : val F n = 0 := le_antisymm (b2 q.le) (b1 q.ge)
        rw [this]; simp
      · exact ⟨fun _ => mul_nonneg (a1 p.le) (b1 q.le), fun h => absurd h (not_le.2 (mul_pos p q))⟩
  have hfm : val F F.T.lo ≤ val F m * val F n ∧ val F m * val F n < val F F.T.hi + ulp F := by
    rcases le_total 0 (val G x * val G y) with h | h
    · have := hmn.1 h
      rw [abs_of_nonneg this, abs_of_nonneg h] at hb
      exact ⟨by linarith, by linarith⟩
    · have := hmn.2 h
      rw [abs_of_nonpos this, abs_of_nonpos h] at hb
      exact ⟨by linarith, by linarith⟩
  have hfe := C02_mul_error F hF hr m n t hms hns hfm e1
  refine ⟨t, e1, ?_⟩
  have d : |val G x * val G y - val F m * val F n| ≤ (|val G x| + |val G y|) * ulp F := by
    have e : val G x * val G y - val F m * val F n = val G x * (val G y - val F n) + (val G x - val F m) * val F n := by ring
    rw [e]
    refine (abs_add_le _ _).trans ?_
    rw [abs_mul, abs_mul, add_mul]
    have i1 : |val G x| * |val G y - val F n| ≤ |val G x| * ulp F := mul_le_mul_of_nonneg_left yn.le (abs_nonneg _)
    have i2 : |val G x - val F m| * |val F n| ≤ ulp F * |val G y| := mul_le_mul xm.le ya (abs_nonneg _) u.le
    linarith
  rw [abs_le] at d ⊢
  rw [abs_lt] at sk
  have ex : (|val G x| + |val G y| + 5 / 2) * ulp F = (|val G x| + |val G y|) * ulp F + 5 / 2 * ulp F := by ring
  constructor <;> linarith [d.1, d.2, hg.1, hg.2, hfe.1, hfe.2, sk.1, sk.2]

example : ∃ s m n k : Int, mul fixed64 (5 * 2 ^ 31 + 7) (-3 * 2 ^ 32 - 9) = .ok s ∧ Storable fixed64 s ∧
    convert fixed32 fixed64 (5 * 2 ^ 31 + 7) = .ok m ∧ convert fixed32 fixed64 (-3 * 2 ^ 32 - 9) = .ok n ∧
    convert fixed32 fixed64 s = .ok k ∧ IsTrunc fixed32 (val fixed64 (5 * 2 ^ 31 + 7)) m ∧
    mul fixed32 m n = .ok k := by
  refine ⟨-32212254764, 5 * 2 ^ 15, -3 * 2 ^ 16, -491520, by decide +kernel, by decide +kernel, by decide +kernel,
    by decide +kernel, by decide +kernel, ?_, by decide +kernel⟩
  unfold IsTrunc val ulp fixed32 fixed64; norm_num

/-- C175, negation, minimum, maximum and order: narrowing respects them exactly. -/
theorem C175_order (F G : FxTy) (hF : F.Valid) (hG : G.Valid) (hFs : SignedWide F) (hGs : SignedWide G) (hr : F.r = false)
    (hf : F.f < G.f) (x y m n : Int) (hx : Storable G x) (hy : Storable G y)
    (hm : IsTrunc F (val G x) m) (hn : IsTrunc F (val G y) n) (hms : Storable F m) (hns : Storable F n) :
    (∀ s, neg G x = .ok s → m ≠ F.T.lo → convert F G s = neg F m) ∧
      convert F G (min x y) = .ok (min m n) ∧ convert F G (max x y) = .ok (max m n) ∧
      (lt m n = true → lt x y = true) := by
  have cx := convert_trunc hF hG hr hf hx hm hms
  have cy := convert_trunc hF hG hr hf hy hn hns
  have mono (h : x ≤ y) : m ≤ n := isTrunc_mono hm hn (val_le.2 h)
  have mono' (h : y ≤ x) : n ≤ m := isTrunc_mono hn hm (val_le.2 h)
  refine ⟨fun s h hl => ?_, ?_, ?_, ?_⟩
  · have hxl : x ≠ G.T.lo := by
      intro h'; rw [(C08_neg G hG hGs x hx).1 h'] at h; cases h
    obtain ⟨z, e1, e2, e3, -, -⟩ := (C08_neg G hG hGs x hx).2 hxl
    rw [h] at e1; cases e1
    obtain ⟨w, d1, d2, d3, -, -⟩ := (C08_neg F hF hFs m hms).2 hl
    have hw : IsTrunc F (val G s) w := by
      have := isTrunc_neg hm
      rw [← e3] at this
      rwa [val_inj (F := F) (x := w) (y := -m) (by rw [d3, val_neg])]
    rw [d1]
    exact convert_trunc hF hG hr hf e2 hw d2
  · unfold min
    rcases lt_trichotomy x y with h | h | h
    · have := mono h.le
      rw [if_pos h, cx]
      split
      · rfl
      · rw [show n = m by omega]
    · subst h
      have := isTrunc_unique hm hn; subst this
      rw [if_neg (lt_irrefl _), if_neg (lt_irrefl _), cx]
    · have := mono' h.le
      rw [if_neg (by omega), if_neg (by omega), cy]
  · unfold max
    rcases lt_trichotomy x y with h | h | h
    · have := mono h.le
      rw [if_neg (by omega), if_neg (by omega), cy]
    · subst h
      have := isTrunc_unique hm hn; subst this
      rw [if_neg (lt_irrefl _), if_neg (lt_irrefl _), cx]
    · have := mono' h.le
      rw [if_pos h, cx]
      split
      · rfl
      · rw [show n = m by omega]
  · intro h
    rw [lt_iff] at h ⊢
    by_contra hc
    have := isTrunc_mono hn hm (val_le.2 (not_lt.1 hc))
    omega

example : IsTrunc fixed32 (val fixed64 (-2 ^ 40 - 1)) (-2 ^ 24) ∧ convert fixed32 fixed64 (-2 ^ 40 - 1) = .ok (-2 ^ 24) ∧
    neg fixed64 (-2 ^ 40 - 1) = .ok (2 ^ 40 + 1) ∧ convert fixed32 fixed64 (2 ^ 40 + 1) = neg fixed32 (-2 ^ 24) := by
  refine ⟨?_, by decide +kernel, by decide +kernel, by decide +kernel⟩
  unfold IsTrunc val ulp fixed32 fixed64; norm_num

/-- Narrowing is not an exact homomorphism of addition: two halves of an ulp add up to one ulp, while each of them
narrows to zero. The one-ulp bound of `C175_add` is attained. -/
theorem C175_not_exact : add fixed64 32768 32768 = .ok 65536 ∧ convert fixed32 fixed64 32768 = .ok 0 ∧
    convert fixed32 fixed64 65536 = .ok 1 ∧ add fixed32 0 0 = .ok 0 := by decide +kernel

end Eirin.Props
