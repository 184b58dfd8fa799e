import Verif.Props.LogLaws
import Verif.Props.LogNarrow
import Verif.Props.LogUnsigned

/-! # C164: the laws of the logarithm on every layout -/

namespace Eirin.Props
open Spec

section
variable {F : FxTy} (hF : F.Valid)

theorem tp_le : F.T.bits ≤ F.P.bits := by
  show F.T.bits ≤ F.T.promote.bits
  unfold IntTy.promote
  split
  · show F.T.bits ≤ 32; omega
  · exact le_rfl

/-- A checked sum stored back into the type is the sum modulo the size of the type. -/
theorem store_mod {n w : Int} (h : arith F.P n = .ok w) : (2 : Int) ^ F.T.bits ∣ F.T.wrap w - n := by
  have h1 := IntTy.wrap_dvd F.T w
  have e : w = n ∨ w = F.P.wrap n := by
    unfold arith at h
    split at h
    · split at h
      · cases h; exact Or.inl rfl
      · cases h
    · cases h; exact Or.inr rfl
  have h2 : (2 : Int) ^ F.T.bits ∣ w - n := by
    rcases e with rfl | rfl
    · simp
    · have := Int.dvd_trans (pow_dvd_pow (2 : Int) (tp_le (F := F))) (IntTy.wrap_dvd F.P n)
      rw [← Int.dvd_neg]; convert this using 1; ring
  rw [← Int.dvd_neg] at h1
  have := Int.dvd_add h1 h2
  convert this using 1; ring

theorem dvd_of_eq {m a b : Int} (h : m ∣ a) (e : b = a) : m ∣ b := e ▸ h

/-- The first loop: the same mantissa whatever the start of the count, the count shifted by the difference of the starts. -/
theorem up_shift : ∀ (n m : Nat) (x y y' a b a' b' : Int), log2Up F n x y = .ok (a, b) → log2Up F m x y' = .ok (a', b') →
    a = a' ∧ (2 : Int) ^ F.T.bits ∣ (b - b') - (y - y')
  | 0, _, _, _, _, _, _, _, _, h, _ => by unfold log2Up at h; cases h
  | _ + 1, 0, _, _, _, _, _, _, _, _, h => by unfold log2Up at h; cases h
  | n + 1, m + 1, x, y, y', a, b, a', b', h, h' => by
    unfold log2Up at h h'
    by_cases c : x < oneShl F
    · rw [if_pos c] at h h'
      rcases hs : shl F.T x 1 with x1 | u | e <;> rw [hs] at h h'
      · rw [Res.bind_ok] at h h'
        rcases h1 : arith F.P (y - oneShl F) with y1 | u | e <;> rw [h1] at h
        · rcases h2 : arith F.P (y' - oneShl F) with y2 | u | e <;> rw [h2] at h'
          · rw [Res.bind_ok] at h h'
            obtain ⟨ea, eb⟩ := up_shift n m _ _ _ _ _ _ _ h h'
            refine ⟨ea, ?_⟩
            have d1 := store_mod h1
            have d2 := store_mod h2
            exact dvd_of_eq (Int.dvd_sub (Int.dvd_add eb d1) d2) (by ring)
          · cases h'
          · cases h'
        · cases h
        · cases h
      · cases h
      · cases h
    · rw [if_neg c] at h h'
      cases h; cases h'
      exact ⟨rfl, by simp⟩

/-- The second loop. -/
theorem down_shift : ∀ (n m : Nat) (x y y' a b a' b' : Int), log2Down F n x y = .ok (a, b) → log2Down F m x y' = .ok (a', b') →
    a = a' ∧ (2 : Int) ^ F.T.bits ∣ (b - b') - (y - y')
  | 0, _, _, _, _, _, _, _, _, h, _ => by unfold log2Down at h; cases h
  | _ + 1, 0, _, _, _, _, _, _, _, _, h => by unfold log2Down at h; cases h
  | n + 1, m + 1, x, y, y', a, b, a', b', h, h' => by
    unfold log2Down at h h'
    by_cases c : x ≥ twoShl F
    · rw [if_pos c] at h h'
      rcases h1 : arith F.P (y + oneShl F) with y1 | u | e <;> rw [h1] at h
      · rcases h2 : arith F.P (y' + oneShl F) with y2 | u | e <;> rw [h2] at h'
        · rw [Res.bind_ok] at h h'
          obtain ⟨ea, eb⟩ := down_shift n m _ _ _ _ _ _ _ h h'
          refine ⟨ea, ?_⟩
          exact dvd_of_eq (Int.dvd_sub (Int.dvd_add eb (store_mod h1)) (store_mod h2)) (by ring)
        · cases h'
        · cases h'
      · cases h
      · cases h
    · rw [if_neg c] at h h'
      cases h; cases h'
      exact ⟨rfl, by simp⟩

/-- The third loop. -/
theorem frac_shift : ∀ (n : Nat) (z y y' b s s' : Int), log2Frac F n z y b = .ok s → log2Frac F n z y' b = .ok s' →
    (2 : Int) ^ F.T.bits ∣ (s - s') - (y - y')
  | 0, _, _, _, _, _, _, h, h' => by
    unfold log2Frac at h h'
    cases h; cases h'; simp
  | n + 1, z, y, y', b, s, s', h, h' => by
    unfold log2Frac at h h'
    rcases h0 : arith F.I.promote (z * z) with sq | u | e <;> rw [h0] at h h'
    · rw [Res.bind_ok] at h h'
      rcases hz : shr F.I sq F.f with z1 | u | e <;> rw [hz] at h h'
      · rw [Res.bind_ok] at h h'
        simp only at h h'
        by_cases c : F.I.wrap z1 ≥ twoShl F
        · rw [if_pos c] at h h'
          rcases h1 : arith F.P (y + b) with y1 | u | e <;> rw [h1] at h
          · rcases h2 : arith F.P (y' + b) with y2 | u | e <;> rw [h2] at h'
            · rw [Res.bind_ok] at h h'
              have eb := frac_shift n _ _ _ _ _ _ h h'
              exact dvd_of_eq (Int.dvd_sub (Int.dvd_add eb (store_mod h1)) (store_mod h2)) (by ring)
            · cases h'
            · cases h'
          · cases h
          · cases h
        · rw [if_neg c] at h h'
          exact frac_shift n _ _ _ _ _ _ h h'
      · cases h
      · cases h
    · cases h
    · cases h

/-- What a returned `log2` went through. -/
theorem log2_steps {x r : Int} (h : log2 F x = .ok r) : ∃ b x1 y1 x2 y2 y, log2Up F (F.T.bits + 1) x 0 = .ok (x1, y1) ∧
    log2Down F (F.T.bits + 1) x1 y1 = .ok (x2, y2) ∧ log2Frac F F.f x2 y2 b = .ok y ∧ r = F.T.wrap y ∧
    shl u32 1 (F.f - 1) >>= (fun b0 => pure (F.T.wrap b0)) = Res.ok b := by
  unfold log2 at h
  rcases hb : shl u32 1 (F.f - 1) with b0 | u | e <;> rw [hb] at h
  · rw [Res.bind_ok] at h
    simp only at h
    by_cases c : le x (ofInt F 0) = true
    · rw [if_pos c] at h; cases h
    · rw [if_neg c] at h
      rcases h1 : log2Up F (F.T.bits + 1) x 0 with ⟨x1, y1⟩ | u | e <;> rw [h1] at h
      · rw [Res.bind_ok] at h
        simp only at h
        rcases h2 : log2Down F (F.T.bits + 1) x1 y1 with ⟨x2, y2⟩ | u | e <;> rw [h2] at h
        · rw [Res.bind_ok] at h
          simp only at h
          rcases h3 : log2Frac F F.f x2 y2 (F.T.wrap b0) with y | u | e <;> rw [h3] at h
          · rw [Res.bind_ok] at h
            cases h
            exact ⟨F.T.wrap b0, x1, y1, x2, y2, y, rfl, h2, h3, rfl, rfl⟩
          · cases h
          · cases h
        · cases h
        · cases h
      · cases h
      · cases h
  · cases h
  · cases h

theorem one_mod : (2 : Int) ^ F.T.bits ∣ oneShl F - 2 ^ F.f := by
  unfold oneShl
  have := Int.dvd_trans (pow_dvd_pow (2 : Int) (tp_le (F := F))) (IntTy.wrap_dvd F.P (2 ^ F.f))
  rw [← Int.dvd_neg]; exact dvd_of_eq this (by ring)

theorem two_table : ∀ b ∈ [8, 16, 32, 64], ∀ s ∈ [true, false], (IntTy.mk b s).InRange 2 ∧ ∀ f < 64, f ≤ b - 1 →
    (IntTy.promote ⟨b, s⟩).InRange (2 * 2 ^ f) ∨ (IntTy.promote ⟨b, s⟩).wrap (2 * 2 ^ f) ≤ 0 := by
  unfold IntTy.InRange
  decide +kernel

include hF in
/-- Twice a number past the first threshold is past the second. -/
theorem past_two {x : Int} (h0 : 0 < x) (h : ¬ x < oneShl F) : 2 * x ≥ twoShl F := by
  have hp : (0 : Int) < 2 ^ F.f := by positivity
  have h2 : F.T.wrap 2 = 2 := by
    apply IntTy.wrap_of_inRange hF.tpos
    obtain ⟨⟨b, s⟩, I, f, r⟩ := F
    have hb : b = 8 ∨ b = 16 ∨ b = 32 ∨ b = 64 := hF.1
    exact (two_table b (by simpa using hb) s (by cases s <;> simp)).1
  unfold twoShl
  unfold oneShl at h
  rw [h2]
  by_cases c : F.P.InRange (2 * 2 ^ F.f)
  · have c' : F.P.InRange (2 ^ F.f) := ⟨le_trans (by unfold IntTy.lo; split <;> [(have : (0:Int) < 2 ^ (F.P.bits - 1) := by positivity); skip] <;> omega) hp.le, by have := c.2; omega⟩
    rw [IntTy.wrap_of_inRange hF.ppos c]
    rw [IntTy.wrap_of_inRange hF.ppos c'] at h
    omega
  · -- the constant wraps to zero or below
    have hle : F.P.wrap (2 * 2 ^ F.f) ≤ 0 := by
      have hf := hF.2.2.2.2.2
      obtain ⟨⟨b, s⟩, I, f, r⟩ := F
      have hf' : f ≤ b - 1 := hf
      have hb : b = 8 ∨ b = 16 ∨ b = 32 ∨ b = 64 := hF.1
      exact ((two_table b (by simpa using hb) s (by cases s <;> simp)).2 f (by omega) hf').resolve_left c
    omega

include hF in
/-- Doubling the argument. -/
theorem log2_double {x r s : Int} (hx : 0 < x) (hx2 : Storable F (2 * x)) (h : log2 F x = .ok r) (h' : log2 F (2 * x) = .ok s) :
    (2 : Int) ^ F.T.bits ∣ s - (r + 2 ^ F.f) := by
  obtain ⟨b, x1, y1, x2, y2, y, u, d, f, rfl, hb⟩ := log2_steps h
  obtain ⟨b', x1', y1', x2', y2', y', u', d', f', rfl, hb'⟩ := log2_steps h'
  rw [hb] at hb'; cases hb'
  have hone := one_mod (F := F)
  have hw := IntTy.wrap_dvd F.T y
  have hw' := IntTy.wrap_dvd F.T y'
  -- it is enough to compare the counts after the second loop
  suffices H : x2 = x2' ∧ (2 : Int) ^ F.T.bits ∣ (y2' - y2) - oneShl F by
    obtain ⟨rfl, H⟩ := H
    have := frac_shift _ _ _ _ _ _ _ f' f
    have h1 := Int.dvd_add (Int.dvd_add this H) hone
    have h2 := Int.dvd_sub (Int.dvd_add h1 hw) hw'
    exact dvd_of_eq h2 (by ring)
  by_cases c : x < oneShl F
  · -- one more doubling for `x`
    unfold log2Up at u
    rw [if_pos c] at u
    rcases hs : shl F.T x 1 with z | v | e <;> rw [hs] at u
    · rw [Res.bind_ok] at u
      have hz : F.T.wrap z = 2 * x := by
        unfold shl at hs
        split at hs
        · cases hs
          rw [IntTy.wrap_wrap_of_le (tp_le (F := F)), show x * 2 ^ 1 = 2 * x by ring, IntTy.wrap_of_inRange hF.tpos hx2]
        · cases hs
      rcases h1 : arith F.P (0 - oneShl F) with w | v | e <;> rw [h1] at u
      · rw [Res.bind_ok, hz] at u
        obtain ⟨rfl, e1⟩ := up_shift _ _ _ _ _ _ _ _ _ u' u
        obtain ⟨rfl, e2⟩ := down_shift _ _ _ _ _ _ _ _ _ d' d
        refine ⟨rfl, ?_⟩
        have e3 := store_mod h1
        exact dvd_of_eq (Int.dvd_sub (Int.dvd_add e2 e1) e3) (by ring)
      · cases u
      · cases u
    · cases u
    · cases u
  · -- one more halving for `2 x`
    have c2 := past_two hF hx c
    unfold log2Up at u u'
    rw [if_neg c] at u
    rw [if_neg (by omega)] at u'
    cases u; cases u'
    unfold log2Down at d'
    rw [if_pos c2] at d'
    rcases h1 : arith F.P (0 + oneShl F) with w | v | e <;> rw [h1] at d'
    · have hxT : F.T.wrap (2 * x / 2) = x := by
        rw [Int.mul_ediv_cancel_left _ (by norm_num)]
        apply IntTy.wrap_of_inRange hF.tpos
        refine ⟨le_trans ?_ hx.le, le_trans (by omega) hx2.2⟩
        unfold IntTy.lo; split
        · have : (0 : Int) < 2 ^ (F.T.bits - 1) := by positivity
          omega
        · exact le_rfl
      rw [Res.bind_ok, hxT] at d'
      obtain ⟨rfl, e2⟩ := down_shift _ _ _ _ _ _ _ _ _ d' d
      refine ⟨rfl, ?_⟩
      exact dvd_of_eq (Int.dvd_add e2 (store_mod h1)) (by ring)
    · cases d'
    · cases d'

end

/-- The layouts on which `log2` returns for every positive number: signed ones of 32 and 64 bits with at most 26, resp. 32 fraction bits;
unsigned ones with at most 32 fraction bits and two integral bits; 8- and 16-bit ones that hold the numbers below two. -/
def LogLayout (F : FxTy) : Prop :=
  (SignedWide F ∧ (F.f ≤ 26 ∨ F.T.bits = 64 ∧ F.f ≤ 32)) ∨ ((∃ B f, F = LU B f ∧ UB B ∧ 0 < f ∧ f + 2 ≤ B) ∧ F.f ≤ 32) ∨
    (Narrow F ∧ 2 ≤ val F F.T.hi + ulp F)

/-- `log2` is accurate at `x`. -/
def LogAt (F : FxTy) (x : Int) : Prop := ∃ r, log2 F x = .ok r ∧ Storable F r ∧ LogNear F x r

theorem exists_log {F : FxTy} {x : Int} (h : 0 < val F x) : ∃ k : Int, (2 : ℚ) ^ k ≤ val F x ∧ val F x < (2 : ℚ) ^ (k + 1) :=
  ⟨Int.log 2 (val F x), by exact_mod_cast Int.zpow_log_le_self (b := 2) (by norm_num) h,
    by exact_mod_cast Int.lt_zpow_succ_log_self (b := 2) (by norm_num) (val F x)⟩

theorem log_total {F : FxTy} (hF : F.Valid) (hL : LogLayout F) {x : Int} (hx : Storable F x) (h0 : 0 < val F x) :
    ∃ r, log2 F x = .ok r ∧ Storable F r := by
  rcases hL with ⟨hs, hg⟩ | ⟨⟨B, f, rfl, hB, hf0, hf1⟩, hf⟩ | ⟨hn, hroom⟩
  · obtain ⟨r, h, hS, _⟩ := (C100_layout_partial F hF hs hg x hx).2 h0
    exact ⟨r, h, hS⟩
  · by_cases h1 : 1 ≤ val (LU B f) x
    · obtain ⟨r, h, hS, _⟩ := C140_large_partial B f hB hf0 hf1 hf x hx h1
      exact ⟨r, h, hS⟩
    · obtain ⟨r, _, h, hS, _⟩ := C140_small_partial B f hB hf0 hf1 hf x hx h0 (not_le.1 h1)
      exact ⟨r, h, hS⟩
  · obtain ⟨k, k1, k2⟩ := exists_log h0
    obtain ⟨r, _, h, hS, _⟩ := (C145_log2_partial F hF hn hroom x hx).2 k k1 k2
    exact ⟨r, h, hS⟩

theorem zero_store {F : FxTy} : F.T.lo ≤ 0 := by
  unfold IntTy.lo; split
  · have : (0 : Int) < 2 ^ (F.T.bits - 1) := by positivity
    omega
  · exact le_rfl

/-- Accuracy: everywhere on the signed layouts, from one on on the others. -/
theorem log_at {F : FxTy} (hF : F.Valid) (hL : LogLayout F) {x : Int} (hx : Storable F x) (h0 : 0 < val F x) (h1 : SignedWide F ∨ 1 ≤ val F x) :
    LogAt F x := by
  rcases hL with ⟨hs, hg⟩ | ⟨⟨B, f, rfl, hB, hf0, hf1⟩, hf⟩ | ⟨hn, hroom⟩
  · exact (C100_layout_partial F hF hs hg x hx).2 h0
  · have h1' : 1 ≤ val (LU B f) x := by
      rcases h1 with h | h
      · exact absurd h.1 (by simp)
      · exact h
    exact C140_large_partial B f hB hf0 hf1 hf x hx h1'
  · have h1' : 1 ≤ val F x := by
      rcases h1 with h | h
      · have := h.2; rcases hn with e | e <;> rw [e] at this <;> omega
      · exact h
    obtain ⟨k, k1, k2⟩ := exists_log h0
    have k0 : 0 ≤ k := by
      by_contra hneg
      have : (2 : ℚ) ^ (k + 1) ≤ 2 ^ (0 : Int) := zpow_le_zpow_right₀ (by norm_num) (by omega)
      rw [zpow_zero] at this
      linarith
    obtain ⟨j, rfl⟩ : ∃ j : Nat, k = j := ⟨k.toNat, by omega⟩
    have hrep : Representable F ((j : Int) : ℚ) := by
      refine ⟨j * 2 ^ F.f, ⟨le_trans zero_store (by positivity), ?_⟩, val_int F j⟩
      refine le_trans ?_ hx.2
      rw [← val_le (F := F), val_int]
      refine le_trans ?_ k1
      have : j < 2 ^ j := Nat.lt_two_pow_self
      rw [zpow_natCast]
      exact_mod_cast this.le
    obtain ⟨r, n, h, hS, hN, hn0, _⟩ := (C145_log2_partial F hF hn hroom x hx).2 j k1 k2
    have := hn0 hrep
    subst this
    rw [zero_mul, sub_zero] at hN
    exact ⟨r, h, hS, hN⟩

/-- C164: doubling the argument adds exactly one to `log2`, on every layout whatsoever, in the arithmetic of the type (modulo its span):
whenever the two logarithms are returned at all. -/
theorem C164_double (F : FxTy) (hF : F.Valid) (x y r s : Int) (hx : 0 < val F x) (hy : Storable F y) (hxy : val F y = 2 * val F x)
    (h : log2 F x = .ok r) (h' : log2 F y = .ok s) : (2 : Int) ^ F.T.bits ∣ s - (r + 2 ^ F.f) := by
  rw [← val_zero F, val_lt] at hx
  have e : y = 2 * x := by
    apply val_inj (F := F); rw [hxy]; unfold val; push_cast; ring
  subst e
  exact log2_double hF hx hy h h'
example : log2 (LU 32 16) 9 = .ok 4294126464 ∧ log2 (LU 32 16) 18 = .ok (4294126464 + 2 ^ 16) ∧
    log2 ⟨i16, i32, 12, true⟩ 5 = .ok 25894 ∧ log2 ⟨i16, i32, 12, true⟩ 10 = .ok (25894 + 2 ^ 12) := by decide +kernel

/-- C164: `log2 (2^j x)` is `log2 x + j` in the arithmetic of the type, hence exactly that whenever the sum is representable. -/
theorem C164_scale (F : FxTy) (hF : F.Valid) (hL : LogLayout F) (x y : Int) (j : Nat) (hx : Storable F x) (hy : Storable F y)
    (h0 : 0 < val F x) (hxy : val F y = 2 ^ j * val F x) :
    ∃ r s, log2 F x = .ok r ∧ log2 F y = .ok s ∧ IsWrap F (r + j * 2 ^ F.f) s ∧ (Storable F (r + j * 2 ^ F.f) → val F s = val F r + j) := by
  have h0' : 0 < x := by rw [← val_zero F, val_lt] at h0; exact h0
  have e : y = 2 ^ j * x := by
    apply val_inj (F := F); rw [hxy]; unfold val; push_cast; ring
  subst e
  clear hxy
  have key : ∃ r s, log2 F x = .ok r ∧ log2 F (2 ^ j * x) = .ok s ∧ Storable F s ∧ (2 : Int) ^ F.T.bits ∣ s - (r + j * 2 ^ F.f) := by
    induction j with
    | zero =>
      obtain ⟨r, h, hS⟩ := log_total hF hL hx h0
      exact ⟨r, r, h, by rw [pow_zero, one_mul]; exact h, hS, by simp⟩
    | succ j ih =>
      have hp : (0 : Int) < 2 ^ j := by positivity
      have e2 : (2 : Int) ^ (j + 1) * x = 2 * (2 ^ j * x) := by ring
      have hpx : 0 < 2 ^ j * x := by positivity
      have hs : Storable F (2 ^ j * x) := ⟨le_trans zero_store hpx.le, le_trans (by rw [e2]; omega) hy.2⟩
      obtain ⟨r, s, hr, hs', hS, hd⟩ := ih hs
      obtain ⟨t, ht, hT⟩ := log_total hF hL hy (by rw [← val_zero F, val_lt]; positivity)
      refine ⟨r, t, hr, ht, hT, ?_⟩
      rw [e2] at ht hy
      have := log2_double hF hpx hy hs' ht
      exact dvd_of_eq (Int.dvd_add this hd) (by push_cast; ring)
  obtain ⟨r, s, hr, hs, hS, hd⟩ := key
  refine ⟨r, s, hr, hs, ?_, fun hfit => ?_⟩
  · have hw : F.T.wrap (r + j * 2 ^ F.f) = s := by
      rw [← IntTy.wrap_of_inRange hF.tpos hS]
      apply IntTy.wrap_congr
      rw [← Int.dvd_neg]; exact dvd_of_eq hd (by ring)
    rw [← hw]; exact isWrap_wrap hF _
  · have : s = r + j * 2 ^ F.f := by
      rw [← IntTy.wrap_of_inRange hF.tpos hS, ← IntTy.wrap_of_inRange hF.tpos hfit]
      exact IntTy.wrap_congr hd
    rw [this, val_add]; congr 1; exact_mod_cast val_int F j

theorem logb_floor {F : FxTy} {z : Int} {q : ℝ} (h1 : 1 ≤ val F z) (Z1 : ((val F z : ℚ) : ℝ) ≤ q) (Z2 : q ≤ ((val F z : ℚ) : ℝ) + ((ulp F : ℚ) : ℝ)) :
    Real.logb 2 ((val F z : ℚ) : ℝ) ≤ Real.logb 2 q ∧ Real.logb 2 q ≤ Real.logb 2 ((val F z : ℚ) : ℝ) + 1.4427 * ((ulp F : ℚ) : ℝ) := by
  have Z0 : (1 : ℝ) ≤ ((val F z : ℚ) : ℝ) := by exact_mod_cast h1
  refine ⟨Real.logb_le_logb_of_le (by norm_num) (by linarith) Z1, ?_⟩
  refine le_trans (Real.logb_le_logb_of_le (by norm_num) (by linarith) Z2) ?_
  have hz' : (2 : ℝ) ^ F.f ≤ (z : ℝ) := by
    have := h1
    unfold val at this
    rw [le_div_iff₀ (by positivity), one_mul] at this
    exact_mod_cast this
  have := logb_succ (f := F.f) hz'
  unfold val ulp
  push_cast
  rw [← add_div]
  calc _ ≤ _ := this
    _ = _ := by ring

theorem near_product {F : FxTy} {x y z a b c : Int} (h0 : 0 < val F x) (h0y : 0 < val F y) (hz : IsFloor F (val F x * val F y) z) (h1 : 1 ≤ val F z)
    (ha : LogNear F x a) (hb : LogNear F y b) (hc : LogNear F z c) :
    -(6 * ulp F) < val F c - (val F a + val F b) ∧ val F c - (val F a + val F b) < 8 * ulp F := by
  obtain ⟨a1, a2⟩ := ha
  obtain ⟨b1, b2⟩ := hb
  obtain ⟨c1, c2⟩ := hc
  obtain ⟨z1, z2⟩ := hz
  have X0 : (0 : ℝ) < ((val F x : ℚ) : ℝ) := by exact_mod_cast h0
  have Y0 : (0 : ℝ) < ((val F y : ℚ) : ℝ) := by exact_mod_cast h0y
  have Z0 : (1 : ℝ) ≤ ((val F z : ℚ) : ℝ) := by exact_mod_cast h1
  have Z1 : ((val F z : ℚ) : ℝ) ≤ ((val F x : ℚ) : ℝ) * ((val F y : ℚ) : ℝ) := by exact_mod_cast z1
  have Z2 : ((val F x : ℚ) : ℝ) * ((val F y : ℚ) : ℝ) ≤ ((val F z : ℚ) : ℝ) + ((ulp F : ℚ) : ℝ) := by exact_mod_cast z2.le
  have L : Real.logb 2 (((val F x : ℚ) : ℝ) * ((val F y : ℚ) : ℝ)) = Real.logb 2 ((val F x : ℚ) : ℝ) + Real.logb 2 ((val F y : ℚ) : ℝ) :=
    Real.logb_mul X0.ne' Y0.ne'
  obtain ⟨L1, L2⟩ := logb_floor h1 Z1 Z2
  have u0 : (0 : ℝ) < ((ulp F : ℚ) : ℝ) := by exact_mod_cast ulp_pos F
  constructor
  · have : -(6 * ((ulp F : ℚ) : ℝ)) < ((val F c : ℚ) : ℝ) - (((val F a : ℚ) : ℝ) + ((val F b : ℚ) : ℝ)) := by nlinarith
    exact_mod_cast this
  · have : ((val F c : ℚ) : ℝ) - (((val F a : ℚ) : ℝ) + ((val F b : ℚ) : ℝ)) < 8 * ((ulp F : ℚ) : ℝ) := by nlinarith
    exact_mod_cast this

theorem near_quotient {F : FxTy} {x y z a b c : Int} (h0 : 0 < val F x) (h0y : 0 < val F y) (hz : IsFloor F (val F x / val F y) z) (h1 : 1 ≤ val F z)
    (ha : LogNear F x a) (hb : LogNear F y b) (hc : LogNear F z c) :
    -(10 * ulp F) < val F c - (val F a - val F b) ∧ val F c - (val F a - val F b) < 4 * ulp F := by
  obtain ⟨a1, a2⟩ := ha
  obtain ⟨b1, b2⟩ := hb
  obtain ⟨c1, c2⟩ := hc
  obtain ⟨z1, z2⟩ := hz
  have X0 : (0 : ℝ) < ((val F x : ℚ) : ℝ) := by exact_mod_cast h0
  have Y0 : (0 : ℝ) < ((val F y : ℚ) : ℝ) := by exact_mod_cast h0y
  have Z1 : ((val F z : ℚ) : ℝ) ≤ ((val F x : ℚ) : ℝ) / ((val F y : ℚ) : ℝ) := by rw [← Rat.cast_div, Rat.cast_le]; exact z1
  have Z2 : ((val F x : ℚ) : ℝ) / ((val F y : ℚ) : ℝ) ≤ ((val F z : ℚ) : ℝ) + ((ulp F : ℚ) : ℝ) := by
    rw [← Rat.cast_div, ← Rat.cast_add, Rat.cast_le]; exact z2.le
  have L : Real.logb 2 (((val F x : ℚ) : ℝ) / ((val F y : ℚ) : ℝ)) = Real.logb 2 ((val F x : ℚ) : ℝ) - Real.logb 2 ((val F y : ℚ) : ℝ) :=
    Real.logb_div X0.ne' Y0.ne'
  obtain ⟨L1, L2⟩ := logb_floor h1 Z1 Z2
  have u0 : (0 : ℝ) < ((ulp F : ℚ) : ℝ) := by exact_mod_cast ulp_pos F
  constructor
  · have : -(10 * ((ulp F : ℚ) : ℝ)) < ((val F c : ℚ) : ℝ) - (((val F a : ℚ) : ℝ) - ((val F b : ℚ) : ℝ)) := by nlinarith
    exact_mod_cast this
  · have : ((val F c : ℚ) : ℝ) - (((val F a : ℚ) : ℝ) - ((val F b : ℚ) : ℝ)) < 4 * ((ulp F : ℚ) : ℝ) := by nlinarith
    exact_mod_cast this

/-- C164: `log2` of a product is the sum of the `log2`s up to 8 ulp, when the product is at least one and fits; on the unsigned and narrow layouts
for factors of at least one. -/
theorem C164_product (F : FxTy) (hF : F.Valid) (hr : F.r = false) (hL : LogLayout F) (x y z : Int) (hx : Storable F x) (hy : Storable F y)
    (h0 : 0 < val F x) (h0y : 0 < val F y) (hz : IsFloor F (val F x * val F y) z) (hzs : Storable F z) (h1 : 1 ≤ val F z)
    (hlay : SignedWide F ∨ (1 ≤ val F x ∧ 1 ≤ val F y)) :
    mul F x y = .ok z ∧ ∃ a b c, log2 F x = .ok a ∧ log2 F y = .ok b ∧ log2 F z = .ok c ∧
      -(6 * ulp F) < val F c - (val F a + val F b) ∧ val F c - (val F a + val F b) < 8 * ulp F := by
  constructor
  · have hfl := floor_spec F (x * y)
    rw [mul_nf hF hr hx hy]
    have : x * y / 2 ^ F.f = z := by
      apply isFloor_unique (F := F) (q := val F x * val F y) _ hz
      have e : val F x * val F y = ((x * y : Int) : ℚ) / 2 ^ F.f / 2 ^ F.f := by unfold val; push_cast; ring
      rw [e]; exact hfl
    rw [this, IntTy.wrap_of_inRange hF.tpos hzs]
  · obtain ⟨a, ea, _, na⟩ := log_at hF hL hx h0 (hlay.imp id fun h => h.1)
    obtain ⟨b, eb, _, nb⟩ := log_at hF hL hy h0y (hlay.imp id fun h => h.2)
    obtain ⟨c, ec, _, nc⟩ := log_at hF hL hzs (by linarith) (Or.inr h1)
    exact ⟨a, b, c, ea, eb, ec, near_product h0 h0y hz h1 na nb nc⟩

/-- C164: `log2` of a quotient is the difference of the `log2`s up to 10 ulp, under the same conditions. -/
theorem C164_quotient (F : FxTy) (hF : F.Valid) (hr : F.r = false) (hL : LogLayout F) (x y z : Int) (hx : Storable F x) (hy : Storable F y)
    (h0 : 0 < val F x) (h0y : 0 < val F y) (hz : IsFloor F (val F x / val F y) z) (hzs : Storable F z) (h1 : 1 ≤ val F z)
    (hlay : SignedWide F ∨ (1 ≤ val F x ∧ 1 ≤ val F y)) :
    div F x y = .ok z ∧ ∃ a b c, log2 F x = .ok a ∧ log2 F y = .ok b ∧ log2 F z = .ok c ∧
      -(10 * ulp F) < val F c - (val F a - val F b) ∧ val F c - (val F a - val F b) < 4 * ulp F := by
  constructor
  · have hy0 : y ≠ 0 := by rintro rfl; rw [val_zero] at h0y; exact lt_irrefl _ h0y
    obtain ⟨w, n, hw, hn, _, hwn⟩ := (C03_div_trunc F hF hr x y hx).2 hy0
    obtain ⟨_, n1, n2⟩ := hn.1 (div_nonneg h0.le h0y.le)
    have : n = z := isFloor_unique (F := F) (q := val F x / val F y) ⟨n1, n2⟩ hz
    subst this
    rw [hw, hwn hzs]
  · obtain ⟨a, ea, _, na⟩ := log_at hF hL hx h0 (hlay.imp id fun h => h.1)
    obtain ⟨b, eb, _, nb⟩ := log_at hF hL hy h0y (hlay.imp id fun h => h.2)
    obtain ⟨c, ec, _, nc⟩ := log_at hF hL hzs (by linarith) (Or.inr h1)
    exact ⟨a, b, c, ea, eb, ec, near_quotient h0 h0y hz h1 na nb nc⟩

example : LogLayout (LU 32 16) ∧ LogLayout ⟨i16, i32, 8, false⟩ ∧ LogLayout ⟨i64, i128, 20, false⟩ :=
  ⟨Or.inr (Or.inl ⟨⟨32, 16, rfl, by decide, by norm_num, by norm_num⟩, by norm_num⟩),
    Or.inr (Or.inr ⟨by decide, by norm_num [val, ulp, IntTy.hi]⟩), Or.inl ⟨by decide, by decide⟩⟩
example : log2 ⟨i16, i32, 8, false⟩ (3 * 256) = .ok 405 ∧ log2 ⟨i16, i32, 8, false⟩ (5 * 256) = .ok 594 ∧
    log2 ⟨i16, i32, 8, false⟩ (15 * 256) = .ok 999 ∧ mul ⟨i16, i32, 8, false⟩ (3 * 256) (5 * 256) = .ok (15 * 256) ∧
    div ⟨i16, i32, 8, false⟩ (15 * 256) (5 * 256) = .ok (3 * 256) := by decide +kernel

end Eirin.Props
