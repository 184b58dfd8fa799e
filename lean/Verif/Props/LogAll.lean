import Verif.Lemmas.Log2Gen
import Verif.Props.Log

/-! # Property C100: the logarithm on every signed layout. -/

namespace Eirin.Props
open Spec Real

/-- The exact base-2 logarithm of the number `x` lies in `[r, r + 4 ulp)`. -/
def LogNear (F : FxTy) (x r : Int) : Prop :=
  ((val F r : ℚ) : ℝ) ≤ Real.logb 2 ((val F x : ℚ) : ℝ) ∧ Real.logb 2 ((val F x : ℚ) : ℝ) < (val F r : ℚ) + 4 * (ulp F : ℚ)

/-- C100 as stated. -/
def C100_statement : Prop := ∀ F : FxTy, F.Valid → SignedWide F → ∀ x, Storable F x →
  (val F x ≤ 0 → log2 F x = .throw .domainError) ∧ (0 < val F x → ∃ r, log2 F x = .ok r ∧ Storable F r ∧ LogNear F x r)

/-- C100 is false of the code: with 33 or more fraction bits the first shift is already undefined. -/
theorem C100_false : ¬ C100_statement := by
  intro h
  obtain ⟨r, hr, _⟩ := (h ⟨i64, i128, 40, false⟩ (by decide) (by decide) (2 ^ 40) (by decide +kernel)).2
    (by norm_num [val])
  have : log2 ⟨i64, i128, 40, false⟩ (2 ^ 40) = .ub .shift := by decide +kernel
  rw [this] at hr; cases hr

/-- The layouts on which `log2` works: at most 26 fraction bits in 32-bit storage, at most 32 in 64-bit storage. -/
def GoodLog (F : FxTy) : Prop := F.f ≤ 26 ∨ F.T.bits = 64 ∧ F.f ≤ 32

theorem lg_of {F : FxTy} (hF : F.Valid) (hs : SignedWide F) (h32 : F.f ≤ 32) (h3 : F.f + 3 ≤ F.T.bits) : LG F := by
  refine ⟨⟨hF, hs, ?_⟩, h32, h3⟩
  have hp : (0 : Int) < 2 ^ F.f := by positivity
  have h4 : 4 * (2 : Int) ^ F.f ≤ 2 ^ (F.T.bits - 1) := by
    have : (2 : Int) ^ (F.f + 2) ≤ 2 ^ (F.T.bits - 1) := pow_le_pow_right₀ (by norm_num) (by omega)
    rw [pow_add] at this; linarith
  constructor
  · unfold IntTy.lo; rw [hs.1, if_pos rfl]; omega
  · unfold IntTy.hi; rw [hs.1, if_pos rfl]; omega

theorem GoodLog.lg {F : FxTy} (hg : GoodLog F) (hF : F.Valid) (hs : SignedWide F) : LG F := by
  have := hs.2
  rcases hg with h | ⟨h, h'⟩
  · exact lg_of hF hs (by omega) (by omega)
  · exact lg_of hF hs (by omega) (by omega)

/-- On these layouts every integral part fits. -/
theorem GoodLog.fits {F : FxTy} (hg : GoodLog F) (hs : SignedWide F) {k : Int} (hk : -F.f ≤ k) : F.T.lo ≤ k * 2 ^ F.f := by
  have hp : (0 : Int) < 2 ^ F.f := by positivity
  have h1 : -(F.f : Int) * 2 ^ F.f ≤ k * 2 ^ F.f := mul_le_mul_of_nonneg_right hk hp.le
  have h2 : (F.f : Int) * 2 ^ F.f ≤ 2 ^ (F.T.bits - 1) := by
    have hb := hs.2
    rcases hg with h | ⟨h, h'⟩
    · have a : (2 : Int) ^ F.f ≤ 2 ^ 26 := pow_le_pow_right₀ (by norm_num) h
      have b : (2 : Int) ^ 31 ≤ 2 ^ (F.T.bits - 1) := pow_le_pow_right₀ (by norm_num) (by omega)
      have c : (F.f : Int) * 2 ^ F.f ≤ 26 * 2 ^ 26 := mul_le_mul (by exact_mod_cast h) a hp.le (by norm_num)
      norm_num at b c; linarith
    · have a : (2 : Int) ^ F.f ≤ 2 ^ 32 := pow_le_pow_right₀ (by norm_num) h'
      have c : (F.f : Int) * 2 ^ F.f ≤ 32 * 2 ^ 32 := mul_le_mul (by exact_mod_cast h') a hp.le (by norm_num)
      rw [h]; norm_num at c ⊢; linarith
  unfold IntTy.lo; rw [hs.1, if_pos rfl]; linarith

theorem log_near {F : FxTy} {x m k : Int} (hn : Norm F.f x m k) (h0 : 0 < x) : LogNear F x (k * 2 ^ F.f + fracOut F.f F.f m) := by
  obtain ⟨n1, n2⟩ := norm_real hn h0
  obtain ⟨f1, f2⟩ := frac_real F.f F.f hn.lo hn.hi
  have hp : (0 : ℝ) < 2 ^ F.f := by positivity
  unfold LogNear val ulp
  push_cast
  have e : ((k : ℝ) * 2 ^ F.f + fracOut F.f F.f m) / 2 ^ F.f = k + fracOut F.f F.f m / 2 ^ F.f := by field_simp
  rw [e]
  constructor
  · linarith
  · have e2 : (1 : ℝ) - 1 / 2 ^ F.f ≤ 1 := by have : (0 : ℝ) ≤ 1 / 2 ^ F.f := by positivity
                                              linarith
    have e3 : (1.4427 : ℝ) / 2 ^ F.f * (1 - 1 / 2 ^ F.f) ≤ 1.4427 / 2 ^ F.f :=
      mul_le_of_le_one_right (by positivity) e2
    have e4 : (1.4427 : ℝ) / 2 ^ F.f = 1.4427 * (1 / 2 ^ F.f) := by ring
    have e5 : (0 : ℝ) < 1 / 2 ^ F.f := by positivity
    rw [add_div] at f2
    rw [e4] at n2 e3 f2
    linarith

/-- C100 on the layouts where it holds: every type with 32-bit storage and at most 26 fraction bits, or 64-bit storage and at
most 32 fraction bits, any intermediate type, rounding or not.  Full statement: `C100_statement`; `C100_criterion` shows that
no other layout has the property. -/
theorem C100_layout_partial (F : FxTy) (hF : F.Valid) (hs : SignedWide F) (hg : F.f ≤ 26 ∨ F.T.bits = 64 ∧ F.f ≤ 32) (x : Int)
    (hx : Storable F x) : (val F x ≤ 0 → log2 F x = .throw .domainError) ∧
      (0 < val F x → ∃ r, log2 F x = .ok r ∧ Storable F r ∧ LogNear F x r) := by
  have h := GoodLog.lg hg hF hs
  constructor
  · intro h0
    rw [← val_zero F, val_le] at h0
    exact h.log2_neg h0
  · intro h0
    rw [← val_zero F, val_lt] at h0
    obtain ⟨m, k, hn, hk, _, _, hok, _⟩ := h.log2_raw hx h0
    obtain ⟨a, b⟩ := hok (GoodLog.fits hg hs hk)
    exact ⟨_, a, b, log_near hn h0⟩

example : (⟨i32, i128, 26, true⟩ : FxTy).Valid ∧ SignedWide ⟨i32, i128, 26, true⟩ ∧
    log2 ⟨i32, i128, 26, true⟩ 1 = .ok (-26 * 2 ^ 26) ∧ log2 ⟨i64, i128, 8, false⟩ (3 * 2 ^ 8) = .ok 405 ∧
    log2 ⟨i32, i64, 8, false⟩ 0 = .throw .domainError := by decide +kernel

/-- C100: with 33 or more fraction bits `log2` is undefined for every argument (the shift `1u << (f - 1)`). -/
theorem C100_shift (F : FxTy) (h : 33 ≤ F.f) (x : Int) : log2 F x = .ub .shift := by
  have hb : shl u32 1 (F.f - 1) = .ub .shift := by
    unfold shl
    exact if_neg (by show ¬ F.f - 1 < 32; omega)
  unfold log2
  rw [hb, Res.bind_ub]

/-- In 32-bit storage with 27 or more fraction bits the smallest positive value is undefined. -/
theorem log2_one_ub (F : FxTy) (hF : F.Valid) (hs : SignedWide F) (h32 : F.T.bits = 32) (h27 : 27 ≤ F.f) :
    log2 F 1 = .ub .overflow := by
  by_cases h29 : F.f ≤ 29
  · have h := lg_of hF hs (by omega) (by omega)
    obtain ⟨m, k, hn, hk, e1, e2, _, hub⟩ := h.log2_raw (x := 1) (h.sw.i32_in (by decide)) (by norm_num)
    apply hub
    have h0 : k + F.f = 0 := by
      by_contra hc
      have : (2 : Int) ^ 1 ≤ 2 ^ (k + F.f).toNat := pow_le_pow_right₀ (by norm_num) (by omega)
      omega
    have hk' : k = -F.f := by omega
    rw [hk', h.sw.lo_eq, h32]
    have a : (2 : Int) ^ 27 ≤ 2 ^ F.f := pow_le_pow_right₀ (by norm_num) h27
    have c : (27 : Int) * 2 ^ 27 ≤ F.f * 2 ^ F.f := mul_le_mul (by exact_mod_cast h27) a (by norm_num) (by positivity)
    norm_num at c ⊢; linarith
  · obtain ⟨⟨tb, ts⟩, ⟨ib, is⟩, f, r⟩ := F
    obtain ⟨_, v2, v3, v4, _, v6⟩ := hF
    obtain ⟨s1, _⟩ := hs
    simp only at *
    subst h32; subst s1; subst v4
    have hf : f = 30 ∨ f = 31 := by omega
    have hi : ib = 64 ∨ ib = 128 := by omega
    rcases hf with rfl | rfl <;> rcases hi with rfl | rfl <;> cases r <;> decide +kernel

/-- C100, which layouts work: `log2` is defined on all positive values exactly when the storage has 32 bits with at most 26 of
them for the fraction, or 64 bits with at most 32. -/
theorem C100_criterion (F : FxTy) (hF : F.Valid) (hs : SignedWide F) :
    (∀ x, Storable F x → 0 < val F x → ∃ r, log2 F x = .ok r) ↔ (F.f ≤ 26 ∨ F.T.bits = 64 ∧ F.f ≤ 32) := by
  constructor
  · intro hall
    by_contra hc
    have hb : F.T.bits = 32 ∨ F.T.bits = 64 := by have := hF.1; have := hs.2; omega
    have h1 : Storable F 1 := by
      have : (2 : Int) ^ 31 ≤ 2 ^ (F.T.bits - 1) := pow_le_pow_right₀ (by norm_num) (by omega)
      constructor
      · unfold IntTy.lo; rw [hs.1, if_pos rfl]; norm_num at this; omega
      · unfold IntTy.hi; rw [hs.1, if_pos rfl]; norm_num at this; omega
    obtain ⟨r, hr⟩ := hall 1 h1 (by rw [← val_zero F, val_lt]; norm_num)
    by_cases h33 : 33 ≤ F.f
    · rw [C100_shift F h33] at hr; cases hr
    · have h32 : F.T.bits = 32 := by omega
      rw [log2_one_ub F hF hs h32 (by omega)] at hr; cases hr
  · intro hg x hx h0
    obtain ⟨r, hr, _⟩ := (C100_layout_partial F hF hs hg x hx).2 h0
    exact ⟨r, hr⟩

/-- C100, which arguments work: as long as the number 4 is representable and `f ≤ 32`, `log2` of a positive number is
defined exactly when the integral part of its logarithm is representable, and undefined by overflow otherwise. -/
theorem C100_sharp (F : FxTy) (hF : F.Valid) (hs : SignedWide F) (h32 : F.f ≤ 32) (h3 : F.f + 3 ≤ F.T.bits) (x k : Int)
    (hx : Storable F x) (h1 : (2 : ℚ) ^ k ≤ val F x) (h2 : val F x < (2 : ℚ) ^ (k + 1)) :
    (Representable F k → ∃ r, log2 F x = .ok r ∧ LogNear F x r) ∧ (¬ Representable F k → log2 F x = .ub .overflow) := by
  have h := lg_of hF hs h32 h3
  have hpos : 0 < val F x := lt_of_lt_of_le (by positivity) h1
  have h0 : 0 < x := by rw [← val_zero F, val_lt] at hpos; exact hpos
  obtain ⟨m, k', hn, hk, e1, e2, hok, hub⟩ := h.log2_raw hx h0
  have hkk : k' = k := by
    have ev : ∀ n : Int, -F.f ≤ n → ((2 : Int) ^ (n + F.f).toNat : Int) = (2 : ℚ) ^ n * 2 ^ F.f := by
      intro n hn
      push_cast
      rw [← zpow_natCast, Int.toNat_of_nonneg (by omega), zpow_add₀ (by norm_num), zpow_natCast]
    have hp : (0 : ℚ) < 2 ^ F.f := by positivity
    have a1 : (2 : ℚ) ^ k' ≤ val F x := by
      unfold val; rw [le_div_iff₀ hp, ← ev k' hk]; exact_mod_cast e1
    have a2 : val F x < (2 : ℚ) ^ (k' + 1) := by
      unfold val; rw [div_lt_iff₀ hp, zpow_add₀ (by norm_num), zpow_one]
      have : (x : ℚ) < ((2 * 2 ^ (k' + F.f).toNat : Int) : ℚ) := by exact_mod_cast e2
      have e := ev k' hk
      push_cast at this e
      nlinarith
    have b1 : k < k' + 1 := (zpow_lt_zpow_iff_right₀ (by norm_num : (1 : ℚ) < 2)).1 (lt_of_le_of_lt h1 a2)
    have b2 : k' < k + 1 := (zpow_lt_zpow_iff_right₀ (by norm_num : (1 : ℚ) < 2)).1 (lt_of_le_of_lt a1 h2)
    omega
  subst hkk
  constructor
  · rintro ⟨z, hz, ez⟩
    have : z = k' * 2 ^ F.f := val_inj (F := F) (by rw [ez, val_int])
    subst this
    exact ⟨_, (hok hz.1).1, log_near hn h0⟩
  · intro hc
    apply hub
    by_contra hge
    push Not at hge
    obtain ⟨_, ⟨_, b⟩⟩ := hok hge
    have a := fracOut_nonneg F.f F.f m
    exact hc ⟨k' * 2 ^ F.f, ⟨hge, by omega⟩, val_int F k'⟩

example : log2 ⟨i32, i64, 28, false⟩ (2 ^ 20) = .ok (-8 * 2 ^ 28) ∧ log2 ⟨i32, i64, 28, false⟩ (2 ^ 20 - 1) = .ub .overflow ∧
    log2 ⟨i32, i64, 30, false⟩ (2 ^ 30) = .ub .overflow := by decide +kernel

/-- C100: `log2` is monotone on every layout on which it is defined. -/
theorem C100_monotone (F : FxTy) (hF : F.Valid) (hs : SignedWide F) (h32 : F.f ≤ 32) (h3 : F.f + 3 ≤ F.T.bits) (x y a b : Int)
    (hx : Storable F x) (hy : Storable F y) (h0 : 0 < val F x) (hxy : val F x ≤ val F y)
    (ha : log2 F x = .ok a) (hb : log2 F y = .ok b) : val F a ≤ val F b := by
  have h := lg_of hF hs h32 h3
  rw [← val_zero F, val_lt] at h0
  rw [val_le] at hxy ⊢
  obtain ⟨m, k, hn, k1, e1, e2, r1, u1⟩ := h.log2_raw hx h0
  obtain ⟨m', k', hn', k1', e1', e2', r1', u1'⟩ := h.log2_raw hy (by omega)
  have g1 : F.T.lo ≤ k * 2 ^ F.f := by
    by_contra hc; push Not at hc; rw [u1 hc] at ha; cases ha
  have g2 : F.T.lo ≤ k' * 2 ^ F.f := by
    by_contra hc; push Not at hc; rw [u1' hc] at hb; cases hb
  rw [(r1 g1).1] at ha; cases ha
  rw [(r1' g2).1] at hb; cases hb
  have hp : (0 : Int) < 2 ^ F.f := by positivity
  have hkk : k ≤ k' := by
    by_contra hc
    have : (2 : Int) ^ ((k' + F.f).toNat + 1) ≤ 2 ^ (k + F.f).toNat := pow_le_pow_right₀ (by norm_num) (by omega)
    rw [pow_succ] at this; omega
  rcases lt_or_eq_of_le hkk with hlt | heq
  · have := fracOut_lt F.f F.f m
    have := fracOut_nonneg F.f F.f m'
    have : (k + 1) * 2 ^ F.f ≤ k' * 2 ^ F.f := mul_le_mul_of_nonneg_right (by omega) hp.le
    linarith
  · subst heq
    have hm : m ≤ m' := by
      rcases lt_or_ge k 0 with hneg | hpos
      · rw [hn.neg hneg, hn'.neg hneg]; exact mul_le_mul_of_nonneg_right hxy (by positivity)
      · rw [hn.pos hpos, hn'.pos hpos]; exact Int.ediv_le_ediv (by positivity) hxy
    have := fracOut_mono F.f F.f (le_trans hp.le hn.lo) hm
    linarith

example : log2 ⟨i32, i64, 20, false⟩ (3 * 2 ^ 20) = .ok 1661953 ∧ log2 ⟨i32, i64, 20, false⟩ (5 * 2 ^ 20) = .ok 2434718 := by decide +kernel

end Eirin.Props
