import Verif.Lemmas.Signed
import Verif.Props.Convert

/-! # Properties C21–C27: floor, ceil, trunc, round, abs, min, max, modf, fmod. -/

namespace Eirin.Props
open Spec

variable {F : FxTy}

theorem integral_iff {x : Int} : Integral F x ↔ ∃ k : Int, x = k * 2 ^ F.f := by
  constructor
  · rintro ⟨k, hk⟩; exact ⟨k, val_inj (F := F) (by rw [hk, val_int])⟩
  · rintro ⟨k, rfl⟩; exact ⟨k, val_int F k⟩

theorem le_of_int {x z k : Int} (hz : Integral F z) (hlt : x < z + 2 ^ F.f) (hk : (k : ℚ) ≤ val F x) : (k : ℚ) ≤ val F z := by
  obtain ⟨m, rfl⟩ := integral_iff.1 hz
  rw [← val_int F k, val_le] at *
  have hp : (0 : Int) < 2 ^ F.f := by positivity
  have : k * 2 ^ F.f < (m + 1) * 2 ^ F.f := by rw [add_mul]; omega
  have := lt_of_mul_lt_mul_right this hp.le
  exact mul_le_mul_of_nonneg_right (by omega) hp.le

theorem ge_of_int {x z k : Int} (hz : Integral F z) (hlt : z - 2 ^ F.f < x) (hk : val F x ≤ (k : ℚ)) : val F z ≤ (k : ℚ) := by
  obtain ⟨m, rfl⟩ := integral_iff.1 hz
  rw [← val_int F k, val_le] at *
  have hp : (0 : Int) < 2 ^ F.f := by positivity
  have : (m - 1) * 2 ^ F.f < k * 2 ^ F.f := by rw [sub_mul]; omega
  have := lt_of_mul_lt_mul_right this hp.le
  exact mul_le_mul_of_nonneg_right (by omega) hp.le

/-! ## C21 floor -/

/-- Raw form of `floor` where it is defined. -/
theorem floor_raw (h : SW F) {x : Int} (hx : Storable F x) (hlo : 0 ≤ x ∨ Storable F (x - (2 ^ F.f - 1))) :
    floor F x = .ok (x / 2 ^ F.f * 2 ^ F.f) := by
  have hd := SW.dpos (F := F)
  have hdle := h.d_le
  have hlh := h.lo_hi
  have e1 := Int.ediv_mul_le x (ne_of_gt hd)
  have e2 := Int.lt_ediv_add_one_mul_self x hd
  rw [add_mul, one_mul] at e2
  unfold floor
  rw [h.one_eq]
  rcases lt_or_ge x 0 with h0 | h0
  · have hs : F.T.InRange (x - (2 ^ F.f - 1)) := by rcases hlo with h | h; omega; exact h
    have m1 : F.T.InRange (2 ^ F.f - 1) := ⟨by omega, by omega⟩
    have ht := (tdiv_mul_spec (x - (2 ^ F.f - 1)) hd).2 (by omega)
    have heq : Int.tdiv (x - (2 ^ F.f - 1)) (2 ^ F.f) * 2 ^ F.f = x / 2 ^ F.f * 2 ^ F.f := by
      have a : (Int.tdiv (x - (2 ^ F.f - 1)) (2 ^ F.f) - 1) * 2 ^ F.f < (x / 2 ^ F.f) * 2 ^ F.f := by
        rw [sub_mul]; omega
      have b : (x / 2 ^ F.f - 1) * 2 ^ F.f < Int.tdiv (x - (2 ^ F.f - 1)) (2 ^ F.f) * 2 ^ F.f := by
        rw [sub_mul]; omega
      have a' := lt_of_mul_lt_mul_right a hd.le
      have b' := lt_of_mul_lt_mul_right b hd.le
      congr 1; omega
    have hpr : F.T.InRange (x / 2 ^ F.f * 2 ^ F.f) := by
      rw [← heq]; exact ⟨by have := hs.1; omega, by have := hx.2; omega⟩
    simp only [if_pos h0, h.arith_ok m1, Res.bind_ok, h.arith_ok hs, h.wrap_ok hs, Res.pure_eq]
    rw [if_neg (by omega), h.cdiv_ok hs hd, Res.bind_ok, heq, h.arith_ok hpr, Res.bind_ok, h.from_ok hpr]
  · have ht := (tdiv_mul_spec x hd).1 h0
    have heq : Int.tdiv x (2 ^ F.f) = x / 2 ^ F.f := Int.tdiv_eq_ediv_of_nonneg h0
    have hpr : F.T.InRange (x / 2 ^ F.f * 2 ^ F.f) := by
      rw [← heq]; exact ⟨by omega, by have := hx.2; omega⟩
    simp only [if_neg (not_lt.2 h0), Res.pure_eq, Res.bind_ok]
    rw [if_neg (by omega), h.cdiv_ok hx hd, Res.bind_ok, heq, h.arith_ok hpr, Res.bind_ok, h.from_ok hpr]

theorem floor_props (x : Int) : Integral F (x / 2 ^ F.f * 2 ^ F.f) ∧ x / 2 ^ F.f * 2 ^ F.f ≤ x ∧
    x < x / 2 ^ F.f * 2 ^ F.f + 2 ^ F.f := by
  have hd := SW.dpos (F := F)
  have e1 := Int.ediv_mul_le x (ne_of_gt hd)
  have e2 := Int.lt_ediv_add_one_mul_self x hd
  rw [add_mul, one_mul] at e2
  exact ⟨integral_iff.2 ⟨_, rfl⟩, e1, e2⟩

/-- C21: `floor(x)` is the greatest integral number not above `x`, for every `x` at least `2^f - 1` ulps above the minimum. -/
theorem C21_floor (F : FxTy) (hF : F.Valid) (hs : SignedWide F) (h1 : Storable F (2 ^ F.f)) (x : Int) (hx : Storable F x)
    (hlo : Storable F (x - (2 ^ F.f - 1)) ∨ 0 ≤ x) :
    ∃ z, floor F x = .ok z ∧ Integral F z ∧ val F z ≤ val F x ∧ (∀ k : Int, (k : ℚ) ≤ val F x → (k : ℚ) ≤ val F z) := by
  have h : SW F := ⟨hF, hs, h1⟩
  obtain ⟨a, b, c⟩ := floor_props (F := F) x
  exact ⟨_, floor_raw h hx (hlo.symm), a, val_le.2 b, fun k hk => le_of_int a c hk⟩

/-- C21: below that bound `floor` is undefined. -/
theorem C21_floor_ub (F : FxTy) (hF : F.Valid) (hs : SignedWide F) (h1 : Storable F (2 ^ F.f)) (x : Int) (_hx : Storable F x)
    (h0 : x < 0) (hlo : ¬ Storable F (x - (2 ^ F.f - 1))) : floor F x = .ub .overflow := by
  have h : SW F := ⟨hF, hs, h1⟩
  have hd := SW.dpos (F := F)
  have hdle := h.d_le
  have hlh := h.lo_hi
  have m1 : F.T.InRange (2 ^ F.f - 1) := ⟨by omega, by omega⟩
  unfold floor
  rw [h.one_eq]
  simp only [if_pos h0, h.arith_ok m1, Res.bind_ok]
  rw [h.arith_ub hlo]; rfl

/-- C21: `floor` is idempotent. -/
theorem C21_floor_idem (F : FxTy) (hF : F.Valid) (hs : SignedWide F) (h1 : Storable F (2 ^ F.f)) (x z : Int) (hx : Storable F x)
    (hz : floor F x = .ok z) (hlo : 0 ≤ z ∨ Storable F (z - (2 ^ F.f - 1))) : floor F z = .ok z := by
  have h : SW F := ⟨hF, hs, h1⟩
  have hd := SW.dpos (F := F)
  have hlo' : 0 ≤ x ∨ Storable F (x - (2 ^ F.f - 1)) := by
    by_contra hc
    push Not at hc
    rw [C21_floor_ub F hF hs h1 x hx hc.1 hc.2] at hz; cases hz
  rw [floor_raw h hx hlo'] at hz
  cases hz
  have hpr : Storable F (x / 2 ^ F.f * 2 ^ F.f) := by
    obtain ⟨_, b, _⟩ := floor_props (F := F) x
    have hdle := h.d_le
    have hlh := h.lo_hi
    rcases hlo with h' | h'
    · exact ⟨by omega, by have := hx.2; omega⟩
    · exact ⟨by have := h'.1; omega, by have := hx.2; omega⟩
  rw [floor_raw h hpr hlo, Int.mul_ediv_cancel _ (ne_of_gt hd)]

example : floor fixed32 (-98304) = .ok (-131072) ∧ floor fixed32 (-2 ^ 31 + 65534) = .ub .overflow ∧
    Storable fixed32 (-98304 - (2 ^ fixed32.f - 1)) ∧ ¬ Storable fixed32 (-2 ^ 31 + 65534 - (2 ^ fixed32.f - 1)) ∧
    floor fixed32 (-2 ^ 31 + 65535) = .ok (-2 ^ 31) ∧ floor fixed64 (5 * 2 ^ 31) = .ok (2 * 2 ^ 32) := by decide +kernel

/-! ## C22 ceil -/

/-- C22 as stated. -/
def C22_statement : Prop := ∀ x, Storable fixed32 x →
  ∀ z, Storable fixed32 z → Integral fixed32 z → val fixed32 x ≤ val fixed32 z → val fixed32 z < val fixed32 x + 1 →
    ceil fixed32 x = .ok z

/-- C22 is false of the code: `ceil(-0.5)` is `0.9999847`. -/
theorem C22_false : ¬ C22_statement := by
  intro h
  have h1 := h (-32768) (by decide +kernel) 0 (by decide +kernel) ⟨0, by simp [val_zero]⟩ (by norm_num [val, fixed32])
    (by norm_num [val, fixed32])
  revert h1; decide +kernel

/-- C22 for non-negative values: the least integral number not below `x`, whenever that is representable.
Full statement: `C22_statement` (negative values are wrong). -/
theorem C22_ceil_partial (F : FxTy) (hF : F.Valid) (hs : SignedWide F) (h1 : Storable F (2 ^ F.f)) (x : Int) (hx : Storable F x)
    (h0 : 0 ≤ x) (hhi : Storable F (x + (2 ^ F.f - 1))) :
    ∃ z, ceil F x = .ok z ∧ Integral F z ∧ val F x ≤ val F z ∧ (∀ k : Int, val F x ≤ (k : ℚ) → val F z ≤ (k : ℚ)) := by
  have h : SW F := ⟨hF, hs, h1⟩
  have hd := SW.dpos (F := F)
  have hdle := h.d_le
  have hlh := h.lo_hi
  have m1 : F.T.InRange (2 ^ F.f - 1) := ⟨by omega, by omega⟩
  have ht := (tdiv_mul_spec (x + (2 ^ F.f - 1)) hd).1 (by omega)
  set z := Int.tdiv (x + (2 ^ F.f - 1)) (2 ^ F.f) * 2 ^ F.f with hz
  have hzr : F.T.InRange z := ⟨by omega, by have := hhi.2; omega⟩
  have hzi : Integral F z := integral_iff.2 ⟨_, rfl⟩
  refine ⟨z, ?_, hzi, val_le.2 (by omega), fun k hk => ge_of_int hzi (by omega) hk⟩
  unfold ceil
  rw [h.one_eq]
  rcases eq_or_lt_of_le h0 with h00 | h00
  · have hz0 : z = 0 := by
      rw [hz, ← h00, zero_add, Int.tdiv_eq_zero_of_lt (by omega) (by omega), zero_mul]
    rw [if_neg (by omega)]
    simp only [Res.pure_eq, Res.bind_ok]
    rw [if_neg (by omega), ← h00, h.cdiv_ok h.zero_in hd, Res.bind_ok, Int.zero_tdiv, zero_mul, h.arith_ok h.zero_in,
      Res.bind_ok, h.from_ok h.zero_in, hz0]
  · rw [if_pos (by omega)]
    simp only [h.arith_ok m1, Res.bind_ok, h.arith_ok hhi, h.wrap_ok hhi, Res.pure_eq]
    rw [if_neg (by omega), h.cdiv_ok hhi hd, Res.bind_ok, ← hz, h.arith_ok hzr, Res.bind_ok, h.from_ok hzr]

/-- C22: for positive values whose ceiling is not representable, `ceil` is undefined. -/
theorem C22_ceil_ub (F : FxTy) (hF : F.Valid) (hs : SignedWide F) (h1 : Storable F (2 ^ F.f)) (x : Int) (_hx : Storable F x)
    (h0 : 0 < x) (hhi : ¬ Storable F (x + (2 ^ F.f - 1))) : ceil F x = .ub .overflow := by
  have h : SW F := ⟨hF, hs, h1⟩
  have hd := SW.dpos (F := F)
  have hdle := h.d_le
  have hlh := h.lo_hi
  have m1 : F.T.InRange (2 ^ F.f - 1) := ⟨by omega, by omega⟩
  unfold ceil
  rw [h.one_eq, if_pos h0]
  simp only [h.arith_ok m1, Res.bind_ok, h.arith_ub hhi, Res.bind_ub]

/-- C22, what the code does for negative values: one ulp less than one above the truncation, so never integral. -/
theorem C22_ceil_neg (F : FxTy) (hF : F.Valid) (hs : SignedWide F) (h1 : Storable F (2 ^ F.f)) (x : Int) (hx : Storable F x)
    (h0 : x < 0) :
    ∃ t z, ceil F x = .ok z ∧ Integral F t ∧ val F x ≤ val F t ∧ val F t - 1 < val F x ∧
      val F z = val F t + 1 - ulp F ∧ ¬ Integral F z := by
  have h : SW F := ⟨hF, hs, h1⟩
  have hd := SW.dpos (F := F)
  have hdle := h.d_le
  have hlh := h.lo_hi
  have ht := (tdiv_mul_spec x hd).2 h0.le
  set t := Int.tdiv x (2 ^ F.f) * 2 ^ F.f with htd
  have htr : F.T.InRange t := ⟨by have := hx.1; omega, by omega⟩
  have htr2 : F.T.InRange (t + 2 ^ F.f) := ⟨by have := hx.1; omega, by omega⟩
  have htr3 : F.T.InRange (t + 2 ^ F.f - 1) := ⟨by have := hx.1; omega, by omega⟩
  have hv1 : val F (2 ^ F.f) = 1 := by have := val_int F 1; simpa using this
  refine ⟨t, t + 2 ^ F.f - 1, ?_, integral_iff.2 ⟨_, htd⟩, val_le.2 ht.2.1, ?_, ?_, ?_⟩
  · unfold ceil
    rw [h.one_eq, if_neg (by omega)]
    simp only [Res.pure_eq, Res.bind_ok]
    rw [if_pos h0, h.cdiv_ok hx hd, Res.bind_ok, ← htd, h.arith_ok htr, Res.bind_ok, h.arith_ok htr2, Res.bind_ok,
      h.arith_ok htr3, Res.bind_ok, h.from_ok htr3]
  · rw [← hv1, ← val_sub, val_lt]; exact ht.2.2
  · rw [val_sub, val_add, hv1, val_one]
  · rw [integral_iff]
    rintro ⟨k, hk⟩
    have hf2 : (2 : Int) ≤ 2 ^ F.f := by
      calc (2 : Int) = 2 ^ 1 := by norm_num
        _ ≤ 2 ^ F.f := pow_le_pow_right₀ (by norm_num) hF.fpos
    have : (2 : Int) ^ F.f ∣ 1 := ⟨Int.tdiv x (2 ^ F.f) + 1 - k, by rw [mul_comm, sub_mul, add_mul, ← htd, ← hk]; ring⟩
    have := Int.le_of_dvd (by norm_num) this
    omega

example : ceil fixed32 98304 = .ok 131072 ∧ Storable fixed32 (98304 + (2 ^ fixed32.f - 1)) ∧ ceil fixed32 (-98304) = .ok (-1) ∧
    ceil fixed32 (2 ^ 31 - 1) = .ub .overflow := by decide +kernel

/-! ## C23 trunc -/

/-- C23: `trunc(x)` is `x` truncated toward zero to an integer, for every value. -/
theorem C23_trunc (F : FxTy) (hF : F.Valid) (hs : SignedWide F) (h1 : Storable F (2 ^ F.f)) (x : Int) (hx : Storable F x) :
    ∃ z, trunc F x = .ok z ∧ Storable F z ∧ Integral F z ∧ |val F z| ≤ |val F x| ∧ |val F x - val F z| < 1 ∧
      0 ≤ val F z * val F x ∧ trunc F z = .ok z := by
  have h : SW F := ⟨hF, hs, h1⟩
  have hd := SW.dpos (F := F)
  have hdle := h.d_le
  have hlh := h.lo_hi
  have hv1 : val F (2 ^ F.f) = 1 := by have := val_int F 1; simpa using this
  have run : ∀ y, Storable F y → Storable F (Int.tdiv y (2 ^ F.f) * 2 ^ F.f) →
      trunc F y = .ok (Int.tdiv y (2 ^ F.f) * 2 ^ F.f) := by
    intro y hy hr
    unfold trunc
    rw [h.one_eq]
    simp only []
    rw [h.cdiv_ok hy hd, Res.bind_ok, h.arith_ok hr, Res.bind_ok, h.from_ok hr]; rfl
  set t := Int.tdiv x (2 ^ F.f) * 2 ^ F.f with htd
  have htr : Storable F t := by
    rcases le_total 0 x with h0 | h0
    · have := (tdiv_mul_spec x hd).1 h0; exact ⟨by omega, by have := hx.2; omega⟩
    · have := (tdiv_mul_spec x hd).2 h0; exact ⟨by have := hx.1; omega, by omega⟩
  refine ⟨t, run x hx htr, htr, integral_iff.2 ⟨_, htd⟩, ?_⟩
  have idem : trunc F t = .ok t := by
    have e : Int.tdiv t (2 ^ F.f) * 2 ^ F.f = t := by rw [htd, Int.mul_tdiv_cancel _ (ne_of_gt hd)]
    have := run t htr (by rw [e]; exact htr)
    rwa [e] at this
  rcases le_total 0 x with h0 | h0
  · obtain ⟨a, b, c⟩ := (tdiv_mul_spec x hd).1 h0
    rw [← htd] at a b c
    have v0 : 0 ≤ val F x := by rw [← val_zero F, val_le]; exact h0
    have vt : 0 ≤ val F t := by rw [← val_zero F, val_le]; exact a
    refine ⟨?_, ?_, mul_nonneg vt v0, idem⟩
    · rw [abs_of_nonneg v0, abs_of_nonneg vt, val_le]; exact b
    · rw [← val_sub, abs_of_nonneg (by rw [← val_zero F, val_le]; omega), ← hv1, val_lt]; omega
  · obtain ⟨a, b, c⟩ := (tdiv_mul_spec x hd).2 h0
    rw [← htd] at a b c
    have v0 : val F x ≤ 0 := by rw [← val_zero F, val_le]; exact h0
    have vt : val F t ≤ 0 := by rw [← val_zero F, val_le]; exact a
    refine ⟨?_, ?_, mul_nonneg_of_nonpos_of_nonpos vt v0, idem⟩
    · rw [abs_of_nonpos v0, abs_of_nonpos vt, ← val_neg, ← val_neg, val_le]; omega
    · rw [← val_sub, abs_of_nonpos (by rw [← val_zero F, val_le]; omega), ← val_neg, ← hv1, val_lt]; omega

example : trunc fixed32 (-98304) = .ok (-65536) ∧ trunc fixed32 (-2 ^ 31) = .ok (-2 ^ 31) ∧ Storable fixed32 (-98304) := by
  decide +kernel

/-! ## C24 round -/

/-- C24: `round(x)` is never undefined and is the nearest integer (ties away from zero), exactly when that is
representable and otherwise wrapped to the minimum. -/
theorem C24_round (F : FxTy) (hF : F.Valid) (hs : SignedWide F) (h1 : Storable F (2 ^ F.f)) (x : Int) (hx : Storable F x) :
    ∃ (z n : Int), round F x = .ok z ∧ |val F x - n| ≤ 1 / 2 ∧ (|val F x - n| = 1 / 2 → |val F x| < |(n : ℚ)|) ∧
      (Representable F n → val F z = n) ∧ (¬ Representable F n → z = F.T.lo) := by
  have h : SW F := ⟨hF, hs, h1⟩
  have hd := SW.dpos (F := F)
  have hdle := h.d_le
  have hlh := h.lo_hi
  have hpp : (2 : Int) ^ F.f = 2 * 2 ^ (F.f - 1) := IntTy.two_pow_pred _ hF.fpos
  have hh : (0 : Int) < 2 ^ (F.f - 1) := by positivity
  obtain ⟨n, e1, e2, e3⟩ := round_twice x (2 ^ F.f) (ne_of_gt hd)
  have ev : Int.tdiv (2 * x) (2 ^ F.f) = Int.tdiv x (2 ^ (F.f - 1)) := by
    rw [hpp]; exact Int.mul_tdiv_mul_of_pos _ _ (by norm_num)
  rw [ev] at e1
  have hvr : F.T.InRange (Int.tdiv x (2 ^ (F.f - 1))) := h.tdiv_inRange hx hh
  have hsum : Int.tdiv (Int.tdiv x (2 ^ (F.f - 1))) 2 + Int.tmod (Int.tdiv x (2 ^ (F.f - 1))) 2 = n := by
    have := Int.tmod_add_mul_tdiv (Int.tdiv x (2 ^ (F.f - 1))) 2
    omega
  have hx' : val F x = (x : ℚ) / ((2 ^ F.f : Int) : ℚ) := by unfold val; push_cast; rfl
  -- bounds on n
  have hnb : n * 2 ^ F.f ≤ F.T.hi + 1 ∧ F.T.lo ≤ n * 2 ^ F.f := by
    have hq : (0 : ℚ) < ((2 ^ F.f : Int) : ℚ) := by exact_mod_cast hd
    have hab := abs_le.1 e2
    have a1 : (n : ℚ) ≤ x / ((2 ^ F.f : Int) : ℚ) + 1 / 2 := by linarith [hab.1]
    have a2 : (x : ℚ) / ((2 ^ F.f : Int) : ℚ) - 1 / 2 ≤ n := by linarith [hab.2]
    rw [← sub_le_iff_le_add, le_div_iff₀ hq] at a1
    rw [sub_le_iff_le_add, div_le_iff₀ hq] at a2
    have b1 : (2 * n - 1) * 2 ^ F.f ≤ 2 * x := by
      have : (2 * (n : ℚ) - 1) * ((2 ^ F.f : Int) : ℚ) ≤ 2 * x := by linarith
      exact_mod_cast this
    have b2 : 2 * x ≤ (2 * n + 1) * 2 ^ F.f := by
      have : 2 * (x : ℚ) ≤ (2 * n + 1) * ((2 ^ F.f : Int) : ℚ) := by linarith
      exact_mod_cast this
    -- hi + 1 = B is a multiple of 2^f
    have hB : F.T.hi + 1 = 2 ^ (F.T.bits - 1 - F.f) * 2 ^ F.f := by
      rw [h.hi_eq, ← pow_add]; have := hF.2.2.2.2.2; rw [Nat.sub_add_cancel this]; ring
    have hB2 : F.T.lo = -(2 ^ (F.T.bits - 1 - F.f)) * 2 ^ F.f := by rw [hlh, neg_mul, ← hB]; ring
    constructor
    · rw [hB]
      apply mul_le_mul_of_nonneg_right _ hd.le
      by_contra hc
      push Not at hc
      have : (2 * 2 ^ (F.T.bits - 1 - F.f) + 1) * 2 ^ F.f ≤ (2 * n - 1) * (2 : Int) ^ F.f :=
        mul_le_mul_of_nonneg_right (by omega) hd.le
      have hx2 := hx.2
      nlinarith
    · rw [hB2]
      apply mul_le_mul_of_nonneg_right _ hd.le
      by_contra hc
      push Not at hc
      have : (2 * n + 1) * (2 : Int) ^ F.f ≤ (2 * (-(2 ^ (F.T.bits - 1 - F.f))) - 1) * 2 ^ F.f :=
        mul_le_mul_of_nonneg_right (by omega) hd.le
      have hx1 := hx.1
      nlinarith
  have hnr : F.T.InRange n := by
    have := mul_le_mul_of_nonneg_right hd.le (abs_nonneg n)
    rcases le_total 0 n with hn | hn
    · refine ⟨by omega, ?_⟩
      by_contra hc
      push Not at hc
      have : (2 : Int) * n ≤ n * 2 ^ F.f := by nlinarith
      omega
    · refine ⟨?_, by omega⟩
      have : n * 2 ^ F.f ≤ n := by nlinarith
      omega
  have hrun : round F x = .ok (F.T.wrap (n * 2 ^ F.f)) := by
    unfold round
    rw [h.one_eq]
    have hone : Int.tdiv (2 ^ F.f) 2 = 2 ^ (F.f - 1) := by rw [hpp, mul_comm]; exact Int.mul_tdiv_cancel _ (by norm_num)
    simp only []
    rw [h.cdiv_ok h.one (by norm_num), Res.bind_ok, hone, h.cdiv_ok hx hh, Res.bind_ok, h.cdiv_ok hvr (by norm_num),
      Res.bind_ok, h.cmod_ok hvr (by norm_num), Res.bind_ok, hsum, h.arith_ok hnr, Res.bind_ok]
    unfold shl fromInternal
    rw [h.p, h.prom, if_pos hF.flt, Res.bind_ok, IntTy.wrap_wrap]; rfl
  refine ⟨_, n, hrun, ?_, ?_, ?_, ?_⟩
  · rw [hx']; exact e2
  · rw [hx']; exact e3
  · rw [← val_int F n, representable_iff]
    intro hr
    rw [h.wrap_ok hr]
  · rw [← val_int F n, representable_iff]
    intro hr
    have : n * 2 ^ F.f = F.T.hi + 1 := by
      by_contra hc
      exact hr ⟨hnb.2, by omega⟩
    rw [this]
    have hlo : F.T.wrap F.T.lo = F.T.lo := h.wrap_ok ⟨le_refl _, by omega⟩
    rw [← hlo]
    apply IntTy.wrap_congr
    rw [h.lo_eq, h.hi_eq, IntTy.two_pow_pred _ h.tpos]
    exact ⟨1, by ring⟩

example : round fixed32 98304 = .ok 131072 ∧ round fixed32 (-98304) = .ok (-131072) ∧ round fixed32 98303 = .ok 65536 ∧
    round fixed32 (2 ^ 31 - 1) = .ok (-2 ^ 31) ∧ Storable fixed32 98304 := by decide +kernel

/-! ## C25 abs, min, max -/

/-- C25: `abs`. -/
theorem C25_abs (F : FxTy) (hF : F.Valid) (hs : SignedWide F) (h1 : Storable F (2 ^ F.f)) (x : Int) (hx : Storable F x) :
    (x ≠ F.T.lo → ∃ z, abs F x = .ok z ∧ val F z = |val F x|) ∧ (x = F.T.lo → abs F x = .ub .overflow) := by
  have h : SW F := ⟨hF, hs, h1⟩
  refine ⟨fun hn => ⟨_, h.abs_ok hx (lt_of_le_of_ne hx.1 (Ne.symm hn)), ?_⟩, fun hn => h.abs_ub hn⟩
  unfold val
  have hq : (0 : ℚ) < 2 ^ F.f := by positivity
  rw [abs_div, abs_of_pos hq]; push_cast; rfl

/-- C25: `min` and `max` are the meet and join of the numeric order. -/
theorem C25_minmax (F : FxTy) (x y z : Int) :
    (min x y = x ∨ min x y = y) ∧ (max x y = x ∨ max x y = y) ∧
    (val F z ≤ val F (min x y) ↔ val F z ≤ val F x ∧ val F z ≤ val F y) ∧
    (val F (max x y) ≤ val F z ↔ val F x ≤ val F z ∧ val F y ≤ val F z) := by
  simp only [val_le, min, max]
  split <;> split <;> omega

example : abs fixed32 (-98304) = .ok 98304 ∧ abs fixed32 (-2 ^ 31) = .ub .overflow ∧ Storable fixed32 (-98304) ∧
    min (-3) 5 = -3 ∧ max (-3) 5 = 5 := by decide +kernel

/-! ## C26 modf -/

/-- C26: `modf` splits `x` into its floor and a fraction in `[0, 1)`, whenever `floor` is defined. -/
theorem C26_modf (F : FxTy) (hF : F.Valid) (hs : SignedWide F) (h1 : Storable F (2 ^ F.f)) (x : Int) (hx : Storable F x)
    (hlo : Storable F (x - (2 ^ F.f - 1)) ∨ 0 ≤ x) :
    ∃ fr ip, modf F x = .ok (fr, ip) ∧ floor F x = .ok ip ∧ Integral F ip ∧ 0 ≤ val F fr ∧ val F fr < 1 ∧
      val F ip + val F fr = val F x := by
  have h : SW F := ⟨hF, hs, h1⟩
  have hd := SW.dpos (F := F)
  have hlh := h.lo_hi
  have hdle := h.d_le
  have hv1 : val F (2 ^ F.f) = 1 := by have := val_int F 1; simpa using this
  obtain ⟨a, b, c⟩ := floor_props (F := F) x
  have hfl := floor_raw h hx hlo.symm
  have hr : F.T.InRange (x - x / 2 ^ F.f * 2 ^ F.f) := ⟨by omega, by omega⟩
  refine ⟨x - x / 2 ^ F.f * 2 ^ F.f, x / 2 ^ F.f * 2 ^ F.f, ?_, hfl, a, ?_, ?_, ?_⟩
  · unfold modf; rw [hfl, Res.bind_ok, h.sub_ok hr]; rfl
  · rw [← val_zero F, val_le]; omega
  · rw [← hv1, val_lt]; omega
  · rw [← val_add]; congr 1; ring

example : modf fixed32 (-98304) = .ok (32768, -131072) ∧ modf fixed32 98304 = .ok (32768, 65536) := by decide +kernel

/-! ## C27 fmod -/

/-- C27 as stated. -/
def C27_statement : Prop := ∀ a b, Storable fixed32 a → Storable fixed32 b → 0 < b →
  Storable fixed32 (Int.tdiv (a * 2 ^ 16) b - 65535) → Storable fixed32 (a - b) →
  ∃ r, fmod fixed32 a b = .ok r ∧ 0 ≤ val fixed32 r ∧ val fixed32 r < val fixed32 b ∧
    ∃ k : Int, val fixed32 a - val fixed32 r = k * val fixed32 b

/-- C27 is false of the code: `fmod(-1 ulp, 3)` is `-1 ulp`, not in `[0, 3)`. -/
theorem C27_false : ¬ C27_statement := by
  intro h
  obtain ⟨r, h1, h2, _⟩ := h (-1) (3 * 65536) (by decide +kernel) (by decide +kernel) (by norm_num) (by decide +kernel)
    (by decide +kernel)
  have e : fmod fixed32 (-1) (3 * 65536) = .ok (-1) := by decide +kernel
  rw [h1] at e; cases e
  norm_num [val, fixed32] at h2

/-- C27, what holds: for `b > 0` with the truncated quotient at least `2^f - 1` ulps inside the range, the result is
congruent to `a` modulo `b` and lies in `(-b·ulp, b)`; for `a ≥ 0` it lies in `[0, b)`.
Full statement: `C27_statement` (fails just below multiples of `b` for negative `a`). -/
theorem C27_fmod_partial (F : FxTy) (hF : F.Valid) (hs : SignedWide F) (h1 : Storable F (2 ^ F.f)) (hr : F.r = false)
    (a b : Int) (ha : Storable F a) (hb : Storable F b) (hb0 : 0 < b)
    (hq : Storable F (Int.tdiv (a * 2 ^ F.f) b)) (hql : 0 ≤ a ∨ Storable F (Int.tdiv (a * 2 ^ F.f) b - (2 ^ F.f - 1)))
    (hab : 0 ≤ a ∨ Storable F (a - b)) :
    ∃ r, fmod F a b = .ok r ∧ (∃ k : Int, val F a - val F r = k * val F b) ∧ val F r < val F b ∧
      -(val F b * ulp F) < val F r ∧ (0 ≤ a → 0 ≤ val F r) := by
  have h : SW F := ⟨hF, hs, h1⟩
  have hd := SW.dpos (F := F)
  have hlh := h.lo_hi
  have hdle := h.d_le
  set D : Int := 2 ^ F.f with hD
  set q := Int.tdiv (a * D) b with hqd
  set k := q / D with hk
  have hkD1 : k * D ≤ q := Int.ediv_mul_le q (ne_of_gt hd)
  have hkD2 : q < k * D + D := by have := Int.lt_ediv_add_one_mul_self q hd; rw [add_mul, one_mul] at this; exact this
  have hq0 : 0 ≤ a → 0 ≤ q := fun h => Int.tdiv_nonneg (by positivity) hb0.le
  have hfl : floor F q = .ok (k * D) := floor_raw h hq (hql.imp_left hq0)
  -- bounds: a - b < b*k, and b*k*D < a*D + b
  have bounds : a - b < b * k ∧ b * k * D < a * D + b ∧ (0 ≤ a → b * k ≤ a) := by
    rcases le_total 0 a with h0 | h0
    · obtain ⟨_, t1, t2⟩ := (tdiv_mul_spec (a * D) hb0).1 (by positivity)
      rw [← hqd] at t1 t2
      have u1 : b * k * D ≤ a * D := by nlinarith
      have u2 : a * D < (b * k + b) * D := by nlinarith
      have u3 : b * k ≤ a := le_of_mul_le_mul_right u1 hd
      have u4 : a < b * k + b := lt_of_mul_lt_mul_right u2 hd.le
      exact ⟨by omega, by omega, fun _ => u3⟩
    · obtain ⟨_, t1, t2⟩ := (tdiv_mul_spec (a * D) hb0).2 (by nlinarith)
      rw [← hqd] at t1 t2
      have u1 : b * k * D < a * D + b := by nlinarith
      have u2 : a * D < (b * k + b) * D := by nlinarith
      have u4 : a < b * k + b := lt_of_mul_lt_mul_right u2 hd.le
      refine ⟨by omega, u1, fun h => ?_⟩
      have ha0 : a = 0 := le_antisymm h0 h
      have : k = 0 := by rw [hk, hqd, ha0]; simp
      rw [this, ha0]; simp
  obtain ⟨b1, b2, b3⟩ := bounds
  have hkD : F.T.InRange (k * D) := by
    rcases le_total 0 a with h0 | h0
    · have : 0 ≤ k := Int.ediv_nonneg (hq0 h0) hd.le
      have : 0 ≤ k * D := by positivity
      exact ⟨by omega, by have := hq.2; omega⟩
    · rcases hql with h' | h'
      · have ha0 : a = 0 := le_antisymm h0 h'
        have : k = 0 := by rw [hk, hqd, ha0]; simp
        rw [this, zero_mul]; exact h.zero_in
      · exact ⟨by have := h'.1; omega, by have := hq.2; omega⟩
  have hbk : F.T.InRange (b * k) := by
    rcases le_total 0 a with h0 | h0
    · have : 0 ≤ k := Int.ediv_nonneg (hq0 h0) hd.le
      have : 0 ≤ b * k := by positivity
      have := b3 h0
      exact ⟨by omega, by have := ha.2; omega⟩
    · constructor
      · rcases hab with h' | h'
        · have : 0 ≤ k := Int.ediv_nonneg (hq0 h') hd.le
          have : 0 ≤ b * k := by positivity
          omega
        · have := h'.1; omega
      · have : b * k * D < b * D := by nlinarith [hb.1]
        have := lt_of_mul_lt_mul_right this hd.le
        have := hb.2; omega
  have hmul : mul F b (k * D) = .ok (b * k) := by
    have e : b * (k * D) / D = b * k := by rw [← mul_assoc]; exact Int.mul_ediv_cancel _ (ne_of_gt hd)
    have := h.mul_ok hr hb hkD (by rw [← hD, e]; exact hbk)
    rw [← hD, e] at this; exact this
  have hrr : F.T.InRange (a - b * k) := by
    have : a - b * k < b := by omega
    refine ⟨?_, by have := hb.2; omega⟩
    have hbD : -b < (a - b * k) * D := by nlinarith
    have : -b ≤ a - b * k := by
      by_contra hc
      push Not at hc
      nlinarith
    have := hb.2
    omega
  refine ⟨a - b * k, ?_, ⟨k, ?_⟩, ?_, ?_, ?_⟩
  · unfold fmod
    rw [h.div_ok hr ha (ne_of_gt hb0) hq, Res.bind_ok, ← hD, ← hqd, hfl, Res.bind_ok, hmul, Res.bind_ok, h.sub_ok hrr]
  · unfold val; push_cast; ring
  · rw [val_lt]; omega
  · unfold val ulp
    have hq' : (0 : ℚ) < 2 ^ F.f := by positivity
    rw [div_mul_div_comm, mul_one, neg_lt, ← neg_div, div_lt_div_iff₀ hq' (by positivity), ← mul_assoc,
      mul_lt_mul_iff_left₀ hq']
    have hbD : -(a - b * k) * D < b := by nlinarith
    have : ((-(a - b * k) * D : Int) : ℚ) < (b : Int) := by exact_mod_cast hbD
    rw [hD] at this; push_cast at this ⊢; exact this
  · intro h0
    rw [← val_zero F, val_le]
    have := b3 h0; omega

example : fmod fixed32 (7 * 65536) (3 * 65536) = .ok 65536 ∧ fmod fixed32 (-7 * 65536) (3 * 65536) = .ok (2 * 65536) ∧
    Storable fixed32 (Int.tdiv (-7 * 65536 * 2 ^ fixed32.f) (3 * 65536) - (2 ^ fixed32.f - 1)) ∧
    fmod fixed32 (-1) (3 * 65536) = .ok (-1) := by decide +kernel

end Eirin.Props
