import Verif.Props.Rounding
import Verif.Lemmas.Print

/-! # C92: the rounding functions on every storage type (8 to 64 bits, signed or unsigned) -/

namespace Eirin.PN
open Spec
variable {F : FxTy} (h : PN F)
include h

theorem from_ok {n : Int} (hn : F.T.InRange n) : fromInternal F n = n := h.wrap_ok hn
theorem tdiv_in {x d : Int} (hx : F.T.InRange x) (hd : 0 < d) : F.T.InRange (Int.tdiv x d) := by
  have hl := lo_le (F := F)
  have hh := h.d_le
  have hp : (0 : Int) < 2 ^ F.f := by positivity
  have hmul : ∀ y : Int, 0 ≤ y → Int.tdiv y d ≤ y := by
    intro y hy
    have := natAbs_tdiv_le y d
    rw [abs_of_nonneg hy] at this
    exact le_trans (le_abs_self _) this
  rcases le_total 0 x with h0 | h0
  · have a := Int.tdiv_nonneg h0 hd.le
    exact ⟨by omega, le_trans (hmul x h0) hx.2⟩
  · have a := Int.tdiv_nonneg (show 0 ≤ -x by omega) hd.le
    have b := hmul (-x) (by omega)
    rw [Int.neg_tdiv] at a b
    exact ⟨by have := hx.1; omega, by omega⟩
theorem cdiv_ok {x d : Int} (hx : F.T.InRange x) (hd : 0 < d) : cdiv F.P x d = .ok (Int.tdiv x d) := by
  unfold cdiv
  rw [if_neg (by omega), if_neg (fun hc => hc.2 (h.inP (h.tdiv_in hx hd)))]
theorem cmod_ok {x d : Int} (hx : F.T.InRange x) (hd : 0 < d) : cmod F.P x d = .ok (Int.tmod x d) := by
  unfold cmod
  rw [if_neg (by omega), if_neg (fun hc => hc.2 (h.inP (h.tdiv_in hx hd)))]

end Eirin.PN

namespace Eirin.Props
open Spec

/-- C92: `floor(x)` is the greatest integral number not above `x`, on every type and for every `x` that is non-negative or at least
`2^f - 1` ulps above the minimum.  Full statement: `C92_statement`; missing is the lowest unit (`C92_floor_bottom`). -/
theorem C92_floor_partial (F : FxTy) (hF : F.Valid) (h1 : Storable F (2 ^ F.f)) (x : Int) (hx : Storable F x)
    (hlo : Storable F (x - (2 ^ F.f - 1)) ∨ 0 ≤ x) :
    ∃ z, floor F x = .ok z ∧ Integral F z ∧ val F z ≤ val F x ∧ (∀ k : Int, (k : ℚ) ≤ val F x → (k : ℚ) ≤ val F z) := by
  have h : PN F := ⟨hF, h1⟩
  have hd := SW.dpos (F := F)
  have hdle := h.d_le
  have hll := PN.lo_le (F := F)
  obtain ⟨p1, p2, p3⟩ := floor_props (F := F) x
  refine ⟨_, ?_, p1, val_le.2 p2, fun k hk => le_of_int p1 p3 hk⟩
  unfold floor
  rw [h.one_eq]
  rcases lt_or_ge x 0 with h0 | h0
  · have hs : F.T.InRange (x - (2 ^ F.f - 1)) := by rcases hlo with h | h; exact h; omega
    have m1 : F.T.InRange (2 ^ F.f - 1) := ⟨by omega, by omega⟩
    have ht := (tdiv_mul_spec (x - (2 ^ F.f - 1)) hd).2 (by omega)
    have heq : Int.tdiv (x - (2 ^ F.f - 1)) (2 ^ F.f) * 2 ^ F.f = x / 2 ^ F.f * 2 ^ F.f := by
      have a : (Int.tdiv (x - (2 ^ F.f - 1)) (2 ^ F.f) - 1) * 2 ^ F.f < (x / 2 ^ F.f) * 2 ^ F.f := by
        rw [sub_mul]; omega
      have b : (x / 2 ^ F.f - 1) * 2 ^ F.f < Int.tdiv (x - (2 ^ F.f - 1)) (2 ^ F.f) * 2 ^ F.f := by
        rw [sub_mul]; omega
      have a' := lt_of_mul_lt_mul_right a hd.le
      have b' := lt_of_mul_lt_mul_right b hd.le
      congr 1; omega
    have hpr : F.T.InRange (x / 2 ^ F.f * 2 ^ F.f) := by
      rw [← heq]; exact ⟨by have := hs.1; omega, by have := hx.2; omega⟩
    simp only [if_pos h0, h.arithP_ok m1, Res.bind_ok, h.arithP_ok hs, h.wrap_ok hs, Res.pure_eq]
    rw [if_neg (by omega), h.cdiv_ok hs hd, Res.bind_ok, heq, h.arithP_ok hpr, Res.bind_ok, h.from_ok hpr]
  · have heq : Int.tdiv x (2 ^ F.f) = x / 2 ^ F.f := Int.tdiv_eq_ediv_of_nonneg h0
    have ht := (tdiv_mul_spec x hd).1 h0
    have hpr : F.T.InRange (x / 2 ^ F.f * 2 ^ F.f) := by
      rw [← heq]; exact ⟨by omega, by have := hx.2; omega⟩
    simp only [if_neg (not_lt.2 h0), Res.pure_eq, Res.bind_ok]
    rw [if_neg (by omega), h.cdiv_ok hx hd, Res.bind_ok, heq, h.arithP_ok hpr, Res.bind_ok, h.from_ok hpr]

/-- C92: `trunc(x)` is `x` truncated toward zero, on every type and for every value. -/
theorem C92_trunc (F : FxTy) (hF : F.Valid) (h1 : Storable F (2 ^ F.f)) (x : Int) (hx : Storable F x) :
    ∃ z, trunc F x = .ok z ∧ Storable F z ∧ Integral F z ∧ |val F z| ≤ |val F x| ∧ |val F x - val F z| < 1 ∧ 0 ≤ val F z * val F x := by
  have h : PN F := ⟨hF, h1⟩
  have hd := SW.dpos (F := F)
  have hdle := h.d_le
  have hll := PN.lo_le (F := F)
  have hv1 : val F (2 ^ F.f) = 1 := by have := val_int F 1; simpa using this
  set t := Int.tdiv x (2 ^ F.f) * 2 ^ F.f with htd
  have htr : Storable F t := by
    rcases le_total 0 x with h0 | h0
    · have := (tdiv_mul_spec x hd).1 h0; exact ⟨by omega, by have := hx.2; omega⟩
    · have := (tdiv_mul_spec x hd).2 h0; exact ⟨by have := hx.1; omega, by omega⟩
  refine ⟨t, ?_, htr, integral_iff.2 ⟨_, htd⟩, ?_⟩
  · unfold trunc
    rw [h.one_eq]
    simp only []
    rw [h.cdiv_ok hx hd, Res.bind_ok, ← htd, h.arithP_ok htr, Res.bind_ok, h.from_ok htr]; rfl
  rcases le_total 0 x with h0 | h0
  · obtain ⟨a, b, c⟩ := (tdiv_mul_spec x hd).1 h0
    rw [← htd] at a b c
    have v0 : 0 ≤ val F x := by rw [← val_zero F, val_le]; exact h0
    have vt : 0 ≤ val F t := by rw [← val_zero F, val_le]; exact a
    refine ⟨?_, ?_, mul_nonneg vt v0⟩
    · rw [abs_of_nonneg v0, abs_of_nonneg vt, val_le]; exact b
    · rw [← val_sub, abs_of_nonneg (by rw [← val_zero F, val_le]; omega), ← hv1, val_lt]; omega
  · obtain ⟨a, b, c⟩ := (tdiv_mul_spec x hd).2 h0
    rw [← htd] at a b c
    have v0 : val F x ≤ 0 := by rw [← val_zero F, val_le]; exact h0
    have vt : val F t ≤ 0 := by rw [← val_zero F, val_le]; exact a
    refine ⟨?_, ?_, mul_nonneg_of_nonpos_of_nonpos vt v0⟩
    · rw [abs_of_nonpos v0, abs_of_nonpos vt, ← val_neg, ← val_neg, val_le]; omega
    · rw [← val_sub, abs_of_nonpos (by rw [← val_zero F, val_le]; omega), ← val_neg, ← hv1, val_lt]; omega

/-- C92: `round(x)` is the nearest integer, ties away from zero, on every type and for every value, wrapped modulo the size of the storage
when it does not fit. -/
theorem C92_round (F : FxTy) (hF : F.Valid) (h1 : Storable F (2 ^ F.f)) (x : Int) (hx : Storable F x) :
    ∃ (z n : Int), round F x = .ok z ∧ |val F x - n| ≤ 1 / 2 ∧ (|val F x - n| = 1 / 2 → |val F x| < |(n : ℚ)|) ∧ IsWrap F (n * 2 ^ F.f) z ∧
      (Representable F n → val F z = n) := by
  have h : PN F := ⟨hF, h1⟩
  have hd := SW.dpos (F := F)
  have hdle := h.d_le
  have hll := PN.lo_le (F := F)
  have hpp : (2 : Int) ^ F.f = 2 * 2 ^ (F.f - 1) := IntTy.two_pow_pred _ hF.fpos
  have hh : (0 : Int) < 2 ^ (F.f - 1) := by positivity
  obtain ⟨n, e1, e2, e3⟩ := round_twice x (2 ^ F.f) (ne_of_gt hd)
  have ev : Int.tdiv (2 * x) (2 ^ F.f) = Int.tdiv x (2 ^ (F.f - 1)) := by
    rw [hpp]; exact Int.mul_tdiv_mul_of_pos _ _ (by norm_num)
  rw [ev] at e1
  have hvr : F.T.InRange (Int.tdiv x (2 ^ (F.f - 1))) := h.tdiv_in hx hh
  have hsum : Int.tdiv (Int.tdiv x (2 ^ (F.f - 1))) 2 + Int.tmod (Int.tdiv x (2 ^ (F.f - 1))) 2 = n := by
    have := Int.tmod_add_mul_tdiv (Int.tdiv x (2 ^ (F.f - 1))) 2
    omega
  have hnr : F.T.InRange n := by
    have b1 := hvr.1; have b2 := hvr.2
    rcases le_total 0 (Int.tdiv x (2 ^ (F.f - 1))) with hv | hv
    · have m1 := Int.tmod_nonneg 2 hv
      have m2 := Int.tmod_lt_of_pos (Int.tdiv x (2 ^ (F.f - 1))) (show (0 : Int) < 2 by norm_num)
      exact ⟨by omega, by omega⟩
    · have m1 := Int.tmod_nonneg 2 (show 0 ≤ -(Int.tdiv x (2 ^ (F.f - 1))) by omega)
      have m2 := Int.tmod_lt_of_pos (-Int.tdiv x (2 ^ (F.f - 1))) (show (0 : Int) < 2 by norm_num)
      rw [Int.neg_tmod] at m1 m2
      exact ⟨by omega, by omega⟩
  have hx' : val F x = (x : ℚ) / ((2 ^ F.f : Int) : ℚ) := by unfold val; push_cast; rfl
  have hrun : round F x = .ok (F.T.wrap (n * 2 ^ F.f)) := by
    unfold round
    rw [h.one_eq]
    have hone : Int.tdiv (2 ^ F.f) 2 = 2 ^ (F.f - 1) := by rw [hpp, mul_comm]; exact Int.mul_tdiv_cancel _ (by norm_num)
    simp only []
    rw [h.cdiv_ok h.one (by norm_num), Res.bind_ok, hone, h.cdiv_ok hx hh, Res.bind_ok, h.cdiv_ok hvr (by norm_num),
      Res.bind_ok, h.cmod_ok hvr (by norm_num), Res.bind_ok, hsum, h.arithP_ok hnr, Res.bind_ok]
    have hpp : F.P.promote = F.P := by
      unfold FxTy.P IntTy.promote; split <;> rfl
    unfold shl fromInternal
    rw [hpp, if_pos hF.flt_p, Res.bind_ok, Res.pure_eq]
    congr 1
    apply IntTy.wrap_congr
    have e := IntTy.wrap_dvd F.P (n * 2 ^ F.f)
    have hdv : (2 : Int) ^ F.T.bits ∣ 2 ^ F.P.bits := pow_dvd_pow _ hF.tp
    have := dvd_trans hdv e
    have := (dvd_neg).2 this
    rwa [neg_sub] at this
  refine ⟨_, n, hrun, ?_, ?_, isWrap_wrap hF _, ?_⟩
  · rw [hx']; exact e2
  · rw [hx']; exact e3
  · rw [← val_int F n, representable_iff]
    intro hr
    rw [h.wrap_ok hr]

/-- C92: `ceil(x)` is the least integral number not below `x`, on every type, for every non-negative `x` that leaves room for the
rounding.  Full statement: `C92_statement`; missing is the highest unit (`C22_ceil_ub`, `C92_ceil_top_unsigned`). -/
theorem C92_ceil_partial (F : FxTy) (hF : F.Valid) (h1 : Storable F (2 ^ F.f)) (x : Int)
    (h0 : 0 ≤ x) (hhi : Storable F (x + (2 ^ F.f - 1))) :
    ∃ z, ceil F x = .ok z ∧ Integral F z ∧ val F x ≤ val F z ∧ (∀ k : Int, val F x ≤ (k : ℚ) → val F z ≤ (k : ℚ)) := by
  have h : PN F := ⟨hF, h1⟩
  have hd := SW.dpos (F := F)
  have hdle := h.d_le
  have hll := PN.lo_le (F := F)
  have hz0' : F.T.InRange 0 := ⟨hll, by omega⟩
  have m1 : F.T.InRange (2 ^ F.f - 1) := ⟨by omega, by omega⟩
  have ht := (tdiv_mul_spec (x + (2 ^ F.f - 1)) hd).1 (by omega)
  set z := Int.tdiv (x + (2 ^ F.f - 1)) (2 ^ F.f) * 2 ^ F.f with hz
  have hzr : F.T.InRange z := ⟨by omega, by have := hhi.2; omega⟩
  have hzi : Integral F z := integral_iff.2 ⟨_, rfl⟩
  refine ⟨z, ?_, hzi, val_le.2 (by omega), fun k hk => ge_of_int hzi (by omega) hk⟩
  unfold ceil
  rw [h.one_eq]
  rcases eq_or_lt_of_le h0 with h00 | h00
  · have hz0 : z = 0 := by
      rw [hz, ← h00, zero_add, Int.tdiv_eq_zero_of_lt (by omega) (by omega), zero_mul]
    rw [if_neg (by omega)]
    simp only [Res.pure_eq, Res.bind_ok]
    rw [if_neg (by omega), ← h00, h.cdiv_ok hz0' hd, Res.bind_ok, Int.zero_tdiv, zero_mul, h.arithP_ok hz0',
      Res.bind_ok, h.from_ok hz0', hz0]
  · rw [if_pos (by omega)]
    simp only [h.arithP_ok m1, Res.bind_ok, h.arithP_ok hhi, h.wrap_ok hhi, Res.pure_eq]
    rw [if_neg (by omega), h.cdiv_ok hhi hd, Res.bind_ok, ← hz, h.arithP_ok hzr, Res.bind_ok, h.from_ok hzr]

/-- An 8-bit type with four fraction bits, and an unsigned 16-bit type with eight. -/
def tiny : FxTy := ⟨i8, i16, 4, false⟩
def small : FxTy := ⟨u16, u32, 8, false⟩

example : tiny.Valid ∧ small.Valid ∧ Storable tiny (2 ^ tiny.f) ∧ Storable small (2 ^ small.f) ∧ floor tiny (-24) = .ok (-32) ∧
    trunc tiny (-24) = .ok (-16) ∧ round tiny 24 = .ok 32 ∧ ceil small 300 = .ok 512 ∧ round small 65535 = .ok 0 := by
  decide +kernel

/-- C92 as stated for the boundary: on every type, `floor` of a number whose floor is representable, and `ceil` of a non-negative number
whose ceiling is representable, is right. -/
def C92_statement : Prop :=
  ∀ (F : FxTy), F.Valid → ∀ x, Storable F x → ∀ k : Int, Representable F k →
    ((k : ℚ) ≤ val F x ∧ val F x < k + 1 → ∃ z, floor F x = .ok z ∧ val F z = k) ∧
    (0 ≤ val F x ∧ val F x ≤ k ∧ (k : ℚ) - 1 < val F x → ∃ z, ceil F x = .ok z ∧ val F z = k)

/-- This is false of the code: on an 8-bit type with four fraction bits the floor of the minimum, `-8`, comes out as `+7.0625`. -/
theorem C92_false : ¬ C92_statement := by
  intro h
  obtain ⟨z, hz, hv⟩ := (h tiny (by decide +kernel) (-128) (by decide +kernel) (-8)
    ⟨-128, by decide +kernel, by norm_num [val, tiny]⟩).1 ⟨by norm_num [val, tiny], by norm_num [val, tiny]⟩
  have e : floor tiny (-128) = .ok 113 := by decide +kernel
  rw [e] at hz
  cases hz
  norm_num [val, tiny] at hv

/-- C92, what narrow signed types do at the bottom: `floor(min)` is `-min - 1` plus one ulp, a positive number, and the floor of the other
numbers in the lowest unit (except the last) is one ulp above the minimum. -/
theorem C92_floor_bottom (F : FxTy) (hF : F.Valid) (hs : F.T.signed = true) (hb : F.T.bits < 32) (h1 : Storable F (2 ^ F.f)) (x : Int)
    (hx : Storable F x) (h0 : x < 0) (hlo : ¬ Storable F (x - (2 ^ F.f - 1))) :
    floor F x = .ok (if x = F.T.lo then F.T.hi + 2 - 2 ^ F.f else F.T.lo + 1) := by
  have h : PN F := ⟨hF, h1⟩
  have hd := SW.dpos (F := F)
  have hdle := h.d_le
  have hll := PN.lo_le (F := F)
  have hP : F.P = i32 := by unfold FxTy.P IntTy.promote; rw [if_pos hb]
  have hlo' : F.T.lo = -(2 ^ (F.T.bits - 1)) := by unfold IntTy.lo; simp [hs]
  have hhi' : F.T.hi = 2 ^ (F.T.bits - 1) - 1 := by unfold IntTy.hi; simp [hs]
  have hbig : (2 : Int) ^ (F.T.bits - 1) ≤ 2 ^ 15 := by
    apply pow_le_pow_right₀ (by norm_num)
    have := hF.1; omega
  have h2b : (2 : Int) ^ F.T.bits = 2 * 2 ^ (F.T.bits - 1) := IntTy.two_pow_pred _ hF.tpos
  have hA : ∀ n : Int, -2 ^ 20 ≤ n → n ≤ 2 ^ 20 → arith F.P n = .ok n := by
    intro n a b
    rw [hP]
    apply arith_of_inRange (by decide)
    constructor
    · show i32.lo ≤ n; norm_num [IntTy.lo] at a ⊢; omega
    · show n ≤ i32.hi; norm_num [IntTy.hi] at b ⊢; omega
  have hx1 := hx.1; have hx2 := hx.2
  have hlow : x - (2 ^ F.f - 1) < F.T.lo := by
    by_contra hc
    exact hlo ⟨by omega, by omega⟩
  -- the wrapped difference is positive
  have hwr : F.T.InRange (x - (2 ^ F.f - 1) + 2 ^ F.T.bits) := ⟨by omega, by omega⟩
  have hw : F.T.wrap (x - (2 ^ F.f - 1)) = x - (2 ^ F.f - 1) + 2 ^ F.T.bits := by
    rw [← h.wrap_ok hwr]
    exact IntTy.wrap_congr ⟨-1, by ring⟩
  -- lo is a multiple of one
  have hmul : (2 : Int) ^ (F.T.bits - 1) = 2 ^ (F.T.bits - 1 - F.f) * 2 ^ F.f := by
    rw [← pow_add]; have := hF.2.2.2.2.2; rw [Nat.sub_add_cancel this]
  have ht := (tdiv_mul_spec x hd).2 h0.le
  have hq : Int.tdiv x (2 ^ F.f) * 2 ^ F.f = if x = F.T.lo then F.T.lo else F.T.lo + 2 ^ F.f := by
    by_cases hxl : x = F.T.lo
    · rw [if_pos hxl, hxl, hlo', hmul, ← neg_mul, Int.mul_tdiv_cancel _ (ne_of_gt hd)]
    · rw [if_neg hxl]
      have hlt : F.T.lo < x := by omega
      have hl2 : F.T.lo = -(2 ^ (F.T.bits - 1 - F.f) * 2 ^ F.f) := by rw [hlo', hmul]
      have a : (Int.tdiv x (2 ^ F.f)) * 2 ^ F.f < (-(2 ^ (F.T.bits - 1 - F.f)) + 2) * 2 ^ F.f := by rw [add_mul, neg_mul]; omega
      have b : (-(2 ^ (F.T.bits - 1 - F.f))) * 2 ^ F.f < (Int.tdiv x (2 ^ F.f)) * 2 ^ F.f := by rw [neg_mul]; omega
      have a' := lt_of_mul_lt_mul_right a hd.le
      have b' := lt_of_mul_lt_mul_right b hd.le
      have : Int.tdiv x (2 ^ F.f) = -(2 ^ (F.T.bits - 1 - F.f)) + 1 := by omega
      rw [this, hl2]; ring
  unfold floor
  rw [h.one_eq, if_pos h0]
  simp only [hA (2 ^ F.f - 1) (by omega) (by omega), Res.bind_ok, hA (x - (2 ^ F.f - 1)) (by omega) (by omega), Res.pure_eq, hw]
  rw [if_pos ⟨h0, by omega⟩, h.cdiv_ok hx hd, Res.bind_ok, hq]
  by_cases hxl : x = F.T.lo
  · rw [if_pos hxl, if_pos hxl, hA _ (by omega) (by omega), Res.bind_ok, hA _ (by omega) (by omega), Res.bind_ok,
      hA _ (by omega) (by omega), Res.bind_ok]
    have hr : F.T.InRange (F.T.hi + 2 - 2 ^ F.f) := by
      have hf2 : (2 : Int) ≤ 2 ^ F.f := by
        calc (2 : Int) = 2 ^ 1 := by norm_num
          _ ≤ 2 ^ F.f := pow_le_pow_right₀ (by norm_num) hF.fpos
      exact ⟨by omega, by omega⟩
    rw [← h.wrap_ok hr]
    show Res.ok (F.T.wrap _) = _
    congr 1
    exact IntTy.wrap_congr ⟨-1, by rw [h2b, hlo', hhi']; ring⟩
  · rw [if_neg hxl, if_neg hxl, hA _ (by omega) (by omega), Res.bind_ok, hA _ (by omega) (by omega), Res.bind_ok,
      hA _ (by omega) (by omega), Res.bind_ok]
    have hr : F.T.InRange (F.T.lo + 1) := ⟨by omega, by omega⟩
    rw [show F.T.lo + 2 ^ F.f - 2 ^ F.f + 1 = F.T.lo + 1 by ring, h.from_ok hr]

/-- C92, what unsigned types do at the top: a positive number without room for the rounding has `ceil` zero. -/
theorem C92_ceil_top_unsigned (F : FxTy) (hF : F.Valid) (hs : F.T.signed = false) (h1 : Storable F (2 ^ F.f)) (x : Int)
    (hx : Storable F x) (h0 : 0 < x) (hhi : ¬ Storable F (x + (2 ^ F.f - 1))) : ceil F x = .ok 0 := by
  have h : PN F := ⟨hF, h1⟩
  have hd := SW.dpos (F := F)
  have hdle := h.d_le
  have hl : F.T.lo = 0 := by unfold IntTy.lo; simp [hs]
  have hh : F.T.hi = 2 ^ F.T.bits - 1 := by unfold IntTy.hi; simp [hs]
  have hx2 := hx.2
  have hgt : 2 ^ F.T.bits ≤ x + (2 ^ F.f - 1) := by
    by_contra hc
    exact hhi ⟨by omega, by omega⟩
  have m1 : F.T.InRange (2 ^ F.f - 1) := ⟨by omega, by omega⟩
  have hz : F.T.InRange 0 := ⟨by omega, by omega⟩
  have hw : F.T.wrap (x + (2 ^ F.f - 1)) = x + (2 ^ F.f - 1) - 2 ^ F.T.bits := by
    have hr : F.T.InRange (x + (2 ^ F.f - 1) - 2 ^ F.T.bits) := ⟨by omega, by omega⟩
    rw [← h.wrap_ok hr]
    exact IntTy.wrap_congr ⟨1, by ring⟩
  have hA : ∃ s, arith F.P (x + (2 ^ F.f - 1)) = .ok s ∧ F.T.wrap s = F.T.wrap (x + (2 ^ F.f - 1)) := by
    by_cases hb : F.T.bits < 32
    · have hP : F.P = i32 := by unfold FxTy.P IntTy.promote; rw [if_pos hb]
      refine ⟨_, ?_, rfl⟩
      rw [hP]
      have hbig : (2 : Int) ^ F.T.bits ≤ 2 ^ 16 := by
        apply pow_le_pow_right₀ (by norm_num)
        have := hF.1; omega
      apply arith_of_inRange (by decide)
      constructor
      · show i32.lo ≤ _; norm_num [IntTy.lo] at hbig ⊢; omega
      · show _ ≤ i32.hi; norm_num [IntTy.hi] at hbig ⊢; omega
    · have hP : F.P = F.T := hF.p_eq (by omega)
      refine ⟨F.T.wrap (x + (2 ^ F.f - 1)), ?_, ?_⟩
      · rw [hP]; unfold arith; rw [hs]; simp
      · rw [IntTy.wrap_wrap]
  obtain ⟨s, e1, e2⟩ := hA
  unfold ceil
  rw [h.one_eq, if_pos h0]
  simp only [h.arithP_ok m1, Res.bind_ok, e1, Res.pure_eq, e2, hw]
  have hv : F.T.InRange (x + (2 ^ F.f - 1) - 2 ^ F.T.bits) := ⟨by omega, by omega⟩
  rw [if_neg (by omega), h.cdiv_ok hv hd, Res.bind_ok, Int.tdiv_eq_zero_of_lt (by omega) (by omega), zero_mul, h.arithP_ok hz, Res.bind_ok,
    h.from_ok hz]

example : small.Valid ∧ small.T.signed = false ∧ Storable small 65281 ∧ ¬ Storable small (65281 + (2 ^ small.f - 1)) ∧ tiny.T.bits < 32 ∧
    ¬ Storable tiny (-127 - (2 ^ tiny.f - 1)) ∧ floor tiny (-127) = .ok (-127) := by decide +kernel

/-- C92: `abs` on narrow signed types returns the minimum for the minimum and is exact otherwise; on unsigned types it is the identity. -/
theorem C92_abs (F : FxTy) (hF : F.Valid) (hs : F.T.signed = false ∨ F.T.bits < 32) (h1 : Storable F (2 ^ F.f)) (x : Int)
    (hx : Storable F x) : abs F x = .ok (if x = F.T.lo then x else |x|) := by
  have h : PN F := ⟨hF, h1⟩
  have hd := SW.dpos (F := F)
  have hdle := h.d_le
  have hll := PN.lo_le (F := F)
  have hx1 := hx.1; have hx2 := hx.2
  unfold abs
  by_cases h0 : x < 0
  · have hsg : F.T.signed = true := by
      by_contra hc
      have : F.T.lo = 0 := by unfold IntTy.lo; simp [hc]
      omega
    have hb : F.T.bits < 32 := by
      rcases hs with hs | hs
      · rw [hsg] at hs; cases hs
      · exact hs
    have hP : F.P = i32 := by unfold FxTy.P IntTy.promote; rw [if_pos hb]
    have hlo' : F.T.lo = -(2 ^ (F.T.bits - 1)) := by unfold IntTy.lo; simp [hsg]
    have hhi' : F.T.hi = 2 ^ (F.T.bits - 1) - 1 := by unfold IntTy.hi; simp [hsg]
    have hbig : (2 : Int) ^ (F.T.bits - 1) ≤ 2 ^ 15 := by
      apply pow_le_pow_right₀ (by norm_num)
      have := hF.1; omega
    rw [if_pos h0, hP, arith_of_inRange (by decide) ⟨by show i32.lo ≤ _; norm_num [IntTy.lo]; omega, by
      show _ ≤ i32.hi; norm_num [IntTy.hi] at hbig ⊢; omega⟩, Res.bind_ok]
    show Res.ok (fromInternal F (-x)) = _
    by_cases hxl : x = F.T.lo
    · rw [if_pos hxl]
      have e : F.T.wrap x = x := h.wrap_ok hx
      unfold fromInternal
      congr 1
      conv_rhs => rw [← e]
      apply IntTy.wrap_congr
      rw [IntTy.two_pow_pred _ hF.tpos, hxl, hlo']
      exact ⟨1, by ring⟩
    · rw [if_neg hxl, abs_of_neg h0, h.from_ok ⟨by omega, by omega⟩]
  · rw [if_neg h0]
    simp only [Res.pure_eq, Res.bind_ok]
    rw [h.from_ok hx, abs_of_nonneg (by omega)]
    split <;> rfl

example : abs tiny (-128) = .ok (-128) ∧ abs tiny (-127) = .ok 127 ∧ abs small 65535 = .ok 65535 := by decide +kernel

end Eirin.Props
