import Verif.Lemmas.Core

/-! # Normal forms of the arithmetic operators (helper lemmas). -/

set_option linter.unusedSectionVars false

namespace Eirin
open Spec

theorem IntTy.wrap_congr {t : IntTy} {a b : Int} (h : (2 : Int) ^ t.bits ∣ a - b) : t.wrap a = t.wrap b := by
  unfold IntTy.wrap
  obtain ⟨k, hk⟩ := h
  have ha : a = b + k * ((2 ^ t.bits : Nat) : Int) := by push_cast; linarith
  split
  · rw [ha]; exact Int.add_mul_bmod_self_right b k _
  · rw [ha]; exact Int.add_mul_emod_self_right b k _

theorem IntTy.dvd_of_wrap_eq {t : IntTy} {a b : Int} (h : t.wrap a = t.wrap b) : (2 : Int) ^ t.bits ∣ a - b := by
  have h1 := IntTy.wrap_dvd t a
  have h2 := IntTy.wrap_dvd t b
  have := Int.dvd_sub h1 h2
  rw [h] at this
  have e : a - t.wrap b - (b - t.wrap b) = a - b := by ring
  rwa [e] at this

theorem IntTy.wrap_wrap (t : IntTy) (n : Int) : t.wrap (t.wrap n) = t.wrap n := by
  apply IntTy.wrap_congr
  have := IntTy.wrap_dvd t n
  rw [← Int.dvd_neg] at this
  have e : -(n - t.wrap n) = t.wrap n - n := by ring
  rwa [e] at this

/-- wrapping through a wider (promoted) type first does not matter -/
theorem IntTy.wrap_wrap_of_le {t u : IntTy} (h : t.bits ≤ u.bits) (n : Int) : t.wrap (u.wrap n) = t.wrap n := by
  apply IntTy.wrap_congr
  have h1 := IntTy.wrap_dvd u n
  have h2 : (2 : Int) ^ t.bits ∣ 2 ^ u.bits := pow_dvd_pow 2 h
  have := Int.dvd_trans h2 h1
  rw [← Int.dvd_neg] at this
  have e : -(n - u.wrap n) = u.wrap n - n := by ring
  rwa [e] at this

theorem IntTy.bits_le_promote (t : IntTy) : t.bits ≤ t.promote.bits := by
  unfold IntTy.promote; split <;> simp; omega

/-- sums and differences of two narrow values fit in `int` -/
theorem narrow_inRange {n : Int}
    (h : -(2 ^ 17) ≤ n ∧ n ≤ 2 ^ 17) : i32.InRange n := by
  unfold IntTy.InRange IntTy.lo IntTy.hi; norm_num at *; omega

theorem narrow_bounds {t : IntTy} (hb : t.bits = 8 ∨ t.bits = 16) {n : Int} (h : t.InRange n) :
    -(2 ^ 15) ≤ n ∧ n ≤ 2 ^ 16 - 1 := by
  obtain ⟨h1, h2⟩ := h
  unfold IntTy.lo at h1; unfold IntTy.hi at h2
  rcases hb with hb | hb <;> rw [hb] at h1 h2 <;> cases hs : t.signed <;>
    simp only [hs, if_true, Bool.false_eq_true, if_false] at h1 h2 <;> norm_num at * <;> omega

variable {F : FxTy}

/-- A `T op T` sum-like result: UB exactly when storage is signed and at least `int` sized and the exact value does not fit. -/
theorem arith_store (h : F.Valid) {n : Int} (hn : -(2 ^ 17) ≤ n ∧ n ≤ 2 ^ 17 ∨ 32 ≤ F.T.bits) :
    (arith F.P n >>= fun s => pure (F.T.wrap s)) =
      if SignedWide F ∧ ¬ F.T.InRange n then .ub .overflow else .ok (F.T.wrap n) := by
  by_cases hw : 32 ≤ F.T.bits
  · have hp := h.p_eq hw
    unfold arith
    rw [hp]
    cases hs : F.T.signed
    · simp [SignedWide, hs, IntTy.wrap_wrap]
    · by_cases hr : F.T.InRange n <;> simp [SignedWide, hs, hr, hw]
  · have hb : F.T.bits = 8 ∨ F.T.bits = 16 := by have := h.1; omega
    rcases h.p_cases with hp | ⟨hp, _⟩
    · exfalso; have := congrArg IntTy.bits hp; unfold FxTy.P IntTy.promote at this
      rw [if_pos (by omega)] at this; simp at this; omega
    · rw [hp, arith_of_inRange (by norm_num) (narrow_inRange (by rcases hn with hn | hn; exact hn; omega))]
      simp [SignedWide, hw]

theorem add_nf (h : F.Valid) {x y : Int} (hx : F.T.InRange x) (hy : F.T.InRange y) :
    add F x y = if SignedWide F ∧ ¬ F.T.InRange (x + y) then .ub .overflow else .ok (F.T.wrap (x + y)) := by
  unfold add
  apply arith_store h
  by_cases hw : 32 ≤ F.T.bits
  · exact .inr hw
  · left
    have hb : F.T.bits = 8 ∨ F.T.bits = 16 := by have := h.1; omega
    have := narrow_bounds hb hx; have := narrow_bounds hb hy; norm_num at *; omega

theorem sub_nf (h : F.Valid) {x y : Int} (hx : F.T.InRange x) (hy : F.T.InRange y) :
    sub F x y = if SignedWide F ∧ ¬ F.T.InRange (x - y) then .ub .overflow else .ok (F.T.wrap (x - y)) := by
  unfold sub
  apply arith_store h
  by_cases hw : 32 ≤ F.T.bits
  · exact .inr hw
  · left
    have hb : F.T.bits = 8 ∨ F.T.bits = 16 := by have := h.1; omega
    have := narrow_bounds hb hx; have := narrow_bounds hb hy; norm_num at *; omega

theorem neg_nf (h : F.Valid) {x : Int} (hx : F.T.InRange x) :
    neg F x = if SignedWide F ∧ ¬ F.T.InRange (-x) then .ub .overflow else .ok (F.T.wrap (-x)) := by
  unfold neg
  apply arith_store h
  by_cases hw : 32 ≤ F.T.bits
  · exact .inr hw
  · left
    have hb : F.T.bits = 8 ∨ F.T.bits = 16 := by have := h.1; omega
    have := narrow_bounds hb hx; norm_num at *; omega

theorem mul_nf (h : F.Valid) (hr : F.r = false) {x y : Int} (hx : F.T.InRange x) (hy : F.T.InRange y) :
    mul F x y = .ok (F.T.wrap (x * y / 2 ^ F.f)) := by
  unfold mul
  simp only [hr, Bool.false_eq_true, if_false]
  rw [h.c_eq, arith_of_inRange h.ippos (mul_inRange_ip h (.of_inRange hx) (.of_inRange hy))]
  simp only [Res.bind_ok, shr]
  have h1 := IntTy.bits_le_promote F.I.promote
  have := h.two_t_le_ip; have := h.flt
  rw [if_pos (by omega)]; rfl

/-- magnitude bound from the range of a product -/
theorem ip_signed_of_signed (h : F.Valid) (hs : F.T.signed = true) : F.I.promote.signed = true := by
  rcases h.ip_cases with hc | hc
  · rw [hc, hs]
  · exact hc.1

/-- truncated quotients of a bounded product never overflow the intermediate type -/
theorem tdiv_inRange_ip (h : F.Valid) {x b y : Int} (hx : Bounded F.T x) (hb : Bounded F.T b)
    (hn : F.I.promote.signed = true) : F.I.promote.InRange (Int.tdiv (x * b) y) := by
  have h2 := h.two_t_le_ip
  have ht := h.tpos
  have ha := natAbs_tdiv_le (x * b) y
  have hm : |x * b| < 2 ^ (F.I.promote.bits - 1) := by
    rw [abs_mul]
    unfold Bounded at hx hb
    cases hs : F.T.signed
    · simp only [hs, Bool.false_eq_true, if_false] at hx hb
      have hc := h.ip_cases
      rw [hs, hn] at hc
      have hc' : 2 * F.T.bits < F.I.promote.bits := by rcases hc with hc | hc; cases hc; exact hc.2
      have h1 : |x| < 2 ^ F.T.bits := by rw [abs_of_nonneg hx.1]; exact hx.2
      have h3 : |b| < 2 ^ F.T.bits := by rw [abs_of_nonneg hb.1]; exact hb.2
      calc |x| * |b| < 2 ^ F.T.bits * 2 ^ F.T.bits := by nlinarith [abs_nonneg x, abs_nonneg b]
        _ = 2 ^ (2 * F.T.bits) := by rw [← pow_add]; congr 1; omega
        _ ≤ _ := pow_le_pow_right₀ (by norm_num) (by omega)
    · simp only [hs, if_true] at hx hb
      have h1 : |x| ≤ 2 ^ (F.T.bits - 1) := abs_le.2 hx
      have h3 : |b| ≤ 2 ^ (F.T.bits - 1) := abs_le.2 hb
      calc |x| * |b| ≤ 2 ^ (F.T.bits - 1) * 2 ^ (F.T.bits - 1) := by gcongr
        _ = 2 ^ (2 * F.T.bits - 2) := by rw [← pow_add]; congr 1; omega
        _ < _ := pow_lt_pow_right₀ (by norm_num) (by omega)
  have := abs_lt.1 (lt_of_le_of_lt ha hm)
  unfold IntTy.InRange IntTy.lo IntTy.hi
  simp only [hn, if_true]; omega

theorem div_nf (h : F.Valid) (hr : F.r = false) {x y : Int} (hx : F.T.InRange x) :
    div F x y = if y = 0 then .ub .divZero else .ok (F.T.wrap (Int.tdiv (x * 2 ^ F.f) y)) := by
  unfold div
  simp only [hr, Bool.false_eq_true, if_false]
  rw [shl_ok h hx, h.c_eq]
  simp only [Res.bind_ok, cdiv]
  by_cases hy : y = 0
  · simp [hy]
  · simp only [hy, if_false]
    rw [if_neg]
    · rfl
    · rintro ⟨h1, h2⟩
      exact h2 (tdiv_inRange_ip h (.of_inRange hx) (two_pow_f_bounded h) h1)

/-- For in-range operands the truncated quotient only leaves the range for `min / -1`. -/
theorem tdiv_inRange_iff {t : IntTy} {x y : Int} (hx : t.InRange x) (hy : y ≠ 0) (hs : t.signed = true) :
    t.InRange (Int.tdiv x y) ↔ ¬ (x = t.lo ∧ y = -1) := by
  have ha := natAbs_tdiv_le x y
  obtain ⟨h1, h2⟩ := hx
  unfold IntTy.InRange
  have e1 : t.lo = -(2 ^ (t.bits - 1)) := by unfold IntTy.lo; simp [hs]
  have e2 : t.hi = 2 ^ (t.bits - 1) - 1 := by unfold IntTy.hi; simp [hs]
  have hp : (0 : Int) < 2 ^ (t.bits - 1) := by positivity
  generalize (2 : Int) ^ (t.bits - 1) = M at *
  rw [e1] at h1 ⊢; rw [e2] at h2 ⊢
  have hxM : |x| ≤ M := abs_le.2 ⟨h1, by omega⟩
  have hq : |Int.tdiv x y| ≤ M := le_trans ha hxM
  have hq' := abs_le.1 hq
  constructor
  · rintro ⟨_, h4⟩ ⟨rfl, rfl⟩
    simp at h4
  · intro hne
    refine ⟨hq'.1, ?_⟩
    by_contra hc
    push Not at hc
    have hqM : Int.tdiv x y = M := by omega
    have hxa : |x| = M := by
      have : |Int.tdiv x y| = M := by rw [hqM]; exact abs_of_pos hp
      omega
    -- |x| = M forces x = -M (since x ≤ M-1)
    have hxe : x = -M := by
      rcases abs_eq (le_of_lt hp) |>.1 hxa with h | h <;> omega
    have hn := Int.natAbs_tdiv x y
    have e3 : x.natAbs = M.toNat := by omega
    have e4 : (Int.tdiv x y).natAbs = M.toNat := by rw [hqM]; omega
    rw [e3, e4] at hn
    have hyn : y.natAbs = 1 := by
      by_contra hne1
      have : 2 ≤ y.natAbs := by have := Int.natAbs_pos.2 hy; omega
      have hlt : M.toNat / y.natAbs < M.toNat := Nat.div_lt_self (by omega) (by omega)
      exact absurd hn (ne_of_gt hlt)
    rcases Int.natAbs_eq y with h | h
    · rw [hyn] at h; simp at h
      rw [h] at hqM; simp at hqM; omega
    · rw [hyn] at h; exact hne ⟨hxe, by simpa using h⟩

theorem rem_nf (h : F.Valid) {x y : Int} (hx : F.T.InRange x) :
    rem F x y = if y = 0 then .ub .divZero
      else if SignedWide F ∧ x = F.T.lo ∧ y = -1 then .ub .overflow else .ok (Int.tmod x y) := by
  have hmod : F.T.InRange (Int.tmod x y) := by
    have h0 := Int.tmod_nonneg (a := x) y
    have h1 : x ≤ 0 → Int.tmod x y ≤ 0 := by
      intro h
      have := Int.tmod_nonneg (a := -x) y (by omega)
      rw [Int.neg_tmod] at this; omega
    have h2 : (Int.tmod x y).natAbs ≤ x.natAbs := by rw [Int.natAbs_tmod]; exact Nat.mod_le _ _
    obtain ⟨a, b⟩ := hx
    have hl0 : F.T.lo ≤ 0 := by
      unfold IntTy.lo; split
      · have : (0 : Int) < 2 ^ (F.T.bits - 1) := by positivity
        omega
      · exact le_refl _
    have hh0 : 0 ≤ F.T.hi := by
      unfold IntTy.hi
      have h1 : (1 : Int) ≤ 2 ^ (F.T.bits - 1) := one_le_pow₀ (by norm_num)
      have h2 : (1 : Int) ≤ 2 ^ F.T.bits := one_le_pow₀ (by norm_num)
      split <;> omega
    unfold IntTy.InRange
    rcases le_total 0 x with hx0 | hx0
    · have := h0 hx0; omega
    · have := h1 hx0; omega
  unfold rem cmod
  by_cases hy0 : y = 0
  · simp [hy0]
  simp only [hy0, if_false]
  by_cases hw : 32 ≤ F.T.bits
  · have hp := h.p_eq hw
    rw [hp]
    cases hs : F.T.signed
    · simp [SignedWide, hs, IntTy.wrap_of_inRange h.tpos hmod]
    · have hi := tdiv_inRange_iff hx hy0 hs
      by_cases hc : x = F.T.lo ∧ y = -1
      · have hi' : ¬ F.T.InRange (Int.tdiv x y) := by rw [hi]; simp [hc]
        rw [if_pos ⟨rfl, hi'⟩, if_pos ⟨⟨hs, hw⟩, hc⟩]; rfl
      · have hi' : F.T.InRange (Int.tdiv x y) := hi.2 hc
        rw [if_neg (fun h => h.2 hi'), if_neg (fun h => hc h.2)]
        simp [IntTy.wrap_of_inRange h.tpos hmod]
  · have hb : F.T.bits = 8 ∨ F.T.bits = 16 := by have := h.1; omega
    rcases h.p_cases with hp | ⟨hp, _⟩
    · exfalso; have := congrArg IntTy.bits hp; unfold FxTy.P IntTy.promote at this
      rw [if_pos (by omega)] at this; simp at this; omega
    · rw [hp, if_neg, if_neg]
      · simp [IntTy.wrap_of_inRange h.tpos hmod]
      · simp [SignedWide, hw]
      · rintro ⟨_, h2⟩
        have ha := natAbs_tdiv_le x y
        have hxb := narrow_bounds hb hx
        have : |x| ≤ 2 ^ 17 := abs_le.2 (by norm_num at *; omega)
        exact h2 (narrow_inRange (abs_le.1 (le_trans ha this)))

end Eirin
