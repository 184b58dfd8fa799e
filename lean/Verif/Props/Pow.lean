import Verif.Lemmas.Log2

/-! # Properties C35 and C36: integer powers. -/

namespace Eirin.Props
open Spec

/-! ## C35 -/

theorem wrap_eq_add (t : IntTy) (n : Int) : ∃ q : Int, t.wrap n = n + 2 ^ t.bits * q := by
  obtain ⟨q, hq⟩ := IntTy.wrap_dvd t n
  exact ⟨-q, by linarith⟩

/-- The product of two integral values is the exact product modulo the storage size. -/
theorem mul_integral (F : FxTy) (hF : F.Valid) (hr : F.r = false) (a b : Int) :
    mulAssign F (F.T.wrap (a * 2 ^ F.f)) (F.T.wrap (b * 2 ^ F.f)) = .ok (F.T.wrap (a * b * 2 ^ F.f)) := by
  have e : mulAssign F (F.T.wrap (a * 2 ^ F.f)) (F.T.wrap (b * 2 ^ F.f)) = mul F (F.T.wrap (a * 2 ^ F.f)) (F.T.wrap (b * 2 ^ F.f)) := rfl
  rw [e, mul_nf hF hr (IntTy.wrap_inRange _ hF.tpos) (IntTy.wrap_inRange _ hF.tpos)]
  congr 1
  have hp : (2 : Int) ^ F.f ≠ 0 := by positivity
  have hb : (2 : Int) ^ F.T.bits = 2 ^ F.f * 2 ^ (F.T.bits - F.f) := by
    rw [← pow_add]; congr 1
    have := hF.2.2.2.2.2; omega
  obtain ⟨q, hq⟩ := wrap_eq_add F.T (a * 2 ^ F.f)
  obtain ⟨s, hs⟩ := wrap_eq_add F.T (b * 2 ^ F.f)
  have e1 : F.T.wrap (a * 2 ^ F.f) = (a + 2 ^ (F.T.bits - F.f) * q) * 2 ^ F.f := by rw [hq, hb]; ring
  have e2 : F.T.wrap (b * 2 ^ F.f) = (b + 2 ^ (F.T.bits - F.f) * s) * 2 ^ F.f := by rw [hs, hb]; ring
  rw [e1, e2]
  have e3 : (a + 2 ^ (F.T.bits - F.f) * q) * 2 ^ F.f * ((b + 2 ^ (F.T.bits - F.f) * s) * 2 ^ F.f) =
    ((a + 2 ^ (F.T.bits - F.f) * q) * (b + 2 ^ (F.T.bits - F.f) * s) * 2 ^ F.f) * 2 ^ F.f := by ring
  rw [e3, Int.mul_ediv_cancel _ hp]
  apply IntTy.wrap_congr
  refine ⟨q * b + a * s + 2 ^ (F.T.bits - F.f) * q * s, ?_⟩
  rw [hb]; ring

theorem tmod2 {e : Int} (h : 0 ≤ e) : Int.tmod e 2 = e % 2 ∧ Int.tdiv e 2 = e / 2 :=
  ⟨Int.tmod_eq_emod_of_nonneg h, Int.tdiv_eq_ediv_of_nonneg h⟩

theorem powPos_integral (F : FxTy) (hF : F.Valid) (hr : F.r = false) (fuel : Nat) : ∀ (e I R : Int), 0 ≤ e → e < 2 ^ fuel →
    powPosLoop F (fuel + 1) e (F.T.wrap (I * 2 ^ F.f)) (F.T.wrap (R * 2 ^ F.f)) = .ok (F.T.wrap (R * I ^ e.toNat * 2 ^ F.f)) := by
  induction fuel with
  | zero =>
    intro e I R h0 h1
    have : e = 0 := by simp at h1; omega
    subst this
    rw [powPosLoop, if_neg (by simp)]; simp
  | succ n ih =>
    intro e I R h0 h1
    rw [powPosLoop]
    by_cases he : e = 0
    · subst he; rw [if_neg (by simp)]; simp
    · rw [if_pos he, (tmod2 h0).1, (tmod2 h0).2]
      have hlt : e / 2 < 2 ^ n := by rw [pow_succ] at h1; omega
      by_cases ho : e % 2 = 0
      · rw [if_neg (by omega)]
        simp only [Res.pure_eq, Res.bind_ok]
        rw [mul_integral F hF hr, Res.bind_ok, ih _ _ _ (by omega) hlt]
        congr 3
        rw [← pow_two, ← pow_mul, show 2 * (e / 2).toNat = e.toNat by omega]
      · rw [if_pos (by omega)]
        simp only [mul_integral F hF hr, Res.bind_ok]
        rw [ih _ _ _ (by omega) hlt]
        congr 2
        rw [← pow_two, ← pow_mul, show e.toNat = 2 * (e / 2).toNat + 1 by omega, pow_succ]; ring

/-- The value of `pow` for an integral base: the exact power modulo the storage size. -/
theorem powInt_integral (F : FxTy) (hF : F.Valid) (hr : F.r = false) (b B n : Int) (hb : Storable F b) (hB : val F b = B)
    (h0 : 0 ≤ n) (h1 : n < 2 ^ 64) : powInt F b n = .ok (F.T.wrap (B ^ n.toNat * 2 ^ F.f)) := by
  have hbB : b = B * 2 ^ F.f := val_inj (F := F) (by rw [hB, val_int])
  unfold powInt
  have hz : ofInt F 0 = 0 := by rw [ofInt_eq F hF, zero_mul]; exact IntTy.wrap_of_inRange hF.tpos ⟨by unfold IntTy.lo; split <;> simp, by unfold IntTy.hi; split <;> simp [Int.sub_nonneg, one_le_pow₀]⟩
  rw [hz]
  by_cases hb0 : b = 0
  · rw [if_pos (by rw [eq_iff]; exact hb0)]
    have hB0 : B = 0 := by
      have hp : (2 : Int) ^ F.f ≠ 0 := by positivity
      rw [hb0] at hbB
      rcases mul_eq_zero.1 hbB.symm with h | h
      · exact h
      · exact absurd h hp
    by_cases hn : n = 0
    · rw [if_pos hn, ofInt_eq F hF, hn]; simp
    · rw [if_neg hn, hB0, zero_pow (by omega), zero_mul]
      rw [ofInt_eq F hF, zero_mul] at hz
      rw [hz]
  · rw [if_neg (by rw [eq_iff]; exact hb0), if_neg (by omega)]
    have := powPos_integral F hF hr 65 n B 1 h0 (by norm_num at *; omega)
    rw [one_mul, one_mul, ← hbB, IntTy.wrap_of_inRange hF.tpos hb] at this
    rw [ofInt_eq F hF, one_mul]; exact this

/-- C35: for an integral base whose `n`-th power fits, `pow(b, n)` is exactly `b^n`, for every `n ≥ 0` of a 64-bit exponent
type (`0^0 = 1`).  All non-rounding types. -/
theorem C35_integral_base (F : FxTy) (hF : F.Valid) (hr : F.r = false) (b n : Int) (hb : Storable F b) (hi : Integral F b)
    (h0 : 0 ≤ n) (h1 : n < 2 ^ 64) (hfit : Representable F (val F b ^ n.toNat)) :
    ∃ r, powInt F b n = .ok r ∧ Storable F r ∧ val F r = val F b ^ n.toNat := by
  obtain ⟨B, hB⟩ := hi
  rw [hB] at hfit ⊢
  obtain ⟨z, hz1, hz2⟩ := hfit
  have hzz : z = B ^ n.toNat * 2 ^ F.f := val_inj (F := F) (by rw [hz2, val_int]; push_cast; rfl)
  refine ⟨z, ?_, hz1, hz2⟩
  rw [powInt_integral F hF hr b B n hb hB h0 h1, ← hzz, IntTy.wrap_of_inRange hF.tpos hz1]

theorem powPos_defined (F : FxTy) (hF : F.Valid) (hr : F.r = false) (fuel : Nat) : ∀ (e i res : Int), 0 ≤ e → e < 2 ^ fuel →
    Storable F i → Storable F res → ∃ r, powPosLoop F (fuel + 1) e i res = .ok r ∧ Storable F r := by
  have hm : ∀ x y : Int, Storable F x → Storable F y → ∃ z, mulAssign F x y = .ok z ∧ Storable F z := by
    intro x y hx hy
    exact ⟨_, mul_nf hF hr hx hy, IntTy.wrap_inRange _ hF.tpos⟩
  induction fuel with
  | zero =>
    intro e i res h0 h1 _ hres
    have : e = 0 := by simp at h1; omega
    subst this
    exact ⟨res, by rw [powPosLoop, if_neg (by simp)], hres⟩
  | succ n ih =>
    intro e i res h0 h1 hi hres
    rw [powPosLoop]
    by_cases he : e = 0
    · subst he; exact ⟨res, by rw [if_neg (by simp)], hres⟩
    · rw [if_pos he, (tmod2 h0).1, (tmod2 h0).2]
      have hlt : e / 2 < 2 ^ n := by rw [pow_succ] at h1; omega
      obtain ⟨z, hz, hzs⟩ := hm i i hi hi
      by_cases ho : e % 2 = 0
      · rw [if_neg (by omega)]
        simp only [Res.pure_eq, Res.bind_ok]
        rw [hz, Res.bind_ok]
        exact ih _ _ _ (by omega) hlt hzs hres
      · obtain ⟨w, hw, hws⟩ := hm res i hres hi
        rw [if_pos (by omega)]
        simp only [hw, hz, Res.bind_ok]
        exact ih _ _ _ (by omega) hlt hzs hws

/-- C35: `pow` is never undefined for `n ≥ 0` (any base, any non-rounding type). -/
theorem C35_defined (F : FxTy) (hF : F.Valid) (hr : F.r = false) (b n : Int) (hb : Storable F b)
    (h0 : 0 ≤ n) (h1 : n < 2 ^ 64) : ∃ r, powInt F b n = .ok r ∧ Storable F r := by
  have hs : ∀ k, Storable F (ofInt F k) := by intro k; rw [ofInt_eq F hF]; exact IntTy.wrap_inRange _ hF.tpos
  unfold powInt
  split
  · split
    · exact ⟨_, rfl, hs 1⟩
    · exact ⟨_, rfl, hs 0⟩
  · rw [if_neg (by omega)]
    exact powPos_defined F hF hr 65 n b _ h0 (by norm_num at *; omega) hb (hs 1)

/-- C35: `pow(b, 0) = 1` for every base, in every type that can represent 1. -/
theorem C35_zero (F : FxTy) (hF : F.Valid) (h1 : Representable F 1) (b : Int) :
    ∃ r, powInt F b 0 = .ok r ∧ val F r = 1 := by
  have e : ofInt F 1 = 2 ^ F.f := by
    obtain ⟨z, hz1, hz2⟩ := h1
    have : z = 1 * 2 ^ F.f := val_inj (F := F) (by rw [hz2, val_int]; norm_num)
    rw [ofInt_eq F hF, ← this, IntTy.wrap_of_inRange hF.tpos hz1, this, one_mul]
  refine ⟨2 ^ F.f, ?_, by have := val_int F 1; rw [one_mul] at this; rw [this]; norm_num⟩
  unfold powInt
  split
  · rw [if_pos rfl, e]
  · rw [if_neg (by norm_num), powPosLoop, if_neg (by simp), e]

/-- C35: `pow(b, 1) = b` for every base. -/
theorem C35_one (F : FxTy) (hF : F.Valid) (hr : F.r = false) (h1 : Representable F 1) (b : Int) (hb : Storable F b) :
    powInt F b 1 = .ok b := by
  obtain ⟨z, hz1, hz2⟩ := h1
  have hz : z = 1 * 2 ^ F.f := val_inj (F := F) (by rw [hz2, val_int]; norm_num)
  have e : ofInt F 1 = 2 ^ F.f := by
    rw [ofInt_eq F hF, ← hz, IntTy.wrap_of_inRange hF.tpos hz1, hz, one_mul]
  rw [one_mul] at hz
  have hone : F.T.InRange (2 ^ F.f) := by rw [← hz]; exact hz1
  unfold powInt
  have h0 : ofInt F 0 = 0 := by
    rw [ofInt_eq F hF, zero_mul]
    refine IntTy.wrap_of_inRange hF.tpos ⟨?_, ?_⟩
    · unfold IntTy.lo; split <;> simp
    · have : (0 : Int) < 2 ^ F.f := by positivity
      have := hone.2; omega
  rw [h0, e]
  by_cases hb0 : b = 0
  · rw [if_pos (by rw [eq_iff]; exact hb0), if_neg (by norm_num), hb0]
  · rw [if_neg (by rw [eq_iff]; exact hb0), if_neg (by norm_num), powPosLoop, if_pos (by norm_num), if_pos (by decide)]
    have hm : mulAssign F (2 ^ F.f) b = .ok b := by
      have : mulAssign F (2 ^ F.f) b = mul F (2 ^ F.f) b := rfl
      rw [this, mul_nf hF hr hone hb, Int.mul_ediv_cancel_left _ (by positivity), IntTy.wrap_of_inRange hF.tpos hb]
    have hm2 : mulAssign F b b = .ok (F.T.wrap (b * b / 2 ^ F.f)) := mul_nf hF hr hb hb
    simp only [hm, hm2, Res.bind_ok]
    rw [powPosLoop, if_neg (by decide)]

example : powInt fixed32 (-3 * 65536) 5 = .ok (-243 * 65536) ∧ powInt fixed32 0 0 = .ok 65536 ∧ powInt fixed32 0 7 = .ok 0 ∧
    powInt fixed32 65536 (2 ^ 63) = .ok 65536 ∧ powInt fixed32 98304 2 = .ok 147456 ∧ powInt fixed64 (7 * 2 ^ 32) 11 = .ok (7 ^ 11 * 2 ^ 32) ∧
    Representable fixed32 (val fixed32 (-3 * 65536) ^ 5) := by
  refine ⟨by decide +kernel, by decide +kernel, by decide +kernel, by decide +kernel, by decide +kernel, by decide +kernel,
    -243 * 65536, by decide +kernel, by norm_num [val, fixed32]⟩

/-! ## C36 -/

/-- C36 as stated, for `fixed32`. -/
def C36_statement : Prop := ∀ b n, Storable fixed32 b → b ≠ 0 → n < 0 → -2 ^ 63 ≤ n → ∃ r, powInt fixed32 b n = .ok r

/-- C36 is false of the code: the running square underflows (or wraps) to zero and is then divided by:
`pow(0.001, -5)` and `pow(256, -2)` are divisions by zero. -/
theorem C36_false : ¬ C36_statement := by
  intro h
  obtain ⟨r, hr⟩ := h 66 (-5) (by decide +kernel) (by decide) (by decide) (by decide)
  have : powInt fixed32 66 (-5) = .ub .divZero := by decide +kernel
  rw [this] at hr; cases hr

example : powInt fixed32 66 (-5) = .ub .divZero ∧ powInt fixed32 (256 * 65536) (-2) = .ub .divZero := by decide +kernel

/-- C36: `pow(b, -1)` is `1 / b` for every non-zero base. -/
theorem C36_inverse (F : FxTy) (hF : F.Valid) (hr : F.r = false) (b : Int) (hb : Storable F b) (hb0 : val F b ≠ 0) :
    powInt F b (-1) = div F (ofInt F 1) b := by
  have hb0' : b ≠ 0 := fun h => hb0 (by rw [h, val_zero])
  unfold powInt
  have h0 : ofInt F 0 = 0 := by
    rw [ofInt_eq F hF, zero_mul]
    refine IntTy.wrap_of_inRange hF.tpos ⟨?_, ?_⟩
    · unfold IntTy.lo; split <;> simp
    · unfold IntTy.hi; split <;> simp [Int.sub_nonneg, one_le_pow₀]
  have h1 : F.T.InRange (ofInt F 1) := by rw [ofInt_eq F hF]; exact IntTy.wrap_inRange _ hF.tpos
  rw [h0, if_neg (by rw [eq_iff]; exact hb0'), if_pos (by norm_num), powNegLoop, if_pos (by norm_num), if_pos (by decide)]
  have e : divAssign F (ofInt F 1) b = div F (ofInt F 1) b := rfl
  have hm2 : mulAssign F b b = .ok (F.T.wrap (b * b / 2 ^ F.f)) := mul_nf hF hr hb hb
  have hd : divAssign F (ofInt F 1) b = .ok (F.T.wrap (Int.tdiv (ofInt F 1 * 2 ^ F.f) b)) := by
    rw [e, div_nf hF hr h1, if_neg hb0']
  rw [← e]
  simp only [hd, hm2, Res.bind_ok]
  rw [powNegLoop, if_neg (by decide)]

theorem tdiv_tdiv (a b c : Int) : Int.tdiv (Int.tdiv a b) c = Int.tdiv a (b * c) := by
  have key : ∀ a b c : Nat, Int.tdiv (Int.tdiv (a : Int) b) c = Int.tdiv (a : Int) ((b : Int) * c) := by
    intro a b c
    have := Nat.div_div_eq_div_mul a b c
    rw [← Int.ofNat_tdiv, ← Int.ofNat_tdiv, ← Int.natCast_mul, ← Int.ofNat_tdiv, this]
  rcases Int.natAbs_eq a with ha | ha <;> rcases Int.natAbs_eq b with hb | hb <;> rcases Int.natAbs_eq c with hc | hc <;>
    rw [ha, hb, hc] <;>
    simp only [Int.neg_tdiv, Int.tdiv_neg, neg_neg, neg_mul, mul_neg, key]

theorem powNeg_integral {F : FxTy} (h : Lib F) (fuel : Nat) : ∀ (e I R : Int), 0 ≤ e → e < 2 ^ fuel → 1 ≤ |I| →
    |I| ^ e.toNat < 2 ^ (F.f - 1) → Storable F R → F.T.lo < R →
    powNegLoop F (fuel + 1) (-e) (F.T.wrap (I * 2 ^ F.f)) R = .ok (Int.tdiv R (I ^ e.toNat)) := by
  have hF := h.sw.valid
  have hr := h.r
  induction fuel with
  | zero =>
    intro e I R h0 h1 _ _ _ _
    have : e = 0 := by simp at h1; omega
    subst this
    rw [powNegLoop, if_neg (by simp)]; simp
  | succ n ih =>
    intro e I R h0 h1 hI hfit hR hRlo
    rw [powNegLoop]
    by_cases he : e = 0
    · subst he; rw [if_neg (by simp)]; simp
    · have t1 : Int.tmod (-e) 2 = -(e % 2) := by rw [Int.neg_tmod, (tmod2 h0).1]
      have t2 : Int.tdiv (-e) 2 = -(e / 2) := by rw [Int.neg_tdiv, (tmod2 h0).2]
      rw [if_pos (by omega), t1, t2]
      have hlt : e / 2 < 2 ^ n := by rw [pow_succ] at h1; omega
      have hI0 : I ≠ 0 := by intro hh; rw [hh] at hI; simp at hI
      have hIlt : |I| < 2 ^ (F.f - 1) := lt_of_le_of_lt (le_self_pow₀ hI (by omega)) hfit
      have hIr : F.T.InRange (I * 2 ^ F.f) := by
        rw [abs_lt] at hIlt; exact h.small_mul (by omega) (by omega)
      have hI2 : 1 ≤ |I * I| := by rw [abs_mul]; nlinarith
      have hfit2 : |I * I| ^ (e / 2).toNat < 2 ^ (F.f - 1) := by
        rw [abs_mul, ← pow_two, ← pow_mul]
        exact lt_of_le_of_lt (pow_le_pow_right₀ hI (by omega)) hfit
      by_cases ho : e % 2 = 0
      · rw [if_neg (by omega)]
        simp only [Res.pure_eq, Res.bind_ok]
        rw [mul_integral F hF hr, Res.bind_ok, ih _ _ _ (by omega) hlt hI2 hfit2 hR hRlo]
        congr 2
        rw [← pow_two, ← pow_mul, show 2 * (e / 2).toNat = e.toNat by omega]
      · have hq : Int.tdiv (R * 2 ^ F.f) (I * 2 ^ F.f) = Int.tdiv R I := by
          rw [mul_comm R, mul_comm I, Int.mul_tdiv_mul_of_pos _ _ (by positivity)]
        have habs : |Int.tdiv R I| ≤ |R| := by
          rw [Int.abs_eq_natAbs, Int.abs_eq_natAbs, Int.natAbs_tdiv]; exact_mod_cast Nat.div_le_self _ _
        have hlohi := h.sw.lo_hi
        obtain ⟨r1, r2⟩ := hR
        have hRabs : |R| ≤ F.T.hi := by rw [abs_le]; constructor <;> omega
        have hqin : F.T.InRange (Int.tdiv R I) := by
          have := abs_le.1 (le_trans habs hRabs); constructor <;> omega
        have hqlo : F.T.lo < Int.tdiv R I := by
          have := abs_le.1 (le_trans habs hRabs); omega
        have hd : divAssign F R (I * 2 ^ F.f) = .ok (Int.tdiv R I) := by
          have e : divAssign F R (I * 2 ^ F.f) = div F R (I * 2 ^ F.f) := rfl
          have hp : (2 : Int) ^ F.f ≠ 0 := by positivity
          rw [e, h.sw.div_ok hr ⟨r1, r2⟩ (mul_ne_zero hI0 hp) (by rw [hq]; exact hqin), hq]
        rw [if_pos (by omega), mul_integral F hF hr, h.sw.wrap_ok hIr]
        simp only [hd, Res.bind_ok]
        rw [ih _ _ _ (by omega) hlt hI2 hfit2 hqin hqlo, tdiv_tdiv]
        congr 2
        rw [← pow_two, ← pow_mul, show e.toNat = 2 * (e / 2).toNat + 1 by omega, pow_succ]; ring

/-- C36, integral bases: when `|b|^n` fits, `pow(b, -n)` is defined and is the exact `1 / b^n` truncated toward zero.
Full statement: `C36_statement` (all non-zero bases); false in general by `C36_false`. -/
theorem C36_integral_partial (F : FxTy) (hF : F = fixed32 ∨ F = fixed64) (b n : Int) (hi : Integral F b) (hb0 : val F b ≠ 0)
    (h0 : 0 < n) (h1 : n ≤ 2 ^ 63) (hfit : |val F b| ^ n.toNat < 2 ^ (F.f - 1)) :
    ∃ r, powInt F b (-n) = .ok r ∧ IsTrunc F (1 / val F b ^ n.toNat) r := by
  have h : Lib F := by rcases hF with rfl | rfl; exacts [lib32, lib64]
  obtain ⟨B, hB⟩ := hi
  have hbB : b = B * 2 ^ F.f := val_inj (F := F) (by rw [hB, val_int])
  rw [hB] at hfit hb0 ⊢
  have hB0 : B ≠ 0 := by intro hh; rw [hh] at hb0; simp at hb0
  have hB1 : 1 ≤ |B| := Int.one_le_abs hB0
  have hfit' : |B| ^ n.toNat < 2 ^ (F.f - 1) := by exact_mod_cast hfit
  have hBlt : |B| < 2 ^ (F.f - 1) := lt_of_le_of_lt (le_self_pow₀ hB1 (by omega)) hfit'
  have hbr : F.T.InRange (B * 2 ^ F.f) := by
    rw [abs_lt] at hBlt; exact h.small_mul (by omega) (by omega)
  have hp : (0 : Int) < 2 ^ F.f := by positivity
  have hone : F.T.InRange (2 ^ F.f) := h.sw.one
  have hlo : F.T.lo < 2 ^ F.f := by have := h.sw.zero_in.1; omega
  have hpow := powNeg_integral h 65 n B (2 ^ F.f) (by omega) (by norm_num at *; omega) hB1 hfit' hone hlo
  rw [h.sw.wrap_ok hbr] at hpow
  refine ⟨Int.tdiv (2 ^ F.f) (B ^ n.toNat), ?_, ?_⟩
  · unfold powInt
    have hbne : b ≠ 0 := by rw [hbB]; exact mul_ne_zero hB0 hp.ne'
    rw [h.ofInt0, h.ofInt1, if_neg (by rw [eq_iff]; exact hbne), if_pos (by omega), hbB, hpow]
  · have hP : B ^ n.toNat ≠ 0 := pow_ne_zero _ hB0
    have hbn : (B : ℚ) ^ n.toNat = ((B ^ n.toNat : Int) : ℚ) := by push_cast; rfl
    rw [hbn]
    have := trunc_spec F (2 ^ F.f) (B ^ n.toNat) hP
    have hq : (2 : ℚ) ^ F.f ≠ 0 := by positivity
    have e : ((2 ^ F.f : Int) : ℚ) / ((B ^ n.toNat : Int) : ℚ) / 2 ^ F.f = 1 / ((B ^ n.toNat : Int) : ℚ) := by
      push_cast; field_simp
    rwa [e] at this

end Eirin.Props
