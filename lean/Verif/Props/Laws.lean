import Verif.Props.Arith

/-! # Properties C06–C09: algebraic laws, compound assignment, negation, remainder. -/

namespace Eirin.Props
open Spec

/-! ## C06 -/

/-- C06: addition is commutative (same value, same undefined cases). -/
theorem C06_add_comm (F : FxTy) (x y : Int) : add F x y = add F y x := by unfold add; rw [Int.add_comm]

/-- C06: multiplication is commutative, in both rounding modes. -/
theorem C06_mul_comm (F : FxTy) (x y : Int) : mul F x y = mul F y x := by unfold mul; rw [Int.mul_comm]

example : add fixed32 5 (-7) = .ok (-2) ∧ mul fixed32 (-98304) 65537 = .ok (-98306) := by decide +kernel

/-- C06: addition is associative whenever the sums involved are defined. -/
theorem C06_add_assoc (F : FxTy) (hF : F.Valid) (x y z a b c : Int)
    (hx : Storable F x) (hy : Storable F y) (hz : Storable F z)
    (hxy : add F x y = .ok a) (ha : add F a z = .ok b) (hyz : add F y z = .ok c) :
    add F x c = .ok b := by
  have key : ∀ u v w, F.T.InRange u → F.T.InRange v → add F u v = .ok w →
      w = F.T.wrap (u + v) ∧ F.T.InRange w ∧ (SignedWide F → w = u + v) := by
    intro u v w hu hv h
    rw [add_nf hF hu hv] at h
    split at h
    · cases h
    · rename_i hn
      cases h
      refine ⟨rfl, IntTy.wrap_inRange _ hF.tpos, fun hs => ?_⟩
      have : F.T.InRange (u + v) := by by_contra hc; exact hn ⟨hs, hc⟩
      exact IntTy.wrap_of_inRange hF.tpos this
  obtain ⟨e1, r1, s1⟩ := key _ _ _ hx hy hxy
  obtain ⟨e2, r2, s2⟩ := key _ _ _ r1 hz ha
  obtain ⟨e3, r3, s3⟩ := key _ _ _ hy hz hyz
  rw [add_nf hF hx r3]
  by_cases hs : SignedWide F
  · have e : x + c = b := by rw [s2 hs, s1 hs, s3 hs]; ring
    rw [e, if_neg (fun h => h.2 r2), IntTy.wrap_of_inRange hF.tpos r2]
  · rw [if_neg (fun h => hs h.1), e2]
    congr 1
    apply IntTy.wrap_congr
    have d1 := IntTy.dvd_of_wrap_eq (t := F.T) (a := a) (b := x + y) (by rw [e1, IntTy.wrap_wrap])
    have d3 := IntTy.dvd_of_wrap_eq (t := F.T) (a := c) (b := y + z) (by rw [e3, IntTy.wrap_wrap])
    have := Int.dvd_sub d3 d1
    have e : c - (y + z) - (a - (x + y)) = x + c - (a + z) := by ring
    rwa [e] at this

example : add fixed32 (2 ^ 30) (2 ^ 30 - 5) = .ok (2 ^ 31 - 5) ∧ add fixed32 (2 ^ 31 - 5) (-3) = .ok (2 ^ 31 - 8) ∧
    add fixed32 (2 ^ 30 - 5) (-3) = .ok (2 ^ 30 - 8) := by decide +kernel

/-- C06: zero is the additive identity. -/
theorem C06_add_zero (F : FxTy) (hF : F.Valid) (x : Int) (hx : Storable F x) : add F x 0 = .ok x := by
  have h0 : F.T.InRange 0 := by
    have h1 : (1 : Int) ≤ 2 ^ (F.T.bits - 1) := one_le_pow₀ (by norm_num)
    have h2 : (1 : Int) ≤ 2 ^ F.T.bits := one_le_pow₀ (by norm_num)
    unfold IntTy.InRange IntTy.lo IntTy.hi; split <;> omega
  rw [add_nf hF hx h0, Int.add_zero, if_neg (fun h => h.2 hx), IntTy.wrap_of_inRange hF.tpos hx]

/-- C06: one is the multiplicative identity (for types in which one is storable), the result is exact. -/
theorem C06_mul_one (F : FxTy) (hF : F.Valid) (hr : F.r = false) (x one : Int) (hx : Storable F x)
    (h1 : Storable F one) (hone : val F one = 1) : mul F x one = .ok x ∧ mul F one x = .ok x := by
  have e : one = 2 ^ F.f := by
    apply val_inj (F := F); rw [hone]
    have := val_int F 1; simp at this; rw [this]
  subst e
  have hp : (2 : Int) ^ F.f ≠ 0 := by positivity
  have h : mul F x (2 ^ F.f) = .ok x := by
    rw [mul_nf hF hr hx h1, Int.mul_ediv_cancel _ hp, IntTy.wrap_of_inRange hF.tpos hx]
  exact ⟨h, by rw [C06_mul_comm]; exact h⟩

example : Storable fixed64 (2 ^ 32) ∧ val fixed64 (2 ^ 32) = 1 ∧ mul fixed64 (-12345) (2 ^ 32) = .ok (-12345) :=
  ⟨by decide +kernel, by norm_num [val, fixed64], by decide +kernel⟩

/-- C06: `x * 0 = 0`. -/
theorem C06_mul_zero (F : FxTy) (hF : F.Valid) (hr : F.r = false) (x : Int) (hx : Storable F x) :
    mul F x 0 = .ok 0 := by
  have h0 : F.T.InRange 0 := by
    have h1 : (1 : Int) ≤ 2 ^ (F.T.bits - 1) := one_le_pow₀ (by norm_num)
    have h2 : (1 : Int) ≤ 2 ^ F.T.bits := one_le_pow₀ (by norm_num)
    unfold IntTy.InRange IntTy.lo IntTy.hi; split <;> omega
  rw [mul_nf hF hr hx h0]; simp [IntTy.wrap_of_inRange hF.tpos h0]

/-- C06: `x - x = 0`. -/
theorem C06_sub_self (F : FxTy) (hF : F.Valid) (x : Int) (hx : Storable F x) : sub F x x = .ok 0 := by
  have h0 : F.T.InRange 0 := by
    have h1 : (1 : Int) ≤ 2 ^ (F.T.bits - 1) := one_le_pow₀ (by norm_num)
    have h2 : (1 : Int) ≤ 2 ^ F.T.bits := one_le_pow₀ (by norm_num)
    unfold IntTy.InRange IntTy.lo IntTy.hi; split <;> omega
  rw [sub_nf hF hx hx, Int.sub_self, if_neg (fun h => h.2 h0), IntTy.wrap_of_inRange hF.tpos h0]

example : Storable fixed32 (-2 ^ 31) ∧ sub fixed32 (-2 ^ 31) (-2 ^ 31) = .ok 0 ∧ add fixed32 (-2 ^ 31) 0 = .ok (-2 ^ 31) ∧
    mul fixed32 (-2 ^ 31) 0 = .ok 0 := by decide +kernel

/-- C06: `(x + y) - y = x` whenever `x + y` is defined. -/
theorem C06_add_sub_cancel (F : FxTy) (hF : F.Valid) (x y z : Int) (hx : Storable F x) (hy : Storable F y)
    (h : add F x y = .ok z) : sub F z y = .ok x := by
  rw [add_nf hF hx hy] at h
  split at h
  · cases h
  · rename_i hn
    cases h
    have hz := IntTy.wrap_inRange (t := F.T) (x + y) hF.tpos
    rw [sub_nf hF hz hy]
    by_cases hs : SignedWide F
    · have : F.T.InRange (x + y) := by by_contra hc; exact hn ⟨hs, hc⟩
      rw [IntTy.wrap_of_inRange hF.tpos this, Int.add_sub_cancel, if_neg (fun h => h.2 hx),
        IntTy.wrap_of_inRange hF.tpos hx]
    · rw [if_neg (fun h => hs h.1)]
      congr 1
      have : F.T.wrap (F.T.wrap (x + y) - y) = F.T.wrap x := by
        apply IntTy.wrap_congr
        have := IntTy.wrap_dvd F.T (x + y)
        rw [← Int.dvd_neg] at this
        have e : -(x + y - F.T.wrap (x + y)) = F.T.wrap (x + y) - y - x := by ring
        rwa [e] at this
      rw [this, IntTy.wrap_of_inRange hF.tpos hx]

example : add exU32 (2 ^ 32 - 1) 7 = .ok 6 ∧ sub exU32 6 7 = .ok (2 ^ 32 - 1) := by decide +kernel

/-- C06: multiplication by a non-negative factor is monotone when neither product overflows. -/
theorem C06_mul_mono (F : FxTy) (hF : F.Valid) (hr : F.r = false) (x y c a b : Int)
    (hx : Storable F x) (hy : Storable F y) (hc : Storable F c) (hc0 : 0 ≤ val F c) (hxy : val F x ≤ val F y)
    (hfx' : val F F.T.lo ≤ val F x * val F c)
    (hfy : val F y * val F c < val F F.T.hi + ulp F)
    (ha : mul F x c = .ok a) (hb : mul F y c = .ok b) : val F a ≤ val F b := by
  have hm : val F x * val F c ≤ val F y * val F c := mul_le_mul_of_nonneg_right hxy hc0
  have ex := C02_mul_error F hF hr x c a hx hc ⟨hfx', lt_of_le_of_lt hm hfy⟩ ha
  have ey := C02_mul_error F hF hr y c b hy hc ⟨le_trans hfx' hm, hfy⟩ hb
  have : val F a < val F (b + 1) := by rw [val_add, val_one]; linarith [ex.1, ey.2]
  rw [val_lt] at this
  rw [val_le]; omega

example : mul fixed32 (-98305) 32769 = .ok (-49155) ∧ mul fixed32 70000 32769 = .ok 35001 ∧
    (0 : ℚ) ≤ val fixed32 32769 ∧ val fixed32 (-98305) ≤ val fixed32 70000 ∧
    val fixed32 fixed32.T.lo ≤ val fixed32 (-98305) * val fixed32 32769 ∧
    val fixed32 70000 * val fixed32 32769 < val fixed32 fixed32.T.hi + ulp fixed32 := by
  refine ⟨by decide +kernel, by decide +kernel, ?_, ?_, ?_, ?_⟩ <;> norm_num [val, ulp, fixed32, IntTy.lo, IntTy.hi]

/-! ## C07 -/

/-- C07: compound assignment leaves exactly the value (and has exactly the undefined cases) of the binary operator,
for every type and both rounding modes. -/
theorem C07_compound (F : FxTy) (x y : Int) :
    addAssign F x y = add F x y ∧ subAssign F x y = sub F x y ∧ mulAssign F x y = mul F x y ∧
    divAssign F x y = div F x y ∧ remAssign F x y = rem F x y :=
  ⟨rfl, rfl, rfl, rfl, rfl⟩

example : mulAssign fixed32 (-3) 32768 = .ok (-2) ∧ divAssign exR32 5 131072 = .ok 6 ∧
    remAssign fixed32 (-7) 3 = .ok (-1) := by decide +kernel

/-- In types where one is storable, `Type(1) << fraction` is the raw representation of one. -/
theorem oneShl_eq (F : FxTy) (hF : F.Valid) (h1 : Storable F (2 ^ F.f)) : oneShl F = 2 ^ F.f := by
  unfold oneShl
  exact IntTy.wrap_of_inRange hF.ppos (IntTy.inRange_promote hF.tpos h1)

/-- C07: in types where one is storable, `++x`/`x++` add exactly one and `--x`/`x--` subtract exactly one (they behave
as `x + 1` and `x - 1`, including the undefined cases); prefix forms return the new value, postfix forms the old one. -/
theorem C07_incdec (F : FxTy) (hF : F.Valid) (one x : Int) (h1 : Storable F one) (hone : val F one = 1) :
    (preInc F x = (add F x one >>= fun s => pure (s, s))) ∧ (postInc F x = (add F x one >>= fun s => pure (s, x))) ∧
    (preDec F x = (sub F x one >>= fun s => pure (s, s))) ∧ (postDec F x = (sub F x one >>= fun s => pure (s, x))) := by
  have e : one = 2 ^ F.f := by
    apply val_inj (F := F); rw [hone]
    have := val_int F 1; simp at this; rw [this]
  subst e
  unfold preInc postInc preDec postDec add sub
  rw [oneShl_eq F hF h1]
  refine ⟨?_, ?_, ?_, ?_⟩ <;> (generalize arith F.P _ = a; cases a <;> rfl)

example : Storable fixed32 65536 ∧ val fixed32 65536 = 1 ∧ preInc fixed32 (-98304) = .ok (-32768, -32768) ∧
    postDec fixed32 100 = .ok (-65436, 100) ∧ preInc fixed32 (2 ^ 31 - 65536) = .ub .overflow :=
  ⟨by decide +kernel, by norm_num [val, fixed32], by decide +kernel, by decide +kernel, by decide +kernel⟩

/-- C07, excluded point: with 31 fraction bits one is not storable and `++` *subtracts* one from a non-negative number. -/
theorem C07_inc_wrong_without_one :
    (⟨i32, i64, 31, false⟩ : FxTy).Valid ∧ preInc ⟨i32, i64, 31, false⟩ 5 = .ok (5 - 2 ^ 31, 5 - 2 ^ 31) := by
  decide +kernel

/-! ## C08 -/

/-- C08: for signed storage of at least `int` width, `-x` is exact except for the minimum value, where it is undefined. -/
theorem C08_neg (F : FxTy) (hF : F.Valid) (hs : SignedWide F) (x : Int) (hx : Storable F x) :
    (x = F.T.lo → neg F x = .ub .overflow) ∧
    (x ≠ F.T.lo → ∃ z, neg F x = .ok z ∧ Storable F z ∧ val F z = - val F x ∧ neg F z = .ok x ∧ add F x z = .ok 0) := by
  have elo : F.T.lo = -(2 ^ (F.T.bits - 1)) := by unfold IntTy.lo; simp [hs.1]
  have ehi : F.T.hi = 2 ^ (F.T.bits - 1) - 1 := by unfold IntTy.hi; simp [hs.1]
  obtain ⟨h1, h2⟩ := id hx
  constructor
  · intro h
    have hn : ¬ F.T.InRange (-x) := by rintro ⟨_, h4⟩; omega
    rw [neg_nf hF hx, if_pos ⟨hs, hn⟩]
  · intro h
    have hn : F.T.InRange (-x) := ⟨by omega, by omega⟩
    have h0 : F.T.InRange 0 := by
      have : (1 : Int) ≤ 2 ^ (F.T.bits - 1) := one_le_pow₀ (by norm_num)
      exact ⟨by omega, by omega⟩
    refine ⟨-x, ?_, hn, val_neg F x, ?_, ?_⟩
    · rw [neg_nf hF hx, if_neg (fun h => h.2 hn), IntTy.wrap_of_inRange hF.tpos hn]
    · rw [neg_nf hF hn, neg_neg, if_neg (fun h => h.2 hx), IntTy.wrap_of_inRange hF.tpos hx]
    · rw [add_nf hF hx hn, add_neg_cancel, if_neg (fun h => h.2 h0), IntTy.wrap_of_inRange hF.tpos h0]

example : SignedWide fixed64 ∧ Storable fixed64 (-5) ∧ (-5 : Int) ≠ fixed64.T.lo ∧ neg fixed64 (-5) = .ok 5 ∧
    neg fixed32 (-2 ^ 31) = .ub .overflow := by decide +kernel

/-! ## C09 -/

/-- C09: when `x % y` is undefined. -/
theorem C09_rem_ub_iff (F : FxTy) (hF : F.Valid) (x y : Int) (hx : Storable F x) :
    (rem F x y).IsUB ↔ y = 0 ∨ (SignedWide F ∧ x = F.T.lo ∧ y = -1) := by
  rw [rem_nf hF hx]
  by_cases h : y = 0
  · simp [h]
  · by_cases h2 : SignedWide F ∧ x = F.T.lo ∧ y = -1
    · rw [if_neg h, if_pos h2]; simp [h2]
    · rw [if_neg h, if_neg h2]; simp [h, h2]

/-- C09: otherwise the remainder is smaller than the divisor in magnitude, is zero or has the dividend's sign, and
differs from the dividend by an integer multiple of the divisor. -/
theorem C09_rem (F : FxTy) (hF : F.Valid) (x y z : Int) (hx : Storable F x) (h : rem F x y = .ok z) :
    Storable F z ∧ |val F z| < |val F y| ∧ 0 ≤ val F z * val F x ∧ |val F z| ≤ |val F x| ∧
      ∃ k : Int, val F x - val F z = k * val F y := by
  rw [rem_nf hF hx] at h
  split at h
  · cases h
  split at h
  · cases h
  rename_i hy _
  cases h
  have hq : (0 : ℚ) < 2 ^ F.f := by positivity
  have h0 := Int.tmod_nonneg (a := x) y
  have h1 : x ≤ 0 → Int.tmod x y ≤ 0 := by
    intro h
    have := Int.tmod_nonneg (a := -x) y (by omega)
    rw [Int.neg_tmod] at this; omega
  have h2 : (Int.tmod x y).natAbs < y.natAbs := by
    rw [Int.natAbs_tmod]; exact Nat.mod_lt _ (Int.natAbs_pos.2 hy)
  have h3 : (Int.tmod x y).natAbs ≤ x.natAbs := by rw [Int.natAbs_tmod]; exact Nat.mod_le _ _
  have h2' : |Int.tmod x y| < |y| := by rw [Int.abs_eq_natAbs, Int.abs_eq_natAbs]; exact_mod_cast h2
  have h3' : |Int.tmod x y| ≤ |x| := by rw [Int.abs_eq_natAbs, Int.abs_eq_natAbs]; exact_mod_cast h3
  have hm := Int.tmod_add_mul_tdiv x y
  have e : ∀ a : Int, |val F a| = ((|a| : Int) : ℚ) / 2 ^ F.f := by
    intro a; unfold val; rw [abs_div, abs_of_pos hq]; push_cast; rfl
  refine ⟨?_, ?_, ?_, ?_, Int.tdiv x y, ?_⟩
  · obtain ⟨a, b⟩ := hx
    have hl0 : F.T.lo ≤ 0 := by
      unfold IntTy.lo; split
      · have : (0 : Int) < 2 ^ (F.T.bits - 1) := by positivity
        omega
      · exact le_refl _
    have hh0 : 0 ≤ F.T.hi := by
      unfold IntTy.hi
      have h1 : (1 : Int) ≤ 2 ^ (F.T.bits - 1) := one_le_pow₀ (by norm_num)
      have h2 : (1 : Int) ≤ 2 ^ F.T.bits := one_le_pow₀ (by norm_num)
      split <;> omega
    constructor
    · rcases le_total 0 x with hx0 | hx0
      · have := h0 hx0; omega
      · have := h1 hx0; omega
    · rcases le_total 0 x with hx0 | hx0
      · have := h0 hx0; omega
      · have := h1 hx0; omega
  · rw [e, e]; apply div_lt_div_of_pos_right _ hq; exact_mod_cast h2'
  · unfold val
    rw [div_mul_div_comm]
    apply div_nonneg _ (by positivity)
    rcases le_total 0 x with hx0 | hx0
    · have := mul_nonneg (h0 hx0) hx0; exact_mod_cast this
    · have := mul_nonneg_of_nonpos_of_nonpos (h1 hx0) hx0; exact_mod_cast this
  · rw [e, e]; apply div_le_div_of_nonneg_right _ hq.le; exact_mod_cast h3'
  · unfold val
    have : (x : ℚ) = Int.tmod x y + y * Int.tdiv x y := by exact_mod_cast hm.symm
    rw [← sub_div, this]; ring

example : Storable fixed32 (-458752) ∧ rem fixed32 (-458752) 131072 = .ok (-65536) ∧
    rem fixed32 (-2 ^ 31) (-1) = .ub .overflow ∧ rem fixed32 7 0 = .ub .divZero ∧
    rem exI16 (-32768) (-1) = .ok 0 := by decide +kernel

end Eirin.Props
