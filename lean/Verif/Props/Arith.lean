import Verif.Lemmas.Round

/-! # Properties C01–C09: the arithmetic operators of `fixed_num`.

Each theorem is stated through `Spec` (what number a raw value denotes); the model functions appear only as the
subject. -/

namespace Eirin.Props
open Spec

/-- A signed 64-bit type with 63 fraction bits, an unsigned type and narrow types, used in the non-vacuity examples. -/
def exU32 : FxTy := ⟨u32, u64, 12, false⟩
def exI16 : FxTy := ⟨i16, i32, 7, false⟩
def exU8 : FxTy := ⟨u8, u16, 3, false⟩
def exR32 : FxTy := ⟨i32, i64, 16, true⟩

/-! ## C01 -/

theorem representable_iff {F : FxTy} {n : Int} : Representable F (val F n) ↔ Storable F n := by
  constructor
  · rintro ⟨x, h1, h2⟩; rwa [← val_inj h2]
  · intro h; exact ⟨n, h, rfl⟩

/-- C01 (signed storage of at least 32 bits): `x + y` is the exact sum when representable, undefined otherwise. -/
theorem C01_add_exact_or_ub (F : FxTy) (hF : F.Valid) (hs : SignedWide F) (x y : Int)
    (hx : Storable F x) (hy : Storable F y) :
    (Representable F (val F x + val F y) → ∃ z, add F x y = .ok z ∧ Storable F z ∧ val F z = val F x + val F y) ∧
    (¬ Representable F (val F x + val F y) → add F x y = .ub .overflow) := by
  rw [add_nf hF hx hy, ← val_add]
  rw [representable_iff]
  constructor
  · intro h
    refine ⟨x + y, ?_, h, rfl⟩
    rw [if_neg (fun hc => hc.2 h), IntTy.wrap_of_inRange hF.tpos h]
  · intro h
    rw [if_pos ⟨hs, h⟩]

example : fixed32.Valid ∧ SignedWide fixed32 ∧ Storable fixed32 98304 ∧ Storable fixed32 (-65536) ∧
    add fixed32 98304 (-65536) = .ok 32768 ∧ add fixed32 (2 ^ 31 - 1) 1 = .ub .overflow := by decide +kernel

/-- C01: subtraction. -/
theorem C01_sub_exact_or_ub (F : FxTy) (hF : F.Valid) (hs : SignedWide F) (x y : Int)
    (hx : Storable F x) (hy : Storable F y) :
    (Representable F (val F x - val F y) → ∃ z, sub F x y = .ok z ∧ Storable F z ∧ val F z = val F x - val F y) ∧
    (¬ Representable F (val F x - val F y) → sub F x y = .ub .overflow) := by
  rw [sub_nf hF hx hy, ← val_sub]
  rw [representable_iff]
  constructor
  · intro h
    refine ⟨x - y, ?_, h, rfl⟩
    rw [if_neg (fun hc => hc.2 h), IntTy.wrap_of_inRange hF.tpos h]
  · intro h
    rw [if_pos ⟨hs, h⟩]

example : fixed64.Valid ∧ SignedWide fixed64 ∧ Storable fixed64 (2 ^ 40) ∧
    sub fixed64 (2 ^ 40) (2 ^ 33) = .ok (2 ^ 40 - 2 ^ 33) ∧ sub fixed64 (-2 ^ 63) 1 = .ub .overflow := by decide +kernel

/-- C01: for unsigned storage (and for storage narrower than `int`) the result is the exact sum/difference modulo
the storage size; never undefined. -/
theorem C01_modular (F : FxTy) (hF : F.Valid) (hs : ¬ SignedWide F) (x y : Int)
    (hx : Storable F x) (hy : Storable F y) :
    (∃ z, add F x y = .ok z ∧ IsWrap F (x + y) z) ∧ (∃ z, sub F x y = .ok z ∧ IsWrap F (x - y) z) := by
  rw [add_nf hF hx hy, sub_nf hF hx hy, if_neg (fun h => hs h.1), if_neg (fun h => hs h.1)]
  exact ⟨⟨_, rfl, isWrap_wrap hF _⟩, ⟨_, rfl, isWrap_wrap hF _⟩⟩

example : exU32.Valid ∧ ¬ SignedWide exU32 ∧ Storable exU32 3 ∧ sub exU32 3 5 = .ok (2 ^ 32 - 2) ∧
    exI16.Valid ∧ ¬ SignedWide exI16 ∧ add exI16 32767 1 = .ok (-32768) := by decide +kernel

/-! ## C02 -/

/-- C02: multiplication never is undefined; it yields the floor of the exact product (wrapped to the storage). -/
theorem C02_mul_floor (F : FxTy) (hF : F.Valid) (hr : F.r = false) (x y : Int)
    (hx : Storable F x) (hy : Storable F y) :
    ∃ z n, mul F x y = .ok z ∧ IsFloor F (val F x * val F y) n ∧ IsWrap F n z ∧ (Storable F n → z = n) := by
  refine ⟨_, x * y / 2 ^ F.f, mul_nf hF hr hx hy, ?_, isWrap_wrap hF _, fun h => IntTy.wrap_of_inRange hF.tpos h⟩
  have := floor_spec F (x * y)
  have e : ((x * y : Int) : ℚ) / 2 ^ F.f / 2 ^ F.f = val F x * val F y := by
    unfold val; push_cast; field_simp
  rwa [e] at this

example : fixed32.Valid ∧ fixed32.r = false ∧ Storable fixed32 (-3) ∧ Storable fixed32 32768 ∧
    mul fixed32 (-3) 32768 = .ok (-2) ∧ mul fixed64 (3 * 2 ^ 32) (5 * 2 ^ 31) = .ok (15 * 2 ^ 31) ∧
    mul exU8 200 200 = .ok (5000 % 256) := by decide +kernel

/-- C02, consequence: the error of an in-range product is in `[0, 1 ulp)`. -/
theorem C02_mul_error (F : FxTy) (hF : F.Valid) (hr : F.r = false) (x y z : Int)
    (hx : Storable F x) (hy : Storable F y)
    (hfit : val F F.T.lo ≤ val F x * val F y ∧ val F x * val F y < val F F.T.hi + ulp F)
    (hz : mul F x y = .ok z) :
    0 ≤ val F x * val F y - val F z ∧ val F x * val F y - val F z < ulp F := by
  obtain ⟨z', n, h1, h2, _, h4⟩ := C02_mul_floor F hF hr x y hx hy
  rw [hz] at h1; cases h1
  have hs : Storable F n := by
    constructor
    · have : val F F.T.lo < val F (n + 1) := by rw [val_add, val_one]; exact lt_of_le_of_lt hfit.1 h2.2
      rw [val_lt] at this; omega
    · have : val F n < val F (F.T.hi + 1) := by rw [val_add, val_one]; exact lt_of_le_of_lt h2.1 hfit.2
      rw [val_lt] at this; omega
  rw [h4 hs]
  exact ⟨by linarith [h2.1], by linarith [h2.2]⟩

example : val fixed32 fixed32.T.lo ≤ val fixed32 98304 * val fixed32 (-21845) ∧
    val fixed32 98304 * val fixed32 (-21845) < val fixed32 fixed32.T.hi + ulp fixed32 ∧
    mul fixed32 98304 (-21845) = .ok (-32768) := by
  refine ⟨?_, ?_, by decide +kernel⟩ <;> norm_num [val, ulp, fixed32, IntTy.lo, IntTy.hi]

/-! ## C03 -/

/-- C03: division is undefined exactly for a zero divisor, otherwise the truncated exact quotient (wrapped). -/
theorem C03_div_trunc (F : FxTy) (hF : F.Valid) (hr : F.r = false) (x y : Int) (hx : Storable F x) :
    (y = 0 → div F x y = .ub .divZero) ∧
    (y ≠ 0 → ∃ z n, div F x y = .ok z ∧ IsTrunc F (val F x / val F y) n ∧ IsWrap F n z ∧ (Storable F n → z = n)) := by
  rw [div_nf hF hr hx]
  constructor
  · intro h; rw [if_pos h]
  · intro h
    rw [if_neg h]
    refine ⟨_, Int.tdiv (x * 2 ^ F.f) y, rfl, ?_, isWrap_wrap hF _, fun h => IntTy.wrap_of_inRange hF.tpos h⟩
    have := trunc_spec F (x * 2 ^ F.f) y h
    have hy : (y : ℚ) ≠ 0 := by exact_mod_cast h
    have e : ((x * 2 ^ F.f : Int) : ℚ) / y / 2 ^ F.f = val F x / val F y := by
      unfold val; push_cast; field_simp
    rwa [e] at this

/-- C03: undefined iff the divisor is zero. -/
theorem C03_div_ub_iff (F : FxTy) (hF : F.Valid) (hr : F.r = false) (x y : Int) (hx : Storable F x) :
    (div F x y).IsUB ↔ y = 0 := by
  rw [div_nf hF hr hx]
  by_cases h : y = 0 <;> simp [h]

example : Storable fixed32 (-98304) ∧ div fixed32 (-98304) (3 * 65536) = .ok (-32768) ∧
    div fixed32 (-1) (3 * 65536) = .ok 0 ∧ div fixed64 (7 * 2 ^ 32) (-2 ^ 33) = .ok (-7 * 2 ^ 31) ∧
    div fixed32 5 0 = .ub .divZero := by decide +kernel

/-! ## C04 -/

/-- C04: `divide` throws `divide_by_zero` iff the divisor is zero and otherwise equals `operator/` — both rounding modes. -/
theorem C04_divide (F : FxTy) (x y : Int) :
    (y = 0 → divide F x y = .throw .divideByZero) ∧ (y ≠ 0 → divide F x y = div F x y) := by
  unfold divide div
  constructor
  · intro h; simp [h]
  · intro h; simp [h]

example : divide fixed32 65536 0 = .throw .divideByZero ∧ divide exR32 65536 3 = div exR32 65536 3 ∧
    divide fixed32 65536 (-131072) = .ok (-32768) := by decide +kernel

/-- C04: `divide(integral)` likewise, for any integer type of the divisor. -/
theorem C04_divideInt (F : FxTy) (U : IntTy) (x n : Int) :
    (n = 0 → divideInt F U x n = .throw .divideByZero) ∧ (n ≠ 0 → divideInt F U x n = divInt F U x n) := by
  unfold divideInt divInt divIntAssign
  constructor
  · intro h; simp [h]
  · intro h; simp [h]

example : divideInt fixed32 i32 98304 0 = .throw .divideByZero ∧ divideInt fixed32 i32 98304 (-3) = .ok (-32768) := by
  decide +kernel

/-- C04: `divide_by` throws on a zero divisor leaving the object unchanged, and otherwise leaves exactly the value
`operator/=` leaves (with the same undefined cases). -/
theorem C04_divideBy (F : FxTy) (x y : Int) :
    (y = 0 → divideBy F x y = ⟨.throw .divideByZero, x⟩) ∧
    (y ≠ 0 → ∀ z, divAssign F x y = .ok z → divideBy F x y = ⟨.ok (), z⟩) ∧
    (y ≠ 0 → ∀ u, divAssign F x y = .ub u → (divideBy F x y).outcome = .ub u) := by
  unfold divideBy divAssign
  refine ⟨fun h => by simp [h], fun h z hz => ?_, fun h u hu => ?_⟩
  · simp only [h, if_false]; rw [hz]; rfl
  · simp only [h, if_false]; rw [hu]; rfl

/-- C04: `divide_by(integral)`. -/
theorem C04_divideByInt (F : FxTy) (U : IntTy) (x n : Int) :
    (n = 0 → divideByInt F U x n = ⟨.throw .divideByZero, x⟩) ∧
    (n ≠ 0 → ∀ z, divIntAssign F U x n = .ok z → divideByInt F U x n = ⟨.ok (), z⟩) ∧
    (n ≠ 0 → ∀ u, divIntAssign F U x n = .ub u → (divideByInt F U x n).outcome = .ub u) := by
  unfold divideByInt divIntAssign
  refine ⟨fun h => by simp [h], fun h z hz => ?_, fun h u hu => ?_⟩
  · simp only [h, if_false]
    have : (do
        let K := IntTy.common F.T U
        let q ← cdiv K (K.wrap x) (K.wrap n)
        pure (F.T.wrap q)) = Res.ok z := hz
    rw [this]; rfl
  · simp only [h, if_false]
    have : (do
        let K := IntTy.common F.T U
        let q ← cdiv K (K.wrap x) (K.wrap n)
        pure (F.T.wrap q)) = (Res.ub u : Res Int) := hu
    rw [this]; rfl

example : divideBy fixed32 98304 0 = ⟨.throw .divideByZero, 98304⟩ ∧ divAssign fixed32 98304 131072 = .ok 49152 ∧
    divideBy fixed32 98304 131072 = ⟨.ok (), 49152⟩ ∧ divideByInt fixed32 i32 98304 2 = ⟨.ok (), 49152⟩ ∧
    (divideByInt fixed32 i32 (-2 ^ 31) (-1)).outcome = .ub .overflow := by decide +kernel

/-! ## C05 -/

/-- C05 as stated would be: for rounding types the product is the nearest representable number (when it fits). -/
def C05_mul_statement : Prop :=
  ∀ (F : FxTy), F.Valid → F.r = true → ∀ x y, Storable F x → Storable F y →
    ∀ n, IsNearest F (val F x * val F y) n → Storable F n → mul F x y = .ok n

/-- C05 is false of the code: `1.0 * 1.0 = 2.0` in `fixed_num<int32_t, int64_t, 16, true>`. -/
theorem C05_mul_false : ¬ C05_mul_statement := by
  intro h
  have := h exR32 (by decide) rfl 65536 65536 (by decide +kernel) (by decide +kernel) 65536
    (by unfold IsNearest val ulp exR32; norm_num) (by decide +kernel)
  revert this; decide +kernel

/-- The division half of C05, as stated. -/
def C05_div_statement : Prop :=
  ∀ (F : FxTy), F.Valid → F.r = true → ∀ x y, Storable F x → Storable F y → y ≠ 0 →
    ∀ n, IsNearest F (val F x / val F y) n → Storable F n → div F x y = .ok n

/-- C05 is false of the code: `1.0 / 1.0 = 2.0` in `fixed_num<int32_t, int64_t, 16, true>`. -/
theorem C05_div_false : ¬ C05_div_statement := by
  intro h
  have := h exR32 (by decide) rfl 65536 65536 (by decide +kernel) (by decide +kernel) (by decide) 65536
    (by unfold IsNearest val ulp exR32; norm_num) (by decide +kernel)
  revert this; decide +kernel

/-- C05, what the code does instead (missing halving): a rounding product is the wrap of exactly *twice* the correctly
rounded product.  Full statement: `C05_mul_statement`; it fails by this factor of two. -/
theorem C05_mul_partial (F : FxTy) (hF : F.Valid) (hr : F.r = true) (x y : Int)
    (hx : Storable F x) (hy : Storable F y) :
    ∃ z n, mul F x y = .ok z ∧ IsNearest F (val F x * val F y) n ∧ IsWrap F (2 * n) z := by
  have hp : (2 : Int) ^ F.f = 2 * 2 ^ (F.f - 1) := IntTy.two_pow_pred _ hF.fpos
  have hpos : (0 : Int) < 2 ^ (F.f - 1) := by positivity
  obtain ⟨n, h1, h2⟩ := round_twice (x * y) (2 ^ F.f) (by positivity)
  have hvd : Int.tdiv (2 * (x * y)) (2 ^ F.f) = Int.tdiv (x * y) (2 ^ (F.f - 1)) := by
    rw [hp]; exact Int.mul_tdiv_mul_of_pos _ _ (by norm_num)
  rw [hvd] at h1
  have hhalf : Int.tdiv (2 ^ F.f) 2 = 2 ^ (F.f - 1) := by rw [hp]; exact Int.mul_tdiv_cancel_left _ (by norm_num)
  refine ⟨F.T.wrap (2 * n), n, ?_, ?_, isWrap_wrap hF _⟩
  · unfold mul
    simp only [hr, if_true]
    rw [hF.c_eq, arith_of_inRange hF.ippos (mul_inRange_ip hF (.of_inRange hx) (.of_inRange hy)),
      fractionMultiplier_eq hF, Res.bind_ok, cdiv_ip_ok hF (by norm_num) (fun _ => ?_), hhalf, Res.bind_ok,
      round_tail hF (ne_of_gt hpos) (fun hs => mul_abs_lt_ip hF (.of_inRange hx) (.of_inRange hy) hs), h1]
    have h2 := hF.two_t_le_ip; have := hF.flt; have := hF.tpos
    rw [abs_of_pos (by positivity)]
    exact pow_lt_pow_right₀ (by norm_num) (by omega)
  · have := nearest_scale F h2
    have e' : val F x * val F y = (((x * y : Int) : ℚ) / ((2 ^ F.f : Int) : ℚ)) / 2 ^ F.f := by
      unfold val; push_cast; field_simp
    rwa [e']

example : exR32.Valid ∧ exR32.r = true ∧ Storable exR32 3 ∧ mul exR32 3 32768 = .ok 4 := by decide +kernel

/-- C05, division: for rounding types (with at least one spare integer bit) the quotient is the wrap of exactly *twice*
the correctly rounded quotient, and is undefined iff the divisor is zero.  Full statement: `C05_div_statement`. -/
theorem C05_div_partial (F : FxTy) (hF : F.Valid) (hr : F.r = true) (hf : F.f + 2 ≤ F.T.bits) (x y : Int)
    (hx : Storable F x) :
    (y = 0 → div F x y = .ub .divZero) ∧
    (y ≠ 0 → ∃ z n, div F x y = .ok z ∧ IsNearest F (val F x / val F y) n ∧ IsWrap F (2 * n) z) := by
  have hb2 : Bounded F.T (2 * 2 ^ F.f) := by
    have h1 : (2 : Int) * 2 ^ F.f = 2 ^ (F.f + 1) := by rw [pow_succ]; ring
    have h2 : (2 : Int) ^ (F.f + 1) ≤ 2 ^ (F.T.bits - 1) := pow_le_pow_right₀ (by norm_num) (by omega)
    have h3 : (2 : Int) ^ (F.f + 1) < 2 ^ F.T.bits := pow_lt_pow_right₀ (by norm_num) (by omega)
    have h4 : (0 : Int) < 2 ^ (F.f + 1) := by positivity
    have h5 : (0 : Int) < 2 ^ (F.T.bits - 1) := by positivity
    unfold Bounded; rw [h1]; split <;> omega
  have e2 : x * 2 ^ F.f * 2 = x * (2 * 2 ^ F.f) := by ring
  have hd : div F x y = (do
      let v ← cdiv F.I.promote (x * (2 * 2 ^ F.f)) y
      let m ← cmod F.I.promote v 2
      let s ← arith F.I.promote (v + m)
      pure (F.T.wrap s)) := by
    unfold div
    simp only [hr, if_true]
    rw [shl_ok hF hx, hF.c_eq, Res.bind_ok, e2,
      arith_of_inRange hF.ippos (mul_inRange_ip hF (.of_inRange hx) hb2), Res.bind_ok]
  rw [hd]
  constructor
  · rintro rfl; simp [cdiv]
  · intro hy
    obtain ⟨n, h1, h2⟩ := round_twice (x * 2 ^ F.f) y hy
    have e3 : 2 * (x * 2 ^ F.f) = x * (2 * 2 ^ F.f) := by ring
    rw [e3] at h1
    refine ⟨F.T.wrap (2 * n), n, ?_, ?_, isWrap_wrap hF _⟩
    · rw [round_tail hF hy (fun hs => mul_abs_lt_ip hF (.of_inRange hx) hb2 hs), h1]
    · have := nearest_scale F h2
      have hyq : (y : ℚ) ≠ 0 := by exact_mod_cast hy
      have e' : val F x / val F y = (((x * 2 ^ F.f : Int) : ℚ) / (y : ℚ)) / 2 ^ F.f := by
        unfold val; push_cast; field_simp
      rwa [e']

example : exR32.Valid ∧ exR32.f + 2 ≤ exR32.T.bits ∧ Storable exR32 5 ∧ div exR32 5 (-3 * 65536) = .ok (-4) := by
  decide +kernel

end Eirin.Props
