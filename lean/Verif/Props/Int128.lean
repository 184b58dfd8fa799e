import Verif.Model.Int128
import Verif.Props.Convert

/-! # C70: the two-word integer `ext::int128` -/

namespace Eirin.Props

/-- A well-formed object: both members are `int64_t` values. -/
def Words (x : Int128) : Prop := i64.InRange x.high ∧ i64.InRange x.low
instance (x : Int128) : Decidable (Words x) := by unfold Words; infer_instance

/-- The number represented by two's-complement words: `high * 2^64` plus the unsigned reading of the low word. -/
def num2c (x : Int128) : Int := x.high * 2 ^ 64 + x.low % 2 ^ 64

/-- The number represented when the low word keeps its sign. -/
def numSigned (x : Int128) : Int := x.high * 2 ^ 64 + x.low

/-- C70: full statement, for a given reading of the two words. -/
def C70_statement (num : Int128 → Int) : Prop :=
  (∀ v, i64.InRange v → num (Int128.ofInt v) = v ∧ (Int128.ofInt v).toI64 = v) ∧
  (∀ x, Words x → (0 < x.high → x.toI64 = 2 ^ 63 - 1) ∧ (x.high < 0 → x.toI64 = -2 ^ 63)) ∧
  (∀ x y, Words x → Words y → -2 ^ 127 ≤ num x + num y → num x + num y < 2 ^ 127 →
    ∃ z, Int128.add x y = .ok z ∧ num z = num x + num y)

/-- C70 is false in either reading: adding 1 to `2^63 - 1` is undefined behaviour (there is no carry). -/
theorem C70_false : ¬ C70_statement num2c ∧ ¬ C70_statement numSigned := by
  constructor <;> intro h
  all_goals
    obtain ⟨z, e, _⟩ := h.2.2 ⟨0, 2 ^ 63 - 1⟩ ⟨0, 1⟩ (by decide +kernel) (by decide +kernel) (by decide +kernel) (by decide +kernel)
    have : Int128.add ⟨0, 2 ^ 63 - 1⟩ ⟨0, 1⟩ = .ub .overflow := by decide +kernel
    rw [this] at e; cases e

/-- C70 in two's complement also fails where everything is defined: `-1` is stored as `2^64 - 1`, and a carry is lost. -/
theorem C70_twos_complement_false :
    num2c (Int128.ofInt (-1)) = 2 ^ 64 - 1 ∧
    Int128.add ⟨0, -1⟩ ⟨0, -1⟩ = .ok ⟨0, -2⟩ ∧ num2c ⟨0, -1⟩ + num2c ⟨0, -1⟩ = 2 ^ 65 - 2 ∧ num2c ⟨0, -2⟩ = 2 ^ 64 - 2 := by
  decide +kernel

/-- C70: constructing from any 64-bit value and converting back is the identity. -/
theorem C70_roundtrip (v : Int) (h : i64.InRange v) : (Int128.ofInt v).toI64 = v := by
  unfold Int128.ofInt Int128.toI64
  simp [IntTy.wrap_of_inRange (t := i64) (by decide) h]

example : i64.InRange (-5) ∧ (Int128.ofInt (-5)).toI64 = -5 := by decide +kernel

/-- C70: the conversion is the represented number (low word signed) clamped to 64 bits, for every object. -/
theorem C70_saturates (x : Int128) (h : Words x) :
    x.toI64 = Max.max (-2 ^ 63) (Min.min (2 ^ 63 - 1) (numSigned x)) := by
  obtain ⟨_, h3, h4⟩ := h
  rw [show i64.lo = -2 ^ 63 by rfl] at h3
  rw [show i64.hi = 2 ^ 63 - 1 by rfl] at h4
  unfold Int128.toI64 numSigned
  rw [show i64.lo = -2 ^ 63 by rfl, show i64.hi = 2 ^ 63 - 1 by rfl]
  rcases lt_trichotomy x.high 0 with hh | hh | hh
  · rw [if_neg (by omega), if_pos hh]; omega
  · rw [if_neg (by omega), if_neg (by omega)]; omega
  · rw [if_pos hh]; omega

example : Words ⟨1, -2 ^ 63⟩ ∧ (Int128.mk 1 (-2 ^ 63)).toI64 = 2 ^ 63 - 1 := by decide +kernel

/-- C70, addition for every pair: undefined exactly when one of the two word sums overflows, and otherwise exact in the signed reading.
Full statement: `C70_statement`; missing (false): sums with a carry out of the low word. -/
theorem C70_add_partial (x y : Int128) :
    (i64.InRange (x.high + y.high) ∧ i64.InRange (x.low + y.low) →
      ∃ z, Int128.add x y = .ok z ∧ Words z ∧ numSigned z = numSigned x + numSigned y ∧
        (0 ≤ x.low → 0 ≤ y.low → num2c z = num2c x + num2c y)) ∧
    (¬ (i64.InRange (x.high + y.high) ∧ i64.InRange (x.low + y.low)) → Int128.add x y = .ub .overflow) := by
  unfold Int128.add
  rw [arith_signed (by decide), arith_signed (by decide)]
  constructor
  · rintro ⟨h1, h2⟩
    rw [if_pos h1, if_pos h2]
    simp only [Res.bind_ok, Res.pure_eq]
    refine ⟨_, rfl, ?_⟩
    unfold Int128.ofWords Words numSigned num2c
    rw [IntTy.wrap_of_inRange (t := i64) (by decide) h1, IntTy.wrap_of_inRange (t := i64) (by decide) h2]
    refine ⟨⟨h1, h2⟩, by simp only; ring, ?_⟩
    intro h3 h4
    obtain ⟨_, h5⟩ := h2
    rw [show i64.hi = 2 ^ 63 - 1 by rfl] at h5
    simp only
    omega
  · intro h
    by_cases h1 : i64.InRange (x.high + y.high)
    · have h2 : ¬ i64.InRange (x.low + y.low) := fun h2 => h ⟨h1, h2⟩
      rw [if_pos h1, if_neg h2]; rfl
    · rw [if_neg h1]; rfl

example : i64.InRange ((-3) + 5) ∧ i64.InRange (2 ^ 62 + 7) ∧
    Int128.add ⟨-3, 2 ^ 62⟩ ⟨5, 7⟩ = .ok ⟨2, 2 ^ 62 + 7⟩ := by decide +kernel

/-- C70, the two's-complement reading exactly: where the addition is defined it gives the sum if and only if there is no carry out of the
low words; with one, the result is `2^64` too small. -/
theorem C70_carry (x y z : Int128) (h : Int128.add x y = .ok z) :
    (num2c z = num2c x + num2c y ↔ x.low % 2 ^ 64 + y.low % 2 ^ 64 < 2 ^ 64) ∧
    (2 ^ 64 ≤ x.low % 2 ^ 64 + y.low % 2 ^ 64 → num2c z = num2c x + num2c y - 2 ^ 64) := by
  unfold Int128.add at h
  rw [arith_signed (by decide), arith_signed (by decide)] at h
  by_cases h1 : i64.InRange (x.high + y.high)
  · by_cases h2 : i64.InRange (x.low + y.low)
    · rw [if_pos h1, if_pos h2, Res.bind_ok, Res.bind_ok] at h
      have e : z = ⟨x.high + y.high, x.low + y.low⟩ := by
        rw [← Res.ok.inj h]
        unfold Int128.ofWords
        rw [IntTy.wrap_of_inRange (t := i64) (by decide) h1, IntTy.wrap_of_inRange (t := i64) (by decide) h2]
      rw [e]
      unfold num2c
      simp only
      have h3 := Int.add_emod x.low y.low (2 ^ 64)
      have h4 := Int.emod_nonneg x.low (show (2 ^ 64 : Int) ≠ 0 by norm_num)
      have h5 := Int.emod_nonneg y.low (show (2 ^ 64 : Int) ≠ 0 by norm_num)
      have h6 := Int.emod_lt_of_pos x.low (show (0 : Int) < 2 ^ 64 by norm_num)
      have h7 := Int.emod_lt_of_pos y.low (show (0 : Int) < 2 ^ 64 by norm_num)
      omega
    · rw [if_pos h1, if_neg h2] at h; cases h
  · rw [if_neg h1] at h; cases h

example : Int128.add ⟨0, -1⟩ ⟨0, 5⟩ = .ok ⟨0, 4⟩ ∧ num2c ⟨0, 4⟩ = num2c ⟨0, -1⟩ + num2c ⟨0, 5⟩ - 2 ^ 64 := by decide +kernel

/-- C70: the accessors return the words given to the constructor, in order; an object made from one integer has high word 0. -/
theorem C70_words (h l : Int) (hh : i64.InRange h) (hl : i64.InRange l) :
    (Int128.ofWords h l).highBits = h ∧ (Int128.ofWords h l).lowBits = l ∧
    (Int128.ofInt l).highBits = 0 ∧ (Int128.ofInt l).lowBits = l := by
  unfold Int128.ofWords Int128.ofInt Int128.highBits Int128.lowBits
  rw [IntTy.wrap_of_inRange (t := i64) (by decide) hh, IntTy.wrap_of_inRange (t := i64) (by decide) hl]
  exact ⟨rfl, rfl, rfl, rfl⟩

example : i64.InRange (-7) ∧ (Int128.ofWords (-7) 9).highBits = -7 ∧ (Int128.ofWords (-7) 9).lowBits = 9 := by decide +kernel

/-- C70: an unsigned 64-bit value above `2^63` is not preserved by the integral constructor: it is stored as `v - 2^64`. -/
theorem C70_unsigned (v : Int) (h1 : 2 ^ 63 ≤ v) (h2 : v < 2 ^ 64) :
    Words (Int128.ofInt v) ∧ numSigned (Int128.ofInt v) = v - 2 ^ 64 ∧ num2c (Int128.ofInt v) = v := by
  have hw : i64.wrap v = v - 2 ^ 64 := by
    unfold IntTy.wrap
    rw [show i64.bits = 64 from rfl, show i64.signed = true from rfl]
    simp only [if_true]
    rw [Int.bmod_def, Int.emod_eq_of_lt (by omega) (by norm_num; omega), if_neg (by norm_num; omega)]
    norm_num
  unfold Int128.ofInt Words numSigned num2c
  rw [hw]
  refine ⟨⟨(by decide : i64.InRange 0), ?_, ?_⟩, by simp, ?_⟩
  · rw [show i64.lo = -2 ^ 63 by rfl]; simp only; omega
  · rw [show i64.hi = 2 ^ 63 - 1 by rfl]; simp only; omega
  · simp only; omega

example : (2 : Int) ^ 63 ≤ 2 ^ 64 - 1 ∧ Int128.ofInt (2 ^ 64 - 1) = ⟨0, -1⟩ := by decide +kernel

/-- C70: construction from a floating value is truncation toward zero when the truncated value fits in 64 bits, and undefined
otherwise; converting back gives the truncated value. -/
theorem C70_float (v : ℚ) :
    (∃ n : Int, Int128.ofFloat v = .ok ⟨0, n⟩ ∧ i64.InRange n ∧ (Int128.mk 0 n).toI64 = n ∧ |v - n| < 1 ∧ |(n : ℚ)| ≤ |v|) ∨
    (Int128.ofFloat v = .ub .overflow ∧ (v ≤ -2 ^ 63 - 1 ∨ 2 ^ 63 ≤ v)) := by
  have h := ratTrunc_spec ⟨i64, i128, 0, false⟩ v
  unfold Spec.IsTrunc Spec.val Spec.ulp at h
  simp only [pow_zero, div_one] at h
  unfold Int128.ofFloat floatToInt
  generalize ratTrunc v = n at *
  by_cases hn : i64.InRange n
  · left
    refine ⟨n, by rw [if_pos hn]; rfl, hn, by unfold Int128.toI64; simp, ?_⟩
    rcases le_or_gt 0 v with h0 | h0
    · obtain ⟨a, b, c⟩ := h.1 h0
      rw [abs_of_nonneg h0, abs_of_nonneg a, abs_of_nonneg (by linarith)]
      exact ⟨by linarith, b⟩
    · obtain ⟨a, b, c⟩ := h.2 h0
      rw [abs_of_neg h0, abs_of_nonpos a, abs_of_nonpos (by linarith)]
      constructor <;> linarith
  · right
    refine ⟨by rw [if_neg hn]; rfl, ?_⟩
    unfold IntTy.InRange at hn
    rw [show i64.lo = -2 ^ 63 by rfl, show i64.hi = 2 ^ 63 - 1 by rfl] at hn
    have hn' : n ≤ -2 ^ 63 - 1 ∨ 2 ^ 63 ≤ n := by omega
    rcases hn' with hn' | hn'
    · left
      have e : (n : ℚ) ≤ -2 ^ 63 - 1 := by exact_mod_cast hn'
      rcases le_or_gt 0 v with h0 | h0
      · have := (h.1 h0).1; norm_num at e; linarith
      · have := (h.2 h0).2.1; linarith
    · right
      have e : (2 : ℚ) ^ 63 ≤ n := by exact_mod_cast hn'
      rcases le_or_gt 0 v with h0 | h0
      · have := (h.1 h0).2.1; linarith
      · have := (h.2 h0).1; norm_num at e; linarith

example : Int128.ofFloat (-5 / 2) = .ok ⟨0, -2⟩ ∧ Int128.ofFloat (2 ^ 63) = .ub .overflow := by decide +kernel

end Eirin.Props
