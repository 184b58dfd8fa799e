import Verif.Props.FormatAll
import Verif.Props.FormatNarrow
import Verif.Props.ParseUnsigned
import Verif.Props.ParseNarrow

/-! # C169: text of `std::format` read by the parsers, on unsigned and narrow layouts -/

namespace Eirin.Props
open Spec

/-- Number of decimals the parsers can take in with the intermediate type. -/
def backDigits (F : FxTy) : Nat := if F.T.bits < 32 then interDigitsN F else interDigitsU F

/-- C169 as stated, for a layout: what `std::format` writes with precision `p` parses back to the value, up to `10^-p` and 11 ulp. -/
def C169_statement (F : FxTy) : Prop :=
  ∀ (st : FmtState) (x old : Int), Storable F x → st.type ∈ ['g', 'G', 'f', 'F'] → st.width ≤ 0 → st.sign = '-' →
    effPrec st ≤ backDigits F →
    ∃ s y, formatTo F st x = .ok s ∧ parseDetail F s old = .ok (true, y) ∧ |val F x - val F y| < 1 / 10 ^ effPrec st + 11 * ulp F

/-- C169 is false of the code: with 16-bit storage and 8 fraction bits `-1/2` is written `-1.5`. -/
theorem C169_false : ¬ C169_statement ⟨i16, i32, 8, false⟩ := by
  intro h
  obtain ⟨s, y, h1, h2, h3⟩ := h {} (-128) 0 (by decide) (by decide) (by decide) (by decide) (by decide)
  have e1 : formatTo ⟨i16, i32, 8, false⟩ {} (-128) = .ok "-1.5".toList := by decide +kernel
  rw [e1] at h1; cases h1
  have e2 : parseDetail ⟨i16, i32, 8, false⟩ "-1.5".toList 0 = .ok (true, -384) := by decide +kernel
  rw [e2] at h2; cases h2
  have e3 : effPrec {} = 6 := by decide
  rw [e3] at h3
  norm_num [val, ulp] at h3

/-- What the two families share: a non-negative number, or a negative integer other than the minimum. -/
theorem back_numeral {F : FxTy} (hF : F.Valid) (hs : ¬ SignedWide F) (hfit : Storable F (10 * 2 ^ F.f)) (st : FmtState) (x : Int) (hx : Storable F x)
    (ht : st.type ∈ ['g', 'G', 'f', 'F']) (hw : st.width ≤ 0) (hsg : st.sign = '-') (hcase : 0 ≤ x ∨ (Integral F x ∧ x ≠ F.T.lo)) :
    ∃ is fs, formatTo F st x = .ok (numeral (decide (x < 0)) is fs) ∧ Decimal is ∧ Decimal (fracDigits fs) ∧ (fracDigits fs).length ≤ effPrec st ∧
      numeralMag is fs ≤ |val F x| ∧ |val F x| < numeralMag is fs + 1 / 10 ^ effPrec st ∧ numeralMag is fs < val F (F.T.hi + 1) ∧
      (Integral F x → fracVal 10 (fracDigits fs) = 0 ∧ numeralMag is fs = |val F x|) := by
  obtain ⟨out, ho, hdec⟩ := C153_decimal_partial hF hs hfit st x hx ht hw
  have hfl : (if x < 0 then ⌈|val F x|⌉₊ else ⌊|val F x|⌋₊) = ⌊|val F x|⌋₊ := by
    split
    · rename_i h0
      rcases hcase with c | ⟨⟨z, hz⟩, -⟩
      · omega
      · rw [hz, ← Int.cast_abs]
        have : ((|z| : Int) : ℚ) = ((z.natAbs : Nat) : ℚ) := by rw [Nat.cast_natAbs]
        rw [this, Nat.floor_natCast, Nat.ceil_natCast]
    · rfl
  rw [hfl] at hdec
  obtain ⟨is, fs, rfl, hi, d1, hv, d2, d3, d4⟩ := format_numeral hsg hdec
  have hsum : |val F x| = (digitsVal 10 is : ℚ) + fracMag F x := by unfold fracMag; rw [hv]; ring
  have hmag1 : numeralMag is fs ≤ |val F x| := by unfold numeralMag; rw [hsum]; linarith
  have hmag2 : |val F x| < numeralMag is fs + 1 / 10 ^ effPrec st := by unfold numeralMag; rw [hsum]; linarith
  have hxhi : |x| ≤ F.T.hi := by
    obtain ⟨a, b⟩ := hx
    rw [abs_le]
    rcases hcase with c | ⟨-, c⟩
    · omega
    · rcases hsg' : F.T.signed with _ | _
      · have : F.T.lo = 0 := by unfold IntTy.lo; simp [hsg']
        omega
      · have e1 : F.T.lo = -2 ^ (F.T.bits - 1) := by unfold IntTy.lo; simp [hsg']
        have e2 : F.T.hi = 2 ^ (F.T.bits - 1) - 1 := by unfold IntTy.hi; simp [hsg']
        omega
  refine ⟨is, fs, ho, hi, d1, d2, hmag1, hmag2, ?_, fun hint => ?_⟩
  · refine lt_of_le_of_lt hmag1 ?_
    rw [show |val F x| = val F |x| by unfold val; rw [abs_div, abs_of_pos (by positivity : (0 : ℚ) < 2 ^ F.f), Int.cast_abs], val_lt]
    omega
  · have hf0 : fracMag F x = 0 := by
      obtain ⟨z, hz⟩ := hint
      unfold fracMag
      rw [hz, ← Int.cast_abs]
      have : ((|z| : Int) : ℚ) = ((z.natAbs : Nat) : ℚ) := by rw [Nat.cast_natAbs]
      rw [this, Nat.floor_natCast]; ring
    have hz0 : fracVal 10 (fracDigits fs) = 0 := le_antisymm (by rw [← hf0]; exact d3) (fracVal_nonneg _)
    refine ⟨hz0, ?_⟩
    unfold numeralMag
    rw [hz0, hsum, hf0]

/-- C169 on unsigned layouts: every number formatted with at most `backDigits F` decimals is accepted by both parsers and comes back not above
itself and less than `10^-p` and eleven ulp below; integers come back exactly.  No exception.
Full statement: `C169_statement`; it is false on signed layouts only. -/
theorem C169_unsigned_partial (F : FxTy) (hF : F.Valid) (hu : UnsignedWide F) (hfit : Storable F (10 * 2 ^ F.f)) (st : FmtState) (x old : Int)
    (hx : Storable F x) (ht : st.type ∈ ['g', 'G', 'f', 'F']) (hw : st.width ≤ 0) (hsg : st.sign = '-') (hp : effPrec st ≤ interDigitsU F) :
    ∃ s y, formatTo F st x = .ok s ∧ parseDetail F s old = .ok (true, y) ∧ fixedFromCstring F s old = .ok (true, y) ∧
      val F y ≤ val F x ∧ val F x < val F y + 1 / 10 ^ effPrec st + 11 * ulp F ∧ (Integral F x → y = x) := by
  have hs : ¬ SignedWide F := fun h => by have := h.1; rw [hu.1] at this; cases this
  have hx0 : 0 ≤ x := by
    have := hx.1
    have e : F.T.lo = 0 := by unfold IntTy.lo; simp [hu.1]
    omega
  have v0 : 0 ≤ val F x := by rw [← val_zero F, val_le]; exact hx0
  obtain ⟨is, fs, ho, hi, d1, d2, m1, m2, m3, m4⟩ := back_numeral hF hs hfit st x hx ht hw hsg (Or.inl hx0)
  have eh : val F (F.T.hi + 1) = 2 ^ (F.T.bits - F.f) := by
    have e : F.T.hi = 2 ^ F.T.bits - 1 := by unfold IntTy.hi; simp [hu.1]
    have hf := hF.flt
    rw [e, show (2 : Int) ^ F.T.bits - 1 + 1 = 2 ^ (F.T.bits - F.f) * 2 ^ F.f by
      rw [← pow_add, show F.T.bits - F.f + F.f = F.T.bits by omega]; ring, val_int]
    push_cast; rfl
  rw [eh] at m3
  rw [abs_of_nonneg v0] at m1 m2 m4
  obtain ⟨m, p1, p2, p3, p4, p5⟩ := C122_value_partial F hF hu is fs hi d1 (Or.inl (by omega)) m3 old
  have q := p1 (decide (x < 0))
  rw [if_neg (by simp; omega)] at q
  refine ⟨_, m, ho, q.1, q.2, by linarith, by linarith, fun hint => ?_⟩
  obtain ⟨z0, z1⟩ := m4 hint
  exact val_inj ((p5 z0).trans z1)
example : UnsignedWide ⟨u32, u64, 16, false⟩ ∧ formatTo ⟨u32, u64, 16, false⟩ { type := 'f', precision := 2 } 4294967295 = .ok "65535.99".toList ∧
    parseDetail ⟨u32, u64, 16, false⟩ "65535.99".toList 0 = .ok (true, 4294966640) := ⟨by unfold UnsignedWide; decide, by decide +kernel, by decide +kernel⟩

/-- C169 on layouts narrower than `int`: the same for non-negative numbers and negative integers other than the minimum.
Full statement: `C169_statement`; missing (false) are the negative non-integers and the minimum. -/
theorem C169_narrow_partial (F : FxTy) (hF : F.Valid) (hn : Narrow F) (hfit : Storable F (10 * 2 ^ F.f)) (st : FmtState) (x old : Int)
    (hx : Storable F x) (ht : st.type ∈ ['g', 'G', 'f', 'F']) (hw : st.width ≤ 0) (hsg : st.sign = '-') (hp : effPrec st ≤ interDigitsN F)
    (hcase : 0 ≤ x ∨ (Integral F x ∧ x ≠ F.T.lo)) :
    ∃ s y, formatTo F st x = .ok s ∧ parseDetail F s old = .ok (true, y) ∧ fixedFromCstring F s old = .ok (true, y) ∧
      |val F y| ≤ |val F x| ∧ |val F x| < |val F y| + 1 / 10 ^ effPrec st + 11 * ulp F ∧ 0 ≤ y * x ∧ (Integral F x → y = x) := by
  have hs : ¬ SignedWide F := fun h => by have := h.2; rcases hn with h | h <;> omega
  obtain ⟨is, fs, ho, hi, d1, d2, m1, m2, m3, m4⟩ := back_numeral hF hs hfit st x hx ht hw hsg hcase
  obtain ⟨m, y, p1, p2, p3, -, -, -, p5, p6, p7⟩ := C147_value_partial F hF hn (decide (x < 0)) is fs hi d1 m3 (Or.inl (by omega)) old
  have hsgn : F.T.signed = true ∨ decide (x < 0) = false ∨ m = 0 := by
    by_cases h0 : x < 0
    · left
      by_contra hc
      have : F.T.lo = 0 := by unfold IntTy.lo; simp [hc]
      have := hx.1
      omega
    · right; left; simpa using h0
  have ey := p3 hsgn
  have hm0 : 0 ≤ val F m := by unfold val; positivity
  have habs : |val F y| = val F m := by
    rw [ey]
    split
    · rw [val_neg, abs_neg, abs_of_nonneg hm0]
    · rw [abs_of_nonneg hm0]
  refine ⟨_, y, ho, p1, p2, by rw [habs]; linarith, by rw [habs]; linarith, ?_, fun hint => ?_⟩
  · have q0 : (0 : Int) ≤ m := by positivity
    rw [ey]
    by_cases h0 : x < 0
    · rw [if_pos (by simpa using h0)]; exact mul_nonneg_of_nonpos_of_nonpos (by omega) (by omega)
    · rw [if_neg (by simpa using h0)]; exact mul_nonneg q0 (by omega)
  · obtain ⟨z0, z1⟩ := m4 hint
    have e := (p7 z0).trans z1
    have hx' : |val F x| = val F |x| := by unfold val; rw [abs_div, abs_of_pos (by positivity : (0 : ℚ) < 2 ^ F.f), Int.cast_abs]
    rw [hx'] at e
    have e := val_inj e
    rw [ey, e]
    by_cases h0 : x < 0
    · rw [if_pos (by simpa using h0), abs_of_neg h0, neg_neg]
    · rw [if_neg (by simpa using h0), abs_of_nonneg (by omega)]
example : Narrow ⟨i16, i32, 8, false⟩ ∧ Storable ⟨i16, i32, 8, false⟩ (10 * 2 ^ 8) ∧ formatTo ⟨i16, i32, 8, false⟩ {} 896 = .ok "3.5".toList ∧
    parseDetail ⟨i16, i32, 8, false⟩ "3.5".toList 0 = .ok (true, 896) ∧ formatTo ⟨i16, i32, 8, false⟩ {} (-768) = .ok "-3".toList := by
  exact ⟨Or.inr rfl, by decide, by decide +kernel, by decide +kernel, by decide +kernel⟩

/-- C169: a negative non-integer on a narrow layout (not within a unit of the minimum) is read back one too low, at any precision. -/
theorem C169_negative (F : FxTy) (hF : F.Valid) (hn : Narrow F) (hfit : Storable F (10 * 2 ^ F.f)) (st : FmtState) (x old : Int)
    (hx : Storable F x) (ht : st.type ∈ ['g', 'G', 'f', 'F']) (hw : st.width ≤ 0) (hsg : st.sign = '-') (hp : effPrec st ≤ interDigitsN F)
    (h0 : x < 0) (hint : ¬ Integral F x) (hlo : Storable F (x - 2 ^ F.f)) :
    ∃ s y, formatTo F st x = .ok s ∧ parseDetail F s old = .ok (true, y) ∧ fixedFromCstring F s old = .ok (true, y) ∧
      val F x - 1 ≤ val F y ∧ val F y < val F x - 1 + 1 / 10 ^ effPrec st + 11 * ulp F := by
  have hs : ¬ SignedWide F := fun h => by have := h.2; rcases hn with h | h <;> omega
  obtain ⟨out, ho, hdec⟩ := C153_decimal_partial hF hs hfit st x hx ht hw
  rw [if_pos h0] at hdec
  obtain ⟨is, fs, rfl, hi, d1, hv, d2, d3, d4⟩ := format_numeral hsg hdec
  have hq : (0 : ℚ) < 2 ^ F.f := by positivity
  have hvx : val F x < 0 := by rw [← val_zero F, val_lt]; exact h0
  have hsg' : F.T.signed = true := by
    by_contra hc
    have : F.T.lo = 0 := by unfold IntTy.lo; simp [hc]
    have := hx.1
    omega
  have hce : (⌈|val F x|⌉₊ : ℚ) = ⌊|val F x|⌋₊ + 1 := by
    have : ⌈|val F x|⌉₊ = ⌊|val F x|⌋₊ + 1 := by
      refine le_antisymm (Nat.ceil_le_floor_add_one _) ?_
      by_contra hc
      have h1 : ⌈|val F x|⌉₊ ≤ ⌊|val F x|⌋₊ := by omega
      have h2 := Nat.le_ceil |val F x|
      have h3 := Nat.floor_le (abs_nonneg (val F x))
      have h4 : (⌈|val F x|⌉₊ : ℚ) ≤ ⌊|val F x|⌋₊ := by exact_mod_cast h1
      have h5 : |val F x| = (⌊|val F x|⌋₊ : ℚ) := le_antisymm (by linarith) h3
      refine hint ⟨-(⌊|val F x|⌋₊ : Int), ?_⟩
      rw [abs_of_neg hvx] at h5 ⊢
      push_cast; linarith
    rw [this]; push_cast; rfl
  have hsum : |val F x| + 1 = (digitsVal 10 is : ℚ) + fracMag F x := by unfold fracMag; rw [hv, hce]; ring
  rw [abs_of_neg hvx] at hsum
  have hmag1 : numeralMag is fs ≤ -val F x + 1 := by unfold numeralMag; rw [hsum]; linarith
  have hmag2 : -val F x + 1 < numeralMag is fs + 1 / 10 ^ effPrec st := by unfold numeralMag; rw [hsum]; linarith
  have hlt : numeralMag is fs < val F (F.T.hi + 1) := by
    have e1 : F.T.lo = -2 ^ (F.T.bits - 1) := by unfold IntTy.lo; simp [hsg']
    have e2 : F.T.hi = 2 ^ (F.T.bits - 1) - 1 := by unfold IntTy.hi; simp [hsg']
    have h4 : val F (-(x - 2 ^ F.f)) = -val F x + 1 := by
      rw [val_neg, val_sub]
      have := val_int F 1
      rw [one_mul] at this
      rw [this]; push_cast; ring
    have h5 : -(x - 2 ^ F.f) ≤ F.T.hi + 1 := by have := hlo.1; omega
    refine lt_of_le_of_lt hmag1 (h4 ▸ val_lt.2 (lt_of_le_of_ne h5 ?_))
    intro hc
    refine hint ⟨1 - 2 ^ (F.T.bits - 1 - F.f), ?_⟩
    have h6 := congrArg (val F) hc
    have hf := hF.2.2.2.2.2
    rw [h4, e2, show (2 : Int) ^ (F.T.bits - 1) - 1 + 1 = 2 ^ (F.T.bits - 1 - F.f) * 2 ^ F.f by
      rw [← pow_add, show F.T.bits - 1 - F.f + F.f = F.T.bits - 1 by omega]; ring, val_int] at h6
    push_cast at h6 ⊢; linarith
  obtain ⟨m, y, p1, p2, p3, -, -, -, p5, p6, p7⟩ := C147_value_partial F hF hn true is fs hi d1 hlt (Or.inl (by omega)) old
  have ey := p3 (Or.inl hsg')
  rw [if_pos rfl] at ey
  rw [decide_eq_true h0] at ho
  exact ⟨_, y, ho, p1, p2, by rw [ey, val_neg]; linarith, by rw [ey, val_neg]; linarith⟩
example : Narrow ⟨i16, i32, 8, false⟩ ∧ formatTo ⟨i16, i32, 8, false⟩ {} (-128) = .ok "-1.5".toList ∧
    parseDetail ⟨i16, i32, 8, false⟩ "-1.5".toList 0 = .ok (true, -384) := ⟨Or.inr rfl, by decide +kernel, by decide +kernel⟩

end Eirin.Props
