import Verif.Props.ParseAll

/-! # Property C120: text of `std::format` read by the parsers, on every layout -/

namespace Eirin.Props
open Spec

/-- A formatted number is a numeral for the parsers. -/
theorem format_numeral {st : FmtState} {neg : Bool} {n : Nat} {q : ℚ} {out : List Char} (hsg : st.sign = '-') (h : IsDecimalOf st neg n q out) :
    ∃ is fs, out = numeral neg is fs ∧ Decimal is ∧ Decimal (fracDigits fs) ∧ digitsVal 10 is = n ∧ (fracDigits fs).length ≤ effPrec st ∧
      fracVal 10 (fracDigits fs) ≤ q ∧ q < fracVal 10 (fracDigits fs) + 1 / 10 ^ effPrec st := by
  obtain ⟨ds, e, hd⟩ := h
  obtain ⟨d1, d2, d3, d4⟩ := isDecimal_frac hd
  obtain ⟨is, ei, hi, -, hv⟩ := natText_spec (show 2 ≤ 10 by norm_num) false n
  have hfd : fracDigits (if q = 0 ∧ ds = [] then none else some ds) = ds := by
    by_cases h0 : q = 0 ∧ ds = []
    · rw [if_pos h0, h0.2]; rfl
    · rw [if_neg h0]; rfl
  refine ⟨is, if q = 0 ∧ ds = [] then none else some ds, ?_, hi, by rw [hfd]; exact d1, hv, by rw [hfd]; exact d2, by rw [hfd]; exact d3,
    by rw [hfd]; exact d4⟩
  rw [e, ei, hsg]
  unfold numeral signText
  have e1 : (if neg = true then ['-'] else if ('-' : Char) = '+' then ['+'] else if ('-' : Char) = ' ' then [' '] else []) =
      (if neg = true then ['-'] else []) := by cases neg <;> simp
  rw [List.append_assoc, e1]
  by_cases h0 : q = 0 ∧ ds = []
  · rw [if_pos h0, if_pos h0]
  · rw [if_neg h0, if_neg h0]

/-- C120 as stated, for a layout: what `std::format` writes with precision `p` parses back to the value, up to `10^-p` and 11 ulp. -/
def C120_statement (F : FxTy) : Prop :=
  ∀ (st : FmtState) (x old : Int), Storable F x → st.type ∈ ['g', 'G', 'f', 'F'] → st.width ≤ 0 → st.sign = '-' →
    effPrec st ≤ interDigits F →
    ∃ s y, formatTo F st x = .ok s ∧ parseDetail F s old = .ok (true, y) ∧ |val F x - val F y| < 1 / 10 ^ effPrec st + 11 * ulp F

/-- C120: on every signed layout of 32 or 64 bits that can be printed, for non-negative values and negative integers the formatted text
(with at most `interDigits F` decimals) is accepted by both parsers and gives a number of the same sign, not above the value in magnitude
and less than `10^-p` plus eleven ulp below it; integers come back exactly.  Full statement: `C120_statement`; missing are the negative
non-integers, where it fails (`C120_negative`). -/
theorem C120_round_trip_partial (F : FxTy) (h : SW F) (hfit : Storable F (10 * 2 ^ F.f)) (st : FmtState) (x old : Int) (hx : Storable F x)
    (ht : st.type ∈ ['g', 'G', 'f', 'F']) (hw : st.width ≤ 0) (hsg : st.sign = '-') (hp : effPrec st ≤ interDigits F)
    (hcase : 0 ≤ x ∨ (Integral F x ∧ Storable F (x - 2 ^ F.f))) :
    ∃ s y, formatTo F st x = .ok s ∧ parseDetail F s old = .ok (true, y) ∧ fixedFromCstring F s old = .ok (true, y) ∧
      |val F y| ≤ |val F x| ∧ |val F x| < |val F y| + 1 / 10 ^ effPrec st + 11 * ulp F ∧ 0 ≤ y * x ∧ (Integral F x → y = x) := by
  obtain ⟨out, ho, hdec⟩ := C55_decimal_partial h.valid h.2 h.one hfit st x hx ht hw hcase
  obtain ⟨is, fs, rfl, hi, d1, hv, d2, d3, d4⟩ := format_numeral hsg hdec
  have hq : (0 : ℚ) < 2 ^ F.f := by positivity
  have hav := abs_val_raw F x
  have hsum : |val F x| = (digitsVal 10 is : ℚ) + fracMag F x := by unfold fracMag; rw [hv]; ring
  have hmag1 : numeralMag is fs ≤ |val F x| := by unfold numeralMag; rw [hsum]; linarith
  have hmag2 : |val F x| < numeralMag is fs + 1 / 10 ^ effPrec st := by unfold numeralMag; rw [hsum]; linarith
  have hxhi : |x| ≤ F.T.hi := by
    have := h.lo_hi
    have hdp := SW.dpos (F := F)
    obtain ⟨a, b⟩ := hx
    rw [abs_le]
    rcases hcase with c | ⟨-, c⟩
    · omega
    · have := c.1; omega
  have hlt : numeralMag is fs < 2 ^ (F.T.bits - 1 - F.f) := by
    refine lt_of_le_of_lt hmag1 ?_
    rw [hav, div_lt_iff₀ hq]
    have h1 := hi_succ h
    have h2 : |x| < 2 ^ (F.T.bits - 1 - F.f) * 2 ^ F.f := by omega
    exact_mod_cast h2
  obtain ⟨m, p1, p2, -, p3, p4, p5⟩ := C118_value F h (decide (x < 0)) is fs hi d1 hlt (Or.inl (by omega)) old
  have hm0 : 0 ≤ val F m := by unfold val; positivity
  have habs : |val F (if decide (x < 0) = true then -(m : Int) else m)| = val F m := by
    split
    · rw [val_neg, abs_neg, abs_of_nonneg hm0]
    · rw [abs_of_nonneg hm0]
  refine ⟨_, if decide (x < 0) = true then -(m : Int) else m, ho, p1, p2, ?_, ?_, ?_, ?_⟩
  · rw [habs]; linarith
  · rw [habs]; linarith
  · have q0 : (0 : Int) ≤ m := by positivity
    by_cases h0 : x < 0
    · rw [if_pos (by simpa using h0)]; exact mul_nonneg_of_nonpos_of_nonpos (by omega) (by omega)
    · rw [if_neg (by simpa using h0)]; exact mul_nonneg q0 (by omega)
  · rintro hint
    have hf0 : fracMag F x = 0 := by
      obtain ⟨z, hz⟩ := hint
      unfold fracMag
      rw [hz, ← Int.cast_abs]
      have : ((|z| : Int) : ℚ) = ((z.natAbs : Nat) : ℚ) := by rw [Nat.cast_natAbs]
      rw [this, Nat.floor_natCast]; ring
    have hz0 : fracVal 10 (fracDigits fs) = 0 := le_antisymm (by rw [← hf0]; exact d3) (fracVal_nonneg _)
    have h6 := p5 hz0
    unfold numeralMag at h6
    rw [hz0, add_zero, ← add_zero ((digitsVal 10 is : Nat) : ℚ), ← hf0, ← hsum, hav] at h6
    unfold val at h6
    rw [div_left_inj' hq.ne'] at h6
    have h7 : (m : Int) = |x| := by exact_mod_cast h6
    rw [h7]
    by_cases h0 : x < 0
    · rw [if_pos (by simpa using h0), abs_of_neg h0, neg_neg]
    · rw [if_neg (by simpa using h0), abs_of_nonneg (by omega)]

example : SW ⟨i64, i128, 53, false⟩ ∧ formatTo ⟨i64, i128, 53, false⟩ { type := 'f', precision := 5 } (3 * 2 ^ 51) = .ok "0.75000".toList ∧
    parseDetail ⟨i64, i128, 53, false⟩ "0.75000".toList 0 = .ok (true, 3 * 2 ^ 51) := by
  exact ⟨⟨by decide, by decide, by decide +kernel⟩, by decide +kernel, by decide +kernel⟩

/-- C120: for a negative non-integer (not within one of the minimum) the parsers accept the text, but read a magnitude that is one too
large, at any precision. -/
theorem C120_negative (F : FxTy) (h : SW F) (hfit : Storable F (10 * 2 ^ F.f)) (st : FmtState) (x old : Int)
    (hx : Storable F x) (ht : st.type ∈ ['g', 'G', 'f', 'F']) (hw : st.width ≤ 0) (hsg : st.sign = '-') (hp : effPrec st ≤ interDigits F)
    (h0 : x < 0) (hint : ¬ Integral F x) (hlo : Storable F (x - 2 ^ F.f)) :
    ∃ s y, formatTo F st x = .ok s ∧ parseDetail F s old = .ok (true, y) ∧ fixedFromCstring F s old = .ok (true, y) ∧
      val F x - 1 ≤ val F y ∧ val F y < val F x - 1 + 1 / 10 ^ effPrec st + 11 * ulp F := by
  obtain ⟨out, ho, hdec⟩ := C55_negative h.valid h.2 h.one hfit st x hx ht hw h0 hlo
  obtain ⟨is, fs, rfl, hi, d1, hv, d2, d3, d4⟩ := format_numeral hsg hdec
  have hq : (0 : ℚ) < 2 ^ F.f := by positivity
  have hvx : val F x < 0 := by rw [← val_zero F, val_lt]; exact h0
  have hce : (⌈|val F x|⌉₊ : ℚ) = ⌊|val F x|⌋₊ + 1 := by
    have : ⌈|val F x|⌉₊ = ⌊|val F x|⌋₊ + 1 := by
      refine le_antisymm (Nat.ceil_le_floor_add_one _) ?_
      by_contra hc
      have h1 : ⌈|val F x|⌉₊ ≤ ⌊|val F x|⌋₊ := by omega
      have h2 := Nat.le_ceil |val F x|
      have h3 := Nat.floor_le (abs_nonneg (val F x))
      have h4 : (⌈|val F x|⌉₊ : ℚ) ≤ ⌊|val F x|⌋₊ := by exact_mod_cast h1
      have h5 : |val F x| = (⌊|val F x|⌋₊ : ℚ) := le_antisymm (by linarith) h3
      refine hint ⟨-(⌊|val F x|⌋₊ : Int), ?_⟩
      rw [abs_of_neg hvx] at h5 ⊢
      push_cast; linarith
    rw [this]; push_cast; rfl
  have hsum : |val F x| + 1 = (digitsVal 10 is : ℚ) + fracMag F x := by unfold fracMag; rw [hv, hce]; ring
  rw [abs_of_neg hvx] at hsum
  have hmag1 : numeralMag is fs ≤ -val F x + 1 := by unfold numeralMag; rw [hsum]; linarith
  have hmag2 : -val F x + 1 < numeralMag is fs + 1 / 10 ^ effPrec st := by unfold numeralMag; rw [hsum]; linarith
  have hlt : numeralMag is fs < 2 ^ (F.T.bits - 1 - F.f) := by
    have h1 := hi_succ h
    have h2 := hlo.1
    have h3 := h.lo_hi
    have h4 : val F (x - 2 ^ F.f) = val F x - 1 := by
      unfold val; push_cast; rw [sub_div, div_self hq.ne']
    have h5 : (-(2 ^ (F.T.bits - 1 - F.f)) : ℚ) ≤ val F x - 1 := by
      rw [← h4]; unfold val
      rw [le_div_iff₀ hq]
      have : -((2 : Int) ^ (F.T.bits - 1 - F.f)) * 2 ^ F.f ≤ x - 2 ^ F.f := by rw [neg_mul, ← h1]; omega
      exact_mod_cast this
    refine lt_of_le_of_ne (by linarith) ?_
    intro hc
    refine hint ⟨1 - 2 ^ (F.T.bits - 1 - F.f), ?_⟩
    push_cast; linarith
  obtain ⟨m, p1, p2, -, p3, p4, p5⟩ := C118_value F h true is fs hi d1 hlt (Or.inl (by omega)) old
  rw [if_pos rfl] at p1 p2
  refine ⟨_, _, ho, p1, p2, ?_, ?_⟩
  · rw [val_neg]; linarith
  · rw [val_neg]; linarith

example : formatTo fixed32 {} (-98304) = .ok "-2.5".toList ∧ parseDetail fixed32 "-2.5".toList 0 = .ok (true, -163840) := by decide +kernel

/-- So C120 is false of the code, on every layout with at least five fraction bits: minus one ulp is read back one too low. -/
theorem C120_false (F : FxTy) (h : SW F) (hfit : Storable F (10 * 2 ^ F.f)) (h5 : 5 ≤ F.f) : ¬ C120_statement F := by
  intro hs
  have h32 : (2 : Int) ^ 5 ≤ 2 ^ F.f := pow_le_pow_right₀ (by norm_num) h5
  have hb := h.lo_hi
  have h9 := hfit.2
  have e6 : effPrec {} = 6 := by decide
  have hp : effPrec {} ≤ interDigits F := by rw [e6]; unfold interDigits; split <;> norm_num
  have hx : Storable F (-1) := ⟨by omega, by omega⟩
  have hint : ¬ Integral F (-1) := by
    rintro ⟨z, hz⟩
    unfold val at hz
    rw [div_eq_iff (by positivity)] at hz
    have h1 : (-1 : Int) = z * 2 ^ F.f := by exact_mod_cast hz
    have h2 : (2 : Int) ^ F.f ∣ 1 := ⟨-z, by linarith⟩
    have := Int.le_of_dvd one_pos h2
    omega
  obtain ⟨s, y, a1, a2, -, a4, a5⟩ := C120_negative F h hfit {} (-1) 0 hx (by decide) (by decide) (by decide) hp (by norm_num) hint
    ⟨by omega, by omega⟩
  obtain ⟨s', y', b1, b2, b3⟩ := hs {} (-1) 0 hx (by decide) (by decide) (by decide) hp
  rw [a1] at b1
  cases b1
  rw [a2] at b2
  cases b2
  rw [abs_lt, e6] at b3
  rw [e6] at a5
  have hu : ulp F ≤ 1 / 32 := by
    unfold ulp
    have : (32 : ℚ) ≤ 2 ^ F.f := by exact_mod_cast h32
    exact one_div_le_one_div_of_le (by norm_num) this
  norm_num at a5 b3
  linarith [b3.2]

example : SW ⟨i64, i128, 53, false⟩ ∧ Storable ⟨i64, i128, 53, false⟩ (10 * 2 ^ 53) := ⟨⟨by decide, by decide, by decide +kernel⟩, by decide +kernel⟩

/-- C120: on every such layout, with type `g` or `G` and a precision of at least the number of fraction bits, `std::format` of a non-negative
value writes the text of `operator<<`. -/
theorem C120_same_text (F : FxTy) (h : SW F) (hfit : Storable F (10 * 2 ^ F.f)) (st : FmtState) (x : Int) (hx : Storable F x)
    (ht : st.type ∈ ['g', 'G']) (hw : st.width ≤ 0) (hsg : st.sign = '-') (hp : F.f ≤ effPrec st) (h0 : 0 ≤ x) (oct up : Bool) :
    ∃ s, formatTo F st x = .ok s ∧ streamOut F x false true oct up = .ok s :=
  same_text h hfit st x hx ht hw hsg hp h0 oct up

example : formatTo ⟨i64, i128, 40, false⟩ { precision := 40 } (5 * 2 ^ 38) = .ok "1.25".toList ∧
    streamOut ⟨i64, i128, 40, false⟩ (5 * 2 ^ 38) false true false false = .ok "1.25".toList := by decide +kernel

end Eirin.Props
