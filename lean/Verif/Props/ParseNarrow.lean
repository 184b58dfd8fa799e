import Verif.Props.ParseTotal
import Verif.Props.SqrtNarrow

/-! # C147: the string parsers on 8- and 16-bit layouts -/

namespace Eirin.Props
open Eirin Spec

/-- The intermediate types of the narrow layouts. -/
theorem narrow_inter {F : FxTy} (h : F.Valid) (hn : Narrow F) :
    (F.T.bits = 8 ∧ F.I.bits = 16 ∨ (F.T.bits = 8 ∨ F.T.bits = 16) ∧ (F.I.bits = 32 ∨ F.I.bits = 64 ∨ F.I.bits = 128)) ∧ F.I.signed = F.T.signed := by
  obtain ⟨v1, v2, v3, v4, -⟩ := h
  rcases hn with e | e <;> rw [e] at v3 ⊢ <;> exact ⟨by omega, v4⟩

theorem inter_wg {F : FxTy} (h : F.Valid) : WG F.I := by
  obtain ⟨-, v2, -⟩ := h
  obtain ⟨T, ⟨J, s⟩, f, r⟩ := F
  simp only at v2 ⊢
  have key : ∀ (W V : IntTy), 0 < W.bits → W.lo ≤ 0 → W.bits ≤ W.promote.bits → (W.common i32).lo ≤ W.lo → W.hi ≤ (W.common i32).hi →
      W.promote.lo ≤ W.lo → W.hi ≤ W.promote.hi → 0 < (W.common i32).bits → WG W :=
    fun W _ a b c d e f g i => ⟨a, b, c, fun n hn => ⟨d.trans hn.1, hn.2.trans e⟩, fun n hn => ⟨f.trans hn.1, hn.2.trans g⟩, i⟩
  rcases v2 with rfl | rfl | rfl | rfl <;> cases s <;> exact key _ i32 (by decide) (by decide) (by decide +kernel) (by decide +kernel) (by decide +kernel)
    (by decide +kernel) (by decide +kernel) (by decide +kernel)

/-- What is stored for a sign and a magnitude. -/
def parsedN (F : FxTy) (neg : Bool) (raw : Nat) (old : Int) : Res (Bool × Int) :=
  .ok (if (raw : Int) ≤ F.T.hi then (true, F.T.wrap (if neg then -(raw : Int) else raw)) else (false, old))

theorem narrow_rng {F : FxTy} (hn : Narrow F) : F.T.promote = ⟨32, true⟩ ∧ F.T.hi ≤ 65535 ∧ F.T.lo ≤ 0 ∧ -32768 ≤ F.T.lo ∧ 127 ≤ F.T.hi := by
  refine ⟨by unfold IntTy.promote; rw [if_pos (by omega)], ?_⟩
  unfold IntTy.lo IntTy.hi
  rcases hn with e | e <;> rw [e] <;> split <;> norm_num

theorem narrow_ends {F : FxTy} (h : F.Valid) (hn : Narrow F) :
    F.I.wrap F.T.hi = F.T.hi ∧ F.I.wrap F.T.lo = F.T.lo ∧ F.T.hi + 1 ≤ F.I.hi ∧ F.f < F.I.bits ∧ (((2 ^ F.f + 8) * 2 ^ F.f : Nat) : Int) ≤ F.I.hi := by
  obtain ⟨hi, hs⟩ := narrow_inter h hn
  obtain ⟨-, -, hw, -, -, hf⟩ := h
  obtain ⟨⟨B, s⟩, ⟨J, s'⟩, f, r⟩ := F
  simp only at hi hs hf hw ⊢
  subst hs
  have hp : ∀ k : Nat, f ≤ k → ∀ H : Int, (((2 ^ k + 8) * 2 ^ k : Nat) : Int) ≤ H → (((2 ^ f + 8) * 2 ^ f : Nat) : Int) ≤ H := by
    intro k hk H hH
    refine le_trans ?_ hH
    have h4 : 2 ^ f ≤ 2 ^ k := Nat.pow_le_pow_right (by norm_num) hk
    exact_mod_cast Nat.mul_le_mul (by omega) h4
  have key : ∀ B J : Nat, (B = 8 ∧ J = 16 ∨ (B = 8 ∨ B = 16) ∧ (J = 32 ∨ J = 64 ∨ J = 128)) → ∀ s : Bool,
      (⟨J, s⟩ : IntTy).wrap (⟨B, s⟩ : IntTy).hi = (⟨B, s⟩ : IntTy).hi ∧ (⟨J, s⟩ : IntTy).wrap (⟨B, s⟩ : IntTy).lo = (⟨B, s⟩ : IntTy).lo ∧
      (⟨B, s⟩ : IntTy).hi + 1 ≤ (⟨J, s⟩ : IntTy).hi ∧ (((2 ^ (B - 1) + 8) * 2 ^ (B - 1) : Nat) : Int) ≤ (⟨J, s⟩ : IntTy).hi := by
    intro B J hBJ s
    rcases hBJ with ⟨rfl, rfl⟩ | ⟨rfl | rfl, rfl | rfl | rfl⟩ <;> cases s <;> decide +kernel
  obtain ⟨a, b, c, d⟩ := key B J hi s'
  exact ⟨a, b, c, by omega, hp _ hf _ d⟩

theorem storeParsed_narrow {F : FxTy} (h : F.Valid) (hn : Narrow F) (neg : Bool) (raw : Nat) (old : Int) :
    storeParsed F neg raw old = parsedN F neg raw old := by
  obtain ⟨a, b, -, -, -⟩ := narrow_ends h hn
  obtain ⟨hp, r1, r2, r3, -⟩ := narrow_rng hn
  unfold storeParsed parsedN
  rw [a, b]
  by_cases hc : (raw : Int) ≤ F.T.hi
  · have hin : F.T.InRange raw := ⟨by omega, hc⟩
    rw [if_neg (by omega), if_pos hc]
    have e : fromInternal F raw = raw := IntTy.wrap_of_inRange h.tpos hin
    rw [e]
    cases neg
    · rw [if_neg (by simp), if_neg (by simp), IntTy.wrap_of_inRange h.tpos hin]; rfl
    · rw [if_pos rfl, if_pos rfl, neg_nf h hin, if_neg (by rintro ⟨hs, -⟩; have := hs.2; omega), Res.bind_ok]; rfl
  · rw [if_pos (Or.inl (by omega)), if_neg hc]

theorem narrow_pg {F : FxTy} (h : F.Valid) (hn : Narrow F) : PG F (parsedN F) := by
  obtain ⟨-, -, -, fb, fits⟩ := narrow_ends h hn
  obtain ⟨hp, r1, r2, r3, -⟩ := narrow_rng hn
  have hf := h.2.2.2.2.2
  have p15 : (2 : Int) ^ F.f ≤ 2 ^ 15 := pow_le_pow_right₀ (by norm_num) (by omega)
  have p0 : (0 : Int) < 2 ^ F.f := by positivity
  norm_num at p15
  refine ⟨inter_wg h, fb, by rw [cutLim_cast]; rfl, ?_, le_trans ?_ fits, fun neg raw old _ => storeParsed_narrow h hn neg raw old⟩
  · have hone : oneShl F = 2 ^ F.f := by
      show F.T.promote.wrap _ = _
      rw [hp, IntTy.wrap_of_inRange (by norm_num) (int32_in (by omega) (by omega))]
    have hc : IntTy.common F.P i32 = ⟨32, true⟩ := by show IntTy.common F.T.promote i32 = _; rw [hp]; rfl
    have ha : arith F.P (2 ^ F.f - 1) = .ok (2 ^ F.f - 1) := by
      show arith F.T.promote _ = _
      rw [hp]; exact arith_of_inRange (by norm_num) (int32_in (by omega) (by omega))
    unfold limGeneric
    rw [hone, ha, Res.bind_ok, hc, IntTy.wrap_of_inRange (by norm_num) (int32_in (by omega) (by omega)), cutLim_cast]
    unfold cdiv
    have e : (2 ^ F.f - 1 : Int).tdiv 10 = (2 ^ F.f - 1) / 10 := tdiv_eq_ediv (by omega)
    rw [if_neg (by norm_num), e, if_neg (by rintro ⟨-, hh⟩; exact hh (int32_in (by omega) (by omega)))]
  · have h1 : cutLim F * 10 + 9 ≤ 2 ^ F.f + 8 := by
      unfold cutLim
      have := Nat.one_le_two_pow (n := F.f)
      omega
    exact_mod_cast Nat.mul_le_mul_right _ h1

/-- Number of decimal digits that always fit the intermediate type. -/
def interDigitsN (F : FxTy) : Nat := if F.I.bits = 16 then 4 else if F.I.bits = 32 then 9 else if F.I.bits = 64 then 18 else 38

/-- The fraction is short enough for the decimal divisor of the parser, or large enough for the precision cut-off to come first. -/
def FracFitsN (F : FxTy) (ds : List Nat) : Prop := ds.length ≤ interDigitsN F ∨ (2 ^ F.f + 9 : ℚ) / 10 ^ (interDigitsN F + 1) ≤ fracVal 10 ds

theorem inter_tenN {F : FxTy} (h : F.Valid) : ((10 ^ interDigitsN F : Nat) : Int) ≤ F.I.hi ∧ 1 ≤ interDigitsN F := by
  obtain ⟨-, v2, -⟩ := h
  obtain ⟨T, ⟨J, s⟩, f, r⟩ := F
  unfold interDigitsN
  simp only at v2 ⊢
  rcases v2 with rfl | rfl | rfl | rfl <;> cases s <;> norm_num [IntTy.hi]

theorem parse_narrow {F : FxTy} (h : F.Valid) (hn : Narrow F) (neg : Bool) (is : List Nat) (fs : Option (List Nat))
    (his : Decimal is) (hfs : Decimal (fracDigits fs)) (hip : ((digitsVal 10 is + 1) * 2 ^ F.f : Int) ≤ F.I.hi)
    (hlen : FracFitsN F (fracDigits fs)) (old : Int) :
    ∃ raw, RawC F 10 is fs raw ∧ parseDetail F (numeral neg is fs) old = parsedN F neg raw old ∧
      fixedFromCstring F (numeral neg is fs) old = parsedN F neg raw old := by
  obtain ⟨h1, h2⟩ := inter_tenN h
  have e : interDigitsN F - 1 + 1 = interDigitsN F := by omega
  refine parse_numeral_g (narrow_pg h hn) (tail_any F) neg his hfs (by exact_mod_cast hip) (interDigitsN F - 1) (by rw [e]; exact h1) ?_ old
  rw [e]
  refine hlen.imp id (fun h3 => le_trans ?_ h3)
  have h4 : cutLim F * 10 + 10 ≤ 2 ^ F.f + 9 := by
    unfold cutLim
    have := Nat.one_le_two_pow (n := F.f)
    omega
  have h5 : (cutLim F : ℚ) * 10 + 10 ≤ 2 ^ F.f + 9 := by exact_mod_cast h4
  rw [pow_succ, div_le_div_iff₀ (by positivity) (by positivity)]
  push_cast
  have h6 : (0 : ℚ) < 10 ^ interDigitsN F := by positivity
  calc ((cutLim F : ℚ) + 1) * (10 ^ interDigitsN F * 10) = (cutLim F * 10 + 10) * 10 ^ interDigitsN F := by ring
    _ ≤ _ := mul_le_mul_of_nonneg_right h5 h6.le

/-- The bound of the type is a whole number. -/
theorem hi_succ_v {F : FxTy} (h : F.Valid) : F.T.hi + 1 = ((2 ^ (vbits F.T - F.f) * 2 ^ F.f : Nat) : Int) := by
  have hf : F.f ≤ vbits F.T := by
    have := h.2.2.2.2.2
    unfold vbits; split <;> omega
  rw [hi_vbits, ← pow_add]
  push_cast
  congr 1; omega

/-- The stored magnitude fits exactly when the numeral is below the bound of the type. -/
theorem raw_fits_v {F : FxTy} (h : F.Valid) {is : List Nat} {fs : Option (List Nat)} (hfs : Decimal (fracDigits fs)) {raw : Nat}
    {c : ℚ} (hr : RawC F c is fs raw) : (raw : Int) ≤ F.T.hi ↔ digitsVal 10 is < 2 ^ (vbits F.T - F.f) := by
  have hp : 0 < 2 ^ F.f := by positivity
  have e := hi_succ_v h
  have hlt : raw < (digitsVal 10 is + 1) * 2 ^ F.f := by
    have h1 := hr.le
    have h2 : numeralMag is fs < ((digitsVal 10 is + 1 : Nat) : ℚ) := (mag_lt_iff (F := F) is hfs _).2 (by omega)
    have h3 : (raw : ℚ) < ((digitsVal 10 is + 1 : Nat) : ℚ) * 2 ^ F.f := lt_of_le_of_lt h1 (by
      have : (0 : ℚ) < 2 ^ F.f := by positivity
      nlinarith)
    exact_mod_cast h3
  constructor
  · intro hle
    by_contra hc
    push Not at hc
    have h1 : 2 ^ (vbits F.T - F.f) * 2 ^ F.f ≤ raw := le_trans (Nat.mul_le_mul_right _ hc) hr.low
    have : ((2 ^ (vbits F.T - F.f) * 2 ^ F.f : Nat) : Int) ≤ raw := by exact_mod_cast h1
    omega
  · intro hlt2
    have h1 : raw < 2 ^ (vbits F.T - F.f) * 2 ^ F.f := lt_of_lt_of_le hlt (Nat.mul_le_mul_right _ hlt2)
    have : (raw : Int) < ((2 ^ (vbits F.T - F.f) * 2 ^ F.f : Nat) : Int) := by exact_mod_cast h1
    omega

/-- The bound of the type as a rational. -/
theorem mag_bound {F : FxTy} (h : F.Valid) {is : List Nat} {fs : Option (List Nat)} (hfs : Decimal (fracDigits fs)) :
    numeralMag is fs < val F (F.T.hi + 1) ↔ digitsVal 10 is < 2 ^ (vbits F.T - F.f) := by
  have : val F (F.T.hi + 1) = ((2 ^ (vbits F.T - F.f) : Nat) : ℚ) := by
    unfold val
    rw [hi_succ_v h]
    push_cast
    rw [mul_div_assoc, div_self (by positivity), mul_one]
  rw [this]
  exact mag_lt_iff (F := F) is hfs _

/-! ### The property -/

/-- C147: on every 8- and 16-bit layout both parsers accept a numeral exactly if its magnitude is below the bound of the type. -/
def C147_statement : Prop := ∀ F : FxTy, F.Valid → Narrow F → ∀ (neg : Bool) (is : List Nat) (fs : Option (List Nat)), Decimal is →
  Decimal (fracDigits fs) → ∀ old, ∃ ok y, parseDetail F (numeral neg is fs) old = .ok (ok, y) ∧
    fixedFromCstring F (numeral neg is fs) old = .ok (ok, y) ∧ (ok = true ↔ numeralMag is fs < val F (F.T.hi + 1))

/-- In 8 bits with a 16-bit intermediate type the digits are accumulated modulo `2^16` without notice: `4096` is accepted as zero. -/
theorem C147_false : ¬ C147_statement := by
  intro h
  obtain ⟨ok, y, h1, -, h2⟩ := h ⟨i8, i16, 4, false⟩ (by decide) (Or.inl rfl) false [4, 0, 9, 6] none (by decide) (by decide) 7
  have e : parseDetail ⟨i8, i16, 4, false⟩ (numeral false [4, 0, 9, 6] none) 7 = .ok (true, 0) := by decide +kernel
  rw [h1] at e
  cases e
  have := h2.1 rfl
  norm_num [numeralMag, val, fracDigits, digitsVal, fracVal, IntTy.hi, i8] at this

/-- C147 (in range): a numeral below the bound of the type is accepted by both parsers; the stored magnitude is the floor of a prefix of the numeral, never
exceeds it, is less than eleven ulp below it and is exact for integers.  A minus sign negates it modulo the storage type. -/
theorem C147_value_partial (F : FxTy) (h : F.Valid) (hn : Narrow F) (neg : Bool) (is : List Nat) (fs : Option (List Nat))
    (his : Decimal is) (hfs : Decimal (fracDigits fs)) (hmag : numeralMag is fs < val F (F.T.hi + 1)) (hlen : FracFitsN F (fracDigits fs)) (old : Int) :
    ∃ (m : Nat) (y : Int), parseDetail F (numeral neg is fs) old = .ok (true, y) ∧ fixedFromCstring F (numeral neg is fs) old = .ok (true, y) ∧
      (F.T.signed = true ∨ neg = false ∨ m = 0 → y = if neg then -(m : Int) else m) ∧
      (F.T.signed = false → neg = true → m ≠ 0 → y = 2 ^ F.T.bits - m) ∧ (m : Int) ≤ F.T.hi ∧
      (∃ p q, fracDigits fs = p ++ q ∧ IsFloor F (numeralMag is (some p)) m) ∧
      val F m ≤ numeralMag is fs ∧ numeralMag is fs < val F m + 11 * ulp F ∧
      (fracVal 10 (fracDigits fs) = 0 → val F m = numeralMag is fs) := by
  have hd := (mag_bound h hfs).1 hmag
  obtain ⟨-, -, hI, -, -⟩ := narrow_ends h hn
  have hip : ((digitsVal 10 is + 1) * 2 ^ F.f : Int) ≤ F.I.hi := by
    refine le_trans ?_ hI
    rw [hi_succ_v h]
    exact_mod_cast Nat.mul_le_mul_right _ hd
  obtain ⟨raw, hr, e1, e2⟩ := parse_narrow h hn neg is fs his hfs hip hlen old
  have hfit := (raw_fits_v h hfs hr).2 hd
  have eo : parsedN F neg raw old = .ok (true, F.T.wrap (if neg then -(raw : Int) else raw)) := by unfold parsedN; rw [if_pos hfit]
  rw [eo] at e1 e2
  have hp : (0 : ℚ) < 2 ^ F.f := by positivity
  have hl := (narrow_rng hn).2.2.1
  refine ⟨raw, _, e1, e2, ?_, ?_, hfit, rawOf_floor hr, ?_, ?_, ?_⟩
  · intro hc
    refine IntTy.wrap_of_inRange h.tpos ?_
    cases neg
    · exact ⟨by simp; omega, by simpa using hfit⟩
    · rcases hc with hs | hc | hc
      · have : F.T.lo = -F.T.hi - 1 := by unfold IntTy.lo IntTy.hi; rw [if_pos hs, if_pos hs]; ring
        exact ⟨by simp; omega, by simp; omega⟩
      · cases hc
      · subst hc; exact ⟨by simpa using hl, by simpa using (narrow_rng hn).2.2.2.2.trans' (by norm_num)⟩
  · rintro hs rfl h0
    have e : F.T.hi = 2 ^ F.T.bits - 1 := by unfold IntTy.hi; rw [if_neg (by rw [hs]; simp)]
    have e' : F.T.lo = 0 := by unfold IntTy.lo; rw [if_neg (by rw [hs]; simp)]
    have hin : F.T.InRange (2 ^ F.T.bits - (raw : Int)) := ⟨by omega, by omega⟩
    rw [if_pos rfl, ← IntTy.wrap_of_inRange h.tpos hin]
    apply IntTy.wrap_congr
    exact ⟨-1, by ring⟩
  · unfold val; rw [div_le_iff₀ hp]; exact_mod_cast hr.le
  · unfold val ulp
    rw [mul_one_div, ← add_div, lt_div_iff₀ hp]
    have := hr.lt; push_cast; linarith
  · intro h0
    have := hr.exact1 h0
    unfold numeralMag val
    rw [h0, this, add_zero]
    push_cast
    rw [mul_div_assoc, div_self hp.ne', mul_one]

/-- C147 (out of range): a numeral at or above the bound whose integer part still fits the intermediate type is rejected and the output left alone. -/
theorem C147_overflow_partial (F : FxTy) (h : F.Valid) (hn : Narrow F) (neg : Bool) (is : List Nat) (fs : Option (List Nat))
    (his : Decimal is) (hfs : Decimal (fracDigits fs)) (hip : ((digitsVal 10 is + 1) * 2 ^ F.f : Int) ≤ F.I.hi)
    (hlen : FracFitsN F (fracDigits fs)) (hbig : val F (F.T.hi + 1) ≤ numeralMag is fs) (old : Int) :
    parseDetail F (numeral neg is fs) old = .ok (false, old) ∧ fixedFromCstring F (numeral neg is fs) old = .ok (false, old) := by
  obtain ⟨raw, hr, e1, e2⟩ := parse_narrow h hn neg is fs his hfs hip hlen old
  have hfit := (raw_fits_v h hfs hr).not.2 ((mag_bound h hfs).not.1 (not_lt.2 hbig))
  have eo : parsedN F neg raw old = .ok (false, old) := by unfold parsedN; rw [if_neg hfit]
  rw [eo] at e1 e2
  exact ⟨e1, e2⟩

theorem wrap16_zero (s : Bool) {k : Nat} (hk : 16 ≤ k) (d : Int) : (⟨16, s⟩ : IntTy).wrap (d * 10 ^ k) = 0 := by
  have hz : (⟨16, s⟩ : IntTy).wrap 0 = 0 := by cases s <;> decide
  rw [← hz]
  apply IntTy.wrap_congr
  obtain ⟨j, rfl⟩ := Nat.exists_eq_add_of_le hk
  refine ⟨d * (5 ^ 16 * 10 ^ j), ?_⟩
  rw [pow_add, show (10 : Int) ^ 16 = 2 ^ 16 * 5 ^ 16 by norm_num]
  push_cast
  ring

/-- In a 16-bit type the fraction loop multiplies the divisor modulo `2^16`. -/
theorem frac16 (s : Bool) {lim : Int} (hl : 0 ≤ lim) (k : Nat) : ∀ d : Int,
    fracLenient ⟨16, s⟩ lim (List.replicate k '0') 0 ((⟨16, s⟩ : IntTy).wrap d) = .ok (0, (⟨16, s⟩ : IntTy).wrap (d * 10 ^ k), []) := by
  induction k with
  | zero => intro d; simp [fracLenient]
  | succ k ih =>
    intro d
    have hc : (⟨16, s⟩ : IntTy).common i32 = ⟨32, true⟩ := by cases s <;> rfl
    have ea : accDigit ⟨16, s⟩ 0 '0' = .ok 0 := by cases s <;> decide +kernel
    have hr : -32768 ≤ (⟨16, s⟩ : IntTy).wrap d ∧ (⟨16, s⟩ : IntTy).wrap d ≤ 65535 := by
      obtain ⟨a, b⟩ := IntTy.wrap_inRange (t := ⟨16, s⟩) d (by norm_num)
      cases s
      · exact ⟨le_trans (by decide) a, b⟩
      · exact ⟨a, le_trans b (by decide)⟩
    have em : mulTen ⟨16, s⟩ ((⟨16, s⟩ : IntTy).wrap d) = .ok ((⟨16, s⟩ : IntTy).wrap (d * 10)) := by
      unfold mulTen
      rw [hc, arith_of_inRange (by norm_num) (int32_in (by omega) (by omega)), Res.bind_ok, Res.pure_eq]
      congr 1
      apply IntTy.wrap_congr
      have := Dvd.dvd.mul_right (IntTy.wrap_dvd ⟨16, s⟩ d) (-10)
      have e : (d - (⟨16, s⟩ : IntTy).wrap d) * -10 = (⟨16, s⟩ : IntTy).wrap d * 10 - d * 10 := by ring
      rwa [e] at this
    rw [List.replicate_succ]
    unfold fracLenient
    rw [if_neg (by simp only [not_or]; exact ⟨by omega, by decide⟩), ea, Res.bind_ok, em, Res.bind_ok, ih, pow_succ]
    rw [show d * 10 * 10 ^ k = d * (10 ^ k * 10) by ring]

/-- C147 (the divisor): with a 16-bit intermediate type the divisor of the fraction is zero after sixteen digits, and dividing by it is undefined. -/
theorem C147_zero_divisor (F : FxTy) (h : F.Valid) (hI : F.I.bits = 16) (k : Nat) (hk : 16 ≤ k) (old : Int) :
    parseDetail F ('0' :: '.' :: List.replicate k '0') old = .ub .divZero ∧
    fixedFromCstring F ('0' :: '.' :: List.replicate k '0') old = .ub .divZero := by
  have hn : Narrow F := Or.inl (by obtain ⟨v1, -, v3, -⟩ := h; omega)
  have pg := narrow_pg h hn
  obtain ⟨T, ⟨J, s⟩, f, r⟩ := F
  simp only at hI
  subst hI
  have hl : (0 : Int) ≤ (cutLim ⟨T, ⟨16, s⟩, f, r⟩ : Nat) := by positivity
  have w1 : (⟨16, s⟩ : IntTy).wrap 1 = 1 := by cases s <;> decide
  have ef := frac16 s hl k 1
  rw [w1, one_mul, show (10 : Int) ^ k = 1 * 10 ^ k by ring, wrap16_zero s hk] at ef
  have ei : intLenient ⟨16, s⟩ ('0' :: '.' :: List.replicate k '0') 0 = .ok (0, '.' :: List.replicate k '0') := by
    have ea : accDigit ⟨16, s⟩ 0 '0' = .ok 0 := by cases s <;> decide +kernel
    unfold intLenient
    rw [if_neg (by decide), if_neg (by decide), ea, Res.bind_ok]
    unfold intLenient
    rw [if_pos rfl]
  have fb : f < 16 := pg.fb
  have es : scaleParts ⟨16, s⟩ f 0 0 0 = .ub .divZero := by
    have e : shl ⟨16, s⟩ 0 f = .ok 0 := by
      unfold shl
      rw [if_pos (lt_of_lt_of_le fb pg.ws.bp), zero_mul]
      cases s <;> rfl
    unfold scaleParts
    rw [e, Res.bind_ok, Res.bind_ok]
    rfl
  have ts : takeSign ('0' :: '.' :: List.replicate k '0') = (false, '0' :: '.' :: List.replicate k '0') := by simp [takeSign]
  constructor
  · unfold parseDetail
    rw [ts]
    simp only [intStrict_eq, ei, Res.bind_ok, okInt, decide_true, if_true, fracStrict_eq, pg.limD, ef, okFrac, es, Res.bind_ub]
  · unfold fixedFromCstring
    rw [ts]
    simp only [ei, Res.bind_ok, pg.limG, ef, es, Res.bind_ub]

/-- C147 (round trip): in every printable 8- or 16-bit layout, parsing the text of `operator<<` recovers every value up to ten ulp, integers
exactly, other than the minimum of a signed layout and `2^(bits-1)` in an unsigned one. -/
theorem C147_round_trip_partial (F : FxTy) (hv : F.Valid) (hn : Narrow F) (hfit : 10 * 2 ^ F.f ≤ F.T.hi) (x : Int) (hx : Storable F x)
    (hmin : x ≠ if F.T.signed then F.T.lo else 2 ^ (F.T.bits - 1)) (oct up : Bool) (old : Int) :
    ∃ s y, streamOut F x false true oct up = .ok s ∧ parseDetail F s old = .ok (true, y) ∧ fixedFromCstring F s old = .ok (true, y) ∧
      |x - y| ≤ 10 ∧ |y| ≤ |x| ∧ (Integral F x → y = x) := by
  have hp : (0 : ℚ) < 2 ^ F.f := by positivity
  have hu : F.T.signed = true ∨ x ≠ 2 ^ (F.T.bits - 1) := by
    by_cases h0 : F.T.signed = true
    · exact Or.inl h0
    · rw [if_neg h0] at hmin; exact Or.inr hmin
  obtain ⟨s, hs, is, fs, e, his, hfs, -, hlast, habs⟩ := C88_every_storage_partial F hv hfit x hx hu up
  have hneg : val F x < 0 ↔ x < 0 := by rw [← val_zero F, val_lt]
  have hfd : fracDigits (if fs = [] then none else some fs) = fs := by
    by_cases h0 : fs = [] <;> simp [h0, fracDigits]
  set gs : Option (List Nat) := if fs = [] then none else some fs with hgs
  have hmag : numeralMag is gs = |val F x| := by unfold numeralMag; rw [hfd, habs]
  have hs' : s = numeral (decide (x < 0)) is gs := by
    rw [e]
    unfold numeral
    rw [List.append_assoc]
    congr 1
    · by_cases h0 : x < 0
      · rw [if_pos (hneg.2 h0)]; simp [h0]
      · rw [if_neg (fun hc => h0 (hneg.1 hc))]; simp [h0]
    · congr 1
      · exact List.map_congr_left (fun d hd => digitOf_up (his d hd) up)
      · rw [hgs]
        by_cases h0 : fs = []
        · rw [if_pos h0, if_pos h0]
        · rw [if_neg h0, if_neg h0]
          simp only
          rw [List.map_congr_left (fun d hd => digitOf_up (hfs d hd) up)]
  have hdg : Decimal (fracDigits gs) := by rw [hfd]; exact hfs
  obtain ⟨k, hk, hxk, hk2⟩ := frac_ulps (F := F) hdg hmag
  have hav := abs_val_raw F x
  have hxhi : |x| ≤ F.T.hi := by
    obtain ⟨a, b⟩ := hx
    by_cases h0 : F.T.signed = true
    · rw [if_pos h0] at hmin
      have : F.T.lo = -F.T.hi - 1 := by unfold IntTy.lo IntTy.hi; rw [if_pos h0, if_pos h0]; ring
      rw [abs_le]; omega
    · have : F.T.lo = 0 := by unfold IntTy.lo; rw [if_neg h0]
      rw [abs_of_nonneg (by omega)]; exact b
  have hlt : numeralMag is gs < val F (F.T.hi + 1) := by
    rw [hmag, hav]
    unfold val
    rw [div_lt_div_iff_of_pos_right hp]
    have : |x| < F.T.hi + 1 := by omega
    exact_mod_cast this
  have hsmall : (2 ^ F.f + 9 : ℚ) / 10 ^ (interDigitsN F + 1) ≤ 1 / 2 ^ F.f := by
    have key : ∀ k d : Nat, F.f ≤ k → (2 ^ k + 9) * 2 ^ k ≤ 10 ^ d → (2 ^ F.f + 9 : ℚ) / 10 ^ d ≤ 1 / 2 ^ F.f := by
      intro k d hk h1
      rw [div_le_div_iff₀ (by positivity) (by positivity), one_mul]
      have h2 : 2 ^ F.f ≤ 2 ^ k := Nat.pow_le_pow_right (by norm_num) hk
      have h3 : (2 ^ F.f + 9) * 2 ^ F.f ≤ 10 ^ d := le_trans (Nat.mul_le_mul (by omega) h2) h1
      exact_mod_cast h3
    have hi16 : F.T.hi ≤ 2 ^ F.T.bits - 1 := by
      unfold IntTy.hi
      have : (2 : Int) ^ (F.T.bits - 1) ≤ 2 ^ F.T.bits := pow_le_pow_right₀ (by norm_num) (by omega)
      split <;> omega
    obtain ⟨v1, v2, v3, -⟩ := hv
    have hf : ∀ n, (2 : Int) ^ F.T.bits ≤ 10 * 2 ^ (n + 1) → F.f ≤ n := by
      intro n h1
      by_contra hc
      have h2 : (2 : Int) ^ (n + 1) ≤ 2 ^ F.f := pow_le_pow_right₀ (by norm_num) (by omega)
      omega
    unfold interDigitsN
    rcases hn with hb | hb <;> rw [hb] at hf v3
    · have := hf 4 (by norm_num)
      rcases v2 with e | e | e | e <;> rw [e] <;> exact key 4 _ this (by norm_num)
    · have := hf 12 (by norm_num)
      rcases v2 with e | e | e | e <;> rw [e] at v3 ⊢
      · exact absurd v3 (by norm_num)
      all_goals exact key 12 _ this (by norm_num)
  have hlen : FracFitsN F (fracDigits gs) := by
    by_cases h0 : k = 0
    · left; rw [hfd, frac_zero hlast (by rw [← hfd, hk, h0]; simp)]; simp
    · right
      rw [hk]
      have h1 : (1 : ℚ) ≤ k := by exact_mod_cast Nat.one_le_iff_ne_zero.2 h0
      have h2 : (1 : ℚ) / 2 ^ F.f ≤ (k : ℚ) / 2 ^ F.f := by gcongr
      exact le_trans hsmall h2
  obtain ⟨m, y, p1, p2, p6, -, -, -, p3, p4, p5⟩ := C147_value_partial F hv hn (decide (x < 0)) is gs his hdg hlt hlen old
  have hy : y = if x < 0 then -(m : Int) else m := by
    have : F.T.signed = true ∨ decide (x < 0) = false ∨ m = 0 := by
      by_cases h0 : F.T.signed = true
      · exact Or.inl h0
      · have : F.T.lo = 0 := by unfold IntTy.lo; rw [if_neg h0]
        have := hx.1
        right; left; simp; omega
    rw [p6 this]; simp
  refine ⟨s, y, hs, by rw [hs']; exact p1, by rw [hs']; exact p2, ?_⟩
  rw [hmag, hav] at p3 p4
  unfold val at p3 p4
  unfold ulp at p4
  rw [div_le_div_iff_of_pos_right hp] at p3
  rw [mul_one_div, ← add_div, div_lt_div_iff_of_pos_right hp] at p4
  have q3 : (m : Int) ≤ |x| := by exact_mod_cast p3
  have q4 : |x| < m + 11 := by exact_mod_cast p4
  have q0 : (0 : Int) ≤ m := by positivity
  have q5 : Integral F x → (m : Int) = |x| := by
    rintro ⟨z, hz⟩
    have h0 : k = 0 := by
      have h1 : val F x = (x : ℚ) / 2 ^ F.f := rfl
      rw [h1, div_eq_iff hp.ne'] at hz
      have h2 : x = z * 2 ^ F.f := by exact_mod_cast hz
      have h3 : (2 ^ F.f : Int) ∣ k := by
        have h4 : (k : Int) = |x| - digitsVal 10 is * 2 ^ F.f := by omega
        rw [h4]
        exact dvd_sub ((dvd_abs _ _).2 (h2 ▸ Dvd.intro_left z rfl)) (Dvd.intro_left _ rfl)
      have h5 : 2 ^ F.f ∣ k := by exact_mod_cast h3
      exact Nat.eq_zero_of_dvd_of_lt h5 hk2
    have := p5 (by rw [hk, h0]; simp)
    rw [hmag, hav] at this
    unfold val at this
    rw [div_left_inj' hp.ne'] at this
    exact_mod_cast this
  by_cases h0 : x < 0
  · rw [hy, if_pos h0]
    rw [abs_of_neg h0] at q3 q4 q5 ⊢
    refine ⟨by rw [abs_le]; omega, by rw [abs_neg, abs_of_nonneg q0]; omega, fun hi => by have := q5 hi; omega⟩
  · rw [hy, if_neg h0]
    rw [abs_of_nonneg (by omega : 0 ≤ x)] at q3 q4 q5 ⊢
    refine ⟨by rw [abs_le]; omega, by rw [abs_of_nonneg q0]; omega, fun hi => by have := q5 hi; omega⟩

example : streamOut ⟨i8, i16, 3, false⟩ (-127) false true false false = .ok "-15.875".toList ∧
    parseDetail ⟨i8, i16, 3, false⟩ "-15.875".toList 7 = .ok (true, -126) ∧
    -- the exceptions
    streamOut ⟨i8, i16, 3, false⟩ (-128) false true false false = .ok "-16".toList ∧
    parseDetail ⟨i8, i16, 3, false⟩ "-16".toList 7 = .ok (false, 7) ∧
    streamOut ⟨u8, u16, 3, false⟩ 128 false true false false = .ok "-240".toList ∧
    parseDetail ⟨u8, u16, 3, false⟩ "-240".toList 7 = .ok (false, 7) := by decide +kernel

example : parseDetail ⟨i8, i16, 4, false⟩ "-7.5".toList 0 = .ok (true, -120) ∧ parseDetail ⟨i8, i16, 4, false⟩ "8".toList 5 = .ok (false, 5) ∧
    parseDetail ⟨u16, u32, 8, false⟩ "-1.5".toList 0 = .ok (true, 65152) ∧ FracFitsN ⟨i8, i16, 4, false⟩ [5] ∧
    numeralMag [7] (some [5]) < val ⟨i8, i16, 4, false⟩ 128 := by
  refine ⟨by decide +kernel, by decide +kernel, by decide +kernel, Or.inl (by decide), ?_⟩
  norm_num [numeralMag, val, fracDigits, digitsVal, fracVal]

end Eirin.Props
