import Verif.Props.RoundTrip
import Verif.Props.PrintAll

/-! # Property C118: the string parsers on every layout -/

namespace Eirin.Props
open Spec

theorem inter_of {F : FxTy} (h : SW F) : (F.T.bits = 32 ∧ (F.I = i64 ∨ F.I = i128)) ∨ (F.T.bits = 64 ∧ F.I = i128) := by
  obtain ⟨v1, v2, v3, v4, -⟩ := h.valid
  have hs := h.sg
  have hw := h.sw.2
  obtain ⟨⟨tb, ts⟩, ⟨ib, isg⟩, f, r⟩ := F
  simp only at v1 v2 v3 v4 hs hw ⊢
  subst hs
  rw [v4]
  rcases v1 with rfl | rfl | rfl | rfl <;> rcases v2 with rfl | rfl | rfl | rfl <;> first | omega | simp [i64, i128]

theorem ws_I {F : FxTy} (h : SW F) : WS F.I := by
  rcases inter_of h with ⟨-, e | e⟩ | ⟨-, e⟩ <;> rw [e]
  exacts [ws64, ws128, ws128]

theorem ws_T {F : FxTy} (h : SW F) : WS F.T := by
  have e : F.T = i32 ∨ F.T = i64 := by
    have hs := h.sg
    have hb := inter_of h
    obtain ⟨⟨tb, ts⟩, J, f, r⟩ := F
    simp only at hs hb ⊢
    subst hs
    rcases hb with ⟨rfl, -⟩ | ⟨rfl, -⟩ <;> simp [i32, i64]
  rcases e with e | e <;> rw [e]
  exacts [ws32, ws64]

theorem f_le {F : FxTy} (h : SW F) : F.f + 2 ≤ F.T.bits := by
  have h1 := h.d_le
  rw [h.hi_eq] at h1
  by_contra hc
  have h2 : (2 : Int) ^ (F.T.bits - 1) ≤ 2 ^ F.f := pow_le_pow_right₀ (by norm_num) (by omega)
  omega

theorem cutLim_cast (F : FxTy) : ((cutLim F : Nat) : Int) = (2 ^ F.f - 1) / 10 := by
  unfold cutLim
  rw [Int.natCast_div, Nat.cast_sub Nat.one_le_two_pow]; push_cast; rfl

theorem ps_of {F : FxTy} (h : SW F) : PS F := by
  have hf := f_le h
  have hp : (0 : Int) < 2 ^ F.f := by positivity
  have hin : F.T.InRange (2 ^ F.f - 1) := ⟨le_trans h.zero_in.1 (by omega), by have := h.d_le; omega⟩
  have hin' : F.T.InRange (2 ^ F.f - 1) := hin
  have hI : F.I.InRange F.T.hi ∧ F.I.InRange F.T.lo := by
    rw [h.lo_eq, h.hi_eq]
    rcases inter_of h with ⟨e, e' | e'⟩ | ⟨e, e'⟩ <;> rw [e, e'] <;> decide +kernel
  refine ⟨h, ws_I h, ?_, ?_, ?_, ?_, IntTy.wrap_of_inRange (ws_I h).pos hI.1, IntTy.wrap_of_inRange (ws_I h).pos hI.2⟩
  · have := h.valid.2.2.1; omega
  · rw [cutLim_cast]; rfl
  · have hc : F.P.common i32 = F.T := by rw [h.p]; exact (ws_T h).com
    unfold limGeneric
    rw [hc, h.one_eq, h.arith_ok hin, Res.bind_ok, h.wrap_ok hin, ← h.p, h.cdiv_ok hin (by norm_num), cutLim_cast,
      Int.tdiv_eq_ediv_of_nonneg (by omega)]
  · have h1 : cutLim F * 10 + 9 ≤ 2 ^ F.f + 8 := by
      unfold cutLim
      have := Nat.one_le_two_pow (n := F.f)
      omega
    have h2 : ∀ k : Nat, F.f ≤ k → (((2 ^ k + 8) * 2 ^ k : Nat) : Int) ≤ F.I.hi → (((cutLim F * 10 + 9) * 2 ^ F.f : Nat) : Int) ≤ F.I.hi := by
      intro k hk h3
      refine le_trans ?_ h3
      have h4 : 2 ^ F.f ≤ 2 ^ k := Nat.pow_le_pow_right (by norm_num) hk
      exact_mod_cast Nat.mul_le_mul (by omega) h4
    rcases inter_of h with ⟨e, e' | e'⟩ | ⟨e, e'⟩
    · exact h2 30 (by omega) (by rw [e']; decide +kernel)
    · exact h2 30 (by omega) (by rw [e']; decide +kernel)
    · exact h2 62 (by omega) (by rw [e']; decide +kernel)

/-- Number of decimal digits that always fit the intermediate type. -/
def interDigits (F : FxTy) : Nat := if F.I.bits = 64 then 18 else 38

/-- The fraction is short enough for the decimal divisor of the parser, or large enough for the precision cut-off to come first. -/
def FracFits (F : FxTy) (ds : List Nat) : Prop := ds.length ≤ interDigits F ∨ (2 ^ F.f + 9 : ℚ) / 10 ^ (interDigits F + 1) ≤ fracVal 10 ds

theorem inter_ten {F : FxTy} (h : SW F) : ((10 ^ interDigits F : Nat) : Int) ≤ F.I.hi ∧ 1 ≤ interDigits F := by
  unfold interDigits
  rcases inter_of h with ⟨e, e' | e'⟩ | ⟨e, e'⟩ <;> rw [e'] <;> decide +kernel

theorem parse_any {F : FxTy} (h : SW F) (neg : Bool) (is : List Nat) (fs : Option (List Nat))
    (his : Decimal is) (hfs : Decimal (fracDigits fs)) (hip : ((digitsVal 10 is + 1) * 2 ^ F.f : Int) ≤ F.I.hi)
    (hlen : FracFits F (fracDigits fs)) (old : Int) :
    ∃ raw, RawC F 10 is fs raw ∧ parseDetail F (numeral neg is fs) old = parsedOut F neg raw old ∧
      fixedFromCstring F (numeral neg is fs) old = parsedOut F neg raw old := by
  obtain ⟨h1, h2⟩ := inter_ten h
  have e : interDigits F - 1 + 1 = interDigits F := by omega
  refine parse_numeral (ps_of h) (tail_any F) neg his hfs (by exact_mod_cast hip) (interDigits F - 1) (by rw [e]; exact h1) ?_ old
  rw [e]
  refine hlen.imp id (fun h3 => le_trans ?_ h3)
  have h4 : cutLim F * 10 + 10 ≤ 2 ^ F.f + 9 := by
    unfold cutLim
    have := Nat.one_le_two_pow (n := F.f)
    omega
  have h5 : (cutLim F : ℚ) * 10 + 10 ≤ 2 ^ F.f + 9 := by exact_mod_cast h4
  rw [pow_succ, div_le_div_iff₀ (by positivity) (by positivity)]
  push_cast
  have h6 : (0 : ℚ) < 10 ^ interDigits F := by positivity
  calc ((cutLim F : ℚ) + 1) * (10 ^ interDigits F * 10) = (cutLim F * 10 + 10) * 10 ^ interDigits F := by ring
    _ ≤ _ := mul_le_mul_of_nonneg_right h5 h6.le

/-- C118: on every signed layout of 32 or 64 bits, a numeral below the range bound is accepted by both parsers; the stored magnitude is the
floor of a prefix of the numeral (all of the integer part, some of the fraction), never exceeds the numeral, is less than 11 ulp below it,
is exact for integers, and is negated for a leading `-`. -/
theorem C118_value (F : FxTy) (h : SW F) (neg : Bool) (is : List Nat) (fs : Option (List Nat))
    (his : Decimal is) (hfs : Decimal (fracDigits fs)) (hmag : numeralMag is fs < 2 ^ (F.T.bits - 1 - F.f))
    (hlen : FracFits F (fracDigits fs)) (old : Int) :
    ∃ m : Nat, parseDetail F (numeral neg is fs) old = .ok (true, if neg then -(m : Int) else m) ∧
      fixedFromCstring F (numeral neg is fs) old = .ok (true, if neg then -(m : Int) else m) ∧
      (∃ p q, fracDigits fs = p ++ q ∧ IsFloor F (numeralMag is (some p)) m) ∧
      val F m ≤ numeralMag is fs ∧ numeralMag is fs < val F m + 11 * ulp F ∧
      (fracVal 10 (fracDigits fs) = 0 → val F m = numeralMag is fs) := by
  have hB : ((2 ^ (F.T.bits - 1 - F.f) : Nat) : ℚ) = 2 ^ (F.T.bits - 1 - F.f) := by push_cast; rfl
  have hd : digitsVal 10 is < 2 ^ (F.T.bits - 1 - F.f) := by
    rw [← hB] at hmag; exact (mag_lt_iff (F := F) is hfs _).1 hmag
  have hip : ((digitsVal 10 is + 1) * 2 ^ F.f : Int) ≤ F.I.hi := by
    have h1 : ((digitsVal 10 is + 1) * 2 ^ F.f : Int) ≤ F.T.hi + 1 := by
      rw [hi_succ h]
      exact mul_le_mul_of_nonneg_right (by exact_mod_cast hd) (by positivity)
    refine le_trans h1 ?_
    rw [h.hi_eq]
    rcases inter_of h with ⟨e, e' | e'⟩ | ⟨e, e'⟩ <;> rw [e, e'] <;> decide +kernel
  obtain ⟨raw, hr, e1, e2⟩ := parse_any h neg is fs his hfs hip hlen old
  have hfit := (raw_fits h hfs hr).2 hmag
  have eo : parsedOut F neg raw old = .ok (true, if neg then -(raw : Int) else raw) := by unfold parsedOut; rw [if_pos hfit]
  rw [eo] at e1 e2
  have hp : (0 : ℚ) < 2 ^ F.f := by positivity
  refine ⟨raw, e1, e2, rawOf_floor hr, ?_, ?_, ?_⟩
  · unfold val; rw [div_le_iff₀ hp]; exact_mod_cast hr.le
  · unfold val ulp
    rw [mul_one_div, ← add_div, lt_div_iff₀ hp]
    have := hr.lt; push_cast; linarith
  · intro h0
    have := hr.exact1 h0
    unfold numeralMag val
    rw [h0, this, add_zero]
    push_cast
    rw [mul_div_assoc, div_self hp.ne', mul_one]

example : SW ⟨i64, i128, 53, false⟩ ∧ FracFits ⟨i64, i128, 53, false⟩ [1, 2, 5] ∧
    parseDetail ⟨i64, i128, 53, false⟩ (numeral true [1, 0] (some [1, 2, 5])) 7 = .ok (true, -91197892454252544) ∧
    -- the cut-off loses ten ulp here
    parseDetail ⟨i64, i128, 53, false⟩ "0.9999999999999999999".toList 7 = .ok (true, 2 ^ 53 - 10) := by
  refine ⟨⟨by decide, by decide, by decide +kernel⟩, Or.inl (by decide), by decide +kernel, by decide +kernel⟩

/-- C118: on numerals whose integer part fits the intermediate type both parsers return false, leaving the output alone, exactly when the
magnitude is out of range. -/
theorem C118_overflow (F : FxTy) (h : SW F) (neg : Bool) (is : List Nat) (fs : Option (List Nat))
    (his : Decimal is) (hfs : Decimal (fracDigits fs)) (hip : ((digitsVal 10 is + 1) * 2 ^ F.f : Int) ≤ F.I.hi)
    (hlen : FracFits F (fracDigits fs)) (hbig : 2 ^ (F.T.bits - 1 - F.f) ≤ numeralMag is fs) (old : Int) :
    parseDetail F (numeral neg is fs) old = .ok (false, old) ∧ fixedFromCstring F (numeral neg is fs) old = .ok (false, old) := by
  obtain ⟨raw, hr, e1, e2⟩ := parse_any h neg is fs his hfs hip hlen old
  have hfit := (raw_fits h hfs hr).not.2 (not_lt.2 hbig)
  have eo : parsedOut F neg raw old = .ok (false, old) := by unfold parsedOut; rw [if_neg hfit]
  rw [eo] at e1 e2
  exact ⟨e1, e2⟩

example : parseDetail ⟨i64, i128, 53, false⟩ "1024".toList 7 = .ok (false, 7) ∧
    parseDetail ⟨i64, i128, 53, false⟩ "1023.75".toList 7 = .ok (true, 9221120237041090560) := by decide +kernel

/-- C118: malformed text is never accepted by the strict parser. -/
theorem C118_rejects (F : FxTy) (h : SW F) (neg : Bool) (is : List Nat) (his : Decimal is) (c : Char) (t : List Char) (hc : ¬ DigitChar c)
    (old : Int) :
    (c ≠ '.' → (neg = false → is = [] → c ≠ '-') → (digitsVal 10 is : Int) ≤ F.I.hi →
      parseDetail F ((if neg then ['-'] else []) ++ is.map (digitOf false) ++ c :: t) old = .ok (false, old)) ∧
    (∀ ds, Decimal ds → (∀ p d q, ds = p ++ d :: q → digitsVal 10 p ≤ (2 ^ F.f - 1) / 10) → (digitsVal 10 is : Int) ≤ F.I.hi →
      ds.length ≤ interDigits F →
      parseDetail F ((if neg then ['-'] else []) ++ is.map (digitOf false) ++ '.' :: (ds.map (digitOf false) ++ c :: t)) old =
        .ok (false, old)) := by
  refine ⟨fun h1 h2 h3 => (bad_integer (ws_I h) neg is his c t hc h1 h2 old).2 h3, fun ds hd hcut h3 h4 => ?_⟩
  refine (bad_fraction (ps_of h) neg is ds his hd hcut c t hc old).2 h3 (le_trans ?_ (inter_ten h).1)
  exact_mod_cast Nat.pow_le_pow_right (by norm_num) h4

example : parseDetail ⟨i64, i128, 53, false⟩ "12x4".toList 7 = .ok (false, 7) ∧
    parseDetail ⟨i32, i128, 3, true⟩ "1.e".toList 7 = .ok (false, 7) := by decide +kernel

/-- C118: whatever the strict parser accepts, `fixed_from_cstring` accepts with the same value. -/
theorem C118_accepts (F : FxTy) (h : SW F) (s : List Char) (old v : Int) (hs : parseDetail F s old = .ok (true, v)) :
    fixedFromCstring F s old = .ok (true, v) := accepts_of (ps_of h) s old v hs

example : parseDetail ⟨i32, i128, 3, true⟩ "-1.25".toList 7 = .ok (true, -9) ∧
    fixedFromCstring ⟨i32, i128, 3, true⟩ "-1.25".toList 7 = .ok (true, -9) := by decide +kernel

/-- The text printed by `operator<<` in decimal, as a parser numeral, with its fraction in ulps. -/
theorem printed_any (F : FxTy) (h : SW F) (hfit : 10 * 2 ^ F.f ≤ F.T.hi) (x : Int) (hx : Storable F x) (oct up : Bool) :
    ∃ is fs, streamOut F x false true oct up = .ok (numeral (decide (x < 0)) is fs) ∧ Decimal is ∧ Decimal (fracDigits fs) ∧
      is ≠ [] ∧ (∀ d, (fracDigits fs).getLast? = some d → d ≠ 0) ∧ (fracDigits fs = [] → fs = none) ∧ numeralMag is fs = |val F x| := by
  obtain ⟨s, hs, is, fs, e, his, hfs, hnz, hlast, habs⟩ := C88_every_storage_partial F h.valid hfit x hx (Or.inl h.sg) up
  have hneg : val F x < 0 ↔ x < 0 := by rw [← val_zero F, val_lt]
  have hfd : fracDigits (if fs = [] then none else some fs) = fs := by
    by_cases h0 : fs = [] <;> simp [h0, fracDigits]
  have hne : is ≠ [] := by rcases hnz with rfl | ⟨d, ds, rfl, -⟩ <;> simp
  refine ⟨is, if fs = [] then none else some fs, ?_, his, by rw [hfd]; exact hfs, hne, by rw [hfd]; exact hlast,
    fun h0 => by rw [hfd] at h0; rw [if_pos h0], ?_⟩
  · have es : streamOut F x false true oct up = copyAsChars F x 10 up := rfl
    rw [es, hs, e]
    unfold numeral
    rw [List.append_assoc]
    congr 2
    · by_cases h0 : x < 0
      · rw [if_pos (hneg.2 h0)]; simp [h0]
      · rw [if_neg (fun hc => h0 (hneg.1 hc))]; simp [h0]
    · congr 1
      · exact List.map_congr_left (fun d hd => digitOf_up (his d hd) up)
      · by_cases h0 : fs = []
        · rw [if_pos h0, if_pos h0]
        · rw [if_neg h0, if_neg h0]
          simp only
          rw [List.map_congr_left (fun d hd => digitOf_up (hfs d hd) up)]
  · unfold numeralMag; rw [hfd, habs]

theorem abs_val_raw (F : FxTy) (x : Int) : |val F x| = ((|x| : Int) : ℚ) / 2 ^ F.f := by
  have hp : (0 : ℚ) < 2 ^ F.f := by positivity
  unfold val; rw [abs_div, abs_of_pos hp, Int.cast_abs]

/-- The fraction of a printed numeral in ulps. -/
theorem frac_ulps {F : FxTy} {x : Int} {is : List Nat} {fs : Option (List Nat)} (hfs : Decimal (fracDigits fs))
    (hmag : numeralMag is fs = |val F x|) : ∃ k : Nat, fracVal 10 (fracDigits fs) = (k : ℚ) / 2 ^ F.f ∧
      (|x| : Int) = digitsVal 10 is * 2 ^ F.f + k ∧ k < 2 ^ F.f := by
  have hp : (0 : ℚ) < 2 ^ F.f := by positivity
  have hav := abs_val_raw F x
  have h1 : fracVal 10 (fracDigits fs) = |val F x| - digitsVal 10 is := by rw [← hmag]; unfold numeralMag; ring
  have h0 := fracVal_nonneg (fracDigits fs)
  have h2 : fracVal 10 (fracDigits fs) = ((|x| - digitsVal 10 is * 2 ^ F.f : Int) : ℚ) / 2 ^ F.f := by
    rw [h1, hav]; push_cast; field_simp
  have h3 : 0 ≤ |x| - digitsVal 10 is * 2 ^ F.f := by
    rw [h2, le_div_iff₀ hp, zero_mul] at h0; exact_mod_cast h0
  have h4 := fracVal_lt hfs
  rw [h2, div_lt_one hp] at h4
  have h5 : |x| - digitsVal 10 is * 2 ^ F.f < 2 ^ F.f := by exact_mod_cast h4
  have h6 := Int.toNat_of_nonneg h3
  refine ⟨(|x| - digitsVal 10 is * 2 ^ F.f).toNat, ?_, by omega, ?_⟩
  · rw [h2]; congr 1; exact_mod_cast h6.symm
  · zify; rw [h6]; exact h5

theorem frac_zero {fs : List Nat} (hlast : ∀ d, fs.getLast? = some d → d ≠ 0) (h0 : fracVal 10 fs = 0) : fs = [] := by
  rcases List.eq_nil_or_concat fs with hh | ⟨l, d, hh⟩
  · exact hh
  · exfalso
    have h1 := hlast d (by rw [hh]; simp)
    rw [fracVal_eq, div_eq_zero_iff] at h0
    rcases h0 with h2 | h2
    · have h3 : acc 0 fs = 0 := by exact_mod_cast h2
      rw [hh, List.concat_eq_append, acc_append] at h3
      simp at h3
      exact h1 h3.2
    · exact absurd h2 (by positivity)

theorem small_fits {F : FxTy} (h : SW F) : (2 ^ F.f + 9 : ℚ) / 10 ^ (interDigits F + 1) ≤ 1 / 2 ^ F.f := by
  have key : ∀ k d : Nat, F.f ≤ k → (2 ^ k + 9) * 2 ^ k ≤ 10 ^ d → (2 ^ F.f + 9 : ℚ) / 10 ^ d ≤ 1 / 2 ^ F.f := by
    intro k d hk h1
    rw [div_le_div_iff₀ (by positivity) (by positivity), one_mul]
    have h2 : 2 ^ F.f ≤ 2 ^ k := Nat.pow_le_pow_right (by norm_num) hk
    have h3 : (2 ^ F.f + 9) * 2 ^ F.f ≤ 10 ^ d := le_trans (Nat.mul_le_mul (by omega) h2) h1
    exact_mod_cast h3
  have hf := f_le h
  unfold interDigits
  rcases inter_of h with ⟨e, e' | e'⟩ | ⟨e, e'⟩ <;> rw [e']
  · exact key 30 19 (by omega) (by norm_num)
  · exact key 30 39 (by omega) (by norm_num)
  · exact key 62 39 (by omega) (by norm_num)

/-- C118: for every value other than the minimum, of every signed layout of 32 or 64 bits that can be printed, parsing the text written by
`operator<<` succeeds and recovers the value up to 10 ulp (never farther from zero than it), and exactly when it is integral. -/
theorem C118_round_trip (F : FxTy) (h : SW F) (hfit : 10 * 2 ^ F.f ≤ F.T.hi) (x : Int) (hx : Storable F x) (hmin : x ≠ F.T.lo)
    (oct up : Bool) (old : Int) :
    ∃ s y, streamOut F x false true oct up = .ok s ∧ parseDetail F s old = .ok (true, y) ∧ fixedFromCstring F s old = .ok (true, y) ∧
      |x - y| ≤ 10 ∧ |y| ≤ |x| ∧ (Integral F x → y = x) := by
  obtain ⟨is, fs, hs, his, hfs, hne, hlast, -, hmag⟩ := printed_any F h hfit x hx oct up
  obtain ⟨k, hk, hxk, hk2⟩ := frac_ulps hfs hmag
  have hp : (0 : ℚ) < 2 ^ F.f := by positivity
  have hav := abs_val_raw F x
  have hxhi : |x| ≤ F.T.hi := by
    have := h.lo_hi
    obtain ⟨a, b⟩ := hx
    rw [abs_le]; omega
  have hlt : numeralMag is fs < 2 ^ (F.T.bits - 1 - F.f) := by
    rw [hmag, hav, div_lt_iff₀ hp]
    have h1 := hi_succ h
    have h2 : |x| < 2 ^ (F.T.bits - 1 - F.f) * 2 ^ F.f := by omega
    exact_mod_cast h2
  have hlen : FracFits F (fracDigits fs) := by
    by_cases h0 : k = 0
    · left; rw [frac_zero hlast (by rw [hk, h0]; simp)]; simp
    · right
      rw [hk]
      have h1 : (1 : ℚ) ≤ k := by exact_mod_cast Nat.one_le_iff_ne_zero.2 h0
      have h2 : (1 : ℚ) / 2 ^ F.f ≤ (k : ℚ) / 2 ^ F.f := by gcongr
      exact le_trans (small_fits h) h2
  obtain ⟨m, p1, p2, -, p3, p4, p5⟩ := C118_value F h (decide (x < 0)) is fs his hfs hlt hlen old
  refine ⟨_, if decide (x < 0) = true then -(m : Int) else m, hs, p1, p2, ?_⟩
  rw [hmag, hav] at p3 p4
  unfold val at p3 p4
  unfold ulp at p4
  rw [div_le_div_iff_of_pos_right hp] at p3
  rw [mul_one_div, ← add_div, div_lt_div_iff_of_pos_right hp] at p4
  have q3 : (m : Int) ≤ |x| := by exact_mod_cast p3
  have q4 : |x| < m + 11 := by exact_mod_cast p4
  have q0 : (0 : Int) ≤ m := by positivity
  have q5 : Integral F x → (m : Int) = |x| := by
    rintro ⟨z, hz⟩
    have h0 : k = 0 := by
      have h1 : val F x = (x : ℚ) / 2 ^ F.f := rfl
      rw [h1, div_eq_iff hp.ne'] at hz
      have h2 : x = z * 2 ^ F.f := by exact_mod_cast hz
      have h3 : (2 ^ F.f : Int) ∣ k := by
        have h4 : (k : Int) = |x| - digitsVal 10 is * 2 ^ F.f := by omega
        rw [h4]
        exact dvd_sub ((dvd_abs _ _).2 (h2 ▸ Dvd.intro_left z rfl)) (Dvd.intro_left _ rfl)
      have h5 : 2 ^ F.f ∣ k := by exact_mod_cast h3
      exact Nat.eq_zero_of_dvd_of_lt h5 hk2
    have := p5 (by rw [hk, h0]; simp)
    rw [hmag, hav] at this
    unfold val at this
    rw [div_left_inj' hp.ne'] at this
    exact_mod_cast this
  by_cases h0 : x < 0
  · rw [if_pos (by simpa using h0)]
    rw [abs_of_neg h0] at q3 q4 q5 ⊢
    refine ⟨by rw [abs_le]; omega, by rw [abs_neg, abs_of_nonneg q0]; omega, fun hi => by have := q5 hi; omega⟩
  · rw [if_neg (by simpa using h0)]
    rw [abs_of_nonneg (by omega : 0 ≤ x)] at q3 q4 q5 ⊢
    refine ⟨by rw [abs_le]; omega, by rw [abs_of_nonneg q0]; omega, fun hi => by have := q5 hi; omega⟩

example : streamOut ⟨i64, i128, 53, false⟩ (2 ^ 53 - 1) false true false false =
      .ok "0.99999999999999988897769753748434595763683319091796875".toList ∧
    parseDetail ⟨i64, i128, 53, false⟩ "0.99999999999999988897769753748434595763683319091796875".toList 0 = .ok (true, 2 ^ 53 - 10) := by
  decide +kernel

end Eirin.Props
