import Verif.Lemmas.Print
import Verif.Lemmas.Bits

/-! # Properties C45 and C46: text output is the exact positional expansion. -/

namespace Eirin.Props
open Spec

theorem signbitMask_unsigned {F : FxTy} (h : F.Valid) (hs : F.T.signed = false) : signbitMask F = 2 ^ (F.T.bits - 1) := by
  have hr : F.T.InRange (2 ^ (F.T.bits - 1)) := by
    have hp : (0 : Int) < 2 ^ (F.T.bits - 1) := by positivity
    have := IntTy.two_pow_pred F.T.bits h.tpos
    unfold IntTy.InRange IntTy.lo IntTy.hi; simp only [hs, Bool.false_eq_true, if_false]; omega
  unfold signbitMask
  rw [IntTy.wrap_of_inRange h.ppos (IntTy.inRange_promote h.tpos hr), IntTy.wrap_of_inRange h.tpos hr]

/-- `copy_as_chars_to` takes the value apart into sign, integer part and fraction.  (The exception: an unsigned value equal to the sign
bit mask.) -/
theorem printSign_ok {F : FxTy} (h : PN F) {x : Int} (hx : Storable F x) (hu : F.T.signed = true ∨ x ≠ 2 ^ (F.T.bits - 1)) :
    ∃ v : Nat, F.T.InRange v ∧ v % 2 ^ F.f = x.natAbs % 2 ^ F.f ∧ F.T.InRange (x.natAbs / 2 ^ F.f : Nat) ∧
      printSign F x = .ok (if x < 0 then ['-'] else [], ((x.natAbs / 2 ^ F.f : Nat) : Int), (v : Int)) := by
  have hp : (0 : Int) < 2 ^ F.f := by positivity
  have hpn : 0 < 2 ^ F.f := by positivity
  have hf1 : 1 ≤ F.f := h.valid.2.2.2.2.1
  have hf2 : F.f ≤ F.T.bits - 1 := h.valid.2.2.2.2.2
  have hb : F.f < F.T.promote.bits := h.valid.flt_p
  have hf2' : (2 : Int) ≤ 2 ^ F.f := by
    calc (2 : Int) = 2 ^ 1 := by norm_num
      _ ≤ 2 ^ F.f := pow_le_pow_right₀ (by norm_num) hf1
  have hnat : ((x.natAbs : Nat) : Int) = |x| := (Int.abs_eq_natAbs x).symm
  have hz : F.T.lo ≤ 0 := by unfold IntTy.lo; split <;> [exact neg_nonpos.2 (by positivity); exact le_rfl]
  have hax : |x| ≤ F.T.hi + 1 := by
    obtain ⟨a, b⟩ := hx
    unfold IntTy.lo at a; unfold IntTy.hi at b ⊢
    cases hs : F.T.signed <;> simp only [hs, if_true, Bool.false_eq_true, if_false] at a b ⊢ <;> rw [abs_le] <;> constructor <;> omega
  have hhi : 2 ≤ F.T.hi := le_trans hf2' h.one.2
  have hdivle : |x| / 2 ^ F.f ≤ F.T.hi := by
    have h2 : |x| / 2 ^ F.f * 2 ^ F.f ≤ |x| := Int.ediv_mul_le _ hp.ne'
    by_contra hc
    push Not at hc
    nlinarith
  have hdR : F.T.InRange (x.natAbs / 2 ^ F.f : Nat) := by
    refine ⟨le_trans hz (by exact_mod_cast Nat.zero_le _), ?_⟩
    push_cast; exact hdivle
  have hdc : ((x.natAbs / 2 ^ F.f : Nat) : Int) = |x| / 2 ^ F.f := by push_cast; rfl
  unfold printSign
  by_cases hlo : F.T.signed = true ∧ x = -(2 ^ (F.T.bits - 1))
  · obtain ⟨hs, hlo⟩ := hlo
    have hB : (0 : Int) < 2 ^ (F.T.bits - 1) := by positivity
    refine ⟨0, ⟨by simpa using hz, by simp; omega⟩, ?_, hdR, ?_⟩
    · have : 2 ^ F.f ∣ x.natAbs := by
        have e : x.natAbs = 2 ^ (F.T.bits - 1) := by rw [hlo]; simp [Int.natAbs_pow]
        rw [e]; exact pow_dvd_pow _ hf2
      rw [Nat.mod_eq_zero_of_dvd this, Nat.zero_mod]
    · have hx0 : x < 0 := by omega
      rw [if_pos (by rw [signbitMask_eq h.valid hs]; exact hlo), if_pos hx0]
      have hdv : x / 2 ^ F.f = -(|x| / 2 ^ F.f) := by
        have : (2 : Int) ^ F.f ∣ x := by
          rw [hlo]; exact (pow_dvd_pow _ hf2).neg_right
        rw [abs_of_neg hx0, Int.neg_ediv_of_dvd this, neg_neg]
      have e1 : shr F.T x F.f = .ok (x / 2 ^ F.f) := by unfold shr; rw [if_pos hb]
      rw [e1, Res.bind_ok, hdv, ← hdc]
      have e2 : cnot F.P (-((x.natAbs / 2 ^ F.f : Nat) : Int)) = ((x.natAbs / 2 ^ F.f : Nat) : Int) - 1 := by
        unfold cnot
        have hpp : F.P.promote = F.P := by
          unfold FxTy.P IntTy.promote
          by_cases hc : F.T.bits < 32
          · rw [if_pos hc]; rfl
          · rw [if_neg hc, if_neg hc]
        rw [hpp, neg_neg]
        refine h.wrapP_ok ⟨?_, by have := hdR.2; omega⟩
        have h0 : (0 : Int) ≤ ((x.natAbs / 2 ^ F.f : Nat) : Int) := by exact_mod_cast Nat.zero_le _
        have h1 : F.T.lo ≤ -1 := by unfold IntTy.lo; simp only [hs, if_true]; omega
        omega
      rw [e2, sub_add_cancel, h.arithP_ok hdR, Res.bind_ok, h.wrap_ok hdR]
      rfl
  · have hm : x ≠ signbitMask F := by
      cases hs : F.T.signed
      · rw [signbitMask_unsigned h.valid hs]; rcases hu with hu | hu <;> simp_all
      · rw [signbitMask_eq h.valid hs]; exact fun hc => hlo ⟨hs, hc⟩
    rw [if_neg hm]
    have hvR : F.T.InRange (x.natAbs : Int) := by
      rw [hnat]; obtain ⟨a, b⟩ := hx
      refine ⟨by have := abs_nonneg x; omega, ?_⟩
      unfold IntTy.lo at a; unfold IntTy.hi at b ⊢
      cases hs : F.T.signed <;> simp only [hs, if_true, Bool.false_eq_true, if_false, true_and] at a b hlo ⊢ <;> rw [abs_le] <;>
        constructor <;> omega
    refine ⟨x.natAbs, hvR, rfl, hdR, ?_⟩
    by_cases h0 : x < 0
    · rw [if_pos h0, if_pos h0]
      have en : -x = (x.natAbs : Int) := by omega
      rw [en, h.arithP_ok hvR, Res.bind_ok, h.wrap_ok hvR]
      have e1 : shr F.T (x.natAbs : Int) F.f = .ok ((x.natAbs / 2 ^ F.f : Nat) : Int) := by unfold shr; rw [if_pos hb]; push_cast; rfl
      rw [e1, Res.bind_ok, h.wrap_ok hdR]; rfl
    · rw [if_neg h0, if_neg h0]
      have en : x = (x.natAbs : Int) := by omega
      have e1 : shr F.T x F.f = .ok ((x.natAbs / 2 ^ F.f : Nat) : Int) := by
        unfold shr; rw [if_pos hb]; push_cast; rw [abs_of_nonneg (by omega)]
      rw [e1, Res.bind_ok, h.wrap_ok hdR, ← en]; rfl

/-- The general statement, for every storage type and every even base whose product with `2^f` is representable: `copy_as_chars_to`
writes the canonical numeral of the represented number. -/
theorem print_numeral {F : FxTy} (h : PN F) {b : Nat} (hb2 : 2 ≤ b) (hb16 : b ≤ 16) (hev : 2 ∣ b) (hfit : F.T.InRange (b * 2 ^ F.f : Nat))
    (up : Bool) {x : Int} (hx : Storable F x) (hu : F.T.signed = true ∨ x ≠ 2 ^ (F.T.bits - 1)) :
    ∃ s, copyAsChars F x b up = .ok s ∧ IsNumeral b up s (val F x) := by
  obtain ⟨v, hvR, hvm, hiR, hs⟩ := printSign_ok h hx hu
  have hp : (0 : Int) < 2 ^ F.f := by positivity
  have hpn : 0 < 2 ^ F.f := by positivity
  have hf2 : F.f ≤ F.T.bits - 1 := h.valid.2.2.2.2.2
  have hbt : F.f < F.T.promote.bits := h.valid.flt_p
  have hone : F.T.wrap (2 ^ F.f) = 2 ^ F.f := h.wrap_ok h.one
  have e1 : shl F.T 1 F.f = .ok (2 ^ F.f) := by unfold shl; rw [if_pos hbt, one_mul]; exact congrArg Res.ok (h.wrapP_ok h.one)
  have e2 : cmod F.P (v : Int) (2 ^ F.f) = .ok ((x.natAbs % 2 ^ F.f : Nat) : Int) := by
    rw [← hvm, ← h.cmodP_ok hvR hpn]; push_cast; rfl
  have hmR : F.T.InRange ((x.natAbs % 2 ^ F.f : Nat) : Int) :=
    PN.nat_in (c := 2 ^ F.f) (by push_cast; exact h.one) (Nat.mod_lt x.natAbs hpn).le
  have hneg : val F x < 0 ↔ x < 0 := by rw [← val_zero F, val_lt]
  have habs : |val F x| = ((x.natAbs / 2 ^ F.f : Nat) : ℚ) + ((x.natAbs % 2 ^ F.f : Nat) : ℚ) / ((2 ^ F.f : Nat) : ℚ) := by
    have hq : ((2 ^ F.f : Nat) : ℚ) ≠ 0 := by positivity
    rw [← mul_right_inj' hq, mul_add, mul_div_cancel₀ _ hq]
    have e : |val F x| = (x.natAbs : ℚ) / 2 ^ F.f := by
      unfold val
      rw [abs_div, abs_of_pos (by positivity : (0 : ℚ) < 2 ^ F.f)]
      congr 1
      rw [← Int.cast_abs, Int.abs_eq_natAbs]; rfl
    rw [e]
    have := Nat.div_add_mod x.natAbs (2 ^ F.f)
    have h2 : ((2 ^ F.f * (x.natAbs / 2 ^ F.f) + x.natAbs % 2 ^ F.f : Nat) : ℚ) = x.natAbs := by rw [this]
    push_cast at h2 ⊢
    rw [h2]; field_simp
  -- integer digits
  obtain ⟨is, his, hisb, hisz, hisv⟩ : ∃ is : List Nat, ((x.natAbs / 2 ^ F.f = 0 → is = [0]) ∧
      (x.natAbs / 2 ^ F.f ≠ 0 → is = (Nat.digits b (x.natAbs / 2 ^ F.f)).reverse)) ∧ (∀ d ∈ is, d < b) ∧ NoLeadingZero is ∧
      digitsVal b is = x.natAbs / 2 ^ F.f := by
    by_cases h0 : x.natAbs / 2 ^ F.f = 0
    · refine ⟨[0], ⟨fun _ => rfl, fun hc => absurd h0 hc⟩, ?_, Or.inl rfl, by rw [h0]; simp [digitsVal]⟩
      intro d hd
      rw [List.mem_singleton] at hd
      omega
    · refine ⟨_, ⟨fun hc => absurd hc h0, fun _ => rfl⟩, ?_, noLeadingZero_digits hb2 h0, ?_⟩
      · intro d hd
        exact Nat.digits_lt_base (by omega) (List.mem_reverse.1 hd)
      · rw [digitsVal_reverse, Nat.ofDigits_digits]
  -- fraction digits
  have hfr := h.printFrac_ok up hb2 hb16 F.f (x.natAbs % 2 ^ F.f) (2 ^ F.f)
    ((if x < 0 then ['-'] else []) ++ is.map (digitOf up) ++ ['.']) (Nat.mod_lt _ hpn)
    (Dvd.dvd.mul_left (pow_dvd_pow_of_dvd hev F.f) _) hfit
  obtain ⟨fs, f1, f2, f3, f4, f5, f6⟩ := hfr
  refine ⟨(if x < 0 then ['-'] else []) ++ is.map (digitOf up) ++ (if fs = [] then [] else '.' :: fs.map (digitOf up)), ?_, is, fs, ?_, hisb, f2, hisz, f6, ?_⟩
  · unfold copyAsChars
    have hint : (if ((x.natAbs / 2 ^ F.f : Nat) : Int) = 0 then (pure ([], (if x < 0 then ['-'] else []) ++ ['0']) : Res (List Char × List Char))
        else printInt F up b (F.T.bits + 1) ((x.natAbs / 2 ^ F.f : Nat) : Int) [] (if x < 0 then ['-'] else [])) =
        .ok (if x.natAbs / 2 ^ F.f = 0 then [] else is.map (digitOf up), (if x < 0 then ['-'] else []) ++ (if x.natAbs / 2 ^ F.f = 0 then is.map (digitOf up) else [])) := by
      by_cases h0 : x.natAbs / 2 ^ F.f = 0
      · rw [if_pos (by rw [h0]; rfl), if_pos h0, if_pos h0, his.1 h0]; rfl
      · rw [if_neg (by exact_mod_cast h0), if_neg h0, if_neg h0, his.2 h0]
        have hbits : F.T.bits ≤ 64 := by
          have := h.valid.1; omega
        have hlt : x.natAbs / 2 ^ F.f < 2 ^ F.T.bits := by
          have h1 := hiR.2
          have h2 : F.T.hi < 2 ^ F.T.bits := by
            have : (2 : Int) ^ (F.T.bits - 1) ≤ 2 ^ F.T.bits := pow_le_pow_right₀ (by norm_num) (by omega)
            unfold IntTy.hi; split <;> omega
          have h3 : ((x.natAbs / 2 ^ F.f : Nat) : Int) < ((2 ^ F.T.bits : Nat) : Int) := by push_cast at h1 ⊢; omega
          exact_mod_cast h3
        have := h.printInt_ok up hb2 hb16 F.T.bits (x.natAbs / 2 ^ F.f) [] (if x < 0 then ['-'] else []) hlt hiR (by simp; omega)
        rw [this]; simp
    simp only [e1, Res.bind_ok, hone, hs, e2, h.wrap_ok hmR]
    have hjoin : (if x < 0 then ['-'] else []) ++ (if x.natAbs / 2 ^ F.f = 0 then is.map (digitOf up) else []) ++
        (if x.natAbs / 2 ^ F.f = 0 then [] else is.map (digitOf up)) = (if x < 0 then ['-'] else []) ++ is.map (digitOf up) := by
      by_cases h0 : x.natAbs / 2 ^ F.f = 0
      · rw [if_pos h0, if_pos h0, List.append_nil]
      · rw [if_neg h0, if_neg h0, List.append_nil]
    have fin : ∀ z : List Char, z = (if x < 0 then ['-'] else []) ++ is.map (digitOf up) →
        (if ((x.natAbs % 2 ^ F.f : Nat) : Int) ≠ 0 then printFrac F up b F.f ((x.natAbs % 2 ^ F.f : Nat) : Int) (2 ^ F.f) (z ++ ['.']) else pure z) =
        .ok ((if x < 0 then ['-'] else []) ++ is.map (digitOf up) ++ (if fs = [] then [] else '.' :: fs.map (digitOf up))) := by
      intro z hz
      by_cases h0 : x.natAbs % 2 ^ F.f = 0
      · rw [if_neg (by rw [h0]; simp), f4 h0, hz]; simp
      · rw [if_pos (by exact_mod_cast h0), hz]
        have := f1
        push_cast at this ⊢
        rw [this, if_neg (f5 h0)]; simp
    by_cases h0 : ((x.natAbs / 2 ^ F.f : Nat) : Int) = 0
    · rw [if_pos h0] at hint ⊢
      rw [hint]
      simp only [Res.bind_ok]
      exact fin _ hjoin
    · rw [if_neg h0] at hint ⊢
      rw [hint]
      simp only [Res.bind_ok]
      exact fin _ hjoin
  · by_cases h0 : x < 0
    · rw [if_pos h0, if_pos (hneg.2 h0)]
    · rw [if_neg h0, if_neg (fun hc => h0 (hneg.1 hc))]
  · rw [habs, hisv, f3]

/-- C45: for `fixed32` and `fixed64`, every value (the minimum included): the text written by `operator<<` in decimal mode is the
canonical decimal numeral of exactly the represented number. -/
theorem C45_decimal (F : FxTy) (hF : F = fixed32 ∨ F = fixed64) (x : Int) (hx : Storable F x) (oct up : Bool) :
    ∃ s, streamOut F x false true oct up = .ok s ∧ IsNumeral 10 up s (val F x) := by
  rcases hF with rfl | rfl
  · exact print_numeral sw32.pn (b := 10) (by norm_num) (by norm_num) (by norm_num) (by decide) up hx (Or.inl rfl)
  · exact print_numeral sw64.pn (b := 10) (by norm_num) (by norm_num) (by norm_num) (by decide) up hx (Or.inl rfl)

/-- C45 for every signed storage type of 32 or 64 bits (rounding or not) with room for one decimal digit above the fraction. -/
theorem C45_generic (F : FxTy) (hF : F.Valid) (hs : SignedWide F) (hfit : 10 * 2 ^ F.f ≤ F.T.hi) (x : Int) (hx : Storable F x) (up : Bool) :
    ∃ s, copyAsChars F x 10 up = .ok s ∧ IsNumeral 10 up s (val F x) := by
  have hp : (0 : Int) < 2 ^ F.f := by positivity
  have hlo : F.T.lo ≤ 0 := by unfold IntTy.lo; split <;> [exact neg_nonpos.2 (by positivity); exact le_rfl]
  have h : SW F := ⟨hF, hs, ⟨by omega, by omega⟩⟩
  exact print_numeral h.pn (b := 10) (by norm_num) (by norm_num) (by norm_num) ⟨by push_cast; omega, by push_cast; omega⟩ up hx (Or.inl hs.1)

/-- C46: with `std::hex`, `std::oct` or no base flag, the text is the canonical numeral of exactly the represented number in base 16,
8 or 2. -/
theorem C46_bases (F : FxTy) (hF : F = fixed32 ∨ F = fixed64) (x : Int) (hx : Storable F x) (dec oct up : Bool) :
    (∃ s, streamOut F x true dec oct up = .ok s ∧ IsNumeral 16 up s (val F x)) ∧
    (∃ s, streamOut F x false false true up = .ok s ∧ IsNumeral 8 up s (val F x)) ∧
    (∃ s, streamOut F x false false false up = .ok s ∧ IsNumeral 2 up s (val F x)) := by
  rcases hF with rfl | rfl
  · exact ⟨print_numeral sw32.pn (b := 16) (by norm_num) (by norm_num) (by norm_num) (by decide) up hx (Or.inl rfl),
      print_numeral sw32.pn (b := 8) (by norm_num) (by norm_num) (by norm_num) (by decide) up hx (Or.inl rfl),
      print_numeral sw32.pn (b := 2) (by norm_num) (by norm_num) (by norm_num) (by decide) up hx (Or.inl rfl)⟩
  · exact ⟨print_numeral sw64.pn (b := 16) (by norm_num) (by norm_num) (by norm_num) (by decide) up hx (Or.inl rfl),
      print_numeral sw64.pn (b := 8) (by norm_num) (by norm_num) (by norm_num) (by decide) up hx (Or.inl rfl),
      print_numeral sw64.pn (b := 2) (by norm_num) (by norm_num) (by norm_num) (by decide) up hx (Or.inl rfl)⟩

example : streamOut fixed32 (-98765) false true false false = .ok "-1.5070343017578125".toList ∧
    streamOut fixed32 (-2 ^ 31) false true false false = .ok "-32768".toList ∧
    streamOut fixed32 98765 true false false true = .ok "1.81CD".toList ∧
    streamOut fixed64 (3 * 2 ^ 31) false false true false = .ok "1.4".toList ∧
    streamOut fixed32 0 false true false false = .ok "0".toList ∧ streamOut fixed32 (-1) false false false false = .ok "-0.0000000000000001".toList := by
  decide +kernel

/-- The limits of C45: with 30 fraction bits in 32-bit storage the scaling by ten overflows, and an unsigned value equal to the
would-be sign bit is printed with a minus sign. -/
example : copyAsChars ⟨i32, i64, 30, false⟩ 5 10 false = .ub .overflow ∧
    copyAsChars ⟨u32, u64, 16, false⟩ (2 ^ 31) 10 false = .ok "-4294934528".toList := by decide +kernel

/-- C45: exactly what reading the digit table does: the character of the digit for 0 to 15, the terminating NUL at 16, out of bounds
elsewhere. -/
theorem C45_digit (up : Bool) (d : Int) :
    (0 ≤ d → d < 10 → digitAt up d = .ok (Char.ofNat (48 + d.toNat))) ∧
    (10 ≤ d → d < 16 → digitAt up d = .ok (Char.ofNat ((if up then 55 else 87) + d.toNat))) ∧
    (d = 16 → digitAt up d = .ok (Char.ofNat 0)) ∧ (d < 0 ∨ 16 < d → digitAt up d = .ub .bounds) := by
  refine ⟨fun h1 h2 => ?_, fun h1 h2 => ?_, fun h => by subst h; rfl, fun h => ?_⟩
  · interval_cases d <;> cases up <;> rfl
  · interval_cases d <;> cases up <;> rfl
  · unfold digitAt
    rcases h with h | h
    · rw [if_pos h]
    · rw [if_neg (by omega), if_neg (by omega), List.getElem?_eq_none]
      have : (digitTable up).length = 16 := by cases up <;> rfl
      omega

example : digitAt true 11 = .ok 'B' ∧ digitAt false 11 = .ok 'b' ∧ digitAt true (-1) = .ub .bounds := by decide

end Eirin.Props
