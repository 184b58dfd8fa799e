import Verif.Lemmas.Parse
import Mathlib.Algebra.Order.Floor.Semifield
import Mathlib.Data.Rat.Floor

/-! # Evaluation of the text parsers on decimal numerals -/

namespace Eirin
open Spec

namespace WS
variable {W : IntTy} (h : WS W)
include h

theorem shl_ok {n f : Nat} (hf : f < W.bits) (hn : ((n * 2 ^ f : Nat) : Int) ≤ W.hi) : shl W n f = .ok ((n * 2 ^ f : Nat) : Int) := by
  unfold shl
  rw [h.prom, if_pos hf]
  have := h.wrap_nat hn
  push_cast at this ⊢
  rw [this]

theorem scaleParts_ok {ip dec dv f : Nat} (hf : f < W.bits) (hdv : 0 < dv) (h1 : ((dec * 2 ^ f : Nat) : Int) ≤ W.hi)
    (h2 : ((ip * 2 ^ f + dec * 2 ^ f / dv : Nat) : Int) ≤ W.hi) :
    scaleParts W f ip dec dv = .ok ((ip * 2 ^ f + dec * 2 ^ f / dv : Nat) : Int) := by
  unfold scaleParts
  have h3 : ((ip * 2 ^ f : Nat) : Int) ≤ W.hi := le_trans (by exact_mod_cast Nat.le_add_right _ _) h2
  have hq : W.InRange ((dec * 2 ^ f / dv : Nat) : Int) := h.nat_in (le_trans (by exact_mod_cast Nat.div_le_self _ _) h1)
  have ec : cdiv W ((dec * 2 ^ f : Nat) : Int) dv = .ok ((dec * 2 ^ f / dv : Nat) : Int) := by
    unfold cdiv
    rw [if_neg (by exact_mod_cast hdv.ne'), ← Int.ofNat_tdiv, if_neg (by rintro ⟨-, hc⟩; exact hc hq)]
  rw [h.shl_ok hf h3, h.shl_ok hf h1, Res.bind_ok, Res.bind_ok, h.prom, ec, Res.bind_ok]
  have := h.arith_nat h2
  push_cast at this ⊢
  exact this

end WS

/-- A type whose values pass unchanged through arithmetic with `int` operands, whatever the promotions. -/
structure WG (W : IntTy) : Prop where
  pos : 0 < W.bits
  lo0 : W.lo ≤ 0
  bp : W.bits ≤ W.promote.bits
  com : ∀ n, W.InRange n → (W.common i32).InRange n
  prom : ∀ n, W.InRange n → W.promote.InRange n
  cpos : 0 < (W.common i32).bits

theorem WS.wg {W : IntTy} (h : WS W) : WG W :=
  ⟨h.pos, h.lo_nonpos, by rw [h.prom], fun n hn => by rw [h.com]; exact hn, fun n hn => by rw [h.prom]; exact hn, by rw [h.com]; exact h.pos⟩

namespace WG
variable {W : IntTy} (h : WG W)
include h

theorem nat_in {n : Nat} (hn : (n : Int) ≤ W.hi) : W.InRange n := ⟨le_trans h.lo0 (by positivity), hn⟩
theorem arith_nat {n : Nat} (hn : (n : Int) ≤ W.hi) : arith (W.common i32) n = .ok (n : Int) := arith_of_inRange h.cpos (h.com _ (h.nat_in hn))
theorem wrap_nat {n : Nat} (hn : (n : Int) ≤ W.hi) : W.wrap n = n := IntTy.wrap_of_inRange h.pos (h.nat_in hn)

theorem accDigit_ok {a d : Nat} (hd : d < 10) (hn : ((a * 10 + d : Nat) : Int) ≤ W.hi) :
    accDigit W a (digitOf false d) = .ok ((a * 10 + d : Nat) : Int) := by
  unfold accDigit
  have h1 : ((a * 10 : Nat) : Int) ≤ W.hi := le_trans (by push_cast; omega) hn
  have e1 : arith (W.common i32) ((a : Int) * 10) = .ok ((a * 10 : Nat) : Int) := by rw [← h.arith_nat h1]; push_cast; rfl
  have e2 : arith (W.common i32) (((a * 10 : Nat) : Int) + d) = .ok ((a * 10 + d : Nat) : Int) := by rw [← h.arith_nat hn]; push_cast; rfl
  rw [e1, Res.bind_ok, digitVal_digitOf hd, e2, Res.bind_ok, h.wrap_nat hn]; rfl

theorem mulTen_ok {d : Nat} (hn : ((d * 10 : Nat) : Int) ≤ W.hi) : mulTen W d = .ok ((d * 10 : Nat) : Int) := by
  unfold mulTen
  have e1 : arith (W.common i32) ((d : Int) * 10) = .ok ((d * 10 : Nat) : Int) := by rw [← h.arith_nat hn]; push_cast; rfl
  rw [e1, Res.bind_ok, h.wrap_nat hn]; rfl

/-- The integer loop consumes a digit string. -/
theorem intLenient_digits (t : List Char) : ∀ (ds : List Nat) (a : Nat), Decimal ds → ((acc a ds : Nat) : Int) ≤ W.hi →
    intLenient W (ds.map (digitOf false) ++ t) a = intLenient W t (acc a ds) := by
  intro ds
  induction ds with
  | nil => intro a _ _; rfl
  | cons d ds ih =>
    intro a hd hn
    rw [acc_cons] at hn ⊢
    have h10 := hd.head
    have hle : ((a * 10 + d : Nat) : Int) ≤ W.hi := le_trans (by exact_mod_cast le_acc _ ds) hn
    rw [List.map_cons, List.cons_append]
    conv_lhs => unfold intLenient
    rw [if_neg (digitOf_ne_dot h10), isDigit_digitOf h10, h.accDigit_ok h10 hle]
    exact ih _ hd.tail hn

/-- The fraction loop consumes a digit string as long as the running value has not exceeded the limit. -/
theorem fracLenient_digits (lim : Nat) (t : List Char) (hl : ((lim * 10 + 9 : Nat) : Int) ≤ W.hi) :
    ∀ (ds : List Nat) (a dv : Nat), Decimal ds → (∀ p d q, ds = p ++ d :: q → acc a p ≤ lim) →
      ((dv * 10 ^ ds.length : Nat) : Int) ≤ W.hi →
      fracLenient W lim (ds.map (digitOf false) ++ t) a dv = fracLenient W lim t (acc a ds) (dv * 10 ^ ds.length : Nat) := by
  intro ds
  induction ds with
  | nil => intro a dv _ _ _; simp
  | cons d ds ih =>
    intro a dv hd hp hn
    have h10 := hd.head
    have ha : a ≤ lim := hp [] d ds rfl
    have hle : ((a * 10 + d : Nat) : Int) ≤ W.hi := le_trans (by push_cast; omega) hl
    have e : dv * 10 ^ (ds.length + 1) = dv * 10 * 10 ^ ds.length := by rw [pow_succ]; ring
    rw [List.length_cons, e] at hn
    have hdv : ((dv * 10 : Nat) : Int) ≤ W.hi := le_trans (by exact_mod_cast Nat.le_mul_of_pos_right _ (by positivity)) hn
    rw [List.map_cons, List.cons_append, List.length_cons, e, acc_cons]
    conv_lhs => unfold fracLenient
    rw [if_neg (by rw [isDigit_digitOf h10]; push Not; exact ⟨by exact_mod_cast ha, by simp⟩), h.accDigit_ok h10 hle, Res.bind_ok,
      h.mulTen_ok hdv, Res.bind_ok]
    refine ih _ _ hd.tail ?_ hn
    intro p d' q hq
    have := hp (d :: p) d' q (by rw [hq]; rfl)
    rwa [acc_cons] at this

theorem ppos : 0 < W.promote.bits := lt_of_lt_of_le h.pos h.bp

theorem shl_ok {n f : Nat} (hf : f < W.bits) (hn : ((n * 2 ^ f : Nat) : Int) ≤ W.hi) : shl W n f = .ok ((n * 2 ^ f : Nat) : Int) := by
  unfold shl
  rw [if_pos (lt_of_lt_of_le hf h.bp)]
  have := IntTy.wrap_of_inRange h.ppos (h.prom _ (h.nat_in hn))
  push_cast at this ⊢
  rw [this]

theorem scaleParts_ok {ip dec dv f : Nat} (hf : f < W.bits) (hdv : 0 < dv) (h1 : ((dec * 2 ^ f : Nat) : Int) ≤ W.hi)
    (h2 : ((ip * 2 ^ f + dec * 2 ^ f / dv : Nat) : Int) ≤ W.hi) :
    scaleParts W f ip dec dv = .ok ((ip * 2 ^ f + dec * 2 ^ f / dv : Nat) : Int) := by
  unfold scaleParts
  have h3 : ((ip * 2 ^ f : Nat) : Int) ≤ W.hi := le_trans (by exact_mod_cast Nat.le_add_right _ _) h2
  have hq : W.promote.InRange ((dec * 2 ^ f / dv : Nat) : Int) :=
    h.prom _ (h.nat_in (le_trans (by exact_mod_cast Nat.div_le_self _ _) h1))
  have ec : cdiv W.promote ((dec * 2 ^ f : Nat) : Int) dv = .ok ((dec * 2 ^ f / dv : Nat) : Int) := by
    unfold cdiv
    rw [if_neg (by exact_mod_cast hdv.ne'), ← Int.ofNat_tdiv, if_neg (by rintro ⟨-, hc⟩; exact hc hq)]
  rw [h.shl_ok hf h3, h.shl_ok hf h1, Res.bind_ok, Res.bind_ok, ec, Res.bind_ok]
  have := arith_of_inRange h.ppos (h.prom _ (h.nat_in h2))
  push_cast at this ⊢
  exact this

end WG

/-- cut-off limit of the fraction loop, as a natural number -/
def cutLim (F : FxTy) : Nat := (2 ^ F.f - 1) / 10

/-- What the evaluation of the parsers needs to know about the type. -/
structure PS (F : FxTy) : Prop where
  sw : SW F
  ws : WS F.I
  fb : F.f < F.I.bits
  limD : limDetail F = cutLim F
  limG : limGeneric F = .ok (cutLim F : Int)
  fits : (((cutLim F * 10 + 9) * 2 ^ F.f : Nat) : Int) ≤ F.I.hi
  hiI : F.I.wrap F.T.hi = F.T.hi
  loI : F.I.wrap F.T.lo = F.T.lo

theorem ps32 : PS fixed32 := ⟨sw32, ws64, by decide, by decide +kernel, by decide +kernel, by decide +kernel, by decide +kernel, by decide +kernel⟩
theorem ps64 : PS fixed64 := ⟨sw64, ws128, by decide, by decide +kernel, by decide +kernel, by decide +kernel, by decide +kernel, by decide +kernel⟩

/-- After the cut-off (`k` digits with a value above the limit) less than `c` ulp of the numeral can be left. -/
def TailFits (F : FxTy) (c : ℚ) : Prop := ∀ k : Nat, cutLim F < 10 ^ k → (2 : ℚ) ^ F.f ≤ c * 10 ^ k

theorem tailFits_of {F : FxTy} {c : ℚ} (hc : 0 ≤ c) (m : Nat) (h1 : (2 : ℚ) ^ F.f ≤ c * 10 ^ m) (h2 : m ≠ 0 → 10 ^ (m - 1) ≤ cutLim F) :
    TailFits F c := by
  intro k hk
  have hmk : m ≤ k := by
    by_contra hc
    have h3 := h2 (by omega)
    have h4 : 10 ^ k ≤ 10 ^ (m - 1) := Nat.pow_le_pow_right (by norm_num) (by omega)
    omega
  exact le_trans h1 (mul_le_mul_of_nonneg_left (pow_le_pow_right₀ (by norm_num) hmk) hc)

theorem tail32 : TailFits fixed32 7 := tailFits_of (by norm_num) 4 (by norm_num [fixed32]) (by decide +kernel)
theorem tail64 : TailFits fixed64 7 := tailFits_of (by norm_num) 9 (by norm_num [fixed64]) (by decide +kernel)
theorem tail_any (F : FxTy) : TailFits F 10 := by
  intro k hk
  have h1 : 2 ^ F.f ≤ 10 * 10 ^ k := by
    unfold cutLim at hk
    have : 0 < 2 ^ F.f := by positivity
    omega
  exact_mod_cast h1

theorem takeSign_numeral (neg : Bool) {is : List Nat} (his : Decimal is) (fs : Option (List Nat)) :
    takeSign (numeral neg is fs) = (neg, numeral false is fs) := by
  cases neg
  · unfold numeral
    cases is with
    | nil => cases fs <;> rfl
    | cons d is =>
      simp only [Bool.false_eq_true, if_false, List.nil_append, List.map_cons, List.cons_append]
      exact if_neg (digitOf_ne_minus his.head)
  · rfl

theorem storeParsed_nat {F : FxTy} (h : PS F) (neg : Bool) (raw : Nat) (old : Int) :
    storeParsed F neg raw old =
      .ok (if (raw : Int) ≤ F.T.hi then (true, if neg then -(raw : Int) else raw) else (false, old)) := by
  unfold storeParsed
  have hlo : F.T.lo ≤ 0 := h.sw.zero_in.1
  have hlh := h.sw.lo_hi
  rw [h.hiI, h.loI]
  by_cases hc : (raw : Int) ≤ F.T.hi
  · have hin : F.T.InRange raw := ⟨by omega, hc⟩
    have hin' : F.T.InRange (-(raw : Int)) := ⟨by omega, by omega⟩
    rw [if_neg (by omega), if_pos hc, h.sw.from_ok hin]
    cases neg
    · rfl
    · rw [if_pos rfl, h.sw.neg_ok hin']; rfl
  · rw [if_pos (Or.inl (by omega)), if_neg hc]

/-- What the stored magnitude is, relative to the numeral, when at most `c` ulp are lost to the cut-off. -/
structure RawC (F : FxTy) (c : ℚ) (is : List Nat) (fs : Option (List Nat)) (raw : Nat) : Prop where
  pre : ∃ p q, fracDigits fs = p ++ q ∧ (q ≠ [] → cutLim F < acc 0 p) ∧ raw = ⌊(digitsVal 10 is + fracVal 10 p) * 2 ^ F.f⌋₊
  low : digitsVal 10 is * 2 ^ F.f ≤ raw
  le : (raw : ℚ) ≤ numeralMag is fs * 2 ^ F.f
  lt : numeralMag is fs * 2 ^ F.f < raw + c + 1
  exact1 : fracVal 10 (fracDigits fs) = 0 → raw = digitsVal 10 is * 2 ^ F.f

/-- The same for the predefined types. -/
abbrev RawOf (F : FxTy) (is : List Nat) (fs : Option (List Nat)) (raw : Nat) : Prop := RawC F 7 is fs raw

/-- The result of a parse that computed the magnitude `raw`. -/
def parsedOut (F : FxTy) (neg : Bool) (raw : Nat) (old : Int) : Res (Bool × Int) :=
  .ok (if (raw : Int) ≤ F.T.hi then (true, if neg then -(raw : Int) else raw) else (false, old))

theorem floor_split (ip dec k f : Nat) :
    ⌊((ip : ℚ) + (dec : ℚ) / 10 ^ k) * 2 ^ f⌋₊ = ip * 2 ^ f + dec * 2 ^ f / 10 ^ k := by
  have e : ((ip : ℚ) + (dec : ℚ) / 10 ^ k) * 2 ^ f = ((ip * 2 ^ f : Nat) : ℚ) + ((dec * 2 ^ f : Nat) : ℚ) / ((10 ^ k : Nat) : ℚ) := by
    push_cast; ring
  rw [e, add_comm, Nat.floor_add_natCast (by positivity), Nat.floor_div_eq_div, add_comm]

/-- What the evaluation of a numeral needs to know about the type; `out` is what is stored for a sign and a magnitude. -/
structure PG (F : FxTy) (out : Bool → Nat → Int → Res (Bool × Int)) : Prop where
  ws : WG F.I
  fb : F.f < F.I.bits
  limD : limDetail F = cutLim F
  limG : limGeneric F = .ok (cutLim F : Int)
  fits : (((cutLim F * 10 + 9) * 2 ^ F.f : Nat) : Int) ≤ F.I.hi
  st : ∀ neg (raw : Nat) old, (raw : Int) ≤ F.I.hi → storeParsed F neg raw old = out neg raw old

theorem PS.pg {F : FxTy} (h : PS F) : PG F (parsedOut F) :=
  ⟨h.ws.wg, h.fb, h.limD, h.limG, h.fits, fun neg raw old _ => storeParsed_nat h neg raw old⟩

theorem parse_numeral_g {F : FxTy} {out : Bool → Nat → Int → Res (Bool × Int)} (h : PG F out) {c : ℚ} (hc : TailFits F c) (neg : Bool) {is : List Nat} {fs : Option (List Nat)} (his : Decimal is)
    (hfs : Decimal (fracDigits fs)) (hip : (((digitsVal 10 is + 1) * 2 ^ F.f : Nat) : Int) ≤ F.I.hi) (K : Nat)
    (hK : ((10 ^ (K + 1) : Nat) : Int) ≤ F.I.hi)
    (hlen : (fracDigits fs).length ≤ K + 1 ∨ ((cutLim F + 1 : Nat) : ℚ) / 10 ^ (K + 1) ≤ fracVal 10 (fracDigits fs)) (old : Int) :
    ∃ raw : Nat, RawC F c is fs raw ∧ parseDetail F (numeral neg is fs) old = out neg raw old ∧
      fixedFromCstring F (numeral neg is fs) old = out neg raw old := by
  obtain ⟨p, q, epq, hq, hp⟩ := cut_split (cutLim F) (fracDigits fs) 0
  have hpd : Decimal p := by rw [epq] at hfs; exact hfs.left
  have hqd : Decimal q := by rw [epq] at hfs; exact hfs.right
  set ip := digitsVal 10 is with hipdef
  have hpos : 0 < 2 ^ F.f := by positivity
  have hposq : (0 : ℚ) < 2 ^ F.f := by positivity
  have hdec : acc 0 p ≤ cutLim F * 10 + 9 := by
    rcases List.eq_nil_or_concat p with rfl | ⟨p', d, rfl⟩
    · simp
    · have h1 := hp p' d [] (by simp)
      have h2 : d < 10 := hpd d (by simp)
      rw [List.concat_eq_append, acc_append]
      simp only [acc_cons, acc_nil]
      omega
  have hplen : p.length ≤ K + 1 := by
    rcases hlen with hl | hl
    · rw [epq, List.length_append] at hl; omega
    · rcases List.eq_nil_or_concat p with rfl | ⟨p', d, rfl⟩
      · simp
      · have h1 := hp p' d [] (by simp)
        by_contra hc
        simp only [List.concat_eq_append, List.length_append, List.length_singleton] at hc
        have e : fracDigits fs = p' ++ (d :: q) := by rw [epq]; simp
        have hd' : Decimal (d :: q) := by rw [e] at hfs; exact hfs.right
        have h3 := fracVal_lt hd'
        rw [e, fracVal_append, fracVal_eq p'] at hl
        have h4 : fracVal 10 (d :: q) / 10 ^ p'.length < 1 / 10 ^ p'.length := by
          rw [div_lt_div_iff_of_pos_right (by positivity)]; exact h3
        have h5 : ((cutLim F + 1 : Nat) : ℚ) / 10 ^ (K + 1) < ((acc 0 p' : ℚ) + 1) / 10 ^ p'.length := by
          rw [add_div]; linarith
        have h6 : ((acc 0 p' : ℚ) + 1) / 10 ^ p'.length ≤ ((cutLim F + 1 : Nat) : ℚ) / 10 ^ (K + 1) := by
          apply div_le_div₀ (by positivity)
          · push_cast; have : (acc 0 p' : ℚ) ≤ cutLim F := by exact_mod_cast h1
            linarith
          · positivity
          · exact pow_le_pow_right₀ (by norm_num) (by omega)
        linarith
  have hplen10 : ((1 * 10 ^ p.length : Nat) : Int) ≤ F.I.hi := by
    refine le_trans ?_ hK
    rw [one_mul]
    exact_mod_cast Nat.pow_le_pow_right (by norm_num) hplen
  have hpl : acc 0 p < 10 ^ p.length := acc_lt hpd
  have hfracle : acc 0 p * 2 ^ F.f / 10 ^ p.length < 2 ^ F.f := by
    rw [Nat.div_lt_iff_lt_mul (by positivity), mul_comm]
    exact Nat.mul_lt_mul_of_pos_left hpl hpos
  have hraw : ((ip * 2 ^ F.f + acc 0 p * 2 ^ F.f / 10 ^ p.length : Nat) : Int) ≤ F.I.hi := by
    refine le_trans ?_ hip
    rw [add_mul, one_mul]
    exact_mod_cast Nat.add_le_add_left hfracle.le _
  have hipI : ((acc 0 is : Nat) : Int) ≤ F.I.hi := by
    refine le_trans ?_ hip
    have : ip ≤ (ip + 1) * 2 ^ F.f := by nlinarith
    exact_mod_cast this
  have hshl : ((ip * 2 ^ F.f : Nat) : Int) ≤ F.I.hi := le_trans (by exact_mod_cast Nat.le_add_right _ _) hraw
  have hdecI : ((acc 0 p * 2 ^ F.f : Nat) : Int) ≤ F.I.hi :=
    le_trans (by exact_mod_cast Nat.mul_le_mul_right _ hdec) h.fits
  have hlimI : ((cutLim F * 10 + 9 : Nat) : Int) ≤ F.I.hi :=
    le_trans (by exact_mod_cast Nat.le_mul_of_pos_right _ hpos) h.fits
  have hsplit := floor_split ip (acc 0 p) p.length F.f
  rw [← fracVal_eq] at hsplit
  have hmag : numeralMag is fs = ip + fracVal 10 p + fracVal 10 q / 10 ^ p.length := by
    unfold numeralMag; rw [epq, fracVal_append]; ring
  have hc0 : 0 ≤ c := by
    have h1 := hc (cutLim F) (Nat.lt_pow_self (by norm_num))
    have h2 : (0 : ℚ) < c * 10 ^ cutLim F := lt_of_lt_of_le (by positivity) h1
    exact (pos_of_mul_pos_left h2 (by positivity)).le
  have hrest : fracVal 10 q / 10 ^ p.length * 2 ^ F.f ≤ c := by
    by_cases hq0 : q = []
    · subst hq0; simpa [fracVal] using hc0
    · have h1 := (fracVal_lt hqd).le
      have h2 := hc p.length (lt_trans (hq hq0) hpl)
      rw [div_mul_eq_mul_div, div_le_iff₀ (by positivity)]
      have := fracVal_nonneg q
      have h3 : fracVal 10 q * 2 ^ F.f ≤ 1 * 2 ^ F.f := mul_le_mul_of_nonneg_right h1 hposq.le
      linarith
  have hrest0 : 0 ≤ fracVal 10 q / 10 ^ p.length * 2 ^ F.f := by have := fracVal_nonneg q; positivity
  have hp0 := fracVal_nonneg p
  have hfl : ((ip * 2 ^ F.f + acc 0 p * 2 ^ F.f / 10 ^ p.length : Nat) : ℚ) ≤ (ip + fracVal 10 p) * 2 ^ F.f ∧
      (ip + fracVal 10 p) * 2 ^ F.f < ((ip * 2 ^ F.f + acc 0 p * 2 ^ F.f / 10 ^ p.length : Nat) : ℚ) + 1 := by
    rw [← hsplit]
    exact ⟨Nat.floor_le (by positivity), Nat.lt_floor_add_one _⟩
  refine ⟨ip * 2 ^ F.f + acc 0 p * 2 ^ F.f / 10 ^ p.length, ⟨⟨p, q, epq, hq, hsplit.symm⟩, Nat.le_add_right _ _, ?_, ?_, ?_⟩, ?_⟩
  · rw [hmag, add_mul]; linarith [hfl.1]
  · rw [hmag, add_mul]; linarith [hfl.2]
  · intro h0
    rw [epq, fracVal_append] at h0
    have h1 : fracVal 10 p = 0 := by
      have : 0 ≤ fracVal 10 q / 10 ^ p.length := by have := fracVal_nonneg q; positivity
      linarith
    rw [fracVal_eq, div_eq_zero_iff] at h1
    have h2 : acc 0 p = 0 := by
      rcases h1 with h1 | h1
      · exact_mod_cast h1
      · exact absurd h1 (by positivity)
    rw [h2, zero_mul, Nat.zero_div, Nat.add_zero]
  -- evaluation
  have hws := h.ws
  have eint : ∀ t, okInt t = true → intLenient F.I (is.map (digitOf false) ++ t) 0 = .ok ((ip : Int), t) := by
    intro t ht
    have := hws.intLenient_digits t is 0 his hipI
    rw [Nat.cast_zero] at this
    rw [this]
    cases t with
    | nil => rfl
    | cons c t =>
      unfold intLenient
      rw [if_pos (by simpa [okInt] using ht)]; rfl
  have hst := fun old => h.st neg _ old hraw
  cases hfs' : fs with
  | none =>
    subst hfs'
    have hp' : p = [] := by
      have : p ++ q = [] := by rw [← epq]; rfl
      exact (List.append_eq_nil_iff.1 this).1
    have e0 : ip * 2 ^ F.f + acc 0 p * 2 ^ F.f / 10 ^ p.length = ip * 2 ^ F.f := by rw [hp']; simp
    rw [e0] at hst ⊢
    have e1 := eint [] rfl
    constructor
    · unfold parseDetail
      rw [takeSign_numeral neg his]
      simp only [intStrict_eq, numeral, Bool.false_eq_true, if_false, List.nil_append, e1, Res.bind_ok, okInt, if_true,
        hws.shl_ok h.fb hshl, hws.wrap_nat hshl, hst]
    · unfold fixedFromCstring
      rw [takeSign_numeral neg his]
      simp only [numeral, Bool.false_eq_true, if_false, List.nil_append, e1, Res.bind_ok,
        hws.shl_ok h.fb hshl, hws.wrap_nat hshl, hst]
  | some ds =>
    subst hfs'
    have epq' : ds = p ++ q := epq
    have e1 := eint ('.' :: ds.map (digitOf false)) (by simp [okInt])
    have e2 : fracLenient F.I (cutLim F) (ds.map (digitOf false)) 0 1 =
        .ok ((acc 0 p : Int), ((10 ^ p.length : Nat) : Int), q.map (digitOf false)) := by
      have := hws.fracLenient_digits (cutLim F) (q.map (digitOf false)) hlimI p 0 1 hpd hp hplen10
      rw [one_mul, Nat.cast_zero, Nat.cast_one] at this
      rw [epq', List.map_append, this]
      cases q with
      | nil => rfl
      | cons d q =>
        rw [List.map_cons]
        unfold fracLenient
        rw [if_pos (Or.inl (by exact_mod_cast hq (by simp)))]
    have hok : okFrac (q.map (digitOf false)) = true := by
      cases q with
      | nil => rfl
      | cons d q => exact isDigit_digitOf hqd.head
    have hsc := hws.scaleParts_ok h.fb (by positivity : 0 < 10 ^ p.length) hdecI hraw
    constructor
    · unfold parseDetail
      rw [takeSign_numeral neg his]
      simp only [intStrict_eq, fracStrict_eq, numeral, Bool.false_eq_true, if_false, List.nil_append, e1, Res.bind_ok, okInt, if_true,
        decide_true, h.limD, e2, hok, hsc, hws.wrap_nat hraw, hst]
    · unfold fixedFromCstring
      rw [takeSign_numeral neg his]
      simp only [numeral, Bool.false_eq_true, if_false, List.nil_append, e1, Res.bind_ok,
        h.limG, e2, hsc, hws.wrap_nat hraw, hst]

theorem parse_numeral {F : FxTy} (h : PS F) {c : ℚ} (hc : TailFits F c) (neg : Bool) {is : List Nat} {fs : Option (List Nat)} (his : Decimal is)
    (hfs : Decimal (fracDigits fs)) (hip : (((digitsVal 10 is + 1) * 2 ^ F.f : Nat) : Int) ≤ F.I.hi) (K : Nat)
    (hK : ((10 ^ (K + 1) : Nat) : Int) ≤ F.I.hi)
    (hlen : (fracDigits fs).length ≤ K + 1 ∨ ((cutLim F + 1 : Nat) : ℚ) / 10 ^ (K + 1) ≤ fracVal 10 (fracDigits fs)) (old : Int) :
    ∃ raw, RawC F c is fs raw ∧ parseDetail F (numeral neg is fs) old = parsedOut F neg raw old ∧
      fixedFromCstring F (numeral neg is fs) old = parsedOut F neg raw old :=
  parse_numeral_g h.pg hc neg his hfs hip K hK hlen old

end Eirin
