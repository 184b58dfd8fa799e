import Mathlib.Algebra.Order.Floor.Semifield
import Verif.Lemmas.Format
import Verif.Props.Convert
import Verif.Props.RoundAll

/-! # C54–C57: `std::format` output -/

namespace Eirin.Props
open Spec

section
variable {F : FxTy} (h : PN F)
include h

theorem intPart_of_nonneg {x : Int} (hx : F.T.InRange x) (h0 : 0 ≤ x) :
    integralPart F x = .ok (x / 2 ^ F.f) ∧ F.T.InRange (x / 2 ^ F.f) := by
  have hp := SW.dpos (F := F)
  have hsb : ¬ signbit F x = true := by rw [signbit_iff h.valid hx]; omega
  have hr : F.T.InRange (x / 2 ^ F.f) := by
    have a := Int.ediv_nonneg h0 hp.le
    have b := Int.ediv_le_self (2 ^ F.f) h0
    exact ⟨by have := PN.lo_le (F := F); omega, by have := hx.2; omega⟩
  refine ⟨?_, hr⟩
  unfold integralPart
  rw [if_neg hsb]
  simp only [Res.pure_eq, Res.bind_ok, shr]
  rw [if_pos h.valid.flt_p, Res.bind_ok, h.wrap_ok hr]

end

section
variable {F : FxTy} (h : SW F)
include h

theorem intPart_neg {x : Int} (hx : F.T.InRange x) (h0 : x < 0) (hlo : F.T.lo ≤ x - 2 ^ F.f) :
    integralPart F x = .ok ((-x - 1 + 2 ^ F.f) / 2 ^ F.f) ∧ F.T.InRange ((-x - 1 + 2 ^ F.f) / 2 ^ F.f) := by
  have hp := SW.dpos (F := F)
  have lh := h.lo_hi
  have hsb : signbit F x = true := by rw [signbit_iff h.valid hx]; exact h0
  have r1 : F.T.InRange (-x - 1) := ⟨by omega, by omega⟩
  have r2 : F.T.InRange (-x - 1 + 2 ^ F.f) := ⟨by omega, by omega⟩
  have h2 : 0 ≤ -x - 1 + 2 ^ F.f := by omega
  have r3 : F.T.InRange ((-x - 1 + 2 ^ F.f) / 2 ^ F.f) := by
    have a := Int.ediv_nonneg h2 hp.le
    have b := Int.ediv_le_self (2 ^ F.f) h2
    exact ⟨by omega, by omega⟩
  refine ⟨?_, r3⟩
  unfold integralPart cnot shr
  rw [if_pos hsb, h.prom, h.one_eq, h.wrap_ok r1, h.wrap_ok r1]
  simp only []
  rw [h.arith_ok r2]
  simp only [Res.pure_eq, Res.bind_ok]
  rw [h.wrap_ok r2, if_pos h.valid.flt, Res.bind_ok, h.wrap_ok r3]

theorem intPart_ub {x : Int} (hx : F.T.InRange x) (hlo : x - 2 ^ F.f < F.T.lo) : integralPart F x = .ub .overflow := by
  have hp := SW.dpos (F := F)
  have lh := h.lo_hi
  have dl := h.d_le
  have h0 : x < 0 := by omega
  have hsb : signbit F x = true := by rw [signbit_iff h.valid hx]; exact h0
  have r1 : F.T.InRange (-x - 1) := ⟨by have := hx.2; omega, by have := hx.1; omega⟩
  unfold integralPart cnot
  rw [if_pos hsb, h.prom, h.one_eq, h.wrap_ok r1, h.wrap_ok r1]
  simp only []
  rw [h.arith_ub (by unfold IntTy.InRange; omega)]
  rfl

omit h in
/-- Integer part of the magnitude. -/
theorem floor_nonneg {x : Int} (h0 : 0 ≤ x) : (x / 2 ^ F.f).natAbs = ⌊|val F x|⌋₊ := by
  obtain ⟨n, rfl⟩ := Int.eq_ofNat_of_zero_le h0
  have e : |val F (n : Int)| = (n : ℚ) / ((2 ^ F.f : Nat) : ℚ) := by
    unfold val; rw [abs_of_nonneg (by positivity)]; push_cast; rfl
  rw [e, Nat.floor_div_eq_div]
  have : ((n : Int) / 2 ^ F.f) = ((n / 2 ^ F.f : Nat) : Int) := by push_cast; rfl
  rw [this, Int.natAbs_natCast]

omit h in
theorem ceil_neg {x : Int} (h0 : x < 0) : ((-x - 1 + 2 ^ F.f) / 2 ^ F.f).natAbs = ⌈|val F x|⌉₊ := by
  obtain ⟨n, hn⟩ := Int.eq_ofNat_of_zero_le (show 0 ≤ -x by omega)
  obtain rfl : x = -(n : Int) := by omega
  have hq : (0 : ℚ) < 2 ^ F.f := by positivity
  have e : |val F (-(n : Int))| = (n : ℚ) / 2 ^ F.f := by
    unfold val; push_cast; rw [neg_div, abs_neg, abs_of_nonneg (by positivity)]
  have en : - -(n : Int) - 1 + 2 ^ F.f = ((n - 1 + 2 ^ F.f : Nat) : Int) := by
    have : 1 ≤ n := by omega
    push_cast [Nat.cast_sub this]; ring
  rw [e, en]
  have e2 : ((n - 1 + 2 ^ F.f : Nat) : Int) / 2 ^ F.f = (((n - 1 + 2 ^ F.f) / 2 ^ F.f : Nat) : Int) := by push_cast; rfl
  rw [e2, Int.natAbs_natCast, eq_comm, Nat.ceil_eq_iff]
  · set k := (n - 1 + 2 ^ F.f) / 2 ^ F.f with hk
    have hd : 0 < 2 ^ F.f := by positivity
    have m1 := Nat.div_mul_le_self (n - 1 + 2 ^ F.f) (2 ^ F.f)
    have m2 := Nat.lt_div_mul_add (a := n - 1 + 2 ^ F.f) hd
    rw [← hk] at m1 m2
    have k1 : 1 ≤ k := by rw [hk]; exact (Nat.one_le_div_iff hd).2 (by omega)
    constructor
    · rw [lt_div_iff₀ hq]
      have : (k - 1) * 2 ^ F.f < n := by
        rw [Nat.sub_mul, one_mul]; omega
      exact_mod_cast this
    · rw [div_le_iff₀ hq]
      have : n ≤ k * 2 ^ F.f := by omega
      exact_mod_cast this
  · have hd : 0 < 2 ^ F.f := by positivity
    have := (Nat.one_le_div_iff hd).2 (show 2 ^ F.f ≤ n - 1 + 2 ^ F.f by omega)
    omega

omit h in
/-- For integers the ceiling is the integer part. -/
theorem ceil_integral {x : Int} (hi : Integral F x) : ⌈|val F x|⌉₊ = ⌊|val F x|⌋₊ := by
  obtain ⟨k, hk⟩ := hi
  rw [hk]
  have : |(k : ℚ)| = ((k.natAbs : Nat) : ℚ) := by rw [Nat.cast_natAbs]; push_cast; rfl
  rw [this, Nat.ceil_natCast, Nat.floor_natCast]

theorem intPart_cases {x : Int} (hx : F.T.InRange x) (hlo : F.T.lo ≤ x - 2 ^ F.f ∨ 0 ≤ x) :
    ∃ iv, integralPart F x = .ok iv ∧ F.T.InRange iv ∧ iv.natAbs = (if x < 0 then ⌈|val F x|⌉₊ else ⌊|val F x|⌋₊) := by
  by_cases h0 : x < 0
  · obtain ⟨a, b⟩ := intPart_neg h hx h0 (by omega)
    exact ⟨_, a, b, by rw [if_pos h0, ceil_neg h0]⟩
  · obtain ⟨a, b⟩ := intPart_of_nonneg h.pn hx (by omega)
    exact ⟨_, a, b, by rw [if_neg h0, floor_nonneg (by omega)]⟩

end

section
variable {F : FxTy} (h : PN F)
include h

/-- Body of the integer modes. -/
theorem formatTo_int {st : FmtState} {b : Nat} {up : Bool} (ht : intType st.type = some (b, up)) {x iv : Int} (hx : F.T.InRange x)
    (hi : integralPart F x = .ok iv) (hr : F.T.InRange iv) :
    ∃ pre, pre = signText st.sign (decide (x < 0)) ++ (if st.alt then baseText b up else []) ∧
    formatTo F st x = .ok (outputAligned st
      (if st.zero && decide (st.width > 0) && decide (((pre.length + (natText b up iv.natAbs).length : Nat) : Int) < st.width) then
        pre ++ List.replicate (st.width - ((pre.length + (natText b up iv.natAbs).length : Nat) : Int)).toNat '0' ++ natText b up iv.natAbs
       else pre ++ natText b up iv.natAbs)) := by
  refine ⟨_, rfl, ?_⟩
  have hsb : signbit F x = decide (x < 0) := by
    rw [Bool.eq_iff_iff, signbit_iff h.valid hx, decide_eq_true_iff]
  have hm : fmtMode st.type = (true, up, (b : Int)) ∧ st.type ≠ '?' ∧ 2 ≤ b ∧ b ≤ 16 := by
    unfold intType at ht
    unfold fmtMode
    split_ifs at ht with a1 a2 a3 a4 a5 a6
    · rw [a1]; cases ht; decide
    · rw [a2]; cases ht; decide
    · rw [a3]; cases ht; decide
    · rw [a4]; cases ht; decide
    · rw [a5]; cases ht; decide
    · rw [a6]; cases ht; decide
  obtain ⟨hm, hq, hb2, hb16⟩ := hm
  unfold formatTo
  rw [if_neg hq, hm]
  simp only [hi, Res.bind_ok, intToString_ok h.tpos hr up hb2 hb16, hsb, appendSign_eq, List.nil_append, if_true, Res.pure_eq,
    Bool.and_true]
  have halt : (if (st.alt && decide ((b : Int) ≠ 10)) = true then appendAltPrefix (signText st.sign (decide (x < 0))) b up
      else signText st.sign (decide (x < 0))) = signText st.sign (decide (x < 0)) ++ (if st.alt then baseText b up else []) := by
    rw [appendAltPrefix_eq]
    cases ha : st.alt
    · simp
    · by_cases h10 : b = 10
      · subst h10; simp [baseText]
      · have : (b : Int) ≠ 10 := by exact_mod_cast h10
        simp [this]
  rw [halt]
  push_cast
  rfl

end

/-! ## C54 -/

theorem outputAligned_none (st : FmtState) (hw : st.width ≤ 0) (s : List Char) : outputAligned st s = s := by
  unfold outputAligned; rw [if_pos (Or.inl hw)]

/-- C54 as stated, for `fixed32`. -/
def C54_statement : Prop :=
  ∀ (st : FmtState) (b : Nat) (up : Bool) (x : Int), Storable fixed32 x → intType st.type = some (b, up) → st.width ≤ 0 →
    formatTo fixed32 st x =
      .ok (signText st.sign (decide (x < 0)) ++ (if st.alt then baseText b up else []) ++ natText b up ⌊|val fixed32 x|⌋₊)

/-- C54 is false of the code: `std::format("{:d}", -1.5)` is `-2`. -/
theorem C54_false : ¬ C54_statement := by
  intro h
  have := h { type := 'd' } 10 false (-98304) (by decide +kernel) rfl (by decide)
  have e : formatTo fixed32 { type := 'd' } (-98304) = .ok ['-', '2'] := by decide +kernel
  have e2 : ⌊|val fixed32 (-98304)|⌋₊ = 1 := by
    rw [Nat.floor_eq_iff (abs_nonneg _)]
    norm_num [val, fixed32, abs_of_neg]
  rw [e, e2] at this
  revert this
  decide +kernel

/-- C54 for non-negative values, and for negative integers not within one of the minimum: sign, prefix, digits of the integer part.
Full statement: `C54_statement`; missing are the negative non-integers, for which the code prints something else (`C54_negative`). -/
theorem C54_int_partial {F : FxTy} (hF : F.Valid) (hs : SignedWide F) (h1 : Storable F (2 ^ F.f)) (st : FmtState) (b : Nat) (up : Bool)
    (x : Int) (hx : Storable F x) (ht : intType st.type = some (b, up)) (hw : st.width ≤ 0)
    (hcase : 0 ≤ x ∨ (Integral F x ∧ Storable F (x - 2 ^ F.f))) :
    formatTo F st x =
      .ok (signText st.sign (decide (x < 0)) ++ (if st.alt then baseText b up else []) ++ natText b up ⌊|val F x|⌋₊) := by
  have h : SW F := ⟨hF, hs, h1⟩
  obtain ⟨iv, e1, e2, e3⟩ := intPart_cases h hx (by rcases hcase with c | ⟨_, c⟩; exact Or.inr c; exact Or.inl c.1)
  obtain ⟨pre, rfl, e⟩ := formatTo_int h.pn ht hx e1 e2
  rw [e, outputAligned_none st hw, if_neg (by simp; omega), e3]
  by_cases h0 : x < 0
  · rw [if_pos h0, ceil_integral (by rcases hcase with c | ⟨c, _⟩ <;> [omega; exact c])]
  · rw [if_neg h0]

example : formatTo fixed32 { type := 'x', alt := true, sign := '+' } (255 * 65536 + 1) = .ok ['+', '0', 'x', 'f', 'f'] := by
  decide +kernel
example : formatTo fixed32 { type := 'B', alt := true } (-5 * 65536) = .ok ['-', '0', 'B', '1', '0', '1'] := by decide +kernel

/-- C54: the digits printed are the canonical numeral of the number, so that reading them back gives it. -/
theorem C54_digits {b : Nat} (hb : 2 ≤ b) (up : Bool) (n : Nat) : IsNatText b up (natText b up n) n := natText_spec hb up n

example : natText 16 true 48879 = ['B', 'E', 'E', 'F'] := by decide +kernel

/-- C54, what the code does for every negative value not within one of the minimum: it prints the *ceiling* of the magnitude. -/
theorem C54_negative {F : FxTy} (hF : F.Valid) (hs : SignedWide F) (h1 : Storable F (2 ^ F.f)) (st : FmtState) (b : Nat) (up : Bool)
    (x : Int) (hx : Storable F x) (ht : intType st.type = some (b, up)) (hw : st.width ≤ 0) (h0 : x < 0)
    (hlo : Storable F (x - 2 ^ F.f)) :
    formatTo F st x = .ok ('-' :: (if st.alt then baseText b up else []) ++ natText b up ⌈|val F x|⌉₊) := by
  have h : SW F := ⟨hF, hs, h1⟩
  obtain ⟨iv, e1, e2, e3⟩ := intPart_cases h hx (Or.inl hlo.1)
  obtain ⟨pre, rfl, e⟩ := formatTo_int h.pn ht hx e1 e2
  rw [e, outputAligned_none st hw, if_neg (by simp; omega), e3, if_pos h0, decide_eq_true h0]
  simp [signText]

example : formatTo fixed32 { type := 'd' } (-1) = .ok ['-', '1'] := by decide +kernel

/-- C54, the remaining values: within one of the minimum, formatting (other than `?`) overflows. -/
theorem C54_undefined {F : FxTy} (hF : F.Valid) (hs : SignedWide F) (h1 : Storable F (2 ^ F.f)) (st : FmtState) (ht : st.type ≠ '?')
    (x : Int) (hx : Storable F x) (hlo : ¬ Storable F (x - 2 ^ F.f)) (_h0 : x < 0) : formatTo F st x = .ub .overflow := by
  have h : SW F := ⟨hF, hs, h1⟩
  unfold formatTo
  rw [if_neg ht]
  have : integralPart F x = .ub .overflow := by
    apply intPart_ub h hx
    by_contra hc
    apply hlo
    have := SW.dpos (F := F)
    exact ⟨by omega, by have := hx.2; omega⟩
  simp only [this, Res.bind_ub]

example : formatTo fixed32 {} (-2147483648) = .ub .overflow := by decide +kernel

/-! ## C55 -/

/-- The number of fraction digits: the precision, or six. -/
def effPrec (st : FmtState) : Nat := if st.precision < 0 then 6 else st.precision.toNat

/-- The text `out` is sign, integer digits of `n`, and the decimals of `q` cut after the requested number of digits.  (With precision zero
and `q ≠ 0` a point without digits is printed.) -/
def IsDecimalOf (st : FmtState) (neg : Bool) (n : Nat) (q : ℚ) (out : List Char) : Prop :=
  ∃ ds : List Nat,
    out = signText st.sign neg ++ natText 10 false n ++
      (if q = 0 ∧ ds = [] then [] else '.' :: ds.map (digitOf false)) ∧
    (if st.type = 'f' ∨ st.type = 'F' then FixedDigits (effPrec st) q ds else TruncDigits (effPrec st) q ds)

/-- The fraction of `|x|`. -/
def fracMag (F : FxTy) (x : Int) : ℚ := |val F x| - ⌊|val F x|⌋₊

/-- C55 as stated, for `fixed32`. -/
def C55_statement : Prop :=
  ∀ (st : FmtState) (x : Int), Storable fixed32 x → st.type ∈ ['g', 'G', 'f', 'F'] → st.width ≤ 0 →
    ∃ out, formatTo fixed32 st x = .ok out ∧ IsDecimalOf st (decide (x < 0)) ⌊|val fixed32 x|⌋₊ (fracMag fixed32 x) out

theorem natText_ten_up (up : Bool) (n : Nat) : natText 10 up n = natText 10 false n := by
  unfold natText
  split
  · rfl
  · apply List.map_congr_left
    intro d hd
    have : d < 10 := Nat.digits_lt_base (by norm_num) (List.mem_reverse.1 hd)
    unfold digitOf; rw [if_pos this, if_pos this]

theorem map_digitOf_ten_up (up : Bool) {ds : List Nat} (h : Decimal ds) : ds.map (digitOf up) = ds.map (digitOf false) := by
  apply List.map_congr_left
  intro d hd
  unfold digitOf; rw [if_pos (h d hd), if_pos (h d hd)]

section
variable {F : FxTy} (h : PN F)
include h

/-- The fraction of the magnitude as computed. -/
theorem frac_mag {x : Int} (hx : F.T.InRange x) : ∃ m : Nat, m < 2 ^ F.f ∧ fracMag F x = (m : ℚ) / 2 ^ F.f ∧
    (do
      let fr ← fractionalPart F x
      (if F.T.signed && decide (fr < 0) then do
          let n ← arith F.P (-fr)
          pure (F.T.wrap n)
        else pure fr : Res Int)) = .ok (m : Int) := by
  have hp := SW.dpos (F := F)
  have ll := PN.lo_le (F := F)
  have dl := h.d_le
  have hq : (0 : ℚ) < 2 ^ F.f := by positivity
  have hm : x.natAbs % 2 ^ F.f < 2 ^ F.f := Nat.mod_lt _ (by positivity)
  have hr : F.T.InRange ((x.natAbs % 2 ^ F.f : Nat) : Int) := by
    have : ((x.natAbs % 2 ^ F.f : Nat) : Int) < 2 ^ F.f := by exact_mod_cast hm
    constructor <;> omega
  have hsg : x < 0 → F.T.signed = true := by
    intro h0
    by_contra hc
    have : F.T.lo = 0 := by unfold IntTy.lo; simp [hc]
    have := hx.1; omega
  have hrn : x < 0 → F.T.InRange (-((x.natAbs % 2 ^ F.f : Nat) : Int)) := by
    intro h0
    have lh : F.T.lo = -F.T.hi - 1 := by unfold IntTy.lo IntTy.hi; simp [hsg h0]
    have : ((x.natAbs % 2 ^ F.f : Nat) : Int) < 2 ^ F.f := by exact_mod_cast hm
    constructor <;> omega
  have hzz : (2 : Int) ^ F.f = ((2 ^ F.f : Nat) : Int) := by push_cast; rfl
  refine ⟨x.natAbs % 2 ^ F.f, hm, ?_, ?_⟩
  · unfold fracMag
    have e : |val F x| = (x.natAbs : ℚ) / ((2 ^ F.f : Nat) : ℚ) := by
      unfold val; rw [abs_div, abs_of_pos hq, Nat.cast_natAbs]; push_cast; rfl
    rw [e, Nat.floor_div_eq_div]
    have := Nat.div_add_mod x.natAbs (2 ^ F.f)
    have hh : (2 : ℚ) ^ F.f * ((x.natAbs / 2 ^ F.f : Nat) : ℚ) + ((x.natAbs % 2 ^ F.f : Nat) : ℚ) = (x.natAbs : ℚ) := by
      exact_mod_cast this
    have e2 : ((2 ^ F.f : Nat) : ℚ) = 2 ^ F.f := by push_cast; rfl
    rw [e2, ← hh]
    field_simp
    ring
  · unfold fractionalPart
    rw [h.one_eq, h.cmod_ok hx hp]
    simp only [Res.bind_ok, Res.pure_eq]
    by_cases h0 : x < 0
    · have e : Int.tmod x (2 ^ F.f) = -((x.natAbs % 2 ^ F.f : Nat) : Int) := by
        have : x = -(x.natAbs : Int) := by omega
        rw [hzz]
        conv_lhs => rw [this]
        rw [Int.neg_tmod, Int.ofNat_tmod]
      rw [e, h.wrap_ok (hrn h0)]
      by_cases hz : x.natAbs % 2 ^ F.f = 0
      · rw [hz]; simp
      · rw [if_pos (by rw [hsg h0]; simp only [Bool.true_and, decide_eq_true_eq]; omega), neg_neg, h.arithP_ok hr, Res.bind_ok, h.wrap_ok hr]
    · have e : Int.tmod x (2 ^ F.f) = ((x.natAbs % 2 ^ F.f : Nat) : Int) := by
        have : x = (x.natAbs : Int) := by omega
        rw [hzz]
        conv_lhs => rw [this]
        rw [Int.ofNat_tmod]
      rw [e, h.wrap_ok hr, if_neg (by simp; omega)]

theorem formatTo_dec (hfit : 10 * (2 : Int) ^ F.f ≤ F.T.hi) {st : FmtState} (ht : st.type ∈ ['g', 'G', 'f', 'F']) {x iv : Int}
    (hx : F.T.InRange x) (hi : integralPart F x = .ok iv) (hr : F.T.InRange iv) :
    ∃ out, formatTo F st x = .ok (outputAligned st out) ∧ IsDecimalOf st (decide (x < 0)) iv.natAbs (fracMag F x) out := by
  have hsb : signbit F x = decide (x < 0) := by
    rw [Bool.eq_iff_iff, signbit_iff h.valid hx, decide_eq_true_iff]
  obtain ⟨m, hm, hmq, hfr⟩ := frac_mag h hx
  have hmode : ∃ up, fmtMode st.type = (false, up, ((10 : Nat) : Int)) ∧ st.type ≠ '?' := by
    simp only [List.mem_cons, List.not_mem_nil, or_false] at ht
    rcases ht with h | h | h | h <;> rw [h]
    · exact ⟨false, by decide⟩
    · exact ⟨true, by decide⟩
    · exact ⟨false, by decide⟩
    · exact ⟨true, by decide⟩
  obtain ⟨up, hmo, hq⟩ := hmode
  have heff : (if st.precision < 0 then 6 else st.precision) = (effPrec st : Int) := by
    unfold effPrec; split <;> push_cast <;> omega
  have hqq : (0 : ℚ) < 2 ^ F.f := by positivity
  obtain ⟨ds, el, htr, hne⟩ := h.fracLoop_ok hfit up (effPrec st) F.f m 0
    (signText st.sign (decide (x < 0)) ++ natText 10 up iv.natAbs ++ ['.']) (le_refl _) hm (by simp) (Nat.zero_le _)
  rw [Nat.sub_zero, ← hmq] at htr
  have hq0 : fracMag F x = 0 ↔ m = 0 := by
    rw [hmq, div_eq_zero_iff]
    constructor
    · rintro (h | h)
      · exact_mod_cast h
      · exact absurd h hqq.ne'
    · intro h; left; exact_mod_cast h
  have hds : m = 0 → ds = [] := by
    intro hm0
    obtain ⟨t1, t2, t3, t4, t5, t6⟩ := htr
    rw [hq0.2 hm0] at t3 t6
    have e0 : fracVal 10 ds = 0 := le_antisymm t3 (fracVal_nonneg _)
    by_contra hc
    have hl := t6 e0 _ (List.getLast?_eq_some_getLast hc)
    have hpos : ∀ {l : List Nat}, Decimal l → fracVal 10 l = 0 → ∀ d ∈ l, d = 0 := by
      intro l
      induction l with
      | nil => simp
      | cons a l ih =>
        intro hd hv d hmem
        simp only [fracVal] at hv
        have hn := fracVal_nonneg l
        have ha : (0 : ℚ) ≤ a := by positivity
        have hsum : (a : ℚ) + fracVal 10 l = 0 := by
          rcases div_eq_zero_iff.1 hv with h | h
          · exact h
          · norm_num at h
        rcases List.mem_cons.1 hmem with rfl | hmem
        · have : (d : ℚ) = 0 := by linarith
          exact_mod_cast this
        · exact ih (fun d hd' => hd d (by simp [hd'])) (by linarith) d hmem
    exact hl (hpos t1 e0 _ (List.getLast_mem hc))
  -- the whole call
  set body0 := signText st.sign (decide (x < 0)) ++ natText 10 up iv.natAbs with hb0
  set body1 := if m = 0 then body0 else body0 ++ ['.'] ++ ds.map (digitOf up) with hb1
  have hcall : formatTo F st x = .ok (outputAligned st
      (if st.type = 'f' ∨ st.type = 'F' then padZeros ds.length (effPrec st) body1 else body1)) := by
    unfold formatTo
    rw [if_neg hq, hmo]
    simp only [hi, Res.bind_ok, intToString_ok h.tpos hr up (show 2 ≤ 10 by norm_num) (show 10 ≤ 16 by norm_num), hsb, appendSign_eq,
      List.nil_append, Res.pure_eq, Bool.and_false, Bool.false_and, Bool.false_eq_true, if_false, heff]
    rw [← hb0]
    revert hfr
    cases hfp : fractionalPart F x with
    | ub u => intro hc; simp only [Res.bind_ub] at hc; cases hc
    | throw e => intro hc; simp only [Res.bind_throw] at hc; cases hc
    | ok fr =>
      intro hc
      simp only [Res.bind_ok, Res.pure_eq] at hc ⊢
      rw [hc]
      simp only [Res.bind_ok]
      by_cases hm0 : m = 0
      · rw [hm0, if_neg (by simp)]
        simp only [Res.bind_ok]
        rw [hb1, if_pos hm0, hds hm0]
        rfl
      · rw [if_pos (by exact_mod_cast hm0)]
        have el' : fracLoop F up (effPrec st : Int) F.f (m : Int) 0 (body0 ++ ['.']) = _ := el
        rw [el', hb1, if_neg hm0]
        simp only [Res.bind_ok, Nat.zero_add]
  have hds1 : Decimal ds := htr.1
  by_cases hf : st.type = 'f' ∨ st.type = 'F'
  · refine ⟨_, hcall, ?_⟩
    rw [if_pos hf]
    unfold IsDecimalOf
    simp only [if_pos hf]
    obtain ⟨t1, t2, t3, t4, t5, t6⟩ := htr
    refine ⟨ds ++ List.replicate (effPrec st - ds.length) 0, ?_, ?_, ?_, ?_, ?_⟩
    · have hrep : (List.replicate (effPrec st - ds.length) 0).map (digitOf false) = List.replicate (effPrec st - ds.length) '0' := by
        rw [List.map_replicate]; rfl
      rw [List.map_append, hrep, ← map_digitOf_ten_up up hds1, ← natText_ten_up up, ← hb0]
      simp only [hq0]
      unfold padZeros
      have et : ((effPrec st : Int) - (ds.length : Int)).toNat = effPrec st - ds.length := by omega
      rw [et]
      by_cases hm0 : m = 0
      · have hd0 := hds hm0
        rw [hb1, if_pos hm0, hd0]
        simp only [List.length_nil, Nat.cast_zero, Nat.sub_zero, List.map_nil, List.nil_append, List.replicate_eq_nil_iff, if_true,
          hm0, true_and]
        by_cases he0 : effPrec st = 0
        · simp [he0]
        · rw [if_pos (by omega), if_neg he0]; simp
      · rw [hb1, if_neg hm0]
        simp only [hm0, false_and, if_false]
        by_cases hl : ds.length < effPrec st
        · have hd1 : ds ≠ [] := hne hm0 (by omega)
          have : ds.length ≠ 0 := by simpa using hd1
          rw [if_pos (by omega), if_neg (by omega)]; simp
        · rw [if_neg (by omega), show effPrec st - ds.length = 0 by omega]; simp
    · intro d hd
      rcases List.mem_append.1 hd with hd | hd
      · exact hds1 d hd
      · rw [List.eq_of_mem_replicate hd]; norm_num
    · simp; omega
    · rw [fracVal_append, fracVal_zeros, zero_div, add_zero]; exact t3
    · rw [fracVal_append, fracVal_zeros, zero_div, add_zero]; exact t4
  · refine ⟨_, hcall, ?_⟩
    rw [if_neg hf]
    unfold IsDecimalOf
    simp only [if_neg hf]
    refine ⟨ds, ?_, htr⟩
    rw [← map_digitOf_ten_up up hds1, ← natText_ten_up up, ← hb0, hb1]
    simp only [hq0]
    by_cases hm0 : m = 0
    · rw [if_pos hm0, if_pos ⟨hm0, hds hm0⟩]; simp
    · rw [if_neg hm0, if_neg (by rintro ⟨hc, _⟩; exact hm0 hc)]; simp

end

/-- C55 is false of the code: `std::format("{}", -1.5)` is `-2.5`. -/
theorem C55_false : ¬ C55_statement := by
  intro h
  obtain ⟨out, e, ds, ho, -⟩ := h {} (-98304) (by decide +kernel) (by decide) (by decide)
  have e2 : ⌊|val fixed32 (-98304)|⌋₊ = 1 := by
    rw [Nat.floor_eq_iff (abs_nonneg _)]
    norm_num [val, fixed32, abs_of_neg]
  have e1 : formatTo fixed32 {} (-98304) = .ok ['-', '2', '.', '5'] := by decide +kernel
  rw [e1] at e
  cases e
  rw [e2] at ho
  have hs : signText ({} : FmtState).sign (decide ((-98304 : Int) < 0)) ++ natText 10 false 1 = ['-', '1'] := by decide +kernel
  rw [hs] at ho
  simp at ho

/-- C55 for non-negative values, and for negative integers not within one of the minimum: sign, integer part, fraction cut to the
precision.  Full statement: `C55_statement`; missing are the negative non-integers, for which the code prints something else
(`C55_negative`). -/
theorem C55_decimal_partial {F : FxTy} (hF : F.Valid) (hs : SignedWide F) (h1 : Storable F (2 ^ F.f))
    (hfit : Storable F (10 * 2 ^ F.f)) (st : FmtState) (x : Int) (hx : Storable F x) (ht : st.type ∈ ['g', 'G', 'f', 'F'])
    (hw : st.width ≤ 0) (hcase : 0 ≤ x ∨ (Integral F x ∧ Storable F (x - 2 ^ F.f))) :
    ∃ out, formatTo F st x = .ok out ∧ IsDecimalOf st (decide (x < 0)) ⌊|val F x|⌋₊ (fracMag F x) out := by
  have h : SW F := ⟨hF, hs, h1⟩
  obtain ⟨iv, e1, e2, e3⟩ := intPart_cases h hx (by rcases hcase with c | ⟨_, c⟩; exact Or.inr c; exact Or.inl c.1)
  obtain ⟨out, e, hd⟩ := formatTo_dec h.pn hfit.2 ht hx e1 e2
  refine ⟨out, by rw [e, outputAligned_none st hw], ?_⟩
  rw [e3] at hd
  by_cases h0 : x < 0
  · rwa [if_pos h0, ceil_integral (by rcases hcase with c | ⟨c, _⟩ <;> [omega; exact c])] at hd
  · rwa [if_neg h0] at hd

example : formatTo fixed32 {} 205887 = .ok ['3', '.', '1', '4', '1', '5', '8', '6'] := by decide +kernel
example : formatTo fixed32 { type := 'f', precision := 3 } 98304 = .ok ['1', '.', '5', '0', '0'] := by decide +kernel
example : formatTo fixed64 { type := 'f', sign := '+' } (-12 * 2 ^ 32) = .ok ['-', '1', '2', '.', '0', '0', '0', '0', '0', '0'] := by
  decide +kernel

/-- C55, what the code does for every negative value not within one of the minimum: the *ceiling* of the magnitude, followed by the
fraction. -/
theorem C55_negative {F : FxTy} (hF : F.Valid) (hs : SignedWide F) (h1 : Storable F (2 ^ F.f))
    (hfit : Storable F (10 * 2 ^ F.f)) (st : FmtState) (x : Int) (hx : Storable F x) (ht : st.type ∈ ['g', 'G', 'f', 'F'])
    (hw : st.width ≤ 0) (h0 : x < 0) (hlo : Storable F (x - 2 ^ F.f)) :
    ∃ out, formatTo F st x = .ok out ∧ IsDecimalOf st true ⌈|val F x|⌉₊ (fracMag F x) out := by
  have h : SW F := ⟨hF, hs, h1⟩
  obtain ⟨iv, e1, e2, e3⟩ := intPart_cases h hx (Or.inl hlo.1)
  obtain ⟨out, e, hd⟩ := formatTo_dec h.pn hfit.2 ht hx e1 e2
  refine ⟨out, by rw [e, outputAligned_none st hw], ?_⟩
  rwa [e3, if_pos h0, decide_eq_true h0] at hd

example : formatTo fixed32 {} (-65537) = .ok ['-', '2', '.', '0', '0', '0', '0', '1', '5'] := by decide +kernel

/-! ## C56 -/

/-- C56: the `?` type prints the sign, optionally `0x`, and the hexadecimal digits of the magnitude of the raw value — for every value of
every type, the minimum included. -/
theorem C56_debug {F : FxTy} (hF : F.Valid) (st : FmtState) (ht : st.type = '?') (hw : st.width ≤ 0) (x : Int) (hx : Storable F x) :
    formatTo F st x =
      .ok (signText st.sign (decide (x < 0)) ++ (if st.alt then ['0', 'x'] else []) ++ natText 16 false x.natAbs) := by
  unfold formatTo formatDebug
  rw [if_pos ht, unsignedMag_ok hF.tpos hx]
  simp only [Res.bind_ok, Res.pure_eq, outputAligned_none st hw, appendSign_eq, List.nil_append]
  have ha : appendAltPrefix (signText st.sign (decide (x < 0))) 16 false = signText st.sign (decide (x < 0)) ++ ['0', 'x'] := by
    simp [appendAltPrefix]
  rw [ha]
  unfold natText
  by_cases h0 : x.natAbs = 0
  · rw [h0]
    cases st.alt <;> simp
  · have hl := digitsLoop_ok false (b := 16) (by norm_num) (by norm_num) F.T.bits x.natAbs [] (natAbs_lt hF.tpos hx)
    have hl' : digitsLoop false 16 (F.T.bits + 1) (x.natAbs : Int) [] = _ := hl
    rw [if_neg (by exact_mod_cast h0), if_neg h0, hl']
    cases st.alt <;> simp

example : formatTo fixed32 { type := '?', alt := true } (-2147483648) = .ok ['-', '0', 'x', '8', '0', '0', '0', '0', '0', '0', '0'] := by
  decide +kernel

/-- C56: distinct values print differently. -/
theorem C56_injective {F : FxTy} (hF : F.Valid) (st : FmtState) (ht : st.type = '?') (hw : st.width ≤ 0) (x y : Int)
    (hx : Storable F x) (hy : Storable F y) (h : formatTo F st x = formatTo F st y) : x = y := by
  rw [C56_debug hF st ht hw x hx, C56_debug hF st ht hw y hy, Res.ok.injEq] at h
  -- the first character decides the sign
  have key : ∀ n : Nat, ∀ s : List Char, (if st.alt then ['0', 'x'] else []) ++ natText 16 false n = s →
      ∃ c t, s = c :: t ∧ c ∉ ['-', '+', ' '] := by
    intro n s hs
    cases ha : st.alt
    · rw [ha] at hs
      simp only [Bool.false_eq_true, if_false, List.nil_append] at hs
      obtain ⟨ds, e, hd, hz, -⟩ := natText_spec (show 2 ≤ 16 by norm_num) false n
      rw [← hs, e]
      have hne : ∃ d t, ds = d :: t ∧ d < 16 := by
        rcases hz with rfl | ⟨d, t, rfl, -⟩
        · exact ⟨0, [], rfl, by norm_num⟩
        · exact ⟨d, t, rfl, hd d (by simp)⟩
      obtain ⟨d, t, rfl, hlt⟩ := hne
      refine ⟨_, _, rfl, ?_⟩
      interval_cases d <;> decide
    · rw [ha] at hs
      simp only [if_true, List.cons_append, List.nil_append] at hs
      exact ⟨'0', _, hs.symm, by decide⟩
  rw [List.append_assoc, List.append_assoc] at h
  obtain ⟨c, t, e1, hc⟩ := key x.natAbs _ rfl
  obtain ⟨c', t', e2, hc'⟩ := key y.natAbs _ rfl
  have hcancel : (if st.alt then ['0', 'x'] else []) ++ natText 16 false x.natAbs =
      (if st.alt then ['0', 'x'] else []) ++ natText 16 false y.natAbs → x.natAbs = y.natAbs := by
    intro hh
    exact natText_inj (by norm_num) (by norm_num) false (List.append_cancel_left hh)
  simp only [List.mem_cons, List.not_mem_nil, or_false, not_or] at hc hc'
  have minus : ∀ {c : Char} (t s : List Char), (¬c = '-' ∧ ¬c = '+' ∧ ¬c = ' ') →
      signText st.sign true ++ s ≠ signText st.sign false ++ c :: t := by
    intro c t s hc hh
    have e : signText st.sign true = ['-'] := rfl
    rw [e] at hh
    unfold signText at hh
    rw [if_neg (by decide)] at hh
    split_ifs at hh
    · exact absurd (List.cons.inj hh).1 (by decide)
    · exact absurd (List.cons.inj hh).1 (by decide)
    · exact hc.1 (List.cons.inj hh).1.symm
  by_cases hxn : x < 0 <;> by_cases hyn : y < 0
  · rw [decide_eq_true hxn, decide_eq_true hyn] at h
    have := hcancel (List.append_cancel_left h)
    omega
  · exfalso
    rw [decide_eq_true hxn, decide_eq_false hyn, e1, e2] at h
    exact minus _ _ hc' h
  · exfalso
    rw [decide_eq_false hxn, decide_eq_true hyn, e1, e2] at h
    exact minus _ _ hc h.symm
  · rw [decide_eq_false hxn, decide_eq_false hyn] at h
    have := hcancel (List.append_cancel_left h)
    omega

example : formatTo fixed32 { type := '?' } 171 = .ok ['a', 'b'] ∧ formatTo fixed32 { type := '?' } (-171) = .ok ['-', 'a', 'b'] := by
  decide +kernel

/-! ## C57 -/

/-- C57: padding — the text is never shorter than the width, is the body itself when that is wide enough, and otherwise the body with the
fill character in the places given by the alignment. -/
theorem C57_padding (st : FmtState) (body : List Char) :
    Padded st.width.toNat (if st.zero then '0' else st.fill) st.align body (outputAligned st body) := by
  unfold outputAligned Padded
  by_cases hw : st.width ≤ 0 ∨ st.width ≤ (body.length : Int)
  · rw [if_pos hw]
    exact ⟨0, 0, by simp, by omega, by simp, by simp, by simp⟩
  · rw [if_neg hw]
    push Not at hw
    set ch := if st.zero = true then '0' else st.fill
    simp only []
    rcases hal : st.align with _ | a
    · rw [Option.getD_none, if_neg (by decide), if_neg (by decide)]
      exact ⟨st.width.toNat - body.length, 0, by simp, by simp; omega, by simp, by simp, by simp⟩
    · rw [Option.getD_some]
      by_cases h1 : a = '<'
      · rw [if_pos h1]; subst h1
        exact ⟨0, st.width.toNat - body.length, by simp, by simp; omega, by simp, by simp, by simp⟩
      · rw [if_neg h1]
        by_cases h2 : a = '^'
        · rw [if_pos h2]; subst h2
          exact ⟨(st.width.toNat - body.length) / 2, st.width.toNat - body.length - (st.width.toNat - body.length) / 2, rfl,
            by simp; omega, by simp, by intro _; omega, by simp⟩
        · rw [if_neg h2]
          exact ⟨st.width.toNat - body.length, 0, by simp, by simp; omega, by simp [h1], by simp [h2], by simp⟩

example : outputAligned { width := 8, fill := '*', align := some '^' } ['1', '.', '5'] =
    ['*', '*', '1', '.', '5', '*', '*', '*'] := by decide +kernel

/-- C57: without the zero flag the padded text is the unpadded text (width zero) with padding. -/
theorem C57_padding_only {F : FxTy} (st : FmtState) (hz : st.zero = false) (x : Int) (body : List Char)
    (h : formatTo F { st with width := 0 } x = .ok body) : formatTo F st x = .ok (outputAligned st body) := by
  have hn : ∀ s, outputAligned { st with width := 0 } s = s := fun s => outputAligned_none _ (by simp) s
  unfold formatTo at h ⊢
  by_cases hq : st.type = '?'
  · rw [if_pos hq]; rw [if_pos hq] at h
    unfold formatDebug at h ⊢
    cases hm : unsignedMag F.T x with
    | ok p =>
      rw [hm] at h
      simp only [Res.bind_ok] at h ⊢
      revert h
      cases (if p.2 = 0 then pure ['0'] else digitsLoop false 16 (F.T.bits + 1) p.2 [] : Res (List Char)) with
      | ok ds =>
        simp only [Res.bind_ok, Res.pure_eq, hn, Res.ok.injEq]
        intro h; rw [← h]; rfl
      | ub _ => intro h; cases h
      | throw _ => intro h; cases h
    | ub _ => rw [hm] at h; cases h
    | throw _ => rw [hm] at h; cases h
  · rw [if_neg hq]; rw [if_neg hq] at h
    simp only [hz, Bool.false_and, Bool.false_eq_true, if_false, appendSign_eq, List.nil_append] at h ⊢
    generalize fmtMode st.type = md at h ⊢
    obtain ⟨io, up, base⟩ := md
    simp only [] at h ⊢
    cases hip : integralPart F x with
    | ok iv =>
      rw [hip] at h
      simp only [Res.bind_ok] at h ⊢
      cases his : intToString F.T iv base up with
      | ok dg =>
        rw [his] at h
        simp only [Res.bind_ok] at h ⊢
        cases io
        · simp only [Bool.false_eq_true, if_false] at h ⊢
          cases hfp : fractionalPart F x with
          | ok fr =>
            rw [hfp] at h
            simp only [Res.bind_ok] at h ⊢
            revert h
            generalize (if (F.T.signed && decide (fr < 0)) = true then do
                let n ← arith F.P (-fr)
                pure (F.T.wrap n)
              else pure fr : Res Int) = r1
            cases r1 with
            | ok fr =>
              simp only [Res.bind_ok]
              generalize hr2 : (if fr ≠ 0 then _ else _ : Res (List Char × Int)) = r2
              cases r2 with
              | ok p =>
                intro h
                simp only [Res.bind_ok, Res.pure_eq, Res.ok.injEq] at h ⊢
                rw [outputAligned_none _ (by simp)] at h
                rw [← h]
              | ub _ =>
                intro h
                cases h
              | throw _ =>
                intro h
                cases h
            | ub _ => intro h; cases h
            | throw _ => intro h; cases h
          | ub _ => rw [hfp] at h; cases h
          | throw _ => rw [hfp] at h; cases h
        · simp only [if_true, Res.pure_eq, hn, Res.ok.injEq] at h ⊢
          rw [← h]; rfl
      | ub _ => rw [his] at h; cases h
      | throw _ => rw [his] at h; cases h
    | ub _ => rw [hip] at h; cases h
    | throw _ => rw [hip] at h; cases h

example : formatTo fixed32 { width := 6, align := some '<' } 98304 = .ok ['1', '.', '5', ' ', ' ', ' '] := by decide +kernel

/-- C57, zero padding as stated: the sign stays in front. -/
def C57_statement : Prop :=
  ∀ (st : FmtState) (x : Int) (out : List Char), st.zero = true → formatTo fixed32 st x = .ok out → x < 0 → Storable fixed32 x →
    out.head? = some '-'

/-- C57 is false of the code in the non-integer modes: `std::format("{:08}", -1.0)` is `000000-1`. -/
theorem C57_false : ¬ C57_statement := by
  intro h
  have := h { zero := true, width := 8 } (-65536) ['0', '0', '0', '0', '0', '0', '-', '1'] rfl (by decide +kernel) (by decide)
    (by decide +kernel)
  revert this
  decide

/-- C57, zero padding in the integer modes: sign and prefix, then zeros up to the width, then the digits.
Full statement: `C57_statement`; missing are the types `g`, `G`, `f`, `F`, `?`, for which the zeros go in front of the sign. -/
theorem C57_zero_partial {F : FxTy} (hF : F.Valid) (hs : SignedWide F) (h1 : Storable F (2 ^ F.f)) (st : FmtState) (b : Nat) (up : Bool)
    (x : Int) (hx : Storable F x) (ht : intType st.type = some (b, up)) (hz : st.zero = true)
    (hcase : 0 ≤ x ∨ Storable F (x - 2 ^ F.f)) :
    ∃ (pre dg : List Char) (z : Nat), formatTo F st x = .ok (pre ++ List.replicate z '0' ++ dg) ∧
      formatTo F { st with width := 0 } x = .ok (pre ++ dg) ∧
      pre = signText st.sign (decide (x < 0)) ++ (if st.alt then baseText b up else []) ∧
      (pre ++ List.replicate z '0' ++ dg).length = Max.max st.width.toNat (pre ++ dg).length := by
  have h : SW F := ⟨hF, hs, h1⟩
  obtain ⟨iv, e1, e2, e3⟩ := intPart_cases h hx (by rcases hcase with c | c; exact Or.inr c; exact Or.inl c.1)
  obtain ⟨pre, hp, e⟩ := formatTo_int h.pn ht hx e1 e2
  obtain ⟨pre', hp', e'⟩ := formatTo_int h.pn (st := { st with width := 0 }) ht hx e1 e2
  have : pre' = pre := by rw [hp, hp']
  subst this
  rw [outputAligned_none _ (by simp), if_neg (by simp)] at e'
  refine ⟨pre', natText b up iv.natAbs, st.width.toNat - (pre' ++ natText b up iv.natAbs).length, ?_, e', hp, ?_⟩
  · rw [e, hz]
    by_cases hw : ((pre'.length + (natText b up iv.natAbs).length : Nat) : Int) < st.width
    · rw [if_pos (by simp only [Bool.true_and, Bool.and_eq_true, decide_eq_true_eq]; omega)]
      have : (st.width - ((pre'.length + (natText b up iv.natAbs).length : Nat) : Int)).toNat =
          st.width.toNat - (pre' ++ natText b up iv.natAbs).length := by rw [List.length_append]; omega
      rw [this]
      unfold outputAligned
      rw [if_pos]
      right
      simp only [List.length_append, List.length_replicate]
      push_cast
      omega
    · rw [if_neg (by simp only [Bool.true_and, Bool.and_eq_true, decide_eq_true_eq]; exact fun hc => hw hc.2)]
      unfold outputAligned
      rw [if_pos (by right; rw [List.length_append]; exact not_lt.1 hw)]
      have : st.width.toNat - (pre' ++ natText b up iv.natAbs).length = 0 := by rw [List.length_append]; omega
      rw [this]; simp
  · simp only [List.length_append, List.length_replicate]
    rcases le_total st.width.toNat (pre'.length + (natText b up iv.natAbs).length) with hc | hc
    · rw [max_eq_right hc]; omega
    · rw [max_eq_left hc]; omega

example : formatTo fixed32 { type := 'x', alt := true, zero := true, width := 8 } (-255 * 65536) =
    .ok ['-', '0', 'x', '0', '0', '0', 'f', 'f'] := by decide +kernel

end Eirin.Props
