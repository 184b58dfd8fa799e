import Verif.Props.ParseAll

/-! # Property C121: the outcome of the string parsers on every numeral whatsoever -/

namespace Eirin
open Spec

namespace WS
variable {W : IntTy} (h : WS W)
include h

theorem intLenient_over (t : List Char) : ∀ (ds : List Nat) (a : Nat), Decimal ds → (a : Int) ≤ W.hi → ¬ ((acc a ds : Nat) : Int) ≤ W.hi →
    intLenient W (ds.map (digitOf false) ++ t) a = .ub .overflow := by
  intro ds
  induction ds with
  | nil => intro a _ ha hn; exact absurd ha hn
  | cons d ds ih =>
    intro a hd ha hn
    rw [acc_cons] at hn
    have h10 := hd.head
    rw [List.map_cons, List.cons_append]
    conv_lhs => unfold intLenient
    rw [if_neg (digitOf_ne_dot h10), isDigit_digitOf h10]
    by_cases hle : ((a * 10 + d : Nat) : Int) ≤ W.hi
    · rw [h.accDigit_ok h10 hle]
      exact ih _ hd.tail hle hn
    · have e : accDigit W a (digitOf false d) = .ub .overflow := by
        unfold accDigit
        rw [h.com]
        by_cases h1 : ((a * 10 : Nat) : Int) ≤ W.hi
        · have e1 : arith W ((a : Int) * 10) = .ok ((a * 10 : Nat) : Int) := by rw [← h.arith_nat h1]; push_cast; rfl
          rw [e1, Res.bind_ok, digitVal_digitOf h10, arith_signed h.sg, if_neg]
          · rfl
          · intro hc; apply hle; have := hc.2; push_cast at this ⊢; exact this
        · rw [arith_signed h.sg, if_neg]
          · rfl
          · intro hc; apply h1; have := hc.2; push_cast at this ⊢; exact this
      rw [e]; rfl

theorem fracLenient_over (lim : Nat) (t : List Char) (hl : ((lim * 10 + 9 : Nat) : Int) ≤ W.hi) :
    ∀ (ds : List Nat) (a dv : Nat), Decimal ds → (∀ p d q, ds = p ++ d :: q → acc a p ≤ lim) → (dv : Int) ≤ W.hi →
      ¬ ((dv * 10 ^ ds.length : Nat) : Int) ≤ W.hi →
      fracLenient W lim (ds.map (digitOf false) ++ t) a dv = .ub .overflow := by
  intro ds
  induction ds with
  | nil => intro a dv _ _ hdv hn; exact absurd (by simpa using hdv) hn
  | cons d ds ih =>
    intro a dv hd hp hdv hn
    have h10 := hd.head
    have ha : a ≤ lim := hp [] d ds rfl
    have hle : ((a * 10 + d : Nat) : Int) ≤ W.hi := le_trans (by push_cast; omega) hl
    have e : dv * 10 ^ (ds.length + 1) = dv * 10 * 10 ^ ds.length := by rw [pow_succ]; ring
    rw [List.length_cons, e] at hn
    rw [List.map_cons, List.cons_append]
    conv_lhs => unfold fracLenient
    rw [if_neg (by rw [isDigit_digitOf h10]; push Not; exact ⟨by exact_mod_cast ha, by simp⟩), h.accDigit_ok h10 hle, Res.bind_ok]
    by_cases hd10 : ((dv * 10 : Nat) : Int) ≤ W.hi
    · rw [h.mulTen_ok hd10, Res.bind_ok]
      refine ih _ _ hd.tail ?_ hd10 hn
      intro p d' q hq
      have := hp (d :: p) d' q (by rw [hq]; rfl)
      rwa [acc_cons] at this
    · have e2 : mulTen W dv = .ub .overflow := by
        unfold mulTen
        rw [h.com, arith_signed h.sg, if_neg]
        · rfl
        · intro hc; apply hd10; have := hc.2; push_cast at this ⊢; exact this
      rw [e2]; rfl

theorem hi_eq : W.hi = 2 ^ (W.bits - 1) - 1 := by unfold IntTy.hi; rw [h.sg, if_pos rfl]

/-- Adding a fraction to a shifted integer part never overflows: the sum is the exact sum reduced modulo the type. -/
theorem scaleParts_wrap {ip dec dv f : Nat} (hf : f + 1 < W.bits) (hdv : 0 < dv) (hlt : dec < dv) (h1 : ((dec * 2 ^ f : Nat) : Int) ≤ W.hi) :
    scaleParts W f ip dec dv = .ok (W.wrap ((ip * 2 ^ f + dec * 2 ^ f / dv : Nat) : Int)) := by
  unfold scaleParts
  have hq : W.InRange ((dec * 2 ^ f / dv : Nat) : Int) := h.nat_in (le_trans (by exact_mod_cast Nat.div_le_self _ _) h1)
  have ec : cdiv W ((dec * 2 ^ f : Nat) : Int) dv = .ok ((dec * 2 ^ f / dv : Nat) : Int) := by
    unfold cdiv
    rw [if_neg (by exact_mod_cast hdv.ne'), ← Int.ofNat_tdiv, if_neg (by rintro ⟨-, hc⟩; exact hc hq)]
  have es : shl W (ip : Int) f = .ok (W.wrap ((ip : Int) * 2 ^ f)) := by
    unfold shl
    rw [h.prom, if_pos (by omega)]
  rw [es, Res.bind_ok, h.shl_ok (by omega) h1, Res.bind_ok, h.prom, ec, Res.bind_ok]
  have hpos : (0 : Int) < 2 ^ f := by positivity
  have hqlt : ((dec * 2 ^ f / dv : Nat) : Int) < 2 ^ f := by
    have : dec * 2 ^ f / dv < 2 ^ f := by
      rw [Nat.div_lt_iff_lt_mul hdv, mul_comm]
      exact Nat.mul_lt_mul_of_pos_left hlt (by positivity)
    exact_mod_cast this
  have hq0 : (0 : Int) ≤ ((dec * 2 ^ f / dv : Nat) : Int) := by positivity
  set q : Int := ((dec * 2 ^ f / dv : Nat) : Int) with hqd
  have hwr := IntTy.wrap_inRange (t := W) ((ip : Int) * 2 ^ f) h.pos
  have hdw := IntTy.wrap_dvd W ((ip : Int) * 2 ^ f)
  have hd1 : (2 : Int) ^ f ∣ 2 ^ W.bits := pow_dvd_pow _ (by omega)
  have hd2 : (2 : Int) ^ f ∣ W.wrap ((ip : Int) * 2 ^ f) := by
    have := Int.dvd_sub (Dvd.intro_left (ip : Int) rfl : (2 : Int) ^ f ∣ (ip : Int) * 2 ^ f) (hd1.trans hdw)
    simpa using this
  have hd3 : (2 : Int) ^ f ∣ W.hi + 1 := by
    rw [h.hi_eq, sub_add_cancel]; exact pow_dvd_pow _ (by omega)
  have hin : W.InRange (W.wrap ((ip : Int) * 2 ^ f) + q) := by
    refine ⟨by have := hwr.1; omega, ?_⟩
    have h3 : (2 : Int) ^ f ≤ W.hi + 1 - W.wrap ((ip : Int) * 2 ^ f) :=
      Int.le_of_dvd (by have := hwr.2; omega) (Int.dvd_sub hd3 hd2)
    omega
  rw [arith_of_inRange h.pos hin]
  congr 1
  rw [← IntTy.wrap_of_inRange h.pos hin]
  apply IntTy.wrap_congr
  have : W.wrap ((ip : Int) * 2 ^ f) + q - ((ip * 2 ^ f + dec * 2 ^ f / dv : Nat) : Int) = -((ip : Int) * 2 ^ f - W.wrap ((ip : Int) * 2 ^ f)) := by
    push_cast [hqd]; ring
  rw [this]
  exact (dvd_neg).2 hdw

end WS

/-- The result of storing the intermediate value `v` for a numeral with sign `neg`. -/
theorem storeParsed_int {F : FxTy} (h : PS F) (neg : Bool) (v old : Int) :
    storeParsed F neg v old = if F.T.InRange v then (if neg = true then (if v = F.T.lo then .ub .overflow else .ok (true, -v)) else .ok (true, v))
      else .ok (false, old) := by
  unfold storeParsed
  rw [h.hiI, h.loI]
  have hlh := h.sw.lo_hi
  by_cases hc : F.T.InRange v
  · rw [if_neg (by have := hc.1; have := hc.2; omega), if_pos hc, h.sw.from_ok hc]
    cases neg
    · rfl
    · rw [if_pos rfl, if_pos rfl]
      by_cases hv : v = F.T.lo
      · rw [if_pos hv]
        unfold Eirin.neg
        rw [h.sw.p, arith_signed h.sw.sg, if_neg (by intro hc; have := hc.2; omega)]
        rfl
      · rw [if_neg hv, h.sw.neg_ok (x := v) ⟨by have := hc.2; omega, by have := hc.1; omega⟩]; rfl
  · rw [if_pos (by unfold IntTy.InRange at hc; omega), if_neg hc]

namespace Props

/-- `p` is the part of the fraction digits `ds` that the parsers look at: they stop as soon as the digits read make a number above a tenth
of the largest fraction. -/
def Used (F : FxTy) (ds p : List Nat) : Prop :=
  ∃ q, ds = p ++ q ∧ (q ≠ [] → (2 ^ F.f - 1) / 10 < digitsVal 10 p) ∧ ∀ p1 d p2, p = p1 ++ d :: p2 → digitsVal 10 p1 ≤ (2 ^ F.f - 1) / 10

/-- `v` is `n` reduced modulo the size of the intermediate type into its range. -/
def WrapsTo (F : FxTy) (n v : Int) : Prop := F.I.InRange v ∧ (2 : Int) ^ F.I.bits ∣ n - v

/-- What the parsers make of the magnitude `v`. -/
def stored (F : FxTy) (neg : Bool) (v old : Int) : Res (Bool × Int) :=
  if Storable F v then (if neg then (if v = F.T.lo then .ub .overflow else .ok (true, -v)) else .ok (true, v)) else .ok (false, old)

/-- C121: every fraction has exactly one used part. -/
theorem C121_used (F : FxTy) (ds : List Nat) : ∃! p, Used F ds p := by
  obtain ⟨p, q, e, h1, h2⟩ := cut_split (cutLim F) ds 0
  refine ⟨p, ⟨q, e, h1, h2⟩, ?_⟩
  rintro p' ⟨q', e', h1', h2'⟩
  have key : ∀ a b a' b' : List Nat, ds = a ++ b → ds = a' ++ b' → (b ≠ [] → (2 ^ F.f - 1) / 10 < digitsVal 10 a) →
      (∀ p1 d p2, a' = p1 ++ d :: p2 → digitsVal 10 p1 ≤ (2 ^ F.f - 1) / 10) → a'.length ≤ a.length := by
    intro a b a' b' e1 e2 h3 h4
    by_contra hc
    obtain ⟨c, hc'⟩ : ∃ c, a' = a ++ c := by
      have := (List.append_eq_append_iff.1 (e1.symm.trans e2))
      rcases this with ⟨c, h5, -⟩ | ⟨c, h5, -⟩
      · exact ⟨c, h5⟩
      · exfalso; rw [h5, List.length_append] at hc; omega
    cases c with
    | nil => rw [hc', List.append_nil] at hc; omega
    | cons d c =>
      have h5 := h4 a d c hc'
      have h6 : b ≠ [] := by
        rintro rfl
        rw [List.append_nil] at e1
        have := congrArg List.length (e1.symm.trans e2)
        rw [List.length_append] at this
        omega
      have := h3 h6
      omega
  have hle := key p q p' q' e e' h1 h2'
  have hge := key p' q' p q e' e h1' h2
  exact (List.append_inj (e'.symm.trans e) (by omega)).1

/-- C121: on every signed layout of 32 or 64 bits and every numeral — any number of digits, in range or not — both parsers have the same
outcome: overflow (undefined behaviour) when the integer part or the power of ten of the used fraction digits exceeds the intermediate type,
and otherwise the floor of the used numeral reduced modulo the intermediate type, stored if it fits the storage. -/
theorem C121_total (F : FxTy) (h : SW F) (neg : Bool) (is : List Nat) (fs : Option (List Nat)) (p : List Nat) (v old : Int)
    (his : Decimal is) (hfs : Decimal (fracDigits fs)) (hp : Used F (fracDigits fs) p) (hv : WrapsTo F ⌊numeralMag is (some p) * 2 ^ F.f⌋ v) :
    parseDetail F (numeral neg is fs) old =
      (if (F.I.hi < digitsVal 10 is ∨ F.I.hi < 10 ^ p.length) then .ub .overflow else stored F neg v old) ∧
    fixedFromCstring F (numeral neg is fs) old = parseDetail F (numeral neg is fs) old := by
  have hps := ps_of h
  have hws := hps.ws
  obtain ⟨q, epq, hq, hp⟩ := hp
  replace hq : q ≠ [] → cutLim F < acc 0 p := hq
  replace hp : ∀ p1 d p2, p = p1 ++ d :: p2 → acc 0 p1 ≤ cutLim F := hp
  have hpd : Decimal p := by rw [epq] at hfs; exact hfs.left
  have hqd : Decimal q := by rw [epq] at hfs; exact hfs.right
  have hst : ∀ v, storeParsed F neg v old = stored F neg v old := fun v => storeParsed_int hps neg v old
  have h0 : ((0 : Nat) : Int) ≤ F.I.hi := le_trans (by positivity) hps.fits
  have h1 : ((1 : Nat) : Int) ≤ F.I.hi := le_trans (by exact_mod_cast Nat.mul_pos (by omega) (by positivity)) hps.fits
  by_cases hip : ((acc 0 is : Nat) : Int) ≤ F.I.hi
  swap
  · -- the integer part overflows
    have hov : ∀ t, intLenient F.I (is.map (digitOf false) ++ t) 0 = .ub .overflow := by
      intro t
      have := hws.intLenient_over t is 0 his h0 hip
      rwa [Nat.cast_zero] at this
    rw [if_pos (Or.inl (by rw [digitsVal_eq_acc]; omega))]
    constructor
    · unfold parseDetail
      rw [takeSign_numeral neg his]
      cases fs <;>
      · simp only [intStrict_eq, numeral, Bool.false_eq_true, if_false, List.nil_append]
        rw [hov]; rfl
    · unfold fixedFromCstring parseDetail
      rw [takeSign_numeral neg his]
      cases fs <;>
      · simp only [intStrict_eq, numeral, Bool.false_eq_true, if_false, List.nil_append]
        rw [hov]; rfl
  have eint : ∀ t, okInt t = true → intLenient F.I (is.map (digitOf false) ++ t) 0 = .ok (((digitsVal 10 is : Nat) : Int), t) := by
    intro t ht
    have := hws.intLenient_digits t is 0 his hip
    rw [Nat.cast_zero] at this
    rw [this]
    cases t with
    | nil => rfl
    | cons c t =>
      unfold intLenient
      rw [if_pos (by simpa [okInt] using ht)]; rfl
  have hpl : acc 0 p < 10 ^ p.length := acc_lt hpd
  have hdec : acc 0 p ≤ cutLim F * 10 + 9 := by
    rcases List.eq_nil_or_concat p with rfl | ⟨p', d, rfl⟩
    · simp
    · have h1 := hp p' d [] (by simp)
      have h2 : d < 10 := hpd d (by simp)
      rw [List.concat_eq_append, acc_append]
      simp only [acc_cons, acc_nil]
      omega
  have hdecI : ((acc 0 p * 2 ^ F.f : Nat) : Int) ≤ F.I.hi :=
    le_trans (by exact_mod_cast Nat.mul_le_mul_right _ hdec) hps.fits
  have hlimI : ((cutLim F * 10 + 9 : Nat) : Int) ≤ F.I.hi :=
    le_trans (by exact_mod_cast Nat.le_mul_of_pos_right _ (by positivity)) hps.fits
  have hfb : F.f + 1 < F.I.bits := by
    have h2 := f_le h
    rcases inter_of h with ⟨e, e' | e'⟩ | ⟨e, e'⟩ <;> rw [e']
    · show F.f + 1 < 64; omega
    · show F.f + 1 < 128; omega
    · show F.f + 1 < 128; omega
  have hfloor : ⌊numeralMag is (some p) * 2 ^ F.f⌋ = ((digitsVal 10 is * 2 ^ F.f + acc 0 p * 2 ^ F.f / 10 ^ p.length : Nat) : Int) := by
    have hsplit := floor_split (digitsVal 10 is) (acc 0 p) p.length F.f
    rw [← fracVal_eq] at hsplit
    rw [← hsplit, Int.natCast_floor_eq_floor (by have := fracVal_nonneg p; positivity)]
    rfl
  have hwv : F.I.wrap ((digitsVal 10 is * 2 ^ F.f + acc 0 p * 2 ^ F.f / 10 ^ p.length : Nat) : Int) = v := by
    rw [← hfloor, IntTy.wrap_congr hv.2, IntTy.wrap_of_inRange hws.pos hv.1]
  have hnip : ¬ F.I.hi < digitsVal 10 is := by rw [digitsVal_eq_acc]; omega
  cases hfs' : fs with
  | none =>
    subst hfs'
    have hp' : p = [] := by
      have : p ++ q = [] := by rw [← epq]; rfl
      exact (List.append_eq_nil_iff.1 this).1
    subst hp'
    have e1 := eint [] rfl
    rw [if_neg (by rintro (hc | hc); exacts [hnip hc, by simp at hc h1; omega])]
    have hwv' : F.I.wrap (((digitsVal 10 is : Nat) : Int) * 2 ^ F.f) = v := by simpa using hwv
    have es : shl F.I ((digitsVal 10 is : Nat) : Int) F.f = .ok v := by
      unfold shl
      rw [hws.prom, if_pos (by omega), hwv']
    have hvv : F.I.wrap v = v := IntTy.wrap_of_inRange hws.pos hv.1
    have ed : parseDetail F (numeral neg is none) old = stored F neg v old := by
      unfold parseDetail
      rw [takeSign_numeral neg his]
      simp only [intStrict_eq, numeral, Bool.false_eq_true, if_false, List.nil_append, e1, Res.bind_ok, okInt, if_true, es, hvv, hst]
    refine ⟨ed, ?_⟩
    rw [ed]
    unfold fixedFromCstring
    rw [takeSign_numeral neg his]
    simp only [numeral, Bool.false_eq_true, if_false, List.nil_append, e1, Res.bind_ok, es, hvv, hst]
  | some ds =>
    subst hfs'
    have epq' : ds = p ++ q := epq
    have e1 := eint ('.' :: ds.map (digitOf false)) (by simp [okInt])
    by_cases hpow : ((1 * 10 ^ p.length : Nat) : Int) ≤ F.I.hi
    swap
    · have e2 : fracLenient F.I (cutLim F) (ds.map (digitOf false)) 0 1 = .ub .overflow := by
        have := hws.fracLenient_over (cutLim F) (q.map (digitOf false)) hlimI p 0 1 hpd hp h1 hpow
        rw [Nat.cast_zero, Nat.cast_one] at this
        rw [epq', List.map_append, this]
      rw [if_pos (Or.inr (by push_cast at hpow; rw [one_mul] at hpow; omega))]
      have ed : parseDetail F (numeral neg is (some ds)) old = .ub .overflow := by
        unfold parseDetail
        rw [takeSign_numeral neg his]
        simp only [intStrict_eq, fracStrict_eq, numeral, Bool.false_eq_true, if_false, List.nil_append, e1, Res.bind_ok, okInt, if_true,
          decide_true, hps.limD, e2, Res.bind_ub]
      refine ⟨ed, ?_⟩
      rw [ed]
      unfold fixedFromCstring
      rw [takeSign_numeral neg his]
      simp only [numeral, Bool.false_eq_true, if_false, List.nil_append, e1, Res.bind_ok, hps.limG, e2, Res.bind_ub]
    · have e2 : fracLenient F.I (cutLim F) (ds.map (digitOf false)) 0 1 =
          .ok ((acc 0 p : Int), ((10 ^ p.length : Nat) : Int), q.map (digitOf false)) := by
        have := hws.fracLenient_digits (cutLim F) (q.map (digitOf false)) hlimI p 0 1 hpd hp hpow
        rw [one_mul, Nat.cast_zero, Nat.cast_one] at this
        rw [epq', List.map_append, this]
        cases q with
        | nil => rfl
        | cons d q =>
          rw [List.map_cons]
          unfold fracLenient
          rw [if_pos (Or.inl (by exact_mod_cast hq (by simp)))]
      have hok : okFrac (q.map (digitOf false)) = true := by
        cases q with
        | nil => rfl
        | cons d q => exact isDigit_digitOf hqd.head
      have hsc := hws.scaleParts_wrap (ip := digitsVal 10 is) hfb (by positivity : 0 < 10 ^ p.length) hpl hdecI
      rw [hwv] at hsc
      have hvv : F.I.wrap v = v := IntTy.wrap_of_inRange hws.pos hv.1
      rw [if_neg (by rintro (hc | hc); exacts [hnip hc, by push_cast at hpow; rw [one_mul] at hpow; omega])]
      have ed : parseDetail F (numeral neg is (some ds)) old = stored F neg v old := by
        unfold parseDetail
        rw [takeSign_numeral neg his]
        simp only [intStrict_eq, fracStrict_eq, numeral, Bool.false_eq_true, if_false, List.nil_append, e1, Res.bind_ok, okInt, if_true,
          decide_true, hps.limD, e2, hok, hsc, hvv, hst]
      refine ⟨ed, ?_⟩
      rw [ed]
      unfold fixedFromCstring
      rw [takeSign_numeral neg his]
      simp only [numeral, Bool.false_eq_true, if_false, List.nil_append, e1, Res.bind_ok, hps.limG, e2, hsc, hvv, hst]

example : SW fixed32 ∧ Used fixed32 [5] [5] ∧ WrapsTo fixed32 ⌊numeralMag [1] (some [5]) * 2 ^ fixed32.f⌋ 98304 ∧
    parseDetail fixed32 (numeral true [1] (some [5])) 7 = .ok (true, -98304) ∧
    -- twenty zeros: the power of ten leaves the 64-bit intermediate
    parseDetail fixed32 "0.00000000000000000000".toList 7 = .ub .overflow ∧
    -- 2^63
    parseDetail fixed32 "9223372036854775808".toList 7 = .ub .overflow := by
  refine ⟨sw32, ⟨[], rfl, by simp, ?_⟩, ?_, by decide +kernel, by decide +kernel, by decide +kernel⟩
  · intro p1 d p2 hp
    cases p1 with
    | nil => decide
    | cons x p1 => cases p1 <;> simp at hp
  · have e : numeralMag [1] (some [5]) * 2 ^ fixed32.f = ((98304 : Int) : ℚ) := by
      norm_num [numeralMag, fracDigits, digitsVal, fracVal, fixed32]
    rw [e, Int.floor_intCast]
    exact ⟨by decide +kernel, by simp⟩

/-- C121: the integer part counts only modulo `2 ^ (I.bits - f)`: two numerals with the same fraction whose integer parts fit the
intermediate type and agree modulo that number have the same outcome, so far-out-of-range numerals are accepted as small numbers. -/
theorem C121_alias (F : FxTy) (h : SW F) (neg : Bool) (is js : List Nat) (fs : Option (List Nat)) (old : Int) (his : Decimal is)
    (hjs : Decimal js) (hfs : Decimal (fracDigits fs)) (h1 : (digitsVal 10 is : Int) ≤ F.I.hi) (h2 : (digitsVal 10 js : Int) ≤ F.I.hi)
    (hm : digitsVal 10 is % 2 ^ (F.I.bits - F.f) = digitsVal 10 js % 2 ^ (F.I.bits - F.f)) :
    parseDetail F (numeral neg is fs) old = parseDetail F (numeral neg js fs) old ∧
      fixedFromCstring F (numeral neg is fs) old = fixedFromCstring F (numeral neg js fs) old := by
  obtain ⟨p, hp, -⟩ := C121_used F (fracDigits fs)
  have hfb : F.f ≤ F.I.bits := (ps_of h).fb.le
  have hd : ((2 ^ (F.I.bits - F.f) : Nat) : Int) ∣ (digitsVal 10 is : Int) - digitsVal 10 js :=
    (Nat.modEq_iff_dvd.1 (Eq.symm hm))
  have hfl : ∀ ks : List Nat, ⌊numeralMag ks (some p) * 2 ^ F.f⌋ = (digitsVal 10 ks : Int) * 2 ^ F.f + ⌊fracVal 10 p * 2 ^ F.f⌋ := by
    intro ks
    have e : numeralMag ks (some p) * 2 ^ F.f = (((digitsVal 10 ks : Int) * 2 ^ F.f : Int) : ℚ) + fracVal 10 p * 2 ^ F.f := by
      unfold numeralMag; push_cast; show (_ + fracVal 10 p) * _ = _; ring
    rw [e, Int.floor_intCast_add]
  have hw : WrapsTo F ⌊numeralMag is (some p) * 2 ^ F.f⌋ (F.I.wrap ⌊numeralMag is (some p) * 2 ^ F.f⌋) :=
    ⟨IntTy.wrap_inRange _ (ws_I h).pos, IntTy.wrap_dvd _ _⟩
  have hw' : WrapsTo F ⌊numeralMag js (some p) * 2 ^ F.f⌋ (F.I.wrap ⌊numeralMag is (some p) * 2 ^ F.f⌋) := by
    refine ⟨hw.1, ?_⟩
    have h3 : (2 : Int) ^ F.I.bits ∣ ⌊numeralMag is (some p) * 2 ^ F.f⌋ - ⌊numeralMag js (some p) * 2 ^ F.f⌋ := by
      rw [hfl, hfl, add_sub_add_right_eq_sub, ← sub_mul]
      have : (2 : Int) ^ F.I.bits = ((2 ^ (F.I.bits - F.f) : Nat) : Int) * 2 ^ F.f := by
        push_cast; rw [← pow_add]; congr 1; omega
      rw [this]
      exact mul_dvd_mul_right hd _
    have := Int.dvd_sub hw.2 h3
    simpa using this
  obtain ⟨a1, a2⟩ := C121_total F h neg is fs p _ old his hfs hp hw
  obtain ⟨b1, b2⟩ := C121_total F h neg js fs p _ old hjs hfs hp hw'
  have e : parseDetail F (numeral neg is fs) old = parseDetail F (numeral neg js fs) old := by
    rw [a1, b1]
    have i1 : ¬ F.I.hi < (digitsVal 10 is : Int) := by omega
    have i2 : ¬ F.I.hi < (digitsVal 10 js : Int) := by omega
    simp only [i1, i2, false_or]
  exact ⟨e, by rw [a2, b2, e]⟩

/-- `2^48 + 1` is read as 1 in `fixed32`, `2^48 - 1` as minus 1. -/
example : (digitsVal 10 [2, 8, 1, 4, 7, 4, 9, 7, 6, 7, 1, 0, 6, 5, 7] : Int) ≤ fixed32.I.hi ∧
    digitsVal 10 [2, 8, 1, 4, 7, 4, 9, 7, 6, 7, 1, 0, 6, 5, 7] % 2 ^ (fixed32.I.bits - fixed32.f) = digitsVal 10 [1] % 2 ^ (fixed32.I.bits - fixed32.f) ∧
    parseDetail fixed32 "281474976710657.5".toList 7 = .ok (true, 98304) ∧
    parseDetail fixed32 "281474976710655".toList 7 = .ok (true, -65536) ∧
    fixedFromCstring fixed64 "79228162514264337593543950337".toList 7 = .ok (true, 2 ^ 32) ∧
    -- -32768 by way of the wrap cannot be negated
    parseDetail fixed32 "-281474976677888".toList 7 = .ub .overflow := by
  refine ⟨by decide +kernel, by decide +kernel, by decide +kernel, by decide +kernel, by decide +kernel, by decide +kernel⟩

end Props
end Eirin
