import Verif.Props.ParseTotal

/-! # Property C122: the string parsers on unsigned layouts -/

namespace Eirin
open Spec

/-- An unsigned type in which arithmetic with `int` operands is done in the type itself. -/
structure WU (W : IntTy) : Prop where
  sg : W.signed = false
  pos : 0 < W.bits
  prom : W.promote = W
  com : W.common i32 = W

theorem wu32 : WU u32 := ⟨by decide, by decide, by decide, by decide⟩
theorem wu64 : WU u64 := ⟨by decide, by decide, by decide, by decide⟩
theorem wu128 : WU u128 := ⟨by decide, by decide, by decide, by decide⟩

namespace WU
variable {W : IntTy} (h : WU W)
include h

theorem lo_eq : W.lo = 0 := by unfold IntTy.lo; rw [h.sg]; rfl
theorem hi_eq : W.hi = 2 ^ W.bits - 1 := by unfold IntTy.hi; rw [h.sg]; rfl
theorem zero_le : ((0 : Nat) : Int) ≤ W.hi := by
  rw [h.hi_eq]
  have : (0 : Int) < 2 ^ W.bits := by positivity
  push_cast; omega
theorem arith_eq (n : Int) : arith W n = .ok (W.wrap n) := by unfold arith; rw [h.sg]; rfl
theorem nat_in {n : Nat} (hn : (n : Int) ≤ W.hi) : W.InRange n := ⟨by rw [h.lo_eq]; positivity, hn⟩
theorem wrap_nat {n : Nat} (hn : (n : Int) ≤ W.hi) : W.wrap n = n := IntTy.wrap_of_inRange h.pos (h.nat_in hn)

theorem wrap_mod (n : Nat) : W.wrap n = ((n % 2 ^ W.bits : Nat) : Int) := by
  have h1 : W.wrap ((n % 2 ^ W.bits : Nat) : Int) = ((n % 2 ^ W.bits : Nat) : Int) := by
    apply h.wrap_nat
    rw [h.hi_eq]
    have := Nat.mod_lt n (by positivity : 0 < 2 ^ W.bits)
    have h2 : ((n % 2 ^ W.bits : Nat) : Int) < ((2 ^ W.bits : Nat) : Int) := by exact_mod_cast this
    push_cast at h2 ⊢
    omega
  rw [← h1]
  apply IntTy.wrap_congr
  have := Nat.mod_add_div n (2 ^ W.bits)
  refine ⟨(n / 2 ^ W.bits : Nat), ?_⟩
  have h2 : (n : Int) = ((n % 2 ^ W.bits + 2 ^ W.bits * (n / 2 ^ W.bits) : Nat) : Int) := by rw [this]
  rw [h2]; push_cast; ring

theorem accDigit_eq (a d : Nat) (hd : d < 10) : accDigit W (W.wrap a) (digitOf false d) = .ok (W.wrap ((a * 10 + d : Nat) : Int)) := by
  unfold accDigit
  rw [h.com, h.arith_eq, Res.bind_ok, digitVal_digitOf hd, h.arith_eq, Res.bind_ok, IntTy.wrap_wrap, Res.pure_eq]
  congr 1
  apply IntTy.wrap_congr
  have h1 := IntTy.wrap_dvd W (W.wrap a * 10)
  have h2 := IntTy.wrap_dvd W (a : Int)
  have e : W.wrap (W.wrap a * 10) + d - ((a * 10 + d : Nat) : Int) = -(W.wrap a * 10 - W.wrap (W.wrap a * 10)) - ((a : Int) - W.wrap a) * 10 := by
    push_cast; ring
  rw [e]
  exact Int.dvd_sub (dvd_neg.2 h1) (h2.mul_right 10)

theorem mulTen_eq (d : Nat) : mulTen W (W.wrap d) = .ok (W.wrap ((d * 10 : Nat) : Int)) := by
  unfold mulTen
  rw [h.com, h.arith_eq, Res.bind_ok, IntTy.wrap_wrap, Res.pure_eq]
  congr 1
  apply IntTy.wrap_congr
  have h2 := IntTy.wrap_dvd W (d : Int)
  have e : W.wrap d * 10 - ((d * 10 : Nat) : Int) = -(((d : Int) - W.wrap d) * 10) := by push_cast; ring
  rw [e]
  exact dvd_neg.2 (h2.mul_right 10)

theorem intLenient_digits (t : List Char) : ∀ (ds : List Nat) (a : Nat), Decimal ds →
    intLenient W (ds.map (digitOf false) ++ t) (W.wrap a) = intLenient W t (W.wrap (acc a ds)) := by
  intro ds
  induction ds with
  | nil => intro a _; rfl
  | cons d ds ih =>
    intro a hd
    have h10 := hd.head
    rw [acc_cons, List.map_cons, List.cons_append]
    conv_lhs => unfold intLenient
    rw [if_neg (digitOf_ne_dot h10), isDigit_digitOf h10, h.accDigit_eq _ _ h10]
    exact ih _ hd.tail

theorem fracLenient_digits (lim : Nat) (t : List Char) (hl : ((lim * 10 + 9 : Nat) : Int) ≤ W.hi) :
    ∀ (ds : List Nat) (a dv : Nat), Decimal ds → (∀ p d q, ds = p ++ d :: q → acc a p ≤ lim) →
      fracLenient W lim (ds.map (digitOf false) ++ t) a (W.wrap dv) = fracLenient W lim t (acc a ds) (W.wrap (dv * 10 ^ ds.length : Nat)) := by
  intro ds
  induction ds with
  | nil => intro a dv _ _; simp
  | cons d ds ih =>
    intro a dv hd hp
    have h10 := hd.head
    have ha : a ≤ lim := hp [] d ds rfl
    have hle : ((a * 10 + d : Nat) : Int) ≤ W.hi := le_trans (by push_cast; omega) hl
    have hla : ((a : Nat) : Int) ≤ W.hi := le_trans (by push_cast; omega) hl
    have e : dv * 10 ^ (ds.length + 1) = dv * 10 * 10 ^ ds.length := by rw [pow_succ]; ring
    have ea : accDigit W a (digitOf false d) = .ok ((a * 10 + d : Nat) : Int) := by
      have := h.accDigit_eq a d h10
      rwa [h.wrap_nat hla, h.wrap_nat hle] at this
    rw [List.map_cons, List.cons_append, List.length_cons, e, acc_cons]
    conv_lhs => unfold fracLenient
    rw [if_neg (by rw [isDigit_digitOf h10]; push Not; exact ⟨by exact_mod_cast ha, by simp⟩), ea, Res.bind_ok,
      h.mulTen_eq, Res.bind_ok]
    refine ih _ _ hd.tail ?_
    intro p d' q hq
    have := hp (d :: p) d' q (by rw [hq]; rfl)
    rwa [acc_cons] at this

theorem scaleParts_zero {ip : Int} {dec f : Nat} (hf : f < W.bits) : scaleParts W f ip dec 0 = .ub .divZero := by
  unfold scaleParts shl
  rw [h.prom, if_pos hf, if_pos hf, Res.bind_ok, Res.bind_ok]
  unfold cdiv
  rw [if_pos rfl]; rfl

theorem scaleParts_eq {ip dec dv f : Nat} (hf : f < W.bits) (hdv : dv ≠ 0) (h1 : ((dec * 2 ^ f : Nat) : Int) ≤ W.hi) :
    scaleParts W f (W.wrap ip) dec dv = .ok (W.wrap ((ip * 2 ^ f + dec * 2 ^ f / dv : Nat) : Int)) := by
  unfold scaleParts
  have ec : cdiv W ((dec * 2 ^ f : Nat) : Int) dv = .ok ((dec * 2 ^ f / dv : Nat) : Int) := by
    unfold cdiv
    rw [if_neg (by exact_mod_cast hdv), ← Int.ofNat_tdiv, if_neg (by rw [h.sg]; simp)]
  have es : ∀ n : Int, shl W n f = .ok (W.wrap (n * 2 ^ f)) := by
    intro n
    unfold shl
    rw [h.prom, if_pos hf]
  have e1 : W.wrap ((dec : Int) * 2 ^ f) = ((dec * 2 ^ f : Nat) : Int) := by
    have := h.wrap_nat h1
    push_cast at this ⊢
    exact this
  rw [es, es, Res.bind_ok, Res.bind_ok, h.prom, e1, ec, Res.bind_ok, h.arith_eq]
  congr 1
  apply IntTy.wrap_congr
  have h2 := IntTy.wrap_dvd W (W.wrap ip * 2 ^ f)
  have h3 := IntTy.wrap_dvd W (ip : Int)
  have e : W.wrap (W.wrap ip * 2 ^ f) + ((dec * 2 ^ f / dv : Nat) : Int) - ((ip * 2 ^ f + dec * 2 ^ f / dv : Nat) : Int) =
      -(W.wrap ip * 2 ^ f - W.wrap (W.wrap ip * 2 ^ f)) - ((ip : Int) - W.wrap ip) * 2 ^ f := by
    push_cast; ring
  rw [e]
  exact Int.dvd_sub (dvd_neg.2 h2) (h3.mul_right _)

end WU

namespace Props

/-- Unsigned storage of at least `int` width. -/
def UnsignedWide (F : FxTy) : Prop := F.T.signed = false ∧ 32 ≤ F.T.bits
instance (F : FxTy) : Decidable (UnsignedWide F) := by unfold UnsignedWide; infer_instance

theorem inter_of_unsigned {F : FxTy} (hv : F.Valid) (hu : UnsignedWide F) :
    (F.T = u32 ∧ (F.I = u64 ∨ F.I = u128)) ∨ (F.T = u64 ∧ F.I = u128) := by
  obtain ⟨v1, v2, v3, v4, -⟩ := hv
  obtain ⟨hs, hw⟩ := hu
  obtain ⟨⟨tb, ts⟩, ⟨ib, isg⟩, f, r⟩ := F
  simp only at v1 v2 v3 v4 hs hw ⊢
  subst hs
  rw [v4]
  rcases v1 with rfl | rfl | rfl | rfl <;> rcases v2 with rfl | rfl | rfl | rfl <;> first | omega | simp [u32, u64, u128]

theorem wu_I {F : FxTy} (hv : F.Valid) (hu : UnsignedWide F) : WU F.I := by
  rcases inter_of_unsigned hv hu with ⟨-, e | e⟩ | ⟨-, e⟩ <;> rw [e]
  exacts [wu64, wu128, wu128]

theorem wu_T {F : FxTy} (hv : F.Valid) (hu : UnsignedWide F) : WU F.T := by
  rcases inter_of_unsigned hv hu with ⟨e, -⟩ | ⟨e, -⟩ <;> rw [e]
  exacts [wu32, wu64]

/-- What the parsers make of the magnitude `v` in an unsigned type: a minus sign reduces `-v` modulo the storage. -/
def storedU (F : FxTy) (neg : Bool) (v : Nat) (old : Int) : Res (Bool × Int) :=
  if v < 2 ^ F.T.bits then .ok (true, if neg = true ∧ v ≠ 0 then 2 ^ F.T.bits - (v : Int) else v) else .ok (false, old)

theorem storeParsed_unsigned {F : FxTy} (hv : F.Valid) (hu : UnsignedWide F) (neg : Bool) (v : Nat) (old : Int) :
    storeParsed F neg v old = storedU F neg v old := by
  have ht := wu_T hv hu
  have hI := wu_I hv hu
  have hhi : F.I.wrap F.T.hi = F.T.hi := by
    rcases inter_of_unsigned hv hu with ⟨e, e' | e'⟩ | ⟨e, e'⟩ <;> rw [e, e'] <;> decide +kernel
  have hlo : F.I.wrap F.T.lo = 0 := by
    rw [ht.lo_eq]; exact hI.wrap_nat (n := 0) hI.zero_le
  unfold storeParsed storedU
  rw [hhi, hlo, ht.hi_eq]
  have hcast : ((2 ^ F.T.bits : Nat) : Int) = 2 ^ F.T.bits := by push_cast; rfl
  by_cases hc : v < 2 ^ F.T.bits
  · have hc' : (v : Int) < 2 ^ F.T.bits := by rw [← hcast]; exact_mod_cast hc
    have hfr : fromInternal F v = v := ht.wrap_nat (by rw [ht.hi_eq]; omega)
    rw [if_neg (by omega), if_pos hc]
    cases neg
    · simp [hfr]
    · rw [if_pos rfl, hfr]
      unfold Eirin.neg
      have hP : F.P = F.T := ht.prom
      rw [hP, ht.arith_eq, Res.bind_ok]
      by_cases h0 : v = 0
      · subst h0
        have : F.T.wrap (-((0 : Nat) : Int)) = 0 := by simpa using ht.wrap_nat (n := 0) (by rw [ht.hi_eq]; push_cast; omega)
        rw [this]
        have hz : F.T.wrap 0 = 0 := by simpa using ht.wrap_nat (n := 0) (by rw [ht.hi_eq]; push_cast; omega)
        simp [hz]
      · have hw : F.T.wrap (-(v : Int)) = 2 ^ F.T.bits - (v : Int) := by
          have hin : F.T.InRange (2 ^ F.T.bits - (v : Int)) := ⟨by rw [ht.lo_eq]; omega, by rw [ht.hi_eq]; omega⟩
          rw [← IntTy.wrap_of_inRange ht.pos hin]
          apply IntTy.wrap_congr
          exact ⟨-1, by ring⟩
        simp only [true_and, ne_eq, h0, not_false_iff, if_true]
        rw [← hw]
        simp only [IntTy.wrap_wrap, Res.pure_eq, Res.bind_ok]
  · have hc' : ¬ (v : Int) < 2 ^ F.T.bits := by rw [← hcast]; exact_mod_cast hc
    rw [if_pos (Or.inl (by omega)), if_neg hc]

theorem limGeneric_unsigned {F : FxTy} (hv : F.Valid) (hu : UnsignedWide F) : limGeneric F = .ok (cutLim F : Int) := by
  have ht := wu_T hv hu
  have hP : F.P = F.T := ht.prom
  have hf := hv.flt
  have h1 : (2 : Int) ^ F.f < 2 ^ F.T.bits := pow_lt_pow_right₀ (by norm_num) hf
  have h0 : (0 : Int) < 2 ^ F.f := by positivity
  have hone : oneShl F = 2 ^ F.f := by
    unfold oneShl
    rw [hP]; exact IntTy.wrap_of_inRange ht.pos ⟨by rw [ht.lo_eq]; omega, by rw [ht.hi_eq]; omega⟩
  have hw : F.T.wrap (2 ^ F.f - 1) = 2 ^ F.f - 1 := IntTy.wrap_of_inRange ht.pos ⟨by rw [ht.lo_eq]; omega, by rw [ht.hi_eq]; omega⟩
  unfold limGeneric
  rw [hone, hP, ht.arith_eq, Res.bind_ok, ht.com, hw, hw]
  unfold cdiv
  rw [if_neg (by norm_num), if_neg (by rw [ht.sg]; simp), cutLim_cast, Int.tdiv_eq_ediv_of_nonneg (by omega)]

theorem fits_unsigned {F : FxTy} (hv : F.Valid) (hu : UnsignedWide F) : (((cutLim F * 10 + 9) * 2 ^ F.f : Nat) : Int) ≤ F.I.hi := by
  have h1 : cutLim F * 10 + 9 ≤ 2 ^ F.f + 8 := by
    unfold cutLim
    have := Nat.one_le_two_pow (n := F.f)
    omega
  have h2 : ∀ k : Nat, F.f ≤ k → (((2 ^ k + 8) * 2 ^ k : Nat) : Int) ≤ F.I.hi → (((cutLim F * 10 + 9) * 2 ^ F.f : Nat) : Int) ≤ F.I.hi := by
    intro k hk h3
    refine le_trans ?_ h3
    have h4 : 2 ^ F.f ≤ 2 ^ k := Nat.pow_le_pow_right (by norm_num) hk
    exact_mod_cast Nat.mul_le_mul (by omega) h4
  have hf := hv.2.2.2.2.2
  rcases inter_of_unsigned hv hu with ⟨e, e' | e'⟩ | ⟨e, e'⟩ <;> rw [e] at hf
  · exact h2 31 hf (by rw [e']; decide +kernel)
  · exact h2 31 hf (by rw [e']; decide +kernel)
  · exact h2 63 hf (by rw [e']; decide +kernel)

/-- C122: the outcome of both parsers on every numeral in every unsigned layout of 32 or 64 bits: with `p` the used fraction digits, a
division by zero (undefined) when `p` has at least as many digits as the intermediate type has bits, and otherwise the integer part plus the
fraction over the power of ten — both the power of ten and the result reduced modulo the intermediate type — is stored if it fits, a minus
sign being applied modulo the storage. -/
theorem C122_total (F : FxTy) (hv : F.Valid) (hu : UnsignedWide F) (neg : Bool) (is : List Nat) (fs : Option (List Nat)) (p : List Nat)
    (old : Int) (his : Decimal is) (hfs : Decimal (fracDigits fs)) (hp : Used F (fracDigits fs) p) :
    parseDetail F (numeral neg is fs) old =
      (if F.I.bits ≤ p.length then .ub .divZero
       else storedU F neg ((digitsVal 10 is * 2 ^ F.f + digitsVal 10 p * 2 ^ F.f / (10 ^ p.length % 2 ^ F.I.bits)) % 2 ^ F.I.bits) old) ∧
    fixedFromCstring F (numeral neg is fs) old = parseDetail F (numeral neg is fs) old := by
  have hws := wu_I hv hu
  have hfits := fits_unsigned hv hu
  obtain ⟨q, epq, hq, hp⟩ := hp
  replace hq : q ≠ [] → cutLim F < acc 0 p := hq
  replace hp : ∀ p1 d p2, p = p1 ++ d :: p2 → acc 0 p1 ≤ cutLim F := hp
  have hpd : Decimal p := by rw [epq] at hfs; exact hfs.left
  have hqd : Decimal q := by rw [epq] at hfs; exact hfs.right
  have hst := storeParsed_unsigned hv hu neg
  have hfb : F.f < F.I.bits := by have := hv.flt; have := hv.2.2.1; omega
  have h0I : F.I.wrap ((0 : Nat) : Int) = 0 := hws.wrap_nat hws.zero_le
  have h1I : F.I.wrap ((1 : Nat) : Int) = 1 := hws.wrap_nat (le_trans (by exact_mod_cast Nat.mul_pos (by omega) (by positivity)) hfits)
  have eint : ∀ t, okInt t = true → intLenient F.I (is.map (digitOf false) ++ t) 0 = .ok (F.I.wrap ((digitsVal 10 is : Nat) : Int), t) := by
    intro t ht
    have := hws.intLenient_digits t is 0 his
    rw [h0I] at this
    rw [this]
    cases t with
    | nil => rfl
    | cons c t =>
      unfold intLenient
      rw [if_pos (by simpa [okInt] using ht)]; rfl
  have hdec : acc 0 p ≤ cutLim F * 10 + 9 := by
    rcases List.eq_nil_or_concat p with rfl | ⟨p', d, rfl⟩
    · simp
    · have h1 := hp p' d [] (by simp)
      have h2 : d < 10 := hpd d (by simp)
      rw [List.concat_eq_append, acc_append]
      simp only [acc_cons, acc_nil]
      omega
  have hdecI : ((acc 0 p * 2 ^ F.f : Nat) : Int) ≤ F.I.hi :=
    le_trans (by exact_mod_cast Nat.mul_le_mul_right _ hdec) hfits
  have hlimI : ((cutLim F * 10 + 9 : Nat) : Int) ≤ F.I.hi :=
    le_trans (by exact_mod_cast Nat.le_mul_of_pos_right _ (by positivity)) hfits
  have hbpos : 0 < F.I.bits := hws.pos
  cases hfs' : fs with
  | none =>
    subst hfs'
    have hp' : p = [] := by
      have : p ++ q = [] := by rw [← epq]; rfl
      exact (List.append_eq_nil_iff.1 this).1
    subst hp'
    have e1 := eint [] rfl
    rw [if_neg (by simpa using hbpos.ne')]
    have es : shl F.I (F.I.wrap ((digitsVal 10 is : Nat) : Int)) F.f = .ok ((digitsVal 10 is * 2 ^ F.f % 2 ^ F.I.bits : Nat) : Int) := by
      unfold shl
      rw [hws.prom, if_pos (by omega), ← hws.wrap_mod]
      congr 1
      apply IntTy.wrap_congr
      have h3 := IntTy.wrap_dvd F.I ((digitsVal 10 is : Nat) : Int)
      have e : F.I.wrap ((digitsVal 10 is : Nat) : Int) * 2 ^ F.f - ((digitsVal 10 is * 2 ^ F.f : Nat) : Int) =
          -(((digitsVal 10 is : Nat) : Int) - F.I.wrap ((digitsVal 10 is : Nat) : Int)) * 2 ^ F.f := by push_cast; ring
      rw [e]
      exact (dvd_neg.2 h3).mul_right _
    have hvv : F.I.wrap ((digitsVal 10 is * 2 ^ F.f % 2 ^ F.I.bits : Nat) : Int) = ((digitsVal 10 is * 2 ^ F.f % 2 ^ F.I.bits : Nat) : Int) := by
      rw [hws.wrap_mod, Nat.mod_mod]
    have e0 : digitsVal 10 is * 2 ^ F.f + digitsVal 10 [] * 2 ^ F.f / (10 ^ ([] : List Nat).length % 2 ^ F.I.bits) = digitsVal 10 is * 2 ^ F.f := by
      simp [digitsVal]
    rw [e0]
    have ed : parseDetail F (numeral neg is none) old = storedU F neg (digitsVal 10 is * 2 ^ F.f % 2 ^ F.I.bits) old := by
      unfold parseDetail
      rw [takeSign_numeral neg his]
      simp only [intStrict_eq, numeral, Bool.false_eq_true, if_false, List.nil_append, e1, Res.bind_ok, okInt, if_true, es, hvv, hst]
    refine ⟨ed, ?_⟩
    rw [ed]
    unfold fixedFromCstring
    rw [takeSign_numeral neg his]
    simp only [numeral, Bool.false_eq_true, if_false, List.nil_append, e1, Res.bind_ok, es, hvv, hst]
  | some ds =>
    subst hfs'
    have epq' : ds = p ++ q := epq
    have e1 := eint ('.' :: ds.map (digitOf false)) (by simp [okInt])
    have e2 : fracLenient F.I (cutLim F) (ds.map (digitOf false)) 0 1 =
        .ok ((acc 0 p : Int), ((10 ^ p.length % 2 ^ F.I.bits : Nat) : Int), q.map (digitOf false)) := by
      have := hws.fracLenient_digits (cutLim F) (q.map (digitOf false)) hlimI p 0 1 hpd hp
      rw [one_mul, Nat.cast_zero, h1I, hws.wrap_mod] at this
      rw [epq', List.map_append, this]
      cases q with
      | nil => rfl
      | cons d q =>
        rw [List.map_cons]
        unfold fracLenient
        rw [if_pos (Or.inl (by exact_mod_cast hq (by simp)))]
    have hok : okFrac (q.map (digitOf false)) = true := by
      cases q with
      | nil => rfl
      | cons d q => exact isDigit_digitOf hqd.head
    have hlim : limDetail F = (cutLim F : Int) := by rw [cutLim_cast]; rfl
    have hdz : 10 ^ p.length % 2 ^ F.I.bits = 0 ↔ F.I.bits ≤ p.length := by
      rw [← Nat.dvd_iff_mod_eq_zero]
      constructor
      · intro hd
        have e10 : 10 ^ p.length = 2 ^ p.length * 5 ^ p.length := by rw [← mul_pow]; norm_num
        rw [e10] at hd
        have hcop : Nat.Coprime (2 ^ F.I.bits) (5 ^ p.length) := Nat.Coprime.pow _ _ (by decide)
        exact (Nat.pow_dvd_pow_iff_le_right (by norm_num)).1 (hcop.dvd_of_dvd_mul_right hd)
      · intro hle
        have h5 : (2 : Nat) ^ F.I.bits ∣ 10 ^ F.I.bits := pow_dvd_pow_of_dvd (by norm_num) _
        exact h5.trans (pow_dvd_pow _ hle)
    by_cases hz : F.I.bits ≤ p.length
    · have hz' := hdz.2 hz
      rw [if_pos hz]
      rw [hz', Nat.cast_zero] at e2
      have hsc := hws.scaleParts_zero (ip := F.I.wrap ((digitsVal 10 is : Nat) : Int)) (dec := acc 0 p) hfb
      have ed : parseDetail F (numeral neg is (some ds)) old = .ub .divZero := by
        unfold parseDetail
        rw [takeSign_numeral neg his]
        simp only [intStrict_eq, fracStrict_eq, numeral, Bool.false_eq_true, if_false, List.nil_append, e1, Res.bind_ok, okInt, if_true,
          decide_true, hlim, e2, hok, hsc, Res.bind_ub]
      refine ⟨ed, ?_⟩
      rw [ed]
      unfold fixedFromCstring
      rw [takeSign_numeral neg his]
      simp only [numeral, Bool.false_eq_true, if_false, List.nil_append, e1, Res.bind_ok, limGeneric_unsigned hv hu, e2, hsc, Res.bind_ub]
    · have hz' : 10 ^ p.length % 2 ^ F.I.bits ≠ 0 := fun hc => hz (hdz.1 hc)
      rw [if_neg hz]
      have hsc := hws.scaleParts_eq (ip := digitsVal 10 is) hfb hz' hdecI
      have hpe : digitsVal 10 p = acc 0 p := rfl
      rw [hpe]
      have hvv : F.I.wrap ((( digitsVal 10 is * 2 ^ F.f + acc 0 p * 2 ^ F.f / (10 ^ p.length % 2 ^ F.I.bits)) % 2 ^ F.I.bits : Nat) : Int) =
          (((digitsVal 10 is * 2 ^ F.f + acc 0 p * 2 ^ F.f / (10 ^ p.length % 2 ^ F.I.bits)) % 2 ^ F.I.bits : Nat) : Int) := by
        rw [hws.wrap_mod, Nat.mod_mod]
      rw [hws.wrap_mod (_ + _)] at hsc
      have ed : parseDetail F (numeral neg is (some ds)) old =
          storedU F neg ((digitsVal 10 is * 2 ^ F.f + acc 0 p * 2 ^ F.f / (10 ^ p.length % 2 ^ F.I.bits)) % 2 ^ F.I.bits) old := by
        unfold parseDetail
        rw [takeSign_numeral neg his]
        simp only [intStrict_eq, fracStrict_eq, numeral, Bool.false_eq_true, if_false, List.nil_append, e1, Res.bind_ok, okInt, if_true,
          decide_true, hlim, e2, hok, hsc, hvv, hst]
      refine ⟨ed, ?_⟩
      rw [ed]
      unfold fixedFromCstring
      rw [takeSign_numeral neg his]
      simp only [numeral, Bool.false_eq_true, if_false, List.nil_append, e1, Res.bind_ok, limGeneric_unsigned hv hu, e2, hsc, hvv, hst]

example : (⟨u32, u64, 16, false⟩ : FxTy).Valid ∧ UnsignedWide ⟨u32, u64, 16, false⟩ ∧ Used ⟨u32, u64, 16, false⟩ [5] [5] ∧
    parseDetail ⟨u32, u64, 16, false⟩ (numeral false [4, 0, 0, 0, 0] (some [5])) 7 = .ok (true, 40000 * 65536 + 32768) ∧
    -- sixty-four zeros after the point
    parseDetail ⟨u32, u64, 16, false⟩ ("0.".toList ++ List.replicate 64 '0') 7 = .ub .divZero ∧
    parseDetail ⟨u32, u64, 16, false⟩ ("0.".toList ++ List.replicate 63 '0') 7 = .ok (true, 0) ∧
    -- 2 * 10^-28 with thirty-seven decimals: the power of ten has wrapped and the result is 62 ulp instead of 0
    parseDetail ⟨u32, u64, 31, false⟩ ("0.".toList ++ List.replicate 27 '0' ++ "2000000000".toList) 7 = .ok (true, 62) := by
  refine ⟨by decide, by decide, ⟨[], rfl, by simp, ?_⟩, by decide +kernel, by decide +kernel, by decide +kernel, by decide +kernel⟩
  intro p1 d p2 hp
  cases p1 with
  | nil => decide
  | cons x p1 => cases p1 <;> simp at hp

/-- Number of fraction digits whose power of ten fits the intermediate type. -/
def interDigitsU (F : FxTy) : Nat := if F.I.bits = 64 then 19 else 38

/-- The fraction is short enough for the decimal divisor of the parser, or large enough for the precision cut-off to come first. -/
def FracFitsU (F : FxTy) (ds : List Nat) : Prop := ds.length ≤ interDigitsU F ∨ (2 ^ F.f + 9 : ℚ) / 10 ^ (interDigitsU F + 1) ≤ fracVal 10 ds

theorem inter_ten_unsigned {F : FxTy} (hv : F.Valid) (hu : UnsignedWide F) : 10 ^ interDigitsU F < 2 ^ F.I.bits := by
  unfold interDigitsU
  rcases inter_of_unsigned hv hu with ⟨e, e' | e'⟩ | ⟨e, e'⟩ <;> rw [e'] <;> decide +kernel

/-- Length of the used part of a fraction that is short or large. -/
theorem used_len {F : FxTy} {ds p : List Nat} (hd : Decimal ds) (hp : Used F ds p) (K : Nat)
    (hlen : ds.length ≤ K ∨ (2 ^ F.f + 9 : ℚ) / 10 ^ (K + 1) ≤ fracVal 10 ds) : p.length ≤ K := by
  obtain ⟨q, epq, -, hp⟩ := hp
  rcases hlen with hl | hl
  · rw [epq, List.length_append] at hl; omega
  · rcases List.eq_nil_or_concat p with rfl | ⟨p', d, rfl⟩
    · simp
    · have h1 : acc 0 p' ≤ (2 ^ F.f - 1) / 10 := hp p' d [] (by simp)
      by_contra hc
      simp only [List.concat_eq_append, List.length_append, List.length_singleton] at hc
      have e : ds = p' ++ (d :: q) := by rw [epq]; simp
      have hd' : Decimal (d :: q) := by rw [e] at hd; exact hd.right
      have h3 := fracVal_lt hd'
      rw [e, fracVal_append, fracVal_eq p', ← add_div, div_le_div_iff₀ (by positivity) (by positivity)] at hl
      have h4 : (acc 0 p' + 1) * 10 ≤ 2 ^ F.f + 9 := by
        have := Nat.one_le_two_pow (n := F.f)
        omega
      have h5 : ((acc 0 p' : ℚ) + 1) * 10 ≤ 2 ^ F.f + 9 := by exact_mod_cast h4
      have h6 : (10 : ℚ) ^ K ≤ 10 ^ p'.length := pow_le_pow_right₀ (by norm_num) (by omega)
      have h7 : ((acc 0 p' : ℚ) + 1) * 10 ^ (K + 1) ≤ (2 ^ F.f + 9) * 10 ^ p'.length := by
        calc ((acc 0 p' : ℚ) + 1) * 10 ^ (K + 1) = (((acc 0 p' : ℚ) + 1) * 10) * 10 ^ K := by rw [pow_succ]; ring
          _ ≤ (2 ^ F.f + 9) * 10 ^ K := mul_le_mul_of_nonneg_right h5 (by positivity)
          _ ≤ _ := mul_le_mul_of_nonneg_left h6 (by positivity)
      have h8 : ((acc 0 p' : ℚ) + fracVal 10 (d :: q)) * 10 ^ (K + 1) < ((acc 0 p' : ℚ) + 1) * 10 ^ (K + 1) :=
        mul_lt_mul_of_pos_right (by linarith) (by positivity)
      linarith

/-- The floor of the used numeral lies less than eleven ulp below the numeral. -/
theorem used_bounds {F : FxTy} (is : List Nat) {fs : Option (List Nat)} {p : List Nat} (hfs : Decimal (fracDigits fs))
    (hp : Used F (fracDigits fs) p) :
    ((digitsVal 10 is * 2 ^ F.f + digitsVal 10 p * 2 ^ F.f / 10 ^ p.length : Nat) : ℚ) ≤ numeralMag is fs * 2 ^ F.f ∧
    numeralMag is fs * 2 ^ F.f < ((digitsVal 10 is * 2 ^ F.f + digitsVal 10 p * 2 ^ F.f / 10 ^ p.length : Nat) : ℚ) + 11 ∧
    (fracVal 10 (fracDigits fs) = 0 → digitsVal 10 p = 0) := by
  obtain ⟨q, epq, hq, -⟩ := hp
  have hpd : Decimal p := by rw [epq] at hfs; exact hfs.left
  have hqd : Decimal q := by rw [epq] at hfs; exact hfs.right
  have hposq : (0 : ℚ) < 2 ^ F.f := by positivity
  have hpe : digitsVal 10 p = acc 0 p := rfl
  have hsplit := floor_split (digitsVal 10 is) (acc 0 p) p.length F.f
  rw [← fracVal_eq] at hsplit
  have hp0 := fracVal_nonneg p
  have hq0 := fracVal_nonneg q
  have hmag : numeralMag is fs = digitsVal 10 is + fracVal 10 p + fracVal 10 q / 10 ^ p.length := by
    unfold numeralMag; rw [epq, fracVal_append]; ring
  have hrest : fracVal 10 q / 10 ^ p.length * 2 ^ F.f ≤ 10 := by
    by_cases hqn : q = []
    · subst hqn; simp [fracVal]
    · have h1 := (fracVal_lt hqd).le
      have h2 := tail_any F p.length (lt_trans (hq hqn) (acc_lt hpd))
      rw [div_mul_eq_mul_div, div_le_iff₀ (by positivity)]
      have h3 : fracVal 10 q * 2 ^ F.f ≤ 1 * 2 ^ F.f := mul_le_mul_of_nonneg_right h1 hposq.le
      linarith
  have hrest0 : 0 ≤ fracVal 10 q / 10 ^ p.length * 2 ^ F.f := by positivity
  rw [hpe, ← hsplit, hmag, add_mul ((digitsVal 10 is : ℚ) + fracVal 10 p)]
  have hx : (0 : ℚ) ≤ (digitsVal 10 is + fracVal 10 p) * 2 ^ F.f := by positivity
  refine ⟨by linarith [Nat.floor_le hx], by linarith [Nat.lt_floor_add_one (((digitsVal 10 is : ℚ) + fracVal 10 p) * 2 ^ F.f)], ?_⟩
  intro h0
  rw [epq, fracVal_append] at h0
  have h1 : fracVal 10 p = 0 := by
    have : 0 ≤ fracVal 10 q / 10 ^ p.length := by positivity
    linarith
  rw [fracVal_eq, div_eq_zero_iff] at h1
  rcases h1 with h1 | h1
  · exact_mod_cast h1
  · exact absurd h1 (by positivity)

/-- C122: what one would expect of an unsigned type: a numeral is accepted with its value (up to eleven ulp) exactly when it has no minus
sign (or denotes zero) and is below the bound of the type. -/
def C122_statement : Prop :=
  ∀ F : FxTy, F.Valid → UnsignedWide F → F.f ≤ 62 → ∀ (neg : Bool) (is : List Nat) (fs : Option (List Nat)), Decimal is → Decimal (fracDigits fs) →
    FracFitsU F (fracDigits fs) → ∀ old, ∃ ok y, parseDetail F (numeral neg is fs) old = .ok (ok, y) ∧
      (ok = true ↔ (neg = false ∨ numeralMag is fs = 0) ∧ numeralMag is fs < 2 ^ (F.T.bits - F.f))

/-- C122: numerals without a minus sign below the bound of the type are accepted by both parsers with the floor of the used digits — never
above the numeral, less than eleven ulp below it, exact for integers; a minus sign is accepted too and subtracts the magnitude from the
size of the type. -/
theorem C122_value_partial (F : FxTy) (hv : F.Valid) (hu : UnsignedWide F) (is : List Nat) (fs : Option (List Nat))
    (his : Decimal is) (hfs : Decimal (fracDigits fs)) (hlen : FracFitsU F (fracDigits fs)) (hmag : numeralMag is fs < 2 ^ (F.T.bits - F.f))
    (old : Int) :
    ∃ m : Nat, (∀ neg, let y : Int := if neg = true ∧ m ≠ 0 then 2 ^ F.T.bits - (m : Int) else m
        parseDetail F (numeral neg is fs) old = .ok (true, y) ∧ fixedFromCstring F (numeral neg is fs) old = .ok (true, y)) ∧
      (m : Int) ≤ F.T.hi ∧ val F m ≤ numeralMag is fs ∧ numeralMag is fs < val F m + 11 * ulp F ∧
      (fracVal 10 (fracDigits fs) = 0 → val F m = numeralMag is fs) := by
  obtain ⟨p, hp, -⟩ := C121_used F (fracDigits fs)
  have hk := used_len hfs hp _ hlen
  have hten : 10 ^ p.length < 2 ^ F.I.bits := lt_of_le_of_lt (Nat.pow_le_pow_right (by norm_num) hk) (inter_ten_unsigned hv hu)
  obtain ⟨b1, b2, b3⟩ := used_bounds is hfs hp
  set m := digitsVal 10 is * 2 ^ F.f + digitsVal 10 p * 2 ^ F.f / 10 ^ p.length with hm
  have hposq : (0 : ℚ) < 2 ^ F.f := by positivity
  have hfb := hv.flt
  have hmlt : m < 2 ^ F.T.bits := by
    have h1 : (m : ℚ) < 2 ^ (F.T.bits - F.f) * 2 ^ F.f := lt_of_le_of_lt b1 (mul_lt_mul_of_pos_right hmag hposq)
    rw [← pow_add, show F.T.bits - F.f + F.f = F.T.bits by omega] at h1
    exact_mod_cast h1
  have hI : 2 ^ F.T.bits < 2 ^ F.I.bits := Nat.pow_lt_pow_right (by norm_num) hv.2.2.1
  have hlen2 : ¬ F.I.bits ≤ p.length := by
    intro hc
    have h1 : 2 ^ F.I.bits ≤ 10 ^ p.length :=
      le_trans (Nat.pow_le_pow_left (by norm_num : 2 ≤ 10) _) (Nat.pow_le_pow_right (by norm_num) hc)
    omega
  refine ⟨m, ?_, ?_, ?_, ?_, ?_⟩
  · intro neg
    obtain ⟨t1, t2⟩ := C122_total F hv hu neg is fs p old his hfs hp
    rw [t2]
    have : parseDetail F (numeral neg is fs) old = .ok (true, if neg = true ∧ m ≠ 0 then 2 ^ F.T.bits - (m : Int) else m) := by
      rw [t1, if_neg hlen2, Nat.mod_eq_of_lt hten, ← hm, Nat.mod_eq_of_lt (lt_trans hmlt hI)]
      unfold storedU
      rw [if_pos hmlt]
    exact ⟨this, this⟩
  · rw [(wu_T hv hu).hi_eq]
    have : (m : Int) < ((2 ^ F.T.bits : Nat) : Int) := by exact_mod_cast hmlt
    push_cast at this
    omega
  · unfold val; rw [div_le_iff₀ hposq]; exact_mod_cast b1
  · unfold val ulp
    rw [mul_one_div, ← add_div, lt_div_iff₀ hposq]
    push_cast at b2 ⊢; linarith
  · intro h0
    have hm' : m = digitsVal 10 is * 2 ^ F.f := by rw [hm, b3 h0]; simp
    unfold numeralMag val
    rw [h0, hm', add_zero]
    push_cast
    rw [mul_div_assoc, div_self hposq.ne', mul_one]

example : FracFitsU ⟨u64, u128, 32, false⟩ [2, 5] ∧ numeralMag [4, 0, 0, 0, 0, 0, 0, 0, 0, 0] (some [2, 5]) < 2 ^ 32 ∧
    parseDetail ⟨u64, u128, 32, false⟩ "4000000000.25".toList 7 = .ok (true, 4000000000 * 2 ^ 32 + 2 ^ 30) ∧
    parseDetail ⟨u64, u128, 32, false⟩ "-1".toList 7 = .ok (true, (2 ^ 32 - 1) * 2 ^ 32) := by
  refine ⟨Or.inl (by decide), by norm_num [numeralMag, fracDigits, digitsVal, fracVal], by decide +kernel, by decide +kernel⟩

/-- C122: a numeral at or above the bound of the type (and within the intermediate type) is rejected, with either sign. -/
theorem C122_overflow_partial (F : FxTy) (hv : F.Valid) (hu : UnsignedWide F) (neg : Bool) (is : List Nat) (fs : Option (List Nat))
    (his : Decimal is) (hfs : Decimal (fracDigits fs)) (hlen : FracFitsU F (fracDigits fs)) (hmag : 2 ^ (F.T.bits - F.f) ≤ numeralMag is fs)
    (hip : (digitsVal 10 is + 1) * 2 ^ F.f ≤ 2 ^ F.I.bits) (old : Int) :
    parseDetail F (numeral neg is fs) old = .ok (false, old) ∧ fixedFromCstring F (numeral neg is fs) old = .ok (false, old) := by
  obtain ⟨p, hp, -⟩ := C121_used F (fracDigits fs)
  have hk := used_len hfs hp _ hlen
  have hten : 10 ^ p.length < 2 ^ F.I.bits := lt_of_le_of_lt (Nat.pow_le_pow_right (by norm_num) hk) (inter_ten_unsigned hv hu)
  have hpd : Decimal p := by obtain ⟨q, epq, -⟩ := hp; rw [epq] at hfs; exact hfs.left
  have hlen2 : ¬ F.I.bits ≤ p.length := by
    intro hc
    have h1 : 2 ^ F.I.bits ≤ 10 ^ p.length :=
      le_trans (Nat.pow_le_pow_left (by norm_num : 2 ≤ 10) _) (Nat.pow_le_pow_right (by norm_num) hc)
    omega
  have hfrac : digitsVal 10 p * 2 ^ F.f / 10 ^ p.length < 2 ^ F.f := by
    rw [Nat.div_lt_iff_lt_mul (by positivity), mul_comm]
    exact Nat.mul_lt_mul_of_pos_left (acc_lt hpd) (by positivity)
  have hlt : digitsVal 10 is * 2 ^ F.f + digitsVal 10 p * 2 ^ F.f / 10 ^ p.length < 2 ^ F.I.bits := by
    rw [add_mul, one_mul] at hip; omega
  have hge : 2 ^ F.T.bits ≤ digitsVal 10 is * 2 ^ F.f := by
    have hB : ((2 ^ (F.T.bits - F.f) : Nat) : ℚ) = 2 ^ (F.T.bits - F.f) := by push_cast; rfl
    rw [← hB, ← not_lt, mag_lt_iff (F := F) is hfs, not_lt] at hmag
    have := Nat.mul_le_mul_right (2 ^ F.f) hmag
    rwa [← pow_add, show F.T.bits - F.f + F.f = F.T.bits by have := hv.flt; omega] at this
  obtain ⟨t1, t2⟩ := C122_total F hv hu neg is fs p old his hfs hp
  have : parseDetail F (numeral neg is fs) old = .ok (false, old) := by
    rw [t1, if_neg hlen2, Nat.mod_eq_of_lt hten, Nat.mod_eq_of_lt hlt]
    unfold storedU
    rw [if_neg (not_lt.2 (le_trans hge (Nat.le_add_right _ _)))]
  rw [t2]
  exact ⟨this, this⟩

example : parseDetail ⟨u32, u64, 16, false⟩ "65536".toList 7 = .ok (false, 7) ∧
    parseDetail ⟨u32, u64, 16, false⟩ "281474976710657".toList 7 = .ok (true, 65536) := by decide +kernel

/-- C122: minus one is accepted, as the largest integer of the type, in every unsigned layout. -/
theorem C122_minus_one (F : FxTy) (hv : F.Valid) (hu : UnsignedWide F) (old : Int) :
    parseDetail F "-1".toList old = .ok (true, 2 ^ F.T.bits - 2 ^ F.f) ∧ fixedFromCstring F "-1".toList old = .ok (true, 2 ^ F.T.bits - 2 ^ F.f) := by
  have hmag : numeralMag [1] none = 1 := by norm_num [numeralMag, fracDigits, digitsVal, fracVal]
  have hlt : numeralMag [1] none < 2 ^ (F.T.bits - F.f) := by
    rw [hmag]; exact one_lt_pow₀ (by norm_num) (by have := hv.flt; omega)
  obtain ⟨m, h1, -, -, -, h2⟩ := C122_value_partial F hv hu [1] none (by decide) (by decide) (Or.inl (by simp [fracDigits])) hlt old
  have h3 := h2 (by norm_num [fracDigits, fracVal])
  rw [hmag] at h3
  unfold val at h3
  rw [div_eq_one_iff_eq (by positivity)] at h3
  have h4 : m = 2 ^ F.f := by exact_mod_cast h3
  have h5 := h1 true
  simp only [true_and, h4] at h5
  rw [if_pos (by positivity)] at h5
  push_cast at h5
  exact h5

theorem C122_false : ¬ C122_statement := by
  intro h
  obtain ⟨ok, y, h1, h2⟩ := h ⟨u32, u64, 16, false⟩ (by decide) (by decide) (by decide) true [1] none (by decide) (by decide) (Or.inl (by decide)) 0
  have h3 := (C122_minus_one ⟨u32, u64, 16, false⟩ (by decide) (by decide) 0).1
  have h4 : parseDetail ⟨u32, u64, 16, false⟩ (numeral true [1] none) 0 = .ok (true, 2 ^ 32 - 2 ^ 16) := h3
  rw [h4] at h1
  injection h1 with h1
  injection h1 with h1 h1'
  have := (h2.1 h1.symm).1
  norm_num [numeralMag, fracDigits, digitsVal, fracVal] at this

/-- C122: in every printable unsigned layout, parsing the text of `operator<<` recovers every value other than `2^(bits-1)` (which is
printed with a minus sign, C88) up to ten ulp, integers exactly. -/
theorem C122_round_trip (F : FxTy) (hv : F.Valid) (hu : UnsignedWide F) (hfit : 10 * 2 ^ F.f ≤ F.T.hi) (x : Int) (hx : Storable F x)
    (hmin : x ≠ 2 ^ (F.T.bits - 1)) (oct up : Bool) (old : Int) :
    ∃ s y, streamOut F x false true oct up = .ok s ∧ parseDetail F s old = .ok (true, y) ∧ fixedFromCstring F s old = .ok (true, y) ∧
      y ≤ x ∧ x ≤ y + 10 ∧ (Integral F x → y = x) := by
  have hT := wu_T hv hu
  have hp : (0 : ℚ) < 2 ^ F.f := by positivity
  have hx0 : 0 ≤ x := by have := hx.1; rwa [hT.lo_eq] at this
  obtain ⟨s, hs, is, fs, e, his, hfs, -, hlast, habs⟩ := C88_every_storage_partial F hv hfit x hx (Or.inr hmin) up
  have hneg : ¬ val F x < 0 := by rw [← val_zero F, val_lt]; omega
  have hfd : fracDigits (if fs = [] then none else some fs) = fs := by
    by_cases h0 : fs = [] <;> simp [h0, fracDigits]
  set gs : Option (List Nat) := if fs = [] then none else some fs with hgs
  have hmag : numeralMag is gs = |val F x| := by unfold numeralMag; rw [hfd, habs]
  have hs' : s = numeral false is gs := by
    rw [e, if_neg hneg]
    unfold numeral
    simp only [Bool.false_eq_true, if_false, List.nil_append]
    congr 1
    · exact List.map_congr_left (fun d hd => digitOf_up (his d hd) up)
    · rw [hgs]
      by_cases h0 : fs = []
      · rw [if_pos h0, if_pos h0]
      · rw [if_neg h0, if_neg h0]
        simp only
        rw [List.map_congr_left (fun d hd => digitOf_up (hfs d hd) up)]
  have hdg : Decimal (fracDigits gs) := by rw [hfd]; exact hfs
  obtain ⟨k, hk, hxk, hk2⟩ := frac_ulps (F := F) hdg hmag
  have hav := abs_val_raw F x
  rw [abs_of_nonneg hx0] at hav hxk
  have hlt : numeralMag is gs < 2 ^ (F.T.bits - F.f) := by
    rw [hmag, hav, div_lt_iff₀ hp, ← pow_add, show F.T.bits - F.f + F.f = F.T.bits by have := hv.flt; omega]
    have h1 : x < 2 ^ F.T.bits := by have := hx.2; rw [hT.hi_eq] at this; omega
    exact_mod_cast h1
  have hsmall : (2 ^ F.f + 9 : ℚ) / 10 ^ (interDigitsU F + 1) ≤ 1 / 2 ^ F.f := by
    have key : ∀ k d : Nat, F.f ≤ k → (2 ^ k + 9) * 2 ^ k ≤ 10 ^ d → (2 ^ F.f + 9 : ℚ) / 10 ^ d ≤ 1 / 2 ^ F.f := by
      intro k d hk h1
      rw [div_le_div_iff₀ (by positivity) (by positivity), one_mul]
      have h2 : 2 ^ F.f ≤ 2 ^ k := Nat.pow_le_pow_right (by norm_num) hk
      have h3 : (2 ^ F.f + 9) * 2 ^ F.f ≤ 10 ^ d := le_trans (Nat.mul_le_mul (by omega) h2) h1
      exact_mod_cast h3
    have hf := hv.2.2.2.2.2
    unfold interDigitsU
    rcases inter_of_unsigned hv hu with ⟨e, e' | e'⟩ | ⟨e, e'⟩ <;> rw [e'] <;> rw [e] at hf
    · exact key 31 20 hf (by norm_num)
    · exact key 31 39 hf (by norm_num)
    · exact key 63 39 hf (by norm_num)
  have hlen : FracFitsU F (fracDigits gs) := by
    by_cases h0 : k = 0
    · left; rw [hfd, frac_zero hlast (by rw [← hfd, hk, h0]; simp)]; simp
    · right
      rw [hk]
      have h1 : (1 : ℚ) ≤ k := by exact_mod_cast Nat.one_le_iff_ne_zero.2 h0
      have h2 : (1 : ℚ) / 2 ^ F.f ≤ (k : ℚ) / 2 ^ F.f := by gcongr
      exact le_trans hsmall h2
  obtain ⟨m, p1, -, p3, p4, p5⟩ := C122_value_partial F hv hu is gs his hdg hlen hlt old
  have p1' := p1 false
  simp only [Bool.false_eq_true, false_and, if_false] at p1'
  refine ⟨s, m, hs, by rw [hs']; exact p1'.1, by rw [hs']; exact p1'.2, ?_⟩
  rw [hmag, hav] at p3 p4
  unfold val at p3 p4
  unfold ulp at p4
  rw [div_le_div_iff_of_pos_right hp] at p3
  rw [mul_one_div, ← add_div, div_lt_div_iff_of_pos_right hp] at p4
  have q3 : (m : Int) ≤ x := by exact_mod_cast p3
  have q4 : x < m + 11 := by exact_mod_cast p4
  refine ⟨q3, by omega, ?_⟩
  rintro ⟨z, hz⟩
  have h0 : k = 0 := by
    have h1 : val F x = (x : ℚ) / 2 ^ F.f := rfl
    rw [h1, div_eq_iff hp.ne'] at hz
    have h2 : x = z * 2 ^ F.f := by exact_mod_cast hz
    have h3 : (2 ^ F.f : Int) ∣ k := by
      have h4 : (k : Int) = x - digitsVal 10 is * 2 ^ F.f := by omega
      rw [h4, h2]
      exact dvd_sub (Dvd.intro_left z rfl) (Dvd.intro_left _ rfl)
    have h5 : 2 ^ F.f ∣ k := by exact_mod_cast h3
    exact Nat.eq_zero_of_dvd_of_lt h5 hk2
  have := p5 (by rw [hk, h0]; simp)
  rw [hmag, hav] at this
  unfold val at this
  rw [div_left_inj' hp.ne'] at this
  exact_mod_cast this

example : (10 * 2 ^ 16 : Int) ≤ u32.hi ∧ streamOut ⟨u32, u64, 16, false⟩ (2 ^ 32 - 1) false true false false = .ok "65535.9999847412109375".toList ∧
    parseDetail ⟨u32, u64, 16, false⟩ "65535.9999847412109375".toList 7 = .ok (true, 2 ^ 32 - 7) ∧
    -- the one exception: 32768 is printed as "-4294934528", which is rejected
    streamOut ⟨u32, u64, 16, false⟩ (2 ^ 31) false true false false = .ok "-4294934528".toList ∧
    parseDetail ⟨u32, u64, 16, false⟩ "-4294934528".toList 7 = .ok (false, 7) := by decide +kernel

end Props
end Eirin
