import Verif.Props.StreamTotal
import Verif.Props.ParseUnsigned
import Verif.Props.ParseNarrow

/-! # Property C156: `operator>>` on unsigned and narrow layouts -/

namespace Eirin
open Spec

/-- A type in which the digit loops of the parsers are modular. -/
structure ML (W : IntTy) : Prop where
  pos : 0 < W.bits
  acc : ∀ (a d : Nat), d < 10 → accDigit W (W.wrap a) (digitOf false d) = .ok (W.wrap ((a * 10 + d : Nat) : Int))
  ten : ∀ d : Nat, mulTen W (W.wrap d) = .ok (W.wrap ((d * 10 : Nat) : Int))

theorem WU.ml {W : IntTy} (h : WU W) : ML W := ⟨h.pos, h.accDigit_eq, h.mulTen_eq⟩

/-- Types narrower than `int`: the steps are done in `int`, without overflow, and narrowed. -/
theorem ml_narrow {W : IntTy} (hb : W.bits = 8 ∨ W.bits = 16) : ML W := by
  have hc : W.common i32 = i32 := by
    obtain ⟨b, s⟩ := W
    rcases hb with h | h <;> simp only at h <;> subst h <;> cases s <;> decide
  have hpos : 0 < W.bits := by omega
  have hin : ∀ n : Int, -70000 ≤ W.wrap n ∧ W.wrap n ≤ 70000 := by
    intro n
    obtain ⟨h1, h2⟩ := IntTy.wrap_inRange (t := W) n hpos
    obtain ⟨b, s⟩ := W
    rcases hb with h | h <;> simp only at h <;> subst h <;> cases s <;> simp [IntTy.lo, IntTy.hi] at h1 h2 <;> omega
  have ar : ∀ n : Int, -1000000 ≤ n → n ≤ 1000000 → arith i32 n = .ok n := by
    intro n h1 h2
    apply arith_of_inRange (by decide)
    refine ⟨?_, ?_⟩ <;> simp [IntTy.lo, IntTy.hi] <;> omega
  refine ⟨hpos, ?_, ?_⟩
  · intro a d hd
    have := hin a
    unfold accDigit
    rw [hc, ar _ (by omega) (by omega), Res.bind_ok, digitVal_digitOf hd, ar _ (by omega) (by omega), Res.bind_ok, Res.pure_eq]
    congr 1
    apply IntTy.wrap_congr
    have h2 := IntTy.wrap_dvd W (a : Int)
    have e : W.wrap a * 10 + d - ((a * 10 + d : Nat) : Int) = -(((a : Int) - W.wrap a) * 10) := by push_cast; ring
    rw [e]; exact dvd_neg.2 (h2.mul_right 10)
  · intro d
    have := hin d
    unfold mulTen
    rw [hc, ar _ (by omega) (by omega), Res.bind_ok, Res.pure_eq]
    congr 1
    apply IntTy.wrap_congr
    have h2 := IntTy.wrap_dvd W (d : Int)
    have e : W.wrap d * 10 - ((d * 10 : Nat) : Int) = -(((d : Int) - W.wrap d) * 10) := by push_cast; ring
    rw [e]; exact dvd_neg.2 (h2.mul_right 10)

namespace ML
variable {W : IntTy} (h : ML W)
include h

theorem intLenient_digits (t : List Char) : ∀ (ds : List Nat) (a : Nat), Decimal ds →
    intLenient W (ds.map (digitOf false) ++ t) (W.wrap a) = intLenient W t (W.wrap (Eirin.acc a ds)) := by
  intro ds
  induction ds with
  | nil => intro a _; rfl
  | cons d ds ih =>
    intro a hd
    have h10 := hd.head
    rw [acc_cons, List.map_cons, List.cons_append]
    conv_lhs => unfold intLenient
    rw [if_neg (digitOf_ne_dot h10), isDigit_digitOf h10, h.acc _ _ h10]
    exact ih _ hd.tail

theorem int_loop {is : List Nat} (his : Decimal is) (t : List Char) (ht : ∀ c cs, t = c :: cs → c = '.' ∨ ¬ DigitChar c) :
    intLenient W (is.map (digitOf false) ++ t) 0 = .ok (W.wrap (digitsVal 10 is : Nat), t) := by
  have h0 : W.wrap ((0 : Nat) : Int) = 0 := by
    apply IntTy.wrap_of_inRange h.pos
    unfold IntTy.InRange IntTy.lo IntTy.hi
    constructor <;> split <;> simp
    · have : (0 : Int) < 2 ^ (W.bits - 1) := by positivity
      omega
    · have : (0 : Int) < 2 ^ W.bits := by positivity
      omega
  have := h.intLenient_digits t is 0 his
  rw [h0] at this
  rw [this, digitsVal_eq_acc]
  cases t with
  | nil => rfl
  | cons c t =>
    unfold intLenient
    rcases ht c t rfl with h1 | h1
    · rw [if_pos h1]
    · have h2 : isDigit c = false := by rw [Bool.eq_false_iff]; intro hh; exact h1 ((isDigit_iff c).1 hh)
      by_cases hd : c = '.'
      · rw [if_pos hd]
      · rw [if_neg hd, h2]; rfl

theorem wrap_nat {n : Nat} (hn : (n : Int) ≤ W.hi) : W.wrap n = n :=
  IntTy.wrap_of_inRange h.pos ⟨le_trans (by unfold IntTy.lo; split <;> simp) (Int.natCast_nonneg n), hn⟩

theorem fracLenient_digits (lim : Nat) (t : List Char) (hl : ((lim * 10 + 9 : Nat) : Int) ≤ W.hi) :
    ∀ (ds : List Nat) (a dv : Nat), Decimal ds → (∀ p d q, ds = p ++ d :: q → Eirin.acc a p ≤ lim) →
      fracLenient W lim (ds.map (digitOf false) ++ t) a (W.wrap dv) = fracLenient W lim t (Eirin.acc a ds) (W.wrap (dv * 10 ^ ds.length : Nat)) := by
  intro ds
  induction ds with
  | nil => intro a dv _ _; simp
  | cons d ds ih =>
    intro a dv hd hp
    have h10 := hd.head
    have ha : a ≤ lim := hp [] d ds rfl
    have hle : ((a * 10 + d : Nat) : Int) ≤ W.hi := le_trans (by push_cast; omega) hl
    have hla : ((a : Nat) : Int) ≤ W.hi := le_trans (by push_cast; omega) hl
    have e : dv * 10 ^ (ds.length + 1) = dv * 10 * 10 ^ ds.length := by rw [pow_succ]; ring
    have ea : accDigit W a (digitOf false d) = .ok ((a * 10 + d : Nat) : Int) := by
      have := h.acc a d h10
      rwa [h.wrap_nat hla, h.wrap_nat hle] at this
    rw [List.map_cons, List.cons_append, List.length_cons, e, acc_cons]
    conv_lhs => unfold fracLenient
    rw [if_neg (by rw [isDigit_digitOf h10]; push Not; exact ⟨by exact_mod_cast ha, by simp⟩), ea, Res.bind_ok,
      h.ten, Res.bind_ok]
    refine ih _ _ hd.tail ?_
    intro p d' q hq
    have := hp (d :: p) d' q (by rw [hq]; rfl)
    rwa [acc_cons] at this

theorem frac_loop {F : FxTy} {p q : List Nat} (hpd : Decimal p) (hq : q ≠ [] → cutLim F < Eirin.acc 0 p)
    (hp : ∀ p1 d p2, p = p1 ++ d :: p2 → Eirin.acc 0 p1 ≤ cutLim F) (hl : ((cutLim F * 10 + 9 : Nat) : Int) ≤ W.hi) (g : List Char)
    (hg : ∀ c t, g = c :: t → ¬ DigitChar c) :
    fracLenient W (cutLim F) ((p ++ q).map (digitOf false) ++ g) 0 1 =
      .ok ((digitsVal 10 p : Int), W.wrap ((10 ^ p.length : Nat) : Int), q.map (digitOf false) ++ g) := by
  have h1 : ((1 : Nat) : Int) ≤ W.hi := le_trans (by push_cast; omega) hl
  rw [List.map_append, List.append_assoc]
  have := h.fracLenient_digits (cutLim F) (q.map (digitOf false) ++ g) hl p 0 1 hpd hp
  rw [h.wrap_nat h1, one_mul, Nat.cast_zero, Nat.cast_one] at this
  rw [this]
  cases q with
  | nil =>
    cases g with
    | nil => rfl
    | cons c t =>
      have h2 : isDigit c = false := by rw [Bool.eq_false_iff]; intro hh; exact hg c t rfl ((isDigit_iff c).1 hh)
      simp only [List.map_nil, List.nil_append]
      unfold fracLenient
      rw [if_pos (Or.inr (by rw [h2]; rfl))]; rfl
  | cons d q =>
    rw [List.map_cons, List.cons_append]
    unfold fracLenient
    rw [if_pos (Or.inl (by exact_mod_cast hq (by simp)))]; rfl

end ML

namespace Props

/-- The last step of the extraction: store and negate. -/
def deliverM (F : FxTy) (neg : Bool) (rest : List Char) (v : Int) : Res (Int × List Char) :=
  if neg then do let n ← Eirin.neg F (fromInternal F v); pure (n, rest) else pure (fromInternal F v, rest)

theorem deliverM_eq {F : FxTy} (hv : F.Valid) (hs : ¬ SignedWide F) (neg : Bool) (rest : List Char) (v z : Int)
    (hz : IsWrap F (if neg then -v else v) z) : deliverM F neg rest v = .ok (z, rest) := by
  unfold deliverM fromInternal
  cases neg
  · have : F.T.wrap v = z := isWrap_unique hv.tpos (isWrap_wrap hv v) hz
    rw [this]; rfl
  · rw [if_pos rfl, neg_nf hv (IntTy.wrap_inRange v hv.tpos), if_neg (fun h => hs h.1), Res.bind_ok]
    have : F.T.wrap (-F.T.wrap v) = z := by
      apply isWrap_unique hv.tpos _ hz
      refine ⟨IntTy.wrap_inRange _ hv.tpos, ?_⟩
      have h1 := IntTy.wrap_dvd F.T (-F.T.wrap v)
      have h2 := IntTy.wrap_dvd F.T v
      rw [if_pos rfl, show -v - F.T.wrap (-F.T.wrap v) = (-F.T.wrap v - F.T.wrap (-F.T.wrap v)) - (v - F.T.wrap v) by ring]
      exact Int.dvd_sub h1 h2
    rw [this]; rfl

/-- Extraction of a numeral where the digit loops are modular. -/
theorem stream_modular {F : FxTy} (hm : ML F.T) (hlim : limGeneric F = .ok (cutLim F : Int))
    (hcut : ((cutLim F * 10 + 9 : Nat) : Int) ≤ F.T.hi) (neg : Bool) (is : List Nat) (fs : Option (List Nat)) (p q : List Nat) (g : List Char)
    (old : Int) (his : Decimal is) (hfs : Decimal (fracDigits fs)) (hp : Used F (fracDigits fs) p) (hpq : fracDigits fs = p ++ q)
    (hg : ∀ c t, g = c :: t → ¬ DigitChar c ∧ (fs = none → c ≠ '.' ∧ (is = [] → c ≠ '-'))) (hne : numeral neg is fs ++ g ≠ []) :
    streamIn F (numeral neg is fs ++ g) old =
      ((if fs = none then shl F.T (F.T.wrap (digitsVal 10 is : Nat)) F.f
        else scaleParts F.T F.f (F.T.wrap (digitsVal 10 is : Nat)) (digitsVal 10 p : Nat) (F.T.wrap ((10 ^ p.length : Nat) : Int))).bind
        (deliverM F neg (q.map (digitOf false) ++ g))) := by
  obtain ⟨q', epq, hq, hp⟩ := hp
  have : q' = q := by have := epq.symm.trans hpq; simpa using this
  subst this
  replace hq : q' ≠ [] → cutLim F < acc 0 p := hq
  replace hp : ∀ p1 d p2, p = p1 ++ d :: p2 → acc 0 p1 ≤ cutLim F := hp
  have hpd : Decimal p := by rw [epq] at hfs; exact hfs.left
  have hts : takeSign (numeral neg is fs ++ g) = (neg, numeral false is fs ++ g) := by
    cases neg
    · cases is with
      | cons d is => exact if_neg (digitOf_ne_minus his.head)
      | nil =>
        cases fs with
        | some ds => rfl
        | none =>
          cases g with
          | nil => rfl
          | cons c t => exact if_neg (((hg c t rfl).2 rfl).2 rfl)
    · rfl
  unfold streamIn
  split
  · rename_i h0; exact absurd h0 hne
  rw [hts]
  cases hfs' : fs with
  | none =>
    subst hfs'
    have hnil : p ++ q' = [] := epq.symm
    obtain ⟨rfl, rfl⟩ := List.append_eq_nil_iff.1 hnil
    have e1 := hm.int_loop his g (fun c cs hc => Or.inr (hg c cs hc).1)
    simp only [numeral, Bool.false_eq_true, if_false, List.nil_append, List.append_nil, e1, if_true, List.map_nil]
    simp only [Res.bind_ok]
    split
    · exact absurd rfl ((hg '.' _ rfl).2 rfl).1
    · cases shl F.T (F.T.wrap (digitsVal 10 is : Nat)) F.f <;> rfl
  | some ds =>
    subst hfs'
    have epq' : ds = p ++ q' := epq
    have e1 := hm.int_loop his ('.' :: (ds.map (digitOf false) ++ g)) (fun c cs hc => Or.inl (by simp at hc; exact hc.1.symm))
    have e2 := hm.frac_loop (F := F) hpd hq hp hcut g (fun c t hc => (hg c t hc).1)
    rw [← epq'] at e2
    simp only [numeral, Bool.false_eq_true, if_false, List.nil_append, List.append_assoc, List.cons_append, e1]
    simp only [Res.bind_ok, hlim, e2]
    rw [if_neg (by simp)]
    cases scaleParts F.T F.f (F.T.wrap (digitsVal 10 is : Nat)) (digitsVal 10 p : Nat) (F.T.wrap ((10 ^ p.length : Nat) : Int)) <;> rfl

theorem two_dvd_ten {b n : Nat} : 2 ^ b ∣ 10 ^ n ↔ b ≤ n := by
  rw [show (10 : Nat) = 2 * 5 by norm_num, mul_pow]
  constructor
  · intro h
    have hc : Nat.Coprime (2 ^ b) (5 ^ n) := Nat.Coprime.pow _ _ (by decide)
    exact (Nat.pow_dvd_pow_iff_le_right (by norm_num)).1 (hc.dvd_of_dvd_mul_right h)
  · intro h
    exact Dvd.dvd.mul_right (pow_dvd_pow _ h) _

theorem cut_le (F : FxTy) : ((cutLim F * 10 + 9 : Nat) : Int) ≤ 2 ^ F.f + 8 := by
  have h1 : cutLim F * 10 + 9 ≤ 2 ^ F.f + 8 := by
    unfold cutLim
    have := Nat.one_le_two_pow (n := F.f)
    omega
  exact_mod_cast h1

/-- C156: extraction of any numeral, followed by text that cannot continue it, in every unsigned layout of 32 or 64 bits: undefined (division by zero)
exactly when at least as many fraction digits are used as the storage has bits; otherwise integer part plus fraction, everything modulo the storage,
and the unused digits stay in the stream. -/
theorem C156_unsigned (F : FxTy) (hv : F.Valid) (hu : UnsignedWide F) (neg : Bool) (is : List Nat) (fs : Option (List Nat)) (p q : List Nat) (z : Int)
    (g : List Char) (old : Int) (his : Decimal is) (hfs : Decimal (fracDigits fs)) (hp : Used F (fracDigits fs) p) (hpq : fracDigits fs = p ++ q)
    (hg : ∀ c t, g = c :: t → ¬ DigitChar c ∧ (fs = none → c ≠ '.' ∧ (is = [] → c ≠ '-'))) (hne : numeral neg is fs ++ g ≠ [])
    (hz : IsWrap F ((if neg then -1 else 1) *
      (digitsVal 10 is * 2 ^ F.f + (digitsVal 10 p * 2 ^ F.f % 2 ^ F.T.bits / (10 ^ p.length % 2 ^ F.T.bits) : Nat) : Int)) z) :
    streamIn F (numeral neg is fs ++ g) old =
      if F.T.bits ≤ p.length then .ub .divZero else .ok (z, q.map (digitOf false) ++ g) := by
  have hT := wu_T hv hu
  have hs : ¬ SignedWide F := fun h => by have := h.1; rw [hu.1] at this; cases this
  have hcut : ((cutLim F * 10 + 9 : Nat) : Int) ≤ F.T.hi := by
    refine le_trans (cut_le F) ?_
    have h3 : (2 : Int) ^ F.f ≤ 2 ^ (F.T.bits - 1) := pow_le_pow_right₀ (by norm_num) (by have := hv.flt; omega)
    have h4 : (2 : Int) ^ F.T.bits = 2 * 2 ^ (F.T.bits - 1) := by
      rw [← pow_succ']; congr 1; have := hv.tpos; omega
    have h5 : (2 : Int) ^ 31 ≤ 2 ^ (F.T.bits - 1) := pow_le_pow_right₀ (by norm_num) (by have := hu.2; omega)
    rw [hT.hi_eq]; norm_num at h5; omega
  rw [stream_modular hT.ml (limGeneric_unsigned hv hu) hcut neg is fs p q g old his hfs hp hpq hg hne]
  have hfb := hv.flt
  have es : ∀ n : Int, shl F.T n F.f = .ok (F.T.wrap (n * 2 ^ F.f)) := by
    intro n
    unfold shl
    rw [hT.prom, if_pos hfb]
  have fin : ∀ v : Int, (2 : Int) ^ F.T.bits ∣ v - (digitsVal 10 is * 2 ^ F.f + (digitsVal 10 p * 2 ^ F.f % 2 ^ F.T.bits / (10 ^ p.length % 2 ^ F.T.bits) : Nat) : Int) →
      deliverM F neg (q.map (digitOf false) ++ g) v = .ok (z, q.map (digitOf false) ++ g) := by
    intro v hv'
    apply deliverM_eq hv hs
    refine ⟨hz.1, ?_⟩
    have h2 := hz.2
    cases neg
    · simp only [Bool.false_eq_true, if_false, one_mul] at h2 ⊢
      have := dvd_add hv' h2
      rwa [sub_add_sub_cancel] at this
    · simp only [if_true, neg_mul, one_mul] at h2 ⊢
      have := Int.dvd_sub h2 hv'
      convert this using 1; ring
  by_cases hfn : fs = none
  · subst hfn
    have hnil : p ++ q = [] := hpq.symm
    obtain ⟨rfl, rfl⟩ := List.append_eq_nil_iff.1 hnil
    rw [if_pos rfl, es, if_neg (by simpa using hv.tpos.ne')]
    refine fin _ ?_
    have h2 := IntTy.wrap_dvd F.T (F.T.wrap (digitsVal 10 is : Nat) * 2 ^ F.f)
    have h3 := IntTy.wrap_dvd F.T ((digitsVal 10 is : Nat) : Int)
    have := dvd_neg.2 (dvd_add h2 (h3.mul_right (2 ^ F.f)))
    have e0 : digitsVal 10 ([] : List Nat) = 0 := rfl
    rw [e0, zero_mul, Nat.zero_mod, Nat.zero_div]
    have e : F.T.wrap (F.T.wrap (digitsVal 10 is : Nat) * 2 ^ F.f) - (digitsVal 10 is * 2 ^ F.f + ((0 : Nat) : Int)) =
        -(F.T.wrap (digitsVal 10 is : Nat) * 2 ^ F.f - F.T.wrap (F.T.wrap (digitsVal 10 is : Nat) * 2 ^ F.f) +
          ((digitsVal 10 is : Nat) - F.T.wrap (digitsVal 10 is : Nat)) * 2 ^ F.f) := by push_cast; ring
    rw [e]; exact this
  · rw [if_neg hfn]
    by_cases hl : F.T.bits ≤ p.length
    · rw [if_pos hl]
      have e0 : F.T.wrap ((10 ^ p.length : Nat) : Int) = 0 := by
        rw [hT.wrap_mod, Nat.eq_zero_of_dvd_of_lt ((Nat.dvd_mod_iff (dvd_refl _)).2 (two_dvd_ten.2 hl)) (Nat.mod_lt _ (by positivity))]; rfl
      rw [e0, hT.scaleParts_zero hfb]; rfl
    · rw [if_neg hl]
      have hd0 : 10 ^ p.length % 2 ^ F.T.bits ≠ 0 := by
        intro h
        exact hl (two_dvd_ten.1 (Nat.dvd_of_mod_eq_zero h))
      have ew : F.T.wrap ((digitsVal 10 p * 2 ^ F.f : Nat) : Int) = ((digitsVal 10 p * 2 ^ F.f % 2 ^ F.T.bits : Nat) : Int) := hT.wrap_mod _
      have ec : cdiv F.T ((digitsVal 10 p * 2 ^ F.f % 2 ^ F.T.bits : Nat) : Int) ((10 ^ p.length % 2 ^ F.T.bits : Nat) : Int) =
          .ok ((digitsVal 10 p * 2 ^ F.f % 2 ^ F.T.bits / (10 ^ p.length % 2 ^ F.T.bits) : Nat) : Int) := by
        unfold cdiv
        rw [if_neg (by exact_mod_cast hd0), ← Int.ofNat_tdiv, if_neg (by rw [hT.sg]; simp)]
      have red : scaleParts F.T F.f (F.T.wrap (digitsVal 10 is : Nat)) (digitsVal 10 p : Nat) (F.T.wrap ((10 ^ p.length : Nat) : Int)) =
          .ok (F.T.wrap (F.T.wrap (F.T.wrap (digitsVal 10 is : Nat) * 2 ^ F.f) +
            (digitsVal 10 p * 2 ^ F.f % 2 ^ F.T.bits / (10 ^ p.length % 2 ^ F.T.bits) : Nat))) := by
        unfold scaleParts
        rw [es, es, Res.bind_ok, Res.bind_ok, hT.prom, hT.wrap_mod (10 ^ p.length)]
        have ew' : F.T.wrap (((digitsVal 10 p : Nat) : Int) * 2 ^ F.f) = ((digitsVal 10 p * 2 ^ F.f % 2 ^ F.T.bits : Nat) : Int) := by
          rw [← ew]; push_cast; rfl
        rw [ew', ec, Res.bind_ok, hT.arith_eq]
      rw [red]
      refine fin _ ?_
      generalize digitsVal 10 p * 2 ^ F.f % 2 ^ F.T.bits / (10 ^ p.length % 2 ^ F.T.bits) = r
      have h1 := IntTy.wrap_dvd F.T (F.T.wrap (F.T.wrap (digitsVal 10 is : Nat) * 2 ^ F.f) + (r : Int))
      have h2 := IntTy.wrap_dvd F.T (F.T.wrap (digitsVal 10 is : Nat) * 2 ^ F.f)
      have h3 := IntTy.wrap_dvd F.T ((digitsVal 10 is : Nat) : Int)
      have := dvd_neg.2 (dvd_add h1 (dvd_add h2 (h3.mul_right (2 ^ F.f))))
      have e : ∀ w1 w2 w3 n : Int, w1 - (n * 2 ^ F.f + r) = -(w2 + r - w1 + (w3 * 2 ^ F.f - w2 + (n - w3) * 2 ^ F.f)) := by intros; ring
      rw [e _ (F.T.wrap (F.T.wrap (digitsVal 10 is : Nat) * 2 ^ F.f)) (F.T.wrap (digitsVal 10 is : Nat))]; exact this

theorem used_le {F : FxTy} {ds p : List Nat} (hd : Decimal ds) (hp : Used F ds p) : digitsVal 10 p ≤ 2 ^ F.f + 8 := by
  obtain ⟨q, epq, -, hp⟩ := hp
  have h1 := Nat.one_le_two_pow (n := F.f)
  rcases List.eq_nil_or_concat p with rfl | ⟨p', d, rfl⟩
  · have : digitsVal 10 ([] : List Nat) = 0 := rfl
    omega
  · have h2 : digitsVal 10 p' ≤ (2 ^ F.f - 1) / 10 := hp p' d [] (by simp)
    have h3 : d < 10 := hd d (by rw [epq]; simp)
    have h4 : digitsVal 10 (p'.concat d) = digitsVal 10 p' * 10 + d := by
      rw [List.concat_eq_append]; unfold digitsVal; rw [List.foldl_append]; rfl
    rw [h4]; omega

/-- C156: the same in every layout of 8 or 16 bits, signed or unsigned.  With `i` the integer part and `d` the power of ten, both reduced into the
storage: division by zero when `d` is zero; otherwise the parts are combined in `int`, which overflows for a few numerals in 16-bit storage, and
the result is reduced into the storage. -/
theorem C156_narrow (F : FxTy) (hv : F.Valid) (hn : Narrow F) (h1 : Storable F (2 ^ F.f)) (neg : Bool) (is : List Nat) (fs : Option (List Nat))
    (p q : List Nat) (i d z : Int) (g : List Char) (old : Int) (his : Decimal is) (hfs : Decimal (fracDigits fs)) (hp : Used F (fracDigits fs) p)
    (hpq : fracDigits fs = p ++ q)
    (hg : ∀ c t, g = c :: t → ¬ DigitChar c ∧ (fs = none → c ≠ '.' ∧ (is = [] → c ≠ '-'))) (hne : numeral neg is fs ++ g ≠ [])
    (hi : IsWrap F (digitsVal 10 is) i) (hd : IsWrap F (10 ^ p.length) d)
    (hz : IsWrap F (if neg then -(i * 2 ^ F.f + Int.tdiv (digitsVal 10 p * 2 ^ F.f) d) else i * 2 ^ F.f + Int.tdiv (digitsVal 10 p * 2 ^ F.f) d) z) :
    streamIn F (numeral neg is fs ++ g) old =
      if F.T.bits ≤ p.length then .ub .divZero
      else if i32.InRange (i * 2 ^ F.f + Int.tdiv (digitsVal 10 p * 2 ^ F.f) d) then .ok (z, q.map (digitOf false) ++ g)
      else .ub .overflow := by
  have hs : ¬ SignedWide F := fun h => by have := h.2; rcases hn with h | h <;> omega
  have hll : F.T.lo ≤ 0 := by unfold IntTy.lo; split <;> simp
  obtain ⟨hprom, hhi, -, hlo, -⟩ := narrow_rng hn
  have hfb := hv.flt
  have hf15 : F.f ≤ 15 := by rcases hn with h | h <;> omega
  have hD : (2 : Int) ^ F.f ≤ 2 ^ 15 := pow_le_pow_right₀ (by norm_num) hf15
  have hDp : (0 : Int) < 2 ^ F.f := by positivity
  have hcut : ((cutLim F * 10 + 9 : Nat) : Int) ≤ F.T.hi := by
    refine le_trans (cut_le F) ?_
    have key : ∀ b ∈ ([8, 16] : List Nat), ∀ s : Bool, ∀ f < b, (2 : Int) ^ f ≤ IntTy.hi ⟨b, s⟩ → (2 : Int) ^ f + 8 ≤ IntTy.hi ⟨b, s⟩ := by
      decide +kernel
    exact key F.T.bits (by simpa using hn) F.T.signed F.f hfb h1.2
  rw [stream_modular (ml_narrow hn) (narrow_pg hv hn).limG hcut neg is fs p q g old his hfs hp hpq hg hne]
  have ei : F.T.wrap ((digitsVal 10 is : Nat) : Int) = i := isWrap_unique hv.tpos (isWrap_wrap hv _) hi
  have ed : F.T.wrap ((10 ^ p.length : Nat) : Int) = d := isWrap_unique hv.tpos (isWrap_wrap hv _) (by push_cast; exact hd)
  rw [ei, ed]
  have es : ∀ n : Int, -32768 ≤ n → n ≤ 65535 → shl F.T n F.f = .ok (n * 2 ^ F.f) := by
    intro n a b
    unfold shl
    rw [hprom, if_pos (by show F.f < 32; omega)]
    congr 1
    apply IntTy.wrap_of_inRange (by decide)
    constructor <;> simp [IntTy.lo, IntTy.hi] <;> norm_num at hD <;> nlinarith
  have hi1 := hi.1.1
  have hi2 := hi.1.2
  have esi := es i (by omega) (by omega)
  have dl : (digitsVal 10 p : Int) ≤ 2 ^ F.f + 8 := by exact_mod_cast used_le hfs hp
  have d0 : (0 : Int) ≤ digitsVal 10 p := Int.natCast_nonneg _
  by_cases hfn : fs = none
  · subst hfn
    have hnil : p ++ q = [] := hpq.symm
    obtain ⟨rfl, rfl⟩ := List.append_eq_nil_iff.1 hnil
    have e0 : ((digitsVal 10 ([] : List Nat) : Nat) : Int) = 0 := rfl
    rw [e0, zero_mul, Int.zero_tdiv, add_zero] at hz ⊢
    have hin : i32.InRange (i * 2 ^ F.f) := by
      constructor <;> simp [IntTy.lo, IntTy.hi] <;> norm_num at hD <;> nlinarith
    rw [if_pos rfl, esi, if_neg (by simpa using hv.tpos.ne'), if_pos hin]
    exact deliverM_eq hv hs neg _ _ _ hz
  · rw [if_neg hfn]
    by_cases hl : F.T.bits ≤ p.length
    · rw [if_pos hl]
      have h0 : d = 0 := by
        have hdv : (2 : Int) ^ F.T.bits ∣ 10 ^ p.length := by exact_mod_cast two_dvd_ten.2 hl
        have : IsWrap F (10 ^ p.length) 0 := ⟨⟨hll, by have := h1.2; omega⟩, by simpa using hdv⟩
        exact isWrap_unique hv.tpos hd this
      unfold scaleParts
      rw [esi, es _ (by omega) (by norm_num at hD; omega), Res.bind_ok, Res.bind_ok, h0]
      unfold cdiv
      rw [if_pos rfl]; rfl
    · rw [if_neg hl]
      have h0 : d ≠ 0 := by
        intro h
        have := hd.2
        rw [h, sub_zero] at this
        exact hl (two_dvd_ten.1 (by exact_mod_cast this))
      have hb0 : (0 : Int) ≤ digitsVal 10 p * 2 ^ F.f := by positivity
      have hb1 : (digitsVal 10 p : Int) * 2 ^ F.f < 2 ^ 31 - 1 := by norm_num at hD ⊢; nlinarith
      have hq1 : |Int.tdiv (digitsVal 10 p * 2 ^ F.f) d| ≤ digitsVal 10 p * 2 ^ F.f := by
        have := Int.natAbs_tdiv_le_natAbs (digitsVal 10 p * 2 ^ F.f : Int) d
        rw [Int.abs_eq_natAbs]
        have h2 : ((digitsVal 10 p * 2 ^ F.f : Int).natAbs : Int) = digitsVal 10 p * 2 ^ F.f := Int.natAbs_of_nonneg hb0
        omega
      rw [abs_le] at hq1
      have ec : cdiv i32 (digitsVal 10 p * 2 ^ F.f) d = .ok (Int.tdiv (digitsVal 10 p * 2 ^ F.f) d) := by
        have hr : i32.InRange (Int.tdiv (digitsVal 10 p * 2 ^ F.f) d) := by
          constructor <;> simp [IntTy.lo, IntTy.hi] <;> norm_num at hb1 <;> omega
        unfold cdiv
        rw [if_neg h0, if_neg (by simp [hr])]
      unfold scaleParts
      rw [esi, es _ (by omega) (by norm_num at hD; omega), Res.bind_ok, Res.bind_ok, hprom]
      rw [show (⟨32, true⟩ : IntTy) = i32 from rfl, ec, Res.bind_ok]
      by_cases hr : i32.InRange (i * 2 ^ F.f + Int.tdiv (digitsVal 10 p * 2 ^ F.f) d)
      · rw [if_pos hr, arith_of_inRange (by decide) hr]
        exact deliverM_eq hv hs neg _ _ _ hz
      · rw [if_neg hr]
        unfold arith
        rw [if_pos rfl, if_neg hr]; rfl

/-- What one would like: a numeral without minus sign whose value and digits fit is read up to eleven ulps, wherever it ends. -/
def C156_statement : Prop := ∀ F : FxTy, F.Valid → ¬ SignedWide F → Storable F (2 ^ F.f) → ∀ (is : List Nat) (fs : Option (List Nat)) (old : Int), Decimal is →
  Decimal (fracDigits fs) → is ≠ [] → ((10 ^ (fracDigits fs).length : Nat) : Int) ≤ F.T.hi → numeralMag is fs < 2 ^ (vbits F.T - F.f) →
    ∃ y rest, streamIn F (numeral false is fs) old = .ok (y, rest) ∧ val F y ≤ numeralMag is fs ∧ numeralMag is fs < val F y + 11 * ulp F

/-- In unsigned 16.16 storage `0.65537` is read as `0`: the digits shifted by the fraction no longer fit. -/
theorem C156_false : ¬ C156_statement := by
  intro h
  obtain ⟨y, rest, e, -, h2⟩ := h ⟨u32, u64, 16, false⟩ (by decide) (by unfold SignedWide; decide) (by decide) [0] (some [6, 5, 5, 3, 7]) 0
    (by unfold Decimal; decide) (by unfold Decimal; decide) (by decide) (by decide +kernel)
    (by norm_num [numeralMag, digitsVal, fracVal, fracDigits, vbits])
  have e' : streamIn ⟨u32, u64, 16, false⟩ (numeral false [0] (some [6, 5, 5, 3, 7])) 0 = .ok (0, []) := by decide +kernel
  rw [e'] at e
  injection e with e; injection e with e
  rw [← e] at h2
  norm_num [numeralMag, digitsVal, fracVal, fracDigits, val, ulp] at h2

theorem used_shift_fits (F : FxTy) (hv : F.Valid) (hu : UnsignedWide F) (hf2 : 2 * F.f < F.T.bits) {ds p : List Nat} (hds : Decimal ds) (hp : Used F ds p) :
    digitsVal 10 p * 2 ^ F.f < 2 ^ F.T.bits := by
  have h2 := used_le hds hp
  have hb : F.T.bits = 32 ∨ F.T.bits = 64 := by have := hv.1; have := hu.2; omega
  have h3 : ∀ B ∈ ([32, 64] : List Nat), ∀ f < 32, 2 * f < B → (2 ^ f + 8) * 2 ^ f < 2 ^ B := by decide +kernel
  exact lt_of_le_of_lt (Nat.mul_le_mul_right _ h2) (h3 F.T.bits (by simpa using hb) F.f (by omega) hf2)

/-- C156: what holds.  With `p` the used digits: if the power of ten fits the storage, the numeral is in range and, on the unsigned 32- and 64-bit layouts, the
used digits shifted by the fraction fit (`used_shift_fits`: they do whenever less than half of the bits are fraction), then the numeral is read with the floor of
the used digits: not above it, less than eleven ulps below it, less than one if all digits are used, integers exactly; a minus sign negates (modulo the storage); the unused digits stay in the stream. -/
theorem C156_value_partial (F : FxTy) (hv : F.Valid) (neg : Bool) (is : List Nat) (fs : Option (List Nat)) (p q : List Nat)
    (hu : UnsignedWide F ∧ digitsVal 10 p * 2 ^ F.f < 2 ^ F.T.bits ∨ Narrow F ∧ Storable F (2 ^ F.f)) (g : List Char) (old : Int) (his : Decimal is) (hfs : Decimal (fracDigits fs))
    (hp : Used F (fracDigits fs) p) (hpq : fracDigits fs = p ++ q)
    (hg : ∀ c t, g = c :: t → ¬ DigitChar c ∧ (fs = none → c ≠ '.' ∧ (is = [] → c ≠ '-'))) (hne : numeral neg is fs ++ g ≠ [])
    (hten : ((10 ^ p.length : Nat) : Int) ≤ F.T.hi) (hmag : numeralMag is fs < 2 ^ (vbits F.T - F.f)) :
    ∃ (m : Nat) (z : Int), streamIn F (numeral neg is fs ++ g) old = .ok (z, q.map (digitOf false) ++ g) ∧ Storable F m ∧
      IsWrap F (if neg then -(m : Int) else m) z ∧ val F m ≤ numeralMag is fs ∧ numeralMag is fs < val F m + 11 * ulp F ∧
      (q = [] → IsFloor F (numeralMag is fs) m) ∧ (fracVal 10 (fracDigits fs) = 0 → val F m = numeralMag is fs) := by
  obtain ⟨b1, b2, b3⟩ := used_bounds is hfs hp
  set m := digitsVal 10 is * 2 ^ F.f + digitsVal 10 p * 2 ^ F.f / 10 ^ p.length with hm
  have hposq : (0 : ℚ) < 2 ^ F.f := by positivity
  have hfb := hv.flt
  have hll : F.T.lo ≤ 0 := by unfold IntTy.lo; split <;> simp
  have hms : (m : Int) ≤ F.T.hi := by
    have h1 : (m : ℚ) < 2 ^ (vbits F.T - F.f) * 2 ^ F.f := lt_of_le_of_lt b1 (mul_lt_mul_of_pos_right hmag hposq)
    have h2 := hi_succ_v hv
    have h3 : (m : Int) < ((2 ^ (vbits F.T - F.f) * 2 ^ F.f : Nat) : Int) := by exact_mod_cast h1
    omega
  have hst : Storable F m := ⟨le_trans hll (Int.natCast_nonneg _), hms⟩
  have hisle : ((digitsVal 10 is : Nat) : Int) ≤ m := by
    have h1 : digitsVal 10 is * 1 ≤ digitsVal 10 is * 2 ^ F.f := Nat.mul_le_mul_left _ Nat.one_le_two_pow
    have : digitsVal 10 is ≤ m := by rw [hm]; exact le_trans (by omega) (Nat.le_add_right _ _)
    exact_mod_cast this
  have hlen : ¬ F.T.bits ≤ p.length := by
    intro hc
    have h1 : 2 ^ F.T.bits ≤ 10 ^ p.length :=
      le_trans (Nat.pow_le_pow_left (by norm_num : 2 ≤ 10) _) (Nat.pow_le_pow_right (by norm_num) hc)
    have h2 : ((2 ^ F.T.bits : Nat) : Int) ≤ F.T.hi := le_trans (by exact_mod_cast h1) hten
    have h3 : F.T.hi < 2 ^ F.T.bits := by
      unfold IntTy.hi
      split
      · have : (2 : Int) ^ (F.T.bits - 1) ≤ 2 ^ F.T.bits := pow_le_pow_right₀ (by norm_num) (by omega)
        omega
      · omega
    push_cast at h2; omega
  refine ⟨m, F.T.wrap (if neg then -(m : Int) else m), ?_, hst, isWrap_wrap hv _, ?_, ?_, ?_, ?_⟩
  · rcases hu with ⟨hu, hf2⟩ | ⟨hn, h1⟩
    · have hT := wu_T hv hu
      have hcast : ∀ n : Nat, (n : Int) ≤ F.T.hi → n % 2 ^ F.T.bits = n := by
        intro n h
        apply Nat.mod_eq_of_lt
        rw [hT.hi_eq] at h
        have : (n : Int) < ((2 ^ F.T.bits : Nat) : Int) := by push_cast; omega
        exact_mod_cast this
      have hdec : digitsVal 10 p * 2 ^ F.f % 2 ^ F.T.bits = digitsVal 10 p * 2 ^ F.f := Nat.mod_eq_of_lt hf2
      have hz : IsWrap F ((if neg then -1 else 1) *
          (digitsVal 10 is * 2 ^ F.f + (digitsVal 10 p * 2 ^ F.f % 2 ^ F.T.bits / (10 ^ p.length % 2 ^ F.T.bits) : Nat) : Int))
          (F.T.wrap (if neg then -(m : Int) else m)) := by
        rw [hdec, hcast _ hten]
        have e : (if neg then -1 else 1 : Int) * (digitsVal 10 is * 2 ^ F.f + (digitsVal 10 p * 2 ^ F.f / 10 ^ p.length : Nat) : Int) =
            if neg then -(m : Int) else m := by
          rw [hm]; cases neg <;> push_cast <;> simp
        rw [e]; exact isWrap_wrap hv _
      rw [C156_unsigned F hv hu neg is fs p q _ g old his hfs hp hpq hg hne hz, if_neg hlen]
    · have hw : ∀ n : Nat, (n : Int) ≤ F.T.hi → IsWrap F n n := fun n h => ⟨⟨by omega, h⟩, ⟨0, by ring⟩⟩
      have ed : IsWrap F (10 ^ p.length) ((10 ^ p.length : Nat) : Int) := by
        have := hw _ hten; push_cast at this ⊢; exact this
      have ev : ((digitsVal 10 is : Nat) : Int) * 2 ^ F.f + Int.tdiv ((digitsVal 10 p : Nat) * 2 ^ F.f) ((10 ^ p.length : Nat) : Int) = m := by
        rw [hm]
        have : ((digitsVal 10 p : Nat) * 2 ^ F.f : Int) = ((digitsVal 10 p * 2 ^ F.f : Nat) : Int) := by push_cast; rfl
        rw [this, ← Int.ofNat_tdiv]; push_cast; rfl
      have ez : IsWrap F (if neg then -((digitsVal 10 is : Nat) * 2 ^ F.f + Int.tdiv ((digitsVal 10 p : Nat) * 2 ^ F.f) ((10 ^ p.length : Nat) : Int))
          else (digitsVal 10 is : Nat) * 2 ^ F.f + Int.tdiv ((digitsVal 10 p : Nat) * 2 ^ F.f) ((10 ^ p.length : Nat) : Int))
          (F.T.wrap (if neg then -(m : Int) else m)) := by rw [ev]; exact isWrap_wrap hv _
      have hr : i32.InRange (m : Int) := by
        have := (narrow_rng hn).2.1
        constructor <;> simp [IntTy.lo, IntTy.hi] <;> omega
      rw [C156_narrow F hv hn h1 neg is fs p q _ _ _ g old his hfs hp hpq hg hne (hw _ (by omega)) ed ez, if_neg hlen, ev, if_pos hr]
  · unfold val; rw [div_le_iff₀ hposq]; exact_mod_cast b1
  · unfold val ulp
    rw [mul_one_div, ← add_div, lt_div_iff₀ hposq]
    push_cast at b2 ⊢; linarith
  · intro h0
    rw [h0, List.append_nil] at hpq
    refine ⟨by unfold val; rw [div_le_iff₀ hposq]; exact_mod_cast b1, ?_⟩
    have h10 : (0 : ℚ) < 10 ^ p.length := by positivity
    obtain ⟨w, hw⟩ : ∃ w, w = digitsVal 10 p * 2 ^ F.f / 10 ^ p.length := ⟨_, rfl⟩
    have h1 : (digitsVal 10 p * 2 ^ F.f : ℚ) < (w + 1) * 10 ^ p.length := by
      have := Nat.lt_mul_div_succ (digitsVal 10 p * 2 ^ F.f) (show 0 < 10 ^ p.length by positivity)
      rw [mul_comm (10 ^ p.length), ← hw] at this
      exact_mod_cast this
    unfold val ulp numeralMag
    rw [hpq, fracVal_eq, ← digitsVal_eq_acc, ← add_div, lt_div_iff₀ hposq, hm, ← hw]
    push_cast
    have h2 : (digitsVal 10 p : ℚ) / 10 ^ p.length * 2 ^ F.f < w + 1 := by
      rw [div_mul_eq_mul_div, div_lt_iff₀ h10]; exact h1
    linarith
  · intro h0
    have hm' : m = digitsVal 10 is * 2 ^ F.f := by rw [hm, b3 h0]; simp
    unfold numeralMag val
    rw [h0, hm', add_zero]
    push_cast
    rw [mul_div_assoc, div_self hposq.ne', mul_one]

/-- C156, round trip: a value other than the signed minimum and the unsigned `2^(bits-1)` is read back exactly from the text of `operator<<`, with the following
text left in the stream, whenever the digits `ds` of its fraction satisfy: all but the last do not exceed the cut-off, their power of ten fits the storage and, on
the unsigned 32- and 64-bit layouts, they fit when shifted by the fraction. -/
theorem C156_round_trip_partial (F : FxTy) (hv : F.Valid) (hu : UnsignedWide F ∨ Narrow F) (hfit : 10 * 2 ^ F.f ≤ F.T.hi) (x : Int) (hx : Storable F x)
    (hmin : x ≠ if F.T.signed then F.T.lo else 2 ^ (F.T.bits - 1)) (oct up : Bool) (old : Int) :
    ∃ is ds s, Decimal is ∧ Decimal ds ∧ |val F x| = digitsVal 10 is + fracVal 10 ds ∧ streamOut F x false true oct up = .ok s ∧
      (digitsVal 10 ds / 10 ≤ (2 ^ F.f - 1) / 10 → ((10 ^ ds.length : Nat) : Int) ≤ F.T.hi → (UnsignedWide F → digitsVal 10 ds * 2 ^ F.f < 2 ^ F.T.bits) →
        ∀ g, (∀ c t, g = c :: t → ¬ DigitChar c ∧ c ≠ '.') → streamIn F (s ++ g) old = .ok (x, g)) := by
  have hp : (0 : ℚ) < 2 ^ F.f := by positivity
  have hu' : F.T.signed = true ∨ x ≠ 2 ^ (F.T.bits - 1) := by
    by_cases h0 : F.T.signed = true
    · exact Or.inl h0
    · rw [if_neg h0] at hmin; exact Or.inr hmin
  obtain ⟨s, hs, is, fs, e, his, hfs, hnil, hlast, habs⟩ := C88_every_storage_partial F hv hfit x hx hu' up
  have hneg : val F x < 0 ↔ x < 0 := by rw [← val_zero F, val_lt]
  have hfd : fracDigits (if fs = [] then none else some fs) = fs := by
    by_cases h0 : fs = [] <;> simp [h0, fracDigits]
  set gs : Option (List Nat) := if fs = [] then none else some fs with hgs
  have hmag : numeralMag is gs = |val F x| := by unfold numeralMag; rw [hfd, habs]
  have hs' : s = numeral (decide (x < 0)) is gs := by
    rw [e]
    unfold numeral
    rw [List.append_assoc]
    congr 1
    · by_cases h0 : x < 0
      · rw [if_pos (hneg.2 h0)]; simp [h0]
      · rw [if_neg (fun hc => h0 (hneg.1 hc))]; simp [h0]
    · congr 1
      · exact List.map_congr_left (fun d hd => digitOf_up (his d hd) up)
      · rw [hgs]
        by_cases h0 : fs = []
        · rw [if_pos h0, if_pos h0]
        · rw [if_neg h0, if_neg h0]
          simp only
          rw [List.map_congr_left (fun d hd => digitOf_up (hfs d hd) up)]
  have hav := abs_val_raw F x
  have hxhi : |x| ≤ F.T.hi := by
    obtain ⟨a, b⟩ := hx
    by_cases h0 : F.T.signed = true
    · rw [if_pos h0] at hmin
      have : F.T.lo = -F.T.hi - 1 := by unfold IntTy.lo IntTy.hi; rw [if_pos h0, if_pos h0]; ring
      rw [abs_le]; omega
    · have : F.T.lo = 0 := by unfold IntTy.lo; rw [if_neg h0]
      rw [abs_of_nonneg (by omega)]; exact b
  refine ⟨is, fs, s, his, hfs, habs, hs, fun c1 c2 c3 g hg => ?_⟩
  have hused : Used F fs fs := by
    refine ⟨[], by simp, by simp, fun p1 d p2 h => le_trans ?_ c1⟩
    rw [Nat.le_div_iff_mul_le (by norm_num), h, digitsVal_eq_acc, digitsVal_eq_acc, acc_append]
    calc acc 0 p1 * 10 ≤ acc 0 p1 * 10 + d := Nat.le_add_right _ _
      _ ≤ acc (acc 0 p1) (d :: p2) := by show _ ≤ acc (acc 0 p1 * 10 + d) p2; rw [acc_eq (acc 0 p1 * 10 + d)]; exact le_trans (Nat.le_mul_of_pos_right _ (Nat.pow_pos (by norm_num))) (Nat.le_add_right _ _)
  have h1 : Storable F (2 ^ F.f) := by
    have hp' : (0 : Int) < 2 ^ F.f := by positivity
    have : F.T.lo ≤ 0 := by unfold IntTy.lo; split <;> simp
    exact ⟨by omega, by omega⟩
  have hne : is ≠ [] := by
    rcases hnil with h | ⟨d, t, h, -⟩ <;> rw [h] <;> simp
  have hmb : numeralMag is gs < 2 ^ (vbits F.T - F.f) := by
    rw [hmag, hav, div_lt_iff₀ hp]
    have h2 := hi_succ_v hv
    have h3 : |x| < ((2 ^ (vbits F.T - F.f) * 2 ^ F.f : Nat) : Int) := by omega
    exact_mod_cast h3
  obtain ⟨m, z, e1, -, e2, e3, -, e5, -⟩ := C156_value_partial F hv (decide (x < 0)) is gs fs []
    (by rcases hu with h | h; exacts [Or.inl ⟨h, c3 h⟩, Or.inr ⟨h, h1⟩]) g old his (by rw [hfd]; exact hfs) (by rw [hfd]; exact hused) (by rw [hfd]; simp)
    (fun c t h => ⟨(hg c t h).1, fun _ => ⟨(hg c t h).2, fun h => absurd h hne⟩⟩)
    (by unfold numeral; cases is with | nil => exact absurd rfl hne | cons a t => simp) c2 hmb
  obtain ⟨f1, f2⟩ := e5 rfl
  rw [hmag, hav] at f1 f2
  have hm : (m : Int) = |x| := by
    unfold val at f1 f2
    unfold ulp at f2
    rw [div_le_div_iff_of_pos_right hp] at f1
    rw [← add_div, div_lt_div_iff_of_pos_right hp] at f2
    have q1 : (m : Int) ≤ |x| := by exact_mod_cast f1
    have q2 : |x| < (m : Int) + 1 := by exact_mod_cast f2
    omega
  have hz : z = x := by
    have : (if decide (x < 0) = true then -(m : Int) else m) = x := by
      rw [hm]
      by_cases h0 : x < 0
      · rw [if_pos (by simp [h0]), abs_of_neg h0]; ring
      · rw [if_neg (by simp [h0]), abs_of_nonneg (by omega)]
    rw [this] at e2
    exact isWrap_unique hv.tpos e2 ⟨hx, ⟨0, by ring⟩⟩
  rw [hs', e1, hz]; rfl

-- `-3.125` in 16-bit 8.8 makes the round trip; `0.375` in 8-bit 5.3 does not, its digits `37` exceed the cut-off
example : streamOut ⟨⟨16, true⟩, ⟨32, true⟩, 8, false⟩ (-800) false true false false = .ok "-3.125".toList ∧
    digitsVal 10 [1, 2, 5] / 10 ≤ (2 ^ 8 - 1) / 10 ∧ streamIn ⟨⟨16, true⟩, ⟨32, true⟩, 8, false⟩ "-3.125".toList 0 = .ok (-800, []) ∧
    streamOut ⟨⟨8, true⟩, ⟨16, true⟩, 3, false⟩ 3 false true false false = .ok "0.375".toList ∧
    streamIn ⟨⟨8, true⟩, ⟨16, true⟩, 3, false⟩ "0.375".toList 0 = .ok (2, ['7', '5']) := by decide +kernel

-- unsigned 20.12, 16-bit signed 8.8 (the third digit is not used), 8-bit: the power of ten wraps to -24; a long fraction divides by zero; `int` overflow
example : streamIn ⟨u32, u64, 12, false⟩ "1000.5 ".toList 0 = .ok (1000 * 4096 + 2048, [' ']) ∧
    streamIn ⟨u32, u64, 12, false⟩ "-1".toList 0 = .ok (2 ^ 32 - 4096, []) ∧
    streamIn ⟨⟨16, true⟩, ⟨32, true⟩, 8, false⟩ "-3.125".toList 0 = .ok (-3 * 256 - 32, []) ∧
    streamIn ⟨⟨8, true⟩, ⟨16, true⟩, 4, false⟩ "1.002".toList 0 = .ok (15, []) ∧
    streamIn ⟨⟨8, true⟩, ⟨16, true⟩, 4, false⟩ "0.00000000".toList 0 = .ub .divZero ∧
    streamIn ⟨⟨16, false⟩, ⟨32, false⟩, 15, false⟩ "65535.000000032769".toList 0 = .ub .overflow := by decide +kernel

-- the hypotheses of the three theorems are met by `-3.125` in 16-bit 8.8 and by `0.65537` in unsigned 16.16
example : Used ⟨⟨16, true⟩, ⟨32, true⟩, 8, false⟩ [1, 2, 5] [1, 2, 5] ∧ Used ⟨u32, u64, 16, false⟩ [6, 5, 5, 3, 7] [6, 5, 5, 3, 7] ∧
    ((10 ^ 3 : Nat) : Int) ≤ (⟨16, true⟩ : IntTy).hi ∧ numeralMag [3] (some [1, 2, 5]) < 2 ^ (vbits ⟨16, true⟩ - 8) := by
  refine ⟨⟨[], rfl, by simp, ?_⟩, ⟨[], rfl, by simp, ?_⟩, by decide, by norm_num [numeralMag, digitsVal, fracVal, fracDigits, vbits]⟩
  · intro p1 d p2 hp
    rcases p1 with _ | ⟨a, _ | ⟨b, _ | ⟨c, p1⟩⟩⟩ <;> simp at hp
    · decide
    · obtain ⟨rfl, -⟩ := hp; decide
    · obtain ⟨rfl, rfl, -⟩ := hp; decide
  · intro p1 d p2 hp
    rcases p1 with _ | ⟨a, _ | ⟨b, _ | ⟨c, _ | ⟨e, _ | ⟨f, p1⟩⟩⟩⟩⟩ <;> simp at hp
    · decide
    · obtain ⟨rfl, -⟩ := hp; decide
    · obtain ⟨rfl, rfl, -⟩ := hp; decide
    · obtain ⟨rfl, rfl, rfl, -⟩ := hp; decide
    · obtain ⟨rfl, rfl, rfl, rfl, -⟩ := hp; decide

end Props
end Eirin
