import Verif.Props.ParseTotal
import Verif.Props.StreamAll

/-! # Property C123: the outcome of `operator>>` and `io::parse` on every numeral whatsoever -/

namespace Eirin.Props
open Spec

/-- The value `v` (an exact sum) delivered with sign `neg` and the unread text `rest`, in signed storage: overflow if it does not fit, or if
it is the minimum and has to be negated. -/
def delivered (F : FxTy) (neg : Bool) (v : Int) (rest : List Char) : Res (Int × List Char) :=
  if Storable F v then (if neg then (if v = F.T.lo then .ub .overflow else .ok (-v, rest)) else .ok (v, rest)) else .ub .overflow

theorem deliver_eq {F : FxTy} (h : SW F) (neg : Bool) (v : Int) (rest : List Char) :
    (arith F.T v >>= fun v => (if neg = true then (do let n ← Eirin.neg F (fromInternal F v); pure (n, rest)) else pure (fromInternal F v, rest)
      : Res (Int × List Char))) = delivered F neg v rest := by
  unfold delivered
  by_cases hv : Storable F v
  · rw [if_pos hv, arith_of_inRange h.tpos hv, Res.bind_ok, h.from_ok hv]
    cases neg
    · rfl
    · rw [if_pos rfl, if_pos rfl]
      have hlh := h.lo_hi
      by_cases hl : v = F.T.lo
      · rw [if_pos hl]
        unfold Eirin.neg
        rw [h.arith_ub (fun hc => by have := hc.2; omega)]; rfl
      · rw [if_neg hl, h.neg_ok (x := v) ⟨by have := hv.2; omega, by have := hv.1; omega⟩]; rfl
  · rw [if_neg hv, ← h.p, h.arith_ub hv]; rfl

theorem scaleParts_arith {F : FxTy} (h : SW F) {d dec dv : Nat} {a b : Int} (hdv : 0 < dv) (ha : IsWrap F (d * 2 ^ F.f) a)
    (hb : IsWrap F (dec * 2 ^ F.f) b) : scaleParts F.T F.f d dec dv = arith F.T (a + Int.tdiv b dv) := by
  have hT := ws_T h
  have hfb : F.f < F.T.bits := by have := f_le h; omega
  have es : ∀ {n : Nat} {w : Int}, IsWrap F (n * 2 ^ F.f) w → shl F.T n F.f = .ok w := by
    intro n w hw
    unfold shl
    rw [hT.prom, if_pos hfb, IntTy.wrap_congr hw.2, h.wrap_ok hw.1]
  unfold scaleParts
  rw [es ha, es hb, Res.bind_ok, Res.bind_ok, hT.prom, ← h.p, h.cdiv_ok (x := b) hb.1 (by omega), Res.bind_ok]

/-- The integer loop on the digits of a numeral. -/
theorem int_loop {W : IntTy} (h : WS W) {is : List Nat} (his : Decimal is) (t : List Char)
    (ht : ∀ c cs, t = c :: cs → c = '.' ∨ ¬ DigitChar c) :
    intLenient W (is.map (digitOf false) ++ t) 0 =
      if W.hi < digitsVal 10 is then .ub .overflow else .ok ((digitsVal 10 is : Int), t) := by
  have h0 : ((0 : Nat) : Int) ≤ W.hi := by
    rw [h.hi_eq]; have : (0 : Int) < 2 ^ (W.bits - 1) := by positivity
    push_cast; omega
  by_cases hip : ((acc 0 is : Nat) : Int) ≤ W.hi
  · rw [if_neg (by rw [digitsVal_eq_acc]; omega)]
    have := h.intLenient_digits t is 0 his hip
    rw [Nat.cast_zero] at this
    rw [this]
    cases t with
    | nil => rfl
    | cons c t =>
      unfold intLenient
      rcases ht c t rfl with h1 | h1
      · rw [if_pos h1]; rfl
      · have h2 : isDigit c = false := by rw [Bool.eq_false_iff]; intro hh; exact h1 ((isDigit_iff c).1 hh)
        by_cases hd : c = '.'
        · rw [if_pos hd]; rfl
        · rw [if_neg hd, h2]; rfl
  · rw [if_pos (by rw [digitsVal_eq_acc]; omega)]
    have := h.intLenient_over t is 0 his h0 hip
    rwa [Nat.cast_zero] at this

/-- The fraction loop on the digits of a numeral. -/
theorem frac_loop {W : IntTy} (h : WS W) {F : FxTy} {p q : List Nat} (hpd : Decimal p) (hq : q ≠ [] → cutLim F < acc 0 p)
    (hp : ∀ p1 d p2, p = p1 ++ d :: p2 → acc 0 p1 ≤ cutLim F) (hl : ((cutLim F * 10 + 9 : Nat) : Int) ≤ W.hi) (g : List Char)
    (hg : ∀ c t, g = c :: t → ¬ DigitChar c) :
    fracLenient W (cutLim F) ((p ++ q).map (digitOf false) ++ g) 0 1 =
      if W.hi < 10 ^ p.length then .ub .overflow
      else .ok ((digitsVal 10 p : Int), ((10 ^ p.length : Nat) : Int), q.map (digitOf false) ++ g) := by
  have h1 : ((1 : Nat) : Int) ≤ W.hi := le_trans (by push_cast; omega) hl
  rw [List.map_append, List.append_assoc]
  by_cases hpow : ((1 * 10 ^ p.length : Nat) : Int) ≤ W.hi
  · rw [if_neg (by push_cast at hpow; rw [one_mul] at hpow; omega)]
    have := h.fracLenient_digits (cutLim F) (q.map (digitOf false) ++ g) hl p 0 1 hpd hp hpow
    rw [one_mul, Nat.cast_zero, Nat.cast_one] at this
    rw [this]
    cases q with
    | nil =>
      cases g with
      | nil => rfl
      | cons c t =>
        have h2 : isDigit c = false := by rw [Bool.eq_false_iff]; intro hh; exact hg c t rfl ((isDigit_iff c).1 hh)
        simp only [List.map_nil, List.nil_append]
        unfold fracLenient
        rw [if_pos (Or.inr (by rw [h2]; rfl))]; rfl
    | cons d q =>
      rw [List.map_cons, List.cons_append]
      unfold fracLenient
      rw [if_pos (Or.inl (by exact_mod_cast hq (by simp)))]; rfl
  · rw [if_pos (by push_cast at hpow; rw [one_mul] at hpow; omega)]
    have := h.fracLenient_over (cutLim F) (q.map (digitOf false) ++ g) hl p 0 1 hpd hp h1 hpow
    rwa [Nat.cast_zero, Nat.cast_one] at this

theorem cut_T {F : FxTy} (h : SW F) : ((cutLim F * 10 + 9 : Nat) : Int) ≤ F.T.hi := by
  have h1 : cutLim F * 10 + 9 ≤ 2 ^ F.f + 8 := by
    unfold cutLim
    have := Nat.one_le_two_pow (n := F.f)
    omega
  have hf := f_le h
  have h2 : ((cutLim F * 10 + 9 : Nat) : Int) ≤ 2 ^ F.f + 8 := by exact_mod_cast h1
  have h3 : (2 : Int) ^ F.f ≤ 2 ^ (F.T.bits - 2) := pow_le_pow_right₀ (by norm_num) (by omega)
  have hb : F.T.bits = 32 ∨ F.T.bits = 64 := by rcases inter_of h with ⟨e, -⟩ | ⟨e, -⟩ <;> omega
  rw [h.hi_eq]
  rcases hb with e | e <;> rw [e] at h3 ⊢ <;> norm_num at h3 ⊢ <;> omega

/-- C123: extraction of a numeral of any length, followed by text that cannot continue it, in every signed layout of 32 or 64 bits.  With
`p` the used fraction digits and `q` the others: signed overflow if the integer part or the power of ten exceeds the storage type; otherwise
the integer part and the fraction digits, each shifted and wrapped into the storage, are combined with a truncating division, and the unused
digits stay in the stream. -/
theorem C123_total (F : FxTy) (h : SW F) (neg : Bool) (is : List Nat) (fs : Option (List Nat)) (p q : List Nat) (a b : Int) (g : List Char)
    (old : Int) (his : Decimal is) (hfs : Decimal (fracDigits fs)) (hp : Used F (fracDigits fs) p) (hpq : fracDigits fs = p ++ q)
    (ha : IsWrap F (digitsVal 10 is * 2 ^ F.f) a) (hb : IsWrap F (digitsVal 10 p * 2 ^ F.f) b)
    (hg : ∀ c t, g = c :: t → ¬ DigitChar c ∧ (fs = none → c ≠ '.' ∧ (is = [] → c ≠ '-'))) (hne : numeral neg is fs ++ g ≠ []) :
    streamIn F (numeral neg is fs ++ g) old =
      if F.T.hi < digitsVal 10 is ∨ F.T.hi < 10 ^ p.length then .ub .overflow
      else delivered F neg (a + Int.tdiv b (10 ^ p.length)) (q.map (digitOf false) ++ g) := by
  have hps := ps_of h
  have hT := ws_T h
  have hfb : F.f < F.T.bits := by have := f_le h; omega
  obtain ⟨q', epq, hq, hp⟩ := hp
  have : q' = q := by have := epq.symm.trans hpq; simpa using this
  subst this
  replace hq : q' ≠ [] → cutLim F < acc 0 p := hq
  replace hp : ∀ p1 d p2, p = p1 ++ d :: p2 → acc 0 p1 ≤ cutLim F := hp
  have hpd : Decimal p := by rw [epq] at hfs; exact hfs.left
  have hts : takeSign (numeral neg is fs ++ g) = (neg, numeral false is fs ++ g) := by
    cases neg
    · cases is with
      | cons d is => exact if_neg (digitOf_ne_minus his.head)
      | nil =>
        cases fs with
        | some ds => rfl
        | none =>
          cases g with
          | nil => rfl
          | cons c t => exact if_neg (((hg c t rfl).2 rfl).2 rfl)
    · rfl
  unfold streamIn
  split
  · rename_i h0; exact absurd h0 hne
  rw [hts]
  have hd := deliver_eq h neg
  cases hfs' : fs with
  | none =>
    subst hfs'
    have hnil : p ++ q' = [] := epq.symm
    obtain ⟨rfl, rfl⟩ := List.append_eq_nil_iff.1 hnil
    have e1 := int_loop hT his g (fun c cs hc => Or.inr (hg c cs hc).1)
    have hb0 : b = 0 := by
      have : IsWrap F ((digitsVal 10 ([] : List Nat) : Int) * 2 ^ F.f) 0 := ⟨h.zero_in, by simp [digitsVal]⟩
      exact isWrap_unique h.tpos hb this
    have h1 : ¬ F.T.hi < 10 ^ ([] : List Nat).length := by
      have := h.d_le; have := SW.dpos (F := F); simp; omega
    simp only [numeral, Bool.false_eq_true, if_false, List.nil_append, List.append_nil, e1]
    by_cases hov : F.T.hi < (digitsVal 10 is : Int)
    · rw [if_pos hov, if_pos (Or.inl hov)]; rfl
    · rw [if_neg hov, if_neg (by rintro (hc | hc); exacts [hov hc, h1 hc])]
      simp only [Res.bind_ok]
      have es : shl F.T (digitsVal 10 is : Int) F.f = arith F.T a := by
        unfold shl
        rw [hT.prom, if_pos hfb, IntTy.wrap_congr ha.2, h.wrap_ok ha.1, arith_of_inRange h.tpos ha.1]
      split
      · exact absurd rfl ((hg '.' _ rfl).2 rfl).1
      · rw [es, hb0, Int.zero_tdiv, add_zero, ← hd, arith_of_inRange h.tpos ha.1]
        rfl
  | some ds =>
    subst hfs'
    have epq' : ds = p ++ q' := epq
    have e1 := int_loop hT his ('.' :: (ds.map (digitOf false) ++ g)) (fun c cs hc => Or.inl (by simp at hc; exact hc.1.symm))
    have e2 := frac_loop (F := F) hT hpd hq hp (cut_T h) g (fun c t hc => (hg c t hc).1)
    rw [← epq'] at e2
    simp only [numeral, Bool.false_eq_true, if_false, List.nil_append, List.append_assoc, List.cons_append, e1]
    by_cases hov : F.T.hi < (digitsVal 10 is : Int)
    · rw [if_pos hov, if_pos (Or.inl hov)]; rfl
    · rw [if_neg hov]
      simp only [Res.bind_ok, hps.limG, e2]
      by_cases hov2 : F.T.hi < 10 ^ p.length
      · rw [if_pos hov2, if_pos (Or.inr hov2)]; rfl
      · rw [if_neg hov2, if_neg (by rintro (hc | hc); exacts [hov hc, hov2 hc])]
        simp only [Res.bind_ok]
        rw [scaleParts_arith h (by positivity) ha hb, ← hd]
        push_cast
        cases arith F.T (a + Int.tdiv b (10 ^ p.length)) <;> rfl

/-- C123: `io::parse` on a numeral directly before the terminator has the outcome of extraction into a `fixed32` (C123_total), the returned
pointer being at the first unused digit or the terminator. -/
theorem C123_io (neg : Bool) (is : List Nat) (fs : Option (List Nat)) (p q : List Nat) (a b : Int) (stop : Char) (r : List Char)
    (old : Int) (his : Decimal is) (hfs : Decimal (fracDigits fs)) (hp : Used fixed32 (fracDigits fs) p) (hpq : fracDigits fs = p ++ q)
    (ha : IsWrap fixed32 (digitsVal 10 is * 2 ^ 16) a) (hb : IsWrap fixed32 (digitsVal 10 p * 2 ^ 16) b)
    (hst : ¬ DigitChar stop ∧ stop ≠ '.' ∧ stop ≠ '-') :
    ioParse (numeral neg is fs ++ stop :: r) stop old =
      if 2 ^ 31 ≤ digitsVal 10 is ∨ 2 ^ 31 ≤ 10 ^ p.length then .ub .overflow
      else (delivered fixed32 neg (a + Int.tdiv b (10 ^ p.length)) (q.map (digitOf false) ++ stop :: r) >>= fun x => .ok (x.2, x.1)) := by
  have h := sw32
  have hpd : Decimal p := by rw [hpq] at hfs; exact hfs.left
  have hqd : Decimal q := by rw [hpq] at hfs; exact hfs.right
  obtain ⟨q', epq, hq, hp⟩ := hp
  have : q' = q := by have := epq.symm.trans hpq; simpa using this
  subst this
  replace hq : q' ≠ [] → cutLim fixed32 < acc 0 p := hq
  replace hp : ∀ p1 d p2, p = p1 ++ d :: p2 → acc 0 p1 ≤ cutLim fixed32 := hp
  have hnot : ∀ ds : List Nat, Decimal ds → stop ∉ ds.map (digitOf false) := by
    intro ds hds hc
    obtain ⟨d, hd, he⟩ := List.mem_map.1 hc
    apply hst.1
    rw [← he]
    exact (isDigit_iff _).1 (isDigit_digitOf (hds d hd))
  have hs : stop ∉ numeral neg is fs := by
    unfold numeral
    rw [List.mem_append, List.mem_append, not_or, not_or]
    refine ⟨?_, hnot is his, ?_⟩
    · cases neg
      · simp
      · simp; exact hst.2.2
    · cases fs with
      | none => simp
      | some ds => rw [List.mem_cons, not_or]; exact ⟨hst.2.1, hnot ds hfs⟩
  have hhi : (2 ^ 31 ≤ digitsVal 10 is ∨ 2 ^ 31 ≤ 10 ^ p.length) ↔ (i32.hi < (digitsVal 10 is : Int) ∨ i32.hi < 10 ^ p.length) := by
    have : i32.hi = 2 ^ 31 - 1 := by decide
    rw [this]
    have h1 : (2 ^ 31 ≤ 10 ^ p.length) ↔ ((2 : Int) ^ 31 ≤ 10 ^ p.length) := by exact_mod_cast Iff.rfl
    rw [h1]
    omega
  have hlim : (cutLim fixed32 : Int) = 6553 := by decide +kernel
  have hd : ∀ v l, (arith i32 v >>= fun v => (if neg = true then (do let n ← Eirin.neg fixed32 (fromInternal fixed32 v); pure (some (n, l)))
      else pure (some (fromInternal fixed32 v, l)) : Res (Option (Int × List Char)))) = (delivered fixed32 neg v l >>= fun x => .ok (some x)) := by
    intro v l
    rw [← deliver_eq h]
    show (arith i32 v >>= _) = ((arith i32 v >>= _) >>= _)
    cases arith i32 v with
    | ub u => rfl
    | throw e => rfl
    | ok w =>
      cases neg
      · rfl
      · simp only [Res.bind_ok, if_true]
        cases Eirin.neg fixed32 (fromInternal fixed32 w) <;> rfl
  have hbody : ioBody (numeral neg is fs) = if 2 ^ 31 ≤ digitsVal 10 is ∨ 2 ^ 31 ≤ 10 ^ p.length then .ub .overflow
      else (delivered fixed32 neg (a + Int.tdiv b (10 ^ p.length)) (q'.map (digitOf false)) >>= fun x => .ok (some x)) := by
    unfold ioBody
    rw [takeSign_numeral neg his]
    simp only [hhi, intStrict_eq, fracStrict_eq]
    cases hfs' : fs with
    | none =>
      subst hfs'
      have hnil : p ++ q' = [] := epq.symm
      obtain ⟨rfl, rfl⟩ := List.append_eq_nil_iff.1 hnil
      have e1 := int_loop ws32 his [] (by simp)
      have hb0 : b = 0 := by
        have : IsWrap fixed32 ((digitsVal 10 ([] : List Nat) : Int) * 2 ^ 16) 0 := ⟨h.zero_in, by simp [digitsVal]⟩
        exact isWrap_unique h.tpos hb this
      have h1 : ¬ i32.hi < 10 ^ ([] : List Nat).length := by decide
      simp only [numeral, Bool.false_eq_true, if_false, List.nil_append, e1]
      by_cases hov : i32.hi < (digitsVal 10 is : Int)
      · rw [if_pos hov, if_pos (Or.inl hov)]; rfl
      · rw [if_neg hov, if_neg (by rintro (hc | hc); exacts [hov hc, h1 hc])]
        have es : shl i32 (digitsVal 10 is : Int) 16 = arith i32 a := by
          unfold shl
          rw [ws32.prom, if_pos (by decide), show i32.wrap ((digitsVal 10 is : Int) * 2 ^ 16) = i32.wrap a from IntTy.wrap_congr ha.2]
          have e1 : i32.wrap a = a := h.wrap_ok ha.1
          have e2 : arith i32 a = .ok a := arith_of_inRange h.tpos ha.1
          rw [e1, e2]
        rw [hb0, Int.zero_tdiv, add_zero, ← hd]
        have e2 : arith i32 a = .ok a := arith_of_inRange h.tpos ha.1
        simp only [Res.bind_ok, okInt, if_true, es, e2, Res.pure_eq, List.map_nil]
    | some ds =>
      subst hfs'
      have epq' : ds = p ++ q' := epq
      have e1 := int_loop ws32 his ('.' :: ds.map (digitOf false)) (fun c cs hc => Or.inl (by simp at hc; exact hc.1.symm))
      have e2 := frac_loop (F := fixed32) ws32 hpd hq hp (cut_T h) [] (by simp)
      rw [← epq', hlim, List.append_nil, List.append_nil] at e2
      have hok : okFrac (q'.map (digitOf false)) = true := by
        cases q' with
        | nil => rfl
        | cons d q => exact isDigit_digitOf hqd.head
      simp only [numeral, Bool.false_eq_true, if_false, List.nil_append, e1]
      by_cases hov : i32.hi < (digitsVal 10 is : Int)
      · rw [if_pos hov, if_pos (Or.inl hov)]; rfl
      · rw [if_neg hov]
        simp only [Res.bind_ok, okInt, decide_true, if_true, e2]
        by_cases hov2 : i32.hi < 10 ^ p.length
        · rw [if_pos hov2, if_pos (Or.inr hov2)]; rfl
        · rw [if_neg hov2, if_neg (by rintro (hc | hc); exacts [hov hc, hov2 hc])]
          simp only [Res.bind_ok, hok, if_true]
          have hsc := scaleParts_arith h (dv := 10 ^ p.length) (by positivity) ha hb
          have hsc' : scaleParts i32 16 (digitsVal 10 is : Int) (digitsVal 10 p : Int) ((10 ^ p.length : Nat) : Int) =
              arith i32 (a + Int.tdiv b ((10 ^ p.length : Nat) : Int)) := hsc
          rw [hsc', ← hd]
          push_cast
          cases arith i32 (a + Int.tdiv b (10 ^ p.length)) <;> rfl
  rw [ioParse_eq _ stop r hs, hbody]
  split
  · rfl
  · unfold delivered
    split
    · split
      · split <;> rfl
      · rfl
    · rfl

example : Used fixed32 [3, 2, 7, 6, 8] [3, 2, 7, 6, 8] ∧ IsWrap fixed32 (digitsVal 10 [0] * 2 ^ fixed32.f) 0 ∧
    IsWrap fixed32 (digitsVal 10 [3, 2, 7, 6, 8] * 2 ^ fixed32.f) (-2147483648) ∧
    delivered fixed32 false (0 + Int.tdiv (-2147483648) (10 ^ 5)) [] = .ok (-21474, []) ∧
    streamIn fixed32 "0.32768".toList 7 = .ok (-21474, []) ∧
    -- an integer part that wraps to the minimum together with a wrapped fraction overflows
    streamIn fixed32 "32768.32768".toList 7 = .ub .overflow ∧ streamIn fixed32 "32768.5".toList 7 = .ok (-32768 * 65536 + 32768, []) ∧
    ioParse "40000;".toList ';' 7 = .ok ([';'], -1673527296) := by
  refine ⟨⟨[], rfl, by simp, ?_⟩, ⟨by decide +kernel, by decide +kernel⟩, ⟨by decide +kernel, by decide +kernel⟩, by decide +kernel, by decide +kernel, by decide +kernel, by decide +kernel, by decide +kernel⟩
  intro p1 d p2 hp
  rcases p1 with _ | ⟨a, _ | ⟨b, _ | ⟨c, _ | ⟨e, _ | ⟨f, p1⟩⟩⟩⟩⟩ <;> simp at hp
  · decide
  · obtain ⟨rfl, -⟩ := hp; decide
  · obtain ⟨rfl, rfl, -⟩ := hp; decide
  · obtain ⟨rfl, rfl, rfl, -⟩ := hp; decide
  · obtain ⟨rfl, rfl, rfl, rfl, -⟩ := hp; decide

end Eirin.Props
