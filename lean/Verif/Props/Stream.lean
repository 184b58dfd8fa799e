import Verif.Props.Parse

/-! # Properties C52 and C53: stream extraction and `io::parse`. -/

namespace Eirin.Props
open Spec

/-! ### C52: `operator>>` -/

theorem intLenient_suffix (W : IntTy) : ∀ (s : List Char) (a v : Int) (left : List Char), intLenient W s a = .ok (v, left) →
    ∃ p, s = p ++ left := by
  intro s
  induction s with
  | nil => intro a v left h; unfold intLenient at h; simp at h; exact ⟨[], by simp [h.2]⟩
  | cons c cs ih =>
    intro a v left h
    unfold intLenient at h
    by_cases h1 : c = '.'
    · rw [if_pos h1] at h; simp at h; exact ⟨[], by simp [h.2]⟩
    · rw [if_neg h1] at h
      cases h2 : isDigit c
      · rw [h2] at h; simp at h; exact ⟨[], by simp [h.2]⟩
      · rw [h2] at h
        simp only [Bool.not_true, Bool.false_eq_true, if_false] at h
        cases h3 : accDigit W a c with
        | ok a' =>
          rw [h3] at h
          obtain ⟨p, hp⟩ := ih a' v left h
          exact ⟨c :: p, by rw [hp]; rfl⟩
        | ub u => rw [h3] at h; simp at h
        | throw e => rw [h3] at h; simp at h

theorem fracLenient_suffix (W : IntTy) (lim : Int) : ∀ (s : List Char) (a b v w : Int) (left : List Char),
    fracLenient W lim s a b = .ok (v, w, left) → ∃ p, s = p ++ left := by
  intro s
  induction s with
  | nil => intro a b v w left h; unfold fracLenient at h; simp at h; exact ⟨[], by simp [h.2.2]⟩
  | cons c cs ih =>
    intro a b v w left h
    unfold fracLenient at h
    by_cases h1 : a > lim ∨ (!isDigit c) = true
    · rw [if_pos h1] at h; simp at h; exact ⟨[], by simp [h.2.2]⟩
    · rw [if_neg h1] at h
      cases h3 : accDigit W a c with
      | ok a' =>
        rw [h3] at h
        simp only [Res.bind_ok] at h
        cases h4 : mulTen W b with
        | ok b' =>
          rw [h4] at h
          obtain ⟨p, hp⟩ := ih a' b' v w left h
          exact ⟨c :: p, by rw [hp]; rfl⟩
        | ub u => rw [h4] at h; simp at h
        | throw e => rw [h4] at h; simp at h
      | ub u => rw [h3] at h; simp at h
      | throw e => rw [h3] at h; simp at h

theorem takeSign_suffix (s : List Char) : ∃ p, s = p ++ (takeSign s).2 := by
  cases s with
  | nil => exact ⟨[], rfl⟩
  | cons c cs =>
    by_cases h : c = '-'
    · exact ⟨['-'], by subst h; rfl⟩
    · exact ⟨[], by unfold takeSign; simp [h]⟩

/-- C52: extraction consumes a prefix of the stream and leaves the rest; at the end of the stream it changes nothing (every type). -/
theorem C52_consumes (F : FxTy) (s : List Char) (old v : Int) (left : List Char) (h : streamIn F s old = .ok (v, left)) :
    (∃ p, s = p ++ left) ∧ (s = [] → v = old) := by
  unfold streamIn at h
  split at h
  · simp at h; exact ⟨⟨[], by simp [h.2]⟩, fun _ => h.1.symm⟩
  · rename_i hne
    refine ⟨?_, fun h0 => absurd h0 hne⟩
    obtain ⟨p0, hp0⟩ := takeSign_suffix s
    generalize takeSign s = ts at h hp0
    obtain ⟨neg, s'⟩ := ts
    simp only at h hp0
    cases h1 : intLenient F.T s' 0 with
    | ub u => rw [h1] at h; simp at h
    | throw e => rw [h1] at h; simp at h
    | ok pr =>
      obtain ⟨ip, rest⟩ := pr
      obtain ⟨p1, hp1⟩ := intLenient_suffix F.T s' 0 ip rest h1
      rw [h1] at h
      simp only [Res.bind_ok] at h
      have fin : ∀ (m : Res (Int × List Char)), (∀ w l, m = .ok (w, l) → ∃ p, rest = p ++ l) →
          (m >>= fun x => if neg = true then (do let n ← Eirin.neg F (fromInternal F x.1); pure (n, x.2)) else pure (fromInternal F x.1, x.2))
            = .ok (v, left) → ∃ p, s = p ++ left := by
        intro m hm he
        cases m with
        | ub u => simp at he
        | throw e => simp at he
        | ok x =>
          obtain ⟨w, l⟩ := x
          obtain ⟨p2, hp2⟩ := hm w l rfl
          have hl : l = left := by
            simp only [Res.bind_ok] at he
            cases neg
            · simp at he; exact he.2
            · simp only [if_true] at he
              cases hn : Eirin.neg F (fromInternal F w) with
              | ok n => rw [hn] at he; simp at he; exact he.2
              | ub u => rw [hn] at he; simp at he
              | throw e => rw [hn] at he; simp at he
          exact ⟨p0 ++ p1 ++ p2, by rw [← hl, List.append_assoc, ← hp2, List.append_assoc, ← hp1]; exact hp0⟩
      refine fin _ ?_ h
      intro w l he
      split at he
      · rename_i cs
        cases hl : limGeneric F with
        | ub u => rw [hl] at he; simp at he
        | throw e => rw [hl] at he; simp at he
        | ok lim =>
          rw [hl] at he
          simp only [Res.bind_ok] at he
          cases h2 : fracLenient F.T lim cs 0 1 with
          | ub u => rw [h2] at he; simp at he
          | throw e => rw [h2] at he; simp at he
          | ok t =>
            obtain ⟨dec, dv, lf⟩ := t
            obtain ⟨p2, hp2⟩ := fracLenient_suffix F.T lim cs 0 1 dec dv lf h2
            rw [h2] at he
            simp only [Res.bind_ok] at he
            cases h3 : scaleParts F.T F.f ip dec dv with
            | ub u => rw [h3] at he; simp at he
            | throw e => rw [h3] at he; simp at he
            | ok z => rw [h3] at he; simp at he; exact ⟨'.' :: p2, by rw [hp2, he.2]; rfl⟩
      · cases h3 : shl F.T ip F.f with
        | ub u => rw [h3] at he; simp at he
        | throw e => rw [h3] at he; simp at he
        | ok z => rw [h3] at he; simp at he; exact ⟨[], by simp [he.2]⟩

/-- C52 as stated, for `fixed32`: a numeral in range followed by white space and another numeral is read with its value (up to the
precision of C47), and a second extraction then reads the second numeral. -/
def C52_statement : Prop :=
  ∀ (neg1 neg2 : Bool) (is1 is2 : List Nat) (fs1 fs2 : Option (List Nat)) (old : Int), Decimal is1 → Decimal is2 →
    Decimal (fracDigits fs1) → Decimal (fracDigits fs2) → is1 ≠ [] → is2 ≠ [] → numeralMag is1 fs1 < 2 ^ 15 → numeralMag is2 fs2 < 2 ^ 15 →
    ∃ v w l l2, streamIn fixed32 (numeral neg1 is1 fs1 ++ ' ' :: numeral neg2 is2 fs2) old = .ok (v, l) ∧ streamIn fixed32 l old = .ok (w, l2) ∧
      |(|val fixed32 v|) - numeralMag is1 fs1| < 8 * ulp fixed32 ∧ |(|val fixed32 w|) - numeralMag is2 fs2| < 8 * ulp fixed32

/-- It does not hold: white space is not skipped, so after reading `1` from `"1 2"` the next extraction yields `0` and stays put. -/
theorem C52_false : ¬ C52_statement := by
  intro h
  have hm : ∀ d : Nat, d < 10 → numeralMag [d] none = d := by
    intro d hd; unfold numeralMag fracDigits; simp [fracVal, digitsVal]
  obtain ⟨v, w, l, l2, e1, e2, -, h2⟩ := h false false [1] [2] none none 0 (by decide) (by decide) (by decide) (by decide) (by decide) (by decide)
    (by rw [hm 1 (by norm_num)]; norm_num) (by rw [hm 2 (by norm_num)]; norm_num)
  have e1' : streamIn fixed32 (numeral false [1] none ++ ' ' :: numeral false [2] none) 0 = .ok (65536, " 2".toList) := by decide +kernel
  rw [e1'] at e1
  have hl : l = " 2".toList := by have := Res.ok.inj e1; simp at this; simp [this.2]
  have e2' : streamIn fixed32 " 2".toList 0 = .ok (0, " 2".toList) := by decide +kernel
  rw [hl, e2'] at e2
  have hw : w = 0 := by have := Res.ok.inj e2; simp at this; exact this.1.symm
  rw [hw, hm 2 (by norm_num), val_zero] at h2
  unfold ulp at h2
  have hf : fixed32.f = 16 := rfl
  rw [hf] at h2
  norm_num at h2

/-- Even the value of a single numeral can be wrong: the fraction is scaled in the 32-bit storage type, so `0.32768` is read as a
negative number; and ten zeros after the point overflow the divisor. -/
theorem C52_wrong_value : streamIn fixed32 "0.32768".toList 0 = .ok (-21474, []) ∧
    streamIn fixed32 "0.0000000000".toList 0 = .ub .overflow ∧ streamIn fixed32 "40000".toList 0 = .ok (-1673527296, []) := by decide +kernel

/-- evaluation of the stream parser on a short numeral -/
theorem stream_numeral {F : FxTy} (h : PS F) (hT : WS F.T) (neg : Bool) {is : List Nat} {fs : Option (List Nat)} (his : Decimal is)
    (hfs : Decimal (fracDigits fs)) (hip : digitsVal 10 is < 2 ^ (F.T.bits - 1 - F.f))
    (hdec : ((digitsVal 10 (fracDigits fs) * 2 ^ F.f : Nat) : Int) ≤ F.T.hi) (hlen : ((10 ^ (fracDigits fs).length : Nat) : Int) ≤ F.T.hi)
    (hlim : digitsVal 10 (fracDigits fs) / 10 ≤ cutLim F) (hcl : ((cutLim F * 10 + 9 : Nat) : Int) ≤ F.T.hi)
    (g : List Char) (hg : ∀ c t, g = c :: t → ¬ DigitChar c ∧ (fs = none → c ≠ '.' ∧ (is = [] → c ≠ '-')))
    (hne : numeral neg is fs ++ g ≠ []) (old : Int) :
    streamIn F (numeral neg is fs ++ g) old =
      .ok (if neg then -(⌊numeralMag is fs * 2 ^ F.f⌋₊ : Int) else ⌊numeralMag is fs * 2 ^ F.f⌋₊, g) := by
  have hfl : ⌊numeralMag is fs * 2 ^ F.f⌋₊ = digitsVal 10 is * 2 ^ F.f + acc 0 (fracDigits fs) * 2 ^ F.f / 10 ^ (fracDigits fs).length := by
    unfold numeralMag; rw [fracVal_eq]; exact floor_split _ _ _ _
  rw [hfl]
  set ds := fracDigits fs with hds
  have hposf : 0 < 2 ^ F.f := by positivity
  have hfracle : acc 0 ds * 2 ^ F.f / 10 ^ ds.length < 2 ^ F.f := by
    rw [Nat.div_lt_iff_lt_mul (by positivity), mul_comm]
    exact Nat.mul_lt_mul_of_pos_left (acc_lt hfs) hposf
  have hraw : ((digitsVal 10 is * 2 ^ F.f + acc 0 ds * 2 ^ F.f / 10 ^ ds.length : Nat) : Int) ≤ F.T.hi := by
    have h1 : digitsVal 10 is * 2 ^ F.f + acc 0 ds * 2 ^ F.f / 10 ^ ds.length < 2 ^ (F.T.bits - 1 - F.f) * 2 ^ F.f := by
      calc _ < (digitsVal 10 is + 1) * 2 ^ F.f := by rw [add_mul, one_mul]; omega
        _ ≤ _ := Nat.mul_le_mul_right _ hip
    have h2 : ((2 ^ (F.T.bits - 1 - F.f) * 2 ^ F.f : Nat) : Int) = F.T.hi + 1 := by rw [hi_succ h.sw]; push_cast; rfl
    have h3 : ((digitsVal 10 is * 2 ^ F.f + acc 0 ds * 2 ^ F.f / 10 ^ ds.length : Nat) : Int) < ((2 ^ (F.T.bits - 1 - F.f) * 2 ^ F.f : Nat) : Int) := by
      exact_mod_cast h1
    omega
  generalize hrawdef : digitsVal 10 is * 2 ^ F.f + acc 0 ds * 2 ^ F.f / 10 ^ ds.length = raw at hraw
  have hshl : ((digitsVal 10 is * 2 ^ F.f : Nat) : Int) ≤ F.T.hi := le_trans (by rw [← hrawdef]; exact_mod_cast Nat.le_add_right _ _) hraw
  have hipT : ((acc 0 is : Nat) : Int) ≤ F.T.hi := le_trans (by
    have : digitsVal 10 is ≤ digitsVal 10 is * 2 ^ F.f := Nat.le_mul_of_pos_right _ hposf
    exact_mod_cast this) hshl
  have hfb : F.f < F.T.bits := by have := h.sw.valid.2.2.2.2.2; have := h.sw.tpos; omega
  have hfin : (if neg = true then (do let n ← Eirin.neg F (fromInternal F raw); pure (n, g)) else pure (fromInternal F raw, g) : Res (Int × List Char)) =
      .ok (if neg then -(raw : Int) else raw, g) := by
    have hin : F.T.InRange raw := hT.nat_in hraw
    have hin' : F.T.InRange (-(raw : Int)) := ⟨by have := h.sw.lo_hi; omega, by have := h.sw.zero_in.2; omega⟩
    rw [h.sw.from_ok hin]
    cases neg
    · rfl
    · rw [if_pos rfl, h.sw.neg_ok hin']; rfl
  have hts : takeSign (numeral neg is fs ++ g) = (neg, numeral false is fs ++ g) := by
    cases neg
    · cases is with
      | cons d is => exact if_neg (digitOf_ne_minus his.head)
      | nil =>
        cases fs with
        | some ds => rfl
        | none =>
          cases g with
          | nil => rfl
          | cons c t => exact if_neg (((hg c t rfl).2 rfl).2 rfl)
    · rfl
  unfold streamIn
  split
  · rename_i h0; exact absurd h0 hne
  rw [hts]
  cases hfs' : fs with
  | none =>
    have hds0 : ds = [] := by rw [hds, hfs']; rfl
    have hr0 : raw = digitsVal 10 is * 2 ^ F.f := by rw [← hrawdef, hds0]; simp
    have e1 : intLenient F.T (is.map (digitOf false) ++ g) 0 = .ok ((digitsVal 10 is : Int), g) := by
      have := hT.intLenient_digits g is 0 his hipT
      rw [Nat.cast_zero] at this
      rw [this]
      cases g with
      | nil => rfl
      | cons c t =>
        have h1 := hg c t rfl
        have h2 : isDigit c = false := by rw [Bool.eq_false_iff]; intro hh; exact h1.1 ((isDigit_iff c).1 hh)
        unfold intLenient
        rw [if_neg (h1.2 hfs').1, h2]; rfl
    simp only [numeral, Bool.false_eq_true, if_false, List.nil_append, List.append_nil, e1, Res.bind_ok]
    have e2 := hT.shl_ok hfb hshl
    rw [← hr0] at e2
    split
    · exact absurd rfl ((hg '.' _ rfl).2 hfs').1
    · simp only [e2, Res.bind_ok, Res.pure_eq]
      exact hfin
  | some fs0 =>
    have hds0 : ds = fs0 := by rw [hds, hfs']; rfl
    rw [← hds0]
    have e1 : intLenient F.T (is.map (digitOf false) ++ '.' :: (ds.map (digitOf false) ++ g)) 0 =
        .ok ((digitsVal 10 is : Int), '.' :: (ds.map (digitOf false) ++ g)) := by
      have := hT.intLenient_digits ('.' :: (ds.map (digitOf false) ++ g)) is 0 his hipT
      rw [Nat.cast_zero] at this
      rw [this]
      unfold intLenient
      rw [if_pos rfl]; rfl
    have hpre : ∀ p d q, ds = p ++ d :: q → acc 0 p ≤ cutLim F := by
      intro p d q hq
      refine le_trans ?_ hlim
      rw [digitsVal_eq_acc, hq, acc_append, acc_cons]
      rw [Nat.le_div_iff_mul_le (by norm_num)]
      exact le_trans (by omega) (le_acc _ q)
    have e2 : fracLenient F.T (cutLim F) (ds.map (digitOf false) ++ g) 0 1 = .ok ((acc 0 ds : Int), ((10 ^ ds.length : Nat) : Int), g) := by
      have := hT.fracLenient_digits (cutLim F) g hcl ds 0 1 hfs hpre (by rw [one_mul]; exact hlen)
      rw [one_mul, Nat.cast_zero, Nat.cast_one] at this
      rw [this]
      cases g with
      | nil => rfl
      | cons c t =>
        have h1 := hg c t rfl
        have h2 : isDigit c = false := by rw [Bool.eq_false_iff]; intro hh; exact h1.1 ((isDigit_iff c).1 hh)
        unfold fracLenient
        rw [if_pos (Or.inr (by rw [h2]; rfl))]
    have hdec' : ((acc 0 ds * 2 ^ F.f : Nat) : Int) ≤ F.T.hi := hdec
    have hsc := hT.scaleParts_ok (ip := digitsVal 10 is) hfb (by positivity : 0 < 10 ^ ds.length) hdec' (by rw [hrawdef]; exact hraw)
    rw [hrawdef] at hsc
    simp only [numeral, Bool.false_eq_true, if_false, List.nil_append, List.append_assoc, List.cons_append, e1, Res.bind_ok, h.limG, e2, hsc,
      Res.pure_eq]
    exact hfin

/-- C52 (partial): a numeral in range with at most four (`fixed32`) or nine (`fixed64`) fraction digits, followed by anything that cannot
continue it, is read exactly: the value is the numeral truncated to a multiple of one ulp, with its sign, and the stream is left at the
first character after the numeral.  Missing from the full statement: longer fractions (`C52_wrong_value`) and white space (`C52_false`). -/
theorem C52_reads_partial (F : FxTy) (hF : F = fixed32 ∨ F = fixed64) (neg : Bool) (is : List Nat) (fs : Option (List Nat)) (his : Decimal is)
    (hfs : Decimal (fracDigits fs)) (hmag : numeralMag is fs < 2 ^ (F.T.bits - 1 - F.f))
    (hlen : (fracDigits fs).length ≤ if F.T.bits = 32 then 4 else 9) (g : List Char)
    (hg : ∀ c t, g = c :: t → ¬ DigitChar c ∧ (fs = none → c ≠ '.' ∧ (is = [] → c ≠ '-'))) (hne : numeral neg is fs ++ g ≠ []) (old : Int) :
    ∃ m : Nat, streamIn F (numeral neg is fs ++ g) old = .ok (if neg then -(m : Int) else m, g) ∧ IsFloor F (numeralMag is fs) m := by
  have hps : PS F := by rcases hF with rfl | rfl; exacts [ps32, ps64]
  have hT : WS F.T := by rcases hF with rfl | rfl; exacts [ws32, ws64]
  have hB : ((2 ^ (F.T.bits - 1 - F.f) : Nat) : ℚ) = 2 ^ (F.T.bits - 1 - F.f) := by push_cast; rfl
  have hd : digitsVal 10 is < 2 ^ (F.T.bits - 1 - F.f) := by
    rw [← hB] at hmag; exact (mag_lt_iff (F := F) is hfs _).1 hmag
  have hk : ∃ K, (fracDigits fs).length ≤ K ∧ ((10 ^ K * 2 ^ F.f : Nat) : Int) ≤ F.T.hi ∧ 10 ^ K / 10 ≤ cutLim F := by
    rcases hF with rfl | rfl
    · exact ⟨4, hlen, by decide +kernel, by decide +kernel⟩
    · exact ⟨9, hlen, by decide +kernel, by decide +kernel⟩
  obtain ⟨K, hK1, hK2, hK3⟩ := hk
  have h10 : digitsVal 10 (fracDigits fs) ≤ 10 ^ K := le_trans (acc_lt hfs).le (Nat.pow_le_pow_right (by norm_num) hK1)
  have hpos : 0 < 2 ^ F.f := by positivity
  have e := stream_numeral hps hT neg his hfs hd
    (le_trans (by exact_mod_cast Nat.mul_le_mul_right _ h10) hK2)
    (le_trans (by exact_mod_cast le_trans (Nat.pow_le_pow_right (by norm_num) hK1) (Nat.le_mul_of_pos_right _ hpos)) hK2)
    (le_trans (Nat.div_le_div_right h10) hK3) (by rcases hF with rfl | rfl <;> decide +kernel) g hg hne old
  refine ⟨_, e, ?_⟩
  have hp : (0 : ℚ) < 2 ^ F.f := by positivity
  have h0 : 0 ≤ numeralMag is fs := by unfold numeralMag; have := fracVal_nonneg (fracDigits fs); positivity
  unfold IsFloor val ulp
  rw [← add_div, div_le_iff₀ hp, lt_div_iff₀ hp]
  exact ⟨by exact_mod_cast Nat.floor_le (by positivity), by exact_mod_cast Nat.lt_floor_add_one _⟩

example : streamIn fixed32 "-12.375;7".toList 0 = .ok (-811008, ";7".toList) ∧ streamIn fixed64 "0.123456789 ".toList 0 = .ok (530242871, " ".toList) ∧
    streamIn fixed32 "".toList 5 = .ok (5, []) ∧ streamIn fixed32 "abc".toList 5 = .ok (0, "abc".toList) := by decide +kernel

/-! ### C53: `io::parse` -/

theorem ioInt_eq (stop : Char) (r : List Char) : ∀ (b : List Char) (a : Int), stop ∉ b →
    ioInt stop (b ++ stop :: r) a = (intStrict i32 b a >>= fun o => .ok (o.map fun x => (x.1, x.2 ++ stop :: r))) := by
  intro b
  induction b with
  | nil => intro a _; rw [List.nil_append]; unfold ioInt; rw [if_pos rfl]; rfl
  | cons c b ih =>
    intro a hs
    rw [List.mem_cons, not_or] at hs
    rw [List.cons_append]
    unfold ioInt intStrict
    rw [if_neg (fun h => hs.1 h.symm)]
    by_cases h1 : c = '.'
    · rw [if_pos h1, if_pos h1]; rfl
    · rw [if_neg h1, if_neg h1]
      cases h2 : isDigit c
      · rfl
      · simp only [Bool.not_true, Bool.false_eq_true, if_false]
        cases h3 : accDigit i32 a c with
        | ok a' => simp only [Res.bind_ok]; exact ih a' hs.2
        | ub u => rfl
        | throw e => rfl

theorem ioFrac_eq (stop : Char) (lim : Int) (r : List Char) : ∀ (b : List Char) (a d : Int), stop ∉ b →
    ioFrac stop lim (b ++ stop :: r) a d = (fracStrict i32 lim b a d >>= fun o => .ok (o.map fun x => (x.1, x.2.1, x.2.2 ++ stop :: r))) := by
  intro b
  induction b with
  | nil => intro a d _; rw [List.nil_append]; unfold ioFrac; rw [if_pos rfl]; rfl
  | cons c b ih =>
    intro a d hs
    rw [List.mem_cons, not_or] at hs
    rw [List.cons_append]
    unfold ioFrac fracStrict
    rw [if_neg (fun h => hs.1 h.symm)]
    cases h2 : isDigit c
    · rfl
    · simp only [Bool.not_true, Bool.false_eq_true, if_false]
      by_cases h1 : a > lim
      · rw [if_pos h1, if_pos h1]; rfl
      · rw [if_neg h1, if_neg h1]
        cases h3 : accDigit i32 a c with
        | ok a' =>
          simp only [Res.bind_ok]
          cases h4 : mulTen i32 d with
          | ok d' => simp only [Res.bind_ok]; exact ih a' d' hs.2
          | ub u => rfl
          | throw e => rfl
        | ub u => rfl
        | throw e => rfl

/-- `io::parse` in terms of the part of the buffer before the terminator: the strict loops of the other parsers, in 32 bits. -/
def ioBody (b : List Char) : Res (Option (Int × List Char)) := do
  let (negative, s) := takeSign b
  match ← intStrict i32 s 0 with
  | none => pure none
  | some (ip, rest) => do
    let value : Res (Option (Int × List Char)) :=
      match rest with
      | '.' :: cs => do
        match ← fracStrict i32 6553 cs 0 1 with
        | none => pure none
        | some (dec, dv, left) => do
          let v ← scaleParts i32 16 ip dec dv
          pure (some (v, left))
      | _ => do
        let v ← shl i32 ip 16
        pure (some (v, rest))
    match ← value with
    | none => pure none
    | some (v, left) => do
      let fp := fromInternal fixed32 v
      if negative then do
        let n ← Eirin.neg fixed32 fp
        pure (some (n, left))
      else pure (some (fp, left))

theorem intStrict_suffix (W : IntTy) {s : List Char} {a v : Int} {left : List Char} (h : intStrict W s a = .ok (some (v, left))) :
    ∃ p, s = p ++ left := by
  rw [intStrict_eq] at h
  cases h1 : intLenient W s a with
  | ok r =>
    rw [h1, Res.bind_ok] at h
    by_cases hk : okInt r.2 = true
    · rw [if_pos hk] at h
      have := Option.some.inj (Res.ok.inj h)
      rw [this] at h1
      exact intLenient_suffix W s a v left h1
    · rw [if_neg hk] at h; simp at h
  | ub u => rw [h1] at h; simp at h
  | throw e => rw [h1] at h; simp at h

theorem fracStrict_suffix (W : IntTy) (lim : Int) {s : List Char} {a b v w : Int} {left : List Char}
    (h : fracStrict W lim s a b = .ok (some (v, w, left))) : ∃ p, s = p ++ left := by
  rw [fracStrict_eq] at h
  cases h1 : fracLenient W lim s a b with
  | ok r =>
    rw [h1, Res.bind_ok] at h
    by_cases hk : okFrac r.2.2 = true
    · rw [if_pos hk] at h
      have := Option.some.inj (Res.ok.inj h)
      rw [this] at h1
      exact fracLenient_suffix W lim s a b v w left h1
    · rw [if_neg hk] at h; simp at h
  | ub u => rw [h1] at h; simp at h
  | throw e => rw [h1] at h; simp at h

theorem ioParse_eq (b : List Char) (stop : Char) (r : List Char) (hs : stop ∉ b) (old : Int) :
    ioParse (b ++ stop :: r) stop old = (ioBody b >>= fun o => .ok (match o with
      | none => (b ++ stop :: r, old)
      | some (v, left) => (left ++ stop :: r, v))) := by
  have hlim : (((1 <<< 16) - 1 : Int) / 10) = 6553 := by decide
  unfold ioParse ioBody
  have hsign : ioHasNext stop (b ++ stop :: r) >>= (fun hn => .ok (if hn then takeSign (b ++ stop :: r) else (false, b ++ stop :: r))) =
      .ok ((takeSign b).1, (takeSign b).2 ++ stop :: r) := by
    cases b with
    | nil => simp [ioHasNext, takeSign]
    | cons c b =>
      rw [List.mem_cons, not_or] at hs
      have : ioHasNext stop (c :: b ++ stop :: r) = .ok true := by
        unfold ioHasNext; simp; exact fun h => hs.1 h.symm
      rw [this, Res.bind_ok, if_pos rfl]
      by_cases hc : c = '-'
      · subst hc; rfl
      · unfold takeSign; simp [hc]
  cases hh : ioHasNext stop (b ++ stop :: r) with
  | ub u => rw [hh] at hsign; simp at hsign
  | throw e => rw [hh] at hsign; simp at hsign
  | ok hn =>
    rw [hh, Res.bind_ok] at hsign
    have hsign := Res.ok.inj hsign
    rw [Res.bind_ok]
    rw [hsign]
    have hs' : stop ∉ (takeSign b).2 := by
      obtain ⟨p, hp⟩ := takeSign_suffix b
      intro hc; apply hs; rw [hp]; exact List.mem_append_right _ hc
    generalize takeSign b = ts at hs'
    obtain ⟨neg, s⟩ := ts
    simp only at hs' ⊢
    rw [ioInt_eq stop r s 0 hs']
    cases h1 : intStrict i32 s 0 with
    | ub u => rfl
    | throw e => rfl
    | ok o =>
      cases o with
      | none => rfl
      | some x =>
        obtain ⟨ip, rest⟩ := x
        simp only [Res.bind_ok, Option.map_some]
        obtain ⟨p, hp⟩ := intStrict_suffix i32 h1
        have hs2 : stop ∉ rest := by
          intro hc; apply hs'; rw [hp]; exact List.mem_append_right _ hc
        cases rest with
        | nil =>
          have : ioHasNext stop ([] ++ stop :: r) = .ok false := by simp [ioHasNext]
          rw [this, Res.bind_ok]
          cases h3 : shl i32 ip 16 with
          | ub u => rfl
          | throw e => rfl
          | ok v =>
            simp only [Res.bind_ok, Res.pure_eq]
            cases neg
            · rfl
            · simp only [if_true]
              cases Eirin.neg fixed32 (fromInternal fixed32 v) <;> rfl
        | cons c cs =>
          rw [List.mem_cons, not_or] at hs2
          have : ioHasNext stop (c :: cs ++ stop :: r) = .ok true := by
            unfold ioHasNext; simp; exact fun h => hs2.1 h.symm
          rw [this, Res.bind_ok]
          by_cases hc : c = '.'
          · subst hc
            simp only [List.cons_append, hlim]
            rw [ioFrac_eq stop 6553 r cs 0 1 hs2.2]
            cases h2 : fracStrict i32 6553 cs 0 1 with
            | ub u => rfl
            | throw e => rfl
            | ok o =>
              cases o with
              | none => rfl
              | some t =>
                obtain ⟨dec, dv, lf⟩ := t
                simp only [Res.bind_ok, Option.map_some]
                cases h3 : scaleParts i32 16 ip dec dv with
                | ub u => rfl
                | throw e => rfl
                | ok v =>
                  simp only [Res.bind_ok, Res.pure_eq]
                  cases neg
                  · rfl
                  · simp only [if_true]
                    cases Eirin.neg fixed32 (fromInternal fixed32 v) <;> rfl
          · exfalso
            rw [intStrict_eq] at h1
            cases h4 : intLenient i32 s 0 with
            | ub u => rw [h4] at h1; simp at h1
            | throw e => rw [h4] at h1; simp at h1
            | ok q =>
              rw [h4, Res.bind_ok] at h1
              by_cases hk : okInt q.2 = true
              · rw [if_pos hk] at h1
                have := Option.some.inj (Res.ok.inj h1)
                rw [this] at hk
                simp [okInt, hc] at hk
              · rw [if_neg hk] at h1; simp at h1

theorem ioBody_suffix {b : List Char} {v : Int} {left : List Char} (h : ioBody b = .ok (some (v, left))) : ∃ p, b = p ++ left := by
  unfold ioBody at h
  obtain ⟨p0, hp0⟩ := takeSign_suffix b
  generalize takeSign b = ts at h hp0
  obtain ⟨neg, s⟩ := ts
  simp only at h hp0
  cases h1 : intStrict i32 s 0 with
  | ub u => rw [h1] at h; simp at h
  | throw e => rw [h1] at h; simp at h
  | ok o =>
    cases o with
    | none => rw [h1] at h; simp at h
    | some x =>
      obtain ⟨ip, rest⟩ := x
      obtain ⟨p1, hp1⟩ := intStrict_suffix i32 h1
      rw [h1] at h
      simp only [Res.bind_ok] at h
      have fin : ∀ (m : Res (Option (Int × List Char))), (∀ w l, m = .ok (some (w, l)) → ∃ p, rest = p ++ l) →
          (m >>= fun o => match o with
            | none => pure none
            | some (v, left) => if neg = true then (do let n ← Eirin.neg fixed32 (fromInternal fixed32 v); pure (some (n, left)))
                else pure (some (fromInternal fixed32 v, left))) = .ok (some (v, left)) → ∃ p, b = p ++ left := by
        intro m hm he
        cases m with
        | ub u => simp at he
        | throw e => simp at he
        | ok x =>
          cases x with
          | none => simp at he
          | some x =>
            obtain ⟨w, l⟩ := x
            obtain ⟨p2, hp2⟩ := hm w l rfl
            have hl : l = left := by
              simp only [Res.bind_ok] at he
              cases neg
              · simp at he; exact he.2
              · simp only [if_true] at he
                cases hn : Eirin.neg fixed32 (fromInternal fixed32 w) with
                | ok n => rw [hn] at he; simp at he; exact he.2
                | ub u => rw [hn] at he; simp at he
                | throw e => rw [hn] at he; simp at he
            exact ⟨p0 ++ p1 ++ p2, by rw [← hl, List.append_assoc, ← hp2, List.append_assoc, ← hp1]; exact hp0⟩
      refine fin _ ?_ h
      intro w l he
      split at he
      · rename_i cs
        cases h2 : fracStrict i32 6553 cs 0 1 with
        | ub u => rw [h2] at he; simp at he
        | throw e => rw [h2] at he; simp at he
        | ok o =>
          cases o with
          | none => rw [h2] at he; simp at he
          | some t =>
            obtain ⟨dec, dv, lf⟩ := t
            obtain ⟨p2, hp2⟩ := fracStrict_suffix i32 6553 h2
            rw [h2] at he
            simp only [Res.bind_ok] at he
            cases h3 : scaleParts i32 16 ip dec dv with
            | ub u => rw [h3] at he; simp at he
            | throw e => rw [h3] at he; simp at he
            | ok z => rw [h3] at he; simp at he; exact ⟨'.' :: p2, by rw [hp2, he.2]; rfl⟩
      · cases h3 : shl i32 ip 16 with
        | ub u => rw [h3] at he; simp at he
        | throw e => rw [h3] at he; simp at he
        | ok z => rw [h3] at he; simp at he; exact ⟨[], by simp [he.2]⟩

/-- C53: on a buffer containing the terminator, whenever `io::parse` returns, either the pointer is the start pointer and the output is
unchanged, or the pointer has moved over characters none of which is the terminator (so it is at or before the first terminator). -/
theorem C53_position (b : List Char) (stop : Char) (r : List Char) (hs : stop ∉ b) (old v : Int) (left : List Char)
    (h : ioParse (b ++ stop :: r) stop old = .ok (left, v)) :
    (left = b ++ stop :: r ∧ v = old) ∨ ∃ p q, b = p ++ q ∧ left = q ++ stop :: r := by
  rw [ioParse_eq b stop r hs] at h
  cases hb : ioBody b with
  | ub u => rw [hb] at h; simp at h
  | throw e => rw [hb] at h; simp at h
  | ok o =>
    rw [hb, Res.bind_ok] at h
    cases o with
    | none => simp at h; exact Or.inl ⟨h.1.symm, h.2.symm⟩
    | some x =>
      obtain ⟨w, q⟩ := x
      obtain ⟨p, hp⟩ := ioBody_suffix hb
      simp at h
      exact Or.inr ⟨p, q, hp, h.1.symm⟩

/-- C53: malformed text (a character other than a digit or the point in the integer part) leaves pointer and output alone, unless the
digits before it overflow `int`; never anything else. -/
theorem C53_bad_integer (neg : Bool) (is : List Nat) (his : Decimal is) (c : Char) (t : List Char) (stop : Char) (r : List Char)
    (hs : stop ∉ (if neg then ['-'] else []) ++ is.map (digitOf false) ++ c :: t) (hc : ¬ DigitChar c) (hdot : c ≠ '.')
    (hsign : neg = false → is = [] → c ≠ '-') (old : Int) :
    let buf := ((if neg then ['-'] else []) ++ is.map (digitOf false) ++ c :: t) ++ stop :: r
    (ioParse buf stop old = .ok (buf, old) ∨ ioParse buf stop old = .ub .overflow) ∧
    (digitsVal 10 is < 2 ^ 31 → ioParse buf stop old = .ok (buf, old)) := by
  have hcd : isDigit c = false := by
    rw [Bool.eq_false_iff]; intro hh; exact hc ((isDigit_iff c).1 hh)
  have key : ∀ a : Int, intLenient i32 (c :: t) a = .ok (a, c :: t) := by
    intro a; unfold intLenient; rw [if_neg hdot, hcd]; rfl
  have hok : okInt (c :: t) = false := by simp [okInt, hdot]
  intro buf
  have hb : ioParse buf stop old = _ := ioParse_eq _ stop r hs old
  unfold ioBody at hb
  rw [takeSign_pre neg is his c t hsign] at hb
  simp only [intStrict_eq] at hb
  constructor
  · rcases intLenient_or ws32 (c :: t) is 0 his with e | e
    · rw [Nat.cast_zero] at e
      left; rw [hb, e, key]; simp only [Res.bind_ok, hok]; rfl
    · rw [Nat.cast_zero] at e
      right; rw [hb, e]; rfl
  · intro hle
    have e := ws32.intLenient_digits (c :: t) is 0 his (by
      have : i32.hi = 2 ^ 31 - 1 := by decide
      rw [this]
      have : ((acc 0 is : Nat) : Int) < 2 ^ 31 := by exact_mod_cast hle
      omega)
    rw [Nat.cast_zero] at e
    rw [hb, e, key]; simp only [Res.bind_ok, hok]; rfl

/-- C53 as stated: a numeral in range before the terminator is read with its value (up to the precision of C47). -/
def C53_statement : Prop :=
  ∀ (neg : Bool) (is : List Nat) (fs : Option (List Nat)) (r : List Char) (old : Int), Decimal is → Decimal (fracDigits fs) →
    numeralMag is fs < 2 ^ 15 → ∃ m : Nat, ∃ left, ioParse (numeral neg is fs ++ '\x00' :: r) '\x00' old = .ok (left, if neg then -(m : Int) else m) ∧
      |val fixed32 m - numeralMag is fs| < 8 * ulp fixed32

/-- It does not hold: `0.32768` is read as a negative number. -/
theorem C53_false : ¬ C53_statement := by
  intro h
  obtain ⟨m, left, e, -⟩ := h false [0] (some [3, 2, 7, 6, 8]) [] 0 (by decide) (by decide) (by
    unfold numeralMag fracDigits; simp only [Option.getD_some, fracVal, digitsVal, List.foldl]; norm_num)
  have e2 : ioParse (numeral false [0] (some [3, 2, 7, 6, 8]) ++ '\x00' :: []) '\x00' 0 = .ok (['\x00'], -21474) := by decide +kernel
  rw [e2] at e
  have := Res.ok.inj e
  simp at this

theorem ioBody_of_stream {b : List Char} (hb : b ≠ []) {old v : Int} (h : streamIn fixed32 b old = .ok (v, [])) :
    ioBody b = .ok (some (v, [])) := by
  unfold streamIn at h
  unfold ioBody
  split at h
  · rename_i h0; exact absurd rfl hb
  generalize takeSign b = ts at h ⊢
  obtain ⟨neg, s⟩ := ts
  have eT : fixed32.T = i32 := rfl
  have ef : fixed32.f = 16 := rfl
  have el : limGeneric fixed32 = .ok 6553 := by decide +kernel
  simp only [eT, ef, el, Res.bind_ok] at h
  simp only [intStrict_eq, fracStrict_eq]
  cases h1 : intLenient i32 s 0 with
  | ub u => rw [h1] at h; simp at h
  | throw e => rw [h1] at h; simp at h
  | ok x =>
    obtain ⟨ip, rest⟩ := x
    rw [h1] at h
    simp only [Res.bind_ok] at h ⊢
    have fin : ∀ (w : Int) (l : List Char), (if neg = true then (do let n ← Eirin.neg fixed32 (fromInternal fixed32 w); pure (n, l))
          else pure (fromInternal fixed32 w, l) : Res (Int × List Char)) = .ok (v, []) →
        l = [] ∧ (if neg = true then (do let n ← Eirin.neg fixed32 (fromInternal fixed32 w); pure (some (n, l)))
          else pure (some (fromInternal fixed32 w, l)) : Res (Option (Int × List Char))) = .ok (some (v, [])) := by
      intro w l he
      cases neg
      · simp at he ⊢; exact ⟨he.2, he⟩
      · simp only [if_true] at he ⊢
        cases hn : Eirin.neg fixed32 (fromInternal fixed32 w) with
        | ok n => rw [hn] at he; simp at he ⊢; exact ⟨he.2, he⟩
        | ub u => rw [hn] at he; simp at he
        | throw e => rw [hn] at he; simp at he
    by_cases hd : ∃ cs, rest = '.' :: cs
    · obtain ⟨cs, rfl⟩ := hd
      simp only [okInt, decide_true, if_true] at h ⊢
      cases h2 : fracLenient i32 6553 cs 0 1 with
      | ub u => rw [h2] at h; simp at h
      | throw e => rw [h2] at h; simp at h
      | ok t =>
        obtain ⟨dec, dv, lf⟩ := t
        rw [h2] at h
        simp only [Res.bind_ok] at h ⊢
        cases h3 : scaleParts i32 16 ip dec dv with
        | ub u => rw [h3] at h; simp at h
        | throw e => rw [h3] at h; simp at h
        | ok w =>
          rw [h3] at h
          simp only [Res.bind_ok, Res.pure_eq] at h
          obtain ⟨hl, hv⟩ := fin w lf h
          subst hl
          simp only [okFrac, if_true, h3, Res.bind_ok, Res.pure_eq]
          exact hv
    · split at h
      · exact absurd ⟨_, rfl⟩ hd
      cases h3 : shl i32 ip 16 with
      | ub u => rw [h3] at h; simp at h
      | throw e => rw [h3] at h; simp at h
      | ok w =>
        rw [h3] at h
        simp only [Res.bind_ok, Res.pure_eq] at h
        obtain ⟨hl, hv⟩ := fin w rest h
        subst hl
        simp only [okInt, if_true, h3, Res.bind_ok, Res.pure_eq]
        exact hv

/-- C53 (partial): a numeral in range with at most four fraction digits, directly before the terminator, is read as the numeral
truncated to a multiple of one ulp, and the returned pointer is at the terminator. Missing: longer fractions (`C53_false`). -/
theorem C53_value_partial (neg : Bool) (is : List Nat) (fs : Option (List Nat)) (his : Decimal is) (hfs : Decimal (fracDigits fs))
    (hmag : numeralMag is fs < 2 ^ 15) (hlen : (fracDigits fs).length ≤ 4) (stop : Char) (hst : ¬ DigitChar stop ∧ stop ≠ '.' ∧ stop ≠ '-')
    (r : List Char) (old : Int) :
    ∃ m : Nat, ioParse (numeral neg is fs ++ stop :: r) stop old = .ok (stop :: r, if neg then -(m : Int) else m) ∧
      IsFloor fixed32 (numeralMag is fs) m := by
  have hnot : ∀ ds : List Nat, Decimal ds → stop ∉ ds.map (digitOf false) := by
    intro ds hds hc
    obtain ⟨d, hd, he⟩ := List.mem_map.1 hc
    apply hst.1
    rw [← he]
    exact (isDigit_iff _).1 (isDigit_digitOf (hds d hd))
  have hs : stop ∉ numeral neg is fs := by
    unfold numeral
    rw [List.mem_append, List.mem_append, not_or, not_or]
    refine ⟨?_, hnot is his, ?_⟩
    · cases neg
      · simp
      · simp; exact hst.2.2
    · cases fs with
      | none => simp
      | some ds => rw [List.mem_cons, not_or]; exact ⟨hst.2.1, hnot ds hfs⟩
  rw [ioParse_eq _ stop r hs]
  by_cases hne : numeral neg is fs = []
  · refine ⟨0, ?_, ?_⟩
    · rw [hne]; cases neg <;> rfl
    · have h1 : is = [] ∧ fs = none := by
        unfold numeral at hne
        simp only [List.append_eq_nil_iff, List.map_eq_nil_iff] at hne
        refine ⟨hne.2.1, ?_⟩
        cases fs with
        | none => rfl
        | some ds => simp at hne
      rw [h1.1, h1.2]
      unfold numeralMag fracDigits IsFloor val ulp
      simp [digitsVal, fracVal]
  · obtain ⟨m, e, hm⟩ := C52_reads_partial fixed32 (Or.inl rfl) neg is fs his hfs hmag hlen [] (by simp) (by rw [List.append_nil]; exact hne) old
    rw [List.append_nil] at e
    refine ⟨m, ?_, hm⟩
    rw [ioBody_of_stream hne e]; rfl

example : ioParse "-12.375,9".toList ',' 5 = .ok (",9".toList, -811008) ∧ ioParse "12x\x00".toList '\x00' 5 = .ok ("12x\x00".toList, 5) ∧
    ioParse "7\x00".toList '\x00' 5 = .ok (['\x00'], 458752) ∧
    -- the loops compare characters, not positions: without the terminator the buffer is overrun
    ioParse "12".toList ';' 5 = .ub .bounds ∧ ioParseView "1.5".toList [] 5 = .ub .bounds ∧
    ioParseView "1.5".toList "5".toList 5 = .ok ("55".toList, 65536) := by decide +kernel

end Eirin.Props
