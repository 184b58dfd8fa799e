import Verif.Props.Stream
import Verif.Model.Istream

/-! # Property C95: the state of the stream after `operator>>`, and characters outside ASCII. -/

namespace Eirin.Props
open Spec

/-- The characters of an ASCII text as `CharT` values. -/
def units (s : List Char) : List Int := s.map fun c => (c.toNat : Int)

/-- ASCII text: the same in signed and unsigned `char` and in `wchar_t`. -/
def Ascii (s : List Char) : Prop := ∀ c ∈ s, c.toNat < 128

@[simp] theorem units_nil : units [] = [] := rfl
@[simp] theorem units_cons (c : Char) (s : List Char) : units (c :: s) = (c.toNat : Int) :: units s := rfl
theorem units_append (s t : List Char) : units (s ++ t) = units s ++ units t := List.map_append
theorem units_length (s : List Char) : (units s).length = s.length := List.length_map _

theorem char_eq_iff (c d : Char) : c = d ↔ (c.toNat : Int) = (d.toNat : Int) := by
  constructor
  · intro h; rw [h]
  · intro h; exact Char.toNat_inj.1 (by omega)

theorem unit_dot (c : Char) : (c.toNat : Int) = 46 ↔ c = '.' := by
  rw [char_eq_iff c '.']; rfl
theorem unit_minus (c : Char) : (c.toNat : Int) = 45 ↔ c = '-' := by
  rw [char_eq_iff c '-']; rfl

theorem isdigitC_char (c : Char) (h : c.toNat < 128) : isdigitC (c.toNat : Int) = .ok (isDigit c) := by
  unfold isdigitC isDigit
  rw [if_pos (by omega)]
  congr 1
  exact decide_eq_decide.2 (by omega)

theorem accUnit_char (W : IntTy) (a : Int) (c : Char) (h : isDigit c = true) : accUnit W a (c.toNat : Int) = accDigit W a c := by
  unfold isDigit at h
  have h' := of_decide_eq_true h
  unfold accUnit accDigit digitVal
  have e : arith i32 ((c.toNat : Int) - 48) = .ok ((c.toNat : Int) - 48) := by
    apply arith_of_inRange (by decide)
    unfold IntTy.InRange IntTy.lo IntTy.hi
    simp only [if_true]
    norm_num
    omega
  rw [e]
  rfl

/-! ### The two loops agree with the ones of `streamIn` -/

theorem extractInt_ascii (W : IntTy) : ∀ (s : List Char) (n : Nat) (a : Int), Ascii s → s.length < n →
    extractInt W n ⟨units s, false, false⟩ a =
      (intLenient W s a >>= fun r => .ok (r.1, ⟨units r.2, r.2.isEmpty, false⟩)) := by
  intro s
  induction s with
  | nil =>
    intro n a _ hn
    obtain ⟨m, rfl⟩ : ∃ m, n = m + 1 := ⟨n - 1, by simp at hn; omega⟩
    rfl
  | cons c cs ih =>
    intro n a hs hn
    obtain ⟨m, rfl⟩ : ∃ m, n = m + 1 := ⟨n - 1, by simp at hn; omega⟩
    have hc : c.toNat < 128 := hs c (by simp)
    unfold extractInt intLenient
    have h1 : (⟨units (c :: cs), false, false⟩ : IStr).hasNext = (true, ⟨units (c :: cs), false, false⟩) := rfl
    have h2 : (⟨units (c :: cs), false, false⟩ : IStr).peek = (some (c.toNat : Int), ⟨units (c :: cs), false, false⟩) := rfl
    have h3 : (⟨units (c :: cs), false, false⟩ : IStr).get = (some (c.toNat : Int), ⟨units cs, false, false⟩) := rfl
    simp only [h1, h2, h3, unitOf, Option.getD_some, Bool.not_true, Bool.false_eq_true, if_false, unit_dot]
    by_cases hd : c = '.'
    · simp [hd]
    · simp only [hd, if_false, isdigitC_char c hc, Res.bind_ok]
      cases hg : isDigit c with
      | false => simp
      | true =>
        simp only [Bool.not_true, Bool.false_eq_true, if_false, accUnit_char W a c hg]
        cases ha : accDigit W a c with
        | ub u => rfl
        | throw e => rfl
        | ok a' =>
          simp only [Res.bind_ok]
          exact ih m a' (fun d hd => hs d (by simp [hd])) (by simp at hn; omega)

theorem extractFrac_ascii (W : IntTy) (lim : Int) : ∀ (s : List Char) (n : Nat) (a b : Int), Ascii s → s.length < n →
    extractFrac W lim n ⟨units s, false, false⟩ a b =
      (fracLenient W lim s a b >>= fun r => .ok (r.1, r.2.1, ⟨units r.2.2, r.2.2.isEmpty, false⟩)) := by
  intro s
  induction s with
  | nil =>
    intro n a b _ hn
    obtain ⟨m, rfl⟩ : ∃ m, n = m + 1 := ⟨n - 1, by simp at hn; omega⟩
    rfl
  | cons c cs ih =>
    intro n a b hs hn
    obtain ⟨m, rfl⟩ : ∃ m, n = m + 1 := ⟨n - 1, by simp at hn; omega⟩
    have hc : c.toNat < 128 := hs c (by simp)
    unfold extractFrac fracLenient
    have h1 : (⟨units (c :: cs), false, false⟩ : IStr).hasNext = (true, ⟨units (c :: cs), false, false⟩) := rfl
    have h2 : (⟨units (c :: cs), false, false⟩ : IStr).peek = (some (c.toNat : Int), ⟨units (c :: cs), false, false⟩) := rfl
    have h3 : (⟨units (c :: cs), false, false⟩ : IStr).get = (some (c.toNat : Int), ⟨units cs, false, false⟩) := rfl
    simp only [h1, h2, h3, unitOf, Option.getD_some, Bool.not_true, Bool.false_eq_true, if_false]
    by_cases hd : a > lim
    · simp [hd]
    · simp only [hd, if_false, isdigitC_char c hc, Res.bind_ok, false_or]
      cases hg : isDigit c with
      | false => simp
      | true =>
        simp only [Bool.not_true, Bool.false_eq_true, if_false, accUnit_char W a c hg]
        cases ha : accDigit W a c with
        | ub u => rfl
        | throw e => rfl
        | ok a' =>
          simp only [Res.bind_ok]
          cases hb : mulTen W b with
          | ub u => rfl
          | throw e => rfl
          | ok b' =>
            simp only [Res.bind_ok]
            exact ih m a' b' (fun d hd => hs d (by simp [hd])) (by simp at hn; omega)

theorem intLenient_prefix (W : IntTy) : ∀ (s : List Char) (a v : Int) (left : List Char), intLenient W s a = .ok (v, left) →
    ∃ p, s = p ++ left ∧ ∀ c ∈ p, isDigit c = true := by
  intro s
  induction s with
  | nil => intro a v left h; unfold intLenient at h; simp at h; exact ⟨[], by simp [h.2]⟩
  | cons c cs ih =>
    intro a v left h
    unfold intLenient at h
    by_cases h1 : c = '.'
    · rw [if_pos h1] at h; simp at h; exact ⟨[], by simp [h.2]⟩
    · rw [if_neg h1] at h
      cases h2 : isDigit c
      · rw [h2] at h; simp at h; exact ⟨[], by simp [h.2]⟩
      · rw [h2] at h
        simp only [Bool.not_true, Bool.false_eq_true, if_false] at h
        cases h3 : accDigit W a c with
        | ok a' =>
          rw [h3] at h
          obtain ⟨p, hp, hd⟩ := ih a' v left h
          refine ⟨c :: p, by rw [hp]; rfl, ?_⟩
          intro d hdm
          rcases List.mem_cons.1 hdm with rfl | hm
          · exact h2
          · exact hd d hm
        | ub u => rw [h3] at h; simp at h
        | throw e => rw [h3] at h; simp at h

theorem not_digit_dot : isDigit '.' = false := by decide

/-- `failbit` after an extraction from a good stream with the ASCII text `s`, of which `left` is not consumed: set exactly when everything
was consumed and there was no decimal point. -/
def failAfter (s left : List Char) : Bool := left.isEmpty && !s.isEmpty && !decide ('.' ∈ s)

theorem zero_inRange (t : IntTy) : t.InRange 0 := by
  unfold IntTy.InRange IntTy.lo IntTy.hi
  have h1 : (1 : Int) ≤ 2 ^ (t.bits - 1) := one_le_pow₀ (by norm_num)
  have h2 : (1 : Int) ≤ 2 ^ t.bits := one_le_pow₀ (by norm_num)
  split <;> omega

theorem Ascii.tail {c : Char} {s : List Char} (h : Ascii (c :: s)) : Ascii s := fun d hd => h d (by simp [hd])
theorem Ascii.suffix {p s : List Char} (h : Ascii (p ++ s)) : Ascii s := fun d hd => h d (by simp [hd])

/-- The whole operator agrees with `streamIn`; the state bits come out as described. -/
theorem extract_ascii (F : FxTy) (s : List Char) (hs : Ascii s) (old : Int) :
    extract F ⟨units s, false, false⟩ old =
      (streamIn F s old >>= fun r => .ok (r.1, ⟨units r.2, r.2.isEmpty, failAfter s r.2⟩)) := by
  cases s with
  | nil => rfl
  | cons c cs =>
    unfold extract streamIn
    have h1 : (⟨units (c :: cs), false, false⟩ : IStr).hasNext = (true, ⟨units (c :: cs), false, false⟩) := rfl
    have h2 : (⟨units (c :: cs), false, false⟩ : IStr).peek = (some (c.toNat : Int), ⟨units (c :: cs), false, false⟩) := rfl
    have h3 : (⟨units (c :: cs), false, false⟩ : IStr).get = (some (c.toNat : Int), ⟨units cs, false, false⟩) := rfl
    simp only [h1, h2, h3, unitOf, Option.getD_some, Bool.not_true, Bool.false_eq_true, if_false, unit_minus]
    -- the sign
    have hsg : takeSign (c :: cs) = (decide (c = '-'), if c = '-' then cs else c :: cs) := by
      unfold takeSign
      by_cases h : c = '-' <;> simp [h]
    have hst : (if (decide (c = '-')) = true then (⟨units cs, false, false⟩ : IStr) else ⟨units (c :: cs), false, false⟩) =
        ⟨units (if c = '-' then cs else c :: cs), false, false⟩ := by
      by_cases h : c = '-' <;> simp [h]
    rw [hst, hsg]
    generalize hneg : decide (c = '-') = neg
    generalize ht : (if c = '-' then cs else c :: cs) = t
    have hta : Ascii t := by
      rw [← ht]
      by_cases h : c = '-'
      · rw [if_pos h]; exact hs.tail
      · rw [if_neg h]; exact hs
    have htd : '.' ∈ (c :: cs) ↔ '.' ∈ t := by
      rw [← ht]
      by_cases h : c = '-'
      · rw [if_pos h, h]; simp
      · rw [if_neg h]
    rw [extractInt_ascii F.T t _ 0 hta (by rw [units_length]; omega)]
    cases hi : intLenient F.T t 0 with
    | ub u => rfl
    | throw e => rfl
    | ok pr =>
      obtain ⟨ip, rest⟩ := pr
      obtain ⟨p, hp, hpd⟩ := intLenient_prefix F.T t 0 ip rest hi
      have hdotp : '.' ∉ p := fun hm => by have := hpd _ hm; rw [not_digit_dot] at this; exact absurd this (by decide)
      simp only [Res.bind_ok]
      cases rest with
      | nil =>
        have hf : failAfter (c :: cs) [] = true := by
          unfold failAfter
          have : '.' ∉ (c :: cs) := by rw [htd, hp]; simpa using hdotp
          simp [this]
        have hf' : failAfter (c :: cs) [] = true := hf
        simp only [show (([] : List Char).isEmpty) = true from rfl, units_nil]
        have e2 : (⟨[], true, false⟩ : IStr).hasNext = (false, ⟨[], true, true⟩) := rfl
        simp only [e2, Bool.false_eq_true, if_false]
        cases hsh : shl F.T ip F.f with
        | ub u => rfl
        | throw e => rfl
        | ok v =>
          simp only [Res.bind_ok, Res.pure_eq]
          cases neg with
          | false => simp [hf']
          | true =>
            simp only [if_true]
            cases hn : Eirin.neg F (fromInternal F v) with
            | ub u => rfl
            | throw e => rfl
            | ok n => simp [hf']
      | cons d ds =>
        have e1 : (⟨units (d :: ds), (d :: ds).isEmpty, false⟩ : IStr).hasNext = (true, ⟨units (d :: ds), false, false⟩) := rfl
        have e2 : (⟨units (d :: ds), false, false⟩ : IStr).peek = (some (d.toNat : Int), ⟨units (d :: ds), false, false⟩) := rfl
        simp only [e1, e2, if_true, Option.getD_some, unit_dot]
        by_cases hd : d = '.'
        · subst hd
          have e3 : (⟨units ('.' :: ds), false, false⟩ : IStr).get.2 = ⟨units ds, false, false⟩ := rfl
          simp only [decide_true, if_true, e3]
          have hds : Ascii ds := by rw [hp] at hta; exact hta.suffix.tail
          cases hl : limGeneric F with
          | ub u => rfl
          | throw e => rfl
          | ok lim =>
            simp only [Res.bind_ok]
            rw [extractFrac_ascii F.T lim ds _ 0 1 hds (by rw [units_length]; omega)]
            cases hfr : fracLenient F.T lim ds 0 1 with
            | ub u => rfl
            | throw e => rfl
            | ok q =>
              obtain ⟨dec, dv, left⟩ := q
              have hf : failAfter (c :: cs) left = false := by
                unfold failAfter
                have : '.' ∈ (c :: cs) := by rw [htd, hp]; simp
                simp [this]
              simp only [Res.bind_ok]
              cases hsp : scaleParts F.T F.f ip dec dv with
              | ub u => rfl
              | throw e => rfl
              | ok v =>
                simp only [Res.bind_ok, Res.pure_eq]
                cases neg with
                | false => simp [hf]
                | true =>
                  simp only [if_true]
                  cases hn : Eirin.neg F (fromInternal F v) with
                  | ub u => rfl
                  | throw e => rfl
                  | ok n => simp [hf]
        · simp only [hd, decide_false, Bool.false_eq_true, if_false]
          cases neg with
          | false =>
            simp only [Bool.false_eq_true, if_false]
            split
            · rename_i h; exact absurd (List.cons.inj h).1 hd
            · cases hsh : shl F.T ip F.f with
              | ub u => rfl
              | throw e => rfl
              | ok v => simp [failAfter]
          | true =>
            simp only [if_true]
            split
            · rename_i h; exact absurd (List.cons.inj h).1 hd
            · cases hsh : shl F.T ip F.f with
              | ub u => rfl
              | throw e => rfl
              | ok v =>
                simp only [Res.bind_ok, Res.pure_eq]
                cases hn : Eirin.neg F (fromInternal F v) with
                | ub u => rfl
                | throw e => rfl
                | ok n => simp [failAfter]

/-! ### The property -/

/-- A decimal digit. -/
def DigitUnit (c : Char) : Prop := 48 ≤ c.toNat ∧ c.toNat ≤ 57

/-- The text begins with an unsigned numeral: a digit, or a point and a digit. -/
def BeginsUnsigned : List Char → Prop
  | c :: d :: _ => DigitUnit c ∨ c = '.' ∧ DigitUnit d
  | [c] => DigitUnit c
  | [] => False

/-- The text begins with a numeral. -/
def BeginsNumeral (s : List Char) : Prop := BeginsUnsigned s ∨ ∃ t, s = '-' :: t ∧ BeginsUnsigned t

/-- C95 as stated: whatever characters a good stream holds, `is >> fp` is defined, and it leaves `failbit` set exactly when the text does not
begin with a numeral (for numbers small enough for the accumulators of `fixed32`: text of at most four characters). -/
def C95_statement : Prop :=
  ∀ (s : List Int) (old : Int), s.length ≤ 4 → (∀ c ∈ s, -128 ≤ c ∧ c ≤ 255) →
    ∃ v st, extract fixed32 ⟨s, false, false⟩ old = .ok (v, st) ∧
      ∀ t : List Char, Ascii t → s = units t → (st.fail = true ↔ ¬ BeginsNumeral t)

/-- It does not hold: reading `12` up to the end of the text succeeds but sets `failbit` (the second `peek` at the end of the stream). -/
theorem C95_false : ¬ C95_statement := by
  intro h
  obtain ⟨v, st, e, hf⟩ := h (units ['1', '2']) 0 (by decide) (by decide)
  have e2 : extract fixed32 ⟨units ['1', '2'], false, false⟩ 0 = .ok (12 * 65536, ⟨[], true, true⟩) := by decide +kernel
  rw [e2] at e
  have := Res.ok.inj e
  simp only [Prod.mk.injEq] at this
  obtain ⟨-, rfl⟩ := this
  have hb : ¬ BeginsNumeral ['1', '2'] := (hf ['1', '2'] (by unfold Ascii; decide) rfl).1 rfl
  exact hb (Or.inl (Or.inl (by unfold DigitUnit; decide)))

/-- C95: four ways in which the state bits mislead.  `12` at the end of the text is read and reported as a failure; `1.5` is read and reported
as a success; `x` is not a numeral, is not consumed, sets the object to zero and is reported as a success; an empty text is reported without
`failbit`. -/
theorem C95_witnesses :
    extract fixed32 ⟨units "12".toList, false, false⟩ 7 = .ok (12 * 65536, ⟨[], true, true⟩) ∧
    extract fixed32 ⟨units "1.5".toList, false, false⟩ 7 = .ok (98304, ⟨[], true, false⟩) ∧
    extract fixed32 ⟨units "x".toList, false, false⟩ 7 = .ok (0, ⟨units "x".toList, false, false⟩) ∧
    extract fixed32 ⟨[], false, false⟩ 7 = .ok (7, ⟨[], true, false⟩) := by decide +kernel

/-- C95 (partial): for every type and every ASCII text in a good stream, the operator gives the value and the rest that `streamIn` describes
(so C52 and C93 apply), `eofbit` is set exactly when the text was used up, and `failbit` exactly when it was used up without a decimal point
having been read.  Missing from the full statement: the report of success is not the intended one (`C95_false`), and characters outside
ASCII can be undefined (`C95_undefined`). -/
theorem C95_state_partial (F : FxTy) (s : List Char) (hs : Ascii s) (old v : Int) (st : IStr) :
    extract F ⟨units s, false, false⟩ old = .ok (v, st) ↔
      ∃ left, streamIn F s old = .ok (v, left) ∧ st.rest = units left ∧ (st.eof = true ↔ left = []) ∧
        (st.fail = true ↔ left = [] ∧ s ≠ [] ∧ '.' ∉ s) := by
  rw [extract_ascii F s hs old]
  have key : ∀ left : List Char, (failAfter s left = true ↔ left = [] ∧ s ≠ [] ∧ '.' ∉ s) := by
    intro left
    unfold failAfter
    simp only [Bool.and_eq_true, Bool.not_eq_true', List.isEmpty_iff, decide_eq_false_iff_not, and_assoc]
    constructor
    · rintro ⟨h1, h2, h3⟩; exact ⟨h1, by intro h; rw [h] at h2; exact absurd h2 (by decide), h3⟩
    · rintro ⟨h1, h2, h3⟩; exact ⟨h1, by cases s with | nil => exact absurd rfl h2 | cons => rfl, h3⟩
  cases hst : streamIn F s old with
  | ub u => simp
  | throw e => simp
  | ok r =>
    obtain ⟨w, left⟩ := r
    simp only [Res.bind_ok, Res.ok.injEq, Prod.mk.injEq]
    constructor
    · rintro ⟨rfl, rfl⟩
      exact ⟨left, ⟨rfl, rfl⟩, rfl, List.isEmpty_iff, key left⟩
    · rintro ⟨l, ⟨rfl, rfl⟩, h1, h2, h3⟩
      refine ⟨rfl, ?_⟩
      obtain ⟨r, e, f⟩ := st
      simp only at h1 h2 h3
      rw [IStr.mk.injEq]
      refine ⟨h1.symm, ?_, ?_⟩
      · rw [Bool.eq_iff_iff, List.isEmpty_iff, h2]
      · rw [Bool.eq_iff_iff, key, h3]
example : extract fixed64 ⟨units "-2.25 7".toList, false, false⟩ 0 = .ok (-9663676416, ⟨units " 7".toList, false, false⟩) := by decide +kernel

/-- C95: undefinedness is the same as well: on ASCII text the operator is undefined exactly when `streamIn` is. -/
theorem C95_ub (F : FxTy) (s : List Char) (hs : Ascii s) (old : Int) (u : UB) :
    extract F ⟨units s, false, false⟩ old = .ub u ↔ streamIn F s old = .ub u := by
  rw [extract_ascii F s hs old]
  cases streamIn F s old with
  | ub w => simp
  | throw e => simp
  | ok r => simp
example : extract fixed32 ⟨units "99999999999".toList, false, false⟩ 0 = .ub .overflow := by decide +kernel

/-- C95: a character that is neither `EOF` nor a value of `unsigned char` (a byte from 0x80 to 0xFE when `char` is signed, a wide character
above 0xFF) at the front of the stream makes the extraction undefined: `isdigit` is called outside its domain. -/
theorem C95_undefined (F : FxTy) (c : Int) (t : List Int) (hc : c < -1 ∨ 255 < c) (old : Int) :
    extract F ⟨c :: t, false, false⟩ old = .ub .precondition := by
  have h1 : (⟨c :: t, false, false⟩ : IStr).hasNext = (true, ⟨c :: t, false, false⟩) := rfl
  have h2 : (⟨c :: t, false, false⟩ : IStr).peek = (some c, ⟨c :: t, false, false⟩) := rfl
  have hi : extractInt F.T ((c :: t).length + 1) ⟨c :: t, false, false⟩ 0 = .ub .precondition := by
    unfold extractInt
    have hd : isdigitC c = .ub .precondition := by unfold isdigitC; rw [if_neg (by omega)]
    have hne : ¬ (c = 46) := by omega
    simp only [h1, h2, unitOf, Option.getD_some, Bool.not_true, Bool.false_eq_true, if_false, hne, hd, Res.bind_ub]
  unfold extract
  have hm : ¬ (c = 45) := by omega
  simp only [h1, h2, unitOf, Option.getD_some, Bool.not_true, Bool.false_eq_true, if_false, hm, decide_false, hi, Res.bind_ub]
/-- the first byte of `é` in UTF-8, as a signed `char` -/
example : extract fixed32 ⟨[-61, -87], false, false⟩ 0 = .ub .precondition := C95_undefined fixed32 (-61) [-87] (by omega) 0

/-- C95: any other first character that cannot begin a numeral — white space included — is left in the stream, and the object becomes zero
without any report: reading `1 2` gives one and zero. -/
theorem C95_not_numeral (F : FxTy) (hF : F.Valid) (c : Int) (t : List Int) (hc : -1 ≤ c ∧ c ≤ 255) (hd : ¬ (48 ≤ c ∧ c ≤ 57)) (hm : c ≠ 45)
    (hp : c ≠ 46) (old : Int) : extract F ⟨c :: t, false, false⟩ old = .ok (0, ⟨c :: t, false, false⟩) := by
  have h1 : (⟨c :: t, false, false⟩ : IStr).hasNext = (true, ⟨c :: t, false, false⟩) := rfl
  have h2 : (⟨c :: t, false, false⟩ : IStr).peek = (some c, ⟨c :: t, false, false⟩) := rfl
  have hi : extractInt F.T ((c :: t).length + 1) ⟨c :: t, false, false⟩ 0 = .ok (0, ⟨c :: t, false, false⟩) := by
    unfold extractInt
    have hd : isdigitC c = .ok false := by unfold isdigitC; rw [if_pos hc, decide_eq_false hd]
    simp only [h1, h2, unitOf, Option.getD_some, Bool.not_true, Bool.false_eq_true, if_false, hp, hd, Res.bind_ok, Bool.not_false, if_true]
  have hs : shl F.T 0 F.f = .ok 0 := by
    obtain ⟨hb, -, -, -, -, hf⟩ := hF
    unfold shl
    have hlt : F.f < F.T.promote.bits := by unfold IntTy.promote; split <;> first | omega | (show _ < 32; omega) | (show (0:Nat) < 32; omega)
    rw [if_pos hlt]
    congr 1
    rw [zero_mul]
    apply IntTy.wrap_of_inRange
    · unfold IntTy.promote; split <;> first | omega | (show _ < 32; omega) | (show (0:Nat) < 32; omega)
    · exact zero_inRange _
  have hz : fromInternal F 0 = 0 := by
    unfold fromInternal
    obtain ⟨hb, -⟩ := hF
    exact IntTy.wrap_of_inRange (by omega) (zero_inRange _)
  unfold extract
  simp only [h1, h2, unitOf, Option.getD_some, Bool.not_true, Bool.false_eq_true, if_false, hm, decide_false, hi, Res.bind_ok, if_true, hp,
    hs, Res.pure_eq, hz]
example : extract fixed32 ⟨units " 2".toList, false, false⟩ 7 = .ok (0, ⟨units " 2".toList, false, false⟩) :=
  C95_not_numeral fixed32 (by decide) 32 [50] (by omega) (by omega) (by omega) (by omega) 7

/-- C95: a stream that already failed (but is not at its end) is not left alone either: the object is set to zero. -/
theorem C95_failed_stream (F : FxTy) (hF : F.Valid) (t : List Int) (old : Int) :
    extract F ⟨t, false, true⟩ old = .ok (0, ⟨t, false, true⟩) := by
  have h1 : (⟨t, false, true⟩ : IStr).hasNext = (true, ⟨t, false, true⟩) := rfl
  have h2 : (⟨t, false, true⟩ : IStr).peek = (none, ⟨t, false, true⟩) := rfl
  have hi : extractInt F.T (t.length + 1) ⟨t, false, true⟩ 0 = .ok (0, ⟨t, false, true⟩) := by
    unfold extractInt
    have hd : isdigitC (-1) = .ok false := by decide
    simp only [h1, h2, unitOf, Option.getD_none, Bool.not_true, Bool.false_eq_true, if_false, show ¬ ((-1 : Int) = 46) by omega, hd,
      Res.bind_ok, Bool.not_false, if_true]
  have hs : shl F.T 0 F.f = .ok 0 := by
    obtain ⟨hb, -, -, -, -, hf⟩ := hF
    unfold shl
    have hlt : F.f < F.T.promote.bits := by unfold IntTy.promote; split <;> first | omega | (show _ < 32; omega) | (show (0:Nat) < 32; omega)
    rw [if_pos hlt]
    congr 1
    rw [zero_mul]
    apply IntTy.wrap_of_inRange
    · unfold IntTy.promote; split <;> first | omega | (show _ < 32; omega) | (show (0:Nat) < 32; omega)
    · exact zero_inRange _
  have hz : fromInternal F 0 = 0 := by
    unfold fromInternal
    obtain ⟨hb, -⟩ := hF
    exact IntTy.wrap_of_inRange (by omega) (zero_inRange _)
  unfold extract
  simp only [h1, h2, unitOf, Option.getD_none, Bool.not_true, Bool.false_eq_true, if_false, show ¬ ((-1 : Int) = 45) by omega,
    show ¬ ((-1 : Int) = 46) by omega, decide_false, hi, Res.bind_ok, if_true, hs, Res.pure_eq, hz]
example : extract fixed64 ⟨units "5".toList, false, true⟩ 7 = .ok (0, ⟨units "5".toList, false, true⟩) :=
  C95_failed_stream fixed64 (by decide) _ 7

end Eirin.Props
