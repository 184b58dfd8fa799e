import Verif.Props.FormatSpec
import Verif.Model.FormatUnits

/-! # C161: format specifications in narrow and wide strings -/

namespace Eirin.Props
open Spec

/-! ### Encodings -/

/-- An encoding of characters as code units in which ASCII characters are encoded as themselves and the units of other characters are no ASCII
values: UTF-8 in `char` (signed or not), UTF-16, UTF-32. -/
structure AsciiCompatible (enc : Char → List Int) : Prop where
  ascii : ∀ c : Char, c.toNat < 128 → enc c = [(c.toNat : Int)]
  nonempty : ∀ c : Char, enc c ≠ []
  high : ∀ c : Char, 128 ≤ c.toNat → ∀ u ∈ enc c, ¬ (0 ≤ u ∧ u < 128)

/-- The code units of a text. -/
def encode (enc : Char → List Int) (s : List Char) : List Int := s.flatMap enc

/-- UTF-32 (`wchar_t` of 32 bits). -/
def utf32 (c : Char) : List Int := [(c.toNat : Int)]

/-- UTF-16 (`wchar_t` of 16 bits). -/
def utf16 (c : Char) : List Int :=
  if c.toNat < 0x10000 then [(c.toNat : Int)]
  else [0xD800 + ((c.toNat - 0x10000) / 0x400 : Nat), 0xDC00 + ((c.toNat - 0x10000) % 0x400 : Nat)]

/-- A byte as a value of a signed `char`. -/
def signedByte (n : Nat) : Int := if n < 128 then n else (n : Int) - 256

/-- UTF-8 in `char`. -/
def utf8 (c : Char) : List Int :=
  (if c.toNat < 0x80 then [c.toNat]
   else if c.toNat < 0x800 then [0xC0 + c.toNat / 0x40, 0x80 + c.toNat % 0x40]
   else if c.toNat < 0x10000 then [0xE0 + c.toNat / 0x1000, 0x80 + c.toNat / 0x40 % 0x40, 0x80 + c.toNat % 0x40]
   else [0xF0 + c.toNat / 0x40000, 0x80 + c.toNat / 0x1000 % 0x40, 0x80 + c.toNat / 0x40 % 0x40, 0x80 + c.toNat % 0x40]).map signedByte

theorem char_lt (c : Char) : c.toNat < 0x110000 := by
  have h := c.valid
  have e : c.toNat = c.val.toNat := rfl
  rw [e]
  rcases h with h | ⟨_, h⟩
  · exact lt_trans h (by decide)
  · exact h

theorem utf32_compatible : AsciiCompatible utf32 := by
  refine ⟨fun c _ => rfl, fun c => by simp [utf32], fun c hc u hu => ?_⟩
  simp only [utf32, List.mem_singleton] at hu
  omega

theorem utf16_compatible : AsciiCompatible utf16 := by
  refine ⟨fun c hc => ?_, fun c => ?_, fun c hc u hu => ?_⟩
  · unfold utf16; rw [if_pos (by omega)]
  · unfold utf16; split <;> simp
  · unfold utf16 at hu
    split at hu
    · simp only [List.mem_singleton] at hu; omega
    · simp only [List.mem_cons, List.not_mem_nil, or_false] at hu
      rcases hu with rfl | rfl <;> omega

theorem signedByte_high {n : Nat} (h : 128 ≤ n) (h' : n < 256) : ¬ (0 ≤ signedByte n ∧ signedByte n < 128) := by
  unfold signedByte; rw [if_neg (by omega)]; omega

theorem utf8_compatible : AsciiCompatible utf8 := by
  refine ⟨fun c hc => ?_, fun c => ?_, fun c hc u hu => ?_⟩
  · unfold utf8; rw [if_pos (by omega)]; simp [signedByte, hc]
  · unfold utf8; split
    · simp
    · split
      · simp
      · split <;> simp
  · have hl := char_lt c
    unfold utf8 at hu
    rw [List.mem_map] at hu
    obtain ⟨n, hn, rfl⟩ := hu
    refine signedByte_high ?_ ?_
    · split at hn
      · omega
      · split at hn
        · simp only [List.mem_cons, List.not_mem_nil, or_false] at hn; rcases hn with rfl | rfl <;> omega
        · split at hn
          · simp only [List.mem_cons, List.not_mem_nil, or_false] at hn; rcases hn with rfl | rfl | rfl <;> omega
          · simp only [List.mem_cons, List.not_mem_nil, or_false] at hn; rcases hn with rfl | rfl | rfl | rfl <;> omega
    · split at hn
      · omega
      · split at hn
        · simp only [List.mem_cons, List.not_mem_nil, or_false] at hn; rcases hn with rfl | rfl <;> omega
        · split at hn
          · simp only [List.mem_cons, List.not_mem_nil, or_false] at hn; rcases hn with rfl | rfl | rfl <;> omega
          · simp only [List.mem_cons, List.not_mem_nil, or_false] at hn; rcases hn with rfl | rfl | rfl | rfl <;> omega

/-! ### Code units read as characters -/

/-- A code unit as a character: ASCII units as themselves, any other as one fixed character outside ASCII. -/
def dec (u : Int) : Char := if 0 ≤ u ∧ u < 128 then Char.ofNat u.toNat else Char.ofNat 128

theorem toNat_ofNat {n : Nat} (h : n < 128) : (Char.ofNat n).toNat = n := by
  interval_cases n <;> rfl

theorem toNat_dec {u : Int} (h : 0 ≤ u ∧ u < 128) : ((dec u).toNat : Int) = u := by
  unfold dec; rw [if_pos h, toNat_ofNat (by omega)]; omega

theorem dec_unit {c : Char} (h : c.toNat < 128) : dec (unit c) = c := by
  unfold dec unit; rw [if_pos (by omega), Int.toNat_natCast, Char.ofNat_toNat]

theorem dec_eq {c : Char} (h : c.toNat < 128) (u : Int) : dec u = c ↔ u = unit c := by
  constructor
  · intro e
    by_cases hu : 0 ≤ u ∧ u < 128
    · rw [← toNat_dec hu, e]; rfl
    · exfalso
      unfold dec at e; rw [if_neg hu] at e
      rw [← e] at h
      revert h; decide
  · rintro rfl; exact dec_unit h

theorem isDig_iff (c : Char) : isDig c = true ↔ 48 ≤ c.toNat ∧ c.toNat ≤ 57 := by
  unfold isDig
  rw [decide_eq_true_iff]
  rfl

theorem isDig_dec (u : Int) : isDig (dec u) = isDigU u := by
  rw [Bool.eq_iff_iff, isDig_iff]
  have e : isDigU u = true ↔ 48 ≤ u ∧ u ≤ 57 := by
    unfold isDigU; rw [decide_eq_true_iff]; rfl
  rw [e]
  by_cases hu : 0 ≤ u ∧ u < 128
  · have := toNat_dec hu; omega
  · have : (dec u).toNat = 128 := by unfold dec; rw [if_neg hu]; rfl
    omega

theorem isAlign_dec (u : Int) : isAlign (dec u) = isAlignU u := by
  unfold isAlign isAlignU
  simp only [dec_eq (show ('<' : Char).toNat < 128 by decide), dec_eq (show ('>' : Char).toNat < 128 by decide),
    dec_eq (show ('^' : Char).toNat < 128 by decide)]

theorem charOf_dec {u : Int} (h : 0 ≤ u ∧ u < 128) : charOf u = dec u := by
  unfold charOf dec; rw [if_pos h]

theorem isAlignU_ascii {u : Int} (h : isAlignU u = true) : 0 ≤ u ∧ u < 128 := by
  unfold isAlignU at h
  simp only [Bool.or_eq_true, decide_eq_true_eq] at h
  rcases h with (rfl | rfl) | rfl <;> decide

/-! ### The steps of the parser read units as characters -/

theorem skipArgId_dec (us : List Int) : skipArgId (us.map dec) = (skipArgIdU us).map dec := by
  have e : isDig ∘ dec = isDigU := by funext u; exact isDig_dec u
  unfold skipArgId skipArgIdU
  rw [List.dropWhile_map, e]
  rcases us.dropWhile isDigU with _ | ⟨a, r⟩
  · rfl
  · simp only [List.map_cons]
    by_cases h : a = unit ':'
    · rw [if_pos h, h, dec_unit (by decide)]; rfl
    · have h' : dec a ≠ ':' := fun c => h ((dec_eq (by decide) a).1 c)
      rw [if_neg h]
      split
      · rename_i heq; exact absurd (List.cons.inj heq).1 h'
      · rfl

theorem parseAlign_dec (us : List Int) (st : FmtState) (hf : st.fill = ' ') :
    parseAlign (us.map dec) st = ((parseAlignU us st).1.map dec,
      { (parseAlignU us st).2.1 with fill := dec (parseAlignU us st).2.2 }) := by
  have e0 : ({ st with fill := dec (unit ' ') } : FmtState) = st := by
    rw [dec_unit (by decide), ← hf]
  have e1 : ∀ a, ({ st with align := a, fill := dec (unit ' ') } : FmtState) = { st with align := a } := by
    intro a; rw [dec_unit (by decide), ← hf]
  match us with
  | [] => simp only [parseAlignU, parseAlign, List.map_nil, e0]
  | [a] =>
    simp only [parseAlignU, parseAlign, List.map_cons, List.map_nil, isAlign_dec]
    by_cases h : isAlignU a = true
    · simp only [h, if_true, charOf_dec (isAlignU_ascii h), e1, List.map_nil]
    · simp only [h, if_false, Bool.false_eq_true, e0, List.map_cons, List.map_nil]
  | a :: b :: r =>
    simp only [parseAlignU, parseAlign, List.map_cons, isAlign_dec]
    by_cases h : isAlignU b = true
    · simp only [h, if_true, charOf_dec (isAlignU_ascii h)]
    · by_cases h' : isAlignU a = true
      · simp only [h, h', if_true, if_false, Bool.false_eq_true, charOf_dec (isAlignU_ascii h'), e1, List.map_cons]
      · simp only [h, h', if_false, Bool.false_eq_true, e0, List.map_cons]

theorem parseSign_dec (us : List Int) (st : FmtState) (c : Char) :
    parseSign (us.map dec) { st with fill := c } = ((parseSignU us st).1.map dec, { (parseSignU us st).2 with fill := c }) := by
  match us with
  | [] => rfl
  | a :: r =>
    simp only [parseSignU, parseSign, List.map_cons, dec_eq (show ('+' : Char).toNat < 128 by decide),
      dec_eq (show ('-' : Char).toNat < 128 by decide), dec_eq (show (' ' : Char).toNat < 128 by decide)]
    by_cases h : a = unit '+' ∨ a = unit '-' ∨ a = unit ' '
    · have hr : 0 ≤ a ∧ a < 128 := by rcases h with rfl | rfl | rfl <;> decide
      simp only [if_pos h, charOf_dec hr]
    · simp only [if_neg h, List.map_cons]

theorem parseAlt_dec (us : List Int) (st : FmtState) (c : Char) :
    parseAlt (us.map dec) { st with fill := c } = ((parseAltU us st).1.map dec, { (parseAltU us st).2 with fill := c }) := by
  match us with
  | [] => rfl
  | a :: r =>
    simp only [parseAltU, parseAlt, List.map_cons, dec_eq (show ('#' : Char).toNat < 128 by decide)]
    by_cases h : a = unit '#'
    · simp only [if_pos h]
    · simp only [if_neg h, List.map_cons]

theorem parseZero_dec (us : List Int) (st : FmtState) (c : Char) :
    parseZero (us.map dec) { st with fill := c } = ((parseZeroU us st).1.map dec, { (parseZeroU us st).2 with fill := c }) := by
  match us with
  | [] => rfl
  | a :: r =>
    simp only [parseZeroU, parseZero, List.map_cons, dec_eq (show ('0' : Char).toNat < 128 by decide)]
    by_cases h : a = unit '0'
    · simp only [if_pos h]
    · simp only [if_neg h, List.map_cons]

theorem parseNum_dec : ∀ (us : List Int) (v : Int), parseNum (us.map dec) v = (fun p => (p.1.map dec, p.2)) <$> parseNumU us v
  | [], v => rfl
  | a :: r, v => by
    simp only [parseNumU, parseNum, List.map_cons, isDig_dec]
    by_cases h : isDigU a = true
    · have hr : 0 ≤ a ∧ a < 128 := by
        unfold isDigU at h; rw [decide_eq_true_iff] at h
        have h1 : unit '0' = 48 := rfl
        have h2 : unit '9' = 57 := rfl
        omega
      rw [if_pos h, if_pos h, toNat_dec hr]
      rcases arith i32 (v * 10) with p | _ | _
      · rw [Res.bind_ok, Res.bind_ok]
        rcases arith i32 (p + (a - 48)) with q | _ | _
        · rw [Res.bind_ok, Res.bind_ok]; exact parseNum_dec r q
        · rfl
        · rfl
      · rfl
      · rfl
    · rw [if_neg h, if_neg h]; rfl

theorem parseWidth_dec (us : List Int) (st : FmtState) (c : Char) :
    parseWidth (us.map dec) { st with fill := c } = (fun p => (p.1.map dec, { p.2 with fill := c })) <$> parseWidthU us st := by
  match us with
  | [] => rfl
  | a :: r =>
    have hn := parseNum_dec (a :: r) 0
    simp only [List.map_cons] at hn
    simp only [parseWidthU, parseWidth, List.map_cons, isDig_dec]
    by_cases h : isDigU a = true
    · rw [if_pos h, if_pos h, hn]
      rcases parseNumU (a :: r) 0 with p | _ | _ <;> rfl
    · rw [if_neg h, if_neg h]; rfl

theorem parsePrec_dec (us : List Int) (st : FmtState) (c : Char) :
    parsePrec (us.map dec) { st with fill := c } = (fun p => (p.1.map dec, { p.2 with fill := c })) <$> parsePrecU us st := by
  match us with
  | [] => rfl
  | a :: r =>
    have hn := parseNum_dec r 0
    simp only [parsePrecU]
    by_cases h : a = unit '.'
    · rw [if_pos h, h, List.map_cons, dec_unit (by decide)]
      simp only [parsePrec]
      rw [hn]
      rcases parseNumU r 0 with p | _ | _ <;> rfl
    · rw [if_neg h]
      have h' : dec a ≠ '.' := fun e => h ((dec_eq (by decide) a).1 e)
      unfold parsePrec
      split
      · rename_i heq; rw [List.map_cons] at heq; exact absurd (List.cons.inj heq).1 h'
      · rfl

theorem fmtTypes_ascii : ∀ c ∈ fmtTypes, c.toNat < 128 := by decide

theorem mem_types_dec (a : Int) : dec a ∈ fmtTypes ↔ a ∈ fmtTypes.map unit := by
  rw [List.mem_map]
  constructor
  · intro h; exact ⟨dec a, h, ((dec_eq (fmtTypes_ascii _ h) a).1 rfl).symm⟩
  · rintro ⟨c, hc, rfl⟩; rw [dec_unit (fmtTypes_ascii _ hc)]; exact hc

theorem parseType_dec (us : List Int) (st : FmtState) (c : Char) :
    parseType (us.map dec) { st with fill := c } = (fun p => (p.1.map dec, { p.2 with fill := c })) <$> parseTypeU us st := by
  match us with
  | [] => rfl
  | a :: r =>
    simp only [parseTypeU, parseType, List.map_cons, mem_types_dec, dec_eq (show ('}' : Char).toNat < 128 by decide)]
    by_cases h : a ∈ fmtTypes.map unit
    · have hr : 0 ≤ a ∧ a < 128 := by
        rw [List.mem_map] at h
        obtain ⟨d, hd, rfl⟩ := h
        have := fmtTypes_ascii d hd
        unfold unit; omega
      simp only [if_pos h, charOf_dec hr]; rfl
    · simp only [if_neg h]
      by_cases h' : a = unit '}'
      · simp only [if_pos h']; rfl
      · simp only [if_neg h']; rfl

/-- Reading the code units as characters, the parser does what the character model does. -/
theorem parseSpec_dec (us : List Int) :
    parseSpec (us.map dec) = (fun p => (p.1.map dec, { p.2.1 with fill := dec p.2.2 })) <$> parseSpecU us := by
  unfold parseSpec parseSpecU
  by_cases h0 : us = []
  · rw [if_pos h0, if_pos (by rw [h0]; rfl), Res.map_ok, dec_unit (by decide)]; rfl
  rw [if_neg h0, if_neg (by rwa [List.map_eq_nil_iff])]
  simp only [skipArgId_dec, List.map_eq_nil_iff]
  by_cases h1 : skipArgIdU us = []
  · rw [if_pos h1, if_pos h1, Res.map_ok, dec_unit (by decide)]; rfl
  rw [if_neg h1, if_neg h1, parseAlign_dec _ _ rfl]
  rcases parseAlignU (skipArgIdU us) {} with ⟨s1, st1, fl⟩
  simp only [parseSign_dec, parseAlt_dec, parseZero_dec, parseWidth_dec]
  rcases parseWidthU _ _ with ⟨s2, st2⟩ | _ | _
  · simp only [Res.map_ok, Res.bind_ok, parsePrec_dec]
    rcases parsePrecU s2 st2 with ⟨s3, st3⟩ | _ | _
    · simp only [Res.map_ok, Res.bind_ok, parseType_dec]
      rcases parseTypeU s3 st3 with ⟨s4, st4⟩ | _ | _ <;> rfl
    · rfl
    · rfl
  · rfl
  · rfl

/-! ### What is left is a suffix -/

theorem skip_suffix (us : List Int) : skipArgIdU us <:+ us := by
  unfold skipArgIdU
  have := List.dropWhile_suffix isDigU (l := us)
  rcases h : us.dropWhile isDigU with _ | ⟨a, r⟩
  · exact List.suffix_rfl
  · rw [h] at this
    simp only
    split
    · exact (List.suffix_cons a r).trans this
    · exact List.suffix_rfl

theorem align_suffix (us : List Int) (st : FmtState) : (parseAlignU us st).1 <:+ us := by
  unfold parseAlignU
  split
  · split
    · exact ⟨[_, _], rfl⟩
    · split
      · exact List.suffix_cons _ _
      · exact List.suffix_rfl
  · split
    · exact List.nil_suffix
    · exact List.suffix_rfl
  · exact List.suffix_rfl

theorem sign_suffix (us : List Int) (st : FmtState) : (parseSignU us st).1 <:+ us := by
  unfold parseSignU
  split
  · split
    · exact List.suffix_cons _ _
    · exact List.suffix_rfl
  · exact List.suffix_rfl

theorem alt_suffix (us : List Int) (st : FmtState) : (parseAltU us st).1 <:+ us := by
  unfold parseAltU
  split
  · split
    · exact List.suffix_cons _ _
    · exact List.suffix_rfl
  · exact List.suffix_rfl

theorem zero_suffix (us : List Int) (st : FmtState) : (parseZeroU us st).1 <:+ us := by
  unfold parseZeroU
  split
  · split
    · exact List.suffix_cons _ _
    · exact List.suffix_rfl
  · exact List.suffix_rfl

theorem num_suffix : ∀ (us : List Int) (v : Int) {r : List Int} {w : Int}, parseNumU us v = .ok (r, w) → r <:+ us
  | [], v, r, w, h => by
    simp only [parseNumU, Res.ok.injEq, Prod.mk.injEq] at h; rw [← h.1]
  | a :: t, v, r, w, h => by
    rw [parseNumU] at h
    split at h
    · rcases h1 : arith i32 (v * 10) with p | _ | _ <;> rw [h1] at h
      · rw [Res.bind_ok] at h
        rcases h2 : arith i32 (p + (a - 48)) with q | _ | _ <;> rw [h2] at h
        · rw [Res.bind_ok] at h
          exact (num_suffix t q h).trans (List.suffix_cons a t)
        · cases h
        · cases h
      · cases h
      · cases h
    · cases h; exact List.suffix_rfl

theorem width_suffix (us : List Int) (st : FmtState) {r : List Int} {st' : FmtState} (h : parseWidthU us st = .ok (r, st')) :
    r <:+ us := by
  unfold parseWidthU at h
  split at h
  · split at h
    · rename_i a t _
      rcases h1 : parseNumU (a :: t) 0 with ⟨s, w⟩ | _ | _ <;> rw [h1] at h
      · cases h; exact num_suffix _ _ h1
      · cases h
      · cases h
    · cases h; exact List.suffix_rfl
  · cases h; exact List.suffix_rfl

theorem prec_suffix (us : List Int) (st : FmtState) {r : List Int} {st' : FmtState} (h : parsePrecU us st = .ok (r, st')) :
    r <:+ us := by
  unfold parsePrecU at h
  split at h
  · split at h
    · rename_i a t _
      rcases h1 : parseNumU t 0 with ⟨s, w⟩ | _ | _ <;> rw [h1] at h
      · cases h; exact (num_suffix _ _ h1).trans (List.suffix_cons a t)
      · cases h
      · cases h
    · cases h; exact List.suffix_rfl
  · cases h; exact List.suffix_rfl

theorem type_suffix (us : List Int) (st : FmtState) {r : List Int} {st' : FmtState} (h : parseTypeU us st = .ok (r, st')) :
    r <:+ us := by
  unfold parseTypeU at h
  split at h
  · split at h
    · cases h; exact List.suffix_cons _ _
    · split at h
      · cases h; exact List.suffix_rfl
      · cases h
  · cases h; exact List.suffix_rfl

theorem spec_suffix (us : List Int) {r : List Int} {st : FmtState} {fl : Int} (h : parseSpecU us = .ok (r, st, fl)) : r <:+ us := by
  unfold parseSpecU at h
  split at h
  · cases h; exact List.nil_suffix
  dsimp only at h
  split at h
  · cases h; exact List.nil_suffix
  have s1 := (align_suffix (skipArgIdU us) {}).trans (skip_suffix us)
  generalize parseAlignU (skipArgIdU us) {} = q at h s1
  rcases q with ⟨u1, st1, f1⟩
  dsimp only at h s1
  have s2 := (zero_suffix _ (parseAltU (parseSignU u1 st1).1 (parseSignU u1 st1).2).2).trans ((alt_suffix _ (parseSignU u1 st1).2).trans ((sign_suffix u1 st1).trans s1))
  rcases h3 : parseWidthU (parseZeroU (parseAltU (parseSignU u1 st1).1 (parseSignU u1 st1).2).1
    (parseAltU (parseSignU u1 st1).1 (parseSignU u1 st1).2).2).1 (parseZeroU (parseAltU (parseSignU u1 st1).1 (parseSignU u1 st1).2).1
    (parseAltU (parseSignU u1 st1).1 (parseSignU u1 st1).2).2).2 with ⟨u3, st3⟩ | _ | _
  · rw [h3, Res.bind_ok] at h
    dsimp only at h
    have s3 := (width_suffix _ _ h3).trans s2
    rcases h4 : parsePrecU u3 st3 with ⟨u4, st4⟩ | _ | _
    · rw [h4, Res.bind_ok] at h
      dsimp only at h
      rcases h5 : parseTypeU u4 st4 with ⟨u5, st5⟩ | _ | _
      · rw [h5, Res.bind_ok] at h
        cases h
        exact (type_suffix _ _ h5).trans ((prec_suffix _ _ h4).trans s3)
      · rw [h5] at h; cases h
      · rw [h5] at h; cases h
    · rw [h4] at h; cases h
    · rw [h4] at h; cases h
  · rw [h3] at h; cases h
  · rw [h3] at h; cases h

/-! ### The text -/

/-- All characters are ASCII. -/
def AllAscii (l : List Char) : Prop := ∀ c ∈ l, c.toNat < 128

theorem AllAscii.append {l m : List Char} (h : AllAscii l) (h' : AllAscii m) : AllAscii (l ++ m) := by
  intro c hc; rcases List.mem_append.1 hc with hc | hc
  · exact h c hc
  · exact h' c hc

theorem AllAscii.cons {c : Char} {l : List Char} (h : c.toNat < 128) (h' : AllAscii l) : AllAscii (c :: l) := by
  intro d hd; rcases List.mem_cons.1 hd with rfl | hd
  · exact h
  · exact h' d hd

theorem ascii_nil : AllAscii [] := by intro c hc; cases hc

theorem AllAscii.replicate {c : Char} (h : c.toNat < 128) (n : Nat) : AllAscii (List.replicate n c) := by
  intro d hd; rw [List.eq_of_mem_replicate hd]; exact h

theorem digitTable_ascii : ∀ up, AllAscii (digitTable up) := by
  unfold AllAscii
  intro up; cases up <;> decide

theorem digitAt_ascii {up : Bool} {d : Int} {c : Char} (h : digitAt up d = .ok c) : c.toNat < 128 := by
  unfold digitAt at h
  split at h
  · cases h
  · split at h
    · cases h; decide
    · split at h
      · rename_i e; cases h
        exact digitTable_ascii up _ (List.mem_of_getElem? e)
      · cases h

theorem digitsLoop_ascii {up : Bool} {b : Int} : ∀ (n : Nat) (u : Int) (acc : List Char) {r : List Char}, AllAscii acc →
    digitsLoop up b n u acc = .ok r → AllAscii r
  | 0, u, acc, r, _, h => by cases h
  | n + 1, u, acc, r, ha, h => by
    rw [digitsLoop] at h
    split at h
    · rcases h1 : digitAt up (u % b) with c | _ | _ <;> rw [h1] at h
      · exact digitsLoop_ascii n _ _ (ha.cons (digitAt_ascii h1)) h
      · cases h
      · cases h
    · cases h; exact ha

theorem intToString_ascii {V : IntTy} {v b : Int} {up : Bool} {r : List Char} (h : intToString V v b up = .ok r) : AllAscii r := by
  unfold intToString at h
  split at h
  · cases h; exact ascii_nil.cons (by decide)
  · rcases h1 : unsignedMag V v with ⟨n, u⟩ | _ | _ <;> rw [h1] at h
    · exact digitsLoop_ascii _ _ _ ascii_nil h
    · cases h
    · cases h

theorem appendSign_ascii (st : FmtState) {s : List Char} (h : AllAscii s) (neg : Bool) : AllAscii (appendSign st s neg) := by
  unfold appendSign
  split
  · refine h.append (ascii_nil.cons ?_); split <;> decide
  · split
    · refine h.append (ascii_nil.cons ?_); split <;> decide
    · split
      · exact h.append (ascii_nil.cons (by decide))
      · exact h

theorem altPrefix_ascii {s : List Char} (h : AllAscii s) (b : Int) (up : Bool) : AllAscii (appendAltPrefix s b up) := by
  unfold appendAltPrefix
  split
  · refine h.append (.cons (by decide) (ascii_nil.cons ?_)); split <;> decide
  · split
    · exact h.append (ascii_nil.cons (by decide))
    · split
      · refine h.append (.cons (by decide) (ascii_nil.cons ?_)); split <;> decide
      · exact h

theorem fracLoop_ascii {F : FxTy} {up : Bool} {e : Int} : ∀ (n : Nat) (bits used : Int) (out : List Char) {r : List Char × Int}, AllAscii out →
    fracLoop F up e n bits used out = .ok r → AllAscii r.1
  | 0, bits, used, out, r, ha, h => by cases h; exact ha
  | n + 1, bits, used, out, r, ha, h => by
    rw [fracLoop] at h
    split at h
    · split at h
      · cases h; exact ha
      · rcases h1 : arith F.P (bits * 10) with s | _ | _ <;> rw [h1] at h
        · rw [Res.bind_ok] at h
          dsimp only at h
          rcases h2 : shr F.T (F.T.wrap s) F.f with d | _ | _ <;> rw [h2] at h
          · rw [Res.bind_ok] at h
            rcases h3 : arith F.P (oneShl F - 1) with m | _ | _ <;> rw [h3] at h
            · rw [Res.bind_ok] at h
              rcases h4 : digitAt up (F.T.wrap d) with c | _ | _ <;> rw [h4] at h
              · rw [Res.bind_ok] at h
                exact fracLoop_ascii n _ _ _ (ha.append (ascii_nil.cons (digitAt_ascii h4))) h
              · cases h
              · cases h
            · cases h
            · cases h
          · cases h
          · cases h
        · cases h
        · cases h
    · cases h; exact ha

theorem padZeros_ascii (u e : Int) {out : List Char} (h : AllAscii out) : AllAscii (padZeros u e out) := by
  unfold padZeros
  split
  · refine AllAscii.append ?_ (.replicate (by decide) _)
    split
    · exact h.append (ascii_nil.cons (by decide))
    · exact h
  · exact h

/-- The text before padding is ASCII. -/
theorem formatBody_ascii {F : FxTy} {st : FmtState} {x : Int} {r : List Char} (h : formatBody F st x = .ok r) : AllAscii r := by
  unfold formatBody at h
  split at h
  · generalize unsignedMag F.T x = q at h
    rcases q with ⟨neg, u⟩ | _ | _
    · rw [Res.bind_ok] at h
      dsimp only at h
      have hb : AllAscii (if st.alt = true then appendAltPrefix (appendSign st [] neg) 16 false else appendSign st [] neg) := by
        split
        · exact altPrefix_ascii (appendSign_ascii st ascii_nil _) _ _
        · exact appendSign_ascii st ascii_nil _
      by_cases hu : u = 0
      · rw [if_pos hu, Res.pure_eq, Res.bind_ok] at h
        cases h; exact hb.append (ascii_nil.cons (by decide))
      · rw [if_neg hu] at h
        rcases h1 : digitsLoop false 16 (F.T.bits + 1) u [] with ds | _ | _ <;> rw [h1] at h
        · cases h; exact hb.append (digitsLoop_ascii _ _ _ ascii_nil h1)
        · cases h
        · cases h
    · cases h
    · cases h
  · generalize fmtMode st.type = q at h
    rcases q with ⟨io, up, b⟩
    dsimp only at h
    generalize integralPart F x = q at h
    rcases q with iv | _ | _
    · rw [Res.bind_ok] at h
      rcases h1 : intToString F.T iv b up with ds | _ | _ <;> rw [h1] at h
      · rw [Res.bind_ok] at h
        have hd := intToString_ascii h1
        have hp : AllAscii (if (st.alt && io && decide (b ≠ 10)) = true then appendAltPrefix (appendSign st [] (signbit F x)) b up
            else appendSign st [] (signbit F x)) := by
          split
          · exact altPrefix_ascii (appendSign_ascii st ascii_nil _) _ _
          · exact appendSign_ascii st ascii_nil _
        generalize (if (st.alt && io && decide (b ≠ 10)) = true then appendAltPrefix (appendSign st [] (signbit F x)) b up
            else appendSign st [] (signbit F x)) = pre at h hp
        split at h
        · cases h
          split
          · exact (hp.append (.replicate (by decide) _)).append hd
          · exact hp.append hd
        · generalize fractionalPart F x = q at h
          rcases q with fr | _ | _
          · rw [Res.bind_ok] at h
            generalize (if (F.T.signed && decide (fr < 0)) = true then do
              let n ← arith F.P (-fr)
              pure (F.T.wrap n)
            else pure fr : Res Int) = q at h
            rcases q with fr' | _ | _
            · rw [Res.bind_ok] at h
              have key : ∀ (bu : List Char × Int), AllAscii bu.1 → ∀ e : Int,
                  AllAscii (if st.type = 'f' ∨ st.type = 'F' then padZeros bu.2 e bu.1 else bu.1) := by
                intro bu hbu e
                split
                · exact padZeros_ascii _ _ hbu
                · exact hbu
              by_cases hf : fr' ≠ 0
              · rw [if_pos hf] at h
                rcases h2 : fracLoop F up (if st.precision < 0 then 6 else st.precision) F.f fr' 0 (pre ++ ds ++ ['.']) with bu | _ | _ <;>
                  rw [h2] at h
                · cases h
                  exact key bu (fracLoop_ascii _ _ _ _ ((hp.append hd).append (ascii_nil.cons (by decide))) h2) _
                · cases h
                · cases h
              · rw [if_neg hf] at h
                cases h
                exact key (pre ++ ds, 0) (hp.append hd) _
            · cases h
            · cases h
          · cases h
          · cases h
      · cases h
      · cases h
    · cases h
    · cases h

/-- `format_to` is the unpadded text, padded. -/
theorem formatTo_body (F : FxTy) (st : FmtState) (x : Int) :
    formatTo F st x = (do let b ← formatBody F st x; pure (outputAligned st b)) := by
  unfold formatTo formatBody formatDebug
  split
  · rcases unsignedMag F.T x with ⟨neg, u⟩ | _ | _
    · simp only [Res.bind_ok]
      by_cases hu : u = 0
      · rw [if_pos hu]; rfl
      · rw [if_neg hu]
        rcases digitsLoop false 16 (F.T.bits + 1) u [] with ds | _ | _ <;> rfl
    · rfl
    · rfl
  · rcases fmtMode st.type with ⟨io, up, b⟩
    dsimp only
    rcases integralPart F x with iv | _ | _
    · simp only [Res.bind_ok]
      rcases intToString F.T iv b up with ds | _ | _
      · simp only [Res.bind_ok]
        cases io
        · simp only [Bool.false_eq_true, if_false]
          rcases fractionalPart F x with fr | _ | _
          · simp only [Res.bind_ok]
            rcases (if (F.T.signed && decide (fr < 0)) = true then do
              let n ← arith F.P (-fr)
              pure (F.T.wrap n)
            else pure fr : Res Int) with fr' | _ | _
            · simp only [Res.bind_ok]
              by_cases hf : fr' ≠ 0
              · rw [if_pos hf]
                rcases fracLoop F up _ F.f fr' 0 _ with bu | _ | _ <;> rfl
              · rw [if_neg hf]; rfl
            · rfl
            · rfl
          · rfl
          · rfl
        · rfl
      · rfl
      · rfl
    · rfl
    · rfl

section
variable {enc : Char → List Int} (h : AsciiCompatible enc)
include h

theorem encode_ascii : ∀ {l : List Char}, AllAscii l → encode enc l = l.map unit
  | [], _ => rfl
  | c :: l, ha => by
    have e : encode enc (c :: l) = enc c ++ encode enc l := rfl
    rw [e, h.ascii c (ha c (by simp)), encode_ascii (fun d hd => ha d (by simp [hd]))]
    rfl

omit h in
theorem encode_replicate {c : Char} {u : Int} (hc : enc c = [u]) : ∀ n, encode enc (List.replicate n c) = List.replicate n u
  | 0 => rfl
  | n + 1 => by
    have e : encode enc (List.replicate (n + 1) c) = enc c ++ encode enc (List.replicate n c) := rfl
    rw [e, hc, encode_replicate hc n]; rfl

theorem aligned_units {st : FmtState} {f : Char} {u : Int} (hf : enc f = [u]) {body : List Char} (hb : AllAscii body) :
    outputAlignedU st u (body.map unit) = encode enc (outputAligned { st with fill := f } body) := by
  have ha : ∀ l m : List Char, encode enc (l ++ m) = encode enc l ++ encode enc m := fun l m => List.flatMap_append
  have hc : enc (if st.zero = true then '0' else f) = [if st.zero = true then unit '0' else u] := by
    split
    · exact h.ascii '0' (by decide)
    · exact hf
  unfold outputAlignedU outputAligned
  simp only [List.length_map]
  split
  · exact (encode_ascii h hb).symm
  · split
    · rw [ha, encode_ascii h hb, encode_replicate hc]
    · split
      · rw [ha, ha, encode_ascii h hb, encode_replicate hc, encode_replicate hc]
      · rw [ha, encode_ascii h hb, encode_replicate hc]

end

/-! ### The property -/

/-- The fill is the character before the alignment: not an ASCII unit, hence neither part of an argument number nor a `:`. -/
theorem fill_unit {a b : Int} {t : List Int} (ha : ¬ (0 ≤ a ∧ a < 128)) (hb : isAlignU b = true) {r : List Int} {st : FmtState} {fl : Int}
    (h : parseSpecU (a :: b :: t) = .ok (r, st, fl)) : fl = a := by
  have hd : isDigU a = false := by
    rw [← isDig_dec]; unfold dec; rw [if_neg ha]; decide
  have hsk : skipArgIdU (a :: b :: t) = a :: b :: t := by
    unfold skipArgIdU
    rw [List.dropWhile_cons_of_neg (by rw [hd]; decide)]
    simp only
    rw [if_neg]
    rintro rfl; exact ha (by decide)
  unfold parseSpecU at h
  rw [if_neg (by simp)] at h
  simp only [hsk, if_neg (show ¬ (a :: b :: t = ([] : List Int)) by simp), parseAlignU, hb, if_true] at h
  generalize parseWidthU _ _ = q at h
  rcases q with ⟨u3, st3⟩ | _ | _
  · rw [Res.bind_ok] at h
    dsimp only at h
    generalize parsePrecU _ _ = q at h
    rcases q with ⟨u4, st4⟩ | _ | _
    · rw [Res.bind_ok] at h
      dsimp only at h
      generalize parseTypeU _ _ = q at h
      rcases q with ⟨u5, st5⟩ | _ | _
      · cases h; rfl
      · cases h
      · cases h
    · cases h
    · cases h
  · cases h
  · cases h

theorem suffix_eq {α : Type} {l a b : List α} (h : a <:+ l) (h' : b <:+ l) (e : a.length = b.length) : a = b := by
  obtain ⟨p, hp⟩ := h
  obtain ⟨q, hq⟩ := h'
  have := hp.trans hq.symm
  exact (List.append_inj' this e).2

/-- A specification without its fill is ASCII. -/
theorem text_ascii {s : FmtSpec} (hs : s.WF) (hf : ∀ f a, s.fillAlign ≠ some (some f, a)) : AllAscii s.text := by
  have hd : ∀ ds : List Nat, Decimal ds → AllAscii (ds.map (digitOf false)) := by
    intro ds hds c hc
    rw [List.mem_map] at hc
    obtain ⟨d, hd, rfl⟩ := hc
    have := hds d hd
    interval_cases d <;> decide
  unfold FmtSpec.text
  refine .append ?_ (.append ?_ (.append ?_ (.append ?_ (.append (hd _ hs.width) (.append ?_ ?_)))))
  · rcases hfa : s.fillAlign with _ | ⟨_ | f, a⟩
    · exact ascii_nil
    · refine ascii_nil.cons ?_
      have := hs.align _ _ hfa
      simp only [List.mem_cons, List.not_mem_nil, or_false] at this
      rcases this with rfl | rfl | rfl <;> decide
    · exact absurd hfa (hf f a)
  · intro c hc
    have := hs.sign c (by simpa using hc)
    simp only [List.mem_cons, List.not_mem_nil, or_false] at this
    rcases this with rfl | rfl | rfl <;> decide
  · split
    · exact ascii_nil.cons (by decide)
    · exact ascii_nil
  · split
    · exact ascii_nil.cons (by decide)
    · exact ascii_nil
  · rcases hp : s.prec with _ | ds
    · exact ascii_nil
    · exact .cons (by decide) (hd _ (hs.prec ds hp).1)
  · intro c hc
    have := hs.type c (by simpa using hc)
    exact fmtTypes_ascii c this

/-- The specification with another fill character. -/
def refill (s : FmtSpec) (f : Char) : FmtSpec := { s with fillAlign := s.fillAlign.map fun p => (p.1.map fun _ => f, p.2) }

theorem refill_wf {s : FmtSpec} (hs : s.WF) (f : Char) : (refill s f).WF := by
  refine ⟨?_, hs.sign, hs.width, hs.width0, hs.widthFits, hs.prec, hs.type⟩
  intro g a h
  rcases hfa : s.fillAlign with _ | ⟨o, a'⟩
  · simp [refill, hfa] at h
  · simp only [refill, hfa, Option.map_some, Option.some.injEq, Prod.mk.injEq] at h
    rw [← h.2]; exact hs.align _ _ hfa

section
variable {enc : Char → List Int} (h : AsciiCompatible enc)
include h

theorem dec_encode_head {rest : List Char} {b : Char} (hb : ((encode enc rest).map dec).head? = some b)
    (hd : b ∈ ['<', '>', '^']) : rest.head? = some b := by
  rcases rest with _ | ⟨c, t⟩
  · simp [encode] at hb
  · have e : encode enc (c :: t) = enc c ++ encode enc t := rfl
    rw [e] at hb
    by_cases hc : c.toNat < 128
    · rw [h.ascii c hc] at hb
      simp only [List.cons_append, List.map_cons, List.head?_cons, Option.some.injEq] at hb ⊢
      rw [← hb]; exact (dec_unit hc).symm
    · exfalso
      rcases hu : enc c with _ | ⟨u, us⟩
      · exact h.nonempty c hu
      · have hh := h.high c (by omega) u (by rw [hu]; simp)
        rw [hu] at hb
        simp only [List.cons_append, List.map_cons, List.head?_cons, Option.some.injEq] at hb
        rw [← hb] at hd
        unfold dec at hd; rw [if_neg hh] at hd
        revert hd; decide

/-- Reading the encoded specification unit by unit. -/
theorem decode_text {s : FmtSpec} (hs : s.WF) {f : Char} {u : Int} (hf : enc f = [u])
    (hfa : ∀ g a, s.fillAlign = some (some g, a) → g = f) : (encode enc s.text).map dec = (refill s (dec u)).text := by
  have hm : ∀ l : List Char, AllAscii l → (encode enc l).map dec = l := by
    intro l hl
    rw [encode_ascii h hl, List.map_map]
    conv_rhs => rw [← List.map_id l]
    refine List.map_congr_left fun c hc => ?_
    have := dec_unit (hl c hc)
    rw [Function.comp_apply, this]; rfl
  have ha := text_ascii (s := { s with fillAlign := none }) ⟨by simp, hs.sign, hs.width, hs.width0, hs.widthFits, hs.prec, hs.type⟩
    (by simp)
  have e : ∀ t : FmtSpec, t.text = (match t.fillAlign with | none => [] | some (none, a) => [a] | some (some f, a) => [f, a]) ++
      ({ t with fillAlign := none } : FmtSpec).text := fun t => rfl
  rw [e s, e (refill s (dec u))]
  have e' : ({ refill s (dec u) with fillAlign := none } : FmtSpec).text = ({ s with fillAlign := none } : FmtSpec).text := rfl
  rw [e']
  unfold encode at hm ⊢
  rw [List.flatMap_append, List.map_append, hm _ ha]
  congr 1
  rcases hq : s.fillAlign with _ | ⟨_ | g, a⟩
  · simp only [refill, hq, Option.map_none]; rfl
  · have hal := hs.align _ _ hq
    have : a.toNat < 128 := by
      simp only [List.mem_cons, List.not_mem_nil, or_false] at hal
      rcases hal with rfl | rfl | rfl <;> decide
    simp only [refill, hq, Option.map_some, Option.map_none]
    exact hm [a] (ascii_nil.cons this)
  · have hal := hs.align _ _ hq
    have ha' : a.toNat < 128 := by
      simp only [List.mem_cons, List.not_mem_nil, or_false] at hal
      rcases hal with rfl | rfl | rfl <;> decide
    have hgf := hfa g a hq
    simp only [refill, hq, Option.map_some]
    rw [hgf]
    have := hm [a] (ascii_nil.cons ha')
    rw [List.flatMap_cons, hf, List.map_append, this]; rfl

end

/-- C161 as stated: in every encoding any fill character is honoured. -/
def C161_statement : Prop :=
  ∀ (enc : Char → List Int), AsciiCompatible enc → ∀ (F : FxTy), F.Valid → ∀ (s : FmtSpec) (rest : List Char), s.WF →
    (∀ f a, s.fillAlign = some (some f, a) → f ∉ [':', '{', '}']) →
    (s.text = [] → ∀ b, rest.head? = some b → b ∉ ['<', '>', '^']) → ∀ x, Storable F x →
    replaceField F (encode enc (s.text ++ '}' :: rest)) x =
      (fun t => (encode enc ('}' :: rest), encode enc t)) <$> formatTo F (fields s) x

/-- C161 when the fill is one code unit in the encoding (and not `:`, see C58): a replacement field in a narrow or wide format string stops
at the `}` and writes the encoding of the text described by C54–C57.  Full statement: `C161_statement`; a longer fill is refuted in `C161_false` and
described in `C161_throws`. -/
theorem C161_units_partial {enc : Char → List Int} (h : AsciiCompatible enc) (F : FxTy) (s : FmtSpec) (rest : List Char) (hs : s.WF)
    (h1 : ∀ f a, s.fillAlign = some (some f, a) → (enc f).length = 1 ∧ f ≠ ':')
    (he : s.text = [] → ∀ b, rest.head? = some b → b ∉ ['<', '>', '^']) (x : Int) :
    replaceField F (encode enc (s.text ++ '}' :: rest)) x =
      (fun t => (encode enc ('}' :: rest), encode enc t)) <$> formatTo F (fields s) x := by
  -- the fill, a blank if there is none
  obtain ⟨f, u, hf, hfa, hfill, hcol⟩ : ∃ f u, enc f = [u] ∧ (∀ g a, s.fillAlign = some (some g, a) → g = f) ∧ (fields s).fill = f ∧
      f ≠ ':' := by
    have hb : ∃ f u, enc f = [u] ∧ ' ' = f ∧ f ≠ ':' := ⟨' ', _, h.ascii ' ' (by decide), rfl, by decide⟩
    rcases hq : s.fillAlign with _ | ⟨_ | g, a⟩
    · obtain ⟨f, u, hb1, hb2, hb3⟩ := hb
      exact ⟨f, u, hb1, by simp, by simp only [fields, hq]; exact hb2, hb3⟩
    · obtain ⟨f, u, hb1, hb2, hb3⟩ := hb
      exact ⟨f, u, hb1, by simp, by simp only [fields, hq]; exact hb2, hb3⟩
    · obtain ⟨u, hu⟩ := List.length_eq_one_iff.1 (h1 g a hq).1
      refine ⟨g, u, hu, ?_, by simp [fields, hq], (h1 g a hq).2⟩
      intro g' a' hg'
      simp only [Option.some.injEq, Prod.mk.injEq] at hg'
      exact hg'.1.symm
  have hdu : f.toNat < 128 → u = unit f ∧ dec u = f := by
    intro hlt
    have := h.ascii f hlt
    rw [hf] at this
    have hu : u = unit f := by injection this
    exact ⟨hu, by rw [hu, dec_unit hlt]⟩
  have hdc : dec u ≠ ':' := by
    by_cases hlt : f.toNat < 128
    · rw [(hdu hlt).2]; exact hcol
    · have := h.high f (by omega) u (by rw [hf]; simp)
      unfold dec; rw [if_neg this]; decide
  set us := encode enc (s.text ++ '}' :: rest) with hus
  have hsplit : us = encode enc s.text ++ encode enc ('}' :: rest) := List.flatMap_append
  have hbr : encode enc ('}' :: rest) = unit '}' :: encode enc rest := by
    have e : encode enc ('}' :: rest) = enc '}' ++ encode enc rest := rfl
    rw [e, h.ascii '}' (by decide)]; rfl
  have hmap : us.map dec = (refill s (dec u)).text ++ '}' :: (encode enc rest).map dec := by
    rw [hsplit, List.map_append, decode_text h hs hf hfa, hbr, List.map_cons, dec_unit (by decide)]
  have hp := C58_fields_partial (refill s (dec u)) ((encode enc rest).map dec) (refill_wf hs _) (by
      intro a ha
      rcases hq : s.fillAlign with _ | ⟨_ | g, a'⟩
      · simp [refill, hq] at ha
      · simp [refill, hq] at ha
      · simp only [refill, hq, Option.map_some, Option.some.injEq, Prod.mk.injEq] at ha
        exact hdc ha.1)
    (by
      intro ht b hb hm
      refine he ?_ b (dec_encode_head h hb hm) hm
      have := decode_text h hs hf hfa
      rw [ht] at this
      have h0 : encode enc s.text = [] := by simpa using this
      rcases hq : s.text with _ | ⟨c, t⟩
      · rfl
      · exfalso
        rw [hq] at h0
        have e : encode enc (c :: t) = enc c ++ encode enc t := rfl
        rw [e] at h0
        exact h.nonempty c (List.append_eq_nil_iff.1 h0).1)
  rw [← hmap, parseSpec_dec] at hp
  rcases hq : parseSpecU us with ⟨r, st, fl⟩ | _ | _
  · rw [hq, Res.map_ok] at hp
    simp only [Res.ok.injEq, Prod.mk.injEq] at hp
    obtain ⟨p1, p2⟩ := hp
    -- what is left
    have hr : r = encode enc ('}' :: rest) := by
      refine suffix_eq (spec_suffix us hq) ⟨_, hsplit.symm⟩ ?_
      have := congrArg List.length p1
      rw [hbr]
      simpa using this
    -- the fill
    have hfl : fl = u := by
      have pf : dec fl = (fields (refill s (dec u))).fill := by rw [← p2]
      by_cases hlt : f.toNat < 128
      · have : (fields (refill s (dec u))).fill = f := by
          rw [(hdu hlt).2, ← hfill]
          rcases hq : s.fillAlign with _ | ⟨_ | g, a'⟩
          · simp [fields, refill, hq]
          · simp [fields, refill, hq]
          · simp only [fields, refill, hq, Option.map_some, Option.bind_some, Option.getD_some]
        rw [this] at pf
        rw [(hdu hlt).1, ← dec_eq hlt, pf]
      · have hh := h.high f (by omega) u (by rw [hf]; simp)
        rcases hqa : s.fillAlign with _ | ⟨_ | g, a⟩
        · exfalso; rw [← hfill] at hlt; simp only [fields, hqa] at hlt; exact hlt (by decide)
        · exfalso; rw [← hfill] at hlt; simp only [fields, hqa] at hlt; exact hlt (show (' ' : Char).toNat < 128 by decide)
        · have hal := hs.align _ _ hqa
          have ha2 : a.toNat < 128 ∧ isAlignU (unit a) = true := by
            simp only [List.mem_cons, List.not_mem_nil, or_false] at hal
            rcases hal with rfl | rfl | rfl <;> decide
          have hgf := hfa g a hqa
          have ex : ∃ t, us = u :: unit a :: t := by
            have : s.text = f :: a :: ({ s with fillAlign := none } : FmtSpec).text := by
              unfold FmtSpec.text; rw [hqa, hgf]; rfl
            rw [hsplit, this]
            refine ⟨encode enc ({ s with fillAlign := none } : FmtSpec).text ++ encode enc ('}' :: rest), ?_⟩
            have e : encode enc (f :: a :: ({ s with fillAlign := none } : FmtSpec).text) =
                enc f ++ (enc a ++ encode enc ({ s with fillAlign := none } : FmtSpec).text) := rfl
            rw [e, hf, h.ascii a ha2.1]; rfl
          obtain ⟨t, ht⟩ := ex
          rw [ht] at hq
          exact fill_unit hh ha2.2 hq
    -- the text
    have hst : fields s = { st with fill := f } := by
      have e1 : fields s = { fields (refill s (dec u)) with fill := f } := by
        rw [← hfill]
        unfold fields refill
        rcases s.fillAlign with _ | ⟨_ | g, a⟩ <;> rfl
      rw [e1, ← p2]
    unfold replaceField formatToU
    rw [hq, Res.bind_ok]
    dsimp only
    rw [formatTo_body, hst]
    have eb : formatBody F { st with fill := f } x = formatBody F st x := rfl
    rw [eb, hr, hfl]
    rcases hbd : formatBody F st x with body | _ | _
    · simp only [Res.bind_ok, Res.pure_eq, Res.map_ok]
      rw [aligned_units h hf (formatBody_ascii hbd)]
    · rfl
    · rfl
  · rw [hq] at hp; cases hp
  · rw [hq] at hp; cases hp

/-- C161, what the code does instead: a fill of two or more code units raises `format_error`, whatever follows it. -/
theorem C161_throws {enc : Char → List Int} (h : AsciiCompatible enc) (f : Char) (h2 : (enc f).length ≠ 1) (t : List Int) (F : FxTy)
    (x : Int) : replaceField F (enc f ++ t) x = .throw .formatError := by
  have hlt : ¬ f.toNat < 128 := fun hlt => h2 (by rw [h.ascii f hlt]; rfl)
  have hh := h.high f (by omega)
  rcases hu : enc f with _ | ⟨u, _ | ⟨v, us⟩⟩
  · exact absurd hu (h.nonempty f)
  · rw [hu] at h2; exact absurd rfl h2
  · rw [hu] at hh
    have du : dec u = Char.ofNat 128 := by unfold dec; rw [if_neg (hh u (by simp))]
    have dv : dec v = Char.ofNat 128 := by unfold dec; rw [if_neg (hh v (by simp))]
    have hp : parseSpec ((u :: v :: us ++ t).map dec) = .throw .formatError := by
      have := C58_unknown_type {} (Char.ofNat 128) (Char.ofNat 128 :: (us ++ t).map dec)
        ⟨by simp, by simp, by decide, by simp, by decide, by simp, by simp⟩ rfl (by simp)
        (by intro _ b hb; simp only [List.head?_cons, Option.some.injEq] at hb; subst hb; decide) ⟨by unfold DigitChar; decide, by decide⟩
      rw [List.cons_append, List.cons_append, List.map_cons, List.map_cons, du, dv]
      exact this
    rw [parseSpec_dec] at hp
    unfold replaceField
    rcases hq : parseSpecU (u :: v :: us ++ t) with _ | _ | e
    · rw [hq] at hp; cases hp
    · rw [hq] at hp; cases hp
    · rw [hq] at hp
      cases hp; rfl

/-- C161: in UTF-32 (wide strings) every fill character is honoured. -/
theorem C161_wide (F : FxTy) (s : FmtSpec) (rest : List Char) (hs : s.WF) (h1 : ∀ f a, s.fillAlign = some (some f, a) → f ≠ ':')
    (he : s.text = [] → ∀ b, rest.head? = some b → b ∉ ['<', '>', '^']) (x : Int) :
    replaceField F (encode utf32 (s.text ++ '}' :: rest)) x =
      (fun t => (encode utf32 ('}' :: rest), encode utf32 t)) <$> formatTo F (fields s) x :=
  C161_units_partial utf32_compatible F s rest hs (fun f a hf => ⟨rfl, h1 f a hf⟩) he x

/-- C161: in UTF-8 strings exactly the ASCII characters can be fills, in UTF-16 exactly those of the basic multilingual plane. -/
theorem C161_one_unit (c : Char) : ((utf8 c).length = 1 ↔ c.toNat < 0x80) ∧ ((utf16 c).length = 1 ↔ c.toNat < 0x10000) := by
  unfold utf8 utf16
  constructor
  · rw [List.length_map]
    split
    · simp; omega
    · split
      · simp; omega
      · split
        · simp; omega
        · simp; omega
  · split
    · simp; omega
    · simp; omega

/-- C161 is false of the code: `std::format("{:é<5}", x)` in UTF-8 throws, while `std::format(L"{:é<5}", x)` pads with `é`. -/
theorem C161_false : ¬ C161_statement := by
  intro h
  have := h utf8 utf8_compatible fixed32 (by decide) ⟨some (some 'é', '<'), none, false, false, [5], none, none⟩ []
    ⟨by simp, by simp, by decide, by simp, by decide, by simp, by simp⟩ (by simp) (by simp [FmtSpec.text]) 65536 (by decide +kernel)
  revert this
  decide +kernel

example : replaceField fixed32 (encode utf8 "é<5}".toList) 65536 = .throw .formatError ∧
    replaceField fixed32 (encode utf32 "é<5}".toList) 65536 = .ok (encode utf32 "}".toList, encode utf32 "1éééé".toList) ∧
    replaceField fixed32 (encode utf8 "*<5}é".toList) 65536 = .ok (encode utf8 "}é".toList, encode utf8 "1****".toList) := by
  decide +kernel
example : (⟨some (some 'é', '<'), none, false, false, [5], none, none⟩ : FmtSpec).WF :=
  ⟨by simp, by simp, by decide, by simp, by decide, by simp, by simp⟩

end Eirin.Props
