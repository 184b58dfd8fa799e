import Verif.Lemmas.Format

/-! # C58: the format-specification parser -/

namespace Eirin.Props
open Spec

/-- The formatter state a specification asks for. -/
def fields (s : FmtSpec) : FmtState where
  align := s.fillAlign.map Prod.snd
  fill := (s.fillAlign.bind Prod.fst).getD ' '
  sign := s.sign.getD '-'
  alt := s.alt
  zero := s.zero
  width := digitsVal 10 s.width
  precision := match s.prec with | none => -1 | some ds => digitsVal 10 ds
  type := s.type.getD 'g'

theorem isDig_digitOf {d : Nat} (h : d < 10) : isDig (digitOf false d) = true ∧ (((digitOf false d).toNat : Int) - 48 = d) := by
  interval_cases d <;> decide

theorem parseNum_digits {c : Char} (t : List Char) (hc : isDig c = false) : ∀ (ds : List Nat) (v : Nat), Decimal ds →
    acc v ds < 2 ^ 31 → parseNum (ds.map (digitOf false) ++ c :: t) v = .ok (c :: t, (acc v ds : Int)) := by
  intro ds
  induction ds with
  | nil =>
    intro v _ _
    simp only [List.map_nil, List.nil_append, parseNum, hc, Bool.false_eq_true, if_false, acc_nil]
  | cons d ds ih =>
    intro v hd hlt
    have hd10 : d < 10 := hd d (by simp)
    obtain ⟨a1, a2⟩ := isDig_digitOf hd10
    rw [acc_cons] at hlt
    have hle := le_acc (v * 10 + d) ds
    have hl : (i32).lo = -2 ^ 31 := by decide
    have hh : (i32).hi = 2 ^ 31 - 1 := by decide
    have e1 : arith i32 ((v : Int) * 10) = .ok ((v * 10 : Nat) : Int) := by
      rw [arith_of_inRange (by decide)]
      · push_cast; rfl
      · constructor <;> omega
    have e2 : arith i32 (((v * 10 : Nat) : Int) + (d : Int)) = .ok ((v * 10 + d : Nat) : Int) := by
      rw [arith_of_inRange (by decide)]
      · push_cast; rfl
      · constructor <;> omega
    rw [List.map_cons, List.cons_append, parseNum, if_pos a1, e1, Res.bind_ok, a2, e2, Res.bind_ok, acc_cons]
    exact ih _ (fun x hx => hd x (by simp [hx])) hlt

/-- `c` cannot continue a specification: no digit, alignment, sign, `#`, `.` or `:`. -/
def stop (c : Char) : Bool := !isDig c && !isAlign c && decide (c ∉ ['.', '#', '+', '-', ' ', ':'])

theorem stop_spec {c : Char} (h : stop c = true) : isDig c = false ∧ isAlign c = false ∧ c ≠ '.' ∧ c ≠ '#' ∧ c ≠ '+' ∧ c ≠ '-' ∧
    c ≠ ' ' ∧ c ≠ ':' := by
  unfold stop at h
  simpa [and_assoc] using h

theorem skipArgId_id : ∀ (l : List Char) {c : Char} (t : List Char), (∀ a ∈ l, a ≠ ':') → c ≠ ':' → isDig c = false →
    skipArgId (l ++ c :: t) = l ++ c :: t := by
  intro l c t hl hc hd
  unfold skipArgId
  have : ∀ (l : List Char), (∀ a ∈ l, a ≠ ':') → ∃ a u, (l ++ c :: t).dropWhile isDig = a :: u ∧ a ≠ ':' := by
    intro l
    induction l with
    | nil => intro _; exact ⟨c, t, by simp [hd], hc⟩
    | cons a l ih =>
      intro hl
      by_cases ha : isDig a = true
      · rw [List.cons_append, List.dropWhile_cons_of_pos ha]
        exact ih (fun b hb => hl b (by simp [hb]))
      · rw [List.cons_append, List.dropWhile_cons_of_neg ha]
        exact ⟨a, _, rfl, hl a (by simp)⟩
  obtain ⟨a, u, e, ha⟩ := this l hl
  rw [e]
  split
  · rename_i heq
    exact absurd (List.cons.inj heq).1 ha
  · rfl

/-! The pieces of a specification. -/

def precText (s : FmtSpec) : List Char := match s.prec with | none => [] | some ds => '.' :: ds.map (digitOf false)
def widthText (s : FmtSpec) : List Char := s.width.map (digitOf false)
def zeroText (s : FmtSpec) : List Char := if s.zero then ['0'] else []
def altText (s : FmtSpec) : List Char := if s.alt then ['#'] else []
def alignText (s : FmtSpec) : List Char := match s.fillAlign with | none => [] | some (none, a) => [a] | some (some f, a) => [f, a]

theorem text_eq (s : FmtSpec) :
    s.text = alignText s ++ (s.sign.toList ++ (altText s ++ (zeroText s ++ (widthText s ++ (precText s ++ s.type.toList))))) := rfl

section
variable {s : FmtSpec} (h : s.WF)
include h

theorem prec_mem {c : Char} (hc : c ∈ precText s) : isDig c = true ∨ c = '.' := by
  unfold precText at hc
  rcases hp : s.prec with _ | ds
  · rw [hp] at hc; simp at hc
  · rw [hp] at hc
    rcases List.mem_cons.1 hc with hc | hc
    · exact Or.inr hc
    · obtain ⟨d, hd, rfl⟩ := List.mem_map.1 hc
      exact Or.inl (isDig_digitOf ((h.prec ds hp).1 d hd)).1

theorem width_mem {c : Char} (hc : c ∈ widthText s) : isDig c = true := by
  obtain ⟨d, hd, rfl⟩ := List.mem_map.1 hc
  exact (isDig_digitOf (h.width d hd)).1

theorem tail_mem {c : Char} (hc : c ∈ altText s ++ (zeroText s ++ (widthText s ++ precText s))) :
    isDig c = true ∨ c = '.' ∨ c = '#' := by
  simp only [List.mem_append] at hc
  rcases hc with hc | hc | hc | hc
  · unfold altText at hc; split at hc <;> simp at hc; exact Or.inr (Or.inr hc)
  · unfold zeroText at hc; split at hc <;> simp at hc; subst hc; exact Or.inl (by decide)
  · exact Or.inl (width_mem h hc)
  · rcases prec_mem h hc with hc | hc
    · exact Or.inl hc
    · exact Or.inr (Or.inl hc)

end

theorem isDig_not {c : Char} (h : isDig c = true) : isAlign c = false ∧ c ∉ ['.', '#', '+', '-', ' ', ':', '}', '<', '>', '^'] := by
  unfold isDig at h
  rw [decide_eq_true_iff] at h
  have hne : ∀ b : Char, ¬ ('0' ≤ b ∧ b ≤ '9') → c ≠ b := by
    rintro b hb rfl; exact hb h
  constructor
  · unfold isAlign
    simp [hne '<' (by decide), hne '>' (by decide), hne '^' (by decide)]
  · simp [hne '<' (by decide), hne '>' (by decide), hne '^' (by decide), hne '.' (by decide), hne '#' (by decide), hne '+' (by decide),
      hne '-' (by decide), hne ' ' (by decide), hne ':' (by decide), hne '}' (by decide)]

/-- A non-empty text, by its first character. -/
theorem exists_cons (l : List Char) (c : Char) (t : List Char) : ∃ a u, l ++ c :: t = a :: u ∧ (a ∈ l ∨ (l = [] ∧ a = c ∧ u = t)) := by
  cases l with
  | nil => exact ⟨c, t, rfl, Or.inr ⟨rfl, rfl, rfl⟩⟩
  | cons a l => exact ⟨a, l ++ c :: t, rfl, Or.inl (by simp)⟩

section
variable {s : FmtSpec} (h : s.WF) {c : Char} (hc : stop c = true) (t : List Char)
include h hc

theorem step_prec (st : FmtState) (hp : st.precision = -1) :
    parsePrec (precText s ++ c :: t) st =
      .ok (c :: t, { st with precision := match s.prec with | none => -1 | some ds => (digitsVal 10 ds : Int) }) := by
  obtain ⟨c1, c2, c3, c4, c5, c6, c7, c8⟩ := stop_spec hc
  unfold precText
  rcases hpr : s.prec with _ | ds
  · simp only [List.nil_append]
    unfold parsePrec
    split
    · rename_i heq; exact absurd (List.cons.inj heq).1 c3
    · simp only [Res.pure_eq]
      cases st; simp only at hp; subst hp; rfl
  · simp only [List.cons_append]
    unfold parsePrec
    have := parseNum_digits t c1 ds 0 (h.prec ds hpr).1 (h.prec ds hpr).2
    have e : parseNum (ds.map (digitOf false) ++ c :: t) 0 = _ := this
    simp only [e, Res.bind_ok, Res.pure_eq, digitsVal_eq_acc]

theorem step_width (st : FmtState) (hw : st.width = 0) :
    parseWidth (widthText s ++ (precText s ++ c :: t)) st =
      .ok (precText s ++ c :: t, { st with width := (digitsVal 10 s.width : Int) }) := by
  obtain ⟨c1, c2, c3, c4, c5, c6, c7, c8⟩ := stop_spec hc
  have hhead : ∃ a u, precText s ++ c :: t = a :: u ∧ isDig a = false := by
    unfold precText
    rcases s.prec with _ | ds
    · exact ⟨c, t, rfl, c1⟩
    · exact ⟨'.', _, rfl, by decide⟩
  obtain ⟨a, u, e, ha⟩ := hhead
  rw [e]
  unfold widthText
  have hn := parseNum_digits u ha s.width 0 h.width h.widthFits
  rcases hs : s.width with _ | ⟨d, ds⟩
  · simp only [List.map_nil, List.nil_append, parseWidth, ha, Bool.false_eq_true, if_false, Res.pure_eq]
    cases st; simp only at hw; subst hw; rfl
  · rw [hs] at hn
    have hd : isDig (digitOf false d) = true := (isDig_digitOf (h.width d (by rw [hs]; simp))).1
    simp only [List.map_cons, List.cons_append, parseWidth, hd, if_true]
    rw [List.map_cons, List.cons_append] at hn
    have hn' : parseNum (digitOf false d :: (ds.map (digitOf false) ++ a :: u)) 0 = _ := hn
    rw [hn']
    simp only [Res.bind_ok, Res.pure_eq, digitsVal_eq_acc]

theorem step_zero (st : FmtState) (hz : st.zero = false) :
    parseZero (zeroText s ++ (widthText s ++ (precText s ++ c :: t))) st =
      (widthText s ++ (precText s ++ c :: t), { st with zero := s.zero }) := by
  obtain ⟨c1, c2, c3, c4, c5, c6, c7, c8⟩ := stop_spec hc
  unfold zeroText
  cases hsz : s.zero
  · have hhead : ∃ a u, widthText s ++ (precText s ++ c :: t) = a :: u ∧ a ≠ '0' := by
      unfold widthText
      rcases hw : s.width with _ | ⟨d, ds⟩
      · unfold precText
        rcases s.prec with _ | ds
        · exact ⟨c, t, rfl, by rintro rfl; revert c1; decide⟩
        · exact ⟨'.', _, rfl, by decide⟩
      · refine ⟨digitOf false d, _, rfl, ?_⟩
        have h0 := h.width0 hsz
        have hd := h.width d (by rw [hw]; simp)
        rw [hw] at h0
        have : d ≠ 0 := by simpa using h0
        intro heq
        apply this
        have := digitOf_inj false (show d < 16 by omega) (show 0 < 16 by norm_num) (heq.trans rfl)
        exact this
    obtain ⟨a, u, e, ha⟩ := hhead
    rw [e]
    simp only [Bool.false_eq_true, if_false, List.nil_append, parseZero, ha]
    cases st; simp only at hz; subst hz; rfl
  · simp only [if_true, List.cons_append, List.nil_append, parseZero]

theorem step_alt (st : FmtState) (hz : st.alt = false) :
    parseAlt (altText s ++ (zeroText s ++ (widthText s ++ (precText s ++ c :: t)))) st =
      (zeroText s ++ (widthText s ++ (precText s ++ c :: t)), { st with alt := s.alt }) := by
  obtain ⟨c1, c2, c3, c4, c5, c6, c7, c8⟩ := stop_spec hc
  unfold altText
  cases hsa : s.alt
  · have hhead : ∃ a u, zeroText s ++ (widthText s ++ (precText s ++ c :: t)) = a :: u ∧ a ≠ '#' := by
      obtain ⟨a, u, e, ha⟩ := exists_cons (zeroText s ++ (widthText s ++ precText s)) c t
      refine ⟨a, u, by simpa using e, ?_⟩
      rcases ha with ha | ⟨_, rfl, _⟩
      · simp only [List.mem_append] at ha
        rcases ha with ha | ha | ha
        · unfold zeroText at ha; split at ha <;> simp at ha; subst ha; decide
        · have := (isDig_not (width_mem h ha)).2
          rintro rfl; simp at this
        · rcases prec_mem h ha with ha | ha
          · have := (isDig_not ha).2
            rintro rfl; simp at this
          · subst ha; decide
      · exact c4
    obtain ⟨a, u, e, ha⟩ := hhead
    rw [e]
    simp only [Bool.false_eq_true, if_false, List.nil_append, parseAlt, ha]
    cases st; simp only at hz; subst hz; rfl
  · simp only [if_true, List.cons_append, List.nil_append, parseAlt]

theorem step_sign (st : FmtState) (hz : st.sign = '-') :
    parseSign (s.sign.toList ++ (altText s ++ (zeroText s ++ (widthText s ++ (precText s ++ c :: t))))) st =
      (altText s ++ (zeroText s ++ (widthText s ++ (precText s ++ c :: t))), { st with sign := s.sign.getD '-' }) := by
  obtain ⟨c1, c2, c3, c4, c5, c6, c7, c8⟩ := stop_spec hc
  rcases hsg : s.sign with _ | sg
  · obtain ⟨a, u, e, ha⟩ := exists_cons (altText s ++ (zeroText s ++ (widthText s ++ precText s))) c t
    have e' : altText s ++ (zeroText s ++ (widthText s ++ (precText s ++ c :: t))) = a :: u := by simpa using e
    have hne : ¬ (a = '+' ∨ a = '-' ∨ a = ' ') := by
      rcases ha with ha | ⟨_, rfl, _⟩
      · rcases tail_mem h ha with ha | rfl | rfl
        · have := (isDig_not ha).2
          rintro (rfl | rfl | rfl) <;> simp at this
        · decide
        · decide
      · rintro (h | h | h)
        · exact c5 h
        · exact c6 h
        · exact c7 h
    rw [e']
    simp only [Option.toList_none, List.nil_append, parseSign, hne, if_false, Option.getD_none]
    cases st; simp only at hz; subst hz; rfl
  · have := h.sign sg hsg
    simp only [List.mem_cons, List.not_mem_nil, or_false] at this
    simp only [Option.toList_some, List.cons_append, List.nil_append, parseSign, this, if_true, Option.getD_some]

/-- The text after the alignment consists of characters other than alignment characters and `:`. -/
theorem body_mem {a : Char} (ha : a ∈ s.sign.toList ++ (altText s ++ (zeroText s ++ (widthText s ++ precText s)))) :
    isAlign a = false ∧ a ≠ ':' := by
  rcases List.mem_append.1 ha with ha | ha
  · rw [Option.mem_toList] at ha
    have := h.sign a ha
    simp only [List.mem_cons, List.not_mem_nil, or_false] at this
    rcases this with rfl | rfl | rfl <;> decide
  · rcases tail_mem h ha with ha | rfl | rfl
    · refine ⟨(isDig_not ha).1, ?_⟩
      have := (isDig_not ha).2
      rintro rfl; simp at this
    · decide
    · decide

omit h hc in
theorem isAlign_iff {a : Char} : isAlign a = true ↔ a ∈ ['<', '>', '^'] := by
  unfold isAlign; simp [or_assoc]

theorem step_align (hs : alignText s ++ (s.sign.toList ++ (altText s ++ (zeroText s ++ (widthText s ++ precText s)))) = [] →
      ∀ b, t.head? = some b → isAlign b = false) :
    parseAlign (alignText s ++ (s.sign.toList ++ (altText s ++ (zeroText s ++ (widthText s ++ (precText s ++ c :: t)))))) {} =
      (s.sign.toList ++ (altText s ++ (zeroText s ++ (widthText s ++ (precText s ++ c :: t)))),
        { ({} : FmtState) with align := s.fillAlign.map Prod.snd, fill := (s.fillAlign.bind Prod.fst).getD ' ' }) := by
  obtain ⟨c1, c2, c3, c4, c5, c6, c7, c8⟩ := stop_spec hc
  have hbody : ∀ a ∈ s.sign.toList ++ (altText s ++ (zeroText s ++ (widthText s ++ precText s))), isAlign a = false :=
    fun a ha => (body_mem h hc ha).1
  have hassoc : s.sign.toList ++ (altText s ++ (zeroText s ++ (widthText s ++ (precText s ++ c :: t)))) =
      (s.sign.toList ++ (altText s ++ (zeroText s ++ (widthText s ++ precText s)))) ++ c :: t := by simp
  rw [hassoc]
  set B := s.sign.toList ++ (altText s ++ (zeroText s ++ (widthText s ++ precText s))) with hB
  rcases hfa : s.fillAlign with _ | ⟨f, a⟩
  · have ea : alignText s = [] := by unfold alignText; rw [hfa]
    rw [ea] at hs ⊢
    simp only [List.nil_append] at hs ⊢
    cases hBB : B with
    | nil =>
      simp only [List.nil_append]
      cases ht : t with
      | nil => simp [parseAlign, c2]
      | cons b u =>
        have := hs hBB b (by rw [ht]; rfl)
        simp [parseAlign, c2, this]
    | cons b u =>
      have hb := hbody b (by rw [hBB]; simp)
      cases hu : u with
      | nil => simp [parseAlign, c2, hb]
      | cons b' u' =>
        have hb' := hbody b' (by rw [hBB, hu]; simp)
        simp [parseAlign, hb, hb']
  · have haa : isAlign a = true := isAlign_iff.2 (h.align f a hfa)
    cases f with
    | none =>
      have ea : alignText s = [a] := by unfold alignText; rw [hfa]
      rw [ea]
      obtain ⟨b, u, e, hb⟩ := exists_cons B c t
      have hb' : isAlign b = false := by
        rcases hb with hb | ⟨_, rfl, _⟩
        · exact hbody b hb
        · exact c2
      rw [e]
      simp [parseAlign, hb', haa]
    | some f =>
      have ea : alignText s = [f, a] := by unfold alignText; rw [hfa]
      rw [ea]
      simp [parseAlign, haa]

/-- Parsing everything up to the type. -/
theorem parse_upto (hty : s.type = none) (hcol : ∀ a, s.fillAlign ≠ some (some ':', a))
    (hs : s.text = [] → ∀ b, t.head? = some b → isAlign b = false) :
    parseSpec (s.text ++ c :: t) = parseType (c :: t) (fields s) := by
  obtain ⟨c1, c2, c3, c4, c5, c6, c7, c8⟩ := stop_spec hc
  have et : s.text = alignText s ++ (s.sign.toList ++ (altText s ++ (zeroText s ++ (widthText s ++ precText s)))) := by
    rw [text_eq, hty]; simp
  have hmem : ∀ a ∈ s.text, a ≠ ':' := by
    intro a ha
    rw [et] at ha
    rcases List.mem_append.1 ha with ha | ha
    · unfold alignText at ha
      rcases hfa : s.fillAlign with _ | ⟨f, b⟩
      · rw [hfa] at ha; simp at ha
      · have hb := h.align f b hfa
        rw [hfa] at ha
        cases f with
        | none =>
          simp only [List.mem_cons, List.not_mem_nil, or_false] at ha
          subst ha
          rintro rfl; revert hb; decide
        | some f =>
          simp only [List.mem_cons, List.not_mem_nil, or_false] at ha
          rcases ha with rfl | rfl
          · rintro rfl; exact hcol b hfa
          · rintro rfl; revert hb; decide
    · exact (body_mem h hc ha).2
  unfold parseSpec
  rw [if_neg (by simp), skipArgId_id _ t hmem c8 c1]
  simp only []
  rw [if_neg (by simp)]
  have e2 : s.text ++ c :: t =
      alignText s ++ (s.sign.toList ++ (altText s ++ (zeroText s ++ (widthText s ++ (precText s ++ c :: t))))) := by
    rw [et]; simp
  rw [e2, step_align h hc t (by rw [← et]; exact hs)]
  simp only []
  rw [step_sign h hc t _ rfl]
  simp only []
  rw [step_alt h hc t _ rfl]
  simp only []
  rw [step_zero h hc t _ rfl]
  simp only []
  rw [step_width h hc t _ rfl]
  simp only [Res.bind_ok]
  rw [step_prec h hc t _ rfl]
  simp only [Res.bind_ok]
  congr 1
  unfold fields
  rw [hty]
  rfl

end

theorem stop_brace : stop '}' = true := by decide
theorem stop_type {c : Char} (h : c ∈ fmtTypes) : stop c = true := by
  revert h; unfold fmtTypes
  simp only [List.mem_cons, List.not_mem_nil, or_false]
  rintro (rfl | rfl | rfl | rfl | rfl | rfl | rfl | rfl | rfl | rfl | rfl) <;> decide

/-- C58 as stated: a specification followed by `}` is recovered completely. -/
def C58_statement : Prop :=
  ∀ (s : FmtSpec) (rest : List Char), s.WF → parseSpec (s.text ++ '}' :: rest) = .ok ('}' :: rest, fields s)

/-- C58 is false of the code: the fill character `:` is lost (`{::<5}`), and an empty specification followed by text beginning with an
alignment character takes `}` for a fill character (`{}<`). -/
theorem C58_false : ¬ C58_statement ∧
    parseSpec ("}<".toList) = .ok ([], { fill := '}', align := some '<' }) ∧
    parseSpec (":<5}".toList) = .ok (['}'], { align := some '<', width := 5 }) := by
  refine ⟨?_, by decide +kernel, by decide +kernel⟩
  intro h
  have := h {} ['<'] ⟨by simp, by simp, by decide, by simp, by decide, by simp, by simp⟩
  revert this
  decide +kernel

/-- C58 with a fill character other than `:`, and when an empty specification is not followed by an alignment character after the `}`:
every field is recovered and parsing stops at the `}`.  Full statement: `C58_statement`; the two excluded cases are refuted in
`C58_false`. -/
theorem C58_fields_partial (s : FmtSpec) (rest : List Char) (h : s.WF) (hcol : ∀ a, s.fillAlign ≠ some (some ':', a))
    (hs : s.text = [] → ∀ b, rest.head? = some b → b ∉ ['<', '>', '^']) :
    parseSpec (s.text ++ '}' :: rest) = .ok ('}' :: rest, fields s) := by
  have hs' : s.text = [] → ∀ b, rest.head? = some b → isAlign b = false := by
    intro e b hb
    have := hs e b hb
    rw [← isAlign_iff] at this
    simpa using this
  rcases hty : s.type with _ | c
  · rw [parse_upto h stop_brace rest hty hcol hs']
    simp [parseType, fmtTypes]
  · have hc := h.type c hty
    set s' : FmtSpec := { s with type := none } with hs0
    have h' : s'.WF := ⟨h.align, h.sign, h.width, h.width0, h.widthFits, h.prec, by simp [hs0]⟩
    have et : s.text ++ '}' :: rest = s'.text ++ c :: '}' :: rest := by
      unfold FmtSpec.text; rw [hty]; simp [hs0]
    rw [et, parse_upto h' (stop_type hc) ('}' :: rest) rfl hcol (by intro _ b hb; simp at hb; subst hb; decide)]
    simp only [parseType]
    rw [if_pos (show c ∈ fmtTypes from hc)]
    simp only [Res.pure_eq, fields, hs0, hty, Option.getD_some]

example : parseSpec ("*^+#012.5f}tail".toList) =
    .ok ("}tail".toList, { fill := '*', align := some '^', sign := '+', alt := true, zero := true, width := 12, precision := 5, type := 'f' })
    := by decide +kernel
example : ("*^+#012.5f".toList) = (⟨some (some '*', '^'), some '+', true, true, [1, 2], some [5], some 'f'⟩ : FmtSpec).text := by
  decide +kernel

/-- C58: an empty specification — nothing, or directly the closing brace — gives the defaults. -/
theorem C58_empty : parseSpec [] = .ok ([], {}) ∧ parseSpec ['}'] = .ok (['}'], {}) := by decide +kernel

/-- C58: a character that neither continues the specification nor is a type or the closing brace raises `format_error`. -/
theorem C58_unknown_type (s : FmtSpec) (c : Char) (rest : List Char) (h : s.WF) (hty : s.type = none)
    (hcol : ∀ a, s.fillAlign ≠ some (some ':', a)) (hs : s.text = [] → ∀ b, rest.head? = some b → b ∉ ['<', '>', '^'])
    (hc : ¬ DigitChar c ∧ c ∉ ['<', '>', '^', '.', '#', '+', '-', ' ', ':', 'g', 'G', 'f', 'F', 'd', 'x', 'X', 'o', 'b', 'B', '?', '}']) :
    parseSpec (s.text ++ c :: rest) = .throw .formatError := by
  have hs' : s.text = [] → ∀ b, rest.head? = some b → isAlign b = false := by
    intro e b hb
    have := hs e b hb
    rw [← isAlign_iff] at this
    simpa using this
  simp only [List.mem_cons, List.not_mem_nil, or_false, not_or] at hc
  have hst : stop c = true := by
    unfold stop isDig isAlign
    have : ¬ ('0' ≤ c ∧ c ≤ '9') := hc.1
    simp [this, hc]
  rw [parse_upto h hst rest hty hcol hs']
  simp [parseType, fmtTypes, hc]

example : parseSpec ("08e}".toList) = .throw .formatError := by decide +kernel

/-- C58: a width that does not fit in an `int` is undefined behaviour. -/
theorem C58_width_overflow : parseSpec ("2147483648}".toList) = .ub .overflow := by decide +kernel

end Eirin.Props
