import Verif.Model.Random
import Verif.Props.Random
import Mathlib.Data.Nat.Digits.Lemmas

/-! # Property C83: the text of a random engine. -/

namespace Eirin.Props

/-- Value of a decimal text. -/
def decValue (t : List Char) : Nat := t.foldl (fun a c => a * 10 + (c.toNat - 48)) 0

/-- Plain decimal notation: digits only, no superfluous leading zero, denoting `n`. -/
def IsDecimal (t : List Char) (n : Nat) : Prop :=
  (∀ c ∈ t, c.isDigit = true) ∧ decValue t = n ∧ (t = ['0'] ∨ (t ≠ [] ∧ t.head? ≠ some '0'))

theorem digit_facts : ∀ d : Fin 10, (Char.ofNat (48 + d.val)).isDigit = true ∧ (Char.ofNat (48 + d.val)).toNat - 48 = d.val ∧
    (Char.ofNat (48 + d.val) = '0' → d.val = 0) := by decide +kernel

theorem decValue_digits (l : List Nat) (hl : ∀ d ∈ l, d < 10) (up : Bool) :
    decValue (l.reverse.map fun d => if d < 10 then Char.ofNat (48 + d) else Char.ofNat ((if up then 55 else 87) + d)) = Nat.ofDigits 10 l := by
  induction l with
  | nil => rfl
  | cons d l ih =>
    have hd := hl d (by simp)
    rw [List.reverse_cons, List.map_append, List.map_singleton]
    unfold decValue
    rw [List.foldl_append]
    have := ih (fun e he => hl e (List.mem_cons_of_mem _ he))
    unfold decValue at this
    rw [this, if_pos hd, Nat.ofDigits_cons]
    simp only [List.foldl_cons, List.foldl_nil]
    rw [(digit_facts ⟨d, hd⟩).2.1]; simp; ring

theorem natText_decimal (up : Bool) (n : Nat) : IsDecimal (natText up 10 n) n := by
  unfold natText
  by_cases h : n = 0
  · rw [if_pos h, h]; exact ⟨by decide, rfl, Or.inl rfl⟩
  · rw [if_neg h]
    have hl : ∀ d ∈ Nat.digits 10 n, d < 10 := fun d hd => Nat.digits_lt_base (by norm_num) hd
    refine ⟨?_, ?_, Or.inr ⟨?_, ?_⟩⟩
    · intro c hc
      obtain ⟨d, hd, rfl⟩ := List.mem_map.1 hc
      have hd' := hl d (List.mem_reverse.1 hd)
      rw [if_pos hd']; exact (digit_facts ⟨d, hd'⟩).1
    · rw [decValue_digits _ hl, Nat.ofDigits_digits]
    · simp [Nat.digits_ne_nil_iff_ne_zero.2 h]
    · rw [List.head?_map, List.head?_reverse]
      intro hc
      have hne := Nat.digits_ne_nil_iff_ne_zero (b := 10).2 h
      rw [List.getLast?_eq_getLast_of_ne_nil hne, Option.map_some, Option.some.injEq] at hc
      have hlast := hl _ (List.getLast_mem hne)
      rw [if_pos hlast] at hc
      exact Nat.getLast_digit_ne_zero 10 h ((digit_facts ⟨_, hlast⟩).2.2 hc)

/-- What is inserted when no width is set. -/
theorem insert_nowidth (s : Ios) (hw : s.width = 0) (e : Pcg) :
    e.insert s = (natText s.uppercase 10 e.seed ++ [' '] ++ natText s.uppercase 10 e.state, { s with dec := true }) := by
  cases s with
  | mk dec hex oct sb up l i w f =>
    simp only at hw
    subst hw
    unfold Pcg.insert insertNat
    cases l <;> cases i <;> simp

/-- C83: with no field width set, the text is the seed and the state in plain decimal separated by one space, whatever base, case or
adjustment the stream was set to. -/
theorem C83_text (s : Ios) (hw : s.width = 0) (e : Pcg) :
    ∃ a b, (e.insert s).1 = a ++ [' '] ++ b ∧ IsDecimal a e.seed ∧ IsDecimal b e.state := by
  rw [insert_nowidth s hw]
  exact ⟨_, _, rfl, natText_decimal _ _, natText_decimal _ _⟩

theorem split_space {a b c d : List Char} (ha : ∀ x ∈ a, x.isDigit = true) (hc : ∀ x ∈ c, x.isDigit = true)
    (h : a ++ [' '] ++ b = c ++ [' '] ++ d) : a = c ∧ b = d := by
  induction a generalizing c with
  | nil =>
    cases c with
    | nil => simpa using h
    | cons x c =>
      exfalso
      have := hc x (by simp)
      simp at h
      rw [← h.1] at this; revert this; decide
  | cons y a ih =>
    cases c with
    | nil =>
      exfalso
      have := ha y (by simp)
      simp at h
      rw [h.1] at this; revert this; decide
    | cons x c =>
      simp only [List.cons_append, List.cons.injEq] at h
      obtain ⟨e1, e2⟩ := ih (fun z hz => ha z (List.mem_cons_of_mem _ hz)) (fun z hz => hc z (List.mem_cons_of_mem _ hz)) h.2
      rw [h.1, e1]; exact ⟨rfl, e2⟩

/-- C83: the text determines the engine (no two different engines have the same text, even on differently configured streams). -/
theorem C83_injective (s t : Ios) (hs : s.width = 0) (ht : t.width = 0) (d e : Pcg) :
    (d.insert s).1 = (e.insert t).1 ↔ Pcg.eq d e = true := by
  constructor
  · intro h
    obtain ⟨a, b, e1, ⟨a1, a2, _⟩, ⟨_, b2, _⟩⟩ := C83_text s hs d
    obtain ⟨a', b', e2, ⟨a1', a2', _⟩, ⟨_, b2', _⟩⟩ := C83_text t ht e
    rw [e1, e2] at h
    obtain ⟨rfl, rfl⟩ := split_space a1 a1' h
    unfold Pcg.eq
    simp [← a2, ← b2, ← a2', ← b2']
  · intro h
    have hde : d = e := (C60_same_seed pcg2014 0 d e).2.1 h
    subst hde
    rw [insert_nowidth s hs, insert_nowidth t ht]
    have key : ∀ (u v : Bool) (n : Nat), natText u 10 n = natText v 10 n := by
      intro u v n
      unfold natText
      split
      · rfl
      · apply List.map_congr_left
        intro d hd
        have := Nat.digits_lt_base (b := 10) (by norm_num) (List.mem_reverse.1 hd)
        rw [if_pos this, if_pos this]
    rw [key s.uppercase t.uppercase, key s.uppercase t.uppercase]

/-- C83, the rest of the statement (false, see `C83_false`): inserting an engine leaves the formatting of the stream as it was. -/
def C83_statement : Prop := ∀ (s : Ios) (e : Pcg) (n : Nat), s.width = 0 → (insertNat (e.insert s).2 n).1 = (insertNat s n).1

/-- C83 is false of the code: on a stream set to `hex`, integers inserted after an engine come out in decimal. -/
theorem C83_false : ¬ C83_statement := by
  intro h
  have := h { dec := false, hex := true } ⟨1, 2⟩ 255 rfl
  rw [insert_nowidth _ rfl] at this
  revert this
  unfold insertNat natText
  simp

/-- C83, the part that holds: a stream in decimal mode is left as it was. -/
theorem C83_flags_partial (s : Ios) (hw : s.width = 0) (e : Pcg) : (e.insert s).2 = s ↔ s.dec = true := by
  rw [insert_nowidth s hw]
  cases s; simp

example : ((⟨5, 10⟩ : Pcg).insert { hex := true, dec := false }).1 = ['5', ' ', '1', '0'] := by
  rw [insert_nowidth _ rfl]; unfold natText; simp

/-- C83, streams with a width: the text is the text without the width plus fill characters up to the width, which stand on the side opposite
to the adjustment or, for hexadecimal numbers with internal adjustment, after the prefix; the width is reset to zero. -/
theorem C83_padding (s : Ios) (n : Nat) :
    ∃ p d k, (insertNat { s with width := 0 } n).1 = p ++ d ∧ k = s.width - (p ++ d).length ∧
      (insertNat s n).2 = { s with width := 0 } ∧
      (s.left = true → (insertNat s n).1 = p ++ d ++ List.replicate k s.fill) ∧
      (s.left = false → (s.internal && s.hex && !s.dec && !s.oct) = false → (insertNat s n).1 = List.replicate k s.fill ++ (p ++ d)) ∧
      (s.left = false → (s.internal && s.hex && !s.dec && !s.oct) = true → (insertNat s n).1 = p ++ List.replicate k s.fill ++ d ∧
        (p = [] ∨ p = ['0', 'x'] ∨ p = ['0', 'X']) ∧ (s.showbase = true → n ≠ 0 → p ≠ [])) := by
  have hp : ∃ p, p = (if s.showbase && (s.hex && !s.dec && !s.oct) && decide (n ≠ 0) then ['0', if s.uppercase then 'X' else 'x']
    else if s.showbase && (s.oct && !s.dec && !s.hex) && decide (n ≠ 0) then ['0'] else []) := ⟨_, rfl⟩
  obtain ⟨p, hp⟩ := hp
  refine ⟨p, natText s.uppercase (if (s.oct && !s.dec && !s.hex) = true then 8 else if (s.hex && !s.dec && !s.oct) = true then 16 else 10) n,
    _, ?_, rfl, rfl, ?_, ?_, ?_⟩
  · unfold insertNat
    simp only [← hp]
    simp
  · intro hl
    unfold insertNat
    simp only [← hp, hl, if_true, List.length_append]
  · intro hl hi
    unfold insertNat
    have hi' : (s.internal && (s.hex && !s.dec && !s.oct)) = false := by rw [← hi]; simp [Bool.and_assoc]
    simp only [← hp, hl, hi', Bool.false_eq_true, if_false, List.length_append, List.append_assoc]
  · intro hl hi
    have hi' : (s.internal && (s.hex && !s.dec && !s.oct)) = true := by rw [← hi]; simp [Bool.and_assoc]
    have hx : (s.hex && !s.dec && !s.oct) = true := by
      cases h : (s.hex && !s.dec && !s.oct) <;> simp_all
    refine ⟨?_, ?_, ?_⟩
    · unfold insertNat
      simp only [← hp, hl, hi', Bool.false_eq_true, if_false, if_true, List.length_append, List.append_assoc]
    · have ho : s.oct = false := by cases h : s.oct <;> simp_all
      rw [hp, hx, ho]
      cases s.showbase <;> cases s.uppercase <;> by_cases h0 : n = 0 <;> simp [h0]
    · intro hs h0
      rw [hp, hx, hs]; simp [h0]

/-- C83: the padded text is as long as the wider of the text and the width. -/
theorem C83_length (s : Ios) (n : Nat) :
    (insertNat s n).1.length = Max.max s.width (insertNat { s with width := 0 } n).1.length := by
  obtain ⟨p, d, k, h1, h2, _, h3, h4, h5⟩ := C83_padding s n
  rw [h1]
  cases hl : s.left
  · cases hi : (s.internal && s.hex && !s.dec && !s.oct)
    · rw [h4 hl hi, h2]; simp only [List.length_append, List.length_replicate]; omega
    · rw [(h5 hl hi).1, h2]; simp only [List.length_append, List.length_replicate]; omega
  · rw [h3 hl, h2]; simp only [List.length_append, List.length_replicate]; omega

/-- C83: the width applies to the first number of an engine only: the second one and the streams afterwards have width zero. -/
theorem C83_width (s : Ios) (e : Pcg) :
    (e.insert s).1 = (insertNat { s with dec := true } e.seed).1 ++ [' '] ++ (insertNat { s with dec := true, width := 0 } e.state).1 ∧
    (e.insert s).2 = { s with dec := true, width := 0 } := ⟨rfl, rfl⟩

example : (insertNat { width := 6, left := true, fill := '*' } 255).1 = ['2', '5', '5', '*', '*', '*'] ∧
    (insertNat { width := 6, dec := false, hex := true, showbase := true, internal := true } 255).1 = ['0', 'x', ' ', ' ', 'f', 'f'] ∧
    (insertNat { width := 6 } 255).1 = [' ', ' ', ' ', '2', '5', '5'] := by
  unfold insertNat natText; simp

end Eirin.Props
