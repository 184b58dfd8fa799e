import Verif.Model.Ostream
import Verif.Props.Print

/-!
# C96: `operator<<` and the field width
-/

namespace Eirin.Props
open Eirin Eirin.Spec

/-- What the field width means for a number ([facet.num.put.virtuals], Table 101): the whole text is padded to the width — after it for `left`, after
the sign for `internal`, before it otherwise. -/
def fieldText (s : Ios) (t : List Char) : List Char :=
  let pad := List.replicate (s.width - t.length) s.fill
  if s.left then t ++ pad
  else if s.internal then
    match t with
    | '-' :: u => '-' :: (pad ++ u)
    | _ => pad ++ t
  else pad ++ t

/-- C96 as stated: `os << fp` writes the numeral of the number, padded to the field width as for a built-in number, and resets the width. -/
def C96_statement : Prop :=
  ∀ (s : Ios) (x : Int), Storable fixed32 x →
    ∃ t, streamOut fixed32 x s.hex s.dec s.oct s.uppercase = .ok t ∧ insertFixed fixed32 s x = .ok (fieldText s t, { s with width := 0 })

/-- It does not hold: `std::setw(5)` and the number 12 give six characters. -/
theorem C96_false : ¬ C96_statement := by
  intro h
  obtain ⟨t, e, h2⟩ := h { width := 5 } (12 * 65536) (by decide +kernel)
  have e1 : streamOut fixed32 (12 * 65536) false true false false = .ok ['1', '2'] := by decide +kernel
  have e2 : insertFixed fixed32 { width := 5 } (12 * 65536) = .ok ([' ', ' ', ' ', ' ', '1', '2'], {}) := by decide +kernel
  rw [e1] at e
  rw [e2, ← Res.ok.inj e] at h2
  exact absurd h2 (by decide)

/-- C96: with `left` the padding tears the number apart: 12 in a field of five is written `1    2`. -/
theorem C96_witness : insertFixed fixed32 { width := 5, left := true } (12 * 65536) = .ok ("1    2".toList, { left := true }) ∧
    insertFixed fixed64 { width := 6, fill := '*', internal := true } (-3 * 2 ^ 31) = .ok ("*****-1.5".toList, { fill := '*', internal := true }) := by
  decide +kernel

theorem insertChars_zero (cs : List Char) : ∀ s : Ios, s.width = 0 → insertChars s cs = (cs, s) := by
  induction cs with
  | nil => intro s _; rfl
  | cons c cs ih =>
    intro s h
    have h1 : insertChar s c = ([c], s) := by
      obtain ⟨_, _, _, _, _, l, _, w, _⟩ := s
      subst h
      cases l <;> rfl
    unfold insertChars
    rw [h1]
    dsimp only
    rw [ih s h]
    rfl

/-- C96 (partial): exactly what is written, for every type and every formatting state: the padding for a field of one character less surrounds the
first character only, and the width is reset.  Missing from the full statement: it is not the field that was asked for (`C96_exact` tells when it
is). -/
theorem C96_written_partial (F : FxTy) (s : Ios) (x : Int) (c : Char) (cs : List Char)
    (h : streamOut F x s.hex s.dec s.oct s.uppercase = .ok (c :: cs)) :
    insertFixed F s x = .ok (if s.left then c :: (List.replicate (s.width - 1) s.fill ++ cs)
      else List.replicate (s.width - 1) s.fill ++ c :: cs, { s with width := 0 }) := by
  unfold insertFixed
  rw [h, Res.bind_ok]
  unfold insertChars insertChar
  dsimp only
  rw [insertChars_zero cs _ rfl]
  cases s.left <;> simp

example : insertFixed fixed32 { width := 3, fill := '_' } (-98304) = .ok ("__-1.5".toList, { fill := '_' }) := by decide +kernel

/-- C96: the printer's own undefined behaviour is the only one. -/
theorem C96_ub (F : FxTy) (s : Ios) (x : Int) (u : UB) :
    insertFixed F s x = .ub u ↔ streamOut F x s.hex s.dec s.oct s.uppercase = .ub u := by
  unfold insertFixed
  cases streamOut F x s.hex s.dec s.oct s.uppercase <;> simp
example : insertFixed ⟨i64, i128, 61, false⟩ {} 1 = .ub .overflow := by decide +kernel

/-- C96: the length of what is written is the length of the numeral plus the width less one, for a width of at least one. -/
theorem C96_length (F : FxTy) (s s' : Ios) (x : Int) (t out : List Char) (ht : t ≠ [])
    (h : streamOut F x s.hex s.dec s.oct s.uppercase = .ok t) (ho : insertFixed F s x = .ok (out, s')) :
    out.length = t.length + (s.width - 1) := by
  obtain ⟨c, cs, rfl⟩ := List.exists_cons_of_ne_nil ht
  rw [C96_written_partial F s x c cs h] at ho
  have := (Prod.mk.inj (Res.ok.inj ho)).1
  rw [← this]
  split <;> simp <;> omega

theorem fieldText_length (s : Ios) (t : List Char) : (fieldText s t).length = Max.max s.width t.length := by
  unfold fieldText
  dsimp only
  split
  · simp; omega
  split
  · split
    · simp; omega
    · simp; omega
  · simp; omega

/-- C96: the exact cases in which the field is right: a width of at most one, or a numeral of one character. -/
theorem C96_exact (F : FxTy) (s : Ios) (x : Int) (t : List Char) (ht : t ≠ []) (hm : t ≠ ['-'])
    (h : streamOut F x s.hex s.dec s.oct s.uppercase = .ok t) :
    insertFixed F s x = .ok (fieldText s t, { s with width := 0 }) ↔ s.width ≤ 1 ∨ t.length = 1 := by
  obtain ⟨c, cs, rfl⟩ := List.exists_cons_of_ne_nil ht
  constructor
  · intro e
    have h1 := C96_length F s _ x _ _ ht h e
    rw [fieldText_length] at h1
    by_contra hc
    rw [List.length_cons] at h1 hc
    omega
  · intro hc
    rw [C96_written_partial F s x c cs h]
    congr 2
    rcases hc with hc | hc
    · have h0 : s.width - 1 = 0 := by omega
      have h1 : s.width - (c :: cs).length = 0 := by rw [List.length_cons]; omega
      unfold fieldText
      simp only [h0, h1, List.replicate_zero, List.nil_append, List.append_nil, ite_self]
      split
      · rfl
      · split
        · split
          · rename_i u heq; exact heq
          · rfl
        · rfl
    · have hcs : cs = [] := by rw [List.length_cons] at hc; exact List.length_eq_zero_iff.1 (by omega)
      subst hcs
      unfold fieldText
      have h1 : [c].length = 1 := rfl
      simp only [h1, List.append_nil, List.singleton_append]
      split
      · rfl
      · split
        · split
          · rename_i u heq
            obtain ⟨rfl, rfl⟩ := List.cons.inj heq
            exact absurd rfl hm
          · rfl
        · rfl

/-- C96: for the predefined types in decimal the hypotheses hold: the numeral exists and is neither empty nor a lone sign. -/
theorem C96_decimal (F : FxTy) (hF : F = fixed32 ∨ F = fixed64) (s : Ios) (hh : s.hex = false) (hd : s.dec = true) (x : Int) (hx : Storable F x) :
    ∃ t, streamOut F x s.hex s.dec s.oct s.uppercase = .ok t ∧ IsNumeral 10 s.uppercase t (val F x) ∧
      (insertFixed F s x = .ok (fieldText s t, { s with width := 0 }) ↔ s.width ≤ 1 ∨ t.length = 1) := by
  obtain ⟨t, e, hn⟩ := C45_decimal F hF x hx s.oct s.uppercase
  refine ⟨t, by rw [hh, hd]; exact e, hn, ?_⟩
  obtain ⟨is, fs, rfl, hi, -, hnz, -, -⟩ := hn
  have hne : ∃ d ds, is = d :: ds := by
    rcases hnz with rfl | ⟨d, ds, rfl, -⟩
    exacts [⟨0, [], rfl⟩, ⟨d, ds, rfl⟩]
  obtain ⟨d, ds, rfl⟩ := hne
  have hdm : digitOf s.uppercase d ≠ '-' := by
    have hu : digitOf s.uppercase d = digitOf false d := by unfold digitOf; rw [if_pos (hi d (by simp)), if_pos (hi d (by simp))]
    rw [hu]
    have : ∀ d < 10, digitOf false d ≠ '-' := by decide
    exact this d (hi d (by simp))
  apply C96_exact F s x _ _ _ (by rw [hh, hd]; exact e)
  · intro h0
    have := congrArg List.length h0
    simp at this
  · intro h0
    split at h0
    · have := congrArg List.length h0
      simp at this
    · simp at h0
      exact hdm h0.1
example : insertFixed fixed32 { width := 4 } (7 * 65536) = .ok ("   7".toList, {}) := by decide +kernel

end Eirin.Props
