import Verif.Props.Stream

/-! # Property C103: `io::parse` of a `string_view`. -/

namespace Eirin.Props
open Spec

/-- C103 as stated: what `io::parse(view, out)` does depends on the view only, not on what follows it in memory. -/
def C103_statement : Prop := ∀ (view a b : List Char) (old v : Int) (left : List Char),
  ioParseView view a old = .ok (left, v) → ∃ left', ioParseView view b old = .ok (left', v)

/-- C103 is false: the view `1.5` is read as 1.5 before a NUL and as 1 before the character `5`. -/
theorem C103_false : ¬ C103_statement := by
  intro h
  obtain ⟨l, e⟩ := h "1.5".toList ['\x00'] ['5'] 0 98304 ['\x00'] (by decide +kernel)
  have e2 : ioParseView "1.5".toList ['5'] 0 = .ok (['5', '5'], 65536) := by decide +kernel
  rw [e2] at e; cases e

/-- C103: without a readable character behind the view every call is undefined, whatever the view. -/
theorem C103_no_follow (view : List Char) (old : Int) : ioParseView view [] old = .ub .bounds := rfl
example : ioParseView "12".toList [] 3 = .ub .bounds := rfl

/-- C103: if the character behind the view occurs in it, the view is cut there. -/
theorem C103_cut (p q : List Char) (stop : Char) (r : List Char) (old : Int) :
    ioParseView (p ++ stop :: q) (stop :: r) old = ioParseView p (stop :: (q ++ stop :: r)) old := by
  unfold ioParseView; simp
example : ioParseView ("1.".toList ++ '2' :: "5".toList) "2".toList 0 = .ok ("252".toList, 65536) := by decide +kernel

/-- C103, what holds: two characters that do not occur in the view lead to the same value, and to the same position in the view.
Full statement: `C103_statement`; missing (false): characters that occur in the view, and no character at all. -/
theorem C103_follow_partial (view : List Char) (s t : Char) (hs : s ∉ view) (ht : t ∉ view) (r u : List Char) (old v : Int) :
    (∀ left, ioParseView view (s :: r) old = .ok (left, v) → ∃ p q, view = p ++ q ∧ left = q ++ s :: r ∧
      ioParseView view (t :: u) old = .ok (q ++ t :: u, v)) ∧
    (∀ x, ioParseView view (s :: r) old = .ub x ↔ ioParseView view (t :: u) old = .ub x) := by
  unfold ioParseView
  simp only
  rw [ioParse_eq view s r hs, ioParse_eq view t u ht]
  constructor
  · intro left h
    cases hb : ioBody view with
    | ub x => rw [hb] at h; simp at h
    | throw e => rw [hb] at h; simp at h
    | ok o =>
      rw [hb, Res.bind_ok] at h
      rw [Res.bind_ok]
      cases o with
      | none => simp at h; exact ⟨[], view, rfl, h.1.symm, by simp [h.2]⟩
      | some x =>
        obtain ⟨w, q⟩ := x
        obtain ⟨p, hp⟩ := ioBody_suffix hb
        simp at h
        exact ⟨p, q, hp, h.1.symm, by simp [h.2]⟩
  · intro x
    cases hb : ioBody view with
    | ub y => simp
    | throw e => simp
    | ok o => simp

example : 'x' ∉ "-12.375".toList ∧ ioParseView "-12.375".toList ['x'] 5 = .ok (['x'], -811008) ∧
    ioParseView "-12.375".toList ['\x00', 'z'] 5 = .ok (['\x00', 'z'], -811008) := by decide +kernel

/-- C103: a numeral in range with at most four fraction digits, followed by a character that is no part of a numeral, is read as the numeral truncated
to a multiple of one ulp, and the returned pointer is the end of the view. -/
theorem C103_value (neg : Bool) (is : List Nat) (fs : Option (List Nat)) (his : Decimal is) (hfs : Decimal (fracDigits fs))
    (hmag : numeralMag is fs < 2 ^ 15) (hlen : (fracDigits fs).length ≤ 4) (stop : Char) (hst : ¬ DigitChar stop ∧ stop ≠ '.' ∧ stop ≠ '-')
    (r : List Char) (old : Int) :
    ∃ m : Nat, ioParseView (numeral neg is fs) (stop :: r) old = .ok (stop :: r, if neg then -(m : Int) else m) ∧
      IsFloor fixed32 (numeralMag is fs) m :=
  C53_value_partial neg is fs his hfs hmag hlen stop hst r old

example : ioParseView (numeral true [7] (some [2, 5])) ['\x00'] 9 = .ok (['\x00'], -475136) := by decide +kernel

/-- C103: a numeral followed by one of its own digits is misread: `1d` before the character `d` (`d ≠ 1`) gives 1. -/
theorem C103_digit_behind (d : Nat) (hd : d < 10) (h1 : d ≠ 1) (r : List Char) (old : Int) :
    ∃ left, ioParseView (numeral false [1, d] none) (digitOf false d :: r) old = .ok (left, 65536) := by
  have hne : digitOf false d ≠ '1' := by
    interval_cases d <;> first | exact absurd rfl h1 | decide
  have hv : numeral false [1, d] none = ['1'] ++ digitOf false d :: [] := by
    unfold numeral; simp; rfl
  rw [hv, C103_cut]
  refine ⟨digitOf false d :: ([] ++ digitOf false d :: r), ?_⟩
  unfold ioParseView
  simp only
  rw [ioParse_eq ['1'] _ _ (by simpa using hne)]
  have : ioBody ['1'] = .ok (some (65536, [])) := by decide +kernel
  rw [this]; rfl

example : ioParseView "17".toList "7".toList 0 = .ok ("77".toList, 65536) := by decide +kernel

end Eirin.Props
