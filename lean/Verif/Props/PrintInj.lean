import Verif.Props.Print

/-! # Property C82: different numbers are printed differently. -/

namespace Eirin.Props
open Spec

theorem digitOf_facts : ∀ (up : Bool) (d : Fin 16), digitOf up d.val ≠ '-' ∧ digitOf up d.val ≠ '.' ∧
    ((List.range 16).find? fun e => digitOf up e == digitOf up d.val) = some d.val := by decide +kernel

/-- Decoding a digit. -/
def undigit (up : Bool) (c : Char) : Nat := ((List.range 16).find? fun e => digitOf up e == c).getD 0

theorem undigit_digitOf (up : Bool) {d : Nat} (hd : d < 16) : undigit up (digitOf up d) = d := by
  unfold undigit; rw [(digitOf_facts up ⟨d, hd⟩).2.2]; rfl

theorem decode_digits (up : Bool) {l : List Nat} (h : ∀ d ∈ l, d < 16) : (l.map (digitOf up)).map (undigit up) = l := by
  rw [List.map_map]
  conv_rhs => rw [← List.map_id l]
  apply List.map_congr_left
  intro d hd
  exact undigit_digitOf up (h d hd)

/-- The digits before the point are recovered by reading up to the point. -/
theorem takeWhile_digits (up : Bool) {is fs : List Nat} (h : ∀ d ∈ is, d < 16) :
    (is.map (digitOf up) ++ (if fs = [] then [] else '.' :: fs.map (digitOf up))).takeWhile (· != '.') = is.map (digitOf up) ∧
    ((is.map (digitOf up) ++ (if fs = [] then [] else '.' :: fs.map (digitOf up))).dropWhile (· != '.')).tail = fs.map (digitOf up) := by
  induction is with
  | nil =>
    by_cases hf : fs = []
    · simp [hf]
    · rw [if_neg hf]; simp
  | cons d is ih =>
    have hd : (digitOf up d != '.') = true := by
      rw [bne_iff_ne]; exact (digitOf_facts up ⟨d, h d (by simp)⟩).2.1
    obtain ⟨a, b⟩ := ih (fun e he => h e (List.mem_cons_of_mem _ he))
    simp only [List.map_cons, List.cons_append, List.takeWhile_cons, List.dropWhile_cons, hd, if_true]
    exact ⟨by rw [a], b⟩

theorem not_minus (up : Bool) {is fs : List Nat} (h : ∀ d ∈ is, d < 16) (h' : ∀ d ∈ fs, d < 16) :
    '-' ∉ is.map (digitOf up) ++ (if fs = [] then [] else '.' :: fs.map (digitOf up)) := by
  intro hm
  rw [List.mem_append] at hm
  rcases hm with hm | hm
  · obtain ⟨d, hd, e⟩ := List.mem_map.1 hm
    exact (digitOf_facts up ⟨d, h d hd⟩).1 e
  · split at hm
    · simp at hm
    · rcases List.mem_cons.1 hm with e | hm
      · revert e; decide
      · obtain ⟨d, hd, e⟩ := List.mem_map.1 hm
        exact (digitOf_facts up ⟨d, h' d hd⟩).1 e

/-- A text is the numeral of at most one number. -/
theorem numeral_unique {b : Nat} (hb : b ≤ 16) {up : Bool} {s : List Char} {q q' : ℚ} (h : IsNumeral b up s q) (h' : IsNumeral b up s q') :
    q = q' := by
  obtain ⟨is, fs, e, hi, hf, -, -, hq⟩ := h
  obtain ⟨is', fs', e', hi', hf', -, -, hq'⟩ := h'
  have hi := fun d hd => lt_of_lt_of_le (hi d hd) hb
  have hf := fun d hd => lt_of_lt_of_le (hf d hd) hb
  have hi' := fun d hd => lt_of_lt_of_le (hi' d hd) hb
  have hf' := fun d hd => lt_of_lt_of_le (hf' d hd) hb
  rw [List.append_assoc] at e e'
  have hbody : ∀ r r' : List Char, r = is.map (digitOf up) ++ (if fs = [] then [] else '.' :: fs.map (digitOf up)) →
      r' = is'.map (digitOf up) ++ (if fs' = [] then [] else '.' :: fs'.map (digitOf up)) → r = r' → |q| = |q'| := by
    intro r r' hr hr' hrr
    obtain ⟨a, c⟩ := takeWhile_digits up (fs := fs) hi
    obtain ⟨a', c'⟩ := takeWhile_digits up (fs := fs') hi'
    rw [← hr] at a c; rw [← hr'] at a' c'
    rw [hrr] at a c
    have e1 : is = is' := by rw [← decode_digits up hi, ← decode_digits up hi', ← a, ← a']
    have e2 : fs = fs' := by rw [← decode_digits up hf, ← decode_digits up hf', ← c, ← c']
    rw [hq, hq', e1, e2]
  have n1 := not_minus up hi hf
  have n2 := not_minus up hi' hf'
  by_cases c1 : q < 0 <;> by_cases c2 : q' < 0
  · rw [if_pos c1] at e; rw [if_pos c2] at e'
    have := hbody _ _ rfl rfl (List.append_cancel_left (e.symm.trans e'))
    rw [abs_of_neg c1, abs_of_neg c2] at this; linarith
  · rw [if_pos c1] at e; rw [if_neg c2, List.nil_append] at e'
    exfalso; apply n2; rw [← e', e]; simp
  · rw [if_neg c1, List.nil_append] at e; rw [if_pos c2] at e'
    exfalso; apply n1; rw [← e, e']; simp
  · rw [if_neg c1, List.nil_append] at e; rw [if_neg c2, List.nil_append] at e'
    have := hbody _ _ rfl rfl (e.symm.trans e')
    rw [abs_of_nonneg (not_lt.1 c1), abs_of_nonneg (not_lt.1 c2)] at this; exact this

/-- C82: with the same stream flags, two values are printed alike exactly if they are equal. -/
theorem C82_injective (F : FxTy) (hF : F = fixed32 ∨ F = fixed64) (x y : Int) (hx : Storable F x) (hy : Storable F y)
    (hex dec oct up : Bool) : streamOut F x hex dec oct up = streamOut F y hex dec oct up ↔ val F x = val F y := by
  constructor
  · intro h
    have main : ∀ b : Nat, b ≤ 16 → (∃ s, streamOut F x hex dec oct up = .ok s ∧ IsNumeral b up s (val F x)) →
        (∃ s, streamOut F y hex dec oct up = .ok s ∧ IsNumeral b up s (val F y)) → val F x = val F y := by
      rintro b hb ⟨s, e, hs⟩ ⟨s', e', hs'⟩
      rw [e, e'] at h
      cases h
      exact numeral_unique hb hs hs'
    cases hex with
    | true => exact main 16 (le_refl _) (C46_bases F hF x hx dec oct up).1 (C46_bases F hF y hy dec oct up).1
    | false =>
      cases dec with
      | true => exact main 10 (by norm_num) (C45_decimal F hF x hx oct up) (C45_decimal F hF y hy oct up)
      | false =>
        cases oct with
        | true => exact main 8 (by norm_num) (C46_bases F hF x hx false true up).2.1 (C46_bases F hF y hy false true up).2.1
        | false => exact main 2 (by norm_num) (C46_bases F hF x hx false true up).2.2 (C46_bases F hF y hy false true up).2.2
  · intro h; rw [val_inj h]

example : streamOut fixed32 1 false true false false ≠ streamOut fixed32 2 false true false false ∧
    streamOut fixed32 (-65536) true false false false ≠ streamOut fixed32 65536 true false false false := by decide +kernel

end Eirin.Props
