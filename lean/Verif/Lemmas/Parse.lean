import Verif.SpecText
import Verif.Spec
import Verif.Model.Parse
import Verif.Lemmas.Signed
import Mathlib.Data.List.Basic
import Mathlib.Tactic.IntervalCases

/-! # Lemmas about the text-input loops -/

namespace Eirin
open Spec

/-! ### Characters -/

theorem isDigit_iff (c : Char) : isDigit c = true ↔ DigitChar c := by
  unfold isDigit DigitChar
  rw [decide_eq_true_iff]
  exact Iff.rfl

theorem isDigit_digitOf {d : Nat} (h : d < 10) : isDigit (digitOf false d) = true := by
  interval_cases d <;> decide
theorem digitVal_digitOf {d : Nat} (h : d < 10) : digitVal (digitOf false d) = d := by
  interval_cases d <;> decide
theorem digitOf_ne_dot {d : Nat} (h : d < 10) : digitOf false d ≠ '.' := by
  interval_cases d <;> decide
theorem digitOf_ne_minus {d : Nat} (h : d < 10) : digitOf false d ≠ '-' := by
  interval_cases d <;> decide
theorem isDigit_ne_dot {c : Char} (h : isDigit c = true) : c ≠ '.' := by
  rintro rfl; revert h; decide
theorem isDigit_ne_minus {c : Char} (h : isDigit c = true) : c ≠ '-' := by
  rintro rfl; revert h; decide

/-! ### Positional values -/

/-- running positional value, starting from `a` -/
def acc (a : Nat) (ds : List Nat) : Nat := ds.foldl (fun a d => a * 10 + d) a

@[simp] theorem acc_nil (a : Nat) : acc a [] = a := rfl
@[simp] theorem acc_cons (a d : Nat) (ds : List Nat) : acc a (d :: ds) = acc (a * 10 + d) ds := rfl
theorem acc_append (a : Nat) (p q : List Nat) : acc a (p ++ q) = acc (acc a p) q := by
  unfold acc; rw [List.foldl_append]
theorem digitsVal_eq_acc (ds : List Nat) : digitsVal 10 ds = acc 0 ds := rfl

theorem le_acc (a : Nat) (ds : List Nat) : a ≤ acc a ds := by
  induction ds generalizing a with
  | nil => exact le_rfl
  | cons d ds ih => rw [acc_cons]; exact le_trans (by omega) (ih _)

theorem acc_eq (a : Nat) (ds : List Nat) : acc a ds = a * 10 ^ ds.length + acc 0 ds := by
  induction ds generalizing a with
  | nil => simp
  | cons d ds ih =>
    rw [acc_cons, acc_cons, ih, ih (0 * 10 + d), List.length_cons, pow_succ]; ring

theorem acc_lt {ds : List Nat} (h : Decimal ds) : acc 0 ds < 10 ^ ds.length := by
  induction ds with
  | nil => simp
  | cons d ds ih =>
    rw [acc_cons, acc_eq, List.length_cons, pow_succ]
    have := ih (fun x hx => h x (List.mem_cons_of_mem _ hx))
    have hd := h d (List.mem_cons_self)
    nlinarith [Nat.one_le_two_pow (n := ds.length)]

theorem fracVal_eq (ds : List Nat) : fracVal 10 ds = (acc 0 ds : ℚ) / 10 ^ ds.length := by
  induction ds with
  | nil => simp [fracVal]
  | cons d ds ih =>
    unfold fracVal
    rw [ih, acc_cons, acc_eq (0 * 10 + d), List.length_cons, pow_succ, zero_mul, zero_add]
    push_cast
    field_simp

theorem fracVal_append (p q : List Nat) : fracVal 10 (p ++ q) = fracVal 10 p + fracVal 10 q / 10 ^ p.length := by
  rw [fracVal_eq, fracVal_eq, fracVal_eq, acc_append, acc_eq, List.length_append, pow_add]
  push_cast
  field_simp

theorem fracVal_nonneg (ds : List Nat) : 0 ≤ fracVal 10 ds := by rw [fracVal_eq]; positivity
theorem fracVal_lt {ds : List Nat} (h : Decimal ds) : fracVal 10 ds < 1 := by
  rw [fracVal_eq, div_lt_one (by positivity)]
  exact_mod_cast acc_lt h

theorem Spec.Decimal.left {p q : List Nat} (h : Decimal (p ++ q)) : Decimal p := fun d hd => h d (List.mem_append_left _ hd)
theorem Spec.Decimal.right {p q : List Nat} (h : Decimal (p ++ q)) : Decimal q := fun d hd => h d (List.mem_append_right _ hd)
theorem Spec.Decimal.head {d : Nat} {q : List Nat} (h : Decimal (d :: q)) : d < 10 := h d List.mem_cons_self
theorem Spec.Decimal.tail {d : Nat} {q : List Nat} (h : Decimal (d :: q)) : Decimal q := fun e he => h e (List.mem_cons_of_mem _ he)

/-! ### Working types -/

/-- A signed type in which arithmetic with `int` operands is done in the type itself. -/
structure WS (W : IntTy) : Prop where
  sg : W.signed = true
  pos : 0 < W.bits
  prom : W.promote = W
  com : W.common i32 = W

theorem ws32 : WS i32 := ⟨by decide, by decide, by decide, by decide⟩
theorem ws64 : WS i64 := ⟨by decide, by decide, by decide, by decide⟩
theorem ws128 : WS i128 := ⟨by decide, by decide, by decide, by decide⟩

namespace WS
variable {W : IntTy} (h : WS W)
include h

theorem lo_nonpos : W.lo ≤ 0 := by unfold IntTy.lo; rw [h.sg, if_pos rfl]; exact neg_nonpos.2 (by positivity)
theorem nat_in {n : Nat} (hn : (n : Int) ≤ W.hi) : W.InRange n := ⟨le_trans h.lo_nonpos (by positivity), hn⟩
theorem arith_nat {n : Nat} (hn : (n : Int) ≤ W.hi) : arith W n = .ok (n : Int) := arith_of_inRange h.pos (h.nat_in hn)
theorem wrap_nat {n : Nat} (hn : (n : Int) ≤ W.hi) : W.wrap n = n := IntTy.wrap_of_inRange h.pos (h.nat_in hn)

theorem accDigit_ok {a d : Nat} (hd : d < 10) (hn : ((a * 10 + d : Nat) : Int) ≤ W.hi) :
    accDigit W a (digitOf false d) = .ok ((a * 10 + d : Nat) : Int) := by
  unfold accDigit
  have h1 : ((a * 10 : Nat) : Int) ≤ W.hi := le_trans (by push_cast; omega) hn
  have e1 : arith W ((a : Int) * 10) = .ok ((a * 10 : Nat) : Int) := by rw [← h.arith_nat h1]; push_cast; rfl
  have e2 : arith W (((a * 10 : Nat) : Int) + d) = .ok ((a * 10 + d : Nat) : Int) := by rw [← h.arith_nat hn]; push_cast; rfl
  rw [h.com, e1, Res.bind_ok, digitVal_digitOf hd, e2, Res.bind_ok, h.wrap_nat hn]; rfl

theorem accDigit_or (a : Nat) (d : Nat) (hd : d < 10) :
    accDigit W a (digitOf false d) = .ok ((a * 10 + d : Nat) : Int) ∨ accDigit W a (digitOf false d) = .ub .overflow := by
  by_cases hn : ((a * 10 + d : Nat) : Int) ≤ W.hi
  · exact Or.inl (h.accDigit_ok hd hn)
  · right
    unfold accDigit
    rw [h.com]
    by_cases h1 : ((a * 10 : Nat) : Int) ≤ W.hi
    · have e1 : arith W ((a : Int) * 10) = .ok ((a * 10 : Nat) : Int) := by rw [← h.arith_nat h1]; push_cast; rfl
      rw [e1, Res.bind_ok, digitVal_digitOf hd, arith_signed h.sg, if_neg]
      · rfl
      · intro hc; apply hn; have := hc.2; push_cast at this ⊢; exact this
    · rw [arith_signed h.sg, if_neg]
      · rfl
      · intro hc; apply h1; have := hc.2; push_cast at this ⊢; exact this

theorem mulTen_ok {d : Nat} (hn : ((d * 10 : Nat) : Int) ≤ W.hi) : mulTen W d = .ok ((d * 10 : Nat) : Int) := by
  unfold mulTen
  have e1 : arith W ((d : Int) * 10) = .ok ((d * 10 : Nat) : Int) := by rw [← h.arith_nat hn]; push_cast; rfl
  rw [h.com, e1, Res.bind_ok, h.wrap_nat hn]; rfl

theorem mulTen_or (d : Nat) : mulTen W d = .ok ((d * 10 : Nat) : Int) ∨ mulTen W d = .ub .overflow := by
  by_cases hn : ((d * 10 : Nat) : Int) ≤ W.hi
  · exact Or.inl (h.mulTen_ok hn)
  · right
    unfold mulTen
    rw [h.com, arith_signed h.sg, if_neg]
    · rfl
    · intro hc; apply hn; have := hc.2; push_cast at this ⊢; exact this

/-- The integer loop consumes a digit string. -/
theorem intLenient_digits (t : List Char) : ∀ (ds : List Nat) (a : Nat), Decimal ds → ((acc a ds : Nat) : Int) ≤ W.hi →
    intLenient W (ds.map (digitOf false) ++ t) a = intLenient W t (acc a ds) := by
  intro ds
  induction ds with
  | nil => intro a _ _; rfl
  | cons d ds ih =>
    intro a hd hn
    rw [acc_cons] at hn ⊢
    have h10 := hd.head
    have hle : ((a * 10 + d : Nat) : Int) ≤ W.hi := le_trans (by exact_mod_cast le_acc _ ds) hn
    rw [List.map_cons, List.cons_append]
    conv_lhs => unfold intLenient
    rw [if_neg (digitOf_ne_dot h10), isDigit_digitOf h10, h.accDigit_ok h10 hle]
    exact ih _ hd.tail hn

/-- The fraction loop consumes a digit string as long as the running value has not exceeded the limit. -/
theorem fracLenient_digits (lim : Nat) (t : List Char) (hl : ((lim * 10 + 9 : Nat) : Int) ≤ W.hi) :
    ∀ (ds : List Nat) (a dv : Nat), Decimal ds → (∀ p d q, ds = p ++ d :: q → acc a p ≤ lim) →
      ((dv * 10 ^ ds.length : Nat) : Int) ≤ W.hi →
      fracLenient W lim (ds.map (digitOf false) ++ t) a dv = fracLenient W lim t (acc a ds) (dv * 10 ^ ds.length : Nat) := by
  intro ds
  induction ds with
  | nil => intro a dv _ _ _; simp
  | cons d ds ih =>
    intro a dv hd hp hn
    have h10 := hd.head
    have ha : a ≤ lim := hp [] d ds rfl
    have hle : ((a * 10 + d : Nat) : Int) ≤ W.hi := le_trans (by push_cast; omega) hl
    have e : dv * 10 ^ (ds.length + 1) = dv * 10 * 10 ^ ds.length := by rw [pow_succ]; ring
    rw [List.length_cons, e] at hn
    have hdv : ((dv * 10 : Nat) : Int) ≤ W.hi := le_trans (by exact_mod_cast Nat.le_mul_of_pos_right _ (by positivity)) hn
    rw [List.map_cons, List.cons_append, List.length_cons, e, acc_cons]
    conv_lhs => unfold fracLenient
    rw [if_neg (by rw [isDigit_digitOf h10]; push Not; exact ⟨by exact_mod_cast ha, by simp⟩), h.accDigit_ok h10 hle, Res.bind_ok,
      h.mulTen_ok hdv, Res.bind_ok]
    refine ih _ _ hd.tail ?_ hn
    intro p d' q hq
    have := hp (d :: p) d' q (by rw [hq]; rfl)
    rwa [acc_cons] at this

end WS

/-- Where the fraction loop stops in a digit string. -/
theorem cut_split (lim : Nat) : ∀ (ds : List Nat) (a : Nat), ∃ p q, ds = p ++ q ∧ (q ≠ [] → lim < acc a p) ∧
    (∀ p1 d p2, p = p1 ++ d :: p2 → acc a p1 ≤ lim) := by
  intro ds
  induction ds with
  | nil => intro a; exact ⟨[], [], rfl, by simp, by simp⟩
  | cons d ds ih =>
    intro a
    by_cases ha : lim < a
    · exact ⟨[], d :: ds, rfl, fun _ => ha, by simp⟩
    · obtain ⟨p, q, e, h1, h2⟩ := ih (a * 10 + d)
      refine ⟨d :: p, q, by rw [e]; rfl, h1, ?_⟩
      intro p1 d' p2 hp
      cases p1 with
      | nil => simpa using ha
      | cons x p1 =>
        rw [List.cons_append, List.cons.injEq] at hp
        rw [← hp.1, acc_cons]
        exact h2 p1 d' p2 hp.2

/-! ### The strict loops in terms of the lenient ones -/

/-- the loop stopped at the end or at the point -/
def okInt : List Char → Bool
  | [] => true
  | c :: _ => decide (c = '.')

/-- the loop stopped at the end or at a digit -/
def okFrac : List Char → Bool
  | [] => true
  | c :: _ => isDigit c

theorem intStrict_eq (W : IntTy) : ∀ (s : List Char) (a : Int),
    intStrict W s a = (intLenient W s a >>= fun r => .ok (if okInt r.2 then some r else none)) := by
  intro s
  induction s with
  | nil => intro a; rfl
  | cons c cs ih =>
    intro a
    unfold intStrict intLenient
    by_cases h1 : c = '.'
    · rw [if_pos h1, if_pos h1, Res.bind_ok]; simp [okInt, h1]
    · rw [if_neg h1, if_neg h1]
      cases h2 : isDigit c
      · simp [okInt, h1]
      · simp only [Bool.not_true, Bool.false_eq_true, if_false]
        cases hh : accDigit W a c <;> simp only [Res.bind_ok, Res.bind_ub, Res.bind_throw, ih]

theorem fracStrict_eq (W : IntTy) (lim : Int) : ∀ (s : List Char) (a dv : Int),
    fracStrict W lim s a dv = (fracLenient W lim s a dv >>= fun r => .ok (if okFrac r.2.2 then some r else none)) := by
  intro s
  induction s with
  | nil => intro a dv; rfl
  | cons c cs ih =>
    intro a dv
    unfold fracStrict fracLenient
    cases h2 : isDigit c
    · simp [okFrac, h2]
    · by_cases h1 : a > lim
      · simp [h1, okFrac, h2]
      · simp only [h1, Bool.not_true, Bool.false_eq_true, if_false, or_self]
        cases hh : accDigit W a c with
        | ok a' =>
          simp only [Res.bind_ok]
          cases hh' : mulTen W dv <;> simp only [Res.bind_ok, Res.bind_ub, Res.bind_throw, ih]
        | ub u => rfl
        | throw e => rfl

end Eirin
