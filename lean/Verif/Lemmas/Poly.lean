import Mathlib.Data.Real.Basic
import Mathlib.Tactic.Linarith
import Mathlib.Tactic.Ring
import Mathlib.Tactic.Positivity
import Mathlib.Algebra.Order.Ring.Abs

/-! # A verified check that an integer polynomial is non-negative on `[0, 1]`

The check bisects the interval; on each piece it bounds the polynomial below by the Horner form with every partial
value replaced by its minimum over `[0, 1]`. -/

namespace Eirin.Poly

/-- Value of the polynomial with coefficients `cs` (constant term first). -/
def pe : List Int → ℝ → ℝ
  | [], _ => 0
  | c :: cs, x => c + x * pe cs x

/-- A lower bound on `[0, 1]`. -/
def low : List Int → Int
  | [] => 0
  | c :: cs => c + min 0 (low cs)

theorem low_le (x : ℝ) (h0 : 0 ≤ x) (h1 : x ≤ 1) : ∀ cs, (low cs : ℝ) ≤ pe cs x
  | [] => by simp [low, pe]
  | c :: cs => by
    have ih := low_le x h0 h1 cs
    simp only [low, pe]
    push_cast
    rcases le_total 0 (pe cs x) with h | h
    · have : min 0 (low cs : ℝ) ≤ 0 := min_le_left _ _
      have := mul_nonneg h0 h
      linarith
    · have h2 : min 0 (low cs : ℝ) ≤ low cs := min_le_right _ _
      nlinarith

/-- Coefficients of `2^(n-1) * p(x/2)`. -/
def half : List Int → List Int
  | [] => []
  | c :: cs => c * 2 ^ cs.length :: half cs

theorem pe_half (x : ℝ) : ∀ cs, 2 * pe (half cs) x = 2 ^ cs.length * pe cs (x / 2)
  | [] => by simp [half, pe]
  | c :: cs => by
    have ih := pe_half x cs
    simp only [half, pe, List.length_cons, pow_succ]
    push_cast
    have : x * (2 * pe (half cs) x) = x * (2 ^ cs.length * pe cs (x / 2)) := by rw [ih]
    nlinarith

/-- Sum of two coefficient lists. -/
def add : List Int → List Int → List Int
  | [], b => b
  | a, [] => a
  | a :: as, b :: bs => (a + b) :: add as bs

theorem pe_add (x : ℝ) : ∀ a b, pe (add a b) x = pe a x + pe b x
  | [], b => by simp [add, pe]
  | a :: as, [] => by simp [add, pe]
  | a :: as, b :: bs => by
    simp only [add, pe, pe_add x as bs]; push_cast; ring

/-- Coefficients of `p(x + 1)`. -/
def shift : List Int → List Int
  | [] => []
  | c :: cs => add (c :: shift cs) (shift cs)

theorem pe_shift (x : ℝ) : ∀ cs, pe (shift cs) x = pe cs (x + 1)
  | [] => by simp [shift, pe]
  | c :: cs => by
    rw [shift, pe_add]
    simp only [pe, pe_shift x cs]; ring

/-- Bisection with a depth limit. -/
def check : Nat → List Int → Bool
  | 0, cs => decide (0 ≤ low cs)
  | n + 1, cs => decide (0 ≤ low cs) || (check n (half cs) && check n (shift (half cs)))

theorem check_sound : ∀ (n : Nat) (cs : List Int), check n cs = true → ∀ x : ℝ, 0 ≤ x → x ≤ 1 → 0 ≤ pe cs x := by
  intro n
  induction n with
  | zero =>
    intro cs h x h0 h1
    simp only [check, decide_eq_true_eq] at h
    exact le_trans (by exact_mod_cast h) (low_le x h0 h1 cs)
  | succ n ih =>
    intro cs h x h0 h1
    simp only [check, Bool.or_eq_true, decide_eq_true_eq, Bool.and_eq_true] at h
    rcases h with h | ⟨hl, hr⟩
    · exact le_trans (by exact_mod_cast h) (low_le x h0 h1 cs)
    · have hp : (0 : ℝ) < 2 ^ cs.length := by positivity
      rcases le_total x (1 / 2) with hx | hx
      · have h3 := ih _ hl (2 * x) (by linarith) (by linarith)
        have h4 := pe_half (2 * x) cs
        rw [show 2 * x / 2 = x by ring] at h4
        by_contra hc
        push Not at hc
        have := mul_neg_of_pos_of_neg hp hc
        linarith
      · have h3 := ih _ hr (2 * x - 1) (by linarith) (by linarith)
        rw [pe_shift] at h3
        have h4 := pe_half (2 * x - 1 + 1) cs
        rw [show (2 * x - 1 + 1) / 2 = x by ring] at h4
        by_contra hc
        push Not at hc
        have := mul_neg_of_pos_of_neg hp hc
        linarith

example : check 6 [2, -5, 4] = true := by decide +kernel

end Eirin.Poly
