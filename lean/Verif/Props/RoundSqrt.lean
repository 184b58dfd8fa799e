import Verif.Props.SqrtAll
import Verif.Props.RoundLog

/-! # Property C187: the Newton square root of rounding types -/

namespace Eirin.Props
open Eirin Spec

/-- A signed 64-bit rounding layout with `f` fraction bits. -/
abbrev R64 (f : Nat) : FxTy := ⟨i64, i128, f, true⟩

/-- C187 as one would expect it: on 64-bit rounding types `sqrt` is within ten ulps of the root (a generous allowance). -/
def C187_statement : Prop :=
  ∀ f : Nat, 0 < f → f ≤ 62 → ∀ x, Storable (R64 f) x → 1 / 65536 * 5 ≤ val (R64 f) x → val (R64 f) x < 2 ^ (63 - f) / 7 →
    ∃ r, sqrt (R64 f) x = .ok r ∧ |((val (R64 f) r : ℚ) : ℝ) - √((val (R64 f) x : ℚ) : ℝ)| ≤ 10 * (ulp (R64 f) : ℚ)

theorem sw_R64 {f : Nat} (h0 : 0 < f) (h1 : f ≤ 62) : SW (R64 f) := by
  have : ∀ f < 63, 0 < f → (R64 f).Valid ∧ SignedWide (R64 f) ∧ Storable (R64 f) (2 ^ f) := by decide +kernel
  obtain ⟨a, b, c⟩ := this f (by omega) h0
  exact ⟨a, b, c⟩

theorem initValue_r (e f : Nat) (he : e ≤ 62) (h0 : 0 < f) (h1 : f ≤ 62) :
    0 < fromInternal (R64 f) (getSqrtInitValue (R64 f) e) ∧
    8 * fromInternal (R64 f) (getSqrtInitValue (R64 f) e) ^ 2 = guessRatio e f * 2 ^ (e + f) := initValue_all e f he h0 h1

/-- The numbers that a division of a rounding type yields: twice an integer, within one of twice the quotient. -/
theorem div_R64 {f : Nat} (hf0 : 0 < f) (hf1 : f ≤ 62) {X x : Int} (hX : Storable (R64 f) X) (h0 : 0 < X) (hx : 0 < x)
    (hq : 2 * ((X : ℝ) * 2 ^ f / x) + 1 < 2 ^ 63) :
    ∃ Q : Int, div (R64 f) X x = .ok Q ∧ 0 ≤ Q ∧ |(Q : ℝ) - 2 * ((X : ℝ) * 2 ^ f / x)| ≤ 1 := by
  have hF := (sw_R64 hf0 hf1).valid
  obtain ⟨z, n, e, hn, hw⟩ := (C05_div_partial (R64 f) hF rfl (by show f + 2 ≤ 64; omega) X x hX).2 hx.ne'
  have a := nearest_rv hn
  have hx' : (0 : ℝ) < x := by exact_mod_cast hx
  have hX' : (0 : ℝ) < X := by exact_mod_cast h0
  push_cast at a
  rw [rv_eq, rv_eq] at a
  have b := raw_abs (F := R64 f) (n := 1) (B := 1) (by rw [rv_u, abs_mul, abs_of_pos (uR_pos _)]; simp)
  have hp : (0 : ℝ) < 2 ^ f := by positivity
  have c : |(n : ℝ) - X * 2 ^ f / x| ≤ 1 / 2 := by
    have e1 : rv (R64 f) n - rv (R64 f) X / rv (R64 f) x = ((n : ℝ) - X * 2 ^ f / x) / 2 ^ f := by
      unfold rv; simp only; field_simp
    have e2 : uR (R64 f) / 2 = 1 / 2 / 2 ^ f := by unfold uR; simp only; ring
    rw [e1, e2, abs_div, abs_of_pos hp] at a
    exact (div_le_div_iff_of_pos_right hp).1 a
  have hpos : 0 < (X : ℝ) * 2 ^ f / x := by positivity
  obtain ⟨c1, c2⟩ := abs_le.1 c
  have n0 : 0 ≤ n := by
    have : ((-1 : Int) : ℝ) < n := by push_cast; linarith
    have : -1 < n := by exact_mod_cast this
    omega
  have n1 : 2 * n < 2 ^ 63 := by
    have : ((2 * n : Int) : ℝ) < ((2 ^ 63 : Int) : ℝ) := by push_cast; linarith
    exact_mod_cast this
  have ze : z = 2 * n := isWrap_unique hF.tpos hw ⟨in64 (by norm_num; omega) n1, by simp⟩
  refine ⟨z, e, by omega, ?_⟩
  rw [ze]; push_cast; rw [abs_le]; constructor <;> linarith

/-- The square that a rounding type computes: twice an integer, within one of twice the square. -/
theorem sq_R64 {f : Nat} (hf0 : 0 < f) (hf1 : f ≤ 62) {y : Int} (hy : Storable (R64 f) y) (hq : 2 * ((y : ℝ) ^ 2 / 2 ^ f) + 1 < 2 ^ 63) :
    ∃ S : Int, mul (R64 f) y y = .ok S ∧ 0 ≤ S ∧ S < 2 ^ 63 ∧ |(S : ℝ) - 2 * ((y : ℝ) ^ 2 / 2 ^ f)| ≤ 1 := by
  have hF := (sw_R64 hf0 hf1).valid
  obtain ⟨z, n, e, hn, hw⟩ := C05_mul_partial (R64 f) hF rfl y y hy hy
  have a := nearest_rv hn
  push_cast at a
  rw [rv_eq] at a
  have hp : (0 : ℝ) < 2 ^ f := by positivity
  have c : |(n : ℝ) - (y : ℝ) ^ 2 / 2 ^ f| ≤ 1 / 2 := by
    have e1 : rv (R64 f) n - rv (R64 f) y * rv (R64 f) y = ((n : ℝ) - (y : ℝ) ^ 2 / 2 ^ f) / 2 ^ f := by
      unfold rv; simp only; field_simp
    have e2 : uR (R64 f) / 2 = 1 / 2 / 2 ^ f := by unfold uR; simp only; ring
    rw [e1, e2, abs_div, abs_of_pos hp] at a
    exact (div_le_div_iff_of_pos_right hp).1 a
  have hpos : 0 ≤ (y : ℝ) ^ 2 / 2 ^ f := by positivity
  obtain ⟨c1, c2⟩ := abs_le.1 c
  have n0 : 0 ≤ n := by
    have : ((-1 : Int) : ℝ) < n := by push_cast; linarith
    have : -1 < n := by exact_mod_cast this
    omega
  have n1 : 2 * n < 2 ^ 63 := by
    have : ((2 * n : Int) : ℝ) < ((2 ^ 63 : Int) : ℝ) := by push_cast; linarith
    exact_mod_cast this
  have ze : z = 2 * n := isWrap_unique hF.tpos hw ⟨in64 (by norm_num; omega) n1, by simp⟩
  refine ⟨z, e, by omega, by omega, ?_⟩
  rw [ze]; push_cast; rw [abs_le]; constructor <;> linarith

/-- The size of the square of an iterate near `s`, where `s² = 2 X 2^f`. -/
theorem step_square {f : Nat} (hf0 : 0 < f) {X y s : ℝ} (hX8 : 8 ≤ X) (hs0 : 0 < s) (hs : s ^ 2 = 2 * (X * 2 ^ f)) (hs5 : 5 ≤ s) (y1 : s - 1 ≤ y)
    (y3 : y ≤ 5 / 4 * s + 1) : y ^ 2 / 2 ^ f ≤ 3.25 * X + 13.5 ∧ 1 + X + X ≤ 2 * (y ^ 2 / 2 ^ f) := by
  have hp1 : (2 : ℝ) ≤ 2 ^ f := by
    calc (2 : ℝ) = 2 ^ 1 := by norm_num
      _ ≤ 2 ^ f := pow_le_pow_right₀ (by norm_num) hf0
  generalize (2 : ℝ) ^ f = P at *
  have hp : 0 < P := by linarith
  obtain ⟨t, rfl⟩ : ∃ t, s = t * P := ⟨s / P, by field_simp⟩
  have ht0 : 0 < t := by
    by_contra hc
    push Not at hc
    nlinarith
  have ht2 : t ^ 2 * P = 2 * X := by
    have : (t ^ 2 * P) * P = (2 * X) * P := by linarith
    exact mul_right_cancel₀ hp.ne' this
  have htX : t ^ 2 ≤ X := by nlinarith [sq_nonneg t]
  constructor
  · have h1 : y ^ 2 ≤ (5 / 4 * (t * P) + 1) ^ 2 := pow_le_pow_left₀ (by linarith) y3 2
    rw [div_le_iff₀ hp]
    have h2 : (5 / 4 * (t * P) + 1) ^ 2 = 25 / 16 * (t * P) ^ 2 + 5 / 2 * t * P + 1 := by ring
    have h3 : 5 / 2 * t ≤ 1 / 8 * X + 12.5 := by nlinarith [sq_nonneg (t - 10)]
    have h4 := mul_le_mul_of_nonneg_right h3 hp.le
    rw [h2, hs] at h1
    nlinarith
  · have h1 : (t * P - 1) ^ 2 ≤ y ^ 2 := pow_le_pow_left₀ (by linarith) y1 2
    have h2 : (t * P - 1) ^ 2 = (t * P) ^ 2 - 2 * t * P + 1 := by ring
    rw [h2, hs] at h1
    have h3 : 4 * t ≤ 1.5 * X := by
      by_contra hc
      push Not at hc
      nlinarith
    have h4 := mul_le_mul_of_nonneg_right h3 hp.le
    have h5 : (1 + X + X) / 2 ≤ y ^ 2 / P := by
      rw [le_div_iff₀ hp]
      nlinarith
    linarith

/-- One evaluation of the loop body from `x`, where `s² = 2 X 2^f`: the new iterate is within one of the mean of `x` and `s²/x`, and the loop
goes on. -/
theorem newton_step_r {f : Nat} (hf0 : 0 < f) (hf1 : f ≤ 62) {X x E : Int} {s : ℝ} (n : Nat) (hX : Storable (R64 f) X) (h8 : 8 ≤ X) (h7 : 7 * X < 2 ^ 63)
    (hE : E ≤ X) (hs0 : 0 < s) (hs : s ^ 2 = 2 * (X * 2 ^ f)) (hx0 : 0 < x) (hm1 : (x + s ^ 2 / x) / 2 ≤ 5 / 4 * s + 1 / 2) :
    ∃ y : Int, sqrtNewton (R64 f) X E (n + 1) x = sqrtNewton (R64 f) X E n y ∧ 0 < y ∧ s - 1 ≤ y ∧ (y : ℝ) ≤ (x + s ^ 2 / x) / 2 + 1 / 2 := by
  have sw := sw_R64 hf0 hf1
  have hx' : (0 : ℝ) < x := by exact_mod_cast hx0
  have hX8 : (8 : ℝ) ≤ X := by exact_mod_cast h8
  have hX7 : 7 * (X : ℝ) < 2 ^ 63 := by exact_mod_cast h7
  have hp : (0 : ℝ) < 2 ^ f := by positivity
  have hp1 : (2 : ℝ) ≤ 2 ^ f := by
    calc (2 : ℝ) = 2 ^ 1 := by norm_num
      _ ≤ 2 ^ f := pow_le_pow_right₀ (by norm_num) hf0
  have hp2 : (2 : ℝ) ^ f ≤ 2 ^ 62 := pow_le_pow_right₀ (by norm_num) hf1
  have hs5 : 5 ≤ s := by
    by_contra hc
    push Not at hc
    have : s ^ 2 < 25 := by nlinarith
    rw [hs] at this; nlinarith
  have hsmax : s ≤ 0.76 * 2 ^ 62 := by
    by_contra hc
    push Not at hc
    have h1 : (0.76 * 2 ^ 62) ^ 2 < s ^ 2 := pow_lt_pow_left₀ hc (by norm_num) (by norm_num)
    have h2 : s ^ 2 ≤ 2 * (X * 2 ^ 62) := by rw [hs]; exact mul_le_mul_of_nonneg_left (mul_le_mul_of_nonneg_left hp2 (by linarith)) (by norm_num)
    norm_num at h1 h2 hX7; linarith
  have hq2 : s ^ 2 / x = 2 * ((X : ℝ) * 2 ^ f / x) := by rw [hs]; ring
  have hqp : 0 < s ^ 2 / x := by positivity
  obtain ⟨Q, e1, Q0, Q1⟩ := div_R64 hf0 hf1 hX (by omega) hx0 (by rw [← hq2]; norm_num at hsmax hm1 ⊢; linarith)
  rw [← hq2] at Q1
  obtain ⟨Qa, Qb⟩ := abs_le.1 Q1
  have hsum : (x : ℝ) + Q < 2 ^ 63 := by norm_num at hsmax ⊢; linarith
  have hsum' : x + Q < 2 ^ 63 := by exact_mod_cast hsum
  have hs' : (R64 f).T.InRange (x + Q) := in64 (by norm_num; omega) hsum'
  have e3 : Int.tdiv (x + Q) 2 = (x + Q) / 2 := tdiv_eq_ediv (by omega)
  set y := (x + Q) / 2 with hy
  have hyl : ((x : ℝ) + Q - 1) / 2 ≤ y := by
    have : x + Q - 1 ≤ 2 * y := by omega
    have : ((x + Q - 1 : Int) : ℝ) ≤ ((2 * y : Int) : ℝ) := by exact_mod_cast this
    push_cast at this; linarith
  have hyu : (y : ℝ) ≤ (x + Q) / 2 := by
    have : 2 * y ≤ x + Q := by omega
    have : ((2 * y : Int) : ℝ) ≤ ((x + Q : Int) : ℝ) := by exact_mod_cast this
    push_cast at this; linarith
  have hmean : s ≤ (x + s ^ 2 / x) / 2 := by
    have : (x + s ^ 2 / x) / 2 - s = (x - s) ^ 2 / (2 * x) := by field_simp; ring
    have h : 0 ≤ (x - s) ^ 2 / (2 * x) := by positivity
    linarith
  have y1 : s - 1 ≤ y := by linarith
  have y2 : (y : ℝ) ≤ (x + s ^ 2 / x) / 2 + 1 / 2 := by linarith
  have y0 : 0 < y := by
    have : (0 : ℝ) < y := by linarith
    exact_mod_cast this
  have y3 : (y : ℝ) ≤ 5 / 4 * s + 1 := by linarith
  have hyi : (R64 f).T.InRange y := in64 (by norm_num; omega) (by omega)
  obtain ⟨ysq, ysq'⟩ := step_square hf0 hX8 hs0 hs hs5 y1 y3
  obtain ⟨S, e4, S0, S1, S2⟩ := sq_R64 hf0 hf1 hyi (by norm_num at hX7 ⊢; linarith)
  obtain ⟨Sa, Sb⟩ := abs_le.1 S2
  have SX : X + X ≤ S := by
    have : ((X + X : Int) : ℝ) ≤ S := by push_cast; linarith
    exact_mod_cast this
  have hd : (R64 f).T.InRange (X - S) := in64 (by clear * - S1 h8; norm_num at S1 ⊢; omega) (by clear * - S0 h7 h8; norm_num at h7 ⊢; omega)
  have hd2 : (R64 f).T.lo < X - S := by rw [show (R64 f).T.lo = -2 ^ 63 by rfl]; clear * - S1 h8; norm_num at S1 ⊢; omega
  refine ⟨y, ?_, y0, y1, y2⟩
  conv_lhs => unfold sqrtNewton
  rw [e1, Res.bind_ok, sw.add_ok hs', Res.bind_ok, sw.divInt_ok hs' (by norm_num) (by norm_num), Res.bind_ok, e3, e4, Res.bind_ok,
    sw.sub_ok hd, Res.bind_ok, sw.abs_ok hd (by rw [show (R64 f).T.lo = -2 ^ 63 by rfl]; norm_num at *; omega), Res.bind_ok,
    if_neg (by rw [lt_iff, abs_of_neg (by omega)]; omega)]

/-- The remaining iterations, from an iterate close to `s`. -/
theorem newton_rest_r {f : Nat} (hf0 : 0 < f) (hf1 : f ≤ 62) {X E : Int} {s : ℝ} (hX : Storable (R64 f) X) (h8 : 8 ≤ X) (h7 : 7 * X < 2 ^ 63)
    (hE : E ≤ X) (hs5 : 5 ≤ s) (hs : s ^ 2 = 2 * (X * 2 ^ f)) :
    ∀ (n : Nat) (x : Int) (d : ℝ), 0 < x → 0 ≤ d → d ≤ 1 / 4 → s - 1 ≤ x → (x : ℝ) ≤ s + s * d + 1 →
    ∃ r, sqrtNewton (R64 f) X E n x = .ok r ∧ 0 < r ∧ s - 1 ≤ r ∧ (r : ℝ) ≤ s + s * (2 * (d / 2) ^ 2 ^ n) + 1 := by
  intro n
  induction n with
  | zero =>
    intro x d hx hd hd2 h1 h2
    refine ⟨x, rfl, hx, h1, ?_⟩
    rwa [show 2 * (d / 2) ^ 2 ^ 0 = d by ring]
  | succ n ih =>
    intro x d hx hd hd2 h1 h2
    have hx' : (0 : ℝ) < x := by exact_mod_cast hx
    have key : (x + s ^ 2 / x) / 2 ≤ s + s * (d ^ 2 / 2) + 1 / 2 := by
      have e : (x + s ^ 2 / x) / 2 - s = (x - s) ^ 2 / (2 * x) := by field_simp; ring
      have : (x - s) ^ 2 / (2 * x) ≤ s * (d ^ 2 / 2) + 1 / 2 := by
        rw [div_le_iff₀ (by positivity)]
        rcases le_or_gt s x with h | h
        · have a : (x - s) ^ 2 ≤ (s * d + 1) ^ 2 := pow_le_pow_left₀ (by linarith) (by linarith) 2
          have hsd : 0 ≤ s * d := by positivity
          have hsd2 : s * d ≤ s / 4 := by nlinarith
          have b : (s * d + 1) ^ 2 ≤ (s * (d ^ 2 / 2) + 1 / 2) * (2 * s) := by
            have : (s * (d ^ 2 / 2) + 1 / 2) * (2 * s) = (s * d) ^ 2 + s := by ring
            rw [this]; nlinarith
          have c : (s * (d ^ 2 / 2) + 1 / 2) * (2 * s) ≤ (s * (d ^ 2 / 2) + 1 / 2) * (2 * x) :=
            mul_le_mul_of_nonneg_left (by linarith) (by positivity)
          linarith
        · have a : (x - s) ^ 2 ≤ 1 := by nlinarith
          have b : 0 ≤ s * (d ^ 2 / 2) * (2 * x) := by positivity
          nlinarith
      linarith
    have hd3 : d ^ 2 / 2 ≤ 1 / 32 := by nlinarith
    have hsd : s * (d ^ 2 / 2) ≤ s * (1 / 32) := mul_le_mul_of_nonneg_left hd3 (by linarith)
    obtain ⟨y, ey, y0, y1, y2⟩ := newton_step_r hf0 hf1 n hX h8 h7 hE (by linarith) hs hx (by linarith)
    obtain ⟨r, er, r0, r1, r2⟩ := ih y (d ^ 2 / 2) y0 (by positivity) (by linarith) y1 (by linarith)
    refine ⟨r, by rw [ey, er], r0, r1, ?_⟩
    have e : 2 * (d ^ 2 / 2 / 2) ^ 2 ^ n = 2 * (d / 2) ^ 2 ^ (n + 1) := by
      rw [pow_succ 2 n, mul_comm (2 ^ n) 2, pow_mul]; congr 2; ring
    rwa [e] at r2

theorem sqrt_pos_r {f : Nat} (hf0 : 0 < f) (hf1 : f ≤ 62) {X : Int} (h0 : 0 < X) (h1 : X < 2 ^ 63) :
    ∃ (e : Nat) (E : Int), e ≤ 62 ∧ (2 : Int) ^ e ≤ X ∧ X < 2 ^ (e + 1) ∧ E * 65536 ≤ 5 * 2 ^ f + 65535 ∧
      sqrt (R64 f) X = sqrtNewton (R64 f) X E 5 (fromInternal (R64 f) (getSqrtInitValue (R64 f) e)) := by
  obtain ⟨e, he, h2, h3, h4⟩ := findMsb64 h0 h1
  have heps : ∃ E, epsilon (R64 f) = .ok E ∧ E * 65536 ≤ 5 * 2 ^ f + 65535 := by
    have h : ∀ f < 63, 0 < f → (match epsilon (R64 f) with
        | .ok e => decide (e * 65536 ≤ 5 * 2 ^ f + 65535)
        | _ => false) = true := by decide +kernel
    have := h f (by omega) hf0
    split at this
    · rename_i e he
      exact ⟨e, he, of_decide_eq_true this⟩
    · cases this
  obtain ⟨E, hE, E1⟩ := heps
  refine ⟨e, E, h4, h2, h3, E1, ?_⟩
  unfold sqrt
  have hz : ofInt (R64 f) 0 = 0 := by
    have h : ∀ f < 63, 0 < f → ofInt (R64 f) 0 = 0 := by decide +kernel
    exact h f (by omega) hf0
  rw [if_neg (show ¬ i64 = i32 by decide), hz, if_neg (by rw [lt_iff]; omega), if_neg (by rw [eq_iff]; omega),
    show findMsb (R64 f).T X = .ok e from he, Res.bind_ok, hE, Res.bind_ok]

/-- The mean of the initial guess and its partner. -/
theorem guess_mean {x0 A N k : Int} {s : ℝ} (hx : 0 < x0) (hk : 8 * x0 ^ 2 = k * A) (hA : 0 < A) (hN0 : A ≤ N) (hN1 : N < 2 * A)
    (hk1 : 8 ≤ k) (hk2 : k ≤ 18) (hs0 : 0 < s) (hs : s ^ 2 = 2 * N) : (x0 + s ^ 2 / x0) / 2 ≤ 5 / 4 * s := by
  have hx' : (0 : ℝ) < x0 := by exact_mod_cast hx
  have hA' : (0 : ℝ) < A := by exact_mod_cast hA
  have hk' : 8 * (x0 : ℝ) ^ 2 = k * A := by exact_mod_cast hk
  have hN0' : (A : ℝ) ≤ N := by exact_mod_cast hN0
  have hN1' : (N : ℝ) < 2 * A := by exact_mod_cast hN1
  have k8 : (8 : ℝ) ≤ k := by exact_mod_cast hk1
  have k18 : (k : ℝ) ≤ 18 := by exact_mod_cast hk2
  have c1 : 8 * (A : ℝ) ≤ k * A := mul_le_mul_of_nonneg_right k8 hA'.le
  have c2 : (k : ℝ) * A ≤ 18 * A := mul_le_mul_of_nonneg_right k18 hA'.le
  have l : s ≤ 2 * x0 := by
    refine le_of_sq_le_sq ?_ (by linarith)
    rw [mul_pow, hs]; linarith
  have u : (x0 : ℝ) ≤ 2 * s := by
    refine le_of_sq_le_sq ?_ (by linarith)
    rw [mul_pow, hs]; linarith
  have e : x0 + s ^ 2 / x0 = (x0 ^ 2 + s ^ 2) / x0 := by field_simp
  rw [e, div_div, div_le_iff₀ (by positivity)]
  nlinarith [mul_nonneg (sub_nonneg.2 l) (sub_nonneg.2 u)]

/-- C187 (what happens instead): on every signed 64-bit rounding layout with up to 62 fraction bits, `sqrt` of a number not below `5/65536` and
eight ulps, and not above a seventh of the range, is the root of *twice* the number, to within one ulp and a relative error of `2^-47`. -/
theorem C187_sqrt_partial (f : Nat) (hf0 : 0 < f) (hf1 : f ≤ 62) (x : Int) (hx : Storable (R64 f) x) (hlo : 5 / 65536 ≤ val (R64 f) x)
    (h8 : 8 * ulp (R64 f) ≤ val (R64 f) x) (hhi : val (R64 f) x < 2 ^ (63 - f) / 7) :
    ∃ r, sqrt (R64 f) x = .ok r ∧ Storable (R64 f) r ∧
      |((val (R64 f) r : ℚ) : ℝ) - √(2 * ((val (R64 f) x : ℚ) : ℝ))| ≤ (ulp (R64 f) : ℚ) + √(2 * ((val (R64 f) x : ℚ) : ℝ)) / 2 ^ 47 := by
  have hpq : (0 : ℚ) < 2 ^ f := by positivity
  have hp : (0 : ℝ) < 2 ^ f := by positivity
  have hX8 : 8 ≤ x := by
    unfold val ulp at h8
    rw [mul_one_div, div_le_div_iff_of_pos_right (by positivity)] at h8
    exact_mod_cast h8
  have e63 : (2 : ℚ) ^ (63 - f) * 2 ^ f = 2 ^ 63 := by rw [← pow_add]; congr 1; omega
  have hX7 : 7 * x < 2 ^ 63 := by
    unfold val at hhi
    rw [div_lt_iff₀ (by positivity)] at hhi
    change (x : ℚ) < 2 ^ (63 - f) / 7 * 2 ^ f at hhi
    rw [div_mul_eq_mul_div, e63] at hhi
    have : (7 * x : ℚ) < ((2 ^ 63 : Int) : ℚ) := by push_cast; linarith
    exact_mod_cast this
  have hXE : 5 * 2 ^ f ≤ x * 65536 := by
    unfold val at hlo
    rw [div_le_div_iff₀ (by norm_num) (by positivity)] at hlo
    exact_mod_cast hlo
  obtain ⟨e, E, he, b1, b2, hE, hrun⟩ := sqrt_pos_r hf0 hf1 (by omega : 0 < x) (by omega)
  have e3 : 3 ≤ e := by
    by_contra hc
    have : (2 : Int) ^ (e + 1) ≤ 2 ^ 3 := pow_le_pow_right₀ (by norm_num) (by omega)
    norm_num at this; omega
  obtain ⟨i1, i2⟩ := initValue_r e f he hf0 hf1
  generalize fromInternal (R64 f) (getSqrtInitValue (R64 f) e) = x0 at *
  have hEx : E ≤ x := by omega
  obtain ⟨s, hs0, hs⟩ : ∃ s : ℝ, 0 ≤ s ∧ s ^ 2 = 2 * ((x : ℝ) * 2 ^ f) :=
    ⟨√(2 * ((x : ℝ) * 2 ^ f)), Real.sqrt_nonneg _, Real.sq_sqrt (by have : (0 : ℝ) ≤ x := by exact_mod_cast (by omega : 0 ≤ x)
                                                                    positivity)⟩
  have hx8' : (8 : ℝ) ≤ x := by exact_mod_cast hX8
  have hp1 : (2 : ℝ) ≤ 2 ^ f := by
    calc (2 : ℝ) = 2 ^ 1 := by norm_num
      _ ≤ 2 ^ f := pow_le_pow_right₀ (by norm_num) hf0
  have hs5 : 5 ≤ s := by
    by_contra hc
    push Not at hc
    have : s ^ 2 < 25 := by nlinarith
    rw [hs] at this; nlinarith
  have hpi : (0 : Int) < 2 ^ f := by positivity
  have hm := guess_mean (A := 2 ^ (e + f)) (N := x * 2 ^ f) (s := s) i1 i2 (by positivity)
    (by rw [pow_add]; exact mul_le_mul_of_nonneg_right b1 hpi.le)
    (by rw [pow_add, ← mul_assoc, ← pow_succ']; exact mul_lt_mul_of_pos_right b2 hpi)
    (by unfold guessRatio; split <;> split <;> (try split) <;> omega) (by unfold guessRatio; split <;> split <;> (try split) <;> omega)
    (by linarith) (by rw [hs]; push_cast; ring)
  obtain ⟨y, ey, y0, y1, y2⟩ := newton_step_r hf0 hf1 4 hx hX8 hX7 hEx (by linarith) hs i1 (by linarith)
  obtain ⟨r, er, r0, r1, r2⟩ := newton_rest_r hf0 hf1 hx hX8 hX7 hEx hs5 hs 4 y (1 / 4) y0 (by norm_num) (le_refl _) y1 (by linarith)
  have r3 : (r : ℝ) ≤ s + s / 2 ^ 47 + 1 := by norm_num at r2 ⊢; linarith
  have hv : √(2 * ((val (R64 f) x : ℚ) : ℝ)) = s / 2 ^ f := by
    rw [Real.sqrt_eq_iff_mul_self_eq_of_pos (by positivity)]
    unfold val
    push_cast
    have : s / 2 ^ f * (s / 2 ^ f) = s ^ 2 / (2 ^ f * 2 ^ f) := by ring
    rw [this, hs]; field_simp
  have hsmax : s ≤ 0.76 * 2 ^ 62 := by
    by_contra hc
    push Not at hc
    have h1 : (0.76 * 2 ^ 62) ^ 2 < s ^ 2 := pow_lt_pow_left₀ hc (by norm_num) (by norm_num)
    have hp2 : (2 : ℝ) ^ f ≤ 2 ^ 62 := pow_le_pow_right₀ (by norm_num) hf1
    have h2 : s ^ 2 ≤ 2 * (x * 2 ^ 62) := by rw [hs]; exact mul_le_mul_of_nonneg_left (mul_le_mul_of_nonneg_left hp2 (by linarith)) (by norm_num)
    have hX7' : 7 * (x : ℝ) < 2 ^ 63 := by exact_mod_cast hX7
    norm_num at h1 h2 hX7'; linarith
  have rlt : r < 2 ^ 63 := by
    have : (r : ℝ) < ((2 ^ 63 : Int) : ℝ) := by push_cast; norm_num at r3 hsmax ⊢; linarith
    exact_mod_cast this
  refine ⟨r, by rw [hrun, ey, er], in64 (by norm_num; omega) rlt, ?_⟩
  rw [hv, rv_eq, uR_eq]
  unfold rv uR
  simp only
  rw [← sub_div, abs_div, abs_of_pos hp, div_right_comm, ← add_div, div_le_div_iff_of_pos_right hp, abs_le]
  have : 0 ≤ s / 2 ^ 47 := by positivity
  constructor <;> linarith

example : Storable (R64 32) (4 * 2 ^ 32) ∧ 5 / 65536 ≤ val (R64 32) (4 * 2 ^ 32) ∧ 8 * ulp (R64 32) ≤ val (R64 32) (4 * 2 ^ 32) ∧
    val (R64 32) (4 * 2 ^ 32) < 2 ^ (63 - 32) / 7 ∧ sqrt (R64 32) (4 * 2 ^ 32) = .ok 12148002000 := by
  refine ⟨by decide +kernel, by norm_num [val], by norm_num [val, ulp], by norm_num [val], by decide +kernel⟩

/-- C187 is false of the code: `sqrt(4) = 2.828` in `fixed_num<int64_t, int128, 32, true>`. -/
theorem C187_false : ¬ C187_statement := by
  intro h
  obtain ⟨r, e, hr⟩ := h 32 (by norm_num) (by norm_num) (4 * 2 ^ 32) (by decide +kernel) (by norm_num [val]) (by norm_num [val])
  have e' : sqrt (R64 32) (4 * 2 ^ 32) = .ok 12148002000 := by decide +kernel
  rw [e'] at e
  cases e
  have v : ((val (R64 32) (4 * 2 ^ 32) : ℚ) : ℝ) = 2 ^ 2 := by norm_num [val]
  have w : ((val (R64 32) 12148002000 : ℚ) : ℝ) = 12148002000 / 2 ^ 32 := by norm_num [val]
  have u : ((ulp (R64 32) : ℚ) : ℝ) = 1 / 2 ^ 32 := by norm_num [ulp]
  rw [v, w, u, Real.sqrt_sq (by norm_num), abs_le] at hr
  norm_num at hr

end Eirin.Props
