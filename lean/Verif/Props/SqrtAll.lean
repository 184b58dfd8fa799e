import Verif.Props.Sqrt
import Verif.Props.Mixed
import Verif.Props.Hypot

/-! # C112: the Newton square root on every 64-bit layout -/

namespace Eirin.Props
open Eirin Spec

/-- A signed 64-bit layout with `f` fraction bits. -/
abbrev L64 (f : Nat) : FxTy := ⟨i64, i128, f, false⟩

theorem sw_L64 {f : Nat} (h0 : 0 < f) (h1 : f ≤ 62) : SW (L64 f) := by
  have : ∀ f < 63, 0 < f → (L64 f).Valid ∧ SignedWide (L64 f) ∧ Storable (L64 f) (2 ^ f) := by decide +kernel
  obtain ⟨a, b, c⟩ := this f (by omega) h0
  exact ⟨a, b, c⟩

/-- Numerator (over 8) of the ratio of the squared initial guess to `2^(e+f)`. -/
def guessRatio (e f : Nat) : Int :=
  if f % 2 = 0 then (if e % 2 = 0 then 8 else if e = 1 then 4 else 9) else (if e % 2 = 0 then 16 else if e = 1 then 8 else 18)

theorem initValue_all (e f : Nat) (he : e ≤ 62) (h0 : 0 < f) (h1 : f ≤ 62) :
    0 < fromInternal (L64 f) (getSqrtInitValue (L64 f) e) ∧
    8 * fromInternal (L64 f) (getSqrtInitValue (L64 f) e) ^ 2 = guessRatio e f * 2 ^ (e + f) := by
  have h : ∀ f < 63, 0 < f → ∀ e < 63,
    0 < fromInternal (L64 f) (getSqrtInitValue (L64 f) (e : Nat)) ∧
    8 * fromInternal (L64 f) (getSqrtInitValue (L64 f) (e : Nat)) ^ 2 = guessRatio e f * 2 ^ (e + f) := by decide +kernel
  exact h f (by omega) h0 e (by omega)

/-- One evaluation of the loop body. -/
theorem newton_step_all {f : Nat} (hf0 : 0 < f) (hf1 : f ≤ 62) {X x E : Int} (n : Nat) (h0 : 0 < X) (h1 : X < 2 ^ 63) (hx0 : 0 < x)
    (hq : x + X * 2 ^ f / x < 2 ^ 63) (hsq : (nextIt (X * 2 ^ f) x) ^ 2 < 2 ^ (63 + f)) :
    sqrtNewton (L64 f) X E (n + 1) x =
      (if |X - nextIt (X * 2 ^ f) x ^ 2 / 2 ^ f| < E then .ok (nextIt (X * 2 ^ f) x)
      else sqrtNewton (L64 f) X E n (nextIt (X * 2 ^ f) x)) := by
  have sw := sw_L64 hf0 hf1
  have hXi : (L64 f).T.InRange X := in64 (by norm_num at *; omega) h1
  have hp : (0 : Int) < 2 ^ f := by positivity
  have hq0 : 0 ≤ X * 2 ^ f / x := Int.ediv_nonneg (by positivity) hx0.le
  set Q := X * 2 ^ f / x with hQ
  set y := nextIt (X * 2 ^ f) x with hy
  have hyd : y = (x + Q) / 2 := rfl
  have e1 : div (L64 f) X x = .ok Q := by
    have e : Int.tdiv (X * 2 ^ (L64 f).f) x = Q := tdiv_eq_ediv (by positivity)
    rw [sw.div_ok rfl hXi (ne_of_gt hx0) (by rw [e]; exact in64 (by norm_num at *; omega) (by norm_num at *; omega)), e]
  have hs : (L64 f).T.InRange (x + Q) := in64 (by norm_num at *; omega) (by norm_num at *; omega)
  have e3 : Int.tdiv (x + Q) 2 = y := tdiv_eq_ediv (by omega)
  have hy0 : 0 ≤ y := by omega
  have hyi : (L64 f).T.InRange y := in64 (by norm_num at *; omega) (by norm_num at *; omega)
  have hs0 : 0 ≤ y ^ 2 / 2 ^ f := Int.ediv_nonneg (by positivity) hp.le
  have hs1 : y ^ 2 / 2 ^ f < 2 ^ 63 := by
    rw [Int.ediv_lt_iff_lt_mul hp, ← pow_add]; exact hsq
  have hsqi : (L64 f).T.InRange (y * y / 2 ^ (L64 f).f) := by
    rw [← pow_two]
    exact in64 (by norm_num at *; omega) (by norm_num at *; omega)
  have hd : (L64 f).T.InRange (X - y ^ 2 / 2 ^ f) := in64 (by norm_num at *; omega) (by norm_num at *; omega)
  conv_lhs => unfold sqrtNewton
  rw [e1, Res.bind_ok, sw.add_ok hs, Res.bind_ok, sw.divInt_ok hs (by norm_num) (by norm_num), Res.bind_ok, e3,
    sw.mul_ok rfl hyi hyi hsqi, Res.bind_ok, show y * y / 2 ^ (L64 f).f = y ^ 2 / 2 ^ f by rw [pow_two],
    sw.sub_ok hd, Res.bind_ok, sw.abs_ok hd (by rw [show (L64 f).T.lo = -2 ^ 63 by rfl]; norm_num at *; omega),
    Res.bind_ok]
  simp only [lt_iff]

/-- From an iterate not below the integer root: the quotient is at most two above it, and the squares do not grow beyond `N + 1`. -/
theorem newton_grow {N x : Int} (hx : 0 < x) (hN : N < (x + 1) ^ 2) {M : Int} (hM : N + 1 ≤ M) (hxM : x ^ 2 ≤ M) (hN0 : 0 ≤ N) :
    nextIt N x ^ 2 ≤ M ∧ ∀ B : Int, 0 < B → M < B ^ 2 → x + N / x < 2 * B := by
  have hq1 := Int.ediv_mul_le N (ne_of_gt hx)
  have hq0 : 0 ≤ N / x := Int.ediv_nonneg hN0 hx.le
  have hle : N / x ≤ x + 2 := by
    have : N / x < x + 3 := by rw [Int.ediv_lt_iff_lt_mul hx]; nlinarith
    omega
  unfold nextIt
  by_cases h2 : N / x = x + 2
  · rw [h2] at hq1
    have e : N + 1 = (x + 1) ^ 2 := by nlinarith
    rw [h2]
    have e2 : (x + (x + 2)) / 2 = x + 1 := by omega
    rw [e2]
    refine ⟨by omega, fun B hB hMB => ?_⟩
    have : x + 1 < B := lt_of_pow_lt_pow_left₀ 2 hB.le (by omega)
    omega
  · have hy : (x + N / x) / 2 ≤ x := by omega
    have hy0 : 0 ≤ (x + N / x) / 2 := by omega
    refine ⟨le_trans (pow_le_pow_left₀ hy0 hy 2) hxM, fun B hB hMB => ?_⟩
    have : x < B := lt_of_pow_lt_pow_left₀ 2 hB.le (by omega)
    omega

/-- The remaining iterations, from an iterate close to the root. -/
theorem newton_rest_all {f : Nat} (hf0 : 0 < f) (hf1 : f ≤ 62) {X E M : Int} (h0 : 0 < X) (h1 : X < 2 ^ 63) (s : ℝ) (hs : 2 ≤ s)
    (hN : s ^ 2 = (X * 2 ^ f : Int)) (hM : X * 2 ^ f + 1 ≤ M) (hM1 : M < 2 ^ (63 + f)) (hM2 : M < 2 ^ 124) :
    ∀ (n : Nat) (x : Int) (d : ℝ), 0 ≤ d → s - 1 < x → x ^ 2 ≤ M → (x : ℝ) - s ≤ Max.max (s * d) (1 / 2) →
    ∃ r, sqrtNewton (L64 f) X E n x = .ok r ∧ s - 1 < r ∧ r ^ 2 ≤ M ∧
      (|X - r ^ 2 / 2 ^ f| < E ∨ (r : ℝ) - s ≤ Max.max (s * (2 * (d / 2) ^ 2 ^ n)) (1 / 2)) := by
  intro n
  induction n with
  | zero =>
    intro x d hd hx hxM he
    refine ⟨x, rfl, hx, hxM, Or.inr ?_⟩
    have : 2 * (d / 2) ^ 2 ^ 0 = d := by ring
    rw [this]; exact he
  | succ n ih =>
    intro x d hd hx hxM he
    obtain ⟨a, b⟩ := nextIt_err (X * 2 ^ f) x s d hs hN hx hd he
    have hx0 : (0 : ℝ) < x := by linarith
    have hxi : 0 < x := by exact_mod_cast hx0
    have hNx : X * 2 ^ f < (x + 1) ^ 2 := by
      have : s ^ 2 < ((x : ℝ) + 1) ^ 2 := pow_lt_pow_left₀ (by linarith) (by linarith) (by norm_num)
      rw [hN] at this; exact_mod_cast this
    obtain ⟨g1, g2⟩ := newton_grow hxi hNx hM hxM (by positivity)
    have hq := g2 (2 ^ 62) (by norm_num) (by rw [← pow_mul]; exact hM2)
    rw [newton_step_all hf0 hf1 n h0 h1 hxi (by norm_num at *; omega) (lt_of_le_of_lt g1 hM1)]
    split
    · rename_i hb
      exact ⟨_, rfl, a, g1, Or.inl hb⟩
    · obtain ⟨r, hr, c1, c2, c3⟩ := ih (nextIt (X * 2 ^ f) x) (d ^ 2 / 2) (by positivity) a g1 b
      refine ⟨r, hr, c1, c2, ?_⟩
      have e : 2 * (d ^ 2 / 2 / 2) ^ 2 ^ n = 2 * (d / 2) ^ 2 ^ (n + 1) := by
        rw [pow_succ 2 n, mul_comm (2 ^ n) 2, pow_mul]; congr 2; ring
      rwa [e] at c3

/-- The size of the first iterate, from the square of the guess (`8 x₀² = k A`, `A ≤ N < 2A`). -/
theorem first_small {x0 N A P k : Int} (hx : 0 < x0) (hA : 0 < A) (hk : 8 * x0 ^ 2 = k * A) (hN0 : A ≤ N) (hN1 : N < 2 * A)
    (hkm : k = 4 ∨ k = 8 ∨ k = 9 ∨ k = 16 ∨ k = 18)
    (hP : 4 * A ≤ P ∨ P = 2 * A ∧ (k ≠ 4 ∧ 100 * N < 91 * P ∨ k = 16)) :
    (x0 ^ 2 + N) ^ 2 < 4 * x0 ^ 2 * P := by
  have key : (k * A + 8 * N) ^ 2 < 32 * (k * A) * P := by
    have hpos : 0 ≤ k * A + 8 * N := by
      have : 0 ≤ 8 * x0 ^ 2 := by positivity
      omega
    rcases hP with h | ⟨rfl, h⟩
    · have h1 : (k * A + 8 * N) ^ 2 < ((k + 16) * A) ^ 2 := pow_lt_pow_left₀ (by nlinarith) hpos (by norm_num)
      have h2 : ((k + 16) * A) ^ 2 ≤ 32 * (k * A) * (4 * A) := by
        rw [mul_pow]; have : 0 < A ^ 2 := by positivity
        rcases hkm with rfl | rfl | rfl | rfl | rfl <;> nlinarith
      have h3 : 32 * (k * A) * (4 * A) ≤ 32 * (k * A) * P := mul_le_mul_of_nonneg_left h (by rw [← hk]; positivity)
      omega
    · rcases h with ⟨h4, h⟩ | rfl
      · have h1 : (25 * (k * A + 8 * N)) ^ 2 < ((25 * k + 364) * A) ^ 2 := pow_lt_pow_left₀ (by nlinarith) (by omega) (by norm_num)
        have h2 : ((25 * k + 364) * A) ^ 2 ≤ 625 * (32 * (k * A) * (2 * A)) := by
          rw [mul_pow]; have : 0 < A ^ 2 := by positivity
          rcases hkm with rfl | rfl | rfl | rfl | rfl <;> first | exact absurd rfl h4 | nlinarith
        rw [mul_pow] at h1
        omega
      · have h1 : (16 * A + 8 * N) ^ 2 < (32 * A) ^ 2 := pow_lt_pow_left₀ (by nlinarith) hpos (by norm_num)
        nlinarith
  have e1 : (k * A + 8 * N) ^ 2 = 64 * (x0 ^ 2 + N) ^ 2 := by rw [← hk]; ring
  have e2 : 32 * (k * A) * P = 64 * (4 * x0 ^ 2 * P) := by rw [← hk]; ring
  rw [e1, e2] at key
  omega

theorem first_use {x0 N P : Int} (hx : 0 < x0) (hN : 0 ≤ N) (h : (x0 ^ 2 + N) ^ 2 < 4 * x0 ^ 2 * P) :
    nextIt N x0 ^ 2 < P ∧ ∀ B : Int, 0 < B → P ≤ B ^ 2 → x0 + N / x0 < 2 * B := by
  have hq1 := Int.ediv_mul_le N (ne_of_gt hx)
  have hq0 : 0 ≤ N / x0 := Int.ediv_nonneg hN hx.le
  have hx2 : 0 < 4 * x0 ^ 2 := by positivity
  have hs : (x0 + N / x0) * x0 ≤ x0 ^ 2 + N := by nlinarith
  have hs2 : ((x0 + N / x0) * x0) ^ 2 ≤ (x0 ^ 2 + N) ^ 2 := pow_le_pow_left₀ (by positivity) hs 2
  have h3 : (x0 + N / x0) ^ 2 < 4 * P := by
    by_contra hc
    push Not at hc
    have := mul_le_mul_of_nonneg_right hc (show 0 ≤ x0 ^ 2 by positivity)
    rw [mul_pow] at hs2
    linarith
  refine ⟨?_, fun B hB hP => ?_⟩
  · unfold nextIt
    have h2 : 2 * ((x0 + N / x0) / 2) ≤ x0 + N / x0 := by omega
    have : (2 * ((x0 + N / x0) / 2)) ^ 2 ≤ (x0 + N / x0) ^ 2 := pow_le_pow_left₀ (by omega) h2 2
    rw [mul_pow] at this
    omega
  · exact lt_of_pow_lt_pow_left₀ 2 (by omega) (by rw [mul_pow]; omega)

/-- The error of the first iterate. -/
theorem first_err {x0 N A k : Int} (hx : 0 < x0) (hA : 0 < A) (hk : 8 * x0 ^ 2 = k * A) (hN0 : A ≤ N) (hN1 : N < 2 * A)
    (hkm : k = 4 ∨ k = 8 ∨ k = 9 ∨ k = 16 ∨ k = 18) (s : ℝ) (hs : 0 < s) (hN : s ^ 2 = N) :
    (nextIt N x0 : ℝ) - s ≤ s * (if k = 4 then 1 / 4 else 1 / 12) := by
  have hx' : (0 : ℝ) < x0 := by exact_mod_cast hx
  have hk' : 8 * (x0 : ℝ) ^ 2 = k * A := by exact_mod_cast hk
  have hN0' : (A : ℝ) ≤ N := by exact_mod_cast hN0
  have hN1' : (N : ℝ) < 2 * A := by exact_mod_cast hN1
  rw [← hN] at hN0' hN1'
  have hfirst := nextIt_le N x0 hx s hN
  have hA' : (0 : ℝ) < A := by exact_mod_cast hA
  split
  · rename_i h4
    rw [h4] at hk'; push_cast at hk'
    have l : s ≤ 2 * x0 := by
      have : s ^ 2 ≤ (2 * (x0 : ℝ)) ^ 2 := by rw [mul_pow]; linarith
      exact le_of_sq_le_sq this (by linarith)
    have u : (x0 : ℝ) ≤ s := le_of_sq_le_sq (by linarith) hs.le
    have : (x0 - s) ^ 2 ≤ (s * (1 / 4)) * (2 * x0) := by nlinarith
    exact le_of_mul_le_mul_right (le_trans hfirst this) (by linarith)
  · rename_i h4
    have k8 : (8 : ℝ) ≤ k := by
      have : 8 ≤ k := by omega
      exact_mod_cast this
    have k18 : (k : ℝ) ≤ 18 := by
      have : k ≤ 18 := by omega
      exact_mod_cast this
    have c1 : 8 * (A : ℝ) ≤ k * A := mul_le_mul_of_nonneg_right k8 hA'.le
    have c2 : (k : ℝ) * A ≤ 18 * A := mul_le_mul_of_nonneg_right k18 hA'.le
    have l : 2 * s ≤ 3 * x0 := by
      have : (2 * s) ^ 2 ≤ (3 * (x0 : ℝ)) ^ 2 := by rw [mul_pow, mul_pow]; linarith
      exact le_of_sq_le_sq this (by linarith)
    have u : 2 * (x0 : ℝ) ≤ 3 * s := by
      have : (2 * (x0 : ℝ)) ^ 2 ≤ (3 * s) ^ 2 := by rw [mul_pow, mul_pow]; linarith
      exact le_of_sq_le_sq this (by linarith)
    have : (x0 - s) ^ 2 ≤ (s * (1 / 12)) * (2 * x0) := by
      have := mul_nonneg (sub_nonneg.2 l) (sub_nonneg.2 u)
      nlinarith
    exact le_of_mul_le_mul_right (le_trans hfirst this) (by linarith)

theorem sqrt_pos_all {f : Nat} (hf0 : 0 < f) (hf1 : f ≤ 62) {X : Int} (h0 : 0 < X) (h1 : X < 2 ^ 63) :
    ∃ (e : Nat) (E : Int), e ≤ 62 ∧ (2 : Int) ^ e ≤ X ∧ X < 2 ^ (e + 1) ∧ 0 ≤ E ∧ E * 65536 ≤ 5 * 2 ^ f ∧
      sqrt (L64 f) X = sqrtNewton (L64 f) X E 5 (fromInternal (L64 f) (getSqrtInitValue (L64 f) e)) := by
  obtain ⟨e, he, h2, h3, h4⟩ := findMsb64 h0 h1
  have heps : ∃ E, epsilon (L64 f) = .ok E ∧ 0 ≤ E ∧ E * 65536 ≤ 5 * 2 ^ f := by
    have h : ∀ f < 63, 0 < f → (match epsilon (L64 f) with
        | .ok e => decide (0 ≤ e ∧ e * 65536 ≤ 5 * 2 ^ f)
        | _ => false) = true := by decide +kernel
    have := h f (by omega) hf0
    split at this
    · rename_i e he
      exact ⟨e, he, of_decide_eq_true this⟩
    · cases this
  obtain ⟨E, hE, E0, E1⟩ := heps
  refine ⟨e, E, h4, h2, h3, E0, E1, ?_⟩
  unfold sqrt
  have hz : ofInt (L64 f) 0 = 0 := by
    have h : ∀ f < 63, 0 < f → ofInt (L64 f) 0 = 0 := by decide +kernel
    exact h f (by omega) hf0
  rw [if_neg (show ¬ i64 = i32 by decide), hz, if_neg (by rw [lt_iff]; omega), if_neg (by rw [eq_iff]; omega),
    show findMsb (L64 f).T X = .ok e from he, Res.bind_ok, hE, Res.bind_ok]

theorem guess_cases (e f : Nat) : guessRatio e f = 4 ∨ guessRatio e f = 8 ∨ guessRatio e f = 9 ∨ guessRatio e f = 16 ∨ guessRatio e f = 18 := by
  unfold guessRatio; split <;> split <;> (try split) <;> simp

/-- The raw form. -/
theorem sqrt_all_raw {f : Nat} (hf0 : 0 < f) (hf1 : f ≤ 62) {X : Int} (h0 : 0 < X) (h1 : X < 2 ^ 63)
    (hev : f % 2 = 0 → 100 * X < 91 * 2 ^ 63) (h62 : f = 62 → 100 * X < 91 * 2 ^ 62) :
    ∃ (r E : Int), sqrt (L64 f) X = .ok r ∧ 0 ≤ r ∧ X * 2 ^ f < (r + 1) ^ 2 ∧ r ^ 2 < 2 ^ (63 + f) ∧ E * 65536 ≤ 5 * 2 ^ f ∧
      (|X - r ^ 2 / 2 ^ f| < E ∨ (2 * r - 1) ^ 2 ≤ 4 * (X * 2 ^ f)) := by
  by_cases hsmall : X * 2 ^ f < 4
  · have hp : (2 : Int) ^ 1 ≤ 2 ^ f := pow_le_pow_right₀ (by norm_num) hf0
    have : X = 1 ∧ f = 1 := by
      have hX : X = 1 := by nlinarith
      subst hX
      refine ⟨rfl, ?_⟩
      by_contra hc
      have : (2 : Int) ^ 2 ≤ 2 ^ f := pow_le_pow_right₀ (by norm_num) (by omega)
      omega
    obtain ⟨rfl, rfl⟩ := this
    exact ⟨1, 0, by decide +kernel, by norm_num, by norm_num, by norm_num, by norm_num, by norm_num⟩
  push Not at hsmall
  obtain ⟨e, E, he, hlo, hhi, E0, E1, hrun⟩ := sqrt_pos_all hf0 hf1 h0 h1
  obtain ⟨i1, i2⟩ := initValue_all e f he hf0 hf1
  rw [hrun]
  clear hrun
  generalize fromInternal (L64 f) (getSqrtInitValue (L64 f) e) = x0 at *
  set N := X * 2 ^ f with hNd
  have hp : (0 : Int) < 2 ^ f := by positivity
  have hN0 : 0 < N := by positivity
  obtain ⟨s, hs0, hN⟩ : ∃ s : ℝ, 0 ≤ s ∧ s ^ 2 = (N : Int) :=
    ⟨Real.sqrt ((N : Int) : ℝ), Real.sqrt_nonneg _, Real.sq_sqrt (by positivity)⟩
  have hs2 : 2 ≤ s := by
    have : (2 : ℝ) ^ 2 ≤ s ^ 2 := by rw [hN]; norm_num; exact_mod_cast hsmall
    exact le_of_sq_le_sq this hs0
  set A := (2 : Int) ^ (e + f) with hAd
  have hA : A = 2 ^ e * 2 ^ f := pow_add _ _ _
  have hA0 : 0 < A := by positivity
  have hNlo : A ≤ N := by rw [hA]; exact mul_le_mul_of_nonneg_right hlo hp.le
  have hNhi : N < 2 * A := by
    rw [hA, hNd, ← mul_assoc, ← pow_succ']; exact mul_lt_mul_of_pos_right hhi hp
  have hkm := guess_cases e f
  have hN124 : N + 1 < 2 ^ 124 := by
    have : N + 2 ≤ 2 ^ 124 := by
      by_cases h : f = 62
      · have := h62 h; rw [hNd, h]; norm_num at *; omega
      · have h2 : (2 : Int) ^ f ≤ 2 ^ 61 := pow_le_pow_right₀ (by norm_num) (by omega)
        have h3 : N ≤ (2 ^ 63 - 1) * 2 ^ f := mul_le_mul_of_nonneg_right (by omega) hp.le
        have h4 : (2 ^ 63 - 1) * (2 : Int) ^ f ≤ (2 ^ 63 - 1) * 2 ^ 61 := mul_le_mul_of_nonneg_left h2 (by norm_num)
        norm_num at *; omega
    omega
  have hN63 : N + 1 < 2 ^ (63 + f) := by
    have h2 : (2 : Int) ^ 1 ≤ 2 ^ f := pow_le_pow_right₀ (by norm_num) hf0
    have h3 : N ≤ (2 ^ 63 - 1) * 2 ^ f := mul_le_mul_of_nonneg_right (by omega) hp.le
    rw [pow_add]; norm_num at *; omega
  have hsm : ∀ P : Int, P = 2 ^ (63 + f) ∨ P = 2 ^ 124 → (x0 ^ 2 + N) ^ 2 < 4 * x0 ^ 2 * P := by
    have main : (x0 ^ 2 + N) ^ 2 < 4 * x0 ^ 2 * 2 ^ (63 + f) := by
      refine first_small i1 hA0 i2 hNlo hNhi hkm ?_
      by_cases h : e = 62
      · right
        refine ⟨by rw [hAd, h, ← pow_succ']; congr 1; omega, ?_⟩
        by_cases hodd : f % 2 = 0
        · left
          refine ⟨by unfold guessRatio; rw [if_pos hodd, if_pos (by omega)]; norm_num, ?_⟩
          have := mul_lt_mul_of_pos_right (hev hodd) hp
          rw [pow_add, hNd]; linarith
        · right; unfold guessRatio; rw [if_neg hodd, if_pos (by omega)]
      · left
        have : (2 : Int) ^ (e + f) * 2 ^ 2 ≤ 2 ^ (63 + f) := by rw [← pow_add]; exact pow_le_pow_right₀ (by norm_num) (by omega)
        rw [hAd]; linarith
    rintro P (rfl | rfl)
    · exact main
    · by_cases h : f = 62
      · have hN7 : 100 * N < 91 * 2 ^ 124 := by have := h62 h; rw [hNd, h]; norm_num at *; omega
        refine first_small i1 hA0 i2 hNlo hNhi hkm ?_
        have he61 : e ≤ 61 := by
          by_contra hc
          have : (2 : Int) ^ 124 ≤ A := pow_le_pow_right₀ (by norm_num) (by omega)
          norm_num at *; omega
        by_cases he' : e = 61
        · right
          refine ⟨by rw [hAd, h, he']; norm_num, Or.inl ⟨by rw [h, he']; decide, hN7⟩⟩
        · left
          have : (2 : Int) ^ (e + f) * 2 ^ 2 ≤ 2 ^ 124 := by rw [← pow_add]; exact pow_le_pow_right₀ (by norm_num) (by omega)
          rw [hAd]; linarith
      · refine lt_of_lt_of_le main (mul_le_mul_of_nonneg_left (pow_le_pow_right₀ (by norm_num) (by omega)) (by positivity))
  obtain ⟨f1, _⟩ := first_use i1 hN0.le (hsm _ (Or.inl rfl))
  obtain ⟨f2, f3⟩ := first_use i1 hN0.le (hsm _ (Or.inr rfl))
  have hq := f3 (2 ^ 62) (by norm_num) (by norm_num)
  have herr := first_err i1 hA0 i2 hNlo hNhi hkm s (by linarith) hN
  have hge := nextIt_ge N x0 i1 s hs0 hN
  -- final conversion
  have conv : ∀ r : Int, s - 1 < r → 0 ≤ r ∧ N < (r + 1) ^ 2 ∧ ((r : ℝ) - s ≤ 1 / 2 → (2 * r - 1) ^ 2 ≤ 4 * N) := by
    intro r hr
    have hr0 : (0 : ℝ) < r := by linarith
    refine ⟨by exact_mod_cast hr0.le, ?_, fun h => ?_⟩
    · have : (N : ℝ) < ((r : ℝ) + 1) ^ 2 := by rw [← hN]; exact pow_lt_pow_left₀ (by linarith) hs0 (by norm_num)
      exact_mod_cast this
    · have h1r : (1 : ℝ) ≤ r := by
        have : 0 < r := by exact_mod_cast hr0
        exact_mod_cast this
      have : (2 * (r : ℝ) - 1) ^ 2 ≤ (2 * s) ^ 2 := pow_le_pow_left₀ (by linarith) (by linarith) 2
      rw [mul_pow, hN] at this
      have h2 : (2 * (r : ℝ) - 1) ^ 2 ≤ 4 * (N : ℝ) := by linarith
      exact_mod_cast h2
  have hstep := newton_step_all hf0 hf1 (E := E) 4 h0 h1 i1 (by rw [← hNd]; norm_num at *; omega) (by rw [← hNd]; exact f1)
  rw [← hNd] at hstep
  rw [hstep]
  generalize nextIt N x0 = x1 at *
  split
  · rename_i hb
    obtain ⟨c1, c2, _⟩ := conv x1 hge
    exact ⟨x1, E, rfl, c1, c2, f1, E1, Or.inl hb⟩
  · set d : ℝ := if guessRatio e f = 4 then 1 / 4 else 1 / 12 with hd
    have hd0 : 0 ≤ d := by rw [hd]; split <;> norm_num
    have hd2 : s * (2 * (d / 2) ^ 2 ^ 4) ≤ 1 / 2 := by
      rw [hd]; split
      · rename_i h4
        have he1 : e = 1 := by
          unfold guessRatio at h4; split at h4 <;> split at h4 <;> (try split at h4) <;> omega
        have hs32 : s < 2 ^ 32 := by
          have : s ^ 2 < ((2 : ℝ) ^ 32) ^ 2 := by
            rw [hN]
            have h5 : A ≤ 2 ^ 63 := pow_le_pow_right₀ (by norm_num) (by omega)
            have : N < 2 ^ 64 := by norm_num at *; omega
            have : (N : ℝ) < ((2 ^ 64 : Int) : ℝ) := by exact_mod_cast this
            push_cast at this; norm_num at this ⊢; exact this
          exact lt_of_pow_lt_pow_left₀ 2 (by norm_num) this
        norm_num at hs32 ⊢; linarith
      · have hs62 : s < 2 ^ 62 := by
          have : s ^ 2 < ((2 : ℝ) ^ 62) ^ 2 := by
            rw [hN]
            have : N < 2 ^ 124 := by omega
            have : (N : ℝ) < ((2 ^ 124 : Int) : ℝ) := by exact_mod_cast this
            push_cast at this; norm_num at this ⊢; exact this
          exact lt_of_pow_lt_pow_left₀ 2 (by norm_num) this
        norm_num at hs62 ⊢; linarith
    obtain ⟨r, hr, r1, r2, r3⟩ := newton_rest_all hf0 hf1 (E := E) (M := Max.max (x1 ^ 2) (N + 1)) h0 h1 s hs2 hN (le_max_right _ _)
      (max_lt f1 hN63) (max_lt f2 hN124) 4 x1 d hd0 hge (le_max_left _ _) (le_max_of_le_left herr)
    obtain ⟨c1, c2, c3⟩ := conv r r1
    exact ⟨r, E, hr, c1, c2, lt_of_le_of_lt r2 (max_lt f1 hN63), E1, r3.imp_right fun h => c3 (le_trans h (max_le hd2 (le_refl _)))⟩

/-- C112: on every signed 64-bit layout with at most 62 fraction bits, `sqrt` of a positive number is defined and never one ulp or more below
the root. It is at most half an ulp above it, unless the loop was left early because the square was within `5/65536` of the argument. For an even
number of fraction bits the argument has to be below 91% of the range (below 0.91 for 62 fraction bits). -/
theorem C112_sqrt (f : Nat) (hf0 : 0 < f) (hf1 : f ≤ 62) (x : Int) (hx : Storable (L64 f) x) (h0 : 0 < val (L64 f) x)
    (hev : f % 2 = 0 → val (L64 f) x < 91 / 100 * 2 ^ (63 - f)) (h62 : f = 62 → val (L64 f) x < 91 / 100) :
    ∃ r, sqrt (L64 f) x = .ok r ∧ Storable (L64 f) r ∧ 0 ≤ val (L64 f) r ∧ val (L64 f) x < (val (L64 f) r + ulp (L64 f)) ^ 2 ∧
      (|val (L64 f) x - val (L64 f) r ^ 2| < 5 / 65536 ∨ (val (L64 f) r - ulp (L64 f) / 2) ^ 2 ≤ val (L64 f) x) := by
  have hpq : (0 : ℚ) < 2 ^ f := by positivity
  have hp : (0 : Int) < 2 ^ f := by positivity
  have h0' : 0 < x := by rw [← val_zero (L64 f), val_lt] at h0; exact h0
  have hlt : x < 2 ^ 63 := (of_in64 hx).2
  have e63 : (2 : ℚ) ^ (63 - f) * 2 ^ f = 2 ^ 63 := by rw [← pow_add]; congr 1; omega
  have hev' : f % 2 = 0 → 100 * x < 91 * 2 ^ 63 := by
    intro h
    have h' := hev h
    unfold val at h'
    rw [div_lt_iff₀ hpq, mul_assoc, e63] at h'
    have : (100 * x : ℚ) < ((91 * 2 ^ 63 : Int) : ℚ) := by push_cast; linarith
    exact_mod_cast this
  have h62' : f = 62 → 100 * x < 91 * 2 ^ 62 := by
    intro h
    have h' := h62 h
    unfold val at h'
    rw [div_lt_iff₀ hpq] at h'
    have : (100 * x : ℚ) < ((91 * 2 ^ 62 : Int) : ℚ) := by
      rw [h] at h'; norm_num at h' ⊢; linarith
    exact_mod_cast this
  obtain ⟨r, E, h1, h2, h3, h4, h5, h6⟩ := sqrt_all_raw hf0 hf1 h0' hlt hev' h62'
  have h3' : (x : ℚ) * 2 ^ f < (r + 1) ^ 2 := by exact_mod_cast h3
  have hr63 : r < 2 ^ 63 := by
    refine lt_of_pow_lt_pow_left₀ 2 (by norm_num) (lt_of_lt_of_le h4 ?_)
    rw [← pow_mul]; exact pow_le_pow_right₀ (by norm_num) (by omega)
  refine ⟨r, h1, in64 (by norm_num; omega) hr63, by rw [← val_zero (L64 f), val_le]; exact h2, ?_, ?_⟩
  · unfold val ulp
    rw [← add_div, div_pow, lt_div_iff₀ (by positivity), div_mul_eq_mul_div, div_lt_iff₀ hpq]
    have := mul_lt_mul_of_pos_right h3' hpq
    show (x : ℚ) * (2 ^ f) ^ 2 < (r + 1) ^ 2 * 2 ^ f
    nlinarith
  · rcases h6 with h6 | h6
    · left
      have l1 := Int.ediv_mul_le (r ^ 2) hp.ne'
      have l2 := Int.lt_ediv_add_one_mul_self (r ^ 2) hp
      rw [abs_lt] at h6
      have a1 : (x : ℚ) * 2 ^ f - r ^ 2 < E * 2 ^ f := by
        have : x * 2 ^ f - r ^ 2 < E * 2 ^ f := by nlinarith
        exact_mod_cast this
      have a2 : -(E * 2 ^ f : ℚ) < (x : ℚ) * 2 ^ f - r ^ 2 := by
        have : -(E * 2 ^ f) < x * 2 ^ f - r ^ 2 := by nlinarith
        exact_mod_cast this
      have a3 : (E : ℚ) * 65536 ≤ 5 * 2 ^ f := by exact_mod_cast h5
      have e : val (L64 f) x - val (L64 f) r ^ 2 = ((x : ℚ) * 2 ^ f - r ^ 2) / (2 ^ f * 2 ^ f) := by unfold val; field_simp
      rw [e, abs_div, abs_of_pos (mul_pos hpq hpq), div_lt_iff₀ (mul_pos hpq hpq)]
      have a4 : (E : ℚ) * 2 ^ f ≤ 5 / 65536 * (2 ^ f * 2 ^ f) := by nlinarith
      exact lt_of_lt_of_le (abs_lt.2 ⟨a2, a1⟩) a4
    · right
      have h6' : (2 * (r : ℚ) - 1) ^ 2 ≤ 4 * (x * 2 ^ f) := by exact_mod_cast h6
      have e : (val (L64 f) r - ulp (L64 f) / 2) ^ 2 = (2 * (r : ℚ) - 1) ^ 2 / (4 * (2 ^ f * 2 ^ f)) := by unfold val ulp; field_simp; ring
      rw [e, div_le_iff₀ (by positivity)]
      unfold val
      show (2 * (r : ℚ) - 1) ^ 2 ≤ x / 2 ^ f * (4 * (2 ^ f * 2 ^ f))
      have e2 : (x : ℚ) / 2 ^ f * (4 * (2 ^ f * 2 ^ f)) = 4 * (x * 2 ^ f) := by field_simp
      rw [e2]; exact h6'

/-- C112: zero and the negative numbers. -/
theorem C112_nonpos (f : Nat) (hf0 : 0 < f) (hf1 : f ≤ 62) (x : Int) :
    (val (L64 f) x < 0 → ∃ z, sqrt (L64 f) x = .ok z ∧ val (L64 f) z = -1) ∧ (val (L64 f) x = 0 → sqrt (L64 f) x = .ok 0) := by
  have hz : ofInt (L64 f) 0 = 0 ∧ ofInt (L64 f) (-1) = -2 ^ f := by
    have h : ∀ f < 63, 0 < f → ofInt (L64 f) 0 = 0 ∧ ofInt (L64 f) (-1) = -2 ^ f := by decide +kernel
    exact h f (by omega) hf0
  constructor
  · intro hlt
    rw [← val_zero (L64 f), val_lt] at hlt
    refine ⟨-2 ^ f, ?_, by unfold val; push_cast; rw [neg_div, div_self (by positivity)]⟩
    unfold sqrt
    rw [if_neg (show ¬ i64 = i32 by decide), hz.1, if_pos (by rw [lt_iff]; exact hlt), hz.2]
  · intro heq
    have : x = 0 := val_inj (F := L64 f) (by rw [heq, val_zero])
    subst this
    unfold sqrt
    rw [if_neg (show ¬ i64 = i32 by decide), hz.1, if_neg (by rw [lt_iff]; omega), if_pos (by rw [eq_iff])]

/-- C112: for an even number of fraction bits the square of the first iterate leaves the range at the top of the range, and the following
subtraction overflows; with 62 fraction bits the first sum overflows for every argument from 1 up, `sqrt(1)` included. -/
theorem C112_ub (f : Nat) (hf0 : 0 < f) (hf1 : f ≤ 62) (hev : f % 2 = 0) (x : Int) (hx : Storable (L64 f) x)
    (hB : (f ≤ 60 ∧ 915 / 1000 * 2 ^ (63 - f) ≤ val (L64 f) x) ∨ (f = 62 ∧ 1 ≤ val (L64 f) x)) : sqrt (L64 f) x = .ub .overflow := by
  have hpq : (0 : ℚ) < 2 ^ f := by positivity
  have hp : (0 : Int) < 2 ^ f := by positivity
  have sw := sw_L64 hf0 hf1
  have hlt : x < 2 ^ 63 := (of_in64 hx).2
  have h62 : 2 ^ 62 ≤ x := by
    rcases hB with ⟨h, hB⟩ | ⟨rfl, hB⟩
    · have e63 : (2 : ℚ) ^ (63 - f) * 2 ^ f = 2 ^ 63 := by rw [← pow_add]; congr 1; omega
      unfold val at hB
      rw [le_div_iff₀ hpq, mul_assoc, e63] at hB
      have : ((2 ^ 62 : Int) : ℚ) ≤ x := by push_cast; norm_num at hB ⊢; linarith
      exact_mod_cast this
    · unfold val at hB
      rw [le_div_iff₀ hpq, one_mul] at hB
      exact_mod_cast hB
  obtain ⟨e, E, he, hlo, hhi, -, -, hrun⟩ := sqrt_pos_all hf0 hf1 (X := x) (by norm_num at h62; omega) hlt
  have he62 : e = 62 := by
    by_contra hc
    have : (2 : Int) ^ (e + 1) ≤ 2 ^ 62 := pow_le_pow_right₀ (by norm_num) (by omega)
    omega
  obtain ⟨i1, i2⟩ := initValue_all e f he hf0 hf1
  rw [hrun]
  clear hrun
  generalize fromInternal (L64 f) (getSqrtInitValue (L64 f) e) = x0 at *
  have hg : guessRatio e f = 8 := by unfold guessRatio; rw [if_pos hev, he62]; rfl
  obtain ⟨g, rfl⟩ : ∃ g, f = 2 * g := ⟨f / 2, by omega⟩
  have hx0 : x0 = 2 ^ (31 + g) := by
    have : x0 ^ 2 = (2 ^ (31 + g)) ^ 2 := by
      rw [hg, he62] at i2
      rw [← pow_mul, show (31 + g) * 2 = 62 + 2 * g by ring]; omega
    exact (pow_left_inj₀ i1.le (by positivity) (by norm_num)).1 this
  have hxi : (L64 (2 * g)).T.InRange x := hx
  have hx0' : x0 = 2 ^ 31 * 2 ^ g := by rw [hx0, pow_add]
  have hg1 : (2 : Int) ^ (2 * g) = 2 ^ g * 2 ^ g := by rw [two_mul, pow_add]
  have hgp : (0 : Int) < 2 ^ g := by positivity
  set Q := x * 2 ^ (2 * g) / x0 with hQ
  have q1 := Int.ediv_mul_le (x * 2 ^ (2 * g)) (ne_of_gt i1)
  have q2 := Int.lt_ediv_add_one_mul_self (x * 2 ^ (2 * g)) i1
  rw [← hQ] at q1 q2
  have q3 : Q * 2 ^ 31 ≤ x * 2 ^ g := by
    rw [hx0', hg1] at q1
    exact le_of_mul_le_mul_right (by linarith) hgp
  have q4 : x * 2 ^ g < (Q + 1) * 2 ^ 31 := by
    rw [hx0', hg1] at q2
    exact lt_of_mul_lt_mul_right (by linarith) hgp.le
  have hg31 : (2 : Int) ^ g ≤ 2 ^ 31 := pow_le_pow_right₀ (by norm_num) (by omega)
  have Q0 : 0 ≤ Q := Int.ediv_nonneg (by have : 0 ≤ x := by norm_num at h62; omega
                                         positivity) i1.le
  have Q1 : Q < 2 ^ 63 := by nlinarith
  have e1 : div (L64 (2 * g)) x x0 = .ok Q := by
    have e : Int.tdiv (x * 2 ^ (L64 (2 * g)).f) x0 = Q := tdiv_eq_ediv (by have : 0 ≤ x := by norm_num at h62; omega
                                                                           positivity)
    rw [sw.div_ok rfl hxi (ne_of_gt i1) (by rw [e]; exact in64 (by norm_num; omega) Q1), e]
  unfold sqrtNewton
  rw [e1, Res.bind_ok]
  rcases hB with ⟨h60, hB⟩ | ⟨h, -⟩
  · have hg30 : (2 : Int) ^ g ≤ 2 ^ 30 := pow_le_pow_right₀ (by norm_num) (by omega)
    have e63 : (2 : ℚ) ^ (63 - 2 * g) * 2 ^ (2 * g) = 2 ^ 63 := by rw [← pow_add]; congr 1; omega
    have hB' : 183 * 2 ^ 62 ≤ 100 * x := by
      unfold val at hB
      rw [le_div_iff₀ hpq, mul_assoc, e63] at hB
      have : ((183 * 2 ^ 62 : Int) : ℚ) ≤ ((100 * x : Int) : ℚ) := by push_cast; norm_num at hB ⊢; linarith
      exact_mod_cast this
    have Q2 : Q < 2 ^ 32 * 2 ^ g := by nlinarith
    have Q3 : 183 * (2 ^ 31 * 2 ^ g) < 100 * (Q + 1) := by nlinarith
    have hs : (L64 (2 * g)).T.InRange (x0 + Q) := in64 (by norm_num; omega) (by rw [hx0']; norm_num at *; omega)
    set y := (x0 + Q) / 2 with hy
    have e3 : Int.tdiv (x0 + Q) 2 = y := tdiv_eq_ediv (by omega)
    have y1 : 14149 * x0 ≤ 10000 * y := by
      have hbig : (2 : Int) ^ 31 * 1 ≤ 2 ^ 31 * 2 ^ g := mul_le_mul_of_nonneg_left (by omega) (by norm_num)
      rw [← hx0'] at hbig Q3; norm_num at hbig; omega
    have y2 : 2 * y ≤ 3 * x0 := by rw [hx0'] at *; norm_num at *; omega
    have hyi : (L64 (2 * g)).T.InRange y := in64 (by norm_num; omega) (by rw [hx0'] at y2; norm_num at *; omega)
    have hsq : x0 * x0 = 2 ^ 62 * 2 ^ (2 * g) := by rw [hx0', hg1]; ring
    have s1 : (2 ^ 63) * 2 ^ (2 * g) ≤ y * y := by
      have : (14149 * x0) * (14149 * x0) ≤ (10000 * y) * (10000 * y) := mul_self_le_mul_self (by omega) y1
      nlinarith
    have s2 : 4 * (y * y) ≤ 9 * (2 ^ 62 * 2 ^ (2 * g)) := by
      have : (2 * y) * (2 * y) ≤ (3 * x0) * (3 * x0) := mul_self_le_mul_self (by omega) y2
      nlinarith
    have t1 : 2 ^ 63 ≤ y * y / 2 ^ (2 * g) := by rw [Int.le_ediv_iff_mul_le hp]; exact s1
    have t2 : y * y / 2 ^ (2 * g) < 9 * 2 ^ 60 + 1 := by rw [Int.ediv_lt_iff_lt_mul hp]; nlinarith
    have hmul : mul (L64 (2 * g)) y y = .ok (y * y / 2 ^ (2 * g) - 2 ^ 64) := by
      rw [mul_nf sw.valid rfl hyi hyi]
      have hr : (L64 (2 * g)).T.InRange (y * y / 2 ^ (2 * g) - 2 ^ 64) := in64 (by norm_num at *; omega) (by norm_num at *; omega)
      rw [← sw.wrap_ok hr]
      congr 1
      conv_rhs => rw [sw.wrap_ok hr, ← sw.wrap_ok hr]
      apply IntTy.wrap_congr
      exact ⟨1, by rw [show (L64 (2 * g)).T.bits = 64 by rfl]; ring⟩
    rw [sw.add_ok hs, Res.bind_ok, sw.divInt_ok hs (by norm_num) (by norm_num), Res.bind_ok, e3, hmul,
      Res.bind_ok, sw.sub_ub]
    · rfl
    · intro hc
      have := (of_in64 hc).2
      norm_num at *; omega
  · have : g = 31 := by omega
    subst this
    have hQx : Q = x := by
      rw [hQ, hx0', hg1]
      norm_num
    rw [sw.add_ub, Res.bind_ub]
    intro hc
    have := (of_in64 hc).2
    rw [hQx, hx0'] at this
    norm_num at *; omega

/-- C112: `hypot` with two and three arguments on these layouts, as long as the sum of the squares is below 91% of the range. -/
theorem C112_hypot (f : Nat) (hf0 : 0 < f) (hf1 : f ≤ 61) (x y z : Int) (hx : Storable (L64 f) x) (hy : Storable (L64 f) y)
    (hz : Storable (L64 f) z) (hB : val (L64 f) x ^ 2 + val (L64 f) y ^ 2 + val (L64 f) z ^ 2 < 91 / 100 * 2 ^ (63 - f)) :
    (∃ h, hypot (L64 f) x y = .ok h ∧ 0 ≤ val (L64 f) h ∧
      |val (L64 f) h ^ 2 - (val (L64 f) x ^ 2 + val (L64 f) y ^ 2)| ≤ 5 / 65536 + (2 * val (L64 f) h + 3) * ulp (L64 f)) ∧
    (∃ h, hypot3 (L64 f) x y z = .ok h ∧ 0 ≤ val (L64 f) h ∧
      |val (L64 f) h ^ 2 - (val (L64 f) x ^ 2 + val (L64 f) y ^ 2 + val (L64 f) z ^ 2)| ≤ 5 / 65536 + (2 * val (L64 f) h + 4) * ulp (L64 f)) := by
  have h := sw_L64 hf0 (by omega : f ≤ 62)
  have hr : (L64 f).r = false := rfl
  have hu : 0 < ulp (L64 f) := by unfold ulp; positivity
  have hu1 : ulp (L64 f) ≤ 1 := by
    unfold ulp; rw [div_le_one (by positivity)]; exact one_le_pow₀ (by norm_num)
  have p1 := sq_nonneg (val (L64 f) x)
  have p2 := sq_nonneg (val (L64 f) y)
  have p3 := sq_nonneg (val (L64 f) z)
  have e63 : (2 : ℚ) ^ (63 - f) * 2 ^ f = 2 ^ 63 := by rw [← pow_add]; congr 1; omega
  have hhi : (L64 f).T.hi = 2 ^ 63 - 1 := rfl
  have hpq : (0 : ℚ) < 2 ^ f := by positivity
  have fit : ∀ w : Int, Storable (L64 f) w → val (L64 f) w ^ 2 < 91 / 100 * 2 ^ (63 - f) → w ^ 2 / 2 ^ f ≤ (L64 f).T.hi := by
    intro w hw hl
    have hp : (0 : Int) < 2 ^ f := by positivity
    have : w ^ 2 / 2 ^ f < 2 ^ 63 := by
      rw [Int.ediv_lt_iff_lt_mul hp]
      unfold val at hl
      rw [div_pow, div_lt_iff₀ (by positivity)] at hl
      have h2 : (w : ℚ) ^ 2 < 91 / 100 * 2 ^ 63 * 2 ^ f := by rw [← e63]; nlinarith
      have : (w : ℚ) ^ 2 < ((2 ^ 63 * 2 ^ f : Int) : ℚ) := by
        push_cast
        refine lt_trans h2 (mul_lt_mul_of_pos_right (by norm_num) hpq)
      exact_mod_cast this
    rw [hhi]; omega
  have small : ∀ s : Int, val (L64 f) s < 91 / 100 * 2 ^ (63 - f) → s < 2 ^ 63 := by
    intro s hs
    unfold val at hs
    rw [div_lt_iff₀ hpq, mul_assoc, e63] at hs
    have : (s : ℚ) < ((2 ^ 63 : Int) : ℚ) := by push_cast; norm_num at hs ⊢; linarith
    exact_mod_cast this
  have root : ∀ s : Int, 0 ≤ s → val (L64 f) s < 91 / 100 * 2 ^ (63 - f) → ∃ r, sqrt (L64 f) s = .ok r ∧ 0 ≤ val (L64 f) r ∧
      |val (L64 f) r ^ 2 - val (L64 f) s| ≤ 5 / 65536 + (2 * val (L64 f) r + 1) * ulp (L64 f) := by
    intro s s0 sB
    rcases s0.eq_or_lt with rfl | s0
    · refine ⟨0, (C112_nonpos f hf0 (by omega) 0).2 (val_zero _), by rw [val_zero], ?_⟩
      rw [val_zero]; norm_num; linarith
    · obtain ⟨r, r1, _, r2, r3, r4⟩ := C112_sqrt f hf0 (by omega) s
        (in64 (by norm_num; omega) (small s sB)) (by rw [← val_zero (L64 f), val_lt]; exact s0) (fun _ => sB) (fun h => by omega)
      refine ⟨r, r1, r2, ?_⟩
      have n1 := mul_nonneg r2 hu.le
      have n2 : ulp (L64 f) ^ 2 ≤ ulp (L64 f) := by nlinarith
      rcases r4 with r4 | r4
      · rw [abs_sub_comm]; nlinarith
      · rw [abs_le]; constructor <;> nlinarith
  obtain ⟨a, a1, a2, -, a3, a4⟩ := hyp_sq h hr hx (fit x hx (by linarith))
  obtain ⟨b, b1, b2, -, b3, b4⟩ := hyp_sq h hr hy (fit y hy (by linarith))
  obtain ⟨c, c1, c2, -, c3, c4⟩ := hyp_sq h hr hz (fit z hz (by linarith))
  have va : val (L64 f) (a + b) = val (L64 f) a + val (L64 f) b := val_add _ _ _
  have vb : val (L64 f) (a + b + c) = val (L64 f) a + val (L64 f) b + val (L64 f) c := by rw [val_add, val_add]
  have s1 : (L64 f).T.InRange (a + b) := in64 (by norm_num; omega) (small _ (by rw [va]; linarith))
  have s2 : (L64 f).T.InRange (a + b + c) := in64 (by norm_num; omega) (small _ (by rw [vb]; linarith))
  obtain ⟨r, r1, r2, r3⟩ := root (a + b) (by omega) (by rw [va]; linarith)
  obtain ⟨q, q1, q2, q3⟩ := root (a + b + c) (by omega) (by rw [vb]; linarith)
  rw [abs_le, va] at r3
  rw [abs_le, vb] at q3
  refine ⟨⟨r, ?_, r2, ?_⟩, ⟨q, ?_, q2, ?_⟩⟩
  · unfold hypot
    rw [a1, Res.bind_ok, b1, Res.bind_ok, h.add_ok s1, Res.bind_ok, r1]
  · rw [abs_le]; constructor <;> linarith [r3.1, r3.2]
  · unfold hypot3
    rw [a1, Res.bind_ok, b1, Res.bind_ok, h.add_ok s1, Res.bind_ok, c1, Res.bind_ok, h.add_ok s2, Res.bind_ok, q1]
  · rw [abs_le]; constructor <;> linarith [q3.1, q3.2]

example : sqrt (L64 40) (2 * 2 ^ 40) = .ok 1554946591242 ∧ sqrt (L64 61) (2 ^ 63 - 1) = .ok 4611686018427387903 ∧
    sqrt (L64 62) (2 ^ 61) = .ok 3260959353716425025 ∧ sqrt (L64 62) (2 ^ 62) = .ub .overflow ∧ sqrt (L64 7) (2 ^ 63 - 1) = .ok 34359738367 ∧
    sqrt (L64 8) (2 ^ 63 - 1) = .ub .overflow ∧ hypot (L64 48) (3 * 2 ^ 48) (4 * 2 ^ 48) = .ok 1407374948941531 ∧
    hypot3 (L64 20) (3 * 2 ^ 20) (4 * 2 ^ 20) (12 * 2 ^ 20) = .ok 13631488 ∧ Storable (L64 48) (4 * 2 ^ 48) := by decide +kernel

end Eirin.Props
