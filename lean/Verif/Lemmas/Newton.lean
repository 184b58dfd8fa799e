import Verif.Lemmas.Mixed
import Verif.Lemmas.Sqrt
import Mathlib.Analysis.Real.Sqrt

/-! # The Newton square root of `fixed64` (helper lemmas). -/

namespace Eirin
open Spec

/-! ### Initial guess -/

theorem findMsbLoop_spec : ∀ (fuel : Nat) (v bits : Int), 0 < v → v < 2 ^ (fuel + 1) →
    ∃ e : Nat, findMsbLoop (fuel + 1) v bits = bits + e ∧ (2 : Int) ^ e ≤ v ∧ v < 2 ^ (e + 1) := by
  intro fuel
  induction fuel with
  | zero =>
    intro v bits h0 h1
    have : v = 1 := by norm_num at h1; omega
    subst this
    exact ⟨0, by simp [findMsbLoop], by norm_num, by norm_num⟩
  | succ n ih =>
    intro v bits h0 h1
    unfold findMsbLoop
    by_cases hz : v / 2 = 0
    · rw [if_pos hz]
      have : v = 1 := by omega
      subst this
      exact ⟨0, by simp, by norm_num, by norm_num⟩
    · rw [if_neg hz]
      have hlt : v / 2 < 2 ^ (n + 1) := by rw [pow_succ] at h1; omega
      obtain ⟨e, he, h2, h3⟩ := ih (v / 2) (bits + 1) (by omega) hlt
      refine ⟨e + 1, by rw [he]; push_cast; ring, ?_, ?_⟩
      · rw [pow_succ]; omega
      · rw [pow_succ]; omega

theorem findMsb64 {x : Int} (h0 : 0 < x) (h1 : x < 2 ^ 63) :
    ∃ e : Nat, findMsb fixed64.T x = .ok e ∧ (2 : Int) ^ e ≤ x ∧ x < 2 ^ (e + 1) ∧ e ≤ 62 := by
  obtain ⟨e, he, h2, h3⟩ := findMsbLoop_spec 63 x 0 h0 (lt_trans h1 (by norm_num))
  refine ⟨e, ?_, h2, h3, ?_⟩
  · unfold findMsb
    rw [if_neg (by omega)]
    have hu : (⟨fixed64.T.bits, false⟩ : IntTy).wrap x = x := u64_wrap_of h0.le (by norm_num at *; omega)
    simp only [if_neg (not_lt.2 h0.le), Res.pure_eq, Res.bind_ok, hu]
    rw [show fixed64.T.bits = 63 + 1 by rfl, he]; simp
  · by_contra hc
    have : (2 : Int) ^ 63 ≤ 2 ^ e := pow_le_pow_right₀ (by norm_num) (by omega)
    omega

/-- The initial guess for exponent `e`: `2^16` times the power of two (and a half) nearest below the root. -/
theorem initValue64 : ∀ e : Nat, e ≤ 62 →
    (2 : Int) ^ e * 2 ^ 32 ≤ 2 * (fromInternal fixed64 (getSqrtInitValue fixed64 e)) ^ 2 ∧
    8 * (fromInternal fixed64 (getSqrtInitValue fixed64 e)) ^ 2 ≤ 9 * (2 : Int) ^ e * 2 ^ 32 ∧
    (e ≠ 1 → (2 : Int) ^ e * 2 ^ 32 ≤ (fromInternal fixed64 (getSqrtInitValue fixed64 e)) ^ 2) ∧
    0 < fromInternal fixed64 (getSqrtInitValue fixed64 e) ∧ fromInternal fixed64 (getSqrtInitValue fixed64 e) < 2 ^ 48 := by
  have h : ∀ e : Fin 63,
    (2 : Int) ^ e.val * 2 ^ 32 ≤ 2 * (fromInternal fixed64 (getSqrtInitValue fixed64 e.val)) ^ 2 ∧
    8 * (fromInternal fixed64 (getSqrtInitValue fixed64 e.val)) ^ 2 ≤ 9 * (2 : Int) ^ e.val * 2 ^ 32 ∧
    (e.val ≠ 1 → (2 : Int) ^ e.val * 2 ^ 32 ≤ (fromInternal fixed64 (getSqrtInitValue fixed64 e.val)) ^ 2) ∧
    0 < fromInternal fixed64 (getSqrtInitValue fixed64 e.val) ∧ fromInternal fixed64 (getSqrtInitValue fixed64 e.val) < 2 ^ 48 := by
    decide +kernel
  intro e he
  exact h ⟨e, by omega⟩

/-! ### One iteration -/

/-- The next Newton iterate. -/
def nextIt (N x : Int) : Int := (x + N / x) / 2

theorem nextIt_ge (N x : Int) (hx : 0 < x) (s : ℝ) (hs : 0 ≤ s) (hN : s ^ 2 = N) : s - 1 < nextIt N x := by
  unfold nextIt
  have h1 : x + N / x < 2 * ((x + N / x) / 2) + 2 := by omega
  have h2 : N < N / x * x + x := by have := Int.lt_ediv_add_one_mul_self N hx; rw [add_mul, one_mul] at this; exact this
  have hx' : (0 : ℝ) < x := by exact_mod_cast hx
  have h1' : (x : ℝ) + (N / x : Int) + 1 ≤ 2 * ((x + N / x) / 2 : Int) + 2 := by
    have : x + N / x + 1 ≤ 2 * ((x + N / x) / 2) + 2 := by omega
    exact_mod_cast this
  have h2' : (N : ℝ) < (N / x : Int) * x + x := by exact_mod_cast h2
  -- x * (x + N/x) > x^2 + N - x ≥ 2 s x - x
  have h3 : (2 * s - 1) * x < ((x : ℝ) + (N / x : Int)) * x := by nlinarith [sq_nonneg ((x : ℝ) - s)]
  have h4 : 2 * s - 1 < (x : ℝ) + (N / x : Int) := lt_of_mul_lt_mul_right h3 hx'.le
  linarith

theorem nextIt_le (N x : Int) (hx : 0 < x) (s : ℝ) (hN : s ^ 2 = N) :
    (nextIt N x - s) * (2 * x) ≤ (x - s) ^ 2 := by
  unfold nextIt
  have h1 : 2 * ((x + N / x) / 2) ≤ x + N / x := by omega
  have h2 : N / x * x ≤ N := Int.ediv_mul_le N (ne_of_gt hx)
  have hx' : (0 : ℝ) < x := by exact_mod_cast hx
  have h1' : (2 : ℝ) * ((x + N / x) / 2 : Int) ≤ (x : ℝ) + (N / x : Int) := by exact_mod_cast h1
  have h2' : ((N / x : Int) : ℝ) * x ≤ N := by exact_mod_cast h2
  nlinarith

/-- Quadratic convergence: the error bound after one step from an iterate above `s - 1`. -/
theorem nextIt_err (N x : Int) (s d : ℝ) (hs : 2 ≤ s) (hN : s ^ 2 = N) (hx : s - 1 < x) (hd : 0 ≤ d)
    (he : (x : ℝ) - s ≤ Max.max (s * d) (1 / 2)) :
    s - 1 < nextIt N x ∧ (nextIt N x : ℝ) - s ≤ Max.max (s * (d ^ 2 / 2)) (1 / 2) := by
  have hx0 : (0 : ℝ) < x := by linarith
  have hxi : 0 < x := by exact_mod_cast hx0
  refine ⟨nextIt_ge N x hxi s (by linarith) hN, ?_⟩
  have h := nextIt_le N x hxi s hN
  by_cases hxs : s ≤ x
  · rcases le_max_iff.1 he with h1 | h1
    · apply le_max_of_le_left
      have h2 : (x - s : ℝ) ^ 2 ≤ (s * d) ^ 2 := pow_le_pow_left₀ (by linarith) h1 2
      have h3 : (nextIt N x - s) * (2 * x) ≤ (s * (d ^ 2 / 2)) * (2 * x) := by
        have : (s * d) ^ 2 ≤ (s * (d ^ 2 / 2)) * (2 * x) := by
          have : s * d ^ 2 * s ≤ s * d ^ 2 * x := mul_le_mul_of_nonneg_left hxs (by positivity)
          nlinarith
        linarith
      exact le_of_mul_le_mul_right h3 (by linarith)
    · apply le_max_of_le_right
      have h2 : (x - s : ℝ) ^ 2 ≤ (1 / 2) ^ 2 := pow_le_pow_left₀ (by linarith) h1 2
      have h3 : (nextIt N x - s) * (2 * x) ≤ (1 / 2) * (2 * x) := by nlinarith
      exact le_of_mul_le_mul_right h3 (by linarith)
  · push Not at hxs
    apply le_max_of_le_right
    have h2 : (x - s : ℝ) ^ 2 ≤ 1 := by nlinarith
    have hx1 : (1 : ℝ) ≤ x := by exact_mod_cast hxi
    have h3 : (nextIt N x - s) * (2 * x) ≤ (1 / 2) * (2 * x) := by nlinarith
    exact le_of_mul_le_mul_right h3 (by linarith)

/-- A bound on the iterates is preserved. -/
theorem nextIt_bound (N x : Int) (s K : ℝ) (hs : 2 ≤ s) (hN : s ^ 2 = N) (hx : s - 1 < x) (hsK : s + 1 / 2 ≤ K)
    (hxK : (x : ℝ) ≤ K) : (nextIt N x : ℝ) ≤ K := by
  have hx0 : (0 : ℝ) < x := by linarith
  have hxi : 0 < x := by exact_mod_cast hx0
  have h := nextIt_le N x hxi s hN
  by_cases hxs : s ≤ x
  · have : (x - s : ℝ) ^ 2 ≤ (x - s) * (2 * x) := by nlinarith
    have h2 : (nextIt N x - s : ℝ) * (2 * x) ≤ (x - s) * (2 * x) := by linarith
    have := le_of_mul_le_mul_right h2 (by linarith)
    linarith
  · push Not at hxs
    have h2 : (x - s : ℝ) ^ 2 ≤ 1 := by nlinarith
    have hx1 : (1 : ℝ) ≤ x := by exact_mod_cast hxi
    have h3 : (nextIt N x - s : ℝ) * (2 * x) ≤ (1 / 2) * (2 * x) := by nlinarith
    have := le_of_mul_le_mul_right h3 (by linarith)
    linarith

/-- `epsilon()` of `fixed64`. -/
theorem epsilon64 : epsilon fixed64 = .ok 327680 := by decide +kernel

/-- One evaluation of the loop body. -/
theorem newton_step {X x : Int} (n : Nat) (h0 : 0 < X) (h1 : X < 2 ^ 63) (hx0 : 0 < x) (hx1 : x < 2 ^ 60)
    (hq : X * 2 ^ 32 / x < 2 ^ 60) (hsq : (nextIt (X * 2 ^ 32) x) ^ 2 < 2 ^ 95) :
    sqrtNewton fixed64 X 327680 (n + 1) x =
      (if |X - nextIt (X * 2 ^ 32) x ^ 2 / 2 ^ 32| < 327680 then .ok (nextIt (X * 2 ^ 32) x)
      else sqrtNewton fixed64 X 327680 n (nextIt (X * 2 ^ 32) x)) := by
  have hXi : fixed64.T.InRange X := in64 (by norm_num at *; omega) h1
  have hq0 : 0 ≤ X * 2 ^ 32 / x := Int.ediv_nonneg (by positivity) hx0.le
  set Q := X * 2 ^ 32 / x with hQ
  set y := nextIt (X * 2 ^ 32) x with hy
  have hyd : y = (x + Q) / 2 := rfl
  have e1 : div fixed64 X x = .ok Q := by
    have e : Int.tdiv (X * 2 ^ fixed64.f) x = Q := tdiv_eq_ediv (by positivity)
    rw [sw64.div_ok rfl hXi (ne_of_gt hx0) (by rw [e]; exact in64 (by norm_num at *; omega) (by norm_num at *; omega)), e]
  have hs : fixed64.T.InRange (x + Q) := in64 (by norm_num at *; omega) (by norm_num at *; omega)
  have e3 : Int.tdiv (x + Q) 2 = y := tdiv_eq_ediv (by omega)
  have hy0 : 0 ≤ y := by omega
  have hyi : fixed64.T.InRange y := in64 (by norm_num at *; omega) (by norm_num at *; omega)
  have hs0 : 0 ≤ y ^ 2 := by positivity
  have hsqi : fixed64.T.InRange (y * y / 2 ^ fixed64.f) := by
    rw [show fixed64.f = 32 by rfl, ← pow_two]
    exact in64 (by norm_num at *; omega) (by norm_num at *; omega)
  have hd : fixed64.T.InRange (X - y ^ 2 / 2 ^ 32) := in64 (by norm_num at *; omega) (by norm_num at *; omega)
  conv_lhs => unfold sqrtNewton
  rw [e1, Res.bind_ok, sw64.add_ok hs, Res.bind_ok, sw64.divInt_ok hs (by norm_num) (by norm_num), Res.bind_ok, e3,
    sw64.mul_ok rfl hyi hyi hsqi, Res.bind_ok, show y * y / 2 ^ fixed64.f = y ^ 2 / 2 ^ 32 by rw [pow_two]; rfl,
    sw64.sub_ok hd, Res.bind_ok, sw64.abs_ok hd (by rw [show fixed64.T.lo = -2 ^ 63 by rfl]; norm_num at *; omega),
    Res.bind_ok]
  simp only [lt_iff]

/-- The remaining iterations, from an iterate close to the root. -/
theorem newton_rest {X : Int} (h0 : 0 < X) (h1 : X < 2 ^ 63) (s K : ℝ) (hs : 2 ≤ s) (hN : s ^ 2 = (X * 2 ^ 32 : Int))
    (hsK : s + 1 / 2 ≤ K) (hK : K ^ 2 < 2 ^ 95) : ∀ (n : Nat) (x : Int) (d : ℝ), 0 ≤ d → s - 1 < x → (x : ℝ) ≤ K →
    (x : ℝ) - s ≤ Max.max (s * d) (1 / 2) →
    ∃ r, sqrtNewton fixed64 X 327680 n x = .ok r ∧ s - 1 < r ∧ (r : ℝ) ≤ K ∧
      (|X - r ^ 2 / 2 ^ 32| < 327680 ∨ (r : ℝ) - s ≤ Max.max (s * (2 * (d / 2) ^ 2 ^ n)) (1 / 2)) := by
  intro n
  induction n with
  | zero =>
    intro x d hd hx hxK he
    refine ⟨x, rfl, hx, hxK, Or.inr ?_⟩
    have : 2 * (d / 2) ^ 2 ^ 0 = d := by ring
    rw [this]; exact he
  | succ n ih =>
    intro x d hd hx hxK he
    obtain ⟨a, b⟩ := nextIt_err (X * 2 ^ 32) x s d hs hN hx hd he
    have hx0 : (0 : ℝ) < x := by linarith
    have hxi : 0 < x := by exact_mod_cast hx0
    have hK48 : K < 2 ^ 48 := by
      by_contra hc
      push Not at hc
      have : ((2 : ℝ) ^ 48) ^ 2 ≤ K ^ 2 := pow_le_pow_left₀ (by norm_num) hc 2
      norm_num at this hK; linarith
    -- the next iterate is at most K
    have hyK : (nextIt (X * 2 ^ 32) x : ℝ) ≤ K := nextIt_bound _ x s K hs hN hx hsK hxK
    have hx48 : x < 2 ^ 60 := by
      have : (x : ℝ) < (2 ^ 60 : Int) := by push_cast; norm_num at *; linarith
      exact_mod_cast this
    have hq : X * 2 ^ 32 / x < 2 ^ 60 := by
      rw [Int.ediv_lt_iff_lt_mul hxi]
      have hs2 : s ≤ 2 * x := by linarith
      have : ((X * 2 ^ 32 : Int) : ℝ) < ((2 ^ 60 * x : Int) : ℝ) := by
        rw [← hN]; push_cast
        have h1 : s ^ 2 ≤ 2 * x * s := by nlinarith
        have h2 : s < 2 ^ 48 := by linarith
        have h3 : 2 * (x : ℝ) * s < 2 * x * 2 ^ 48 := mul_lt_mul_of_pos_left h2 (by linarith)
        norm_num at *; linarith
      exact_mod_cast this
    have hy0 : (0 : ℝ) < nextIt (X * 2 ^ 32) x := by linarith
    have hsq : (nextIt (X * 2 ^ 32) x) ^ 2 < 2 ^ 95 := by
      have : (nextIt (X * 2 ^ 32) x : ℝ) ^ 2 ≤ K ^ 2 := pow_le_pow_left₀ hy0.le hyK 2
      have : (nextIt (X * 2 ^ 32) x : ℝ) ^ 2 < 2 ^ 95 := lt_of_le_of_lt this hK
      exact_mod_cast this
    rw [newton_step n h0 h1 hxi hx48 hq hsq]
    split
    · rename_i hb
      exact ⟨_, rfl, a, hyK, Or.inl hb⟩
    · obtain ⟨r, hr, c1, c2, c3⟩ := ih (nextIt (X * 2 ^ 32) x) (d ^ 2 / 2) (by positivity) a hyK b
      refine ⟨r, hr, c1, c2, ?_⟩
      have e : 2 * (d ^ 2 / 2 / 2) ^ 2 ^ n = 2 * (d / 2) ^ 2 ^ (n + 1) := by
        rw [pow_succ 2 n, mul_comm (2 ^ n) 2, pow_mul]; congr 2; ring
      rwa [e] at c3

/-- The least raw value for which the first iterate squares out of range: about `1.83 · 2^62`. -/
def sqrt64Bound : Int := 8432131806905434112

theorem sqrt_pos_eq {X : Int} (h0 : 0 < X) (h1 : X < 2 ^ 63) :
    ∃ e : Nat, e ≤ 62 ∧ (2 : Int) ^ e ≤ X ∧ X < 2 ^ (e + 1) ∧
      sqrt fixed64 X = sqrtNewton fixed64 X 327680 5 (fromInternal fixed64 (getSqrtInitValue fixed64 e)) := by
  obtain ⟨e, he, h2, h3, h4⟩ := findMsb64 h0 h1
  refine ⟨e, h4, h2, h3, ?_⟩
  unfold sqrt
  have hz : ofInt fixed64 0 = 0 := by decide +kernel
  rw [if_neg (by decide), hz, if_neg (by rw [lt_iff]; omega), if_neg (by rw [eq_iff]; omega), he, Res.bind_ok, epsilon64,
    Res.bind_ok]

/-- The Newton square root of `fixed64`, raw form. -/
theorem sqrt64_raw {X : Int} (h0 : 0 < X) (hB : X < sqrt64Bound) :
    ∃ r, sqrt fixed64 X = .ok r ∧ 0 ≤ r ∧ X * 2 ^ 32 < (r + 1) ^ 2 ∧ r ^ 2 < 2 ^ 95 ∧
      (|X - r ^ 2 / 2 ^ 32| < 327680 ∨ (2 * r - 1) ^ 2 ≤ 4 * (X * 2 ^ 32)) := by
  have h1 : X < 2 ^ 63 := by unfold sqrt64Bound at hB; norm_num; omega
  obtain ⟨e, he, hlo, hhi, hrun⟩ := sqrt_pos_eq h0 h1
  obtain ⟨i1, i2, i3, i4, i5⟩ := initValue64 e he
  have hi62 : e = 62 → fromInternal fixed64 (getSqrtInitValue fixed64 e) = 2 ^ 47 := by rintro rfl; decide +kernel
  rw [hrun]
  clear hrun
  generalize fromInternal fixed64 (getSqrtInitValue fixed64 e) = x0 at *
  obtain ⟨s, hs0, hN⟩ : ∃ s : ℝ, 0 ≤ s ∧ s ^ 2 = (X * 2 ^ 32 : Int) :=
    ⟨Real.sqrt ((X * 2 ^ 32 : Int) : ℝ), Real.sqrt_nonneg _, Real.sq_sqrt (by positivity)⟩
  set N := X * 2 ^ 32 with hNd
  rw [pow_succ] at hhi
  have hNlo : (2 : Int) ^ e * 2 ^ 32 ≤ N := mul_le_mul_of_nonneg_right hlo (by norm_num)
  have hNhi : N < 2 * ((2 : Int) ^ e * 2 ^ 32) := by rw [hNd]; nlinarith
  have hx0 : (0 : ℝ) < x0 := by exact_mod_cast i4
  have hs216 : (2 : ℝ) ^ 16 ≤ s := by
    have : ((2 : ℝ) ^ 16) ^ 2 ≤ s ^ 2 := by
      rw [hN]
      have : (2 : Int) ^ 32 ≤ N := by rw [hNd]; omega
      have : ((2 ^ 32 : Int) : ℝ) ≤ (N : ℝ) := by exact_mod_cast this
      norm_num at *; linarith
    exact le_of_sq_le_sq this hs0
  have hs2 : s < 2 * x0 := by
    have h : N < 4 * x0 ^ 2 := by omega
    have : s ^ 2 < (2 * (x0 : ℝ)) ^ 2 := by
      rw [hN]; have : (N : ℝ) < ((4 * x0 ^ 2 : Int) : ℝ) := by exact_mod_cast h
      push_cast at this; linarith
    exact lt_of_pow_lt_pow_left₀ 2 (by linarith) this
  have hsx : (x0 : ℝ) ≤ 1.07 * s := by
    have h : 8 * x0 ^ 2 ≤ 9 * N := by linarith
    have : (x0 : ℝ) ^ 2 ≤ (1.07 * s) ^ 2 := by
      have h' : ((8 * x0 ^ 2 : Int) : ℝ) ≤ ((9 * N : Int) : ℝ) := by exact_mod_cast h
      push_cast at h'
      rw [mul_pow, hN]
      have hN0 : (0 : ℝ) ≤ N := by rw [← hN]; positivity
      norm_num; linarith
    exact le_of_sq_le_sq this (by linarith)
  -- relative error of the first iterate
  have hfirst := nextIt_le N x0 i4 s hN
  have hge := nextIt_ge N x0 i4 s hs0 hN
  have hq4 : (nextIt N x0 : ℝ) - s ≤ s * (1 / 4) := by
    have : (x0 - s) ^ 2 ≤ (s * (1 / 4)) * (2 * x0) := by nlinarith
    exact le_of_mul_le_mul_right (le_trans hfirst this) (by linarith)
  have hq16 : e ≠ 1 → (nextIt N x0 : ℝ) - s ≤ s * (1 / 16) := by
    intro hne
    have h : N < 2 * x0 ^ 2 := by have := i3 hne; omega
    have h7 : 0.704 * s ≤ x0 := by
      have : (0.704 * s) ^ 2 ≤ (x0 : ℝ) ^ 2 := by
        rw [mul_pow, hN]
        have : (N : ℝ) < ((2 * x0 ^ 2 : Int) : ℝ) := by exact_mod_cast h
        push_cast at this
        have hN0 : (0 : ℝ) ≤ N := by rw [← hN]; positivity
        norm_num; linarith
      exact le_of_sq_le_sq this hx0.le
    have : (x0 - s) ^ 2 ≤ (s * (1 / 16)) * (2 * x0) := by
      have hm : (x0 - 0.704 * s) * (x0 - 1.42 * s) ≤ 0 := mul_nonpos_of_nonneg_of_nonpos (by linarith) (by linarith)
      nlinarith
    exact le_of_mul_le_mul_right (le_trans hfirst this) (by linarith)
  generalize hx1d : nextIt N x0 = x1 at *
  -- range of the first iterate
  have hs48 : s < 2 ^ 48 := by
    have : s ^ 2 < ((2 : ℝ) ^ 48) ^ 2 := by
      rw [hN]
      have : N < 2 ^ 96 := by rw [hNd]; norm_num at *; omega
      have : (N : ℝ) < ((2 ^ 96 : Int) : ℝ) := by exact_mod_cast this
      norm_num at *; linarith
    exact lt_of_pow_lt_pow_left₀ 2 (by norm_num) this
  have hx1sq : x1 ^ 2 < 2 ^ 95 := by
    by_cases h62 : e = 62
    · have hx0e := hi62 h62
      have : x1 = (2 ^ 47 + X / 2 ^ 15) / 2 := by
        rw [← hx1d, hx0e]; unfold nextIt
        have : N / 2 ^ 47 = X / 2 ^ 15 := by
          rw [hNd, show (2 : Int) ^ 47 = 2 ^ 15 * 2 ^ 32 by norm_num, Int.mul_ediv_mul_of_pos_left _ _ (by norm_num)]
        rw [this]
      have hle : x1 ≤ 199032864766430 := by
        rw [this]; unfold sqrt64Bound at hB; norm_num; omega
      have h0' : 0 ≤ x1 := by rw [this]; norm_num; omega
      calc x1 ^ 2 ≤ 199032864766430 ^ 2 := pow_le_pow_left₀ h0' hle 2
        _ < 2 ^ 95 := by norm_num
    · have h61 : e ≤ 61 := by omega
      have hp : (2 : Int) ^ e ≤ 2 ^ 61 := pow_le_pow_right₀ (by norm_num) h61
      have hs47 : s < 2 ^ 47 := by
        have : s ^ 2 < ((2 : ℝ) ^ 47) ^ 2 := by
          rw [hN]
          have : N < 2 ^ 94 := by norm_num at *; omega
          have : (N : ℝ) < ((2 ^ 94 : Int) : ℝ) := by exact_mod_cast this
          norm_num at *; linarith
        exact lt_of_pow_lt_pow_left₀ 2 (by norm_num) this
      have : (x1 : ℝ) ≤ 5 / 4 * 2 ^ 47 := by linarith
      have h0' : (0 : ℝ) ≤ x1 := by norm_num at hs216; linarith
      have : (x1 : ℝ) ^ 2 ≤ (5 / 4 * 2 ^ 47) ^ 2 := pow_le_pow_left₀ h0' this 2
      have : (x1 : ℝ) ^ 2 < 2 ^ 95 := lt_of_le_of_lt this (by norm_num)
      exact_mod_cast this
  have hQ : N / x0 < 2 ^ 60 := by
    rw [Int.ediv_lt_iff_lt_mul i4]
    have : (N : ℝ) < ((2 ^ 60 * x0 : Int) : ℝ) := by
      rw [← hN]; push_cast
      have h1 : s ^ 2 ≤ 2 * x0 * s := by nlinarith
      have h3 : 2 * (x0 : ℝ) * s < 2 * x0 * 2 ^ 48 := mul_lt_mul_of_pos_left hs48 (by linarith)
      norm_num at *; linarith
    exact_mod_cast this
  have hx1r : (0 : ℝ) < x1 := by norm_num at hs216; linarith
  -- final conversion
  have conv : ∀ r : Int, s - 1 < r → 0 ≤ r ∧ N < (r + 1) ^ 2 ∧ ((r : ℝ) - s ≤ 1 / 2 → (2 * r - 1) ^ 2 ≤ 4 * N) := by
    intro r hr
    have hr0 : (0 : ℝ) < r := by norm_num at hs216; linarith
    refine ⟨by exact_mod_cast hr0.le, ?_, fun h => ?_⟩
    · have : (N : ℝ) < ((r : ℝ) + 1) ^ 2 := by rw [← hN]; exact pow_lt_pow_left₀ (by linarith) hs0 (by norm_num)
      exact_mod_cast this
    · have h1r : (1 : ℝ) ≤ r := by
        have : 0 < r := by exact_mod_cast hr0
        exact_mod_cast this
      have : (2 * (r : ℝ) - 1) ^ 2 ≤ (2 * s) ^ 2 := pow_le_pow_left₀ (by linarith) (by linarith) 2
      rw [mul_pow, hN] at this
      have h2 : (2 * (r : ℝ) - 1) ^ 2 ≤ 4 * (N : ℝ) := by linarith
      exact_mod_cast h2
  have hstep := newton_step 4 h0 h1 i4 (lt_trans i5 (by norm_num)) hQ (by rw [← hNd, hx1d]; exact hx1sq)
  rw [← hNd, hx1d] at hstep
  rw [hstep]
  split
  · rename_i hb
    obtain ⟨c1, c2, _⟩ := conv x1 hge
    exact ⟨x1, rfl, c1, c2, hx1sq, Or.inl hb⟩
  · -- remaining iterations
    have hK2 : (Max.max (x1 : ℝ) (s + 1 / 2)) ^ 2 < 2 ^ 95 := by
      rcases max_cases (x1 : ℝ) (s + 1 / 2) with ⟨h, _⟩ | ⟨h, _⟩ <;> rw [h]
      · exact_mod_cast hx1sq
      · have : N < sqrt64Bound * 2 ^ 32 := by rw [hNd]; exact mul_lt_mul_of_pos_right hB (by norm_num)
        have : (N : ℝ) < ((sqrt64Bound * 2 ^ 32 : Int) : ℝ) := by exact_mod_cast this
        unfold sqrt64Bound at this
        have e : (s + 1 / 2) ^ 2 = N + s + 1 / 4 := by rw [← hN]; ring
        rw [e]; norm_num at *; linarith
    obtain ⟨d, hd0, hd1, hd2⟩ : ∃ d : ℝ, 0 ≤ d ∧ (x1 : ℝ) - s ≤ s * d ∧ s * (2 * (d / 2) ^ 2 ^ 4) ≤ 1 / 2 := by
      by_cases h1' : e = 1
      · refine ⟨1 / 4, by norm_num, hq4, ?_⟩
        have : s < 2 ^ 17 := by
          have : s ^ 2 < ((2 : ℝ) ^ 17) ^ 2 := by
            rw [hN]
            have : N < 2 ^ 34 := by rw [h1'] at hNhi; norm_num at *; omega
            have : (N : ℝ) < ((2 ^ 34 : Int) : ℝ) := by exact_mod_cast this
            norm_num at *; linarith
          exact lt_of_pow_lt_pow_left₀ 2 (by norm_num) this
        norm_num at *; linarith
      · refine ⟨1 / 16, by norm_num, hq16 h1', ?_⟩
        norm_num at *; linarith
    obtain ⟨r, hr, r1, r2, r3⟩ := newton_rest h0 h1 s (Max.max (x1 : ℝ) (s + 1 / 2)) (by norm_num at *; linarith) hN
      (le_max_right _ _) hK2 4 x1 d hd0 hge (le_max_left _ _) (le_max_of_le_left hd1)
    obtain ⟨c1, c2, c3⟩ := conv r r1
    refine ⟨r, hr, c1, c2, ?_, r3.imp_right fun h => c3 (le_trans h (max_le hd2 (le_refl _)))⟩
    have : (r : ℝ) ^ 2 < 2 ^ 95 := lt_of_le_of_lt (pow_le_pow_left₀ (by exact_mod_cast c1) r2 2) hK2
    exact_mod_cast this

/-- Above the bound the first iterate squares out of range and `fp - x*x` overflows. -/
theorem sqrt64_ub {X : Int} (hB : sqrt64Bound ≤ X) (h1 : X < 2 ^ 63) : sqrt fixed64 X = .ub .overflow := by
  have hB' : 8432131806905434112 ≤ X := hB
  obtain ⟨e, he, hlo, hhi, hrun⟩ := sqrt_pos_eq (by omega) h1
  have h62 : e = 62 := by
    by_contra hc
    have : (2 : Int) ^ (e + 1) ≤ 2 ^ 62 := pow_le_pow_right₀ (by norm_num) (by omega)
    norm_num at *; omega
  have hx0 : fromInternal fixed64 (getSqrtInitValue fixed64 e) = 2 ^ 47 := by rw [h62]; decide +kernel
  rw [hrun, hx0]
  unfold sqrtNewton
  have hXi : fixed64.T.InRange X := in64 (by norm_num; omega) h1
  have e1 : div fixed64 X (2 ^ 47) = .ok (X / 2 ^ 15) := by
    have e : Int.tdiv (X * 2 ^ fixed64.f) (2 ^ 47) = X / 2 ^ 15 := by
      rw [tdiv_eq_ediv (by have : (0 : Int) ≤ X := by omega
                           positivity), show fixed64.f = 32 by rfl,
        show (2 : Int) ^ 47 = 2 ^ 15 * 2 ^ 32 by norm_num, Int.mul_ediv_mul_of_pos_left _ _ (by norm_num)]
    rw [sw64.div_ok rfl hXi (by norm_num) (by rw [e]; exact in64 (by norm_num at *; omega) (by norm_num at *; omega)), e]
  have hs : fixed64.T.InRange (2 ^ 47 + X / 2 ^ 15) := in64 (by norm_num at *; omega) (by norm_num at *; omega)
  set y := (2 ^ 47 + X / 2 ^ 15) / 2 with hy
  have e3 : Int.tdiv (2 ^ 47 + X / 2 ^ 15) 2 = y := tdiv_eq_ediv (by norm_num; omega)
  have y1 : 199032864766431 ≤ y := by rw [hy]; norm_num; omega
  have y2 : y ≤ 3 * 2 ^ 46 := by rw [hy]; norm_num at *; omega
  have hyi : fixed64.T.InRange y := in64 (by norm_num at *; omega) (by norm_num at *; omega)
  have q1 : (199032864766431 : Int) ^ 2 ≤ y * y := by rw [← pow_two]; exact pow_le_pow_left₀ (by norm_num) y1 2
  have q2 : y * y ≤ (3 * 2 ^ 46) ^ 2 := by rw [← pow_two]; exact pow_le_pow_left₀ (by omega) y2 2
  have hmul : mul fixed64 y y = .ok (y * y / 2 ^ 32 - 2 ^ 64) := by
    rw [mul_nf sw64.valid rfl hyi hyi]
    have hr : fixed64.T.InRange (y * y / 2 ^ 32 - 2 ^ 64) := in64 (by norm_num at *; omega) (by norm_num at *; omega)
    rw [← sw64.wrap_ok hr]
    congr 1
    conv_rhs => rw [sw64.wrap_ok hr, ← sw64.wrap_ok hr]
    apply IntTy.wrap_congr
    exact ⟨1, by rw [show fixed64.T.bits = 64 by rfl, show fixed64.f = 32 by rfl]; ring⟩
  rw [e1, Res.bind_ok, sw64.add_ok hs, Res.bind_ok, sw64.divInt_ok hs (by norm_num) (by norm_num), Res.bind_ok, e3, hmul,
    Res.bind_ok, sw64.sub_ub]
  · rfl
  · intro hc
    have := (of_in64 hc).2
    norm_num at *; omega

end Eirin
