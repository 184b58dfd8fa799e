import Verif.Props.PowMono

/-! # C162: the laws of exponents -/

namespace Eirin.Props
open Spec

section
variable {F : FxTy} (hF : F.Valid) (hr : F.r = false) (h1 : Representable F 1)

theorem ulp_pos' (F : FxTy) : 0 < ulp F := by unfold ulp; positivity

theorem raw_nonneg {x : Int} (h : 0 ≤ val F x) : 0 ≤ x := by rw [← val_le (F := F), val_zero]; exact h

include hF h1 in
theorem one_le_hi : (1 : ℚ) ≤ val F F.T.hi := by
  obtain ⟨_, _, oS, ov, _⟩ := pw_start hF h1
  rw [← ov, val_le]; exact oS.2

/-- `(1 - s) (1 - t)` against `1 - (s + t)`, for factors that are also known to be non-negative. -/
theorem mul_lower {A B p q s t : ℚ} (hA : 0 ≤ A) (hB : 0 ≤ B) (hp : 0 ≤ p) (hq : 0 ≤ q) (hs : 0 ≤ s) (ht : 0 ≤ t)
    (h : A * (1 - s) ≤ p) (h' : B * (1 - t) ≤ q) : A * B * (1 - (s + t)) ≤ p * q := by
  have hAB : 0 ≤ A * B := mul_nonneg hA hB
  by_cases c : s ≤ 1
  · by_cases c' : t ≤ 1
    · have := mul_le_mul h h' (mul_nonneg hB (by linarith)) hp
      have e : A * (1 - s) * (B * (1 - t)) = A * B * (1 - (s + t)) + A * B * (s * t) := by ring
      have : 0 ≤ A * B * (s * t) := mul_nonneg hAB (mul_nonneg hs ht)
      linarith
    · have : A * B * (1 - (s + t)) ≤ 0 := mul_nonpos_of_nonneg_of_nonpos hAB (by linarith)
      linarith [mul_nonneg hp hq]
  · have : A * B * (1 - (s + t)) ≤ 0 := mul_nonpos_of_nonneg_of_nonpos hAB (by linarith)
    linarith [mul_nonneg hp hq]

/-- A power of a slightly smaller number in `[0, 1]`. -/
theorem pow_lower {a c d : ℚ} (hc : 0 ≤ c) (ha : a ≤ 1) (hca : c ≤ a) (h : a - d ≤ c) : ∀ n : Nat, a ^ n - n * d ≤ c ^ n
  | 0 => by simp
  | n + 1 => by
    have ih := pow_lower hc ha hca h n
    have hd : 0 ≤ d := by linarith
    have a0 : 0 ≤ a := le_trans hc hca
    have p1 : c ^ n ≤ 1 := pow_le_one₀ hc (le_trans hca ha)
    have p0 : 0 ≤ c ^ n := pow_nonneg hc n
    have e : a ^ (n + 1) - c ^ (n + 1) = (a ^ n - c ^ n) * a + c ^ n * (a - c) := by ring
    have s1 : (a ^ n - c ^ n) * a ≤ n * d := by
      have : a ^ n - c ^ n ≤ n * d := by linarith
      have hn : (0 : ℚ) ≤ n * d := by positivity
      have h0 : 0 ≤ a ^ n - c ^ n := sub_nonneg.2 (pow_le_pow_left₀ hc hca n)
      nlinarith
    have s2 : c ^ n * (a - c) ≤ d := by nlinarith
    push_cast
    linarith

/-- The same with a relative error. -/
theorem pow_lower_rel {A p s : ℚ} (hA : 0 ≤ A) (hp : 0 ≤ p) (hs : 0 ≤ s) (h : A * (1 - s) ≤ p) : ∀ n : Nat, A ^ n * (1 - n * s) ≤ p ^ n
  | 0 => by simp
  | n + 1 => by
    have := mul_lower (pow_nonneg hA n) hA (pow_nonneg hp n) hp (by positivity) hs (pow_lower_rel hA hp hs h n) h
    rw [pow_succ, pow_succ]; push_cast
    have e : ((n : ℚ) + 1) * s = n * s + s := by ring
    rw [e]; exact this

end

/-- C162: `pow(b, m) * pow(b, n)` and `pow(b, m + n)` both lie below the exact power, by at most a relative `m + n` ulp (and one ulp for the
product), for every base from one on. -/
theorem C162_product (F : FxTy) (hF : F.Valid) (hr : F.r = false) (h1 : Representable F 1) (b : Int) (m n : Nat) (hb : Storable F b)
    (hb1 : 1 ≤ val F b) (hn : m + n < 2 ^ 64) (hfit : val F b ^ (m + n) ≤ val F F.T.hi) :
    ∃ p q r s, powInt F b m = .ok p ∧ powInt F b n = .ok q ∧ mul F p q = .ok r ∧ powInt F b (m + n : Nat) = .ok s ∧
      |val F r - val F s| ≤ val F b ^ (m + n) * ((m + n) * ulp F) + ulp F := by
  have hu := ulp_pos' F
  have hm : val F b ^ m ≤ val F F.T.hi := le_trans (pow_le_pow_right₀ hb1 (by omega)) hfit
  have hn' : val F b ^ n ≤ val F F.T.hi := le_trans (pow_le_pow_right₀ hb1 (by omega)) hfit
  obtain ⟨p, hp, pS, p1, p2, p0⟩ := C109_relative F hF hr h1 b m hb hb1 (by omega) hm
  obtain ⟨q, hq, qS, q1, q2, q0⟩ := C109_relative F hF hr h1 b n hb hb1 (by omega) hn'
  obtain ⟨s, hs, sS, s1, s2, s0⟩ := C109_relative F hF hr h1 b (m + n) hb hb1 hn hfit
  have hB : 0 ≤ val F b := by linarith
  have hle : val F p * val F q ≤ val F b ^ (m + n) := by
    rw [pow_add]; exact mul_le_mul p1 q1 q0 (pow_nonneg hB m)
  obtain ⟨r, hr', rS, r0, r1, r2⟩ := pw_mul hF hr pS qS (raw_nonneg p0) (raw_nonneg q0) (le_trans hle hfit)
  refine ⟨p, q, r, s, hp, hq, hr', hs, ?_⟩
  have hl := mul_lower (pow_nonneg hB m) (pow_nonneg hB n) p0 q0 (by positivity) (by positivity) p2 q2
  rw [← pow_add] at hl
  push_cast at s2
  rw [abs_le]
  constructor <;> nlinarith

/-- C162, bases up to one: the two sides differ by at most `m + n + 1` ulp. -/
theorem C162_product_small (F : FxTy) (hF : F.Valid) (hr : F.r = false) (h1 : Representable F 1) (b : Int) (m n : Nat) (hb : Storable F b)
    (hb0 : 0 ≤ val F b) (hb1 : val F b ≤ 1) (hn : m + n < 2 ^ 64) :
    ∃ p q r s, powInt F b m = .ok p ∧ powInt F b n = .ok q ∧ mul F p q = .ok r ∧ powInt F b (m + n : Nat) = .ok s ∧
      |val F r - val F s| ≤ (m + n + 1) * ulp F := by
  have hu := ulp_pos' F
  obtain ⟨p, hp, pS, p1, p2, p0⟩ := C109_absolute F hF hr h1 b m hb hb0 hb1 (by omega)
  obtain ⟨q, hq, qS, q1, q2, q0⟩ := C109_absolute F hF hr h1 b n hb hb0 hb1 (by omega)
  obtain ⟨s, hs, sS, s1, s2, s0⟩ := C109_absolute F hF hr h1 b (m + n) hb hb0 hb1 hn
  have hm1 : val F b ^ m ≤ 1 := pow_le_one₀ hb0 hb1
  have hn1 : val F b ^ n ≤ 1 := pow_le_one₀ hb0 hb1
  have hm0 : 0 ≤ val F b ^ m := pow_nonneg hb0 m
  have hle : val F p * val F q ≤ val F b ^ (m + n) := by
    rw [pow_add]; exact mul_le_mul p1 q1 q0 hm0
  obtain ⟨r, hr', rS, r0, r1, r2⟩ := pw_mul hF hr pS qS (raw_nonneg p0) (raw_nonneg q0)
    (le_trans hle (le_trans (pow_le_one₀ hb0 hb1) (one_le_hi hF h1)))
  refine ⟨p, q, r, s, hp, hq, hr', hs, ?_⟩
  have hl : val F b ^ (m + n) - (m + n) * ulp F ≤ val F p * val F q := by
    have e : val F b ^ (m + n) - val F p * val F q = (val F b ^ m - val F p) * val F b ^ n + val F p * (val F b ^ n - val F q) := by
      rw [pow_add]; ring
    have d1 : 0 ≤ val F b ^ m - val F p ∧ val F b ^ m - val F p ≤ m * ulp F := ⟨by linarith, by linarith⟩
    have d2 : 0 ≤ val F b ^ n - val F q ∧ val F b ^ n - val F q ≤ n * ulp F := ⟨by linarith, by linarith⟩
    have t1 : (val F b ^ m - val F p) * val F b ^ n ≤ m * ulp F :=
      le_trans (mul_le_of_le_one_right d1.1 hn1) d1.2
    have t2 : val F p * (val F b ^ n - val F q) ≤ n * ulp F :=
      le_trans (mul_le_of_le_one_left d2.1 (le_trans p1 hm1)) d2.2
    linarith
  push_cast at s2
  rw [abs_le]
  constructor <;> linarith

/-- C162, a power of a power: for bases from one on, `pow(pow(b, m), n)` and `pow(b, m n)` both lie below the exact power by at most a relative
`(m + 1) n` ulp. -/
theorem C162_power (F : FxTy) (hF : F.Valid) (hr : F.r = false) (h1 : Representable F 1) (b : Int) (m n : Nat) (hb : Storable F b)
    (hb1 : 1 ≤ val F b) (hm : m < 2 ^ 64) (hn : n < 2 ^ 64) (hmn : m * n < 2 ^ 64) (hfit : val F b ^ (m * n) ≤ val F F.T.hi)
    (hfit' : val F b ^ m ≤ val F F.T.hi) :
    ∃ p r s, powInt F b m = .ok p ∧ powInt F p n = .ok r ∧ powInt F b (m * n : Nat) = .ok s ∧
      |val F r - val F s| ≤ val F b ^ (m * n) * ((m * n + n) * ulp F) := by
  have hu := ulp_pos' F
  obtain ⟨p, hp, pS, p1, p2, p0⟩ := C109_relative F hF hr h1 b m hb hb1 hm hfit'
  obtain ⟨s, hs, sS, s1, s2, s0⟩ := C109_relative F hF hr h1 b (m * n) hb hb1 hmn hfit
  have hB : 0 ≤ val F b := by linarith
  have pone : 1 ≤ val F p := by
    obtain ⟨p', q', hp', hq', hle⟩ := C138_exponent_partial F hF hr h1 b 0 m hb hb1 (Nat.zero_le m) hm hfit'
    obtain ⟨o, ho, hov⟩ := C35_zero F hF h1 b
    rw [show ((0 : Nat) : Int) = 0 from rfl, ho] at hp'; cases hp'
    rw [hp] at hq'; cases hq'
    rw [hov] at hle; exact hle
  have ple : val F p ^ n ≤ val F b ^ (m * n) := by
    rw [pow_mul]; exact pow_le_pow_left₀ p0 p1 n
  obtain ⟨r, hr', rS, r1, r2, r0⟩ := C109_relative F hF hr h1 p n pS pone hn (le_trans ple hfit)
  refine ⟨p, r, s, hp, hr', hs, ?_⟩
  have hl := pow_lower_rel (pow_nonneg hB m) p0 (by positivity) p2 n
  rw [← pow_mul] at hl
  have key : val F b ^ (m * n) * (1 - (m * n + n) * ulp F) ≤ val F r := by
    -- the factor `1 - n u` of the last power
    by_cases c : (n : ℚ) * ulp F ≤ 1
    · have a1 : val F b ^ (m * n) * (1 - n * (m * ulp F)) * (1 - n * ulp F) ≤ val F p ^ n * (1 - n * ulp F) :=
        mul_le_mul_of_nonneg_right hl (by linarith)
      have a2 : 0 ≤ val F b ^ (m * n) * ((n : ℚ) * (m * ulp F) * (n * ulp F)) := by positivity
      nlinarith
    · have : val F b ^ (m * n) * (1 - (m * n + n) * ulp F) ≤ 0 := by
        refine mul_nonpos_of_nonneg_of_nonpos (pow_nonneg hB _) ?_
        have : (0 : ℚ) ≤ m * n * ulp F := by positivity
        linarith
      linarith
  push_cast at s2
  have hn0 : (0 : ℚ) ≤ val F b ^ (m * n) * (n * ulp F) := by positivity
  rw [abs_le]
  constructor <;> nlinarith

/-- C162, a power of a power for bases up to one: the two differ by at most `(m + 1) n` ulp. -/
theorem C162_power_small (F : FxTy) (hF : F.Valid) (hr : F.r = false) (h1 : Representable F 1) (b : Int) (m n : Nat) (hb : Storable F b)
    (hb0 : 0 ≤ val F b) (hb1 : val F b ≤ 1) (hm : m < 2 ^ 64) (hn : n < 2 ^ 64) (hmn : m * n < 2 ^ 64) :
    ∃ p r s, powInt F b m = .ok p ∧ powInt F p n = .ok r ∧ powInt F b (m * n : Nat) = .ok s ∧
      |val F r - val F s| ≤ (m * n + n) * ulp F := by
  have hu := ulp_pos' F
  obtain ⟨p, hp, pS, p1, p2, p0⟩ := C109_absolute F hF hr h1 b m hb hb0 hb1 hm
  obtain ⟨s, hs, sS, s1, s2, s0⟩ := C109_absolute F hF hr h1 b (m * n) hb hb0 hb1 hmn
  have hm1 : val F b ^ m ≤ 1 := pow_le_one₀ hb0 hb1
  obtain ⟨r, hr', rS, r1, r2, r0⟩ := C109_absolute F hF hr h1 p n pS p0 (le_trans p1 hm1) hn
  refine ⟨p, r, s, hp, hr', hs, ?_⟩
  have hl := pow_lower p0 hm1 p1 p2 n
  have hup : val F p ^ n ≤ (val F b ^ m) ^ n := pow_le_pow_left₀ p0 p1 n
  rw [← pow_mul] at hl hup
  push_cast at s2
  have hn0 : (0 : ℚ) ≤ n * ulp F := by positivity
  rw [abs_le]
  constructor <;> nlinarith

/-- C162, a power of a product of numbers in `[0, 1]`: `pow(a * b, n)` and `pow(a, n) * pow(b, n)` differ by at most `2 n + 1` ulp. -/
theorem C162_base (F : FxTy) (hF : F.Valid) (hr : F.r = false) (h1 : Representable F 1) (a b : Int) (n : Nat) (ha : Storable F a)
    (hb : Storable F b) (ha0 : 0 ≤ val F a) (ha1 : val F a ≤ 1) (hb0 : 0 ≤ val F b) (hb1 : val F b ≤ 1) (hn : n < 2 ^ 64) :
    ∃ c r p q s, mul F a b = .ok c ∧ powInt F c n = .ok r ∧ powInt F a n = .ok p ∧ powInt F b n = .ok q ∧ mul F p q = .ok s ∧
      |val F r - val F s| ≤ (2 * n + 1) * ulp F := by
  have hu := ulp_pos' F
  have hab1 : val F a * val F b ≤ 1 := mul_le_one₀ ha1 hb0 hb1
  obtain ⟨c, hc, cS, c0, c1, c2⟩ := pw_mul hF hr ha hb (raw_nonneg ha0) (raw_nonneg hb0) (le_trans hab1 (one_le_hi hF h1))
  have c0' : 0 ≤ val F c := by rw [← val_zero F, val_le]; exact c0
  obtain ⟨r, hr', rS, r1, r2, r0⟩ := C109_absolute F hF hr h1 c n cS c0' (le_trans c1 hab1) hn
  obtain ⟨p, hp, pS, p1, p2, p0⟩ := C109_absolute F hF hr h1 a n ha ha0 ha1 hn
  obtain ⟨q, hq, qS, q1, q2, q0⟩ := C109_absolute F hF hr h1 b n hb hb0 hb1 hn
  have hA1 : val F a ^ n ≤ 1 := pow_le_one₀ ha0 ha1
  have hB1 : val F b ^ n ≤ 1 := pow_le_one₀ hb0 hb1
  have hA0 : 0 ≤ val F a ^ n := pow_nonneg ha0 n
  have hB0 : 0 ≤ val F b ^ n := pow_nonneg hb0 n
  have hle : val F p * val F q ≤ val F a ^ n * val F b ^ n := mul_le_mul p1 q1 q0 hA0
  obtain ⟨s, hs, sS, s0, s1, s2⟩ := pw_mul hF hr pS qS (raw_nonneg p0) (raw_nonneg q0)
    (le_trans hle (le_trans (mul_le_one₀ hA1 hB0 hB1) (one_le_hi hF h1)))
  refine ⟨c, r, p, q, s, hc, hr', hp, hq, hs, ?_⟩
  have hl := pow_lower c0' hab1 c1 (by linarith : val F a * val F b - ulp F ≤ val F c) n
  have hup : val F c ^ n ≤ (val F a * val F b) ^ n := pow_le_pow_left₀ c0' c1 n
  rw [mul_pow] at hl hup
  have hl' : val F a ^ n * val F b ^ n - 2 * n * ulp F ≤ val F p * val F q := by
    have e : val F a ^ n * val F b ^ n - val F p * val F q = (val F a ^ n - val F p) * val F b ^ n + val F p * (val F b ^ n - val F q) := by
      ring
    have d1 : 0 ≤ val F a ^ n - val F p ∧ val F a ^ n - val F p ≤ n * ulp F := ⟨by linarith, by linarith⟩
    have d2 : 0 ≤ val F b ^ n - val F q ∧ val F b ^ n - val F q ≤ n * ulp F := ⟨by linarith, by linarith⟩
    have t1 : (val F a ^ n - val F p) * val F b ^ n ≤ n * ulp F := le_trans (mul_le_of_le_one_right d1.1 hB1) d1.2
    have t2 : val F p * (val F b ^ n - val F q) ≤ n * ulp F := le_trans (mul_le_of_le_one_left d2.1 (le_trans p1 hA1)) d2.2
    linarith
  rw [abs_le]
  constructor <;> linarith

example : powInt fixed32 98304 3 = .ok 221184 ∧ powInt fixed32 98304 2 = .ok 147456 ∧ mul fixed32 221184 147456 = .ok 497664 ∧
    powInt fixed32 98304 5 = .ok 497664 ∧ powInt fixed32 147456 3 = .ok 746496 ∧ powInt fixed32 98304 6 = .ok 746496 := by decide +kernel
example : powInt fixed32 7000 2 = .ok 747 ∧ mul fixed32 7000 747 = .ok 79 ∧ powInt fixed32 7000 3 = .ok 79 := by decide +kernel

/-- C162: the laws are not exact. -/
theorem C162_inexact : ∃ b p q r s : Int, Storable fixed32 b ∧ powInt fixed32 b 2 = .ok p ∧ powInt fixed32 b 3 = .ok q ∧
    mul fixed32 p q = .ok r ∧ powInt fixed32 b 5 = .ok s ∧ r ≠ s := by
  refine ⟨65641, _, _, _, _, by decide +kernel, rfl, rfl, rfl, rfl, by decide +kernel⟩

end Eirin.Props
