import Verif.Props.CbrtAll
import Verif.Props.RoundSqrt

/-! # Property C192: the cube root of rounding types -/

namespace Eirin.Props
open Eirin Spec

/-- A product of non-negative numbers of a rounding type: within one of twice the product. -/
theorem mul_rr {F : FxTy} (sw : SW F) (hr : F.r = true) {x y : Int} (hx : Storable F x) (hy : Storable F y) (x0 : 0 ≤ x) (y0 : 0 ≤ y)
    (hq : 2 * ((x : ℝ) * y / 2 ^ F.f) + 1 < 2 ^ (F.T.bits - 1)) :
    ∃ S : Int, mul F x y = .ok S ∧ 0 ≤ S ∧ S < 2 ^ (F.T.bits - 1) ∧ |(S : ℝ) - 2 * ((x : ℝ) * y / 2 ^ F.f)| ≤ 1 := by
  obtain ⟨z, n, e, hn, hw⟩ := C05_mul_partial F sw.valid hr x y hx hy
  have a := nearest_rv hn
  push_cast at a
  rw [rv_eq, rv_eq] at a
  have hp : (0 : ℝ) < 2 ^ F.f := by positivity
  have c : |(n : ℝ) - (x : ℝ) * y / 2 ^ F.f| ≤ 1 / 2 := by
    have e1 : rv F n - rv F x * rv F y = ((n : ℝ) - (x : ℝ) * y / 2 ^ F.f) / 2 ^ F.f := by unfold rv; field_simp
    have e2 : uR F / 2 = 1 / 2 / 2 ^ F.f := by unfold uR; ring
    rw [e1, e2, abs_div, abs_of_pos hp] at a
    exact (div_le_div_iff_of_pos_right hp).1 a
  have x0' : (0 : ℝ) ≤ x := by exact_mod_cast x0
  have y0' : (0 : ℝ) ≤ y := by exact_mod_cast y0
  have hpos : 0 ≤ (x : ℝ) * y / 2 ^ F.f := by positivity
  obtain ⟨c1, c2⟩ := abs_le.1 c
  have n0 : 0 ≤ n := by
    have : ((-1 : Int) : ℝ) < n := by push_cast; linarith
    have : -1 < n := by exact_mod_cast this
    omega
  have n1 : 2 * n < 2 ^ (F.T.bits - 1) := by
    have : ((2 * n : Int) : ℝ) < ((2 ^ (F.T.bits - 1) : Int) : ℝ) := by push_cast; linarith
    exact_mod_cast this
  have hS : F.T.InRange (2 * n) := by
    have := sw.lo_eq; have := sw.hi_eq
    have : (0 : Int) < 2 ^ (F.T.bits - 1) := by positivity
    constructor <;> omega
  have ze : z = 2 * n := isWrap_unique sw.valid.tpos hw ⟨hS, by simp⟩
  refine ⟨z, e, by omega, by omega, ?_⟩
  rw [ze]; push_cast; rw [abs_le]; constructor <;> linarith

/-- A quotient of positive numbers of a rounding type: within one of twice the quotient. -/
theorem div_rr {F : FxTy} (sw : SW F) (hr : F.r = true) (hf : F.f + 2 ≤ F.T.bits) {x y : Int} (hx : Storable F x) (x0 : 0 ≤ x) (y0 : 0 < y)
    (hq : 2 * ((x : ℝ) * 2 ^ F.f / y) + 1 < 2 ^ (F.T.bits - 1)) :
    ∃ S : Int, div F x y = .ok S ∧ 0 ≤ S ∧ S < 2 ^ (F.T.bits - 1) ∧ |(S : ℝ) - 2 * ((x : ℝ) * 2 ^ F.f / y)| ≤ 1 := by
  obtain ⟨z, n, e, hn, hw⟩ := (C05_div_partial F sw.valid hr hf x y hx).2 y0.ne'
  have a := nearest_rv hn
  push_cast at a
  rw [rv_eq, rv_eq] at a
  have hp : (0 : ℝ) < 2 ^ F.f := by positivity
  have x0' : (0 : ℝ) ≤ x := by exact_mod_cast x0
  have y0' : (0 : ℝ) < y := by exact_mod_cast y0
  have c : |(n : ℝ) - (x : ℝ) * 2 ^ F.f / y| ≤ 1 / 2 := by
    have e1 : rv F n - rv F x / rv F y = ((n : ℝ) - (x : ℝ) * 2 ^ F.f / y) / 2 ^ F.f := by unfold rv; field_simp
    have e2 : uR F / 2 = 1 / 2 / 2 ^ F.f := by unfold uR; ring
    rw [e1, e2, abs_div, abs_of_pos hp] at a
    exact (div_le_div_iff_of_pos_right hp).1 a
  have hpos : 0 ≤ (x : ℝ) * 2 ^ F.f / y := by positivity
  obtain ⟨c1, c2⟩ := abs_le.1 c
  have n0 : 0 ≤ n := by
    have : ((-1 : Int) : ℝ) < n := by push_cast; linarith
    have : -1 < n := by exact_mod_cast this
    omega
  have n1 : 2 * n < 2 ^ (F.T.bits - 1) := by
    have : ((2 * n : Int) : ℝ) < ((2 ^ (F.T.bits - 1) : Int) : ℝ) := by push_cast; linarith
    exact_mod_cast this
  have hS : F.T.InRange (2 * n) := by
    have := sw.lo_eq; have := sw.hi_eq
    have : (0 : Int) < 2 ^ (F.T.bits - 1) := by positivity
    constructor <;> omega
  have ze : z = 2 * n := isWrap_unique sw.valid.tpos hw ⟨hS, by simp⟩
  refine ⟨z, e, by omega, by omega, ?_⟩
  rw [ze]; push_cast; rw [abs_le]; constructor <;> linarith

/-- The new iterate before the division by three: `q` is the computed quotient, `S` the computed (doubled) square of `a`. -/
theorem cr_quot {D E r X a S q : ℝ} (hE : 1 ≤ E) (hD : D = 65536 * E) (hr : 2750 * E ≤ r) (hX : r ^ 3 = X * D ^ 2) (ha : r - 6 ≤ a)
    (hS : |S - 2 * (a * a / D)| ≤ 1) (hq : |q - 2 * (X * D / S)| ≤ 1) :
    0 < S ∧ 2 * (X * D / S) ≤ r + 25 ∧ q ≤ r + 26 ∧ 3 * r - 13 ≤ q + 2 * a := by
  have hD0 : 0 < D := by linarith
  obtain ⟨s1, s2⟩ := abs_le.1 hS
  obtain ⟨q1, q2⟩ := abs_le.1 hq
  have e1 : a * a / D * D = a * a := div_mul_cancel₀ _ hD0.ne'
  have t1 : 2 * a ^ 2 - D ≤ S * D := by nlinarith
  have t2 : S * D ≤ 2 * a ^ 2 + D := by nlinarith
  have a1 : 2744 * E ≤ a := by linarith
  have dr : D ≤ 23.84 * r := by linarith
  have da : D ≤ 23.884 * a := by linarith
  have S0 : 0 < S := by
    by_contra hc
    push Not at hc
    nlinarith
  have hX0 : 0 ≤ X := by
    by_contra hc
    push Not at hc
    have : X * D ^ 2 < 0 := mul_neg_of_neg_of_pos hc (by positivity)
    have : 0 ≤ r ^ 3 := pow_nonneg (by linarith) 3
    linarith
  have up : 2 * (X * D / S) ≤ r + 25 := by
    rw [← mul_div_assoc, div_le_iff₀ S0]
    have h1 : (r - 6) ^ 2 ≤ a ^ 2 := pow_le_pow_left₀ (by linarith) ha 2
    have h2 : (r + 25) * (2 * (r - 6) ^ 2 - 23.84 * r) ≤ (r + 25) * (S * D) := mul_le_mul_of_nonneg_left (by linarith) (by linarith)
    have h3 : 2 * r ^ 3 ≤ (r + 25) * (2 * (r - 6) ^ 2 - 23.84 * r) := by
      have : 2750 * r ≤ r * r := mul_le_mul_of_nonneg_right (by linarith) (by linarith)
      nlinarith
    have h4 : (2 * (X * D)) * D ≤ ((r + 25) * S) * D := by nlinarith
    exact le_of_mul_le_mul_right h4 hD0
  refine ⟨S0, up, by linarith, ?_⟩
  have low : 3 * r - 12 - 2 * a ≤ 2 * (X * D / S) := by
    rcases le_or_gt (3 * r - 12 - 2 * a) 0 with h | h
    · exact h.trans (by positivity)
    rw [← mul_div_assoc, le_div_iff₀ S0]
    have h1 : (3 * r - 12 - 2 * a) * (S * D) ≤ (3 * r - 12 - 2 * a) * (2 * a ^ 2 + D) := mul_le_mul_of_nonneg_left t2 h.le
    have h2 : (3 * r - 2 * a) * a ^ 2 ≤ r ^ 3 := by nlinarith [mul_nonneg (sq_nonneg (r - a)) (by linarith : 0 ≤ r + 2 * a)]
    have h3 : (3 * r - 12 - 2 * a) * D ≤ (a + 6) * (23.884 * a) := mul_le_mul (by linarith) da hD0.le (by linarith)
    have h4 : (a + 6) * (23.884 * a) ≤ 24 * a ^ 2 := by nlinarith
    have h5 : ((3 * r - 12 - 2 * a) * S) * D ≤ (2 * (X * D)) * D := by nlinarith
    exact le_of_mul_le_mul_right h5 hD0
  linarith

/-- The exit test fails: the computed cube `W` is about four times the cube. -/
theorem cr_exit {D E r X a S W : ℝ} (hE : 1 ≤ E) (hD : D = 65536 * E) (hr : 2750 * E ≤ r) (hX : r ^ 3 = X * D ^ 2) (h5 : 5 * E ≤ X) (ha : r - 6 ≤ a)
    (hS : |S - 2 * (a * a / D)| ≤ 1) (hW : |W - 2 * (S * a / D)| ≤ 1) : X + 10 * E ≤ W := by
  have hD0 : 0 < D := by linarith
  obtain ⟨s1, s2⟩ := abs_le.1 hS
  obtain ⟨w1, w2⟩ := abs_le.1 hW
  have e1 : a * a / D * D = a * a := div_mul_cancel₀ _ hD0.ne'
  have e2 : S * a / D * D = S * a := div_mul_cancel₀ _ hD0.ne'
  have a1 : 2744 * E ≤ a := by linarith
  have a0 : 0 < a := by linarith
  have da : D ≤ 24 * a := by linarith
  have t1 : 2 * a ^ 2 - D ≤ S * D := by nlinarith
  have t2 : 2 * (S * a) - D ≤ W * D := by nlinarith
  have t3 : 4 * a ^ 3 - 2 * a * D - D ^ 2 ≤ W * D ^ 2 := by
    have h1 := mul_le_mul_of_nonneg_right t1 a0.le
    have h2 := mul_le_mul_of_nonneg_right t2 hD0.le
    nlinarith
  have h1 : 2 * a * D ≤ 48 * a ^ 2 := by nlinarith
  have h2 : D ^ 2 ≤ 576 * a ^ 2 := by
    have := pow_le_pow_left₀ hD0.le da 2
    nlinarith
  have h3 : 624 * a ^ 2 ≤ 0.25 * a ^ 3 := by
    have : 2744 * a ^ 2 ≤ a * a ^ 2 := mul_le_mul_of_nonneg_right (by linarith) (by positivity)
    nlinarith
  have h4 : (0.99 * r) ^ 3 ≤ a ^ 3 := pow_le_pow_left₀ (by linarith) (by linarith) 3
  have h5' : 3 * r ^ 3 ≤ 4 * a ^ 3 - 2 * a * D - D ^ 2 := by
    have : 0 ≤ r ^ 3 := pow_nonneg (by linarith) 3
    have e : (0.99 * r) ^ 3 = 0.970299 * r ^ 3 := by ring
    linarith
  have h6 : (3 * X) * D ^ 2 ≤ W * D ^ 2 := by linarith
  have := le_of_mul_le_mul_right h6 (by positivity)
  linarith

/-- Everything stays in range. -/
theorem cr_room {D H B a S : ℝ} (hD : 65536 ≤ D) (hH : 16 * D ≤ H) (hB : 5 * B ^ 3 ≤ H * D ^ 2) (a0 : 0 ≤ a) (aB : a ≤ B)
    (hS : S ≤ 2 * (a * a / D) + 1) :
    3 * B + 3 < H ∧ 2 * (a * a / D) + 1 < H ∧ 2 * (S * a / D) + 1 < H := by
  have hD0 : 0 < D := by linarith
  obtain ⟨t, rfl⟩ : ∃ t, B = t * D := ⟨B / D, by field_simp⟩
  obtain ⟨s, rfl⟩ : ∃ s, a = s * D := ⟨a / D, by field_simp⟩
  obtain ⟨k, rfl⟩ : ∃ k, H = k * D := ⟨H / D, by field_simp⟩
  have hk : 16 ≤ k := le_of_mul_le_mul_right hH hD0
  have s0 : 0 ≤ s := by
    by_contra hc; push Not at hc; nlinarith
  have st : s ≤ t := le_of_mul_le_mul_right aB hD0
  have ht : 5 * t ^ 3 ≤ k := by
    have : (5 * t ^ 3) * D ^ 3 ≤ k * D ^ 3 := by nlinarith
    exact le_of_mul_le_mul_right this (by positivity)
  have e1 : s * D * (s * D) / D = s ^ 2 * D := by field_simp
  have e2 : S * (s * D) / D = S * s := by field_simp
  rw [e1] at hS ⊢
  rw [e2]
  have t0 : 0 ≤ t := s0.trans st
  have m1 : 3 * t ≤ 2 + t ^ 3 := by nlinarith [mul_nonneg (sq_nonneg (t - 1)) (by linarith : 0 ≤ t + 2)]
  have m2 : 3 * s ^ 2 ≤ 1 + 2 * s ^ 3 := by nlinarith [mul_nonneg (sq_nonneg (s - 1)) (by linarith : 0 ≤ 2 * s + 1)]
  have m3 : s ^ 3 ≤ t ^ 3 := pow_le_pow_left₀ s0 st 3
  refine ⟨?_, ?_, ?_⟩
  · have : (3 * t + 1) * D ≤ (k - 1) * D := mul_le_mul_of_nonneg_right (by linarith) hD0.le
    nlinarith
  · have : (2 * s ^ 2 + 1) * D ≤ (k - 1) * D := mul_le_mul_of_nonneg_right (by linarith) hD0.le
    nlinarith
  · have h1 : S * s ≤ (2 * (s ^ 2 * D) + 1) * s := mul_le_mul_of_nonneg_right hS s0
    have h2 : (4 * s ^ 3 + 1) * D ≤ (0.8 * k + 1) * D := mul_le_mul_of_nonneg_right (by linarith) hD0.le
    have h3 : 3 * s ≤ 2 + k / 5 := by linarith
    have h4 : k * 65536 ≤ k * D := mul_le_mul_of_nonneg_left hD (by linarith)
    nlinarith

/-- One pass through the loop: the exit test fails, and the new iterate is a third of the way nearer to the root, up to 26. -/
theorem cr_pass {F : FxTy} (sw : SW F) (hr : F.r = true) (b5 : F.f + 5 ≤ F.T.bits) {D H E X a : Int} {B r : ℝ} (hE : 0 < E) (hD : D = 65536 * E)
    (hDF : (2 : Int) ^ F.f = D) (hHF : (2 : Int) ^ (F.T.bits - 1) = H) (h5 : 5 * E ≤ X) (hXH : X < H) (hr27 : 2750 * (E : ℝ) ≤ r)
    (hX : r ^ 3 = X * (D : ℝ) ^ 2) (hB : 5 * B ^ 3 ≤ H * (D : ℝ) ^ 2) (hrB : r + 26 ≤ B) (ha : r - 6 ≤ a) (haB : (a : ℝ) ≤ B) :
    ∃ b : Int, r - 6 ≤ b ∧ (b : ℝ) ≤ B ∧ (b : ℝ) - r - 26 ≤ 2 / 3 * (a - r - 26) ∧ cbrtLoop F X (10 * E) 0 a = .ok a ∧
      ∀ n, cbrtLoop F X (10 * E) (n + 1) a = cbrtLoop F X (10 * E) n b := by
  have hE' : (1 : ℝ) ≤ E := by exact_mod_cast hE
  have hD' : (D : ℝ) = 65536 * E := by exact_mod_cast hD
  have h5' : 5 * (E : ℝ) ≤ X := by exact_mod_cast h5
  have hp : (2 : ℝ) ^ F.f = D := by exact_mod_cast hDF
  have hh : (2 : ℝ) ^ (F.T.bits - 1) = H := by exact_mod_cast hHF
  have hroom : 16 * D ≤ H := by
    rw [← hDF, ← hHF, show (16 : Int) * 2 ^ F.f = 2 ^ (F.f + 4) by rw [pow_add]; ring]
    exact pow_le_pow_right₀ (by norm_num) (by omega)
  have hroom' : 16 * (D : ℝ) ≤ H := by exact_mod_cast hroom
  have a0 : (0 : ℝ) ≤ a := by linarith
  have a0' : 0 ≤ a := by exact_mod_cast a0
  obtain ⟨k1, k2, -⟩ := cr_room (S := 0) (by linarith) hroom' hB a0 haB (by
    have : 0 ≤ (a : ℝ) * a / D := div_nonneg (mul_nonneg a0 a0) (by linarith)
    linarith)
  have hlo := sw.lo_eq
  have hhi := sw.hi_eq
  rw [hHF] at hlo hhi
  have st : ∀ {z : Int}, 0 ≤ z → z < H → F.T.InRange z := fun h0 h1 => by constructor <;> omega
  have aH : 3 * a < H := by
    have : ((3 * a : Int) : ℝ) < H := by push_cast; linarith
    exact_mod_cast this
  have aS := st a0' (by omega)
  obtain ⟨S, eS, S0, S1, S2⟩ := mul_rr sw hr aS aS a0' a0' (by rw [hp, hh]; exact k2)
  rw [hp] at S2
  rw [hHF] at S1
  have sS := st S0 S1
  obtain ⟨-, -, k3⟩ := cr_room (by linarith) hroom' hB a0 haB (by linarith [(abs_le.1 S2).2] : (S : ℝ) ≤ 2 * (a * a / D) + 1)
  obtain ⟨W, eW, W0, W1, W2⟩ := mul_rr sw hr sS aS S0 a0' (by rw [hp, hh]; exact k3)
  rw [hp] at W2
  rw [hHF] at W1
  have hex := cr_exit hE' hD' hr27 hX h5' ha S2 W2
  have hex' : X + 10 * E ≤ W := by exact_mod_cast hex
  have dS : F.T.InRange (X - W) := by constructor <;> omega
  have ed : sub F X W = .ok (X - W) := sw.sub_ok dS
  have ea : abs F (X - W) = .ok |X - W| := sw.abs_ok dS (by omega)
  have hge : ge |X - W| (10 * E) = true := ge_iff.2 (by rw [abs_of_nonpos (by omega)]; omega)
  obtain ⟨Sp, k4, -, -⟩ := cr_quot (q := 2 * (X * D / S)) hE' hD' hr27 hX ha S2 (by simp)
  have Sp' : 0 < S := by exact_mod_cast Sp
  obtain ⟨q, eq, q0, q1, q2⟩ := div_rr sw hr (by omega) (st (by omega) hXH) (by omega : 0 ≤ X) Sp' (by rw [hp, hh]; linarith)
  rw [hp] at q2
  rw [hHF] at q1
  obtain ⟨-, -, k5, k6⟩ := cr_quot hE' hD' hr27 hX ha S2 q2
  have et : mulInt F i32 a 2 = .ok (a * 2) := sw.mulInt_ok aS (by decide) (st (by omega) (by omega))
  have qa : q + a * 2 < H := by
    have : ((q + a * 2 : Int) : ℝ) < H := by push_cast; linarith
    exact_mod_cast this
  have sS' := st (by omega : 0 ≤ q + a * 2) qa
  have es : add F q (a * 2) = .ok (q + a * 2) := sw.add_ok sS'
  have ex : divInt F i32 (q + a * 2) 3 = .ok ((q + a * 2) / 3) := by
    rw [sw.divInt_ok sS' (by norm_num) (by norm_num), tdiv_eq_ediv (by omega)]
  have f1 : ((q + a * 2) / 3) * 3 ≤ q + a * 2 := Int.ediv_mul_le _ (by norm_num)
  have f2 : q + a * 2 ≤ ((q + a * 2) / 3) * 3 + 2 := by omega
  generalize (q + a * 2) / 3 = b at *
  have f1' : (b : ℝ) * 3 ≤ q + a * 2 := by exact_mod_cast f1
  have f2' : (q : ℝ) + a * 2 ≤ b * 3 + 2 := by exact_mod_cast f2
  refine ⟨b, by linarith, by linarith, by linarith, ?_, fun n => ?_⟩
  · rw [cbrtLoop_unf, eS, Res.bind_ok, eW, Res.bind_ok, ed, Res.bind_ok, ea, Res.bind_ok, if_pos hge]
    rfl
  · rw [cbrtLoop_unf, eS, Res.bind_ok, eW, Res.bind_ok, ed, Res.bind_ok, ea, Res.bind_ok, if_pos hge]
    dsimp only
    rw [Res.bind_ok, eq, Res.bind_ok, et, Res.bind_ok, es, Res.bind_ok, ex, Res.bind_ok]

/-- The whole loop. -/
theorem cr_loop {F : FxTy} (sw : SW F) (hr : F.r = true) (b5 : F.f + 5 ≤ F.T.bits) {D H E X : Int} {B r : ℝ} (hE : 0 < E) (hD : D = 65536 * E)
    (hDF : (2 : Int) ^ F.f = D) (hHF : (2 : Int) ^ (F.T.bits - 1) = H) (h5 : 5 * E ≤ X) (hXH : X < H) (hr27 : 2750 * (E : ℝ) ≤ r)
    (hX : r ^ 3 = X * (D : ℝ) ^ 2) (hB : 5 * B ^ 3 ≤ H * (D : ℝ) ^ 2) (hrB : r + 26 ≤ B) (n : Nat) (a : Int) (ha : r - 6 ≤ a) (haB : (a : ℝ) ≤ B) :
    ∃ z : Int, cbrtLoop F X (10 * E) n a = .ok z ∧ r - 6 ≤ z ∧ (z : ℝ) - r - 26 ≤ (2 / 3) ^ n * (a - r - 26) := by
  induction n generalizing a with
  | zero =>
    obtain ⟨b, -, -, -, e, -⟩ := cr_pass sw hr b5 hE hD hDF hHF h5 hXH hr27 hX hB hrB ha haB
    exact ⟨a, e, ha, by simp⟩
  | succ n ih =>
    obtain ⟨b, b1, b2, b3, -, e⟩ := cr_pass sw hr b5 hE hD hDF hHF h5 hXH hr27 hX hB hrB ha haB
    obtain ⟨z, ez, z1, z2⟩ := ih b b1 b2
    refine ⟨z, by rw [e, ez], z1, z2.trans ?_⟩
    have := mul_le_mul_of_nonneg_left b3 (show (0 : ℝ) ≤ (2 / 3) ^ n by positivity)
    rw [pow_succ]; linarith

/-- The tolerance on rounding types. -/
theorem eps_rr {F : FxTy} (sw : SW F) (hr : F.r = true) (h16 : 16 ≤ F.f) (b5 : F.f + 5 ≤ F.T.bits) (b64 : F.T.bits ≤ 64) :
    epsilon F = .ok (5 * 2 ^ (F.f - 16)) := by
  have key : ∀ f < 60, 16 ≤ f → shl i64 1 (64 - f) = .ok (2 ^ (64 - f)) ∧ cdiv i64.promote 0x5000000000000 (2 ^ (64 - f)) = .ok (5 * 2 ^ (f - 16)) ∧
      shl i64 1 (64 - f - 1) = .ok (2 ^ (64 - f - 1)) ∧ cdiv i64.promote 0x5000000000000 (2 ^ (64 - f - 1)) = .ok (10 * 2 ^ (f - 16)) ∧
      cmod i64.promote (10 * 2 ^ (f - 16)) 2 = .ok 0 ∧ arith i64.promote (5 * 2 ^ (f - 16) + 0) = .ok (5 * 2 ^ (f - 16)) := by
    decide +kernel
  obtain ⟨k1, k2, k3, k4, k5, k6⟩ := key F.f (by omega) h16
  unfold epsilon fromFixedNumValue
  rw [if_pos (by omega), hr, if_pos rfl, k1, Res.bind_ok, k2, Res.bind_ok, k3, Res.bind_ok, k4, Res.bind_ok, k5, Res.bind_ok, k6, Res.bind_ok,
    sw.wrap_ok, Res.pure_eq]
  have e : (2 : Int) ^ (F.f - 16) * 2 ^ 20 = 2 ^ (F.f + 4) := by rw [← pow_add]; congr 1; omega
  have h1 : (2 : Int) ^ (F.f + 4) ≤ 2 ^ (F.T.bits - 1) := pow_le_pow_right₀ (by norm_num) (by omega)
  have h0 : (0 : Int) < 2 ^ (F.f - 16) := by positivity
  have := sw.lo_eq; have := sw.hi_eq
  constructor <;> omega

/-- C192: on every signed rounding layout with at least 16 fraction bits and five integer bits (the sign included), for every argument from
5/65536 on whose start value has a cube below a fifth of the range, `cbrt` is defined and between six ulp below and 27 ulp above the root: the
doubled square and the doubled quotient cancel. -/
theorem C192_cbrt (F : FxTy) (hF : F.Valid) (hs : SignedWide F) (hr : F.r = true) (h16 : 16 ≤ F.f) (h5 : F.f + 5 ≤ F.T.bits)
    (x : Int) (hx : Storable F x) (h0 : 5 / 65536 ≤ val F x) (hc : 5 * ((val F x + 2) / 3 + 26 * ulp F) ^ 3 ≤ val F F.T.hi + ulp F) :
    ∃ z, cbrt F x = .ok z ∧ val F x ≤ (val F z + 6 * ulp F) ^ 3 ∧ (val F z - 27 * ulp F) ^ 3 ≤ val F x := by
  have sw : SW F := sw_five hF hs h5
  have hb64 : F.T.bits ≤ 64 := by have := hF.1; omega
  have hH64 : (2 : Int) ^ (F.T.bits - 1) ≤ 2 ^ 63 := pow_le_pow_right₀ (by norm_num) (by omega)
  have heps := eps_rr sw hr h16 h5 hb64
  obtain ⟨E, eE⟩ : ∃ E : Int, (2 : Int) ^ (F.f - 16) = E := ⟨_, rfl⟩
  have hE : 0 < E := by rw [← eE]; positivity
  have hDE : (2 : Int) ^ F.f = 65536 * E := by
    rw [← eE, show (65536 : Int) = 2 ^ 16 by norm_num, ← pow_add]; congr 1; omega
  have hroom : 16 * (2 : Int) ^ F.f ≤ 2 ^ (F.T.bits - 1) := by
    rw [show (16 : Int) * 2 ^ F.f = 2 ^ (F.f + 4) by rw [pow_add]; ring]
    exact pow_le_pow_right₀ (by norm_num) (by omega)
  rw [eE] at heps
  have hhi := sw.hi_eq
  have hlo := sw.lo_eq
  have hxh := hx.2
  have vv := val_real F
  have uu := ulp_real F
  obtain ⟨D, hDF⟩ : ∃ D : Int, (2 : Int) ^ F.f = D := ⟨_, rfl⟩
  obtain ⟨H, hHF⟩ : ∃ H : Int, (2 : Int) ^ (F.T.bits - 1) = H := ⟨_, rfl⟩
  rw [hDF] at hDE hroom uu
  simp only [hDF] at vv
  rw [hHF] at hroom hhi hlo hH64
  have hD0 : 0 < D := by omega
  have hDq : (0 : ℚ) < D := by exact_mod_cast hD0
  have hDEq : (D : ℚ) = 65536 * E := by exact_mod_cast hDE
  have hEq : (1 : ℚ) ≤ E := by exact_mod_cast hE
  have g5 : 5 * E ≤ x := by
    rw [vv, le_div_iff₀ hDq, hDEq] at h0
    have : ((5 * E : Int) : ℚ) ≤ x := by push_cast; linarith
    exact_mod_cast this
  have gB : 5 * (((x : ℚ) + 2 * D) / 3 + 26) ^ 3 ≤ H * D ^ 2 := by
    rw [vv, vv, uu, hhi] at hc
    have e1 : ((x : ℚ) / D + 2) / 3 + 26 * (1 / D) = ((x + 2 * D) / 3 + 26) / D := by field_simp
    have e2 : ((H - 1 : Int) : ℚ) / D + 1 / D = H / D := by push_cast; ring
    rw [e1, e2, div_pow, ← mul_div_assoc, div_le_div_iff₀ (by positivity) hDq] at hc
    have h1 : (5 * (((x : ℚ) + 2 * D) / 3 + 26) ^ 3) * D ≤ (H * D ^ 2) * D := by
      calc _ ≤ _ := hc
        _ = _ := by ring
    exact le_of_mul_le_mul_right h1 hDq
  have gB' : 5 * (((x : ℝ) + 2 * D) / 3 + 26) ^ 3 ≤ H * (D : ℝ) ^ 2 := by exact_mod_cast gB
  have hE' : (1 : ℝ) ≤ E := by exact_mod_cast hE
  have hD' : (D : ℝ) = 65536 * E := by exact_mod_cast hDE
  have h5' : 5 * (E : ℝ) ≤ x := by exact_mod_cast g5
  have hroom' : 16 * (D : ℝ) ≤ H := by exact_mod_cast hroom
  obtain ⟨c, c0, hcc⟩ := exists_root ((x : ℝ) * (D : ℝ) ^ 2) (mul_nonneg (by linarith) (by positivity))
  have hr27 : 2750 * (E : ℝ) ≤ c := by
    by_contra hcon; push Not at hcon
    have h := pow_lt_pow_left₀ hcon c0 (n := 3) (by norm_num)
    have h6 : 5 * (E : ℝ) * D ^ 2 ≤ x * D ^ 2 := mul_le_mul_of_nonneg_right h5' (by positivity)
    rw [hcc] at h
    rw [hD'] at h h6
    have e3 : 0 < (E : ℝ) ^ 3 := by positivity
    have e1 : (2750 * (E : ℝ)) ^ 3 = 20796875000 * E ^ 3 := by ring
    have e2 : 5 * (E : ℝ) * (65536 * E) ^ 2 = 21474836480 * E ^ 3 := by ring
    linarith
  have hcB : c ≤ ((x : ℝ) + 2 * D) / 3 := by
    by_contra hcon; push Not at hcon
    have h := pow_lt_pow_left₀ hcon (by linarith) (n := 3) (by norm_num)
    have am : 27 * ((x : ℝ) * D ^ 2) ≤ (x + 2 * D) ^ 3 := by
      nlinarith [mul_nonneg (sq_nonneg ((x : ℝ) - D)) (by linarith : 0 ≤ (x : ℝ) + 8 * D)]
    rw [hcc, div_pow] at h
    norm_num at h
    linarith
  obtain ⟨k1, -, -⟩ := cr_room (a := 0) (S := 0) (by linarith) hroom' gB' le_rfl (by linarith) (by simp)
  have ht : x + 2 * D < H := by
    have : ((x + 2 * D : Int) : ℝ) < H := by push_cast; linarith
    exact_mod_cast this
  have hfp : x < H := by omega
  have st : ∀ {z : Int}, 0 ≤ z → z < H → F.T.InRange z := fun h0 h1 => by constructor <;> omega
  have ha : abs F x = .ok x := by
    have := sw.abs_ok hx (by omega)
    rwa [abs_of_nonneg (by omega)] at this
  have hadd : addInt F x 2 = .ok (x + 2 * D) := by
    have := sw.addInt_ok (x := x) (n := 2) (by rw [hDF]; exact st (by omega) (by omega)) (by rw [hDF]; exact st (by omega) (by omega))
    rw [hDF] at this; exact this
  have hdiv : divInt F i32 (x + 2 * D) 3 = .ok ((x + 2 * D) / 3) := by
    rw [sw.divInt_ok (st (by omega) (by omega)) (by norm_num) (by norm_num), tdiv_eq_ediv (by omega)]
  have hprec : mulInt F i32 (5 * E) 2 = .ok (10 * E) := by
    rw [sw.mulInt_ok (st (by omega) (by omega)) (by decide) (st (by omega) (by omega))]
    congr 1; ring
  have f1 : ((x + 2 * D) / 3) * 3 ≤ x + 2 * D := Int.ediv_mul_le _ (by norm_num)
  have f2 : x + 2 * D ≤ ((x + 2 * D) / 3) * 3 + 2 := by omega
  have f1' : (((x + 2 * D) / 3 : Int) : ℝ) * 3 ≤ x + 2 * D := by exact_mod_cast f1
  have f2' : (x : ℝ) + 2 * D ≤ (((x + 2 * D) / 3 : Int) : ℝ) * 3 + 2 := by exact_mod_cast f2
  obtain ⟨z, ez, z1, z2⟩ := cr_loop sw hr h5 hE hDE hDF hHF g5 hfp hr27 hcc gB' (by linarith) 201 ((x + 2 * D) / 3) (by linarith) (by linarith)
  have hb : (((x + 2 * D) / 3 : Int) : ℝ) ≤ 2 ^ 63 := by exact_mod_cast (by omega : (x + 2 * D) / 3 ≤ 2 ^ 63)
  have z27 : (z : ℝ) - 27 ≤ c := by
    have h1 : (2 / 3 : ℝ) ^ 201 * ((((x + 2 * D) / 3 : Int) : ℝ) - c - 26) ≤ (2 / 3) ^ 201 * 2 ^ 63 :=
      mul_le_mul_of_nonneg_left (by linarith) (by positivity)
    have h2 : (2 / 3 : ℝ) ^ 201 * 2 ^ 63 ≤ 1 := by norm_num
    linarith
  refine ⟨z, ?_, ?_, ?_⟩
  · unfold cbrt
    rw [ha, heps, Res.bind_ok, Res.bind_ok, if_neg (by rw [lt_iff]; omega), hadd, Res.bind_ok, hdiv, Res.bind_ok, hprec, Res.bind_ok, ez]
  · have h3 : (x : ℝ) * D ^ 2 ≤ (z + 6) ^ 3 := by
      rw [← hcc]; exact pow_le_pow_left₀ c0 (by linarith) 3
    have h3' : (x : ℚ) * D ^ 2 ≤ (z + 6) ^ 3 := by exact_mod_cast h3
    rw [vv, vv, uu]
    have e : ((z : ℚ) / D + 6 * (1 / D)) ^ 3 = (z + 6) ^ 3 / D ^ 3 := by rw [show (z : ℚ) / D + 6 * (1 / D) = (z + 6) / D by ring, div_pow]
    rw [e, div_le_div_iff₀ hDq (by positivity)]
    have := mul_le_mul_of_nonneg_right h3' hDq.le
    linarith [show (x : ℚ) * D ^ 2 * D = x * D ^ 3 by ring]
  · have h3 : ((z : ℝ) - 27) ^ 3 ≤ x * D ^ 2 := by
      rw [← hcc]; exact pow_le_pow_left₀ (by linarith) z27 3
    have h3' : ((z : ℚ) - 27) ^ 3 ≤ x * D ^ 2 := by exact_mod_cast h3
    rw [vv, vv, uu]
    have e : ((z : ℚ) / D - 27 * (1 / D)) ^ 3 = (z - 27) ^ 3 / D ^ 3 := by rw [show (z : ℚ) / D - 27 * (1 / D) = (z - 27) / D by ring, div_pow]
    rw [e, div_le_div_iff₀ (by positivity) hDq]
    have := mul_le_mul_of_nonneg_right h3' hDq.le
    linarith [show (x : ℚ) * D ^ 2 * D = x * D ^ 3 by ring]

example : cbrt ⟨i32, i64, 16, true⟩ (27 * 65536) = .ok 196608 ∧ cbrt (R64 32) (1000 * 2 ^ 32) = .ok 42949672960 ∧
    5 * ((val (⟨i32, i64, 16, true⟩ : FxTy) (27 * 65536) + 2) / 3 + 26 * ulp ⟨i32, i64, 16, true⟩) ^ 3 ≤
      val ⟨i32, i64, 16, true⟩ i32.hi + ulp ⟨i32, i64, 16, true⟩ := by
  refine ⟨by decide +kernel, by decide +kernel, ?_⟩
  unfold val ulp; norm_num [IntTy.hi, i32]

end Eirin.Props
