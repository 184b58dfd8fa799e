import Verif.Lemmas.Cordic
import Verif.Lemmas.Arctan
import Verif.Lemmas.Sin
import Mathlib.Analysis.Complex.Norm
import Mathlib.Analysis.Complex.Trigonometric
import Mathlib.Analysis.SpecialFunctions.Trigonometric.Arctan
import Mathlib.Analysis.Real.Pi.Bounds
import Mathlib.Algebra.BigOperators.Fin

/-! # CORDIC: distance of the integer loop from the exact rotation -/

namespace Eirin
open Spec Complex

/-- `arctan` partial sum with `N` terms. -/
def atS (N : Nat) (x : ℚ) : ℚ := ((List.range N).map fun j : Nat => (-1) ^ j * x ^ (2 * j + 1) / (2 * (j : ℚ) + 1)).sum

/-- The same over the reals, recursively. -/
noncomputable def atR : Nat → ℝ → ℝ
  | 0, _ => 0
  | N + 1, x => atR N x + (-1) ^ N * x ^ (2 * N + 1) / (2 * N + 1)

theorem atS_cast (N : Nat) (x : ℚ) : ((atS N x : ℚ) : ℝ) = atR N x := by
  induction N with
  | zero => simp [atS, atR]
  | succ N ih =>
    unfold atS at *
    rw [List.range_succ, List.map_append, List.sum_append, atR, ← ih]
    push_cast
    simp

/-- Derivative of the partial sum. -/
noncomputable def atR' (N : Nat) (x : ℝ) : ℝ := (1 - (-x ^ 2) ^ N) / (1 + x ^ 2)

theorem atR_deriv (N : Nat) (x : ℝ) : HasDerivAt (atR N) (atR' N x) x := by
  have hp : (1 + x ^ 2) ≠ 0 := by positivity
  induction N with
  | zero =>
    unfold atR'
    simpa [atR] using! hasDerivAt_const x (0 : ℝ)
  | succ N ih =>
    have h := (hasDerivAt_pow (2 * N + 1) x).const_mul ((-1 : ℝ) ^ N / (2 * N + 1))
    have h2 := ih.add h
    have e : atR (N + 1) = (atR N) + fun y => (-1 : ℝ) ^ N / (2 * N + 1) * y ^ (2 * N + 1) := by
      funext y; simp only [atR, Pi.add_apply]; ring
    rw [e]
    refine h2.congr_deriv ?_
    unfold atR'
    have hn : (2 * (N : ℝ) + 1) ≠ 0 := by positivity
    push_cast
    have e2 : (-1 : ℝ) ^ N / (2 * N + 1) * ((2 * N + 1) * x ^ (2 * N)) = (-x ^ 2) ^ N := by
      rw [neg_pow (x ^ 2) N, ← pow_mul]; field_simp
    rw [e2, pow_succ]
    field_simp
    ring

theorem arctan_atR (N : Nat) (x : ℝ) (h0 : 0 ≤ x) (h1 : x ≤ 1) :
    |Real.arctan x - atR N x| ≤ x ^ (2 * N + 1) / (2 * N + 1) := by
  have hn : (2 * (N : ℝ) + 1) ≠ 0 := by positivity
  have hpow : ∀ y : ℝ, HasDerivAt (fun z : ℝ => z ^ (2 * N + 1) / (2 * (N : ℝ) + 1)) (y ^ (2 * N)) y := by
    intro y
    have := (hasDerivAt_pow (2 * N + 1) y).div_const (2 * (N : ℝ) + 1)
    refine this.congr_deriv ?_
    push_cast; field_simp
  have key : ∀ y : ℝ, |1 / (1 + y ^ 2) - atR' N y| ≤ y ^ (2 * N) := by
    intro y
    have hp : (0 : ℝ) < 1 + y ^ 2 := by positivity
    unfold atR'
    rw [← sub_div, show (1 : ℝ) - (1 - (-y ^ 2) ^ N) = (-y ^ 2) ^ N by ring, abs_div, abs_pow, abs_neg, abs_of_pos hp,
      abs_of_nonneg (by positivity : (0 : ℝ) ≤ y ^ 2), ← pow_mul]
    apply div_le_self (by rw [pow_mul]; positivity)
    nlinarith [sq_nonneg y]
  have z0 : atR N 0 = 0 := by
    clear hpow key hn
    induction N with
    | zero => rfl
    | succ N ih => rw [atR, ih, zero_pow (by omega)]; simp
  have A := Trig.nonneg_of_deriv_unit (fun z => Real.arctan z - atR N z + z ^ (2 * N + 1) / (2 * N + 1))
    (fun y => 1 / (1 + y ^ 2) - atR' N y + y ^ (2 * N)) (by simp [z0])
    (fun y => ((Real.hasDerivAt_arctan y).sub (atR_deriv N y)).add (hpow y))
    (by intro y _ _; have := (abs_le.1 (key y)).1; linarith) x h0 h1
  have B := Trig.nonneg_of_deriv_unit (fun z => -(Real.arctan z - atR N z) + z ^ (2 * N + 1) / (2 * N + 1))
    (fun y => -(1 / (1 + y ^ 2) - atR' N y) + y ^ (2 * N)) (by simp [z0])
    (fun y => (((Real.hasDerivAt_arctan y).sub (atR_deriv N y)).neg).add (hpow y))
    (by intro y _ _; have := (abs_le.1 (key y)).2; linarith) x h0 h1
  rw [abs_le]; constructor <;> linarith

/-- Table error in ulps, entry `i`. -/
noncomputable def tErr (f : Nat) (tab : List Int) (i : Nat) : ℝ := |Real.arctan ((1 / 2) ^ i) * 2 ^ f - (tab.getD i 0 : Int)|

/-- Total table error of the first `i` entries. -/
noncomputable def tSum (f : Nat) (tab : List Int) : Nat → ℝ
  | 0 => 0
  | i + 1 => tSum f tab i + tErr f tab i

/-- Number of series terms used for entry `i`. -/
def atN (i : Nat) : Nat := if i < 5 then 16 else 4

/-- A rational bound on entry `i`'s table error. -/
def tErrQ (f : Nat) (tab : List Int) : Nat → ℚ
  | 0 => Max.max |(314159265358979 / 400000000000000 : ℚ) * 2 ^ f - tab.getD 0 0| |(314159265358980 / 400000000000000 : ℚ) * 2 ^ f - tab.getD 0 0|
  | i + 1 => |atS (atN i) ((1 / 2) ^ (i + 1)) * 2 ^ f - tab.getD (i + 1) 0| +
      ((1 / 2) ^ (i + 1)) ^ (2 * (atN i) + 1) / (2 * (atN i : ℚ) + 1) * 2 ^ f

def tSumQ (f : Nat) (tab : List Int) : Nat → ℚ
  | 0 => 0
  | i + 1 => tSumQ f tab i + tErrQ f tab i

theorem tErr_le (f : Nat) (tab : List Int) (i : Nat) : tErr f tab i ≤ (tErrQ f tab i : ℚ) := by
  have hp : (0 : ℝ) < 2 ^ f := by positivity
  cases i with
  | zero =>
    unfold tErr tErrQ
    rw [pow_zero, Real.arctan_one]
    have h1 := Real.pi_gt_d20
    have h2 := Real.pi_lt_d20
    push_cast
    apply abs_le_max_abs_abs
    · have : (314159265358979 / 400000000000000 : ℝ) ≤ Real.pi / 4 := by norm_num at h1 ⊢; linarith
      have := mul_le_mul_of_nonneg_right this hp.le
      linarith
    · have : Real.pi / 4 ≤ (314159265358980 / 400000000000000 : ℝ) := by norm_num at h2 ⊢; linarith
      have := mul_le_mul_of_nonneg_right this hp.le
      linarith
  | succ i =>
    unfold tErr tErrQ
    push_cast
    rw [atS_cast]
    generalize atN i = N
    have h0 : (0 : ℝ) ≤ (1 / 2) ^ (i + 1) := by positivity
    have h1 : ((1 : ℝ) / 2) ^ (i + 1) ≤ 1 := pow_le_one₀ (by norm_num) (by norm_num)
    have h := arctan_atR N _ h0 h1
    push_cast
    have e : Real.arctan ((1 / 2) ^ (i + 1)) * 2 ^ f - (tab.getD (i + 1) 0 : Int) =
        (atR N ((1 / 2) ^ (i + 1)) * 2 ^ f - (tab.getD (i + 1) 0 : Int)) + (Real.arctan ((1 / 2) ^ (i + 1)) - atR N ((1 / 2) ^ (i + 1))) * 2 ^ f := by ring
    rw [e]
    refine le_trans (abs_add_le _ _) ?_
    rw [abs_mul _ ((2 : ℝ) ^ f), abs_of_pos hp]
    exact add_le_add le_rfl (mul_le_mul_of_nonneg_right h hp.le)

theorem tSum_le (f : Nat) (tab : List Int) (i : Nat) : tSum f tab i ≤ (tSumQ f tab i : ℚ) := by
  induction i with
  | zero => simp [tSum, tSumQ]
  | succ i ih =>
    rw [tSum, tSumQ]; push_cast
    have := tErr_le f tab i
    linarith

theorem tSum32 : tSumQ 16 tab32 41 ≤ 23 := by decide +kernel
theorem tSum64 : tSumQ 32 tab64 41 ≤ 24 := by decide +kernel

/-- Gain of the first `i` rotations. -/
noncomputable def cgain : Nat → ℝ
  | 0 => 1
  | i + 1 => cgain i * Real.sqrt (1 + ((1 / 2) ^ i) ^ 2)

/-- Its square. -/
def cgain2 : Nat → ℚ
  | 0 => 1
  | i + 1 => cgain2 i * (1 + ((1 / 2) ^ i) ^ 2)

theorem cgain_nonneg : ∀ i, 0 ≤ cgain i
  | 0 => zero_le_one
  | i + 1 => mul_nonneg (cgain_nonneg i) (Real.sqrt_nonneg _)

theorem cgain_sq (i : Nat) : cgain i ^ 2 = (cgain2 i : ℚ) := by
  induction i with
  | zero => simp [cgain, cgain2]
  | succ i ih =>
    rw [cgain, cgain2, mul_pow, ih, Real.sq_sqrt (by positivity)]; push_cast; rfl

/-- Accumulated rounding, in ulps. -/
def cround : Nat → ℚ
  | 0 => 0
  | i + 1 => cround i * (1 + ((1 / 2) ^ i) ^ 2 / 2) + if i = 0 then 0 else 141422 / 100000

theorem cround41 : cround 41 ≤ 57 := by decide +kernel
theorem cround_nonneg : ∀ i, 0 ≤ cround i
  | 0 => le_refl _
  | i + 1 => by
    have := cround_nonneg i
    rw [cround]; split <;> positivity

/-- `1 + t i = sqrt(1+t²) e^{i arctan t}`. -/
theorem one_add_tI (t : ℝ) : (1 + t * I : ℂ) = (Real.sqrt (1 + t ^ 2) : ℝ) * Complex.exp ((Real.arctan t : ℝ) * I) := by
  have hs : (0 : ℝ) < Real.sqrt (1 + t ^ 2) := Real.sqrt_pos.2 (by positivity)
  rw [exp_mul_I, ← ofReal_cos, ← ofReal_sin, Real.cos_arctan, Real.sin_arctan]
  apply Complex.ext
  · simp only [add_re, one_re, mul_re, ofReal_re, I_re, mul_zero, ofReal_im, I_im, sub_zero, mul_one, add_im, mul_im, zero_mul,
      add_zero, sub_self]
    field_simp
  · simp only [add_im, one_im, mul_im, ofReal_re, I_im, mul_one, ofReal_im, I_re, mul_zero, add_zero, zero_add, add_re, mul_re,
      sub_zero, zero_mul]
    field_simp

/-- The loop invariant: the integer vector is near the exactly rotated vector of some angle `φ`, which is near the accumulated table
angle `q`, which is near the target. -/
def CInv (f : Nat) (k : Int) (tab : List Int) (e Q : Int) (i : Nat) (x y q : Int) : Prop :=
  (i = 0 → y = 0) ∧
  (∃ φ : ℝ, ‖((x : ℂ) + y * I) - ((k * cgain i : ℝ) : ℂ) * Complex.exp (φ * I)‖ ≤ (cround i : ℚ) ∧ |φ * 2 ^ f - q| ≤ tSum f tab i) ∧
  |Q - q| ≤ (tab.drop i).sum + e

theorem floor_err (y : Int) (i : Nat) : |(y : ℝ) * (1 / 2) ^ i - ((y / 2 ^ i : Int) : ℝ)| ≤ 1 ∧ (i = 0 → (y : ℝ) * (1 / 2) ^ i = ((y / 2 ^ i : Int) : ℝ)) := by
  have hp : (0 : Int) < 2 ^ i := by positivity
  have hpR : (0 : ℝ) < 2 ^ i := by positivity
  constructor
  · have h1 : (y / 2 ^ i) * 2 ^ i ≤ y := Int.ediv_mul_le y (ne_of_gt hp)
    have h2 := Int.lt_ediv_add_one_mul_self y hp
    have h1' : ((y / 2 ^ i : Int) : ℝ) * 2 ^ i ≤ y := by exact_mod_cast h1
    have h2' : (y : ℝ) < (((y / 2 ^ i : Int) : ℝ) + 1) * 2 ^ i := by exact_mod_cast h2
    rw [one_div, inv_pow, ← div_eq_mul_inv, abs_le]
    rw [← le_div_iff₀ hpR] at h1'
    rw [← div_lt_iff₀ hpR] at h2'
    constructor <;> linarith
  · rintro rfl; simp

/-- One pass with rotation sign `s = ±1`. -/
theorem rot_step {f : Nat} {k : Int} {tab : List Int} {i : Nat} {x y q : Int} (s : Int) (hs : s = 1 ∨ s = -1) {φ : ℝ}
    (h1 : ‖((x : ℂ) + y * I) - ((k * cgain i : ℝ) : ℂ) * Complex.exp (φ * I)‖ ≤ (cround i : ℚ)) (h2 : |φ * 2 ^ f - q| ≤ tSum f tab i) :
    ∃ φ' : ℝ, ‖(((x - s * (y / 2 ^ i) : Int) : ℂ) + ((y + s * (x / 2 ^ i) : Int) : ℂ) * I) - ((k * cgain (i + 1) : ℝ) : ℂ) * Complex.exp (φ' * I)‖ ≤ (cround (i + 1) : ℚ) ∧
      |φ' * 2 ^ f - ((q + s * tab.getD i 0 : Int) : ℝ)| ≤ tSum f tab (i + 1) := by
  set t : ℝ := s * (1 / 2) ^ i with ht
  have hs2 : (s : ℝ) ^ 2 = 1 := by rcases hs with rfl | rfl <;> norm_num
  have hsa : |(s : ℝ)| = 1 := by rcases hs with rfl | rfl <;> norm_num
  have hat : Real.arctan t = s * Real.arctan ((1 / 2) ^ i) := by
    rw [ht]
    rcases hs with rfl | rfl
    · push_cast; rw [one_mul, one_mul]
    · push_cast; rw [neg_one_mul, neg_one_mul, Real.arctan_neg]
  have ht2 : t ^ 2 = ((1 / 2) ^ i) ^ 2 := by rw [ht, mul_pow, hs2, one_mul]
  refine ⟨φ + Real.arctan t, ?_, ?_⟩
  · set z : ℂ := (x : ℂ) + y * I with hz
    set d : ℂ := (((x - s * (y / 2 ^ i) : Int) : ℂ) + ((y + s * (x / 2 ^ i) : Int) : ℂ) * I) - z * (1 + t * I) with hd
    have hrot : ((k * cgain (i + 1) : ℝ) : ℂ) * Complex.exp (((φ + Real.arctan t : ℝ) : ℂ) * I) =
        (((k * cgain i : ℝ) : ℂ) * Complex.exp (φ * I)) * (1 + t * I) := by
      rw [one_add_tI, ht2, cgain]
      push_cast
      rw [add_mul, exp_add]; ring
    have hde : d = ⟨s * ((y : ℝ) * (1 / 2) ^ i - ((y / 2 ^ i : Int) : ℝ)), -(s * ((x : ℝ) * (1 / 2) ^ i - ((x / 2 ^ i : Int) : ℝ)))⟩ := by
      rw [hd, hz, ht]
      generalize ((1 : ℝ) / 2) ^ i = T
      apply Complex.ext
      · simp; ring
      · simp; ring
    have hdn : ‖d‖ ≤ if i = 0 then 0 else 141422 / 100000 := by
      obtain ⟨fx, fx0⟩ := floor_err x i
      obtain ⟨fy, fy0⟩ := floor_err y i
      split
      · rename_i hi
        rw [hde, fx0 hi, fy0 hi]
        simp only [sub_self, mul_zero, neg_zero]
        have : (⟨0, 0⟩ : ℂ) = 0 := rfl
        rw [this, norm_zero]
      · refine le_trans (norm_le_sqrt_two_mul_max d) ?_
        have hm : Max.max |d.re| |d.im| ≤ 1 := by
          rw [hde]
          simp only [abs_neg, abs_mul, hsa, one_mul]
          exact max_le fy fx
        have hq : Real.sqrt 2 ≤ 141422 / 100000 := by
          rw [Real.sqrt_le_left (by norm_num)]; norm_num
        calc Real.sqrt 2 * Max.max |d.re| |d.im| ≤ Real.sqrt 2 * 1 := mul_le_mul_of_nonneg_left hm (Real.sqrt_nonneg _)
          _ ≤ _ := by rw [mul_one]; exact hq
    have hn : ‖(1 + t * I : ℂ)‖ ≤ 1 + ((1 / 2) ^ i) ^ 2 / 2 := by
      rw [one_add_tI, norm_mul, norm_exp_ofReal_mul_I, mul_one, norm_real, Real.norm_of_nonneg (Real.sqrt_nonneg _), ht2,
        Real.sqrt_le_left (by positivity)]
      nlinarith [sq_nonneg (((1 : ℝ) / 2) ^ i), sq_nonneg ((((1 : ℝ) / 2) ^ i) ^ 2)]
    have e : (((x - s * (y / 2 ^ i) : Int) : ℂ) + ((y + s * (x / 2 ^ i) : Int) : ℂ) * I) - ((k * cgain (i + 1) : ℝ) : ℂ) * Complex.exp (((φ + Real.arctan t : ℝ) : ℂ) * I) =
        (z - ((k * cgain i : ℝ) : ℂ) * Complex.exp (φ * I)) * (1 + t * I) + d := by
      rw [hrot, hd]; ring
    rw [e]
    refine le_trans (norm_add_le _ _) ?_
    rw [norm_mul, cround]
    have hr : (0 : ℝ) ≤ (cround i : ℚ) := by exact_mod_cast cround_nonneg i
    have hmul := mul_le_mul h1 hn (norm_nonneg _) hr
    have : (((cround i * (1 + ((1 / 2) ^ i) ^ 2 / 2) + if i = 0 then 0 else 141422 / 100000 : ℚ)) : ℝ) =
        (cround i : ℚ) * (1 + ((1 / 2) ^ i) ^ 2 / 2) + if i = 0 then 0 else 141422 / 100000 := by
      split <;> push_cast <;> ring
    rw [this]
    linarith
  · rw [tSum, hat]
    have e : (φ + s * Real.arctan ((1 / 2) ^ i)) * 2 ^ f - ((q + s * tab.getD i 0 : Int) : ℝ) =
        (φ * 2 ^ f - q) + s * (Real.arctan ((1 / 2) ^ i) * 2 ^ f - (tab.getD i 0 : Int)) := by push_cast; ring
    rw [e]
    refine le_trans (abs_add_le _ _) ?_
    rw [abs_mul, hsa, one_mul]
    unfold tErr
    linarith

/-- The table contracts: no angle exceeds the sum of the later ones by more than `e`. -/
def Contracts (tab : List Int) (e : Int) : Prop := ∀ i < 41, tab.getD i 0 ≤ (tab.drop (i + 1)).sum + e

theorem contracts32 : Contracts tab32 11 := by unfold Contracts; decide +kernel
theorem contracts64 : Contracts tab64 14 := by unfold Contracts; decide +kernel

theorem drop_sum {tab : List Int} {i : Nat} (hi : i < tab.length) : (tab.drop i).sum = tab.getD i 0 + (tab.drop (i + 1)).sum := by
  rw [getD_eq hi, List.drop_eq_getElem_cons hi, List.sum_cons]

theorem cinv_step {f : Nat} {k : Int} {tab : List Int} {e Q : Int} (hlen : tab.length = 41) (hc : Contracts tab e) {i : Nat} (hi : i < 41)
    {x y q : Int} (h : CInv f k tab e Q i x y q) :
    CInv f k tab e Q (i + 1) (cstep tab Q i x y q).1 (cstep tab Q i x y q).2.1 (cstep tab Q i x y q).2.2 := by
  obtain ⟨_, ⟨φ, h1, h2⟩, h3⟩ := h
  have hl : i < tab.length := by omega
  have hs := drop_sum hl
  have hci := hc i hi
  rw [abs_le] at h3
  refine ⟨fun h => absurd h (by omega), ?_, ?_⟩
  · unfold cstep
    split
    · obtain ⟨φ', a, b⟩ := rot_step 1 (Or.inl rfl) h1 h2
      refine ⟨φ', ?_, ?_⟩
      · rw [one_mul, one_mul] at a; exact a
      · rw [one_mul] at b; exact b
    · obtain ⟨φ', a, b⟩ := rot_step (-1) (Or.inr rfl) h1 h2
      refine ⟨φ', ?_, ?_⟩
      · rw [neg_one_mul, neg_one_mul, sub_neg_eq_add, ← sub_eq_add_neg] at a; exact a
      · rw [neg_one_mul, ← sub_eq_add_neg] at b; exact b
  · unfold cstep
    rw [abs_le]
    split <;> simp only <;> constructor <;> omega

theorem cinv_loop {f : Nat} {k : Int} {tab : List Int} {e Q : Int} (hlen : tab.length = 41) (hc : Contracts tab e) :
    ∀ (n i : Nat) (x y q : Int), i + n ≤ 41 → CInv f k tab e Q i x y q →
      CInv f k tab e Q (i + n) (cloop tab Q n i x y q).1 (cloop tab Q n i x y q).2.1 (cloop tab Q n i x y q).2.2
  | 0, _, _, _, _, _, h => h
  | n + 1, i, x, y, q, hn, h => by
    rw [show i + (n + 1) = (i + 1) + n by omega]
    exact cinv_loop hlen hc n (i + 1) _ _ _ (by omega) (cinv_step hlen hc (by omega) h)

/-- Final accuracy of the loop: sine and cosine of the target angle, in ulps. -/
theorem cloop_accuracy {f : Nat} {k : Int} {tab : List Int} {e Q : Int} (hlen : tab.length = 41) (hc : Contracts tab e)
    (hQ : 0 ≤ Q ∧ Q ≤ tab.sum + e) (T : ℚ) (hT : tSumQ f tab 41 ≤ T) (g : ℚ) (hg0 : 0 ≤ g) (hgf : g ≤ 2 ^ f) (hk : 0 ≤ k)
    (hg1 : (k : ℚ) ^ 2 * cgain2 41 ≤ (2 ^ f + g) ^ 2) (hg2 : ((2 : ℚ) ^ f - g) ^ 2 ≤ (k : ℚ) ^ 2 * cgain2 41) :
    |((cloop tab Q 41 0 k 0 0).2.1 : ℝ) - 2 ^ f * Real.sin (Q / 2 ^ f)| ≤ 57 + g + T + e ∧
    |((cloop tab Q 41 0 k 0 0).1 : ℝ) - 2 ^ f * Real.cos (Q / 2 ^ f)| ≤ 57 + g + T + e := by
  have hp : (0 : ℝ) < 2 ^ f := by positivity
  have h0 : CInv f k tab e Q 0 k 0 0 := by
    refine ⟨fun _ => rfl, ⟨0, ?_, ?_⟩, ?_⟩
    · simp [cgain, cround]
    · simp [tSum]
    · rw [abs_le, List.drop_zero]; omega
  obtain ⟨_, ⟨φ, h1, h2⟩, h3⟩ := cinv_loop hlen hc 41 0 k 0 0 (by omega) h0
  generalize (cloop tab Q 41 0 k 0 0).1 = x at *
  generalize (cloop tab Q 41 0 k 0 0).2.1 = y at *
  generalize (cloop tab Q 41 0 k 0 0).2.2 = q at *
  rw [Nat.zero_add] at h1 h2 h3
  have hd : (tab.drop 41).sum = 0 := by rw [List.drop_of_length_le (by omega)]; rfl
  rw [hd, zero_add] at h3
  -- the gain
  have hG : |(k : ℝ) * cgain 41 - 2 ^ f| ≤ g := by
    have hnn : 0 ≤ (k : ℝ) * cgain 41 := mul_nonneg (by exact_mod_cast hk) (cgain_nonneg _)
    have hsq : ((k : ℝ) * cgain 41) ^ 2 = (((k : ℚ) ^ 2 * cgain2 41 : ℚ) : ℝ) := by
      rw [mul_pow, cgain_sq]; push_cast; rfl
    have a1 : ((k : ℝ) * cgain 41) ^ 2 ≤ (2 ^ f + g) ^ 2 := by rw [hsq]; exact_mod_cast hg1
    have a2 : ((2 : ℝ) ^ f - g) ^ 2 ≤ ((k : ℝ) * cgain 41) ^ 2 := by rw [hsq]; exact_mod_cast hg2
    have g0 : (0 : ℝ) ≤ g := by exact_mod_cast hg0
    have gf : (g : ℝ) ≤ 2 ^ f := by exact_mod_cast hgf
    have b1 := abs_le_of_sq_le_sq a1 (by positivity)
    have b2 := abs_le_of_sq_le_sq a2 hnn
    rw [abs_le]
    constructor
    · have := le_of_abs_le b2; linarith
    · have := le_of_abs_le b1; linarith
  have hφ : |φ * 2 ^ f - Q| ≤ T + e := by
    have t1 : tSum f tab 41 ≤ T := le_trans (tSum_le f tab 41) (by exact_mod_cast hT)
    have t2 : |((Q : ℝ) - q)| ≤ e := by exact_mod_cast h3
    rw [abs_le] at *
    constructor <;> linarith [h2.1, h2.2, t2.1, t2.2]
  have hφ' : |φ - Q / 2 ^ f| * 2 ^ f ≤ T + e := by
    rw [← abs_of_pos hp, ← abs_mul, abs_of_pos hp, sub_mul, div_mul_cancel₀ _ (ne_of_gt hp)]; exact hφ
  have hc57 : ((cround 41 : ℚ) : ℝ) ≤ 57 := by exact_mod_cast cround41
  have h1 := le_trans h1 hc57
  have hre := le_trans (abs_re_le_norm _) h1
  have him := le_trans (abs_im_le_norm _) h1
  rw [exp_mul_I, ← ofReal_cos, ← ofReal_sin] at hre him
  simp only [sub_re, add_re, intCast_re, mul_re, intCast_im, I_re, mul_zero, I_im, mul_one, sub_zero, ofReal_re, ofReal_im, zero_mul,
    add_zero, sub_self, add_im, mul_im, zero_add, sub_im] at hre him
  constructor
  · have e1 : (y : ℝ) - 2 ^ f * Real.sin (Q / 2 ^ f) = (y - k * cgain 41 * Real.sin φ) + (k * cgain 41 - 2 ^ f) * Real.sin φ +
        2 ^ f * (Real.sin φ - Real.sin (Q / 2 ^ f)) := by ring
    have s1 : |(k * cgain 41 - 2 ^ f) * Real.sin φ| ≤ g := by
      rw [abs_mul]
      calc _ ≤ (g : ℝ) * 1 := mul_le_mul hG (Real.abs_sin_le_one _) (abs_nonneg _) (by exact_mod_cast hg0)
        _ = g := mul_one _
    have s2 : |2 ^ f * (Real.sin φ - Real.sin (Q / 2 ^ f))| ≤ T + e := by
      rw [abs_mul, abs_of_pos hp, mul_comm]
      exact le_trans (mul_le_mul_of_nonneg_right (Real.abs_sin_sub_sin_le _ _) hp.le) hφ'
    rw [e1]
    refine le_trans (abs_add_three _ _ _) ?_
    linarith
  · have e1 : (x : ℝ) - 2 ^ f * Real.cos (Q / 2 ^ f) = (x - k * cgain 41 * Real.cos φ) + (k * cgain 41 - 2 ^ f) * Real.cos φ +
        2 ^ f * (Real.cos φ - Real.cos (Q / 2 ^ f)) := by ring
    have s1 : |(k * cgain 41 - 2 ^ f) * Real.cos φ| ≤ g := by
      rw [abs_mul]
      calc _ ≤ (g : ℝ) * 1 := mul_le_mul hG (Real.abs_cos_le_one _) (abs_nonneg _) (by exact_mod_cast hg0)
        _ = g := mul_one _
    have s2 : |2 ^ f * (Real.cos φ - Real.cos (Q / 2 ^ f))| ≤ T + e := by
      rw [abs_mul, abs_of_pos hp, mul_comm]
      exact le_trans (mul_le_mul_of_nonneg_right (Real.abs_cos_sub_cos_le _ _) hp.le) hφ'
    rw [e1]
    refine le_trans (abs_add_three _ _ _) ?_
    linarith

end Eirin
