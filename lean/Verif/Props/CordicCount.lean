import Verif.Props.CordicAccuracy

/-! # C167: the number of CORDIC passes controls the accuracy -/

namespace Eirin
open Spec Complex

/-- Accuracy of the loop after `n` passes, in ulps: rounding, gain, table error, and the angles not used; and the radius. -/
theorem cloop_accuracy_n {f : Nat} {k : Int} {tab : List Int} {e Q : Int} (hlen : tab.length = 41) (n : Nat) (hn : n ≤ 41) (R : ℚ) (hR : cround n ≤ R) (hc : Contracts tab e)
    (hQ : 0 ≤ Q ∧ Q ≤ tab.sum + e) (T : ℚ) (hT : tSumQ f tab n ≤ T) (g : ℚ) (hg0 : 0 ≤ g) (hgf : g ≤ 2 ^ f) (hk : 0 ≤ k)
    (hg1 : (k : ℚ) ^ 2 * cgain2 n ≤ (2 ^ f + g) ^ 2) (hg2 : ((2 : ℚ) ^ f - g) ^ 2 ≤ (k : ℚ) ^ 2 * cgain2 n) :
    |((cloop tab Q n 0 k 0 0).2.1 : ℝ) - 2 ^ f * Real.sin (Q / 2 ^ f)| ≤ R + g + T + e + (tab.drop n).sum ∧
    |((cloop tab Q n 0 k 0 0).1 : ℝ) - 2 ^ f * Real.cos (Q / 2 ^ f)| ≤ R + g + T + e + (tab.drop n).sum  ∧
    |Real.sqrt (((cloop tab Q n 0 k 0 0).1 : ℝ) ^ 2 + ((cloop tab Q n 0 k 0 0).2.1 : ℝ) ^ 2) - 2 ^ f| ≤ R + g := by
  have hp : (0 : ℝ) < 2 ^ f := by positivity
  have h0 : CInv f k tab e Q 0 k 0 0 := by
    refine ⟨fun _ => rfl, ⟨0, ?_, ?_⟩, ?_⟩
    · simp [cgain, cround]
    · simp [tSum]
    · rw [abs_le, List.drop_zero]; omega
  obtain ⟨_, ⟨φ, h1, h2⟩, h3⟩ := cinv_loop hlen hc n 0 k 0 0 (by omega) h0
  generalize (cloop tab Q n 0 k 0 0).1 = x at *
  generalize (cloop tab Q n 0 k 0 0).2.1 = y at *
  generalize (cloop tab Q n 0 k 0 0).2.2 = q at *
  rw [Nat.zero_add] at h1 h2 h3
  -- the gain
  have hG : |(k : ℝ) * cgain n - 2 ^ f| ≤ g := by
    have hnn : 0 ≤ (k : ℝ) * cgain n := mul_nonneg (by exact_mod_cast hk) (cgain_nonneg _)
    have hsq : ((k : ℝ) * cgain n) ^ 2 = (((k : ℚ) ^ 2 * cgain2 n : ℚ) : ℝ) := by
      rw [mul_pow, cgain_sq]; push_cast; rfl
    have a1 : ((k : ℝ) * cgain n) ^ 2 ≤ (2 ^ f + g) ^ 2 := by rw [hsq]; exact_mod_cast hg1
    have a2 : ((2 : ℝ) ^ f - g) ^ 2 ≤ ((k : ℝ) * cgain n) ^ 2 := by rw [hsq]; exact_mod_cast hg2
    have g0 : (0 : ℝ) ≤ g := by exact_mod_cast hg0
    have gf : (g : ℝ) ≤ 2 ^ f := by exact_mod_cast hgf
    have b1 := abs_le_of_sq_le_sq a1 (by positivity)
    have b2 := abs_le_of_sq_le_sq a2 hnn
    rw [abs_le]
    constructor
    · have := le_of_abs_le b2; linarith
    · have := le_of_abs_le b1; linarith
  have hφ : |φ * 2 ^ f - Q| ≤ T + e + (tab.drop n).sum := by
    have t1 : tSum f tab n ≤ T := le_trans (tSum_le f tab n) (by exact_mod_cast hT)
    have t2 : |((Q : ℝ) - q)| ≤ (tab.drop n).sum + e := by exact_mod_cast h3
    rw [abs_le] at *
    constructor <;> linarith [h2.1, h2.2, t2.1, t2.2]
  have hφ' : |φ - Q / 2 ^ f| * 2 ^ f ≤ T + e + (tab.drop n).sum := by
    rw [← abs_of_pos hp, ← abs_mul, abs_of_pos hp, sub_mul, div_mul_cancel₀ _ (ne_of_gt hp)]; exact hφ
  have hc57 : ((cround n : ℚ) : ℝ) ≤ R := by exact_mod_cast hR
  have h1 := le_trans h1 hc57
  have hrad : |Real.sqrt ((x : ℝ) ^ 2 + (y : ℝ) ^ 2) - 2 ^ f| ≤ R + g := by
    have e0 : ‖(x : ℂ) + y * I‖ = Real.sqrt ((x : ℝ) ^ 2 + (y : ℝ) ^ 2) := by
      have : ((x : ℂ) + y * I) = ((x : ℝ) : ℂ) + ((y : ℝ) : ℂ) * I := by push_cast; rfl
      rw [this, Complex.norm_add_mul_I]
    have e1 : ‖((k * cgain n : ℝ) : ℂ) * Complex.exp (φ * I)‖ = k * cgain n := by
      rw [norm_mul, norm_exp_ofReal_mul_I, mul_one, norm_real, Real.norm_of_nonneg (mul_nonneg (by exact_mod_cast hk) (cgain_nonneg _))]
    have := le_trans (abs_norm_sub_norm_le _ _) h1
    rw [e0, e1] at this
    have := abs_add_le (Real.sqrt ((x : ℝ) ^ 2 + (y : ℝ) ^ 2) - k * cgain n) (k * cgain n - 2 ^ f)
    rw [show Real.sqrt ((x : ℝ) ^ 2 + (y : ℝ) ^ 2) - k * cgain n + (k * cgain n - 2 ^ f) = Real.sqrt ((x : ℝ) ^ 2 + (y : ℝ) ^ 2) - 2 ^ f by ring] at this
    linarith
  have hre := le_trans (abs_re_le_norm _) h1
  have him := le_trans (abs_im_le_norm _) h1
  rw [exp_mul_I, ← ofReal_cos, ← ofReal_sin] at hre him
  simp only [sub_re, add_re, intCast_re, mul_re, intCast_im, I_re, mul_zero, I_im, mul_one, sub_zero, ofReal_re, ofReal_im, zero_mul,
    add_zero, sub_self, add_im, mul_im, zero_add, sub_im] at hre him
  refine ⟨?_, ?_, hrad⟩
  · have e1 : (y : ℝ) - 2 ^ f * Real.sin (Q / 2 ^ f) = (y - k * cgain n * Real.sin φ) + (k * cgain n - 2 ^ f) * Real.sin φ +
        2 ^ f * (Real.sin φ - Real.sin (Q / 2 ^ f)) := by ring
    have s1 : |(k * cgain n - 2 ^ f) * Real.sin φ| ≤ g := by
      rw [abs_mul]
      calc _ ≤ (g : ℝ) * 1 := mul_le_mul hG (Real.abs_sin_le_one _) (abs_nonneg _) (by exact_mod_cast hg0)
        _ = g := mul_one _
    have s2 : |2 ^ f * (Real.sin φ - Real.sin (Q / 2 ^ f))| ≤ T + e + (tab.drop n).sum := by
      rw [abs_mul, abs_of_pos hp, mul_comm]
      exact le_trans (mul_le_mul_of_nonneg_right (Real.abs_sin_sub_sin_le _ _) hp.le) hφ'
    rw [e1]
    refine le_trans (abs_add_three _ _ _) ?_
    linarith
  · have e1 : (x : ℝ) - 2 ^ f * Real.cos (Q / 2 ^ f) = (x - k * cgain n * Real.cos φ) + (k * cgain n - 2 ^ f) * Real.cos φ +
        2 ^ f * (Real.cos φ - Real.cos (Q / 2 ^ f)) := by ring
    have s1 : |(k * cgain n - 2 ^ f) * Real.cos φ| ≤ g := by
      rw [abs_mul]
      calc _ ≤ (g : ℝ) * 1 := mul_le_mul hG (Real.abs_cos_le_one _) (abs_nonneg _) (by exact_mod_cast hg0)
        _ = g := mul_one _
    have s2 : |2 ^ f * (Real.cos φ - Real.cos (Q / 2 ^ f))| ≤ T + e + (tab.drop n).sum := by
      rw [abs_mul, abs_of_pos hp, mul_comm]
      exact le_trans (mul_le_mul_of_nonneg_right (Real.abs_cos_sub_cos_le _ _) hp.le) hφ'
    rw [e1]
    refine le_trans (abs_add_three _ _ _) ?_
    linarith



namespace Props

/-- Everything the bound after `n` passes needs, for every `n`: rounding at most 57, gain within `2^f/4^n + 2`, unused angles at most `2^f/2^(n-1)`. -/
theorem counts32 : ∀ n < 42, 1 ≤ n → cround n ≤ 57 ∧ tSumQ 16 tab32 n ≤ 23 ∧ (39796 : ℚ) ^ 2 * cgain2 n ≤ (2 ^ 16 + (2 ^ 16 / 4 ^ n + 2)) ^ 2 ∧
    ((2 : ℚ) ^ 16 - (2 ^ 16 / 4 ^ n + 2)) ^ 2 ≤ (39796 : ℚ) ^ 2 * cgain2 n ∧ (((tab32.drop n).sum : Int) : ℚ) ≤ 2 ^ 16 * 2 / 2 ^ n := by decide +kernel

theorem counts64 : ∀ n < 42, 1 ≤ n → cround n ≤ 57 ∧ tSumQ 32 tab64 n ≤ 24 ∧ (2608131496 : ℚ) ^ 2 * cgain2 n ≤ (2 ^ 32 + (2 ^ 32 / 4 ^ n + 2)) ^ 2 ∧
    ((2 : ℚ) ^ 32 - (2 ^ 32 / 4 ^ n + 2)) ^ 2 ≤ (2608131496 : ℚ) ^ 2 * cgain2 n ∧ (((tab64.drop n).sum : Int) : ℚ) ≤ 2 ^ 32 * 2 / 2 ^ n := by decide +kernel

/-- Error after `n` passes, in units of one: the angles not used, the missing gain, and 97 ulps. -/
noncomputable def countErr (F : FxTy) (n : Nat) : ℝ := 2 / 2 ^ n + 1 / 4 ^ n + 97 * uR F

theorem loop_accuracy_n {F : FxTy} (hF : CordicTy F) : ∃ k tab P, CT F k tab P ∧ rv F P ≤ Real.pi ∧ Real.pi ≤ rv F P + uR F ∧ 3 ≤ rv F P ∧
    ∀ n, 1 ≤ n → n ≤ 41 → ∀ Q, 0 ≤ Q → 2 * Q ≤ P →
      |((cloop tab Q n 0 k 0 0).2.1 : ℝ) - 2 ^ F.f * Real.sin (rv F Q)| ≤ 2 ^ F.f * countErr F n ∧
      |((cloop tab Q n 0 k 0 0).1 : ℝ) - 2 ^ F.f * Real.cos (rv F Q)| ≤ 2 ^ F.f * countErr F n ∧
      |Real.sqrt (((cloop tab Q n 0 k 0 0).1 : ℝ) ^ 2 + ((cloop tab Q n 0 k 0 0).2.1 : ℝ) ^ 2) - 2 ^ F.f| ≤ 2 ^ F.f * (1 / 4 ^ n + 59 * uR F) := by
  have p1 := Real.pi_gt_d20
  have p2 := Real.pi_lt_d20
  rcases hF with rfl | rfl
  · refine ⟨_, _, _, ct32, ?_, ?_, ?_, ?_⟩
    · norm_num [rv, uR, fixed32] at *; linarith
    · norm_num [rv, uR, fixed32] at *; linarith
    · norm_num [rv, uR, fixed32]
    · intro n h1n hn Q h0 h1
      have hs : tab32.sum = 114226 := by decide +kernel
      obtain ⟨c1, c2, c3, c4, c5⟩ := counts32 n (by omega) h1n
      have g4 : (1 : ℚ) ≤ 4 ^ n := one_le_pow₀ (by norm_num)
      have hg : (0 : ℚ) ≤ 2 ^ 16 / 4 ^ n + 2 := by positivity
      have hgf : (2 : ℚ) ^ 16 / 4 ^ n + 2 ≤ 2 ^ 16 := by
        have : (4 : ℚ) ≤ 4 ^ n := by
          calc (4 : ℚ) = 4 ^ 1 := by norm_num
            _ ≤ 4 ^ n := pow_le_pow_right₀ (by norm_num) h1n
        have : (2 : ℚ) ^ 16 / 4 ^ n ≤ 2 ^ 16 / 4 := by gcongr
        linarith
      have := cloop_accuracy_n (f := 16) (k := 39796) (Q := Q) ct32.len n hn 57 c1 contracts32 ⟨h0, by omega⟩ 23 c2 _ hg hgf (by norm_num) c3 c4
      generalize (tab32.drop n).sum = D at *
      have c5' : ((D : ℚ) : ℝ) ≤ ((2 ^ 16 * 2 / 2 ^ n : ℚ) : ℝ) := Rat.cast_le.2 c5
      push_cast at c5'
      have e : (2 : ℝ) ^ 16 * countErr fixed32 n = 2 ^ 16 * 2 / 2 ^ n + 2 ^ 16 / 4 ^ n + 97 := by
        unfold countErr; norm_num [uR, fixed32]; ring
      have e2 : (2 : ℝ) ^ 16 * (1 / 4 ^ n + 59 * uR fixed32) = 2 ^ 16 / 4 ^ n + 59 := by
        norm_num [uR, fixed32]; ring
      change _ ≤ (2 : ℝ) ^ 16 * _ ∧ _ ≤ (2 : ℝ) ^ 16 * _ ∧ _ ≤ (2 : ℝ) ^ 16 * _
      rw [e, e2]
      push_cast at this
      exact ⟨le_trans this.1 (by linarith), le_trans this.2.1 (by linarith), le_trans this.2.2 (by linarith)⟩
  · refine ⟨_, _, _, ct64, ?_, ?_, ?_, ?_⟩
    · norm_num [rv, uR, fixed64] at *; linarith
    · norm_num [rv, uR, fixed64] at *; linarith
    · norm_num [rv, uR, fixed64]
    · intro n h1n hn Q h0 h1
      have hs : tab64.sum = 7487358999 := by decide +kernel
      obtain ⟨c1, c2, c3, c4, c5⟩ := counts64 n (by omega) h1n
      have hg : (0 : ℚ) ≤ 2 ^ 32 / 4 ^ n + 2 := by positivity
      have hgf : (2 : ℚ) ^ 32 / 4 ^ n + 2 ≤ 2 ^ 32 := by
        have : (4 : ℚ) ≤ 4 ^ n := by
          calc (4 : ℚ) = 4 ^ 1 := by norm_num
            _ ≤ 4 ^ n := pow_le_pow_right₀ (by norm_num) h1n
        have : (2 : ℚ) ^ 32 / 4 ^ n ≤ 2 ^ 32 / 4 := by gcongr
        linarith
      have := cloop_accuracy_n (f := 32) (k := 2608131496) (Q := Q) ct64.len n hn 57 c1 contracts64 ⟨h0, by omega⟩ 24 c2 _ hg hgf (by norm_num) c3 c4
      generalize (tab64.drop n).sum = D at *
      have c5' : ((D : ℚ) : ℝ) ≤ ((2 ^ 32 * 2 / 2 ^ n : ℚ) : ℝ) := Rat.cast_le.2 c5
      push_cast at c5'
      have e : (2 : ℝ) ^ 32 * countErr fixed64 n = 2 ^ 32 * 2 / 2 ^ n + 2 ^ 32 / 4 ^ n + 97 := by
        unfold countErr; norm_num [uR, fixed64]; ring
      have e2 : (2 : ℝ) ^ 32 * (1 / 4 ^ n + 59 * uR fixed64) = 2 ^ 32 / 4 ^ n + 59 := by
        norm_num [uR, fixed64]; ring
      change _ ≤ (2 : ℝ) ^ 32 * _ ∧ _ ≤ (2 : ℝ) ^ 32 * _ ∧ _ ≤ (2 : ℝ) ^ 32 * _
      rw [e, e2]
      push_cast at this
      exact ⟨le_trans this.1 (by linarith), le_trans this.2.1 (by linarith), le_trans this.2.2 (by linarith)⟩

/-- The angle the code works with: a negative angle loses its sign bit. -/
def usedAngle (F : FxTy) (x : Int) : Int := if x < 0 then x + 2 ^ (F.T.bits - 1) else x

/-- C167: after `n` passes (1 to 41, as many as the table has) the CORDIC sine and cosine of every storable angle are within
`2^(1-n) + 4^(-n) + 97 ulp` (and one ulp per half turn) of sine and cosine of the angle the code works with; and the computed point is
on the unit circle up to `4^(-n) + 59 ulp`, whatever the angle. -/
theorem C167_passes (F : FxTy) (hF : CordicTy F) (n : Nat) (h1 : 1 ≤ n) (hn : n ≤ 41) (x : Int) (hx : Storable F x) :
    ∃ s c, cordic F n true x = .ok s ∧ cordic F n false x = .ok c ∧
      |rv F s - (if x < 0 then -1 else 1) * Real.sin (rv F (usedAngle F x))| ≤ countErr F n + (rv F (usedAngle F x) / 3 + 1 / 2) * uR F ∧
      |rv F c - Real.cos (rv F (usedAngle F x))| ≤ countErr F n + (rv F (usedAngle F x) / 3 + 1 / 2) * uR F ∧
      |Real.sqrt (rv F c ^ 2 + rv F s ^ 2) - 1| ≤ 1 / 4 ^ n + 59 * uR F := by
  obtain ⟨k, tab, P, h, p1, p2, p3, acc⟩ := loop_accuracy_n hF
  obtain ⟨e1, e2, _, _⟩ := h.cordic_ok hx n hn
  have hX0 : 0 ≤ usedAngle F x := by
    have := h.sw.lo_eq
    have hx1 := hx.1
    unfold usedAngle; split <;> omega
  have eX : cmag F x = usedAngle F x := rfl
  rw [eX] at e1 e2
  generalize usedAngle F x = X at *
  have q := quadrant_red h.pi0 X
  obtain ⟨r1, r2⟩ := reduce_trig (F := F) q hX0 p1 p2 p3
  obtain ⟨a1, a2, a3⟩ := acc n h1 hn (credQ P X) q.1 q.2.1
  have hu := uR_pos F
  have um := u_mul F
  have sgn1 : |((credC P X : Int) : ℝ)| = 1 := by
    have : |credC P X| = 1 := by unfold credC; simp only []; (repeat' split) <;> rfl
    exact_mod_cast this
  have sgn2 : |((credS P X : Int) : ℝ)| = 1 := by
    have : |credS P X| = 1 := by unfold credS; split <;> rfl
    exact_mod_cast this
  have sgnx : |(((if x < 0 then -1 else 1 : Int)) : ℝ)| = 1 := by split <;> norm_num
  have conv : ∀ (y s : Int) (t E : ℝ), |(s : ℝ)| = 1 → |(y : ℝ) - 2 ^ F.f * t| ≤ 2 ^ F.f * E → |rv F (y * s) - s * t| ≤ E := by
    intro y s t E hs hy
    have e : rv F (y * s) - s * t = s * uR F * (y - 2 ^ F.f * t) := by
      rw [rv_u]; push_cast; linear_combination ((s : ℝ) * t) * um
    rw [e, abs_mul, abs_mul, hs, one_mul, abs_of_pos hu]
    have := mul_le_mul_of_nonneg_left hy hu.le
    refine le_trans this (le_of_eq ?_)
    linear_combination E * um
  have c1 := conv _ _ _ _ sgn2 a1
  have c2 := conv _ _ _ _ sgn1 a2
  refine ⟨_, _, e1, e2, ?_, ?_, ?_⟩
  · have key : |rv F ((cloop tab (credQ P X) n 0 k 0 0).2.1 * credS P X) - Real.sin (rv F X)| ≤ countErr F n + (rv F X / 3 + 1 / 2) * uR F := by
      refine le_trans (abs_sub_le _ (credS P X * Real.sin (rv F (credQ P X))) _) ?_
      linarith
    split
    · rw [show (cloop tab (credQ P X) n 0 k 0 0).2.1 * (-1 * credS P X) = -((cloop tab (credQ P X) n 0 k 0 0).2.1 * credS P X) by ring, rv_neg,
        ← abs_neg]
      refine le_trans (le_of_eq ?_) key
      congr 1; ring
    · rw [one_mul, one_mul]; exact key
  · refine le_trans (abs_sub_le _ (credC P X * Real.cos (rv F (credQ P X))) _) ?_
    linarith
  · have sq : ∀ (a s : Int), |(s : ℝ)| = 1 → rv F (a * s) ^ 2 = (a : ℝ) ^ 2 * uR F ^ 2 := by
      intro a s hs
      have : (s : ℝ) ^ 2 = 1 := by rw [← sq_abs, hs, one_pow]
      rw [rv_u]; push_cast
      linear_combination ((a : ℝ) ^ 2 * uR F ^ 2) * this
    rw [sq _ _ sgn1, sq _ _ (by push_cast; rw [abs_mul]; rw [sgn2]; push_cast at sgnx; rw [sgnx]; norm_num), ← add_mul,
      Real.sqrt_mul (by positivity), Real.sqrt_sq hu.le]
    have := mul_le_mul_of_nonneg_right a3 hu.le
    have e : Real.sqrt (((cloop tab (credQ P X) n 0 k 0 0).1 : ℝ) ^ 2 + ((cloop tab (credQ P X) n 0 k 0 0).2.1 : ℝ) ^ 2) * uR F - 1 =
        (Real.sqrt (((cloop tab (credQ P X) n 0 k 0 0).1 : ℝ) ^ 2 + ((cloop tab (credQ P X) n 0 k 0 0).2.1 : ℝ) ^ 2) - 2 ^ F.f) * uR F := by
      linear_combination um
    rw [e, abs_mul, abs_of_pos hu]
    refine le_trans this (le_of_eq ?_)
    linear_combination (1 / 4 ^ n + 59 * uR F) * um

example : CordicTy fixed32 ∧ Storable fixed32 (-65536) ∧ cordic fixed32 8 true 65536 = .ok 55030 ∧ cordic fixed32 8 false 65536 = .ok 35585 := by
  refine ⟨Or.inl rfl, by decide +kernel, by decide +kernel, by decide +kernel⟩

end Props
end Eirin
