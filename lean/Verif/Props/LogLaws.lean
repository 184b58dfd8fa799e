import Verif.Props.Log

/-! # Property C84: the laws of the logarithm under multiplication. -/

namespace Eirin.Props
open Spec

theorem log2_scale_raw {F : FxTy} (h : Lib F) {x : Int} (j : Nat) (hx : Storable F x) (hxj : Storable F (x * 2 ^ j)) (h0 : 0 < x) :
    ∃ r, log2 F x = .ok r ∧ log2 F (x * 2 ^ j) = .ok (r + j * 2 ^ F.f) := by
  have hj : (0 : Int) < 2 ^ j := by positivity
  obtain ⟨m, k, hn, k1, k2, e1, e2, r1, _⟩ := h.log2_raw hx h0
  obtain ⟨m', k', hn', k1', k2', e1', e2', r1', _⟩ := h.log2_raw hxj (by positivity)
  have g1 : (2 : Int) ^ ((k + F.f).toNat + j) ≤ x * 2 ^ j := by
    rw [pow_add]; exact mul_le_mul_of_nonneg_right e1 hj.le
  have g2 : x * 2 ^ j < 2 ^ ((k + F.f).toNat + j + 1) := by
    have := mul_lt_mul_of_pos_right e2 hj
    rw [pow_succ, pow_add]; linarith
  have hkk : k' = k + j := by
    have a1 := (pow_lt_pow_iff_right₀ (show (1 : Int) < 2 by norm_num)).1 (lt_of_le_of_lt e1' g2)
    rw [← pow_succ'] at e2'
    have a2 := (pow_lt_pow_iff_right₀ (show (1 : Int) < 2 by norm_num)).1 (lt_of_le_of_lt g1 e2')
    omega
  subst hkk
  have hm : m' = m := by
    rcases lt_or_ge k 0 with hneg | hpos
    · rw [hn.neg hneg]
      rcases lt_or_ge (k + j) 0 with hneg' | hpos'
      · rw [hn'.neg hneg', mul_assoc, ← pow_add]; congr 2; omega
      · rw [hn'.pos hpos']
        have : (2 : Int) ^ j = 2 ^ (-k).toNat * 2 ^ (k + j).toNat := by rw [← pow_add]; congr 1; omega
        rw [this, ← mul_assoc, Int.mul_ediv_cancel _ (by positivity)]
    · rw [hn.pos hpos, hn'.pos (by omega)]
      have : (2 : Int) ^ (k + j).toNat = 2 ^ k.toNat * 2 ^ j := by rw [← pow_add]; congr 1; omega
      rw [this, Int.mul_ediv_mul_of_pos_left _ _ hj]
  refine ⟨_, r1, ?_⟩
  rw [r1', hm]; congr 1; ring

/-- C84: doubling adds exactly one to `log2`, and more generally scaling by `2^j` adds exactly `j`: whenever `x > 0` and `y = 2^j·x` are
both values of the type, `log2 y = log2 x + j` with no rounding difference. -/
theorem C84_scale (F : FxTy) (hF : F = fixed32 ∨ F = fixed64) (x y : Int) (j : Nat) (hx : Storable F x) (hy : Storable F y)
    (h0 : 0 < val F x) (hxy : val F y = 2 ^ j * val F x) :
    ∃ r s, log2 F x = .ok r ∧ log2 F y = .ok s ∧ val F s = val F r + j := by
  have h : Lib F := by rcases hF with rfl | rfl; exacts [lib32, lib64]
  rw [← val_zero F, val_lt] at h0
  have e : y = x * 2 ^ j := by
    apply val_inj (F := F); rw [hxy]; unfold val; push_cast; ring
  subst e
  obtain ⟨r, a, b⟩ := log2_scale_raw h j hx hy h0
  refine ⟨_, _, a, b, ?_⟩
  rw [val_add]; congr 1; exact_mod_cast val_int F j

example : log2 fixed32 77777 = .ok 16190 ∧ log2 fixed32 (77777 * 2 ^ 14) = .ok (16190 + 14 * 65536) ∧
    log2 fixed32 3 = .ok (-944704) ∧ log2 fixed32 (3 * 2 ^ 20) = .ok (-944704 + 20 * 65536) := by decide +kernel

/-- C84: `log2` of a product is the sum of the `log2`s up to 8 ulp, when the product is at least one and fits. -/
theorem C84_product (F : FxTy) (hF : F = fixed32 ∨ F = fixed64) (x y z : Int) (hx : Storable F x) (hy : Storable F y)
    (h0 : 0 < val F x) (h0y : 0 < val F y) (hz : IsFloor F (val F x * val F y) z) (hzs : Storable F z) (h1 : 1 ≤ val F z) :
    mul F x y = .ok z ∧ ∃ a b c, log2 F x = .ok a ∧ log2 F y = .ok b ∧ log2 F z = .ok c ∧
      -(6 * ulp F) < val F c - (val F a + val F b) ∧ val F c - (val F a + val F b) < 8 * ulp F := by
  have h : Lib F := by rcases hF with rfl | rfl; exacts [lib32, lib64]
  have hv : F.Valid := by rcases hF with rfl | rfl <;> decide
  have hr : F.r = false := by rcases hF with rfl | rfl <;> rfl
  have hmul : mul F x y = .ok z := by
    have hfl := floor_spec F (x * y)
    rw [mul_nf hv hr hx hy]
    have : x * y / 2 ^ F.f = z := by
      apply isFloor_unique (F := F) (q := val F x * val F y) _ hz
      have e : val F x * val F y = ((x * y : Int) : ℚ) / 2 ^ F.f / 2 ^ F.f := by unfold val; push_cast; ring
      rw [e]; exact hfl
    rw [this, IntTy.wrap_of_inRange hv.tpos hzs]
  refine ⟨hmul, ?_⟩
  obtain ⟨a, ea, a1, a2⟩ := C33_log2_accuracy F hF x hx h0
  obtain ⟨b, eb, b1, b2⟩ := C33_log2_accuracy F hF y hy h0y
  obtain ⟨c, ec, c1, c2⟩ := C33_log2_accuracy F hF z hzs (by linarith)
  refine ⟨a, b, c, ea, eb, ec, ?_⟩
  obtain ⟨z1, z2⟩ := hz
  have X0 : (0 : ℝ) < ((val F x : ℚ) : ℝ) := by exact_mod_cast h0
  have Y0 : (0 : ℝ) < ((val F y : ℚ) : ℝ) := by exact_mod_cast h0y
  have Z0 : (1 : ℝ) ≤ ((val F z : ℚ) : ℝ) := by exact_mod_cast h1
  have Z1 : ((val F z : ℚ) : ℝ) ≤ ((val F x : ℚ) : ℝ) * ((val F y : ℚ) : ℝ) := by exact_mod_cast z1
  have Z2 : ((val F x : ℚ) : ℝ) * ((val F y : ℚ) : ℝ) ≤ ((val F z : ℚ) : ℝ) + ((ulp F : ℚ) : ℝ) := by exact_mod_cast z2.le
  have L : Real.logb 2 (((val F x : ℚ) : ℝ) * ((val F y : ℚ) : ℝ)) = Real.logb 2 ((val F x : ℚ) : ℝ) + Real.logb 2 ((val F y : ℚ) : ℝ) :=
    Real.logb_mul X0.ne' Y0.ne'
  have L1 : Real.logb 2 ((val F z : ℚ) : ℝ) ≤ Real.logb 2 (((val F x : ℚ) : ℝ) * ((val F y : ℚ) : ℝ)) :=
    Real.logb_le_logb_of_le (by norm_num) (by linarith) Z1
  have L2 : Real.logb 2 (((val F x : ℚ) : ℝ) * ((val F y : ℚ) : ℝ)) ≤ Real.logb 2 ((val F z : ℚ) : ℝ) + 1.4427 * ((ulp F : ℚ) : ℝ) := by
    refine le_trans (Real.logb_le_logb_of_le (by norm_num) (by positivity) Z2) ?_
    have hz' : (2 : ℝ) ^ F.f ≤ (z : ℝ) := by
      have := h1
      unfold val at this
      rw [le_div_iff₀ (by positivity), one_mul] at this
      exact_mod_cast this
    have := logb_succ (f := F.f) hz'
    unfold val ulp
    push_cast
    rw [← add_div]
    calc _ ≤ _ := this
      _ = _ := by ring
  have u0 : (0 : ℝ) < ((ulp F : ℚ) : ℝ) := by exact_mod_cast ulp_pos F
  constructor
  · have : -(6 * ((ulp F : ℚ) : ℝ)) < ((val F c : ℚ) : ℝ) - (((val F a : ℚ) : ℝ) + ((val F b : ℚ) : ℝ)) := by nlinarith
    exact_mod_cast this
  · have : ((val F c : ℚ) : ℝ) - (((val F a : ℚ) : ℝ) + ((val F b : ℚ) : ℝ)) < 8 * ((ulp F : ℚ) : ℝ) := by nlinarith
    exact_mod_cast this

example : mul fixed32 (3 * 65536) (5 * 65536) = .ok (15 * 65536) ∧ Storable fixed32 (15 * 65536) ∧
    log2 fixed32 (3 * 65536) = .ok 103872 ∧ log2 fixed32 (5 * 65536) = .ok 152169 ∧ log2 fixed32 (15 * 65536) = .ok 256041 := by
  decide +kernel

end Eirin.Props
