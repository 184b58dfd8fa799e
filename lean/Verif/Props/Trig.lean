import Verif.Lemmas.Sin

/-! # Properties C38, C39, C40: sine, cosine and tangent. -/

namespace Eirin.Props
open Spec

noncomputable def sinC_of {F : FxTy} (hF : F = fixed32 ∨ F = fixed64) : SinC F :=
  if h : F = fixed32 then h ▸ sinC32 else (hF.resolve_left h) ▸ sinC64

theorem sinC_of_32 : sinC_of (Or.inl rfl : fixed32 = fixed32 ∨ fixed32 = fixed64) = sinC32 := by unfold sinC_of; simp
theorem sinC_of_64 : sinC_of (Or.inr rfl : fixed64 = fixed32 ∨ fixed64 = fixed64) = sinC64 := by
  unfold sinC_of; simp [show fixed64 ≠ fixed32 by decide]

/-! ## C38 -/

/-- C38 as stated, for `fixed32`. -/
def C38_statement : Prop := ∀ x, Storable fixed32 x → |val fixed32 x| < 15 / 100000 → sin fixed32 x = .ok x

/-- C38 is false of the code: after range reduction a small negative angle lies in the lower half turn, so `negative` is
set, and the small-angle branch then negates the (already negative) input: `sin(-3 ulp) = 3 ulp`. -/
theorem C38_false : ¬ C38_statement := by
  intro h
  have h1 := h (-3) (by decide) (by norm_num [val, fixed32, abs_lt])
  have : sin fixed32 (-3) = .ok 3 := by decide +kernel
  rw [this] at h1; cases h1

/-- The small-angle branch, exactly: it returns the input, except that inputs of at least `pi_2` raw units below zero
come back with the wrong sign. -/
theorem sin_small {F : FxTy} (c : SinC F) {x : Int} (hS : Storable F x) (hx : |x| < c.th) (hth : c.th < 2 ^ F.f) :
    sin F x = .ok (if x * 2 ^ F.f ≤ -c.p2 then -x else x) := by
  have h := c.lib
  have hp : (0 : Int) < 2 ^ F.f := by positivity
  have hdp := c.dp6
  have h15 := h.p15
  rw [abs_lt] at hx
  have hlo : F.T.lo < x := by
    have := h.sw.lo_hi; have := h.sw.d_le; omega
  have eabs := h.sw.abs_ok hS hlo
  have hlt : |x| < c.th := abs_lt.2 hx
  have hm : Int.tmod x c.dp = x := by
    rcases le_total 0 x with h0 | h0
    · exact Int.tmod_eq_of_lt h0 (by omega)
    · have := Int.tmod_eq_of_lt (a := -x) (b := c.dp) (by omega) (by omega)
      rw [Int.neg_tmod] at this; omega
  obtain ⟨w, e1, e2, hw, w1, w2, -⟩ := c.turns hS
  rw [hm] at hw
  have o0 := h.ofInt0
  have o2 : ofInt F 2 = 2 * 2 ^ F.f := h.ofInt_small (by norm_num) (by norm_num)
  have o4 : ofInt F 4 = 4 * 2 ^ F.f := h.ofInt_small (by norm_num) (by norm_num)
  have inr : ∀ z : Int, -(4 * 2 ^ F.f) ≤ z → z ≤ 4 * 2 ^ F.f → F.T.InRange z := by
    intro z a b
    have := h.half_pow
    apply h.inR <;> nlinarith
  obtain ⟨d1, d2⟩ := tdiv_mul_spec (x * 2 ^ F.f) c.p2pos
  rw [← hw] at d1 d2
  have hp2 : 2 ^ F.f < c.p2 := by
    have hf := c.four
    nlinarith
  have key : ∀ v s, sinReduce F x = .ok (v, s) → sin F x = .ok (if s then -x else x) := by
    intro v s hr
    unfold sin sinWith
    rw [c.ePi, Res.bind_ok, hr, Res.bind_ok]
    simp only [c.eTh, eabs, Res.bind_ok]
    rw [if_pos (by rw [lt_iff]; exact hlt)]
    cases s with
    | false => rfl
    | true =>
      rw [if_pos rfl, h.sw.neg_ok (by have := h.sw.lo_hi; obtain ⟨p, q⟩ := hS; constructor <;> omega)]; rfl
  by_cases hc : x * 2 ^ F.f ≤ -c.p2
  · obtain ⟨a, b, e⟩ := d2 (by have := c.p2pos; omega)
    have hw0 : w < 0 := by by_contra hcc; push Not at hcc; nlinarith [c.p2pos]
    have hwl : -2 ^ F.f < w := by
      by_contra hcc; push Not at hcc
      nlinarith [c.p2pos]
    rw [if_pos hc]
    have hr : sinReduce F x = .ok (w + 4 * 2 ^ F.f - 2 * 2 ^ F.f, true) := by
      unfold sinReduce
      rw [c.eDp, c.eP2]
      have ea : addAssign F w (4 * 2 ^ F.f) = .ok (w + 4 * 2 ^ F.f) := h.sw.add_ok (inr _ (by omega) (by omega))
      have es : subAssign F (w + 4 * 2 ^ F.f) (2 * 2 ^ F.f) = .ok (w + 4 * 2 ^ F.f - 2 * 2 ^ F.f) := h.sw.sub_ok (inr _ (by omega) (by omega))
      simp only [Res.bind_ok, e1, e2, o0, o2, o4]
      rw [if_pos (by rw [lt_iff]; exact hw0), ea, Res.bind_ok, if_pos (by rw [gt_iff]; omega), es]; rfl
    rw [key _ _ hr]; rfl
  · push Not at hc
    have hw0 : 0 ≤ w ∧ w < 2 ^ F.f := by
      rcases le_total 0 x with h0 | h0
      · obtain ⟨a, b, e⟩ := d1 (by positivity)
        constructor
        · by_contra hcc; push Not at hcc; nlinarith [c.p2pos]
        · by_contra hcc; push Not at hcc; nlinarith [c.p2pos]
      · obtain ⟨a, b, e⟩ := d2 (mul_nonpos_of_nonpos_of_nonneg h0 hp.le)
        have : w = 0 := by
          rcases lt_trichotomy w 0 with hh | hh | hh
          · nlinarith [c.p2pos]
          · exact hh
          · nlinarith [c.p2pos]
        omega
    rw [if_neg (by omega)]
    have hr : sinReduce F x = .ok (w, false) := by
      unfold sinReduce
      rw [c.eDp, c.eP2]
      simp only [Res.bind_ok, e1, e2, o0, o2]
      rw [if_neg (by rw [lt_iff]; omega)]
      simp only [Res.pure_eq, Res.bind_ok]
      rw [if_neg (by rw [gt_iff]; omega)]
    rw [key _ _ hr]; rfl

/-- C38 for non-negative small angles: `sin(x) = x`.  Full statement: `C38_statement` (also negative `x`, and `x` up to
0.00015 rather than the converted threshold); false by `C38_false`. -/
theorem C38_nonneg_partial (F : FxTy) (hF : F = fixed32 ∨ F = fixed64) (x : Int) (h0 : 0 ≤ val F x) (h1 : val F x < 9 / 65536) :
    sin F x = .ok x := by
  rcases hF with rfl | rfl
  · have hx0 : 0 ≤ x := by
      have : val fixed32 0 ≤ val fixed32 x := by rw [val_zero]; exact h0
      exact (val_le (F := fixed32)).1 this
    have hx : x < 9 := by
      rw [val, show fixed32.f = 16 by rfl, div_lt_div_iff₀ (by norm_num) (by norm_num)] at h1
      have : (x : ℚ) < 9 := by linarith
      exact_mod_cast this
    have := sin_small sinC32 (x := x) ⟨by rw [show fixed32.T.lo = -2147483648 by rfl]; omega, by rw [show fixed32.T.hi = 2147483647 by rfl]; omega⟩
      (by rw [abs_of_nonneg hx0]; exact hx) (by decide)
    rw [this, if_neg]
    change ¬ (x * 2 ^ 16 ≤ -102943); omega
  · have hx0 : 0 ≤ x := by
      have : val fixed64 0 ≤ val fixed64 x := by rw [val_zero]; exact h0
      exact (val_le (F := fixed64)).1 this
    have hx : x < 589824 := by
      rw [val, show fixed64.f = 32 by rfl, div_lt_div_iff₀ (by norm_num) (by norm_num)] at h1
      have : (x : ℚ) < 589824 := by linarith
      exact_mod_cast this
    have := sin_small sinC64 (x := x) ⟨by rw [show fixed64.T.lo = -9223372036854775808 by rfl]; omega, by rw [show fixed64.T.hi = 9223372036854775807 by rfl]; omega⟩
      (by rw [abs_of_nonneg hx0]; change x < 644245; omega) (by decide)
    rw [this, if_neg]
    change ¬ (x * 2 ^ 32 ≤ -6746518852); omega

/-- C38 fails for *every* small negative angle below `-1` ulp: the result has the wrong sign. -/
theorem C38_negative_wrong (F : FxTy) (hF : F = fixed32 ∨ F = fixed64) (x : Int) (h0 : val F x < -ulp F) (h1 : -(9 / 65536) < val F x) :
    sin F x = .ok (-x) := by
  rcases hF with rfl | rfl
  · rw [val, ulp, show fixed32.f = 16 by rfl, ← neg_div, div_lt_div_iff_of_pos_right (by norm_num)] at h0
    have hx0 : x < -1 := by exact_mod_cast h0
    have hx : -9 < x := by
      rw [val, show fixed32.f = 16 by rfl, ← neg_div, div_lt_div_iff₀ (by norm_num) (by norm_num)] at h1
      have : (-9 : ℚ) < x := by linarith
      exact_mod_cast this
    have := sin_small sinC32 (x := x) ⟨by rw [show fixed32.T.lo = -2147483648 by rfl]; omega, by rw [show fixed32.T.hi = 2147483647 by rfl]; omega⟩
      (by rw [abs_of_neg (by omega)]; change -x < 9; omega) (by decide)
    rw [this, if_pos]
    change x * 2 ^ 16 ≤ -102943; omega
  · rw [val, ulp, show fixed64.f = 32 by rfl, ← neg_div, div_lt_div_iff_of_pos_right (by norm_num)] at h0
    have hx0 : x < -1 := by exact_mod_cast h0
    have hx : -589824 < x := by
      rw [val, show fixed64.f = 32 by rfl, ← neg_div, div_lt_div_iff₀ (by norm_num) (by norm_num)] at h1
      have : (-589824 : ℚ) < x := by linarith
      exact_mod_cast this
    have := sin_small sinC64 (x := x) ⟨by rw [show fixed64.T.lo = -9223372036854775808 by rfl]; omega, by rw [show fixed64.T.hi = 9223372036854775807 by rfl]; omega⟩
      (by rw [abs_of_neg (by omega)]; change -x < 644245; omega) (by decide)
    rw [this, if_pos]
    change x * 2 ^ 32 ≤ -6746518852; omega

example : sin fixed32 8 = .ok 8 ∧ sin fixed32 (-8) = .ok 8 ∧ sin fixed32 (-1) = .ok (-1) ∧ sin fixed32 9 = .ok 7 ∧
    sin fixed64 589000 = .ok 589000 := by decide +kernel

/-! ## C39 -/

/-- C39, error formula: outside the small-angle branch `sin` is defined (for all inputs but the minimum, whose absolute
value is not representable) and differs from the real sine by at most `4e-6 + (15.4 + |x|/6) ulp`. -/
theorem C39_error (F : FxTy) (hF : F = fixed32 ∨ F = fixed64) (x : Int) (hS : Storable F x) (hlo : F.T.lo < x)
    (hx : 15 / 100000 ≤ |val F x|) : ∃ r, sin F x = .ok r ∧ Storable F r ∧
      |((val F r : ℚ) : ℝ) - Real.sin (val F x : ℚ)| ≤ 4 / 1000000 + (15.4 + |((val F x : ℚ) : ℝ)| / 6) * (ulp F : ℚ) := by
  have c := sinC_of hF
  have hth : c.th ≤ |x| := by
    rw [← rv_le F]
    refine le_trans c.thle ?_
    have : |rv F x| = rv F |x| := by
      unfold rv; rw [abs_div, abs_of_pos (by positivity : (0 : ℝ) < 2 ^ F.f)]; push_cast; rfl
    rw [← this, ← rv_eq]
    have : ((15 / 100000 : ℚ) : ℝ) ≤ ((|val F x| : ℚ) : ℝ) := by exact_mod_cast hx
    push_cast at this; exact this
  obtain ⟨z, ez, zS, hz⟩ := c.main hS hlo hth
  refine ⟨z, ez, zS, ?_⟩
  rw [rv_eq, rv_eq, uR_eq]; linarith

theorem sin_near (F : FxTy) (hF : F = fixed32 ∨ F = fixed64) (x : Int) (hx : |rv F x| ≤ 7) :
    ∃ r, sin F x = .ok r ∧ Storable F r ∧ |rv F r - Real.sin (rv F x)| ≤ 3 / 10000 - uR F := by
  have hL : Lib F := by rcases hF with rfl | rfl; exacts [lib32, lib64]
  have hS : Storable F x := hL.st (by linarith)
  have hlo : F.T.lo < x := by
    have h2 : Storable F (x - 1) := hL.st (by
      rw [rv_sub]
      have : rv F 1 = uR F := by rw [rv_u]; norm_num
      rw [this]
      have := hL.u_le; have := uR_pos F
      rw [abs_le] at *; constructor <;> linarith)
    have := h2.1; omega
  have habs : |rv F x| = rv F |x| := by
    unfold rv; rw [abs_div, abs_of_pos (by positivity : (0 : ℝ) < 2 ^ F.f)]; push_cast; rfl
  have main : ∀ c : SinC F, c.th < 2 ^ F.f → 2 * rv F (c.th - 1) ≤ 3 / 10000 - 2 * uR F →
      ∃ r, sin F x = .ok r ∧ Storable F r ∧ |rv F r - Real.sin (rv F x)| ≤ 3 / 10000 - uR F := by
    intro c hth1 hth
    by_cases hc : c.th ≤ |x|
    · obtain ⟨z, ez, zS, hz⟩ := c.main hS hlo hc
      refine ⟨z, ez, zS, le_trans hz ?_⟩
      have := hL.u_le; have := uR_pos F
      have : |rv F x| / 6 * uR F ≤ 7 / 6 * uR F := mul_le_mul_of_nonneg_right (by linarith) (by linarith)
      norm_num at *; linarith
    · push Not at hc
      have hb : |rv F x| ≤ rv F (c.th - 1) := by rw [habs, rv_le]; omega
      have es := sin_small c hS hc hth1
      have hu0 := uR_pos F
      refine ⟨_, es, ?_, ?_⟩
      · split
        · exact hL.st (by rw [rv_neg, abs_neg]; linarith)
        · exact hS
      · have hr : |rv F (if x * 2 ^ F.f ≤ -c.p2 then -x else x) - rv F x| ≤ 2 * |rv F x| := by
          split
          · rw [rv_neg, show -rv F x - rv F x = -(2 * rv F x) by ring, abs_neg, abs_mul]; norm_num
          · rw [sub_self, abs_zero]; positivity
        have hs : |rv F x - Real.sin (rv F x)| ≤ uR F / 64 := by
          have hcube : ∀ y : ℝ, 0 ≤ y → y ≤ 15 / 100000 → |y - Real.sin y| ≤ y ^ 3 / 6 := by
            intro y h0 h1
            have a := Real.sin_le h0
            have b := Real.sin_ge_sub_cube h0
            rw [abs_le]; constructor <;> linarith [pow_nonneg h0 3]
          have hu2 : (1 : ℝ) / 4294967296 ≤ uR F := by
            rcases hF with rfl | rfl
            · rw [ulp32]; norm_num
            · rw [ulp64]
          have hu := uR_pos F
          have h15 : |rv F x| ≤ 15 / 100000 := by linarith
          have hp3 : |rv F x| ^ 3 ≤ (15 / 100000) ^ 3 := pow_le_pow_left₀ (abs_nonneg _) h15 3
          rcases le_total 0 (rv F x) with h0 | h0
          · rw [abs_of_nonneg h0] at h15 hp3
            have := hcube _ h0 h15
            norm_num at *; linarith
          · rw [abs_of_nonpos h0] at h15 hp3
            have := hcube _ (by linarith : 0 ≤ -rv F x) h15
            rw [Real.sin_neg, show -rv F x - -Real.sin (rv F x) = -(rv F x - Real.sin (rv F x)) by ring, abs_neg] at this
            norm_num at *; linarith
        have := abs_sub_le (rv F (if x * 2 ^ F.f ≤ -c.p2 then -x else x)) (rv F x) (Real.sin (rv F x))
        linarith
  rcases hF with rfl | rfl
  · exact main sinC32 (by decide) (by rw [rv32, ulp32]; change 2 * (((9 - 1 : Int) : ℝ) / 65536) ≤ _; norm_num)
  · exact main sinC64 (by decide) (by rw [rv64, ulp64]; change 2 * (((644245 - 1 : Int) : ℝ) / 4294967296) ≤ _; norm_num)

/-- C39, accuracy: for every value with `|x| ≤ 2π` (indeed `≤ 7`), `sin` is defined and within 0.0003 of the real sine.
Both library types, the small-angle range included. -/
theorem C39_accuracy (F : FxTy) (hF : F = fixed32 ∨ F = fixed64) (x : Int) (hx : |((val F x : ℚ) : ℝ)| ≤ 2 * Real.pi) :
    ∃ r, sin F x = .ok r ∧ Storable F r ∧ |((val F r : ℚ) : ℝ) - Real.sin (val F x : ℚ)| ≤ 3 / 10000 := by
  rw [rv_eq] at *
  have l := Real.pi_lt_d2
  obtain ⟨r, h1, h2, h3⟩ := sin_near F hF x (by norm_num at *; linarith)
  refine ⟨r, h1, h2, ?_⟩
  rw [rv_eq]
  have := uR_pos F
  linarith

/-! Bound on the result, `fixed32`. -/

theorem cos_le4 (y : ℝ) (hy : 0 ≤ y) : Real.cos y ≤ 1 - y ^ 2 / 2 + y ^ 4 / 24 := by
  have h := (Trig.taylor 2).1 y hy
  simp only [Trig.cosS, Finset.sum_range_succ, Finset.sum_range_zero] at h
  norm_num [Nat.factorial] at h
  linarith

/-- The top of the table: arguments within 1% of a quarter turn. -/
theorem sinPoly_top : ∀ k : Fin 637, (match sinPoly fixed32 205887 (65536 - (k.val : Int)) with | .ok z => decide (z ≤ 65540) | _ => false) = true := by
  decide +kernel

theorem sinPoly_le {x z : Int} (h0 : 0 ≤ x) (h1 : x ≤ 65536) (hz : sinPoly fixed32 205887 x = .ok z) : |z| ≤ 65540 := by
  obtain ⟨z', ez, zS, her⟩ := sinPoly_real lib32 sinC32.ePi sinC32.aPi h0 (by norm_num [fixed32]; exact h1)
  have : sinPoly fixed32 sinC32.pi x = sinPoly fixed32 205887 x := rfl
  rw [this, hz] at ez; cases ez
  rw [rv32, rv32, ulp32] at her
  have g := Real.pi_gt_d4; have l := Real.pi_lt_d4
  have hX0 : (0 : ℝ) ≤ x / 65536 := by
    have : (0 : ℝ) ≤ x := by exact_mod_cast h0
    positivity
  have hX1 : (x : ℝ) / 65536 ≤ 1 := by
    have : (x : ℝ) ≤ 65536 := by exact_mod_cast h1
    rw [div_le_one (by norm_num)]; exact this
  have hsn : 0 ≤ Real.sin (Real.pi / 2 * (x / 65536)) := by
    apply Real.sin_nonneg_of_nonneg_of_le_pi
    · positivity
    · nlinarith
  have hlow : -1 ≤ (z : ℝ) / 65536 := by rw [abs_le] at her; norm_num at her; linarith
  have hzl : -65536 ≤ z := by
    rw [le_div_iff₀ (by norm_num)] at hlow
    have : (-65536 : ℝ) ≤ z := by linarith
    exact_mod_cast this
  have hzu : z ≤ 65540 := by
    by_cases hx : 64900 ≤ x
    · have := sinPoly_top ⟨(65536 - x).toNat, by omega⟩
      simp only [show (65536 : Int) - ((65536 - x).toNat : Int) = x by omega, hz, decide_eq_true_eq] at this
      exact this
    · have hx' : (x : ℝ) ≤ 64899 := by
        have : x ≤ 64899 := by omega
        exact_mod_cast this
      have hs : Real.sin (Real.pi / 2 * (x / 65536)) ≤ 1 - 0.000116 := by
        have hle : Real.sin (Real.pi / 2 * (x / 65536)) ≤ Real.sin (Real.pi / 2 - 0.01526) := by
          apply Real.sin_le_sin_of_le_of_le_pi_div_two
          · have : 0 ≤ Real.pi / 2 * (x / 65536) := by positivity
            linarith
          · norm_num
          · have : Real.pi / 2 * (x / 65536) ≤ Real.pi / 2 * (64899 / 65536) := by
              apply mul_le_mul_of_nonneg_left _ (by positivity)
              exact div_le_div_of_nonneg_right hx' (by norm_num)
            norm_num at *
            linarith
        rw [Real.sin_pi_div_two_sub] at hle
        have := cos_le4 0.01526 (by norm_num)
        norm_num at *; linarith
      rw [abs_le] at her
      norm_num at *
      have : (z : ℝ) / 65536 ≤ 65540 / 65536 := by linarith [her.2]
      have : (z : ℝ) ≤ 65540 := by linarith
      exact_mod_cast this
  rw [abs_le]; constructor <;> omega

/-- C39 as stated about the range, for `fixed32`. -/
def C39_bounded_statement : Prop := ∀ x, Storable fixed32 x → ∃ r, sin fixed32 x = .ok r ∧ |val fixed32 r| ≤ 1 + 4 * ulp fixed32

/-- C39 is false at one input: `sin(numeric_limits::lowest())` computes `abs(lowest)`, a signed overflow. -/
theorem C39_bounded_false : ¬ C39_bounded_statement := by
  intro h
  obtain ⟨r, hr, -⟩ := h (-2147483648) (by decide)
  have : sin fixed32 (-2147483648) = .ub .overflow := by decide +kernel
  rw [this] at hr; cases hr

/-- C39, range: for every `fixed32` value but the minimum, `sin` is defined and `|sin(x)| ≤ 1 + 4 ulp`.
Full statement: `C39_bounded_statement`, false by `C39_bounded_false` at the minimum only. -/
theorem C39_bounded_partial (x : Int) (hS : Storable fixed32 x) (hlo : x ≠ -2147483648) :
    ∃ r, sin fixed32 x = .ok r ∧ |val fixed32 r| ≤ 1 + 4 * ulp fixed32 := by
  have hlo' : fixed32.T.lo < x := by
    have := hS.1; rw [show fixed32.T.lo = -2147483648 by rfl] at *; omega
  have conv : ∀ r : Int, |r| ≤ 65540 → |val fixed32 r| ≤ 1 + 4 * ulp fixed32 := by
    intro r hr
    unfold val ulp
    rw [show fixed32.f = 16 by rfl, abs_div, abs_of_pos (by norm_num : (0 : ℚ) < 2 ^ 16), div_le_iff₀ (by norm_num)]
    have : |(r : ℚ)| ≤ 65540 := by exact_mod_cast hr
    norm_num; exact this
  by_cases hth : |x| < 9
  · refine ⟨_, sin_small sinC32 hS hth (by decide), conv _ ?_⟩
    split
    · rw [abs_neg]; omega
    · omega
  · have h := lib32
    obtain ⟨v, s, er, x0, x2, -⟩ := sinC32.reduce hS
    have eabs := h.sw.abs_ok hS hlo'
    have o1 : ofInt fixed32 1 = 65536 := by decide
    have o2 : ofInt fixed32 2 = 131072 := by decide
    rw [show (2 : Int) * 2 ^ fixed32.f = 131072 by rfl] at x2
    obtain ⟨v', ev, v0, v1⟩ : ∃ v', (if gt v (ofInt fixed32 1) then sub fixed32 (ofInt fixed32 2) v else pure v) = Res.ok v' ∧ 0 ≤ v' ∧ v' ≤ 65536 := by
      rw [o1, o2]
      by_cases hx : 65536 < v
      · refine ⟨131072 - v, ?_, by omega, by omega⟩
        rw [if_pos (by rw [gt_iff]; exact hx)]
        exact h.sw.sub_ok ⟨by rw [show fixed32.T.lo = -2147483648 by rfl]; omega, by rw [show fixed32.T.hi = 2147483647 by rfl]; omega⟩
      · exact ⟨v, by rw [if_neg (by rw [gt_iff]; exact hx)]; rfl, x0, by omega⟩
    obtain ⟨z, ez, zS, -⟩ := sinPoly_real h sinC32.ePi sinC32.aPi v0 (by rw [show (2 : Int) ^ fixed32.f = 65536 by rfl]; exact v1)
    have hz := sinPoly_le v0 v1 ez
    have hbase : sin fixed32 x = (if s then neg fixed32 z else pure z) := by
      unfold sin sinWith
      rw [sinC32.ePi, Res.bind_ok, er, Res.bind_ok]
      simp only [sinC32.eTh, eabs, Res.bind_ok]
      rw [if_neg (by rw [lt_iff]; exact hth)]
      by_cases hg : gt v (ofInt fixed32 1) = true
      · rw [if_pos hg] at ev ⊢; rw [ev]; simp only [Res.bind_ok, ez]
      · rw [if_neg hg] at ev ⊢; rw [ev]; simp only [Res.bind_ok, ez]
    cases s with
    | false => exact ⟨z, by rw [hbase]; rfl, conv z hz⟩
    | true =>
      refine ⟨-z, ?_, conv _ (by rw [abs_neg]; exact hz)⟩
      rw [abs_le] at hz
      rw [hbase, if_pos rfl, h.sw.neg_ok ⟨by rw [show fixed32.T.lo = -2147483648 by rfl]; omega, by rw [show fixed32.T.hi = 2147483647 by rfl]; omega⟩]

example : sin fixed32 102944 = .ok 65536 ∧ sin fixed32 (-308831) = .ok 65536 ∧ sin fixed32 205887 = .ok 0 ∧ sin fixed32 34315 = .ok 32767 := by decide +kernel

/-! ## C40 -/

/-- The constants of `cos`: a quarter turn and three quarters of a turn. -/
structure CosC (F : FxTy) where
  sc : SinC F
  q1 : Int
  q3 : Int
  e1 : div F sc.pi (ofInt F 2) = .ok q1
  dpi : Int
  e2 : mul F sc.pi (ofInt F 2) = .ok dpi
  e3 : sub F dpi q1 = .ok q3
  a1 : |rv F q1 - Real.pi / 2| ≤ uR F
  a3 : |rv F q3 - 3 * Real.pi / 2| ≤ uR F
  p1 : 0 < q1
  p3 : 0 < q3
  h3 : q3 ≤ F.T.hi

noncomputable def cosC32 : CosC fixed32 where
  sc := sinC32
  q1 := 102943
  q3 := 308831
  dpi := 411774
  e1 := by change div fixed32 205887 _ = _; decide +kernel
  e2 := by change mul fixed32 205887 _ = _; decide +kernel
  e3 := by decide +kernel
  a1 := by
    have := Real.pi_gt_d20; have := Real.pi_lt_d20
    rw [rv32, ulp32, abs_le]; constructor <;> norm_num at * <;> linarith
  a3 := by
    have := Real.pi_gt_d20; have := Real.pi_lt_d20
    rw [rv32, ulp32, abs_le]; constructor <;> norm_num at * <;> linarith
  p1 := by norm_num
  p3 := by norm_num
  h3 := by decide

noncomputable def cosC64 : CosC fixed64 where
  sc := sinC64
  q1 := 6746518852
  q3 := 20239556556
  dpi := 26986075408
  e1 := by change div fixed64 13493037704 _ = _; decide +kernel
  e2 := by change mul fixed64 13493037704 _ = _; decide +kernel
  e3 := by decide +kernel
  a1 := by
    have := Real.pi_gt_d20; have := Real.pi_lt_d20
    rw [rv64, ulp64, abs_le]; constructor <;> norm_num at * <;> linarith
  a3 := by
    have := Real.pi_gt_d20; have := Real.pi_lt_d20
    rw [rv64, ulp64, abs_le]; constructor <;> norm_num at * <;> linarith
  p1 := by norm_num
  p3 := by norm_num
  h3 := by decide

theorem cos_arg {F : FxTy} (c : CosC F) {x : Int} (hS : Storable F x) :
    cos F x = sin F (if 0 < x then x - c.q3 else x + c.q1) ∧ Storable F (if 0 < x then x - c.q3 else x + c.q1) ∧
      F.T.lo < (if 0 < x then x - c.q3 else x + c.q1) := by
  have h := c.sc.lib
  have p1 := c.p1; have p3 := c.p3; have h3 := c.h3
  have hh := h.sw.lo_hi
  obtain ⟨s1, s2⟩ := hS
  have hq1 : c.q1 ≤ F.T.hi := by
    have := c.a1; have := c.a3
    have g := Real.pi_gt_d2; have l := Real.pi_lt_d2
    have hu := h.u_le
    have : rv F c.q1 ≤ rv F c.q3 := by
      rw [abs_le] at *; norm_num at *; linarith
    have := (rv_le F).1 this; omega
  unfold cos
  rw [c.sc.ePi, Res.bind_ok, c.e1, Res.bind_ok, c.e2, Res.bind_ok]
  by_cases hx : 0 < x
  · have hR : F.T.InRange (x - c.q3) := ⟨by omega, by omega⟩
    simp only [if_pos hx]
    refine ⟨?_, hR, by omega⟩
    simp only [gt_iff_lt, if_pos hx, c.e3, Res.bind_ok, h.sw.sub_ok hR]
  · have hR : F.T.InRange (x + c.q1) := ⟨by omega, by omega⟩
    simp only [if_neg hx]
    refine ⟨?_, hR, by omega⟩
    simp only [gt_iff_lt, if_neg hx, h.sw.add_ok hR, Res.bind_ok]

theorem cos_arg_near {F : FxTy} (c : CosC F) (x : Int) :
    |Real.sin (rv F (if 0 < x then x - c.q3 else x + c.q1)) - Real.cos (rv F x)| ≤ uR F := by
  split
  · rw [rv_sub]
    have e : Real.cos (rv F x) = Real.sin (rv F x - 3 * Real.pi / 2) := by
      rw [show rv F x - 3 * Real.pi / 2 = rv F x + Real.pi / 2 - 2 * Real.pi by ring, Real.sin_sub_two_pi, Real.sin_add_pi_div_two]
    rw [e]
    refine le_trans (Real.abs_sin_sub_sin_le _ _) ?_
    rw [show rv F x - rv F c.q3 - (rv F x - 3 * Real.pi / 2) = -(rv F c.q3 - 3 * Real.pi / 2) by ring, abs_neg]
    exact c.a3
  · rw [rv_add, ← Real.sin_add_pi_div_two]
    refine le_trans (Real.abs_sin_sub_sin_le _ _) ?_
    rw [show rv F x + rv F c.q1 - (rv F x + Real.pi / 2) = rv F c.q1 - Real.pi / 2 by ring]
    exact c.a1

/-- `cos` is sine at a shifted argument, where the shift is a quarter turn up to one ulp and a full turn. -/
theorem C40_cos_shift (F : FxTy) (hF : F = fixed32 ∨ F = fixed64) (x : Int) (hS : Storable F x) :
    ∃ a, Storable F a ∧ cos F x = sin F a ∧
      |((val F a : ℚ) : ℝ) - ((val F x : ℚ) + Real.pi / 2 - if 0 < x then 2 * Real.pi else 0)| ≤ (ulp F : ℚ) := by
  have key : ∀ c : CosC F, ∃ a, Storable F a ∧ cos F x = sin F a ∧
      |((val F a : ℚ) : ℝ) - ((val F x : ℚ) + Real.pi / 2 - if 0 < x then 2 * Real.pi else 0)| ≤ (ulp F : ℚ) := by
    intro c
    obtain ⟨h1, h2, -⟩ := cos_arg c hS
    refine ⟨_, h2, h1, ?_⟩
    rw [rv_eq, rv_eq, uR_eq]
    have := c.a1; have := c.a3
    split
    · rw [rv_sub, show rv F x - rv F c.q3 - (rv F x + Real.pi / 2 - 2 * Real.pi) = -(rv F c.q3 - 3 * Real.pi / 2) by ring, abs_neg]; assumption
    · rw [rv_add, show rv F x + rv F c.q1 - (rv F x + Real.pi / 2 - 0) = rv F c.q1 - Real.pi / 2 by ring]; assumption
  rcases hF with rfl | rfl
  · exact key cosC32
  · exact key cosC64

theorem cos_near (F : FxTy) (c : CosC F) (hF : F = fixed32 ∨ F = fixed64) (x : Int) (hx : |rv F x| ≤ Real.pi) :
    ∃ r, cos F x = .ok r ∧ Storable F r ∧ |rv F r - Real.cos (rv F x)| ≤ 3 / 10000 := by
  have h := c.sc.lib
  have g := Real.pi_gt_d2; have l := Real.pi_lt_d2
  have hS : Storable F x := h.st (by norm_num at *; linarith)
  obtain ⟨h1, -, -⟩ := cos_arg c hS
  have h2 := cos_arg_near c x
  have hb : |rv F (if 0 < x then x - c.q3 else x + c.q1)| ≤ 7 := by
    have hu := h.u_le
    have a1 := c.a1; have a3 := c.a3
    split
    · next h0 =>
      have : 0 < rv F x := by have := (rv_lt F (a := 0)).2 h0; simpa [rv] using this
      rw [rv_sub]
      rw [abs_le] at *; norm_num at *; constructor <;> linarith
    · rw [rv_add]
      rw [abs_le] at *; norm_num at *; constructor <;> linarith
  obtain ⟨r, er, rS, hr⟩ := sin_near F hF _ hb
  refine ⟨r, by rw [h1, er], rS, ?_⟩
  have := abs_sub_le (rv F r) (Real.sin (rv F (if 0 < x then x - c.q3 else x + c.q1))) (Real.cos (rv F x))
  linarith

/-- C40, accuracy of `cos`: within 0.0003 of the real cosine on `[-π, π]` (both library types). -/
theorem C40_cos_accuracy (F : FxTy) (hF : F = fixed32 ∨ F = fixed64) (x : Int) (hx : |((val F x : ℚ) : ℝ)| ≤ Real.pi) :
    ∃ r, cos F x = .ok r ∧ Storable F r ∧ |((val F r : ℚ) : ℝ) - Real.cos (val F x : ℚ)| ≤ 3 / 10000 := by
  rw [rv_eq] at *
  simp only [rv_eq]
  have c : CosC F := by
    by_cases h : F = fixed32
    · exact h ▸ cosC32
    · exact (hF.resolve_left h) ▸ cosC64
  exact cos_near F c hF x hx

theorem cos32_bounded (x : Int) (hS : Storable fixed32 x) : ∃ r, cos fixed32 x = .ok r ∧ |val fixed32 r| ≤ 1 + 4 * ulp fixed32 := by
  obtain ⟨h1, h2, h3⟩ := cos_arg cosC32 hS
  rw [h1]
  apply C39_bounded_partial _ h2
  rw [show fixed32.T.lo = -2147483648 by rfl] at h3
  omega

/-- C40: unlike `sin`, `cos` is defined for every `fixed32` value, the minimum included. -/
theorem C40_cos_defined (x : Int) (hS : Storable fixed32 x) : ∃ r, cos fixed32 x = .ok r ∧ |val fixed32 r| ≤ 1 + 4 * ulp fixed32 :=
  cos32_bounded x hS

theorem tan_unfold (x : Int) (c : Int) (hc : cos fixed32 x = .ok c) (hb : |val fixed32 c| ≤ 1 + 4 * ulp fixed32) :
    tan fixed32 x = if 1 < |c| then (sin fixed32 x).bind (fun s => div fixed32 s c) else .throw .domainError := by
  have hcb : |c| ≤ 65540 := by
    unfold val ulp at hb
    rw [show fixed32.f = 16 by rfl, abs_div, abs_of_pos (by norm_num : (0 : ℚ) < 2 ^ 16), div_le_iff₀ (by norm_num)] at hb
    norm_num at hb
    exact_mod_cast hb
  have hcb' := abs_le.1 hcb
  have ea := sw32.abs_ok (x := c) ⟨by rw [show fixed32.T.lo = -2147483648 by rfl]; omega, by rw [show fixed32.T.hi = 2147483647 by rfl]; omega⟩
    (by rw [show fixed32.T.lo = -2147483648 by rfl]; omega)
  unfold tan
  rw [hc, Res.bind_ok, ea, Res.bind_ok]
  rfl

/-- C40: `tan` throws exactly when the computed cosine is at most one ulp in magnitude. -/
theorem C40_tan_throws (x : Int) (hS : Storable fixed32 x) :
    tan fixed32 x = .throw .domainError ↔ ∃ c, cos fixed32 x = .ok c ∧ |val fixed32 c| ≤ ulp fixed32 := by
  obtain ⟨c, hc, hb⟩ := cos32_bounded x hS
  rw [tan_unfold x c hc hb]
  have hiff : |val fixed32 c| ≤ ulp fixed32 ↔ |c| ≤ 1 := by
    unfold val ulp
    rw [abs_div, abs_of_pos (by positivity : (0 : ℚ) < 2 ^ fixed32.f), div_le_div_iff_of_pos_right (by positivity)]
    exact_mod_cast Iff.rfl
  constructor
  · intro h
    refine ⟨c, hc, ?_⟩
    rw [hiff]
    by_contra hcc
    push Not at hcc
    rw [if_pos hcc] at h
    by_cases hx : x = -2147483648
    · subst hx
      have : sin fixed32 (-2147483648) = .ub .overflow := by decide +kernel
      rw [this] at h; cases h
    · obtain ⟨s, es, hsb⟩ := C39_bounded_partial x hS hx
      rw [es] at h
      have hd : div fixed32 s c = .throw .domainError := h
      have hsS : Storable fixed32 s := by
        apply lib32.st
        rw [← rv_eq]
        have : ((|val fixed32 s| : ℚ) : ℝ) ≤ ((1 + 4 * ulp fixed32 : ℚ) : ℝ) := by exact_mod_cast hsb
        push_cast at this
        rw [uR_eq, ulp32] at this
        norm_num at this ⊢
        linarith
      rw [div_nf sw32.valid rfl hsS] at hd
      split at hd <;> cases hd
  · rintro ⟨c', hc', hle⟩
    rw [hc] at hc'; cases hc'
    rw [hiff] at hle
    rw [if_neg (by omega)]

/-- C40: otherwise `tan` is the quotient of the computed sine and cosine (for every value but the minimum, where `sin`
overflows): truncated toward zero when it fits. -/
theorem C40_tan_quotient (x c s : Int) (hS : Storable fixed32 x) (hc : cos fixed32 x = .ok c) (hgt : ulp fixed32 < |val fixed32 c|)
    (hs : sin fixed32 x = .ok s) (hsS : Storable fixed32 s) (r : Int) (hr : IsTrunc fixed32 (val fixed32 s / val fixed32 c) r) (hrS : Storable fixed32 r) :
    tan fixed32 x = .ok r := by
  obtain ⟨c', hc', hb⟩ := cos32_bounded x hS
  rw [hc] at hc'; cases hc'
  have hgt' : 1 < |c| := by
    unfold val ulp at hgt
    rw [abs_div, abs_of_pos (by positivity : (0 : ℚ) < 2 ^ fixed32.f), div_lt_div_iff_of_pos_right (by positivity)] at hgt
    exact_mod_cast hgt
  have hc0 : c ≠ 0 := by rintro rfl; simp at hgt'
  rw [tan_unfold x c hc hb, if_pos hgt', hs]
  have ht := trunc_spec fixed32 (s * 2 ^ fixed32.f) c hc0
  have hcq : (c : ℚ) ≠ 0 := by exact_mod_cast hc0
  have e : ((s * 2 ^ fixed32.f : Int) : ℚ) / c / 2 ^ fixed32.f = val fixed32 s / val fixed32 c := by
    unfold val; push_cast; field_simp
  rw [e] at ht
  have := isTrunc_unique ht hr
  change div fixed32 s c = _
  rw [sw32.div_ok rfl hsS hc0 (by rw [this]; exact hrS), this]

example : cos fixed32 0 = .ok 65536 ∧ cos fixed32 205887 = .ok (-65536) ∧ tan fixed32 102944 = .throw .domainError ∧ tan fixed32 51472 = .ok 65536 ∧
    Storable fixed32 51472 := by decide +kernel

end Eirin.Props
