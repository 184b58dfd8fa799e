import Verif.Props.Atan

/-! # Property C102: arctangent and arcsine outside the range of the fitted polynomial. -/

namespace Eirin.Props
open Spec

/-- C102 as stated. -/
def C102_statement : Prop := ∀ F, F = fixed32 ∨ F = fixed64 → ∀ x, Storable F x → F.T.lo < x →
  (∃ r, atan F x = .ok r ∧ 0 ≤ val F r * val F x ∧ |((val F r : ℚ) : ℝ)| ≤ Real.pi / 2) ∧
  (|val F x| ≤ 1 → ∃ r, asin F x = .ok r ∧ 0 ≤ val F r * val F x)

/-- C102 is false of the code: `atan(2)` is `-1.47`. -/
theorem C102_false : ¬ C102_statement := by
  intro h
  obtain ⟨⟨r, hr, h1, _⟩, _⟩ := h fixed32 (Or.inl rfl) 131072 (by decide) (by decide)
  have e : atan fixed32 131072 = .ok (-96632) := by decide +kernel
  rw [e] at hr; cases hr
  norm_num [val, fixed32] at h1

/-- `asin(0.95)` is `-76.8`; from about 6.9 on `atan` is partly undefined. -/
example : asin fixed32 62259 = .ok (-5033071) ∧ atan fixed32 453235 = .ub .overflow := by decide +kernel

theorem atanBody_25 {F : FxTy} (k : AtC F) {x : Int} (h0 : 0 ≤ x) (h1 : rv F x ≤ (5 / 2)) :
    ∃ r, atanBody F x = .ok r ∧ Ap F r (Trig.atP (rv F x)) 854 := by
  have h := k.lib
  have hX0 : 0 ≤ rv F x := by have := (rv_le F (a := 0) (b := x)).2 h0; simpa [rv] using this
  have hxs : Storable F x := h.st (by rw [abs_le]; constructor <;> linarith)
  have hx := Ap.exact (F := F) hxs
  generalize rv F x = X at *
  have hXa : |X| ≤ (5 / 2) := by rw [abs_le]; constructor <;> linarith
  have hW0 : 0 ≤ X * X := by positivity
  have hW1 : X * X ≤ 6.25 := by nlinarith
  have hWa : |X * X| ≤ 6.25 := by rw [abs_of_nonneg hW0]; exact hW1
  obtain ⟨ex2, hx2⟩ := Ap.mul h (5 / 2) (5 / 2) 1 hx hx hXa hXa (by norm_num) (by norm_num)
  obtain ⟨ep1, hp1⟩ := Ap.mul h 0.0465 6.25 7.3 k.aa hx2 (by rw [abs_neg, abs_of_nonneg] <;> norm_num) hWa (by norm_num) (by norm_num)
  unfold Trig.atP
  generalize X * X = W at *
  have n2 : |-(0x17CE62CE264A340 / 2 ^ 61 : ℝ) * W + 0x5191A2296020A80 / 2 ^ 61| ≤ 0.16 := by
    rw [abs_le]; norm_num; constructor <;> linarith
  obtain ⟨ep2, hp2⟩ := Ap.add h (M := 0.16) hp1 k.ab n2 (by norm_num)
  generalize -(0x17CE62CE264A340 / 2 ^ 61 : ℝ) * W + 0x5191A2296020A80 / 2 ^ 61 = P2 at *
  obtain ⟨ep3, hp3⟩ := Ap.mul h 0.16 6.25 53.1 hp2 hx2 n2 hWa (by norm_num) (by norm_num)
  have n3 : |P2 * W| ≤ 0.16 * 6.25 := by rw [abs_mul]; exact mul_le_mul n2 hWa (abs_nonneg _) (by norm_num)
  have n4 : |P2 * W - 0xA7BE2BC19C39800 / 2 ^ 61| ≤ 1.34 := by rw [abs_le] at *; norm_num at *; constructor <;> linarith [n3.1, n3.2]
  obtain ⟨ep4, hp4⟩ := Ap.sub h hp3 k.ac n4 (by norm_num)
  obtain ⟨ep5, hp5⟩ := Ap.mul h 1.34 6.25 341 hp4 hx2 n4 hWa (by norm_num) (by norm_num)
  have n5 : |(P2 * W - 0xA7BE2BC19C39800 / 2 ^ 61) * W| ≤ 8.4 := by
    rw [abs_mul]; have := mul_le_mul n4 hWa (abs_nonneg _) (by norm_num : (0 : ℝ) ≤ 1.34); norm_num at *; linarith
  obtain ⟨ep6, hp6⟩ := Ap.mul h 8.4 (5 / 2) 854 hp5 hx n5 hXa (by norm_num) (by norm_num)
  have n6 : |(P2 * W - 0xA7BE2BC19C39800 / 2 ^ 61) * W * X| ≤ 21 := by
    rw [abs_mul]; have := mul_le_mul n5 hXa (abs_nonneg _) (by norm_num : (0 : ℝ) ≤ 8.4); norm_num at *; linarith
  have n7 : |(P2 * W - 0xA7BE2BC19C39800 / 2 ^ 61) * W * X + X| ≤ 25 := by
    have := abs_add_le ((P2 * W - 0xA7BE2BC19C39800 / 2 ^ 61) * W * X) X; norm_num at *; linarith
  obtain ⟨er, hr⟩ := Ap.add h hp6 hx n7 (by norm_num)
  refine ⟨_, ?_, by rw [add_zero] at hr; exact hr⟩
  unfold atanBody
  rw [k.ea, k.eb, k.ec]
  simp only [Res.bind_ok, k.ea2, ex2, ep1, ep2, ep3, ep4, ep5, ep6, er]

theorem atanBody_6 {F : FxTy} (k : AtC F) {x : Int} (h0 : 0 ≤ x) (h1 : rv F x ≤ 6) :
    ∃ r, atanBody F x = .ok r ∧ Ap F r (Trig.atP (rv F x)) 297460 := by
  have h := k.lib
  have hX0 : 0 ≤ rv F x := by have := (rv_le F (a := 0) (b := x)).2 h0; simpa [rv] using this
  have hxs : Storable F x := h.st (by rw [abs_le]; constructor <;> linarith)
  have hx := Ap.exact (F := F) hxs
  generalize rv F x = X at *
  have hXa : |X| ≤ 6 := by rw [abs_le]; constructor <;> linarith
  have hW0 : 0 ≤ X * X := by positivity
  have hW1 : X * X ≤ 36 := by nlinarith
  have hWa : |X * X| ≤ 36 := by rw [abs_of_nonneg hW0]; exact hW1
  obtain ⟨ex2, hx2⟩ := Ap.mul h 6 6 1 hx hx hXa hXa (by norm_num) (by norm_num)
  obtain ⟨ep1, hp1⟩ := Ap.mul h 0.0465 36 37.1 k.aa hx2 (by rw [abs_neg, abs_of_nonneg] <;> norm_num) hWa (by norm_num) (by norm_num)
  unfold Trig.atP
  generalize X * X = W at *
  have n2 : |-(0x17CE62CE264A340 / 2 ^ 61 : ℝ) * W + 0x5191A2296020A80 / 2 ^ 61| ≤ 1.52 := by
    rw [abs_le]; norm_num; constructor <;> linarith
  obtain ⟨ep2, hp2⟩ := Ap.add h (M := 1.52) hp1 k.ab n2 (by norm_num)
  generalize -(0x17CE62CE264A340 / 2 ^ 61 : ℝ) * W + 0x5191A2296020A80 / 2 ^ 61 = P2 at *
  obtain ⟨ep3, hp3⟩ := Ap.mul h 1.52 36 1374.5 hp2 hx2 n2 hWa (by norm_num) (by norm_num)
  have n3 : |P2 * W| ≤ 1.52 * 36 := by rw [abs_mul]; exact mul_le_mul n2 hWa (abs_nonneg _) (by norm_num)
  have n4 : |P2 * W - 0xA7BE2BC19C39800 / 2 ^ 61| ≤ 55.1 := by rw [abs_le] at *; norm_num at *; constructor <;> linarith [n3.1, n3.2]
  obtain ⟨ep4, hp4⟩ := Ap.sub h hp3 k.ac n4 (by norm_num)
  obtain ⟨ep5, hp5⟩ := Ap.mul h 55.1 36 49576 hp4 hx2 n4 hWa (by norm_num) (by norm_num)
  have n5 : |(P2 * W - 0xA7BE2BC19C39800 / 2 ^ 61) * W| ≤ 1984 := by
    rw [abs_mul]; have := mul_le_mul n4 hWa (abs_nonneg _) (by norm_num : (0 : ℝ) ≤ 55.1); norm_num at *; linarith
  obtain ⟨ep6, hp6⟩ := Ap.mul h 1984 6 297460 hp5 hx n5 hXa (by norm_num) (by norm_num)
  have n6 : |(P2 * W - 0xA7BE2BC19C39800 / 2 ^ 61) * W * X| ≤ 11904 := by
    rw [abs_mul]; have := mul_le_mul n5 hXa (abs_nonneg _) (by norm_num : (0 : ℝ) ≤ 1984); norm_num at *; linarith
  have n7 : |(P2 * W - 0xA7BE2BC19C39800 / 2 ^ 61) * W * X + X| ≤ 12000 := by
    have := abs_add_le ((P2 * W - 0xA7BE2BC19C39800 / 2 ^ 61) * W * X) X; norm_num at *; linarith
  obtain ⟨er, hr⟩ := Ap.add h hp6 hx n7 (by norm_num)
  refine ⟨_, ?_, by rw [add_zero] at hr; exact hr⟩
  unfold atanBody
  rw [k.ea, k.eb, k.ec]
  simp only [Res.bind_ok, k.ea2, ex2, ep1, ep2, ep3, ep4, ep5, ep6, er]

/-- From the body to the function: the result for `x` is the body at `|x|` with the sign of `x`. -/
theorem atan_of_body {F : FxTy} (k : AtC F) {x r : Int} (hS : Storable F x) (hlo : F.T.lo < x) (hr : atanBody F |x| = .ok r)
    (hrb : Storable F (-r)) : atan F x = .ok (if x < 0 then -r else r) := by
  rw [atan_body k hS hlo, hr]
  change (if x < 0 then neg F r else Res.ok r) = _
  by_cases h0 : x < 0
  · rw [if_pos h0, if_pos h0, k.lib.sw.neg_ok hrb]
  · rw [if_neg h0, if_neg h0]

theorem rv_abs (F : FxTy) (x : Int) : rv F |x| = |rv F x| := by
  unfold rv; rw [abs_div, abs_of_pos (by positivity : (0 : ℝ) < 2 ^ F.f)]; push_cast; rfl

/-- The cubic in `x²` is decreasing. -/
theorem atCubic_anti {w W : ℝ} (h : w ≤ W) :
    (-(0x17CE62CE264A340 / 2 ^ 61 : ℝ) * W + 0x5191A2296020A80 / 2 ^ 61) * W * W - 0xA7BE2BC19C39800 / 2 ^ 61 * W ≤
    (-(0x17CE62CE264A340 / 2 ^ 61 : ℝ) * w + 0x5191A2296020A80 / 2 ^ 61) * w * w - 0xA7BE2BC19C39800 / 2 ^ 61 * w := by
  have e : (-(0x17CE62CE264A340 / 2 ^ 61 : ℝ) * W + 0x5191A2296020A80 / 2 ^ 61) * W * W - 0xA7BE2BC19C39800 / 2 ^ 61 * W -
    ((-(0x17CE62CE264A340 / 2 ^ 61 : ℝ) * w + 0x5191A2296020A80 / 2 ^ 61) * w * w - 0xA7BE2BC19C39800 / 2 ^ 61 * w) =
    (W - w) * (-(0xA7BE2BC19C39800 / 2 ^ 61) + 0x5191A2296020A80 / 2 ^ 61 * (W + w) - 0x17CE62CE264A340 / 2 ^ 61 * (W ^ 2 + W * w + w ^ 2)) := by ring
  have f : -(0xA7BE2BC19C39800 / 2 ^ 61 : ℝ) + 0x5191A2296020A80 / 2 ^ 61 * (W + w) - 0x17CE62CE264A340 / 2 ^ 61 * (W ^ 2 + W * w + w ^ 2) ≤ 0 := by
    norm_num
    nlinarith [sq_nonneg (W - w), sq_nonneg (W + w - 16 / 7)]
  have := mul_nonpos_of_nonneg_of_nonpos (sub_nonneg.2 h) f
  linarith

theorem atP_neg1 {X : ℝ} (h : 1.85 ≤ X) : Trig.atP X ≤ -0.2 := by
  have hW : (3.42 : ℝ) ≤ X * X := by nlinarith
  have := atCubic_anti hW
  unfold Trig.atP
  generalize X * X = W at *
  norm_num at this ⊢
  nlinarith

theorem atP_neg2 {X : ℝ} (h : 2.5 ≤ X) : Trig.atP X ≤ -15 := by
  have hW : (6.25 : ℝ) ≤ X * X := by nlinarith
  have := atCubic_anti hW
  unfold Trig.atP
  generalize X * X = W at *
  norm_num at this ⊢
  nlinarith

/-- From the body of `atan` on `|x|` to the function, with the polynomial written in decimals. -/
theorem atan_poly (F : FxTy) (hF : F = fixed32 ∨ F = fixed64) (x : Int) (hx : |val F x| ≤ 5 / 2) {K : ℚ} (hK : K ≤ 854)
    (hb : ∃ r, atanBody F |x| = .ok r ∧ Ap F r (Trig.atP (rv F |x|)) K) :
    ∃ r, atan F x = .ok r ∧ Storable F r ∧
      |val F r - (val F x - 0.327622764 * val F x ^ 3 + 0.15931422 * val F x ^ 5 - 0.0464964749 * val F x ^ 7)| ≤ (K + 1) * ulp F := by
  have k := atC_of hF
  have h := k.lib
  have hx' : |rv F x| ≤ 5 / 2 := by
    rw [← rv_eq]
    have : ((|val F x| : ℚ) : ℝ) ≤ ((5 / 2 : ℚ) : ℝ) := by exact_mod_cast hx
    push_cast at this; exact this
  have hS : Storable F x := h.st (by linarith)
  have hu := h.u_le
  have hup := uR_pos F
  have hlo : F.T.lo < x := by
    have h2 : Storable F (x - 1) := h.st (by
      rw [rv_sub, show rv F 1 = uR F by rw [rv_u]; norm_num]
      rw [abs_le] at *; norm_num at hu; constructor <;> linarith [hx'.1, hx'.2])
    have := h2.1; omega
  obtain ⟨r, er, hr⟩ := hb
  have hKr : (K : ℝ) ≤ 854 := by exact_mod_cast hK
  have hPb : |Trig.atP (rv F |x|)| ≤ 25 := by
    rw [rv_abs]
    have h0 := abs_nonneg (rv F x)
    generalize |rv F x| = X at *
    have hW : X * X ≤ 6.25 := by nlinarith
    have hW0 : 0 ≤ X * X := by positivity
    unfold Trig.atP
    generalize X * X = W at *
    have a1 : |(-(0x17CE62CE264A340 / 2 ^ 61 : ℝ) * W + 0x5191A2296020A80 / 2 ^ 61)| ≤ 0.16 := by
      rw [abs_le]; norm_num; constructor <;> linarith
    generalize (-(0x17CE62CE264A340 / 2 ^ 61 : ℝ) * W + 0x5191A2296020A80 / 2 ^ 61) = P at *
    have a2 : |P * W| ≤ 1 := by rw [abs_mul, abs_of_nonneg hW0]; nlinarith [abs_nonneg P]
    have a3 : |P * W - 0xA7BE2BC19C39800 / 2 ^ 61| ≤ 1.4 := by rw [abs_le] at *; norm_num; constructor <;> linarith [a2.1, a2.2]
    generalize P * W - 0xA7BE2BC19C39800 / 2 ^ 61 = P at *
    have a4 : |P * W| ≤ 8.75 := by rw [abs_mul, abs_of_nonneg hW0]; nlinarith [abs_nonneg P]
    have a5 : |P * W * X| ≤ 22 := by rw [abs_mul, abs_of_nonneg h0]; nlinarith [abs_nonneg (P * W)]
    rw [abs_le] at *; constructor <;> linarith [a5.1, a5.2]
  have hrb : |rv F r| ≤ 100 := by
    have := abs_sub_abs_le_abs_sub (rv F r) (Trig.atP (rv F |x|))
    have h1 := hr.er
    have h2 := mul_le_mul_of_nonneg_right hKr hup.le
    norm_num at hu; linarith
  have hnS : Storable F (-r) := h.st (by rw [rv_neg, abs_neg]; linarith)
  refine ⟨_, atan_of_body k hS hlo er hnS, by split; exacts [hnS, hr.st], ?_⟩
  -- the decimal coefficients, in the reals
  have key : ∀ X : ℝ, |X| ≤ 5 / 2 → |Trig.atP X - (X - 0.327622764 * X ^ 3 + 0.15931422 * X ^ 5 - 0.0464964749 * X ^ 7)| ≤ uR F := by
    intro X hX
    have hW : X ^ 2 ≤ 25 / 4 := by
      have := sq_le_sq' (by linarith [neg_abs_le X]) (le_trans (le_abs_self X) hX); norm_num at this ⊢; linarith
    have e : Trig.atP X - (X - 0.327622764 * X ^ 3 + 0.15931422 * X ^ 5 - 0.0464964749 * X ^ 7) =
      X * X ^ 2 * (-(0x17CE62CE264A340 / 2 ^ 61 - 0.0464964749) * X ^ 2 * X ^ 2 + (0x5191A2296020A80 / 2 ^ 61 - 0.15931422) * X ^ 2 -
        (0xA7BE2BC19C39800 / 2 ^ 61 - 0.327622764)) := by unfold Trig.atP; ring
    have hu2 : (1 : ℝ) / 2 ^ 32 ≤ uR F := by
      unfold uR
      apply one_div_le_one_div_of_le (by positivity)
      exact pow_le_pow_right₀ (by norm_num) (by rcases h.f with e | e <;> omega)
    have hW0 := sq_nonneg X
    generalize X ^ 2 = W at *
    have b1 : |-(0x17CE62CE264A340 / 2 ^ 61 - 0.0464964749 : ℝ) * W * W + (0x5191A2296020A80 / 2 ^ 61 - 0.15931422) * W -
        (0xA7BE2BC19C39800 / 2 ^ 61 - 0.327622764)| ≤ 1 / 10 ^ 14 := by
      have hWW : W * W ≤ 40 := by nlinarith
      have hWW0 : 0 ≤ W * W := by positivity
      rw [mul_assoc]
      generalize W * W = V at *
      rw [abs_le]; norm_num; constructor <;> linarith
    have b2 : |X * W| ≤ 16 := by rw [abs_mul, abs_of_nonneg hW0]; nlinarith [abs_nonneg X]
    rw [e, abs_mul]
    have := mul_le_mul b2 b1 (abs_nonneg _) (by norm_num)
    norm_num at this hu2 ⊢; linarith
  have odd : ∀ X : ℝ, Trig.atP (-X) = -Trig.atP X := by intro X; unfold Trig.atP; ring
  have main : |rv F (if x < 0 then -r else r) - Trig.atP (rv F x)| ≤ K * uR F := by
    have he := hr.er
    rw [rv_abs] at he
    by_cases h0 : x < 0
    · have hx0 : rv F x < 0 := by have := (rv_lt F (a := x) (b := 0)).2 h0; simpa [rv] using this
      rw [abs_of_neg hx0, odd] at he
      rw [if_pos h0, rv_neg, show -rv F r - Trig.atP (rv F x) = -(rv F r - -Trig.atP (rv F x)) by ring, abs_neg]; exact he
    · have hx0 : 0 ≤ rv F x := by have := (rv_le F (a := 0) (b := x)).2 (by omega); simpa [rv] using this
      rw [abs_of_nonneg hx0] at he
      rw [if_neg h0]; exact he
  have fin := abs_sub_le (rv F (if x < 0 then -r else r)) (Trig.atP (rv F x))
    (rv F x - 0.327622764 * rv F x ^ 3 + 0.15931422 * rv F x ^ 5 - 0.0464964749 * rv F x ^ 7)
  have k1 := key (rv F x) hx'
  have fin2 : |rv F (if x < 0 then -r else r) - (rv F x - 0.327622764 * rv F x ^ 3 + 0.15931422 * rv F x ^ 5 - 0.0464964749 * rv F x ^ 7)| ≤ (K + 1) * uR F := by
    linarith
  simp only [← rv_eq, ← uR_eq] at fin2
  have : ((|val F (if x < 0 then -r else r) - (val F x - 0.327622764 * val F x ^ 3 + 0.15931422 * val F x ^ 5 - 0.0464964749 * val F x ^ 7)| : ℚ) : ℝ)
      ≤ (((K + 1) * ulp F : ℚ) : ℝ) := by push_cast; norm_num at fin2 ⊢; exact fin2
  exact_mod_cast this

/-- C102, what `atan` computes: on `[-2.5, 2.5]` the fitted polynomial `x - 0.327622764 x³ + 0.15931422 x⁵ - 0.0464964749 x⁷`,
within 855 ulp (which is near the arctangent on `[-1, 1]` only, C41).  Full statement: `C102_statement`; false by
`C102_false`, `C102_wrong_sign`. -/
theorem C102_polynomial_partial (F : FxTy) (hF : F = fixed32 ∨ F = fixed64) (x : Int) (hx : |val F x| ≤ 5 / 2) :
    ∃ r, atan F x = .ok r ∧ Storable F r ∧
      |val F r - (val F x - 0.327622764 * val F x ^ 3 + 0.15931422 * val F x ^ 5 - 0.0464964749 * val F x ^ 7)| ≤ 855 * ulp F := by
  have hx' : |rv F x| ≤ 5 / 2 := by
    rw [← rv_eq]
    have : ((|val F x| : ℚ) : ℝ) ≤ ((5 / 2 : ℚ) : ℝ) := by exact_mod_cast hx
    push_cast at this; exact this
  obtain ⟨r, e, s, hr⟩ := atan_poly F hF x hx (K := 854) le_rfl (by exact_mod_cast atanBody_25 (atC_of hF) (abs_nonneg x) (by rw [rv_abs]; exact hx'))
  exact ⟨r, e, s, by norm_num at hr ⊢; exact hr⟩

example : |val fixed32 131072| ≤ 5 / 2 ∧ atan fixed32 131072 = .ok (-96632) ∧ atan fixed32 98304 = .ok 53055 := by
  refine ⟨by norm_num [val, fixed32], ?_⟩
  decide +kernel

/-- C102: for `1.85 ≤ |x| ≤ 6` the result is defined and has the sign opposite to `x`; from 2.5 on it also exceeds `π/2` by far. -/
theorem C102_wrong_sign (F : FxTy) (hF : F = fixed32 ∨ F = fixed64) (x : Int) (h1 : 1.85 ≤ |val F x|) (h2 : |val F x| ≤ 6) :
    ∃ r, atan F x = .ok r ∧ Storable F r ∧ val F r * val F x < 0 ∧ (5 / 2 ≤ |val F x| → 10 ≤ |val F r|) := by
  have k := atC_of hF
  have h := k.lib
  have hu := h.u_le
  have hup := uR_pos F
  have c1 : (1.85 : ℝ) ≤ |rv F x| := by
    rw [← rv_eq]
    have : ((1.85 : ℚ) : ℝ) ≤ ((|val F x| : ℚ) : ℝ) := by exact_mod_cast h1
    push_cast at this; norm_num at this ⊢; exact this
  have c2 : |rv F x| ≤ 6 := by
    rw [← rv_eq]
    have : ((|val F x| : ℚ) : ℝ) ≤ ((6 : ℚ) : ℝ) := by exact_mod_cast h2
    push_cast at this; exact this
  have hS : Storable F x := h.st (by linarith)
  have hlo : F.T.lo < x := by
    have h2 : Storable F (x - 1) := h.st (by
      rw [rv_sub, show rv F 1 = uR F by rw [rv_u]; norm_num]
      rw [abs_le] at c2 ⊢; norm_num at hu; constructor <;> linarith [c2.1, c2.2])
    have := h2.1; omega
  -- the body is negative, and below -10 from 2.5 on
  have hbody : ∃ r, atanBody F |x| = .ok r ∧ Storable F r ∧ rv F r < 0 ∧ |rv F r| ≤ 32000 ∧ (5 / 2 ≤ |rv F x| → rv F r ≤ -10) := by
    by_cases h25 : |rv F x| < 5 / 2
    · obtain ⟨r, er, hr⟩ := atanBody_25 k (abs_nonneg x) (by rw [rv_abs]; exact h25.le)
      have hp := atP_neg1 (X := rv F |x|) (by rw [rv_abs]; exact c1)
      have he := abs_le.1 hr.er
      have hlow : -25 ≤ Trig.atP (rv F |x|) := by
        rw [rv_abs]
        have h0 := abs_nonneg (rv F x)
        generalize |rv F x| = X at *
        have hW : X * X ≤ 6.25 := by nlinarith
        have hW0 : 0 ≤ X * X := by positivity
        have := atCubic_anti hW
        unfold Trig.atP
        generalize X * X = W at *
        norm_num at this ⊢
        nlinarith
      refine ⟨r, er, hr.st, by norm_num at hu hp; nlinarith [he.1, he.2], ?_, fun hc => absurd hc (by linarith)⟩
      rw [abs_le]; norm_num at hu hp; constructor <;> nlinarith [he.1, he.2]
    · obtain ⟨r, er, hr⟩ := atanBody_6 k (abs_nonneg x) (by rw [rv_abs]; exact c2)
      push Not at h25
      have hp := atP_neg2 (X := rv F |x|) (by rw [rv_abs]; norm_num at h25 ⊢; exact h25)
      have he := abs_le.1 hr.er
      have hlow : -12500 ≤ Trig.atP (rv F |x|) := by
        rw [rv_abs]
        have h0 := abs_nonneg (rv F x)
        generalize |rv F x| = X at *
        have hW : X * X ≤ 36 := by nlinarith
        have hW0 : 0 ≤ X * X := by positivity
        have := atCubic_anti hW
        unfold Trig.atP
        generalize X * X = W at *
        norm_num at this ⊢
        nlinarith
      have hb : rv F r ≤ -10 := by norm_num at hu; nlinarith [he.1, he.2]
      refine ⟨r, er, hr.st, by linarith, ?_, fun _ => hb⟩
      rw [abs_le]; norm_num at hu; constructor <;> nlinarith [he.1, he.2]
  obtain ⟨r, er, rS, rneg, rb, r10⟩ := hbody
  have hnS : Storable F (-r) := h.st (by rw [rv_neg, abs_neg]; linarith)
  refine ⟨_, atan_of_body k hS hlo er hnS, by split; exacts [hnS, rS], ?_, ?_⟩
  · have : ((val F (if x < 0 then -r else r) * val F x : ℚ) : ℝ) < ((0 : ℚ) : ℝ) := by
      push_cast; rw [rv_eq, rv_eq]
      by_cases h0 : x < 0
      · have hx0 : rv F x < 0 := by have := (rv_lt F (a := x) (b := 0)).2 h0; simpa [rv] using this
        rw [if_pos h0, rv_neg]; nlinarith
      · have hx0 : 0 ≤ rv F x := by have := (rv_le F (a := 0) (b := x)).2 (by omega); simpa [rv] using this
        rw [abs_of_nonneg hx0] at c1
        rw [if_neg h0]; norm_num at c1; nlinarith
    exact_mod_cast this
  · intro h5
    have h5' : (5 / 2 : ℝ) ≤ |rv F x| := by
      rw [← rv_eq]
      have : ((5 / 2 : ℚ) : ℝ) ≤ ((|val F x| : ℚ) : ℝ) := by exact_mod_cast h5
      push_cast at this; exact this
    have hb := r10 h5'
    have : ((10 : ℚ) : ℝ) ≤ ((|val F (if x < 0 then -r else r)| : ℚ) : ℝ) := by
      push_cast; rw [rv_eq]
      have e : |rv F (if x < 0 then -r else r)| = |rv F r| := by
        split
        · rw [rv_neg, abs_neg]
        · rfl
      rw [e, abs_of_neg rneg]; linarith
    exact_mod_cast this

example : 1.85 ≤ |val fixed64 (-3 * 2 ^ 32)| ∧ |val fixed64 (-3 * 2 ^ 32)| ≤ 6 ∧ atan fixed64 (-3 * 2 ^ 32) = .ok 295580722065 := by
  refine ⟨by norm_num [val, fixed64], by norm_num [val, fixed64], ?_⟩
  decide +kernel

/-- C102: consequently `asin` (which is `atan(x / sqrt(1 - x²))`) has the wrong sign for `0.89 ≤ |x| ≤ 0.98`. -/
theorem C102_asin_wrong_sign (x : Int) (h1 : 89 / 100 ≤ |val fixed32 x|) (h2 : |val fixed32 x| ≤ 98 / 100) :
    ∃ r, asin fixed32 x = .ok r ∧ val fixed32 r * val fixed32 x < 0 := by
  have c1 : (89 / 100 : ℝ) ≤ |rv fixed32 x| := by
    rw [← rv_eq]
    have : ((89 / 100 : ℚ) : ℝ) ≤ ((|val fixed32 x| : ℚ) : ℝ) := by exact_mod_cast h1
    push_cast at this; exact this
  have c2 : |rv fixed32 x| ≤ 98 / 100 := by
    rw [← rv_eq]
    have : ((|val fixed32 x| : ℚ) : ℝ) ≤ ((98 / 100 : ℚ) : ℝ) := by exact_mod_cast h2
    push_cast at this; exact this
  have hxi : |x| < 65536 := by
    by_contra hc
    have : rv fixed32 65536 ≤ rv fixed32 |x| := (rv_le _).2 (by omega)
    rw [rv_abs, rv32] at this
    push_cast at this
    norm_num at this; linarith
  have hb := abs_lt.1 hxi
  have hS : Storable fixed32 x := in32 (by omega) (by omega)
  obtain ⟨s, es, hs, hs0, hs1, ea⟩ := asin_inner hS hxi
  rw [ea]
  set X := rv fixed32 x with hXd
  have hxr : (x : ℝ) = 65536 * X := by rw [hXd, rv32]; field_simp
  have hX2 : X ^ 2 ≤ (98 / 100) ^ 2 := by rw [← sq_abs]; exact pow_le_pow_left₀ (abs_nonneg _) c2 2
  have hX3 : (89 / 100) ^ 2 ≤ X ^ 2 := by rw [← sq_abs X]; exact pow_le_pow_left₀ (by norm_num) c1 2
  obtain ⟨_, hr1, hr2⟩ := hs
  have d1 := Int.ediv_mul_le (x * x) (by norm_num : (65536 : Int) ≠ 0)
  have d2 := Int.lt_ediv_add_one_mul_self (x * x) (by norm_num : (0 : Int) < 65536)
  generalize x * x / 65536 = w at *
  set T := (s : ℝ) / 65536 with hT
  have hsr : (s : ℝ) = 65536 * T := by rw [hT]; field_simp
  have hT1 : T ^ 2 ≤ 1 - X ^ 2 + 1 / 65536 := by
    have a : (s : ℝ) ^ 2 ≤ (65536 - w) * 65536 := by have : s ^ 2 ≤ (65536 - w) * 65536 := by simpa using hr1
                                                     exact_mod_cast this
    have b : (x : ℝ) * x < (w + 1) * 65536 := by exact_mod_cast d2
    rw [hsr] at a; rw [hxr] at b
    nlinarith
  have hT2 : 1 - X ^ 2 < (T + 1 / 65536) ^ 2 := by
    have a : (65536 - w) * 65536 < ((s : ℝ) + 1) ^ 2 := by have : (65536 - w) * 65536 < (s + 1) ^ 2 := by simpa using hr2
                                                           exact_mod_cast this
    have b : (w : ℝ) * 65536 ≤ x * x := by exact_mod_cast d1
    rw [hsr] at a; rw [hxr] at b
    nlinarith
  have hTn : 0 < T := by rw [hT]; positivity
  have hTl : 18 / 100 ≤ T := by
    by_contra hc; push Not at hc
    norm_num at *
    nlinarith
  have hTu : T ≤ 457 / 1000 := by
    by_contra hc; push Not at hc
    norm_num at *
    nlinarith
  -- the quotient
  have hq := tdiv_near (x * 65536) hs0
  set q := Int.tdiv (x * 65536) s with hqd
  set Q := rv fixed32 q with hQd
  have hqr : (q : ℝ) = 65536 * Q := by rw [hQd, rv32]; field_simp
  have hQ : |Q * T - X| ≤ 1 / 65536 * T := by
    push_cast at hq
    rw [hsr, hqr, hxr, show 65536 * Q * (65536 * T) - 65536 * X * 65536 = 65536 * 65536 * (Q * T - X) by ring, abs_mul,
      abs_of_pos (by norm_num : (0 : ℝ) < 65536 * 65536)] at hq
    norm_num at hq ⊢; linarith
  have hQa : |Q| * T = |Q * T| := by rw [abs_mul, abs_of_pos hTn]
  have l1 : |X| - |Q * T - X| ≤ |Q * T| := by
    have := abs_sub_abs_le_abs_sub X (Q * T); rw [abs_sub_comm X] at this; linarith
  have l2 : |Q * T| ≤ |X| + |Q * T - X| := by
    have := abs_sub_abs_le_abs_sub (Q * T) X; linarith
  rw [← hQa] at l1 l2
  have q1 : 1.85 ≤ |Q| := by
    by_contra hc; push Not at hc
    have : |Q| * T ≤ 1.85 * T := mul_le_mul_of_nonneg_right hc.le hTn.le
    norm_num at this; linarith
  have q2 : |Q| ≤ 6 := by
    by_contra hc; push Not at hc
    have : 6 * T ≤ |Q| * T := mul_le_mul_of_nonneg_right hc.le hTn.le
    linarith
  have v1 : 1.85 ≤ |val fixed32 q| := by
    have : ((1.85 : ℚ) : ℝ) ≤ ((|val fixed32 q| : ℚ) : ℝ) := by push_cast; rw [rv_eq]; norm_num at q1 ⊢; exact q1
    exact_mod_cast this
  have v2 : |val fixed32 q| ≤ 6 := by
    have : ((|val fixed32 q| : ℚ) : ℝ) ≤ ((6 : ℚ) : ℝ) := by push_cast; rw [rv_eq]; exact q2
    exact_mod_cast this
  obtain ⟨r, er, _, hsgn, _⟩ := C102_wrong_sign fixed32 (Or.inl rfl) q v1 v2
  refine ⟨r, er, ?_⟩
  -- `q` has the sign of `x`
  have hqx : 0 < Q * X := by
    have : Q * T * X = X ^ 2 + (Q * T - X) * X := by ring
    have l3 : |(Q * T - X) * X| ≤ 1 / 65536 := by
      rw [abs_mul]
      have := mul_le_mul hQ c2 (abs_nonneg _) (by positivity)
      norm_num at *; linarith
    have l4 := neg_le_of_abs_le l3
    have : 0 < Q * X * T := by rw [show Q * X * T = Q * T * X by ring, this]; norm_num at *; linarith
    exact (mul_pos_iff_of_pos_right hTn).1 this
  have hqx' : 0 < val fixed32 q * val fixed32 x := by
    have : ((0 : ℚ) : ℝ) < ((val fixed32 q * val fixed32 x : ℚ) : ℝ) := by push_cast; rw [rv_eq, rv_eq]; exact hqx
    exact_mod_cast this
  have hq0 : 0 < val fixed32 q ^ 2 := by
    rcases eq_or_ne (val fixed32 q) 0 with e | e
    · rw [e, zero_mul] at hqx'; exact absurd hqx' (lt_irrefl _)
    · positivity
  by_contra hc
  push Not at hc
  have e : val fixed32 r * val fixed32 q * (val fixed32 q * val fixed32 x) = val fixed32 q ^ 2 * (val fixed32 r * val fixed32 x) := by ring
  have a := mul_neg_of_neg_of_pos hsgn hqx'
  have b := mul_nonneg hq0.le hc
  rw [e] at a; linarith

example : 89 / 100 ≤ |val fixed32 (-60000)| ∧ |val fixed32 (-60000)| ≤ 98 / 100 ∧ asin fixed32 (-60000) = .ok 430225 := by
  refine ⟨by norm_num [val, fixed32], by norm_num [val, fixed32], ?_⟩
  decide +kernel

end Eirin.Props
