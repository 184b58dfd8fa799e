import Verif.Lemmas.Trig
import Mathlib.Analysis.SpecialFunctions.Trigonometric.ArctanDeriv

/-! # A polynomial approximation of the real arctangent on `[0, 1]`. -/

namespace Eirin.Trig

theorem nonneg_of_deriv_unit (f f' : ℝ → ℝ) (h0 : f 0 = 0) (hd : ∀ y, HasDerivAt f (f' y) y)
    (hp : ∀ y, 0 ≤ y → y ≤ 1 → 0 ≤ f' y) : ∀ y, 0 ≤ y → y ≤ 1 → 0 ≤ f y := by
  intro y hy hy1
  have hm : MonotoneOn f (Set.Icc 0 1) := by
    apply monotoneOn_of_deriv_nonneg (convex_Icc 0 1)
    · exact fun x _ => (hd x).continuousAt.continuousWithinAt
    · exact fun x _ => (hd x).differentiableAt.differentiableWithinAt
    · intro x hx
      rw [interior_Icc] at hx
      rw [(hd x).deriv]
      exact hp x hx.1.le hx.2.le
  have := hm (Set.mem_Icc.2 ⟨le_rfl, zero_le_one⟩) (Set.mem_Icc.2 ⟨hy, hy1⟩) hy
  rwa [h0] at this

/-- Antiderivative of the Chebyshev quotient `(1 - T6(2t-1)/19601) / (1+t)` at `t = x^2`. -/
noncomputable def atQ (x : ℝ) : ℝ :=
  (19600 * x - 19528 / 3 * x ^ 3 + 18688 / 5 * x ^ 5 - 15104 / 7 * x ^ 7 + 8192 / 9 * x ^ 9 - 2048 / 11 * x ^ 11) / 19601
noncomputable def atQ' (x : ℝ) : ℝ :=
  (19600 - 19528 * x ^ 2 + 18688 * x ^ 4 - 15104 * x ^ 6 + 8192 * x ^ 8 - 2048 * x ^ 10) / 19601

theorem atQ_deriv (x : ℝ) : HasDerivAt atQ (atQ' x) x := by
  unfold atQ
  have h1 := (hasDerivAt_id x).const_mul (19600 : ℝ)
  have h3 := (hasDerivAt_pow 3 x).const_mul (19528 / 3 : ℝ)
  have h5 := (hasDerivAt_pow 5 x).const_mul (18688 / 5 : ℝ)
  have h7 := (hasDerivAt_pow 7 x).const_mul (15104 / 7 : ℝ)
  have h9 := (hasDerivAt_pow 9 x).const_mul (8192 / 9 : ℝ)
  have h11 := (hasDerivAt_pow 11 x).const_mul (2048 / 11 : ℝ)
  have h := (((((h1.sub h3).add h5).sub h7).add h9).sub h11).div_const 19601
  refine h.congr_deriv ?_
  unfold atQ'; norm_num; ring

theorem arctan_near (x : ℝ) (h0 : 0 ≤ x) (h1 : x ≤ 1) : |Real.arctan x - atQ x| ≤ 52 / 1000000 * x := by
  have c1 : ∀ t : ℝ, 0 ≤ t → t ≤ 1 → _ := Poly.check_sound 14 [504813, -17745187, 210000000, -896000000, 1728000000, -1536000000, 512000000] (by decide +kernel)
  have c2 : ∀ t : ℝ, 0 ≤ t → t ≤ 1 → _ := Poly.check_sound 14 [4813, 18254813, -210000000, 896000000, -1728000000, 1536000000, -512000000] (by decide +kernel)
  have hlin : ∀ y : ℝ, HasDerivAt (fun z => 52 / 1000000 * z) (52 / 1000000) y := by
    intro y; have := (hasDerivAt_id y).const_mul (52 / 1000000 : ℝ); rw [mul_one] at this; exact this
  have sq : ∀ y : ℝ, 0 ≤ y → y ≤ 1 → 0 ≤ y ^ 2 ∧ y ^ 2 ≤ 1 := by
    intro y a b; exact ⟨by positivity, by nlinarith⟩
  have A := nonneg_of_deriv_unit (fun z => Real.arctan z - atQ z + 52 / 1000000 * z) (fun y => 1 / (1 + y ^ 2) - atQ' y + 52 / 1000000)
    (by simp [atQ]) (fun y => ((Real.hasDerivAt_arctan y).sub (atQ_deriv y)).add (hlin y)) (by
      intro y hy hy1
      have hp : (0 : ℝ) < 1 + y ^ 2 := by positivity
      have h := c1 _ (sq y hy hy1).1 (sq y hy hy1).2
      simp only [Poly.pe] at h; push_cast at h
      rw [show 1 / (1 + y ^ 2) - atQ' y + 52 / 1000000 = (1 + (-atQ' y + 52 / 1000000) * (1 + y ^ 2)) / (1 + y ^ 2) by field_simp; ring]
      apply div_nonneg _ hp.le
      unfold atQ'; nlinarith) x h0 h1
  have B := nonneg_of_deriv_unit (fun z => -(Real.arctan z - atQ z) + 52 / 1000000 * z) (fun y => -(1 / (1 + y ^ 2) - atQ' y) + 52 / 1000000)
    (by simp [atQ]) (fun y => (((Real.hasDerivAt_arctan y).sub (atQ_deriv y)).neg).add (hlin y)) (by
      intro y hy hy1
      have hp : (0 : ℝ) < 1 + y ^ 2 := by positivity
      have h := c2 _ (sq y hy hy1).1 (sq y hy hy1).2
      simp only [Poly.pe] at h; push_cast at h
      rw [show -(1 / (1 + y ^ 2) - atQ' y) + 52 / 1000000 = (-1 + (atQ' y + 52 / 1000000) * (1 + y ^ 2)) / (1 + y ^ 2) by field_simp; ring]
      apply div_nonneg _ hp.le
      unfold atQ'; nlinarith) x h0 h1
  rw [abs_le]; constructor <;> linarith

/-- The real polynomial evaluated by the library's `atan`. -/
noncomputable def atP (x : ℝ) : ℝ :=
  ((-(0x17CE62CE264A340 / 2 ^ 61) * (x * x) + 0x5191A2296020A80 / 2 ^ 61) * (x * x) - 0xA7BE2BC19C39800 / 2 ^ 61) * (x * x) * x + x

theorem atP_near (x : ℝ) (h0 : 0 ≤ x) (h1 : x ≤ 1) : |atP x - Real.arctan x| ≤ 37 / 100000 := by
  have h := arctan_near x h0 h1
  have c1 := Poly.check_sound 14 [4854817368086737831675822080, 798974602692544954368000000, 0, 69989804606944152978432000000, 0,
    -491275080703683244069516800000, 0, 995791514477344785766368000000, 0, -727244438361925362909184000000, 0, 148754544210393824231424000000]
    (by decide +kernel) x h0 h1
  have c2 := Poly.check_sound 14 [4854817368086737831675822080, -798974602692544954368000000, 0, -69989804606944152978432000000, 0,
    491275080703683244069516800000, 0, -995791514477344785766368000000, 0, 727244438361925362909184000000, 0, -148754544210393824231424000000]
    (by decide +kernel) x h0 h1
  simp only [Poly.pe] at c1 c2
  push_cast at c1 c2
  have d : |atP x - atQ x| ≤ 31 / 100000 := by
    unfold atP atQ
    norm_num
    rw [abs_le]
    constructor <;> nlinarith
  have := abs_sub_le (atP x) (atQ x) (Real.arctan x)
  rw [abs_sub_comm] at h
  have : (52 : ℝ) / 1000000 * x ≤ 52 / 1000000 := by nlinarith
  linarith

end Eirin.Trig
