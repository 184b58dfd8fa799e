import Verif.Props.SqrtAll
import Verif.Props.AtanAll
import Verif.Props.Atan
import Verif.Props.Tan

/-! # Property C115: asin and acos on every 64-bit layout. -/

namespace Eirin.Props
open Spec Real

/-- Numerical core: an approximate root of `1 - X²` is close to the cosine. -/
theorem asin_root {X D s u S : ℝ} (hX : X ^ 2 ≤ 0.49) (hu0 : 0 < u) (hu : u ≤ 1 / 256) (D1 : S ^ 2 ≤ D) (D2 : D ≤ S ^ 2 + u) (s0 : 0 ≤ s)
    (h1 : D < (s + u) ^ 2) (h2 : |D - s ^ 2| < 5 / 65536 ∨ (s - u / 2) ^ 2 ≤ D) (hS0 : 0 ≤ S) (hS : S ^ 2 = 1 - X ^ 2) :
    0.714 ≤ S ∧ S - u ≤ s ∧ s ≤ S + 1.21 * u + 0.000054 := by
  have a1 : 0.714 ≤ S := by
    by_contra hc; push Not at hc
    nlinarith
  refine ⟨a1, ?_, ?_⟩
  · have : S < s + u := lt_of_pow_lt_pow_left₀ 2 (by linarith) (lt_of_le_of_lt D1 h1)
    linarith
  · by_contra hc; push Not at hc
    rcases h2 with h2 | h2
    · have b1 : s ^ 2 < S ^ 2 + u + 5 / 65536 := by linarith [(abs_lt.1 h2).1]
      have b2 : (S + 1.21 * u + 0.000054) ^ 2 ≤ s ^ 2 := pow_le_pow_left₀ (by positivity) hc.le 2
      have b3 : 2 * 0.714 * (1.21 * u + 0.000054) ≤ 2 * S * (1.21 * u + 0.000054) := by
        apply mul_le_mul_of_nonneg_right _ (by positivity); linarith
      have b4 : 0 ≤ (1.21 * u + 0.000054) ^ 2 := sq_nonneg _
      norm_num at *
      nlinarith
    · have b1 : (S + 0.71 * u) ^ 2 ≤ (s - u / 2) ^ 2 := pow_le_pow_left₀ (by positivity) (by linarith) 2
      have b3 : 2 * 0.714 * (0.71 * u) ≤ 2 * S * (0.71 * u) := by
        apply mul_le_mul_of_nonneg_right _ (by positivity); linarith
      have b4 : 0 < (0.71 * u) ^ 2 := by positivity
      norm_num at *
      nlinarith

theorem asin_quot {X s u S : ℝ} (hX : |X| ≤ 0.7) (hu0 : 0 < u) (hu : u ≤ 1 / 256) (a1 : 0.714 ≤ S) (a2 : S - u ≤ s) (a3 : s ≤ S + 1.21 * u + 0.000054) :
    0 < s ∧ |X / s| ≤ 1 ∧ |X / s - X / S| ≤ 1.7 * u + 0.000076 := by
  have s1 : 0.71 ≤ s := by linarith
  have s0 : 0 < s := by linarith
  have S0 : 0 < S := by linarith
  refine ⟨s0, ?_, ?_⟩
  · rw [abs_div, abs_of_pos s0, div_le_one s0]; linarith
  · have e : X / s - X / S = X * (S - s) / (s * S) := by field_simp
    rw [e, abs_div, abs_mul, abs_of_pos (mul_pos s0 S0), div_le_iff₀ (mul_pos s0 S0)]
    have d : |S - s| ≤ 1.21 * u + 0.000054 := by rw [abs_le]; constructor <;> linarith
    have m1 : |X| * |S - s| ≤ 0.7 * (1.21 * u + 0.000054) := mul_le_mul hX d (abs_nonneg _) (by norm_num)
    have m2 : 0.71 * 0.714 ≤ s * S := mul_le_mul s1 a1 (by norm_num) s0.le
    have m3 : (1.7 * u + 0.000076) * (0.71 * 0.714) ≤ (1.7 * u + 0.000076) * (s * S) := mul_le_mul_of_nonneg_left m2 (by positivity)
    linarith

theorem ofInt_L64 {f : Nat} (h0 : 0 < f) (h1 : f ≤ 60) :
    ofInt (L64 f) 1 = 2 ^ f ∧ ofInt (L64 f) (-1) = -2 ^ f ∧ ofInt (L64 f) 0 = 0 ∧ ofInt (L64 f) 2 = 2 * 2 ^ f := by
  have : ∀ f < 61, 0 < f → ofInt (L64 f) 1 = 2 ^ f ∧ ofInt (L64 f) (-1) = -2 ^ f ∧ ofInt (L64 f) 0 = 0 ∧ ofInt (L64 f) 2 = 2 * 2 ^ f := by decide +kernel
  exact this f (by omega) h0

/-- The constant pi on these layouts. -/
theorem cPi_L64 {f : Nat} (h0 : 0 < f) (h1 : f ≤ 60) :
    ∃ pi, cPi (L64 f) = .ok pi ∧ 0 < pi ∧ pi < 4 * 2 ^ f ∧ |rv (L64 f) pi - π| ≤ 1.5 * uR (L64 f) := by
  have sw := sw_L64 h0 (by omega : f ≤ 62)
  have hp : (0 : Int) < 2 ^ f := by positivity
  have e64 : (2 : Int) ^ f ≤ 2 ^ 60 := pow_le_pow_right₀ (by norm_num) h1
  obtain ⟨pi, e, sp, n, -⟩ := C20_every_pi.1 (L64 f) 4 sw.valid (by show f < 61; omega) (by have := Real.pi_lt_d2; push_cast; norm_num at *; linarith)
    ⟨4 * 2 ^ f, in64 (by omega) (by norm_num at e64 ⊢; omega), by rw [show (4 * 2 ^ f : Int) = 4 * 2 ^ (L64 f).f by rfl, val_int]⟩
  obtain ⟨n1, n2⟩ := n rfl
  rw [rv_eq] at n1 n2; rw [uR_eq] at n2
  have hu : (1 : ℝ) / 2 ^ 60 ≤ uR (L64 f) := by
    unfold uR
    apply div_le_div_of_nonneg_left (by norm_num) (by positivity)
    exact pow_le_pow_right₀ (by norm_num) h1
  have hu2 : uR (L64 f) ≤ 1 / 2 := by
    unfold uR
    apply div_le_div_of_nonneg_left (by norm_num) (by positivity)
    have : (2 : ℝ) ^ 1 ≤ 2 ^ f := pow_le_pow_right₀ (by norm_num) h0
    norm_num at this ⊢; exact this
  have h61 : (1 : ℝ) / 2 ^ 61 ≤ 0.5 * uR (L64 f) := by norm_num at hu ⊢; linarith
  have g1 := Real.pi_gt_d2
  have g2 := Real.pi_lt_d2
  refine ⟨pi, e, ?_, ?_, ?_⟩
  · have : rv (L64 f) 0 < rv (L64 f) pi := by rw [show rv (L64 f) 0 = 0 by simp [rv]]; norm_num at *; linarith
    exact (rv_lt _).1 this
  · have : rv (L64 f) pi < rv (L64 f) (4 * 2 ^ f) := by
      rw [show (4 * 2 ^ f : Int) = 4 * 2 ^ (L64 f).f by rfl, rv_int]; push_cast; norm_num at *; linarith
    exact (rv_lt _).1 this
  · rw [abs_le]; constructor <;> linarith [uR_pos (L64 f)]

theorem asin_near {f : Nat} (h8 : 8 ≤ f) (h1 : f ≤ 60) (x : Int) (hx : |rv (L64 f) x| ≤ 0.7) :
    ∃ r, asin (L64 f) x = .ok r ∧ Storable (L64 f) r ∧ |rv (L64 f) r - Real.arcsin (rv (L64 f) x)| ≤ 0.00045 + 10.4 * uR (L64 f) := by
  have sw := sw_L64 (by omega : 0 < f) (by omega : f ≤ 62)
  obtain ⟨k⟩ := atG sw.gen rfl h8
  have hl := k.lay
  have hp : (0 : Int) < 2 ^ f := by positivity
  have e64 : (2 : Int) ^ f ≤ 2 ^ 60 := pow_le_pow_right₀ (by norm_num) h1
  have hpr : (0 : ℝ) < 2 ^ f := by positivity
  obtain ⟨o1, om, oz, o2⟩ := ofInt_L64 (by omega : 0 < f) h1
  obtain ⟨pi, epi, -⟩ := cPi_L64 (by omega : 0 < f) h1
  have hu := uR_pos (L64 f)
  have hu2 : uR (L64 f) ≤ 1 / 256 := by
    unfold uR
    apply div_le_div_of_nonneg_left (by norm_num) (by positivity)
    have : (2 : ℝ) ^ 8 ≤ 2 ^ f := pow_le_pow_right₀ (by norm_num) h8
    norm_num at this ⊢; exact this
  have hxi : |x| < 2 ^ f := by
    unfold rv at hx
    rw [abs_div, abs_of_pos hpr, div_le_iff₀ hpr] at hx
    have : (|x| : ℝ) < 2 ^ f := by linarith
    exact_mod_cast this
  have hxb := abs_lt.1 hxi
  have hS : Storable (L64 f) x := in64 (by omega) (by omega)
  have hw0 : 0 ≤ x * x / 2 ^ f := Int.ediv_nonneg (mul_self_nonneg x) hp.le
  have hw1 : x * x / 2 ^ f < 2 ^ f := by
    apply Int.ediv_lt_of_lt_mul hp
    have := mul_lt_mul'' hxi hxi (abs_nonneg x) (abs_nonneg x)
    rw [abs_mul_abs_self] at this; exact this
  have hwr1 : ((x * x / 2 ^ f : Int) : ℝ) * 2 ^ f ≤ x * x := by exact_mod_cast Int.ediv_mul_le (x * x) hp.ne'
  have hwr2 : (x : ℝ) * x < (((x * x / 2 ^ f : Int) : ℝ) + 1) * 2 ^ f := by exact_mod_cast Int.lt_ediv_add_one_mul_self (x * x) hp
  have hmul : mul (L64 f) x x = .ok (x * x / 2 ^ f) := sw.mul_ok rfl hS hS
    (by show i64.InRange (x * x / 2 ^ f); exact in64 (by omega) (by omega))
  generalize x * x / 2 ^ f = w at *
  have hd : Storable (L64 f) (2 ^ f - w) := in64 (by omega) (by omega)
  have hdv : val (L64 f) (2 ^ f - w) ≤ 1 := by
    rw [show val (L64 f) (2 ^ f - w) = ((2 ^ f - w : Int) : ℚ) / 2 ^ f from rfl, div_le_one (by positivity)]
    have : (0 : ℚ) ≤ w := by exact_mod_cast hw0
    push_cast; linarith
  obtain ⟨s, es, sS, s0, r1, r2⟩ := C112_sqrt f (by omega) (by omega) (2 ^ f - w) hd
    (by rw [← val_zero (L64 f), val_lt]; omega)
    (fun _ => by
      have : (2 : ℚ) ^ 3 ≤ 2 ^ (63 - f) := pow_le_pow_right₀ (by norm_num) (by omega)
      linarith) (by omega)
  -- to the reals
  have r1' : rv (L64 f) (2 ^ f - w) < (rv (L64 f) s + uR (L64 f)) ^ 2 := by
    rw [← rv_eq, ← rv_eq, ← uR_eq]; exact_mod_cast r1
  have r2' : |rv (L64 f) (2 ^ f - w) - rv (L64 f) s ^ 2| < 5 / 65536 ∨ (rv (L64 f) s - uR (L64 f) / 2) ^ 2 ≤ rv (L64 f) (2 ^ f - w) := by
    rw [← rv_eq, ← rv_eq, ← uR_eq]
    rcases r2 with r2 | r2
    · left
      have : ((|val (L64 f) (2 ^ f - w) - val (L64 f) s ^ 2| : ℚ) : ℝ) < ((5 / 65536 : ℚ) : ℝ) := by exact_mod_cast r2
      push_cast at this; exact this
    · right
      have : (((val (L64 f) s - ulp (L64 f) / 2) ^ 2 : ℚ) : ℝ) ≤ ((val (L64 f) (2 ^ f - w) : ℚ) : ℝ) := by exact_mod_cast r2
      push_cast at this; exact this
  have s0' : 0 ≤ rv (L64 f) s := by rw [← rv_eq]; exact_mod_cast s0
  set X := rv (L64 f) x with hXd
  have hX2 : X ^ 2 ≤ 0.49 := by
    rw [← sq_abs]
    have := pow_le_pow_left₀ (abs_nonneg X) hx 2
    norm_num at this ⊢; exact this
  have hSS : Real.sqrt (1 - X ^ 2) ^ 2 = 1 - X ^ 2 := Real.sq_sqrt (by norm_num at *; linarith)
  have hxr : (x : ℝ) = X * 2 ^ f := by rw [hXd]; unfold rv; field_simp
  have hD : rv (L64 f) (2 ^ f - w) = 1 - w / 2 ^ f := by unfold rv; push_cast; field_simp
  have huf : uR (L64 f) = 1 / 2 ^ f := rfl
  have hwX : (w : ℝ) / 2 ^ f ≤ X ^ 2 ∧ X ^ 2 ≤ w / 2 ^ f + 1 / 2 ^ f := by
    rw [hxr] at hwr1 hwr2
    constructor
    · rw [div_le_iff₀ hpr]
      have : (w : ℝ) * 2 ^ f ≤ (X ^ 2 * 2 ^ f) * 2 ^ f := by linarith
      exact le_of_mul_le_mul_right this hpr
    · rw [← add_div, le_div_iff₀ hpr]
      have : (X ^ 2 * 2 ^ f) * 2 ^ f ≤ (w + 1) * 2 ^ f := by linarith
      exact le_of_mul_le_mul_right this hpr
  obtain ⟨a1, a2, a3⟩ := asin_root (S := Real.sqrt (1 - X ^ 2)) hX2 hu hu2 (by rw [hSS, hD]; linarith) (by rw [hSS, hD, huf]; linarith) s0' r1' r2'
    (Real.sqrt_nonneg _) hSS
  obtain ⟨b1, b2, b3⟩ := asin_quot hx hu hu2 a1 a2 a3
  have si : 0 < s := by
    have : rv (L64 f) 0 < rv (L64 f) s := by rw [show rv (L64 f) 0 = 0 by simp [rv]]; exact b1
    exact (rv_lt _).1 this
  -- the quotient
  have ht := trunc_spec (L64 f) (x * 2 ^ f) s si.ne'
  have hsq : (s : ℚ) ≠ 0 := by exact_mod_cast si.ne'
  have eq : ((x * 2 ^ f : Int) : ℚ) / s / 2 ^ f = val (L64 f) x / val (L64 f) s := by
    unfold val; push_cast; field_simp
  rw [eq] at ht
  have hn := isTrunc_near ht
  push_cast at hn
  rw [rv_eq, rv_eq, rv_eq, ← hXd] at hn
  have hQ1 : |rv (L64 f) (Int.tdiv (x * 2 ^ f) s)| ≤ 1 := by
    have hxs : |x| ≤ s := by
      rw [hXd, abs_div, abs_of_pos b1, div_le_one b1] at b2
      have e : |rv (L64 f) x| = rv (L64 f) |x| := by unfold rv; rw [abs_div, abs_of_pos hpr]; push_cast; rfl
      rw [e] at b2
      exact (rv_le _).1 b2
    have hq : |Int.tdiv (x * 2 ^ f) s| ≤ 2 ^ f := by
      rw [Int.abs_eq_natAbs, Int.natAbs_tdiv]
      have : (x * 2 ^ f).natAbs / s.natAbs ≤ (2 : Nat) ^ f := by
        apply Nat.div_le_of_le_mul
        rw [Int.natAbs_mul, show ((2 : Int) ^ f).natAbs = 2 ^ f by rw [Int.natAbs_pow]; rfl]
        exact Nat.mul_le_mul_right _ (by rw [Int.abs_eq_natAbs] at hxs; omega)
      exact_mod_cast this
    unfold rv
    rw [abs_div, abs_of_pos hpr, div_le_one hpr]
    exact_mod_cast hq
  set q := Int.tdiv (x * 2 ^ f) s with hq
  have hqS : Storable (L64 f) q := hl.st (by linarith)
  obtain ⟨r, er, rS, hr⟩ := atan_gen k q hQ1
  refine ⟨r, ?_, rS, ?_⟩
  · unfold asin
    rw [epi, Res.bind_ok, sw.abs_ok hS (by show (i64.lo < x); norm_num [IntTy.lo]; omega), Res.bind_ok, o1, om, if_neg (by rw [gt_iff]; omega), if_neg (by rw [eq_iff]; omega),
      if_neg (by rw [eq_iff]; omega), hmul, Res.bind_ok, sw.sub_ok hd, Res.bind_ok, es, Res.bind_ok, sw.div_ok rfl hS si.ne' hqS, Res.bind_ok, er]
  · have hasin : Real.arcsin X = Real.arctan (X / Real.sqrt (1 - X ^ 2)) :=
      Real.arcsin_eq_arctan ⟨by linarith [neg_abs_le X], by linarith [le_abs_self X]⟩
    have l := arctan_lip (rv (L64 f) q) (X / Real.sqrt (1 - X ^ 2))
    have t := abs_sub_le (rv (L64 f) q) (X / rv (L64 f) s) (X / Real.sqrt (1 - X ^ 2))
    have b := abs_sub_le (rv (L64 f) r) (Real.arctan (rv (L64 f) q)) (Real.arctan (X / Real.sqrt (1 - X ^ 2)))
    rw [hasin]
    linarith

theorem acos_near {f : Nat} (h8 : 8 ≤ f) (h1 : f ≤ 60) (x : Int) (hx : |rv (L64 f) x| ≤ 0.7) :
    ∃ r, acos (L64 f) x = .ok r ∧ Storable (L64 f) r ∧ |rv (L64 f) r - Real.arccos (rv (L64 f) x)| ≤ 0.00045 + 12 * uR (L64 f) := by
  have sw := sw_L64 (by omega : 0 < f) (by omega : f ≤ 62)
  have hp : (0 : Int) < 2 ^ f := by positivity
  have hp1 : (2 : Int) ^ 8 ≤ 2 ^ f := pow_le_pow_right₀ (by norm_num) h8
  have e64 : (2 : Int) ^ f ≤ 2 ^ 60 := pow_le_pow_right₀ (by norm_num) h1
  have hpr : (0 : ℝ) < 2 ^ f := by positivity
  obtain ⟨o1, om, oz, o2⟩ := ofInt_L64 (by omega : 0 < f) h1
  obtain ⟨pi, epi, p1, p2, p3⟩ := cPi_L64 (by omega : 0 < f) h1
  have hu := uR_pos (L64 f)
  have hu2 : uR (L64 f) ≤ 1 / 256 := by
    unfold uR
    apply div_le_div_of_nonneg_left (by norm_num) (by positivity)
    have : (2 : ℝ) ^ 8 ≤ 2 ^ f := pow_le_pow_right₀ (by norm_num) h8
    norm_num at this ⊢; exact this
  have hxi : |x| < 2 ^ f := by
    unfold rv at hx
    rw [abs_div, abs_of_pos hpr, div_le_iff₀ hpr] at hx
    have : (|x| : ℝ) < 2 ^ f := by linarith
    exact_mod_cast this
  have hxb := abs_lt.1 hxi
  have hS : Storable (L64 f) x := in64 (by omega) (by omega)
  have hPS : Storable (L64 f) pi := in64 (by omega) (by omega)
  have hH : Int.tdiv pi 2 = pi / 2 := Int.tdiv_eq_ediv_of_nonneg p1.le
  have hHS : Storable (L64 f) (pi / 2) := in64 (by omega) (by omega)
  have hHr : |rv (L64 f) (pi / 2) - π / 2| ≤ 1.25 * uR (L64 f) := by
    have a1 : (2 : ℝ) * ((pi / 2 : Int) : ℝ) ≤ pi := by exact_mod_cast (by omega : 2 * (pi / 2) ≤ pi)
    have a2 : (pi : ℝ) ≤ 2 * ((pi / 2 : Int) : ℝ) + 1 := by exact_mod_cast (by omega : pi ≤ 2 * (pi / 2) + 1)
    have b1 : rv (L64 f) (pi / 2) = ((pi / 2 : Int) : ℝ) * uR (L64 f) := rv_u _ _
    have b2 : rv (L64 f) pi = (pi : ℝ) * uR (L64 f) := rv_u _ _
    have c1 := mul_le_mul_of_nonneg_right a1 hu.le
    have c2 := mul_le_mul_of_nonneg_right a2 hu.le
    rw [b2] at p3
    rw [b1]
    rw [abs_le] at p3 ⊢
    obtain ⟨q1, q2⟩ := p3
    constructor <;> linarith
  by_cases hx0 : x = 0
  · subst hx0
    refine ⟨pi / 2, ?_, hHS, ?_⟩
    · unfold acos
      have hd : div (L64 f) pi (2 * 2 ^ f) = .ok (pi / 2) := by
        have e : Int.tdiv (pi * 2 ^ f) (2 * 2 ^ f) = pi / 2 := by
          rw [Int.tdiv_eq_ediv_of_nonneg (mul_nonneg p1.le hp.le), Int.mul_ediv_mul_of_pos_left _ _ hp]
        have := sw.div_ok rfl hPS (by omega : (2 * 2 ^ f : Int) ≠ 0) (by show i64.InRange (Int.tdiv (pi * 2 ^ f) (2 * 2 ^ f)); rw [e]; exact hHS)
        rw [this]; exact congrArg _ e
      rw [epi, Res.bind_ok, sw.abs_ok hS (by show (i64.lo < 0); norm_num [IntTy.lo]), Res.bind_ok, o1, om, oz, o2, if_neg (by rw [gt_iff, abs_zero]; omega),
        if_neg (by rw [eq_iff]; omega), if_neg (by rw [eq_iff]; omega), if_pos (by rw [eq_iff]), hd]
    · rw [show rv (L64 f) 0 = 0 by simp [rv], Real.arccos_zero]
      linarith
  · obtain ⟨a, ea, aS, ha⟩ := asin_near h8 h1 x hx
    have hab : |rv (L64 f) a| ≤ 1.7 := by
      have t1 : |Real.arcsin (rv (L64 f) x)| ≤ π / 2 := abs_le.2 ⟨Real.neg_pi_div_two_le_arcsin _, Real.arcsin_le_pi_div_two _⟩
      have t2 := Real.pi_lt_d2
      have := abs_sub_abs_le_abs_sub (rv (L64 f) a) (Real.arcsin (rv (L64 f) x))
      norm_num at *
      linarith
    have hdS : Storable (L64 f) (pi / 2 - a) := by
      have : |a| ≤ 2 * 2 ^ f := by
        unfold rv at hab
        rw [abs_div, abs_of_pos hpr, div_le_iff₀ hpr] at hab
        have : (|a| : ℝ) ≤ 2 * 2 ^ f := by linarith
        exact_mod_cast this
      have := abs_le.1 this
      exact in64 (by omega) (by omega)
    refine ⟨pi / 2 - a, ?_, hdS, ?_⟩
    · unfold acos
      have hd : divInt (L64 f) i32 pi 2 = .ok (pi / 2) := by
        have := sw.divInt_ok (n := 2) hPS (by norm_num) (by norm_num)
        rw [this, hH]
      rw [epi, Res.bind_ok, sw.abs_ok hS (by show (i64.lo < x); norm_num [IntTy.lo]; omega), Res.bind_ok, o1, om, oz, if_neg (by rw [gt_iff]; omega),
        if_neg (by rw [eq_iff]; omega), if_neg (by rw [eq_iff]; omega), if_neg (by rw [eq_iff]; exact hx0), hd, Res.bind_ok, ea, Res.bind_ok, sw.sub_ok hdS]
    · rw [rv_sub, Real.arccos]
      have e : rv (L64 f) (pi / 2) - rv (L64 f) a - (π / 2 - Real.arcsin (rv (L64 f) x)) =
        (rv (L64 f) (pi / 2) - π / 2) - (rv (L64 f) a - Real.arcsin (rv (L64 f) x)) := by ring
      rw [e]
      have := abs_sub (rv (L64 f) (pi / 2) - π / 2) (rv (L64 f) a - Real.arcsin (rv (L64 f) x))
      linarith

/-- C115 as stated: `asin` and `acos` are accurate on `[-0.7, 0.7]` on every signed non-rounding layout with 8 to 60 fraction bits that can hold four. -/
def C115_statement : Prop := ∀ F : FxTy, F.Valid → SignedWide F → F.r = false → 8 ≤ F.f → F.f ≤ 60 → Storable F (4 * 2 ^ F.f) →
  ∀ x, |val F x| ≤ 7 / 10 →
    (∃ r, asin F x = .ok r ∧ |((val F r : ℚ) : ℝ) - Real.arcsin (val F x : ℚ)| ≤ 0.00045 + 12 * (ulp F : ℚ)) ∧
    (∃ r, acos F x = .ok r ∧ |((val F r : ℚ) : ℝ) - Real.arccos (val F x : ℚ)| ≤ 0.00045 + 12 * (ulp F : ℚ))

/-- C115: true of every layout with 64-bit storage. -/
theorem C115_accuracy_partial (f : Nat) (h8 : 8 ≤ f) (h1 : f ≤ 60) (x : Int) (hx : |val (L64 f) x| ≤ 7 / 10) :
    (∃ r, asin (L64 f) x = .ok r ∧ Storable (L64 f) r ∧
      |((val (L64 f) r : ℚ) : ℝ) - Real.arcsin (val (L64 f) x : ℚ)| ≤ 0.00045 + 10.4 * (ulp (L64 f) : ℚ)) ∧
    (∃ r, acos (L64 f) x = .ok r ∧ Storable (L64 f) r ∧
      |((val (L64 f) r : ℚ) : ℝ) - Real.arccos (val (L64 f) x : ℚ)| ≤ 0.00045 + 12 * (ulp (L64 f) : ℚ)) := by
  have hx' : |rv (L64 f) x| ≤ 0.7 := by
    rw [← rv_eq]
    have : ((|val (L64 f) x| : ℚ) : ℝ) ≤ ((7 / 10 : ℚ) : ℝ) := by exact_mod_cast hx
    push_cast at this; norm_num at this ⊢; exact this
  simp only [rv_eq, uR_eq]
  exact ⟨asin_near h8 h1 x hx', acos_near h8 h1 x hx'⟩

example : asin (L64 40) (-2 ^ 39) = .ok (-575621825087) ∧ acos (L64 40) (2 ^ 39) = .ok 1151487001091 ∧
    acos (L64 60) 0 = .ok 1811004864519280710 := by decide +kernel

/-- C115: outside `[-1, 1]` both functions report a domain error; at the end points they return the constants. -/
theorem C115_domain (f : Nat) (h0 : 0 < f) (h1 : f ≤ 60) :
    (∀ x, Storable (L64 f) x → (L64 f).T.lo < x → 1 < |val (L64 f) x| →
      asin (L64 f) x = .throw .domainError ∧ acos (L64 f) x = .throw .domainError) ∧
    ∃ pi, cPi (L64 f) = .ok pi ∧ acos (L64 f) (2 ^ f) = .ok 0 ∧ acos (L64 f) (-2 ^ f) = .ok pi ∧
      asin (L64 f) (2 ^ f) = .ok (pi / 2) ∧ asin (L64 f) (-2 ^ f) = .ok (-(pi / 2)) := by
  have sw := sw_L64 h0 (by omega : f ≤ 62)
  obtain ⟨o1, om, oz, o2⟩ := ofInt_L64 h0 h1
  obtain ⟨pi, epi, p1, p2, -⟩ := cPi_L64 h0 h1
  have hp : (0 : Int) < 2 ^ f := by positivity
  have e64 : (2 : Int) ^ f ≤ 2 ^ 60 := pow_le_pow_right₀ (by norm_num) h1
  constructor
  · intro x hS hlo hx
    have hx' : 2 ^ f < |x| := (abs_val (L64 f) x).1 hx
    unfold asin acos
    rw [epi, Res.bind_ok, sw.abs_ok hS hlo, Res.bind_ok, Res.bind_ok, Res.bind_ok, o1, if_pos (by rw [gt_iff]; exact hx'), if_pos (by rw [gt_iff]; exact hx')]
    exact ⟨rfl, rfl⟩
  · have hdiv : ∀ y : Int, -(4 * 2 ^ f) < y → y < 4 * 2 ^ f → div (L64 f) y (2 * 2 ^ f) = .ok (Int.tdiv y 2) := by
      intro y y1 y2
      have e : Int.tdiv (y * 2 ^ f) (2 * 2 ^ f) = Int.tdiv y 2 := Int.mul_tdiv_mul_of_pos_left _ _ hp
      have := sw.div_ok rfl (in64 (by omega) (by omega) : Storable (L64 f) y) (by omega : (2 * 2 ^ f : Int) ≠ 0)
        (by show i64.InRange (Int.tdiv (y * 2 ^ f) (2 * 2 ^ f)); rw [e]; exact sw.tdiv_inRange (in64 (by omega) (by omega) : Storable (L64 f) y) (by norm_num))
      rw [this]; exact congrArg _ e
    have hS1 : Storable (L64 f) (2 ^ f) := in64 (by omega) (by omega)
    have hS2 : Storable (L64 f) (-2 ^ f) := in64 (by omega) (by omega)
    have l1 : (L64 f).T.lo < 2 ^ f := by show (i64.lo < 2 ^ f); norm_num [IntTy.lo]; omega
    have l2 : (L64 f).T.lo < -2 ^ f := by show (i64.lo < -2 ^ f); norm_num [IntTy.lo]; omega
    have hn : neg (L64 f) pi = .ok (-pi) := sw.neg_ok (in64 (by omega) (by omega))
    have a1 : |(2 : Int) ^ f| = 2 ^ f := abs_of_pos hp
    refine ⟨pi, epi, ?_, ?_, ?_, ?_⟩
    · unfold acos
      rw [epi, Res.bind_ok, sw.abs_ok hS1 l1, Res.bind_ok, o1, oz, a1, if_neg (by rw [gt_iff]; omega), if_pos (by rw [eq_iff])]; rfl
    · unfold acos
      rw [epi, Res.bind_ok, sw.abs_ok hS2 l2, Res.bind_ok, o1, om, abs_neg, a1, if_neg (by rw [gt_iff]; omega), if_neg (by rw [eq_iff]; omega), if_pos (by rw [eq_iff])]; rfl
    · unfold asin
      rw [epi, Res.bind_ok, sw.abs_ok hS1 l1, Res.bind_ok, o1, o2, a1, if_neg (by rw [gt_iff]; omega), if_pos (by rw [eq_iff]), hdiv pi (by omega) p2,
        Int.tdiv_eq_ediv_of_nonneg p1.le]
    · unfold asin
      rw [epi, Res.bind_ok, sw.abs_ok hS2 l2, Res.bind_ok, o1, o2, om, abs_neg, a1, if_neg (by rw [gt_iff]; omega), if_neg (by rw [eq_iff]; omega), if_pos (by rw [eq_iff]), hn,
        Res.bind_ok, hdiv (-pi) (by omega) (by omega), Int.neg_tdiv, Int.tdiv_eq_ediv_of_nonneg p1.le]

example : asin (L64 40) (2 * 2 ^ 40) = .throw .domainError ∧ asin (L64 40) (-2 ^ 40) = .ok (-1727108826178) := by decide +kernel

theorem le_arcsin {x : ℝ} (h0 : 0 ≤ x) (h1 : x ≤ 1) : x ≤ Real.arcsin x := by
  have := Real.sin_le (Real.arcsin_nonneg.2 h0)
  rwa [Real.sin_arcsin (by linarith) h1] at this

/-- C115 is false of the code: in 32-bit storage the square root is only right with 16 fraction bits (C29). -/
theorem C115_false : ¬ C115_statement := by
  intro h
  obtain ⟨r, e, hr⟩ := (h ⟨i32, i64, 12, false⟩ (by decide) (by decide) rfl (by decide) (by decide) (by decide) (2 ^ 11) (by norm_num [val])).1
  have e' : asin ⟨i32, i64, 12, false⟩ (2 ^ 11) = .ok 146 := by decide +kernel
  rw [e'] at e; cases e
  have v : val ⟨i32, i64, 12, false⟩ (2 ^ 11) = 1 / 2 := by norm_num [val]
  have w : val ⟨i32, i64, 12, false⟩ 146 = 146 / 4096 := by norm_num [val]
  have u : ulp ⟨i32, i64, 12, false⟩ = 1 / 4096 := by norm_num [ulp]
  rw [v, w, u] at hr
  have := le_arcsin (x := ((1 / 2 : ℚ) : ℝ)) (by norm_num) (by norm_num)
  have := (abs_le.1 hr).1
  push_cast at *
  norm_num at *
  linarith

/-- A signed 32-bit layout with `f` fraction bits. -/
abbrev L32 (f : Nat) : FxTy := ⟨i32, i64, f, false⟩

/-- C115, the failure in general: in 32-bit storage with 8 to 15 fraction bits `asin` of every number in `[0.2, 0.7]` is more than ten percent too small. -/
theorem C115_small (f : Nat) (h8 : 8 ≤ f) (h15 : f ≤ 15) (x : Int) (hx0 : 1 / 5 ≤ val (L32 f) x) (hx1 : val (L32 f) x ≤ 7 / 10) :
    ∃ r, asin (L32 f) x = .ok r ∧ ((val (L32 f) r : ℚ) : ℝ) ≤ 9 / 10 * Real.arcsin (val (L32 f) x : ℚ) := by
  have hvalid : ∀ f < 16, 8 ≤ f → (L32 f).Valid ∧ SignedWide (L32 f) ∧ Storable (L32 f) (2 ^ f) ∧ ofInt (L32 f) 1 = 2 ^ f ∧ ofInt (L32 f) (-1) = -2 ^ f ∧
    ∃ pi ∈ [804, 1608, 3216, 6433, 12867, 25735, 51471, 102943], cPi (L32 f) = .ok pi := by decide +kernel
  obtain ⟨v1, v2, v3, o1, om, pi, -, epi⟩ := hvalid f (by omega) h8
  have sw : SW (L32 f) := ⟨v1, v2, v3⟩
  obtain ⟨k⟩ := atG sw.gen rfl h8
  have hl := k.lay
  have hp : (0 : Int) < 2 ^ f := by positivity
  have e15 : (2 : Int) ^ f ≤ 2 ^ 15 := pow_le_pow_right₀ (by norm_num) h15
  have hpr : (0 : ℝ) < 2 ^ f := by positivity
  have hX0 : 0.2 ≤ rv (L32 f) x := by
    rw [← rv_eq]
    have : ((1 / 5 : ℚ) : ℝ) ≤ ((val (L32 f) x : ℚ) : ℝ) := by exact_mod_cast hx0
    push_cast at this; norm_num at this ⊢; exact this
  have hX1 : rv (L32 f) x ≤ 0.7 := by
    rw [← rv_eq]
    have : ((val (L32 f) x : ℚ) : ℝ) ≤ ((7 / 10 : ℚ) : ℝ) := by exact_mod_cast hx1
    push_cast at this; norm_num at this ⊢; exact this
  have hu := uR_pos (L32 f)
  have hu2 : uR (L32 f) ≤ 1 / 256 := by
    unfold uR
    apply div_le_div_of_nonneg_left (by norm_num) (by positivity)
    have : (2 : ℝ) ^ 8 ≤ 2 ^ f := pow_le_pow_right₀ (by norm_num) h8
    norm_num at this ⊢; exact this
  set X := rv (L32 f) x with hXd
  have hxr : (x : ℝ) = X * 2 ^ f := by rw [hXd]; unfold rv; field_simp
  have hx0 : 0 < x := by
    have : (0 : ℝ) < x := by rw [hxr]; positivity
    exact_mod_cast this
  have hx1 : x < 2 ^ f := by
    have : (x : ℝ) < 2 ^ f := by
      rw [hxr]; have := mul_le_mul_of_nonneg_right hX1 hpr.le; linarith
    exact_mod_cast this
  have hS : Storable (L32 f) x := in32 (by omega) (by omega)
  have hw0 : 0 ≤ x * x / 2 ^ f := Int.ediv_nonneg (mul_self_nonneg x) hp.le
  have hw1 : x * x / 2 ^ f < 2 ^ f := Int.ediv_lt_of_lt_mul hp (mul_lt_mul'' hx1 hx1 hx0.le hx0.le)
  have hwr1 : ((x * x / 2 ^ f : Int) : ℝ) * 2 ^ f ≤ x * x := by exact_mod_cast Int.ediv_mul_le (x * x) hp.ne'
  have hmul : mul (L32 f) x x = .ok (x * x / 2 ^ f) := sw.mul_ok rfl hS hS
    (by show i32.InRange (x * x / 2 ^ f); exact in32 (by omega) (by omega))
  generalize x * x / 2 ^ f = w at *
  have hd : Storable (L32 f) (2 ^ f - w) := in32 (by omega) (by omega)
  have hv31 : (2 ^ f - w) * 2 ^ (16 - f) ≤ 2 ^ 16 := by
    have a : (2 ^ f - w) * 2 ^ (16 - f) ≤ 2 ^ f * 2 ^ (16 - f) := mul_le_mul_of_nonneg_right (by omega) (by positivity)
    rw [← pow_add, show f + (16 - f) = 16 by omega] at a; exact a
  have hv0 : 0 ≤ (2 ^ f - w) * 2 ^ (16 - f) := mul_nonneg (by omega) (by positivity)
  obtain ⟨s, es, hs, sS⟩ := sqrt_i32 (F := L32 f) rfl (by show f ≤ 31; omega) (x := 2 ^ f - w) (v := (2 ^ f - w) * 2 ^ (16 - f)) hv0
    (by norm_num at hv31 ⊢; omega) (by
      rw [if_neg (by show ¬ f > 16; omega)]
      exact (IntTy.wrap_of_inRange (t := i32) (by decide) (in32 (by omega) (by norm_num at hv31 ⊢; omega))).symm)
  obtain ⟨s0, -, s2⟩ := hs
  have s46 : 46792 ≤ s := by
    by_contra hc
    push Not at hc
    have h2 : (s + 1) ^ 2 ≤ 46792 ^ 2 := pow_le_pow_left₀ (by omega) (by omega) 2
    have h3 : (2 ^ f - w) * 2 ^ (16 - f) * 2 ^ 16 < 46792 ^ 2 := lt_of_lt_of_le s2 h2
    have h4 : ((2 : ℝ) ^ f - w) * 2 ^ (16 - f) * 2 ^ 16 < 46792 ^ 2 := by exact_mod_cast h3
    have h5 : (w : ℝ) ≤ 0.49 * 2 ^ f := by
      rw [hxr] at hwr1
      have a : (w : ℝ) * 2 ^ f ≤ (X * X * 2 ^ f) * 2 ^ f := by linarith
      have b := le_of_mul_le_mul_right a hpr
      have c : X * X ≤ 0.7 * 0.7 := mul_le_mul hX1 hX1 (by linarith) (by norm_num)
      have d := mul_le_mul_of_nonneg_right c hpr.le
      linarith
    have h6 : 0.51 * 2 ^ f * 2 ^ (16 - f) ≤ ((2 : ℝ) ^ f - w) * 2 ^ (16 - f) := mul_le_mul_of_nonneg_right (by linarith) (by positivity)
    rw [mul_assoc, ← pow_add, show f + (16 - f) = 16 by omega] at h6
    norm_num at h4 h6
    linarith
  -- the quotient
  have hpos : (0 : ℝ) < s := by exact_mod_cast (by omega : (0 : Int) < s)
  have hq0 : 0 ≤ Int.tdiv (x * 2 ^ f) s := Int.tdiv_nonneg (mul_nonneg hx0.le hp.le) (by omega)
  have hqs : Int.tdiv (x * 2 ^ f) s * s ≤ x * 2 ^ f := by
    rw [Int.tdiv_eq_ediv_of_nonneg (mul_nonneg hx0.le hp.le)]
    exact Int.ediv_mul_le _ (by omega)
  set q := Int.tdiv (x * 2 ^ f) s with hq
  have hqX : rv (L32 f) q ≤ 0.7004 * X := by
    have a : (q : ℝ) * s ≤ x * 2 ^ f := by exact_mod_cast hqs
    have b : (q : ℝ) * 46792 ≤ q * s := mul_le_mul_of_nonneg_left (by exact_mod_cast s46) (by exact_mod_cast hq0)
    have c : (2 : ℝ) ^ f ≤ 32768 := by exact_mod_cast (by simpa using e15 : (2 : Int) ^ f ≤ 32768)
    have d : (x : ℝ) * 2 ^ f ≤ x * 32768 := mul_le_mul_of_nonneg_left c (by exact_mod_cast hx0.le)
    show (q : ℝ) / 2 ^ f ≤ _
    rw [div_le_iff₀ hpr]
    rw [mul_assoc, ← hxr]
    have : (0 : ℝ) < x := by exact_mod_cast hx0
    linarith
  have hq0r : 0 ≤ rv (L32 f) q := by
    show (0 : ℝ) ≤ (q : ℝ) / 2 ^ f
    exact div_nonneg (by exact_mod_cast hq0) hpr.le
  have hQ1 : |rv (L32 f) q| ≤ 1 := by rw [abs_of_nonneg hq0r]; linarith
  have hqS : Storable (L32 f) q := hl.st (by linarith)
  obtain ⟨r, er, -, hr⟩ := atan_gen k q hQ1
  refine ⟨r, ?_, ?_⟩
  · unfold asin
    rw [epi, Res.bind_ok, sw.abs_ok hS (by show (i32.lo < x); norm_num [IntTy.lo]; omega), Res.bind_ok, o1, om, abs_of_pos hx0,
      if_neg (by rw [gt_iff]; omega), if_neg (by rw [eq_iff]; omega), if_neg (by rw [eq_iff]; omega), hmul, Res.bind_ok, sw.sub_ok hd,
      Res.bind_ok, es, Res.bind_ok, sw.div_ok rfl hS (by omega) hqS, Res.bind_ok, er]
  · rw [rv_eq, rv_eq, ← hXd]
    have a := le_arcsin (x := X) (by linarith) (by linarith)
    have b := arctan_lip (rv (L32 f) q) 0
    rw [Real.arctan_zero, sub_zero, sub_zero, abs_of_nonneg hq0r] at b
    have c := le_abs_self (Real.arctan (rv (L32 f) q))
    have d := (abs_le.1 hr).2
    norm_num at *
    linarith

example : (1 : ℚ) / 5 ≤ val (L32 12) (2 ^ 11) ∧ val (L32 12) (2 ^ 11) ≤ 7 / 10 ∧ asin (L32 12) (2 ^ 11) = .ok 146 ∧
    asin (L32 20) (2 ^ 19) = .ok 232391357 := by
  refine ⟨by norm_num [val], by norm_num [val], ?_⟩
  decide +kernel

end Eirin.Props
