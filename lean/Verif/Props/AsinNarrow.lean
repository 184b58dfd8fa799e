import Verif.Props.AsinAll
import Verif.Props.SqrtNarrow
import Verif.Props.MixedAll
import Mathlib.Tactic.IntervalCases

/-! # Property C180: asin and acos on narrow signed layouts

In 8- and 16-bit storage nothing overflows with undefined behaviour, so the functions are accurate where the square root is, but the absolute value of the lowest
number wraps to itself and slips through the range check. -/

namespace Eirin.Props
open Spec Real

/-- A signed 16-bit layout with intermediate type `I` and `f` fraction bits. -/
abbrev N16 (I : IntTy) (f : Nat) : FxTy := ⟨i16, I, f, false⟩

theorem in16 {z : Int} (h0 : -32768 ≤ z) (h1 : z < 32768) : i16.InRange z :=
  ⟨by rw [show i16.lo = -32768 by decide]; exact h0, by rw [show i16.hi = 32767 by decide]; omega⟩

theorem n16_all : ∀ f < 14, 8 ≤ f → ∀ I ∈ [i32, i64, i128], (N16 I f).Valid ∧ Storable (N16 I f) (2 ^ f) ∧ ofInt (N16 I f) 1 = 2 ^ f ∧
    ofInt (N16 I f) (-1) = -2 ^ f ∧ ofInt (N16 I f) 0 = 0 ∧ ofInt (N16 I f) 2 = 2 * 2 ^ f ∧ cPi (N16 I f) = .ok (25735 / 2 ^ (13 - f)) := by
  decide +kernel

theorem sg_N16 {I : IntTy} {f : Nat} (h8 : 8 ≤ f) (h1 : f ≤ 13) (hI : I ∈ [i32, i64, i128]) : SG (N16 I f) := by
  obtain ⟨a, b, -⟩ := n16_all f (by omega) h8 I hI
  exact ⟨a, rfl, b⟩

theorem ofInt_N16 {I : IntTy} {f : Nat} (h8 : 8 ≤ f) (h1 : f ≤ 13) (hI : I ∈ [i32, i64, i128]) :
    ofInt (N16 I f) 1 = 2 ^ f ∧ ofInt (N16 I f) (-1) = -2 ^ f ∧ ofInt (N16 I f) 0 = 0 ∧ ofInt (N16 I f) 2 = 2 * 2 ^ f := by
  obtain ⟨-, -, a, b, c, d, -⟩ := n16_all f (by omega) h8 I hI
  exact ⟨a, b, c, d⟩

theorem cPi_N16 {I : IntTy} {f : Nat} (h8 : 8 ≤ f) (h1 : f ≤ 13) (hI : I ∈ [i32, i64, i128]) :
    ∃ pi, cPi (N16 I f) = .ok pi ∧ 0 < pi ∧ pi < 4 * 2 ^ f ∧ |rv (N16 I f) pi - π| ≤ 1.5 * uR (N16 I f) := by
  obtain ⟨-, -, -, -, -, -, e⟩ := n16_all f (by omega) h8 I hI
  refine ⟨_, e, ?_⟩
  have p1 := Real.pi_gt_d4
  have p2 := Real.pi_lt_d4
  unfold rv uR
  clear e
  interval_cases f <;> norm_num at * <;> rw [abs_le] <;> constructor <;> linarith

theorem asin_near16 {I : IntTy} {f : Nat} (h8 : 8 ≤ f) (h1 : f ≤ 13) (hI : I ∈ [i32, i64, i128]) (x : Int) (hx : |rv (N16 I f) x| ≤ 0.7) :
    ∃ r, asin (N16 I f) x = .ok r ∧ Storable (N16 I f) r ∧ |rv (N16 I f) r - Real.arcsin (rv (N16 I f) x)| ≤ 0.00045 + 10.4 * uR (N16 I f) := by
  have sg := sg_N16 h8 h1 hI
  obtain ⟨k⟩ := atG sg rfl h8
  have hl := k.lay
  have hp : (0 : Int) < 2 ^ f := by positivity
  have e64 : (2 : Int) ^ f ≤ 2 ^ 13 := pow_le_pow_right₀ (by norm_num) h1
  have hpr : (0 : ℝ) < 2 ^ f := by positivity
  obtain ⟨o1, om, oz, o2⟩ := ofInt_N16 h8 h1 hI
  obtain ⟨pi, epi, -⟩ := cPi_N16 h8 h1 hI
  have hu := uR_pos (N16 I f)
  have hu2 : uR (N16 I f) ≤ 1 / 256 := by
    unfold uR
    apply div_le_div_of_nonneg_left (by norm_num) (by positivity)
    have : (2 : ℝ) ^ 8 ≤ 2 ^ f := pow_le_pow_right₀ (by norm_num) h8
    norm_num at this ⊢; exact this
  have hxi : |x| < 2 ^ f := by
    unfold rv at hx
    rw [abs_div, abs_of_pos hpr, div_le_iff₀ hpr] at hx
    have : (|x| : ℝ) < 2 ^ f := by linarith
    exact_mod_cast this
  have hxb := abs_lt.1 hxi
  have hS : Storable (N16 I f) x := in16 (by omega) (by omega)
  have hw0 : 0 ≤ x * x / 2 ^ f := Int.ediv_nonneg (mul_self_nonneg x) hp.le
  have hw1 : x * x / 2 ^ f < 2 ^ f := by
    apply Int.ediv_lt_of_lt_mul hp
    have := mul_lt_mul'' hxi hxi (abs_nonneg x) (abs_nonneg x)
    rw [abs_mul_abs_self] at this; exact this
  have hwr1 : ((x * x / 2 ^ f : Int) : ℝ) * 2 ^ f ≤ x * x := by exact_mod_cast Int.ediv_mul_le (x * x) hp.ne'
  have hwr2 : (x : ℝ) * x < (((x * x / 2 ^ f : Int) : ℝ) + 1) * 2 ^ f := by exact_mod_cast Int.lt_ediv_add_one_mul_self (x * x) hp
  have hmul : mul (N16 I f) x x = .ok (x * x / 2 ^ f) := sg.mul_ok rfl hS hS
    (by show i16.InRange (x * x / 2 ^ f); exact in16 (by omega) (by omega))
  generalize x * x / 2 ^ f = w at *
  have hd : Storable (N16 I f) (2 ^ f - w) := in16 (by omega) (by omega)
  have hdv : val (N16 I f) (2 ^ f - w) ≤ 1 := by
    rw [show val (N16 I f) (2 ^ f - w) = ((2 ^ f - w : Int) : ℚ) / 2 ^ f from rfl, div_le_one (by positivity)]
    have : (0 : ℚ) ≤ w := by exact_mod_cast hw0
    push_cast; linarith
  obtain ⟨s, es, sS, s0, r1, r2⟩ := (C146_sqrt_partial (N16 I f) sg.valid (Or.inr rfl) rfl (by show f + 3 ≤ 16; omega) (2 ^ f - w) hd).1
    (by rw [← val_zero (N16 I f), val_lt]; omega)
  -- to the reals
  have r1' : rv (N16 I f) (2 ^ f - w) < (rv (N16 I f) s + uR (N16 I f)) ^ 2 := by
    rw [← rv_eq, ← rv_eq, ← uR_eq]; exact_mod_cast r1
  have r2' : |rv (N16 I f) (2 ^ f - w) - rv (N16 I f) s ^ 2| < 5 / 65536 ∨ (rv (N16 I f) s - uR (N16 I f) / 2) ^ 2 ≤ rv (N16 I f) (2 ^ f - w) := by
    rw [← rv_eq, ← rv_eq, ← uR_eq]
    right
    have : (((val (N16 I f) s - ulp (N16 I f) / 2) ^ 2 : ℚ) : ℝ) ≤ ((val (N16 I f) (2 ^ f - w) : ℚ) : ℝ) := by exact_mod_cast r2
    push_cast at this; exact this
  have s0' : 0 ≤ rv (N16 I f) s := by rw [← rv_eq]; exact_mod_cast s0
  set X := rv (N16 I f) x with hXd
  have hX2 : X ^ 2 ≤ 0.49 := by
    rw [← sq_abs]
    have := pow_le_pow_left₀ (abs_nonneg X) hx 2
    norm_num at this ⊢; exact this
  have hSS : Real.sqrt (1 - X ^ 2) ^ 2 = 1 - X ^ 2 := Real.sq_sqrt (by norm_num at *; linarith)
  have hxr : (x : ℝ) = X * 2 ^ f := by rw [hXd]; unfold rv; field_simp
  have hD : rv (N16 I f) (2 ^ f - w) = 1 - w / 2 ^ f := by unfold rv; push_cast; field_simp
  have huf : uR (N16 I f) = 1 / 2 ^ f := rfl
  have hwX : (w : ℝ) / 2 ^ f ≤ X ^ 2 ∧ X ^ 2 ≤ w / 2 ^ f + 1 / 2 ^ f := by
    rw [hxr] at hwr1 hwr2
    constructor
    · rw [div_le_iff₀ hpr]
      have : (w : ℝ) * 2 ^ f ≤ (X ^ 2 * 2 ^ f) * 2 ^ f := by linarith
      exact le_of_mul_le_mul_right this hpr
    · rw [← add_div, le_div_iff₀ hpr]
      have : (X ^ 2 * 2 ^ f) * 2 ^ f ≤ (w + 1) * 2 ^ f := by linarith
      exact le_of_mul_le_mul_right this hpr
  obtain ⟨a1, a2, a3⟩ := asin_root (S := Real.sqrt (1 - X ^ 2)) hX2 hu hu2 (by rw [hSS, hD]; linarith) (by rw [hSS, hD, huf]; linarith) s0' r1' r2'
    (Real.sqrt_nonneg _) hSS
  obtain ⟨b1, b2, b3⟩ := asin_quot hx hu hu2 a1 a2 a3
  have si : 0 < s := by
    have : rv (N16 I f) 0 < rv (N16 I f) s := by rw [show rv (N16 I f) 0 = 0 by simp [rv]]; exact b1
    exact (rv_lt _).1 this
  -- the quotient
  have ht := trunc_spec (N16 I f) (x * 2 ^ f) s si.ne'
  have hsq : (s : ℚ) ≠ 0 := by exact_mod_cast si.ne'
  have eq : ((x * 2 ^ f : Int) : ℚ) / s / 2 ^ f = val (N16 I f) x / val (N16 I f) s := by
    unfold val; push_cast; field_simp
  rw [eq] at ht
  have hn := isTrunc_near ht
  push_cast at hn
  rw [rv_eq, rv_eq, rv_eq, ← hXd] at hn
  have hQ1 : |rv (N16 I f) (Int.tdiv (x * 2 ^ f) s)| ≤ 1 := by
    have hxs : |x| ≤ s := by
      rw [hXd, abs_div, abs_of_pos b1, div_le_one b1] at b2
      have e : |rv (N16 I f) x| = rv (N16 I f) |x| := by unfold rv; rw [abs_div, abs_of_pos hpr]; push_cast; rfl
      rw [e] at b2
      exact (rv_le _).1 b2
    have hq : |Int.tdiv (x * 2 ^ f) s| ≤ 2 ^ f := by
      rw [Int.abs_eq_natAbs, Int.natAbs_tdiv]
      have : (x * 2 ^ f).natAbs / s.natAbs ≤ (2 : Nat) ^ f := by
        apply Nat.div_le_of_le_mul
        rw [Int.natAbs_mul, show ((2 : Int) ^ f).natAbs = 2 ^ f by rw [Int.natAbs_pow]; rfl]
        exact Nat.mul_le_mul_right _ (by rw [Int.abs_eq_natAbs] at hxs; omega)
      exact_mod_cast this
    unfold rv
    rw [abs_div, abs_of_pos hpr, div_le_one hpr]
    exact_mod_cast hq
  set q := Int.tdiv (x * 2 ^ f) s with hq
  have hqS : Storable (N16 I f) q := hl.st (by linarith)
  obtain ⟨r, er, rS, hr⟩ := atan_gen k q hQ1
  refine ⟨r, ?_, rS, ?_⟩
  · unfold asin
    rw [epi, Res.bind_ok, sg.abs_ok hS (by show (i16.lo < x); norm_num [IntTy.lo]; omega), Res.bind_ok, o1, om, if_neg (by rw [gt_iff]; omega), if_neg (by rw [eq_iff]; omega),
      if_neg (by rw [eq_iff]; omega), hmul, Res.bind_ok, sg.sub_ok hd, Res.bind_ok, es, Res.bind_ok, sg.div_ok rfl hS si.ne' hqS, Res.bind_ok, er]
  · have hasin : Real.arcsin X = Real.arctan (X / Real.sqrt (1 - X ^ 2)) :=
      Real.arcsin_eq_arctan ⟨by linarith [neg_abs_le X], by linarith [le_abs_self X]⟩
    have l := arctan_lip (rv (N16 I f) q) (X / Real.sqrt (1 - X ^ 2))
    have t := abs_sub_le (rv (N16 I f) q) (X / rv (N16 I f) s) (X / Real.sqrt (1 - X ^ 2))
    have b := abs_sub_le (rv (N16 I f) r) (Real.arctan (rv (N16 I f) q)) (Real.arctan (X / Real.sqrt (1 - X ^ 2)))
    rw [hasin]
    linarith

theorem acos_near16 {I : IntTy} {f : Nat} (h8 : 8 ≤ f) (h1 : f ≤ 13) (hI : I ∈ [i32, i64, i128]) (x : Int) (hx : |rv (N16 I f) x| ≤ 0.7) :
    ∃ r, acos (N16 I f) x = .ok r ∧ Storable (N16 I f) r ∧ |rv (N16 I f) r - Real.arccos (rv (N16 I f) x)| ≤ 0.00045 + 12 * uR (N16 I f) := by
  have sg := sg_N16 h8 h1 hI
  have hp : (0 : Int) < 2 ^ f := by positivity
  have hp1 : (2 : Int) ^ 8 ≤ 2 ^ f := pow_le_pow_right₀ (by norm_num) h8
  have e64 : (2 : Int) ^ f ≤ 2 ^ 13 := pow_le_pow_right₀ (by norm_num) h1
  have hpr : (0 : ℝ) < 2 ^ f := by positivity
  obtain ⟨o1, om, oz, o2⟩ := ofInt_N16 h8 h1 hI
  obtain ⟨pi, epi, p1, p2, p3⟩ := cPi_N16 h8 h1 hI
  have hu := uR_pos (N16 I f)
  have hu2 : uR (N16 I f) ≤ 1 / 256 := by
    unfold uR
    apply div_le_div_of_nonneg_left (by norm_num) (by positivity)
    have : (2 : ℝ) ^ 8 ≤ 2 ^ f := pow_le_pow_right₀ (by norm_num) h8
    norm_num at this ⊢; exact this
  have hxi : |x| < 2 ^ f := by
    unfold rv at hx
    rw [abs_div, abs_of_pos hpr, div_le_iff₀ hpr] at hx
    have : (|x| : ℝ) < 2 ^ f := by linarith
    exact_mod_cast this
  have hxb := abs_lt.1 hxi
  have hS : Storable (N16 I f) x := in16 (by omega) (by omega)
  have hPS : Storable (N16 I f) pi := in16 (by omega) (by omega)
  have hH : Int.tdiv pi 2 = pi / 2 := Int.tdiv_eq_ediv_of_nonneg p1.le
  have hHS : Storable (N16 I f) (pi / 2) := in16 (by omega) (by omega)
  have hHr : |rv (N16 I f) (pi / 2) - π / 2| ≤ 1.25 * uR (N16 I f) := by
    have a1 : (2 : ℝ) * ((pi / 2 : Int) : ℝ) ≤ pi := by exact_mod_cast (by omega : 2 * (pi / 2) ≤ pi)
    have a2 : (pi : ℝ) ≤ 2 * ((pi / 2 : Int) : ℝ) + 1 := by exact_mod_cast (by omega : pi ≤ 2 * (pi / 2) + 1)
    have b1 : rv (N16 I f) (pi / 2) = ((pi / 2 : Int) : ℝ) * uR (N16 I f) := rv_u _ _
    have b2 : rv (N16 I f) pi = (pi : ℝ) * uR (N16 I f) := rv_u _ _
    have c1 := mul_le_mul_of_nonneg_right a1 hu.le
    have c2 := mul_le_mul_of_nonneg_right a2 hu.le
    rw [b2] at p3
    rw [b1]
    rw [abs_le] at p3 ⊢
    obtain ⟨q1, q2⟩ := p3
    constructor <;> linarith
  by_cases hx0 : x = 0
  · subst hx0
    refine ⟨pi / 2, ?_, hHS, ?_⟩
    · unfold acos
      have hd : div (N16 I f) pi (2 * 2 ^ f) = .ok (pi / 2) := by
        have e : Int.tdiv (pi * 2 ^ f) (2 * 2 ^ f) = pi / 2 := by
          rw [Int.tdiv_eq_ediv_of_nonneg (mul_nonneg p1.le hp.le), Int.mul_ediv_mul_of_pos_left _ _ hp]
        have := sg.div_ok rfl hPS (by omega : (2 * 2 ^ f : Int) ≠ 0) (by show i16.InRange (Int.tdiv (pi * 2 ^ f) (2 * 2 ^ f)); rw [e]; exact hHS)
        rw [this]; exact congrArg _ e
      rw [epi, Res.bind_ok, sg.abs_ok hS (by show (i16.lo < 0); norm_num [IntTy.lo]), Res.bind_ok, o1, om, oz, o2, if_neg (by rw [gt_iff, abs_zero]; omega),
        if_neg (by rw [eq_iff]; omega), if_neg (by rw [eq_iff]; omega), if_pos (by rw [eq_iff]), hd]
    · rw [show rv (N16 I f) 0 = 0 by simp [rv], Real.arccos_zero]
      linarith
  · obtain ⟨a, ea, aS, ha⟩ := asin_near16 h8 h1 hI x hx
    have hab : |rv (N16 I f) a| ≤ 1.7 := by
      have t1 : |Real.arcsin (rv (N16 I f) x)| ≤ π / 2 := abs_le.2 ⟨Real.neg_pi_div_two_le_arcsin _, Real.arcsin_le_pi_div_two _⟩
      have t2 := Real.pi_lt_d2
      have := abs_sub_abs_le_abs_sub (rv (N16 I f) a) (Real.arcsin (rv (N16 I f) x))
      norm_num at *
      linarith
    have hdS : Storable (N16 I f) (pi / 2 - a) := by
      have : |a| ≤ 2 * 2 ^ f := by
        unfold rv at hab
        rw [abs_div, abs_of_pos hpr, div_le_iff₀ hpr] at hab
        have : (|a| : ℝ) ≤ 2 * 2 ^ f := by linarith
        exact_mod_cast this
      have := abs_le.1 this
      exact in16 (by omega) (by omega)
    refine ⟨pi / 2 - a, ?_, hdS, ?_⟩
    · unfold acos
      have hd : divInt (N16 I f) i32 pi 2 = .ok (pi / 2) := by
        have t := trunc_spec (N16 I f) pi 2 (by norm_num)
        rw [show (pi : ℚ) / ((2 : Int) : ℚ) / 2 ^ (N16 I f).f = val (N16 I f) pi / ((2 : Int) : ℚ) by unfold val; field_simp, hH] at t
        exact C150_div_partial (N16 I f) sg.valid i32 (by unfold CInt; decide) pi 2 (pi / 2) hPS (by decide) (by norm_num) hHS t (Or.inl p1.le)
      rw [epi, Res.bind_ok, sg.abs_ok hS (by show (i16.lo < x); norm_num [IntTy.lo]; omega), Res.bind_ok, o1, om, oz, if_neg (by rw [gt_iff]; omega),
        if_neg (by rw [eq_iff]; omega), if_neg (by rw [eq_iff]; omega), if_neg (by rw [eq_iff]; exact hx0), hd, Res.bind_ok, ea, Res.bind_ok, sg.sub_ok hdS]
    · rw [rv_sub, Real.arccos]
      have e : rv (N16 I f) (pi / 2) - rv (N16 I f) a - (π / 2 - Real.arcsin (rv (N16 I f) x)) =
        (rv (N16 I f) (pi / 2) - π / 2) - (rv (N16 I f) a - Real.arcsin (rv (N16 I f) x)) := by ring
      rw [e]
      have := abs_sub (rv (N16 I f) (pi / 2) - π / 2) (rv (N16 I f) a - Real.arcsin (rv (N16 I f) x))
      linarith


/-- The intermediate types a narrow signed layout can have. -/
theorem narrow_cases {F : FxTy} (hF : F.Valid) (hs : F.T.signed = true) (hn : Narrow F) (hr : F.r = false) :
    (∃ I ∈ [i16, i32, i64, i128], F = ⟨i8, I, F.f, false⟩) ∨ (∃ I ∈ [i32, i64, i128], F = N16 I F.f) := by
  obtain ⟨⟨b, s⟩, ⟨c, s'⟩, g, r⟩ := F
  obtain ⟨-, h2, h3, h4, -⟩ := hF
  simp only at hs hr h2 h3 h4
  subst hs hr h4
  unfold Narrow at hn
  simp only at hn
  rcases hn with rfl | rfl
  · left
    rcases h2 with rfl | rfl | rfl | rfl
    · exact ⟨_, .head _, rfl⟩
    · exact ⟨_, .tail _ (.head _), rfl⟩
    · exact ⟨_, .tail _ (.tail _ (.head _)), rfl⟩
    · exact ⟨_, .tail _ (.tail _ (.tail _ (.head _))), rfl⟩
  · right
    rcases h2 with rfl | rfl | rfl | rfl
    · omega
    · exact ⟨_, .head _, rfl⟩
    · exact ⟨_, .tail _ (.head _), rfl⟩
    · exact ⟨_, .tail _ (.tail _ (.head _)), rfl⟩

/-- C180 as stated: on every 8- and 16-bit signed layout that can hold one, `asin` and `acos` of a number outside `[-1, 1]` raise `std::domain_error`. -/
def C180_statement : Prop := ∀ F : FxTy, F.Valid → F.T.signed = true → Narrow F → F.r = false → Storable F (2 ^ F.f) →
  ∀ x, Storable F x → 1 < |val F x| → asin F x = .throw .domainError ∧ acos F x = .throw .domainError

/-- C180: the lowest number passes the check on all these layouts (three bits besides the fraction), and `atan` and `asin` return it unchanged. -/
theorem C180_lowest (F : FxTy) (hF : F.Valid) (hs : F.T.signed = true) (hn : Narrow F) (hr : F.r = false) (hm : F.f + 3 ≤ F.T.bits) :
    atan F F.T.lo = .ok F.T.lo ∧ asin F F.T.lo = .ok F.T.lo ∧ ∃ pi, cPi F = .ok pi ∧ acos F F.T.lo = .ok (F.T.lo + pi / 2) := by
  have k8 : ∀ f < 6, 0 < f → ∀ I ∈ [i16, i32, i64, i128], atan ⟨i8, I, f, false⟩ i8.lo = .ok i8.lo ∧ asin ⟨i8, I, f, false⟩ i8.lo = .ok i8.lo ∧
      cPi ⟨i8, I, f, false⟩ = .ok (25735 / 2 ^ (13 - f)) ∧ acos ⟨i8, I, f, false⟩ i8.lo = .ok (i8.lo + 25735 / 2 ^ (13 - f) / 2) := by decide +kernel
  have k16 : ∀ f < 14, 0 < f → ∀ I ∈ [i32, i64, i128], atan (N16 I f) i16.lo = .ok i16.lo ∧ asin (N16 I f) i16.lo = .ok i16.lo ∧
      cPi (N16 I f) = .ok (25735 / 2 ^ (13 - f)) ∧ acos (N16 I f) i16.lo = .ok (i16.lo + 25735 / 2 ^ (13 - f) / 2) := by decide +kernel
  have h0 : 0 < F.f := hF.2.2.2.2.1
  rcases narrow_cases hF hs hn hr with ⟨I, hI, e⟩ | ⟨I, hI, e⟩
  · have hT : F.T = i8 := by rw [e]
    rw [hT] at hm ⊢
    obtain ⟨a, b, c, d⟩ := k8 F.f (by rw [show i8.bits = 8 from rfl] at hm; omega) h0 I hI
    rw [← e] at a b c d
    exact ⟨a, b, _, c, d⟩
  · have hT : F.T = i16 := by rw [e]
    rw [hT] at hm ⊢
    obtain ⟨a, b, c, d⟩ := k16 F.f (by rw [show i16.bits = 16 from rfl] at hm; omega) h0 I hI
    rw [← e] at a b c d
    exact ⟨a, b, _, c, d⟩

example : asin (N16 i32 8) (-32768) = .ok (-32768) ∧ acos (N16 i32 8) (-32768) = .ok (-32366) ∧ val (N16 i32 8) (-32768) = -128 ∧
    (N16 i32 8).Valid := by
  refine ⟨by decide +kernel, by decide +kernel, by norm_num [val], by decide⟩

theorem C180_false : ¬ C180_statement := by
  intro h
  have e := (h (N16 i32 8) (by decide) rfl (Or.inr rfl) rfl (by decide +kernel) (-32768) (by decide +kernel) (by norm_num [val])).1
  rw [show asin (N16 i32 8) (-32768) = .ok (-32768) by decide +kernel] at e
  cases e

/-- C180: every other number outside `[-1, 1]` raises the exception. -/
theorem C180_domain_partial (F : FxTy) (hF : F.Valid) (hs : F.T.signed = true) (hn : Narrow F) (hr : F.r = false) (h1 : Storable F (2 ^ F.f))
    (x : Int) (hx : Storable F x) (hlo : F.T.lo < x) (ho : 1 < |val F x|) : asin F x = .throw .domainError ∧ acos F x = .throw .domainError := by
  have sg : SG F := ⟨hF, hs, h1⟩
  have o1 : ofInt F 1 = 2 ^ F.f := by rw [ofInt_eq F hF, one_mul, IntTy.wrap_of_inRange hF.tpos h1]
  obtain ⟨pi, epi⟩ : ∃ pi, cPi F = .ok pi := by
    have k8 : ∀ f < 8, 0 < f → ∀ I ∈ [i16, i32, i64, i128], ∃ pi, cPi ⟨i8, I, f, false⟩ = .ok pi := by
      intro f h h' I hI
      have : ∀ f < 8, 0 < f → ∀ I ∈ [i16, i32, i64, i128], cPi ⟨i8, I, f, false⟩ = .ok (i8.wrap (3373259426 / 2 ^ (30 - f))) := by decide +kernel
      exact ⟨_, this f h h' I hI⟩
    have k16 : ∀ f < 16, 0 < f → ∀ I ∈ [i32, i64, i128], ∃ pi, cPi (N16 I f) = .ok pi := by
      intro f h h' I hI
      have : ∀ f < 16, 0 < f → ∀ I ∈ [i32, i64, i128], cPi (N16 I f) = .ok (i16.wrap (3373259426 / 2 ^ (30 - f))) := by decide +kernel
      exact ⟨_, this f h h' I hI⟩
    have h0 : 0 < F.f := hF.2.2.2.2.1
    have hf := hF.flt
    rcases narrow_cases hF hs hn hr with ⟨I, hI, e⟩ | ⟨I, hI, e⟩
    · have hT : F.T = i8 := by rw [e]
      rw [hT] at hf
      rw [e]; exact k8 F.f hf h0 I hI
    · have hT : F.T = i16 := by rw [e]
      rw [hT] at hf
      rw [e]; exact k16 F.f hf h0 I hI
  have hg : gt |x| (2 ^ F.f) = true := by
    rw [gt_iff]
    have hp : (0 : ℚ) < 2 ^ F.f := by positivity
    unfold val at ho
    rw [abs_div, abs_of_pos hp, lt_div_iff₀ hp, one_mul] at ho
    exact_mod_cast ho
  unfold asin acos
  rw [epi, Res.bind_ok, sg.abs_ok hx hlo, Res.bind_ok, Res.bind_ok, Res.bind_ok, o1, if_pos hg, if_pos hg]
  exact ⟨rfl, rfl⟩

example : asin (N16 i32 8) 257 = .throw .domainError ∧ acos ⟨i8, i16, 4, false⟩ (-127) = .throw .domainError ∧ 1 < |val (N16 i32 8) 257| := by
  refine ⟨by decide +kernel, by decide +kernel, by norm_num [val]⟩

/-- C180: accuracy on `[-0.7, 0.7]` for signed 16-bit storage with 8 to 13 fraction bits. -/
theorem C180_accuracy (F : FxTy) (hF : F.Valid) (hT : F.T = i16) (hr : F.r = false) (h8 : 8 ≤ F.f) (h13 : F.f ≤ 13) (x : Int) (hx : |val F x| ≤ 7 / 10) :
    (∃ r, asin F x = .ok r ∧ Storable F r ∧ |((val F r : ℚ) : ℝ) - Real.arcsin (val F x : ℚ)| ≤ 0.00045 + 10.4 * (ulp F : ℚ)) ∧
    (∃ r, acos F x = .ok r ∧ Storable F r ∧ |((val F r : ℚ) : ℝ) - Real.arccos (val F x : ℚ)| ≤ 0.00045 + 12 * (ulp F : ℚ)) := by
  have hx' : |rv F x| ≤ 0.7 := by
    rw [← rv_eq]
    have : ((|val F x| : ℚ) : ℝ) ≤ ((7 / 10 : ℚ) : ℝ) := by exact_mod_cast hx
    push_cast at this; norm_num at this ⊢; exact this
  rcases narrow_cases hF (by rw [hT]) (Or.inr (by rw [hT])) hr with ⟨I, hI, e⟩ | ⟨I, hI, e⟩
  · rw [e] at hT; cases hT
  · have a := asin_near16 h8 h13 hI x (by rw [← e]; exact hx')
    have b := acos_near16 h8 h13 hI x (by rw [← e]; exact hx')
    rw [← e] at a b
    obtain ⟨r, a1, a2, a3⟩ := a
    obtain ⟨s, b1, b2, b3⟩ := b
    exact ⟨⟨r, a1, a2, by rw [rv_eq, rv_eq, uR_eq]; exact a3⟩, ⟨s, b1, b2, by rw [rv_eq, rv_eq, uR_eq]; exact b3⟩⟩

example : asin (N16 i32 12) (2 ^ 11) = .ok 2143 ∧ acos (N16 i64 13) (2 ^ 12) = .ok 8580 ∧ |val (N16 i32 12) (2 ^ 11)| ≤ 7 / 10 := by
  refine ⟨by decide +kernel, by decide +kernel, by norm_num [val]⟩

end Eirin.Props
