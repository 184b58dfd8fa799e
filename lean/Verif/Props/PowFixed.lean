import Verif.Props.Exp
import Verif.Props.Log
import Mathlib.Analysis.SpecialFunctions.Pow.Real

/-! # C77: `pow(fixed, fixed)` -/

namespace Eirin.Props
open Spec

/-- C77: full statement: a zero base, agreement with the integer power for integral exponents, and accuracy for bases from 1 on. -/
def C77_statement : Prop :=
  (∀ e, Storable fixed32 e → powFixed fixed32 0 e = .ok (if e = 0 then 65536 else 0)) ∧
  (∀ b n p : Int, Storable fixed32 b → Storable fixed32 (n * 65536) → powInt fixed32 b n = .ok p →
    powFixed fixed32 b (n * 65536) = .ok p) ∧
  (∀ b e : Int, Storable fixed32 b → Storable fixed32 e → 1 ≤ val fixed32 b → 0 ≤ val fixed32 e →
    ((val fixed32 b : ℚ) : ℝ) ^ ((val fixed32 e : ℚ) : ℝ) ≤ 100 →
    ∃ r, powFixed fixed32 b e = .ok r ∧
      |((val fixed32 r : ℚ) : ℝ) - ((val fixed32 b : ℚ) : ℝ) ^ ((val fixed32 e : ℚ) : ℝ)| ≤ 1 / 100)

/-- C77 is false of the code: `pow(-2, 2)` as fixed-point numbers terminates the program, although the integer power is 4. -/
theorem C77_false : ¬ C77_statement := by
  rintro ⟨_, h, _⟩
  have h1 := h (-131072) 2 262144 (by decide +kernel) (by decide +kernel) (by decide +kernel)
  have h2 : powFixed fixed32 (-131072) (2 * 65536) = .throw .terminate := by decide +kernel
  rw [h2] at h1; cases h1

/-- C77, the accuracy half alone is false as well: `pow(2, 0.5)` is 1.24, not 1.41. -/
theorem C77_accuracy_false : powFixed fixed32 131072 32768 = .ok 81322 ∧
    |((val fixed32 81322 : ℚ) : ℝ) - (2 : ℝ) ^ ((1 : ℝ) / 2)| > 17 / 100 := by
  refine ⟨by decide +kernel, ?_⟩
  have hv : ((val fixed32 81322 : ℚ) : ℝ) = 81322 / 65536 := by
    have : val fixed32 81322 = 81322 / 65536 := by norm_num [val, fixed32]
    rw [this]; push_cast; rfl
  rw [hv, ← Real.sqrt_eq_rpow]
  have : (1.4142 : ℝ) ≤ Real.sqrt 2 := by
    apply Real.le_sqrt_of_sq_le; norm_num
  rw [gt_iff_lt, lt_abs]
  right; norm_num at this ⊢; linarith

/-- C77: a zero base gives 0, and 1 for exponent 0 (both library types). -/
theorem C77_zero (F : FxTy) (hF : F = fixed32 ∨ F = fixed64) (e : Int) :
    ∃ r, powFixed F 0 e = .ok r ∧ val F r = if val F e = 0 then 1 else 0 := by
  have h : Lib F := by rcases hF with rfl | rfl; exacts [lib32, lib64]
  unfold powFixed powFixedBody
  rw [h.ofInt0, h.ofInt1, if_pos (by rw [eq_iff])]
  by_cases he : e = 0
  · subst he
    refine ⟨2 ^ F.f, by rw [if_pos (by rw [eq_iff])]; rfl, ?_⟩
    rw [if_pos (val_zero F)]
    have := val_int F 1; rw [one_mul] at this; rw [this]; norm_num
  · refine ⟨0, by rw [if_neg (by rw [eq_iff]; exact he)]; rfl, ?_⟩
    rw [if_neg (fun h => he (val_inj (F := F) (by rw [h, val_zero]))), val_zero]

example : powFixed fixed64 0 (-5) = .ok 0 ∧ powFixed fixed64 0 0 = .ok (2 ^ 32) := by decide +kernel

/-- The integer part of the exponent and what is left, for a storable exponent. -/
theorem powSplit {F : FxTy} (h : Lib F) {e : Int} (he : Storable F e) :
    cdiv F.C e (fractionMultiplier F) = .ok (Int.tdiv e (2 ^ F.f)) ∧ F.T.InRange (Int.tdiv e (2 ^ F.f)) ∧
      subIntAssign F e (Int.tdiv e (2 ^ F.f)) = .ok (e - Int.tdiv e (2 ^ F.f) * 2 ^ F.f) ∧
      F.T.InRange (e - Int.tdiv e (2 ^ F.f) * 2 ^ F.f) := by
  have hp : (0 : Int) < 2 ^ F.f := by positivity
  obtain ⟨t1, t2⟩ := tdiv_mul_spec e hp
  have h0 := h.sw.zero_in
  obtain ⟨s1, s2⟩ := he
  obtain ⟨z1, z2⟩ := h0
  have hm : F.T.InRange (Int.tdiv e (2 ^ F.f) * 2 ^ F.f) ∧ F.T.InRange (e - Int.tdiv e (2 ^ F.f) * 2 ^ F.f) := by
    rcases le_total 0 e with hc | hc
    · obtain ⟨a, b, c⟩ := t1 hc; exact ⟨⟨by omega, by omega⟩, ⟨by omega, by omega⟩⟩
    · obtain ⟨a, b, c⟩ := t2 hc; exact ⟨⟨by omega, by omega⟩, ⟨by omega, by omega⟩⟩
  have hq : F.T.InRange (Int.tdiv e (2 ^ F.f)) := by
    obtain ⟨⟨m1, m2⟩, _⟩ := hm
    set q := Int.tdiv e (2 ^ F.f)
    rcases le_total 0 q with hc | hc
    · exact ⟨by omega, by nlinarith⟩
    · exact ⟨by nlinarith, by omega⟩
  refine ⟨?_, hq, h.sw.subInt_ok hm.1 hm.2, hm.2⟩
  have hfm : fractionMultiplier F = 2 ^ F.f := by
    unfold fractionMultiplier
    rw [h.i]
    refine IntTy.wrap_of_inRange (by rcases h.f with e | e <;> simp only [e] <;> norm_num) ⟨?_, ?_⟩
    · rcases h.f with e | e <;> simp only [IntTy.lo, e] <;> norm_num
    · rcases h.f with e | e <;> simp only [IntTy.hi, e] <;> norm_num
  unfold cdiv
  rw [hfm, if_neg hp.ne', if_neg]
  rintro ⟨_, hn⟩
  apply hn
  obtain ⟨q1, q2⟩ := hq
  rw [h.sw.lo_eq, h.b] at q1
  rw [h.sw.hi_eq, h.b] at q2
  have hC : F.C = ⟨4 * F.f, true⟩ := by
    unfold FxTy.C
    have hT : F.T = ⟨2 * F.f, true⟩ := by
      have h1 := h.b; have h2 := h.sw.sg
      cases hT : F.T; rw [hT] at h1 h2; simp only at h1 h2; rw [h1, h2]
    rw [h.i, hT]
    rcases h.f with e | e <;> simp only [e] <;> rfl
  rw [hC]
  have hle : (2 : Int) ^ (2 * F.f - 1) ≤ 2 ^ (4 * F.f - 1) := pow_le_pow_right₀ (by norm_num) (by omega)
  refine ⟨?_, ?_⟩
  · simp only [IntTy.lo, if_true]; omega
  · simp only [IntTy.hi, if_true]; omega

/-- C77: a negative base with a non-negative exponent always terminates the program: the logarithm throws inside a `noexcept` function,
even when the exponent is an integer. -/
theorem C77_negative_base (F : FxTy) (hF : F = fixed32 ∨ F = fixed64) (b e : Int) (hb : Storable F b) (he : Storable F e)
    (hb0 : val F b < 0) (he0 : 0 ≤ val F e) : powFixed F b e = .throw .terminate := by
  have h : Lib F := by rcases hF with rfl | rfl; exacts [lib32, lib64]
  have hp : (0 : Int) < 2 ^ F.f := by positivity
  have hb' : b < 0 := (val_lt (F := F)).1 (by rw [val_zero]; exact hb0)
  have he' : 0 ≤ e := (val_le (F := F)).1 (by rw [val_zero]; exact he0)
  obtain ⟨c1, c2, c3, c4⟩ := powSplit h he
  have q0 : 0 ≤ Int.tdiv e (2 ^ F.f) := Int.tdiv_nonneg he' hp.le
  have hqlt : Int.tdiv e (2 ^ F.f) < 2 ^ 64 := by
    have := (h.ofR c2).2
    have : (2 : Int) ^ (2 * F.f - 1) ≤ 2 ^ 64 := pow_le_pow_right₀ (by norm_num) (by rcases h.f with e | e <;> omega)
    omega
  obtain ⟨p, ep, _⟩ := C35_defined F h.sw.valid h.r b _ hb q0 hqlt
  have hl := ((C34_log_domain F hF b hb).1 hb0.le).1
  unfold powFixed powFixedBody
  rw [h.ofInt0, if_neg (by rw [eq_iff]; omega), c1]
  simp only [Res.bind_ok]
  rw [h.sw.wrap_ok c2, c3]
  simp only [Res.bind_ok]
  rw [ep]
  simp only [Res.bind_ok]
  rw [hl]
  rfl

example : Storable fixed32 (-131072) ∧ val fixed32 (-131072) < 0 ∧ 0 ≤ val fixed32 (3 * 65536) := by
  refine ⟨by decide +kernel, ?_, ?_⟩ <;> norm_num [val, fixed32]

theorem mul_one_raw {F : FxTy} (h : Lib F) {p : Int} (hp : Storable F p) : mul F p (2 ^ F.f) = .ok p := by
  have hpos : (0 : Int) < 2 ^ F.f := by positivity
  have h1 : F.T.InRange (2 ^ F.f) := by
    have := h.small_mul (k := 1) (by have := h.p15; omega) (by have := h.p15; omega)
    rwa [one_mul] at this
  have e : p * 2 ^ F.f / 2 ^ F.f = p := Int.mul_ediv_cancel _ hpos.ne'
  rw [h.sw.mul_ok h.r hp h1 (by rw [e]; exact hp), e]

/-- Every result of the integer power is storable. -/
theorem powInt_storable {F : FxTy} (h : Lib F) {b n p : Int} (hb : Storable F b) (hp : powInt F b n = .ok p) : Storable F p := by
  have hm : ∀ x y z, mulAssign F x y = .ok z → Storable F z := by
    intro x y z hz
    unfold mulAssign at hz
    rw [if_neg (by rw [h.r]; simp)] at hz
    cases h1 : arith F.C (x * y) with
    | ok a =>
      rw [h1, Res.bind_ok] at hz
      cases h2 : shr F.C a F.f with
      | ok c => rw [h2, Res.bind_ok] at hz; cases hz; exact IntTy.wrap_inRange _ h.sw.valid.tpos
      | ub _ => rw [h2] at hz; cases hz
      | throw _ => rw [h2] at hz; cases hz
    | ub _ => rw [h1] at hz; cases hz
    | throw _ => rw [h1] at hz; cases hz
  have hd : ∀ x y z, divAssign F x y = .ok z → Storable F z := by
    intro x y z hz
    unfold divAssign at hz
    rw [if_neg (by rw [h.r]; simp)] at hz
    cases h1 : shl F.I x F.f with
    | ok a =>
      rw [h1, Res.bind_ok] at hz
      cases h2 : cdiv F.C a y with
      | ok c => rw [h2, Res.bind_ok] at hz; cases hz; exact IntTy.wrap_inRange _ h.sw.valid.tpos
      | ub _ => rw [h2] at hz; cases hz
      | throw _ => rw [h2] at hz; cases hz
    | ub _ => rw [h1] at hz; cases hz
    | throw _ => rw [h1] at hz; cases hz
  have pos : ∀ n e i res r, Storable F res → powPosLoop F n e i res = .ok r → Storable F r := by
    intro n
    induction n with
    | zero => intro e i res r _ hr; cases hr
    | succ n ih =>
      intro e i res r hres hr
      unfold powPosLoop at hr
      split at hr
      · split at hr
        · cases h1 : mulAssign F res i with
          | ok a =>
            rw [h1, Res.bind_ok] at hr
            cases h2 : mulAssign F i i with
            | ok c => rw [h2] at hr; simp only [Res.bind_ok] at hr; exact ih _ _ _ _ (hm _ _ _ h1) hr
            | ub _ => rw [h2] at hr; cases hr
            | throw _ => rw [h2] at hr; cases hr
          | ub _ => rw [h1] at hr; cases hr
          | throw _ => rw [h1] at hr; cases hr
        · rw [Res.pure_eq, Res.bind_ok] at hr
          cases h2 : mulAssign F i i with
          | ok c => rw [h2] at hr; simp only [Res.bind_ok] at hr; exact ih _ _ _ _ hres hr
          | ub _ => rw [h2] at hr; cases hr
          | throw _ => rw [h2] at hr; cases hr
      · cases hr; exact hres
  have ngl : ∀ n e i res r, Storable F res → powNegLoop F n e i res = .ok r → Storable F r := by
    intro n
    induction n with
    | zero => intro e i res r _ hr; cases hr
    | succ n ih =>
      intro e i res r hres hr
      unfold powNegLoop at hr
      split at hr
      · split at hr
        · cases h1 : divAssign F res i with
          | ok a =>
            rw [h1, Res.bind_ok] at hr
            cases h2 : mulAssign F i i with
            | ok c => rw [h2] at hr; simp only [Res.bind_ok] at hr; exact ih _ _ _ _ (hd _ _ _ h1) hr
            | ub _ => rw [h2] at hr; cases hr
            | throw _ => rw [h2] at hr; cases hr
          | ub _ => rw [h1] at hr; cases hr
          | throw _ => rw [h1] at hr; cases hr
        · rw [Res.pure_eq, Res.bind_ok] at hr
          cases h2 : mulAssign F i i with
          | ok c => rw [h2] at hr; simp only [Res.bind_ok] at hr; exact ih _ _ _ _ hres hr
          | ub _ => rw [h2] at hr; cases hr
          | throw _ => rw [h2] at hr; cases hr
      · cases hr; exact hres
  have h1 : Storable F (2 ^ F.f) := by
    have := h.small_mul (k := 1) (by have := h.p15; omega) (by have := h.p15; omega)
    rwa [one_mul] at this
  unfold powInt at hp
  rw [h.ofInt0, h.ofInt1] at hp
  split at hp
  · split at hp
    · cases hp; exact h1
    · cases hp; exact h.sw.zero_in
  · split at hp
    · exact ngl _ _ _ _ _ h1 hp
    · exact pos _ _ _ _ _ h1 hp

/-- C77 for a positive base and an integral exponent: exactly the integer power (and undefined only where that is).
Full statement: `C77_statement`; missing (false): negative bases (`C77_negative_base`) and accuracy at fractional exponents. -/
theorem C77_integral_partial (F : FxTy) (hF : F = fixed32 ∨ F = fixed64) (b n : Int) (hb : Storable F b) (hb0 : 0 < val F b)
    (hn : Storable F (n * 2 ^ F.f)) :
    (∀ p, powInt F b n = .ok p → powFixed F b (n * 2 ^ F.f) = .ok p) ∧ (∀ u, powInt F b n = .ub u → powFixed F b (n * 2 ^ F.f) = .ub u) := by
  have h : Lib F := by rcases hF with rfl | rfl; exacts [lib32, lib64]
  have hp : (0 : Int) < 2 ^ F.f := by positivity
  have hb' : 0 < b := (val_lt (F := F)).1 (by rw [val_zero]; exact hb0)
  obtain ⟨c1, c2, c3, c4⟩ := powSplit h hn
  have hq : Int.tdiv (n * 2 ^ F.f) (2 ^ F.f) = n := Int.mul_tdiv_cancel _ hp.ne'
  rw [hq, sub_self] at c3
  rw [hq] at c1 c2
  obtain ⟨⟨l, hl, hlS⟩, _⟩ := (C34_log_domain F hF b hb).2 hb0
  have hm : mul F 0 l = .ok 0 := by
    have := h.sw.mul_ok h.r (x := 0) (y := l) h.sw.zero_in hlS (by rw [zero_mul, Int.zero_ediv]; exact h.sw.zero_in)
    rw [this, zero_mul, Int.zero_ediv]
  have hx : exp F 0 = .ok (2 ^ F.f) := by
    unfold exp
    rw [h.ofInt0, h.ofInt1, if_pos (by rw [eq_iff])]
  unfold powFixed powFixedBody
  rw [h.ofInt0, if_neg (by rw [eq_iff]; omega), c1]
  simp only [Res.bind_ok]
  rw [h.sw.wrap_ok c2, c3]
  simp only [Res.bind_ok]
  constructor
  · intro p ep
    rw [ep]
    simp only [Res.bind_ok]
    rw [hl]
    simp only [Res.bind_ok]
    rw [hm]
    simp only [Res.bind_ok]
    rw [hx]
    simp only [Res.bind_ok]
    rw [mul_one_raw h (powInt_storable h hb ep)]
    rfl
  · intro u ep
    rw [ep]
    rfl

example : powFixed fixed32 98304 (3 * 65536) = powInt fixed32 98304 3 ∧ powInt fixed32 98304 3 = .ok 221184 ∧ Storable fixed32 (3 * 65536) := by
  decide +kernel

/-- `e^x - x/2` on `[0, 1]` changes by at most 2.3 times its argument. -/
theorem expg_lip {x y : ℝ} (hx0 : 0 ≤ x) (hx1 : x ≤ 1) (hy0 : 0 ≤ y) (hy1 : y ≤ 1) :
    |(Real.exp x - x / 2) - (Real.exp y - y / 2)| ≤ 23 / 10 * |x - y| := by
  have key : ∀ a b : ℝ, 0 ≤ a → a ≤ b → b ≤ 1 → |(Real.exp b - b / 2) - (Real.exp a - a / 2)| ≤ 23 / 10 * (b - a) := by
    intro a b ha hab hb
    have e1 := Real.exp_one_lt_d9
    have h1 : Real.exp b - Real.exp a ≤ Real.exp b * (b - a) := by
      have := Real.add_one_le_exp (a - b)
      have e2 : Real.exp a = Real.exp b * Real.exp (a - b) := by rw [← Real.exp_add]; ring_nf
      rw [e2]
      nlinarith [Real.exp_pos b]
    have h2 : Real.exp b ≤ 2.7182818286 := le_trans (Real.exp_le_exp.2 hb) e1.le
    have h3 : Real.exp a * (b - a) ≤ Real.exp b - Real.exp a := by
      have := Real.add_one_le_exp (b - a)
      have e2 : Real.exp b = Real.exp a * Real.exp (b - a) := by rw [← Real.exp_add]; ring_nf
      rw [e2]
      nlinarith [Real.exp_pos a]
    have h4 : 1 ≤ Real.exp a := Real.one_le_exp ha
    rw [abs_le]
    constructor
    · nlinarith
    · nlinarith
  rcases le_total x y with h | h
  · have := key x y hx0 h hy1
    rw [abs_sub_comm, abs_sub_comm x y, abs_of_nonneg (sub_nonneg.2 h)]
    exact this
  · have := key y x hy0 h hx1
    rw [abs_of_nonneg (sub_nonneg.2 h)]
    exact this

/-- C77, what `pow(b, e)` computes for a fractional exponent: for bases from 1 on and exponents in `[0, 1)` with `e ln b ≤ 9/10`, the
result is within `5e-5 + 49 ulp` of `b^e - (e ln b)/2`, so the error against `b^e` is half the logarithm of the result. -/
theorem C77_fraction (F : FxTy) (hF : F = fixed32 ∨ F = fixed64) (b e : Int) (hb : Storable F b) (hb1 : 1 ≤ val F b)
    (he0 : 0 ≤ val F e) (he1 : val F e < 1) (hel : ((val F e : ℚ) : ℝ) * Real.log (val F b : ℚ) ≤ 9 / 10) :
    ∃ r, powFixed F b e = .ok r ∧
      |((val F r : ℚ) : ℝ) - (((val F b : ℚ) : ℝ) ^ ((val F e : ℚ) : ℝ) - ((val F e : ℚ) : ℝ) * Real.log (val F b : ℚ) / 2)| ≤
        5 / 100000 + 49 * (ulp F : ℚ) := by
  have h : Lib F := by rcases hF with rfl | rfl; exacts [lib32, lib64]
  have hp : (0 : Int) < 2 ^ F.f := by positivity
  have hb0 : 0 < val F b := by linarith
  have hb' : 0 < b := (val_lt (F := F)).1 (by rw [val_zero]; exact hb0)
  have e0 : 0 ≤ e := (val_le (F := F)).1 (by rw [val_zero]; exact he0)
  have e1 : e < 2 ^ F.f := by
    have : val F e < val F (1 * 2 ^ F.f) := by rw [val_int]; exact_mod_cast he1
    have := (val_lt (F := F)).1 this; omega
  have he : Storable F e := ⟨by have := h.sw.zero_in.1; omega, by have := h.sw.d_le; omega⟩
  obtain ⟨c1, c2, c3, c4⟩ := powSplit h he
  have hq : Int.tdiv e (2 ^ F.f) = 0 := Int.tdiv_eq_zero_of_lt e0 e1
  rw [hq] at c1 c2 c3
  rw [zero_mul, sub_zero] at c3
  obtain ⟨l, hl, hle⟩ := C34_log_accuracy F hF b hb hb0
  obtain ⟨l', hl', hlS⟩ := ((C34_log_domain F hF b hb).2 hb0).1
  rw [hl] at hl'
  obtain rfl := Res.ok.inj hl'
  -- the logarithm is not negative
  have hone : Storable F (2 ^ F.f) := by
    have := h.small_mul (k := 1) (by have := h.p15; omega) (by have := h.p15; omega)
    rwa [one_mul] at this
  have hv1 : val F (2 ^ F.f) = 1 := by have := val_int F 1; rw [one_mul] at this; rw [this]; norm_num
  have hl0 : 0 ≤ l := by
    have z1 : log F (2 ^ F.f) = .ok 0 := by rcases hF with rfl | rfl <;> decide +kernel
    obtain ⟨a', ha', _⟩ := ((C34_log_domain F hF _ hone).2 (by rw [hv1]; norm_num)).2
    obtain ⟨b', hb'', _⟩ := ((C34_log_domain F hF b hb).2 hb0).2
    have := (C34_log_mono F hF (2 ^ F.f) b 0 l a' b' hone hb (by rw [hv1]; norm_num) (by rw [hv1]; exact hb1) z1 hl ha' hb'').1
    exact (val_le (F := F)).1 this
  -- the product
  have hml : e * l / 2 ^ F.f ≤ l := by
    have : e * l ≤ 2 ^ F.f * l := by nlinarith
    calc e * l / 2 ^ F.f ≤ 2 ^ F.f * l / 2 ^ F.f := Int.ediv_le_ediv hp this
      _ = l := Int.mul_ediv_cancel_left _ hp.ne'
  have hm0 : 0 ≤ e * l / 2 ^ F.f := Int.ediv_nonneg (mul_nonneg e0 hl0) hp.le
  have hmS : F.T.InRange (e * l / 2 ^ F.f) := ⟨by have := h.sw.zero_in.1; omega, by have := hlS.2; omega⟩
  have hm := h.sw.mul_ok h.r he hlS hmS
  obtain ⟨m, hmdef⟩ : ∃ m, m = e * l / 2 ^ F.f := ⟨_, rfl⟩
  rw [← hmdef] at hm hm0 hml hmS
  -- real estimates
  have hu := uR_pos F
  have hul := h.u_le
  simp only [rv_eq, uR_eq] at hle hel ⊢
  have hE0 : 0 ≤ rv F e := by have := (rv_le F (a := 0) (b := e)).2 e0; simpa [rv] using this
  have hE1 : rv F e ≤ 1 := by
    have := (rv_le F (a := e) (b := 1 * 2 ^ F.f)).2 (by omega); rw [rv_int] at this; simpa using this
  have hle15 : |rv F l - Real.log (rv F b)| ≤ 15 * uR F := by
    refine le_trans hle.le ?_
    split <;> push_cast <;> nlinarith
  have hmr : |rv F m - rv F e * rv F l| ≤ uR F := by
    have d1 := Int.ediv_mul_le (e * l) hp.ne'
    have d2 := Int.lt_ediv_add_one_mul_self (e * l) hp
    rw [← hmdef] at d1 d2
    have d1' : (m : ℝ) * 2 ^ F.f ≤ e * l := by exact_mod_cast d1
    have d2' : (e : ℝ) * l ≤ (m + 1) * 2 ^ F.f := by exact_mod_cast d2.le
    have hpr : (0 : ℝ) < 2 ^ F.f := by positivity
    have e1 : rv F e * rv F l = (e * l) / 2 ^ F.f / 2 ^ F.f := by unfold rv; field_simp
    rw [e1]
    unfold rv uR
    rw [← sub_div, abs_div, abs_of_pos hpr]
    apply div_le_div_of_nonneg_right _ hpr.le
    rw [abs_le]
    constructor
    · rw [neg_le_sub_iff_le_add, div_le_iff₀ hpr]; linarith
    · rw [sub_le_iff_le_add, ← sub_le_iff_le_add', le_div_iff₀ hpr]; nlinarith
  have hmL : |rv F m - rv F e * Real.log (rv F b)| ≤ 16 * uR F := by
    have t1 : |rv F e * rv F l - rv F e * Real.log (rv F b)| ≤ 15 * uR F := by
      rw [← mul_sub, abs_mul, abs_of_nonneg hE0]
      calc rv F e * |rv F l - Real.log (rv F b)| ≤ 1 * (15 * uR F) := by gcongr
        _ = _ := one_mul _
    have := abs_sub_le (rv F m) (rv F e * rv F l) (rv F e * Real.log (rv F b))
    linarith
  have hm1 : rv F m < 1 := by
    rw [abs_le] at hmL
    nlinarith [hmL.2]
  have hM0 : 0 ≤ rv F m := by have := (rv_le F (a := 0) (b := m)).2 hm0; simpa [rv] using this
  obtain ⟨x, hx, hxe⟩ := C37_unit_partial F hF m (by rw [← val_zero F]; exact val_le.2 hm0) (by
    have := hm1
    rw [← rv_eq] at this
    exact_mod_cast this)
  obtain ⟨x', hx', hxS⟩ := C37_defined F hF m hmS hm0
  rw [hx] at hx'
  obtain rfl := Res.ok.inj hx'
  have hP : powInt F b 0 = .ok (2 ^ F.f) := by
    unfold powInt
    rw [h.ofInt0, h.ofInt1, if_neg (by rw [eq_iff]; omega), if_neg (by norm_num), powPosLoop, if_neg (by simp)]
  refine ⟨x, ?_, ?_⟩
  · unfold powFixed powFixedBody
    rw [h.ofInt0, if_neg (by rw [eq_iff]; omega), c1]
    simp only [Res.bind_ok]
    rw [h.sw.wrap_ok c2, c3]
    simp only [Res.bind_ok]
    rw [hP]
    simp only [Res.bind_ok]
    rw [hl]
    simp only [Res.bind_ok]
    rw [hm]
    simp only [Res.bind_ok]
    rw [hx]
    simp only [Res.bind_ok]
    have : mul F (2 ^ F.f) x = .ok x := by
      have e : 2 ^ F.f * x / 2 ^ F.f = x := Int.mul_ediv_cancel_left _ hp.ne'
      rw [h.sw.mul_ok h.r hone hxS (by rw [e]; exact hxS), e]
    rw [this]
    rfl
  · simp only [rv_eq, uR_eq] at hxe
    have hB1 : 1 ≤ rv F b := by rw [← rv_eq]; exact_mod_cast hb1
    have hB0 : 0 < rv F b := by linarith
    have hpow : rv F b ^ rv F e = Real.exp (rv F e * Real.log (rv F b)) := by
      rw [Real.rpow_def_of_pos hB0, mul_comm]
    rw [hpow]
    have hL0 : 0 ≤ rv F e * Real.log (rv F b) := mul_nonneg hE0 (Real.log_nonneg hB1)
    have lip := expg_lip hM0 hm1.le hL0 (by linarith)
    have := abs_sub_le (rv F x) (Real.exp (rv F m) - rv F m / 2) (Real.exp (rv F e * Real.log (rv F b)) - rv F e * Real.log (rv F b) / 2)
    linarith

example : Storable fixed32 131072 ∧ 1 ≤ val fixed32 131072 ∧ 0 ≤ val fixed32 32768 ∧ val fixed32 32768 < 1 ∧
    ((val fixed32 32768 : ℚ) : ℝ) * Real.log (val fixed32 131072 : ℚ) ≤ 9 / 10 := by
  refine ⟨by decide +kernel, by norm_num [val, fixed32], by norm_num [val, fixed32], by norm_num [val, fixed32], ?_⟩
  have h1 : val fixed32 32768 = 1 / 2 := by norm_num [val, fixed32]
  have h2 : val fixed32 131072 = 2 := by norm_num [val, fixed32]
  rw [h1, h2]
  have := Real.log_two_lt_d9
  push_cast; norm_num at this ⊢; linarith

end Eirin.Props
