import Verif.Lemmas.Approx
import Verif.Lemmas.Poly
import Verif.Props.Pow
import Verif.Props.Convert
import Mathlib.Analysis.Complex.Exponential

/-! # Property C37: the exponential function. -/

namespace Eirin.Props
open Spec

/-- The constants of `exp_expand`, for the two library types. -/
structure ExpC (F : FxTy) where
  lib : Lib F
  a : Int
  b : Int
  c : Int
  d : Int
  e : Int
  f : Int
  ev : Int
  ea : fromFixedNumValue F i64 63 0x01C798ECC0CBC856 = .ok a
  eb : fromFixedNumValue F i64 63 0x04745859810836DA = .ok b
  ec : fromFixedNumValue F i64 63 0x15CFBB5C306F85F3 = .ok c
  ed : fromFixedNumValue F i64 63 0x3FE26186C531F98E = .ok d
  ee : fromFixedNumValue F i64 63 0x40014D4407008BB0 = .ok e
  ef : fromFixedNumValue F i64 63 0x7FFFF686446F1B43 = .ok f
  eev : cE F = .ok ev
  aa : Ap F a (0x01C798ECC0CBC856 / 2 ^ 63) 1
  ab : Ap F b (0x04745859810836DA / 2 ^ 63) 1
  ac : Ap F c (0x15CFBB5C306F85F3 / 2 ^ 63) 1
  ad : Ap F d (0x3FE26186C531F98E / 2 ^ 63) 1
  ae : Ap F e (0x40014D4407008BB0 / 2 ^ 63) 1
  af : Ap F f (0x7FFFF686446F1B43 / 2 ^ 63) 1
  evS : Storable F ev

theorem rvn32 (z : Int) : rv fixed32 z = z / 65536 := by unfold rv; norm_num [fixed32]
theorem rvn64 (z : Int) : rv fixed64 z = z / 4294967296 := by unfold rv; norm_num [fixed64]
theorem un32 : uR fixed32 = 1 / 65536 := by unfold uR; norm_num [fixed32]
theorem un64 : uR fixed64 = 1 / 4294967296 := by unfold uR; norm_num [fixed64]

noncomputable def expC32 : ExpC fixed32 where
  lib := lib32
  a := 911
  b := 2280
  c := 11167
  d := 32708
  e := 32770
  f := 65535
  ev := 178145
  ea := by decide +kernel
  eb := by decide +kernel
  ec := by decide +kernel
  ed := by decide +kernel
  ee := by decide +kernel
  ef := by decide +kernel
  eev := by decide +kernel
  aa := ⟨by decide, by rw [rvn32, un32, abs_le]; constructor <;> norm_num⟩
  ab := ⟨by decide, by rw [rvn32, un32, abs_le]; constructor <;> norm_num⟩
  ac := ⟨by decide, by rw [rvn32, un32, abs_le]; constructor <;> norm_num⟩
  ad := ⟨by decide, by rw [rvn32, un32, abs_le]; constructor <;> norm_num⟩
  ae := ⟨by decide, by rw [rvn32, un32, abs_le]; constructor <;> norm_num⟩
  af := ⟨by decide, by rw [rvn32, un32, abs_le]; constructor <;> norm_num⟩
  evS := by decide

noncomputable def expC64 : ExpC fixed64 where
  lib := lib64
  a := 59716057
  b := 149467315
  c := 731870904
  d := 2143601421
  e := 2147654280
  f := 4294962444
  ev := 11674931554
  ea := by decide +kernel
  eb := by decide +kernel
  ec := by decide +kernel
  ed := by decide +kernel
  ee := by decide +kernel
  ef := by decide +kernel
  eev := by decide +kernel
  aa := ⟨by decide, by rw [rvn64, un64, abs_le]; constructor <;> norm_num⟩
  ab := ⟨by decide, by rw [rvn64, un64, abs_le]; constructor <;> norm_num⟩
  ac := ⟨by decide, by rw [rvn64, un64, abs_le]; constructor <;> norm_num⟩
  ad := ⟨by decide, by rw [rvn64, un64, abs_le]; constructor <;> norm_num⟩
  ae := ⟨by decide, by rw [rvn64, un64, abs_le]; constructor <;> norm_num⟩
  af := ⟨by decide, by rw [rvn64, un64, abs_le]; constructor <;> norm_num⟩
  evS := by decide

/-- The real polynomial of `exp_expand`. -/
noncomputable def expP (X : ℝ) : ℝ :=
  0x7FFFF686446F1B43 / 2 ^ 63 + X * (0x40014D4407008BB0 / 2 ^ 63 + X * (0x3FE26186C531F98E / 2 ^ 63 + X * (0x15CFBB5C306F85F3 / 2 ^ 63 +
    X * (0x04745859810836DA / 2 ^ 63 + X * (0x01C798ECC0CBC856 / 2 ^ 63)))))

theorem intPart_nonneg {F : FxTy} (h : Lib F) {x : Int} (hS : Storable F x) (h0 : 0 ≤ x) :
    integralPart F x = .ok (x / 2 ^ F.f) ∧ Storable F (x / 2 ^ F.f) ∧ F.T.InRange (x / 2 ^ F.f * 2 ^ F.f) ∧
      0 ≤ x - x / 2 ^ F.f * 2 ^ F.f ∧ x - x / 2 ^ F.f * 2 ^ F.f < 2 ^ F.f := by
  have hp : (0 : Int) < 2 ^ F.f := by positivity
  have hb : F.f < F.T.bits := by rw [h.b]; rcases h.f with e | e <;> omega
  have q0 : 0 ≤ x / 2 ^ F.f := Int.ediv_nonneg h0 hp.le
  have q1 : x / 2 ^ F.f * 2 ^ F.f ≤ x := Int.ediv_mul_le x hp.ne'
  have q2 := Int.lt_ediv_add_one_mul_self x hp
  have hqx : x / 2 ^ F.f ≤ x := by nlinarith
  obtain ⟨s1, s2⟩ := hS
  have hqS : F.T.InRange (x / 2 ^ F.f) := ⟨by have := h.sw.zero_in.1; omega, by omega⟩
  refine ⟨?_, hqS, ⟨by have := h.sw.zero_in.1; have : 0 ≤ x / 2 ^ F.f * 2 ^ F.f := by positivity
                       omega, by omega⟩, by omega, by linarith⟩
  unfold integralPart
  have : signbit F x ≠ true := by rw [Ne, signbit_iff h.sw.valid ⟨s1, s2⟩]; omega
  rw [if_neg this]
  simp only [Res.pure_eq, Res.bind_ok, shr]
  have hpb : F.f < F.T.promote.bits := by
    have := h.sw.p; unfold FxTy.P at this; rw [this]; exact hb
  rw [if_pos hpb, Res.bind_ok, h.sw.wrap_ok hqS]

/-- `exp_expand` on a non-negative argument: the polynomial in the fractional part times the integer power of `e`. -/
theorem expExpand_nonneg {F : FxTy} (k : ExpC F) {x : Int} (hS : Storable F x) (h0 : 0 ≤ x) :
    ∃ p s, powInt F k.ev (x / 2 ^ F.f) = .ok p ∧ Storable F p ∧ Ap F s (expP (rv F (x - x / 2 ^ F.f * 2 ^ F.f))) 12 ∧
      expExpand F x = .ok (F.T.wrap (p * s / 2 ^ F.f)) := by
  have h := k.lib
  have hp : (0 : Int) < 2 ^ F.f := by positivity
  obtain ⟨e1, hqS, hqm, t0, t1⟩ := intPart_nonneg h hS h0
  have q0 : 0 ≤ x / 2 ^ F.f := Int.ediv_nonneg h0 hp.le
  have hqlt : x / 2 ^ F.f < 2 ^ 64 := by
    have := (h.ofR hqS).2
    have : (2 : Int) ^ (2 * F.f - 1) ≤ 2 ^ 64 := pow_le_pow_right₀ (by norm_num) (by rcases h.f with e | e <;> omega)
    omega
  obtain ⟨p, ep, pS⟩ := C35_defined F h.sw.valid h.r k.ev _ k.evS q0 hqlt
  have htS : Storable F (x - x / 2 ^ F.f * 2 ^ F.f) := ⟨by have := h.sw.zero_in.1; omega, by have := h.sw.d_le; omega⟩
  have e2 : subIntAssign F x (x / 2 ^ F.f) = .ok (x - x / 2 ^ F.f * 2 ^ F.f) := h.sw.subInt_ok hqm htS
  generalize x - x / 2 ^ F.f * 2 ^ F.f = t at *
  have hX := Ap.exact (F := F) htS
  have hX0 : 0 ≤ rv F t := by have := (rv_le F (a := 0) (b := t)).2 t0; simpa [rv] using this
  have hX1 : rv F t ≤ 1 := by
    have := (rv_le F (a := t) (b := 1 * 2 ^ F.f)).2 (by rw [one_mul]; exact t1.le); rw [rv_int] at this; simpa using this
  generalize hXd : rv F t = X at *
  have hXa : |X| ≤ 1 := by rw [abs_le]; constructor <;> linarith
  have pos : ∀ v m c m' : ℝ, 0 ≤ v → v ≤ m → 0 ≤ c → c + m ≤ m' → (|X * v| ≤ m ∧ 0 ≤ c + X * v ∧ c + X * v ≤ m' ∧ |c + X * v| ≤ m') := by
    intro v m c m' hv hm hc hm'
    have t0 : 0 ≤ X * v := by positivity
    have t1 : X * v ≤ 1 * v := mul_le_mul_of_nonneg_right hX1 hv
    have t2 : 0 ≤ c + X * v := by positivity
    refine ⟨?_, t2, by linarith, ?_⟩
    · rw [abs_of_nonneg t0]; linarith
    · rw [abs_of_nonneg t2]; linarith
  obtain ⟨em1, hm1⟩ := Ap.mul h 1 0.014 2 hX k.aa hXa (by rw [abs_of_nonneg] <;> norm_num) (by norm_num) (by norm_num)
  obtain ⟨-, n1, n1', n1a⟩ := pos (0x01C798ECC0CBC856 / 2 ^ 63) 0.014 (0x04745859810836DA / 2 ^ 63) 0.05 (by norm_num) (by norm_num) (by norm_num) (by norm_num)
  obtain ⟨es1, hs1⟩ := Ap.add h k.ab hm1 n1a (by norm_num)
  obtain ⟨em2, hm2⟩ := Ap.mul h 1 0.05 (4 + 1/100) hX hs1 hXa n1a (by norm_num) (by norm_num)
  obtain ⟨-, n2, n2', n2a⟩ := pos _ 0.05 (0x15CFBB5C306F85F3 / 2 ^ 63) 0.23 n1 n1' (by norm_num) (by norm_num)
  obtain ⟨es2, hs2⟩ := Ap.add h k.ac hm2 n2a (by norm_num)
  obtain ⟨em3, hm3⟩ := Ap.mul h 1 0.23 (6 + 2/100) hX hs2 hXa n2a (by norm_num) (by norm_num)
  obtain ⟨-, n3, n3', n3a⟩ := pos _ 0.23 (0x3FE26186C531F98E / 2 ^ 63) 0.8 n2 n2' (by norm_num) (by norm_num)
  obtain ⟨es3, hs3⟩ := Ap.add h k.ad hm3 n3a (by norm_num)
  obtain ⟨em4, hm4⟩ := Ap.mul h 1 0.8 (8 + 3/100) hX hs3 hXa n3a (by norm_num) (by norm_num)
  obtain ⟨-, n4, n4', n4a⟩ := pos _ 0.8 (0x40014D4407008BB0 / 2 ^ 63) 1.4 n3 n3' (by norm_num) (by norm_num)
  obtain ⟨es4, hs4⟩ := Ap.add h k.ae hm4 n4a (by norm_num)
  obtain ⟨em5, hm5⟩ := Ap.mul h 1 1.4 (10 + 4/100) hX hs4 hXa n4a (by norm_num) (by norm_num)
  obtain ⟨-, n5, n5', n5a⟩ := pos _ 1.4 (0x7FFFF686446F1B43 / 2 ^ 63) 2.5 n4 n4' (by norm_num) (by norm_num)
  obtain ⟨es5, hs5⟩ := Ap.add h k.af hm5 n5a (by norm_num)
  refine ⟨p, _, ep, pS, hs5.mono (by norm_num), ?_⟩
  unfold expExpand
  simp only [e1, e2, k.ea, k.eb, k.ec, k.ed, k.ee, k.ef, k.eev, ep, em1, es1, em2, es2, em3, es3, em4, es4, em5, es5, Res.bind_ok]
  exact mul_nf h.sw.valid h.r pS hs5.st

theorem expP_near (X : ℝ) (h0 : 0 ≤ X) (h1 : X ≤ 1) : |expP X - (Real.exp X - X / 2)| ≤ 5 / 100000 := by
  have hi := Real.exp_bound' h0 h1 (n := 9) (by norm_num)
  have lo := Real.sum_le_exp_of_nonneg h0 9
  simp only [Finset.sum_range_succ, Finset.sum_range_zero] at hi lo
  norm_num [Nat.factorial] at hi lo
  have c1 := Poly.check_sound 12 [29442279206188210539663360, 23934591742478415667200000, -544560666042439389772800000, 2250357798550220593113600000,
    -4136519776654649184998400000, 3355917218479758242903040000, -836744311183465261301760000, -119534901597637894471680000,
    -14941862699704736808960000, -1844674407370955161600000] (by decide +kernel) X h0 h1
  have c2 := Poly.check_sound 12 [30803311199021288274063360, -23934591742478415667200000, 544560666042439389772800000, -2250357798550220593113600000,
    4136519776654649184998400000, -3355917218479758242903040000, 836744311183465261301760000, 119534901597637894471680000, 14941862699704736808960000, 0]
    (by decide +kernel) X h0 h1
  simp only [Poly.pe] at c1 c2
  push_cast at c1 c2
  unfold expP
  norm_num
  rw [abs_le]
  constructor <;> nlinarith

/-- C37: `exp(0) = 1`, in every type that can represent 1. -/
theorem C37_zero (F : FxTy) (hF : F.Valid) (h1 : Representable F 1) : ∃ r, exp F 0 = .ok r ∧ val F r = 1 := by
  obtain ⟨z, hz1, hz2⟩ := h1
  have hz : z = 1 * 2 ^ F.f := val_inj (F := F) (by rw [hz2, val_int]; norm_num)
  refine ⟨z, ?_, hz2⟩
  have e0 : ofInt F 0 = 0 := by
    rw [ofInt_eq F hF, zero_mul]
    refine IntTy.wrap_of_inRange hF.tpos ⟨?_, ?_⟩
    · unfold IntTy.lo; split <;> simp
    · have : (0 : Int) < 2 ^ F.f := by positivity
      have := hz1.2; omega
  unfold exp
  rw [e0, if_pos (by rw [eq_iff]), ofInt_eq F hF, ← hz, IntTy.wrap_of_inRange hF.tpos hz1]

/-- C37: `exp` is defined (no undefined behaviour) for every non-negative argument of the two library types. -/
theorem C37_defined (F : FxTy) (hF : F = fixed32 ∨ F = fixed64) (x : Int) (hS : Storable F x) (h0 : 0 ≤ x) : ∃ r, exp F x = .ok r ∧ Storable F r := by
  have k : ExpC F := by
    by_cases h : F = fixed32
    · exact h ▸ expC32
    · exact (hF.resolve_left h) ▸ expC64
  have h := k.lib
  unfold exp
  rw [h.ofInt0, h.ofInt1]
  by_cases hx : x = 0
  · exact ⟨2 ^ F.f, by rw [if_pos (by rw [eq_iff]; exact hx)], h.sw.one⟩
  · rw [if_neg (by rw [eq_iff]; exact hx), if_neg (by rw [lt_iff]; omega)]
    obtain ⟨p, s, -, -, -, e⟩ := expExpand_nonneg k hS h0
    exact ⟨_, e, IntTy.wrap_inRange _ h.sw.valid.tpos⟩

/-- C37 as stated, for `fixed32`. -/
def C37_statement : Prop := ∀ x, Storable fixed32 x → |val fixed32 x| ≤ 1 → ∃ r, exp fixed32 x = .ok r ∧
  |((val fixed32 r : ℚ) : ℝ) - Real.exp (val fixed32 x : ℚ)| ≤ Real.exp (val fixed32 x : ℚ) / 100

/-- C37 is false of the code: the linear coefficient is half of what its comment says (`0x4001...` over `2^63` is
0.50004, not 1.00008), so `exp(0.5) = 1.3987` instead of `1.6487`. -/
theorem C37_false : ¬ C37_statement := by
  intro h
  obtain ⟨r, hr, hle⟩ := h 32768 (by decide) (by norm_num [val, fixed32])
  have e : exp fixed32 32768 = .ok 91663 := by decide +kernel
  rw [e] at hr; cases hr
  rw [rv_eq, rv_eq, rvn32, rvn32] at hle
  have lo := Real.sum_le_exp_of_nonneg (x := 1 / 2) (by norm_num) 4
  simp only [Finset.sum_range_succ, Finset.sum_range_zero] at lo
  norm_num [Nat.factorial] at lo hle
  rw [abs_le] at hle
  linarith [hle.1]

/-- C37, what holds instead on `[0, 1)`: `exp(x)` is within `5e-5 + 12 ulp` of `e^x - x/2` (both library types).
Full statement: `C37_statement`, false by `C37_false`. -/
theorem C37_unit_partial (F : FxTy) (hF : F = fixed32 ∨ F = fixed64) (x : Int) (h0 : 0 ≤ val F x) (h1 : val F x < 1) :
    ∃ r, exp F x = .ok r ∧ |((val F r : ℚ) : ℝ) - (Real.exp (val F x : ℚ) - ((val F x : ℚ) : ℝ) / 2)| ≤ 5 / 100000 + 12 * (ulp F : ℚ) := by
  have k : ExpC F := by
    by_cases h : F = fixed32
    · exact h ▸ expC32
    · exact (hF.resolve_left h) ▸ expC64
  have h := k.lib
  have hp : (0 : Int) < 2 ^ F.f := by positivity
  have x0 : 0 ≤ x := (val_le (F := F)).1 (by rw [val_zero]; exact h0)
  have x1 : x < 2 ^ F.f := by
    have : val F x < val F (1 * 2 ^ F.f) := by rw [val_int]; exact_mod_cast h1
    have := (val_lt (F := F)).1 this; omega
  simp only [rv_eq, uR_eq]
  have hu := uR_pos F
  unfold exp
  rw [h.ofInt0, h.ofInt1]
  by_cases hx : x = 0
  · refine ⟨2 ^ F.f, by rw [if_pos (by rw [eq_iff]; exact hx)], ?_⟩
    have : rv F (2 ^ F.f) = 1 := by have := rv_int F 1; rw [one_mul] at this; simpa using this
    rw [this, hx]
    simp [rv]
    positivity
  · rw [if_neg (by rw [eq_iff]; exact hx), if_neg (by rw [lt_iff]; omega)]
    have hS : Storable F x := ⟨by have := h.sw.zero_in.1; omega, by have := h.sw.d_le; omega⟩
    obtain ⟨p, s, ep, -, hs, e⟩ := expExpand_nonneg k hS x0
    have hq : x / 2 ^ F.f = 0 := Int.ediv_eq_zero_of_lt x0 x1
    rw [hq] at ep hs
    have : p = 2 ^ F.f := by
      unfold powInt at ep
      rw [h.ofInt0, h.ofInt1] at ep
      split at ep
      · simp at ep; exact ep.symm
      · rw [if_neg (by norm_num), powPosLoop, if_neg (by simp)] at ep
        cases ep; rfl
    rw [this, Int.mul_ediv_cancel_left _ hp.ne', h.sw.wrap_ok hs.st] at e
    refine ⟨s, e, ?_⟩
    have h2 := hs.er
    rw [zero_mul, sub_zero] at h2
    have hX0 : 0 ≤ rv F x := by have := (rv_le F (a := 0) (b := x)).2 x0; simpa [rv] using this
    have hX1 : rv F x ≤ 1 := by
      have := (rv_le F (a := x) (b := 1 * 2 ^ F.f)).2 (by omega); rw [rv_int] at this; simpa using this
    have h3 := expP_near _ hX0 hX1
    have := abs_sub_le (rv F s) (expP (rv F x)) (Real.exp (rv F x) - rv F x / 2)
    linarith

/-- C37: for a negative argument (but the minimum), `exp(x)` is `1 / exp(-x)` truncated, whenever that is a non-zero
divisor and the quotient fits. -/
theorem C37_negative (F : FxTy) (hF : F = fixed32 ∨ F = fixed64) (x y r : Int) (hS : Storable F x) (h0 : x < 0) (hlo : F.T.lo < x)
    (hy : exp F (-x) = .ok y) (hy0 : val F y ≠ 0) (hr : IsTrunc F (1 / val F y) r) (hrS : Storable F r) : exp F x = .ok r := by
  have h : Lib F := by rcases hF with rfl | rfl; exacts [lib32, lib64]
  have hn : F.T.InRange (-x) := by have := h.sw.lo_hi; obtain ⟨a, b⟩ := hS; constructor <;> omega
  have hy0' : y ≠ 0 := fun hh => hy0 (by rw [hh, val_zero])
  unfold exp at hy ⊢
  rw [h.ofInt0, h.ofInt1] at hy ⊢
  rw [if_neg (by rw [eq_iff]; omega), if_neg (by rw [lt_iff]; omega)] at hy
  rw [if_neg (by rw [eq_iff]; omega), if_pos (by rw [lt_iff]; omega), h.sw.neg_ok hn, Res.bind_ok, hy, Res.bind_ok]
  have ht := trunc_spec F (2 ^ F.f * 2 ^ F.f) y hy0'
  have hyq : (y : ℚ) ≠ 0 := by exact_mod_cast hy0'
  have e : ((2 ^ F.f * 2 ^ F.f : Int) : ℚ) / y / 2 ^ F.f = 1 / val F y := by
    unfold val; push_cast; field_simp
  rw [e] at ht
  have hu := isTrunc_unique ht hr
  rw [h.sw.div_ok h.r h.sw.one hy0' (by rw [hu]; exact hrS), hu]

example : exp fixed32 0 = .ok 65536 ∧ exp fixed32 65536 = .ok 178142 ∧ exp fixed32 32768 = .ok 91663 ∧ exp fixed32 (-32768) = .ok 46856 := by decide +kernel

end Eirin.Props
