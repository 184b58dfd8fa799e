import Verif.Lemmas.Sin
import Verif.Lemmas.Arctan
import Verif.Lemmas.Bits
import Verif.Props.Sqrt
import Verif.Lemmas.Quiet

/-! # Properties C41 and C42: arctangent, arcsine, arccosine. -/

namespace Eirin.Props
open Spec

/-! ## C41 -/

/-- `atan` on the absolute value, without the final sign. -/
def atanBody (F : FxTy) (x : Int) : Res Int := do
  let a0 ← fromFixedNumValue F i64 61 0x17CE62CE264A340
  let a ← intMul F i32 (-1) a0
  let b ← fromFixedNumValue F i64 61 0x5191A2296020A80
  let c ← fromFixedNumValue F i64 61 0xA7BE2BC19C39800
  let x2 ← mul F x x
  let p1 ← mul F a x2
  let p2 ← add F p1 b
  let p3 ← mul F p2 x2
  let p4 ← sub F p3 c
  let p5 ← mul F p4 x2
  let p6 ← mul F p5 x
  add F p6 x

structure AtC (F : FxTy) where
  lib : Lib F
  a0 : Int
  b : Int
  c : Int
  ea : fromFixedNumValue F i64 61 0x17CE62CE264A340 = .ok a0
  eb : fromFixedNumValue F i64 61 0x5191A2296020A80 = .ok b
  ec : fromFixedNumValue F i64 61 0xA7BE2BC19C39800 = .ok c
  ea2 : intMul F i32 (-1) a0 = .ok (-a0)
  aa : Ap F (-a0) (-(0x17CE62CE264A340 / 2 ^ 61)) 1
  ab : Ap F b (0x5191A2296020A80 / 2 ^ 61) 1
  ac : Ap F c (0xA7BE2BC19C39800 / 2 ^ 61) 1

noncomputable def atC32 : AtC fixed32 where
  lib := lib32
  a0 := 3047
  b := 10440
  c := 21471
  ea := by decide +kernel
  eb := by decide +kernel
  ec := by decide +kernel
  ea2 := by decide +kernel
  aa := ⟨by decide, by rw [rv32, ulp32, abs_le]; constructor <;> norm_num⟩
  ab := ⟨by decide, by rw [rv32, ulp32, abs_le]; constructor <;> norm_num⟩
  ac := ⟨by decide, by rw [rv32, ulp32, abs_le]; constructor <;> norm_num⟩

noncomputable def atC64 : AtC fixed64 where
  lib := lib64
  a0 := 199700839
  b := 684249364
  c := 1407129056
  ea := by decide +kernel
  eb := by decide +kernel
  ec := by decide +kernel
  ea2 := by decide +kernel
  aa := ⟨by decide, by rw [rv64, ulp64, abs_le]; constructor <;> norm_num⟩
  ab := ⟨by decide, by rw [rv64, ulp64, abs_le]; constructor <;> norm_num⟩
  ac := ⟨by decide, by rw [rv64, ulp64, abs_le]; constructor <;> norm_num⟩

noncomputable def atC_of {F : FxTy} (hF : F = fixed32 ∨ F = fixed64) : AtC F :=
  if h : F = fixed32 then h ▸ atC32 else (hF.resolve_left h) ▸ atC64

theorem atan_body {F : FxTy} (k : AtC F) {x : Int} (hS : Storable F x) (hlo : F.T.lo < x) :
    atan F x = (atanBody F |x|).bind (fun r => if x < 0 then neg F r else .ok r) := by
  have h := k.lib
  unfold atan atanBody
  rw [k.ea, k.eb, k.ec]
  simp only [Res.bind_ok, k.ea2, h.sw.abs_ok hS hlo]
  have hb : (band F.P (signbitMask F) x ≠ 0) ↔ x < 0 := by
    have := signbit_iff h.sw.valid hS
    unfold signbit at this
    rw [if_pos h.sw.sw.1] at this
    rw [← this, decide_eq_true_iff]
    have hc : band F.P (signbitMask F) x = band F.P x (signbitMask F) := by unfold band; rw [BitVec.and_comm]
    rw [hc]
  simp only [hb]
  cases mul F |x| |x| with
  | ub u => rfl
  | throw e => rfl
  | ok x2 =>
    simp only [Res.bind_ok]
    cases mul F (-k.a0) x2 with
    | ub u => rfl
    | throw e => rfl
    | ok p1 =>
      simp only [Res.bind_ok]
      cases add F p1 k.b with
      | ub u => rfl
      | throw e => rfl
      | ok p2 =>
        simp only [Res.bind_ok]
        cases mul F p2 x2 with
        | ub u => rfl
        | throw e => rfl
        | ok p3 =>
          simp only [Res.bind_ok]
          cases sub F p3 k.c with
          | ub u => rfl
          | throw e => rfl
          | ok p4 =>
            simp only [Res.bind_ok]
            cases mul F p4 x2 with
            | ub u => rfl
            | throw e => rfl
            | ok p5 =>
              simp only [Res.bind_ok]
              cases mul F p5 |x| with
              | ub u => rfl
              | throw e => rfl
              | ok p6 =>
                simp only [Res.bind_ok]
                cases add F p6 |x| with
                | ub u => rfl
                | throw e => rfl
                | ok r => rfl

/-- The body never returns the minimum on a non-negative argument. -/
theorem atanBody_gt {F : FxTy} (k : AtC F) {x r : Int} (hS : Storable F x) (h0 : 0 ≤ x) (hr : atanBody F x = .ok r) :
    F.T.lo < r ∧ Storable F r := by
  have h := k.lib
  have hm : ∀ a b : Int, Storable F a → Storable F b → ∃ z, mul F a b = .ok z ∧ Storable F z := by
    intro a b ha hb
    exact ⟨_, mul_nf h.sw.valid h.r ha hb, IntTy.wrap_inRange _ h.sw.valid.tpos⟩
  have hadd : ∀ a b z : Int, add F a b = .ok z → z = a + b ∧ Storable F z := by
    intro a b z hz
    by_cases hc : F.T.InRange (a + b)
    · rw [h.sw.add_ok hc] at hz; cases hz; exact ⟨rfl, hc⟩
    · rw [h.sw.add_ub hc] at hz; cases hz
  have hsub : ∀ a b z : Int, sub F a b = .ok z → z = a - b ∧ Storable F z := by
    intro a b z hz
    by_cases hc : F.T.InRange (a - b)
    · rw [h.sw.sub_ok hc] at hz; cases hz; exact ⟨rfl, hc⟩
    · rw [h.sw.sub_ub hc] at hz; cases hz
  have zmul : ∀ a : Int, Storable F a → mul F a 0 = .ok 0 := by
    intro a ha
    have := h.sw.mul_ok h.r ha h.sw.zero_in (by rw [mul_zero, Int.zero_ediv]; exact h.sw.zero_in)
    rw [mul_zero, Int.zero_ediv] at this; exact this
  unfold atanBody at hr
  rw [k.ea, k.eb, k.ec] at hr
  simp only [Res.bind_ok, k.ea2] at hr
  obtain ⟨x2, e2, s2⟩ := hm x x hS hS
  rw [e2, Res.bind_ok] at hr
  obtain ⟨p1, ep1, sp1⟩ := hm (-k.a0) x2 k.aa.st s2
  rw [ep1, Res.bind_ok] at hr
  cases ea : add F p1 k.b with
  | ub u => rw [ea] at hr; cases hr
  | throw e => rw [ea] at hr; cases hr
  | ok p2 =>
    rw [ea, Res.bind_ok] at hr
    obtain ⟨-, sp2⟩ := hadd _ _ _ ea
    obtain ⟨p3, ep3, sp3⟩ := hm p2 x2 sp2 s2
    rw [ep3, Res.bind_ok] at hr
    cases es : sub F p3 k.c with
    | ub u => rw [es] at hr; cases hr
    | throw e => rw [es] at hr; cases hr
    | ok p4 =>
      rw [es, Res.bind_ok] at hr
      obtain ⟨-, sp4⟩ := hsub _ _ _ es
      obtain ⟨p5, ep5, sp5⟩ := hm p4 x2 sp4 s2
      rw [ep5, Res.bind_ok] at hr
      obtain ⟨p6, ep6, sp6⟩ := hm p5 x sp5 hS
      rw [ep6, Res.bind_ok] at hr
      obtain ⟨hz, sr⟩ := hadd _ _ _ hr
      refine ⟨?_, sr⟩
      rcases eq_or_lt_of_le h0 with hx | hx
      · subst hx
        rw [zmul _ sp5] at ep6; cases ep6
        have := h.sw.zero_in.1
        have := h.sw.lo_hi; have := h.sw.d_le; have := SW.dpos (F := F)
        omega
      · have := sp6.1; omega

/-- C41: `atan` is odd, for every input but the minimum: both sides are defined together and the results are opposite. -/
theorem C41_odd (F : FxTy) (hF : F = fixed32 ∨ F = fixed64) (x : Int) (hS : Storable F x) (hlo : F.T.lo < x) :
    (∀ r, atan F x = .ok r → atan F (-x) = .ok (-r)) ∧ (∀ u, atan F x = .ub u → atan F (-x) = .ub u) := by
  have k := atC_of hF
  have h := k.lib
  have hlh := h.sw.lo_hi
  have hSn : Storable F (-x) := by obtain ⟨a, b⟩ := hS; constructor <;> omega
  have hlon : F.T.lo < -x := by have := hS.2; omega
  rw [atan_body k hS hlo, atan_body k hSn hlon, abs_neg]
  have habs : Storable F |x| := by
    rcases abs_cases x with ⟨e, _⟩ | ⟨e, _⟩ <;> rw [e] <;> assumption
  cases hb : atanBody F |x| with
  | ub u =>
    refine ⟨fun r hr => (by cases hr), fun u' hu => ?_⟩
    exact hu
  | throw e =>
    refine ⟨fun r hr => (by cases hr), fun u' hu => by cases hu⟩
  | ok r =>
    obtain ⟨rlo, rS⟩ := atanBody_gt k habs (abs_nonneg _) hb
    have hneg : neg F r = .ok (-r) := h.sw.neg_ok (by obtain ⟨a, b⟩ := rS; constructor <;> omega)
    simp only [Res.bind, hneg]
    rcases lt_trichotomy x 0 with h0 | h0 | h0
    · rw [if_pos h0, if_neg (by omega)]
      exact ⟨fun r' hr' => (by cases hr'; rw [neg_neg]), fun u hu => (by cases hu)⟩
    · subst h0
      rw [if_neg (by omega), if_neg (by omega)]
      have : r = 0 := by
        have : atanBody F 0 = .ok 0 := by
          rcases hF with rfl | rfl <;> decide +kernel
        rw [abs_zero, this] at hb; cases hb; rfl
      subst this
      exact ⟨fun r' hr' => (by cases hr'; rfl), fun u hu => (by cases hu)⟩
    · rw [if_neg (by omega), if_pos (by omega)]
      exact ⟨fun r' hr' => (by cases hr'; rfl), fun u hu => (by cases hu)⟩

theorem atanBody_ap {F : FxTy} (k : AtC F) {x : Int} (h0 : 0 ≤ x) (h1 : x ≤ 2 ^ F.f) :
    ∃ r, atanBody F x = .ok r ∧ Ap F r (Trig.atP (rv F x)) 7.6 := by
  have h := k.lib
  have hX0 : 0 ≤ rv F x := by have := (rv_le F (a := 0) (b := x)).2 h0; simpa [rv] using this
  have hX1 : rv F x ≤ 1 := by
    have := (rv_le F (a := x) (b := 1 * 2 ^ F.f)).2 (by rw [one_mul]; exact h1); rw [rv_int] at this; simpa using this
  have hxs : Storable F x := h.st (by rw [abs_le]; constructor <;> linarith)
  have hx := Ap.exact (F := F) hxs
  generalize rv F x = X at *
  have hXa : |X| ≤ 1 := by rw [abs_le]; constructor <;> linarith
  have hW0 : 0 ≤ X * X := by positivity
  have hW1 : X * X ≤ 1 := by nlinarith
  have hWa : |X * X| ≤ 1 := by rw [abs_of_nonneg hW0]; exact hW1
  obtain ⟨ex2, hx2⟩ := Ap.mul h 1 1 1 hx hx hXa hXa (by norm_num) (by norm_num)
  obtain ⟨ep1, hp1⟩ := Ap.mul h 0.0465 1 2.05 k.aa hx2 (by rw [abs_neg, abs_of_nonneg] <;> norm_num) hWa (by norm_num) (by norm_num)
  unfold Trig.atP
  generalize X * X = W at *
  have n2 : 0 ≤ -(0x17CE62CE264A340 / 2 ^ 61 : ℝ) * W + 0x5191A2296020A80 / 2 ^ 61 ∧ -(0x17CE62CE264A340 / 2 ^ 61 : ℝ) * W + 0x5191A2296020A80 / 2 ^ 61 ≤ 0.16 := by
    norm_num; constructor <;> linarith
  obtain ⟨ep2, hp2⟩ := Ap.add h (M := 0.16) hp1 k.ab (by rw [abs_of_nonneg n2.1]; exact n2.2) (by norm_num)
  generalize -(0x17CE62CE264A340 / 2 ^ 61 : ℝ) * W + 0x5191A2296020A80 / 2 ^ 61 = P2 at *
  obtain ⟨ep3, hp3⟩ := Ap.mul h 0.16 1 4.22 hp2 hx2 (by rw [abs_of_nonneg n2.1]; exact n2.2) hWa (by norm_num) (by norm_num)
  have n3 : 0 ≤ P2 * W ∧ P2 * W ≤ 0.16 := ⟨mul_nonneg n2.1 hW0, by nlinarith⟩
  have n4 : |P2 * W - 0xA7BE2BC19C39800 / 2 ^ 61| ≤ 0.33 := by rw [abs_le]; norm_num at *; constructor <;> linarith
  obtain ⟨ep4, hp4⟩ := Ap.sub h hp3 k.ac n4 (by norm_num)
  obtain ⟨ep5, hp5⟩ := Ap.mul h 0.33 1 6.57 hp4 hx2 n4 hWa (by norm_num) (by norm_num)
  have n5 : |(P2 * W - 0xA7BE2BC19C39800 / 2 ^ 61) * W| ≤ 0.33 := by
    rw [abs_mul]; have := mul_le_mul n4 hWa (abs_nonneg _) (by norm_num : (0 : ℝ) ≤ 0.33); linarith
  obtain ⟨ep6, hp6⟩ := Ap.mul h 0.33 1 7.6 hp5 hx n5 hXa (by norm_num) (by norm_num)
  have n6 : |(P2 * W - 0xA7BE2BC19C39800 / 2 ^ 61) * W * X| ≤ 0.33 := by
    rw [abs_mul]; have := mul_le_mul n5 hXa (abs_nonneg _) (by norm_num : (0 : ℝ) ≤ 0.33); linarith
  have n7 : |(P2 * W - 0xA7BE2BC19C39800 / 2 ^ 61) * W * X + X| ≤ 2 := by
    have := abs_add_le ((P2 * W - 0xA7BE2BC19C39800 / 2 ^ 61) * W * X) X; norm_num at *; linarith
  obtain ⟨er, hr⟩ := Ap.add h hp6 hx n7 (by norm_num)
  refine ⟨_, ?_, by rw [add_zero] at hr; exact hr⟩
  unfold atanBody
  rw [k.ea, k.eb, k.ec]
  simp only [Res.bind_ok, k.ea2, ex2, ep1, ep2, ep3, ep4, ep5, ep6, er]

/-- C41, accuracy with the error formula: for `|x| ≤ 1`, `atan` is within `0.00037 + 7.6 ulp` of the real arctangent. -/
theorem atan_near (F : FxTy) (hF : F = fixed32 ∨ F = fixed64) (x : Int) (hx : |rv F x| ≤ 1) :
    ∃ r, atan F x = .ok r ∧ Storable F r ∧ |rv F r - Real.arctan (rv F x)| ≤ 37 / 100000 + 7.6 * uR F := by
  have k := atC_of hF
  have h := k.lib
  have habs : |rv F x| = rv F |x| := by
    unfold rv; rw [abs_div, abs_of_pos (by positivity : (0 : ℝ) < 2 ^ F.f)]; push_cast; rfl
  have hS : Storable F x := h.st (by linarith)
  have hlo : F.T.lo < x := by
    have h2 : Storable F (x - 1) := h.st (by
      rw [rv_sub]
      have : rv F 1 = uR F := by rw [rv_u]; norm_num
      rw [this]
      have := h.u_le; have := uR_pos F
      rw [abs_le] at *; constructor <;> linarith)
    have := h2.1; omega
  have hle : |x| ≤ 2 ^ F.f := by
    have : rv F |x| ≤ rv F (1 * 2 ^ F.f) := by rw [← habs, rv_int]; simpa using hx
    have := (rv_le F).1 this; omega
  obtain ⟨r, er, hr⟩ := atanBody_ap k (abs_nonneg x) hle
  rw [← habs] at hr
  have hP := Trig.atP_near |rv F x| (abs_nonneg _) hx
  have hd : |rv F r - Real.arctan (|rv F x|)| ≤ 37 / 100000 + 7.6 * uR F := by
    have := abs_sub_le (rv F r) (Trig.atP |rv F x|) (Real.arctan (|rv F x|))
    have := hr.er
    linarith
  rw [atan_body k hS hlo, er]
  change ∃ r', (if x < 0 then neg F r else Res.ok r) = Res.ok r' ∧ _
  by_cases h0 : x < 0
  · have hx0 : rv F x < 0 := by have := (rv_lt F (a := x) (b := 0)).2 h0; simpa [rv] using this
    obtain ⟨rlo, rS⟩ := atanBody_gt k (x := |x|) (by
      have := h.sw.lo_hi; rw [abs_of_neg h0]; obtain ⟨a, b⟩ := hS; constructor <;> omega) (abs_nonneg _) er
    have hnS : F.T.InRange (-r) := by have := h.sw.lo_hi; obtain ⟨a, b⟩ := rS; constructor <;> omega
    rw [if_pos h0, h.sw.neg_ok hnS]
    refine ⟨-r, rfl, hnS, ?_⟩
    rw [abs_of_neg hx0, Real.arctan_neg] at hd
    rw [rv_neg, show -rv F r - Real.arctan (rv F x) = -(rv F r - -Real.arctan (rv F x)) by ring, abs_neg]; exact hd
  · have hx0 : 0 ≤ rv F x := by have := (rv_le F (a := 0) (b := x)).2 (by omega); simpa [rv] using this
    rw [if_neg h0]
    rw [abs_of_nonneg hx0] at hd
    exact ⟨r, rfl, hr.st, hd⟩

/-- C41, accuracy: within 0.0005 of the real arctangent for `|x| ≤ 1` (both library types). -/
theorem C41_accuracy (F : FxTy) (hF : F = fixed32 ∨ F = fixed64) (x : Int) (hx : |val F x| ≤ 1) :
    ∃ r, atan F x = .ok r ∧ Storable F r ∧ |((val F r : ℚ) : ℝ) - Real.arctan (val F x : ℚ)| ≤ 5 / 10000 := by
  have hx' : |rv F x| ≤ 1 := by rw [← rv_eq]; exact_mod_cast hx
  obtain ⟨r, h1, h2, h3⟩ := atan_near F hF x hx'
  refine ⟨r, h1, h2, ?_⟩
  rw [rv_eq, rv_eq]
  have := (atC_of hF).lib.u_le
  norm_num at *; linarith

/-- Outside `[-1, 1]` the polynomial is meaningless, and for large arguments its evaluation overflows. -/
example : atan fixed32 131072 = .ok (-96632) ∧ atan fixed32 453235 = .ub .overflow := by decide +kernel
example : atan fixed32 65536 = .ok 51458 ∧ atan fixed32 (-65536) = .ok (-51458) ∧ atan fixed64 (2 ^ 31) = .ok 1991415145 := by decide +kernel

/-! ## C42 -/

def C42_statement : Prop :=
  ∀ x, Storable fixed32 x →
    (asin fixed32 x = .throw .domainError ↔ 1 < |val fixed32 x|) ∧ (acos fixed32 x = .throw .domainError ↔ 1 < |val fixed32 x|) ∧
    (|val fixed32 x| ≤ 1 → ∃ r, asin fixed32 x = .ok r ∧ |((val fixed32 r : ℚ) : ℝ)| ≤ Real.pi / 2 ∧ acos fixed32 x = .ok (102943 - r))

/-- C42 as stated is false: `asin(0.9)` comes out below `-2`. -/
theorem C42_false : ¬ C42_statement := by
  intro h
  obtain ⟨r, h1, h2, _⟩ := (h 58982 (by decide)).2.2 (by norm_num [val, fixed32])
  have e : asin fixed32 58982 = .ok (-149351) := by decide +kernel
  rw [h1] at e; cases e
  have := Real.pi_lt_d2
  rw [rv_eq, rv32, abs_le] at h2
  norm_num at h2
  linarith [h2.1]

/-- The minimum has no absolute value, so `asin` and `acos` are undefined there rather than throwing. -/
theorem C42_lowest : asin fixed32 (-2 ^ 31) = .ub .overflow ∧ acos fixed32 (-2 ^ 31) = .ub .overflow ∧
    asin fixed64 (-2 ^ 63) = .ub .overflow ∧ acos fixed64 (-2 ^ 63) = .ub .overflow := by decide +kernel

theorem abs32 {x : Int} (hS : Storable fixed32 x) (hlo : x ≠ -2 ^ 31) : abs fixed32 x = .ok |x| := by
  have := of_in32 hS
  exact sw32.abs_ok hS (by rw [show fixed32.T.lo = -2 ^ 31 by decide]; omega)

theorem one32 : ofInt fixed32 1 = 65536 ∧ ofInt fixed32 (-1) = -65536 ∧ ofInt fixed32 0 = 0 ∧ cPi fixed32 = .ok 205887 := by decide +kernel

theorem abs_val (F : FxTy) (x : Int) : 1 < |val F x| ↔ 2 ^ F.f < |x| := by
  unfold val
  rw [abs_div, abs_of_pos (by positivity : (0 : ℚ) < 2 ^ F.f), one_lt_div (by positivity)]
  rw [show ((2 : ℚ) ^ F.f) = (((2 : Int) ^ F.f : Int) : ℚ) by push_cast; rfl, ← Int.cast_abs, Int.cast_lt]

/-- C42, domain: for every value but the minimum, `asin` and `acos` throw `domain_error` exactly when `|x| > 1`, and throw
nothing else. -/
theorem C42_domain_partial (F : FxTy) (hF : F = fixed32 ∨ F = fixed64) (x : Int) (hS : Storable F x) (hlo : F.T.lo < x) (e : Exn) :
    (asin F x = .throw e ↔ 1 < |val F x| ∧ e = .domainError) ∧ (acos F x = .throw e ↔ 1 < |val F x| ∧ e = .domainError) := by
  have k := atC_of hF
  have h := k.lib
  obtain ⟨pi, hpi⟩ : ∃ pi, cPi F = .ok pi := by
    rcases hF with rfl | rfl
    · exact ⟨205887, by decide +kernel⟩
    · exact ⟨13493037704, by decide +kernel⟩
  have e1 : ofInt F 1 = 2 ^ F.f := h.ofInt1
  rw [abs_val]
  have q1 : ¬ 2 ^ F.f < |x| → Quiet (asin F x) := by
    intro hx
    unfold asin
    rw [hpi, Res.bind_ok, h.sw.abs_ok hS hlo, Res.bind_ok, e1, if_neg (by rw [gt_iff]; exact hx)]
    exact .ite (.div _ _ _) (.ite (.bind (.neg _ _) fun _ => .div _ _ _) (.bind (.mul _ _ _) fun _ => .bind (.sub _ _ _) fun _ =>
      .bind (.sqrt _ _) fun _ => .bind (.div _ _ _) fun _ => .atan _ _))
  constructor
  · by_cases hx : 2 ^ F.f < |x|
    · unfold asin
      rw [hpi, Res.bind_ok, h.sw.abs_ok hS hlo, Res.bind_ok, e1, if_pos (by rw [gt_iff]; exact hx)]
      constructor
      · intro hc; cases hc; exact ⟨hx, rfl⟩
      · rintro ⟨_, rfl⟩; rfl
    · exact ⟨fun hc => absurd hc (q1 hx e), fun hc => absurd hc.1 hx⟩
  · by_cases hx : 2 ^ F.f < |x|
    · unfold acos
      rw [hpi, Res.bind_ok, h.sw.abs_ok hS hlo, Res.bind_ok, e1, if_pos (by rw [gt_iff]; exact hx)]
      constructor
      · intro hc; cases hc; exact ⟨hx, rfl⟩
      · rintro ⟨_, rfl⟩; rfl
    · refine ⟨fun hc => absurd hc ?_, fun hc => absurd hc.1 hx⟩
      unfold acos
      rw [hpi, Res.bind_ok, h.sw.abs_ok hS hlo, Res.bind_ok, e1, if_neg (by rw [gt_iff]; exact hx)]
      exact (Quiet.ite (.pure _) (.ite (.pure _) (.ite (.div _ _ _) (.bind (.divInt _ _ _ _) fun _ => .bind (q1 hx) fun _ => .sub _ _ _)))) e

example : asin fixed32 65537 = .throw .domainError ∧ acos fixed64 (-2 ^ 33) = .throw .domainError ∧
    asin fixed32 (-65536) = .ok (-102943) ∧ acos fixed32 65535 = .ok 2109870875 := by decide +kernel

/-- C42, end points: `asin(1) = pi/2`, `asin(-1) = -(pi/2)`, `acos(1) = 0`, `acos(-1) = pi` and `acos(0) = pi/2` with the library's
`pi`, halved with truncation. -/
theorem C42_endpoints (F : FxTy) (hF : F = fixed32 ∨ F = fixed64) (one : Int) (h1 : val F one = 1) :
    ∃ pi, cPi F = .ok pi ∧ asin F one = .ok (Int.tdiv pi 2) ∧ asin F (-one) = .ok (-Int.tdiv pi 2) ∧ acos F one = .ok 0 ∧
      acos F (-one) = .ok pi ∧ acos F 0 = .ok (Int.tdiv pi 2) := by
  have e : one = 2 ^ F.f := by
    have : val F one = val F (2 ^ F.f) := by rw [h1]; unfold val; push_cast; field_simp
    exact val_inj this
  subst e
  rcases hF with rfl | rfl
  · exact ⟨205887, by decide +kernel⟩
  · exact ⟨13493037704, by decide +kernel⟩

/-- C42: the complement identity, for every `x` with `|x| < 1`: if `asin` is defined then
`acos(x) = pi/2 - asin(x)` exactly (with the truncated half `pi`), provided the difference is representable. -/
theorem C42_complement_partial (F : FxTy) (hF : F = fixed32 ∨ F = fixed64) (x r pi : Int) (hS : Storable F x) (h1 : |val F x| < 1)
    (h0 : val F x ≠ 0) (hpi : cPi F = .ok pi) (hr : asin F x = .ok r) (hd : Storable F (Int.tdiv pi 2 - r)) :
    acos F x = .ok (Int.tdiv pi 2 - r) := by
  have k := atC_of hF
  have h := k.lib
  have e1 : ofInt F 1 = 2 ^ F.f := h.ofInt1
  have em : ofInt F (-1) = -2 ^ F.f := by rcases hF with rfl | rfl <;> decide +kernel
  have ez : ofInt F 0 = 0 := h.ofInt0
  have hx0 : x ≠ 0 := by rintro rfl; exact h0 (val_zero F)
  have hx : |x| < 2 ^ F.f := by
    have := (abs_val F x).not.1 (by linarith)
    have hne : |x| ≠ 2 ^ F.f := by
      intro he
      have : |val F x| = 1 := by
        unfold val; rw [abs_div, abs_of_pos (by positivity : (0 : ℚ) < 2 ^ F.f), ← Int.cast_abs, he]; push_cast; field_simp
      linarith
    omega
  have hb := abs_lt.1 hx
  have hlo : F.T.lo < x := by
    have := h.sw.one.2; have := h.sw.lo_hi; omega
  have hdiv : divInt F i32 pi 2 = .ok (Int.tdiv pi 2) := by
    rcases hF with rfl | rfl
    · have : pi = 205887 := by
        have e : cPi fixed32 = .ok 205887 := by decide +kernel
        rw [e] at hpi; cases hpi; rfl
      subst this; decide +kernel
    · have : pi = 13493037704 := by
        have e : cPi fixed64 = .ok 13493037704 := by decide +kernel
        rw [e] at hpi; cases hpi; rfl
      subst this; decide +kernel
  unfold acos
  rw [hpi, Res.bind_ok, h.sw.abs_ok hS hlo, Res.bind_ok, e1, em, ez, if_neg (by rw [gt_iff]; omega), if_neg (by rw [eq_iff]; omega),
    if_neg (by rw [eq_iff]; omega), if_neg (by rw [eq_iff]; omega), hdiv, Res.bind_ok, hr, Res.bind_ok, h.sw.sub_ok hd]

/-- At `-1` the identity is off by one ulp in `fixed32`: `acos(-1) = pi` but `pi/2 - asin(-1)` is one ulp less. -/
theorem C42_complement_edge : acos fixed32 (-65536) = .ok 205887 ∧ asin fixed32 (-65536) = .ok (-102943) ∧ (102943 - (-102943) : Int) = 205886 := by
  decide +kernel

/-- `asin` body for `|x| < 1`. -/
theorem asin_inner {x : Int} (hS : Storable fixed32 x) (h1 : |x| < 65536) :
    ∃ s, sqrt fixed32 (65536 - x * x / 65536) = .ok s ∧ IsRoot ((65536 - x * x / 65536) * 2 ^ 16) s ∧ 0 < s ∧ s ≤ 65536 ∧
      asin fixed32 x = atan fixed32 (Int.tdiv (x * 65536) s) := by
  have hb := abs_lt.1 h1
  obtain ⟨e1, em, e0, ep⟩ := one32
  have hsq0 : 0 ≤ x * x / 65536 := Int.ediv_nonneg (mul_self_nonneg x) (by norm_num)
  have hsq : x * x / 65536 < 65536 := by
    have : x * x < 65536 * 65536 := by nlinarith
    omega
  have hd : Storable fixed32 (65536 - x * x / 65536) := in32 (by omega) (by omega)
  obtain ⟨s, es, hs, ss⟩ := sqrt32_raw hd (by omega)
  have hs0 : 0 < s := by
    obtain ⟨_, _, h3⟩ := hs
    by_contra hc
    have : s = 0 := by omega
    subst this; omega
  have hs1 : s ≤ 65536 := by
    obtain ⟨_, h2, _⟩ := hs
    by_contra hc
    nlinarith
  refine ⟨s, es, hs, hs0, hs1, ?_⟩
  have hmul : mul fixed32 x x = .ok (x * x / 65536) := by
    have := sw32.mul_ok rfl hS hS (by rw [show ((2 : Int) ^ fixed32.f) = 65536 by rfl]; exact in32 (by omega) (by omega))
    exact this
  have hq : |Int.tdiv (x * 65536) s| ≤ |x * 65536| := by
    rw [Int.abs_eq_natAbs, Int.abs_eq_natAbs, Int.natAbs_tdiv]
    exact_mod_cast Nat.div_le_self _ _
  have hdiv : div fixed32 x s = .ok (Int.tdiv (x * 65536) s) := by
    have hle : |x * 65536| < 2 ^ 31 * 2 := by rw [abs_mul]; norm_num; omega
    have hs256 : 256 ≤ s := by
      obtain ⟨_, _, h3⟩ := hs
      by_contra hc
      have : s + 1 ≤ 256 := by omega
      have : (s + 1) ^ 2 ≤ 256 ^ 2 := by nlinarith
      omega
    have hq2 : |Int.tdiv (x * 65536) s| * 256 ≤ |x * 65536| := by
      rw [Int.abs_eq_natAbs, Int.abs_eq_natAbs, Int.natAbs_tdiv]
      have a := Nat.div_mul_le_self (x * 65536).natAbs s.natAbs
      have b : 256 ≤ s.natAbs := by omega
      have c := Nat.mul_le_mul_left ((x * 65536).natAbs / s.natAbs) b
      exact_mod_cast le_trans c a
    have := abs_le.1 (show |Int.tdiv (x * 65536) s| ≤ 2 ^ 30 by omega)
    have := sw32.div_ok rfl hS hs0.ne' (by rw [show ((2 : Int) ^ fixed32.f) = 65536 by rfl]; exact in32 (by omega) (by omega))
    exact this
  unfold asin
  rw [ep, Res.bind_ok, abs32 hS (by omega), Res.bind_ok, e1, em, if_neg (by rw [gt_iff]; omega), if_neg (by rw [eq_iff]; omega),
    if_neg (by rw [eq_iff]; omega), hmul, Res.bind_ok, sw32.sub_ok hd, Res.bind_ok, es, Res.bind_ok, hdiv, Res.bind_ok]


theorem arctan_lip (x y : ℝ) : |Real.arctan x - Real.arctan y| ≤ |x - y| := by
  have := (lipschitzWith_of_nnnorm_deriv_le (C := 1) Real.differentiable_arctan (fun x => by
    rw [← NNReal.coe_le_coe, coe_nnnorm, Real.norm_eq_abs, Real.deriv_arctan, abs_of_nonneg (by positivity)]
    rw [NNReal.coe_one, div_le_one (by positivity)]
    nlinarith [sq_nonneg x])).dist_le_mul x y
  rw [Real.dist_eq, Real.dist_eq, NNReal.coe_one, one_mul] at this
  exact this

/-- C42, accuracy where the polynomial is used inside its range: for `|x| ≤ 0.7`, `asin` is within `0.0006` of the true arcsine
(hence within `[-pi/2, pi/2]`). -/
theorem C42_accuracy_partial (x : Int) (h1 : |val fixed32 x| ≤ 7 / 10) :
    ∃ r, asin fixed32 x = .ok r ∧ |((val fixed32 r : ℚ) : ℝ) - Real.arcsin (val fixed32 x : ℚ)| ≤ 6 / 10000 ∧
      |((val fixed32 r : ℚ) : ℝ)| ≤ Real.pi / 2 := by
  have hx' : |rv fixed32 x| ≤ 7 / 10 := by
    rw [← rv_eq, ← Rat.cast_abs]
    have := (Rat.cast_le (K := ℝ)).2 h1
    push_cast at this ⊢; exact this
  have hxi : |x| < 65536 := by
    by_contra hc
    have : rv fixed32 65536 ≤ rv fixed32 |x| := (rv_le _).2 (by omega)
    rw [rv32, rv32] at this
    rw [rv32, abs_div, abs_of_pos (by norm_num : (0 : ℝ) < 65536)] at hx'
    push_cast at this
    norm_num at this; linarith
  have hb := abs_lt.1 hxi
  have hS : Storable fixed32 x := in32 (by omega) (by omega)
  obtain ⟨s, es, hs, hs0, hs1, ea⟩ := asin_inner hS hxi
  rw [ea]
  have hX2 : rv fixed32 x ^ 2 ≤ 49 / 100 := by
    have := sq_le_sq' (by linarith [neg_abs_le (rv fixed32 x)]) (le_trans (le_abs_self (rv fixed32 x)) hx')
    norm_num at *; linarith
  -- the square root
  set X := rv fixed32 x with hXd
  set S := Real.sqrt (1 - X ^ 2) with hSd
  have hS2 : S ^ 2 = 1 - X ^ 2 := Real.sq_sqrt (by linarith)
  have hSn : 0 ≤ S := Real.sqrt_nonneg _
  have hSl : 0.714 ≤ S := by
    by_contra hc; push Not at hc
    nlinarith
  have hSu : S ≤ 1 := by nlinarith [sq_nonneg X]
  have hxr : (x : ℝ) = 65536 * X := by rw [hXd, rv32]; field_simp
  obtain ⟨_, hr1, hr2⟩ := hs
  have d1 := Int.ediv_mul_le (x * x) (by norm_num : (65536 : Int) ≠ 0)
  have d2 := Int.lt_ediv_add_one_mul_self (x * x) (by norm_num : (0 : Int) < 65536)
  generalize x * x / 65536 = w at *
  set T := (s : ℝ) / 65536 with hT
  have hsr : (s : ℝ) = 65536 * T := by rw [hT]; field_simp
  have hT1 : T ^ 2 ≤ 1 - X ^ 2 + 1 / 65536 := by
    have a : (s : ℝ) ^ 2 ≤ (65536 - w) * 65536 := by have : s ^ 2 ≤ (65536 - w) * 65536 := by simpa using hr1
                                                     exact_mod_cast this
    have b : (x : ℝ) * x < (w + 1) * 65536 := by exact_mod_cast d2
    rw [hsr] at a; rw [hxr] at b
    nlinarith
  have hT2 : 1 - X ^ 2 < (T + 1 / 65536) ^ 2 := by
    have a : (65536 - w) * 65536 < ((s : ℝ) + 1) ^ 2 := by have : (65536 - w) * 65536 < (s + 1) ^ 2 := by simpa using hr2
                                                           exact_mod_cast this
    have b : (w : ℝ) * 65536 ≤ x * x := by exact_mod_cast d1
    rw [hsr] at a; rw [hxr] at b
    nlinarith
  have hTn : 0 < T := by rw [hT]; positivity
  have hl : S - 1 / 65536 < T := by
    by_contra hc; push Not at hc
    nlinarith
  have hu : T ≤ S + 0.71 / 65536 := by
    by_contra hc; push Not at hc
    norm_num at *
    nlinarith
  -- the quotient
  have hq := tdiv_near (x * 65536) hs0
  set q := Int.tdiv (x * 65536) s with hqd
  set Q := rv fixed32 q with hQd
  have hqr : (q : ℝ) = 65536 * Q := by rw [hQd, rv32]; field_simp
  have hQ : |Q - X / T| ≤ 1 / 65536 := by
    push_cast at hq
    rw [hqr, hxr, hsr] at hq
    have e : 65536 * Q * (65536 * T) - 65536 * X * 65536 = (Q - X / T) * T * (65536 * 65536) := by field_simp
    rw [e, abs_mul, abs_mul, abs_of_pos hTn, abs_of_pos (by norm_num : (0 : ℝ) < 65536 * 65536)] at hq
    have : |Q - X / T| * 65536 ≤ 1 := by
      have : (|Q - X / T| * 65536) * (T * 65536) ≤ 1 * (T * 65536) := by linarith
      exact le_of_mul_le_mul_right this (by positivity)
    linarith
  have hXT : |X / T - X / S| ≤ 1.4 / 65536 := by
    have e : X / T - X / S = X * (S - T) / (T * S) := by field_simp
    rw [e, abs_div, abs_of_pos (by positivity : 0 < T * S), div_le_iff₀ (by positivity), abs_mul]
    have a : |S - T| ≤ 1 / 65536 := by rw [abs_le]; constructor <;> linarith
    have b : |X| * |S - T| ≤ 7 / 10 * (1 / 65536) := mul_le_mul hx' a (abs_nonneg _) (by norm_num)
    have c : 0.509 ≤ T * S := by nlinarith
    nlinarith
  have hXS : |X / S| ≤ 0.981 := by
    rw [abs_div, abs_of_pos (by linarith : 0 < S), div_le_iff₀ (by linarith)]
    nlinarith
  have hQX : |Q - X / S| ≤ 2.4 / 65536 := by
    have := abs_sub_le Q (X / T) (X / S); linarith
  have hQ1 : |Q| ≤ 1 := by
    have := abs_add_le (Q - X / S) (X / S)
    rw [sub_add_cancel] at this
    norm_num at *; linarith
  obtain ⟨r, e1, _, e3⟩ := atan_near fixed32 (Or.inl rfl) q hQ1
  have hasin : Real.arcsin X = Real.arctan (X / S) :=
    Real.arcsin_eq_arctan ⟨by linarith [neg_abs_le X], by linarith [le_abs_self X]⟩
  have hacc : |rv fixed32 r - Real.arcsin X| ≤ 6 / 10000 := by
    have a := arctan_lip Q (X / S)
    have b := abs_sub_le (rv fixed32 r) (Real.arctan Q) (Real.arctan (X / S))
    rw [hasin]
    rw [ulp32] at e3
    norm_num at *; linarith
  refine ⟨r, e1, by rw [rv_eq, rv_eq]; exact hacc, ?_⟩
  rw [rv_eq]
  have b1 : |Real.arctan (X / S)| ≤ 1 := by
    have := arctan_lip (X / S) 0
    rw [Real.arctan_zero, sub_zero, sub_zero] at this
    linarith
  have := Real.pi_gt_d2
  have := abs_add_le (rv fixed32 r - Real.arctan (X / S)) (Real.arctan (X / S))
  rw [sub_add_cancel] at this
  rw [hasin] at hacc
  linarith

example : asin fixed32 45875 = .ok 50813 ∧ asin fixed32 32768 = .ok 34309 ∧ asin fixed32 (-32768) = .ok (-34309) := by decide +kernel

end Eirin.Props
