import Verif.Props.AsinAll
import Verif.Props.Pow

/-! # Property C177: atan and asin are odd and acos is the complement of asin, on every signed layout of 32 or 64 bits. -/

namespace Eirin.Props
open Spec Real

/-- The outcome `b` mirrors the outcome `a`: opposite results, the same undefined behaviour, the same exception. -/
def Mirror (a b : Res Int) : Prop :=
  (∀ r, a = .ok r → b = .ok (-r)) ∧ (∀ u, a = .ub u → b = .ub u) ∧ (∀ e, a = .throw e → b = .throw e)

theorem mirror_refl_of_not_ok {a : Res Int} (h : ∀ r, a ≠ .ok r) : Mirror a a :=
  ⟨fun r e => absurd e (h r), fun _ e => e, fun _ e => e⟩

theorem mirror_ok (r : Int) : Mirror (.ok r) (.ok (-r)) :=
  ⟨fun _ e => (by cases e; rfl), fun _ e => (by cases e), fun _ e => (by cases e)⟩

theorem mul_neg_neg (F : FxTy) (x : Int) : mul F (-x) (-x) = mul F x x := by
  unfold mul; rw [neg_mul_neg]

theorem mul_ok_st {F : FxTy} (hF : F.Valid) {a b z : Int} (ha : Storable F a) (hb : Storable F b) (hr : F.r = false) (e : mul F a b = .ok z) : Storable F z := by
  rw [mul_nf hF hr ha hb] at e; cases e; exact IntTy.wrap_inRange _ hF.tpos

theorem add_ok_st {F : FxTy} (h : SW F) {a b z : Int} (hz : add F a b = .ok z) : z = a + b ∧ Storable F z := by
  by_cases hc : F.T.InRange (a + b)
  · rw [h.add_ok hc] at hz; cases hz; exact ⟨rfl, hc⟩
  · rw [h.add_ub hc] at hz; cases hz

theorem sub_ok_st {F : FxTy} (h : SW F) {a b z : Int} (hz : sub F a b = .ok z) : z = a - b ∧ Storable F z := by
  by_cases hc : F.T.InRange (a - b)
  · rw [h.sub_ok hc] at hz; cases hz; exact ⟨rfl, hc⟩
  · rw [h.sub_ub hc] at hz; cases hz

/-- The polynomial of `atan` for given coefficients. -/
def atanP (F : FxTy) (a b c x : Int) : Res Int := do
  let x2 ← mul F x x
  let p1 ← mul F a x2
  let p2 ← add F p1 b
  let p3 ← mul F p2 x2
  let p4 ← sub F p3 c
  let p5 ← mul F p4 x2
  let p6 ← mul F p5 x
  add F p6 x

theorem atanP_gt {F : FxTy} (h : SW F) (hr : F.r = false) {a b c x r : Int} (ha : Storable F a) (hS : Storable F x) (h0 : 0 ≤ x)
    (e : atanP F a b c x = .ok r) : F.T.lo < r ∧ Storable F r ∧ (x = 0 → r = 0) := by
  have hm : ∀ a b : Int, Storable F a → Storable F b → ∃ z, mul F a b = .ok z ∧ Storable F z := fun a b ha hb =>
    ⟨_, mul_nf h.valid hr ha hb, IntTy.wrap_inRange _ h.valid.tpos⟩
  unfold atanP at e
  obtain ⟨x2, e2, s2⟩ := hm x x hS hS
  rw [e2, Res.bind_ok] at e
  obtain ⟨p1, ep1, sp1⟩ := hm a x2 ha s2
  rw [ep1, Res.bind_ok] at e
  cases ea : add F p1 b with
  | ub u => rw [ea] at e; cases e
  | throw x => rw [ea] at e; cases e
  | ok p2 =>
    rw [ea, Res.bind_ok] at e
    obtain ⟨-, sp2⟩ := add_ok_st h ea
    obtain ⟨p3, ep3, sp3⟩ := hm p2 x2 sp2 s2
    rw [ep3, Res.bind_ok] at e
    cases es : sub F p3 c with
    | ub u => rw [es] at e; cases e
    | throw x => rw [es] at e; cases e
    | ok p4 =>
      rw [es, Res.bind_ok] at e
      obtain ⟨-, sp4⟩ := sub_ok_st h es
      obtain ⟨p5, ep5, sp5⟩ := hm p4 x2 sp4 s2
      rw [ep5, Res.bind_ok] at e
      obtain ⟨p6, ep6, sp6⟩ := hm p5 x sp5 hS
      rw [ep6, Res.bind_ok] at e
      obtain ⟨hz, sr⟩ := add_ok_st h e
      have hp := SW.dpos (F := F)
      have hlh := h.lo_hi
      have hd := h.d_le
      rcases eq_or_lt_of_le h0 with hx | hx
      · subst hx
        have e0 := h.mul_ok hr sp5 h.zero_in (by rw [mul_zero, Int.zero_ediv]; exact h.zero_in)
        rw [mul_zero, Int.zero_ediv, ep6] at e0
        cases e0
        refine ⟨by omega, sr, fun _ => by omega⟩
      · exact ⟨by have := sp6.1; omega, sr, fun hc => by omega⟩

/-- `atan` of a number other than the minimum, once its coefficients are known. -/
theorem atan_P {F : FxTy} (h : SW F) {a0 a b c x : Int} (ea : fromFixedNumValue F i64 61 0x17CE62CE264A340 = .ok a0)
    (ea2 : intMul F i32 (-1) a0 = .ok a) (eb : fromFixedNumValue F i64 61 0x5191A2296020A80 = .ok b)
    (ec : fromFixedNumValue F i64 61 0xA7BE2BC19C39800 = .ok c) (hS : Storable F x) (hlo : F.T.lo < x) :
    atan F x = (atanP F a b c |x|).bind (fun r => if x < 0 then neg F r else .ok r) := by
  have hb : (band F.P (signbitMask F) x ≠ 0) ↔ x < 0 := by
    have := signbit_iff h.valid hS
    unfold signbit at this
    rw [if_pos h.sw.1] at this
    rw [← this, decide_eq_true_iff]
    have hc : band F.P (signbitMask F) x = band F.P x (signbitMask F) := by unfold band; rw [BitVec.and_comm]
    rw [hc]
  unfold atan atanP
  rw [ea, Res.bind_ok, ea2, Res.bind_ok, eb, Res.bind_ok, ec, Res.bind_ok, h.abs_ok hS hlo, Res.bind_ok]
  simp only [hb]
  cases mul F |x| |x| with
  | ub u => rfl
  | throw e => rfl
  | ok x2 =>
    rw [Res.bind_ok, Res.bind_ok]
    cases mul F a x2 with
    | ub u => rfl
    | throw e => rfl
    | ok p1 =>
      rw [Res.bind_ok, Res.bind_ok]
      cases add F p1 b with
      | ub u => rfl
      | throw e => rfl
      | ok p2 =>
        rw [Res.bind_ok, Res.bind_ok]
        cases mul F p2 x2 with
        | ub u => rfl
        | throw e => rfl
        | ok p3 =>
          rw [Res.bind_ok, Res.bind_ok]
          cases sub F p3 c with
          | ub u => rfl
          | throw e => rfl
          | ok p4 =>
            rw [Res.bind_ok, Res.bind_ok]
            cases mul F p4 x2 with
            | ub u => rfl
            | throw e => rfl
            | ok p5 =>
              rw [Res.bind_ok, Res.bind_ok]
              cases mul F p5 |x| with
              | ub u => rfl
              | throw e => rfl
              | ok p6 =>
                rw [Res.bind_ok, Res.bind_ok]
                cases add F p6 |x| with
                | ub u => rfl
                | throw e => rfl
                | ok r => rfl

/-- Either all coefficients of `atan` are defined, or the outcome of `atan` is the same failure for every argument. -/
theorem atan_coeffs (F : FxTy) :
    (∃ a0 a b c, fromFixedNumValue F i64 61 0x17CE62CE264A340 = .ok a0 ∧ intMul F i32 (-1) a0 = .ok a ∧
      fromFixedNumValue F i64 61 0x5191A2296020A80 = .ok b ∧ fromFixedNumValue F i64 61 0xA7BE2BC19C39800 = .ok c) ∨
    ∃ o : Res Int, (∀ r, o ≠ .ok r) ∧ ∀ x, atan F x = o := by
  cases ea : fromFixedNumValue F i64 61 0x17CE62CE264A340 with
  | ub u => exact .inr ⟨.ub u, by simp, fun x => by unfold atan; rw [ea]; rfl⟩
  | throw e => exact .inr ⟨.throw e, by simp, fun x => by unfold atan; rw [ea]; rfl⟩
  | ok a0 =>
    cases ea2 : intMul F i32 (-1) a0 with
    | ub u => exact .inr ⟨.ub u, by simp, fun x => by unfold atan; rw [ea, Res.bind_ok, ea2]; rfl⟩
    | throw e => exact .inr ⟨.throw e, by simp, fun x => by unfold atan; rw [ea, Res.bind_ok, ea2]; rfl⟩
    | ok a =>
      cases eb : fromFixedNumValue F i64 61 0x5191A2296020A80 with
      | ub u => exact .inr ⟨.ub u, by simp, fun x => by unfold atan; rw [ea, Res.bind_ok, ea2, Res.bind_ok, eb]; rfl⟩
      | throw e => exact .inr ⟨.throw e, by simp, fun x => by unfold atan; rw [ea, Res.bind_ok, ea2, Res.bind_ok, eb]; rfl⟩
      | ok b =>
        cases ec : fromFixedNumValue F i64 61 0xA7BE2BC19C39800 with
        | ub u => exact .inr ⟨.ub u, by simp, fun x => by unfold atan; rw [ea, Res.bind_ok, ea2, Res.bind_ok, eb, Res.bind_ok, ec]; rfl⟩
        | throw e => exact .inr ⟨.throw e, by simp, fun x => by unfold atan; rw [ea, Res.bind_ok, ea2, Res.bind_ok, eb, Res.bind_ok, ec]; rfl⟩
        | ok c => exact .inl ⟨a0, a, b, c, rfl, ea2, rfl, rfl⟩

theorem intMul_ok_st {F : FxTy} (hF : F.Valid) {n x z : Int} (e : intMul F i32 n x = .ok z) : Storable F z := by
  unfold intMul mulIntAssign at e
  simp only at e
  cases ha : arith (IntTy.common F.T i32) ((IntTy.common F.T i32).wrap x * (IntTy.common F.T i32).wrap n) with
  | ub u => rw [ha] at e; cases e
  | throw u => rw [ha] at e; cases e
  | ok p => rw [ha] at e; cases e; exact IntTy.wrap_inRange _ hF.tpos

/-- C177: on every signed layout of 32 or 64 bits `atan` is odd: for every argument but the minimum the outcomes at
`x` and `-x` mirror each other. -/
theorem C177_atan_odd (F : FxTy) (hF : F.Valid) (hs : SignedWide F) (hr : F.r = false) (h1 : Storable F (2 ^ F.f)) (x : Int) (hS : Storable F x)
    (hlo : x ≠ F.T.lo) : Mirror (atan F x) (atan F (-x)) := by
  have h : SW F := ⟨hF, hs, h1⟩
  have hlh := h.lo_hi
  have hS1 := hS.1
  have hS2 := hS.2
  have hl : F.T.lo < x := by omega
  have hSn : Storable F (-x) := ⟨by omega, by omega⟩
  have hln : F.T.lo < -x := by omega
  rcases atan_coeffs F with ⟨a0, a, b, c, ea, ea2, eb, ec⟩ | ⟨o, ho, hx⟩
  · rw [atan_P h ea ea2 eb ec hS hl, atan_P h ea ea2 eb ec hSn hln, abs_neg]
    have habs : Storable F |x| := by
      rcases abs_cases x with ⟨e, _⟩ | ⟨e, _⟩ <;> rw [e] <;> assumption
    cases hb : atanP F a b c |x| with
    | ub u => exact mirror_refl_of_not_ok (fun r e => by cases e)
    | throw e => exact mirror_refl_of_not_ok (fun r e => by cases e)
    | ok r =>
      obtain ⟨rlo, rS, r0⟩ := atanP_gt h hr (intMul_ok_st hF ea2) habs (abs_nonneg _) hb
      have hneg : neg F r = .ok (-r) := h.neg_ok (by obtain ⟨a, b⟩ := rS; constructor <;> omega)
      show Mirror (if x < 0 then neg F r else .ok r) (if -x < 0 then neg F r else .ok r)
      rw [hneg]
      rcases lt_trichotomy x 0 with h0 | h0 | h0
      · rw [if_pos h0, if_neg (by omega)]
        simpa using mirror_ok (-r)
      · subst h0
        have := r0 abs_zero
        subst this
        rw [if_neg (by omega), if_neg (by omega)]; exact mirror_ok 0
      · rw [if_neg (by omega), if_pos (by omega)]; exact mirror_ok r
  · rw [hx, hx]; exact mirror_refl_of_not_ok ho

theorem atan_lo {F : FxTy} (h : SW F) (r : Int) : atan F F.T.lo ≠ .ok r := by
  rcases atan_coeffs F with ⟨a0, a, b, c, ea, ea2, eb, ec⟩ | ⟨o, ho, hx⟩
  · unfold atan
    rw [ea, Res.bind_ok, ea2, Res.bind_ok, eb, Res.bind_ok, ec, Res.bind_ok, h.abs_ub rfl]
    intro e; cases e
  · rw [hx]; exact ho r

theorem wrap_neg_cases {F : FxTy} (h : SW F) (n : Int) : (F.T.wrap n = F.T.lo ∧ F.T.wrap (-n) = F.T.lo) ∨
    (F.T.wrap n ≠ F.T.lo ∧ F.T.wrap (-n) = -F.T.wrap n) := by
  have hin : F.T.InRange (F.T.wrap n) := IntTy.wrap_inRange _ h.tpos
  have hlh := h.lo_hi
  have hle := h.lo_eq
  have h2 : (2 : Int) ^ F.T.bits = 2 * 2 ^ (F.T.bits - 1) := by
    have := h.tpos
    rw [← pow_succ']; congr 1; omega
  have hlo : F.T.InRange F.T.lo := by
    have := h.d_le; have := SW.dpos (F := F); constructor <;> omega
  obtain ⟨q, hq⟩ := wrap_eq_add F.T n
  by_cases hc : F.T.wrap n = F.T.lo
  · left
    refine ⟨hc, ?_⟩
    have : F.T.wrap (-n) = F.T.wrap F.T.lo := by
      apply IntTy.wrap_congr
      rw [← hc, hq]
      have e : F.T.wrap n = -2 ^ (F.T.bits - 1) := by rw [hc, hle]
      rw [hq] at e
      refine ⟨q + 1, ?_⟩
      rw [h2] at e ⊢
      linarith
    rw [this]; exact IntTy.wrap_of_inRange h.tpos hlo
  · right
    refine ⟨hc, ?_⟩
    have hn : F.T.InRange (-F.T.wrap n) := by
      have a := hin.1; have b := hin.2; constructor <;> omega
    rw [← IntTy.wrap_of_inRange h.tpos hn]
    apply IntTy.wrap_congr
    refine ⟨q, ?_⟩
    rw [hq]; ring

theorem one_of_four {F : FxTy} (h4 : Representable F 4) : Storable F (2 ^ F.f) := by
  obtain ⟨y, sy, ey⟩ := h4
  have e : y = 4 * 2 ^ F.f := by apply val_inj (F := F); rw [ey, val_int]; norm_num
  have hp : (0 : Int) < 2 ^ F.f := by positivity
  have hl : F.T.lo ≤ 0 := by unfold IntTy.lo; split <;> [exact neg_nonpos.2 (by positivity); exact le_refl _]
  exact ⟨by omega, by have := sy.2; omega⟩

theorem ofInt_small {F : FxTy} (h : SW F) (h4 : Representable F 4) : ofInt F 1 = 2 ^ F.f ∧ ofInt F (-1) = -2 ^ F.f ∧ ofInt F 0 = 0 ∧
    ofInt F 2 = 2 * 2 ^ F.f ∧ Storable F (4 * 2 ^ F.f) := by
  have hp := SW.dpos (F := F)
  have hlh := h.lo_hi
  obtain ⟨y, sy, ey⟩ := h4
  have e : y = 4 * 2 ^ F.f := by
    apply val_inj (F := F)
    rw [ey, val_int]; norm_num
  subst e
  have hs := sy.2
  refine ⟨?_, ?_, ?_, ?_, sy⟩ <;> rw [ofInt_eq F h.valid, IntTy.wrap_of_inRange h.tpos ⟨by omega, by omega⟩] <;> ring

theorem cPi_SW {F : FxTy} (h : SW F) (hr : F.r = false) (hf : F.f < 61) (h4 : Representable F 4) :
    ∃ pi, cPi F = .ok pi ∧ Storable F pi ∧ 0 ≤ pi := by
  obtain ⟨pi, e, sp, n, -⟩ := C20_every_pi.1 F 4 h.valid hf (by have := Real.pi_lt_d2; push_cast; norm_num at *; linarith) h4
  refine ⟨pi, e, sp, ?_⟩
  obtain ⟨-, n2⟩ := n hr
  rw [rv_eq, uR_eq] at n2
  have h3 := Real.pi_gt_three
  have hu : uR F ≤ 1 := by
    unfold uR
    rw [div_le_one (by positivity)]
    exact one_le_pow₀ (by norm_num)
  have : rv F 0 < rv F pi := by rw [show rv F 0 = 0 by simp [rv]]; norm_num at *; linarith
  exact ((rv_lt _).1 this).le

theorem div_two {F : FxTy} (h : SW F) (hr : F.r = false) {y : Int} (hS : Storable F y) : div F y (2 * 2 ^ F.f) = .ok (Int.tdiv y 2) := by
  have hp := SW.dpos (F := F)
  have e : Int.tdiv (y * 2 ^ F.f) (2 * 2 ^ F.f) = Int.tdiv y 2 := Int.mul_tdiv_mul_of_pos_left _ _ hp
  rw [h.div_ok hr hS (by omega) (by rw [e]; exact h.tdiv_inRange hS (by norm_num)), e]

/-- C177: on every signed layout of 32 or 64 bits in which four is representable, `asin` is odd: for every argument but
the minimum the outcomes at `x` and `-x` mirror each other, both in the domain and outside it. -/
theorem C177_asin_odd (F : FxTy) (hF : F.Valid) (hs : SignedWide F) (hr : F.r = false) (hf : F.f < 61) (h4 : Representable F 4) (x : Int) (hS : Storable F x)
    (hlo : x ≠ F.T.lo) : Mirror (asin F x) (asin F (-x)) := by
  have h1 : Storable F (2 ^ F.f) := one_of_four h4
  have h : SW F := ⟨hF, hs, h1⟩
  have hp := SW.dpos (F := F)
  obtain ⟨o1, om, oz, o2, s4⟩ := ofInt_small h h4
  obtain ⟨pi, epi, spi, pi0⟩ := cPi_SW h hr hf h4
  have hlh := h.lo_hi
  have hS1 := hS.1
  have hS2 := hS.2
  have hl : F.T.lo < x := by omega
  have hSn : Storable F (-x) := ⟨by omega, by omega⟩
  have hln : F.T.lo < -x := by omega
  have hneg : neg F pi = .ok (-pi) := h.neg_ok (by have := spi.2; constructor <;> omega)
  have hnp : Storable F (-pi) := by have := spi.2; constructor <;> omega
  unfold asin
  rw [epi, Res.bind_ok, Res.bind_ok, h.abs_ok hS hl, h.abs_ok hSn hln, Res.bind_ok, Res.bind_ok, abs_neg, o1, om, o2]
  by_cases c1 : 2 ^ F.f < |x|
  · have g : gt |x| (2 ^ F.f) = true := by rw [gt_iff]; exact c1
    rw [if_pos g, if_pos g]
    exact mirror_refl_of_not_ok (fun r e => by cases e)
  · have g : ¬ gt |x| (2 ^ F.f) = true := by rw [gt_iff]; exact c1
    rw [if_neg g, if_neg g]
    by_cases c2 : x = 2 ^ F.f
    · rw [if_pos (by rw [eq_iff]; exact c2), if_neg (by rw [eq_iff]; omega), if_pos (by rw [eq_iff]; omega), hneg, Res.bind_ok, div_two h hr spi, div_two h hr hnp,
        Int.neg_tdiv]
      exact mirror_ok _
    · rw [if_neg (by rw [eq_iff]; exact c2)]
      by_cases c3 : x = -2 ^ F.f
      · rw [if_pos (by rw [eq_iff]; exact c3), if_pos (by rw [eq_iff]; omega), hneg, Res.bind_ok, div_two h hr spi, div_two h hr hnp, Int.neg_tdiv]
        simpa using mirror_ok (-Int.tdiv pi 2)
      · rw [if_neg (by rw [eq_iff]; exact c3), if_neg (by rw [eq_iff]; omega), if_neg (by rw [eq_iff]; omega), mul_neg_neg]
        cases mul F x x with
        | ub u => exact mirror_refl_of_not_ok (fun r e => by cases e)
        | throw u => exact mirror_refl_of_not_ok (fun r e => by cases e)
        | ok sq =>
          rw [Res.bind_ok, Res.bind_ok]
          cases sub F (2 ^ F.f) sq with
          | ub u => exact mirror_refl_of_not_ok (fun r e => by cases e)
          | throw u => exact mirror_refl_of_not_ok (fun r e => by cases e)
          | ok d =>
            rw [Res.bind_ok, Res.bind_ok]
            cases sqrt F d with
            | ub u => exact mirror_refl_of_not_ok (fun r e => by cases e)
            | throw u => exact mirror_refl_of_not_ok (fun r e => by cases e)
            | ok s =>
              rw [Res.bind_ok, Res.bind_ok, div_nf hF hr hS, div_nf hF hr hSn]
              by_cases s0 : s = 0
              · rw [if_pos s0, if_pos s0]; exact mirror_refl_of_not_ok (fun r e => by cases e)
              · rw [if_neg s0, if_neg s0, Res.bind_ok, Res.bind_ok, neg_mul, Int.neg_tdiv]
                rcases wrap_neg_cases h (Int.tdiv (x * 2 ^ F.f) s) with ⟨e1, e2⟩ | ⟨e1, e2⟩
                · rw [e1, e2]; exact mirror_refl_of_not_ok (atan_lo h)
                · rw [e2]; exact C177_atan_odd F hF hs hr h1 _ (IntTy.wrap_inRange _ h.tpos) e1

/-- C177: on the same layouts, between `-1` and `1` and away from zero, `acos` is half of the library's pi minus `asin`:
it is defined exactly when that difference can be stored. -/
theorem C177_acos_complement (F : FxTy) (hF : F.Valid) (hs : SignedWide F) (hr : F.r = false) (hf : F.f < 61) (h4 : Representable F 4) (x r : Int)
    (h0 : val F x ≠ 0) (hx : |val F x| < 1) (e : asin F x = .ok r) :
    ∃ pi, cPi F = .ok pi ∧ acos F x = if Storable F (Int.tdiv pi 2 - r) then .ok (Int.tdiv pi 2 - r) else .ub .overflow := by
  have h1 : Storable F (2 ^ F.f) := one_of_four h4
  have h : SW F := ⟨hF, hs, h1⟩
  have hp := SW.dpos (F := F)
  obtain ⟨o1, om, oz, o2, s4⟩ := ofInt_small h h4
  obtain ⟨pi, epi, spi, pi0⟩ := cPi_SW h hr hf h4
  have hlh := h.lo_hi
  have hx0 : x ≠ 0 := by rintro rfl; exact h0 (val_zero F)
  have hxi : |x| < 2 ^ F.f := by
    have : |val F x| * 2 ^ F.f = |x| := by
      unfold val; rw [abs_div, abs_of_pos (by positivity : (0 : ℚ) < 2 ^ F.f), div_mul_cancel₀ _ (by positivity)]; push_cast; rfl
    have h2 : ((|x| : Int) : ℚ) < ((2 ^ F.f : Int) : ℚ) := by
      rw [← this]; push_cast
      have : (0 : ℚ) < 2 ^ F.f := by positivity
      nlinarith
    exact_mod_cast h2
  have hb := abs_lt.1 hxi
  have hd := h.d_le
  have hS : Storable F x := ⟨by omega, by omega⟩
  refine ⟨pi, epi, ?_⟩
  unfold acos
  rw [epi, Res.bind_ok, h.abs_ok hS (by omega), Res.bind_ok, o1, om, oz, if_neg (by rw [gt_iff]; omega), if_neg (by rw [eq_iff]; omega),
    if_neg (by rw [eq_iff]; omega), if_neg (by rw [eq_iff]; omega), h.divInt_ok spi (by norm_num) (by norm_num), Res.bind_ok, e, Res.bind_ok]
  by_cases hc : Storable F (Int.tdiv pi 2 - r)
  · rw [if_pos hc, h.sub_ok hc]
  · rw [if_neg hc, h.sub_ub hc]

/-- C177: on the same layouts, for `-1 ≤ x ≤ 1` (zero included), `acos x + acos (-x)` is the library's pi or one unit in the last place below it
whenever both are defined. -/
theorem C177_acos_sum (F : FxTy) (hF : F.Valid) (hs : SignedWide F) (hr : F.r = false) (hf : F.f < 61) (h4 : Representable F 4) (x a b : Int)
    (hx : |val F x| ≤ 1) (ea : acos F x = .ok a) (eb : acos F (-x) = .ok b) :
    ∃ pi, cPi F = .ok pi ∧ pi - 1 ≤ a + b ∧ a + b ≤ pi := by
  have h : SW F := ⟨hF, hs, one_of_four h4⟩
  have hp := SW.dpos (F := F)
  obtain ⟨o1, om, oz, o2, s4⟩ := ofInt_small h h4
  obtain ⟨pi, epi, spi, pi0⟩ := cPi_SW h hr hf h4
  have hlh := h.lo_hi
  have hd := h.d_le
  have hx' : ¬ 2 ^ F.f < |x| := fun hc => not_lt.2 hx ((abs_val F x).2 hc)
  have hb := abs_le.1 (not_lt.1 hx')
  have s4' := s4.2
  have hS : Storable F x := ⟨by omega, by omega⟩
  have hSn : Storable F (-x) := ⟨by omega, by omega⟩
  have half := Int.tdiv_eq_ediv_of_nonneg (b := 2) pi0
  refine ⟨pi, epi, ?_⟩
  have g : ¬ gt |x| (2 ^ F.f) = true := by rw [gt_iff]; exact hx'
  unfold acos at ea eb
  rw [epi, Res.bind_ok, h.abs_ok hS (by omega), Res.bind_ok, o1, om, oz, o2, if_neg g] at ea
  rw [epi, Res.bind_ok, h.abs_ok hSn (by omega), Res.bind_ok, abs_neg, o1, om, oz, o2, if_neg g] at eb
  by_cases c1 : x = 2 ^ F.f
  · rw [if_pos (by rw [eq_iff]; exact c1)] at ea
    rw [if_neg (by rw [eq_iff]; omega), if_pos (by rw [eq_iff]; omega)] at eb
    cases ea; cases eb; omega
  · rw [if_neg (by rw [eq_iff]; exact c1)] at ea
    by_cases c2 : x = -2 ^ F.f
    · rw [if_pos (by rw [eq_iff]; exact c2)] at ea
      rw [if_pos (by rw [eq_iff]; omega)] at eb
      cases ea; cases eb; omega
    · rw [if_neg (by rw [eq_iff]; exact c2)] at ea
      rw [if_neg (by rw [eq_iff]; omega), if_neg (by rw [eq_iff]; omega)] at eb
      by_cases c3 : x = 0
      · rw [if_pos (by rw [eq_iff]; exact c3), div_two h hr spi] at ea
        rw [if_pos (by rw [eq_iff]; omega), div_two h hr spi] at eb
        cases ea; cases eb; omega
      · rw [if_neg (by rw [eq_iff]; exact c3), h.divInt_ok spi (by norm_num) (by norm_num), Res.bind_ok] at ea
        rw [if_neg (by rw [eq_iff]; omega), h.divInt_ok spi (by norm_num) (by norm_num), Res.bind_ok] at eb
        obtain ⟨m, -, -⟩ := C177_asin_odd F hF hs hr hf h4 x hS (by omega)
        cases es : asin F x with
        | ub u => rw [es] at ea; cases ea
        | throw u => rw [es] at ea; cases ea
        | ok r =>
          rw [es, Res.bind_ok] at ea
          rw [m r es, Res.bind_ok] at eb
          obtain ⟨e1, -⟩ := sub_ok_st h ea
          obtain ⟨e2, -⟩ := sub_ok_st h eb
          omega

/-- The hypotheses are met: a 64-bit layout with 40 fraction bits at one half, and a 32-bit layout with 10 fraction bits, where `asin` is far from the
arcsine but the symmetry still holds. -/
example : asin (L64 40) (2 ^ 39) = .ok 575621825087 ∧ asin (L64 40) (-2 ^ 39) = .ok (-575621825087) ∧ acos (L64 40) (2 ^ 39) = .ok 1151487001091 ∧
    acos (L64 40) (-2 ^ 39) = .ok 2302730651265 ∧ cPi (L64 40) = .ok 3454217652357 ∧ asin (L32 10) 700 = .ok 14 ∧ asin (L32 10) (-700) = .ok (-14) ∧
    acos (L32 10) 700 = .ok 1594 ∧ acos (L32 10) (-700) = .ok 1622 ∧ cPi (L32 10) = .ok 3216 := by
  decide +kernel

example : (L64 40).Valid ∧ SignedWide (L64 40) ∧ (L32 10).Valid ∧ SignedWide (L32 10) ∧ (L64 40).f < 61 := by decide

example : Representable (L64 40) 4 ∧ Representable (L32 10) 4 :=
  ⟨⟨4 * 2 ^ 40, by decide, by norm_num [val]⟩, ⟨4 * 2 ^ 10, by decide, by norm_num [val]⟩⟩

end Eirin.Props
