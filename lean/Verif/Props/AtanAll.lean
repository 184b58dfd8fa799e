import Verif.Lemmas.Lay
import Verif.Props.Atan

/-! # Property C106: arctangent on every signed layout.

C41 covers the two library types.  Here the layout is arbitrary. -/

namespace Eirin.Props
open Spec

/-- What is needed of the constants used by `atan`. -/
structure AtG (F : FxTy) where
  lay : Lay F (1 / 256) 1.9
  a0 : Int
  b : Int
  c : Int
  ea : fromFixedNumValue F i64 61 0x17CE62CE264A340 = .ok a0
  eb : fromFixedNumValue F i64 61 0x5191A2296020A80 = .ok b
  ec : fromFixedNumValue F i64 61 0xA7BE2BC19C39800 = .ok c
  ea2 : intMul F i32 (-1) a0 = .ok (-a0)
  aa : Ap F (-a0) (-(0x17CE62CE264A340 / 2 ^ 61)) 1
  ab : Ap F b (0x5191A2296020A80 / 2 ^ 61) 1
  ac : Ap F c (0xA7BE2BC19C39800 / 2 ^ 61) 1

/-- A signed layout with at least 8 fraction bits in which one is representable has ulp at most 1/256 and room for 1.9. -/
theorem lay_one {F : FxTy} (h : SG F) (hr : F.r = false) (h8 : 8 ≤ F.f) : Lay F (1 / 256) 1.9 where
  sw := h
  r := hr
  u_le := by
    unfold uR
    apply div_le_div_of_nonneg_left (by norm_num) (by norm_num)
    have : (2 : ℝ) ^ 8 ≤ 2 ^ F.f := pow_le_pow_right₀ (by norm_num) h8
    norm_num at this ⊢; exact this
  st := by
    intro z hz
    unfold rv at hz
    rw [abs_div, abs_of_pos (by positivity : (0 : ℝ) < 2 ^ F.f), div_le_iff₀ (by positivity)] at hz
    have h2 : |(z : ℝ)| < 2 * 2 ^ F.f := lt_of_le_of_lt hz (mul_lt_mul_of_pos_right (by norm_num) (by positivity))
    have hz' : |z| < 2 * 2 ^ F.f := by exact_mod_cast h2
    rw [abs_lt] at hz'
    have hd := h.d_le
    rw [h.hi_eq] at hd
    have hlt : F.f < F.T.bits - 1 := (pow_lt_pow_iff_right₀ (by norm_num : (1 : Int) < 2)).1 (by omega)
    have : (2 : Int) ^ (F.f + 1) ≤ 2 ^ (F.T.bits - 1) := pow_le_pow_right₀ (by norm_num) hlt
    rw [pow_succ] at this
    exact ⟨by rw [h.lo_eq]; omega, by rw [h.hi_eq]; omega⟩

/-- A coefficient below one, converted from 61 fraction bits, is within one ulp. -/
theorem coeff_near {F : FxTy} (h : SG F) (hr : F.r = false) (h8 : 8 ≤ F.f) {L : Int} (hL0 : 0 < L) (hL : L ≤ 2 ^ 60) :
    ∃ z, fromFixedNumValue F i64 61 L = .ok z ∧ 0 ≤ rv F z ∧ rv F z ≤ 0.5 ∧ Ap F z (L / 2 ^ 61) 1 := by
  have hLr : (L : ℝ) / 2 ^ 61 ≤ 0.5 := by
    have : (L : ℝ) ≤ 2 ^ 60 := by exact_mod_cast hL
    rw [div_le_iff₀ (by positivity)]; norm_num at *; linarith
  have hL0r : (0 : ℝ) < L / 2 ^ 61 := div_pos (by exact_mod_cast hL0) (by positivity)
  have hu := uR_pos F
  have hul := (lay_one h hr h8).u_le
  by_cases hf : F.f < 61
  · have hn := near_of (c := fun F => fromFixedNumValue F i64 61 L) (k := 61) (L := L) (ρ := (L : ℝ) / 2 ^ 61) (δ := 0) (fun _ => rfl)
      (by norm_num) (by norm_num) hL0 (lt_of_le_of_lt hL (by norm_num)) (by norm_num) (by simp) (by simp)
    obtain ⟨z, ez, sz, nz, -⟩ := hn F 1 h.valid hf (by push_cast; norm_num at *; linarith) ⟨2 ^ F.f, h.one, by unfold val; push_cast; field_simp⟩
    obtain ⟨n1, n2⟩ := nz hr
    rw [rv_eq] at n1 n2; rw [uR_eq] at n2
    have hz0 : 0 ≤ rv F z := by
      by_contra hc
      push Not at hc
      have z0 : rv F 0 = 0 := by simp [rv]
      rw [← z0, rv_lt] at hc
      have : rv F z ≤ rv F (-1) := (rv_le F).2 (by omega)
      rw [rv_neg, show rv F 1 = uR F by rw [rv_u]; norm_num] at this
      linarith
    exact ⟨z, ez, hz0, by linarith, sz, by rw [abs_le]; constructor <;> linarith⟩
  · have hb64 : F.T.bits = 64 := by
      have := h.valid.flt
      obtain ⟨a, -⟩ := h.valid
      omega
    have f63 : F.f ≤ 62 := by
      have hd := h.d_le
      rw [h.hi_eq] at hd
      have hlt : F.f < F.T.bits - 1 := (pow_lt_pow_iff_right₀ (by norm_num : (1 : Int) < 2)).1 (by omega)
      omega
    have hp : (2 : Int) ^ (F.f - 61) ≤ 2 := by
      have : (2 : Int) ^ (F.f - 61) ≤ 2 ^ 1 := pow_le_pow_right₀ (by norm_num) (by omega)
      simpa using this
    have hp0 : (0 : Int) < 2 ^ (F.f - 61) := by positivity
    obtain ⟨z, ez, sz, vz⟩ := (C17_widening_partial F ⟨i64, i128, 61, false⟩ h.valid (by decide) (by decide) h.sg (by rw [hb64]) (by simpa using hf)
      (by simp; omega) L (by constructor <;> simp [IntTy.lo, IntTy.hi] <;> omega)).1 (by
        simp only
        constructor
        · have : 0 ≤ L * 2 ^ (F.f - 61) := by positivity
          refine le_trans ?_ this; decide
        · have : L * 2 ^ (F.f - 61) ≤ 2 ^ 60 * 2 := mul_le_mul hL hp hp0.le (by norm_num)
          refine le_trans this ?_; decide)
    have vz' : rv F z = L / 2 ^ 61 := by
      rw [← rv_eq, vz]; unfold val; push_cast; rfl
    refine ⟨z, ez, by rw [vz']; exact hL0r.le, by rw [vz']; exact hLr, sz, ?_⟩
    rw [vz', sub_self, abs_zero]; linarith

/-- The constants of `atan` on every such layout. -/
theorem atG {F : FxTy} (h : SG F) (hr : F.r = false) (h8 : 8 ≤ F.f) : Nonempty (AtG F) := by
  have hl := lay_one h hr h8
  obtain ⟨a0, ea, a1, a2, aa⟩ := coeff_near h hr h8 (L := 0x17CE62CE264A340) (by norm_num) (by norm_num)
  obtain ⟨b, eb, -, -, ab⟩ := coeff_near h hr h8 (L := 0x5191A2296020A80) (by norm_num) (by norm_num)
  obtain ⟨c, ec, -, -, ac⟩ := coeff_near h hr h8 (L := 0xA7BE2BC19C39800) (by norm_num) (by norm_num)
  have hn : Storable F (-a0) := hl.st (by rw [rv_neg, abs_neg, abs_of_nonneg a1]; norm_num at *; linarith)
  have e : intMul F i32 (-1) a0 = .ok (-a0) := by
    have := h.intMul_ok (x := a0) (n := -1) aa.st (by decide) (by rw [mul_neg_one]; exact hn)
    rw [mul_neg_one] at this; exact this
  refine ⟨⟨hl, a0, b, c, ea, eb, ec, e, ⟨hn, ?_⟩, by simpa using ab, by simpa using ac⟩⟩
  have := aa.er
  rw [rv_neg, show -rv F a0 - -(0x17CE62CE264A340 / 2 ^ 61 : ℝ) = -(rv F a0 - 0x17CE62CE264A340 / 2 ^ 61) by ring, abs_neg]
  simpa using this

theorem AtG.body {F : FxTy} (k : AtG F) {x : Int} (hS : Storable F x) (hlo : F.T.lo < x) :
    atan F x = (atanBody F |x|).bind (fun r => if x < 0 then neg F r else .ok r) := by
  have h := k.lay
  unfold atan atanBody
  rw [k.ea, k.eb, k.ec]
  simp only [Res.bind_ok, k.ea2, h.sw.abs_ok hS hlo]
  have hb : (band F.P (signbitMask F) x ≠ 0) ↔ x < 0 := by
    have := signbit_iff h.sw.valid hS
    unfold signbit at this
    rw [if_pos h.sw.sg] at this
    rw [← this, decide_eq_true_iff]
    have hc : band F.P (signbitMask F) x = band F.P x (signbitMask F) := by unfold band; rw [BitVec.and_comm]
    rw [hc]
  simp only [hb]
  cases mul F |x| |x| with
  | ub u => rfl
  | throw e => rfl
  | ok x2 =>
    simp only [Res.bind_ok]
    cases mul F (-k.a0) x2 with
    | ub u => rfl
    | throw e => rfl
    | ok p1 =>
      simp only [Res.bind_ok]
      cases add F p1 k.b with
      | ub u => rfl
      | throw e => rfl
      | ok p2 =>
        simp only [Res.bind_ok]
        cases mul F p2 x2 with
        | ub u => rfl
        | throw e => rfl
        | ok p3 =>
          simp only [Res.bind_ok]
          cases sub F p3 k.c with
          | ub u => rfl
          | throw e => rfl
          | ok p4 =>
            simp only [Res.bind_ok]
            cases mul F p4 x2 with
            | ub u => rfl
            | throw e => rfl
            | ok p5 =>
              simp only [Res.bind_ok]
              cases mul F p5 |x| with
              | ub u => rfl
              | throw e => rfl
              | ok p6 =>
                simp only [Res.bind_ok]
                cases add F p6 |x| with
                | ub u => rfl
                | throw e => rfl
                | ok r => rfl

theorem AtG.ap {F : FxTy} (k : AtG F) {x : Int} (h0 : 0 ≤ x) (h1 : x ≤ 2 ^ F.f) :
    ∃ r, atanBody F x = .ok r ∧ Ap F r (Trig.atP (rv F x)) 7.7 := by
  have h := k.lay
  have hX0 : 0 ≤ rv F x := by have := (rv_le F (a := 0) (b := x)).2 h0; simpa [rv] using this
  have hX1 : rv F x ≤ 1 := by
    have := (rv_le F (a := x) (b := 1 * 2 ^ F.f)).2 (by rw [one_mul]; exact h1); rw [rv_int] at this; simpa using this
  have hxs : Storable F x := h.st (by rw [abs_le]; constructor <;> linarith)
  have hx := Ap.exact (F := F) hxs
  generalize rv F x = X at *
  have hXa : |X| ≤ 1 := by rw [abs_le]; constructor <;> linarith
  have hW0 : 0 ≤ X * X := by positivity
  have hW1 : X * X ≤ 1 := by nlinarith
  have hWa : |X * X| ≤ 1 := by rw [abs_of_nonneg hW0]; exact hW1
  obtain ⟨ex2, hx2⟩ := Lay.mul h 1 1 1 hx hx hXa hXa (by norm_num) (by norm_num)
  obtain ⟨ep1, hp1⟩ := Lay.mul h 0.0465 1 2.06 k.aa hx2 (by rw [abs_neg, abs_of_nonneg] <;> norm_num) hWa (by norm_num) (by norm_num)
  unfold Trig.atP
  generalize X * X = W at *
  have n2 : 0 ≤ -(0x17CE62CE264A340 / 2 ^ 61 : ℝ) * W + 0x5191A2296020A80 / 2 ^ 61 ∧ -(0x17CE62CE264A340 / 2 ^ 61 : ℝ) * W + 0x5191A2296020A80 / 2 ^ 61 ≤ 0.16 := by
    norm_num; constructor <;> linarith
  obtain ⟨ep2, hp2⟩ := Lay.add h (M := 0.16) hp1 k.ab (by rw [abs_of_nonneg n2.1]; exact n2.2) (by norm_num)
  generalize -(0x17CE62CE264A340 / 2 ^ 61 : ℝ) * W + 0x5191A2296020A80 / 2 ^ 61 = P2 at *
  obtain ⟨ep3, hp3⟩ := Lay.mul h 0.16 1 4.24 hp2 hx2 (by rw [abs_of_nonneg n2.1]; exact n2.2) hWa (by norm_num) (by norm_num)
  have n3 : 0 ≤ P2 * W ∧ P2 * W ≤ 0.16 := ⟨mul_nonneg n2.1 hW0, by nlinarith⟩
  have n4 : |P2 * W - 0xA7BE2BC19C39800 / 2 ^ 61| ≤ 0.33 := by rw [abs_le]; norm_num at *; constructor <;> linarith
  obtain ⟨ep4, hp4⟩ := Lay.sub h hp3 k.ac n4 (by norm_num)
  obtain ⟨ep5, hp5⟩ := Lay.mul h 0.33 1 6.6 hp4 hx2 n4 hWa (by norm_num) (by norm_num)
  have n5 : |(P2 * W - 0xA7BE2BC19C39800 / 2 ^ 61) * W| ≤ 0.33 := by
    rw [abs_mul]; have := mul_le_mul n4 hWa (abs_nonneg _) (by norm_num : (0 : ℝ) ≤ 0.33); linarith
  obtain ⟨ep6, hp6⟩ := Lay.mul h 0.33 1 7.7 hp5 hx n5 hXa (by norm_num) (by norm_num)
  have n6 : |(P2 * W - 0xA7BE2BC19C39800 / 2 ^ 61) * W * X| ≤ 0.33 := by
    rw [abs_mul]; have := mul_le_mul n5 hXa (abs_nonneg _) (by norm_num : (0 : ℝ) ≤ 0.33); linarith
  have n7 : |(P2 * W - 0xA7BE2BC19C39800 / 2 ^ 61) * W * X + X| ≤ 1 := by
    have a1 : P2 * W - 0xA7BE2BC19C39800 / 2 ^ 61 ≤ 0 := by norm_num at *; linarith
    have a2 : -0.33 ≤ P2 * W - 0xA7BE2BC19C39800 / 2 ^ 61 := (abs_le.1 n4).1
    generalize P2 * W - 0xA7BE2BC19C39800 / 2 ^ 61 = P4 at *
    have b1 : P4 * W ≤ 0 := mul_nonpos_of_nonpos_of_nonneg a1 hW0
    have b2 : -0.33 ≤ P4 * W := (abs_le.1 n5).1
    have c1 : P4 * W * X ≤ 0 := mul_nonpos_of_nonpos_of_nonneg b1 hX0
    have c2 : -0.33 * X ≤ P4 * W * X := mul_le_mul_of_nonneg_right b2 hX0
    rw [abs_le]; constructor <;> norm_num at * <;> linarith
  obtain ⟨er, hr⟩ := Lay.add h hp6 hx n7 (by norm_num)
  refine ⟨_, ?_, by rw [add_zero] at hr; exact hr⟩
  unfold atanBody
  rw [k.ea, k.eb, k.ec]
  simp only [Res.bind_ok, k.ea2, ex2, ep1, ep2, ep3, ep4, ep5, ep6, er]

theorem atan_gen {F : FxTy} (k : AtG F) (x : Int) (hx : |rv F x| ≤ 1) :
    ∃ r, atan F x = .ok r ∧ Storable F r ∧ |rv F r - Real.arctan (rv F x)| ≤ 37 / 100000 + 7.7 * uR F := by
  have h := k.lay
  have habs : |rv F x| = rv F |x| := by
    unfold rv; rw [abs_div, abs_of_pos (by positivity : (0 : ℝ) < 2 ^ F.f)]; push_cast; rfl
  have hS : Storable F x := h.st (by linarith)
  have hlo : F.T.lo < x := by
    have h2 : Storable F (x - 1) := h.st (by
      rw [rv_sub]
      have : rv F 1 = uR F := by rw [rv_u]; norm_num
      rw [this]
      have := h.u_le; have := uR_pos F
      rw [abs_le] at *; constructor <;> linarith)
    have := h2.1; omega
  have hle : |x| ≤ 2 ^ F.f := by
    have : rv F |x| ≤ rv F (1 * 2 ^ F.f) := by rw [← habs, rv_int]; simpa using hx
    have := (rv_le F).1 this; omega
  obtain ⟨r, er, hr⟩ := k.ap (abs_nonneg x) hle
  rw [← habs] at hr
  have hP := Trig.atP_near |rv F x| (abs_nonneg _) hx
  have hd : |rv F r - Real.arctan (|rv F x|)| ≤ 37 / 100000 + 7.7 * uR F := by
    have := abs_sub_le (rv F r) (Trig.atP |rv F x|) (Real.arctan (|rv F x|))
    have := hr.er
    linarith
  rw [k.body hS hlo, er]
  change ∃ r', (if x < 0 then neg F r else Res.ok r) = Res.ok r' ∧ _
  by_cases h0 : x < 0
  · have hx0 : rv F x < 0 := by have := (rv_lt F (a := x) (b := 0)).2 h0; simpa [rv] using this
    have hnS : F.T.InRange (-r) := h.st (by
      rw [rv_neg, abs_neg]
      have t1 := Real.arctan_lt_pi_div_two |rv F x|
      have t2 : 0 ≤ Real.arctan |rv F x| := Real.arctan_nonneg.2 (abs_nonneg _)
      have t3 := Real.pi_lt_d2
      have t4 := h.u_le
      obtain ⟨d1, d2⟩ := abs_le.1 hd
      clear hd hP
      generalize Real.arctan |rv F x| = A at *
      rw [abs_le]; norm_num at d1 d2 t1 t2 t3 t4 ⊢; constructor <;> linarith)
    rw [if_pos h0, h.sw.neg_ok hnS]
    refine ⟨-r, rfl, hnS, ?_⟩
    rw [abs_of_neg hx0, Real.arctan_neg] at hd
    rw [rv_neg, show -rv F r - Real.arctan (rv F x) = -(rv F r - -Real.arctan (rv F x)) by ring, abs_neg]; exact hd
  · have hx0 : 0 ≤ rv F x := by have := (rv_le F (a := 0) (b := x)).2 (by omega); simpa [rv] using this
    rw [if_neg h0]
    rw [abs_of_nonneg hx0] at hd
    exact ⟨r, rfl, hr.st, hd⟩

/-- C106: on every signed non-rounding layout with at least 8 fraction bits in which one is representable, `atan`
is defined on `[-1, 1]` and within `0.00037 + 7.7 ulp` of the real arctangent. -/
theorem C106_accuracy (F : FxTy) (hF : F.Valid) (hs : F.T.signed = true) (hr : F.r = false) (h8 : 8 ≤ F.f) (h1 : Storable F (2 ^ F.f)) (x : Int)
    (hx : |val F x| ≤ 1) :
    ∃ r, atan F x = .ok r ∧ Storable F r ∧ |((val F r : ℚ) : ℝ) - Real.arctan (val F x : ℚ)| ≤ 37 / 100000 + 7.7 * (ulp F : ℚ) := by
  obtain ⟨k⟩ := atG ⟨hF, hs, h1⟩ hr h8
  have hx' : |rv F x| ≤ 1 := by rw [← rv_eq]; exact_mod_cast hx
  obtain ⟨r, a, b, c⟩ := atan_gen k x hx'
  refine ⟨r, a, b, ?_⟩
  rw [rv_eq, rv_eq, uR_eq]; exact c

/-- C106: on the same layouts `atan` is odd on `[-1, 1]`. -/
theorem C106_odd (F : FxTy) (hF : F.Valid) (hs : F.T.signed = true) (hr : F.r = false) (h8 : 8 ≤ F.f) (h1 : Storable F (2 ^ F.f)) (x r : Int)
    (hx : |val F x| ≤ 1) (h0 : x ≠ 0) (e : atan F x = .ok r) : atan F (-x) = .ok (-r) := by
  obtain ⟨k⟩ := atG ⟨hF, hs, h1⟩ hr h8
  have h := k.lay
  have hx' : |rv F x| ≤ 1 := by rw [← rv_eq]; exact_mod_cast hx
  have hxn : |rv F (-x)| ≤ 1 := by rw [rv_neg, abs_neg]; exact hx'
  have low : ∀ y : Int, |rv F y| ≤ 1 → Storable F y ∧ F.T.lo < y := by
    intro y hy
    have h2 : Storable F (y - 1) := h.st (by
      rw [rv_sub, show rv F 1 = uR F by rw [rv_u]; norm_num]
      have := h.u_le; have := uR_pos F
      rw [abs_le] at *; norm_num at *; constructor <;> linarith [hy.1, hy.2])
    exact ⟨h.st (by norm_num at *; linarith), by have := h2.1; omega⟩
  obtain ⟨s1, l1⟩ := low x hx'
  obtain ⟨s2, l2⟩ := low (-x) hxn
  have hle : |x| ≤ 2 ^ F.f := by
    have habs : |rv F x| = rv F |x| := by
      unfold rv; rw [abs_div, abs_of_pos (by positivity : (0 : ℝ) < 2 ^ F.f)]; push_cast; rfl
    have : rv F |x| ≤ rv F (1 * 2 ^ F.f) := by rw [← habs, rv_int]; simpa using hx'
    have := (rv_le F).1 this; omega
  obtain ⟨b, eb, hb⟩ := k.ap (abs_nonneg x) hle
  have hbn : Storable F (-b) := by
    have habs : |rv F x| = rv F |x| := by
      unfold rv; rw [abs_div, abs_of_pos (by positivity : (0 : ℝ) < 2 ^ F.f)]; push_cast; rfl
    rw [← habs] at hb
    refine h.st ?_
    rw [rv_neg, abs_neg]
    have t0 := Trig.atP_near |rv F x| (abs_nonneg _) hx'
    have t1 := Real.arctan_lt_pi_div_two |rv F x|
    have t2 : 0 ≤ Real.arctan |rv F x| := Real.arctan_nonneg.2 (abs_nonneg _)
    have t3 := Real.pi_lt_d2
    have t4 := h.u_le
    have t5 := hb.er
    rw [abs_le] at t0 t5 ⊢
    generalize Real.arctan |rv F x| = A at *
    generalize Trig.atP |rv F x| = P at *
    norm_num at t0 t1 t2 t3 t4 t5 ⊢
    constructor <;> linarith [t0.1, t0.2, t5.1, t5.2]
  rw [k.body s1 l1, eb] at e
  rw [k.body s2 l2, abs_neg, eb]
  change (if x < 0 then neg F b else Res.ok b) = _ at e
  change (if -x < 0 then neg F b else Res.ok b) = _
  rcases lt_or_gt_of_ne h0 with hc | hc
  · rw [if_pos hc, h.sw.neg_ok hbn] at e
    cases e
    rw [if_neg (by omega), neg_neg]
  · rw [if_neg (by omega)] at e
    cases e
    rw [if_pos (by omega), h.sw.neg_ok hbn]

example : (⟨i32, i64, 30, false⟩ : FxTy).Valid ∧ atan ⟨i16, i32, 14, false⟩ (-2 ^ 14) = .ok (-12866) ∧ Storable ⟨i32, i64, 30, false⟩ (2 ^ 30) ∧
    atan ⟨i32, i64, 30, false⟩ (2 ^ 30) = .ok 843096692 ∧ atan ⟨i64, i128, 62, false⟩ (-2 ^ 61) = .ok (-2138265730928715803) ∧ atan ⟨i64, i128, 8, false⟩ 256 = .ok 202 := by decide +kernel

end Eirin.Props
