import Verif.Props.Format

/-! # Property C153: `std::format` on unsigned and narrow layouts

C54 and C55 are about signed storage of 32 and 64 bits. -/

namespace Eirin.Props
open Spec

/-- The integral part of a negative number in 8- and 16-bit storage: up to its sign the ceiling of the magnitude, the lowest unit included. -/
theorem intPart_neg_narrow {F : FxTy} (h : PN F) (hs : F.T.signed = true) (hb : F.T.bits < 32) {x : Int} (hx : F.T.InRange x) (h0 : x < 0) :
    ∃ iv, integralPart F x = .ok iv ∧ F.T.InRange iv ∧ iv.natAbs = ⌈|val F x|⌉₊ := by
  have hp := SW.dpos (F := F)
  have hd := h.d_le
  have hlo : F.T.lo = -2 ^ (F.T.bits - 1) := by unfold IntTy.lo; simp [hs]
  have hhi : F.T.hi = 2 ^ (F.T.bits - 1) - 1 := by unfold IntTy.hi; simp [hs]
  have hx1 := hx.1
  have hsb : signbit F x = true := by rw [signbit_iff h.valid hx]; exact h0
  have r1 : F.T.InRange (-x - 1) := ⟨by omega, by omega⟩
  have hP : F.P = i32 := by unfold FxTy.P IntTy.promote; rw [if_pos hb]
  have hbig : (2 : Int) ^ (F.T.bits - 1) ≤ 2 ^ 15 := by
    apply pow_le_pow_right₀ (by norm_num)
    have := h.valid.1; omega
  have hsum : arith F.P (-x - 1 + 2 ^ F.f) = .ok (-x - 1 + 2 ^ F.f) := by
    rw [hP]
    apply arith_of_inRange (by decide)
    unfold IntTy.InRange i32 IntTy.lo IntTy.hi
    norm_num at hbig ⊢
    omega
  have hcn : cnot F.T x = -x - 1 := by unfold cnot; exact h.wrapP_ok r1
  have red : integralPart F x = .ok (F.T.wrap (F.T.wrap (-x - 1 + 2 ^ F.f) / 2 ^ F.f)) := by
    unfold integralPart shr
    rw [if_pos hsb, hcn, h.wrap_ok r1, h.one_eq]
    simp only []
    rw [hsum]
    simp only [Res.pure_eq, Res.bind_ok]
    rw [if_pos h.valid.flt_p, Res.bind_ok]
  rw [red, ← ceil_neg h0]
  have hflt := h.valid.flt
  have eK : (2 : Int) ^ (F.T.bits - 1) = 2 ^ (F.T.bits - 1 - F.f) * 2 ^ F.f := by
    rw [← pow_add]; congr 1; omega
  have eB : (2 : Int) ^ F.T.bits = 2 * 2 ^ (F.T.bits - 1) := by
    have := h.valid.tpos
    rw [← pow_succ']; congr 1; omega
  have hKp : (0 : Int) < 2 ^ (F.T.bits - 1 - F.f) := by positivity
  by_cases hr : F.T.InRange (-x - 1 + 2 ^ F.f)
  · have r3 : F.T.InRange ((-x - 1 + 2 ^ F.f) / 2 ^ F.f) := by
      have h2 : 0 ≤ -x - 1 + 2 ^ F.f := by omega
      have a := Int.ediv_nonneg h2 hp.le
      have b := Int.ediv_le_self (2 ^ F.f) h2
      have := hr.2
      exact ⟨by omega, by omega⟩
    refine ⟨_, rfl, ?_, ?_⟩
    · exact IntTy.wrap_inRange _ h.tpos
    · rw [h.wrap_ok hr, h.wrap_ok r3]
  · have hs1 : 2 ^ (F.T.bits - 1) ≤ -x - 1 + 2 ^ F.f := by
      by_contra hc
      exact hr ⟨by omega, by omega⟩
    have hs2 : -x - 1 + 2 ^ F.f < 2 ^ (F.T.bits - 1) + 2 ^ F.f := by omega
    have w1 : F.T.wrap (-x - 1 + 2 ^ F.f) = -x - 1 + 2 ^ F.f - 2 ^ F.T.bits := by
      have : F.T.InRange (-x - 1 + 2 ^ F.f - 2 ^ F.T.bits) := ⟨by omega, by omega⟩
      rw [← h.wrap_ok this]
      exact IntTy.wrap_congr ⟨1, by ring⟩
    have q1 : (-x - 1 + 2 ^ F.f) / 2 ^ F.f = 2 ^ (F.T.bits - 1 - F.f) := by
      apply le_antisymm
      · apply Int.lt_add_one_iff.1
        apply Int.ediv_lt_of_lt_mul hp
        rw [add_mul, one_mul, ← eK]; exact hs2
      · apply Int.le_ediv_of_mul_le hp
        rw [← eK]; exact hs1
    have q2 : (-x - 1 + 2 ^ F.f - 2 ^ F.T.bits) / 2 ^ F.f = -2 ^ (F.T.bits - 1 - F.f) := by
      have : -x - 1 + 2 ^ F.f - 2 ^ F.T.bits = -x - 1 + 2 ^ F.f + (-2 * 2 ^ (F.T.bits - 1 - F.f)) * 2 ^ F.f := by
        rw [eB, eK]; ring
      rw [this, Int.add_mul_ediv_right _ _ hp.ne', q1]; ring
    have hle : (2 : Int) ^ (F.T.bits - 1 - F.f) ≤ 2 ^ (F.T.bits - 1) := pow_le_pow_right₀ (by norm_num) (by omega)
    have r3 : F.T.InRange (-2 ^ (F.T.bits - 1 - F.f)) := ⟨by omega, by omega⟩
    refine ⟨_, rfl, IntTy.wrap_inRange _ h.tpos, ?_⟩
    rw [w1, q2, h.wrap_ok r3, q1, Int.natAbs_neg]

/-- The number whose digits are printed before the point: the integer part, or for negative numbers the ceiling of the magnitude. -/
def printedInt (F : FxTy) (x : Int) : Nat := if x < 0 then ⌈|val F x|⌉₊ else ⌊|val F x|⌋₊

theorem intPart_all {F : FxTy} (h : PN F) (hs : ¬ SignedWide F) {x : Int} (hx : F.T.InRange x) :
    ∃ iv, integralPart F x = .ok iv ∧ F.T.InRange iv ∧ iv.natAbs = printedInt F x := by
  unfold printedInt
  by_cases h0 : x < 0
  · have hsg : F.T.signed = true := by
      by_contra hc
      have : F.T.lo = 0 := by unfold IntTy.lo; simp [hc]
      have := hx.1; omega
    have hb : F.T.bits < 32 := by
      by_contra hc
      exact hs ⟨hsg, by omega⟩
    rw [if_pos h0]
    exact intPart_neg_narrow h hsg hb hx h0
  · obtain ⟨a, b⟩ := intPart_of_nonneg h hx (by omega)
    exact ⟨_, a, b, by rw [if_neg h0, floor_nonneg (by omega)]⟩

/-- C153: on unsigned and narrow layouts the integer types print, for every value, sign, prefix and digits of the integer part; for negative
values the digits are those of the ceiling of the magnitude (as in `C54_negative`), the lowest unit included. -/
theorem C153_int {F : FxTy} (hF : F.Valid) (hs : ¬ SignedWide F) (h1 : Storable F (2 ^ F.f)) (st : FmtState) (b : Nat) (up : Bool)
    (x : Int) (hx : Storable F x) (ht : intType st.type = some (b, up)) (hw : st.width ≤ 0) :
    formatTo F st x = .ok (signText st.sign (decide (x < 0)) ++ (if st.alt then baseText b up else []) ++
      natText b up (if x < 0 then ⌈|val F x|⌉₊ else ⌊|val F x|⌋₊)) := by
  have h : PN F := ⟨hF, h1⟩
  obtain ⟨iv, e1, e2, e3⟩ := intPart_all h hs hx
  obtain ⟨pre, rfl, e⟩ := formatTo_int h ht hx e1 e2
  rw [e, if_neg (by simp; intro _ h; omega), outputAligned_none st hw, e3]
  rfl

-- the minimum of 8-bit storage with 4 fraction bits is -8; 16-bit unsigned storage
example : (let F : FxTy := ⟨⟨8, true⟩, ⟨16, true⟩, 4, false⟩; F.Valid ∧ formatTo F { type := 'd' } (-128) = .ok ['-', '8'] ∧
      formatTo F { type := 'd' } (-24) = .ok ['-', '2']) ∧
    (let F : FxTy := ⟨⟨16, false⟩, ⟨32, false⟩, 8, false⟩; F.Valid ∧ formatTo F { type := 'x', alt := true } 65535 = .ok ['0', 'x', 'f', 'f']) := by
  decide +kernel

/-- C153 as one would like it: on every unsigned layout the decimal types print every value with its decimals cut to the precision. -/
def C153_statement : Prop := ∀ F : FxTy, F.Valid → F.T.signed = false → Storable F (2 ^ F.f) → ∀ (st : FmtState) (x : Int), Storable F x →
  st.type ∈ ['g', 'G', 'f', 'F'] → st.width ≤ 0 → ∃ out, formatTo F st x = .ok out ∧ IsDecimalOf st false ⌊val F x⌋₊ (fracMag F x) out

/-- C153, what holds: on unsigned and narrow layouts with room for a decimal digit before the point, the decimal types print every value, with the
decimals of the magnitude cut to the precision; before the point stands the integer part, for negative values the ceiling of the magnitude
(the error of `C55_negative`).  Full statement: `C153_statement`; without room for a digit it fails on every layout (`C153_sharp`). -/
theorem C153_decimal_partial {F : FxTy} (hF : F.Valid) (hs : ¬ SignedWide F) (hfit : Storable F (10 * 2 ^ F.f)) (st : FmtState) (x : Int)
    (hx : Storable F x) (ht : st.type ∈ ['g', 'G', 'f', 'F']) (hw : st.width ≤ 0) :
    ∃ out, formatTo F st x = .ok out ∧ IsDecimalOf st (decide (x < 0)) (if x < 0 then ⌈|val F x|⌉₊ else ⌊|val F x|⌋₊) (fracMag F x) out := by
  have hp := SW.dpos (F := F)
  have hll := PN.lo_le (F := F)
  have h : PN F := ⟨hF, ⟨by omega, by have := hfit.2; omega⟩⟩
  obtain ⟨iv, e1, e2, e3⟩ := intPart_all h hs hx
  obtain ⟨out, e, hd⟩ := formatTo_dec h hfit.2 ht hx e1 e2
  refine ⟨out, by rw [e, outputAligned_none st hw], ?_⟩
  rw [e3] at hd
  exact hd

example : (let F : FxTy := ⟨⟨8, true⟩, ⟨16, true⟩, 3, false⟩; F.Valid ∧ Storable F (10 * 2 ^ F.f) ∧ formatTo F {} 13 = .ok ['1', '.', '6', '2', '5'] ∧
      formatTo F {} (-13) = .ok ['-', '2', '.', '6', '2', '5']) ∧
    (let F : FxTy := ⟨u64, ⟨128, false⟩, 32, false⟩; F.Valid ∧ Storable F (10 * 2 ^ F.f) ∧
      formatTo F { type := 'f', precision := 2 } (2 ^ 64 - 1) = .ok ['4', '2', '9', '4', '9', '6', '7', '2', '9', '5', '.', '9', '9']) := by decide +kernel

/-- What is printed for the largest number below one where there is no room for a digit. -/
theorem no_room_table : ∀ b ∈ ([8, 16, 32, 64] : List Nat), ∀ f ∈ ([b - 4, b - 3, b - 2, b - 1] : List Nat), ∀ s : Bool, ∀ r : Bool,
    ∀ ib ∈ ([16, 32, 64, 128] : List Nat), (2 : Int) ^ f ≤ IntTy.hi ⟨b, s⟩ → IntTy.hi ⟨b, s⟩ < 10 * 2 ^ f → (s = false ∨ b < 32) →
    (match formatTo ⟨⟨b, s⟩, ⟨ib, s⟩, f, r⟩ {} (2 ^ f - 1) with
      | .ok ('0' :: '.' :: '1' :: _) => true
      | .ub _ => true
      | _ => false) = true := by decide +kernel

/-- C153: without room for a digit, on every unsigned and narrow layout, the largest number below one is not printed rightly. -/
theorem C153_sharp {F : FxTy} (hF : F.Valid) (hs : ¬ SignedWide F) (h1 : Storable F (2 ^ F.f)) (hno : ¬ Storable F (10 * 2 ^ F.f)) :
    ¬ ∃ out, formatTo F {} (2 ^ F.f - 1) = .ok out ∧ IsDecimalOf {} false 0 (fracMag F (2 ^ F.f - 1)) out := by
  rintro ⟨out, ho, ds, hout, htr⟩
  obtain ⟨⟨b, s⟩, ⟨ib, is⟩, f, r⟩ := F
  have his : is = s := hF.2.2.2.1
  subst his
  have hib : ib ∈ ([16, 32, 64, 128] : List Nat) := by simpa using hF.2.1
  have hll := PN.lo_le (F := ⟨⟨b, is⟩, ⟨ib, is⟩, f, r⟩)
  have hp : (0 : Int) < 2 ^ f := by positivity
  have hb := hF.1
  have hf := hF.flt
  have hone := h1.2
  have hno' : IntTy.hi ⟨b, is⟩ < 10 * 2 ^ f := by
    by_contra hc
    exact hno ⟨by simp only at hll ⊢; omega, by simp only at hc ⊢; omega⟩
  simp only at hb hf hone
  have hw : is = false ∨ b < 32 := by
    by_contra hc
    push Not at hc
    exact hs ⟨by simpa using hc.1, hc.2⟩
  have hb' : b ∈ ([8, 16, 32, 64] : List Nat) := by simpa using hb
  have hf4 : b - 4 ≤ f := by
    by_contra hc
    have e : b = f + 5 + (b - f - 5) := by omega
    have h5 : (2 : Int) ^ (f + 4) ≤ 2 ^ (b - 1) := pow_le_pow_right₀ (by norm_num) (by omega)
    have h6 : (2 : Int) ^ (b - 1) ≤ 2 ^ b := pow_le_pow_right₀ (by norm_num) (by omega)
    rw [pow_add] at h5
    unfold IntTy.hi at hno'
    simp only at hno'
    split at hno' <;> omega
  have hf' : f ∈ ([b - 4, b - 3, b - 2, b - 1] : List Nat) := by
    simp only [List.mem_cons, List.not_mem_nil, or_false]; omega
  have tab := no_room_table b hb' f hf' is r ib hib hone hno' hw
  have hq : fracMag ⟨⟨b, is⟩, ⟨ib, is⟩, f, r⟩ (2 ^ f - 1) ≥ 3 / 4 := by
    have h3 : (2 : ℚ) ^ 4 ≤ 2 ^ f := pow_le_pow_right₀ (by norm_num) (by omega)
    have hqp : (0 : ℚ) < 2 ^ f := by positivity
    have hv : val ⟨⟨b, is⟩, ⟨ib, is⟩, f, r⟩ (2 ^ f - 1) = 1 - 1 / 2 ^ f := by
      unfold val; push_cast; field_simp
    have h4 : (1 : ℚ) / 2 ^ f ≤ 1 / 4 := by
      apply one_div_le_one_div_of_le (by norm_num); linarith
    have h5 : (0 : ℚ) < 1 / 2 ^ f := by positivity
    unfold fracMag
    rw [hv, abs_of_nonneg (by linarith), Nat.floor_eq_zero.2 (by linarith)]
    push_cast; linarith
  simp only at ho
  rw [ho] at tab
  have hq0 : ¬ (fracMag ⟨⟨b, is⟩, ⟨ib, is⟩, f, r⟩ (2 ^ f - 1) = 0 ∧ ds = []) := by
    rintro ⟨hc, -⟩; rw [hc] at hq; norm_num at hq
  rw [if_neg hq0] at hout
  have e0 : signText ({} : FmtState).sign false ++ natText 10 false 0 = ['0'] := by decide +kernel
  rw [e0] at hout
  rw [if_neg (by decide)] at htr
  obtain ⟨t1, t2, t3, t4, t5, t6⟩ := htr
  have ep : effPrec {} = 6 := by decide
  rw [ep] at t4
  cases ds with
  | nil =>
    simp only [fracVal] at t4
    norm_num at t4; linarith
  | cons d ds =>
    subst hout
    simp only [List.map_cons, List.cons_append, List.nil_append] at tab
    have hd : digitOf false d = '1' := by
      revert tab
      split <;> simp_all
    have d10 : d < 10 := t1 d (by simp)
    have d1 : d = 1 := by
      interval_cases d <;> revert hd <;> decide
    subst d1
    simp only [fracVal] at t4
    have : fracVal 10 ds < 1 := fracVal_lt (fun d hd => t1 d (by simp [hd]))
    norm_num at t4; linarith

/-- C153 is false: on unsigned 8-bit storage with 5 fraction bits `std::format("{}", 0.96875)` starts with `0.1`. -/
theorem C153_false : ¬ C153_statement := by
  intro h
  have hF : (⟨⟨8, false⟩, ⟨16, false⟩, 5, false⟩ : FxTy).Valid := by decide
  apply C153_sharp hF (by unfold SignedWide; decide) (by decide) (by decide)
  obtain ⟨out, e, hd⟩ := h _ hF rfl (by decide) {} (2 ^ 5 - 1) (by decide) (by decide) (by decide)
  refine ⟨out, e, ?_⟩
  have : ⌊val ⟨⟨8, false⟩, ⟨16, false⟩, 5, false⟩ (2 ^ 5 - 1)⌋₊ = 0 := by
    rw [Nat.floor_eq_zero]; unfold val; norm_num
  rw [this] at hd
  exact hd

example : formatTo ⟨⟨8, false⟩, ⟨16, false⟩, 5, false⟩ {} 31 = .ok ['0', '.', '1', '6', '0', '7', '5'] := by decide +kernel

end Eirin.Props
