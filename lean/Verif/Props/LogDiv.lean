import Verif.Props.LogAll
import Verif.Props.ExpAll
import Verif.Props.Tan

/-! # Property C114: the natural and the decimal logarithm on every signed layout. -/

namespace Eirin.Props
open Spec Real

theorem sw_rep_four {F : FxTy} (h : SW F) (h4 : F.f + 4 ≤ F.T.bits) : Representable F 4 := by
  refine ⟨4 * 2 ^ F.f, ⟨?_, ?_⟩, by rw [val_int]; norm_num⟩
  · have := h.zero_in.1; have : (0 : Int) < 2 ^ F.f := by positivity
    omega
  · rw [h.hi_eq]
    have : (2 : Int) ^ (F.f + 3) ≤ 2 ^ (F.T.bits - 1) := pow_le_pow_right₀ (by norm_num) (by omega)
    have : (0 : Int) < 2 ^ F.f := by positivity
    rw [pow_add] at *; omega

/-- The converted 60-bit constant is less than one ulp below its real value. -/
theorem coeff60 {F : FxTy} (h : F.Valid) (hr : F.r = false) (hf : F.f < 60) (h4' : Representable F 4) {L : Int} (hL0 : 0 < L) (hL : (L : ℝ) / 2 ^ 60 ≤ 3.5) :
    ∃ z, fromFixedNumValue F i64 60 L = .ok z ∧ Storable F z ∧ rv F z ≤ L / 2 ^ 60 ∧ (L : ℝ) / 2 ^ 60 - uR F < rv F z := by
  have hL2 : L < 2 ^ 63 := by
    rw [div_le_iff₀ (by positivity)] at hL
    have : (L : ℝ) < ((2 ^ 63 : Int) : ℝ) := by push_cast; linarith
    exact_mod_cast this
  have hn := near_of (c := fun F => fromFixedNumValue F i64 60 L) (k := 60) (L := L) (ρ := (L : ℝ) / 2 ^ 60) (δ := 0) (fun _ => rfl)
    (by norm_num) (by norm_num) hL0 hL2 (by norm_num) (by simp) (by simp)
  obtain ⟨z, ez, sz, nz, -⟩ := hn F 4 h hf (by push_cast; linarith) (by exact_mod_cast h4')
  obtain ⟨n1, n2⟩ := nz hr
  rw [rv_eq] at n1 n2; rw [uR_eq] at n2
  exact ⟨z, ez, sz, by linarith, by linarith⟩

/-- Error of dividing an approximation `l` of `ℓ` by an approximation `c` of `lam`. -/
theorem log_quot {l ℓ c lam u : ℝ} (hc : 1 ≤ c) (hl0 : 0 < lam) (cl : |lam - c| ≤ 1.001 * u) (l1 : l ≤ ℓ) (l2 : ℓ < l + 4 * u) :
    |l / c - ℓ / lam| ≤ (4 + 1.001 * |ℓ / lam|) / c * u := by
  have hc0 : 0 < c := by linarith
  have e : l / c - ℓ / lam = ((l - ℓ) + (ℓ / lam) * (lam - c)) / c := by
    generalize hk : ℓ / lam = k
    have : ℓ = k * lam := by rw [← hk]; field_simp
    rw [this]; field_simp; ring
  rw [e, abs_div, abs_of_pos hc0, show (4 + 1.001 * |ℓ / lam|) / c * u = (4 + 1.001 * |ℓ / lam|) * u / c by ring]
  refine div_le_div_of_nonneg_right ?_ hc0.le
  have a1 : |l - ℓ| ≤ 4 * u := by rw [abs_le]; constructor <;> linarith
  have a2 : |ℓ / lam * (lam - c)| ≤ |ℓ / lam| * (1.001 * u) := by
    rw [abs_mul]
    exact mul_le_mul_of_nonneg_left cl (abs_nonneg _)
  have := abs_add_le (l - ℓ) (ℓ / lam * (lam - c))
  linarith

theorem log_div_ok {F : FxTy} (h : F.Valid) (hr : F.r = false) {L c : Int} (hL : Storable F L) (hc : 2 ^ F.f ≤ c) :
    div F L c = .ok (Int.tdiv (L * 2 ^ F.f) c) ∧ Storable F (Int.tdiv (L * 2 ^ F.f) c) := by
  have hp : (0 : Int) < 2 ^ F.f := by positivity
  have hc0 : 0 < c := by omega
  have hin : F.T.InRange (Int.tdiv (L * 2 ^ F.f) c) := by
    obtain ⟨l1, l2⟩ := hL
    have z1 : F.T.lo ≤ 0 := by unfold IntTy.lo; split <;> [exact neg_nonpos.2 (by positivity); exact le_rfl]
    have z2 : 0 ≤ F.T.hi := by unfold IntTy.hi; split <;> linarith [show (0 : Int) < 2 ^ (F.T.bits - 1) by positivity, show (0 : Int) < 2 ^ F.T.bits by positivity]
    rcases le_or_gt 0 L with hL0 | hL0
    · have e : 0 ≤ L * 2 ^ F.f := by positivity
      rw [Int.tdiv_eq_ediv_of_nonneg e]
      have a1 : 0 ≤ L * 2 ^ F.f / c := Int.ediv_nonneg e hc0.le
      have a2 : L * 2 ^ F.f / c ≤ L := by
        apply Int.ediv_le_of_le_mul hc0; nlinarith
      constructor <;> omega
    · have e : Int.tdiv (L * 2 ^ F.f) c = -((-L) * 2 ^ F.f / c) := by
        rw [← Int.tdiv_eq_ediv_of_nonneg (by nlinarith : 0 ≤ (-L) * 2 ^ F.f), neg_mul, Int.neg_tdiv, neg_neg]
      have a1 : 0 ≤ (-L) * 2 ^ F.f / c := Int.ediv_nonneg (by nlinarith) hc0.le
      have a2 : (-L) * 2 ^ F.f / c ≤ -L := by
        apply Int.ediv_le_of_le_mul hc0; nlinarith
      rw [e]
      constructor <;> omega
  rw [div_nf h hr hL, if_neg hc0.ne', IntTy.wrap_of_inRange h.tpos hin]
  exact ⟨rfl, hin⟩

theorem log_div {F : FxTy} (h : F.Valid) (hr : F.r = false) {L c : Int} {lam ℓ : ℝ} (hL : Storable F L) (n1 : rv F L ≤ ℓ) (n2 : ℓ < rv F L + 4 * uR F)
    (hc : 2 ^ F.f ≤ c) (hl0 : 0 < lam) (cl : |lam - rv F c| ≤ 1.001 * uR F) :
    ∃ q, div F L c = .ok q ∧ Storable F q ∧
      |rv F q - ℓ / lam| ≤ ((4 + 1.001 * |ℓ / lam|) / rv F c + 1) * uR F := by
  have hp : (0 : Int) < 2 ^ F.f := by positivity
  have hc0 : 0 < c := by omega
  obtain ⟨d1, d2⟩ := log_div_ok h hr hL hc
  refine ⟨_, d1, d2, ?_⟩
  have ht := trunc_spec F (L * 2 ^ F.f) c hc0.ne'
  have hcq : (c : ℚ) ≠ 0 := by exact_mod_cast hc0.ne'
  have eq : ((L * 2 ^ F.f : Int) : ℚ) / c / 2 ^ F.f = val F L / val F c := by
    unfold val; push_cast; field_simp
  rw [eq] at ht
  have hn' := isTrunc_near ht
  push_cast at hn'
  rw [rv_eq, rv_eq, rv_eq] at hn'
  have hc1 : 1 ≤ rv F c := by
    unfold rv; rw [le_div_iff₀ (by positivity)]
    have : ((2 ^ F.f : Int) : ℝ) ≤ c := by exact_mod_cast hc
    push_cast at this; linarith
  have := log_quot hc1 hl0 cl n1 n2
  have := abs_sub_le (rv F (Int.tdiv (L * 2 ^ F.f) c)) (rv F L / rv F c) (ℓ / lam)
  rw [add_mul, one_mul]
  linarith

theorem logb_exp_one : Real.logb 2 (Real.exp 1) = (Real.log 2)⁻¹ := by rw [Real.logb, Real.log_exp, one_div]

/-- What the logarithms need of a layout, signed or not. -/
structure LK (F : FxTy) : Prop where
  valid : F.Valid
  r : F.r = false
  h8 : 8 ≤ F.f
  h32 : F.f ≤ 32
  four : Representable F 4

/-- The layouts of C114. -/
structure LL (F : FxTy) : Prop where
  sw : SW F
  r : F.r = false
  h8 : 8 ≤ F.f
  h32 : F.f ≤ 32
  h4 : F.f + 4 ≤ F.T.bits

theorem LL.lk {F : FxTy} (h : LL F) : LK F := ⟨h.sw.valid, h.r, h.h8, h.h32, sw_rep_four h.sw h.h4⟩

theorem LK.u {F : FxTy} (h : LK F) : uR F ≤ 1 / 256 ∧ 1 / 2 ^ 32 ≤ uR F := by
  unfold uR
  constructor
  · apply div_le_div_of_nonneg_left (by norm_num) (by norm_num)
    have : (2 : ℝ) ^ 8 ≤ 2 ^ F.f := pow_le_pow_right₀ (by norm_num) h.h8
    norm_num at this ⊢; exact this
  · apply div_le_div_of_nonneg_left (by norm_num) (by positivity)
    exact pow_le_pow_right₀ (by norm_num) h.h32

/-- A divisor constant of the logarithms. -/
theorem LK.const {F : FxTy} (h : LK F) {L : Int} {lam : ℝ} (hL0 : 0 < L) (hL : (L : ℝ) / 2 ^ 60 ≤ 3.5) (hl : 1.1 ≤ lam)
    (hd : |lam - L / 2 ^ 60| ≤ 1 / 10 ^ 14) :
    ∃ c, fromFixedNumValue F i64 60 L = .ok c ∧ Storable F c ∧ 2 ^ F.f ≤ c ∧ lam - 0.004 ≤ rv F c ∧ |lam - rv F c| ≤ 1.001 * uR F := by
  obtain ⟨u1, u2⟩ := h.u
  obtain ⟨c, ec, sc, c1, c2⟩ := coeff60 h.valid h.r (by have := h.h32; omega) h.four hL0 hL
  have hu := uR_pos F
  rw [abs_le] at hd
  have hk : (1 : ℝ) / 10 ^ 14 ≤ 0.001 * uR F := by norm_num at u2 ⊢; linarith
  have hcl : lam - 0.004 ≤ rv F c := by norm_num at *; linarith
  refine ⟨c, ec, sc, ?_, hcl, ?_⟩
  · have : (1 : ℝ) ≤ rv F c := by norm_num at *; linarith
    unfold rv at this
    rw [le_div_iff₀ (by positivity), one_mul] at this
    exact_mod_cast this
  · rw [abs_le]; constructor <;> linarith

theorem log2e_near : |(Real.log 2)⁻¹ - ((0x171547652B82FE00 : Int) : ℝ) / 2 ^ 60| ≤ 1 / 10 ^ 14 := by
  obtain ⟨a1, a2⟩ := inv_bounds (by norm_num) RealConst.log_two_gt RealConst.log_two_lt
  rw [abs_le]; constructor <;> norm_num at a1 a2 ⊢ <;> linarith

theorem log2ten_near : |Real.log 10 / Real.log 2 - ((0x35269E12F346E200 : Int) : ℝ) / 2 ^ 60| ≤ 1 / 10 ^ 14 := by
  have l2 := RealConst.log_two_gt
  have l3 := RealConst.log_two_lt
  have t2 := RealConst.log_ten_gt
  have t3 := RealConst.log_ten_lt
  have p2 : (0 : ℝ) < Real.log 2 := by linarith
  rw [abs_le]
  have a1 : (3.321928094887361 : ℝ) ≤ Real.log 10 / Real.log 2 := by rw [le_div_iff₀ p2]; norm_num at *; linarith
  have a2 : Real.log 10 / Real.log 2 ≤ (3.321928094887364 : ℝ) := by rw [div_le_iff₀ p2]; norm_num at *; linarith
  constructor <;> norm_num at a1 a2 ⊢ <;> linarith

/-- Both logarithms, from a base-2 logarithm that is near the number `ℓ`. -/
theorem LK.log_of {F : FxTy} (h : LK F) {x L : Int} {ℓ : ℝ} (hL : log2 F x = .ok L) (hS : Storable F L) (n1 : rv F L ≤ ℓ) (n2 : ℓ < rv F L + 4 * uR F) :
    (∃ r, log F x = .ok r ∧ Storable F r ∧ |rv F r - ℓ * Real.log 2| ≤ (4 + 0.7 * |ℓ * Real.log 2|) * uR F) ∧
    (∃ r, log10 F x = .ok r ∧ Storable F r ∧ |rv F r - ℓ * Real.logb 10 2| ≤ (2.3 + 0.31 * |ℓ * Real.logb 10 2|) * uR F) := by
  have l2 := RealConst.log_two_gt
  have l3 := RealConst.log_two_lt
  have t2 := RealConst.log_ten_gt
  have t3 := RealConst.log_ten_lt
  have hu := uR_pos F
  constructor
  · have p2 : (0 : ℝ) < Real.log 2 := by linarith
    have i1 := log2e_near
    have i2 : (1.4426 : ℝ) ≤ (Real.log 2)⁻¹ := by
      rw [abs_le] at i1; norm_num at i1; linarith
    obtain ⟨c, ec, sc, c1, c2, c3⟩ := h.const (L := 0x171547652B82FE00) (by norm_num) (by norm_num) (by linarith) i1
    obtain ⟨q, eq, sq, hq⟩ := log_div h.valid h.r hS n1 n2 c1 (by linarith) c3
    refine ⟨q, by unfold log; rw [ec, Res.bind_ok, hL, Res.bind_ok, eq], sq, ?_⟩
    have e : ℓ / (Real.log 2)⁻¹ = ℓ * Real.log 2 := by field_simp
    rw [e] at hq
    refine hq.trans (mul_le_mul_of_nonneg_right ?_ hu.le)
    have hc0 : (0 : ℝ) < rv F c := by linarith
    have ha := abs_nonneg (ℓ * Real.log 2)
    have : (4 + 1.001 * |ℓ * Real.log 2|) / rv F c ≤ 3 + 0.7 * |ℓ * Real.log 2| := by
      rw [div_le_iff₀ hc0]
      have := mul_le_mul_of_nonneg_left (show (1.4386 : ℝ) ≤ rv F c by linarith) (show 0 ≤ 3 + 0.7 * |ℓ * Real.log 2| by positivity)
      linarith
    linarith
  · have p2 : (0 : ℝ) < Real.log 2 := by linarith
    have p10 : (0 : ℝ) < Real.log 10 := by linarith
    have i1 := log2ten_near
    have i2 : (3.3219 : ℝ) ≤ Real.log 10 / Real.log 2 := by
      rw [abs_le] at i1; norm_num at i1; linarith
    obtain ⟨c, ec, sc, c1, c2, c3⟩ := h.const (L := 0x35269E12F346E200) (by norm_num) (by norm_num) (by linarith) i1
    obtain ⟨q, eq, sq, hq⟩ := log_div h.valid h.r hS n1 n2 c1 (by linarith) c3
    refine ⟨q, by unfold log10; rw [ec, Res.bind_ok, hL, Res.bind_ok, eq], sq, ?_⟩
    have e : ℓ / (Real.log 10 / Real.log 2) = ℓ * Real.logb 10 2 := by unfold Real.logb; field_simp
    rw [e] at hq
    refine hq.trans (mul_le_mul_of_nonneg_right ?_ hu.le)
    have hc0 : (0 : ℝ) < rv F c := by linarith
    have ha := abs_nonneg (ℓ * Real.logb 10 2)
    have : (4 + 1.001 * |ℓ * Real.logb 10 2|) / rv F c ≤ 1.3 + 0.31 * |ℓ * Real.logb 10 2| := by
      rw [div_le_iff₀ hc0]
      have := mul_le_mul_of_nonneg_left (show (3.3179 : ℝ) ≤ rv F c by linarith) (show 0 ≤ 1.3 + 0.31 * |ℓ * Real.logb 10 2| by positivity)
      linarith
    linarith

theorem LK.log_all {F : FxTy} (h : LK F) {x L : Int} (hL : log2 F x = .ok L) (hS : Storable F L) (hn : LogNear F x L) :
    (∃ r, log F x = .ok r ∧ Storable F r ∧ |rv F r - Real.log (rv F x)| ≤ (4 + 0.7 * |Real.log (rv F x)|) * uR F) ∧
    (∃ r, log10 F x = .ok r ∧ Storable F r ∧ |rv F r - Real.logb 10 (rv F x)| ≤ (2.3 + 0.31 * |Real.logb 10 (rv F x)|) * uR F) := by
  obtain ⟨n1, n2⟩ := hn
  rw [rv_eq, rv_eq] at n1 n2
  rw [uR_eq] at n2
  have p2 : Real.log 2 ≠ 0 := by have := RealConst.log_two_gt; intro h; rw [h] at this; norm_num at this
  have e1 : Real.logb 2 (rv F x) * Real.log 2 = Real.log (rv F x) := by unfold Real.logb; field_simp
  have e2 : Real.logb 2 (rv F x) * Real.logb 10 2 = Real.logb 10 (rv F x) := by unfold Real.logb; field_simp
  rw [← e1, ← e2]
  exact h.log_of hL hS n1 n2

theorem ll_of {F : FxTy} (hF : F.Valid) (hs : SignedWide F) (hr : F.r = false) (h8 : 8 ≤ F.f) (h32 : F.f ≤ 32) (h4 : F.f + 4 ≤ F.T.bits) : LL F :=
  ⟨(lg_of hF hs h32 (by omega)).sw, hr, h8, h32, h4⟩

/-- C114: on every signed non-rounding layout with 8 to 26 fraction bits (32 with 64-bit storage) the logarithms of every storable number are
a domain error below or at zero, and otherwise differ from the real ones by the given number of ulps. -/
theorem C114_accuracy (F : FxTy) (hF : F.Valid) (hs : SignedWide F) (hr : F.r = false) (h8 : 8 ≤ F.f)
    (hg : F.f ≤ 26 ∨ F.T.bits = 64 ∧ F.f ≤ 32) (x : Int) (hx : Storable F x) :
    (val F x ≤ 0 → log F x = .throw .domainError ∧ log10 F x = .throw .domainError) ∧
    (0 < val F x →
      (∃ r, log F x = .ok r ∧ Storable F r ∧
        |((val F r : ℚ) : ℝ) - Real.log (val F x : ℚ)| ≤ (4 + 0.7 * |Real.log (val F x : ℚ)|) * (ulp F : ℚ)) ∧
      (∃ r, log10 F x = .ok r ∧ Storable F r ∧
        |((val F r : ℚ) : ℝ) - Real.logb 10 (val F x : ℚ)| ≤ (2.3 + 0.31 * |Real.logb 10 (val F x : ℚ)|) * (ulp F : ℚ))) := by
  have hb := hs.2
  have h : LL F := ll_of hF hs hr h8 (by omega) (by omega)
  obtain ⟨d1, d2⟩ := C100_layout_partial F hF hs hg x hx
  constructor
  · intro h0
    have l2 := RealConst.log_two_gt
    have l3 := RealConst.log_two_lt
    obtain ⟨c, ec, -⟩ := coeff60 h.lk.valid h.r (by have := h.h32; omega) h.lk.four (L := 0x171547652B82FE00) (by norm_num) (by norm_num)
    obtain ⟨d, ed, -⟩ := coeff60 h.lk.valid h.r (by have := h.h32; omega) h.lk.four (L := 0x35269E12F346E200) (by norm_num) (by norm_num)
    unfold log log10
    rw [ec, ed, Res.bind_ok, Res.bind_ok, d1 h0]
    exact ⟨rfl, rfl⟩
  · intro h0
    obtain ⟨L, e, hS, hn⟩ := d2 h0
    simp only [rv_eq, uR_eq]
    exact h.lk.log_all e hS hn

theorem log2_st {F : FxTy} (h : LG F) {x L : Int} (hx : Storable F x) (h0 : 0 < x) (e : log2 F x = .ok L) : Storable F L := by
  obtain ⟨m, k, hn, hk, e1, e2, hok, hub⟩ := h.log2_raw hx h0
  by_cases hc : F.T.lo ≤ k * 2 ^ F.f
  · obtain ⟨a, b⟩ := hok hc
    rw [a] at e; cases e; exact b
  · rw [hub (by omega)] at e; cases e

/-- C114: where the layout has more fraction bits, up to 32, the same accuracy holds for each number whose binary logarithm has a
representable integral part, and the logarithms of the other positive numbers overflow. -/
theorem C114_sharp (F : FxTy) (hF : F.Valid) (hs : SignedWide F) (hr : F.r = false) (h8 : 8 ≤ F.f) (h32 : F.f ≤ 32) (h4 : F.f + 4 ≤ F.T.bits)
    (x k : Int) (hx : Storable F x) (h1 : (2 : ℚ) ^ k ≤ val F x) (h2 : val F x < (2 : ℚ) ^ (k + 1)) :
    (Representable F k →
      (∃ r, log F x = .ok r ∧ Storable F r ∧
        |((val F r : ℚ) : ℝ) - Real.log (val F x : ℚ)| ≤ (4 + 0.7 * |Real.log (val F x : ℚ)|) * (ulp F : ℚ)) ∧
      (∃ r, log10 F x = .ok r ∧ Storable F r ∧
        |((val F r : ℚ) : ℝ) - Real.logb 10 (val F x : ℚ)| ≤ (2.3 + 0.31 * |Real.logb 10 (val F x : ℚ)|) * (ulp F : ℚ))) ∧
    (¬ Representable F k → log F x = .ub .overflow ∧ log10 F x = .ub .overflow) := by
  have h : LL F := ll_of hF hs hr h8 h32 h4
  obtain ⟨d1, d2⟩ := C100_sharp F hF hs h32 (by omega) x k hx h1 h2
  constructor
  · intro hk
    obtain ⟨L, e, hn⟩ := d1 hk
    have h0 : 0 < val F x := lt_of_lt_of_le (by positivity) h1
    rw [← val_zero F, val_lt] at h0
    simp only [rv_eq, uR_eq]
    exact h.lk.log_all e (log2_st (lg_of hF hs h32 (by omega)) hx h0 e) hn
  · intro hk
    obtain ⟨c, ec, -⟩ := coeff60 h.sw.valid h.r (by omega) h.lk.four (L := 0x171547652B82FE00) (by norm_num) (by norm_num)
    obtain ⟨d, ed, -⟩ := coeff60 h.sw.valid h.r (by omega) h.lk.four (L := 0x35269E12F346E200) (by norm_num) (by norm_num)
    unfold log log10
    rw [ec, ed, Res.bind_ok, Res.bind_ok, d2 hk]
    exact ⟨rfl, rfl⟩

example : log ⟨i32, i64, 28, false⟩ (2 ^ 20) = .ok (-1488522236) ∧ log ⟨i32, i64, 28, false⟩ (2 ^ 20 - 1) = .ub .overflow ∧
    log10 ⟨i64, i128, 30, false⟩ (7 * 2 ^ 30) = .ok 907417110 ∧ log ⟨i64, i128, 20, false⟩ 0 = .throw .domainError := by decide +kernel

/-- C114: with 33 to 59 fraction bits the logarithms are undefined for every argument. -/
theorem C114_shift (F : FxTy) (hF : F.Valid) (hs : SignedWide F) (hr : F.r = false) (h : 33 ≤ F.f) (h59 : F.f ≤ 59) (h4 : F.f + 4 ≤ F.T.bits)
    (x : Int) : log F x = .ub .shift ∧ log10 F x = .ub .shift := by
  have hsw : SW F := by
    have hp : (0 : Int) < 2 ^ F.f := by positivity
    have h1 : (2 : Int) ^ (F.f + 3) ≤ 2 ^ (F.T.bits - 1) := pow_le_pow_right₀ (by norm_num) (by omega)
    rw [pow_add] at h1
    refine ⟨hF, hs, ?_, ?_⟩
    · unfold IntTy.lo; rw [hs.1, if_pos rfl]; omega
    · unfold IntTy.hi; rw [hs.1, if_pos rfl]; omega
  obtain ⟨c, ec, -⟩ := coeff60 hF hr (by omega) (sw_rep_four hsw h4) (L := 0x171547652B82FE00) (by norm_num) (by norm_num)
  obtain ⟨d, ed, -⟩ := coeff60 hF hr (by omega) (sw_rep_four hsw h4) (L := 0x35269E12F346E200) (by norm_num) (by norm_num)
  unfold log log10
  rw [ec, ed, Res.bind_ok, Res.bind_ok, C100_shift F h x]
  exact ⟨rfl, rfl⟩

/-- C114: both logarithms are monotone wherever they are defined. -/
theorem C114_monotone (F : FxTy) (hF : F.Valid) (hs : SignedWide F) (hr : F.r = false) (h8 : 8 ≤ F.f) (h32 : F.f ≤ 32) (h4 : F.f + 4 ≤ F.T.bits)
    (x y a b a' b' : Int) (hx : Storable F x) (hy : Storable F y) (h0 : 0 < val F x) (hxy : val F x ≤ val F y)
    (ha : log F x = .ok a) (hb : log F y = .ok b) (ha' : log10 F x = .ok a') (hb' : log10 F y = .ok b') :
    val F a ≤ val F b ∧ val F a' ≤ val F b' := by
  have h : LL F := ll_of hF hs hr h8 h32 h4
  have hg := lg_of hF hs h32 (by omega)
  have hp : (0 : Int) < 2 ^ F.f := by positivity
  have mono := C100_monotone F hF hs h32 (by omega) x y
  have key : ∀ (L : Int) (lam : ℝ) (u v : Int), 0 < L → (L : ℝ) / 2 ^ 60 ≤ 3.5 → 1.1 ≤ lam → |lam - L / 2 ^ 60| ≤ 1 / 10 ^ 14 →
      (fromFixedNumValue F i64 60 L >>= fun c => log2 F x >>= fun l => div F l c) = .ok u →
      (fromFixedNumValue F i64 60 L >>= fun c => log2 F y >>= fun l => div F l c) = .ok v → val F u ≤ val F v := by
    intro L lam u v a1 a2 a3 a4 e1 e2
    obtain ⟨c, ec, sc, c1, c2, c3⟩ := h.lk.const a1 a2 a3 a4
    rw [ec] at e1 e2
    rcases hX : log2 F x with lx | _ | _
    · rcases hY : log2 F y with ly | _ | _
      · rw [hX] at e1; rw [hY] at e2
        rw [← val_zero F, val_lt] at h0
        have m1 := mono lx ly hx hy (by rw [← val_zero F, val_lt]; exact h0) hxy hX hY
        have xy : x ≤ y := val_le.1 hxy
        have e1' : div F lx c = .ok u := e1
        have e2' : div F ly c = .ok v := e2
        have cp : 0 < c := by omega
        rw [(log_div_ok h.sw.valid h.r (log2_st hg hx h0 hX) c1).1] at e1'
        rw [(log_div_ok h.sw.valid h.r (log2_st hg hy (by omega) hY) c1).1] at e2'
        cases e1'; cases e2'
        rw [val_le] at m1 ⊢
        exact tdiv_mono cp (mul_le_mul_of_nonneg_right m1 hp.le)
      · rw [hY] at e2; cases e2
      · rw [hY] at e2; cases e2
    · rw [hX] at e1; cases e1
    · rw [hX] at e1; cases e1
  have i2 : |(Real.log 2)⁻¹ - ((0x171547652B82FE00 : Int) : ℝ) / 2 ^ 60| ≤ 1 / 10 ^ 14 := log2e_near
  have i10 : |Real.log 10 / Real.log 2 - ((0x35269E12F346E200 : Int) : ℝ) / 2 ^ 60| ≤ 1 / 10 ^ 14 := log2ten_near
  refine ⟨key _ _ a b (by norm_num) (by norm_num) ?_ i2 ha hb, key _ _ a' b' (by norm_num) (by norm_num) ?_ i10 ha' hb'⟩
  · rw [abs_le] at i2; norm_num at i2 ⊢; linarith
  · rw [abs_le] at i10; norm_num at i10 ⊢; linarith

end Eirin.Props
