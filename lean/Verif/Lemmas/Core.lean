import Verif.Spec

/-! # Helper lemmas about the types of an expression and intermediate ranges (not properties). -/

set_option linter.unusedSectionVars false

namespace Eirin
open Spec

/-- Bound on the magnitude of operands of products: the value range of `t`, closed at `2^(bits-1)` for signed types. -/
def Bounded (t : IntTy) (x : Int) : Prop :=
  if t.signed then -(2 ^ (t.bits - 1)) ≤ x ∧ x ≤ 2 ^ (t.bits - 1) else 0 ≤ x ∧ x < 2 ^ t.bits

theorem Bounded.of_inRange {t : IntTy} {x : Int} (h : t.InRange x) : Bounded t x := by
  obtain ⟨h1, h2⟩ := h
  unfold IntTy.lo at h1; unfold IntTy.hi at h2; unfold Bounded
  cases hs : t.signed <;> simp only [hs, if_true, Bool.false_eq_true, if_false] at h1 h2 ⊢ <;> omega

namespace FxTy.Valid
variable {F : FxTy} (h : F.Valid)
include h

theorem tpos : 0 < F.T.bits := by obtain ⟨h1, _⟩ := h; omega
theorem ppos : 0 < F.P.bits := by
  have := h.tpos
  unfold FxTy.P IntTy.promote; split <;> simp_all
theorem fpos : 0 < F.f := h.2.2.2.2.1
theorem flt : F.f < F.T.bits := by have := h.2.2.2.2.2; have := h.tpos; omega
theorem tp : F.T.bits ≤ F.P.bits := by
  unfold FxTy.P IntTy.promote; split <;> simp; omega
theorem flt_p : F.f < F.P.bits := lt_of_lt_of_le h.flt h.tp
theorem two_t_le : 2 * F.T.bits ≤ F.I.bits := by
  obtain ⟨h1, h2, h3, _⟩ := h; omega
theorem ip : F.I.bits ≤ F.I.promote.bits := by
  unfold IntTy.promote; split <;> simp; omega
theorem two_t_le_ip : 2 * F.T.bits ≤ F.I.promote.bits := le_trans h.two_t_le h.ip
theorem c_eq : F.C = F.I.promote := by
  obtain ⟨h1, h2, h3, h4, _⟩ := h
  unfold FxTy.C IntTy.common
  have hp : ∀ a : IntTy, a.promote = if a.bits < 32 then ⟨32, true⟩ else a := fun a => rfl
  obtain ⟨T, I, f, r⟩ := F
  obtain ⟨tb, ts⟩ := T
  obtain ⟨ib, is⟩ := I
  simp only [hp] at *
  subst h4
  rcases h1 with h1 | h1 | h1 | h1 <;> rcases h2 with h2 | h2 | h2 | h2 <;> subst h1 <;> subst h2 <;>
    first | omega | (cases is <;> decide)
theorem ip_cases : F.I.promote.signed = F.T.signed ∨
    (F.I.promote.signed = true ∧ 2 * F.T.bits < F.I.promote.bits) := by
  obtain ⟨h1, h2, h3, h4, _⟩ := h
  unfold IntTy.promote
  split
  · right; simp; omega
  · left; exact h4
theorem p_cases : F.P = F.T ∨ (F.P = i32 ∧ F.T.bits < 32) := by
  unfold FxTy.P IntTy.promote; split
  · right; exact ⟨rfl, by assumption⟩
  · left; rfl
theorem p_eq (hw : 32 ≤ F.T.bits) : F.P = F.T := by
  unfold FxTy.P IntTy.promote; rw [if_neg (by omega)]
theorem ippos : 0 < F.I.promote.bits := by have := h.two_t_le_ip; have := h.tpos; omega
end FxTy.Valid

/-- A product of two `T`-sized operands is representable in the (promoted) intermediate type. -/
theorem mul_inRange_ip {F : FxTy} (h : F.Valid) {x y : Int} (hx : Bounded F.T x) (hy : Bounded F.T y) :
    F.I.promote.InRange (x * y) := by
  have h2 := h.two_t_le_ip
  have ht := h.tpos
  have hip := h.ippos
  have hc := h.ip_cases
  generalize F.I.promote = t at *
  unfold Bounded at hx hy
  unfold IntTy.InRange IntTy.lo IntTy.hi
  cases hs : F.T.signed
  · simp only [hs, Bool.false_eq_true, if_false] at hx hy
    have e : (2 : Int) ^ F.T.bits * 2 ^ F.T.bits = 2 ^ (2 * F.T.bits) := by rw [← pow_add]; congr 1; omega
    have hxy : x * y < 2 ^ (2 * F.T.bits) := by
      rw [← e]; nlinarith [hx.1, hx.2, hy.1, hy.2]
    have h0 : 0 ≤ x * y := mul_nonneg hx.1 hy.1
    cases hts : t.signed
    · simp only [Bool.false_eq_true, if_false]
      have : (2 : Int) ^ (2 * F.T.bits) ≤ 2 ^ t.bits := pow_le_pow_right₀ (by norm_num) h2
      omega
    · simp only [if_true]
      have : (2 : Int) ^ (2 * F.T.bits) ≤ 2 ^ (t.bits - 1) := by
        apply pow_le_pow_right₀ (by norm_num)
        rcases hc with hc | hc
        · simp_all
        · omega
      have : (0 : Int) < 2 ^ (t.bits - 1) := by positivity
      omega
  · simp only [hs, if_true] at hx hy
    have hts : t.signed = true := by rcases hc with hc | hc <;> simp_all
    simp only [hts, if_true]
    have e : (2 : Int) ^ (F.T.bits - 1) * 2 ^ (F.T.bits - 1) = 2 ^ (2 * F.T.bits - 2) := by
      rw [← pow_add]; congr 1; omega
    have hlt : (2 : Int) ^ (2 * F.T.bits - 2) < 2 ^ (t.bits - 1) := pow_lt_pow_right₀ (by norm_num) (by omega)
    have h1 : x * y ≤ 2 ^ (2 * F.T.bits - 2) := by
      rw [← e]; nlinarith [hx.1, hx.2, hy.1, hy.2]
    have h2 : -(2 ^ (2 * F.T.bits - 2)) ≤ x * y := by
      rw [← e]; nlinarith [hx.1, hx.2, hy.1, hy.2]
    omega

theorem two_pow_f_bounded {F : FxTy} (h : F.Valid) : Bounded F.T (2 ^ F.f) := by
  have hf := h.flt
  unfold Bounded
  have h0 : (0 : Int) < 2 ^ F.f := by positivity
  have h1 : (0 : Int) < 2 ^ (F.T.bits - 1) := by positivity
  split
  · have : (2 : Int) ^ F.f ≤ 2 ^ (F.T.bits - 1) := pow_le_pow_right₀ (by norm_num) (by omega)
    omega
  · have : (2 : Int) ^ F.f < 2 ^ F.T.bits := pow_lt_pow_right₀ (by norm_num) hf
    omega

theorem shl_ok {F : FxTy} (h : F.Valid) {x : Int} (hx : F.T.InRange x) : shl F.I x F.f = .ok (x * 2 ^ F.f) := by
  unfold shl
  have h2 := h.two_t_le_ip
  have := h.flt
  rw [if_pos (by omega), IntTy.wrap_of_inRange h.ippos (mul_inRange_ip h (.of_inRange hx) (two_pow_f_bounded h))]

theorem isWrap_wrap {F : FxTy} (h : F.Valid) (n : Int) : IsWrap F n (F.T.wrap n) :=
  ⟨IntTy.wrap_inRange n h.tpos, IntTy.wrap_dvd F.T n⟩

/-- Truncating division stays within any range containing the dividend and its negation. -/
theorem natAbs_tdiv_le (a b : Int) : |Int.tdiv a b| ≤ |a| := by
  have h := Int.natAbs_tdiv a b
  have h2 : (Int.tdiv a b).natAbs ≤ a.natAbs := by rw [h]; exact Nat.div_le_self _ _
  rw [Int.abs_eq_natAbs, Int.abs_eq_natAbs]; exact_mod_cast h2

theorem floor_spec (F : FxTy) (n : Int) :
    IsFloor F ((n : ℚ) / 2 ^ F.f / 2 ^ F.f) (n / 2 ^ F.f) := by
  unfold IsFloor val ulp
  have hp : (0 : Int) < 2 ^ F.f := by positivity
  have hq : (0 : ℚ) < 2 ^ F.f := by positivity
  have h1 := Int.ediv_mul_le n (ne_of_gt hp)
  have h2 := Int.lt_ediv_add_one_mul_self n hp
  constructor
  · apply div_le_div_of_nonneg_right _ hq.le
    rw [le_div_iff₀ hq]; exact_mod_cast h1
  · rw [← add_div]; apply div_lt_div_of_pos_right _ hq
    rw [div_lt_iff₀ hq]; exact_mod_cast h2

/-- `Int.tdiv a b`, seen as a number of ulps, is the truncation of the rational `a/b` ulps. -/
theorem trunc_spec (F : FxTy) (a b : Int) (hb : b ≠ 0) :
    IsTrunc F ((a : ℚ) / b / 2 ^ F.f) (Int.tdiv a b) := by
  have hq : (0 : ℚ) < 2 ^ F.f := by positivity
  have key : ∀ q : ℚ, ∀ n : Int, ((0 ≤ q → 0 ≤ (n : ℚ) ∧ n ≤ q ∧ q < n + 1) ∧ (q < 0 → (n : ℚ) ≤ 0 ∧ q ≤ n ∧ n - 1 < q)) →
      IsTrunc F (q / 2 ^ F.f) n := by
    intro q n ⟨h1, h2⟩
    unfold IsTrunc val ulp
    rw [← add_div, ← sub_div]
    constructor
    · intro h
      have h' : 0 ≤ q := by rcases lt_or_ge q 0 with h'' | h''
                            · exact absurd h (not_le.2 (div_neg_of_neg_of_pos h'' hq))
                            · exact h''
      obtain ⟨a, b, c⟩ := h1 h'
      exact ⟨div_nonneg a hq.le, div_le_div_of_nonneg_right b hq.le, div_lt_div_of_pos_right c hq⟩
    · intro h
      have h' : q < 0 := by rcases lt_or_ge q 0 with h'' | h''
                            · exact h''
                            · exact absurd h (not_lt.2 (div_nonneg h'' hq.le))
      obtain ⟨a, b, c⟩ := h2 h'
      exact ⟨div_nonpos_of_nonpos_of_nonneg a hq.le, div_le_div_of_nonneg_right b hq.le, div_lt_div_of_pos_right c hq⟩
  apply key
  have hm := Int.tmod_add_mul_tdiv a b
  have hl : (Int.tmod a b).natAbs < b.natAbs := by
    rw [Int.natAbs_tmod]; exact Nat.mod_lt _ (Int.natAbs_pos.2 hb)
  have hsgn := Int.tmod_nonneg (a := a) b
  have hsgn2 : a ≤ 0 → Int.tmod a b ≤ 0 := by
    intro h
    have := Int.tmod_nonneg (a := -a) b (by omega)
    rw [Int.neg_tmod] at this; omega
  have hbq : (b : ℚ) ≠ 0 := by exact_mod_cast hb
  have hval : (a : ℚ) / b = Int.tdiv a b + (Int.tmod a b : ℚ) / b := by
    field_simp
    have : (a : ℚ) = Int.tmod a b + b * Int.tdiv a b := by exact_mod_cast hm.symm
    linarith
  set d := Int.tdiv a b
  set m := Int.tmod a b
  -- the fractional part has magnitude below one and the sign of `a/b`
  have hd0 : a = 0 → d = 0 := by intro h; simp [d, h]
  rcases lt_or_gt_of_ne hb with hb' | hb'
  · -- b < 0
    have hbq' : (b : ℚ) < 0 := by exact_mod_cast hb'
    constructor
    · intro h
      have ha : a ≤ 0 := by
        by_contra hc; push Not at hc
        have : (a : ℚ) / b < 0 := div_neg_of_pos_of_neg (by exact_mod_cast hc) hbq'
        linarith
      have hmn := hsgn2 ha
      have hfr0 : 0 ≤ (m : ℚ) / b := div_nonneg_of_nonpos (by exact_mod_cast hmn) hbq'.le
      have hfr1 : (m : ℚ) / b < 1 := by
        rw [div_lt_one_of_neg hbq']; have : b < m := by omega
        exact_mod_cast this
      have hdn : 0 ≤ d := by
        have : 0 ≤ b * d → d ≤ 0 := fun h => by
          by_contra hc; push Not at hc; nlinarith
        by_contra hc; push Not at hc
        have : b * d ≥ -b := by nlinarith
        omega
      refine ⟨by exact_mod_cast hdn, by linarith, by linarith⟩
    · intro h
      have ha : 0 < a := by
        by_contra hc; push Not at hc
        have : 0 ≤ (a : ℚ) / b := div_nonneg_of_nonpos (by exact_mod_cast hc) hbq'.le
        linarith
      have hmn := hsgn ha.le
      have hfr0 : (m : ℚ) / b ≤ 0 := div_nonpos_of_nonneg_of_nonpos (by exact_mod_cast hmn) hbq'.le
      have hfr1 : -1 < (m : ℚ) / b := by
        rw [lt_div_iff_of_neg hbq']; have : m < -b := by omega
        have : (m : ℚ) < -b := by exact_mod_cast this
        linarith
      have hdn : d ≤ 0 := by
        by_contra hc; push Not at hc
        have : b * d ≤ b := by nlinarith
        omega
      refine ⟨by exact_mod_cast hdn, by linarith, by linarith⟩
  · have hbq' : (0 : ℚ) < b := by exact_mod_cast hb'
    constructor
    · intro h
      have ha : 0 ≤ a := by
        by_contra hc; push Not at hc
        have : (a : ℚ) / b < 0 := div_neg_of_neg_of_pos (by exact_mod_cast hc) hbq'
        linarith
      have hmn := hsgn ha
      have hfr0 : 0 ≤ (m : ℚ) / b := div_nonneg (by exact_mod_cast hmn) hbq'.le
      have hfr1 : (m : ℚ) / b < 1 := by
        rw [div_lt_one hbq']; have : m < b := by omega
        exact_mod_cast this
      have hdn : 0 ≤ d := by
        by_contra hc; push Not at hc
        have : b * d ≤ -b := by nlinarith
        omega
      refine ⟨by exact_mod_cast hdn, by linarith, by linarith⟩
    · intro h
      have ha : a < 0 := by
        by_contra hc; push Not at hc
        have : 0 ≤ (a : ℚ) / b := div_nonneg (by exact_mod_cast hc) hbq'.le
        linarith
      have hmn := hsgn2 ha.le
      have hfr0 : (m : ℚ) / b ≤ 0 := div_nonpos_of_nonpos_of_nonneg (by exact_mod_cast hmn) hbq'.le
      have hfr1 : -1 < (m : ℚ) / b := by
        rw [lt_div_iff₀ hbq']; have : -b < m := by omega
        have : -(b : ℚ) < m := by exact_mod_cast this
        linarith
      have hdn : d ≤ 0 := by
        by_contra hc; push Not at hc
        have : b * d ≥ b := by nlinarith
        omega
      refine ⟨by exact_mod_cast hdn, by linarith, by linarith⟩

end Eirin
