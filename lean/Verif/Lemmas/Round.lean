import Verif.Lemmas.Arith

/-! # Helper lemmas about the `rounding = true` code paths. -/

set_option linter.unusedSectionVars false

namespace Eirin
open Spec
variable {F : FxTy}

/-- Helper: the code's `v + v % 2` with `v = trunc(2a/b)` is twice the nearest integer to `a/b` (ties away). -/
theorem round_twice (a b : Int) (hb : b ≠ 0) :
    ∃ n : Int, Int.tdiv (2 * a) b + Int.tmod (Int.tdiv (2 * a) b) 2 = 2 * n ∧
      |(a : ℚ) / b - n| ≤ 1 / 2 ∧ (|(a : ℚ) / b - n| = 1 / 2 → |(a : ℚ) / b| < |(n : ℚ)|) := by
  -- reduce to non-negative quotient
  have pos : ∀ a b : Int, 0 ≤ a → 0 < b → ∃ n : Int, 0 ≤ n ∧
      Int.tdiv (2 * a) b + Int.tmod (Int.tdiv (2 * a) b) 2 = 2 * n ∧
      |(a : ℚ) / b - n| ≤ 1 / 2 ∧ (|(a : ℚ) / b - n| = 1 / 2 → (a : ℚ) / b < n) := by
    intro a b ha hb
    have hv : Int.tdiv (2 * a) b = (2 * a) / b := Int.tdiv_eq_ediv_of_nonneg (by omega)
    have hv0 : 0 ≤ (2 * a) / b := Int.ediv_nonneg (by omega) hb.le
    have h1 := Int.ediv_mul_le (2 * a) (ne_of_gt hb)
    have h2 := Int.lt_ediv_add_one_mul_self (2 * a) hb
    rw [hv]
    set v := (2 * a) / b
    rw [Int.tmod_eq_emod_of_nonneg hv0]
    have hbq : (0 : ℚ) < b := by exact_mod_cast hb
    have q1 : (v : ℚ) / 2 ≤ (a : ℚ) / b := by
      rw [div_le_div_iff₀ (by norm_num) hbq]
      have : (v : ℚ) * b ≤ 2 * a := by exact_mod_cast h1
      linarith
    have q2 : (a : ℚ) / b < (v + 1) / 2 := by
      rw [div_lt_div_iff₀ hbq (by norm_num)]
      have : (2 : ℚ) * a < (v + 1) * b := by exact_mod_cast h2
      linarith
    rcases Int.emod_two_eq_zero_or_one v with hm | hm
    · refine ⟨v / 2, by omega, by omega, ?_⟩
      have e : ((v / 2 : Int) : ℚ) = v / 2 := by
        have : v = 2 * (v / 2) := by omega
        have : (v : ℚ) = 2 * ((v / 2 : Int) : ℚ) := by exact_mod_cast this
        linarith
      rw [e, abs_of_nonneg (by linarith)]
      exact ⟨by linarith, fun h => by linarith⟩
    · refine ⟨(v + 1) / 2, by omega, by omega, ?_⟩
      have e : (((v + 1) / 2 : Int) : ℚ) = (v + 1) / 2 := by
        have : v + 1 = 2 * ((v + 1) / 2) := by omega
        have : (v : ℚ) + 1 = 2 * (((v + 1) / 2 : Int) : ℚ) := by exact_mod_cast this
        linarith
      rw [e, abs_of_nonpos (by linarith)]
      exact ⟨by linarith, fun h => by linarith⟩
  -- sign cases
  have lift : ∀ s a b : Int, (s = 1 ∨ s = -1) → 0 ≤ s * a → 0 < b →
      ∃ n : Int, Int.tdiv (2 * a) b + Int.tmod (Int.tdiv (2 * a) b) 2 = 2 * n ∧
      |(a : ℚ) / b - n| ≤ 1 / 2 ∧ (|(a : ℚ) / b - n| = 1 / 2 → |(a : ℚ) / b| < |(n : ℚ)|) := by
    intro s a b hs ha hb
    have hbq : (0 : ℚ) < b := by exact_mod_cast hb
    rcases hs with rfl | rfl
    · obtain ⟨n, h0, h1, h2, h3⟩ := pos a b (by omega) hb
      refine ⟨n, h1, h2, fun h => ?_⟩
      rw [abs_of_nonneg (div_nonneg (by exact_mod_cast (by omega : (0:Int) ≤ a)) hbq.le),
        abs_of_nonneg (by exact_mod_cast h0)]
      exact h3 h
    · obtain ⟨n, h0, h1, h2, h3⟩ := pos (-a) b (by omega) hb
      refine ⟨-n, ?_, ?_, ?_⟩
      · have e : 2 * -a = -(2 * a) := by ring
        rw [e, Int.neg_tdiv, Int.neg_tmod] at h1; linarith
      · have e : (a : ℚ) / b - ((-n : Int) : ℚ) = -(((-a : Int) : ℚ) / b - n) := by push_cast; ring
        rw [e, abs_neg]; exact h2
      · have e : (a : ℚ) / b - ((-n : Int) : ℚ) = -(((-a : Int) : ℚ) / b - n) := by push_cast; ring
        rw [e, abs_neg]
        intro h
        have := h3 h
        have hn : |((-n : Int) : ℚ)| = n := by
          push_cast; rw [abs_neg, abs_of_nonneg (by exact_mod_cast h0)]
        have ha' : |(a : ℚ) / b| = ((-a : Int) : ℚ) / b := by
          have : (a : ℚ) / b ≤ 0 := div_nonpos_of_nonpos_of_nonneg (by exact_mod_cast (by omega : a ≤ 0)) hbq.le
          rw [abs_of_nonpos this]; push_cast; ring
        rw [hn, ha']; exact this
  rcases lt_or_gt_of_ne hb with h | h
  · -- b < 0 : use (-a)/(-b)
    have hb' : 0 < -b := by omega
    have key : ∃ n : Int, Int.tdiv (2 * -a) (-b) + Int.tmod (Int.tdiv (2 * -a) (-b)) 2 = 2 * n ∧
      |((-a : Int) : ℚ) / (-b : Int) - n| ≤ 1 / 2 ∧ (|((-a : Int) : ℚ) / (-b : Int) - n| = 1 / 2 → |((-a : Int) : ℚ) / (-b : Int)| < |(n : ℚ)|) := by
      rcases le_total 0 (-a) with h0 | h0
      · exact lift 1 (-a) (-b) (.inl rfl) (by omega) hb'
      · exact lift (-1) (-a) (-b) (.inr rfl) (by omega) hb'
    have e1 : 2 * -a = -(2 * a) := by ring
    have e2 : ((-a : Int) : ℚ) / (-b : Int) = (a : ℚ) / b := by push_cast; rw [neg_div_neg_eq]
    rw [e1, Int.neg_tdiv_neg, e2] at key
    exact key
  · rcases le_total 0 a with h0 | h0
    · exact lift 1 a b (.inl rfl) (by omega) h
    · exact lift (-1) a b (.inr rfl) (by omega) h


theorem nearest_scale (F : FxTy) {q : ℚ} {n : Int}
    (h : |q - n| ≤ 1 / 2 ∧ (|q - n| = 1 / 2 → |q| < |(n : ℚ)|)) : IsNearest F (q / 2 ^ F.f) n := by
  obtain ⟨h2, h3⟩ := h
  unfold IsNearest val ulp
  have hq : (0 : ℚ) < 2 ^ F.f := by positivity
  have e : ∀ a : ℚ, |a / 2 ^ F.f| = |a| / 2 ^ F.f := fun a => by rw [abs_div, abs_of_pos hq]
  rw [← sub_div, e, e, e, div_right_comm (1 : ℚ)]
  constructor
  · exact div_le_div_of_nonneg_right h2 hq.le
  · intro h
    apply div_lt_div_of_pos_right _ hq
    exact h3 ((div_left_inj' (ne_of_gt hq)).1 h)

theorem fractionMultiplier_eq (h : F.Valid) : fractionMultiplier F = 2 ^ F.f := by
  unfold fractionMultiplier
  apply IntTy.wrap_of_inRange
  · have := h.two_t_le; have := h.tpos; omega
  · have := h.two_t_le; have := h.flt; have := h.tpos
    have hlt : (2 : Int) ^ F.f < 2 ^ (F.I.bits - 1) := pow_lt_pow_right₀ (by norm_num) (by omega)
    have hlt2 : (2 : Int) ^ F.f < 2 ^ F.I.bits := pow_lt_pow_right₀ (by norm_num) (by omega)
    have : (0 : Int) < 2 ^ F.f := by positivity
    unfold IntTy.InRange IntTy.lo IntTy.hi; split <;> omega

theorem mul_abs_lt_ip (h : F.Valid) {x y : Int} (hx : Bounded F.T x) (hy : Bounded F.T y)
    (hs : F.I.promote.signed = true) : |x * y| < 2 ^ (F.I.promote.bits - 1) - 1 := by
  have h2t := h.two_t_le_ip
  have ht := h.tpos
  rw [abs_mul]
  have hIp : 4 ≤ F.I.promote.bits := by have := h.1; omega
  unfold Bounded at hx hy
  cases hts : F.T.signed
  · simp only [hts, Bool.false_eq_true, if_false] at hx hy
    have hc := h.ip_cases
    rw [hts, hs] at hc
    have hc' : 2 * F.T.bits < F.I.promote.bits := by rcases hc with hc | hc; cases hc; exact hc.2
    have a1 : |x| ≤ 2 ^ F.T.bits - 1 := by rw [abs_of_nonneg hx.1]; omega
    have a2 : |y| ≤ 2 ^ F.T.bits - 1 := by rw [abs_of_nonneg hy.1]; omega
    have a0 : (2 : Int) ≤ 2 ^ F.T.bits := by
      calc (2 : Int) = 2 ^ 1 := by norm_num
        _ ≤ _ := pow_le_pow_right₀ (by norm_num) (by omega)
    have e : (2 : Int) ^ F.T.bits * 2 ^ F.T.bits = 2 ^ (2 * F.T.bits) := by rw [← pow_add]; congr 1; omega
    have : (2 : Int) ^ (2 * F.T.bits) ≤ 2 ^ (F.I.promote.bits - 1) := pow_le_pow_right₀ (by norm_num) (by omega)
    nlinarith [abs_nonneg x, abs_nonneg y]
  · simp only [hts, if_true] at hx hy
    have a1 : |x| ≤ 2 ^ (F.T.bits - 1) := abs_le.2 hx
    have a2 : |y| ≤ 2 ^ (F.T.bits - 1) := abs_le.2 hy
    have e : (2 : Int) ^ (F.T.bits - 1) * 2 ^ (F.T.bits - 1) = 2 ^ (2 * F.T.bits - 2) := by
      rw [← pow_add]; congr 1; omega
    have e2 : (2 : Int) ^ (2 * F.T.bits - 2) ≤ 2 ^ (F.I.promote.bits - 2) := pow_le_pow_right₀ (by norm_num) (by omega)
    have e3 : (2 : Int) ^ (F.I.promote.bits - 1) = 2 * 2 ^ (F.I.promote.bits - 2) := by
      have := IntTy.two_pow_pred (F.I.promote.bits - 1) (by omega)
      rw [this]; congr 2
    have e4 : (2 : Int) ≤ 2 ^ (F.I.promote.bits - 2) := by
      calc (2 : Int) = 2 ^ 1 := by norm_num
        _ ≤ _ := pow_le_pow_right₀ (by norm_num) (by omega)
    nlinarith [abs_nonneg x, abs_nonneg y]

theorem cdiv_ip_ok (_h : F.Valid) {a b : Int} (hb : b ≠ 0)
    (ha : F.I.promote.signed = true → |a| < 2 ^ (F.I.promote.bits - 1)) :
    cdiv F.I.promote a b = .ok (Int.tdiv a b) := by
  unfold cdiv
  rw [if_neg hb, if_neg]
  rintro ⟨hs, hc⟩
  have := abs_lt.1 (lt_of_le_of_lt (natAbs_tdiv_le a b) (ha hs))
  apply hc
  unfold IntTy.InRange IntTy.lo IntTy.hi
  simp only [hs, if_true]; omega

/-- The tail `_value + (_value % 2)` of the rounding operators. -/
theorem round_tail (h : F.Valid) {d y : Int} (hy : y ≠ 0)
    (hd : F.I.promote.signed = true → |d| < 2 ^ (F.I.promote.bits - 1) - 1) :
    (do
      let v ← cdiv F.I.promote d y
      let m ← cmod F.I.promote v 2
      let s ← arith F.I.promote (v + m)
      pure (F.T.wrap s)) = .ok (F.T.wrap (Int.tdiv d y + Int.tmod (Int.tdiv d y) 2)) := by
  rw [cdiv_ip_ok h hy (fun hs => by have := hd hs; omega), Res.bind_ok]
  have hv : F.I.promote.signed = true → |Int.tdiv d y| < 2 ^ (F.I.promote.bits - 1) - 1 :=
    fun hs => lt_of_le_of_lt (natAbs_tdiv_le d y) (hd hs)
  generalize Int.tdiv d y = v at *
  have hcm : cmod F.I.promote v 2 = .ok (Int.tmod v 2) := by
    unfold cmod
    rw [if_neg (by norm_num), if_neg]
    rintro ⟨hs, hc⟩
    apply hc
    have := abs_lt.1 (lt_of_le_of_lt (natAbs_tdiv_le v 2) (hv hs))
    unfold IntTy.InRange IntTy.lo IntTy.hi
    simp only [hs, if_true]; omega
  rw [hcm, Res.bind_ok]
  unfold arith
  cases hs : F.I.promote.signed
  · simp only [Bool.false_eq_true, if_false, Res.bind_ok, Res.pure_eq]
    rw [IntTy.wrap_wrap_of_le]
    have := h.two_t_le_ip; omega
  · simp only [if_true]
    rw [if_pos]
    · rfl
    · have hm2 := abs_lt.1 (hv hs)
      have hmod : -1 ≤ Int.tmod v 2 ∧ Int.tmod v 2 ≤ 1 := by
        have := Int.natAbs_tmod v 2
        have h2 : (Int.tmod v 2).natAbs < 2 := by rw [this]; exact Nat.mod_lt _ (by norm_num)
        omega
      unfold IntTy.InRange IntTy.lo IntTy.hi
      simp only [hs, if_true]; omega

end Eirin
