import Verif.Props.Fmod
import Verif.Props.RoundAll

/-! # Property C152: `fmod` and `modf` on every layout

C26 and C27 are about signed storage of 32 and 64 bits. -/

namespace Eirin.Props
open Spec

theorem div_ok_all {F : FxTy} (hF : F.Valid) (hr : F.r = false) {x y : Int} (hx : F.T.InRange x) (hy : y ≠ 0)
    (hn : F.T.InRange (Int.tdiv (x * 2 ^ F.f) y)) : div F x y = .ok (Int.tdiv (x * 2 ^ F.f) y) := by
  rw [div_nf hF hr hx, if_neg hy, IntTy.wrap_of_inRange hF.tpos hn]

theorem mul_ok_all {F : FxTy} (hF : F.Valid) (hr : F.r = false) {x y : Int} (hx : F.T.InRange x) (hy : F.T.InRange y)
    (hn : F.T.InRange (x * y / 2 ^ F.f)) : mul F x y = .ok (x * y / 2 ^ F.f) := by
  rw [mul_nf hF hr hx hy, IntTy.wrap_of_inRange hF.tpos hn]

theorem sub_ok_all {F : FxTy} (hF : F.Valid) {x y : Int} (hx : F.T.InRange x) (hy : F.T.InRange y)
    (hn : F.T.InRange (x - y)) : sub F x y = .ok (x - y) := by
  rw [sub_nf hF hx hy, if_neg (fun h => h.2 hn), IntTy.wrap_of_inRange hF.tpos hn]

theorem floor_raw_all {F : FxTy} (h : PN F) {x : Int} (hx : Storable F x) (hlo : 0 ≤ x ∨ Storable F (x - (2 ^ F.f - 1))) :
    floor F x = .ok (x / 2 ^ F.f * 2 ^ F.f) := by
  obtain ⟨z, hz, hi, h1, h2⟩ := C92_floor_partial F h.valid h.one x hx hlo.symm
  obtain ⟨k, hk⟩ := integral_iff.1 hi
  have hd := SW.dpos (F := F)
  have e1 := Int.ediv_mul_le x (ne_of_gt hd)
  have g := h2 (x / 2 ^ F.f) (by rw [← val_int]; exact val_le.2 e1)
  rw [← val_int, val_le] at g
  have h1' := val_le.1 h1
  rw [hz]
  congr 1
  subst hk
  have : k ≤ x / 2 ^ F.f := Int.le_ediv_of_mul_le hd h1'
  have := mul_le_mul_of_nonneg_right this hd.le
  omega

/-- C152: on every layout, for all signs of both arguments and whenever the quotient is in range (with room for its floor), `fmod a b` is
`a - b ⌊a/b⌋` unless the signs differ and the quotient lies less than one ulp below an integer `m`; then it is `a - b m`. -/
theorem C152_fmod (F : FxTy) (hF : F.Valid) (h1 : Storable F (2 ^ F.f)) (hr : F.r = false) (a b : Int)
    (ha : Storable F a) (hb : Storable F b) (hb0 : b ≠ 0) (hhi : val F a / val F b < val F F.T.hi + ulp F)
    (hab : 0 ≤ a * b ∨ val F F.T.lo + 1 ≤ val F a / val F b ∧ Storable F (a - b)) :
    ∃ r, fmod F a b = .ok r ∧
      ((0 ≤ a * b ∨ ∀ m : Int, ¬ (val F a / val F b < m ∧ (m : ℚ) < val F a / val F b + ulp F)) → val F r = val F a - val F b * ⌊val F a / val F b⌋) ∧
      (∀ m : Int, a * b < 0 → val F a / val F b < m → (m : ℚ) < val F a / val F b + ulp F →
        val F r = val F a - val F b * m ∧ 0 < val F r * val F a ∧ |val F r| < |val F b| * ulp F) := by
  have h : PN F := ⟨hF, h1⟩
  have hd := SW.dpos (F := F)
  have hll := PN.lo_le (F := F)
  have hdle := h.d_le
  have hv : ∀ z, val F z = z / ((2 : Int) ^ F.f : Int) := fun z => by unfold val; push_cast; rfl
  have hu : ulp F = 1 / ((2 : Int) ^ F.f : Int) := by unfold ulp; push_cast; rfl
  obtain ⟨D, hD⟩ : ∃ D : Int, (2 : Int) ^ F.f = D := ⟨_, rfl⟩
  simp only [hD] at hv
  rw [hD] at hu hd hdle
  have hDq : (0 : ℚ) < D := by exact_mod_cast hd
  have hDn : (D : ℚ) ≠ 0 := hDq.ne'
  obtain ⟨a1, b1, hb1, et, eq, hab1⟩ := tdiv_sign (a := a) D hb0
  have hb1q : (0 : ℚ) < b1 := by exact_mod_cast hb1
  have equo : val F a / val F b = a1 / b1 := by
    rw [hv, hv, div_div_div_cancel_right₀ hDn, eq]
  rw [equo] at hab hhi
  simp only [equo]
  have ehi : val F F.T.hi + ulp F = ((F.T.hi + 1 : Int) : ℚ) / D := by rw [hv, hu]; push_cast; ring
  have elo : val F F.T.lo + 1 = ((F.T.lo + D : Int) : ℚ) / D := by rw [hv]; push_cast; field_simp
  rw [ehi, div_lt_div_iff₀ hb1q hDq] at hhi
  have hhi' : a1 * D < (F.T.hi + 1) * b1 := by exact_mod_cast hhi
  have sgn : 0 ≤ a * b ↔ 0 ≤ a1 := by
    have : a * b = a1 * b1 := by rcases hab1 with ⟨rfl, rfl⟩ | ⟨rfl, rfl⟩ <;> ring
    rw [this]; exact ⟨fun h => nonneg_of_mul_nonneg_left h hb1, fun h => mul_nonneg h hb1.le⟩
  have hlo' : a1 < 0 → (F.T.lo + D) * b1 ≤ a1 * D := by
    intro hneg
    obtain ⟨hlo, -⟩ := hab.resolve_left (fun hc => by have := sgn.1 hc; omega)
    rw [elo, div_le_div_iff₀ hDq hb1q] at hlo
    exact_mod_cast hlo
  have fl : ⌊(a1 : ℚ) / b1⌋ = a1 / b1 := by
    obtain ⟨d, rfl⟩ := Int.eq_ofNat_of_zero_le hb1.le
    exact_mod_cast Rat.floor_intCast_div_natCast a1 d
  rw [fl]
  obtain ⟨s1, s2⟩ := tdiv_mul_spec (a1 * D) hb1
  obtain ⟨c1, c2⟩ := fmod_quot (a := a1) hb1 hd
  have n1 := Int.ediv_mul_le a1 hb1.ne'
  have n2 := Int.lt_ediv_add_one_mul_self a1 hb1
  have hq : F.T.InRange (Int.tdiv (a1 * D) b1) ∧ (0 ≤ Int.tdiv (a1 * D) b1 ∨ (F.T.lo + D ≤ Int.tdiv (a1 * D) b1 ∧ Int.tdiv (a1 * D) b1 ≤ 0)) := by
    rcases le_or_gt 0 a1 with h0 | h0
    · obtain ⟨t0, t1, -⟩ := s1 (mul_nonneg h0 hd.le)
      have p0 : 0 ≤ Int.tdiv (a1 * D) b1 := nonneg_of_mul_nonneg_left t0 hb1
      have p1 := lt_of_mul_lt_mul_right (lt_of_le_of_lt t1 hhi') hb1.le
      exact ⟨⟨by omega, by omega⟩, Or.inl p0⟩
    · obtain ⟨t0, t1, -⟩ := s2 (mul_nonpos_of_nonpos_of_nonneg h0.le hd.le)
      have p0 : Int.tdiv (a1 * D) b1 ≤ 0 := by
        by_contra hc
        have := mul_pos (not_le.1 hc) hb1
        omega
      have p1 := le_of_mul_le_mul_right (le_trans (hlo' h0) t1) hb1
      exact ⟨⟨by omega, by omega⟩, Or.inr ⟨p1, p0⟩⟩
  have hdiv := div_ok_all hF hr ha hb0 (by rw [hD, et]; exact hq.1)
  rw [hD, et] at hdiv
  have hfl : floor F (Int.tdiv (a1 * D) b1) = .ok (Int.tdiv (a1 * D) b1 / D * D) := by
    have := floor_raw_all h hq.1 (hq.2.imp_right fun hh => ⟨by rw [hD]; omega, by rw [hD]; omega⟩)
    rw [hD] at this; exact this
  generalize Int.tdiv (a1 * D) b1 = q at *
  have k1 := Int.ediv_mul_le q hd.ne'
  have k2 := Int.lt_ediv_add_one_mul_self q hd
  rw [add_mul, one_mul] at k2
  generalize q / D = k at *
  generalize a1 / b1 = n at *
  have hkS : F.T.InRange (k * D) := by
    have := hq.1.2
    refine ⟨?_, by omega⟩
    rcases hq.2 with h0 | ⟨h0, -⟩
    · have : -1 * D < k * D := by omega
      have := lt_of_mul_lt_mul_right this hd.le
      have : 0 ≤ k * D := mul_nonneg (by omega) hd.le
      omega
    · omega
  -- the remainder
  have hr1 : -b1 < a1 - b1 * k ∧ a1 - b1 * k < b1 ∧ (0 ≤ a1 → 0 ≤ b1 * k ∧ b1 * k ≤ a1) ∧ (a1 < 0 → b1 * k ≤ 0 ∧ a1 - b1 < b1 * k) := by
    have m1 : n * b1 = b1 * n := mul_comm _ _
    have m2 : (n + 1) * b1 = b1 * n + b1 := by ring
    rcases le_or_gt 0 a1 with h0 | h0
    · rw [c1 h0]
      have : -1 < n := by
        have : -1 * b1 < n * b1 := by omega
        exact lt_of_mul_lt_mul_right this hb1.le
      have : 0 ≤ b1 * n := mul_nonneg hb1.le (by omega)
      omega
    · have hn0 : n < 0 := by
        have : n * b1 < 0 * b1 := by omega
        exact lt_of_mul_lt_mul_right this hb1.le
      rcases c2 h0 with ⟨e, -⟩ | ⟨e, -, e2⟩
      · rw [e]
        have : b1 * n ≤ 0 := mul_nonpos_of_nonneg_of_nonpos hb1.le hn0.le
        omega
      · rw [e]
        have e3 : b1 * (n + 1) = b1 * n + b1 := by ring
        have : b1 * (n + 1) ≤ 0 := mul_nonpos_of_nonneg_of_nonpos hb1.le (by omega)
        have e4 : -b1 < a1 - b1 * (n + 1) := by
          by_contra hc
          have h5 : (a1 - b1 * (n + 1)) * D ≤ -b1 * D := mul_le_mul_of_nonneg_right (not_lt.1 hc) hd.le
          have h6 : b1 * 1 ≤ b1 * D := mul_le_mul_of_nonneg_left (by omega) hb1.le
          linarith [show (a1 - b1 * (n + 1)) * D = a1 * D - (n + 1) * b1 * D by ring]
        omega
  obtain ⟨r1, r2, r3, r4⟩ := hr1
  have hbk : F.T.InRange (b * k) ∧ F.T.InRange (a - b * k) := by
    have := ha.1; have := ha.2; have := hb.1; have := hb.2
    rcases le_or_gt 0 a1 with h0 | h0
    · obtain ⟨p1, p2⟩ := r3 h0
      rcases hab1 with ⟨rfl, rfl⟩ | ⟨rfl, rfl⟩
      · exact ⟨⟨by omega, by omega⟩, ⟨by omega, by omega⟩⟩
      · rw [neg_mul] at *
        exact ⟨⟨by omega, by omega⟩, ⟨by omega, by omega⟩⟩
    · obtain ⟨p1, p2⟩ := r4 h0
      have hst : Storable F (a - b) := (hab.resolve_left (fun hh => by have := sgn.1 hh; omega)).2
      have := hst.1; have := hst.2
      rcases hab1 with ⟨rfl, rfl⟩ | ⟨rfl, rfl⟩
      · exact ⟨⟨by omega, by omega⟩, ⟨by omega, by omega⟩⟩
      · rw [neg_mul] at *
        exact ⟨⟨by omega, by omega⟩, ⟨by omega, by omega⟩⟩
  have hmul : mul F b (k * D) = .ok (b * k) := by
    have e : b * (k * D) / D = b * k := by rw [← mul_assoc]; exact Int.mul_ediv_cancel _ hd.ne'
    have := mul_ok_all hF hr hb hkS (by rw [hD, e]; exact hbk.1)
    rw [hD, e] at this; exact this
  have hval : ∀ j : Int, val F (a - b * j) = val F a - val F b * j := fun j => by rw [hv, hv, hv]; push_cast; ring
  refine ⟨a - b * k, ?_, ?_, ?_⟩
  · unfold fmod
    rw [hdiv, Res.bind_ok, hfl, Res.bind_ok, hmul, Res.bind_ok, sub_ok_all hF ha hbk.1 hbk.2]
  · intro hh
    rw [hval]
    have : k = n := by
      rcases le_or_gt 0 a1 with h0 | h0
      · exact c1 h0
      · rcases c2 h0 with ⟨e, -⟩ | ⟨-, e1, e2⟩
        · exact e
        · exfalso
          refine hh.resolve_left (fun hc => by have := sgn.1 hc; omega) (n + 1) ⟨?_, ?_⟩
          · rw [div_lt_iff₀ hb1q]; exact_mod_cast n2
          · rw [hu, div_add_div _ _ hb1q.ne' hDn, lt_div_iff₀ (by positivity)]
            have : (((n + 1) * b1 * D : Int) : ℚ) < ((a1 * D + b1 : Int) : ℚ) := by exact_mod_cast e2
            push_cast at this ⊢; linarith
    rw [this]
  · intro m hneg m1 m2
    have h0 : a1 < 0 := by
      by_contra hc
      have := sgn.2 (not_lt.1 hc); omega
    rw [div_lt_iff₀ hb1q] at m1
    rw [hu, div_add_div _ _ hb1q.ne' hDn, lt_div_iff₀ (by positivity)] at m2
    have m1' : a1 < m * b1 := by exact_mod_cast m1
    have m2' : m * b1 * D < a1 * D + b1 := by
      have : ((m * b1 * D : Int) : ℚ) < ((a1 * D + b1 : Int) : ℚ) := by push_cast; linarith
      exact_mod_cast this
    have m3 : a1 * D < m * b1 * D := mul_lt_mul_of_pos_right m1' hd
    rcases c2 h0 with ⟨-, e⟩ | ⟨e, e1, e2⟩
    · exact absurd ⟨m3, m2'⟩ (e m)
    · have hm : m = n + 1 := by
        have g1 : n < m := by
          have : n * b1 < m * b1 := by omega
          exact lt_of_mul_lt_mul_right this hb1.le
        have g2 : m * (b1 * D) < (n + 2) * (b1 * D) := by
          have : b1 * 1 ≤ b1 * D := mul_le_mul_of_nonneg_left (by omega) hb1.le
          linarith [show (n + 2) * (b1 * D) = (n + 1) * b1 * D + b1 * D by ring, show m * (b1 * D) = m * b1 * D by ring]
        have := lt_of_mul_lt_mul_right g2 (mul_pos hb1 hd).le
        omega
      subst hm
      rw [e]
      have rneg : a1 - b1 * (n + 1) < 0 := by linarith [show (n + 1) * b1 = b1 * (n + 1) by ring]
      have rD : -(a1 - b1 * (n + 1)) * D < b1 := by linarith [show (a1 - b1 * (n + 1)) * D = a1 * D - (n + 1) * b1 * D by ring]
      have prod : 0 < (a1 - b1 * (n + 1)) * a1 := mul_pos_of_neg_of_neg rneg h0
      refine ⟨hval _, ?_, ?_⟩
      · have : (a - b * (n + 1)) * a = (a1 - b1 * (n + 1)) * a1 := by rcases hab1 with ⟨rfl, rfl⟩ | ⟨rfl, rfl⟩ <;> ring
        rw [hv, hv, div_mul_div_comm]
        apply div_pos _ (by positivity)
        rw [← this] at prod
        exact_mod_cast prod
      · have e3 : |a - b * (n + 1)| = -(a1 - b1 * (n + 1)) := by
          rcases hab1 with ⟨rfl, rfl⟩ | ⟨rfl, rfl⟩
          · exact abs_of_neg rneg
          · rw [abs_of_pos (by linarith [show -b * (n + 1) = -(b * (n + 1)) by ring])]; ring
        have e4 : |b| = b1 := by
          rcases hab1 with ⟨rfl, rfl⟩ | ⟨rfl, rfl⟩
          · exact abs_of_pos hb1
          · exact abs_of_neg (by omega)
        rw [hv, hv, hu, abs_div, abs_div, abs_of_pos hDq, div_mul_div_comm, mul_one, div_lt_div_iff₀ hDq (by positivity), ← mul_assoc]
        apply mul_lt_mul_of_pos_right _ hDq
        have : ((|a - b * (n + 1)| * D : Int) : ℚ) < ((|b| : Int) : ℚ) := by rw [e3, e4]; exact_mod_cast rD
        push_cast at this ⊢; exact this

-- 8-bit storage with 4 fraction bits, signed and unsigned
example : (let F : FxTy := ⟨⟨8, true⟩, ⟨16, true⟩, 4, false⟩; F.Valid ∧ fmod F 100 (-40) = .ok (-20) ∧ fmod F (-100) 40 = .ok 20) ∧
    (let F : FxTy := ⟨⟨8, false⟩, ⟨16, false⟩, 4, false⟩; F.Valid ∧ fmod F 250 40 = .ok 10) := by decide +kernel

/-- C152 on unsigned layouts as one would like it: `fmod` is the modulus for every non-zero divisor. -/
def C152_statement : Prop := ∀ F : FxTy, F.Valid → F.T.signed = false → F.r = false → Storable F (2 ^ F.f) → ∀ a b : Int, Storable F a → Storable F b → b ≠ 0 →
  ∃ r, fmod F a b = .ok r ∧ val F r = val F a - val F b * ⌊val F a / val F b⌋

/-- C152: `fmod` on every unsigned layout, for all arguments: the quotient loses what exceeds the integer range, and the remainder is taken with
what is left. -/
theorem C152_unsigned (F : FxTy) (hF : F.Valid) (hu : F.T.signed = false) (hr : F.r = false) (h1 : Storable F (2 ^ F.f)) (a b : Int)
    (ha : Storable F a) (hb : Storable F b) (hb0 : b ≠ 0) :
    fmod F a b = .ok (a - b * (a / b % 2 ^ (F.T.bits - F.f))) := by
  have hlo : F.T.lo = 0 := by unfold IntTy.lo; simp [hu]
  have hhi : F.T.hi = 2 ^ F.T.bits - 1 := by unfold IntTy.hi; simp [hu]
  have h : PN F := ⟨hF, h1⟩
  have a0 := ha.1; have a1 := ha.2; have b0 := hb.1; have b1 := hb.2
  rw [hlo] at a0 b0
  rw [hhi] at a1 b1
  have bp : 0 < b := by omega
  have hd := SW.dpos (F := F)
  have eb : (2 : Int) ^ F.T.bits = 2 ^ (F.T.bits - F.f) * 2 ^ F.f := by
    rw [← pow_add]; congr 1; have := hF.flt; omega
  have hM : (0 : Int) < 2 ^ (F.T.bits - F.f) := by positivity
  have wr : ∀ n, F.T.wrap n = n % 2 ^ F.T.bits := by
    intro n; unfold IntTy.wrap; rw [if_neg (by rw [hu]; simp)]; push_cast; rfl
  have hdiv : div F a b = .ok (a * 2 ^ F.f / b % 2 ^ F.T.bits) := by
    rw [div_nf hF hr ha, if_neg hb0, wr, Int.tdiv_eq_ediv_of_nonneg (mul_nonneg a0 hd.le)]
  have hq : Storable F (a * 2 ^ F.f / b % 2 ^ F.T.bits) := by rw [← wr]; exact IntTy.wrap_inRange _ hF.tpos
  have hq0 : 0 ≤ a * 2 ^ F.f / b % 2 ^ F.T.bits := Int.emod_nonneg _ (by positivity)
  have ek : a * 2 ^ F.f / b % 2 ^ F.T.bits / 2 ^ F.f = a / b % 2 ^ (F.T.bits - F.f) := by
    have e1 : a * 2 ^ F.f / b / 2 ^ F.f = a / b := by
      rw [Int.ediv_ediv_of_nonneg bp.le, mul_comm b, ← Int.ediv_ediv_of_nonneg hd.le, Int.mul_ediv_cancel _ hd.ne']
    rw [← e1, eb]
    generalize a * 2 ^ F.f / b = Q
    generalize (2 : Int) ^ F.f = D at *
    generalize (2 : Int) ^ (F.T.bits - F.f) = M at *
    have q1 := Int.mul_ediv_add_emod Q D
    have q2 := Int.mul_ediv_add_emod (Q / D) M
    have r0 := Int.emod_nonneg Q hd.ne'
    have r1 := Int.emod_lt_of_pos Q hd
    have t0 := Int.emod_nonneg (Q / D) hM.ne'
    have t1 := Int.emod_lt_of_pos (Q / D) hM
    generalize hr' : Q % D = r at *
    generalize ht' : Q / D % M = t at *
    generalize hj' : Q / D / M = j at *
    have e3 : Q = (D * t + r) + M * D * j := by rw [← q1, ← q2]; ring
    have e4 : Q % (M * D) = D * t + r := by
      rw [e3, Int.add_mul_emod_self_left]
      apply Int.emod_eq_of_lt
      · have := mul_nonneg hd.le t0; omega
      · have := mul_le_mul_of_nonneg_left (show t + 1 ≤ M by omega) hd.le
        rw [mul_add, mul_one, mul_comm D M] at this; omega
    rw [e4, Int.mul_add_ediv_left _ _ hd.ne', Int.ediv_eq_zero_of_lt r0 r1, add_zero]
  have hfl := floor_raw_all h hq (Or.inl hq0)
  rw [ek] at hfl
  have k0 : 0 ≤ a / b % 2 ^ (F.T.bits - F.f) := Int.emod_nonneg _ hM.ne'
  have k1 : a / b % 2 ^ (F.T.bits - F.f) < 2 ^ (F.T.bits - F.f) := Int.emod_lt_of_pos _ hM
  have k2 : a / b % 2 ^ (F.T.bits - F.f) ≤ a / b := by
    have h1 := Int.mul_ediv_add_emod (a / b) (2 ^ (F.T.bits - F.f))
    have : 0 ≤ 2 ^ (F.T.bits - F.f) * (a / b / 2 ^ (F.T.bits - F.f)) := mul_nonneg hM.le (Int.ediv_nonneg (Int.ediv_nonneg a0 bp.le) hM.le)
    omega
  generalize a / b % 2 ^ (F.T.bits - F.f) = k at *
  have hkS : F.T.InRange (k * 2 ^ F.f) := by
    refine ⟨by rw [hlo]; exact mul_nonneg k0 hd.le, ?_⟩
    rw [hhi, eb]
    have := mul_le_mul_of_nonneg_right (show k + 1 ≤ 2 ^ (F.T.bits - F.f) by omega) hd.le
    rw [add_mul, one_mul] at this
    omega
  have bk : b * k ≤ a := by
    have := mul_le_mul_of_nonneg_left k2 bp.le
    have := Int.mul_ediv_self_le (x := a) hb0
    omega
  have bk0 : 0 ≤ b * k := mul_nonneg bp.le k0
  have e : b * (k * 2 ^ F.f) / 2 ^ F.f = b * k := by rw [← mul_assoc]; exact Int.mul_ediv_cancel _ hd.ne'
  have hbk : F.T.InRange (b * k) := ⟨by omega, by omega⟩
  unfold fmod
  rw [hdiv, Res.bind_ok, hfl, Res.bind_ok, mul_ok_all hF hr hb hkS (by rw [e]; exact hbk), e, Res.bind_ok,
    sub_ok_all hF ha hbk ⟨by omega, by omega⟩]

/-- C152, what holds on unsigned layouts: `fmod` is the modulus exactly when the quotient is in range (so for every divisor of at least 1).
Full statement: `C152_statement`; missing are the quotients out of range, for which it never is. -/
theorem C152_unsigned_partial (F : FxTy) (hF : F.Valid) (hu : F.T.signed = false) (hr : F.r = false) (h1 : Storable F (2 ^ F.f)) (a b : Int)
    (ha : Storable F a) (hb : Storable F b) (hb0 : b ≠ 0) :
    ∃ r, fmod F a b = .ok r ∧ Storable F r ∧
      (val F r = val F a - val F b * ⌊val F a / val F b⌋ ↔ val F a / val F b < 2 ^ (F.T.bits - F.f)) := by
  have hlo : F.T.lo = 0 := by unfold IntTy.lo; simp [hu]
  have hhi : F.T.hi = 2 ^ F.T.bits - 1 := by unfold IntTy.hi; simp [hu]
  have a0 := ha.1; have a1 := ha.2; have b0 := hb.1
  rw [hlo] at a0 b0
  have bp : 0 < b := by omega
  have hM : (0 : Int) < 2 ^ (F.T.bits - F.f) := by positivity
  have hDq : (2 : ℚ) ^ F.f ≠ 0 := by positivity
  have ev : val F a / val F b = (a : ℚ) / b := by unfold val; rw [div_div_div_cancel_right₀ hDq]
  have fl : ⌊(a : ℚ) / b⌋ = a / b := by
    obtain ⟨d, rfl⟩ := Int.eq_ofNat_of_zero_le bp.le
    exact_mod_cast Rat.floor_intCast_div_natCast a d
  have hs := Int.mul_ediv_add_emod (a / b) (2 ^ (F.T.bits - F.f))
  have n0 : 0 ≤ a / b := Int.ediv_nonneg a0 bp.le
  have j0 : 0 ≤ a / b / 2 ^ (F.T.bits - F.f) := Int.ediv_nonneg n0 hM.le
  have k0 : 0 ≤ a / b % 2 ^ (F.T.bits - F.f) := Int.emod_nonneg _ hM.ne'
  have jm := mul_nonneg hM.le j0
  have bn := Int.mul_ediv_self_le (x := a) hb0
  have bk : b * (a / b % 2 ^ (F.T.bits - F.f)) ≤ b * (a / b) := mul_le_mul_of_nonneg_left (by omega) bp.le
  have bk0 := mul_nonneg bp.le k0
  refine ⟨_, C152_unsigned F hF hu hr h1 a b ha hb hb0, ⟨by omega, by omega⟩, ?_⟩
  rw [ev, fl]
  have e1 : val F a - val F b * ((a / b : Int) : ℚ) = val F (a - b * (a / b)) := by unfold val; push_cast; ring
  rw [e1]
  have e2 : (a : ℚ) / b < 2 ^ (F.T.bits - F.f) ↔ a / b < 2 ^ (F.T.bits - F.f) := by
    rw [← fl, Int.floor_lt]; push_cast; rfl
  rw [e2]
  constructor
  · intro hv
    have := val_inj hv
    have h2 : b * (a / b % 2 ^ (F.T.bits - F.f)) = b * (a / b) := by omega
    have h3 := mul_left_cancel₀ hb0 h2
    rw [← h3]
    exact Int.emod_lt_of_pos _ hM
  · intro hlt
    rw [Int.emod_eq_of_lt n0 hlt]

-- 8-bit storage with 4 fraction bits: 15.9375 modulo one ulp
example : (let F : FxTy := ⟨⟨8, false⟩, ⟨16, false⟩, 4, false⟩; F.Valid ∧ Storable F 255 ∧ fmod F 255 1 = .ok 240 ∧ fmod F 255 16 = .ok 15) := by decide +kernel

/-- C152 is false on unsigned layouts. -/
theorem C152_false : ¬ C152_statement := by
  intro h
  obtain ⟨r, hr, hv⟩ := h ⟨⟨8, false⟩, ⟨16, false⟩, 4, false⟩ (by decide) rfl rfl (by decide) 255 1 (by decide) (by decide) (by decide)
  obtain ⟨r', hr', -, hi⟩ := C152_unsigned_partial ⟨⟨8, false⟩, ⟨16, false⟩, 4, false⟩ (by decide) rfl rfl (by decide) 255 1 (by decide) (by decide) (by decide)
  rw [hr] at hr'
  injection hr' with hr'
  subst hr'
  have := hi.1 hv
  unfold val at this
  norm_num at this

/-- C152: `modf` on every layout: the integral part is the floor and the fraction lies in `[0, 1)`; the two add up.  (On unsigned layouts for all
arguments; on signed ones except within one of the minimum.) -/
theorem C152_modf (F : FxTy) (hF : F.Valid) (h1 : Storable F (2 ^ F.f)) (x : Int) (hx : Storable F x)
    (hlo : 0 ≤ x ∨ Storable F (x - (2 ^ F.f - 1))) :
    ∃ fr ip, modf F x = .ok (fr, ip) ∧ floor F x = .ok ip ∧ val F ip = ⌊val F x⌋ ∧ 0 ≤ val F fr ∧ val F fr < 1 ∧
      val F ip + val F fr = val F x := by
  have h : PN F := ⟨hF, h1⟩
  have hd := SW.dpos (F := F)
  have hdle := h.d_le
  have hll := PN.lo_le (F := F)
  have hfl := floor_raw_all h hx hlo
  have e1 := Int.ediv_mul_le x (ne_of_gt hd)
  have e2 := Int.lt_ediv_add_one_mul_self x hd
  rw [add_mul, one_mul] at e2
  have hx1 := hx.1; have hx2 := hx.2
  have hv1 : val F (2 ^ F.f) = 1 := by have := val_int F 1; simpa using this
  have hip : F.T.InRange (x / 2 ^ F.f * 2 ^ F.f) := by
    refine ⟨?_, by omega⟩
    rcases hlo with h0 | h0
    · have := mul_nonneg (Int.ediv_nonneg h0 hd.le) hd.le
      omega
    · have := h0.1; omega
  have hfr : F.T.InRange (x - x / 2 ^ F.f * 2 ^ F.f) := ⟨by omega, by omega⟩
  refine ⟨x - x / 2 ^ F.f * 2 ^ F.f, x / 2 ^ F.f * 2 ^ F.f, ?_, hfl, ?_, ?_, ?_, ?_⟩
  · unfold modf
    rw [hfl, Res.bind_ok, sub_ok_all hF hx hip hfr, Res.bind_ok]; rfl
  · rw [val_int]
    congr 1
    symm
    rw [Int.floor_eq_iff, ← val_int, val_le]
    refine ⟨e1, ?_⟩
    have : val F (x / 2 ^ F.f * 2 ^ F.f) + 1 = val F (x / 2 ^ F.f * 2 ^ F.f + 2 ^ F.f) := by rw [← hv1]; unfold val; push_cast; ring
    rw [this, val_lt]; exact e2
  · rw [← val_zero F, val_le]; omega
  · rw [← hv1, val_lt]; omega
  · unfold val; push_cast; ring

example : (let F : FxTy := ⟨⟨8, true⟩, ⟨16, true⟩, 4, false⟩; F.Valid ∧ modf F (-40) = .ok (8, -48)) ∧
    (let F : FxTy := ⟨u64, ⟨128, false⟩, 32, false⟩; F.Valid ∧ modf F (2 ^ 64 - 1) = .ok (2 ^ 32 - 1, 2 ^ 64 - 2 ^ 32)) := by decide +kernel

end Eirin.Props
