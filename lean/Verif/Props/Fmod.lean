import Verif.Props.Rounding

/-! # Property C27, exactly: where `fmod` is the mathematical modulus, for both signs of both arguments -/

namespace Eirin.Props
open Spec

/-- Normalising the divisor to be positive. -/
theorem tdiv_sign {a b : Int} (D : Int) (hb : b ≠ 0) : ∃ a1 b1 : Int, 0 < b1 ∧ Int.tdiv (a * D) b = Int.tdiv (a1 * D) b1 ∧ (a : ℚ) / b = a1 / b1 ∧
    ((a1 = a ∧ b1 = b) ∨ (a1 = -a ∧ b1 = -b)) := by
  rcases lt_or_gt_of_ne hb with h | h
  · refine ⟨-a, -b, by omega, ?_, ?_, Or.inr ⟨rfl, rfl⟩⟩
    · rw [neg_mul, Int.neg_tdiv, Int.tdiv_neg, neg_neg]
    · push_cast; rw [neg_div_neg_eq]
  · exact ⟨a, b, h, rfl, rfl, Or.inl ⟨rfl, rfl⟩⟩

/-- The floored truncated quotient. -/
theorem fmod_quot {a b D : Int} (hb : 0 < b) (hD : 0 < D) :
    (0 ≤ a → Int.tdiv (a * D) b / D = a / b) ∧
    (a < 0 → Int.tdiv (a * D) b / D = a / b ∧ (∀ m : Int, ¬ (a * D < m * b * D ∧ m * b * D < a * D + b)) ∨
      Int.tdiv (a * D) b / D = a / b + 1 ∧ a * D < (a / b + 1) * b * D ∧ (a / b + 1) * b * D < a * D + b) := by
  have f1 := Int.ediv_mul_le a hb.ne'
  have f2 := Int.lt_ediv_add_one_mul_self a hb
  generalize a / b = n at *
  obtain ⟨s1, s2⟩ := tdiv_mul_spec (a * D) hb
  generalize Int.tdiv (a * D) b = q at *
  have k1 := Int.ediv_mul_le q hD.ne'
  have k2 := Int.lt_ediv_add_one_mul_self q hD
  generalize q / D = k at *
  have bD : 0 < b * D := mul_pos hb hD
  constructor
  · intro h0
    obtain ⟨-, t1, t2⟩ := s1 (mul_nonneg h0 hD.le)
    -- k b D ≤ q b ≤ a D
    have u1 : k * b ≤ a := by
      have : k * D * b ≤ q * b := mul_le_mul_of_nonneg_right k1 hb.le
      have : k * b * D ≤ a * D := by linarith [show k * D * b = k * b * D by ring]
      exact le_of_mul_le_mul_right this hD
    have u2 : n * D ≤ q := by
      have : n * b * D ≤ a * D := mul_le_mul_of_nonneg_right f1 hD.le
      have : (n * D) * b < (q + 1) * b := by linarith [show n * D * b = n * b * D by ring]
      have := lt_of_mul_lt_mul_right this hb.le
      omega
    have u3 : k < n + 1 := lt_of_mul_lt_mul_right (lt_of_le_of_lt u1 f2) hb.le
    have u4 : n < k + 1 := lt_of_mul_lt_mul_right (lt_of_le_of_lt u2 k2) hD.le
    omega
  · intro h0
    obtain ⟨-, t1, t2⟩ := s2 (mul_nonpos_of_nonpos_of_nonneg h0.le hD.le)
    have u2 : n * D ≤ q := by
      have : n * b * D ≤ a * D := mul_le_mul_of_nonneg_right f1 hD.le
      exact le_of_mul_le_mul_right (by linarith [show n * D * b = n * b * D by ring] : (n * D) * b ≤ q * b) hb
    have u4 : n ≤ k := by
      have := lt_of_mul_lt_mul_right (lt_of_le_of_lt u2 k2) hD.le
      omega
    have f3 : a * D < (n + 1) * b * D := mul_lt_mul_of_pos_right f2 hD
    have f4 : n * b * D ≤ a * D := mul_le_mul_of_nonneg_right f1 hD.le
    by_cases hk : n + 1 ≤ k
    · right
      have w1 : (n + 1) * b * D ≤ q * b := by
        have : (n + 1) * D ≤ k * D := mul_le_mul_of_nonneg_right hk hD.le
        have := mul_le_mul_of_nonneg_right (le_trans this k1) hb.le
        linarith [show (n + 1) * D * b = (n + 1) * b * D by ring]
      have w2 : (n + 1) * b * D < a * D + b := by linarith
      refine ⟨?_, f3, w2⟩
      have w3 : k * b * D < a * D + b := by
        have := mul_le_mul_of_nonneg_right k1 hb.le
        linarith [show k * D * b = k * b * D by ring]
      -- a D + b ≤ (n+1) b D + b D
      have w4 : k * (b * D) < (n + 2) * (b * D) := by
        have : b * 1 ≤ b * D := mul_le_mul_of_nonneg_left (by omega) hb.le
        linarith [show (n + 2) * (b * D) = (n + 1) * b * D + b * D by ring, show k * (b * D) = k * b * D by ring]
      have := lt_of_mul_lt_mul_right w4 bD.le
      omega
    · left
      refine ⟨by omega, ?_⟩
      rintro m ⟨m1, m2⟩
      -- m = n + 1
      have v1 : n < m := by
        have : n * b * D < m * b * D := by linarith
        have := lt_of_mul_lt_mul_right this hD.le
        exact lt_of_mul_lt_mul_right this hb.le
      have v2 : (n + 1) * b * D ≤ m * b * D := mul_le_mul_of_nonneg_right (mul_le_mul_of_nonneg_right (by omega) hb.le) hD.le
      -- then q ≥ (n+1) D
      have v3 : (n + 1) * D * b < (q + 1) * b := by
        linarith [show (n + 1) * D * b = (n + 1) * b * D by ring]
      have v4 := lt_of_mul_lt_mul_right v3 hb.le
      have v5 : (n + 1) * D < (k + 1) * D := by omega
      have := lt_of_mul_lt_mul_right v5 hD.le
      omega

/-- C27, exactly: for all signs of both arguments and whenever the quotient is in range (with room for its floor), `fmod a b` is
`a - b ⌊a/b⌋` unless the signs differ and the quotient lies less than one ulp below an integer `m`; then it is `a - b m`, which has the
sign of `a` and is smaller than `|b|` ulps. -/
theorem C27_exact (F : FxTy) (hF : F.Valid) (hs : SignedWide F) (h1 : Storable F (2 ^ F.f)) (hr : F.r = false) (a b : Int)
    (ha : Storable F a) (hb : Storable F b) (hb0 : b ≠ 0) (hlo : val F F.T.lo + 1 ≤ val F a / val F b)
    (hhi : val F a / val F b < val F F.T.hi + ulp F) (hab : 0 ≤ a * b ∨ Storable F (a - b)) :
    ∃ r, fmod F a b = .ok r ∧
      ((0 ≤ a * b ∨ ∀ m : Int, ¬ (val F a / val F b < m ∧ (m : ℚ) < val F a / val F b + ulp F)) → val F r = val F a - val F b * ⌊val F a / val F b⌋) ∧
      (∀ m : Int, a * b < 0 → val F a / val F b < m → (m : ℚ) < val F a / val F b + ulp F →
        val F r = val F a - val F b * m ∧ 0 < val F r * val F a ∧ |val F r| < |val F b| * ulp F) := by
  have h : SW F := ⟨hF, hs, h1⟩
  have hd := SW.dpos (F := F)
  have hlh := h.lo_hi
  have hdle := h.d_le
  have hv : ∀ z, val F z = z / ((2 : Int) ^ F.f : Int) := fun z => by unfold val; push_cast; rfl
  have hu : ulp F = 1 / ((2 : Int) ^ F.f : Int) := by unfold ulp; push_cast; rfl
  obtain ⟨D, hD⟩ : ∃ D : Int, (2 : Int) ^ F.f = D := ⟨_, rfl⟩
  simp only [hD] at hv
  rw [hD] at hu hd hdle
  have hDq : (0 : ℚ) < D := by exact_mod_cast hd
  have hDn : (D : ℚ) ≠ 0 := hDq.ne'
  obtain ⟨a1, b1, hb1, et, eq, hab1⟩ := tdiv_sign (a := a) D hb0
  have hb1q : (0 : ℚ) < b1 := by exact_mod_cast hb1
  have equo : val F a / val F b = a1 / b1 := by
    rw [hv, hv, div_div_div_cancel_right₀ hDn, eq]
  rw [equo] at hlo hhi
  simp only [equo]
  have ehi : val F F.T.hi + ulp F = ((F.T.hi + 1 : Int) : ℚ) / D := by rw [hv, hu]; push_cast; ring
  have elo : val F F.T.lo + 1 = ((F.T.lo + D : Int) : ℚ) / D := by rw [hv]; push_cast; field_simp
  rw [elo, div_le_div_iff₀ hDq hb1q] at hlo
  rw [ehi, div_lt_div_iff₀ hb1q hDq] at hhi
  have hlo' : (F.T.lo + D) * b1 ≤ a1 * D := by exact_mod_cast hlo
  have hhi' : a1 * D < (F.T.hi + 1) * b1 := by exact_mod_cast hhi
  have sgn : 0 ≤ a * b ↔ 0 ≤ a1 := by
    have : a * b = a1 * b1 := by rcases hab1 with ⟨rfl, rfl⟩ | ⟨rfl, rfl⟩ <;> ring
    rw [this]; exact ⟨fun h => nonneg_of_mul_nonneg_left h hb1, fun h => mul_nonneg h hb1.le⟩
  have fl : ⌊(a1 : ℚ) / b1⌋ = a1 / b1 := by
    obtain ⟨d, rfl⟩ := Int.eq_ofNat_of_zero_le hb1.le
    exact_mod_cast Rat.floor_intCast_div_natCast a1 d
  rw [fl]
  obtain ⟨s1, s2⟩ := tdiv_mul_spec (a1 * D) hb1
  obtain ⟨c1, c2⟩ := fmod_quot (a := a1) hb1 hd
  have n1 := Int.ediv_mul_le a1 hb1.ne'
  have n2 := Int.lt_ediv_add_one_mul_self a1 hb1
  have hq : F.T.InRange (Int.tdiv (a1 * D) b1) ∧ (0 ≤ Int.tdiv (a1 * D) b1 ∨ (F.T.lo + D ≤ Int.tdiv (a1 * D) b1 ∧ Int.tdiv (a1 * D) b1 ≤ 0)) := by
    rcases le_total 0 a1 with h0 | h0
    · obtain ⟨t0, t1, -⟩ := s1 (mul_nonneg h0 hd.le)
      have p0 : 0 ≤ Int.tdiv (a1 * D) b1 := nonneg_of_mul_nonneg_left t0 hb1
      have p1 := lt_of_mul_lt_mul_right (lt_of_le_of_lt t1 hhi') hb1.le
      exact ⟨⟨by omega, by omega⟩, Or.inl p0⟩
    · obtain ⟨t0, t1, -⟩ := s2 (mul_nonpos_of_nonpos_of_nonneg h0 hd.le)
      have p0 : Int.tdiv (a1 * D) b1 ≤ 0 := by
        by_contra hc
        have := mul_pos (not_le.1 hc) hb1
        omega
      have p1 := le_of_mul_le_mul_right (le_trans hlo' t1) hb1
      exact ⟨⟨by omega, by omega⟩, Or.inr ⟨p1, p0⟩⟩
  have hdiv := h.div_ok hr ha hb0 (by rw [hD, et]; exact hq.1)
  rw [hD, et] at hdiv
  have hfl : floor F (Int.tdiv (a1 * D) b1) = .ok (Int.tdiv (a1 * D) b1 / D * D) := by
    have := floor_raw h hq.1 (hq.2.imp_right fun hh => ⟨by rw [hD]; omega, by rw [hD]; omega⟩)
    rw [hD] at this; exact this
  generalize Int.tdiv (a1 * D) b1 = q at *
  have k1 := Int.ediv_mul_le q hd.ne'
  have k2 := Int.lt_ediv_add_one_mul_self q hd
  rw [add_mul, one_mul] at k2
  generalize q / D = k at *
  generalize a1 / b1 = n at *
  have hkS : F.T.InRange (k * D) := by
    have := hq.1.2
    refine ⟨?_, by omega⟩
    rcases hq.2 with h0 | ⟨h0, -⟩
    · have : -1 * D < k * D := by omega
      have := lt_of_mul_lt_mul_right this hd.le
      have : 0 ≤ k * D := mul_nonneg (by omega) hd.le
      omega
    · omega
  -- the remainder
  have hr1 : -b1 < a1 - b1 * k ∧ a1 - b1 * k < b1 ∧ (0 ≤ a1 → 0 ≤ b1 * k ∧ b1 * k ≤ a1) ∧ (a1 < 0 → b1 * k ≤ 0 ∧ a1 - b1 < b1 * k) := by
    have m1 : n * b1 = b1 * n := mul_comm _ _
    have m2 : (n + 1) * b1 = b1 * n + b1 := by ring
    rcases le_or_gt 0 a1 with h0 | h0
    · rw [c1 h0]
      have : -1 < n := by
        have : -1 * b1 < n * b1 := by omega
        exact lt_of_mul_lt_mul_right this hb1.le
      have : 0 ≤ b1 * n := mul_nonneg hb1.le (by omega)
      omega
    · have hn0 : n < 0 := by
        have : n * b1 < 0 * b1 := by omega
        exact lt_of_mul_lt_mul_right this hb1.le
      rcases c2 h0 with ⟨e, -⟩ | ⟨e, -, e2⟩
      · rw [e]
        have : b1 * n ≤ 0 := mul_nonpos_of_nonneg_of_nonpos hb1.le hn0.le
        omega
      · rw [e]
        have e3 : b1 * (n + 1) = b1 * n + b1 := by ring
        have : b1 * (n + 1) ≤ 0 := mul_nonpos_of_nonneg_of_nonpos hb1.le (by omega)
        have e4 : -b1 < a1 - b1 * (n + 1) := by
          by_contra hc
          have h5 : (a1 - b1 * (n + 1)) * D ≤ -b1 * D := mul_le_mul_of_nonneg_right (not_lt.1 hc) hd.le
          have h6 : b1 * 1 ≤ b1 * D := mul_le_mul_of_nonneg_left (by omega) hb1.le
          linarith [show (a1 - b1 * (n + 1)) * D = a1 * D - (n + 1) * b1 * D by ring]
        omega
  obtain ⟨r1, r2, r3, r4⟩ := hr1
  have hbk : F.T.InRange (b * k) ∧ F.T.InRange (a - b * k) := by
    have := ha.1; have := ha.2; have := hb.1; have := hb.2
    rcases le_or_gt 0 a1 with h0 | h0
    · obtain ⟨p1, p2⟩ := r3 h0
      rcases hab1 with ⟨rfl, rfl⟩ | ⟨rfl, rfl⟩
      · exact ⟨⟨by omega, by omega⟩, ⟨by omega, by omega⟩⟩
      · rw [neg_mul] at *
        exact ⟨⟨by omega, by omega⟩, ⟨by omega, by omega⟩⟩
    · obtain ⟨p1, p2⟩ := r4 h0
      have hst : Storable F (a - b) := hab.resolve_left (fun hh => by have := sgn.1 hh; omega)
      have := hst.1; have := hst.2
      rcases hab1 with ⟨rfl, rfl⟩ | ⟨rfl, rfl⟩
      · exact ⟨⟨by omega, by omega⟩, ⟨by omega, by omega⟩⟩
      · rw [neg_mul] at *
        exact ⟨⟨by omega, by omega⟩, ⟨by omega, by omega⟩⟩
  have hmul : mul F b (k * D) = .ok (b * k) := by
    have e : b * (k * D) / D = b * k := by rw [← mul_assoc]; exact Int.mul_ediv_cancel _ hd.ne'
    have := h.mul_ok hr hb hkS (by rw [hD, e]; exact hbk.1)
    rw [hD, e] at this; exact this
  have hval : ∀ j : Int, val F (a - b * j) = val F a - val F b * j := fun j => by rw [hv, hv, hv]; push_cast; ring
  refine ⟨a - b * k, ?_, ?_, ?_⟩
  · unfold fmod
    rw [hdiv, Res.bind_ok, hfl, Res.bind_ok, hmul, Res.bind_ok, h.sub_ok hbk.2]
  · intro hh
    rw [hval]
    have : k = n := by
      rcases le_or_gt 0 a1 with h0 | h0
      · exact c1 h0
      · rcases c2 h0 with ⟨e, -⟩ | ⟨-, e1, e2⟩
        · exact e
        · exfalso
          refine hh.resolve_left (fun hc => by have := sgn.1 hc; omega) (n + 1) ⟨?_, ?_⟩
          · rw [div_lt_iff₀ hb1q]; exact_mod_cast n2
          · rw [hu, div_add_div _ _ hb1q.ne' hDn, lt_div_iff₀ (by positivity)]
            have : (((n + 1) * b1 * D : Int) : ℚ) < ((a1 * D + b1 : Int) : ℚ) := by exact_mod_cast e2
            push_cast at this ⊢; linarith
    rw [this]
  · intro m hneg m1 m2
    have h0 : a1 < 0 := by
      by_contra hc
      have := sgn.2 (not_lt.1 hc); omega
    rw [div_lt_iff₀ hb1q] at m1
    rw [hu, div_add_div _ _ hb1q.ne' hDn, lt_div_iff₀ (by positivity)] at m2
    have m1' : a1 < m * b1 := by exact_mod_cast m1
    have m2' : m * b1 * D < a1 * D + b1 := by
      have : ((m * b1 * D : Int) : ℚ) < ((a1 * D + b1 : Int) : ℚ) := by push_cast; linarith
      exact_mod_cast this
    have m3 : a1 * D < m * b1 * D := mul_lt_mul_of_pos_right m1' hd
    rcases c2 h0 with ⟨-, e⟩ | ⟨e, e1, e2⟩
    · exact absurd ⟨m3, m2'⟩ (e m)
    · have hm : m = n + 1 := by
        have g1 : n < m := by
          have : n * b1 < m * b1 := by omega
          exact lt_of_mul_lt_mul_right this hb1.le
        have g2 : m * (b1 * D) < (n + 2) * (b1 * D) := by
          have : b1 * 1 ≤ b1 * D := mul_le_mul_of_nonneg_left (by omega) hb1.le
          linarith [show (n + 2) * (b1 * D) = (n + 1) * b1 * D + b1 * D by ring, show m * (b1 * D) = m * b1 * D by ring]
        have := lt_of_mul_lt_mul_right g2 (mul_pos hb1 hd).le
        omega
      subst hm
      rw [e]
      have rneg : a1 - b1 * (n + 1) < 0 := by linarith [show (n + 1) * b1 = b1 * (n + 1) by ring]
      have rD : -(a1 - b1 * (n + 1)) * D < b1 := by linarith [show (a1 - b1 * (n + 1)) * D = a1 * D - (n + 1) * b1 * D by ring]
      have prod : 0 < (a1 - b1 * (n + 1)) * a1 := mul_pos_of_neg_of_neg rneg h0
      refine ⟨hval _, ?_, ?_⟩
      · have : (a - b * (n + 1)) * a = (a1 - b1 * (n + 1)) * a1 := by rcases hab1 with ⟨rfl, rfl⟩ | ⟨rfl, rfl⟩ <;> ring
        rw [hv, hv, div_mul_div_comm]
        apply div_pos _ (by positivity)
        rw [← this] at prod
        exact_mod_cast prod
      · have e3 : |a - b * (n + 1)| = -(a1 - b1 * (n + 1)) := by
          rcases hab1 with ⟨rfl, rfl⟩ | ⟨rfl, rfl⟩
          · exact abs_of_neg rneg
          · rw [abs_of_pos (by linarith [show -b * (n + 1) = -(b * (n + 1)) by ring])]; ring
        have e4 : |b| = b1 := by
          rcases hab1 with ⟨rfl, rfl⟩ | ⟨rfl, rfl⟩
          · exact abs_of_pos hb1
          · exact abs_of_neg (by omega)
        rw [hv, hv, hu, abs_div, abs_div, abs_of_pos hDq, div_mul_div_comm, mul_one, div_lt_div_iff₀ hDq (by positivity), ← mul_assoc]
        apply mul_lt_mul_of_pos_right _ hDq
        have : ((|a - b * (n + 1)| * D : Int) : ℚ) < ((|b| : Int) : ℚ) := by rw [e3, e4]; exact_mod_cast rD
        push_cast at this ⊢; exact this

example : fmod fixed32 (7 * 65536) (-3 * 65536) = .ok (-2 * 65536) ∧ fmod fixed32 (-7 * 65536) (-3 * 65536) = .ok (-65536) ∧
    fmod fixed32 1 (-3 * 65536) = .ok 1 ∧ (7 * 65536 : Int) * (-3 * 65536) < 0 ∧ Storable fixed32 (7 * 65536 - -3 * 65536) := by decide +kernel

end Eirin.Props
