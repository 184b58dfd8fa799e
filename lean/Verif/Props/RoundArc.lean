import Verif.Props.RoundExp

/-! # Property C206: the ends of the inverse functions of rounding types -/

namespace Eirin.Props
open Spec

/-- C206 as one would expect it: `asin(1)`, `asin(-1)` and `acos(0)` are within two ulps of a quarter turn up or down. -/
def C206_statement : Prop :=
  ∀ F : FxTy, F.Valid → F.T.signed = true → F.r = true → 8 ≤ F.f → F.f ≤ 60 → F.f + 4 ≤ F.T.bits →
    (∃ r, asin F (2 ^ F.f) = .ok r ∧ Storable F r ∧ |((val F r : ℚ) : ℝ) - Real.pi / 2| ≤ 2 * (ulp F : ℚ)) ∧
    (∃ r, asin F (-2 ^ F.f) = .ok r ∧ Storable F r ∧ |((val F r : ℚ) : ℝ) + Real.pi / 2| ≤ 2 * (ulp F : ℚ)) ∧
    (∃ r, acos F 0 = .ok r ∧ Storable F r ∧ |((val F r : ℚ) : ℝ) - Real.pi / 2| ≤ 2 * (ulp F : ℚ))

/-- Halving by `/ fixed(2)` in a rounding type gives the number itself, up to one ulp. -/
theorem half_r {F : FxTy} (h : LayR F 7.9) (hf : F.f + 2 ≤ F.T.bits) {x : Int} (hx : |rv F x| ≤ 7) (h2 : ofInt F 2 = 2 * 2 ^ F.f) :
    ∃ z, div F x (ofInt F 2) = .ok z ∧ Storable F z ∧ |rv F z - rv F x| ≤ uR F := by
  have hxs : Storable F x := h.st (by norm_num at *; linarith)
  have hp : (2 : Int) * 2 ^ F.f ≠ 0 := by positivity
  obtain ⟨z, n, e, hn, hw⟩ := (C05_div_partial F h.sw.valid h.r hf x (2 * 2 ^ F.f) hxs).2 hp
  have a := nearest_rv hn
  push_cast at a
  rw [rv_eq, rv_eq, rv_int] at a
  push_cast at a
  have r2 : rv F (2 * n) = 2 * rv F n := by unfold rv; push_cast; ring
  have hd : |rv F (2 * n) - rv F x| ≤ uR F := by
    rw [r2]
    obtain ⟨a1, a2⟩ := abs_le.1 a
    rw [abs_le]; constructor <;> linarith
  have s2 : Storable F (2 * n) := h.st (by
    have := h.u_le
    obtain ⟨b1, b2⟩ := abs_le.1 hd
    obtain ⟨c1, c2⟩ := abs_le.1 hx
    rw [abs_le]; norm_num; constructor <;> linarith)
  have ez : z = 2 * n := isWrap_unique h.sw.valid.tpos hw ⟨s2, by simp⟩
  subst ez
  exact ⟨2 * n, by rw [h2]; exact e, s2, hd⟩

/-- C206 (what happens instead): the three values are within two ulps of *half* a turn up or down. -/
theorem C206_ends_partial (F : FxTy) (hF : F.Valid) (hs : F.T.signed = true) (hr : F.r = true) (h8 : 8 ≤ F.f) (h60 : F.f ≤ 60)
    (h4 : F.f + 4 ≤ F.T.bits) :
    (∃ r, asin F (2 ^ F.f) = .ok r ∧ Storable F r ∧ |((val F r : ℚ) : ℝ) - Real.pi| ≤ 2 * (ulp F : ℚ)) ∧
    (∃ r, asin F (-2 ^ F.f) = .ok r ∧ Storable F r ∧ |((val F r : ℚ) : ℝ) + Real.pi| ≤ 2 * (ulp F : ℚ)) ∧
    (∃ r, acos F 0 = .ok r ∧ Storable F r ∧ |((val F r : ℚ) : ℝ) - Real.pi| ≤ 2 * (ulp F : ℚ)) := by
  have h := layR8 hF hs hr h8 h4
  have st : ∀ k : Int, |(k : ℝ)| ≤ 7 → Storable F (k * 2 ^ F.f) := fun k hk => h.st (by rw [rv_int]; norm_num at *; linarith)
  have oi : ∀ k : Int, |(k : ℝ)| ≤ 7 → ofInt F k = k * 2 ^ F.f := fun k hk => h.sw.ofInt_ok (st k hk)
  have o0 : ofInt F 0 = 0 := by rw [oi 0 (by norm_num), zero_mul]
  have o1 : ofInt F 1 = 2 ^ F.f := by rw [oi 1 (by norm_num), one_mul]
  have om : ofInt F (-1) = -2 ^ F.f := by rw [oi (-1) (by norm_num)]; ring
  have o2 : ofInt F 2 = 2 * 2 ^ F.f := oi 2 (by norm_num)
  have hp : (0 : Int) < 2 ^ F.f := by positivity
  have r4 : Representable F 4 := ⟨4 * 2 ^ F.f, st 4 (by norm_num), by rw [val_int]; norm_num⟩
  obtain ⟨p, ep, sp, -, np⟩ := C20_every_pi.1 F 4 hF (by omega) (by have := Real.pi_lt_d2; push_cast; norm_num at *; linarith) (by exact_mod_cast r4)
  have n1 := np hr
  rw [rv_eq, uR_eq] at n1
  have hu61 : (1 : ℝ) / 2 ^ 61 ≤ uR F / 2 := by
    unfold uR
    rw [div_div, ← pow_succ]
    exact div_le_div_of_nonneg_left (by norm_num) (by positivity) (pow_le_pow_right₀ (by norm_num) (by omega))
  have n2 : |rv F p - Real.pi| ≤ uR F := by linarith
  have hu := h.u_le
  have hp7 : |rv F p| ≤ 7 := by
    obtain ⟨a1, a2⟩ := abs_le.1 n2
    have := Real.pi_lt_d2; have := Real.pi_gt_three
    rw [abs_le]; norm_num at *; constructor <;> linarith
  have hn7 : |rv F (-p)| ≤ 7 := by rw [rv_neg, abs_neg]; exact hp7
  have hns : Storable F (-p) := h.st (by norm_num at *; linarith)
  obtain ⟨z, ez, sz, nz⟩ := half_r h (by omega) hp7 o2
  obtain ⟨w, ew, sw, nw⟩ := half_r h (by omega) hn7 o2
  have lo1 : F.T.lo < -2 ^ F.f := by
    have := (st (-2) (by norm_num)).1
    linarith
  have a1 : abs F (2 ^ F.f) = .ok (2 ^ F.f) := by rw [h.sw.abs_ok h.sw.one (by omega), abs_of_pos hp]
  have am : abs F (-2 ^ F.f) = .ok (2 ^ F.f) := by
    rw [h.sw.abs_ok (by have := st (-1) (by norm_num); rwa [neg_one_mul] at this) lo1, abs_neg, abs_of_pos hp]
  have a0 : abs F 0 = .ok 0 := by rw [h.sw.abs_ok h.sw.zero_in (by omega), abs_zero]
  obtain ⟨b1, b2⟩ := abs_le.1 n2
  obtain ⟨c1, c2⟩ := abs_le.1 nz
  obtain ⟨d1, d2⟩ := abs_le.1 nw
  rw [rv_neg] at d1 d2
  refine ⟨⟨z, ?_, sz, ?_⟩, ⟨w, ?_, sw, ?_⟩, ⟨z, ?_, sz, ?_⟩⟩
  · unfold asin
    rw [ep, Res.bind_ok, a1, Res.bind_ok, o1, if_neg (by rw [gt_iff]; omega), if_pos (by rw [eq_iff]), ez]
  · rw [rv_eq, uR_eq, abs_le]; constructor <;> linarith
  · unfold asin
    rw [ep, Res.bind_ok, am, Res.bind_ok, o1, om, if_neg (by rw [gt_iff]; omega), if_neg (by rw [eq_iff]; omega), if_pos (by rw [eq_iff]),
      h.sw.neg_ok hns, Res.bind_ok, ew]
  · rw [rv_eq, uR_eq, abs_le]; constructor <;> linarith
  · unfold acos
    rw [ep, Res.bind_ok, a0, Res.bind_ok, o1, om, o0, if_neg (by rw [gt_iff]; omega), if_neg (by rw [eq_iff]; omega), if_neg (by rw [eq_iff]; omega),
      if_pos (by rw [eq_iff]), ez]
  · rw [rv_eq, uR_eq, abs_le]; constructor <;> linarith

example : asin fixed32r 65536 = .ok 205888 ∧ asin fixed32r (-65536) = .ok (-205888) ∧ acos fixed32r 0 = .ok 205888 := by decide +kernel

/-- C206 is false of the code: in the rounding variant of `fixed32`, `asin(1)` is 3.1416 instead of 1.5708. -/
theorem C206_false : ¬ C206_statement := by
  intro h
  obtain ⟨r, e, -, hr⟩ := (h fixed32r (by decide) rfl rfl (by decide) (by decide) (by decide)).1
  rw [show asin fixed32r (2 ^ fixed32r.f) = .ok 205888 by decide +kernel] at e
  cases e
  have v2 : ((val fixed32r 205888 : ℚ) : ℝ) = 205888 / 65536 := by norm_num [val, fixed32r]
  have u : ((ulp fixed32r : ℚ) : ℝ) = 1 / 65536 := by norm_num [ulp, fixed32r]
  rw [v2, u] at hr
  have := (abs_le.1 hr).2
  have := Real.pi_lt_d2
  norm_num at *
  linarith

end Eirin.Props
