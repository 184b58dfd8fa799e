import Verif.Props.FmodAll
import Verif.Props.RoundingFlag
import Verif.Props.Dot

/-! # Property C193: `fmod` of rounding types -/

namespace Eirin.Props
open Eirin Spec

/-- C193 as one would expect it: on every signed rounding layout the remainder of a non-negative number by a positive one is at least zero and less
than the divisor. -/
def C193_statement : Prop :=
  ∀ F : FxTy, F.Valid → F.r = true → F.T.signed = true → Storable F (2 ^ F.f) → F.f + 2 ≤ F.T.bits → ∀ a b, Storable F a → Storable F b →
    0 ≤ a → 0 < b → 2 * (val F a / val F b) + ulp F ≤ val F F.T.hi → 4 * val F a + 2 * val F b * ulp F ≤ val F F.T.hi →
    ∃ r, fmod F a b = .ok r ∧ 0 ≤ val F r ∧ val F r < val F b

/-- C193 (what happens instead): the quotient and the product are doubled, so that the result is the dividend less twice a multiple of the divisor,
where the factor is twice the quotient rounded down: about minus three times the dividend. -/
theorem C193_fmod_partial (F : FxTy) (hF : F.Valid) (hr : F.r = true) (hs : F.T.signed = true) (h1 : Storable F (2 ^ F.f)) (hf : F.f + 2 ≤ F.T.bits)
    (a b : Int) (ha : Storable F a) (hb : Storable F b) (a0 : 0 ≤ a) (b0 : 0 < b) (hq : 2 * (val F a / val F b) + ulp F ≤ val F F.T.hi)
    (hp : 4 * val F a + 2 * val F b * ulp F ≤ val F F.T.hi) :
    ∃ (r k : Int), fmod F a b = .ok r ∧ val F r = val F a - 2 * (val F b * k) ∧ (k : ℚ) ≤ 2 * (val F a / val F b) + ulp F ∧
      2 * (val F a / val F b) - ulp F < k + 1 ∧ -3 * val F a - 2 * val F b * ulp F ≤ val F r ∧ val F r < -3 * val F a + 2 * val F b * (1 + ulp F) := by
  have hu := ulp_pos F
  have sgn : F.T.signed = false → False := fun h => by rw [hs] at h; cases h
  have A0 : 0 ≤ val F a := by rw [← val_zero F, val_le]; exact a0
  have B0 : 0 < val F b := by rw [← val_zero F, val_lt]; exact b0
  have Q0 : 0 ≤ val F a / val F b := by positivity
  have QB : val F a / val F b * val F b = val F a := div_mul_cancel₀ _ B0.ne'
  generalize hQ : val F a / val F b = Q at *
  obtain ⟨z, n, ez, hn, hw⟩ := (C05_div_partial F hF hr hf a b ha).2 b0.ne'
  rw [hQ] at hn
  obtain ⟨n1, n2⟩ := abs_le.1 hn.1
  have n0 : 0 ≤ n := by
    have : val F (-1) < val F n := by rw [val_neg, val_one]; linarith
    rw [val_lt] at this; omega
  have v2 : ∀ m : Int, val F (2 * m) = 2 * val F m := fun m => by rw [two_mul, val_add, two_mul]
  have N0 : 0 ≤ val F n := by rw [← val_zero F, val_le]; exact n0
  have s2 : Storable F (2 * n) := storable_of_abs (by rw [v2, abs_of_nonneg (by linarith)]; linarith) fun h => (sgn h).elim
  have ze : z = 2 * n := isWrap_unique hF.tpos hw ⟨s2, by simp⟩
  subst ze
  obtain ⟨w, ew, ⟨k, hk⟩, w1, w2⟩ := C92_floor_partial F hF h1 (2 * n) s2 (Or.inr (by omega))
  rw [v2, hk] at w1
  have w3 : 2 * val F n < k + 1 := by
    by_contra hc
    push Not at hc
    have := w2 (k + 1) (by rw [v2]; push_cast; exact hc)
    rw [hk] at this
    push_cast at this
    linarith
  have k0 : 0 ≤ (k : ℚ) := by
    have := w2 0 (by rw [v2]; push_cast; linarith)
    rw [hk] at this; exact_mod_cast this
  have hwi : w = k * 2 ^ F.f := val_inj (F := F) (by rw [hk, val_int])
  have kB : val F b * k ≤ 2 * val F a + val F b * ulp F := by nlinarith
  have kB0 : 0 ≤ val F b * k := by positivity
  have bu : 0 ≤ val F b * ulp F := by positivity
  have sw : Storable F w := storable_of_abs (by rw [hk, abs_of_nonneg k0]; linarith) fun h => (sgn h).elim
  obtain ⟨p, m, ep, hm, hpw⟩ := C05_mul_partial F hF hr b w hb sw
  have vbk : val F (b * k) = val F b * k := by unfold val; push_cast; ring
  have me : m = b * k := by
    rw [hk, ← vbk] at hm
    obtain ⟨m1, m2⟩ := abs_le.1 hm.1
    have g1 : val F m < val F (b * k + 1) := by rw [val_add, val_one]; linarith
    have g2 : val F (b * k) < val F (m + 1) := by rw [val_add, val_one]; linarith
    rw [val_lt] at g1 g2
    omega
  subst me
  have sp : Storable F (2 * (b * k)) := storable_of_abs (by rw [v2, vbk, abs_of_nonneg (by linarith)]; linarith) fun h => (sgn h).elim
  have pe : p = 2 * (b * k) := isWrap_unique hF.tpos hpw ⟨sp, by simp⟩
  subst pe
  have sr : Storable F (a - 2 * (b * k)) := storable_of_abs (by
    rw [val_sub, v2, vbk, abs_le]; constructor <;> linarith) fun h => (sgn h).elim
  have er : sub F a (2 * (b * k)) = .ok (a - 2 * (b * k)) := by
    rw [sub_nf hF ha sp, if_neg (fun c => c.2 sr), IntTy.wrap_of_inRange hF.tpos sr]
  have hv : val F (a - 2 * (b * k)) = val F a - 2 * (val F b * k) := by rw [val_sub, v2, vbk]
  refine ⟨a - 2 * (b * k), k, ?_, hv, by linarith, by linarith, by rw [hv]; linarith, ?_⟩
  · unfold fmod
    rw [ez, Res.bind_ok, ew, Res.bind_ok, ep, Res.bind_ok, er]
  · rw [hv]
    have : val F b * (2 * Q - ulp F - 1) < val F b * k := mul_lt_mul_of_pos_left (by linarith) B0
    nlinarith

theorem C193_false : ¬ C193_statement := by
  intro h
  obtain ⟨r, e, h0, -⟩ := h fixed32r (by decide) rfl rfl (by decide) (by decide) (7 * 65536) (2 * 65536) (by decide) (by decide) (by decide) (by decide)
    (by norm_num [val, ulp, fixed32r, IntTy.hi, i32]) (by norm_num [val, ulp, fixed32r, IntTy.hi, i32])
  rw [show fmod fixed32r (7 * 65536) (2 * 65536) = .ok (-21 * 65536) by decide +kernel] at e
  cases e
  norm_num [val, fixed32r] at h0

example : fmod fixed32r (7 * 65536) (2 * 65536) = .ok (-21 * 65536) ∧ 2 * (val fixed32r (7 * 65536) / val fixed32r (2 * 65536)) + ulp fixed32r ≤ val fixed32r fixed32r.T.hi ∧
    4 * val fixed32r (7 * 65536) + 2 * val fixed32r (2 * 65536) * ulp fixed32r ≤ val fixed32r fixed32r.T.hi := by
  refine ⟨by decide +kernel, ?_, ?_⟩ <;> norm_num [val, ulp, fixed32r, IntTy.hi, i32]

end Eirin.Props
