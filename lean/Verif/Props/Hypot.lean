import Verif.Props.Sqrt

/-! # C108: `hypot` with two and three arguments on both library types -/

namespace Eirin.Props
open Eirin Spec

/-- C108 (false, see `C108_false`): whenever `hypot` with two or three arguments returns on a library type, the square of the result is the sum
of the squares up to `2^-13` and three ulps of the result. -/
def C108_statement : Prop := ∀ F, F = fixed32 ∨ F = fixed64 → ∀ x y z, Storable F x → Storable F y → Storable F z →
  (∀ h, hypot F x y = .ok h → |val F h ^ 2 - (val F x ^ 2 + val F y ^ 2)| ≤ 1 / 2 ^ 13 + 3 * val F h * ulp F) ∧
  (∀ h, hypot3 F x y z = .ok h → |val F h ^ 2 - (val F x ^ 2 + val F y ^ 2 + val F z ^ 2)| ≤ 1 / 2 ^ 13 + 3 * val F h * ulp F)

theorem hyp_mul_zero {F : FxTy} (hF : F.Valid) (hr : F.r = false) {x : Int} (hx : Storable F x)
    (hd : (2 : Int) ^ F.f * 2 ^ F.T.bits ∣ x * x) : mul F x x = .ok 0 := by
  rw [mul_nf hF hr hx hx]
  obtain ⟨k, hk⟩ := hd
  have : x * x / 2 ^ F.f = 2 ^ F.T.bits * k := by
    rw [hk, mul_assoc, Int.mul_ediv_cancel_left _ (by positivity)]
  have h0 : F.T.wrap (x * x / 2 ^ F.f) = F.T.wrap 0 := IntTy.wrap_congr (by rw [this]; simp)
  have h1 : F.T.wrap 0 = 0 := IntTy.wrap_of_inRange hF.tpos (by
    have := IntTy.wrap_inRange (t := F.T) 0 hF.tpos
    refine ⟨by unfold IntTy.lo; split <;> [exact neg_nonpos.2 (by positivity); exact le_rfl], ?_⟩
    have : (1 : Int) ≤ 2 ^ F.T.bits := one_le_pow₀ (by norm_num)
    have : (1 : Int) ≤ 2 ^ (F.T.bits - 1) := one_le_pow₀ (by norm_num)
    unfold IntTy.hi; split <;> omega)
  rw [h0, h1]

/-- C108, how it fails: the squares wrap around silently, so `hypot` is zero at every point of the grid of multiples of 256 (`fixed32`) or of
65536 (`fixed64`), with two and three arguments. -/
theorem C108_wraps (F : FxTy) (hF : F = fixed32 ∨ F = fixed64) (x y z : Int) (hx : Storable F x) (hy : Storable F y) (hz : Storable F z)
    (kx ky kz : Int) (ex : val F x = 2 ^ (F.f / 2) * kx) (ey : val F y = 2 ^ (F.f / 2) * ky) (ez : val F z = 2 ^ (F.f / 2) * kz) :
    hypot F x y = .ok 0 ∧ hypot3 F x y z = .ok 0 := by
  have hV : F.Valid := by rcases hF with rfl | rfl; exacts [sw32.valid, sw64.valid]
  have hr : F.r = false := by rcases hF with rfl | rfl <;> rfl
  have key : ∀ w k : Int, Storable F w → val F w = 2 ^ (F.f / 2) * k → mul F w w = .ok 0 := by
    intro w k hw hv
    refine hyp_mul_zero hV hr hw ?_
    have e : w = 2 ^ F.f * 2 ^ (F.f / 2) * k := by
      unfold val at hv
      rw [div_eq_iff (by positivity)] at hv
      have : (w : ℚ) = ((2 ^ F.f * 2 ^ (F.f / 2) * k : Int) : ℚ) := by push_cast; rw [hv]; ring
      exact_mod_cast this
    have e2 : (2 : Int) ^ F.f * 2 ^ F.T.bits = (2 ^ F.f * 2 ^ (F.f / 2)) * (2 ^ F.f * 2 ^ (F.f / 2)) := by
      rcases hF with rfl | rfl <;> norm_num [fixed32, fixed64, i32, i64]
    rw [e2, e]
    exact ⟨k * k, by ring⟩
  have ha : add F 0 0 = .ok 0 := by rcases hF with rfl | rfl <;> decide +kernel
  have hs : sqrt F 0 = .ok 0 := by rcases hF with rfl | rfl <;> decide +kernel
  unfold hypot hypot3
  rw [key x kx hx ex, key y ky hy ey, key z kz hz ez]
  simp only [Res.bind_ok, ha, hs, and_self]

/-- C108 is false of the code: `hypot(256, 0)` is zero on `fixed32`. -/
theorem C108_false : ¬ C108_statement := by
  intro h
  have e := (C108_wraps fixed32 (Or.inl rfl) (256 * 65536) 0 0 (by decide +kernel) (by decide +kernel) (by decide +kernel) 1 0 0
    (by norm_num [val, fixed32]) (by norm_num [val, fixed32]) (by norm_num [val, fixed32])).1
  have := (h fixed32 (Or.inl rfl) (256 * 65536) 0 0 (by decide +kernel) (by decide +kernel) (by decide +kernel)).1 0 e
  norm_num [val, ulp, fixed32] at this

/-- What the two square roots guarantee, in a common form. -/
theorem hyp_root (F : FxTy) (hF : F = fixed32 ∨ F = fixed64) (s : Int) (h0 : 0 ≤ s) (hB : val F s < if F.f = 16 then 2 ^ 15 else 19 * 10 ^ 8) :
    ∃ h, sqrt F s = .ok h ∧ 0 ≤ val F h ∧ |val F h ^ 2 - val F s| ≤ 1 / 2 ^ 13 - 4 * ulp F + 2 * val F h * ulp F := by
  rcases hF with rfl | rfl
  · rw [if_pos (show fixed32.f = 16 by rfl)] at hB
    have hs : s < 2 ^ 31 := by
      unfold val at hB
      rw [show fixed32.f = 16 by rfl, div_lt_iff₀ (by positivity)] at hB
      have : (s : ℚ) < ((2 ^ 31 : Int) : ℚ) := by push_cast; norm_num at *; linarith
      exact_mod_cast this
    obtain ⟨h, h1, ⟨a, b, c⟩, _⟩ := sqrt32_raw (in32 (by norm_num at *; omega) hs) h0
    refine ⟨h, h1, by rw [← val_zero fixed32, val_le]; exact a, ?_⟩
    have b' : (h : ℚ) ^ 2 ≤ s * 2 ^ 16 := by exact_mod_cast b
    have c' : (s : ℚ) * 2 ^ 16 < (h + 1) ^ 2 := by exact_mod_cast c
    unfold val ulp
    rw [show fixed32.f = 16 by rfl, abs_le]
    constructor <;> nlinarith
  · rw [if_neg (by decide)] at hB
    rcases h0.eq_or_lt with h0 | h0
    · subst h0
      refine ⟨0, by decide +kernel, by norm_num [val], ?_⟩
      norm_num [val, ulp, fixed64]
    · have hs : s < 8432131806905434112 := by
        unfold val at hB
        rw [show fixed64.f = 32 by rfl, div_lt_iff₀ (by positivity)] at hB
        have : (s : ℚ) < ((8432131806905434112 : Int) : ℚ) := by push_cast; norm_num at *; linarith
        exact_mod_cast this
      obtain ⟨h, h1, a, b, c⟩ := C30_newton_partial s h0 hs
      refine ⟨h, h1, a, ?_⟩
      have hu : ulp fixed64 = 1 / 2 ^ 32 := rfl
      have u0 : 0 ≤ val fixed64 h * ulp fixed64 := mul_nonneg a (by rw [hu]; positivity)
      rcases c with c | c
      · rw [abs_sub_comm]
        refine le_trans c.le ?_
        have : (5 : ℚ) / 65536 ≤ 1 / 2 ^ 13 - 4 * ulp fixed64 := by rw [hu]; norm_num
        linarith
      · rw [abs_le]
        constructor
        · have : ulp fixed64 ^ 2 ≤ 1 / 2 ^ 13 - 4 * ulp fixed64 := by rw [hu]; norm_num
          nlinarith
        · have : 0 ≤ 1 / 2 ^ 13 - 4 * ulp fixed64 := by rw [hu]; norm_num
          nlinarith [sq_nonneg (ulp fixed64)]

theorem hyp_sq {F : FxTy} (h : SW F) (hr : F.r = false) {x : Int} (hx : Storable F x) (hB : x ^ 2 / 2 ^ F.f ≤ F.T.hi) :
    ∃ a, mul F x x = .ok a ∧ 0 ≤ a ∧ a = x ^ 2 / 2 ^ F.f ∧ val F a ≤ val F x ^ 2 ∧ val F x ^ 2 < val F a + ulp F := by
  have hp : (0 : Int) < 2 ^ F.f := by positivity
  have h0 : 0 ≤ x ^ 2 / 2 ^ F.f := Int.ediv_nonneg (sq_nonneg x) hp.le
  have hlo : F.T.lo ≤ 0 := by unfold IntTy.lo; split <;> [exact neg_nonpos.2 (by positivity); exact le_rfl]
  have e : x * x / 2 ^ F.f = x ^ 2 / 2 ^ F.f := by rw [pow_two]
  have e1 := Int.ediv_mul_le (x ^ 2) hp.ne'
  have e2 := Int.lt_ediv_add_one_mul_self (x ^ 2) hp
  have hq : (0 : ℚ) < 2 ^ F.f := by positivity
  have v : val F x ^ 2 = (x : ℚ) ^ 2 / 2 ^ F.f / 2 ^ F.f := by unfold val; field_simp
  refine ⟨_, h.mul_ok hr hx hx (by rw [e]; exact ⟨by omega, hB⟩), by rw [e]; exact h0, e, ?_, ?_⟩
  · rw [v, e]; unfold val
    apply div_le_div_of_nonneg_right _ hq.le
    rw [le_div_iff₀ hq]; exact_mod_cast e1
  · rw [v, e]; unfold val ulp
    rw [← add_div]
    apply div_lt_div_of_pos_right _ hq
    rw [div_lt_iff₀ hq]; exact_mod_cast e2

theorem hyp_lt {F : FxTy} {s B : Int} (h : val F s < B) : s < B * 2 ^ F.f := by
  unfold val at h
  rw [div_lt_iff₀ (by positivity)] at h
  exact_mod_cast h

/-- C108, the part that holds: as long as the sum of the squares is below `2^15` (`fixed32`) or `1.9e9` (`fixed64`), both forms are defined and as
accurate as stated. -/
theorem C108_range_partial (F : FxTy) (hF : F = fixed32 ∨ F = fixed64) (x y z : Int) (hx : Storable F x) (hy : Storable F y) (hz : Storable F z)
    (hB : val F x ^ 2 + val F y ^ 2 + val F z ^ 2 < if F.f = 16 then 2 ^ 15 else 19 * 10 ^ 8) :
    (∃ h, hypot F x y = .ok h ∧ 0 ≤ val F h ∧ |val F h ^ 2 - (val F x ^ 2 + val F y ^ 2)| ≤ 1 / 2 ^ 13 + 3 * val F h * ulp F) ∧
    (∃ h, hypot3 F x y z = .ok h ∧ 0 ≤ val F h ∧
      |val F h ^ 2 - (val F x ^ 2 + val F y ^ 2 + val F z ^ 2)| ≤ 1 / 2 ^ 13 + 3 * val F h * ulp F) := by
  have h : SW F := by rcases hF with rfl | rfl; exacts [sw32, sw64]
  have hr : F.r = false := by rcases hF with rfl | rfl <;> rfl
  have hu : 0 < ulp F := by unfold ulp; positivity
  obtain ⟨B, hBe, hBh⟩ : ∃ B : Int, ((if F.f = 16 then 2 ^ 15 else 19 * 10 ^ 8 : ℚ) = (B : ℚ)) ∧ B * 2 ^ F.f - 1 ≤ F.T.hi := by
    rcases hF with rfl | rfl
    · exact ⟨2 ^ 15, by norm_num [fixed32], by decide +kernel⟩
    · exact ⟨19 * 10 ^ 8, by norm_num [fixed64], by decide +kernel⟩
  have p1 := sq_nonneg (val F x)
  have p2 := sq_nonneg (val F y)
  have p3 := sq_nonneg (val F z)
  have fit : ∀ w : Int, Storable F w → val F w ^ 2 < B → w ^ 2 / 2 ^ F.f ≤ F.T.hi := by
    intro w hw hl
    have hp : (0 : Int) < 2 ^ F.f := by positivity
    have : w ^ 2 / 2 ^ F.f < B * 2 ^ F.f := by
      rw [Int.ediv_lt_iff_lt_mul hp]
      unfold val at hl
      rw [div_pow, div_lt_iff₀ (by positivity)] at hl
      have : (w : ℚ) ^ 2 < (B * 2 ^ F.f * 2 ^ F.f : Int) := by push_cast; nlinarith
      exact_mod_cast this
    omega
  rw [hBe] at hB
  obtain ⟨a, a1, a2, -, a3, a4⟩ := hyp_sq h hr hx (fit x hx (by linarith))
  obtain ⟨b, b1, b2, -, b3, b4⟩ := hyp_sq h hr hy (fit y hy (by linarith))
  obtain ⟨c, c1, c2, -, c3, c4⟩ := hyp_sq h hr hz (fit z hz (by linarith))
  have va : val F (a + b) = val F a + val F b := by unfold val; push_cast; ring
  have vb : val F (a + b + c) = val F a + val F b + val F c := by unfold val; push_cast; ring
  have hlo : F.T.lo ≤ 0 := by unfold IntTy.lo; split <;> [exact neg_nonpos.2 (by positivity); exact le_rfl]
  have s1 : F.T.InRange (a + b) := ⟨by omega, by
    have := hyp_lt (F := F) (s := a + b) (B := B) (by rw [va]; linarith)
    omega⟩
  have s2 : F.T.InRange (a + b + c) := ⟨by omega, by
    have := hyp_lt (F := F) (s := a + b + c) (B := B) (by rw [vb]; linarith)
    omega⟩
  obtain ⟨r, r1, r2, r3⟩ := hyp_root F hF (a + b) (by omega) (by rw [hBe, va]; linarith)
  obtain ⟨q, q1, q2, q3⟩ := hyp_root F hF (a + b + c) (by omega) (by rw [hBe, vb]; linarith)
  have n1 := mul_nonneg r2 hu.le
  have n2 := mul_nonneg q2 hu.le
  rw [abs_le, va] at r3
  rw [abs_le, vb] at q3
  refine ⟨⟨r, ?_, r2, ?_⟩, ⟨q, ?_, q2, ?_⟩⟩
  · unfold hypot
    rw [a1, Res.bind_ok, b1, Res.bind_ok, h.add_ok s1, Res.bind_ok, r1]
  · rw [abs_le]; constructor <;> linarith [r3.1, r3.2]
  · unfold hypot3
    rw [a1, Res.bind_ok, b1, Res.bind_ok, h.add_ok s1, Res.bind_ok, c1, Res.bind_ok, h.add_ok s2, Res.bind_ok, q1]
  · rw [abs_le]; constructor <;> linarith [q3.1, q3.2]

/-- C108: the signs of the arguments do not matter (the wrapped and undefined cases included). -/
theorem C108_signs (F : FxTy) (hF : F = fixed32 ∨ F = fixed64) (x y : Int) (hx : Storable F x) (hy : Storable F y)
    (hlx : F.T.lo < x) (hly : F.T.lo < y) : hypot F (-x) y = hypot F x y ∧ hypot F x (-y) = hypot F x y := by
  have hV : F.Valid := by rcases hF with rfl | rfl; exacts [sw32.valid, sw64.valid]
  have hr : F.r = false := by rcases hF with rfl | rfl <;> rfl
  have hl : F.T.hi = -F.T.lo - 1 := by rcases hF with rfl | rfl <;> decide +kernel
  have key : ∀ w, Storable F w → F.T.lo < w → mul F (-w) (-w) = mul F w w := by
    intro w hw hlw
    have hw' : Storable F (-w) := ⟨by have := hw.2; omega, by omega⟩
    rw [mul_nf hV hr hw' hw', mul_nf hV hr hw hw, neg_mul_neg]
  unfold hypot
  rw [key x hx hlx, key y hy hly]; exact ⟨rfl, rfl⟩

example : hypot fixed64 (3 * 2 ^ 32) (4 * 2 ^ 32) = .ok (5 * 2 ^ 32 + 997) ∧ hypot3 fixed64 (1 * 2 ^ 32) (2 * 2 ^ 32) (2 * 2 ^ 32) = .ok (3 * 2 ^ 32) ∧
    hypot fixed64 (65536 * 2 ^ 32) 0 = .ok 0 := by decide +kernel

end Eirin.Props
