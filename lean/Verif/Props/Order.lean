import Verif.Props.SqrtAll
import Verif.Props.CbrtAll
import Verif.Props.SinAll
import Verif.Props.AtanAll

/-! # C135: which elementary functions preserve the order -/

namespace Eirin.Props
open Spec

/-- `g` preserves the order on an interval of the layout. -/
def Increasing (F : FxTy) (g : Int → Res Int) (lo hi : ℚ) : Prop :=
  ∀ x y a b, Storable F x → Storable F y → lo ≤ val F x → val F x ≤ val F y → val F y ≤ hi → g x = .ok a → g y = .ok b → val F a ≤ val F b

/-- C135 (as one would expect it): the increasing functions are increasing. -/
def C135_statement : Prop :=
  Increasing fixed32 (sin fixed32) 0 (3 / 2) ∧ Increasing fixed32 (tan fixed32) 0 (3 / 2) ∧ Increasing fixed32 (atan fixed32) 0 1 ∧
    Increasing fixed32 (asin fixed32) 0 1 ∧ Increasing fixed32 (cbrt fixed32) 0 1 ∧ Increasing fixed64 (sqrt fixed64) 0 1

theorem not_increasing {F : FxTy} {g : Int → Res Int} {lo hi : ℚ} (x y a b : Int) (hx : Storable F x) (hy : Storable F y) (h1 : lo ≤ val F x)
    (h2 : x ≤ y) (h3 : val F y ≤ hi) (ea : g x = .ok a) (eb : g y = .ok b) (hab : b < a) : ¬ Increasing F g lo hi := by
  intro h
  have := h x y a b hx hy h1 (val_le.2 h2) h3 ea eb
  rw [val_le] at this; omega

/-- None of them is: for each function two neighbouring arguments with results in the wrong order. -/
theorem C135_none_increasing :
    ¬ Increasing fixed32 (sin fixed32) 0 (3 / 2) ∧ ¬ Increasing fixed32 (tan fixed32) 0 (3 / 2) ∧ ¬ Increasing fixed32 (atan fixed32) 0 1 ∧
      ¬ Increasing fixed32 (asin fixed32) 0 1 ∧ ¬ Increasing fixed32 (cbrt fixed32) 0 1 ∧ ¬ Increasing fixed64 (sqrt fixed64) 0 1 := by
  refine ⟨not_increasing 8 9 8 7 ?_ ?_ ?_ ?_ ?_ ?_ ?_ ?_, not_increasing 8 9 7 6 ?_ ?_ ?_ ?_ ?_ ?_ ?_ ?_,
    not_increasing 50005 50006 42708 42707 ?_ ?_ ?_ ?_ ?_ ?_ ?_ ?_, not_increasing 41671 41672 45162 45161 ?_ ?_ ?_ ?_ ?_ ?_ ?_ ?_,
    not_increasing 1214 1215 17389 17346 ?_ ?_ ?_ ?_ ?_ ?_ ?_ ?_, not_increasing 31 32 385024 371370 ?_ ?_ ?_ ?_ ?_ ?_ ?_ ?_⟩
  all_goals decide +kernel

theorem C135_false : ¬ C135_statement := fun h => C135_none_increasing.1 h.1

/-- C135 (what holds): on every layout of C105, `sin` is increasing on `[-pi/2, pi/2]` and `cos` decreasing on `[0, pi]` up to twice the error. -/
theorem C135_trig_partial (F : FxTy) (hF : F.Valid) (hs : F.T.signed = true) (hr : F.r = false) (h8 : 8 ≤ F.f) (h59 : F.f ≤ 59) (hroom : F.f + 5 ≤ F.T.bits) (x y : Int)
    (hxy : val F x ≤ val F y) :
    (|((val F x : ℚ) : ℝ)| ≤ Real.pi / 2 → |((val F y : ℚ) : ℝ)| ≤ Real.pi / 2 →
      ∃ a b, sin F x = .ok a ∧ sin F y = .ok b ∧ val F a ≤ val F b + 6 / 10000 + 40 * ulp F) ∧
    (0 ≤ val F x → ((val F y : ℚ) : ℝ) ≤ Real.pi →
      ∃ a b, cos F x = .ok a ∧ cos F y = .ok b ∧ val F b ≤ val F a + 6 / 10000 + 50 * ulp F) := by
  obtain ⟨S, C⟩ := C105_accuracy_partial F hF hs hr h8 h59 hroom
  have hp := Real.pi_pos
  have hxy' : ((val F x : ℚ) : ℝ) ≤ (val F y : ℚ) := by exact_mod_cast hxy
  constructor
  · intro h1 h2
    obtain ⟨a, ea, -, ha⟩ := S x (by linarith)
    obtain ⟨b, eb, -, hb⟩ := S y (by linarith)
    rw [abs_le] at h1 h2 ha hb
    have m : Real.sin (val F x : ℚ) ≤ Real.sin (val F y : ℚ) := Real.sin_le_sin_of_le_of_le_pi_div_two (by linarith) h2.2 hxy'
    refine ⟨a, b, ea, eb, ?_⟩
    have : ((val F a : ℚ) : ℝ) ≤ ((val F b + 6 / 10000 + 40 * ulp F : ℚ) : ℝ) := by push_cast; linarith
    exact_mod_cast this
  · intro h1 h2
    have h1' : (0 : ℝ) ≤ (val F x : ℚ) := by exact_mod_cast h1
    obtain ⟨a, ea, -, ha⟩ := C x (by rw [abs_of_nonneg h1']; linarith)
    obtain ⟨b, eb, -, hb⟩ := C y (by rw [abs_of_nonneg (by linarith)]; exact h2)
    rw [abs_le] at ha hb
    have m : Real.cos (val F y : ℚ) ≤ Real.cos (val F x : ℚ) := Real.cos_le_cos_of_nonneg_of_le_pi h1' h2 hxy'
    refine ⟨a, b, ea, eb, ?_⟩
    have : ((val F b : ℚ) : ℝ) ≤ ((val F a + 6 / 10000 + 50 * ulp F : ℚ) : ℝ) := by push_cast; linarith
    exact_mod_cast this

/-- C135 (what holds): on every layout of C106, `atan` is increasing on `[-1, 1]` up to twice its error. -/
theorem C135_atan_partial (F : FxTy) (hF : F.Valid) (hs : F.T.signed = true) (hr : F.r = false) (h8 : 8 ≤ F.f) (h1 : Storable F (2 ^ F.f)) (x y : Int)
    (hx : |val F x| ≤ 1) (hy : |val F y| ≤ 1) (hxy : val F x ≤ val F y) :
    ∃ a b, atan F x = .ok a ∧ atan F y = .ok b ∧ val F a ≤ val F b + 74 / 100000 + 15.4 * ulp F := by
  obtain ⟨a, ea, -, ha⟩ := C106_accuracy F hF hs hr h8 h1 x hx
  obtain ⟨b, eb, -, hb⟩ := C106_accuracy F hF hs hr h8 h1 y hy
  have hxy' : ((val F x : ℚ) : ℝ) ≤ (val F y : ℚ) := by exact_mod_cast hxy
  have m := Real.arctan_strictMono.monotone hxy'
  rw [abs_le] at ha hb
  refine ⟨a, b, ea, eb, ?_⟩
  have : ((val F a : ℚ) : ℝ) ≤ ((val F b + 74 / 100000 + 15.4 * ulp F : ℚ) : ℝ) := by push_cast; linarith
  exact_mod_cast this

/-- C135 (what holds): on every 64-bit layout, Newton's `sqrt` is increasing up to one ulp, except where it stops early: then up to `5/65536` in the square. -/
theorem C135_sqrt_partial (f : Nat) (hf0 : 0 < f) (hf1 : f ≤ 62) (x y : Int) (hx : Storable (L64 f) x) (hy : Storable (L64 f) y)
    (h0 : 0 < val (L64 f) x) (hxy : val (L64 f) x ≤ val (L64 f) y) (hfit : val (L64 f) y < 91 / 100 * 2 ^ (63 - f)) (h62 : f = 62 → val (L64 f) y < 91 / 100) :
    ∃ a b, sqrt (L64 f) x = .ok a ∧ sqrt (L64 f) y = .ok b ∧
      (val (L64 f) a ≤ val (L64 f) b + ulp (L64 f) ∨ val (L64 f) a ^ 2 < (val (L64 f) b + ulp (L64 f)) ^ 2 + 5 / 65536) := by
  have hu := ulp_pos (L64 f)
  obtain ⟨a, ea, -, a0, a1, a2⟩ := C112_sqrt f hf0 hf1 x hx h0 (fun _ => by linarith) (fun h => by have := h62 h; linarith)
  obtain ⟨b, eb, -, b0, b1, -⟩ := C112_sqrt f hf0 hf1 y hy (by linarith) (fun _ => hfit) h62
  refine ⟨a, b, ea, eb, ?_⟩
  rcases a2 with h | h
  · right; rw [abs_lt] at h; linarith
  · left
    by_contra hc
    push Not at hc
    have : val (L64 f) b + 2 * ulp (L64 f) ≤ val (L64 f) a := by
      rw [← val_one, ← val_add, val_lt] at hc
      have : val (L64 f) (b + 1 + 1) ≤ val (L64 f) a := by rw [val_le]; omega
      rw [val_add, val_add, val_one] at this; linarith
    have : (val (L64 f) b + ulp (L64 f)) ^ 2 ≤ (val (L64 f) a - ulp (L64 f) / 2) ^ 2 := pow_le_pow_left₀ (by linarith) (by linarith) 2
    linarith

/-- C135 (what holds): on every layout of C117, `cbrt` is increasing up to 29 ulps, except where it stops early: then up to `10/65536` in the cube. -/
theorem C135_cbrt_partial (F : FxTy) (hF : F.Valid) (hs : SignedWide F) (hr : F.r = false) (h16 : 16 ≤ F.f) (h5 : F.f + 5 ≤ F.T.bits)
    (x y : Int) (hx : Storable F x) (hy : Storable F y) (h0 : 5 / 65536 ≤ val F x) (hxy : val F x ≤ val F y)
    (hc : ((val F y + 2) / 3) ^ 3 < val F F.T.hi + ulp F) :
    ∃ a b, cbrt F x = .ok a ∧ cbrt F y = .ok b ∧
      (val F a ≤ val F b + 29 * ulp F ∨ val F a ^ 3 ≤ (val F b + ulp F) ^ 3 + 10 / 65536 + val F a * ulp F) := by
  have hu := ulp_pos F
  have hcx : ((val F x + 2) / 3) ^ 3 < val F F.T.hi + ulp F :=
    lt_of_le_of_lt (pow_le_pow_left₀ (by linarith) (by linarith) 3) hc
  obtain ⟨a, ea, a0, a1, a2⟩ := C117_root F hF hs hr h16 h5 x hx h0 hcx
  obtain ⟨b, eb, b0, b1, -⟩ := C117_root F hF hs hr h16 h5 y hy (by linarith) hc
  refine ⟨a, b, ea, eb, ?_⟩
  rcases a2 with h | h
  · left
    by_contra hn
    push Not at hn
    have : (val F b + ulp F) ^ 3 < (val F a - 28 * ulp F) ^ 3 := pow_lt_pow_left₀ (by linarith) (by linarith) (by norm_num)
    linarith
  · right; rw [abs_le] at h; linarith

/-- C135 (what holds): on `fixed32`, `hypot` is increasing in the size of each argument, without exception. -/
theorem C135_hypot_partial (x y x' y' : Int) (hx : Storable fixed32 x) (hy : Storable fixed32 y) (hx' : Storable fixed32 x') (hy' : Storable fixed32 y')
    (h1 : |val fixed32 x| ≤ |val fixed32 x'|) (h2 : |val fixed32 y| ≤ |val fixed32 y'|) (hr : val fixed32 x' ^ 2 + val fixed32 y' ^ 2 < 2 ^ 15) :
    ∃ a b, hypot fixed32 x y = .ok a ∧ hypot fixed32 x' y' = .ok b ∧ val fixed32 a ≤ val fixed32 b := by
  have sq : ∀ u v : Int, |val fixed32 u| ≤ |val fixed32 v| → u ^ 2 ≤ v ^ 2 := by
    intro u v h
    have := sq_le_sq.2 h
    unfold val at this
    rw [div_pow, div_pow, div_le_div_iff_of_pos_right (by positivity)] at this
    exact_mod_cast this
  have s1 := sq _ _ h1
  have s2 := sq _ _ h2
  have hr' : x' ^ 2 + y' ^ 2 < 2 ^ 47 := by
    unfold val at hr
    rw [show fixed32.f = 16 by rfl, div_pow, div_pow, ← add_div, div_lt_iff₀ (by positivity)] at hr
    have : (x' : ℚ) ^ 2 + y' ^ 2 < 2 ^ 47 := by norm_num at hr ⊢; linarith
    exact_mod_cast this
  obtain ⟨a, ea, ra⟩ := hypot_raw x y hx hy (by omega)
  obtain ⟨b, eb, rb⟩ := hypot_raw x' y' hx' hy' hr'
  refine ⟨a, b, ea, eb, ?_⟩
  rw [val_le]
  have m : (x ^ 2 / 2 ^ 16 + y ^ 2 / 2 ^ 16) * 2 ^ 16 ≤ (x' ^ 2 / 2 ^ 16 + y' ^ 2 / 2 ^ 16) * 2 ^ 16 := by omega
  obtain ⟨a0, a1, a2⟩ := ra
  obtain ⟨b0, b1, b2⟩ := rb
  by_contra hn
  push Not at hn
  have : (b + 1) ^ 2 ≤ a ^ 2 := pow_le_pow_left₀ (by omega) (by omega) 2
  omega

example : sin fixed32 8 = .ok 8 ∧ sin fixed32 9 = .ok 7 ∧ cbrt fixed32 1214 = .ok 17389 ∧ cbrt fixed32 1215 = .ok 17346 ∧
    sqrt fixed64 31 = .ok 385024 ∧ sqrt fixed64 32 = .ok 371370 := by decide +kernel

example : |val fixed32 (-3 * 65536)| ≤ |val fixed32 (5 * 65536)| ∧ val fixed32 (5 * 65536) ^ 2 + val fixed32 65536 ^ 2 < 2 ^ 15 ∧
    hypot fixed32 (-3 * 65536) 65536 = .ok 207243 ∧ hypot fixed32 (5 * 65536) 65536 = .ok 334169 := by
  refine ⟨by norm_num [val, fixed32], by norm_num [val, fixed32], by decide +kernel, by decide +kernel⟩

end Eirin.Props
