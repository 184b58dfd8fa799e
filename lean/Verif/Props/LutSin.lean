import Verif.Props.Lut
import Mathlib.Analysis.SpecialFunctions.Trigonometric.Bounds

/-! # C76: accuracy of the table-driven sine

`std::sin` on `double` is a parameter, assumed only to be within `2^-40` of the sine. -/

namespace Eirin.Props
open Spec

/-- The assumption on `std::sin`. -/
def SinApprox (s : ℚ → ℚ) : Prop := ∀ v : ℚ, |((s v : ℚ) : ℝ) - Real.sin v| ≤ 1 / 2 ^ 40

/-- C76: full statement. -/
def C76_statement : Prop :=
  ∀ s, SinApprox s → ∀ x, Storable fixed64 x → 0 ≤ x →
    ∃ r, lutCalcSin s 512 x = .ok r ∧ |(val fixed64 r : ℝ) - Real.sin (val fixed64 x)| ≤ 1 / 100

/-- A function meeting the assumption. -/
theorem sinApprox_exists : ∃ s, SinApprox s := by
  refine ⟨fun v => (⌊Real.sin v * 2 ^ 40⌋ : ℚ) / 2 ^ 40, fun v => ?_⟩
  have h1 := Int.floor_le (Real.sin v * 2 ^ 40)
  have h2 := Int.lt_floor_add_one (Real.sin v * 2 ^ 40)
  push_cast
  rw [abs_le]
  constructor
  · rw [neg_le_sub_iff_le_add, ← add_div, le_div_iff₀ (by norm_num)]; linarith
  · rw [sub_le_iff_le_add, div_le_iff₀ (by norm_num), add_mul, div_mul_cancel₀ _ (by norm_num)]; linarith

theorem absCast_le (q c : ℚ) : |(q : ℝ)| ≤ (c : ℝ) ↔ |q| ≤ c := by
  rw [← Rat.cast_abs, Rat.cast_le]

theorem funcLutLoop_ok {func : Int → Res Int} {g : Nat → Int} {step : Int} (h0 : 0 ≤ step) (s : Nat) :
    ∀ i : Nat, ((i : Int) + s) * step ≤ 2 ^ 62 → i + s < 2 ^ 31 → step ≤ 2 ^ 62 →
      (∀ j : Nat, j < i + s → func (step * j) = .ok (g j)) →
      funcLutLoop func step s i = .ok ((List.range' i s).map g) := by
  induction s with
  | zero => intros; rfl
  | succ s ih =>
    intro i h1 h2 h3 hf
    unfold funcLutLoop
    have hle : step * (i : Int) ≤ 2 ^ 62 := by
      push_cast at h1
      have : ((i : Int) + (s + 1)) * step = step * i + (s + 1) * step := by ring
      have : 0 ≤ ((s : Int) + 1) * step := mul_nonneg (by omega) h0
      omega
    have hpi : 0 ≤ step * (i : Int) := mul_nonneg h0 (by omega)
    have e1 : mul fixed64 step (ofInt fixed64 (i : Int)) = .ok (step * i) := by
      rw [ofInt64 (by omega) (by omega), mul_nf (by decide) rfl (r64 (by omega) (by omega)) (r64 (by omega) (by omega)),
        show fixed64.f = 32 by rfl, ← mul_assoc, Int.mul_ediv_cancel _ (by norm_num), sw64.wrap_ok (r64 (by omega) (by omega))]
    rw [e1, Res.bind_ok, hf i (by omega), Res.bind_ok,
      ih (i + 1) (by push_cast at h1 ⊢; linarith) (by omega) h3 (fun j hj => hf j (by omega)), Res.bind_ok, List.range'_succ, List.map_cons]
    rfl

/-- Entry `i` of the sine table: the sine of the *integer part* of the angle `i * step`. -/
def sinEntry (s : ℚ → ℚ) (i : Nat) : Int := ratTrunc (s (((26353589 * (i : Int) / 2 ^ 32 : Int)) : ℚ) * 2 ^ 32)

theorem sinEntry_bound {s : ℚ → ℚ} (hs : SinApprox s) (i : Nat) :
    |sinEntry s i| ≤ 2 ^ 32 ∧ |(sinEntry s i : ℝ) / 2 ^ 32 - Real.sin (((26353589 * (i : Int) / 2 ^ 32 : Int)) : ℝ)| ≤ 1 / 2 ^ 31 := by
  unfold sinEntry
  set m : Int := 26353589 * (i : Int) / 2 ^ 32
  have h := hs (m : ℚ)
  push_cast at h
  set q : ℚ := s (m : ℚ)
  have ht := ratTrunc_spec fixed64 (q * 2 ^ 32)
  rw [show fixed64.f = 32 by rfl, mul_div_assoc, div_self (by norm_num), mul_one] at ht
  set e := ratTrunc (q * 2 ^ 32)
  have hsin : |Real.sin (m : ℝ)| ≤ 1 := Real.abs_sin_le_one _
  rw [abs_le] at h hsin
  obtain ⟨t1, t2⟩ := ht
  unfold val ulp at t1 t2
  rw [show fixed64.f = 32 by rfl] at t1 t2
  have key : |(e : ℚ) / 2 ^ 32 - q| < 1 / 2 ^ 32 ∧ |(e : ℚ) / 2 ^ 32| ≤ |q| := by
    rcases le_or_gt 0 q with hq | hq
    · obtain ⟨a, b, c⟩ := t1 hq
      rw [abs_of_nonneg a, abs_of_nonneg hq, abs_lt]
      exact ⟨⟨by linarith, by have : (0:ℚ) < 1 / 2 ^ 32 := by norm_num
                              linarith⟩, b⟩
    · obtain ⟨a, b, c⟩ := t2 hq
      rw [abs_of_nonpos a, abs_of_neg hq, abs_lt]
      exact ⟨⟨by have : (0:ℚ) < 1 / 2 ^ 32 := by norm_num
                 linarith, by linarith⟩, by linarith⟩
  obtain ⟨k1, k2⟩ := key
  constructor
  · have hqr : |(q : ℝ)| ≤ 1 + 1 / 2 ^ 40 := by rw [abs_le]; constructor <;> linarith [h.1, h.2, hsin.1, hsin.2]
    have hqq : |q| ≤ 1 + 1 / 2 ^ 40 := (absCast_le _ _).1 (by push_cast; exact hqr)
    have h3 := le_trans k2 hqq
    rw [abs_div, abs_of_pos (show (0:ℚ) < 2 ^ 32 by norm_num), div_le_iff₀ (by norm_num)] at h3
    have h4 : |(e : ℚ)| < 2 ^ 32 + 1 := lt_of_le_of_lt h3 (by norm_num)
    have h5 : |e| < 2 ^ 32 + 1 := by exact_mod_cast h4
    omega
  · have k3 : |(e : ℝ) / 2 ^ 32 - (q : ℝ)| ≤ 1 / 2 ^ 32 := by
      have := (absCast_le _ _).2 k1.le
      push_cast at this
      exact this
    rw [abs_le] at k3 ⊢
    constructor <;> norm_num at * <;> linarith [k3.1, k3.2, h.1, h.2]

theorem lutSin_ok {s : ℚ → ℚ} (hs : SinApprox s) (j : Nat) (hj : j < 512) : lutSin s (26353589 * j) = .ok (sinEntry s j) := by
  have hj' : (j : Int) < 512 := by exact_mod_cast hj
  have e1 : toFloat fixed64 (26353589 * (j : Int)) = .ok (((26353589 * (j : Int) / 2 ^ 32 : Int)) : ℚ) := by
    have hC : fixed64.C = i128 := by rfl
    have hm : fractionMultiplier fixed64 = 2 ^ 32 := by decide +kernel
    have ht : Int.tdiv (26353589 * (j : Int)) (2 ^ 32) = 26353589 * (j : Int) / 2 ^ 32 := Int.tdiv_eq_ediv_of_nonneg (by omega)
    unfold toFloat cdiv
    rw [hC, hm, if_neg (by norm_num), ht, if_neg, Res.bind_ok, sw64.wrap_ok (r64 (by omega) (by omega))]
    · rfl
    · rintro ⟨_, h⟩
      apply h
      constructor
      · rw [show i128.lo = -2 ^ 127 by rfl]; omega
      · rw [show i128.hi = 2 ^ 127 - 1 by rfl]; omega
  have hm : fractionMultiplier fixed64 = 2 ^ 32 := by decide +kernel
  unfold lutSin
  rw [e1, Res.bind_ok]
  obtain ⟨b1, _⟩ := sinEntry_bound hs j
  unfold sinEntry at b1 ⊢
  rw [abs_le] at b1
  unfold ofFloat floatToInt
  rw [if_neg (by decide), hm]
  rw [show (((2 : Int) ^ 32 : Int) : ℚ) = 2 ^ 32 by norm_num, if_pos (r64 (by omega) (by omega))]

/-- The table built by `func_ptr_lut<512>(__sin)`. -/
theorem sinTable {s : ℚ → ℚ} (hs : SinApprox s) : funcPtrLut (lutSin s) 512 = .ok ((List.range' 0 512).map (sinEntry s)) := by
  have hpi : cPi fixed64 = .ok 13493037704 := by decide +kernel
  have hd : div fixed64 13493037704 (ofInt fixed64 ((512 : Nat) : Int)) = .ok 26353589 := by decide +kernel
  unfold funcPtrLut
  rw [hpi, Res.bind_ok, hd, Res.bind_ok]
  exact funcLutLoop_ok (by norm_num) 512 0 (by norm_num) (by norm_num) (by norm_num) (fun j hj => lutSin_ok hs j (by omega))

theorem sinTable_get (s : ℚ → ℚ) {i : Nat} {a : Int} (h : ((List.range' 0 512).map (sinEntry s))[i]? = some a) :
    a = sinEntry s i ∧ i < 512 := by
  have hi : i < 512 := by
    by_contra hn
    rw [List.getElem?_eq_none (by simp; omega)] at h
    cases h
  rw [List.getElem?_map, List.getElem?_range' hi] at h
  simp at h
  exact ⟨h.symm, hi⟩

theorem lutCalcSin_interp {s : ℚ → ℚ} (hs : SinApprox s) {x : Int} (hx : Storable fixed64 x) (hx0 : 0 ≤ x) :
    ∃ r, lutCalcSin s 512 x = .ok r ∧ Interpolates 13493037704 512 ((List.range' 0 512).map (sinEntry s)) x r := by
  have hpi : cPi fixed64 = .ok 13493037704 := by decide +kernel
  have hu : UnitTable ((List.range' 0 512).map (sinEntry s)) := by
    intro e he
    rw [List.mem_map] at he
    obtain ⟨i, _, rfl⟩ := he
    exact (sinEntry_bound hs i).1
  obtain ⟨P, r, e1, e2, e3⟩ := C75_nonneg_partial 512 _ (by norm_num) (by norm_num) (by simp) hu x hx hx0
  rw [hpi] at e1
  cases e1
  refine ⟨r, ?_, e3⟩
  unfold lutCalcSin
  rw [sinTable hs, Res.bind_ok, e2]

/-- C76, what goes wrong: for every angle in `[0, 15/16)` the result is 0, because the conversion to `double` that fills the table drops
the fraction of the angle. -/
theorem C76_zero (s : ℚ → ℚ) (hs : SinApprox s) (x : Int) (hx0 : 0 ≤ x) (hx1 : val fixed64 x < 15 / 16) : lutCalcSin s 512 x = .ok 0 := by
  have hx2 : x < 15 * 2 ^ 28 := by
    have h15 : val fixed64 (15 * 2 ^ 28) = 15 / 16 := by norm_num [val, fixed64]
    rw [← h15] at hx1
    exact val_lt.1 hx1
  obtain ⟨r, e, k, xm, i, a, b, fr, g0, g0', g1, g2, g3, g4, g5, g6, g7, g8, g9, g10, g11, g12, g13, g14⟩ :=
    lutCalcSin_interp hs (x := x) (r64 (by omega) (by omega)) hx0
  have hk : k = 0 := by omega
  subst hk
  obtain ⟨rfl, _⟩ := sinTable_get s g4
  obtain ⟨rfl, _⟩ := sinTable_get s g5
  have hst : (13493037704 : Int) / (((512 : Nat) : Int) - 1) = 26405161 := by norm_num
  rw [hst] at g9
  have hi : i ≤ 152 := by omega
  have z : ∀ j : Nat, j ≤ 153 → sinEntry s j = 0 := by
    intro j hj
    have hm : 26353589 * (j : Int) / 2 ^ 32 = 0 := by omega
    obtain ⟨_, b2⟩ := sinEntry_bound hs j
    have h0 := hs 0
    unfold sinEntry
    rw [hm]
    push_cast at h0
    rw [Real.sin_zero, sub_zero] at h0
    have h1 : |s 0| ≤ 1 / 2 ^ 40 := (absCast_le _ _).1 (by push_cast; exact h0)
    have ht := ratTrunc_spec fixed64 (s 0 * 2 ^ 32)
    have h2 : IsTrunc fixed64 (s 0 * 2 ^ 32 / 2 ^ fixed64.f) 0 := by
      rw [show fixed64.f = 32 by rfl, mul_div_assoc, div_self (by norm_num), mul_one]
      unfold IsTrunc val ulp
      rw [show fixed64.f = 32 by rfl]
      rw [abs_le] at h1
      constructor
      · intro h; refine ⟨by norm_num, by norm_num; exact h, ?_⟩
        norm_num at h1 ⊢; linarith
      · intro h; refine ⟨by norm_num, by norm_num; exact h.le, ?_⟩
        norm_num at h1 ⊢; linarith
    exact isTrunc_unique ht h2
  rw [z i (by omega), z (i + 1) (by omega)] at g13
  rw [e, g13 (by norm_num)]
  norm_num

example : ∃ s, SinApprox s ∧ val fixed64 (2 ^ 31) < 15 / 16 := by
  obtain ⟨s, hs⟩ := sinApprox_exists
  exact ⟨s, hs, by norm_num [val, fixed64]⟩

/-- C76 is false of the code: the sine of one half comes out as 0. -/
theorem C76_false : ¬ C76_statement := by
  intro h
  obtain ⟨s, hs⟩ := sinApprox_exists
  obtain ⟨r, e, hb⟩ := h s hs (2 ^ 31) (by decide +kernel) (by norm_num)
  rw [C76_zero s hs (2 ^ 31) (by norm_num) (by norm_num [val, fixed64])] at e
  cases e
  have hv : ((val fixed64 (2 ^ 31) : ℚ) : ℝ) = 1 / 2 := by
    have : val fixed64 (2 ^ 31) = 1 / 2 := by norm_num [val, fixed64]
    rw [this]; push_cast; rfl
  have hs2 := Real.sin_gt_sub_cube (x := 1 / 2) (by norm_num)
  rw [hv, val_zero] at hb
  push_cast at hb
  rw [zero_sub, abs_neg, abs_le] at hb
  norm_num at hs2 hb
  linarith [hb.2]

theorem sin_lipschitz (a b : ℝ) : |Real.sin a - Real.sin b| ≤ |a - b| := by
  rw [Real.sin_sub_sin, abs_mul, abs_mul]
  have h1 : |Real.sin ((a - b) / 2)| ≤ |(a - b) / 2| := Real.abs_sin_le_abs
  have h2 : |Real.cos ((a + b) / 2)| ≤ 1 := Real.abs_cos_le_one _
  rw [abs_div] at h1
  norm_num at h1 ⊢
  nlinarith [abs_nonneg (Real.sin ((a - b) / 2)), abs_nonneg (Real.cos ((a + b) / 2))]

/-- C76 with 1.1 instead of 0.01 (a sine table filled at integer angles cannot do much better), for every angle `x ≥ 0`.
Full statement: `C76_statement`; missing (false): any useful accuracy, see `C76_zero`. -/
theorem C76_coarse_partial (s : ℚ → ℚ) (hs : SinApprox s) (x : Int) (hx : Storable fixed64 x) (hx0 : 0 ≤ x) :
    ∃ r, lutCalcSin s 512 x = .ok r ∧ |(val fixed64 r : ℝ) - Real.sin (val fixed64 x)| ≤ 11 / 10 := by
  obtain ⟨r, e, k, xm, i, a, b, fr, g0, g0', g1, g2, g3, g4, g5, g6, g7, g8, g9, g10, g11, g12, g13, g14⟩ :=
    lutCalcSin_interp hs (x := x) hx hx0
  refine ⟨r, e, ?_⟩
  have hx1 : x ≤ 2 ^ 63 - 1 := hx.2
  obtain ⟨rfl, _⟩ := sinTable_get s g4
  obtain ⟨rfl, _⟩ := sinTable_get s g5
  have hst : (13493037704 : Int) / (((512 : Nat) : Int) - 1) = 26405161 := by norm_num
  rw [hst] at g9 g10
  have hfr : fr ≤ 4295396762 := by
    by_cases hi : i + 2 < 512
    · have := g8 hi; omega
    · have : i = 510 := by omega
      subst this
      push_cast at g9
      omega
  have ha := (sinEntry_bound hs i).2
  have hb := (sinEntry_bound hs (i + 1)).2
  set A : Int := sinEntry s i
  set B : Int := sinEntry s (i + 1)
  obtain ⟨m, hm⟩ : ∃ m : Int, m = 26353589 * (i : Int) / 2 ^ 32 := ⟨_, rfl⟩
  obtain ⟨m', hm'⟩ : ∃ m' : Int, m' = 26353589 * ((i + 1 : Nat) : Int) / 2 ^ 32 := ⟨_, rfl⟩
  rw [← hm] at ha
  rw [← hm'] at hb
  have d1 : -26353589 ≤ xm - m * 2 ^ 32 ∧ xm - m * 2 ^ 32 ≤ 2 ^ 32 + 52712162 := by omega
  have d2 : -26353589 ≤ xm - m' * 2 ^ 32 ∧ xm - m' * 2 ^ 32 ≤ 2 ^ 32 + 52712162 := by push_cast at hm'; omega
  -- real versions
  set X : ℝ := (xm : ℝ) / 2 ^ 32 with hX
  have node : ∀ n : Int, -26353589 ≤ xm - n * 2 ^ 32 ∧ xm - n * 2 ^ 32 ≤ 2 ^ 32 + 52712162 → |(n : ℝ) - X| ≤ 10123 / 10000 := by
    intro n ⟨c1, c2⟩
    have c1' : (-26353589 : ℝ) ≤ xm - n * 2 ^ 32 := by exact_mod_cast c1
    have c2' : (xm : ℝ) - n * 2 ^ 32 ≤ 2 ^ 32 + 52712162 := by exact_mod_cast c2
    rw [hX, abs_le]
    constructor
    · rw [neg_le_sub_iff_le_add, div_le_iff₀ (by norm_num)]; norm_num at c2' ⊢; linarith
    · rw [sub_le_iff_le_add, ← sub_le_iff_le_add', le_div_iff₀ (by norm_num)]; norm_num at c1' ⊢; linarith
  have dA : |(A : ℝ) / 2 ^ 32 - Real.sin X| ≤ 10124 / 10000 := by
    have h1 := sin_lipschitz (m : ℝ) X
    have h2 := node m d1
    rw [abs_le] at ha h1 h2 ⊢
    have h3 : |(m : ℝ) - X| ≤ 10123 / 10000 := by rw [abs_le]; exact h2
    norm_num at ha ⊢
    constructor <;> linarith [ha.1, ha.2, h1.1, h1.2]
  have dB : |(B : ℝ) / 2 ^ 32 - Real.sin X| ≤ 10124 / 10000 := by
    have h1 := sin_lipschitz (m' : ℝ) X
    have h2 := node m' d2
    rw [abs_le] at hb h1 h2 ⊢
    have h3 : |(m' : ℝ) - X| ≤ 10123 / 10000 := by rw [abs_le]; exact h2
    norm_num at hb ⊢
    constructor <;> linarith [hb.1, hb.2, h1.1, h1.2]
  -- the interpolation
  obtain ⟨R, hR⟩ : ∃ R : Int, R = A * (2 ^ 32 - fr) / 2 ^ 32 + B * fr / 2 ^ 32 := ⟨_, rfl⟩
  rw [← hR] at g13 g14
  have hR1 : |(R : ℝ) / 2 ^ 32 - Real.sin X| ≤ 1013 / 1000 := by
    have r1 : R * 2 ^ 32 ≤ A * (2 ^ 32 - fr) + B * fr := by omega
    have r2 : A * (2 ^ 32 - fr) + B * fr ≤ R * 2 ^ 32 + 2 ^ 33 := by omega
    have r1' : (R : ℝ) * 2 ^ 32 ≤ A * (2 ^ 32 - fr) + B * fr := by exact_mod_cast r1
    have r2' : (A : ℝ) * (2 ^ 32 - fr) + B * fr ≤ R * 2 ^ 32 + 2 ^ 33 := by exact_mod_cast r2
    set φ : ℝ := (fr : ℝ) / 2 ^ 32 with hφ
    have hφ0 : 0 ≤ φ := by rw [hφ]; apply div_nonneg _ (by norm_num); exact_mod_cast g6
    have hφ1 : φ ≤ 10001 / 10000 := by
      rw [hφ, div_le_iff₀ (by norm_num)]
      have : (fr : ℝ) ≤ 4295396762 := by exact_mod_cast hfr
      norm_num; linarith
    have hfrφ : (fr : ℝ) = φ * 2 ^ 32 := by rw [hφ]; field_simp
    have hAe : (A : ℝ) = (A : ℝ) / 2 ^ 32 * 2 ^ 32 := by field_simp
    have hBe : (B : ℝ) = (B : ℝ) / 2 ^ 32 * 2 ^ 32 := by field_simp
    have hRe : (R : ℝ) = (R : ℝ) / 2 ^ 32 * 2 ^ 32 := by field_simp
    rw [hfrφ, hAe, hBe, hRe] at r1' r2'
    set a' : ℝ := (A : ℝ) / 2 ^ 32
    set b' : ℝ := (B : ℝ) / 2 ^ 32
    set r' : ℝ := (R : ℝ) / 2 ^ 32
    set S : ℝ := Real.sin X
    have t1 : r' ≤ a' * (1 - φ) + b' * φ := by norm_num at r1'; linarith
    have t2 : a' * (1 - φ) + b' * φ ≤ r' + 1 / 2 ^ 31 := by norm_num at r2' ⊢; linarith
    have key : |a' * (1 - φ) + b' * φ - S| ≤ 10124 / 10000 * (10002 / 10000) := by
      have e : a' * (1 - φ) + b' * φ - S = (a' - S) * (1 - φ) + (b' - S) * φ := by ring
      rw [e]
      have c1 : |(a' - S) * (1 - φ)| ≤ 10124 / 10000 * |1 - φ| := by rw [abs_mul]; gcongr
      have c2 : |(b' - S) * φ| ≤ 10124 / 10000 * φ := by rw [abs_mul, abs_of_nonneg hφ0]; gcongr
      have c3 : |1 - φ| + φ ≤ 10002 / 10000 := by
        rcases le_total φ 1 with h | h
        · rw [abs_of_nonneg (by linarith)]; norm_num
        · rw [abs_of_nonpos (by linarith)]; norm_num at hφ1 ⊢; linarith
      calc |(a' - S) * (1 - φ) + (b' - S) * φ| ≤ |(a' - S) * (1 - φ)| + |(b' - S) * φ| := abs_add_le _ _
        _ ≤ 10124 / 10000 * (|1 - φ| + φ) := by linarith
        _ ≤ _ := by gcongr
    rw [abs_le] at key ⊢
    norm_num at key t2 ⊢
    constructor <;> linarith [key.1, key.2]
  -- the reduction
  have hk : k ≤ 683565276 := by omega
  have hkr : (k : ℝ) ≤ 683565276 := by exact_mod_cast hk
  have hk0 : (0 : ℝ) ≤ k := by exact_mod_cast g0'
  have hxr : ((val fixed64 x : ℚ) : ℝ) = X + k * (13493037704 / 2 ^ 32) := by
    rw [g0]; unfold val; rw [show fixed64.f = 32 by rfl, hX]; push_cast; ring
  have hsx : |Real.sin ((val fixed64 x : ℚ) : ℝ) - (-1) ^ k * Real.sin X| ≤ 84 / 1000 := by
    rw [← Real.sin_add_int_mul_pi, hxr]
    refine le_trans (sin_lipschitz _ _) ?_
    have e : X + (k : ℝ) * (13493037704 / 2 ^ 32) - (X + k * Real.pi) = k * (13493037704 / 2 ^ 32 - Real.pi) := by ring
    rw [e, abs_mul, abs_of_nonneg hk0]
    have p1 := Real.pi_gt_d20; have p2 := Real.pi_lt_d20
    have hp : |(13493037704 : ℝ) / 2 ^ 32 - Real.pi| ≤ 12156 / 10 ^ 14 := by
      rw [abs_le]; norm_num at p1 p2 ⊢; constructor <;> linarith
    calc (k : ℝ) * |13493037704 / 2 ^ 32 - Real.pi| ≤ 683565276 * (12156 / 10 ^ 14) := by gcongr
      _ ≤ 84 / 1000 := by norm_num
  have hval : ((val fixed64 r : ℚ) : ℝ) = (r : ℝ) / 2 ^ 32 := by
    unfold val; rw [show fixed64.f = 32 by rfl]; push_cast; rfl
  rw [hval]
  rw [abs_le] at hsx hR1 ⊢
  rcases Int.even_or_odd k with he | ho
  · have := g13 (Int.even_iff.1 he)
    rw [he.neg_one_zpow, one_mul] at hsx
    rw [this]
    constructor <;> linarith [hsx.1, hsx.2, hR1.1, hR1.2]
  · have := g14 (Int.odd_iff.1 ho)
    rw [ho.neg_one_zpow] at hsx
    rw [this]
    push_cast
    rw [neg_div]
    constructor <;> linarith [hsx.1, hsx.2, hR1.1, hR1.2]

example : ∃ s, SinApprox s ∧ Storable fixed64 (100 * 2 ^ 32) := by
  obtain ⟨s, hs⟩ := sinApprox_exists
  exact ⟨s, hs, by decide +kernel⟩

end Eirin.Props
