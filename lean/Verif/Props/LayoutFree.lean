import Verif.Props.PrintAll
import Verif.Props.PrintInj
import Verif.Props.FormatNarrow
import Verif.Props.TextBack
import Verif.Props.RoundTrip
import Verif.Props.RoundAll
import Verif.Props.Laws
import Verif.Props.Rounding

/-! # Property C178: the same number gives the same result in every layout.

`F` and `G` are two fixed-point types of any width, signedness, fraction and (where nothing else is said) rounding
mode; `x` in `F` and `x'` in `G` denote the same number. -/

namespace Eirin.Props
open Spec

/-! ### Arithmetic -/

theorem st_int {F : FxTy} {n : Int} (h : Representable F (val F n)) : Storable F n := by
  obtain ⟨y, sy, e⟩ := h
  rw [← val_inj e]; exact sy

theorem add_exact {F : FxTy} (hF : F.Valid) {x y : Int} (h : Representable F (val F x + val F y)) : add F x y = .ok (x + y) := by
  rw [← val_add] at h
  have h := st_int h
  unfold add; rw [arith_of_inRange hF.ppos (IntTy.inRange_promote hF.tpos h), Res.bind_ok, IntTy.wrap_of_inRange hF.tpos h]; rfl

theorem sub_exact {F : FxTy} (hF : F.Valid) {x y : Int} (h : Representable F (val F x - val F y)) : sub F x y = .ok (x - y) := by
  rw [← val_sub] at h
  have h := st_int h
  unfold sub; rw [arith_of_inRange hF.ppos (IntTy.inRange_promote hF.tpos h), Res.bind_ok, IntTy.wrap_of_inRange hF.tpos h]; rfl

theorem neg_exact {F : FxTy} (hF : F.Valid) {x : Int} (h : Representable F (-val F x)) : neg F x = .ok (-x) := by
  rw [← val_neg] at h
  have h := st_int h
  unfold neg; rw [arith_of_inRange hF.ppos (IntTy.inRange_promote hF.tpos h), Res.bind_ok, IntTy.wrap_of_inRange hF.tpos h]; rfl

/-- C178: sums, differences and negations that are representable in both types are the same number in both, and so are the
smaller and the larger of two numbers; every comparison has the same answer. -/
theorem C178_exact (F G : FxTy) (hF : F.Valid) (hG : G.Valid) (x y x' y' : Int) (ex : val F x = val G x') (ey : val F y = val G y') :
    (Representable F (val F x + val F y) → Representable G (val F x + val F y) →
      ∃ z z', add F x y = .ok z ∧ add G x' y' = .ok z' ∧ val F z = val G z') ∧
    (Representable F (val F x - val F y) → Representable G (val F x - val F y) →
      ∃ z z', sub F x y = .ok z ∧ sub G x' y' = .ok z' ∧ val F z = val G z') ∧
    (Representable F (-val F x) → Representable G (-val F x) → ∃ z z', neg F x = .ok z ∧ neg G x' = .ok z' ∧ val F z = val G z') ∧
    val F (min x y) = val G (min x' y') ∧ val F (max x y) = val G (max x' y') ∧
    (lt x y = lt x' y') ∧ (le x y = le x' y') ∧ (gt x y = gt x' y') ∧ (ge x y = ge x' y') ∧ (eq x y = eq x' y') := by
  obtain ⟨o1, o2, o3, o4, o5⟩ := C12_order F x y
  obtain ⟨p1, p2, p3, p4, p5⟩ := C12_order G x' y'
  rw [ex, ey] at o1 o2 o3 o4 o5
  have hle : x ≤ y ↔ x' ≤ y' := by rw [← val_le (F := F), ← val_le (F := G), ex, ey]
  have hlt : x < y ↔ x' < y' := by rw [← val_lt (F := F), ← val_lt (F := G), ex, ey]
  refine ⟨fun h h' => ⟨_, _, add_exact hF h, add_exact hG (by rw [← ex, ← ey]; exact h'), by rw [val_add, val_add, ex, ey]⟩,
    fun h h' => ⟨_, _, sub_exact hF h, sub_exact hG (by rw [← ex, ← ey]; exact h'), by rw [val_sub, val_sub, ex, ey]⟩,
    fun h h' => ⟨_, _, neg_exact hF h, neg_exact hG (by rw [← ex]; exact h'), by rw [val_neg, val_neg, ex]⟩, ?_, ?_,
    by rw [Bool.eq_iff_iff, o1, p1], by rw [Bool.eq_iff_iff, o2, p2], by rw [Bool.eq_iff_iff, o3, p3], by rw [Bool.eq_iff_iff, o4, p4],
    by rw [Bool.eq_iff_iff, o5, p5]⟩
  · obtain ⟨c, -, d, -⟩ := C25_minmax F x y (min x y)
    obtain ⟨c', -, d', -⟩ := C25_minmax G x' y' (min x' y')
    have a := d.1 le_rfl
    have b := d'.1 le_rfl
    rcases c with c | c <;> rcases c' with c' | c' <;> rw [c] at a ⊢ <;> rw [c'] at b ⊢ <;> linarith [a.1, a.2, b.1, b.2]
  · obtain ⟨-, c, -, d⟩ := C25_minmax F x y (max x y)
    obtain ⟨-, c', -, d'⟩ := C25_minmax G x' y' (max x' y')
    have a := d.1 le_rfl
    have b := d'.1 le_rfl
    rcases c with c | c <;> rcases c' with c' | c' <;> rw [c] at a ⊢ <;> rw [c'] at b ⊢ <;> linarith [a.1, a.2, b.1, b.2]

/-- C178: the remainder is the same number in both types. -/
theorem C178_rem (F G : FxTy) (hF : F.Valid) (hG : G.Valid) (x y x' y' z z' : Int) (hx : Storable F x) (hx' : Storable G x') (ex : val F x = val G x')
    (ey : val F y = val G y') (hz : rem F x y = .ok z) (hz' : rem G x' y' = .ok z') : val F z = val G z' := by
  obtain ⟨-, a1, a2, a3, k, a4⟩ := C09_rem F hF x y z hx hz
  obtain ⟨-, b1, b2, b3, l, b4⟩ := C09_rem G hG x' y' z' hx' hz'
  rw [← ex, ← ey] at *
  have hd : val F z - val G z' = ((l - k : Int) : ℚ) * val F y := by push_cast; linarith
  by_cases hk : l - k = 0
  · rw [hk] at hd; push_cast at hd; linarith
  · exfalso
    have h1 : (1 : ℚ) ≤ |((l - k : Int) : ℚ)| := by
      have := Int.one_le_abs hk
      exact_mod_cast this
    have h2 : |val F y| ≤ |val F z - val G z'| := by
      rw [hd, abs_mul]; nlinarith [abs_nonneg (val F y)]
    have h3 : |val F z - val G z'| < |val F y| := by
      rcases lt_trichotomy (val F x) 0 with h | h | h
      · have z1 : val F z ≤ 0 := by by_contra hc; push Not at hc; nlinarith
        have z2 : val G z' ≤ 0 := by by_contra hc; push Not at hc; nlinarith
        rw [abs_of_nonpos z1] at a1; rw [abs_of_nonpos z2] at b1
        rw [abs_lt]; constructor <;> linarith
      · rw [h, abs_zero] at a3 b3
        have z1 := abs_nonpos_iff.1 a3
        have z2 := abs_nonpos_iff.1 b3
        rw [z1, z2, sub_zero, abs_zero]
        exact lt_of_le_of_lt (abs_nonneg _) a1
      · have z1 : 0 ≤ val F z := by by_contra hc; push Not at hc; nlinarith
        have z2 : 0 ≤ val G z' := by by_contra hc; push Not at hc; nlinarith
        rw [abs_of_nonneg z1] at a1; rw [abs_of_nonneg z2] at b1
        rw [abs_lt]; constructor <;> linarith
    linarith

/-- C178: products that fit both types differ by less than the larger unit in the last place; the type with the coarser grid never has the larger
product. -/
theorem C178_mul (F G : FxTy) (hF : F.Valid) (hG : G.Valid) (hr : F.r = false) (hr' : G.r = false) (hf : G.f ≤ F.f) (x y x' y' z z' : Int)
    (hx : Storable F x) (hy : Storable F y) (hx' : Storable G x') (hy' : Storable G y') (ex : val F x = val G x') (ey : val F y = val G y')
    (hfit : val F F.T.lo ≤ val F x * val F y ∧ val F x * val F y < val F F.T.hi + ulp F)
    (hfit' : val G G.T.lo ≤ val F x * val F y ∧ val F x * val F y < val G G.T.hi + ulp G)
    (hz : mul F x y = .ok z) (hz' : mul G x' y' = .ok z') :
    val G z' ≤ val F z ∧ val F z < val G z' + ulp G := by
  obtain ⟨a1, a2⟩ := C02_mul_error F hF hr x y z hx hy hfit hz
  obtain ⟨b1, b2⟩ := C02_mul_error G hG hr' x' y' z' hx' hy' (by rw [← ex, ← ey]; exact hfit') hz'
  rw [← ex, ← ey] at b1 b2
  refine ⟨?_, by linarith⟩
  have hg : val G z' = val F (z' * 2 ^ (F.f - G.f)) := by
    unfold val
    have e : (2 : ℚ) ^ F.f = 2 ^ (F.f - G.f) * 2 ^ G.f := by rw [← pow_add]; congr 1; omega
    rw [e]; push_cast; field_simp
  rw [hg] at b1 ⊢
  rw [val_le]
  have : val F (z' * 2 ^ (F.f - G.f)) < val F (z + 1) := by rw [val_add, val_one]; linarith
  have := val_lt.1 this
  omega

/-- C178: quotients that fit both types differ by less than the larger unit in the last place; the type with the coarser grid has the smaller
magnitude. -/
theorem C178_div (F G : FxTy) (hF : F.Valid) (hG : G.Valid) (hr : F.r = false) (hr' : G.r = false) (hf : G.f ≤ F.f) (x y x' y' : Int)
    (hx : Storable F x) (hx' : Storable G x') (ex : val F x = val G x') (ey : val F y = val G y') (hy : y ≠ 0)
    (hfit : val F F.T.lo ≤ val F x / val F y ∧ val F x / val F y ≤ val F F.T.hi)
    (hfit' : val G G.T.lo ≤ val F x / val F y ∧ val F x / val F y ≤ val G G.T.hi) :
    ∃ z z', div F x y = .ok z ∧ div G x' y' = .ok z' ∧ |val G z'| ≤ |val F z| ∧ |val F z - val G z'| < ulp G := by
  have hy' : y' ≠ 0 := by
    rintro rfl
    rw [val_zero, ← val_zero F] at ey
    exact hy (val_inj ey)
  have st : ∀ {H : FxTy} {q : ℚ} {n : Int}, H.Valid → IsTrunc H q n → val H H.T.lo ≤ q → q ≤ val H H.T.hi → Storable H n := by
    intro H q n hH ht h1 h2
    have hll : H.T.lo ≤ 0 := by unfold IntTy.lo; split <;> [exact neg_nonpos.2 (by positivity); exact le_rfl]
    have hhh : 0 ≤ H.T.hi := by
      unfold IntTy.hi; split <;> exact sub_nonneg.2 (one_le_pow₀ (by norm_num))
    rcases le_or_gt 0 q with hq | hq
    · obtain ⟨a, b, c⟩ := ht.1 hq
      rw [← val_zero H] at a
      have a := val_le.1 a
      have b := val_le.1 (b.trans h2)
      exact ⟨by omega, by omega⟩
    · obtain ⟨a, b, c⟩ := ht.2 hq
      rw [← val_zero H] at a
      have a := val_le.1 a
      have b := val_le.1 (h1.trans b)
      exact ⟨by omega, by omega⟩
  obtain ⟨z, n, e1, e2, -, e3⟩ := (C03_div_trunc F hF hr x y hx).2 hy
  obtain ⟨z', n', d1, d2, -, d3⟩ := (C03_div_trunc G hG hr' x' y' hx').2 hy'
  rw [← ex, ← ey] at d2
  rw [e3 (st hF e2 hfit.1 hfit.2)] at e1
  rw [d3 (st hG d2 hfit'.1 hfit'.2)] at d1
  refine ⟨n, n', e1, d1, ?_⟩
  have hg : ∀ k : Int, val G k = val F (k * 2 ^ (F.f - G.f)) := by
    intro k
    unfold val
    have e : (2 : ℚ) ^ F.f = 2 ^ (F.f - G.f) * 2 ^ G.f := by rw [← pow_add]; congr 1; omega
    rw [e]; push_cast; field_simp
  rcases le_or_gt 0 (val F x / val F y) with hq | hq
  · obtain ⟨a1, a2, a3⟩ := e2.1 hq
    obtain ⟨b1, b2, b3⟩ := d2.1 hq
    have h1 : val G n' ≤ val F n := by
      rw [hg] at b2 ⊢
      rw [val_le]
      have : val F (n' * 2 ^ (F.f - G.f)) < val F (n + 1) := by rw [val_add, val_one]; linarith
      have := val_lt.1 this
      omega
    rw [abs_of_nonneg a1, abs_of_nonneg b1]
    exact ⟨h1, by rw [abs_of_nonneg (by linarith)]; linarith⟩
  · obtain ⟨a1, a2, a3⟩ := e2.2 hq
    obtain ⟨b1, b2, b3⟩ := d2.2 hq
    have h1 : val F n ≤ val G n' := by
      rw [hg] at b2 ⊢
      rw [val_le]
      have : val F (n - 1) < val F (n' * 2 ^ (F.f - G.f)) := by rw [val_sub, val_one]; linarith
      have := val_lt.1 this
      omega
    rw [abs_of_nonpos a1, abs_of_nonpos b1]
    exact ⟨by linarith, by rw [abs_of_nonpos (by linarith)]; linarith⟩

example : div fixed32 (-65536) 196608 = .ok (-21845) ∧ div fixed64 (-4294967296) 12884901888 = .ok (-1431655765) ∧
    mul fixed32 (-21845) 21845 = .ok (-7282) ∧ rem fixed32 (-98304) 65536 = .ok (-32768) ∧ rem fixed64 (-6442450944) 4294967296 = .ok (-2147483648) ∧
    add fixed32 1 65536 = .ok 65537 ∧ add fixed64 65536 4294967296 = .ok 4295032832 := by decide +kernel

/-! ### Rounding functions -/

theorem one_st {F : FxTy} (h : Representable F 1) : Storable F (2 ^ F.f) := by
  obtain ⟨y, sy, e⟩ := h
  have : y = 2 ^ F.f := by
    apply val_inj (F := F); rw [e]; have := val_int F 1; simpa using this.symm
  rw [← this]; exact sy

/-- C178: `trunc` gives the same number in both types, for every number. -/
theorem C178_trunc (F G : FxTy) (hF : F.Valid) (hG : G.Valid) (h1 : Representable F 1) (h1' : Representable G 1) (x x' : Int)
    (hx : Storable F x) (hx' : Storable G x') (ex : val F x = val G x') :
    ∃ z z', trunc F x = .ok z ∧ trunc G x' = .ok z' ∧ val F z = val G z' := by
  obtain ⟨z, e, -, ⟨k, hk⟩, a1, a2, a3⟩ := C92_trunc F hF (one_st h1) x hx
  obtain ⟨z', e', -, ⟨l, hl⟩, b1, b2, b3⟩ := C92_trunc G hG (one_st h1') x' hx'
  refine ⟨z, z', e, e', ?_⟩
  rw [← ex] at *
  rw [hk] at a1 a2 a3 ⊢; rw [hl] at b1 b2 b3 ⊢
  have : |((k - l : Int) : ℚ)| < 1 := by
    push_cast
    rcases lt_trichotomy (val F x) 0 with h | h | h
    · have z1 : (k : ℚ) ≤ 0 := by by_contra hc; push Not at hc; nlinarith
      have z2 : (l : ℚ) ≤ 0 := by by_contra hc; push Not at hc; nlinarith
      rw [abs_of_nonpos z1, abs_of_neg h] at a1; rw [abs_of_nonpos z2, abs_of_neg h] at b1
      rw [abs_lt] at *; constructor <;> linarith [a2.1, a2.2, b2.1, b2.2]
    · rw [h, abs_zero] at a1 b1
      rw [abs_nonpos_iff.1 a1, abs_nonpos_iff.1 b1]; norm_num
    · have z1 : 0 ≤ (k : ℚ) := by by_contra hc; push Not at hc; nlinarith
      have z2 : 0 ≤ (l : ℚ) := by by_contra hc; push Not at hc; nlinarith
      rw [abs_of_nonneg z1, abs_of_pos h] at a1; rw [abs_of_nonneg z2, abs_of_pos h] at b1
      rw [abs_lt] at *; constructor <;> linarith [a2.1, a2.2, b2.1, b2.2]
  have h2 : |k - l| < 1 := by exact_mod_cast this
  have := Int.abs_lt_one_iff.1 h2
  have : k = l := by omega
  rw [this]

/-- C178: `floor` of a number that is non-negative, or at least one above the bottom of the range in both types, is the same number in both. -/
theorem C178_floor (F G : FxTy) (hF : F.Valid) (hG : G.Valid) (h1 : Representable F 1) (h1' : Representable G 1) (x x' : Int)
    (hx : Storable F x) (hx' : Storable G x') (ex : val F x = val G x')
    (hlo : 0 ≤ val F x ∨ val F F.T.lo + 1 ≤ val F x ∧ val G G.T.lo + 1 ≤ val F x) :
    ∃ z z', floor F x = .ok z ∧ floor G x' = .ok z' ∧ val F z = val G z' := by
  have cond : ∀ {H : FxTy} {y : Int}, H.Valid → Representable H 1 → Storable H y → (0 ≤ val H y ∨ val H H.T.lo + 1 ≤ val H y) →
      Storable H (y - (2 ^ H.f - 1)) ∨ 0 ≤ y := by
    intro H y hH h1 hy h
    rcases h with h | h
    · right; rw [← val_zero H] at h; exact val_le.1 h
    · left
      have hp : (0 : Int) < 2 ^ H.f := by positivity
      have e : val H (2 ^ H.f) = 1 := by have := val_int H 1; simpa using this
      rw [← e, ← val_add] at h
      have := val_le.1 h
      exact ⟨by omega, by have := hy.2; omega⟩
  obtain ⟨z, e, ⟨k, hk⟩, a1, a2⟩ := C92_floor_partial F hF (one_st h1) x hx (cond hF h1 hx (hlo.imp id And.left))
  obtain ⟨z', e', ⟨l, hl⟩, b1, b2⟩ := C92_floor_partial G hG (one_st h1') x' hx' (cond hG h1' hx' (by rw [← ex]; exact hlo.imp id And.right))
  refine ⟨z, z', e, e', ?_⟩
  rw [← ex] at b1 b2
  have := a2 l (by rw [← hl]; exact b1)
  have := b2 k (by rw [← hk]; exact a1)
  rw [hk, hl] at *
  linarith

/-- C178: `ceil` of a non-negative number at least one below the top of the range of both types is the same number in both. -/
theorem C178_ceil (F G : FxTy) (hF : F.Valid) (hG : G.Valid) (h1 : Representable F 1) (h1' : Representable G 1) (x x' : Int)
    (hx : Storable F x) (hx' : Storable G x') (ex : val F x = val G x') (h0 : 0 ≤ val F x)
    (hhi : val F x + 1 ≤ val F F.T.hi ∧ val F x + 1 ≤ val G G.T.hi) :
    ∃ z z', ceil F x = .ok z ∧ ceil G x' = .ok z' ∧ val F z = val G z' := by
  have cond : ∀ {H : FxTy} {y : Int}, Storable H y → val H y + 1 ≤ val H H.T.hi → Storable H (y + (2 ^ H.f - 1)) := by
    intro H y hy h
    have hp : (0 : Int) < 2 ^ H.f := by positivity
    have e : val H (2 ^ H.f) = 1 := by have := val_int H 1; simpa using this
    rw [← e, ← val_add] at h
    have := val_le.1 h
    exact ⟨by have := hy.1; omega, by omega⟩
  have p0 : 0 ≤ x := by rw [← val_zero F] at h0; exact val_le.1 h0
  have p0' : 0 ≤ x' := by rw [ex, ← val_zero G] at h0; exact val_le.1 h0
  obtain ⟨z, e, ⟨k, hk⟩, a1, a2⟩ := C92_ceil_partial F hF (one_st h1) x p0 (cond hx hhi.1)
  obtain ⟨z', e', ⟨l, hl⟩, b1, b2⟩ := C92_ceil_partial G hG (one_st h1') x' p0' (cond hx' (by rw [← ex]; exact hhi.2))
  refine ⟨z, z', e, e', ?_⟩
  rw [← ex] at b1 b2
  have := a2 l (by rw [← hl]; exact b1)
  have := b2 k (by rw [← hk]; exact a1)
  rw [hk, hl] at *
  linarith

/-- C178: `round` gives the same number in both types whenever the nearest integer is representable in both. -/
theorem C178_round (F G : FxTy) (hF : F.Valid) (hG : G.Valid) (h1 : Representable F 1) (h1' : Representable G 1) (x x' n : Int)
    (hx : Storable F x) (hx' : Storable G x') (ex : val F x = val G x') (hn : |val F x - n| ≤ 1 / 2 ∧ (|val F x - n| = 1 / 2 → |val F x| < |(n : ℚ)|))
    (hF' : Representable F n) (hG' : Representable G n) :
    ∃ z z', round F x = .ok z ∧ round G x' = .ok z' ∧ val F z = val G z' := by
  obtain ⟨z, k, e, a1, a2, -, a3⟩ := C92_round F hF (one_st h1) x hx
  obtain ⟨z', l, e', b1, b2, -, b3⟩ := C92_round G hG (one_st h1') x' hx'
  refine ⟨z, z', e, e', ?_⟩
  rw [← ex] at b1 b2
  have uniq : ∀ {q : ℚ} {m n : Int}, |q - m| ≤ 1 / 2 → (|q - m| = 1 / 2 → |q| < |(m : ℚ)|) → |q - n| ≤ 1 / 2 → (|q - n| = 1 / 2 → |q| < |(n : ℚ)|) → m = n := by
    intro q m n m1 m2 n1 n2
    by_contra hne
    have h1 : (1 : ℚ) ≤ |(m : ℚ) - n| := by
      have := Int.one_le_abs (sub_ne_zero.2 hne); exact_mod_cast this
    have h2 : |(m : ℚ) - n| ≤ |q - m| + |q - n| := by
      rw [show (m : ℚ) - n = -(q - m) + (q - n) by ring]
      exact (abs_add_le _ _).trans (by rw [abs_neg])
    have e1 : |q - m| = 1 / 2 := by linarith
    have e2 : |q - n| = 1 / 2 := by linarith
    have f1 := m2 e1
    have f2 := n2 e2
    rcases le_or_gt 0 q with hq | hq
    · rw [abs_of_nonneg hq] at f1 f2
      have : (m : ℚ) = q + 1 / 2 := by
        rcases abs_cases (q - m) with ⟨c, d⟩ | ⟨c, d⟩
        · exfalso
          rcases abs_cases (m : ℚ) with ⟨c', d'⟩ | ⟨c', d'⟩
          · linarith
          · have hm : m ≤ -1 := by have : (m : ℚ) < 0 := d'; have : m < 0 := by exact_mod_cast this
                                   omega
            have : (m : ℚ) ≤ -1 := by exact_mod_cast hm
            linarith
        · linarith
      have : (n : ℚ) = q + 1 / 2 := by
        rcases abs_cases (q - n) with ⟨c, d⟩ | ⟨c, d⟩
        · exfalso
          rcases abs_cases (n : ℚ) with ⟨c', d'⟩ | ⟨c', d'⟩
          · linarith
          · have hm : n ≤ -1 := by have : (n : ℚ) < 0 := d'; have : n < 0 := by exact_mod_cast this
                                   omega
            have : (n : ℚ) ≤ -1 := by exact_mod_cast hm
            linarith
        · linarith
      apply hne
      have : (m : ℚ) = n := by linarith
      exact_mod_cast this
    · rw [abs_of_neg hq] at f1 f2
      have : (m : ℚ) = q - 1 / 2 := by
        rcases abs_cases (q - m) with ⟨c, d⟩ | ⟨c, d⟩
        · linarith
        · exfalso
          rcases abs_cases (m : ℚ) with ⟨c', d'⟩ | ⟨c', d'⟩
          · have hm : m < 1 := by have : (m : ℚ) < 1 := by linarith
                                  exact_mod_cast this
            have : (m : ℚ) ≤ 0 := by exact_mod_cast (by omega : m ≤ 0)
            linarith
          · linarith
      have : (n : ℚ) = q - 1 / 2 := by
        rcases abs_cases (q - n) with ⟨c, d⟩ | ⟨c, d⟩
        · linarith
        · exfalso
          rcases abs_cases (n : ℚ) with ⟨c', d'⟩ | ⟨c', d'⟩
          · have hm : n < 1 := by have : (n : ℚ) < 1 := by linarith
                                  exact_mod_cast this
            have : (n : ℚ) ≤ 0 := by exact_mod_cast (by omega : n ≤ 0)
            linarith
          · linarith
      apply hne
      have : (m : ℚ) = n := by linarith
      exact_mod_cast this
  have ek := uniq a1 a2 hn.1 hn.2
  have el := uniq b1 b2 hn.1 hn.2
  subst ek; subst el
  rw [a3 hF', b3 hG']

example : ∃ z z', trunc fixed32 (-98304) = .ok z ∧ trunc fixed64 (-6442450944) = .ok z' ∧ val fixed32 z = val fixed64 z' :=
  C178_trunc fixed32 fixed64 (by decide) (by decide) ⟨65536, by decide +kernel, by norm_num [val, fixed32]⟩
    ⟨4294967296, by decide +kernel, by norm_num [val, fixed64]⟩ _ _ (by decide +kernel) (by decide +kernel) (by norm_num [val, fixed32, fixed64])

/-! ### Text -/

/-- A number has one decimal numeral. -/
theorem numeral_text_unique {up : Bool} {s s' : List Char} {q : ℚ} (h : IsNumeral 10 up s q) (h' : IsNumeral 10 up s' q) : s = s' := by
  obtain ⟨is, fs, e, hi, hf, n1, n2, hq⟩ := h
  obtain ⟨is', fs', e', hi', hf', n1', n2', hq'⟩ := h'
  rw [hq'] at hq
  have a0 := fracVal_nonneg fs
  have a1 := fracVal_lt hf
  have b0 := fracVal_nonneg fs'
  have b1 := fracVal_lt hf'
  have hi2 : digitsVal 10 is = digitsVal 10 is' := by
    have t1 : (digitsVal 10 is : ℚ) < digitsVal 10 is' + 1 := by linarith
    have t2 : (digitsVal 10 is' : ℚ) < digitsVal 10 is + 1 := by linarith
    have t1 : digitsVal 10 is < digitsVal 10 is' + 1 := by exact_mod_cast t1
    have t2 : digitsVal 10 is' < digitsVal 10 is + 1 := by exact_mod_cast t2
    omega
  rw [hi2] at hq
  rw [e, e', noLead_inj hi hi' n1 n1' hi2, frac_inj hf hf' n2 n2' (by linarith)]

/-- C178: stream output in decimal gives the same text for the same number in every layout (leaving out the unsigned value whose only set bit
is the top one, `C88_unsigned_minus`). -/
theorem C178_text (F G : FxTy) (hF : F.Valid) (hG : G.Valid) (hfit : 10 * 2 ^ F.f ≤ F.T.hi) (hfit' : 10 * 2 ^ G.f ≤ G.T.hi) (x x' : Int)
    (hx : Storable F x) (hx' : Storable G x') (ex : val F x = val G x') (hu : F.T.signed = true ∨ x ≠ 2 ^ (F.T.bits - 1))
    (hu' : G.T.signed = true ∨ x' ≠ 2 ^ (G.T.bits - 1)) (oct up : Bool) :
    ∃ s, streamOut F x false true oct up = .ok s ∧ streamOut G x' false true oct up = .ok s := by
  obtain ⟨s, e, n⟩ := C88_every_storage_partial F hF hfit x hx hu up
  obtain ⟨s', e', n'⟩ := C88_every_storage_partial G hG hfit' x' hx' hu' up
  rw [← ex] at n'
  refine ⟨s, e, ?_⟩
  rw [numeral_text_unique n n']; exact e'

example : streamOut ⟨u16, u32, 8, false⟩ 383 false true false false = .ok "1.49609375".toList ∧
    streamOut fixed64 6425673728 false true false false = .ok "1.49609375".toList ∧
    val ⟨u16, u32, 8, false⟩ 383 = val fixed64 6425673728 := by
  refine ⟨by decide +kernel, by decide +kernel, by norm_num [val, fixed64]⟩

theorem window_unique {p : Nat} {q : ℚ} {a b : List Nat} (la : a.length ≤ p) (lb : b.length ≤ p) (a1 : fracVal 10 a ≤ q)
    (a2 : q < fracVal 10 a + 1 / 10 ^ p) (b1 : fracVal 10 b ≤ q) (b2 : q < fracVal 10 b + 1 / 10 ^ p) : fracVal 10 a = fracVal 10 b := by
  have key : ∀ {m : List Nat}, m.length ≤ p → ∃ k : Int, fracVal 10 m = (k : ℚ) / 10 ^ p := by
    intro m hm
    refine ⟨(acc 0 m : Int) * 10 ^ (p - m.length), ?_⟩
    rw [fracVal_eq]
    have : (10 : ℚ) ^ p = 10 ^ (p - m.length) * 10 ^ m.length := by rw [← pow_add]; congr 1; omega
    rw [this]; push_cast; field_simp
  obtain ⟨k, hk⟩ := key la
  obtain ⟨l, hl⟩ := key lb
  have hp : (0 : ℚ) < 10 ^ p := by positivity
  rw [hk, ← add_div] at a2
  rw [hl, ← add_div] at b2
  rw [hk] at a1
  rw [hl] at b1
  have t1 : (l : ℚ) < k + 1 := by
    have := lt_of_le_of_lt b1 a2
    rwa [div_lt_div_iff_of_pos_right hp] at this
  have t2 : (k : ℚ) < l + 1 := by
    have := lt_of_le_of_lt a1 b2
    rwa [div_lt_div_iff_of_pos_right hp] at this
  have t1 : l < k + 1 := by exact_mod_cast t1
  have t2 : k < l + 1 := by exact_mod_cast t2
  rw [hk, hl, show k = l by omega]

theorem decimal_unique {st : FmtState} {neg : Bool} {n : Nat} {q : ℚ} {out out' : List Char} (h : IsDecimalOf st neg n q out)
    (h' : IsDecimalOf st neg n q out') : out = out' := by
  obtain ⟨ds, e, hd⟩ := h
  obtain ⟨ds', e', hd'⟩ := h'
  have : ds = ds' := by
    split at hd
    · rename_i hc
      rw [if_pos hc] at hd'
      obtain ⟨a1, a2, a3, a4⟩ := hd
      obtain ⟨b1, b2, b3, b4⟩ := hd'
      exact fracVal_inj a1 b1 (by omega) (window_unique a2.le b2.le a3 a4 b3 b4)
    · rename_i hc
      rw [if_neg hc] at hd'
      obtain ⟨a1, a2, a3, a4, a5, a6⟩ := hd
      obtain ⟨b1, b2, b3, b4, b5, b6⟩ := hd'
      have w := window_unique a2 b2 a3 a4 b3 b4
      by_cases hq : fracVal 10 ds = q
      · exact frac_inj a1 b1 (a6 hq) (b6 (by rw [← w]; exact hq)) w
      · have l1 : ds.length = _ := le_antisymm a2 (by by_contra hl; exact hq (a5 (by omega)))
        have l2 : ds'.length = _ := le_antisymm b2 (by by_contra hl; exact hq (by rw [w]; exact b5 (by omega)))
        exact fracVal_inj a1 b1 (by omega) w
  rw [e, e', this]

theorem intPart_any {F : FxTy} (h : PN F) {x : Int} (hx : F.T.InRange x) (hlo : 0 ≤ val F x ∨ val F F.T.lo + 1 ≤ val F x) :
    ∃ iv, integralPart F x = .ok iv ∧ F.T.InRange iv ∧ iv.natAbs = (if val F x < 0 then ⌈|val F x|⌉₊ else ⌊|val F x|⌋₊) := by
  have hneg : val F x < 0 ↔ x < 0 := by rw [← val_zero F, val_lt]
  simp only [hneg]
  by_cases hs : SignedWide F
  · refine intPart_cases ⟨h.valid, hs, h.one⟩ hx ?_
    rcases hlo with h0 | h0
    · right; rw [← val_zero F] at h0; exact val_le.1 h0
    · left
      have e : val F (2 ^ F.f) = 1 := by have := val_int F 1; simpa using this
      rw [← e, ← val_add] at h0
      have := val_le.1 h0
      omega
  · exact intPart_all h hs hx

/-- C178: `std::format` gives the same text for the same number in every layout, for every format state with one of the types
`d x X o b B g G f F`: fill, alignment, sign, `#`, `0`, width and precision included. -/
theorem C178_format (F G : FxTy) (hF : F.Valid) (hG : G.Valid) (hfit : 10 * 2 ^ F.f ≤ F.T.hi) (hfit' : 10 * 2 ^ G.f ≤ G.T.hi) (x x' : Int)
    (hx : Storable F x) (hx' : Storable G x') (ex : val F x = val G x')
    (hlo : 0 ≤ val F x ∨ val F F.T.lo + 1 ≤ val F x ∧ val G G.T.lo + 1 ≤ val F x) (st : FmtState)
    (ht : st.type ∈ ['g', 'G', 'f', 'F'] ∨ ∃ b up, intType st.type = some (b, up)) :
    ∃ s, formatTo F st x = .ok s ∧ formatTo G st x' = .ok s := by
  have pn : ∀ {H : FxTy}, H.Valid → 10 * 2 ^ H.f ≤ H.T.hi → PN H := by
    intro H hH hf
    have hp : (0 : Int) < 2 ^ H.f := by positivity
    have hlo : H.T.lo ≤ 0 := by unfold IntTy.lo; split <;> [exact neg_nonpos.2 (by positivity); exact le_rfl]
    exact ⟨hH, ⟨by omega, by omega⟩⟩
  obtain ⟨iv, i1, i2, i3⟩ := intPart_any (pn hF hfit) hx (hlo.imp id And.left)
  obtain ⟨iv', j1, j2, j3⟩ := intPart_any (pn hG hfit') hx' (by rw [← ex]; exact hlo.imp id And.right)
  rw [← ex, ← i3] at j3
  have hs : decide (x < 0) = decide (x' < 0) := by
    congr 1
    rw [eq_iff_iff, ← val_lt (F := F), ← val_lt (F := G), val_zero, val_zero, ex]
  rcases ht with ht | ⟨b, up, ht⟩
  · obtain ⟨out, a1, a2⟩ := formatTo_dec (pn hF hfit) hfit ht hx i1 i2
    obtain ⟨out', b1, b2⟩ := formatTo_dec (pn hG hfit') hfit' ht hx' j1 j2
    have hq : fracMag F x = fracMag G x' := by unfold fracMag; rw [ex]
    rw [← hs, j3, ← hq] at b2
    exact ⟨_, a1, by rw [decimal_unique a2 b2]; exact b1⟩
  · obtain ⟨pre, e, a1⟩ := formatTo_int (pn hF hfit) ht hx i1 i2
    obtain ⟨pre', e', b1⟩ := formatTo_int (pn hG hfit') ht hx' j1 j2
    rw [← hs, ← e] at e'
    rw [j3, e'] at b1
    exact ⟨_, a1, b1⟩

example : formatTo ⟨i16, i32, 8, false⟩ { type := 'f', width := 12, zero := true } (-383) = .ok "000-2.496093".toList ∧
    formatTo fixed64 { type := 'f', width := 12, zero := true } (-6425673728) = .ok "000-2.496093".toList ∧
    val ⟨i16, i32, 8, false⟩ (-383) = val fixed64 (-6425673728) := by
  refine ⟨by decide +kernel, by decide +kernel, by norm_num [val, fixed64]⟩

end Eirin.Props
