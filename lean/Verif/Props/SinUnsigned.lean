import Verif.Props.LogUnsigned
import Verif.Props.TrigAll

/-! # C141: sine and cosine on unsigned layouts -/

namespace Eirin.Props
open Eirin Spec

/-- The operations are exact on non-negative operands below `M` as long as the result is again non-negative and below `M`. -/
structure NNOps (F : FxTy) (M : Int) : Prop where
  mul : ∀ x y : Int, 0 ≤ x → x < M → 0 ≤ y → y < M → x * y / 2 ^ F.f < M → mul F x y = .ok (x * y / 2 ^ F.f)
  sub : ∀ x y : Int, 0 ≤ x → x < M → 0 ≤ y → y ≤ x → sub F x y = .ok (x - y)
  div : ∀ x y : Int, 0 ≤ x → x < M → 0 < y → x * 2 ^ F.f / y < M → div F x y = .ok (x * 2 ^ F.f / y)
  rem : ∀ x y : Int, 0 ≤ x → x < M → 0 < y → remAssign F x y = .ok (x % y)
  divInt : ∀ x n : Int, 0 ≤ x → x < M → 0 < n → n < 2 ^ 31 → divInt F i32 x n = .ok (x / n)
  ofInt : ∀ k : Int, 0 ≤ k → k * 2 ^ F.f < M → ofInt F k = k * 2 ^ F.f
  abs : ∀ x : Int, 0 ≤ x → x < M → abs F x = .ok x

theorem nn_signed {f : Nat} (h0 : 0 < f) (h1 : f ≤ 59) : NNOps (L64 f) (2 ^ 63) := by
  have h := sw_L64 h0 (by omega)
  have inr : ∀ z : Int, 0 ≤ z → z < 2 ^ 63 → (L64 f).T.InRange z := by
    intro z a b
    exact ⟨by rw [show (L64 f).T.lo = -2 ^ 63 by rfl]; omega, by rw [show (L64 f).T.hi = 2 ^ 63 - 1 by rfl]; omega⟩
  refine ⟨?_, ?_, ?_, ?_, ?_, ?_, ?_⟩
  · intro x y a b c d e
    have : 0 ≤ x * y / 2 ^ (L64 f).f := by positivity
    exact h.mul_ok rfl (inr _ a b) (inr _ c d) (inr _ this e)
  · intro x y a b c d
    exact h.sub_ok (inr _ (by omega) (by omega))
  · intro x y a b c d
    have e : Int.tdiv (x * 2 ^ (L64 f).f) y = x * 2 ^ (L64 f).f / y := tdiv_eq_ediv (by positivity)
    have : 0 ≤ x * 2 ^ (L64 f).f / y := Int.ediv_nonneg (by positivity) c.le
    rw [h.div_ok rfl (inr _ a b) c.ne' (by rw [e]; exact inr _ this d), e]
  · intro x y a b c
    have : remAssign (L64 f) x y = rem (L64 f) x y := rfl
    rw [this, rem_nf h.valid (inr _ a b), if_neg (by omega), if_neg (by omega), Int.tmod_eq_emod_of_nonneg a]
  · intro x n a b c d
    rw [h.divInt_ok (inr _ a b) c d, tdiv_eq_ediv a]
  · intro k a b
    exact h.ofInt_ok (inr _ (by positivity) b)
  · intro x a b
    rw [h.abs_ok (inr _ a b) (by rw [show (L64 f).T.lo = -2 ^ 63 by rfl]; omega), abs_of_nonneg a]

theorem lu_divInt {B f : Nat} (hB : UB B) {x n : Int} (hx : 0 ≤ x) (hx1 : x < 2 ^ B) (h0 : 0 < n) (h1 : n < 2 ^ 31) :
    divInt (LU B f) i32 x n = .ok (x / n) := by
  have hb : 0 < (LU B f).T.bits := by rcases hB with rfl | rfl <;> exact Nat.succ_pos _
  have hc : IntTy.common (LU B f).T i32 = (LU B f).T := by rcases hB with rfl | rfl <;> rfl
  have hnB : n < 2 ^ B := by
    have : (2 : Int) ^ 31 ≤ 2 ^ B := pow_le_pow_right₀ (by norm_num) (by rcases hB with rfl | rfl <;> norm_num)
    omega
  have q0 : 0 ≤ x / n := Int.ediv_nonneg hx h0.le
  have q1 : x / n ≤ x := Int.ediv_le_self _ hx
  unfold divInt divIntAssign
  simp only [hc]
  rw [IntTy.wrap_of_inRange hb (lu_in.2 ⟨hx, hx1⟩), IntTy.wrap_of_inRange hb (lu_in.2 ⟨h0.le, hnB⟩)]
  unfold cdiv
  rw [if_neg h0.ne', if_neg (by simp), Res.bind_ok, tdiv_eq_ediv hx, IntTy.wrap_of_inRange hb (lu_in.2 ⟨q0, by omega⟩)]
  rfl

theorem nn_unsigned {B f : Nat} (hB : UB B) (h0 : 0 < f) (h1 : f + 3 ≤ B) {M : Int} (hM : M ≤ 2 ^ B) : NNOps (LU B f) M := by
  obtain ⟨hv, hs, hz⟩ := lu_valid hB h0 h1
  have hb : 0 < (LU B f).T.bits := hv.tpos
  have inr : ∀ z : Int, 0 ≤ z → z < M → (LU B f).T.InRange z := fun z a b => lu_in.2 ⟨a, by omega⟩
  refine ⟨?_, ?_, ?_, ?_, ?_, ?_, ?_⟩
  · intro x y a b c d e
    have : 0 ≤ x * y / 2 ^ (LU B f).f := by positivity
    rw [mul_nf hv rfl (inr _ a b) (inr _ c d), IntTy.wrap_of_inRange hb (inr _ this e)]
  · intro x y a b c d
    rw [sub_nf hv (inr _ a b) (inr _ c (by omega)), if_neg (fun h => hs h.1), IntTy.wrap_of_inRange hb (inr _ (by omega) (by omega))]
  · intro x y a b c d
    have e : Int.tdiv (x * 2 ^ (LU B f).f) y = x * 2 ^ (LU B f).f / y := tdiv_eq_ediv (by positivity)
    have : 0 ≤ x * 2 ^ (LU B f).f / y := Int.ediv_nonneg (by positivity) c.le
    rw [div_nf hv rfl (inr _ a b), if_neg c.ne', e, IntTy.wrap_of_inRange hb (inr _ this d)]
  · intro x y a b c
    have : remAssign (LU B f) x y = rem (LU B f) x y := rfl
    rw [this, rem_nf hv (inr _ a b), if_neg c.ne', if_neg (fun h => hs h.1), Int.tmod_eq_emod_of_nonneg a]
  · intro x n a b c d
    exact lu_divInt hB a (by omega) c d
  · intro k a b
    have hp : (0 : Int) < 2 ^ f := by positivity
    have hkr : (LU B f).T.InRange (k * 2 ^ f) := inr _ (by positivity) b
    have hk : (LU B f).T.InRange k := inr _ a (by
      have : k * 1 ≤ k * 2 ^ f := mul_le_mul_of_nonneg_left (by omega) a
      have e : k * 2 ^ (LU B f).f = k * 2 ^ f := rfl
      omega)
    have hP : (LU B f).P = (LU B f).T := by rcases hB with rfl | rfl <;> rfl
    unfold Eirin.ofInt
    rw [hP, IntTy.wrap_of_inRange hb hk, IntTy.wrap_of_inRange hb hkr, IntTy.wrap_of_inRange hb hkr]
  · intro x a b
    unfold Eirin.abs
    rw [if_neg (by omega)]
    show Res.ok (fromInternal _ _) = _
    unfold fromInternal
    rw [IntTy.wrap_of_inRange hb (inr _ a b)]

/-- A product with a factor of at most one. -/
theorem part_mul {S a b k : Int} (hS : 0 < S) (ha : 0 ≤ a) (ha1 : a ≤ k) (hb : 0 ≤ b) (hb1 : b ≤ S) : 0 ≤ a * b / S ∧ a * b / S ≤ k := by
  refine ⟨Int.ediv_nonneg (by positivity) hS.le, ?_⟩
  have : a * b ≤ k * S := mul_le_mul ha1 hb1 hb (by omega)
  calc a * b / S ≤ k * S / S := Int.ediv_le_ediv hS this
    _ = k := Int.mul_ediv_cancel _ hS.ne'

/-- The polynomial of `sin` with exact operations. -/
def sinNN (f : Nat) (pi x : Int) : Int :=
  let S : Int := 2 ^ f
  let q := pi * pi / S
  let x2 := x * x / S
  let u4 := S - q / 288 * x2 / S
  let u3 := S - q / 168 * x2 / S * u4 / S
  let u2 := S - q / 80 * x2 / S * u3 / S
  let u1 := S - q / 24 * x2 / S * u2 / S
  pi * x / S * u1 / S / 2

theorem sinPoly_nn {F : FxTy} {M : Int} (h : NNOps F M) (hM : 15 * 2 ^ F.f ≤ M) {pi x : Int} (ePi : cPi F = .ok pi) (p0 : 0 ≤ pi) (p1 : 4 * pi ≤ 13 * 2 ^ F.f)
    (x0 : 0 ≤ x) (x1 : x ≤ 2 ^ F.f) : sinPoly F pi x = .ok (sinNN F.f pi x) ∧ 0 ≤ sinNN F.f pi x ∧ sinNN F.f pi x ≤ 2 * 2 ^ F.f := by
  have hS : (0 : Int) < 2 ^ F.f := by positivity
  have o1 : ofInt F 1 = 2 ^ F.f := by rw [h.ofInt 1 (by norm_num) (by omega), one_mul]
  unfold sinNN
  simp only
  generalize hSd : (2 : Int) ^ F.f = S at *
  have q0 : 0 ≤ pi * pi / S := Int.ediv_nonneg (by positivity) hS.le
  have q1 : pi * pi / S ≤ 11 * S := by
    have : pi * pi ≤ 11 * S * S := by nlinarith
    calc pi * pi / S ≤ 11 * S * S / S := Int.ediv_le_ediv hS this
      _ = 11 * S := Int.mul_ediv_cancel _ hS.ne'
  have eq : mul F pi pi = .ok (pi * pi / S) := by
    rw [← hSd] at q1 ⊢; exact h.mul _ _ p0 (by omega) p0 (by omega) (by omega)
  generalize hq : pi * pi / S = q at *
  have co : ∀ k : Int, 24 ≤ k → k < 2 ^ 31 → sinCoeff F pi k = .ok (q / k) ∧ 0 ≤ q / k ∧ q / k ≤ S / 2 := by
    intro k k1 k2
    refine ⟨?_, Int.ediv_nonneg q0 (by omega), ?_⟩
    · unfold sinCoeff
      rw [eq, Res.bind_ok, h.divInt q k q0 (by omega) (by omega) k2]
    · have : q / k ≤ q / 24 := by
        rw [Int.le_ediv_iff_mul_le (by norm_num)]
        have := Int.ediv_mul_le q (b := k) (by omega)
        have : 0 ≤ q / k := Int.ediv_nonneg q0 (by omega)
        nlinarith
      omega
  obtain ⟨ea, a0, a1⟩ := co 24 (by norm_num) (by norm_num)
  obtain ⟨eb, b0, b1⟩ := co 80 (by norm_num) (by norm_num)
  obtain ⟨ec, c0, c1⟩ := co 168 (by norm_num) (by norm_num)
  obtain ⟨ed, d0, d1⟩ := co 288 (by norm_num) (by norm_num)
  generalize q / 24 = a at *
  generalize q / 80 = b at *
  generalize q / 168 = c at *
  generalize q / 288 = d at *
  -- one product with a factor of at most one
  have pm : ∀ u v k : Int, 0 ≤ u → u ≤ k → k ≤ 14 * S → 0 ≤ v → v ≤ S → mul F u v = .ok (u * v / S) ∧ 0 ≤ u * v / S ∧ u * v / S ≤ k := by
    intro u v k u0 u1 hk v0 v1
    obtain ⟨r0, r1⟩ := part_mul hS u0 u1 v0 v1
    refine ⟨?_, r0, r1⟩
    rw [← hSd] at r1 ⊢
    exact h.mul _ _ u0 (by omega) v0 (by omega) (by omega)
  have sb : ∀ t : Int, 0 ≤ t → t ≤ S / 2 → sub F S t = .ok (S - t) ∧ 0 ≤ S - t ∧ S - t ≤ S := by
    intro t t0 t1
    exact ⟨h.sub _ _ hS.le (by omega) t0 (by omega), by omega, by omega⟩
  obtain ⟨ex2, y0, y1⟩ := pm x x S x0 x1 (by omega) x0 x1
  generalize x * x / S = y at *
  obtain ⟨e1, r0, r1⟩ := pm d y _ d0 d1 (by omega) y0 y1
  obtain ⟨e2, u40, u41⟩ := sb _ r0 r1
  generalize S - d * y / S = u4 at *
  obtain ⟨e3, r0, r1⟩ := pm c y _ c0 c1 (by omega) y0 y1
  obtain ⟨e4, r0, r1⟩ := pm _ u4 _ r0 r1 (by omega) u40 u41
  obtain ⟨e5, u30, u31⟩ := sb _ r0 r1
  generalize S - c * y / S * u4 / S = u3 at *
  obtain ⟨e6, r0, r1⟩ := pm b y _ b0 b1 (by omega) y0 y1
  obtain ⟨e7, r0, r1⟩ := pm _ u3 _ r0 r1 (by omega) u30 u31
  obtain ⟨e8, u20, u21⟩ := sb _ r0 r1
  generalize S - b * y / S * u3 / S = u2 at *
  obtain ⟨e9, r0, r1⟩ := pm a y _ a0 a1 (by omega) y0 y1
  obtain ⟨e10, r0, r1⟩ := pm _ u2 _ r0 r1 (by omega) u20 u21
  obtain ⟨e11, u10, u11⟩ := sb _ r0 r1
  generalize S - a * y / S * u2 / S = u1 at *
  obtain ⟨e12, r0, r1⟩ := pm pi x (4 * S) p0 (by omega) (by omega) x0 x1
  obtain ⟨e13, r0, r1⟩ := pm _ u1 _ r0 r1 (by omega) u10 u11
  have e14 := h.divInt _ 2 r0 (by omega) (by norm_num) (by norm_num)
  refine ⟨?_, by omega, by omega⟩
  unfold sinPoly
  simp only [ePi, o1, ea, eb, ec, ed, ex2, e1, e2, e3, e4, e5, e6, e7, e8, e9, e10, e11, e12, e13, e14, Res.bind_ok]

/-- The constants of `sin` with `f` fraction bits. -/
structure SinK (F : FxTy) (pi p2 dp th : Int) : Prop where
  ePi : cPi F = .ok pi
  eP2 : cPi2 F = .ok p2
  eDp : cDoublePi F = .ok dp
  eTh : ofFloat F lit00015 = .ok th

/-- The whole of `sin` on a non-negative number whose quotient by a quarter turn is at most four. -/
theorem sin_nn {F : FxTy} {M : Int} (h : NNOps F M) (hM : 15 * 2 ^ F.f ≤ M) {pi p2 dp th : Int} (k : SinK F pi p2 dp th) (p0 : 0 ≤ pi)
    (p1 : 4 * pi ≤ 13 * 2 ^ F.f) (q0 : 0 < p2) (d0 : 0 < dp) {fp : Int} (h0 : 0 ≤ fp) (h1 : fp < M)
    (hw : fp % dp * 2 ^ F.f / p2 ≤ 4 * 2 ^ F.f) :
    ∃ z, 0 ≤ z ∧ z < M ∧ sin F fp = (if 2 * 2 ^ F.f < fp % dp * 2 ^ F.f / p2 then neg F z else .ok z) ∧
      z = (if fp < th then fp else
        let x := if 2 * 2 ^ F.f < fp % dp * 2 ^ F.f / p2 then fp % dp * 2 ^ F.f / p2 - 2 * 2 ^ F.f else fp % dp * 2 ^ F.f / p2
        sinNN F.f pi (if 2 ^ F.f < x then 2 * 2 ^ F.f - x else x)) := by
  have hS : (0 : Int) < 2 ^ F.f := by positivity
  have o0 : ofInt F 0 = 0 := by rw [h.ofInt 0 (by norm_num) (by omega), zero_mul]
  have o1 : ofInt F 1 = 2 ^ F.f := by rw [h.ofInt 1 (by norm_num) (by omega), one_mul]
  have o2 : ofInt F 2 = 2 * 2 ^ F.f := h.ofInt 2 (by norm_num) (by omega)
  have e1 := h.rem fp dp h0 h1 d0
  have m0 := Int.emod_nonneg fp d0.ne'
  have m1 : fp % dp ≤ fp := by
    have := Int.emod_add_mul_ediv fp dp
    have : 0 ≤ dp * (fp / dp) := mul_nonneg d0.le (Int.ediv_nonneg h0 d0.le)
    omega
  have e2 : divAssign F (fp % dp) p2 = .ok (fp % dp * 2 ^ F.f / p2) := h.div _ _ m0 (by omega) q0 (by omega)
  have w0 : 0 ≤ fp % dp * 2 ^ F.f / p2 := Int.ediv_nonneg (by positivity) q0.le
  generalize fp % dp * 2 ^ F.f / p2 = w at *
  obtain ⟨x, s, ex, hx, hs, x0, x1⟩ : ∃ x s, sinReduce F fp = .ok (x, s) ∧ x = (if 2 * 2 ^ F.f < w then w - 2 * 2 ^ F.f else w) ∧ (s = true ↔ 2 * 2 ^ F.f < w) ∧
      0 ≤ x ∧ x ≤ 2 * 2 ^ F.f := by
    have hr : sinReduce F fp = if gt w (2 * 2 ^ F.f) then (subAssign F w (2 * 2 ^ F.f)).bind (fun x3 => .ok (x3, true)) else .ok (w, false) := by
      unfold sinReduce
      rw [k.eDp, k.eP2]
      simp only [Res.bind_ok, e1, e2, o2, o0]
      rw [if_neg (by rw [lt_iff]; omega)]
      rfl
    by_cases hc : 2 * 2 ^ F.f < w
    · have : subAssign F w (2 * 2 ^ F.f) = .ok (w - 2 * 2 ^ F.f) := h.sub _ _ w0 (by omega) (by omega) (by omega)
      refine ⟨w - 2 * 2 ^ F.f, true, ?_, by rw [if_pos hc], by simp [hc], by omega, by omega⟩
      rw [hr, if_pos (by rw [gt_iff]; exact hc), this]; rfl
    · exact ⟨w, false, by rw [hr, if_neg (by rw [gt_iff]; exact hc)], by rw [if_neg hc], by simp; omega, w0, by omega⟩
  have eabs := h.abs fp h0 h1
  simp only [← hx]
  have hif : ∀ z : Int, (if s then neg F z else pure z) = (if 2 * 2 ^ F.f < w then neg F z else Res.ok z) := by
    intro z
    by_cases hc : 2 * 2 ^ F.f < w
    · rw [if_pos hc, if_pos (hs.2 hc)]
    · rw [if_neg hc, if_neg (fun h => hc (hs.1 h))]; rfl
  by_cases ht : fp < th
  · refine ⟨fp, h0, h1, ?_, by rw [if_pos ht]⟩
    unfold sin sinWith
    rw [k.ePi, Res.bind_ok, ex, Res.bind_ok]
    simp only [k.eTh, eabs, Res.bind_ok]
    rw [if_pos (by rw [lt_iff]; exact ht), hif]
  · obtain ⟨v, ev, hv, v0, v1⟩ : ∃ v, (if gt x (ofInt F 1) then sub F (ofInt F 2) x else pure x) = Res.ok v ∧ v = (if 2 ^ F.f < x then 2 * 2 ^ F.f - x else x) ∧
        0 ≤ v ∧ v ≤ 2 ^ F.f := by
      rw [o1, o2]
      by_cases hc : 2 ^ F.f < x
      · refine ⟨2 * 2 ^ F.f - x, ?_, by rw [if_pos hc], by omega, by omega⟩
        rw [if_pos (by rw [gt_iff]; exact hc)]
        exact h.sub _ _ (by omega) (by omega) x0 x1
      · exact ⟨x, by rw [if_neg (by rw [gt_iff]; exact hc)]; rfl, by rw [if_neg hc], x0, by omega⟩
    obtain ⟨ez, z0, z1⟩ := sinPoly_nn h hM k.ePi p0 p1 v0 v1
    refine ⟨sinNN F.f pi v, z0, by omega, ?_, by rw [if_neg ht, ← hv]⟩
    unfold sin sinWith
    rw [k.ePi, Res.bind_ok, ex, Res.bind_ok]
    simp only [k.eTh, eabs, Res.bind_ok]
    rw [if_neg (by rw [lt_iff]; omega)]
    by_cases hg : gt x (ofInt F 1) = true
    · rw [if_pos hg] at ev ⊢; rw [ev]; simp only [Res.bind_ok, ez, hif]
    · rw [if_neg hg] at ev ⊢; rw [ev]; simp only [Res.bind_ok, ez, hif]

/-- The layouts in question: at least eight fraction bits and at least four integer bits (at most 59 fraction bits). -/
structure LUT (B f : Nat) : Prop where
  b : UB B
  f8 : 8 ≤ f
  f59 : f ≤ 59
  room : f + 4 ≤ B

theorem LUT.gl {B f : Nat} (h : LUT B f) : GL (L64 f) where
  sw := (sw_L64 (by have := h.f8; omega) (by have := h.f59; omega)).gen
  r := rfl
  f8 := h.f8
  f59 := h.f59
  room := by show f + 5 ≤ 64; have := h.f59; omega

/-- The constants do not depend on the signedness. -/
theorem LUT.const {B f : Nat} (h : LUT B f) : cPi (LU B f) = cPi (L64 f) ∧ cPi2 (LU B f) = cPi2 (L64 f) ∧ cDoublePi (LU B f) = cDoublePi (L64 f) ∧
    ofFloat (LU B f) lit00015 = ofFloat (L64 f) lit00015 := by
  have a : ∀ f < 60, 8 ≤ f → cPi (LU 64 f) = cPi (L64 f) ∧ cPi2 (LU 64 f) = cPi2 (L64 f) ∧ cDoublePi (LU 64 f) = cDoublePi (L64 f) ∧
    ofFloat (LU 64 f) lit00015 = ofFloat (L64 f) lit00015 := by decide +kernel
  have b : ∀ f < 29, 8 ≤ f → cPi (LU 32 f) = cPi (L64 f) ∧ cPi2 (LU 32 f) = cPi2 (L64 f) ∧ cDoublePi (LU 32 f) = cDoublePi (L64 f) ∧
    ofFloat (LU 32 f) lit00015 = ofFloat (L64 f) lit00015 := by decide +kernel
  obtain ⟨hB, h8, h59, hr⟩ := h
  rcases hB with rfl | rfl
  · exact b f (by omega) h8
  · exact a f (by omega) h8

/-- What `sin` returns on an unsigned layout, against what it returns on the signed 64-bit layout with the same number of fraction bits. -/
theorem LUT.sin_eq {B f : Nat} (h : LUT B f) (c : SinG (L64 f)) {fp : Int} (h0 : 0 ≤ fp) (h1 : fp < 2 ^ B) (h63 : fp < 2 ^ 63)
    (hw : fp % c.dp * 2 ^ f / c.p2 ≤ 4 * 2 ^ f) :
    ∃ z, 0 ≤ z ∧ z < 2 ^ B ∧ z < 2 ^ 63 ∧
      sin (L64 f) fp = .ok (if 2 * 2 ^ f < fp % c.dp * 2 ^ f / c.p2 then -z else z) ∧
      sin (LU B f) fp = .ok (if 2 * 2 ^ f < fp % c.dp * 2 ^ f / c.p2 then (LU B f).T.wrap (-z) else z) := by
  have hS : (0 : Int) < 2 ^ f := by positivity
  have h8 := h.f8; have h59 := h.f59; have hr := h.room
  obtain ⟨k1, k2, k3, k4⟩ := h.const
  have kS : SinK (L64 f) c.pi c.p2 c.dp c.th := ⟨c.ePi, c.eP2, c.eDp, c.eTh⟩
  have kU : SinK (LU B f) c.pi c.p2 c.dp c.th := ⟨by rw [k1, c.ePi], by rw [k2, c.eP2], by rw [k3, c.eDp], by rw [k4, c.eTh]⟩
  have g := Real.pi_gt_d4; have l := Real.pi_lt_d4
  have hu := uR_pos (L64 f)
  have hul := c.gl.lay.u_le
  have ap := abs_le.1 c.aPi.er
  have p0 : 0 ≤ c.pi := by
    rw [← rv_le (L64 f), show rv (L64 f) 0 = 0 by simp [rv]]
    norm_num at *; linarith
  have p1 : 4 * c.pi ≤ 13 * 2 ^ f := by
    rw [← rv_le (L64 f)]
    have e : rv (L64 f) (13 * 2 ^ f) = (13 : Int) := rv_int (L64 f) 13
    have e2 : rv (L64 f) (4 * c.pi) = 4 * rv (L64 f) c.pi := by unfold rv; push_cast; ring
    rw [e, e2]
    norm_num at *; linarith
  have d0 : 0 < c.dp := by have := c.dp6; have e : (6 : Int) * 2 ^ (L64 f).f = 6 * 2 ^ f := rfl; omega
  have m63 : 15 * (2 : Int) ^ f ≤ 2 ^ 63 := by
    have : (2 : Int) ^ f ≤ 2 ^ 59 := pow_le_pow_right₀ (by norm_num) h59
    omega
  have mB : 15 * (2 : Int) ^ f ≤ 2 ^ B := by
    have : (2 : Int) ^ (f + 4) ≤ 2 ^ B := pow_le_pow_right₀ (by norm_num) hr
    rw [pow_add] at this; omega
  obtain ⟨z, z0, z1, ez, hz⟩ := sin_nn (nn_signed (by omega) h59) m63 kS p0 p1 c.p2pos d0 h0 h63 hw
  obtain ⟨z', z0', z1', ez', hz'⟩ := sin_nn (nn_unsigned h.b (by omega) (by omega) le_rfl) mB kU p0 p1 c.p2pos d0 h0 h1 hw
  have e : z' = z := by rw [hz, hz']
  rw [e] at ez' z1'
  obtain ⟨hv, hs, _⟩ := lu_valid h.b (by omega) (by omega : f + 3 ≤ B)
  have en : neg (L64 f) z = .ok (-z) := by
    apply (sw_L64 (by omega) (by omega)).neg_ok
    exact ⟨by rw [show (L64 f).T.lo = -2 ^ 63 by rfl]; omega, by rw [show (L64 f).T.hi = 2 ^ 63 - 1 by rfl]; omega⟩
  have en' : neg (LU B f) z = .ok ((LU B f).T.wrap (-z)) := by
    rw [neg_nf hv (lu_in.2 ⟨z0, z1'⟩), if_neg (fun h => hs h.1)]
  refine ⟨z, z0, z1', z1, ?_, ?_⟩
  · rw [ez, en]
    show (if 2 * (2 : Int) ^ f < fp % c.dp * 2 ^ f / c.p2 then _ else _) = _
    split <;> rfl
  · rw [ez', en']
    show (if 2 * (2 : Int) ^ f < fp % c.dp * 2 ^ f / c.p2 then _ else _) = _
    split <;> rfl

/-- C141, the sine in the first turn. -/
theorem LUT.sin_turn {B f : Nat} (h : LUT B f) {fp : Int} (h0 : 0 ≤ fp) (h1 : rv (L64 f) fp ≤ 2 * Real.pi - 8 * uR (L64 f)) :
    ∃ r s : Int, sin (LU B f) fp = .ok r ∧ 0 ≤ r ∧ r < 2 ^ B ∧ |rv (L64 f) s - Real.sin (rv (L64 f) fp)| ≤ 3 / 10000 + 20 * uR (L64 f) ∧
      (rv (L64 f) fp ≤ Real.pi - 4 * uR (L64 f) → r = s) ∧
      (Real.pi + 5 * uR (L64 f) ≤ rv (L64 f) fp → r = 0 ∧ s = 0 ∨ r = s + 2 ^ B) := by
  obtain ⟨c⟩ := h.gl.sinG
  have hS : (0 : Int) < 2 ^ f := by positivity
  have hSr : (0 : ℝ) < 2 ^ f := by positivity
  have h8 := h.f8; have h59 := h.f59; have hr := h.room
  have g := Real.pi_gt_d4; have l := Real.pi_lt_d4
  have hu := uR_pos (L64 f)
  have hul := c.gl.lay.u_le
  have hum := u_mul (L64 f)
  have a2 := abs_le.1 c.aP2
  have aD := abs_le.1 c.aDp
  have mB : 7 * (2 : Int) ^ f < 2 ^ B := by
    have : (2 : Int) ^ (f + 4) ≤ 2 ^ B := pow_le_pow_right₀ (by norm_num) hr
    rw [pow_add] at this; omega
  have m63 : 7 * (2 : Int) ^ f < 2 ^ 63 := by
    have : (2 : Int) ^ f ≤ 2 ^ 59 := pow_le_pow_right₀ (by norm_num) h59
    omega
  have h7 : fp < 7 * 2 ^ f := by
    rw [← rv_lt (L64 f), show rv (L64 f) (7 * 2 ^ f) = (7 : Int) from rv_int (L64 f) 7]
    push_cast; linarith
  have hlt : fp < c.dp := by
    rw [← rv_lt (L64 f)]; norm_num at *; linarith
  have em : fp % c.dp = fp := Int.emod_eq_of_lt h0 hlt
  -- comparing the quotient by a quarter turn with an integer
  have cmp : ∀ n : Int, (fp * 2 ^ f / c.p2 ≤ n ↔ rv (L64 f) fp < (rv (L64 f) (n + 1)) * rv (L64 f) c.p2) := by
    intro n
    rw [← Int.lt_add_one_iff, Int.ediv_lt_iff_lt_mul c.p2pos]
    have e1 : rv (L64 f) fp = (fp * 2 ^ f : Int) * (uR (L64 f) * uR (L64 f)) := by
      rw [rv_u]; push_cast
      have : (fp : ℝ) * 2 ^ f * (uR (L64 f) * uR (L64 f)) = fp * uR (L64 f) * (2 ^ f * uR (L64 f)) := by ring
      rw [this, show (2 : ℝ) ^ f * uR (L64 f) = 1 from hum, mul_one]
    have e2 : rv (L64 f) (n + 1) * rv (L64 f) c.p2 = ((n + 1) * c.p2 : Int) * (uR (L64 f) * uR (L64 f)) := by
      rw [rv_u, rv_u]; push_cast; ring
    rw [e1, e2, mul_lt_mul_iff_left₀ (by positivity)]
    exact_mod_cast Iff.rfl
  have rS : ∀ m : Int, rv (L64 f) (m * 2 ^ f + 1) = m + uR (L64 f) := by
    intro m
    rw [rv_add, show rv (L64 f) (m * 2 ^ f) = m from rv_int (L64 f) m, rv_u (L64 f) 1]; push_cast; ring
  have huu : uR (L64 f) * uR (L64 f) ≤ 1 / 256 * uR (L64 f) := mul_le_mul_of_nonneg_right hul hu.le
  have huu0 : 0 < uR (L64 f) * uR (L64 f) := by positivity
  have hpu : 3.1415 * uR (L64 f) ≤ Real.pi * uR (L64 f) := mul_le_mul_of_nonneg_right (by linarith) hu.le
  have hpu2 : Real.pi * uR (L64 f) ≤ 3.1416 * uR (L64 f) := mul_le_mul_of_nonneg_right (by linarith) hu.le
  have w4 : fp * 2 ^ f / c.p2 ≤ 4 * 2 ^ f := by
    rw [cmp, rS]
    have : (4 + uR (L64 f)) * (Real.pi / 2 - 1.25 * uR (L64 f)) ≤ (4 + uR (L64 f)) * rv (L64 f) c.p2 :=
      mul_le_mul_of_nonneg_left (by linarith) (by positivity)
    push_cast
    nlinarith
  obtain ⟨z, z0, zB, z63, es, eu⟩ := h.sin_eq c h0 (by omega) (by omega) (by rw [em]; exact w4)
  rw [em] at es eu
  have hval : ∀ x : Int, ((val (L64 f) x : ℚ) : ℝ) = rv (L64 f) x := rv_eq (L64 f)
  obtain ⟨hacc, _⟩ := C105_accuracy_partial (L64 f) c.gl.sw.valid c.gl.sw.sg rfl h8 h59 (by show f + 5 ≤ 64; omega)
  have f0 : 0 ≤ rv (L64 f) fp := by
    have := (rv_le (L64 f) (a := 0) (b := fp)).2 h0
    rwa [show rv (L64 f) 0 = 0 by simp [rv]] at this
  obtain ⟨s, hs, _, hb⟩ := hacc fp (by rw [hval, abs_of_nonneg f0]; linarith)
  rw [es] at hs; cases hs
  rw [hval, hval, uR_eq] at hb
  refine ⟨_, _, eu, ?_, ?_, hb, ?_, ?_⟩
  · split
    · rw [lu_wrap]; exact Int.emod_nonneg _ (by positivity)
    · exact z0
  · split
    · rw [lu_wrap]; exact Int.emod_lt_of_pos _ (by positivity)
    · exact zB
  · intro hp
    have : ¬ 2 * 2 ^ f < fp * 2 ^ f / c.p2 := by
      rw [not_lt, cmp, rS]
      have : (2 + uR (L64 f)) * (Real.pi / 2 - 1.25 * uR (L64 f)) ≤ (2 + uR (L64 f)) * rv (L64 f) c.p2 :=
        mul_le_mul_of_nonneg_left (by linarith) (by positivity)
      push_cast
      nlinarith
    rw [if_neg this, if_neg this]
  · intro hp
    have : 2 * 2 ^ f < fp * 2 ^ f / c.p2 := by
      rw [← not_le, cmp, rS, not_lt]
      have : (2 + uR (L64 f)) * rv (L64 f) c.p2 ≤ (2 + uR (L64 f)) * (Real.pi / 2 + 1.25 * uR (L64 f)) :=
        mul_le_mul_of_nonneg_left (by linarith) (by positivity)
      push_cast
      nlinarith
    rw [if_pos this, if_pos this, lu_wrap]
    by_cases hz : z = 0
    · left; rw [hz]; simp
    · right
      rw [← Int.add_emod_right, Int.emod_eq_of_lt (by omega) (by omega)]

/-- The numbers represented do not depend on the signedness. -/
theorem lu_rv (B f : Nat) (x : Int) : ((val (LU B f) x : ℚ) : ℝ) = rv (L64 f) x := rv_eq (LU B f) x

theorem lu_ulp (B f : Nat) : ((ulp (LU B f) : ℚ) : ℝ) = uR (L64 f) := uR_eq (LU B f)

/-- C141 as stated: a sine or cosine that the type can hold is returned to the accuracy known for signed layouts. -/
def C141_statement : Prop := ∀ B f : Nat, LUT B f → ∀ x : Int, Storable (LU B f) x → ((val (LU B f) x : ℚ) : ℝ) ≤ 2 * Real.pi →
  (0 ≤ Real.sin (val (LU B f) x : ℚ) → ∃ r, sin (LU B f) x = .ok r ∧
    |((val (LU B f) r : ℚ) : ℝ) - Real.sin (val (LU B f) x : ℚ)| ≤ 3 / 10000 + 20 * (ulp (LU B f) : ℚ)) ∧
  (0 ≤ Real.cos (val (LU B f) x : ℚ) → ∃ r, cos (LU B f) x = .ok r ∧
    |((val (LU B f) r : ℚ) : ℝ) - Real.cos (val (LU B f) x : ℚ)| ≤ 3 / 10000 + 25 * (ulp (LU B f) : ℚ))

/-- The cosine of one comes out as 65535.06…: three quarter turns are subtracted from the angle, which wraps. -/
theorem C141_false : ¬ C141_statement := by
  intro h
  have e : cos (LU 32 16) 65536 = .ok 4294906151 := by decide +kernel
  have one : ((val (LU 32 16) 65536 : ℚ) : ℝ) = 1 := by norm_num [val]
  have h' := h 32 16 ⟨Or.inl rfl, by norm_num, by norm_num, by norm_num⟩ 65536 (by decide +kernel)
  rw [one] at h'
  obtain ⟨r, h1, h2⟩ := (h' (by have := Real.pi_gt_d4; linarith)).2 Real.cos_one_pos.le
  rw [h1] at e; cases e
  have hc := Real.cos_le_one 1
  have hv : ((val (LU 32 16) 4294906151 : ℚ) : ℝ) = 4294906151 / 65536 := by norm_num [val]
  have hul : ((ulp (LU 32 16) : ℚ) : ℝ) = 1 / 65536 := by norm_num [ulp]
  rw [hv, hul] at h2
  have := (abs_le.1 h2).2
  norm_num at this
  linarith

/-- Consequently the tangent of one is zero. -/
theorem C141_tan : tan (LU 32 16) (2 ^ 16) = .ok 0 := by decide +kernel

/-- C141 (sine, first turn): accurate up to half a turn; from there on, where the sine is negative, the result is zero or exceeds the
sine by the span of the type. -/
theorem C141_sin_partial (B f : Nat) (h : LUT B f) (x : Int) (hx : Storable (LU B f) x)
    (h1 : ((val (LU B f) x : ℚ) : ℝ) ≤ 2 * Real.pi - 8 * (ulp (LU B f) : ℚ)) :
    ∃ r s : Int, sin (LU B f) x = .ok r ∧ Storable (LU B f) r ∧
      |((val (LU B f) s : ℚ) : ℝ) - Real.sin (val (LU B f) x : ℚ)| ≤ 3 / 10000 + 20 * (ulp (LU B f) : ℚ) ∧
      (((val (LU B f) x : ℚ) : ℝ) ≤ Real.pi - 4 * (ulp (LU B f) : ℚ) → r = s) ∧
      (Real.pi + 5 * (ulp (LU B f) : ℚ) ≤ ((val (LU B f) x : ℚ) : ℝ) → r = 0 ∧ s = 0 ∨ r = s + 2 ^ B) := by
  simp only [lu_rv, lu_ulp] at *
  obtain ⟨r, s, a, b, c, d⟩ := h.sin_turn (lu_in.1 hx).1 h1
  refine ⟨r, s, a, lu_in.2 ⟨b, c⟩, d.1, d.2.1, d.2.2⟩

example : LUT 32 16 ∧ LUT 64 59 ∧ Storable (LU 32 16) 65536 ∧ sin (LU 32 16) 65536 = .ok 55147 ∧ sin (LU 32 16) (4 * 65536) = .ok (2 ^ 32 - 49599) :=
  ⟨⟨Or.inl rfl, by norm_num, by norm_num, by norm_num⟩, ⟨Or.inr rfl, by norm_num, by norm_num, by norm_num⟩, by decide +kernel, by decide +kernel,
    by decide +kernel⟩

/-- The three constants of `cos`. -/
theorem LUT.cos_const {B f : Nat} (h : LUT B f) : ∃ pi p2 s : Int, cPi (LU B f) = .ok pi ∧ div (LU B f) pi (ofInt (LU B f) 2) = .ok p2 ∧
    mul (LU B f) pi (ofInt (LU B f) 2) = .ok (2 * pi) ∧ sub (LU B f) (2 * pi) p2 = .ok s ∧ 0 ≤ p2 ∧ 0 ≤ s ∧ s < 2 ^ B ∧ p2 < 2 ^ B ∧
    |rv (L64 f) p2 - Real.pi / 2| ≤ 1.7 * uR (L64 f) ∧ |rv (L64 f) s - 3 * Real.pi / 2| ≤ 4.5 * uR (L64 f) := by
  obtain ⟨c⟩ := h.gl.sinG
  have hS : (0 : Int) < 2 ^ f := by positivity
  have h8 := h.f8; have h59 := h.f59; have hr := h.room
  have g := Real.pi_gt_d4; have l := Real.pi_lt_d4
  have hu := uR_pos (L64 f)
  have hul := c.gl.lay.u_le
  have mB : 15 * (2 : Int) ^ f < 2 ^ B := by
    have : (2 : Int) ^ (f + 4) ≤ 2 ^ B := pow_le_pow_right₀ (by norm_num) hr
    rw [pow_add] at this; omega
  have hn := nn_unsigned h.b (by omega) (by omega : f + 3 ≤ B) (le_refl ((2 : Int) ^ B))
  have ap := abs_le.1 c.aPi.er
  have p0 : 0 ≤ c.pi := by
    rw [← rv_le (L64 f), show rv (L64 f) 0 = 0 by simp [rv]]
    norm_num at *; linarith
  have p1 : c.pi ≤ 4 * 2 ^ f := by
    rw [← rv_le (L64 f)]
    have e : rv (L64 f) (4 * 2 ^ f) = (4 : Int) := rv_int (L64 f) 4
    rw [e]
    norm_num at *; linarith
  have o2 : ofInt (LU B f) 2 = 2 * 2 ^ f := hn.ofInt 2 (by norm_num) (by show 2 * (2 : Int) ^ f < _; omega)
  have ed : c.pi * 2 ^ f / (2 * 2 ^ f) = c.pi / 2 := by
    rw [Int.mul_ediv_mul_of_pos_left _ _ hS]
  have em : c.pi * (2 * 2 ^ f) / 2 ^ f = 2 * c.pi := by
    rw [show c.pi * (2 * 2 ^ f) = 2 * c.pi * 2 ^ f by ring, Int.mul_ediv_cancel _ hS.ne']
  have e1 : div (LU B f) c.pi (2 * 2 ^ f) = .ok (c.pi / 2) := by
    have := hn.div c.pi (2 * 2 ^ f) p0 (by omega) (by omega) (by show c.pi * 2 ^ f / (2 * 2 ^ f) < _; rw [ed]; omega)
    rw [this]
    show Res.ok (c.pi * 2 ^ f / (2 * 2 ^ f)) = _
    rw [ed]
  have e2 : mul (LU B f) c.pi (2 * 2 ^ f) = .ok (2 * c.pi) := by
    have := hn.mul c.pi (2 * 2 ^ f) p0 (by omega) (by omega) (by omega) (by show c.pi * (2 * 2 ^ f) / 2 ^ f < _; rw [em]; omega)
    rw [this]
    show Res.ok (c.pi * (2 * 2 ^ f) / 2 ^ f) = _
    rw [em]
  have e3 := hn.sub (2 * c.pi) (c.pi / 2) (by omega) (by omega) (by omega) (by omega)
  have d1 : ((c.pi / 2 : Int) : ℝ) * 2 ≤ c.pi := by exact_mod_cast (by omega : c.pi / 2 * 2 ≤ c.pi)
  have d2 : (c.pi : ℝ) ≤ ((c.pi / 2 : Int) : ℝ) * 2 + 1 := by exact_mod_cast (by omega : c.pi ≤ c.pi / 2 * 2 + 1)
  have r1 : rv (L64 f) (c.pi / 2) * 2 ≤ rv (L64 f) c.pi := by
    rw [rv_u, rv_u]; nlinarith
  have r2 : rv (L64 f) c.pi ≤ rv (L64 f) (c.pi / 2) * 2 + uR (L64 f) := by
    rw [rv_u, rv_u]; nlinarith
  refine ⟨c.pi, c.pi / 2, 2 * c.pi - c.pi / 2, by rw [h.const.1, c.ePi], by rw [o2, e1], by rw [o2, e2], e3, by omega, by omega, by omega, by omega, ?_, ?_⟩
  · rw [abs_le]; norm_num at *; constructor <;> linarith
  · rw [rv_sub, show rv (L64 f) (2 * c.pi) = 2 * rv (L64 f) c.pi by unfold rv; push_cast; ring, abs_le]
    norm_num at *; constructor <;> linarith

/-- C141 (cosine): right at zero, and right between three quarters of a turn and five quarters, where it is not negative. -/
theorem C141_cos_partial (B f : Nat) (h : LUT B f) (x : Int) (hx : Storable (LU B f) x)
    (h1 : x = 0 ∨ 3 * Real.pi / 2 + 8 * (ulp (LU B f) : ℚ) ≤ ((val (LU B f) x : ℚ) : ℝ) ∧
      ((val (LU B f) x : ℚ) : ℝ) ≤ 5 * Real.pi / 2 - 16 * (ulp (LU B f) : ℚ)) :
    ∃ r : Int, cos (LU B f) x = .ok r ∧ Storable (LU B f) r ∧
      |((val (LU B f) r : ℚ) : ℝ) - Real.cos (val (LU B f) x : ℚ)| ≤ 3 / 10000 + 25 * (ulp (LU B f) : ℚ) := by
  simp only [lu_rv, lu_ulp] at *
  obtain ⟨pi, p2, s, e1, e2, e3, e4, q0, s0, sB, qB, aq, as⟩ := h.cos_const
  obtain ⟨c⟩ := h.gl.sinG
  have g := Real.pi_gt_d4; have l := Real.pi_lt_d4
  have hu := uR_pos (L64 f)
  have hul := c.gl.lay.u_le
  have h8 := h.f8; have hr := h.room
  obtain ⟨hv, hs, hz⟩ := lu_valid h.b (by omega) (by omega : f + 3 ≤ B)
  have hb : 0 < (LU B f).T.bits := hv.tpos
  rw [abs_le] at aq as
  norm_num at aq as
  obtain ⟨x0, xB⟩ := lu_in.1 hx
  rcases h1 with rfl | ⟨h1, h2⟩
  · have ea : add (LU B f) 0 p2 = .ok p2 := by
      rw [add_nf hv hx (lu_in.2 ⟨q0, qB⟩), if_neg (fun h => hs h.1), zero_add, IntTy.wrap_of_inRange hb (lu_in.2 ⟨q0, qB⟩)]
    have ec : cos (LU B f) 0 = sin (LU B f) p2 := by
      unfold cos
      rw [e1, Res.bind_ok, e2, Res.bind_ok, e3, Res.bind_ok, if_neg (by omega), ea, Res.bind_ok]
    obtain ⟨r, t, a, b, c', d, d1, -⟩ := h.sin_turn q0 (by linarith)
    have := d1 (by linarith)
    subst this
    refine ⟨r, by rw [ec, a], lu_in.2 ⟨b, c'⟩, ?_⟩
    rw [show rv (L64 f) 0 = 0 by simp [rv], Real.cos_zero]
    have e : Real.sin (Real.pi / 2) = 1 := Real.sin_pi_div_two
    have t1 := Real.abs_sin_sub_sin_le (rv (L64 f) p2) (Real.pi / 2)
    rw [e] at t1
    have t2 : |rv (L64 f) p2 - Real.pi / 2| ≤ 1.7 * uR (L64 f) := by rw [abs_le]; norm_num; constructor <;> linarith
    have t3 := abs_sub_le (rv (L64 f) r) (Real.sin (rv (L64 f) p2)) 1
    norm_num at t2
    linarith
  · have hsx : s ≤ x := by
      rw [← rv_le (L64 f)]; linarith
    have hpos : x > 0 := by
      rw [gt_iff_lt, ← rv_lt (L64 f), show rv (L64 f) 0 = 0 by simp [rv]]; linarith
    have hS2 : Storable (LU B f) (x - s) := lu_in.2 ⟨by omega, by omega⟩
    have e5 : sub (LU B f) x s = .ok (x - s) := by
      rw [sub_nf hv hx (lu_in.2 ⟨s0, sB⟩), if_neg (fun h => hs h.1), IntTy.wrap_of_inRange hb hS2]
    have ec : cos (LU B f) x = sin (LU B f) (x - s) := by
      unfold cos
      rw [e1, Res.bind_ok, e2, Res.bind_ok, e3, Res.bind_ok, if_pos hpos, e4, Res.bind_ok, e5, Res.bind_ok]
    have ers := rv_sub (L64 f) x s
    obtain ⟨r, t, a, b, c', d, d1, -⟩ := h.sin_turn (fp := x - s) (by omega) (by rw [ers]; linarith)
    have := d1 (by rw [ers]; linarith)
    subst this
    refine ⟨r, by rw [ec, a], lu_in.2 ⟨b, c'⟩, ?_⟩
    have e : Real.cos (rv (L64 f) x) = Real.sin (rv (L64 f) x - 3 * Real.pi / 2) := by
      rw [show rv (L64 f) x - 3 * Real.pi / 2 = (rv (L64 f) x + Real.pi / 2) - 2 * Real.pi by ring, Real.sin_sub_two_pi, Real.sin_add_pi_div_two]
    have t1 := Real.abs_sin_sub_sin_le (rv (L64 f) (x - s)) (rv (L64 f) x - 3 * Real.pi / 2)
    rw [← e] at t1
    have t2 : |rv (L64 f) (x - s) - (rv (L64 f) x - 3 * Real.pi / 2)| ≤ 4.5 * uR (L64 f) := by
      rw [ers, abs_le]; norm_num; constructor <;> linarith
    have t3 := abs_sub_le (rv (L64 f) r) (Real.sin (rv (L64 f) (x - s))) (Real.cos (rv (L64 f) x))
    norm_num at t2
    linarith

/-- C141 (cosine below three quarters of a turn): the sine of an angle that is off by the span of the type. -/
theorem C141_cos_wraps_partial (B f : Nat) (h : LUT B f) : ∃ s : Int, |((val (LU B f) s : ℚ) : ℝ) - 3 * Real.pi / 2| ≤ 4.5 * (ulp (LU B f) : ℚ) ∧
    ∀ x : Int, 0 < x → x < s → cos (LU B f) x = sin (LU B f) (x - s + 2 ^ B) := by
  obtain ⟨pi, p2, s, e1, e2, e3, e4, q0, s0, sB, qB, aq, as⟩ := h.cos_const
  have h8 := h.f8; have hr := h.room
  obtain ⟨hv, hs, hz⟩ := lu_valid h.b (by omega) (by omega : f + 3 ≤ B)
  refine ⟨s, by rw [lu_rv, lu_ulp]; exact as, fun x x0 x1 => ?_⟩
  have e5 : sub (LU B f) x s = .ok (x - s + 2 ^ B) := by
    rw [sub_nf hv (lu_in.2 ⟨x0.le, by omega⟩) (lu_in.2 ⟨s0, sB⟩), if_neg (fun h => hs h.1), lu_wrap, ← Int.add_emod_right,
      Int.emod_eq_of_lt (by omega) (by omega)]
  unfold cos
  rw [e1, Res.bind_ok, e2, Res.bind_ok, e3, Res.bind_ok, if_pos x0, e4, Res.bind_ok, e5, Res.bind_ok]

example : cos (LU 32 16) 0 = .ok 65536 ∧ cos (LU 32 16) (6 * 65536) = .ok 62926 ∧ 3 * Real.pi / 2 + 8 * (((ulp (LU 32 16) : ℚ)) : ℝ) ≤ ((val (LU 32 16) (6 * 65536) : ℚ) : ℝ) := by
  refine ⟨by decide +kernel, by decide +kernel, ?_⟩
  have := Real.pi_lt_d4
  norm_num [val, ulp]; linarith

end Eirin.Props
