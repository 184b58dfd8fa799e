import Verif.Props.TrigAll

/-! # C165: the trigonometric identities, evaluated in the library's arithmetic -/

namespace Eirin.Props
open Spec

section
variable {F : FxTy} (hF : F.Valid) (hs : F.T.signed = true) (hr : F.r = false) (hroom : F.f + 5 ≤ F.T.bits)

include hs hroom in
theorem store_of_abs {n : Int} (h : |val F n| ≤ 15) : Storable F n := by
  have p0 : (0 : Int) < 2 ^ F.f := by positivity
  have hp : (16 : Int) * 2 ^ F.f ≤ 2 ^ (F.T.bits - 1) := by
    have : (2 : Int) ^ (F.f + 4) ≤ 2 ^ (F.T.bits - 1) := pow_le_pow_right₀ (by norm_num) (by omega)
    rw [pow_add] at this; linarith
  rw [abs_le] at h
  have h15 : val F (15 * 2 ^ F.f) = 15 := by exact_mod_cast val_int F 15
  have hm15 : val F (-15 * 2 ^ F.f) = -15 := by exact_mod_cast val_int F (-15)
  have a1 : -15 * 2 ^ F.f ≤ n := by rw [← val_le (F := F), hm15]; exact h.1
  have a2 : n ≤ 15 * 2 ^ F.f := by rw [← val_le (F := F), h15]; exact h.2
  have e : F.T.hi = 2 ^ (F.T.bits - 1) - 1 := by unfold IntTy.hi; simp [hs]
  have e2 : F.T.lo = -(2 ^ (F.T.bits - 1)) := by unfold IntTy.lo; simp [hs]
  exact ⟨by rw [e2]; omega, by rw [e]; omega⟩

include hF hs hr hroom in
theorem small_mul {x y : Int} (hx : |val F x| ≤ 3 / 2) (hy : |val F y| ≤ 3 / 2) :
    ∃ z, mul F x y = .ok z ∧ val F z ≤ val F x * val F y ∧ val F x * val F y < val F z + ulp F ∧ |val F z| ≤ 13 / 4 := by
  obtain ⟨z, n, h, hfl, _, hn⟩ := C02_mul_floor F hF hr x y (store_of_abs hs hroom (by linarith)) (store_of_abs hs hroom (by linarith))
  have hxy : |val F x * val F y| ≤ 9 / 4 := by
    rw [abs_mul]
    calc |val F x| * |val F y| ≤ 3 / 2 * (3 / 2) := mul_le_mul hx hy (abs_nonneg _) (by norm_num)
      _ = 9 / 4 := by norm_num
  have hu : ulp F ≤ 1 := by
    unfold ulp
    exact div_le_self (by norm_num) (one_le_pow₀ (by norm_num))
  obtain ⟨f1, f2⟩ := hfl
  rw [abs_le] at hxy
  have hna : |val F n| ≤ 13 / 4 := by rw [abs_le]; constructor <;> linarith
  have := hn (store_of_abs hs hroom (by linarith))
  subst this
  exact ⟨z, h, f1, f2, hna⟩

include hF hs hroom in
theorem small_add {x y : Int} (hx : |val F x| ≤ 13 / 4) (hy : |val F y| ≤ 13 / 4) : add F x y = .ok (x + y) := by
  have h : Storable F (x + y) := store_of_abs hs hroom (by
    rw [val_add]; rw [abs_le] at *; constructor <;> linarith)
  rw [add_nf hF (store_of_abs hs hroom (by linarith)) (store_of_abs hs hroom (by linarith)), if_neg (fun c => c.2 h),
    IntTy.wrap_of_inRange hF.tpos h]

include hF hs hroom in
theorem small_sub {x y : Int} (hx : |val F x| ≤ 13 / 4) (hy : |val F y| ≤ 13 / 4) : sub F x y = .ok (x - y) := by
  have h : Storable F (x - y) := store_of_abs hs hroom (by
    rw [val_sub]; rw [abs_le] at *; constructor <;> linarith)
  rw [sub_nf hF (store_of_abs hs hroom (by linarith)) (store_of_abs hs hroom (by linarith)), if_neg (fun c => c.2 h),
    IntTy.wrap_of_inRange hF.tpos h]

end

/-- The error of C113 for arguments up to `M`. -/
noncomputable def trigErr (F : FxTy) (M : ℝ) : ℝ := 3 / 10000 + (27 + M / 4) * (ulp F : ℚ)

/-- What is known of a computed sine or cosine. -/
structure TrigNear (F : FxTy) (e : ℝ) (r : Int) (X : ℝ) : Prop where
  near : |((val F r : ℚ) : ℝ) - X| ≤ e
  unit : |X| ≤ 1

theorem TrigNear.small {F : FxTy} {e : ℝ} {r : Int} {X : ℝ} (h : TrigNear F e r X) (he : e ≤ 1 / 2) : |val F r| ≤ 3 / 2 := by
  have h1 := h.near; have h2 := h.unit
  have : |((val F r : ℚ) : ℝ)| ≤ ((3 / 2 : ℚ) : ℝ) := by
    push_cast
    rw [abs_le] at *; constructor <;> linarith
  rw [← Rat.cast_abs, Rat.cast_le] at this
  exact this

theorem TrigNear.mul {F : FxTy} {e : ℝ} {a b z : Int} {A B : ℝ} (ha : TrigNear F e a A) (hb : TrigNear F e b B) (he : e ≤ 1 / 2)
    (h1 : val F z ≤ val F a * val F b) (h2 : val F a * val F b < val F z + ulp F) :
    A * B - 5 / 2 * e - (ulp F : ℚ) ≤ ((val F z : ℚ) : ℝ) ∧ ((val F z : ℚ) : ℝ) ≤ A * B + 5 / 2 * e := by
  have g1 : ((val F z : ℚ) : ℝ) ≤ (val F a : ℚ) * (val F b : ℚ) := by exact_mod_cast h1
  have g2 : ((val F a : ℚ) : ℝ) * (val F b : ℚ) < ((val F z : ℚ) : ℝ) + (ulp F : ℚ) := by exact_mod_cast h2
  have hA := ha.near; have hB := hb.near
  have uA := ha.unit; have uB := hb.unit
  set p := ((val F a : ℚ) : ℝ)
  set q := ((val F b : ℚ) : ℝ)
  have e0 : 0 ≤ e := le_trans (abs_nonneg _) hA
  have key : |p * q - A * B| ≤ 5 / 2 * e := by
    have ee : p * q - A * B = (p - A) * B + A * (q - B) + (p - A) * (q - B) := by ring
    have t1 : |(p - A) * B| ≤ e * 1 := by rw [abs_mul]; exact mul_le_mul hA uB (abs_nonneg _) e0
    have t2 : |A * (q - B)| ≤ 1 * e := by rw [abs_mul]; exact mul_le_mul uA hB (abs_nonneg _) zero_le_one
    have t3 : |(p - A) * (q - B)| ≤ e * (1 / 2) := by rw [abs_mul]; exact mul_le_mul hA (le_trans hB he) (abs_nonneg _) e0
    rw [ee]
    have := abs_add_three ((p - A) * B) (A * (q - B)) ((p - A) * (q - B))
    linarith
  rw [abs_le] at key
  constructor <;> linarith [key.1, key.2]

/-- The layouts: those of C113. -/
structure TrigLayout (F : FxTy) : Prop where
  valid : F.Valid
  sg : F.T.signed = true
  tr : F.r = false
  f8 : 8 ≤ F.f
  f59 : F.f ≤ 59
  room : F.f + 5 ≤ F.T.bits

theorem trig_near {F : FxTy} (h : TrigLayout F) {M : ℝ} {x : Int} (hS : Storable F x) (hlo : F.T.lo < x) (hx : |((val F x : ℚ) : ℝ)| ≤ M) :
    ∃ s c, sin F x = .ok s ∧ cos F x = .ok c ∧ TrigNear F (trigErr F M) s (Real.sin (val F x : ℚ)) ∧
      TrigNear F (trigErr F M) c (Real.cos (val F x : ℚ)) := by
  obtain ⟨⟨c, hc, _, c1⟩, hsin⟩ := C113_whole F h.valid h.sg h.tr h.f8 h.f59 h.room x hS
  obtain ⟨s, hs, _, s1⟩ := hsin hlo
  have u0 : (0 : ℝ) < ((ulp F : ℚ) : ℝ) := by exact_mod_cast ulp_pos F
  refine ⟨s, c, hs, hc, ⟨le_trans s1 ?_, Real.abs_sin_le_one _⟩, ⟨le_trans c1 ?_, Real.abs_cos_le_one _⟩⟩ <;>
    (unfold trigErr; nlinarith)

/-- C165: `sin(x)*sin(x) + cos(x)*cos(x)`, evaluated with the library's operators, is one up to five times the error of the functions and two ulp. -/
theorem C165_pythagoras (F : FxTy) (h : TrigLayout F) (x : Int) (hS : Storable F x) (hlo : F.T.lo < x)
    (he : trigErr F |((val F x : ℚ) : ℝ)| ≤ 1 / 2) :
    ∃ s c s2 c2 r, sin F x = .ok s ∧ cos F x = .ok c ∧ mul F s s = .ok s2 ∧ mul F c c = .ok c2 ∧ add F s2 c2 = .ok r ∧
      |((val F r : ℚ) : ℝ) - 1| ≤ 5 * trigErr F |((val F x : ℚ) : ℝ)| + 2 * (ulp F : ℚ) := by
  obtain ⟨s, c, hs, hc, ns, nc⟩ := trig_near h hS hlo le_rfl
  obtain ⟨s2, hs2, a1, a2, a3⟩ := small_mul h.valid h.sg h.tr h.room (ns.small he) (ns.small he)
  obtain ⟨c2, hc2, b1, b2, b3⟩ := small_mul h.valid h.sg h.tr h.room (nc.small he) (nc.small he)
  refine ⟨s, c, s2, c2, _, hs, hc, hs2, hc2, small_add h.valid h.sg h.room a3 b3, ?_⟩
  obtain ⟨p1, p2⟩ := ns.mul ns he a1 a2
  obtain ⟨q1, q2⟩ := nc.mul nc he b1 b2
  have id := Real.sin_sq_add_cos_sq ((val F x : ℚ) : ℝ)
  have u0 : (0 : ℝ) < ((ulp F : ℚ) : ℝ) := by exact_mod_cast ulp_pos F
  rw [val_add]; push_cast
  rw [abs_le]
  constructor <;> nlinarith

/-- C165: the addition theorem of the sine. -/
theorem C165_sin_add (F : FxTy) (h : TrigLayout F) (x y : Int) (hx : Storable F x) (hlo : F.T.lo < x) (hy : Storable F y) (hloy : F.T.lo < y)
    (hz : Storable F (x + y)) (hloz : F.T.lo < x + y) (M : ℝ) (hM : |((val F x : ℚ) : ℝ)| ≤ M ∧ |((val F y : ℚ) : ℝ)| ≤ M ∧ |((val F (x + y) : ℚ) : ℝ)| ≤ M)
    (he : trigErr F M ≤ 1 / 2) :
    ∃ z t sx cx sy cy p q r, add F x y = .ok z ∧ sin F z = .ok t ∧ sin F x = .ok sx ∧ cos F x = .ok cx ∧ sin F y = .ok sy ∧ cos F y = .ok cy ∧
      mul F sx cy = .ok p ∧ mul F cx sy = .ok q ∧ add F p q = .ok r ∧
      |((val F t : ℚ) : ℝ) - (val F r : ℚ)| ≤ 6 * trigErr F M + 2 * (ulp F : ℚ) := by
  obtain ⟨sx, cx, hsx, hcx, nsx, ncx⟩ := trig_near h hx hlo hM.1
  obtain ⟨sy, cy, hsy, hcy, nsy, ncy⟩ := trig_near h hy hloy hM.2.1
  obtain ⟨t, _, ht, _, nt, _⟩ := trig_near h hz hloz hM.2.2
  obtain ⟨p, hp, a1, a2, a3⟩ := small_mul h.valid h.sg h.tr h.room (nsx.small he) (ncy.small he)
  obtain ⟨q, hq, b1, b2, b3⟩ := small_mul h.valid h.sg h.tr h.room (ncx.small he) (nsy.small he)
  have hadd : add F x y = .ok (x + y) := by
    rw [add_nf h.valid hx hy, if_neg (fun c => c.2 hz), IntTy.wrap_of_inRange h.valid.tpos hz]
  refine ⟨x + y, t, sx, cx, sy, cy, p, q, _, hadd, ht, hsx, hcx, hsy, hcy, hp, hq, small_add h.valid h.sg h.room a3 b3, ?_⟩
  obtain ⟨p1, p2⟩ := nsx.mul ncy he a1 a2
  obtain ⟨q1, q2⟩ := ncx.mul nsy he b1 b2
  have nt' := nt.near
  rw [val_add] at nt'; push_cast at nt'
  rw [Real.sin_add, abs_le] at nt'
  rw [val_add]; push_cast
  have u0 : (0 : ℝ) < ((ulp F : ℚ) : ℝ) := by exact_mod_cast ulp_pos F
  rw [abs_le]
  constructor <;> linarith [nt'.1, nt'.2]

/-- C165: the addition theorem of the cosine. -/
theorem C165_cos_add (F : FxTy) (h : TrigLayout F) (x y : Int) (hx : Storable F x) (hlo : F.T.lo < x) (hy : Storable F y) (hloy : F.T.lo < y)
    (hz : Storable F (x + y)) (hloz : F.T.lo < x + y) (M : ℝ) (hM : |((val F x : ℚ) : ℝ)| ≤ M ∧ |((val F y : ℚ) : ℝ)| ≤ M ∧ |((val F (x + y) : ℚ) : ℝ)| ≤ M)
    (he : trigErr F M ≤ 1 / 2) :
    ∃ z t sx cx sy cy p q r, add F x y = .ok z ∧ cos F z = .ok t ∧ sin F x = .ok sx ∧ cos F x = .ok cx ∧ sin F y = .ok sy ∧ cos F y = .ok cy ∧
      mul F cx cy = .ok p ∧ mul F sx sy = .ok q ∧ sub F p q = .ok r ∧
      |((val F t : ℚ) : ℝ) - (val F r : ℚ)| ≤ 6 * trigErr F M + (ulp F : ℚ) := by
  obtain ⟨sx, cx, hsx, hcx, nsx, ncx⟩ := trig_near h hx hlo hM.1
  obtain ⟨sy, cy, hsy, hcy, nsy, ncy⟩ := trig_near h hy hloy hM.2.1
  obtain ⟨_, t, _, ht, _, nt⟩ := trig_near h hz hloz hM.2.2
  obtain ⟨p, hp, a1, a2, a3⟩ := small_mul h.valid h.sg h.tr h.room (ncx.small he) (ncy.small he)
  obtain ⟨q, hq, b1, b2, b3⟩ := small_mul h.valid h.sg h.tr h.room (nsx.small he) (nsy.small he)
  have hadd : add F x y = .ok (x + y) := by
    rw [add_nf h.valid hx hy, if_neg (fun c => c.2 hz), IntTy.wrap_of_inRange h.valid.tpos hz]
  refine ⟨x + y, t, sx, cx, sy, cy, p, q, _, hadd, ht, hsx, hcx, hsy, hcy, hp, hq, small_sub h.valid h.sg h.room a3 b3, ?_⟩
  obtain ⟨p1, p2⟩ := ncx.mul ncy he a1 a2
  obtain ⟨q1, q2⟩ := nsx.mul nsy he b1 b2
  have nt' := nt.near
  rw [val_add] at nt'; push_cast at nt'
  rw [Real.cos_add, abs_le] at nt'
  rw [val_sub]; push_cast
  have u0 : (0 : ℝ) < ((ulp F : ℚ) : ℝ) := by exact_mod_cast ulp_pos F
  rw [abs_le]
  constructor <;> linarith [nt'.1, nt'.2]

/-- C165: doubling the angle, `sin(2x)` against `2 sin(x) cos(x)` and `cos(2x)` against `cos(x)^2 - sin(x)^2`. -/
theorem C165_double (F : FxTy) (h : TrigLayout F) (x : Int) (hlo : F.T.lo < x + x) (hz : Storable F (x + x)) (M : ℝ)
    (hM : |((val F (x + x) : ℚ) : ℝ)| ≤ M) (he : trigErr F M ≤ 1 / 2) :
    ∃ z st ct s c p q k l r m, add F x x = .ok z ∧ sin F z = .ok st ∧ cos F z = .ok ct ∧ sin F x = .ok s ∧ cos F x = .ok c ∧
      mul F s c = .ok p ∧ mul F c s = .ok q ∧ mul F c c = .ok k ∧ mul F s s = .ok l ∧ add F p q = .ok r ∧ sub F k l = .ok m ∧
      |((val F st : ℚ) : ℝ) - (val F r : ℚ)| ≤ 6 * trigErr F M + 2 * (ulp F : ℚ) ∧
      |((val F ct : ℚ) : ℝ) - (val F m : ℚ)| ≤ 6 * trigErr F M + (ulp F : ℚ) := by
  have hlo0 : F.T.lo < 0 := by
    unfold IntTy.lo; rw [if_pos h.sg]
    have : (0 : Int) < 2 ^ (F.T.bits - 1) := by positivity
    omega
  have hi0 : 0 ≤ F.T.hi := by
    unfold IntTy.hi; rw [if_pos h.sg]
    have : (0 : Int) < 2 ^ (F.T.bits - 1) := by positivity
    omega
  have hx : Storable F x := ⟨by have := hz.1; omega, by have := hz.2; omega⟩
  have hlox : F.T.lo < x := by omega
  have hMx : |((val F x : ℚ) : ℝ)| ≤ M := by
    rw [val_add] at hM; push_cast at hM
    have e : ((val F x : ℚ) : ℝ) + (val F x : ℚ) = 2 * ((val F x : ℚ) : ℝ) := by ring
    rw [e, abs_mul, abs_of_pos (by norm_num : (0 : ℝ) < 2)] at hM
    have := abs_nonneg ((val F x : ℚ) : ℝ)
    linarith
  obtain ⟨z, t, sx, cx, sy, cy, p, q, r, a1, a2, a3, a4, a5, a6, a7, a8, a9, a10⟩ :=
    C165_sin_add F h x x hx hlox hx hlox hz hlo M ⟨hMx, hMx, hM⟩ he
  obtain ⟨z', t', sx', cx', sy', cy', p', q', r', b1, b2, b3, b4, b5, b6, b7, b8, b9, b10⟩ :=
    C165_cos_add F h x x hx hlox hx hlox hz hlo M ⟨hMx, hMx, hM⟩ he
  rw [a1] at b1; cases b1
  rw [a3] at b3; cases b3
  rw [a3] at a5; cases a5
  rw [a3] at b5; cases b5
  rw [a4] at b4; cases b4
  rw [a4] at a6; cases a6
  rw [a4] at b6; cases b6
  exact ⟨_, t, t', _, _, p, q, p', q', r, r', a1, a2, b2, a3, a4, a7, a8, b7, b8, a9, b9, a10, b10⟩

example : TrigLayout fixed32 ∧ TrigLayout fixed64 ∧ TrigLayout ⟨i16, i32, 10, false⟩ := by
  refine ⟨?_, ?_, ?_⟩ <;> constructor <;> decide
example : sin fixed32 65536 = .ok 55147 ∧ cos fixed32 65536 = .ok 35410 ∧ mul fixed32 55147 55147 = .ok 46404 ∧
    mul fixed32 35410 35410 = .ok 19132 ∧ add fixed32 46404 19132 = .ok 65536 := by decide +kernel
example : trigErr fixed32 |((val fixed32 65536 : ℚ) : ℝ)| ≤ 1 / 2 := by norm_num [trigErr, val, ulp, fixed32]

end Eirin.Props
