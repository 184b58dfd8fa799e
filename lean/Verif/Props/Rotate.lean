import Verif.Props.Dot
import Verif.Props.TrigIdAll

/-! # Property C191: rotation of a vector in the plane -/

namespace Eirin.Props
open Spec

/-- Rotation by the angle `t`: `{x * cos(t) - y * sin(t), x * sin(t) + y * cos(t)}`. -/
def rotate (F : FxTy) (t x y : Int) : Res (Int × Int) := do
  let s ← sin F t
  let c ← cos F t
  let p ← mul F x c
  let q ← mul F y s
  let u ← sub F p q
  let p' ← mul F x s
  let q' ← mul F y c
  let v ← add F p' q'
  pure (u, v)

/-- Product of a number with a computed sine or cosine. -/
theorem trig_scale {F : FxTy} (h : TrigLayout F) {e : ℝ} {a r : Int} {A : ℝ} (ha : TrigNear F e a A) (he : e ≤ 1 / 2) (sa : Storable F a)
    (hr : Storable F r) (hfit : 3 / 2 * |val F r| + ulp F ≤ val F F.T.hi) :
    ∃ z, mul F r a = .ok z ∧ Storable F z ∧ |val F z| ≤ 3 / 2 * |val F r| + ulp F ∧
      ((val F r : ℚ) : ℝ) * A - |((val F r : ℚ) : ℝ)| * e - (ulp F : ℚ) ≤ ((val F z : ℚ) : ℝ) ∧
      ((val F z : ℚ) : ℝ) ≤ ((val F r : ℚ) : ℝ) * A + |((val F r : ℚ) : ℝ)| * e := by
  have hra : |val F r * val F a| ≤ 3 / 2 * |val F r| := by
    rw [abs_mul, mul_comm]; exact mul_le_mul_of_nonneg_right (ha.small he) (abs_nonneg _)
  have hu := ulp_pos F
  obtain ⟨z, e1, sz, z1, z2⟩ := mul_fit h.valid h.tr hr sa (by linarith)
  refine ⟨z, e1, sz, ?_, ?_⟩
  · rw [abs_le] at *; constructor <;> linarith [hra.1, hra.2]
  have g1 : ((val F z : ℚ) : ℝ) ≤ (val F r : ℚ) * (val F a : ℚ) := by exact_mod_cast z1
  have g2 : ((val F r : ℚ) : ℝ) * (val F a : ℚ) < ((val F z : ℚ) : ℝ) + (ulp F : ℚ) := by exact_mod_cast z2
  have key : |((val F r : ℚ) : ℝ) * (val F a : ℚ) - ((val F r : ℚ) : ℝ) * A| ≤ |((val F r : ℚ) : ℝ)| * e := by
    rw [← mul_sub, abs_mul]; exact mul_le_mul_of_nonneg_left ha.near (abs_nonneg _)
  rw [abs_le] at key
  constructor <;> linarith [key.1, key.2]

/-- Moving the end of a vector changes its length by no more than the way. -/
theorem length_move (a b c d : ℝ) : |√(c ^ 2 + d ^ 2) - √(a ^ 2 + b ^ 2)| ≤ |c - a| + |d - b| := by
  have key : ∀ a b c d : ℝ, √(c ^ 2 + d ^ 2) ≤ √(a ^ 2 + b ^ 2) + (|c - a| + |d - b|) := by
    intro a b c d
    have r0 := Real.sqrt_nonneg (a ^ 2 + b ^ 2)
    have r2 := Real.sq_sqrt (show 0 ≤ a ^ 2 + b ^ 2 by positivity)
    have ra : |a| ≤ √(a ^ 2 + b ^ 2) := Real.abs_le_sqrt (by nlinarith [sq_nonneg b])
    have rb : |b| ≤ √(a ^ 2 + b ^ 2) := Real.abs_le_sqrt (by nlinarith [sq_nonneg a])
    have ha : a * (c - a) ≤ √(a ^ 2 + b ^ 2) * |c - a| :=
      (le_abs_self _).trans (by rw [abs_mul]; exact mul_le_mul_of_nonneg_right ra (abs_nonneg _))
    have hb : b * (d - b) ≤ √(a ^ 2 + b ^ 2) * |d - b| :=
      (le_abs_self _).trans (by rw [abs_mul]; exact mul_le_mul_of_nonneg_right rb (abs_nonneg _))
    have c0 := abs_nonneg (c - a)
    have d0 := abs_nonneg (d - b)
    refine Real.sqrt_le_iff.2 ⟨by positivity, ?_⟩
    have c2 := sq_abs (c - a)
    have d2 := sq_abs (d - b)
    nlinarith [mul_nonneg c0 d0]
  have h1 := key a b c d
  have h2 := key c d a b
  rw [abs_sub_comm a c, abs_sub_comm b d] at h2
  rw [abs_le]; constructor <;> linarith

/-- C191: on every signed layout with 8 to 59 fraction bits and room for sine and cosine, a rotated vector is defined and each of its coordinates is
within the sum of the coordinates times the error of the functions, plus two ulp, of the exact rotation. -/
theorem C191_rotate (F : FxTy) (h : TrigLayout F) (t x y : Int) (hS : Storable F t) (hlo : F.T.lo < t) (hx : Storable F x) (hy : Storable F y)
    (he : trigErr F |((val F t : ℚ) : ℝ)| ≤ 1 / 2) (hfit : 3 / 2 * (|val F x| + |val F y|) + 2 * ulp F ≤ val F F.T.hi) :
    ∃ u v, rotate F t x y = .ok (u, v) ∧ Storable F u ∧ Storable F v ∧
      |((val F u : ℚ) : ℝ) - ((val F x : ℚ) * Real.cos (val F t : ℚ) - (val F y : ℚ) * Real.sin (val F t : ℚ))| ≤
        (|((val F x : ℚ) : ℝ)| + |((val F y : ℚ) : ℝ)|) * trigErr F |((val F t : ℚ) : ℝ)| + (ulp F : ℚ) ∧
      |((val F v : ℚ) : ℝ) - ((val F x : ℚ) * Real.sin (val F t : ℚ) + (val F y : ℚ) * Real.cos (val F t : ℚ))| ≤
        (|((val F x : ℚ) : ℝ)| + |((val F y : ℚ) : ℝ)|) * trigErr F |((val F t : ℚ) : ℝ)| + 2 * (ulp F : ℚ) := by
  obtain ⟨s, c, es, ec, ns, nc⟩ := trig_near h hS hlo le_rfl
  have ss : Storable F s := store_of_abs h.sg h.room (by linarith [ns.small he])
  have sc : Storable F c := store_of_abs h.sg h.room (by linarith [nc.small he])
  have x0 := abs_nonneg (val F x)
  have y0 := abs_nonneg (val F y)
  have hu := ulp_pos F
  have u0 : (0 : ℝ) < ((ulp F : ℚ) : ℝ) := by exact_mod_cast hu
  obtain ⟨p, ep, sp, p1, p2, p3⟩ := trig_scale h nc he sc hx (by linarith)
  obtain ⟨q, eq, sq, q1, q2, q3⟩ := trig_scale h ns he ss hy (by linarith)
  obtain ⟨p', ep', sp', p1', p2', p3'⟩ := trig_scale h ns he ss hx (by linarith)
  obtain ⟨q', eq', sq', q1', q2', q3'⟩ := trig_scale h nc he sc hy (by linarith)
  have sd : Storable F (p - q) := storable_of_abs (by
    rw [val_sub]
    have := abs_sub (val F p) (val F q)
    linarith) (fun hh => absurd (h.sg.symm.trans hh) (by decide))
  have ed : sub F p q = .ok (p - q) := by
    rw [sub_nf h.valid sp sq, if_neg (fun c => c.2 sd), IntTy.wrap_of_inRange h.valid.tpos sd]
  obtain ⟨ea, sa⟩ := add_fit h.valid sp' sq' (by
    have := abs_add_le (val F p') (val F q')
    linarith)
  refine ⟨p - q, p' + q', ?_, sd, sa, ?_, ?_⟩
  · unfold rotate
    rw [es, Res.bind_ok, ec, Res.bind_ok, ep, Res.bind_ok, eq, Res.bind_ok, ed, Res.bind_ok, ep', Res.bind_ok, eq', Res.bind_ok, ea, Res.bind_ok,
      Res.pure_eq]
  · rw [val_sub]; push_cast
    rw [abs_le, add_mul]; constructor <;> linarith
  · rw [val_add]; push_cast
    rw [abs_le, add_mul]; constructor <;> linarith

/-- C191: a rotation keeps the length of the vector up to the errors of both coordinates. -/
theorem C191_length (F : FxTy) (h : TrigLayout F) (t x y : Int) (hS : Storable F t) (hlo : F.T.lo < t) (hx : Storable F x) (hy : Storable F y)
    (he : trigErr F |((val F t : ℚ) : ℝ)| ≤ 1 / 2) (hfit : 3 / 2 * (|val F x| + |val F y|) + 2 * ulp F ≤ val F F.T.hi) :
    ∃ u v, rotate F t x y = .ok (u, v) ∧
      |√(((val F u : ℚ) : ℝ) ^ 2 + ((val F v : ℚ) : ℝ) ^ 2) - √(((val F x : ℚ) : ℝ) ^ 2 + ((val F y : ℚ) : ℝ) ^ 2)| ≤
        2 * (|((val F x : ℚ) : ℝ)| + |((val F y : ℚ) : ℝ)|) * trigErr F |((val F t : ℚ) : ℝ)| + 3 * (ulp F : ℚ) := by
  obtain ⟨u, v, e, -, -, h1, h2⟩ := C191_rotate F h t x y hS hlo hx hy he hfit
  refine ⟨u, v, e, ?_⟩
  set X := ((val F x : ℚ) : ℝ)
  set Y := ((val F y : ℚ) : ℝ)
  set a := ((val F t : ℚ) : ℝ)
  have id : (X * Real.cos a - Y * Real.sin a) ^ 2 + (X * Real.sin a + Y * Real.cos a) ^ 2 = X ^ 2 + Y ^ 2 := by
    have := Real.sin_sq_add_cos_sq a
    linear_combination (X ^ 2 + Y ^ 2) * this
  have := length_move (X * Real.cos a - Y * Real.sin a) (X * Real.sin a + Y * Real.cos a) ((val F u : ℚ) : ℝ) ((val F v : ℚ) : ℝ)
  rw [id] at this
  linarith

example : TrigLayout fixed32 ∧ rotate fixed32 34315 131072 65536 = .ok (80747, 122291) ∧
    trigErr fixed32 |((val fixed32 34315 : ℚ) : ℝ)| ≤ 1 / 2 ∧
    3 / 2 * (|val fixed32 131072| + |val fixed32 65536|) + 2 * ulp fixed32 ≤ val fixed32 fixed32.T.hi := by
  refine ⟨⟨by decide, rfl, rfl, by decide, by decide, by decide⟩, by decide +kernel, ?_, ?_⟩
  · norm_num [trigErr, val, ulp, fixed32]
  · norm_num [val, ulp, fixed32, IntTy.hi, i32]

end Eirin.Props
