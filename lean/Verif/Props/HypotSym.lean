import Verif.Props.Hypot
import Verif.Props.HypotAll

/-! # C170: hypot does not depend on order and signs of its arguments -/

namespace Eirin.Props
open Spec

/-- C170 as stated: `hypot` of two or three arguments is the same for every order of them. -/
def C170_statement : Prop :=
  ∀ F : FxTy, F.Valid → F.r = false → ∀ x y z, Storable F x → Storable F y → Storable F z →
    hypot F x y = hypot F y x ∧ hypot3 F x y z = hypot3 F y x z ∧ hypot3 F x y z = hypot3 F x z y

/-- C170 is false of the code: the sum of the squares of 170 and 170 overflows, but with 200 (whose square wraps to -25536) in between it
does not, and the result is 179.6. -/
theorem C170_false : ¬ C170_statement := by
  intro h
  have h1 := (h fixed32 (by decide) rfl (170 * 65536) (170 * 65536) (200 * 65536) (by decide +kernel) (by decide +kernel) (by decide +kernel)).2.2
  have e1 : hypot3 fixed32 (170 * 65536) (170 * 65536) (200 * 65536) = .ub .overflow := by decide +kernel
  have e2 : hypot3 fixed32 (170 * 65536) (200 * 65536) (170 * 65536) = .ok 11771695 := by decide +kernel
  rw [e1, e2] at h1
  cases h1

theorem wrap_sum3 {t : IntTy} (a b c : Int) : t.wrap (t.wrap (a + b) + c) = t.wrap (a + b + c) :=
  IntTy.wrap_congr (by
    have h := IntTy.wrap_dvd t (a + b)
    rw [show t.wrap (a + b) + c - (a + b + c) = -(a + b - t.wrap (a + b)) by ring]
    exact (dvd_neg).2 h)

/-- C170: for two arguments the order never matters, even where the result is undefined or wraps; for three, the first two may always be
exchanged; and the third with the others on every layout whose sums wrap (unsigned, or narrower than `int`), or when the exact sum of the
squares fits.  A third argument zero changes nothing.
Full statement: `C170_statement`; missing (false): third argument, signed wide layouts, squares that wrap. -/
theorem C170_order_partial (F : FxTy) (hF : F.Valid) (hr : F.r = false) (x y z : Int) (hx : Storable F x) (hy : Storable F y) (hz : Storable F z) :
    hypot F x y = hypot F y x ∧ hypot3 F x y z = hypot3 F y x z ∧ hypot3 F x y 0 = hypot F x y ∧
    ((¬ SignedWide F ∨ val F x ^ 2 + val F y ^ 2 + val F z ^ 2 ≤ val F F.T.hi) → hypot3 F x y z = hypot3 F x z y) := by
  have ex := mul_nf hF hr hx hx
  have ey := mul_nf hF hr hy hy
  have ez := mul_nf hF hr hz hz
  have hb := hF.tpos
  have hlo : F.T.lo ≤ 0 := by unfold IntTy.lo; split <;> [exact neg_nonpos.2 (by positivity); exact le_rfl]
  have z0 : Storable F 0 := ⟨hlo, le_trans (by norm_num : (0 : Int) ≤ 0) (by
    unfold IntTy.hi; split
    · have : (0 : Int) < 2 ^ (F.T.bits - 1) := by positivity
      omega
    · have : (0 : Int) < 2 ^ F.T.bits := by positivity
      omega)⟩
  have e0 := mul_nf hF hr z0 z0
  rw [zero_mul, Int.zero_ediv] at e0
  have w0 : F.T.wrap 0 = 0 := IntTy.wrap_of_inRange hb z0
  rw [w0] at e0
  have comm : ∀ a b : Int, add F a b = add F b a := by intro a b; unfold add; rw [add_comm]
  have sx := IntTy.wrap_inRange (x * x / 2 ^ F.f) hb
  have sy := IntTy.wrap_inRange (y * y / 2 ^ F.f) hb
  have sz := IntTy.wrap_inRange (z * z / 2 ^ F.f) hb
  refine ⟨?_, ?_, ?_, fun hc => ?_⟩
  · unfold hypot
    rw [ex, ey, Res.bind_ok, Res.bind_ok, Res.bind_ok, Res.bind_ok, comm]
  · unfold hypot3
    rw [ex, ey, Res.bind_ok, Res.bind_ok, Res.bind_ok, Res.bind_ok, comm]
  · unfold hypot3 hypot
    rw [ex, ey, Res.bind_ok, Res.bind_ok, Res.bind_ok, Res.bind_ok, e0]
    rcases hs : add F (F.T.wrap (x * x / 2 ^ F.f)) (F.T.wrap (y * y / 2 ^ F.f)) with s | u | e
    · have hS : Storable F s := by
        rw [add_nf hF sx sy] at hs
        split at hs
        · cases hs
        · cases hs; exact IntTy.wrap_inRange _ hb
      rw [Res.bind_ok, Res.bind_ok, add_nf hF hS z0, add_zero, if_neg (fun c => c.2 hS), IntTy.wrap_of_inRange hb hS, Res.bind_ok]
    · rfl
    · rfl
  · unfold hypot3
    rw [ex, ey, ez, Res.bind_ok, Res.bind_ok, Res.bind_ok, Res.bind_ok]
    rcases hc with hs | hfit
    · have nf : ∀ {a b : Int}, F.T.InRange a → F.T.InRange b → add F a b = .ok (F.T.wrap (a + b)) := by
        intro a b ha hb'; rw [add_nf hF ha hb', if_neg (fun c => hs c.1)]
      rw [nf sx sy, nf sx sz, Res.bind_ok, Res.bind_ok, Res.bind_ok, Res.bind_ok, nf (IntTy.wrap_inRange _ hb) sz, nf (IntTy.wrap_inRange _ hb) sy,
        wrap_sum3, wrap_sum3, add_right_comm]
    · have hq : (0 : ℚ) < 2 ^ F.f := by positivity
      have hp : (0 : Int) < 2 ^ F.f := by positivity
      have fl : ∀ w : Int, 0 ≤ w * w / 2 ^ F.f ∧ val F (w * w / 2 ^ F.f) ≤ val F w ^ 2 := by
        intro w
        refine ⟨Int.ediv_nonneg (mul_self_nonneg w) hp.le, ?_⟩
        have h1 : (w * w / 2 ^ F.f) * 2 ^ F.f ≤ w * w := Int.ediv_mul_le _ hp.ne'
        unfold val
        rw [div_pow, div_le_div_iff₀ hq (by positivity)]
        have h2 : ((w * w / 2 ^ F.f : Int) : ℚ) * 2 ^ F.f ≤ w * w := by exact_mod_cast h1
        nlinarith
      obtain ⟨x0, x1⟩ := fl x; obtain ⟨y0, y1⟩ := fl y; obtain ⟨z0', z1⟩ := fl z
      have hsum : x * x / 2 ^ F.f + y * y / 2 ^ F.f + z * z / 2 ^ F.f ≤ F.T.hi := by
        rw [← val_le (F := F), val_add, val_add]; linarith
      generalize x * x / 2 ^ F.f = a at *
      generalize y * y / 2 ^ F.f = b at *
      generalize z * z / 2 ^ F.f = c at *
      have A : F.T.InRange a := ⟨by omega, by omega⟩
      have B : F.T.InRange b := ⟨by omega, by omega⟩
      have C : F.T.InRange c := ⟨by omega, by omega⟩
      have ad : ∀ {m n : Int}, F.T.InRange m → F.T.InRange n → F.T.InRange (m + n) → add F m n = .ok (m + n) := by
        intro m n hm hn hmn
        rw [add_nf hF hm hn, if_neg (fun c => c.2 hmn), IntTy.wrap_of_inRange hb hmn]
      have AB : F.T.InRange (a + b) := ⟨by omega, by omega⟩
      have AC : F.T.InRange (a + c) := ⟨by omega, by omega⟩
      have ABC : F.T.InRange (a + b + c) := ⟨by omega, by omega⟩
      have ACB : F.T.InRange (a + c + b) := ⟨by omega, by omega⟩
      rw [IntTy.wrap_of_inRange hb A, IntTy.wrap_of_inRange hb B, IntTy.wrap_of_inRange hb C, ad A B AB, ad A C AC, Res.bind_ok, Res.bind_ok, Res.bind_ok,
        Res.bind_ok, ad AB C ABC, ad AC B ACB, add_right_comm]
example : Storable fixed32 (3 * 65536) ∧ hypot3 fixed32 (2 * 65536) (3 * 65536) (6 * 65536) = .ok (7 * 65536) ∧
    val fixed32 (2 * 65536) ^ 2 + val fixed32 (3 * 65536) ^ 2 + val fixed32 (6 * 65536) ^ 2 ≤ val fixed32 fixed32.T.hi := by
  refine ⟨by decide, by decide +kernel, ?_⟩
  have : fixed32.T.hi = 2147483647 := by decide
  rw [this]; norm_num [val, fixed32]

/-- C170: signs never matter, on every layout, even where the result is undefined or wraps. -/
theorem C170_signs (F : FxTy) (hF : F.Valid) (hr : F.r = false) (x y z : Int) (hx : Storable F x) (hy : Storable F y) (hz : Storable F z)
    (nx : Storable F (-x)) (ny : Storable F (-y)) (nz : Storable F (-z)) :
    hypot F (-x) y = hypot F x y ∧ hypot F x (-y) = hypot F x y ∧ hypot3 F (-x) y z = hypot3 F x y z ∧ hypot3 F x (-y) z = hypot3 F x y z ∧
      hypot3 F x y (-z) = hypot3 F x y z := by
  have key : ∀ w, Storable F w → Storable F (-w) → mul F (-w) (-w) = mul F w w := by
    intro w hw hw'
    rw [mul_nf hF hr hw' hw', mul_nf hF hr hw hw, neg_mul_neg]
  unfold hypot hypot3
  rw [key x hx nx, key y hy ny, key z hz nz]
  exact ⟨rfl, rfl, rfl, rfl, rfl⟩
example : hypot ⟨i16, i32, 8, false⟩ (-768) 1024 = .ok 1280 ∧ hypot ⟨i16, i32, 8, false⟩ 768 (-1024) = .ok 1280 := by decide +kernel

end Eirin.Props
