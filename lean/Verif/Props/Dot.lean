import Verif.Props.Sums

/-! # Property C189: scalar products and polynomials -/

namespace Eirin.Props
open Spec

/-- The loop `for(...) acc += x[i] * y[i];` over two arrays. -/
def dotFrom (F : FxTy) : Int → List (Int × Int) → Res Int
  | a, [] => .ok a
  | a, (x, y) :: t => do
    let p ← mul F x y
    let s ← addAssign F a p
    dotFrom F s t

/-- The loop `for(...) acc = acc * x + c[i];` (Horner's scheme). -/
def hornerFrom (F : FxTy) (x : Int) : Int → List Int → Res Int
  | a, [] => .ok a
  | a, c :: t => do
    let p ← mul F a x
    let s ← add F p c
    hornerFrom F x s t

/-- The exact scalar product. -/
def exactDot (F : FxTy) (l : List (Int × Int)) : ℚ := (l.map fun q => val F q.1 * val F q.2).sum

/-- The exact scalar product of the absolute values. -/
def exactAbsDot (F : FxTy) (l : List (Int × Int)) : ℚ := (l.map fun q => |val F q.1 * val F q.2|).sum

/-- The exact value of the polynomial with leading coefficient `a` and the remaining coefficients in falling order. -/
def exactHorner (F : FxTy) (x : ℚ) : ℚ → List Int → ℚ
  | a, [] => a
  | a, c :: t => exactHorner F x (a * x + val F c) t

/-- A value in the symmetric range is storable, if it is not negative in an unsigned type. -/
theorem storable_of_abs {F : FxTy} {n : Int} (h : |val F n| ≤ val F F.T.hi) (h0 : F.T.signed = false → 0 ≤ n) : Storable F n := by
  obtain ⟨h1, h2⟩ := abs_le.1 h
  rw [val_le] at h2
  rw [← val_neg, val_le] at h1
  refine ⟨?_, h2⟩
  cases hs : F.T.signed
  · unfold IntTy.lo; rw [hs]; simpa using h0 hs
  · have : F.T.lo ≤ -F.T.hi := by unfold IntTy.lo IntTy.hi; rw [hs]; simp
    omega

theorem storable_unsigned {F : FxTy} {n : Int} (h : Storable F n) (hs : F.T.signed = false) : 0 ≤ n := by
  have := h.1
  unfold IntTy.lo at this; rw [hs] at this; simpa using this

/-- A product that fits. -/
theorem mul_fit {F : FxTy} (hF : F.Valid) (hr : F.r = false) {x y : Int} (hx : Storable F x) (hy : Storable F y)
    (hfit : |val F x * val F y| + ulp F ≤ val F F.T.hi) :
    ∃ p, mul F x y = .ok p ∧ Storable F p ∧ val F p ≤ val F x * val F y ∧ val F x * val F y < val F p + ulp F := by
  obtain ⟨z, n, e, ⟨h1, h2⟩, -, h4⟩ := C02_mul_floor F hF hr x y hx hy
  have hu := ulp_pos F
  have a := abs_le.1 (show |val F x * val F y| ≤ val F F.T.hi - ulp F by linarith)
  have hn : Storable F n := by
    refine storable_of_abs (abs_le.2 ⟨by linarith [a.1], by linarith [a.2]⟩) fun hs => ?_
    have x0 : 0 ≤ val F x := by rw [← val_zero F, val_le]; exact storable_unsigned hx hs
    have y0 : 0 ≤ val F y := by rw [← val_zero F, val_le]; exact storable_unsigned hy hs
    have : val F (-1) < val F n := by rw [val_neg, val_one]; nlinarith [mul_nonneg x0 y0]
    rw [val_lt] at this
    omega
  have := h4 hn
  subst this
  exact ⟨z, e, hn, h1, h2⟩

/-- A sum that fits. -/
theorem add_fit {F : FxTy} (hF : F.Valid) {x y : Int} (hx : Storable F x) (hy : Storable F y) (hfit : |val F x + val F y| ≤ val F F.T.hi) :
    add F x y = .ok (x + y) ∧ Storable F (x + y) := by
  have hS : Storable F (x + y) := storable_of_abs (by rwa [val_add]) fun hs => by
    have := storable_unsigned hx hs
    have := storable_unsigned hy hs
    omega
  exact ⟨by rw [add_nf hF hx hy, if_neg (fun h => h.2 hS), IntTy.wrap_of_inRange hF.tpos hS], hS⟩

/-- C189: on every non-rounding layout the scalar product of two arrays of any length is defined, never too large, and too small by at most one
ulp per product, provided that the absolute values of the products add up to a number that fits. -/
theorem C189_dot (F : FxTy) (hF : F.Valid) (hr : F.r = false) (l : List (Int × Int)) (hl : ∀ q ∈ l, Storable F q.1 ∧ Storable F q.2) (a : Int)
    (ha : Storable F a) (hfit : |val F a| + exactAbsDot F l + l.length * ulp F ≤ val F F.T.hi) :
    ∃ r, dotFrom F a l = .ok r ∧ Storable F r ∧ val F r ≤ val F a + exactDot F l ∧ val F a + exactDot F l - l.length * ulp F ≤ val F r := by
  have hu := ulp_pos F
  induction l generalizing a with
  | nil => exact ⟨a, rfl, ha, by simp [exactDot], by simp [exactDot]⟩
  | cons q t ih =>
    obtain ⟨x, y⟩ := q
    obtain ⟨hx, hy⟩ := hl (x, y) (by simp)
    have ea : exactAbsDot F ((x, y) :: t) = |val F x * val F y| + exactAbsDot F t := by simp [exactAbsDot]
    have ed : exactDot F ((x, y) :: t) = val F x * val F y + exactDot F t := by simp [exactDot]
    have hn : 0 ≤ exactAbsDot F t := by
      refine List.sum_nonneg fun v hv => ?_
      obtain ⟨w, -, rfl⟩ := List.mem_map.1 hv
      exact abs_nonneg _
    have hlen : ((((x, y) :: t).length : Nat) : ℚ) = t.length + 1 := by simp
    have htu : 0 ≤ (t.length : ℚ) * ulp F := by positivity
    rw [ea, hlen, add_mul, one_mul] at hfit
    have h0 := abs_nonneg (val F a)
    obtain ⟨p, ep, sp, p1, p2⟩ := mul_fit hF hr hx hy (by linarith)
    have hp : |val F p| ≤ |val F x * val F y| + ulp F := by
      have := abs_le.1 (le_refl |val F x * val F y|)
      rw [abs_le]; constructor <;> linarith [this.1, this.2]
    have hs := abs_add_le (val F a) (val F p)
    obtain ⟨es, ss⟩ := add_fit hF ha sp (by linarith)
    obtain ⟨r, er, sr, r1, r2⟩ := ih (fun q hq => hl q (by simp [hq])) (a + p) ss (by rw [val_add]; linarith)
    rw [val_add] at r1 r2
    refine ⟨r, ?_, sr, by rw [ed]; linarith, by rw [ed, hlen]; linarith⟩
    unfold dotFrom
    rw [ep, Res.bind_ok, show addAssign F a p = add F a p from rfl, es, Res.bind_ok, er]

example : dotFrom fixed32 0 [(98304, 131072), (-65536, 32768), (3, 5)] = .ok 163840 ∧ dotFrom ⟨u8, u16, 4, false⟩ 0 [(5, 5), (9, 9)] = .ok 6 ∧
    |val fixed32 0| + exactAbsDot fixed32 [(98304, 131072), (-65536, 32768)] + ([(98304, 131072), (-65536, 32768)] : List (Int × Int)).length * ulp fixed32
      ≤ val fixed32 fixed32.T.hi := by
  refine ⟨by decide +kernel, by decide +kernel, ?_⟩
  norm_num [exactAbsDot, val, ulp, fixed32, IntTy.hi, i32]

/-- C189: on every non-rounding layout Horner's scheme with any number of coefficients at an argument of absolute value at most one is defined and
within one ulp per step of the polynomial, provided that the absolute values of the coefficients add up to a number that fits. -/
theorem C189_horner (F : FxTy) (hF : F.Valid) (hr : F.r = false) (x : Int) (hx : Storable F x) (h1 : |val F x| ≤ 1) (cs : List Int)
    (hc : ∀ c ∈ cs, Storable F c) (a : Int) (ha : Storable F a)
    (hfit : |val F a| + (cs.map fun c => |val F c|).sum + cs.length * ulp F ≤ val F F.T.hi) :
    ∃ r, hornerFrom F x a cs = .ok r ∧ Storable F r ∧ |val F r - exactHorner F (val F x) (val F a) cs| ≤ cs.length * ulp F := by
  have hu := ulp_pos F
  have gen : ∀ (cs : List Int) (a : Int) (q e : ℚ), (∀ c ∈ cs, Storable F c) → Storable F a →
      |val F a| + (cs.map fun c => |val F c|).sum + cs.length * ulp F ≤ val F F.T.hi → |val F a - q| ≤ e →
      ∃ r, hornerFrom F x a cs = .ok r ∧ Storable F r ∧ |val F r - exactHorner F (val F x) q cs| ≤ e + cs.length * ulp F := by
    intro cs
    induction cs with
    | nil => intro a q e _ ha _ he; exact ⟨a, rfl, ha, by simpa [exactHorner] using he⟩
    | cons c t ih =>
      intro a q e hc ha hfit he
      have sc := hc c (by simp)
      have hlen : (((c :: t).length : Nat) : ℚ) = t.length + 1 := by simp
      have htu : 0 ≤ (t.length : ℚ) * ulp F := by positivity
      rw [List.map_cons, List.sum_cons, hlen, add_mul, one_mul] at hfit
      have hn : 0 ≤ (t.map fun c => |val F c|).sum := by
        refine List.sum_nonneg fun v hv => ?_
        obtain ⟨w, -, rfl⟩ := List.mem_map.1 hv
        exact abs_nonneg _
      have c0 := abs_nonneg (val F c)
      have hax : |val F a * val F x| ≤ |val F a| := by
        rw [abs_mul]; exact mul_le_of_le_one_right (abs_nonneg _) h1
      obtain ⟨p, ep, sp, p1, p2⟩ := mul_fit hF hr ha hx (by linarith)
      have hp : |val F p| ≤ |val F a| + ulp F := by
        have := abs_le.1 hax
        rw [abs_le]; constructor <;> linarith [this.1, this.2]
      have hs := abs_add_le (val F p) (val F c)
      obtain ⟨es, ss⟩ := add_fit hF sp sc (by linarith)
      have he' : |val F (p + c) - (q * val F x + val F c)| ≤ e + ulp F := by
        have e1 : val F (p + c) - (q * val F x + val F c) = (val F p - val F a * val F x) + (val F a - q) * val F x := by rw [val_add]; ring
        rw [e1]
        refine (abs_add_le _ _).trans ?_
        have a1 : |val F p - val F a * val F x| ≤ ulp F := by rw [abs_le]; constructor <;> linarith
        have a2 : |(val F a - q) * val F x| ≤ e := by
          rw [abs_mul]; exact (mul_le_of_le_one_right (abs_nonneg _) h1).trans he
        linarith
      obtain ⟨r, er, sr, r1⟩ := ih (p + c) (q * val F x + val F c) (e + ulp F) (fun d hd => hc d (by simp [hd])) ss
        (by rw [val_add]; linarith) he'
      refine ⟨r, ?_, sr, ?_⟩
      · unfold hornerFrom
        rw [ep, Res.bind_ok, es, Res.bind_ok, er]
      · unfold exactHorner
        rw [hlen]; linarith
  obtain ⟨r, er, sr, h⟩ := gen cs a (val F a) 0 hc ha hfit (by simp)
  exact ⟨r, er, sr, by simpa using h⟩

example : hornerFrom fixed32 32768 65536 [-65536, 131072, 3] = .ok 57347 ∧ |val fixed32 32768| ≤ 1 ∧
    |val fixed32 65536| + (([-65536, 131072, 3] : List Int).map fun c => |val fixed32 c|).sum + ([-65536, 131072, 3] : List Int).length * ulp fixed32
      ≤ val fixed32 fixed32.T.hi := by
  refine ⟨by decide +kernel, by norm_num [val, fixed32], ?_⟩
  norm_num [val, ulp, fixed32, IntTy.hi, i32]

/-- C189: the bound on the number of ulps cannot be improved: products of one ulp with the number just below one each lose all but a
65536th of an ulp. -/
theorem C189_loss (n : Nat) : dotFrom fixed32 0 (List.replicate n (1, 65535)) = .ok 0 ∧
    exactDot fixed32 (List.replicate n (1, 65535)) = n * (65535 / 65536) * ulp fixed32 := by
  constructor
  · induction n with
    | zero => rfl
    | succ n ih =>
      rw [List.replicate_succ]
      unfold dotFrom
      rw [show mul fixed32 1 65535 = .ok 0 by decide +kernel, Res.bind_ok, show addAssign fixed32 0 0 = .ok 0 by decide +kernel, Res.bind_ok, ih]
  · unfold exactDot
    rw [List.map_replicate, List.sum_replicate, nsmul_eq_mul]
    norm_num [val, ulp, fixed32]
    ring

end Eirin.Props
