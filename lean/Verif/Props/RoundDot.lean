import Verif.Props.Dot
import Verif.Props.RoundingFlag

/-! # Property C195: scalar products and polynomials of rounding types -/

namespace Eirin.Props
open Spec

/-- C195 as one would expect it: the scalar product of a rounding type is within one ulp per product of the exact one, and Horner's scheme within one
ulp per step of the polynomial. -/
def C195_statement : Prop :=
  ∀ F : FxTy, F.Valid → F.r = true →
    (∀ (l : List (Int × Int)) (a : Int), (∀ q ∈ l, Storable F q.1 ∧ Storable F q.2) → Storable F a →
      |val F a| + 2 * exactAbsDot F l + l.length * ulp F ≤ val F F.T.hi →
      ∃ r, dotFrom F a l = .ok r ∧ |val F r - (val F a + exactDot F l)| ≤ l.length * ulp F) ∧
    (∀ (x : Int) (cs : List Int) (a : Int), Storable F x → |val F x| ≤ 1 / 2 → (∀ c ∈ cs, Storable F c) → Storable F a →
      |val F a| + (cs.map fun c => |val F c|).sum + cs.length * ulp F ≤ val F F.T.hi →
      ∃ r, hornerFrom F x a cs = .ok r ∧ |val F r - exactHorner F (val F x) (val F a) cs| ≤ cs.length * ulp F)

/-- A product of a rounding type that fits: within one ulp of twice the product. -/
theorem mul_fit_r {F : FxTy} (hF : F.Valid) (hr : F.r = true) {x y : Int} (hx : Storable F x) (hy : Storable F y)
    (hfit : 2 * |val F x * val F y| + ulp F ≤ val F F.T.hi) :
    ∃ p, mul F x y = .ok p ∧ Storable F p ∧ |val F p - 2 * (val F x * val F y)| ≤ ulp F := by
  obtain ⟨z, n, e, h1, hw⟩ := C05_mul_partial F hF hr x y hx hy
  have hu := ulp_pos F
  obtain ⟨n1, n2⟩ := abs_le.1 h1.1
  obtain ⟨a1, a2⟩ := abs_le.1 (le_refl |val F x * val F y|)
  have v2 : val F (2 * n) = 2 * val F n := by rw [two_mul, val_add, two_mul]
  have hS : Storable F (2 * n) := by
    refine storable_of_abs (by rw [v2, abs_le]; constructor <;> linarith) fun hs => ?_
    have x0 : 0 ≤ val F x := by rw [← val_zero F, val_le]; exact storable_unsigned hx hs
    have y0 : 0 ≤ val F y := by rw [← val_zero F, val_le]; exact storable_unsigned hy hs
    have : val F (-1) < val F n := by rw [val_neg, val_one]; nlinarith [mul_nonneg x0 y0]
    rw [val_lt] at this
    omega
  have ze : z = 2 * n := isWrap_unique hF.tpos hw ⟨hS, by simp⟩
  subst ze
  exact ⟨2 * n, e, hS, by rw [v2, abs_le]; constructor <;> linarith⟩

/-- C195 (what happens instead): the loop computes the start value plus *twice* the scalar product. -/
theorem C195_dot_partial (F : FxTy) (hF : F.Valid) (hr : F.r = true) (l : List (Int × Int)) (hl : ∀ q ∈ l, Storable F q.1 ∧ Storable F q.2) (a : Int)
    (ha : Storable F a) (hfit : |val F a| + 2 * exactAbsDot F l + l.length * ulp F ≤ val F F.T.hi) :
    ∃ r, dotFrom F a l = .ok r ∧ Storable F r ∧ |val F r - (val F a + 2 * exactDot F l)| ≤ l.length * ulp F := by
  have hu := ulp_pos F
  induction l generalizing a with
  | nil => exact ⟨a, rfl, ha, by simp [exactDot]⟩
  | cons q t ih =>
    obtain ⟨x, y⟩ := q
    obtain ⟨hx, hy⟩ := hl (x, y) (by simp)
    have ea : exactAbsDot F ((x, y) :: t) = |val F x * val F y| + exactAbsDot F t := by simp [exactAbsDot]
    have ed : exactDot F ((x, y) :: t) = val F x * val F y + exactDot F t := by simp [exactDot]
    have hn : 0 ≤ exactAbsDot F t := by
      refine List.sum_nonneg fun v hv => ?_
      obtain ⟨w, -, rfl⟩ := List.mem_map.1 hv
      exact abs_nonneg _
    have hlen : ((((x, y) :: t).length : Nat) : ℚ) = t.length + 1 := by simp
    have htu : 0 ≤ (t.length : ℚ) * ulp F := by positivity
    rw [ea, hlen, add_mul, one_mul] at hfit
    have h0 := abs_nonneg (val F a)
    obtain ⟨p, ep, sp, p1⟩ := mul_fit_r hF hr hx hy (by linarith)
    obtain ⟨p2, p3⟩ := abs_le.1 p1
    have hp : |val F p| ≤ 2 * |val F x * val F y| + ulp F := by
      have := abs_le.1 (le_refl |val F x * val F y|)
      rw [abs_le]; constructor <;> linarith [this.1, this.2]
    have hs := abs_add_le (val F a) (val F p)
    obtain ⟨es, ss⟩ := add_fit hF ha sp (by linarith)
    obtain ⟨r, er, sr, r1⟩ := ih (fun q hq => hl q (by simp [hq])) (a + p) ss (by rw [val_add]; linarith)
    rw [val_add, abs_le] at r1
    refine ⟨r, ?_, sr, by rw [ed, hlen, abs_le]; constructor <;> linarith [r1.1, r1.2]⟩
    unfold dotFrom
    rw [ep, Res.bind_ok, show addAssign F a p = add F a p from rfl, es, Res.bind_ok, er]

/-- C195 (what happens instead): Horner's scheme evaluates the polynomial at *twice* the argument. -/
theorem C195_horner_partial (F : FxTy) (hF : F.Valid) (hr : F.r = true) (x : Int) (hx : Storable F x) (h1 : |val F x| ≤ 1 / 2) (cs : List Int)
    (hc : ∀ c ∈ cs, Storable F c) (a : Int) (ha : Storable F a)
    (hfit : |val F a| + (cs.map fun c => |val F c|).sum + cs.length * ulp F ≤ val F F.T.hi) :
    ∃ r, hornerFrom F x a cs = .ok r ∧ Storable F r ∧ |val F r - exactHorner F (2 * val F x) (val F a) cs| ≤ cs.length * ulp F := by
  have hu := ulp_pos F
  have h1' : |2 * val F x| ≤ 1 := by rw [abs_mul, abs_of_pos (by norm_num : (0 : ℚ) < 2)]; linarith
  have gen : ∀ (cs : List Int) (a : Int) (q e : ℚ), (∀ c ∈ cs, Storable F c) → Storable F a →
      |val F a| + (cs.map fun c => |val F c|).sum + cs.length * ulp F ≤ val F F.T.hi → |val F a - q| ≤ e →
      ∃ r, hornerFrom F x a cs = .ok r ∧ Storable F r ∧ |val F r - exactHorner F (2 * val F x) q cs| ≤ e + cs.length * ulp F := by
    intro cs
    induction cs with
    | nil => intro a q e _ ha _ he; exact ⟨a, rfl, ha, by simpa [exactHorner] using he⟩
    | cons c t ih =>
      intro a q e hc ha hfit he
      have sc := hc c (by simp)
      have hlen : (((c :: t).length : Nat) : ℚ) = t.length + 1 := by simp
      have htu : 0 ≤ (t.length : ℚ) * ulp F := by positivity
      rw [List.map_cons, List.sum_cons, hlen, add_mul, one_mul] at hfit
      have hn : 0 ≤ (t.map fun c => |val F c|).sum := by
        refine List.sum_nonneg fun v hv => ?_
        obtain ⟨w, -, rfl⟩ := List.mem_map.1 hv
        exact abs_nonneg _
      have c0 := abs_nonneg (val F c)
      have hax : |val F a * (2 * val F x)| ≤ |val F a| := by
        rw [abs_mul]; exact mul_le_of_le_one_right (abs_nonneg _) h1'
      have e2 : 2 * (val F a * val F x) = val F a * (2 * val F x) := by ring
      obtain ⟨p, ep, sp, p1⟩ := mul_fit_r hF hr ha hx (by
        rw [show 2 * |val F a * val F x| = |val F a * (2 * val F x)| by rw [← e2, abs_mul 2, abs_of_pos (by norm_num : (0 : ℚ) < 2)]]
        linarith)
      rw [e2] at p1
      have hp : |val F p| ≤ |val F a| + ulp F := by
        have := abs_le.1 hax
        have p2 := abs_le.1 p1
        rw [abs_le]; constructor <;> linarith [this.1, this.2, p2.1, p2.2]
      have hs := abs_add_le (val F p) (val F c)
      obtain ⟨es, ss⟩ := add_fit hF sp sc (by linarith)
      have he' : |val F (p + c) - (q * (2 * val F x) + val F c)| ≤ e + ulp F := by
        have e1 : val F (p + c) - (q * (2 * val F x) + val F c) = (val F p - val F a * (2 * val F x)) + (val F a - q) * (2 * val F x) := by
          rw [val_add]; ring
        rw [e1]
        refine (abs_add_le _ _).trans ?_
        have a2 : |(val F a - q) * (2 * val F x)| ≤ e := by
          rw [abs_mul]; exact (mul_le_of_le_one_right (abs_nonneg _) h1').trans he
        linarith
      obtain ⟨r, er, sr, r1⟩ := ih (p + c) (q * (2 * val F x) + val F c) (e + ulp F) (fun d hd => hc d (by simp [hd])) ss
        (by rw [val_add]; linarith) he'
      refine ⟨r, ?_, sr, ?_⟩
      · unfold hornerFrom
        rw [ep, Res.bind_ok, es, Res.bind_ok, er]
      · unfold exactHorner
        rw [hlen]; linarith
  obtain ⟨r, er, sr, h⟩ := gen cs a (val F a) 0 hc ha hfit (by simp)
  exact ⟨r, er, sr, by simpa using h⟩

theorem C195_false : ¬ C195_statement := by
  intro h
  obtain ⟨r, e, hr⟩ := (h fixed32r (by decide) rfl).1 [(65536, 65536)] 0 (by decide) (by decide)
    (by norm_num [exactAbsDot, val, ulp, fixed32r, IntTy.hi, i32])
  rw [show dotFrom fixed32r 0 [(65536, 65536)] = .ok 131072 by decide +kernel] at e
  cases e
  norm_num [exactDot, val, ulp, fixed32r] at hr

example : dotFrom fixed32r 0 [(98304, 131072), (-65536, 32768)] = .ok 327680 ∧ hornerFrom fixed32r 16384 65536 [-65536, 131072] = .ok 114688 ∧
    |val fixed32r 16384| ≤ 1 / 2 ∧
    |val fixed32r 0| + 2 * exactAbsDot fixed32r [(98304, 131072), (-65536, 32768)] +
      ([(98304, 131072), (-65536, 32768)] : List (Int × Int)).length * ulp fixed32r ≤ val fixed32r fixed32r.T.hi ∧
    |val fixed32r 65536| + (([-65536, 131072] : List Int).map fun c => |val fixed32r c|).sum + ([-65536, 131072] : List Int).length * ulp fixed32r
      ≤ val fixed32r fixed32r.T.hi := by
  refine ⟨by decide +kernel, by decide +kernel, ?_, ?_, ?_⟩
  · norm_num [val, fixed32r]
  · norm_num [exactAbsDot, val, ulp, fixed32r, IntTy.hi, i32]
  · norm_num [val, ulp, fixed32r, IntTy.hi, i32]

end Eirin.Props
