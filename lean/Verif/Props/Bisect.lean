import Verif.Props.Mean
import Verif.Props.CountLoop

/-! # Property C200: bisection -/

namespace Eirin.Props
open Spec

/-- `(lo + hi) / 2` -/
def midSum (F : FxTy) (lo hi : Int) : Res Int := do
  let s ← add F lo hi
  divInt F i32 s 2

/-- `lo + (hi - lo) / 2` -/
def midDiff (F : FxTy) (lo hi : Int) : Res Int := do
  let d ← sub F hi lo
  let e ← divInt F i32 d 2
  add F lo e

/-- `while(hi - lo > ulp) { m = mid(lo, hi); (p(m) ? hi : lo) = m; } return hi;` where `ulp` has the raw value one. A loop that would take more than
`fuel` tests is `.ub .diverges`. -/
def bisect (F : FxTy) (mid : Int → Int → Res Int) (p : Int → Bool) : Nat → Int → Int → Res Int
  | 0, _, _ => .ub .diverges
  | fuel + 1, lo, hi => do
    let d ← sub F hi lo
    if gt d 1 then do
      let m ← mid lo hi
      if p m then bisect F mid p fuel lo m else bisect F mid p fuel m hi
    else .ok hi

/-- What the caller wants: a place in the interval where the predicate becomes true, one ulp after a place where it is false. -/
def IsStep (F : FxTy) (p : Int → Bool) (lo hi r : Int) : Prop :=
  val F lo < val F r ∧ val F r ≤ val F hi ∧ p r = true ∧ ∃ q, val F q = val F r - ulp F ∧ p q = false

/-- C200 as one would expect it: bisection with the midpoint `(lo + hi) / 2` works on every interval whose length is storable. -/
def C200_statement : Prop :=
  ∀ (F : FxTy) (p : Int → Bool) (lo hi : Int) (k : Nat), F.Valid → Storable F lo → Storable F hi → Storable F (hi - lo) → lo < hi → hi - lo ≤ 2 ^ k →
    p lo = false → p hi = true → ∃ r, bisect F (midSum F) p (k + 1) lo hi = .ok r ∧ IsStep F p lo hi r

/-- A difference that is storable. -/
theorem sub_storable {F : FxTy} (hF : F.Valid) {x y : Int} (hx : Storable F x) (hy : Storable F y) (hs : Storable F (x - y)) :
    sub F x y = .ok (x - y) := by
  rw [sub_nf hF hx hy, if_neg fun h => h.2 hs]
  have h' : IsWrap F (x - y) (x - y) := ⟨hs, ⟨0, by simp⟩⟩
  rw [isWrap_unique hF.tpos (isWrap_wrap hF (x - y)) h']

theorem tdiv_two (s : Int) : (0 ≤ s → 0 ≤ Int.tdiv s 2 ∧ 2 * Int.tdiv s 2 ≤ s ∧ s ≤ 2 * Int.tdiv s 2 + 1) ∧
    (s ≤ 0 → Int.tdiv s 2 ≤ 0 ∧ s ≤ 2 * Int.tdiv s 2 ∧ 2 * Int.tdiv s 2 ≤ s + 1) := by
  constructor
  · intro h
    rw [Int.tdiv_eq_ediv_of_nonneg h]
    omega
  · intro h
    obtain ⟨t, rfl⟩ : ∃ t, s = -t := ⟨-s, by omega⟩
    rw [Int.neg_tdiv, Int.tdiv_eq_ediv_of_nonneg (by omega)]
    omega

/-- Half of a storable number. -/
theorem half_exact {F : FxTy} (hF : F.Valid) {x : Int} (hx : Storable F x) : divInt F i32 x 2 = .ok (Int.tdiv x 2) := by
  have ht : IsTrunc F (val F x / ((2 : Int) : ℚ)) (Int.tdiv x 2) := by
    have t := trunc_spec F x 2 (by norm_num)
    have : (x : ℚ) / ((2 : Int) : ℚ) / 2 ^ F.f = val F x / ((2 : Int) : ℚ) := by unfold val; field_simp
    rwa [this] at t
  have hlo : F.T.lo ≤ 0 := by unfold IntTy.lo; split <;> simp
  have hhi : 0 ≤ F.T.hi := by
    unfold IntTy.hi
    split
    · have : (0 : Int) < 2 ^ (F.T.bits - 1) := by positivity
      omega
    · have : (0 : Int) < 2 ^ F.T.bits := by positivity
      omega
  have hS : Storable F (Int.tdiv x 2) := by
    obtain ⟨a, b⟩ := hx
    have := tdiv_two x
    constructor <;> omega
  exact C150_div_partial F hF i32 (by unfold CInt; decide) x 2 _ hx (by decide) (by norm_num) hS ht (Or.inr (Or.inl rfl))

/-- The loop with any midpoint function that returns one of the numbers nearest to the middle, strictly inside. -/
theorem bisect_gen {F : FxTy} (hF : F.Valid) {mid : Int → Int → Res Int} {p : Int → Bool} {A B : Int} (hA : Storable F A) (hB : Storable F B)
    (hAB : Storable F (B - A))
    (hm : ∀ lo hi, A ≤ lo → hi ≤ B → lo + 1 < hi → ∃ m, mid lo hi = .ok m ∧ lo < m ∧ m < hi ∧ 2 * m ≤ lo + hi + 1 ∧ lo + hi - 1 ≤ 2 * m) (k : Nat)
    (lo hi : Int) (hl : A ≤ lo) (hh : hi ≤ B) (hlt : lo < hi) (hk : hi - lo ≤ 2 ^ k) (p0 : p lo = false) (p1 : p hi = true) :
    ∃ r, bisect F mid p (k + 1) lo hi = .ok r ∧ lo < r ∧ r ≤ hi ∧ p r = true ∧ p (r - 1) = false := by
  have z0 : F.T.lo ≤ 0 := by unfold IntTy.lo; split <;> simp
  have st : ∀ x, A ≤ x → x ≤ B → Storable F x := fun x a b => ⟨by have := hA.1; omega, by have := hB.2; omega⟩
  have sd : ∀ lo hi, A ≤ lo → hi ≤ B → lo ≤ hi → sub F hi lo = .ok (hi - lo) := fun lo hi a b c =>
    sub_storable hF (st _ (by omega) b) (st _ a (by omega)) ⟨by omega, by have := hAB.2; omega⟩
  have g : ∀ d : Int, gt d 1 = true ↔ 1 < d := fun d => gt_iff
  induction k generalizing lo hi with
  | zero =>
    refine ⟨hi, ?_, hlt, le_rfl, p1, ?_⟩
    · unfold bisect
      rw [sd lo hi hl hh hlt.le, Res.bind_ok, if_neg (by rw [g]; rw [pow_zero] at hk; omega)]
    · rw [pow_zero] at hk
      rw [show hi - 1 = lo by omega, p0]
  | succ k ih =>
    unfold bisect
    rw [sd lo hi hl hh hlt.le, Res.bind_ok]
    by_cases hd : 1 < hi - lo
    · rw [if_pos ((g _).2 hd)]
      obtain ⟨m, em, m1, m2, m3, m4⟩ := hm lo hi hl hh (by omega)
      rw [em, Res.bind_ok]
      rw [pow_succ] at hk
      by_cases hp : p m = true
      · rw [if_pos hp]
        obtain ⟨r, er, r1, r2, r3, r4⟩ := ih lo m hl (by omega) m1 (by omega) p0 hp
        exact ⟨r, er, r1, by omega, r3, r4⟩
      · rw [if_neg hp]
        obtain ⟨r, er, r1, r2, r3, r4⟩ := ih m hi (by omega) hh m2 (by omega) (by simpa using hp) p1
        exact ⟨r, er, by omega, r2, r3, r4⟩
    · rw [if_neg (by rw [g]; exact hd)]
      exact ⟨hi, rfl, hlt, le_rfl, p1, by rw [show hi - 1 = lo by omega, p0]⟩

theorem isStep_of {F : FxTy} {p : Int → Bool} {lo hi r : Int} (h1 : lo < r) (h2 : r ≤ hi) (h3 : p r = true) (h4 : p (r - 1) = false) :
    IsStep F p lo hi r := by
  refine ⟨by rwa [val_lt], by rwa [val_le], h3, r - 1, ?_, h4⟩
  rw [sub_eq_add_neg, val_add, val_neg, val_one]
  ring

/-- C200 (what holds): with the midpoint `(lo + hi) / 2` bisection finds a step of any predicate, exactly to the ulp, in at most `k` halvings of an
interval of `2 ^ k` ulps, if the doubles of both ends are storable. -/
theorem C200_sum_partial (F : FxTy) (p : Int → Bool) (lo hi : Int) (k : Nat) (hF : F.Valid) (hl : Storable F lo) (hh : Storable F hi)
    (hd : Storable F (hi - lo)) (hlt : lo < hi) (hk : hi - lo ≤ 2 ^ k) (p0 : p lo = false) (p1 : p hi = true)
    (h2l : Storable F (2 * lo)) (h2h : Storable F (2 * hi)) : ∃ r, bisect F (midSum F) p (k + 1) lo hi = .ok r ∧ IsStep F p lo hi r := by
  obtain ⟨r, e, r1, r2, r3, r4⟩ := bisect_gen hF hl hh hd (mid := midSum F) (p := p) (fun a b ha hb hab => by
    have sa : Storable F a := ⟨by have := hl.1; omega, by have := hh.2; omega⟩
    have sb : Storable F b := ⟨by have := hl.1; omega, by have := hh.2; omega⟩
    have ss : Storable F (a + b) := ⟨by have := h2l.1; omega, by have := h2h.2; omega⟩
    have := tdiv_two (a + b)
    refine ⟨Int.tdiv (a + b) 2, ?_, by omega, by omega, by omega, by omega⟩
    unfold midSum
    rw [show add F a b = addAssign F a b from rfl, addAssign_exact hF sa sb ss, Res.bind_ok, half_exact hF ss]) k lo hi le_rfl le_rfl hlt hk p0 p1
  exact ⟨r, e, isStep_of r1 r2 r3 r4⟩

/-- C200 (the remedy): with the midpoint `lo + (hi - lo) / 2` it works on every interval whose length is storable. -/
theorem C200_diff (F : FxTy) (p : Int → Bool) (lo hi : Int) (k : Nat) (hF : F.Valid) (hl : Storable F lo) (hh : Storable F hi)
    (hd : Storable F (hi - lo)) (hlt : lo < hi) (hk : hi - lo ≤ 2 ^ k) (p0 : p lo = false) (p1 : p hi = true) :
    ∃ r, bisect F (midDiff F) p (k + 1) lo hi = .ok r ∧ IsStep F p lo hi r := by
  have z0 : F.T.lo ≤ 0 := by unfold IntTy.lo; split <;> simp
  obtain ⟨r, e, r1, r2, r3, r4⟩ := bisect_gen hF hl hh hd (mid := midDiff F) (p := p) (fun a b ha hb hab => by
    have sa : Storable F a := ⟨by have := hl.1; omega, by have := hh.2; omega⟩
    have sb : Storable F b := ⟨by have := hl.1; omega, by have := hh.2; omega⟩
    have sd : Storable F (b - a) := ⟨by omega, by have := hd.2; omega⟩
    have := tdiv_two (b - a)
    have sh : Storable F (Int.tdiv (b - a) 2) := ⟨by omega, by have := hd.2; omega⟩
    have ss : Storable F (a + Int.tdiv (b - a) 2) := ⟨by have := hl.1; omega, by have := hh.2; omega⟩
    refine ⟨a + Int.tdiv (b - a) 2, ?_, by omega, by omega, by omega, by omega⟩
    unfold midDiff
    rw [sub_storable hF sb sa sd, Res.bind_ok, half_exact hF sd, Res.bind_ok, show ∀ e, add F a e = addAssign F a e from fun _ => rfl,
      addAssign_exact hF sa sh ss]) k lo hi le_rfl le_rfl hlt hk p0 p1
  exact ⟨r, e, isStep_of r1 r2 r3 r4⟩

example : bisect fixed32 (midSum fixed32) (fun x => (2 * 65536 * 65536 : Int) ≤ x * x) 18 65536 (2 * 65536) = .ok 92682 ∧
    bisect fixed32 (midDiff fixed32) (fun x => (30000 * 65536 : Int) ≤ x) 32 65536 (32000 * 65536) = .ok (30000 * 65536) := by decide +kernel

/-- C200 (what happens otherwise): on signed storage of at least 32 bits `(lo + hi) / 2` overflows in the first pass if the sum of the ends is not storable. -/
theorem C200_overflow (F : FxTy) (p : Int → Bool) (lo hi : Int) (fuel : Nat) (hF : F.Valid) (hw : SignedWide F) (hl : Storable F lo) (hh : Storable F hi)
    (hd : Storable F (hi - lo)) (h1 : 1 < hi - lo) (hs : ¬ Storable F (lo + hi)) : bisect F (midSum F) p (fuel + 1) lo hi = .ub .overflow := by
  unfold bisect
  rw [sub_storable hF hh hl hd, Res.bind_ok, if_pos (gt_iff.2 h1)]
  unfold midSum
  rw [add_nf hF hl hh, if_pos ⟨hw, hs⟩, Res.bind_ub, Res.bind_ub]

/-- C200 is false of the code: bisection of an interval around 20000 overflows on `fixed32`. -/
theorem C200_false : ¬ C200_statement := by
  intro h
  obtain ⟨r, e, -⟩ := h fixed32 (fun x => (20001 * 65536 : Int) ≤ x) (20000 * 65536) (20002 * 65536) 17 (by decide) (by decide) (by decide) (by decide)
    (by decide) (by decide) (by decide) (by decide)
  rw [C200_overflow fixed32 _ _ _ 17 (by decide) (by decide) (by decide) (by decide) (by decide) (by decide) (by decide)] at e
  cases e

end Eirin.Props
