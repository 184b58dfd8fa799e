import Verif.Props.Arith
import Mathlib.Data.List.Perm.Basic
import Mathlib.Algebra.BigOperators.Group.List.Basic
import Mathlib.Data.Rat.BigOperators

/-! # Property C154: sums of many numbers

A program that adds up a list of numbers with `+=` is right as soon as the total is, on the layouts whose addition is modular; on the others
it is defined exactly when every partial sum is storable. -/

namespace Eirin.Props
open Spec

/-- `for(auto x : xs) s += x;` -/
def sumFrom (F : FxTy) : Int → List Int → Res Int
  | s, [] => .ok s
  | s, x :: xs => (addAssign F s x).bind fun s' => sumFrom F s' xs

/-- The exact total. -/
def total (F : FxTy) (s : Int) (xs : List Int) : ℚ := val F s + (xs.map (val F)).sum

theorem total_eq (F : FxTy) (s : Int) (xs : List Int) : total F s xs = val F (s + xs.sum) := by
  unfold total
  induction xs generalizing s with
  | nil => simp [val]
  | cons x xs ih =>
    have := ih x
    simp only [List.map_cons, List.sum_cons]
    rw [val_add, this]

theorem isWrap_exact {F : FxTy} (hF : F.Valid) {n z : Int} (hz : IsWrap F n z) (h : Representable F (val F n)) : val F z = val F n := by
  rw [representable_iff] at h
  have h' : IsWrap F n n := ⟨h, ⟨0, by ring⟩⟩
  rw [isWrap_unique hF.tpos hz h']

/-- C154: on unsigned and narrow layouts the sum is always defined and congruent to the exact sum; when the total is representable the result
is the total, whatever the partial sums were. -/
theorem C154_modular (F : FxTy) (hF : F.Valid) (hs : ¬ SignedWide F) (xs : List Int) (hxs : ∀ x ∈ xs, Storable F x) (s : Int) (h0 : Storable F s) :
    ∃ z, sumFrom F s xs = .ok z ∧ IsWrap F (s + xs.sum) z ∧ (Representable F (total F s xs) → val F z = total F s xs) := by
  have key : ∃ z, sumFrom F s xs = .ok z ∧ IsWrap F (s + xs.sum) z := by
    induction xs generalizing s with
    | nil => exact ⟨s, rfl, h0, ⟨0, by simp⟩⟩
    | cons x xs ih =>
      obtain ⟨⟨z, e, hz⟩, -⟩ := C01_modular F hF hs s x h0 (hxs x (by simp))
      obtain ⟨w, ew, hw⟩ := ih (fun y hy => hxs y (by simp [hy])) z hz.1
      refine ⟨w, ?_, hw.1, ?_⟩
      · unfold sumFrom
        rw [show addAssign F s x = add F s x from rfl, e]
        exact ew
      · have := dvd_add hw.2 hz.2
        rw [List.sum_cons, show s + (x + xs.sum) - w = z + xs.sum - w + (s + x - z) by ring]
        exact this
  obtain ⟨z, e, hz⟩ := key
  refine ⟨z, e, hz, fun h => ?_⟩
  rw [total_eq] at h ⊢
  exact isWrap_exact hF hz h

-- three partial sums out of range, total in range
example : (let F : FxTy := ⟨⟨8, true⟩, ⟨16, true⟩, 4, false⟩; F.Valid ∧ ¬ SignedWide F ∧ sumFrom F 100 [100, 100, -90, -120] = .ok 90) ∧
    sumFrom ⟨u32, u64, 16, false⟩ 5 [2 ^ 32 - 1, 2 ^ 32 - 3] = .ok 1 := by unfold SignedWide; decide +kernel

/-- C154: on signed layouts of 32 and 64 bits the sum is defined exactly when every partial sum is representable, and then exact. -/
theorem C154_wide (F : FxTy) (hF : F.Valid) (hs : SignedWide F) (xs : List Int) (hxs : ∀ x ∈ xs, Storable F x) (s : Int) (h0 : Storable F s) :
    ((∀ ys, ys <+: xs → Representable F (total F s ys)) → ∃ z, sumFrom F s xs = .ok z ∧ val F z = total F s xs) ∧
    ((∃ ys, ys <+: xs ∧ ¬ Representable F (total F s ys)) → sumFrom F s xs = .ub .overflow) := by
  simp only [total_eq]
  induction xs generalizing s with
  | nil =>
    refine ⟨fun _ => ⟨s, rfl, by simp⟩, ?_⟩
    rintro ⟨ys, hy, hn⟩
    rw [List.prefix_nil.1 hy] at hn
    exact absurd ⟨s, h0, by simp⟩ hn
  | cons x xs ih =>
    obtain ⟨a1, a2⟩ := C01_add_exact_or_ub F hF hs s x h0 (hxs x (by simp))
    have hrec : ∀ z, add F s x = .ok z → sumFrom F s (x :: xs) = sumFrom F z xs := by
      intro z hz
      rw [sumFrom, show addAssign F s x = add F s x from rfl, hz]; rfl
    have hz' : ∀ z, val F z = val F s + val F x → z = s + x := by
      intro z hz; apply val_inj (F := F); rw [hz, val_add]
    constructor
    · intro h
      have h1 := h [x] (by simp)
      simp only [List.sum_cons, List.sum_nil, add_zero, val_add] at h1
      obtain ⟨z, e, hz, hv⟩ := a1 h1
      have hzz := hz' z hv
      obtain ⟨w, ew, hw⟩ := (ih (fun y hy => hxs y (by simp [hy])) z hz).1 (fun ys hy => by
        have := h (x :: ys) (by simpa using hy)
        rw [List.sum_cons] at this
        rw [hzz, add_assoc]; exact this)
      refine ⟨w, by rw [hrec z e, ew], ?_⟩
      rw [hw, hzz, List.sum_cons, add_assoc]
    · rintro ⟨ys, hy, hn⟩
      by_cases h1 : Representable F (val F s + val F x)
      · obtain ⟨z, e, hz, hv⟩ := a1 h1
        have hzz := hz' z hv
        rw [hrec z e]
        apply (ih (fun y hy => hxs y (by simp [hy])) z hz).2
        cases ys with
        | nil => exact absurd ⟨s, h0, by simp⟩ hn
        | cons y ys =>
          obtain ⟨rfl, hp⟩ := List.cons_prefix_cons.1 hy
          refine ⟨ys, hp, ?_⟩
          rw [List.sum_cons] at hn
          rw [hzz, add_assoc]; exact hn
      · rw [sumFrom, show addAssign F s x = add F s x from rfl, a2 h1]; rfl

example : SignedWide fixed32 ∧ sumFrom fixed32 (2 ^ 31 - 1) [-5, 5] = .ok (2 ^ 31 - 1) ∧ sumFrom fixed32 (2 ^ 31 - 1) [5, -5] = .ub .overflow := by
  unfold SignedWide; decide +kernel

theorem sumFrom_val (F : FxTy) (hF : F.Valid) (xs : List Int) (hxs : ∀ x ∈ xs, Storable F x) (s z : Int) (h0 : Storable F s)
    (h : sumFrom F s xs = .ok z) : IsWrap F (s + xs.sum) z := by
  by_cases hs : SignedWide F
  · obtain ⟨h1, h2⟩ := C154_wide F hF hs xs hxs s h0
    by_cases hp : ∀ ys, ys <+: xs → Representable F (total F s ys)
    · obtain ⟨w, e, hw⟩ := h1 hp
      rw [h] at e; cases e
      have hr := hp xs List.prefix_rfl
      rw [total_eq] at hw hr
      have hz := val_inj hw
      rw [representable_iff] at hr
      rw [hz]
      exact ⟨hr, ⟨0, by ring⟩⟩
    · push Not at hp
      rw [h2 hp] at h; cases h
  · obtain ⟨w, e, hw, -⟩ := C154_modular F hF hs xs hxs s h0
    rw [h] at e; cases e
    exact hw

/-- C154: the order of the summands does not matter: two orders with defined results give the same result.  On unsigned and narrow layouts both
are defined (`C154_modular`). -/
theorem C154_order (F : FxTy) (hF : F.Valid) (xs ys : List Int) (hp : xs.Perm ys) (hxs : ∀ x ∈ xs, Storable F x) (s z w : Int) (h0 : Storable F s)
    (h1 : sumFrom F s xs = .ok z) (h2 : sumFrom F s ys = .ok w) : z = w := by
  have a := sumFrom_val F hF xs hxs s z h0 h1
  have b := sumFrom_val F hF ys (fun y hy => hxs y (hp.mem_iff.2 hy)) s w h0 h2
  rw [← hp.sum_eq] at b
  exact isWrap_unique hF.tpos a b

example : sumFrom fixed32 0 [7, -9, 2 ^ 31 - 1] = .ok (2 ^ 31 - 3) ∧ sumFrom fixed32 0 [-9, 2 ^ 31 - 1, 7] = .ok (2 ^ 31 - 3) ∧
    [7, -9, 2 ^ 31 - 1].Perm [-9, 2 ^ 31 - 1, (7 : Int)] := by decide +kernel

/-- C154: negation on unsigned and narrow layouts: always defined, its own inverse, and the inverse of addition; it denotes the negative number
exactly when that is representable. -/
theorem C154_neg (F : FxTy) (hF : F.Valid) (hs : ¬ SignedWide F) (x : Int) (hx : Storable F x) :
    ∃ z, neg F x = .ok z ∧ IsWrap F (-x) z ∧ neg F z = .ok x ∧ add F x z = .ok 0 ∧ sub F 0 x = .ok z ∧
      (val F z = - val F x ↔ Representable F (- val F x)) := by
  have hz := isWrap_wrap hF (-x)
  have h0 : Storable F 0 := ⟨by unfold IntTy.lo; split <;> simp, by
    have : (0 : Int) ≤ F.T.hi := by
      unfold IntTy.hi; split
      · have : (0 : Int) < 2 ^ (F.T.bits - 1) := by positivity
        omega
      · have : (0 : Int) < 2 ^ F.T.bits := by positivity
        omega
    exact this⟩
  have n1 : ∀ y, F.T.InRange y → neg F y = .ok (F.T.wrap (-y)) := by
    intro y hy; rw [neg_nf hF hy, if_neg (fun h => hs h.1)]
  refine ⟨F.T.wrap (-x), n1 x hx, hz, ?_, ?_, ?_, ?_⟩
  · rw [n1 _ hz.1]
    congr 1
    apply isWrap_unique hF.tpos (isWrap_wrap hF _)
    refine ⟨hx, ?_⟩
    have := hz.2
    convert this using 1; ring
  · rw [add_nf hF hx hz.1, if_neg (fun h => hs h.1)]
    congr 1
    apply isWrap_unique hF.tpos (isWrap_wrap hF _)
    refine ⟨h0, ?_⟩
    have := (dvd_neg.2 hz.2)
    rw [show x + F.T.wrap (-x) - 0 = -(-x - F.T.wrap (-x)) by ring]
    exact this
  · rw [sub_nf hF h0 hx, if_neg (fun h => hs h.1), zero_sub]
  · have e : - val F x = val F (-x) := by unfold val; push_cast; ring
    rw [e]
    constructor
    · intro h; exact ⟨_, hz.1, h⟩
    · intro h; exact isWrap_exact hF hz h

-- the minimum of 8-bit storage is its own negative
example : neg ⟨⟨8, true⟩, ⟨16, true⟩, 4, false⟩ (-128) = .ok (-128) ∧ neg ⟨⟨8, true⟩, ⟨16, true⟩, 4, false⟩ (-127) = .ok 127 ∧
    neg ⟨u32, u64, 16, false⟩ 1 = .ok (2 ^ 32 - 1) := by decide +kernel

end Eirin.Props
