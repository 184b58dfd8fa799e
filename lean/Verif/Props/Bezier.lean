import Verif.Props.Lerp
import Verif.Props.Smooth

/-! # Property C216: Bézier curves of any degree -/

namespace Eirin.Props
open Spec

/-- One level of de Casteljau's scheme: `for(i = 0; i + 1 < n; ++i) p[i] = p[i] + (p[i + 1] - p[i]) * t;`. -/
def casteljau (F : FxTy) (t : Int) : List Int → Res (List Int)
  | a :: b :: l => do
    let z ← lerp F a b t
    let r ← casteljau F t (b :: l)
    pure (z :: r)
  | _ => .ok []

/-- `n` levels. -/
def bezier (F : FxTy) (t : Int) : Nat → List Int → Res (List Int)
  | 0, l => .ok l
  | n + 1, l => casteljau F t l >>= bezier F t n

/-- One exact level. -/
def exactLevel (t : ℚ) : List ℚ → List ℚ
  | a :: b :: l => (a + (b - a) * t) :: exactLevel t (b :: l)
  | _ => []

/-- `n` exact levels. -/
def exactBezier (t : ℚ) : Nat → List ℚ → List ℚ
  | 0, l => l
  | n + 1, l => exactBezier t n (exactLevel t l)

/-- `x` lies between `lo` and `hi`, is not above the exact value, and at most `k` ulps below. -/
def Below (F : FxTy) (lo hi : Int) (k : Nat) (x : Int) (X : ℚ) : Prop := lo ≤ x ∧ x ≤ hi ∧ val F x ≤ X ∧ X ≤ val F x + k * ulp F

/-- The bounds are storable, and so is their distance in both directions. -/
structure Spread (F : FxTy) (lo hi : Int) : Prop where
  sl : Storable F lo
  sh : Storable F hi
  up : Storable F (hi - lo)
  down : Storable F (lo - hi)

theorem casteljau_below {F : FxTy} (hF : F.Valid) (hr : F.r = false) {lo hi t : Int} (hs : Spread F lo hi) (ht : Storable F t) (t0 : 0 ≤ val F t)
    (t1 : val F t ≤ 1) {k : Nat} (l : List Int) (L : List ℚ) (h : List.Forall₂ (Below F lo hi k) l L) :
    ∃ l', casteljau F t l = .ok l' ∧ List.Forall₂ (Below F lo hi (k + 1)) l' (exactLevel (val F t) L) := by
  induction h with
  | nil => exact ⟨[], rfl, .nil⟩
  | @cons a A l L ha hl ih =>
    cases hl with
    | nil => exact ⟨[], rfl, .nil⟩
    | @cons b B l L hb hl =>
      obtain ⟨l', e, hl'⟩ := ih
      obtain ⟨a1, a2, a3, a4⟩ := ha
      obtain ⟨b1, b2, b3, b4⟩ := hb
      obtain ⟨z, ez, hz, f1, f2⟩ := C190_lerp F hF hr a b t (storable_mid hs.sl hs.sh a1 a2) (storable_mid hs.sl hs.sh b1 b2) ht
        (storable_mid hs.down hs.up (by omega) (by omega)) t0 t1
      refine ⟨z :: l', ?_, .cons ⟨by omega, by omega, ?_, ?_⟩ hl'⟩
      · show (do let z ← lerp F a b t; let r ← casteljau F t (b :: l); pure (z :: r)) = _
        rw [ez, Res.bind_ok, e, Res.bind_ok]
        rfl
      · have h1 := mul_le_mul_of_nonneg_right a3 (show 0 ≤ 1 - val F t by linarith)
        have h2 := mul_le_mul_of_nonneg_right b3 t0
        linarith
      · have h1 := mul_le_mul_of_nonneg_right a4 (show 0 ≤ 1 - val F t by linarith)
        have h2 := mul_le_mul_of_nonneg_right b4 t0
        push_cast
        linarith

theorem bezier_below {F : FxTy} (hF : F.Valid) (hr : F.r = false) {lo hi t : Int} (hs : Spread F lo hi) (ht : Storable F t) (t0 : 0 ≤ val F t)
    (t1 : val F t ≤ 1) (n k : Nat) (l : List Int) (L : List ℚ) (h : List.Forall₂ (Below F lo hi k) l L) :
    ∃ l', bezier F t n l = .ok l' ∧ List.Forall₂ (Below F lo hi (k + n)) l' (exactBezier (val F t) n L) := by
  induction n generalizing k l L with
  | zero => exact ⟨l, rfl, h⟩
  | succ n ih =>
    obtain ⟨l1, e1, h1⟩ := casteljau_below hF hr hs ht t0 t1 l L h
    obtain ⟨l2, e2, h2⟩ := ih (k + 1) l1 _ h1
    refine ⟨l2, by unfold bezier; rw [e1, Res.bind_ok, e2], ?_⟩
    rw [show k + (n + 1) = k + 1 + n by omega]
    exact h2

theorem exactLevel_length (t : ℚ) (l : List ℚ) : (exactLevel t l).length = l.length - 1 := by
  match l with
  | [] => rfl
  | [_] => rfl
  | a :: b :: l =>
    unfold exactLevel
    rw [List.length_cons, exactLevel_length t (b :: l)]
    simp

theorem exactBezier_length (t : ℚ) (n : Nat) (l : List ℚ) : (exactBezier t n l).length = l.length - n := by
  induction n generalizing l with
  | zero => rfl
  | succ n ih =>
    unfold exactBezier
    rw [ih, exactLevel_length]; omega

/-- C216: for every degree `n`, every parameter between 0 and 1 and all control values between `lo` and `hi`, the point of the curve is defined, lies
between `lo` and `hi`, and is never above the exact point and at most `n` ulps below it. -/
theorem C216_curve (F : FxTy) (hF : F.Valid) (hr : F.r = false) (lo hi t : Int) (hs : Spread F lo hi) (ht : Storable F t) (t0 : 0 ≤ val F t)
    (t1 : val F t ≤ 1) (n : Nat) (l : List Int) (hl : ∀ x ∈ l, lo ≤ x ∧ x ≤ hi) (hn : l.length = n + 1) :
    ∃ z Z, bezier F t n l = .ok [z] ∧ exactBezier (val F t) n (l.map (val F)) = [Z] ∧ lo ≤ z ∧ z ≤ hi ∧ val F z ≤ Z ∧ Z ≤ val F z + n * ulp F := by
  have h : List.Forall₂ (Below F lo hi 0) l (l.map (val F)) := by
    clear hn
    induction l with
    | nil => exact .nil
    | cons x l ih =>
      obtain ⟨x1, x2⟩ := hl x (by simp)
      exact .cons ⟨x1, x2, le_rfl, by simp⟩ (ih fun y hy => hl y (by simp [hy]))
  obtain ⟨l', e, h'⟩ := bezier_below hF hr hs ht t0 t1 n 0 l _ h
  have hlen : (exactBezier (val F t) n (l.map (val F))).length = 1 := by rw [exactBezier_length, List.length_map, hn]; omega
  obtain ⟨Z, hZ⟩ := List.length_eq_one_iff.1 hlen
  rw [hZ] at h'
  cases h' with
  | cons hz hnil =>
    cases hnil
    rw [zero_add] at hz
    exact ⟨_, Z, e, hZ, hz⟩

/-- What the exact scheme computes: the cubic curve in its usual form. -/
theorem C216_cubic (t a b c d : ℚ) : exactBezier t 3 [a, b, c, d] =
    [(1 - t) ^ 3 * a + 3 * (1 - t) ^ 2 * t * b + 3 * (1 - t) * t ^ 2 * c + t ^ 3 * d] := by
  simp only [exactBezier, exactLevel, List.cons.injEq, and_true]
  ring

theorem casteljau_ends {F : FxTy} (hF : F.Valid) (hr : F.r = false) {lo hi : Int} (hs : Spread F lo hi) (l : List Int)
    (hl : ∀ x ∈ l, lo ≤ x ∧ x ≤ hi) : casteljau F 0 l = .ok l.dropLast ∧ (Storable F (2 ^ F.f) → casteljau F (2 ^ F.f) l = .ok l.tail) := by
  match l with
  | [] => exact ⟨rfl, fun _ => rfl⟩
  | [_] => exact ⟨rfl, fun _ => rfl⟩
  | a :: b :: l =>
    obtain ⟨i1, i2⟩ := casteljau_ends hF hr hs (b :: l) fun x hx => hl x (List.mem_cons_of_mem _ hx)
    obtain ⟨a1, a2⟩ := hl a (by simp)
    obtain ⟨b1, b2⟩ := hl b (by simp)
    obtain ⟨e1, e2⟩ := C190_ends F hF hr a b (storable_mid hs.sl hs.sh a1 a2) (storable_mid hs.sl hs.sh b1 b2)
      (storable_mid hs.down hs.up (by omega) (by omega))
    constructor
    · show (do let z ← lerp F a b 0; let r ← casteljau F 0 (b :: l); pure (z :: r)) = _
      rw [e1, Res.bind_ok, i1, Res.bind_ok]
      rfl
    · intro h1
      show (do let z ← lerp F a b (2 ^ F.f); let r ← casteljau F (2 ^ F.f) (b :: l); pure (z :: r)) = _
      rw [e2 h1, Res.bind_ok, i2 h1, Res.bind_ok]
      rfl

/-- C216: the curve starts exactly at the first control value and ends exactly at the last one. -/
theorem C216_ends (F : FxTy) (hF : F.Valid) (hr : F.r = false) (lo hi : Int) (hs : Spread F lo hi) (n : Nat) (l : List Int)
    (hl : ∀ x ∈ l, lo ≤ x ∧ x ≤ hi) (hn : l.length = n + 1) :
    bezier F 0 n l = .ok [l.head (by intro h; rw [h] at hn; simp at hn)] ∧
      (Storable F (2 ^ F.f) → bezier F (2 ^ F.f) n l = .ok [l.getLast (by intro h; rw [h] at hn; simp at hn)]) := by
  induction n generalizing l with
  | zero =>
    obtain ⟨x, rfl⟩ := List.length_eq_one_iff.1 hn
    exact ⟨rfl, fun _ => rfl⟩
  | succ n ih =>
    obtain ⟨c1, c2⟩ := casteljau_ends hF hr hs l hl
    match l, hn with
    | a :: b :: l, hn =>
      constructor
      · have := (ih (a :: b :: l).dropLast (fun x hx => hl x (List.mem_of_mem_dropLast hx)) (by simp at hn ⊢; omega)).1
        unfold bezier
        rw [c1, Res.bind_ok, this]
        rfl
      · intro h1
        have := (ih (b :: l) (fun x hx => hl x (List.mem_cons_of_mem _ hx)) (by simp at hn ⊢; omega)).2 h1
        unfold bezier
        rw [c2 h1, Res.bind_ok]
        exact this

example : bezier fixed32 21845 3 [0, 65536, -65536, 131072] = .ok [19417] ∧ bezier fixed32 0 3 [7, 65536, -65536, 131072] = .ok [7] := by decide +kernel

example : Spread fixed32 (-65536) 131072 := ⟨by decide, by decide, by decide, by decide⟩

end Eirin.Props
