import Verif.Props.Laws

/-! # Property C85: how far products and quotients are from satisfying the laws of exact arithmetic.

All statements hold for every valid type without the rounding option, whatever the storage width, signedness and number of fraction bits. -/

namespace Eirin.Props
open Spec

/-- `q` rounds down to a value of the type (so a product of this size does not wrap). -/
def Fits (F : FxTy) (q : ℚ) : Prop := val F F.T.lo ≤ q ∧ q < val F F.T.hi + ulp F

theorem Fits.storable {F : FxTy} {q : ℚ} {n : Int} (h : Fits F q) (hn : IsFloor F q n) : Storable F n := by
  constructor
  · have : val F F.T.lo < val F (n + 1) := by rw [val_add, val_one]; exact lt_of_le_of_lt h.1 hn.2
    rw [val_lt] at this; omega
  · have : val F n < val F (F.T.hi + 1) := by rw [val_add, val_one]; exact lt_of_le_of_lt hn.1 h.2
    rw [val_lt] at this; omega

/-- An in-range product is defined, storable and within one ulp below the exact product. -/
theorem mul_fits {F : FxTy} (hF : F.Valid) (hr : F.r = false) {x y : Int} (hx : Storable F x) (hy : Storable F y)
    (hfit : Fits F (val F x * val F y)) : ∃ p, mul F x y = .ok p ∧ Storable F p ∧ IsFloor F (val F x * val F y) p := by
  obtain ⟨z, n, h1, h2, _, h4⟩ := C02_mul_floor F hF hr x y hx hy
  have hs := hfit.storable h2
  exact ⟨n, by rw [h1, h4 hs], hs, h2⟩

/-- C85: distributivity holds up to one ulp: `x*(y+z) - (x*y + x*z)` is `0` or one ulp. -/
theorem C85_distrib (F : FxTy) (hF : F.Valid) (hr : F.r = false) (x y z s : Int)
    (hx : Storable F x) (hy : Storable F y) (hz : Storable F z) (hs : Storable F s) (hsum : val F s = val F y + val F z)
    (f1 : Fits F (val F x * val F y)) (f2 : Fits F (val F x * val F z)) (f3 : Fits F (val F x * val F s)) :
    ∃ a b c, mul F x y = .ok a ∧ mul F x z = .ok b ∧ mul F x s = .ok c ∧
      (val F c = val F a + val F b ∨ val F c = val F a + val F b + ulp F) := by
  obtain ⟨a, ea, -, a1, a2⟩ := mul_fits hF hr hx hy f1
  obtain ⟨b, eb, -, b1, b2⟩ := mul_fits hF hr hx hz f2
  obtain ⟨c, ec, -, c1, c2⟩ := mul_fits hF hr hx hs f3
  refine ⟨a, b, c, ea, eb, ec, ?_⟩
  rw [hsum, mul_add] at c1 c2
  have g1 : a + b < c + 1 := by
    rw [← val_lt (F := F), val_add, val_add, val_one]; linarith
  have g2 : c < a + b + 2 := by
    rw [← val_lt (F := F), show a + b + 2 = a + b + 1 + 1 by ring, val_add, val_add, val_add, val_one]; linarith
  rcases show c = a + b ∨ c = a + b + 1 by omega with e | e
  · left; rw [e, val_add]
  · right; rw [e, val_add, val_add, val_one]

example : (mul fixed32 3 32768 = .ok 1 ∧ mul fixed32 3 65536 = .ok 3 ∧ mul fixed32 3 98304 = .ok 4 ∧
    mul fixed32 1 32768 = .ok 0 ∧ mul fixed32 1 65535 = .ok 0 ∧ mul fixed32 1 98303 = .ok 1) ∧
    Fits fixed32 (val fixed32 (3) * val fixed32 (32768)) ∧ Fits fixed32 (val fixed32 (3) * val fixed32 (65536)) ∧ Fits fixed32 (val fixed32 (3) * val fixed32 (98304)) := by
  refine ⟨by decide +kernel, ?_, ?_, ?_⟩ <;>
    norm_num [Fits, val, ulp, fixed32, IntTy.lo, IntTy.hi]

/-- C85: associativity holds up to `(|x| + |z| + 1)` ulp. -/
theorem C85_assoc (F : FxTy) (hF : F.Valid) (hr : F.r = false) (x y z a b : Int)
    (hx : Storable F x) (hy : Storable F y) (hz : Storable F z)
    (f1 : Fits F (val F x * val F y)) (f2 : Fits F (val F y * val F z))
    (ha : mul F x y = .ok a) (hb : mul F y z = .ok b)
    (f3 : Fits F (val F a * val F z)) (f4 : Fits F (val F x * val F b)) :
    ∃ l r, mul F a z = .ok l ∧ mul F x b = .ok r ∧ |val F l - val F r| ≤ (|val F x| + |val F z| + 1) * ulp F := by
  obtain ⟨a', ea, sa, a1, a2⟩ := mul_fits hF hr hx hy f1
  rw [ha] at ea; cases ea
  obtain ⟨b', eb, sb, b1, b2⟩ := mul_fits hF hr hy hz f2
  rw [hb] at eb; cases eb
  obtain ⟨l, el, -, l1, l2⟩ := mul_fits hF hr sa hz f3
  obtain ⟨r, er, -, r1, r2⟩ := mul_fits hF hr hx sb f4
  refine ⟨l, r, el, er, ?_⟩
  have u := ulp_pos F
  have k1 : |(val F x * val F y - val F a) * val F z| ≤ ulp F * |val F z| := by
    rw [abs_mul]; exact mul_le_mul_of_nonneg_right (by rw [abs_le]; constructor <;> linarith) (abs_nonneg _)
  have k2 : |val F x * (val F y * val F z - val F b)| ≤ |val F x| * ulp F := by
    rw [abs_mul]; exact mul_le_mul_of_nonneg_left (by rw [abs_le]; constructor <;> linarith) (abs_nonneg _)
  rw [abs_le] at k1 k2 ⊢
  constructor <;> nlinarith [k1.1, k1.2, k2.1, k2.2]

example : (mul fixed32 98305 65535 = .ok 98303 ∧ mul fixed32 65535 (7 * 65536) = .ok 458745 ∧
    mul fixed32 98303 (7 * 65536) = .ok 688121 ∧ mul fixed32 98305 458745 = .ok 688124) ∧
    Fits fixed32 (val fixed32 (98305) * val fixed32 (65535)) ∧ Fits fixed32 (val fixed32 (65535) * val fixed32 (7 * 65536)) ∧ Fits fixed32 (val fixed32 (98303) * val fixed32 (7 * 65536)) ∧ Fits fixed32 (val fixed32 (98305) * val fixed32 (458745)) := by
  refine ⟨by decide +kernel, ?_, ?_, ?_, ?_⟩ <;>
    norm_num [Fits, val, ulp, fixed32, IntTy.lo, IntTy.hi]

/-- C85: `(x / y) * y` is `x` up to `(|y| + 1)` ulp. -/
theorem C85_div_mul (F : FxTy) (hF : F.Valid) (hr : F.r = false) (x y q : Int) (hx : Storable F x) (hy : Storable F y) (hy0 : y ≠ 0)
    (hq : IsTrunc F (val F x / val F y) q) (hqs : Storable F q) (f : Fits F (val F q * val F y)) :
    div F x y = .ok q ∧ ∃ z, mul F q y = .ok z ∧ |val F z - val F x| < (|val F y| + 1) * ulp F := by
  obtain ⟨w, n, h1, h2, -, h4⟩ := (C03_div_trunc F hF hr x y hx).2 hy0
  have e := isTrunc_unique h2 hq
  subst e
  rw [h4 hqs] at h1
  obtain ⟨z, ez, -, z1, z2⟩ := mul_fits hF hr hqs hy f
  refine ⟨h1, z, ez, ?_⟩
  have u := ulp_pos F
  have yv : val F y ≠ 0 := fun h => hy0 (val_inj (F := F) (by rw [h, val_zero]))
  have ypos : 0 < |val F y| := abs_pos.2 yv
  have k : |val F n - val F x / val F y| < ulp F := by
    rcases le_or_gt 0 (val F x / val F y) with h | h
    · obtain ⟨_, b, c⟩ := hq.1 h; rw [abs_lt]; constructor <;> linarith
    · obtain ⟨_, b, c⟩ := hq.2 h; rw [abs_lt]; constructor <;> linarith
  have k2 : |val F n * val F y - val F x| < ulp F * |val F y| := by
    have : val F n * val F y - val F x = (val F n - val F x / val F y) * val F y := by field_simp
    rw [this, abs_mul]; exact mul_lt_mul_of_pos_right k ypos
  rw [abs_lt] at k2 ⊢
  constructor <;> nlinarith [k2.1, k2.2]

example : (div fixed32 65536 (3 * 65536) = .ok 21845 ∧ mul fixed32 21845 (3 * 65536) = .ok 65535) ∧
    Fits fixed32 (val fixed32 (21845) * val fixed32 (3 * 65536)) := by
  refine ⟨by decide +kernel, ?_⟩
  norm_num [Fits, val, ulp, fixed32, IntTy.lo, IntTy.hi]

/-- C85: `(x * y) / y` is `x` up to `1 + 1/|y|` ulp. -/
theorem C85_mul_div (F : FxTy) (hF : F.Valid) (hr : F.r = false) (x y p q : Int) (hx : Storable F x) (hy : Storable F y) (hy0 : y ≠ 0)
    (f : Fits F (val F x * val F y)) (hp : mul F x y = .ok p)
    (hq : IsTrunc F (val F p / val F y) q) (hqs : Storable F q) :
    div F p y = .ok q ∧ |val F q - val F x| < (1 + 1 / |val F y|) * ulp F := by
  obtain ⟨p', ep, sp, p1, p2⟩ := mul_fits hF hr hx hy f
  rw [hp] at ep; cases ep
  obtain ⟨w, n, h1, h2, -, h4⟩ := (C03_div_trunc F hF hr p y sp).2 hy0
  have e := isTrunc_unique h2 hq
  subst e
  rw [h4 hqs] at h1
  refine ⟨h1, ?_⟩
  have u := ulp_pos F
  have yv : val F y ≠ 0 := fun h => hy0 (val_inj (F := F) (by rw [h, val_zero]))
  have ypos : 0 < |val F y| := abs_pos.2 yv
  have k : |val F n - val F p / val F y| < ulp F := by
    rcases le_or_gt 0 (val F p / val F y) with h | h
    · obtain ⟨_, b, c⟩ := hq.1 h; rw [abs_lt]; constructor <;> linarith
    · obtain ⟨_, b, c⟩ := hq.2 h; rw [abs_lt]; constructor <;> linarith
  have k2 : |val F p / val F y - val F x| ≤ ulp F * (1 / |val F y|) := by
    have : val F p / val F y - val F x = (val F p - val F x * val F y) / val F y := by field_simp
    rw [this, abs_div, div_eq_mul_one_div]
    exact mul_le_mul_of_nonneg_right (by rw [abs_le]; constructor <;> linarith) (by positivity)
  rw [abs_lt] at k ⊢
  rw [abs_le] at k2
  constructor <;> nlinarith [k2.1, k2.2, k.1, k.2]

example : (mul fixed32 98305 21845 = .ok 32767 ∧ div fixed32 32767 21845 = .ok 98302) ∧
    Fits fixed32 (val fixed32 (98305) * val fixed32 (21845)) := by
  refine ⟨by decide +kernel, ?_⟩
  norm_num [Fits, val, ulp, fixed32, IntTy.lo, IntTy.hi]

/-- C85: division is odd: `(-x)/y = -(x/y)` and `x/(-y) = -(x/y)` exactly, in contrast to multiplication, where `(-x)*y` may be one ulp
below `-(x*y)`. Signed storage. -/
theorem C85_signs (F : FxTy) (hF : F.Valid) (hr : F.r = false) (x y nx ny : Int)
    (hx : Storable F x) (hy : Storable F y) (hnx : Storable F nx) (hny : Storable F ny)
    (e1 : val F nx = - val F x) (e2 : val F ny = - val F y) :
    (∀ q n, y ≠ 0 → IsTrunc F (val F x / val F y) q → Storable F q → Storable F n → val F n = - val F q →
      div F x y = .ok q ∧ div F nx y = .ok n ∧ div F x ny = .ok n ∧ div F nx ny = .ok q) ∧
    (Fits F (val F x * val F y) → Fits F (-(val F x * val F y)) → ∃ p n, mul F x y = .ok p ∧ mul F nx y = .ok n ∧ mul F x ny = .ok n ∧
      mul F nx ny = .ok p ∧ (val F n = - val F p ∨ val F n = - val F p - ulp F)) := by
  constructor
  · intro q n hy0 hq hqs hns hnq
    have nyz : ny ≠ 0 := by
      rintro rfl; rw [val_zero] at e2
      exact hy0 (val_inj (F := F) (by rw [val_zero]; linarith))
    have key : ∀ a b, Storable F a → b ≠ 0 → val F a / val F b = val F x / val F y → div F a b = .ok q := by
      intro a b ha hb hab
      obtain ⟨w, m, h1, h2, -, h4⟩ := (C03_div_trunc F hF hr a b ha).2 hb
      rw [hab] at h2
      have e := isTrunc_unique h2 hq; subst e
      rw [h1, h4 hqs]
    have hq' : IsTrunc F (-(val F x / val F y)) n := by
      constructor
      · intro h
        rcases lt_or_eq_of_le h with h' | h'
        · obtain ⟨a, b, c⟩ := hq.2 (by linarith); rw [hnq]; refine ⟨by linarith, by linarith, by linarith⟩
        · obtain ⟨a, b, c⟩ := hq.1 (by linarith)
          have u := ulp_pos F
          rw [hnq]; refine ⟨by linarith, by linarith, by linarith⟩
      · intro h
        obtain ⟨a, b, c⟩ := hq.1 (by linarith); rw [hnq]; refine ⟨by linarith, by linarith, by linarith⟩
    have key' : ∀ a b, Storable F a → b ≠ 0 → val F a / val F b = -(val F x / val F y) → div F a b = .ok n := by
      intro a b ha hb hab
      obtain ⟨w, m, h1, h2, -, h4⟩ := (C03_div_trunc F hF hr a b ha).2 hb
      rw [hab] at h2
      have e := isTrunc_unique h2 hq'; subst e
      rw [h1, h4 hns]
    exact ⟨key _ _ hx hy0 rfl, key' _ _ hnx hy0 (by rw [e1]; ring), key' _ _ hx nyz (by rw [e2, div_neg]),
      key _ _ hnx nyz (by rw [e1, e2, neg_div_neg_eq])⟩
  · intro f1 f2
    obtain ⟨p, ep, -, p1⟩ := mul_fits hF hr hx hy f1
    obtain ⟨p', ep', -, p1'⟩ := mul_fits hF hr hnx hny (by rw [e1, e2, neg_mul_neg]; exact f1)
    rw [e1, e2, neg_mul_neg] at p1'
    have := isFloor_unique p1 p1'; subst this
    obtain ⟨n, en, -, n1⟩ := mul_fits hF hr hnx hy (by rw [e1, neg_mul]; exact f2)
    obtain ⟨n', en', -, n1'⟩ := mul_fits hF hr hx hny (by rw [e2, mul_neg]; exact f2)
    rw [e1, neg_mul] at n1
    rw [e2, mul_neg] at n1'
    have := isFloor_unique n1 n1'; subst this
    refine ⟨p, n, ep, en, en', ep', ?_⟩
    obtain ⟨n1, n2⟩ := n1
    obtain ⟨p1, p2⟩ := p1
    have g1 : n < -p + 1 := by rw [← val_lt (F := F), val_add, val_neg, val_one]; linarith [ulp_pos F]
    have g2 : -p < n + 1 + 1 := by rw [← val_lt (F := F), val_add, val_add, val_neg, val_one]; linarith
    rcases show n = -p ∨ n = -p - 1 by omega with e | e
    · left; rw [e, val_neg]
    · right; rw [e, val_sub, val_neg, val_one]

example : mul fixed32 98305 65535 = .ok 98303 ∧ mul fixed32 (-98305) 65535 = .ok (-98304) ∧ div fixed32 65536 196609 = .ok 21845 ∧
    div fixed32 (-65536) 196609 = .ok (-21845) := by decide +kernel

end Eirin.Props
