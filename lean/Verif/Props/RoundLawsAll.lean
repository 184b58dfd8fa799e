import Verif.Props.RoundAll
import Verif.Props.RoundLaws

/-! # C168: laws of the rounding functions on every storage type -/

namespace Eirin.Props
open Spec

/-- The expected law: rounding a number that is already integral changes nothing. -/
def C168_statement : Prop :=
  ∀ (F : FxTy), F.Valid → Storable F (2 ^ F.f) → ∀ x, Storable F x → Integral F x →
    floor F x = .ok x ∧ ceil F x = .ok x ∧ trunc F x = .ok x ∧ round F x = .ok x

/-- C168 is false of the code: `ceil(-1)` is `-1/65536`. -/
theorem C168_false : ¬ C168_statement := by
  intro h
  have h1 := (h fixed32 (by decide +kernel) (by decide +kernel) (-65536) (by decide +kernel) ⟨-1, by norm_num [val, fixed32]⟩).2.1
  revert h1; decide +kernel

/-- `floor` works on `x`: `x` is not negative, or not within a unit of the minimum. -/
def FloorOk (F : FxTy) (x : Int) : Prop := Storable F (x - (2 ^ F.f - 1)) ∨ 0 ≤ x

/-- C168 for `floor` on every storage type: monotone, the identity on integral numbers (so idempotent), commutes with adding integers,
and equal to `trunc` on non-negative numbers.
Full statement: `C168_statement`; missing (false): `floor` within a unit of the minimum, `ceil` of negative numbers. -/
theorem C168_floor_partial (F : FxTy) (hF : F.Valid) (h1 : Storable F (2 ^ F.f)) (x y : Int) (hx : Storable F x) (hy : Storable F y)
    (dx : FloorOk F x) (dy : FloorOk F y) :
    ∃ a b, floor F x = .ok a ∧ floor F y = .ok b ∧ (val F x ≤ val F y → val F a ≤ val F b) ∧ (Integral F x → a = x) ∧
      (FloorOk F a → Storable F a → floor F a = .ok a) ∧ (∀ n : Int, val F y = val F x + n → val F b = val F a + n) ∧
      (0 ≤ val F x → trunc F x = .ok a) := by
  obtain ⟨a, ea, ⟨k, ak⟩, a1, a2⟩ := C92_floor_partial F hF h1 x hx dx
  obtain ⟨b, eb, ⟨l, bl⟩, b1, b2⟩ := C92_floor_partial F hF h1 y hy dy
  have a3 : val F x < k + 1 := by
    by_contra hc
    push Not at hc
    have := a2 (k + 1) (by push_cast; exact hc)
    rw [ak] at this; push_cast at this; linarith
  have b3 : val F y < l + 1 := by
    by_contra hc
    push Not at hc
    have := b2 (l + 1) (by push_cast; exact hc)
    rw [bl] at this; push_cast at this; linarith
  have ia : ∀ x' a', Storable F x' → FloorOk F x' → floor F x' = .ok a' → Integral F x' → a' = x' := by
    rintro x' a' hx' d' e' ⟨j, hj⟩
    obtain ⟨z, ez, -, z1, z2⟩ := C92_floor_partial F hF h1 x' hx' d'
    rw [e'] at ez; cases ez
    have := z2 j (by rw [hj])
    rw [← hj] at this
    exact val_inj (le_antisymm z1 this)
  refine ⟨a, b, ea, eb, fun hxy => ?_, ia x a hx dx ea, fun da sa => ?_, fun n hn => ?_, fun h0 => ?_⟩
  · rw [ak]; exact b2 k (by rw [← ak]; linarith)
  · obtain ⟨z, ez, -⟩ := C92_floor_partial F hF h1 a sa da
    have := ia a z sa da ez ⟨k, ak⟩
    rw [this] at ez; exact ez
  · rw [ak, bl]
    rw [ak] at a1; rw [bl] at b1
    have u1 : (l : ℚ) < (k + n + 1 : Int) := by push_cast; linarith
    have u2 : ((k + n : Int) : ℚ) < (l + 1 : Int) := by push_cast; linarith
    have u1 := Int.cast_lt.1 u1
    have u2 := Int.cast_lt.1 u2
    have : l = k + n := by omega
    rw [this]; push_cast; ring
  · obtain ⟨z, ez, -, ⟨m, zm⟩, z1, z2, z3⟩ := C92_trunc F hF h1 x hx
    rw [ez]
    congr 1
    apply val_inj
    rw [ak, zm]
    rw [zm] at z1 z2 z3
    rw [ak] at a1
    rw [abs_of_nonneg h0] at z1
    have z1 := abs_le.1 z1
    have z2 := abs_lt.1 z2
    have u1 : (k : ℚ) < (m + 1 : Int) := by push_cast; linarith
    have u2 : (m : ℚ) < (k + 1 : Int) := by push_cast; linarith
    have u1 := Int.cast_lt.1 u1
    have u2 := Int.cast_lt.1 u2
    have : k = m := by omega
    rw [this]
example : FloorOk tiny (-24) ∧ FloorOk tiny 24 ∧ val tiny 24 = val tiny (-24) + (3 : Int) ∧ floor tiny (-24) = .ok (-32) ∧ floor tiny 24 = .ok 16 :=
  ⟨Or.inl (by decide +kernel), Or.inr (by decide), by norm_num [val, tiny], by decide +kernel, by decide +kernel⟩

/-- C168 for `ceil` of non-negative numbers on every storage type: monotone, the identity on integral numbers, commutes with adding
integers; equal to `floor` on integral numbers and one above it on all others. -/
theorem C168_ceil_partial (F : FxTy) (hF : F.Valid) (h1 : Storable F (2 ^ F.f)) (x y : Int) (hx : Storable F x)
    (x0 : 0 ≤ x) (y0 : 0 ≤ y) (dx : Storable F (x + (2 ^ F.f - 1))) (dy : Storable F (y + (2 ^ F.f - 1))) :
    ∃ a b c, ceil F x = .ok a ∧ ceil F y = .ok b ∧ floor F x = .ok c ∧ (val F x ≤ val F y → val F a ≤ val F b) ∧ (Integral F x → a = x ∧ c = x) ∧
      (¬ Integral F x → val F a = val F c + 1) ∧ (∀ n : Int, val F y = val F x + n → val F b = val F a + n) := by
  obtain ⟨a, ea, ⟨k, ak⟩, a1, a2⟩ := C92_ceil_partial F hF h1 x x0 dx
  obtain ⟨b, eb, ⟨l, bl⟩, b1, b2⟩ := C92_ceil_partial F hF h1 y y0 dy
  obtain ⟨c, ec, ⟨m, cm⟩, c1, c2⟩ := C92_floor_partial F hF h1 x hx (Or.inr x0)
  have a3 : (k : ℚ) - 1 < val F x := by
    by_contra hc
    push Not at hc
    have := a2 (k - 1) (by push_cast; exact hc)
    rw [ak] at this; push_cast at this; linarith
  have b3 : (l : ℚ) - 1 < val F y := by
    by_contra hc
    push Not at hc
    have := b2 (l - 1) (by push_cast; exact hc)
    rw [bl] at this; push_cast at this; linarith
  have c3 : val F x < m + 1 := by
    by_contra hc
    push Not at hc
    have := c2 (m + 1) (by push_cast; exact hc)
    rw [cm] at this; push_cast at this; linarith
  refine ⟨a, b, c, ea, eb, ec, fun hxy => ?_, ?_, fun hi => ?_, fun n hn => ?_⟩
  · rw [bl]; exact a2 l (by rw [← bl]; linarith)
  · rintro ⟨j, hj⟩
    have u := a2 j (by rw [hj])
    have v := c2 j (by rw [hj])
    rw [← hj] at u v
    exact ⟨val_inj (le_antisymm u a1), val_inj (le_antisymm c1 v)⟩
  · rw [ak, cm]
    rw [ak] at a1; rw [cm] at c1
    have n1 : (m : ℚ) ≠ val F x := fun hh => hi ⟨m, hh.symm⟩
    have n1 := lt_of_le_of_ne c1 n1
    have n2 : val F x ≠ k := fun hh => hi ⟨k, hh⟩
    have n2 := lt_of_le_of_ne a1 n2
    have u1 : (m : ℚ) < (k : Int) := by linarith
    have u2 : (k : ℚ) < (m + 2 : Int) := by push_cast; linarith
    have u1 := Int.cast_lt.1 u1
    have u2 := Int.cast_lt.1 u2
    have : k = m + 1 := by omega
    rw [this]; push_cast; ring
  · rw [ak, bl]
    rw [ak] at a1; rw [bl] at b1
    have u1 : (l : ℚ) < (k + n + 1 : Int) := by push_cast; linarith
    have u2 : ((k + n : Int) : ℚ) < (l + 1 : Int) := by push_cast; linarith
    have u1 := Int.cast_lt.1 u1
    have u2 := Int.cast_lt.1 u2
    have : l = k + n := by omega
    rw [this]; push_cast; ring
example : Storable small (300 + (2 ^ small.f - 1)) ∧ ceil small 300 = .ok 512 ∧ floor small 300 = .ok 256 ∧ ceil small 556 = .ok 768 := by decide +kernel

/-- C168 for `trunc` on every storage type, without restriction: monotone, odd, and the identity on integral numbers (so idempotent). -/
theorem C168_trunc_partial (F : FxTy) (hF : F.Valid) (h1 : Storable F (2 ^ F.f)) (x y : Int) (hx : Storable F x) (hy : Storable F y) :
    ∃ a b, trunc F x = .ok a ∧ trunc F y = .ok b ∧ (val F x ≤ val F y → val F a ≤ val F b) ∧ (val F y = -val F x → val F b = -val F a) ∧
      (Integral F x → a = x) ∧ trunc F a = .ok a := by
  have key : ∀ x', Storable F x' → ∃ (z m : Int), trunc F x' = .ok z ∧ Storable F z ∧ val F z = m ∧ (0 ≤ val F x' → 0 ≤ (m : ℚ) ∧ (m : ℚ) ≤ val F x' ∧ val F x' < m + 1) ∧
      (val F x' ≤ 0 → (m : ℚ) ≤ 0 ∧ val F x' ≤ m ∧ (m : ℚ) - 1 < val F x') := by
    intro x' hx'
    obtain ⟨z, ez, sz, ⟨m, zm⟩, z1, z2, z3⟩ := C92_trunc F hF h1 x' hx'
    rw [zm] at z1 z2 z3
    have w2 := abs_lt.1 z2
    refine ⟨z, m, ez, sz, zm, fun h0 => ?_, fun h0 => ?_⟩
    · rw [abs_of_nonneg h0] at z1
      have w1 := abs_le.1 z1
      have m0 : 0 ≤ (m : ℚ) := by
        rcases h0.lt_or_eq with hp | hp
        · exact nonneg_of_mul_nonneg_left z3 hp
        · linarith
      exact ⟨m0, w1.2, by linarith⟩
    · rw [abs_of_nonpos h0] at z1
      have w1 := abs_le.1 z1
      have m0 : (m : ℚ) ≤ 0 := by
        rcases h0.lt_or_eq with hp | hp
        · by_contra hc
          push Not at hc
          nlinarith
        · linarith
      exact ⟨m0, by linarith, by linarith⟩
  obtain ⟨a, k, ea, sa, ak, a1, a2⟩ := key x hx
  obtain ⟨b, l, eb, sb, bl, b1, b2⟩ := key y hy
  have fixed' : ∀ x' z, Storable F x' → trunc F x' = .ok z → Integral F x' → z = x' := by
    rintro x' z sx e ⟨j, hj⟩
    obtain ⟨z', m, e', -, zm, c1, c2⟩ := key x' sx
    rw [e] at e'; cases e'
    apply val_inj
    rw [hj, zm]
    rw [hj] at c1 c2
    rcases le_total 0 (j : ℚ) with h0 | h0
    · obtain ⟨-, u, v⟩ := c1 h0
      have u := Int.cast_le.1 u
      have v : (j : ℚ) < (m + 1 : Int) := by push_cast; exact v
      have v := Int.cast_lt.1 v
      have : m = j := by omega
      rw [this]
    · obtain ⟨-, u, v⟩ := c2 h0
      have u := Int.cast_le.1 u
      have v : ((m - 1 : Int) : ℚ) < j := by push_cast; exact v
      have v := Int.cast_lt.1 v
      have : m = j := by omega
      rw [this]
  refine ⟨a, b, ea, eb, fun hxy => ?_, fun hxy => ?_, fixed' x a hx ea, ?_⟩
  · rw [ak, bl]
    apply Int.cast_le.2
    by_contra hc
    have hc : (l : ℚ) + 1 ≤ k := by exact_mod_cast (show l + 1 ≤ k by omega)
    rcases le_total 0 (val F x) with h0 | h0
    · have := a1 h0; have := b1 (le_trans h0 hxy); linarith [this.2.2]
    · rcases le_total 0 (val F y) with h0' | h0'
      · have u := a2 h0; have v := b1 h0'
        linarith [u.1, v.1]
      · have u := a2 h0; have v := b2 h0'
        linarith [u.2.2, v.2.1]
  · rw [ak, bl]
    rcases le_total 0 (val F x) with h0 | h0
    · have u := a1 h0; have v := b2 (by linarith)
      have w1 : ((l : Int) : ℚ) < (-k + 1 : Int) := by push_cast; linarith [u.2.1, v.2.2]
      have w2 : ((-k - 1 : Int) : ℚ) < l := by push_cast; linarith [u.2.2, v.2.1]
      have w1 := Int.cast_lt.1 w1
      have w2 := Int.cast_lt.1 w2
      have : l = -k := by omega
      rw [this]; push_cast; ring
    · have u := a2 h0; have v := b1 (by linarith)
      have w1 : ((l : Int) : ℚ) < (-k + 1 : Int) := by push_cast; linarith [u.2.2, v.2.1]
      have w2 : ((-k - 1 : Int) : ℚ) < l := by push_cast; linarith [u.2.1, v.2.2]
      have w1 := Int.cast_lt.1 w1
      have w2 := Int.cast_lt.1 w2
      have : l = -k := by omega
      rw [this]; push_cast; ring
  · obtain ⟨z, m, ez, -⟩ := key a sa
    have := fixed' a z sa ez ⟨k, ak⟩
    rw [this] at ez; exact ez
example : trunc tiny (-24) = .ok (-16) ∧ trunc tiny 24 = .ok 16 ∧ trunc tiny (-128) = .ok (-128) ∧ trunc small 65535 = .ok 65280 := by decide +kernel

/-- C168 for `round` on every storage type, for numbers whose nearest integers are numbers of the type: monotone, odd, and the identity
on integral numbers; and never more than half a unit away, so within a unit of `trunc`. -/
theorem C168_round_partial (F : FxTy) (hF : F.Valid) (h1 : Storable F (2 ^ F.f)) (x y : Int) (hx : Storable F x) (hy : Storable F y)
    (dx : ∀ k : Int, |val F x - k| ≤ 1 / 2 → Representable F k) (dy : ∀ k : Int, |val F y - k| ≤ 1 / 2 → Representable F k) :
    ∃ a b, round F x = .ok a ∧ round F y = .ok b ∧ (val F x ≤ val F y → val F a ≤ val F b) ∧ (val F y = -val F x → val F b = -val F a) ∧
      (Integral F x → val F a = val F x) ∧ |val F a - val F x| ≤ 1 / 2 ∧ (∃ k : Int, val F a = k) := by
  obtain ⟨a, k, ea, a1, a2, -, a3⟩ := C92_round F hF h1 x hx
  obtain ⟨b, l, eb, b1, b2, -, b3⟩ := C92_round F hF h1 y hy
  have ra := a3 (dx k a1)
  have rb := b3 (dy l b1)
  refine ⟨a, b, ea, eb, fun hxy => ?_, fun hxy => ?_, ?_, ?_, k, ra⟩
  · rw [ra, rb]; exact_mod_cast isRound_mono ⟨a1, a2⟩ ⟨b1, b2⟩ hxy
  · rw [ra, rb]
    have n1 : IsRound (val F y) (-k) := by rw [hxy]; exact isRound_neg ⟨a1, a2⟩
    have u := isRound_mono n1 ⟨b1, b2⟩ (le_refl _)
    have v := isRound_mono ⟨b1, b2⟩ n1 (le_refl _)
    have : l = -k := by omega
    rw [this]; push_cast; ring
  · rintro ⟨j, hj⟩
    rw [ra, hj]
    have ij : IsRound (val F x) j := by
      rw [hj]; refine ⟨by simp, fun hc => ?_⟩
      simp at hc
    have u := isRound_mono ij ⟨a1, a2⟩ (le_refl _)
    have v := isRound_mono ⟨a1, a2⟩ ij (le_refl _)
    rw [le_antisymm v u]
  · rw [ra, abs_sub_comm]; exact a1
example : Storable tiny (-24) ∧ (∀ k : Int, |val tiny (-24) - k| ≤ 1 / 2 → Representable tiny k) ∧ round tiny (-24) = .ok (-32) ∧ round tiny 24 = .ok 32 := by
  refine ⟨by decide +kernel, fun k hk => ?_, by decide +kernel, by decide +kernel⟩
  have e : val tiny (-24) = -3 / 2 := by norm_num [val, tiny]
  rw [e, abs_le] at hk
  have a : ((-3 : Int) : ℚ) < k := by push_cast; linarith [hk.1, hk.2]
  have b : (k : ℚ) < ((0 : Int) : ℚ) := by push_cast; linarith [hk.1, hk.2]
  have a := Int.cast_lt.1 a
  have b := Int.cast_lt.1 b
  refine ⟨k * 2 ^ tiny.f, ?_, val_int _ _⟩
  have : k = -2 ∨ k = -1 := by omega
  rcases this with rfl | rfl <;> decide +kernel

/-- C168: `ceil` of a negative number on every signed storage type: the truncated number plus one minus an ulp (C22 says so for the
wide types); never integral, so always wrong. -/
theorem C168_ceil_neg (F : FxTy) (hF : F.Valid) (h1 : Storable F (2 ^ F.f)) (x : Int) (hx : Storable F x) (h0 : x < 0) :
    ceil F x = .ok (Int.tdiv x (2 ^ F.f) * 2 ^ F.f + 2 ^ F.f - 1) := by
  have h : PN F := ⟨hF, h1⟩
  have hd := SW.dpos (F := F)
  have hdle := h.d_le
  have ht := (tdiv_mul_spec x hd).2 h0.le
  have hx1 := hx.1
  have r1 : F.T.InRange (Int.tdiv x (2 ^ F.f) * 2 ^ F.f) := ⟨by omega, by omega⟩
  have r2 : F.T.InRange (Int.tdiv x (2 ^ F.f) * 2 ^ F.f + 2 ^ F.f) := ⟨by omega, by omega⟩
  have r3 : F.T.InRange (Int.tdiv x (2 ^ F.f) * 2 ^ F.f + 2 ^ F.f - 1) := ⟨by omega, by omega⟩
  have ar : ∀ {n : Int}, F.T.InRange n → arith F.P n = .ok n := fun hn => arith_of_inRange hF.ppos (h.inP hn)
  unfold ceil
  rw [if_neg (by omega), Res.pure_eq, Res.bind_ok]
  beta_reduce
  rw [if_pos h0, h.one_eq, h.cdiv_ok hx hd, Res.bind_ok, ar r1, Res.bind_ok,
    ar r2, Res.bind_ok, ar r3, Res.bind_ok, h.from_ok r3]
  rfl
example : ceil tiny (-24) = .ok (-1) ∧ ceil tiny (-16) = .ok (-1) ∧ Storable tiny (-24) := by decide +kernel

end Eirin.Props
