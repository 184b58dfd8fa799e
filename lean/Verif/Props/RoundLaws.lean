import Verif.Props.Rounding

/-! # Property C86: the rounding functions are monotone, and trunc and round are odd. -/

namespace Eirin.Props
open Spec

variable {F : FxTy}

/-- `n` is the integer nearest to `q`, ties away from zero. -/
def IsRound (q : ℚ) (n : Int) : Prop := |q - n| ≤ 1 / 2 ∧ (|q - n| = 1 / 2 → |q| < |(n : ℚ)|)

theorem isRound_mono {p q : ℚ} {m n : Int} (hm : IsRound p m) (hn : IsRound q n) (h : p ≤ q) : m ≤ n := by
  by_contra hc
  have h1 : (n : ℚ) + 1 ≤ m := by exact_mod_cast (show n + 1 ≤ m by omega)
  have a := abs_le.1 hm.1
  have b := abs_le.1 hn.1
  have ep : p = m - 1 / 2 := by linarith
  have eq : q = n + 1 / 2 := by linarith
  have en : (m : ℚ) = n + 1 := by linarith
  have t1 := hm.2 (by rw [ep, show (m : ℚ) - 1 / 2 - m = -(1 / 2) by ring, abs_neg, abs_of_pos (by norm_num)])
  have t2 := hn.2 (by rw [eq, show (n : ℚ) + 1 / 2 - n = 1 / 2 by ring, abs_of_pos (by norm_num)])
  rw [ep, en] at t1
  rw [eq] at t2
  rcases le_or_gt 0 n with h0 | h0
  · have : (0 : ℚ) ≤ n := by exact_mod_cast h0
    rw [abs_of_nonneg (by linarith), abs_of_nonneg this] at t2; linarith
  · have : (n : ℚ) + 1 ≤ 0 := by exact_mod_cast (show n + 1 ≤ 0 by omega)
    rw [abs_of_neg (by linarith), abs_of_nonpos this] at t1; linarith

theorem isRound_neg {q : ℚ} {n : Int} (h : IsRound q n) : IsRound (-q) (-n) := by
  have e : -q - ((-n : Int) : ℚ) = -(q - n) := by push_cast; ring
  unfold IsRound
  rw [e, abs_neg, abs_neg]
  refine ⟨h.1, fun h' => ?_⟩
  have := h.2 h'
  push_cast; rwa [abs_neg]

theorem floor_defined (hF : F.Valid) (hs : SignedWide F) (h1 : Storable F (2 ^ F.f)) {x a : Int} (hx : Storable F x)
    (ha : floor F x = .ok a) : Integral F a ∧ val F a ≤ val F x ∧ (∀ k : Int, (k : ℚ) ≤ val F x → (k : ℚ) ≤ val F a) := by
  have hlo : Storable F (x - (2 ^ F.f - 1)) ∨ 0 ≤ x := by
    by_contra hc
    push Not at hc
    rw [C21_floor_ub F hF hs h1 x hx hc.2 hc.1] at ha; cases ha
  obtain ⟨z, e, r⟩ := C21_floor F hF hs h1 x hx hlo
  rw [ha] at e; cases e; exact r

/-- C86: `floor` is monotone wherever it is defined. -/
theorem C86_floor_mono (F : FxTy) (hF : F.Valid) (hs : SignedWide F) (h1 : Storable F (2 ^ F.f)) (x y a b : Int)
    (hx : Storable F x) (hy : Storable F y) (hxy : val F x ≤ val F y) (ha : floor F x = .ok a) (hb : floor F y = .ok b) :
    val F a ≤ val F b := by
  obtain ⟨⟨k, hk⟩, a1, -⟩ := floor_defined hF hs h1 hx ha
  obtain ⟨-, -, b2⟩ := floor_defined hF hs h1 hy hb
  rw [hk]; exact b2 k (by rw [← hk]; linarith)

example : floor fixed32 (-65537) = .ok (-131072) ∧ floor fixed32 (-65536) = .ok (-65536) ∧ floor fixed32 65535 = .ok 0 := by
  decide +kernel

theorem trunc_raw (h : SW F) {x : Int} (hx : Storable F x) : trunc F x = .ok (Int.tdiv x (2 ^ F.f) * 2 ^ F.f) := by
  have hd := SW.dpos (F := F)
  have hr : Storable F (Int.tdiv x (2 ^ F.f) * 2 ^ F.f) := by
    have hlh := h.lo_hi
    have hdle := h.d_le
    rcases le_total 0 x with h0 | h0
    · have := (tdiv_mul_spec x hd).1 h0; exact ⟨by omega, by have := hx.2; omega⟩
    · have := (tdiv_mul_spec x hd).2 h0; exact ⟨by have := hx.1; omega, by omega⟩
  unfold trunc
  rw [h.one_eq]
  simp only []
  rw [h.cdiv_ok hx hd, Res.bind_ok, h.arith_ok hr, Res.bind_ok, h.from_ok hr]; rfl

/-- C86: `trunc` is monotone, and odd wherever `-x` is a value of the type. -/
theorem C86_trunc (F : FxTy) (hF : F.Valid) (hs : SignedWide F) (h1 : Storable F (2 ^ F.f)) (x y : Int)
    (hx : Storable F x) (hy : Storable F y) :
    ∃ a b, trunc F x = .ok a ∧ trunc F y = .ok b ∧ (val F x ≤ val F y → val F a ≤ val F b) ∧
      (val F y = - val F x → val F b = - val F a) := by
  have h : SW F := ⟨hF, hs, h1⟩
  have hd := SW.dpos (F := F)
  refine ⟨_, _, trunc_raw h hx, trunc_raw h hy, fun hxy => ?_, fun hxy => ?_⟩
  · rw [val_le] at hxy ⊢
    exact mul_le_mul_of_nonneg_right (Int.tdiv_le_tdiv hd hxy) hd.le
  · rw [← val_neg] at hxy ⊢
    have := val_inj hxy; subst this
    rw [Int.neg_tdiv, neg_mul]

example : trunc fixed32 (-98304) = .ok (-65536) ∧ trunc fixed32 98304 = .ok 65536 ∧ trunc fixed64 (-1) = .ok 0 := by decide +kernel

/-- Half a unit below the maximum, the nearest integer is a value of the type. -/
theorem round_representable (h : SW F) {x : Int} (hx : Storable F x) (hhi : val F x + 1 / 2 ≤ val F F.T.hi) {k : Int}
    (hk : |val F x - k| ≤ 1 / 2) : Representable F k := by
  have hF := h.valid
  have hd := SW.dpos (F := F)
  have hlh := h.lo_hi
  have hB : F.T.hi + 1 = 2 ^ (F.T.bits - 1 - F.f) * 2 ^ F.f := by
    rw [h.hi_eq, ← pow_add]; have := hF.2.2.2.2.2; rw [Nat.sub_add_cancel this]; ring
  have hB2 : F.T.lo = -(2 ^ (F.T.bits - 1 - F.f)) * 2 ^ F.f := by rw [hlh, neg_mul, ← hB]; ring
  have hab := abs_le.1 hk
  refine ⟨k * 2 ^ F.f, ⟨?_, ?_⟩, val_int F k⟩
  · rw [hB2]
    apply mul_le_mul_of_nonneg_right _ hd.le
    have h1 : val F F.T.lo ≤ val F x := val_le.2 hx.1
    rw [hB2, val_int] at h1
    have : ((-(2 ^ (F.T.bits - 1 - F.f)) : Int) : ℚ) < ((k + 1 : Int) : ℚ) := by push_cast at h1 ⊢; linarith [hab.2]
    have := Int.cast_lt.1 this
    omega
  · have : val F (k * 2 ^ F.f) ≤ val F F.T.hi := by rw [val_int]; linarith [hab.1]
    exact val_le.1 this

/-- C86: `round` is monotone, and odd, on the values at least half a unit below the maximum. -/
theorem C86_round (F : FxTy) (hF : F.Valid) (hs : SignedWide F) (h1 : Storable F (2 ^ F.f)) (x y : Int)
    (hx : Storable F x) (hy : Storable F y) (hx' : val F x + 1 / 2 ≤ val F F.T.hi) (hy' : val F y + 1 / 2 ≤ val F F.T.hi) :
    ∃ a b, round F x = .ok a ∧ round F y = .ok b ∧ (val F x ≤ val F y → val F a ≤ val F b) ∧
      (val F y = - val F x → val F b = - val F a) := by
  have h : SW F := ⟨hF, hs, h1⟩
  obtain ⟨a, k, ea, a1, a2, a3, -⟩ := C24_round F hF hs h1 x hx
  obtain ⟨b, l, eb, b1, b2, b3, -⟩ := C24_round F hF hs h1 y hy
  have ra := a3 (round_representable h hx hx' a1)
  have rb := b3 (round_representable h hy hy' b1)
  refine ⟨a, b, ea, eb, fun hxy => ?_, fun hxy => ?_⟩
  · rw [ra, rb]; exact_mod_cast isRound_mono ⟨a1, a2⟩ ⟨b1, b2⟩ hxy
  · have i1 := isRound_neg (q := val F x) ⟨a1, a2⟩
    rw [← hxy] at i1
    have := le_antisymm (isRound_mono i1 ⟨b1, b2⟩ le_rfl) (isRound_mono ⟨b1, b2⟩ i1 le_rfl)
    rw [ra, rb, ← this]; push_cast; ring

/-- C86: without that bound `round` is not monotone: the largest values round to the minimum. -/
theorem C86_round_top : round fixed32 (2 ^ 31 - 1) = .ok (-2 ^ 31) ∧ round fixed32 (2 ^ 31 - 32769) = .ok (2 ^ 31 - 65536) := by
  decide +kernel

example : round fixed32 98304 = .ok 131072 ∧ round fixed32 (-98304) = .ok (-131072) ∧ round fixed32 98303 = .ok 65536 ∧
    val fixed32 98304 + 1 / 2 ≤ val fixed32 fixed32.T.hi := by
  refine ⟨by decide +kernel, by decide +kernel, by decide +kernel, ?_⟩
  norm_num [val, fixed32, IntTy.hi]

/-- C86: the rounding functions are ordered: `floor x ≤ x`, `floor x ≤ trunc x` with equality for `x ≥ 0`, and `round x` is
`floor x` or `floor x + 1`. -/
theorem C86_order (F : FxTy) (hF : F.Valid) (hs : SignedWide F) (h1 : Storable F (2 ^ F.f)) (x a : Int)
    (hx : Storable F x) (hx' : val F x + 1 / 2 ≤ val F F.T.hi) (ha : floor F x = .ok a) :
    ∃ t r, trunc F x = .ok t ∧ round F x = .ok r ∧ val F a ≤ val F x ∧ val F a ≤ val F t ∧ (0 ≤ val F x → t = a) ∧
      (val F r = val F a ∨ val F r = val F a + 1) := by
  have h : SW F := ⟨hF, hs, h1⟩
  have hd := SW.dpos (F := F)
  obtain ⟨⟨k, hk⟩, a1, a2⟩ := floor_defined hF hs h1 hx ha
  obtain ⟨r, n, er, r1, r2, r3, -⟩ := C24_round F hF hs h1 x hx
  have rr := r3 (round_representable h hx hx' r1)
  have lt1 : val F x < k + 1 := by
    by_contra hc
    have := a2 (k + 1) (by push_cast; linarith)
    rw [hk] at this; push_cast at this; linarith
  have hab := abs_le.1 r1
  refine ⟨_, r, trunc_raw h hx, er, a1, ?_, fun h0 => ?_, ?_⟩
  · rcases le_or_gt 0 x with h0 | h0
    · have := (tdiv_mul_spec x hd).1 h0
      rw [val_int, hk]
      have e : (k : ℚ) < ((Int.tdiv x (2 ^ F.f) + 1 : Int) : ℚ) := by
        have : val F x < val F ((Int.tdiv x (2 ^ F.f) + 1) * 2 ^ F.f) := by rw [val_lt, add_mul]; omega
        rw [val_int] at this
        linarith
      have := Int.cast_lt.1 e
      exact_mod_cast (show k ≤ Int.tdiv x (2 ^ F.f) by omega)
    · have := (tdiv_mul_spec x hd).2 h0.le
      exact le_trans a1 (val_le.2 this.2.1)
  · rw [← val_zero F, val_le] at h0
    have := (tdiv_mul_spec x hd).1 h0
    apply val_inj (F := F)
    rw [val_int, hk]
    have e : (k : ℚ) < ((Int.tdiv x (2 ^ F.f) + 1 : Int) : ℚ) := by
      have : val F x < val F ((Int.tdiv x (2 ^ F.f) + 1) * 2 ^ F.f) := by rw [val_lt, add_mul]; omega
      rw [val_int] at this
      linarith
    have e1 := Int.cast_lt.1 e
    have e2 : ((Int.tdiv x (2 ^ F.f) : Int) : ℚ) < ((k + 1 : Int) : ℚ) := by
      have : val F (Int.tdiv x (2 ^ F.f) * 2 ^ F.f) ≤ val F x := by rw [val_le]; omega
      rw [val_int] at this
      push_cast; linarith
    have e2 := Int.cast_lt.1 e2
    exact_mod_cast (show Int.tdiv x (2 ^ F.f) = k by omega)
  · rw [rr, hk]
    have e1 : (k : ℚ) < ((n + 1 : Int) : ℚ) := by push_cast; linarith [hab.2]
    have e2 : (n : ℚ) < ((k + 2 : Int) : ℚ) := by push_cast; linarith [hab.1]
    have e1 := Int.cast_lt.1 e1
    have e2 := Int.cast_lt.1 e2
    rcases show n = k ∨ n = k + 1 by omega with e | e
    · left; rw [e]
    · right; rw [e]; push_cast; ring

example : floor fixed32 (-98303) = .ok (-131072) ∧ trunc fixed32 (-98303) = .ok (-65536) ∧ round fixed32 (-98303) = .ok (-65536) ∧
    floor fixed32 98305 = .ok 65536 ∧ trunc fixed32 98305 = .ok 65536 ∧ round fixed32 98305 = .ok 131072 := by decide +kernel

end Eirin.Props
