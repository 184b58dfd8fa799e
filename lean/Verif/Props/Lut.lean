import Verif.Props.Util
import Verif.Props.Exp

/-! # C75–C76: the table-driven sine `lut_calc_sin` -/

namespace Eirin.Props
open Spec

/-- Every entry of the table is the number `|e| ≤ 1`. -/
def UnitTable (l : List Int) : Prop := ∀ e ∈ l, |e| ≤ 2 ^ 32
instance (l : List Int) : Decidable (UnitTable l) := by unfold UnitTable; infer_instance

/-- C75: full statement: the result is defined for every angle. -/
def C75_statement : Prop :=
  ∀ (N : Nat) (l : List Int), 2 ≤ N → N ≤ 4096 → l.length = N → UnitTable l → ∀ x, Storable fixed64 x → (lutInterp N l x).IsOk

/-- C75 is false of the code: the reduction of a large negative angle overflows. -/
theorem C75_false : ¬ C75_statement := by
  intro h
  have h1 := h 2 [0, 0] le_rfl (by norm_num) rfl (by decide +kernel) (-2 ^ 63) (by decide +kernel)
  have h2 : lutInterp 2 [0, 0] (-2 ^ 63) = .ub .overflow := by decide +kernel
  rw [h2] at h1
  exact h1

theorem r64 {z : Int} (h1 : -2 ^ 63 ≤ z) (h2 : z ≤ 2 ^ 63 - 1) : fixed64.T.InRange z :=
  ⟨by rw [show fixed64.T.lo = -2 ^ 63 by rfl]; exact h1, by rw [show fixed64.T.hi = 2 ^ 63 - 1 by rfl]; exact h2⟩

theorem div64 {x y : Int} (hx0 : 0 ≤ x) (hx : x ≤ 2 ^ 63 - 1) (hy : 0 < y) (hq : x * 2 ^ 32 / y ≤ 2 ^ 63 - 1) :
    div fixed64 x y = .ok (x * 2 ^ 32 / y) := by
  have e : Int.tdiv (x * 2 ^ 32) y = x * 2 ^ 32 / y := Int.tdiv_eq_ediv_of_nonneg (by omega)
  have hq0 : 0 ≤ x * 2 ^ 32 / y := Int.ediv_nonneg (by omega) hy.le
  have := sw64.div_ok rfl (x := x) (y := y) (r64 (by omega) hx) hy.ne'
    (by rw [show fixed64.f = 32 by rfl, e]; exact r64 (by omega) hq)
  rw [this, show fixed64.f = 32 by rfl, e]

theorem ip64 {x : Int} (h0 : 0 ≤ x) (hx : x ≤ 2 ^ 63 - 1) : integralPart fixed64 x = .ok (x / 2 ^ 32) :=
  (intPart_nonneg lib64 (r64 (by omega) hx) h0).1

theorem ofInt64 {n : Int} (h1 : -2 ^ 31 ≤ n) (h2 : n < 2 ^ 31) : ofInt fixed64 n = n * 2 ^ 32 :=
  sw64.ofInt_ok (r64 (by rw [show fixed64.f = 32 by rfl]; omega) (by rw [show fixed64.f = 32 by rfl]; omega))

theorem mul64 {x y : Int} (hx : |x| ≤ 2 ^ 32) (hy : |y| ≤ 2 ^ 33) :
    mul fixed64 x y = .ok (x * y / 2 ^ 32) ∧ |x * y / 2 ^ 32| ≤ 2 ^ 34 := by
  have hxy : |x * y| ≤ 2 ^ 65 := by
    rw [abs_mul]
    calc |x| * |y| ≤ 2 ^ 32 * 2 ^ 33 := mul_le_mul hx hy (abs_nonneg _) (by norm_num)
      _ = 2 ^ 65 := by norm_num
  rw [abs_le] at hx hy hxy
  have := sw64.mul_ok rfl (x := x) (y := y) (r64 (by omega) (by omega)) (r64 (by omega) (by omega))
    (by rw [show fixed64.f = 32 by rfl]; exact r64 (by omega) (by omega))
  rw [this, show fixed64.f = 32 by rfl]
  refine ⟨rfl, ?_⟩
  rw [abs_le]; omega

theorem lutGet_ok {l : List Int} {i : Int} (h0 : 0 ≤ i) (h1 : i < l.length) (hu : UnitTable l) :
    ∃ a, l[i.toNat]? = some a ∧ lutGet l i = .ok a ∧ |a| ≤ 2 ^ 32 := by
  have hi : i.toNat < l.length := by omega
  refine ⟨l[i.toNat], by simp [hi], ?_, hu _ (List.getElem_mem hi)⟩
  unfold lutGet
  rw [if_pos h0]
  simp [hi]

/-- The interpolation at a reduced angle. -/
theorem lutAt_ok {N : Nat} (h2 : 2 ≤ N) (hN : N ≤ 4096) {l : List Int} (hl : l.length = N) (hu : UnitTable l) {xm : Int}
    (h0 : 0 ≤ xm) (h1 : xm < 13493037704) :
    ∃ (i : Nat) (a b fr : Int), i + 1 < N ∧ l[i]? = some a ∧ l[i + 1]? = some b ∧ 0 ≤ fr ∧ fr < 2 ^ 33 ∧ (i + 2 < N → fr < 2 ^ 32) ∧
      (i * 2 ^ 32 + fr) * (13493037704 / (N - 1)) ≤ xm * 2 ^ 32 ∧ xm * 2 ^ 32 < (i * 2 ^ 32 + fr + 1) * (13493037704 / (N - 1)) ∧
      |a| ≤ 2 ^ 32 ∧ |b| ≤ 2 ^ 32 ∧
      lutAt N l 13493037704 xm = .ok (a * (2 ^ 32 - fr) / 2 ^ 32 + b * fr / 2 ^ 32) := by
  have hN1 : (0 : Int) < N - 1 := by omega
  have hN4 : (N : Int) ≤ 4096 := by exact_mod_cast hN
  obtain ⟨st, hst⟩ : ∃ st : Int, st = 13493037704 / ((N : Int) - 1) := ⟨_, rfl⟩
  have s1 : st * (N - 1) ≤ 13493037704 := by rw [hst]; exact Int.ediv_mul_le _ hN1.ne'
  have s2 : 13493037704 < (st + 1) * (N - 1) := by rw [hst]; exact Int.lt_ediv_add_one_mul_self _ hN1
  have s3 : 4096 ≤ st := by
    by_contra h
    have : (st + 1) * ((N : Int) - 1) ≤ 4096 * ((N : Int) - 1) := mul_le_mul_of_nonneg_right (by omega) hN1.le
    omega
  have s4 : st ≤ 13493037704 := by rw [hst]; exact Int.ediv_le_self _ (by norm_num)
  have e1 : div fixed64 13493037704 (ofInt fixed64 ((N : Int) - 1)) = .ok st := by
    have e : (13493037704 : Int) * 2 ^ 32 / (((N : Int) - 1) * 2 ^ 32) = st := by
      rw [Int.mul_ediv_mul_of_pos_left _ _ (by norm_num), hst]
    rw [ofInt64 (by omega) (by omega), div64 (by norm_num) (by norm_num) (by omega) (by rw [e]; omega), e]
  rw [← hst]
  obtain ⟨pos, hpos⟩ : ∃ pos : Int, pos = xm * 2 ^ 32 / st := ⟨_, rfl⟩
  have p1 : pos * st ≤ xm * 2 ^ 32 := by rw [hpos]; exact Int.ediv_mul_le _ (by omega)
  have p2 : xm * 2 ^ 32 < (pos + 1) * st := by rw [hpos]; exact Int.lt_ediv_add_one_mul_self _ (by omega)
  have p0 : 0 ≤ pos := by rw [hpos]; exact Int.ediv_nonneg (by omega) (by omega)
  have p3 : pos < N * 2 ^ 32 := by
    have : xm < N * st := by
      have : (st + 1) * ((N : Int) - 1) = N * st + N - st - 1 := by ring
      omega
    rw [hpos]
    apply Int.ediv_lt_of_lt_mul (by omega)
    have : (N : Int) * 2 ^ 32 * st = N * st * 2 ^ 32 := by ring
    omega
  have e2 : div fixed64 xm st = .ok pos := by
    rw [div64 h0 (by omega) (by omega) (by rw [← hpos]; omega), ← hpos]
  have e3 : integralPart fixed64 pos = .ok (pos / 2 ^ 32) := ip64 p0 (by omega)
  have e4 : i64.wrap ((N : Int) - 2) = N - 2 := by
    apply IntTy.wrap_of_inRange (by decide)
    exact r64 (by omega) (by omega)
  obtain ⟨idx, hidx⟩ : ∃ idx : Int, idx = if (N : Int) - 2 < pos / 2 ^ 32 then (N : Int) - 2 else pos / 2 ^ 32 := ⟨_, rfl⟩
  have i0 : 0 ≤ idx ∧ idx ≤ N - 2 ∧ idx * 2 ^ 32 ≤ pos ∧ pos - idx * 2 ^ 32 < 2 ^ 33 ∧ (idx < N - 2 → pos - idx * 2 ^ 32 < 2 ^ 32) := by
    rw [hidx]; split <;> omega
  obtain ⟨i1, i2, i3, i4, i5⟩ := i0
  obtain ⟨fr, hfr⟩ : ∃ fr : Int, fr = pos - idx * 2 ^ 32 := ⟨_, rfl⟩
  rw [← hfr] at i4 i5
  have f0 : 0 ≤ fr := by omega
  have e5 : sub fixed64 pos (ofInt fixed64 idx) = .ok fr := by
    rw [ofInt64 (by omega) (by omega), sw64.sub_ok (r64 (by omega) (by omega)), hfr]
  obtain ⟨a, ha1, ha2, ha3⟩ := lutGet_ok (l := l) (i := idx) i1 (by omega) hu
  obtain ⟨b, hb1, hb2, hb3⟩ := lutGet_ok (l := l) (i := idx + 1) (by omega) (by omega) hu
  have e6 : intSub fixed64 1 fr = .ok (2 ^ 32 - fr) := by
    unfold intSub
    rw [ofInt64 (by norm_num) (by norm_num)]
    exact sw64.sub_ok (x := 1 * 2 ^ 32) (r64 (by omega) (by omega))
  obtain ⟨m1, m1b⟩ := mul64 (x := a) (y := 2 ^ 32 - fr) ha3 (by rw [abs_le]; omega)
  obtain ⟨m2, m2b⟩ := mul64 (x := b) (y := fr) hb3 (by rw [abs_le]; omega)
  rw [abs_le] at m1b m2b
  refine ⟨idx.toNat, a, b, fr, by omega, ha1, ?_, f0, i4, fun h => i5 (by omega), ?_, ?_, ha3, hb3, ?_⟩
  · have e : (idx + 1).toNat = idx.toNat + 1 := by omega
    rw [e] at hb1; exact hb1
  · rw [Int.toNat_of_nonneg i1, show idx * 2 ^ 32 + fr = pos by omega]; exact p1
  · rw [Int.toNat_of_nonneg i1, show idx * 2 ^ 32 + fr = pos by omega]; exact p2
  · unfold lutAt
    rw [e1, Res.bind_ok, e2, Res.bind_ok, e3, Res.bind_ok]
    simp only []
    rw [e4, ← hidx, e5, Res.bind_ok, ha2, Res.bind_ok, e6, Res.bind_ok, m1, Res.bind_ok, hb2, Res.bind_ok, m2, Res.bind_ok,
      sw64.add_ok (r64 (by omega) (by omega))]

/-- C75: `r` is the interpolated value of the table at the angle `x`: with `x = xm + k P`, `0 ≤ xm < P`, the table position
`i + fr/2^32` of `xm` on a grid of spacing `P / (N - 1)`, the two neighbouring entries weighted by `1 - fr` and `fr`, negated for odd `k`. -/
def Interpolates (P : Int) (N : Nat) (l : List Int) (x r : Int) : Prop :=
  ∃ (k xm : Int) (i : Nat) (a b fr : Int), x = xm + k * P ∧ 0 ≤ k ∧ 0 ≤ xm ∧ xm < P ∧ i + 1 < N ∧ l[i]? = some a ∧ l[i + 1]? = some b ∧
    0 ≤ fr ∧ fr < 2 ^ 33 ∧ (i + 2 < N → fr < 2 ^ 32) ∧
    (i * 2 ^ 32 + fr) * (P / (N - 1)) ≤ xm * 2 ^ 32 ∧ xm * 2 ^ 32 < (i * 2 ^ 32 + fr + 1) * (P / (N - 1)) ∧
    |a| ≤ 2 ^ 32 ∧ |b| ≤ 2 ^ 32 ∧
    (k % 2 = 0 → r = a * (2 ^ 32 - fr) / 2 ^ 32 + b * fr / 2 ^ 32) ∧
    (k % 2 = 1 → r = -(a * (2 ^ 32 - fr) / 2 ^ 32 + b * fr / 2 ^ 32))

/-- C75 for non-negative angles: for every table size up to 4096, every table of numbers in `[-1, 1]` and every angle `x ≥ 0` the function is
defined, reads two neighbouring entries of the table, and interpolates between them.
Full statement: `C75_statement`; missing (false): large negative angles (undefined); `C75_in_bounds` covers all angles. -/
theorem C75_nonneg_partial (N : Nat) (l : List Int) (h2 : 2 ≤ N) (hN : N ≤ 4096) (hl : l.length = N) (hu : UnitTable l) (x : Int)
    (hx : Storable fixed64 x) (hx0 : 0 ≤ x) :
    ∃ P r, cPi fixed64 = .ok P ∧ lutInterp N l x = .ok r ∧ Interpolates P N l x r := by
  have hpi : cPi fixed64 = .ok 13493037704 := by decide +kernel
  have htp : mul fixed64 13493037704 (2 ^ 33) = .ok 26986075408 := by decide +kernel
  have hx1 : x ≤ 2 ^ 63 - 1 := hx.2
  obtain ⟨q, hq⟩ : ∃ q : Int, q = x * 2 ^ 32 / 26986075408 := ⟨_, rfl⟩
  have q0 : 0 ≤ q ∧ q ≤ 2 ^ 61 := by omega
  obtain ⟨n, hn⟩ : ∃ n : Int, n = q / 2 ^ 32 := ⟨_, rfl⟩
  have hn2 : n * 26986075408 ≤ x ∧ x < (n + 1) * 26986075408 ∧ 0 ≤ n := by omega
  obtain ⟨xm, hxm⟩ : ∃ xm : Int, xm = x - 26986075408 * n := ⟨_, rfl⟩
  have e1 : div fixed64 x 26986075408 = .ok q := by
    rw [div64 hx0 hx1 (by norm_num) (by rw [← hq]; omega), ← hq]
  have e2 : integralPart fixed64 q = .ok n := by rw [ip64 q0.1 (by omega), hn]
  have e3 : mulInt fixed64 i64 26986075408 n = .ok (26986075408 * n) := by
    unfold mulInt mulIntAssign
    simp only [show IntTy.common fixed64.T i64 = fixed64.T by rfl]
    rw [sw64.wrap_ok (r64 (by norm_num) (by norm_num)), sw64.wrap_ok (r64 (by omega) (by omega)),
      arith_of_inRange (by decide) (r64 (by omega) (by omega)), Res.bind_ok, sw64.wrap_ok (r64 (by omega) (by omega))]
    rfl
  have e4 : sub fixed64 x (26986075408 * n) = .ok xm := by rw [sw64.sub_ok (r64 (by omega) (by omega)), hxm]
  have unf : lutInterp N l x = if ge xm 13493037704 then (do
      let y ← subAssign fixed64 xm 13493037704
      let result ← lutAt N l 13493037704 y
      neg fixed64 result) else lutAt N l 13493037704 xm := by
    unfold lutInterp
    rw [hpi, Res.bind_ok, htp, Res.bind_ok, e1, Res.bind_ok, e2, Res.bind_ok, e3, Res.bind_ok, e4, Res.bind_ok]
  rw [unf]
  by_cases hg : ge xm 13493037704 = true
  · rw [if_pos hg]
    rw [ge_iff] at hg
    have e5 : subAssign fixed64 xm 13493037704 = .ok (xm - 13493037704) := sw64.sub_ok (x := xm) (r64 (by omega) (by omega))
    obtain ⟨i, a, b, fr, g1, g2, g3, g4, g5, g6, g7, g8, g9, g10, g11⟩ := lutAt_ok h2 hN hl hu (xm := xm - 13493037704) (by omega) (by omega)
    obtain ⟨_, m1b⟩ := mul64 (x := a) (y := 2 ^ 32 - fr) g9 (by rw [abs_le]; omega)
    obtain ⟨_, m2b⟩ := mul64 (x := b) (y := fr) g10 (by rw [abs_le]; omega)
    rw [abs_le] at m1b m2b
    rw [e5, Res.bind_ok, g11, Res.bind_ok, sw64.neg_ok (r64 (by omega) (by omega))]
    refine ⟨_, _, hpi, rfl, 2 * n + 1, xm - 13493037704, i, a, b, fr, by omega, by omega, by omega, by omega, g1, g2, g3, g4, g5, g6, g7, g8, g9, g10, ?_, ?_⟩
    · intro h; omega
    · intro _; rfl
  · rw [if_neg hg]
    rw [ge_iff] at hg
    obtain ⟨i, a, b, fr, g1, g2, g3, g4, g5, g6, g7, g8, g9, g10, g11⟩ := lutAt_ok h2 hN hl hu (xm := xm) (by omega) (by omega)
    rw [g11]
    refine ⟨_, _, hpi, rfl, 2 * n, xm, i, a, b, fr, by omega, by omega, by omega, by omega, g1, g2, g3, g4, g5, g6, g7, g8, g9, g10, ?_, ?_⟩
    · intro _; rfl
    · intro h; omega

example : UnitTable [0, 2 ^ 32, -2 ^ 32] ∧ Storable fixed64 (10 * 2 ^ 32) ∧ lutInterp 3 [0, 2 ^ 32, -2 ^ 32] (10 * 2 ^ 32) = .ok (-1572807248) := by
  decide +kernel

/-! ### No angle makes it read outside the table -/

/-- The outcome is not an out-of-bounds read. -/
def NB {α : Type} (r : Res α) : Prop := r ≠ .ub .bounds

namespace NB
variable {α β : Type}
theorem ok (a : α) : NB (Res.ok a) := fun h => by cases h
theorem bind {a : Res α} {k : α → Res β} (ha : NB a) (hk : ∀ x, a = .ok x → NB (k x)) : NB (a >>= k) := by
  cases a with
  | ok x => exact hk x rfl
  | ub u => intro h; exact ha (by cases h; rfl)
  | throw e => intro h; cases h
theorem arith (t : IntTy) (n : Int) : NB (arith t n) := by
  unfold Eirin.arith; split
  · split
    · exact ok _
    · intro h; cases h
  · exact ok _
theorem cdiv (t : IntTy) (a b : Int) : NB (cdiv t a b) := by
  unfold Eirin.cdiv; split
  · intro h; cases h
  · split
    · intro h; cases h
    · exact ok _
theorem shl (t : IntTy) (a : Int) (k : Nat) : NB (shl t a k) := by
  unfold Eirin.shl; split
  · exact ok _
  · intro h; cases h
theorem shr (t : IntTy) (a : Int) (k : Nat) : NB (shr t a k) := by
  unfold Eirin.shr; split
  · exact ok _
  · intro h; cases h
theorem add (x y : Int) : NB (add fixed64 x y) := bind (arith _ _) fun _ _ => ok _
theorem sub (x y : Int) : NB (sub fixed64 x y) := bind (arith _ _) fun _ _ => ok _
theorem neg (x : Int) : NB (neg fixed64 x) := bind (arith _ _) fun _ _ => ok _
theorem subAssign (x y : Int) : NB (subAssign fixed64 x y) := bind (arith _ _) fun _ _ => ok _
theorem mulInt (x n : Int) : NB (mulInt fixed64 i64 x n) := bind (arith _ _) fun _ _ => ok _
theorem mul (x y : Int) : NB (mul fixed64 x y) := by
  unfold Eirin.mul
  rw [if_neg (by decide)]
  exact bind (arith _ _) fun _ _ => bind (shr _ _ _) fun _ _ => ok _
theorem div (x y : Int) : NB (div fixed64 x y) := by
  unfold Eirin.div
  rw [if_neg (by decide)]
  exact bind (shl _ _ _) fun _ _ => bind (cdiv _ _ _) fun _ _ => ok _
theorem integralPart (x : Int) : NB (integralPart fixed64 x) := by
  unfold Eirin.integralPart
  by_cases h : signbit fixed64 x = true
  · rw [if_pos h]
    refine bind (arith _ _) fun _ _ => ?_
    exact bind (ok _) fun _ _ => bind (shr _ _ _) fun _ _ => ok _
  · rw [if_neg h]
    exact bind (ok _) fun _ _ => bind (shr _ _ _) fun _ _ => ok _
end NB

theorem div_inRange {x y z : Int} (h : div fixed64 x y = .ok z) : fixed64.T.InRange z := by
  have hw : ∀ n, fixed64.T.InRange (fixed64.T.wrap n) := fun n => IntTy.wrap_inRange n (by decide)
  unfold div at h
  rw [if_neg (by decide)] at h
  cases h1 : shl fixed64.I x fixed64.f with
  | ok a =>
    rw [h1, Res.bind_ok] at h
    cases h2 : cdiv fixed64.C a y with
    | ok b =>
      rw [h2, Res.bind_ok] at h
      cases h; exact hw _
    | ub u => rw [h2] at h; cases h
    | throw e => rw [h2] at h; cases h
  | ub u => rw [h1] at h; cases h
  | throw e => rw [h1] at h; cases h

theorem integralPart_nonneg {x i : Int} (hx : fixed64.T.InRange x) (h : integralPart fixed64 x = .ok i) : 0 ≤ i := by
  have hx1 : -2 ^ 63 ≤ x := hx.1
  have hx2 : x ≤ 2 ^ 63 - 1 := hx.2
  by_cases h0 : 0 ≤ x
  · rw [ip64 h0 hx2] at h
    cases h; omega
  · have hs : signbit fixed64 x = true := by rw [signbit_iff (by decide) hx]; omega
    unfold integralPart at h
    rw [if_pos hs] at h
    have e1 : fixed64.T.wrap (cnot fixed64.T x) = -x - 1 := by
      unfold cnot
      have hr : fixed64.T.InRange (-x - 1) := r64 (by omega) (by omega)
      rw [show fixed64.T.promote = fixed64.T by rfl, sw64.wrap_ok hr, sw64.wrap_ok hr]
    have e2 : oneShl fixed64 = 2 ^ 32 := by decide +kernel
    simp only [e1, e2] at h
    by_cases hr : fixed64.T.InRange (-x - 1 + 2 ^ 32)
    · rw [sw64.arith_ok hr, Res.bind_ok] at h
      have hle : -x - 1 + 2 ^ 32 ≤ 2 ^ 63 - 1 := hr.2
      simp only [Res.pure_eq] at h
      rw [sw64.wrap_ok hr, Res.bind_ok] at h
      unfold shr at h
      rw [if_pos (by decide), Res.bind_ok, show fixed64.f = 32 by rfl, sw64.wrap_ok (r64 (by omega) (by omega))] at h
      cases h; omega
    · rw [sw64.arith_ub hr] at h
      cases h

theorem lutGet_nb {l : List Int} {i : Int} (h0 : 0 ≤ i) (h1 : i < l.length) : NB (lutGet l i) := by
  have hi : i.toNat < l.length := by omega
  unfold lutGet
  rw [if_pos h0]
  simp only [hi, List.getElem?_eq_getElem]
  exact NB.ok _

theorem lutAt_nb {N : Nat} (h2 : 2 ≤ N) (hN : N < 2 ^ 31) {l : List Int} (hl : l.length = N) (pi xm : Int) : NB (lutAt N l pi xm) := by
  unfold lutAt
  refine NB.bind (NB.div _ _) fun st _ => NB.bind (NB.div _ _) fun pos hpos => NB.bind (NB.integralPart _) fun ip hip => ?_
  have hip0 := integralPart_nonneg (div_inRange hpos) hip
  have e4 : i64.wrap ((N : Int) - 2) = N - 2 := by
    apply IntTy.wrap_of_inRange (by decide)
    exact r64 (by omega) (by omega)
  simp only [e4]
  obtain ⟨idx, hidx⟩ : ∃ idx : Int, idx = if (N : Int) - 2 < ip then (N : Int) - 2 else ip := ⟨_, rfl⟩
  rw [← hidx]
  have i0 : 0 ≤ idx ∧ idx ≤ N - 2 := by rw [hidx]; split <;> omega
  exact NB.bind (NB.sub _ _) fun _ _ => NB.bind (lutGet_nb i0.1 (by omega)) fun _ _ => NB.bind (NB.sub _ _) fun _ _ =>
    NB.bind (NB.mul _ _) fun _ _ => NB.bind (lutGet_nb (by omega) (by omega)) fun _ _ => NB.bind (NB.mul _ _) fun _ _ => NB.add _ _

/-- C75: for every angle, negative ones included, and every table of `N` entries, no read is outside the table. -/
theorem C75_in_bounds (N : Nat) (l : List Int) (h2 : 2 ≤ N) (hN : N < 2 ^ 31) (hl : l.length = N) (x : Int) :
    lutInterp N l x ≠ .ub .bounds := by
  have hpi : cPi fixed64 = .ok 13493037704 := by decide +kernel
  unfold lutInterp
  rw [hpi, Res.bind_ok]
  refine NB.bind (NB.mul _ _) fun _ _ => NB.bind (NB.div _ _) fun _ _ => NB.bind (NB.integralPart _) fun _ _ =>
    NB.bind (NB.mulInt _ _) fun _ _ => NB.bind (NB.sub _ _) fun _ _ => ?_
  split
  · exact NB.bind (NB.subAssign _ _) fun _ _ => NB.bind (lutAt_nb h2 hN hl _ _) fun _ _ => NB.neg _
  · exact lutAt_nb h2 hN hl _ _

example : lutInterp 3 [0, 2 ^ 32, -2 ^ 32] (-10 * 2 ^ 32) = .ok 136289600672 := by decide +kernel

end Eirin.Props
