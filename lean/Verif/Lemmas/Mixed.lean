import Verif.Lemmas.Signed
import Verif.Props.Mixed

/-! # Evaluation lemmas for mixed operators and comparisons (helper lemmas). -/

namespace Eirin
open Spec

theorem lt_iff {x y : Int} : lt x y = true ↔ x < y := by
  unfold lt cmp; rw [beq_iff_eq, compare_lt_iff_lt]
theorem gt_iff {x y : Int} : gt x y = true ↔ y < x := by
  unfold gt cmp; rw [beq_iff_eq, compare_gt_iff_gt]
theorem le_iff {x y : Int} : le x y = true ↔ x ≤ y := by
  unfold le cmp; rw [bne_iff_ne, ne_eq, compare_gt_iff_gt, not_lt]
theorem ge_iff {x y : Int} : ge x y = true ↔ y ≤ x := by
  unfold ge cmp; rw [bne_iff_ne, ne_eq, compare_lt_iff_lt, not_lt]
theorem eq_iff {x y : Int} : eq x y = true ↔ x = y := by
  unfold eq; rw [decide_eq_true_iff]

namespace SG
variable {F : FxTy} (h : SG F)
include h

/-- The type in which a value and an `int` are combined holds every value and every `int`. -/
theorem common_spec : 0 < (IntTy.common F.T i32).bits ∧ (∀ n, F.T.InRange n → (IntTy.common F.T i32).InRange n) ∧
    ∀ n, i32.InRange n → (IntTy.common F.T i32).InRange n := by
  obtain ⟨v1, -⟩ := h.valid
  have hs := h.sg
  have hm : ∀ n, n = 8 ∨ n = 16 ∨ n = 32 ∨ n = 64 → 0 < (IntTy.common ⟨n, true⟩ i32).bits ∧
      (IntTy.common ⟨n, true⟩ i32).lo ≤ (⟨n, true⟩ : IntTy).lo ∧ (⟨n, true⟩ : IntTy).hi ≤ (IntTy.common ⟨n, true⟩ i32).hi ∧
      (IntTy.common ⟨n, true⟩ i32).lo ≤ i32.lo ∧ i32.hi ≤ (IntTy.common ⟨n, true⟩ i32).hi := by
    rintro n (rfl | rfl | rfl | rfl) <;> decide
  obtain ⟨⟨b, s⟩, I, f, r⟩ := F
  simp only at hs v1 ⊢
  subst hs
  obtain ⟨m1, m2, m3, m4, m5⟩ := hm b v1
  exact ⟨m1, fun n hn => ⟨le_trans m2 hn.1, le_trans hn.2 m3⟩, fun n hn => ⟨le_trans m4 hn.1, le_trans hn.2 m5⟩⟩

theorem divInt_ok {x n : Int} (hx : F.T.InRange x) (hn : 0 < n) (hn2 : n < 2 ^ 31) :
    divInt F i32 x n = .ok (Int.tdiv x n) := by
  obtain ⟨c0, c1, c2⟩ := h.common_spec
  have hr := h.tdiv_inRange hx hn
  unfold divInt divIntAssign cdiv
  simp only
  rw [IntTy.wrap_of_inRange c0 (c1 x hx), IntTy.wrap_of_inRange c0 (c2 n ⟨by rw [show i32.lo = -2 ^ 31 by rfl]; omega, by rw [show i32.hi = 2 ^ 31 - 1 by rfl]; omega⟩),
    if_neg hn.ne', if_neg (fun hc => hc.2 (c1 _ hr)), Res.bind_ok, h.wrap_ok hr]; rfl

theorem mulInt_ok {x n : Int} (hx : F.T.InRange x) (hn : i32.InRange n) (hp : F.T.InRange (x * n)) :
    mulInt F i32 x n = .ok (x * n) := by
  obtain ⟨c0, c1, c2⟩ := h.common_spec
  unfold mulInt mulIntAssign
  simp only
  rw [IntTy.wrap_of_inRange c0 (c1 x hx), IntTy.wrap_of_inRange c0 (c2 n hn), arith_of_inRange c0 (c1 _ hp), Res.bind_ok, h.wrap_ok hp]; rfl

theorem intMul_ok {x n : Int} (hx : F.T.InRange x) (hn : i32.InRange n) (hp : F.T.InRange (x * n)) :
    intMul F i32 n x = .ok (x * n) := h.mulInt_ok hx hn hp

theorem ofInt_ok {n : Int} (hn : F.T.InRange (n * 2 ^ F.f)) : ofInt F n = n * 2 ^ F.f := by
  rw [Props.ofInt_eq F h.valid, h.wrap_ok hn]

theorem shl_ok {n : Int} (hs : F.T.InRange (n * 2 ^ F.f)) : shl F.T n F.f = .ok (n * 2 ^ F.f) := by
  have hfb : F.f < F.T.promote.bits := lt_of_lt_of_le h.valid.flt h.valid.tp
  unfold shl
  rw [if_pos hfb, IntTy.wrap_of_inRange h.valid.ppos (IntTy.inRange_promote h.valid.tpos hs)]

theorem int_in {n : Int} (hs : F.T.InRange (n * 2 ^ F.f)) : F.T.InRange n := by
  have hp : (1 : Int) ≤ 2 ^ F.f := one_le_pow₀ (by norm_num)
  have := h.lo_hi; have := h.d_le
  obtain ⟨a, b⟩ := hs
  rcases le_total 0 n with h0 | h0
  · exact ⟨by omega, by nlinarith⟩
  · exact ⟨by nlinarith, by omega⟩

theorem addInt_ok {x n : Int} (hn : F.T.InRange (n * 2 ^ F.f)) (hs : F.T.InRange (x + n * 2 ^ F.f)) :
    addInt F x n = .ok (x + n * 2 ^ F.f) := by
  have hi := h.int_in hn
  unfold addInt addIntAssign
  rw [h.wrap_ok hi, h.shl_ok hn, Res.bind_ok, h.arith_ok hs, Res.bind_ok, h.wrap_ok hs]; rfl

theorem subInt_ok {x n : Int} (hn : F.T.InRange (n * 2 ^ F.f)) (hs : F.T.InRange (x - n * 2 ^ F.f)) :
    subInt F x n = .ok (x - n * 2 ^ F.f) := by
  have hi := h.int_in hn
  unfold subInt subIntAssign
  rw [h.wrap_ok hi, h.shl_ok hn, Res.bind_ok, h.arith_ok hs, Res.bind_ok, h.wrap_ok hs]; rfl

end SG

namespace SW
variable {F : FxTy} (h : SW F)
include h

theorem common_i32 : IntTy.common F.T i32 = F.T := Props.common_eq F h.valid h.sw i32 rfl h.sw.2

theorem i32_in {n : Int} (hn : i32.InRange n) : F.T.InRange n := by
  obtain ⟨a, b⟩ := hn
  have h2 : (2 : Int) ^ 31 ≤ 2 ^ (F.T.bits - 1) := pow_le_pow_right₀ (by norm_num) (by have := h.sw.2; omega)
  rw [show i32.lo = -2 ^ 31 by rfl] at a
  rw [show i32.hi = 2 ^ 31 - 1 by rfl] at b
  exact ⟨by rw [h.lo_eq]; omega, by rw [h.hi_eq]; omega⟩

theorem divInt_ok {x n : Int} (hx : F.T.InRange x) (hn : 0 < n) (hn2 : n < 2 ^ 31) :
    divInt F i32 x n = .ok (Int.tdiv x n) := by
  have hnT : F.T.InRange n := h.i32_in ⟨by rw [show i32.lo = -2 ^ 31 by rfl]; omega, by rw [show i32.hi = 2 ^ 31 - 1 by rfl]; omega⟩
  have hr := h.tdiv_inRange hx hn
  unfold divInt divIntAssign
  simp only [h.common_i32]
  rw [h.wrap_ok hx, h.wrap_ok hnT, ← h.p, h.cdiv_ok hx hn, Res.bind_ok, h.p, h.wrap_ok hr]; rfl

theorem mulInt_ok {x n : Int} (hx : F.T.InRange x) (hn : i32.InRange n) (hp : F.T.InRange (x * n)) :
    mulInt F i32 x n = .ok (x * n) := by
  have hnT := h.i32_in hn
  unfold mulInt mulIntAssign
  simp only [h.common_i32]
  rw [h.wrap_ok hx, h.wrap_ok hnT, ← h.p, h.arith_ok hp, Res.bind_ok, h.p, h.wrap_ok hp]; rfl

theorem intMul_ok {x n : Int} (hx : F.T.InRange x) (hn : i32.InRange n) (hp : F.T.InRange (x * n)) :
    intMul F i32 n x = .ok (x * n) := h.mulInt_ok hx hn hp

theorem ofInt_ok {n : Int} (hn : F.T.InRange (n * 2 ^ F.f)) : ofInt F n = n * 2 ^ F.f := by
  rw [Props.ofInt_eq F h.valid, h.wrap_ok hn]

theorem addInt_ok {x n : Int} (hn : F.T.InRange (n * 2 ^ F.f)) (hs : F.T.InRange (x + n * 2 ^ F.f)) :
    addInt F x n = .ok (x + n * 2 ^ F.f) := by
  unfold addInt
  rw [(Props.addIntAssign_eq F h.valid h.sw x n).1, h.ofInt_ok hn, h.add_ok hs]

theorem subInt_ok {x n : Int} (hn : F.T.InRange (n * 2 ^ F.f)) (hs : F.T.InRange (x - n * 2 ^ F.f)) :
    subInt F x n = .ok (x - n * 2 ^ F.f) := by
  unfold subInt
  rw [(Props.addIntAssign_eq F h.valid h.sw x n).2, h.ofInt_ok hn, h.sub_ok hs]

end SW

/-- Truncating division of a non-negative number by a positive one is the floor. -/
theorem tdiv_eq_ediv {x d : Int} (hx : 0 ≤ x) : Int.tdiv x d = x / d := Int.tdiv_eq_ediv_of_nonneg hx

theorem in32 {x : Int} (h1 : -2 ^ 31 ≤ x) (h2 : x < 2 ^ 31) : fixed32.T.InRange x :=
  ⟨by rw [show fixed32.T.lo = -2 ^ 31 by rfl]; exact h1, by rw [show fixed32.T.hi = 2 ^ 31 - 1 by rfl]; omega⟩
theorem in64 {x : Int} (h1 : -2 ^ 63 ≤ x) (h2 : x < 2 ^ 63) : fixed64.T.InRange x :=
  ⟨by rw [show fixed64.T.lo = -2 ^ 63 by rfl]; exact h1, by rw [show fixed64.T.hi = 2 ^ 63 - 1 by rfl]; omega⟩
theorem of_in32 {x : Int} (h : fixed32.T.InRange x) : -2 ^ 31 ≤ x ∧ x < 2 ^ 31 := by
  obtain ⟨a, b⟩ := h
  rw [show fixed32.T.lo = -2 ^ 31 by rfl] at a
  rw [show fixed32.T.hi = 2 ^ 31 - 1 by rfl] at b
  exact ⟨a, by omega⟩
theorem of_in64 {x : Int} (h : fixed64.T.InRange x) : -2 ^ 63 ≤ x ∧ x < 2 ^ 63 := by
  obtain ⟨a, b⟩ := h
  rw [show fixed64.T.lo = -2 ^ 63 by rfl] at a
  rw [show fixed64.T.hi = 2 ^ 63 - 1 by rfl] at b
  exact ⟨a, by omega⟩

end Eirin
