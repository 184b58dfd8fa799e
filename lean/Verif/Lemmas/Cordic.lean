import Verif.Model.Cordic
import Verif.Lemmas.Bits
import Verif.Lemmas.Mixed
import Verif.Lemmas.Print

/-! # CORDIC: the loop without C++ arithmetic, its growth, and the reduction -/

namespace Eirin
open Spec

/-- The parsed angle table of `fixed32`. -/
def tab32 : List Int :=
  [51465, 30385, 16054, 8149, 4090, 2047, 1023, 511, 255, 127, 63, 31, 15, 7, 3, 1, 0, 0, 0, 0, 0, 0, 0, 0, 0, 0, 0, 0,
   0, 0, 0, 0, 0, 0, 0, 0, 0, 0, 0, 0, 0]

/-- The parsed angle table of `fixed64`. -/
def tab64 : List Int :=
  [3373259424, 1991351317, 1052175346, 534100634, 268086747, 134174062, 67103403, 33553749, 16777130, 8388597, 4194302,
   2097151, 1048575, 524287, 262143, 131071, 65535, 32767, 16384, 8192, 4095, 2047, 1023, 512, 256, 127, 63, 32, 15, 7,
   4, 1, 1, 0, 0, 0, 0, 0, 0, 0, 0]

/-- Bound on `|x|` and `|y|` after `i` passes. -/
def growB (k : Int) : Nat → Int
  | 0 => k
  | i + 1 => growB k i + growB k i / 2 ^ i + 1

/-- What the proofs use about the type: its constants, and that nothing grows out of range. -/
structure CT (F : FxTy) (k : Int) (tab : List Int) (P : Int) : Prop where
  sw : SW F
  kE : cordicK F = .ok k
  kIn : 0 ≤ k ∧ F.I.InRange k
  tabE : cordicAngles F = .ok tab
  len : tab.length = 41
  nonneg : ∀ a ∈ tab, 0 ≤ a
  sumB : tab.sum ≤ F.T.hi
  growI : growB k 41 ≤ F.I.hi
  growT : growB k 41 ≤ F.T.hi
  ibits : 64 ≤ F.I.bits
  isg : F.I.signed = true
  piE : cPi F = .ok P
  pi0 : 0 < P
  pi2 : P * 2 ≤ F.T.hi

theorem ct32 : CT fixed32 39796 tab32 205887 where
  sw := sw32
  kE := by decide +kernel
  kIn := by decide +kernel
  tabE := by decide +kernel
  len := by decide +kernel
  nonneg := by decide +kernel
  sumB := by decide +kernel
  growI := by decide +kernel
  growT := by decide +kernel
  ibits := by decide +kernel
  isg := by decide +kernel
  piE := by decide +kernel
  pi0 := by decide +kernel
  pi2 := by decide +kernel

theorem ct64 : CT fixed64 2608131496 tab64 13493037704 where
  sw := sw64
  kE := by decide +kernel
  kIn := by decide +kernel
  tabE := by decide +kernel
  len := by decide +kernel
  nonneg := by decide +kernel
  sumB := by decide +kernel
  growI := by decide +kernel
  growT := by decide +kernel
  ibits := by decide +kernel
  isg := by decide +kernel
  piE := by decide +kernel
  pi0 := by decide +kernel
  pi2 := by decide +kernel

/-- One pass, in unbounded integers. -/
def cstep (tab : List Int) (Q : Int) (i : Nat) (x y q : Int) : Int × Int × Int :=
  if q < Q then (x - y / 2 ^ i, y + x / 2 ^ i, q + tab.getD i 0) else (x + y / 2 ^ i, y - x / 2 ^ i, q - tab.getD i 0)

/-- The loop, in unbounded integers. -/
def cloop (tab : List Int) (Q : Int) : Nat → Nat → Int → Int → Int → Int × Int × Int
  | 0, _, x, y, q => (x, y, q)
  | n + 1, i, x, y, q => cloop tab Q n (i + 1) (cstep tab Q i x y q).1 (cstep tab Q i x y q).2.1 (cstep tab Q i x y q).2.2

theorem getD_eq {tab : List Int} {i : Nat} (hi : i < tab.length) : tab.getD i 0 = tab[i] := by
  rw [List.getD_eq_getElem?_getD, List.getElem?_eq_getElem hi]; rfl

theorem growB_nonneg {k : Int} (hk : 0 ≤ k) : ∀ i, 0 ≤ growB k i
  | 0 => hk
  | i + 1 => by
    have h1 := growB_nonneg hk i
    have h2 : 0 ≤ growB k i / 2 ^ i := Int.ediv_nonneg h1 (by positivity)
    unfold growB; omega

theorem growB_mono {k : Int} (hk : 0 ≤ k) (i : Nat) : ∀ n, growB k i ≤ growB k (i + n)
  | 0 => le_refl _
  | n + 1 => by
    have h1 := growB_mono hk i n
    have h2 : 0 ≤ growB k (i + n) / 2 ^ (i + n) := Int.ediv_nonneg (growB_nonneg hk _) (by positivity)
    rw [← Nat.add_assoc, growB]; omega

/-- An arithmetic shift of a bounded value is bounded by the shifted bound plus one. -/
theorem shift_bound {B y : Int} (i : Nat) (hy : |y| ≤ B) : |y / 2 ^ i| ≤ B / 2 ^ i + 1 := by
  have hp : (0 : Int) < 2 ^ i := by positivity
  rw [abs_le] at hy
  have h1 : y / 2 ^ i ≤ B / 2 ^ i := Int.ediv_le_ediv hp hy.2
  have h2 : (-B) / 2 ^ i ≤ y / 2 ^ i := Int.ediv_le_ediv hp hy.1
  have h3 : -(B / 2 ^ i) - 1 ≤ (-B) / 2 ^ i := by
    rw [Int.le_ediv_iff_mul_le hp]
    have := Int.lt_ediv_add_one_mul_self B hp
    nlinarith
  rw [abs_le]; constructor <;> omega

theorem cstep_bound {tab : List Int} {Q : Int} {i : Nat} {B x y q : Int} (hx : |x| ≤ B) (hy : |y| ≤ B) :
    |(cstep tab Q i x y q).1| ≤ B + B / 2 ^ i + 1 ∧ |(cstep tab Q i x y q).2.1| ≤ B + B / 2 ^ i + 1 := by
  have h1 := shift_bound i hx
  have h2 := shift_bound i hy
  rw [abs_le] at *
  unfold cstep
  split <;> simp only [abs_le] <;> (refine ⟨⟨?_, ?_⟩, ?_, ?_⟩ <;> omega)

theorem cstep_q {tab : List Int} (hn : ∀ a ∈ tab, 0 ≤ a) {Q : Int} {i : Nat} {x y q : Int} (hi : i < tab.length) {S : Int} (hq : |q| ≤ S) :
    |(cstep tab Q i x y q).2.2| ≤ S + tab.getD i 0 := by
  have h0 : 0 ≤ tab.getD i 0 := by
    rw [getD_eq hi]; exact hn _ (List.getElem_mem hi)
  rw [abs_le] at *
  unfold cstep
  split <;> simp only [abs_le] <;> constructor <;> omega

/-- Sum of the first `i` entries. -/
theorem take_sum_succ {tab : List Int} {i : Nat} (hi : i < tab.length) :
    (tab.take (i + 1)).sum = (tab.take i).sum + tab.getD i 0 := by
  rw [List.take_add_one, List.getElem?_eq_getElem hi, List.sum_append, getD_eq hi]
  simp

theorem take_sum_le {tab : List Int} (hn : ∀ a ∈ tab, 0 ≤ a) (i : Nat) : (tab.take i).sum ≤ tab.sum := by
  have h : tab.sum = (tab.take i).sum + (tab.drop i).sum := by rw [← List.sum_append, List.take_append_drop]
  have : 0 ≤ (tab.drop i).sum := List.sum_nonneg (fun a ha => hn a (List.mem_of_mem_drop ha))
  omega

namespace CT
variable {F : FxTy} {k : Int} {tab : List Int} {P : Int} (h : CT F k tab P)
include h

theorem iprom : F.I.promote = F.I := by
  unfold IntTy.promote; rw [if_neg]; have := h.ibits; omega

theorem ilo : F.I.lo = -F.I.hi - 1 := by
  unfold IntTy.lo IntTy.hi; simp only [h.isg, if_true]; ring

theorem iarith {n : Int} (hn : |n| ≤ F.I.hi) : arith F.I.promote n = .ok n ∧ F.I.wrap n = n := by
  have hb : 0 < F.I.bits := by have := h.ibits; omega
  rw [abs_le] at hn
  have hr : F.I.InRange n := ⟨by rw [h.ilo]; omega, hn.2⟩
  rw [h.iprom]
  exact ⟨arith_of_inRange hb hr, IntTy.wrap_of_inRange hb hr⟩

theorem ishr (y : Int) {i : Nat} (hi : i < 41) : shr F.I y i = .ok (y / 2 ^ i) := by
  unfold shr
  rw [h.iprom, if_pos (by have := h.ibits; omega)]

theorem angelE {i : Nat} (hi : i < 41) : angel F i = .ok (tab.getD i 0) := by
  unfold angel
  have hl : i < tab.length := by rw [h.len]; exact hi
  rw [h.tabE, Res.bind_ok, List.getElem?_eq_getElem hl, getD_eq hl]

theorem tIn {n : Int} (hn : |n| ≤ F.T.hi) : F.T.InRange n := by
  rw [abs_le] at hn
  exact ⟨by rw [h.sw.lo_hi]; omega, hn.2⟩

theorem step_ok {Q : Int} {i : Nat} {x y q : Int} (hi : i < 41) (hx : |x| ≤ growB k i) (hy : |y| ≤ growB k i)
    (hq : |q| ≤ (tab.take i).sum) : cordicStep F Q i x y q = .ok (cstep tab Q i x y q) := by
  have hl : i < tab.length := by rw [h.len]; exact hi
  have hg : growB k i + growB k i / 2 ^ i + 1 ≤ F.I.hi := by
    have h1 := growB_mono h.kIn.1 (i + 1) (41 - (i + 1))
    rw [show i + 1 + (41 - (i + 1)) = 41 by omega, growB] at h1
    exact le_trans h1 h.growI
  have hs : (tab.take i).sum + tab.getD i 0 ≤ F.T.hi := by
    rw [← take_sum_succ hl]; exact le_trans (take_sum_le h.nonneg _) h.sumB
  obtain ⟨b1, b2⟩ := cstep_bound (tab := tab) (Q := Q) (i := i) (q := q) hx hy
  have b3 := cstep_q h.nonneg (Q := Q) (x := x) (y := y) hl hq
  have e1 := h.iarith (le_trans b1 hg)
  have e2 := h.iarith (le_trans b2 hg)
  have e3 := h.tIn (le_trans b3 hs)
  have e4 := h.sw.arith_ok e3
  have e5 := h.sw.wrap_ok e3
  unfold cordicStep
  unfold cstep at *
  by_cases hc : q < Q
  · have hc' := lt_iff.2 hc
    simp only [if_pos hc] at *
    rw [if_pos hc']
    simp only [addAssign, h.ishr _ hi, h.angelE hi, Res.bind_ok, e1.1, e1.2, e2.1, e2.2, e4, e5, Res.pure_eq]
  · have hc' : ¬ lt q Q = true := by rw [lt_iff]; exact hc
    simp only [if_neg hc] at *
    rw [if_neg hc']
    simp only [subAssign, h.ishr _ hi, h.angelE hi, Res.bind_ok, e1.1, e1.2, e2.1, e2.2, e4, e5, Res.pure_eq]

theorem loop_ok {Q : Int} : ∀ (n i : Nat) (x y q : Int), i + n ≤ 41 → |x| ≤ growB k i → |y| ≤ growB k i →
    |q| ≤ (tab.take i).sum → cordicLoop F Q n i x y q = .ok (cloop tab Q n i x y q) ∧
      |(cloop tab Q n i x y q).1| ≤ growB k (i + n) ∧ |(cloop tab Q n i x y q).2.1| ≤ growB k (i + n)
  | 0, i, x, y, q, _, hx, hy, _ => ⟨rfl, hx, hy⟩
  | n + 1, i, x, y, q, hn, hx, hy, hq => by
    have hl : i < tab.length := by rw [h.len]; omega
    obtain ⟨b1, b2⟩ := cstep_bound (tab := tab) (Q := Q) (i := i) (q := q) hx hy
    have b3 := cstep_q h.nonneg (Q := Q) (x := x) (y := y) hl hq
    rw [← take_sum_succ hl] at b3
    obtain ⟨r1, r2, r3⟩ := loop_ok n (i + 1) _ _ _ (by omega) b1 b2 b3
    rw [show i + 1 + n = i + (n + 1) by omega] at r2 r3
    refine ⟨?_, r2, r3⟩
    rw [cordicLoop, h.step_ok (by omega) hx hy hq, Res.bind_ok]
    exact r1

theorem abs_mask {x : Int} (hx : F.T.InRange x) :
    fromInternal F (F.T.wrap (band F.P x (cnot F.T (signbitMask F)))) = if x < 0 then x + 2 ^ (F.T.bits - 1) else x := by
  have hb := h.sw.tpos
  have hp : (0 : Int) < 2 ^ (F.T.bits - 1) := by positivity
  have hlo := h.sw.lo_eq; have hhi := h.sw.hi_eq
  have e0 : cnot F.T (signbitMask F) = 2 ^ (F.T.bits - 1) - 1 := by
    unfold cnot
    rw [signbitMask_eq h.sw.valid h.sw.sg, h.sw.prom, h.sw.wrap_ok ⟨by rw [hlo]; omega, by rw [hhi]; omega⟩]
    ring
  have e1 : F.P = F.T := h.sw.p
  rw [e0, e1, band_lowmask F.T _ (by omega)]
  have e2 : x % 2 ^ (F.T.bits - 1) = if x < 0 then x + 2 ^ (F.T.bits - 1) else x := by
    obtain ⟨a, b⟩ := hx
    rw [hlo] at a; rw [hhi] at b
    split
    · rw [← Int.add_emod_right]; exact Int.emod_eq_of_lt (by omega) (by omega)
    · exact Int.emod_eq_of_lt (by omega) (by omega)
  have hr : F.T.InRange (x % 2 ^ (F.T.bits - 1)) := by
    have := Int.emod_nonneg x (ne_of_gt hp); have := Int.emod_lt_of_pos x hp
    exact ⟨by rw [hlo]; omega, by rw [hhi]; omega⟩
  rw [h.sw.wrap_ok hr, h.sw.from_ok hr, e2]

end CT

/-- The reduction in unbounded integers: reduced angle, second half?, second quadrant? -/
def credQ (P X : Int) : Int :=
  let r := X % (P * 2)
  let r1 := if P < r then r - P else r
  if P / 2 < r1 then P - r1 else r1
/-- Sign given to the sine by the reduction of a non-negative angle. -/
def credS (P X : Int) : Int := if P < X % (P * 2) then -1 else 1
/-- Sign given to the cosine by the reduction. -/
def credC (P X : Int) : Int :=
  let r := X % (P * 2)
  let r1 := if P < r then r - P else r
  (if P < r then -1 else 1) * (if P / 2 < r1 then -1 else 1)

/-- The magnitude the code works with. -/
def cmag (F : FxTy) (x : Int) : Int := if x < 0 then x + 2 ^ (F.T.bits - 1) else x

theorem CT.reduce_ok {F : FxTy} {k : Int} {tab : List Int} {P : Int} (h : CT F k tab P) {x : Int} (hx : F.T.InRange x) :
    cordicOptimizeAngel F x 1 = .ok (credQ P (cmag F x), (if x < 0 then -1 else 1) * credS P (cmag F x), credC P (cmag F x)) := by
  have hlo := h.sw.lo_eq; have hhi := h.sw.hi_eq
  have hlh := h.sw.lo_hi
  have hP := h.pi0; have hP2 := h.pi2
  have hPi : F.T.InRange P := ⟨by omega, by omega⟩
  have hd : intMul F i32 2 P = .ok (P * 2) := h.sw.intMul_ok hPi (by decide) ⟨by omega, by omega⟩
  have hh : divInt F i32 P 2 = .ok (P / 2) := by
    rw [h.sw.divInt_ok hPi (by omega) (by norm_num), Int.tdiv_eq_ediv_of_nonneg (by omega)]
  have hz : ofInt F 0 = 0 := by rw [h.sw.ofInt_ok (by simpa using h.sw.zero_in)]; simp
  have hm := h.abs_mask hx
  change _ = cmag F x at hm
  have hm0 : 0 ≤ cmag F x ∧ F.T.InRange (cmag F x) := by
    obtain ⟨a, b⟩ := hx
    have hp : (0 : Int) < 2 ^ (F.T.bits - 1) := by positivity
    unfold cmag IntTy.InRange
    split <;> omega
  have hr : remAssign F (cmag F x) (P * 2) = .ok (cmag F x % (P * 2)) := by
    unfold remAssign
    have : F.T.InRange (cmag F x % (P * 2)) := by
      have := Int.emod_nonneg (cmag F x) (show P * 2 ≠ 0 by omega); have := Int.emod_lt_of_pos (cmag F x) (show 0 < P * 2 by omega)
      exact ⟨by omega, by omega⟩
    rw [h.sw.cmod_ok hm0.2 (by omega), Res.bind_ok, Int.tmod_eq_emod_of_nonneg hm0.1, h.sw.wrap_ok this]; rfl
  have r0 := Int.emod_nonneg (cmag F x) (show P * 2 ≠ 0 by omega)
  have r1 := Int.emod_lt_of_pos (cmag F x) (show 0 < P * 2 by omega)
  unfold cordicOptimizeAngel credQ credS credC
  rw [h.piE, Res.bind_ok, hd, Res.bind_ok, hh, Res.bind_ok]
  simp only [hm, hr, Res.bind_ok, hz, lt_iff, gt_iff]
  generalize cmag F x % (P * 2) = r at *
  by_cases c1 : P < r
  · have g1 : gt r P = true := gt_iff.2 c1
    have s1 : sub F r P = .ok (r - P) := h.sw.sub_ok ⟨by omega, by omega⟩
    simp only [c1, g1, if_true, s1, Res.bind_ok]
    by_cases c2 : P / 2 < r - P
    · have g2 : gt (r - P) (P / 2) = true := gt_iff.2 c2
      have s2 : sub F P (r - P) = .ok (P - (r - P)) := h.sw.sub_ok ⟨by omega, by omega⟩
      simp only [c2, g2, if_true, s2, Res.bind_ok]
      by_cases hx0 : x < 0 <;> simp only [hx0, if_true, if_false] <;> rfl
    · have g2 : gt (r - P) (P / 2) = false := by rw [Bool.eq_false_iff]; intro hc; exact c2 (gt_iff.1 hc)
      simp only [c2, g2, if_false]
      by_cases hx0 : x < 0 <;> simp only [hx0, if_true, if_false] <;> rfl
  · have g1 : gt r P = false := by rw [Bool.eq_false_iff]; intro hc; exact c1 (gt_iff.1 hc)
    simp only [c1, g1, if_false]
    by_cases c2 : P / 2 < r
    · have g2 : gt r (P / 2) = true := gt_iff.2 c2
      have s2 : sub F P r = .ok (P - r) := h.sw.sub_ok ⟨by omega, by omega⟩
      by_cases hx0 : x < 0 <;> simp [c2, g2, s2, hx0] <;> decide
    · have g2 : gt r (P / 2) = false := by rw [Bool.eq_false_iff]; intro hc; exact c2 (gt_iff.1 hc)
      by_cases hx0 : x < 0 <;> simp [c2, g2, hx0] <;> decide

/-- The whole function in unbounded integers: the signed sine and cosine raw values. -/
theorem CT.cordic_ok {F : FxTy} {k : Int} {tab : List Int} {P : Int} (h : CT F k tab P) {x : Int} (hx : F.T.InRange x) (n : Nat) (hn : n ≤ 41) :
    cordic F n true x = .ok ((cloop tab (credQ P (cmag F x)) n 0 k 0 0).2.1 * ((if x < 0 then -1 else 1) * credS P (cmag F x))) ∧
    cordic F n false x = .ok ((cloop tab (credQ P (cmag F x)) n 0 k 0 0).1 * credC P (cmag F x)) ∧
    |(cloop tab (credQ P (cmag F x)) n 0 k 0 0).1| ≤ F.T.hi ∧ |(cloop tab (credQ P (cmag F x)) n 0 k 0 0).2.1| ≤ F.T.hi := by
  have hz : ofInt F 0 = 0 := by rw [h.sw.ofInt_ok (by simpa using h.sw.zero_in)]; simp
  have hk : F.I.wrap k = k := IntTy.wrap_of_inRange (by have := h.ibits; omega) h.kIn.2
  obtain ⟨e, b1, b2⟩ := h.loop_ok (Q := credQ P (cmag F x)) n 0 k 0 0 (by omega) (by rw [abs_of_nonneg h.kIn.1, growB])
    (by simpa [growB] using h.kIn.1) (by simp)
  have hg : growB k (0 + n) ≤ F.T.hi := by
    have := growB_mono h.kIn.1 (0 + n) (41 - n)
    rw [show 0 + n + (41 - n) = 41 by omega] at this
    exact le_trans this h.growT
  have b1 := le_trans b1 hg
  have b2 := le_trans b2 hg
  have hc : IntTy.common F.T i8 = F.T := h.sw.common_i32
  refine ⟨?_, ?_, b1, b2⟩
  · unfold cordic
    simp only [h.reduce_ok hx, h.kE, hk, hz, e, Res.bind_ok, if_true]
    have hy := h.tIn b2
    have hs : |(cloop tab (credQ P (cmag F x)) n 0 k 0 0).2.1 * ((if x < 0 then -1 else 1) * credS P (cmag F x))| ≤ F.T.hi := by
      have : |((if x < 0 then -1 else 1) * credS P (cmag F x) : Int)| = 1 := by
        unfold credS; split <;> split <;> rfl
      rw [abs_mul, this, mul_one]; exact b2
    have hr := h.tIn hs
    rw [h.sw.wrap_ok hy, hc, arith_of_inRange h.sw.tpos hr, Res.bind_ok, h.sw.wrap_ok hr, h.sw.from_ok hr]; rfl
  · unfold cordic
    simp only [h.reduce_ok hx, h.kE, hk, hz, e, Res.bind_ok]
    have hy := h.tIn b1
    have hs : |(cloop tab (credQ P (cmag F x)) n 0 k 0 0).1 * credC P (cmag F x)| ≤ F.T.hi := by
      have : |credC P (cmag F x)| = 1 := by
        unfold credC; simp only []; (repeat' split) <;> rfl
      rw [abs_mul, this, mul_one]; exact b1
    have hr := h.tIn hs
    rw [if_neg (by decide), h.sw.wrap_ok hy, hc, arith_of_inRange h.sw.tpos hr, Res.bind_ok, h.sw.wrap_ok hr, h.sw.from_ok hr]; rfl

end Eirin
