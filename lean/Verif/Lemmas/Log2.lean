import Verif.Lemmas.Mixed
import Verif.Lemmas.RealConst
import Mathlib.Analysis.SpecialFunctions.Log.Base

/-! # The base-2 logarithm: evaluation of the three loops, and the real-number error analysis. -/

namespace Eirin
open Spec

/-- The facts shared by `fixed32` and `fixed64`. -/
structure Lib (F : FxTy) : Prop where
  sw : SW F
  r : F.r = false
  b : F.T.bits = 2 * F.f
  i : F.I = ⟨4 * F.f, true⟩
  f : F.f = 16 ∨ F.f = 32

theorem lib32 : Lib fixed32 := ⟨sw32, rfl, rfl, rfl, Or.inl rfl⟩
theorem lib64 : Lib fixed64 := ⟨sw64, rfl, rfl, rfl, Or.inr rfl⟩

namespace Lib
variable {F : FxTy} (h : Lib F)
include h

theorem inR {n : Int} (h1 : -2 ^ (2 * F.f - 1) ≤ n) (h2 : n < 2 ^ (2 * F.f - 1)) : F.T.InRange n := by
  refine ⟨by rw [h.sw.lo_eq, h.b]; exact h1, by rw [h.sw.hi_eq, h.b]; omega⟩

theorem ofR {n : Int} (hn : F.T.InRange n) : -2 ^ (2 * F.f - 1) ≤ n ∧ n < 2 ^ (2 * F.f - 1) := by
  obtain ⟨h1, h2⟩ := hn
  rw [h.sw.lo_eq, h.b] at h1
  rw [h.sw.hi_eq, h.b] at h2
  exact ⟨h1, by omega⟩

theorem half_pow : (2 : Int) ^ (2 * F.f - 1) = 2 ^ F.f * 2 ^ (F.f - 1) := by
  rw [← pow_add]; congr 1; rcases h.f with e | e <;> omega

theorem pow_f : (2 : Int) ^ F.f = 2 * 2 ^ (F.f - 1) := by
  have : (2 : Int) ^ F.f = 2 ^ (F.f - 1 + 1) := by congr 1; rcases h.f with e | e <;> omega
  rw [this, pow_succ]; ring

theorem small_mul {k : Int} (h1 : -(2 : Int) ^ (F.f - 1) ≤ k) (h2 : k < 2 ^ (F.f - 1)) : F.T.InRange (k * 2 ^ F.f) := by
  have hp : (0 : Int) < 2 ^ F.f := by positivity
  apply h.inR
  · rw [h.half_pow]; nlinarith
  · rw [h.half_pow]; nlinarith

theorem p15 : (32768 : Int) ≤ 2 ^ (F.f - 1) := by
  have : (2 : Int) ^ 15 ≤ 2 ^ (F.f - 1) := pow_le_pow_right₀ (by norm_num) (by rcases h.f with e | e <;> omega)
  norm_num at this; exact this

/-- Integers below `2^15` in magnitude convert exactly. -/
theorem ofInt_small {k : Int} (h1 : -32768 ≤ k) (h2 : k < 32768) : ofInt F k = k * 2 ^ F.f := by
  have := h.p15
  exact h.sw.ofInt_ok (h.small_mul (by omega) (by omega))

theorem ofInt0 : ofInt F 0 = 0 := by rw [h.ofInt_small (by norm_num) (by norm_num), zero_mul]
theorem ofInt1 : ofInt F 1 = 2 ^ F.f := by rw [h.ofInt_small (by norm_num) (by norm_num), one_mul]

theorem two : twoShl F = 2 * 2 ^ F.f := by
  unfold twoShl
  have h2 : F.T.InRange 2 := h.sw.i32_in (by decide)
  have := h.p15
  rw [h.sw.wrap_ok h2, h.sw.p, h.sw.wrap_ok (h.small_mul (by omega) (by omega))]

theorem up {x y : Int} (j : Nat) (hx : 0 < x) : ∀ fuel, j < fuel → x * 2 ^ j < 2 * 2 ^ F.f → 2 ^ F.f ≤ x * 2 ^ j →
    F.T.InRange y → F.T.InRange (y - j * 2 ^ F.f) → log2Up F fuel x y = .ok (x * 2 ^ j, y - j * 2 ^ F.f) := by
  induction j generalizing x y with
  | zero =>
    intro fuel hf h1 h2 _ _
    obtain ⟨m, rfl⟩ : ∃ m, fuel = m + 1 := ⟨fuel - 1, by omega⟩
    rw [log2Up, h.sw.one_eq, if_neg (by simpa using h2)]
    simp
  | succ j ih =>
    intro fuel hf h1 h2 hy hy'
    obtain ⟨m, rfl⟩ : ∃ m, fuel = m + 1 := ⟨fuel - 1, by omega⟩
    have hp : (0 : Int) < 2 ^ F.f := by positivity
    have hj : (1 : Int) ≤ 2 ^ j := one_le_pow₀ (by norm_num)
    have hlt : x < 2 ^ F.f := by rw [pow_succ] at h1; nlinarith
    have hp15 := h.p15
    have hx2 : F.T.InRange (x * 2) := by
      apply h.inR
      · have : (0 : Int) < 2 ^ (2 * F.f - 1) := by positivity
        omega
      · rw [h.half_pow]; nlinarith
    have hy1 : F.T.InRange (y - 2 ^ F.f) := by
      obtain ⟨a, b⟩ := hy; obtain ⟨c, d⟩ := hy'
      constructor
      · push_cast at c
        have : (0 : Int) ≤ j * 2 ^ F.f := by positivity
        linarith
      · omega
    have hs : shl F.T x 1 = .ok (x * 2) := by
      unfold shl
      rw [h.sw.prom, if_pos (by rw [h.b]; rcases h.f with e | e <;> omega), pow_one, h.sw.wrap_ok hx2]
    rw [log2Up, h.sw.one_eq, if_pos hlt, hs, Res.bind_ok, h.sw.arith_ok hy1, Res.bind_ok, h.sw.wrap_ok hx2, h.sw.wrap_ok hy1]
    have e1 : x * 2 ^ (j + 1) = x * 2 * 2 ^ j := by rw [pow_succ]; ring
    have e2 : y - ((j + 1 : Nat) : Int) * 2 ^ F.f = y - 2 ^ F.f - j * 2 ^ F.f := by push_cast; ring
    rw [e1, e2]
    rw [e1] at h1 h2
    rw [e2] at hy'
    exact ih (by omega) m (by omega) h1 h2 hy1 hy'

theorem up_ge {x y : Int} {fuel : Nat} (hx : 2 ^ F.f ≤ x) (hf : 0 < fuel) : log2Up F fuel x y = .ok (x, y) := by
  obtain ⟨m, rfl⟩ : ∃ m, fuel = m + 1 := ⟨fuel - 1, by omega⟩
  rw [log2Up, h.sw.one_eq, if_neg (by omega)]

theorem down {x y : Int} (j : Nat) (hx : F.T.InRange x) (h0 : 0 ≤ x) : ∀ fuel, j < fuel → 2 ^ F.f ≤ x / 2 ^ j → x / 2 ^ j < 2 * 2 ^ F.f →
    F.T.InRange y → F.T.InRange (y + j * 2 ^ F.f) → log2Down F fuel x y = .ok (x / 2 ^ j, y + j * 2 ^ F.f) := by
  induction j generalizing x y with
  | zero =>
    intro fuel hf h1 h2 _ _
    obtain ⟨m, rfl⟩ : ∃ m, fuel = m + 1 := ⟨fuel - 1, by omega⟩
    simp only [pow_zero, Int.ediv_one] at h1 h2
    rw [log2Down, h.two, if_neg (by omega)]
    simp
  | succ j ih =>
    intro fuel hf h1 h2 hy hy'
    obtain ⟨m, rfl⟩ : ∃ m, fuel = m + 1 := ⟨fuel - 1, by omega⟩
    have e1 : x / 2 ^ (j + 1) = x / 2 / 2 ^ j := by rw [pow_succ, mul_comm, Int.ediv_ediv_of_nonneg (by norm_num)]
    have hge : x ≥ 2 * 2 ^ F.f := by
      rw [e1] at h1
      have : x / 2 / 2 ^ j ≤ x / 2 := Int.ediv_le_self _ (by omega)
      omega
    have hx2 : F.T.InRange (x / 2) := by
      obtain ⟨a, b⟩ := hx; obtain ⟨c, d⟩ := h.sw.zero_in; constructor <;> omega
    have hy1 : F.T.InRange (y + 2 ^ F.f) := by
      obtain ⟨a, b⟩ := hy; obtain ⟨c, d⟩ := hy'
      have hp : (0 : Int) < 2 ^ F.f := by positivity
      constructor
      · omega
      · push_cast at d
        have : (0 : Int) ≤ j * 2 ^ F.f := by positivity
        linarith
    rw [log2Down, h.two, if_pos hge, h.sw.one_eq, h.sw.arith_ok hy1, Res.bind_ok, h.sw.wrap_ok hx2, h.sw.wrap_ok hy1]
    have e2 : y + ((j + 1 : Nat) : Int) * 2 ^ F.f = y + 2 ^ F.f + j * 2 ^ F.f := by push_cast; ring
    rw [e1, e2]
    rw [e1] at h1 h2
    rw [e2] at hy'
    exact ih hx2 (by omega) m (by omega) h1 h2 hy1 hy'

end Lib

/-- The fraction bits produced by `n` squaring steps from the mantissa `z ∈ [2^f, 2^(f+1))`. -/
def fracOut (f : Nat) : Nat → Int → Int
  | 0, _ => 0
  | n + 1, z => if 2 * 2 ^ f ≤ z * z / 2 ^ f then 2 ^ n + fracOut f n (z * z / 2 ^ f / 2) else fracOut f n (z * z / 2 ^ f)

theorem fracOut_nonneg (f n : Nat) (z : Int) : 0 ≤ fracOut f n z := by
  induction n generalizing z with
  | zero => exact le_refl _
  | succ n ih =>
    rw [fracOut]
    split
    · have := ih (z * z / 2 ^ f / 2); positivity
    · exact ih _

theorem fracOut_lt (f n : Nat) (z : Int) : fracOut f n z < 2 ^ n := by
  induction n generalizing z with
  | zero => simp [fracOut]
  | succ n ih =>
    rw [fracOut, pow_succ]
    split
    · have := ih (z * z / 2 ^ f / 2); linarith
    · have := ih (z * z / 2 ^ f)
      have : (0 : Int) < 2 ^ n := by positivity
      linarith

theorem fracOut_mono (f n : Nat) {z w : Int} (h0 : 0 ≤ z) (h : z ≤ w) : fracOut f n z ≤ fracOut f n w := by
  induction n generalizing z w with
  | zero => exact le_refl _
  | succ n ih =>
    have hp : (0 : Int) < 2 ^ f := by positivity
    have hs : z * z / 2 ^ f ≤ w * w / 2 ^ f := Int.ediv_le_ediv hp (by nlinarith)
    have hz : 0 ≤ z * z / 2 ^ f := Int.ediv_nonneg (by nlinarith) hp.le
    rw [fracOut, fracOut]
    split
    · rename_i h1
      rw [if_pos (le_trans h1 hs)]
      have := ih (z := z * z / 2 ^ f / 2) (w := w * w / 2 ^ f / 2) (by omega) (by omega)
      linarith
    · split
      · have h2 := fracOut_lt f n (z * z / 2 ^ f)
        have h3 := fracOut_nonneg f n (w * w / 2 ^ f / 2)
        linarith
      · exact ih hz hs

/-- The next mantissa stays in `[2^f, 2^(f+1))`. -/
theorem next_mant {f : Nat} {z : Int} (h1 : 2 ^ f ≤ z) (h2 : z < 2 * 2 ^ f) :
    2 ^ f ≤ z * z / 2 ^ f ∧ z * z / 2 ^ f < 4 * 2 ^ f := by
  have hp : (0 : Int) < 2 ^ f := by positivity
  constructor
  · rw [Int.le_ediv_iff_mul_le hp]; nlinarith
  · rw [Int.ediv_lt_iff_lt_mul hp]; nlinarith

theorem Lib.frac {F : FxTy} (h : Lib F) (n : Nat) {z y b : Int} (h1 : 2 ^ F.f ≤ z) (h2 : z < 2 * 2 ^ F.f) (hb : b = 2 ^ n / 2)
    (hy : F.T.InRange y) (hy2 : F.T.InRange (y + 2 ^ n)) : log2Frac F n z y b = .ok (y + fracOut F.f n z) := by
  induction n generalizing z y b with
  | zero => rw [log2Frac, fracOut]; simp
  | succ n ih =>
    have hb' : b = 2 ^ n := by rw [hb, pow_succ]; omega
    have hp : (0 : Int) < 2 ^ F.f := by positivity
    have hn : (0 : Int) < 2 ^ n := by positivity
    obtain ⟨n1, n2⟩ := next_mant h1 h2
    have hIp : F.I.promote = F.I := by
      rw [h.i]; unfold IntTy.promote; rw [if_neg]; simp only; rcases h.f with e | e <;> omega
    have hb0 : 0 < F.I.bits := by rw [h.i]; simp only; rcases h.f with e | e <;> omega
    have hpow : (2 : Int) ^ (4 * F.f - 1) = 2 ^ F.f * 2 ^ F.f * (2 ^ F.f * 2 ^ (F.f - 1)) := by
      rw [← pow_add, ← pow_add, ← pow_add]; congr 1; rcases h.f with e | e <;> omega
    have hp15 := h.p15
    have hpf := h.pow_f
    have big : ∀ v : Int, 0 ≤ v → v < 4 * 2 ^ F.f * 2 ^ F.f → F.I.InRange v := by
      intro v a b
      have hb : (2 : Int) ^ (4 * F.f - 1) ≥ 4 * 2 ^ F.f * 2 ^ F.f := by
        have h4 : (4 : Int) ≤ 2 ^ F.f * 2 ^ (F.f - 1) := by nlinarith
        have hq : (0 : Int) < 2 ^ F.f * 2 ^ F.f := by positivity
        rw [hpow]; nlinarith
      constructor
      · unfold IntTy.lo; rw [h.i]; simp only [if_true]; omega
      · unfold IntTy.hi; rw [h.i]; simp only [if_true]; omega
    have hsq : F.I.InRange (z * z) := big _ (by nlinarith) (by nlinarith)
    have hq : F.I.InRange (z * z / 2 ^ F.f) := big _ (by omega) (by nlinarith)
    have hsh : shr F.I (z * z) F.f = .ok (z * z / 2 ^ F.f) := by
      unfold shr; rw [hIp, if_pos]; rw [h.i]; simp only; rcases h.f with e | e <;> omega
    rw [log2Frac, hIp, arith_of_inRange hb0 hsq, Res.bind_ok, hsh, Res.bind_ok]
    simp only [IntTy.wrap_of_inRange hb0 hq, h.two]
    rw [fracOut]
    rw [pow_succ] at hy2
    have hyb : F.T.InRange (y + 2 ^ n) := by
      obtain ⟨a, b⟩ := hy; obtain ⟨c, d⟩ := hy2; constructor <;> omega
    by_cases hc : 2 * 2 ^ F.f ≤ z * z / 2 ^ F.f
    · rw [if_pos hc, if_pos hc, hb', h.sw.arith_ok hyb, Res.bind_ok, h.sw.wrap_ok hyb]
      rw [ih (by omega) (by omega) rfl hyb (by rw [add_assoc]; convert hy2 using 2; ring), add_assoc]
    · rw [if_neg hc, if_neg hc]
      rw [ih n1 (by omega) (by rw [hb']) hy hyb]

/-- Mantissa and exponent of a positive value: `x = m·2^k` for `k ≤ 0`, `m = ⌊x/2^k⌋` for `k ≥ 0`. -/
structure Norm (f : Nat) (x m k : Int) : Prop where
  lo : 2 ^ f ≤ m
  hi : m < 2 * 2 ^ f
  pos : 0 ≤ k → m = x / 2 ^ k.toNat
  neg : k < 0 → m = x * 2 ^ (-k).toNat

theorem norm_exists (f : Nat) {x : Int} (hx : 0 < x) : ∃ m k, Norm f x m k ∧ -f ≤ k ∧ (2 : Int) ^ (k + f).toNat ≤ x ∧ x < 2 * 2 ^ (k + f).toNat := by
  obtain ⟨e, he1, he2⟩ : ∃ e : Nat, (2 : Int) ^ e ≤ x ∧ x < 2 * 2 ^ e := by
    refine ⟨Nat.log 2 x.toNat, ?_, ?_⟩
    · have := Nat.pow_log_le_self 2 (x := x.toNat) (by omega)
      have h2 : ((2 ^ Nat.log 2 x.toNat : Nat) : Int) ≤ x.toNat := by exact_mod_cast this
      push_cast at h2; omega
    · have := Nat.lt_pow_succ_log_self (b := 2) (by norm_num) x.toNat
      have h2 : (x.toNat : Int) < ((2 ^ (Nat.log 2 x.toNat + 1) : Nat) : Int) := by exact_mod_cast this
      push_cast [pow_succ] at h2; omega
  by_cases hc : f ≤ e
  · have hd : (0 : Int) < 2 ^ (e - f) := by positivity
    have ee : (2 : Int) ^ e = 2 ^ f * 2 ^ (e - f) := by rw [← pow_add]; congr 1; omega
    refine ⟨x / 2 ^ (e - f), (e : Int) - f, ⟨?_, ?_, ?_, ?_⟩, by omega, ?_, ?_⟩
    · rw [Int.le_ediv_iff_mul_le hd, ← ee]; exact he1
    · rw [Int.ediv_lt_iff_lt_mul hd, mul_assoc, ← ee]; exact he2
    · intro _; congr 2; omega
    · intro h; omega
    · rw [show ((e : Int) - f + f).toNat = e by omega]; exact he1
    · rw [show ((e : Int) - f + f).toNat = e by omega]; exact he2
  · have ee : (2 : Int) ^ f = 2 ^ e * 2 ^ (f - e) := by rw [← pow_add]; congr 1; omega
    have hd : (0 : Int) < 2 ^ (f - e) := by positivity
    refine ⟨x * 2 ^ (f - e), (e : Int) - f, ⟨?_, ?_, ?_, ?_⟩, by omega, ?_, ?_⟩
    · rw [ee]; exact mul_le_mul_of_nonneg_right he1 hd.le
    · rw [ee, ← mul_assoc]; exact mul_lt_mul_of_pos_right he2 hd
    · intro h; omega
    · intro _; congr 2; omega
    · rw [show ((e : Int) - f + f).toNat = e by omega]; exact he1
    · rw [show ((e : Int) - f + f).toNat = e by omega]; exact he2

/-- The value computed by `log2`. -/
theorem Lib.log2_raw {F : FxTy} (h : Lib F) {x : Int} (hx : Storable F x) (h0 : 0 < x) :
    ∃ m k, Norm F.f x m k ∧ -F.f ≤ k ∧ k < F.f - 1 ∧ (2 : Int) ^ (k + F.f).toNat ≤ x ∧ x < 2 * 2 ^ (k + F.f).toNat ∧
      log2 F x = .ok (k * 2 ^ F.f + fracOut F.f F.f m) ∧ Storable F (k * 2 ^ F.f + fracOut F.f F.f m) := by
  obtain ⟨m, k, hn, hk, e1, e2⟩ := norm_exists F.f h0
  have hxr := (h.ofR hx).2
  have hf0 : 16 ≤ F.f ∧ F.f ≤ 32 := by rcases h.f with e | e <;> omega
  have hk2 : k < F.f - 1 := by
    by_contra hc
    have : (2 : Int) ^ (2 * F.f - 1) ≤ 2 ^ (k + F.f).toNat := pow_le_pow_right₀ (by norm_num) (by omega)
    omega
  have hp15 := h.p15
  have hp : (0 : Int) < 2 ^ F.f := by positivity
  have small : ∀ j : Int, -33 ≤ j → j ≤ 33 → F.T.InRange (j * 2 ^ F.f) := fun j a b => h.small_mul (by omega) (by omega)
  have hb : shl u32 1 (F.f - 1) = .ok (2 ^ (F.f - 1)) := by rcases h.f with e | e <;> rw [e] <;> decide +kernel
  have hbT : F.T.InRange (2 ^ (F.f - 1)) := by
    have a := small 1 (by norm_num) (by norm_num)
    have b := h.sw.zero_in
    have c := h.pow_f
    obtain ⟨a1, a2⟩ := a; obtain ⟨b1, b2⟩ := b
    constructor <;> omega
  refine ⟨m, k, hn, hk, hk2, e1, e2, ?_, ?_⟩
  · unfold log2
    rw [hb, Res.bind_ok]
    simp only [h.sw.wrap_ok hbT]
    rw [if_neg (by rw [h.ofInt0, le_iff]; omega)]
    have hfr : log2Frac F F.f m (k * 2 ^ F.f) (2 ^ (F.f - 1)) = .ok (k * 2 ^ F.f + fracOut F.f F.f m) := by
      apply h.frac F.f hn.lo hn.hi
      · rw [h.pow_f]; omega
      · exact small k (by omega) (by omega)
      · have := small (k + 1) (by omega) (by omega); rw [add_mul, one_mul] at this; exact this
    have hres : F.T.InRange (k * 2 ^ F.f + fracOut F.f F.f m) := by
      have a := fracOut_nonneg F.f F.f m; have b := fracOut_lt F.f F.f m
      obtain ⟨c1, c2⟩ := small k (by omega) (by omega)
      have := small (k + 1) (by omega) (by omega); rw [add_mul, one_mul] at this
      obtain ⟨d1, d2⟩ := this
      constructor <;> omega
    by_cases hneg : k < 0
    · obtain ⟨j, hj⟩ : ∃ j : Nat, k = -j := ⟨(-k).toNat, by omega⟩
      have em : m = x * 2 ^ j := by rw [hn.neg hneg]; congr 2; omega
      have hlo := hn.lo; have hhi := hn.hi
      rw [h.up (y := 0) j h0 (F.T.bits + 1) (by rw [h.b]; omega) (by rw [← em]; exact hhi) (by rw [← em]; exact hlo) h.sw.zero_in
        (by rw [zero_sub, ← neg_mul, ← hj]; exact small k (by omega) (by omega)), Res.bind_ok]
      simp only
      rw [← em, zero_sub, ← neg_mul, ← hj]
      have hmT : F.T.InRange m := by
        have a := small 2 (by norm_num) (by norm_num)
        have b := h.sw.zero_in
        obtain ⟨a1, a2⟩ := a; obtain ⟨b1, b2⟩ := b
        constructor <;> omega
      have := h.down (x := m) (y := k * 2 ^ F.f) 0 hmT (by omega) (F.T.bits + 1) (by omega) (by simpa using hlo) (by simpa using hhi)
        (small k (by omega) (by omega)) (by simpa using small k (by omega) (by omega))
      simp at this
      rw [this, Res.bind_ok]
      simp only
      rw [hfr, Res.bind_ok, h.sw.from_ok hres]; rfl
    · obtain ⟨j, hj⟩ : ∃ j : Nat, k = j := ⟨k.toNat, by omega⟩
      have em : m = x / 2 ^ j := by rw [hn.pos (by omega)]; congr 2; omega
      have hlo := hn.lo; have hhi := hn.hi
      have hxge : 2 ^ F.f ≤ x := le_trans hlo (by rw [em]; exact Int.ediv_le_self _ h0.le)
      rw [h.up_ge hxge (by omega), Res.bind_ok]
      simp only
      rw [h.down (x := x) (y := 0) j hx h0.le (F.T.bits + 1) (by rw [h.b]; omega) (by rw [← em]; exact hlo) (by rw [← em]; exact hhi)
        h.sw.zero_in (by rw [zero_add, ← hj]; exact small k (by omega) (by omega)), Res.bind_ok]
      simp only
      rw [← em, zero_add, ← hj, hfr, Res.bind_ok, h.sw.from_ok hres]; rfl
  · have a := fracOut_nonneg F.f F.f m; have b := fracOut_lt F.f F.f m
    obtain ⟨c1, c2⟩ := small k (by omega) (by omega)
    have := small (k + 1) (by omega) (by omega); rw [add_mul, one_mul] at this
    obtain ⟨d1, d2⟩ := this
    constructor <;> omega

end Eirin
