import Verif.Model.Simd
import Verif.Lemmas.Mixed
import Verif.Spec

/-! # Lane arithmetic of the SIMD code -/

namespace Eirin
open Spec

theorem toInt_neg_iff (x : BitVec 64) : x.toInt < 0 ↔ 2 ^ 63 ≤ x.toNat := by
  rw [BitVec.toInt_eq_toNat_cond]
  have := x.isLt
  split <;> omega

theorem natAbs_toInt (x : BitVec 64) : x.toInt.natAbs = if x.toInt < 0 then 2 ^ 64 - x.toNat else x.toNat := by
  have hi := toInt_neg_iff x
  have hx := BitVec.toInt_eq_toNat_cond x
  have := x.isLt
  by_cases h : x.toInt < 0
  · rw [if_pos h]; split at hx <;> omega
  · rw [if_neg h]; split at hx <;> omega

/-- `0 - (x >> 63)`: all ones for a negative lane, zero otherwise. -/
theorem mask_eq (x : BitVec 64) : (0 : BitVec 64) - x >>> 63 = if x.toInt < 0 then BitVec.allOnes 64 else 0 := by
  have hlt := x.isLt
  have hi := toInt_neg_iff x
  have e : (x >>> 63).toNat = x.toNat / 2 ^ 63 := by rw [BitVec.toNat_ushiftRight, Nat.shiftRight_eq_div_pow]
  by_cases h : x.toInt < 0
  · have : (x >>> 63) = 1#64 := by
      apply BitVec.eq_of_toNat_eq; rw [e]; simp; omega
    rw [this, if_pos h]; decide
  · have : (x >>> 63) = 0#64 := by
      apply BitVec.eq_of_toNat_eq; rw [e]; simp; omega
    rw [this, if_neg h]; decide

/-- `(v ^ m) - m` negates exactly when the mask is all ones. -/
theorem flip_eq (v : BitVec 64) (b : Prop) [Decidable b] :
    (v ^^^ (if b then BitVec.allOnes 64 else 0)) - (if b then BitVec.allOnes 64 else 0) = if b then -v else v := by
  split
  · rw [BitVec.xor_allOnes, BitVec.neg_eq_not_add, BitVec.sub_eq_add_neg]; rfl
  · simp

theorem mask_xor (b c : Prop) [Decidable b] [Decidable c] :
    (if b then BitVec.allOnes 64 else 0) ^^^ (if c then BitVec.allOnes 64 else 0) = if ¬ (b ↔ c) then BitVec.allOnes 64 else 0 := by
  by_cases hb : b <;> by_cases hc : c <;> simp [hb, hc]

theorem abs_toNat (x : BitVec 64) : (if x.toInt < 0 then -x else x).toNat = x.toInt.natAbs := by
  rw [natAbs_toInt]
  have hi := toInt_neg_iff x
  have := x.isLt
  split
  · rw [BitVec.toNat_neg]; omega
  · rfl

theorem mulEpu32_toNat (u v : BitVec 64) :
    (((u.setWidth 32).setWidth 64) * ((v.setWidth 32).setWidth 64)).toNat = (u.toNat % 2 ^ 32) * (v.toNat % 2 ^ 32) := by
  have h1 : u.toNat % 2 ^ 32 < 2 ^ 32 := Nat.mod_lt _ (by norm_num)
  have h2 : v.toNat % 2 ^ 32 < 2 ^ 32 := Nat.mod_lt _ (by norm_num)
  have h3 : (u.toNat % 2 ^ 32) * (v.toNat % 2 ^ 32) < 2 ^ 64 := by
    calc _ < 2 ^ 32 * 2 ^ 32 := Nat.mul_lt_mul_of_lt_of_lt h1 h2
      _ = 2 ^ 64 := by norm_num
  rw [BitVec.toNat_mul, BitVec.toNat_setWidth, BitVec.toNat_setWidth, BitVec.toNat_setWidth, BitVec.toNat_setWidth,
    Nat.mod_eq_of_lt (by omega : u.toNat % 2 ^ 32 < 2 ^ 64), Nat.mod_eq_of_lt (by omega : v.toNat % 2 ^ 32 < 2 ^ 64), Nat.mod_eq_of_lt h3]

theorem lowmask_toNat (u : BitVec 64) : (u &&& 0xFFFFFFFF#64).toNat = u.toNat % 2 ^ 32 := by
  rw [BitVec.toNat_and]
  exact Nat.and_two_pow_sub_one_eq_mod u.toNat 32

/-- Schoolbook product of two 64-bit numbers, shifted right by 32. -/
theorem school (a b : Nat) :
    (a / 2 ^ 32) * (b % 2 ^ 32) + (a % 2 ^ 32) * (b / 2 ^ 32) + (a / 2 ^ 32) * (b / 2 ^ 32) * 2 ^ 32 + (a % 2 ^ 32) * (b % 2 ^ 32) / 2 ^ 32 =
      a * b / 2 ^ 32 := by
  have ha := Nat.div_add_mod a (2 ^ 32)
  have hb := Nat.div_add_mod b (2 ^ 32)
  generalize a / 2 ^ 32 = ah at *
  generalize a % 2 ^ 32 = al at *
  generalize b / 2 ^ 32 = bh at *
  generalize b % 2 ^ 32 = bl at *
  rw [← ha, ← hb]
  have : (2 ^ 32 * ah + al) * (2 ^ 32 * bh + bl) = al * bl + 2 ^ 32 * (ah * bl + al * bh + ah * bh * 2 ^ 32) := by ring
  rw [this, Nat.add_mul_div_left _ _ (by norm_num)]; ring

/-- The magnitude computed by the fallback multiplication. -/
theorem mag_toNat (A B : BitVec 64) :
    let aLo := A &&& 0xFFFFFFFF#64
    let aHi := A >>> 32
    let bLo := B &&& 0xFFFFFFFF#64
    let bHi := B >>> 32
    let mu := fun u v : BitVec 64 => ((u.setWidth 32).setWidth 64) * ((v.setWidth 32).setWidth 64)
    (mu aHi bLo + mu aLo bHi + (mu aHi bHi) <<< 32 + (mu aLo bLo) >>> 32).toNat = (A.toNat * B.toNat / 2 ^ 32) % 2 ^ 64 := by
  intro aLo aHi bLo bHi mu
  have hA := A.isLt; have hB := B.isLt
  have e1 : ∀ u v, (mu u v).toNat = (u.toNat % 2 ^ 32) * (v.toNat % 2 ^ 32) := mulEpu32_toNat
  have l1 : aLo.toNat = A.toNat % 2 ^ 32 := lowmask_toNat A
  have l2 : bLo.toNat = B.toNat % 2 ^ 32 := lowmask_toNat B
  have g1 : aHi.toNat = A.toNat / 2 ^ 32 := by rw [BitVec.toNat_ushiftRight, Nat.shiftRight_eq_div_pow]
  have g2 : bHi.toNat = B.toNat / 2 ^ 32 := by rw [BitVec.toNat_ushiftRight, Nat.shiftRight_eq_div_pow]
  have m1 : A.toNat % 2 ^ 32 % 2 ^ 32 = A.toNat % 2 ^ 32 := Nat.mod_mod _ _
  have m2 : B.toNat % 2 ^ 32 % 2 ^ 32 = B.toNat % 2 ^ 32 := Nat.mod_mod _ _
  have m3 : A.toNat / 2 ^ 32 % 2 ^ 32 = A.toNat / 2 ^ 32 := Nat.mod_eq_of_lt (by omega)
  have m4 : B.toNat / 2 ^ 32 % 2 ^ 32 = B.toNat / 2 ^ 32 := Nat.mod_eq_of_lt (by omega)
  rw [BitVec.toNat_add, BitVec.toNat_add, BitVec.toNat_add, BitVec.toNat_shiftLeft, BitVec.toNat_ushiftRight, e1, e1, e1, e1, l1, l2, g1, g2,
    m1, m2, m3, m4, Nat.shiftLeft_eq, Nat.shiftRight_eq_div_pow, ← school A.toNat B.toNat]
  generalize A.toNat / 2 ^ 32 * (B.toNat % 2 ^ 32) = p1
  generalize A.toNat % 2 ^ 32 * (B.toNat / 2 ^ 32) = p2
  generalize A.toNat / 2 ^ 32 * (B.toNat / 2 ^ 32) * 2 ^ 32 = p3
  generalize A.toNat % 2 ^ 32 * (B.toNat % 2 ^ 32) / 2 ^ 32 = p4
  omega

theorem wrap64 (m : Int) : i64.wrap m = Int.bmod m (2 ^ 64) := rfl

/-- The signed value of a lane whose magnitude is known modulo `2^64`. -/
theorem toInt_signed (r : BitVec 64) (b : Prop) [Decidable b] (M : Nat) (h : r.toNat = M % 2 ^ 64) :
    (if b then -r else r).toInt = i64.wrap (if b then -(M : Int) else M) := by
  have hr : r.toInt = Int.bmod M (2 ^ 64) := by
    rw [BitVec.toInt_eq_toNat_bmod, h]; push_cast; exact Int.emod_bmod ..
  rw [wrap64]
  split
  · rw [BitVec.toInt_neg, hr]
    exact Int.bmod_neg_bmod
  · exact hr

theorem tdiv_mul_natAbs (a b d : Int) (hd : 0 ≤ d) : Int.tdiv (a * b) d =
    if ¬ (a < 0 ↔ b < 0) then -((a.natAbs * b.natAbs / d.toNat : Nat) : Int) else ((a.natAbs * b.natAbs / d.toNat : Nat) : Int) := by
  have ed : (d.toNat : Int) = d := Int.toNat_of_nonneg hd
  have key : ((a.natAbs * b.natAbs / d.toNat : Nat) : Int) = Int.tdiv ((a.natAbs : Int) * b.natAbs) d := by
    rw [Int.tdiv_eq_ediv_of_nonneg (by positivity)]; push_cast; rw [ed]
  rw [key]
  rcases lt_or_ge a 0 with ha | ha <;> rcases lt_or_ge b 0 with hb | hb
  · rw [if_neg (by simp [ha, hb]), show ((a.natAbs : Int)) = -a by omega, show ((b.natAbs : Int)) = -b by omega, neg_mul_neg]
  · rw [if_pos (by simp [ha]; omega), show ((a.natAbs : Int)) = -a by omega, show ((b.natAbs : Int)) = b by omega, neg_mul, Int.neg_tdiv, neg_neg]
  · rw [if_pos (by simp [hb]; omega), show ((a.natAbs : Int)) = a by omega, show ((b.natAbs : Int)) = -b by omega, mul_neg, Int.neg_tdiv, neg_neg]
  · rw [if_neg (by simp; omega), show ((a.natAbs : Int)) = a by omega, show ((b.natAbs : Int)) = b by omega]

/-- The fallback multiplication of one lane: truncated division of the exact product by `2^32`, reduced to 64 bits. -/
theorem avxMul_lane {n : Nat} (A B : Vec n) (i : Fin n) :
    (avxMul false A B i).toInt = i64.wrap (Int.tdiv ((A i).toInt * (B i).toInt) (2 ^ 32)) := by
  simp only [avxMul, Bool.false_eq_true, if_false, vsub, vxor, vadd, vsrli, vslli, vand, vset1, vzero, vmulEpu32, mask_eq, flip_eq, mask_xor]
  rw [tdiv_mul_natAbs _ _ _ (by norm_num)]
  refine toInt_signed _ _ _ ?_
  have := mag_toNat (if (A i).toInt < 0 then -A i else A i) (if (B i).toInt < 0 then -B i else B i)
  rw [abs_toNat, abs_toNat] at this
  exact this

/-- With AVX-512DQ: the low 64 bits of the product, logically shifted right by 32. -/
theorem avxMul_dq_lane {n : Nat} (A B : Vec n) (i : Fin n) :
    (avxMul true A B i).toInt = (A i).toInt * (B i).toInt % 2 ^ 64 / 2 ^ 32 := by
  simp only [avxMul, if_true, vsrli, vmullo]
  have h1 : (A i * B i).toNat % 2 ^ 64 = (A i * B i).toNat := Nat.mod_eq_of_lt (A i * B i).isLt
  have h2 : ((A i * B i).toNat : Int) = (A i).toInt * (B i).toInt % 2 ^ 64 := by
    have e1 : (A i * B i).toInt = Int.bmod ((A i).toInt * (B i).toInt) (2 ^ 64) := BitVec.toInt_mul ..
    rw [BitVec.toInt_eq_toNat_bmod] at e1
    have e2 := congrArg (· % (2 ^ 64 : Int)) e1
    rw [show (2 : Int) ^ 64 = ((2 ^ 64 : Nat) : Int) by norm_num, Int.bmod_emod, Int.bmod_emod] at e2
    rw [show (2 : Int) ^ 64 = ((2 ^ 64 : Nat) : Int) by norm_num, ← e2]
    exact_mod_cast h1.symm
  have h3 : ((A i * B i) >>> 32).toNat = (A i * B i).toNat / 2 ^ 32 := by rw [BitVec.toNat_ushiftRight, Nat.shiftRight_eq_div_pow]
  have hlt := (A i * B i).isLt
  rw [← h2, BitVec.toInt_eq_toNat_of_lt (by rw [h3]; omega), h3]
  push_cast; rfl

/-- `_mm256_fpint_epi64` on one lane. -/
theorem fpint_lane {n : Nat} (X : Vec n) (i : Fin n) : (fpint X i).toInt = Int.tdiv (X i).toInt (2 ^ 32) * 2 ^ 32 := by
  simp only [fpint, vsub, vxor, vsrli, vslli, vzero, mask_eq, flip_eq]
  set x := X i
  have hlt := x.isLt
  have hn := toInt_neg_iff x
  have ha := natAbs_toInt x
  have hM : x.toInt.natAbs ≤ 2 ^ 63 := by
    rw [ha]; split <;> omega
  set A := (if x.toInt < 0 then -x else x) with hA
  have hAn : A.toNat = x.toInt.natAbs := abs_toNat x
  have hr : ((A >>> 32) <<< 32).toNat = (x.toInt.natAbs / 2 ^ 32 * 2 ^ 32) % 2 ^ 64 := by
    rw [BitVec.toNat_shiftLeft, BitVec.toNat_ushiftRight, hAn, Nat.shiftLeft_eq, Nat.shiftRight_eq_div_pow]
  rw [toInt_signed _ _ _ hr]
  have hle : x.toInt.natAbs / 2 ^ 32 * 2 ^ 32 ≤ x.toInt.natAbs := Nat.div_mul_le_self _ _
  have e : Int.tdiv x.toInt (2 ^ 32) = if x.toInt < 0 then -((x.toInt.natAbs / 2 ^ 32 : Nat) : Int) else ((x.toInt.natAbs / 2 ^ 32 : Nat) : Int) := by
    have := tdiv_mul_natAbs x.toInt 1 (2 ^ 32) (by norm_num)
    simpa using this
  have hx : x.toInt < 2 ^ 63 := by have := BitVec.toInt_lt (x := x); simpa using this
  rw [e]
  have hx' : x.toInt < 0 → x.toInt.natAbs ≤ 2 ^ 63 := fun _ => hM
  generalize x.toInt.natAbs / 2 ^ 32 = q at *
  by_cases h : x.toInt < 0
  · simp only [if_pos h]
    rw [IntTy.wrap_of_inRange (by decide)]
    · push_cast; ring
    · constructor
      · rw [show i64.lo = -2 ^ 63 by rfl]; push_cast; omega
      · rw [show i64.hi = 2 ^ 63 - 1 by rfl]; push_cast; omega
  · simp only [if_neg h]
    rw [IntTy.wrap_of_inRange (by decide)]
    · push_cast; ring
    · constructor
      · rw [show i64.lo = -2 ^ 63 by rfl]; push_cast; omega
      · rw [show i64.hi = 2 ^ 63 - 1 by rfl]; push_cast; omega

end Eirin
