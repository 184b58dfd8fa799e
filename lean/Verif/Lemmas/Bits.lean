import Verif.Lemmas.Round

/-! # Bit masks (helper lemmas). -/

namespace Eirin
open Spec

theorem Nat.land_high (X w k : Nat) (hk : k ≤ w) (hX : X < 2 ^ w) :
    X &&& (2 ^ w - 2 ^ k) = X / 2 ^ k * 2 ^ k := by
  have e : 2 ^ w - 2 ^ k = (2 ^ (w - k) - 1) <<< k := by
    rw [Nat.shiftLeft_eq, Nat.sub_mul, ← pow_add]; congr 2 <;> omega
  have e2 : X / 2 ^ k * 2 ^ k = (X >>> k) <<< k := by rw [Nat.shiftLeft_eq, Nat.shiftRight_eq_div_pow]
  rw [e, e2]
  apply Nat.eq_of_testBit_eq
  intro i
  rw [Nat.testBit_and, Nat.testBit_shiftLeft, Nat.testBit_shiftLeft, Nat.testBit_two_pow_sub_one, Nat.testBit_shiftRight]
  by_cases h : k ≤ i
  · simp only [h, decide_true, Bool.true_and]
    have : k + (i - k) = i := by omega
    rw [this]
    by_cases h2 : i - k < w - k
    · simp [h2]
    · have : X.testBit i = false := by
        apply Nat.testBit_lt_two_pow
        exact lt_of_lt_of_le hX (Nat.pow_le_pow_right (by norm_num) (by omega))
      simp [this]
  · simp [h]

theorem toNat_ofInt_neg_pow (w k : Nat) (hk : k < w) : (BitVec.ofInt w (-(2 ^ k))).toNat = 2 ^ w - 2 ^ k := by
  rw [BitVec.toNat_ofInt]
  have h1 : (2 : Int) ^ k < 2 ^ w := pow_lt_pow_right₀ (by norm_num) hk
  have h2 : (0 : Int) < 2 ^ k := by positivity
  have h3 : 2 ^ k < 2 ^ w := Nat.pow_lt_pow_right (by norm_num) hk
  have : (-(2 ^ k) : Int) % ((2 ^ w : Nat) : Int) = 2 ^ w - 2 ^ k := by
    rw [← Int.add_emod_right, Int.emod_eq_of_lt] <;> push_cast <;> omega
  rw [this]
  have e : ((2 : Int) ^ w - 2 ^ k) = ((2 ^ w - 2 ^ k : Nat) : Int) := by
    rw [Nat.cast_sub h3.le]; push_cast; rfl
  rw [e, Int.toNat_natCast]

/-- Testing against the sign mask `-2^k` of a value in `[-2^k, 2^k)` tests for negativity. -/
theorem band_signmask (t : IntTy) (k : Nat) (hk : k < t.bits) {x : Int} (h1 : -(2 ^ k) ≤ x) (h2 : x < 2 ^ k) :
    band t x (-(2 ^ k)) ≠ 0 ↔ x < 0 := by
  have hp : (0 : Int) < 2 ^ k := by positivity
  have hw : (2 : Int) ^ (k + 1) ≤ 2 ^ t.bits := pow_le_pow_right₀ (by norm_num) hk
  rw [pow_succ] at hw
  unfold band
  rw [BitVec.toNat_and, toNat_ofInt_neg_pow _ _ hk, Nat.land_high _ _ _ hk.le (BitVec.isLt _), BitVec.toNat_ofInt]
  rcases lt_or_ge x 0 with hx | hx
  · simp only [hx, iff_true]
    have e : x % ((2 ^ t.bits : Nat) : Int) = x + 2 ^ t.bits := by
      rw [← Int.add_emod_right, Int.emod_eq_of_lt] <;> push_cast <;> omega
    rw [e]
    have hge : 2 ^ k ≤ (x + 2 ^ t.bits).toNat := by
      have : ((2 ^ k : Nat) : Int) ≤ ((x + 2 ^ t.bits).toNat : Int) := by
        rw [Int.toNat_of_nonneg (by omega)]; push_cast; omega
      exact_mod_cast this
    have hlt : (x + 2 ^ t.bits).toNat < 2 ^ t.bits := by
      have : ((x + 2 ^ t.bits).toNat : Int) < ((2 ^ t.bits : Nat) : Int) := by
        rw [Int.toNat_of_nonneg (by omega)]; push_cast; omega
      exact_mod_cast this
    set N := (x + 2 ^ t.bits).toNat / 2 ^ k * 2 ^ k with hN
    have hN0 : 0 < N := Nat.mul_pos (Nat.div_pos hge (by positivity)) (by positivity)
    have hNlt : N < 2 ^ t.bits := lt_of_le_of_lt (Nat.div_mul_le_self _ _) hlt
    intro h0
    have := IntTy.wrap_dvd t (N : Int)
    rw [h0, sub_zero] at this
    have h' : 2 ^ t.bits ∣ N := by exact_mod_cast this
    exact absurd (Nat.le_of_dvd hN0 h') (by omega)
  · have hx' : ¬ x < 0 := by omega
    simp only [hx', iff_false, ne_eq, not_not]
    have e : x % ((2 ^ t.bits : Nat) : Int) = x := by
      rw [Int.emod_eq_of_lt] <;> push_cast <;> omega
    rw [e]
    have : x.toNat / 2 ^ k = 0 := by
      apply Nat.div_eq_of_lt
      have : (x.toNat : Int) < ((2 ^ k : Nat) : Int) := by
        rw [Int.toNat_of_nonneg hx]; push_cast; omega
      exact_mod_cast this
    rw [this]
    simp [IntTy.wrap]

/-- Masking with `2^k - 1` is reduction modulo `2^k`. -/
theorem band_lowmask (t : IntTy) (k : Nat) (hk : k < t.bits) (x : Int) :
    band t x (2 ^ k - 1) = x % 2 ^ k := by
  have hp : (0 : Int) < 2 ^ k := by positivity
  have hw : (2 : Int) ^ k < 2 ^ t.bits := pow_lt_pow_right₀ (by norm_num) hk
  unfold band
  have e1 : (BitVec.ofInt t.bits (2 ^ k - 1)).toNat = 2 ^ k - 1 := by
    rw [BitVec.toNat_ofInt, Int.emod_eq_of_lt (by omega) (by push_cast; omega)]
    have : (2 : Int) ^ k - 1 = ((2 ^ k - 1 : Nat) : Int) := by
      rw [Nat.cast_sub (Nat.one_le_two_pow)]; push_cast; rfl
    rw [this, Int.toNat_natCast]
  rw [BitVec.toNat_and, e1, Nat.and_two_pow_sub_one_eq_mod, BitVec.toNat_ofInt]
  have e2 : (((x % ((2 ^ t.bits : Nat) : Int)).toNat % 2 ^ k : Nat) : Int) = x % 2 ^ k := by
    push_cast
    rw [Int.toNat_of_nonneg (Int.emod_nonneg _ (by positivity))]
    apply Int.emod_emod_of_dvd
    exact pow_dvd_pow 2 hk.le
  rw [e2]
  apply IntTy.wrap_of_inRange (by omega)
  have h1 := Int.emod_nonneg x (ne_of_gt hp)
  have h2 := Int.emod_lt_of_pos x hp
  have h3 : (2 : Int) ^ k ≤ 2 ^ (t.bits - 1) := pow_le_pow_right₀ (by norm_num) (by omega)
  unfold IntTy.InRange IntTy.lo IntTy.hi
  split <;> omega

variable {F : FxTy}

theorem signbitMask_eq (h : F.Valid) (hs : F.T.signed = true) : signbitMask F = -(2 ^ (F.T.bits - 1)) := by
  unfold signbitMask
  rw [IntTy.wrap_wrap_of_le h.tp]
  have hr : F.T.InRange (-(2 ^ (F.T.bits - 1))) := by
    have : (0 : Int) < 2 ^ (F.T.bits - 1) := by positivity
    unfold IntTy.InRange IntTy.lo IntTy.hi; simp only [hs, if_true]; omega
  rw [← IntTy.wrap_of_inRange h.tpos hr]
  rw [IntTy.wrap_of_inRange h.tpos hr]
  conv_rhs => rw [← IntTy.wrap_of_inRange h.tpos hr]
  apply IntTy.wrap_congr
  have := IntTy.two_pow_pred F.T.bits h.tpos
  exact ⟨1, by omega⟩

theorem signbit_iff (h : F.Valid) {x : Int} (hx : F.T.InRange x) : signbit F x = true ↔ x < 0 := by
  unfold signbit
  obtain ⟨h1, h2⟩ := hx
  have htp := h.tp
  have ht := h.tpos
  unfold IntTy.lo at h1; unfold IntTy.hi at h2
  cases hs : F.T.signed
  · simp only [hs, Bool.false_eq_true, if_false] at h1 h2 ⊢
    simp; omega
  · simp only [hs, if_true] at h1 h2 ⊢
    rw [signbitMask_eq h hs, decide_eq_true_iff]
    exact band_signmask F.P _ (by omega) h1 (by omega)

end Eirin
