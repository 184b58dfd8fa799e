import Verif.Lemmas.Signed
import Mathlib.Data.Nat.Bitwise

/-! # The bit-by-bit square root of `math.hpp` computes the integer square root (helper lemmas). -/

namespace Eirin

/-- Loop invariant with `k` result bits still to be decided: `R` is the part of the root already found, `q = 2^s·R`, and
`v` is the remainder scaled by `2^(s-k)`. -/
structure SqInv (s : Nat) (N R : Int) (k : Nat) (q v : Int) : Prop where
  r0 : 0 ≤ R
  lo : R ^ 2 ≤ N
  hi : N < (R + 2 ^ k) ^ 2
  q : q = 2 ^ s * R
  v : v * 2 ^ k = (N - R ^ 2) * 2 ^ s

theorem u64_wrap_of {n : Int} (h0 : 0 ≤ n) (h1 : n < 2 ^ 64) : u64.wrap n = n :=
  IntTy.wrap_of_inRange (by decide) ⟨by simpa [IntTy.lo] using h0, by simp [IntTy.hi]; omega⟩

theorem SqInv.v0 {s N R k q v} (h : SqInv s N R k q v) : 0 ≤ v := by
  have hp : (0 : Int) < 2 ^ k := by positivity
  have hs : (0 : Int) < 2 ^ s := by positivity
  have := h.lo
  by_contra hc
  push Not at hc
  have h1 : v * 2 ^ k < 0 := mul_neg_of_neg_of_pos hc hp
  rw [h.v] at h1
  have : 0 ≤ (N - R ^ 2) * 2 ^ s := mul_nonneg (by omega) hs.le
  omega

theorem SqInv.rlt {s N R k q v} (h : SqInv s N R k q v) (hN : N < 2 ^ 48) : R < 2 ^ 24 := by
  have := h.lo
  by_contra hc
  push Not at hc
  have : (2 ^ 24) ^ 2 ≤ R ^ 2 := pow_le_pow_left₀ (by norm_num) hc 2
  norm_num at this hN; omega

/-- One trial subtraction decides one bit. -/
theorem SqInv.step {s N R k q v} (h : SqInv s N R (k + 1) q v) (hk : k < 24) (hN : N < 2 ^ 48) (hs : s ≤ 8) (hs1 : 1 ≤ s) :
    ∃ R' q' v', sqrtStep q v (2 ^ (k + s - 1)) = (q', v') ∧ (R' = R ∨ R' = R + 2 ^ k) ∧ 0 ≤ R' ∧ R' ^ 2 ≤ N ∧
      N < (R' + 2 ^ k) ^ 2 ∧ q' = 2 ^ s * R' ∧ v' * 2 ^ (k + 1) = (N - R' ^ 2) * 2 ^ s ∧ 0 ≤ v' ∧ v' ≤ v ∧ v < 2 ^ 40 := by
  have hr0 := h.r0
  have hlo := h.lo
  have hhi := h.hi
  have hv := h.v
  have hq := h.q
  have hR := h.rlt hN
  have hv0 := h.v0
  set β : Int := 2 ^ k with hβ
  have hβ0 : 0 < β := by positivity
  have hβ24 : β ≤ 2 ^ 23 := pow_le_pow_right₀ (by norm_num) (by omega)
  have e1 : (2 : Int) ^ (k + 1) = 2 * β := by rw [pow_succ]; ring
  rw [e1] at hv hhi
  set S : Int := 2 ^ (s - 1) with hS
  have eS : (2 : Int) ^ s = 2 * S := by rw [hS, IntTy.two_pow_pred s (by omega)]
  have hS0 : 0 < S := by positivity
  have hS8 : S ≤ 2 ^ 7 := pow_le_pow_right₀ (by norm_num) (by omega)
  have eb : (2 : Int) ^ (k + s - 1) = S * β := by rw [hS, hβ, ← pow_add]; congr 1; omega
  rw [eS] at hv hq
  have hvb : v < 2 ^ 40 := by
    have h1 : v * (2 * β) < (2 * β * (2 * R + 2 * β)) * (2 * S) := by
      rw [hv]; apply mul_lt_mul_of_pos_right _ (by positivity); nlinarith
    have h2 : v * (2 * β) < ((2 * R + 2 * β) * (2 * S)) * (2 * β) := by nlinarith
    have h3 : v < (2 * R + 2 * β) * (2 * S) := lt_of_mul_lt_mul_right h2 (by positivity)
    have h4 : (2 * R + 2 * β) * (2 * S) ≤ (2 * 2 ^ 24 + 2 * 2 ^ 23) * (2 * 2 ^ 7) := by
      apply mul_le_mul <;> first | omega | positivity
    norm_num at h4 ⊢; omega
  have hSR : S * R ≤ 2 ^ 7 * 2 ^ 24 := mul_le_mul hS8 hR.le hr0 (by norm_num)
  have hSβ : S * β ≤ 2 ^ 7 * 2 ^ 23 := mul_le_mul hS8 hβ24 hβ0.le (by norm_num)
  have hSR0 : 0 ≤ S * R := by positivity
  have hSβ0 : 0 < S * β := by positivity
  have et : q + S * β = 2 * (S * R) + S * β := by rw [hq]; ring
  unfold sqrtStep
  simp only []
  rw [eb, et, u64_wrap_of (n := 2 * (S * R) + S * β) (by omega) (by norm_num at *; omega)]
  -- the test
  have key : (2 * (S * R) + S * β ≤ v ↔ (R + β) ^ 2 ≤ N) := by
    have h1 : 2 * (S * R) + S * β ≤ v ↔ (2 * (S * R) + S * β) * (2 * β) ≤ v * (2 * β) :=
      (mul_le_mul_iff_left₀ (by positivity)).symm
    rw [h1, hv]
    have h2 : (2 * (S * R) + S * β) * (2 * β) = (2 * R * β + β ^ 2) * (2 * S) := by ring
    rw [h2, mul_le_mul_iff_left₀ (by positivity)]
    constructor <;> intro h <;> nlinarith
  by_cases ht : 2 * (S * R) + S * β ≤ v
  · refine ⟨R + β, _, _, if_pos ht, Or.inr rfl, by omega, key.1 ht, by nlinarith, ?_, ?_, ?_, ?_, hvb⟩
    · rw [u64_wrap_of (by omega) (by norm_num at *; omega), eS]; ring
    · rw [u64_wrap_of (by omega) (by norm_num at *; omega), eS, e1, sub_mul, hv]; ring
    · rw [u64_wrap_of (by omega) (by norm_num at *; omega)]; omega
    · rw [u64_wrap_of (by omega) (by norm_num at *; omega)]; omega
  · refine ⟨R, _, _, if_neg ht, Or.inl rfl, hr0, hlo, ?_, by rw [eS]; exact hq, by rw [eS, e1]; exact hv, hv0, le_refl _, hvb⟩
    rw [key] at ht; omega

theorem two_pow_div_two (n : Nat) (h : 0 < n) : (2 : Int) ^ n / 2 = 2 ^ (n - 1) := by
  rw [IntTy.two_pow_pred n h]; exact Int.mul_ediv_cancel_left _ (by norm_num)

theorem SqInv.next {s N R' k q' v'} (h0 : 0 ≤ R') (hlo : R' ^ 2 ≤ N) (hhi : N < (R' + 2 ^ k) ^ 2) (hq : q' = 2 ^ s * R')
    (hv : v' * 2 ^ (k + 1) = (N - R' ^ 2) * 2 ^ s) (hv0 : 0 ≤ v') (hvb : v' < 2 ^ 40) :
    SqInv s N R' k q' (u64.wrap (v' * 2)) :=
  ⟨h0, hlo, hhi, hq, by
    rw [u64_wrap_of (by omega) (by norm_num at *; omega), ← hv, pow_succ]; ring⟩

/-- `r` is the integer square root of `N`. -/
def IsRoot (N r : Int) : Prop := 0 ≤ r ∧ r ^ 2 ≤ N ∧ N < (r + 1) ^ 2

theorem sqrtLoopA_ok (N : Int) (hN : N < 2 ^ 48) : ∀ (k fuel : Nat) (R q v : Int), k < fuel → k ≤ 24 →
    SqInv 8 N R k q v → ∃ r, sqrtLoopA fuel q v (2 ^ (k + 6)) = .ok r ∧ IsRoot N r := by
  intro k
  induction k with
  | zero =>
    intro fuel R q v hf _ h
    obtain ⟨fuel, rfl⟩ : ∃ m, fuel = m + 1 := ⟨fuel - 1, by omega⟩
    refine ⟨R, ?_, h.r0, h.lo, by have := h.hi; simpa using this⟩
    unfold sqrtLoopA
    rw [if_neg (by norm_num), h.q, Int.mul_ediv_cancel_left _ (by norm_num)]
  | succ k ih =>
    intro fuel R q v hf hk h
    obtain ⟨fuel, rfl⟩ : ∃ m, fuel = m + 1 := ⟨fuel - 1, by omega⟩
    obtain ⟨R', q', v', hst, _, a1, a2, a3, a4, a5, a6, a7, a8⟩ := h.step (by omega) hN (le_refl _) (by norm_num)
    have e : k + 8 - 1 = k + 1 + 6 := by omega
    rw [e] at hst
    unfold sqrtLoopA
    rw [if_pos, hst]
    · simp only []
      rw [two_pow_div_two _ (by omega)]
      exact ih fuel R' _ _ (by omega) (by omega) (SqInv.next a1 a2 a3 a4 a5 a6 (by omega))
    · have : (2 : Int) ^ 7 ≤ 2 ^ (k + 1 + 6) := pow_le_pow_right₀ (by norm_num) (by omega)
      norm_num at this ⊢; omega

theorem sqrtLoopC_ok (N : Int) (hN : N < 2 ^ 48) : ∀ (k fuel : Nat) (R q v : Int), k < fuel → k ≤ 24 →
    SqInv 7 N R k q v → ∃ r, sqrtLoopC fuel q v (2 ^ (k + 5)) = .ok r ∧ IsRoot N r := by
  intro k
  induction k with
  | zero =>
    intro fuel R q v hf _ h
    obtain ⟨fuel, rfl⟩ : ∃ m, fuel = m + 1 := ⟨fuel - 1, by omega⟩
    refine ⟨R, ?_, h.r0, h.lo, by have := h.hi; simpa using this⟩
    unfold sqrtLoopC
    rw [if_neg (by norm_num), h.q, Int.mul_ediv_cancel_left _ (by norm_num)]
  | succ k ih =>
    intro fuel R q v hf hk h
    obtain ⟨fuel, rfl⟩ : ∃ m, fuel = m + 1 := ⟨fuel - 1, by omega⟩
    obtain ⟨R', q', v', hst, _, a1, a2, a3, a4, a5, a6, a7, a8⟩ := h.step (by omega) hN (by norm_num) (by norm_num)
    have e : k + 7 - 1 = k + 1 + 5 := by omega
    rw [e] at hst
    unfold sqrtLoopC
    rw [if_pos, hst]
    · simp only []
      rw [two_pow_div_two _ (by omega)]
      exact ih fuel R' _ _ (by omega) (by omega) (SqInv.next a1 a2 a3 a4 a5 a6 (by omega))
    · have : (2 : Int) ^ 6 ≤ 2 ^ (k + 1 + 5) := pow_le_pow_right₀ (by norm_num) (by omega)
      norm_num at this ⊢; omega

theorem band_bit31_lt {v : Int} (h0 : 0 ≤ v) (h1 : v < 2 ^ 31) : band u64 v 0x80000000 = 0 := by
  unfold band
  have e : (BitVec.ofInt u64.bits v &&& BitVec.ofInt u64.bits 0x80000000).toNat = 0 := by
    rw [BitVec.toNat_and, BitVec.toNat_ofInt, BitVec.toNat_ofInt]
    have e1 : ((0x80000000 : Int) % ((2 ^ u64.bits : Nat) : Int)).toNat = 2 ^ 31 := by decide +kernel
    have e2 : (v % ((2 ^ u64.bits : Nat) : Int)).toNat = v.toNat := by
      congr 1; apply Int.emod_eq_of_lt h0; norm_num at *; omega
    rw [e1, e2, Nat.land_comm, Nat.two_pow_and, Nat.testBit_lt_two_pow (by norm_num at *; omega)]; simp
  rw [e]; decide

/-- The second variant, including the switch to the inner loop. -/
theorem sqrtLoopB_ok (v0 : Int) (hv0 : v0 < 2 ^ 31) : ∀ (k fuel : Nat) (R q v : Int), k < fuel → k ≤ 24 →
    (2 : Int) ^ k ∣ R → (k = 24 → v = v0 ∧ R = 0) → SqInv 8 (v0 * 2 ^ 16) R k q v →
    ∃ r, sqrtLoopB fuel q v (2 ^ (k + 6)) = .ok r ∧ IsRoot (v0 * 2 ^ 16) r := by
  have hN : v0 * 2 ^ 16 < 2 ^ 48 := by norm_num at *; omega
  intro k
  induction k with
  | zero =>
    intro fuel R q v hf _ _ _ h
    obtain ⟨fuel, rfl⟩ : ∃ m, fuel = m + 1 := ⟨fuel - 1, by omega⟩
    refine ⟨R, ?_, h.r0, h.lo, by have := h.hi; simpa using this⟩
    unfold sqrtLoopB
    rw [if_neg (by norm_num), h.q, Int.mul_ediv_cancel_left _ (by norm_num)]
  | succ k ih =>
    intro fuel R q v hf hk hd hfirst h
    obtain ⟨fuel, rfl⟩ : ∃ m, fuel = m + 1 := ⟨fuel - 1, by omega⟩
    obtain ⟨R', q', v', hst, hR', a1, a2, a3, a4, a5, a6, a7, a8⟩ := h.step (by omega) hN (le_refl _) (by norm_num)
    have e : k + 8 - 1 = k + 1 + 6 := by omega
    rw [e] at hst
    have hd' : (2 : Int) ^ k ∣ R' := by
      have : (2 : Int) ^ k ∣ R := dvd_trans (pow_dvd_pow 2 (by omega)) hd
      rcases hR' with rfl | rfl
      · exact this
      · exact Int.dvd_add this (dvd_refl _)
    unfold sqrtLoopB
    rw [if_pos, hst]
    · simp only []
      rw [two_pow_div_two _ (by omega)]
      by_cases hb : band u64 v' 0x80000000 = 0
      · rw [if_neg (by simpa using hb)]
        exact ih fuel R' _ _ (by omega) (by omega) hd' (by omega) (SqInv.next a1 a2 a3 a4 a5 a6 (by omega))
      · rw [if_pos hb]
        -- the switch cannot happen on the first iteration
        have hk23 : k + 1 ≤ 23 := by
          by_contra hc
          have hk24 : k + 1 = 24 := by omega
          obtain ⟨hv, _⟩ := hfirst hk24
          exact hb (band_bit31_lt a6 (by omega))
        obtain ⟨m, hm⟩ : ∃ m, v' = 2 * m := by
          obtain ⟨c, hc⟩ := hd'
          have h24 : (2 : Int) ^ 24 = 2 ^ (22 - k) * 2 ^ (k + 2) := by rw [← pow_add]; congr 1; omega
          have h16 : v' * 2 ^ (k + 1) = (v0 * 2 ^ (22 - k) - c ^ 2 * 2 ^ (k + 6)) * 2 * 2 ^ (k + 1) := by
            rw [a5, hc]
            calc (v0 * 2 ^ 16 - (2 ^ k * c) ^ 2) * 2 ^ 8 = v0 * 2 ^ 24 - (2 ^ k * c) ^ 2 * 2 ^ 8 := by ring
              _ = v0 * (2 ^ (22 - k) * 2 ^ (k + 2)) - (2 ^ k * c) ^ 2 * 2 ^ 8 := by rw [h24]
              _ = _ := by ring
          have h2 := mul_right_cancel₀ (by positivity) h16
          exact ⟨v0 * 2 ^ (22 - k) - c ^ 2 * 2 ^ (k + 6), by rw [h2]; ring⟩
        have hinv : SqInv 7 (v0 * 2 ^ 16) R' (k + 1) (q' / 2) (v' / 2) := by
          refine ⟨a1, a2, ?_, ?_, ?_⟩
          · have : (2 : Int) ^ k ≤ 2 ^ (k + 1) := pow_le_pow_right₀ (by norm_num) (by omega)
            have h0 : (0 : Int) < 2 ^ k := by positivity
            calc v0 * 2 ^ 16 < (R' + 2 ^ k) ^ 2 := a3
              _ ≤ (R' + 2 ^ (k + 1)) ^ 2 := pow_le_pow_left₀ (by omega) (by omega) 2
          · rw [a4]; omega
          · rw [hm, Int.mul_ediv_cancel_left _ (by norm_num)]
            rw [hm] at a5
            have h8 : (2 : Int) ^ 8 = 2 * 2 ^ 7 := by norm_num
            rw [h8] at a5
            have : 2 * (m * 2 ^ (k + 1)) = 2 * ((v0 * 2 ^ 16 - R' ^ 2) * 2 ^ 7) := by rw [← mul_assoc, a5]; ring
            exact mul_left_cancel₀ (by norm_num) this
        have e5 : k + 1 + 6 - 1 = k + 1 + 5 := by omega
        rw [e5]
        exact sqrtLoopC_ok _ hN (k + 1) 32 R' _ _ (by omega) (by omega) hinv
    · have : (2 : Int) ^ 7 ≤ 2 ^ (k + 1 + 6) := pow_le_pow_right₀ (by norm_num) (by omega)
      norm_num at this ⊢; omega

/-- The two loops together: the integer square root of `v·2^16`. -/
theorem sqrtLoops_ok {v : Int} (h0 : 0 ≤ v) (h1 : v < 2 ^ 31) :
    ∃ r, (if v < 0x40000200 then sqrtLoopA 32 0 v 0x40000000 else sqrtLoopB 32 0 v 0x40000000) = .ok r ∧
      IsRoot (v * 2 ^ 16) r := by
  have hinv : SqInv 8 (v * 2 ^ 16) 0 24 0 v := ⟨le_refl _, by norm_num; omega, by norm_num at *; omega, by norm_num, by ring⟩
  have e : (0x40000000 : Int) = 2 ^ (24 + 6) := by norm_num
  rw [e]
  split
  · exact sqrtLoopA_ok _ (by norm_num at *; omega) 24 32 0 0 v (by norm_num) (by norm_num) hinv
  · exact sqrtLoopB_ok v h1 24 32 0 0 v (by norm_num) (by norm_num) (by simp) (by simp) hinv

theorem IsRoot.unique {N r s : Int} (hr : IsRoot N r) (hs : IsRoot N s) : r = s := by
  obtain ⟨a1, a2, a3⟩ := hr
  obtain ⟨b1, b2, b3⟩ := hs
  have h1 : r < s + 1 := lt_of_pow_lt_pow_left₀ 2 (by omega) (lt_of_le_of_lt a2 b3)
  have h2 : s < r + 1 := lt_of_pow_lt_pow_left₀ 2 (by omega) (lt_of_le_of_lt b2 a3)
  omega

theorem IsRoot.mono {M N r s : Int} (hr : IsRoot M r) (hs : IsRoot N s) (h : M ≤ N) : r ≤ s := by
  have h1 : r < s + 1 := lt_of_pow_lt_pow_left₀ 2 (by have := hs.1; omega) (lt_of_le_of_lt (le_trans hr.2.1 h) hs.2.2)
  omega

/-- `sqrt` for 32-bit storage with any number of fraction bits. -/
theorem sqrt_i32 {F : FxTy} (hT : F.T = i32) (hf : F.f ≤ 31) {x v : Int} (h0 : 0 ≤ v) (h1 : v < 2 ^ 31)
    (hv : v = if F.f > 16 then x / 2 ^ (F.f - 16) else i32.wrap (x * 2 ^ (16 - F.f))) :
    ∃ r, sqrt F x = .ok r ∧ IsRoot (v * 2 ^ 16) r ∧ Spec.Storable F r := by
  obtain ⟨r, hr, hroot⟩ := sqrtLoops_ok h0 h1
  have hr31 : r < 2 ^ 24 := by
    have : r ^ 2 < (2 ^ 24) ^ 2 := lt_of_le_of_lt hroot.2.1 (by norm_num at *; omega)
    exact lt_of_pow_lt_pow_left₀ 2 (by norm_num) this
  have hri : i32.InRange r := by
    have := hroot.1
    constructor <;> norm_num [IntTy.lo, IntTy.hi] <;> norm_num at hr31 <;> omega
  refine ⟨r, ?_, hroot, by unfold Spec.Storable; rw [hT]; exact hri⟩
  unfold sqrt sqrtBits
  rw [if_pos hT, hT]
  have hsh : (if F.f > 16 then shr i32 x (F.f - 16) else shl i32 x (16 - F.f)) = .ok v := by
    rw [hv]
    split
    · unfold shr; rw [if_pos (by simp [IntTy.promote]; omega)]
    · unfold shl; rw [if_pos (by simp [IntTy.promote]; omega)]; rfl
  have hw : fromInternal F (i32.wrap r) = r := by
    unfold fromInternal
    rw [hT, IntTy.wrap_of_inRange (by decide) hri, IntTy.wrap_of_inRange (by decide) hri]
  have hu := u64_wrap_of h0 (by norm_num at *; omega)
  by_cases hf16 : F.f > 16 <;> by_cases hvv : v < 0x40000200 <;>
    simp only [hf16, hvv, if_true, if_false] at hsh hr ⊢ <;>
    simp only [hsh, Res.bind_ok, hu, hvv, if_true, if_false, hr, hw, Res.pure_eq]

end Eirin
