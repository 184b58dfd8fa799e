import Verif.Props.PrintConst

/-! # C127: the outcome of `eval_value` on every double, for every integer type and every fraction count -/

namespace Eirin.Props
open Spec

/-- The builtin integer types (`std::is_integral_v`) of 8 to 64 bits. -/
def BuiltinInt (I : IntTy) : Prop := I.bits = 8 ∨ I.bits = 16 ∨ I.bits = 32 ∨ I.bits = 64

instance (I : IntTy) : Decidable (BuiltinInt I) := by unfold BuiltinInt; infer_instance

theorem setWidth_ofInt {w v : Nat} (h : v ≤ w) (z : Int) : (BitVec.ofInt w z).setWidth v = BitVec.ofInt v z := by
  apply BitVec.eq_of_toNat_eq
  rw [BitVec.toNat_setWidth, BitVec.toNat_ofInt, BitVec.toNat_ofInt]
  have hw : (0 : Int) < ((2 ^ w : Nat) : Int) := by positivity
  have hv : (0 : Int) < ((2 ^ v : Nat) : Int) := by positivity
  have hd : ((2 ^ v : Nat) : Int) ∣ ((2 ^ w : Nat) : Int) := by exact_mod_cast pow_dvd_pow 2 h
  apply Int.ofNat.inj
  show (((z % ((2 ^ w : Nat) : Int)).toNat % 2 ^ v : Nat) : Int) = ((z % ((2 ^ v : Nat) : Int)).toNat : Int)
  rw [Int.natCast_emod, Int.toNat_of_nonneg (Int.emod_nonneg _ hw.ne'), Int.toNat_of_nonneg (Int.emod_nonneg _ hv.ne'),
    Int.emod_emod_of_dvd _ hd]

/-- `res |= 1ll << s` on the bits that are kept: an addition. -/
theorem or_bit {I c : IntTy} (hc : I.bits ≤ c.bits) {R s : Nat} (hI : I.bits ≤ 64) (hd : 2 ^ (s + 1) ∣ R) :
    I.wrap (bor c (I.wrap R) (i64.wrap (2 ^ s))) = I.wrap ((R + 2 ^ s : Nat) : Int) := by
  unfold bor
  rw [IntTy.wrap_wrap_of_le hc]
  apply IntTy.wrap_congr
  have h1 : (BitVec.ofInt c.bits (I.wrap R) ||| BitVec.ofInt c.bits (i64.wrap (2 ^ s))).setWidth I.bits =
      BitVec.ofNat I.bits (R + 2 ^ s) := by
    rw [BitVec.setWidth_or]
    have e : ∀ (z : Int) (m : Nat), (2 : Int) ^ I.bits ∣ z - m → (BitVec.ofInt c.bits z).setWidth I.bits = BitVec.ofNat I.bits m := by
      intro z m hz
      rw [setWidth_ofInt hc, ← BitVec.ofInt_natCast]
      apply BitVec.eq_of_toInt_eq
      rw [BitVec.toInt_ofInt, BitVec.toInt_ofInt]
      obtain ⟨k, hk⟩ := hz
      have : z = m + k * ((2 ^ I.bits : Nat) : Int) := by push_cast; linarith
      rw [this]; exact Int.add_mul_bmod_self_right _ _ _
    rw [e _ R ?_, e _ (2 ^ s) ?_]
    · obtain ⟨b, hb⟩ := hd
      have h2 : 2 ^ s < 2 ^ (s + 1) := Nat.pow_lt_pow_right (by norm_num) (by omega)
      rw [hb, Nat.two_pow_add_eq_or_of_lt h2]
      rw [BitVec.ofNat_or]
    · have := IntTy.wrap_dvd i64 (2 ^ s)
      push_cast
      rw [show (i64.wrap (2 ^ s) - 2 ^ s : Int) = -(2 ^ s - i64.wrap (2 ^ s)) by ring]
      exact (dvd_trans (pow_dvd_pow _ hI) this).neg_right
    · have := IntTy.wrap_dvd I R
      rw [show (I.wrap R - R : Int) = -(R - I.wrap R) by ring]
      exact this.neg_right
  have h3 := congrArg BitVec.toNat h1
  rw [BitVec.toNat_setWidth, BitVec.toNat_ofNat] at h3
  have h4 : (((BitVec.ofInt c.bits (I.wrap R) ||| BitVec.ofInt c.bits (i64.wrap (2 ^ s))).toNat % 2 ^ I.bits : Nat) : Int) =
      ((R + 2 ^ s) % 2 ^ I.bits : Nat) := by rw [h3]
  push_cast at h4
  have := Int.ModEq.dvd (show _ ≡ _ [ZMOD 2 ^ I.bits] from h4.symm)
  push_cast
  exact this

theorem builtin_le {I : IntTy} (h : BuiltinInt I) : 8 ≤ I.bits ∧ I.bits ≤ 64 := by rcases h with h | h | h | h <;> omega

theorem common_le (I : IntTy) : I.bits ≤ (IntTy.common I i64).bits := by
  unfold IntTy.common IntTy.promote
  simp only []
  split_ifs <;> simp_all <;> omega

theorem shl_bit (s : Nat) (hs : s < 64) : shl i64 1 s = .ok (i64.wrap (2 ^ s)) := by
  unfold shl
  rw [if_pos (show s < i64.promote.bits from hs), one_mul]; rfl

/-- The loop adds the remaining bits, modulo the width of the type. -/
theorem evalLoop_gen {rnd : ℚ → ℚ} (hr : ExactRounding rnd) {I : IntTy} (hI : BuiltinInt I) {n d : Nat} (hn : n ≤ I.bits) (hd : d ≤ 1074)
    (s : Nat) : ∀ (i R a : Nat), 1 ≤ i → i + s = n + 1 → 2 ^ s ∣ R → a < 2 ^ 53 → (a : ℚ) / 2 ^ d * 2 ^ (i - 1) < 1 →
      evalLoop rnd I n s i (I.wrap R) ((a : ℚ) / 2 ^ d) = .ok (I.wrap (R + ⌊(a : ℚ) / 2 ^ d * 2 ^ n⌋)) := by
  have h64 := (builtin_le hI).2
  induction s with
  | zero =>
    intro i R a hi his hdv ha hfr
    have : i - 1 = n := by omega
    rw [this] at hfr
    have hz : ⌊(a : ℚ) / 2 ^ d * 2 ^ n⌋ = 0 := by
      rw [Int.floor_eq_iff]; push_cast; exact ⟨by positivity, by linarith⟩
    rw [hz, add_zero]; rfl
  | succ s ih =>
    intro i R a hi his hdv ha hfr
    unfold evalLoop
    rw [if_pos (show i - 1 < I.bits by omega), Res.bind_ok, bitValue_eq hr _ (by omega), show i - 1 + 1 = i by omega]
    beta_reduce
    have hp : (0 : ℚ) < 2 ^ i := by positivity
    have hpd : (0 : ℚ) < 2 ^ d := by positivity
    have h2i : (2 : ℚ) ^ i = 2 ^ (i - 1) * 2 := by rw [← pow_succ]; congr 1; omega
    by_cases hc : (a : ℚ) / 2 ^ d ≥ 1 / 2 ^ i
    · rw [if_pos hc, show n - i = s by omega, shl_bit s (by omega), Res.bind_ok, or_bit (common_le I) h64 hdv]
      have hid : i ≤ d := by
        by_contra hlt
        have h1 : (2 : ℚ) ^ d ≤ 2 ^ (i - 1) := pow_le_pow_right₀ (by norm_num) (by omega)
        have ha0 : a < 1 := by
          have : (a : ℚ) < 1 := by
            calc (a : ℚ) = (a : ℚ) / 2 ^ d * 2 ^ d := by field_simp
              _ ≤ (a : ℚ) / 2 ^ d * 2 ^ (i - 1) := by gcongr
              _ < 1 := hfr
          exact_mod_cast this
        have : a = 0 := by omega
        subst this
        have : (0 : ℚ) < 1 / 2 ^ i := by positivity
        norm_num at hc
        linarith
      have e0 : (2 : ℚ) ^ d = 2 ^ (d - i) * 2 ^ i := by rw [← pow_add]; congr 1; omega
      have hai : 2 ^ (d - i) ≤ a := by
        have : (2 : ℚ) ^ (d - i) ≤ a := by
          rw [ge_iff_le, div_le_div_iff₀ hp hpd, one_mul, e0] at hc
          exact le_of_mul_le_mul_right hc hp
        exact_mod_cast this
      have hsub : (a : ℚ) / 2 ^ d - 1 / 2 ^ i = ((a - 2 ^ (d - i) : Nat) : ℚ) / 2 ^ d := by
        rw [Nat.cast_sub hai, sub_div]
        congr 1
        push_cast
        rw [e0]; field_simp
      have ha' : a - 2 ^ (d - i) < 2 ^ 53 := lt_of_le_of_lt (Nat.sub_le _ _) ha
      rw [hsub, hr _ (isDouble_frac ha' hd)]
      have hds : 2 ^ s ∣ R + 2 ^ s := (Nat.dvd_add_left (dvd_refl _)).2 (dvd_trans (pow_dvd_pow _ (by omega)) hdv)
      rw [ih (i + 1) (R + 2 ^ s) _ (by omega) (by omega) hds ha' ?_]
      · rw [← hsub]
        have e3 : ((a : ℚ) / 2 ^ d - 1 / 2 ^ i) * 2 ^ n = (a : ℚ) / 2 ^ d * 2 ^ n - ((2 ^ s : Int) : ℚ) := by
          have e4 : (2 : ℚ) ^ n = 2 ^ s * 2 ^ i := by rw [← pow_add]; congr 1; omega
          rw [sub_mul, e4]; push_cast; field_simp
        rw [e3, Int.floor_sub_intCast]
        congr 2; push_cast; ring
      · rw [← hsub, show i + 1 - 1 = i by omega, sub_mul, one_div, inv_mul_cancel₀ hp.ne']
        rw [h2i, ← mul_assoc]; linarith
    · rw [if_neg hc]
      rw [ih (i + 1) R a (by omega) (by omega) (dvd_trans (pow_dvd_pow _ (by omega)) hdv) ha ?_]
      rw [show i + 1 - 1 = i by omega]
      rw [ge_iff_le, not_le, lt_div_iff₀ hp] at hc
      exact hc

/-- With nothing left to subtract the loop keeps `res`. -/
theorem evalLoop_nonpos {rnd : ℚ → ℚ} (hr : ExactRounding rnd) {I : IntTy} (hI : BuiltinInt I) {n : Nat} (hn : n ≤ I.bits) {fr : ℚ}
    (hf : fr ≤ 0) (res : Int) (s : Nat) : ∀ i : Nat, 1 ≤ i → i + s = n + 1 → evalLoop rnd I n s i res fr = .ok res := by
  have h64 := (builtin_le hI).2
  induction s with
  | zero => intros; rfl
  | succ s ih =>
    intro i hi his
    unfold evalLoop
    rw [if_pos (show i - 1 < I.bits by omega), Res.bind_ok, bitValue_eq hr _ (by omega)]
    beta_reduce
    rw [if_neg ?_]
    · exact ih _ (by omega) (by omega)
    · have : (0 : ℚ) < 1 / 2 ^ (i - 1 + 1) := by positivity
      rw [ge_iff_le, not_le]; linarith

/-- Past the end of the table of bit values. -/
theorem evalLoop_bounds (rnd : ℚ → ℚ) {I : IntTy} {n : Nat} (hn : I.bits < n) (s : Nat) :
    ∀ (i : Nat) (res : Int) (fr : ℚ), 1 ≤ i → i ≤ I.bits + 1 → i + s = n + 1 → (evalLoop rnd I n s i res fr).IsUB := by
  induction s with
  | zero => intros; omega
  | succ s ih =>
    intro i res fr hi hib his
    unfold evalLoop
    by_cases h : i - 1 < I.bits
    · rw [if_pos h, Res.bind_ok]
      beta_reduce
      split
      · unfold shl
        split
        · rw [Res.bind_ok]; exact ih _ _ _ (by omega) (by omega) (by omega)
        · trivial
      · exact ih _ _ _ (by omega) (by omega) (by omega)
    · rw [if_neg h]; trivial

theorem isDouble_neg {v : ℚ} (h : IsDouble v) : IsDouble (-v) := by
  obtain ⟨m, e, h1, h2, h3, rfl⟩ := h
  exact ⟨-m, e, by rwa [abs_neg], h2, h3, by push_cast; ring⟩

theorem ratTrunc_neg (v : ℚ) : ratTrunc (-v) = -ratTrunc v := by
  unfold ratTrunc
  rw [Rat.neg_num, Rat.neg_den, Int.neg_tdiv]

/-- The bits `eval_value` is meant to produce: the value scaled and truncated, except that a negative value loses its fraction. -/
def evalBits (v : ℚ) (n : Nat) : Int := if 0 ≤ v then ⌊v * 2 ^ n⌋ else ratTrunc v * 2 ^ n

/-- `floor(v 2^n)` splits into the shifted integral part and the fraction bits. -/
theorem floor_split {v x : ℚ} {n : Nat} (h : v - ⌊v⌋ = x) : ⌊v * 2 ^ n⌋ = ⌊x * 2 ^ n⌋ + ⌊v⌋ * 2 ^ n := by
  have : v * 2 ^ n = x * 2 ^ n + ((⌊v⌋ * 2 ^ n : Int) : ℚ) := by rw [← h]; push_cast; ring
  rw [this, Int.floor_add_intCast]

theorem zero_in_builtin {I : IntTy} (hI : BuiltinInt I) : I.InRange 0 := by
  obtain ⟨b, sg⟩ := I
  unfold BuiltinInt at hI
  unfold IntTy.InRange IntTy.lo IntTy.hi
  rcases hI with h | h | h | h <;> simp only at h <;> subst h <;> cases sg <;> norm_num

/-- Fraction bits that do not fit a type whose sum is computed in a signed type: the type is narrower than `int`. -/
theorem narrow_case {I : IntTy} (hI : BuiltinInt I) {n : Nat} (hn : n ≤ I.bits) (hp : n < I.promote.bits) (hs : I.promote.signed = true)
    {V : Int} (hV : I.InRange V) (hV0 : 0 ≤ V) {G : Int} (h0 : 0 ≤ G) (h1 : G < 2 ^ n) (hfit : ¬ I.InRange G) :
    I.wrap G < 2 ^ n ∧ (0 ≤ I.wrap G ∨ (-2 ^ 15 ≤ I.wrap G ∧ 0 ≤ I.promote.wrap (V * 2 ^ n))) := by
  obtain ⟨b, sg⟩ := I
  have hlt : b < 32 := by
    by_contra hge
    have hpr : IntTy.promote ⟨b, sg⟩ = ⟨b, sg⟩ := by unfold IntTy.promote; rw [if_neg hge]
    rw [hpr] at hs hp
    simp only at hs hp
    subst hs
    apply hfit
    have : (2 : Int) ^ n ≤ 2 ^ (b - 1) := pow_le_pow_right₀ (by norm_num) (by omega)
    constructor
    · have : (0 : Int) ≤ 2 ^ (b - 1) := by positivity
      show -(2 ^ (b - 1)) ≤ G; omega
    · show G ≤ 2 ^ (b - 1) - 1; omega
  have hpr : IntTy.promote ⟨b, sg⟩ = i32 := by unfold IntTy.promote; rw [if_pos hlt]
  simp only at hn
  have hnb : (2 : Int) ^ n ≤ 2 ^ b := pow_le_pow_right₀ (by norm_num) hn
  cases sg
  · exfalso
    apply hfit
    exact ⟨h0, show G ≤ 2 ^ b - 1 by omega⟩
  · have hb : b = 8 ∨ b = 16 := by rcases hI with h | h | h | h <;> simp only at h <;> omega
    have hb16 : b ≤ 16 := by omega
    have hW := IntTy.wrap_inRange (t := ⟨b, true⟩) G (by rcases hb with rfl | rfl <;> decide)
    have hle : (2 : Int) ^ (b - 1) ≤ 2 ^ 15 := pow_le_pow_right₀ (by norm_num) (by omega)
    have h2 : IntTy.wrap ⟨b, true⟩ G ≤ 2 ^ (b - 1) - 1 := hW.2
    have h3 : -(2 ^ (b - 1)) ≤ IntTy.wrap ⟨b, true⟩ G := hW.1
    have h4 : (2 : Int) ^ (b - 1) - 1 < G := by
      by_contra h
      apply hfit
      have : (0 : Int) ≤ 2 ^ (b - 1) := by positivity
      exact ⟨show -(2 ^ (b - 1)) ≤ G by omega, show G ≤ 2 ^ (b - 1) - 1 by omega⟩
    refine ⟨by omega, Or.inr ⟨by omega, ?_⟩⟩
    rw [hpr]
    have hV1 : V ≤ 2 ^ (b - 1) - 1 := hV.2
    have hn16 : (2 : Int) ^ n ≤ 2 ^ 16 := pow_le_pow_right₀ (by norm_num) (by omega)
    have hpn : (0 : Int) < 2 ^ n := by positivity
    have hm : V * 2 ^ n ≤ (2 ^ 15 - 1) * 2 ^ 16 := mul_le_mul (by omega) hn16 hpn.le (by norm_num)
    have hm0 : 0 ≤ V * 2 ^ n := mul_nonneg hV0 hpn.le
    rw [IntTy.wrap_of_inRange (by decide)]
    · exact hm0
    · exact ⟨by rw [show i32.lo = -2 ^ 31 by rfl]; omega, by rw [show i32.hi = 2 ^ 31 - 1 by rfl]; norm_num at hm ⊢; omega⟩

/-- The final addition never overflows. -/
theorem final_sum {I : IntTy} (hI : BuiltinInt I) {n : Nat} (hn : n ≤ I.bits) (hp : n < I.promote.bits) {V : Int} (hV : I.InRange V) {G : Int}
    (h0 : 0 ≤ G) (h1 : G < 2 ^ n) (hneg : V < 0 → G = 0) :
    ∃ w, arith I.promote (I.wrap G + I.promote.wrap (V * 2 ^ n)) = .ok w ∧ I.wrap w = I.wrap (G + V * 2 ^ n) := by
  have hcong : ∀ w, (2 : Int) ^ I.bits ∣ w - (I.wrap G + I.promote.wrap (V * 2 ^ n)) → I.wrap w = I.wrap (G + V * 2 ^ n) := by
    intro w hw
    apply IntTy.wrap_congr
    have d1 := IntTy.wrap_dvd I G
    have d2 := dvd_trans (pow_dvd_pow (2 : Int) (IntTy.bits_le_promote I)) (IntTy.wrap_dvd I.promote (V * 2 ^ n))
    have := dvd_sub (dvd_sub hw d1) d2
    rwa [show w - (I.wrap G + I.promote.wrap (V * 2 ^ n)) - (G - I.wrap G) - (V * 2 ^ n - I.promote.wrap (V * 2 ^ n)) =
      w - (G + V * 2 ^ n) by ring] at this
  by_cases hs : I.promote.signed = false
  · unfold arith
    rw [hs]
    refine ⟨_, rfl, hcong _ ?_⟩
    have d2 := dvd_trans (pow_dvd_pow (2 : Int) (IntTy.bits_le_promote I)) (IntTy.wrap_dvd I.promote (I.wrap G + I.promote.wrap (V * 2 ^ n)))
    rw [← dvd_neg, neg_sub]; exact d2
  · have hs' : I.promote.signed = true := by simpa using hs
    have hpos : 0 < I.promote.bits := by omega
    have hW := IntTy.wrap_inRange (t := I.promote) (V * 2 ^ n) hpos
    have hWd := IntTy.wrap_dvd I.promote (V * 2 ^ n)
    have hlo : I.promote.lo = -2 ^ (I.promote.bits - 1) := by unfold IntTy.lo; rw [hs']; rfl
    have hhi : I.promote.hi = 2 ^ (I.promote.bits - 1) - 1 := by unfold IntTy.hi; rw [hs']; rfl
    have hWn : (2 : Int) ^ n ∣ I.promote.wrap (V * 2 ^ n) := by
      have h1 : (2 : Int) ^ n ∣ V * 2 ^ n - I.promote.wrap (V * 2 ^ n) := dvd_trans (pow_dvd_pow _ hp.le) hWd
      have h2 := dvd_sub (Dvd.intro_left V rfl : (2 : Int) ^ n ∣ V * 2 ^ n) h1
      simpa using h2
    obtain ⟨hW1, hW2⟩ := hW
    rw [hlo] at hW1; rw [hhi] at hW2
    have hWle : I.promote.wrap (V * 2 ^ n) ≤ 2 ^ (I.promote.bits - 1) - 2 ^ n := by
      obtain ⟨c, hc⟩ := hWn
      obtain ⟨j, hj⟩ : ∃ j, I.promote.bits - 1 = n + j := ⟨I.promote.bits - 1 - n, by omega⟩
      have h63 : (2 : Int) ^ (I.promote.bits - 1) = 2 ^ n * 2 ^ j := by rw [← pow_add, ← hj]
      have hpos : (0 : Int) < 2 ^ n := by positivity
      rw [hc, h63] at hW2
      rw [hc, h63]
      have h1 : c < 2 ^ j := lt_of_mul_lt_mul_left (show (2 : Int) ^ n * c < 2 ^ n * 2 ^ j by omega) hpos.le
      have h2 : (2 : Int) ^ n * (c + 1) ≤ 2 ^ n * 2 ^ j := mul_le_mul_of_nonneg_left (by omega) hpos.le
      rw [mul_add, mul_one] at h2
      omega
    have hin : I.promote.InRange (I.wrap G + I.promote.wrap (V * 2 ^ n)) := by
      have hb : I.wrap G < 2 ^ n ∧ (0 ≤ I.wrap G ∨ (-2 ^ 15 ≤ I.wrap G ∧ 0 ≤ I.promote.wrap (V * 2 ^ n))) := by
        by_cases hz : G = 0
        · subst hz
          rw [IntTy.wrap_of_inRange (by have := (builtin_le hI).1; omega) (zero_in_builtin hI)]
          exact ⟨by positivity, Or.inl le_rfl⟩
        have hV0 : 0 ≤ V := by by_contra h; exact hz (hneg (by omega))
        by_cases hfit : I.InRange G
        · rw [IntTy.wrap_of_inRange (by have := (builtin_le hI).1; omega) hfit]
          exact ⟨h1, Or.inl h0⟩
        · exact narrow_case hI hn hp hs' hV hV0 h0 h1 hfit
      constructor
      · rw [hlo]
        rcases hb.2 with h | ⟨h, h'⟩
        · omega
        · have : (2 : Int) ^ 15 ≤ 2 ^ (I.promote.bits - 1) := by
            apply pow_le_pow_right₀ (by norm_num)
            have : 32 ≤ I.promote.bits := by
              unfold IntTy.promote
              split
              · exact le_rfl
              · omega
            omega
          omega
      · rw [hhi]; omega
    exact ⟨_, arith_of_inRange hpos hin, hcong _ (by simp)⟩

/-- C127: the outcome of `eval_value<I>(v, n)` for every builtin integer type, every double and every fraction count.
* The integral part of `v` does not fit: undefined.
* More fraction bits than the type has: undefined (the table of bit values is read past its end).
* As many fraction bits as the promoted type has: undefined (shift).
* Otherwise: the bits of `v` (for a negative `v`, of its integral part only) modulo the width of the type; the additions never overflow.
Every floating operation involved is exact, so nothing is assumed about the rounding mode. -/
theorem C127_total (rnd : ℚ → ℚ) (hr : ExactRounding rnd) (I : IntTy) (hI : BuiltinInt I) (v : ℚ) (hv : IsDouble v) (n : Nat) :
    (¬ I.InRange (ratTrunc v) → evalValue rnd I v n = .ub .overflow) ∧
    (I.bits < n → (evalValue rnd I v n).IsUB) ∧
    (I.InRange (ratTrunc v) → n ≤ I.bits → I.promote.bits ≤ n → evalValue rnd I v n = .ub .shift) ∧
    (I.InRange (ratTrunc v) → n ≤ I.bits → n < I.promote.bits → evalValue rnd I v n = .ok (I.wrap (evalBits v n))) := by
  have hw := (builtin_le hI).1
  have loop : I.InRange (ratTrunc v) → n ≤ I.bits → ∃ G : Int, 0 ≤ G ∧ G < 2 ^ n ∧ (ratTrunc v < 0 → G = 0) ∧
      evalBits v n = G + ratTrunc v * 2 ^ n ∧ evalLoop rnd I n n 1 0 (rnd (v - rnd ((ratTrunc v : Int) : ℚ))) = .ok (I.wrap G) := by
    intro hin hn
    have w0 : I.wrap 0 = 0 := IntTy.wrap_of_inRange (by omega) (zero_in_builtin hI)
    rcases le_or_gt 0 v with h0 | h0
    · obtain ⟨hd1, a, d, ha, hd, hfrac⟩ := isDouble_floor hv h0
      rw [ratTrunc_nonneg h0, hr _ hd1, hfrac, hr _ (isDouble_frac ha hd)]
      have hlt1 : (a : ℚ) / 2 ^ d < 1 := by rw [← hfrac]; have := Int.lt_floor_add_one v; linarith
      refine ⟨⌊(a : ℚ) / 2 ^ d * 2 ^ n⌋, Int.floor_nonneg.2 (by positivity), ?_, ?_, ?_, ?_⟩
      · rw [Int.floor_lt]; push_cast
        have : (0 : ℚ) < 2 ^ n := by positivity
        nlinarith
      · intro h; have := Int.floor_nonneg.2 h0; omega
      · unfold evalBits; rw [if_pos h0]; exact floor_split hfrac
      · have := evalLoop_gen hr hI hn hd n 1 0 a le_rfl (by omega) (dvd_zero _) ha (by simpa using hlt1)
        rw [Nat.cast_zero, w0, zero_add] at this
        exact this
    · obtain ⟨hd1, a, d, ha, hd, hfrac⟩ := isDouble_floor (isDouble_neg hv) (by linarith)
      have ht : ratTrunc v = -⌊-v⌋ := by rw [← ratTrunc_nonneg (show 0 ≤ -v by linarith), ratTrunc_neg, neg_neg]
      refine ⟨0, le_rfl, by positivity, fun _ => rfl, ?_, ?_⟩
      · unfold evalBits; rw [if_neg (not_le.2 h0), zero_add]
      · have e1 : ((ratTrunc v : Int) : ℚ) = -(⌊-v⌋ : ℚ) := by rw [ht]; push_cast; rfl
        have e2 : v - -(⌊-v⌋ : ℚ) = -((a : ℚ) / 2 ^ d) := by rw [← hfrac]; ring
        rw [e1, hr _ (isDouble_neg hd1), e2, hr _ (isDouble_neg (isDouble_frac ha hd)), w0]
        exact evalLoop_nonpos hr hI hn (by have : (0 : ℚ) ≤ (a : ℚ) / 2 ^ d := by positivity
                                           linarith) 0 n 1 le_rfl (by omega)
  refine ⟨fun h => ?_, fun h => ?_, fun hin hn hp => ?_, fun hin hn hp => ?_⟩
  · unfold evalValue floatToInt; rw [if_neg h]; rfl
  · unfold evalValue floatToInt
    split
    · rw [Res.bind_ok]
      have := evalLoop_bounds rnd h n 1 0 (rnd (v - rnd ((ratTrunc v : Int) : ℚ))) le_rfl (by omega) (by omega)
      revert this
      cases evalLoop rnd I n n 1 0 (rnd (v - rnd ((ratTrunc v : Int) : ℚ))) with
      | ok r => intro h; exact h.elim
      | ub u => intro _; trivial
      | throw e => intro h; exact h.elim
    · trivial
  · obtain ⟨G, -, -, -, -, hl⟩ := loop hin hn
    unfold evalValue floatToInt
    rw [if_pos hin, Res.bind_ok, hl, Res.bind_ok]
    unfold shl
    rw [if_neg (by omega)]; rfl
  · obtain ⟨G, g0, g1, g2, hb, hl⟩ := loop hin hn
    unfold evalValue floatToInt
    rw [if_pos hin, Res.bind_ok, hl, Res.bind_ok]
    unfold shl
    rw [if_pos hp, Res.bind_ok]
    obtain ⟨w, hw1, hw2⟩ := final_sum hI hn hp hin g0 g1 g2
    rw [hw1, Res.bind_ok, hw2, hb]; rfl

/-- C127: full statement: whenever the scaled value, truncated, fits the type, it is the result. -/
def C127_statement : Prop := ∀ I, BuiltinInt I → ∀ v, IsDouble v → ∀ n < I.bits, I.InRange (ratTrunc (v * 2 ^ n)) →
  evalValue (rne binary64) I v n = .ok (ratTrunc (v * 2 ^ n))

/-- C127 is false of negative values: they lose their fraction, `eval_value(-0.5, 32)` is 0. -/
theorem C127_false : ¬ C127_statement := by
  intro h
  have h1 := h i64 (by decide) (-1 / 2) ⟨-1, -1, by norm_num, by norm_num, by norm_num, by norm_num⟩ 32 (by decide) (by decide +kernel)
  have h2 : evalValue (rne binary64) i64 (-1 / 2) 32 = .ok 0 := by decide +kernel
  rw [h2] at h1
  injection h1 with h1
  revert h1; decide +kernel

/-- C127 for non-negative values, and for negative ones the exact error: the fraction that is lost. -/
theorem C127_value_partial (I : IntTy) (hI : BuiltinInt I) (v : ℚ) (hv : IsDouble v) (n : Nat) (hn : n < I.bits) :
    (0 ≤ v → I.InRange (ratTrunc (v * 2 ^ n)) → evalValue (rne binary64) I v n = .ok (ratTrunc (v * 2 ^ n))) ∧
    (v < 0 → I.InRange (ratTrunc v * 2 ^ n) → evalValue (rne binary64) I v n = .ok (ratTrunc v * 2 ^ n)) := by
  have hw := (builtin_le hI).1
  have hp : n < I.promote.bits := lt_of_lt_of_le hn (IntTy.bits_le_promote I)
  have hpn : (1 : Int) ≤ 2 ^ n := one_le_pow₀ (by norm_num)
  constructor
  · intro h0 hin
    have e : ratTrunc (v * 2 ^ n) = ⌊v * 2 ^ n⌋ := ratTrunc_nonneg (by positivity)
    have hin0 : I.InRange (ratTrunc v) := by
      rw [e] at hin
      rw [ratTrunc_nonneg h0]
      refine ⟨le_trans (zero_in_builtin hI).1 (Int.floor_nonneg.2 h0), le_trans (Int.floor_le_floor ?_) hin.2⟩
      exact le_mul_of_one_le_right h0 (one_le_pow₀ (by norm_num))
    rw [(C127_total _ rne_exactRounding I hI v hv n).2.2.2 hin0 hn.le hp]
    unfold evalBits
    rw [if_pos h0, ← e, IntTy.wrap_of_inRange (by omega) hin]
  · intro h0 hin
    have ht : ratTrunc v ≤ 0 := by
      have := Int.floor_nonneg.2 (show 0 ≤ -v by linarith)
      have e : ratTrunc v = -⌊-v⌋ := by rw [← ratTrunc_nonneg (show 0 ≤ -v by linarith), ratTrunc_neg, neg_neg]
      omega
    have hin0 : I.InRange (ratTrunc v) := by
      refine ⟨le_trans hin.1 ?_, le_trans ht (zero_in_builtin hI).2⟩
      nlinarith
    rw [(C127_total _ rne_exactRounding I hI v hv n).2.2.2 hin0 hn.le hp]
    unfold evalBits
    rw [if_neg (not_le.2 h0), IntTy.wrap_of_inRange (by omega) hin]

/-- The hypotheses are met by a negative double in `short`, and the value wraps in 16 bits where the scaled value does not fit. -/
example : BuiltinInt ⟨16, true⟩ ∧ IsDouble (-5 / 2) ∧ evalValue (rne binary64) ⟨16, true⟩ (-5 / 2) 10 = .ok (-2048) ∧
    evalValue (rne binary64) ⟨16, true⟩ (81 / 2) 10 = .ok (41472 - 65536) :=
  ⟨by decide, ⟨-5, -1, by norm_num, by norm_num, by norm_num, by norm_num⟩, by decide +kernel, by decide +kernel⟩

end Eirin.Props
