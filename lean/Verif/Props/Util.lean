import Verif.Model.Util
import Verif.Lemmas.Signed
import Verif.Props.Mixed
import Mathlib.Analysis.Real.Pi.Bounds
import Mathlib.Tactic.IntervalCases

/-! # C71–C73: the constant generators and the angle table of `detail/util.hpp` -/

namespace Eirin.Props
open Spec

/-! ## C71 -/

/-- `q` is (the value of) a finite IEEE double. -/
def IsDouble (q : ℚ) : Prop := ∃ (m : Int) (e : Int), |m| < 2 ^ 53 ∧ -1074 ≤ e ∧ e ≤ 971 ∧ q = m * (2 : ℚ) ^ e

/-- Floating arithmetic is exact whenever the exact result is a double. -/
def ExactRounding (rnd : ℚ → ℚ) : Prop := ∀ q, IsDouble q → rnd q = q

/-- C71: full statement (`int64_t`, table of 64 entries). -/
def C71_statement : Prop :=
  ∀ rnd, ExactRounding rnd → ∀ v, IsDouble v → 0 ≤ v → ∀ n : Nat, n ≤ 64 → v * 2 ^ n < 2 ^ 63 →
    evalValue rnd i64 v n = .ok ⌊v * 2 ^ n⌋

/-- C71 is false for `n = 64`: `int_part << 64` is undefined, even for 0. -/
theorem C71_false : ¬ C71_statement := by
  intro h
  have h1 := h id (fun _ _ => rfl) 0 ⟨0, 0, by norm_num, by norm_num, by norm_num, by norm_num⟩ le_rfl 64 le_rfl (by norm_num)
  have h2 : evalValue id i64 0 64 = .ub .shift := by decide +kernel
  rw [h2] at h1; cases h1

/-- Fractions whose numerator is below `2^53` over a power of two are doubles. -/
theorem isDouble_frac {a d : Nat} (ha : a < 2 ^ 53) (hd : d ≤ 1074) : IsDouble ((a : ℚ) / 2 ^ d) := by
  refine ⟨a, -(d : Int), ?_, by omega, by omega, ?_⟩
  · rw [abs_of_nonneg (by positivity)]; exact_mod_cast ha
  · rw [zpow_neg, zpow_natCast]; push_cast; rw [div_eq_mul_inv]

theorem bitValue_eq {rnd : ℚ → ℚ} (hr : ExactRounding rnd) (n : Nat) (hn : n ≤ 1000) : bitValue rnd n = 1 / 2 ^ (n + 1) := by
  induction n with
  | zero => norm_num [bitValue]
  | succ n ih =>
    rw [bitValue, ih (by omega), div_div, ← pow_succ]
    apply hr
    have := isDouble_frac (a := 1) (d := n + 1 + 1) (by norm_num) (by omega)
    simpa using this

theorem bor_bit {res : Int} {s : Nat} (h0 : 0 ≤ res) (hd : (2 : Int) ^ (s + 1) ∣ res) (hle : res + 2 ^ (s + 1) ≤ 2 ^ 63) :
    bor i64 res (2 ^ s) = res + 2 ^ s := by
  obtain ⟨n, rfl⟩ := Int.eq_ofNat_of_zero_le h0
  obtain ⟨c, hc⟩ := hd
  have hc0 : 0 ≤ c := by
    have : (0 : Int) < 2 ^ (s + 1) := by positivity
    by_contra hcn
    nlinarith
  obtain ⟨b, rfl⟩ := Int.eq_ofNat_of_zero_le hc0
  have hn : n = 2 ^ (s + 1) * b := by exact_mod_cast hc
  have hle' : n + 2 ^ (s + 1) ≤ 2 ^ 63 := by exact_mod_cast hle
  have hs : 2 ^ s < 2 ^ (s + 1) := Nat.pow_lt_pow_right (by norm_num) (by omega)
  have e1 : (BitVec.ofInt 64 ((n : Nat) : Int)).toNat = n := by
    rw [BitVec.ofInt_natCast, BitVec.toNat_ofNat, Nat.mod_eq_of_lt (by omega)]
  have e2 : (BitVec.ofInt 64 ((2 : Int) ^ s)).toNat = 2 ^ s := by
    rw [show (2 : Int) ^ s = ((2 ^ s : Nat) : Int) by push_cast; rfl, BitVec.ofInt_natCast, BitVec.toNat_ofNat, Nat.mod_eq_of_lt (by omega)]
  unfold bor
  rw [BitVec.toNat_or, e1, e2]
  have e3 : n ||| 2 ^ s = n + 2 ^ s := by
    rw [hn, Nat.two_pow_add_eq_or_of_lt hs]
  rw [e3]
  push_cast
  apply IntTy.wrap_of_inRange (by decide)
  constructor
  · rw [show i64.lo = -2 ^ 63 by rfl]; have : (0 : Int) ≤ 2 ^ s := by positivity
    omega
  · rw [show i64.hi = 2 ^ 63 - 1 by rfl]
    have h3 : (2 : Int) ^ s < 2 ^ (s + 1) := by exact_mod_cast hs
    omega

/-- The loop adds the remaining bits of the fraction. -/
theorem evalLoop_ok {rnd : ℚ → ℚ} (hr : ExactRounding rnd) {n d : Nat} (hn : n ≤ 63) (hd : d ≤ 1074) (s : Nat) :
    ∀ (i : Nat) (res : Int) (a : Nat), 1 ≤ i → i + s = n + 1 → 0 ≤ res → (2 : Int) ^ s ∣ res → res + 2 ^ s ≤ 2 ^ 63 → a < 2 ^ 53 →
      (a : ℚ) / 2 ^ d * 2 ^ (i - 1) < 1 →
      evalLoop rnd i64 n s i res ((a : ℚ) / 2 ^ d) = .ok (res + ⌊(a : ℚ) / 2 ^ d * 2 ^ n⌋) := by
  induction s with
  | zero =>
    intro i res a hi his h0 hdv hle ha hfr
    have : i - 1 = n := by omega
    rw [this] at hfr
    have hz : ⌊(a : ℚ) / 2 ^ d * 2 ^ n⌋ = 0 := by
      rw [Int.floor_eq_iff]; push_cast; exact ⟨by positivity, by linarith⟩
    rw [hz, add_zero]; rfl
  | succ s ih =>
    intro i res a hi his h0 hdv hle ha hfr
    unfold evalLoop
    rw [if_pos (show i - 1 < 64 by omega), bitValue_eq hr _ (by omega), show i - 1 + 1 = i by omega]
    simp only [Res.bind_ok]
    have hp : (0 : ℚ) < 2 ^ i := by positivity
    have hpd : (0 : ℚ) < 2 ^ d := by positivity
    have h2i : (2 : ℚ) ^ i = 2 ^ (i - 1) * 2 := by rw [← pow_succ]; congr 1; omega
    by_cases hc : (a : ℚ) / 2 ^ d ≥ 1 / 2 ^ i
    · rw [if_pos hc]
      have hns : n - i = s := by omega
      have hsh : shl i64 1 (n - i) = .ok (2 ^ s) := by
        unfold shl
        rw [hns, if_pos (show s < i64.promote.bits from (by omega : s < 64)), one_mul]
        rw [show i64.promote = i64 by rfl, IntTy.wrap_of_inRange (t := i64) (by decide)]
        have hlt : (2 : Int) ^ s < 2 ^ (s + 1) := pow_lt_pow_right₀ (by norm_num) (by omega)
        constructor
        · rw [show i64.lo = -2 ^ 63 by rfl]; have : (0 : Int) ≤ 2 ^ s := by positivity
          omega
        · rw [show i64.hi = 2 ^ 63 - 1 by rfl]; omega
      rw [hsh]
      simp only [Res.bind_ok]
      rw [show IntTy.common i64 i64 = i64 by rfl, bor_bit h0 hdv hle]
      have hw : i64.wrap (res + 2 ^ s) = res + 2 ^ s := by
        apply IntTy.wrap_of_inRange (t := i64) (by decide)
        have hlt : (2 : Int) ^ s < 2 ^ (s + 1) := pow_lt_pow_right₀ (by norm_num) (by omega)
        constructor
        · rw [show i64.lo = -2 ^ 63 by rfl]; have : (0 : Int) ≤ 2 ^ s := by positivity
          omega
        · rw [show i64.hi = 2 ^ 63 - 1 by rfl]; omega
      rw [hw]
      -- the subtraction is exact
      have hid : i ≤ d := by
        by_contra hlt
        have h1 : (2 : ℚ) ^ d ≤ 2 ^ (i - 1) := pow_le_pow_right₀ (by norm_num) (by omega)
        have ha0 : a < 1 := by
          have : (a : ℚ) < 1 := by
            calc (a : ℚ) = (a : ℚ) / 2 ^ d * 2 ^ d := by field_simp
              _ ≤ (a : ℚ) / 2 ^ d * 2 ^ (i - 1) := by gcongr
              _ < 1 := hfr
          exact_mod_cast this
        have : a = 0 := by omega
        subst this
        have : (0 : ℚ) < 1 / 2 ^ i := by positivity
        norm_num at hc
        linarith
      have hai : 2 ^ (d - i) ≤ a := by
        have : (2 : ℚ) ^ (d - i) ≤ a := by
          rw [ge_iff_le, div_le_div_iff₀ hp hpd, one_mul] at hc
          have e : (2 : ℚ) ^ d = 2 ^ (d - i) * 2 ^ i := by rw [← pow_add]; congr 1; omega
          rw [e] at hc
          exact le_of_mul_le_mul_right hc hp
        exact_mod_cast this
      have hsub : (a : ℚ) / 2 ^ d - 1 / 2 ^ i = ((a - 2 ^ (d - i) : Nat) : ℚ) / 2 ^ d := by
        rw [Nat.cast_sub hai, sub_div]
        congr 1
        have e : (2 : ℚ) ^ d = 2 ^ (d - i) * 2 ^ i := by rw [← pow_add]; congr 1; omega
        push_cast
        rw [e]; field_simp
      have ha' : a - 2 ^ (d - i) < 2 ^ 53 := lt_of_le_of_lt (Nat.sub_le _ _) ha
      rw [hsub, hr _ (isDouble_frac ha' hd)]
      have e2 : (2 : Int) ^ (s + 1) = 2 ^ s + 2 ^ s := by ring
      rw [ih (i + 1) (res + 2 ^ s) (a - 2 ^ (d - i)) (by omega) (by omega) (by positivity)
        (dvd_add (dvd_trans (pow_dvd_pow _ (by omega)) hdv) (dvd_refl _)) (by omega) ha' ?_]
      · rw [← hsub]
        congr 1
        have e3 : ((a : ℚ) / 2 ^ d - 1 / 2 ^ i) * 2 ^ n = (a : ℚ) / 2 ^ d * 2 ^ n - ((2 ^ s : Int) : ℚ) := by
          have e4 : (2 : ℚ) ^ n = 2 ^ s * 2 ^ i := by rw [← pow_add]; congr 1; omega
          push_cast
          rw [sub_mul, e4]; field_simp
        rw [e3, Int.floor_sub_intCast]; ring
      · rw [← hsub, show i + 1 - 1 = i by omega, sub_mul, one_div, inv_mul_cancel₀ hp.ne']
        rw [h2i, ← mul_assoc]; linarith
    · rw [if_neg hc]
      rw [ih (i + 1) res a (by omega) (by omega) h0 (dvd_trans (pow_dvd_pow _ (by omega)) hdv) ?_ ha ?_]
      · have : (2 : Int) ^ s ≤ 2 ^ (s + 1) := pow_le_pow_right₀ (by norm_num) (by omega)
        omega
      · rw [show i + 1 - 1 = i by omega]
        rw [ge_iff_le, not_le, lt_div_iff₀ hp] at hc
        exact hc

theorem ratTrunc_nonneg {v : ℚ} (h : 0 ≤ v) : ratTrunc v = ⌊v⌋ := by
  unfold ratTrunc
  rw [Int.tdiv_eq_ediv_of_nonneg (Rat.num_nonneg.2 h)]
  exact (Rat.floor_def v).symm

theorem isDouble_floor {v : ℚ} (hv : IsDouble v) (h0 : 0 ≤ v) :
    IsDouble (⌊v⌋ : ℚ) ∧ ∃ a d : Nat, a < 2 ^ 53 ∧ d ≤ 1074 ∧ v - ⌊v⌋ = (a : ℚ) / 2 ^ d := by
  obtain ⟨m, e, hm, he1, he2, rfl⟩ := hv
  rcases le_or_gt 0 e with he | he
  · obtain ⟨k, rfl⟩ := Int.eq_ofNat_of_zero_le he
    have : (m : ℚ) * (2 : ℚ) ^ ((k : Nat) : Int) = ((m * 2 ^ k : Int) : ℚ) := by rw [zpow_natCast]; push_cast; rfl
    rw [this, Int.floor_intCast]
    exact ⟨⟨m, k, hm, he1, he2, this.symm⟩, 0, 0, by norm_num, by norm_num, by simp⟩
  · obtain ⟨k, hk⟩ := Int.eq_ofNat_of_zero_le (show 0 ≤ -e by omega)
    have he' : e = -(k : Int) := by omega
    subst he'
    have hp : (0 : ℚ) < 2 ^ k := by positivity
    have hpi : (0 : Int) < 2 ^ k := by positivity
    have hm0 : 0 ≤ m := by
      rw [zpow_neg, zpow_natCast, ← div_eq_mul_inv] at h0
      have := (div_nonneg_iff.1 h0)
      rcases this with ⟨a, _⟩ | ⟨_, b⟩
      · exact_mod_cast a
      · exact absurd b (not_le.2 hp)
    rw [zpow_neg, zpow_natCast, ← div_eq_mul_inv]
    have hf : ⌊(m : ℚ) / 2 ^ k⌋ = m / 2 ^ k := by
      have := Rat.floor_intCast_div_natCast m (2 ^ k)
      push_cast at this
      exact this
    rw [hf]
    rw [abs_of_nonneg hm0] at hm
    have h1 : 0 ≤ m / 2 ^ k := Int.ediv_nonneg hm0 hpi.le
    have h2 : m / 2 ^ k ≤ m := Int.ediv_le_self _ hm0
    refine ⟨⟨m / 2 ^ k, 0, ?_, by norm_num, by norm_num, by simp⟩, (m % 2 ^ k).toNat, k, ?_, by omega, ?_⟩
    · rw [abs_of_nonneg h1]; omega
    · have h3 := Int.emod_nonneg m hpi.ne'
      have h4 : m % 2 ^ k ≤ m := by
        have := Int.emod_add_mul_ediv m (2 ^ k)
        nlinarith
      have : ((m % 2 ^ k).toNat : Int) < 2 ^ 53 := by rw [Int.toNat_of_nonneg h3]; omega
      exact_mod_cast this
    · have h3 := Int.emod_nonneg m hpi.ne'
      have e1 : (((m % 2 ^ k).toNat : Nat) : ℚ) = ((m % 2 ^ k : Int) : ℚ) := by
        rw [← Int.cast_natCast, Int.toNat_of_nonneg h3]
      rw [e1, Int.emod_def]
      push_cast
      field_simp

/-- C71 for up to 63 fraction bits: for every non-negative double below `2^63` the result is `floor(v * 2^n)` reduced to `int64_t`; in
particular exactly the floor whenever that is representable. Every floating operation of the loop is exact, so no assumption on the
rounding mode is needed.
Full statement: `C71_statement`; missing (false): 64 fraction bits, where the final shift is undefined (`C71_shift`). -/
theorem C71_floor_partial (rnd : ℚ → ℚ) (hr : ExactRounding rnd) (v : ℚ) (hv : IsDouble v) (h0 : 0 ≤ v) (hlt : v < 2 ^ 63) (n : Nat)
    (hn : n ≤ 63) :
    evalValue rnd i64 v n = .ok (i64.wrap ⌊v * 2 ^ n⌋) ∧ (v * 2 ^ n < 2 ^ 63 → evalValue rnd i64 v n = .ok ⌊v * 2 ^ n⌋) := by
  obtain ⟨hd1, a, d, ha, hd, hfrac⟩ := isDouble_floor hv h0
  have hfl0 : 0 ≤ ⌊v⌋ := Int.floor_nonneg.2 h0
  have hfl1 : ⌊v⌋ < 2 ^ 63 := by rw [Int.floor_lt]; push_cast; exact hlt
  have main : evalValue rnd i64 v n = .ok (i64.wrap ⌊v * 2 ^ n⌋) := by
    unfold evalValue floatToInt
    rw [ratTrunc_nonneg h0, if_pos (show i64.InRange ⌊v⌋ from ⟨by rw [show i64.lo = -2 ^ 63 by rfl]; omega, by rw [show i64.hi = 2 ^ 63 - 1 by rfl]; omega⟩)]
    simp only [Res.bind_ok]
    rw [hr _ hd1, hfrac, hr _ (isDouble_frac ha hd)]
    have hlt1 : (a : ℚ) / 2 ^ d < 1 := by rw [← hfrac]; have := Int.lt_floor_add_one v; linarith
    have hpn : (2 : Int) ^ n ≤ 2 ^ 63 := pow_le_pow_right₀ (by norm_num) hn
    rw [evalLoop_ok hr hn hd n 1 0 a le_rfl (by omega) le_rfl (dvd_zero _) (by omega) ha (by simpa using hlt1)]
    simp only [Res.bind_ok, zero_add]
    have hsh : shl i64 ⌊v⌋ n = .ok (i64.wrap (⌊v⌋ * 2 ^ n)) := by
      unfold shl; rw [if_pos (show n < i64.promote.bits from (by omega : n < 64))]; rfl
    rw [hsh]
    simp only [Res.bind_ok]
    have hG0 : 0 ≤ ⌊(a : ℚ) / 2 ^ d * 2 ^ n⌋ := Int.floor_nonneg.2 (by positivity)
    have hG1 : ⌊(a : ℚ) / 2 ^ d * 2 ^ n⌋ < 2 ^ n := by
      rw [Int.floor_lt]; push_cast
      have : (0 : ℚ) < 2 ^ n := by positivity
      nlinarith
    have hsplit : ⌊v * 2 ^ n⌋ = ⌊(a : ℚ) / 2 ^ d * 2 ^ n⌋ + ⌊v⌋ * 2 ^ n := by
      have : v * 2 ^ n = (a : ℚ) / 2 ^ d * 2 ^ n + ((⌊v⌋ * 2 ^ n : Int) : ℚ) := by rw [← hfrac]; push_cast; ring
      rw [this, Int.floor_add_intCast]
    rw [hsplit]
    generalize ⌊(a : ℚ) / 2 ^ d * 2 ^ n⌋ = G at *
    generalize ⌊v⌋ = V at *
    have hW := IntTy.wrap_inRange (t := i64) (V * 2 ^ n) (by decide)
    have hWd := IntTy.wrap_dvd i64 (V * 2 ^ n)
    rw [show i64.bits = 64 by rfl] at hWd
    obtain ⟨hW1, hW2⟩ := hW
    rw [show i64.lo = -2 ^ 63 by rfl] at hW1
    rw [show i64.hi = 2 ^ 63 - 1 by rfl] at hW2
    have hWn : (2 : Int) ^ n ∣ i64.wrap (V * 2 ^ n) := by
      have h1 : (2 : Int) ^ n ∣ V * 2 ^ n - i64.wrap (V * 2 ^ n) := dvd_trans (pow_dvd_pow _ (by omega)) hWd
      have h2 := dvd_sub (Dvd.intro_left V rfl : (2 : Int) ^ n ∣ V * 2 ^ n) h1
      simpa using h2
    have hWle : i64.wrap (V * 2 ^ n) ≤ 2 ^ 63 - 2 ^ n := by
      obtain ⟨c, hc⟩ := hWn
      obtain ⟨j, hj⟩ : ∃ j, 63 = n + j := ⟨63 - n, by omega⟩
      have h63 : (2 : Int) ^ 63 = 2 ^ n * 2 ^ j := by rw [← pow_add, ← hj]
      have hpos : (0 : Int) < 2 ^ n := by positivity
      rw [hc, h63] at hW2
      rw [hc, h63]
      have h1 : c < 2 ^ j := lt_of_mul_lt_mul_left (show (2 : Int) ^ n * c < 2 ^ n * 2 ^ j by omega) hpos.le
      have h2 : (2 : Int) ^ n * (c + 1) ≤ 2 ^ n * 2 ^ j := mul_le_mul_of_nonneg_left (by omega) hpos.le
      rw [mul_add, mul_one] at h2
      omega
    have hin : i64.InRange (G + i64.wrap (V * 2 ^ n)) := by
      constructor
      · rw [show i64.lo = -2 ^ 63 by rfl]; omega
      · rw [show i64.hi = 2 ^ 63 - 1 by rfl]; omega
    rw [show i64.promote = i64 by rfl, arith_of_inRange (by decide) hin]
    simp only [Res.bind_ok, Res.pure_eq]
    congr 1
    apply IntTy.wrap_congr
    have : G + i64.wrap (V * 2 ^ n) - (G + V * 2 ^ n) = -(V * 2 ^ n - i64.wrap (V * 2 ^ n)) := by ring
    rw [this]
    exact hWd.neg_right
  refine ⟨main, fun h => ?_⟩
  rw [main, IntTy.wrap_of_inRange (by decide)]
  constructor
  · rw [show i64.lo = -2 ^ 63 by rfl]
    have : 0 ≤ ⌊v * 2 ^ n⌋ := Int.floor_nonneg.2 (by positivity)
    omega
  · rw [show i64.hi = 2 ^ 63 - 1 by rfl]
    have : ⌊v * 2 ^ n⌋ < 2 ^ 63 := by rw [Int.floor_lt]; push_cast; exact h
    omega

/-- The hypotheses are met by the double `2.75` with 61 fraction bits. -/
example : ExactRounding id ∧ IsDouble (11 / 4) ∧ evalValue id i64 (11 / 4) 61 = .ok (11 * 2 ^ 59) := by
  refine ⟨fun _ _ => rfl, ⟨11, -2, by norm_num, by norm_num, by norm_num, by norm_num⟩, by decide +kernel⟩

theorem evalLoop_not_throw (rnd : ℚ → ℚ) (I : IntTy) (n s : Nat) :
    ∀ (i : Nat) (res : Int) (fr : ℚ), (∃ r, evalLoop rnd I n s i res fr = .ok r) ∨ ∃ u, evalLoop rnd I n s i res fr = .ub u := by
  induction s with
  | zero => intro i res fr; exact Or.inl ⟨res, rfl⟩
  | succ s ih =>
    intro i res fr
    unfold evalLoop
    by_cases h1 : i - 1 < I.bits
    · rw [if_pos h1]
      simp only [Res.bind_ok]
      by_cases h2 : fr ≥ bitValue rnd (i - 1)
      · rw [if_pos h2]
        unfold shl
        by_cases h3 : n - i < i64.promote.bits
        · rw [if_pos h3]; exact ih _ _ _
        · rw [if_neg h3]; exact Or.inr ⟨_, rfl⟩
      · rw [if_neg h2]; exact ih _ _ _
    · rw [if_neg h1]; exact Or.inr ⟨_, rfl⟩

/-- C71: with 64 or more fraction bits the result is never defined, whatever the value. -/
theorem C71_shift (rnd : ℚ → ℚ) (v : ℚ) (n : Nat) (hn : 64 ≤ n) : (evalValue rnd i64 v n).IsUB := by
  unfold evalValue floatToInt
  split
  · simp only [Res.bind_ok]
    rcases evalLoop_not_throw rnd i64 n n 1 0 (rnd (v - rnd ((ratTrunc v : Int) : ℚ))) with ⟨r, e⟩ | ⟨u, e⟩
    · rw [e]
      simp only [Res.bind_ok]
      unfold shl
      rw [if_neg (show ¬ n < i64.promote.bits from (by omega : ¬ n < 64))]
      trivial
    · rw [e]; trivial
  · trivial

example : 64 ≤ 64 := le_rfl

/-! ## C72 -/

/-- C72: full statement: from some number of terms on (as long as the term index fits the `int` arithmetic), the result is within 0.001 of
pi. -/
def C72_statement : Prop :=
  ∃ N0 : Nat, N0 ≤ 2 ^ 28 ∧ ∀ N, N0 ≤ N → N ≤ 2 ^ 28 → ∃ r, bbpCalcPi 61 N = .ok r ∧ |(r : ℝ) / 2 ^ 61 - Real.pi| ≤ 1 / 1000

theorem bbpFactor_ok (n : Nat) : ∀ x : Int, 0 ≤ x → x ≤ 2 ^ 61 → bbpFactor n x = .ok (x / 16 ^ n) := by
  induction n with
  | zero => intro x _ _; simp [bbpFactor]
  | succ n ih =>
    intro x h0 h1
    unfold bbpFactor cdiv
    have e : Int.tdiv x 16 = x / 16 := Int.tdiv_eq_ediv_of_nonneg h0
    rw [if_neg (by norm_num), e, if_neg]
    · simp only [Res.bind_ok]
      rw [ih _ (by omega) (by omega), Int.ediv_ediv_of_nonneg (by norm_num), pow_succ, mul_comm]
    · rintro ⟨_, h⟩
      apply h
      constructor
      · rw [show i128.lo = -2 ^ 127 by rfl]; omega
      · rw [show i128.hi = 2 ^ 127 - 1 by rfl]; omega

theorem bbpTerm_zero {M : Int} (hM0 : 0 ≤ M) (hM : M ≤ 2 ^ 61) {k : Int} (hk : 4 ≤ k) (hk2 : k < 2 ^ 28) {sum : Int} (h0 : 0 ≤ sum)
    (h1 : sum ≤ 2 ^ 64) : bbpTerm M k sum = .ok sum := by
  have ar : ∀ n : Int, 0 ≤ n → n ≤ 2 ^ 31 - 1 → arith i32 n = .ok n := by
    intro n a b
    exact arith_of_inRange (by decide) ⟨by rw [show i32.lo = -2 ^ 31 by rfl]; omega, by rw [show i32.hi = 2 ^ 31 - 1 by rfl]; omega⟩
  have ar2 : ∀ n : Int, 0 ≤ n → n ≤ 2 ^ 64 → arith i128 n = .ok n := by
    intro n a b
    exact arith_of_inRange (by decide) ⟨by rw [show i128.lo = -2 ^ 127 by rfl]; omega, by rw [show i128.hi = 2 ^ 127 - 1 by rfl]; omega⟩
  have hz : M / 16 ^ (4 * k).toNat = 0 := by
    apply Int.ediv_eq_zero_of_lt hM0
    calc M < 16 ^ 16 := lt_of_le_of_lt hM (by norm_num)
      _ ≤ 16 ^ (4 * k).toNat := pow_le_pow_right₀ (by norm_num) (by omega)
  have cz : ∀ d : Int, 0 < d → cdiv i128 0 d = .ok 0 := by
    intro d hd
    unfold cdiv
    rw [if_neg hd.ne', Int.zero_tdiv, if_neg (by rintro ⟨_, h⟩; exact h (by decide))]
  unfold bbpTerm
  have z := ar2 0 le_rfl (by norm_num)
  rw [ar (4 * k) (by omega) (by omega), Res.bind_ok, bbpFactor_ok _ _ hM0 hM, hz, Res.bind_ok, ar (8 * k) (by omega) (by omega), Res.bind_ok,
    ar (8 * k + 1) (by omega) (by omega), Res.bind_ok, mul_zero, z, Res.bind_ok, cz _ (by omega), Res.bind_ok,
    ar (8 * k + 4) (by omega) (by omega), Res.bind_ok, mul_zero, z, Res.bind_ok, cz _ (by omega), Res.bind_ok,
    ar (8 * k + 5) (by omega) (by omega), Res.bind_ok, mul_zero, z, Res.bind_ok, cz _ (by omega), Res.bind_ok,
    ar (8 * k + 6) (by omega) (by omega), Res.bind_ok, Res.bind_ok, cz _ (by omega), Res.bind_ok, sub_zero, z, Res.bind_ok, sub_zero, z,
    Res.bind_ok, sub_zero, z, Res.bind_ok, add_zero, ar2 sum h0 h1]

theorem bbpLoop_tail {M : Int} (hM0 : 0 ≤ M) (hM : M ≤ 2 ^ 61) (s : Nat) : ∀ (k : Int) (sum : Int), 4 ≤ k → k + s ≤ 2 ^ 28 → 0 ≤ sum → sum ≤ 2 ^ 64 →
    bbpLoop M s k sum = .ok sum := by
  induction s with
  | zero => intros; rfl
  | succ s ih =>
    intro k sum hk hks h0 h1
    unfold bbpLoop
    rw [bbpTerm_zero hM0 hM hk (by push_cast at hks; omega) h0 h1]
    simp only [Res.bind_ok]
    exact ih _ _ (by omega) (by push_cast at hks ⊢; omega) h0 h1

/-- C72, what the code computes: from four terms on, always the same number (the terms are divided by `16^(4k)` instead of `16^k`). -/
theorem C72_value (N : Nat) (h4 : 4 ≤ N) (hN : N ≤ 2 ^ 28) : bbpCalcPi 61 N = .ok 7224979316002670606 := by
  obtain ⟨s, rfl⟩ : ∃ s, N = s + 4 := ⟨N - 4, by omega⟩
  have e1 : bbpTerm (2 ^ 61) 0 0 = .ok 7224974762202907717 := by decide +kernel
  have e2 : bbpTerm (2 ^ 61) 1 7224974762202907717 = .ok 7224979315980003464 := by decide +kernel
  have e3 : bbpTerm (2 ^ 61) 2 7224979315980003464 = .ok 7224979316002670436 := by decide +kernel
  have e4 : bbpTerm (2 ^ 61) 3 7224979316002670436 = .ok 7224979316002670606 := by decide +kernel
  have em : shl i128 1 61 = .ok (2 ^ 61) := by decide +kernel
  unfold bbpCalcPi
  rw [em]
  simp only [Res.bind_ok, Res.pure_eq, bbpLoop, e1, e2, e3, e4, zero_add, show (1 : Int) + 1 = 2 by norm_num, show (2 : Int) + 1 = 3 by norm_num,
    show (3 : Int) + 1 = 4 by norm_num]
  rw [bbpLoop_tail (by norm_num) le_rfl s 4 _ le_rfl (by push_cast at hN ⊢; omega) (by norm_num) (by norm_num)]
  simp only [Res.bind_ok]
  congr 1

example : (4 : Nat) ≤ 1000 ∧ 1000 ≤ 2 ^ 28 := by norm_num

/-- C72 is false: the limit is wrong in the third digit. -/
theorem C72_false : ¬ C72_statement := by
  rintro ⟨N0, hN, h⟩
  obtain ⟨r, e, hb⟩ := h (2 ^ 28) hN le_rfl
  rw [C72_value (2 ^ 28) (by norm_num) le_rfl] at e
  have e := Res.ok.inj e
  subst e
  have hpi := Real.pi_gt_d4
  have := (abs_le.1 hb).1
  norm_num at this hpi
  linarith

/-- C72 with 0.009 instead of 0.001, from one term on.
Full statement: `C72_statement`; missing (false): the error never drops below 0.008 (`C72_error`). -/
theorem C72_coarse_partial (N : Nat) (h1 : 1 ≤ N) (hN : N ≤ 2 ^ 28) :
    ∃ r, bbpCalcPi 61 N = .ok r ∧ |(r : ℝ) / 2 ^ 61 - Real.pi| ≤ 9 / 1000 := by
  have key : ∀ r : Int, 7224974762202907717 ≤ r → r ≤ 7224979316002670606 → |(r : ℝ) / 2 ^ 61 - Real.pi| ≤ 9 / 1000 := by
    intro r a b
    have a' : (7224974762202907717 : ℝ) ≤ r := by exact_mod_cast a
    have b' : (r : ℝ) ≤ 7224979316002670606 := by exact_mod_cast b
    have p1 := Real.pi_gt_d4; have p2 := Real.pi_lt_d4
    rw [abs_le]
    constructor
    · have : (7224974762202907717 : ℝ) / 2 ^ 61 ≤ r / 2 ^ 61 := by gcongr
      norm_num at this p1 p2 ⊢; linarith
    · have : r / 2 ^ 61 ≤ (7224979316002670606 : ℝ) / 2 ^ 61 := by gcongr
      norm_num at this p1 p2 ⊢; linarith
  rcases lt_or_ge N 4 with h | h
  · interval_cases N
    · exact ⟨7224974762202907717, by decide +kernel, key _ le_rfl (by norm_num)⟩
    · exact ⟨7224979315980003464, by decide +kernel, key _ (by norm_num) (by norm_num)⟩
    · exact ⟨7224979316002670436, by decide +kernel, key _ (by norm_num) (by norm_num)⟩
  · exact ⟨_, C72_value N h hN, key _ (by norm_num) le_rfl⟩

example : 1 ≤ 20 ∧ 20 ≤ 2 ^ 28 := by norm_num

/-- C72: the error is at least 0.008 for every number of terms from one on. -/
theorem C72_error (N : Nat) (h1 : 1 ≤ N) (hN : N ≤ 2 ^ 28) :
    ∃ r, bbpCalcPi 61 N = .ok r ∧ (r : ℝ) / 2 ^ 61 + 8 / 1000 ≤ Real.pi := by
  have key : ∀ r : Int, r ≤ 7224979316002670606 → (r : ℝ) / 2 ^ 61 + 8 / 1000 ≤ Real.pi := by
    intro r b
    have b' : (r : ℝ) ≤ 7224979316002670606 := by exact_mod_cast b
    have p1 := Real.pi_gt_d4
    have : r / 2 ^ 61 ≤ (7224979316002670606 : ℝ) / 2 ^ 61 := by gcongr
    norm_num at this p1 ⊢; linarith
  rcases lt_or_ge N 4 with h | h
  · interval_cases N
    · exact ⟨7224974762202907717, by decide +kernel, key _ (by norm_num)⟩
    · exact ⟨7224979315980003464, by decide +kernel, key _ (by norm_num)⟩
    · exact ⟨7224979316002670436, by decide +kernel, key _ (by norm_num)⟩
  · exact ⟨_, C72_value N h hN, key _ le_rfl⟩

theorem bbpLoop_over {M : Int} (hM0 : 0 ≤ M) (hM : M ≤ 2 ^ 61) (s : Nat) : ∀ (k : Int) (sum : Int), 4 ≤ k → k ≤ 2 ^ 28 → 2 ^ 28 < k + s → 0 ≤ sum → sum ≤ 2 ^ 64 →
    bbpLoop M s k sum = .ub .overflow := by
  induction s with
  | zero => intro k sum h1 h2 h3; push_cast at h3; omega
  | succ s ih =>
    intro k sum hk hk2 hks h0 h1
    unfold bbpLoop
    rcases lt_or_eq_of_le hk2 with h | h
    · rw [bbpTerm_zero hM0 hM hk h h0 h1]
      simp only [Res.bind_ok]
      exact ih _ _ (by omega) (by omega) (by push_cast at hks ⊢; omega) h0 h1
    · have hr : i32.InRange (4 * k) := ⟨by rw [show i32.lo = -2 ^ 31 by rfl]; omega, by rw [show i32.hi = 2 ^ 31 - 1 by rfl]; omega⟩
      have hnr : ¬ i32.InRange (8 * k) := by
        rintro ⟨_, h5⟩
        rw [show i32.hi = 2 ^ 31 - 1 by rfl] at h5; omega
      unfold bbpTerm
      rw [arith_of_inRange (t := i32) (by decide) hr, Res.bind_ok, bbpFactor_ok _ _ hM0 hM, Res.bind_ok, arith_signed (t := i32) rfl, if_neg hnr,
        Res.bind_ub]
      rfl

/-- C72: with more than `2^28` terms the index arithmetic `8 * k` overflows `int`: undefined. -/
theorem C72_undefined (N : Nat) (hN : 2 ^ 28 < N) : bbpCalcPi 61 N = .ub .overflow := by
  obtain ⟨s, rfl⟩ : ∃ s, N = s + 4 := ⟨N - 4, by omega⟩
  have e1 : bbpTerm (2 ^ 61) 0 0 = .ok 7224974762202907717 := by decide +kernel
  have e2 : bbpTerm (2 ^ 61) 1 7224974762202907717 = .ok 7224979315980003464 := by decide +kernel
  have e3 : bbpTerm (2 ^ 61) 2 7224979315980003464 = .ok 7224979316002670436 := by decide +kernel
  have e4 : bbpTerm (2 ^ 61) 3 7224979316002670436 = .ok 7224979316002670606 := by decide +kernel
  have em : shl i128 1 61 = .ok (2 ^ 61) := by decide +kernel
  unfold bbpCalcPi
  rw [em]
  simp only [Res.bind_ok, Res.pure_eq, bbpLoop, e1, e2, e3, e4, zero_add, show (1 : Int) + 1 = 2 by norm_num, show (2 : Int) + 1 = 3 by norm_num,
    show (3 : Int) + 1 = 4 by norm_num]
  rw [bbpLoop_over (by norm_num) le_rfl s 4 _ le_rfl (by norm_num) (by omega) (by norm_num) (by norm_num)]
  rfl

example : 2 ^ 28 < 2 ^ 28 + 1 := by norm_num

/-! ## C73 -/

theorem lutLoop_ok {step : Int} (h0 : 0 ≤ step) (s : Nat) : ∀ i : Nat, ((i : Int) + s) * step ≤ 2 ^ 62 → i + s < 2 ^ 31 → step ≤ 2 ^ 62 →
    lutLoop step s i = .ok ((List.range' i s).map (fun j : Nat => step * j)) := by
  induction s with
  | zero => intros; rfl
  | succ s ih =>
    intro i h1 h2 h3
    unfold lutLoop
    have hi : fixed64.T.InRange ((i : Int) * 2 ^ 32) := by
      constructor
      · rw [show fixed64.T.lo = -2 ^ 63 by rfl]; omega
      · rw [show fixed64.T.hi = 2 ^ 63 - 1 by rfl]; omega
    have hst : fixed64.T.InRange step := by
      constructor
      · rw [show fixed64.T.lo = -2 ^ 63 by rfl]; omega
      · rw [show fixed64.T.hi = 2 ^ 63 - 1 by rfl]; omega
    have e1 : ofInt fixed64 (i : Int) = i * 2 ^ 32 := by
      rw [ofInt_eq fixed64 (by decide)]
      exact IntTy.wrap_of_inRange (t := fixed64.T) (by decide) hi
    have hle : step * (i : Int) ≤ 2 ^ 62 := by
      push_cast at h1
      have : ((i : Int) + (s + 1)) * step = step * i + (s + 1) * step := by ring
      have : 0 ≤ ((s : Int) + 1) * step := mul_nonneg (by omega) h0
      omega
    have hpi : 0 ≤ step * (i : Int) := mul_nonneg h0 (by omega)
    rw [e1, mul_nf (by decide) rfl hst hi, show fixed64.f = 32 by rfl, ← mul_assoc, Int.mul_ediv_cancel _ (by norm_num)]
    rw [IntTy.wrap_of_inRange (t := fixed64.T) (by decide)
      ⟨by rw [show fixed64.T.lo = -2 ^ 63 by rfl]; omega, by rw [show fixed64.T.hi = 2 ^ 63 - 1 by rfl]; omega⟩]
    simp only [Res.bind_ok, Res.pure_eq]
    rw [ih (i + 1) (by push_cast at h1 ⊢; linarith) (by omega) h3]
    simp only [Res.bind_ok]
    rw [List.range'_succ, List.map_cons]

/-- C73: for every table size below `2^31`, `angels_lut<N>` has `N` entries, entry `i` lies in `[i pi/N - i ulp, i pi/N]` (so entry 0 is
0 and every entry is in `[0, pi]`), and the entries are in non-decreasing order; `pi` is the library's constant. -/
theorem C73_lut (N : Nat) (h1 : 1 ≤ N) (h2 : N < 2 ^ 31) :
    ∃ P l, cPi fixed64 = .ok P ∧ angelsLut N = .ok l ∧ l.length = N ∧ l[0]? = some 0 ∧ l.Pairwise (· ≤ ·) ∧
      ∀ i : Nat, i < N → ∃ e, l[i]? = some e ∧ 0 ≤ val fixed64 e ∧ val fixed64 e ≤ val fixed64 P ∧
        val fixed64 e ≤ i * val fixed64 P / N ∧ i * val fixed64 P / N ≤ val fixed64 e + i * ulp fixed64 := by
  obtain ⟨P, hpi, hP0, hP1⟩ : ∃ P, cPi fixed64 = .ok P ∧ 0 ≤ P ∧ P ≤ 2 ^ 40 := ⟨13493037704, by decide +kernel, by norm_num, by norm_num⟩
  have hN : (0 : Int) < N := by exact_mod_cast h1
  have hN2 : (N : Int) < 2 ^ 31 := by exact_mod_cast h2
  have hNr : fixed64.T.InRange ((N : Int) * 2 ^ 32) := by
    constructor
    · rw [show fixed64.T.lo = -2 ^ 63 by rfl]; omega
    · rw [show fixed64.T.hi = 2 ^ 63 - 1 by rfl]; omega
  have e1 : ofInt fixed64 (N : Int) = N * 2 ^ 32 := by
    rw [ofInt_eq fixed64 (by decide)]
    exact IntTy.wrap_of_inRange (t := fixed64.T) (by decide) hNr
  set st : Int := P / N with hst
  have s1 : st * N ≤ P := Int.ediv_mul_le _ hN.ne'
  have s2 : P < (st + 1) * N := Int.lt_ediv_add_one_mul_self _ hN
  have s0 : 0 ≤ st := Int.ediv_nonneg hP0 hN.le
  have s3 : st ≤ P := Int.ediv_le_self _ hP0
  have e2 : div fixed64 P ((N : Int) * 2 ^ 32) = .ok st := by
    have et : Int.tdiv (P * 2 ^ 32) ((N : Int) * 2 ^ 32) = st := by
      rw [Int.tdiv_eq_ediv_of_nonneg (by omega), Int.mul_ediv_mul_of_pos_left _ _ (by norm_num)]
    have := sw64.div_ok rfl (x := P) (y := (N : Int) * 2 ^ 32) ⟨by rw [show fixed64.T.lo = -2 ^ 63 by rfl]; omega, by rw [show fixed64.T.hi = 2 ^ 63 - 1 by rfl]; omega⟩ (mul_pos hN (by norm_num)).ne'
      (by rw [show fixed64.f = 32 by rfl, et]
          exact ⟨by rw [show fixed64.T.lo = -2 ^ 63 by rfl]; omega, by rw [show fixed64.T.hi = 2 ^ 63 - 1 by rfl]; omega⟩)
    rw [this, show fixed64.f = 32 by rfl, et]
  have e3 : angelsLut N = .ok ((List.range' 0 N).map (fun j : Nat => st * j)) := by
    unfold angelsLut
    rw [hpi, Res.bind_ok, e1, e2, Res.bind_ok]
    have g1 : (((0 : Nat) : Int) + N) * st ≤ 2 ^ 62 := by
      rw [Nat.cast_zero, zero_add, mul_comm]; omega
    exact lutLoop_ok s0 N 0 g1 (by rw [Nat.zero_add]; exact h2) (by omega)
  clear_value st
  refine ⟨_, _, hpi, e3, by simp, ?_, ?_, ?_⟩
  · rw [List.getElem?_map, List.getElem?_range' (by omega)]; simp
  · rw [List.pairwise_map]
    apply List.Pairwise.imp _ (List.pairwise_lt_range' (s := 0) (n := N))
    intro a b hab
    have : (a : Int) ≤ b := by exact_mod_cast hab.le
    exact mul_le_mul_of_nonneg_left this s0
  · intro i hi
    have hi' : (i : Int) < N := by exact_mod_cast hi
    have hNq : (0 : ℚ) < N := by exact_mod_cast hN
    have s1q : (st : ℚ) * N ≤ P := by exact_mod_cast s1
    have s2q : (P : ℚ) ≤ (st + 1) * N := by exact_mod_cast s2.le
    have hi0 : (0 : ℚ) ≤ i := by positivity
    refine ⟨st * i, ?_, ?_, ?_, ?_, ?_⟩
    · rw [List.getElem?_map, List.getElem?_range' (by omega)]; simp
    · rw [← val_zero fixed64]; exact val_le.2 (mul_nonneg s0 (by omega))
    · apply val_le.2
      have := mul_le_mul_of_nonneg_left hi'.le s0
      omega
    · unfold val
      rw [le_div_iff₀ hNq, div_mul_eq_mul_div, mul_div_assoc', show fixed64.f = 32 by rfl]
      apply div_le_div_of_nonneg_right _ (by norm_num)
      push_cast
      have := mul_le_mul_of_nonneg_left s1q hi0
      linarith
    · unfold val ulp
      rw [div_le_iff₀ hNq, show fixed64.f = 32 by rfl]
      push_cast
      rw [mul_div_assoc', mul_one_div, ← add_div, div_mul_eq_mul_div]
      apply div_le_div_of_nonneg_right _ (by norm_num)
      have := mul_le_mul_of_nonneg_left s2q hi0
      linarith

example : (1 : Nat) ≤ 7 ∧ 7 < 2 ^ 31 ∧
    angelsLut 7 = .ok [0, 1927576814, 3855153628, 5782730442, 7710307256, 9637884070, 11565460884] := by
  refine ⟨by norm_num, by norm_num, by decide +kernel⟩

end Eirin.Props
