import Verif.Model.Float
import Mathlib.Algebra.Order.Floor.Ring
import Mathlib.Tactic.Linarith
import Mathlib.Tactic.FieldSimp
import Mathlib.Tactic.Positivity
import Mathlib.Tactic.NormNum

/-! # Rounding to a binary format: exactness and nearness -/

namespace Eirin

/-- Specification: `q` is a multiple `m * 2^e` of a power of two with at most `p` significant bits and `e` not below the smallest unit
(the numbers of the format, with exponents unbounded above). -/
def IsFlt (fmt : FFmt) (q : ℚ) : Prop := ∃ m e : Int, |m| < 2 ^ fmt.p ∧ fmt.emin ≤ e ∧ q = m * (2 : ℚ) ^ e

/-- Specification: `r` is a number of the format and none is nearer to `q`. -/
def NearestFlt (fmt : FFmt) (q r : ℚ) : Prop := IsFlt fmt r ∧ ∀ s, IsFlt fmt s → |q - r| ≤ |q - s|

theorem two_zpow_pos (e : Int) : (0 : ℚ) < 2 ^ e := zpow_pos (by norm_num) e

theorem two_zpow_le {a b : Int} (h : a ≤ b) : (2 : ℚ) ^ a ≤ 2 ^ b := zpow_le_zpow_right₀ (by norm_num) h

theorem two_zpow_lt_iff {a b : Int} : (2 : ℚ) ^ a < 2 ^ b ↔ a < b := zpow_lt_zpow_iff_right₀ (by norm_num)

theorem two_zpow_add (a b : Int) : (2 : ℚ) ^ (a + b) = 2 ^ a * 2 ^ b := zpow_add₀ (by norm_num) a b

/-- The power of two of a non-negative exponent is an integer. -/
theorem two_zpow_nat {e : Int} (h : 0 ≤ e) : ∃ k : Int, 0 < k ∧ (2 : ℚ) ^ e = k := by
  obtain ⟨n, rfl⟩ := Int.eq_ofNat_of_zero_le h
  exact ⟨2 ^ n, by positivity, by push_cast; rw [zpow_natCast]⟩

theorem log2_zpow {n : Nat} (hn : n ≠ 0) : (2 : ℚ) ^ (Nat.log2 n : Int) ≤ n ∧ (n : ℚ) < 2 ^ ((Nat.log2 n : Int) + 1) := by
  have a1 : 2 ^ Nat.log2 n ≤ n := Nat.log2_self_le hn
  have a2 : n < 2 ^ (Nat.log2 n + 1) := Nat.lt_log2_self
  constructor
  · rw [zpow_natCast]; exact_mod_cast a1
  · have : (n : ℚ) < 2 ^ (Nat.log2 n + 1) := by exact_mod_cast a2
    rwa [← zpow_natCast, Nat.cast_add, Nat.cast_one] at this

theorem ilog_spec {q : ℚ} (hq : q ≠ 0) : (2 : ℚ) ^ ilog q ≤ |q| ∧ |q| < 2 ^ (ilog q + 1) := by
  have hn : q.num.natAbs ≠ 0 := by rw [Int.natAbs_ne_zero]; exact Rat.num_ne_zero.2 hq
  have hd : q.den ≠ 0 := q.den_nz
  have e : |q| = (q.num.natAbs : ℚ) / q.den := by
    conv_lhs => rw [← Rat.num_div_den q]
    rw [abs_div, Nat.abs_cast, Nat.cast_natAbs, Int.cast_abs]
  obtain ⟨a1, a2⟩ := log2_zpow hn
  obtain ⟨b1, b2⟩ := log2_zpow hd
  have hdp : (0 : ℚ) < q.den := by exact_mod_cast Nat.pos_of_ne_zero hd
  have up : |q| < 2 ^ ((Nat.log2 q.num.natAbs : Int) - Nat.log2 q.den + 1) := by
    rw [e, div_lt_iff₀ hdp]
    have e1 : (2 : ℚ) ^ ((Nat.log2 q.num.natAbs : Int) + 1) =
        2 ^ ((Nat.log2 q.num.natAbs : Int) - Nat.log2 q.den + 1) * 2 ^ (Nat.log2 q.den : Int) := by
      rw [← two_zpow_add]; congr 1; ring
    exact lt_of_lt_of_le a2 (e1 ▸ mul_le_mul_of_nonneg_left b1 (two_zpow_pos _).le)
  have dn : (2 : ℚ) ^ ((Nat.log2 q.num.natAbs : Int) - Nat.log2 q.den - 1) ≤ |q| := by
    rw [e, le_div_iff₀ hdp]
    have e1 : (2 : ℚ) ^ (Nat.log2 q.num.natAbs : Int) =
        2 ^ ((Nat.log2 q.num.natAbs : Int) - Nat.log2 q.den - 1) * 2 ^ ((Nat.log2 q.den : Int) + 1) := by
      rw [← two_zpow_add]; congr 1; ring
    exact le_trans (e1 ▸ mul_le_mul_of_nonneg_left b2.le (two_zpow_pos _).le) a1
  unfold ilog
  simp only
  split
  · rename_i h; exact ⟨h, up⟩
  · rename_i h; exact ⟨dn, by rw [sub_add_cancel]; exact lt_of_not_ge h⟩

theorem rneInt_half (q : ℚ) : |q - rneInt q| ≤ 1 / 2 := by
  have h0 := Int.floor_le q
  have h1 := Int.lt_floor_add_one q
  unfold rneInt
  rw [abs_le]
  split
  · constructor <;> linarith
  · split
    · push_cast; constructor <;> linarith
    · split
      · constructor <;> linarith
      · push_cast; constructor <;> linarith

theorem rneInt_nearest (q : ℚ) (k : Int) : |q - rneInt q| ≤ |q - k| := by
  have h := rneInt_half q
  rcases eq_or_ne k (rneInt q) with rfl | hne
  · exact le_refl _
  · have h1 : (1 : ℚ) ≤ |(rneInt q : ℚ) - k| := by
      have : (1 : Int) ≤ |rneInt q - k| := Int.one_le_abs (sub_ne_zero.2 (Ne.symm hne))
      exact_mod_cast this
    have h2 : |(rneInt q : ℚ) - k| ≤ |q - rneInt q| + |q - k| := by
      have := abs_sub_le (rneInt q : ℚ) q k
      rwa [abs_sub_comm (rneInt q : ℚ) q] at this
    linarith

theorem unitExp_le (fmt : FFmt) (q : ℚ) : fmt.emin ≤ unitExp fmt q ∧ ilog q - fmt.p + 1 ≤ unitExp fmt q ∧
    (unitExp fmt q = ilog q - fmt.p + 1 ∨ unitExp fmt q = fmt.emin) := by
  unfold unitExp
  refine ⟨le_max_right _ _, le_max_left _ _, ?_⟩
  rcases max_choice (ilog q - fmt.p + 1) fmt.emin with h | h <;> simp [h]

theorem isFlt_zero (fmt : FFmt) : IsFlt fmt 0 := ⟨0, fmt.emin, by simp, le_refl _, by simp⟩

theorem isFlt_neg {fmt : FFmt} {q : ℚ} (h : IsFlt fmt q) : IsFlt fmt (-q) := by
  obtain ⟨m, e, hm, he, rfl⟩ := h
  exact ⟨-m, e, by rwa [abs_neg], he, by push_cast; ring⟩

/-- A multiple of a unit with at most `2^p` units is a number of the format. -/
theorem isFlt_of_le {fmt : FFmt} (hp : 1 ≤ fmt.p) {m e : Int} (hm : |m| ≤ 2 ^ fmt.p) (he : fmt.emin ≤ e) : IsFlt fmt (m * (2 : ℚ) ^ e) := by
  rcases lt_or_eq_of_le hm with h | h
  · exact ⟨m, e, h, he, rfl⟩
  · have hpp : (2 : Int) ^ fmt.p = 2 ^ (fmt.p - 1) * 2 := by rw [← pow_succ]; congr 1; omega
    have h2 : (0 : Int) < 2 ^ (fmt.p - 1) := by positivity
    have key : IsFlt fmt ((2 ^ fmt.p : Int) * (2 : ℚ) ^ e) := by
      refine ⟨2 ^ (fmt.p - 1), e + 1, ?_, by omega, ?_⟩
      · rw [abs_of_pos h2, hpp]; omega
      · rw [hpp, two_zpow_add]; push_cast; ring
    rcases abs_choice m with hc | hc
    · rw [hc] at h; rw [h]; exact key
    · rw [hc] at h
      have : m = -(2 ^ fmt.p) := by omega
      rw [this, Int.cast_neg, neg_mul]
      exact isFlt_neg key

/-- `rne` returns a number of the format nearest to its argument. -/
theorem rne_nearest (fmt : FFmt) (hp : 1 ≤ fmt.p) (q : ℚ) : NearestFlt fmt q (rne fmt q) := by
  unfold rne
  split
  · rename_i h0
    exact ⟨isFlt_zero fmt, fun s _ => by rw [h0, sub_zero, abs_zero]; exact abs_nonneg _⟩
  · rename_i h0
    obtain ⟨i1, i2⟩ := ilog_spec h0
    obtain ⟨u1, u2, u3⟩ := unitExp_le fmt q
    generalize hU : unitExp fmt q = U at u1 u2 u3
    have hUp := two_zpow_pos U
    have hq : q = q / 2 ^ U * 2 ^ U := (div_mul_cancel₀ q hUp.ne').symm
    have dist : ∀ k : Int, |q - k * 2 ^ U| = |q / 2 ^ U - k| * 2 ^ U := by
      intro k
      conv_lhs => rw [hq]
      rw [← sub_mul, abs_mul, abs_of_pos hUp]
    have grid : ∀ k : Int, |q - rneInt (q / 2 ^ U) * 2 ^ U| ≤ |q - k * 2 ^ U| := by
      intro k
      rw [dist, dist]
      exact mul_le_mul_of_nonneg_right (rneInt_nearest _ k) hUp.le
    have hpc : ((2 ^ fmt.p : Int) : ℚ) = 2 ^ (fmt.p : Int) := by push_cast; rw [zpow_natCast]
    constructor
    · apply isFlt_of_le hp _ u1
      have hx : |q / 2 ^ U| < 2 ^ (fmt.p : Int) := by
        rw [abs_div, abs_of_pos hUp, div_lt_iff₀ hUp, ← two_zpow_add]
        exact lt_of_lt_of_le i2 (two_zpow_le (by omega))
      have h1 := rneInt_half (q / 2 ^ U)
      have h2 : |(rneInt (q / 2 ^ U) : ℚ)| < 2 ^ (fmt.p : Int) + 1 := by
        have := abs_sub_abs_le_abs_sub (rneInt (q / 2 ^ U) : ℚ) (q / 2 ^ U)
        rw [abs_sub_comm] at this
        linarith
      rw [← hpc] at h2
      have : |rneInt (q / 2 ^ U)| < 2 ^ fmt.p + 1 := by exact_mod_cast h2
      omega
    · rintro s ⟨m, e, hm, he, rfl⟩
      by_cases hUe : U ≤ e
      · obtain ⟨k, _, hk⟩ := two_zpow_nat (e := e - U) (by omega)
        have : (m : ℚ) * 2 ^ e = ((m * k : Int) : ℚ) * 2 ^ U := by
          push_cast; rw [← hk, mul_assoc, ← two_zpow_add]; congr 2; ring
        rw [this]
        exact grid _
      · have hUeq : U = ilog q - fmt.p + 1 := by rcases u3 with h | h <;> omega
        have hs : |(m : ℚ) * 2 ^ e| ≤ 2 ^ ilog q := by
          rw [abs_mul, abs_of_pos (two_zpow_pos e)]
          have h1 : |(m : ℚ)| ≤ 2 ^ (fmt.p : Int) := by rw [← hpc]; exact_mod_cast hm.le
          refine le_trans (mul_le_mul_of_nonneg_right h1 (two_zpow_pos e).le) ?_
          rw [← two_zpow_add]
          exact two_zpow_le (by omega)
        obtain ⟨k, _, hk⟩ := two_zpow_nat (e := ilog q - U) (by omega)
        have hk' : (2 : ℚ) ^ ilog q = k * 2 ^ U := by rw [← hk, ← two_zpow_add]; congr 1; ring
        have hd : |q| - 2 ^ ilog q ≤ |q - m * 2 ^ e| := by
          have := abs_sub_abs_le_abs_sub q ((m : ℚ) * 2 ^ e)
          linarith
        rcases le_total 0 q with hs0 | hs0
        · refine le_trans (grid k) ?_
          rw [abs_of_nonneg hs0] at hd i1
          rw [← hk', abs_of_nonneg (by linarith)]
          exact hd
        · refine le_trans (grid (-k)) ?_
          rw [abs_of_nonpos hs0] at hd i1
          push_cast
          rw [neg_mul, ← hk', abs_of_nonpos (by linarith)]
          linarith

/-- A number of the format is returned unchanged. -/
theorem rne_exact (fmt : FFmt) (hp : 1 ≤ fmt.p) {q : ℚ} (h : IsFlt fmt q) : rne fmt q = q := by
  have := (rne_nearest fmt hp q).2 q h
  rw [sub_self, abs_zero] at this
  have := abs_nonpos_iff.1 this
  linarith

/-- Rounding does not cross a number of the format. -/
theorem rne_le (fmt : FFmt) (hp : 1 ≤ fmt.p) {q s : ℚ} (hs : IsFlt fmt s) (h : q ≤ s) : rne fmt q ≤ s := by
  have h1 := (rne_nearest fmt hp q).2 s hs
  by_contra hc
  push Not at hc
  rw [abs_of_nonpos (a := q - s) (by linarith), abs_of_nonpos (by linarith)] at h1
  linarith

theorem le_rne (fmt : FFmt) (hp : 1 ≤ fmt.p) {q s : ℚ} (hs : IsFlt fmt s) (h : s ≤ q) : s ≤ rne fmt q := by
  have h1 := (rne_nearest fmt hp q).2 s hs
  by_contra hc
  push Not at hc
  rw [abs_of_nonneg (a := q - s) (by linarith), abs_of_nonneg (by linarith)] at h1
  linarith

/-- The relation of the four formats to the integer types used below: some bits of precision, units below one, range beyond 64 bits. -/
structure FFmt.Std (fmt : FFmt) : Prop where
  p2 : 2 ≤ fmt.p
  unit : fmt.emin + fmt.p ≤ 0
  range : 128 ≤ fmt.emax

theorem std32 : binary32.Std := ⟨by decide, by decide, by decide⟩
theorem std64 : binary64.Std := ⟨by decide, by decide, by decide⟩
theorem stdExt : x87Ext.Std := ⟨by decide, by decide, by decide⟩
theorem std128 : binary128.Std := ⟨by decide, by decide, by decide⟩

/-- Multiplying by a power of two with a non-negative exponent keeps a number in the format (up to overflow). -/
theorem isFlt_scale {fmt : FFmt} {q : ℚ} (h : IsFlt fmt q) (n : Nat) : IsFlt fmt (q * 2 ^ n) := by
  obtain ⟨m, e, hm, he, rfl⟩ := h
  refine ⟨m, e + n, hm, by omega, ?_⟩
  rw [two_zpow_add, zpow_natCast]; ring

theorem isFlt_pow {fmt : FFmt} (h : fmt.Std) (n : Nat) : IsFlt fmt (2 ^ n) := by
  have h1 : IsFlt fmt (1 * (2 : ℚ) ^ (0 : Int)) := ⟨1, 0, by
    have : (2 : Int) ^ 1 ≤ 2 ^ fmt.p := pow_le_pow_right₀ (by norm_num) (by have := h.p2; omega)
    rw [abs_one]; omega, by have := h.unit; have := h.p2; omega, by norm_num⟩
  rw [zpow_zero, mul_one] at h1
  have := isFlt_scale h1 n
  rwa [one_mul] at this

/-- Integers of at most `p` bits are numbers of the format. -/
theorem isFlt_int {fmt : FFmt} (h : fmt.Std) {n : Int} (hn : |n| ≤ 2 ^ fmt.p) : IsFlt fmt n := by
  have := isFlt_of_le (fmt := fmt) (m := n) (e := 0) (by have := h.p2; omega) hn (by have := h.unit; have := h.p2; omega)
  rwa [zpow_zero, mul_one] at this

/-- A result that is a number of the format in range is returned unchanged. -/
theorem fround_exact {fmt : FFmt} (h : fmt.Std) {q : ℚ} (hq : IsFlt fmt q) (hr : |q| < 2 ^ fmt.emax) : fround fmt q = .fin q := by
  unfold fround
  rw [rne_exact fmt (by have := h.p2; omega) hq, if_pos hr]

end Eirin
