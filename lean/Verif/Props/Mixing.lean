import Verif.Props.Random
import Mathlib.Data.Nat.Bitwise
import Mathlib.Data.Fintype.EquivFin
import Mathlib.Data.Nat.Prime.Basic
import Mathlib.Data.Nat.ModEq

/-! # C107: which of the engines' mixing steps lose information -/

namespace Eirin.Props
open Eirin

/-- Spec: a map of the `w`-bit values into themselves that is one-to-one and onto. -/
def Permutes (w : Nat) (g : Nat → Nat) : Prop :=
  (∀ x, x < 2 ^ w → g x < 2 ^ w) ∧ (∀ x y, x < 2 ^ w → y < 2 ^ w → g x = g y → x = y) ∧ (∀ z, z < 2 ^ w → ∃ x, x < 2 ^ w ∧ g x = z)

theorem Permutes.of_inj {w : Nat} {g : Nat → Nat} (h1 : ∀ x, x < 2 ^ w → g x < 2 ^ w)
    (h2 : ∀ x y, x < 2 ^ w → y < 2 ^ w → g x = g y → x = y) : Permutes w g := by
  refine ⟨h1, h2, fun z hz => ?_⟩
  let G : Fin (2 ^ w) → Fin (2 ^ w) := fun x => ⟨g x, h1 x x.2⟩
  have hG : Function.Injective G := fun a b hab => Fin.ext (h2 a b a.2 b.2 (congrArg Fin.val hab))
  obtain ⟨x, hx⟩ := (Finite.injective_iff_surjective.1 hG) ⟨z, hz⟩
  exact ⟨x, x.2, congrArg Fin.val hx⟩

theorem odd_coprime {m : Nat} (hm : m % 2 = 1) (w : Nat) : Nat.gcd (2 ^ w) m = 1 := by
  have : Nat.Coprime 2 m := (Nat.Prime.coprime_iff_not_dvd Nat.prime_two).2 (by omega)
  exact Nat.Coprime.pow_left w this

theorem affine_inj {m : Nat} (hm : m % 2 = 1) (s w : Nat) {x y : Nat} (hx : x < 2 ^ w) (hy : y < 2 ^ w)
    (h : (x * m + s) % 2 ^ w = (y * m + s) % 2 ^ w) : x = y := by
  have h1 : x * m + s ≡ y * m + s [MOD 2 ^ w] := h
  have h2 : x * m ≡ y * m [MOD 2 ^ w] := Nat.ModEq.add_right_cancel' s h1
  have h3 := Nat.ModEq.cancel_right_of_coprime (odd_coprime hm w) h2
  unfold Nat.ModEq at h3
  rwa [Nat.mod_eq_of_lt hx, Nat.mod_eq_of_lt hy] at h3

theorem xs_bit (w x i : Nat) (hi : i < w) :
    (x * 256 % 2 ^ w ^^^ x).testBit i = ((decide (8 ≤ i) && x.testBit (i - 8)) ^^ x.testBit i) := by
  rw [Nat.testBit_xor, Nat.testBit_mod_two_pow, show x * 256 = x <<< 8 by rw [Nat.shiftLeft_eq], Nat.testBit_shiftLeft]
  simp [hi]

/-- The low `n` bits of `x * 256 ^ x` determine, and are determined by, the low `n` bits of `x`. -/
theorem xs_low {w n : Nat} (hn : n ≤ w) (x y : Nat) :
    (x * 256 % 2 ^ w ^^^ x) % 2 ^ n = (y * 256 % 2 ^ w ^^^ y) % 2 ^ n ↔ x % 2 ^ n = y % 2 ^ n := by
  have hb : ∀ a b : Nat, a % 2 ^ n = b % 2 ^ n ↔ ∀ i, i < n → a.testBit i = b.testBit i := by
    intro a b
    constructor
    · intro h i hi
      have := congrArg (fun z => z.testBit i) h
      simpa [Nat.testBit_mod_two_pow, hi] using this
    · intro h
      apply Nat.eq_of_testBit_eq
      intro i
      rw [Nat.testBit_mod_two_pow, Nat.testBit_mod_two_pow]
      by_cases hi : i < n
      · rw [h i hi]
      · simp [hi]
  rw [hb, hb]
  constructor
  · intro h i
    induction i using Nat.strong_induction_on with
    | _ i ih =>
      intro hi
      have e := h i hi
      rw [xs_bit w x i (by omega), xs_bit w y i (by omega)] at e
      by_cases h8 : 8 ≤ i
      · rw [ih (i - 8) (by omega) (by omega)] at e
        revert e
        cases x.testBit i <;> cases y.testBit i <;> cases y.testBit (i - 8) <;> simp [h8]
      · simpa [h8] using e
  · intro h i hi
    rw [xs_bit w x i (by omega), xs_bit w y i (by omega), h i hi]
    by_cases h8 : 8 ≤ i
    · rw [h (i - 8) (by omega)]
    · simp [h8]

theorem xs_lt {w x : Nat} (hx : x < 2 ^ w) : (x * 256 % 2 ^ w ^^^ x) < 2 ^ w :=
  Nat.xor_lt_two_pow (Nat.mod_lt _ (by positivity)) hx

theorem xorMix_inj {P : PcgParams} (hm : P.xorMult % 2 = 1) {x y : Nat} (hx : x < 2 ^ P.w) (hy : y < 2 ^ P.w)
    (h : xorMix P x = xorMix P y) : x = y := by
  unfold xorMix at h
  have h1 := affine_inj hm 0 P.w (xs_lt hx) (xs_lt hy) (by simpa using h)
  have h2 := (xs_low (le_refl P.w) x y).1 (by rw [h1])
  rwa [Nat.mod_eq_of_lt hx, Nat.mod_eq_of_lt hy] at h2

/-- C107 (false, see `C107_false`): for both named engines and every seed, the state-to-value step, the `_xor` step and the multiplication of
`mix_second` are permutations of the `w`-bit values. -/
def C107_statement : Prop := ∀ P, P = pcg2014 ∨ P = pcg2014_64 → ∀ s : Nat,
  Permutes P.w (fun x => (x * P.mult + s) % 2 ^ P.w) ∧ Permutes P.w (xorMix P) ∧ Permutes P.w (fun x => (x * P.mixMult) % 2 ^ P.w)

/-- C107 is false of the code: the `xor_multiplier` of `pcg2014` is even, so flipping the top bit of the argument does not change the result. -/
theorem C107_false : ¬ C107_statement := by
  intro h
  have := (h pcg2014 (Or.inl rfl) 0).2.1.2.1 0 (2 ^ 31) (by decide) (by decide) (by decide +kernel)
  revert this; decide

theorem params_odd : ∀ P, P = pcg2014 ∨ P = pcg2014_64 → P.mult % 2 = 1 ∧ P.mixMult % 2 = 1 := by
  rintro P (rfl | rfl) <;> decide

/-- C107, the steps that are permutations: for both engines the map from the state to the value mixed (for every seed), and the
multiplication of `mix_second`; for `pcg2014_64` the `_xor` step as well. -/
theorem C107_steps_partial (P : PcgParams) (hP : P = pcg2014 ∨ P = pcg2014_64) (s : Nat) :
    Permutes P.w (fun x => (x * P.mult + s) % 2 ^ P.w) ∧ Permutes P.w (fun x => (x * P.mixMult) % 2 ^ P.w) ∧
    Permutes 64 (xorMix pcg2014_64) := by
  obtain ⟨h1, h2⟩ := params_odd P hP
  have hp : 0 < 2 ^ P.w := by positivity
  refine ⟨.of_inj (fun x _ => Nat.mod_lt _ hp) fun x y hx hy h => affine_inj h1 s P.w hx hy h,
    .of_inj (fun x _ => Nat.mod_lt _ hp) fun x y hx hy h => affine_inj h2 0 P.w hx hy (by simpa using h),
    .of_inj (fun x _ => Nat.mod_lt _ (by decide)) fun x y hx hy h => xorMix_inj (P := pcg2014_64) (by decide) hx hy h⟩

/-- C107, what the `_xor` step of `pcg2014` loses, exactly: two arguments are merged precisely when they agree in the low 31 bits, and the
results are exactly the even values. -/
theorem C107_lost (x y z : Nat) (hz : z < 2 ^ 32) :
    (xorMix pcg2014 x = xorMix pcg2014 y ↔ x % 2 ^ 31 = y % 2 ^ 31) ∧
    ((∃ x, x < 2 ^ 32 ∧ xorMix pcg2014 x = z) ↔ z % 2 = 0) := by
  have key : ∀ a : Nat, xorMix pcg2014 a = 2 * ((a * 256 % 2 ^ 32 ^^^ a) * 0x496B4651 % 2 ^ 31) := by
    intro a
    show ((a * 256 % 2 ^ 32 ^^^ a) * 0x92D68CA2) % 2 ^ 32 = _
    generalize (a * 256 % 2 ^ 32 ^^^ a) = b
    omega
  have hlow : ∀ a b : Nat, a * 0x496B4651 % 2 ^ 31 = b * 0x496B4651 % 2 ^ 31 ↔ a % 2 ^ 31 = b % 2 ^ 31 := by
    intro a b
    constructor
    · intro h
      exact Nat.ModEq.cancel_right_of_coprime (odd_coprime (m := 0x496B4651) (by decide) 31) h
    · intro h
      exact Nat.ModEq.mul_right _ h
  have hinj : ∀ a b : Nat, xorMix pcg2014 a = xorMix pcg2014 b ↔ a % 2 ^ 31 = b % 2 ^ 31 := by
    intro a b
    rw [key, key, ← xs_low (w := 32) (n := 31) (by norm_num) a b, ← hlow]
    exact ⟨fun h => Nat.eq_of_mul_eq_mul_left (by norm_num) h, fun h => congrArg (2 * ·) h⟩
  have hev : ∀ a : Nat, ∃ q, q < 2 ^ 31 ∧ xorMix pcg2014 a = 2 * q := fun a => ⟨_, Nat.mod_lt _ (by positivity), key a⟩
  refine ⟨hinj x y, ?_, ?_⟩
  · rintro ⟨a, _, rfl⟩
    obtain ⟨q, _, hq⟩ := hev a
    omega
  · intro h
    have hp : Permutes 31 (fun a => xorMix pcg2014 a / 2) := by
      refine .of_inj (fun a _ => ?_) fun a b ha hb hab => ?_
      · obtain ⟨q, hq, e⟩ := hev a
        show xorMix pcg2014 a / 2 < 2 ^ 31
        omega
      · have h2 : xorMix pcg2014 a = xorMix pcg2014 b := by
          have : xorMix pcg2014 a / 2 = xorMix pcg2014 b / 2 := hab
          obtain ⟨q, _, e⟩ := hev a
          obtain ⟨q', _, e'⟩ := hev b
          omega
        have := (hinj a b).1 h2
        rwa [Nat.mod_eq_of_lt ha, Nat.mod_eq_of_lt hb] at this
    obtain ⟨a, ha, hz'⟩ := hp.2.2 (z / 2) (by omega)
    refine ⟨a, by omega, ?_⟩
    have : xorMix pcg2014 a / 2 = z / 2 := hz'
    obtain ⟨q, _, e⟩ := hev a
    omega

example : xorMix pcg2014 1 = xorMix pcg2014 (1 + 2 ^ 31) ∧ xorMix pcg2014_64 1 ≠ xorMix pcg2014_64 (1 + 2 ^ 63) := by decide +kernel

end Eirin.Props
