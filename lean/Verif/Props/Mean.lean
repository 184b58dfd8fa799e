import Verif.Props.Sums
import Verif.Props.MixedAll
import Mathlib.Tactic.IntervalCases

/-! # Property C198: the mean of a list

`sum / v.size()` divides by an unsigned number. -/

namespace Eirin.Props
open Spec

/-- `T s = 0; for(auto x : xs) s += x; return s / (U)xs.size();` -/
def mean (F : FxTy) (U : IntTy) (xs : List Int) : Res Int := do
  let s ← sumFrom F 0 xs
  divInt F U s xs.length

/-- C198 as one would expect it: whatever the type of the length, the mean is the exact mean with the digits past the last place dropped, as long as
all partial sums are representable. -/
def C198_statement : Prop :=
  ∀ (F : FxTy) (U : IntTy) (xs : List Int), F.Valid → CInt U → U.InRange xs.length → xs ≠ [] → (∀ x ∈ xs, Storable F x) →
    (∀ ys, ys <+: xs → Representable F (total F 0 ys)) → ∃ m, mean F U xs = .ok m ∧ IsTrunc F (total F 0 xs / xs.length) m

theorem sum_bounds (xs : List Int) (l h : Int) (hb : ∀ x ∈ xs, l ≤ x ∧ x ≤ h) : xs.length * l ≤ xs.sum ∧ xs.sum ≤ xs.length * h := by
  induction xs with
  | nil => simp
  | cons x t ih =>
    have h1 := hb x (by simp)
    have h2 := ih fun y hy => hb y (by simp [hy])
    rw [List.sum_cons, List.length_cons]
    push_cast
    constructor <;> linarith [h1.1, h1.2, h2.1, h2.2, add_mul (t.length : Int) 1 l, add_mul (t.length : Int) 1 h]

/-- The sum itself. -/
theorem sum_fit {F : FxTy} (hF : F.Valid) {xs : List Int} (hxs : ∀ x ∈ xs, Storable F x) (hp : ∀ ys, ys <+: xs → Representable F (total F 0 ys)) :
    sumFrom F 0 xs = .ok xs.sum ∧ Storable F xs.sum := by
  have hS : Storable F xs.sum := by
    have := hp xs (List.prefix_refl _)
    rwa [total_eq, representable_iff, zero_add] at this
  have h0 : Storable F 0 := by
    have := hp [] (List.nil_prefix)
    rwa [total_eq, representable_iff, List.sum_nil, zero_add] at this
  refine ⟨?_, hS⟩
  obtain ⟨z, e⟩ : ∃ z, sumFrom F 0 xs = .ok z := by
    by_cases hs : SignedWide F
    · obtain ⟨z, e, -⟩ := (C154_wide F hF hs xs hxs 0 h0).1 hp
      exact ⟨z, e⟩
    · obtain ⟨z, e, -⟩ := C154_modular F hF hs xs hxs 0 h0
      exact ⟨z, e⟩
  have hw := sumFrom_val F hF xs hxs 0 z h0 e
  rw [zero_add] at hw
  have hw' : IsWrap F xs.sum xs.sum := ⟨hS, ⟨0, by simp⟩⟩
  rw [e, isWrap_unique hF.tpos hw hw']

/-- A quotient rounded towards zero stays between bounds of the exact quotient that are multiples of one ulp. -/
theorem trunc_between {F : FxTy} {q : ℚ} {n l h : Int} (ht : IsTrunc F q n) (hl : val F l ≤ q) (hh : q ≤ val F h) : l ≤ n ∧ n ≤ h := by
  obtain ⟨t1, t2⟩ := ht
  have hu := ulp_pos F
  rcases le_or_gt 0 q with hq | hq
  · obtain ⟨-, b, c⟩ := t1 hq
    have h1 : val F l < val F (n + 1) := by rw [val_add, val_one]; linarith
    have h2 : val F n ≤ val F h := by linarith
    rw [val_lt] at h1
    rw [val_le] at h2
    omega
  · obtain ⟨-, b, c⟩ := t2 hq
    have h1 : val F (n - 1) < val F h := by rw [sub_eq_add_neg, val_add, val_neg, val_one]; linarith
    have h2 : val F l ≤ val F n := by linarith
    rw [val_lt] at h1
    rw [val_le] at h2
    omega

/-- C198 (for a signed or small type of the length, or a sum that is not negative): the mean is the exact mean with the digits past the last place
dropped, and it lies between any bounds of the numbers. -/
theorem C198_mean_partial (F : FxTy) (U : IntTy) (xs : List Int) (hF : F.Valid) (hU : CInt U) (hn : U.InRange xs.length) (h0 : xs ≠ [])
    (hxs : ∀ x ∈ xs, Storable F x) (hp : ∀ ys, ys <+: xs → Representable F (total F 0 ys))
    (h : 0 ≤ total F 0 xs ∨ U.signed = true ∨ U.bits < 32 ∨ U.bits < F.T.bits) :
    ∃ m, mean F U xs = .ok m ∧ IsTrunc F (total F 0 xs / xs.length) m ∧ ∀ l h, (∀ x ∈ xs, l ≤ x ∧ x ≤ h) → l ≤ m ∧ m ≤ h := by
  obtain ⟨es, hS⟩ := sum_fit hF hxs hp
  have hlen : (0 : Int) < xs.length := by exact_mod_cast List.length_pos_iff.2 h0
  have hlq : (0 : ℚ) < xs.length := by exact_mod_cast hlen
  have et : total F 0 xs = val F xs.sum := by rw [total_eq, zero_add]
  rw [et] at h ⊢
  have ht : IsTrunc F (val F xs.sum / (xs.length : ℚ)) (Int.tdiv xs.sum xs.length) := by
    have t := trunc_spec F xs.sum xs.length hlen.ne'
    have : (xs.sum : ℚ) / ((xs.length : Int) : ℚ) / 2 ^ F.f = val F xs.sum / (xs.length : ℚ) := by
      unfold val; push_cast; field_simp
    rwa [this] at t
  have hb : ∀ l h, (∀ x ∈ xs, l ≤ x ∧ x ≤ h) → l ≤ Int.tdiv xs.sum xs.length ∧ Int.tdiv xs.sum xs.length ≤ h := by
    intro l h hlh
    obtain ⟨b1, b2⟩ := sum_bounds xs l h hlh
    have c1 : val F (xs.length * l) ≤ val F xs.sum := by rw [val_le]; exact b1
    have c2 : val F xs.sum ≤ val F (xs.length * h) := by rw [val_le]; exact b2
    have ev : ∀ k : Int, val F (xs.length * k) = val F k * xs.length := by intro k; unfold val; push_cast; ring
    rw [ev] at c1 c2
    exact trunc_between ht ((le_div_iff₀ hlq).2 c1) ((div_le_iff₀ hlq).2 c2)
  refine ⟨_, ?_, ht, hb⟩
  unfold mean
  rw [es, Res.bind_ok]
  refine C150_div_partial F hF U hU _ _ _ hS hn hlen.ne' (hb _ _ hxs) (by simpa using ht) ?_
  rcases h with h | h
  · rw [← val_zero F, val_le] at h
    exact Or.inl h
  · exact Or.inr h

example : mean fixed32 i32 [65536, -65536 * 3, 1] = .ok (-43690) ∧ mean fixed32 u64 [65536 * 2, 65536, 65536 * 6] = .ok (65536 * 3) := by decide +kernel

/-- C198 (what happens instead): divided by an unsigned length of the width of the storage type, such as `v.size()` on 64-bit types, the mean of two or
more numbers with a negative sum is always wrong: the result is not negative. -/
theorem C198_unsigned_partial (F : FxTy) (U : IntTy) (xs : List Int) (hF : F.Valid) (hU : CInt U) (hn : U.InRange xs.length)
    (h1 : U.signed = false) (h2 : 32 ≤ U.bits) (h3 : F.T.bits = U.bits) (h4 : 2 ≤ xs.length)
    (hxs : ∀ x ∈ xs, Storable F x) (hp : ∀ ys, ys <+: xs → Representable F (total F 0 ys)) (hneg : total F 0 xs < 0) :
    ∃ m, mean F U xs = .ok m ∧ 0 ≤ m ∧ m = (2 ^ F.T.bits + xs.sum) / xs.length := by
  obtain ⟨es, hS⟩ := sum_fit hF hxs hp
  have hlen : (2 : Int) ≤ xs.length := by exact_mod_cast h4
  have et : total F 0 xs = val F xs.sum := by rw [total_eq, zero_add]
  rw [et, ← val_zero F, val_lt] at hneg
  have hs : F.T.signed = true := by
    by_contra hs
    have := hS.1
    unfold IntTy.lo at this
    rw [if_neg (by simpa using hs)] at this
    omega
  have hb : F.T.bits = F.T.bits - 1 + 1 := by omega
  have hpw : (2 : Int) ^ F.T.bits = 2 * 2 ^ (F.T.bits - 1) := by conv_lhs => rw [hb, pow_succ, mul_comm]
  have hlo := hS.1
  unfold IntTy.lo at hlo
  rw [if_pos hs] at hlo
  set P : Int := 2 ^ (F.T.bits - 1) with hP
  have hPp : 0 < P := by positivity
  have q0 : 0 ≤ (xs.sum + 2 * P) / (xs.length : Int) := Int.ediv_nonneg (by omega) (by omega)
  have q1 : (xs.sum + 2 * P) / (xs.length : Int) < P := by
    refine Int.ediv_lt_of_lt_mul (by omega) ?_
    nlinarith
  have hw : Storable F ((xs.sum + 2 * P) / (xs.length : Int)) := by
    refine ⟨?_, ?_⟩
    · unfold IntTy.lo; rw [if_pos hs]; omega
    · unfold IntTy.hi; rw [if_pos hs]; omega
  refine ⟨(xs.sum + 2 * P) / (xs.length : Int), ?_, q0, by rw [hpw, add_comm]⟩
  unfold mean
  rw [es, Res.bind_ok, divInt_neg_unsigned F hF U hU h1 h2 h3.le hS hneg hn (by omega), ← h3, hpw]
  congr 1
  exact isWrap_unique hF.tpos (isWrap_wrap hF _) ⟨hw, ⟨0, by simp⟩⟩

example : mean fixed64 u64 [-2 ^ 32, -2 ^ 32] = .ok (2 ^ 63 - 2 ^ 32) := by decide +kernel

/-- C198 is false of the code: on `fixed32` the mean of three times minus one is about 21844.3 when the length is a `size_t`. -/
theorem C198_false : ¬ C198_statement := by
  intro h
  obtain ⟨m, e, t⟩ := h fixed32 u64 [-65536, -65536, -65536] (by decide) (by unfold CInt; decide) (by decide) (by simp) (by decide) (by
    intro ys hy
    rw [total_eq, representable_iff]
    have : ys = [] ∨ ys = [-65536] ∨ ys = [-65536, -65536] ∨ ys = [-65536, -65536, -65536] := by
      rw [List.prefix_iff_eq_take] at hy
      have hl : ys.length ≤ 3 := by rw [hy]; simp
      interval_cases hn : ys.length <;> simp at hy <;> simp [hy]
    rcases this with rfl | rfl | rfl | rfl <;> decide)
  rw [show mean fixed32 u64 [-65536, -65536, -65536] = .ok 1431590229 by decide +kernel] at e
  cases e
  have := (t.2 (by norm_num [total, val, fixed32])).1
  norm_num [val, fixed32] at this

end Eirin.Props
