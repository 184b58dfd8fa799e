import Verif.Props.Arith
import Verif.Lemmas.Mixed

/-! # Property C199: counting loops -/

namespace Eirin.Props
open Spec

/-- `n = 0; for(x = a; x < b; x += h) ++n; return n;` with the number of passes cut off at `fuel`: a loop that would go on is `.ub .diverges`. -/
def passes (F : FxTy) (b h : Int) : Nat → Int → Res Nat
  | 0, _ => .ub .diverges
  | fuel + 1, x =>
    if lt x b then do
      let x' ← addAssign F x h
      let n ← passes F b h fuel x'
      pure (n + 1)
    else .ok 0

/-- The number of passes of the exact loop. -/
def IsCount (F : FxTy) (a b h : Int) (n : Nat) : Prop :=
  (∀ k : Nat, k < n → val F a + k * val F h < val F b) ∧ val F b ≤ val F a + n * val F h

theorem val_step (F : FxTy) (a h : Int) (k : Nat) : val F a + k * val F h = val F (a + k * h) := by
  unfold val; push_cast; ring

theorem isCount_iff {F : FxTy} {a b h : Int} {n : Nat} : IsCount F a b h n ↔ (∀ k : Nat, k < n → a + k * h < b) ∧ b ≤ a + n * h := by
  unfold IsCount
  simp only [val_step, val_lt, val_le]

/-- An addition whose sum is storable. -/
theorem addAssign_exact {F : FxTy} (hF : F.Valid) {x y : Int} (hx : Storable F x) (hy : Storable F y) (hs : Storable F (x + y)) :
    addAssign F x y = .ok (x + y) := by
  rw [show addAssign F x y = add F x y from rfl, add_nf hF hx hy, if_neg fun h => h.2 hs]
  have h' : IsWrap F (x + y) (x + y) := ⟨hs, ⟨0, by simp⟩⟩
  rw [isWrap_unique hF.tpos (isWrap_wrap hF (x + y)) h']

/-- C199: on every layout, a loop with a positive step takes exactly as many passes as the exact loop, without drift, as long as the first value
that ends it is storable. -/
theorem C199_count (F : FxTy) (hF : F.Valid) (b h : Int) (hh : Storable F h) (h0 : 0 < h) (n fuel : Nat) (hn : n < fuel) (a : Int) (ha : Storable F a)
    (hc : IsCount F a b h n) (hl : Storable F (a + n * h)) : passes F b h fuel a = .ok n := by
  rw [isCount_iff] at hc
  induction n generalizing fuel a with
  | zero =>
    obtain ⟨fuel, rfl⟩ : ∃ k, fuel = k + 1 := ⟨fuel - 1, by omega⟩
    have := hc.2
    push_cast at this
    unfold passes
    rw [if_neg (by rw [lt_iff]; omega)]
  | succ n ih =>
    obtain ⟨fuel, rfl⟩ : ∃ k, fuel = k + 1 := ⟨fuel - 1, by omega⟩
    have hab : a < b := by simpa using hc.1 0 (by omega)
    have hnn : 0 ≤ (n : Int) * h := by positivity
    have e : a + ((n + 1 : Nat) : Int) * h = a + h + n * h := by push_cast; ring
    rw [e] at hl hc
    have hs : Storable F (a + h) := ⟨by have := ha.1; omega, by have := hl.2; omega⟩
    have := ih fuel (by omega) (a + h) hs ⟨fun k hk => by
      have := hc.1 (k + 1) (by omega)
      push_cast at this
      linarith, hc.2⟩ hl
    unfold passes
    rw [if_pos (lt_iff.2 hab), addAssign_exact hF ha hh hs, Res.bind_ok, this, Res.bind_ok]
    rfl

example : IsCount fixed32 (-65536) 65536 16384 8 ∧ passes fixed32 65536 16384 100 (-65536) = .ok 8 := by
  refine ⟨isCount_iff.2 ⟨fun k hk => by omega, by norm_num⟩, by decide +kernel⟩

/-- C199: on signed storage of at least 32 bits the loop overflows if the value that should end it is not storable. -/
theorem C199_overflow (F : FxTy) (hF : F.Valid) (hw : SignedWide F) (b h : Int) (hh : Storable F h) (n fuel : Nat)
    (hn : n ≤ fuel) (a : Int) (ha : Storable F a) (hc : IsCount F a b h n) (hl : ¬ Storable F (a + n * h)) : passes F b h fuel a = .ub .overflow := by
  rw [isCount_iff] at hc
  induction n generalizing fuel a with
  | zero => exact absurd (by simpa using ha) hl
  | succ n ih =>
    obtain ⟨fuel, rfl⟩ : ∃ k, fuel = k + 1 := ⟨fuel - 1, by omega⟩
    have hab : a < b := by simpa using hc.1 0 (by omega)
    have e : a + ((n + 1 : Nat) : Int) * h = a + h + n * h := by push_cast; ring
    rw [e] at hl hc
    unfold passes
    rw [if_pos (lt_iff.2 hab)]
    by_cases hs : Storable F (a + h)
    · have := ih fuel (by omega) (a + h) hs ⟨fun k hk => by
        have := hc.1 (k + 1) (by omega)
        push_cast at this
        linarith, hc.2⟩ hl
      rw [addAssign_exact hF ha hh hs, Res.bind_ok, this, Res.bind_ub]
    · rw [show addAssign F a h = add F a h from rfl, add_nf hF ha hh, if_pos ⟨hw, hs⟩, Res.bind_ub]

example : passes fixed32 (2 ^ 31 - 1) 65536 40000 (32000 * 65536) = .ub .overflow := by decide +kernel

/-- C199: on unsigned or narrow storage a loop in steps of one never ends if it starts at an integer and no storable integer reaches the bound. -/
theorem C199_endless (F : FxTy) (hF : F.Valid) (hw : ¬ SignedWide F) (b a : Int) (h1 : Storable F (2 ^ F.f)) (ha : Storable F a) (hI : (2 : Int) ^ F.f ∣ a)
    (hb : ∀ x, Storable F x → (2 : Int) ^ F.f ∣ x → x < b) (fuel : Nat) : passes F b (2 ^ F.f) fuel a = .ub .diverges := by
  have hfb : F.f ≤ F.T.bits := by have := hF; unfold FxTy.Valid at this; omega
  induction fuel generalizing a with
  | zero => rfl
  | succ fuel ih =>
    obtain ⟨⟨z, e, hz, hd⟩, -⟩ := C01_modular F hF hw a (2 ^ F.f) ha h1
    unfold passes
    rw [if_pos (lt_iff.2 (hb a ha hI)), show addAssign F a (2 ^ F.f) = add F a (2 ^ F.f) from rfl, e, Res.bind_ok, ih z hz ?_, Res.bind_ub]
    have h2 : (2 : Int) ^ F.f ∣ a + 2 ^ F.f - z := (pow_dvd_pow 2 hfb).trans hd
    have h3 : (2 : Int) ^ F.f ∣ a + 2 ^ F.f := dvd_add hI dvd_rfl
    have := dvd_sub h3 h2
    rwa [sub_sub_cancel] at this

example : ∀ fuel, passes ⟨i16, i32, 8, false⟩ (127 * 256 + 128) (2 ^ 8) fuel 0 = .ub .diverges :=
  C199_endless ⟨i16, i32, 8, false⟩ (by decide) (by decide) _ 0 (by decide) (by decide) (by decide) (by
    rintro x ⟨-, h⟩ ⟨k, rfl⟩
    norm_num [i16, IntTy.hi] at h ⊢
    omega)

/-- C199 as one would expect it for a unit interval: a loop from zero to one in steps of `1 / n` takes `n` passes. -/
def C199_statement : Prop :=
  ∀ (F : FxTy) (n : Nat), F.Valid → F.r = false → 1 ≤ n → n ≤ 2 ^ F.f → Storable F (2 * 2 ^ F.f) → Storable F (n * 2 ^ F.f) →
    ∃ h, div F (2 ^ F.f) (n * 2 ^ F.f) = .ok h ∧ ∀ fuel, n < fuel → passes F (2 ^ F.f) h fuel 0 = .ok n

/-- C199 (what holds instead): the step is rounded down, and the loop takes `n` passes exactly if `n` is a power of two; otherwise it takes more, namely
one more if `n` is not larger than the raw value of the step. -/
theorem C199_unit_partial (F : FxTy) (n : Nat) (hF : F.Valid) (hr : F.r = false) (h1 : 1 ≤ n) (hn : n ≤ 2 ^ F.f) (h2 : Storable F (2 * 2 ^ F.f)) :
    ∃ (h : Int) (m : Nat), div F (2 ^ F.f) (n * 2 ^ F.f) = .ok h ∧ h = 2 ^ F.f / n ∧ (∀ fuel, m < fuel → passes F (2 ^ F.f) h fuel 0 = .ok m) ∧
      (m = n ↔ n ∣ 2 ^ F.f) ∧ n ≤ m ∧ (¬ n ∣ 2 ^ F.f → (n : Int) ≤ h → m = n + 1) := by
  have hP : (0 : Int) < 2 ^ F.f := by positivity
  have hlo : F.T.lo ≤ 0 := by unfold IntTy.lo; split <;> simp
  have st : ∀ x : Int, 0 ≤ x → x ≤ 2 * 2 ^ F.f → Storable F x := fun x a b => ⟨by omega, by have := h2.2; omega⟩
  have hn0 : (0 : Int) < n := by exact_mod_cast h1
  have hnP : (n : Int) ≤ 2 ^ F.f := by exact_mod_cast hn
  have hy : (n : Int) * 2 ^ F.f ≠ 0 := (mul_pos hn0 hP).ne'
  obtain ⟨z, q, e, ht, -, hz⟩ := (C03_div_trunc F hF hr (2 ^ F.f) (n * 2 ^ F.f) (st _ hP.le (by omega))).2 hy
  set P : Int := 2 ^ F.f with hPd
  have hq : q = P / n := by
    have t := trunc_spec F P n hn0.ne'
    have ev : val F P / val F (n * P) = (P : ℚ) / ((n : Int) : ℚ) / 2 ^ F.f := by
      have hPq : (P : ℚ) = 2 ^ F.f := by rw [hPd]; push_cast; rfl
      have : (0 : ℚ) < n := by exact_mod_cast h1
      have : (0 : ℚ) < 2 ^ F.f := by positivity
      unfold val
      push_cast
      rw [hPq]
      field_simp
    rw [ev] at ht
    rw [Int.tdiv_eq_ediv_of_nonneg hP.le] at t
    have hu := ulp_pos F
    have q0 : 0 ≤ (P : ℚ) / ((n : Int) : ℚ) / 2 ^ F.f := by
      have : (0 : ℚ) ≤ (P : ℚ) := by exact_mod_cast hP.le
      positivity
    obtain ⟨-, t2, t3⟩ := t.1 q0
    obtain ⟨-, s2, s3⟩ := ht.1 q0
    have a1 : val F q < val F (P / n + 1) := by rw [val_add, val_one]; linarith
    have a2 : val F (P / n) < val F (q + 1) := by rw [val_add, val_one]; linarith
    rw [val_lt] at a1 a2
    omega
  have d1 : n * (P / n) ≤ P := Int.mul_ediv_self_le hn0.ne'
  have d2 : P < n * (P / n) + n := by have := Int.lt_mul_ediv_self_add (x := P) hn0; exact this
  have hh1 : 1 ≤ P / n := by rw [Int.le_ediv_iff_mul_le hn0]; omega
  have hhP : P / n ≤ P := by nlinarith
  have := hz (by rw [hq]; exact st _ (by omega) (by omega))
  subst this
  subst hq
  generalize hg : P / (n : Int) = h at *
  have hdv : n ∣ 2 ^ F.f ↔ n * h = P := by
    constructor
    · intro hd
      have hd' : (n : Int) ∣ P := by rw [hPd]; exact_mod_cast hd
      rw [← hg, Int.mul_ediv_cancel' hd']
    · intro hd
      have hd' : (n : Int) ∣ P := ⟨h, hd.symm⟩
      rw [hPd] at hd'
      exact_mod_cast hd'
  -- the number of passes
  obtain ⟨m, hm, hmin⟩ : ∃ m : Nat, P ≤ m * h ∧ ∀ k : Nat, k < m → (k : Int) * h < P := by
    have ex : ∃ m : Nat, P ≤ m * h := ⟨P.toNat, by
      rw [Int.toNat_of_nonneg hP.le]; nlinarith⟩
    exact ⟨Nat.find ex, Nat.find_spec ex, fun k hk => not_le.1 (Nat.find_min ex hk)⟩
  have hm0 : 0 < m := by
    rcases Nat.eq_zero_or_pos m with rfl | h
    · push_cast at hm; omega
    · exact h
  have hlast : (m : Int) * h ≤ 2 * P := by
    have := hmin (m - 1) (by omega)
    have e : ((m - 1 : Nat) : Int) = m - 1 := by push_cast [hm0]; rfl
    rw [e, sub_mul] at this
    omega
  have hnm : n ≤ m := by
    by_contra hc
    push Not at hc
    have : (m : Int) + 1 ≤ n := by exact_mod_cast hc
    nlinarith
  refine ⟨h, m, e, rfl, fun fuel hf => C199_count F hF P h (st _ (by omega) (by omega)) (by omega) m fuel hf 0 (st _ le_rfl (by omega))
    (isCount_iff.2 ⟨fun k hk => by simpa using hmin k hk, by simpa using hm⟩) (by rw [zero_add]; exact st _ (by positivity) hlast), ?_, hnm, ?_⟩
  · rw [hdv]
    constructor
    · rintro rfl; omega
    · intro hd
      refine le_antisymm ?_ hnm
      by_contra hc
      push Not at hc
      have := hmin n hc
      omega
  · intro hnd hle
    rw [hdv] at hnd
    have l1 : n + 1 ≤ m := by
      rcases Nat.lt_or_ge n m with h | h
      · exact h
      · have : m = n := le_antisymm h hnm
        subst this; omega
    refine le_antisymm ?_ l1
    by_contra hc
    push Not at hc
    have := hmin (n + 1) hc
    push_cast at this
    rw [add_mul] at this
    omega

example : div fixed32 65536 (8 * 65536) = .ok 8192 ∧ passes fixed32 65536 8192 100 0 = .ok 8 ∧
    div fixed32 65536 (10 * 65536) = .ok 6553 ∧ passes fixed32 65536 6553 100 0 = .ok 11 := by decide +kernel

/-- C199 is false of the code: on `fixed32` the loop from zero to one in steps of a tenth takes eleven passes. -/
theorem C199_false : ¬ C199_statement := by
  intro h
  obtain ⟨s, e, hp⟩ := h fixed32 10 (by decide) rfl (by decide) (by decide) (by decide) (by decide)
  rw [show div fixed32 (2 ^ fixed32.f) ((10 : Nat) * 2 ^ fixed32.f) = .ok 6553 by decide +kernel] at e
  cases e
  have := hp 100 (by decide)
  rw [show passes fixed32 (2 ^ fixed32.f) 6553 100 0 = .ok 11 by decide +kernel] at this
  cases this

end Eirin.Props
