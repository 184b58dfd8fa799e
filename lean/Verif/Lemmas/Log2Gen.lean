import Verif.Lemmas.Log2Real

/-! # The base-2 logarithm on an arbitrary signed layout (helper lemmas). -/

namespace Eirin
open Spec

/-- The layouts on which no shift in `log2` wraps. -/
structure LG (F : FxTy) : Prop where
  sw : SW F
  f32 : F.f ≤ 32
  f3 : F.f + 3 ≤ F.T.bits

namespace LG
variable {F : FxTy} (h : LG F)
include h

theorem f0 : 0 < F.f := h.sw.valid.2.2.2.2.1

theorem inR {n : Int} (h1 : -2 ^ (F.T.bits - 1) ≤ n) (h2 : n < 2 ^ (F.T.bits - 1)) : F.T.InRange n :=
  ⟨by rw [h.sw.lo_eq]; exact h1, by rw [h.sw.hi_eq]; omega⟩

theorem ofR {n : Int} (hn : F.T.InRange n) : -2 ^ (F.T.bits - 1) ≤ n ∧ n < 2 ^ (F.T.bits - 1) := by
  obtain ⟨h1, h2⟩ := hn
  rw [h.sw.lo_eq] at h1; rw [h.sw.hi_eq] at h2
  exact ⟨h1, by omega⟩

/-- Four times the number one is at most the (excluded) upper end of the range. -/
theorem four : 4 * (2 : Int) ^ F.f ≤ 2 ^ (F.T.bits - 1) := by
  have : (2 : Int) ^ (F.f + 2) ≤ 2 ^ (F.T.bits - 1) := pow_le_pow_right₀ (by norm_num) (by have := h.f3; omega)
  rw [pow_add] at this; linarith

theorem ofInt0 : ofInt F 0 = 0 := by
  rw [h.sw.ofInt_ok (by rw [zero_mul]; exact h.sw.zero_in), zero_mul]

theorem two : twoShl F = 2 * 2 ^ F.f := by
  unfold twoShl
  have h2 : F.T.InRange 2 := h.sw.i32_in (by decide)
  have h4 := h.four
  have hp : (0 : Int) < 2 ^ F.f := by positivity
  rw [h.sw.wrap_ok h2, h.sw.p, h.sw.wrap_ok (h.inR (by omega) (by omega))]

theorem shl_one {x : Int} (h0 : 0 < x) (hlt : x < 2 ^ F.f) : shl F.T x 1 = .ok (x * 2) ∧ F.T.InRange (x * 2) := by
  have h4 := h.four
  have hx2 : F.T.InRange (x * 2) := h.inR (by omega) (by omega)
  refine ⟨?_, hx2⟩
  unfold shl
  rw [h.sw.prom, if_pos (by have := h.f3; omega), pow_one, h.sw.wrap_ok hx2]

omit h in
theorem lt_of_pow {x : Int} {j : Nat} (hx : 0 < x) (h1 : x * 2 ^ (j + 1) < 2 * 2 ^ F.f) : x < 2 ^ F.f := by
  have hj : (1 : Int) ≤ 2 ^ j := one_le_pow₀ (by norm_num)
  rw [pow_succ] at h1; nlinarith

theorem up {x y : Int} (j : Nat) (hx : 0 < x) : ∀ fuel, j < fuel → x * 2 ^ j < 2 * 2 ^ F.f → 2 ^ F.f ≤ x * 2 ^ j →
    F.T.InRange y → F.T.InRange (y - j * 2 ^ F.f) → log2Up F fuel x y = .ok (x * 2 ^ j, y - j * 2 ^ F.f) := by
  induction j generalizing x y with
  | zero =>
    intro fuel hf h1 h2 _ _
    obtain ⟨m, rfl⟩ : ∃ m, fuel = m + 1 := ⟨fuel - 1, by omega⟩
    rw [log2Up, h.sw.one_eq, if_neg (by simpa using h2)]
    simp
  | succ j ih =>
    intro fuel hf h1 h2 hy hy'
    obtain ⟨m, rfl⟩ : ∃ m, fuel = m + 1 := ⟨fuel - 1, by omega⟩
    have hp : (0 : Int) < 2 ^ F.f := by positivity
    have hlt := lt_of_pow (F := F) hx h1
    obtain ⟨hs, hx2⟩ := h.shl_one hx hlt
    have hy1 : F.T.InRange (y - 2 ^ F.f) := by
      obtain ⟨a, b⟩ := hy; obtain ⟨c, d⟩ := hy'
      constructor
      · push_cast at c
        have : (0 : Int) ≤ j * 2 ^ F.f := by positivity
        linarith
      · omega
    rw [log2Up, h.sw.one_eq, if_pos hlt, hs, Res.bind_ok, h.sw.arith_ok hy1, Res.bind_ok, h.sw.wrap_ok hx2, h.sw.wrap_ok hy1]
    have e1 : x * 2 ^ (j + 1) = x * 2 * 2 ^ j := by rw [pow_succ]; ring
    have e2 : y - ((j + 1 : Nat) : Int) * 2 ^ F.f = y - 2 ^ F.f - j * 2 ^ F.f := by push_cast; ring
    rw [e1, e2]
    rw [e1] at h1 h2
    rw [e2] at hy'
    exact ih (by omega) m (by omega) h1 h2 hy1 hy'

/-- The first loop overflows when the integral part of the logarithm does not fit. -/
theorem up_ub {x y : Int} (j : Nat) (hx : 0 < x) : ∀ fuel, j < fuel → x * 2 ^ j < 2 * 2 ^ F.f →
    F.T.InRange y → ¬ F.T.InRange (y - j * 2 ^ F.f) → log2Up F fuel x y = .ub .overflow := by
  induction j generalizing x y with
  | zero => intro fuel _ _ hy hn; simp at hn; exact absurd hy hn
  | succ j ih =>
    intro fuel hf h1 hy hn
    obtain ⟨m, rfl⟩ : ∃ m, fuel = m + 1 := ⟨fuel - 1, by omega⟩
    have hlt := lt_of_pow (F := F) hx h1
    obtain ⟨hs, hx2⟩ := h.shl_one hx hlt
    rw [log2Up, h.sw.one_eq, if_pos hlt, hs, Res.bind_ok]
    by_cases hy1 : F.T.InRange (y - 2 ^ F.f)
    · rw [h.sw.arith_ok hy1, Res.bind_ok, h.sw.wrap_ok hx2, h.sw.wrap_ok hy1]
      have e1 : x * 2 ^ (j + 1) = x * 2 * 2 ^ j := by rw [pow_succ]; ring
      have e2 : y - ((j + 1 : Nat) : Int) * 2 ^ F.f = y - 2 ^ F.f - j * 2 ^ F.f := by push_cast; ring
      rw [e1] at h1; rw [e2] at hn
      exact ih (by omega) m (by omega) h1 hy1 hn
    · rw [h.sw.arith_ub hy1, Res.bind_ub]

theorem up_ge {x y : Int} {fuel : Nat} (hx : 2 ^ F.f ≤ x) (hf : 0 < fuel) : log2Up F fuel x y = .ok (x, y) := by
  obtain ⟨m, rfl⟩ : ∃ m, fuel = m + 1 := ⟨fuel - 1, by omega⟩
  rw [log2Up, h.sw.one_eq, if_neg (by omega)]

theorem down {x y : Int} (j : Nat) (hx : F.T.InRange x) (h0 : 0 ≤ x) : ∀ fuel, j < fuel → 2 ^ F.f ≤ x / 2 ^ j → x / 2 ^ j < 2 * 2 ^ F.f →
    F.T.InRange y → F.T.InRange (y + j * 2 ^ F.f) → log2Down F fuel x y = .ok (x / 2 ^ j, y + j * 2 ^ F.f) := by
  induction j generalizing x y with
  | zero =>
    intro fuel hf h1 h2 _ _
    obtain ⟨m, rfl⟩ : ∃ m, fuel = m + 1 := ⟨fuel - 1, by omega⟩
    simp only [pow_zero, Int.ediv_one] at h1 h2
    rw [log2Down, h.two, if_neg (by omega)]
    simp
  | succ j ih =>
    intro fuel hf h1 h2 hy hy'
    obtain ⟨m, rfl⟩ : ∃ m, fuel = m + 1 := ⟨fuel - 1, by omega⟩
    have e1 : x / 2 ^ (j + 1) = x / 2 / 2 ^ j := by rw [pow_succ, mul_comm, Int.ediv_ediv_of_nonneg (by norm_num)]
    have hge : x ≥ 2 * 2 ^ F.f := by
      rw [e1] at h1
      have : x / 2 / 2 ^ j ≤ x / 2 := Int.ediv_le_self _ (by omega)
      omega
    have hx2 : F.T.InRange (x / 2) := by
      obtain ⟨a, b⟩ := hx; obtain ⟨c, d⟩ := h.sw.zero_in; constructor <;> omega
    have hy1 : F.T.InRange (y + 2 ^ F.f) := by
      obtain ⟨a, b⟩ := hy; obtain ⟨c, d⟩ := hy'
      have hp : (0 : Int) < 2 ^ F.f := by positivity
      constructor
      · omega
      · push_cast at d
        have : (0 : Int) ≤ j * 2 ^ F.f := by positivity
        linarith
    rw [log2Down, h.two, if_pos hge, h.sw.one_eq, h.sw.arith_ok hy1, Res.bind_ok, h.sw.wrap_ok hx2, h.sw.wrap_ok hy1]
    have e2 : y + ((j + 1 : Nat) : Int) * 2 ^ F.f = y + 2 ^ F.f + j * 2 ^ F.f := by push_cast; ring
    rw [e1, e2]
    rw [e1] at h1 h2
    rw [e2] at hy'
    exact ih hx2 (by omega) m (by omega) h1 h2 hy1 hy'

theorem ibits : 2 * F.T.bits ≤ F.I.bits := by
  obtain ⟨a, b, c, _⟩ := h.sw.valid
  omega

theorem frac (n : Nat) {z y b : Int} (h1 : 2 ^ F.f ≤ z) (h2 : z < 2 * 2 ^ F.f) (hb : b = 2 ^ n / 2)
    (hy : F.T.InRange y) (hy2 : F.T.InRange (y + 2 ^ n)) : log2Frac F n z y b = .ok (y + fracOut F.f n z) := by
  induction n generalizing z y b with
  | zero => rw [log2Frac, fracOut]; simp
  | succ n ih =>
    have hb' : b = 2 ^ n := by rw [hb, pow_succ]; omega
    have hp : (0 : Int) < 2 ^ F.f := by positivity
    have hn : (0 : Int) < 2 ^ n := by positivity
    obtain ⟨n1, n2⟩ := next_mant h1 h2
    have hib := h.ibits
    have h32 := h.sw.sw.2
    have hIp : F.I.promote = F.I := by unfold IntTy.promote; rw [if_neg (by omega)]
    have hb0 : 0 < F.I.bits := by omega
    have hsg : F.I.signed = true := by rw [h.sw.valid.2.2.2.1]; exact h.sw.sg
    have big : ∀ v : Int, 0 ≤ v → v < 4 * 2 ^ F.f * 2 ^ F.f → F.I.InRange v := by
      intro v a b
      have hb : 4 * (2 : Int) ^ F.f * 2 ^ F.f ≤ 2 ^ (F.I.bits - 1) := by
        have : (4 : Int) * 2 ^ F.f * 2 ^ F.f = 2 ^ (2 + F.f + F.f) := by rw [pow_add, pow_add]; norm_num
        rw [this]
        exact pow_le_pow_right₀ (by norm_num) (by have := h.f3; omega)
      constructor
      · unfold IntTy.lo; rw [hsg, if_pos rfl]
        have : (0 : Int) < 2 ^ (F.I.bits - 1) := by positivity
        omega
      · unfold IntTy.hi; rw [hsg, if_pos rfl]; omega
    have hsq : F.I.InRange (z * z) := big _ (by nlinarith) (by nlinarith)
    have hq : F.I.InRange (z * z / 2 ^ F.f) := big _ (by omega) (by nlinarith)
    have hsh : shr F.I (z * z) F.f = .ok (z * z / 2 ^ F.f) := by
      unfold shr; rw [hIp, if_pos (by have := h.f3; omega)]
    rw [log2Frac, hIp, arith_of_inRange hb0 hsq, Res.bind_ok, hsh, Res.bind_ok]
    simp only [IntTy.wrap_of_inRange hb0 hq, h.two]
    rw [fracOut]
    rw [pow_succ] at hy2
    have hyb : F.T.InRange (y + 2 ^ n) := by
      obtain ⟨a, b⟩ := hy; obtain ⟨c, d⟩ := hy2; constructor <;> omega
    by_cases hc : 2 * 2 ^ F.f ≤ z * z / 2 ^ F.f
    · rw [if_pos hc, if_pos hc, hb', h.sw.arith_ok hyb, Res.bind_ok, h.sw.wrap_ok hyb]
      rw [ih (by omega) (by omega) rfl hyb (by rw [add_assoc]; convert hy2 using 2; ring), add_assoc]
    · rw [if_neg hc, if_neg hc]
      rw [ih n1 (by omega) (by rw [hb']) hy hyb]

theorem start : shl u32 1 (F.f - 1) = .ok (2 ^ (F.f - 1)) ∧ F.T.InRange (2 ^ (F.f - 1)) ∧ (2 : Int) ^ F.f = 2 * 2 ^ (F.f - 1) := by
  have hf := h.f32
  have hf0 := h.f0
  have e : (2 : Int) ^ F.f = 2 * 2 ^ (F.f - 1) := by rw [← pow_succ']; congr 1; omega
  have h4 := h.four
  have hp : (0 : Int) < 2 ^ (F.f - 1) := by positivity
  refine ⟨?_, h.inR (by omega) (by omega), e⟩
  have hlt : (2 : Int) ^ (F.f - 1) ≤ 2 ^ 31 := pow_le_pow_right₀ (by norm_num) (by omega)
  unfold shl
  rw [if_pos (by show F.f - 1 < 32; omega), one_mul]
  congr 1
  exact IntTy.wrap_of_inRange (t := u32) (by decide) ⟨by rw [show u32.lo = 0 by rfl]; omega, by rw [show u32.hi = 2 ^ 32 - 1 by rfl]; omega⟩

theorem log2_neg {x : Int} (h0 : x ≤ 0) : log2 F x = .throw .domainError := by
  unfold log2
  rw [h.start.1, Res.bind_ok]
  simp only
  rw [if_pos (by rw [h.ofInt0, le_iff]; exact h0)]

/-- The value computed by `log2`: integral part `k` by normalisation, fraction by squaring; undefined exactly when `k` does
not fit. -/
theorem log2_raw {x : Int} (hx : Storable F x) (h0 : 0 < x) :
    ∃ m k, Norm F.f x m k ∧ -F.f ≤ k ∧ (2 : Int) ^ (k + F.f).toNat ≤ x ∧ x < 2 * 2 ^ (k + F.f).toNat ∧
      (F.T.lo ≤ k * 2 ^ F.f → log2 F x = .ok (k * 2 ^ F.f + fracOut F.f F.f m) ∧ Storable F (k * 2 ^ F.f + fracOut F.f F.f m)) ∧
      (k * 2 ^ F.f < F.T.lo → log2 F x = .ub .overflow) := by
  obtain ⟨m, k, hn, hk, e1, e2⟩ := norm_exists F.f h0
  have hxr := (h.ofR hx).2
  have hf3 := h.f3
  have hp : (0 : Int) < 2 ^ F.f := by positivity
  obtain ⟨hb, hbT, hpf⟩ := h.start
  have h4 := h.four
  -- the integral part is below the number of integral bits
  have hk2 : k + F.f < (F.T.bits : Int) - 1 := by
    by_contra hc
    have : (2 : Int) ^ (F.T.bits - 1) ≤ 2 ^ (k + F.f).toNat := pow_le_pow_right₀ (by norm_num) (by omega)
    omega
  have hup : (k + 1) * 2 ^ F.f < 2 ^ (F.T.bits - 1) := by
    have hs : (2 : Int) ^ (F.T.bits - 1) = 2 ^ (F.T.bits - 1 - F.f) * 2 ^ F.f := by rw [← pow_add]; congr 1; omega
    have hlt : ((F.T.bits - 1 - F.f : Nat) : Int) < 2 ^ (F.T.bits - 1 - F.f) := by exact_mod_cast Nat.lt_two_pow_self
    rw [hs]
    exact mul_lt_mul_of_pos_right (by omega) hp
  have hbits : (1 : Int) ≤ F.T.bits := by have := h.sw.tpos; omega
  refine ⟨m, k, hn, hk, e1, e2, ?_, ?_⟩
  · intro hlo
    have hlo' : -2 ^ (F.T.bits - 1) ≤ k * 2 ^ F.f := by rw [← h.sw.lo_eq]; exact hlo
    have ek : (k + 1) * 2 ^ F.f = k * 2 ^ F.f + 2 ^ F.f := by ring
    have rk : F.T.InRange (k * 2 ^ F.f) := h.inR hlo' (by omega)
    have rk1 : F.T.InRange (k * 2 ^ F.f + 2 ^ F.f) := h.inR (by omega) (by omega)
    have hres : F.T.InRange (k * 2 ^ F.f + fracOut F.f F.f m) := by
      have a := fracOut_nonneg F.f F.f m; have b := fracOut_lt F.f F.f m
      exact h.inR (by omega) (by omega)
    refine ⟨?_, hres⟩
    unfold log2
    rw [hb, Res.bind_ok]
    simp only [h.sw.wrap_ok hbT]
    rw [if_neg (by rw [h.ofInt0, le_iff]; omega)]
    have hfr : log2Frac F F.f m (k * 2 ^ F.f) (2 ^ (F.f - 1)) = .ok (k * 2 ^ F.f + fracOut F.f F.f m) :=
      h.frac F.f hn.lo hn.hi (by rw [hpf]; omega) rk rk1
    have hlo := hn.lo; have hhi := hn.hi
    by_cases hneg : k < 0
    · obtain ⟨j, hj⟩ : ∃ j : Nat, k = -j := ⟨(-k).toNat, by omega⟩
      have em : m = x * 2 ^ j := by rw [hn.neg hneg]; congr 2; omega
      rw [h.up (y := 0) j h0 (F.T.bits + 1) (by omega) (by rw [← em]; exact hhi) (by rw [← em]; exact hlo) h.sw.zero_in
        (by rw [zero_sub, ← neg_mul, ← hj]; exact rk), Res.bind_ok]
      simp only
      rw [← em, zero_sub, ← neg_mul, ← hj]
      have hmT : F.T.InRange m := h.inR (by omega) (by omega)
      have := h.down (x := m) (y := k * 2 ^ F.f) 0 hmT (by omega) (F.T.bits + 1) (by omega) (by simpa using hlo) (by simpa using hhi)
        rk (by simpa using rk)
      simp at this
      rw [this, Res.bind_ok]
      simp only
      rw [hfr, Res.bind_ok, h.sw.from_ok hres]; rfl
    · obtain ⟨j, hj⟩ : ∃ j : Nat, k = j := ⟨k.toNat, by omega⟩
      have em : m = x / 2 ^ j := by rw [hn.pos (by omega)]; congr 2; omega
      have hxge : 2 ^ F.f ≤ x := le_trans hlo (by rw [em]; exact Int.ediv_le_self _ h0.le)
      rw [h.up_ge hxge (by omega), Res.bind_ok]
      simp only
      rw [h.down (x := x) (y := 0) j hx h0.le (F.T.bits + 1) (by omega) (by rw [← em]; exact hlo) (by rw [← em]; exact hhi)
        h.sw.zero_in (by rw [zero_add, ← hj]; exact rk), Res.bind_ok]
      simp only
      rw [← em, zero_add, ← hj, hfr, Res.bind_ok, h.sw.from_ok hres]; rfl
  · intro hlt
    have hneg : k < 0 := by
      by_contra hc
      have : 0 ≤ k * 2 ^ F.f := mul_nonneg (by omega) hp.le
      have := h.sw.zero_in.1
      omega
    obtain ⟨j, hj⟩ : ∃ j : Nat, k = -j := ⟨(-k).toNat, by omega⟩
    have em : m = x * 2 ^ j := by rw [hn.neg hneg]; congr 2; omega
    have hhi := hn.hi
    unfold log2
    rw [hb, Res.bind_ok]
    simp only
    rw [if_neg (by rw [h.ofInt0, le_iff]; omega),
      h.up_ub (y := 0) j h0 (F.T.bits + 1) (by omega) (by rw [← em]; exact hhi) h.sw.zero_in
        (by rw [zero_sub, ← neg_mul, ← hj]; intro hc; exact absurd hc.1 (by omega)), Res.bind_ub]

end LG

end Eirin
