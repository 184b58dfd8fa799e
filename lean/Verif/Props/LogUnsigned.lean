import Verif.Props.SqrtUnsigned
import Verif.Props.LogAll

/-! # C140: the base-2 logarithm on unsigned layouts -/

namespace Eirin.Props
open Eirin Spec

theorem lu_base {B f : Nat} (hB : UB B) (h0 : 0 < f) (h1 : f + 2 ≤ B) :
    (LU B f).Valid ∧ ofInt (LU B f) 0 = 0 ∧ (LU B f).P = (LU B f).T ∧ (LU B f).T.promote = (LU B f).T ∧
      oneShl (LU B f) = 2 ^ f ∧ twoShl (LU B f) = 2 * 2 ^ f ∧ (LU B f).I.promote = (LU B f).I := by
  have a : ∀ f < 63, 0 < f → (LU 64 f).Valid ∧ ofInt (LU 64 f) 0 = 0 ∧ (LU 64 f).P = (LU 64 f).T ∧ (LU 64 f).T.promote = (LU 64 f).T ∧
      oneShl (LU 64 f) = 2 ^ f ∧ twoShl (LU 64 f) = 2 * 2 ^ f ∧ (LU 64 f).I.promote = (LU 64 f).I := by decide +kernel
  have b : ∀ f < 31, 0 < f → (LU 32 f).Valid ∧ ofInt (LU 32 f) 0 = 0 ∧ (LU 32 f).P = (LU 32 f).T ∧ (LU 32 f).T.promote = (LU 32 f).T ∧
      oneShl (LU 32 f) = 2 ^ f ∧ twoShl (LU 32 f) = 2 * 2 ^ f ∧ (LU 32 f).I.promote = (LU 32 f).I := by decide +kernel
  rcases hB with rfl | rfl
  · exact b f (by omega) h0
  · exact a f (by omega) h0

/-- Wrapping an operand first does not change a wrapped sum. -/
theorem wrap_add_left (t : IntTy) (a b : Int) : t.wrap (t.wrap a + b) = t.wrap (a + b) := by
  apply IntTy.wrap_congr
  have := IntTy.wrap_dvd t a
  rw [← Int.dvd_neg] at this
  have e : -(a - t.wrap a) = t.wrap a + b - (a + b) := by ring
  rwa [e] at this

theorem arith_u {B : Nat} (n : Int) : arith ⟨B, false⟩ n = .ok ((⟨B, false⟩ : IntTy).wrap n) := rfl

section
variable {B f : Nat} (hB : UB B) (h0 : 0 < f) (h1 : f + 2 ≤ B)
include hB h0 h1

omit hB h0 in
theorem two_le : 4 * (2 : Int) ^ f ≤ 2 ^ B := by
  have : (2 : Int) ^ (f + 2) ≤ 2 ^ B := pow_le_pow_right₀ (by norm_num) h1
  rw [pow_add] at this; linarith

theorem up_u {x y : Int} (j : Nat) (hx : 0 < x) : ∀ fuel, j < fuel → x * 2 ^ j < 2 * 2 ^ f → 2 ^ f ≤ x * 2 ^ j →
    log2Up (LU B f) fuel x ((LU B f).T.wrap y) = .ok (x * 2 ^ j, (LU B f).T.wrap (y - j * 2 ^ f)) := by
  obtain ⟨hv, _, hP, hT, h1s, _⟩ := lu_base hB h0 h1
  have h4 := two_le h1
  have hb : 0 < (LU B f).T.bits := hv.tpos
  induction j generalizing x y with
  | zero =>
    intro fuel hf a b
    obtain ⟨m, rfl⟩ : ∃ m, fuel = m + 1 := ⟨fuel - 1, by omega⟩
    rw [log2Up, h1s, if_neg (by simpa using b)]
    simp
  | succ j ih =>
    intro fuel hf a b
    obtain ⟨m, rfl⟩ : ∃ m, fuel = m + 1 := ⟨fuel - 1, by omega⟩
    have hlt : x < 2 ^ f := LG.lt_of_pow (F := LU B f) hx a
    have hx2 : (LU B f).T.InRange (x * 2) := lu_in.2 ⟨by omega, by omega⟩
    have hs : shl (LU B f).T x 1 = .ok (x * 2) := by
      unfold shl
      rw [hT, if_pos (by show 1 < B; omega), pow_one, IntTy.wrap_of_inRange hb hx2]
    rw [log2Up, h1s, if_pos hlt, hs, Res.bind_ok, hP, arith_u, Res.bind_ok, IntTy.wrap_of_inRange hb hx2, IntTy.wrap_wrap]
    have e1 : x * 2 ^ (j + 1) = x * 2 * 2 ^ j := by rw [pow_succ]; ring
    have e2 : y - ((j + 1 : Nat) : Int) * 2 ^ f = y - 2 ^ f - j * 2 ^ f := by push_cast; ring
    rw [e1, e2, sub_eq_add_neg _ ((2 : Int) ^ f), wrap_add_left, ← sub_eq_add_neg]
    rw [e1] at a b
    exact ih (by omega) m (by omega) a b

theorem up_ge_u {x y : Int} {fuel : Nat} (hx : 2 ^ f ≤ x) (hf : 0 < fuel) : log2Up (LU B f) fuel x y = .ok (x, y) := by
  obtain ⟨_, _, _, _, h1s, _⟩ := lu_base hB h0 h1
  obtain ⟨m, rfl⟩ : ∃ m, fuel = m + 1 := ⟨fuel - 1, by omega⟩
  rw [log2Up, h1s, if_neg (by omega)]

theorem down_u {x y : Int} (j : Nat) (hx0 : 0 ≤ x) (hx1 : x < 2 ^ B) : ∀ fuel, j < fuel → 2 ^ f ≤ x / 2 ^ j → x / 2 ^ j < 2 * 2 ^ f →
    log2Down (LU B f) fuel x ((LU B f).T.wrap y) = .ok (x / 2 ^ j, (LU B f).T.wrap (y + j * 2 ^ f)) := by
  obtain ⟨hv, _, hP, hT, h1s, h2s, _⟩ := lu_base hB h0 h1
  have hb : 0 < (LU B f).T.bits := hv.tpos
  induction j generalizing x y with
  | zero =>
    intro fuel hf a b
    obtain ⟨m, rfl⟩ : ∃ m, fuel = m + 1 := ⟨fuel - 1, by omega⟩
    simp only [pow_zero, Int.ediv_one] at a b
    rw [log2Down, h2s, if_neg (by omega)]
    simp
  | succ j ih =>
    intro fuel hf a b
    obtain ⟨m, rfl⟩ : ∃ m, fuel = m + 1 := ⟨fuel - 1, by omega⟩
    have e1 : x / 2 ^ (j + 1) = x / 2 / 2 ^ j := by rw [pow_succ, mul_comm, Int.ediv_ediv_of_nonneg (by norm_num)]
    have hge : x ≥ 2 * 2 ^ f := by
      rw [e1] at a
      have : x / 2 / 2 ^ j ≤ x / 2 := Int.ediv_le_self _ (by omega)
      omega
    have hx2 : (LU B f).T.InRange (x / 2) := lu_in.2 ⟨by omega, by omega⟩
    rw [log2Down, h2s, if_pos hge, h1s, hP, arith_u, Res.bind_ok, IntTy.wrap_of_inRange hb hx2, IntTy.wrap_wrap, wrap_add_left]
    have e2 : y + ((j + 1 : Nat) : Int) * 2 ^ f = y + 2 ^ f + j * 2 ^ f := by push_cast; ring
    rw [e1, e2]
    rw [e1] at a b
    exact ih (by omega) (by omega) m (by omega) a b

theorem frac_u (n : Nat) {z y b : Int} (a1 : 2 ^ f ≤ z) (a2 : z < 2 * 2 ^ f) (hbb : b = 2 ^ n / 2) :
    log2Frac (LU B f) n z ((LU B f).T.wrap y) b = .ok ((LU B f).T.wrap (y + fracOut f n z)) := by
  obtain ⟨hv, _, hP, hT, h1s, h2s, hI⟩ := lu_base hB h0 h1
  have h4 := two_le h1
  induction n generalizing z y b with
  | zero => rw [log2Frac, fracOut]; simp
  | succ n ih =>
    have hb' : b = 2 ^ n := by rw [hbb, pow_succ]; omega
    have hp : (0 : Int) < 2 ^ f := by positivity
    obtain ⟨n1, n2⟩ := next_mant a1 a2
    have hb0 : 0 < (LU B f).I.bits := by show 0 < 2 * B; omega
    have big : ∀ v : Int, 0 ≤ v → v < 4 * 2 ^ f * 2 ^ f → (LU B f).I.InRange v := by
      intro v a b
      have hb : 4 * (2 : Int) ^ f * 2 ^ f ≤ 2 ^ (2 * B) := by
        have : (4 : Int) * 2 ^ f * 2 ^ f = 2 ^ (2 + f + f) := by rw [pow_add, pow_add]; norm_num
        rw [this]
        exact pow_le_pow_right₀ (by norm_num) (by omega)
      show (0 : Int) ≤ v ∧ v ≤ 2 ^ (2 * B) - 1
      omega
    have hsq : (LU B f).I.InRange (z * z) := big _ (by nlinarith) (by nlinarith)
    have hq : (LU B f).I.InRange (z * z / 2 ^ f) := big _ (by omega) (by nlinarith)
    have hsh : shr (LU B f).I (z * z) (LU B f).f = .ok (z * z / 2 ^ f) := by
      unfold shr; rw [hI, if_pos (by show f < 2 * B; omega)]
    rw [log2Frac, hI, arith_of_inRange hb0 hsq, Res.bind_ok, hsh, Res.bind_ok]
    simp only [IntTy.wrap_of_inRange hb0 hq, h2s]
    rw [fracOut]
    by_cases hc : 2 * 2 ^ f ≤ z * z / 2 ^ f
    · rw [if_pos hc, if_pos hc, hb', hP, arith_u, Res.bind_ok, IntTy.wrap_wrap, wrap_add_left]
      rw [ih (by omega) (by omega) rfl, add_assoc]
    · rw [if_neg hc, if_neg hc]
      rw [ih n1 (by omega) (by rw [hb'])]

/-- What `log2` computes: the exact result of the algorithm, reduced modulo `2 ^ B`. -/
theorem log2_u (hf : f ≤ 32) {x : Int} (hx0 : 0 < x) (hx1 : x < 2 ^ B) :
    ∃ m k, Norm f x m k ∧ -f ≤ k ∧ (2 : Int) ^ (k + f).toNat ≤ x ∧ x < 2 * 2 ^ (k + f).toNat ∧
      log2 (LU B f) x = .ok ((LU B f).T.wrap (k * 2 ^ f + fracOut f f m)) := by
  obtain ⟨hv, hz, hP, hT, h1s, h2s, hI⟩ := lu_base hB h0 h1
  have h4 := two_le h1
  have hb : 0 < (LU B f).T.bits := hv.tpos
  have hp : (0 : Int) < 2 ^ f := by positivity
  obtain ⟨m, k, hn, hk, e1, e2⟩ := norm_exists f hx0
  refine ⟨m, k, hn, hk, e1, e2, ?_⟩
  have hpf : (2 : Int) ^ f = 2 * 2 ^ (f - 1) := by rw [← pow_succ']; congr 1; omega
  have hp1 : (0 : Int) < 2 ^ (f - 1) := by positivity
  have hsl : shl u32 1 ((LU B f).f - 1) = .ok (2 ^ (f - 1)) := by
    show shl u32 1 (f - 1) = _
    have hlt : (2 : Int) ^ (f - 1) ≤ 2 ^ 31 := pow_le_pow_right₀ (by norm_num) (by omega)
    unfold shl
    rw [if_pos (by show f - 1 < 32; omega), one_mul]
    rw [show u32.promote = u32 by rfl, IntTy.wrap_of_inRange (t := u32) (by decide)
      ⟨by rw [show u32.lo = 0 by rfl]; omega, by rw [show u32.hi = 2 ^ 32 - 1 by rfl]; omega⟩]
  have hbT : (LU B f).T.InRange (2 ^ (f - 1)) := lu_in.2 ⟨by omega, by omega⟩
  have hw0 : (0 : Int) = (LU B f).T.wrap 0 := (IntTy.wrap_of_inRange hb (lu_in.2 ⟨by omega, by omega⟩)).symm
  have hk2 : k + f < B := by
    by_contra hc
    have : (2 : Int) ^ B ≤ 2 ^ (k + f).toNat := pow_le_pow_right₀ (by norm_num) (by omega)
    omega
  unfold log2
  rw [hsl, Res.bind_ok]
  simp only [IntTy.wrap_of_inRange hb hbT]
  rw [if_neg (by rw [hz, le_iff]; omega)]
  have hfr : log2Frac (LU B f) f m ((LU B f).T.wrap (k * 2 ^ f)) (2 ^ (f - 1)) = .ok ((LU B f).T.wrap (k * 2 ^ f + fracOut f f m)) :=
    frac_u hB h0 h1 f hn.lo hn.hi (by rw [hpf]; omega)
  have hfin : fromInternal (LU B f) ((LU B f).T.wrap (k * 2 ^ f + fracOut f f m)) = (LU B f).T.wrap (k * 2 ^ f + fracOut f f m) := by
    unfold fromInternal; rw [IntTy.wrap_wrap]
  have hlo := hn.lo; have hhi := hn.hi
  by_cases hneg : k < 0
  · obtain ⟨j, hj⟩ : ∃ j : Nat, k = -j := ⟨(-k).toNat, by omega⟩
    have em : m = x * 2 ^ j := by rw [hn.neg hneg]; congr 2; omega
    have := up_u hB h0 h1 (y := 0) j hx0 (B + 1) (by omega) (by rw [← em]; exact hhi) (by rw [← em]; exact hlo)
    rw [← hw0, zero_sub, ← neg_mul, ← hj, ← em] at this
    show (log2Up (LU B f) (B + 1) x 0).bind _ = _
    rw [this]
    show (log2Down (LU B f) (B + 1) m ((LU B f).T.wrap (k * 2 ^ f))).bind _ = _
    have := down_u hB h0 h1 (x := m) (y := k * 2 ^ f) 0 (by omega) (by omega) (B + 1) (by omega) (by simpa using hlo) (by simpa using hhi)
    simp only [pow_zero, Int.ediv_one, Nat.cast_zero, zero_mul, add_zero] at this
    rw [this]
    show (log2Frac (LU B f) f m ((LU B f).T.wrap (k * 2 ^ f)) (2 ^ (f - 1))).bind _ = _
    rw [hfr]
    show Res.ok _ = _
    rw [hfin]
  · obtain ⟨j, hj⟩ : ∃ j : Nat, k = j := ⟨k.toNat, by omega⟩
    have em : m = x / 2 ^ j := by rw [hn.pos (by omega)]; congr 2; omega
    have hxge : 2 ^ f ≤ x := le_trans hlo (by rw [em]; exact Int.ediv_le_self _ hx0.le)
    show (log2Up (LU B f) (B + 1) x 0).bind _ = _
    rw [up_ge_u hB h0 h1 hxge (by omega)]
    show (log2Down (LU B f) (B + 1) x 0).bind _ = _
    have := down_u hB h0 h1 (x := x) (y := 0) j hx0.le hx1 (B + 1) (by omega) (by rw [← em]; exact hlo) (by rw [← em]; exact hhi)
    rw [← hw0, zero_add, ← hj, ← em] at this
    rw [this]
    show (log2Frac (LU B f) f m ((LU B f).T.wrap (k * 2 ^ f)) (2 ^ (f - 1))).bind _ = _
    rw [hfr]
    show Res.ok _ = _
    rw [hfin]

end

theorem lu_wrap {B f : Nat} {n : Int} : (LU B f).T.wrap n = n % 2 ^ B := by
  show n % ((2 ^ B : Nat) : Int) = _
  push_cast; rfl

/-- C140 as stated: the logarithm of a positive number is returned to four units, or an exception reports that the type cannot hold it. -/
def C140_statement : Prop := ∀ B f : Nat, UB B → 0 < f → f < B → ∀ x, Storable (LU B f) x →
  (val (LU B f) x = 0 → log2 (LU B f) x = .throw .domainError) ∧
  (0 < val (LU B f) x → (∃ r, log2 (LU B f) x = .ok r ∧ LogNear (LU B f) x r) ∨ ∃ e, log2 (LU B f) x = .throw e)

/-- The logarithm of one half comes out as a number near the top of the range. -/
theorem C140_false : ¬ C140_statement := by
  intro h
  have e : log2 (LU 32 16) 32768 = .ok 4294901760 := by decide +kernel
  rcases (h 32 16 (Or.inl rfl) (by norm_num) (by norm_num) 32768 (by decide +kernel)).2 (by norm_num [val]) with ⟨r, h1, h2, _⟩ | ⟨x, hx⟩
  · rw [h1] at e; cases e
    have : Real.logb 2 (((val (LU 32 16) 32768 : ℚ)) : ℝ) < 0 := by
      apply Real.logb_neg (by norm_num) <;> norm_num [val]
    norm_num [val] at h2 this
    linarith
  · rw [hx] at e; cases e

/-- C140 (zero). -/
theorem C140_zero_partial (B f : Nat) (hB : UB B) (h0 : 0 < f) (h1 : f + 2 ≤ B) (hf : f ≤ 32) : log2 (LU B f) 0 = .throw .domainError := by
  obtain ⟨_, hz, _⟩ := lu_base hB h0 h1
  unfold log2
  have : shl u32 1 ((LU B f).f - 1) = .ok (u32.wrap (1 * 2 ^ (f - 1))) := by
    unfold shl; rw [if_pos (by show f - 1 < 32; omega)]; rfl
  rw [this, Res.bind_ok]
  simp only
  rw [if_pos (by rw [hz, le_iff])]

/-- C140 (arguments of at least one): on every layout with at least two integer bits and at most 32 fraction bits. -/
theorem C140_large_partial (B f : Nat) (hB : UB B) (h0 : 0 < f) (h1 : f + 2 ≤ B) (hf : f ≤ 32) (x : Int) (hx : Storable (LU B f) x)
    (hx1 : 1 ≤ val (LU B f) x) : ∃ r, log2 (LU B f) x = .ok r ∧ Storable (LU B f) r ∧ LogNear (LU B f) x r := by
  have hp : (0 : Int) < 2 ^ f := by positivity
  have hpq : (0 : ℚ) < 2 ^ f := by positivity
  obtain ⟨x0, xB⟩ := lu_in.1 hx
  have hge : (2 : Int) ^ f ≤ x := by
    have : (1 : ℚ) ≤ x / 2 ^ f := hx1
    rw [le_div_iff₀ hpq, one_mul] at this
    exact_mod_cast this
  obtain ⟨m, k, hn, hk, e1, e2, hl⟩ := log2_u hB h0 h1 hf (by omega) xB
  have hk0 : 0 ≤ k := by
    by_contra hc
    have : (2 : Int) * 2 ^ (k + f).toNat ≤ 2 ^ f := by
      rw [← pow_succ']
      exact pow_le_pow_right₀ (by norm_num) (by omega)
    omega
  have hk2 : k + f < B := by
    by_contra hc
    have : (2 : Int) ^ B ≤ 2 ^ (k + f).toNat := pow_le_pow_right₀ (by norm_num) (by omega)
    omega
  have a := fracOut_nonneg f f m; have b := fracOut_lt f f m
  have hup : (k + 1) * 2 ^ f ≤ 2 ^ B := by
    have hs : (2 : Int) ^ B = 2 ^ (B - f) * 2 ^ f := by rw [← pow_add]; congr 1; omega
    have hlt : ((B - f : Nat) : Int) < 2 ^ (B - f) := by exact_mod_cast Nat.lt_two_pow_self
    rw [hs]
    exact mul_le_mul_of_nonneg_right (by omega) hp.le
  have hr : (LU B f).T.InRange (k * 2 ^ f + fracOut f f m) := lu_in.2 ⟨by positivity, by rw [add_mul] at hup; omega⟩
  rw [IntTy.wrap_of_inRange (lu_base hB h0 h1).1.tpos hr] at hl
  exact ⟨_, hl, hr, log_near (F := LU B f) hn (by omega)⟩

/-- C140 (arguments between zero and one): no exception and no undefined behaviour, but the result exceeds the logarithm by a
positive multiple of the whole span of the type, the span itself unless the layout has few integer bits. -/
theorem C140_small_partial (B f : Nat) (hB : UB B) (h0 : 0 < f) (h1 : f + 2 ≤ B) (hf : f ≤ 32) (x : Int) (hx : Storable (LU B f) x)
    (hx0 : 0 < val (LU B f) x) (hx1 : val (LU B f) x < 1) :
    ∃ r n, log2 (LU B f) x = .ok r ∧ Storable (LU B f) r ∧ 1 ≤ n ∧ (f * 2 ^ f ≤ 2 ^ B → n = 1) ∧ LogNear (LU B f) x (r - n * 2 ^ B) := by
  have hp : (0 : Int) < 2 ^ f := by positivity
  have hpq : (0 : ℚ) < 2 ^ f := by positivity
  have hpB : (0 : Int) < 2 ^ B := by positivity
  obtain ⟨_, xB⟩ := lu_in.1 hx
  have x0 : 0 < x := by rw [← val_zero (LU B f), val_lt] at hx0; exact hx0
  have hlt : x < (2 : Int) ^ f := by
    have : (x : ℚ) / 2 ^ f < 1 := hx1
    rw [div_lt_iff₀ hpq, one_mul] at this
    exact_mod_cast this
  obtain ⟨m, k, hn, hk, e1, e2, hl⟩ := log2_u hB h0 h1 hf x0 xB
  have hk0 : k < 0 := by
    by_contra hc
    have : (2 : Int) ^ f ≤ 2 ^ (k + f).toNat := pow_le_pow_right₀ (by norm_num) (by omega)
    omega
  have a := fracOut_nonneg f f m; have b := fracOut_lt f f m
  have hhi : (k + 1) * 2 ^ f ≤ 0 := by nlinarith
  rw [add_mul] at hhi
  set Y := k * 2 ^ f + fracOut f f m with hY
  have hY0 : Y < 0 := by omega
  have hd := Int.emod_add_mul_ediv Y (2 ^ B)
  have r0 := Int.emod_nonneg Y hpB.ne'
  have r1 := Int.emod_lt_of_pos Y hpB
  have hq : Y / 2 ^ B < 0 := Int.ediv_neg_of_neg_of_pos hY0 hpB
  rw [lu_wrap] at hl
  refine ⟨_, -(Y / 2 ^ B), hl, lu_in.2 ⟨r0, r1⟩, by omega, ?_, ?_⟩
  · intro hfB
    have hfB' : (f : Int) * 2 ^ f ≤ 2 ^ B := by exact_mod_cast hfB
    have hlo : -(2 : Int) ^ B ≤ k * 2 ^ f := by nlinarith
    have : -1 ≤ Y / 2 ^ B := by
      rw [Int.le_ediv_iff_mul_le hpB]; omega
    omega
  · have e : Y % 2 ^ B - -(Y / 2 ^ B) * 2 ^ B = Y := by linarith
    rw [e]
    exact log_near (F := LU B f) hn x0

example : Storable (LU 64 32) 1 ∧ 0 < val (LU 64 32) 1 ∧ val (LU 64 32) 1 < 1 ∧ 32 * 2 ^ 32 ≤ 2 ^ 64 ∧ log2 (LU 64 32) 1 = .ok (2 ^ 64 - 32 * 2 ^ 32) ∧
    log2 (LU 32 30) 1 = .ok (-30 * 2 ^ 30 + 8 * 2 ^ 32) ∧ 1 ≤ val (LU 64 32) (2 ^ 63) ∧ log2 (LU 64 32) (2 ^ 63) = .ok (31 * 2 ^ 32) ∧
    0 < val (LU 32 31) 5 ∧ Storable (LU 32 31) 5 := by
  refine ⟨by decide +kernel, by norm_num [val], by norm_num [val], by norm_num, by decide +kernel, by decide +kernel, by norm_num [val], by decide +kernel,
    by norm_num [val], by decide +kernel⟩

theorem down_diverges (n : Nat) : ∀ x y : Int, 0 ≤ x → x < 2 ^ 32 → log2Down (LU 32 31) n x y = .ub .diverges := by
  induction n with
  | zero => intro x y _ _; rfl
  | succ n ih =>
    intro x y h0 h1
    have e : twoShl (LU 32 31) = 0 := by decide +kernel
    have hx2 : (LU 32 31).T.InRange (x / 2) := lu_in.2 ⟨by omega, by omega⟩
    rw [log2Down, e, if_pos h0, show (LU 32 31).P = ⟨32, false⟩ by rfl, arith_u, Res.bind_ok, IntTy.wrap_of_inRange (by decide) hx2]
    exact ih _ _ (by omega) (by omega)

theorem up_total (n : Nat) : ∀ x y : Int, 0 ≤ x → x < 2 ^ 32 →
    log2Up (LU 32 31) n x y = .ub .diverges ∨ ∃ x' y', 0 ≤ x' ∧ x' < 2 ^ 32 ∧ log2Up (LU 32 31) n x y = .ok (x', y') := by
  induction n with
  | zero => intro x y _ _; exact Or.inl rfl
  | succ n ih =>
    intro x y h0 h1
    have e : oneShl (LU 32 31) = 2 ^ 31 := by decide +kernel
    rw [log2Up, e]
    by_cases hlt : x < 2 ^ 31
    · have hx2 : (LU 32 31).T.InRange (x * 2) := lu_in.2 ⟨by omega, by omega⟩
      have hs : shl (LU 32 31).T x 1 = .ok (x * 2) := by
        unfold shl
        rw [if_pos (by decide), pow_one, show (LU 32 31).T.promote = (LU 32 31).T by rfl, IntTy.wrap_of_inRange (by decide) hx2]
      rw [if_pos hlt, hs, Res.bind_ok, show (LU 32 31).P = ⟨32, false⟩ by rfl, arith_u, Res.bind_ok, IntTy.wrap_of_inRange (by decide) hx2]
      exact ih _ _ (by omega) (by omega)
    · rw [if_neg hlt]
      exact Or.inr ⟨x, y, h0, h1, rfl⟩

/-- C140 (31 fraction bits in 32 bits): the bound of the second loop is zero, so no number of passes leaves it. -/
theorem C140_never_left (passes : Nat) (x y : Int) (hx : Storable (LU 32 31) x) : log2Down (LU 32 31) passes x y = .ub .diverges :=
  down_diverges passes x y (lu_in.1 hx).1 (lu_in.1 hx).2

/-- C140 (31 fraction bits in 32 bits): hence the logarithm of a positive number is never returned. -/
theorem C140_diverges (x : Int) (hx : Storable (LU 32 31) x) (hx0 : 0 < val (LU 32 31) x) : log2 (LU 32 31) x = .ub .diverges := by
  obtain ⟨_, xB⟩ := lu_in.1 hx
  have x0 : 0 < x := by rw [← val_zero (LU 32 31), val_lt] at hx0; exact hx0
  have e : shl u32 1 ((LU 32 31).f - 1) = .ok (2 ^ 30) := by decide +kernel
  have hz : ofInt (LU 32 31) 0 = 0 := by decide +kernel
  unfold log2
  rw [e, Res.bind_ok]
  simp only
  rw [if_neg (by rw [hz, le_iff]; omega)]
  rcases up_total ((LU 32 31).T.bits + 1) x 0 x0.le xB with h | ⟨x', y', a, b, h⟩
  · rw [h]; rfl
  · rw [h]
    show (log2Down (LU 32 31) ((LU 32 31).T.bits + 1) x' y').bind _ = _
    rw [down_diverges _ _ _ a b]; rfl

/-- C140 (more than 32 fraction bits): the first shift is undefined for any argument. -/
theorem C140_wide (f : Nat) (hf : 32 < f) (hf1 : f < 64) (x : Int) : log2 (LU 64 f) x = .ub .shift := by
  unfold log2 shl
  rw [if_neg (by show ¬ f - 1 < 32; omega)]
  rfl

end Eirin.Props
