import Verif.Props.PowNeg

/-! # C138: integer powers preserve the order of bases and exponents -/

namespace Eirin.Props
open Spec

/-- Square and multiply on integers, every product and quotient taken over `P` and rounded down; for negative exponents `neg` is set. -/
def floorPow (P : Int) (neg : Bool) : Nat → Nat → Int → Int → Int
  | 0, _, _, r => r
  | n + 1, e, i, r => if e = 0 then r else floorPow P neg n (e / 2) (i * i / P) (if e % 2 = 1 then (if neg then r * P / i else r * i / P) else r)

theorem floorPow_nonneg {P : Int} (hP : 0 < P) (neg : Bool) (n : Nat) : ∀ (e : Nat) (i r : Int), 0 ≤ i → 0 ≤ r → 0 ≤ floorPow P neg n e i r := by
  induction n with
  | zero => intro e i r _ hr; exact hr
  | succ n ih =>
    intro e i r hi hr
    rw [floorPow]
    split
    · exact hr
    · apply ih _ _ _ (Int.ediv_nonneg (mul_nonneg hi hi) hP.le)
      split
      · split
        · exact Int.ediv_nonneg (mul_nonneg hr hP.le) hi
        · exact Int.ediv_nonneg (mul_nonneg hr hi) hP.le
      · exact hr

/-- Larger bases and larger accumulators give larger results. -/
theorem floorPow_mono {P : Int} (hP : 0 < P) (n : Nat) : ∀ (e : Nat) (i i' r r' : Int), 0 ≤ i → i ≤ i' → 0 ≤ r → r ≤ r' →
    floorPow P false n e i r ≤ floorPow P false n e i' r' := by
  induction n with
  | zero => intro e i i' r r' _ _ _ h; exact h
  | succ n ih =>
    intro e i i' r r' hi hii hr hrr
    rw [floorPow, floorPow]
    split
    · exact hrr
    · have hi' : 0 ≤ i' := le_trans hi hii
      apply ih _ _ _ _ _ (Int.ediv_nonneg (mul_nonneg hi hi) hP.le) (Int.ediv_le_ediv hP (mul_le_mul hii hii hi hi'))
      · split
        · exact Int.ediv_nonneg (mul_nonneg hr hi) hP.le
        · exact hr
      · split
        · exact Int.ediv_le_ediv hP (mul_le_mul hrr hii hi (le_trans hr hrr))
        · exact hrr

/-- Quotients: larger bases give smaller results. -/
theorem floorPow_anti {P : Int} (hP : 0 < P) (n : Nat) : ∀ (e : Nat) (i i' r r' : Int), P ≤ i → i ≤ i' → 0 ≤ r' → r' ≤ r →
    floorPow P true n e i' r' ≤ floorPow P true n e i r := by
  induction n with
  | zero => intro e i i' r r' _ _ _ h; exact h
  | succ n ih =>
    intro e i i' r r' hi hii hr hrr
    have hi0 : 0 < i := lt_of_lt_of_le hP hi
    have hi0' : 0 < i' := lt_of_lt_of_le hi0 hii
    have sq : P ≤ i * i / P := by
      rw [Int.le_ediv_iff_mul_le hP]; exact mul_le_mul hi hi hP.le hi0.le
    rw [floorPow, floorPow]
    split
    · exact hrr
    · apply ih _ _ _ _ _ sq (Int.ediv_le_ediv hP (mul_le_mul hii hii hi0.le hi0'.le))
      · split
        · exact Int.ediv_nonneg (mul_nonneg hr hP.le) hi0'.le
        · exact hr
      · split
        · show r' * P / i' ≤ r * P / i
          rw [Int.le_ediv_iff_mul_le hi0]
          have a1 := Int.ediv_mul_le (r' * P) hi0'.ne'
          have a0 : 0 ≤ r' * P / i' := Int.ediv_nonneg (mul_nonneg hr hP.le) hi0'.le
          have a2 : r' * P / i' * i ≤ r' * P / i' * i' := mul_le_mul_of_nonneg_left hii a0
          have a3 : r' * P ≤ r * P := mul_le_mul_of_nonneg_right hrr hP.le
          linarith
        · exact hrr

/-- One more factor of at least one. -/
theorem floorPow_succ {P : Int} (hP : 0 < P) (n : Nat) : ∀ (e : Nat) (i r : Int), e + 1 < 2 ^ n → P ≤ i → 0 ≤ r → r ≤ i →
    floorPow P false n e i r ≤ floorPow P false n (e + 1) i P := by
  induction n with
  | zero => intro e i r he; omega
  | succ n ih =>
    intro e i r he hi hr hri
    have hi0 : 0 < i := lt_of_lt_of_le hP hi
    have sq : P ≤ i * i / P := by
      rw [Int.le_ediv_iff_mul_le hP]; exact mul_le_mul hi hi hP.le hi0.le
    have pi : P * i / P = i := Int.mul_ediv_cancel_left i hP.ne'
    rw [floorPow, floorPow, if_neg (by omega : e + 1 ≠ 0)]
    simp only [Bool.false_eq_true, if_false]
    rcases Nat.mod_two_eq_zero_or_one e with h2 | h2
    · rw [if_neg (by omega : e % 2 ≠ 1), if_pos (by omega : (e + 1) % 2 = 1), pi, show (e + 1) / 2 = e / 2 by omega]
      split
      · rename_i h
        subst h
        rw [show 0 / 2 = 0 from rfl]
        cases n with
        | zero => exact hri
        | succ n => rw [floorPow, if_pos rfl]; exact hri
      · exact floorPow_mono hP n _ _ _ _ _ (by linarith) le_rfl hr hri
    · rw [if_neg (by omega : e ≠ 0), if_pos h2, if_neg (by omega : (e + 1) % 2 ≠ 1), show (e + 1) / 2 = e / 2 + 1 by omega]
      exact ih _ _ _ (by rw [pow_succ] at he; omega) sq (Int.ediv_nonneg (mul_nonneg hr hi0.le) hP.le)
        (Int.ediv_le_ediv hP (mul_le_mul_of_nonneg_right hri hi0.le))

/-- One more factor of at most one. -/
theorem floorPow_succ' {P : Int} (hP : 0 < P) (n : Nat) : ∀ (e : Nat) (i r : Int), e + 1 < 2 ^ n → 0 ≤ i → i ≤ P → i ≤ r →
    floorPow P false n (e + 1) i P ≤ floorPow P false n e i r := by
  induction n with
  | zero => intro e i r he; omega
  | succ n ih =>
    intro e i r he hi hiP hri
    have sq : i * i / P ≤ P := by
      apply Int.ediv_le_of_le_mul hP
      exact mul_le_mul hiP hiP hi hP.le
    have sq0 : 0 ≤ i * i / P := Int.ediv_nonneg (mul_nonneg hi hi) hP.le
    have pi : P * i / P = i := Int.mul_ediv_cancel_left i hP.ne'
    rw [floorPow, floorPow, if_neg (by omega : e + 1 ≠ 0)]
    simp only [Bool.false_eq_true, if_false]
    rcases Nat.mod_two_eq_zero_or_one e with h2 | h2
    · rw [if_neg (by omega : e % 2 ≠ 1), if_pos (by omega : (e + 1) % 2 = 1), pi, show (e + 1) / 2 = e / 2 by omega]
      split
      · rename_i h
        subst h
        rw [show 0 / 2 = 0 from rfl]
        cases n with
        | zero => exact hri
        | succ n => rw [floorPow, if_pos rfl]; exact hri
      · exact floorPow_mono hP n _ _ _ _ _ sq0 le_rfl hi hri
    · rw [if_neg (by omega : e ≠ 0), if_pos h2, if_neg (by omega : (e + 1) % 2 ≠ 1), show (e + 1) / 2 = e / 2 + 1 by omega]
      exact ih _ _ _ (by rw [pow_succ] at he; omega) sq0 sq (Int.ediv_le_ediv hP (mul_le_mul_of_nonneg_right hri hi))

/-! ### The code computes it -/

theorem pw_prod {F : FxTy} (hF : F.Valid) (hr : F.r = false) {x y : Int} (hx : Storable F x) (hy : Storable F y) (x0 : 0 ≤ x) (y0 : 0 ≤ y)
    (hf : val F x * val F y ≤ val F F.T.hi) :
    mulAssign F x y = .ok (x * y / 2 ^ F.f) ∧ Storable F (x * y / 2 ^ F.f) ∧ val F (x * y / 2 ^ F.f) ≤ val F x * val F y := by
  have hP : (0 : Int) < 2 ^ F.f := by positivity
  have hle : val F (x * y / 2 ^ F.f) ≤ val F x * val F y := by
    unfold val
    rw [div_mul_div_comm, div_le_div_iff₀ (by positivity) (by positivity)]
    have := Int.ediv_mul_le (x * y) hP.ne'
    have : ((x * y / 2 ^ F.f : Int) : ℚ) * 2 ^ F.f ≤ x * y := by exact_mod_cast this
    have hq : (0 : ℚ) < 2 ^ F.f := by positivity
    nlinarith
  have hin : F.T.InRange (x * y / 2 ^ F.f) := by
    constructor
    · refine le_trans ?_ (Int.ediv_nonneg (mul_nonneg x0 y0) hP.le)
      unfold IntTy.lo; split <;> [exact neg_nonpos.2 (by positivity); exact le_rfl]
    · rw [← val_le (F := F)]; exact le_trans hle hf
  refine ⟨?_, hin, hle⟩
  show mul F x y = _
  rw [mul_nf hF hr hx hy, IntTy.wrap_of_inRange hF.tpos hin]

theorem powPos_floor_big {F : FxTy} (hF : F.Valid) (hr : F.r = false) (fuel : Nat) : ∀ (e : Nat) (i r : Int), e < 2 ^ fuel →
    Storable F i → Storable F r → (e ≠ 0 → 2 ^ F.f ≤ i ∧ val F r * val F i ^ e ≤ val F F.T.hi) → 2 ^ F.f ≤ r →
    powPosLoop F (fuel + 1) e i r = .ok (floorPow (2 ^ F.f) false fuel e i r) := by
  have hP : (0 : Int) < 2 ^ F.f := by positivity
  induction fuel with
  | zero =>
    intro e i r he _ _ _ _
    obtain rfl : e = 0 := by simpa using he
    simp [powPosLoop, floorPow]
  | succ n ih =>
    intro e i r he hiS hrS hi hr1
    by_cases h0 : e = 0
    · subst h0; simp [powPosLoop, floorPow]
    obtain ⟨i1, hfit⟩ := hi h0
    have i0 : 0 ≤ i := le_trans hP.le i1
    have r0 : 0 ≤ r := le_trans hP.le hr1
    have v1 : val F (2 ^ F.f) = 1 := by unfold val; push_cast; exact div_self (by positivity)
    have vi : 1 ≤ val F i := by rw [← v1, val_le]; exact i1
    have vr : 1 ≤ val F r := by rw [← v1, val_le]; exact hr1
    have prod := fun x y : Int => pw_prod hF hr (x := x) (y := y)
    -- accumulator
    have hres : ∃ r', (if e % 2 ≠ 0 then mulAssign F r i else pure r) = .ok r' ∧ Storable F r' ∧ 2 ^ F.f ≤ r' ∧
        val F r' ≤ val F r * val F i ^ (e % 2) ∧ r' = (if e % 2 = 1 then r * i / 2 ^ F.f else r) := by
      rcases Nat.mod_two_eq_zero_or_one e with h2 | h2
      · exact ⟨r, by rw [h2]; rfl, hrS, hr1, by rw [h2]; simp, by rw [if_neg (by omega)]⟩
      · have hle : val F r * val F i ≤ val F F.T.hi := by
          refine le_trans (mul_le_mul_of_nonneg_left ?_ (by linarith)) hfit
          calc val F i = val F i ^ 1 := (pow_one _).symm
            _ ≤ _ := pow_le_pow_right₀ vi (by omega)
        obtain ⟨p1, p2, p3⟩ := prod r i hrS hiS r0 i0 hle
        refine ⟨r * i / 2 ^ F.f, by rw [h2]; exact p1, p2, ?_, by rw [h2, pow_one]; exact p3, by rw [if_pos h2]⟩
        rw [Int.le_ediv_iff_mul_le hP]; exact mul_le_mul hr1 i1 hP.le r0
    obtain ⟨r', er, hrS', hr1', vr', er'⟩ := hres
    have hsq : ∃ i', mulAssign F i i = .ok i' ∧ Storable F i' ∧ (e / 2 ≠ 0 → 2 ^ F.f ≤ i' ∧ val F i' ≤ val F i ^ 2 ∧ i' = i * i / 2 ^ F.f) := by
      by_cases h2 : e / 2 = 0
      · exact ⟨_, mul_nf hF hr hiS hiS, IntTy.wrap_inRange _ hF.tpos, fun h => absurd h2 h⟩
      · have hle : val F i * val F i ≤ val F F.T.hi := by
          refine le_trans ?_ hfit
          calc val F i * val F i = 1 * val F i ^ 2 := by ring
            _ ≤ _ := mul_le_mul vr (pow_le_pow_right₀ vi (by omega)) (by positivity) (by linarith)
        obtain ⟨p1, p2, p3⟩ := prod i i hiS hiS i0 i0 hle
        refine ⟨_, p1, p2, fun _ => ⟨?_, by rw [pow_two]; exact p3, rfl⟩⟩
        rw [Int.le_ediv_iff_mul_le hP]; exact mul_le_mul i1 i1 hP.le i0
    obtain ⟨i', ei, hiS', hi'⟩ := hsq
    have hstep := ih (e / 2) i' r' (by rw [pow_succ] at he; omega) hiS' hrS' (fun h => by
      obtain ⟨a1, a2, _⟩ := hi' h
      have vi' : 0 ≤ val F i' := by rw [← val_zero F, val_le]; exact le_trans hP.le a1
      refine ⟨a1, le_trans ?_ hfit⟩
      calc val F r' * val F i' ^ (e / 2) ≤ (val F r * val F i ^ (e % 2)) * (val F i ^ 2) ^ (e / 2) :=
            mul_le_mul vr' (pow_le_pow_left₀ vi' a2 _) (by positivity) (by positivity)
        _ = val F r * val F i ^ e := by
          rw [mul_assoc, ← pow_mul, ← pow_add]; congr 2; omega) hr1'
    rw [powPos_step (n + 1) h0 er ei, hstep, floorPow, if_neg h0, er']
    simp only [Bool.false_eq_true, if_false]
    by_cases h2 : e / 2 = 0
    · rw [h2]
      cases n with
      | zero => rfl
      | succ n => rw [floorPow, floorPow, if_pos rfl, if_pos rfl]
    · rw [(hi' h2).2.2]

theorem powPos_floor_small {F : FxTy} (hF : F.Valid) (hr : F.r = false) (h1 : Storable F (2 ^ F.f)) (fuel : Nat) : ∀ (e : Nat) (i r : Int),
    e < 2 ^ fuel → 0 ≤ i → i ≤ 2 ^ F.f → 0 ≤ r → r ≤ 2 ^ F.f →
    powPosLoop F (fuel + 1) e i r = .ok (floorPow (2 ^ F.f) false fuel e i r) := by
  have hP : (0 : Int) < 2 ^ F.f := by positivity
  have hin : ∀ z : Int, 0 ≤ z → z ≤ 2 ^ F.f → Storable F z := fun z z0 z1 => ⟨le_trans (by
    unfold IntTy.lo; split <;> [exact neg_nonpos.2 (by positivity); exact le_rfl]) z0, le_trans z1 h1.2⟩
  have prod : ∀ x y : Int, 0 ≤ x → x ≤ 2 ^ F.f → 0 ≤ y → y ≤ 2 ^ F.f →
      mulAssign F x y = .ok (x * y / 2 ^ F.f) ∧ 0 ≤ x * y / 2 ^ F.f ∧ x * y / 2 ^ F.f ≤ 2 ^ F.f := by
    intro x y x0 x1 y0 y1
    have z0 : 0 ≤ x * y / 2 ^ F.f := Int.ediv_nonneg (mul_nonneg x0 y0) hP.le
    have z1 : x * y / 2 ^ F.f ≤ 2 ^ F.f := Int.ediv_le_of_le_mul hP (mul_le_mul x1 y1 y0 hP.le)
    refine ⟨?_, z0, z1⟩
    show mul F x y = _
    rw [mul_nf hF hr (hin x x0 x1) (hin y y0 y1), IntTy.wrap_of_inRange hF.tpos (hin _ z0 z1)]
  induction fuel with
  | zero =>
    intro e i r he _ _ _ _
    obtain rfl : e = 0 := by simpa using he
    simp [powPosLoop, floorPow]
  | succ n ih =>
    intro e i r he i0 i1 r0 r1
    by_cases h0 : e = 0
    · subst h0; simp [powPosLoop, floorPow]
    obtain ⟨a1, a2, a3⟩ := prod i i i0 i1 i0 i1
    obtain ⟨b1, b2, b3⟩ := prod r i r0 r1 i0 i1
    have hres : (if e % 2 ≠ 0 then mulAssign F r i else pure r) = .ok (if e % 2 = 1 then r * i / 2 ^ F.f else r) := by
      rcases Nat.mod_two_eq_zero_or_one e with h2 | h2
      · rw [h2]; rfl
      · rw [h2]; exact b1
    rw [powPos_step (n + 1) h0 hres a1, floorPow, if_neg h0]
    simp only [Bool.false_eq_true, if_false]
    apply ih _ _ _ (by rw [pow_succ] at he; omega) a2 a3
    · split <;> assumption
    · split <;> assumption

/-- The power of a non-negative base, when it fits. -/
theorem powInt_floor {F : FxTy} (hF : F.Valid) (hr : F.r = false) (h1 : Representable F 1) {b : Int} {n : Nat} (hb : Storable F b) (b0 : 0 < b)
    (hn : n < 2 ^ 65) (hfit : val F b ≤ 1 ∨ val F b ^ n ≤ val F F.T.hi) :
    powInt F b n = .ok (floorPow (2 ^ F.f) false 65 n b (2 ^ F.f)) := by
  obtain ⟨e0, e1, oS, ov, oh⟩ := pw_start hF h1
  unfold powInt
  rw [e0, e1, if_neg (by rw [eq_iff]; exact b0.ne'), if_neg (by omega)]
  rcases le_total (2 ^ F.f) b with h | h
  · apply powPos_floor_big hF hr 65 n b _ hn hb oS _ le_rfl
    intro _
    refine ⟨h, ?_⟩
    have vb : 1 ≤ val F b := by rw [← ov, val_le]; exact h
    rw [ov, one_mul]
    rcases hfit with hf | hf
    · rw [le_antisymm hf vb, one_pow]; exact oh
    · exact hf
  · exact powPos_floor_small hF hr oS 65 n b _ hn b0.le h (by positivity) le_rfl

theorem powNeg_floor {F : FxTy} (hF : F.Valid) (hr : F.r = false) (h1 : Storable F (2 ^ F.f)) (fuel : Nat) : ∀ (e : Nat) (i r : Int), e < 2 ^ fuel →
    Storable F i → (e ≠ 0 → 2 ^ F.f ≤ i ∧ ∀ k, 2 ^ k ≤ e → val F i ^ 2 ^ k ≤ val F F.T.hi) → 0 ≤ r → r ≤ 2 ^ F.f →
    powNegLoop F (fuel + 1) (-(e : Int)) i r = .ok (floorPow (2 ^ F.f) true fuel e i r) := by
  have hP : (0 : Int) < 2 ^ F.f := by positivity
  have hin : ∀ z : Int, 0 ≤ z → z ≤ 2 ^ F.f → Storable F z := fun z z0 z1 => ⟨le_trans (by
    unfold IntTy.lo; split <;> [exact neg_nonpos.2 (by positivity); exact le_rfl]) z0, le_trans z1 h1.2⟩
  induction fuel with
  | zero =>
    intro e i r he _ _ _ _
    obtain rfl : e = 0 := by simpa using he
    simp [powNegLoop, floorPow]
  | succ n ih =>
    intro e i r he hiS hi r0 r1
    by_cases h0 : e = 0
    · subst h0; simp [powNegLoop, floorPow]
    obtain ⟨i1, hfit⟩ := hi h0
    have i0 : 0 < i := lt_of_lt_of_le hP i1
    have q0 : 0 ≤ r * 2 ^ F.f / i := Int.ediv_nonneg (mul_nonneg r0 hP.le) i0.le
    have q1 : r * 2 ^ F.f / i ≤ 2 ^ F.f := Int.ediv_le_of_le_mul i0 (by
      rw [mul_comm]; exact mul_le_mul_of_nonneg_left (le_trans r1 i1) hP.le)
    have hq : divAssign F r i = .ok (r * 2 ^ F.f / i) := by
      show div F r i = _
      rw [div_nf hF hr (hin r r0 r1), if_neg i0.ne', Int.tdiv_eq_ediv_of_nonneg (mul_nonneg r0 hP.le), IntTy.wrap_of_inRange hF.tpos (hin _ q0 q1)]
    have hres : (if e % 2 ≠ 0 then divAssign F r i else pure r) = .ok (if e % 2 = 1 then r * 2 ^ F.f / i else r) := by
      rcases Nat.mod_two_eq_zero_or_one e with h2 | h2
      · rw [h2]; rfl
      · rw [h2]; exact hq
    have hsq : ∃ i', mulAssign F i i = .ok i' ∧ Storable F i' ∧ (e / 2 ≠ 0 → 2 ^ F.f ≤ i' ∧ val F i' ≤ val F i ^ 2 ∧ i' = i * i / 2 ^ F.f) := by
      by_cases h2 : e / 2 = 0
      · exact ⟨_, mul_nf hF hr hiS hiS, IntTy.wrap_inRange _ hF.tpos, fun h => absurd h2 h⟩
      · have hle : val F i * val F i ≤ val F F.T.hi := by
          have := hfit 1 (by omega)
          rwa [pow_one, pow_two] at this
        obtain ⟨p1, p2, p3⟩ := pw_prod hF hr hiS hiS i0.le i0.le hle
        refine ⟨_, p1, p2, fun _ => ⟨?_, by rw [pow_two]; exact p3, rfl⟩⟩
        rw [Int.le_ediv_iff_mul_le hP]; exact mul_le_mul i1 i1 hP.le i0.le
    obtain ⟨i', ei, hiS', hi'⟩ := hsq
    have hstep := ih (e / 2) i' (if e % 2 = 1 then r * 2 ^ F.f / i else r) (by rw [pow_succ] at he; omega) hiS' (fun h => by
      obtain ⟨a1, a2, _⟩ := hi' h
      have vi' : 0 ≤ val F i' := by rw [← val_zero F, val_le]; exact le_trans hP.le a1
      refine ⟨a1, fun k hk => le_trans (pow_le_pow_left₀ vi' a2 _) ?_⟩
      rw [← pow_mul, ← pow_succ']
      exact hfit (k + 1) (by rw [pow_succ]; omega)) (by split <;> assumption) (by split <;> assumption)
    rw [powNeg_step (n + 1) h0 hres ei, hstep, floorPow, if_neg h0]
    simp only [if_true]
    by_cases h2 : e / 2 = 0
    · rw [h2]
      cases n with
      | zero => rfl
      | succ n => rw [floorPow, floorPow, if_pos rfl, if_pos rfl]
    · rw [(hi' h2).2.2]

/-! ### The property -/

/-- C138: where the exact powers fit, a larger base gives a power at least as large, and raising a base of at least one to a larger exponent gives a power
at least as large, for exponents of either sign. -/
def C138_statement : Prop :=
  ∀ F : FxTy, F = fixed32 ∨ F = fixed64 → (∀ (a b n p q : Int), Storable F a → Storable F b → 0 ≤ a → a ≤ b → 0 ≤ n → n < 2 ^ 63 →
      val F b ^ n.toNat ≤ val F F.T.hi → powInt F a n = .ok p → powInt F b n = .ok q → p ≤ q) ∧
    (∀ (b m n p q : Int), Storable F b → 1 ≤ val F b → m ≤ n → -2 ^ 63 ≤ m → n < 2 ^ 63 → val F b ^ m.natAbs ≤ val F F.T.hi →
      val F b ^ n.natAbs ≤ val F F.T.hi → powInt F b m = .ok p → powInt F b n = .ok q → p ≤ q)

/-- On `fixed32`, with `b = 1 + 2⁻¹⁶`, `b⁻¹⁰²⁴` comes out larger than `b⁻¹⁰²³`. -/
theorem C138_false : ¬ C138_statement := by
  intro h
  have v : val fixed32 65537 = 65537 / 65536 := by norm_num [val, fixed32]
  have hi : val fixed32 fixed32.T.hi = 2147483647 / 65536 := by norm_num [val, fixed32, i32, IntTy.hi]
  have big : ∀ k, k ≤ 1024 → val fixed32 65537 ^ k ≤ 2 := by
    intro k hk
    rw [v]
    calc (65537 / 65536 : ℚ) ^ k ≤ (65537 / 65536) ^ 1024 := pow_le_pow_right₀ (by norm_num) hk
      _ = ((65537 / 65536) ^ 32) ^ 32 := by rw [← pow_mul]
      _ ≤ (1001 / 1000) ^ 32 := pow_le_pow_left₀ (by positivity) (by norm_num) 32
      _ ≤ 2 := by norm_num
  have key := (h fixed32 (Or.inl rfl)).2 65537 (-1024) (-1023) 64521 64520 (by decide +kernel) (by rw [v]; norm_num) (by norm_num) (by norm_num) (by norm_num)
    (le_trans (big 1024 le_rfl) (by rw [hi]; norm_num)) (le_trans (big 1023 (by norm_num)) (by rw [hi]; norm_num)) (by decide +kernel) (by decide +kernel)
  omega

/-- C138 (non-negative exponents): larger bases give larger powers, on every non-rounding type. -/
theorem C138_base_partial (F : FxTy) (hF : F.Valid) (hr : F.r = false) (h1 : Representable F 1) (a b : Int) (n : Nat) (ha : Storable F a) (hb : Storable F b)
    (a0 : 0 ≤ val F a) (hab : val F a ≤ val F b) (hn : n < 2 ^ 64) (hfit : val F b ≤ 1 ∨ val F b ^ n ≤ val F F.T.hi) :
    ∃ p q, powInt F a n = .ok p ∧ powInt F b n = .ok q ∧ 0 ≤ val F p ∧ val F p ≤ val F q := by
  have hP : (0 : Int) < 2 ^ F.f := by positivity
  obtain ⟨e0, e1, oS, ov, oh⟩ := pw_start hF h1
  have a0' : 0 ≤ a := by rw [← val_le (F := F), val_zero]; exact a0
  have hab' : a ≤ b := by rw [← val_le (F := F)]; exact hab
  have n65 : n < 2 ^ 65 := lt_trans hn (by norm_num)
  have nonneg : ∀ z : Int, 0 ≤ z → 0 ≤ val F z := fun z hz => by rw [← val_zero F, val_le]; exact hz
  by_cases hz : a = 0
  · subst hz
    by_cases hz' : b = 0
    · subst hz'
      have : ∃ p, powInt F 0 n = .ok p ∧ 0 ≤ p := by
        unfold powInt
        rw [e0, e1, if_pos (by rw [eq_iff])]
        split
        · exact ⟨_, rfl, hP.le⟩
        · exact ⟨_, rfl, le_rfl⟩
      obtain ⟨p, hp, p0⟩ := this
      exact ⟨p, p, hp, hp, nonneg p p0, le_rfl⟩
    · have hq := powInt_floor hF hr h1 (b := b) (n := n) hb (by omega) n65 hfit
      have q0 := floorPow_nonneg hP false 65 n b (2 ^ F.f) (by omega) hP.le
      by_cases hn0 : n = 0
      · subst hn0
        refine ⟨2 ^ F.f, _, ?_, hq, nonneg _ hP.le, ?_⟩
        · unfold powInt
          rw [e0, e1, if_pos (by rw [eq_iff]), if_pos (by rfl)]
        · rw [floorPow, if_pos rfl]
      · refine ⟨0, _, ?_, hq, nonneg _ le_rfl, by rw [val_le]; exact q0⟩
        unfold powInt
        rw [e0, if_pos (by rw [eq_iff]), if_neg (by exact_mod_cast hn0)]
  · have hfa : val F a ≤ 1 ∨ val F a ^ n ≤ val F F.T.hi := by
      rcases hfit with h | h
      · exact Or.inl (le_trans hab h)
      · exact Or.inr (le_trans (pow_le_pow_left₀ a0 hab n) h)
    refine ⟨_, _, powInt_floor hF hr h1 ha (by omega) n65 hfa, powInt_floor hF hr h1 hb (by omega) n65 hfit, nonneg _ ?_, ?_⟩
    · exact floorPow_nonneg hP _ _ _ _ _ a0' hP.le
    · rw [val_le]; exact floorPow_mono hP 65 n a b _ _ a0' hab' hP.le le_rfl

/-- C138 (non-negative exponents): a base of at least one gives larger powers for larger exponents, on every non-rounding type. -/
theorem C138_exponent_partial (F : FxTy) (hF : F.Valid) (hr : F.r = false) (h1 : Representable F 1) (b : Int) (m n : Nat) (hb : Storable F b)
    (hb1 : 1 ≤ val F b) (hmn : m ≤ n) (hn : n < 2 ^ 64) (hfit : val F b ^ n ≤ val F F.T.hi) :
    ∃ p q, powInt F b m = .ok p ∧ powInt F b n = .ok q ∧ val F p ≤ val F q := by
  have hP : (0 : Int) < 2 ^ F.f := by positivity
  obtain ⟨e0, e1, oS, ov, oh⟩ := pw_start hF h1
  have hb2 : 2 ^ F.f ≤ b := by rw [← val_le (F := F), ov]; exact hb1
  have n65 : n < 2 ^ 65 := lt_trans hn (by norm_num)
  refine ⟨_, _, powInt_floor hF hr h1 hb (by omega) (by omega) (Or.inr (le_trans (pow_le_pow_right₀ hb1 hmn) hfit)),
    powInt_floor hF hr h1 hb (by omega) n65 (Or.inr hfit), ?_⟩
  rw [val_le]
  clear hfit hn
  induction n, hmn using Nat.le_induction with
  | base => exact le_rfl
  | succ n _ ih => exact le_trans (ih (by omega)) (floorPow_succ hP 65 n b _ n65 hb2 hP.le hb2)

/-- C138 (non-negative exponents): a base between zero and one gives smaller powers for larger exponents, on every non-rounding type; nothing has to fit. -/
theorem C138_exponent_small_partial (F : FxTy) (hF : F.Valid) (hr : F.r = false) (h1 : Representable F 1) (b : Int) (m n : Nat) (hb : Storable F b)
    (hb0 : 0 < val F b) (hb1 : val F b ≤ 1) (hmn : m ≤ n) (hn : n < 2 ^ 64) :
    ∃ p q, powInt F b m = .ok p ∧ powInt F b n = .ok q ∧ val F q ≤ val F p := by
  have hP : (0 : Int) < 2 ^ F.f := by positivity
  obtain ⟨e0, e1, oS, ov, oh⟩ := pw_start hF h1
  have hb2 : b ≤ 2 ^ F.f := by rw [← val_le (F := F), ov]; exact hb1
  have hb0' : 0 < b := by rw [← val_lt (F := F), val_zero]; exact hb0
  have n65 : n < 2 ^ 65 := lt_trans hn (by norm_num)
  refine ⟨_, _, powInt_floor hF hr h1 hb hb0' (by omega) (Or.inl hb1), powInt_floor hF hr h1 hb hb0' n65 (Or.inl hb1), ?_⟩
  rw [val_le]
  clear hn
  induction n, hmn using Nat.le_induction with
  | base => exact le_rfl
  | succ n _ ih => exact le_trans (floorPow_succ' hP 65 n b _ n65 hb0'.le hb2 hb2) (ih (by omega))

/-- C138 (negative exponents): larger bases give smaller powers, for bases of at least one on every non-rounding type on which the squares the function forms
can be represented. -/
theorem C138_negative_base_partial (F : FxTy) (hF : F.Valid) (hr : F.r = false) (h1 : Representable F 1) (a b : Int) (n : Nat) (ha : Storable F a)
    (hb : Storable F b) (a1 : 1 ≤ val F a) (hab : val F a ≤ val F b) (hn : n < 2 ^ 64) (hn0 : n ≠ 0)
    (hfit : ∀ k, 2 ^ k ≤ n → val F b ^ 2 ^ k ≤ val F F.T.hi) :
    ∃ p q, powInt F a (-(n : Int)) = .ok p ∧ powInt F b (-(n : Int)) = .ok q ∧ 0 ≤ val F q ∧ val F q ≤ val F p ∧ val F p ≤ 1 := by
  have hP : (0 : Int) < 2 ^ F.f := by positivity
  obtain ⟨e0, e1, oS, ov, oh⟩ := pw_start hF h1
  have a1' : 2 ^ F.f ≤ a := by rw [← val_le (F := F), ov]; exact a1
  have hab' : a ≤ b := by rw [← val_le (F := F)]; exact hab
  have n65 : n < 2 ^ 65 := lt_trans hn (by norm_num)
  have fn : ∀ c : Int, Storable F c → 2 ^ F.f ≤ c → c ≤ b → powInt F c (-(n : Int)) = .ok (floorPow (2 ^ F.f) true 65 n c (2 ^ F.f)) := by
    intro c hc c1 cb
    unfold powInt
    rw [e0, e1, if_neg (by rw [eq_iff]; omega), if_pos (by omega)]
    refine powNeg_floor hF hr oS 65 n c _ n65 hc (fun _ => ⟨c1, fun k hk => ?_⟩) hP.le le_rfl
    have c0 : 0 ≤ val F c := by rw [← val_zero F, val_le]; omega
    exact le_trans (pow_le_pow_left₀ c0 (by rw [val_le]; exact cb) _) (hfit k hk)
  refine ⟨_, _, fn a ha a1' hab', fn b hb (by omega) le_rfl, ?_, ?_, ?_⟩
  · rw [← val_zero F, val_le]; exact floorPow_nonneg hP _ _ _ _ _ (by omega) hP.le
  · rw [val_le]; exact floorPow_anti hP 65 n a b _ _ a1' hab' hP.le le_rfl
  · have le1 : ∀ (m e : Nat) (i r : Int), 2 ^ F.f ≤ i → 0 ≤ r → r ≤ 2 ^ F.f → floorPow (2 ^ F.f) true m e i r ≤ 2 ^ F.f := by
      intro m
      induction m with
      | zero => intro e i r _ _ h; exact h
      | succ m ih =>
        intro e i r i1 r0 r1
        have i0 : 0 < i := lt_of_lt_of_le hP i1
        have q0 : 0 ≤ r * 2 ^ F.f / i := Int.ediv_nonneg (mul_nonneg r0 hP.le) i0.le
        have q1 : r * 2 ^ F.f / i ≤ 2 ^ F.f := Int.ediv_le_of_le_mul i0 (by
          rw [mul_comm]; exact mul_le_mul_of_nonneg_left (le_trans r1 i1) hP.le)
        rw [floorPow]
        simp only [if_true]
        split
        · exact r1
        · apply ih
          · rw [Int.le_ediv_iff_mul_le hP]; exact mul_le_mul i1 i1 hP.le i0.le
          · split <;> assumption
          · split <;> assumption
    rw [← ov, val_le]; exact le1 65 n a _ a1' hP.le le_rfl

/-- Bases 1.5 and 2, exponents 4 and 5 on `fixed32`. -/
example : powInt fixed32 98304 4 = .ok 331776 ∧ powInt fixed32 131072 4 = .ok 1048576 ∧ powInt fixed32 98304 5 = .ok 497664 ∧
    powInt fixed32 32768 4 = .ok 4096 ∧ powInt fixed32 32768 5 = .ok 2048 ∧ powInt fixed32 98304 (-4) = .ok 12945 ∧
    powInt fixed32 131072 (-4) = .ok 4096 ∧ val fixed32 131072 = 2 ∧ Storable fixed32 131072 ∧ fixed32.Valid ∧ fixed32.r = false := by
  refine ⟨by decide +kernel, by decide +kernel, by decide +kernel, by decide +kernel, by decide +kernel, by decide +kernel, by decide +kernel,
    by norm_num [val, fixed32], by decide +kernel, by decide +kernel, rfl⟩

end Eirin.Props
