import Verif.Props.Mixed

/-! # Property C151: the tolerance comparisons on every layout

C13 is about signed storage of 32 and 64 bits. -/

namespace Eirin.Props
open Spec

/-- The tolerance on every layout, computed: `5·2^(f-16)`, cut to an integer (rounded to nearest in a rounding type). -/
theorem epsilon_all_table :
    ∀ b ∈ ([8, 16, 32, 64] : List Nat), ∀ s : Bool, ∀ f < 64, 0 < f → f < b → ∀ r : Bool,
      ∃ e, epsilon ⟨⟨b, s⟩, i128, f, r⟩ = .ok e ∧ 0 ≤ e ∧ e < 2 ^ (b - 1) ∧ e < 2 ^ 51 ∧
        e = (5 * 2 ^ f + (if r then 2 ^ 15 else 0)) / 2 ^ 16 := by
  have h : ∀ b ∈ ([8, 16, 32, 64] : List Nat), ∀ s : Bool, ∀ f < 64, 0 < f → f < b → ∀ r : Bool,
      (match epsilon ⟨⟨b, s⟩, i128, f, r⟩ with
        | .ok e => decide (0 ≤ e ∧ e < 2 ^ (b - 1) ∧ e < 2 ^ 51 ∧ e = (5 * 2 ^ f + (if r then 2 ^ 15 else 0)) / 2 ^ 16)
        | _ => false) = true := by decide +kernel
  intro b hb s f hf h0 h1 r
  have := h b hb s f hf h0 h1 r
  split at this
  · rename_i e he
    exact ⟨e, he, of_decide_eq_true this⟩
  · cases this

/-- C151: the tolerance is defined on every layout; it is `5/65536` cut to a multiple of the ulp (rounded in a rounding type). -/
theorem C151_epsilon (F : FxTy) (hF : F.Valid) :
    ∃ e, epsilon F = .ok e ∧ Storable F e ∧ 0 ≤ e ∧ e < 2 ^ (F.T.bits - 1) ∧ e < 2 ^ 51 ∧
      e = (5 * 2 ^ F.f + (if F.r then 2 ^ 15 else 0)) / 2 ^ 16 ∧
      (F.r = false → val F e ≤ 5 / 65536 ∧ 5 / 65536 < val F e + ulp F) ∧
      (F.r = true → |val F e - 5 / 65536| ≤ ulp F / 2) := by
  obtain ⟨⟨b, s⟩, I, f, r⟩ := F
  have hb : b ∈ ([8, 16, 32, 64] : List Nat) := by have := hF.1; simpa using this
  have hf := hF.flt; have hf0 := hF.fpos
  simp only at hf hf0
  obtain ⟨e, h1, h2, h3, h4, h5⟩ := epsilon_all_table b hb s f (by simp at hb; omega) hf0 hf r
  have hp : (0 : ℚ) < 2 ^ f := by positivity
  refine ⟨e, h1, ⟨?_, ?_⟩, h2, h3, h4, h5, ?_, ?_⟩
  · have : (0 : Int) < 2 ^ (b - 1) := by positivity
    unfold IntTy.lo; simp only; split <;> omega
  · unfold IntTy.hi; simp only
    have : (2 : Int) ^ (b - 1) ≤ 2 ^ b := pow_le_pow_right₀ (by norm_num) (by omega)
    split <;> omega
  · rintro hr
    simp only at hr; subst hr
    simp only [Bool.false_eq_true, if_false, add_zero] at h5
    have a1 : e * 2 ^ 16 ≤ 5 * 2 ^ f := by rw [h5]; exact Int.ediv_mul_le _ (by norm_num)
    have a2 : 5 * 2 ^ f < (e + 1) * 2 ^ 16 := by rw [h5]; exact Int.lt_ediv_add_one_mul_self _ (by norm_num)
    have b1 : (e : ℚ) * 2 ^ 16 ≤ 5 * 2 ^ f := by exact_mod_cast a1
    have b2 : 5 * 2 ^ f < ((e : ℚ) + 1) * 2 ^ 16 := by exact_mod_cast a2
    unfold val ulp
    simp only
    constructor
    · rw [div_le_div_iff₀ hp (by norm_num)]; linarith
    · rw [← add_div, div_lt_div_iff₀ (by norm_num) hp]; linarith
  · rintro hr
    simp only at hr; subst hr
    simp only [if_true] at h5
    have a1 : e * 2 ^ 16 ≤ 5 * 2 ^ f + 2 ^ 15 := by rw [h5]; exact Int.ediv_mul_le _ (by norm_num)
    have a2 : 5 * 2 ^ f + 2 ^ 15 < (e + 1) * 2 ^ 16 := by rw [h5]; exact Int.lt_ediv_add_one_mul_self _ (by norm_num)
    have b1 : (e : ℚ) * 2 ^ 16 ≤ 5 * 2 ^ f + 2 ^ 15 := by exact_mod_cast a1
    have b2 : 5 * 2 ^ f + 2 ^ 15 < ((e : ℚ) + 1) * 2 ^ 16 := by exact_mod_cast a2
    unfold val ulp
    simp only
    have e1 : (e : ℚ) / 2 ^ f - 5 / 65536 = (e * 2 ^ 16 - 5 * 2 ^ f) / (2 ^ 16 * 2 ^ f) := by field_simp; norm_num; ring
    have e2 : (1 : ℚ) / 2 ^ f / 2 = 2 ^ 15 / (2 ^ 16 * 2 ^ f) := by field_simp
    rw [e1, e2, abs_div, abs_of_pos (show (0 : ℚ) < 2 ^ 16 * 2 ^ f by positivity)]
    apply div_le_div_of_nonneg_right _ (by positivity)
    rw [abs_le]; constructor <;> linarith

-- no tolerance at all with up to 13 fraction bits
example : (∀ f < 14, 0 < f → epsilon ⟨i32, i64, f, false⟩ = .ok 0) ∧ epsilon ⟨⟨16, true⟩, i32, 14, false⟩ = .ok 1 ∧
    epsilon ⟨⟨16, true⟩, i32, 13, true⟩ = .ok 1 := by decide +kernel

/-- C151: with a tolerance `e` in raw units, the six predicates for exact differences. -/
def NearlyRight (F : FxTy) (e x y : Int) : Prop :=
  nearlyEq F x y = .ok (decide (|val F x - val F y| ≤ val F e)) ∧
  nearlyNe F x y = .ok (decide (¬ |val F x - val F y| ≤ val F e)) ∧
  nearlyGt F x y = .ok (decide (val F x - val F y > val F e)) ∧
  nearlyLt F x y = .ok (decide (val F x - val F y < - val F e)) ∧
  nearlyGtEq F x y = .ok (decide (¬ val F x - val F y < - val F e)) ∧
  nearlyLtEq F x y = .ok (decide (¬ val F x - val F y > val F e))

/-- C151 as one would like it: on every layout, for all values with a representable difference, the six predicates mean what they say. -/
def C151_statement : Prop := ∀ F : FxTy, F.Valid → ∀ x y : Int, Storable F x → Storable F y → Representable F (val F x - val F y) →
  ∃ e, epsilon F = .ok e ∧ NearlyRight F e x y

/-- C151, what holds: on signed layouts of 32 and 64 bits for all representable differences, and on all 8- and 16-bit layouts, signed or not, for all
pairs of values without exception.  Missing are the unsigned layouts of 32 and 64 bits, for which `C151_unsigned` says what happens. -/
theorem C151_nearly_partial (F : FxTy) (hF : F.Valid) (x y : Int) (hx : Storable F x) (hy : Storable F y)
    (h : F.T.bits < 32 ∨ F.T.signed = true ∧ Representable F (val F x - val F y)) :
    ∃ e, epsilon F = .ok e ∧ NearlyRight F e x y := by
  by_cases hw : F.T.bits < 32
  · obtain ⟨e, he, hes, he0, he1, -⟩ := C151_epsilon F hF
    have hP : F.P = i32 ∧ -65536 ≤ x ∧ x ≤ 65536 ∧ -65536 ≤ y ∧ y ≤ 65536 ∧ e ≤ 65536 := by
      obtain ⟨⟨b, s⟩, I, f, r⟩ := F
      unfold Storable at hx hy
      unfold IntTy.InRange IntTy.lo IntTy.hi at hx hy
      have hb := hF.1
      simp only at hb hw hx hy he1
      rcases hb with rfl | rfl | rfl | rfl
      · cases s <;> norm_num at hx hy he1 <;> exact ⟨rfl, by omega, by omega, by omega, by omega, by omega⟩
      · cases s <;> norm_num at hx hy he1 <;> exact ⟨rfl, by omega, by omega, by omega, by omega, by omega⟩
      · omega
      · omega
    obtain ⟨hP, x1, x2, y1, y2, e1⟩ := hP
    have i32r : ∀ m : Int, -2147483648 ≤ m → m ≤ 2147483647 → i32.InRange m := by
      intro m; unfold IntTy.InRange i32 IntTy.lo IntTy.hi; norm_num; omega
    have a1 : arith F.P (x - y) = .ok (x - y) := by rw [hP]; exact arith_of_inRange (by decide) (i32r _ (by omega) (by omega))
    have a2 : arith F.P (-e) = .ok (-e) := by rw [hP]; exact arith_of_inRange (by decide) (i32r _ (by omega) (by omega))
    have c1 : |val F (x - y)| ≤ val F e ↔ (x - y ≥ -e ∧ x - y ≤ e) := by
      rw [abs_le, ← val_neg, val_le, val_le]
    have c2 : val F (x - y) > val F e ↔ x - y > e := val_lt
    have c3 : val F (x - y) < -val F e ↔ x - y < -e := by rw [← val_neg, val_lt]
    refine ⟨e, he, ?_⟩
    unfold NearlyRight
    rw [← val_sub]
    unfold nearlyGtEq nearlyLtEq nearlyEq nearlyNe nearlyGt nearlyLt
    simp only [a1, a2, he, Res.bind_ok, Res.pure_eq]
    have dn : ∀ p q : Prop, ∀ [Decidable p] [Decidable q], (p ↔ ¬ q) → (!decide p) = decide q := by
      intro p q _ _ h; by_cases hq : q <;> simp [h, hq]
    refine ⟨?_, ?_, ?_, ?_, ?_, ?_⟩ <;> congr 1
    · apply decide_eq_decide.2; rw [c1]
    · apply decide_eq_decide.2; rw [c1]; omega
    · apply decide_eq_decide.2; rw [c2]
    · apply decide_eq_decide.2; rw [c3]
    · apply dn; rw [c3]; omega
    · apply dn; rw [c2]; omega
  · obtain ⟨hs, hd⟩ := h.resolve_left hw
    exact C13_nearly F hF ⟨hs, by omega⟩ x y hx hy hd

example : (let F : FxTy := ⟨⟨16, false⟩, u32, 15, false⟩; F.Valid ∧ Storable F 65535 ∧ nearlyLt F 0 65535 = .ok true ∧ nearlyEq F 3 5 = .ok true ∧
    nearlyEq F 2 5 = .ok false) := by decide +kernel

/-- C151: what the predicates do on the unsigned layouts of 32 and 64 bits.  Where the tolerance is positive (14 fraction bits or more), nothing is
nearly equal to anything, not even to itself, and everything is nearly different; where it is zero, `nearly_eq` is equality.
`nearly_gt` is true of every pair `x < y` (except, with a positive tolerance, those within the tolerance of the whole range apart), and `nearly_lt` is true
of nearly every pair with a positive tolerance and of no pair at all with tolerance zero. -/
theorem C151_unsigned (F : FxTy) (hF : F.Valid) (hu : F.T.signed = false) (hw : 32 ≤ F.T.bits) (x y : Int) (hx : Storable F x) (hy : Storable F y) :
    ∃ e, epsilon F = .ok e ∧ (0 < e ↔ 14 ≤ F.f ∨ F.f = 13 ∧ F.r = true) ∧
      (0 < e → nearlyEq F x y = .ok false ∧ nearlyNe F x y = .ok true) ∧
      (e = 0 → nearlyEq F x y = .ok (decide (x = y)) ∧ nearlyNe F x y = .ok (decide (x ≠ y))) ∧
      nearlyGt F x y = .ok (decide (e < x - y ∨ x < y ∧ y - x < 2 ^ F.T.bits - e)) ∧
      (0 < e → nearlyLt F x y = .ok (decide (x - y < - e ∨ 0 ≤ x - y ∧ x - y < 2 ^ F.T.bits - e))) ∧
      (e = 0 → nearlyLt F x y = .ok false) ∧
      (∀ b, nearlyLt F x y = .ok b → nearlyGtEq F x y = .ok (!b)) ∧ (∀ b, nearlyGt F x y = .ok b → nearlyLtEq F x y = .ok (!b)) := by
  obtain ⟨e, he, hes, he0, he1, -, hev, -⟩ := C151_epsilon F hF
  have hP : F.P = F.T := hF.p_eq hw
  have hlo : F.T.lo = 0 := by unfold IntTy.lo; simp [hu]
  have hhi : F.T.hi = 2 ^ F.T.bits - 1 := by unfold IntTy.hi; simp [hu]
  have t0 := hF.tpos
  have e2 : (2 : Int) ^ F.T.bits = 2 * 2 ^ (F.T.bits - 1) := by
    rw [← pow_succ']; congr 1; omega
  have hp : (0 : Int) < 2 ^ (F.T.bits - 1) := by positivity
  unfold Storable at hx hy
  unfold IntTy.InRange at hx hy
  have ar : ∀ m : Int, arith F.P m = .ok (F.T.wrap m) := by
    intro m; rw [hP]; unfold arith; rw [if_neg (by rw [hu]; simp)]
  have w0 : ∀ m : Int, 0 ≤ m → m < 2 ^ F.T.bits → F.T.wrap m = m := fun m h1 h2 => IntTy.wrap_of_inRange t0 ⟨by omega, by omega⟩
  have w1 : ∀ m : Int, m < 0 → -2 ^ F.T.bits ≤ m → F.T.wrap m = m + 2 ^ F.T.bits := by
    intro m h1 h2
    rw [← w0 (m + 2 ^ F.T.bits) (by omega) (by omega)]
    exact IntTy.wrap_congr ⟨-1, by ring⟩
  have hd : F.T.wrap (x - y) = if y ≤ x then x - y else x - y + 2 ^ F.T.bits := by
    split
    · exact w0 _ (by omega) (by omega)
    · exact w1 _ (by omega) (by omega)
  have hn : F.T.wrap (-e) = if 0 < e then 2 ^ F.T.bits - e else 0 := by
    split
    · rw [w1 _ (by omega) (by omega)]; ring
    · have : e = 0 := by omega
      rw [this]; exact w0 _ (by norm_num) (by omega)
  have g1 : nearlyGt F x y = .ok (decide (F.T.wrap (x - y) > e)) := by
    unfold nearlyGt; rw [ar, Res.bind_ok, he, Res.bind_ok]; rfl
  have l1 : nearlyLt F x y = .ok (decide (F.T.wrap (x - y) < F.T.wrap (-e))) := by
    unfold nearlyLt; rw [ar, Res.bind_ok, he, Res.bind_ok, ar, Res.bind_ok]; rfl
  have q1 : nearlyEq F x y = .ok (decide (F.T.wrap (x - y) ≥ F.T.wrap (-e) ∧ F.T.wrap (x - y) ≤ e)) := by
    unfold nearlyEq; rw [ar, Res.bind_ok, he, Res.bind_ok, ar, Res.bind_ok]; rfl
  have n1 : nearlyNe F x y = .ok (decide (F.T.wrap (x - y) < F.T.wrap (-e) ∨ F.T.wrap (x - y) > e)) := by
    unfold nearlyNe; rw [ar, Res.bind_ok, he, Res.bind_ok, ar, Res.bind_ok]; rfl
  rw [g1, l1, q1, n1]
  refine ⟨e, he, ?_, ?_, ?_, ?_, ?_, ?_, ?_, ?_⟩
  · rw [hev]
    have m1 : ∀ k, k ≤ F.f → (2 : Int) ^ k ≤ 2 ^ F.f := fun k h => pow_le_pow_right₀ (by norm_num) h
    have m2 : ∀ k, F.f ≤ k → (2 : Int) ^ F.f ≤ 2 ^ k := fun k h => pow_le_pow_right₀ (by norm_num) h
    cases F.r
    · simp only [Bool.false_eq_true, if_false, and_false, or_false]
      constructor
      · intro h; by_contra hc; have := m2 13 (by omega); norm_num at this h; omega
      · intro h; have := m1 14 h; norm_num at this ⊢; omega
    · simp only [if_true, and_true]
      constructor
      · intro h; by_contra hc; have := m2 12 (by omega); norm_num at this h; omega
      · intro h; have := m1 13 (by omega); norm_num at this ⊢; omega
  · intro h
    rw [hn, if_pos h, hd]
    constructor
    · congr 1; apply decide_eq_false; split <;> omega
    · congr 1; apply decide_eq_true; split <;> omega
  · intro h
    rw [hn, if_neg (by omega), hd, h]
    constructor
    · congr 1; apply decide_eq_decide.2; split <;> omega
    · congr 1; apply decide_eq_decide.2; split <;> omega
  · rw [hd]
    congr 1; apply decide_eq_decide.2; split <;> omega
  · intro h
    rw [hn, if_pos h, hd]
    congr 1; apply decide_eq_decide.2; split <;> omega
  · intro h
    rw [hn, if_neg (by omega), hd]
    congr 1; apply decide_eq_false; split <;> omega
  · intro b hb
    unfold nearlyGtEq; rw [l1, hb, Res.bind_ok]; rfl
  · intro b hb
    unfold nearlyLtEq; rw [g1, hb, Res.bind_ok]; rfl

example : (let F : FxTy := ⟨u32, u64, 16, false⟩; F.Valid ∧ nearlyEq F 7 7 = .ok false ∧ nearlyNe F 7 7 = .ok true ∧ nearlyGt F 7 9000 = .ok true ∧
    nearlyLt F 7 7 = .ok true ∧ nearlyGtEq F 7 7 = .ok false) := by decide +kernel

/-- C151 is false as stated: `nearly_eq(x, x)` is false in unsigned storage of 32 bits with 16 fraction bits. -/
theorem C151_false : ¬ C151_statement := by
  intro h
  obtain ⟨e, he, h1, -⟩ := h ⟨u32, u64, 16, false⟩ (by decide) 7 7 (by decide) (by decide) (by
    rw [sub_self]; exact ⟨0, by decide, by unfold val; simp⟩)
  have : nearlyEq ⟨u32, u64, 16, false⟩ 7 7 = .ok false := by decide +kernel
  have e5 : epsilon ⟨u32, u64, 16, false⟩ = .ok 5 := by decide +kernel
  rw [this] at h1
  rw [e5] at he
  injection he with he
  subst he
  injection h1 with h1
  revert h1
  rw [sub_self, abs_zero, eq_comm, decide_eq_false_iff_not]
  intro h2; apply h2; unfold val; norm_num

end Eirin.Props
