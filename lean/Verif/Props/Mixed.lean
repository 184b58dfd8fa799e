import Verif.Props.Laws

/-! # Properties C10–C13: mixed fixed/integer arithmetic, ordering, hashing, tolerance comparisons. -/

namespace Eirin.Props
open Spec

/-! ## C10 -/

theorem common_eq (F : FxTy) (hF : F.Valid) (hs : SignedWide F) (U : IntTy) (hU : U.signed = true)
    (hb : U.bits ≤ F.T.bits) : IntTy.common F.T U = F.T := by
  have hp := hF.p_eq hs.2
  have hps : U.promote.signed = true := by unfold IntTy.promote; split <;> simp [hU]
  have hpb : U.promote.bits ≤ F.T.bits := by
    have := hs.2
    unfold IntTy.promote; split <;> simp <;> omega
  unfold FxTy.P at hp
  unfold IntTy.common
  simp only [hp, hps, hs.1, if_true]
  split
  · have hbe : F.T.bits = U.promote.bits := by omega
    have h1 := hs.1
    generalize U.promote = u at *
    obtain ⟨ub, us⟩ := u
    obtain ⟨⟨tb, ts⟩, I, f, r⟩ := F
    simp only at *
    rw [hps, h1, hbe]
  · rfl

theorem ofInt_eq (F : FxTy) (hF : F.Valid) (n : Int) : ofInt F n = F.T.wrap (n * 2 ^ F.f) := by
  unfold ofInt
  rw [IntTy.wrap_wrap_of_le hF.tp]
  apply IntTy.wrap_congr
  have := IntTy.wrap_dvd F.T n
  have h2 := Dvd.dvd.mul_right this (2 ^ F.f)
  rw [← Int.dvd_neg] at h2
  have e : -((n - F.T.wrap n) * 2 ^ F.f) = F.T.wrap n * 2 ^ F.f - n * 2 ^ F.f := by ring
  rwa [e] at h2

theorem ofInt_exact (F : FxTy) (hF : F.Valid) (n : Int) (h : Representable F n) :
    Storable F (ofInt F n) ∧ val F (ofInt F n) = n ∧ ofInt F n = n * 2 ^ F.f := by
  rw [← val_int F n, representable_iff] at h
  have e : ofInt F n = n * 2 ^ F.f := by rw [ofInt_eq F hF, IntTy.wrap_of_inRange hF.tpos h]
  rw [e]; exact ⟨h, val_int F n, rfl⟩

theorem addIntAssign_eq (F : FxTy) (hF : F.Valid) (hs : SignedWide F) (x n : Int) :
    addIntAssign F x n = add F x (ofInt F n) ∧ subIntAssign F x n = sub F x (ofInt F n) := by
  have hp : F.T.promote = F.T := hF.p_eq hs.2
  have hsh : shl F.T (F.T.wrap n) F.f = .ok (ofInt F n) := by
    unfold shl ofInt
    rw [hp, if_pos hF.flt]
    unfold FxTy.P; rw [hp, IntTy.wrap_wrap]
  unfold addIntAssign subIntAssign add sub
  rw [hsh]; exact ⟨rfl, rfl⟩

/-- C10: `x + n`, `n + x` and `x - n` are exact whenever `n` and the result are representable. -/
theorem C10_add_sub (F : FxTy) (hF : F.Valid) (hs : SignedWide F) (x n : Int) (hx : Storable F x)
    (hn : Representable F n) :
    (Representable F (val F x + n) → ∃ z, addInt F x n = .ok z ∧ intAdd F n x = .ok z ∧ Storable F z ∧ val F z = val F x + n) ∧
    (Representable F (val F x - n) → ∃ z, subInt F x n = .ok z ∧ Storable F z ∧ val F z = val F x - n) ∧
    (Representable F (n - val F x) → ∃ z, intSub F n x = .ok z ∧ Storable F z ∧ val F z = n - val F x) := by
  obtain ⟨s1, s2, _⟩ := ofInt_exact F hF n hn
  obtain ⟨e1, e2⟩ := addIntAssign_eq F hF hs x n
  refine ⟨fun h => ?_, fun h => ?_, fun h => ?_⟩
  · rw [← s2] at h
    obtain ⟨z, hz⟩ := (C01_add_exact_or_ub F hF hs x (ofInt F n) hx s1).1 h
    refine ⟨z, ?_, ?_, hz.2.1, by rw [hz.2.2, s2]⟩
    · unfold addInt; rw [e1]; exact hz.1
    · unfold intAdd; rw [e1]; exact hz.1
  · rw [← s2] at h
    obtain ⟨z, hz⟩ := (C01_sub_exact_or_ub F hF hs x (ofInt F n) hx s1).1 h
    refine ⟨z, ?_, hz.2.1, by rw [hz.2.2, s2]⟩
    unfold subInt; rw [e2]; exact hz.1
  · rw [← s2] at h
    obtain ⟨z, hz⟩ := (C01_sub_exact_or_ub F hF hs (ofInt F n) x s1 hx).1 h
    exact ⟨z, hz.1, hz.2.1, by rw [hz.2.2, s2]⟩

example : SignedWide fixed32 ∧ Storable fixed32 (-98304) ∧ addInt fixed32 (-98304) 3 = .ok 98304 ∧
    intSub fixed32 3 98304 = .ok 98304 ∧ Representable fixed32 ((3 : Int) : ℚ) ∧
    Representable fixed32 (val fixed32 (-98304) + (3 : Int)) := by
  refine ⟨by decide, by decide +kernel, by decide +kernel, by decide +kernel, ⟨196608, by decide +kernel, ?_⟩,
    ⟨98304, by decide +kernel, ?_⟩⟩ <;> norm_num [val, fixed32]

/-- C10: `x * n` and `n * x` are the exact product when it is representable, and undefined otherwise. -/
theorem C10_mul (F : FxTy) (hF : F.Valid) (hs : SignedWide F) (U : IntTy) (hU : U.signed = true)
    (hb : U.bits ≤ F.T.bits) (hu0 : 0 < U.bits) (x n : Int) (hx : Storable F x) (hn : U.InRange n) :
    (Representable F (val F x * n) →
      ∃ z, mulInt F U x n = .ok z ∧ intMul F U n x = .ok z ∧ Storable F z ∧ val F z = val F x * n) ∧
    (¬ Representable F (val F x * n) → mulInt F U x n = .ub .overflow ∧ intMul F U n x = .ub .overflow) := by
  have hc := common_eq F hF hs U hU hb
  have hnT : F.T.InRange n := by
    obtain ⟨a, b⟩ := hn
    have h : (2 : Int) ^ (U.bits - 1) ≤ 2 ^ (F.T.bits - 1) := pow_le_pow_right₀ (by norm_num) (by omega)
    unfold IntTy.lo at a; unfold IntTy.hi at b
    unfold IntTy.InRange IntTy.lo IntTy.hi
    simp only [hU, hs.1, if_true] at *; omega
  have ev : val F x * n = val F (x * n) := by unfold val; push_cast; ring
  rw [ev, representable_iff]
  unfold mulInt intMul mulIntAssign
  simp only [hc]
  rw [IntTy.wrap_of_inRange hF.tpos hx, IntTy.wrap_of_inRange hF.tpos hnT, arith_signed hs.1]
  constructor
  · intro h
    have h' : F.T.InRange (x * n) := h
    rw [if_pos h', Res.bind_ok]
    exact ⟨x * n, by rw [IntTy.wrap_of_inRange hF.tpos h']; rfl, by rw [IntTy.wrap_of_inRange hF.tpos h']; rfl, h, rfl⟩
  · intro h
    have h' : ¬ F.T.InRange (x * n) := h
    rw [if_neg h']; exact ⟨rfl, rfl⟩

example : mulInt fixed32 i32 (-98304) 7 = .ok (-688128) ∧ mulInt fixed32 i16 (2 ^ 30) 2 = .ub .overflow ∧
    intMul fixed64 i32 (-3) (2 ^ 31) = .ok (-3 * 2 ^ 31) := by decide +kernel

/-- C10: `x / n` is the exact quotient truncated toward zero (undefined iff `n = 0` or the quotient of the minimum by
minus one). -/
theorem C10_div (F : FxTy) (hF : F.Valid) (hs : SignedWide F) (U : IntTy) (hU : U.signed = true)
    (hb : U.bits ≤ F.T.bits) (hu0 : 0 < U.bits) (x n : Int) (hx : Storable F x) (hn : U.InRange n) :
    (n = 0 → divInt F U x n = .ub .divZero) ∧
    (x = F.T.lo → n = -1 → divInt F U x n = .ub .overflow) ∧
    (n ≠ 0 → ¬ (x = F.T.lo ∧ n = -1) → ∃ z, divInt F U x n = .ok z ∧ Storable F z ∧ IsTrunc F (val F x / n) z) := by
  have hc := common_eq F hF hs U hU hb
  have hnT : F.T.InRange n := by
    obtain ⟨a, b⟩ := hn
    have h : (2 : Int) ^ (U.bits - 1) ≤ 2 ^ (F.T.bits - 1) := pow_le_pow_right₀ (by norm_num) (by omega)
    unfold IntTy.lo at a; unfold IntTy.hi at b
    unfold IntTy.InRange IntTy.lo IntTy.hi
    simp only [hU, hs.1, if_true] at *; omega
  unfold divInt divIntAssign
  simp only [hc]
  rw [IntTy.wrap_of_inRange hF.tpos hx, IntTy.wrap_of_inRange hF.tpos hnT]
  unfold cdiv
  refine ⟨fun h => by simp [h], fun h1 h2 => ?_, fun h1 h2 => ?_⟩
  · have hn0 : n ≠ 0 := by omega
    have hi : ¬ F.T.InRange (Int.tdiv x n) := by
      rw [tdiv_inRange_iff hx hn0 hs.1]; simp [h1, h2]
    rw [if_neg hn0, if_pos ⟨hs.1, hi⟩]; rfl
  · have hi : F.T.InRange (Int.tdiv x n) := (tdiv_inRange_iff hx h1 hs.1).2 h2
    rw [if_neg h1, if_neg (fun h => h.2 hi), Res.bind_ok, IntTy.wrap_of_inRange hF.tpos hi]
    refine ⟨_, rfl, hi, ?_⟩
    have := trunc_spec F x n h1
    have e : (x : ℚ) / n / 2 ^ F.f = val F x / n := by unfold val; rw [div_right_comm]
    rwa [e] at this

example : divInt fixed32 i32 (-98304) 7 = .ok (-14043) ∧ divInt fixed32 i64 5 0 = .ub .divZero ∧
    divInt fixed32 i32 (-2 ^ 31) (-1) = .ub .overflow := by decide +kernel

/-- C10: `n / y` and `n % y` equal `fixed(n) / y` and `fixed(n) % y`. -/
theorem C10_int_over_fixed (F : FxTy) (n y : Int) :
    intDiv F n y = div F (ofInt F n) y ∧ intRem F n y = rem F (ofInt F n) y := ⟨rfl, rfl⟩

example : intDiv fixed32 7 131072 = .ok 229376 ∧ intRem fixed32 7 131072 = .ok 65536 := by decide +kernel

/-! ## C11 -/

/-- C11 as stated: dividing a `fixed32` by an unsigned integer gives the same as by the equal signed integer. -/
def C11_statement : Prop :=
  ∀ x n : Int, Storable fixed32 x → 0 < n → n ≤ 2 ^ 31 - 1 → divInt fixed32 u32 x n = divInt fixed32 i32 x n

/-- C11 is false of the code: `-1.0 / 2u` is `32767.5`-ish, not `-0.5` (the dividend is converted to unsigned). -/
theorem C11_false : ¬ C11_statement := by
  intro h
  have := h (-65536) 2 (by decide +kernel) (by decide) (by decide)
  revert this; decide +kernel

/-- C11 restricted to non-negative dividends.  Full statement: `C11_statement`; the negative dividends are wrong. -/
theorem C11_partial (x n : Int) (hx : Storable fixed32 x) (hx0 : 0 ≤ x) (hn : 0 < n) (hn2 : n ≤ 2 ^ 31 - 1) :
    divInt fixed32 u32 x n = divInt fixed32 i32 x n := by
  have hxr : x ≤ 2 ^ 31 - 1 := by have := hx.2; simpa [fixed32, IntTy.hi] using this
  have eu : IntTy.common fixed32.T u32 = u32 := by decide
  have ei : IntTy.common fixed32.T i32 = i32 := by decide
  have ru : ∀ m : Int, 0 ≤ m → m ≤ 2 ^ 31 - 1 → u32.InRange m := by
    intro m h1 h2; unfold IntTy.InRange IntTy.lo IntTy.hi; simp; omega
  have ri : ∀ m : Int, 0 ≤ m → m ≤ 2 ^ 31 - 1 → i32.InRange m := by
    intro m h1 h2; unfold IntTy.InRange IntTy.lo IntTy.hi; simp; omega
  unfold divInt divIntAssign
  simp only [eu, ei]
  rw [IntTy.wrap_of_inRange (by decide) (ru x hx0 hxr), IntTy.wrap_of_inRange (by decide) (ru n (by omega) hn2),
    IntTy.wrap_of_inRange (by decide) (ri x hx0 hxr), IntTy.wrap_of_inRange (by decide) (ri n (by omega) hn2)]
  unfold cdiv
  have hq : Int.tdiv x n = x / n := Int.tdiv_eq_ediv_of_nonneg hx0
  have hq1 : 0 ≤ x / n := Int.ediv_nonneg hx0 (by omega)
  have hq2 : x / n ≤ x := Int.ediv_le_self _ hx0
  have hri : i32.InRange (Int.tdiv x n) := by rw [hq]; exact ri _ hq1 (by omega)
  rw [if_neg (by omega), if_neg (by simp), if_neg (by omega), if_neg (fun h => h.2 hri)]

example : Storable fixed32 458752 ∧ divInt fixed32 u32 458752 3 = .ok 152917 ∧ divInt fixed32 u32 (-65536) 2 = .ok 2147450880 := by
  decide +kernel

/-! ## C12 -/

/-- C12: the relational operators agree with the numeric order of the represented numbers. -/
theorem C12_order (F : FxTy) (x y : Int) :
    (lt x y = true ↔ val F x < val F y) ∧ (le x y = true ↔ val F x ≤ val F y) ∧
    (gt x y = true ↔ val F x > val F y) ∧ (ge x y = true ↔ val F x ≥ val F y) ∧
    (eq x y = true ↔ val F x = val F y) := by
  have h3 : (eq x y = true ↔ val F x = val F y) := by
    unfold eq; rw [decide_eq_true_iff]
    exact ⟨fun h => by rw [h], val_inj⟩
  unfold lt le gt ge cmp
  rw [gt_iff_lt, ge_iff_le, val_lt, val_lt, val_le, val_le]
  rcases Int.lt_trichotomy x y with h | h | h
  · have hc : compare x y = .lt := compare_lt_iff_lt.2 h
    rw [hc]; refine ⟨?_, ?_, ?_, ?_, h3⟩ <;> simp <;> omega
  · have hc : compare x y = .eq := compare_eq_iff_eq.2 h
    rw [hc]; refine ⟨?_, ?_, ?_, ?_, h3⟩ <;> simp <;> omega
  · have hc : compare x y = .gt := compare_gt_iff_gt.2 h
    rw [hc]; refine ⟨?_, ?_, ?_, ?_, h3⟩ <;> simp <;> omega

/-- C12: the three-way comparison is a total order (exactly one of less/equal/greater, transitive). -/
theorem C12_total (x y z : Int) :
    (lt x y = true ∨ eq x y = true ∨ gt x y = true) ∧ (le x y = true → le y z = true → le x z = true) ∧
    (le x y = true → le y x = true → eq x y = true) := by
  have o := fun a b => C12_order fixed32 a b
  refine ⟨?_, ?_, ?_⟩
  · rw [(o x y).1, (o x y).2.2.2.2, (o x y).2.2.1]
    rcases lt_trichotomy (val fixed32 x) (val fixed32 y) with h | h | h
    · exact .inl h
    · exact .inr (.inl h)
    · exact .inr (.inr h)
  · rw [(o x y).2.1, (o y z).2.1, (o x z).2.1]; exact le_trans
  · rw [(o x y).2.1, (o y x).2.1, (o x y).2.2.2.2]; exact le_antisymm

/-- C12: equal numbers hash equally; the hash is the standard hash of the raw storage value. -/
theorem C12_hash (F : FxTy) (stdHash : Int → Nat) (x y : Int) :
    (val F x = val F y → fixedHash stdHash x = fixedHash stdHash y) ∧ fixedHash stdHash x = stdHash x :=
  ⟨fun h => by rw [val_inj h], rfl⟩

example : lt (-3) 2 = true ∧ eq 7 7 = true ∧ ge 2 5 = false ∧ val fixed32 (-3) < val fixed32 2 := by
  refine ⟨by decide, by decide, by decide, ?_⟩; norm_num [val, fixed32]

/-! ## C13 -/

theorem epsilon_table :
    ∀ b ∈ ([32, 64] : List Nat), ∀ f < 64, 0 < f → f ≤ b - 1 → ∀ r : Bool,
      ∃ e, epsilon ⟨⟨b, true⟩, i128, f, r⟩ = .ok e ∧ 0 ≤ e ∧ e ≤ 2 ^ (b - 1) - 1 ∧ (16 ≤ f → e = 5 * 2 ^ (f - 16)) := by
  have h : ∀ b ∈ ([32, 64] : List Nat), ∀ f < 64, 0 < f → f ≤ b - 1 → ∀ r : Bool,
      (match epsilon ⟨⟨b, true⟩, i128, f, r⟩ with
        | .ok e => decide (0 ≤ e ∧ e ≤ 2 ^ (b - 1) - 1 ∧ (16 ≤ f → e = 5 * 2 ^ (f - 16)))
        | _ => false) = true := by decide +kernel
  intro b hb f hf h0 h1 r
  have := h b hb f hf h0 h1 r
  split at this
  · rename_i e he
    exact ⟨e, he, of_decide_eq_true this⟩
  · cases this

/-- The tolerance is defined, non-negative and storable for every signed type of at least 32 bits; it is exactly
`5/65536` for types with at least 16 fraction bits. -/
theorem C13_epsilon (F : FxTy) (hF : F.Valid) (hs : SignedWide F) :
    ∃ e, epsilon F = .ok e ∧ 0 ≤ e ∧ Storable F e ∧ (16 ≤ F.f → val F e = 5 / 65536) := by
  obtain ⟨⟨b, s⟩, I, f, r⟩ := F
  have hs1 : s = true := hs.1
  have hs2 : 32 ≤ b := hs.2
  subst hs1
  have hb : b ∈ ([32, 64] : List Nat) := by have := hF.1; simp at this ⊢; omega
  have hf := hF.flt; have hf0 := hF.fpos
  simp only at hf hf0
  obtain ⟨e, h1, h2, h3, h4⟩ := epsilon_table b hb f (by simp at hb; omega) hf0 (by omega) r
  refine ⟨e, h1, h2, ⟨?_, ?_⟩, ?_⟩
  · have : (0 : Int) < 2 ^ (b - 1) := by positivity
    unfold IntTy.lo; simp only [if_true]; omega
  · unfold IntTy.hi; simp only [if_true]; omega
  · intro h
    unfold val
    simp only
    rw [h4 h]
    obtain ⟨k, rfl⟩ : ∃ k, f = 16 + k := ⟨f - 16, by simp only at h; omega⟩
    rw [pow_add]
    have : (2 : ℚ) ^ k ≠ 0 := by positivity
    simp
    field_simp
    norm_num

/-- C13: whenever the difference is representable, the six tolerance predicates are defined and mean what they say. -/
theorem C13_nearly (F : FxTy) (hF : F.Valid) (hs : SignedWide F) (x y : Int) (_hx : Storable F x) (_hy : Storable F y)
    (hd : Representable F (val F x - val F y)) :
    ∃ e, epsilon F = .ok e ∧
      nearlyEq F x y = .ok (decide (|val F x - val F y| ≤ val F e)) ∧
      nearlyNe F x y = .ok (decide (¬ |val F x - val F y| ≤ val F e)) ∧
      nearlyGt F x y = .ok (decide (val F x - val F y > val F e)) ∧
      nearlyLt F x y = .ok (decide (val F x - val F y < - val F e)) ∧
      nearlyGtEq F x y = .ok (decide (¬ val F x - val F y < - val F e)) ∧
      nearlyLtEq F x y = .ok (decide (¬ val F x - val F y > val F e)) := by
  obtain ⟨e, he, he0, her, _⟩ := C13_epsilon F hF hs
  rw [← val_sub, representable_iff] at hd
  have hp : F.P = F.T := hF.p_eq hs.2
  have hn : F.T.InRange (-e) := by
    have h1 := her.2
    unfold IntTy.hi at h1
    unfold IntTy.InRange IntTy.lo IntTy.hi
    simp only [hs.1, if_true] at *; omega
  have hd' : F.T.InRange (x - y) := hd
  have a1 : arith F.P (x - y) = .ok (x - y) := by rw [hp]; exact arith_of_inRange hF.tpos hd'
  have a2 : arith F.P (-e) = .ok (-e) := by rw [hp]; exact arith_of_inRange hF.tpos hn
  have c1 : |val F (x - y)| ≤ val F e ↔ (x - y ≥ -e ∧ x - y ≤ e) := by
    rw [abs_le, ← val_neg, val_le, val_le]
  have c2 : val F (x - y) > val F e ↔ x - y > e := val_lt
  have c3 : val F (x - y) < -val F e ↔ x - y < -e := by rw [← val_neg, val_lt]
  refine ⟨e, he, ?_⟩
  rw [← val_sub]
  unfold nearlyGtEq nearlyLtEq nearlyEq nearlyNe nearlyGt nearlyLt
  simp only [a1, a2, he, Res.bind_ok, Res.pure_eq]
  have dn : ∀ p q : Prop, ∀ [Decidable p] [Decidable q], (p ↔ ¬ q) → (!decide p) = decide q := by
    intro p q _ _ h; by_cases hq : q <;> simp [h, hq]
  refine ⟨?_, ?_, ?_, ?_, ?_, ?_⟩ <;> congr 1
  · apply decide_eq_decide.2; rw [c1]
  · apply decide_eq_decide.2; rw [c1]; omega
  · apply decide_eq_decide.2; rw [c2]
  · apply decide_eq_decide.2; rw [c3]
  · apply dn; rw [c3]; omega
  · apply dn; rw [c2]; omega

/-- C13: exactly one of `nearly_lt`, `nearly_eq`, `nearly_gt` holds; `nearly_eq` is reflexive and symmetric. -/
theorem C13_trichotomy (F : FxTy) (hF : F.Valid) (hs : SignedWide F) (x y : Int) (hx : Storable F x) (hy : Storable F y)
    (hd : Representable F (val F x - val F y)) :
    ∃ l q g : Bool, nearlyLt F x y = .ok l ∧ nearlyEq F x y = .ok q ∧ nearlyGt F x y = .ok g ∧
      ((l = true ∧ q = false ∧ g = false) ∨ (l = false ∧ q = true ∧ g = false) ∨ (l = false ∧ q = false ∧ g = true)) := by
  obtain ⟨e, he, h1, _, h3, h4, _⟩ := C13_nearly F hF hs x y hx hy hd
  obtain ⟨e', he', he0, _⟩ := C13_epsilon F hF hs
  rw [he] at he'; cases he'
  refine ⟨_, _, _, h4, h1, h3, ?_⟩
  have hv : 0 ≤ val F e := by have := (val_le (F := F)).2 he0; rwa [val_zero] at this
  rcases lt_or_ge (val F x - val F y) (-val F e) with a | a
  · left
    refine ⟨decide_eq_true a, decide_eq_false ?_, decide_eq_false ?_⟩
    · rw [abs_le]; intro h; linarith [h.1]
    · linarith
  · rcases lt_or_ge (val F e) (val F x - val F y) with b | b
    · right; right
      refine ⟨decide_eq_false (by linarith), decide_eq_false ?_, decide_eq_true b⟩
      rw [abs_le]; intro h; linarith [h.2]
    · right; left
      exact ⟨decide_eq_false (by linarith), decide_eq_true (abs_le.2 ⟨a, b⟩), decide_eq_false (by linarith)⟩

/-- C13: `nearly_eq` is reflexive (always) and symmetric (whenever both differences are representable). -/
theorem C13_refl_symm (F : FxTy) (hF : F.Valid) (hs : SignedWide F) (x y : Int) (hx : Storable F x) (hy : Storable F y) :
    nearlyEq F x x = .ok true ∧
    (Representable F (val F x - val F y) → Representable F (val F y - val F x) → nearlyEq F x y = nearlyEq F y x) := by
  obtain ⟨e', he', he0, _⟩ := C13_epsilon F hF hs
  have hv : 0 ≤ val F e' := by have := (val_le (F := F)).2 he0; rwa [val_zero] at this
  have h0 : Representable F (val F x - val F x) := by
    rw [sub_self]
    refine ⟨0, ?_, val_zero F⟩
    have h1 : (1 : Int) ≤ 2 ^ (F.T.bits - 1) := one_le_pow₀ (by norm_num)
    have h2 : (1 : Int) ≤ 2 ^ F.T.bits := one_le_pow₀ (by norm_num)
    unfold Storable IntTy.InRange IntTy.lo IntTy.hi; split <;> omega
  constructor
  · obtain ⟨e, he, h1, _⟩ := C13_nearly F hF hs x x hx hx h0
    rw [he] at he'; cases he'
    rw [h1, sub_self, abs_zero]; simp [hv]
  · intro hd1 hd2
    obtain ⟨e, he, h1, _⟩ := C13_nearly F hF hs x y hx hy hd1
    obtain ⟨e2, he2, h2, _⟩ := C13_nearly F hF hs y x hy hx hd2
    rw [he] at he2; cases he2
    rw [h1, h2, abs_sub_comm]

example : epsilon fixed32 = .ok 5 ∧ epsilon fixed64 = .ok 327680 ∧ nearlyEq fixed32 100 105 = .ok true ∧
    nearlyEq fixed32 100 106 = .ok false ∧ nearlyLt fixed32 100 106 = .ok true ∧
    nearlyEq fixed32 (2 ^ 31 - 1) (-1) = .ub .overflow := by decide +kernel

end Eirin.Props
