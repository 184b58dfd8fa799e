import Verif.Lemmas.Mixed

/-! # Property C150: mixed fixed/integer arithmetic on every layout with every integer type

C10 is about signed storage of 32 or 64 bits and signed integers no wider than the storage; C11 about `fixed32 / unsigned`. -/

namespace Eirin.Props
open Spec

/-- An integer type of C++: 8, 16, 32, 64 or (as an extension) 128 bits, signed or not. -/
def CInt (U : IntTy) : Prop := U.bits = 8 ∨ U.bits = 16 ∨ U.bits = 32 ∨ U.bits = 64 ∨ U.bits = 128

/-- The type in which storage and integer are combined: wide enough for both; if signed it contains both ranges. -/
theorem common_all (a b : IntTy) (ha : a.bits = 8 ∨ a.bits = 16 ∨ a.bits = 32 ∨ a.bits = 64) (hb : CInt b) :
    let K := IntTy.common a b
    0 < K.bits ∧ a.bits ≤ K.bits ∧ b.bits ≤ K.bits ∧ a.hi ≤ K.hi ∧ b.hi ≤ K.hi ∧
    (K.signed = true → K.lo ≤ a.lo ∧ K.lo ≤ b.lo) ∧
    (a.signed = true → (b.signed = true ∨ b.bits < 32 ∨ b.bits < a.bits) → K.signed = true) ∧
    (b.signed = false → 32 ≤ b.bits → a.bits ≤ b.bits → K = b) ∧
    (K.signed = false → K.bits = 32 ∨ K.bits = 64 ∨ K.bits = 128) ∧
    (K.signed = true → a.signed = false → a.hi < K.hi) ∧
    (b.signed = true → -(2 : Int) ^ (K.bits - 1) ≤ b.lo) := by
  obtain ⟨n, s⟩ := a
  obtain ⟨m, t⟩ := b
  unfold CInt at hb
  simp only at ha hb
  rcases ha with rfl | rfl | rfl | rfl <;> rcases hb with rfl | rfl | rfl | rfl | rfl <;> cases s <;> cases t <;> decide +kernel

/-- What `fixed * integral` computes. -/
theorem mulInt_nf (F : FxTy) (hF : F.Valid) (U : IntTy) (hU : CInt U) {x n : Int} (hx : Storable F x) (hn : U.InRange n) :
    mulInt F U x n = if (IntTy.common F.T U).signed = true ∧ ¬ (IntTy.common F.T U).InRange (x * n) then .ub .overflow else .ok (F.T.wrap (x * n)) := by
  obtain ⟨k0, k1, k2, k3, k4, k5, -⟩ := common_all F.T U hF.1 hU
  unfold mulInt mulIntAssign arith
  generalize IntTy.common F.T U = K at *
  dsimp only
  by_cases hs : K.signed = true
  · obtain ⟨l1, l2⟩ := k5 hs
    have hx' : K.InRange x := ⟨le_trans l1 hx.1, le_trans hx.2 k3⟩
    have hn' : K.InRange n := ⟨le_trans l2 hn.1, le_trans hn.2 k4⟩
    rw [if_pos hs, IntTy.wrap_of_inRange k0 hx', IntTy.wrap_of_inRange k0 hn']
    by_cases hr : K.InRange (x * n)
    · rw [if_pos hr, if_neg (fun h => h.2 hr), Res.bind_ok]; rfl
    · rw [if_neg hr, if_pos ⟨hs, hr⟩, Res.bind_ub]
  · rw [if_neg hs, if_neg (fun h => hs h.1), Res.bind_ok]
    show Res.ok _ = _
    rw [IntTy.wrap_wrap_of_le k1]
    congr 1
    apply IntTy.wrap_congr
    have d : (2 : Int) ^ F.T.bits ∣ 2 ^ K.bits := pow_dvd_pow 2 k1
    have d1 := d.trans (IntTy.wrap_dvd K x)
    have d2 := d.trans (IntTy.wrap_dvd K n)
    have : K.wrap x * K.wrap n - x * n = -((x - K.wrap x) * K.wrap n + x * (n - K.wrap n)) := by ring
    rw [this, Int.dvd_neg]
    exact Int.dvd_add (Dvd.dvd.mul_right d1 _) (Dvd.dvd.mul_left d2 _)

/-- C150: on every layout and for every integer type, multiplying by an integer is exact whenever the product is representable.  Otherwise the result is
the product reduced to the range, or the multiplication is undefined (overflow in a signed common type). -/
theorem C150_mul (F : FxTy) (hF : F.Valid) (U : IntTy) (hU : CInt U) (x n : Int) (hx : Storable F x) (hn : U.InRange n) :
    intMul F U n x = mulInt F U x n ∧
    (Representable F (val F x * n) → ∃ z, mulInt F U x n = .ok z ∧ Storable F z ∧ val F z = val F x * n) ∧
    (mulInt F U x n = .ub .overflow ∨ ∃ z, mulInt F U x n = .ok z ∧ IsWrap F (x * n) z) := by
  have nf := mulInt_nf F hF U hU hx hn
  have e : val F x * n = val F (x * n) := by unfold val; push_cast; ring
  refine ⟨rfl, ?_, ?_⟩
  · intro h
    rw [e, representable_iff] at h
    obtain ⟨k0, k1, k2, k3, k4, k5, -⟩ := common_all F.T U hF.1 hU
    rw [if_neg (fun hc => hc.2 ⟨le_trans (k5 hc.1).1 h.1, le_trans h.2 k3⟩), IntTy.wrap_of_inRange hF.tpos h] at nf
    exact ⟨_, nf, h, e.symm⟩
  · rw [nf]
    split
    · exact Or.inl rfl
    · exact Or.inr ⟨_, rfl, isWrap_wrap hF _⟩

-- 16-bit storage with 8 fraction bits times an unsigned int, 64-bit unsigned storage times a negative int, and an overflow in `int`
example : (let F : FxTy := ⟨⟨16, true⟩, i32, 8, false⟩; F.Valid ∧ CInt u32 ∧ mulInt F u32 (-384) 3 = .ok (-1152)) ∧
    (let F : FxTy := ⟨u64, ⟨128, false⟩, 32, false⟩; F.Valid ∧ CInt i32 ∧ mulInt F i32 5 (-1) = .ok (2 ^ 64 - 5)) ∧
    mulInt fixed32 i32 65536 32768 = .ub .overflow := by unfold CInt; decide +kernel

/-- C150: multiplication is never undefined when storage and integer have at most 64 bits and one of them is unsigned and at least as wide as
`int` and as the other. -/
theorem C150_mul_defined (F : FxTy) (hF : F.Valid) (U : IntTy) (hU : CInt U) (x n : Int) (hx : Storable F x) (hn : U.InRange n)
    (h : (F.T.signed = false ∧ 32 ≤ F.T.bits ∧ U.bits ≤ F.T.bits) ∨ (U.signed = false ∧ 32 ≤ U.bits ∧ F.T.bits ≤ U.bits)) :
    ∃ z, mulInt F U x n = .ok z ∧ IsWrap F (x * n) z := by
  have key : ∀ a b : IntTy, (a.bits = 8 ∨ a.bits = 16 ∨ a.bits = 32 ∨ a.bits = 64) → CInt b →
      (a.signed = false ∧ 32 ≤ a.bits ∧ b.bits ≤ a.bits) ∨ (b.signed = false ∧ 32 ≤ b.bits ∧ a.bits ≤ b.bits) → (IntTy.common a b).signed = false := by
    rintro ⟨n, s⟩ ⟨m, t⟩ ha hb
    unfold CInt at hb
    simp only at ha hb
    rcases ha with rfl | rfl | rfl | rfl <;> rcases hb with rfl | rfl | rfl | rfl | rfl <;> cases s <;> cases t <;> decide +kernel
  have hs := key F.T U hF.1 hU h
  rw [mulInt_nf F hF U hU hx hn, if_neg (by rw [hs]; simp)]
  exact ⟨_, rfl, isWrap_wrap hF _⟩

example : mulInt fixed32 u32 65536 32768 = .ok (-2147483648) := by decide +kernel

/-- What `fixed / integral` computes when the common type keeps both operands. -/
theorem divInt_nf (F : FxTy) (U : IntTy) {x n : Int} (k0 : 0 < (IntTy.common F.T U).bits)
    (hx : (IntTy.common F.T U).InRange x) (hn : (IntTy.common F.T U).InRange n) (h0 : n ≠ 0) (hq : (IntTy.common F.T U).InRange (Int.tdiv x n)) :
    divInt F U x n = .ok (F.T.wrap (Int.tdiv x n)) := by
  unfold divInt divIntAssign cdiv
  generalize IntTy.common F.T U = K at *
  dsimp only
  rw [IntTy.wrap_of_inRange k0 hx, IntTy.wrap_of_inRange k0 hn, if_neg h0, if_neg (fun h => h.2 hq), Res.bind_ok]; rfl

/-- C150 as one would like it: on every layout and for every integer type, dividing by a non-zero integer truncates the exact quotient toward zero whenever
that is representable. -/
def C150_statement : Prop := ∀ (F : FxTy) (U : IntTy), F.Valid → CInt U → ∀ x n q : Int, Storable F x → U.InRange n → n ≠ 0 → Storable F q →
  IsTrunc F (val F x / n) q → divInt F U x n = .ok q

/-- C150: division by zero is undefined for every type. -/
theorem C150_div_zero (F : FxTy) (hF : F.Valid) (U : IntTy) (hU : CInt U) (x : Int) : divInt F U x 0 = .ub .divZero := by
  obtain ⟨k0, -⟩ := common_all F.T U hF.1 hU
  have : ∀ K : IntTy, K.wrap 0 = 0 := by intro K; unfold IntTy.wrap; split <;> simp
  unfold divInt divIntAssign cdiv
  dsimp only
  rw [this, if_pos rfl, Res.bind_ub]

example : CInt u64 ∧ divInt fixed64 u64 7 0 = .ub .divZero := by unfold CInt; decide +kernel

/-- C150, what holds: the statement for every non-negative dividend (so on every unsigned layout), and for negative dividends unless the integer type is
unsigned, at least as wide as `int` and at least as wide as the storage.  Missing: those, for which `C150_div_wrong` gives an error on every layout. -/
theorem C150_div_partial (F : FxTy) (hF : F.Valid) (U : IntTy) (hU : CInt U) (x n q : Int) (hx : Storable F x) (hn : U.InRange n) (h0 : n ≠ 0)
    (hq : Storable F q) (ht : IsTrunc F (val F x / n) q) (h : 0 ≤ x ∨ U.signed = true ∨ U.bits < 32 ∨ U.bits < F.T.bits) :
    divInt F U x n = .ok q := by
  obtain ⟨k0, k1, k2, k3, k4, k5, k6, k7, k8, k9, k10⟩ := common_all F.T U hF.1 hU
  have hnq : (n : ℚ) ≠ 0 := by exact_mod_cast h0
  have eq : q = Int.tdiv x n := by
    have t := trunc_spec F x n h0
    have : (x : ℚ) / n / 2 ^ F.f = val F x / n := by unfold val; field_simp
    rw [this] at t
    exact isTrunc_unique ht t
  by_cases hs : (IntTy.common F.T U).signed = true
  · obtain ⟨l1, l2⟩ := k5 hs
    rw [divInt_nf F U k0 ⟨le_trans l1 hx.1, le_trans hx.2 k3⟩ ⟨le_trans l2 hn.1, le_trans hn.2 k4⟩ h0
      (by rw [← eq]; exact ⟨le_trans l1 hq.1, le_trans hq.2 k3⟩), ← eq, IntTy.wrap_of_inRange hF.tpos hq]
  · have hs' : (IntTy.common F.T U).signed = false := by simpa using hs
    have x0 : 0 ≤ x := by
      by_contra hc
      have hT : F.T.signed = true := by
        by_contra hT
        have hlo : F.T.lo = 0 := by unfold IntTy.lo; simp [hT]
        have := hx.1; omega
      rcases h with h | h
      · exact hc h
      · exact hs (k6 hT h)
    have hlo : (IntTy.common F.T U).lo = 0 := by unfold IntTy.lo; simp [hs']
    have hhi : (IntTy.common F.T U).hi = 2 ^ (IntTy.common F.T U).bits - 1 := by unfold IntTy.hi; simp [hs']
    have hxK : (IntTy.common F.T U).InRange x := ⟨by omega, le_trans hx.2 k3⟩
    by_cases n0 : 0 ≤ n
    · have q0 : 0 ≤ Int.tdiv x n := Int.tdiv_nonneg x0 n0
      rw [divInt_nf F U k0 hxK ⟨by omega, le_trans hn.2 k4⟩ h0
        ⟨by omega, by rw [← eq]; exact le_trans hq.2 k3⟩, ← eq, IntTy.wrap_of_inRange hF.tpos hq]
    · -- a negative integer: only quotients that truncate to zero are representable
      have hUs : U.signed = true := by
        by_contra hc
        have : U.lo = 0 := by unfold IntTy.lo; simp [hc]
        have := hn.1; omega
      have hTu : F.T.signed = false := by
        by_contra hT
        exact hs (k6 (by simpa using hT) (Or.inl hUs))
      have hTlo : F.T.lo = 0 := by unfold IntTy.lo; simp [hTu]
      have qz : q = 0 := by
        have h1 : Int.tdiv x n ≤ 0 := Int.tdiv_nonpos_of_nonneg_of_nonpos x0 (by omega)
        have := hq.1; omega
      have hxn : x < -n := by
        by_contra hc
        have h1 : Int.tdiv x (-n) = 0 := by rw [Int.tdiv_neg, ← eq, qz]; rfl
        rw [Int.tdiv_eq_ediv_of_nonneg x0] at h1
        have := Int.le_ediv_of_mul_le (c := -n) (a := 1) (b := x) (by omega) (by omega)
        omega
      have nb := le_trans (k10 hUs) hn.1
      unfold divInt divIntAssign cdiv
      generalize IntTy.common F.T U = K at *
      dsimp only
      have e2 : (2 : Int) ^ K.bits = 2 * 2 ^ (K.bits - 1) := by
        rw [← pow_succ']; congr 1; omega
      have hp : (0 : Int) < 2 ^ (K.bits - 1) := by positivity
      have wn : K.wrap n = n + 2 ^ K.bits := by
        have hr : K.InRange (n + 2 ^ K.bits) := ⟨by omega, by omega⟩
        rw [← IntTy.wrap_of_inRange k0 hr]
        apply IntTy.wrap_congr
        exact ⟨-1, by ring⟩
      have hlt : x < n + 2 ^ K.bits := by omega
      have e0 : Int.tdiv x (n + 2 ^ K.bits) = 0 := Int.tdiv_eq_zero_of_lt x0 hlt
      rw [IntTy.wrap_of_inRange k0 hxK, wn, if_neg (by omega), e0, if_neg (fun h => hs h.1), Res.bind_ok, qz]
      show Res.ok _ = _
      rw [IntTy.wrap_of_inRange hF.tpos (n := 0) (by rw [← qz]; exact hq)]

example : (let F : FxTy := ⟨⟨16, true⟩, i32, 8, false⟩; divInt F ⟨16, false⟩ (-385) 2 = .ok (-192)) ∧
    (let F : FxTy := ⟨u32, u64, 16, false⟩; divInt F i32 5 (-7) = .ok 0) ∧ divInt fixed64 u32 (-7) 2 = .ok (-3) := by decide +kernel

/-- What dividing a negative number by an unsigned integer at least as wide as `int` and the storage computes: the dividend is first turned into a huge
positive number. -/
theorem divInt_neg_unsigned (F : FxTy) (hF : F.Valid) (U : IntTy) (hU : CInt U) (h1 : U.signed = false) (h2 : 32 ≤ U.bits)
    (h3 : F.T.bits ≤ U.bits) {x n : Int} (hx : Storable F x) (hx0 : x < 0) (hn : U.InRange n) (hn0 : 0 < n) :
    divInt F U x n = .ok (F.T.wrap ((x + 2 ^ U.bits) / n)) := by
  obtain ⟨k0, k1, k2, k3, k4, k5, k6, k7, k8, k9, k10⟩ := common_all F.T U hF.1 hU
  rw [k7 h1 h2 h3] at k0
  have hT : F.T.signed = true := by
    by_contra hT
    have hlo : F.T.lo = 0 := by unfold IntTy.lo; simp [hT]
    have := hx.1; omega
  have hlo : F.T.lo = -2 ^ (F.T.bits - 1) := by unfold IntTy.lo; simp [hT]
  have ulo : U.lo = 0 := by unfold IntTy.lo; simp [h1]
  have uhi : U.hi = 2 ^ U.bits - 1 := by unfold IntTy.hi; simp [h1]
  have hp : (2 : Int) ^ (F.T.bits - 1) ≤ 2 ^ U.bits := pow_le_pow_right₀ (by norm_num) (by omega)
  have hx1 := hx.1
  have hr : U.InRange (x + 2 ^ U.bits) := ⟨by omega, by omega⟩
  have wx : U.wrap x = x + 2 ^ U.bits := by
    rw [← IntTy.wrap_of_inRange k0 hr]
    apply IntTy.wrap_congr
    exact ⟨-1, by ring⟩
  unfold divInt divIntAssign cdiv
  rw [k7 h1 h2 h3]
  dsimp only
  rw [wx, IntTy.wrap_of_inRange k0 hn, if_neg (by omega), if_neg (by rw [h1]; simp), Res.bind_ok, Int.tdiv_eq_ediv_of_nonneg (by omega)]
  rfl

/-- C150: the missing cases fail on every signed layout: the least negative number divided by 2 is not 0. -/
theorem C150_div_wrong (F : FxTy) (hF : F.Valid) (hT : F.T.signed = true) (U : IntTy) (hU : CInt U) (h1 : U.signed = false) (h2 : 32 ≤ U.bits)
    (h3 : F.T.bits ≤ U.bits) : IsTrunc F (val F (-1) / 2) 0 ∧ ∃ z, divInt F U (-1) 2 = .ok z ∧ z ≠ 0 := by
  have t0 := hF.tpos
  have hp : (0 : Int) < 2 ^ (F.T.bits - 1) := by positivity
  have hx : Storable F (-1) := by
    unfold Storable IntTy.InRange IntTy.lo IntTy.hi; simp [hT]; omega
  have hn : U.InRange 2 := by
    unfold CInt at hU
    obtain ⟨b, s⟩ := U
    simp only at h1 h2 hU
    subst h1
    rcases hU with rfl | rfl | rfl | rfl | rfl <;> decide
  refine ⟨?_, _, divInt_neg_unsigned F hF U hU h1 h2 h3 hx (by norm_num) hn (by norm_num), ?_⟩
  · have t := trunc_spec F (-1) 2 (by norm_num)
    have : (((-1 : Int) : ℚ)) / ((2 : Int) : ℚ) / 2 ^ F.f = val F (-1) / 2 := by unfold val; push_cast; field_simp
    rw [this] at t
    exact t
  · intro hz
    have d := IntTy.wrap_dvd F.T ((-1 + 2 ^ U.bits) / 2)
    rw [hz, sub_zero] at d
    have e2 : (2 : Int) ^ U.bits = 2 * 2 ^ (U.bits - 1) := by
      rw [← pow_succ']; congr 1; omega
    have e3 : (-1 + 2 ^ U.bits : Int) / 2 = 2 ^ (U.bits - 1) - 1 := by omega
    rw [e3] at d
    have t1 : 2 ≤ F.T.bits := by rcases hF.1 with h | h | h | h <;> omega
    have d2 : (2 : Int) ∣ 2 ^ F.T.bits := dvd_pow_self 2 (by omega)
    have d3 : (2 : Int) ∣ 2 ^ (U.bits - 1) := dvd_pow_self 2 (by omega)
    have := d2.trans d
    omega

example : divInt fixed32 u32 (-1) 2 = .ok 2147483647 ∧ divInt fixed32 u64 (-1) 2 = .ok (-1) := by decide +kernel

/-- C150: when integer and storage have the same width, a negative dividend is divided rightly exactly when the divisor is 1 or so large that both the true and
the converted quotient are 0. -/
theorem C150_div_exact (F : FxTy) (hF : F.Valid) (U : IntTy) (hU : CInt U) (h1 : U.signed = false) (h2 : 32 ≤ U.bits)
    (h3 : F.T.bits = U.bits) (x n : Int) (hx : Storable F x) (hx0 : x < 0) (hn : U.InRange n) (hn0 : 0 < n) :
    ∃ z, divInt F U x n = .ok z ∧ (IsTrunc F (val F x / n) z ↔ n = 1 ∨ 2 ^ F.T.bits + x < n) := by
  refine ⟨_, divInt_neg_unsigned F hF U hU h1 h2 h3.le hx hx0 hn hn0, ?_⟩
  have hT : F.T.signed = true := by
    by_contra hT
    have hlo : F.T.lo = 0 := by unfold IntTy.lo; simp [hT]
    have := hx.1; omega
  have hlo : F.T.lo = -2 ^ (F.T.bits - 1) := by unfold IntTy.lo; simp [hT]
  have hhi : F.T.hi = 2 ^ (F.T.bits - 1) - 1 := by unfold IntTy.hi; simp [hT]
  have hp : (0 : Int) < 2 ^ (F.T.bits - 1) := by positivity
  have t0 := hF.tpos
  have e2 : (2 : Int) ^ F.T.bits = 2 * 2 ^ (F.T.bits - 1) := by
    rw [← pow_succ']; congr 1; omega
  have hx1 := hx.1
  have t : IsTrunc F (val F x / n) (Int.tdiv x n) := by
    have t := trunc_spec F x n (by omega)
    have hnq : (n : ℚ) ≠ 0 := by exact_mod_cast hn0.ne'
    have : (x : ℚ) / n / 2 ^ F.f = val F x / n := by unfold val; field_simp
    rwa [this] at t
  have tn : Int.tdiv x n ≤ 0 := by
    have : 0 ≤ Int.tdiv (-x) n := Int.tdiv_nonneg (by omega) hn0.le
    rw [Int.neg_tdiv] at this; omega
  rw [← h3]
  constructor
  · intro h
    have e := isTrunc_unique h t
    by_contra hc
    push Not at hc
    have n2 : 2 ≤ n := by omega
    have q1 : 1 ≤ (x + 2 ^ F.T.bits) / n := Int.le_ediv_of_mul_le hn0 (by omega)
    have q2 : (x + 2 ^ F.T.bits) / n < 2 ^ (F.T.bits - 1) := by
      apply Int.ediv_lt_of_lt_mul hn0
      nlinarith
    rw [IntTy.wrap_of_inRange t0 ⟨by omega, by omega⟩] at e
    omega
  · rintro (rfl | h)
    · have : F.T.wrap ((x + 2 ^ F.T.bits) / 1) = Int.tdiv x 1 := by
        rw [Int.ediv_one, Int.tdiv_one, ← IntTy.wrap_of_inRange t0 hx]
        rw [IntTy.wrap_of_inRange t0 hx]
        conv_rhs => rw [← IntTy.wrap_of_inRange t0 hx]
        apply IntTy.wrap_congr
        exact ⟨1, by ring⟩
      rw [this]; exact t
    · have a : (x + 2 ^ F.T.bits) / n = 0 := Int.ediv_eq_zero_of_lt (by omega) (by omega)
      have b : Int.tdiv x n = 0 := by
        have : Int.tdiv (-x) n = 0 := Int.tdiv_eq_zero_of_lt (by omega) (by omega)
        rw [Int.neg_tdiv] at this; omega
      rw [a, IntTy.wrap_of_inRange t0 ⟨by omega, by omega⟩]
      rw [b] at t; exact t

example : divInt fixed32 u32 (-5) 1 = .ok (-5) ∧ divInt fixed32 u32 (-5) 4294967292 = .ok 0 ∧ divInt fixed32 u32 (-5) 4294967291 = .ok 1 := by decide +kernel

/-- C150 is false as stated. -/
theorem C150_false : ¬ C150_statement := by
  intro h
  obtain ⟨ht, z, hz, hz0⟩ := C150_div_wrong fixed32 (by decide) rfl u32 (Or.inr (Or.inr (Or.inl rfl))) rfl (by decide) (by decide)
  have := h fixed32 u32 (by decide) (Or.inr (Or.inr (Or.inl rfl))) (-1) 2 0 (by decide) (by decide) (by decide) (by decide) ht
  rw [this] at hz
  injection hz with hz
  exact hz0 hz.symm

/-- Adding a multiple of the storage's modulus before reducing changes nothing. -/
theorem wrap_shift_congr (F : FxTy) (x n : Int) (c : Int) (K : IntTy) (hK : F.T.bits ≤ K.bits) :
    F.T.wrap (x + c * K.wrap (F.T.wrap n * 2 ^ F.f)) = F.T.wrap (x + c * (n * 2 ^ F.f)) := by
  apply IntTy.wrap_congr
  have d : (2 : Int) ^ F.T.bits ∣ 2 ^ K.bits := pow_dvd_pow 2 hK
  have d1 := d.trans (IntTy.wrap_dvd K (F.T.wrap n * 2 ^ F.f))
  have d2 := IntTy.wrap_dvd F.T n
  have : x + c * K.wrap (F.T.wrap n * 2 ^ F.f) - (x + c * (n * 2 ^ F.f)) =
      -(c * (F.T.wrap n * 2 ^ F.f - K.wrap (F.T.wrap n * 2 ^ F.f)) + (n - F.T.wrap n) * (2 ^ F.f * c)) := by ring
  rw [this, Int.dvd_neg]
  exact Int.dvd_add (Dvd.dvd.mul_left d1 _) (Dvd.dvd.mul_right d2 _)

/-- The shifted integer and the sums in a promoted type: nothing overflows except on 16-bit unsigned storage with 15 fraction bits. -/
theorem narrow_shift (F : FxTy) (hF : F.Valid) (hw : F.T.bits < 32) {x : Int} (n : Int) (hx : Storable F x) :
    F.P = i32 ∧ i32.InRange (F.T.wrap n * 2 ^ F.f) ∧ i32.InRange (x - F.T.wrap n * 2 ^ F.f) ∧
    (i32.InRange (x + F.T.wrap n * 2 ^ F.f) ∨
      F.T.signed = false ∧ F.T.bits = 16 ∧ F.f = 15 ∧ 2 ^ 31 ≤ x + F.T.wrap n * 2 ^ 15) := by
  have hr := IntTy.wrap_inRange n hF.tpos
  obtain ⟨⟨b, s⟩, I, f, r⟩ := F
  have hb := hF.1
  have hf := hF.flt
  unfold Storable at hx
  unfold FxTy.P
  simp only at hb hf hw hx hr ⊢
  generalize IntTy.wrap ⟨b, s⟩ n = w at *
  have hp : (0 : Int) < 2 ^ f := by positivity
  have i32r : ∀ m : Int, i32.InRange m ↔ -2147483648 ≤ m ∧ m ≤ 2147483647 := by
    intro m; unfold IntTy.InRange i32 IntTy.lo IntTy.hi; norm_num
  simp only [i32r]
  unfold IntTy.InRange IntTy.lo IntTy.hi at hx hr
  have h8 : b = 8 ∨ b = 16 := by rcases hb with h | h | h | h <;> omega
  rcases h8 with rfl | rfl
  · have hp2 : (2 : Int) ^ f ≤ 2 ^ 7 := pow_le_pow_right₀ (by norm_num) (by omega)
    generalize hP : (2 : Int) ^ f = P at *
    cases s <;> norm_num at hx hr hp2 <;> refine ⟨rfl, ⟨?_, ?_⟩, ⟨?_, ?_⟩, Or.inl ⟨?_, ?_⟩⟩ <;> nlinarith
  · cases s
    · norm_num at hx hr
      by_cases h15 : f = 15
      · subst h15
        norm_num
        refine ⟨rfl, by omega, by omega, by omega⟩
      · have hp2 : (2 : Int) ^ f ≤ 2 ^ 14 := pow_le_pow_right₀ (by norm_num) (by omega)
        generalize hP : (2 : Int) ^ f = P at *
        norm_num at hp2
        refine ⟨rfl, ⟨?_, ?_⟩, ⟨?_, ?_⟩, Or.inl ⟨?_, ?_⟩⟩ <;> nlinarith
    · have hp2 : (2 : Int) ^ f ≤ 2 ^ 15 := pow_le_pow_right₀ (by norm_num) (by omega)
      generalize hP : (2 : Int) ^ f = P at *
      norm_num at hx hr hp2
      refine ⟨rfl, ⟨?_, ?_⟩, ⟨?_, ?_⟩, Or.inl ⟨?_, ?_⟩⟩ <;> nlinarith

/-- C150: on unsigned and narrow layouts adding and subtracting an integer gives the exact sum or difference reduced to the range, whether or not the
integer itself is representable (in particular the exact one if that is representable).  The only exception is `fixed + integral` on 16-bit
unsigned storage with 15 fraction bits, where the addition in `int` can overflow; see `C150_add_overflow`. -/
theorem C150_add_sub (F : FxTy) (hF : F.Valid) (hs : ¬ SignedWide F) (x n : Int) (hx : Storable F x) :
    intAdd F n x = addInt F x n ∧
    (¬ (F.T.signed = false ∧ F.T.bits = 16 ∧ F.f = 15) → ∃ z, addInt F x n = .ok z ∧ IsWrap F (x + n * 2 ^ F.f) z) ∧
    (∃ z, subInt F x n = .ok z ∧ IsWrap F (x - n * 2 ^ F.f) z) ∧
    (∃ z, intSub F n x = .ok z ∧ IsWrap F (n * 2 ^ F.f - x) z) := by
  have hsub : intSub F n x = sub F (ofInt F n) x := rfl
  have ho : Storable F (ofInt F n) := by rw [ofInt_eq F hF]; exact IntTy.wrap_inRange _ hF.tpos
  have h3 : ∃ z, intSub F n x = .ok z ∧ IsWrap F (n * 2 ^ F.f - x) z := by
    rw [hsub, sub_nf hF ho hx, if_neg (fun h => hs h.1)]
    refine ⟨_, rfl, ?_⟩
    have : F.T.wrap (ofInt F n - x) = F.T.wrap (n * 2 ^ F.f - x) := by
      rw [ofInt_eq F hF]
      apply IntTy.wrap_congr
      have := IntTy.wrap_dvd F.T (n * 2 ^ F.f)
      have e : F.T.wrap (n * 2 ^ F.f) - x - (n * 2 ^ F.f - x) = -(n * 2 ^ F.f - F.T.wrap (n * 2 ^ F.f)) := by ring
      rw [e, Int.dvd_neg]; exact this
    rw [this]; exact isWrap_wrap hF _
  have ca := wrap_shift_congr F x n 1
  have cs := wrap_shift_congr F x n (-1)
  simp only [one_mul, neg_mul, ← sub_eq_add_neg] at ca cs
  refine ⟨rfl, ?_, ?_, h3⟩
  · intro hx15
    refine ⟨F.T.wrap (x + n * 2 ^ F.f), ?_, isWrap_wrap hF _⟩
    unfold addInt addIntAssign shl
    rw [if_pos (lt_of_lt_of_le hF.flt hF.tp), Res.bind_ok]
    by_cases hw : F.T.bits < 32
    · obtain ⟨p, r1, -, r2⟩ := narrow_shift F hF hw n hx
      have r2 := r2.resolve_right (fun h => hx15 ⟨h.1, h.2.1, h.2.2.1⟩)
      show (arith F.P (x + F.P.wrap _) >>= _) = _
      rw [← ca F.P hF.tp, p, IntTy.wrap_of_inRange (by decide) r1, arith_of_inRange (by decide) r2, Res.bind_ok]; rfl
    · have hw : 32 ≤ F.T.bits := by omega
      rw [arith_store hF (Or.inr hw), if_neg (fun h => hs h.1), ca _ hF.tp]
  · refine ⟨F.T.wrap (x - n * 2 ^ F.f), ?_, isWrap_wrap hF _⟩
    unfold subInt subIntAssign shl
    rw [if_pos (lt_of_lt_of_le hF.flt hF.tp), Res.bind_ok]
    by_cases hw : F.T.bits < 32
    · obtain ⟨p, r1, r2, -⟩ := narrow_shift F hF hw n hx
      show (arith F.P (x - F.P.wrap _) >>= _) = _
      rw [← cs F.P hF.tp, p, IntTy.wrap_of_inRange (by decide) r1, arith_of_inRange (by decide) r2, Res.bind_ok]; rfl
    · have hw : 32 ≤ F.T.bits := by omega
      rw [arith_store hF (Or.inr hw), if_neg (fun h => hs h.1), cs _ hF.tp]

-- 8-bit unsigned storage: 0.5 + 300 and 3 - 0.5 (modulo 16 with 4 fraction bits)
example : (let F : FxTy := ⟨⟨8, false⟩, ⟨16, false⟩, 4, false⟩; F.Valid ∧ ¬ SignedWide F ∧ Storable F 8 ∧ addInt F 8 300 = .ok 200 ∧ intSub F 3 8 = .ok 40 ∧
    subInt F 8 (-1) = .ok 24) := by unfold SignedWide; decide +kernel

/-- C150: on 16-bit unsigned storage with 15 fraction bits `fixed + integral` is undefined exactly when the sum of the raw value and `(n mod 2^16)·2^15`
does not fit in an `int`; otherwise it is the sum reduced to the range. -/
theorem C150_add_overflow (F : FxTy) (hF : F.Valid) (h1 : F.T.signed = false) (h2 : F.T.bits = 16) (h3 : F.f = 15) (x n : Int) (hx : Storable F x) :
    (2 ^ 31 ≤ x + n % 2 ^ 16 * 2 ^ 15 → addInt F x n = .ub .overflow) ∧
    (x + n % 2 ^ 16 * 2 ^ 15 < 2 ^ 31 → ∃ z, addInt F x n = .ok z ∧ IsWrap F (x + n * 2 ^ 15) z) := by
  have ca := wrap_shift_congr F x n 1 F.P hF.tp
  simp only [one_mul] at ca
  obtain ⟨p, r1, -, -⟩ := narrow_shift F hF (by omega) n hx
  have hw : F.T.wrap n = n % 2 ^ 16 := by
    have : F.T = ⟨16, false⟩ := by
      revert h1 h2; generalize F.T = t; intro h1 h2; obtain ⟨a, b⟩ := t; simp only at h1 h2; subst h1 h2; rfl
    rw [this]; rfl
  have x0 : 0 ≤ x := by
    have hlo : F.T.lo = 0 := by unfold IntTy.lo; simp [h1]
    have := hx.1; omega
  have e : addInt F x n = (arith i32 (x + n % 2 ^ 16 * 2 ^ 15) >>= fun s => pure (F.T.wrap s)) := by
    unfold addInt addIntAssign shl
    rw [if_pos (lt_of_lt_of_le hF.flt hF.tp), Res.bind_ok]
    show (arith F.P (x + F.P.wrap _) >>= _) = _
    rw [p, IntTy.wrap_of_inRange (by decide) r1, hw, h3]
  have i32r : ∀ m : Int, i32.InRange m ↔ -2147483648 ≤ m ∧ m ≤ 2147483647 := by
    intro m; unfold IntTy.InRange i32 IntTy.lo IntTy.hi; norm_num
  constructor
  · intro h
    rw [e]; unfold arith
    rw [if_pos (show i32.signed = true from rfl), if_neg (by rw [i32r]; omega), Res.bind_ub]
  · intro h
    rw [e, arith_of_inRange (by decide) (by rw [i32r]; omega), Res.bind_ok]
    refine ⟨_, rfl, ?_⟩
    rw [p, IntTy.wrap_of_inRange (by decide) r1, hw, h3] at ca
    rw [ca]; exact isWrap_wrap hF _

-- 1.0 + (-1) and 1.0 + 65535
example : (let F : FxTy := ⟨⟨16, false⟩, ⟨32, false⟩, 15, false⟩; F.Valid ∧ addInt F 32768 (-1) = .ub .overflow ∧ addInt F 32767 (-1) = .ok 65535) := by
  decide +kernel

/-- C150: on signed layouts of 32 and 64 bits an integer that is not representable makes the addition undefined even when the exact sum is
representable. -/
theorem C150_add_wide (F : FxTy) (hF : F.Valid) (hs : SignedWide F) (x n : Int) (hn : ¬ Representable F n) :
    (Representable F (val F x + n) → addInt F x n = .ub .overflow ∧ intAdd F n x = .ub .overflow) ∧
    (Representable F (val F x - n) → subInt F x n = .ub .overflow) := by
  have hv : (n : ℚ) = val F (n * 2 ^ F.f) := by unfold val; push_cast; field_simp
  rw [hv, representable_iff] at hn
  obtain ⟨e1, e2⟩ := addIntAssign_eq F hF hs x n
  have hp := hF.p_eq hs.2
  have hT : F.T.signed = true := hs.1
  have t0 := hF.tpos
  have key : ∀ s k m : Int, F.T.InRange s → k ≠ 0 → m = s + k * 2 ^ F.T.bits → ¬ F.T.InRange m := by
    intro s k m h1 hk hm h2
    have a := IntTy.wrap_of_inRange t0 h1
    have b := IntTy.wrap_of_inRange t0 h2
    have c : F.T.wrap m = F.T.wrap s := IntTy.wrap_congr ⟨k, by rw [hm]; ring⟩
    have hmz : k * 2 ^ F.T.bits = 0 := by omega
    have : (2 : Int) ^ F.T.bits ≠ 0 := by positivity
    exact (mul_ne_zero hk this) hmz
  obtain ⟨k, hk⟩ := IntTy.wrap_dvd F.T (n * 2 ^ F.f)
  have hk0 : k ≠ 0 := by
    rintro rfl
    apply hn
    have : n * 2 ^ F.f = F.T.wrap (n * 2 ^ F.f) := by linarith
    rw [this]; exact IntTy.wrap_inRange _ t0
  have ub : ∀ m : Int, ¬ F.T.InRange m → (arith F.P m >>= fun s => (pure (F.T.wrap s) : Res Int)) = .ub .overflow := by
    intro m hm
    rw [arith_store hF (Or.inr hs.2), if_pos ⟨hs, hm⟩]
  have ho := ofInt_eq F hF n
  constructor
  · intro h
    have : val F x + n = val F (x + n * 2 ^ F.f) := by rw [hv]; unfold val; push_cast; ring
    rw [this, representable_iff] at h
    have : addInt F x n = .ub .overflow := by
      unfold addInt; rw [e1]; unfold add
      exact ub _ (key _ (-k) _ h (by omega) (by rw [ho]; linarith))
    exact ⟨this, this⟩
  · intro h
    have : val F x - n = val F (x - n * 2 ^ F.f) := by rw [hv]; unfold val; push_cast; ring
    rw [this, representable_iff] at h
    unfold subInt; rw [e2]; unfold sub
    exact ub _ (key _ k _ h hk0 (by rw [ho]; linarith))

-- -1 + 32768 on the default type
example : Representable fixed32 (val fixed32 (-65536) + (32768 : Int)) ∧ ¬ Representable fixed32 ((32768 : Int) : ℚ) ∧ addInt fixed32 (-65536) 32768 = .ub .overflow := by
  have e1 : val fixed32 (-65536) + (32768 : Int) = val fixed32 2147418112 := by unfold val fixed32; norm_num
  have e2 : ((32768 : Int) : ℚ) = val fixed32 2147483648 := by unfold val fixed32; norm_num
  rw [e1, e2, representable_iff, representable_iff]
  decide +kernel

end Eirin.Props
