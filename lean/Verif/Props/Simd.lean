import Verif.Lemmas.Simd
import Mathlib.Tactic.IntervalCases

/-!
# C67–C69: SIMD multiplication and angle reduction

Two builds are distinguished: without `__AVX512DQ__` (the code written in the file) and with it (`dq = true`).
-/

namespace Eirin.Props
open Spec

/-! ## C67 -/

/-- C67: each lane of the AVX2 multiplication is the exact product of the two fixed64 numbers truncated toward zero to a multiple of one
ulp, reduced modulo `2^64`, for every pair of 64-bit lanes; it depends on no other lane. -/
theorem C67_lane (A B : Vec 4) (i : Fin 4) :
    ∃ m, IsTrunc fixed64 (val fixed64 (A i).toInt * val fixed64 (B i).toInt) m ∧ IsWrap fixed64 m (avxMul false A B i).toInt := by
  refine ⟨Int.tdiv ((A i).toInt * (B i).toInt) (2 ^ 32), ?_, ?_⟩
  · have := trunc_spec fixed64 ((A i).toInt * (B i).toInt) (2 ^ 32) (by norm_num)
    have e : (((A i).toInt * (B i).toInt : Int) : ℚ) / ((2 ^ 32 : Int) : ℚ) / 2 ^ fixed64.f = val fixed64 (A i).toInt * val fixed64 (B i).toInt := by
      unfold val; rw [show fixed64.f = 32 by rfl]; push_cast; ring
    rw [e] at this; exact this
  · rw [avxMul_lane]
    exact ⟨IntTy.wrap_inRange _ (by decide), IntTy.wrap_dvd i64 _⟩

/-- C67: for non-negative lanes this is the scalar `fixed64` product, for every such pair. -/
theorem C67_scalar (A B : Vec 4) (i : Fin 4) (ha : 0 ≤ (A i).toInt) (hb : 0 ≤ (B i).toInt) :
    mul fixed64 (A i).toInt (B i).toInt = .ok (avxMul false A B i).toInt := by
  have hr : ∀ x : BitVec 64, fixed64.T.InRange x.toInt := by
    intro x
    have h1 := BitVec.toInt_lt (x := x); have h2 := BitVec.le_toInt (x := x)
    constructor
    · rw [show fixed64.T.lo = -2 ^ 63 by rfl]; simpa using h2
    · rw [show fixed64.T.hi = 2 ^ 63 - 1 by rfl]; norm_num at h1 ⊢; omega
  rw [mul_nf (by decide) rfl (hr _) (hr _), avxMul_lane, Int.tdiv_eq_ediv_of_nonneg (mul_nonneg ha hb)]
  rfl

/-- The operands in the example: 2.5 times 1.25. -/
example : (0 : Int) ≤ (BitVec.ofInt 64 (5 * 2 ^ 31)).toInt ∧
    (avxMul false (fun _ => BitVec.ofInt 64 (5 * 2 ^ 31)) (fun _ => BitVec.ofInt 64 (5 * 2 ^ 30)) (0 : Fin 4)).toInt = 25 * 2 ^ 29 := by
  decide +kernel

/-- C67, the `__AVX512DQ__` build: the low 64 bits of the product shifted right logically, hence always in `[0, 1)`: the integer part of
every product is lost. -/
theorem C67_avx512 (A B : Vec 4) (i : Fin 4) :
    0 ≤ val fixed64 (avxMul true A B i).toInt ∧ val fixed64 (avxMul true A B i).toInt < 1 ∧
    (avxMul true A B i).toInt = (A i).toInt * (B i).toInt % 2 ^ 64 / 2 ^ 32 := by
  have e := avxMul_dq_lane A B i
  have h1 : 0 ≤ (A i).toInt * (B i).toInt % 2 ^ 64 := Int.emod_nonneg _ (by norm_num)
  have h2 : (A i).toInt * (B i).toInt % 2 ^ 64 < 2 ^ 64 := Int.emod_lt_of_pos _ (by norm_num)
  have h3 : 0 ≤ (avxMul true A B i).toInt := by rw [e]; omega
  have h4 : (avxMul true A B i).toInt < 2 ^ 32 := by rw [e]; omega
  refine ⟨?_, ?_, e⟩
  · rw [← val_zero fixed64]; exact val_le.2 h3
  · have : val fixed64 (2 ^ 32) = 1 := by norm_num [val, fixed64]
    rw [← this]; exact val_lt.2 h4

/-- C67, the `__AVX512DQ__` build differs from the scalar product already for `1.0 * 1.0`. -/
theorem C67_avx512_differs : mul fixed64 (2 ^ 32) (2 ^ 32) = .ok (2 ^ 32) ∧
    (avxMul true (fun _ => BitVec.ofInt 64 (2 ^ 32)) (fun _ => BitVec.ofInt 64 (2 ^ 32)) (0 : Fin 4)).toInt = 0 := by
  decide +kernel

/-! ## C68 -/

/-- C68: `_mm256_fpint_epi64` truncates each lane toward zero to an integral value. -/
theorem C68_fpint (X : Vec 4) (i : Fin 4) :
    ∃ k : Int, val fixed64 (fpint X i).toInt = k ∧ |(k : ℚ)| ≤ |val fixed64 (X i).toInt| ∧ |val fixed64 (X i).toInt - k| < 1 ∧
      0 ≤ k * val fixed64 (X i).toInt := by
  rw [fpint_lane]
  set x := (X i).toInt
  refine ⟨Int.tdiv x (2 ^ 32), ?_, ?_⟩
  · have := val_int fixed64 (Int.tdiv x (2 ^ 32)); exact this
  have hd := tdiv_mul_spec x (show (0 : Int) < 2 ^ 32 by norm_num)
  have hv : val fixed64 x = x / 2 ^ 32 := rfl
  have ek : ((Int.tdiv x (2 ^ 32) : Int) : ℚ) = ((Int.tdiv x (2 ^ 32) * 2 ^ 32 : Int) : ℚ) / 2 ^ 32 := by
    rw [Int.cast_mul]; norm_num
  rw [ek, hv]
  generalize Int.tdiv x (2 ^ 32) * 2 ^ 32 = t at *
  have hp : (0 : ℚ) < 2 ^ 32 := by norm_num
  rw [← sub_div, abs_div, abs_div, abs_div, abs_of_pos hp, div_le_div_iff_of_pos_right hp, div_lt_one hp, div_mul_div_comm]
  have key : |t| ≤ |x| ∧ |x - t| < 2 ^ 32 ∧ 0 ≤ t * x := by
    rcases le_total 0 x with h | h
    · obtain ⟨a, b, c⟩ := hd.1 h
      rw [abs_of_nonneg a, abs_of_nonneg h, abs_of_nonneg (by omega)]
      exact ⟨b, by omega, mul_nonneg a h⟩
    · obtain ⟨a, b, c⟩ := hd.2 h
      rw [abs_of_nonpos a, abs_of_nonpos h, abs_of_nonpos (by omega)]
      exact ⟨by omega, by omega, mul_nonneg_of_nonpos_of_nonpos a h⟩
  refine ⟨by exact_mod_cast key.1, by exact_mod_cast key.2.1, ?_⟩
  apply div_nonneg _ (by norm_num)
  exact_mod_cast key.2.2

/-- `r` is `x` minus an integral number of full turns of `2 P`, on the same side of zero as `x` and smaller than one and a half turns. -/
def Reduced (P x r : Int) : Prop :=
  (∃ n : Int, x = r + n * (2 * P)) ∧ 2 * |r| < 3 * (2 * P) ∧ (0 ≤ x → 0 ≤ r) ∧ (x ≤ 0 → r ≤ 0)

/-- One lane of the reduction. -/
def redLane (x : Int) : Int := x - Int.tdiv (x * 683565275) (2 ^ 64) * 26986075408

theorem simd_tdiv_abs_le (x d : Int) : |Int.tdiv x d| ≤ |x| := by
  rw [Int.abs_eq_natAbs, Int.abs_eq_natAbs, Int.natAbs_tdiv]
  exact_mod_cast Nat.div_le_self _ _

theorem redLane_reduced {x : Int} (hx : i64.InRange x) : Reduced 13493037704 x (redLane x) := by
  obtain ⟨h1, h2⟩ := hx
  rw [show i64.lo = -2 ^ 63 by rfl] at h1
  rw [show i64.hi = 2 ^ 63 - 1 by rfl] at h2
  unfold Reduced redLane
  have hd := tdiv_mul_spec (x * 683565275) (show (0 : Int) < 2 ^ 64 by norm_num)
  generalize Int.tdiv (x * 683565275) (2 ^ 64) = n at *
  refine ⟨⟨n, by ring⟩, ?_, ?_, ?_⟩
  · rcases le_total 0 x with h | h
    · obtain ⟨a, b, c⟩ := hd.1 (by omega)
      rw [abs_of_nonneg (by omega)]; omega
    · obtain ⟨a, b, c⟩ := hd.2 (by omega)
      rw [abs_of_nonpos (by omega)]; omega
  · intro h
    obtain ⟨a, b, c⟩ := hd.1 (by omega)
    omega
  · intro h
    obtain ⟨a, b, c⟩ := hd.2 (by omega)
    omega

theorem ofInt_toInt {x : Int} (hx : i64.InRange x) : (BitVec.ofInt 64 x).toInt = x := by
  rw [BitVec.toInt_ofInt]
  exact IntTy.wrap_of_inRange (t := i64) (by decide) hx

theorem tdiv_tdiv32 (a : Int) : Int.tdiv (Int.tdiv a (2 ^ 32)) (2 ^ 32) = Int.tdiv a (2 ^ 64) := by
  have h1 := tdiv_mul_spec a (show (0 : Int) < 2 ^ 32 by norm_num)
  have h2 := tdiv_mul_spec (Int.tdiv a (2 ^ 32)) (show (0 : Int) < 2 ^ 32 by norm_num)
  have h3 := tdiv_mul_spec a (show (0 : Int) < 2 ^ 64 by norm_num)
  rcases le_total 0 a with h | h
  · have := h1.1 h; have := h3.1 h; have := h2.1 (by omega); omega
  · have := h1.2 h; have := h3.2 h; have := h2.2 (by omega); omega

theorem avxReduce_lane (x : Vec 4) : ∃ r, avxReduceAngle false x = .ok r ∧ ∀ i, (r i).toInt = redLane (x i).toInt := by
  have e1 : simdTwoPi = .ok 26986075408 := by decide +kernel
  have e2 : simdInvTwoPi = .ok 683565275 := by decide +kernel
  unfold avxReduceAngle
  simp only [e1, e2, Res.bind_ok, Res.pure_eq]
  refine ⟨_, rfl, ?_⟩
  intro i
  have hx1 := BitVec.toInt_lt (x := x i); have hx2 := BitVec.le_toInt (x := x i)
  norm_num at hx1 hx2
  have hxr : i64.InRange (x i).toInt := ⟨by rw [show i64.lo = -2 ^ 63 by rfl]; omega, by rw [show i64.hi = 2 ^ 63 - 1 by rfl]; omega⟩
  have hred := redLane_reduced hxr
  simp only [vsub]
  rw [BitVec.toInt_sub, avxMul_lane, fpint_lane, avxMul_lane]
  simp only [vset1]
  rw [ofInt_toInt (by decide), ofInt_toInt (by decide)]
  have hq := tdiv_mul_spec ((x i).toInt * 683565275) (show (0 : Int) < 2 ^ 32 by norm_num)
  have w1 : i64.wrap (Int.tdiv ((x i).toInt * 683565275) (2 ^ 32)) = Int.tdiv ((x i).toInt * 683565275) (2 ^ 32) := by
    apply IntTy.wrap_of_inRange (by decide)
    unfold IntTy.InRange
    rw [show i64.lo = -2 ^ 63 by rfl, show i64.hi = 2 ^ 63 - 1 by rfl]
    rcases le_total 0 (x i).toInt with h | h
    · have := hq.1 (by omega); omega
    · have := hq.2 (by omega); omega
  rw [w1, tdiv_tdiv32]
  have w2 : Int.tdiv (Int.tdiv ((x i).toInt * 683565275) (2 ^ 64) * 2 ^ 32 * 26986075408) (2 ^ 32) =
      Int.tdiv ((x i).toInt * 683565275) (2 ^ 64) * 26986075408 := by
    rw [show Int.tdiv ((x i).toInt * 683565275) (2 ^ 64) * 2 ^ 32 * 26986075408 =
      Int.tdiv ((x i).toInt * 683565275) (2 ^ 64) * 26986075408 * 2 ^ 32 by ring, Int.mul_tdiv_cancel _ (by norm_num)]
  rw [w2]
  have w3 : i64.wrap (Int.tdiv ((x i).toInt * 683565275) (2 ^ 64) * 26986075408) = Int.tdiv ((x i).toInt * 683565275) (2 ^ 64) * 26986075408 := by
    apply IntTy.wrap_of_inRange (by decide)
    unfold redLane Reduced at hred
    obtain ⟨_, h2, h3, h4⟩ := hred
    unfold IntTy.InRange
    rw [show i64.lo = -2 ^ 63 by rfl, show i64.hi = 2 ^ 63 - 1 by rfl]
    have hs := tdiv_mul_spec ((x i).toInt * 683565275) (show (0 : Int) < 2 ^ 64 by norm_num)
    rcases le_total 0 (x i).toInt with h | h
    · have := hs.1 (by omega); have := h3 h; omega
    · have := hs.2 (by omega); have := h4 h; omega
  rw [w3]
  have w4 : i64.wrap (redLane (x i).toInt) = redLane (x i).toInt := by
    apply IntTy.wrap_of_inRange (by decide)
    obtain ⟨_, h2, _, _⟩ := hred
    have := abs_lt.1 (show |redLane (x i).toInt| < 3 * 13493037704 by omega)
    unfold IntTy.InRange
    rw [show i64.lo = -2 ^ 63 by rfl, show i64.hi = 2 ^ 63 - 1 by rfl]
    omega
  exact w4

/-- C68: `simd_reduce_angle` returns, in the order of the inputs, each input minus an integral number of full turns (twice the library's
`pi`), keeping its sign and smaller than one and a half turns, for all four 64-bit angles. -/
theorem C68_reduce (x0 x1 x2 x3 : Int) (h0 : Storable fixed64 x0) (h1 : Storable fixed64 x1) (h2 : Storable fixed64 x2) (h3 : Storable fixed64 x3) :
    ∃ P r0 r1 r2 r3, cPi fixed64 = .ok P ∧ simdReduceAngle false x0 x1 x2 x3 = .ok [r0, r1, r2, r3] ∧
      Reduced P x0 r0 ∧ Reduced P x1 r1 ∧ Reduced P x2 r2 ∧ Reduced P x3 r3 := by
  have hpi : cPi fixed64 = .ok 13493037704 := by decide +kernel
  refine ⟨_, redLane x0, redLane x1, redLane x2, redLane x3, hpi, ?_, redLane_reduced h0, redLane_reduced h1, redLane_reduced h2, redLane_reduced h3⟩
  suffices gen : ∀ xv : Vec 4, xv 0 = BitVec.ofInt 64 x0 → xv 1 = BitVec.ofInt 64 x1 → xv 2 = BitVec.ofInt 64 x2 →
      xv 3 = BitVec.ofInt 64 x3 → (do
        let rv ← avxReduceAngle false xv
        pure [fromInternal fixed64 (rv 0).toInt, fromInternal fixed64 (rv 1).toInt, fromInternal fixed64 (rv 2).toInt,
          fromInternal fixed64 (rv 3).toInt] : Res (List Int)) = .ok [redLane x0, redLane x1, redLane x2, redLane x3] by
    exact gen _ rfl rfl rfl rfl
  intro xv g0 g1 g2 g3
  obtain ⟨r, e, hr⟩ := avxReduce_lane xv
  have fi : ∀ v : BitVec 64, fromInternal fixed64 v.toInt = v.toInt := by
    intro v
    have hx1 := BitVec.toInt_lt (x := v); have hx2 := BitVec.le_toInt (x := v)
    norm_num at hx1 hx2
    exact IntTy.wrap_of_inRange (t := i64) (by decide)
      ⟨by rw [show i64.lo = -2 ^ 63 by rfl]; omega, by rw [show i64.hi = 2 ^ 63 - 1 by rfl]; omega⟩
  simp only [e, Res.bind_ok, Res.pure_eq, fi, hr, g0, g1, g2, g3, ofInt_toInt h0, ofInt_toInt h1, ofInt_toInt h2, ofInt_toInt h3]

example : Storable fixed64 (-2 ^ 63) ∧ simdReduceAngle false (7 * 2 ^ 32) (-2 ^ 63) (2 ^ 63 - 1) (-7 * 2 ^ 32) =
    .ok [3078695664, -21627684912, 21627684911, -3078695664] := by decide +kernel

/-- C68, the `__AVX512DQ__` build: the multiplication never has an integer part, so `simd_reduce_angle` returns its inputs unchanged. -/
theorem C68_avx512 (x0 x1 x2 x3 : Int) (h0 : Storable fixed64 x0) (h1 : Storable fixed64 x1) (h2 : Storable fixed64 x2) (h3 : Storable fixed64 x3) :
    simdReduceAngle true x0 x1 x2 x3 = .ok [x0, x1, x2, x3] := by
  have e1 : simdTwoPi = .ok 26986075408 := by decide +kernel
  have e2 : simdInvTwoPi = .ok 683565275 := by decide +kernel
  have zero : ∀ (A B : Vec 4) (i : Fin 4), (fpint (avxMul true A B) i) = 0 := by
    intro A B i
    apply BitVec.eq_of_toInt_eq
    rw [fpint_lane]
    obtain ⟨h1, h2, h3⟩ := C67_avx512 A B i
    have a1 : 0 ≤ (avxMul true A B i).toInt := by
      rw [h3]; exact Int.ediv_nonneg (Int.emod_nonneg _ (by norm_num)) (by norm_num)
    have a2 : (avxMul true A B i).toInt < 2 ^ 32 := by
      rw [h3]
      have : (A i).toInt * (B i).toInt % 2 ^ 64 < 2 ^ 64 := Int.emod_lt_of_pos _ (by norm_num)
      omega
    rw [Int.tdiv_eq_zero_of_lt a1 a2]; rfl
  have red : ∀ x : Vec 4, avxReduceAngle true x = .ok x := by
    intro x
    unfold avxReduceAngle
    simp only [e1, e2, Res.bind_ok, Res.pure_eq]
    congr 1
    funext i
    have z : fpint (avxMul true x (vset1 (BitVec.ofInt 64 683565275))) = fun _ => 0 := by
      funext j; exact zero _ _ _
    rw [z]
    simp [vsub, avxMul, vsrli, vmullo]
  unfold simdReduceAngle
  have fi : ∀ x : Int, i64.InRange x → fromInternal fixed64 (BitVec.ofInt 64 x).toInt = x := by
    intro x hx
    rw [ofInt_toInt hx]; exact IntTy.wrap_of_inRange (t := i64) (by decide) hx
  simp only [red, Res.bind_ok, Res.pure_eq, fi _ h0, fi _ h1, fi _ h2, fi _ h3]

example : Storable fixed64 (100 * 2 ^ 32) := by decide +kernel

/-! ## C69 -/

/-- C69: full statement. -/
def C69_statement : Prop :=
  ∀ x0 x1, Storable fixed64 x0 → Storable fixed64 x1 → ∃ r0 r1, simdReduceAngle2 x0 x1 = .ok [r0, r1] ∧
    ∃ r2 r3, simdReduceAngle false x0 x1 0 0 = .ok [r0, r1, r2, r3]

/-- C69 is false of the code: the two results come back in the wrong order (inputs `0, 1`). -/
theorem C69_false : ¬ C69_statement := by
  intro h
  obtain ⟨r0, r1, e1, r2, r3, e2⟩ := h 0 (2 ^ 32) (by decide +kernel) (by decide +kernel)
  have a1 : simdReduceAngle2 0 (2 ^ 32) = .ok [2 ^ 32, 0] := by decide +kernel
  have a2 : simdReduceAngle false 0 (2 ^ 32) 0 0 = .ok [0, 2 ^ 32, 0, 0] := by decide +kernel
  rw [a1] at e1; rw [a2] at e2
  have e1 := Res.ok.inj e1; have e2 := Res.ok.inj e2
  simp at e1 e2
  omega

/-- Even for equal inputs (so that the order does not matter) the SSE version is wrong: the angle `0.5` needs no reduction but is not
returned, and the angle `7.0` of more than a full turn is not reduced. -/
theorem C69_value_false : simdReduceAngle2 (2 ^ 31) (2 ^ 31) = .ok [2611923443393757184, 2611923443393757184] ∧
    simdReduceAngle false (2 ^ 31) (2 ^ 31) 0 0 = .ok [2 ^ 31, 2 ^ 31, 0, 0] ∧
    simdReduceAngle2 (7 * 2 ^ 32) (7 * 2 ^ 32) = .ok [7 * 2 ^ 32, 7 * 2 ^ 32] ∧
    simdReduceAngle false (7 * 2 ^ 32) (7 * 2 ^ 32) 0 0 = .ok [3078695664, 3078695664, 0, 0] := by
  decide +kernel

theorem mulEpi32_lane {n : Nat} (a b : Vec n) (i : Fin n) :
    (vmulEpi32 a b i).toInt = i32.wrap (a i).toInt * i32.wrap (b i).toInt := by
  have key : ∀ u : BitVec 64, ((u.setWidth 32).signExtend 64).toInt = i32.wrap u.toInt := by
    intro u
    rw [BitVec.toInt_signExtend_of_le (by norm_num), BitVec.toInt_setWidth]
    change _ = Int.bmod u.toInt (2 ^ 32)
    rw [BitVec.toInt_eq_toNat_bmod]
    exact (Int.bmod_bmod_of_dvd (by norm_num)).symm
  have rng : ∀ z : Int, -2 ^ 31 ≤ i32.wrap z ∧ i32.wrap z ≤ 2 ^ 31 - 1 := by
    intro z; exact IntTy.wrap_inRange (t := i32) z (by decide)
  unfold vmulEpi32
  rw [BitVec.toInt_mul, key, key]
  have r1 := rng (a i).toInt; have r2 := rng (b i).toInt
  generalize i32.wrap (a i).toInt = p at *
  generalize i32.wrap (b i).toInt = q at *
  exact IntTy.wrap_of_inRange (t := i64) (by decide)
    ⟨by rw [show i64.lo = -2 ^ 63 by rfl]; nlinarith, by rw [show i64.hi = 2 ^ 63 - 1 by rfl]; nlinarith⟩

/-- What one SSE lane computes: only the low 32 bits of the angle and of the (unshifted) quotient are used. -/
def sseLane (x : Int) : Int := i64.wrap (x - i32.wrap (i32.wrap x * 683565275) * 1216271632)

/-- C69, what the code computes for every pair: each lane independently, in swapped order. -/
theorem C69_swapped (x0 x1 : Int) (h0 : Storable fixed64 x0) (h1 : Storable fixed64 x1) :
    simdReduceAngle2 x0 x1 = .ok [sseLane x1, sseLane x0] := by
  have e1 : simdTwoPi = .ok 26986075408 := by decide +kernel
  have e2 : simdInvTwoPi = .ok 683565275 := by decide +kernel
  have lane : ∀ (x : Vec 2) (i : Fin 2), fromInternal fixed64
      (vsub x (vmulEpi32 (vmulEpi32 x (vset1 (BitVec.ofInt 64 683565275))) (vset1 (BitVec.ofInt 64 26986075408))) i).toInt = sseLane (x i).toInt := by
    intro x i
    unfold vsub
    rw [BitVec.toInt_sub, mulEpi32_lane, mulEpi32_lane]
    simp only [vset1]
    rw [ofInt_toInt (by decide), ofInt_toInt (by decide), show i32.wrap 683565275 = 683565275 by decide +kernel,
      show i32.wrap 26986075408 = 1216271632 by decide +kernel]
    unfold sseLane
    exact IntTy.wrap_of_inRange (t := i64) (by decide) (IntTy.wrap_inRange (t := i64) _ (by decide))
  unfold simdReduceAngle2 sseReduceAngle
  simp only [e1, e2, Res.bind_ok, Res.pure_eq, lane, ofInt_toInt h0, ofInt_toInt h1]

example : Storable fixed64 (7 * 2 ^ 32 + 1) ∧ Storable fixed64 (-5) := by decide +kernel

/-- C69 holds for equal integral angles below a full turn (there is nothing to reduce and the low halves are zero).
Full statement: `C69_statement`; missing (false): order of different angles, every angle with a fractional part, every angle of more
than a full turn. -/
theorem C69_integral_partial (x : Int) (hi : Integral fixed64 x) (hx : |val fixed64 x| ≤ 6) :
    simdReduceAngle2 x x = .ok [x, x] ∧ simdReduceAngle false x x 0 0 = .ok [x, x, 0, 0] := by
  obtain ⟨k, hk⟩ := hi
  have hxk : x = k * 2 ^ 32 := by
    apply val_inj (F := fixed64); rw [hk]; exact (val_int fixed64 k).symm
  rw [hk] at hx
  have hk6 : |k| ≤ 6 := by exact_mod_cast hx
  rw [abs_le] at hk6
  subst hxk
  obtain ⟨ha, hb⟩ := hk6
  interval_cases k <;> decide +kernel

example : Integral fixed64 (-3 * 2 ^ 32) ∧ |val fixed64 (-3 * 2 ^ 32)| ≤ 6 := by
  refine ⟨⟨-3, val_int fixed64 (-3)⟩, ?_⟩
  norm_num [val, fixed64]

end Eirin.Props
