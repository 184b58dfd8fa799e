import Verif.Props.Pow
import Verif.Props.Sqrt
import Verif.Props.Arith
import Verif.Model.Istream
import Verif.Model.Ostream
import Verif.Model.Format

/-! # C136: what the `rounding` template parameter changes -/

namespace Eirin.Props
open Spec

/-- C136 (as one would expect it): the rounding variant of a type differs from the truncating one in the last place only. -/
def C136_statement : Prop :=
  ∀ (T I : IntTy) (f : Nat), (⟨T, I, f, true⟩ : FxTy).Valid → ∀ x y a b, Storable ⟨T, I, f, true⟩ x → Storable ⟨T, I, f, true⟩ y →
    (mul ⟨T, I, f, true⟩ x y = .ok a → mul ⟨T, I, f, false⟩ x y = .ok b → |a - b| ≤ 1) ∧
    (div ⟨T, I, f, true⟩ x y = .ok a → div ⟨T, I, f, false⟩ x y = .ok b → |a - b| ≤ 1)

/-- It is false: `1 * 1` is 2 in the rounding variant. -/
theorem C136_false : ¬ C136_statement := by
  intro h
  have := (h i32 i64 16 (by decide) 65536 65536 131072 65536 (by decide) (by decide)).1 (by decide +kernel) (by decide +kernel)
  norm_num at this

/-- The rounding variant of `fixed32`. -/
def fixed32r : FxTy := ⟨i32, i64, 16, true⟩

/-- Through multiplication and division the factor of two reaches the functions built on them: some values in the rounding variant of `fixed32`. -/
theorem C136_functions :
    sin fixed32r 65536 = .ok (-116856) ∧ cos fixed32r 0 = .ok 0 ∧ atan fixed32r 65536 = .ok (-162136) ∧ exp fixed32r 65536 = .ok 712580 ∧
      log fixed32r 131072 = .ok 90852 ∧ log10 fixed32r 131072 = .ok 39456 ∧ fmod fixed32r (5 * 65536) (3 * 65536) = .ok (-13 * 65536) ∧
      radians fixed32r (180 * 65536) = .ok 823548 ∧ sqrt ⟨i64, i128, 32, true⟩ (4 * 2 ^ 32) = .ok 12148002000 := by
  decide +kernel

/-- C136 (what holds): everything that neither multiplies nor divides two fixed-point numbers is independent of the parameter: sums, remainders,
negation, mixed arithmetic with integers (except `integral / fixed`), comparison, the conversions from and to integers, the integral and fractional
parts. -/
theorem C136_arith_partial (T I U : IntTy) (f : Nat) (x y n : Int) :
    add ⟨T, I, f, true⟩ x y = add ⟨T, I, f, false⟩ x y ∧ sub ⟨T, I, f, true⟩ x y = sub ⟨T, I, f, false⟩ x y ∧
    rem ⟨T, I, f, true⟩ x y = rem ⟨T, I, f, false⟩ x y ∧ neg ⟨T, I, f, true⟩ x = neg ⟨T, I, f, false⟩ x ∧
    addInt ⟨T, I, f, true⟩ x n = addInt ⟨T, I, f, false⟩ x n ∧ subInt ⟨T, I, f, true⟩ x n = subInt ⟨T, I, f, false⟩ x n ∧
    intSub ⟨T, I, f, true⟩ n x = intSub ⟨T, I, f, false⟩ n x ∧ mulInt ⟨T, I, f, true⟩ U x n = mulInt ⟨T, I, f, false⟩ U x n ∧
    divInt ⟨T, I, f, true⟩ U x n = divInt ⟨T, I, f, false⟩ U x n ∧ intRem ⟨T, I, f, true⟩ n x = intRem ⟨T, I, f, false⟩ n x ∧
    preInc ⟨T, I, f, true⟩ x = preInc ⟨T, I, f, false⟩ x ∧ postDec ⟨T, I, f, true⟩ x = postDec ⟨T, I, f, false⟩ x ∧
    divideInt ⟨T, I, f, true⟩ U x n = divideInt ⟨T, I, f, false⟩ U x n ∧ ofInt ⟨T, I, f, true⟩ n = ofInt ⟨T, I, f, false⟩ n ∧
    toInt ⟨T, I, f, true⟩ U x = toInt ⟨T, I, f, false⟩ U x ∧ toFloat ⟨T, I, f, true⟩ x = toFloat ⟨T, I, f, false⟩ x ∧
    integralPart ⟨T, I, f, true⟩ x = integralPart ⟨T, I, f, false⟩ x ∧ fractionalPart ⟨T, I, f, true⟩ x = fractionalPart ⟨T, I, f, false⟩ x ∧
    signbit ⟨T, I, f, true⟩ x = signbit ⟨T, I, f, false⟩ x := by
  refine ⟨rfl, rfl, rfl, rfl, rfl, rfl, rfl, rfl, rfl, rfl, rfl, rfl, rfl, rfl, rfl, rfl, rfl, rfl, rfl⟩

theorem oneShl_r (T I : IntTy) (f : Nat) : oneShl ⟨T, I, f, true⟩ = oneShl ⟨T, I, f, false⟩ := rfl

theorem twoShl_r (T I : IntTy) (f : Nat) : twoShl ⟨T, I, f, true⟩ = twoShl ⟨T, I, f, false⟩ := rfl

theorem P_r (T I : IntTy) (f : Nat) : FxTy.P ⟨T, I, f, true⟩ = FxTy.P ⟨T, I, f, false⟩ := rfl

theorem log2Up_r (T I : IntTy) (f n : Nat) : ∀ x y, log2Up ⟨T, I, f, true⟩ n x y = log2Up ⟨T, I, f, false⟩ n x y := by
  induction n with
  | zero => intro x y; rfl
  | succ n ih => intro x y; simp only [log2Up, oneShl_r, P_r, ih]

theorem log2Down_r (T I : IntTy) (f n : Nat) : ∀ x y, log2Down ⟨T, I, f, true⟩ n x y = log2Down ⟨T, I, f, false⟩ n x y := by
  induction n with
  | zero => intro x y; rfl
  | succ n ih => intro x y; simp only [log2Down, oneShl_r, twoShl_r, P_r, ih]

theorem log2Frac_r (T I : IntTy) (f n : Nat) : ∀ x y b, log2Frac ⟨T, I, f, true⟩ n x y b = log2Frac ⟨T, I, f, false⟩ n x y b := by
  induction n with
  | zero => intro x y b; rfl
  | succ n ih => intro x y b; simp only [log2Frac, twoShl_r, P_r, ih]

theorem log2_r (T I : IntTy) (f : Nat) (x : Int) : log2 ⟨T, I, f, true⟩ x = log2 ⟨T, I, f, false⟩ x := by
  have e : ∀ n, ofInt ⟨T, I, f, true⟩ n = ofInt ⟨T, I, f, false⟩ n := fun _ => rfl
  have e2 : ∀ n, fromInternal ⟨T, I, f, true⟩ n = fromInternal ⟨T, I, f, false⟩ n := fun _ => rfl
  simp only [log2, log2Up_r, log2Down_r, log2Frac_r, e, e2]

theorem printInt_r (T I : IntTy) (f : Nat) (up : Bool) (base : Int) (n : Nat) : ∀ i b o,
    printInt ⟨T, I, f, true⟩ up base n i b o = printInt ⟨T, I, f, false⟩ up base n i b o := by
  induction n with
  | zero => intro x y b; rfl
  | succ n ih => intro x y b; simp only [printInt, ih]

theorem printFrac_r (T I : IntTy) (f : Nat) (up : Bool) (base : Int) (n : Nat) : ∀ i b o,
    printFrac ⟨T, I, f, true⟩ up base n i b o = printFrac ⟨T, I, f, false⟩ up base n i b o := by
  induction n with
  | zero => intro x y b; rfl
  | succ n ih => intro x y b; simp only [printFrac, P_r, ih]

theorem streamOut_r (T I : IntTy) (f : Nat) (x : Int) (hex dec oct up : Bool) :
    streamOut ⟨T, I, f, true⟩ x hex dec oct up = streamOut ⟨T, I, f, false⟩ x hex dec oct up := by
  have e : printSign ⟨T, I, f, true⟩ x = printSign ⟨T, I, f, false⟩ x := rfl
  simp only [streamOut, copyAsChars, printInt_r, printFrac_r, P_r, e]

theorem fracLoop_r (T I : IntTy) (f : Nat) (up : Bool) (p : Int) (n : Nat) : ∀ i b o,
    fracLoop ⟨T, I, f, true⟩ up p n i b o = fracLoop ⟨T, I, f, false⟩ up p n i b o := by
  induction n with
  | zero => intro x y b; rfl
  | succ n ih => intro x y b; simp only [fracLoop, P_r, oneShl_r, ih]

theorem formatTo_r (T I : IntTy) (f : Nat) (x : Int) (st : FmtState) :
    formatTo ⟨T, I, f, true⟩ st x = formatTo ⟨T, I, f, false⟩ st x := by
  have e1 : formatDebug ⟨T, I, f, true⟩ st x = formatDebug ⟨T, I, f, false⟩ st x := by simp only [formatDebug]
  have e2 : signbit ⟨T, I, f, true⟩ x = signbit ⟨T, I, f, false⟩ x := rfl
  have e3 : integralPart ⟨T, I, f, true⟩ x = integralPart ⟨T, I, f, false⟩ x := rfl
  have e4 : fractionalPart ⟨T, I, f, true⟩ x = fractionalPart ⟨T, I, f, false⟩ x := rfl
  simp only [formatTo, fracLoop_r, P_r, e1, e2, e3, e4]

theorem storeParsed_r (T I : IntTy) (f : Nat) (b : Bool) (v old : Int) :
    storeParsed ⟨T, I, f, true⟩ b v old = storeParsed ⟨T, I, f, false⟩ b v old := rfl

theorem limGeneric_r (T I : IntTy) (f : Nat) : limGeneric ⟨T, I, f, true⟩ = limGeneric ⟨T, I, f, false⟩ := rfl

theorem limDetail_r (T I : IntTy) (f : Nat) : limDetail ⟨T, I, f, true⟩ = limDetail ⟨T, I, f, false⟩ := rfl

theorem parseDetail_r (T I : IntTy) (f : Nat) (s : List Char) (old : Int) :
    parseDetail ⟨T, I, f, true⟩ s old = parseDetail ⟨T, I, f, false⟩ s old := by
  simp only [parseDetail, storeParsed_r, limDetail_r]

theorem fixedFromCstring_r (T I : IntTy) (f : Nat) (s : List Char) (old : Int) :
    fixedFromCstring ⟨T, I, f, true⟩ s old = fixedFromCstring ⟨T, I, f, false⟩ s old := by
  simp only [fixedFromCstring, storeParsed_r, limGeneric_r]

theorem extract_r (T I : IntTy) (f : Nat) (s : IStr) (old : Int) :
    extract ⟨T, I, f, true⟩ s old = extract ⟨T, I, f, false⟩ s old := by
  have e1 : ∀ n, fromInternal ⟨T, I, f, true⟩ n = fromInternal ⟨T, I, f, false⟩ n := fun _ => rfl
  have e2 : ∀ n, neg ⟨T, I, f, true⟩ n = neg ⟨T, I, f, false⟩ n := fun _ => rfl
  simp only [extract, limGeneric_r, e1, e2]

theorem sqrt_r (I : IntTy) (f : Nat) (x : Int) : sqrt ⟨i32, I, f, true⟩ x = sqrt ⟨i32, I, f, false⟩ x := by
  have e : ∀ n, fromInternal ⟨i32, I, f, true⟩ n = fromInternal ⟨i32, I, f, false⟩ n := fun _ => rfl
  simp only [sqrt, sqrtBits, if_true, e]

/-- C136 (what holds): so are the rounding functions, `log2`, the 32-bit `sqrt` and the text functions. -/
theorem C136_functions_partial (T I : IntTy) (f : Nat) (x old : Int) :
    floor ⟨T, I, f, true⟩ x = floor ⟨T, I, f, false⟩ x ∧ ceil ⟨T, I, f, true⟩ x = ceil ⟨T, I, f, false⟩ x ∧
    trunc ⟨T, I, f, true⟩ x = trunc ⟨T, I, f, false⟩ x ∧ round ⟨T, I, f, true⟩ x = round ⟨T, I, f, false⟩ x ∧
    abs ⟨T, I, f, true⟩ x = abs ⟨T, I, f, false⟩ x ∧ modf ⟨T, I, f, true⟩ x = modf ⟨T, I, f, false⟩ x ∧
    log2 ⟨T, I, f, true⟩ x = log2 ⟨T, I, f, false⟩ x ∧ (∀ f', sqrt ⟨i32, I, f', true⟩ x = sqrt ⟨i32, I, f', false⟩ x) ∧
    (∀ hex dec oct up, streamOut ⟨T, I, f, true⟩ x hex dec oct up = streamOut ⟨T, I, f, false⟩ x hex dec oct up) ∧
    (∀ st, formatTo ⟨T, I, f, true⟩ st x = formatTo ⟨T, I, f, false⟩ st x) ∧
    (∀ s, parseDetail ⟨T, I, f, true⟩ s old = parseDetail ⟨T, I, f, false⟩ s old) ∧
    (∀ s, fixedFromCstring ⟨T, I, f, true⟩ s old = fixedFromCstring ⟨T, I, f, false⟩ s old) ∧
    (∀ s, extract ⟨T, I, f, true⟩ s old = extract ⟨T, I, f, false⟩ s old) := by
  exact ⟨rfl, rfl, rfl, rfl, rfl, rfl, log2_r .., fun _ => sqrt_r .., streamOut_r T I f x, formatTo_r T I f x, fun s => parseDetail_r T I f s old,
    fun s => fixedFromCstring_r T I f s old, fun s => extract_r T I f s old⟩

/-- The product of two integral values in a rounding type is twice the exact product, modulo the storage size. -/
theorem mul_integral_r (F : FxTy) (hF : F.Valid) (hr : F.r = true) (a b : Int) :
    mulAssign F (F.T.wrap (a * 2 ^ F.f)) (F.T.wrap (b * 2 ^ F.f)) = .ok (F.T.wrap (2 * (a * b) * 2 ^ F.f)) := by
  have hp : (2 : Int) ^ F.f ≠ 0 := by positivity
  have hb : (2 : Int) ^ F.T.bits = 2 ^ F.f * 2 ^ (F.T.bits - F.f) := by
    rw [← pow_add]; congr 1
    have := hF.2.2.2.2.2; omega
  obtain ⟨q, hq⟩ := wrap_eq_add F.T (a * 2 ^ F.f)
  obtain ⟨s, hs⟩ := wrap_eq_add F.T (b * 2 ^ F.f)
  have e1 : F.T.wrap (a * 2 ^ F.f) = (a + 2 ^ (F.T.bits - F.f) * q) * 2 ^ F.f := by rw [hq, hb]; ring
  have e2 : F.T.wrap (b * 2 ^ F.f) = (b + 2 ^ (F.T.bits - F.f) * s) * 2 ^ F.f := by rw [hs, hb]; ring
  obtain ⟨z, n, h1, ⟨h2, -⟩, h3⟩ := C05_mul_partial F hF hr _ _ (IntTy.wrap_inRange (a * 2 ^ F.f) hF.tpos) (IntTy.wrap_inRange (b * 2 ^ F.f) hF.tpos)
  have hn : n = (a + 2 ^ (F.T.bits - F.f) * q) * (b + 2 ^ (F.T.bits - F.f) * s) * 2 ^ F.f := by
    have ev : val F (F.T.wrap (a * 2 ^ F.f)) * val F (F.T.wrap (b * 2 ^ F.f)) =
        val F ((a + 2 ^ (F.T.bits - F.f) * q) * (b + 2 ^ (F.T.bits - F.f) * s) * 2 ^ F.f) := by
      rw [e1, e2, val_int, val_int, val_int]; push_cast; ring
    rw [ev, ← val_sub] at h2
    generalize (a + 2 ^ (F.T.bits - F.f) * q) * (b + 2 ^ (F.T.bits - F.f) * s) * 2 ^ F.f = w at h2 ⊢
    have hu := ulp_pos F
    rw [abs_le] at h2
    have g1 : val F (w - n) < val F 1 := by rw [val_one]; linarith [h2.2]
    have g2 : val F (-1) < val F (w - n) := by rw [val_neg, val_one]; linarith [h2.1]
    rw [val_lt] at g1 g2
    omega
  have e : mulAssign F (F.T.wrap (a * 2 ^ F.f)) (F.T.wrap (b * 2 ^ F.f)) = mul F (F.T.wrap (a * 2 ^ F.f)) (F.T.wrap (b * 2 ^ F.f)) := rfl
  rw [e, h1]
  congr 1
  rw [← IntTy.wrap_of_inRange hF.tpos h3.1]
  apply IntTy.wrap_congr
  have := h3.2
  rw [hn] at this
  obtain ⟨c, hc⟩ := this
  refine ⟨2 * (q * b + a * s + 2 ^ (F.T.bits - F.f) * q * s) - c, ?_⟩
  have e4 : 2 * ((a + 2 ^ (F.T.bits - F.f) * q) * (b + 2 ^ (F.T.bits - F.f) * s) * 2 ^ F.f) =
      2 * (a * b) * 2 ^ F.f + (2 ^ F.f * 2 ^ (F.T.bits - F.f)) * (2 * (q * b + a * s + 2 ^ (F.T.bits - F.f) * q * s)) := by ring
  rw [e4, ← hb] at hc
  linarith

theorem powPos_integral_r (F : FxTy) (hF : F.Valid) (hr : F.r = true) (fuel : Nat) : ∀ (e I R : Int), 0 ≤ e → e < 2 ^ fuel →
    powPosLoop F (fuel + 1) e (F.T.wrap (I * 2 ^ F.f)) (F.T.wrap (R * 2 ^ F.f)) = .ok (F.T.wrap (R * (2 * I) ^ e.toNat * 2 ^ F.f)) := by
  induction fuel with
  | zero =>
    intro e I R h0 h1
    have : e = 0 := by simp at h1; omega
    subst this
    rw [powPosLoop, if_neg (by simp)]; simp
  | succ n ih =>
    intro e I R h0 h1
    rw [powPosLoop]
    by_cases he : e = 0
    · subst he; rw [if_neg (by simp)]; simp
    · rw [if_pos he, (tmod2 h0).1, (tmod2 h0).2]
      have hlt : e / 2 < 2 ^ n := by rw [pow_succ] at h1; omega
      have sq : 2 * (2 * (I * I)) = (2 * I) ^ 2 := by ring
      by_cases ho : e % 2 = 0
      · rw [if_neg (by omega)]
        simp only [Res.pure_eq, Res.bind_ok]
        rw [mul_integral_r F hF hr, Res.bind_ok, ih _ _ _ (by omega) hlt, sq, ← pow_mul, show 2 * (e / 2).toNat = e.toNat by omega]
      · rw [if_pos (by omega)]
        simp only [mul_integral_r F hF hr, Res.bind_ok]
        rw [ih _ _ _ (by omega) hlt, sq, ← pow_mul, show e.toNat = 2 * (e / 2).toNat + 1 by omega, pow_succ]
        congr 2
        ring

/-- C136 (what happens): in every rounding type, `pow(b, n)` of a non-zero integral base is `(2b)^n` instead of `b^n`. -/
theorem C136_pow_partial (F : FxTy) (hF : F.Valid) (hr : F.r = true) (b n : Int) (hb : Storable F b) (hi : Integral F b) (hb0 : val F b ≠ 0)
    (h0 : 0 ≤ n) (h1 : n < 2 ^ 64) (hfit : Representable F ((2 * val F b) ^ n.toNat)) :
    ∃ r, powInt F b n = .ok r ∧ Storable F r ∧ val F r = (2 * val F b) ^ n.toNat := by
  obtain ⟨B, hB⟩ := hi
  rw [hB] at hfit ⊢
  obtain ⟨z, hz1, hz2⟩ := hfit
  have hzz : z = (2 * B) ^ n.toNat * 2 ^ F.f := val_inj (F := F) (by rw [hz2, val_int]; push_cast; rfl)
  refine ⟨z, ?_, hz1, hz2⟩
  have hbB : b = B * 2 ^ F.f := val_inj (F := F) (by rw [hB, val_int])
  have hbne : b ≠ 0 := fun h => hb0 (by rw [h, val_zero])
  unfold powInt
  have hz : ofInt F 0 = 0 := by rw [ofInt_eq F hF, zero_mul]; exact IntTy.wrap_of_inRange hF.tpos ⟨by unfold IntTy.lo; split <;> simp, by unfold IntTy.hi; split <;> simp [Int.sub_nonneg, one_le_pow₀]⟩
  rw [hz, if_neg (by rw [eq_iff]; exact hbne), if_neg (by omega)]
  have := powPos_integral_r F hF hr 65 n B 1 h0 (by norm_num at *; omega)
  rw [one_mul, one_mul, ← hbB, ← hzz, IntTy.wrap_of_inRange hF.tpos hb, IntTy.wrap_of_inRange hF.tpos hz1] at this
  rw [ofInt_eq F hF, one_mul]; exact this

example : fixed32r.Valid ∧ powInt fixed32r 131072 3 = .ok (64 * 65536) ∧ powInt fixed32 131072 3 = .ok (8 * 65536) ∧ Integral fixed32r 131072 ∧
    Representable fixed32r ((2 * val fixed32r 131072) ^ (3 : Int).toNat) := by
  refine ⟨by decide, by decide +kernel, by decide +kernel, ⟨2, by norm_num [val, fixed32r]⟩, ⟨64 * 65536, by decide, by rw [show (3 : Int).toNat = 3 from rfl]; norm_num [val, fixed32r]⟩⟩

/-- A rounded square that is doubled without leaving the range. -/
theorem square_r (x : Int) (hx : Storable fixed32r x) (hfit : val fixed32r x ^ 2 < 2 ^ 14 - 1) :
    ∃ m, mul fixed32r x x = .ok m ∧ Storable fixed32r m ∧ 0 ≤ m ∧ |val fixed32r m - 2 * val fixed32r x ^ 2| ≤ ulp fixed32r := by
  obtain ⟨z, n, h1, ⟨h2, -⟩, h3⟩ := C05_mul_partial fixed32r (by decide) rfl x x hx hx
  rw [← pow_two, abs_le] at h2
  have hu : ulp fixed32r = 1 / 65536 := by norm_num [ulp, fixed32r]
  have hsq := sq_nonneg (val fixed32r x)
  have vn : val fixed32r n = n / 65536 := by norm_num [val, fixed32r]
  have n0 : 0 ≤ n := by
    by_contra hc
    have : (n : ℚ) ≤ -1 := by exact_mod_cast (by omega : n ≤ -1)
    rw [vn, hu] at h2
    linarith
  have n1 : n < 2 ^ 30 := by
    have : (n : ℚ) < ((2 ^ 30 : Int) : ℚ) := by
      rw [vn, hu] at h2
      push_cast; linarith
    exact_mod_cast this
  have nS : Storable fixed32r (2 * n) := by
    constructor
    · show -(2 ^ 31 : Int) ≤ _; omega
    · show _ ≤ (2 ^ 31 - 1 : Int); omega
  have e : z = 2 * n := by
    have a1 := h3.1.1
    have a2 := h3.1.2
    have b1 := nS.1
    have b2 := nS.2
    obtain ⟨c, hc⟩ := h3.2
    change -(2 ^ 31 : Int) ≤ z at a1
    change z ≤ (2 ^ 31 - 1 : Int) at a2
    change 2 * n - z = 2 ^ 32 * c at hc
    omega
  subst e
  refine ⟨2 * n, h1, nS, by omega, ?_⟩
  have : val fixed32r (2 * n) = 2 * val fixed32r n := by unfold val; push_cast; ring
  rw [this, abs_le]
  constructor <;> linarith

/-- C136 (what happens): in the rounding variant of `fixed32`, `hypot(x, y)` is the length multiplied by the square root of two. -/
theorem C136_hypot_partial (x y : Int) (hx : Storable fixed32r x) (hy : Storable fixed32r y)
    (hfit : val fixed32r x ^ 2 + val fixed32r y ^ 2 < 2 ^ 14 - 2) :
    ∃ h, hypot fixed32r x y = .ok h ∧ 0 ≤ val fixed32r h ∧ val fixed32r h ^ 2 ≤ 2 * (val fixed32r x ^ 2 + val fixed32r y ^ 2) + 2 * ulp fixed32r ∧
      2 * (val fixed32r x ^ 2 + val fixed32r y ^ 2) < (val fixed32r h + ulp fixed32r) ^ 2 + 2 * ulp fixed32r := by
  have sx := sq_nonneg (val fixed32r x)
  have sy := sq_nonneg (val fixed32r y)
  obtain ⟨a, ea, aS, a0, ha⟩ := square_r x hx (by linarith)
  obtain ⟨b, eb, bS, b0, hb⟩ := square_r y hy (by linarith)
  rw [abs_le] at ha hb
  have hu : ulp fixed32r = 1 / 65536 := by norm_num [ulp, fixed32r]
  have hlt : a + b < 2 ^ 31 := by
    have : val fixed32r (a + b) < val fixed32r (2 ^ 31) := by
      have e : val fixed32r (2 ^ 31) = 2 ^ 15 := by norm_num [val, fixed32r]
      rw [e, val_add]; linarith
    rwa [val_lt] at this
  have sS : Storable fixed32r (a + b) := by
    constructor
    · show -(2 ^ 31 : Int) ≤ _; omega
    · show _ ≤ (2 ^ 31 - 1 : Int); omega
  have es : add fixed32r a b = .ok (a + b) := by
    have : add fixed32r a b = add fixed32 a b := rfl
    rw [this, add_nf sw32.valid aS bS, if_neg (fun h => h.2 sS), IntTy.wrap_of_inRange sw32.valid.tpos sS]
  obtain ⟨h, eh, -, h0, h1, h2, -⟩ := C28_sqrt (a + b) sS (by rw [← val_zero fixed32, val_le]; omega)
  refine ⟨h, ?_, h0, ?_, ?_⟩
  · unfold hypot
    rw [ea, Res.bind_ok, eb, Res.bind_ok, es, Res.bind_ok]
    rw [show sqrt fixed32r (a + b) = sqrt fixed32 (a + b) from sqrt_r i64 16 _]; exact eh
  · have : val fixed32r h ^ 2 ≤ val fixed32r (a + b) := h1
    rw [val_add] at this; linarith
  · have : val fixed32r (a + b) < (val fixed32r h + ulp fixed32r) ^ 2 := h2
    rw [val_add] at this; linarith

example : hypot fixed32r (3 * 65536) (4 * 65536) = .ok 463409 ∧ val fixed32r (3 * 65536) ^ 2 + val fixed32r (4 * 65536) ^ 2 < 2 ^ 14 - 2 := by
  refine ⟨by decide +kernel, by norm_num [val, fixed32r]⟩

end Eirin.Props
