import Verif.Props.RoundingFlag
import Mathlib.Data.Nat.Digits.Defs

/-! # Property C205: negative integer powers of rounding types -/

namespace Eirin.Props
open Spec

/-- C205 as one would expect it: a negative power of a power of two that is exact in the type is computed exactly. -/
def C205_statement : Prop :=
  ∀ F : FxTy, F.Valid → F.r = true → F.f + 3 ≤ F.T.bits → ∀ (b : Int) (j n : Nat), val F b = 2 ^ j → 0 < n → (j + 1) * n ≤ F.f →
    (j + 1) * n + F.f + 1 ≤ F.T.bits → ∃ r, powInt F b (-n) = .ok r ∧ Storable F r ∧ val F r = 1 / (2 ^ j) ^ n

theorem storable_pow {F : FxTy} {k : Nat} (hk : k + 2 ≤ F.T.bits) : Storable F (2 ^ k) := by
  have h1 : (2 : Int) ^ k < 2 ^ (F.T.bits - 1) := pow_lt_pow_right₀ (by norm_num) (by omega)
  have h2 : (2 : Int) ^ k < 2 ^ F.T.bits := pow_lt_pow_right₀ (by norm_num) (by omega)
  have h3 : (0 : Int) < 2 ^ k := by positivity
  constructor
  · unfold IntTy.lo; split <;> omega
  · unfold IntTy.hi; split <;> omega

theorem nearest_self {F : FxTy} {q : ℚ} {m n : Int} (hq : q = val F m) (h : IsNearest F q n) : n = m := by
  have h1 := h.1
  have hu := ulp_pos F
  rw [hq, ← val_sub, ← val_one F] at h1
  rw [← val_one F] at hu
  obtain ⟨a, b⟩ := abs_le.1 h1
  have c1 : val F (m - n) < val F 1 := by linarith
  have c2 : val F (-1) < val F (m - n) := by rw [val_neg]; linarith
  rw [val_lt] at c1 c2
  omega

/-- A quotient of powers of two in a rounding type: doubled. -/
theorem div_pow_r {F : FxTy} (hF : F.Valid) (hr : F.r = true) (hf : F.f + 2 ≤ F.T.bits) {p a : Nat} (hp : p + 2 ≤ F.T.bits) (ha : a ≤ p)
    (hs : p + 1 - a + 2 ≤ F.T.bits) : div F (2 ^ p) (2 ^ (a + F.f)) = .ok (2 ^ (p + 1 - a)) := by
  obtain ⟨z, n, e, hn, hw⟩ := (C05_div_partial F hF hr hf (2 ^ p) (2 ^ (a + F.f)) (storable_pow hp)).2 (by positivity)
  have hn' : n = 2 ^ (p - a) := nearest_self (by
    unfold val
    push_cast
    rw [div_div_div_cancel_right₀ (by positivity), div_eq_div_iff (by positivity) (by positivity), ← pow_add, ← pow_add]
    congr 1; omega) hn
  have h2 : 2 * n = 2 ^ (p + 1 - a) := by rw [hn', ← pow_succ']; congr 1; omega
  rw [h2] at hw
  rw [e, isWrap_unique hF.tpos hw ⟨storable_pow hs, by simp⟩]

/-- A square of a power of two in a rounding type: doubled. -/
theorem sq_pow_r {F : FxTy} (hF : F.Valid) (hr : F.r = true) {a : Nat} (hs : 2 * a + 1 + F.f + 2 ≤ F.T.bits) :
    mul F (2 ^ (a + F.f)) (2 ^ (a + F.f)) = .ok (2 ^ (2 * a + 1 + F.f)) := by
  have hx : Storable F (2 ^ (a + F.f)) := storable_pow (by omega)
  obtain ⟨z, n, e, hn, hw⟩ := C05_mul_partial F hF hr _ _ hx hx
  have hn' : n = 2 ^ (2 * a + F.f) := nearest_self (by
    unfold val
    push_cast
    rw [div_mul_div_comm, div_eq_div_iff (by positivity) (by positivity), ← pow_add, ← pow_add, ← pow_add, ← pow_add]
    congr 1; omega) hn
  have h2 : 2 * n = 2 ^ (2 * a + 1 + F.f) := by rw [hn', ← pow_succ']; congr 1; omega
  rw [h2] at hw
  rw [e, isWrap_unique hF.tpos hw ⟨storable_pow hs, by simp⟩]

theorem powNegLoop_step {F : FxTy} {k : Nat} {e i res : Int} (he : e ≠ 0) :
    powNegLoop F (k + 1) e i res = ((if Int.tmod e 2 ≠ 0 then divAssign F res i else pure res) >>= fun res' =>
      mulAssign F i i >>= fun i' => powNegLoop F k (Int.tdiv e 2) i' res') := by
  rw [powNegLoop, if_pos he]
  split <;> rfl

/-- The loop of negative powers on powers of two: each set bit of the exponent contributes a factor of four. -/
theorem powNeg_r {F : FxTy} (hF : F.Valid) (hr : F.r = true) (hf : F.f + 2 ≤ F.T.bits) (fuel : Nat) : ∀ (m a p : Nat), m < 2 ^ fuel →
    (a + 1) * m ≤ p → (a + 1) * m + F.f + 1 ≤ F.T.bits → p + 2 ≤ F.T.bits → (a = 0 → p + 3 ≤ F.T.bits) →
    ∃ s : Nat, powNegLoop F (fuel + 1) (-(m : Int)) (2 ^ (a + F.f)) (2 ^ p) = .ok (2 ^ s) ∧ s + 2 ≤ F.T.bits ∧
      s + (a + 1) * m = p + 2 * (Nat.digits 2 m).sum := by
  induction fuel with
  | zero =>
    intro m a p h1 h2 h3 h4 _
    have : m = 0 := by simpa using h1
    subst this
    exact ⟨p, by rw [powNegLoop, if_neg (by simp)], h4, by simp⟩
  | succ fuel ih =>
    intro m a p h1 h2 h3 h4 h5
    by_cases hm : m = 0
    · subst hm
      exact ⟨p, by rw [powNegLoop, if_neg (by simp)], h4, by simp⟩
    have hdig : (Nat.digits 2 m).sum = m % 2 + (Nat.digits 2 (m / 2)).sum := by
      rw [Nat.digits_def' (by norm_num) (by omega), List.sum_cons]
    have et : Int.tdiv (-(m : Int)) 2 = -((m / 2 : Nat) : Int) := by rw [Int.neg_tdiv]; norm_cast
    have em : Int.tmod (-(m : Int)) 2 = -((m % 2 : Nat) : Int) := by rw [Int.neg_tmod]; norm_cast
    have hlt : m / 2 < 2 ^ fuel := by rw [pow_succ] at h1; omega
    have ham : a + 1 ≤ (a + 1) * m := Nat.le_mul_of_pos_right _ (by omega)
    have hsplit : (a + 1) * m = (2 * a + 1 + 1) * (m / 2) + (a + 1) * (m % 2) := by
      conv_lhs => rw [← Nat.div_add_mod m 2]
      ring
    have hi : Storable F (2 ^ (a + F.f)) := storable_pow (by omega)
    -- the result after this bit
    obtain ⟨p', e1, q1, q2, q3⟩ : ∃ p' : Nat,
        (if Int.tmod (-(m : Int)) 2 ≠ 0 then divAssign F (2 ^ p) (2 ^ (a + F.f)) else pure (2 ^ p)) = .ok (2 ^ p') ∧
        (2 * a + 1 + 1) * (m / 2) ≤ p' ∧ p' + 2 ≤ F.T.bits ∧ p' + (a + 1) * (m % 2) = p + 2 * (m % 2) := by
      rcases Nat.mod_two_eq_zero_or_one m with h | h
      · refine ⟨p, by rw [em, h, if_neg (by simp)]; rfl, ?_, h4, by rw [h, mul_zero, mul_zero]⟩
        rw [h] at hsplit; omega
      · have hd := div_pow_r hF hr hf (p := p) (a := a) h4 (by omega) (by rcases Nat.eq_zero_or_pos a with r | r; have := h5 r; all_goals omega)
        refine ⟨p + 1 - a, by rw [em, h, if_pos (by simp)]; exact hd, ?_, ?_, ?_⟩
        · rw [h] at hsplit; omega
        · rcases Nat.eq_zero_or_pos a with r | r
          · have := h5 r; omega
          · omega
        · rw [h]; omega
    rw [powNegLoop_step (by omega), et]
    by_cases hm2 : m / 2 = 0
    · -- the last square is not used
      obtain ⟨z, -, ez, -, -⟩ := C05_mul_partial F hF hr _ _ hi hi
      refine ⟨p', ?_, q2, ?_⟩
      · rw [e1, Res.bind_ok]
        change (mul F _ _ >>= _) = _
        rw [ez, Res.bind_ok, hm2]
        cases fuel with
        | zero => rw [powNegLoop, if_neg (by simp)]
        | succ k => rw [powNegLoop, if_neg (by simp)]
      · rw [hdig, hm2]
        rw [hm2] at hsplit
        simp only [Nat.digits_zero, List.sum_nil]
        omega
    · have hmm : 2 * a + 1 + 1 ≤ (2 * a + 1 + 1) * (m / 2) := Nat.le_mul_of_pos_right _ (by omega)
      have hsq := sq_pow_r hF hr (a := a) (by omega)
      obtain ⟨s, es, s1, s2⟩ := ih (m / 2) (2 * a + 1) p' hlt q1 (by omega) q2 (by omega)
      refine ⟨s, ?_, s1, ?_⟩
      · rw [e1, Res.bind_ok]
        change (mul F _ _ >>= _) = _
        rw [hsq, Res.bind_ok]
        exact es
      · rw [hdig]; omega

/-- C205 (what happens instead): in every rounding type `pow(2^j, -n)` is `4^c / (2 * 2^j)^n`, where `c` is the number of set bits of `n`. -/
theorem C205_pow_partial (F : FxTy) (hF : F.Valid) (hr : F.r = true) (hf : F.f + 3 ≤ F.T.bits) (b : Int) (j n : Nat) (hb : val F b = 2 ^ j)
    (h0 : 0 < n) (h1 : (j + 1) * n ≤ F.f) (h2 : (j + 1) * n + F.f + 1 ≤ F.T.bits) :
    ∃ r, powInt F b (-n) = .ok r ∧ Storable F r ∧ val F r = 4 ^ (Nat.digits 2 n).sum / (2 * 2 ^ j) ^ n := by
  have hbe : b = 2 ^ (j + F.f) := val_inj (F := F) (by
    rw [hb]; unfold val; push_cast; rw [pow_add, mul_div_assoc, div_self (by positivity), mul_one])
  have hz : ofInt F 0 = 0 := by rw [ofInt_eq F hF, zero_mul]; exact IntTy.wrap_of_inRange hF.tpos ⟨by unfold IntTy.lo; split <;> simp, by unfold IntTy.hi; split <;> simp [Int.sub_nonneg, one_le_pow₀]⟩
  have h1' : ofInt F 1 = 2 ^ F.f := by rw [ofInt_eq F hF, one_mul]; exact IntTy.wrap_of_inRange hF.tpos (storable_pow (by omega))
  have hb0 : b ≠ 0 := by rw [hbe]; positivity
  have hn64 : n < 2 ^ 65 := by
    have : n ≤ (j + 1) * n := Nat.le_mul_of_pos_left _ (by omega)
    have hbits : F.T.bits ≤ 64 := by rcases hF.1 with h | h | h | h <;> omega
    have : n < 64 := by omega
    norm_num; omega
  obtain ⟨s, es, s1, s2⟩ := powNeg_r hF hr (by omega) 65 n j F.f hn64 h1 (by omega) (by omega) (fun _ => hf)
  refine ⟨2 ^ s, ?_, storable_pow s1, ?_⟩
  · unfold powInt
    rw [hz, h1', if_neg (by rw [eq_iff]; exact hb0), if_pos (by omega), hbe, es]
  · unfold val
    push_cast
    rw [div_eq_div_iff (by positivity) (by positivity), ← pow_succ', ← pow_mul, ← pow_add, show (4 : ℚ) = 2 ^ 2 by norm_num, ← pow_mul, ← pow_add]
    congr 1
    omega

example : powInt fixed32r 131072 (-3) = .ok 16384 ∧ powInt fixed32 131072 (-3) = .ok 8192 ∧ (Nat.digits 2 3).sum = 2 := by
  refine ⟨by decide +kernel, by decide +kernel, by norm_num⟩

/-- C205 is false of the code: in the rounding variant of `fixed32` the power `1^(-1)` is two. -/
theorem C205_false : ¬ C205_statement := by
  intro h
  obtain ⟨r, e, -, hv⟩ := h fixed32r (by decide) rfl (by decide) 65536 0 1 (by norm_num [val, fixed32r]) (by norm_num) (by decide) (by decide)
  rw [show powInt fixed32r 65536 (-((1 : Nat) : Int)) = .ok 131072 by decide +kernel] at e
  cases e
  norm_num [val, fixed32r] at hv

end Eirin.Props
