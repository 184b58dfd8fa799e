import Verif.Props.SinUnsigned
import Verif.Props.AtanAll

/-! # Property C159: atan, asin and acos on unsigned layouts. -/

namespace Eirin.Props
open Spec

/-- The coefficients of `atan` on an unsigned layout: the negative one wraps. -/
theorem lu_atan_k {B f : Nat} (hB : UB B) (h0 : 0 < f) (h1 : f + 3 ≤ B) :
    fromFixedNumValue (LU B f) i64 61 0x17CE62CE264A340 = .ok (0x17CE62CE264A340 / 2 ^ (61 - f)) ∧
    intMul (LU B f) i32 (-1) (0x17CE62CE264A340 / 2 ^ (61 - f)) = .ok ((-(0x17CE62CE264A340 / 2 ^ (61 - f))) % 2 ^ B) ∧
    fromFixedNumValue (LU B f) i64 61 0x5191A2296020A80 = .ok (0x5191A2296020A80 / 2 ^ (61 - f)) ∧
    fromFixedNumValue (LU B f) i64 61 0xA7BE2BC19C39800 = .ok (0xA7BE2BC19C39800 / 2 ^ (61 - f)) := by
  have a : ∀ f < 62, 0 < f →
    fromFixedNumValue (LU 64 f) i64 61 0x17CE62CE264A340 = .ok (0x17CE62CE264A340 / 2 ^ (61 - f)) ∧
    intMul (LU 64 f) i32 (-1) (0x17CE62CE264A340 / 2 ^ (61 - f)) = .ok ((-(0x17CE62CE264A340 / 2 ^ (61 - f))) % 2 ^ 64) ∧
    fromFixedNumValue (LU 64 f) i64 61 0x5191A2296020A80 = .ok (0x5191A2296020A80 / 2 ^ (61 - f)) ∧
    fromFixedNumValue (LU 64 f) i64 61 0xA7BE2BC19C39800 = .ok (0xA7BE2BC19C39800 / 2 ^ (61 - f)) := by decide +kernel
  have b : ∀ f < 30, 0 < f →
    fromFixedNumValue (LU 32 f) i64 61 0x17CE62CE264A340 = .ok (0x17CE62CE264A340 / 2 ^ (61 - f)) ∧
    intMul (LU 32 f) i32 (-1) (0x17CE62CE264A340 / 2 ^ (61 - f)) = .ok ((-(0x17CE62CE264A340 / 2 ^ (61 - f))) % 2 ^ 32) ∧
    fromFixedNumValue (LU 32 f) i64 61 0x5191A2296020A80 = .ok (0x5191A2296020A80 / 2 ^ (61 - f)) ∧
    fromFixedNumValue (LU 32 f) i64 61 0xA7BE2BC19C39800 = .ok (0xA7BE2BC19C39800 / 2 ^ (61 - f)) := by decide +kernel
  rcases hB with rfl | rfl
  · exact b f (by omega) h0
  · exact a f (by omega) h0

/-- The other constants. -/
theorem lu_asin_k {B f : Nat} (hB : UB B) (h0 : 0 < f) (h1 : f + 3 ≤ B) :
    cPi (LU B f) = .ok (0x6487ED5110B4611A / 2 ^ (61 - f)) ∧ (0x6487ED5110B4611A / 2 ^ (61 - f) : Int) < 2 ^ B ∧
    div (LU B f) (0x6487ED5110B4611A / 2 ^ (61 - f)) (ofInt (LU B f) 2) = .ok (0x6487ED5110B4611A / 2 ^ (61 - f) / 2) ∧
    ofInt (LU B f) 1 = 2 ^ f ∧ ofInt (LU B f) (-1) = 2 ^ B - 2 ^ f ∧ sqrt (LU B f) (2 ^ f) = .ok (2 ^ f) := by
  have a : ∀ f < 62, 0 < f →
    cPi (LU 64 f) = .ok (0x6487ED5110B4611A / 2 ^ (61 - f)) ∧ (0x6487ED5110B4611A / 2 ^ (61 - f) : Int) < 2 ^ 64 ∧
    div (LU 64 f) (0x6487ED5110B4611A / 2 ^ (61 - f)) (ofInt (LU 64 f) 2) = .ok (0x6487ED5110B4611A / 2 ^ (61 - f) / 2) ∧
    ofInt (LU 64 f) 1 = 2 ^ f ∧ ofInt (LU 64 f) (-1) = 2 ^ 64 - 2 ^ f ∧ sqrt (LU 64 f) (2 ^ f) = .ok (2 ^ f) := by decide +kernel
  have b : ∀ f < 30, 0 < f →
    cPi (LU 32 f) = .ok (0x6487ED5110B4611A / 2 ^ (61 - f)) ∧ (0x6487ED5110B4611A / 2 ^ (61 - f) : Int) < 2 ^ 32 ∧
    div (LU 32 f) (0x6487ED5110B4611A / 2 ^ (61 - f)) (ofInt (LU 32 f) 2) = .ok (0x6487ED5110B4611A / 2 ^ (61 - f) / 2) ∧
    ofInt (LU 32 f) 1 = 2 ^ f ∧ ofInt (LU 32 f) (-1) = 2 ^ 32 - 2 ^ f ∧ sqrt (LU 32 f) (2 ^ f) = .ok (2 ^ f) := by decide +kernel
  rcases hB with rfl | rfl
  · exact b f (by omega) h0
  · exact a f (by omega) h0

/-- The result of `atan` on an unsigned layout before the sign is applied. -/
def uAtan (B f : Nat) (x : Int) : Int :=
  let W : Int := 2 ^ B
  let x2 := x * x / 2 ^ f % W
  let p1 := ((-(0x17CE62CE264A340 / 2 ^ (61 - f))) % W) * x2 / 2 ^ f % W
  let p2 := (p1 + 0x5191A2296020A80 / 2 ^ (61 - f)) % W
  let p3 := p2 * x2 / 2 ^ f % W
  let p4 := (p3 - 0xA7BE2BC19C39800 / 2 ^ (61 - f)) % W
  let p5 := p4 * x2 / 2 ^ f % W
  let p6 := p5 * x / 2 ^ f % W
  (p6 + x) % W

section
variable {B f : Nat} (hB : UB B) (h0 : 0 < f) (h1 : f + 3 ≤ B)
include hB h0 h1

omit hB h0 h1 in
theorem u_mod (B : Nat) (n : Int) : 0 ≤ n % (2 : Int) ^ B ∧ n % (2 : Int) ^ B < 2 ^ B :=
  ⟨Int.emod_nonneg _ (by positivity), Int.emod_lt_of_pos _ (by positivity)⟩

theorem u_mul {x y : Int} (hx : 0 ≤ x ∧ x < 2 ^ B) (hy : 0 ≤ y ∧ y < 2 ^ B) : mul (LU B f) x y = .ok (x * y / 2 ^ f % 2 ^ B) := by
  obtain ⟨hv, hs, _⟩ := lu_valid hB h0 h1
  rw [mul_nf hv rfl (lu_in.2 hx) (lu_in.2 hy), lu_wrap]

theorem u_add {x y : Int} (hx : 0 ≤ x ∧ x < 2 ^ B) (hy : 0 ≤ y ∧ y < 2 ^ B) : add (LU B f) x y = .ok ((x + y) % 2 ^ B) := by
  obtain ⟨hv, hs, _⟩ := lu_valid hB h0 h1
  rw [add_nf hv (lu_in.2 hx) (lu_in.2 hy), if_neg (fun h => hs h.1), lu_wrap]

theorem u_sub {x y : Int} (hx : 0 ≤ x ∧ x < 2 ^ B) (hy : 0 ≤ y ∧ y < 2 ^ B) : sub (LU B f) x y = .ok ((x - y) % 2 ^ B) := by
  obtain ⟨hv, hs, _⟩ := lu_valid hB h0 h1
  rw [sub_nf hv (lu_in.2 hx) (lu_in.2 hy), if_neg (fun h => hs h.1), lu_wrap]

theorem u_neg {x : Int} (hx : 0 ≤ x ∧ x < 2 ^ B) : neg (LU B f) x = .ok ((-x) % 2 ^ B) := by
  obtain ⟨hv, hs, _⟩ := lu_valid hB h0 h1
  rw [neg_nf hv (lu_in.2 hx), if_neg (fun h => hs h.1), lu_wrap]

theorem u_coeff {c : Int} (c0 : 0 ≤ c) (c1 : c < 2 ^ 61) : 0 ≤ c / (2 : Int) ^ (61 - f) ∧ c / (2 : Int) ^ (61 - f) < 2 ^ B := by
  have hf : f ≤ 61 := by rcases hB with rfl | rfl <;> omega
  refine ⟨Int.ediv_nonneg c0 (by positivity), ?_⟩
  have h2 : (2 : Int) ^ f ≤ 2 ^ B := pow_le_pow_right₀ (by norm_num) (by omega)
  refine lt_of_lt_of_le (Int.ediv_lt_of_lt_mul (by positivity) ?_) h2
  rw [← pow_add, show f + (61 - f) = 61 by omega]
  exact c1

/-- `atan` on an unsigned layout: never undefined, and negated when the top bit of the argument is set. -/
theorem u_atan {x : Int} (hx : 0 ≤ x ∧ x < 2 ^ B) :
    atan (LU B f) x = .ok (if band (LU B f).P (signbitMask (LU B f)) x ≠ 0 then (-uAtan B f x) % 2 ^ B else uAtan B f x) := by
  obtain ⟨k1, k2, k3, k4⟩ := lu_atan_k hB h0 h1
  have r3 := u_coeff hB h0 h1 (c := 0x5191A2296020A80) (by norm_num) (by norm_num)
  have r4 := u_coeff hB h0 h1 (c := 0xA7BE2BC19C39800) (by norm_num) (by norm_num)
  have md := u_mod B
  unfold atan
  rw [k1, Res.bind_ok, k2, Res.bind_ok, k3, Res.bind_ok, k4, Res.bind_ok, (nn_unsigned hB h0 h1 le_rfl).abs x hx.1 hx.2, Res.bind_ok,
    u_mul hB h0 h1 hx hx, Res.bind_ok, u_mul hB h0 h1 (md _) (md _), Res.bind_ok, u_add hB h0 h1 (md _) r3, Res.bind_ok,
    u_mul hB h0 h1 (md _) (md _), Res.bind_ok, u_sub hB h0 h1 (md _) r4, Res.bind_ok, u_mul hB h0 h1 (md _) (md _), Res.bind_ok,
    u_mul hB h0 h1 (md _) hx, Res.bind_ok, u_add hB h0 h1 (md _) hx, Res.bind_ok]
  change (if band (LU B f).P (signbitMask (LU B f)) x ≠ 0 then neg (LU B f) (uAtan B f x) else pure (uAtan B f x)) = _
  have hu : 0 ≤ uAtan B f x ∧ uAtan B f x < 2 ^ B := md _
  rw [u_neg hB h0 h1 hu]
  split <;> rfl

omit h0 h1 in
/-- The sign test of `atan` on an unsigned layout looks at the top bit. -/
theorem u_top {x : Int} (hx : 0 ≤ x ∧ x < 2 ^ B) : band (LU B f).P (signbitMask (LU B f)) x ≠ 0 ↔ 2 ^ (B - 1) ≤ x := by
  obtain ⟨n, rfl⟩ := Int.eq_ofNat_of_zero_le hx.1
  have hn : n < 2 ^ B := by exact_mod_cast hx.2
  have key : ∀ C : Nat, 0 < C → n < 2 ^ C → (BitVec.ofInt C (2 ^ (C - 1) : Nat) &&& BitVec.ofInt C (n : Int)).toNat = if 2 ^ (C - 1) ≤ n then 2 ^ (C - 1) else 0 := by
    intro C hC h
    have h2 : 2 ^ (C - 1) < 2 ^ C := Nat.pow_lt_pow_right (by norm_num) (by omega)
    rw [BitVec.toNat_and, BitVec.ofInt_natCast, BitVec.ofInt_natCast, BitVec.toNat_ofNat, BitVec.toNat_ofNat, Nat.mod_eq_of_lt h, Nat.mod_eq_of_lt h2, Nat.two_pow_and]
    rw [Nat.testBit_eq_decide_div_mod_eq]
    have e : 2 ^ C = 2 * 2 ^ (C - 1) := by rw [← pow_succ']; congr 1; omega
    by_cases hc : 2 ^ (C - 1) ≤ n
    · have : n / 2 ^ (C - 1) = 1 := Nat.div_eq_of_lt_le (by omega) (by omega)
      rw [this, if_pos hc]; simp
    · rw [Nat.div_eq_of_lt (by omega), if_neg hc]; simp
  have hm : band (LU B f).P (signbitMask (LU B f)) n = (if 2 ^ (B - 1) ≤ n then 2 ^ (B - 1) else 0 : Nat) := by
    have hB0 : 0 < B := by rcases hB with rfl | rfl <;> norm_num
    have hP : (LU B f).P = (LU B f).T := by rcases hB with rfl | rfl <;> rfl
    have h2 : (2 : Int) ^ (B - 1) < 2 ^ B := pow_lt_pow_right₀ (by norm_num) (by omega)
    have hs : signbitMask (LU B f) = ((2 ^ (B - 1) : Nat) : Int) := by
      unfold signbitMask
      rw [hP, lu_wrap, lu_wrap]
      show (2 : Int) ^ (B - 1) % 2 ^ B % 2 ^ B = _
      rw [Int.emod_emod_of_dvd _ (dvd_refl _), Int.emod_eq_of_lt (by positivity) h2]
      push_cast; rfl
    have h2' : 2 ^ (B - 1) < 2 ^ B := by exact_mod_cast h2
    unfold band
    rw [hs, hP, lu_wrap]
    have := key B hB0 hn
    show (((BitVec.ofInt B ((2 ^ (B - 1) : Nat) : Int) &&& BitVec.ofInt B (n : Int)).toNat : Nat) : Int) % 2 ^ B = _
    rw [this]
    split
    · push_cast; exact Int.emod_eq_of_lt (by positivity) h2
    · simp
  rw [hm]
  have hp : (2 : Nat) ^ (B - 1) ≠ 0 := by positivity
  split
  · rename_i h; exact ⟨fun _ => by exact_mod_cast h, fun _ => by exact_mod_cast hp⟩
  · rename_i h
    exact ⟨fun h' => absurd rfl h', fun h' => absurd (by exact_mod_cast h') h⟩
end

/-- C159 as stated: on unsigned layouts the arctangent of `[0, 1]` is returned to the accuracy known for signed ones. -/
def C159_statement : Prop := ∀ B f : Nat, UB B → 8 ≤ f → f + 3 ≤ B → ∀ x : Int, Storable (LU B f) x → val (LU B f) x ≤ 1 →
  ∃ r, atan (LU B f) x = .ok r ∧ |((val (LU B f) r : ℚ) : ℝ) - Real.arctan (val (LU B f) x : ℚ)| ≤ 37 / 100000 + 7.7 * (ulp (LU B f) : ℚ)

theorem arctan_le_self {x : ℝ} (h : 0 ≤ x) : Real.arctan x ≤ x := by
  rcases eq_or_lt_of_le h with rfl | h
  · simp
  · have h1 : 0 < Real.arctan x := Real.arctan_pos.2 h
    have := Real.lt_tan h1 (Real.arctan_lt_pi_div_two x)
    rw [Real.tan_arctan] at this
    exact this.le

theorem le_arctan {x : ℝ} (h : 0 ≤ x) : x - x ^ 3 ≤ Real.arctan x := by
  have h1 : 0 ≤ Real.arctan x := Real.arctan_nonneg.2 h
  have h2 := Real.sin_le h1
  rw [Real.sin_arctan] at h2
  refine le_trans ?_ h2
  have h3 : 0 < √(1 + x ^ 2) := Real.sqrt_pos.2 (by positivity)
  rw [le_div_iff₀ h3]
  have h4 : √(1 + x ^ 2) ≤ 1 + x ^ 2 := by
    rw [Real.sqrt_le_left (by positivity)]; nlinarith [sq_nonneg x]
  have h5 : 1 ≤ √(1 + x ^ 2) := by rw [Real.one_le_sqrt]; nlinarith [sq_nonneg x]
  rcases le_total 1 x with hc | hc
  · have : x - x ^ 3 ≤ 0 := by nlinarith [mul_nonneg h (sub_nonneg.2 hc)]
    nlinarith
  · have : 0 ≤ x - x ^ 3 := by nlinarith [mul_nonneg h (sub_nonneg.2 hc), mul_nonneg (mul_nonneg h h) (sub_nonneg.2 hc)]
    calc (x - x ^ 3) * √(1 + x ^ 2) ≤ (x - x ^ 3) * (1 + x ^ 2) := mul_le_mul_of_nonneg_left h4 this
      _ = x - x ^ 5 := by ring
      _ ≤ x := by have : 0 ≤ x ^ 5 := by positivity
                  linarith

/-- C159: on every unsigned layout with at least four integer bits the arctangent of one half is wrong by more than 1/12. -/
theorem C159_half (B f : Nat) (hB : UB B) (h8 : 8 ≤ f) (h4 : f + 4 ≤ B) :
    ∃ r, atan (LU B f) (2 ^ (f - 1)) = .ok r ∧ val (LU B f) (2 ^ (f - 1)) = 1 / 2 ∧
      Real.arctan (1 / 2) + 1 / 12 < ((val (LU B f) r : ℚ) : ℝ) := by
  have a : ∀ f < 61, 8 ≤ f → (match atan (LU 64 f) (2 ^ (f - 1)) with | .ok r => decide (7 * 2 ^ f < 12 * r) | _ => false) = true := by decide +kernel
  have b : ∀ f < 29, 8 ≤ f → (match atan (LU 32 f) (2 ^ (f - 1)) with | .ok r => decide (7 * 2 ^ f < 12 * r) | _ => false) = true := by decide +kernel
  have key : (match atan (LU B f) (2 ^ (f - 1)) with | .ok r => decide (7 * 2 ^ f < 12 * r) | _ => false) = true := by
    rcases hB with rfl | rfl
    · exact b f (by omega) h8
    · exact a f (by omega) h8
  have hv : val (LU B f) (2 ^ (f - 1)) = 1 / 2 := by
    show (((2 : Int) ^ (f - 1) : Int) : ℚ) / 2 ^ f = _
    rw [show f = (f - 1) + 1 by omega, pow_succ]
    push_cast
    rw [div_mul_eq_div_div, div_self (by positivity)]
  split at key
  · rename_i r e
    refine ⟨r, e, hv, ?_⟩
    have k := of_decide_eq_true key
    have := arctan_le_self (x := 1 / 2) (by norm_num)
    have hr : (7 / 12 : ℝ) < ((val (LU B f) r : ℚ) : ℝ) := by
      have : (7 / 12 : ℚ) < val (LU B f) r := by
        show _ < (r : ℚ) / 2 ^ f
        rw [lt_div_iff₀ (by positivity)]
        have : (7 * 2 ^ f : ℚ) < 12 * r := by exact_mod_cast k
        linarith
      have := (Rat.cast_lt (K := ℝ)).2 this
      push_cast at this ⊢; exact this
    linarith
  · cases key
example : atan (LU 32 16) (2 ^ 15) = .ok 33584818 ∧ (33584818 : ℚ) / 2 ^ 16 > 512 := ⟨by decide +kernel, by norm_num⟩

/-- C159 is false of the code: the coefficient `-0.0465` and the negative partial sums wrap. -/
theorem C159_false : ¬ C159_statement := by
  intro h
  obtain ⟨r, e, hr⟩ := h 32 16 (Or.inl rfl) (by norm_num) (by norm_num) (2 ^ 15) (by decide +kernel) (by norm_num [val])
  obtain ⟨r', e', hv, h'⟩ := C159_half 32 16 (Or.inl rfl) (by norm_num) (by norm_num)
  rw [e'] at e
  obtain rfl := Res.ok.inj e
  have e2 : (((val (LU 32 16) (2 ^ 15) : ℚ) : ℝ)) = 1 / 2 := by rw [show ((2 : Int) ^ 15) = 2 ^ (16 - 1) by norm_num, hv]; norm_num
  rw [e2] at hr
  have hu : ((ulp (LU 32 16) : ℚ) : ℝ) = 1 / 65536 := by norm_num [ulp]
  rw [hu] at hr
  have := (abs_le.1 hr).2
  norm_num at *
  linarith

/-- C159: at one the wrapped coefficients cancel and the arctangent is right. -/
theorem C159_one (B f : Nat) (hB : UB B) (h0 : 0 < f) (h3 : f + 3 ≤ B) :
    ∃ r, atan (LU B f) (2 ^ f) = .ok r ∧ |((val (LU B f) r : ℚ) : ℝ) - Real.pi / 4| ≤ 21 / 100000 + 3 * (ulp (LU B f) : ℚ) := by
  have a : ∀ f < 62, 0 < f → (match atan (LU 64 f) (2 ^ f) with
      | .ok r => decide (-(300000 + 2 ^ f) ≤ 100000 * r - 78520 * 2 ^ f ∧ 100000 * r - 78520 * 2 ^ f ≤ 300000 + 2 ^ f) | _ => false) = true := by decide +kernel
  have b : ∀ f < 30, 0 < f → (match atan (LU 32 f) (2 ^ f) with
      | .ok r => decide (-(300000 + 2 ^ f) ≤ 100000 * r - 78520 * 2 ^ f ∧ 100000 * r - 78520 * 2 ^ f ≤ 300000 + 2 ^ f) | _ => false) = true := by decide +kernel
  have key : (match atan (LU B f) (2 ^ f) with
      | .ok r => decide (-(300000 + 2 ^ f) ≤ 100000 * r - 78520 * 2 ^ f ∧ 100000 * r - 78520 * 2 ^ f ≤ 300000 + 2 ^ f) | _ => false) = true := by
    rcases hB with rfl | rfl
    · exact b f (by omega) h0
    · exact a f (by omega) h0
  split at key
  · rename_i r e
    refine ⟨r, e, ?_⟩
    obtain ⟨k1, k2⟩ := of_decide_eq_true key
    have k1' : -(300000 + 2 ^ f : ℝ) ≤ 100000 * r - 78520 * 2 ^ f := by exact_mod_cast k1
    have k2' : (100000 * r - 78520 * 2 ^ f : ℝ) ≤ 300000 + 2 ^ f := by exact_mod_cast k2
    have hp : (0 : ℝ) < 2 ^ f := by positivity
    have hv : ((val (LU B f) r : ℚ) : ℝ) = r / 2 ^ f := by unfold val; push_cast; rfl
    have hu : ((ulp (LU B f) : ℚ) : ℝ) = 1 / 2 ^ f := by unfold ulp; push_cast; rfl
    rw [hv, hu]
    have g1 : (78519 / 100000 : ℝ) - 3 * (1 / 2 ^ f) ≤ r / 2 ^ f := by
      rw [le_div_iff₀ hp, sub_mul, mul_assoc, one_div, inv_mul_cancel₀ hp.ne']; linarith
    have g2 : r / 2 ^ f ≤ (78521 / 100000 : ℝ) + 3 * (1 / 2 ^ f) := by
      rw [div_le_iff₀ hp, add_mul, mul_assoc, one_div, inv_mul_cancel₀ hp.ne']; linarith
    have p1 := Real.pi_gt_d6
    have p2 := Real.pi_lt_d6
    rw [abs_le]
    constructor <;> norm_num at * <;> linarith
  · cases key
example : atan (LU 32 16) (2 ^ 16) = .ok 51458 := by decide +kernel

/-- C159: on every unsigned layout with at least three integer bits `atan` is defined for every argument. -/
theorem C159_defined (B f : Nat) (hB : UB B) (h0 : 0 < f) (h3 : f + 3 ≤ B) (x : Int) (hx : Storable (LU B f) x) :
    ∃ r, atan (LU B f) x = .ok r ∧ Storable (LU B f) r := by
  refine ⟨_, u_atan hB h0 h3 (lu_in.1 hx), ?_⟩
  refine lu_in.2 ?_
  split
  · exact u_mod B _
  · exact u_mod B _
example : atan (LU 32 16) (2 ^ 31) = .ok (2 ^ 31) := by decide +kernel

theorem u_small {B f : Nat} (hB : UB B) (h0 : 0 < f) (h1 : f + 3 ≤ B) {x : Int} (hx : 0 ≤ x) (hx2 : x * x < 2 ^ f) : x < 2 ^ f ∧ atan (LU B f) x = .ok x := by
  have hp : (0 : Int) < 2 ^ f := by positivity
  have hxf : x < 2 ^ f := by nlinarith
  have hfB : (2 : Int) ^ f ≤ 2 ^ (B - 1) := pow_le_pow_right₀ (by norm_num) (by omega)
  have hBB : (2 : Int) ^ (B - 1) ≤ 2 ^ B := pow_le_pow_right₀ (by norm_num) (by omega)
  have hxB : 0 ≤ x ∧ x < 2 ^ B := ⟨hx, by omega⟩
  refine ⟨hxf, ?_⟩
  rw [u_atan hB h0 h1 hxB, if_neg (by rw [u_top hB hxB]; omega)]
  unfold uAtan
  dsimp only
  rw [Int.ediv_eq_zero_of_lt (mul_nonneg hx hx) hx2]
  simp only [Int.zero_emod, mul_zero, Int.zero_ediv, zero_mul, zero_add]
  rw [Int.emod_eq_of_lt hx hxB.2]

/-- C159 (arguments whose square is below one ulp): the arctangent is the argument itself, which is within an ulp of the exact value. -/
theorem C159_small_partial (B f : Nat) (hB : UB B) (h0 : 0 < f) (h3 : f + 3 ≤ B) (x : Int) (hx : Storable (LU B f) x)
    (hx2 : val (LU B f) x ^ 2 < ulp (LU B f)) :
    atan (LU B f) x = .ok x ∧ |((val (LU B f) x : ℚ) : ℝ) - Real.arctan (val (LU B f) x : ℚ)| ≤ (ulp (LU B f) : ℚ) := by
  have hpq : (0 : ℚ) < 2 ^ f := by positivity
  obtain ⟨x0, x1⟩ := lu_in.1 hx
  have hxx : x * x < 2 ^ f := by
    have : ((x : ℚ) / 2 ^ f) ^ 2 < 1 / 2 ^ f := hx2
    rw [div_pow, div_lt_div_iff₀ (by positivity) hpq] at this
    have : (x : ℚ) ^ 2 < 2 ^ f := by nlinarith
    have : (x ^ 2 : Int) < 2 ^ f := by exact_mod_cast this
    nlinarith
  obtain ⟨hxf, e⟩ := u_small hB h0 h3 x0 hxx
  refine ⟨e, ?_⟩
  have v0 : 0 ≤ ((val (LU B f) x : ℚ) : ℝ) := by
    have : (0 : ℚ) ≤ (x : ℚ) / 2 ^ f := div_nonneg (by exact_mod_cast x0) hpq.le
    exact Rat.cast_nonneg.2 this
  have v1 : ((val (LU B f) x : ℚ) : ℝ) ≤ 1 := by
    have : (x : ℚ) / 2 ^ f ≤ 1 := by rw [div_le_one hpq]; exact_mod_cast hxf.le
    have h := (Rat.cast_le (K := ℝ)).2 this
    rw [Rat.cast_one] at h; exact h
  have v2 : ((val (LU B f) x : ℚ) : ℝ) ^ 2 < ((ulp (LU B f) : ℚ) : ℝ) := by exact_mod_cast hx2
  have l1 := arctan_le_self v0
  have l2 := le_arctan v0
  generalize ((val (LU B f) x : ℚ) : ℝ) = v at *
  rw [abs_of_nonneg (by linarith)]
  nlinarith [mul_le_mul_of_nonneg_right v1 (sq_nonneg v)]
example : Storable (LU 32 16) 255 ∧ val (LU 32 16) 255 ^ 2 < ulp (LU 32 16) ∧ atan (LU 32 16) 255 = .ok 255 ∧ atan (LU 32 16) 257 ≠ .ok 257 := by
  refine ⟨by decide +kernel, by norm_num [val, ulp], by decide +kernel, by decide +kernel⟩

/-- The square root in `asin` of an argument below one is positive, and the quotient is defined. -/
theorem u_asin {B f : Nat} (hB : UB B) (h0 : 0 < f) (h1 : f + 3 ≤ B) {x : Int} (hx : 0 ≤ x) (hx1 : x < 2 ^ f) :
    ∃ s, 0 < s ∧ sqrt (LU B f) (2 ^ f - x * x / 2 ^ f) = .ok s ∧ asin (LU B f) x = atan (LU B f) (x * 2 ^ f / s % 2 ^ B) := by
  have hp : (0 : Int) < 2 ^ f := by positivity
  have hfB : (2 : Int) ^ (f + 3) ≤ 2 ^ B := pow_le_pow_right₀ (by norm_num) h1
  rw [pow_add] at hfB
  obtain ⟨hv, hs, hz⟩ := lu_valid hB h0 h1
  obtain ⟨k1, k2, k3, k4, k5, k6⟩ := lu_asin_k hB h0 h1
  have nn := nn_unsigned hB h0 h1 (M := 2 ^ B) le_rfl
  have q0 : 0 ≤ x * x / 2 ^ f := Int.ediv_nonneg (mul_nonneg hx hx) hp.le
  have q1 : x * x / 2 ^ f < 2 ^ f := Int.ediv_lt_of_lt_mul hp (by nlinarith)
  have em : mul (LU B f) x x = .ok (x * x / 2 ^ f) := nn.mul x x hx (by omega) hx (by omega) (by show x * x / 2 ^ f < 2 ^ B; omega)
  have ed : sub (LU B f) (2 ^ f) (x * x / 2 ^ f) = .ok (2 ^ f - x * x / 2 ^ f) := nn.sub _ _ hp.le (by omega) q0 q1.le
  have hd : Storable (LU B f) (2 ^ f - x * x / 2 ^ f) := lu_in.2 ⟨by omega, by omega⟩
  obtain ⟨s, es, sS, s1, -⟩ := C139_sqrt_partial B f hB h0 h1 _ hd
  have hd1 : 1 ≤ 2 ^ f - x * x / 2 ^ f := by omega
  have s0 : 0 < s := by
    have sn := (lu_in.1 sS).1
    rcases eq_or_lt_of_le sn with h | h
    · exfalso
      rw [← h, val_zero, zero_add] at s1
      have hpq : (1 : ℚ) ≤ 2 ^ f := one_le_pow₀ (by norm_num)
      have : ((2 ^ f - x * x / 2 ^ f : Int) : ℚ) / 2 ^ f < (1 / 2 ^ f) ^ 2 := s1
      rw [div_pow, one_pow, div_lt_div_iff₀ (by positivity) (by positivity)] at this
      have h2 : (1 : ℚ) ≤ ((2 ^ f - x * x / 2 ^ f : Int) : ℚ) := by exact_mod_cast hd1
      nlinarith
    · exact h
  refine ⟨s, s0, es, ?_⟩
  have eq : div (LU B f) x s = .ok (x * 2 ^ f / s % 2 ^ B) := by
    rw [div_nf hv rfl (lu_in.2 ⟨hx, by omega⟩), if_neg s0.ne', lu_wrap, Int.tdiv_eq_ediv_of_nonneg (by positivity)]
  unfold asin
  rw [k1, Res.bind_ok, nn.abs x hx (by omega), Res.bind_ok, k4, k5, if_neg (by rw [gt_iff]; omega), if_neg (by rw [eq_iff]; omega),
    if_neg (by rw [eq_iff]; omega), em, Res.bind_ok, ed, Res.bind_ok, es, Res.bind_ok, eq, Res.bind_ok]

/-- C159: on every unsigned layout `asin` and `acos` throw exactly for arguments above one and are defined otherwise. -/
theorem C159_domain (B f : Nat) (hB : UB B) (h0 : 0 < f) (h3 : f + 3 ≤ B) (x : Int) (hx : Storable (LU B f) x) :
    (1 < val (LU B f) x → asin (LU B f) x = .throw .domainError ∧ acos (LU B f) x = .throw .domainError) ∧
    (val (LU B f) x ≤ 1 → (∃ r, asin (LU B f) x = .ok r ∧ Storable (LU B f) r) ∧ ∃ r, acos (LU B f) x = .ok r ∧ Storable (LU B f) r) := by
  have hp : (0 : Int) < 2 ^ f := by positivity
  have hv1 : val (LU B f) (2 ^ f) = 1 := by have := val_int (LU B f) 1; rw [one_mul] at this; rw [this]; norm_num
  obtain ⟨x0, x1⟩ := lu_in.1 hx
  obtain ⟨hv, hs, hz⟩ := lu_valid hB h0 h3
  obtain ⟨k1, k2, k3, k4, k5, k6⟩ := lu_asin_k hB h0 h3
  have nn := nn_unsigned hB h0 h3 (M := 2 ^ B) le_rfl
  have hfB : (2 : Int) ^ (f + 3) ≤ 2 ^ B := pow_le_pow_right₀ (by norm_num) h3
  rw [pow_add] at hfB
  have p0 : (0 : Int) ≤ 0x6487ED5110B4611A / 2 ^ (61 - f) := Int.ediv_nonneg (by norm_num) (by positivity)
  generalize (0x6487ED5110B4611A / 2 ^ (61 - f) : Int) = p at *
  have hh : 0 ≤ p / 2 ∧ p / 2 < 2 ^ B := ⟨by omega, by omega⟩
  have ph : divInt (LU B f) i32 p 2 = .ok (p / 2) := nn.divInt p 2 p0 k2 (by norm_num) (by norm_num)
  constructor
  · intro h
    rw [← hv1, val_lt] at h
    constructor
    · unfold asin
      rw [k1, Res.bind_ok, nn.abs x x0 x1, Res.bind_ok, k4, if_pos (by rw [gt_iff]; exact h)]
    · unfold acos
      rw [k1, Res.bind_ok, nn.abs x x0 x1, Res.bind_ok, k4, if_pos (by rw [gt_iff]; exact h)]
  · intro h
    rw [← hv1, val_le] at h
    have has : ∃ r, asin (LU B f) x = .ok r ∧ Storable (LU B f) r := by
      rcases eq_or_lt_of_le h with h | h
      · refine ⟨p / 2, ?_, lu_in.2 hh⟩
        unfold asin
        rw [k1, Res.bind_ok, nn.abs x x0 x1, Res.bind_ok, k4, if_neg (by rw [gt_iff]; omega), if_pos (by rw [eq_iff]; exact h), k3]
      · obtain ⟨s, -, -, e⟩ := u_asin hB h0 h3 x0 h
        rw [e]
        exact C159_defined B f hB h0 h3 _ (lu_in.2 (u_mod B _))
    refine ⟨has, ?_⟩
    obtain ⟨r, er, rS⟩ := has
    unfold acos
    rw [k1, Res.bind_ok, nn.abs x x0 x1, Res.bind_ok, k4, k5, hz, if_neg (by rw [gt_iff]; omega)]
    split
    · exact ⟨0, rfl, lu_in.2 ⟨le_rfl, by positivity⟩⟩
    · rw [if_neg (by rw [eq_iff]; omega)]
      split
      · exact ⟨p / 2, k3, lu_in.2 hh⟩
      · rw [ph, Res.bind_ok, er, Res.bind_ok, u_sub hB h0 h3 hh (lu_in.1 rS)]
        exact ⟨_, rfl, lu_in.2 (u_mod B _)⟩
example : asin (LU 32 16) 65537 = .throw .domainError ∧ asin (LU 32 16) 65536 = .ok 102943 ∧ acos (LU 32 16) 0 = .ok 102943 := by decide +kernel

/-- The value of the constant `π / 2`. -/
theorem u_half_pi {B f : Nat} (h : f ≤ 61) : |((val (LU B f) (0x6487ED5110B4611A / 2 ^ (61 - f) / 2) : ℚ) : ℝ) - Real.pi / 2| ≤ 2 * (ulp (LU B f) : ℚ) := by
  have hv : ((val (LU B f) (0x6487ED5110B4611A / 2 ^ (61 - f) / 2) : ℚ) : ℝ) = ((0x6487ED5110B4611A / 2 ^ (61 - f) / 2 : Int) : ℝ) / 2 ^ f := by
    unfold val; push_cast; rfl
  have hu : ((ulp (LU B f) : ℚ) : ℝ) = 1 / 2 ^ f := by unfold ulp; push_cast; rfl
  rw [hv, hu]
  have e : (0x6487ED5110B4611A / 2 ^ (61 - f) / 2 : Int) = 0x6487ED5110B4611A / (2 ^ (61 - f) * 2) := Int.ediv_ediv_of_nonneg (by positivity)
  have hd : (0 : Int) < 2 ^ (61 - f) * 2 := by positivity
  have l1 := Int.ediv_mul_le 0x6487ED5110B4611A hd.ne'
  have l2 := Int.lt_ediv_add_one_mul_self 0x6487ED5110B4611A hd
  rw [← e] at l1 l2
  generalize (0x6487ED5110B4611A / 2 ^ (61 - f) / 2 : Int) = m at *
  have l1' : (m : ℝ) * (2 ^ (61 - f) * 2) ≤ 0x6487ED5110B4611A := by exact_mod_cast l1
  have l2' : (0x6487ED5110B4611A : ℝ) < (m + 1) * (2 ^ (61 - f) * 2) := by exact_mod_cast l2
  have hq : (2 : ℝ) ^ (61 - f) * 2 * 2 ^ f = 2 ^ 62 := by
    rw [mul_right_comm, ← pow_add, show 61 - f + f = 61 by omega]; norm_num
  have hf : (0 : ℝ) < 2 ^ f := by positivity
  have hf61 : (1 : ℝ) / 2 ^ 61 ≤ 1 / 2 ^ f := one_div_le_one_div_of_le hf (pow_le_pow_right₀ (by norm_num) h)
  have g1 : (m : ℝ) / 2 ^ f ≤ 0x6487ED5110B4611A / 2 ^ 62 := by
    rw [div_le_div_iff₀ hf (by positivity), ← hq]; nlinarith
  have g2 : (0x6487ED5110B4611A : ℝ) / 2 ^ 62 < m / 2 ^ f + 1 / 2 ^ f := by
    rw [← add_div, div_lt_div_iff₀ (by positivity) hf, ← hq]; nlinarith
  have p1 := Real.pi_gt_d20
  have p2 := Real.pi_lt_d20
  rw [abs_le]
  constructor <;> norm_num at * <;> linarith

/-- C159: the ends of the domain are right: `asin(1)` and `acos(0)` are `π/2` to two ulp, `acos(1)` is zero; and where the square of the argument is below one ulp
`asin(x)` is `x` and `acos(x)` is that `π/2` less `x`. -/
theorem C159_ends (B f : Nat) (hB : UB B) (h0 : 0 < f) (h3 : f + 3 ≤ B) :
    (∃ h, asin (LU B f) (2 ^ f) = .ok h ∧ acos (LU B f) 0 = .ok h ∧ |((val (LU B f) h : ℚ) : ℝ) - Real.pi / 2| ≤ 2 * (ulp (LU B f) : ℚ) ∧
      ∀ x, Storable (LU B f) x → val (LU B f) x ^ 2 < ulp (LU B f) → asin (LU B f) x = .ok x ∧ acos (LU B f) x = .ok (h - x)) ∧
    acos (LU B f) (2 ^ f) = .ok 0 := by
  have hp : (0 : Int) < 2 ^ f := by positivity
  have hpi := u_half_pi (B := B) (f := f) (by rcases hB with rfl | rfl <;> omega)
  obtain ⟨hv, hs, hz⟩ := lu_valid hB h0 h3
  obtain ⟨k1, k2, k3, k4, k5, k6⟩ := lu_asin_k hB h0 h3
  have nn := nn_unsigned hB h0 h3 (M := 2 ^ B) le_rfl
  have hfB : (2 : Int) ^ (f + 3) ≤ 2 ^ B := pow_le_pow_right₀ (by norm_num) h3
  rw [pow_add] at hfB
  have p0 : (2 : Int) ^ f * 2 ≤ 0x6487ED5110B4611A / 2 ^ (61 - f) := by
    rw [Int.le_ediv_iff_mul_le (by positivity), mul_right_comm, ← pow_add, show f + (61 - f) = 61 by rcases hB with rfl | rfl <;> omega]
    norm_num
  generalize (0x6487ED5110B4611A / 2 ^ (61 - f) : Int) = p at *
  have ph : divInt (LU B f) i32 p 2 = .ok (p / 2) := nn.divInt p 2 (by omega) k2 (by norm_num) (by norm_num)
  have hfl : (2 : Int) ^ f < 2 ^ B := by omega
  refine ⟨⟨p / 2, ?_, ?_, hpi, ?_⟩, ?_⟩
  · unfold asin
    rw [k1, Res.bind_ok, nn.abs _ hp.le hfl, Res.bind_ok, k4, if_neg (by rw [gt_iff]; omega), if_pos (by rw [eq_iff]), k3]
  · unfold acos
    rw [k1, Res.bind_ok, nn.abs 0 le_rfl (by positivity), Res.bind_ok, k4, k5, hz, if_neg (by rw [gt_iff]; omega), if_neg (by rw [eq_iff]; omega),
      if_neg (by rw [eq_iff]; omega), if_pos (by rw [eq_iff]), k3]
  · intro x hx hx2
    obtain ⟨x0, x1⟩ := lu_in.1 hx
    have hpq : (0 : ℚ) < 2 ^ f := by positivity
    have hxx : x * x < 2 ^ f := by
      have : ((x : ℚ) / 2 ^ f) ^ 2 < 1 / 2 ^ f := hx2
      rw [div_pow, div_lt_div_iff₀ (by positivity) hpq] at this
      have : (x : ℚ) ^ 2 < 2 ^ f := by nlinarith
      have : (x ^ 2 : Int) < 2 ^ f := by exact_mod_cast this
      nlinarith
    obtain ⟨hxf, e⟩ := u_small hB h0 h3 x0 hxx
    have ea : asin (LU B f) x = .ok x := by
      obtain ⟨s, -, es, e'⟩ := u_asin hB h0 h3 x0 hxf
      rw [Int.ediv_eq_zero_of_lt (mul_nonneg x0 x0) hxx, sub_zero, k6] at es
      obtain rfl := Res.ok.inj es
      rw [e', Int.mul_ediv_cancel _ hp.ne', Int.emod_eq_of_lt x0 x1, e]
    refine ⟨ea, ?_⟩
    unfold acos
    rw [k1, Res.bind_ok, nn.abs x x0 x1, Res.bind_ok, k4, k5, hz, if_neg (by rw [gt_iff]; omega), if_neg (by rw [eq_iff]; omega), if_neg (by rw [eq_iff]; omega)]
    split
    · rename_i hx0
      rw [eq_iff] at hx0
      rw [hx0, sub_zero, k3]
    · rw [ph, Res.bind_ok, ea, Res.bind_ok, nn.sub _ _ (by omega) (by omega) x0 (by omega)]
  · unfold acos
    rw [k1, Res.bind_ok, nn.abs _ hp.le hfl, Res.bind_ok, k4, hz, if_neg (by rw [gt_iff]; omega), if_pos (by rw [eq_iff])]
    rfl
example : asin (LU 32 16) 200 = .ok 200 ∧ acos (LU 32 16) 200 = .ok 102743 ∧ acos (LU 32 16) 65536 = .ok 0 := by decide +kernel

end Eirin.Props
