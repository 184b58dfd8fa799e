import Verif.Props.AtanAll
import Verif.Props.RoundDot

/-! # Property C203: arctangent of rounding types -/

namespace Eirin.Props
open Spec

/-- C203 as one would expect it: the accuracy of C106 holds for rounding types too. -/
def C203_statement : Prop :=
  ∀ F : FxTy, F.Valid → F.T.signed = true → F.r = true → 8 ≤ F.f → F.f ≤ 60 → Storable F (2 ^ F.f) → ∀ x, |val F x| ≤ 1 / 2 →
    ∃ r, atan F x = .ok r ∧ Storable F r ∧ |((val F r : ℚ) : ℝ) - Real.arctan (val F x : ℚ)| ≤ 37 / 100000 + 9 * (ulp F : ℚ)

/-- What is used of a rounding layout. -/
structure LayR (F : FxTy) (R : ℝ) : Prop where
  sw : SG F
  r : F.r = true
  u_le : uR F ≤ 1 / 256
  st : ∀ {z : Int}, |rv F z| ≤ R → Storable F z
  hi : R ≤ rv F F.T.hi

theorem layR {F : FxTy} (h : SG F) (hr : F.r = true) (h8 : 8 ≤ F.f) : LayR F 1.9 := by
  have hu : uR F ≤ 1 / 256 := by
    unfold uR
    apply div_le_div_of_nonneg_left (by norm_num) (by norm_num)
    have : (2 : ℝ) ^ 8 ≤ 2 ^ F.f := pow_le_pow_right₀ (by norm_num) h8
    norm_num at this ⊢; exact this
  have hd := h.d_le
  rw [h.hi_eq] at hd
  have hlt : F.f < F.T.bits - 1 := (pow_lt_pow_iff_right₀ (by norm_num : (1 : Int) < 2)).1 (by omega)
  have hpw : (2 : Int) ^ (F.f + 1) ≤ 2 ^ (F.T.bits - 1) := pow_le_pow_right₀ (by norm_num) hlt
  rw [pow_succ] at hpw
  refine ⟨h, hr, hu, ?_, ?_⟩
  · intro z hz
    unfold rv at hz
    rw [abs_div, abs_of_pos (by positivity : (0 : ℝ) < 2 ^ F.f), div_le_iff₀ (by positivity)] at hz
    have h2 : |(z : ℝ)| < 2 * 2 ^ F.f := lt_of_le_of_lt hz (mul_lt_mul_of_pos_right (by norm_num) (by positivity))
    have hz' : |z| < 2 * 2 ^ F.f := by exact_mod_cast h2
    rw [abs_lt] at hz'
    exact ⟨by rw [h.lo_eq]; omega, by rw [h.hi_eq]; omega⟩
  · have h1 : rv F (2 * 2 ^ F.f - 1) ≤ rv F F.T.hi := by rw [rv_le, h.hi_eq]; omega
    rw [rv_sub, rv_int, show rv F 1 = uR F by rw [rv_u]; norm_num] at h1
    push_cast at h1
    norm_num at *
    linarith

namespace LayR
variable {F : FxTy} {R : ℝ} (h : LayR F R)
include h

theorem of_er {z : Int} {X k M : ℝ} (h1 : |rv F z - X| ≤ k * uR F) (hk : 0 ≤ k) (hX : |X| ≤ M) (hM : M + k / 256 ≤ R) : Ap F z X k := by
  refine ⟨h.st ?_, h1⟩
  have h2 : |rv F z| ≤ |rv F z - X| + |X| := by
    have := abs_add_le (rv F z - X) X; simpa using this
  have h3 : k * uR F ≤ k * (1 / 256) := mul_le_mul_of_nonneg_left h.u_le hk
  linarith

theorem add {x y : Int} {X Y a b M : ℝ} (hx : Ap F x X a) (hy : Ap F y Y b) (hM : |X + Y| ≤ M) (hR : M + (a + b) / 256 ≤ R) :
    Eirin.add F x y = .ok (x + y) ∧ Ap F (x + y) (X + Y) (a + b) := by
  have e : |rv F (x + y) - (X + Y)| ≤ (a + b) * uR F := by
    rw [rv_add, show rv F x + rv F y - (X + Y) = (rv F x - X) + (rv F y - Y) by ring, add_mul]
    exact le_trans (abs_add_le _ _) (add_le_add hx.er hy.er)
  have hz := h.of_er e (add_nonneg hx.k_nonneg hy.k_nonneg) hM hR
  exact ⟨h.sw.add_ok hz.st, hz⟩

theorem sub {x y : Int} {X Y a b M : ℝ} (hx : Ap F x X a) (hy : Ap F y Y b) (hM : |X - Y| ≤ M) (hR : M + (a + b) / 256 ≤ R) :
    Eirin.sub F x y = .ok (x - y) ∧ Ap F (x - y) (X - Y) (a + b) := by
  have e : |rv F (x - y) - (X - Y)| ≤ (a + b) * uR F := by
    rw [rv_sub, show rv F x - rv F y - (X - Y) = (rv F x - X) - (rv F y - Y) by ring, add_mul]
    exact le_trans (abs_sub _ _) (add_le_add hx.er hy.er)
  have hz := h.of_er e (add_nonneg hx.k_nonneg hy.k_nonneg) hM hR
  exact ⟨h.sw.sub_ok hz.st, hz⟩

/-- A product: within the stated number of ulps of *twice* the product. -/
theorem mul {x y : Int} {X Y a b : ℝ} (M N K : ℝ) (hx : Ap F x X a) (hy : Ap F y Y b) (hM : |X| ≤ M) (hN : |Y| ≤ N)
    (hK : 2 * (M * b + N * a + a * b / 256) + 1 ≤ K) (hR : 2 * (M * N) + K / 256 ≤ R) :
    ∃ z, Eirin.mul F x y = .ok z ∧ Ap F z (2 * (X * Y)) K := by
  have hu := uR_pos F
  have ha := hx.k_nonneg
  have hb := hy.k_nonneg
  have hM0 := le_trans (abs_nonneg _) hM
  have hN0 := le_trans (abs_nonneg _) hN
  have e2 : |rv F x * rv F y - X * Y| ≤ (M * b + N * a + a * b / 256) * uR F := by
    have e : rv F x * rv F y - X * Y = X * (rv F y - Y) + Y * (rv F x - X) + (rv F x - X) * (rv F y - Y) := by ring
    rw [e]
    have t1 : |X * (rv F y - Y)| ≤ M * (b * uR F) := by
      rw [abs_mul]; exact mul_le_mul hM hy.er (abs_nonneg _) hM0
    have t2 : |Y * (rv F x - X)| ≤ N * (a * uR F) := by
      rw [abs_mul]; exact mul_le_mul hN hx.er (abs_nonneg _) hN0
    have t3 : |(rv F x - X) * (rv F y - Y)| ≤ a * b / 256 * uR F := by
      rw [abs_mul]
      refine (mul_le_mul hx.er hy.er (abs_nonneg _) (by positivity)).trans ?_
      have : a * b * uR F * uR F ≤ a * b * uR F * (1 / 256) := mul_le_mul_of_nonneg_left h.u_le (by positivity)
      nlinarith
    have := abs_add_le (X * (rv F y - Y) + Y * (rv F x - X)) ((rv F x - X) * (rv F y - Y))
    have := abs_add_le (X * (rv F y - Y)) (Y * (rv F x - X))
    nlinarith
  have hXY : |X * Y| ≤ M * N := by rw [abs_mul]; exact mul_le_mul hM hN (abs_nonneg _) hM0
  have hc : 0 ≤ M * b + N * a + a * b / 256 := by positivity
  have hc2 : (M * b + N * a + a * b / 256) * uR F ≤ (M * b + N * a + a * b / 256) * (1 / 256) := mul_le_mul_of_nonneg_left h.u_le hc
  have hxy : |rv F x * rv F y| ≤ M * N + (M * b + N * a + a * b / 256) / 256 := by
    have := abs_add_le (rv F x * rv F y - X * Y) (X * Y)
    rw [sub_add_cancel] at this
    linarith
  obtain ⟨p, ep, sp, p1⟩ := mul_fit_r h.sw.valid h.r hx.st hy.st (by
    have h3 : 2 * |rv F x * rv F y| + uR F ≤ rv F F.T.hi := by
      have := h.hi; have := h.u_le
      linarith
    rw [← rv_eq, ← rv_eq, ← rv_eq, ← uR_eq] at h3
    exact_mod_cast h3)
  refine ⟨p, ep, sp, ?_⟩
  have p2 : |rv F p - 2 * (rv F x * rv F y)| ≤ uR F := by
    rw [← rv_eq, ← rv_eq, ← rv_eq, ← uR_eq]
    exact_mod_cast p1
  have e3 : rv F p - 2 * (X * Y) = (rv F p - 2 * (rv F x * rv F y)) + 2 * (rv F x * rv F y - X * Y) := by ring
  rw [e3]
  refine (abs_add_le _ _).trans ?_
  rw [abs_mul 2, abs_of_pos (by norm_num : (0 : ℝ) < 2)]
  have := mul_le_mul_of_nonneg_right hK hu.le
  linarith

end LayR

/-- A coefficient below one half, converted from 61 fraction bits, is within one ulp. -/
theorem coeff_near_r {F : FxTy} (h : LayR F 1.9) (h60 : F.f ≤ 60) {L : Int} (hL0 : 0 < L) (hL : L ≤ 2 ^ 60) :
    ∃ z, fromFixedNumValue F i64 61 L = .ok z ∧ |rv F z| ≤ 0.6 ∧ Ap F z (L / 2 ^ 61) 1 := by
  have hLr : (L : ℝ) / 2 ^ 61 ≤ 0.5 := by
    have : (L : ℝ) ≤ 2 ^ 60 := by exact_mod_cast hL
    rw [div_le_iff₀ (by positivity)]; norm_num at *; linarith
  have hL0r : (0 : ℝ) < L / 2 ^ 61 := div_pos (by exact_mod_cast hL0) (by positivity)
  have hu := uR_pos F
  have hul := h.u_le
  have hn := near_of (c := fun F => fromFixedNumValue F i64 61 L) (k := 61) (L := L) (ρ := (L : ℝ) / 2 ^ 61) (δ := 0) (fun _ => rfl)
    (by norm_num) (by norm_num) hL0 (lt_of_le_of_lt hL (by norm_num)) (by norm_num) (by simp) (by simp)
  obtain ⟨z, ez, sz, -, nz⟩ := hn F 1 h.sw.valid (by omega) (by push_cast; norm_num at *; linarith)
    ⟨2 ^ F.f, h.sw.one, by unfold val; push_cast; field_simp⟩
  have n1 := nz h.r
  rw [rv_eq, uR_eq, abs_le] at n1
  refine ⟨z, ez, ?_, sz, ?_⟩
  · obtain ⟨m1, m2⟩ := n1
    clear nz hn
    generalize (L : ℝ) / 2 ^ 61 = q at *
    norm_num at hLr hul
    rw [abs_le]; norm_num; constructor <;> linarith
  · rw [abs_le]; constructor <;> linarith [n1.1, n1.2]

/-- What the rounding arctangent computes on `[0, 1/2]`: the polynomial at twice the argument, less the argument. -/
theorem atanBody_r {F : FxTy} (h : LayR F 1.9) (h60 : F.f ≤ 60) {x : Int} (h0 : 0 ≤ rv F x) (h1 : rv F x ≤ 1 / 2) :
    ∃ r, atanBody F x = .ok r ∧ Ap F r (Trig.atP (2 * rv F x) - rv F x) 8.2 := by
  obtain ⟨a0, ea, a2, aa⟩ := coeff_near_r h h60 (L := 0x17CE62CE264A340) (by norm_num) (by norm_num)
  obtain ⟨b, eb, -, ab⟩ := coeff_near_r h h60 (L := 0x5191A2296020A80) (by norm_num) (by norm_num)
  obtain ⟨c, ec, -, ac⟩ := coeff_near_r h h60 (L := 0xA7BE2BC19C39800) (by norm_num) (by norm_num)
  have hn : Storable F (-a0) := h.st (by rw [rv_neg, abs_neg]; norm_num at *; linarith)
  have ea2 : intMul F i32 (-1) a0 = .ok (-a0) := by
    have := h.sw.intMul_ok (x := a0) (n := -1) aa.st (by decide) (by rw [mul_neg_one]; exact hn)
    rw [mul_neg_one] at this; exact this
  have aa' : Ap F (-a0) (-(0x17CE62CE264A340 / 2 ^ 61)) 1 := ⟨hn, by
    have := aa.er
    rw [rv_neg, show -rv F a0 - -(0x17CE62CE264A340 / 2 ^ 61 : ℝ) = -(rv F a0 - 0x17CE62CE264A340 / 2 ^ 61) by ring, abs_neg]
    simpa using this⟩
  have ab' : Ap F b (0x5191A2296020A80 / 2 ^ 61) 1 := by simpa using ab
  have ac' : Ap F c (0xA7BE2BC19C39800 / 2 ^ 61) 1 := by simpa using ac
  have hxs : Storable F x := h.st (by rw [abs_le]; constructor <;> linarith)
  have hx := Ap.exact (F := F) hxs
  generalize rv F x = X at *
  have hXa : |X| ≤ 1 / 2 := by rw [abs_le]; constructor <;> linarith
  obtain ⟨x2, ex2, hx2⟩ := LayR.mul h (1 / 2) (1 / 2) 1 hx hx hXa hXa (by norm_num) (by norm_num)
  have hW0 : 0 ≤ 2 * (X * X) := by positivity
  have hW1 : 2 * (X * X) ≤ 1 / 2 := by nlinarith
  have hWa : |2 * (X * X)| ≤ 1 / 2 := by rw [abs_of_nonneg hW0]; exact hW1
  obtain ⟨p1, ep1, hp1⟩ := LayR.mul h 0.0465 (1 / 2) 2.11 aa' hx2 (by rw [abs_neg, abs_of_nonneg] <;> norm_num) hWa (by norm_num) (by norm_num)
  have eP : Trig.atP (2 * X) - X = 2 * (2 * ((2 * ((2 * (-(0x17CE62CE264A340 / 2 ^ 61) * (2 * (X * X))) + 0x5191A2296020A80 / 2 ^ 61) * (2 * (X * X))) -
      0xA7BE2BC19C39800 / 2 ^ 61) * (2 * (X * X))) * X) + X := by
    unfold Trig.atP; ring
  rw [eP]
  clear eP
  generalize 2 * (X * X) = W at *
  have n2 : 0 ≤ 2 * (-(0x17CE62CE264A340 / 2 ^ 61 : ℝ) * W) + 0x5191A2296020A80 / 2 ^ 61 ∧
      2 * (-(0x17CE62CE264A340 / 2 ^ 61 : ℝ) * W) + 0x5191A2296020A80 / 2 ^ 61 ≤ 0.16 := by
    norm_num; constructor <;> linarith
  obtain ⟨ep2, hp2⟩ := LayR.add h (M := 0.16) hp1 ab' (by rw [abs_of_nonneg n2.1]; exact n2.2) (by norm_num)
  generalize 2 * (-(0x17CE62CE264A340 / 2 ^ 61 : ℝ) * W) + 0x5191A2296020A80 / 2 ^ 61 = P2 at *
  obtain ⟨p3, ep3, hp3⟩ := LayR.mul h 0.16 (1 / 2) 4.46 hp2 hx2 (by rw [abs_of_nonneg n2.1]; exact n2.2) hWa (by norm_num) (by norm_num)
  have n3 : 0 ≤ 2 * (P2 * W) ∧ 2 * (P2 * W) ≤ 0.16 := ⟨by have := mul_nonneg n2.1 hW0; linarith, by nlinarith⟩
  have n4 : |2 * (P2 * W) - 0xA7BE2BC19C39800 / 2 ^ 61| ≤ 0.33 := by rw [abs_le]; norm_num at *; constructor <;> linarith
  obtain ⟨ep4, hp4⟩ := LayR.sub h hp3 ac' n4 (by norm_num)
  generalize 2 * (P2 * W) - 0xA7BE2BC19C39800 / 2 ^ 61 = P4 at *
  obtain ⟨p5, ep5, hp5⟩ := LayR.mul h 0.33 (1 / 2) 7.17 hp4 hx2 n4 hWa (by norm_num) (by norm_num)
  have n5 : |2 * (P4 * W)| ≤ 0.33 := by
    rw [abs_mul, abs_mul, abs_of_pos (by norm_num : (0 : ℝ) < 2)]
    have := mul_le_mul n4 hWa (abs_nonneg _) (by norm_num : (0 : ℝ) ≤ 0.33); linarith
  generalize 2 * (P4 * W) = P5 at *
  obtain ⟨p6, ep6, hp6⟩ := LayR.mul h 0.33 (1 / 2) 8.2 hp5 hx n5 hXa (by norm_num) (by norm_num)
  have n6 : |2 * (P5 * X)| ≤ 0.33 := by
    rw [abs_mul, abs_mul, abs_of_pos (by norm_num : (0 : ℝ) < 2)]
    have := mul_le_mul n5 hXa (abs_nonneg _) (by norm_num : (0 : ℝ) ≤ 0.33); linarith
  obtain ⟨er, hr⟩ := LayR.add h (M := 0.83) hp6 hx ((abs_add_le _ _).trans (by norm_num at *; linarith)) (by norm_num)
  refine ⟨_, ?_, by rw [add_zero] at hr; exact hr⟩
  unfold atanBody
  rw [ea, eb, ec]
  simp only [Res.bind_ok, ea2, ex2, ep1, ep2, ep3, ep4, ep5, ep6, er]

theorem res_bind_assoc {α β γ : Type} (x : Res α) (f : α → Res β) (g : β → Res γ) : (x >>= f) >>= g = x >>= fun a => f a >>= g := by
  cases x <;> rfl

theorem atan_body_sg {F : FxTy} (h : SG F) {x : Int} (hS : Storable F x) (hlo : F.T.lo < x) {a0 b c a : Int}
    (ea : fromFixedNumValue F i64 61 0x17CE62CE264A340 = .ok a0) (eb : fromFixedNumValue F i64 61 0x5191A2296020A80 = .ok b)
    (ec : fromFixedNumValue F i64 61 0xA7BE2BC19C39800 = .ok c) (ea2 : intMul F i32 (-1) a0 = .ok a) :
    atan F x = atanBody F |x| >>= fun r => if x < 0 then neg F r else .ok r := by
  unfold atan atanBody
  rw [ea, eb, ec]
  simp only [Res.bind_ok, ea2, h.abs_ok hS hlo]
  have hb : (band F.P (signbitMask F) x ≠ 0) ↔ x < 0 := by
    have := signbit_iff h.valid hS
    unfold signbit at this
    rw [if_pos h.sg] at this
    rw [← this, decide_eq_true_iff]
    have hc : band F.P (signbitMask F) x = band F.P x (signbitMask F) := by unfold band; rw [BitVec.and_comm]
    rw [hc]
  simp only [hb, res_bind_assoc]
  rfl

/-- C203 (what happens instead): on every signed rounding layout with 8 to 60 fraction bits in which one is representable, `atan` is defined for
arguments up to one half and is within `0.00037 + 8.2 ulp` of `arctan (2 x) - x`. -/
theorem C203_atan_partial (F : FxTy) (hF : F.Valid) (hs : F.T.signed = true) (hr : F.r = true) (h8 : 8 ≤ F.f) (h60 : F.f ≤ 60) (h1 : Storable F (2 ^ F.f))
    (x : Int) (hx : |val F x| ≤ 1 / 2) :
    ∃ r, atan F x = .ok r ∧ Storable F r ∧
      |((val F r : ℚ) : ℝ) - (Real.arctan (2 * (val F x : ℚ)) - (val F x : ℚ))| ≤ 37 / 100000 + 8.2 * (ulp F : ℚ) := by
  have h := layR ⟨hF, hs, h1⟩ hr h8
  have hx' : |rv F x| ≤ 1 / 2 := by
    rw [← rv_eq]
    have : ((|val F x| : ℚ) : ℝ) ≤ ((1 / 2 : ℚ) : ℝ) := by exact_mod_cast hx
    push_cast at this
    exact this
  rw [uR_eq, rv_eq]
  simp only [rv_eq]
  have habs : |rv F x| = rv F |x| := by
    unfold rv; rw [abs_div, abs_of_pos (by positivity : (0 : ℝ) < 2 ^ F.f)]; push_cast; rfl
  have hS : Storable F x := h.st (by linarith)
  have hlo : F.T.lo < x := by
    have h2 : Storable F (x - 1) := h.st (by
      rw [rv_sub]
      have : rv F 1 = uR F := by rw [rv_u]; norm_num
      rw [this]
      have := h.u_le; have := uR_pos F
      rw [abs_le] at *; constructor <;> linarith)
    have := h2.1; omega
  obtain ⟨a0, ea, a2, aa⟩ := coeff_near_r h h60 (L := 0x17CE62CE264A340) (by norm_num) (by norm_num)
  obtain ⟨b, eb, -, -⟩ := coeff_near_r h h60 (L := 0x5191A2296020A80) (by norm_num) (by norm_num)
  obtain ⟨c, ec, -, -⟩ := coeff_near_r h h60 (L := 0xA7BE2BC19C39800) (by norm_num) (by norm_num)
  have hn : Storable F (-a0) := h.st (by rw [rv_neg, abs_neg]; norm_num at *; linarith)
  have ea2 : intMul F i32 (-1) a0 = .ok (-a0) := by
    have := h.sw.intMul_ok (x := a0) (n := -1) aa.st (by decide) (by rw [mul_neg_one]; exact hn)
    rw [mul_neg_one] at this; exact this
  rw [atan_body_sg h.sw hS hlo ea eb ec ea2]
  obtain ⟨r, er, hr'⟩ := atanBody_r h h60 (x := |x|) (by rw [← habs]; exact abs_nonneg _) (by rw [← habs]; exact hx')
  rw [← habs] at hr'
  have hP := Trig.atP_near (2 * |rv F x|) (by positivity) (by linarith)
  have hd : |rv F r - (Real.arctan (2 * |rv F x|) - |rv F x|)| ≤ 37 / 100000 + 8.2 * uR F := by
    have e : rv F r - (Real.arctan (2 * |rv F x|) - |rv F x|) = (rv F r - (Trig.atP (2 * |rv F x|) - |rv F x|)) +
        (Trig.atP (2 * |rv F x|) - Real.arctan (2 * |rv F x|)) := by ring
    rw [e]
    have := abs_add_le (rv F r - (Trig.atP (2 * |rv F x|) - |rv F x|)) (Trig.atP (2 * |rv F x|) - Real.arctan (2 * |rv F x|))
    have := hr'.er
    linarith
  rw [er, Res.bind_ok]
  by_cases h0 : x < 0
  · have hx0 : rv F x < 0 := by have := (rv_lt F (a := x) (b := 0)).2 h0; simpa [rv] using this
    have hnS : F.T.InRange (-r) := h.st (by
      rw [rv_neg, abs_neg]
      have t1 := Real.arctan_lt_pi_div_two (2 * |rv F x|)
      have t2 : 0 ≤ Real.arctan (2 * |rv F x|) := Real.arctan_nonneg.2 (by positivity)
      have t3 := Real.pi_lt_d2
      have t4 := h.u_le
      have t5 := abs_nonneg (rv F x)
      obtain ⟨d1, d2⟩ := abs_le.1 hd
      clear hd hP
      generalize Real.arctan (2 * |rv F x|) = A at *
      rw [abs_le]; norm_num at d1 d2 t1 t2 t3 t4 ⊢; constructor <;> linarith)
    rw [if_pos h0, h.sw.neg_ok hnS]
    refine ⟨-r, rfl, hnS, ?_⟩
    rw [abs_of_neg hx0, mul_neg, Real.arctan_neg] at hd
    rw [rv_neg, show -rv F r - (Real.arctan (2 * rv F x) - rv F x) = -(rv F r - (-Real.arctan (2 * rv F x) - -rv F x)) by ring, abs_neg]; exact hd
  · have hx0 : 0 ≤ rv F x := by have := (rv_le F (a := 0) (b := x)).2 (by omega); simpa [rv] using this
    rw [if_neg h0]
    rw [abs_of_nonneg hx0] at hd
    exact ⟨r, rfl, hr'.st, hd⟩

example : atan fixed32r 32768 = .ok 18690 ∧ atan fixed32r (-16384) = .ok (-14002) := by decide +kernel

/-- C203 is false of the code: in the rounding variant of `fixed32` the arctangent of one half is 0.285 instead of 0.464. -/
theorem C203_false : ¬ C203_statement := by
  intro h
  obtain ⟨r, e, -, hr⟩ := h fixed32r (by decide) rfl rfl (by decide) (by decide) (by decide) 32768 (by norm_num [val, fixed32r])
  rw [show atan fixed32r 32768 = .ok 18690 by decide +kernel] at e
  cases e
  have v1 : ((val fixed32r 32768 : ℚ) : ℝ) = 1 / 2 := by norm_num [val, fixed32r]
  have v2 : ((val fixed32r 18690 : ℚ) : ℝ) = 18690 / 65536 := by norm_num [val, fixed32r]
  have u : ((ulp fixed32r : ℚ) : ℝ) = 1 / 65536 := by norm_num [ulp, fixed32r]
  have hP := (abs_le.1 (Trig.atP_near (1 / 2) (by norm_num) (by norm_num))).2
  rw [v1, v2, u] at hr
  have := (abs_le.1 hr).1
  unfold Trig.atP at hP
  norm_num at hP this
  linarith

end Eirin.Props
