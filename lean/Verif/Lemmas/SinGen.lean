import Verif.Lemmas.Lay

/-! # The sine on every signed layout with at least 8 fraction bits and room for 16 -/

namespace Eirin
open Spec

/-- A signed, non-rounding layout with at least 8 fraction bits and at least four integer bits besides the sign. -/
structure GL (F : FxTy) : Prop where
  sw : SG F
  r : F.r = false
  f8 : 8 ≤ F.f
  f59 : F.f ≤ 59
  room : F.f + 5 ≤ F.T.bits

namespace GL
variable {F : FxTy} (h : GL F)
include h

theorem p256 : (256 : Int) ≤ 2 ^ F.f := by
  have : (2 : Int) ^ 8 ≤ 2 ^ F.f := pow_le_pow_right₀ (by norm_num) h.f8
  norm_num at this; exact this

theorem p16 : 16 * 2 ^ F.f ≤ (2 : Int) ^ (F.T.bits - 1) := by
  have : (2 : Int) ^ (F.f + 4) ≤ 2 ^ (F.T.bits - 1) := pow_le_pow_right₀ (by norm_num) (by have := h.room; omega)
  rw [pow_add] at this; norm_num at this; linarith

theorem big {z : Int} (a : -(15 * 2 ^ F.f) ≤ z) (b : z ≤ 15 * 2 ^ F.f) : F.T.InRange z := by
  have := h.p16; have := h.p256
  exact ⟨by rw [h.sw.lo_eq]; omega, by rw [h.sw.hi_eq]; omega⟩

theorem inr (z : Int) (a : -(4 * 2 ^ F.f + 2) ≤ z) (b : z ≤ 4 * 2 ^ F.f + 2) : F.T.InRange z := by
  have := h.p256
  apply h.big <;> omega

theorem lay : Lay F (1 / 256) 15 where
  sw := h.sw
  r := h.r
  u_le := by
    unfold uR
    apply div_le_div_of_nonneg_left (by norm_num) (by norm_num)
    have := h.p256
    exact_mod_cast this
  st := by
    intro z hz
    unfold rv at hz
    rw [abs_div, abs_of_pos (by positivity : (0 : ℝ) < 2 ^ F.f), div_le_iff₀ (by positivity)] at hz
    have hz' : |z| ≤ 15 * 2 ^ F.f := by exact_mod_cast hz
    rw [abs_le] at hz'
    exact h.big hz'.1 hz'.2

theorem ofInt_small {k : Int} (h1 : -15 ≤ k) (h2 : k ≤ 15) : ofInt F k = k * 2 ^ F.f := by
  have := h.p256
  exact h.sw.ofInt_ok (h.big (by nlinarith) (by nlinarith))

theorem ofInt0 : ofInt F 0 = 0 := by rw [h.ofInt_small (by norm_num) (by norm_num), zero_mul]
theorem ofInt1 : ofInt F 1 = 2 ^ F.f := by rw [h.ofInt_small (by norm_num) (by norm_num), one_mul]

theorem unit {v : Int} (a : -2 ≤ v) (b : v ≤ 2 ^ F.f) : |rv F v| ≤ 1 := by
  have := h.p256
  have t1 := (rv_le F (a := v) (b := 1 * 2 ^ F.f)).2 (by omega)
  have t2 := (rv_le F (a := -1 * 2 ^ F.f) (b := v)).2 (by omega)
  rw [rv_int] at t1 t2
  push_cast at t1 t2
  rw [abs_le]; exact ⟨t2, t1⟩

end GL

theorem Lay.one {F : FxTy} (h : Lay F (1 / 256) 15) : Ap F (ofInt F 1) 1 0 := by
  have e : ofInt F 1 = 2 ^ F.f := by
    rw [h.sw.ofInt_ok (by rw [one_mul]; exact h.sw.one), one_mul]
  rw [e]
  refine ⟨h.sw.one, ?_⟩
  have := rv_int F 1
  rw [one_mul] at this; rw [this]; norm_num

/-- What is needed of the constants used by `sin`. -/
structure SinG (F : FxTy) where
  gl : GL F
  pi : Int
  p2 : Int
  dp : Int
  ePi : cPi F = .ok pi
  eP2 : cPi2 F = .ok p2
  eDp : cDoublePi F = .ok dp
  aPi : Ap F pi Real.pi 1.25
  aP2 : |rv F p2 - Real.pi / 2| ≤ 1.25 * uR F
  aDp : |rv F dp - 2 * Real.pi| ≤ 1.5 * uR F
  p2pos : 0 < p2
  dpS : Storable F dp
  four : (dp - 1) * 2 ^ F.f < p2 * (4 * 2 ^ F.f + 3)
  dp6 : 6 * 2 ^ F.f < dp
  th : Int
  eTh : ofFloat F lit00015 = .ok th
  thnn : 0 ≤ th
  thle : rv F th ≤ 15 / 100000

/-- The constants exist on every such layout. -/
theorem GL.sinG {F : FxTy} (h : GL F) : Nonempty (SinG F) := by
  have rep : ∀ m : Int, 0 ≤ m → m ≤ 15 → Representable F m := by
    intro m a b
    refine ⟨m * 2 ^ F.f, h.big (by have := h.p256; nlinarith) (by have := h.p256; nlinarith), ?_⟩
    exact val_int F m
  have g := Real.pi_gt_d4; have l := Real.pi_lt_d4
  have hv := h.sw.valid
  have f59 := h.f59
  have hu := uR_pos F
  have hul := h.lay.u_le
  have hu59 : (1 : ℝ) / 2 ^ 59 ≤ uR F := by
    unfold uR
    exact div_le_div_of_nonneg_left (by norm_num) (by positivity) (pow_le_pow_right₀ (by norm_num) f59)
  obtain ⟨c1, c2, -, c3⟩ := Props.C20_every_pi
  obtain ⟨pi, ePi, sPi, nPi, -⟩ := c1 F 4 hv (by omega) (by push_cast; linarith) (rep 4 (by norm_num) (by norm_num))
  obtain ⟨p2, eP2, sP2, nP2, -⟩ := c2 F 2 hv (by omega) (by push_cast; linarith) (rep 2 (by norm_num) (by norm_num))
  obtain ⟨dp, eDp, sDp, nDp, -⟩ := c3 F 7 hv (by omega) (by push_cast; linarith) (rep 7 (by norm_num) (by norm_num))
  obtain ⟨n1, n2⟩ := nPi h.r
  obtain ⟨n3, n4⟩ := nP2 h.r
  obtain ⟨n5, n6⟩ := nDp h.r
  rw [rv_eq] at n1 n2 n3 n4 n5 n6
  rw [uR_eq] at n2 n4 n6
  norm_num at n1 n2 n3 n4 n5 n6 hu59
  have hum := u_mul F
  have ht := Props.ratTrunc_spec F (lit00015 * 2 ^ F.f)
  rw [mul_div_assoc, div_self (by positivity), mul_one] at ht
  obtain ⟨t0, t1, -⟩ := ht.1 (by norm_num [lit00015])
  generalize hth : ratTrunc (lit00015 * 2 ^ F.f) = th at *
  have t1' : rv F th ≤ 15 / 100000 := by
    rw [← rv_eq]
    have : ((val F th : ℚ) : ℝ) ≤ ((lit00015 : ℚ) : ℝ) := by exact_mod_cast t1
    refine le_trans this ?_
    norm_num [lit00015]
  have t0' : 0 ≤ rv F th := by rw [← rv_eq]; exact_mod_cast t0
  have hthS : Storable F th := h.lay.st (by rw [abs_of_nonneg t0']; linarith)
  refine ⟨⟨h, pi, p2, dp, ePi, eP2, eDp, ⟨sPi, ?_⟩, ?_, ?_, ?_, sDp, ?_, ?_, th, (Props.C16_ofFloat F hv h.r _ _ ht).1 hthS, ?_, t1'⟩⟩
  · rw [abs_le]; norm_num; constructor <;> linarith
  · rw [abs_le]; norm_num; constructor <;> linarith
  · rw [abs_le]; norm_num; constructor <;> linarith
  · rw [← rv_lt F]
    have : rv F 0 = 0 := by simp [rv]
    rw [this]; norm_num at *; linarith
  · have : (((dp - 1 : Int) : ℝ) * uR F) < ((p2 : Int) : ℝ) * uR F * (4 + 3 * uR F) := by
      rw [← rv_u, ← rv_u, rv_sub, show rv F 1 = uR F by rw [rv_u]; norm_num]
      have : (Real.pi / 2 - 1.25 * uR F) * (4 + 3 * uR F) ≤ rv F p2 * (4 + 3 * uR F) := by
        apply mul_le_mul_of_nonneg_right _ (by positivity)
        norm_num; linarith
      have h2 : uR F * uR F ≤ 1 / 256 * uR F := mul_le_mul_of_nonneg_right hul hu.le
      have h3 : 3.1415 * uR F ≤ Real.pi * uR F := mul_le_mul_of_nonneg_right (by linarith) hu.le
      norm_num at *
      nlinarith
    have h2 : (((dp - 1 : Int) : ℝ) * 2 ^ F.f) < p2 * (4 * 2 ^ F.f + 3) := by
      have e1 : ((dp - 1 : Int) : ℝ) * uR F = ((dp - 1 : Int) : ℝ) * 2 ^ F.f * (uR F * uR F) := by
        rw [show ((dp - 1 : Int) : ℝ) * 2 ^ F.f * (uR F * uR F) = ((dp - 1 : Int) : ℝ) * uR F * (2 ^ F.f * uR F) by ring, hum, mul_one]
      have e2 : ((p2 : Int) : ℝ) * uR F * (4 + 3 * uR F) = p2 * (4 * 2 ^ F.f + 3) * (uR F * uR F) := by
        rw [show (p2 : ℝ) * (4 * 2 ^ F.f + 3) * (uR F * uR F) = p2 * uR F * (4 * (2 ^ F.f * uR F) + 3 * uR F) by ring, hum, mul_one]
      rw [e1, e2] at this
      exact lt_of_mul_lt_mul_right this (by positivity)
    exact_mod_cast h2
  · rw [← rv_lt F, rv_int]; norm_num at *; linarith
  · rw [← rv_le F]
    have : rv F 0 = 0 := by simp [rv]
    rw [this]; exact t0'

theorem sinCoeff_lay {F : FxTy} (h : Lay F (1 / 256) 15) {pi : Int} (hpi : Ap F pi Real.pi 1.25) (k : Int) (K : ℝ) (hk : 0 < k) (hk2 : k < 2 ^ 31)
    (hK : 8.87 / k + 1 ≤ K) : ∃ z, sinCoeff F pi k = .ok z ∧ Ap F z (Real.pi * Real.pi / k) K := by
  have g := Real.pi_gt_d4; have l := Real.pi_lt_d4
  have hM : |Real.pi| ≤ 3.1416 := by rw [abs_of_pos (by linarith)]; linarith
  obtain ⟨e1, h1⟩ := Lay.mul h 3.1416 3.1416 8.87 hpi hpi hM hM (by norm_num) (by norm_num)
  obtain ⟨e2, h2⟩ := Lay.divInt h k K h1 hk hk2 hK
  refine ⟨_, ?_, h2⟩
  unfold sinCoeff
  rw [e1, Res.bind_ok, e2]

/-- The polynomial of `sin` on `[-1, 1]` evaluates the degree-9 Taylor polynomial up to 11.1 ulps. -/
theorem sinPoly_lay {F : FxTy} (h : Lay F (1 / 256) 15) {pi : Int} (ePi : cPi F = .ok pi) (hpi : Ap F pi Real.pi 1.25) {x : Int} (hXa : |rv F x| ≤ 1) :
    ∃ z, sinPoly F pi x = .ok z ∧ Ap F z (Real.pi * rv F x * (1 - Real.pi * Real.pi / 24 * (rv F x * rv F x) * (1 - Real.pi * Real.pi / 80 * (rv F x * rv F x) *
      (1 - Real.pi * Real.pi / 168 * (rv F x * rv F x) * (1 - Real.pi * Real.pi / 288 * (rv F x * rv F x))))) / 2) 11.1 := by
  have g := Real.pi_gt_d4; have l := Real.pi_lt_d4
  have hpp : Real.pi * Real.pi ≤ 9.87 := by nlinarith
  have hpp0 : 0 ≤ Real.pi * Real.pi := by positivity
  have hM : |Real.pi| ≤ 3.1416 := by rw [abs_of_pos (by linarith)]; linarith
  have hxs : Storable F x := h.st (by linarith)
  have hx := Ap.exact (F := F) hxs
  generalize hXd : rv F x = X at *
  have hXX0 : 0 ≤ X * X := mul_self_nonneg X
  have hXX1 : X * X ≤ 1 := by rw [← abs_mul_abs_self]; nlinarith [abs_nonneg X]
  have hXXa : |X * X| ≤ 1 := by rw [abs_of_nonneg hXX0]; exact hXX1
  obtain ⟨ex2, hx2⟩ := Lay.mul h 1 1 1 hx hx hXa hXa (by norm_num) (by norm_num)
  obtain ⟨a, ea, ha⟩ := sinCoeff_lay h hpi 24 1.37 (by norm_num) (by norm_num) (by norm_num)
  obtain ⟨b, eb, hb⟩ := sinCoeff_lay h hpi 80 1.111 (by norm_num) (by norm_num) (by norm_num)
  obtain ⟨c, ec, hc⟩ := sinCoeff_lay h hpi 168 1.053 (by norm_num) (by norm_num) (by norm_num)
  obtain ⟨d, ed, hd⟩ := sinCoeff_lay h hpi 288 1.031 (by norm_num) (by norm_num) (by norm_num)
  have hone := h.one
  push_cast at ha hb hc hd
  have cb : ∀ n m : ℝ, 0 < n → 9.87 / n ≤ m → |Real.pi * Real.pi / n| ≤ m ∧ 0 ≤ Real.pi * Real.pi / n := by
    intro n m hn hm
    have : 0 ≤ Real.pi * Real.pi / n := by positivity
    rw [abs_of_nonneg this]
    exact ⟨le_trans (div_le_div_of_nonneg_right hpp hn.le) hm, this⟩
  obtain ⟨ba, ba0⟩ := cb 24 0.4113 (by norm_num) (by norm_num)
  obtain ⟨bb, bb0⟩ := cb 80 0.1234 (by norm_num) (by norm_num)
  obtain ⟨bc, bc0⟩ := cb 168 0.0588 (by norm_num) (by norm_num)
  obtain ⟨bd, bd0⟩ := cb 288 0.0343 (by norm_num) (by norm_num)
  generalize hA : Real.pi * Real.pi / 24 = A at *
  generalize hB : Real.pi * Real.pi / 80 = B at *
  generalize hC : Real.pi * Real.pi / 168 = C at *
  generalize hD : Real.pi * Real.pi / 288 = D at *
  generalize hXX : X * X = W at *
  clear hA hB hC hD cb
  have unit : ∀ c w : ℝ, 0 ≤ c → |c| ≤ 0.42 → 0 ≤ w → w ≤ 1 → ∀ v : ℝ, 0 ≤ v → v ≤ 1 →
      0 ≤ 1 - c * w * v ∧ 1 - c * w * v ≤ 1 := by
    intro c w hc hc2 hw hw1 v hv hv1
    rw [abs_of_nonneg hc] at hc2
    have t1 : 0 ≤ c * w * v := by positivity
    have t2 : c * w ≤ 0.42 * 1 := mul_le_mul hc2 hw1 hw (by norm_num)
    have t3 : c * w * v ≤ 0.42 * 1 * 1 := mul_le_mul t2 hv1 hv (by norm_num)
    constructor <;> linarith
  have cw : ∀ c m : ℝ, |c| ≤ m → |c * W| ≤ m := by
    intro c m hm
    rw [abs_mul]
    have := mul_le_mul hm hXXa (abs_nonneg _) (le_trans (abs_nonneg _) hm)
    linarith
  have ab : ∀ v : ℝ, 0 ≤ v → v ≤ 1 → |v| ≤ 1 := fun v h0 h1 => by rw [abs_of_nonneg h0]; exact h1
  obtain ⟨et4, ht4⟩ := Lay.mul h 0.0343 1 2.07 hd hx2 bd hXXa (by norm_num) (by norm_num)
  have n4 := unit D W bd0 (le_trans bd (by norm_num)) hXX0 hXX1 1 (by norm_num) le_rfl
  rw [mul_one] at n4
  obtain ⟨eu4, hu4⟩ := Lay.sub h hone ht4 (ab _ n4.1 n4.2) (by norm_num)
  obtain ⟨et3a, ht3a⟩ := Lay.mul h 0.0588 1 2.12 hc hx2 bc hXXa (by norm_num) (by norm_num)
  obtain ⟨et3, ht3⟩ := Lay.mul h 0.0588 1 3.26 ht3a hu4 (cw C _ bc) (ab _ n4.1 n4.2) (by norm_num) (by norm_num)
  have n3 := unit C W bc0 (le_trans bc (by norm_num)) hXX0 hXX1 _ n4.1 n4.2
  obtain ⟨eu3, hu3⟩ := Lay.sub h hone ht3 (ab _ n3.1 n3.2) (by norm_num)
  obtain ⟨et2a, ht2a⟩ := Lay.mul h 0.1234 1 2.24 hb hx2 bb hXXa (by norm_num) (by norm_num)
  obtain ⟨et2, ht2⟩ := Lay.mul h 0.1234 1 3.68 ht2a hu3 (cw B _ bb) (ab _ n3.1 n3.2) (by norm_num) (by norm_num)
  have n2 := unit B W bb0 (le_trans bb (by norm_num)) hXX0 hXX1 _ n3.1 n3.2
  obtain ⟨eu2, hu2⟩ := Lay.sub h hone ht2 (ab _ n2.1 n2.2) (by norm_num)
  obtain ⟨et1a, ht1a⟩ := Lay.mul h 0.4113 1 2.79 ha hx2 ba hXXa (by norm_num) (by norm_num)
  obtain ⟨et1, ht1⟩ := Lay.mul h 0.4113 1 5.35 ht1a hu2 (cw A _ ba) (ab _ n2.1 n2.2) (by norm_num) (by norm_num)
  have n1 := unit A W ba0 (le_trans ba (by norm_num)) hXX0 hXX1 _ n2.1 n2.2
  obtain ⟨eu1, hu1⟩ := Lay.sub h hone ht1 (ab _ n1.1 n1.2) (by norm_num)
  obtain ⟨epx, hpx⟩ := Lay.mul h 3.1416 1 2.25 hpi hx hM hXa (by norm_num) (by norm_num)
  have bpx : |Real.pi * X| ≤ 3.1416 := by
    rw [abs_mul]; have := mul_le_mul hM hXa (abs_nonneg _) (by norm_num : (0 : ℝ) ≤ 3.1416); linarith
  obtain ⟨er, hr⟩ := Lay.mul h 3.1416 1 20.2 hpx hu1 bpx (ab _ n1.1 n1.2) (by norm_num) (by norm_num)
  obtain ⟨ef, hf⟩ := Lay.divInt h 2 11.1 hr (by norm_num) (by norm_num) (by norm_num)
  push_cast at hf
  refine ⟨_, ?_, hf⟩
  unfold sinPoly
  simp only [ePi, ea, eb, ec, ed, ex2, et4, eu4, et3a, et3, eu3, et2a, et2, eu2, et1a, et1, eu1, epx, er, Res.bind_ok, ef]

/-- The polynomial of `sin` against the real sine. -/
theorem sinPoly_near {F : FxTy} (h : Lay F (1 / 256) 15) {pi : Int} (ePi : cPi F = .ok pi) (hpi : Ap F pi Real.pi 1.25) {x : Int} (hXa : |rv F x| ≤ 1) :
    ∃ z, sinPoly F pi x = .ok z ∧ Storable F z ∧ |rv F z - Real.sin (Real.pi / 2 * rv F x)| ≤ 11.1 * uR F + 4 / 1000000 := by
  obtain ⟨z, ez, hz⟩ := sinPoly_lay h ePi hpi hXa
  refine ⟨z, ez, hz.st, ?_⟩
  have g := Real.pi_gt_d4; have l := Real.pi_lt_d4
  have her := hz.er
  generalize rv F x = X at *
  have e : Real.pi * X * (1 - Real.pi * Real.pi / 24 * (X * X) * (1 - Real.pi * Real.pi / 80 * (X * X) *
      (1 - Real.pi * Real.pi / 168 * (X * X) * (1 - Real.pi * Real.pi / 288 * (X * X))))) / 2 =
      Real.pi / 2 * X - (Real.pi / 2 * X) ^ 3 / 6 + (Real.pi / 2 * X) ^ 5 / 120 - (Real.pi / 2 * X) ^ 7 / 5040 + (Real.pi / 2 * X) ^ 9 / 362880 := by ring
  rw [e] at her
  have hy : |Real.pi / 2 * X| ≤ 1.5708 := by
    rw [abs_mul, abs_of_pos (by positivity : (0 : ℝ) < Real.pi / 2)]; nlinarith [abs_nonneg X]
  generalize Real.pi / 2 * X = y at *
  have key : |Real.sin y - (y - y ^ 3 / 6 + y ^ 5 / 120 - y ^ 7 / 5040 + y ^ 9 / 362880)| ≤ 4 / 1000000 := by
    have pos : ∀ t : ℝ, 0 ≤ t → t ≤ 1.5708 → |Real.sin t - (t - t ^ 3 / 6 + t ^ 5 / 120 - t ^ 7 / 5040 + t ^ 9 / 362880)| ≤ 4 / 1000000 := by
      intro t h0 h1
      obtain ⟨t1, t2⟩ := Trig.sin_taylor9 _ h0
      have h11 : t ^ 11 ≤ 1.5708 ^ 11 := pow_le_pow_left₀ h0 h1 11
      norm_num at h11
      rw [abs_le]
      constructor <;> linarith
    rcases le_total 0 y with h0 | h0
    · rw [abs_of_nonneg h0] at hy; exact pos y h0 hy
    · rw [abs_of_nonpos h0] at hy
      have := pos (-y) (by linarith) hy
      rw [Real.sin_neg, show -Real.sin y - (-y - (-y) ^ 3 / 6 + (-y) ^ 5 / 120 - (-y) ^ 7 / 5040 + (-y) ^ 9 / 362880) =
        -(Real.sin y - (y - y ^ 3 / 6 + y ^ 5 / 120 - y ^ 7 / 5040 + y ^ 9 / 362880)) by ring, abs_neg] at this
      exact this
  rw [abs_le] at her key ⊢
  constructor <;> linarith

/-- First part of the range reduction. -/
theorem SinG.turns {F : FxTy} (c : SinG F) {fp : Int} (hS : Storable F fp) :
    ∃ w : Int, remAssign F fp c.dp = .ok (Int.tmod fp c.dp) ∧ divAssign F (Int.tmod fp c.dp) c.p2 = .ok w ∧
      w = Int.tdiv (Int.tmod fp c.dp * 2 ^ F.f) c.p2 ∧
      -(4 * 2 ^ F.f + 2) ≤ w ∧ w ≤ 4 * 2 ^ F.f + 2 ∧
      |Real.sin (rv F fp) - Real.sin (Real.pi / 2 * rv F w)| ≤ (6.6 + |rv F fp| / 4) * uR F := by
  have h := c.gl
  have hp : (0 : Int) < 2 ^ F.f := by positivity
  have hu := uR_pos F
  have hdp : 0 < c.dp := by have := c.dp6; omega
  have hp2 := c.p2pos
  have em : Int.tmod fp c.dp + Int.tdiv fp c.dp * c.dp = fp := Int.tmod_add_tdiv_mul fp c.dp
  have ml := Int.tmod_lt_of_pos fp hdp
  have mg : -c.dp < Int.tmod fp c.dp := Int.lt_tmod_of_pos fp hdp
  have hrem : remAssign F fp c.dp = .ok (Int.tmod fp c.dp) := by
    have : remAssign F fp c.dp = rem F fp c.dp := rfl
    rw [this, rem_nf h.sw.valid hS, if_neg (by omega), if_neg (by omega)]
  have hmS : Storable F (Int.tmod fp c.dp) := by
    have := c.dpS; have := h.sw.lo_hi
    obtain ⟨a, b⟩ := c.dpS
    constructor <;> omega
  have w1 : -(4 * 2 ^ F.f + 2) ≤ Int.tdiv (Int.tmod fp c.dp * 2 ^ F.f) c.p2 ∧ Int.tdiv (Int.tmod fp c.dp * 2 ^ F.f) c.p2 ≤ 4 * 2 ^ F.f + 2 := by
    have hf := c.four
    obtain ⟨d1, d2⟩ := tdiv_mul_spec (Int.tmod fp c.dp * 2 ^ F.f) hp2
    rcases le_total 0 (Int.tmod fp c.dp) with h0 | h0
    · obtain ⟨a, b, _⟩ := d1 (by positivity)
      constructor
      · by_contra hc; push Not at hc; nlinarith
      · by_contra hc; push Not at hc
        have : (4 * 2 ^ F.f + 3) * c.p2 ≤ Int.tdiv (Int.tmod fp c.dp * 2 ^ F.f) c.p2 * c.p2 := mul_le_mul_of_nonneg_right hc hp2.le
        have : Int.tmod fp c.dp * 2 ^ F.f ≤ (c.dp - 1) * 2 ^ F.f := mul_le_mul_of_nonneg_right (by omega) hp.le
        linarith
    · obtain ⟨a, b, _⟩ := d2 (mul_nonpos_of_nonpos_of_nonneg h0 hp.le)
      constructor
      · by_contra hc; push Not at hc
        have : Int.tdiv (Int.tmod fp c.dp * 2 ^ F.f) c.p2 * c.p2 ≤ (-(4 * 2 ^ F.f) - 3) * c.p2 := mul_le_mul_of_nonneg_right (by omega) hp2.le
        have : (-(c.dp - 1)) * 2 ^ F.f ≤ Int.tmod fp c.dp * 2 ^ F.f := mul_le_mul_of_nonneg_right (by omega) hp.le
        linarith
      · by_contra hc; push Not at hc; nlinarith
  have hwS : F.T.InRange (Int.tdiv (Int.tmod fp c.dp * 2 ^ F.f) c.p2) := h.inr _ w1.1 w1.2
  have hdiv : divAssign F (Int.tmod fp c.dp) c.p2 = .ok (Int.tdiv (Int.tmod fp c.dp * 2 ^ F.f) c.p2) := by
    have : divAssign F (Int.tmod fp c.dp) c.p2 = div F (Int.tmod fp c.dp) c.p2 := rfl
    rw [this, h.sw.div_ok h.r hmS hp2.ne' hwS]
  refine ⟨_, hrem, hdiv, rfl, w1.1, w1.2, ?_⟩
  have near := tdiv_near (Int.tmod fp c.dp * 2 ^ F.f) hp2
  generalize hw : Int.tdiv (Int.tmod fp c.dp * 2 ^ F.f) c.p2 = w at *
  generalize hm : Int.tmod fp c.dp = m at *
  generalize hk : Int.tdiv fp c.dp = k at *
  -- the shift by whole turns
  have s1 : Real.sin (rv F fp) = Real.sin (rv F m + k * (rv F c.dp - 2 * Real.pi)) := by
    have : rv F m + k * (rv F c.dp - 2 * Real.pi) = rv F fp - k * (2 * Real.pi) := by
      rw [← em]; unfold rv; push_cast; ring
    rw [this, Real.sin_sub_int_mul_two_pi]
  have hkb : |(k : ℝ)| ≤ |rv F fp| / 6 := by
    have t : |k| * c.dp ≤ |fp| := by
      have q := tdiv_mul_spec fp hdp
      rw [hk] at q
      rcases le_total 0 fp with h0 | h0
      · obtain ⟨a, b, _⟩ := q.1 h0
        have : 0 ≤ k := by by_contra hc; push Not at hc; nlinarith
        rw [abs_of_nonneg this, abs_of_nonneg h0]; exact b
      · obtain ⟨a, b, _⟩ := q.2 h0
        have : k ≤ 0 := by by_contra hc; push Not at hc; nlinarith
        rw [abs_of_nonpos this, abs_of_nonpos h0]; linarith
    have t2 : |k| * (6 * 2 ^ F.f) ≤ |fp| := le_trans (mul_le_mul_of_nonneg_left c.dp6.le (abs_nonneg _)) t
    have t3 : |(k : ℝ)| * (6 * 2 ^ F.f) ≤ |(fp : ℝ)| := by exact_mod_cast t2
    unfold rv
    rw [abs_div, abs_of_pos (by positivity : (0 : ℝ) < 2 ^ F.f), div_div, le_div_iff₀ (by positivity)]
    linarith
  have s2 : |Real.sin (rv F m + k * (rv F c.dp - 2 * Real.pi)) - Real.sin (Real.pi / 2 * rv F w)| ≤
      |rv F m + k * (rv F c.dp - 2 * Real.pi) - Real.pi / 2 * rv F w| := Real.abs_sin_sub_sin_le _ _
  have hw4 : |rv F w| ≤ 4.01 := by
    have a := (rv_le F (a := w) (b := 4 * 2 ^ F.f + 2)).2 w1.2
    have b := (rv_le F (a := -4 * 2 ^ F.f - 2) (b := w)).2 (by linarith [w1.1])
    rw [rv_add, rv_int, rv_u F 2] at a
    rw [rv_sub, rv_int, rv_u F 2] at b
    have := h.lay.u_le
    rw [abs_le]; push_cast at a b; norm_num at *; constructor <;> linarith
  have g := Real.pi_gt_d4; have l := Real.pi_lt_d4
  have hp2r : 0 < rv F c.p2 ∧ rv F c.p2 ≤ 1.58 := by
    have := abs_le.1 c.aP2; have := h.lay.u_le
    norm_num at *
    constructor <;> linarith
  have s3 : |rv F m - rv F c.p2 * rv F w| ≤ rv F c.p2 * uR F := by
    have e : rv F m - rv F c.p2 * rv F w = -((w : ℝ) * c.p2 - m * 2 ^ F.f) * uR F * uR F := by
      rw [rv_u, rv_u, rv_u]
      have : (m : ℝ) * uR F = m * uR F * (2 ^ F.f * uR F) := by rw [u_mul, mul_one]
      rw [this]; ring
    rw [e, rv_u, abs_mul, abs_mul, abs_neg, abs_of_pos hu]
    apply mul_le_mul_of_nonneg_right _ hu.le
    apply mul_le_mul_of_nonneg_right _ hu.le
    push_cast at near; exact near
  have s4 : |rv F w * (rv F c.p2 - Real.pi / 2)| ≤ 5.0125 * uR F := by
    rw [abs_mul]
    calc |rv F w| * |rv F c.p2 - Real.pi / 2| ≤ 4.01 * (1.25 * uR F) := mul_le_mul hw4 c.aP2 (abs_nonneg _) (by norm_num)
      _ = 5.0125 * uR F := by ring
  have s5 : |(k : ℝ) * (rv F c.dp - 2 * Real.pi)| ≤ |rv F fp| / 6 * (1.5 * uR F) := by
    rw [abs_mul]
    exact mul_le_mul hkb c.aDp (abs_nonneg _) (by positivity)
  have s6 : |rv F m + k * (rv F c.dp - 2 * Real.pi) - Real.pi / 2 * rv F w| ≤
      rv F c.p2 * uR F + |rv F fp| / 6 * (1.5 * uR F) + 5.0125 * uR F := by
    rw [show rv F m + k * (rv F c.dp - 2 * Real.pi) - Real.pi / 2 * rv F w = (rv F m - rv F c.p2 * rv F w) +
      k * (rv F c.dp - 2 * Real.pi) + rv F w * (rv F c.p2 - Real.pi / 2) by ring]
    refine le_trans (abs_add_three _ _ _) ?_
    linarith
  rw [s1]
  have : rv F c.p2 * uR F ≤ 1.58 * uR F := mul_le_mul_of_nonneg_right hp2r.2 hu.le
  have := le_trans s2 s6
  have : 0 ≤ |rv F fp| * uR F := by positivity
  norm_num at *
  linarith

/-- The range reduction of `sin`. -/
theorem SinG.reduce {F : FxTy} (c : SinG F) {fp : Int} (hS : Storable F fp) :
    ∃ x s, sinReduce F fp = .ok (x, s) ∧ -2 ≤ x ∧ x ≤ 2 * 2 ^ F.f + 2 ∧
      |Real.sin (rv F fp) - (if s then -1 else 1) * Real.sin (Real.pi / 2 * rv F x)| ≤ (6.6 + |rv F fp| / 4) * uR F := by
  have h := c.gl
  have hp : (0 : Int) < 2 ^ F.f := by positivity
  obtain ⟨w, e1, e2, -, w1, w2, hs⟩ := c.turns hS
  have o0 := h.ofInt0
  have o2 : ofInt F 2 = 2 * 2 ^ F.f := h.ofInt_small (by norm_num) (by norm_num)
  have o4 : ofInt F 4 = 4 * 2 ^ F.f := h.ofInt_small (by norm_num) (by norm_num)
  have inr := h.inr
  -- a full turn added when negative
  obtain ⟨v, ev, v1, v2, hv⟩ : ∃ v, (if lt w (ofInt F 0) then addAssign F w (ofInt F 4) else pure w) = Res.ok v ∧ -2 ≤ v ∧ v ≤ 4 * 2 ^ F.f + 2 ∧
      Real.sin (Real.pi / 2 * rv F v) = Real.sin (Real.pi / 2 * rv F w) := by
    rw [o0, o4]
    by_cases hw : w < 0
    · refine ⟨w + 4 * 2 ^ F.f, ?_, by omega, by omega, ?_⟩
      · rw [if_pos (by rw [lt_iff]; exact hw)]
        exact h.sw.add_ok (inr _ (by omega) (by omega))
      · rw [rv_add, rv_int, show Real.pi / 2 * (rv F w + ((4 : Int) : ℝ)) = Real.pi / 2 * rv F w + 2 * Real.pi by push_cast; ring, Real.sin_add_two_pi]
    · exact ⟨w, by rw [if_neg (by rw [lt_iff]; exact hw)]; rfl, by omega, w2, rfl⟩
  have hred : sinReduce F fp = if gt v (2 * 2 ^ F.f) then (subAssign F v (2 * 2 ^ F.f)).bind (fun x3 => .ok (x3, true)) else .ok (v, false) := by
    unfold sinReduce
    rw [c.eDp, c.eP2]
    simp only [Res.bind_ok, e1, e2, o2]
    by_cases hw : lt w (ofInt F 0) = true
    · rw [if_pos hw] at ev ⊢; rw [ev]; rfl
    · rw [if_neg hw] at ev ⊢; rw [ev]; rfl
  rw [hred]
  by_cases hv2 : 2 * 2 ^ F.f < v
  · refine ⟨v - 2 * 2 ^ F.f, true, ?_, by omega, by omega, ?_⟩
    · have : subAssign F v (2 * 2 ^ F.f) = .ok (v - 2 * 2 ^ F.f) := h.sw.sub_ok (inr _ (by omega) (by omega))
      rw [if_pos (by rw [gt_iff]; exact hv2), this]; rfl
    · rw [if_pos rfl, rv_sub, rv_int, show Real.pi / 2 * (rv F v - ((2 : Int) : ℝ)) = Real.pi / 2 * rv F v - Real.pi by push_cast; ring, Real.sin_sub_pi, hv]
      simpa using hs
  · refine ⟨v, false, ?_, v1, by omega, ?_⟩
    · rw [if_neg (by rw [gt_iff]; exact hv2)]
    · rw [if_neg (by simp), hv]; simpa using hs

/-- `sin` outside the small-angle branch. -/
theorem SinG.main {F : FxTy} (c : SinG F) {fp : Int} (hS : Storable F fp) (hlo : F.T.lo < fp) (hth : c.th ≤ |fp|) :
    ∃ z, sin F fp = .ok z ∧ Storable F z ∧ |rv F z - Real.sin (rv F fp)| ≤ (17.7 + |rv F fp| / 4) * uR F + 4 / 1000000 := by
  have h := c.gl
  have hp : (0 : Int) < 2 ^ F.f := by positivity
  obtain ⟨x, s, er, x0, x2, hs⟩ := c.reduce hS
  have o1 := h.ofInt1
  have o2 : ofInt F 2 = 2 * 2 ^ F.f := h.ofInt_small (by norm_num) (by norm_num)
  obtain ⟨v, ev, v0, v1, hv⟩ : ∃ v, (if gt x (ofInt F 1) then sub F (ofInt F 2) x else pure x) = Res.ok v ∧ -2 ≤ v ∧ v ≤ 2 ^ F.f ∧
      Real.sin (Real.pi / 2 * rv F v) = Real.sin (Real.pi / 2 * rv F x) := by
    rw [o1, o2]
    by_cases hx : 2 ^ F.f < x
    · refine ⟨2 * 2 ^ F.f - x, ?_, by omega, by omega, ?_⟩
      · rw [if_pos (by rw [gt_iff]; exact hx)]
        refine h.sw.sub_ok ?_
        apply h.inr <;> omega
      · rw [rv_sub, rv_int, show Real.pi / 2 * (((2 : Int) : ℝ) - rv F x) = Real.pi - Real.pi / 2 * rv F x by push_cast; ring, Real.sin_pi_sub]
    · exact ⟨x, by rw [if_neg (by rw [gt_iff]; exact hx)]; rfl, x0, by omega, rfl⟩
  obtain ⟨z, ez, zS, hz⟩ := sinPoly_near h.lay c.ePi c.aPi (h.unit v0 v1)
  have eabs := h.sw.abs_ok hS hlo
  have hbase : sin F fp = (if s then neg F z else pure z) := by
    unfold sin sinWith
    rw [c.ePi, Res.bind_ok, er, Res.bind_ok]
    simp only [c.eTh, eabs, Res.bind_ok]
    rw [if_neg (by rw [lt_iff]; omega)]
    by_cases hg : gt x (ofInt F 1) = true
    · rw [if_pos hg] at ev ⊢; rw [ev]; simp only [Res.bind_ok, ez]
    · rw [if_neg hg] at ev ⊢; rw [ev]; simp only [Res.bind_ok, ez]
  have hsz : |Real.sin (Real.pi / 2 * rv F v)| ≤ 1 := Real.abs_sin_le_one _
  have hu := h.lay.u_le
  have hu0 := uR_pos F
  have hzz : |rv F z| ≤ 2 := by
    rw [abs_le] at *; norm_num at *; constructor <;> linarith
  rw [hv] at hz
  cases s with
  | false =>
    refine ⟨z, by rw [hbase]; rfl, zS, ?_⟩
    simp only [Bool.false_eq_true, if_false, one_mul] at hs
    have := abs_sub_le (rv F z) (Real.sin (Real.pi / 2 * rv F x)) (Real.sin (rv F fp))
    rw [abs_sub_comm] at hs
    norm_num at *; linarith
  | true =>
    have hnS : Storable F (-z) := h.lay.st (by rw [rv_neg, abs_neg]; linarith)
    refine ⟨-z, by rw [hbase, if_pos rfl, h.sw.neg_ok hnS], hnS, ?_⟩
    simp only [if_true] at hs
    have := abs_sub_le (rv F (-z)) (-1 * Real.sin (Real.pi / 2 * rv F x)) (Real.sin (rv F fp))
    rw [abs_sub_comm] at hs
    rw [rv_neg, show -rv F z - -1 * Real.sin (Real.pi / 2 * rv F x) = -(rv F z - Real.sin (Real.pi / 2 * rv F x)) by ring, abs_neg] at this
    rw [rv_neg]
    norm_num at *; linarith

end Eirin
