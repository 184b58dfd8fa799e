import Verif.Lemmas.Lay
import Verif.Props.ExpRange
import Verif.Props.PowAll
import Mathlib.Algebra.Order.Ring.Pow

/-! # Property C110: the exponential function on every signed layout.

C37 and C99 cover the two library types.  Here the layout is arbitrary. -/

namespace Eirin.Props
open Spec

/-- A signed layout with at least 8 fraction bits in which three is representable has room for 3.9. -/
theorem lay_three {F : FxTy} (h : SG F) (hr : F.r = false) (h8 : 8 ≤ F.f) (h3 : F.f + 3 ≤ F.T.bits) : Lay F (1 / 256) 3.9 where
  sw := h
  r := hr
  u_le := by
    unfold uR
    apply div_le_div_of_nonneg_left (by norm_num) (by norm_num)
    have : (2 : ℝ) ^ 8 ≤ 2 ^ F.f := pow_le_pow_right₀ (by norm_num) h8
    norm_num at this ⊢; exact this
  st := by
    intro z hz
    unfold rv at hz
    rw [abs_div, abs_of_pos (by positivity : (0 : ℝ) < 2 ^ F.f), div_le_iff₀ (by positivity)] at hz
    have h2 : |(z : ℝ)| < 4 * 2 ^ F.f := lt_of_le_of_lt hz (mul_lt_mul_of_pos_right (by norm_num) (by positivity))
    have hz' : |z| < 4 * 2 ^ F.f := by exact_mod_cast h2
    rw [abs_lt] at hz'
    have : (2 : Int) ^ (F.f + 2) ≤ 2 ^ (F.T.bits - 1) := pow_le_pow_right₀ (by norm_num) (by omega)
    rw [pow_add] at this
    exact ⟨by rw [h.lo_eq]; omega, by rw [h.hi_eq]; omega⟩

/-- A coefficient of `exp_expand`, converted from 63 fraction bits, is within one ulp. -/
theorem coeff63 {F : FxTy} (h : Lay F (1 / 256) 3.9) (hf : F.f < 63) {L : Int} (hL0 : 0 < L) (hL : L < 2 ^ 63) :
    ∃ z, fromFixedNumValue F i64 63 L = .ok z ∧ Ap F z (L / 2 ^ 63) 1 := by
  have hLr : (L : ℝ) / 2 ^ 63 ≤ 1 := by
    have : (L : ℝ) ≤ 2 ^ 63 := by exact_mod_cast hL.le
    rw [div_le_iff₀ (by positivity)]; linarith
  have h2 : Representable F 2 := by
    refine ⟨2 * 2 ^ F.f, h.st (by rw [rv_int]; norm_num), ?_⟩
    rw [val_int]; norm_num
  have hn := near_of (c := fun F => fromFixedNumValue F i64 63 L) (k := 63) (L := L) (ρ := (L : ℝ) / 2 ^ 63) (δ := 0) (fun _ => rfl)
    (by norm_num) (by norm_num) hL0 hL (by norm_num) (by simp) (by simp)
  obtain ⟨z, ez, sz, nz, -⟩ := hn F 2 h.sw.valid hf (by push_cast; linarith) (by exact_mod_cast h2)
  obtain ⟨n1, n2⟩ := nz h.r
  rw [rv_eq] at n1 n2; rw [uR_eq] at n2
  exact ⟨z, ez, sz, by rw [abs_le]; constructor <;> linarith [uR_pos F]⟩

theorem intPart_nonneg' {F : FxTy} (h : SG F) (hb : F.f < F.T.bits) {x : Int} (hS : Storable F x) (h0 : 0 ≤ x) :
    integralPart F x = .ok (x / 2 ^ F.f) ∧ F.T.InRange (x / 2 ^ F.f * 2 ^ F.f) ∧
      0 ≤ x - x / 2 ^ F.f * 2 ^ F.f ∧ x - x / 2 ^ F.f * 2 ^ F.f < 2 ^ F.f := by
  have hp : (0 : Int) < 2 ^ F.f := by positivity
  have q0 : 0 ≤ x / 2 ^ F.f := Int.ediv_nonneg h0 hp.le
  have q1 : x / 2 ^ F.f * 2 ^ F.f ≤ x := Int.ediv_mul_le x hp.ne'
  have q2 := Int.lt_ediv_add_one_mul_self x hp
  have hqx : x / 2 ^ F.f ≤ x := by nlinarith
  obtain ⟨s1, s2⟩ := hS
  have hqS : F.T.InRange (x / 2 ^ F.f) := ⟨by have := h.zero_in.1; omega, by omega⟩
  refine ⟨?_, ⟨by have := h.zero_in.1; have : 0 ≤ x / 2 ^ F.f * 2 ^ F.f := by positivity
                  omega, by omega⟩, by omega, by linarith⟩
  unfold integralPart
  have : signbit F x ≠ true := by rw [Ne, signbit_iff h.valid ⟨s1, s2⟩]; omega
  rw [if_neg this]
  simp only [Res.pure_eq, Res.bind_ok, shr]
  have hpb : F.f < F.T.promote.bits := lt_of_lt_of_le hb h.valid.tp
  rw [if_pos hpb, Res.bind_ok, h.wrap_ok hqS]

/-- The polynomial part of `exp_expand` in integers: Horner's rule with truncated products. -/
def expHorner (f : Nat) (a b c d e g t : Int) : Int :=
  g + t * (e + t * (d + t * (c + t * (b + t * a / 2 ^ f) / 2 ^ f) / 2 ^ f) / 2 ^ f) / 2 ^ f

theorem horner_step {f : Nat} {t t' c s s' : Int} (h0 : 0 ≤ t) (h : t ≤ t') (s0 : 0 ≤ s) (hs : s ≤ s') (c0 : 0 ≤ c) :
    0 ≤ c + t * s / 2 ^ f ∧ c + t * s / 2 ^ f ≤ c + t' * s' / 2 ^ f := by
  have hp : (0 : Int) < 2 ^ f := by positivity
  have h1 : 0 ≤ t * s / 2 ^ f := Int.ediv_nonneg (mul_nonneg h0 s0) hp.le
  have h2 : t * s / 2 ^ f ≤ t' * s' / 2 ^ f := Int.ediv_le_ediv hp (mul_le_mul h hs s0 (le_trans h0 h))
  omega

/-- With non-negative coefficients it is monotone. -/
theorem expHorner_mono {f : Nat} {a b c d e g t t' : Int} (ha : 0 ≤ a) (hb : 0 ≤ b) (hc : 0 ≤ c) (hd : 0 ≤ d) (he : 0 ≤ e) (hg : 0 ≤ g)
    (h0 : 0 ≤ t) (h : t ≤ t') : expHorner f a b c d e g t ≤ expHorner f a b c d e g t' := by
  obtain ⟨n1, l1⟩ := horner_step (f := f) h0 h ha le_rfl hb
  obtain ⟨n2, l2⟩ := horner_step (f := f) h0 h n1 l1 hc
  obtain ⟨n3, l3⟩ := horner_step (f := f) h0 h n2 l2 hd
  obtain ⟨n4, l4⟩ := horner_step (f := f) h0 h n3 l3 he
  exact (horner_step (f := f) h0 h n4 l4 hg).2

/-- The coefficients of `exp_expand` on a layout: converted from 63 fraction bits, and between zero and one. -/
structure ExpK (F : FxTy) (a b c d e g : Int) : Prop where
  ea : fromFixedNumValue F i64 63 0x01C798ECC0CBC856 = .ok a
  eb : fromFixedNumValue F i64 63 0x04745859810836DA = .ok b
  ec : fromFixedNumValue F i64 63 0x15CFBB5C306F85F3 = .ok c
  ed : fromFixedNumValue F i64 63 0x3FE26186C531F98E = .ok d
  ee : fromFixedNumValue F i64 63 0x40014D4407008BB0 = .ok e
  eg : fromFixedNumValue F i64 63 0x7FFFF686446F1B43 = .ok g
  ra : 0 ≤ a ∧ a ≤ 2 ^ F.f
  rb : 0 ≤ b ∧ b ≤ 2 ^ F.f
  rc : 0 ≤ c ∧ c ≤ 2 ^ F.f
  rd : 0 ≤ d ∧ d ≤ 2 ^ F.f
  re : 0 ≤ e ∧ e ≤ 2 ^ F.f
  rg : 0 ≤ g ∧ g ≤ 2 ^ F.f

/-- The polynomial part of `exp_expand` on every such layout. -/
theorem expExpand_const {F : FxTy} (h : Lay F (1 / 256) 3.9) (hf : F.f < 61) :
    ∃ ca cb cc cd ce cf, ExpK F ca cb cc cd ce cf ∧
      (∀ t : Int, 0 ≤ t → t < 2 ^ F.f → Ap F (expHorner F.f ca cb cc cd ce cf t) (expP (rv F t)) 11) ∧
      ∀ {ev x p : Int}, cE F = .ok ev → Storable F x → 0 ≤ x → powInt F ev (x / 2 ^ F.f) = .ok p → Storable F p →
        expExpand F x = .ok (F.T.wrap (p * expHorner F.f ca cb cc cd ce cf (x - x / 2 ^ F.f * 2 ^ F.f) / 2 ^ F.f)) := by
  have hp : (0 : Int) < 2 ^ F.f := by positivity
  have hb : F.f < F.T.bits := h.sw.valid.flt
  obtain ⟨ca, ea, aa⟩ := coeff63 h (by omega) (L := 0x01C798ECC0CBC856) (by norm_num) (by norm_num)
  obtain ⟨cb, eb, ab⟩ := coeff63 h (by omega) (L := 0x04745859810836DA) (by norm_num) (by norm_num)
  obtain ⟨cc, ec, ac⟩ := coeff63 h (by omega) (L := 0x15CFBB5C306F85F3) (by norm_num) (by norm_num)
  obtain ⟨cd, ed, ad⟩ := coeff63 h (by omega) (L := 0x3FE26186C531F98E) (by norm_num) (by norm_num)
  obtain ⟨ce, ee, ae⟩ := coeff63 h (by omega) (L := 0x40014D4407008BB0) (by norm_num) (by norm_num)
  obtain ⟨cf, ef, af⟩ := coeff63 h (by omega) (L := 0x7FFFF686446F1B43) (by norm_num) (by norm_num)
  push_cast at aa ab ac ad ae af
  have k01 : ∀ {z : Int} {v : ℝ}, Ap F z v 1 → 1 / 100 ≤ v ∧ v < 1 → 0 ≤ z ∧ z ≤ 2 ^ F.f := by
    intro z v hz hv
    have z0 : rv F 0 = 0 := by simp [rv]
    have hu := h.u_le
    constructor
    · rw [← rv_le F, z0]
      have := (abs_le.1 hz.er).1
      norm_num at *; linarith [hv.1]
    · have := (abs_le.1 hz.er).2
      have : rv F z < rv F (1 * 2 ^ F.f + 1) := by
        rw [rv_add, rv_int, rv_u F 1]
        push_cast; linarith [hv.2]
      rw [rv_lt] at this; omega
  have key : ∀ t : Int, 0 ≤ t → t < 2 ^ F.f → Storable F t ∧ Ap F (expHorner F.f ca cb cc cd ce cf t) (expP (rv F t)) 11 ∧ ∀ p, Storable F p → (do
      let m1 ← mul F t ca
      let s1 ← add F cb m1
      let m2 ← mul F t s1
      let s2 ← add F cc m2
      let m3 ← mul F t s2
      let s3 ← add F cd m3
      let m4 ← mul F t s3
      let s4 ← add F ce m4
      let m5 ← mul F t s4
      let s5 ← add F cf m5
      mul F p s5) = .ok (F.T.wrap (p * expHorner F.f ca cb cc cd ce cf t / 2 ^ F.f)) := by
    intro t t0 t1
    have htS : Storable F t := ⟨by have := h.sw.zero_in.1; omega, by have := h.sw.d_le; omega⟩
    refine ⟨htS, ?_⟩
    have hX := Ap.exact (F := F) htS
    have hX0 : 0 ≤ rv F t := by have := (rv_le F (a := 0) (b := t)).2 t0; simpa [rv] using this
    have hX1 : rv F t ≤ 1 := by
      have := (rv_le F (a := t) (b := 1 * 2 ^ F.f)).2 (by rw [one_mul]; exact t1.le); rw [rv_int] at this; simpa using this
    generalize hXd : rv F t = X at *
    have hXa : |X| ≤ 1 := by rw [abs_le]; constructor <;> linarith
    have pos : ∀ v m c m' : ℝ, 0 ≤ v → v ≤ m → 0 ≤ c → c + m ≤ m' → (|X * v| ≤ m ∧ 0 ≤ c + X * v ∧ c + X * v ≤ m' ∧ |c + X * v| ≤ m') := by
      intro v m c m' hv hm hc hm'
      have t0 : 0 ≤ X * v := by positivity
      have t1 : X * v ≤ 1 * v := mul_le_mul_of_nonneg_right hX1 hv
      have t2 : 0 ≤ c + X * v := by positivity
      refine ⟨?_, t2, by linarith, ?_⟩
      · rw [abs_of_nonneg t0]; linarith
      · rw [abs_of_nonneg t2]; linarith
    obtain ⟨em1, hm1⟩ := Lay.mul h 1 0.014 2 hX aa hXa (by rw [abs_of_nonneg] <;> norm_num) (by norm_num) (by norm_num)
    obtain ⟨-, n1, n1', n1a⟩ := pos (0x01C798ECC0CBC856 / 2 ^ 63) 0.014 (0x04745859810836DA / 2 ^ 63) 0.05 (by norm_num) (by norm_num) (by norm_num) (by norm_num)
    obtain ⟨es1, hs1⟩ := Lay.add h ab hm1 n1a (by norm_num)
    obtain ⟨em2, hm2⟩ := Lay.mul h 1 0.05 4 hX hs1 hXa n1a (by norm_num) (by norm_num)
    obtain ⟨-, n2, n2', n2a⟩ := pos _ 0.05 (0x15CFBB5C306F85F3 / 2 ^ 63) 0.23 n1 n1' (by norm_num) (by norm_num)
    obtain ⟨es2, hs2⟩ := Lay.add h ac hm2 n2a (by norm_num)
    obtain ⟨em3, hm3⟩ := Lay.mul h 1 0.23 6 hX hs2 hXa n2a (by norm_num) (by norm_num)
    obtain ⟨-, n3, n3', n3a⟩ := pos _ 0.23 (0x3FE26186C531F98E / 2 ^ 63) 0.8 n2 n2' (by norm_num) (by norm_num)
    obtain ⟨es3, hs3⟩ := Lay.add h ad hm3 n3a (by norm_num)
    obtain ⟨em4, hm4⟩ := Lay.mul h 1 0.8 8 hX hs3 hXa n3a (by norm_num) (by norm_num)
    obtain ⟨-, n4, n4', n4a⟩ := pos _ 0.8 (0x40014D4407008BB0 / 2 ^ 63) 1.4 n3 n3' (by norm_num) (by norm_num)
    obtain ⟨es4, hs4⟩ := Lay.add h ae hm4 n4a (by norm_num)
    obtain ⟨em5, hm5⟩ := Lay.mul h 1 1.4 10 hX hs4 hXa n4a (by norm_num) (by norm_num)
    obtain ⟨-, n5, n5', n5a⟩ := pos _ 1.4 (0x7FFFF686446F1B43 / 2 ^ 63) 2.5 n4 n4' (by norm_num) (by norm_num)
    obtain ⟨es5, hs5⟩ := Lay.add h af hm5 n5a (by norm_num)
    refine ⟨hs5.mono (by norm_num), fun p pS => ?_⟩
    rw [em1, Res.bind_ok, es1, Res.bind_ok, em2, Res.bind_ok, es2, Res.bind_ok, em3, Res.bind_ok, es3, Res.bind_ok,
      em4, Res.bind_ok, es4, Res.bind_ok, em5, Res.bind_ok, es5, Res.bind_ok]
    exact mul_nf h.sw.valid h.r pS hs5.st
  refine ⟨ca, cb, cc, cd, ce, cf, ⟨ea, eb, ec, ed, ee, ef, k01 aa (by norm_num), k01 ab (by norm_num), k01 ac (by norm_num), k01 ad (by norm_num),
    k01 ae (by norm_num), k01 af (by norm_num)⟩, fun t t0 t1 => (key t t0 t1).2.1, ?_⟩
  intro ev x p eev hS h0 ep pS
  obtain ⟨e1, hqm, t0, t1⟩ := intPart_nonneg' h.sw hb hS h0
  have htS := (key _ t0 t1).1
  have e2 : subIntAssign F x (x / 2 ^ F.f) = .ok (x - x / 2 ^ F.f * 2 ^ F.f) := h.sw.subInt_ok hqm htS
  obtain ⟨_, _, hk⟩ := key _ t0 t1
  unfold expExpand
  rw [e1, Res.bind_ok, e2, Res.bind_ok, ea, Res.bind_ok, eb, Res.bind_ok, ec, Res.bind_ok, ed, Res.bind_ok, ee, Res.bind_ok, ef, Res.bind_ok,
    eev, Res.bind_ok, ep, Res.bind_ok]
  exact hk p pS

theorem expExpand_horner {F : FxTy} (h : Lay F (1 / 256) 3.9) (hf : F.f < 61) :
    ∃ H : Int → Int, (∀ t t', 0 ≤ t → t ≤ t' → H t ≤ H t') ∧
      ∀ {ev x p : Int}, cE F = .ok ev → Storable F x → 0 ≤ x → powInt F ev (x / 2 ^ F.f) = .ok p → Storable F p →
        Ap F (H (x - x / 2 ^ F.f * 2 ^ F.f)) (expP (rv F (x - x / 2 ^ F.f * 2 ^ F.f))) 11 ∧
        expExpand F x = .ok (F.T.wrap (p * H (x - x / 2 ^ F.f * 2 ^ F.f) / 2 ^ F.f)) := by
  obtain ⟨ca, cb, cc, cd, ce, cf, k, ap, ex⟩ := expExpand_const h hf
  refine ⟨_, fun t t' h0 hle => expHorner_mono k.ra.1 k.rb.1 k.rc.1 k.rd.1 k.re.1 k.rg.1 h0 hle, fun eev hS h0 ep pS => ⟨?_, ex eev hS h0 ep pS⟩⟩
  have hp : (0 : Int) < 2 ^ F.f := by positivity
  rename_i x _
  have := Int.ediv_mul_le x hp.ne'
  have := Int.lt_ediv_add_one_mul_self x hp
  exact ap _ (by omega) (by linarith)

theorem fits_of_lt {F : FxTy} (h : SG F) {z : Int} (h0 : 0 ≤ z) (hf : F.f < F.T.bits) (hz : rv F z < 2 ^ (F.T.bits - 1 - F.f)) : Storable F z := by
  unfold rv at hz
  rw [div_lt_iff₀ (by positivity), ← pow_add, show F.T.bits - 1 - F.f + F.f = F.T.bits - 1 by omega] at hz
  have hz' : z < 2 ^ (F.T.bits - 1) := by exact_mod_cast hz
  exact ⟨by have := h.zero_in.1; omega, by rw [h.hi_eq]; omega⟩

/-- A non-negative number below one more than the largest value is storable. -/
theorem fits_of_lt_hi {F : FxTy} {z : Int} (h0 : 0 ≤ z) (hz : rv F z < rv F F.T.hi + uR F) : Storable F z := by
  have hlo : F.T.lo ≤ 0 := by unfold IntTy.lo; split <;> [exact neg_nonpos.2 (by positivity); exact le_rfl]
  have : rv F z < rv F (F.T.hi + 1) := by rw [rv_add, rv_u F 1]; push_cast; linarith
  rw [rv_lt] at this
  exact ⟨by omega, by omega⟩

theorem rv_hi_signed {F : FxTy} (h : SG F) : rv F F.T.hi + uR F = 2 ^ (F.T.bits - 1 - F.f) := by
  have hb : F.f < F.T.bits := h.valid.flt
  rw [h.hi_eq, rv_u]
  push_cast
  rw [sub_mul, one_mul, sub_add_cancel]
  unfold uR
  rw [show F.T.bits - 1 = (F.T.bits - 1 - F.f) + F.f by omega, pow_add]
  field_simp
  simp

/-- The integer powers of the constant `e`. -/
theorem expPowG {F : FxTy} (hv : F.Valid) (hr : F.r = false) (hul : uR F ≤ 1 / 256) (hf : F.f < 61) (h3 : Representable F 3) (n : Nat)
    (hfit : Real.exp n * (1 + (4 * n + 14) * uR F) ≤ rv F F.T.hi + uR F) :
    ∃ ev p, cE F = .ok ev ∧ powInt F ev n = .ok p ∧ Storable F p ∧ Real.exp n * (1 - 1.57 * n * uR F) ≤ rv F p ∧
      rv F p ≤ Real.exp n * (1 + 0.21 * n * uR F) ∧ (n : ℝ) * uR F ≤ 39 / 256 ∧ Storable F ev ∧ 1 ≤ val F ev ∧ val F ev ^ n ≤ val F F.T.hi ∧ n < 39 := by
  have hu := uR_pos F
  have hn38 : n < 39 := by
    by_contra hc
    have e1 : Real.exp 39 ≤ Real.exp n := Real.exp_le_exp.2 (by exact_mod_cast not_lt.1 hc)
    have e2 : rv F F.T.hi + uR F ≤ 2 ^ 56 := by
      have hb : F.T.bits ≤ 64 := by obtain ⟨a, -⟩ := hv; omega
      have hhi : F.T.hi + 1 ≤ 2 ^ 64 := by
        unfold IntTy.hi
        split
        · have : (2 : Int) ^ (F.T.bits - 1) ≤ 2 ^ 64 := pow_le_pow_right₀ (by norm_num) (by omega)
          omega
        · have : (2 : Int) ^ F.T.bits ≤ 2 ^ 64 := pow_le_pow_right₀ (by norm_num) (by omega)
          omega
      have hhr : (F.T.hi : ℝ) + 1 ≤ 2 ^ 64 := by exact_mod_cast hhi
      have := mul_le_mul hhr hul hu.le (by norm_num)
      rw [rv_u]
      norm_num at this ⊢; linarith
    have e3 : (2.7182818283 : ℝ) ^ 39 ≤ Real.exp 39 := by exact_mod_cast exp_nat_lo 39
    have e4 : Real.exp n * 1 ≤ Real.exp n * (1 + (4 * n + 14) * uR F) :=
      mul_le_mul_of_nonneg_left (by have : 0 ≤ (4 * (n : ℝ) + 14) * uR F := by positivity
                                    linarith) (Real.exp_pos _).le
    norm_num at e2 e3; linarith
  have hnu : (n : ℝ) * uR F ≤ 39 / 256 := by
    have : (n : ℝ) ≤ 39 := by exact_mod_cast hn38.le
    have := mul_le_mul this hul hu.le (by norm_num)
    linarith
  have h1 : Representable F 1 := by
    obtain ⟨z, zS, hz⟩ := h3
    have hp : (0 : Int) < 2 ^ F.f := by positivity
    have hlo : F.T.lo ≤ 0 := by unfold IntTy.lo; split <;> [exact neg_nonpos.2 (by positivity); exact le_rfl]
    have e : z = 3 * 2 ^ F.f := val_inj (F := F) (by rw [hz, val_int]; norm_num)
    exact ⟨1 * 2 ^ F.f, ⟨by omega, by have := zS.2; omega⟩, by rw [val_int]; norm_num⟩
  have d9 := Real.exp_one_lt_d9
  have d9' := Real.exp_one_gt_d9
  obtain ⟨ev, eev, sev, nz, -⟩ := C20_every_e F 3 hv hf (by push_cast; linarith) (by exact_mod_cast h3)
  obtain ⟨g1, g2⟩ := nz hr
  rw [rv_eq] at g1 g2; rw [uR_eq] at g2
  have hu61 : (1 : ℝ) / 2 ^ 61 ≤ uR F / 2 := by
    unfold uR
    rw [div_div]
    apply div_le_div_of_nonneg_left (by norm_num) (by positivity)
    have : (2 : ℝ) ^ F.f * 2 = 2 ^ (F.f + 1) := by rw [pow_succ]
    rw [this]
    exact pow_le_pow_right₀ (by norm_num) (by omega)
  have hg0 : (2.7 : ℝ) ≤ rv F ev := by norm_num at d9 d9' hul ⊢; linarith
  -- the exact powers of the stored constant
  have up : rv F ev ^ n * (1 - 0.2 * n * uR F) ≤ Real.exp n := by
    have a1 : rv F ev * (1 + -(0.2 * uR F)) ≤ Real.exp 1 := by nlinarith
    have a2 := one_add_mul_le_pow (a := -(0.2 * uR F)) (by norm_num at hul ⊢; linarith) n
    have a3 : (rv F ev * (1 + -(0.2 * uR F))) ^ n ≤ Real.exp 1 ^ n := pow_le_pow_left₀ (by
      apply mul_nonneg <;> norm_num at hul ⊢ <;> linarith) a1 n
    rw [← exp_nat_eq, mul_pow] at a3
    have a4 := mul_le_mul_of_nonneg_left a2 (pow_nonneg (by linarith : 0 ≤ rv F ev) n)
    refine le_trans (le_trans (le_of_eq ?_) a4) a3
    ring
  have lo : Real.exp n * (1 - 0.57 * n * uR F) ≤ rv F ev ^ n := by
    have a1 : Real.exp 1 * (1 + -(0.57 * uR F)) ≤ rv F ev := by nlinarith
    have a2 := one_add_mul_le_pow (a := -(0.57 * uR F)) (by norm_num at hul ⊢; linarith) n
    have a3 : (Real.exp 1 * (1 + -(0.57 * uR F))) ^ n ≤ rv F ev ^ n := pow_le_pow_left₀ (by
      apply mul_nonneg <;> norm_num at hul ⊢ <;> linarith) a1 n
    rw [mul_pow, ← exp_nat_eq] at a3
    have a4 := mul_le_mul_of_nonneg_left a2 (Real.exp_pos n).le
    refine le_trans (le_trans (le_of_eq ?_) a4) a3
    ring
  have hE := Real.exp_pos n
  have hE1 : 1 ≤ Real.exp n := Real.one_le_exp (by positivity)
  have hnu0 : 0 ≤ (n : ℝ) * uR F := by positivity
  have hG0 : 0 < rv F ev ^ n := by positivity
  generalize hGd : rv F ev ^ n = G at *
  generalize hEd : Real.exp n = E at *
  have up' : G ≤ E * (1 + 0.21 * n * uR F) := by
    have : G * (1 - 0.2 * n * uR F) * (1 + 0.21 * n * uR F) ≤ E * (1 + 0.21 * n * uR F) := mul_le_mul_of_nonneg_right up (by nlinarith)
    have t : 1 ≤ (1 - 0.2 * (n * uR F)) * (1 + 0.21 * (n * uR F)) := by nlinarith
    have := mul_le_mul_of_nonneg_left t hG0.le
    nlinarith
  have hfitq : val F ev ^ n ≤ val F F.T.hi := by
    have : rv F ev ^ n ≤ rv F F.T.hi := by
      rw [hGd]
      have : E * 14 * uR F ≥ uR F := by nlinarith
      have : 0 ≤ E * (n * uR F) := by positivity
      nlinarith
    rw [← rv_eq, ← rv_eq] at this
    exact_mod_cast this
  have hev1 : 1 ≤ val F ev := by
    have : (1 : ℝ) ≤ ((val F ev : ℚ) : ℝ) := by rw [rv_eq]; linarith
    exact_mod_cast this
  obtain ⟨p, ep, pS, p1, p2, -⟩ := C109_relative F hv hr h1 ev n sev hev1 (lt_trans hn38 (by norm_num)) hfitq
  have p1' : rv F p ≤ G := by rw [← hGd, ← rv_eq, ← rv_eq]; exact_mod_cast p1
  have p2' : G * (1 - n * uR F) ≤ rv F p := by rw [← hGd, ← rv_eq, ← rv_eq, ← uR_eq]; exact_mod_cast p2
  refine ⟨ev, p, eev, ep, pS, ?_, le_trans p1' up', hnu, sev, hev1, hfitq, hn38⟩
  have t1 := mul_le_mul_of_nonneg_right lo (show (0 : ℝ) ≤ 1 - n * uR F by linarith)
  have t2 : 0 ≤ E * ((n * uR F) * (n * uR F)) := by positivity
  nlinarith

theorem expPow {F : FxTy} (h : Lay F (1 / 256) 3.9) (hf : F.f < 61) (n : Nat) (hfit : Real.exp n * (1 + (4 * n + 14) * uR F) ≤ 2 ^ (F.T.bits - 1 - F.f)) :
    ∃ ev p, cE F = .ok ev ∧ powInt F ev n = .ok p ∧ Storable F p ∧ Real.exp n * (1 - 1.57 * n * uR F) ≤ rv F p ∧
      rv F p ≤ Real.exp n * (1 + 0.21 * n * uR F) ∧ (n : ℝ) * uR F ≤ 39 / 256 := by
  obtain ⟨ev, p, a, b, c, d, e, g, -⟩ := expPowG h.sw.valid h.r h.u_le hf ⟨3 * 2 ^ F.f, h.st (by rw [rv_int]; norm_num), by rw [val_int]; norm_num⟩ n
    (by rw [rv_hi_signed h.sw]; exact hfit)
  exact ⟨ev, p, a, b, c, d, e, g⟩

/-- The product of the power and the polynomial, as real numbers. -/
theorem exp_product {E v p s q u N : ℝ} (hE1 : 1 ≤ E) (hu : 0 < u) (hul : u ≤ 1 / 256) (hN : 0 ≤ N * u) (hnu : N * u ≤ 39 / 256) (hv0 : 1 ≤ v) (hv1 : v ≤ 9 / 4)
    (p1 : E * (1 - 1.57 * N * u) ≤ p) (p2 : p ≤ E * (1 + 0.21 * N * u)) (hsv : |s - v| ≤ 5 / 100000 + 11 * u) (f1 : q ≤ p * s) (f2 : p * s - u ≤ q) :
    |q - E * v| ≤ E * (5.5 / 100000 + (4 * N + 13) * u) ∧ 0 ≤ p ∧ 0 ≤ s := by
  have hen : 0 < E := by linarith
  have hp0 : 0 ≤ p := by
    refine le_trans (mul_nonneg hen.le ?_) p1
    rw [mul_assoc]; norm_num at hnu ⊢; linarith
  refine ⟨?_, hp0, by have := (abs_le.1 hsv).1; norm_num at hul ⊢; linarith⟩
  generalize hw : N * u = w at *
  rw [mul_assoc, hw] at p1 p2
  have c3 : 0 ≤ E * w := by positivity
  have hpe : |p - E| ≤ E * (1.57 * w) := by
    rw [mul_sub, mul_one] at p1; rw [mul_add, mul_one] at p2
    rw [show E * (1.57 * w) = 1.57 * (E * w) by ring] at *
    rw [show E * (0.21 * w) = 0.21 * (E * w) by ring] at *
    rw [abs_le]; constructor <;> norm_num at * <;> linarith
  have hpa : |p| ≤ E * 1.04 := by
    rw [abs_of_nonneg hp0]
    refine le_trans p2 (mul_le_mul_of_nonneg_left ?_ hen.le)
    norm_num at hnu ⊢; linarith
  have b1 : |(p - E) * v| ≤ E * (1.57 * w) * (9 / 4) := by
    rw [abs_mul, abs_of_nonneg (by linarith : 0 ≤ v)]
    exact mul_le_mul hpe hv1 (by linarith) (by positivity)
  have b2 : |p * (s - v)| ≤ E * 1.04 * (5 / 100000 + 11 * u) := by
    rw [abs_mul]
    exact mul_le_mul hpa hsv (abs_nonneg _) (by positivity)
  have b3 : |p * s - E * v| ≤ E * (1.57 * w) * (9 / 4) + E * 1.04 * (5 / 100000 + 11 * u) := by
    rw [show p * s - E * v = (p - E) * v + p * (s - v) by ring]
    have := abs_add_le ((p - E) * v) (p * (s - v))
    linarith
  have c2 : u ≤ E * u := by nlinarith
  have c4 : E * (5.5 / 100000 + (4 * N + 13) * u) = E * 5.5 / 100000 + 4 * (E * w) + 13 * (E * u) := by rw [← hw]; ring
  have c5 : E * (1.57 * w) * (9 / 4) + E * 1.04 * (5 / 100000 + 11 * u) =
    1.57 * 9 / 4 * (E * w) + 1.04 * 5 / 100000 * E + 11.44 * (E * u) := by ring
  rw [c4]; rw [c5] at b3
  clear c4 c5 b1 b2 hpe hpa p1 p2 hsv
  rw [abs_le] at b3 ⊢
  norm_num at b3 ⊢
  constructor <;> linarith [b3.1, b3.2]

/-- What `expExpand_horner` says of `H`. -/
def IsExpPoly (F : FxTy) (H : Int → Int) : Prop :=
  ∀ {ev x p : Int}, cE F = .ok ev → Storable F x → 0 ≤ x → powInt F ev (x / 2 ^ F.f) = .ok p → Storable F p →
    Ap F (H (x - x / 2 ^ F.f * 2 ^ F.f)) (expP (rv F (x - x / 2 ^ F.f * 2 ^ F.f))) 11 ∧
    expExpand F x = .ok (F.T.wrap (p * H (x - x / 2 ^ F.f * 2 ^ F.f) / 2 ^ F.f))

/-- The value computed by `exp` for a non-negative argument. -/
theorem exp_genG {F : FxTy} (hv : F.Valid) (hr : F.r = false) (hul : uR F ≤ 1 / 256) (hf : F.f < 61) (h3 : Representable F 3) {H : Int → Int} (hH : IsExpPoly F H) {x : Int} (hS : Storable F x) (n : Nat) (hn : (n : Int) = x / 2 ^ F.f) (hx0 : 0 ≤ x)
    (hfit : Real.exp (rv F x) + Real.exp n * (6 / 100000 + (4 * n + 14) * uR F) ≤ rv F F.T.hi + uR F) :
    ∃ r, exp F x = .ok r ∧ Storable F r ∧ |rv F r - (Real.exp (rv F x) - Real.exp n * ((rv F x - n) / 2))| ≤ Real.exp n * (6 / 100000 + (4 * n + 14) * uR F) ∧
      (x ≠ 0 → ∃ ev p, cE F = .ok ev ∧ powInt F ev n = .ok p ∧ 0 ≤ p ∧ r = p * H (x - x / 2 ^ F.f * 2 ^ F.f) / 2 ^ F.f) := by
  have hp : (0 : Int) < 2 ^ F.f := by positivity
  have hu := uR_pos F
  have hxn : rv F x = n + rv F (x - x / 2 ^ F.f * 2 ^ F.f) := by
    rw [rv_sub, ← hn, rv_int]; push_cast; ring
  have t0 : 0 ≤ x - x / 2 ^ F.f * 2 ^ F.f := by have := Int.ediv_mul_le x hp.ne'; omega
  have t1 : x - x / 2 ^ F.f * 2 ^ F.f ≤ 1 * 2 ^ F.f := by have := Int.lt_ediv_add_one_mul_self x hp; linarith
  have hX0 : 0 ≤ rv F (x - x / 2 ^ F.f * 2 ^ F.f) := by have := (rv_le F (a := 0)).2 t0; simpa [rv] using this
  have hX1 : rv F (x - x / 2 ^ F.f * 2 ^ F.f) ≤ 1 := by have := (rv_le F).2 t1; rw [rv_int] at this; simpa using this
  have hen := Real.exp_pos n
  have hle : Real.exp n ≤ Real.exp (rv F x) := Real.exp_le_exp.2 (by rw [hxn]; linarith)
  obtain ⟨ev, p, eev, ep, pS, p1, p2, hnu, -⟩ := expPowG hv hr hul hf h3 n (by nlinarith)
  have ep' := ep
  rw [hn] at ep
  obtain ⟨hs, e⟩ := hH eev hS hx0 ep pS
  generalize hsd : H (x - x / 2 ^ F.f * 2 ^ F.f) = s at *
  generalize hXd : rv F (x - x / 2 ^ F.f * 2 ^ F.f) = X at *
  have hsplit : Real.exp (rv F x) = Real.exp n * Real.exp X := by rw [hxn, Real.exp_add]
  have hnr : rv F x - n = X := by rw [hxn]; ring
  rw [hnr]
  have h1 : Representable F 1 := by
    obtain ⟨z, zS, hz⟩ := h3
    have hlo : F.T.lo ≤ 0 := by unfold IntTy.lo; split <;> [exact neg_nonpos.2 (by positivity); exact le_rfl]
    have e : z = 3 * 2 ^ F.f := val_inj (F := F) (by rw [hz, val_int]; norm_num)
    exact ⟨1 * 2 ^ F.f, ⟨by omega, by have := zS.2; omega⟩, by rw [val_int]; norm_num⟩
  obtain ⟨e0, e1, oS, -, -⟩ := pw_start hv h1
  unfold exp
  rw [e0, e1]
  by_cases hx : x = 0
  · refine ⟨2 ^ F.f, by rw [if_pos (by rw [eq_iff]; exact hx)], oS, ?_, fun h => absurd hx h⟩
    have hn0 : n = 0 := by rw [hx] at hn; simpa using hn
    have hr1 : rv F (2 ^ F.f) = 1 := by have := rv_int F 1; rw [one_mul] at this; simpa using this
    have hrx : rv F x = 0 := by rw [hx]; simp [rv]
    have hX00 : X = 0 := by rw [hrx, hn0] at hxn; simpa using hxn.symm
    rw [hr1, hrx, hX00, hn0]
    simp; positivity
  rw [if_neg (by rw [eq_iff]; exact hx), if_neg (by rw [lt_iff]; omega), e]
  generalize hEd : Real.exp n = E at *
  set v := Real.exp X - X / 2 with hvd
  have hv0 : 1 ≤ v := by have := Real.add_one_le_exp X; rw [hvd]; linarith
  have hv1 : v ≤ 9 / 4 := by
    have a2 := Real.exp_one_lt_d9
    have a3 : Real.exp X * (1 + (1 - X)) ≤ Real.exp 1 := by
      have b1 : Real.exp X * Real.exp (1 - X) = Real.exp 1 := by rw [← Real.exp_add]; congr 1; ring
      have b2 := Real.add_one_le_exp (1 - X)
      rw [← b1]
      exact mul_le_mul_of_nonneg_left (by linarith) (Real.exp_pos X).le
    have a4 : 1 ≤ Real.exp X := Real.one_le_exp hX0
    rw [hvd]
    nlinarith
  have hsv : |rv F s - v| ≤ 5 / 100000 + 11 * uR F := by
    have b1 := hs.er
    have b2 := expP_near X hX0 hX1
    have := abs_sub_le (rv F s) (expP X) v
    linarith
  have hE1 : 1 ≤ E := by rw [← hEd]; exact Real.one_le_exp (by positivity)
  have hnu0 : 0 ≤ (n : ℝ) * uR F := by positivity
  obtain ⟨f1, f2⟩ := rv_floor F p s
  obtain ⟨hfl, hp0, hs0⟩ := exp_product hE1 hu hul hnu0 hnu hv0 hv1 p1 p2 hsv f1 f2
  have hEv : E * v = Real.exp (rv F x) - E * (X / 2) := by rw [hsplit, hvd]; ring
  have hdiff : E * (5.5 / 100000 + (4 * n + 13) * uR F) < E * (6 / 100000 + (4 * n + 14) * uR F) :=
    mul_lt_mul_of_pos_left (by norm_num; linarith) hen
  have hst : Storable F (p * s / 2 ^ F.f) := by
    obtain ⟨d1, d2⟩ := abs_le.1 hfl
    have d3 : 0 ≤ E * (X / 2) := by positivity
    refine fits_of_lt_hi ?_ (by linarith)
    apply Int.ediv_nonneg _ hp.le
    apply mul_nonneg
    · have z0 : rv F 0 = 0 := by simp [rv]
      rw [← z0, rv_le] at hp0; exact hp0
    · have z0 : rv F 0 = 0 := by simp [rv]
      rw [← z0, rv_le] at hs0; exact hs0
  refine ⟨_, by rw [IntTy.wrap_of_inRange hv.tpos hst], hst, ?_, fun _ => ⟨ev, p, eev, ep', ?_, rfl⟩⟩
  · rw [← hEv]
    exact le_trans hfl hdiff.le
  · have z0 : rv F 0 = 0 := by simp [rv]
    rw [← z0, rv_le] at hp0; exact hp0

theorem exp_genH {F : FxTy} (h : Lay F (1 / 256) 3.9) (hf : F.f < 61) {H : Int → Int} (hH : IsExpPoly F H) {x : Int} (hS : Storable F x) (n : Nat) (hn : (n : Int) = x / 2 ^ F.f) (hx0 : 0 ≤ x)
    (hfit : Real.exp (rv F x) + Real.exp n * (6 / 100000 + (4 * n + 14) * uR F) ≤ 2 ^ (F.T.bits - 1 - F.f)) :
    ∃ r, exp F x = .ok r ∧ Storable F r ∧ |rv F r - (Real.exp (rv F x) - Real.exp n * ((rv F x - n) / 2))| ≤ Real.exp n * (6 / 100000 + (4 * n + 14) * uR F) ∧
      (x ≠ 0 → ∃ ev p, cE F = .ok ev ∧ powInt F ev n = .ok p ∧ 0 ≤ p ∧ r = p * H (x - x / 2 ^ F.f * 2 ^ F.f) / 2 ^ F.f) :=
  exp_genG h.sw.valid h.r h.u_le hf ⟨3 * 2 ^ F.f, h.st (by rw [rv_int]; norm_num), by rw [val_int]; norm_num⟩ hH hS n hn hx0
    (by rw [rv_hi_signed h.sw]; exact hfit)

/-- The same without the polynomial. -/
theorem exp_gen {F : FxTy} (h : Lay F (1 / 256) 3.9) (hf : F.f < 61) {x : Int} (hS : Storable F x) (n : Nat) (hn : (n : Int) = x / 2 ^ F.f) (hx0 : 0 ≤ x)
    (hfit : Real.exp (rv F x) + Real.exp n * (6 / 100000 + (4 * n + 14) * uR F) ≤ 2 ^ (F.T.bits - 1 - F.f)) :
    ∃ r, exp F x = .ok r ∧ Storable F r ∧ |rv F r - (Real.exp (rv F x) - Real.exp n * ((rv F x - n) / 2))| ≤ Real.exp n * (6 / 100000 + (4 * n + 14) * uR F) := by
  obtain ⟨H, -, hH⟩ := expExpand_horner h hf
  obtain ⟨r, e, s, a, -⟩ := exp_genH h hf hH hS n hn hx0 hfit
  exact ⟨r, e, s, a⟩

theorem lay_of {F : FxTy} (hF : F.Valid) (hs : F.T.signed = true) (hr : F.r = false) (h8 : 8 ≤ F.f) (h3 : Representable F 3) : Lay F (1 / 256) 3.9 := by
  obtain ⟨z, zS, hz⟩ := h3
  have e : z = 3 * 2 ^ F.f := val_inj (F := F) (by rw [hz, val_int]; norm_num)
  subst e
  have hp : (0 : Int) < 2 ^ F.f := by positivity
  have hlo : F.T.lo ≤ 0 := by unfold IntTy.lo; rw [if_pos hs]; exact neg_nonpos.2 (by positivity)
  have hsw : SG F := ⟨hF, hs, ⟨by omega, by have := zS.2; omega⟩⟩
  refine lay_three hsw hr h8 ?_
  have := zS.2
  rw [hsw.hi_eq] at this
  have : (2 : Int) ^ (F.f + 1) < 2 ^ (F.T.bits - 1) := by rw [pow_succ]; omega
  have := (pow_lt_pow_iff_right₀ (by norm_num : (1 : Int) < 2)).1 this
  omega

/-- C110: on every signed non-rounding layout with 8 to 60 fraction bits in which 3 is representable, `exp` of a
non-negative argument with integer part `n` is `e^x - e^n (x - n) / 2` with a relative error of at most `6e-5` plus `4 n + 14` ulp, as long as `e^x` and this
error fit. -/
theorem C110_value (F : FxTy) (hF : F.Valid) (hs : F.T.signed = true) (hr : F.r = false) (h8 : 8 ≤ F.f) (h60 : F.f ≤ 60) (h3 : Representable F 3) (x : Int)
    (hS : Storable F x) (n : Nat) (h0 : (n : ℚ) ≤ val F x) (h1 : val F x < n + 1)
    (hfit : Real.exp ((val F x : ℚ) : ℝ) + Real.exp n * (6 / 100000 + (4 * n + 14) * ((ulp F : ℚ) : ℝ)) ≤ 2 ^ (F.T.bits - 1 - F.f)) :
    ∃ r, exp F x = .ok r ∧ Storable F r ∧
      |((val F r : ℚ) : ℝ) - (Real.exp ((val F x : ℚ) : ℝ) - Real.exp n * ((((val F x : ℚ) : ℝ) - n) / 2))| ≤
        Real.exp n * (6 / 100000 + (4 * n + 14) * ((ulp F : ℚ) : ℝ)) := by
  have h := lay_of hF hs hr h8 h3
  have hp : (0 : Int) < 2 ^ F.f := by positivity
  have i0 : (n : Int) * 2 ^ F.f ≤ x := (val_le (F := F)).1 (by rw [val_int]; exact_mod_cast h0)
  have i1 : x < ((n : Int) + 1) * 2 ^ F.f := (val_lt (F := F)).1 (by rw [val_int]; exact_mod_cast h1)
  have hn : (n : Int) = x / 2 ^ F.f := by
    symm
    exact (Int.ediv_eq_iff_of_pos hp).2 ⟨i0, by linarith⟩
  simp only [rv_eq, uR_eq] at hfit ⊢
  exact exp_gen h (by omega) hS n hn (le_trans (by positivity) i0) hfit
example : (⟨i32, i64, 24, false⟩ : FxTy).Valid ∧ exp ⟨i16, i32, 10, false⟩ 1536 = .ok 3889 ∧ exp ⟨i16, i32, 13, false⟩ 8192 = .ok 22265 ∧ Representable ⟨i32, i64, 24, false⟩ 3 ∧
    exp ⟨i32, i64, 24, false⟩ (9 * 2 ^ 22) = .ok 143680444 ∧ exp ⟨i64, i128, 40, false⟩ (5 * 2 ^ 39) = .ok 11363553260351 :=
  ⟨by decide, by decide +kernel, by decide +kernel, ⟨3 * 2 ^ 24, by decide, by norm_num [val]⟩, by decide +kernel, by decide +kernel⟩

/-- C110: at the integers `exp` is accurate on all these layouts: the relative error is at most `6e-5` plus `4 n + 14` ulp. -/
theorem C110_integer (F : FxTy) (hF : F.Valid) (hs : F.T.signed = true) (hr : F.r = false) (h8 : 8 ≤ F.f) (h60 : F.f ≤ 60) (h3 : Representable F 3) (x : Int)
    (hS : Storable F x) (n : Nat) (h0 : val F x = n) (hfit : Real.exp n * (1 + 6 / 100000 + (4 * n + 14) * ((ulp F : ℚ) : ℝ)) ≤ 2 ^ (F.T.bits - 1 - F.f)) :
    ∃ r, exp F x = .ok r ∧ Storable F r ∧ |((val F r : ℚ) : ℝ) - Real.exp n| ≤ Real.exp n * (6 / 100000 + (4 * n + 14) * ((ulp F : ℚ) : ℝ)) := by
  have hc : ((val F x : ℚ) : ℝ) = n := by rw [h0]; simp
  obtain ⟨r, e, s, hr⟩ := C110_value F hF hs hr h8 h60 h3 x hS n (by rw [h0]) (by rw [h0]; linarith) (by rw [hc]; linarith)
  refine ⟨r, e, s, ?_⟩
  rw [hc] at hr
  simpa using hr
example : exp ⟨i32, i64, 24, false⟩ (3 * 2 ^ 24) = .ok 336979000 ∧ val ⟨i32, i64, 24, false⟩ (3 * 2 ^ 24) = 3 := ⟨by decide +kernel, by norm_num [val]⟩

theorem exp_small {F : FxTy} (h16 : 16 ≤ F.f) {n : Nat} (hn : (n : ℝ) ≤ 39) :
    6 / 100000 + (4 * (n : ℝ) + 14) * uR F ≤ 3 / 1000 := by
  have hu := uR_pos F
  have : uR F ≤ 1 / 65536 := by
    unfold uR
    apply div_le_div_of_nonneg_left (by norm_num) (by norm_num)
    have : (2 : ℝ) ^ 16 ≤ 2 ^ F.f := pow_le_pow_right₀ (by norm_num) h16
    norm_num at this ⊢; exact this
  have := mul_le_mul (show 4 * (n : ℝ) + 14 ≤ 170 by linarith) this hu.le (by norm_num)
  norm_num at *; linarith

theorem exp_n_lt {F : FxTy} (hF : F.Valid) (h8 : 8 ≤ F.f) {n : Nat} (h : Real.exp n ≤ 2 ^ (F.T.bits - 1 - F.f)) : (n : ℝ) ≤ 39 := by
  by_contra hc
  have e1 : Real.exp 39 ≤ Real.exp n := Real.exp_le_exp.2 (not_le.1 hc).le
  have e2 : (2 : ℝ) ^ (F.T.bits - 1 - F.f) ≤ 2 ^ 55 := pow_le_pow_right₀ (by norm_num) (by
    have hb : F.T.bits ≤ 64 := by obtain ⟨a, -⟩ := hF; omega
    omega)
  have e3 : (2.7 : ℝ) ^ 39 ≤ Real.exp 39 := by
    have := exp_nat_lo 39
    refine le_trans ?_ (by exact_mod_cast this)
    norm_num
  norm_num at e2 e3; linarith

/-- C110: with at least 16 fraction bits, `exp` is too small by more than 14 percent half way between any two integers. -/
theorem C110_half (F : FxTy) (hF : F.Valid) (hs : F.T.signed = true) (hr : F.r = false) (h16 : 16 ≤ F.f) (h60 : F.f ≤ 60) (h3 : Representable F 3) (x : Int)
    (hS : Storable F x) (n : Nat) (h0 : val F x = n + 1 / 2)
    (hfit : Real.exp ((val F x : ℚ) : ℝ) + Real.exp n * (6 / 100000 + (4 * n + 14) * ((ulp F : ℚ) : ℝ)) ≤ 2 ^ (F.T.bits - 1 - F.f)) :
    ∃ r, exp F x = .ok r ∧ ((val F r : ℚ) : ℝ) ≤ 86 / 100 * Real.exp ((val F x : ℚ) : ℝ) := by
  obtain ⟨r, e, s, hr⟩ := C110_value F hF hs hr (by omega) h60 h3 x hS n (by rw [h0]; linarith) (by rw [h0]; linarith) hfit
  refine ⟨r, e, ?_⟩
  have hc : ((val F x : ℚ) : ℝ) = n + 1 / 2 := by rw [h0]; push_cast; ring
  rw [hc, uR_eq] at hfit hr
  rw [hc]
  have hu := uR_pos F
  have hE := Real.exp_pos n
  have hq : 0 ≤ Real.exp n * (6 / 100000 + (4 * n + 14) * uR F) := by positivity
  have hle : Real.exp n ≤ Real.exp (n + 1 / 2) := Real.exp_le_exp.2 (by linarith)
  have hsm := mul_le_mul_of_nonneg_left (exp_small h16 (exp_n_lt hF (by omega) (n := n) (by linarith))) hE.le
  have hsp : Real.exp (n + 1 / 2) = Real.exp n * Real.exp (1 / 2) := Real.exp_add _ _
  have hi : Real.exp (1 / 2) ≤ 1.65 := by
    have hi := Real.exp_bound' (x := 1 / 2) (by norm_num) (by norm_num) (n := 5) (by norm_num)
    simp only [Finset.sum_range_succ, Finset.sum_range_zero] at hi
    norm_num [Nat.factorial] at hi ⊢
    linarith
  have := mul_le_mul_of_nonneg_left hi hE.le
  rw [hsp] at hr ⊢
  rw [show (n : ℝ) + 1 / 2 - n = 1 / 2 by ring] at hr
  have := (abs_le.1 hr).2
  norm_num at *
  linarith

/-- C110: with at least 16 fraction bits, `exp` of a non-negative argument is between `0.81 e^x` and `1.003 e^x`. -/
theorem C110_bounds (F : FxTy) (hF : F.Valid) (hs : F.T.signed = true) (hr : F.r = false) (h16 : 16 ≤ F.f) (h60 : F.f ≤ 60) (h3 : Representable F 3) (x : Int)
    (hS : Storable F x) (h0 : 0 ≤ val F x) (hfit : Real.exp ((val F x : ℚ) : ℝ) * (1003 / 1000) ≤ 2 ^ (F.T.bits - 1 - F.f)) :
    ∃ r, exp F x = .ok r ∧ Storable F r ∧ 81 / 100 * Real.exp ((val F x : ℚ) : ℝ) ≤ ((val F r : ℚ) : ℝ) ∧
      ((val F r : ℚ) : ℝ) ≤ 1003 / 1000 * Real.exp ((val F x : ℚ) : ℝ) := by
  have hn0 : ((⌊val F x⌋₊ : ℕ) : ℚ) ≤ val F x := Nat.floor_le h0
  have hlt := Nat.lt_floor_add_one (val F x)
  generalize ⌊val F x⌋₊ = n at *
  have hX0 : 0 ≤ ((val F x : ℚ) : ℝ) - n := by
    have : ((n : ℚ) : ℝ) ≤ ((val F x : ℚ) : ℝ) := by exact_mod_cast hn0
    rw [Rat.cast_natCast] at this; linarith
  have hE := Real.exp_pos n
  have a4 : Real.exp n ≤ Real.exp ((val F x : ℚ) : ℝ) := Real.exp_le_exp.2 (by linarith)
  have hV := Real.exp_pos ((val F x : ℚ) : ℝ)
  have hsm := mul_le_mul_of_nonneg_left (exp_small h16 (exp_n_lt hF (by omega) (n := n) (by linarith))) hE.le
  obtain ⟨r, e, s, hr⟩ := C110_value F hF hs hr (by omega) h60 h3 x hS n hn0 hlt (by rw [uR_eq]; linarith)
  refine ⟨r, e, s, ?_⟩
  rw [uR_eq] at hr
  generalize ((val F x : ℚ) : ℝ) = V at *
  set X := V - n with hX
  have hsplit : Real.exp V = Real.exp n * Real.exp X := by rw [← Real.exp_add]; congr 1; rw [hX]; ring
  have a1 : X ≤ Real.exp X / Real.exp 1 := by
    rw [← Real.exp_sub]
    have := Real.add_one_le_exp (X - 1); linarith
  have a2 : Real.exp X / Real.exp 1 ≤ Real.exp X * (37 / 100) := by
    rw [div_le_iff₀ (Real.exp_pos 1), mul_assoc]
    have := Real.exp_one_gt_d9
    have := Real.exp_pos X
    nlinarith
  have a3 : Real.exp n * (X / 2) ≤ Real.exp V * (185 / 1000) := by
    rw [hsplit, mul_assoc]
    exact mul_le_mul_of_nonneg_left (by linarith) hE.le
  have a6 : 0 ≤ Real.exp n * (X / 2) := mul_nonneg hE.le (by linarith)
  rw [abs_le] at hr
  constructor <;> linarith [hr.1, hr.2]

/-- C110: with at least 16 fraction bits, `exp` of a negative argument lies between `0.997 e^x` less an ulp and `1.24 e^x`, wherever `e^-x` fits. -/
theorem C110_negative (F : FxTy) (hF : F.Valid) (hs : F.T.signed = true) (hr : F.r = false) (h16 : 16 ≤ F.f) (h60 : F.f ≤ 60) (h3 : Representable F 3) (x : Int)
    (hS : Storable F (-x)) (h0 : val F x < 0) (hfit : Real.exp (-((val F x : ℚ) : ℝ)) * (1003 / 1000) ≤ 2 ^ (F.T.bits - 1 - F.f)) :
    ∃ r, exp F x = .ok r ∧ 997 / 1000 * Real.exp ((val F x : ℚ) : ℝ) - ((ulp F : ℚ) : ℝ) ≤ ((val F r : ℚ) : ℝ) ∧
      ((val F r : ℚ) : ℝ) ≤ 124 / 100 * Real.exp ((val F x : ℚ) : ℝ) := by
  have h := lay_of hF hs hr (by omega) h3
  have hxneg : x < 0 := (val_lt (F := F)).1 (by rw [val_zero]; exact h0)
  obtain ⟨y, ey, -, y1, y2⟩ := C110_bounds F hF hs hr h16 h60 h3 (-x) hS (by rw [val_neg]; linarith) (by rw [val_neg]; push_cast; exact hfit)
  rw [val_neg] at y1 y2
  push_cast at y1 y2
  rw [Real.exp_neg] at y1 y2
  have hE := Real.exp_pos ((val F x : ℚ) : ℝ)
  have hE1 : Real.exp ((val F x : ℚ) : ℝ) ≤ 1 := by
    rw [Real.exp_le_one_iff]; exact_mod_cast h0.le
  generalize hEd : Real.exp ((val F x : ℚ) : ℝ) = E at *
  have hyp : (0 : ℝ) < ((val F y : ℚ) : ℝ) := lt_of_lt_of_le (by positivity) y1
  have hyq : 0 < val F y := by exact_mod_cast hyp
  have hy0 : y ≠ 0 := by rintro rfl; rw [val_zero] at hyq; exact lt_irrefl _ hyq
  have b1 : 1 / ((val F y : ℚ) : ℝ) ≤ 124 / 100 * E := by
    rw [div_le_iff₀ hyp]
    have : 124 / 100 * E * (81 / 100 * E⁻¹) ≤ 124 / 100 * E * ((val F y : ℚ) : ℝ) := mul_le_mul_of_nonneg_left y1 (by positivity)
    have e : 124 / 100 * E * (81 / 100 * E⁻¹) = 124 * 81 / 10000 := by field_simp; norm_num
    rw [e] at this
    norm_num at this ⊢
    linarith
  have b2 : 997 / 1000 * E ≤ 1 / ((val F y : ℚ) : ℝ) := by
    rw [le_div_iff₀ hyp]
    have : 997 / 1000 * E * ((val F y : ℚ) : ℝ) ≤ 997 / 1000 * E * (1003 / 1000 * E⁻¹) := mul_le_mul_of_nonneg_left y2 (by positivity)
    have e : 997 / 1000 * E * (1003 / 1000 * E⁻¹) = 997 * 1003 / 1000000 := by field_simp; norm_num
    rw [e] at this
    norm_num at this ⊢
    linarith
  have ht := trunc_spec F (2 ^ F.f * 2 ^ F.f) y hy0
  have hyq' : (y : ℚ) ≠ 0 := by exact_mod_cast hy0
  have e : ((2 ^ F.f * 2 ^ F.f : Int) : ℚ) / y / 2 ^ F.f = 1 / val F y := by
    unfold val; push_cast; field_simp
  rw [e] at ht
  obtain ⟨c1, c2, c3⟩ := ht.1 (by positivity)
  generalize hrd : Int.tdiv (2 ^ F.f * 2 ^ F.f) y = r at *
  have c1' : (0 : ℝ) ≤ ((val F r : ℚ) : ℝ) := by exact_mod_cast c1
  have c2' : ((val F r : ℚ) : ℝ) ≤ 1 / ((val F y : ℚ) : ℝ) := by exact_mod_cast c2
  have c3' : 1 / ((val F y : ℚ) : ℝ) < ((val F r : ℚ) : ℝ) + ((ulp F : ℚ) : ℝ) := by exact_mod_cast c3
  have hrS : Storable F r := h.st (by
    rw [← rv_eq, abs_of_nonneg c1']
    exact le_trans c2' (le_trans b1 (by norm_num; linarith)))
  refine ⟨r, ?_, by linarith, by linarith⟩
  have e0 : ofInt F 0 = 0 := by rw [ofInt_eq F h.sw.valid, zero_mul]; exact h.sw.wrap_ok h.sw.zero_in
  have e1 : ofInt F 1 = 2 ^ F.f := by rw [ofInt_eq F h.sw.valid, one_mul]; exact h.sw.wrap_ok h.sw.one
  unfold exp at ey ⊢
  rw [e0, e1] at ey ⊢
  rw [if_neg (by rw [eq_iff]; omega), if_neg (by rw [lt_iff]; omega)] at ey
  rw [if_neg (by rw [eq_iff]; omega), if_pos (by rw [lt_iff]; omega), h.sw.neg_ok hS, Res.bind_ok, ey, Res.bind_ok,
    h.sw.div_ok h.r h.sw.one hy0 (by rw [hrd]; exact hrS), hrd]
example : exp ⟨i64, i128, 40, false⟩ (-5 * 2 ^ 39) = .ok 106386250138 ∧ Storable ⟨i64, i128, 40, false⟩ (5 * 2 ^ 39) := by decide +kernel

end Eirin.Props
