import Verif.Lemmas.Log2
import Mathlib.Data.Real.Basic
import Mathlib.Tactic.FieldSimp

/-! # Error propagation through the library operations

`Ap F z X k` says that the raw value `z` is storable and represents the real number `X` up to `k` ulps. -/

namespace Eirin
open Spec

/-- The real number represented by a raw value. -/
noncomputable def rv (F : FxTy) (z : Int) : ℝ := (z : ℝ) / 2 ^ F.f

theorem rv_eq (F : FxTy) (z : Int) : ((val F z : ℚ) : ℝ) = rv F z := by unfold val rv; push_cast; rfl

/-- One ulp as a real number. -/
noncomputable def uR (F : FxTy) : ℝ := 1 / 2 ^ F.f

theorem uR_eq (F : FxTy) : ((ulp F : ℚ) : ℝ) = uR F := by unfold ulp uR; push_cast; rfl
theorem uR_pos (F : FxTy) : 0 < uR F := by unfold uR; positivity
theorem rv_u (F : FxTy) (z : Int) : rv F z = z * uR F := by unfold rv uR; ring
theorem u_mul (F : FxTy) : (2 : ℝ) ^ F.f * uR F = 1 := by unfold uR; field_simp
theorem rv_add (F : FxTy) (a b : Int) : rv F (a + b) = rv F a + rv F b := by unfold rv; push_cast; ring
theorem rv_sub (F : FxTy) (a b : Int) : rv F (a - b) = rv F a - rv F b := by unfold rv; push_cast; ring
theorem rv_neg (F : FxTy) (a : Int) : rv F (-a) = -rv F a := by unfold rv; push_cast; ring
theorem rv_int (F : FxTy) (a : Int) : rv F (a * 2 ^ F.f) = a := by unfold rv; push_cast; field_simp
theorem rv_le (F : FxTy) {a b : Int} : rv F a ≤ rv F b ↔ a ≤ b := by
  unfold rv; rw [div_le_div_iff_of_pos_right (by positivity)]; exact_mod_cast Iff.rfl
theorem rv_lt (F : FxTy) {a b : Int} : rv F a < rv F b ↔ a < b := by
  unfold rv; rw [div_lt_div_iff_of_pos_right (by positivity)]; exact_mod_cast Iff.rfl

theorem Lib.u_le {F : FxTy} (h : Lib F) : uR F ≤ 1 / 65536 := by
  unfold uR
  apply div_le_div_of_nonneg_left (by norm_num) (by norm_num)
  have : (2 : ℝ) ^ 16 ≤ 2 ^ F.f := pow_le_pow_right₀ (by norm_num) (by rcases h.f with e | e <;> omega)
  norm_num at this ⊢; exact this

theorem Lib.st {F : FxTy} (h : Lib F) {z : Int} (hz : |rv F z| ≤ 32767) : Storable F z := by
  unfold rv at hz
  rw [abs_div, abs_of_pos (by positivity : (0 : ℝ) < 2 ^ F.f), div_le_iff₀ (by positivity)] at hz
  have hz' : |z| ≤ 32767 * 2 ^ F.f := by exact_mod_cast hz
  rw [abs_le] at hz'
  have h1 := h.p15
  have h2 := h.half_pow
  have h3 : (0 : Int) < 2 ^ F.f := by positivity
  apply h.inR
  · rw [h2]; nlinarith
  · rw [h2]; nlinarith

/-- `z` is storable and represents `X` up to `k` ulps. -/
structure Ap (F : FxTy) (z : Int) (X k : ℝ) : Prop where
  st : Storable F z
  er : |rv F z - X| ≤ k * uR F

namespace Ap
variable {F : FxTy} (h : Lib F)

theorem k_nonneg {z : Int} {X k : ℝ} (a : Ap F z X k) : 0 ≤ k := by
  have := le_trans (abs_nonneg _) a.er
  by_contra hc
  push Not at hc
  have := mul_neg_of_neg_of_pos hc (uR_pos F)
  linarith

theorem exact {z : Int} (hz : Storable F z) : Ap F z (rv F z) 0 := ⟨hz, by simp⟩

theorem mono {z : Int} {X k k' : ℝ} (a : Ap F z X k) (hk : k ≤ k') : Ap F z X k' :=
  ⟨a.st, le_trans a.er (mul_le_mul_of_nonneg_right hk (uR_pos F).le)⟩

include h

theorem le_add {z : Int} {X k M : ℝ} (a : Ap F z X k) (hX : |X| ≤ M) : |rv F z| ≤ M + k / 65536 := by
  have h1 : |rv F z| ≤ |rv F z - X| + |X| := by
    have := abs_add_le (rv F z - X) X; simpa using this
  have h2 := a.er
  have h3 : k * uR F ≤ k * (1 / 65536) := mul_le_mul_of_nonneg_left h.u_le a.k_nonneg
  linarith

theorem of_er {z : Int} {X k M : ℝ} (h1 : |rv F z - X| ≤ k * uR F) (hk : 0 ≤ k) (hX : |X| ≤ M) (hM : M + k / 65536 ≤ 32767) : Ap F z X k := by
  refine ⟨h.st ?_, h1⟩
  have h2 : |rv F z| ≤ |rv F z - X| + |X| := by
    have := abs_add_le (rv F z - X) X; simpa using this
  have h3 : k * uR F ≤ k * (1 / 65536) := mul_le_mul_of_nonneg_left h.u_le hk
  linarith

theorem add {x y : Int} {X Y a b M : ℝ} (hx : Ap F x X a) (hy : Ap F y Y b) (hM : |X + Y| ≤ M) (hR : M + (a + b) / 65536 ≤ 32767) :
    Eirin.add F x y = .ok (x + y) ∧ Ap F (x + y) (X + Y) (a + b) := by
  have e : |rv F (x + y) - (X + Y)| ≤ (a + b) * uR F := by
    rw [rv_add, show rv F x + rv F y - (X + Y) = (rv F x - X) + (rv F y - Y) by ring, add_mul]
    exact le_trans (abs_add_le _ _) (add_le_add hx.er hy.er)
  have hz := of_er h e (add_nonneg hx.k_nonneg hy.k_nonneg) hM hR
  exact ⟨h.sw.add_ok hz.st, hz⟩

theorem sub {x y : Int} {X Y a b M : ℝ} (hx : Ap F x X a) (hy : Ap F y Y b) (hM : |X - Y| ≤ M) (hR : M + (a + b) / 65536 ≤ 32767) :
    Eirin.sub F x y = .ok (x - y) ∧ Ap F (x - y) (X - Y) (a + b) := by
  have e : |rv F (x - y) - (X - Y)| ≤ (a + b) * uR F := by
    rw [rv_sub, show rv F x - rv F y - (X - Y) = (rv F x - X) - (rv F y - Y) by ring, add_mul]
    exact le_trans (abs_sub _ _) (add_le_add hx.er hy.er)
  have hz := of_er h e (add_nonneg hx.k_nonneg hy.k_nonneg) hM hR
  exact ⟨h.sw.sub_ok hz.st, hz⟩

theorem neg {x : Int} {X a M : ℝ} (hx : Ap F x X a) (hM : |X| ≤ M) (hR : M + a / 65536 ≤ 32767) :
    Eirin.neg F x = .ok (-x) ∧ Ap F (-x) (-X) a := by
  have e : |rv F (-x) - (-X)| ≤ a * uR F := by
    rw [rv_neg, show -rv F x - -X = -(rv F x - X) by ring, abs_neg]; exact hx.er
  have hz := of_er h e hx.k_nonneg (by rw [abs_neg]; exact hM) hR
  exact ⟨h.sw.neg_ok hz.st, hz⟩

theorem mul {x y : Int} {X Y a b : ℝ} (M N K : ℝ) (hx : Ap F x X a) (hy : Ap F y Y b) (hM : |X| ≤ M) (hN : |Y| ≤ N)
    (hK : M * b + N * a + a * b / 65536 + 1 ≤ K) (hR : M * N + K / 65536 ≤ 32767) :
    Eirin.mul F x y = .ok (x * y / 2 ^ F.f) ∧ Ap F (x * y / 2 ^ F.f) (X * Y) K := by
  have hp : (0 : Int) < 2 ^ F.f := by positivity
  have hu := uR_pos F
  have ha := hx.k_nonneg
  have hb := hy.k_nonneg
  have hM0 := le_trans (abs_nonneg _) hM
  have hN0 := le_trans (abs_nonneg _) hN
  have e1 : |rv F (x * y / 2 ^ F.f) - rv F x * rv F y| ≤ uR F := by
    have d1 := Int.ediv_mul_le (x * y) hp.ne'
    have d2 := Int.lt_ediv_add_one_mul_self (x * y) hp
    generalize x * y / 2 ^ F.f = q at d1 d2
    have d1' : (q : ℝ) * 2 ^ F.f ≤ x * y := by exact_mod_cast d1
    have d2' : (x : ℝ) * y < (q + 1) * 2 ^ F.f := by exact_mod_cast d2
    rw [rv_u, rv_u, rv_u]
    have hum := u_mul F
    have e : (q : ℝ) * uR F - x * uR F * (y * uR F) = (q * 2 ^ F.f - x * y) * uR F * uR F := by
      have : (q : ℝ) * uR F = q * uR F * (2 ^ F.f * uR F) := by rw [hum, mul_one]
      rw [this]; ring
    rw [e, abs_le]
    have t : |(q : ℝ) * 2 ^ F.f - x * y| ≤ 2 ^ F.f := by rw [abs_le]; constructor <;> linarith
    have t2 : |((q : ℝ) * 2 ^ F.f - x * y) * uR F * uR F| ≤ uR F := by
      rw [abs_mul, abs_mul, abs_of_pos hu]
      calc |(q : ℝ) * 2 ^ F.f - x * y| * uR F * uR F ≤ 2 ^ F.f * uR F * uR F := by
            apply mul_le_mul_of_nonneg_right _ hu.le
            exact mul_le_mul_of_nonneg_right t hu.le
        _ = uR F := by rw [hum, one_mul]
    exact abs_le.1 t2
  have e2 : |rv F x * rv F y - X * Y| ≤ (M * b + N * a + a * b / 65536) * uR F := by
    rw [show rv F x * rv F y - X * Y = X * (rv F y - Y) + Y * (rv F x - X) + (rv F x - X) * (rv F y - Y) by ring]
    refine le_trans (abs_add_three _ _ _) ?_
    rw [abs_mul, abs_mul, abs_mul]
    have t1 : |X| * |rv F y - Y| ≤ M * (b * uR F) := mul_le_mul hM hy.er (abs_nonneg _) hM0
    have t2 : |Y| * |rv F x - X| ≤ N * (a * uR F) := mul_le_mul hN hx.er (abs_nonneg _) hN0
    have t3 : |rv F x - X| * |rv F y - Y| ≤ (a * uR F) * (b * uR F) := mul_le_mul hx.er hy.er (abs_nonneg _) (by positivity)
    have t4 : (a * uR F) * (b * uR F) ≤ a * b / 65536 * uR F := by
      have : a * b * uR F * uR F ≤ a * b * uR F * (1 / 65536) := mul_le_mul_of_nonneg_left h.u_le (by positivity)
      linarith
    linarith
  have e : |rv F (x * y / 2 ^ F.f) - X * Y| ≤ K * uR F := by
    have t := abs_sub_le (rv F (x * y / 2 ^ F.f)) (rv F x * rv F y) (X * Y)
    have : (M * b + N * a + a * b / 65536 + 1) * uR F ≤ K * uR F := mul_le_mul_of_nonneg_right hK hu.le
    linarith
  have hK0 : 0 ≤ K := by
    have : 0 ≤ M * b + N * a + a * b / 65536 + 1 := by positivity
    linarith
  have hz := of_er h e hK0 (by rw [abs_mul]; exact mul_le_mul hM hN (abs_nonneg _) hM0) hR
  exact ⟨h.sw.mul_ok h.r hx.st hy.st hz.st, hz⟩

theorem divInt {x : Int} {X a : ℝ} (n : Int) (K : ℝ) (hx : Ap F x X a) (hn : 0 < n) (hn2 : n < 2 ^ 31) (hK : a / n + 1 ≤ K) :
    Eirin.divInt F i32 x n = .ok (Int.tdiv x n) ∧ Ap F (Int.tdiv x n) (X / n) K := by
  refine ⟨h.sw.divInt_ok hx.st hn hn2, h.sw.tdiv_inRange hx.st hn, ?_⟩
  have hn' : (0 : ℝ) < n := by exact_mod_cast hn
  have hu := uR_pos F
  have e1 : |rv F (Int.tdiv x n) - rv F x / n| ≤ uR F := by
    have t : |(Int.tdiv x n : ℝ) * n - x| ≤ n := by
      obtain ⟨d1, d2⟩ := tdiv_mul_spec x hn
      rcases le_total 0 x with h0 | h0
      · obtain ⟨_, a, b⟩ := d1 h0
        have a' : (Int.tdiv x n : ℝ) * n ≤ x := by exact_mod_cast a
        have b' : (x : ℝ) < Int.tdiv x n * n + n := by exact_mod_cast b
        rw [abs_le]; constructor <;> linarith
      · obtain ⟨_, a, b⟩ := d2 h0
        have a' : (x : ℝ) ≤ Int.tdiv x n * n := by exact_mod_cast a
        have b' : (Int.tdiv x n * n : ℝ) - n < x := by exact_mod_cast b
        rw [abs_le]; constructor <;> linarith
    rw [rv_u, rv_u, show (Int.tdiv x n : ℝ) * uR F - x * uR F / n = ((Int.tdiv x n : ℝ) * n - x) / n * uR F by field_simp,
      abs_mul, abs_div, abs_of_pos hn', abs_of_pos hu]
    have : |(Int.tdiv x n : ℝ) * n - x| / n ≤ 1 := by rw [div_le_one hn']; exact t
    have := mul_le_mul_of_nonneg_right this hu.le
    linarith
  have e2 : |rv F x / n - X / n| ≤ a / n * uR F := by
    rw [← sub_div, abs_div, abs_of_pos hn', div_mul_eq_mul_div]
    exact div_le_div_of_nonneg_right hx.er hn'.le
  have t := abs_sub_le (rv F (Int.tdiv x n)) (rv F x / n) (X / n)
  have : (a / n + 1) * uR F ≤ K * uR F := mul_le_mul_of_nonneg_right hK hu.le
  linarith

end Ap
end Eirin
