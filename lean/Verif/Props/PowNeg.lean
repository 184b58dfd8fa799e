import Verif.Props.PowAll
import Mathlib.Data.Nat.Digits.Defs

/-! # C129: negative integer powers of arbitrary non-zero bases -/

namespace Eirin.Props
open Spec

/-- Spec: the number of ones in the binary representation of `n`. -/
def popcount (n : Nat) : Nat := (Nat.digits 2 n).sum

theorem popcount_step {e : Nat} (h : e ≠ 0) : popcount e = e % 2 + popcount (e / 2) := by
  unfold popcount
  rw [Nat.digits_def' (by norm_num) (by omega), List.sum_cons]

theorem storable_neg {F : FxTy} (hs : F.T.signed = true) {z : Int} (h0 : 0 ≤ z) (h : Storable F z) : Storable F (-z) := by
  obtain ⟨h1, h2⟩ := h
  unfold IntTy.lo at h1; unfold IntTy.hi at h2
  rw [hs] at h1 h2
  simp only [if_true] at h1 h2
  constructor
  · unfold IntTy.lo; rw [hs]; simp only [if_true]; omega
  · unfold IntTy.hi; rw [hs]; simp only [if_true]
    have : (0 : Int) < 2 ^ (F.T.bits - 1) := by positivity
    omega

/-- Quotients of non-negative values, and their sign. -/
theorem pw_div {F : FxTy} (hF : F.Valid) (hr : F.r = false) {x y : Int} (hx : Storable F x) (x0 : 0 ≤ x) (y0 : 0 < y)
    (hfit : val F x ≤ val F F.T.hi * val F y) :
    ∃ z, divAssign F x y = .ok z ∧ Storable F z ∧ 0 ≤ z ∧ val F z * val F y ≤ val F x ∧ val F x < (val F z + ulp F) * val F y ∧
      (F.T.signed = true → divAssign F (-x) y = .ok (-z) ∧ divAssign F x (-y) = .ok (-z)) := by
  have hp : (0 : Int) < 2 ^ F.f := by positivity
  have hq : (0 : ℚ) < 2 ^ F.f := by positivity
  have hyq : (0 : ℚ) < y := by exact_mod_cast y0
  have d : ∀ a b, divAssign F a b = div F a b := fun _ _ => rfl
  have hn0 : 0 ≤ x * 2 ^ F.f := by positivity
  have et : Int.tdiv (x * 2 ^ F.f) y = x * 2 ^ F.f / y := Int.tdiv_eq_ediv_of_nonneg hn0
  have e1 := Int.ediv_mul_le (x * 2 ^ F.f) y0.ne'
  have e2 := Int.lt_ediv_add_one_mul_self (x * 2 ^ F.f) y0
  have z0 : 0 ≤ x * 2 ^ F.f / y := Int.ediv_nonneg hn0 y0.le
  generalize hz : x * 2 ^ F.f / y = z at *
  have v1 : val F z * val F y ≤ val F x := by
    unfold val
    rw [div_mul_div_comm, div_le_div_iff₀ (by positivity) hq]
    have e1' : (z : ℚ) * y ≤ x * 2 ^ F.f := by exact_mod_cast e1
    nlinarith
  have v2 : val F x < (val F z + ulp F) * val F y := by
    unfold val ulp
    rw [← add_div, div_mul_div_comm, div_lt_div_iff₀ hq (by positivity)]
    have e2' : (x : ℚ) * 2 ^ F.f < ((z : ℚ) + 1) * y := by exact_mod_cast e2
    nlinarith
  have vy : 0 < val F y := by unfold val; positivity
  have hin : F.T.InRange z := ⟨le_trans (by
    unfold IntTy.lo; split <;> [exact neg_nonpos.2 (by positivity); exact le_rfl]) z0,
    (val_le (F := F)).1 (le_of_mul_le_mul_right (le_trans v1 hfit) vy)⟩
  refine ⟨z, by rw [d, div_nf hF hr hx, if_neg y0.ne', et, IntTy.wrap_of_inRange hF.tpos hin], hin, z0, v1, v2, fun hs => ⟨?_, ?_⟩⟩
  · rw [d, div_nf hF hr (storable_neg hs x0 hx), if_neg y0.ne', neg_mul, Int.neg_tdiv, et,
      IntTy.wrap_of_inRange hF.tpos (storable_neg hs z0 hin)]
  · rw [d, div_nf hF hr hx, if_neg (by omega), Int.tdiv_neg, et, IntTy.wrap_of_inRange hF.tpos (storable_neg hs z0 hin)]

/-- One pass of the loop. -/
theorem powNeg_step {F : FxTy} (n : Nat) {e : Nat} {i res res' i' : Int} (h0 : e ≠ 0)
    (er : (if e % 2 ≠ 0 then divAssign F res i else pure res) = .ok res') (ei : mulAssign F i i = .ok i') :
    powNegLoop F (n + 1) (-(e : Int)) i res = powNegLoop F n (-((e / 2 : Nat) : Int)) i' res' := by
  have he0 : -((e : Nat) : Int) ≠ 0 := by omega
  have t1 : Int.tmod (-(e : Int)) 2 = -((e % 2 : Nat) : Int) := by
    rw [Int.neg_tmod, (tmod2 (by positivity)).1]; norm_num
  have t2 : Int.tdiv (-(e : Int)) 2 = -((e / 2 : Nat) : Int) := by
    rw [Int.neg_tdiv, (tmod2 (by positivity)).2]; norm_num
  rw [powNegLoop, if_pos he0, t1, t2]
  rcases Nat.mod_two_eq_zero_or_one e with h2 | h2
  · rw [h2] at er ⊢
    simp only [Nat.cast_zero, ne_eq, not_true_eq_false, if_false, Res.pure_eq, Res.bind_ok, neg_zero] at er ⊢
    rw [ei, Res.bind_ok, Res.ok.inj er]
  · rw [h2] at er ⊢
    simp only [Nat.cast_one, ne_eq, one_ne_zero, not_false_eq_true, if_true, neg_eq_zero] at er ⊢
    rw [er, Res.bind_ok, ei, Res.bind_ok]

theorem powNeg_zero (F : FxTy) (n : Nat) (i res : Int) : powNegLoop F (n + 1) (-((0 : Nat) : Int)) i res = .ok res := by
  rw [powNegLoop, if_neg (by simp)]

/-- The loop for bases of at least one: `G` and `M` are the exact values `i` and `res` stand for. -/
theorem powNeg_big {F : FxTy} (hF : F.Valid) (hr : F.r = false) (fuel : Nat) : ∀ (e : Nat) (i res : Int) (G M δ ρ σ : ℚ), e < 2 ^ fuel →
    Storable F i → Storable F res → (e ≠ 0 → 2 ^ F.f ≤ i ∧ val F i ≤ G ∧ G * (1 - δ * ulp F) ≤ val F i) →
    0 ≤ res → M - ρ * ulp F ≤ val F res → val F res * (1 - σ * ulp F) ≤ M → 1 ≤ G → 0 ≤ M → 0 ≤ δ → 0 ≤ ρ → 0 ≤ σ →
    (∀ k, 2 ^ k ≤ e → G ^ 2 ^ k ≤ val F F.T.hi) →
    ∃ p, powNegLoop F (fuel + 1) (-(e : Int)) i res = .ok p ∧ Storable F p ∧ 0 ≤ p ∧ M / G ^ e - (ρ + popcount e) * ulp F ≤ val F p ∧
      val F p * (1 - (σ + e * (δ + 1)) * ulp F) ≤ M / G ^ e ∧
      (F.T.signed = true → powNegLoop F (fuel + 1) (-(e : Int)) i (-res) = .ok (-p)) := by
  have hu : 0 < ulp F := by unfold ulp; positivity
  have hp : (0 : Int) < 2 ^ F.f := by positivity
  induction fuel with
  | zero =>
    intro e i res G M δ ρ σ he _ hrS _ r0 r1 r2 _ _ _ _ _ _
    obtain rfl : e = 0 := by simpa using he
    refine ⟨res, powNeg_zero F 0 i res, hrS, r0, by simpa [popcount] using r1, by simpa using r2, fun _ => powNeg_zero F 0 i (-res)⟩
  | succ n ih =>
    intro e i res G M δ ρ σ he hiS hrS hi r0 r1 r2 hG hM hδ hρ hσ hfit
    by_cases h0 : e = 0
    · subst h0
      exact ⟨res, powNeg_zero F _ i res, hrS, r0, by simpa [popcount] using r1, by simpa using r2, fun _ => powNeg_zero F _ i (-res)⟩
    obtain ⟨i0, i1, i2⟩ := hi h0
    have hG0 : 0 < G := by linarith
    have vi : 1 ≤ val F i := by
      unfold val; rw [le_div_iff₀ (by positivity), one_mul]; exact_mod_cast i0
    have vr : 0 ≤ val F res := by rw [← val_zero F, val_le]; exact r0
    have hres : ∃ res', (if e % 2 ≠ 0 then divAssign F res i else pure res) = .ok res' ∧ Storable F res' ∧ 0 ≤ res' ∧
        M / G ^ (e % 2) - (ρ + (e % 2 : Nat)) * ulp F ≤ val F res' ∧
        val F res' * (1 - (σ + (e % 2 : Nat) * δ) * ulp F) ≤ M / G ^ (e % 2) ∧
        (F.T.signed = true → (if e % 2 ≠ 0 then divAssign F (-res) i else pure (-res)) = .ok (-res')) := by
      rcases Nat.mod_two_eq_zero_or_one e with h2 | h2
      · refine ⟨res, by rw [h2]; rfl, hrS, r0, ?_, ?_, fun _ => by rw [h2]; rfl⟩
        · rw [h2]; simpa using r1
        · rw [h2]; simpa using r2
      · have hh : val F res ≤ val F F.T.hi * val F i := by
          have h3 : val F res ≤ val F F.T.hi := (val_le (F := F)).2 hrS.2
          nlinarith
        obtain ⟨z, hz, hzS, z0, z1, z2, z3⟩ := pw_div hF hr hrS r0 (lt_of_lt_of_le hp i0) hh
        have vz : 0 ≤ val F z := by rw [← val_zero F, val_le]; exact z0
        refine ⟨z, by rw [h2]; exact hz, hzS, z0, ?_, ?_, fun hs => by rw [h2]; exact (z3 hs).1⟩
        · rw [h2, pow_one, Nat.cast_one, sub_le_iff_le_add, div_le_iff₀ hG0]
          have h5 : val F res < (val F z + ulp F) * G := lt_of_lt_of_le z2 (mul_le_mul_of_nonneg_left i1 (by linarith))
          have h6 : ρ * ulp F ≤ ρ * ulp F * G := le_mul_of_one_le_right (by positivity) hG
          nlinarith
        · rw [h2, pow_one, Nat.cast_one, le_div_iff₀ hG0, one_mul]
          rcases le_or_gt (σ * ulp F) 1 with hc | hc
          · have h5 : val F z * (G * (1 - δ * ulp F)) ≤ val F res := le_trans (mul_le_mul_of_nonneg_left i2 vz) z1
            have h6 : val F z * (G * (1 - δ * ulp F)) * (1 - σ * ulp F) ≤ val F res * (1 - σ * ulp F) :=
              mul_le_mul_of_nonneg_right h5 (by linarith)
            have h7 : 0 ≤ val F z * G * (δ * ulp F * (σ * ulp F)) := by positivity
            nlinarith
          · have h5 : 1 - (σ + δ) * ulp F ≤ 0 := by nlinarith [mul_nonneg hδ hu.le]
            have h6 : 0 ≤ val F z * G := by positivity
            nlinarith
    obtain ⟨res', er, hrS', r0', r1', r2', er'⟩ := hres
    have hsq : ∃ i', mulAssign F i i = .ok i' ∧ Storable F i' ∧
        (e / 2 ≠ 0 → 2 ^ F.f ≤ i' ∧ val F i' ≤ G ^ 2 ∧ G ^ 2 * (1 - (2 * δ + 1) * ulp F) ≤ val F i') := by
      by_cases h2 : e / 2 = 0
      · exact ⟨_, mul_nf hF hr hiS hiS, IntTy.wrap_inRange _ hF.tpos, fun h => absurd h2 h⟩
      · have hle : G * G ≤ val F F.T.hi := by
          have := hfit 1 (by omega)
          rwa [pow_one, pow_two] at this
        have hle' : val F i * val F i ≤ G * G := mul_le_mul i1 i1 (by linarith) hG0.le
        obtain ⟨z, hz, hzS, z0, z1, z2⟩ := pw_mul hF hr hiS hiS (by omega) (by omega) (le_trans hle' hle)
        refine ⟨z, hz, hzS, fun _ => ⟨?_, by rw [pow_two]; linarith, ?_⟩⟩
        · have e1 : mulAssign F i i = mul F i i := rfl
          by_contra hlt
          have h3 : val F z + ulp F ≤ 1 := by
            unfold val ulp
            rw [← add_div, div_le_one (by positivity)]
            have : z + 1 ≤ 2 ^ F.f := by omega
            exact_mod_cast this
          nlinarith
        · have h3 : 0 ≤ val F i * (G * (δ * ulp F)) := by positivity
          have h4 : ulp F ≤ G * G * ulp F := le_mul_of_one_le_left hu.le (by nlinarith)
          have h5 : (G - val F i) * G ≤ G * (δ * ulp F) * G := mul_le_mul_of_nonneg_right (by linarith) hG0.le
          have h6 : val F i * (G - val F i) ≤ G * (G * (δ * ulp F)) := mul_le_mul i1 (by linarith) (by linarith) hG0.le
          rw [pow_two]; nlinarith
    obtain ⟨i', ei, hiS', hi'⟩ := hsq
    have hsplit : M / G ^ (e % 2) / (G ^ 2) ^ (e / 2) = M / G ^ e := by
      rw [div_div, ← pow_mul, ← pow_add]; congr 2; omega
    obtain ⟨p, hp, hpS, p0, p1, p2, p3⟩ := ih (e / 2) i' res' (G ^ 2) (M / G ^ (e % 2)) (2 * δ + 1) (ρ + (e % 2 : Nat)) (σ + (e % 2 : Nat) * δ)
      (by rw [pow_succ] at he; omega) hiS' hrS' hi' r0' r1' r2' (one_le_pow₀ hG) (by positivity) (by linarith) (by positivity) (by positivity) (by
        intro k hk
        rw [← pow_mul, ← pow_succ']
        exact hfit (k + 1) (by rw [pow_succ]; omega))
    rw [hsplit] at p1 p2
    have hq : (e : ℚ) = 2 * ((e / 2 : Nat) : ℚ) + ((e % 2 : Nat) : ℚ) := by
      have : e = 2 * (e / 2) + e % 2 := by omega
      exact_mod_cast this
    refine ⟨p, by rw [powNeg_step (n + 1) h0 er ei, hp], hpS, p0, ?_, ?_, fun hs => by
      rw [powNeg_step (n + 1) h0 (er' hs) ei, p3 hs]⟩
    · refine le_trans (le_of_eq ?_) p1
      rw [popcount_step h0]; push_cast; ring
    · refine le_trans ?_ p2
      apply mul_le_mul_of_nonneg_left _ (by rw [← val_zero F, val_le]; exact p0)
      have h3 : (0 : ℚ) ≤ ((e % 2 : Nat) : ℚ) * ulp F := by positivity
      rw [hq]; nlinarith

/-- Real arithmetic of one squaring, relative to `κ`. -/
theorem sq_rel {G v w u δ κ : ℚ} (hG : 0 < G) (i1 : v ≤ G) (i2 : G * (1 - δ * κ) ≤ v)
    (h4 : u ≤ G ^ 2 * κ) (z2 : v * v < w + u) : G ^ 2 * (1 - (2 * δ + 1) * κ) ≤ w := by
  have h5 : (G - v) * G ≤ G * (δ * κ) * G := mul_le_mul_of_nonneg_right (by linarith) hG.le
  have h6 : v * (G - v) ≤ G * (G * (δ * κ)) := mul_le_mul i1 (by linarith) (by linarith) hG.le
  nlinarith

/-- The quotient of a step fits. -/
theorem quot_fits {G M r v hi δ σ κ E : ℚ} {e : Nat} (hG : 0 < G) (hG1 : G ≤ 1) (hM : 0 ≤ M) (hhi : 0 ≤ hi) (hδκ : 0 ≤ δ * κ) (hσκ : 0 ≤ σ * κ)
    (hσ1 : σ * κ < 1) (h0 : e ≠ 0) (hE : σ * κ + δ * κ ≤ E) (i2 : G * (1 - δ * κ) ≤ v) (r2 : r * (1 - σ * κ) ≤ M) (hfit : M / G ^ e ≤ hi * (1 - E)) :
    r ≤ hi * v := by
  have h3 : r * (1 - σ * κ) ≤ hi * v * (1 - σ * κ) := by
    have a1 : M ≤ M / G ^ e * G := by
      rw [div_mul_eq_mul_div, le_div_iff₀ (by positivity)]
      apply mul_le_mul_of_nonneg_left _ hM
      calc G ^ e ≤ G ^ 1 := pow_le_pow_of_le_one hG.le hG1 (by omega)
        _ = G := pow_one G
    have a2 : M ≤ hi * (1 - E) * G := le_trans a1 (mul_le_mul_of_nonneg_right hfit hG.le)
    have a3 : (1 - E) * G ≤ v * (1 - σ * κ) := by
      have b1 : 1 - E ≤ (1 - δ * κ) * (1 - σ * κ) := by nlinarith [mul_nonneg hδκ hσκ]
      calc (1 - E) * G ≤ (1 - δ * κ) * (1 - σ * κ) * G := mul_le_mul_of_nonneg_right b1 hG.le
        _ = G * (1 - δ * κ) * (1 - σ * κ) := by ring
        _ ≤ v * (1 - σ * κ) := mul_le_mul_of_nonneg_right i2 (by linarith)
    calc r * (1 - σ * κ) ≤ M := r2
      _ ≤ hi * ((1 - E) * G) := by rw [← mul_assoc]; exact a2
      _ ≤ hi * (v * (1 - σ * κ)) := mul_le_mul_of_nonneg_left a3 hhi
      _ = _ := by ring
  exact le_of_mul_le_mul_right h3 (by linarith)

/-- Real arithmetic of one division, relative to `κ`. -/
theorem quot_rel {G M r z v δ σ κ : ℚ} (hG : 0 < G) (z0 : 0 ≤ z) (hδκ : 0 ≤ δ * κ) (hσκ : 0 ≤ σ * κ)
    (hσ1 : σ * κ < 1) (i2 : G * (1 - δ * κ) ≤ v) (r2 : r * (1 - σ * κ) ≤ M) (z1 : z * v ≤ r) : z * (1 - (σ + δ) * κ) * G ≤ M := by
  have h5 : z * (G * (1 - δ * κ)) ≤ r := le_trans (mul_le_mul_of_nonneg_left i2 z0) z1
  have h6 : z * (G * (1 - δ * κ)) * (1 - σ * κ) ≤ r * (1 - σ * κ) := mul_le_mul_of_nonneg_right h5 (by linarith)
  have h7 : 0 ≤ z * G * (δ * κ * (σ * κ)) := by positivity
  nlinarith

/-- The loop for bases of at most one; `κ` bounds the relative size of an ulp in all squares used. -/
theorem powNeg_small {F : FxTy} (hF : F.Valid) (hr : F.r = false) (h1 : 1 ≤ val F F.T.hi) {κ : ℚ} (hκ : 0 ≤ κ) (fuel : Nat) :
    ∀ (e : Nat) (i res : Int) (G M δ ρ σ : ℚ), e < 2 ^ fuel →
    Storable F i → Storable F res → 0 ≤ i → val F i ≤ G → G * (1 - δ * κ) ≤ val F i →
    0 ≤ res → M * (1 - ρ * ulp F) ≤ val F res → val F res * (1 - σ * κ) ≤ M → 0 < G → G ≤ 1 → 1 ≤ M → 0 ≤ δ → 0 ≤ ρ → 0 ≤ σ →
    (∀ j, j ≤ e → ulp F ≤ G ^ j * κ) → (σ + e * (δ + 1)) * κ < 1 → M / G ^ e ≤ val F F.T.hi * (1 - (σ + e * (δ + 1)) * κ) →
    ∃ p, powNegLoop F (fuel + 1) (-(e : Int)) i res = .ok p ∧ Storable F p ∧ 0 ≤ p ∧ M / G ^ e * (1 - (ρ + popcount e) * ulp F) ≤ val F p ∧
      val F p * (1 - (σ + e * (δ + 1)) * κ) ≤ M / G ^ e ∧
      (F.T.signed = true → powNegLoop F (fuel + 1) (-(e : Int)) i (-res) = .ok (-p)) := by
  have hu : 0 < ulp F := by unfold ulp; positivity
  induction fuel with
  | zero =>
    intro e i res G M δ ρ σ he _ hrS _ _ _ r0 r1 r2 _ _ _ _ _ _ _ _ _
    obtain rfl : e = 0 := by simpa using he
    refine ⟨res, powNeg_zero F 0 i res, hrS, r0, by simpa [popcount] using r1, by simpa using r2, fun _ => powNeg_zero F 0 i (-res)⟩
  | succ n ih =>
    intro e i res G M δ ρ σ he hiS hrS i0 i1 i2 r0 r1 r2 hG hG1 hM hδ hρ hσ hK hlt hfit
    by_cases h0 : e = 0
    · subst h0
      exact ⟨res, powNeg_zero F _ i res, hrS, r0, by simpa [popcount] using r1, by simpa using r2, fun _ => powNeg_zero F _ i (-res)⟩
    have he1 : (1 : ℚ) ≤ e := by exact_mod_cast Nat.one_le_iff_ne_zero.2 h0
    have hδκ : 0 ≤ δ * κ := by positivity
    have hσκ : 0 ≤ σ * κ := by positivity
    have hsd : (σ + (δ + 1)) * κ < 1 := by
      refine lt_of_le_of_lt (mul_le_mul_of_nonneg_right ?_ hκ) hlt
      nlinarith
    have hE : σ * κ + δ * κ ≤ (σ + e * (δ + 1)) * κ := by
      have : (σ + (δ + 1)) * κ ≤ (σ + e * (δ + 1)) * κ := mul_le_mul_of_nonneg_right (by nlinarith) hκ
      linarith
    have hσ1 : σ * κ < 1 := by linarith
    have vi : 0 < val F i := lt_of_lt_of_le (mul_pos hG (by linarith)) i2
    have i0' : 0 < i := by
      by_contra hc
      have : i = 0 := by omega
      rw [this, val_zero] at vi; exact lt_irrefl _ vi
    have vr : 0 ≤ val F res := by rw [← val_zero F, val_le]; exact r0
    have hhi : 0 ≤ val F F.T.hi := by linarith
    have hres : ∃ res', (if e % 2 ≠ 0 then divAssign F res i else pure res) = .ok res' ∧ Storable F res' ∧ 0 ≤ res' ∧
        M / G ^ (e % 2) * (1 - (ρ + (e % 2 : Nat)) * ulp F) ≤ val F res' ∧
        val F res' * (1 - (σ + (e % 2 : Nat) * δ) * κ) ≤ M / G ^ (e % 2) ∧
        (F.T.signed = true → (if e % 2 ≠ 0 then divAssign F (-res) i else pure (-res)) = .ok (-res')) := by
      rcases Nat.mod_two_eq_zero_or_one e with h2 | h2
      · refine ⟨res, by rw [h2]; rfl, hrS, r0, ?_, ?_, fun _ => by rw [h2]; rfl⟩
        · rw [h2]; simpa using r1
        · rw [h2]; simpa using r2
      · have hh : val F res ≤ val F F.T.hi * val F i :=
          quot_fits hG hG1 (by linarith) hhi hδκ hσκ hσ1 h0 hE i2 r2 hfit
        obtain ⟨z, hz, hzS, z0, z1, z2, z3⟩ := pw_div hF hr hrS r0 i0' hh
        have vz : 0 ≤ val F z := by rw [← val_zero F, val_le]; exact z0
        refine ⟨z, by rw [h2]; exact hz, hzS, z0, ?_, ?_, fun hs => by rw [h2]; exact (z3 hs).1⟩
        · rw [h2, pow_one, Nat.cast_one, div_mul_eq_mul_div, div_le_iff₀ hG]
          have h5 : val F res < (val F z + ulp F) * G := lt_of_lt_of_le z2 (mul_le_mul_of_nonneg_left i1 (by linarith))
          have h6 : ulp F * G ≤ M * ulp F := by nlinarith
          nlinarith
        · rw [h2, pow_one, Nat.cast_one, le_div_iff₀ hG, one_mul]
          exact quot_rel hG vz hδκ hσκ hσ1 i2 r2 z1
    obtain ⟨res', er, hrS', r0', r1', r2', er'⟩ := hres
    have hle' : val F i * val F i ≤ G * G := mul_le_mul i1 i1 vi.le hG.le
    obtain ⟨i', ei, hiS', i0'', z1, z2⟩ := pw_mul hF hr hiS hiS i0 i0 (by nlinarith)
    have hsplit : M / G ^ (e % 2) / (G ^ 2) ^ (e / 2) = M / G ^ e := by
      rw [div_div, ← pow_mul, ← pow_add]; congr 2; omega
    have hq : (e : ℚ) = 2 * ((e / 2 : Nat) : ℚ) + ((e % 2 : Nat) : ℚ) := by
      have : e = 2 * (e / 2) + e % 2 := by omega
      exact_mod_cast this
    have hσ' : (σ + (e % 2 : Nat) * δ + (e / 2 : Nat) * (2 * δ + 1 + 1)) * κ ≤ (σ + e * (δ + 1)) * κ := by
      apply mul_le_mul_of_nonneg_right _ hκ
      have h3 : (0 : ℚ) ≤ ((e % 2 : Nat) : ℚ) := by positivity
      rw [hq]; nlinarith
    by_cases he2 : e / 2 = 0
    · -- last pass
      have hpow : M / G ^ (e % 2) = M / G ^ e := by rw [show e % 2 = e by omega]
      rw [hpow] at r1' r2'
      have hpc : popcount e = e % 2 := by rw [popcount_step h0, he2]; simp [popcount]
      refine ⟨res', by rw [powNeg_step (n + 1) h0 er ei, he2, powNeg_zero], hrS', r0', ?_, ?_, fun hs => by
        rw [powNeg_step (n + 1) h0 (er' hs) ei, he2, powNeg_zero]⟩
      · rw [hpc]; exact r1'
      · refine le_trans (mul_le_mul_of_nonneg_left ?_ (by rw [← val_zero F, val_le]; exact r0')) r2'
        have := hσ'
        rw [he2] at this
        simp only [Nat.cast_zero, zero_mul, add_zero] at this
        linarith
    have i2' : G ^ 2 * (1 - (2 * δ + 1) * κ) ≤ val F i' := sq_rel hG i1 i2 (hK 2 (by omega)) z2
    obtain ⟨p, hp, hpS, p0, p1, p2, p3⟩ := ih (e / 2) i' res' (G ^ 2) (M / G ^ (e % 2)) (2 * δ + 1) (ρ + (e % 2 : Nat)) (σ + (e % 2 : Nat) * δ)
      (by rw [pow_succ] at he; omega) hiS' hrS' i0'' (by rw [pow_two]; linarith) i2' r0' r1' r2' (by positivity) (pow_le_one₀ hG.le hG1) (by
        rw [le_div_iff₀ (by positivity), one_mul]
        exact le_trans (pow_le_one₀ hG.le hG1) hM) (by linarith) (by positivity) (by positivity) (by
        intro j hj
        rw [← pow_mul]; exact hK _ (by omega)) (lt_of_le_of_lt hσ' hlt) (by
        rw [hsplit]
        exact le_trans hfit (mul_le_mul_of_nonneg_left (by linarith) hhi))
    rw [hsplit] at p1 p2
    refine ⟨p, by rw [powNeg_step (n + 1) h0 er ei, hp], hpS, p0, ?_, ?_, fun hs => by
      rw [powNeg_step (n + 1) h0 (er' hs) ei, p3 hs]⟩
    · refine le_trans (le_of_eq ?_) p1
      rw [popcount_step h0]; push_cast; ring
    · refine le_trans (mul_le_mul_of_nonneg_left ?_ (by rw [← val_zero F, val_le]; exact p0)) p2
      linarith

/-- From the loop to the function, for the base and its negation. -/
theorem powNeg_fun {F : FxTy} (hF : F.Valid) (hr : F.r = false) (h1 : Representable F 1) {b : Int} {n : Nat} {p : Int} (hb : Storable F b)
    (b0 : 0 < b) (hn : n ≠ 0) (hone : F.T.signed = true → n % 2 = 1 → val F (2 ^ F.f) ≤ val F F.T.hi * val F b)
    (hp : powNegLoop F 66 (-(n : Int)) b (2 ^ F.f) = .ok p)
    (hs : F.T.signed = true → powNegLoop F 66 (-(n : Int)) b (-(2 ^ F.f)) = .ok (-p)) :
    powInt F b (-(n : Int)) = .ok p ∧
      (F.T.signed = true → powInt F (-b) (-(n : Int)) = .ok (if n % 2 = 1 then -p else p)) := by
  obtain ⟨e0, e1, oS, ov, _⟩ := pw_start hF h1
  have e : ∀ c : Int, c ≠ 0 → powInt F c (-(n : Int)) = powNegLoop F 66 (-(n : Int)) c (2 ^ F.f) := by
    intro c hc
    unfold powInt
    rw [e0, e1, if_neg (by rw [eq_iff]; exact hc), if_pos (by omega)]
  refine ⟨by rw [e b b0.ne', hp], fun sg => ?_⟩
  have hb' : Storable F (-b) := storable_neg sg b0.le hb
  have hm : mulAssign F b b = .ok _ := mul_nf hF hr hb hb
  have key : mulAssign F (-b) (-b) = mulAssign F b b := by
    show mul F (-b) (-b) = mul F b b
    rw [mul_nf hF hr hb' hb', mul_nf hF hr hb hb, neg_mul_neg]
  rw [e (-b) (by omega)]
  rcases Nat.mod_two_eq_zero_or_one n with h2 | h2
  · rw [h2, if_neg (by norm_num), ← hp, powNeg_step (F := F) 65 hn (res' := 2 ^ F.f) (by rw [if_neg (by omega)]; rfl) (by rw [key]; exact hm),
      powNeg_step (F := F) 65 hn (res' := 2 ^ F.f) (by rw [if_neg (by omega)]; rfl) hm]
  · obtain ⟨z, hz, _, _, _, _, z3⟩ := pw_div hF hr oS (by positivity) b0 (hone sg h2)
    rw [h2, if_pos rfl, ← hs sg, powNeg_step (F := F) 65 hn (res' := -z) (by rw [if_pos (by omega)]; exact (z3 sg).2) (by rw [key]; exact hm),
      powNeg_step (F := F) 65 hn (res' := -z) (by rw [if_pos (by omega)]; exact (z3 sg).1) hm]

/-- C129: a base of at least one to the power `-n`, on every non-rounding type on which the squares the function forms can be represented: the
result is too small by at most one ulp for every one in the binary representation of `n`, and too large by at most `n` ulps relative to itself.  The negated
base gives the same result up to the sign of the power. -/
theorem C129_large_base (F : FxTy) (hF : F.Valid) (hr : F.r = false) (h1 : Representable F 1) (b : Int) (n : Nat) (hb : Storable F b)
    (hb1 : 1 ≤ val F b) (hn : n < 2 ^ 64) (hn0 : n ≠ 0) (hfit : ∀ k, 2 ^ k ≤ n → val F b ^ 2 ^ k ≤ val F F.T.hi) :
    ∃ p, powInt F b (-(n : Int)) = .ok p ∧ Storable F p ∧ 0 ≤ val F p ∧ 1 / val F b ^ n - popcount n * ulp F ≤ val F p ∧
      val F p * (1 - n * ulp F) ≤ 1 / val F b ^ n ∧
      (F.T.signed = true → powInt F (-b) (-(n : Int)) = .ok (if n % 2 = 1 then -p else p)) := by
  obtain ⟨e0, e1, oS, ov, oh⟩ := pw_start hF h1
  have hb2 : 2 ^ F.f ≤ b := by rw [← val_le (F := F), ov]; exact hb1
  have b0 : 0 < b := lt_of_lt_of_le (by positivity) hb2
  obtain ⟨p, hp, hpS, p0, p1, p2, p3⟩ := powNeg_big hF hr 65 n b (2 ^ F.f) (val F b) 1 0 0 0 (lt_trans hn (by norm_num)) hb oS
    (fun _ => ⟨hb2, le_rfl, by simp⟩) (by positivity) (by rw [ov]; simp) (by rw [ov]; simp) hb1 (by norm_num) le_rfl le_rfl le_rfl hfit
  obtain ⟨q1, q2⟩ := powNeg_fun hF hr h1 hb b0 hn0 (fun _ _ => by rw [ov]; nlinarith) hp p3
  exact ⟨p, q1, hpS, by rw [← val_zero F, val_le]; exact p0, by simpa using p1, by simpa using p2, q2⟩

/-- C129: a positive base of at most one to the power `-n`: with `κ = ulp / b^n`, the size of an ulp relative to the smallest
power used, the result is too small by at most one ulp for every one in the binary representation of `n`, and too large by at most `n·κ`, both relative. -/
theorem C129_small_base (F : FxTy) (hF : F.Valid) (hr : F.r = false) (h1 : Representable F 1) (b : Int) (n : Nat) (hb : Storable F b)
    (hb0 : 0 < val F b) (hb1 : val F b ≤ 1) (hn : n < 2 ^ 64) (hn0 : n ≠ 0) (hlt : n * (ulp F / val F b ^ n) < 1)
    (hfit : 1 / val F b ^ n ≤ val F F.T.hi * (1 - n * (ulp F / val F b ^ n))) :
    ∃ p, powInt F b (-(n : Int)) = .ok p ∧ Storable F p ∧ 0 ≤ val F p ∧ 1 / val F b ^ n * (1 - popcount n * ulp F) ≤ val F p ∧
      val F p * (1 - n * (ulp F / val F b ^ n)) ≤ 1 / val F b ^ n ∧
      (F.T.signed = true → powInt F (-b) (-(n : Int)) = .ok (if n % 2 = 1 then -p else p)) := by
  obtain ⟨e0, e1, oS, ov, oh⟩ := pw_start hF h1
  have hu : 0 < ulp F := by unfold ulp; positivity
  have b0 : 0 < b := by
    by_contra hc
    have : val F b ≤ 0 := by rw [← val_zero F, val_le]; omega
    linarith
  have hX : 0 < val F b ^ n := by positivity
  have hκ : 0 ≤ ulp F / val F b ^ n := by positivity
  obtain ⟨p, hp, hpS, p0, p1, p2, p3⟩ := powNeg_small hF hr oh hκ 65 n b (2 ^ F.f) (val F b) 1 0 0 0 (lt_trans hn (by norm_num)) hb oS
    b0.le le_rfl (by simp) (by positivity) (by rw [ov]; simp) (by rw [ov]; simp) hb0 hb1 le_rfl le_rfl le_rfl le_rfl (by
      intro j hj
      rw [← mul_div_assoc, le_div_iff₀ hX, mul_comm (ulp F)]
      exact mul_le_mul_of_nonneg_right (pow_le_pow_of_le_one hb0.le hb1 hj) hu.le) (by simpa using hlt) (by simpa using hfit)
  obtain ⟨q1, q2⟩ := powNeg_fun hF hr h1 hb b0 hn0 (fun _ _ => by
    rw [ov]
    have a1 : 1 / val F b ≤ 1 / val F b ^ n := by
      apply one_div_le_one_div_of_le hX
      calc val F b ^ n ≤ val F b ^ 1 := pow_le_pow_of_le_one hb0.le hb1 (by omega)
        _ = val F b := pow_one _
    have a2 : val F F.T.hi * (1 - n * (ulp F / val F b ^ n)) ≤ val F F.T.hi := by
      have : 0 ≤ (n : ℚ) * (ulp F / val F b ^ n) := by positivity
      nlinarith
    exact (div_le_iff₀ hb0).1 (le_trans a1 (le_trans hfit a2))) hp p3
  exact ⟨p, q1, hpS, by rw [← val_zero F, val_le]; exact p0, by simpa using p1, by simpa using p2, q2⟩

/-- The hypotheses of both theorems hold, e.g. of `1.5` and `0.75` to the power `-5`. -/
example : powInt fixed32 98304 (-5) = .ok 8630 ∧ val fixed32 98304 = 3 / 2 ∧ popcount 5 = 2 ∧
    (∀ k, 2 ^ k ≤ 5 → val fixed32 98304 ^ 2 ^ k ≤ val fixed32 fixed32.T.hi) ∧ powInt fixed32 (-98304) (-5) = .ok (-8630) ∧
    powInt fixed32 49152 (-5) = .ok 276167 ∧ val fixed32 49152 = 3 / 4 ∧
    1 / val fixed32 49152 ^ 5 ≤ val fixed32 fixed32.T.hi * (1 - 5 * (ulp fixed32 / val fixed32 49152 ^ 5)) := by
  refine ⟨by decide +kernel, by norm_num [val, fixed32], by norm_num [popcount], fun k hk => ?_, by decide +kernel, by decide +kernel,
    by norm_num [val, fixed32], by norm_num [val, ulp, fixed32, IntTy.hi, i32]⟩
  have hk2 : k ≤ 2 := by
    by_contra hc
    have : 2 ^ 3 ≤ 2 ^ k := Nat.pow_le_pow_right (by norm_num) (by omega)
    omega
  have h3 : k = 0 ∨ k = 1 ∨ k = 2 := by omega
  rcases h3 with rfl | rfl | rfl <;> norm_num [val, fixed32, IntTy.hi, i32]

end Eirin.Props
