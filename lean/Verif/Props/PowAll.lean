import Verif.Props.Pow

/-! # C109: integer powers of arbitrary non-negative bases -/

namespace Eirin.Props
open Spec

theorem pw_mul {F : FxTy} (hF : F.Valid) (hr : F.r = false) {x y : Int} (hx : Storable F x) (hy : Storable F y) (x0 : 0 ≤ x) (y0 : 0 ≤ y)
    (hfit : val F x * val F y ≤ val F F.T.hi) :
    ∃ z, mulAssign F x y = .ok z ∧ Storable F z ∧ 0 ≤ z ∧ val F z ≤ val F x * val F y ∧ val F x * val F y < val F z + ulp F := by
  have hp : (0 : Int) < 2 ^ F.f := by positivity
  have hq : (0 : ℚ) < 2 ^ F.f := by positivity
  have e : mulAssign F x y = mul F x y := rfl
  have e1 := Int.ediv_mul_le (x * y) hp.ne'
  have e2 := Int.lt_ediv_add_one_mul_self (x * y) hp
  have v : val F x * val F y = ((x * y : Int) : ℚ) / 2 ^ F.f / 2 ^ F.f := by unfold val; push_cast; field_simp
  have z0 : 0 ≤ x * y / 2 ^ F.f := Int.ediv_nonneg (mul_nonneg x0 y0) hp.le
  have v1 : val F (x * y / 2 ^ F.f) ≤ val F x * val F y := by
    rw [v]; unfold val
    apply div_le_div_of_nonneg_right _ hq.le
    rw [le_div_iff₀ hq]; exact_mod_cast e1
  have v2 : val F x * val F y < val F (x * y / 2 ^ F.f) + ulp F := by
    rw [v]; unfold val ulp
    rw [← add_div]
    apply div_lt_div_of_pos_right _ hq
    rw [div_lt_iff₀ hq]; exact_mod_cast e2
  have hin : F.T.InRange (x * y / 2 ^ F.f) := ⟨le_trans (by
    unfold IntTy.lo; split <;> [exact neg_nonpos.2 (by positivity); exact le_rfl]) z0, (val_le (F := F)).1 (le_trans v1 hfit)⟩
  exact ⟨x * y / 2 ^ F.f, by rw [e, mul_nf hF hr hx hy, IntTy.wrap_of_inRange hF.tpos hin], hin, z0, v1, v2⟩

/-- One pass of the loop. -/
theorem powPos_step {F : FxTy} (n : Nat) {e : Nat} {i res res' i' : Int} (h0 : e ≠ 0)
    (er : (if e % 2 ≠ 0 then mulAssign F res i else pure res) = .ok res') (ei : mulAssign F i i = .ok i') :
    powPosLoop F (n + 1) e i res = powPosLoop F n ((e / 2 : Nat) : Int) i' res' := by
  have he0 : ((e : Nat) : Int) ≠ 0 := by exact_mod_cast h0
  have t1 : Int.tmod (e : Int) 2 = ((e % 2 : Nat) : Int) := by rw [(tmod2 (by positivity)).1]; norm_num
  have t2 : Int.tdiv (e : Int) 2 = ((e / 2 : Nat) : Int) := by rw [(tmod2 (by positivity)).2]; norm_num
  rw [powPosLoop, if_pos he0, t1, t2]
  rcases Nat.mod_two_eq_zero_or_one e with h2 | h2
  · rw [h2] at er ⊢
    simp only [Nat.cast_zero, ne_eq, not_true_eq_false, if_false, Res.pure_eq, Res.bind_ok] at er ⊢
    rw [ei, Res.bind_ok, Res.ok.inj er]
  · rw [h2] at er ⊢
    simp only [Nat.cast_one, ne_eq, one_ne_zero, not_false_eq_true, if_true] at er ⊢
    rw [er, Res.bind_ok, ei, Res.bind_ok]

/-- The loop, with a relative error: `G` and `M` are the exact values `i` and `res` stand for. -/
theorem powPos_rel {F : FxTy} (hF : F.Valid) (hr : F.r = false) (fuel : Nat) : ∀ (e : Nat) (i res : Int) (G M δ ρ : ℚ), e < 2 ^ fuel →
    Storable F i → Storable F res → (e ≠ 0 → 0 ≤ i ∧ val F i ≤ G ∧ G * (1 - δ * ulp F) ≤ val F i) →
    0 ≤ res → val F res ≤ M → M * (1 - ρ * ulp F) ≤ val F res → 1 ≤ G → 1 ≤ M → 0 ≤ δ → 0 ≤ ρ → M * G ^ e ≤ val F F.T.hi →
    ∃ p, powPosLoop F (fuel + 1) e i res = .ok p ∧ Storable F p ∧ 0 ≤ p ∧ val F p ≤ M * G ^ e ∧
      M * G ^ e * (1 - (ρ + e * (δ + 1)) * ulp F) ≤ val F p := by
  have hu : 0 < ulp F := by unfold ulp; positivity
  -- one product
  have prod : ∀ (x y : Int) (X Y a b : ℚ), Storable F x → Storable F y → 0 ≤ x → 0 ≤ y → val F x ≤ X → val F y ≤ Y →
      X * (1 - a * ulp F) ≤ val F x → Y * (1 - b * ulp F) ≤ val F y → 1 ≤ X → 1 ≤ Y → 0 ≤ a → 0 ≤ b → X * Y ≤ val F F.T.hi →
      ∃ z, mulAssign F x y = .ok z ∧ Storable F z ∧ 0 ≤ z ∧ val F z ≤ X * Y ∧ X * Y * (1 - (a + b + 1) * ulp F) ≤ val F z := by
    intro x y X Y a b hx hy x0 y0 x1 y1 x2 y2 hX hY ha hb hfit
    have vx : 0 ≤ val F x := by rw [← val_zero F, val_le]; exact x0
    have vy : 0 ≤ val F y := by rw [← val_zero F, val_le]; exact y0
    have hle : val F x * val F y ≤ X * Y := mul_le_mul x1 y1 vy (by linarith)
    obtain ⟨z, hz, hzS, z0, z1, z2⟩ := pw_mul hF hr hx hy x0 y0 (le_trans hle hfit)
    refine ⟨z, hz, hzS, z0, le_trans z1 hle, ?_⟩
    have h1 : (X - val F x) * Y ≤ X * (a * ulp F) * Y := mul_le_mul_of_nonneg_right (by linarith) (by linarith)
    have h2 : val F x * (Y - val F y) ≤ X * (Y * (b * ulp F)) := mul_le_mul x1 (by linarith) (by linarith) (by linarith)
    have h3 : 1 * ulp F ≤ X * Y * ulp F := mul_le_mul_of_nonneg_right (by nlinarith) hu.le
    nlinarith
  induction fuel with
  | zero =>
    intro e i res G M δ ρ he _ hrS _ r0 r1 r2 _ hM _ _ _
    obtain rfl : e = 0 := by simpa using he
    refine ⟨res, by simp [powPosLoop], hrS, r0, by simpa using r1, by simpa using r2⟩
  | succ n ih =>
    intro e i res G M δ ρ he hiS hrS hi r0 r1 r2 hG hM hδ hρ hfit
    by_cases h0 : e = 0
    · subst h0
      exact ⟨res, by simp [powPosLoop], hrS, r0, by simpa using r1, by simpa using r2⟩
    obtain ⟨i0, i1, i2⟩ := hi h0
    have hG0 : 0 ≤ G := by linarith
    have hM0 : 0 ≤ M := by linarith
    -- the accumulator
    have hres : ∃ res', (if e % 2 ≠ 0 then mulAssign F res i else pure res) = .ok res' ∧ Storable F res' ∧ 0 ≤ res' ∧
        val F res' ≤ M * G ^ (e % 2) ∧ M * G ^ (e % 2) * (1 - (ρ + (e % 2 : Nat) * (δ + 1)) * ulp F) ≤ val F res' := by
      rcases Nat.mod_two_eq_zero_or_one e with h2 | h2
      · refine ⟨res, by rw [h2]; rfl, hrS, r0, ?_, ?_⟩
        · rw [h2]; simpa using r1
        · rw [h2]; simpa using r2
      · have hle : M * G ≤ val F F.T.hi := by
          refine le_trans ?_ hfit
          apply mul_le_mul_of_nonneg_left _ hM0
          calc G = G ^ 1 := (pow_one G).symm
            _ ≤ G ^ e := pow_le_pow_right₀ hG (by omega)
        obtain ⟨z, hz, hzS, z0, z1, z2⟩ := prod res i M G ρ δ hrS hiS r0 i0 r1 i1 r2 i2 hM hG hρ hδ hle
        refine ⟨z, by rw [h2]; exact hz, hzS, z0, by rw [h2, pow_one]; exact z1, ?_⟩
        rw [h2, pow_one]; push_cast
        rw [show ρ + 1 * (δ + 1) = ρ + δ + 1 by ring]; exact z2
    obtain ⟨res', er, hrS', r0', r1', r2'⟩ := hres
    -- the running square
    have hsq : ∃ i', mulAssign F i i = .ok i' ∧ Storable F i' ∧ (e / 2 ≠ 0 → 0 ≤ i' ∧ val F i' ≤ G ^ 2 ∧ G ^ 2 * (1 - (2 * δ + 1) * ulp F) ≤ val F i') := by
      by_cases h2 : e / 2 = 0
      · exact ⟨_, mul_nf hF hr hiS hiS, IntTy.wrap_inRange _ hF.tpos, fun h => absurd h2 h⟩
      · have hle : G * G ≤ val F F.T.hi := by
          refine le_trans ?_ hfit
          calc G * G = 1 * G ^ 2 := by ring
            _ ≤ M * G ^ e := mul_le_mul hM (pow_le_pow_right₀ hG (by omega)) (by positivity) hM0
        obtain ⟨z, hz, hzS, z0, z1, z2⟩ := prod i i G G δ δ hiS hiS i0 i0 i1 i1 i2 i2 hG hG hδ hδ hle
        refine ⟨z, hz, hzS, fun _ => ⟨z0, by rw [pow_two]; exact z1, ?_⟩⟩
        rw [pow_two, show 2 * δ + 1 = δ + δ + 1 by ring]; exact z2
    obtain ⟨i', ei, hiS', hi'⟩ := hsq
    have hsplit : M * G ^ (e % 2) * (G ^ 2) ^ (e / 2) = M * G ^ e := by
      rw [mul_assoc, ← pow_mul, ← pow_add]; congr 2; omega
    obtain ⟨p, hp, hpS, p0, p1, p2⟩ := ih (e / 2) i' res' (G ^ 2) (M * G ^ (e % 2)) (2 * δ + 1) (ρ + (e % 2 : Nat) * (δ + 1)) (by
      rw [pow_succ] at he; omega) hiS' hrS' hi' r0' r1' r2' (one_le_pow₀ hG) (by
        have := one_le_pow₀ (n := e % 2) hG; nlinarith) (by linarith) (by positivity) (by rw [hsplit]; exact hfit)
    rw [hsplit] at p1 p2
    refine ⟨p, ?_, hpS, p0, p1, ?_⟩
    · rw [powPos_step (n + 1) h0 er ei, hp]
    · refine le_trans (le_of_eq ?_) p2
      have : (e : ℚ) = 2 * ((e / 2 : Nat) : ℚ) + ((e % 2 : Nat) : ℚ) := by
        have : e = 2 * (e / 2) + e % 2 := by omega
        exact_mod_cast this
      rw [this]; ring

/-- The loop, with an absolute error, for bases at most one. -/
theorem powPos_abs {F : FxTy} (hF : F.Valid) (hr : F.r = false) (h1 : 1 ≤ val F F.T.hi) (fuel : Nat) : ∀ (e : Nat) (i res : Int) (G M δ ρ : ℚ),
    e < 2 ^ fuel → Storable F i → Storable F res → 0 ≤ i → val F i ≤ G → G - δ * ulp F ≤ val F i →
    0 ≤ res → val F res ≤ M → M - ρ * ulp F ≤ val F res → 0 ≤ G → G ≤ 1 → 0 ≤ M → M ≤ 1 → 0 ≤ δ → 0 ≤ ρ →
    ∃ p, powPosLoop F (fuel + 1) e i res = .ok p ∧ Storable F p ∧ 0 ≤ p ∧ val F p ≤ M * G ^ e ∧
      M * G ^ e - (ρ + e * (δ + 1)) * ulp F ≤ val F p := by
  have hu : 0 < ulp F := by unfold ulp; positivity
  have prod : ∀ (x y : Int) (X Y a b : ℚ), Storable F x → Storable F y → 0 ≤ x → 0 ≤ y → val F x ≤ X → val F y ≤ Y →
      X - a * ulp F ≤ val F x → Y - b * ulp F ≤ val F y → X ≤ 1 → Y ≤ 1 → 0 ≤ a → 0 ≤ b →
      ∃ z, mulAssign F x y = .ok z ∧ Storable F z ∧ 0 ≤ z ∧ val F z ≤ X * Y ∧ X * Y - (a + b + 1) * ulp F ≤ val F z := by
    intro x y X Y a b hx hy x0 y0 x1 y1 x2 y2 hX hY ha hb
    have vx : 0 ≤ val F x := by rw [← val_zero F, val_le]; exact x0
    have vy : 0 ≤ val F y := by rw [← val_zero F, val_le]; exact y0
    have hle : val F x * val F y ≤ X * Y := mul_le_mul x1 y1 vy (by linarith)
    obtain ⟨z, hz, hzS, z0, z1, z2⟩ := pw_mul hF hr hx hy x0 y0 (by nlinarith)
    refine ⟨z, hz, hzS, z0, le_trans z1 hle, ?_⟩
    have e1 : (X - val F x) * Y ≤ a * ulp F * 1 := mul_le_mul (by linarith) hY (by linarith) (by positivity)
    have e2 : val F x * (Y - val F y) ≤ 1 * (b * ulp F) := mul_le_mul (by linarith) (by linarith) (by linarith) (by norm_num)
    nlinarith
  induction fuel with
  | zero =>
    intro e i res G M δ ρ he _ hrS _ _ _ r0 r1 r2 _ _ _ _ _ _
    obtain rfl : e = 0 := by simpa using he
    refine ⟨res, by simp [powPosLoop], hrS, r0, by simpa using r1, by simpa using r2⟩
  | succ n ih =>
    intro e i res G M δ ρ he hiS hrS i0 i1 i2 r0 r1 r2 hG0 hG hM0 hM hδ hρ
    by_cases h0 : e = 0
    · subst h0
      exact ⟨res, by simp [powPosLoop], hrS, r0, by simpa using r1, by simpa using r2⟩
    have hres : ∃ res', (if e % 2 ≠ 0 then mulAssign F res i else pure res) = .ok res' ∧ Storable F res' ∧ 0 ≤ res' ∧
        val F res' ≤ M * G ^ (e % 2) ∧ M * G ^ (e % 2) - (ρ + (e % 2 : Nat) * (δ + 1)) * ulp F ≤ val F res' := by
      rcases Nat.mod_two_eq_zero_or_one e with h2 | h2
      · refine ⟨res, by rw [h2]; rfl, hrS, r0, ?_, ?_⟩
        · rw [h2]; simpa using r1
        · rw [h2]; simpa using r2
      · obtain ⟨z, hz, hzS, z0, z1, z2⟩ := prod res i M G ρ δ hrS hiS r0 i0 r1 i1 r2 i2 hM hG hρ hδ
        refine ⟨z, by rw [h2]; exact hz, hzS, z0, by rw [h2, pow_one]; exact z1, ?_⟩
        rw [h2, pow_one]; push_cast
        rw [show ρ + 1 * (δ + 1) = ρ + δ + 1 by ring]; exact z2
    obtain ⟨res', er, hrS', r0', r1', r2'⟩ := hres
    obtain ⟨i', ei, hiS', i0', i1', i2'⟩ := prod i i G G δ δ hiS hiS i0 i0 i1 i1 i2 i2 hG hG hδ hδ
    have hsplit : M * G ^ (e % 2) * (G ^ 2) ^ (e / 2) = M * G ^ e := by
      rw [mul_assoc, ← pow_mul, ← pow_add]; congr 2; omega
    obtain ⟨p, hp, hpS, p0, p1, p2⟩ := ih (e / 2) i' res' (G ^ 2) (M * G ^ (e % 2)) (2 * δ + 1) (ρ + (e % 2 : Nat) * (δ + 1)) (by
      rw [pow_succ] at he; omega) hiS' hrS' i0' (by rw [pow_two]; exact i1') (by
        rw [pow_two, show 2 * δ + 1 = δ + δ + 1 by ring]; exact i2') r0' r1' r2' (by positivity) (pow_le_one₀ hG0 hG) (by positivity)
      (mul_le_one₀ hM (by positivity) (pow_le_one₀ hG0 hG)) (by linarith) (by positivity)
    rw [hsplit] at p1 p2
    refine ⟨p, by rw [powPos_step (n + 1) h0 er ei, hp], hpS, p0, p1, ?_⟩
    refine le_trans (le_of_eq ?_) p2
    have : (e : ℚ) = 2 * ((e / 2 : Nat) : ℚ) + ((e % 2 : Nat) : ℚ) := by
      have : e = 2 * (e / 2) + e % 2 := by omega
      exact_mod_cast this
    rw [this]; ring

theorem pw_start {F : FxTy} (hF : F.Valid) (h1 : Representable F 1) :
    ofInt F 0 = 0 ∧ ofInt F 1 = 2 ^ F.f ∧ Storable F (2 ^ F.f) ∧ val F (2 ^ F.f) = 1 ∧ 1 ≤ val F F.T.hi := by
  obtain ⟨z, hz1, hz2⟩ := h1
  have hz : z = 1 * 2 ^ F.f := val_inj (F := F) (by rw [hz2, val_int]; norm_num)
  rw [one_mul] at hz
  subst hz
  have h0 : F.T.InRange 0 := ⟨by unfold IntTy.lo; split <;> [exact neg_nonpos.2 (by positivity); exact le_rfl],
    le_trans (by positivity) hz1.2⟩
  refine ⟨by rw [ofInt_eq F hF, zero_mul]; exact IntTy.wrap_of_inRange hF.tpos h0,
    by rw [ofInt_eq F hF, one_mul]; exact IntTy.wrap_of_inRange hF.tpos hz1, hz1, hz2, ?_⟩
  rw [← hz2, val_le]; exact hz1.2

/-- C109: for a base of at least one, an integer power that fits is never too large and is too small by at most `n` ulps relative to the
exact power, on every non-rounding type. -/
theorem C109_relative (F : FxTy) (hF : F.Valid) (hr : F.r = false) (h1 : Representable F 1) (b : Int) (n : Nat) (hb : Storable F b)
    (hb1 : 1 ≤ val F b) (hn : n < 2 ^ 64) (hfit : val F b ^ n ≤ val F F.T.hi) :
    ∃ p, powInt F b n = .ok p ∧ Storable F p ∧ val F p ≤ val F b ^ n ∧ val F b ^ n * (1 - n * ulp F) ≤ val F p ∧ 0 ≤ val F p := by
  obtain ⟨e0, e1, oS, ov, _⟩ := pw_start hF h1
  have hb0 : 0 ≤ b := by rw [← val_le (F := F), val_zero]; linarith
  have hbne : b ≠ 0 := by rintro rfl; rw [val_zero] at hb1; norm_num at hb1
  obtain ⟨p, hp, hpS, p0, p1, p2⟩ := powPos_rel hF hr 65 n b (2 ^ F.f) (val F b) 1 0 0 (lt_trans hn (by norm_num)) hb oS
    (fun _ => ⟨hb0, le_refl _, by simp⟩) (by positivity) ov.le (by rw [ov]; simp) hb1 le_rfl le_rfl le_rfl (by rw [one_mul]; exact hfit)
  refine ⟨p, ?_, hpS, by simpa using p1, by simpa using p2, by rw [← val_zero F, val_le]; exact p0⟩
  unfold powInt
  rw [e0, e1, if_neg (by rw [eq_iff]; exact hbne), if_neg (by omega), hp]

/-- C109: for a base between zero and one, an integer power is never too large and is too small by at most `n` ulps, on every non-rounding
type. -/
theorem C109_absolute (F : FxTy) (hF : F.Valid) (hr : F.r = false) (h1 : Representable F 1) (b : Int) (n : Nat) (hb : Storable F b)
    (hb0 : 0 ≤ val F b) (hb1 : val F b ≤ 1) (hn : n < 2 ^ 64) :
    ∃ p, powInt F b n = .ok p ∧ Storable F p ∧ val F p ≤ val F b ^ n ∧ val F b ^ n - n * ulp F ≤ val F p ∧ 0 ≤ val F p := by
  obtain ⟨e0, e1, oS, ov, oh⟩ := pw_start hF h1
  have hb0' : 0 ≤ b := by rw [← val_le (F := F), val_zero]; exact hb0
  by_cases hbne : b = 0
  · subst hbne
    unfold powInt
    rw [e0, e1, if_pos (by rw [eq_iff])]
    by_cases hn0 : n = 0
    · subst hn0
      exact ⟨2 ^ F.f, by simp, oS, by rw [ov]; simp, by rw [ov]; simp, by rw [ov]; norm_num⟩
    · refine ⟨0, by simp [hn0], hb, by rw [val_zero]; positivity, ?_, by rw [val_zero]⟩
      have hu : 0 < ulp F := by unfold ulp; positivity
      rw [val_zero, zero_pow hn0]
      have : 0 ≤ (n : ℚ) * ulp F := by positivity
      linarith
  obtain ⟨p, hp, hpS, p0, p1, p2⟩ := powPos_abs hF hr oh 65 n b (2 ^ F.f) (val F b) 1 0 0 (lt_trans hn (by norm_num)) hb oS
    hb0' le_rfl (by simp) (by positivity) ov.le (by rw [ov]; simp) hb0 hb1 (by norm_num) le_rfl le_rfl le_rfl
  refine ⟨p, ?_, hpS, by simpa using p1, by simpa using p2, ?_⟩
  · unfold powInt
    rw [e0, e1, if_neg (by rw [eq_iff]; exact hbne), if_neg (by omega), hp]
  · rw [← val_zero F, val_le]; exact p0

/-- C109: a negative base to an even power is the positive base to that power, whatever the size of the result. -/
theorem C109_even (F : FxTy) (hF : F.Valid) (hr : F.r = false) (b : Int) (n : Nat) (hb : Storable F b) (hb' : Storable F (-b)) (hn : n % 2 = 0) :
    powInt F (-b) n = powInt F b n := by
  by_cases hn0 : n = 0
  · subst hn0
    by_cases hb0 : b = 0
    · subst hb0; rfl
    · unfold powInt
      by_cases h : eq b (ofInt F 0) = true <;> by_cases h' : eq (-b) (ofInt F 0) = true <;> simp [h, h', powPosLoop]
  have hz : ofInt F 0 = 0 := by
    rw [ofInt_eq F hF, zero_mul]
    refine IntTy.wrap_of_inRange hF.tpos ⟨by unfold IntTy.lo; split <;> simp, by unfold IntTy.hi; split <;> simp [Int.sub_nonneg, one_le_pow₀]⟩
  have key : mulAssign F (-b) (-b) = mulAssign F b b := by
    show mul F (-b) (-b) = mul F b b
    rw [mul_nf hF hr hb' hb', mul_nf hF hr hb hb, neg_mul_neg]
  have hm : ∃ z, mulAssign F b b = .ok z := ⟨_, mul_nf hF hr hb hb⟩
  obtain ⟨z, hm⟩ := hm
  have e : ∀ c, c ≠ 0 → powInt F c n = powPosLoop F 66 n c (ofInt F 1) := by
    intro c hc
    unfold powInt
    rw [hz, if_neg (by rw [eq_iff]; exact hc), if_neg (by omega)]
  by_cases hb0 : b = 0
  · subst hb0; rfl
  rw [e b hb0, e (-b) (by omega), powPos_step (F := F) 65 hn0 (res' := ofInt F 1) (by rw [if_neg (by omega)]; rfl) (by rw [key]; exact hm),
    powPos_step (F := F) 65 hn0 (res' := ofInt F 1) (by rw [if_neg (by omega)]; rfl) hm]

example : powInt fixed32 98304 10 = .ok 3779136 ∧ val fixed32 98304 = 3 / 2 ∧ powInt fixed32 32768 5 = .ok 2048 ∧
    powInt fixed32 (-98304) 2 = .ok 147456 := by
  refine ⟨by decide +kernel, by norm_num [val, fixed32], by decide +kernel, by decide +kernel⟩

end Eirin.Props
