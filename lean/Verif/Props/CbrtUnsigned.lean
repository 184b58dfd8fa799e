import Verif.Props.CbrtAll
import Verif.Props.SinUnsigned
import Verif.Props.MixedAll

/-! # Property C157: `cbrt` on unsigned layouts

In unsigned storage the cube formed by the loop test wraps without being undefined, so more arguments are accepted than in signed storage, but the test may
succeed by accident. -/

namespace Eirin.Props
open Spec

theorem lu_eps16 {B f : Nat} (hB : UB B) (h16 : 16 ≤ f) (h4 : f + 4 ≤ B) : epsilon (LU B f) = .ok (5 * 2 ^ (f - 16)) := by
  have a : ∀ f < 61, 16 ≤ f → epsilon (LU 64 f) = .ok (5 * 2 ^ (f - 16)) := by decide +kernel
  have b : ∀ f < 29, 16 ≤ f → epsilon (LU 32 f) = .ok (5 * 2 ^ (f - 16)) := by decide +kernel
  rcases hB with rfl | rfl
  · exact b f (by omega) h16
  · exact a f (by omega) h16

/-- One pass through the loop. -/
theorem uLoop_step {B f : Nat} (hB : UB B) (h16 : 16 ≤ f) (h4 : f + 4 ≤ B) {D H E fp a : Int} (hE : 0 < E) (hD : D = 65536 * E) (hDF : (2 : Int) ^ f = D)
    (hHF : (2 : Int) ^ B = H) (h5 : 5 * E ≤ fp) (hfp : fp < H) (c : GInv D (H ^ 3) E fp a) {r M : ℝ} (r0 : 0 ≤ r)
    (hr : r ^ 3 = fp * D ^ 2) (hM : r + 27 ≤ M) (hM2 : M * M < H * D) (hM3 : 3 * M < H) (ha : (a : ℝ) ≤ M) (n : Nat) :
    cbrtLoop (LU B f) fp (10 * E) n a =
      if 10 * E ≤ (fp - a * a / D * a / D) % H then
        match n with
        | 0 => .ok a
        | n + 1 => cbrtLoop (LU B f) fp (10 * E) n (gStep D fp a)
      else .ok a := by
  have y1 := g_y hE hD c
  obtain ⟨hq, -⟩ := g_quot hE hD h5 c r0 hr
  have hD0 : 0 < D := by omega
  have hH0 : 0 < H := by omega
  have hlo := c.lo
  obtain ⟨hv, hs, -⟩ := lu_valid hB (f := f) (by omega) (by omega)
  have nn := nn_unsigned hB (f := f) (by omega) (by omega) (M := H) hHF.ge
  have hb : 0 < (LU B f).T.bits := hv.tpos
  have inr : ∀ z : Int, 0 ≤ z → z < H → (LU B f).T.InRange z := fun z a b => lu_in.2 ⟨a, by rw [hHF]; omega⟩
  have a0 : 0 ≤ a := by omega
  have a0r : (0 : ℝ) ≤ a := by exact_mod_cast a0
  have a3 : 3 * a < H := by
    have : 3 * (a : ℝ) < H := by linarith
    exact_mod_cast this
  have a2 : a * a < H * D := by
    have : (a : ℝ) * a < H * D := lt_of_le_of_lt (mul_le_mul ha ha a0r (by linarith)) hM2
    exact_mod_cast this
  have y2 : a * a / D < H := Int.ediv_lt_of_lt_mul hD0 a2
  have e2 : mul (LU B f) a a = .ok (a * a / D) := by
    have := nn.mul a a a0 (by omega) a0 (by omega) (by show a * a / 2 ^ f < H; rw [hDF]; exact y2)
    rw [this]; show Res.ok (a * a / 2 ^ f) = _; rw [hDF]
  have e3 : mul (LU B f) (a * a / D) a = .ok (a * a / D * a / D % H) := by
    rw [mul_nf hv rfl (inr _ (by omega) y2) (inr _ a0 (by omega)), lu_wrap, hHF]
    show Res.ok (_ / 2 ^ f % H) = _
    rw [hDF]
  generalize hw : a * a / D * a / D = w at *
  have m0 : 0 ≤ w % H := Int.emod_nonneg _ hH0.ne'
  have m1 : w % H < H := Int.emod_lt_of_pos _ hH0
  have e4 : sub (LU B f) fp (w % H) = .ok ((fp - w) % H) := by
    rw [sub_nf hv (inr _ (by omega) hfp) (inr _ m0 m1), if_neg (fun h => hs h.1), lu_wrap, hHF, Int.sub_emod, Int.emod_emod_of_dvd _ (dvd_refl H), ← Int.sub_emod]
  have d0 : 0 ≤ (fp - w) % H := Int.emod_nonneg _ hH0.ne'
  have d1 : (fp - w) % H < H := Int.emod_lt_of_pos _ hH0
  have e5 : abs (LU B f) ((fp - w) % H) = .ok ((fp - w) % H) := nn.abs _ d0 d1
  rw [cbrtLoop_unf, e2, Res.bind_ok, e3, Res.bind_ok, e4, Res.bind_ok, e5, Res.bind_ok]
  generalize (fp - w) % H = d at *
  have hge : ge d (10 * E) = true ↔ 10 * E ≤ d := ge_iff
  by_cases hc : 10 * E ≤ d
  · rw [if_pos (hge.2 hc), if_pos hc]
    cases n with
    | zero => rfl
    | succ n =>
      have q0 : 0 ≤ fp * D / (a * a / D) := Int.ediv_nonneg (mul_nonneg (by omega) hD0.le) (by omega)
      have q3 : 3 * (fp * D / (a * a / D)) < H := by
        have : 3 * ((fp * D / (a * a / D) : Int) : ℝ) < H := by linarith
        exact_mod_cast this
      have q : div (LU B f) fp (a * a / D) = .ok (fp * D / (a * a / D)) := by
        have := nn.div fp (a * a / D) (by omega) hfp (by omega) (by show fp * 2 ^ f / _ < H; rw [hDF]; omega)
        rw [this]; show Res.ok (fp * 2 ^ f / _) = _; rw [hDF]
      have t : mulInt (LU B f) i32 a 2 = .ok (a * 2) := by
        have hcm : (IntTy.common (LU B f).T i32).signed = false := by rcases hB with rfl | rfl <;> rfl
        rw [mulInt_nf _ hv i32 (by unfold CInt; decide) (inr _ a0 (by omega)) (by decide), if_neg (by rw [hcm]; simp),
          IntTy.wrap_of_inRange hb (inr _ (by omega) (by omega))]
      have s : add (LU B f) (fp * D / (a * a / D)) (a * 2) = .ok (fp * D / (a * a / D) + a * 2) := by
        rw [add_nf hv (inr _ q0 (by omega)) (inr _ (by omega) (by omega)), if_neg (fun h => hs h.1),
          IntTy.wrap_of_inRange hb (inr _ (by omega) (by omega))]
      have x' : divInt (LU B f) i32 (fp * D / (a * a / D) + a * 2) 3 = .ok (gStep D fp a) := by
        rw [nn.divInt _ 3 (by omega) (by omega) (by norm_num) (by norm_num)]
        unfold gStep; rw [mul_comm a 2]
      dsimp only
      rw [Res.bind_ok, q, Res.bind_ok, t, Res.bind_ok, s, Res.bind_ok, x', Res.bind_ok]
  · rw [if_neg (fun h => hc (hge.1 h)), if_neg hc]
    rfl

/-- The whole loop. -/
theorem uLoop_spec {B f : Nat} (hB : UB B) (h16 : 16 ≤ f) (h4 : f + 4 ≤ B) {D H E fp : Int} (hE : 0 < E) (hD : D = 65536 * E) (hDF : (2 : Int) ^ f = D)
    (hHF : (2 : Int) ^ B = H) (h5 : 5 * E ≤ fp) (hfp : fp < H) {r M : ℝ} (r0 : 0 ≤ r)
    (hr : r ^ 3 = fp * D ^ 2) (hM : r + 27 ≤ M) (hM2 : M * M < H * D) (hM3 : 3 * M < H) (hMc : (r + 27) ^ 3 < ((H ^ 3 : Int) : ℝ) * D ^ 2) :
    ∀ (n : Nat) (a : Int), GInv D (H ^ 3) E fp a → (a : ℝ) ≤ M →
    ∃ z, cbrtLoop (LU B f) fp (10 * E) n a = .ok z ∧ GInv D (H ^ 3) E fp z ∧ (z : ℝ) ≤ M ∧
      ((fp - z * z / D * z / D) % H < 10 * E ∨ (z : ℝ) - r - 27 ≤ (2 / 3) ^ n * (a - r - 27)) := by
  intro n
  induction n with
  | zero =>
    intro a c ha
    rw [uLoop_step hB h16 h4 hE hD hDF hHF h5 hfp c r0 hr hM hM2 hM3 ha]
    refine ⟨a, ?_, c, ha, Or.inr (by norm_num)⟩
    split <;> rfl
  | succ n ih =>
    intro a c ha
    rw [uLoop_step hB h16 h4 hE hD hDF hHF h5 hfp c r0 hr hM hM2 hM3 ha]
    by_cases hc : 10 * E ≤ (fp - a * a / D * a / D) % H
    · rw [if_pos hc]
      obtain ⟨cs, -, -, hcon⟩ := c.step hE hD h5 r0 hr hMc
      obtain ⟨z, hz1, hz2, hzM, hz3⟩ := ih _ cs (by linarith)
      refine ⟨z, hz1, hz2, hzM, hz3.imp_right fun h => ?_⟩
      have : (2 / 3 : ℝ) ^ n * ((gStep D fp a : ℝ) - r - 27) ≤ (2 / 3) ^ n * (2 / 3 * (a - r - 27)) :=
        mul_le_mul_of_nonneg_left (by linarith) (by positivity)
      rw [pow_succ]; linarith
    · rw [if_neg hc]
      exact ⟨a, rfl, c, ha, Or.inl (by omega)⟩

/-- The root plus 27 has a square in range, and its triple is in range. -/
theorem root_room_sq {D H fp : Int} (hD : 65536 ≤ D) (hH : 16 * D ≤ H) (h0 : 0 ≤ fp) (hs : (fp + 2 * D) ^ 2 < 9 * (H * D)) (ht : fp + 2 * D < H) {r : ℝ}
    (r0 : 0 ≤ r) (hr : r ^ 3 = fp * D ^ 2) : (r + 27) * (r + 27) < H * D ∧ 3 * (r + 27) < H := by
  have hD' : (65536 : ℝ) ≤ D := by exact_mod_cast hD
  have hH' : (16 : ℝ) * D ≤ H := by exact_mod_cast hH
  have hs' : ((fp : ℝ) + 2 * D) ^ 2 < 9 * (H * D) := by exact_mod_cast hs
  have ht' : (fp : ℝ) + 2 * D < H := by exact_mod_cast ht
  have f0 : (0 : ℝ) ≤ fp := by exact_mod_cast h0
  by_cases hc : r ≤ 2.5 * D
  · have h1 : (r + 27) * (r + 27) ≤ (2.501 * D) * (2.501 * D) := mul_le_mul (by linarith) (by linarith) (by linarith) (by linarith)
    have h2 : 16 * (D : ℝ) * D ≤ H * D := mul_le_mul_of_nonneg_right hH' (by linarith)
    have h3 : 0 < (D : ℝ) * D := by positivity
    exact ⟨by nlinarith, by linarith⟩
  · push Not at hc
    have hr2 : 6.25 * (D : ℝ) ^ 2 < r ^ 2 := by
      have := pow_lt_pow_left₀ hc (by linarith) (n := 2) (by norm_num)
      norm_num at this ⊢; nlinarith
    have h1 : 6.25 * (D : ℝ) ^ 2 * r ≤ r ^ 3 := by
      have := mul_le_mul_of_nonneg_right hr2.le r0
      linarith [show r ^ 2 * r = r ^ 3 by ring]
    have h2 : 6.25 * r ≤ fp := by
      have hp : 0 < (D : ℝ) ^ 2 := by positivity
      by_contra hcon; push Not at hcon
      have := mul_lt_mul_of_pos_right hcon hp
      linarith
    have h3 : (3 * (r + 27)) ^ 2 ≤ ((fp : ℝ) + 2 * D) ^ 2 := pow_le_pow_left₀ (by linarith) (by linarith) 2
    exact ⟨by nlinarith, by linarith⟩

/-- C157, the root: on every unsigned non-rounding layout with at least 16 fraction bits and four integer bits, for every argument from 5/65536 on whose start
value `(x + 2) / 3` has a square in range, `cbrt` is defined, at most one ulp below the root, and either at most 28 ulp above it or (the loop stopped
early) its cube is the argument up to `10/65536 + r ulp` and a multiple of the span of the type, the multiple being zero if the start value has a cube in range. -/
theorem C157_root (B f : Nat) (hB : UB B) (h16 : 16 ≤ f) (h4 : f + 4 ≤ B) (x : Int) (hx : Storable (LU B f) x) (h0 : 5 / 65536 ≤ val (LU B f) x)
    (hc : ((val (LU B f) x + 2) / 3) ^ 2 < 2 ^ (B - f)) :
    ∃ r, cbrt (LU B f) x = .ok r ∧ 1 / 25 ≤ val (LU B f) r ∧ val (LU B f) x ≤ (val (LU B f) r + ulp (LU B f)) ^ 3 ∧
      ((val (LU B f) r - 28 * ulp (LU B f)) ^ 3 ≤ val (LU B f) x ∨
        ∃ k : Nat, |val (LU B f) x + k * 2 ^ (B - f) - val (LU B f) r ^ 3| ≤ 10 / 65536 + val (LU B f) r * ulp (LU B f) ∧
          (((val (LU B f) x + 2) / 3) ^ 3 < 2 ^ (B - f) → k = 0)) := by
  obtain ⟨E, hE, hDE, eE⟩ : ∃ E : Int, 0 < E ∧ (2 : Int) ^ f = 65536 * E ∧ E = 2 ^ (f - 16) :=
    ⟨2 ^ (f - 16), by positivity, by rw [show (65536 : Int) = 2 ^ 16 by norm_num, ← pow_add]; congr 1; omega, rfl⟩
  have heps := lu_eps16 hB h16 h4
  rw [← eE] at heps
  have hroom : 16 * (2 : Int) ^ f ≤ 2 ^ B := by
    rw [show (16 : Int) * 2 ^ f = 2 ^ (f + 4) by rw [pow_add]; ring]
    exact pow_le_pow_right₀ (by norm_num) h4
  have hH64 : (2 : Int) ^ B ≤ 2 ^ 64 := pow_le_pow_right₀ (by norm_num) (by rcases hB with rfl | rfl <;> norm_num)
  have hspan : ((2 : ℚ) ^ (B - f)) = ((2 : Int) ^ B : Int) / ((2 : Int) ^ f : Int) := by
    push_cast; rw [eq_div_iff (by positivity), ← pow_add]; congr 1; omega
  obtain ⟨x0, xH⟩ := lu_in.1 hx
  have vv := val_real (LU B f)
  have uu := ulp_real (LU B f)
  obtain ⟨hv, hs, hz0⟩ := lu_valid hB (f := f) (by omega) (by omega)
  have nn := nn_unsigned hB (f := f) (by omega) (by omega) (M := 2 ^ B) le_rfl
  have hb : 0 < (LU B f).T.bits := hv.tpos
  have hof := nn.ofInt 2 (by norm_num) (by show 2 * (2 : Int) ^ f < _; omega)
  replace vv : ∀ z, val (LU B f) z = z / ((2 : Int) ^ f : Int) := vv
  replace uu : ulp (LU B f) = 1 / ((2 : Int) ^ f : Int) := uu
  replace hof : ofInt (LU B f) 2 = 2 * 2 ^ f := hof
  obtain ⟨D, hDF⟩ : ∃ D : Int, (2 : Int) ^ f = D := ⟨_, rfl⟩
  obtain ⟨H, hHF⟩ : ∃ H : Int, (2 : Int) ^ B = H := ⟨_, rfl⟩
  rw [hHF] at xH nn hH64
  have inr : ∀ z : Int, 0 ≤ z → z < H → (LU B f).T.InRange z := fun z a b => lu_in.2 ⟨a, by rw [hHF]; omega⟩
  rw [hspan, hDF, hHF] at hc ⊢
  rw [hDF] at hDE hroom uu hof
  rw [hHF] at hroom
  simp only [hDF] at vv
  have hD0 : 0 < D := by omega
  have hDq : (0 : ℚ) < D := by exact_mod_cast hD0
  have hDEq : (D : ℚ) = 65536 * E := by exact_mod_cast hDE
  have hEq : (1 : ℚ) ≤ E := by exact_mod_cast hE
  have e1 : ((x : ℚ) / D + 2) / 3 = (x + 2 * D) / (3 * D) := by field_simp
  have g5 : 5 * E ≤ x := by
    rw [vv, le_div_iff₀ hDq, hDEq] at h0
    have : ((5 * E : Int) : ℚ) ≤ x := by push_cast; linarith
    exact_mod_cast this
  have g2 : (x + 2 * D) ^ 2 < 9 * (H * D) := by
    rw [vv, e1, div_pow, div_lt_div_iff₀ (by positivity) hDq] at hc
    have h1 : (((x : ℚ) + 2 * D) ^ 2) * D < (9 * (H * D)) * D := by
      calc _ < _ := hc
        _ = _ := by ring
    exact_mod_cast lt_of_mul_lt_mul_right h1 hDq.le
  have ht : 4 * (x + 2 * D) < 3 * H := by
    by_contra hcc
    push Not at hcc
    have h1 : (3 * H) * (3 * H) ≤ (4 * (x + 2 * D)) * (4 * (x + 2 * D)) := mul_le_mul hcc hcc (by omega) (by omega)
    have h2 : H * (16 * D) ≤ H * H := mul_le_mul_of_nonneg_left hroom (by omega)
    nlinarith
  have ha : abs (LU B f) x = .ok x := nn.abs x x0 xH
  have hadd : addInt (LU B f) x 2 = .ok (x + 2 * D) := by
    have hP : (LU B f).P = (LU B f).T ∧ (LU B f).T.promote = (LU B f).T := by rcases hB with rfl | rfl <;> exact ⟨rfl, rfl⟩
    have e : shl (LU B f).T 2 (LU B f).f = .ok (2 * D) := by
      unfold shl
      rw [hP.2, if_pos (by show f < B; omega), show (2 : Int) * 2 ^ (LU B f).f = 2 * D by rw [← hDF], IntTy.wrap_of_inRange hb (inr _ (by omega) (by omega))]
    unfold addInt addIntAssign
    rw [IntTy.wrap_of_inRange hb (inr 2 (by norm_num) (by omega)), e, Res.bind_ok, hP.1, arith_of_inRange hb (inr _ (by omega) (by omega)), Res.bind_ok,
      IntTy.wrap_of_inRange hb (inr _ (by omega) (by omega))]
    rfl
  have hdiv : divInt (LU B f) i32 (x + 2 * D) 3 = .ok ((x + 2 * D) / 3) := nn.divInt _ 3 (by omega) (by omega) (by norm_num) (by norm_num)
  have hprec : mulInt (LU B f) i32 (5 * E) 2 = .ok (10 * E) := by
    have hcm : (IntTy.common (LU B f).T i32).signed = false := by rcases hB with rfl | rfl <;> rfl
    rw [mulInt_nf _ hv i32 (by unfold CInt; decide) (inr _ (by omega) (by omega)) (by decide), if_neg (by rw [hcm]; simp),
      IntTy.wrap_of_inRange hb (inr _ (by omega) (by omega))]
    congr 1; ring
  have x0r : (0 : ℝ) ≤ x := by exact_mod_cast x0
  obtain ⟨c, c0, hcc⟩ := exists_root ((x : ℝ) * (D : ℝ) ^ 2) (by positivity)
  obtain ⟨m2, m3⟩ := root_room_sq (by omega) hroom x0 g2 (by omega) c0 hcc
  obtain ⟨A, hA⟩ : ∃ A, A = (x + 2 * D) / 3 := ⟨_, rfl⟩
  rw [← hA] at hdiv
  have A0 : 0 ≤ A := by omega
  have A3 : 3 * A ≤ x + 2 * D := by omega
  have A3' : x + 2 * D ≤ 3 * (A + 1) := by omega
  have AH : 3 * A < H := by omega
  have A2 : A * A < H * D := by
    have : (3 * A) * (3 * A) ≤ (x + 2 * D) * (x + 2 * D) := mul_le_mul A3 A3 (by omega) (by omega)
    nlinarith
  have hHr : (1048576 : ℝ) ≤ H := by exact_mod_cast (by omega : 1048576 ≤ H)
  have hDr : (65536 : ℝ) ≤ D := by exact_mod_cast (by omega : 65536 ≤ D)
  have D1 : (1 : ℝ) ≤ (D : ℝ) ^ 2 := by nlinarith
  have hMc : (c + 27) ^ 3 < ((H ^ 3 : Int) : ℝ) * D ^ 2 := by
    have h1 : (c + 27) ^ 3 < (H : ℝ) ^ 3 := pow_lt_pow_left₀ (by linarith) (by linarith) (by norm_num)
    have h2 : (H : ℝ) ^ 3 * 1 ≤ (H : ℝ) ^ 3 * D ^ 2 := mul_le_mul_of_nonneg_left D1 (by positivity)
    push_cast; linarith
  have hinv : GInv D (H ^ 3) E x A := by
    refine ginv_of hE hDE g5 A0 ?_ ?_
    · have h1 : A ^ 3 < H ^ 3 := pow_lt_pow_left₀ (by omega) A0 (by norm_num)
      have D1' : (1 : Int) ≤ D ^ 2 := by exact_mod_cast D1
      have h2 : H ^ 3 * 1 ≤ H ^ 3 * D ^ 2 := mul_le_mul_of_nonneg_left D1' (pow_nonneg (by omega) 3)
      omega
    · have e := amgm (t := x) (a := D) x0 (by omega)
      have e2 : (x + 2 * D) ^ 3 ≤ (3 * (A + 1)) ^ 3 := pow_le_pow_left₀ (by omega) A3' 3
      rw [mul_pow] at e2
      have e3 : x * D * D = x * D ^ 2 := by ring
      rw [e3] at e
      norm_num at e2
      omega
  have A2r : (A : ℝ) * A < H * D := by exact_mod_cast A2
  have AHr : 3 * (A : ℝ) < H := by exact_mod_cast AH
  have mm : ∀ P : ℝ → Prop, P (A : ℝ) → P (c + 27) → P (Max.max (A : ℝ) (c + 27)) := by
    intro P p q; rcases max_choice (A : ℝ) (c + 27) with h | h <;> rw [h] <;> assumption
  obtain ⟨z, hz1, hz2, hzM, hz3⟩ := uLoop_spec hB h16 h4 hE hDE hDF hHF g5 xH c0 hcc (le_max_right (A : ℝ) (c + 27))
    (mm (fun t => t * t < H * D) A2r m2) (mm (fun t => 3 * t < H) AHr m3) hMc 201 _ hinv (le_max_left _ _)
  have hz0 := hz2.lo
  refine ⟨z, ?_, ?_, ?_, ?_⟩
  · unfold cbrt
    rw [ha, heps, Res.bind_ok, Res.bind_ok, if_neg (by rw [lt_iff]; omega), hadd, Res.bind_ok, hdiv, Res.bind_ok, hprec, Res.bind_ok, hz1]
  · rw [vv, div_le_div_iff₀ (by norm_num) hDq, hDEq]
    have : ((2700 * E : Int) : ℚ) ≤ z := by exact_mod_cast hz0
    push_cast at this
    linarith
  · have : (x : ℚ) * D ^ 2 ≤ (z + 1) ^ 3 := by exact_mod_cast hz2.root
    rw [vv, vv, uu]
    have e : ((z : ℚ) / D + 1 / D) ^ 3 = (z + 1) ^ 3 / D ^ 3 := by rw [← add_div, div_pow]
    rw [e, div_le_div_iff₀ hDq (by positivity)]
    have := mul_le_mul_of_nonneg_right this hDq.le
    linarith [show (x : ℚ) * D ^ 2 * D = x * D ^ 3 by ring]
  · rcases hz3 with h | h
    · right
      have d1 := Int.ediv_mul_le (z * z) hD0.ne'
      have d2 := Int.lt_ediv_add_one_mul_self (z * z) hD0
      have zp : 0 < z := by omega
      have y0 : 0 ≤ z * z / D := Int.ediv_nonneg (mul_nonneg zp.le zp.le) hD0.le
      generalize z * z / D = y at *
      have d3 := Int.ediv_mul_le (y * z) hD0.ne'
      have d4 := Int.lt_ediv_add_one_mul_self (y * z) hD0
      have w0 : 0 ≤ y * z / D := Int.ediv_nonneg (mul_nonneg y0 zp.le) hD0.le
      generalize y * z / D = w at *
      have k1 : w * D * D ≤ z * z * z := by
        have a1 := mul_le_mul_of_nonneg_right d3 hD0.le
        have a2 := mul_le_mul_of_nonneg_right d1 zp.le
        linarith [show y * z * D = y * D * z by ring]
      have k2 : z * z * z ≤ (w + 1) * D * D + z * D := by
        have a1 := mul_le_mul_of_nonneg_right d4.le hD0.le
        have a2 := mul_le_mul_of_nonneg_right d2.le zp.le
        linarith [show y * z * D = y * D * z by ring, show (y + 1) * D * z = y * D * z + z * D by ring]
      have hH0 : 0 < H := by omega
      have t0 : 0 ≤ (x - w) % H := Int.emod_nonneg _ hH0.ne'
      have te := Int.emod_add_mul_ediv (x - w) H
      have kn : (x - w) / H ≤ 0 := by
        have : (x - w) / H < 1 := Int.ediv_lt_of_lt_mul hH0 (by omega)
        omega
      obtain ⟨k, hk⟩ : ∃ k : Nat, (k : Int) = -((x - w) / H) := ⟨(-((x - w) / H)).toNat, Int.toNat_of_nonneg (by omega)⟩
      generalize (x - w) % H = t at *
      have key : x + k * H = w + t := by rw [hk]; linarith [mul_comm H ((x - w) / H), neg_mul ((x - w) / H) H]
      refine ⟨k, ?_, ?_⟩
      · rw [vv, vv, uu]
        have k1' : (w : ℚ) * D * D ≤ z * z * z := by exact_mod_cast k1
        have k2' : (z : ℚ) * z * z ≤ (w + 1) * D * D + z * D := by exact_mod_cast k2
        have keyq : (x : ℚ) + k * H = w + t := by exact_mod_cast key
        have w1q : (w : ℚ) + 1 - 10 * E ≤ x + k * H := by rw [keyq]; exact_mod_cast (by omega : w + 1 - 10 * E ≤ w + t)
        have w2q : (x : ℚ) + k * H ≤ w + 10 * E := by rw [keyq]; exact_mod_cast (by omega : w + t ≤ w + 10 * E)
        have zq : (0 : ℚ) < z := by exact_mod_cast zp
        have e1 : (x : ℚ) / D + k * (H / D) - (z / D) ^ 3 = ((x + k * H) * D ^ 2 - z ^ 3) / D ^ 3 := by field_simp
        have e2 : (10 : ℚ) / 65536 + z / D * (1 / D) = (10 * E * D ^ 2 + z * D) / D ^ 3 := by
          rw [hDEq]; have : (E : ℚ) ≠ 0 := by linarith
          field_simp
        have DD : (0 : ℚ) ≤ D * D := by positivity
        generalize (x : ℚ) + k * H = X at *
        have m1 := mul_le_mul_of_nonneg_right w1q DD
        have m2 := mul_le_mul_of_nonneg_right w2q DD
        have zD : 0 ≤ (z : ℚ) * D := by positivity
        rw [e1, e2, abs_div, abs_of_pos (by positivity : (0 : ℚ) < D ^ 3)]
        apply div_le_div_of_nonneg_right _ (by positivity)
        rw [abs_le]
        constructor
        · linarith [show (z : ℚ) * z * z = z ^ 3 by ring, show (D : ℚ) ^ 2 = D * D by ring, show ((w : ℚ) + 1) * D * D = w * D * D + D * D by ring,
            show ((w : ℚ) + 1 - 10 * E) * (D * D) = w * D * D + D * D - 10 * E * D ^ 2 by ring, show X * (D * D) = X * D ^ 2 by ring]
        · linarith [show (z : ℚ) * z * z = z ^ 3 by ring, show ((w : ℚ) + 10 * E) * (D * D) = w * D * D + 10 * E * D ^ 2 by ring,
            show X * (D * D) = X * D ^ 2 by ring]
      · intro hcube
        have g3 : (x + 2 * D) ^ 3 < 27 * (H * D ^ 2) := by
          rw [vv, e1, div_pow, div_lt_div_iff₀ (by positivity) hDq] at hcube
          have h1 : (((x : ℚ) + 2 * D) ^ 3) * D < (27 * (H * D ^ 2)) * D := by
            calc _ < _ := hcube
              _ = _ := by ring
          exact_mod_cast lt_of_mul_lt_mul_right h1 hDq.le
        have c3 := root_room (by omega) hroom x0 g3 c0 hcc
        have A3c : (A : ℝ) ^ 3 < H * D ^ 2 := by
          have e2 : (3 * A) ^ 3 ≤ (x + 2 * D) ^ 3 := pow_le_pow_left₀ (by omega) A3 3
          rw [mul_pow] at e2
          norm_num at e2
          have : A ^ 3 < H * D ^ 2 := by omega
          exact_mod_cast this
        have z0r : (0 : ℝ) ≤ z := by exact_mod_cast zp.le
        have zc : (z : ℝ) ^ 3 < H * D ^ 2 := lt_of_le_of_lt (pow_le_pow_left₀ z0r hzM 3) (mm (fun t => t ^ 3 < H * D ^ 2) A3c c3)
        have zc' : z ^ 3 < H * D ^ 2 := by exact_mod_cast zc
        have wH : w < H := by
          have : w * (D ^ 2) < H * D ^ 2 := by linarith [show w * D * D = w * D ^ 2 by ring, show z * z * z = z ^ 3 by ring]
          exact lt_of_mul_lt_mul_right this (by positivity)
        by_contra hk0
        have hk1 : 1 ≤ (k : Int) := by omega
        have hkH : 1 * H ≤ k * H := mul_le_mul_of_nonneg_right hk1 hH0.le
        -- then `x` is below `10 E`, so the start value and the root are below one
        have hx10 : x < 10 * E := by omega
        have zD : (z : ℝ) ≤ D := by
          refine le_trans hzM (mm (fun t => t ≤ (D : ℝ)) (by exact_mod_cast (by omega : A ≤ D)) ?_)
          by_contra hcon; push Not at hcon
          have h1 : (D : ℝ) / 2 < c := by linarith
          have h2 := pow_lt_pow_left₀ h1 (by positivity) (n := 3) (by norm_num)
          rw [hcc] at h2
          have h3 : (x : ℝ) < 10 / 65536 * D := by
            have : (x : ℝ) < 10 * E := by exact_mod_cast hx10
            have : (D : ℝ) = 65536 * E := by exact_mod_cast hDE
            linarith
          have h4 := mul_lt_mul_of_pos_right h3 (by positivity : (0 : ℝ) < (D : ℝ) ^ 2)
          have h5 : (0 : ℝ) < (D : ℝ) ^ 3 := by positivity
          have e6 : ((D : ℝ) / 2) ^ 3 = D ^ 3 / 8 := by ring
          have e7 : 10 / 65536 * (D : ℝ) * D ^ 2 = 10 / 65536 * D ^ 3 := by ring
          linarith
        have zD' : z ≤ D := by exact_mod_cast zD
        have wD : w ≤ D := by
          have h1 : z * z * z ≤ D * D * D := mul_le_mul (mul_le_mul zD' zD' zp.le hD0.le) zD' zp.le (by positivity)
          have h2 : w * (D * D) ≤ D * (D * D) := by linarith [show w * D * D = w * (D * D) by ring, show D * D * D = D * (D * D) by ring]
          exact le_of_mul_le_mul_right h2 (by positivity)
        omega
    · left
      have hb' : (A : ℝ) ≤ 2 ^ 64 := by exact_mod_cast (by omega : A ≤ 2 ^ 64)
      have h28 : (z : ℝ) - 28 ≤ c := by
        have h1 : (2 / 3 : ℝ) ^ 201 * ((A : ℝ) - c - 27) ≤ (2 / 3) ^ 201 * 2 ^ 64 :=
          mul_le_mul_of_nonneg_left (by linarith) (by positivity)
        have h2 : (2 / 3 : ℝ) ^ 201 * 2 ^ 64 ≤ 1 := by norm_num
        linarith
      have hz0' : (2700 : ℝ) * E ≤ z := by exact_mod_cast hz0
      have hE1 : (1 : ℝ) ≤ E := by exact_mod_cast hE
      have h3 : ((z : ℝ) - 28) ^ 3 ≤ x * D ^ 2 := by
        rw [← hcc]; exact pow_le_pow_left₀ (by linarith) h28 3
      have h3' : ((z : ℚ) - 28) ^ 3 ≤ x * D ^ 2 := by exact_mod_cast h3
      rw [vv, vv, uu]
      have e : ((z : ℚ) / D - 28 * (1 / D)) ^ 3 = (z - 28) ^ 3 / D ^ 3 := by rw [show (z : ℚ) / D - 28 * (1 / D) = (z - 28) / D by ring, div_pow]
      rw [e, div_le_div_iff₀ (by positivity) hDq]
      have := mul_le_mul_of_nonneg_right h3' hDq.le
      linarith [show (x : ℚ) * D ^ 2 * D = x * D ^ 3 by ring]

-- unsigned 16.16: the cube of the start value (about 34^3) still fits for 100, for 600 (about 200^3) it does not
example : cbrt (LU 32 16) (100 * 2 ^ 16) = .ok 304191 ∧ cbrt (LU 32 16) (600 * 2 ^ 16) = .ok 552752 ∧ ((600 + 2 : ℚ) / 3) ^ 2 < 2 ^ (32 - 16) := by
  refine ⟨by decide +kernel, by decide +kernel, by norm_num⟩

/-- C157 as one would like it: on every unsigned layout with at least four integer bits, for every argument whose start value has a square in range (all that
the iteration needs), `cbrt` is defined and cubes back. -/
def C157_statement : Prop := ∀ B f : Nat, UB B → 0 < f → f + 4 ≤ B → ∀ x, Storable (LU B f) x → ((val (LU B f) x + 2) / 3) ^ 2 < 2 ^ (B - f) →
  ∃ r, cbrt (LU B f) x = .ok r ∧
    |val (LU B f) x - val (LU B f) r ^ 3| ≤ 10 / 65536 + (1 + val (LU B f) r + 84 * val (LU B f) r ^ 2) * ulp (LU B f)

/-- C157: in unsigned 8.24 storage `cbrt(17.4726…)` is `6.49…`, since the cube of the start value wraps to just below the argument. -/
theorem C157_false : ¬ C157_statement := by
  intro h
  obtain ⟨r, e, hr⟩ := h 32 24 (Or.inl rfl) (by norm_num) (by norm_num) 293143023 (by decide +kernel) (by norm_num [val])
  have e' : cbrt (LU 32 24) 293143023 = .ok 108899151 := by decide +kernel
  rw [e'] at e
  injection e with e
  rw [← e] at hr
  norm_num [val, ulp, abs_le] at hr

/-- C157: with at most 13 fraction bits the tolerance is zero and `cbrt(0)` divides by zero, as in signed storage (`C117_zero`). -/
theorem C157_zero : ∀ f < 14, 0 < f → cbrt (LU 32 f) 0 = .ub .divZero ∧ cbrt (LU 64 f) 0 = .ub .divZero := by
  decide +kernel

/-- C157, what holds: with at least 16 fraction bits the result cubes back for every argument whose start value has a cube in range.
Missing: fewer fraction bits (`C157_zero`) and larger arguments, for which it can fail (`C157_false`, and `C157_root` says how). -/
theorem C157_cubes_back_partial (B f : Nat) (hB : UB B) (h16 : 16 ≤ f) (h4 : f + 4 ≤ B) (x : Int) (hx : Storable (LU B f) x)
    (hc : ((val (LU B f) x + 2) / 3) ^ 3 < 2 ^ (B - f)) :
    ∃ r, cbrt (LU B f) x = .ok r ∧ 0 ≤ val (LU B f) r ∧
      |val (LU B f) x - val (LU B f) r ^ 3| ≤ 10 / 65536 + (1 + val (LU B f) r + 84 * val (LU B f) r ^ 2) * ulp (LU B f) := by
  have hu := ulp_pos (LU B f)
  have hu2 : ulp (LU B f) ≤ 1 / 65536 := by
    unfold ulp
    apply one_div_le_one_div_of_le (by norm_num)
    calc (65536 : ℚ) = 2 ^ 16 := by norm_num
      _ ≤ 2 ^ f := pow_le_pow_right₀ (by norm_num) h16
  obtain ⟨x0, xH⟩ := lu_in.1 hx
  have v0 : 0 ≤ val (LU B f) x := by rw [← val_zero (LU B f), val_le]; exact x0
  have hspan : (16 : ℚ) ≤ 2 ^ (B - f) := by
    calc (16 : ℚ) = 2 ^ 4 := by norm_num
      _ ≤ 2 ^ (B - f) := pow_le_pow_right₀ (by norm_num) (by omega)
  by_cases hb : 5 / 65536 ≤ val (LU B f) x
  · have hc2 : ((val (LU B f) x + 2) / 3) ^ 2 < 2 ^ (B - f) := by
      by_cases h1 : (val (LU B f) x + 2) / 3 ≤ 1
      · have : ((val (LU B f) x + 2) / 3) ^ 2 ≤ 1 := pow_le_one₀ (by linarith) h1
        linarith
      · push Not at h1
        exact lt_of_le_of_lt (pow_le_pow_right₀ h1.le (by norm_num)) hc
    obtain ⟨r, e, r0, b1, b2⟩ := C157_root B f hB h16 h4 x hx hb hc2
    refine ⟨r, e, by linarith, ?_⟩
    have p1 : 0 ≤ val (LU B f) r * ulp (LU B f) := mul_nonneg (by linarith) hu.le
    have p2 : 0 ≤ val (LU B f) r ^ 2 * ulp (LU B f) := by positivity
    rcases b2 with b | ⟨k, b, hk⟩
    · have := cube_back hu hu2 r0 b1 b
      linarith
    · rw [hk hc] at b
      simp only [Nat.cast_zero, zero_mul, add_zero] at b
      linarith
  · push Not at hb
    have heps := lu_eps16 hB h16 h4
    obtain ⟨hv, hs, hz0⟩ := lu_valid hB (f := f) (by omega) (by omega)
    have nn := nn_unsigned hB (f := f) (by omega) (by omega) (M := 2 ^ B) le_rfl
    have xE : x < 5 * 2 ^ (f - 16) := by
      have : val (LU B f) x < val (LU B f) (5 * 2 ^ (f - 16)) := by
        refine lt_of_lt_of_le hb ?_
        unfold val
        rw [div_le_div_iff₀ (by norm_num) (by positivity)]
        push_cast
        have : (2 : ℚ) ^ f = 65536 * 2 ^ (f - 16) := by
          rw [show (65536 : ℚ) = 2 ^ 16 by norm_num, ← pow_add]; congr 1; omega
        show (5 : ℚ) * 2 ^ f ≤ _
        rw [this]; linarith
      exact val_lt.1 this
    refine ⟨0, ?_, by simp [val], ?_⟩
    · unfold cbrt
      rw [nn.abs x x0 xH, heps, Res.bind_ok, Res.bind_ok, if_pos (by rw [lt_iff]; exact xE), hz0]
      rfl
    · rw [val_zero, show val (LU B f) x - 0 ^ 3 = val (LU B f) x by ring, abs_of_nonneg v0]
      have : 0 ≤ (1 + 0 + 84 * 0 ^ 2) * ulp (LU B f) := by linarith
      linarith

-- beyond the range of `C157_root` the square of an iterate can wrap to zero, and then the loop divides by it
example : cbrt (LU 64 32) (8 * 2 ^ 32) = .ok 8589934592 ∧ ((8 + 2 : ℚ) / 3) ^ 3 < 2 ^ (64 - 32) ∧ cbrt (LU 32 16) 4 = .ok 0 ∧
    cbrt (LU 32 16) 1358741603 = .ub .divZero := by
  refine ⟨by decide +kernel, by norm_num, by decide +kernel, by decide +kernel⟩

end Eirin.Props
