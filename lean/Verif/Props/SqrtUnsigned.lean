import Verif.Props.SqrtAll

/-! # C139: the square root on unsigned layouts -/

namespace Eirin.Props
open Eirin Spec

/-- The unsigned layout with `B` bits of storage and `f` fraction bits. -/
abbrev LU (B f : Nat) : FxTy := ⟨⟨B, false⟩, ⟨2 * B, false⟩, f, false⟩

/-- The widths in question. -/
abbrev UB (B : Nat) : Prop := B = 32 ∨ B = 64

theorem lu_valid {B f : Nat} (hB : UB B) (h0 : 0 < f) (h1 : f + 3 ≤ B) : (LU B f).Valid ∧ ¬ SignedWide (LU B f) ∧ ofInt (LU B f) 0 = 0 := by
  have a : ∀ f < 62, 0 < f → (LU 64 f).Valid ∧ ¬ SignedWide (LU 64 f) ∧ ofInt (LU 64 f) 0 = 0 := by decide +kernel
  have b : ∀ f < 30, 0 < f → (LU 32 f).Valid ∧ ¬ SignedWide (LU 32 f) ∧ ofInt (LU 32 f) 0 = 0 := by decide +kernel
  rcases hB with rfl | rfl
  · exact b f (by omega) h0
  · exact a f (by omega) h0

theorem lu_in {B f : Nat} {x : Int} : (LU B f).T.InRange x ↔ 0 ≤ x ∧ x < 2 ^ B := by
  show (0 : Int) ≤ x ∧ x ≤ 2 ^ B - 1 ↔ _
  omega

theorem lu_init {B e f : Nat} (hB : UB B) (he : e < B) (h0 : 0 < f) (h1 : f + 3 ≤ B) :
    0 < fromInternal (LU B f) (getSqrtInitValue (LU B f) e) ∧
    8 * fromInternal (LU B f) (getSqrtInitValue (LU B f) e) ^ 2 = guessRatio e f * 2 ^ (e + f) := by
  have a : ∀ f < 62, 0 < f → ∀ e < 64, 0 < fromInternal (LU 64 f) (getSqrtInitValue (LU 64 f) (e : Nat)) ∧
    8 * fromInternal (LU 64 f) (getSqrtInitValue (LU 64 f) (e : Nat)) ^ 2 = guessRatio e f * 2 ^ (e + f) := by decide +kernel
  have b : ∀ f < 30, 0 < f → ∀ e < 32, 0 < fromInternal (LU 32 f) (getSqrtInitValue (LU 32 f) (e : Nat)) ∧
    8 * fromInternal (LU 32 f) (getSqrtInitValue (LU 32 f) (e : Nat)) ^ 2 = guessRatio e f * 2 ^ (e + f) := by decide +kernel
  rcases hB with rfl | rfl
  · exact b f (by omega) h0 e (by omega)
  · exact a f (by omega) h0 e (by omega)

theorem lu_eps {B f : Nat} (hB : UB B) (h0 : 0 < f) (h1 : f + 3 ≤ B) : ∃ E, epsilon (LU B f) = .ok E ∧ 0 ≤ E ∧ E * 65536 ≤ 5 * 2 ^ f ∧ E ≤ 2 ^ (B - 2) := by
  have a : ∀ f < 62, 0 < f → (match epsilon (LU 64 f) with
      | .ok e => decide (0 ≤ e ∧ e * 65536 ≤ 5 * 2 ^ f ∧ e ≤ 2 ^ 62)
      | _ => false) = true := by decide +kernel
  have b : ∀ f < 30, 0 < f → (match epsilon (LU 32 f) with
      | .ok e => decide (0 ≤ e ∧ e * 65536 ≤ 5 * 2 ^ f ∧ e ≤ 2 ^ 30)
      | _ => false) = true := by decide +kernel
  rcases hB with rfl | rfl
  · have := b f (by omega) h0
    split at this
    · rename_i e he
      exact ⟨e, he, of_decide_eq_true this⟩
    · cases this
  · have := a f (by omega) h0
    split at this
    · rename_i e he
      exact ⟨e, he, of_decide_eq_true this⟩
    · cases this

/-- One evaluation of the loop body: the loop is left only if the square is not above the argument, for otherwise the difference wraps to a large value. -/
theorem newton_step_u {B f : Nat} (hB : UB B) (hf0 : 0 < f) (hf1 : f + 3 ≤ B) {X x E : Int} (n : Nat) (h0 : 0 < X) (h1 : X < 2 ^ B) (hx0 : 0 < x)
    (hq : x + X * 2 ^ f / x < 2 ^ B) (hE : E ≤ 2 ^ (B - 2)) (hsq : nextIt (X * 2 ^ f) x ^ 2 ≤ X * 2 ^ f + 3 * 2 ^ (B - 2) * 2 ^ f) :
    sqrtNewton (LU B f) X E (n + 1) x =
      (if nextIt (X * 2 ^ f) x ^ 2 / 2 ^ f ≤ X ∧ X - nextIt (X * 2 ^ f) x ^ 2 / 2 ^ f < E then .ok (nextIt (X * 2 ^ f) x)
      else sqrtNewton (LU B f) X E n (nextIt (X * 2 ^ f) x)) := by
  obtain ⟨hv, hs, _⟩ := lu_valid hB hf0 hf1
  have hp : (0 : Int) < 2 ^ f := by positivity
  have hb : 0 < (LU B f).T.bits := hv.tpos
  have h4 : (2 : Int) ^ B = 4 * 2 ^ (B - 2) := by
    rw [show (4 : Int) = 2 ^ 2 by norm_num, ← pow_add]; congr 1; omega
  have hQ0 : 0 ≤ X * 2 ^ f / x := Int.ediv_nonneg (by positivity) hx0.le
  set Q := X * 2 ^ f / x with hQ
  set y := nextIt (X * 2 ^ f) x with hy
  have hyd : y = (x + Q) / 2 := rfl
  have hXi : (LU B f).T.InRange X := lu_in.2 ⟨h0.le, h1⟩
  have hxi : (LU B f).T.InRange x := lu_in.2 ⟨hx0.le, by omega⟩
  have hQi : (LU B f).T.InRange Q := lu_in.2 ⟨hQ0, by omega⟩
  have hsi : (LU B f).T.InRange (x + Q) := lu_in.2 ⟨by omega, hq⟩
  have hyi : (LU B f).T.InRange y := lu_in.2 ⟨by omega, by omega⟩
  have e1 : div (LU B f) X x = .ok Q := by
    have e : Int.tdiv (X * 2 ^ (LU B f).f) x = Q := tdiv_eq_ediv (by positivity)
    rw [div_nf hv rfl hXi, if_neg hx0.ne', e, IntTy.wrap_of_inRange hb hQi]
  have e2 : add (LU B f) x Q = .ok (x + Q) := by
    rw [add_nf hv hxi hQi, if_neg (fun h => hs h.1), IntTy.wrap_of_inRange hb hsi]
  have e3 : divInt (LU B f) i32 (x + Q) 2 = .ok y := by
    have hk : IntTy.common (LU B f).T i32 = (LU B f).T := by rcases hB with rfl | rfl <;> rfl
    have h2 : (LU B f).T.InRange 2 := lu_in.2 ⟨by norm_num, by rcases hB with rfl | rfl <;> norm_num⟩
    unfold divInt divIntAssign
    simp only [hk]
    rw [IntTy.wrap_of_inRange hb hsi, IntTy.wrap_of_inRange hb h2]
    have : cdiv (LU B f).T (x + Q) 2 = .ok y := by
      unfold cdiv
      rw [if_neg (by norm_num), if_neg (by simp), tdiv_eq_ediv (by omega), hyd]
    rw [this, Res.bind_ok, Res.pure_eq, IntTy.wrap_of_inRange hb hyi]
  have e4 : mul (LU B f) y y = .ok ((LU B f).T.wrap (y ^ 2 / 2 ^ f)) := by
    rw [mul_nf hv rfl hyi hyi, pow_two]
  have hwi : (LU B f).T.InRange ((LU B f).T.wrap (y ^ 2 / 2 ^ f)) := IntTy.wrap_inRange _ hb
  have e5 : sub (LU B f) X ((LU B f).T.wrap (y ^ 2 / 2 ^ f)) = .ok ((X - y ^ 2 / 2 ^ f) % 2 ^ B) := by
    rw [sub_nf hv hXi hwi, if_neg (fun h => hs h.1)]
    congr 1
    show (X - (y ^ 2 / 2 ^ f) % ((2 ^ B : Nat) : Int)) % ((2 ^ B : Nat) : Int) = _
    push_cast
    rw [Int.sub_emod, Int.emod_emod_of_dvd _ (dvd_refl _), ← Int.sub_emod]
  have hm0 : 0 ≤ (X - y ^ 2 / 2 ^ f) % 2 ^ B := Int.emod_nonneg _ (by positivity)
  have hm1 : (X - y ^ 2 / 2 ^ f) % 2 ^ B < 2 ^ B := Int.emod_lt_of_pos _ (by positivity)
  have e6 : abs (LU B f) ((X - y ^ 2 / 2 ^ f) % 2 ^ B) = .ok ((X - y ^ 2 / 2 ^ f) % 2 ^ B) := by
    unfold abs
    rw [if_neg (by omega), Res.pure_eq, Res.bind_ok]
    show Res.ok _ = _
    congr 1
    exact IntTy.wrap_of_inRange hb (lu_in.2 ⟨hm0, hm1⟩)
  have hz0 : 0 ≤ y ^ 2 / 2 ^ f := Int.ediv_nonneg (by positivity) hp.le
  have hz1 : y ^ 2 / 2 ^ f ≤ X + 3 * 2 ^ (B - 2) := by
    have := Int.ediv_le_ediv hp hsq
    rwa [← add_mul, Int.mul_ediv_cancel _ hp.ne'] at this
  conv_lhs => unfold sqrtNewton
  rw [e1, Res.bind_ok, e2, Res.bind_ok, e3, Res.bind_ok, e4, Res.bind_ok, e5, Res.bind_ok, e6, Res.bind_ok]
  have hiff : (X - y ^ 2 / 2 ^ f) % 2 ^ B < E ↔ y ^ 2 / 2 ^ f ≤ X ∧ X - y ^ 2 / 2 ^ f < E := by
    by_cases hc : y ^ 2 / 2 ^ f ≤ X
    · rw [Int.emod_eq_of_lt (by omega) (by omega)]; simp [hc]
    · rw [← Int.add_emod_right, Int.emod_eq_of_lt (by omega) (by omega)]
      constructor
      · intro h; omega
      · intro h; omega
  simp only [lt_iff, hiff]

/-- The remaining iterations, from an iterate close to the root. -/
theorem newton_rest_u {B f : Nat} (hB : UB B) (hf0 : 0 < f) (hf1 : f + 3 ≤ B) {X E M : Int} (h0 : 0 < X) (h1 : X < 2 ^ B) (hE : E ≤ 2 ^ (B - 2)) (s : ℝ)
    (hs : 2 ≤ s) (hN : s ^ 2 = (X * 2 ^ f : Int)) (hM : X * 2 ^ f + 1 ≤ M) (hM1 : M ≤ X * 2 ^ f + 3 * 2 ^ (B - 2) * 2 ^ f) (hM2 : M < (2 ^ (B - 1)) ^ 2) :
    ∀ (n : Nat) (x : Int) (d : ℝ), 0 ≤ d → s - 1 < x → x ^ 2 ≤ M → (x : ℝ) - s ≤ Max.max (s * d) (1 / 2) →
    ∃ r, sqrtNewton (LU B f) X E n x = .ok r ∧ s - 1 < r ∧ r ^ 2 ≤ M ∧
      (r ^ 2 / 2 ^ f ≤ X ∧ X - r ^ 2 / 2 ^ f < E ∨ (r : ℝ) - s ≤ Max.max (s * (2 * (d / 2) ^ 2 ^ n)) (1 / 2)) := by
  intro n
  induction n with
  | zero =>
    intro x d hd hx hxM he
    refine ⟨x, rfl, hx, hxM, Or.inr ?_⟩
    have : 2 * (d / 2) ^ 2 ^ 0 = d := by ring
    rw [this]; exact he
  | succ n ih =>
    intro x d hd hx hxM he
    obtain ⟨a, b⟩ := nextIt_err (X * 2 ^ f) x s d hs hN hx hd he
    have hx0 : (0 : ℝ) < x := by linarith
    have hxi : 0 < x := by exact_mod_cast hx0
    have hNx : X * 2 ^ f < (x + 1) ^ 2 := by
      have : s ^ 2 < ((x : ℝ) + 1) ^ 2 := pow_lt_pow_left₀ (by linarith) (by linarith) (by norm_num)
      rw [hN] at this; exact_mod_cast this
    obtain ⟨g1, g2⟩ := newton_grow hxi hNx hM hxM (by positivity)
    have hq := g2 (2 ^ (B - 1)) (by positivity) hM2
    have e2 : 2 * (2 : Int) ^ (B - 1) = 2 ^ B := by rw [← pow_succ']; congr 1; omega
    rw [newton_step_u hB hf0 hf1 n h0 h1 hxi (by rw [← e2]; exact hq) hE (le_trans g1 hM1)]
    split
    · rename_i hb
      exact ⟨_, rfl, a, g1, Or.inl hb⟩
    · obtain ⟨r, hr, c1, c2, c3⟩ := ih (nextIt (X * 2 ^ f) x) (d ^ 2 / 2) (by positivity) a g1 b
      refine ⟨r, hr, c1, c2, ?_⟩
      have e : 2 * (d ^ 2 / 2 / 2) ^ 2 ^ n = 2 * (d / 2) ^ 2 ^ (n + 1) := by
        rw [pow_succ 2 n, mul_comm (2 ^ n) 2, pow_mul]; congr 2; ring
      rwa [e] at c3

theorem sqrt_pos_u {B f : Nat} (hB : UB B) (hf0 : 0 < f) (hf1 : f + 3 ≤ B) {X : Int} (h0 : 0 < X) (h1 : X < 2 ^ B) :
    ∃ (e : Nat) (E : Int), e < B ∧ (2 : Int) ^ e ≤ X ∧ X < 2 ^ (e + 1) ∧ 0 ≤ E ∧ E * 65536 ≤ 5 * 2 ^ f ∧ E ≤ 2 ^ (B - 2) ∧
      sqrt (LU B f) X = sqrtNewton (LU B f) X E 5 (fromInternal (LU B f) (getSqrtInitValue (LU B f) e)) := by
  obtain ⟨hv, hs, hz⟩ := lu_valid hB hf0 hf1
  obtain ⟨E, hE, E0, E1, E2⟩ := lu_eps hB hf0 hf1
  have hB1 : B - 1 + 1 = B := by omega
  obtain ⟨e, he, h2, h3⟩ := findMsbLoop_spec (B - 1) X 0 h0 (by rw [hB1]; exact h1)
  rw [hB1] at he
  have heB : e < B := by
    by_contra hc
    have : (2 : Int) ^ B ≤ 2 ^ e := pow_le_pow_right₀ (by norm_num) (by omega)
    omega
  refine ⟨e, E, heB, h2, h3, E0, E1, E2, ?_⟩
  have hm : findMsb (LU B f).T X = .ok e := by
    unfold findMsb
    rw [if_neg (by omega)]
    have hu : (⟨B, false⟩ : IntTy).wrap X = X := IntTy.wrap_of_inRange hv.tpos (lu_in (f := f).2 ⟨h0.le, h1⟩)
    rw [if_neg (not_lt.2 h0.le), Res.pure_eq, Res.bind_ok]
    show Res.ok (findMsbLoop B ((⟨B, false⟩ : IntTy).wrap X) 0) = _
    rw [hu, he, zero_add]
  unfold sqrt
  rw [if_neg (show ¬ (LU B f).T = i32 by intro h; have := congrArg IntTy.signed h; cases this), hz, if_neg (by rw [lt_iff]; omega),
    if_neg (by rw [eq_iff]; omega), hm, Res.bind_ok, hE, Res.bind_ok]

/-- The raw form. -/
theorem sqrt_u_raw {B f : Nat} (hB : UB B) (hf0 : 0 < f) (hf1 : f + 3 ≤ B) {X : Int} (h0 : 0 < X) (h1 : X < 2 ^ B) :
    ∃ (r E : Int), sqrt (LU B f) X = .ok r ∧ 0 ≤ r ∧ r < 2 ^ B ∧ X * 2 ^ f < (r + 1) ^ 2 ∧ E * 65536 ≤ 5 * 2 ^ f ∧
      (r ^ 2 / 2 ^ f ≤ X ∧ X - r ^ 2 / 2 ^ f < E ∨ (2 * r - 1) ^ 2 ≤ 4 * (X * 2 ^ f)) := by
  have hp : (0 : Int) < 2 ^ f := by positivity
  by_cases hsmall : X * 2 ^ f < 4
  · have hp : (2 : Int) ^ 1 ≤ 2 ^ f := pow_le_pow_right₀ (by norm_num) hf0
    have : X = 1 ∧ f = 1 := by
      have hX : X = 1 := by nlinarith
      subst hX
      refine ⟨rfl, ?_⟩
      by_contra hc
      have : (2 : Int) ^ 2 ≤ 2 ^ f := pow_le_pow_right₀ (by norm_num) (by omega)
      omega
    obtain ⟨rfl, rfl⟩ := this
    refine ⟨1, 0, ?_, by norm_num, ?_, by norm_num, by norm_num, by norm_num⟩ <;> rcases hB with rfl | rfl <;> decide +kernel
  push Not at hsmall
  obtain ⟨e, E, he, hlo, hhi, E0, E1, E2, hrun⟩ := sqrt_pos_u hB hf0 hf1 h0 h1
  obtain ⟨i1, i2⟩ := lu_init hB he hf0 hf1
  rw [hrun]
  clear hrun
  generalize fromInternal (LU B f) (getSqrtInitValue (LU B f) e) = x0 at *
  set N := X * 2 ^ f with hNd
  have hN0 : 0 < N := by positivity
  obtain ⟨s, hs0, hN⟩ : ∃ s : ℝ, 0 ≤ s ∧ s ^ 2 = (N : Int) :=
    ⟨Real.sqrt ((N : Int) : ℝ), Real.sqrt_nonneg _, Real.sq_sqrt (by positivity)⟩
  have hs2 : 2 ≤ s := by
    have : (2 : ℝ) ^ 2 ≤ s ^ 2 := by rw [hN]; norm_num; exact_mod_cast hsmall
    exact le_of_sq_le_sq this hs0
  set A := (2 : Int) ^ (e + f) with hAd
  have hA : A = 2 ^ e * 2 ^ f := pow_add _ _ _
  have hA0 : 0 < A := by positivity
  have hNlo : A ≤ N := by rw [hA]; exact mul_le_mul_of_nonneg_right hlo hp.le
  have hNhi : N < 2 * A := by
    rw [hA, hNd, ← mul_assoc, ← pow_succ']; exact mul_lt_mul_of_pos_right hhi hp
  have hkm := guess_cases e f
  -- powers of two
  set W := (2 : Int) ^ (B - 2) * 2 ^ f with hW
  have hW0 : 0 < W := by positivity
  have h4 : (2 : Int) ^ B = 4 * 2 ^ (B - 2) := by
    rw [show (4 : Int) = 2 ^ 2 by norm_num, ← pow_add]; congr 1; omega
  have hNW : N + 2 ≤ 4 * W := by
    have h2 : (2 : Int) ^ 1 ≤ 2 ^ f := pow_le_pow_right₀ (by norm_num) hf0
    have h3 : N ≤ (2 ^ B - 1) * 2 ^ f := mul_le_mul_of_nonneg_right (by omega) hp.le
    have h5 : (2 ^ B - 1) * (2 : Int) ^ f = 4 * W - 2 ^ f := by rw [hW, h4]; ring
    omega
  have hAW : A ≤ 2 * W := by
    have : (2 : Int) ^ e ≤ 2 ^ (B - 1) := pow_le_pow_right₀ (by norm_num) (by omega)
    have h5 : (2 : Int) ^ (B - 1) = 2 * 2 ^ (B - 2) := by rw [← pow_succ']; congr 1; omega
    rw [hA, hW, ← mul_assoc, ← h5]; exact mul_le_mul_of_nonneg_right this hp.le
  have hWB : 8 * W ≤ (2 ^ (B - 1)) ^ 2 := by
    rw [hW, show (8 : Int) = 2 ^ 3 by norm_num, ← pow_add, ← pow_add, ← pow_mul]
    exact pow_le_pow_right₀ (by norm_num) (by omega)
  have hsm := first_small i1 hA0 i2 hNlo hNhi hkm (P := 4 * A) (Or.inl le_rfl)
  obtain ⟨_, f3⟩ := first_use i1 hN0.le hsm
  have hq := f3 (2 ^ (B - 1)) (by positivity) (by omega)
  have e2 : 2 * (2 : Int) ^ (B - 1) = 2 ^ B := by rw [← pow_succ']; congr 1; omega
  rw [e2] at hq
  have herr := first_err i1 hA0 i2 hNlo hNhi hkm s (by linarith) hN
  have hge := nextIt_ge N x0 i1 s hs0 hN
  have f1 : 16 * nextIt N x0 ^ 2 ≤ 25 * N := by
    have h5 : (nextIt N x0 : ℝ) ≤ s * (5 / 4) := by
      have : s * (if guessRatio e f = 4 then 1 / 4 else 1 / 12 : ℝ) ≤ s * (1 / 4) := mul_le_mul_of_nonneg_left (by split <;> norm_num) hs0
      linarith
    have h6 : (nextIt N x0 : ℝ) ^ 2 ≤ (s * (5 / 4)) ^ 2 := pow_le_pow_left₀ (by linarith) h5 2
    have h7 : 16 * (nextIt N x0 : ℝ) ^ 2 ≤ 25 * N := by rw [mul_pow, hN] at h6; linarith
    exact_mod_cast h7
  have f2 : nextIt N x0 ^ 2 ≤ N + 3 * W := by omega
  have f4 : nextIt N x0 ^ 2 < (2 ^ (B - 1)) ^ 2 := by omega
  -- final conversion
  have conv : ∀ r : Int, s - 1 < r → 0 ≤ r ∧ N < (r + 1) ^ 2 ∧ ((r : ℝ) - s ≤ 1 / 2 → (2 * r - 1) ^ 2 ≤ 4 * N) := by
    intro r hr
    have hr0 : (0 : ℝ) < r := by linarith
    refine ⟨by exact_mod_cast hr0.le, ?_, fun h => ?_⟩
    · have : (N : ℝ) < ((r : ℝ) + 1) ^ 2 := by rw [← hN]; exact pow_lt_pow_left₀ (by linarith) hs0 (by norm_num)
      exact_mod_cast this
    · have h1r : (1 : ℝ) ≤ r := by
        have : 0 < r := by exact_mod_cast hr0
        exact_mod_cast this
      have : (2 * (r : ℝ) - 1) ^ 2 ≤ (2 * s) ^ 2 := pow_le_pow_left₀ (by linarith) (by linarith) 2
      rw [mul_pow, hN] at this
      have h2 : (2 * (r : ℝ) - 1) ^ 2 ≤ 4 * (N : ℝ) := by linarith
      exact_mod_cast h2
  have small : ∀ r : Int, 0 ≤ r → r ^ 2 < (2 ^ (B - 1)) ^ 2 → r < 2 ^ B := by
    intro r _ hr
    have : r < 2 ^ (B - 1) := lt_of_pow_lt_pow_left₀ 2 (by positivity) hr
    omega
  have hstep := newton_step_u hB hf0 hf1 (E := E) 4 h0 h1 i1 (by rw [← hNd]; exact hq) E2 (by rw [← hNd, mul_assoc, ← hW]; exact f2)
  rw [← hNd] at hstep
  rw [hstep]
  generalize nextIt N x0 = x1 at *
  split
  · rename_i hb
    obtain ⟨c1, c2, _⟩ := conv x1 hge
    exact ⟨x1, E, rfl, c1, small x1 c1 f4, c2, E1, Or.inl hb⟩
  · set d : ℝ := if guessRatio e f = 4 then 1 / 4 else 1 / 12 with hd
    have hd0 : 0 ≤ d := by rw [hd]; split <;> norm_num
    have hd2 : s * (2 * (d / 2) ^ 2 ^ 4) ≤ 1 / 2 := by
      rw [hd]; split
      · rename_i h4
        have he1 : e = 1 := by
          unfold guessRatio at h4; split at h4 <;> split at h4 <;> (try split at h4) <;> omega
        have hs32 : s < 2 ^ 32 := by
          have : s ^ 2 < ((2 : ℝ) ^ 32) ^ 2 := by
            rw [hN]
            have h5 : A ≤ 2 ^ 63 := pow_le_pow_right₀ (by norm_num) (by omega)
            have : N < 2 ^ 64 := by norm_num at *; omega
            have : (N : ℝ) < ((2 ^ 64 : Int) : ℝ) := by exact_mod_cast this
            push_cast at this; norm_num at this ⊢; exact this
          exact lt_of_pow_lt_pow_left₀ 2 (by norm_num) this
        norm_num at hs32 ⊢; linarith
      · have hs63 : s < 2 ^ 63 := by
          have : s ^ 2 < ((2 : ℝ) ^ 63) ^ 2 := by
            rw [hN]
            have h5 : W ≤ 2 ^ 62 * 2 ^ 61 := mul_le_mul (pow_le_pow_right₀ (by norm_num) (by omega)) (pow_le_pow_right₀ (by norm_num) (by omega))
              (by positivity) (by norm_num)
            have : N < 2 ^ 126 := by norm_num at h5 ⊢; omega
            have : (N : ℝ) < ((2 ^ 126 : Int) : ℝ) := by exact_mod_cast this
            push_cast at this; norm_num at this ⊢; exact this
          exact lt_of_pow_lt_pow_left₀ 2 (by norm_num) this
        norm_num at hs63 ⊢; linarith
    obtain ⟨r, hr, r1, r2, r3⟩ := newton_rest_u hB hf0 hf1 (E := E) (M := Max.max (x1 ^ 2) (N + 1)) h0 h1 E2 s hs2 hN (le_max_right _ _)
      (max_le (by rw [← hNd, mul_assoc, ← hW]; exact f2) (by rw [← hNd, mul_assoc, ← hW]; omega)) (max_lt f4 (by omega)) 4 x1 d hd0 hge
      (le_max_left _ _) (le_max_of_le_left herr)
    obtain ⟨c1, c2, c3⟩ := conv r r1
    exact ⟨r, E, hr, c1, small r c1 (lt_of_le_of_lt r2 (max_lt f4 (by omega))), c2, E1,
      r3.imp_right fun h => c3 (le_trans h (max_le hd2 (le_refl _)))⟩

/-! ### The property -/

/-- C139: on every unsigned 32- and 64-bit layout, `sqrt` is never one ulp or more below the root, and at most half an ulp above it unless the square is
at most `5/65536` below the argument. -/
def C139_statement : Prop := ∀ B f : Nat, UB B → 0 < f → f < B → ∀ x, Storable (LU B f) x → ∃ r, sqrt (LU B f) x = .ok r ∧
  val (LU B f) x < (val (LU B f) r + ulp (LU B f)) ^ 2 ∧
  (val (LU B f) r ^ 2 < val (LU B f) x + ulp (LU B f) ∧ val (LU B f) x - val (LU B f) r ^ 2 < 5 / 65536 ∨
    (val (LU B f) r - ulp (LU B f) / 2) ^ 2 ≤ val (LU B f) x)

/-- With 31 fraction bits the sum of the two iterates wraps: the root of 1.99… comes out as 0.155…. -/
theorem C139_false : ¬ C139_statement := by
  intro h
  obtain ⟨r, h1, h2, _⟩ := h 32 31 (Or.inl rfl) (by norm_num) (by norm_num) 4294967295 (by decide +kernel)
  have e : sqrt (LU 32 31) 4294967295 = .ok 333541798 := by decide +kernel
  rw [h1] at e; cases e
  norm_num [val, ulp] at h2

/-- C139 (at least three integer bits): the square root is defined for every argument; nothing overflows, unlike on the signed layouts. -/
theorem C139_sqrt_partial (B f : Nat) (hB : UB B) (hf0 : 0 < f) (hf1 : f + 3 ≤ B) (x : Int) (hx : Storable (LU B f) x) :
    ∃ r, sqrt (LU B f) x = .ok r ∧ Storable (LU B f) r ∧ val (LU B f) x < (val (LU B f) r + ulp (LU B f)) ^ 2 ∧
      (val (LU B f) r ^ 2 < val (LU B f) x + ulp (LU B f) ∧ val (LU B f) x - val (LU B f) r ^ 2 < 5 / 65536 ∨
        (val (LU B f) r - ulp (LU B f) / 2) ^ 2 ≤ val (LU B f) x) := by
  have hpq : (0 : ℚ) < 2 ^ f := by positivity
  have hp : (0 : Int) < 2 ^ f := by positivity
  obtain ⟨hv, hs, hz⟩ := lu_valid hB hf0 hf1
  obtain ⟨x0, x1⟩ := lu_in.1 hx
  rcases Int.lt_or_eq_of_le x0 with x0 | rfl
  swap
  · refine ⟨0, ?_, lu_in.2 ⟨le_rfl, by positivity⟩, ?_, ?_⟩
    · unfold sqrt
      rw [if_neg (show ¬ (LU B f).T = i32 by intro h; have := congrArg IntTy.signed h; cases this), hz, if_neg (by rw [lt_iff]; omega),
        if_pos (by rw [eq_iff])]
    · rw [val_zero]; have := ulp_pos (LU B f); positivity
    · left; rw [val_zero]; have := ulp_pos (LU B f); norm_num; exact this
  obtain ⟨r, E, h1, h2, h2', h3, h5, h6⟩ := sqrt_u_raw hB hf0 hf1 x0 x1
  have h3' : (x : ℚ) * 2 ^ f < (r + 1) ^ 2 := by exact_mod_cast h3
  refine ⟨r, h1, lu_in.2 ⟨h2, h2'⟩, ?_, ?_⟩
  · unfold val ulp
    rw [← add_div, div_pow, lt_div_iff₀ (by positivity), div_mul_eq_mul_div, div_lt_iff₀ hpq]
    have := mul_lt_mul_of_pos_right h3' hpq
    show (x : ℚ) * (2 ^ f) ^ 2 < (r + 1) ^ 2 * 2 ^ f
    nlinarith
  · rcases h6 with ⟨h6, h7⟩ | h6
    · left
      have l1 := Int.ediv_mul_le (r ^ 2) hp.ne'
      have l2 := Int.lt_ediv_add_one_mul_self (r ^ 2) hp
      have a1 : (x : ℚ) * 2 ^ f - r ^ 2 < E * 2 ^ f := by
        have : x * 2 ^ f - r ^ 2 < E * 2 ^ f := by nlinarith
        exact_mod_cast this
      have a2 : (r : ℚ) ^ 2 < (x + 1) * 2 ^ f := by
        have : r ^ 2 < (x + 1) * 2 ^ f := by nlinarith
        exact_mod_cast this
      have a3 : (E : ℚ) * 65536 ≤ 5 * 2 ^ f := by exact_mod_cast h5
      have eq : val (LU B f) r ^ 2 = (r : ℚ) ^ 2 / 2 ^ f / 2 ^ f := by unfold val; rw [div_pow]; field_simp
      rw [eq]
      constructor
      · unfold val ulp
        rw [← add_div, div_lt_div_iff_of_pos_right hpq, div_lt_iff₀ hpq]; exact a2
      · unfold val
        rw [← sub_div, div_lt_iff₀ hpq, sub_lt_iff_lt_add, ← sub_lt_iff_lt_add', lt_div_iff₀ hpq]
        nlinarith
    · right
      have h6' : (2 * (r : ℚ) - 1) ^ 2 ≤ 4 * (x * 2 ^ f) := by exact_mod_cast h6
      unfold val ulp
      have e : ((r : ℚ) / 2 ^ f - 1 / 2 ^ f / 2) ^ 2 = (2 * (r : ℚ) - 1) ^ 2 / 4 / 2 ^ f / 2 ^ f := by field_simp; ring
      show ((r : ℚ) / 2 ^ f - 1 / 2 ^ f / 2) ^ 2 ≤ (x : ℚ) / 2 ^ f
      rw [e, div_le_div_iff_of_pos_right hpq, div_le_iff₀ hpq]
      linarith

example : sqrt (LU 32 16) 4294967295 = .ok 16777215 ∧ sqrt (LU 32 16) (2 * 65536) = .ok 92682 ∧ sqrt (LU 32 16) 2 = .ok 384 ∧
    sqrt (LU 64 32) (2 ^ 64 - 1) = .ok (2 ^ 48 - 1) ∧ Storable (LU 32 16) 4294967295 ∧ UB 32 := by
  refine ⟨by decide +kernel, by decide +kernel, by decide +kernel, by decide +kernel, by decide +kernel, Or.inl rfl⟩

end Eirin.Props
