import Verif.Props.SqrtUnsigned
import Verif.Props.LogNarrow

/-! # C146: the square root on 8- and 16-bit layouts -/

namespace Eirin.Props
open Eirin Spec

/-- Narrow truncating layouts with at least three bits besides the fraction. -/
structure NS (F : FxTy) : Prop where
  valid : F.Valid
  narrow : Narrow F
  trunc : F.r = false
  room : F.f + 3 ≤ F.T.bits

/-- Number of value bits. -/
def vbits (t : IntTy) : Nat := if t.signed then t.bits - 1 else t.bits

/-- The layouts the tables are computed for (the intermediate type plays no part in them). -/
abbrev nlay (B : Nat) (s : Bool) (f : Nat) : FxTy := ⟨⟨B, s⟩, ⟨64, s⟩, f, false⟩

theorem hi_vbits (t : IntTy) : t.hi + 1 = 2 ^ vbits t := by
  unfold IntTy.hi vbits; split <;> ring

namespace NS
variable {F : FxTy} (h : NS F)
include h

theorem nl : NL F := by
  refine ⟨h.valid, h.narrow, ?_⟩
  rw [hi_vbits, ← pow_succ']
  have := h.room
  refine pow_le_pow_right₀ (by norm_num) ?_
  unfold vbits; split <;> omega

/-- The constants and the guesses, one table for each storage type. -/
theorem tab : epsilon F = .ok 0 ∧ ¬ F.T = i32 ∧ IntTy.common F.T i32 = ⟨32, true⟩ ∧ (F.T.signed = true → ofInt F (-1) = -2 ^ F.f) ∧
    ∀ e < vbits F.T, 0 < fromInternal F (getSqrtInitValue F (e : Nat)) ∧
      8 * fromInternal F (getSqrtInitValue F (e : Nat)) ^ 2 = guessRatio e F.f * 2 ^ (e + F.f) ∧
      (4 * (2 : Int) ^ (e + F.f) ≤ (2 ^ (vbits F.T - 1)) ^ 2 ∨ 2 * (2 : Int) ^ (e + F.f) = (2 ^ (vbits F.T - 1)) ^ 2 ∧ guessRatio e F.f = 16) := by
  obtain ⟨⟨hT, hI, hw, hs, hf0, hf1⟩, hn, hr, hm⟩ := h
  obtain ⟨⟨B, s⟩, ⟨J, s'⟩, f, r⟩ := F
  simp only at hT hI hw hs hf0 hf1 hr hm
  subst hs hr
  have key1 : ∀ s : Bool, ∀ B : Nat, B = 8 ∨ B = 16 → ∀ f < 14, 0 < f → f + 3 ≤ B →
      epsilon (nlay B s f) = .ok 0 ∧ ¬ (nlay B s f).T = i32 ∧ IntTy.common (nlay B s f).T i32 = ⟨32, true⟩ ∧
      ((nlay B s f).T.signed = true → ofInt (nlay B s f) (-1) = -2 ^ f) := by
    intro s B hB
    rcases hB with rfl | rfl <;> cases s <;> decide +kernel
  have key2 : ∀ s : Bool, ∀ B : Nat, B = 8 ∨ B = 16 → ∀ f < 14, 0 < f → f + 3 ≤ B →
      ∀ e < vbits (nlay B s f).T, 0 < fromInternal (nlay B s f) (getSqrtInitValue (nlay B s f) (e : Nat)) ∧
        8 * fromInternal (nlay B s f) (getSqrtInitValue (nlay B s f) (e : Nat)) ^ 2 = guessRatio e f * 2 ^ (e + f) := by
    intro s B hB
    rcases hB with rfl | rfl <;> cases s <;> decide +kernel
  have key3 : ∀ s : Bool, ∀ B : Nat, B = 8 ∨ B = 16 → ∀ f < 14, 0 < f → f + 3 ≤ B →
      ∀ e < vbits (nlay B s f).T, 4 * (2 : Int) ^ (e + f) ≤ (2 ^ (vbits (nlay B s f).T - 1)) ^ 2 ∨
          2 * (2 : Int) ^ (e + f) = (2 ^ (vbits (nlay B s f).T - 1)) ^ 2 ∧ guessRatio e f = 16 := by
    intro s B hB
    rcases hB with rfl | rfl <;> cases s <;> decide +kernel
  have hf : f < 14 := by
    have : B = 8 ∨ B = 16 := hn
    omega
  obtain ⟨a, b, c, d⟩ := key1 s' B hn f hf hf0 hm
  refine ⟨a, b, c, d, fun e he => ?_⟩
  obtain ⟨g, k⟩ := key2 s' B hn f hf hf0 hm e he
  exact ⟨g, k, key3 s' B hn f hf hf0 hm e he⟩

/-- One evaluation of the loop body: the bound is zero, so the loop is never left early. -/
theorem step {X x : Int} (n : Nat) (h0 : 0 < X) (h1 : F.T.InRange X) (hx0 : 0 < x) (hq : x + X * 2 ^ F.f / x ≤ F.T.hi)
    (hsq : nextIt (X * 2 ^ F.f) x ^ 2 ≤ (X + F.T.hi) * 2 ^ F.f) :
    sqrtNewton F X 0 (n + 1) x = sqrtNewton F X 0 n (nextIt (X * 2 ^ F.f) x) := by
  obtain ⟨_, _, hk, _⟩ := h.tab
  have hp : (0 : Int) < 2 ^ F.f := by positivity
  have hb : 0 < F.T.bits := h.valid.tpos
  have hs : ¬ SignedWide F := by
    rintro ⟨_, hw⟩; have := h.narrow; omega
  have hQ0 : 0 ≤ X * 2 ^ F.f / x := Int.ediv_nonneg (by positivity) hx0.le
  set Q := X * 2 ^ F.f / x with hQ
  set y := nextIt (X * 2 ^ F.f) x with hy
  have hyd : y = (x + Q) / 2 := rfl
  have hl := NL.lo0 (F := F)
  have hin : ∀ v, 0 ≤ v → v ≤ F.T.hi → F.T.InRange v := fun v a b => ⟨hl.trans a, b⟩
  have hxi := hin x hx0.le (by omega)
  have hQi := hin Q hQ0 (by omega)
  have hsi := hin (x + Q) (by omega) hq
  have hyi := hin y (by omega) (by omega)
  have e1 : div F X x = .ok Q := by
    rw [div_nf h.valid h.trunc h1, if_neg hx0.ne', tdiv_eq_ediv (by positivity), IntTy.wrap_of_inRange hb hQi]
  have e2 : add F x Q = .ok (x + Q) := by
    rw [add_nf h.valid hxi hQi, if_neg (fun h => hs h.1), IntTy.wrap_of_inRange hb hsi]
  obtain ⟨s1, s2⟩ := h.nl.rng hsi
  have e3 : divInt F i32 (x + Q) 2 = .ok y := by
    unfold divInt divIntAssign
    simp only [hk]
    rw [IntTy.wrap_of_inRange (by norm_num) (int32_in (by omega) (by omega)), IntTy.wrap_of_inRange (by norm_num) (int32_in (by omega) (by omega))]
    have : cdiv ⟨32, true⟩ (x + Q) 2 = .ok y := by
      unfold cdiv
      rw [if_neg (by norm_num), if_neg (by rintro ⟨_, hh⟩; apply hh; rw [tdiv_eq_ediv (by omega)]; exact int32_in (by omega) (by omega)), tdiv_eq_ediv (by omega), hyd]
    rw [this, Res.bind_ok, Res.pure_eq, IntTy.wrap_of_inRange hb hyi]
  have e4 : mul F y y = .ok (F.T.wrap (y ^ 2 / 2 ^ F.f)) := by
    rw [mul_nf h.valid h.trunc hyi hyi, pow_two]
  have hwi : F.T.InRange (F.T.wrap (y ^ 2 / 2 ^ F.f)) := IntTy.wrap_inRange _ hb
  have hz0 : 0 ≤ y ^ 2 / 2 ^ F.f := Int.ediv_nonneg (by positivity) hp.le
  have hz1 : y ^ 2 / 2 ^ F.f ≤ X + F.T.hi := by
    have := Int.ediv_le_ediv hp hsq
    rwa [Int.mul_ediv_cancel _ hp.ne'] at this
  set z := y ^ 2 / 2 ^ F.f with hz
  have e5 : sub F X (F.T.wrap z) = .ok (F.T.wrap (X - z)) := by
    rw [sub_nf h.valid h1 hwi, if_neg (fun h => hs h.1)]
    congr 1
    apply IntTy.wrap_congr
    have := IntTy.wrap_dvd F.T z
    have e : z - F.T.wrap z = X - F.T.wrap z - (X - z) := by ring
    rwa [e] at this
  have e6 : ∃ a, abs F (F.T.wrap (X - z)) = .ok a ∧ 0 ≤ a := by
    have hdi : F.T.InRange (F.T.wrap (X - z)) := IntTy.wrap_inRange _ hb
    unfold abs
    by_cases hc : F.T.wrap (X - z) < 0
    · have hsg : F.T.lo < -F.T.hi := by
        have := hdi.1
        have hlt : F.T.lo < 0 := by omega
        unfold IntTy.lo IntTy.hi at *
        split at hlt
        · rename_i hh; rw [if_pos hh, if_pos hh]; omega
        · omega
      have hd : F.T.wrap (X - z) = X - z := IntTy.wrap_of_inRange hb ⟨by omega, by have := h1.2; omega⟩
      rw [hd] at hdi hc ⊢
      obtain ⟨d1, d2⟩ := h.nl.rng hdi
      rw [if_pos hc, h.nl.arith (by omega) (by omega), Res.bind_ok]
      refine ⟨_, rfl, ?_⟩
      show 0 ≤ F.T.wrap _
      rw [IntTy.wrap_of_inRange hb (hin _ (by omega) (by omega))]
      omega
    · rw [if_neg hc, Res.pure_eq, Res.bind_ok]
      refine ⟨_, rfl, ?_⟩
      show 0 ≤ F.T.wrap _
      rw [IntTy.wrap_of_inRange hb hdi]
      omega
  obtain ⟨a, e6, ha⟩ := e6
  conv_lhs => unfold sqrtNewton
  rw [e1, Res.bind_ok, e2, Res.bind_ok, e3, Res.bind_ok, e4, Res.bind_ok, e5, Res.bind_ok, e6, Res.bind_ok, if_neg (by rw [lt_iff]; omega)]

/-- The remaining iterations, from an iterate close to the root. -/
theorem rest {X M : Int} (h0 : 0 < X) (h1 : F.T.InRange X) (s : ℝ) (hs : 2 ≤ s) (hN : s ^ 2 = (X * 2 ^ F.f : Int)) (hM : X * 2 ^ F.f + 1 ≤ M)
    (hM1 : M ≤ (X + F.T.hi) * 2 ^ F.f) (hM2 : M < (2 ^ (vbits F.T - 1)) ^ 2) :
    ∀ (n : Nat) (x : Int) (d : ℝ), 0 ≤ d → s - 1 < x → x ^ 2 ≤ M → (x : ℝ) - s ≤ Max.max (s * d) (1 / 2) →
    ∃ r, sqrtNewton F X 0 n x = .ok r ∧ s - 1 < r ∧ r ^ 2 ≤ M ∧ (r : ℝ) - s ≤ Max.max (s * (2 * (d / 2) ^ 2 ^ n)) (1 / 2) := by
  intro n
  induction n with
  | zero =>
    intro x d hd hx hxM he
    refine ⟨x, rfl, hx, hxM, ?_⟩
    have : 2 * (d / 2) ^ 2 ^ 0 = d := by ring
    rw [this]; exact he
  | succ n ih =>
    intro x d hd hx hxM he
    obtain ⟨a, b⟩ := nextIt_err (X * 2 ^ F.f) x s d hs hN hx hd he
    have hx0 : (0 : ℝ) < x := by linarith
    have hxi : 0 < x := by exact_mod_cast hx0
    have hNx : X * 2 ^ F.f < (x + 1) ^ 2 := by
      have : s ^ 2 < ((x : ℝ) + 1) ^ 2 := pow_lt_pow_left₀ (by linarith) (by linarith) (by norm_num)
      rw [hN] at this; exact_mod_cast this
    obtain ⟨g1, g2⟩ := newton_grow hxi hNx hM hxM (by positivity)
    have hq := g2 (2 ^ (vbits F.T - 1)) (by positivity) hM2
    have hv : 0 < vbits F.T := by
      have := h.narrow
      unfold vbits; split <;> omega
    have e2 : 2 * (2 : Int) ^ (vbits F.T - 1) = F.T.hi + 1 := by rw [hi_vbits, ← pow_succ']; congr 1; omega
    rw [h.step n h0 h1 hxi (by omega) (le_trans g1 hM1)]
    obtain ⟨r, hr, c1, c2, c3⟩ := ih (nextIt (X * 2 ^ F.f) x) (d ^ 2 / 2) (by positivity) a g1 b
    refine ⟨r, hr, c1, c2, ?_⟩
    have e : 2 * (d ^ 2 / 2 / 2) ^ 2 ^ n = 2 * (d / 2) ^ 2 ^ (n + 1) := by
      rw [pow_succ 2 n, mul_comm (2 ^ n) 2, pow_mul]; congr 2; ring
    rwa [e] at c3

theorem start {X : Int} (h0 : 0 < X) (h1 : F.T.InRange X) :
    ∃ e : Nat, e < vbits F.T ∧ (2 : Int) ^ e ≤ X ∧ X < 2 ^ (e + 1) ∧
      sqrt F X = sqrtNewton F X 0 5 (fromInternal F (getSqrtInitValue F (e : Nat))) := by
  obtain ⟨hE, hT, _, _⟩ := h.tab
  have hb : 0 < F.T.bits := h.valid.tpos
  have hXv : X < 2 ^ vbits F.T := by rw [← hi_vbits]; have := h1.2; omega
  have hXB : X < 2 ^ F.T.bits := lt_of_lt_of_le hXv (pow_le_pow_right₀ (by norm_num) (by unfold vbits; split <;> omega))
  have hB1 : F.T.bits - 1 + 1 = F.T.bits := by omega
  obtain ⟨e, he, h2, h3⟩ := findMsbLoop_spec (F.T.bits - 1) X 0 h0 (by rw [hB1]; exact hXB)
  rw [hB1] at he
  have heB : e < vbits F.T := by
    by_contra hc
    have : (2 : Int) ^ vbits F.T ≤ 2 ^ e := pow_le_pow_right₀ (by norm_num) (by omega)
    omega
  refine ⟨e, heB, h2, h3, ?_⟩
  have hm : findMsb F.T X = .ok e := by
    unfold findMsb
    have hu : (⟨F.T.bits, false⟩ : IntTy).wrap X = X := by
      refine IntTy.wrap_of_inRange hb ⟨h0.le, ?_⟩
      show X ≤ 2 ^ F.T.bits - 1
      omega
    rw [if_neg (by omega), if_neg (not_lt.2 h0.le), Res.pure_eq, Res.bind_ok]
    dsimp only
    rw [Res.pure_eq, hu, he, zero_add]
  unfold sqrt
  rw [if_neg hT, h.nl.ofInt0, if_neg (by rw [lt_iff]; omega), if_neg (by rw [eq_iff]; omega), hm, Res.bind_ok, hE, Res.bind_ok]

/-- The raw form. -/
theorem sqrt_raw {X : Int} (h0 : 0 < X) (h1 : F.T.InRange X) :
    ∃ r : Int, sqrt F X = .ok r ∧ 0 ≤ r ∧ r ≤ F.T.hi ∧ X * 2 ^ F.f < (r + 1) ^ 2 ∧ (2 * r - 1) ^ 2 ≤ 4 * (X * 2 ^ F.f) := by
  have hp : (0 : Int) < 2 ^ F.f := by positivity
  have hf0 := h.valid.2.2.2.2.1
  have hp2 : (2 : Int) ^ 1 ≤ 2 ^ F.f := pow_le_pow_right₀ (by norm_num) hf0
  obtain ⟨e, he, hlo, hhi, hrun⟩ := h.start h0 h1
  obtain ⟨i1, i2, i3⟩ := h.tab.2.2.2.2 e he
  by_cases hsmall : X * 2 ^ F.f < 4
  · have : X = 1 ∧ F.f = 1 := by
      have hX : X = 1 := by nlinarith
      subst hX
      refine ⟨rfl, ?_⟩
      by_contra hc
      have : (2 : Int) ^ 2 ≤ 2 ^ F.f := pow_le_pow_right₀ (by norm_num) (by omega)
      omega
    obtain ⟨rfl, hf⟩ := this
    refine ⟨1, ?_, by norm_num, by have := h1.2; omega, by rw [hf]; norm_num, by rw [hf]; norm_num⟩
    obtain ⟨⟨hT, hI, hw, hs, hf0, hf1⟩, hn, hr, hm⟩ := h
    clear hrun i1 i2 i3 hlo hhi h1 hp hp2 he
    obtain ⟨⟨B, s⟩, ⟨J, s'⟩, f, r⟩ := F
    simp only at hT hI hw hs hf0 hf1 hr hm hn hf
    subst hs hr hf
    rcases hn with rfl | rfl <;> rcases hI with rfl | rfl | rfl | rfl <;> cases s' <;> first | omega | decide +kernel
  push Not at hsmall
  rw [hrun]
  clear hrun
  generalize fromInternal F (getSqrtInitValue F (e : Nat)) = x0 at *
  have hXh := h1.2
  have hv2 : 2 ≤ vbits F.T := by
    have := h.narrow
    unfold vbits; split <;> omega
  have hv : F.f + 2 ≤ vbits F.T := by
    have := h.room
    unfold vbits; split <;> omega
  have hv16 : vbits F.T ≤ 16 := by
    have := h.narrow
    unfold vbits; split <;> omega
  have ehi := hi_vbits F.T
  set N := X * 2 ^ F.f with hNd
  have hN0 : 0 < N := by positivity
  obtain ⟨s, hs0, hN⟩ : ∃ s : ℝ, 0 ≤ s ∧ s ^ 2 = (N : Int) :=
    ⟨Real.sqrt ((N : Int) : ℝ), Real.sqrt_nonneg _, Real.sq_sqrt (by positivity)⟩
  have hs2 : 2 ≤ s := by
    have : (2 : ℝ) ^ 2 ≤ s ^ 2 := by rw [hN]; norm_num; exact_mod_cast hsmall
    exact le_of_sq_le_sq this hs0
  set A := (2 : Int) ^ (e + F.f) with hAd
  have hA : A = 2 ^ e * 2 ^ F.f := pow_add _ _ _
  have hA0 : 0 < A := by positivity
  have hNlo : A ≤ N := by rw [hA]; exact mul_le_mul_of_nonneg_right hlo hp.le
  have hNhi : N < 2 * A := by
    rw [hA, hNd, ← mul_assoc, ← pow_succ']; exact mul_lt_mul_of_pos_right hhi hp
  have hkm := guess_cases e F.f
  -- powers of two
  set K := (2 : Int) ^ (vbits F.T - 1) with hK
  have hK0 : 0 < K := by positivity
  have e2 : 2 * K = F.T.hi + 1 := by rw [hi_vbits, hK, ← pow_succ']; congr 1; omega
  have hKp : 2 * K * 2 ^ F.f ≤ K ^ 2 := by
    rw [hK, ← pow_mul, ← pow_succ', ← pow_add]
    exact pow_le_pow_right₀ (by norm_num) (by omega)
  have hNK : N + 2 ≤ K ^ 2 := by
    have : N ≤ (2 * K - 1) * 2 ^ F.f := mul_le_mul_of_nonneg_right (by omega) hp.le
    nlinarith
  obtain ⟨P, hPK, hsm⟩ : ∃ P, P ≤ K ^ 2 ∧ (x0 ^ 2 + N) ^ 2 < 4 * x0 ^ 2 * P := by
    rcases i3 with i3 | ⟨i3, k16⟩
    · exact ⟨4 * A, i3, first_small i1 hA0 i2 hNlo hNhi hkm (Or.inl le_rfl)⟩
    · exact ⟨2 * A, i3.le, first_small i1 hA0 i2 hNlo hNhi hkm (Or.inr ⟨rfl, Or.inr k16⟩)⟩
  obtain ⟨f0, f3⟩ := first_use i1 hN0.le hsm
  have hq := f3 K hK0 hPK
  have herr := first_err i1 hA0 i2 hNlo hNhi hkm s (by linarith) hN
  have hge := nextIt_ge N x0 i1 s hs0 hN
  have f1 : 16 * nextIt N x0 ^ 2 ≤ 25 * N := by
    have h5 : (nextIt N x0 : ℝ) ≤ s * (5 / 4) := by
      have : s * (if guessRatio e F.f = 4 then 1 / 4 else 1 / 12 : ℝ) ≤ s * (1 / 4) := mul_le_mul_of_nonneg_left (by split <;> norm_num) hs0
      linarith
    have h6 : (nextIt N x0 : ℝ) ^ 2 ≤ (s * (5 / 4)) ^ 2 := pow_le_pow_left₀ (by linarith) h5 2
    have h7 : 16 * (nextIt N x0 : ℝ) ^ 2 ≤ 25 * N := by rw [mul_pow, hN] at h6; linarith
    exact_mod_cast h7
  have hNh : N ≤ F.T.hi * 2 ^ F.f := mul_le_mul_of_nonneg_right hXh hp.le
  have f2 : nextIt N x0 ^ 2 ≤ (X + F.T.hi) * 2 ^ F.f := by rw [add_mul, ← hNd]; omega
  have f4 : nextIt N x0 ^ 2 < K ^ 2 := lt_of_lt_of_le f0 hPK
  have hstep := h.step 4 h0 h1 i1 (by rw [← hNd]; omega) (by rw [← hNd]; exact f2)
  rw [← hNd] at hstep
  rw [hstep]
  generalize nextIt N x0 = x1 at *
  set d : ℝ := if guessRatio e F.f = 4 then 1 / 4 else 1 / 12 with hd
  have hd0 : 0 ≤ d := by rw [hd]; split <;> norm_num
  have hs16 : s < 2 ^ 16 := by
    have hK15 : K ≤ 2 ^ 16 := pow_le_pow_right₀ (by norm_num) (by omega)
    have : s ^ 2 < ((2 : ℝ) ^ 16) ^ 2 := by
      rw [hN]
      have : K ^ 2 ≤ (2 ^ 16) ^ 2 := pow_le_pow_left₀ hK0.le hK15 2
      have : N < (2 ^ 16) ^ 2 := by omega
      exact_mod_cast this
    exact lt_of_pow_lt_pow_left₀ 2 (by norm_num) this
  have hd2 : s * (2 * (d / 2) ^ 2 ^ 4) ≤ 1 / 2 := by
    rw [hd]; split <;> norm_num at hs16 ⊢ <;> linarith
  obtain ⟨r, hr, r1, r2, r3⟩ := h.rest (M := Max.max (x1 ^ 2) (N + 1)) h0 h1 s hs2 hN (le_max_right _ _)
    (max_le f2 (by rw [add_mul, ← hNd]; have : 0 < F.T.hi * 2 ^ F.f := lt_of_lt_of_le hN0 hNh
                   omega)) (max_lt f4 (by rw [← hK]; omega)) 4 x1 d hd0 hge
    (le_max_left _ _) (le_max_of_le_left herr)
  have r3 : (r : ℝ) - s ≤ 1 / 2 := le_trans r3 (max_le hd2 le_rfl)
  have hr0 : (0 : ℝ) < r := by linarith
  have hri : 0 < r := by exact_mod_cast hr0
  refine ⟨r, hr, hri.le, ?_, ?_, ?_⟩
  · have : r < K := lt_of_pow_lt_pow_left₀ 2 hK0.le (lt_of_le_of_lt r2 (max_lt f4 (by omega)))
    omega
  · have : (N : ℝ) < ((r : ℝ) + 1) ^ 2 := by rw [← hN]; exact pow_lt_pow_left₀ (by linarith) hs0 (by norm_num)
    exact_mod_cast this
  · have h1r : (1 : ℝ) ≤ r := by exact_mod_cast hri
    have : (2 * (r : ℝ) - 1) ^ 2 ≤ (2 * s) ^ 2 := pow_le_pow_left₀ (by linarith) (by linarith) 2
    rw [mul_pow, hN] at this
    have h2 : (2 * (r : ℝ) - 1) ^ 2 ≤ 4 * (N : ℝ) := by linarith
    exact_mod_cast h2

end NS

/-! ### The property -/

/-- `r` is the square root of `x` up to one ulp below and half an ulp above. -/
def RootNear (F : FxTy) (x r : Int) : Prop :=
  0 ≤ val F r ∧ val F x < (val F r + ulp F) ^ 2 ∧ (val F r - ulp F / 2) ^ 2 ≤ val F x

/-- C146: on every 8- and 16-bit layout, signed or not, `sqrt` of a positive number is storable and less than one ulp below and at most half an ulp above the
root. -/
def C146_statement : Prop := ∀ F : FxTy, F.Valid → Narrow F → F.r = false → ∀ x, Storable F x → 0 < val F x →
  ∃ r, sqrt F x = .ok r ∧ Storable F r ∧ RootNear F x r

/-- With 6 fraction bits in 8 bits the sum of the two iterates wraps: the second iterate is zero and is divided by. -/
theorem C146_false : ¬ C146_statement := by
  intro h
  obtain ⟨r, h1, _⟩ := h ⟨i8, i16, 6, false⟩ (by decide) (Or.inl rfl) rfl 97 (by decide +kernel) (by norm_num [val])
  have e : sqrt ⟨i8, i16, 6, false⟩ 97 = .ub .divZero := by decide +kernel
  rw [h1] at e; cases e

/-- C146 (at least three bits besides the fraction): all five iterations are run, because the bound for an early exit is zero in these types; zero gives
zero and negative numbers give `-1`. -/
theorem C146_sqrt_partial (F : FxTy) (hF : F.Valid) (hn : Narrow F) (hr : F.r = false) (hm : F.f + 3 ≤ F.T.bits) (x : Int) (hx : Storable F x) :
    (0 < val F x → ∃ r, sqrt F x = .ok r ∧ Storable F r ∧ RootNear F x r) ∧
    (val F x = 0 → sqrt F x = .ok 0) ∧
    (val F x < 0 → ∃ r, sqrt F x = .ok r ∧ Storable F r ∧ val F r = -1) := by
  have h : NS F := ⟨hF, hn, hr, hm⟩
  have hpq : (0 : ℚ) < 2 ^ F.f := by positivity
  have hsgn : ∀ n : Int, (0 < val F n ↔ 0 < n) ∧ (val F n < 0 ↔ n < 0) ∧ (val F n = 0 ↔ n = 0) := by
    intro n
    unfold val
    refine ⟨?_, ?_, ?_⟩
    · rw [lt_div_iff₀ hpq, zero_mul]; exact Int.cast_pos
    · rw [div_lt_iff₀ hpq, zero_mul]; exact Int.cast_lt_zero
    · rw [div_eq_zero_iff, Int.cast_eq_zero]; exact or_iff_left hpq.ne'
  obtain ⟨_, hT, _, hneg, _⟩ := h.tab
  refine ⟨fun hp => ?_, fun hp => ?_, fun hp => ?_⟩
  · obtain ⟨r, h1, h2, h2', h3, h6⟩ := h.sqrt_raw ((hsgn x).1.1 hp) hx
    have h3' : (x : ℚ) * 2 ^ F.f < (r + 1) ^ 2 := by exact_mod_cast h3
    refine ⟨r, h1, ⟨NL.lo0.trans h2, h2'⟩, ?_, ?_, ?_⟩
    · unfold val
      have : (0 : ℚ) ≤ r := by exact_mod_cast h2
      positivity
    · unfold val ulp
      rw [← add_div, div_pow, lt_div_iff₀ (by positivity), div_mul_eq_mul_div, div_lt_iff₀ hpq]
      have := mul_lt_mul_of_pos_right h3' hpq
      nlinarith
    · have h6' : (2 * (r : ℚ) - 1) ^ 2 ≤ 4 * (x * 2 ^ F.f) := by exact_mod_cast h6
      unfold val ulp
      have e : ((r : ℚ) / 2 ^ F.f - 1 / 2 ^ F.f / 2) ^ 2 = (2 * (r : ℚ) - 1) ^ 2 / 4 / 2 ^ F.f / 2 ^ F.f := by field_simp; ring
      rw [e, div_le_div_iff_of_pos_right hpq, div_le_iff₀ hpq]
      linarith
  · have := (hsgn x).2.2.1 hp
    subst this
    unfold sqrt
    rw [if_neg hT, h.nl.ofInt0, if_neg (by rw [lt_iff]; omega), if_pos (by rw [eq_iff])]
  · have hx0 := (hsgn x).2.1.1 hp
    have hs : F.T.signed = true := by
      by_contra hc
      have := hx.1
      unfold IntTy.lo at this
      rw [if_neg hc] at this
      omega
    refine ⟨-2 ^ F.f, ?_, ?_, ?_⟩
    · unfold sqrt
      rw [if_neg hT, h.nl.ofInt0, if_pos (by rw [lt_iff]; omega), hneg hs]
    · have := h.nl.room
      have hp : (0 : Int) < 2 ^ F.f := by positivity
      constructor
      · unfold IntTy.lo IntTy.hi at *
        rw [if_pos hs] at *
        omega
      · omega
    · unfold val
      push_cast
      rw [neg_div, div_self hpq.ne']

theorem rootNear_raw {F : FxTy} {x r : Int} (h : RootNear F x r) : 0 ≤ r ∧ x * 2 ^ F.f < (r + 1) ^ 2 := by
  have hpq : (0 : ℚ) < 2 ^ F.f := by positivity
  obtain ⟨h0, h1, _⟩ := h
  unfold val ulp at *
  rw [le_div_iff₀ hpq, zero_mul] at h0
  rw [← add_div, div_pow, lt_div_iff₀ (by positivity), pow_two ((2 : ℚ) ^ F.f), ← mul_assoc, div_mul_cancel₀ _ hpq.ne'] at h1
  exact ⟨by exact_mod_cast h0, by exact_mod_cast h1⟩

/-- C146 (sharpness): with fewer bits besides the fraction the root of the second largest number is wrong, so the layouts of `C146_sqrt_partial` are all
there are. -/
theorem C146_sharp (F : FxTy) (hF : F.Valid) (hn : Narrow F) (hr : F.r = false) (hm : F.T.bits < F.f + 3) :
    Storable F (F.T.hi - 1) ∧ 0 < val F (F.T.hi - 1) ∧ ¬ ∃ r, sqrt F (F.T.hi - 1) = .ok r ∧ RootNear F (F.T.hi - 1) r := by
  have key : Storable F (F.T.hi - 1) ∧ 0 < F.T.hi - 1 ∧ (match sqrt F (F.T.hi - 1) with
      | .ok r => decide (0 ≤ r ∧ (F.T.hi - 1) * 2 ^ F.f < (r + 1) ^ 2)
      | _ => false) = false := by
    obtain ⟨hT, hI, hw, hs, hf0, hf1⟩ := hF
    obtain ⟨⟨B, s⟩, ⟨J, s'⟩, f, r⟩ := F
    simp only at hT hI hw hs hf0 hf1 hr hm hn
    subst hs hr
    have hf : f = B - 2 ∨ f = B - 1 := by omega
    rcases hn with rfl | rfl <;> rcases hI with rfl | rfl | rfl | rfl <;> rcases hf with rfl | rfl <;> cases s' <;> first | omega | decide +kernel
  obtain ⟨k1, k2, k3⟩ := key
  refine ⟨k1, ?_, ?_⟩
  · unfold val
    have : (0 : ℚ) < ((F.T.hi - 1 : Int) : ℚ) := by exact_mod_cast k2
    positivity
  · rintro ⟨r, e, hrn⟩
    rw [e] at k3
    exact of_decide_eq_false k3 (rootNear_raw hrn)

example : sqrt ⟨i16, i32, 8, false⟩ 512 = .ok 362 ∧ sqrt ⟨i16, i32, 8, false⟩ 32767 = .ok 2896 ∧ sqrt ⟨i8, i16, 5, false⟩ 127 = .ok 63 ∧
    sqrt ⟨u8, u16, 4, false⟩ 255 = .ok 63 ∧ sqrt ⟨i16, i32, 8, false⟩ (-1) = .ok (-256) ∧ (⟨i16, i32, 8, false⟩ : FxTy).Valid := by
  refine ⟨by decide +kernel, by decide +kernel, by decide +kernel, by decide +kernel, by decide +kernel, by decide⟩

end Eirin.Props
