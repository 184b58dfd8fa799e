import Verif.Props.TrigAll
import Verif.Props.TrigSym

/-! # Property C148: exact symmetries of `sin`, and `sin` with `cos`, on every signed layout

C80 and C81 treat `fixed32` and `fixed64` and arguments of at most π in magnitude. -/

namespace Eirin.Props
open Spec

theorem foldT_range' {D w : Int} (_hD : 256 ≤ D) (h1 : -(4 * D + 2) ≤ w) (h2 : w ≤ 4 * D + 2) : -2 ≤ foldT D w ∧ foldT D w ≤ D := by
  unfold foldT fold2 foldN turn4
  split_ifs <;> omega

theorem foldT_neg' {D w : Int} (_hD : 256 ≤ D) (h1 : -(4 * D + 2) ≤ w) (h2 : w ≤ 4 * D + 2) : foldT D (-w) = foldT D w := by
  unfold foldT fold2 foldN turn4
  split_ifs <;> omega

theorem foldN_neg' {D w : Int} (_hD : 256 ≤ D) (h1 : -(4 * D + 2) ≤ w) (h2 : w ≤ 4 * D + 2) (h3 : foldT D w ≠ 0) : foldN D (-w) ↔ ¬ foldN D w := by
  revert h3
  unfold foldT fold2 foldN turn4
  split_ifs <;> omega

/-- The folding keeps the sine. -/
theorem fold_sin (F : FxTy) (w : Int) :
    Real.sin (Real.pi / 2 * rv F w) =
      (if foldN (2 ^ F.f) w then -1 else 1) * Real.sin (Real.pi / 2 * rv F (foldT (2 ^ F.f) w)) := by
  have a : Real.sin (Real.pi / 2 * rv F (turn4 (2 ^ F.f) w)) = Real.sin (Real.pi / 2 * rv F w) := by
    unfold turn4
    split
    · rw [rv_add, rv_int, show Real.pi / 2 * (rv F w + ((4 : Int) : ℝ)) = Real.pi / 2 * rv F w + 2 * Real.pi by push_cast; ring, Real.sin_add_two_pi]
    · rfl
  have b : Real.sin (Real.pi / 2 * rv F (turn4 (2 ^ F.f) w)) =
      (if foldN (2 ^ F.f) w then -1 else 1) * Real.sin (Real.pi / 2 * rv F (fold2 (2 ^ F.f) w)) := by
    unfold fold2
    split
    · rw [rv_sub, rv_int, show Real.pi / 2 * (rv F (turn4 (2 ^ F.f) w) - ((2 : Int) : ℝ)) = Real.pi / 2 * rv F (turn4 (2 ^ F.f) w) - Real.pi by push_cast; ring,
        Real.sin_sub_pi]; ring
    · rw [one_mul]
  have c : Real.sin (Real.pi / 2 * rv F (foldT (2 ^ F.f) w)) = Real.sin (Real.pi / 2 * rv F (fold2 (2 ^ F.f) w)) := by
    unfold foldT
    split
    · rw [rv_sub, rv_int, show Real.pi / 2 * (((2 : Int) : ℝ) - rv F (fold2 (2 ^ F.f) w)) = Real.pi - Real.pi / 2 * rv F (fold2 (2 ^ F.f) w) by push_cast; ring,
        Real.sin_pi_sub]
    · rfl
  rw [c, ← b, a]

/-- Outside the small-angle branch `sin` depends only on the remainder modulo `double_pi()`. -/
theorem SinG.closed {F : FxTy} (c : SinG F) {fp : Int} (hS : Storable F fp) (hlo : F.T.lo < fp) (hth : c.th ≤ |fp|) :
    ∃ w, w = Int.tdiv (Int.tmod fp c.dp * 2 ^ F.f) c.p2 ∧ -(4 * 2 ^ F.f + 2) ≤ w ∧ w ≤ 4 * 2 ^ F.f + 2 ∧
      ∃ z, sinPoly F c.pi (foldT (2 ^ F.f) w) = .ok z ∧ Storable F z ∧ Storable F (-z) ∧
        |rv F z - Real.sin (Real.pi / 2 * rv F (foldT (2 ^ F.f) w))| ≤ 11.1 * uR F + 4 / 1000000 ∧
        sin F fp = .ok (if foldN (2 ^ F.f) w then -z else z) := by
  have h := c.gl
  have hp : (0 : Int) < 2 ^ F.f := by positivity
  have h256 := h.p256
  obtain ⟨w, e1, e2, ew, w1, w2, -⟩ := c.turns hS
  obtain ⟨t0, t1⟩ := foldT_range' h256 w1 w2
  obtain ⟨z, ez, zS, hz⟩ := sinPoly_near h.lay c.ePi c.aPi (h.unit t0 t1)
  have o0 := h.ofInt0
  have o1 := h.ofInt1
  have o2 : ofInt F 2 = 2 * 2 ^ F.f := h.ofInt_small (by norm_num) (by norm_num)
  have o4 : ofInt F 4 = 4 * 2 ^ F.f := h.ofInt_small (by norm_num) (by norm_num)
  have inr := h.inr
  have hnS : Storable F (-z) := h.lay.st (by
    have hsz : |Real.sin (Real.pi / 2 * rv F (foldT (2 ^ F.f) w))| ≤ 1 := Real.abs_sin_le_one _
    have := h.lay.u_le; have := uR_pos F
    rw [rv_neg, abs_neg]
    rw [abs_le] at *; norm_num at *; constructor <;> linarith)
  have v1 : -2 ≤ turn4 (2 ^ F.f) w ∧ turn4 (2 ^ F.f) w ≤ 4 * 2 ^ F.f + 2 := by unfold turn4; split <;> omega
  have hred : sinReduce F fp = .ok (fold2 (2 ^ F.f) w, decide (foldN (2 ^ F.f) w)) := by
    have ev : (if lt w (ofInt F 0) then addAssign F w (ofInt F 4) else pure w) = Res.ok (turn4 (2 ^ F.f) w) := by
      rw [o0, o4]
      unfold turn4
      by_cases hw : w < 0
      · rw [if_pos (by rw [lt_iff]; exact hw), if_pos hw]; exact h.sw.add_ok (inr _ (by omega) (by omega))
      · rw [if_neg (by rw [lt_iff]; exact hw), if_neg hw]; rfl
    unfold sinReduce
    rw [c.eDp, c.eP2]
    simp only [Res.bind_ok, e1, e2]
    have hfin : (if gt (turn4 (2 ^ F.f) w) (ofInt F 2) then (do
          let x3 ← subAssign F (turn4 (2 ^ F.f) w) (ofInt F 2)
          pure (x3, true)) else pure (turn4 (2 ^ F.f) w, false)) =
        Res.ok (fold2 (2 ^ F.f) w, decide (foldN (2 ^ F.f) w)) := by
      rw [o2]
      by_cases hn : foldN (2 ^ F.f) w
      · have : subAssign F (turn4 (2 ^ F.f) w) (2 * 2 ^ F.f) = .ok (turn4 (2 ^ F.f) w - 2 * 2 ^ F.f) := h.sw.sub_ok (inr _ (by omega) (by omega))
        rw [if_pos (by rw [gt_iff]; exact hn), this]
        unfold fold2
        simp only [Res.bind_ok, Res.pure_eq, if_pos hn, decide_eq_true hn]
      · rw [if_neg (by rw [gt_iff]; exact hn)]
        unfold fold2
        simp only [Res.pure_eq, if_neg hn, decide_eq_false hn]
    by_cases hw : lt w (ofInt F 0) = true
    · rw [if_pos hw] at ev ⊢; rw [ev]; exact hfin
    · rw [if_neg hw] at ev ⊢; rw [ev]; exact hfin
  have f2 : -2 ≤ fold2 (2 ^ F.f) w ∧ fold2 (2 ^ F.f) w ≤ 2 * 2 ^ F.f + 2 := by
    unfold fold2
    by_cases hn : foldN (2 ^ F.f) w
    · rw [if_pos hn]; unfold foldN at hn; omega
    · rw [if_neg hn]; unfold foldN at hn; omega
  refine ⟨w, ew, w1, w2, z, ez, zS, hnS, hz, ?_⟩
  have eabs := h.sw.abs_ok hS hlo
  have et : (if gt (fold2 (2 ^ F.f) w) (ofInt F 1) then sub F (ofInt F 2) (fold2 (2 ^ F.f) w) else pure (fold2 (2 ^ F.f) w)) =
      Res.ok (foldT (2 ^ F.f) w) := by
    rw [o1, o2]
    unfold foldT
    by_cases hx : 2 ^ F.f < fold2 (2 ^ F.f) w
    · rw [if_pos (by rw [gt_iff]; exact hx), if_pos hx]
      exact h.sw.sub_ok (inr _ (by omega) (by omega))
    · rw [if_neg (by rw [gt_iff]; exact hx), if_neg hx]; rfl
  unfold sin sinWith
  rw [c.ePi, Res.bind_ok, hred, Res.bind_ok]
  simp only [c.eTh, eabs, Res.bind_ok]
  rw [if_neg (by rw [lt_iff]; omega)]
  have hfin : (if decide (foldN (2 ^ F.f) w) = true then neg F z else pure z) = Res.ok (if foldN (2 ^ F.f) w then -z else z) := by
    by_cases hn : foldN (2 ^ F.f) w
    · rw [if_pos (decide_eq_true hn), if_pos hn]; exact h.sw.neg_ok hnS
    · rw [if_neg (by simpa using hn), if_neg hn]; rfl
  by_cases hg : gt (fold2 (2 ^ F.f) w) (ofInt F 1) = true
  · rw [if_pos hg] at et ⊢; rw [et]; simp only [Res.bind_ok, ez]; exact hfin
  · rw [if_neg hg] at et ⊢; rw [et]; simp only [Res.bind_ok, ez]; exact hfin

theorem th_of_val' {F : FxTy} (c : SinG F) {x : Int} (hx : 15 / 100000 ≤ |val F x|) : c.th ≤ |x| := by
  rw [← rv_le F]
  refine le_trans c.thle ?_
  have : |rv F x| = rv F |x| := by
    unfold rv; rw [abs_div, abs_of_pos (by positivity : (0 : ℝ) < 2 ^ F.f)]; push_cast; rfl
  rw [← this, ← rv_eq]
  have : ((15 / 100000 : ℚ) : ℝ) ≤ ((|val F x| : ℚ) : ℝ) := by exact_mod_cast hx
  push_cast at this; exact this

/-- The polynomial vanishes at zero. -/
theorem SinG.poly_zero {F : FxTy} (c : SinG F) : sinPoly F c.pi 0 = .ok 0 := by
  have h := c.gl
  have z0 := h.sw.zero_in
  have m1 : ∀ a, F.T.InRange a → mul F a 0 = .ok 0 := by
    intro a ha
    rw [h.sw.mul_ok h.r ha z0 (by simpa using z0)]; simp
  have m2 : ∀ a, F.T.InRange a → mul F 0 a = .ok 0 := by
    intro a ha
    rw [h.sw.mul_ok h.r z0 ha (by simpa using z0)]; simp
  have o1 := h.ofInt1
  have i1 : F.T.InRange (ofInt F 1) := by rw [o1]; exact h.sw.one
  have s1 : sub F (ofInt F 1) 0 = .ok (ofInt F 1) := by
    have := h.sw.sub_ok (x := ofInt F 1) (y := 0) (by simpa using i1)
    simpa using this
  obtain ⟨a, ea, ha⟩ := sinCoeff_lay h.lay c.aPi 24 1.37 (by norm_num) (by norm_num) (by norm_num)
  obtain ⟨b, eb, hb⟩ := sinCoeff_lay h.lay c.aPi 80 1.111 (by norm_num) (by norm_num) (by norm_num)
  obtain ⟨cc, ec, hc⟩ := sinCoeff_lay h.lay c.aPi 168 1.053 (by norm_num) (by norm_num) (by norm_num)
  obtain ⟨d, ed, hd⟩ := sinCoeff_lay h.lay c.aPi 288 1.031 (by norm_num) (by norm_num) (by norm_num)
  have e0 := m1 0 z0
  have ta := m1 a ha.st
  have tb := m1 b hb.st
  have tc := m1 cc hc.st
  have td := m1 d hd.st
  have tp := m1 c.pi c.aPi.st
  have u1 := m2 _ i1
  have dv : divInt F i32 0 2 = .ok 0 := by
    rw [h.sw.divInt_ok z0 (by norm_num) (by norm_num)]; simp
  unfold sinPoly
  simp only [c.ePi, ea, eb, ec, ed, e0, ta, tb, tc, td, tp, s1, u1, Res.bind_ok, dv]

/-- C148: outside the small-angle range `sin` is exactly odd, on every signed non-rounding layout of any width with 8 to 59 fraction bits and at
least four integer bits besides the sign. -/
theorem C148_odd (F : FxTy) (hF : F.Valid) (hs : F.T.signed = true) (hr : F.r = false) (h8 : 8 ≤ F.f) (h59 : F.f ≤ 59)
    (hroom : F.f + 5 ≤ F.T.bits) (x : Int) (hS : Storable F x) (hlo : x ≠ F.T.lo)
    (hx : 15 / 100000 ≤ |val F x|) : ∃ z, sin F x = .ok z ∧ Storable F z ∧ sin F (-x) = .ok (-z) ∧ Storable F (-z) := by
  have h := gl_of hF hs hr h8 h59 hroom
  obtain ⟨c⟩ := h.sinG
  have h256 := h.p256
  have hlt : F.T.lo < x := lt_of_le_of_ne hS.1 (Ne.symm hlo)
  have hh := h.sw.lo_hi
  have hnS : Storable F (-x) := ⟨by have := hS.2; omega, by omega⟩
  have hnlt : F.T.lo < -x := by have := hS.2; omega
  have hth := th_of_val' c hx
  obtain ⟨w, ew, w1, w2, z, ez, zS, nzS, -, es⟩ := SinG.closed c hS hlt hth
  obtain ⟨w', ew', _, _, z', ez', zS', nzS', -, es'⟩ := SinG.closed c hnS hnlt (by rw [abs_neg]; exact hth)
  have hw : w' = -w := by rw [ew', ew, Int.neg_tmod, neg_mul, Int.neg_tdiv]
  subst hw
  rw [foldT_neg' h256 w1 w2] at ez'
  have hz : z' = z := by rw [ez] at ez'; exact (Res.ok.inj ez').symm
  subst hz
  refine ⟨_, es, by split <;> assumption, ?_, by split <;> simpa⟩
  rw [es']
  by_cases ht : foldT (2 ^ F.f) w = 0
  · have : z' = 0 := by
      rw [ht, SinG.poly_zero c] at ez; exact (Res.ok.inj ez).symm
    subst this; simp
  · by_cases hn : foldN (2 ^ F.f) w
    · rw [if_neg (fun hc => ((foldN_neg' h256 w1 w2 ht).1 hc) hn), if_pos hn, neg_neg]
    · rw [if_pos ((foldN_neg' h256 w1 w2 ht).2 hn), if_neg hn]

/-- C148: outside the small-angle range `sin` has the exact period `double_pi()` on either side of zero. -/
theorem C148_periodic (F : FxTy) (hF : F.Valid) (hs : F.T.signed = true) (hr : F.r = false) (h8 : 8 ≤ F.f) (h59 : F.f ≤ 59)
    (hroom : F.f + 5 ≤ F.T.bits) (x y dp : Int) (hdp : cDoublePi F = .ok dp) (hS : Storable F x)
    (hT : Storable F y) (hlo : x ≠ F.T.lo) (hlo' : y ≠ F.T.lo) (hx : 15 / 100000 ≤ |val F x|) (hy : 15 / 100000 ≤ |val F y|)
    (hsign : (0 ≤ val F x ∧ 0 ≤ val F y) ∨ (val F x ≤ 0 ∧ val F y ≤ 0)) (hper : ∃ k : Int, val F x = val F y + k * val F dp) :
    sin F x = sin F y := by
  have h := gl_of hF hs hr h8 h59 hroom
  obtain ⟨c⟩ := h.sinG
  have e : dp = c.dp := by have := c.eDp; rw [hdp] at this; exact Res.ok.inj this
  subst e
  obtain ⟨k, hk⟩ := hper
  have hk : x = y + k * c.dp := by
    apply val_inj (F := F); rw [hk]; unfold val; push_cast; ring
  have hmod : Int.tmod x c.dp = Int.tmod y c.dp := by
    have hd0 : 0 < c.dp := by
      have h1 := c.dp6
      have h2 : (0 : Int) < 2 ^ F.f := by positivity
      omega
    rw [← val_zero F, val_le, val_le, val_le, val_le] at hsign
    rcases hsign with ⟨a, b⟩ | ⟨a, b⟩
    · rw [Int.tmod_eq_emod_of_nonneg a, Int.tmod_eq_emod_of_nonneg b, hk, Int.add_mul_emod_self_right]
    · have p : Int.tmod (-x) c.dp = Int.tmod (-y) c.dp := by
        rw [Int.tmod_eq_emod_of_nonneg (by omega), Int.tmod_eq_emod_of_nonneg (by omega), hk,
          show -(y + k * c.dp) = -y + (-k) * c.dp by ring, Int.add_mul_emod_self_right]
      rw [Int.neg_tmod, Int.neg_tmod] at p; omega
  obtain ⟨w, ew, _, _, z, ez, _, _, -, es⟩ := SinG.closed c hS (lt_of_le_of_ne hS.1 (Ne.symm hlo)) (th_of_val' c hx)
  obtain ⟨w', ew', _, _, z', ez', _, _, -, es'⟩ := SinG.closed c hT (lt_of_le_of_ne hT.1 (Ne.symm hlo')) (th_of_val' c hy)
  rw [hmod, ← ew'] at ew
  subst ew
  rw [ez] at ez'
  rw [es, es', Res.ok.inj ez']

/-- C148: the sine of every non-zero multiple of `double_pi()` is exactly zero. -/
theorem C148_zero (F : FxTy) (hF : F.Valid) (hs : F.T.signed = true) (hr : F.r = false) (h8 : 8 ≤ F.f) (h59 : F.f ≤ 59)
    (hroom : F.f + 5 ≤ F.T.bits) (x dp k : Int) (hdp : cDoublePi F = .ok dp) (hS : Storable F x)
    (hlo : x ≠ F.T.lo) (hk : k ≠ 0) (hx : val F x = k * val F dp) : sin F x = .ok 0 := by
  have h := gl_of hF hs hr h8 h59 hroom
  obtain ⟨c⟩ := h.sinG
  have e : dp = c.dp := by have := c.eDp; rw [hdp] at this; exact Res.ok.inj this
  subst e
  have hp : (0 : Int) < 2 ^ F.f := by positivity
  have hd := c.dp6
  have hxk : x = k * c.dp := by apply val_inj (F := F); rw [hx]; unfold val; push_cast; ring
  have hth : c.th ≤ |x| := by
    have h1 : c.th ≤ 6 * 2 ^ F.f := by
      rw [← rv_le F, rv_int]; have := c.thle; norm_num at *; linarith
    have h2 : 1 * c.dp ≤ |x| := by
      rw [hxk, abs_mul, abs_of_pos (by omega : 0 < c.dp)]
      exact mul_le_mul_of_nonneg_right (Int.one_le_abs hk) (by omega)
    omega
  obtain ⟨w, ew, _, _, z, ez, _, _, -, es⟩ := SinG.closed c hS (lt_of_le_of_ne hS.1 (Ne.symm hlo)) hth
  have hm : Int.tmod x c.dp = 0 := by rw [hxk]; exact Int.mul_tmod_left _ _
  rw [hm, zero_mul, Int.zero_tdiv] at ew
  subst ew
  have ht : foldT (2 ^ F.f) 0 = 0 := by
    unfold foldT fold2 foldN turn4
    split_ifs <;> omega
  rw [ht, SinG.poly_zero c] at ez
  cases ez
  rw [es]; simp

/-- `sin` follows the real sine of the remainder modulo `double_pi()`, with an error that does not grow with the argument. -/
theorem SinG.rem_sin {F : FxTy} (c : SinG F) {x : Int} (hS : Storable F x) (hlo : F.T.lo < x) :
    ∃ r, sin F x = .ok r ∧ Storable F r ∧ |rv F r| ≤ 1 + 4 / 1000000 + 11.1 * uR F ∧
      |rv F r - Real.sin (rv F (Int.tmod x c.dp))| ≤ 3 / 10000 + 20 * uR F := by
  have h := c.gl
  have hu := uR_pos F
  have hul := h.lay.u_le
  have hp : (0 : Int) < 2 ^ F.f := by positivity
  have hd : 0 < c.dp := by have := c.dp6; omega
  have ea : ∀ y : Int, |rv F y| = rv F |y| := fun y => by
    unfold rv; rw [abs_div, abs_of_pos (by positivity : (0 : ℝ) < 2 ^ F.f)]; push_cast; rfl
  by_cases hc : c.th ≤ |x|
  · obtain ⟨w, ew, w1, w2, z, ez, zS, nzS, hz, es⟩ := SinG.closed c hS hlo hc
    have ml := Int.tmod_lt_of_pos x hd
    have mg : -c.dp < Int.tmod x c.dp := Int.lt_tmod_of_pos x hd
    have hmS : Storable F (Int.tmod x c.dp) := by
      have := h.sw.lo_hi
      obtain ⟨a, b⟩ := c.dpS
      constructor <;> omega
    obtain ⟨w', -, -, ew', -, -, ht⟩ := c.turns hmS
    have mm : Int.tmod (Int.tmod x c.dp) c.dp = Int.tmod x c.dp := by
      rw [Int.tmod_tmod_of_dvd _ (dvd_refl _)]
    rw [mm, ← ew] at ew'
    subst ew'
    have hmb : |rv F (Int.tmod x c.dp)| ≤ 6.29 := by
      have hab : |Int.tmod x c.dp| ≤ c.dp := abs_le.2 ⟨by omega, by omega⟩
      rw [ea]
      refine le_trans ((rv_le F).2 hab) ?_
      have := abs_le.1 c.aDp
      have := Real.pi_lt_d4
      norm_num at *; linarith
    have t1 : |rv F (Int.tmod x c.dp)| / 4 * uR F ≤ 6.29 / 4 * uR F := mul_le_mul_of_nonneg_right (by linarith) hu.le
    have hfs := fold_sin F w'
    have hsz : |Real.sin (Real.pi / 2 * rv F (foldT (2 ^ F.f) w'))| ≤ 1 := Real.abs_sin_le_one _
    generalize Real.sin (Real.pi / 2 * rv F (foldT (2 ^ F.f) w')) = S at *
    rw [hfs] at ht
    by_cases hn : foldN (2 ^ F.f) w'
    · rw [if_pos hn] at es ht
      refine ⟨_, es, nzS, ?_, ?_⟩
      · rw [rv_neg, abs_neg]
        have := abs_sub_abs_le_abs_sub (rv F z) S
        linarith
      · rw [rv_neg]
        rw [abs_le] at *; norm_num at *; constructor <;> linarith
    · rw [if_neg hn] at es ht
      refine ⟨_, es, zS, ?_, ?_⟩
      · have := abs_sub_abs_le_abs_sub (rv F z) S
        linarith
      · rw [abs_le] at *; norm_num at *; constructor <;> linarith
  · push Not at hc
    have hb : |rv F x| ≤ 15 / 100000 := by
      rw [ea]; exact le_trans ((rv_le F).2 hc.le) c.thle
    obtain ⟨r, a, b, d⟩ := sin_gen h x (by linarith)
    have hx6 : |x| < c.dp := by
      refine lt_of_le_of_lt ?_ c.dp6
      rw [← rv_le F, rv_int, ← ea]; push_cast; linarith
    have em : Int.tmod x c.dp = x := by
      rw [abs_lt] at hx6
      rcases le_total 0 x with h0 | h0
      · exact Int.tmod_eq_of_lt h0 hx6.2
      · have : Int.tmod (-x) c.dp = -x := Int.tmod_eq_of_lt (by omega) (by omega)
        rw [Int.neg_tmod] at this; omega
    rw [em]
    refine ⟨r, a, b, ?_, d⟩
    have h1 : |Real.sin (rv F x)| ≤ |rv F x| := Real.abs_sin_le_abs
    have h2 := abs_sub_abs_le_abs_sub (rv F r) (Real.sin (rv F x))
    linarith

/-- The argument at which `cos` evaluates `sin`. -/
theorem cos_shift {F : FxTy} (c : SinG F) (x : Int) (hS : Storable F x) :
    ∃ (a : Int) (j : Int), cos F x = sin F a ∧ Storable F a ∧ F.T.lo < a ∧ |rv F a - rv F x - (Real.pi / 2 + j * (2 * Real.pi))| ≤ 5 * uR F ∧ |a - x| < c.dp := by
  have h := c.gl
  have g := Real.pi_gt_d4; have l := Real.pi_lt_d4
  have hu := uR_pos F
  have hul := h.lay.u_le
  have hp : (0 : Int) < 2 ^ F.f := by positivity
  have aPi := abs_le.1 c.aPi.er
  have aDp := abs_le.1 c.aDp
  have o2 : ofInt F 2 = 2 * 2 ^ F.f := h.ofInt_small (by norm_num) (by norm_num)
  have h2S : Storable F (2 * 2 ^ F.f) := h.big (by linarith) (by linarith)
  have q1 : Int.tdiv (c.pi * 2 ^ F.f) (2 * 2 ^ F.f) = Int.tdiv c.pi 2 := by
    rw [Int.mul_tdiv_mul_of_pos_left _ _ hp]
  have t := tdiv_near c.pi (d := 2) (by norm_num)
  have tr : |rv F (Int.tdiv c.pi 2) - rv F c.pi / 2| ≤ uR F := by
    rw [rv_u, rv_u, show (Int.tdiv c.pi 2 : ℝ) * uR F - c.pi * uR F / 2 = ((Int.tdiv c.pi 2 : ℝ) * (2 : Int) - c.pi) * (uR F / 2) by push_cast; ring, abs_mul,
      abs_of_pos (by positivity : 0 < uR F / 2)]
    have := mul_le_mul_of_nonneg_right t (by positivity : 0 ≤ uR F / 2)
    push_cast at this ⊢; linarith
  have tr' := abs_le.1 tr
  generalize hq : Int.tdiv c.pi 2 = q at *
  have qS : Storable F q := h.lay.st (by rw [abs_le]; norm_num at *; constructor <;> linarith)
  have e1 : div F c.pi (ofInt F 2) = .ok q := by
    rw [o2, h.sw.div_ok h.r c.aPi.st (by positivity) (by rw [q1]; exact qS), q1]
  have dS : Storable F (c.pi * 2) := h.lay.st (by
    rw [rv_u]; push_cast; rw [show (c.pi : ℝ) * 2 * uR F = 2 * (c.pi * uR F) by ring, ← rv_u, abs_le]; norm_num at *; constructor <;> linarith)
  have em : c.pi * (2 * 2 ^ F.f) / 2 ^ F.f = c.pi * 2 := by rw [← mul_assoc, Int.mul_ediv_cancel _ hp.ne']
  have e2 : mul F c.pi (ofInt F 2) = .ok (c.pi * 2) := by
    rw [o2, h.sw.mul_ok h.r c.aPi.st h2S (by rw [em]; exact dS), em]
  have rd : rv F (c.pi * 2) = 2 * rv F c.pi := by unfold rv; push_cast; ring
  have r3 : rv F (c.pi * 2 - q) = 2 * rv F c.pi - rv F q := by rw [rv_sub, rd]
  have q3S : Storable F (c.pi * 2 - q) := h.lay.st (by
    rw [r3, abs_le]; norm_num at *; constructor <;> linarith)
  have z0 : rv F 0 = 0 := by simp [rv]
  have q3pos : 0 < c.pi * 2 - q := by
    rw [← rv_lt F, r3, z0]; norm_num at g l hul aPi; linarith [aPi.1, aPi.2, tr'.1, tr'.2]
  have q3lt : c.pi * 2 - q < c.dp := by
    rw [← rv_lt F, r3]; norm_num at g l hul aPi aDp; linarith [aPi.1, aPi.2, tr'.1, tr'.2, aDp.1]
  have qpos : 0 < q := by
    rw [← rv_lt F, z0]; norm_num at g l hul aPi; linarith [aPi.1, aPi.2, tr'.1, tr'.2]
  have qlt : q < c.dp := by
    rw [← rv_lt F]; norm_num at g l hul aPi aDp; linarith [aPi.1, aPi.2, tr'.1, tr'.2, aDp.1]
  have lo_hi := h.sw.lo_hi
  by_cases h0 : 0 < x
  · have q3hi := q3S.2
    have hin : Storable F (x - (c.pi * 2 - q)) := ⟨by omega, by have := hS.2; omega⟩
    refine ⟨_, -1, ?_, hin, by omega, ?_, by rw [abs_lt]; constructor <;> omega⟩
    · unfold cos
      rw [c.ePi, Res.bind_ok, e1, Res.bind_ok, e2, Res.bind_ok, if_pos h0, h.sw.sub_ok q3S, Res.bind_ok, h.sw.sub_ok hin, Res.bind_ok]
    · rw [rv_sub, r3, abs_le]; push_cast; norm_num at *; constructor <;> linarith
  · have qhi := qS.2
    have hin : Storable F (x + q) := ⟨by have := hS.1; omega, by omega⟩
    refine ⟨_, 0, ?_, hin, by have := hS.1; omega, ?_, by rw [abs_lt]; constructor <;> omega⟩
    · unfold cos
      rw [c.ePi, Res.bind_ok, e1, Res.bind_ok, e2, Res.bind_ok, if_neg h0, h.sw.add_ok hin, Res.bind_ok]
    · rw [rv_add, abs_le]; push_cast; norm_num at *; constructor <;> linarith

/-- `cos` follows the real cosine of the remainder modulo `double_pi()`. -/
theorem SinG.rem_cos {F : FxTy} (c : SinG F) {x : Int} (hS : Storable F x) :
    ∃ r, cos F x = .ok r ∧ Storable F r ∧ |rv F r| ≤ 1 + 4 / 1000000 + 11.1 * uR F ∧
      |rv F r - Real.cos (rv F (Int.tmod x c.dp))| ≤ 3 / 10000 + 28 * uR F := by
  have hu := uR_pos F
  have hp : (0 : Int) < 2 ^ F.f := by positivity
  have hd : 0 < c.dp := by have := c.dp6; omega
  obtain ⟨a, j, ec, aS, alo, ha, had⟩ := cos_shift c x hS
  obtain ⟨r, er, rS, rb, hr⟩ := SinG.rem_sin c aS alo
  refine ⟨r, by rw [ec, er], rS, rb, ?_⟩
  have xl := Int.tmod_lt_of_pos x hd
  have xg : -c.dp < Int.tmod x c.dp := Int.lt_tmod_of_pos x hd
  have al := Int.tmod_lt_of_pos a hd
  have ag : -c.dp < Int.tmod a c.dp := Int.lt_tmod_of_pos a hd
  have ex : Int.tmod x c.dp + Int.tdiv x c.dp * c.dp = x := Int.tmod_add_tdiv_mul x c.dp
  have ey : Int.tmod a c.dp + Int.tdiv a c.dp * c.dp = a := Int.tmod_add_tdiv_mul a c.dp
  generalize Int.tmod x c.dp = m at *
  generalize Int.tmod a c.dp = n at *
  generalize Int.tdiv x c.dp = k at *
  generalize Int.tdiv a c.dp = i at *
  rw [abs_lt] at had
  have hk : -2 ≤ i - k ∧ i - k ≤ 2 := by
    constructor
    · by_contra hcon
      push Not at hcon
      have : (i - k) * c.dp ≤ -3 * c.dp := mul_le_mul_of_nonneg_right (by omega) hd.le
      linarith
    · by_contra hcon
      push Not at hcon
      have : 3 * c.dp ≤ (i - k) * c.dp := mul_le_mul_of_nonneg_right (by omega) hd.le
      linarith
  have hkr : |((i - k : Int) : ℝ)| ≤ 2 := by
    rw [abs_le]; exact ⟨by exact_mod_cast hk.1, by exact_mod_cast hk.2⟩
  have en : rv F n = rv F m + (rv F a - rv F x) - (i - k : Int) * rv F c.dp := by
    have : n = m + (a - x) - (i - k) * c.dp := by rw [← ex, ← ey]; ring
    rw [this, rv_sub, rv_add, rv_sub]
    unfold rv; push_cast; ring
  have hdp := mul_le_mul hkr c.aDp (abs_nonneg _) (by norm_num : (0 : ℝ) ≤ 2)
  rw [← abs_mul] at hdp
  have e2 : Real.cos (rv F m) = Real.sin (rv F m + (Real.pi / 2 + j * (2 * Real.pi)) - (i - k : Int) * (2 * Real.pi)) := by
    rw [show rv F m + (Real.pi / 2 + j * (2 * Real.pi)) - ((i - k : Int) : ℝ) * (2 * Real.pi) =
      rv F m + Real.pi / 2 + ((j - (i - k) : Int) : ℝ) * (2 * Real.pi) by push_cast; ring, Real.sin_add_int_mul_two_pi, Real.sin_add_pi_div_two]
  have e3 : |Real.sin (rv F n) - Real.cos (rv F m)| ≤ 8 * uR F := by
    rw [e2]
    refine le_trans (Real.abs_sin_sub_sin_le _ _) ?_
    rw [en, show rv F m + (rv F a - rv F x) - ((i - k : Int) : ℝ) * rv F c.dp -
      (rv F m + (Real.pi / 2 + j * (2 * Real.pi)) - ((i - k : Int) : ℝ) * (2 * Real.pi)) =
      (rv F a - rv F x - (Real.pi / 2 + j * (2 * Real.pi))) - ((i - k : Int) : ℝ) * (rv F c.dp - 2 * Real.pi) by ring]
    refine le_trans (abs_sub _ _) ?_
    norm_num at *; linarith
  have := abs_sub_le (rv F r) (Real.sin (rv F n)) (Real.cos (rv F m))
  linarith

/-- C148: `sin` and `cos` of every argument stay within `1 + 4e-6 + 11.1 ulp` in magnitude, however large the argument. -/
theorem C148_bounded (F : FxTy) (hF : F.Valid) (hs : F.T.signed = true) (hr : F.r = false) (h8 : 8 ≤ F.f) (h59 : F.f ≤ 59)
    (hroom : F.f + 5 ≤ F.T.bits) (x : Int) (hS : Storable F x) :
    (∃ c, cos F x = .ok c ∧ |val F c| ≤ 1 + 4 / 1000000 + 111 / 10 * ulp F) ∧
    (x ≠ F.T.lo → ∃ s, sin F x = .ok s ∧ |val F s| ≤ 1 + 4 / 1000000 + 111 / 10 * ulp F) := by
  have h := gl_of hF hs hr h8 h59 hroom
  obtain ⟨c⟩ := h.sinG
  have conv : ∀ r : Int, |rv F r| ≤ 1 + 4 / 1000000 + 11.1 * uR F → |val F r| ≤ 1 + 4 / 1000000 + 111 / 10 * ulp F := by
    intro r hr
    rw [← rv_eq, ← uR_eq] at hr
    have : ((|val F r| : ℚ) : ℝ) ≤ ((1 + 4 / 1000000 + 111 / 10 * ulp F : ℚ) : ℝ) := by
      push_cast; norm_num at hr ⊢; linarith
    exact_mod_cast this
  constructor
  · obtain ⟨r, a, -, b, -⟩ := SinG.rem_cos c hS
    exact ⟨r, a, conv r b⟩
  · intro hlo
    obtain ⟨r, a, -, b, -⟩ := SinG.rem_sin c hS (lt_of_le_of_ne hS.1 (Ne.symm hlo))
    exact ⟨r, a, conv r b⟩

/-- C148: the Pythagorean identity holds to `0.001 + 90 ulp` at every argument but the minimum, however large. -/
theorem C148_pythagoras (F : FxTy) (hF : F.Valid) (hs : F.T.signed = true) (hr : F.r = false) (h8 : 8 ≤ F.f) (h59 : F.f ≤ 59)
    (hroom : F.f + 5 ≤ F.T.bits) (x : Int) (hS : Storable F x) (hlo : x ≠ F.T.lo) :
    ∃ s c, sin F x = .ok s ∧ cos F x = .ok c ∧ |val F s ^ 2 + val F c ^ 2 - 1| ≤ 1 / 1000 + 90 * ulp F := by
  have h := gl_of hF hs hr h8 h59 hroom
  obtain ⟨k⟩ := h.sinG
  have hu := uR_pos F
  have hul := h.lay.u_le
  obtain ⟨c, ec, -, -, hc⟩ := SinG.rem_cos k hS
  obtain ⟨s, es, -, -, hs'⟩ := SinG.rem_sin k hS (lt_of_le_of_ne hS.1 (Ne.symm hlo))
  refine ⟨s, c, es, ec, ?_⟩
  have h1 := Real.sin_sq_add_cos_sq (rv F (Int.tmod x k.dp))
  have key : |rv F s ^ 2 + rv F c ^ 2 - 1| ≤ 1 / 1000 + 90 * uR F := by
    set a := rv F s
    set b := rv F c
    set p := Real.sin (rv F (Int.tmod x k.dp))
    set q := Real.cos (rv F (Int.tmod x k.dp))
    obtain ⟨e, he⟩ : ∃ e, e = 3 / 10000 + 28 * uR F := ⟨_, rfl⟩
    have e0 : 0 ≤ e := by rw [he]; positivity
    have hs2 : |a - p| ≤ e := by rw [he]; linarith
    rw [← he] at hc
    have e1 : e ≤ 0.11 := by rw [he]; norm_num at *; linarith
    have l4 : |p| + |q| ≤ 1.415 := by
      have a := sq_abs p; have b := sq_abs q
      nlinarith [sq_nonneg (|p| - |q|), abs_nonneg p, abs_nonneg q]
    have ee : a ^ 2 + b ^ 2 - 1 = 2 * p * (a - p) + (a - p) ^ 2 + (2 * q * (b - q) + (b - q) ^ 2) := by
      rw [← h1]; ring
    have t1 : |2 * p * (a - p)| ≤ 2 * |p| * e := by
      rw [abs_mul, abs_mul]; norm_num
      exact mul_le_mul_of_nonneg_left hs2 (by positivity)
    have t2 : |2 * q * (b - q)| ≤ 2 * |q| * e := by
      rw [abs_mul, abs_mul]; norm_num
      exact mul_le_mul_of_nonneg_left hc (by positivity)
    have t3 : (a - p) ^ 2 ≤ e ^ 2 := by rw [← sq_abs (a - p)]; exact pow_le_pow_left₀ (abs_nonneg _) hs2 2
    have t4 : (b - q) ^ 2 ≤ e ^ 2 := by rw [← sq_abs (b - q)]; exact pow_le_pow_left₀ (abs_nonneg _) hc 2
    have t5 := sq_nonneg (a - p)
    have t6 := sq_nonneg (b - q)
    have t7 : e ^ 2 ≤ 0.11 * e := by rw [sq]; exact mul_le_mul_of_nonneg_right e1 e0
    have t8 : (|p| + |q|) * e ≤ 1.415 * e := mul_le_mul_of_nonneg_right l4 e0
    have t9 : 3.05 * e ≤ 1 / 1000 + 90 * uR F := by rw [he]; norm_num; linarith
    rw [ee, abs_le]; rw [abs_le] at t1 t2
    constructor <;> linarith [t1.1, t1.2, t2.1, t2.2]
  rw [← rv_eq, ← rv_eq, ← uR_eq] at key
  have : ((|val F s ^ 2 + val F c ^ 2 - 1| : ℚ) : ℝ) ≤ ((1 / 1000 + 90 * ulp F : ℚ) : ℝ) := by push_cast; exact key
  exact_mod_cast this

/-- C148: `cos` is even to `0.0006 + 56 ulp`, however large the argument. -/
theorem C148_cos_even (F : FxTy) (hF : F.Valid) (hs : F.T.signed = true) (hr : F.r = false) (h8 : 8 ≤ F.f) (h59 : F.f ≤ 59)
    (hroom : F.f + 5 ≤ F.T.bits) (x : Int) (hS : Storable F x) (hlo : x ≠ F.T.lo) :
    ∃ c d, cos F x = .ok c ∧ cos F (-x) = .ok d ∧ |val F c - val F d| ≤ 6 / 10000 + 56 * ulp F := by
  have h := gl_of hF hs hr h8 h59 hroom
  obtain ⟨k⟩ := h.sinG
  have hlt : F.T.lo < x := lt_of_le_of_ne hS.1 (Ne.symm hlo)
  have hh := h.sw.lo_hi
  have hnS : Storable F (-x) := ⟨by have := hS.2; omega, by omega⟩
  obtain ⟨c, ec, -, -, hc⟩ := SinG.rem_cos k hS
  obtain ⟨d, ed, -, -, hd⟩ := SinG.rem_cos k hnS
  refine ⟨c, d, ec, ed, ?_⟩
  rw [Int.neg_tmod, rv_neg, Real.cos_neg] at hd
  have key : |rv F c - rv F d| ≤ 6 / 10000 + 56 * uR F := by
    rw [abs_le] at *; constructor <;> linarith [hc.1, hc.2, hd.1, hd.2]
  rw [← rv_eq, ← rv_eq, ← uR_eq] at key
  have : ((|val F c - val F d| : ℚ) : ℝ) ≤ ((6 / 10000 + 56 * ulp F : ℚ) : ℝ) := by push_cast; exact key
  exact_mod_cast this

example : (⟨i16, i32, 8, false⟩ : FxTy).Valid ∧ cDoublePi ⟨i16, i32, 8, false⟩ = .ok 1608 ∧ sin ⟨i16, i32, 8, false⟩ 300 = .ok 236 ∧
    sin ⟨i16, i32, 8, false⟩ (-300) = .ok (-236) ∧ sin ⟨i16, i32, 8, false⟩ (300 + 5 * 1608) = .ok 236 ∧ sin ⟨i16, i32, 8, false⟩ (-1608 * 3) = .ok 0 ∧
    sin ⟨i16, i32, 8, false⟩ 32767 = .ok 178 ∧ cos ⟨i16, i32, 8, false⟩ 32767 = .ok (-183) := by decide +kernel
/-- At `2^22` the error of C113 has become large against the ulp, the Pythagorean identity still holds. -/
example : sin ⟨i64, i128, 40, false⟩ (2 ^ 62) = .ok 1072166871803 ∧ cos ⟨i64, i128, 40, false⟩ (2 ^ 62) = .ok 243691544659 ∧
    cos ⟨i64, i128, 40, false⟩ (-2 ^ 62) = .ok 243691544657 ∧ sin ⟨i64, i128, 40, false⟩ (3 * 6908435304715) = .ok 0 := by decide +kernel

end Eirin.Props
