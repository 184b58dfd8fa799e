import Verif.Props.Trig

/-! # Properties C80 and C81: exact symmetries of `sin`; `sin` and `cos` together. -/

namespace Eirin.Props
open Spec

/-! ## C80 -/

/-- Quarter turns `w ∈ [-4, 4]` folded into `[0, 4]`. -/
def turn4 (D w : Int) : Int := if w < 0 then w + 4 * D else w
/-- The angle lies in the lower half turn. -/
def foldN (D w : Int) : Prop := 2 * D < turn4 D w
instance (D w : Int) : Decidable (foldN D w) := by unfold foldN; infer_instance
/-- Folded into one half turn. -/
def fold2 (D w : Int) : Int := if foldN D w then turn4 D w - 2 * D else turn4 D w
/-- Folded into one quarter turn. -/
def foldT (D w : Int) : Int := if D < fold2 D w then 2 * D - fold2 D w else fold2 D w

theorem foldT_range {D w : Int} (h1 : -(4 * D) ≤ w) (h2 : w ≤ 4 * D) : 0 ≤ foldT D w ∧ foldT D w ≤ D := by
  unfold foldT fold2 foldN turn4
  split_ifs <;> omega

theorem foldT_neg {D w : Int} (h1 : -(4 * D) ≤ w) (h2 : w ≤ 4 * D) : foldT D (-w) = foldT D w := by
  unfold foldT fold2 foldN turn4
  split_ifs <;> omega

theorem foldN_neg {D w : Int} (h1 : -(4 * D) ≤ w) (h2 : w ≤ 4 * D) (h3 : foldT D w ≠ 0) : foldN D (-w) ↔ ¬ foldN D w := by
  revert h3
  unfold foldT fold2 foldN turn4
  split_ifs <;> omega

/-- Outside the small-angle branch `sin` depends only on the remainder modulo `double_pi()`. -/
theorem sin_closed {F : FxTy} (c : SinC F) {fp : Int} (hS : Storable F fp) (hlo : F.T.lo < fp) (hth : c.th ≤ |fp|) :
    ∃ w, w = Int.tdiv (Int.tmod fp c.dp * 2 ^ F.f) c.p2 ∧ -(4 * 2 ^ F.f) ≤ w ∧ w ≤ 4 * 2 ^ F.f ∧
      ∃ z, sinPoly F c.pi (foldT (2 ^ F.f) w) = .ok z ∧ Storable F z ∧ Storable F (-z) ∧
        sin F fp = .ok (if foldN (2 ^ F.f) w then -z else z) := by
  have h := c.lib
  have hp : (0 : Int) < 2 ^ F.f := by positivity
  have h15 := h.p15
  obtain ⟨w, e1, e2, ew, w1, w2, -⟩ := c.turns hS
  obtain ⟨t0, t1⟩ := foldT_range w1 w2
  obtain ⟨z, ez, zS, hz⟩ := sinPoly_real h c.ePi c.aPi t0 t1
  have o0 := h.ofInt0
  have o1 := h.ofInt1
  have o2 : ofInt F 2 = 2 * 2 ^ F.f := h.ofInt_small (by norm_num) (by norm_num)
  have o4 : ofInt F 4 = 4 * 2 ^ F.f := h.ofInt_small (by norm_num) (by norm_num)
  have inr : ∀ z : Int, -(4 * 2 ^ F.f) ≤ z → z ≤ 4 * 2 ^ F.f → F.T.InRange z := by
    intro z a b
    have := h.half_pow
    apply h.inR <;> nlinarith
  have hnS : Storable F (-z) := h.st (by
    have hsz : |Real.sin (Real.pi / 2 * rv F (foldT (2 ^ F.f) w))| ≤ 1 := Real.abs_sin_le_one _
    have := h.u_le; have := uR_pos F
    rw [rv_neg, abs_neg]
    rw [abs_le] at *; norm_num at *; constructor <;> linarith)
  have hv : turn4 (2 ^ F.f) w = (if w < 0 then w + 4 * 2 ^ F.f else w) := rfl
  have v1 : 0 ≤ turn4 (2 ^ F.f) w ∧ turn4 (2 ^ F.f) w ≤ 4 * 2 ^ F.f := by unfold turn4; split <;> omega
  have hred : sinReduce F fp = .ok (fold2 (2 ^ F.f) w, decide (foldN (2 ^ F.f) w)) := by
    have ev : (if lt w (ofInt F 0) then addAssign F w (ofInt F 4) else pure w) = Res.ok (turn4 (2 ^ F.f) w) := by
      rw [o0, o4, hv]
      by_cases hw : w < 0
      · rw [if_pos (by rw [lt_iff]; exact hw), if_pos hw]; exact h.sw.add_ok (inr _ (by omega) (by omega))
      · rw [if_neg (by rw [lt_iff]; exact hw), if_neg hw]; rfl
    unfold sinReduce
    rw [c.eDp, c.eP2]
    simp only [Res.bind_ok, e1, e2]
    have hfin : (if gt (turn4 (2 ^ F.f) w) (ofInt F 2) then (do
          let x3 ← subAssign F (turn4 (2 ^ F.f) w) (ofInt F 2)
          pure (x3, true)) else pure (turn4 (2 ^ F.f) w, false)) =
        Res.ok (fold2 (2 ^ F.f) w, decide (foldN (2 ^ F.f) w)) := by
      rw [o2]
      by_cases hn : foldN (2 ^ F.f) w
      · have : subAssign F (turn4 (2 ^ F.f) w) (2 * 2 ^ F.f) = .ok (turn4 (2 ^ F.f) w - 2 * 2 ^ F.f) := h.sw.sub_ok (inr _ (by omega) (by omega))
        rw [if_pos (by rw [gt_iff]; exact hn), this]
        unfold fold2
        simp only [Res.bind_ok, Res.pure_eq, if_pos hn, decide_eq_true hn]
      · rw [if_neg (by rw [gt_iff]; exact hn)]
        unfold fold2
        simp only [Res.pure_eq, if_neg hn, decide_eq_false hn]
    by_cases hw : lt w (ofInt F 0) = true
    · rw [if_pos hw] at ev ⊢; rw [ev]; exact hfin
    · rw [if_neg hw] at ev ⊢; rw [ev]; exact hfin
  have f2 : 0 ≤ fold2 (2 ^ F.f) w ∧ fold2 (2 ^ F.f) w ≤ 2 * 2 ^ F.f := by
    unfold fold2
    by_cases hn : foldN (2 ^ F.f) w
    · rw [if_pos hn]; unfold foldN at hn; omega
    · rw [if_neg hn]; unfold foldN at hn; omega
  refine ⟨w, ew, w1, w2, z, ez, zS, hnS, ?_⟩
  have eabs := h.sw.abs_ok hS hlo
  have et : (if gt (fold2 (2 ^ F.f) w) (ofInt F 1) then sub F (ofInt F 2) (fold2 (2 ^ F.f) w) else pure (fold2 (2 ^ F.f) w)) =
      Res.ok (foldT (2 ^ F.f) w) := by
    rw [o1, o2]
    unfold foldT
    by_cases hx : 2 ^ F.f < fold2 (2 ^ F.f) w
    · rw [if_pos (by rw [gt_iff]; exact hx), if_pos hx]
      exact h.sw.sub_ok (inr _ (by omega) (by omega))
    · rw [if_neg (by rw [gt_iff]; exact hx), if_neg hx]; rfl
  unfold sin sinWith
  rw [c.ePi, Res.bind_ok, hred, Res.bind_ok]
  simp only [c.eTh, eabs, Res.bind_ok]
  rw [if_neg (by rw [lt_iff]; omega)]
  have hfin : (if decide (foldN (2 ^ F.f) w) = true then neg F z else pure z) = Res.ok (if foldN (2 ^ F.f) w then -z else z) := by
    by_cases hn : foldN (2 ^ F.f) w
    · rw [if_pos (decide_eq_true hn), if_pos hn]; exact h.sw.neg_ok hnS
    · rw [if_neg (by simpa using hn), if_neg hn]; rfl
  by_cases hg : gt (fold2 (2 ^ F.f) w) (ofInt F 1) = true
  · rw [if_pos hg] at et ⊢; rw [et]; simp only [Res.bind_ok, ez]; exact hfin
  · rw [if_neg hg] at et ⊢; rw [et]; simp only [Res.bind_ok, ez]; exact hfin

theorem th_of_val {F : FxTy} (c : SinC F) {x : Int} (hx : 15 / 100000 ≤ |val F x|) : c.th ≤ |x| := by
  rw [← rv_le F]
  refine le_trans c.thle ?_
  have : |rv F x| = rv F |x| := by
    unfold rv; rw [abs_div, abs_of_pos (by positivity : (0 : ℝ) < 2 ^ F.f)]; push_cast; rfl
  rw [← this, ← rv_eq]
  have : ((15 / 100000 : ℚ) : ℝ) ≤ ((|val F x| : ℚ) : ℝ) := by exact_mod_cast hx
  push_cast at this; exact this

/-- The polynomial vanishes at zero. -/
theorem sinPoly_zero (F : FxTy) (hF : F = fixed32 ∨ F = fixed64) (pi : Int) (hpi : cPi F = .ok pi) : sinPoly F pi 0 = .ok 0 := by
  rcases hF with rfl | rfl
  · rw [show cPi fixed32 = .ok 205887 by decide +kernel] at hpi
    cases hpi; decide +kernel
  · rw [show cPi fixed64 = .ok 13493037704 by decide +kernel] at hpi
    cases hpi; decide +kernel

/-- C80: outside the small-angle range `sin` is exactly odd. -/
theorem C80_odd (F : FxTy) (hF : F = fixed32 ∨ F = fixed64) (x : Int) (hS : Storable F x) (hlo : x ≠ F.T.lo)
    (hx : 15 / 100000 ≤ |val F x|) : ∃ z, sin F x = .ok z ∧ Storable F z ∧ sin F (-x) = .ok (-z) ∧ Storable F (-z) := by
  have c := sinC_of hF
  have h := c.lib
  have hlt : F.T.lo < x := lt_of_le_of_ne hS.1 (Ne.symm hlo)
  have hh := h.sw.lo_hi
  have hnS : Storable F (-x) := ⟨by have := hS.2; omega, by omega⟩
  have hnlt : F.T.lo < -x := by have := hS.2; omega
  have hth := th_of_val c hx
  obtain ⟨w, ew, w1, w2, z, ez, zS, nzS, es⟩ := sin_closed c hS hlt hth
  obtain ⟨w', ew', _, _, z', ez', zS', nzS', es'⟩ := sin_closed c hnS hnlt (by rw [abs_neg]; exact hth)
  have hw : w' = -w := by rw [ew', ew, Int.neg_tmod, neg_mul, Int.neg_tdiv]
  subst hw
  rw [foldT_neg w1 w2] at ez'
  have hz : z' = z := by rw [ez] at ez'; exact (Res.ok.inj ez').symm
  subst hz
  refine ⟨_, es, by split <;> assumption, ?_, by split <;> simpa⟩
  rw [es']
  by_cases ht : foldT (2 ^ F.f) w = 0
  · have : z' = 0 := by
      rw [ht, sinPoly_zero F hF _ c.ePi] at ez; exact (Res.ok.inj ez).symm
    subst this; simp
  · by_cases hn : foldN (2 ^ F.f) w
    · rw [if_neg (fun hc => ((foldN_neg w1 w2 ht).1 hc) hn), if_pos hn, neg_neg]
    · rw [if_pos ((foldN_neg w1 w2 ht).2 hn), if_neg hn]

/-- C80: outside the small-angle range `sin` has the exact period `double_pi()` on either side of zero. -/
theorem C80_periodic (F : FxTy) (hF : F = fixed32 ∨ F = fixed64) (x y dp : Int) (hdp : cDoublePi F = .ok dp) (hS : Storable F x)
    (hT : Storable F y) (hlo : x ≠ F.T.lo) (hlo' : y ≠ F.T.lo) (hx : 15 / 100000 ≤ |val F x|) (hy : 15 / 100000 ≤ |val F y|)
    (hsign : (0 ≤ val F x ∧ 0 ≤ val F y) ∨ (val F x ≤ 0 ∧ val F y ≤ 0)) (hper : ∃ k : Int, val F x = val F y + k * val F dp) :
    sin F x = sin F y := by
  have c := sinC_of hF
  have e : dp = c.dp := by have := c.eDp; rw [hdp] at this; exact Res.ok.inj this
  subst e
  obtain ⟨k, hk⟩ := hper
  have hk : x = y + k * c.dp := by
    apply val_inj (F := F); rw [hk]; unfold val; push_cast; ring
  have hmod : Int.tmod x c.dp = Int.tmod y c.dp := by
    have hd0 : 0 < c.dp := by
      have h1 := c.dp6
      have h2 : (0 : Int) < 2 ^ F.f := by positivity
      omega
    rw [← val_zero F, val_le, val_le, val_le, val_le] at hsign
    rcases hsign with ⟨a, b⟩ | ⟨a, b⟩
    · rw [Int.tmod_eq_emod_of_nonneg a, Int.tmod_eq_emod_of_nonneg b, hk, Int.add_mul_emod_self_right]
    · have p : Int.tmod (-x) c.dp = Int.tmod (-y) c.dp := by
        rw [Int.tmod_eq_emod_of_nonneg (by omega), Int.tmod_eq_emod_of_nonneg (by omega), hk,
          show -(y + k * c.dp) = -y + (-k) * c.dp by ring, Int.add_mul_emod_self_right]
      rw [Int.neg_tmod, Int.neg_tmod] at p; omega
  obtain ⟨w, ew, _, _, z, ez, _, _, es⟩ := sin_closed c hS (lt_of_le_of_ne hS.1 (Ne.symm hlo)) (th_of_val c hx)
  obtain ⟨w', ew', _, _, z', ez', _, _, es'⟩ := sin_closed c hT (lt_of_le_of_ne hT.1 (Ne.symm hlo')) (th_of_val c hy)
  rw [hmod, ← ew'] at ew
  subst ew
  rw [ez] at ez'
  rw [es, es', Res.ok.inj ez']

/-- C80: the sine of every non-zero multiple of `double_pi()` is exactly zero. -/
theorem C80_zero (F : FxTy) (hF : F = fixed32 ∨ F = fixed64) (x dp k : Int) (hdp : cDoublePi F = .ok dp) (hS : Storable F x)
    (hlo : x ≠ F.T.lo) (hk : k ≠ 0) (hx : val F x = k * val F dp) : sin F x = .ok 0 := by
  have c := sinC_of hF
  have e : dp = c.dp := by have := c.eDp; rw [hdp] at this; exact Res.ok.inj this
  subst e
  have hp : (0 : Int) < 2 ^ F.f := by positivity
  have hd := c.dp6
  have hxk : x = k * c.dp := by apply val_inj (F := F); rw [hx]; unfold val; push_cast; ring
  have hth : c.th ≤ |x| := by
    have h1 : c.th ≤ 6 * 2 ^ F.f := by
      rw [← rv_le F, rv_int]; have := c.thle; norm_num at *; linarith
    have h2 : 1 * c.dp ≤ |x| := by
      rw [hxk, abs_mul, abs_of_pos (by omega : 0 < c.dp)]
      exact mul_le_mul_of_nonneg_right (Int.one_le_abs hk) (by omega)
    omega
  obtain ⟨w, ew, _, _, z, ez, _, _, es⟩ := sin_closed c hS (lt_of_le_of_ne hS.1 (Ne.symm hlo)) hth
  have hm : Int.tmod x c.dp = 0 := by rw [hxk]; exact Int.mul_tmod_left _ _
  rw [hm, zero_mul, Int.zero_tdiv] at ew
  subst ew
  have ht : foldT (2 ^ F.f) 0 = 0 := by
    unfold foldT fold2 foldN turn4
    split_ifs <;> omega
  rw [ht, sinPoly_zero F hF _ c.ePi] at ez
  cases ez
  rw [es]; simp

/-- C80 does not extend to the small-angle range: neither oddness nor periodicity survive there. -/
theorem C80_small_false : (∃ x z, sin fixed32 x = .ok z ∧ sin fixed32 (-x) ≠ .ok (-z)) ∧
    (∃ x dp, cDoublePi fixed32 = .ok dp ∧ sin fixed32 x ≠ sin fixed32 (x + dp)) :=
  ⟨⟨8, 8, by decide +kernel, by decide +kernel⟩, ⟨3, 411774, by decide +kernel, by decide +kernel⟩⟩

example : sin fixed32 100000 = sin fixed32 (100000 + 5 * 411774) ∧ sin fixed32 (-100000) = .ok (-65472) ∧ sin fixed32 100000 = .ok 65472 ∧
    sin fixed64 (3 * 26986075409) = .ok 0 ∧ sin fixed32 (-411774) = .ok 0 := by decide +kernel

/-! ## C81 -/

/-- C81: on `[-π, π]` the results of `sin` and `cos` satisfy the Pythagorean identity to 0.0013, and `cos` is even to 0.0006. -/
theorem C81_pythagoras (F : FxTy) (hF : F = fixed32 ∨ F = fixed64) (x : Int) (hx : |((val F x : ℚ) : ℝ)| ≤ Real.pi) :
    ∃ s c, sin F x = .ok s ∧ cos F x = .ok c ∧ |val F s ^ 2 + val F c ^ 2 - 1| ≤ 13 / 10000 := by
  obtain ⟨s, es, _, hs⟩ := C39_accuracy F hF x (by have := Real.pi_pos; linarith)
  obtain ⟨c, ec, _, hc⟩ := C40_cos_accuracy F hF x hx
  refine ⟨s, c, es, ec, ?_⟩
  have h1 := Real.sin_sq_add_cos_sq ((val F x : ℚ) : ℝ)
  have b1 := Real.abs_sin_le_one ((val F x : ℚ) : ℝ)
  have b2 := Real.abs_cos_le_one ((val F x : ℚ) : ℝ)
  have key : |((val F s : ℚ) : ℝ) ^ 2 + ((val F c : ℚ) : ℝ) ^ 2 - 1| ≤ 13 / 10000 := by
    set a := ((val F s : ℚ) : ℝ)
    set b := ((val F c : ℚ) : ℝ)
    set p := Real.sin ((val F x : ℚ) : ℝ)
    set q := Real.cos ((val F x : ℚ) : ℝ)
    have e : a ^ 2 + b ^ 2 - 1 = 2 * p * (a - p) + (a - p) ^ 2 + (2 * q * (b - q) + (b - q) ^ 2) := by
      rw [← h1]; ring
    have t1 : |2 * p * (a - p)| ≤ 2 * 1 * (3 / 10000) := by
      rw [abs_mul, abs_mul]; norm_num
      have := mul_le_mul b1 hs (abs_nonneg _) (by norm_num); linarith
    have t2 : |2 * q * (b - q)| ≤ 2 * 1 * (3 / 10000) := by
      rw [abs_mul, abs_mul]; norm_num
      have := mul_le_mul b2 hc (abs_nonneg _) (by norm_num); linarith
    have t3 : (a - p) ^ 2 ≤ (3 / 10000) ^ 2 := by rw [← sq_abs (a - p)]; exact pow_le_pow_left₀ (abs_nonneg _) hs 2
    have t4 : (b - q) ^ 2 ≤ (3 / 10000) ^ 2 := by rw [← sq_abs (b - q)]; exact pow_le_pow_left₀ (abs_nonneg _) hc 2
    have t5 := sq_nonneg (a - p)
    have t6 := sq_nonneg (b - q)
    rw [e, abs_le]; rw [abs_le] at t1 t2
    constructor <;> linarith [t1.1, t1.2, t2.1, t2.2]
  have : ((|val F s ^ 2 + val F c ^ 2 - 1| : ℚ) : ℝ) ≤ ((13 / 10000 : ℚ) : ℝ) := by push_cast; exact key
  exact_mod_cast this

theorem C81_cos_even (F : FxTy) (hF : F = fixed32 ∨ F = fixed64) (x : Int) (hx : |((val F x : ℚ) : ℝ)| ≤ Real.pi) :
    ∃ c d, cos F x = .ok c ∧ cos F (-x) = .ok d ∧ |val F c - val F d| ≤ 6 / 10000 := by
  obtain ⟨c, ec, _, hc⟩ := C40_cos_accuracy F hF x hx
  obtain ⟨d, ed, _, hd⟩ := C40_cos_accuracy F hF (-x) (by rw [val_neg]; push_cast; rw [abs_neg]; exact hx)
  refine ⟨c, d, ec, ed, ?_⟩
  rw [val_neg] at hd
  push_cast at hd
  rw [Real.cos_neg] at hd
  have key : |((val F c : ℚ) : ℝ) - ((val F d : ℚ) : ℝ)| ≤ 6 / 10000 := by
    rw [abs_le] at *; constructor <;> linarith [hc.1, hc.2, hd.1, hd.2]
  have : ((|val F c - val F d| : ℚ) : ℝ) ≤ ((6 / 10000 : ℚ) : ℝ) := by push_cast; exact key
  exact_mod_cast this

/-- C81: exact evenness fails. -/
theorem C81_even_exact_false : ∃ x c d, cos fixed32 x = .ok c ∧ cos fixed32 (-x) = .ok d ∧ c ≠ d :=
  ⟨1000, 65528, 65529, by decide +kernel, by decide +kernel, by decide⟩

example : |((val fixed32 65536 : ℚ) : ℝ)| ≤ Real.pi := by
  have := Real.pi_gt_three; unfold val; norm_num [fixed32]; linarith

end Eirin.Props
