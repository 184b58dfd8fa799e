import Verif.Lemmas.Log2Real

/-! # Properties C32–C34: logarithms. -/

namespace Eirin.Props
open Spec Real

/-! ## C32 -/

theorem Lib.log2_neg {F : FxTy} (h : Lib F) {x : Int} (h0 : x ≤ 0) : log2 F x = .throw .domainError := by
  unfold log2
  have hb : shl u32 1 (F.f - 1) = .ok (2 ^ (F.f - 1)) := by rcases h.f with e | e <;> rw [e] <;> decide +kernel
  rw [hb, Res.bind_ok]
  simp only
  rw [if_pos (by rw [h.ofInt0, le_iff]; exact h0)]

/-- C32: `log2` throws `domain_error` exactly on the non-positive values; on all others it is defined (the loops end, nothing
overflows) and the result is storable. -/
theorem C32_log2_domain (F : FxTy) (hF : F = fixed32 ∨ F = fixed64) (x : Int) (hx : Storable F x) :
    (val F x ≤ 0 → log2 F x = .throw .domainError) ∧ (0 < val F x → ∃ r, log2 F x = .ok r ∧ Storable F r) := by
  have h : Lib F := by rcases hF with rfl | rfl; exacts [lib32, lib64]
  constructor
  · intro h0
    rw [← val_zero F, val_le] at h0
    exact Lib.log2_neg h h0
  · intro h0
    rw [← val_zero F, val_lt] at h0
    obtain ⟨m, k, _, _, _, _, _, a, b⟩ := h.log2_raw hx h0
    exact ⟨_, a, b⟩

theorem fracOut_one (f n : Nat) : fracOut f n (2 ^ f) = 0 := by
  induction n with
  | zero => rfl
  | succ n ih =>
    have hp : (0 : Int) < 2 ^ f := by positivity
    rw [fracOut, Int.mul_ediv_cancel _ hp.ne', if_neg (by omega), ih]

/-- C32: exact on every representable power of two. -/
theorem C32_log2_pow (F : FxTy) (hF : F = fixed32 ∨ F = fixed64) (x : Int) (hx : Storable F x) (k : Int)
    (hk : val F x = (2 : ℚ) ^ k) : ∃ r, log2 F x = .ok r ∧ val F r = k := by
  have h : Lib F := by rcases hF with rfl | rfl; exacts [lib32, lib64]
  have hpos : 0 < val F x := by rw [hk]; positivity
  rw [← val_zero F, val_lt] at hpos
  obtain ⟨m, k', hn, hk1, hk2, e1, e2, a, b⟩ := h.log2_raw hx hpos
  -- `x = 2^(k+f)`
  have hxq : (x : ℚ) = 2 ^ (k + F.f) := by
    unfold val at hk
    rw [div_eq_iff (by positivity)] at hk
    rw [hk, zpow_add₀ (by norm_num), zpow_natCast]
  have hkf : 0 ≤ k + F.f := by
    by_contra hc
    have h1 : (x : ℚ) < 1 := by rw [hxq]; exact zpow_lt_one_of_neg₀ (by norm_num) (by omega)
    have : x < 1 := by exact_mod_cast h1
    omega
  have hx2 : x = 2 ^ (k + F.f).toNat := by
    have h1 : (x : ℚ) = ((2 ^ (k + F.f).toNat : Int) : ℚ) := by
      rw [hxq]; push_cast; rw [← zpow_natCast, Int.toNat_of_nonneg hkf]
    exact_mod_cast h1
  have hkk : k' = k := by
    rw [hx2] at e1 e2
    have a1 := (pow_le_pow_iff_right₀ (show (1 : Int) < 2 by norm_num)).1 e1
    rw [← pow_succ'] at e2
    have a2 := (pow_lt_pow_iff_right₀ (show (1 : Int) < 2 by norm_num)).1 e2
    omega
  subst hkk
  have hm : m = 2 ^ F.f := by
    rcases lt_or_ge k' 0 with hneg | hpos'
    · rw [hn.neg hneg, hx2, ← pow_add]; congr 1; omega
    · rw [hn.pos hpos', hx2]
      have : (2 : Int) ^ (k' + F.f).toNat = 2 ^ F.f * 2 ^ k'.toNat := by rw [← pow_add]; congr 1; omega
      rw [this, Int.mul_ediv_cancel _ (by positivity)]
  refine ⟨_, a, ?_⟩
  rw [hm, fracOut_one, add_zero, val_int]

example : log2 fixed32 1 = .ok (-16 * 65536) ∧ log2 fixed32 (2 ^ 30) = .ok (14 * 65536) ∧ log2 fixed32 0 = .throw .domainError ∧
    log2 fixed64 (2 ^ 62) = .ok (30 * 2 ^ 32) ∧ log2 fixed32 (2 ^ 31 - 1) = .ok 983039 := by decide +kernel

/-! ## C33 -/

/-- C33: `log2` never exceeds the true base-2 logarithm and is less than 4 ulp below it. -/
theorem C33_log2_accuracy (F : FxTy) (hF : F = fixed32 ∨ F = fixed64) (x : Int) (hx : Storable F x) (h0 : 0 < val F x) :
    ∃ r, log2 F x = .ok r ∧ ((val F r : ℚ) : ℝ) ≤ Real.logb 2 ((val F x : ℚ) : ℝ) ∧
      Real.logb 2 ((val F x : ℚ) : ℝ) < (val F r : ℚ) + 4 * (ulp F : ℚ) := by
  have h : Lib F := by rcases hF with rfl | rfl; exacts [lib32, lib64]
  rw [← val_zero F, val_lt] at h0
  obtain ⟨m, k, hn, _, _, _, _, a, b⟩ := h.log2_raw hx h0
  refine ⟨_, a, ?_⟩
  obtain ⟨n1, n2⟩ := norm_real hn h0
  obtain ⟨f1, f2⟩ := frac_real F.f F.f hn.lo hn.hi
  have hp : (0 : ℝ) < 2 ^ F.f := by positivity
  unfold val ulp
  push_cast
  have e : ((k : ℝ) * 2 ^ F.f + fracOut F.f F.f m) / 2 ^ F.f = k + fracOut F.f F.f m / 2 ^ F.f := by field_simp
  rw [e]
  constructor
  · linarith
  · have e2 : (1 : ℝ) - 1 / 2 ^ F.f ≤ 1 := by have : (0 : ℝ) ≤ 1 / 2 ^ F.f := by positivity
                                              linarith
    have e3 : (1.4427 : ℝ) / 2 ^ F.f * (1 - 1 / 2 ^ F.f) ≤ 1.4427 / 2 ^ F.f :=
      mul_le_of_le_one_right (by positivity) e2
    have e4 : (1.4427 : ℝ) / 2 ^ F.f = 1.4427 * (1 / 2 ^ F.f) := by ring
    have e5 : (0 : ℝ) < 1 / 2 ^ F.f := by positivity
    rw [add_div] at f2
    rw [e4] at n2 e3 f2
    linarith

theorem log2_mono_raw {F : FxTy} (h : Lib F) {x y a b : Int} (hx : Storable F x) (hy : Storable F y) (h0 : 0 < x) (hxy : x ≤ y)
    (ha : log2 F x = .ok a) (hb : log2 F y = .ok b) : a ≤ b := by
  obtain ⟨m, k, hn, k1, k2, e1, e2, r1, _⟩ := h.log2_raw hx h0
  obtain ⟨m', k', hn', k1', k2', e1', e2', r1', _⟩ := h.log2_raw hy (by omega)
  rw [ha] at r1; cases r1
  rw [hb] at r1'; cases r1'
  have hp : (0 : Int) < 2 ^ F.f := by positivity
  have hkk : k ≤ k' := by
    by_contra hc
    have : (2 : Int) ^ ((k' + F.f).toNat + 1) ≤ 2 ^ (k + F.f).toNat := pow_le_pow_right₀ (by norm_num) (by omega)
    rw [pow_succ] at this; omega
  rcases lt_or_eq_of_le hkk with hlt | heq
  · have := fracOut_lt F.f F.f m
    have := fracOut_nonneg F.f F.f m'
    have : (k + 1) * 2 ^ F.f ≤ k' * 2 ^ F.f := mul_le_mul_of_nonneg_right (by omega) hp.le
    linarith
  · subst heq
    have hm : m ≤ m' := by
      rcases lt_or_ge k 0 with hneg | hpos
      · rw [hn.neg hneg, hn'.neg hneg]; exact mul_le_mul_of_nonneg_right hxy (by positivity)
      · rw [hn.pos hpos, hn'.pos hpos]; exact Int.ediv_le_ediv (by positivity) hxy
    have := fracOut_mono F.f F.f (le_trans hp.le hn.lo) hm
    linarith

/-- C33: `log2` is monotone. -/
theorem C33_log2_mono (F : FxTy) (hF : F = fixed32 ∨ F = fixed64) (x y a b : Int) (hx : Storable F x) (hy : Storable F y)
    (h0 : 0 < val F x) (hxy : val F x ≤ val F y) (ha : log2 F x = .ok a) (hb : log2 F y = .ok b) : val F a ≤ val F b := by
  have h : Lib F := by rcases hF with rfl | rfl; exacts [lib32, lib64]
  rw [← val_zero F, val_lt] at h0
  rw [val_le] at hxy ⊢
  exact log2_mono_raw h hx hy h0 hxy ha hb

example : log2 fixed32 (3 * 65536) = .ok 103872 ∧ log2 fixed32 (5 * 65536) = .ok 152169 ∧ Storable fixed32 (3 * 65536) := by
  decide +kernel

/-! ## C34 -/

theorem tdiv_mono {a b c : Int} (hc : 0 < c) (h : a ≤ b) : Int.tdiv a c ≤ Int.tdiv b c := by
  rcases le_or_gt 0 a with h0 | h0
  · rw [Int.tdiv_eq_ediv_of_nonneg h0, Int.tdiv_eq_ediv_of_nonneg (by omega)]
    exact Int.ediv_le_ediv hc h
  · rcases le_or_gt 0 b with h1 | h1
    · have := (tdiv_mul_spec a hc).2 h0.le
      have h2 : Int.tdiv a c ≤ 0 := by nlinarith
      rw [Int.tdiv_eq_ediv_of_nonneg h1]
      have := Int.ediv_nonneg h1 hc.le
      omega
    · have e : ∀ t : Int, Int.tdiv t c = -(Int.tdiv (-t) c) := by intro t; rw [Int.neg_tdiv, neg_neg]
      rw [e a, e b, Int.tdiv_eq_ediv_of_nonneg (by omega), Int.tdiv_eq_ediv_of_nonneg (by omega)]
      have := Int.ediv_le_ediv hc (show -b ≤ -a by omega)
      omega

/-- Division of a `log2` result by the stored constant `c ≈ 2^f/κ`. -/
theorem log_core {F : FxTy} (h : Lib F) (c : Int) (hc : 2 ^ F.f ≤ c) (κ : ℝ) (hκ0 : 0 < κ) {x : Int} (hx : Storable F x) (h0 : 0 < x) :
    ∃ L, log2 F x = .ok L ∧ div F L c = .ok (Int.tdiv (L * 2 ^ F.f) c) ∧ Storable F (Int.tdiv (L * 2 ^ F.f) c) ∧
      |((val F (Int.tdiv (L * 2 ^ F.f) c) : ℚ) : ℝ) - κ * Real.logb 2 ((val F x : ℚ) : ℝ)| <
        (1 + F.f * 2 ^ F.f * |2 ^ F.f / c - κ| + 4 * κ) * (ulp F : ℚ) := by
  obtain ⟨L, hL, hl1, hl2⟩ := C33_log2_accuracy F (by rcases h.f with e | e
                                                      · left; have := h.i; have := h.b; have := h.r; have := h.sw.sg
                                                        obtain ⟨⟨tb, ts⟩, I, f, r⟩ := F
                                                        simp_all [fixed32]
                                                      · right; have := h.i; have := h.b; have := h.r; have := h.sw.sg
                                                        obtain ⟨⟨tb, ts⟩, I, f, r⟩ := F
                                                        simp_all [fixed64]) x hx (by rw [← val_zero F, val_lt]; exact h0)
  obtain ⟨m, k, hn, k1, k2, _, _, a, hs⟩ := h.log2_raw hx h0
  have hLe : L = k * 2 ^ F.f + fracOut F.f F.f m := by rw [hL] at a; cases a; rfl
  have hp : (0 : Int) < 2 ^ F.f := by positivity
  have hc0 : 0 < c := by omega
  have f1 := fracOut_nonneg F.f F.f m
  have f2 := fracOut_lt F.f F.f m
  have hLb1 : -(F.f : Int) * 2 ^ F.f ≤ L := by rw [hLe]; nlinarith
  have hLb2 : L ≤ F.f * 2 ^ F.f := by rw [hLe]; nlinarith
  have hLs : Storable F L := by rw [hLe]; exact hs
  have t := tdiv_mul_spec (L * 2 ^ F.f) hc0
  have hin : F.T.InRange (Int.tdiv (L * 2 ^ F.f) c) := by
    obtain ⟨l1, l2⟩ := hLs
    have hz := h.sw.zero_in
    obtain ⟨z1, z2⟩ := hz
    rcases le_or_gt 0 L with hL0 | hL0
    · have e : 0 ≤ L * 2 ^ F.f := by positivity
      rw [Int.tdiv_eq_ediv_of_nonneg e]
      have a1 : 0 ≤ L * 2 ^ F.f / c := Int.ediv_nonneg e hc0.le
      have a2 : L * 2 ^ F.f / c ≤ L := by
        apply Int.ediv_le_of_le_mul hc0; nlinarith
      constructor <;> omega
    · have e : Int.tdiv (L * 2 ^ F.f) c = -((-L) * 2 ^ F.f / c) := by
        rw [← Int.tdiv_eq_ediv_of_nonneg (by nlinarith : 0 ≤ (-L) * 2 ^ F.f), neg_mul, Int.neg_tdiv, neg_neg]
      have a1 : 0 ≤ (-L) * 2 ^ F.f / c := Int.ediv_nonneg (by nlinarith) hc0.le
      have a2 : (-L) * 2 ^ F.f / c ≤ -L := by
        apply Int.ediv_le_of_le_mul hc0; nlinarith
      rw [e]
      constructor <;> omega
  refine ⟨L, hL, h.sw.div_ok h.r hLs hc0.ne' hin, hin, ?_⟩
  have hpR : (0 : ℝ) < 2 ^ F.f := by positivity
  have hcR : (0 : ℝ) < c := by exact_mod_cast hc0
  -- truncation error
  have q : |(Int.tdiv (L * 2 ^ F.f) c : ℝ) - L * 2 ^ F.f / c| < 1 := by
    set Q := Int.tdiv (L * 2 ^ F.f) c with hQ
    have : |Q * c - L * 2 ^ F.f| < c := by
      rw [abs_lt]
      rcases le_or_gt 0 (L * 2 ^ F.f) with h' | h'
      · have := t.1 h'; constructor <;> omega
      · have := t.2 h'.le; constructor <;> omega
    have h3 : |(Q : ℝ) * c - L * 2 ^ F.f| < c := by exact_mod_cast this
    have e : (Q : ℝ) - L * 2 ^ F.f / c = (Q * c - L * 2 ^ F.f) / c := by field_simp
    rw [e, abs_div, abs_of_pos hcR, div_lt_one hcR]; exact h3
  have hval : ∀ n : Int, ((val F n : ℚ) : ℝ) = n / 2 ^ F.f := by intro n; unfold val; push_cast; rfl
  have hulp : ((ulp F : ℚ) : ℝ) = 1 / 2 ^ F.f := by unfold ulp; push_cast; rfl
  simp only [hval, hulp] at hl1 hl2 ⊢
  set ℓ := Real.logb 2 ((x : ℝ) / 2 ^ F.f) with hℓ
  have hLabs : |(L : ℝ)| ≤ F.f * 2 ^ F.f := by
    rw [abs_le]
    constructor
    · have : ((-(F.f : Int) * 2 ^ F.f : Int) : ℝ) ≤ L := by exact_mod_cast hLb1
      push_cast at this; linarith
    · have : (L : ℝ) ≤ ((F.f * 2 ^ F.f : Int) : ℝ) := by exact_mod_cast hLb2
      push_cast at this; linarith
  have d1 : |(L : ℝ) * 2 ^ F.f / c - κ * L| ≤ F.f * 2 ^ F.f * |2 ^ F.f / c - κ| := by
    have e : (L : ℝ) * 2 ^ F.f / c - κ * L = L * (2 ^ F.f / c - κ) := by ring
    rw [e, abs_mul]
    exact mul_le_mul_of_nonneg_right hLabs (abs_nonneg _)
  have d2 : |κ * (L : ℝ) - κ * (ℓ * 2 ^ F.f)| ≤ 4 * κ := by
    rw [← mul_sub, abs_mul, abs_of_pos hκ0, mul_comm 4]
    apply mul_le_mul_of_nonneg_left _ hκ0.le
    rw [div_le_iff₀ hpR] at hl1
    have e : (L : ℝ) / 2 ^ F.f + 4 * (1 / 2 ^ F.f) = (L + 4) / 2 ^ F.f := by ring
    rw [e, lt_div_iff₀ hpR] at hl2
    rw [abs_le]; constructor <;> linarith
  have e : ((Int.tdiv (L * 2 ^ F.f) c : Int) : ℝ) / 2 ^ F.f - κ * ℓ = (((Int.tdiv (L * 2 ^ F.f) c : Int) : ℝ) - κ * (ℓ * 2 ^ F.f)) / 2 ^ F.f := by
    field_simp
  rw [e, abs_div, abs_of_pos hpR, div_eq_mul_one_div]
  apply mul_lt_mul_of_pos_right _ (by positivity)
  generalize ((Int.tdiv (L * 2 ^ F.f) c : Int) : ℝ) = Q at *
  have tri1 := abs_sub_le Q ((L : ℝ) * 2 ^ F.f / c) (κ * (ℓ * 2 ^ F.f))
  have tri2 := abs_sub_le ((L : ℝ) * 2 ^ F.f / c) (κ * L) (κ * (ℓ * 2 ^ F.f))
  linarith

theorem log_eq_logb {y : ℝ} : Real.log y = Real.log 2 * Real.logb 2 y := by
  unfold Real.logb; have := RealConst.log_two_gt; rw [mul_div_cancel₀]; norm_num at *

/-- C34: domain of `log` and `log10`. -/
theorem C34_log_domain (F : FxTy) (hF : F = fixed32 ∨ F = fixed64) (x : Int) (hx : Storable F x) :
    (val F x ≤ 0 → log F x = .throw .domainError ∧ log10 F x = .throw .domainError) ∧
    (0 < val F x → (∃ r, log F x = .ok r ∧ Storable F r) ∧ (∃ r, log10 F x = .ok r ∧ Storable F r)) := by
  have h : Lib F := by rcases hF with rfl | rfl; exacts [lib32, lib64]
  have key : ∃ a b : Int, fromFixedNumValue F i64 60 0x171547652B82FE00 = .ok a ∧ fromFixedNumValue F i64 60 0x35269E12F346E200 = .ok b ∧
      2 ^ F.f ≤ a ∧ 2 ^ F.f ≤ b := by
    rcases hF with rfl | rfl
    · exact ⟨94548, 217705, by decide +kernel⟩
    · exact ⟨6196328018, 14267572527, by decide +kernel⟩
  obtain ⟨a, b, ha, hb, ca, cb⟩ := key
  unfold log log10
  rw [ha, hb, Res.bind_ok, Res.bind_ok]
  constructor
  · intro h0
    rw [(C32_log2_domain F hF x hx).1 h0]
    exact ⟨rfl, rfl⟩
  · intro h0
    rw [← val_zero F, val_lt] at h0
    obtain ⟨L, l1, l2, l3, _⟩ := log_core h a ca 1 (by norm_num) hx h0
    obtain ⟨L', m1, m2, m3, _⟩ := log_core h b cb 1 (by norm_num) hx h0
    rw [l1, Res.bind_ok, Res.bind_ok, l2]
    rw [l1] at m1; cases m1
    rw [m2]
    exact ⟨⟨_, rfl, l3⟩, ⟨_, rfl, m3⟩⟩

/-- C34: accuracy of the natural logarithm: 8 ulp for `fixed32`, 15 ulp for `fixed64`. -/
theorem C34_log_accuracy (F : FxTy) (hF : F = fixed32 ∨ F = fixed64) (x : Int) (hx : Storable F x) (h0 : 0 < val F x) :
    ∃ r, log F x = .ok r ∧
      |((val F r : ℚ) : ℝ) - Real.log ((val F x : ℚ) : ℝ)| < (if F.f = 16 then 8 else 15) * (ulp F : ℚ) := by
  rw [← val_zero F, val_lt] at h0
  have l2 := RealConst.log_two_gt
  have l3 := RealConst.log_two_lt
  rcases hF with rfl | rfl
  · obtain ⟨L, a, b, _, c⟩ := log_core lib32 94548 (by decide +kernel) (Real.log 2) (by norm_num at *; linarith) hx h0
    refine ⟨Int.tdiv (L * 2 ^ fixed32.f) 94548, ?_, ?_⟩
    · unfold log
      rw [show fromFixedNumValue fixed32 i64 60 0x171547652B82FE00 = .ok 94548 by decide +kernel, Res.bind_ok, a, Res.bind_ok, b]
    · rw [log_eq_logb]
      refine lt_of_lt_of_le c ?_
      have hu : (0 : ℝ) < ((ulp fixed32 : ℚ) : ℝ) := by exact_mod_cast ulp_pos fixed32
      apply mul_le_mul_of_nonneg_right _ hu.le
      rw [if_pos (by rfl), show fixed32.f = 16 by rfl]
      have : |(2 : ℝ) ^ 16 / ((94548 : Int) : ℝ) - Real.log 2| ≤ 0.0000034 := by
        rw [abs_le]; constructor <;> norm_num at * <;> linarith
      norm_num at *; linarith
  · obtain ⟨L, a, b, _, c⟩ := log_core lib64 6196328018 (by decide +kernel) (Real.log 2) (by norm_num at *; linarith) hx h0
    refine ⟨Int.tdiv (L * 2 ^ fixed64.f) 6196328018, ?_, ?_⟩
    · unfold log
      rw [show fromFixedNumValue fixed64 i64 60 0x171547652B82FE00 = .ok 6196328018 by decide +kernel, Res.bind_ok, a, Res.bind_ok, b]
    · rw [log_eq_logb]
      refine lt_of_lt_of_le c ?_
      have hu : (0 : ℝ) < ((ulp fixed64 : ℚ) : ℝ) := by exact_mod_cast ulp_pos fixed64
      apply mul_le_mul_of_nonneg_right _ hu.le
      rw [if_neg (by decide), show fixed64.f = 32 by rfl]
      have : |(2 : ℝ) ^ 32 / ((6196328018 : Int) : ℝ) - Real.log 2| ≤ 0.000000000081 := by
        rw [abs_le]; constructor <;> norm_num at * <;> linarith
      norm_num at *; linarith

/-- C34: accuracy of the decimal logarithm: 4 ulp for `fixed32`, 6 ulp for `fixed64`. -/
theorem C34_log10_accuracy (F : FxTy) (hF : F = fixed32 ∨ F = fixed64) (x : Int) (hx : Storable F x) (h0 : 0 < val F x) :
    ∃ r, log10 F x = .ok r ∧
      |((val F r : ℚ) : ℝ) - Real.logb 10 ((val F x : ℚ) : ℝ)| < (if F.f = 16 then 4 else 6) * (ulp F : ℚ) := by
  rw [← val_zero F, val_lt] at h0
  have l2 := RealConst.log_two_gt
  have l3 := RealConst.log_two_lt
  have t2 := RealConst.log_ten_gt
  have t3 := RealConst.log_ten_lt
  have tp : 0 < Real.log 10 := by norm_num at *; linarith
  have q1 : (0.301029995663 : ℝ) ≤ Real.log 2 / Real.log 10 := by rw [le_div_iff₀ tp]; norm_num at *; linarith
  have q2 : Real.log 2 / Real.log 10 ≤ (0.301029995665 : ℝ) := by rw [div_le_iff₀ tp]; norm_num at *; linarith
  have e : ∀ y : ℝ, Real.logb 10 y = Real.log 2 / Real.log 10 * Real.logb 2 y := by
    intro y; unfold Real.logb
    have : Real.log 2 ≠ 0 := by norm_num at *
    field_simp
  rcases hF with rfl | rfl
  · obtain ⟨L, a, b, _, c⟩ := log_core lib32 217705 (by decide +kernel) (Real.log 2 / Real.log 10) (by norm_num at *; linarith) hx h0
    refine ⟨Int.tdiv (L * 2 ^ fixed32.f) 217705, ?_, ?_⟩
    · unfold log10
      rw [show fromFixedNumValue fixed32 i64 60 0x35269E12F346E200 = .ok 217705 by decide +kernel, Res.bind_ok, a, Res.bind_ok, b]
    · generalize Real.log 2 / Real.log 10 = κ at *
      rw [e]
      refine lt_of_lt_of_le c ?_
      have hu : (0 : ℝ) < ((ulp fixed32 : ℚ) : ℝ) := by exact_mod_cast ulp_pos fixed32
      apply mul_le_mul_of_nonneg_right _ hu.le
      rw [if_pos (by rfl), show fixed32.f = 16 by rfl]
      have : |(2 : ℝ) ^ 16 / ((217705 : Int) : ℝ) - κ| ≤ 0.0000013 := by
        rw [abs_le]; constructor <;> norm_num at * <;> linarith
      norm_num at *; linarith
  · obtain ⟨L, a, b, _, c⟩ := log_core lib64 14267572527 (by decide +kernel) (Real.log 2 / Real.log 10) (by norm_num at *; linarith) hx h0
    refine ⟨Int.tdiv (L * 2 ^ fixed64.f) 14267572527, ?_, ?_⟩
    · unfold log10
      rw [show fromFixedNumValue fixed64 i64 60 0x35269E12F346E200 = .ok 14267572527 by decide +kernel, Res.bind_ok, a, Res.bind_ok, b]
    · generalize Real.log 2 / Real.log 10 = κ at *
      rw [e]
      refine lt_of_lt_of_le c ?_
      have hu : (0 : ℝ) < ((ulp fixed64 : ℚ) : ℝ) := by exact_mod_cast ulp_pos fixed64
      apply mul_le_mul_of_nonneg_right _ hu.le
      rw [if_neg (by decide), show fixed64.f = 32 by rfl]
      have : |(2 : ℝ) ^ 32 / ((14267572527 : Int) : ℝ) - κ| ≤ 0.000000000025 := by
        rw [abs_le]; constructor <;> norm_num at * <;> linarith
      norm_num at *; linarith

/-- C34: `log` and `log10` are monotone. -/
theorem C34_log_mono (F : FxTy) (hF : F = fixed32 ∨ F = fixed64) (x y a b a' b' : Int) (hx : Storable F x) (hy : Storable F y)
    (h0 : 0 < val F x) (hxy : val F x ≤ val F y) (ha : log F x = .ok a) (hb : log F y = .ok b)
    (ha' : log10 F x = .ok a') (hb' : log10 F y = .ok b') : val F a ≤ val F b ∧ val F a' ≤ val F b' := by
  have h : Lib F := by rcases hF with rfl | rfl; exacts [lib32, lib64]
  have key : ∃ a b : Int, fromFixedNumValue F i64 60 0x171547652B82FE00 = .ok a ∧ fromFixedNumValue F i64 60 0x35269E12F346E200 = .ok b ∧
      2 ^ F.f ≤ a ∧ 2 ^ F.f ≤ b := by
    rcases hF with rfl | rfl
    · exact ⟨94548, 217705, by decide +kernel⟩
    · exact ⟨6196328018, 14267572527, by decide +kernel⟩
  obtain ⟨c, d, hc, hd, cc, cd⟩ := key
  have hp : (0 : Int) < 2 ^ F.f := by positivity
  rw [← val_zero F, val_lt] at h0
  rw [val_le] at hxy
  unfold log at ha hb
  unfold log10 at ha' hb'
  rw [hc, Res.bind_ok] at ha hb
  rw [hd, Res.bind_ok] at ha' hb'
  obtain ⟨L, l1, l2, _, _⟩ := log_core h c cc 1 (by norm_num) hx h0
  obtain ⟨L2, m1, m2, _, _⟩ := log_core h c cc 1 (by norm_num) hy (by omega)
  obtain ⟨L3, l1', l2', _, _⟩ := log_core h d cd 1 (by norm_num) hx h0
  obtain ⟨L4, m1', m2', _, _⟩ := log_core h d cd 1 (by norm_num) hy (by omega)
  rw [l1] at l1'; cases l1'
  rw [m1] at m1'; cases m1'
  have hL := log2_mono_raw h hx hy h0 hxy l1 m1
  rw [l1, Res.bind_ok, l2] at ha
  rw [l1, Res.bind_ok, l2'] at ha'
  rw [m1, Res.bind_ok, m2] at hb
  rw [m1, Res.bind_ok, m2'] at hb'
  cases ha; cases hb; cases ha'; cases hb'
  rw [val_le, val_le]
  have := mul_le_mul_of_nonneg_right hL hp.le
  exact ⟨tdiv_mono (by omega) this, tdiv_mono (by omega) this⟩

example : log fixed32 (5 * 65536) = .ok 105476 ∧ log10 fixed32 (5 * 65536) = .ok 45807 ∧ log fixed32 (-1) = .throw .domainError ∧
    log fixed32 32768 = .ok (-45426) := by decide +kernel

end Eirin.Props
