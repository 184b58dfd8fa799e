import Verif.Props.LutSin

/-! # C163: the table-driven sine of negative angles -/

namespace Eirin.Props
open Spec

theorem ip64_neg {q : Int} (h0 : -2 ^ 62 ≤ q) (h1 : q < 0) : integralPart fixed64 q = .ok ((-q - 1 + 2 ^ 32) / 2 ^ 32) := by
  have hx : fixed64.T.InRange q := r64 (by omega) (by omega)
  have hs : signbit fixed64 q = true := by rw [signbit_iff (by decide) hx]; omega
  have e1 : fixed64.T.wrap (cnot fixed64.T q) = -q - 1 := by
    unfold cnot
    have hr : fixed64.T.InRange (-q - 1) := r64 (by omega) (by omega)
    rw [show fixed64.T.promote = fixed64.T by rfl, sw64.wrap_ok hr, sw64.wrap_ok hr]
  have e2 : oneShl fixed64 = 2 ^ 32 := by decide +kernel
  have hr : fixed64.T.InRange (-q - 1 + 2 ^ 32) := r64 (by omega) (by omega)
  unfold integralPart
  rw [if_pos hs]
  simp only [e1, e2]
  rw [sw64.arith_ok hr, Res.bind_ok]
  simp only [Res.pure_eq]
  rw [sw64.wrap_ok hr, Res.bind_ok]
  unfold shr
  rw [if_pos (by decide), Res.bind_ok, show fixed64.f = 32 by rfl, sw64.wrap_ok (r64 (by omega) (by omega))]

theorem div64_neg {x y : Int} (hx0 : x ≤ 0) (hx : -2 ^ 62 ≤ x) (hy : 0 < y) (hq : -x * 2 ^ 32 / y ≤ 2 ^ 62) :
    div fixed64 x y = .ok (-(-x * 2 ^ 32 / y)) := by
  have e : Int.tdiv (x * 2 ^ 32) y = -(-x * 2 ^ 32 / y) := by
    rw [show x * 2 ^ 32 = -(-x * 2 ^ 32) by ring, Int.neg_tdiv, Int.tdiv_eq_ediv_of_nonneg (by omega)]
  have hq0 : 0 ≤ -x * 2 ^ 32 / y := Int.ediv_nonneg (by omega) hy.le
  have := sw64.div_ok rfl (x := x) (y := y) (r64 (by omega) (by omega)) hy.ne'
    (by rw [show fixed64.f = 32 by rfl, e]; exact r64 (by omega) (by omega))
  rw [this, show fixed64.f = 32 by rfl, e]

theorem mul64_big {x y : Int} (hx : |x| ≤ 2 ^ 32) (hy : |y| ≤ 2 ^ 61) :
    mul fixed64 x y = .ok (x * y / 2 ^ 32) ∧ |x * y / 2 ^ 32| ≤ 2 ^ 61 := by
  have hxy : |x * y| ≤ 2 ^ 93 := by
    rw [abs_mul]
    calc |x| * |y| ≤ 2 ^ 32 * 2 ^ 61 := mul_le_mul hx hy (abs_nonneg _) (by norm_num)
      _ = 2 ^ 93 := by norm_num
  rw [abs_le] at hx hy hxy
  have := sw64.mul_ok rfl (x := x) (y := y) (r64 (by omega) (by omega)) (r64 (by omega) (by omega))
    (by rw [show fixed64.f = 32 by rfl]; exact r64 (by omega) (by omega))
  rw [this, show fixed64.f = 32 by rfl]
  refine ⟨rfl, ?_⟩
  rw [abs_le]; omega

/-- `lutAt` far to the left of the table: the last two entries are extrapolated. -/
theorem lutAt_neg {N : Nat} (h2 : 2 ≤ N) (hN : N ≤ 4096) {l : List Int} (hl : l.length = N) (hu : UnitTable l) {xm : Int}
    (h0 : xm ≤ -26986075408) (h1 : -2 ^ 50 - 2 ^ 36 ≤ xm) :
    ∃ (a b fr : Int), l[N - 2]? = some a ∧ l[N - 1]? = some b ∧ fr ≤ -2 ^ 32 * N ∧
      (-fr - (N - 2) * 2 ^ 32) * (13493037704 / (N - 1)) ≤ -xm * 2 ^ 32 ∧ -xm * 2 ^ 32 < (-fr - (N - 2) * 2 ^ 32 + 1) * (13493037704 / (N - 1)) ∧
      |a| ≤ 2 ^ 32 ∧ |b| ≤ 2 ^ 32 ∧
      lutAt N l 13493037704 xm = .ok (a * (2 ^ 32 - fr) / 2 ^ 32 + b * fr / 2 ^ 32) := by
  have hN1 : (0 : Int) < N - 1 := by omega
  have hN4 : (N : Int) ≤ 4096 := by exact_mod_cast hN
  obtain ⟨st, hst⟩ : ∃ st : Int, st = 13493037704 / ((N : Int) - 1) := ⟨_, rfl⟩
  have s1 : st * (N - 1) ≤ 13493037704 := by rw [hst]; exact Int.ediv_mul_le _ hN1.ne'
  have s2 : 13493037704 < (st + 1) * (N - 1) := by rw [hst]; exact Int.lt_ediv_add_one_mul_self _ hN1
  have s3 : 3200000 ≤ st := by
    by_contra h
    have : (st + 1) * ((N : Int) - 1) ≤ 3200000 * ((N : Int) - 1) := mul_le_mul_of_nonneg_right (by omega) hN1.le
    omega
  have s4 : st ≤ 13493037704 := by rw [hst]; exact Int.ediv_le_self _ (by norm_num)
  have e1 : div fixed64 13493037704 (ofInt fixed64 ((N : Int) - 1)) = .ok st := by
    have e : (13493037704 : Int) * 2 ^ 32 / (((N : Int) - 1) * 2 ^ 32) = st := by
      rw [Int.mul_ediv_mul_of_pos_left _ _ (by norm_num), hst]
    rw [ofInt64 (by omega) (by omega), div64 (by norm_num) (by norm_num) (by omega) (by rw [e]; omega), e]
  rw [← hst]
  obtain ⟨pos, hpos⟩ : ∃ pos : Int, pos = -xm * 2 ^ 32 / st := ⟨_, rfl⟩
  have p1 : pos * st ≤ -xm * 2 ^ 32 := by rw [hpos]; exact Int.ediv_mul_le _ (by omega)
  have p2 : -xm * 2 ^ 32 < (pos + 1) * st := by rw [hpos]; exact Int.lt_ediv_add_one_mul_self _ (by omega)
  have p3 : 2 * (N - 1) * 2 ^ 32 ≤ pos := by
    rw [hpos]
    apply (Int.le_ediv_iff_mul_le (by omega)).2
    have : 2 * ((N : Int) - 1) * 2 ^ 32 * st = st * (N - 1) * 2 ^ 33 := by ring
    omega
  have p4 : pos < 2 ^ 61 - 2 ^ 50 := by
    rw [hpos]
    apply Int.ediv_lt_of_lt_mul (by omega)
    have : (2 ^ 61 - 2 ^ 50 : Int) * 3200000 ≤ (2 ^ 61 - 2 ^ 50) * st :=
      mul_le_mul_of_nonneg_left s3 (by norm_num)
    omega
  have e2 : div fixed64 xm st = .ok (-pos) := by
    rw [div64_neg (by omega) (by omega) (by omega) (by rw [← hpos]; omega), ← hpos]
  have e3 : integralPart fixed64 (-pos) = .ok ((pos - 1 + 2 ^ 32) / 2 ^ 32) := by
    rw [ip64_neg (by omega) (by omega), neg_neg]
  have e4 : i64.wrap ((N : Int) - 2) = N - 2 := by
    apply IntTy.wrap_of_inRange (by decide)
    exact r64 (by omega) (by omega)
  have hidx : (if (N : Int) - 2 < (pos - 1 + 2 ^ 32) / 2 ^ 32 then (N : Int) - 2 else (pos - 1 + 2 ^ 32) / 2 ^ 32) = N - 2 := by
    rw [if_pos (by omega)]
  obtain ⟨fr, hfr⟩ : ∃ fr : Int, fr = -pos - (N - 2) * 2 ^ 32 := ⟨_, rfl⟩
  have e5 : sub fixed64 (-pos) (ofInt fixed64 ((N : Int) - 2)) = .ok fr := by
    rw [ofInt64 (by omega) (by omega), sw64.sub_ok (r64 (by omega) (by omega)), hfr]
  obtain ⟨a, ha1, ha2, ha3⟩ := lutGet_ok (l := l) (i := (N : Int) - 2) (by omega) (by omega) hu
  obtain ⟨b, hb1, hb2, hb3⟩ := lutGet_ok (l := l) (i := (N : Int) - 2 + 1) (by omega) (by omega) hu
  have e6 : intSub fixed64 1 fr = .ok (2 ^ 32 - fr) := by
    unfold intSub
    rw [ofInt64 (by norm_num) (by norm_num)]
    exact sw64.sub_ok (x := 1 * 2 ^ 32) (r64 (by omega) (by omega))
  obtain ⟨m1, m1b⟩ := mul64_big (x := a) (y := 2 ^ 32 - fr) ha3 (by rw [abs_le]; omega)
  obtain ⟨m2, m2b⟩ := mul64_big (x := b) (y := fr) hb3 (by rw [abs_le]; omega)
  rw [abs_le] at m1b m2b
  refine ⟨a, b, fr, ?_, ?_, by omega, ?_, ?_, ha3, hb3, ?_⟩
  · rw [show ((N : Int) - 2).toNat = N - 2 by omega] at ha1; exact ha1
  · rw [show ((N : Int) - 2 + 1).toNat = N - 1 by omega] at hb1; exact hb1
  · rw [show -fr - ((N : Int) - 2) * 2 ^ 32 = pos by omega]; exact p1
  · rw [show -fr - ((N : Int) - 2) * 2 ^ 32 = pos by omega]; exact p2
  · unfold lutAt
    rw [e1, Res.bind_ok, e2, Res.bind_ok, e3, Res.bind_ok]
    simp only []
    rw [e4, hidx, e5, Res.bind_ok, ha2, Res.bind_ok, e6, Res.bind_ok, m1, Res.bind_ok, hb2, Res.bind_ok, m2, Res.bind_ok,
      sw64.add_ok (r64 (by omega) (by omega))]

/-- C163, every table: the angle `x < 0` is moved away from zero by `n ≥ 1` whole turns of `2 P` (to `x - 2 n P`) and the result
extrapolates the *last* two entries of the table, at least `N` steps to their left. -/
theorem C163_extrapolates (N : Nat) (l : List Int) (h2 : 2 ≤ N) (hN : N ≤ 4096) (hl : l.length = N) (hu : UnitTable l) (x : Int)
    (hx0 : x ≤ -7) (hx1 : -131072 ≤ val fixed64 x) :
    ∃ (P n a b fr r : Int), cPi fixed64 = .ok P ∧ 1 ≤ n ∧ (n - 1) * (2 * P) ≤ -x ∧ -x < n * (2 * P) + 7 ∧ l[N - 2]? = some a ∧ l[N - 1]? = some b ∧
      fr ≤ -2 ^ 32 * N ∧
      (-fr - (N - 2) * 2 ^ 32) * (P / (N - 1)) ≤ (-x + 2 * n * P) * 2 ^ 32 ∧
      (-x + 2 * n * P) * 2 ^ 32 < (-fr - (N - 2) * 2 ^ 32 + 1) * (P / (N - 1)) ∧
      lutInterp N l x = .ok r ∧ r = a * (2 ^ 32 - fr) / 2 ^ 32 + b * fr / 2 ^ 32 := by
  have hpi : cPi fixed64 = .ok 13493037704 := by decide +kernel
  have htp : mul fixed64 13493037704 (2 ^ 33) = .ok 26986075408 := by decide +kernel
  have hx2 : -2 ^ 49 ≤ x := by
    have h : val fixed64 (-2 ^ 49) = -131072 := by norm_num [val, fixed64]
    rw [← h] at hx1
    exact val_le.1 hx1
  obtain ⟨q, hq⟩ : ∃ q : Int, q = -x * 2 ^ 32 / 26986075408 := ⟨_, rfl⟩
  have q0 : 1 ≤ q ∧ q ≤ 2 ^ 61 := by omega
  obtain ⟨n, hn⟩ : ∃ n : Int, n = (q - 1 + 2 ^ 32) / 2 ^ 32 := ⟨_, rfl⟩
  have hn2 : (n - 1) * 26986075408 ≤ -x ∧ -x < n * 26986075408 + 7 ∧ 1 ≤ n := by omega
  obtain ⟨xm, hxm⟩ : ∃ xm : Int, xm = x - 26986075408 * n := ⟨_, rfl⟩
  have e1 : div fixed64 x 26986075408 = .ok (-q) := by
    rw [div64_neg (by omega) (by omega) (by norm_num) (by rw [← hq]; omega), ← hq]
  have e2 : integralPart fixed64 (-q) = .ok n := by rw [ip64_neg (by omega) (by omega), neg_neg, hn]
  have e3 : mulInt fixed64 i64 26986075408 n = .ok (26986075408 * n) := by
    unfold mulInt mulIntAssign
    simp only [show IntTy.common fixed64.T i64 = fixed64.T by rfl]
    rw [sw64.wrap_ok (r64 (by norm_num) (by norm_num)), sw64.wrap_ok (r64 (by omega) (by omega)),
      arith_of_inRange (by decide) (r64 (by omega) (by omega)), Res.bind_ok, sw64.wrap_ok (r64 (by omega) (by omega))]
    rfl
  have e4 : sub fixed64 x (26986075408 * n) = .ok xm := by rw [sw64.sub_ok (r64 (by omega) (by omega)), hxm]
  have hg : ¬ ge xm 13493037704 = true := by rw [ge_iff]; omega
  have unf : lutInterp N l x = lutAt N l 13493037704 xm := by
    unfold lutInterp
    rw [hpi, Res.bind_ok, htp, Res.bind_ok, e1, Res.bind_ok, e2, Res.bind_ok, e3, Res.bind_ok, e4, Res.bind_ok, if_neg hg]
  obtain ⟨a, b, fr, ha, hb, hfr, g1, g2, ha', hb', hat⟩ := lutAt_neg h2 hN hl hu (xm := xm) (by omega) (by omega)
  have hx' : -x + 2 * n * 13493037704 = -xm := by omega
  refine ⟨13493037704, n, a, b, fr, _, hpi, hn2.2.2, by omega, ?_, ha, hb, hfr, by rw [hx']; exact g1, by rw [hx']; exact g2,
    by rw [unf]; exact hat, rfl⟩
  omega

example : lutInterp 3 [0, 2 ^ 32, -2 ^ 32] (-10 * 2 ^ 32) = .ok 136289600672 ∧ UnitTable [0, 2 ^ 32, -2 ^ 32] ∧
    -131072 ≤ val fixed64 (-10 * 2 ^ 32) := ⟨by decide +kernel, by decide +kernel, by norm_num [val, fixed64]⟩

/-- C163: full statement: the table-driven sine is odd (up to rounding), like the sine. -/
def C163_statement : Prop :=
  ∀ s, SinApprox s → ∀ x, Storable fixed64 x → 0 ≤ x → val fixed64 x ≤ 131072 →
    ∃ r r', lutCalcSin s 512 x = .ok r ∧ lutCalcSin s 512 (-x) = .ok r' ∧ |r + r'| ≤ 2

/-- C163, what the function computes instead: for every angle from -131072 up to the last few ulps below zero the result is the sine of 3.
Full statement: `C163_statement`; missing (false): everything else about negative angles. -/
theorem C163_constant_partial (s : ℚ → ℚ) (hs : SinApprox s) (x : Int) (hx0 : x ≤ -7) (hx1 : -131072 ≤ val fixed64 x) :
    ∃ r, lutCalcSin s 512 x = .ok r ∧ |(val fixed64 r : ℝ) - Real.sin 3| ≤ 1 / 2 ^ 30 := by
  have hu : UnitTable ((List.range' 0 512).map (sinEntry s)) := by
    intro e he
    rw [List.mem_map] at he
    obtain ⟨i, _, rfl⟩ := he
    exact (sinEntry_bound hs i).1
  obtain ⟨P, n, a, b, fr, r, _, _, _, _, ha, hb, _, _, _, hr, hr'⟩ := C163_extrapolates 512 _ (by norm_num) (by norm_num) (by simp) hu x hx0 hx1
  obtain ⟨rfl, _⟩ := sinTable_get s ha
  obtain ⟨rfl, _⟩ := sinTable_get s hb
  have e510 : sinEntry s (512 - 2) = sinEntry s 510 := rfl
  have e511 : sinEntry s (512 - 1) = sinEntry s 510 := by
    unfold sinEntry
    have : 26353589 * ((512 - 1 : Nat) : Int) / 2 ^ 32 = 26353589 * ((510 : Nat) : Int) / 2 ^ 32 := by decide +kernel
    rw [this]
  rw [e510, e511] at hr'
  have h3 := (sinEntry_bound hs 510).2
  have : 26353589 * ((510 : Nat) : Int) / 2 ^ 32 = 3 := by decide +kernel
  rw [this] at h3
  obtain ⟨A, hA⟩ : ∃ A, A = sinEntry s 510 := ⟨_, rfl⟩
  rw [← hA] at h3 hr'
  refine ⟨r, ?_, ?_⟩
  · unfold lutCalcSin
    rw [sinTable hs, Res.bind_ok, hr]
  · have hr2 : r = A ∨ r = A - 1 := by
      obtain ⟨z, hz⟩ : ∃ z, z = A * fr := ⟨_, rfl⟩
      have e : A * (2 ^ 32 - fr) = A * 2 ^ 32 - z := by rw [hz]; ring
      rw [e, ← hz] at hr'
      omega
    have hval : ((val fixed64 r : ℚ) : ℝ) = (r : ℝ) / 2 ^ 32 := by
      unfold val; rw [show fixed64.f = 32 by rfl]; push_cast; rfl
    rw [hval]
    push_cast at h3
    rw [abs_le] at h3 ⊢
    rcases hr2 with rfl | rfl
    · norm_num at h3 ⊢; constructor <;> linarith [h3.1, h3.2]
    · push_cast; norm_num at h3 ⊢; constructor <;> linarith [h3.1, h3.2]

/-- C163 is false of the code: the sine of one half comes out as 0 and the sine of minus one half as the sine of 3. -/
theorem C163_false : ¬ C163_statement := by
  intro h
  obtain ⟨s, hs⟩ := sinApprox_exists
  obtain ⟨r, r', e, e', hb⟩ := h s hs (2 ^ 31) (by decide +kernel) (by norm_num) (by norm_num [val, fixed64])
  rw [C76_zero s hs (2 ^ 31) (by norm_num) (by norm_num [val, fixed64])] at e
  cases e
  obtain ⟨q, hq, hq2⟩ := C163_constant_partial s hs (-2 ^ 31) (by norm_num) (by norm_num [val, fixed64])
  rw [hq] at e'
  cases e'
  have hs3 : (1 / 10 : ℝ) ≤ Real.sin 3 := by
    have h1 := Real.sin_gt_sub_cube (x := Real.pi - 3) (by linarith [Real.pi_gt_three])
    rw [Real.sin_pi_sub] at h1
    have p1 := Real.pi_gt_d20; have p2 := Real.pi_lt_d20
    have : (Real.pi - 3) ^ 3 ≤ (15 / 100) ^ 3 := pow_le_pow_left₀ (by linarith) (by norm_num at p2 ⊢; linarith) 3
    norm_num at p1 this ⊢
    linarith
  have hval : ((val fixed64 r' : ℚ) : ℝ) = (r' : ℝ) / 2 ^ 32 := by
    unfold val; rw [show fixed64.f = 32 by rfl]; push_cast; rfl
  rw [hval, abs_le] at hq2
  rw [zero_add, abs_le] at hb
  have hb2 : (r' : ℝ) ≤ 2 := by exact_mod_cast hb.2
  have := hq2.1
  norm_num at this
  linarith

example : ∃ s, SinApprox s ∧ -131072 ≤ val fixed64 (-2 ^ 31) := by
  obtain ⟨s, hs⟩ := sinApprox_exists
  exact ⟨s, hs, by norm_num [val, fixed64]⟩

end Eirin.Props
