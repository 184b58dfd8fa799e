import Verif.Props.RoundArc
import Verif.Lemmas.SinGen

/-! # Property C207: the cosine of zero in rounding types -/

namespace Eirin.Props
open Spec

/-- C207 as one would expect it: the cosine of zero is within 49 ulps of one. -/
def C207_statement : Prop :=
  ∀ F : FxTy, F.Valid → F.T.signed = true → F.r = true → 8 ≤ F.f → F.f + 6 ≤ F.T.bits →
    ∃ r, cos F 0 = .ok r ∧ Storable F r ∧ |val F r - 1| ≤ 49 * ulp F

theorem layR32 {F : FxTy} (hF : F.Valid) (hs : F.T.signed = true) (hr : F.r = true) (h8 : 8 ≤ F.f) (h6 : F.f + 6 ≤ F.T.bits) : LayR F 31.9 := by
  have h := layR8 hF hs hr h8 (by omega)
  have hpw : (2 : Int) ^ (F.f + 5) ≤ 2 ^ (F.T.bits - 1) := pow_le_pow_right₀ (by norm_num) (by omega)
  rw [pow_add] at hpw
  have hp : (0 : Int) < 2 ^ F.f := by positivity
  have hhi : F.T.hi = 2 ^ (F.T.bits - 1) - 1 := by unfold IntTy.hi; rw [if_pos hs]
  have hlo : F.T.lo = -2 ^ (F.T.bits - 1) := by unfold IntTy.lo; rw [if_pos hs]
  refine ⟨h.sw, hr, h.u_le, ?_, ?_⟩
  · intro z hz
    unfold rv at hz
    rw [abs_div, abs_of_pos (by positivity : (0 : ℝ) < 2 ^ F.f), div_le_iff₀ (by positivity)] at hz
    have h2 : |(z : ℝ)| < 32 * 2 ^ F.f := lt_of_le_of_lt hz (mul_lt_mul_of_pos_right (by norm_num) (by positivity))
    have hz' : |z| < 32 * 2 ^ F.f := by exact_mod_cast h2
    rw [abs_lt] at hz'
    constructor <;> omega
  · have h1 : rv F (32 * 2 ^ F.f - 1) ≤ rv F F.T.hi := by rw [rv_le, hhi]; omega
    rw [rv_sub, rv_int, show rv F 1 = uR F by rw [rv_u]; norm_num] at h1
    have hu := h.u_le
    push_cast at h1
    norm_num at *
    linarith

theorem tdiv_rv {F : FxTy} {x n : Int} (hn : 0 < n) : |rv F (Int.tdiv x n)| ≤ |rv F x| / n := by
  have hn' : (0 : ℝ) < n := by exact_mod_cast hn
  have h1 : |Int.tdiv x n| * n ≤ |x| := by
    have e : |Int.tdiv x n| = |x| / n := by
      rw [Int.abs_eq_natAbs, Int.natAbs_tdiv, Int.abs_eq_natAbs]
      conv_rhs => rw [← abs_of_pos hn, Int.abs_eq_natAbs]
      rfl
    rw [e]
    exact Int.ediv_mul_le _ hn.ne'
  have h2 : |((Int.tdiv x n : Int) : ℝ)| * n ≤ |(x : ℝ)| := by exact_mod_cast h1
  rw [le_div_iff₀ hn']
  unfold rv
  rw [abs_div, abs_div, div_mul_eq_mul_div]
  exact div_le_div_of_nonneg_right h2 (abs_nonneg _)

theorem Ap.zero_of {F : FxTy} {z : Int} {X k : ℝ} (h : Ap F z X k) (hX : X = 0) : Ap F z 0 k := hX ▸ h

/-- The polynomial of `sin` in a rounding type at an argument of at most seven ulps. -/
theorem sinPoly_r0 {F : FxTy} (h : LayR F 31.9) {pi x : Int} (ePi : cPi F = .ok pi) (hpi : Ap F pi Real.pi 1) (hx : Ap F x 0 7) :
    ∃ z, sinPoly F pi x = .ok z ∧ Storable F z ∧ |rv F z| ≤ 49 * uR F := by
  have g := Real.pi_gt_d4; have l := Real.pi_lt_d4
  have hM : |Real.pi| ≤ 3.15 := by rw [abs_of_pos (by linarith)]; norm_num; linarith
  have hone : Ap F (2 ^ F.f) 1 0 := by
    have := Ap.exact (F := F) h.sw.one
    rwa [show rv F (2 ^ F.f) = 1 by have := rv_int F 1; rw [one_mul] at this; simpa using this] at this
  have o1 : ofInt F 1 = 2 ^ F.f := by rw [ofInt_eq F h.sw.valid, one_mul]; exact h.sw.wrap_ok h.sw.one
  have z0 : |(0 : ℝ)| ≤ 0 := by simp
  obtain ⟨p, ep, hp⟩ := LayR.mul h 3.15 3.15 14 hpi hpi hM hM (by norm_num) (by norm_num)
  have hp20 : |rv F p| ≤ 20 := by
    have hu := h.u_le
    obtain ⟨a1, a2⟩ := abs_le.1 hp.er
    have : Real.pi * Real.pi ≤ 3.1416 * 3.1416 := mul_le_mul (by linarith) (by linarith) (by linarith) (by norm_num)
    have : 0 ≤ Real.pi * Real.pi := by positivity
    rw [abs_le]; norm_num at *; constructor <;> linarith
  have co : ∀ k : Int, 24 ≤ k → k < 2 ^ 31 → ∃ c, sinCoeff F pi k = .ok c ∧ Storable F c ∧ |rv F c| ≤ 1 := by
    intro k hk hk2
    refine ⟨Int.tdiv p k, ?_, h.sw.tdiv_inRange hp.st (by omega), ?_⟩
    · unfold sinCoeff
      rw [ep, Res.bind_ok, h.sw.divInt_ok hp.st (by omega) hk2]
    · refine (tdiv_rv (by omega)).trans ?_
      have : (24 : ℝ) ≤ k := by exact_mod_cast hk
      rw [div_le_one (by linarith)]
      linarith
  obtain ⟨a, ea, sa, ha⟩ := co 24 (by norm_num) (by norm_num)
  obtain ⟨b, eb, sb, hb⟩ := co 80 (by norm_num) (by norm_num)
  obtain ⟨c, ec, sc, hc⟩ := co 168 (by norm_num) (by norm_num)
  obtain ⟨d, ed, sd, hd⟩ := co 288 (by norm_num) (by norm_num)
  obtain ⟨x2, ex2, hx2⟩ := LayR.mul h 0 0 1.5 hx hx z0 z0 (by norm_num) (by norm_num)
  have hx2 := Ap.zero_of hx2 (by ring)
  have tm : ∀ {c : Int}, Storable F c → |rv F c| ≤ 1 → ∃ t, mul F c x2 = .ok t ∧ Ap F t 0 4 := by
    intro c sc hc
    obtain ⟨t, et, ht⟩ := LayR.mul h 1 0 4 (Ap.exact sc) hx2 hc z0 (by norm_num) (by norm_num)
    exact ⟨t, et, Ap.zero_of ht (by ring)⟩
  have one1 : |(1 : ℝ)| ≤ 1 := by simp
  have one0 : |(1 - 0 : ℝ)| ≤ 1 := by simp
  obtain ⟨t4, et4, ht4⟩ := tm sd hd
  obtain ⟨eu4, hu4⟩ := LayR.sub h hone ht4 one0 (by norm_num)
  rw [sub_zero] at hu4
  have st : ∀ {t u : Int} {k : ℝ}, Ap F t 0 4 → Ap F u 1 k → k ≤ 10 → ∃ w, mul F t u = .ok w ∧ sub F (2 ^ F.f) w = .ok (2 ^ F.f - w) ∧ Ap F (2 ^ F.f - w) 1 10 := by
    intro t u k ht hu hk
    obtain ⟨w, ew, hw⟩ := LayR.mul h 0 1 10 ht hu z0 one1 (by norm_num; linarith) (by norm_num)
    have hw := Ap.zero_of hw (by ring)
    obtain ⟨es, hs⟩ := LayR.sub h hone hw one0 (by norm_num)
    rw [sub_zero, zero_add] at hs
    exact ⟨w, ew, es, hs⟩
  obtain ⟨t3a, et3a, ht3a⟩ := tm sc hc
  obtain ⟨t3, et3, eu3, hu3⟩ := st ht3a hu4 (by norm_num)
  obtain ⟨t2a, et2a, ht2a⟩ := tm sb hb
  obtain ⟨t2, et2, eu2, hu2⟩ := st ht2a hu3 le_rfl
  obtain ⟨t1a, et1a, ht1a⟩ := tm sa ha
  obtain ⟨t1, et1, eu1, hu1⟩ := st ht1a hu2 le_rfl
  obtain ⟨px, epx, hpx⟩ := LayR.mul h 3.15 0 46 hpi hx hM z0 (by norm_num) (by norm_num)
  have hpx := Ap.zero_of hpx (by ring)
  obtain ⟨r, er, hr⟩ := LayR.mul h 0 1 97 hpx hu1 z0 one1 (by norm_num) (by norm_num)
  have hr := Ap.zero_of hr (by ring)
  refine ⟨Int.tdiv r 2, ?_, h.sw.tdiv_inRange hr.st (by norm_num), ?_⟩
  · unfold sinPoly
    dsimp only
    rw [o1, ex2, Res.bind_ok, ea, Res.bind_ok, eb, Res.bind_ok, ec, Res.bind_ok, ed, Res.bind_ok, et4, Res.bind_ok, eu4, Res.bind_ok, et3a, Res.bind_ok,
      et3, Res.bind_ok, eu3, Res.bind_ok, et2a, Res.bind_ok, et2, Res.bind_ok, eu2, Res.bind_ok, et1a, Res.bind_ok, et1, Res.bind_ok, eu1, Res.bind_ok,
      ePi, Res.bind_ok, epx, Res.bind_ok, er, Res.bind_ok, h.sw.divInt_ok hr.st (by norm_num) (by norm_num)]
  · have h1 := tdiv_rv (F := F) (x := r) (n := 2) (by norm_num)
    have h2 := hr.er
    rw [sub_zero] at h2
    have := uR_pos F
    push_cast at h1
    linarith

/-- C207 (what happens instead): the cosine of zero is within 49 ulps of *zero*. -/
theorem C207_cos_partial (F : FxTy) (hF : F.Valid) (hs : F.T.signed = true) (hr : F.r = true) (h8 : 8 ≤ F.f) (h6 : F.f + 6 ≤ F.T.bits) :
    ∃ r, cos F 0 = .ok r ∧ Storable F r ∧ |val F r| ≤ 49 * ulp F := by
  have h := layR32 hF hs hr h8 h6
  have h7 := layR8 hF hs hr h8 (by omega)
  have f58 : F.f ≤ 58 := by rcases hF.1 with c | c | c | c <;> omega
  have stn : ∀ k : Int, |(k : ℝ)| ≤ 31 → Storable F (k * 2 ^ F.f) := fun k hk => h.st (by rw [rv_int]; norm_num at *; linarith)
  have oi : ∀ k : Int, |(k : ℝ)| ≤ 31 → ofInt F k = k * 2 ^ F.f := fun k hk => h.sw.ofInt_ok (stn k hk)
  have o0 : ofInt F 0 = 0 := by rw [oi 0 (by norm_num), zero_mul]
  have o1 : ofInt F 1 = 1 * 2 ^ F.f := oi 1 (by norm_num)
  have o2 : ofInt F 2 = 2 * 2 ^ F.f := oi 2 (by norm_num)
  have g := Real.pi_gt_d4; have l := Real.pi_lt_d4
  have hu := h.u_le
  have hu0 := uR_pos F
  have hu60 : (1 : ℝ) / 2 ^ 60 ≤ uR F / 2 := by
    unfold uR
    rw [div_div, ← pow_succ]
    exact div_le_div_of_nonneg_left (by norm_num) (by positivity) (pow_le_pow_right₀ (by norm_num) (by omega))
  have hu61 : (1 : ℝ) / 2 ^ 61 ≤ uR F / 2 := le_trans (by norm_num) hu60
  have rep : ∀ m : Int, |(m : ℝ)| ≤ 31 → Representable F m := fun m hm => ⟨m * 2 ^ F.f, stn m hm, val_int F m⟩
  obtain ⟨c1, c2, -, c3⟩ := C20_every_pi
  obtain ⟨p, ep, sp, -, np⟩ := c1 F 4 hF (by omega) (by push_cast; linarith) (rep 4 (by norm_num))
  obtain ⟨q, eq, sq, -, nq⟩ := c2 F 2 hF (by omega) (by push_cast; linarith) (rep 2 (by norm_num))
  obtain ⟨d, ed, sd, -, nd⟩ := c3 F 7 hF (by omega) (by push_cast; linarith) (rep 7 (by norm_num))
  replace np := np hr; replace nq := nq hr; replace nd := nd hr
  rw [rv_eq, uR_eq] at np nq nd
  have np : |rv F p - Real.pi| ≤ 1 * uR F := by linarith
  have nq : |rv F q - Real.pi / 2| ≤ uR F := by linarith
  have nd : |rv F d - 2 * Real.pi| ≤ uR F := by linarith
  clear hu60 hu61
  have hpi : Ap F p Real.pi 1 := ⟨sp, np⟩
  obtain ⟨p1, p2⟩ := abs_le.1 np
  obtain ⟨q1, q2⟩ := abs_le.1 nq
  obtain ⟨d1, d2⟩ := abs_le.1 nd
  -- the quarter turn comes out as half a turn
  obtain ⟨w, ew, sw, nw⟩ := half_r h7 (by omega) (x := p) (by rw [abs_le]; constructor <;> linarith) o2
  obtain ⟨w1, w2⟩ := abs_le.1 nw
  obtain ⟨dd, -, edd, -, -⟩ := C05_mul_partial F hF hr p (2 * 2 ^ F.f) sp (stn 2 (by norm_num))
  have ew0 : add F 0 w = .ok w := by
    have := h.sw.add_ok (x := 0) (y := w) (by rw [zero_add]; exact sw)
    rwa [zero_add] at this
  -- reduction
  have r0 : rv F 0 = 0 := by simp [rv]
  have hw0 : 0 ≤ w := by rw [← rv_le F, r0]; linarith
  have hwd : w < d := by rw [← rv_lt F]; linarith
  have e1 : remAssign F w d = .ok w := by
    have nf := rem_nf hF (y := d) sw
    rw [if_neg (by omega), if_neg (by rintro ⟨-, -, c⟩; omega), Int.tmod_eq_of_lt hw0 hwd] at nf
    exact nf
  have hq0 : q ≠ 0 := by rintro rfl; rw [r0] at q1; linarith
  obtain ⟨z, n, ez, hn, hwr⟩ := (C05_div_partial F hF hr (by omega) w q sw).2 hq0
  have a := nearest_rv hn
  push_cast at a
  rw [rv_eq, rv_eq] at a
  have hqv : 1.5 ≤ rv F q := by norm_num; linarith
  have b : |rv F w / rv F q - 2| ≤ 2.7 * uR F := by
    rw [div_sub' (by linarith), abs_div, abs_of_pos (by linarith : 0 < rv F q), div_le_iff₀ (by linarith)]
    have : 2.7 * uR F * 1.5 ≤ 2.7 * uR F * rv F q := mul_le_mul_of_nonneg_left hqv (by positivity)
    refine le_trans ?_ this
    norm_num
    rw [abs_le]; constructor <;> linarith
  have r2 : rv F (2 * n) = 2 * rv F n := by unfold rv; push_cast; ring
  obtain ⟨a1, a2⟩ := abs_le.1 a
  obtain ⟨b1, b2⟩ := abs_le.1 b
  norm_num at b1 b2
  have m1 : |rv F (2 * n) - 4| ≤ 7 * uR F := by rw [r2, abs_le]; constructor <;> linarith
  have m2 : Ap F (2 * n) 4 7 := h.of_er (M := 4) m1 (by norm_num) (by norm_num) (by norm_num)
  have ez' : z = 2 * n := isWrap_unique hF.tpos hwr ⟨m2.st, by simp⟩
  subst ez'
  have e2 : divAssign F w q = .ok (2 * n) := ez
  generalize 2 * n = v at *
  obtain ⟨m3, m4⟩ := abs_le.1 m1
  have v0 : ¬ v < 0 := by rw [← rv_lt F, r0]; linarith
  have v2 : 3 * 2 ^ F.f < v := by rw [← rv_lt F, rv_int]; push_cast; linarith
  have hp : (0 : Int) < 2 ^ F.f := by positivity
  have two : Ap F (2 * 2 ^ F.f) 2 0 := by
    have := Ap.exact (F := F) (stn 2 (by norm_num))
    rwa [rv_int] at this
  obtain ⟨e3, m5⟩ := LayR.sub h m2 two (M := 2) (by norm_num) (by norm_num)
  have e3' : subAssign F v (2 * 2 ^ F.f) = .ok (v - 2 * 2 ^ F.f) := e3
  obtain ⟨e4, m6⟩ := LayR.sub h two m5 (M := 0) (by norm_num) (by norm_num)
  have m6 : Ap F (2 * 2 ^ F.f - (v - 2 * 2 ^ F.f)) 0 7 := by norm_num at m6; exact m6
  have hred : sinReduce F w = .ok (v - 2 * 2 ^ F.f, true) := by
    unfold sinReduce
    rw [ed, Res.bind_ok, e1, Res.bind_ok, eq, Res.bind_ok, e2, Res.bind_ok, o0, o2, if_neg (by rw [lt_iff]; exact v0), Res.pure_eq, Res.bind_ok]
    dsimp only
    rw [if_pos (by rw [gt_iff]; omega), e3', Res.bind_ok]
    rfl
  -- the threshold for small arguments
  obtain ⟨th, eth, hth⟩ : ∃ th, ofFloat F lit00015 = .ok th ∧ rv F th ≤ 1 := by
    have ht := ratTrunc_spec F (lit00015 * 2 ^ F.f * (1 / 2))
    have e : lit00015 * 2 ^ F.f * (1 / 2) / 2 ^ F.f = lit00015 / 2 := by field_simp
    rw [e] at ht
    obtain ⟨t0, t1, -⟩ := ht.1 (by norm_num [lit00015])
    have t1' : rv F (ratTrunc (lit00015 * 2 ^ F.f * (1 / 2))) ≤ 1 := by
      rw [← rv_eq]
      have : ((val F (ratTrunc (lit00015 * 2 ^ F.f * (1 / 2))) : ℚ) : ℝ) ≤ ((lit00015 / 2 : ℚ) : ℝ) := by exact_mod_cast t1
      refine le_trans this ?_
      norm_num [lit00015]
    have t0' : 0 ≤ rv F (ratTrunc (lit00015 * 2 ^ F.f * (1 / 2))) := by rw [← rv_eq]; exact_mod_cast t0
    refine ⟨_, ?_, t1'⟩
    unfold ofFloat floatToInt
    rw [if_pos hr, if_pos (by norm_num [lit00015]), fractionMultiplier_eq hF]
    push_cast
    have hin : F.T.InRange (ratTrunc (lit00015 * 2 ^ F.f * (1 / 2))) := h.st (by rw [abs_of_nonneg t0']; norm_num; linarith)
    rw [if_pos hin]
  have ea : abs F w = .ok w := by rw [h.sw.abs_ok sw (by have := (stn (-1) (by norm_num)).1; omega), abs_of_nonneg hw0]
  have hlt : ¬ w < th := by rw [← rv_lt F]; linarith
  obtain ⟨r, er, sr, hrr⟩ := sinPoly_r0 h ep hpi m6
  have sn : Storable F (-r) := h.st (by rw [rv_neg, abs_neg]; norm_num at *; linarith)
  refine ⟨-r, ?_, sn, ?_⟩
  · have hsin : sin F w = .ok (-r) := by
      unfold sin sinWith
      rw [ep, Res.bind_ok, hred, Res.bind_ok]
      dsimp only
      rw [eth, Res.bind_ok, ea, Res.bind_ok, if_neg (by rw [lt_iff]; exact hlt), o1, o2, if_pos (by rw [gt_iff]; omega), e4, Res.bind_ok, er, Res.bind_ok,
        if_pos rfl, h.sw.neg_ok sn]
    unfold cos
    rw [ep, Res.bind_ok, ew, Res.bind_ok, o2, edd, Res.bind_ok, if_neg (by norm_num), ew0, Res.bind_ok]
    exact hsin
  · have : |((val F (-r) : ℚ) : ℝ)| ≤ 49 * ((ulp F : ℚ) : ℝ) := by rw [rv_eq, uR_eq, rv_neg, abs_neg]; exact hrr
    exact_mod_cast this

example : cos fixed32r 0 = .ok 0 ∧ cos fixed32 0 = .ok 65536 := by decide +kernel

/-- C207 is false of the code: in the rounding variant of `fixed32` the cosine of zero is zero. -/
theorem C207_false : ¬ C207_statement := by
  intro h
  have e0 : cos fixed32r 0 = .ok 0 := by decide +kernel
  obtain ⟨r, e, -, hr⟩ := h fixed32r (by decide) rfl rfl (by decide) (by decide)
  have : r = 0 := Res.ok.inj (e.symm.trans e0)
  subst this
  norm_num [val, ulp, fixed32r] at hr

/-- C207: the tangent of zero therefore raises an exception in the rounding variant of `fixed32`. -/
theorem C207_tan_throws : tan fixed32r 0 = .throw .domainError := by decide +kernel

end Eirin.Props
