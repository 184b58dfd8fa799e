import Verif.Props.NoOverflow
import Verif.Props.PowUnsigned

/-! # C173: every outcome of `pow(fixed, fixed)` on unsigned and narrow storage -/

namespace Eirin.Props
open Spec

/-- C173 as stated: a non-negative number raised to a power is returned as a number of the type. -/
def C173_statement : Prop := ∀ F : FxTy, F.Valid → ¬ SignedWide F → F.r = false → ∀ b e, Storable F b → Storable F e → 0 ≤ val F b →
  Returns F (powFixed F b e)

theorem common_tab : ∀ b ∈ [8, 16, 32, 64], ∀ c ∈ [16, 32, 64, 128], ∀ s : Bool, b < c → (IntTy.common ⟨c, s⟩ ⟨b, s⟩).signed = true →
    (IntTy.common ⟨c, s⟩ ⟨b, s⟩).lo ≤ (IntTy.mk b s).lo ∧ (IntTy.mk b s).hi ≤ (IntTy.common ⟨c, s⟩ ⟨b, s⟩).hi := by decide +kernel

section
variable {F : FxTy} (h : NW F)
include h

theorem NW.c_range {v : Int} (hv : F.T.InRange v) (hs : F.C.signed = true) : F.C.InRange v := by
  have key : F.C.lo ≤ F.T.lo ∧ F.T.hi ≤ F.C.hi := by
    obtain ⟨⟨b, s⟩, ⟨c, t⟩, f, r⟩ := F
    obtain ⟨h1, h2, h3, h4, -⟩ := h.valid
    simp only at h1 h2 h3 h4
    subst h4
    exact common_tab b (by simpa using h1) c (by simpa using h2) t h3 hs
  exact ⟨le_trans key.1 hv.1, le_trans hv.2 key.2⟩

theorem NW.tdiv_in {e : Int} (he : Storable F e) : F.T.InRange (Int.tdiv e (2 ^ F.f)) := by
  have hp : (0 : Int) < 2 ^ F.f := by positivity
  obtain ⟨t1, t2⟩ := tdiv_mul_spec e hp
  have h0 := h.z
  obtain ⟨s1, s2⟩ := he
  obtain ⟨z1, z2⟩ := h0
  set q := Int.tdiv e (2 ^ F.f)
  rcases le_total 0 e with hc | hc
  · obtain ⟨a, b, c⟩ := t1 hc
    have : 0 ≤ q := Int.tdiv_nonneg hc hp.le
    exact ⟨by omega, by nlinarith⟩
  · obtain ⟨a, b, c⟩ := t2 hc
    have : q ≤ 0 := by by_contra k; nlinarith
    exact ⟨by nlinarith, by omega⟩

theorem NW.cdivC {e : Int} (he : Storable F e) : cdiv F.C e (fractionMultiplier F) = .ok (Int.tdiv e (2 ^ F.f)) := by
  rw [fractionMultiplier_eq h.valid]
  unfold cdiv
  rw [if_neg (by positivity), if_neg]
  rintro ⟨a, b⟩
  exact b (h.c_range (h.tdiv_in he) a)

theorem NW.small {n : Int} (hn : F.T.InRange n) : |n| < 2 ^ 65 := by
  have hb : F.T.bits ≤ 64 := by have := h.valid.1; omega
  have p1 : (2 : Int) ^ F.T.bits ≤ 2 ^ 64 := pow_le_pow_right₀ (by norm_num) hb
  have p2 : (2 : Int) ^ (F.T.bits - 1) ≤ 2 ^ 64 := pow_le_pow_right₀ (by norm_num) (by omega)
  have p3 : (0 : Int) < 2 ^ (F.T.bits - 1) := by positivity
  obtain ⟨n1, n2⟩ := hn
  unfold IntTy.lo at n1; unfold IntTy.hi at n2
  rw [abs_lt]
  split at n1 <;> split at n2 <;> first | contradiction | (constructor <;> norm_num at p1 p2 n1 n2 ⊢ <;> omega)

/-- The body for a non-zero base: the whole power first, then the logarithm. -/
theorem NW.body {b e : Int} (hb0 : b ≠ 0) (he : Storable F e) : ∃ e', Storable F e' ∧
    powFixedBody F b e = (powInt F b (Int.tdiv e (2 ^ F.f)) >>= fun p => log F b >>= fun l => Eirin.mul F e' l >>= fun m => Eirin.exp F m >>= fun x => Eirin.mul F p x) ∧
    (0 ≤ e → 0 ≤ e' ∧ e' < 2 ^ F.f) := by
  obtain ⟨e', ee, se⟩ := (h.subInt (k := 0) (x := e) (n := Int.tdiv e (2 ^ F.f)) he).ok0
  refine ⟨e', se, ?_, fun e0 => ?_⟩
  swap
  · have hp : (0 : Int) < 2 ^ F.f := by positivity
    obtain ⟨a, b, c⟩ := (tdiv_mul_spec e hp).1 e0
    obtain ⟨z, hz, hw⟩ := (C150_add_sub F h.valid h.ns e (Int.tdiv e (2 ^ F.f)) he).2.2.1
    have ez : e' = z := by
      have : subIntAssign F e (Int.tdiv e (2 ^ F.f)) = .ok z := hz
      rw [ee] at this; exact Res.ok.inj this
    have hin : F.T.InRange (e - Int.tdiv e (2 ^ F.f) * 2 ^ F.f) := ⟨by have := h.z.1; omega, by have := he.2; omega⟩
    have : e' = e - Int.tdiv e (2 ^ F.f) * 2 ^ F.f := by
      rw [ez, ← IntTy.wrap_of_inRange h.valid.tpos hw.1, ← IntTy.wrap_of_inRange h.valid.tpos hin]
      exact (IntTy.wrap_congr hw.2).symm
    rw [this]
    constructor <;> omega
  unfold powFixedBody
  have : ¬ eq b (ofInt F 0) = true := by
    rw [h.ofInt0]; simp only [eq, decide_eq_true_eq]; exact hb0
  rw [if_neg this, h.cdivC he, Res.bind_ok]
  dsimp only
  rw [IntTy.wrap_of_inRange h.valid.tpos (h.tdiv_in he), ee, Res.bind_ok]

/-- A power of zero. -/
theorem NW.zero_base {e : Int} : powFixedBody F 0 e = .ok (if e = 0 then ofInt F 1 else 0) := by
  unfold powFixedBody
  have : eq 0 (ofInt F 0) = true := by
    rw [h.ofInt0]; simp only [eq, decide_eq_true_eq]
  rw [if_pos this]
  by_cases c : e = 0
  · have : eq e (ofInt F 0) = true := by
      rw [h.ofInt0]; simp only [eq, decide_eq_true_eq]; exact c
    rw [if_pos this, if_pos c]
  · have : ¬ eq e (ofInt F 0) = true := by
      rw [h.ofInt0]; simp only [eq, decide_eq_true_eq]; exact c
    rw [if_neg this, if_neg c, h.ofInt0]

theorem NW.log_nonpos (hf : F.f ≤ 32) {x : Int} (c : x ≤ 0) : log F x = .throw .domainError := by
  obtain ⟨c1, e1, s1⟩ := Lv.ok0 (h.fromF (k := 0) (s := 60) (c := 0x171547652B82FE00) (by decide) (by omega) (by decide +kernel))
  unfold log
  rw [e1, Res.bind_ok]
  unfold log2
  have e : ∃ b0, shl u32 1 (F.f - 1) = .ok b0 := by
    unfold shl; rw [if_pos (by show F.f - 1 < 32; omega)]; exact ⟨_, rfl⟩
  obtain ⟨b0, e⟩ := e
  rw [e, Res.bind_ok]
  dsimp only
  rw [if_pos (by rw [h.ofInt0]; simp only [le, cmp, bne_iff_ne, ne_eq, compare_gt_iff_gt, not_lt]; exact c), Res.bind_throw]
end

/-- No exception leaves the computation. -/
def NT {α : Type} (m : Res α) : Prop := ∀ e, m ≠ .throw e

theorem NT.bind {α β : Type} {m : Res α} {g : α → Res β} (hm : NT m) (hg : ∀ r, m = .ok r → NT (g r)) : NT (m >>= g) := by
  rcases m with r | u | e
  · rw [Res.bind_ok]; exact hg r rfl
  · rw [Res.bind_ub]; intro e c; cases c
  · exact absurd rfl (hm e)

theorem Lv.nt {F : FxTy} {m : Res Int} (hm : Lv F 0 m) : NT m := by
  obtain ⟨r, e, -⟩ := hm.ok0
  rw [e]; intro x c; cases c

theorem Lv.ok_in {F : FxTy} {k : Nat} {m : Res Int} (hm : Lv F k m) {r : Int} (e : m = .ok r) : Storable F r := by rw [e] at hm; exact hm

theorem Lv.dz {F : FxTy} {m : Res Int} (hm : Lv F 2 m) (hn : NT m) : Returns F m ∨ m = .ub .divZero := by
  rcases hm.only with c | c | c
  · exact Or.inl c
  · exact absurd c (hn _)
  · exact Or.inr c

section
variable {F : FxTy} (h : NW F)
include h

theorem NW.div_nt {x y : Int} (hx : Storable F x) : NT (Eirin.div F x y) := by
  rw [div_nf h.valid h.r hx]
  split <;> (intro e c; cases c)

theorem NW.powNeg_nt : ∀ n (e b r : Int), Storable F b → Storable F r → NT (powNegLoop F n e b r)
  | 0, _, _, _, _, _ => by intro e c; cases c
  | n + 1, e, b, r, hb, hr => by
    unfold powNegLoop
    split
    · have fin : ∀ r', Storable F r' → NT (mulAssign F b b >>= fun i' => powNegLoop F n (e.tdiv 2) i' r') := fun r' sr =>
        NT.bind (h.mul hb hb).nt fun b' eb => NW.powNeg_nt n _ _ _ ((h.mul (k := 0) hb hb).ok_in eb) sr
      dsimp only
      split
      · exact NT.bind (h.div_nt hr) fun r' er => fin _ ((h.divA (k := 2) hr (fun _ => le_rfl)).ok_in er)
      · exact fin r hr
    · intro e c; cases c

theorem NW.pow_nt {b e : Int} (hb : Storable F b) (he : |e| < 2 ^ 65) : NT (powInt F b e) := by
  by_cases c : e < 0
  · unfold powInt
    rw [if_pos c]
    split
    · split <;> (intro e c; cases c)
    exact h.powNeg_nt _ _ _ _ hb (h.one 1)
  · exact (h.pow hb he (fun d => absurd d c)).nt

theorem NW.expE_nt (hf : F.f ≤ 60) {x : Int} (hx : Storable F x) : NT (expExpand F x) := by
  unfold expExpand
  refine NT.bind (h.intPart x).nt fun n sn => ?_
  have sn := (h.intPart (k := 0) x).ok_in sn
  refine NT.bind (h.subInt hx).nt fun fp sf => ?_
  have sf := (h.subInt (k := 0) hx).ok_in sf
  obtain ⟨a, ea, sa⟩ := (h.fromF (k := 0) (s := 63) (c := 0x01C798ECC0CBC856) (by decide) hf (by decide +kernel)).ok0
  obtain ⟨b, eb, sb⟩ := (h.fromF (k := 0) (s := 63) (c := 0x04745859810836DA) (by decide) hf (by decide +kernel)).ok0
  obtain ⟨c, ec, sc⟩ := (h.fromF (k := 0) (s := 63) (c := 0x15CFBB5C306F85F3) (by decide) hf (by decide +kernel)).ok0
  obtain ⟨d, ed, sd⟩ := (h.fromF (k := 0) (s := 63) (c := 0x3FE26186C531F98E) (by decide) hf (by decide +kernel)).ok0
  obtain ⟨e, ee, se⟩ := (h.fromF (k := 0) (s := 63) (c := 0x40014D4407008BB0) (by decide) hf (by decide +kernel)).ok0
  obtain ⟨f, ef, sf'⟩ := (h.fromF (k := 0) (s := 63) (c := 0x7FFFF686446F1B43) (by decide) hf (by decide +kernel)).ok0
  rw [ea, Res.bind_ok, eb, Res.bind_ok, ec, Res.bind_ok, ed, Res.bind_ok, ee, Res.bind_ok, ef, Res.bind_ok]
  have hE : Lv F 0 (cE F) := by
    unfold cE
    exact h.fromF (by decide) hf (by decide +kernel)
  refine NT.bind hE.nt fun eV sV => ?_
  have sV := hE.ok_in sV
  refine NT.bind (h.pow_nt sV (h.small sn)) fun p ep => ?_
  have sp := (h.pow (k := 2) sV (h.small sn) (fun _ => le_rfl)).ok_in ep
  apply Lv.nt (F := F)
  refine Lv.bind (h.mul sf sa) fun m1 r1 => ?_
  refine Lv.bind (h.add sb r1) fun s1 q1 => ?_
  refine Lv.bind (h.mul sf q1) fun m2 r2 => ?_
  refine Lv.bind (h.add sc r2) fun s2 q2 => ?_
  refine Lv.bind (h.mul sf q2) fun m3 r3 => ?_
  refine Lv.bind (h.add sd r3) fun s3 q3 => ?_
  refine Lv.bind (h.mul sf q3) fun m4 r4 => ?_
  refine Lv.bind (h.add se r4) fun s4 q4 => ?_
  refine Lv.bind (h.mul sf q4) fun m5 r5 => ?_
  refine Lv.bind (h.add sf' r5) fun s5 q5 => ?_
  exact h.mul sp q5

theorem NW.exp_nt (hf : F.f ≤ 60) {x : Int} (hx : Storable F x) : NT (Eirin.exp F x) := by
  unfold Eirin.exp
  split
  · intro e c; cases c
  split
  · refine NT.bind (h.neg hx).nt fun n en => ?_
    have sn := (h.neg (k := 0) hx).ok_in en
    exact NT.bind (h.expE_nt hf sn) fun y _ => h.div_nt (h.one 1)
  · exact h.expE_nt hf hx

/-- `exp` of a non-negative number returns. -/
theorem NW.exp_nonneg (hf : F.f ≤ 60) {x : Int} (hx : Storable F x) (h0 : 0 ≤ x) : Lv F 0 (Eirin.exp F x) := by
  have hp : (0 : Int) < 2 ^ F.f := by positivity
  unfold Eirin.exp
  split
  · exact h.one 1
  rw [if_neg (by rw [h.ofInt0, lt_iff]; omega)]
  have sb : ¬ signbit F x = true := by
    rw [signbit_iff h.valid hx]; omega
  have q0 : 0 ≤ x / 2 ^ F.f := Int.ediv_nonneg h0 hp.le
  have q1 : x / 2 ^ F.f ≤ x := Int.ediv_le_self _ h0
  have sq : F.T.InRange (x / 2 ^ F.f) := ⟨le_trans h.z.1 q0, le_trans q1 hx.2⟩
  have ei : integralPart F x = .ok (x / 2 ^ F.f) := by
    unfold integralPart
    rw [if_neg sb]
    show (shr F.T x F.f >>= fun s => pure (F.T.wrap s)) = _
    have : shr F.T x F.f = .ok (x / 2 ^ F.f) := by
      unfold shr; exact if_pos (lt_of_lt_of_le h.valid.flt h.valid.tp)
    rw [this, Res.bind_ok, IntTy.wrap_of_inRange h.valid.tpos sq]
    rfl
  unfold expExpand
  rw [ei, Res.bind_ok]
  refine Lv.bind (h.subInt hx) fun fp sf => ?_
  refine Lv.bind (h.fromF (by decide) hf (by decide +kernel)) fun a sa => ?_
  refine Lv.bind (h.fromF (by decide) hf (by decide +kernel)) fun b sb => ?_
  refine Lv.bind (h.fromF (by decide) hf (by decide +kernel)) fun c sc => ?_
  refine Lv.bind (h.fromF (by decide) hf (by decide +kernel)) fun d sd => ?_
  refine Lv.bind (h.fromF (by decide) hf (by decide +kernel)) fun e se => ?_
  refine Lv.bind (h.fromF (by decide) hf (by decide +kernel)) fun f sf' => ?_
  refine Lv.bind (h.fromF (by decide) hf (by decide +kernel)) fun eV sV => ?_
  refine Lv.bind (h.pow sV (h.small sq) (fun n => absurd n (not_lt.2 q0))) fun p sp => ?_
  refine Lv.bind (h.mul sf sa) fun m1 r1 => ?_
  refine Lv.bind (h.add sb r1) fun s1 q1 => ?_
  refine Lv.bind (h.mul sf q1) fun m2 r2 => ?_
  refine Lv.bind (h.add sc r2) fun s2 q2 => ?_
  refine Lv.bind (h.mul sf q2) fun m3 r3 => ?_
  refine Lv.bind (h.add sd r3) fun s3 q3 => ?_
  refine Lv.bind (h.mul sf q3) fun m4 r4 => ?_
  refine Lv.bind (h.add se r4) fun s4 q4 => ?_
  refine Lv.bind (h.mul sf q4) fun m5 r5 => ?_
  refine Lv.bind (h.add sf' r5) fun s5 q5 => ?_
  exact h.mul sp q5
end

/-- The natural logarithm of a positive number on narrow storage. -/
theorem log_pos_narrow (F : FxTy) (hF : F.Valid) (hn : Narrow F) (hr : F.r = false) (x : Int) (hx : Storable F x) (h0 : 0 < x) :
    Returns F (log F x) ∨ (F.T.signed = true ∧ F.f + 1 = F.T.bits ∧ log F x = .ub .diverges) := by
  rcases C171_logs F hF hn hr x hx _ (Or.inr (Or.inl rfl)) with c | c | c
  · exact Or.inl c
  · exfalso
    have hs : ¬ SignedWide F := by intro c; have := c.2; unfold Narrow at hn; omega
    have h : NW F := ⟨hF, hs, hr⟩
    have hf : F.f ≤ 60 := by have := hF.flt; unfold Narrow at hn; omega
    obtain ⟨c1, e1, s1⟩ := Lv.ok0 (h.fromF (k := 0) (s := 60) (c := 0x171547652B82FE00) (by decide) hf (by decide +kernel))
    have n1 := h.const_ne hf (sc := (60, 0x171547652B82FE00)) (by decide) e1
    unfold log at c
    rw [e1, Res.bind_ok] at c
    have v0 : 0 < val F x := by rw [← val_zero F, val_lt]; exact h0
    by_cases hroom : 2 ≤ val F F.T.hi + ulp F
    · obtain ⟨k, k1, k2⟩ := exists_mem_Ico_zpow v0 (by norm_num : (1 : ℚ) < 2)
      obtain ⟨r, -, e, s, -⟩ := (C145_log2_partial F hF hn hroom x hx).2 k k1 k2
      rw [e, Res.bind_ok] at c
      have := h.div (k := 0) s (fun z => absurd z n1)
      rw [c] at this
      simp [Lv] at this
    · rw [(C145_diverges F hF hn (not_le.1 hroom) x hx v0).1, Res.bind_ub] at c
      cases c
  · exact Or.inr c

theorem lu_nw {B f : Nat} (hB : UB B) (h0 : 0 < f) (h1 : f < B) : NW (LU B f) where
  valid := by
    rcases hB with rfl | rfl
    · exact ⟨by simp, by simp, by simp, rfl, h0, by show f ≤ 32 - 1; omega⟩
    · exact ⟨by simp, by simp, by simp, rfl, h0, by show f ≤ 64 - 1; omega⟩
  ns := fun c => by have := c.1; simp at this
  r := rfl

/-- C173 (logarithms): with two integer bits and at most 32 fraction bits, the logarithms on 32- and 64-bit unsigned types return a number for
every positive argument. -/
theorem C173_logs (B f : Nat) (hB : UB B) (h0 : 0 < f) (h2 : f + 2 ≤ B) (h32 : f ≤ 32) (x : Int) (hx : Storable (LU B f) x) (hx0 : 0 < val (LU B f) x) :
    Returns (LU B f) (log2 (LU B f) x) ∧ Returns (LU B f) (log (LU B f) x) ∧ Returns (LU B f) (log10 (LU B f) x) := by
  have h := lu_nw hB h0 (by omega : f < B)
  have hf : (LU B f).f ≤ 60 := by show f ≤ 60; omega
  obtain ⟨c1, e1, s1⟩ := Lv.ok0 (h.fromF (k := 0) (s := 60) (c := 0x171547652B82FE00) (by decide) hf (by decide +kernel))
  have n1 := h.const_ne hf (sc := (60, 0x171547652B82FE00)) (by decide) e1
  obtain ⟨c2, e2, s2⟩ := Lv.ok0 (h.fromF (k := 0) (s := 60) (c := 0x35269E12F346E200) (by decide) hf (by decide +kernel))
  have n2 := h.const_ne hf (sc := (60, 0x35269E12F346E200)) (by decide) e2
  have base : Returns (LU B f) (log2 (LU B f) x) := by
    rcases lt_or_ge (val (LU B f) x) 1 with c | c
    · obtain ⟨r, n, e, s, -⟩ := C140_small_partial B f hB h0 h2 h32 x hx hx0 c
      exact ⟨r, e, s⟩
    · obtain ⟨r, e, s, -⟩ := C140_large_partial B f hB h0 h2 h32 x hx c
      exact ⟨r, e, s⟩
  refine ⟨base, ?_, ?_⟩
  · obtain ⟨r, e, s⟩ := base
    unfold log; rw [e1, Res.bind_ok, e, Res.bind_ok]
    exact (h.div s (fun z => absurd z n1)).ret
  · obtain ⟨r, e, s⟩ := base
    unfold log10; rw [e2, Res.bind_ok, e, Res.bind_ok]
    exact (h.div s (fun z => absurd z n2)).ret
example : log10 (LU 32 16) 65535 = .ok 1292919209 := by decide +kernel

/-- What is left after the whole power and the logarithm are numbers. -/
theorem NW.rest {F : FxTy} (h : NW F) (hf : F.f ≤ 60) {k : Nat} (hk : 2 ≤ k ∨ F.T.signed = false) {p l e' : Int} (sp : Storable F p) (sl : Storable F l)
    (se : Storable F e') : Lv F k (Eirin.mul F e' l >>= fun m => Eirin.exp F m >>= fun x => Eirin.mul F p x) :=
  Lv.bind (h.mul se sl) fun _ sm => Lv.bind (h.exp hf sm hk) fun _ sx => h.mul sp sx

/-- C173 (unsigned types): `pow` returns a number for every base and every exponent, on 8- and 16-bit types of any layout and on 32- and 64-bit
types with two integer bits and at most 32 fraction bits. -/
theorem C173_unsigned_partial (F : FxTy) (hF : F.Valid) (hu : F.T.signed = false) (hr : F.r = false)
    (hl : Narrow F ∨ ∃ B, UB B ∧ F = LU B F.f ∧ F.f + 2 ≤ B ∧ F.f ≤ 32) (b e : Int) (hb : Storable F b) (he : Storable F e) :
    Returns F (powFixed F b e) := by
  have h : NW F := ⟨hF, fun c => by simp [c.1] at hu, hr⟩
  have hf : F.f ≤ 60 := by
    rcases hl with hn | ⟨B, -, -, -, c⟩
    · have := hF.flt; unfold Narrow at hn; omega
    · omega
  have b0 : 0 ≤ b := by have := hb.1; unfold IntTy.lo at this; simpa [hu] using this
  have e0 : 0 ≤ e := by have := he.1; unfold IntTy.lo at this; simpa [hu] using this
  have key : Returns F (powFixedBody F b e) := by
    by_cases c : b = 0
    · subst c
      rw [h.zero_base]
      refine ⟨_, rfl, ?_⟩
      split
      · exact h.one 1
      · exact h.z
    obtain ⟨e', se, eq, -⟩ := h.body c he
    have q0 : 0 ≤ Int.tdiv e (2 ^ F.f) := Int.tdiv_nonneg e0 (by positivity)
    obtain ⟨p, ep, sp⟩ := Lv.ok0 (h.pow (k := 0) hb (h.small (h.tdiv_in he)) (fun n => absurd n (not_lt.2 q0)))
    have hlog : Returns F (log F b) := by
      rcases hl with hn | ⟨B, hB, eF, c2, c3⟩
      · rcases log_pos_narrow F hF hn hr b hb (by omega) with c | c
        · exact c
        · simp [c.1] at hu
      · have v0 : 0 < val F b := by rw [← val_zero F, val_lt]; omega
        rw [eF] at hb v0 ⊢
        exact (C173_logs B F.f hB hF.2.2.2.2.1 c2 c3 b hb v0).2.1
    obtain ⟨l, el, sl⟩ := hlog
    rw [eq, ep, Res.bind_ok, el, Res.bind_ok]
    exact (h.rest hf (Or.inr hu) sp sl se).ret
  obtain ⟨r, er, sr⟩ := key
  exact ⟨r, by unfold powFixed; rw [er]; rfl, sr⟩

example : powFixed ⟨⟨8, false⟩, ⟨16, false⟩, 7, false⟩ 200 77 = .ok 148 := by decide +kernel

/-- C173 (signed 8- and 16-bit types): the outcome by the signs of base and exponent. -/
theorem C173_narrow_partial (F : FxTy) (hF : F.Valid) (hn : Narrow F) (hr : F.r = false) (b e : Int) (hb : Storable F b) (he : Storable F e) :
    (val F b = 0 → powFixed F b e = .ok (if e = 0 then ofInt F 1 else 0)) ∧
    (val F b < 0 → 0 ≤ val F e → powFixed F b e = .throw .terminate) ∧
    (val F b < 0 → powFixed F b e = .throw .terminate ∨ powFixed F b e = .ub .divZero) ∧
    (0 < val F b → Returns F (powFixed F b e) ∨ powFixed F b e = .ub .divZero ∨ (F.f + 1 = F.T.bits ∧ powFixed F b e = .ub .diverges)) := by
  have hs : ¬ SignedWide F := by intro c; have := c.2; unfold Narrow at hn; omega
  have h : NW F := ⟨hF, hs, hr⟩
  have hf : F.f ≤ 32 := by have := hF.flt; unfold Narrow at hn; omega
  have vz : ∀ x, val F x = 0 ↔ x = 0 := fun x => by
    rw [← val_zero F]
    constructor
    · intro c; exact le_antisymm ((val_le (F := F)).1 c.le) ((val_le (F := F)).1 c.ge)
    · rintro rfl; rfl
  have vn : ∀ x, val F x < 0 ↔ x < 0 := fun x => by rw [← val_zero F, val_lt]
  have vp : ∀ x, 0 < val F x ↔ 0 < x := fun x => by rw [← val_zero F, val_lt]
  have vnn : ∀ x, 0 ≤ val F x ↔ 0 ≤ x := fun x => by rw [← val_zero F, val_le]
  rw [vz, vn, vp, vnn]
  refine ⟨?_, ?_, ?_, ?_⟩
  · rintro rfl
    unfold powFixed; rw [h.zero_base]; rfl
  · intro b0 e0
    obtain ⟨e', se, eq, -⟩ := h.body b0.ne he
    have q0 : 0 ≤ Int.tdiv e (2 ^ F.f) := Int.tdiv_nonneg e0 (by positivity)
    obtain ⟨p, ep, sp⟩ := Lv.ok0 (h.pow (k := 0) hb (h.small (h.tdiv_in he)) (fun n => absurd n (not_lt.2 q0)))
    unfold powFixed
    rw [eq, ep, Res.bind_ok, h.log_nonpos hf b0.le, Res.bind_throw]; rfl
  · intro b0
    obtain ⟨e', se, eq, -⟩ := h.body b0.ne he
    have hp := (h.pow (k := 2) hb (h.small (h.tdiv_in he)) (fun _ => le_rfl)).only
    unfold powFixed
    rw [eq]
    rcases hp with ⟨p, ep, sp⟩ | ep | ep
    · left; rw [ep, Res.bind_ok, h.log_nonpos hf b0.le, Res.bind_throw]; rfl
    · left; rw [ep, Res.bind_throw]; rfl
    · right; rw [ep, Res.bind_ub]; rfl
  · intro b0
    obtain ⟨e', se, eq, -⟩ := h.body b0.ne' he
    have hp : Lv F 2 (powInt F b (Int.tdiv e (2 ^ F.f))) := h.pow hb (h.small (h.tdiv_in he)) (fun _ => le_rfl)
    have hpt := h.pow_nt hb (h.small (h.tdiv_in he))
    unfold powFixed
    rw [eq]
    rcases hp.only with ⟨p, ep, sp⟩ | ep | ep
    · rw [ep, Res.bind_ok]
      rcases log_pos_narrow F hF hn hr b hb b0 with ⟨l, el, sl⟩ | ⟨c1, c2, c3⟩
      · rw [el, Res.bind_ok]
        have hl := (h.rest (by omega) (Or.inl le_rfl) sp sl se).dz (NT.bind (h.mul se sl).nt fun m em =>
          have sm := (h.mul (k := 0) se sl).ok_in em
          NT.bind (h.exp_nt (by omega) sm) fun x ex => (h.mul sp ((h.exp (k := 2) (by omega) sm (Or.inl le_rfl)).ok_in ex)).nt)
        rcases hl with ⟨r, er, sr⟩ | er
        · left; exact ⟨r, by rw [er]; rfl, sr⟩
        · right; left; rw [er]; rfl
      · right; right; rw [c3, Res.bind_ub]; exact ⟨c2, rfl⟩
    · exact absurd ep (hpt _)
    · right; left; rw [ep, Res.bind_ub]; rfl

example : powFixed ⟨⟨8, true⟩, ⟨16, true⟩, 4, false⟩ (-20) 7 = .throw .terminate ∧ powFixed ⟨⟨8, true⟩, ⟨16, true⟩, 4, false⟩ 5 33 = .ok 1 := by
  decide +kernel

/-- Whether a computation returned. -/
def isOk : Res Int → Bool
  | .ok _ => true
  | _ => false

/-- The signed 8-bit layout with `f` fraction bits. -/
abbrev F8 (f : Nat) : FxTy := ⟨⟨8, true⟩, ⟨16, true⟩, f, false⟩

/-- Whether the stored result is a number not below `-k`. -/
def above (k : Nat) : Res Int → Bool
  | .ok r => decide (-(k : Int) ≤ r)
  | _ => false

/-- A bound for the logarithms of the signed 8-bit layouts. -/
def eightBound (f : Nat) : Nat := [0, 2, 6, 20, 48, 112, 128].getD f 0

/-- The logarithms of the signed 8-bit layouts. -/
theorem eight_log : ∀ f < 7, 0 < f → ∀ n < 128, 0 < n → above (eightBound f) (log (F8 f) (n : Nat)) = true := by
  decide +kernel

/-- The exponentials of the negative numbers within the bound. -/
theorem eight_exp : ∀ f < 7, 0 < f → ∀ n < eightBound f + 1, isOk (exp (F8 f) (-(n : Nat))) = true := by
  decide +kernel

/-- C173 (signed 8-bit types): a positive number raised to a non-negative power is returned. -/
theorem C173_eight_partial (f : Nat) (h0 : 0 < f) (h7 : f < 7) (b e : Int) (hb : Storable (F8 f) b) (he : Storable (F8 f) e) (hb0 : 0 < val (F8 f) b)
    (he0 : 0 ≤ val (F8 f) e) : Returns (F8 f) (powFixed (F8 f) b e) := by
  have hF : (F8 f).Valid := ⟨Or.inl rfl, Or.inl rfl, by simp, rfl, h0, by show f ≤ 7; omega⟩
  have hn : Narrow (F8 f) := Or.inl rfl
  have hs : ¬ SignedWide (F8 f) := by intro c; have := c.2; simp at this
  have h : NW (F8 f) := ⟨hF, hs, rfl⟩
  have hf : (F8 f).f ≤ 60 := by show f ≤ 60; omega
  have b0 : 0 < b := by rw [← val_zero (F8 f), val_lt] at hb0; exact hb0
  have e0 : 0 ≤ e := by rw [← val_zero (F8 f), val_le] at he0; exact he0
  have hp : (0 : Int) < 2 ^ f := by positivity
  have q0 : 0 ≤ Int.tdiv e (2 ^ f) := Int.tdiv_nonneg e0 hp.le
  have rg : ∀ x, (F8 f).T.InRange x ↔ -128 ≤ x ∧ x ≤ 127 := fun x => by
    show IntTy.InRange ⟨8, true⟩ x ↔ _
    unfold IntTy.InRange IntTy.lo IntTy.hi; norm_num
  obtain ⟨p, ep, sp⟩ := Lv.ok0 (h.pow (k := 0) hb (h.small (h.tdiv_in he)) (fun n => absurd n (not_lt.2 q0)))
  have hbR := (rg b).1 hb
  obtain ⟨l, el, sl, lb⟩ : ∃ l, log (F8 f) b = .ok l ∧ Storable (F8 f) l ∧ -(eightBound f : Int) ≤ l := by
    have t := eight_log f h7 h0 b.toNat (by omega) (by omega)
    rw [show ((b.toNat : Nat) : Int) = b by omega] at t
    rcases log_pos_narrow (F8 f) hF hn rfl b hb b0 with ⟨l, el, sl⟩ | c
    · rw [el] at t
      exact ⟨l, el, sl, by simpa [above] using t⟩
    · have : f + 1 = 8 := c.2.1
      omega
  obtain ⟨e', se, eq, er⟩ := h.body b0.ne' he
  have e'0 := er e0
  have pf : ((F8 f).f) = f := rfl
  have hexp : Lv (F8 f) 0 (mul (F8 f) e' l >>= fun m => exp (F8 f) m >>= fun x => mul (F8 f) p x) := by
    have hlR := (rg l).1 sl
    rw [pf] at e'0
    have hm1 : 0 ≤ l → 0 ≤ e' * l / 2 ^ f ∧ e' * l / 2 ^ f ≤ l := fun c =>
      ⟨Int.ediv_nonneg (mul_nonneg e'0.1 c) hp.le, Int.ediv_le_of_le_mul hp (by nlinarith)⟩
    have hm2 : l ≤ 0 → l ≤ e' * l / 2 ^ f ∧ e' * l / 2 ^ f ≤ 0 := fun c =>
      ⟨(Int.le_ediv_iff_mul_le hp).2 (by nlinarith), Int.ediv_le_of_le_mul hp (by nlinarith)⟩
    have hmR : (F8 f).T.InRange (e' * l / 2 ^ f) := by
      rw [rg]
      rcases le_total 0 l with c | c
      · have := hm1 c; omega
      · have := hm2 c; omega
    have hm : mul (F8 f) e' l = .ok (e' * l / 2 ^ f) := by
      rw [mul_nf hF rfl se sl]
      exact congrArg Res.ok (IntTy.wrap_of_inRange hF.tpos hmR)
    rw [hm, Res.bind_ok]
    have hx : Lv (F8 f) 0 (exp (F8 f) (e' * l / 2 ^ f)) := by
      rcases le_total 0 (e' * l / 2 ^ f) with c | c
      · exact h.exp_nonneg hf hmR c
      · have lo : -(eightBound f : Int) ≤ e' * l / 2 ^ f := by
          rcases le_total 0 l with d | d
          · have := hm1 d; omega
          · have := hm2 d; omega
        have t := eight_exp f h7 h0 (-(e' * l / 2 ^ f)).toNat (by omega)
        rw [show -(((-(e' * l / 2 ^ f)).toNat : Nat) : Int) = e' * l / 2 ^ f by omega] at t
        have L := h.exp (k := 2) hf hmR (Or.inl le_rfl)
        rcases hr : exp (F8 f) (e' * l / 2 ^ f) with r | u | x
        · rw [hr] at L; exact L
        · rw [hr] at t; simp [isOk] at t
        · rw [hr] at t; simp [isOk] at t
    exact Lv.bind hx fun x sx => h.mul sp sx
  obtain ⟨r, er', sr⟩ := hexp.ok0
  refine ⟨r, ?_, sr⟩
  unfold powFixed
  rw [eq, ep, Res.bind_ok, el, Res.bind_ok, er']
  rfl
example : powFixed (F8 4) 8 8 = .ok 14 := by decide +kernel

/-- C173 (more than 32 fraction bits): on 64-bit unsigned types with 33 to 60 fraction bits every power of a non-zero base is undefined, by the
shift in `log2`. -/
theorem C173_shift (f : Nat) (h33 : 32 < f) (h60 : f ≤ 60) (b e : Int) (hb : Storable (LU 64 f) b) (he : Storable (LU 64 f) e) (hb0 : 0 < val (LU 64 f) b) :
    powFixed (LU 64 f) b e = .ub .shift := by
  have h := lu_nw (B := 64) (Or.inr rfl) (by omega : 0 < f) (by omega)
  have b0 : 0 < b := by rw [← val_zero (LU 64 f), val_lt] at hb0; exact hb0
  have e0 : 0 ≤ e := he.1
  have hf : (LU 64 f).f ≤ 60 := h60
  obtain ⟨e', se, eq, -⟩ := h.body b0.ne' he
  have q0 : 0 ≤ Int.tdiv e (2 ^ (LU 64 f).f) := Int.tdiv_nonneg e0 (by positivity)
  obtain ⟨p, ep, sp⟩ := Lv.ok0 (h.pow (k := 0) hb (h.small (h.tdiv_in he)) (fun n => absurd n (not_lt.2 q0)))
  obtain ⟨c1, e1, s1⟩ := Lv.ok0 (h.fromF (k := 0) (s := 60) (c := 0x171547652B82FE00) (by decide) hf (by decide +kernel))
  have el : log (LU 64 f) b = .ub .shift := by
    unfold log; rw [e1, Res.bind_ok, C140_wide f h33 (by omega), Res.bind_ub]
  unfold powFixed
  rw [eq, ep, Res.bind_ok, el, Res.bind_ub]; rfl
example : powFixed (LU 64 33) (2 ^ 33) 3 = .ub .shift := by decide +kernel

/-- C173 (one integer bit): on the 32-bit unsigned type with 31 fraction bits no power of a non-zero base is ever returned. -/
theorem C173_diverges (b e : Int) (hb : Storable (LU 32 31) b) (he : Storable (LU 32 31) e) (hb0 : 0 < val (LU 32 31) b) :
    powFixed (LU 32 31) b e = .ub .diverges := by
  have h := lu_nw (B := 32) (f := 31) (Or.inl rfl) (by omega) (by omega)
  have b0 : 0 < b := by rw [← val_zero (LU 32 31), val_lt] at hb0; exact hb0
  have e0 : 0 ≤ e := he.1
  have hf : (LU 32 31).f ≤ 60 := by decide
  obtain ⟨e', se, eq, -⟩ := h.body b0.ne' he
  have q0 : 0 ≤ Int.tdiv e (2 ^ (LU 32 31).f) := Int.tdiv_nonneg e0 (by positivity)
  obtain ⟨p, ep, sp⟩ := Lv.ok0 (h.pow (k := 0) hb (h.small (h.tdiv_in he)) (fun n => absurd n (not_lt.2 q0)))
  obtain ⟨c1, e1, s1⟩ := Lv.ok0 (h.fromF (k := 0) (s := 60) (c := 0x171547652B82FE00) (by decide) hf (by decide +kernel))
  have el : log (LU 32 31) b = .ub .diverges := by
    unfold log; rw [e1, Res.bind_ok, C140_diverges b hb hb0, Res.bind_ub]
  unfold powFixed
  rw [eq, ep, Res.bind_ok, el, Res.bind_ub]; rfl
example : Storable (LU 32 31) (2 ^ 30) ∧ 0 < val (LU 32 31) (2 ^ 30) := ⟨by decide +kernel, by norm_num [val]⟩

theorem C173_false : ¬ C173_statement := by
  intro h
  obtain ⟨r, e, -⟩ := h (F8 4) (by decide) (by unfold SignedWide; decide) rfl 3 (-48) (by decide +kernel) (by decide +kernel) (by norm_num [val])
  have : powFixed (F8 4) 3 (-48) = .ub .divZero := by decide +kernel
  rw [this] at e
  cases e

end Eirin.Props
