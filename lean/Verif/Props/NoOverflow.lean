import Verif.Props.MixedAll
import Verif.Props.LogNarrow
import Verif.Props.LogUnsigned

/-! # C171: the mathematical functions never overflow on unsigned and narrow storage -/

namespace Eirin.Props
open Spec

/-- Outcome at most as bad as level `k`: 0 a number, 1 or `std::domain_error`, 2 or a division by zero,
3 or a loop that does not end. -/
def Lv (F : FxTy) (k : Nat) : Res Int → Prop
  | .ok r => Storable F r
  | .throw .domainError => 1 ≤ k
  | .ub .divZero => 2 ≤ k
  | .ub .diverges => 3 ≤ k
  | _ => False

/-- Layouts whose sums wrap silently: unsigned, or narrower than `int`. -/
structure NW (F : FxTy) : Prop where
  valid : F.Valid
  ns : ¬ SignedWide F
  r : F.r = false

section lv
variable {F : FxTy} (h : NW F) {k : Nat}

theorem Lv.bind {m : Res Int} {g : Int → Res Int} (hm : Lv F k m) (hg : ∀ r, Storable F r → Lv F k (g r)) : Lv F k (m >>= g) := by
  rcases m with r | u | e
  · rw [Res.bind_ok]; exact hg r hm
  · rw [Res.bind_ub]; cases u <;> exact hm
  · rw [Res.bind_throw]; cases e <;> exact hm

include h

theorem NW.wr (n : Int) : Storable F (F.T.wrap n) := IntTy.wrap_inRange _ h.valid.tpos
theorem NW.lvw (n : Int) : Lv F k (.ok (F.T.wrap n)) := h.wr n
theorem NW.z : Storable F 0 := by
  have := h.wr 0
  rwa [show F.T.wrap 0 = 0 by unfold IntTy.wrap; split <;> simp] at this
theorem NW.one (n : Int) : Storable F (ofInt F n) := by rw [ofInt_eq F h.valid]; exact h.wr _
theorem NW.fromI (n : Int) : Storable F (fromInternal F n) := h.wr n
theorem NW.add {x y : Int} (hx : Storable F x) (hy : Storable F y) : Lv F k (add F x y) := by
  rw [add_nf h.valid hx hy, if_neg (fun c => h.ns c.1)]; exact h.wr _
theorem NW.sub {x y : Int} (hx : Storable F x) (hy : Storable F y) : Lv F k (sub F x y) := by
  rw [sub_nf h.valid hx hy, if_neg (fun c => h.ns c.1)]; exact h.wr _
theorem NW.neg {x : Int} (hx : Storable F x) : Lv F k (neg F x) := by
  rw [neg_nf h.valid hx, if_neg (fun c => h.ns c.1)]; exact h.wr _
theorem NW.mul {x y : Int} (hx : Storable F x) (hy : Storable F y) : Lv F k (mul F x y) := by
  rw [mul_nf h.valid h.r hx hy]; exact h.wr _
theorem NW.div {x y : Int} (hx : Storable F x) (hk : y = 0 → 2 ≤ k) : Lv F k (div F x y) := by
  rw [div_nf h.valid h.r hx]
  split
  · exact hk ‹_›
  · exact h.wr _
theorem NW.rem {x y : Int} (hx : Storable F x) (hk : y = 0 → 2 ≤ k) : Lv F k (remAssign F x y) := by
  rcases eq_or_ne y 0 with rfl | hy
  · unfold remAssign cmod; rw [if_pos rfl]; exact hk rfl
  · have nf := rem_nf h.valid (y := y) hx
    rw [if_neg hy, if_neg (fun c => h.ns c.1)] at nf
    have e : remAssign F x y = Eirin.rem F x y := rfl
    rw [e, nf]
    have : Storable F (Int.tmod x y) := by
      have e2 := nf
      unfold Eirin.rem at e2
      rcases hc : cmod F.P x y with m | u | e3 <;> rw [hc] at e2
      · rw [Res.bind_ok] at e2; injection e2 with e2; rw [← e2]; exact h.wr _
      · cases e2
      · cases e2
    exact this
theorem NW.divA {x y : Int} (hx : Storable F x) (hk : y = 0 → 2 ≤ k) : Lv F k (divAssign F x y) := h.div hx hk
theorem NW.abs {x : Int} (hx : Storable F x) : Lv F k (abs F x) := by
  unfold Eirin.abs
  split
  · have e : (do let v ← arith F.P (-x); pure (fromInternal F v)) = Eirin.neg F x := rfl
    rw [e]; exact h.neg hx
  · exact h.fromI x
theorem NW.addInt {x : Int} (hx : Storable F x) : Lv F k (addInt F x 2) := by
  have := (C150_add_sub F h.valid h.ns x 2 hx).2.1
  by_cases c : F.T.signed = false ∧ F.T.bits = 16 ∧ F.f = 15
  · have hhi : x ≤ 65535 := by have := hx.2; unfold IntTy.hi at this; simp [c.1, c.2.1] at this; omega
    obtain ⟨z, hz, ⟨hw, -⟩⟩ := (C150_add_overflow F h.valid c.1 c.2.1 c.2.2 x 2 hx).2 (by norm_num; omega)
    rw [hz]; exact hw
  · obtain ⟨z, hz, ⟨hw, -⟩⟩ := this c
    rw [hz]; exact hw
theorem NW.subInt {x n : Int} (hx : Storable F x) : Lv F k (subIntAssign F x n) := by
  obtain ⟨z, hz, ⟨hw, -⟩⟩ := (C150_add_sub F h.valid h.ns x n hx).2.2.1
  have : subIntAssign F x n = .ok z := hz
  rw [this]; exact hw
theorem NW.common : (IntTy.common F.T i32 = i32 ∧ (F.T.bits = 8 ∨ F.T.bits = 16)) ∨ ((IntTy.common F.T i32).signed = false ∧ 32 ≤ (IntTy.common F.T i32).bits) := by
  have h1 := h.valid.1
  have h2 := h.ns
  unfold SignedWide at h2
  revert h1 h2
  generalize F.T = t
  obtain ⟨b, s⟩ := t
  dsimp only
  rintro (rfl | rfl | rfl | rfl) h2 <;> cases s <;> first | decide | exact absurd ⟨rfl, by norm_num⟩ h2
theorem NW.mulInt {x n : Int} (hx : Storable F x) (hn : -1 ≤ n ∧ n ≤ 2) : Lv F k (mulInt F i32 x n) := by
  rw [mulInt_nf F h.valid i32 (by unfold CInt; decide) hx ⟨by norm_num [IntTy.lo, i32]; omega, by norm_num [IntTy.hi, i32]; omega⟩]
  rw [if_neg]
  · exact h.wr _
  · rintro ⟨c1, c2⟩
    rcases h.common with ⟨e, hb⟩ | ⟨e, -⟩
    · rw [e] at c2
      have := narrow_bounds hb hx
      apply c2
      constructor <;> norm_num [IntTy.lo, IntTy.hi, i32] <;> nlinarith [this.1, this.2, hn.1, hn.2]
    · rw [e] at c1; cases c1
theorem NW.divInt {x n : Int} (hx : Storable F x) (hn : 0 < n ∧ n ≤ 288) : Lv F k (divInt F i32 x n) := by
  unfold Eirin.divInt divIntAssign cdiv
  dsimp only
  have hK : (IntTy.common F.T i32).wrap n = n := by
    rcases h.common with ⟨e, -⟩ | ⟨e, hb⟩
    · rw [e]; exact IntTy.wrap_of_inRange (by decide) ⟨by norm_num [IntTy.lo, i32]; omega, by norm_num [IntTy.hi, i32]; omega⟩
    · refine IntTy.wrap_of_inRange (by omega) ⟨by unfold IntTy.lo; simp [e]; omega, ?_⟩
      unfold IntTy.hi; simp [e]
      have : (2 : Int) ^ 32 ≤ 2 ^ (IntTy.common F.T i32).bits := pow_le_pow_right₀ (by norm_num) hb
      norm_num at this; omega
  rw [hK, if_neg (by omega), if_neg, Res.bind_ok]
  · exact h.wr _
  · rintro ⟨c1, c2⟩
    rcases h.common with ⟨e, hb⟩ | ⟨e, -⟩
    · rw [e] at c2
      have := narrow_bounds hb hx
      have hx' : i32.InRange x := ⟨by norm_num [IntTy.lo, i32]; omega, by norm_num [IntTy.hi, i32]; omega⟩
      rw [IntTy.wrap_of_inRange (by decide) hx', tdiv_inRange_iff hx' (by omega) rfl] at c2
      omega
    · rw [e] at c1; cases c1
theorem NW.fromF {s : Nat} {c : Int} (hs : s = 60 ∨ s = 61 ∨ s = 62 ∨ s = 63 ∨ s = 64) (hf : F.f ≤ 60) (hc : i64.InRange c) : Lv F k (fromFixedNumValue F i64 s c) := by
  have h0 := h.valid.2.2.2.2.1
  unfold fromFixedNumValue
  by_cases c1 : F.f < s
  · have e : ∀ n, 0 < n → n < 64 → shl i64 1 n = .ok (i64.promote.wrap (1 * 2 ^ n)) := by
      intro n _ h2; unfold shl; rw [if_pos (by show n < 64; exact h2)]
    rw [if_pos c1, h.r, if_neg (by decide), e _ (by omega) (by omega), Res.bind_ok]
    have key : ∀ n < 64, 0 < n → i64.promote.wrap (1 * 2 ^ n) ≠ 0 ∧ i64.promote.wrap (1 * 2 ^ n) ≠ -1 := by decide +kernel
    have b1 : s - F.f < 64 := by omega
    have b2 : 0 < s - F.f := by omega
    have m0 := (key _ b1 b2).1
    have m1 := (key _ b1 b2).2
    clear key
    generalize i64.promote.wrap (1 * 2 ^ (s - F.f)) = m at *
    have p : i64.promote = i64 := rfl
    unfold cdiv
    rw [if_neg m0, p, if_neg, Res.bind_ok]
    · exact h.wr _
    · rintro ⟨-, c2⟩
      rw [tdiv_inRange_iff hc m0 rfl] at c2
      omega
  · have : F.f = 60 ∧ s = 60 := by omega
    rw [if_neg c1, this.1, this.2]
    have e : shl i64 1 (60 - 60) = .ok 1 := by decide
    rw [e, Res.bind_ok, mul_one, show i64.promote = i64 from rfl, arith_of_inRange (by decide) hc, Res.bind_ok]
    exact h.wr _
theorem NW.intPart (x : Int) : Lv F k (integralPart F x) := by
  unfold integralPart
  have fin : ∀ r : Int, Lv F k (do let s ← shr F.T r F.f; pure (F.T.wrap s)) := by
    intro r
    unfold shr
    rw [if_pos (lt_of_lt_of_le h.valid.flt h.valid.tp), Res.bind_ok]
    exact h.wr _
  by_cases c : signbit F x = true
  · have e := arith_store h.valid (n := F.T.wrap (cnot F.T x) + oneShl F) (by
      by_cases hw : 32 ≤ F.T.bits
      · exact Or.inr hw
      · left
        have hb : F.T.bits = 8 ∨ F.T.bits = 16 := by have := h.valid.1; omega
        have b1 := narrow_bounds hb (h.wr (cnot F.T x))
        have p : F.P = i32 := by unfold FxTy.P IntTy.promote; rw [if_pos (by omega)]
        have hf := h.valid.2.2.2.2.2
        have b2 : 0 ≤ oneShl F ∧ oneShl F ≤ 2 ^ 15 := by
          unfold oneShl; rw [p]
          have key : ∀ f < 16, 0 ≤ i32.wrap (2 ^ f) ∧ i32.wrap (2 ^ f) ≤ 2 ^ 15 := by decide +kernel
          exact key _ (by omega)
        omega)
    rw [if_neg (fun c => h.ns c.1)] at e
    rw [if_pos c]
    rcases ha : arith F.P (F.T.wrap (cnot F.T x) + oneShl F) with v | u | e'
    · dsimp only
      rw [ha, Res.bind_ok]
      exact fin _
    · rw [ha] at e; cases e
    · rw [ha] at e; cases e
  · rw [if_neg c]
    exact fin x

/-! ### The functions -/

theorem NW.sinCoeff {x n : Int} (hx : Storable F x) (hn : 0 < n ∧ n ≤ 288) : Lv F k (sinCoeff F x n) :=
  Lv.bind (h.mul hx hx) fun _ hp => h.divInt hp hn

theorem NW.sinPoly (hf : F.f ≤ 60) {pi x : Int} (hp : Storable F pi) (hx : Storable F x) : Lv F k (sinPoly F pi x) := by
  unfold Eirin.sinPoly
  have o := h.one 1
  refine Lv.bind (h.mul hx hx) fun x2 s2 => ?_
  refine Lv.bind (h.sinCoeff hp (by norm_num)) fun a sa => ?_
  refine Lv.bind (h.sinCoeff hp (by norm_num)) fun b sb => ?_
  refine Lv.bind (h.sinCoeff hp (by norm_num)) fun c sc => ?_
  refine Lv.bind (h.sinCoeff hp (by norm_num)) fun d sd => ?_
  refine Lv.bind (h.mul sd s2) fun t4 q4 => ?_
  refine Lv.bind (h.sub o q4) fun u4 v4 => ?_
  refine Lv.bind (h.mul sc s2) fun t3a q3a => ?_
  refine Lv.bind (h.mul q3a v4) fun t3 q3 => ?_
  refine Lv.bind (h.sub o q3) fun u3 v3 => ?_
  refine Lv.bind (h.mul sb s2) fun t2a q2a => ?_
  refine Lv.bind (h.mul q2a v3) fun t2 q2 => ?_
  refine Lv.bind (h.sub o q2) fun u2 v2 => ?_
  refine Lv.bind (h.mul sa s2) fun t1a q1a => ?_
  refine Lv.bind (h.mul q1a v2) fun t1 q1 => ?_
  refine Lv.bind (h.sub o q1) fun u1 v1 => ?_
  refine Lv.bind (h.fromF (by decide) hf (by decide +kernel)) fun cpi sp => ?_
  refine Lv.bind (h.mul sp hx) fun px spx => ?_
  refine Lv.bind (h.mul spx v1) fun r sr => ?_
  exact h.divInt sr (by norm_num)

omit h in
/-- The constants the library divides by are non-zero on every layout. -/
theorem consts_ne : ∀ b ∈ [8, 16, 32, 64], ∀ s : Bool, ∀ f < 61, f < b → 0 < f → ∀ sc ∈ [(60, 0x6487ED5110B4611A), (61, 0x6487ED5110B4611A), (62, 0x6487ED5110B4611A),
    (60, 0x171547652B82FE00), (60, 0x35269E12F346E200)], fromFixedNumValue ⟨⟨b, s⟩, ⟨2 * b, s⟩, f, false⟩ i64 sc.1 sc.2 ≠ .ok 0 := by decide +kernel

theorem NW.const_ne (hf : F.f ≤ 60) {sc : Nat × Int} (hs : sc ∈ [(60, 0x6487ED5110B4611A), (61, 0x6487ED5110B4611A), (62, 0x6487ED5110B4611A),
    (60, 0x171547652B82FE00), (60, 0x35269E12F346E200)]) {r : Int} (e : fromFixedNumValue F i64 sc.1 sc.2 = .ok r) : r ≠ 0 := by
  have hb : F.T.bits ∈ [8, 16, 32, 64] := by
    rcases h.valid.1 with c | c | c | c <;> rw [c] <;> decide
  have key := consts_ne F.T.bits hb F.T.signed F.f (by omega) h.valid.flt h.valid.2.2.2.2.1 sc hs
  rintro rfl
  apply key
  rw [← e]
  unfold fromFixedNumValue
  rw [h.r]

omit h in
theorem Lv.ok0 {m : Res Int} (hm : Lv F 0 m) : ∃ r, m = .ok r ∧ Storable F r := by
  rcases m with r | u | e
  · exact ⟨r, rfl, hm⟩
  · cases u <;> simp [Lv] at hm
  · cases e <;> simp [Lv] at hm

omit h in
theorem Lv.up {m : Res Int} {j : Nat} (hm : Lv F j m) (hjk : j ≤ k) : Lv F k m := by
  rcases m with r | u | e
  · exact hm
  · cases u <;> simp only [Lv] at hm ⊢ <;> omega
  · cases e <;> simp only [Lv] at hm ⊢; omega

theorem NW.cPi (hf : F.f ≤ 60) : ∃ r, cPi F = .ok r ∧ Storable F r ∧ r ≠ 0 := by
  obtain ⟨r, e, s⟩ := Lv.ok0 (h.fromF (s := 61) (c := 0x6487ED5110B4611A) (by decide) hf (by decide +kernel))
  exact ⟨r, e, s, h.const_ne hf (sc := (61, 0x6487ED5110B4611A)) (by decide) e⟩

theorem NW.reduce (hf : F.f ≤ 60) {x : Int} (hx : Storable F x) : ∃ p, sinReduce F x = .ok p ∧ Storable F p.1 := by
  obtain ⟨dp, e1, s1⟩ := Lv.ok0 (h.fromF (s := 60) (c := 0x6487ED5110B4611A) (by decide) hf (by decide +kernel))
  have n1 := h.const_ne hf (sc := (60, 0x6487ED5110B4611A)) (by decide) e1
  obtain ⟨p2, e2, s2⟩ := Lv.ok0 (h.fromF (s := 62) (c := 0x6487ED5110B4611A) (by decide) hf (by decide +kernel))
  have n2 := h.const_ne hf (sc := (62, 0x6487ED5110B4611A)) (by decide) e2
  obtain ⟨x0, e3, s3⟩ := Lv.ok0 (h.rem (y := dp) hx (fun c => absurd c n1))
  obtain ⟨x1, e4, s4⟩ := Lv.ok0 (h.divA (y := p2) s3 (fun c => absurd c n2))
  have e1' : cDoublePi F = .ok dp := e1
  have e2' : cPi2 F = .ok p2 := e2
  have st : ∃ x2, (if lt x1 (ofInt F 0) then addAssign F x1 (ofInt F 4) else pure x1) = .ok x2 ∧ Storable F x2 := by
    split
    · exact Lv.ok0 (h.add s4 (h.one 4))
    · exact ⟨x1, rfl, s4⟩
  obtain ⟨x2, e5, s5⟩ := st
  have e : sinReduce F x = (if gt x2 (ofInt F 2) then do
      let x3 ← subAssign F x2 (ofInt F 2)
      pure (x3, true)
    else pure (x2, false)) := by
    unfold sinReduce
    rw [e1', Res.bind_ok, e3, Res.bind_ok, e2', Res.bind_ok, e4, Res.bind_ok]
    by_cases c : lt x1 (ofInt F 0) = true
    · rw [if_pos c] at e5 ⊢; rw [e5, Res.bind_ok]
    · rw [if_neg c] at e5 ⊢; rw [e5, Res.bind_ok]
  rw [e]
  split
  · obtain ⟨x3, e6, s6⟩ := Lv.ok0 (h.sub s5 (h.one 2))
    have e6' : subAssign F x2 (ofInt F 2) = .ok x3 := e6
    exact ⟨(x3, true), by rw [e6', Res.bind_ok]; rfl, s6⟩
  · exact ⟨_, rfl, s5⟩

theorem NW.lit : ∃ t, ofFloat F lit00015 = .ok t := by
  unfold ofFloat
  rw [h.r, if_neg (by decide), fractionMultiplier_eq h.valid]
  have key : ∀ b ∈ [8, 16, 32, 64], ∀ s : Bool, ∀ f < 64, f < b → (⟨b, s⟩ : IntTy).InRange (ratTrunc (lit00015 * ((2 ^ f : Int) : ℚ))) := by decide +kernel
  have hb : F.T.bits ∈ [8, 16, 32, 64] := by
    rcases h.valid.1 with c | c | c | c <;> rw [c] <;> decide
  have hfl := h.valid.flt
  unfold floatToInt
  rw [if_pos (key F.T.bits hb F.T.signed F.f (by have := h.valid.1; omega) hfl)]
  exact ⟨_, rfl⟩

theorem NW.sinW (hf : F.f ≤ 60) {pi x : Int} (hp : Storable F pi) (hx : Storable F x) : Lv F k (sinWith F pi x) := by
  obtain ⟨⟨q, b⟩, e, s⟩ := h.reduce hf hx
  obtain ⟨t, et⟩ := h.lit
  unfold sinWith
  rw [e, Res.bind_ok]
  dsimp only
  rw [et, Res.bind_ok]
  refine Lv.bind (h.abs hx) fun a sa => ?_
  split
  · split
    · exact h.neg hx
    · exact hx
  · have fin : ∀ x', Storable F x' → Lv F k (do let res ← Eirin.sinPoly F pi x'; if b then Eirin.neg F res else pure res) := by
      intro x' s'
      refine Lv.bind (h.sinPoly hf hp s') fun r sr => ?_
      split
      · exact h.neg sr
      · exact sr
    split
    · exact Lv.bind (h.sub (h.one 2) s) fun x' s' => fin x' s'
    · exact fin q s

theorem NW.sin (hf : F.f ≤ 60) {x : Int} (hx : Storable F x) : Lv F k (sin F x) := by
  obtain ⟨pi, e, s, -⟩ := h.cPi hf
  unfold Eirin.sin
  rw [e, Res.bind_ok]
  exact h.sinW hf s hx

theorem NW.cos (hf : F.f ≤ 60) (h2 : ofInt F 2 ≠ 0) {x : Int} (hx : Storable F x) : Lv F k (cos F x) := by
  obtain ⟨pi, e, s, -⟩ := h.cPi hf
  unfold Eirin.cos
  rw [e, Res.bind_ok]
  refine Lv.bind (h.div s (fun c => absurd c h2)) fun p2 s2 => ?_
  refine Lv.bind (h.mul s (h.one 2)) fun dp sd => ?_
  split
  · refine Lv.bind (h.sub sd s2) fun u su => ?_
    exact Lv.bind (h.sub hx su) fun v sv => h.sin hf sv
  · exact Lv.bind (h.add hx s2) fun v sv => h.sin hf sv

theorem NW.tan (hf : F.f ≤ 60) (h2 : ofInt F 2 ≠ 0) (hk : 1 ≤ k) {x : Int} (hx : Storable F x) : Lv F k (tan F x) := by
  unfold Eirin.tan
  refine Lv.bind (h.cos hf h2 hx) fun c sc => ?_
  rcases eq_or_ne c 0 with rfl | c0
  · have e : Eirin.abs F 0 = .ok 0 := by
      unfold Eirin.abs; rw [if_neg (lt_irrefl _)]
      show Res.ok (F.T.wrap 0) = _
      rw [IntTy.wrap_of_inRange h.valid.tpos h.z]
    rw [e, Res.bind_ok, if_neg (by norm_num)]
    exact hk
  refine Lv.bind (h.abs sc) fun a sa => ?_
  split
  · exact Lv.bind (h.sin hf hx) fun s ss => h.div ss (fun e => absurd e c0)
  · exact hk

theorem NW.atan (hf : F.f ≤ 60) {x : Int} (hx : Storable F x) : Lv F k (atan F x) := by
  unfold Eirin.atan
  refine Lv.bind (h.fromF (by decide) hf (by decide +kernel)) fun a0 s0 => ?_
  refine Lv.bind (h.mulInt s0 (by norm_num)) fun a sa => ?_
  refine Lv.bind (h.fromF (by decide) hf (by decide +kernel)) fun b sb => ?_
  refine Lv.bind (h.fromF (by decide) hf (by decide +kernel)) fun c sc => ?_
  refine Lv.bind (h.abs hx) fun x sx => ?_
  refine Lv.bind (h.mul sx sx) fun x2 s2 => ?_
  refine Lv.bind (h.mul sa s2) fun p1 q1 => ?_
  refine Lv.bind (h.add q1 sb) fun p2 q2 => ?_
  refine Lv.bind (h.mul q2 s2) fun p3 q3 => ?_
  refine Lv.bind (h.sub q3 sc) fun p4 q4 => ?_
  refine Lv.bind (h.mul q4 s2) fun p5 q5 => ?_
  refine Lv.bind (h.mul q5 sx) fun p6 q6 => ?_
  refine Lv.bind (h.add q6 sx) fun r sr => ?_
  split
  · exact h.neg sr
  · exact sr

theorem NW.newton {x eps : Int} (hx : Storable F x) (hk : 2 ≤ k) : ∀ n y, Storable F y → Lv F k (sqrtNewton F x eps n y)
  | 0, y, sy => sy
  | n + 1, y, sy => by
    unfold sqrtNewton
    refine Lv.bind (h.div hx (fun _ => hk)) fun q sq => ?_
    refine Lv.bind (h.add sy sq) fun s ss => ?_
    refine Lv.bind (h.divInt ss (by norm_num)) fun y' sy' => ?_
    refine Lv.bind (h.mul sy' sy') fun q' sq' => ?_
    refine Lv.bind (h.sub hx sq') fun d sd => ?_
    refine Lv.bind (h.abs sd) fun a sa => ?_
    split
    · exact sy'
    · exact NW.newton hx hk n y' sy'

theorem NW.sqrt {x : Int} (hf : F.f ≤ 60) (hx : Storable F x) (hk : 2 ≤ k) : Lv F k (sqrt F x) := by
  unfold Eirin.sqrt
  rw [if_neg (by intro c; apply h.ns; unfold SignedWide; rw [c]; decide)]
  by_cases c1 : lt x (ofInt F 0) = true
  · rw [if_pos c1]; exact h.one _
  by_cases c2 : eq x (ofInt F 0) = true
  · rw [if_neg c1, if_pos c2]; exact h.one _
  rw [if_neg c1, if_neg c2]
  have x0 : 0 < x := by
    have e0 : ofInt F 0 = 0 := by rw [ofInt_eq F h.valid, zero_mul]; exact IntTy.wrap_of_inRange h.valid.tpos h.z
    rw [e0] at c1 c2
    rw [lt_iff] at c1
    simp [eq] at c2
    omega
  have e : ∃ m, findMsb F.T x = .ok m := by
    unfold findMsb
    rw [if_neg (by omega), if_neg (by omega)]
    exact ⟨_, rfl⟩
  obtain ⟨m, e⟩ := e
  rw [e, Res.bind_ok]
  exact Lv.bind (h.fromF (by decide) hf (by decide +kernel)) fun eps _ => h.newton hx hk 5 _ (h.fromI _)

theorem NW.hypot {x y : Int} (hf : F.f ≤ 60) (hx : Storable F x) (hy : Storable F y) (hk : 2 ≤ k) : Lv F k (hypot F x y) := by
  unfold Eirin.hypot
  refine Lv.bind (h.mul hx hx) fun a sa => ?_
  refine Lv.bind (h.mul hy hy) fun b sb => ?_
  exact Lv.bind (h.add sa sb) fun c sc => h.sqrt hf sc hk

theorem NW.hypot3 {x y z : Int} (hf : F.f ≤ 60) (hx : Storable F x) (hy : Storable F y) (hz : Storable F z) (hk : 2 ≤ k) : Lv F k (hypot3 F x y z) := by
  unfold Eirin.hypot3
  refine Lv.bind (h.mul hx hx) fun a sa => ?_
  refine Lv.bind (h.mul hy hy) fun b sb => ?_
  refine Lv.bind (h.add sa sb) fun c sc => ?_
  refine Lv.bind (h.mul hz hz) fun d sd => ?_
  exact Lv.bind (h.add sc sd) fun c sc => h.sqrt hf sc hk

theorem NW.asin {x : Int} (hf : F.f ≤ 60) (hx : Storable F x) (hk : 2 ≤ k) : Lv F k (asin F x) := by
  obtain ⟨pi, e, s, -⟩ := h.cPi hf
  unfold Eirin.asin
  rw [e, Res.bind_ok]
  refine Lv.bind (h.abs hx) fun a sa => ?_
  split
  · show 1 ≤ k; omega
  split
  · exact h.div s (fun _ => hk)
  split
  · exact Lv.bind (h.neg s) fun np sn => h.div sn (fun _ => hk)
  refine Lv.bind (h.mul hx hx) fun q sq => ?_
  refine Lv.bind (h.sub (h.one 1) sq) fun d sd => ?_
  refine Lv.bind (h.sqrt hf sd hk) fun t st => ?_
  exact Lv.bind (h.div hx (fun _ => hk)) fun u su => h.atan hf su

theorem NW.acos {x : Int} (hf : F.f ≤ 60) (hx : Storable F x) (hk : 2 ≤ k) : Lv F k (acos F x) := by
  obtain ⟨pi, e, s, -⟩ := h.cPi hf
  unfold Eirin.acos
  rw [e, Res.bind_ok]
  refine Lv.bind (h.abs hx) fun a sa => ?_
  split
  · show 1 ≤ k; omega
  split
  · exact h.one 0
  split
  · exact s
  split
  · exact h.div s (fun _ => hk)
  refine Lv.bind (h.divInt s (by norm_num)) fun q sq => ?_
  exact Lv.bind (h.asin hf hx hk) fun t st => h.sub sq st

theorem NW.cbrtL {x prec : Int} (hx : Storable F x) (hk : 2 ≤ k) : ∀ n y, Storable F y → Lv F k (cbrtLoop F x prec n y) := by
  intro n
  induction n with
  | zero =>
    intro y sy
    unfold cbrtLoop
    refine Lv.bind (h.mul sy sy) fun a sa => ?_
    refine Lv.bind (h.mul sa sy) fun b sb => ?_
    refine Lv.bind (h.sub hx sb) fun c sc => ?_
    refine Lv.bind (h.abs sc) fun d sd => ?_
    split <;> exact sy
  | succ n ih =>
    intro y sy
    unfold cbrtLoop
    refine Lv.bind (h.mul sy sy) fun a sa => ?_
    refine Lv.bind (h.mul sa sy) fun b sb => ?_
    refine Lv.bind (h.sub hx sb) fun c sc => ?_
    refine Lv.bind (h.abs sc) fun d sd => ?_
    split
    · refine Lv.bind (h.mul sy sy) fun y2 s2 => ?_
      refine Lv.bind (h.div hx (fun _ => hk)) fun q sq => ?_
      refine Lv.bind (h.mulInt sy (by norm_num)) fun t st => ?_
      refine Lv.bind (h.add sq st) fun u su => ?_
      exact Lv.bind (h.divInt su (by norm_num)) fun v sv => ih v sv
    · exact sy

theorem NW.cbrt {x : Int} (hf : F.f ≤ 60) (hx : Storable F x) (hk : 2 ≤ k) : Lv F k (cbrt F x) := by
  unfold Eirin.cbrt
  refine Lv.bind (h.abs hx) fun a sa => ?_
  refine Lv.bind (h.fromF (by decide) hf (by decide +kernel)) fun eps se => ?_
  split
  · exact h.one 0
  refine Lv.bind (h.addInt hx) fun b sb => ?_
  refine Lv.bind (h.divInt sb (by norm_num)) fun c sc => ?_
  exact Lv.bind (h.mulInt se (by norm_num)) fun d sd => h.cbrtL hx hk _ _ sc

theorem NW.powPos : ∀ n (e b r : Int), 0 ≤ e → e < 2 ^ n → Storable F b → Storable F r → Lv F k (powPosLoop F (n + 1) e b r)
  | n, e, b, r, e0, en, sb, sr => by
    unfold powPosLoop
    by_cases c : e = 0
    · rw [if_neg (by simpa using c)]; exact sr
    · rw [if_pos c]
      have hn : n ≠ 0 := by rintro rfl; norm_num at en; omega
      obtain ⟨m, rfl⟩ := Nat.exists_eq_succ_of_ne_zero hn
      have d0 : Int.tdiv e 2 = e / 2 := Int.tdiv_eq_ediv_of_nonneg e0
      have d1 : e / 2 < 2 ^ m := by rw [pow_succ] at en; omega
      have fin : ∀ r', Storable F r' → Lv F k (do let i' ← mulAssign F b b; powPosLoop F (m + 1) (Int.tdiv e 2) i' r') := by
        intro r' sr'
        have e2 : mulAssign F b b = Eirin.mul F b b := rfl
        rw [e2]
        exact Lv.bind (h.mul sb sb) fun i' si => NW.powPos m _ _ _ (by rw [d0]; omega) (by rw [d0]; exact d1) si sr'
      split
      · exact Lv.bind (h.mul sr sb) fun r' sr' => fin r' sr'
      · exact fin r sr

theorem NW.powNeg (hk : 2 ≤ k) : ∀ n (e b r : Int), |e| < 2 ^ n → Storable F b → Storable F r → Lv F k (powNegLoop F (n + 1) e b r)
  | n, e, b, r, en, sb, sr => by
    unfold powNegLoop
    by_cases c : e = 0
    · rw [if_neg (by simpa using c)]; exact sr
    · rw [if_pos c]
      have hn : n ≠ 0 := by rintro rfl; norm_num at en; exact c en
      obtain ⟨m, rfl⟩ := Nat.exists_eq_succ_of_ne_zero hn
      have d1 : |Int.tdiv e 2| < 2 ^ m := by
        rw [Nat.succ_eq_add_one, pow_succ] at en
        have t := tdiv_mul_spec e (d := 2) (by norm_num)
        rw [abs_lt] at en ⊢
        rcases le_total 0 e with h0 | h0
        · have := t.1 h0; constructor <;> omega
        · have := t.2 h0; constructor <;> omega
      have fin : ∀ r', Storable F r' → Lv F k (do let i' ← mulAssign F b b; powNegLoop F (m + 1) (Int.tdiv e 2) i' r') := by
        intro r' sr'
        have e2 : mulAssign F b b = Eirin.mul F b b := rfl
        rw [e2]
        exact Lv.bind (h.mul sb sb) fun i' si => NW.powNeg hk m _ _ _ d1 si sr'
      split
      · exact Lv.bind (h.divA sr (fun _ => hk)) fun r' sr' => fin r' sr'
      · exact fin r sr

theorem NW.pow {b e : Int} (hb : Storable F b) (he : |e| < 2 ^ 65) (hk : e < 0 → 2 ≤ k) : Lv F k (powInt F b e) := by
  unfold powInt
  split
  · split
    · exact h.one 1
    · exact h.one 0
  split
  · exact h.powNeg (hk ‹_›) 65 _ _ _ he hb (h.one 1)
  · exact h.powPos 65 _ _ _ (by omega) (abs_lt.1 he).2 hb (h.one 1)

theorem NW.expE (hf : F.f ≤ 60) {x : Int} (hx : Storable F x) (hk : 2 ≤ k ∨ F.T.signed = false) : Lv F k (expExpand F x) := by
  unfold expExpand
  refine Lv.bind (h.intPart x) fun n sn => ?_
  refine Lv.bind (h.subInt hx) fun fp sf => ?_
  refine Lv.bind (h.fromF (by decide) hf (by decide +kernel)) fun a sa => ?_
  refine Lv.bind (h.fromF (by decide) hf (by decide +kernel)) fun b sb => ?_
  refine Lv.bind (h.fromF (by decide) hf (by decide +kernel)) fun c sc => ?_
  refine Lv.bind (h.fromF (by decide) hf (by decide +kernel)) fun d sd => ?_
  refine Lv.bind (h.fromF (by decide) hf (by decide +kernel)) fun e se => ?_
  refine Lv.bind (h.fromF (by decide) hf (by decide +kernel)) fun f sf' => ?_
  refine Lv.bind (h.fromF (by decide) hf (by decide +kernel)) fun eV sV => ?_
  refine Lv.bind (h.pow sV ?_ ?_) fun p sp => ?_
  · have hb : F.T.bits ≤ 64 := by have := h.valid.1; omega
    have p1 : (2 : Int) ^ F.T.bits ≤ 2 ^ 64 := pow_le_pow_right₀ (by norm_num) hb
    have p2 : (2 : Int) ^ (F.T.bits - 1) ≤ 2 ^ 64 := pow_le_pow_right₀ (by norm_num) (by omega)
    have p3 : (0 : Int) < 2 ^ (F.T.bits - 1) := by positivity
    obtain ⟨n1, n2⟩ := sn
    unfold IntTy.lo at n1; unfold IntTy.hi at n2
    rw [abs_lt]
    split at n1 <;> split at n2 <;> first | contradiction | (constructor <;> norm_num at p1 p2 n1 n2 ⊢ <;> omega)
  · intro n0
    rcases hk with hk | hs
    · exact hk
    · have := sn.1
      unfold IntTy.lo at this; simp [hs] at this; omega
  refine Lv.bind (h.mul sf sa) fun m1 r1 => ?_
  refine Lv.bind (h.add sb r1) fun s1 q1 => ?_
  refine Lv.bind (h.mul sf q1) fun m2 r2 => ?_
  refine Lv.bind (h.add sc r2) fun s2 q2 => ?_
  refine Lv.bind (h.mul sf q2) fun m3 r3 => ?_
  refine Lv.bind (h.add sd r3) fun s3 q3 => ?_
  refine Lv.bind (h.mul sf q3) fun m4 r4 => ?_
  refine Lv.bind (h.add se r4) fun s4 q4 => ?_
  refine Lv.bind (h.mul sf q4) fun m5 r5 => ?_
  refine Lv.bind (h.add sf' r5) fun s5 q5 => ?_
  exact h.mul sp q5

theorem NW.ofInt0 : ofInt F 0 = 0 := by rw [ofInt_eq F h.valid, zero_mul]; exact IntTy.wrap_of_inRange h.valid.tpos h.z

theorem NW.exp (hf : F.f ≤ 60) {x : Int} (hx : Storable F x) (hk : 2 ≤ k ∨ F.T.signed = false) : Lv F k (exp F x) := by
  unfold Eirin.exp
  split
  · exact h.one 1
  by_cases c : lt x (ofInt F 0) = true
  · rw [if_pos c]
    have k2 : 2 ≤ k := by
      rcases hk with hk | hs
      · exact hk
      · rw [h.ofInt0] at c
        rw [lt_iff] at c
        have := hx.1
        unfold IntTy.lo at this; simp [hs] at this; omega
    refine Lv.bind (h.neg hx) fun n sn => ?_
    exact Lv.bind (h.expE hf sn hk) fun y sy => h.div (h.one 1) (fun _ => k2)
  · rw [if_neg c]; exact h.expE hf hx hk

theorem NW.ar {n : Int} (hn : F.T.bits = 8 ∨ F.T.bits = 16 → -(2 ^ 17) ≤ n ∧ n ≤ 2 ^ 17) : ∃ v, arith F.P n = .ok v := by
  have e := arith_store h.valid (n := n) (by
    by_cases hw : 32 ≤ F.T.bits
    · exact Or.inr hw
    · exact Or.inl (hn (by have := h.valid.1; omega)))
  rw [if_neg (fun c => h.ns c.1)] at e
  rcases ha : arith F.P n with v | u | e'
  · exact ⟨v, rfl⟩
  · rw [ha] at e; cases e
  · rw [ha] at e; cases e

theorem NW.fm : 0 < oneShl F ∧ F.P.InRange (oneShl F) ∧ oneShl F = 2 ^ F.f ∨ F.T.signed = false ∧ 32 ≤ F.T.bits ∧ oneShl F = 2 ^ F.f := by
  have hfl := h.valid.flt
  by_cases hw : 32 ≤ F.T.bits
  · right
    have hs : F.T.signed = false := by
      by_contra c
      exact h.ns ⟨by simpa using c, hw⟩
    refine ⟨hs, hw, ?_⟩
    unfold oneShl
    rw [h.valid.p_eq hw]
    apply IntTy.wrap_of_inRange h.valid.tpos
    constructor
    · unfold IntTy.lo; simp [hs]
    · unfold IntTy.hi; simp only [hs]
      have : (2 : Int) ^ F.f < 2 ^ F.T.bits := pow_lt_pow_right₀ (by norm_num) hfl
      simp; omega
  · left
    have p : F.P = i32 := by unfold FxTy.P IntTy.promote; rw [if_pos (by omega)]
    unfold oneShl
    rw [p]
    have key : ∀ f < 16, 0 < i32.wrap (2 ^ f) ∧ i32.InRange (i32.wrap (2 ^ f)) ∧ i32.wrap (2 ^ f) = 2 ^ f := by decide +kernel
    exact key _ (by have := h.valid.1; omega)

theorem NW.fm0 : 0 < oneShl F ∧ oneShl F = 2 ^ F.f := by
  rcases h.fm with ⟨a, -, b⟩ | ⟨-, -, b⟩
  · exact ⟨a, b⟩
  · exact ⟨by rw [b]; positivity, b⟩

theorem NW.narrow_one (hb : F.T.bits = 8 ∨ F.T.bits = 16) : oneShl F ≤ 2 ^ 15 := by
  rw [h.fm0.2]
  exact pow_le_pow_right₀ (by norm_num) (by have := h.valid.2.2.2.2.2; omega)

theorem NW.cdivm {v : Int} (hv : Storable F v) : cdiv F.P v (oneShl F) = .ok (Int.tdiv v (oneShl F)) := by
  have f0 := h.fm0.1
  unfold cdiv
  rw [if_neg (ne_of_gt f0), if_neg]
  rintro ⟨c1, c2⟩
  rw [tdiv_inRange_iff (IntTy.inRange_promote h.valid.tpos hv) (ne_of_gt f0) c1] at c2
  omega

theorem NW.tdm {v : Int} (hv : Storable F v) (hb : F.T.bits = 8 ∨ F.T.bits = 16) : -(2 ^ 15) ≤ Int.tdiv v (oneShl F) * oneShl F ∧ Int.tdiv v (oneShl F) * oneShl F ≤ 2 ^ 16 := by
  have b := narrow_bounds hb hv
  have t := tdiv_mul_spec v h.fm0.1
  rcases le_total 0 v with c | c
  · have := t.1 c; constructor <;> omega
  · have := t.2 c; constructor <;> omega

theorem NW.floor {x : Int} (hx : Storable F x) : Lv F k (floor F x) := by
  obtain ⟨f0, -⟩ := h.fm0
  have fin : ∀ v, Storable F v → Lv F k (do let q ← cdiv F.P v (oneShl F); let p ← arith F.P (q * oneShl F); pure (fromInternal F p)) := by
    intro v hv
    obtain ⟨p, e⟩ := h.ar (n := Int.tdiv v (oneShl F) * oneShl F) (fun hb => by have := h.tdm hv hb; omega)
    rw [h.cdivm hv, Res.bind_ok, e, Res.bind_ok]
    exact h.fromI _
  unfold Eirin.floor
  dsimp only
  by_cases c : x < 0
  · rw [if_pos c]
    have hnar : F.T.bits = 8 ∨ F.T.bits = 16 := by
      by_contra hb
      apply h.ns
      refine ⟨?_, by have := h.valid.1; omega⟩
      by_contra hs
      have := hx.1
      unfold IntTy.lo at this; simp [hs] at this; omega
    have p : F.P = i32 := by unfold FxTy.P IntTy.promote; rw [if_pos (by omega)]
    have on := h.narrow_one hnar
    have bx := narrow_bounds hnar hx
    have ar : ∀ {n : Int}, -(2 ^ 17) ≤ n → n ≤ 2 ^ 17 → arith F.P n = .ok n := by
      intro n h1 h2; rw [p]; exact arith_of_inRange (by decide) (narrow_inRange ⟨h1, h2⟩)
    have t := h.tdm hx hnar
    rw [ar (n := oneShl F - 1) (by omega) (by omega), Res.bind_ok, ar (n := x - (oneShl F - 1)) (by omega) (by omega), Res.bind_ok, Res.pure_eq, Res.bind_ok]
    split
    · rw [h.cdivm hx, Res.bind_ok, ar (by omega) (by omega), Res.bind_ok, ar (n := Int.tdiv x (oneShl F) * oneShl F - oneShl F) (by omega) (by omega),
        Res.bind_ok, ar (by omega) (by omega), Res.bind_ok]
      exact h.fromI _
    · exact fin _ (h.wr _)
  · rw [if_neg c, Res.pure_eq, Res.bind_ok, if_neg (fun z => c z.1)]
    exact fin x hx

theorem NW.fmod {x y : Int} (hx : Storable F x) (hy : Storable F y) (hk : y = 0 → 2 ≤ k) : Lv F k (fmod F x y) := by
  unfold Eirin.fmod
  refine Lv.bind (h.div hx hk) fun q sq => ?_
  refine Lv.bind (h.floor sq) fun a sa => ?_
  exact Lv.bind (h.mul hy sa) fun p sp => h.sub hx sp

theorem NW.degrees (hf : F.f ≤ 60) {x : Int} (hx : Storable F x) : Lv F k (degrees F x) := by
  obtain ⟨pi, e, s, n⟩ := h.cPi hf
  unfold Eirin.degrees
  rw [e, Res.bind_ok]
  exact Lv.bind (h.div hx (fun c => absurd c n)) fun q sq => h.mul sq (h.one _)

theorem NW.radians (hf : F.f ≤ 60) {x : Int} (hx : Storable F x) (hk : 2 ≤ k) : Lv F k (radians F x) := by
  obtain ⟨pi, e, s, n⟩ := h.cPi hf
  unfold Eirin.radians
  rw [e, Res.bind_ok]
  exact Lv.bind (h.div hx (fun _ => hk)) fun q sq => h.mul sq s

theorem NW.two (hf2 : F.f + 2 ≤ F.T.bits) : ofInt F 2 ≠ 0 := by
  rw [ofInt_eq F h.valid]
  intro c
  have d := IntTy.wrap_dvd F.T (2 * 2 ^ F.f)
  rw [c, sub_zero, ← pow_succ'] at d
  have p0 : (0 : Int) < 2 ^ (F.f + 1) := by positivity
  have := Int.le_of_dvd p0 d
  have : (2 : Int) ^ (F.f + 1) < 2 ^ F.T.bits := pow_lt_pow_right₀ (by norm_num) (by omega)
  omega
end lv

/-- A number of the type. -/
def Returns (F : FxTy) (m : Res Int) : Prop := ∃ r, m = .ok r ∧ Storable F r

/-- A number of the type, `std::domain_error`, or undefined for no other reason than a division by zero. -/
def OnlyDivZero (F : FxTy) (m : Res Int) : Prop := Returns F m ∨ m = .throw .domainError ∨ m = .ub .divZero

theorem Lv.ret {F : FxTy} {m : Res Int} (h : Lv F 0 m) : Returns F m := h.ok0

theorem Lv.only {F : FxTy} {m : Res Int} (h : Lv F 2 m) : OnlyDivZero F m := by
  rcases m with r | u | e
  · exact Or.inl ⟨r, rfl, h⟩
  · cases u <;> simp only [Lv] at h
    · exact Or.inr (Or.inr rfl)
    · omega
  · cases e <;> simp only [Lv] at h
    exact Or.inr (Or.inl rfl)

/-- C171: on unsigned storage and storage narrower than `int`, `sin`, `atan`, `degrees` and (with an integer bit beside the sign) `cos`
return a number for every argument, `tan` returns or throws, `exp` of an unsigned number returns. -/
theorem C171_returns (F : FxTy) (hF : F.Valid) (hs : ¬ SignedWide F) (hr : F.r = false) (hf : F.f ≤ 60) (x : Int) (hx : Storable F x) :
    Returns F (sin F x) ∧ Returns F (atan F x) ∧ Returns F (degrees F x) ∧ Returns F (floor F x) ∧ (F.T.signed = false → Returns F (exp F x)) ∧
    (F.f + 2 ≤ F.T.bits → Returns F (cos F x) ∧ (Returns F (tan F x) ∨ tan F x = .throw .domainError)) := by
  have h : NW F := ⟨hF, hs, hr⟩
  refine ⟨(h.sin hf hx).ret, (h.atan hf hx).ret, (h.degrees hf hx).ret, (h.floor hx).ret, fun c => (h.exp hf hx (Or.inr c)).ret, fun c => ⟨(h.cos hf (h.two c) hx).ret, ?_⟩⟩
  have t := h.tan (k := 1) hf (h.two c) le_rfl hx
  rcases ht : tan F x with r | u | e <;> rw [ht] at t
  · exact Or.inl ⟨r, rfl, t⟩
  · cases u <;> simp [Lv] at t
  · cases e <;> simp [Lv] at t
    exact Or.inr rfl
example : Storable ⟨i16, i32, 12, false⟩ (-32768) ∧ sin ⟨i16, i32, 12, false⟩ (-32768) = .ok (-32768) := by decide +kernel

/-- C171: the other functions either return a number, throw `std::domain_error`, or divide by zero; there is no overflow and no bad shift. -/
theorem C171_only_div_zero (F : FxTy) (hF : F.Valid) (hs : ¬ SignedWide F) (hr : F.r = false) (hf : F.f ≤ 60) (x y z e : Int) (hx : Storable F x)
    (hy : Storable F y) (hz : Storable F z) (he : -2 ^ 63 ≤ e ∧ e < 2 ^ 64) :
    OnlyDivZero F (sqrt F x) ∧ OnlyDivZero F (hypot F x y) ∧ OnlyDivZero F (hypot3 F x y z) ∧ OnlyDivZero F (asin F x) ∧ OnlyDivZero F (acos F x) ∧
    OnlyDivZero F (cbrt F x) ∧ OnlyDivZero F (exp F x) ∧ OnlyDivZero F (powInt F x e) ∧ OnlyDivZero F (radians F x) ∧ OnlyDivZero F (fmod F x y) ∧
    OnlyDivZero F (cos F x) ∧ OnlyDivZero F (tan F x) ∧ (0 ≤ e → Returns F (powInt F x e)) ∧ (y ≠ 0 → Returns F (fmod F x y)) := by
  have h : NW F := ⟨hF, hs, hr⟩
  have he' : |e| < 2 ^ 65 := by rw [abs_lt]; constructor <;> norm_num at he ⊢ <;> omega
  have hcos : Lv F 2 (cos F x) := by
    by_cases c : ofInt F 2 = 0
    · obtain ⟨pi, ep, sp, -⟩ := h.cPi hf
      unfold cos
      rw [ep, Res.bind_ok, div_nf hF hr sp, if_pos c]
      exact le_refl 2
    · exact h.cos hf c hx
  have htan : Lv F 2 (tan F x) := by
    by_cases c : ofInt F 2 = 0
    · obtain ⟨pi, ep, sp, -⟩ := h.cPi hf
      unfold tan cos
      rw [ep, Res.bind_ok, div_nf hF hr sp, if_pos c]
      exact le_refl 2
    · exact h.tan hf c (by norm_num) hx
  exact ⟨(h.sqrt hf hx le_rfl).only, (h.hypot hf hx hy le_rfl).only, (h.hypot3 hf hx hy hz le_rfl).only, (h.asin hf hx le_rfl).only,
    (h.acos hf hx le_rfl).only, (h.cbrt hf hx le_rfl).only, (h.exp hf hx (Or.inl le_rfl)).only, (h.pow hx he' (fun _ => le_rfl)).only,
    (h.radians hf hx le_rfl).only, (h.fmod hx hy (fun _ => le_rfl)).only, hcos.only, htan.only,
    fun c => (h.pow hx he' (fun d => absurd d (not_lt.2 c))).ret, fun c => (h.fmod hx hy (fun d => absurd d c)).ret⟩
example : Storable ⟨⟨8, true⟩, ⟨16, true⟩, 4, false⟩ (-128) ∧ hypot ⟨⟨8, true⟩, ⟨16, true⟩, 4, false⟩ 127 127 = .ok (-16) := by decide +kernel

/-- C171: without an integer bit beside the sign, `2` is stored as `0` and every call of `cos` and `tan` divides by zero. -/
theorem C171_cos_div_zero (F : FxTy) (hF : F.Valid) (hs : ¬ SignedWide F) (hr : F.r = false) (hf : F.f ≤ 60) (h1 : F.f + 1 = F.T.bits) (x : Int) :
    cos F x = .ub .divZero ∧ tan F x = .ub .divZero := by
  have h : NW F := ⟨hF, hs, hr⟩
  obtain ⟨pi, ep, sp, -⟩ := h.cPi hf
  have c : ofInt F 2 = 0 := by
    rw [ofInt_eq F hF, ← pow_succ', h1, ← IntTy.wrap_of_inRange hF.tpos h.z]
    apply IntTy.wrap_congr
    rw [sub_zero]
  have : cos F x = .ub .divZero := by
    unfold cos
    rw [ep, Res.bind_ok, div_nf hF hr sp, if_pos c, Res.bind_ub]
  refine ⟨this, ?_⟩
  unfold tan
  rw [this, Res.bind_ub]
example : (⟨⟨16, true⟩, ⟨32, true⟩, 15, false⟩ : FxTy).Valid ∧ ¬ SignedWide ⟨⟨16, true⟩, ⟨32, true⟩, 15, false⟩ := by decide

/-- C171: the logarithms on narrow layouts return or throw, except that without an integer bit beside the sign they do not terminate. -/
theorem C171_logs (F : FxTy) (hF : F.Valid) (hn : Narrow F) (hr : F.r = false) (x : Int) (hx : Storable F x) (m : Res Int)
    (hm : m = log2 F x ∨ m = log F x ∨ m = log10 F x) :
    Returns F m ∨ m = .throw .domainError ∨ (F.T.signed = true ∧ F.f + 1 = F.T.bits ∧ m = .ub .diverges) := by
  have hs : ¬ SignedWide F := by intro c; have := c.2; unfold Narrow at hn; omega
  have h : NW F := ⟨hF, hs, hr⟩
  have hf : F.f ≤ 60 := by have := hF.flt; unfold Narrow at hn; omega
  obtain ⟨c1, e1, s1⟩ := Lv.ok0 (h.fromF (s := 60) (c := 0x171547652B82FE00) (by decide) hf (by decide +kernel))
  have n1 := h.const_ne hf (sc := (60, 0x171547652B82FE00)) (by decide) e1
  obtain ⟨c2, e2, s2⟩ := Lv.ok0 (h.fromF (s := 60) (c := 0x35269E12F346E200) (by decide) hf (by decide +kernel))
  have n2 := h.const_ne hf (sc := (60, 0x35269E12F346E200)) (by decide) e2
  have base : Returns F (log2 F x) ∨ log2 F x = .throw .domainError ∨ (F.T.signed = true ∧ F.f + 1 = F.T.bits ∧ log2 F x = .ub .diverges) := by
    by_cases hroom : 2 ≤ val F F.T.hi + ulp F
    · obtain ⟨a, b⟩ := C145_log2_partial F hF hn hroom x hx
      rcases le_or_gt (val F x) 0 with c | c
      · exact Or.inr (Or.inl (a c))
      · obtain ⟨k, k1, k2⟩ := exists_mem_Ico_zpow c (by norm_num : (1 : ℚ) < 2)
        obtain ⟨r, -, e, s, -⟩ := b k k1 k2
        exact Or.inl ⟨r, e, s⟩
    · rcases le_or_gt (val F x) 0 with c | c
      · right; left
        rw [← val_zero F, val_le] at c
        unfold log2
        have e : ∃ b0, shl u32 1 (F.f - 1) = .ok b0 := by
          unfold shl; rw [if_pos (by show F.f - 1 < 32; have := hF.flt; unfold Narrow at hn; omega)]; exact ⟨_, rfl⟩
        obtain ⟨b0, e⟩ := e
        rw [e, Res.bind_ok]
        dsimp only
        rw [if_pos (by rw [h.ofInt0]; simp only [le, cmp, bne_iff_ne, ne_eq, compare_gt_iff_gt, not_lt]; exact c)]
      · right; right
        have hroom' : F.T.hi + 1 < 2 * 2 ^ F.f := by
          rw [not_le] at hroom
          unfold val ulp at hroom
          rw [← add_div, div_lt_iff₀ (by positivity)] at hroom
          exact_mod_cast hroom
        have hfb := hF.flt
        have : F.T.signed = true ∧ F.f + 1 = F.T.bits := by
          rw [← pow_succ'] at hroom'
          unfold IntTy.hi at hroom'
          split at hroom'
          · refine ⟨‹_›, ?_⟩
            rw [sub_add_cancel] at hroom'
            have := (pow_lt_pow_iff_right₀ (by norm_num : (1 : Int) < 2)).1 hroom'
            omega
          · rw [sub_add_cancel] at hroom'
            have := (pow_lt_pow_iff_right₀ (by norm_num : (1 : Int) < 2)).1 hroom'
            omega
        exact ⟨this.1, this.2, (C145_diverges F hF hn (not_le.1 hroom) x hx c).1⟩
  have step : ∀ c : Int, c ≠ 0 → ∀ g : Res Int, g = (log2 F x >>= fun l => div F l c) →
      Returns F g ∨ g = .throw .domainError ∨ (F.T.signed = true ∧ F.f + 1 = F.T.bits ∧ g = .ub .diverges) := by
    rintro c c0 g rfl
    rcases base with ⟨r, e, s⟩ | e | ⟨a, b, e⟩
    · left; rw [e, Res.bind_ok]; exact (h.div s (fun z => absurd z c0)).ret
    · right; left; rw [e, Res.bind_throw]
    · right; right; exact ⟨a, b, by rw [e, Res.bind_ub]⟩
  rcases hm with rfl | rfl | rfl
  · exact base
  · exact step c1 n1 _ (by unfold log; rw [e1, Res.bind_ok])
  · exact step c2 n2 _ (by unfold log10; rw [e2, Res.bind_ok])
example : Narrow ⟨i16, i32, 8, false⟩ ∧ log ⟨i16, i32, 8, false⟩ 512 = .ok 177 := by unfold Narrow; decide +kernel

/-- C171: the divisions by zero allowed by `C171_only_div_zero` do happen, function by function (8-bit storage, `f` fraction bits). -/
theorem C171_reached : exp ⟨⟨8, true⟩, ⟨16, true⟩, 3, false⟩ (-128) = .ub .divZero ∧ cbrt ⟨⟨8, true⟩, ⟨16, true⟩, 4, false⟩ (6 * 16) = .ub .divZero ∧
    sqrt ⟨⟨8, true⟩, ⟨16, true⟩, 6, false⟩ 97 = .ub .divZero ∧ asin ⟨⟨8, true⟩, ⟨16, true⟩, 7, false⟩ (-128) = .ub .divZero ∧
    acos ⟨⟨8, false⟩, ⟨16, false⟩, 7, false⟩ 0 = .ub .divZero ∧ radians ⟨⟨8, true⟩, ⟨16, true⟩, 6, false⟩ 1 = .ub .divZero ∧
    powInt ⟨⟨8, true⟩, ⟨16, true⟩, 4, false⟩ 3 (-3) = .ub .divZero ∧ hypot ⟨⟨8, true⟩, ⟨16, true⟩, 6, false⟩ 79 0 = .ub .divZero := by
  decide +kernel

end Eirin.Props
