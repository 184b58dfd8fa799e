import Verif.Props.OutEnds
import Verif.Props.Lut
import Verif.Props.Format

/-! # Property C185: text output does not read outside the digit table

`copy_as_chars_to` and `std::format` index a table of sixteen digits with a computed digit. -/

namespace Eirin.Props
open Spec

theorem lo_nonpos (t : IntTy) : t.lo ≤ 0 := by
  unfold IntTy.lo; split
  · simp
  · exact le_refl _

theorem NB.cmod (t : IntTy) (a b : Int) : NB (cmod t a b) := by
  unfold Eirin.cmod; split
  · intro h; cases h
  · split
    · intro h; cases h
    · exact NB.ok _

theorem cmod_eq {t : IntTy} {a b q : Int} (h : cmod t a b = .ok q) : q = a.tmod b := by
  unfold cmod at h
  split at h
  · cases h
  · split at h
    · cases h
    · cases h; rfl

theorem digitAt_nb (up : Bool) {d : Int} (h0 : 0 ≤ d) (h1 : d ≤ 16) : NB (digitAt up d) := by
  obtain ⟨n, rfl⟩ := Int.eq_ofNat_of_zero_le h0
  have hn : n ≤ 16 := by omega
  unfold digitAt NB
  rw [if_neg (by omega)]
  split
  · intro h; cases h
  · rename_i g
    have hl : (n : Int).toNat < (digitTable up).length := by
      have : (digitTable up).length = 16 := by cases up <;> rfl
      rw [this]; omega
    rw [List.getElem?_eq_getElem hl]
    intro h; cases h

/-- The integer digits. -/
theorem printInt_nb (F : FxTy) (hF : F.Valid) (up : Bool) (base : Int) (h2 : 2 ≤ base) (h16 : base ≤ 16) : ∀ n ip buf out, F.T.InRange ip →
    NB (printInt F up base n ip buf out) := by
  intro n
  induction n with
  | zero => intro ip buf out _ h; cases h
  | succ n ih =>
    intro ip buf out hi
    unfold printInt
    split
    · rename_i hp
      obtain ⟨-, hD⟩ := D_wrap F hF (le_of_lt hp) hi
      rw [hD]
      refine NB.bind (NB.cmod _ _ _) fun d hd => NB.bind ?_ fun c _ => NB.bind (NB.cdiv _ _ _) fun q _ => ?_
      · rw [cmod_eq hd, Int.tmod_eq_emod_of_nonneg (le_of_lt hp)]
        have := Int.emod_nonneg ip (show base ≠ 0 by omega)
        have := Int.emod_lt_of_pos ip (show 0 < base by omega)
        exact digitAt_nb up (by omega) (by omega)
      · split <;> exact ih _ _ _ (IntTy.wrap_inRange _ hF.tpos)
    · exact NB.ok _

/-- One pass of the fraction loop, after the divisor has been chosen: no read outside the table if the two numbers are not negative. -/
theorem frac_tail (F : FxTy) (hF : F.Valid) (up : Bool) (b : Int) (h2 : 2 ≤ b) (h16 : b ≤ 16) {n : Nat} {v dv : Int} {out : List Char} (hv : F.T.InRange v)
    (v0 : 0 ≤ v) (d0 : 0 ≤ dv) (hk : ∀ c, NB (printFrac F up b n (v % dv) dv (out ++ [c]))) :
    NB (do
      let t ← cdiv F.P v dv
      let d ← cmod F.D (F.D.wrap t) b
      let c ← digitAt up d
      let v' ← cmod F.P v dv
      printFrac F up b n (F.T.wrap v') dv (out ++ [c])) := by
  refine NB.bind (NB.cdiv _ _ _) fun t ht => NB.bind (NB.cmod _ _ _) fun d hd => NB.bind ?_ fun c _ => NB.bind (NB.cmod _ _ _) fun v' hv' => ?_
  · have et := cdiv_eq ht
    rw [Int.tdiv_eq_ediv_of_nonneg v0] at et
    have t0 : 0 ≤ t := by rw [et]; exact Int.ediv_nonneg v0 d0
    have t1 : t ≤ v := by rw [et]; exact Int.ediv_le_self _ v0
    obtain ⟨-, hD⟩ := D_wrap F hF t0 ⟨le_trans (lo_nonpos F.T) t0, le_trans t1 hv.2⟩
    rw [hD] at hd
    rw [cmod_eq hd, Int.tmod_eq_emod_of_nonneg t0]
    have := Int.emod_nonneg t (show b ≠ 0 by omega)
    have := Int.emod_lt_of_pos t (show 0 < b by omega)
    exact digitAt_nb up (by omega) (by omega)
  · have e := cmod_eq hv'
    rw [Int.tmod_eq_emod_of_nonneg v0] at e
    have : F.T.wrap v' = v % dv := by
      rw [e]
      rcases eq_or_lt_of_le d0 with h | h
      · subst h; rw [Int.emod_zero]; exact IntTy.wrap_of_inRange hF.tpos hv
      · exact wrap_of_between F.T hF.tpos hv (Int.emod_nonneg _ h.ne') (by
          have e1 := Int.emod_add_mul_ediv v dv
          have e2 := mul_nonneg d0 (Int.ediv_nonneg v0 d0)
          omega)
    rw [this]
    exact hk c

/-- The fraction loop, for an invariant `J` of value and divisor. -/
theorem printFrac_nb (F : FxTy) (hF : F.Valid) (up : Bool) (b : Int) (h2 : 2 ≤ b) (h16 : b ≤ 16) (J : Int → Int → Prop)
    (hJ : ∀ v dv, J v dv → 0 ≤ v ∧ F.T.InRange v ∧ 0 < dv ∧ F.T.InRange dv ∧ (dv % b = 0 → J (v % (dv / b)) (dv / b)) ∧
      (dv % b ≠ 0 → ∀ p, arith F.D (v * b) = .ok p → 0 ≤ F.T.wrap p ∧ J (F.T.wrap p % dv) dv)) :
    ∀ (n : Nat) (v dv : Int) (out : List Char), J v dv → NB (printFrac F up b n v dv out) := by
  intro n
  induction n with
  | zero => intro v dv out _; exact NB.ok _
  | succ n ih =>
    intro v dv out h
    obtain ⟨v0, hv, d0, hd, j1, j2⟩ := hJ v dv h
    obtain ⟨-, hDv⟩ := D_wrap F hF v0 hv
    obtain ⟨-, hDd⟩ := D_wrap F hF d0.le hd
    unfold printFrac
    rw [hDv, hDd]
    split
    · exact NB.ok _
    refine NB.bind (NB.cmod _ _ _) fun m hm => ?_
    have em := cmod_eq hm
    rw [Int.tmod_eq_emod_of_nonneg d0.le] at em
    split
    · rename_i h0
      rw [em] at h0
      refine NB.bind (NB.bind (NB.cdiv _ _ _) fun q _ => NB.ok _) fun p hp => ?_
      obtain ⟨q, hq, hp⟩ := bind_eq_ok.1 hp
      have eq := cdiv_eq hq
      rw [Int.tdiv_eq_ediv_of_nonneg d0.le] at eq
      cases hp
      have q0 : 0 ≤ dv / b := Int.ediv_nonneg d0.le (by omega)
      have ew : F.T.wrap q = dv / b := by
        rw [eq]; exact wrap_of_between F.T hF.tpos hd q0 (Int.ediv_le_self _ d0.le)
      dsimp only
      rw [ew]
      exact frac_tail F hF up b h2 h16 hv v0 q0 fun c => ih _ _ _ (j1 h0)
    · rename_i h0
      rw [em] at h0
      refine NB.bind (NB.bind (NB.arith _ _) fun q _ => NB.ok _) fun p hp => ?_
      obtain ⟨q, hq, hp⟩ := bind_eq_ok.1 hp
      cases hp
      obtain ⟨k1, k2⟩ := j2 h0 q hq
      dsimp only
      exact frac_tail F hF up b h2 h16 (IntTy.wrap_inRange _ hF.tpos) k1 d0.le fun c => ih _ _ _ k2

theorem printSign_nb (F : FxTy) (hF : F.Valid) {x : Int} (hx : Storable F x) :
    NB (printSign F x) ∧ ∀ r, printSign F x = .ok r → F.T.InRange r.2.1 ∧ 0 ≤ r.2.2 ∧ F.T.InRange r.2.2 := by
  have wr : ∀ z, F.T.InRange (F.T.wrap z) := fun z => IntTy.wrap_inRange z hF.tpos
  have hh : 0 ≤ F.T.hi := by
    have h1 : (0 : Int) < 2 ^ (F.T.bits - 1) := by positivity
    have h2 : (0 : Int) < 2 ^ F.T.bits := by positivity
    unfold IntTy.hi; split <;> omega
  unfold printSign
  split
  · refine ⟨NB.bind (NB.shr _ _ _) fun _ _ => NB.bind (NB.arith _ _) fun _ _ => NB.ok _, fun r h => ?_⟩
    obtain ⟨a, -, h⟩ := bind_eq_ok.1 h
    obtain ⟨b, -, h⟩ := bind_eq_ok.1 h
    cases h
    exact ⟨wr _, le_refl _, lo_nonpos _, hh⟩
  · rename_i hm
    split
    · rename_i hneg
      refine ⟨NB.bind (NB.arith _ _) fun _ _ => NB.bind (NB.shr _ _ _) fun _ _ => NB.ok _, fun r h => ?_⟩
      have hs : F.T.signed = true := by
        by_contra c
        have := hx.1
        unfold IntTy.lo at this
        simp only [c] at this
        norm_num at this
        omega
      rw [signbitMask_eq hF hs] at hm
      obtain ⟨a, ha, h⟩ := bind_eq_ok.1 h
      obtain ⟨b, -, h⟩ := bind_eq_ok.1 h
      cases h
      have hlo : F.T.lo = -(2 ^ (F.T.bits - 1)) := by unfold IntTy.lo; simp [hs]
      have hhi : F.T.hi = 2 ^ (F.T.bits - 1) - 1 := by unfold IntTy.hi; simp [hs]
      have h1 := hx.1
      have hr : F.T.InRange (-x) := ⟨by have := lo_nonpos F.T; omega, by omega⟩
      have : a = -x := by
        rw [arith_of_inRange hF.ppos (IntTy.inRange_promote hF.tpos hr)] at ha
        cases ha; rfl
      subst this
      dsimp only
      rw [IntTy.wrap_of_inRange hF.tpos hr]
      exact ⟨wr _, by omega, hr⟩
    · refine ⟨NB.bind (NB.shr _ _ _) fun _ _ => NB.ok _, fun r h => ?_⟩
      obtain ⟨b, -, h⟩ := bind_eq_ok.1 h
      cases h
      exact ⟨wr _, by dsimp only; omega, hx⟩

/-- Where the fraction loop starts: the remainder of a number that is not negative, and the divisor `2 ^ f`. -/
theorem copyAsChars_nb (F : FxTy) (hF : F.Valid) (h1 : F.T.InRange (2 ^ F.f)) {x : Int} (hx : Storable F x) (base : Int) (h2 : 2 ≤ base) (h16 : base ≤ 16)
    (up : Bool) (hk : ∀ v out, 0 ≤ v → v < 2 ^ F.f → NB (printFrac F up base F.f v (2 ^ F.f) out)) : NB (copyAsChars F x base up) := by
  have hp : (0 : Int) < 2 ^ F.f := by positivity
  unfold copyAsChars
  refine NB.bind (NB.shl _ _ _) fun d0 hd => ?_
  have ed : F.T.wrap d0 = 2 ^ F.f := by
    unfold shl at hd
    rw [one_mul, IntTy.wrap_of_inRange hF.ppos (IntTy.inRange_promote hF.tpos h1)] at hd
    split at hd
    · cases hd; exact IntTy.wrap_of_inRange hF.tpos h1
    · cases hd
  dsimp only
  rw [ed]
  refine NB.bind (printSign_nb F hF hx).1 fun r hr => ?_
  obtain ⟨sgn, ip, v⟩ := r
  obtain ⟨r1, r2, r3⟩ := (printSign_nb F hF hx).2 _ hr
  dsimp only at r1 r2 r3 ⊢
  refine NB.bind (NB.cmod _ _ _) fun v0 hv => ?_
  have e := cmod_eq hv
  rw [Int.tmod_eq_emod_of_nonneg r2] at e
  have e1 := Int.emod_nonneg v hp.ne'
  have e2 := Int.emod_lt_of_pos v hp
  have ew : F.T.wrap v0 = v0 := wrap_of_between F.T hF.tpos h1 (by omega) (by omega)
  rw [ew]
  have fin : ∀ r : List Char × List Char, NB (if v0 ≠ 0 then printFrac F up base F.f v0 (2 ^ F.f) (r.2 ++ r.1 ++ ['.']) else Pure.pure (r.2 ++ r.1)) := by
    intro r
    split
    · exact hk _ _ (by omega) (by omega)
    · exact NB.ok _
  split
  · exact NB.bind (NB.ok _) fun r _ => fin r
  · exact NB.bind (printInt_nb F hF up base h2 h16 _ _ _ _ r1) fun r _ => fin r


/-- A product that is stored or undefined: unsigned storage, and signed storage of at least 32 bits. -/
theorem prod_nonneg (F : FxTy) (hF : F.Valid) (h : F.T.signed = false ∨ 32 ≤ F.T.bits) {p z : Int} (hz : 0 ≤ z)
    (e : arith F.P z = .ok p) : 0 ≤ F.T.wrap p := by
  have hr := IntTy.wrap_inRange (t := F.T) p hF.tpos
  rcases hs : F.T.signed with _ | _
  · have := hr.1
    unfold IntTy.lo at this
    simpa [hs] using this
  · have hb : 32 ≤ F.T.bits := by simpa [hs] using h
    rw [hF.p_eq hb, arith_signed hs] at e
    split at e
    · rename_i hi
      cases e
      rw [IntTy.wrap_of_inRange hF.tpos hi]; exact hz
    · cases e

theorem frac_nb_any (F : FxTy) (hF : F.Valid) (h1 : F.T.InRange (2 ^ F.f)) (h : F.T.signed = false ∨ 32 ≤ F.T.bits) (up : Bool) (b : Int) (h2 : 2 ≤ b) (h16 : b ≤ 16)
    (v : Int) (out : List Char) (v0 : 0 ≤ v) (hv : v < 2 ^ F.f) : NB (printFrac F up b F.f v (2 ^ F.f) out) := by
  have hp : (0 : Int) < 2 ^ F.f := by positivity
  have hlo := lo_nonpos F.T
  have hD : F.D = F.P := PN.D_eq ⟨hF, h1⟩
  refine printFrac_nb F hF up b h2 h16 (fun v dv => 0 ≤ v ∧ F.T.InRange v ∧ 0 < dv ∧ F.T.InRange dv) ?_ _ _ _ _
    ⟨v0, ⟨by omega, by have := h1.2; omega⟩, hp, h1⟩
  rintro v dv ⟨a1, a2, a3, a4⟩
  have md : ∀ a c : Int, 0 ≤ a → F.T.InRange a → 0 < c → 0 ≤ a % c ∧ F.T.InRange (a % c) := by
    intro a c ha hr hc
    have e1 := Int.emod_nonneg a hc.ne'
    have e2 := Int.emod_add_mul_ediv a c
    have e3 := mul_nonneg hc.le (Int.ediv_nonneg ha hc.le)
    exact ⟨e1, by omega, by have := hr.2; omega⟩
  refine ⟨a1, a2, a3, a4, fun hz => ?_, fun _ p e => ?_⟩
  · have q0 : 0 < dv / b := Int.ediv_pos_of_pos_of_dvd a3 (by omega) (Int.dvd_of_emod_eq_zero hz)
    have q1 := Int.ediv_le_self b a3.le
    have := md v (dv / b) a1 a2 q0
    exact ⟨this.1, this.2, q0, by omega, by have := a4.2; omega⟩
  · rw [hD] at e
    have k := prod_nonneg F hF h (mul_nonneg a1 (by omega)) e
    have := md _ dv k (IntTy.wrap_inRange _ hF.tpos) a3
    exact ⟨k, this.1, this.2, a3, a4⟩

theorem frac_nb_room (F : FxTy) (hF : F.Valid) (h1 : F.T.InRange (10 * 2 ^ F.f)) (up : Bool)
    (v : Int) (out : List Char) (v0 : 0 ≤ v) (hv : v < 2 ^ F.f) : NB (printFrac F up 10 F.f v (2 ^ F.f) out) := by
  have hp : (0 : Int) < 2 ^ F.f := by positivity
  have hlo := lo_nonpos F.T
  have hhi := h1.2
  have hone : F.T.InRange (2 ^ F.f) := ⟨by omega, by omega⟩
  have hD : F.D = F.P := PN.D_eq ⟨hF, hone⟩
  refine printFrac_nb F hF up 10 (by norm_num) (by norm_num) (fun v dv => 0 ≤ v ∧ v < dv ∧ dv ≤ 2 ^ F.f) ?_ _ _ _ _ ⟨v0, hv, le_refl _⟩
  rintro v dv ⟨a1, a2, a3⟩
  refine ⟨a1, ⟨by omega, by omega⟩, by omega, ⟨by omega, by omega⟩, fun hz => ?_, fun _ p e => ?_⟩
  · have := Int.emod_nonneg v (show dv / 10 ≠ 0 by omega)
    have := Int.emod_lt_of_pos v (show 0 < dv / 10 by omega)
    exact ⟨by omega, by omega, by omega⟩
  · have hr : F.T.InRange (v * 10) := ⟨by omega, by omega⟩
    rw [hD, arith_of_inRange hF.ppos (IntTy.inRange_promote hF.tpos hr)] at e
    cases e
    rw [IntTy.wrap_of_inRange hF.tpos hr]
    have := Int.emod_nonneg (v * 10) (show dv ≠ 0 by omega)
    have := Int.emod_lt_of_pos (v * 10) (show 0 < dv by omega)
    exact ⟨by omega, by omega, by omega, by omega⟩

theorem frac_nb_pow (F : FxTy) (hF : F.Valid) (h1 : F.T.InRange (2 ^ F.f)) (up : Bool) (k : Nat) (k1 : 1 ≤ k) (k4 : k ≤ 4)
    (v : Int) (out : List Char) (v0 : 0 ≤ v) (hv : v < 2 ^ F.f) : NB (printFrac F up (2 ^ k) F.f v (2 ^ F.f) out) := by
  have hlo := lo_nonpos F.T
  have hhi := h1.2
  have h127 : 127 ≤ F.T.hi := by
    obtain ⟨⟨b, s⟩, I, f, r⟩ := F
    have hb := hF.1
    dsimp only at hb
    rcases hb with rfl | rfl | rfl | rfl <;> cases s <;> simp [IntTy.hi]
  have hD : F.D = F.P := PN.D_eq ⟨hF, h1⟩
  have k2 : (2 : Int) ≤ 2 ^ k := by
    calc (2 : Int) = 2 ^ 1 := by norm_num
      _ ≤ 2 ^ k := pow_le_pow_right₀ (by norm_num) k1
  have k16 : (2 : Int) ^ k ≤ 16 := by
    calc (2 : Int) ^ k ≤ 2 ^ 4 := pow_le_pow_right₀ (by norm_num) k4
      _ = 16 := by norm_num
  refine printFrac_nb F hF up (2 ^ k) k2 k16 (fun v dv => ∃ j, j ≤ F.f ∧ dv = 2 ^ j ∧ 0 ≤ v ∧ v < 2 ^ j) ?_ _ _ _ _ ⟨F.f, le_refl _, rfl, v0, hv⟩
  rintro v dv ⟨j, hj, rfl, a1, a2⟩
  have hp : (0 : Int) < 2 ^ j := by positivity
  have hjf : (2 : Int) ^ j ≤ 2 ^ F.f := pow_le_pow_right₀ (by norm_num) hj
  refine ⟨a1, ⟨by omega, by omega⟩, hp, ⟨by omega, by omega⟩, fun hz => ?_, fun hz p e => ?_⟩
  · have hkj : k ≤ j := by
      by_contra c
      have : (2 : Int) ^ j < 2 ^ k := pow_lt_pow_right₀ (by norm_num) (by omega)
      rw [Int.emod_eq_of_lt hp.le this] at hz
      omega
    have hq : (2 : Int) ^ j / 2 ^ k = 2 ^ (j - k) := by
      rw [← Nat.sub_add_cancel hkj, pow_add, Nat.add_sub_cancel]
      exact Int.mul_ediv_cancel _ (by positivity)
    have hp' : (0 : Int) < 2 ^ (j - k) := by positivity
    rw [hq]
    exact ⟨j - k, by omega, rfl, Int.emod_nonneg _ hp'.ne', Int.emod_lt_of_pos _ hp'⟩
  · have hkj : j < k := by
      by_contra c
      apply hz
      exact Int.emod_eq_zero_of_dvd (pow_dvd_pow 2 (by omega))
    have hs : v * 2 ^ k ≤ 127 := by
      interval_cases k <;> interval_cases j <;> norm_num at a2 ⊢ <;> omega
    have hs0 : 0 ≤ v * 2 ^ k := mul_nonneg a1 (by positivity)
    have hr : F.T.InRange (v * 2 ^ k) := ⟨by omega, by omega⟩
    rw [hD, arith_of_inRange hF.ppos (IntTy.inRange_promote hF.tpos hr)] at e
    cases e
    rw [IntTy.wrap_of_inRange hF.tpos hr]
    exact ⟨hs0, j, hj, rfl, Int.emod_nonneg _ hp.ne', Int.emod_lt_of_pos _ hp⟩


theorem digitsLoop_nb (up : Bool) (b : Int) (h2 : 2 ≤ b) (h16 : b ≤ 16) : ∀ n u acc, NB (digitsLoop up b n u acc) := by
  intro n
  induction n with
  | zero => intro u acc h; cases h
  | succ n ih =>
    intro u acc
    unfold digitsLoop
    split
    · have := Int.emod_nonneg u (show b ≠ 0 by omega)
      have := Int.emod_lt_of_pos u (show 0 < b by omega)
      exact NB.bind (digitAt_nb up (by omega) (by omega)) fun c _ => ih _ _
    · exact NB.ok _

theorem unsignedMag_nb (V : IntTy) (v : Int) : NB (unsignedMag V v) := by
  unfold unsignedMag
  split
  · split
    · exact NB.bind (NB.arith _ _) fun _ _ => NB.bind (NB.arith _ _) fun _ _ => NB.ok _
    · exact NB.ok _
  · exact NB.ok _

theorem intToString_nb (V : IntTy) (v b : Int) (h2 : 2 ≤ b) (h16 : b ≤ 16) (up : Bool) : NB (intToString V v b up) := by
  unfold intToString
  split
  · exact NB.ok _
  · exact NB.bind (unsignedMag_nb V v) fun _ _ => digitsLoop_nb up b h2 h16 _ _ _

theorem integralPart_nb (F : FxTy) (x : Int) : NB (integralPart F x) := by
  unfold integralPart
  dsimp only
  split
  · exact NB.bind (NB.arith _ _) fun _ _ => NB.bind (NB.ok _) fun _ _ => NB.bind (NB.shr _ _ _) fun _ _ => NB.ok _
  · exact NB.bind (NB.ok _) fun _ _ => NB.bind (NB.shr _ _ _) fun _ _ => NB.ok _

/-- The fraction loop of `std::format`. -/
theorem fracLoop_nb (F : FxTy) (hF : F.Valid) (h1 : F.T.InRange (2 ^ F.f)) (h : F.T.signed = false ∨ 32 ≤ F.T.bits ∨ F.T.InRange (10 * 2 ^ F.f))
    (up : Bool) (ep : Int) : ∀ n b used out, 0 ≤ b → b < 2 ^ F.f → NB (fracLoop F up ep n b used out) := by
  have hp : (0 : Int) < 2 ^ F.f := by positivity
  have hlo := lo_nonpos F.T
  have hhi := h1.2
  intro n
  induction n with
  | zero => intro b used out _ _; exact NB.ok _
  | succ n ih =>
    intro b used out b0 b1
    unfold fracLoop
    split
    · split
      · exact NB.ok _
      · refine NB.bind (NB.arith _ _) fun s hs => NB.bind (NB.shr _ _ _) fun d hd => NB.bind (NB.arith _ _) fun m hm => ?_
        have em : m = 2 ^ F.f - 1 := by
          rw [PN.one_eq ⟨hF, h1⟩, arith_of_inRange hF.ppos (IntTy.inRange_promote hF.tpos ⟨by omega, by omega⟩)] at hm
          cases hm; rfl
        have hw : 0 ≤ F.T.wrap s ∧ F.T.wrap s ≤ b * 10 := by
          by_cases hr : F.T.InRange (b * 10)
          · rw [arith_of_inRange hF.ppos (IntTy.inRange_promote hF.tpos hr)] at hs
            cases hs
            rw [IntTy.wrap_of_inRange hF.tpos hr]
            exact ⟨by omega, le_refl _⟩
          · have hc : F.T.signed = false ∨ 32 ≤ F.T.bits := by
              rcases h with h | h | h
              · exact .inl h
              · exact .inr h
              · exact absurd ⟨by omega, by have := h.2; omega⟩ hr
            have k := prod_nonneg F hF hc (show 0 ≤ b * 10 by omega) hs
            refine ⟨k, ?_⟩
            have := (IntTy.wrap_inRange (t := F.T) s hF.tpos).2
            by_contra c
            exact hr ⟨by omega, by omega⟩
        have ed : d = F.T.wrap s / 2 ^ F.f := by
          unfold shr at hd
          split at hd
          · cases hd; rfl
          · cases hd
        have d0 : 0 ≤ d := by rw [ed]; exact Int.ediv_nonneg hw.1 hp.le
        have d9 : d ≤ 9 := by
          rw [ed]
          have : F.T.wrap s / 2 ^ F.f < 10 := Int.ediv_lt_of_lt_mul hp (by omega)
          omega
        have dr : F.T.InRange d := by
          have := (IntTy.wrap_inRange (t := F.T) s hF.tpos).2
          have : d ≤ F.T.wrap s := by rw [ed]; exact Int.ediv_le_self _ hw.1
          exact ⟨by omega, by omega⟩
        rw [IntTy.wrap_of_inRange hF.tpos dr, em, band_lowmask F.P F.f hF.flt_p]
        refine NB.bind (digitAt_nb up d0 (by omega)) fun c _ => ?_
        have e0 := Int.emod_nonneg (F.T.wrap s) hp.ne'
        have e1 := Int.emod_lt_of_pos (F.T.wrap s) hp
        rw [IntTy.wrap_of_inRange hF.tpos ⟨by omega, by omega⟩]
        exact ih _ _ _ e0 e1
    · exact NB.ok _

theorem formatTo_nb (F : FxTy) (hF : F.Valid) (h1 : F.T.InRange (2 ^ F.f)) (h : F.T.signed = false ∨ 32 ≤ F.T.bits ∨ F.T.InRange (10 * 2 ^ F.f))
    (st : FmtState) (x : Int) (hx : Storable F x) : NB (formatTo F st x) := by
  unfold formatTo
  split
  · unfold formatDebug
    refine NB.bind (unsignedMag_nb _ _) fun r _ => ?_
    dsimp only
    refine NB.bind ?_ fun _ _ => NB.ok _
    split
    · exact NB.ok _
    · exact digitsLoop_nb _ _ (by norm_num) (by norm_num) _ _ _
  · have hb : 2 ≤ (fmtMode st.type).2.2 ∧ (fmtMode st.type).2.2 ≤ 16 := by
      unfold fmtMode
      split_ifs <;> norm_num
    generalize fmtMode st.type = md at hb ⊢
    obtain ⟨intOnly, up, base⟩ := md
    dsimp only at hb ⊢
    refine NB.bind (integralPart_nb F x) fun iv _ => NB.bind (intToString_nb _ _ _ hb.1 hb.2 _) fun ds _ => ?_
    cases intOnly
    · rw [if_neg (by decide)]
      obtain ⟨m, hm, -, e⟩ := frac_mag ⟨hF, h1⟩ hx
      have step : ∀ g : Int → Res (List Char), NB (g m) → NB (do
          let fr ← fractionalPart F x
          let fr ← (if F.T.signed && decide (fr < 0) then do
              let n ← arith F.P (-fr)
              Pure.pure (F.T.wrap n)
            else Pure.pure fr : Res Int)
          g fr) := by
        intro g hg
        obtain ⟨fr, e1, e2⟩ := bind_eq_ok.1 e
        rw [e1, Res.bind_ok, e2, Res.bind_ok]
        exact hg
      refine step _ ?_
      refine NB.bind ?_ fun _ _ => NB.ok _
      split
      · exact fracLoop_nb F hF h1 h up _ _ _ _ _ (by omega) (by exact_mod_cast hm)
      · exact NB.ok _
    · rw [if_pos rfl]
      exact NB.ok _


/-- C185, intended: text output never reads outside the digit table. -/
def C185_statement : Prop := ∀ F : FxTy, F.Valid → ∀ x, Storable F x →
  (∀ hex dec oct up, streamOut F x hex dec oct up ≠ .ub .bounds) ∧ ∀ st, formatTo F st x ≠ .ub .bounds

theorem streamOut_nb (F : FxTy) (hF : F.Valid) (h1 : F.T.InRange (2 ^ F.f)) {x : Int} (hx : Storable F x) (hex dec oct up : Bool)
    (h : F.T.signed = false ∨ 32 ≤ F.T.bits ∨ F.T.InRange (10 * 2 ^ F.f) ∨ streamBase hex dec oct ≠ 10) : NB (streamOut F x hex dec oct up) := by
  unfold streamOut
  have hb : streamBase hex dec oct = 2 ^ 1 ∨ streamBase hex dec oct = 2 ^ 3 ∨ streamBase hex dec oct = 2 ^ 4 ∨ streamBase hex dec oct = 10 := by
    cases hex <;> cases dec <;> cases oct <;> decide
  generalize streamBase hex dec oct = b at h hb ⊢
  rcases hb with rfl | rfl | rfl | rfl
  · exact copyAsChars_nb F hF h1 hx _ (by norm_num) (by norm_num) up fun v out a c => frac_nb_pow F hF h1 up 1 (by norm_num) (by norm_num) v out a c
  · exact copyAsChars_nb F hF h1 hx _ (by norm_num) (by norm_num) up fun v out a c => frac_nb_pow F hF h1 up 3 (by norm_num) (by norm_num) v out a c
  · exact copyAsChars_nb F hF h1 hx _ (by norm_num) (by norm_num) up fun v out a c => frac_nb_pow F hF h1 up 4 (by norm_num) (by norm_num) v out a c
  · refine copyAsChars_nb F hF h1 hx _ (by norm_num) (by norm_num) up fun v out a c => ?_
    rcases h with h | h | h | h
    · exact frac_nb_any F hF h1 (.inl h) up 10 (by norm_num) (by norm_num) v out a c
    · exact frac_nb_any F hF h1 (.inr h) up 10 (by norm_num) (by norm_num) v out a c
    · exact frac_nb_room F hF h up v out a c
    · exact absurd rfl h

/-- C185, what holds: where the number one exists, no text output reads outside the digit table on unsigned storage, on storage of at least 32 bits,
and on any storage with room for a decimal digit before the point; streaming in base 2, 8 and 16 never does.  Full statement: `C185_statement`;
missing is exactly decimal output of 8- and 16-bit signed storage without room for a digit (`C185_sharp`) and signed storage without an integer bit
(`C185_no_integer_bit`). -/
theorem C185_table_partial (F : FxTy) (hF : F.Valid) (h1 : Storable F (2 ^ F.f)) (x : Int) (hx : Storable F x) :
    (∀ hex dec oct up, F.T.signed = false ∨ 32 ≤ F.T.bits ∨ Storable F (10 * 2 ^ F.f) ∨ streamBase hex dec oct ≠ 10 →
      streamOut F x hex dec oct up ≠ .ub .bounds) ∧
    ∀ st, F.T.signed = false ∨ 32 ≤ F.T.bits ∨ Storable F (10 * 2 ^ F.f) → formatTo F st x ≠ .ub .bounds :=
  ⟨fun hex dec oct up h => streamOut_nb F hF h1 hx hex dec oct up h, fun st h => formatTo_nb F hF h1 h st x hx⟩

-- unsigned 8-bit storage without an integer bit; 16-bit storage with room for a digit
example : (⟨u8, u16, 7, false⟩ : FxTy).Valid ∧ Storable ⟨u8, u16, 7, false⟩ (2 ^ 7) ∧ streamOut ⟨u8, u16, 7, false⟩ 77 false true false false ≠ .ub .bounds ∧
    (⟨i16, i32, 11, false⟩ : FxTy).Valid ∧ Storable ⟨i16, i32, 11, false⟩ (10 * 2 ^ 11) ∧
    formatTo ⟨i16, i32, 11, false⟩ {} 3072 = .ok ['1', '.', '5'] := by decide +kernel

/-- C185: on 8- and 16-bit signed storage without room for a decimal digit, decimal output of some number reads outside the table. -/
theorem C185_sharp (F : FxTy) (hF : F.Valid) (hs : F.T.signed = true) (hn : F.T.bits < 32) (h1 : Storable F (2 ^ F.f)) (hno : ¬ Storable F (10 * 2 ^ F.f)) :
    ∃ x, Storable F x ∧ 0 < x ∧ x < 2 ^ F.f ∧ (∀ oct up, streamOut F x false true oct up = .ub .bounds) ∧ formatTo F {} x = .ub .bounds := by
  obtain ⟨⟨b, s⟩, ⟨ib, is⟩, f, r⟩ := F
  dsimp only at hs hn
  subst hs
  have his : is = true := hF.2.2.2.1
  subst his
  have hib := hF.2.1
  have hb := hF.1
  have hf := hF.flt
  dsimp only at hb hf hib
  replace h1 : IntTy.InRange ⟨b, true⟩ (2 ^ f) := h1
  replace hno : ¬ IntTy.InRange ⟨b, true⟩ (10 * 2 ^ f) := hno
  have hfs : (b = 8 ∧ (f = 4 ∨ f = 5 ∨ f = 6)) ∨ (b = 16 ∧ (f = 12 ∨ f = 13 ∨ f = 14)) := by
    have hb' : b = 8 ∨ b = 16 := by omega
    rcases hb' with rfl | rfl
    · clear hib hF hb hn; left; refine ⟨rfl, ?_⟩; revert h1 hno; interval_cases f <;> decide
    · clear hib hF hb hn; right; refine ⟨rfl, ?_⟩; revert h1 hno; interval_cases f <;> decide
  refine ⟨if b = 8 then 13 else 3277, ?_⟩
  clear hb hn hf h1 hno hF
  rcases hfs with ⟨rfl, rfl | rfl | rfl⟩ | ⟨rfl, rfl | rfl | rfl⟩ <;> rcases hib with rfl | rfl | rfl | rfl <;> cases r <;> decide +kernel

example : (⟨i8, i16, 4, false⟩ : FxTy).Valid ∧ Storable ⟨i8, i16, 4, false⟩ (2 ^ 4) ∧ ¬ Storable ⟨i8, i16, 4, false⟩ (10 * 2 ^ 4) ∧
    streamOut ⟨i8, i16, 4, false⟩ 13 false true false false = .ub .bounds := by decide +kernel

theorem cdiv_of_inRange {t : IntTy} {a b : Int} (hb : b ≠ 0) (h : t.InRange (a.tdiv b)) : cdiv t a b = .ok (a.tdiv b) := by
  unfold cdiv
  rw [if_neg hb, if_neg fun c => c.2 h]

theorem cmod_of_inRange {t : IntTy} {a b : Int} (hb : b ≠ 0) (h : t.InRange (a.tdiv b)) : cmod t a b = .ok (a.tmod b) := by
  unfold cmod
  rw [if_neg hb, if_neg fun c => c.2 h]

theorem D_signed (F : FxTy) (hF : F.Valid) (hs : F.T.signed = true) {z : Int} (h : F.T.InRange z) : F.D.InRange z ∧ F.D.wrap z = z ∧ arith F.D z = .ok z := by
  obtain ⟨⟨b, s⟩, I, f, r⟩ := F
  have hb := hF.1
  dsimp only at hb h hs
  subst hs
  unfold FxTy.D
  dsimp only
  have key : 0 < (IntTy.common ⟨b, true⟩ i32).bits ∧ (IntTy.common ⟨b, true⟩ i32).InRange z := by
    rcases hb with rfl | rfl | rfl | rfl <;>
    · obtain ⟨h1, h2⟩ := h
      norm_num [IntTy.hi] at h2
      norm_num [IntTy.lo] at h1
      norm_num [IntTy.InRange, IntTy.common, IntTy.promote, IntTy.lo, IntTy.hi]
      omega
  exact ⟨key.2, IntTy.wrap_of_inRange key.1 key.2, arith_of_inRange key.1 key.2⟩

theorem digitAt_neg (up : Bool) {d : Int} (h : d < 0) : digitAt up d = .ub .bounds := by
  unfold digitAt
  rw [if_pos h]

/-- The fraction loop with the divisor `-(2 ^ j)`. -/
theorem printFrac_neg (F : FxTy) (hF : F.Valid) (hs : F.T.signed = true) (up : Bool) (k : Nat) (k1 : 1 ≤ k) (k4 : k ≤ 4) : ∀ n j v out, j ≤ n →
    j < F.T.bits → 0 < v → v < 2 ^ j → printFrac F up (2 ^ k) n v (-(2 ^ j)) out = .ub .bounds := by
  intro n
  induction n with
  | zero =>
    intro j v out hj _ a1 a2
    have : j = 0 := by omega
    subst this
    norm_num at a2
    omega
  | succ n ih =>
    intro j v out hj hjb a1 a2
    have hb := hF.1
    have hlo : F.T.lo = -(2 ^ (F.T.bits - 1)) := by unfold IntTy.lo; simp [hs]
    have hhi : F.T.hi = 2 ^ (F.T.bits - 1) - 1 := by unfold IntTy.hi; simp [hs]
    have hjp : (2 : Int) ^ j ≤ 2 ^ (F.T.bits - 1) := pow_le_pow_right₀ (by norm_num) (by omega)
    have inr : ∀ z : Int, -(2 ^ j) ≤ z → z < 2 ^ j → F.T.InRange z := fun z _ _ => ⟨by omega, by omega⟩
    have p0 : (0 : Int) < 2 ^ j := by positivity
    have q0 : (0 : Int) < 2 ^ k := by positivity
    have h64 : (128 : Int) ≤ 2 ^ (F.T.bits - 1) := by
      calc (128 : Int) = 2 ^ 7 := by norm_num
        _ ≤ _ := pow_le_pow_right₀ (by norm_num) (by omega)
    have k16 : (2 : Int) ^ k ≤ 16 := by
      calc (2 : Int) ^ k ≤ 2 ^ 4 := pow_le_pow_right₀ (by norm_num) k4
        _ = 16 := by norm_num
    have small : ∀ z : Int, -128 ≤ z → z ≤ 127 → F.T.InRange z := fun z _ _ => ⟨by omega, by omega⟩
    have toP : ∀ {z : Int}, F.T.InRange z → F.P.InRange z := fun h => IntTy.inRange_promote hF.tpos h
    have wT : ∀ {z : Int}, F.T.InRange z → F.T.wrap z = z := fun h => IntTy.wrap_of_inRange hF.tpos h
    have dN := D_signed F hF hs (inr (-(2 ^ j)) (le_refl _) (by omega))
    have dV := D_signed F hF hs (inr v (by omega) a2)
    unfold printFrac
    rw [if_neg a1.ne', dN.2.1, dV.2.1]
    have dq : ((-(2 ^ j) : Int)).tdiv (2 ^ k) = -(2 ^ j / 2 ^ k) := by
      rw [Int.neg_tdiv, Int.tdiv_eq_ediv_of_nonneg p0.le]
    have dm : ((-(2 ^ j) : Int)).tmod (2 ^ k) = -(2 ^ j % 2 ^ k) := by
      rw [Int.neg_tmod, Int.tmod_eq_emod_of_nonneg p0.le]
    have e1 : (0 : Int) ≤ 2 ^ j / 2 ^ k := Int.ediv_nonneg p0.le q0.le
    have e2 : (2 : Int) ^ j / 2 ^ k ≤ 2 ^ j := Int.ediv_le_self _ p0.le
    have ir : F.D.InRange ((-(2 ^ j) : Int).tdiv (2 ^ k)) := by
      rw [dq]; exact (D_signed F hF hs (inr _ (by omega) (by omega))).1
    rw [cmod_of_inRange q0.ne' ir, Res.bind_ok, dm]
    have dig : ∀ q : Int, 0 ≤ q → q < 2 ^ k → cmod F.D (F.D.wrap (-q)) (2 ^ k) = .ok (-q) := by
      intro q g0 g1
      have h1 := D_signed F hF hs (small (-q) (by omega) (by omega))
      have t0 : (-q).tdiv (2 ^ k) = 0 := by
        rw [Int.neg_tdiv, Int.tdiv_eq_ediv_of_nonneg g0, Int.ediv_eq_zero_of_lt g0 g1, neg_zero]
      rw [h1.2.1, cmod_of_inRange q0.ne' (by rw [t0]; exact (D_signed F hF hs (small 0 (by norm_num) (by norm_num))).1),
        Int.neg_tmod, Int.tmod_eq_emod_of_nonneg g0, Int.emod_eq_of_lt g0 g1]
    have vdiv : ∀ (a : Int) (i : Nat), 0 ≤ a → F.T.InRange a → F.T.InRange (-a) → cdiv F.P a (-(2 ^ i)) = .ok (-(a / 2 ^ i)) ∧
        cmod F.P a (-(2 ^ i)) = .ok (a % 2 ^ i) := by
      intro a i ha hr hn
      have pi : (0 : Int) < 2 ^ i := by positivity
      have t : a.tdiv (-(2 ^ i)) = -(a / 2 ^ i) := by rw [Int.tdiv_neg, Int.tdiv_eq_ediv_of_nonneg ha]
      have m : a.tmod (-(2 ^ i)) = a % 2 ^ i := by rw [Int.tmod_neg, Int.tmod_eq_emod_of_nonneg ha]
      have g0 := Int.ediv_nonneg ha pi.le
      have g1 := Int.ediv_le_self (2 ^ i) ha
      have rr : F.P.InRange (a.tdiv (-(2 ^ i))) := by
        rw [t]; exact toP ⟨by have := hn.1; omega, by have := hr.2; have := lo_nonpos F.T; omega⟩
      exact ⟨by rw [cdiv_of_inRange (by omega) rr, t], by rw [cmod_of_inRange (by omega) rr, m]⟩
    by_cases hkj : k ≤ j
    · have hz : (2 : Int) ^ j % 2 ^ k = 0 := Int.emod_eq_zero_of_dvd (pow_dvd_pow 2 hkj)
      have hq : (2 : Int) ^ j / 2 ^ k = 2 ^ (j - k) := by
        conv_lhs => rw [← Nat.sub_add_cancel hkj, pow_add]
        exact Int.mul_ediv_cancel _ q0.ne'
      have pq : (0 : Int) < 2 ^ (j - k) := by positivity
      have pe : (2 : Int) ^ j = 2 ^ k * 2 ^ (j - k) := by rw [← pow_add, Nat.add_sub_cancel' hkj]
      rw [if_pos (by rw [hz]; norm_num), cdiv_of_inRange q0.ne' ir, Res.bind_ok, dq, hq, wT (inr _ (by omega) (by omega))]
      obtain ⟨c1, c2⟩ := vdiv v (j - k) a1.le (inr v (by omega) a2) (inr (-v) (by omega) (by omega))
      have g0 : 0 ≤ v / 2 ^ (j - k) := Int.ediv_nonneg a1.le pq.le
      have g1 : v / 2 ^ (j - k) < 2 ^ k := Int.ediv_lt_of_lt_mul pq (by omega)
      rw [Res.pure_eq, Res.bind_ok]
      dsimp only
      rw [c1, Res.bind_ok, dig _ g0 g1, Res.bind_ok]
      by_cases hq0 : v / 2 ^ (j - k) = 0
      · have hlt : v < 2 ^ (j - k) := by
          by_contra c
          have := Int.ediv_pos_of_pos_of_dvd (a := 2 ^ (j - k)) (b := 2 ^ (j - k)) pq pq.le (dvd_refl _)
          have h3 := Int.ediv_le_ediv pq (show (2 : Int) ^ (j - k) ≤ v by omega)
          omega
        have hz0 : digitAt up (-(v / 2 ^ (j - k))) = .ok '0' := by rw [hq0]; cases up <;> rfl
        rw [hz0, Res.bind_ok, c2, Res.bind_ok, Int.emod_eq_of_lt a1.le hlt, wT (inr v (by omega) a2)]
        exact ih (j - k) v _ (by omega) (by omega) a1 hlt
      · rw [digitAt_neg up (by omega), Res.bind_ub]
    · have hlt : (2 : Int) ^ j < 2 ^ k := pow_lt_pow_right₀ (by norm_num) (by omega)
      rw [if_neg (by rw [Int.emod_eq_of_lt p0.le hlt]; omega)]
      have hkk : (2 : Int) ^ k = 2 ^ (k - j) * 2 ^ j := by rw [← pow_add, Nat.sub_add_cancel (by omega)]
      have hsm : v * 2 ^ k ≤ 127 := by
        have hj3 : j ≤ 3 := by omega
        clear dN dV dq dm ir dig e1 e2 hkk
        interval_cases k <;> interval_cases j <;> norm_num at a2 ⊢ <;> omega
      have hs0 : 0 < v * 2 ^ k := mul_pos a1 q0
      have hr := small (v * 2 ^ k) (by omega) hsm
      rw [(D_signed F hF hs hr).2.2, Res.bind_ok, Res.pure_eq, Res.bind_ok, wT hr]
      dsimp only
      obtain ⟨c1, c2⟩ := vdiv (v * 2 ^ k) j hs0.le hr (small _ (by omega) (by omega))
      have hqq : v * 2 ^ k / 2 ^ j = v * 2 ^ (k - j) := by
        rw [hkk, ← mul_assoc]; exact Int.mul_ediv_cancel _ p0.ne'
      have g0 : 0 < v * 2 ^ (k - j) := by positivity
      have g1 : v * 2 ^ (k - j) < 2 ^ k := by
        rw [hkk, mul_comm]
        exact mul_lt_mul_of_pos_left a2 (by positivity)
      rw [c1, Res.bind_ok, hqq, dig _ g0.le g1, Res.bind_ok, digitAt_neg up (by omega), Res.bind_ub]

theorem copyAsChars_no_integer_bit (F : FxTy) (hF : F.Valid) (hs : F.T.signed = true) (hf : F.f + 1 = F.T.bits) {x : Int} (hx : Storable F x) (h0 : x ≠ 0)
    (hm : x ≠ F.T.lo) (up : Bool) (k : Nat) (k1 : 1 ≤ k) (k4 : k ≤ 4) : copyAsChars F x (2 ^ k) up = .ub .bounds := by
  have p0 : (0 : Int) < 2 ^ F.f := by positivity
  have hlo : F.T.lo = -(2 ^ F.f) := by unfold IntTy.lo; simp [hs, ← hf]
  have hhi : F.T.hi = 2 ^ F.f - 1 := by unfold IntTy.hi; simp [hs, ← hf]
  have hmask : signbitMask F = -(2 ^ F.f) := by rw [signbitMask_eq hF hs, ← hf]; rfl
  obtain ⟨x1, x2⟩ := hx
  have toP : ∀ {z : Int}, F.T.InRange z → F.P.InRange z := fun h => IntTy.inRange_promote hF.tpos h
  have wT : ∀ {z : Int}, F.T.InRange z → F.T.wrap z = z := fun h => IntTy.wrap_of_inRange hF.tpos h
  have ed : ∃ d, shl F.T 1 F.f = .ok d ∧ F.T.wrap d = -(2 ^ F.f) := by
    refine ⟨F.P.wrap (2 ^ F.f), ?_, ?_⟩
    · unfold shl
      rw [if_pos hF.flt_p, one_mul]
    · have : F.f = F.T.bits - 1 := by omega
      rw [← hmask, this]; rfl
  obtain ⟨d, e1, e2⟩ := ed
  have esh : ∀ v : Int, 0 ≤ v → v < 2 ^ F.f → shr F.T v F.f = .ok 0 := by
    intro v v0 v1
    unfold shr
    rw [if_pos hF.flt_p, Int.ediv_eq_zero_of_lt v0 v1]
  have w0 : F.T.wrap 0 = 0 := wT ⟨by omega, by omega⟩
  have es : ∃ sg, printSign F x = .ok (sg, 0, |x|) := by
    unfold printSign
    rw [if_neg (by rw [hmask, ← hlo]; exact hm)]
    by_cases hneg : x < 0
    · have hr : F.T.InRange (-x) := ⟨by omega, by omega⟩
      rw [if_pos hneg, arith_of_inRange hF.ppos (toP hr), Res.bind_ok, wT hr, esh _ (by omega) (by omega), Res.bind_ok, w0, abs_of_neg hneg]
      exact ⟨_, rfl⟩
    · rw [if_neg hneg, esh _ (by omega) (by omega), Res.bind_ok, w0, abs_of_nonneg (by omega)]
      exact ⟨_, rfl⟩
  obtain ⟨sg, es⟩ := es
  have a0 : 0 < |x| := abs_pos.2 h0
  have a1 : |x| < 2 ^ F.f := abs_lt.2 ⟨by omega, by omega⟩
  have t0 : |x|.tdiv (-(2 ^ F.f)) = 0 := by rw [Int.tdiv_neg, Int.tdiv_eq_ediv_of_nonneg a0.le, Int.ediv_eq_zero_of_lt a0.le a1, neg_zero]
  have m0 : |x|.tmod (-(2 ^ F.f)) = |x| := by rw [Int.tmod_neg, Int.tmod_eq_emod_of_nonneg a0.le, Int.emod_eq_of_lt a0.le a1]
  unfold copyAsChars
  rw [e1, Res.bind_ok]
  dsimp only
  rw [e2, es, Res.bind_ok]
  dsimp only
  rw [cmod_of_inRange (by omega) (by rw [t0]; exact toP ⟨by omega, by omega⟩), Res.bind_ok, m0, wT ⟨by omega, by omega⟩, if_pos rfl, Res.pure_eq, Res.bind_ok]
  dsimp only
  rw [if_pos a0.ne']
  exact printFrac_neg F hF hs up k k1 k4 _ _ _ _ (le_refl _) (by omega) a0 a1

/-- C185: on signed storage without an integer bit, streaming in base 2, 8 or 16 reads outside the table for every number other than zero and the
smallest one. -/
theorem C185_no_integer_bit (F : FxTy) (hF : F.Valid) (hs : F.T.signed = true) (hf : F.f + 1 = F.T.bits) (x : Int) (hx : Storable F x) (h0 : x ≠ 0)
    (hm : x ≠ F.T.lo) (hex dec oct up : Bool) (hb : streamBase hex dec oct ≠ 10) : streamOut F x hex dec oct up = .ub .bounds := by
  unfold streamOut
  have hb : streamBase hex dec oct = 2 ^ 1 ∨ streamBase hex dec oct = 2 ^ 3 ∨ streamBase hex dec oct = 2 ^ 4 := by
    revert hb
    cases hex <;> cases dec <;> cases oct <;> decide
  generalize streamBase hex dec oct = b at hb ⊢
  rcases hb with rfl | rfl | rfl
  · exact copyAsChars_no_integer_bit F hF hs hf hx h0 hm up 1 (by norm_num) (by norm_num)
  · exact copyAsChars_no_integer_bit F hF hs hf hx h0 hm up 3 (by norm_num) (by norm_num)
  · exact copyAsChars_no_integer_bit F hF hs hf hx h0 hm up 4 (by norm_num) (by norm_num)

-- 1/8 with 31 fraction bits in 32-bit storage, in binary
example : (⟨i32, i64, 31, false⟩ : FxTy).Valid ∧ Storable ⟨i32, i64, 31, false⟩ (2 ^ 28) ∧
    streamOut ⟨i32, i64, 31, false⟩ (2 ^ 28) false false false false = .ub .bounds := by decide +kernel

/-- C185 is false: streaming 13/16 from 8-bit storage with 4 fraction bits reads outside the table. -/
theorem C185_false : ¬ C185_statement := by
  intro h
  exact (h ⟨i8, i16, 4, false⟩ (by decide) 13 (by decide)).1 false true false false (by decide +kernel)

end Eirin.Props
