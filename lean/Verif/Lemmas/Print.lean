import Mathlib.Data.Nat.Digits.Defs
import Mathlib.Data.Nat.Digits.Lemmas
import Verif.SpecText
import Verif.Model.Print
import Verif.Lemmas.Signed
import Verif.Lemmas.Mixed

/-! # Lemmas about the digit loops of `copy_as_chars_to` -/

namespace Eirin
open Spec

theorem digitAt_eq (up : Bool) {d : Nat} (h : d < 16) : digitAt up (d : Int) = .ok (digitOf up d) := by
  interval_cases d <;> cases up <;> rfl

/-- A type in which one is representable (any width and signedness): the arithmetic of the printer on non-negative values. -/
structure PN (F : FxTy) : Prop where
  valid : F.Valid
  one : Storable F (2 ^ F.f)

theorem SW.pn {F : FxTy} (h : SW F) : PN F := ⟨h.valid, h.one⟩

namespace PN
variable {F : FxTy} (h : PN F)
include h

theorem tpos : 0 < F.T.bits := h.valid.tpos
theorem one_eq : oneShl F = 2 ^ F.f := Props.oneShl_eq F h.valid h.one
theorem d_le : (2 : Int) ^ F.f ≤ F.T.hi := h.one.2
omit h in
theorem lo_le : F.T.lo ≤ 0 := by unfold IntTy.lo; split <;> [exact neg_nonpos.2 (by positivity); exact le_rfl]

theorem D_eq : F.D = F.P := by
  have hb := h.valid.1
  unfold FxTy.D FxTy.P IntTy.common
  rw [show i32.promote = i32 from rfl]
  unfold IntTy.promote
  split
  · rfl
  · rename_i hc
    cases hs : F.T.signed
    · simp only [hs]
      rw [if_neg (by simp), if_neg (by simp), if_pos (by show 32 ≤ F.T.bits; omega)]
    · simp only [hs]
      rw [if_pos trivial]
      by_cases h32 : F.T.bits ≤ 32
      · rw [if_pos h32]
        have : F.T.bits = 32 := by omega
        rcases hT : F.T with ⟨bb, ss⟩
        rw [hT] at this hs; simp only at this hs; rw [this, hs]
      · rw [if_neg h32]

omit h in
theorem nat_in {a c : Nat} (hc : F.T.InRange c) (hac : a ≤ c) : F.T.InRange a := by
  have hz : F.T.lo ≤ 0 := by unfold IntTy.lo; split <;> [exact neg_nonpos.2 (by positivity); exact le_rfl]
  exact ⟨le_trans hz (by exact_mod_cast Nat.zero_le _), le_trans (by exact_mod_cast hac) hc.2⟩

theorem wrap_ok {n : Int} (hn : F.T.InRange n) : F.T.wrap n = n := IntTy.wrap_of_inRange h.tpos hn
theorem inP {n : Int} (hn : F.T.InRange n) : F.P.InRange n := IntTy.inRange_promote h.tpos hn
theorem wrapP_ok {n : Int} (hn : F.T.InRange n) : F.P.wrap n = n := IntTy.wrap_of_inRange h.valid.ppos (h.inP hn)
theorem arithP_ok {n : Int} (hn : F.T.InRange n) : arith F.P n = .ok n := arith_of_inRange h.valid.ppos (h.inP hn)

theorem cmodP_ok {a b : Nat} (ha : F.T.InRange a) (hb : 0 < b) : cmod F.P a b = .ok ((a % b : Nat) : Int) := by
  unfold cmod
  rw [if_neg (by exact_mod_cast hb.ne'), if_neg]
  · rw [Int.ofNat_tmod]
  · rintro ⟨-, hc⟩
    apply hc
    rw [← Int.ofNat_tdiv]
    exact h.inP (nat_in ha (Nat.div_le_self _ _))

theorem cdivP_ok {a b : Nat} (ha : F.T.InRange a) (hb : 0 < b) : cdiv F.P a b = .ok ((a / b : Nat) : Int) := by
  unfold cdiv
  rw [if_neg (by exact_mod_cast hb.ne'), if_neg]
  · rw [Int.ofNat_tdiv]
  · rintro ⟨-, hc⟩
    apply hc
    rw [← Int.ofNat_tdiv]
    exact h.inP (nat_in ha (Nat.div_le_self _ _))

theorem printInt_ok (up : Bool) {b : Nat} (hb2 : 2 ≤ b) (hb16 : b ≤ 16) :
    ∀ (fuel n : Nat) (buf out : List Char), n < 2 ^ fuel → F.T.InRange n → buf.length + fuel < 514 →
      printInt F up b (fuel + 1) n buf out = .ok (((Nat.digits b n).reverse.map (digitOf up)) ++ buf, out) := by
  intro fuel
  induction fuel with
  | zero =>
    intro n buf out hn _ _
    have : n = 0 := by simpa using hn
    subst this
    unfold printInt
    rw [if_neg (by simp)]; simp
  | succ fuel ih =>
    intro n buf out hn hr hlen
    unfold printInt
    by_cases h0 : n = 0
    · subst h0
      rw [if_neg (by simp)]; simp
    · have hb0 : (0 : Int) < b := by exact_mod_cast (by omega : 0 < b)
      rw [if_pos (by exact_mod_cast Nat.pos_of_ne_zero h0)]
      have em : cmod F.P (n : Int) b = .ok ((n % b : Nat) : Int) := h.cmodP_ok hr (by omega)
      have ed : cdiv F.P (n : Int) b = .ok ((n / b : Nat) : Int) := h.cdivP_ok hr (by omega)
      have hq : F.T.InRange ((n / b : Nat) : Int) := nat_in hr (Nat.div_le_self _ _)
      have hl : n % b < 16 := lt_of_lt_of_le (Nat.mod_lt _ (by omega)) hb16
      simp only [h.D_eq, h.wrapP_ok hr, em, ed, Res.bind_ok, digitAt_eq up hl, h.wrap_ok hq]
      rw [if_neg (by simp only [List.length_cons]; omega)]
      rw [ih (n / b) _ _ ?_ hq (by simp only [List.length_cons]; omega)]
      · rw [Nat.digits_def' (by omega) (Nat.pos_of_ne_zero h0)]
        simp
      · have h1 : n / b ≤ n / 2 := Nat.div_le_div_left hb2 (by norm_num)
        have : n / 2 < 2 ^ fuel := by rw [pow_succ] at hn; omega
        omega

theorem printFrac_ok (up : Bool) {b : Nat} (hb2 : 2 ≤ b) (hb16 : b ≤ 16) :
    ∀ (n : Nat) (v dv : Nat) (out : List Char), v < dv → dv ∣ v * b ^ n → F.T.InRange (b * dv : Nat) →
      ∃ fs : List Nat, printFrac F up b n v dv out = .ok (out ++ fs.map (digitOf up)) ∧ (∀ d ∈ fs, d < b) ∧
        fracVal b fs = (v : ℚ) / dv ∧ (v = 0 → fs = []) ∧ (v ≠ 0 → fs ≠ []) ∧ (∀ d, fs.getLast? = some d → d ≠ 0) := by
  intro n
  have hb0 : (0 : Int) < b := by exact_mod_cast (by omega : 0 < b)
  have hbq : (b : ℚ) ≠ 0 := by exact_mod_cast (by omega : b ≠ 0)
  induction n with
  | zero =>
    intro v dv out hv hd _
    have : v = 0 := Nat.eq_zero_of_dvd_of_lt (by simpa using hd) hv
    subst this
    exact ⟨[], by simp [printFrac], by simp, by simp [fracVal], by simp, by simp, by simp⟩
  | succ n ih =>
    intro v dv out hv hd hr
    by_cases h0 : v = 0
    · subst h0
      refine ⟨[], ?_, by simp, by simp [fracVal], by simp, by simp, by simp⟩
      unfold printFrac
      rw [if_pos (by simp)]; simp
    -- common tail: after the scaling step
    have tail : ∀ v1 dv1 : Nat, 0 < dv1 → v1 < b * dv1 → (v1 : ℚ) / dv1 = b * ((v : ℚ) / dv) → dv1 ∣ (v1 % dv1) * b ^ n → dv1 ≤ dv →
        F.T.InRange v1 →
        ∃ fs : List Nat, (do
            let t ← cdiv F.P (v1 : Int) dv1
            let d ← cmod F.P t b
            let c ← digitAt up d
            let v' ← cmod F.P (v1 : Int) dv1
            printFrac F up b n v' dv1 (out ++ [c])) = .ok (out ++ fs.map (digitOf up)) ∧ (∀ d ∈ fs, d < b) ∧
          fracVal b fs = (v : ℚ) / dv ∧ (v = 0 → fs = []) ∧ (v ≠ 0 → fs ≠ []) ∧ (∀ d, fs.getLast? = some d → d ≠ 0) := by
      intro v1 dv1 hd0 hv1 hq hdv hle hr1
      have hd0' : (0 : Int) < dv1 := by exact_mod_cast hd0
      have hdig : v1 / dv1 < b := (Nat.div_lt_iff_lt_mul hd0).2 hv1
      have e1 : cdiv F.P (v1 : Int) dv1 = .ok ((v1 / dv1 : Nat) : Int) := h.cdivP_ok hr1 hd0
      have hq1 : F.T.InRange ((v1 / dv1 : Nat) : Int) := nat_in hr1 (Nat.div_le_self _ _)
      have e2 : cmod F.P ((v1 / dv1 : Nat) : Int) b = .ok ((v1 / dv1 : Nat) : Int) := by
        rw [h.cmodP_ok hq1 (by omega), Nat.mod_eq_of_lt hdig]
      have e3 := digitAt_eq up (lt_of_lt_of_le hdig hb16)
      have e4 : cmod F.P (v1 : Int) dv1 = .ok ((v1 % dv1 : Nat) : Int) := h.cmodP_ok hr1 hd0
      have hrd : F.T.InRange (b * dv1 : Nat) := nat_in hr (Nat.mul_le_mul_left b hle)
      obtain ⟨fs, f1, f2, f3, f4, f5, f6⟩ := ih (v1 % dv1) dv1 (out ++ [digitOf up (v1 / dv1)]) (Nat.mod_lt _ hd0) hdv hrd
      simp only [e1, e2, e3, e4, Res.bind_ok]
      have hdq : (dv1 : ℚ) ≠ 0 := by exact_mod_cast hd0.ne'
      have hval : fracVal b ((v1 / dv1) :: fs) = (v : ℚ) / dv := by
        unfold fracVal
        rw [f3, div_eq_iff hbq, mul_comm, ← hq, eq_div_iff hdq, add_mul, div_mul_cancel₀ _ hdq]
        have := Nat.div_add_mod v1 dv1
        have : ((dv1 * (v1 / dv1) + v1 % dv1 : Nat) : ℚ) = v1 := by exact_mod_cast this
        push_cast at this ⊢
        linarith
      refine ⟨(v1 / dv1) :: fs, by rw [f1]; simp, ?_, hval, fun hv0 => absurd hv0 h0, by simp, ?_⟩
      · intro d hd
        rcases List.mem_cons.1 hd with rfl | hd
        · exact hdig
        · exact f2 d hd
      · intro d hd
        by_cases hfs : fs = []
        · subst hfs
          simp only [List.getLast?_singleton, Option.some.injEq] at hd
          subst hd
          intro hz
          have hpos : (0 : ℚ) < (v : ℚ) / dv := by
            have : (0 : ℚ) < v := by exact_mod_cast Nat.pos_of_ne_zero h0
            have : (0 : ℚ) < dv := by exact_mod_cast (by omega : 0 < dv)
            positivity
          rw [← hval, hz] at hpos
          simp [fracVal] at hpos
        · rw [List.getLast?_cons_of_ne_nil hfs] at hd
          exact f6 d hd
    have hdv0 : 0 < dv := by omega
    have hdvR : F.T.InRange dv := nat_in hr (Nat.le_mul_of_pos_left dv (by omega))
    have hvR : F.T.InRange v := nat_in hdvR hv.le
    have em : cmod F.P (dv : Int) b = .ok ((dv % b : Nat) : Int) := h.cmodP_ok hdvR (by omega)
    have step : ∀ v1 dv1 : Nat, 0 < dv1 → F.T.InRange v1 → dv1 ≤ dv → (do
            let t ← cdiv F.P (v1 : Int) dv1
            let d ← cmod F.D (F.D.wrap t) b
            let c ← digitAt up d
            let v' ← cmod F.P (v1 : Int) dv1
            printFrac F up b n (F.T.wrap v') dv1 (out ++ [c])) = (do
            let t ← cdiv F.P (v1 : Int) dv1
            let d ← cmod F.P t b
            let c ← digitAt up d
            let v' ← cmod F.P (v1 : Int) dv1
            printFrac F up b n v' dv1 (out ++ [c])) := by
      intro v1 dv1 hd0 hr1 hle
      have hd0' : (0 : Int) < dv1 := by exact_mod_cast hd0
      have e1 : cdiv F.P (v1 : Int) dv1 = .ok ((v1 / dv1 : Nat) : Int) := h.cdivP_ok hr1 hd0
      have hq1 : F.T.InRange ((v1 / dv1 : Nat) : Int) := nat_in hr1 (Nat.div_le_self _ _)
      have e4 : cmod F.P (v1 : Int) dv1 = .ok ((v1 % dv1 : Nat) : Int) := h.cmodP_ok hr1 hd0
      have hm : F.T.InRange ((v1 % dv1 : Nat) : Int) := nat_in hr1 (Nat.mod_le _ _)
      rw [h.D_eq]
      simp only [e1, e4, Res.bind_ok, h.wrapP_ok hq1, h.wrap_ok hm]
    unfold printFrac
    rw [if_neg (by exact_mod_cast h0)]
    simp only [h.D_eq, h.wrapP_ok hdvR, em, Res.bind_ok]
    by_cases hc : b ∣ dv
    · rw [if_pos (by exact_mod_cast Nat.mod_eq_zero_of_dvd hc)]
      obtain ⟨k, rfl⟩ := hc
      have hk0 : 0 < k := Nat.pos_of_mul_pos_left hdv0
      have ed : cdiv F.P ((b * k : Nat) : Int) b = .ok (k : Int) := by
        rw [h.cdivP_ok hdvR (by omega), Nat.mul_div_cancel_left _ (by omega)]
      have hkR : F.T.InRange k := nat_in hdvR (Nat.le_mul_of_pos_left k (by omega))
      simp only [ed, Res.bind_ok, Res.pure_eq, h.wrap_ok hkR]
      have hs := step v k hk0 hvR (Nat.le_mul_of_pos_left k (by omega))
      simp only [h.D_eq] at hs
      rw [hs]
      have hkq : (k : ℚ) ≠ 0 := by exact_mod_cast hk0.ne'
      refine tail v k hk0 hv ?_ ?_ (Nat.le_mul_of_pos_left k (by omega)) hvR
      · push_cast; field_simp
      · have h1 : k ∣ v * b ^ n := by
          have : b * k ∣ b * (v * b ^ n) := by
            have e : v * b ^ (n + 1) = b * (v * b ^ n) := by ring
            rwa [e] at hd
          exact Nat.dvd_of_mul_dvd_mul_left (by omega) this
        have h2 : v % k * b ^ n ≡ v * b ^ n [MOD k] := (Nat.mod_modEq v k).mul_right _
        exact (Nat.modEq_zero_iff_dvd.1 (h2.trans (Nat.modEq_zero_iff_dvd.2 h1)))
    · rw [if_neg (by intro hh; exact hc (Nat.dvd_of_mod_eq_zero (by exact_mod_cast hh)))]
      have hvb : v * b < b * dv := by rw [mul_comm b dv]; exact Nat.mul_lt_mul_of_pos_right hv (by omega)
      have hvbR : F.T.InRange ((v * b : Nat) : Int) := nat_in hr hvb.le
      have ea : arith F.P ((v : Int) * b) = .ok ((v * b : Nat) : Int) := by
        rw [← h.arithP_ok hvbR]; rfl
      simp only [h.wrapP_ok hvR, ea, Res.bind_ok, Res.pure_eq, h.wrap_ok hvbR]
      have hs := step (v * b) dv hdv0 hvbR le_rfl
      simp only [h.D_eq] at hs
      rw [hs]
      have hdq : (dv : ℚ) ≠ 0 := by exact_mod_cast hdv0.ne'
      refine tail (v * b) dv hdv0 hvb ?_ ?_ le_rfl hvbR
      · push_cast; field_simp
      · have h2 : v * b % dv * b ^ n ≡ v * b * b ^ n [MOD dv] := (Nat.mod_modEq _ dv).mul_right _
        have h1 : dv ∣ v * b * b ^ n := by rw [mul_assoc, ← pow_succ']; exact hd
        exact (Nat.modEq_zero_iff_dvd.1 (h2.trans (Nat.modEq_zero_iff_dvd.2 h1)))

end PN

theorem digitsVal_reverse (b : Nat) (l : List Nat) : digitsVal b l.reverse = Nat.ofDigits b l := by
  unfold digitsVal
  rw [List.foldl_reverse]
  induction l with
  | nil => rfl
  | cons d l ih => rw [List.foldr_cons, ih, Nat.ofDigits_cons]; push_cast; ring

theorem noLeadingZero_digits {b n : Nat} (hb : 2 ≤ b) (hn : n ≠ 0) : NoLeadingZero (Nat.digits b n).reverse := by
  right
  have hne : Nat.digits b n ≠ [] := Nat.digits_ne_nil_iff_ne_zero.2 hn
  have hl := Nat.getLast_digit_ne_zero b hn
  refine ⟨(Nat.digits b n).getLast hne, (Nat.digits b n).dropLast.reverse, ?_, hl⟩
  conv_lhs => rw [← List.dropLast_append_getLast hne]
  simp

end Eirin
