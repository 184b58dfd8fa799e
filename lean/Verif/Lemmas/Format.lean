import Verif.SpecFormat
import Verif.Model.Format
import Verif.Lemmas.Print
import Verif.Lemmas.Parse

/-! # Lemmas about the formatter -/

namespace Eirin
open Spec

theorem digitsLoop_ok (up : Bool) {b : Nat} (hb2 : 2 ≤ b) (hb16 : b ≤ 16) :
    ∀ (fuel n : Nat) (acc : List Char), n < 2 ^ fuel →
      digitsLoop up b (fuel + 1) n acc = .ok ((Nat.digits b n).reverse.map (digitOf up) ++ acc) := by
  intro fuel
  induction fuel with
  | zero =>
    intro n acc hn
    have : n = 0 := by simpa using hn
    subst this
    unfold digitsLoop
    rw [if_neg (by simp)]; simp
  | succ fuel ih =>
    intro n acc hn
    unfold digitsLoop
    by_cases h0 : n = 0
    · subst h0
      rw [if_neg (by simp)]; simp
    · rw [if_pos (by exact_mod_cast Nat.pos_of_ne_zero h0)]
      have hl : n % b < 16 := lt_of_lt_of_le (Nat.mod_lt _ (by omega)) hb16
      rw [← Int.natCast_mod, digitAt_eq up hl, Res.bind_ok, ← Int.natCast_div, ih (n / b)]
      · rw [Nat.digits_def' (by omega) (Nat.pos_of_ne_zero h0)]
        simp
      · have h1 : n / b ≤ n / 2 := Nat.div_le_div_left hb2 (by norm_num)
        have : n / 2 < 2 ^ fuel := by rw [pow_succ] at hn; omega
        omega

theorem natText_spec {b : Nat} (hb : 2 ≤ b) (up : Bool) (n : Nat) : IsNatText b up (natText b up n) n := by
  unfold natText IsNatText
  by_cases h0 : n = 0
  · subst h0
    refine ⟨[0], ?_, by simp; omega, Or.inl rfl, by simp [digitsVal]⟩
    simp [digitOf]
  · rw [if_neg h0]
    refine ⟨(Nat.digits b n).reverse, rfl, ?_, noLeadingZero_digits hb h0, ?_⟩
    · intro d hd
      exact Nat.digits_lt_base (by omega) (List.mem_reverse.1 hd)
    · rw [digitsVal_reverse, Nat.ofDigits_digits]

theorem digitOf_inj (up : Bool) {a b : Nat} (ha : a < 16) (hb : b < 16) (h : digitOf up a = digitOf up b) : a = b := by
  revert h
  interval_cases a <;> interval_cases b <;> cases up <;> decide

theorem map_digitOf_inj (up : Bool) : ∀ {l m : List Nat}, (∀ d ∈ l, d < 16) → (∀ d ∈ m, d < 16) →
    l.map (digitOf up) = m.map (digitOf up) → l = m
  | [], [], _, _, _ => rfl
  | [], _ :: _, _, _, h => by simp at h
  | _ :: _, [], _, _, h => by simp at h
  | a :: l, b :: m, hl, hm, h => by
    simp only [List.map_cons, List.cons.injEq] at h
    rw [digitOf_inj up (hl a (by simp)) (hm b (by simp)) h.1,
      map_digitOf_inj up (fun d hd => hl d (by simp [hd])) (fun d hd => hm d (by simp [hd])) h.2]

theorem natText_inj {b : Nat} (hb : 2 ≤ b) (hb16 : b ≤ 16) (up : Bool) {m n : Nat} (h : natText b up m = natText b up n) : m = n := by
  obtain ⟨ds, e1, l1, _, v1⟩ := natText_spec hb up m
  obtain ⟨es, e2, l2, _, v2⟩ := natText_spec hb up n
  rw [e1, e2] at h
  have := map_digitOf_inj up (fun d hd => lt_of_lt_of_le (l1 d hd) hb16) (fun d hd => lt_of_lt_of_le (l2 d hd) hb16) h
  rw [← v1, ← v2, this]

/-- Promotion preserves values. -/
theorem inRange_promote {V : IntTy} (hV : 0 < V.bits) {v : Int} (h : V.InRange v) : V.promote.InRange v := by
  unfold IntTy.promote
  split
  · rename_i hb
    obtain ⟨h1, h2⟩ := h
    have e : (2 : Int) ^ V.bits ≤ 2 ^ 31 := pow_le_pow_right₀ (by norm_num) (by omega)
    have e' : (2 : Int) ^ (V.bits - 1) ≤ 2 ^ 31 := pow_le_pow_right₀ (by norm_num) (by omega)
    unfold IntTy.lo at h1; unfold IntTy.hi at h2
    have l : (i32).lo = -2 ^ 31 := by decide
    have u : (i32).hi = 2 ^ 31 - 1 := by decide
    unfold IntTy.InRange
    rw [l, u]
    have p0 : (0 : Int) < 2 ^ V.bits := by positivity
    have p1 : (0 : Int) < 2 ^ (V.bits - 1) := by positivity
    cases hs : V.signed <;> simp only [hs, if_true, if_false, Bool.false_eq_true] at h1 h2 <;> omega
  · exact h

theorem unsignedMag_ok {V : IntTy} (hV : 0 < V.bits) {v : Int} (h : V.InRange v) :
    unsignedMag V v = .ok (decide (v < 0), (v.natAbs : Int)) := by
  have hp : 0 < V.promote.bits := by unfold IntTy.promote; split <;> [decide; exact hV]
  have hu : 0 < V.unsigned.bits := hV
  obtain ⟨h1, h2⟩ := h
  unfold IntTy.lo at h1; unfold IntTy.hi at h2
  have e2 : (2 : Int) ^ V.bits = 2 * 2 ^ (V.bits - 1) := by
    rw [← pow_succ']; congr 1; omega
  have p1 : (0 : Int) < 2 ^ (V.bits - 1) := by positivity
  have ur : ∀ {n : Int}, 0 ≤ n → n < 2 ^ V.bits → V.unsigned.wrap n = n := by
    intro n a b
    apply IntTy.wrap_of_inRange hu
    unfold IntTy.InRange IntTy.lo IntTy.hi IntTy.unsigned
    simp only [Bool.false_eq_true, if_false]; omega
  unfold unsignedMag
  cases hs : V.signed
  · simp only [hs, Bool.false_eq_true, if_false] at h1 h2 ⊢
    rw [ur h1 (by omega)]
    simp only [Res.pure_eq]
    rw [decide_eq_false (by omega), Int.natAbs_of_nonneg h1]
  · simp only [hs, if_true] at h1 h2 ⊢
    have rr : ∀ {n : Int}, -(2 ^ (V.bits - 1)) ≤ n → n < 2 ^ (V.bits - 1) → V.InRange n := by
      intro n a b
      unfold IntTy.InRange IntTy.lo IntTy.hi
      simp only [hs, if_true]; omega
    by_cases h0 : v < 0
    · rw [if_pos h0, arith_of_inRange hp (inRange_promote hV (rr (n := v + 1) (by omega) (by omega))), Res.bind_ok,
        arith_of_inRange hp (inRange_promote hV (rr (n := -(v + 1)) (by omega) (by omega))), Res.bind_ok,
        ur (n := -(v + 1)) (by omega) (by omega), ur (n := -(v + 1) + 1) (by omega) (by omega), decide_eq_true h0]
      simp only [Res.pure_eq]
      congr 2; omega
    · rw [if_neg h0, ur (by omega) (by omega), decide_eq_false h0]
      simp only [Res.pure_eq]
      congr 2; omega

theorem natAbs_lt {V : IntTy} (hV : 0 < V.bits) {v : Int} (h : V.InRange v) : v.natAbs < 2 ^ V.bits := by
  obtain ⟨h1, h2⟩ := h
  unfold IntTy.lo at h1; unfold IntTy.hi at h2
  have e2 : (2 : Int) ^ V.bits = 2 * 2 ^ (V.bits - 1) := by
    rw [← pow_succ']; congr 1; omega
  have p1 : (0 : Int) < 2 ^ (V.bits - 1) := by positivity
  zify
  cases hs : V.signed <;> simp only [hs, if_true, if_false, Bool.false_eq_true] at h1 h2 <;> rw [abs_lt] <;> constructor <;> omega

theorem intToString_ok {V : IntTy} (hV : 0 < V.bits) {v : Int} (h : V.InRange v) (up : Bool) {b : Nat} (hb2 : 2 ≤ b) (hb16 : b ≤ 16) :
    intToString V v b up = .ok (natText b up v.natAbs) := by
  unfold intToString natText
  by_cases h0 : v = 0
  · subst h0; simp
  · rw [if_neg h0, if_neg (by omega), unsignedMag_ok hV h, Res.bind_ok]
    simp only []
    rw [digitsLoop_ok up hb2 hb16 _ _ _ (natAbs_lt hV h), List.append_nil]

theorem appendSign_eq (st : FmtState) (s : List Char) (neg : Bool) : appendSign st s neg = s ++ signText st.sign neg := by
  unfold appendSign signText
  by_cases h1 : st.sign = '+'
  · cases neg <;> simp [h1]
  · by_cases h2 : st.sign = ' '
    · cases neg <;> simp [h2]
    · cases neg <;> simp [h1, h2]

theorem appendAltPrefix_eq (s : List Char) (b : Nat) (up : Bool) : appendAltPrefix s b up = s ++ baseText b up := by
  unfold appendAltPrefix baseText
  by_cases h2 : b = 2
  · subst h2; cases up <;> simp
  · by_cases h8 : b = 8
    · subst h8; simp
    · by_cases h16 : b = 16
      · subst h16; cases up <;> simp
      · have a2 : ¬ (b : Int) = 2 := by omega
        have a8 : ¬ (b : Int) = 8 := by omega
        have a16 : ¬ (b : Int) = 16 := by omega
        simp [*]

/-! ### The fraction loop -/

theorem PN.fracLoop_ok {F : FxTy} (h : PN F) (hfit : 10 * (2 : Int) ^ F.f ≤ F.T.hi) (up : Bool) (eff : Nat) :
    ∀ (n m used : Nat) (out : List Char), n ≤ F.f → m < 2 ^ F.f → 2 ^ (F.f - n) ∣ m → used ≤ eff →
      ∃ ds, fracLoop F up eff n m used out = .ok (out ++ ds.map (digitOf up), ((used + ds.length : Nat) : Int)) ∧
        TruncDigits (eff - used) ((m : ℚ) / 2 ^ F.f) ds ∧ (m ≠ 0 → used < eff → ds ≠ []) := by
  have hq : (0 : ℚ) < 2 ^ F.f := by positivity
  have dn : (0 : Nat) < 2 ^ F.f := by positivity
  have base : ∀ (k : Nat), TruncDigits k ((0 : Nat) / 2 ^ F.f) [] := by
    intro k
    refine ⟨by simp [Decimal], by simp, by simp [fracVal], by simp [fracVal], by simp [fracVal], by simp⟩
  intro n
  induction n with
  | zero =>
    intro m used out _ hm hdiv _
    have : m = 0 := Nat.eq_zero_of_dvd_of_lt hdiv (by simpa using hm)
    subst this
    refine ⟨[], by simp [fracLoop], base _, by simp⟩
  | succ n ih =>
    intro m used out hn hm hdiv hu
    unfold fracLoop
    by_cases hlt : used < eff
    · rw [if_pos (by exact_mod_cast hlt)]
      by_cases h0 : m = 0
      · subst h0
        refine ⟨[], by simp, base _, by simp⟩
      · rw [if_neg (by exact_mod_cast h0)]
        have r0 := PN.lo_le (F := F)
        have hz : (2 : Int) ^ F.f = ((2 ^ F.f : Nat) : Int) := by push_cast; rfl
        have hfitN : 10 * 2 ^ F.f ≤ F.T.hi.toNat := by
          rw [hz] at hfit; omega
        have hin : ∀ k : Nat, k ≤ 10 * 2 ^ F.f → F.T.InRange (k : Int) := by
          intro k hk
          refine ⟨?_, ?_⟩ <;> omega
        have q10 : m * 10 / 2 ^ F.f < 10 := by
          rw [Nat.div_lt_iff_lt_mul dn]; omega
        have ea : arith F.P ((m : Int) * 10) = .ok ((m * 10 : Nat) : Int) := by
          have := h.arithP_ok (hin (m * 10) (by omega))
          push_cast at this ⊢; exact this
        have es : shr F.T ((m * 10 : Nat) : Int) F.f = .ok ((m * 10 / 2 ^ F.f : Nat) : Int) := by
          unfold shr
          rw [if_pos h.valid.flt_p]
          push_cast; rfl
        have em : arith F.P (oneShl F - 1) = .ok (2 ^ F.f - 1) := by
          rw [h.one_eq]
          have := h.arithP_ok (hin (2 ^ F.f - 1) (by omega))
          have e : ((2 ^ F.f - 1 : Nat) : Int) = 2 ^ F.f - 1 := by
            rw [Nat.cast_sub dn]; push_cast; rfl
          rwa [e] at this
        have eb : band F.P ((m * 10 : Nat) : Int) (2 ^ F.f - 1) = ((m * 10 % 2 ^ F.f : Nat) : Int) := by
          rw [band_lowmask F.P F.f h.valid.flt_p]; push_cast; rfl
        have hml : m * 10 % 2 ^ F.f < 2 ^ F.f := Nat.mod_lt _ dn
        have wx : F.T.wrap ((m * 10 % 2 ^ F.f : Nat) : Int) = ((m * 10 % 2 ^ F.f : Nat) : Int) := h.wrap_ok (hin _ (by omega))
        have wd : F.T.wrap ((m * 10 / 2 ^ F.f : Nat) : Int) = ((m * 10 / 2 ^ F.f : Nat) : Int) := h.wrap_ok (hin _ (by omega))
        have wm : F.T.wrap ((m * 10 : Nat) : Int) = ((m * 10 : Nat) : Int) := h.wrap_ok (hin _ (by omega))
        have hd : 2 ^ (F.f - n) ∣ m * 10 % 2 ^ F.f := by
          apply (Nat.dvd_mod_iff (pow_dvd_pow 2 (Nat.sub_le _ _))).2
          have e : F.f - n = F.f - (n + 1) + 1 := by omega
          rw [e, pow_succ]
          exact Nat.mul_dvd_mul hdiv (by norm_num)
        obtain ⟨ds, e, ⟨t1, t2, t3, t4, t5, t6⟩, _⟩ :=
          ih (m * 10 % 2 ^ F.f) (used + 1) (out ++ [digitOf up (m * 10 / 2 ^ F.f)]) (by omega) hml hd (by omega)
        have ee : fracLoop F up eff n ((m * 10 % 2 ^ F.f : Nat) : Int) ((used : Int) + 1) (out ++ [digitOf up (m * 10 / 2 ^ F.f)]) = _ := e
        refine ⟨(m * 10 / 2 ^ F.f) :: ds, ?_, ⟨?_, ?_, ?_, ?_, ?_, ?_⟩, by simp⟩
        · rw [ea]
          simp only [Res.bind_ok, wm, es, em, eb, wx, wd, digitAt_eq up (show m * 10 / 2 ^ F.f < 16 by omega)]
          rw [ee]
          simp only [List.map_cons, List.append_assoc, List.length_cons, List.singleton_append]
          congr 3; omega
        · intro d hd'
          rcases List.mem_cons.1 hd' with rfl | hd'
          · exact q10
          · exact t1 d hd'
        · simp only [List.length_cons]; omega
        all_goals
          have key : (m : ℚ) / 2 ^ F.f = (((m * 10 / 2 ^ F.f : Nat) : ℚ) + ((m * 10 % 2 ^ F.f : Nat) : ℚ) / 2 ^ F.f) / 10 := by
            have := Nat.div_add_mod (m * 10) (2 ^ F.f)
            have hh : (2 : ℚ) ^ F.f * ((m * 10 / 2 ^ F.f : Nat) : ℚ) + ((m * 10 % 2 ^ F.f : Nat) : ℚ) = m * 10 := by
              exact_mod_cast this
            field_simp
            linarith
          have pe : (1 : ℚ) / 10 ^ (eff - used) = (1 / 10 ^ (eff - (used + 1))) / 10 := by
            rw [show eff - used = eff - (used + 1) + 1 by omega, pow_succ]; field_simp
          simp only [fracVal, Nat.cast_ofNat] at *
        · rw [key]; linarith
        · rw [key, pe]; linarith
        · intro hl
          rw [key, ← t5 (by simp only [List.length_cons] at hl; omega)]
        · intro he d hlast
          rw [key] at he
          have he' : fracVal 10 ds = ((m * 10 % 2 ^ F.f : Nat) : ℚ) / 2 ^ F.f := by linarith
          cases ds with
          | nil =>
            simp only [List.getLast?_singleton, Option.some.injEq] at hlast
            subst hlast
            intro hz0
            simp only [fracVal] at he'
            have : ((m * 10 % 2 ^ F.f : Nat) : ℚ) = 0 := by
              rcases div_eq_zero_iff.1 he'.symm with h | h
              · exact h
              · exact absurd h hq.ne'
            have h3 : m * 10 % 2 ^ F.f = 0 := by exact_mod_cast this
            have := Nat.div_add_mod (m * 10) (2 ^ F.f)
            rw [hz0, h3] at this
            omega
          | cons a ds =>
            rw [List.getLast?_cons_cons] at hlast
            exact t6 he' d hlast
    · rw [if_neg (by exact_mod_cast hlt)]
      refine ⟨[], by simp, ⟨by simp [Decimal], by simp, ?_, ?_, ?_, by simp⟩, fun _ hc => absurd hc hlt⟩
      · simp only [fracVal]; positivity
      · rw [show eff - used = 0 by omega]
        simp only [fracVal, pow_zero, div_one, zero_add]
        rw [div_lt_one hq]
        exact_mod_cast hm
      · simp; omega

theorem fracVal_zeros (b n : Nat) : fracVal b (List.replicate n 0) = 0 := by
  induction n with
  | zero => rfl
  | succ n ih => simp [List.replicate_succ, fracVal, ih]

end Eirin
