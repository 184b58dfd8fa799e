import Verif.Model.ParseWide
import Verif.Props.Istream

/-!
# C98: `detail::parse` on code units other than ASCII characters
-/

namespace Eirin.Props
open Eirin Eirin.Spec

/-- C98 as stated: text that contains a code unit other than the ten digits, the point and a leading minus sign is not accepted. -/
def C98_statement : Prop :=
  ∀ (s : List Int) (old : Int), (∀ u ∈ s, 0 ≤ u ∧ u < 65536) → (∃ u ∈ s, ¬ (48 ≤ u ∧ u ≤ 57) ∧ u ≠ 46 ∧ u ≠ 45) →
    ∀ v, parseWide fixed32 s old ≠ .ok (true, v)

/-- It does not hold: `L"ı"` (a Turkish letter whose low byte is that of `1`) is accepted as the number 257. -/
theorem C98_false : ¬ C98_statement := by
  intro h
  exact h [0x131] 0 (by decide) ⟨0x131, by decide, by decide⟩ (257 * 65536) (by decide +kernel)

theorem wrap8 (u : Int) (h0 : 0 ≤ u) (h1 : u < 128) : (IntTy.mk 8 true).wrap u = u :=
  IntTy.wrap_of_inRange (by decide) ⟨by show (-128 : Int) ≤ u; omega, by show u ≤ (127 : Int); omega⟩

theorem checkCh_char (c : Char) (h : c.toNat < 128) : checkCh (c.toNat : Int) = isDigit c := by
  unfold checkCh isDigit
  rw [wrap8 _ (by omega) (by omega)]
  exact decide_eq_decide.2 (by omega)

theorem intStrictW_ascii (W : IntTy) (s : List Char) : ∀ a, Ascii s → intStrictW W (units s) a =
    (intStrict W s a >>= fun r => .ok (r.map fun p => (p.1, units p.2))) := by
  induction s with
  | nil => intro a _; rfl
  | cons c cs ih =>
    intro a hs
    have hc : c.toNat < 128 := hs c (by simp)
    have hcs : Ascii cs := fun d hd => hs d (by simp [hd])
    rw [units_cons]
    unfold intStrictW intStrict
    simp only [unit_dot, checkCh_char c hc]
    by_cases hd : c = '.'
    · simp [hd]
    · simp only [hd, if_false]
      cases hg : isDigit c with
      | false => simp
      | true =>
        simp only [Bool.not_true, Bool.false_eq_true, if_false, accUnit_char W a c hg]
        cases accDigit W a c with
        | ub u => rfl
        | throw e => rfl
        | ok a' => rw [Res.bind_ok, Res.bind_ok, ih a' hcs]

theorem fracStrictW_ascii (W : IntTy) (lim : Int) (s : List Char) : ∀ a b, Ascii s → fracStrictW W lim (units s) a b =
    (fracStrict W lim s a b >>= fun r => .ok (r.map fun p => (p.1, p.2.1, units p.2.2))) := by
  induction s with
  | nil => intro a b _; rfl
  | cons c cs ih =>
    intro a b hs
    have hc : c.toNat < 128 := hs c (by simp)
    have hcs : Ascii cs := fun d hd => hs d (by simp [hd])
    rw [units_cons]
    unfold fracStrictW fracStrict
    simp only [checkCh_char c hc]
    cases hg : isDigit c with
    | false => simp
    | true =>
      simp only [Bool.not_true, Bool.false_eq_true, if_false, accUnit_char W a c hg]
      by_cases hl : a > lim
      · simp [hl]
      · simp only [hl, if_false]
        cases accDigit W a c with
        | ub u => rfl
        | throw e => rfl
        | ok a' =>
          rw [Res.bind_ok, Res.bind_ok]
          cases mulTen W b with
          | ub u => rfl
          | throw e => rfl
          | ok b' => rw [Res.bind_ok, Res.bind_ok, ih a' b' hcs]

theorem takeSignW_ascii (s : List Char) : takeSignW (units s) = ((takeSign s).1, units (takeSign s).2) := by
  cases s with
  | nil => rfl
  | cons c cs =>
    rw [units_cons]
    unfold takeSignW takeSign
    simp only [unit_minus]
    by_cases h : c = '-'
    · simp [h]
    · simp [h]

theorem ascii_takeSign {s : List Char} (h : Ascii s) : Ascii (takeSign s).2 := by
  cases s with
  | nil => exact h
  | cons c cs =>
    by_cases hc : c = '-'
    · have e : takeSign (c :: cs) = (true, cs) := if_pos hc
      rw [e]
      exact fun d hd => h d (List.mem_cons_of_mem _ hd)
    · have e : takeSign (c :: cs) = (false, c :: cs) := if_neg hc
      rw [e]
      exact h

theorem intStrict_ascii {W : IntTy} (s : List Char) : ∀ a ip rest, Ascii s → intStrict W s a = .ok (some (ip, rest)) → Ascii rest := by
  induction s with
  | nil => intro a ip rest _ h; cases h; intro c hc; cases hc
  | cons c cs ih =>
    intro a ip rest hs h
    unfold intStrict at h
    split at h
    · cases h; exact hs
    split at h
    · cases h
    · cases hq : accDigit W a c with
      | ub u => rw [hq] at h; cases h
      | throw e => rw [hq] at h; cases h
      | ok a' =>
        rw [hq, Res.bind_ok] at h
        exact ih a' ip rest (fun d hd => hs d (by simp [hd])) h

/-- C98 (partial): on ASCII text the template does the same for every character type as for `char`, so everything proved of `detail::parse` (C47 to C51)
applies.  Missing from the full statement: other code units (`C98_false`, `C98_single`). -/
theorem C98_ascii_partial (F : FxTy) (s : List Char) (hs : Ascii s) (old : Int) : parseWide F (units s) old = parseDetail F s old := by
  unfold parseWide parseDetail
  rw [takeSignW_ascii]
  have ha := ascii_takeSign hs
  generalize takeSign s = ts at ha ⊢
  obtain ⟨n, t⟩ := ts
  dsimp only at ha ⊢
  rw [intStrictW_ascii F.I t 0 ha]
  cases hi : intStrict F.I t 0 with
  | ub u => rfl
  | throw e => rfl
  | ok o =>
    rw [Res.bind_ok, Res.bind_ok, Res.bind_ok]
    cases o with
    | none => rfl
    | some pr =>
      obtain ⟨ip, rest⟩ := pr
      have hr := intStrict_ascii t 0 ip rest ha hi
      dsimp only [Option.map_some]
      cases rest with
      | nil => rfl
      | cons c cs =>
        by_cases hd : c = '.'
        · subst hd
          have e : units ('.' :: cs) = 46 :: units cs := rfl
          rw [e]
          show (fracStrictW F.I (limDetail F) (units cs) 0 1 >>= _) = (fracStrict F.I (limDetail F) cs 0 1 >>= _)
          rw [fracStrictW_ascii F.I _ cs 0 1 (fun d hd => hr d (by simp [hd]))]
          cases fracStrict F.I (limDetail F) cs 0 1 with
          | ub u => rfl
          | throw e => rfl
          | ok o =>
            rw [Res.bind_ok, Res.bind_ok, Res.bind_ok]
            cases o with
            | none => rfl
            | some t => rfl
        · have hne : (c.toNat : Int) ≠ 46 := fun h => hd ((unit_dot c).1 h)
          rw [units_cons]
          split
          · rename_i us heq
            exact absurd (List.cons.inj heq).1 hne
          · split
            · rename_i cs' heq
              exact absurd (List.cons.inj heq).1 hd
            · rfl
example : parseWide fixed64 (units "-2.5".toList) 0 = .ok (true, -5 * 2 ^ 31) := by decide +kernel

/-- C98: bytes of a non-ASCII character in a signed `char` string are rejected: a text that begins (after the sign and digits) with a negative code
unit above `-129` is not accepted. -/
theorem C98_bytes (F : FxTy) (u : Int) (us : List Int) (h : -128 ≤ u ∧ u < 0) (old : Int) : parseWide F (u :: us) old = .ok (false, old) := by
  have hw : checkCh u = false := by
    unfold checkCh
    rw [IntTy.wrap_of_inRange (by decide) ⟨by show (-128 : Int) ≤ u; omega, by show u ≤ (127 : Int); omega⟩]
    exact decide_eq_false (by omega)
  have hts : takeSignW (u :: us) = (false, u :: us) := if_neg (by omega)
  unfold parseWide
  rw [hts]
  dsimp only
  unfold intStrictW
  rw [if_neg (by omega), hw]
  rfl
example : parseWide fixed32 [-61, -87] 7 = .ok (false, 7) := C98_bytes fixed32 (-61) [-87] (by omega) 7

/-- C98: what a single wide code unit is taken for: accepted exactly when its low byte is that of a digit, and then as the number `u - 48`, if it
fits. -/
theorem C98_single (u : Int) (h0 : 0 ≤ u) (h1 : u < 2 ^ 15) (h46 : u ≠ 46) (h45 : u ≠ 45) (old : Int) :
    parseWide fixed32 [u] old = if 48 ≤ u % 256 ∧ u % 256 ≤ 57 then .ok (true, (u - 48) * 2 ^ 16) else .ok (false, old) := by
  have hw : checkCh u = decide (48 ≤ u % 256 ∧ u % 256 ≤ 57) := by
    unfold checkCh
    have e : (IntTy.mk 8 true).wrap u = if 128 ≤ u % 256 then u % 256 - 256 else u % 256 := by
      have hm := Int.emod_nonneg u (show (256 : Int) ≠ 0 by norm_num)
      have hm2 := Int.emod_lt_of_pos u (show (0 : Int) < 256 by norm_num)
      have key : ∀ w : Int, -128 ≤ w → w ≤ 127 → (256 : Int) ∣ u - w → (IntTy.mk 8 true).wrap u = w := by
        intro w hl hh hd
        have h1 : (IntTy.mk 8 true).wrap u = (IntTy.mk 8 true).wrap w := IntTy.wrap_congr (by exact_mod_cast hd)
        rw [h1]
        exact IntTy.wrap_of_inRange (by decide) ⟨hl, hh⟩
      split
      · exact key _ (by omega) (by omega) (by omega)
      · exact key _ (by omega) (by omega) (by omega)
    rw [e]
    have hm := Int.emod_nonneg u (show (256 : Int) ≠ 0 by norm_num)
    have hm2 := Int.emod_lt_of_pos u (show (0 : Int) < 256 by norm_num)
    split
    · exact decide_eq_decide.2 (by omega)
    · rfl
  have hts : takeSignW [u] = (false, [u]) := if_neg h45
  unfold parseWide
  rw [hts]
  dsimp only
  unfold intStrictW
  rw [if_neg h46, hw]
  by_cases hd : 48 ≤ u % 256 ∧ u % 256 ≤ 57
  · rw [if_pos hd, decide_eq_true hd]
    have hge : 48 ≤ u := by omega
    obtain ⟨n, hn⟩ : ∃ n : Nat, u = n + 48 := ⟨(u - 48).toNat, by omega⟩
    have hn15 : n < 2 ^ 15 := by omega
    have ha : accUnit fixed32.I 0 u = .ok (n : Int) := by
      have e1 : arith (fixed32.I.common i32) (0 * 10) = .ok 0 := by decide
      have e2 : arith i32 (u - 48) = .ok (n : Int) := by
        rw [show u - 48 = (n : Int) by omega]
        exact arith_of_inRange (by decide) ⟨by show (-2147483648 : Int) ≤ n; omega, by show (n : Int) ≤ 2147483647; omega⟩
      have hr : (IntTy.mk 64 true).InRange (n : Int) :=
        ⟨by show (-9223372036854775808 : Int) ≤ n; omega, by show (n : Int) ≤ 9223372036854775807; omega⟩
      have e3 : arith (fixed32.I.common i32) (0 + (n : Int)) = .ok (n : Int) := by
        rw [zero_add]; exact arith_of_inRange (by decide) hr
      have e4 : fixed32.I.wrap (n : Int) = n := IntTy.wrap_of_inRange (by decide) hr
      unfold accUnit
      rw [e1, Res.bind_ok, e2, Res.bind_ok, e3, Res.bind_ok, e4, Res.pure_eq]
    have hs : shl fixed32.I (n : Int) fixed32.f = .ok ((n * 2 ^ 16 : Nat) : Int) := by
      refine ws64.shl_ok (by decide) ?_
      show ((n * 2 ^ 16 : Nat) : Int) ≤ 9223372036854775807
      push_cast; omega
    have hw2 : fixed32.I.wrap ((n * 2 ^ 16 : Nat) : Int) = ((n * 2 ^ 16 : Nat) : Int) := by
      refine ws64.wrap_nat ?_
      show ((n * 2 ^ 16 : Nat) : Int) ≤ 9223372036854775807
      push_cast; omega
    have hst : storeParsed fixed32 false ((n * 2 ^ 16 : Nat) : Int) old = .ok (true, ((n * 2 ^ 16 : Nat) : Int)) := by
      rw [storeParsed_nat ps32, if_pos]
      · rfl
      · show ((n * 2 ^ 16 : Nat) : Int) ≤ 2147483647
        push_cast; omega
    have hfin : ((n * 2 ^ 16 : Nat) : Int) = (u - 48) * 2 ^ 16 := by rw [hn]; push_cast; ring
    simp only [Bool.not_true, Bool.false_eq_true, if_false]
    rw [ha, Res.bind_ok]
    unfold intStrictW
    rw [Res.bind_ok]
    dsimp only
    rw [hs, Res.bind_ok, hw2, hst, hfin]
  · rw [if_neg hd, decide_eq_false hd]
    rfl
example : parseWide fixed32 [0x4e35] 7 = .ok (true, 19973 * 65536) := by decide +kernel

end Eirin.Props
