import Mathlib.Data.Nat.Prime.Basic
import Verif.Props.Print

/-! # Property C88: which types can be printed in decimal. -/

namespace Eirin.Props
open Spec

/-- C88: for *every* storage type — any width, signed or unsigned — with room for one decimal digit above the fraction, the decimal text
is the exact numeral of the value; the single exception is the unsigned value whose only set bit is the top one.
Full statement: without `hu` (for unsigned types `C88_unsigned_statement`, refuted below). -/
theorem C88_every_storage_partial (F : FxTy) (hF : F.Valid) (hfit : 10 * 2 ^ F.f ≤ F.T.hi) (x : Int) (hx : Storable F x)
    (hu : F.T.signed = true ∨ x ≠ 2 ^ (F.T.bits - 1)) (up : Bool) :
    ∃ s, copyAsChars F x 10 up = .ok s ∧ IsNumeral 10 up s (val F x) := by
  have hp : (0 : Int) < 2 ^ F.f := by positivity
  have hlo : F.T.lo ≤ 0 := by unfold IntTy.lo; split <;> [exact neg_nonpos.2 (by positivity); exact le_rfl]
  have h : PN F := ⟨hF, ⟨by omega, by omega⟩⟩
  exact print_numeral h (b := 10) (by norm_num) (by norm_num) (by norm_num) ⟨by push_cast; omega, by push_cast; omega⟩ up hx hu

example : copyAsChars ⟨i8, i16, 3, false⟩ (-128) 10 false = .ok "-16".toList ∧ (⟨i8, i16, 3, false⟩ : FxTy).Valid ∧
    10 * 2 ^ 3 ≤ i8.hi ∧ copyAsChars ⟨i8, i16, 3, false⟩ (-127) 10 false = .ok "-15.875".toList ∧
    copyAsChars ⟨u32, u64, 16, false⟩ (2 ^ 32 - 1) 10 false = .ok "65535.9999847412109375".toList ∧
    copyAsChars ⟨u16, u32, 8, false⟩ 65535 10 false = .ok "255.99609375".toList := by decide +kernel

theorem bind_eq_ok {α β : Type} {a : Res α} {k : α → Res β} {r : β} : (a >>= k) = .ok r ↔ ∃ x, a = .ok x ∧ k x = .ok r := by
  cases a with
  | ok x => simp
  | ub u => simp
  | throw e => simp

theorem printInt_prefix (F : FxTy) (up : Bool) (b : Int) : ∀ (fuel : Nat) (ip : Int) (buf out : List Char) (r : List Char × List Char),
    printInt F up b fuel ip buf out = .ok r → out <+: r.2 := by
  intro fuel
  induction fuel with
  | zero => intro ip buf out r h; simp [printInt] at h
  | succ fuel ih =>
    intro ip buf out r h
    unfold printInt at h
    by_cases h0 : ip > 0
    · rw [if_pos h0] at h
      obtain ⟨d, -, h⟩ := bind_eq_ok.1 h
      obtain ⟨c, -, h⟩ := bind_eq_ok.1 h
      obtain ⟨q, -, h⟩ := bind_eq_ok.1 h
      by_cases hl : (c :: buf).length = 514
      · rw [if_pos hl] at h
        exact (List.prefix_append _ _).trans (ih _ _ _ _ h)
      · rw [if_neg hl] at h
        exact ih _ _ _ _ h
    · rw [if_neg h0] at h; cases h; exact List.prefix_refl _

theorem printFrac_prefix (F : FxTy) (up : Bool) (b : Int) : ∀ (n : Nat) (v dv : Int) (out r : List Char),
    printFrac F up b n v dv out = .ok r → out <+: r := by
  intro n
  induction n with
  | zero => intro v dv out r h; simp [printFrac] at h; exact h ▸ List.prefix_refl _
  | succ n ih =>
    intro v dv out r h
    unfold printFrac at h
    by_cases h0 : v = 0
    · rw [if_pos h0] at h; cases h; exact List.prefix_refl _
    · rw [if_neg h0] at h
      obtain ⟨m, -, h⟩ := bind_eq_ok.1 h
      have tail : ∀ (v1 dv1 : Int), (do
          let t ← cdiv F.P v1 dv1
          let d ← cmod F.D (F.D.wrap t) b
          let c ← digitAt up d
          let v' ← cmod F.P v1 dv1
          printFrac F up b n (F.T.wrap v') dv1 (out ++ [c])) = .ok r → out <+: r := by
        intro v1 dv1 h
        obtain ⟨t, -, h⟩ := bind_eq_ok.1 h
        obtain ⟨d, -, h⟩ := bind_eq_ok.1 h
        obtain ⟨c, -, h⟩ := bind_eq_ok.1 h
        obtain ⟨w, -, h⟩ := bind_eq_ok.1 h
        exact (List.prefix_append _ _).trans (ih _ _ _ _ h)
      by_cases hm : m = 0
      · rw [if_pos hm] at h
        obtain ⟨⟨v1, dv1⟩, -, h⟩ := bind_eq_ok.1 h
        exact tail _ _ h
      · rw [if_neg hm] at h
        obtain ⟨⟨v1, dv1⟩, -, h⟩ := bind_eq_ok.1 h
        exact tail _ _ h

/-- Whatever is printed begins with the sign. -/
theorem print_sign (F : FxTy) (x b : Int) (up : Bool) (sg : List Char) (ip v : Int) (s : List Char)
    (hs : printSign F x = .ok (sg, ip, v)) (h : copyAsChars F x b up = .ok s) : sg <+: s := by
  unfold copyAsChars at h
  obtain ⟨d0, -, h⟩ := bind_eq_ok.1 h
  rw [hs] at h
  simp only [Res.bind_ok] at h
  obtain ⟨v0, -, h⟩ := bind_eq_ok.1 h
  have fin : ∀ out buf : List Char, sg <+: out →
      (if F.T.wrap v0 ≠ 0 then printFrac F up b F.f (F.T.wrap v0) (F.T.wrap d0) (out ++ buf ++ ['.']) else pure (out ++ buf)) = .ok s →
      sg <+: s := by
    intro out buf hp h
    have hp' : sg <+: out ++ buf := hp.trans (List.prefix_append _ _)
    by_cases hv : F.T.wrap v0 ≠ 0
    · rw [if_pos hv] at h
      exact (hp'.trans (List.prefix_append _ _)).trans (printFrac_prefix F up b _ _ _ _ _ h)
    · rw [if_neg hv] at h; cases h; exact hp'
  by_cases hi : ip = 0
  · rw [if_pos hi] at h
    simp only [Res.pure_eq, Res.bind_ok] at h
    exact fin _ _ (List.prefix_append _ _) h
  · rw [if_neg hi] at h
    obtain ⟨⟨buf, out⟩, h1, h⟩ := bind_eq_ok.1 h
    exact fin out buf (printInt_prefix F up b _ _ _ _ _ h1) h

/-- C88 as one would state it for unsigned types: every value prints as its numeral. -/
def C88_unsigned_statement : Prop :=
  ∀ F : FxTy, F.Valid → F.T.signed = false → 10 * 2 ^ F.f ≤ F.T.hi → ∀ x, Storable F x →
    ∃ s, copyAsChars F x 10 false = .ok s ∧ IsNumeral 10 false s (val F x)

/-- C88: in every unsigned type the value `2^(bits-1)` is mistaken for the most negative number: whatever is printed for it (in any
base) starts with a minus sign, so it is not the numeral of the value. -/
theorem C88_unsigned_minus (F : FxTy) (hF : F.Valid) (hu : F.T.signed = false) (b : Int) (up : Bool) (s : List Char)
    (h : copyAsChars F (2 ^ (F.T.bits - 1)) b up = .ok s) : s.head? = some '-' ∧ ∀ b' : Nat, b' ≤ 16 → ¬ IsNumeral b' up s (val F (2 ^ (F.T.bits - 1))) := by
  have hs : printSign F (2 ^ (F.T.bits - 1)) = (do
      let s ← shr F.T (2 ^ (F.T.bits - 1)) F.f
      let i ← arith F.P (cnot F.P s + 1)
      pure (['-'], F.T.wrap i, 0)) := by
    unfold printSign; rw [if_pos (signbitMask_unsigned hF hu).symm]
  have hd : ∃ ip v, printSign F (2 ^ (F.T.bits - 1)) = .ok (['-'], ip, v) := by
    unfold copyAsChars at h
    obtain ⟨d0, -, h⟩ := bind_eq_ok.1 h
    obtain ⟨⟨sg, ip, v⟩, h1, -⟩ := bind_eq_ok.1 h
    rw [hs] at h1
    obtain ⟨a, -, h1'⟩ := bind_eq_ok.1 h1
    obtain ⟨c, -, h1''⟩ := bind_eq_ok.1 h1'
    cases h1''
    exact ⟨_, _, by rw [hs, h1]⟩
  obtain ⟨ip, v, hp⟩ := hd
  obtain ⟨t, ht⟩ := print_sign F _ b up _ ip v s hp h
  have hh : s.head? = some '-' := by rw [← ht]; rfl
  refine ⟨hh, ?_⟩
  rintro b' hb' ⟨is, fs, e, i1, -, i2, -, -⟩
  have hv : ¬ val F (2 ^ (F.T.bits - 1)) < 0 := by rw [← val_zero F, val_lt]; have : (0 : Int) < 2 ^ (F.T.bits - 1) := by positivity
                                                   omega
  rw [if_neg hv] at e
  have hd : ∃ d ds, is = d :: ds := by
    rcases i2 with rfl | ⟨d, ds, rfl, -⟩ <;> exact ⟨_, _, rfl⟩
  obtain ⟨d, ds, rfl⟩ := hd
  rw [e] at hh
  simp only [List.nil_append, List.map_cons, List.cons_append, List.head?_cons, Option.some.injEq] at hh
  have hdl : d < 16 := lt_of_lt_of_le (i1 d (by simp)) hb'
  revert hh
  interval_cases d <;> cases up <;> decide

theorem C88_unsigned_false : ¬ C88_unsigned_statement := by
  intro h
  obtain ⟨s, e, hn⟩ := h ⟨u32, u64, 16, false⟩ (by decide) rfl (by decide) (2 ^ 31) (by decide)
  exact (C88_unsigned_minus ⟨u32, u64, 16, false⟩ (by decide) rfl 10 false s e).2 10 (by norm_num) hn

example : copyAsChars ⟨u32, u64, 16, false⟩ (2 ^ 31) 10 false = .ok "-4294934528".toList ∧
    copyAsChars ⟨u32, u64, 16, false⟩ (2 ^ 31 + 1) 10 false = .ok "32768.0000152587890625".toList := by decide +kernel

/-- C88: for signed storage of at least 32 bits the bound on the fraction is sharp: every value can be printed in decimal exactly when at
least five bits (sign included) are left of the fraction; otherwise the scaling by ten overflows. -/
theorem C88_sharp (F : FxTy) (hF : F.Valid) (hs : SignedWide F) (up : Bool) :
    (∀ x, Storable F x → ∃ s, copyAsChars F x 10 up = .ok s ∧ IsNumeral 10 up s (val F x)) ↔ F.f + 5 ≤ F.T.bits := by
  have hp : (0 : Int) < 2 ^ F.f := by positivity
  have hi : F.T.hi = 2 ^ (F.T.bits - 1) - 1 := by unfold IntTy.hi; simp [hs.1]
  have lo : F.T.lo = -2 ^ (F.T.bits - 1) := by unfold IntTy.lo; simp [hs.1]
  have hB : (0 : Int) < 2 ^ (F.T.bits - 1) := by positivity
  have hT : F.T.promote = F.T := hF.p_eq hs.2
  have hw := hs.2
  constructor
  · intro hall
    by_contra hc
    have hf1 : F.f ≤ F.T.bits - 1 := hF.2.2.2.2.2
    have hfp := hF.fpos
    have hle : (2 : Int) ^ F.f ≤ 2 ^ (F.T.bits - 1) := pow_le_pow_right₀ (by norm_num) hf1
    have hf28 : (2 : Int) ^ 28 ≤ 2 ^ F.f := pow_le_pow_right₀ (by norm_num) (by omega)
    have hbig : (2 : Int) ^ (F.T.bits - 1) ≤ 2 ^ F.f * 8 := by
      rw [show (8 : Int) = 2 ^ 3 by norm_num, ← pow_add]; exact pow_le_pow_right₀ (by norm_num) (by omega)
    have hx : Storable F (2 ^ F.f - 1) := ⟨by rw [lo]; norm_num at hf28; omega, by rw [hi]; omega⟩
    obtain ⟨s, e, -⟩ := hall _ hx
    unfold copyAsChars at e
    obtain ⟨d0, hd0, e⟩ := bind_eq_ok.1 e
    obtain ⟨⟨sg, ip, v⟩, hsg, e⟩ := bind_eq_ok.1 e
    obtain ⟨v0, hv0, e⟩ := bind_eq_ok.1 e
    -- the divisor is `2^f` or `-2^f`
    unfold shl at hd0
    rw [if_pos (by rw [hT]; exact hF.flt), one_mul, hT] at hd0
    cases hd0
    rw [IntTy.wrap_wrap] at hv0 e
    have hdv : F.T.wrap (2 ^ F.f) = 2 ^ F.f ∨ F.T.wrap (2 ^ F.f) = -2 ^ F.f := by
      rcases Nat.lt_or_ge F.f (F.T.bits - 1) with h1 | h1
      · left
        have : (2 : Int) ^ F.f * 2 ≤ 2 ^ (F.T.bits - 1) := by rw [← pow_succ]; exact pow_le_pow_right₀ (by norm_num) (by omega)
        exact IntTy.wrap_of_inRange hF.tpos ⟨by rw [lo]; omega, by rw [hi]; omega⟩
      · right
        have e1 : F.f = F.T.bits - 1 := by omega
        have h2 : F.T.wrap (2 ^ F.f) = F.T.wrap (-2 ^ F.f) := by
          apply IntTy.wrap_congr
          refine ⟨1, ?_⟩
          have := IntTy.two_pow_pred F.T.bits hF.tpos
          rw [e1]; omega
        rw [h2]
        exact IntTy.wrap_of_inRange hF.tpos ⟨by rw [lo, e1], by rw [hi]; omega⟩
    have hm0 : signbitMask F = -(2 ^ (F.T.bits - 1)) := signbitMask_eq hF hs.1
    unfold printSign at hsg
    rw [if_neg (by rw [hm0]; norm_num at hf28; omega), if_neg (by norm_num at hf28; omega)] at hsg
    unfold shr at hsg
    rw [if_pos (by rw [hT]; exact hF.flt), Res.bind_ok] at hsg
    have hz : ((2 : Int) ^ F.f - 1) / 2 ^ F.f = 0 := Int.ediv_eq_zero_of_lt (by norm_num at hf28; omega) (by omega)
    have hw0 : F.T.wrap 0 = 0 := IntTy.wrap_of_inRange hF.tpos ⟨by rw [lo]; omega, by rw [hi]; omega⟩
    rw [hz, hw0] at hsg
    cases hsg
    have ht : Int.tmod (2 ^ F.f - 1) (F.T.wrap (2 ^ F.f)) = 2 ^ F.f - 1 := by
      rcases hdv with h | h <;> rw [h]
      · exact Int.tmod_eq_of_lt (by norm_num at hf28; omega) (by omega)
      · rw [Int.tmod_neg]; exact Int.tmod_eq_of_lt (by norm_num at hf28; omega) (by omega)
    have hv0' : v0 = 2 ^ F.f - 1 := by
      unfold cmod at hv0
      rw [if_neg (by rcases hdv with h | h <;> rw [h] <;> omega)] at hv0
      split at hv0
      · cases hv0
      · cases hv0; exact ht
    subst hv0'
    rw [if_pos rfl] at e
    simp only [Res.pure_eq, Res.bind_ok] at e
    rw [IntTy.wrap_of_inRange hF.tpos hx, if_pos (by norm_num at hf28; omega)] at e
    obtain ⟨n, hn⟩ : ∃ n, F.f = n + 1 := ⟨F.f - 1, by omega⟩
    rw [show printFrac F up 10 F.f = printFrac F up 10 (n + 1) by rw [hn]] at e
    unfold printFrac at e
    rw [if_neg (by norm_num at hf28; omega)] at e
    obtain ⟨m, hm, e⟩ := bind_eq_ok.1 e
    have hD : F.D = F.T := by
      have := common_eq F hF hs i32 rfl hs.2
      exact this
    rw [hD] at hm e
    rw [IntTy.wrap_wrap] at hm
    have hm1 : m ≠ 0 := by
      unfold cmod at hm
      rw [if_neg (by norm_num)] at hm
      split at hm
      · cases hm
      · cases hm
        have h5 : ¬ (5 : Int) ∣ 2 ^ F.f := by
          intro hd
          have h5 : 5 ∣ 2 ^ F.f := by exact_mod_cast hd
          have := Nat.Prime.dvd_of_dvd_pow Nat.prime_five h5
          omega
        intro h0
        apply h5
        have hdvd : (10 : Int) ∣ F.T.wrap (2 ^ F.f) := Int.dvd_of_tmod_eq_zero h0
        have h10 : (5 : Int) ∣ F.T.wrap (2 ^ F.f) := dvd_trans (by norm_num) hdvd
        rcases hdv with h | h <;> rw [h] at h10
        · exact h10
        · exact (dvd_neg.1 h10)
    rw [if_neg hm1, IntTy.wrap_of_inRange hF.tpos hx] at e
    obtain ⟨p, hpp, -⟩ := bind_eq_ok.1 e
    obtain ⟨w, hw', -⟩ := bind_eq_ok.1 hpp
    rw [arith_signed hs.1, if_neg] at hw'
    · cases hw'
    · rintro ⟨-, h2⟩; rw [hi] at h2; norm_num at hf28; omega
  · intro hf x hx
    have : (2 : Int) ^ F.f * 16 ≤ 2 ^ (F.T.bits - 1) := by
      rw [show (16 : Int) = 2 ^ 4 by norm_num, ← pow_add]; exact pow_le_pow_right₀ (by norm_num) (by omega)
    exact C45_generic F hF hs (by rw [hi]; omega) x hx up

example : copyAsChars ⟨i32, i64, 28, false⟩ (2 ^ 28 - 1) 10 false = .ub .overflow ∧
    copyAsChars ⟨i32, i64, 27, false⟩ (2 ^ 27 - 1) 10 false = .ok "0.999999992549419403076171875".toList := by decide +kernel

end Eirin.Props
