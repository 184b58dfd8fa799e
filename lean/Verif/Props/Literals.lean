import Verif.Model.Literals
import Verif.Props.Parse
import Verif.Props.Convert

/-!
# C97: user-defined literals
-/

namespace Eirin.Props
open Eirin Eirin.Spec

/-! ### C++ integer literals ([lex.icon]) -/

/-- A digit sequence in base `b` with optional `'` between digits, and the digits. -/
inductive Digits (b : Nat) : List Nat → List Char → Prop
  | one (up : Bool) (d : Nat) : d < b → Digits b [d] [digitOf up d]
  | cons (up : Bool) (d : Nat) (ds : List Nat) (s : List Char) : d < b → Digits b ds s → Digits b (d :: ds) (digitOf up d :: s)
  | sep (up : Bool) (d : Nat) (ds : List Nat) (s : List Char) : d < b → Digits b ds s → Digits b (d :: ds) (digitOf up d :: '\'' :: s)

/-- The characters `s` form an integer literal (without suffix) of value `n`: decimal, octal, hexadecimal or binary. -/
def IntToken (s : List Char) (n : Nat) : Prop :=
  (∃ d ds, Digits 10 (d :: ds) s ∧ d ≠ 0 ∧ n = digitsVal 10 (d :: ds)) ∨
  (∃ ds, Digits 8 (0 :: ds) s ∧ n = digitsVal 8 ds) ∨
  (∃ x t ds, (x = 'x' ∨ x = 'X') ∧ s = '0' :: x :: t ∧ Digits 16 ds t ∧ n = digitsVal 16 ds) ∨
  (∃ x t ds, (x = 'b' ∨ x = 'B') ∧ s = '0' :: x :: t ∧ Digits 2 ds t ∧ n = digitsVal 2 ds)

/-- C97 as stated: an integer literal with the suffix `_f64` that is in range denotes the number that it denotes without the suffix. -/
def C97_statement : Prop :=
  ∀ (s : List Char) (n : Nat), IntToken s n → n < 2 ^ 31 → ∃ v, litF64Tok s = .ok v ∧ val fixed64 v = n

/-- It does not hold: `010_f64` is ten although `010` is eight. -/
theorem C97_false : ¬ C97_statement := by
  intro h
  obtain ⟨v, e, hv⟩ := h "010".toList 8
    (Or.inr (Or.inl ⟨[1, 0], .cons false 0 _ _ (by omega) (.cons false 1 _ _ (by omega) (.one false 0 (by omega))), rfl⟩)) (by norm_num)
  have e2 : litF64Tok "010".toList = .ok (10 * 2 ^ 32) := by decide +kernel
  rw [e2] at e
  rw [← Res.ok.inj e, show (10 * 2 ^ 32 : Int) = 10 * 2 ^ fixed64.f from rfl, val_int] at hv
  norm_num at hv

/-- C97: the other literals that go wrong: a prefix, a digit separator or an exponent makes the result indeterminate. -/
theorem C97_witnesses : litF64Tok "0x10".toList = .ub .uninit ∧ litF64Tok "0b11".toList = .ub .uninit ∧
    litF64Tok "1'000".toList = .ub .uninit ∧ litF64Tok "1e3".toList = .ub .uninit ∧ litF64Tok "1.5e0".toList = .ub .uninit ∧
    litF64Tok "4294967296".toList = .ub .uninit ∧ litF64Tok "79228162514264337593543950341".toList = .ok (5 * 2 ^ 32) ∧
    litF32Int 40000 = -1673527296 ∧ litF32Float 40000 = .ub .overflow ∧ litF32Str "40000".toList = .ub .uninit := by decide +kernel

theorem parseLit_true {F : FxTy} {s : List Char} {v : Int} (h : parseDetail F s 0 = .ok (true, v)) : parseLit F s = .ok v := by
  unfold parseLit; rw [h, Res.bind_ok]; rfl
theorem parseLit_false {F : FxTy} {s : List Char} {v : Int} (h : parseDetail F s 0 = .ok (false, v)) : parseLit F s = .ub .uninit := by
  unfold parseLit; rw [h, Res.bind_ok]
theorem parseLit_ub {F : FxTy} {s : List Char} {u : UB} (h : parseDetail F s 0 = .ub u) : parseLit F s = .ub u := by
  unfold parseLit; rw [h, Res.bind_ub]

theorem storeParsed_old (F : FxTy) (neg : Bool) (v old : Int) :
    storeParsed F neg v old = storeParsed F neg v 0 >>= fun r => .ok (if r.1 then r else (false, old)) := by
  unfold storeParsed
  split
  · rfl
  · split
    · cases Eirin.neg F (fromInternal F v) <;> rfl
    · rfl

/-- The verdict of the parser does not depend on the old value of the object, and only a success changes it. -/
theorem parseDetail_old (F : FxTy) (s : List Char) (old : Int) :
    parseDetail F s old = parseDetail F s 0 >>= fun r => .ok (if r.1 then r else (false, old)) := by
  unfold parseDetail
  generalize takeSign s = ts
  obtain ⟨n, s⟩ := ts
  dsimp only
  cases intStrict F.I s 0 with
  | ub u => rfl
  | throw e => rfl
  | ok o =>
    rw [Res.bind_ok, Res.bind_ok]
    cases o with
    | none => rfl
    | some pr =>
      obtain ⟨ip, rest⟩ := pr
      dsimp only
      split
      · rename_i cs
        cases fracStrict F.I (limDetail F) cs 0 1 with
        | ub u => rfl
        | throw e => rfl
        | ok o =>
          rw [Res.bind_ok, Res.bind_ok]
          cases o with
          | none => rfl
          | some t =>
            obtain ⟨dec, dv, lf⟩ := t
            dsimp only
            cases scaleParts F.I F.f ip dec dv with
            | ub u => rfl
            | throw e => rfl
            | ok v => rw [Res.bind_ok, Res.bind_ok]; exact storeParsed_old F n _ old
      · cases shl F.I ip F.f with
        | ub u => rfl
        | throw e => rfl
        | ok v => rw [Res.bind_ok, Res.bind_ok]; exact storeParsed_old F n _ old

/-- C97: a literal operator that parses yields a value exactly when `detail::parse` accepts the characters (whatever the object held). -/
theorem C97_lit (F : FxTy) (s : List Char) (v : Int) : parseLit F s = .ok v ↔ ∀ old, parseDetail F s old = .ok (true, v) := by
  constructor
  · intro h old
    rw [parseDetail_old]
    unfold parseLit at h
    cases hp : parseDetail F s 0 with
    | ub u => rw [hp, Res.bind_ub] at h; cases h
    | throw e => rw [hp, Res.bind_throw] at h; cases h
    | ok r =>
      rw [hp, Res.bind_ok] at h
      obtain ⟨b, w⟩ := r
      cases b with
      | false => cases h
      | true => rw [Res.bind_ok]; cases h; rfl
  · intro h; exact parseLit_true (h 0)
example : parseLit fixed32 "-114.5".toList = .ok (-7503872) := by decide +kernel

/-! ### The exact set of correct integer literals -/

theorem digitsVal_snoc (b : Nat) (ds : List Nat) (d : Nat) : digitsVal b (ds ++ [d]) = digitsVal b ds * b + d := by
  unfold digitsVal; rw [List.foldl_append]; rfl

theorem oct_le (ds : List Nat) : digitsVal 8 ds ≤ digitsVal 10 ds := by
  induction ds using List.reverseRecOn with
  | nil => exact le_refl _
  | append_singleton ds d ih => rw [digitsVal_snoc, digitsVal_snoc]; omega

theorem oct_lt (ds : List Nat) : 8 ≤ digitsVal 8 ds → (∀ d ∈ ds, d < 8) → digitsVal 8 ds < digitsVal 10 ds := by
  induction ds using List.reverseRecOn with
  | nil => intro h; exact absurd h (by decide)
  | append_singleton ds d ih =>
    intro h hd
    rw [digitsVal_snoc] at h
    rw [digitsVal_snoc, digitsVal_snoc]
    have := oct_le ds
    have := hd d (by simp)
    omega

theorem oct_eq (ds : List Nat) : digitsVal 8 ds < 8 → (∀ d ∈ ds, d < 8) → digitsVal 8 ds = digitsVal 10 ds := by
  induction ds using List.reverseRecOn with
  | nil => intros; rfl
  | append_singleton ds d ih =>
    intro h hd
    rw [digitsVal_snoc] at h
    have h0 : digitsVal 8 ds = 0 := by omega
    have := ih (by omega) (fun e he => hd e (by simp [he]))
    rw [digitsVal_snoc, digitsVal_snoc]
    omega

theorem oct_pow (ds : List Nat) : ∀ k, digitsVal 8 ds < 8 ^ k → (∀ d ∈ ds, d < 8) → digitsVal 10 ds < 10 ^ k := by
  induction ds using List.reverseRecOn with
  | nil => intro k _ _; exact Nat.pos_of_ne_zero (by positivity)
  | append_singleton ds d ih =>
    intro k h hd
    have hd8 := hd d (by simp)
    have hd' : ∀ e ∈ ds, e < 8 := fun e he => hd e (by simp [he])
    rw [digitsVal_snoc] at h ⊢
    cases k with
    | zero =>
      have h0 : digitsVal 8 ds < 8 ^ 0 := by rw [pow_zero] at h ⊢; omega
      have := ih 0 h0 hd'
      rw [pow_zero] at h this ⊢
      omega
    | succ k =>
      rw [pow_succ] at h ⊢
      have := ih k (by omega) hd'
      omega

theorem digits_chars {b : Nat} {ds : List Nat} {s : List Char} (hb : b ≤ 10) (h : Digits b ds s) (hs : ∀ c ∈ s, DigitChar c) :
    s = ds.map (digitOf false) ∧ ∀ d ∈ ds, d < b := by
  induction h with
  | one up d hd =>
    refine ⟨?_, by simpa using hd⟩
    rw [digitOf_up (by omega) up]; rfl
  | cons up d ds s hd _ ih =>
    obtain ⟨h1, h2⟩ := ih (fun c hc => hs c (by simp [hc]))
    refine ⟨?_, ?_⟩
    · rw [digitOf_up (by omega) up, h1]; rfl
    · intro e he; rcases List.mem_cons.1 he with rfl | he; exacts [hd, h2 e he]
  | sep up d ds s hd _ ih =>
    exact absurd (hs '\'' (by simp)) (by decide)

theorem digitOf_mem {d : Nat} (h : d < 16) (up : Bool) : digitOf up d ≠ '.' ∧ digitOf up d ≠ '-' := by
  have : ∀ d < 16, ∀ up : Bool, digitOf up d ≠ '.' ∧ digitOf up d ≠ '-' := by decide
  exact this d h up

theorem digits_mem {b : Nat} (hb : b ≤ 16) {ds : List Nat} {s : List Char} (h : Digits b ds s) : ∀ c ∈ s, c ≠ '.' ∧ c ≠ '-' := by
  induction h with
  | one up d hd => intro c hc; rw [List.mem_singleton.1 hc]; exact digitOf_mem (by omega) up
  | cons up d ds s hd _ ih =>
    intro c hc
    rcases List.mem_cons.1 hc with rfl | hc
    exacts [digitOf_mem (by omega) up, ih c hc]
  | sep up d ds s hd _ ih =>
    intro c hc
    rcases List.mem_cons.1 hc with rfl | hc
    · exact digitOf_mem (by omega) up
    rcases List.mem_cons.1 hc with rfl | hc
    exacts [by decide, ih c hc]

theorem digit_chars (l : List Char) (h : ∀ c ∈ l, DigitChar c) : ∃ ds, Decimal ds ∧ l = ds.map (digitOf false) := by
  induction l with
  | nil => exact ⟨[], by simp [Decimal], rfl⟩
  | cons c l ih =>
    obtain ⟨ds, h1, h2⟩ := ih (fun e he => h e (by simp [he]))
    have hc := (isDigit_iff c).2 (h c (by simp))
    unfold isDigit at hc
    have hc := of_decide_eq_true hc
    refine ⟨(c.toNat - 48) :: ds, ?_, ?_⟩
    · intro d hd
      rcases List.mem_cons.1 hd with rfl | hd
      exacts [by omega, h1 d hd]
    · rw [List.map_cons, ← h2]
      congr 1
      unfold digitOf
      rw [if_pos (by omega), show 48 + (c.toNat - 48) = c.toNat by omega, Char.ofNat_toNat]

/-- Characters without a point or sign of which one is not a digit do not form a value. -/
theorem lit_nondigit {s : List Char} (h : ∀ c ∈ s, c ≠ '.' ∧ c ≠ '-') (hd : ¬ ∀ c ∈ s, DigitChar c) :
    litF64Tok s = .ub .uninit ∨ litF64Tok s = .ub .overflow := by
  have hsp := List.takeWhile_append_dropWhile (p := isDigit) (l := s)
  obtain ⟨ds, h1, h2⟩ := digit_chars (s.takeWhile isDigit) (fun c hc => (isDigit_iff c).1 (mem_takeWhile c hc))
  cases hr : s.dropWhile isDigit with
  | nil =>
    rw [hr, List.append_nil] at hsp
    refine absurd ?_ hd
    intro c hc
    rw [← hsp] at hc
    exact (isDigit_iff c).1 (mem_takeWhile c hc)
  | cons c t =>
    rw [hr, h2] at hsp
    have hcs := h c (by rw [← hsp]; simp)
    have hnd : ¬ DigitChar c := by
      intro hh
      have := dropWhile_head c t hr
      rw [(isDigit_iff c).2 hh] at this
      cases this
    obtain ⟨e, -⟩ := C48_bad_integer fixed64 (Or.inr rfl) false ds h1 c t hnd hcs.1 (fun _ _ => hcs.2) 0
    have hs2 : (if false = true then ['-'] else []) ++ ds.map (digitOf false) ++ c :: t = s := hsp
    rw [hs2] at e
    rcases e with e | e
    · exact Or.inl (parseLit_false e)
    · exact Or.inr (parseLit_ub e)

theorem fracVal_none : fracVal 10 (fracDigits none) = 0 := rfl

/-- A run of decimal digits. -/
theorem lit_digits {ds : List Nat} (h : Decimal ds) (hv : digitsVal 10 ds < 2 ^ 90) :
    (digitsVal 10 ds < 2 ^ 31 → litF64Tok (ds.map (digitOf false)) = .ok (digitsVal 10 ds * 2 ^ 32)) ∧
    (2 ^ 31 ≤ digitsVal 10 ds → litF64Tok (ds.map (digitOf false)) = .ub .uninit) := by
  have hnum : numeral false ds none = ds.map (digitOf false) := by unfold numeral; simp
  have hfd : Decimal (fracDigits none) := by intro d hd; simp [fracDigits] at hd
  have hfo : FracOk fixed64 (fracDigits none) := Or.inl (by simp [fracDigits])
  have hmag : numeralMag ds none = digitsVal 10 ds := by unfold numeralMag; rw [fracVal_none, add_zero]
  constructor
  · intro hlt
    obtain ⟨m, e, -, -, -, -, -, hx⟩ := C47_value fixed64 (Or.inr rfl) false ds none h hfd
      (by rw [hmag, show fixed64.T.bits - 1 - fixed64.f = 31 from rfl]; exact_mod_cast hlt) hfo 0
    have hx := hx fracVal_none
    rw [hmag] at hx
    rw [hnum] at e
    have hm : (m : Int) = digitsVal 10 ds * 2 ^ 32 := by
      apply val_inj (F := fixed64)
      rw [hx]
      exact (val_int fixed64 (digitsVal 10 ds)).symm
    rw [← hm]
    exact parseLit_true e
  · intro hge
    obtain ⟨e, -⟩ := C49_overflow_partial fixed64 (Or.inr rfl) false ds none h hfd
      (by rw [show fixed64.I.bits - 1 - fixed64.f = 95 from rfl]; omega) hfo 0
    obtain ⟨e, -⟩ := e (by rw [hmag, show fixed64.T.bits - 1 - fixed64.f = 31 from rfl]; exact_mod_cast hge)
    rw [hnum] at e
    exact parseLit_false e

theorem prefixed {s t : List Char} {x : Char} {b : Nat} {ds : List Nat} (hb : b ≤ 16) (hx : x = 'x' ∨ x = 'X' ∨ x = 'b' ∨ x = 'B')
    (hs : s = '0' :: x :: t) (hd : Digits b ds t) : (∀ c ∈ s, c ≠ '.' ∧ c ≠ '-') ∧ ¬ ∀ c ∈ s, DigitChar c := by
  constructor
  · intro c hc
    rw [hs] at hc
    rcases List.mem_cons.1 hc with rfl | hc
    · decide
    rcases List.mem_cons.1 hc with rfl | hc
    · rcases hx with rfl | rfl | rfl | rfl <;> decide
    · exact digits_mem hb hd c hc
  · intro h
    have := h x (by rw [hs]; simp)
    rcases hx with rfl | rfl | rfl | rfl <;> exact absurd this (by decide)

/-- C97 (partial): the `_f64` integer literals in range that denote what they denote without the suffix are exactly those written with decimal
digits only and, if they begin with `0`, of a value below eight.  Missing from the full statement: octal, hexadecimal and binary literals, and
digit separators (`C97_false`, `C97_witnesses`). -/
theorem C97_integer_partial (s : List Char) (n : Nat) (h : IntToken s n) (hn : n < 2 ^ 31) :
    (∃ v, litF64Tok s = .ok v ∧ val fixed64 v = n) ↔ (∀ c ∈ s, DigitChar c) ∧ (s.head? ≠ some '0' ∨ n < 8) := by
  have hbad : (∀ c ∈ s, c ≠ '.' ∧ c ≠ '-') → (¬ ∀ c ∈ s, DigitChar c) →
      ((∃ v, litF64Tok s = .ok v ∧ val fixed64 v = n) ↔ (∀ c ∈ s, DigitChar c) ∧ (s.head? ≠ some '0' ∨ n < 8)) := by
    intro h1 h2
    refine ⟨?_, fun h => absurd h.1 h2⟩
    rintro ⟨v, e, -⟩
    rcases lit_nondigit h1 h2 with e2 | e2 <;> rw [e2] at e <;> cases e
  have hgood : ∀ m : Nat, litF64Tok s = .ok (m * 2 ^ 32) → ((∃ v, litF64Tok s = .ok v ∧ val fixed64 v = n) ↔ m = n) := by
    intro m e
    have hv : val fixed64 (m * 2 ^ 32) = m := val_int fixed64 m
    constructor
    · rintro ⟨v, e2, h2⟩
      rw [e] at e2
      rw [← Res.ok.inj e2, hv] at h2
      exact_mod_cast h2
    · rintro rfl; exact ⟨_, e, hv⟩
  rcases h with ⟨d, ds, hd, hd0, rfl⟩ | ⟨ds, hd, rfl⟩ | ⟨x, t, ds, hx, hs, hd, -⟩ | ⟨x, t, ds, hx, hs, hd, -⟩
  · by_cases hall : ∀ c ∈ s, DigitChar c
    · obtain ⟨h1, h2⟩ := digits_chars (le_refl _) hd hall
      have hl := (lit_digits (ds := d :: ds) h2 (lt_trans hn (by norm_num))).1 hn
      rw [← h1] at hl
      refine iff_of_true ((hgood _ hl).2 rfl) ⟨hall, Or.inl ?_⟩
      rw [h1, List.map_cons, List.head?_cons]
      have hlt := h2 d (by simp)
      have : ∀ d < 10, d ≠ 0 → some (digitOf false d) ≠ some '0' := by decide
      exact this d hlt hd0
    · exact hbad (digits_mem (by norm_num) hd) hall
  · by_cases hall : ∀ c ∈ s, DigitChar c
    · obtain ⟨h1, h2⟩ := digits_chars (by norm_num) hd hall
      have h2' : ∀ d ∈ ds, d < 8 := fun d hd => h2 d (by simp [hd])
      have hdec : Decimal (0 :: ds) := fun d hd => lt_trans (h2 d hd) (by norm_num)
      have hv0 : digitsVal 10 (0 :: ds) = digitsVal 10 ds := rfl
      have hhead : s.head? = some '0' := by rw [h1]; rfl
      have hpow : digitsVal 10 ds < 10 ^ 11 := oct_pow ds 11 (lt_trans hn (by norm_num)) h2'
      obtain ⟨l1, l2⟩ := lit_digits hdec (by rw [hv0]; exact lt_trans hpow (by norm_num))
      rw [← h1, hv0] at l1 l2
      by_cases hlt : digitsVal 10 ds < 2 ^ 31
      · rw [hgood _ (l1 hlt)]
        constructor
        · intro he
          refine ⟨hall, Or.inr ?_⟩
          by_contra h8
          have := oct_lt ds (by omega) h2'
          omega
        · rintro ⟨-, h | h⟩
          · exact absurd hhead h
          · exact (oct_eq ds h h2').symm
      · have e := l2 (by omega)
        constructor
        · rintro ⟨v, e2, -⟩; rw [e] at e2; cases e2
        · rintro ⟨-, h | h⟩
          · exact absurd hhead h
          · have := oct_eq ds h h2'; omega
    · exact hbad (digits_mem (by norm_num) hd) hall
  · obtain ⟨h1, h2⟩ := prefixed (le_refl _) (by tauto) hs hd
    exact hbad h1 h2
  · obtain ⟨h1, h2⟩ := prefixed (b := 2) (by norm_num) (by tauto) hs hd
    exact hbad h1 h2
example : IntToken "1'000".toList 1000 :=
  Or.inl ⟨1, [0, 0, 0], .sep false 1 _ _ (by omega) (.cons false 0 _ _ (by omega) (.cons false 0 _ _ (by omega) (.one false 0 (by omega)))),
    by omega, rfl⟩
example : litF64Tok "1234567890".toList = .ok (1234567890 * 2 ^ 32) ∧ litF64Tok "007".toList = .ok (7 * 2 ^ 32) := by decide +kernel

/-- C97: whatever is not decimal digits with at most one point — prefixes, separators, exponents, suffixes — is undefined as an `_f64` literal
without a point. -/
theorem C97_other_tokens (s : List Char) (h : ∀ c ∈ s, c ≠ '.' ∧ c ≠ '-') (hd : ¬ ∀ c ∈ s, DigitChar c) : (litF64Tok s).IsUB := by
  rcases lit_nondigit h hd with e | e <;> rw [e] <;> trivial
example : litF64Tok "25e2".toList = .ub .uninit := by decide +kernel

/-- C97: fractional `_f64` literals and all string literals: a decimal numeral in range gives a number less than 8 ulp away (toward zero), equal for
integers. -/
theorem C97_numeral (F : FxTy) (hF : F = fixed32 ∨ F = fixed64) (neg : Bool) (is : List Nat) (fs : Option (List Nat))
    (his : Decimal is) (hfs : Decimal (fracDigits fs)) (hmag : numeralMag is fs < 2 ^ (F.T.bits - 1 - F.f)) (hlen : FracOk F (fracDigits fs)) :
    ∃ m : Nat, parseLit F (numeral neg is fs) = .ok (if neg then -(m : Int) else m) ∧ val F m ≤ numeralMag is fs ∧
      numeralMag is fs < val F m + 8 * ulp F ∧ (fracVal 10 (fracDigits fs) = 0 → val F m = numeralMag is fs) := by
  obtain ⟨m, e, -, -, -, h1, h2, h3⟩ := C47_value F hF neg is fs his hfs hmag hlen 0
  exact ⟨m, parseLit_true e, h1, h2, h3⟩
example : litF32Str "-114.5".toList = .ok (-7503872) ∧ litF64Tok "3.25".toList = .ok 13958643712 := by decide +kernel

/-- C97: string literals `"s"_f32` and `"s"_f64` are what the parser of C47/C48 makes of the characters: defined with value `v` exactly when the parser
accepts with value `v`, undefined (the object is indeterminate) when it rejects. -/
theorem C97_string (s : List Char) (v : Int) :
    (litF32Str s = .ok v ↔ ∀ old, parseDetail fixed32 s old = .ok (true, v)) ∧
    (litF64Str s = .ok v ↔ ∀ old, parseDetail fixed64 s old = .ok (true, v)) :=
  ⟨C97_lit fixed32 s v, C97_lit fixed64 s v⟩
example : litF64Str "-2.5".toList = .ok (-10737418240) ∧ litF64Str "2,5".toList = .ub .uninit := by decide +kernel

/-- C97: an `_f32` integer literal is the number exactly when it is below `2^15`; larger ones wrap without a diagnostic. -/
theorem C97_f32_integer (n : Nat) : (val fixed32 (litF32Int n) = n ↔ n < 2 ^ 15) ∧ IsWrap fixed32 (n * 2 ^ 16) (litF32Int n) := by
  obtain ⟨h1, h2⟩ := C14_ofInt fixed32 (by decide) n
  refine ⟨⟨?_, ?_⟩, h2⟩
  · intro h
    have hs : litF32Int n ≤ 2147483647 := h2.1.2
    have hval : ((litF32Int n : Int) : ℚ) / 2 ^ 16 = n := h
    rw [div_eq_iff (by norm_num)] at hval
    have hz : litF32Int n = n * 2 ^ 16 := by exact_mod_cast hval
    have : (n : Int) < 2 ^ 15 := by omega
    exact_mod_cast this
  · intro h
    have hr : Representable fixed32 ((n : Int) : ℚ) := by
      refine ⟨n * 2 ^ 16, ?_, val_int fixed32 n⟩
      have : (n : Int) < 2 ^ 15 := by exact_mod_cast h
      constructor
      · show (-2147483648 : Int) ≤ _; omega
      · show _ ≤ (2147483647 : Int); omega
    have h3 := (h1 hr).2
    rw [Int.cast_natCast] at h3
    exact h3
example : litF32Int 32767 = 2147418112 ∧ litF32Int 32768 = -2147483648 ∧ litF32Int 65536 = 0 := by decide +kernel

/-- C97: an `_f32` floating literal is truncated toward zero, and undefined if it is out of range. -/
theorem C97_f32_float (v : ℚ) (n : Int) (hn : IsTrunc fixed32 v n) :
    (Storable fixed32 n → litF32Float v = .ok n) ∧ (¬ Storable fixed32 n → litF32Float v = .ub .overflow) :=
  C16_ofFloat fixed32 (by decide) rfl v n hn
example : litF32Float (1145625 / 10000) = .ok 7507968 := by decide +kernel

/-- C97: the three ways of writing an integer below `2^15` agree: `n_f32`, `"n"_f32` and (scaled) `n_f64`. -/
theorem C97_agree (ds : List Nat) (h : Decimal ds) (hn : digitsVal 10 ds < 2 ^ 15) :
    litF32Str (ds.map (digitOf false)) = .ok (litF32Int (digitsVal 10 ds)) ∧
      litF64Tok (ds.map (digitOf false)) = .ok (litF32Int (digitsVal 10 ds) * 2 ^ 16) := by
  have hi : litF32Int (digitsVal 10 ds) = digitsVal 10 ds * 2 ^ 16 := by
    apply val_inj (F := fixed32)
    rw [(C97_f32_integer _).1.2 hn]
    exact (val_int fixed32 (digitsVal 10 ds)).symm
  constructor
  · obtain ⟨m, e, -, -, hx⟩ := C97_numeral fixed32 (Or.inl rfl) false ds none h (by intro d hd; simp [fracDigits] at hd)
      (by unfold numeralMag; rw [fracVal_none, add_zero, show fixed32.T.bits - 1 - fixed32.f = 15 from rfl]; exact_mod_cast hn)
      (Or.inl (by simp [fracDigits]))
    have hx := hx fracVal_none
    unfold numeralMag at hx
    rw [fracVal_none, add_zero] at hx
    have hnum : numeral false ds none = ds.map (digitOf false) := by unfold numeral; simp
    rw [hnum] at e
    have hm : (m : Int) = litF32Int (digitsVal 10 ds) := by
      apply val_inj (F := fixed32)
      rw [hx, (C97_f32_integer _).1.2 hn]
    rw [← hm]; exact e
  · rw [(lit_digits h (lt_trans hn (by norm_num))).1 (lt_trans hn (by norm_num)), hi, mul_assoc,
      show (2 ^ 16 * 2 ^ 16 : Int) = 2 ^ 32 by norm_num]
example : litF32Str "114".toList = .ok (litF32Int 114) := by decide +kernel

end Eirin.Props
