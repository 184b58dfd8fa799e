import Verif.Lemmas.ParseCore
import Verif.Props.Print

/-! # Properties C47–C51: text input (string literals, `f32_from_cstring`, `fixed_from_cstring`). -/

namespace Eirin.Props
open Spec

/-- Number of fraction digits that always fit the decimal divisor of the parser (`int64_t` for `fixed32`, `__int128` for `fixed64`). -/
def maxFrac (F : FxTy) : Nat := if F.T.bits = 32 then 18 else 38

/-- The fraction is short enough, or large enough for the precision cut-off to come first: its first non-zero digit is not among the
last ten of the digits that fit. -/
def FracOk (F : FxTy) (ds : List Nat) : Prop := ds.length ≤ maxFrac F ∨ (1 : ℚ) / 10 ^ (maxFrac F - 10) ≤ fracVal 10 ds

theorem rawOf_mag {F : FxTy} {is : List Nat} {fs : Option (List Nat)} {raw : Nat} (h : RawOf F is fs raw) :
    val F raw ≤ numeralMag is fs ∧ numeralMag is fs < val F raw + 8 * ulp F := by
  have hp : (0 : ℚ) < 2 ^ F.f := by positivity
  unfold val ulp
  rw [div_le_iff₀ hp, mul_one_div, ← add_div, lt_div_iff₀ hp]
  exact ⟨by exact_mod_cast h.le, by have := h.lt; push_cast; linarith⟩

theorem rawOf_floor {F : FxTy} {c : ℚ} {is : List Nat} {fs : Option (List Nat)} {raw : Nat} (h : RawC F c is fs raw) :
    ∃ p q, fracDigits fs = p ++ q ∧ IsFloor F (numeralMag is (some p)) raw := by
  obtain ⟨p, q, e, -, hr⟩ := h.pre
  refine ⟨p, q, e, ?_⟩
  have hp : (0 : ℚ) < 2 ^ F.f := by positivity
  have e0 : numeralMag is (some p) = digitsVal 10 is + fracVal 10 p := rfl
  have h0 := fracVal_nonneg p
  unfold IsFloor val ulp
  rw [e0, ← add_div, div_le_iff₀ hp, lt_div_iff₀ hp]
  refine ⟨?_, ?_⟩
  · have := Nat.floor_le (a := ((digitsVal 10 is : ℚ) + fracVal 10 p) * 2 ^ F.f) (by positivity)
    rw [← hr] at this; exact_mod_cast this
  · have := Nat.lt_floor_add_one (((digitsVal 10 is : ℚ) + fracVal 10 p) * 2 ^ F.f)
    rw [← hr] at this; exact_mod_cast this

/-- Evaluation of the generic parsers, for both predefined types. -/
theorem parse_lib (F : FxTy) (hF : F = fixed32 ∨ F = fixed64) (neg : Bool) (is : List Nat) (fs : Option (List Nat))
    (his : Decimal is) (hfs : Decimal (fracDigits fs)) (hip : ((digitsVal 10 is + 1) * 2 ^ F.f : Int) ≤ F.I.hi)
    (hlen : FracOk F (fracDigits fs)) (old : Int) :
    ∃ raw, RawOf F is fs raw ∧ parseDetail F (numeral neg is fs) old = parsedOut F neg raw old ∧
      fixedFromCstring F (numeral neg is fs) old = parsedOut F neg raw old := by
  rcases hF with rfl | rfl
  · refine parse_numeral ps32 tail32 neg his hfs (by exact_mod_cast hip) 17 (by decide +kernel) ?_ old
    refine hlen.imp id (fun h => le_trans ?_ h)
    have : cutLim fixed32 = 6553 := by decide +kernel
    rw [this]
    have : maxFrac fixed32 = 18 := by decide
    rw [this]; norm_num
  · refine parse_numeral ps64 tail64 neg his hfs (by exact_mod_cast hip) 37 (by decide +kernel) ?_ old
    refine hlen.imp id (fun h => le_trans ?_ h)
    have : cutLim fixed64 = 429496729 := by decide +kernel
    rw [this]
    have : maxFrac fixed64 = 38 := by decide
    rw [this]; norm_num

/-! ### C51: the parsers agree -/

theorem scaleParts_inRange {W : IntTy} (h : WS W) {f : Nat} {a b c v : Int} (e : scaleParts W f a b c = .ok v) : W.InRange v := by
  unfold scaleParts at e
  rw [h.prom] at e
  cases h1 : shl W a f with
  | ub u => rw [h1] at e; simp at e
  | throw x => rw [h1] at e; simp at e
  | ok x =>
    cases h2 : shl W b f with
    | ub u => rw [h1, h2] at e; simp at e
    | throw x => rw [h1, h2] at e; simp at e
    | ok y =>
      rw [h1, h2] at e
      simp only [Res.bind_ok] at e
      cases h3 : cdiv W y c with
      | ub u => rw [h3] at e; simp at e
      | throw x => rw [h3] at e; simp at e
      | ok z =>
        rw [h3, Res.bind_ok, arith_signed h.sg] at e
        by_cases hc : W.InRange (x + z)
        · rw [if_pos hc] at e; rw [← Res.ok.inj e]; exact hc
        · rw [if_neg hc] at e; cases e

theorem store32 (neg : Bool) (v old : Int) : storeParsed fixed32 neg v old =
    (if v > i32.hi ∨ v < i32.lo then pure (false, old)
      else do
        let fp := fromInternal fixed32 (i32.wrap v)
        if neg then do
          let n ← Eirin.neg fixed32 fp
          pure (true, n)
        else pure (true, fp)) := by
  have e1 : fixed32.I.wrap fixed32.T.hi = i32.hi := by decide +kernel
  have e2 : fixed32.I.wrap fixed32.T.lo = i32.lo := by decide +kernel
  unfold storeParsed
  rw [e1, e2]
  by_cases hc : v > i32.hi ∨ v < i32.lo
  · rw [if_pos hc, if_pos hc]; rfl
  · rw [if_neg hc, if_neg hc]
    have : i32.wrap v = v := IntTy.wrap_of_inRange (by decide) ⟨by omega, by omega⟩
    rw [this]

/-- C51: `f32_from_cstring` and the parser of the `""_f32` literals return the same verdict and the same value on every string. -/
theorem C51_same (s : List Char) (old : Int) : f32FromCstring s old = parseDetail fixed32 s old := by
  unfold f32FromCstring parseDetail
  obtain ⟨neg, s⟩ := takeSign s
  have eI : fixed32.I = i64 := rfl
  have ef : fixed32.f = 16 := rfl
  have el : limDetail fixed32 = ((1 <<< 16) - 1 : Int) / 10 := by decide +kernel
  simp only [eI, ef, el, store32]
  cases h1 : intStrict i64 s 0 with
  | ub u => rfl
  | throw x => rfl
  | ok o =>
    cases o with
    | none => rfl
    | some pr =>
      obtain ⟨ip, rest⟩ := pr
      simp only [Res.bind_ok]
      have tail1 : (do let v ← shl i64 ip 16; pure (some v) : Res (Option Int)) >>= (fun o => match o with
            | none => pure (false, old)
            | some v => if v > i32.hi ∨ v < i32.lo then pure (false, old)
              else do
                let fp := fromInternal fixed32 (i32.wrap v)
                if neg then do
                  let n ← Eirin.neg fixed32 fp
                  pure (true, n)
                else pure (true, fp)) = (do
          let v ← shl i64 ip 16
          if i64.wrap v > i32.hi ∨ i64.wrap v < i32.lo then pure (false, old)
              else do
                let fp := fromInternal fixed32 (i32.wrap (i64.wrap v))
                if neg then do
                  let n ← Eirin.neg fixed32 fp
                  pure (true, n)
                else pure (true, fp) : Res (Bool × Int)) := by
        unfold shl
        rw [ws64.prom, if_pos (by decide)]
        simp only [Res.bind_ok, Res.pure_eq]
        rw [IntTy.wrap_of_inRange (by decide) (IntTy.wrap_inRange (t := i64) (ip * 2 ^ 16) (by decide))]
      split
      · rename_i cs
        cases h2 : fracStrict i64 (((1 <<< 16) - 1 : Int) / 10) cs 0 1 with
        | ub u => rfl
        | throw x => rfl
        | ok o =>
          cases o with
          | none => rfl
          | some t =>
            obtain ⟨dec, dv, lf⟩ := t
            simp only [Res.bind_ok]
            cases h3 : scaleParts i64 16 ip dec dv with
            | ub u => rfl
            | throw x => rfl
            | ok v =>
              simp only [Res.bind_ok, Res.pure_eq]
              rw [IntTy.wrap_of_inRange (by decide) (scaleParts_inRange ws64 h3)]
      · exact tail1

theorem accepts_of {F : FxTy} (hps : PS F) (s : List Char) (old v : Int)
    (h : parseDetail F s old = .ok (true, v)) : fixedFromCstring F s old = .ok (true, v) := by
  rw [← h]
  unfold parseDetail at h ⊢
  unfold fixedFromCstring
  generalize takeSign s = ts at h ⊢
  obtain ⟨neg, s⟩ := ts
  simp only [intStrict_eq, hps.limG, hps.limD, fracStrict_eq, Res.bind_ok] at h ⊢
  cases h1 : intLenient F.I s 0 with
  | ub u => rfl
  | throw x => rfl
  | ok pr =>
    obtain ⟨ip, rest⟩ := pr
    rw [h1] at h
    simp only [Res.bind_ok] at h ⊢
    cases hk : okInt rest with
    | false => rw [hk] at h; simp at h
    | true =>
      rw [hk] at h
      simp only [if_true] at h ⊢
      split at h
      · rename_i cs
        cases h2 : fracLenient F.I (cutLim F) cs 0 1 with
        | ub u => rfl
        | throw x => rfl
        | ok t =>
          obtain ⟨dec, dv, lf⟩ := t
          rw [h2] at h
          simp only [Res.bind_ok] at h ⊢
          cases hk2 : okFrac lf with
          | false => rw [hk2] at h; simp at h
          | true => simp
      · rename_i hne
        cases rest with
        | nil => rfl
        | cons c cs =>
          have : c = '.' := by simpa [okInt] using hk
          exact absurd (by rw [this]) (hne cs)

/-- C51: whatever the strict parser accepts, `fixed_from_cstring` accepts with the same value (both predefined types, every string). -/
theorem C51_accepts (F : FxTy) (hF : F = fixed32 ∨ F = fixed64) (s : List Char) (old v : Int)
    (h : parseDetail F s old = .ok (true, v)) : fixedFromCstring F s old = .ok (true, v) :=
  accepts_of (by rcases hF with rfl | rfl; exacts [ps32, ps64]) s old v h

/-! The lenient parser looks only at the longest numeric prefix. -/

/-- value of the integer loop on a run of digit characters -/
def intRun (W : IntTy) : List Char → Int → Res Int
  | [], a => .ok a
  | c :: cs, a => do
    let a' ← accDigit W a c
    intRun W cs a'

theorem intLenient_run (W : IntTy) (t : List Char) (ht : ∀ c cs, t = c :: cs → isDigit c = false) :
    ∀ (ds : List Char) (a : Int), (∀ c ∈ ds, isDigit c = true) → intLenient W (ds ++ t) a = (intRun W ds a >>= fun v => .ok (v, t)) := by
  intro ds
  induction ds with
  | nil =>
    intro a _
    cases t with
    | nil => rfl
    | cons c cs =>
      have := ht c cs rfl
      unfold intRun
      rw [List.nil_append, Res.bind_ok]
      unfold intLenient
      by_cases h : c = '.'
      · rw [if_pos h]
      · rw [if_neg h, this]; rfl
  | cons c ds ih =>
    intro a hd
    have hc := hd c List.mem_cons_self
    rw [List.cons_append]
    unfold intLenient intRun
    rw [if_neg (isDigit_ne_dot hc), hc]
    simp only [Bool.not_true, Bool.false_eq_true, if_false]
    cases h : accDigit W a c with
    | ok a' => simp only [Res.bind_ok]; exact ih a' (fun x hx => hd x (List.mem_cons_of_mem _ hx))
    | ub u => rfl
    | throw x => rfl

theorem fracLenient_run (W : IntTy) (lim : Int) {α : Type} (k : Int → Int → Res α) (t : List Char)
    (ht : ∀ c cs, t = c :: cs → isDigit c = false) : ∀ (ds : List Char) (a dv : Int), (∀ c ∈ ds, isDigit c = true) →
      (fracLenient W lim (ds ++ t) a dv >>= fun r => k r.1 r.2.1) = (fracLenient W lim ds a dv >>= fun r => k r.1 r.2.1) := by
  intro ds
  induction ds with
  | nil =>
    intro a dv _
    cases t with
    | nil => rfl
    | cons c cs =>
      have := ht c cs rfl
      rw [List.nil_append]
      unfold fracLenient
      rw [if_pos (Or.inr (by rw [this]; rfl))]; rfl
  | cons c ds ih =>
    intro a dv hd
    have hc := hd c List.mem_cons_self
    rw [List.cons_append]
    unfold fracLenient
    by_cases hl : a > lim ∨ (!isDigit c) = true
    · rw [if_pos hl, if_pos hl]; rfl
    · rw [if_neg hl, if_neg hl]
      cases h : accDigit W a c with
      | ok a' =>
        simp only [Res.bind_ok]
        cases h2 : mulTen W dv with
        | ok d' => simp only [Res.bind_ok]; exact ih a' d' (fun x hx => hd x (List.mem_cons_of_mem _ hx))
        | ub u => rfl
        | throw x => rfl
      | ub u => rfl
      | throw x => rfl

theorem isDigit_fun : (fun c => decide (DigitChar c)) = isDigit := by
  funext c
  rw [Bool.eq_iff_iff, decide_eq_true_iff, isDigit_iff]

theorem dropWhile_head {s : List Char} : ∀ c cs, s.dropWhile isDigit = c :: cs → isDigit c = false := by
  intro c cs h
  have := List.head?_dropWhile_not isDigit s
  rw [h] at this
  simpa using this

theorem mem_takeWhile {s : List Char} : ∀ c ∈ s.takeWhile isDigit, isDigit c = true := by
  intro c hc
  exact List.all_eq_true.1 (List.all_takeWhile (p := isDigit) (l := s)) c hc

/-- the body of the lenient parser after the sign -/
theorem lenient_unsigned (F : FxTy) (neg : Bool) (s : List Char) (old : Int) :
    (intLenient F.I s 0 >>= fun (ip, rest) =>
      match rest with
      | '.' :: cs => do
        let lim ← limGeneric F
        let (dec, dv, _) ← fracLenient F.I lim cs 0 1
        let v ← scaleParts F.I F.f ip dec dv
        storeParsed F neg (F.I.wrap v) old
      | _ => do
        let v ← shl F.I ip F.f
        storeParsed F neg (F.I.wrap v) old) =
    (intLenient F.I (unsignedPrefix s) 0 >>= fun (ip, rest) =>
      match rest with
      | '.' :: cs => do
        let lim ← limGeneric F
        let (dec, dv, _) ← fracLenient F.I lim cs 0 1
        let v ← scaleParts F.I F.f ip dec dv
        storeParsed F neg (F.I.wrap v) old
      | _ => do
        let v ← shl F.I ip F.f
        storeParsed F neg (F.I.wrap v) old) := by
  unfold unsignedPrefix
  rw [isDigit_fun]
  have e1 := intLenient_run F.I (s.dropWhile isDigit) dropWhile_head (s.takeWhile isDigit) 0 mem_takeWhile
  rw [List.takeWhile_append_dropWhile] at e1
  rw [e1]
  split
  · rename_i cs hcs
    have e2 := intLenient_run F.I ('.' :: cs.takeWhile isDigit) (by intro c cs h; rw [List.cons.injEq] at h; rw [← h.1]; decide)
      (s.takeWhile isDigit) 0 mem_takeWhile
    rw [e2]
    cases h : intRun F.I (s.takeWhile isDigit) 0 with
    | ub u => rfl
    | throw x => rfl
    | ok ip =>
      simp only [Res.bind_ok]
      rw [hcs]
      cases hl : limGeneric F with
      | ub u => rfl
      | throw x => rfl
      | ok lim =>
        simp only [Res.bind_ok]
        have e3 := fracLenient_run F.I lim (fun dec dv => do
            let v ← scaleParts F.I F.f ip dec dv
            storeParsed F neg (F.I.wrap v) old) (cs.dropWhile isDigit) dropWhile_head (cs.takeWhile isDigit) 0 1 mem_takeWhile
        rw [List.takeWhile_append_dropWhile] at e3
        exact e3
  · rename_i hne
    have e2 := intLenient_run F.I [] (by simp) (s.takeWhile isDigit) 0 mem_takeWhile
    rw [List.append_nil] at e2
    rw [e2]
    cases h : intRun F.I (s.takeWhile isDigit) 0 with
    | ub u => rfl
    | throw x => rfl
    | ok ip =>
      simp only [Res.bind_ok]

/-- C51: `fixed_from_cstring` behaves on every text as on its longest numeric prefix (every type, every string). -/
theorem C51_prefix (F : FxTy) (s : List Char) (old : Int) :
    fixedFromCstring F s old = fixedFromCstring F (numericPrefix s) old := by
  unfold fixedFromCstring
  by_cases hm : ∃ t, s = '-' :: t
  · obtain ⟨t, rfl⟩ := hm
    have e : numericPrefix ('-' :: t) = '-' :: unsignedPrefix t := rfl
    have e2 : takeSign ('-' :: t) = (true, t) := rfl
    have e3 : takeSign ('-' :: unsignedPrefix t) = (true, unsignedPrefix t) := rfl
    rw [e, e2, e3]
    exact lenient_unsigned F true t old
  · have e : numericPrefix s = unsignedPrefix s := by
      unfold numericPrefix
      split
      · rename_i t; exact absurd ⟨t, rfl⟩ hm
      · rfl
    have key : ∀ l : List Char, (¬ ∃ t, l = '-' :: t) → takeSign l = (false, l) := by
      intro l hl
      cases l with
      | nil => rfl
      | cons c cs => exact if_neg (fun hc => hl ⟨cs, by rw [hc]⟩)
    have hp : ¬ ∃ t, unsignedPrefix s = '-' :: t := by
      rintro ⟨t, ht⟩
      unfold unsignedPrefix at ht
      rw [isDigit_fun] at ht
      have hh : ∀ r, (s.takeWhile isDigit) ++ r = '-' :: t → (∀ c cs, r = c :: cs → c ≠ '-') → False := by
        intro r hr hr2
        cases htw : s.takeWhile isDigit with
        | nil => rw [htw, List.nil_append] at hr; exact hr2 _ _ hr rfl
        | cons c cs =>
          rw [htw, List.cons_append, List.cons.injEq] at hr
          have := mem_takeWhile (s := s) c (by rw [htw]; exact List.mem_cons_self)
          rw [hr.1] at this; revert this; decide
      split at ht
      · refine hh _ ht ?_
        intro c cs hc
        rw [List.cons.injEq] at hc; rw [← hc.1]; decide
      · exact hh [] (by rw [List.append_nil]; exact ht) (by simp)
    rw [e, key s hm, key _ hp]
    exact lenient_unsigned F false s old

example : f32FromCstring "-12.375".toList 9 = .ok (true, -811008) ∧ parseDetail fixed32 "-12.375".toList 9 = .ok (true, -811008) ∧
    fixedFromCstring fixed32 "-12.375kg".toList 9 = .ok (true, -811008) ∧ numericPrefix "-12.375kg".toList = "-12.375".toList ∧
    parseDetail fixed32 "-12.375kg".toList 9 = .ok (false, 9) := by decide +kernel

/-! ### C47: value of a numeral in range -/

theorem mag_lt_iff {F : FxTy} (is : List Nat) {fs : Option (List Nat)} (hfs : Decimal (fracDigits fs)) (B : Nat) :
    numeralMag is fs < B ↔ digitsVal 10 is < B := by
  unfold numeralMag
  have h0 := fracVal_nonneg (fracDigits fs)
  have h1 := fracVal_lt hfs
  constructor
  · intro h
    have : (digitsVal 10 is : ℚ) < B := by linarith
    exact_mod_cast this
  · intro h
    have : (digitsVal 10 is : ℚ) + 1 ≤ B := by exact_mod_cast h
    linarith

theorem hi_succ {F : FxTy} (h : SW F) : F.T.hi + 1 = 2 ^ (F.T.bits - 1 - F.f) * 2 ^ F.f := by
  have hf2 : F.f ≤ F.T.bits - 1 := h.valid.2.2.2.2.2
  rw [h.hi_eq, sub_add_cancel, ← pow_add]
  congr 1; omega

/-- The stored magnitude fits exactly when the integer part does. -/
theorem raw_fits {F : FxTy} (h : SW F) {is : List Nat} {fs : Option (List Nat)} (hfs : Decimal (fracDigits fs)) {raw : Nat}
    {c : ℚ} (hr : RawC F c is fs raw) : (raw : Int) ≤ F.T.hi ↔ numeralMag is fs < 2 ^ (F.T.bits - 1 - F.f) := by
  have hB : ((2 ^ (F.T.bits - 1 - F.f) : Nat) : ℚ) = 2 ^ (F.T.bits - 1 - F.f) := by push_cast; rfl
  rw [← hB, mag_lt_iff (F := F) is hfs]
  have hhi := hi_succ h
  have hp : 0 < 2 ^ F.f := by positivity
  have e : ((2 ^ (F.T.bits - 1 - F.f) * 2 ^ F.f : Nat) : Int) = F.T.hi + 1 := by rw [hhi]; push_cast; rfl
  have hlt : raw < (digitsVal 10 is + 1) * 2 ^ F.f := by
    have h1 := hr.le
    have h2 : numeralMag is fs < ((digitsVal 10 is + 1 : Nat) : ℚ) := (mag_lt_iff (F := F) is hfs _).2 (by omega)
    have h3 : (raw : ℚ) < ((digitsVal 10 is + 1 : Nat) : ℚ) * 2 ^ F.f := lt_of_le_of_lt h1 (by
      have : (0 : ℚ) < 2 ^ F.f := by positivity
      nlinarith)
    exact_mod_cast h3
  constructor
  · intro hle
    by_contra hc
    push Not at hc
    have h1 : 2 ^ (F.T.bits - 1 - F.f) * 2 ^ F.f ≤ raw := le_trans (Nat.mul_le_mul_right _ hc) hr.low
    have : ((2 ^ (F.T.bits - 1 - F.f) * 2 ^ F.f : Nat) : Int) ≤ raw := by exact_mod_cast h1
    omega
  · intro hlt2
    have h1 : raw < 2 ^ (F.T.bits - 1 - F.f) * 2 ^ F.f := lt_of_lt_of_le hlt (Nat.mul_le_mul_right _ hlt2)
    have : (raw : Int) < ((2 ^ (F.T.bits - 1 - F.f) * 2 ^ F.f : Nat) : Int) := by exact_mod_cast h1
    omega

/-- C47: a numeral below the range bound (`32768` for `fixed32`, `2147483648` for `fixed64`) is accepted by all the string parsers;
the stored magnitude is the floor of a prefix of the numeral (all of the integer part, some of the fraction), never exceeds the
numeral's magnitude, is less than 8 ulp below it, is exact for integers, and is negated for a leading `-`. -/
theorem C47_value (F : FxTy) (hF : F = fixed32 ∨ F = fixed64) (neg : Bool) (is : List Nat) (fs : Option (List Nat))
    (his : Decimal is) (hfs : Decimal (fracDigits fs)) (hmag : numeralMag is fs < 2 ^ (F.T.bits - 1 - F.f))
    (hlen : FracOk F (fracDigits fs)) (old : Int) :
    ∃ m : Nat, parseDetail F (numeral neg is fs) old = .ok (true, if neg then -(m : Int) else m) ∧
      fixedFromCstring F (numeral neg is fs) old = .ok (true, if neg then -(m : Int) else m) ∧
      (F = fixed32 → f32FromCstring (numeral neg is fs) old = .ok (true, if neg then -(m : Int) else m)) ∧
      (∃ p q, fracDigits fs = p ++ q ∧ IsFloor F (numeralMag is (some p)) m) ∧
      val F m ≤ numeralMag is fs ∧ numeralMag is fs < val F m + 8 * ulp F ∧
      (fracVal 10 (fracDigits fs) = 0 → val F m = numeralMag is fs) := by
  have hps : PS F := by rcases hF with rfl | rfl; exacts [ps32, ps64]
  have hB : ((2 ^ (F.T.bits - 1 - F.f) : Nat) : ℚ) = 2 ^ (F.T.bits - 1 - F.f) := by push_cast; rfl
  have hd : digitsVal 10 is < 2 ^ (F.T.bits - 1 - F.f) := by
    rw [← hB] at hmag; exact (mag_lt_iff (F := F) is hfs _).1 hmag
  have hip : ((digitsVal 10 is + 1) * 2 ^ F.f : Int) ≤ F.I.hi := by
    have h1 : ((digitsVal 10 is + 1) * 2 ^ F.f : Int) ≤ F.T.hi + 1 := by
      rw [hi_succ hps.sw]
      exact mul_le_mul_of_nonneg_right (by exact_mod_cast hd) (by positivity)
    refine le_trans h1 ?_
    rcases hF with rfl | rfl <;> decide +kernel
  obtain ⟨raw, hr, e1, e2⟩ := parse_lib F hF neg is fs his hfs hip hlen old
  have hfit := (raw_fits hps.sw hfs hr).2 hmag
  have eo : parsedOut F neg raw old = .ok (true, if neg then -(raw : Int) else raw) := by unfold parsedOut; rw [if_pos hfit]
  rw [eo] at e1 e2
  refine ⟨raw, e1, e2, ?_, rawOf_floor hr, (rawOf_mag hr).1, (rawOf_mag hr).2, ?_⟩
  · rintro rfl; rw [C51_same]; exact e1
  · intro h0
    have := hr.exact1 h0
    unfold numeralMag val
    rw [h0, this, add_zero]
    push_cast
    rw [mul_div_assoc, div_self (by positivity), mul_one]

example : parseDetail fixed32 (numeral true [0, 1, 2] (some [3, 4, 5])) 7 = .ok (true, -809041) ∧
    numeral true [0, 1, 2] (some [3, 4, 5]) = "-012.345".toList ∧
    fixedFromCstring fixed64 (numeral false [2, 1, 4, 7, 4, 8, 3, 6, 4, 7] (some [9])) 7 = .ok (true, 9223372036425279078) ∧
    parseDetail fixed32 "0.99999".toList 7 = .ok (true, 65529) ∧ FracOk fixed32 [3, 4, 5] := by
  refine ⟨by decide +kernel, by decide, by decide +kernel, by decide +kernel, Or.inl (by decide)⟩

/-! ### C48: rejection of malformed text -/

theorem storeParsed_false {F : FxTy} {neg : Bool} {v old w : Int} (h : storeParsed F neg v old = .ok (false, w)) : w = old := by
  unfold storeParsed at h
  split at h
  · have := Res.ok.inj h; simp at this; exact this.symm
  · split at h
    · cases hn : Eirin.neg F (fromInternal F v) with
      | ok n => rw [hn] at h; simp at h
      | ub u => rw [hn] at h; simp at h
      | throw x => rw [hn] at h; simp at h
    · simp at h

/-- C48: whenever the literal parser returns false, the output object is unchanged (every type, every string). -/
theorem C48_untouched (F : FxTy) (s : List Char) (old v : Int) (h : parseDetail F s old = .ok (false, v)) : v = old := by
  unfold parseDetail at h
  generalize takeSign s = ts at h
  obtain ⟨neg, s⟩ := ts
  simp only at h
  cases h1 : intStrict F.I s 0 with
  | ub u => rw [h1] at h; simp at h
  | throw x => rw [h1] at h; simp at h
  | ok o =>
    rw [h1] at h
    cases o with
    | none => simp at h; exact h.symm
    | some pr =>
      obtain ⟨ip, rest⟩ := pr
      simp only [Res.bind_ok] at h
      split at h
      · rename_i cs
        cases h2 : fracStrict F.I (limDetail F) cs 0 1 with
        | ub u => rw [h2] at h; simp at h
        | throw x => rw [h2] at h; simp at h
        | ok o =>
          rw [h2] at h
          cases o with
          | none => simp at h; exact h.symm
          | some t =>
            obtain ⟨dec, dv, lf⟩ := t
            simp only [Res.bind_ok] at h
            cases h3 : scaleParts F.I F.f ip dec dv with
            | ub u => rw [h3] at h; simp at h
            | throw x => rw [h3] at h; simp at h
            | ok v => rw [h3] at h; exact storeParsed_false h
      · cases h3 : shl F.I ip F.f with
        | ub u => rw [h3] at h; simp at h
        | throw x => rw [h3] at h; simp at h
        | ok v => rw [h3] at h; exact storeParsed_false h

/-- C48 for `f32_from_cstring`. -/
theorem C48_untouched_f32 (s : List Char) (old v : Int) (h : f32FromCstring s old = .ok (false, v)) : v = old := by
  rw [C51_same] at h; exact C48_untouched fixed32 s old v h

theorem ws_of {F : FxTy} (hF : F = fixed32 ∨ F = fixed64) : WS F.I := by rcases hF with rfl | rfl; exacts [ws64, ws128]

theorem intLenient_or {W : IntTy} (h : WS W) (t : List Char) : ∀ (ds : List Nat) (a : Nat), Decimal ds →
    intLenient W (ds.map (digitOf false) ++ t) a = intLenient W t (acc a ds) ∨
    intLenient W (ds.map (digitOf false) ++ t) a = .ub .overflow := by
  intro ds
  induction ds with
  | nil => intro a _; exact Or.inl rfl
  | cons d ds ih =>
    intro a hd
    have h10 := hd.head
    rw [List.map_cons, List.cons_append]
    have hu : ∀ x : List Char, intLenient W (digitOf false d :: x) a = (accDigit W a (digitOf false d) >>= fun a' => intLenient W x a') := by
      intro x
      conv_lhs => unfold intLenient
      rw [if_neg (digitOf_ne_dot h10), isDigit_digitOf h10]; rfl
    rw [hu]
    rcases h.accDigit_or a d h10 with e | e
    · rw [e, Res.bind_ok, acc_cons]; exact ih _ hd.tail
    · rw [e]; exact Or.inr rfl

theorem fracLenient_or {W : IntTy} (h : WS W) (lim : Nat) (t : List Char) : ∀ (ds : List Nat) (a dv : Nat), Decimal ds →
    (∀ p d q, ds = p ++ d :: q → acc a p ≤ lim) →
    fracLenient W lim (ds.map (digitOf false) ++ t) a dv = fracLenient W lim t (acc a ds) (dv * 10 ^ ds.length : Nat) ∨
    fracLenient W lim (ds.map (digitOf false) ++ t) a dv = .ub .overflow := by
  intro ds
  induction ds with
  | nil => intro a dv _ _; left; simp
  | cons d ds ih =>
    intro a dv hd hp
    have h10 := hd.head
    have ha : a ≤ lim := hp [] d ds rfl
    have e : dv * 10 ^ (ds.length + 1) = dv * 10 * 10 ^ ds.length := by rw [pow_succ]; ring
    rw [List.map_cons, List.cons_append, List.length_cons, e, acc_cons]
    have hu : ∀ x : List Char, fracLenient W lim (digitOf false d :: x) a dv = (do
        let dec' ← accDigit W a (digitOf false d)
        let dv' ← mulTen W dv
        fracLenient W lim x dec' dv') := by
      intro x
      conv_lhs => unfold fracLenient
      rw [if_neg (by rw [isDigit_digitOf h10]; push Not; exact ⟨by exact_mod_cast ha, by simp⟩)]
    rw [hu]
    rcases h.accDigit_or a d h10 with e1 | e1
    · rcases h.mulTen_or dv with e2 | e2
      · rw [e1, e2, Res.bind_ok, Res.bind_ok]
        refine ih _ _ hd.tail ?_
        intro p d' q hq
        have := hp (d :: p) d' q (by rw [hq]; rfl)
        rwa [acc_cons] at this
      · rw [e1, e2]; exact Or.inr rfl
    · rw [e1]; exact Or.inr rfl

theorem takeSign_pre (neg : Bool) (is : List Nat) (his : Decimal is) (c : Char) (t : List Char) (hsign : neg = false → is = [] → c ≠ '-') :
    takeSign ((if neg then ['-'] else []) ++ is.map (digitOf false) ++ c :: t) = (neg, is.map (digitOf false) ++ c :: t) := by
  cases neg
  · cases is with
    | nil => exact if_neg (hsign rfl rfl)
    | cons d is => exact if_neg (digitOf_ne_minus his.head)
  · rfl

theorem bad_integer {F : FxTy} (hws : WS F.I) (neg : Bool) (is : List Nat) (his : Decimal is) (c : Char) (t : List Char)
    (hc : ¬ DigitChar c) (hdot : c ≠ '.') (hsign : neg = false → is = [] → c ≠ '-') (old : Int) :
    (parseDetail F ((if neg then ['-'] else []) ++ is.map (digitOf false) ++ c :: t) old = .ok (false, old) ∨
      parseDetail F ((if neg then ['-'] else []) ++ is.map (digitOf false) ++ c :: t) old = .ub .overflow) ∧
    ((digitsVal 10 is : Int) ≤ F.I.hi →
      parseDetail F ((if neg then ['-'] else []) ++ is.map (digitOf false) ++ c :: t) old = .ok (false, old)) := by
  have hcd : isDigit c = false := by
    rw [Bool.eq_false_iff]; intro hh; exact hc ((isDigit_iff c).1 hh)
  have key : ∀ a : Int, intLenient F.I (c :: t) a = .ok (a, c :: t) := by
    intro a; unfold intLenient; rw [if_neg hdot, hcd]; rfl
  have hok : okInt (c :: t) = false := by simp [okInt, hdot]
  unfold parseDetail
  rw [takeSign_pre neg is his c t hsign]
  simp only [intStrict_eq]
  constructor
  · rcases intLenient_or hws (c :: t) is 0 his with e | e
    · rw [Nat.cast_zero] at e
      left; rw [e, key]; simp [hok]
    · rw [Nat.cast_zero] at e
      right; rw [e]; rfl
  · intro hle
    have e := hws.intLenient_digits (c :: t) is 0 his hle
    rw [Nat.cast_zero] at e
    rw [e, key]; simp [hok]

/-- C48: text with a character other than a digit or the point in the integer part is never accepted: the verdict is false (output
untouched) unless the digits before it already overflow the intermediate type, which is undefined behaviour; below that it is false. -/
theorem C48_bad_integer (F : FxTy) (hF : F = fixed32 ∨ F = fixed64) (neg : Bool) (is : List Nat) (his : Decimal is) (c : Char) (t : List Char)
    (hc : ¬ DigitChar c) (hdot : c ≠ '.') (hsign : neg = false → is = [] → c ≠ '-') (old : Int) :
    (parseDetail F ((if neg then ['-'] else []) ++ is.map (digitOf false) ++ c :: t) old = .ok (false, old) ∨
      parseDetail F ((if neg then ['-'] else []) ++ is.map (digitOf false) ++ c :: t) old = .ub .overflow) ∧
    ((digitsVal 10 is : Int) ≤ F.I.hi →
      parseDetail F ((if neg then ['-'] else []) ++ is.map (digitOf false) ++ c :: t) old = .ok (false, old)) :=
  bad_integer (ws_of hF) neg is his c t hc hdot hsign old

theorem bad_fraction {F : FxTy} (hps : PS F) (neg : Bool) (is ds : List Nat) (his : Decimal is) (hds : Decimal ds)
    (hcut : ∀ p d q, ds = p ++ d :: q → digitsVal 10 p ≤ (2 ^ F.f - 1) / 10) (c : Char) (t : List Char) (hc : ¬ DigitChar c) (old : Int) :
    (parseDetail F ((if neg then ['-'] else []) ++ is.map (digitOf false) ++ '.' :: (ds.map (digitOf false) ++ c :: t)) old = .ok (false, old) ∨
      parseDetail F ((if neg then ['-'] else []) ++ is.map (digitOf false) ++ '.' :: (ds.map (digitOf false) ++ c :: t)) old = .ub .overflow) ∧
    ((digitsVal 10 is : Int) ≤ F.I.hi → ((10 ^ ds.length : Nat) : Int) ≤ F.I.hi →
      parseDetail F ((if neg then ['-'] else []) ++ is.map (digitOf false) ++ '.' :: (ds.map (digitOf false) ++ c :: t)) old = .ok (false, old)) := by
  have hcd : isDigit c = false := by
    rw [Bool.eq_false_iff]; intro hh; exact hc ((isDigit_iff c).1 hh)
  have key : ∀ (a : Int) (r : List Char), intLenient F.I ('.' :: r) a = .ok (a, '.' :: r) := by
    intro a r; unfold intLenient; rw [if_pos rfl]
  have key2 : ∀ a b : Int, fracLenient F.I (cutLim F) (c :: t) a b = .ok (a, b, c :: t) := by
    intro a b; unfold fracLenient; rw [if_pos (Or.inr (by rw [hcd]; rfl))]
  have hok : ∀ r : List Char, okInt ('.' :: r) = true := by intro r; simp [okInt]
  have hok2 : okFrac (c :: t) = false := hcd
  unfold parseDetail
  rw [takeSign_pre neg is his '.' _ (fun _ _ => by decide)]
  simp only [intStrict_eq, fracStrict_eq, hps.limD]
  constructor
  · rcases intLenient_or hps.ws ('.' :: (ds.map (digitOf false) ++ c :: t)) is 0 his with e | e
    · rw [Nat.cast_zero] at e
      rw [e, key]
      simp only [Res.bind_ok, hok, if_true]
      rcases fracLenient_or hps.ws (cutLim F) (c :: t) ds 0 1 hds hcut with e2 | e2
      · rw [Nat.cast_zero, Nat.cast_one] at e2
        left; rw [e2, key2]; simp [hok2]
      · rw [Nat.cast_zero, Nat.cast_one] at e2
        right; rw [e2]; rfl
    · rw [Nat.cast_zero] at e
      right; rw [e]; rfl
  · intro hle hlen
    have e := hps.ws.intLenient_digits ('.' :: (ds.map (digitOf false) ++ c :: t)) is 0 his hle
    rw [Nat.cast_zero] at e
    rw [e, key]
    simp only [Res.bind_ok, hok, if_true]
    have hlim : ((cutLim F * 10 + 9 : Nat) : Int) ≤ F.I.hi :=
      le_trans (by exact_mod_cast Nat.le_mul_of_pos_right _ (by positivity : 0 < 2 ^ F.f)) hps.fits
    have hten : ((1 * 10 ^ ds.length : Nat) : Int) ≤ F.I.hi := by rw [one_mul]; exact hlen
    have e2 := hps.ws.fracLenient_digits (cutLim F) (c :: t) hlim ds 0 1 hds hcut hten
    rw [Nat.cast_zero, Nat.cast_one] at e2
    rw [e2, key2]; simp [hok2]

/-- C48: text with a non-digit in the fraction before the precision cut-off (`digitsVal 10 p ≤ (2^f - 1)/10` for the fraction digits
`p` preceding any digit before it) is never accepted. -/
theorem C48_bad_fraction (F : FxTy) (hF : F = fixed32 ∨ F = fixed64) (neg : Bool) (is ds : List Nat) (his : Decimal is) (hds : Decimal ds)
    (hcut : ∀ p d q, ds = p ++ d :: q → digitsVal 10 p ≤ (2 ^ F.f - 1) / 10) (c : Char) (t : List Char) (hc : ¬ DigitChar c) (old : Int) :
    (parseDetail F ((if neg then ['-'] else []) ++ is.map (digitOf false) ++ '.' :: (ds.map (digitOf false) ++ c :: t)) old = .ok (false, old) ∨
      parseDetail F ((if neg then ['-'] else []) ++ is.map (digitOf false) ++ '.' :: (ds.map (digitOf false) ++ c :: t)) old = .ub .overflow) ∧
    ((digitsVal 10 is : Int) ≤ F.I.hi → ds.length ≤ maxFrac F →
      parseDetail F ((if neg then ['-'] else []) ++ is.map (digitOf false) ++ '.' :: (ds.map (digitOf false) ++ c :: t)) old = .ok (false, old)) := by
  have hps : PS F := by rcases hF with rfl | rfl; exacts [ps32, ps64]
  obtain ⟨h1, h2⟩ := bad_fraction hps neg is ds his hds hcut c t hc old
  have h3 : ((10 ^ maxFrac F : Nat) : Int) ≤ F.I.hi := by rcases hF with rfl | rfl <;> decide +kernel
  exact ⟨h1, fun hle hlen => h2 hle (le_trans (by exact_mod_cast Nat.pow_le_pow_right (by norm_num) hlen) h3)⟩

example : parseDetail fixed32 "12x4".toList 7 = .ok (false, 7) ∧ parseDetail fixed32 "1.5e3".toList 7 = .ok (false, 7) ∧
    parseDetail fixed32 "--1".toList 7 = .ok (false, 7) ∧ parseDetail fixed32 "1.2.3".toList 7 = .ok (false, 7) ∧
    f32FromCstring " 1".toList 7 = .ok (false, 7) ∧
    -- after the cut-off the rest of the text is not examined
    parseDetail fixed32 "0.70000x".toList 7 = .ok (true, 45875) := by decide +kernel

/-! ### C49: overflow detection -/

/-- C49 as stated: on every numeral the parsers return, false exactly when the magnitude exceeds the largest representable value. -/
def C49_statement : Prop :=
  ∀ (neg : Bool) (is : List Nat) (fs : Option (List Nat)) (old : Int), Decimal is → Decimal (fracDigits fs) →
    ∃ b v, parseDetail fixed32 (numeral neg is fs) old = .ok (b, v) ∧
      (b = false ↔ val fixed32 fixed32.T.hi < numeralMag is fs)

/-- It does not hold: `"281474976710656"_f32` (2^48) is accepted with the value zero, because the shift of the integer part wraps. -/
theorem C49_false : ¬ C49_statement := by
  intro h
  obtain ⟨b, v, e, hb⟩ := h false [2, 8, 1, 4, 7, 4, 9, 7, 6, 7, 1, 0, 6, 5, 6] none 7 (by decide) (by intro d hd; simp [fracDigits] at hd)
  have e2 : parseDetail fixed32 (numeral false [2, 8, 1, 4, 7, 4, 9, 7, 6, 7, 1, 0, 6, 5, 6] none) 7 = .ok (true, 0) := by decide +kernel
  rw [e2] at e
  have hb1 : b = true := by have := Res.ok.inj e; simp at this; exact this.1
  have : b = false := hb.2 (by
    unfold numeralMag val fracDigits
    have : digitsVal 10 [2, 8, 1, 4, 7, 4, 9, 7, 6, 7, 1, 0, 6, 5, 6] = 281474976710656 := by decide +kernel
    have h2 : fixed32.T.hi = 2147483647 := by decide
    have h3 : fixed32.f = 16 := rfl
    rw [this, h2, h3]; simp only [Option.getD_none, fracVal]; norm_num)
  rw [hb1] at this; cases this

/-- Two more ways in which it fails: long numerals are undefined behaviour (the digit accumulator and the divisor overflow). -/
theorem C49_undefined : parseDetail fixed32 "9223372036854775808".toList 7 = .ub .overflow ∧
    parseDetail fixed32 "0.0000000000000000000".toList 7 = .ub .overflow := by decide +kernel

/-- C49 (partial): for numerals whose integer part is below `2^47` (`fixed32`) or `2^95` (`fixed64`) and whose fraction fits the divisor,
each parser returns false, leaving the output alone, exactly when the magnitude is at least `2^15` (`2^31`); otherwise it returns true
with the value described by C47.  (Magnitudes between the largest representable value and the bound are accepted and truncated.)
Missing from the full statement: longer numerals (see `C49_false`, `C49_undefined`). -/
theorem C49_overflow_partial (F : FxTy) (hF : F = fixed32 ∨ F = fixed64) (neg : Bool) (is : List Nat) (fs : Option (List Nat))
    (his : Decimal is) (hfs : Decimal (fracDigits fs)) (hip : digitsVal 10 is < 2 ^ (F.I.bits - 1 - F.f) - 1)
    (hlen : FracOk F (fracDigits fs)) (old : Int) :
    (2 ^ (F.T.bits - 1 - F.f) ≤ numeralMag is fs → parseDetail F (numeral neg is fs) old = .ok (false, old) ∧
      fixedFromCstring F (numeral neg is fs) old = .ok (false, old)) ∧
    (numeralMag is fs < 2 ^ (F.T.bits - 1 - F.f) → ∃ m : Nat, parseDetail F (numeral neg is fs) old = .ok (true, if neg then -(m : Int) else m) ∧
      fixedFromCstring F (numeral neg is fs) old = .ok (true, if neg then -(m : Int) else m) ∧
      val F m ≤ numeralMag is fs ∧ numeralMag is fs < val F m + 8 * ulp F) := by
  have hps : PS F := by rcases hF with rfl | rfl; exacts [ps32, ps64]
  constructor
  · intro hbig
    have hip' : ((digitsVal 10 is + 1) * 2 ^ F.f : Int) ≤ F.I.hi := by
      have h1 : digitsVal 10 is + 1 ≤ 2 ^ (F.I.bits - 1 - F.f) - 1 := by omega
      have h2 : ((digitsVal 10 is + 1) * 2 ^ F.f : Int) ≤ (((2 ^ (F.I.bits - 1 - F.f) - 1) * 2 ^ F.f : Nat) : Int) := by
        exact_mod_cast Nat.mul_le_mul_right _ h1
      refine le_trans h2 ?_
      rcases hF with rfl | rfl <;> decide +kernel
    obtain ⟨raw, hr, e1, e2⟩ := parse_lib F hF neg is fs his hfs hip' hlen old
    have hfit := (raw_fits hps.sw hfs hr).not.2 (not_lt.2 hbig)
    have eo : parsedOut F neg raw old = .ok (false, old) := by unfold parsedOut; rw [if_neg hfit]
    rw [eo] at e1 e2
    exact ⟨e1, e2⟩
  · intro hmag
    obtain ⟨m, h1, h2, -, -, h3, h4, -⟩ := C47_value F hF neg is fs his hfs hmag hlen old
    exact ⟨m, h1, h2, h3, h4⟩

example : parseDetail fixed32 "32768".toList 7 = .ok (false, 7) ∧ parseDetail fixed32 "-32768".toList 7 = .ok (false, 7) ∧
    parseDetail fixed32 "32767.999999".toList 7 = .ok (true, 2147483641) ∧ parseDetail fixed64 "2147483648".toList 7 = .ok (false, 7) := by
  decide +kernel

/-! ### C50: print, then parse -/

theorem digitOf_up {d : Nat} (h : d < 10) (up : Bool) : digitOf up d = digitOf false d := by
  unfold digitOf; rw [if_pos h, if_pos h]

/-- C50: for every `fixed32` or `fixed64` value other than the minimum, parsing the text written by `operator<<` succeeds and recovers
the value up to 7 ulp (never farther from zero than it), and exactly when it is integral. -/
theorem C50_round_trip (F : FxTy) (hF : F = fixed32 ∨ F = fixed64) (x : Int) (hx : Storable F x) (hmin : x ≠ F.T.lo) (oct up : Bool) (old : Int) :
    ∃ s y, streamOut F x false true oct up = .ok s ∧ parseDetail F s old = .ok (true, y) ∧ fixedFromCstring F s old = .ok (true, y) ∧
      |x - y| ≤ 7 ∧ |y| ≤ |x| ∧ (Integral F x → y = x) := by
  have hps : PS F := by rcases hF with rfl | rfl; exacts [ps32, ps64]
  obtain ⟨s, hs, is, fs, e, his, hfs, -, hlast, habs⟩ := C45_decimal F hF x hx oct up
  have hneg : val F x < 0 ↔ x < 0 := by rw [← val_zero F, val_lt]
  have hp : (0 : ℚ) < 2 ^ F.f := by positivity
  set fs' : Option (List Nat) := if fs = [] then none else some fs with hfs'
  have hfd : fracDigits fs' = fs := by
    rw [hfs']; by_cases h0 : fs = [] <;> simp [h0, fracDigits]
  have es : s = numeral (decide (x < 0)) is fs' := by
    rw [e]
    unfold numeral
    rw [List.append_assoc]
    congr 1
    · by_cases h0 : x < 0
      · rw [if_pos (hneg.2 h0)]; simp [h0]
      · rw [if_neg (fun hc => h0 (hneg.1 hc))]; simp [h0]
    · congr 1
      · exact List.map_congr_left (fun d hd => digitOf_up (his d hd) up)
      · rw [hfs']
        by_cases h0 : fs = []
        · rw [if_pos h0, if_pos h0]
        · rw [if_neg h0, if_neg h0]
          simp only
          rw [List.map_congr_left (fun d hd => digitOf_up (hfs d hd) up)]
  have hmag : numeralMag is fs' = |val F x| := by unfold numeralMag; rw [hfd, habs]
  have hav : |val F x| = ((|x| : Int) : ℚ) / 2 ^ F.f := by
    unfold val; rw [abs_div, abs_of_pos hp, Int.cast_abs]
  have hxhi : |x| ≤ F.T.hi := by
    have := hps.sw.lo_hi
    obtain ⟨a, b⟩ := hx
    rw [abs_le]; omega
  have hlt : numeralMag is fs' < 2 ^ (F.T.bits - 1 - F.f) := by
    rw [hmag, hav, div_lt_iff₀ hp]
    have h1 := hi_succ hps.sw
    have h2 : |x| < 2 ^ (F.T.bits - 1 - F.f) * 2 ^ F.f := by omega
    exact_mod_cast h2
  have hfd' : Decimal (fracDigits fs') := by rw [hfd]; exact hfs
  have hk : ∃ k : Nat, fracVal 10 fs = (k : ℚ) / 2 ^ F.f := by
    have h1 : fracVal 10 fs = |val F x| - digitsVal 10 is := by rw [habs]; ring
    have h0 := fracVal_nonneg fs
    have h2 : fracVal 10 fs = ((|x| - digitsVal 10 is * 2 ^ F.f : Int) : ℚ) / 2 ^ F.f := by
      rw [h1, hav]; push_cast; field_simp
    have h3 : 0 ≤ |x| - digitsVal 10 is * 2 ^ F.f := by
      rw [h2] at h0
      by_contra hc
      push Not at hc
      have : ((|x| - digitsVal 10 is * 2 ^ F.f : Int) : ℚ) < 0 := by exact_mod_cast hc
      have := div_neg_of_neg_of_pos this hp
      linarith
    refine ⟨(|x| - digitsVal 10 is * 2 ^ F.f).toNat, ?_⟩
    rw [h2]
    congr 1
    have := Int.toNat_of_nonneg h3
    exact_mod_cast this.symm
  have hlen : FracOk F (fracDigits fs') := by
    rw [hfd]
    obtain ⟨k, hk⟩ := hk
    by_cases h0 : k = 0
    · have hz : fs = [] := by
        rcases List.eq_nil_or_concat fs with hh | ⟨l, d, hh⟩
        · exact hh
        · exfalso
          have h1 := hlast d (by rw [hh]; simp)
          have h2 : fracVal 10 fs = 0 := by rw [hk, h0]; simp
          rw [fracVal_eq, div_eq_zero_iff] at h2
          rcases h2 with h2 | h2
          · have h3 : acc 0 fs = 0 := by exact_mod_cast h2
            rw [hh, List.concat_eq_append, acc_append] at h3
            simp at h3
            exact h1 h3.2
          · exact absurd h2 (by positivity)
      left; rw [hz]; simp
    · right
      rw [hk]
      have h1 : (1 : ℚ) ≤ k := by exact_mod_cast Nat.one_le_iff_ne_zero.2 h0
      have h2 : (1 : ℚ) / 2 ^ F.f ≤ (k : ℚ) / 2 ^ F.f := by gcongr
      refine le_trans ?_ h2
      rcases hF with rfl | rfl
      · have e1 : maxFrac fixed32 = 18 := by decide
        have e2 : fixed32.f = 16 := rfl
        rw [e1, e2]; norm_num
      · have e1 : maxFrac fixed64 = 38 := by decide
        have e2 : fixed64.f = 32 := rfl
        rw [e1, e2]; norm_num
  obtain ⟨m, p1, p2, -, -, p3, p4, p5⟩ := C47_value F hF (decide (x < 0)) is fs' his hfd' hlt hlen old
  refine ⟨s, if decide (x < 0) = true then -(m : Int) else m, hs, by rw [es]; exact p1, by rw [es]; exact p2, ?_⟩
  rw [hmag, hav] at p3 p4
  unfold val at p3 p4
  unfold ulp at p4
  rw [div_le_div_iff_of_pos_right hp] at p3
  rw [mul_one_div, ← add_div, div_lt_div_iff_of_pos_right hp] at p4
  have q3 : (m : Int) ≤ |x| := by exact_mod_cast p3
  have q4 : |x| < m + 8 := by exact_mod_cast p4
  have q0 : (0 : Int) ≤ m := by positivity
  have q5 : Integral F x → (m : Int) = |x| := by
    rintro ⟨z, hz⟩
    have h0 : fracVal 10 (fracDigits fs') = 0 := by
      rw [hfd]
      have h1 : ((|z| : Int) : ℚ) = ((digitsVal 10 is : Nat) : Int) + fracVal 10 fs := by
        rw [Int.cast_abs, ← hz, habs]; push_cast; rfl
      have h2 : fracVal 10 fs = ((|z| - (digitsVal 10 is : Nat) : Int) : ℚ) := by push_cast at h1 ⊢; linarith
      have h3 := fracVal_nonneg fs
      have h4 := fracVal_lt hfs
      rw [h2] at h3 h4 ⊢
      have h5 : 0 ≤ |z| - (digitsVal 10 is : Nat) := by exact_mod_cast h3
      have h6 : |z| - (digitsVal 10 is : Nat) < 1 := by exact_mod_cast h4
      have h7 : |z| - (digitsVal 10 is : Nat) = 0 := by omega
      rw [h7]; simp
    have := p5 h0
    rw [hmag, hav] at this
    unfold val at this
    rw [div_left_inj' hp.ne'] at this
    exact_mod_cast this
  by_cases h0 : x < 0
  · rw [if_pos (by simpa using h0)]
    rw [abs_of_neg h0] at q3 q4 q5 ⊢
    refine ⟨by rw [abs_le]; omega, by rw [abs_neg, abs_of_nonneg q0]; omega, fun hi => by have := q5 hi; omega⟩
  · rw [if_neg (by simpa using h0)]
    rw [abs_of_nonneg (by omega : 0 ≤ x)] at q3 q4 q5 ⊢
    refine ⟨by rw [abs_le]; omega, by rw [abs_of_nonneg q0]; omega, fun hi => by have := q5 hi; omega⟩

example : streamOut fixed32 (-98765) false true false false = .ok "-1.5070343017578125".toList ∧
    parseDetail fixed32 "-1.5070343017578125".toList 0 = .ok (true, -98764) ∧ parseDetail fixed32 "-3".toList 0 = .ok (true, -196608) := by
  decide +kernel

end Eirin.Props
