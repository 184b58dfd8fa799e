import Verif.Props.Stream
import Verif.Props.Format

/-! # Properties C93 and C94: text written by one interface and read by another -/

namespace Eirin.Props
open Spec

/-- The text printed by `operator<<` in decimal, as a parser numeral. -/
theorem printed_numeral (F : FxTy) (hF : F = fixed32 ∨ F = fixed64) (x : Int) (hx : Storable F x) (oct up : Bool) :
    ∃ is fs, streamOut F x false true oct up = .ok (numeral (decide (x < 0)) is fs) ∧ Decimal is ∧ Decimal (fracDigits fs) ∧
      is ≠ [] ∧ (∀ d, (fracDigits fs).getLast? = some d → d ≠ 0) ∧ numeralMag is fs = |val F x| := by
  obtain ⟨s, hs, is, fs, e, his, hfs, hnz, hlast, habs⟩ := C45_decimal F hF x hx oct up
  have hneg : val F x < 0 ↔ x < 0 := by rw [← val_zero F, val_lt]
  have hfd : fracDigits (if fs = [] then none else some fs) = fs := by
    by_cases h0 : fs = [] <;> simp [h0, fracDigits]
  have hne : is ≠ [] := by rcases hnz with rfl | ⟨d, ds, rfl, -⟩ <;> simp
  refine ⟨is, if fs = [] then none else some fs, ?_, his, by rw [hfd]; exact hfs, hne, by rw [hfd]; exact hlast, ?_⟩
  · rw [hs, e]
    unfold numeral
    rw [List.append_assoc]
    congr 2
    · by_cases h0 : x < 0
      · rw [if_pos (hneg.2 h0)]; simp [h0]
      · rw [if_neg (fun hc => h0 (hneg.1 hc))]; simp [h0]
    · congr 1
      · exact List.map_congr_left (fun d hd => digitOf_up (his d hd) up)
      · by_cases h0 : fs = []
        · rw [if_pos h0, if_pos h0]
        · rw [if_neg h0, if_neg h0]
          simp only
          rw [List.map_congr_left (fun d hd => digitOf_up (hfs d hd) up)]
  · unfold numeralMag; rw [hfd, habs]

/-- A decimal fraction without trailing zeros that becomes integral when multiplied by `10^k` has at most `k` digits. -/
theorem length_le_of_fracVal {ds : List Nat} (hd : Decimal ds) (hl : ∀ d, ds.getLast? = some d → d ≠ 0) {k : Nat} {n : Int}
    (h : fracVal 10 ds * 10 ^ k = n) : ds.length ≤ k := by
  rcases List.eq_nil_or_concat ds with e | ⟨l, d, e⟩
  · simp [e]
  · rw [List.concat_eq_append] at e
    have hd0 := hl d (by rw [e]; simp)
    have hd10 : d < 10 := hd d (by rw [e]; simp)
    by_contra hc
    push Not at hc
    rw [fracVal_eq, div_mul_eq_mul_div, div_eq_iff (by positivity)] at h
    have hlen : ds.length = k + (ds.length - k - 1) + 1 := by omega
    rw [hlen, pow_succ, pow_add] at h
    have h2 : ((acc 0 ds : Nat) : ℚ) = (n * (10 ^ (ds.length - k - 1) * 10) : Int) := by
      have hk : (10 : ℚ) ^ k ≠ 0 := by positivity
      apply mul_right_cancel₀ hk
      rw [h]; push_cast; ring
    have h3 : ((acc 0 ds : Nat) : Int) = n * (10 ^ (ds.length - k - 1) * 10) := by exact_mod_cast h2
    have h4 : acc 0 ds = acc 0 l * 10 + d := by
      rw [e, acc_append]; simp [acc]
    rw [h4] at h3
    push_cast at h3
    have : ((acc 0 l : Int) * 10 + d) % 10 = 0 := by
      rw [h3, ← mul_assoc]; simp
    omega

/-- C93 as stated: what `operator<<` writes, `operator>>` reads back. -/
def C93_statement : Prop :=
  ∀ (x old : Int), Storable fixed32 x → ∃ s, streamOut fixed32 x false true false false = .ok s ∧ streamIn fixed32 s old = .ok (x, [])

/-- This is false of the code: one ulp is written as `0.0000152587890625`, of which extraction reads only `0.000015258`, leaving the rest
in the stream and storing zero. -/
theorem C93_false : ¬ C93_statement := by
  intro h
  obtain ⟨s, h1, h2⟩ := h 1 0 (by decide +kernel)
  have e : streamOut fixed32 1 false true false false = .ok "0.0000152587890625".toList := by decide +kernel
  rw [e] at h1
  cases h1
  exact absurd h2 (by decide +kernel)

/-- C93, values that are read wrongly: `0.328125` is read as `-0.3272…` with a digit left over, and reading the minimum back overflows. -/
theorem C93_wrong : streamOut fixed32 21504 false true false false = .ok "0.328125".toList ∧
    streamIn fixed32 "0.328125".toList 0 = .ok (-21446, ['5']) ∧
    streamOut fixed32 (-2147483648) false true false false = .ok "-32768".toList ∧
    streamIn fixed32 "-32768".toList 0 = .ub .overflow := by decide +kernel

/-- C93: a multiple of `1/16` (`fixed32`) or `1/512` (`fixed64`), other than the minimum, written with `operator<<` and followed by any text that does not begin
with a digit or a point is read back exactly, and the following text is left in the stream.  Full statement: `C93_statement`; missing are
the minimum and values with longer fractions, for which it fails (`C93_false`, `C93_wrong`). -/
theorem C93_round_trip_partial (F : FxTy) (hF : F = fixed32 ∨ F = fixed64) (x : Int) (hx : Storable F x)
    (hk : (2 : Int) ^ (F.f - if F.T.bits = 32 then 4 else 9) ∣ x) (oct up : Bool) (g : List Char)
    (hg : ∀ c t, g = c :: t → ¬ DigitChar c ∧ c ≠ '.') (hmin : x ≠ F.T.lo) (old : Int) :
    ∃ s, streamOut F x false true oct up = .ok s ∧ streamIn F (s ++ g) old = .ok (x, g) := by
  have hps : PS F := by rcases hF with rfl | rfl; exacts [ps32, ps64]
  obtain ⟨is, fs, hs, his, hfs, hne, hlast, hmag⟩ := printed_numeral F hF x hx oct up
  refine ⟨_, hs, ?_⟩
  have hp : (0 : ℚ) < 2 ^ F.f := by positivity
  have hav : |val F x| = ((|x| : Int) : ℚ) / 2 ^ F.f := by
    unfold val; rw [abs_div, abs_of_pos hp, Int.cast_abs]
  have hlt : numeralMag is fs < 2 ^ (F.T.bits - 1 - F.f) := by
    rw [hmag, hav, div_lt_iff₀ hp]
    have h1 := hi_succ hps.sw
    have h2 : |x| < 2 ^ (F.T.bits - 1 - F.f) * 2 ^ F.f := by
      have := hps.sw.lo_hi
      obtain ⟨a, b⟩ := hx
      have : |x| ≤ F.T.hi := by rw [abs_le]; omega
      omega
    exact_mod_cast h2
  have hlen : (fracDigits fs).length ≤ if F.T.bits = 32 then 4 else 9 := by
    obtain ⟨j, hj⟩ := (dvd_abs _ _).2 hk
    have hfr : fracVal 10 (fracDigits fs) = |val F x| - digitsVal 10 is := by rw [← hmag]; unfold numeralMag; ring
    rcases hF with rfl | rfl
    · apply length_le_of_fracVal hfs hlast (n := j * 5 ^ 4 - digitsVal 10 is * 10 ^ 4)
      rw [hfr, hav, hj]
      norm_num [fixed32, i32]
      ring
    · apply length_le_of_fracVal hfs hlast (n := j * 5 ^ 9 - digitsVal 10 is * 10 ^ 9)
      rw [hfr, hav, hj]
      norm_num [fixed64, i64]
      ring
  obtain ⟨m, hm, hfl⟩ := C52_reads_partial F hF (decide (x < 0)) is fs his hfs hlt hlen g
    (fun c t e => ⟨(hg c t e).1, fun _ => ⟨(hg c t e).2, fun h0 => absurd h0 hne⟩⟩) (by
      unfold numeral
      intro hc
      simp [hne] at hc) old
  rw [hm]
  have hmx : (m : Int) = |x| := by
    obtain ⟨a, b⟩ := hfl
    rw [hmag, hav] at a b
    unfold val at a
    unfold ulp val at b
    rw [div_le_div_iff_of_pos_right hp] at a
    rw [← add_div, div_lt_div_iff_of_pos_right hp] at b
    have a' : (m : Int) ≤ |x| := by exact_mod_cast a
    have b' : |x| < m + 1 := by exact_mod_cast b
    omega
  rw [hmx]
  by_cases h0 : x < 0
  · rw [if_pos (by simpa using h0), abs_of_neg h0, neg_neg]
  · rw [if_neg (by simpa using h0), abs_of_nonneg (by omega)]

example : Storable fixed32 (-86016) ∧ (2 : Int) ^ (fixed32.f - if fixed32.T.bits = 32 then 4 else 9) ∣ -86016 ∧
    streamOut fixed32 (-86016) false true false false = .ok "-1.3125".toList ∧
    streamIn fixed32 "-1.3125 7".toList 0 = .ok (-86016, " 7".toList) := by decide +kernel

/-! ### C94 -/

/-- C94 as stated, for `fixed32`: the text of `std::format` with precision `p` parses back to the value, up to `10^-p` and 8 ulp. -/
def C94_statement : Prop :=
  ∀ (st : FmtState) (x old : Int), Storable fixed32 x → st.type ∈ ['g', 'G', 'f', 'F'] → st.width ≤ 0 → st.sign = '-' → effPrec st ≤ 18 →
    ∃ s y, formatTo fixed32 st x = .ok s ∧ parseDetail fixed32 s old = .ok (true, y) ∧
      |val fixed32 x - val fixed32 y| < 1 / 10 ^ effPrec st + 8 * ulp fixed32

/-- This is false of the code: `-1.5` is formatted as `-2.5`. -/
theorem C94_false : ¬ C94_statement := by
  intro h
  obtain ⟨s, y, h1, h2, h3⟩ := h {} (-98304) 0 (by decide +kernel) (by decide) (by decide) (by decide) (by decide)
  have e : formatTo fixed32 {} (-98304) = .ok "-2.5".toList := by decide +kernel
  rw [e] at h1
  cases h1
  have e2 : parseDetail fixed32 "-2.5".toList 0 = .ok (true, -163840) := by decide +kernel
  rw [e2] at h2
  cases h2
  norm_num [val, ulp, fixed32, effPrec, abs_lt] at h3

/-- The digits of a formatted number approximate the fraction from below. -/
theorem isDecimal_frac {st : FmtState} {q : ℚ} {ds : List Nat}
    (h : if st.type = 'f' ∨ st.type = 'F' then FixedDigits (effPrec st) q ds else TruncDigits (effPrec st) q ds) :
    Decimal ds ∧ ds.length ≤ effPrec st ∧ fracVal 10 ds ≤ q ∧ q < fracVal 10 ds + 1 / 10 ^ effPrec st := by
  split at h
  · exact ⟨h.1, h.2.1.le, h.2.2.1, h.2.2.2⟩
  · exact ⟨h.1, h.2.1, h.2.2.1, h.2.2.2.1⟩

/-- C94: for non-negative values and negative integers the formatted text (with at most 18, respectively 38, decimals) parses back to a
number not above it in magnitude and less than `10^-p` plus eight ulps below.  Full statement: `C94_statement`; missing are the negative
non-integers, where it fails (`C94_false`). -/
theorem C94_round_trip_partial (F : FxTy) (hF : F = fixed32 ∨ F = fixed64) (st : FmtState) (x old : Int) (hx : Storable F x)
    (ht : st.type ∈ ['g', 'G', 'f', 'F']) (hw : st.width ≤ 0) (hsg : st.sign = '-') (hp : effPrec st ≤ maxFrac F)
    (hcase : 0 ≤ x ∨ (Integral F x ∧ Storable F (x - 2 ^ F.f))) :
    ∃ s y, formatTo F st x = .ok s ∧ parseDetail F s old = .ok (true, y) ∧ fixedFromCstring F s old = .ok (true, y) ∧
      |val F y| ≤ |val F x| ∧ |val F x| < |val F y| + 1 / 10 ^ effPrec st + 8 * ulp F ∧ 0 ≤ y * x ∧ (Integral F x → y = x) := by
  have hps : PS F := by rcases hF with rfl | rfl; exacts [ps32, ps64]
  have hfit : Storable F (10 * 2 ^ F.f) := by rcases hF with rfl | rfl <;> decide +kernel
  obtain ⟨out, ho, ds, e, hd⟩ := C55_decimal_partial hps.sw.valid hps.sw.2 hps.sw.one hfit st x hx ht hw hcase
  obtain ⟨d1, d2, d3, d4⟩ := isDecimal_frac hd
  obtain ⟨is, ei, hi, -, hv⟩ := natText_spec (show 2 ≤ 10 by norm_num) false ⌊|val F x|⌋₊
  have hq : (0 : ℚ) < 2 ^ F.f := by positivity
  have hav : |val F x| = ((|x| : Int) : ℚ) / 2 ^ F.f := by
    unfold val; rw [abs_div, abs_of_pos hq, Int.cast_abs]
  have hsum : |val F x| = (digitsVal 10 is : ℚ) + fracMag F x := by unfold fracMag; rw [hv]; ring
  set fs : Option (List Nat) := if fracMag F x = 0 ∧ ds = [] then none else some ds with hfs
  have hfd : fracDigits fs = ds := by
    rw [hfs]; by_cases h0 : fracMag F x = 0 ∧ ds = []
    · rw [if_pos h0, h0.2]; rfl
    · rw [if_neg h0]; rfl
  have eo : out = numeral (decide (x < 0)) is fs := by
    rw [e, ei, hsg]
    unfold numeral signText
    have e1 : (if decide (x < 0) = true then ['-'] else if ('-' : Char) = '+' then ['+'] else if ('-' : Char) = ' ' then [' '] else []) =
        (if decide (x < 0) = true then ['-'] else []) := by cases decide (x < 0) <;> simp
    rw [List.append_assoc, e1, hfs]
    by_cases h0 : fracMag F x = 0 ∧ ds = []
    · rw [if_pos h0, if_pos h0]
    · rw [if_neg h0, if_neg h0]
  have hmag1 : numeralMag is fs ≤ |val F x| := by unfold numeralMag; rw [hfd, hsum]; linarith
  have hmag2 : |val F x| < numeralMag is fs + 1 / 10 ^ effPrec st := by unfold numeralMag; rw [hfd, hsum]; linarith
  have hxhi : |x| ≤ F.T.hi := by
    have := hps.sw.lo_hi
    have hdp := SW.dpos (F := F)
    obtain ⟨a, b⟩ := hx
    rw [abs_le]
    rcases hcase with c | ⟨-, c⟩
    · omega
    · have := c.1; omega
  have hlt : numeralMag is fs < 2 ^ (F.T.bits - 1 - F.f) := by
    refine lt_of_le_of_lt hmag1 ?_
    rw [hav, div_lt_iff₀ hq]
    have h1 := hi_succ hps.sw
    have h2 : |x| < 2 ^ (F.T.bits - 1 - F.f) * 2 ^ F.f := by omega
    exact_mod_cast h2
  obtain ⟨m, p1, p2, -, -, p3, p4, p5⟩ := C47_value F hF (decide (x < 0)) is fs hi (by rw [hfd]; exact d1) hlt
    (Or.inl (by rw [hfd]; omega)) old
  have hm0 : 0 ≤ val F m := by unfold val; positivity
  have habs : |val F (if decide (x < 0) = true then -(m : Int) else m)| = val F m := by
    split
    · rw [val_neg, abs_neg, abs_of_nonneg hm0]
    · rw [abs_of_nonneg hm0]
  refine ⟨out, if decide (x < 0) = true then -(m : Int) else m, ho, by rw [eo]; exact p1, by rw [eo]; exact p2, ?_, ?_, ?_, ?_⟩
  · rw [habs]; linarith
  · rw [habs]; linarith
  · have q0 : (0 : Int) ≤ m := by positivity
    by_cases h0 : x < 0
    · rw [if_pos (by simpa using h0)]; exact mul_nonneg_of_nonpos_of_nonpos (by omega) (by omega)
    · rw [if_neg (by simpa using h0)]; exact mul_nonneg q0 (by omega)
  · rintro hint
    have hf0 : fracMag F x = 0 := by
      obtain ⟨z, hz⟩ := hint
      unfold fracMag
      rw [hz, ← Int.cast_abs]
      have : ((|z| : Int) : ℚ) = ((z.natAbs : Nat) : ℚ) := by rw [Nat.cast_natAbs]
      rw [this, Nat.floor_natCast]; ring
    have hz0 : fracVal 10 (fracDigits fs) = 0 := by
      rw [hfd]; exact le_antisymm (by rw [← hf0]; exact d3) (fracVal_nonneg ds)
    have h6 := p5 hz0
    unfold numeralMag at h6
    rw [hz0, add_zero, ← add_zero ((digitsVal 10 is : Nat) : ℚ), ← hf0, ← hsum, hav] at h6
    unfold val at h6
    rw [div_left_inj' hq.ne'] at h6
    have h7 : (m : Int) = |x| := by exact_mod_cast h6
    rw [h7]
    by_cases h0 : x < 0
    · rw [if_pos (by simpa using h0), abs_of_neg h0, neg_neg]
    · rw [if_neg (by simpa using h0), abs_of_nonneg (by omega)]

example : effPrec { type := 'f', precision := 3 } ≤ maxFrac fixed32 ∧ formatTo fixed32 { type := 'f', precision := 3 } 205887 = .ok "3.141".toList ∧
    parseDetail fixed32 "3.141".toList 0 = .ok (true, 205848) ∧ formatTo fixed32 {} (-196608) = .ok "-3".toList := by decide +kernel

theorem acc_snoc (l : List Nat) (d : Nat) : acc 0 (l ++ [d]) = acc 0 l * 10 + d := by rw [acc_append]; simp [acc]

theorem acc_pos {l : List Nat} : (∀ d, l.head? = some d → d ≠ 0) → l ≠ [] → 0 < acc 0 l := by
  induction l using List.reverseRecOn with
  | nil => intro _ h; exact absurd rfl h
  | append_singleton l d ih =>
    intro hh _
    rw [acc_snoc]
    by_cases hl : l = []
    · have := hh d (by rw [hl]; simp)
      omega
    · have := ih (fun e he => hh e (by rw [List.head?_append, he]; rfl)) hl
      omega

/-- Digit lists that do not begin with zero are determined by their value. -/
theorem acc_inj_head : ∀ (l l' : List Nat), Decimal l → Decimal l' → (∀ d, l.head? = some d → d ≠ 0) → (∀ d, l'.head? = some d → d ≠ 0) →
    acc 0 l = acc 0 l' → l = l' := by
  intro l
  induction l using List.reverseRecOn with
  | nil =>
    intro l' _ _ _ h' e
    by_contra hc
    have := acc_pos h' (fun h => hc h.symm)
    simp [acc] at e
    unfold acc at this
    omega
  | append_singleton l d ih =>
    intro l' hl hl' h h' e
    rcases List.eq_nil_or_concat l' with e' | ⟨m, d', e'⟩
    · have := acc_pos h (by simp)
      rw [e, e'] at this
      simp [acc] at this
    · rw [List.concat_eq_append] at e'
      subst e'
      rw [acc_snoc, acc_snoc] at e
      have a : d < 10 := hl d (by simp)
      have b : d' < 10 := hl' d' (by simp)
      have e1 : d = d' := by omega
      have e2 : acc 0 l = acc 0 m := by omega
      rw [e1, ih m (fun x hx => hl x (by simp [hx])) (fun x hx => hl' x (by simp [hx])) (fun x hx => h x (by rw [List.head?_append, hx]; rfl))
        (fun x hx => h' x (by rw [List.head?_append, hx]; rfl)) e2]

/-- Digit lists of the same length are determined by their value. -/
theorem acc_inj_length : ∀ (l l' : List Nat), Decimal l → Decimal l' → l.length = l'.length → acc 0 l = acc 0 l' → l = l' := by
  intro l
  induction l using List.reverseRecOn with
  | nil => intro l' _ _ h _; exact (List.length_eq_zero_iff.1 (by simpa using h.symm)).symm
  | append_singleton l d ih =>
    intro l' hl hl' h e
    rcases List.eq_nil_or_concat l' with e' | ⟨m, d', e'⟩
    · rw [e'] at h; simp at h
    · rw [List.concat_eq_append] at e'
      subst e'
      rw [acc_snoc, acc_snoc] at e
      have a : d < 10 := hl d (by simp)
      have b : d' < 10 := hl' d' (by simp)
      have e1 : d = d' := by omega
      have e2 : acc 0 l = acc 0 m := by omega
      rw [e1, ih m (fun x hx => hl x (by simp [hx])) (fun x hx => hl' x (by simp [hx])) (by simpa using h) e2]

theorem noLead_inj {l l' : List Nat} (hl : Decimal l) (hl' : Decimal l') (h : NoLeadingZero l) (h' : NoLeadingZero l')
    (e : digitsVal 10 l = digitsVal 10 l') : l = l' := by
  have e' : acc 0 l = acc 0 l' := e
  have hz : ∀ {l l' : List Nat}, l = [0] → NoLeadingZero l' → acc 0 l = acc 0 l' → l = l' := by
    rintro l l' rfl h' e
    rcases h' with rfl | ⟨d, t, rfl, hd⟩
    · rfl
    · have := acc_pos (l := d :: t) (by simpa using hd) (by simp)
      rw [← e] at this
      simp [acc] at this
  rcases h with h | ⟨d, t, rfl, hd⟩
  · exact hz h h' e'
  · rcases h' with h' | ⟨d', t', rfl, hd'⟩
    · exact (hz h' (Or.inr ⟨d, t, rfl, hd⟩) e'.symm).symm
    · exact acc_inj_head _ _ hl hl' (by simpa using hd) (by simpa using hd') e'

theorem frac_inj {l l' : List Nat} (hl : Decimal l) (hl' : Decimal l') (h : ∀ d, l.getLast? = some d → d ≠ 0)
    (h' : ∀ d, l'.getLast? = some d → d ≠ 0) (e : fracVal 10 l = fracVal 10 l') : l = l' := by
  have key : ∀ m : List Nat, fracVal 10 m * 10 ^ m.length = ((acc 0 m : Nat) : Int) := by
    intro m; rw [fracVal_eq]; push_cast; field_simp
  have a := length_le_of_fracVal hl h (k := l'.length) (n := acc 0 l') (by rw [e]; exact key l')
  have b := length_le_of_fracVal hl' h' (k := l.length) (n := acc 0 l) (by rw [← e]; exact key l)
  refine acc_inj_length l l' hl hl' (by omega) ?_
  have k1 := key l
  have k2 := key l'
  rw [e, show l.length = l'.length by omega, k2] at k1
  exact_mod_cast k1.symm

theorem same_text {F : FxTy} (h : SW F) (hfit : Storable F (10 * 2 ^ F.f)) (st : FmtState) (x : Int) (hx : Storable F x) (ht : st.type ∈ ['g', 'G'])
    (hw : st.width ≤ 0) (hsg : st.sign = '-') (hp : F.f ≤ effPrec st) (h0 : 0 ≤ x) (oct up : Bool) :
    ∃ s, formatTo F st x = .ok s ∧ streamOut F x false true oct up = .ok s := by
  obtain ⟨out, ho, ds, e, hd⟩ := C55_decimal_partial h.valid h.2 h.one hfit st x hx (by
    simp only [List.mem_cons, List.not_mem_nil, or_false] at ht ⊢; tauto) hw (Or.inl h0)
  rw [if_neg (by rcases List.mem_cons.1 ht with h | h; rw [h]; decide; rw [List.mem_singleton.1 h]; decide)] at hd
  obtain ⟨d1, d2, d3, d4, d5, d6⟩ := hd
  obtain ⟨js, ej, hj, hjz, hv⟩ := natText_spec (show 2 ≤ 10 by norm_num) false ⌊|val F x|⌋₊
  obtain ⟨s, hs, is, fs, e', his, hfs, hnz, hlast, habs⟩ := C45_generic F h.valid h.2 hfit.2 x hx up
  have hs : streamOut F x false true oct up = .ok s := hs
  have hq : (0 : ℚ) < 2 ^ F.f := by positivity
  -- the formatted fraction is exact
  have hfm : fracMag F x * 2 ^ F.f = ((x - ⌊|val F x|⌋₊ * 2 ^ F.f : Int) : ℚ) := by
    unfold fracMag
    rw [abs_of_nonneg (by rw [← val_zero F, val_le]; exact h0)]
    unfold val; push_cast; field_simp
  have hex : fracVal 10 ds = fracMag F x := by
    rcases lt_or_eq_of_le d2 with hl | hl
    · exact d5 hl
    · have k1 : fracVal 10 ds * 10 ^ effPrec st = ((acc 0 ds : Nat) : Int) := by
        rw [fracVal_eq, hl]; push_cast; field_simp
      have k2 : fracMag F x * 10 ^ effPrec st = ((x - ⌊|val F x|⌋₊ * 2 ^ F.f) * (5 ^ F.f * 10 ^ (effPrec st - F.f)) : Int) := by
        have : (10 : ℚ) ^ effPrec st = 2 ^ F.f * (5 ^ F.f * 10 ^ (effPrec st - F.f)) := by
          rw [← mul_assoc, ← mul_pow]; norm_num; rw [← pow_add]; congr 1; omega
        rw [this, ← mul_assoc, hfm]; push_cast; ring
      have hpp : (0 : ℚ) < 10 ^ effPrec st := by positivity
      have a : fracVal 10 ds * 10 ^ effPrec st ≤ fracMag F x * 10 ^ effPrec st := by gcongr
      have b : fracMag F x * 10 ^ effPrec st < fracVal 10 ds * 10 ^ effPrec st + 1 := by
        have := mul_lt_mul_of_pos_right d4 hpp
        rwa [add_mul, one_div, inv_mul_cancel₀ hpp.ne'] at this
      apply mul_right_cancel₀ hpp.ne'
      rw [k1, k2] at a b ⊢
      have a' := Int.cast_le.1 a
      have b' : ((x - ⌊|val F x|⌋₊ * 2 ^ F.f) * (5 ^ F.f * 10 ^ (effPrec st - F.f)) : Int) < ((acc 0 ds : Nat) : Int) + 1 := by exact_mod_cast b
      exact congrArg _ (by omega)
  have hsum : (digitsVal 10 js : ℚ) + fracVal 10 ds = digitsVal 10 is + fracVal 10 fs := by
    rw [← habs, hex, hv]; unfold fracMag; ring
  have f1 := fracVal_lt d1
  have f2 := fracVal_lt hfs
  have f3 := fracVal_nonneg ds
  have f4 := fracVal_nonneg fs
  have hie : digitsVal 10 js = digitsVal 10 is := by
    have a : (digitsVal 10 js : ℚ) < digitsVal 10 is + 1 := by linarith
    have b : (digitsVal 10 is : ℚ) < digitsVal 10 js + 1 := by linarith
    have a' : digitsVal 10 js < digitsVal 10 is + 1 := by exact_mod_cast a
    have b' : digitsVal 10 is < digitsVal 10 js + 1 := by exact_mod_cast b
    omega
  have hfe : fracVal 10 ds = fracVal 10 fs := by rw [hie] at hsum; linarith
  have ei : js = is := noLead_inj hj his hjz hnz hie
  have ef : ds = fs := frac_inj d1 hfs (d6 hex) hlast hfe
  refine ⟨out, ho, ?_⟩
  rw [hs, e, e', ej, hsg, ei, ef]
  have hneg : ¬ val F x < 0 := by rw [← val_zero F, val_lt]; omega
  have hq0 : (fracMag F x = 0 ∧ fs = []) ↔ fs = [] := by
    constructor
    · exact fun h => h.2
    · intro h; refine ⟨?_, h⟩; rw [← hex, hfe, h]; rfl
  rw [if_neg hneg, map_digitOf_ten_up up his, map_digitOf_ten_up up hfs]
  have hsx : signText '-' (decide (x < 0)) = [] := by
    rw [decide_eq_false (by omega)]; rfl
  rw [hsx]
  by_cases hn : fs = []
  · rw [if_pos hn, if_pos (hq0.2 hn)]
  · rw [if_neg hn, if_neg (fun h => hn (hq0.1 h))]

/-- C94: with type `g` or `G` and a precision of at least the number of fraction bits, `std::format` of a non-negative value writes the same text
as `operator<<`. -/
theorem C94_same_text (F : FxTy) (hF : F = fixed32 ∨ F = fixed64) (st : FmtState) (x : Int) (hx : Storable F x) (ht : st.type ∈ ['g', 'G'])
    (hw : st.width ≤ 0) (hsg : st.sign = '-') (hp : F.f ≤ effPrec st) (h0 : 0 ≤ x) (oct up : Bool) :
    ∃ s, formatTo F st x = .ok s ∧ streamOut F x false true oct up = .ok s := by
  have hps : PS F := by rcases hF with rfl | rfl; exacts [ps32, ps64]
  have hfit : Storable F (10 * 2 ^ F.f) := by rcases hF with rfl | rfl <;> decide +kernel
  exact same_text hps.sw hfit st x hx ht hw hsg hp h0 oct up

example : formatTo fixed32 { precision := 16 } 205887 = .ok "3.1415863037109375".toList ∧
    streamOut fixed32 205887 false true false false = .ok "3.1415863037109375".toList := by decide +kernel

end Eirin.Props
