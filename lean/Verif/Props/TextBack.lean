import Verif.Props.FormatAll
import Verif.Props.ParseTotal

/-! # C176: a decimal text, parsed and formatted again -/

namespace Eirin.Props
open Spec

/-- The decimal text with integer part `n` and decimals `ds`. -/
def decText (n : Nat) (ds : List Nat) : List Char := natText 10 false n ++ '.' :: ds.map (digitOf false)

/-- C176 as stated, for a layout: a non-negative decimal in range with at least one decimal, and few enough of them to be told apart in
the type, is parsed and formatted with as many decimals to the same text. -/
def C176_statement (F : FxTy) : Prop :=
  ∀ (n : Nat) (ds : List Nat) (old : Int), Decimal ds → ds ≠ [] → 10 ^ ds.length < 2 ^ F.f → n < 2 ^ (F.T.bits - 1 - F.f) →
    ∃ y, parseDetail F (decText n ds) old = .ok (true, y) ∧
      formatTo F { type := 'f', precision := ds.length } y = .ok (decText n ds)

/-- C176 is false of the code: `0.1` becomes `0.0`. -/
theorem C176_false : ¬ C176_statement fixed32 := by
  intro h
  obtain ⟨y, h1, h2⟩ := h 0 [1] 7 (by decide) (by decide) (by decide) (by decide)
  have e1 : parseDetail fixed32 (decText 0 [1]) 7 = .ok (true, 6553) := by decide +kernel
  rw [e1] at h1; cases h1
  have e2 : formatTo fixed32 { type := 'f', precision := 1 } 6553 = .ok ['0', '.', '0'] := by decide +kernel
  have e3 : decText 0 [1] = ['0', '.', '1'] := by decide +kernel
  rw [e3] at h2
  exact absurd (e2.symm.trans h2) (by decide)

theorem fracVal_inj : ∀ {a b : List Nat}, Decimal a → Decimal b → a.length = b.length → fracVal 10 a = fracVal 10 b → a = b
  | [], [], _, _, _, _ => rfl
  | [], _ :: _, _, _, h, _ => by simp at h
  | _ :: _, [], _, _, h, _ => by simp at h
  | x :: a, y :: b, ha, hb, hl, h => by
    have ha' : Decimal a := fun d hd => ha d (List.mem_cons_of_mem _ hd)
    have hb' : Decimal b := fun d hd => hb d (List.mem_cons_of_mem _ hd)
    have h' : (x : ℚ) + fracVal 10 a = y + fracVal 10 b := by
      simp only [fracVal] at h
      push_cast at h
      linarith
    have a0 := fracVal_nonneg a
    have a1 := fracVal_lt ha'
    have b0 := fracVal_nonneg b
    have b1 := fracVal_lt hb'
    have exy : x = y := by
      have t1 : (x : ℚ) < y + 1 := by linarith
      have t2 : (y : ℚ) < x + 1 := by linarith
      have t1 : x < y + 1 := by exact_mod_cast t1
      have t2 : y < x + 1 := by exact_mod_cast t2
      omega
    subst exy
    rw [fracVal_inj ha' hb' (by simpa using hl) (by linarith)]

/-- C176, what happens instead: the text survives exactly if it denotes a multiple of one ulp; otherwise the number that comes out is
one unit of the last decimal smaller.  Full statement: `C176_statement`; missing are the texts that are not multiples of one ulp, for
which it fails. -/
theorem C176_outcome_partial (F : FxTy) (h : SW F) (hfit : Storable F (10 * 2 ^ F.f)) (st : FmtState) (n : Nat) (ds : List Nat) (old : Int)
    (hd : Decimal ds) (hne : ds ≠ []) (hp : 10 ^ ds.length < 2 ^ F.f) (hn : n < 2 ^ (F.T.bits - 1 - F.f))
    (ht : st.type = 'f' ∨ st.type = 'F') (hprec : st.precision = ds.length) (hw : st.width ≤ 0) (hsg : st.sign = '-') :
    ∃ y n' ds', parseDetail F (decText n ds) old = .ok (true, y) ∧ fixedFromCstring F (decText n ds) old = .ok (true, y) ∧
      formatTo F st y = .ok (decText n' ds') ∧ Decimal ds' ∧ ds'.length = ds.length ∧
      ((∃ k : Int, val F k = n + fracVal 10 ds) → val F y = n + fracVal 10 ds ∧ n' = n ∧ ds' = ds) ∧
      ((¬ ∃ k : Int, val F k = n + fracVal 10 ds) → (n' : ℚ) + fracVal 10 ds' = n + fracVal 10 ds - 1 / 10 ^ ds.length) := by
  obtain ⟨is, ei, hi, -, hv⟩ := natText_spec (show 2 ≤ 10 by norm_num) false n
  have etxt : decText n ds = numeral false is (some ds) := by
    unfold decText numeral; rw [ei]; simp
  have hmag : numeralMag is (some ds) = n + fracVal 10 ds := by unfold numeralMag; rw [hv]; rfl
  have f0 := fracVal_nonneg ds
  have f1 := fracVal_lt hd
  have hq : (0 : ℚ) < 2 ^ F.f := by positivity
  set q : ℚ := n + fracVal 10 ds with hqdef
  have q0 : 0 ≤ q := by positivity
  set y : Int := ⌊q * 2 ^ F.f⌋ with hy
  have y0 : 0 ≤ y := Int.floor_nonneg.2 (by positivity)
  have yle : val F y ≤ q := by
    unfold val; rw [div_le_iff₀ hq]; exact Int.floor_le _
  have ylt : q < val F y + ulp F := by
    unfold val ulp
    rw [← add_div, lt_div_iff₀ hq]; exact Int.lt_floor_add_one _
  have hdp := SW.dpos (F := F)
  -- the value is in range
  have ys : Storable F y := by
    have h1 := hi_succ h
    have h2 := h.lo_hi
    have hnq : q < 2 ^ (F.T.bits - 1 - F.f) := by
      have : (n : ℚ) + 1 ≤ 2 ^ (F.T.bits - 1 - F.f) := by exact_mod_cast hn
      linarith
    have : (y : ℚ) < ((2 ^ (F.T.bits - 1 - F.f) * 2 ^ F.f : Int) : ℚ) := by
      push_cast
      exact lt_of_le_of_lt (Int.floor_le _) (mul_lt_mul_of_pos_right hnq hq)
    have : y < 2 ^ (F.T.bits - 1 - F.f) * 2 ^ F.f := by exact_mod_cast this
    exact ⟨by show F.T.lo ≤ y; omega, by show y ≤ F.T.hi; omega⟩
  have hI : F.T.hi ≤ F.I.hi ∧ F.I.lo ≤ 0 ∧ (2 : Int) ^ F.f ≤ F.I.hi ∧ ((2 ^ (F.T.bits - 1 - F.f) : Nat) : Int) ≤ F.I.hi := by
    have hf := h.valid.flt
    have hs := h.sg
    have p1 : (2 : Int) ^ F.f ≤ 2 ^ F.T.bits := pow_le_pow_right₀ (by norm_num) (by omega)
    have p2 : ((2 ^ (F.T.bits - 1 - F.f) : Nat) : Int) ≤ 2 ^ F.T.bits := by
      push_cast; exact pow_le_pow_right₀ (by norm_num) (by omega)
    have p3 : F.T.hi = 2 ^ (F.T.bits - 1) - 1 := by unfold IntTy.hi; simp [hs]
    rcases inter_of h with ⟨e, e' | e'⟩ | ⟨e, e'⟩ <;> rw [p3, e'] <;> rw [e] at p1 p2 ⊢ <;>
      refine ⟨by decide +kernel, by decide +kernel, le_trans p1 (by decide +kernel), le_trans p2 (by decide +kernel)⟩
  -- parsing
  have hused : Used F ds ds := by
    refine ⟨[], by simp, fun h => absurd rfl h, fun p1 d p2 e => ?_⟩
    have hd1 : Decimal p1 := by rw [e] at hd; exact hd.left
    have a1 := acc_lt hd1
    rw [← digitsVal_eq_acc] at a1
    have a2 : p1.length + 1 ≤ ds.length := by rw [e]; simp
    have a3 : 10 ^ (p1.length + 1) ≤ 10 ^ ds.length := Nat.pow_le_pow_right (by norm_num) a2
    rw [pow_succ] at a3
    rw [Nat.le_div_iff_mul_le (by norm_num)]
    omega
  have hwr : WrapsTo F ⌊numeralMag is (some ds) * 2 ^ F.f⌋ y := by
    rw [hmag]
    exact ⟨⟨by omega, le_trans ys.2 hI.1⟩, by rw [hy]; simp⟩
  obtain ⟨c1, c2⟩ := C121_total F h false is (some ds) ds y old hi hd hused hwr
  rw [c1] at c2
  have hno : ¬ (F.I.hi < digitsVal 10 is ∨ F.I.hi < 10 ^ ds.length) := by
    rw [hv]
    have t1 : ((n : Nat) : Int) < ((2 ^ (F.T.bits - 1 - F.f) : Nat) : Int) := by exact_mod_cast hn
    have t2 : (10 : Int) ^ ds.length < 2 ^ F.f := by exact_mod_cast hp
    exact not_or.2 ⟨by omega, by omega⟩
  rw [if_neg hno] at c1 c2
  have est : stored F false y old = .ok (true, y) := by unfold stored; rw [if_pos ys]; rfl
  rw [est] at c1 c2
  -- formatting
  obtain ⟨out, ho, ds', eo, hds⟩ := C55_decimal_partial h.valid h.2 h.one hfit st y ys (by rcases ht with e | e <;> simp [e]) hw (Or.inl y0)
  rw [if_pos ht] at hds
  have hep : effPrec st = ds.length := by unfold effPrec; rw [hprec]; simp
  rw [hep] at hds
  obtain ⟨d1, d2, d3, d4⟩ := hds
  have hne' : ds' ≠ [] := by
    intro e; rw [e] at d2; exact hne (List.eq_nil_of_length_eq_zero d2.symm)
  have vy0 : 0 ≤ val F y := by rw [← val_zero F, val_le]; exact y0
  set n' : Nat := ⌊|val F y|⌋₊ with hn'
  have etxt' : out = decText n' ds' := by
    rw [eo, hsg, decide_eq_false (by omega), if_neg (fun e => hne' e.2)]
    unfold decText signText; simp
  have hfm : (n' : ℚ) + fracMag F y = val F y := by unfold fracMag; rw [abs_of_nonneg vy0] at hn' ⊢; rw [← hn']; ring
  have e10 : (0 : ℚ) < 10 ^ ds.length := by positivity
  have u10 : ulp F < 1 / 10 ^ ds.length := by
    unfold ulp
    have hp' : (10 : ℚ) ^ ds.length < 2 ^ F.f := by exact_mod_cast hp
    exact one_div_lt_one_div_of_lt e10 hp'
  -- both are multiples of the last decimal
  have m1 : q = (((n * 10 ^ ds.length + acc 0 ds : Nat) : Int) : ℚ) / 10 ^ ds.length := by
    rw [hqdef, fracVal_eq]; push_cast; field_simp
  have m2 : (n' : ℚ) + fracVal 10 ds' = (((n' * 10 ^ ds.length + acc 0 ds' : Nat) : Int) : ℚ) / 10 ^ ds.length := by
    rw [fracVal_eq, d2]; push_cast; field_simp
  set A : Int := ((n * 10 ^ ds.length + acc 0 ds : Nat) : Int) with hA
  set B : Int := ((n' * 10 ^ ds.length + acc 0 ds' : Nat) : Int) with hB
  have b1 : (B : ℚ) / 10 ^ ds.length ≤ val F y := by rw [← m2, ← hfm]; linarith
  have b2 : val F y < (B : ℚ) / 10 ^ ds.length + 1 / 10 ^ ds.length := by rw [← m2, ← hfm]; linarith
  refine ⟨y, n', ds', by rw [etxt]; exact c1, by rw [etxt]; exact c2, by rw [ho, etxt'], d1, d2, ?_, ?_⟩
  · rintro ⟨k, hk⟩
    have eky : k = y := by
      apply isFloor_unique (F := F) (q := q)
      · exact ⟨hk.le, by rw [hk]; linarith [ulp_pos F]⟩
      · exact ⟨yle, ylt⟩
    rw [eky] at hk
    rw [hk, m1] at b1 b2
    rw [div_le_div_iff_of_pos_right e10] at b1
    rw [← add_div, div_lt_div_iff_of_pos_right e10] at b2
    have b1 : B ≤ A := by exact_mod_cast b1
    have b2 : A < B + 1 := by exact_mod_cast b2
    have hAB : A = B := by omega
    have hvv : (n' : ℚ) + fracVal 10 ds' = n + fracVal 10 ds := by rw [m2, ← hAB, ← m1]
    have g0 := fracVal_nonneg ds'
    have g1 := fracVal_lt d1
    have en : n' = n := by
      have t1 : (n' : ℚ) < n + 1 := by linarith
      have t2 : (n : ℚ) < n' + 1 := by linarith
      have t1 : n' < n + 1 := by exact_mod_cast t1
      have t2 : n < n' + 1 := by exact_mod_cast t2
      omega
    refine ⟨hk, en, fracVal_inj d1 hd d2 ?_⟩
    rw [en] at hvv; linarith
  · intro hk
    have yne : val F y ≠ q := fun e => hk ⟨y, e⟩
    have ylt' : val F y < q := lt_of_le_of_ne yle yne
    have c1 : (B : ℚ) / 10 ^ ds.length < (A : ℚ) / 10 ^ ds.length := by rw [← m1]; linarith
    have c2 : (A : ℚ) / 10 ^ ds.length < (B : ℚ) / 10 ^ ds.length + 1 / 10 ^ ds.length + 1 / 10 ^ ds.length := by
      rw [← m1]; linarith
    rw [div_lt_div_iff_of_pos_right e10] at c1
    rw [← add_div, ← add_div, div_lt_div_iff_of_pos_right e10] at c2
    have c1 : B < A := by exact_mod_cast c1
    have c2 : A < B + 1 + 1 := by exact_mod_cast c2
    have hAB : A = B + 1 := by omega
    rw [m2, m1, hAB]; push_cast; ring

example : SW fixed32 ∧ Storable fixed32 (10 * 2 ^ 16) ∧ decText 3 [1, 4] = "3.14".toList ∧ 10 ^ 2 < 2 ^ 16 ∧
    parseDetail fixed32 "3.14".toList 7 = .ok (true, 205783) ∧
    formatTo fixed32 { type := 'f', precision := 2 } 205783 = .ok "3.13".toList ∧
    parseDetail fixed32 "3.25".toList 7 = .ok (true, 212992) ∧
    formatTo fixed32 { type := 'f', precision := 2 } 212992 = .ok "3.25".toList := by
  refine ⟨sw32, by decide +kernel, by decide +kernel, by norm_num, by decide +kernel, by decide +kernel, by decide +kernel,
    by decide +kernel⟩

/-- C176: which texts survive, by their decimals alone: those whose decimals, as a number times `2^f`, are a multiple of `10^p`.  With
one decimal this leaves `.0` and `.5`. -/
theorem C176_digit (F : FxTy) (ds : List Nat) (n : Nat) :
    (∃ k : Int, val F k = n + fracVal 10 ds) ↔ 10 ^ ds.length ∣ digitsVal 10 ds * 2 ^ F.f := by
  have hq : (0 : ℚ) < 2 ^ F.f := by positivity
  have e10 : (0 : ℚ) < 10 ^ ds.length := by positivity
  have hf := fracVal_eq ds
  rw [← digitsVal_eq_acc] at hf
  constructor
  · rintro ⟨k, hk⟩
    rw [hf] at hk
    unfold val at hk
    have hk : (k : ℚ) * 10 ^ ds.length = n * 2 ^ F.f * 10 ^ ds.length + digitsVal 10 ds * 2 ^ F.f := by
      field_simp at hk
      linarith
    have hk : k * 10 ^ ds.length = n * 2 ^ F.f * 10 ^ ds.length + digitsVal 10 ds * 2 ^ F.f := by exact_mod_cast hk
    have : ((10 ^ ds.length : Nat) : Int) ∣ ((digitsVal 10 ds * 2 ^ F.f : Nat) : Int) := by
      refine ⟨k - n * 2 ^ F.f, ?_⟩
      push_cast; linarith
    exact_mod_cast this
  · rintro ⟨c, hc⟩
    refine ⟨n * 2 ^ F.f + c, ?_⟩
    have hc : (digitsVal 10 ds : ℚ) * 2 ^ F.f = 10 ^ ds.length * c := by exact_mod_cast hc
    rw [hf]
    unfold val
    push_cast
    field_simp
    linarith

example : 10 ^ [5].length ∣ digitsVal 10 [5] * 2 ^ 16 ∧ ¬ 10 ^ [1].length ∣ digitsVal 10 [1] * 2 ^ 16 ∧
    10 ^ [3, 7, 5].length ∣ digitsVal 10 [3, 7, 5] * 2 ^ 16 := by decide +kernel

end Eirin.Props
