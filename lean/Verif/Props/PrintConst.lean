import Verif.Props.Float

/-! # C126: `print_constants` prints the definitions of `numbers.hpp` -/

namespace Eirin.Props
open Spec

/-- The names and literals of `numbers.hpp:28-102` for the generated constants. -/
def numbersTable : List (String × Int) :=
  [("log2e", 0x2e2a8eca5705fc00), ("log10e", 0xde5bd8a93728700), ("inv_pi", 0xa2f9836e4e44180), ("inv_sqrtpi", 0x120dd750429b6d00),
   ("ln2", 0x162e42fefa39ef00), ("ln10", 0x49aec6eed5545800), ("sqrt2", 0x2d413cccfe779a00), ("sqrt3", 0x376cf5d0b0995400),
   ("inv_sqrt3", 0x1279a74590331c00), ("egamma", 0x12788cfc6fb61900), ("phi", 0x33c6ef372fe95000)]

/-- The table is what the library's constants are made of, in every layout. -/
theorem C126_table (F : FxTy) : numbersTable.map (fun t => fromFixedNumValue F i64 61 t.2) =
    [cLog2e F, cLog10e F, cInvPi F, cInvSqrtPi F, cLn2 F, cLn10 F, cSqrt2 F, cSqrt3 F, cInvSqrt3 F, cEgamma F, cPhi F] := rfl

/-- IEEE rounding is exact on doubles, as C71 assumes. -/
theorem rne_exactRounding : ExactRounding (rne binary64) := by
  rintro q ⟨m, e, hm, he, -, rfl⟩
  exact rne_exact binary64 (by decide) ⟨m, e, hm, he, rfl⟩

/-- The three formats of `long double`. -/
def IsLongDouble (ld : FFmt) : Prop := ld = binary64 ∨ ld = x87Ext ∨ ld = binary128

/-- The `double` arguments that `eval_value` receives are the literals of the table scaled by `2^-61`, for every `long double`. -/
theorem cst_doubles (ld : FFmt) (h : IsLongDouble ld) :
    cstLiterals.map (fun l => rne binary64 (rne ld l)) = numbersTable.map fun t => (t.2 : ℚ) / 2 ^ 61 := by
  rcases h with rfl | rfl | rfl <;> decide +kernel

/-- Each literal of the table is a non-negative double below 4 with at most 53 significant bits. -/
theorem table_double : ∀ t ∈ numbersTable, IsDouble ((t.2 : ℚ) / 2 ^ 61) ∧ 0 ≤ t.2 ∧ t.2 < 2 ^ 63 := by
  have key : ∀ t ∈ numbersTable, 0 ≤ t.2 ∧ t.2 < 2 ^ 63 ∧ ∃ j : Fin 11, t.2 % 2 ^ j.1 = 0 ∧ t.2 / 2 ^ j.1 < 2 ^ 53 := by decide +kernel
  intro t ht
  obtain ⟨h2, h3, j, h1, h4⟩ := key t ht
  have hj : (0 : Int) < 2 ^ j.1 := by positivity
  refine ⟨⟨t.2 / 2 ^ j.1, (j.1 : Int) - 61, ?_, by omega, by have := j.2; omega, ?_⟩, h2, h3⟩
  · rw [abs_of_nonneg (Int.ediv_nonneg h2 hj.le)]; exact h4
  · rw [Int.cast_div (Int.dvd_of_emod_eq_zero h1) (by push_cast; positivity), zpow_sub₀ (by norm_num), zpow_natCast]
    push_cast
    field_simp
    norm_num

/-- `eval_value` on the doubles of the table. -/
theorem eval_table {t : String × Int} (ht : t ∈ numbersTable) {n : Nat} (hn : n ≤ 61) :
    evalValue (rne binary64) i64 ((t.2 : ℚ) / 2 ^ 61) n = .ok (t.2 / 2 ^ (61 - n)) := by
  obtain ⟨h1, h2, h3⟩ := table_double t ht
  have h2' : (0 : ℚ) ≤ t.2 := by exact_mod_cast h2
  have h3' : (t.2 : ℚ) < 2 ^ 63 := by exact_mod_cast h3
  have e1 : (2 : ℚ) ^ 61 = 2 ^ (61 - n) * 2 ^ n := by rw [← pow_add]; congr 1; omega
  have e : (t.2 : ℚ) / 2 ^ 61 * 2 ^ n = (t.2 : ℚ) / ((2 ^ (61 - n) : Nat) : ℚ) := by
    push_cast; rw [e1]; field_simp
  have hlt : (t.2 : ℚ) / 2 ^ 61 * 2 ^ n < 2 ^ 63 := by
    rw [e]
    refine lt_of_le_of_lt (div_le_self h2' ?_) h3'
    exact_mod_cast Nat.one_le_two_pow
  have := (C71_floor_partial (rne binary64) rne_exactRounding _ h1 (by positivity)
    (lt_of_le_of_lt (div_le_self h2' (one_le_pow₀ (by norm_num))) h3') n (by omega)).2 hlt
  rw [this, e, Rat.floor_intCast_div_natCast]
  push_cast
  rfl

theorem printLoop_eq (ld : FFmt) (n : Nat) (hn : n ≤ 61) : ∀ (ts : List (String × Int)) (ls : List ℚ), (∀ t ∈ ts, t ∈ numbersTable) →
    ls.map (fun l => rne binary64 (rne ld l)) = ts.map (fun t => (t.2 : ℚ) / 2 ^ 61) →
    printLoop ld n ((ts.map Prod.fst).zip ls) = .ok (String.join (ts.map fun t => constantText t.1 (t.2 / 2 ^ (61 - n))))
  | [], ls, _, _ => by cases ls <;> rfl
  | t :: ts, [], _, he => by simp at he
  | t :: ts, l :: ls, hm, he => by
    simp only [List.map_cons, List.cons.injEq] at he
    have ih := printLoop_eq ld n hn ts ls (fun s hs => hm s (List.mem_cons_of_mem _ hs)) he.2
    simp only [List.map_cons, List.zip_cons_cons]
    unfold printLoop
    rw [he.1, eval_table (hm t List.mem_cons_self) hn, Res.bind_ok, ih, Res.bind_ok, String.join_cons]
    rfl

/-- C126: for every `fraction` up to 61, the text printed has the names of `numbers.hpp`, each with the literal of `numbers.hpp` shifted
right by `61 - fraction`, whichever format `long double` is. -/
theorem C126_text (ld : FFmt) (h : IsLongDouble ld) (n : Nat) (hn : n ≤ 61) :
    printConstants ld n = .ok (String.join (numbersTable.map fun t => constantText t.1 (t.2 / 2 ^ (61 - n)))) :=
  printLoop_eq ld n hn numbersTable cstLiterals (fun _ ht => ht) (cst_doubles ld h)

/-- C126: with the default argument the text is exactly the definitions of `numbers.hpp`. -/
theorem C126_default_partial (ld : FFmt) (h : IsLongDouble ld) :
    printConstants ld 61 = .ok (String.join (numbersTable.map fun t => constantText t.1 t.2)) := by
  rw [C126_text ld h 61 le_rfl]
  simp only [Nat.sub_self, pow_zero, Int.ediv_one]

/-- C126: full statement: for every `fraction`, the literal printed for a constant, read with the 61 fraction bits that the printed
definition gives it, is the constant up to the requested precision. -/
def C126_statement : Prop := ∀ ld, IsLongDouble ld → ∀ n ≤ 61, ∀ c ∈ cstLiterals,
  ∃ v, evalValue (rne binary64) i64 (rne binary64 (rne ld c)) n = .ok v ∧ |(v : ℚ) / 2 ^ 61 - c| ≤ 2 / 2 ^ n

/-- C126 is false for every other `fraction`, e.g. 32: the definition still says 61 fraction bits, so `log2e` would be `2^29` times too
small. -/
theorem C126_false : ¬ C126_statement := by
  intro h
  obtain ⟨v, h1, h2⟩ := h binary64 (Or.inl rfl) 32 (by norm_num) (1442695040888963407359924681001892137 / 10 ^ 36) (by decide +kernel)
  have h3 : evalValue (rne binary64) i64 (rne binary64 (rne binary64 (1442695040888963407359924681001892137 / 10 ^ 36))) 32 =
      .ok 6196328018 := by decide +kernel
  rw [h3] at h1
  injection h1 with h1
  rw [← h1] at h2
  norm_num [abs_of_neg] at h2

theorem zip_mem {α β γ : Type} (f : α → γ) (g : β → γ) : ∀ (ls : List α) (ts : List β), ls.map f = ts.map g → ∀ c ∈ ls,
    ∃ t, (t, c) ∈ ts.zip ls ∧ f c = g t
  | [], _, _, c, hc => by simp at hc
  | l :: ls, [], he, _, _ => by simp at he
  | l :: ls, t :: ts, he, c, hc => by
    simp only [List.map_cons, List.cons.injEq] at he
    rcases List.mem_cons.1 hc with rfl | hc
    · exact ⟨t, by simp, he.1⟩
    · obtain ⟨s, h1, h2⟩ := zip_mem f g ls ts he.2 c hc
      exact ⟨s, by simp [h1], h2⟩

/-- The constants themselves: at the default argument every literal is within `2^-52` of the decimal constant it was made from. -/
theorem C126_close_partial (ld : FFmt) (h : IsLongDouble ld) : ∀ c ∈ cstLiterals,
    ∃ v, evalValue (rne binary64) i64 (rne binary64 (rne ld c)) 61 = .ok v ∧ |(v : ℚ) / 2 ^ 61 - c| ≤ 1 / 2 ^ 52 := by
  have hall : ∀ p ∈ numbersTable.zip cstLiterals, |(p.1.2 : ℚ) / 2 ^ 61 - p.2| ≤ 1 / 2 ^ 52 := by decide +kernel
  have hc := cst_doubles ld h
  intro c hcm
  obtain ⟨t, ht, e⟩ := zip_mem (fun l => rne binary64 (rne ld l)) (fun t : String × Int => (t.2 : ℚ) / 2 ^ 61) cstLiterals numbersTable hc c hcm
  have hm : t ∈ numbersTable := (List.of_mem_zip ht).1
  refine ⟨t.2, ?_, hall (t, c) ht⟩
  rw [e, eval_table hm le_rfl]
  simp

/-- Spec: lines 26 to 102 of `numbers.hpp` as they stand there, with a tab for the four spaces of indentation. -/
def numbersText : List String := [
  "\n// log2e\ntemplate <typename T>\nEIRIN_ALWAYS_INLINE constexpr enable_if_fixed<T> log2e_v()\n{\n\treturn T::template from_fixed_num_value<61>(0x2e2a8eca5705fc00ll);\n}\n",
  "\n// log10e\ntemplate <typename T>\nEIRIN_ALWAYS_INLINE constexpr enable_if_fixed<T> log10e_v()\n{\n\treturn T::template from_fixed_num_value<61>(0xde5bd8a93728700ll);\n}\n",
  "\n// inv_pi\ntemplate <typename T>\nEIRIN_ALWAYS_INLINE constexpr enable_if_fixed<T> inv_pi_v()\n{\n\treturn T::template from_fixed_num_value<61>(0xa2f9836e4e44180ll);\n}\n",
  "\n// inv_sqrtpi\ntemplate <typename T>\nEIRIN_ALWAYS_INLINE constexpr enable_if_fixed<T> inv_sqrtpi_v()\n{\n\treturn T::template from_fixed_num_value<61>(0x120dd750429b6d00ll);\n}\n",
  "\n// ln2\ntemplate <typename T>\nEIRIN_ALWAYS_INLINE constexpr enable_if_fixed<T> ln2_v()\n{\n\treturn T::template from_fixed_num_value<61>(0x162e42fefa39ef00ll);\n}\n",
  "\n// ln10\ntemplate <typename T>\nEIRIN_ALWAYS_INLINE constexpr enable_if_fixed<T> ln10_v()\n{\n\treturn T::template from_fixed_num_value<61>(0x49aec6eed5545800ll);\n}\n",
  "\n// sqrt2\ntemplate <typename T>\nEIRIN_ALWAYS_INLINE constexpr enable_if_fixed<T> sqrt2_v()\n{\n\treturn T::template from_fixed_num_value<61>(0x2d413cccfe779a00ll);\n}\n",
  "\n// sqrt3\ntemplate <typename T>\nEIRIN_ALWAYS_INLINE constexpr enable_if_fixed<T> sqrt3_v()\n{\n\treturn T::template from_fixed_num_value<61>(0x376cf5d0b0995400ll);\n}\n",
  "\n// inv_sqrt3\ntemplate <typename T>\nEIRIN_ALWAYS_INLINE constexpr enable_if_fixed<T> inv_sqrt3_v()\n{\n\treturn T::template from_fixed_num_value<61>(0x1279a74590331c00ll);\n}\n",
  "\n// egamma\ntemplate <typename T>\nEIRIN_ALWAYS_INLINE constexpr enable_if_fixed<T> egamma_v()\n{\n\treturn T::template from_fixed_num_value<61>(0x12788cfc6fb61900ll);\n}\n",
  "\n// phi\ntemplate <typename T>\nEIRIN_ALWAYS_INLINE constexpr enable_if_fixed<T> phi_v()\n{\n\treturn T::template from_fixed_num_value<61>(0x33c6ef372fe95000ll);\n}\n"]

/-- C126: with the default argument the text is, character for character, lines 26 to 102 of `numbers.hpp`. -/
theorem C126_verbatim_partial (ld : FFmt) (h : IsLongDouble ld) : printConstants ld 61 = .ok (String.join numbersText) := by
  have e : (numbersTable.map fun t => constantText t.1 t.2) = numbersText := by decide +kernel
  rw [C126_default_partial ld h, e]

/-- Spec: the value of a hexadecimal digit. -/
def hexDigit : Char → Option Nat := fun c =>
  if '0' ≤ c ∧ c ≤ '9' then some (c.toNat - 48) else if 'a' ≤ c ∧ c ≤ 'f' then some (c.toNat - 87) else none

/-- Spec: the number a list of hexadecimal digits stands for. -/
def hexNum (ds : List Char) : Option Nat := ds.foldl (fun a c => do pure (16 * (← a) + (← hexDigit c))) (some 0)

theorem hexNum_toDigits (n : Nat) : hexNum (Nat.toDigits 16 n) = some n := by
  induction n using Nat.strongRecOn with
  | ind n ih =>
    have hd : ∀ d < 16, hexDigit d.digitChar = some d := by decide
    rw [Nat.toDigits_eq_if (by norm_num)]
    split
    · rename_i h
      simp [hexNum, hd n h]
    · rename_i h
      have := ih (n / 16) (by omega)
      unfold hexNum at this ⊢
      rw [List.foldl_append, this]
      simp only [List.foldl_cons, List.foldl_nil, hd (n % 16) (by omega)]
      show some (16 * (n / 16) + n % 16) = some n
      congr 1; omega

/-- C126: for every name and every value the text of a definition is that of `numbers.hpp` with a hexadecimal literal that stands for
the value. -/
theorem C126_literal (name : String) (v : Int) (h0 : 0 ≤ v) (h1 : v < 2 ^ 64) :
    ∃ ds, hexNum ds = some v.toNat ∧ constantText name v = "\n// " ++ name ++
      "\ntemplate <typename T>\nEIRIN_ALWAYS_INLINE constexpr enable_if_fixed<T> " ++ name ++
      "_v()\n{\n\treturn T::template from_fixed_num_value<61>(0x" ++ String.ofList ds ++ "ll);\n}\n" := by
  have hw : u64.wrap v = v := IntTy.wrap_of_inRange (by decide) ⟨h0, by
    show v ≤ 2 ^ 64 - 1
    omega⟩
  refine ⟨Nat.toDigits 16 v.toNat, hexNum_toDigits _, ?_⟩
  unfold constantText hexStr
  rw [hw]
  simp only [String.append_assoc]
  rfl

example : IsLongDouble x87Ext ∧ constantText "ln2" 0x162e42fefa39ef00 =
    "\n// ln2\ntemplate <typename T>\nEIRIN_ALWAYS_INLINE constexpr enable_if_fixed<T> ln2_v()\n{\n\treturn T::template from_fixed_num_value<61>(0x162e42fefa39ef00ll);\n}\n" :=
  ⟨Or.inr (Or.inl rfl), by decide +kernel⟩

end Eirin.Props
