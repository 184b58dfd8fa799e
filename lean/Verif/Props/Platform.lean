import Verif.Model.Platform
import Verif.Props.Print
import Verif.Props.PrintInj
import Verif.SpecFormat

/-! # C89, C90: the CPU feature query and the debug printer -/

namespace Eirin.Props
open Spec

/-! ## C89 -/

/-- The features a program can ask for. -/
inductive Feature where
  | sse2 | sse42 | avx | avx2 | avx512f | avx512dq
  deriving DecidableEq

/-- Where the processor manual puts the feature bit. -/
def Feature.advertised (c : Cpu) : Feature → Bool
  | .sse2 => (c 1 0).edx.getLsbD 26
  | .sse42 => (c 1 0).ecx.getLsbD 20
  | .avx => (c 1 0).ecx.getLsbD 28
  | .avx2 => (c 7 0).ebx.getLsbD 5
  | .avx512f => (c 7 0).ebx.getLsbD 16
  | .avx512dq => (c 7 0).ebx.getLsbD 17

/-- The member function that answers for the feature. -/
def Feature.query (x86 : Bool) : Feature → Cpu → Platform → Bool × Platform
  | .sse2 => supportsSse2 x86
  | .sse42 => supportsSse42 x86
  | .avx => supportsAvx x86
  | .avx2 => supportsAvx2 x86
  | .avx512f => supportsAvx512f x86
  | .avx512dq => supportsAvx512dq x86

/-- Ask a sequence of questions, each while running on some processor. -/
def askAll (x86 : Bool) : List (Cpu × Feature) → Platform → List Bool × Platform
  | [], s => ([], s)
  | (c, q) :: rest, s =>
    let (a, s) := q.query x86 c s
    let (as, s) := askAll x86 rest s
    (a :: as, s)

theorem maskBit_eq (r : BitVec 32) (k : Nat) (hk : k < 32) : maskBit r k = r.getLsbD k := by
  unfold maskBit
  have key : (r &&& (1#32 <<< k) = 0#32) ↔ r.getLsbD k = false := by
    constructor
    · intro h
      have h1 := congrArg (fun v => v.getLsbD k) h
      simpa [hk] using h1
    · intro h
      apply BitVec.eq_of_getLsbD_eq
      intro i hi
      simp only [BitVec.getLsbD_and, BitVec.getLsbD_shiftLeft, hi, BitVec.getLsbD_zero]
      by_cases hik : i = k
      · subst hik; simp [h]
      · have : (1#32).getLsbD (i - k) = decide (i - k = 0) := by simp
        rw [this]
        by_cases hlt : i < k
        · simp [hlt]
        · simp; intro _ _ ; omega
  by_cases h : r &&& (1#32 <<< k) = 0#32
  · rw [h, key.1 h]; simp
  · have h2 : r.getLsbD k = true := by
      by_contra hc
      exact h (key.2 (by simpa using hc))
    rw [h2]; simp [h]

/-- The flag word the detection leaves behind, tested at the six positions in use. -/
theorem flags_test : ∀ (a b c d e f : Bool) (pos : Fin 6),
    bitsetTest (bitsetSet (bitsetSet (bitsetSet (bitsetSet (bitsetSet (bitsetSet 0#8 0 a) 1 b) 2 c) 3 d) 4 e) 5 f) pos.val =
      [a, b, c, d, e, f].getD pos.val false := by
  decide +kernel

theorem detect_test (x86 : Bool) (c : Cpu) (pos : Fin 6) : bitsetTest (detectFeatures x86 c {}).flags pos.val =
    (x86 && [(c 1 0).edx.getLsbD 26, (c 1 0).ecx.getLsbD 20, (c 1 0).ecx.getLsbD 28, (c 7 0).ebx.getLsbD 5, (c 7 0).ebx.getLsbD 16,
      (c 7 0).ebx.getLsbD 17].getD pos.val false) := by
  cases x86
  · have e : (detectFeatures false c {}).flags = 0#8 := rfl
    rw [e, Bool.false_and]
    revert pos; decide +kernel
  · have ht := flags_test (maskBit (c 1 0).edx 26) (maskBit (c 1 0).ecx 20) (maskBit (c 1 0).ecx 28) (maskBit (c 7 0).ebx 5)
      (maskBit (c 7 0).ebx 16) (maskBit (c 7 0).ebx 17) pos
    rw [Bool.true_and, ← maskBit_eq _ 26 (by norm_num), ← maskBit_eq _ 20 (by norm_num), ← maskBit_eq _ 28 (by norm_num),
      ← maskBit_eq _ 5 (by norm_num), ← maskBit_eq _ 16 (by norm_num), ← maskBit_eq _ 17 (by norm_num)]
    exact ht

/-- After the first detection no later call changes the state, whatever the processor. -/
theorem detect_again (x86 : Bool) (c c' : Cpu) : detectFeatures x86 c' (detectFeatures x86 c {}) = detectFeatures x86 c {} := by
  cases x86 <;> rfl

theorem query_of_detected (x86 : Bool) (c c' : Cpu) (q : Feature) (s : Platform)
    (hs : detectFeatures x86 c' s = detectFeatures x86 c {}) :
    q.query x86 c' s = (x86 && q.advertised c, detectFeatures x86 c {}) := by
  cases q
  · exact Prod.ext (by show bitsetTest (detectFeatures x86 c' s).flags 0 = _; rw [hs]; exact detect_test x86 c 0) hs
  · exact Prod.ext (by show bitsetTest (detectFeatures x86 c' s).flags 1 = _; rw [hs]; exact detect_test x86 c 1) hs
  · exact Prod.ext (by show bitsetTest (detectFeatures x86 c' s).flags 2 = _; rw [hs]; exact detect_test x86 c 2) hs
  · exact Prod.ext (by show bitsetTest (detectFeatures x86 c' s).flags 3 = _; rw [hs]; exact detect_test x86 c 3) hs
  · exact Prod.ext (by show bitsetTest (detectFeatures x86 c' s).flags 4 = _; rw [hs]; exact detect_test x86 c 4) hs
  · exact Prod.ext (by show bitsetTest (detectFeatures x86 c' s).flags 5 = _; rw [hs]; exact detect_test x86 c 5) hs

theorem ask_detected (x86 : Bool) (c : Cpu) : ∀ l : List (Cpu × Feature),
    askAll x86 l (detectFeatures x86 c {}) = (l.map fun a => x86 && a.2.advertised c, detectFeatures x86 c {}) := by
  intro l
  induction l with
  | nil => rfl
  | cons a l ih =>
    obtain ⟨c', q⟩ := a
    simp only [askAll, query_of_detected x86 c c' q _ (detect_again x86 c c'), ih, List.map_cons]

/-- C89: whatever questions are asked, in whatever order and on whatever processors, every answer is the bit that the processor of the
first question advertises (never, on a build without x86 support), and `CPUID` is executed twice in all (never, without x86 support). -/
theorem C89_answers (x86 : Bool) (c : Cpu) (q : Feature) (rest : List (Cpu × Feature)) :
    (askAll x86 ((c, q) :: rest) {}).1 = ((c, q) :: rest).map (fun a => x86 && a.2.advertised c) ∧
    (askAll x86 ((c, q) :: rest) {}).2.cpuids = if x86 then 2 else 0 := by
  have h : askAll x86 ((c, q) :: rest) {} = (((c, q) :: rest).map (fun a => x86 && a.2.advertised c), detectFeatures x86 c {}) := by
    simp only [askAll, query_of_detected x86 c c q {} rfl, ask_detected, List.map_cons]
  rw [h]
  refine ⟨rfl, ?_⟩
  cases x86 <;> rfl

/-- A processor advertising everything except the two AVX-512 features. -/
def desktopCpu : Cpu := fun leaf _ =>
  if leaf = 0 then ⟨7, 0, 0, 0⟩ else if leaf = 1 then ⟨0, 0, 0x18100000, 0x04000000⟩ else if leaf = 7 then ⟨0, 0x20, 0, 0⟩ else ⟨0, 0, 0, 0⟩

example : (askAll true [(desktopCpu, .avx2), (desktopCpu, .avx512f), (desktopCpu, .sse2), (desktopCpu, .avx)] {}).1 = [true, false, true, true] := by
  decide +kernel

/-- What using a feature needs according to the processor manual: the bit, a processor that has the leaf at all (a request for a leaf above
the maximum returns the data of some other leaf), and for the AVX family an operating system that saves the registers
(`OSXSAVE` and the bits of `XCR0`). -/
def Feature.Usable (c : Cpu) (xcr0 : BitVec 64) (q : Feature) : Prop :=
  q.advertised c = true ∧ (q ∈ [.avx2, .avx512f, .avx512dq] → 7 ≤ (c 0 0).eax.toNat) ∧
  (q ∈ [.avx, .avx2, .avx512f, .avx512dq] → (c 1 0).ecx.getLsbD 27 = true ∧ xcr0.getLsbD 1 = true ∧ xcr0.getLsbD 2 = true) ∧
  (q ∈ [.avx512f, .avx512dq] → xcr0.getLsbD 5 = true ∧ xcr0.getLsbD 6 = true ∧ xcr0.getLsbD 7 = true)

/-- C89 as a caller would like it: a feature reported as supported can be used. -/
def C89_usable_statement : Prop :=
  ∀ (c : Cpu) (xcr0 : BitVec 64) (q : Feature), (q.query true c {}).1 = true → q.Usable c xcr0

/-- This is false of the code: the operating system's part is not asked for. -/
theorem C89_usable_false : ¬ C89_usable_statement := by
  intro h
  have := (h desktopCpu 1 .avx (by decide +kernel)).2.2.1 (by decide)
  revert this; decide

/-- Nor is the maximal leaf: a processor that returns the data of leaf 1 for every higher leaf is said to support AVX2 because of an
unrelated bit. -/
theorem C89_leaf : ∃ c : Cpu, (c 0 0).eax = 1 ∧ (∀ leaf, 1 ≤ leaf → c leaf 0 = c 1 0) ∧ (supportsAvx2 true c {}).1 = true := by
  refine ⟨fun leaf _ => if leaf = 0 then ⟨1, 0, 0, 0⟩ else ⟨0, 0x20, 0, 0⟩, rfl, ?_, by decide +kernel⟩
  intro leaf hl
  have : leaf ≠ 0 := by omega
  simp [this]

/-- The part of C89 that holds: on a processor that has leaf 7 under an operating system that enables the AVX state, exactly the usable
features are reported; for SSE2 and SSE4.2 this holds everywhere.  Full statement: `C89_usable_statement`; missing are the two checks. -/
theorem C89_usable_partial (c : Cpu) (xcr0 : BitVec 64) (q : Feature)
    (h : q = .sse2 ∨ q = .sse42 ∨ (7 ≤ (c 0 0).eax.toNat ∧ (c 1 0).ecx.getLsbD 27 = true ∧ ∀ i ∈ [1, 2, 5, 6, 7], xcr0.getLsbD i = true)) :
    (q.query true c {}).1 = true ↔ q.Usable c xcr0 := by
  rw [query_of_detected true c c q {} rfl, Bool.true_and]
  constructor
  · intro ha
    refine ⟨ha, ?_, ?_, ?_⟩
    · intro hm
      rcases h with rfl | rfl | h
      · simp at hm
      · simp at hm
      · exact h.1
    · intro hm
      rcases h with rfl | rfl | h
      · simp at hm
      · simp at hm
      · exact ⟨h.2.1, h.2.2 1 (by simp), h.2.2 2 (by simp)⟩
    · intro hm
      rcases h with rfl | rfl | h
      · simp at hm
      · simp at hm
      · exact ⟨h.2.2 5 (by simp), h.2.2 6 (by simp), h.2.2 7 (by simp)⟩
  · exact fun h => h.1

example : 7 ≤ (desktopCpu 0 0).eax.toNat ∧ (desktopCpu 1 0).ecx.getLsbD 27 = true ∧ (Feature.avx2.query true desktopCpu {}).1 = true := by
  decide +kernel

/-! ## C90 -/

/-- C90: the debug printer in fixed-point mode never fails and shows the four lanes in order, each as the exact decimal numeral of its
value, for every register content and every name. -/
theorem C90_fixed (x : Vec 4) (name : List Char) :
    ∃ s1 s2 s3 s4 : List Char, debugLogFixed x name = .ok ("DEBUG __m256i ".toList ++ name ++ " fixed point value: [".toList ++ s1 ++ ",".toList ++
        s2 ++ ",".toList ++ s3 ++ ",".toList ++ s4 ++ "]\n".toList) ∧
      IsNumeral 10 false s1 (val fixed64 (x 0).toInt) ∧ IsNumeral 10 false s2 (val fixed64 (x 1).toInt) ∧
      IsNumeral 10 false s3 (val fixed64 (x 2).toInt) ∧ IsNumeral 10 false s4 (val fixed64 (x 3).toInt) := by
  have hr : ∀ i, Storable fixed64 (x i).toInt := by
    intro i
    have h1 := BitVec.toInt_lt (x := x i); have h2 := BitVec.le_toInt (x := x i)
    constructor
    · rw [show fixed64.T.lo = -2 ^ 63 by rfl]; simpa using h2
    · rw [show fixed64.T.hi = 2 ^ 63 - 1 by rfl]; norm_num at h1 ⊢; omega
  obtain ⟨s1, e1, n1⟩ := C45_decimal fixed64 (Or.inr rfl) _ (hr 0) false false
  obtain ⟨s2, e2, n2⟩ := C45_decimal fixed64 (Or.inr rfl) _ (hr 1) false false
  obtain ⟨s3, e3, n3⟩ := C45_decimal fixed64 (Or.inr rfl) _ (hr 2) false false
  obtain ⟨s4, e4, n4⟩ := C45_decimal fixed64 (Or.inr rfl) _ (hr 3) false false
  refine ⟨s1, s2, s3, s4, ?_, n1, n2, n3, n4⟩
  unfold debugLogFixed
  rw [show copyAsChars fixed64 (x 0).toInt 10 false = .ok s1 from e1, show copyAsChars fixed64 (x 1).toInt 10 false = .ok s2 from e2,
    show copyAsChars fixed64 (x 2).toInt 10 false = .ok s3 from e3, show copyAsChars fixed64 (x 3).toInt 10 false = .ok s4 from e4]
  rfl

example : debugLogFixed (fun i => BitVec.ofInt 64 ([-(3 * 2 ^ 31), 0, 2 ^ 30, -2 ^ 63].getD i 0)) ['n'] =
    .ok "DEBUG __m256i n fixed point value: [-1.5,0,0.25,-2147483648]\n".toList := by decide +kernel

/-- The digits of `%lx` denote the word. -/
theorem hexWord_spec : ∀ (fuel u : Nat) (acc : List Char), 0 < fuel → u < 16 ^ fuel →
    ∃ ds : List Nat, hexWord fuel u acc = ds.map (digitOf false) ++ acc ∧ (∀ d ∈ ds, d < 16) ∧ digitsVal 16 ds = u ∧ NoLeadingZero ds := by
  intro fuel
  induction fuel with
  | zero => intro u acc h; omega
  | succ n ih =>
    intro u acc _ hu
    have hd : ∀ d, d < 16 → (digitTable false).getD d '?' = digitOf false d := by decide +kernel
    unfold hexWord
    have hm : u % 16 < 16 := Nat.mod_lt _ (by norm_num)
    by_cases h0 : u / 16 = 0
    · refine ⟨[u % 16], ?_, ?_, ?_, ?_⟩
      · simp only [h0, if_true, hd _ hm]; rfl
      · simpa using hm
      · simp only [digitsVal, List.foldl]; omega
      · by_cases hz : u % 16 = 0
        · left; rw [hz]
        · right; exact ⟨_, _, rfl, hz⟩
    · have hn : 0 < n := by
        rcases Nat.eq_zero_or_pos n with rfl | h
        · exfalso; apply h0; omega
        · exact h
      obtain ⟨ds, e, h1, h2, h3⟩ := ih (u / 16) ((digitTable false).getD (u % 16) '?' :: acc) hn
        (Nat.div_lt_of_lt_mul (by rw [pow_succ] at hu; omega))
      refine ⟨ds ++ [u % 16], ?_, ?_, ?_, ?_⟩
      · rw [hd _ hm] at e
        simp only [h0, if_false, hd _ hm, List.map_append, List.append_assoc]; exact e
      · intro d hd'
        rcases List.mem_append.1 hd' with h | h
        · exact h1 d h
        · rw [List.mem_singleton.1 h]; exact hm
      · rw [digitsVal, List.foldl_append]
        rw [digitsVal] at h2
        rw [h2]; simp only [List.foldl]; omega
      · right
        rcases h3 with h3 | ⟨d, l, h3, h4⟩
        · exfalso; rw [h3] at h2; simp [digitsVal] at h2; omega
        · exact ⟨d, l ++ [u % 16], by rw [h3]; rfl, h4⟩

/-- C90: in raw mode it shows the four words in order, in hexadecimal without leading zeros. -/
theorem C90_hex (x : Vec 4) (name : List Char) :
    ∃ s1 s2 s3 s4 : List Char, debugLogHex x name = "DEBUG __m256i ".toList ++ name ++ " fixed point value:[".toList ++ s1 ++ ", ".toList ++
        s2 ++ ", ".toList ++ s3 ++ ", ".toList ++ s4 ++ "]\n".toList ∧
      IsNatText 16 false s1 (x 0).toNat ∧ IsNatText 16 false s2 (x 1).toNat ∧ IsNatText 16 false s3 (x 2).toNat ∧
      IsNatText 16 false s4 (x 3).toNat := by
  have key : ∀ i, IsNatText 16 false (hexWord 16 (x i).toNat []) (x i).toNat := by
    intro i
    obtain ⟨ds, e, h1, h2, h3⟩ := hexWord_spec 16 (x i).toNat [] (by norm_num) (by have := (x i).isLt; norm_num at this ⊢; omega)
    rw [List.append_nil] at e
    exact ⟨ds, e, h1, h3, h2⟩
  exact ⟨_, _, _, _, rfl, key 0, key 1, key 2, key 3⟩

example : debugLogHex (fun i => BitVec.ofInt 64 ([255, 0, 4096, -1].getD i 0)) ['n'] =
    "DEBUG __m256i n fixed point value:[ff, 0, 1000, ffffffffffffffff]\n".toList := by decide +kernel

end Eirin.Props
