import Verif.Model.SeedSeq
import Verif.Props.Random
import Mathlib.Data.Nat.ModEq

/-! # Property C104: seeding an engine by a seed sequence. -/

namespace Eirin.Props

/-- The words of a `std::seed_seq`: 32-bit numbers. -/
def Words32 (v : List Nat) : Prop := ∀ w ∈ v, w < 2 ^ 32
instance (v : List Nat) : Decidable (Words32 v) := by unfold Words32; infer_instance

/-- C104 as stated: seeding by a sequence replaces the whole state, and every state of the engine arises from some sequence. -/
def C104_statement : Prop := ∀ P, P = pcg2014 ∨ P = pcg2014_64 →
  (∀ (a b : Pcg) (v : List Nat), Words32 v → Pcg.eq (a.seedBy P v) (b.seedBy P v) = true) ∧
  (∀ e, Pcg.Ok P e → ∃ v, Words32 v ∧ ∀ a, Pcg.eq (Pcg.seedBy P a v) e = true)

theorem seedMix2_lt {c o s : Nat} (ho : o < 2 ^ 32) : (seedMix2 c o s).1 < 2 ^ 32 ∧ (seedMix2 c o s).2 < 2 ^ 32 := by
  unfold seedMix2
  exact ⟨Nat.mod_lt _ (by norm_num), Nat.xor_lt_two_pow (Nat.xor_lt_two_pow ho (Nat.mod_lt _ (by norm_num))) (Nat.mod_lt _ (by norm_num))⟩

theorem seedMix1_lt (c o a : Nat) : (seedMix1 c o a).1 < 2 ^ 32 ∧ (seedMix1 c o a).2 < 2 ^ 32 := by
  unfold seedMix1
  exact ⟨Nat.mod_lt _ (by norm_num), Nat.mod_lt _ (by norm_num)⟩

theorem seedFirst_lt (k : Nat) (ws : List Nat) (s : Nat × Nat) (h : s.1 < 2 ^ 32 ∧ s.2 < 2 ^ 32) :
    (seedFirst k ws s).1 < 2 ^ 32 ∧ (seedFirst k ws s).2 < 2 ^ 32 := by
  induction ws generalizing k s with
  | nil => exact h
  | cons w ws ih =>
    unfold seedFirst
    have := seedMix1_lt s.1 s.2 (k % 2 + w)
    exact ih _ _ ⟨this.2, this.1⟩

theorem seedGenerate2_lt (v : List Nat) : (seedGenerate2 v).1 < 2 ^ 32 ∧ (seedGenerate2 v).2 < 2 ^ 32 := by
  have h1 := seedMix1_lt 0x8b8b8b8b 0x8b8b8b8b v.length
  have h2 := seedFirst_lt 1 (if v = [] then [0] else v) (_, _) ⟨h1.2, h1.1⟩
  unfold seedGenerate2
  simp only
  generalize seedFirst 1 (if v = [] then [0] else v) ((seedMix1 0x8b8b8b8b 0x8b8b8b8b v.length).2, (seedMix1 0x8b8b8b8b 0x8b8b8b8b v.length).1) = s at *
  generalize ((if v = [] then [0] else v).length + 1) = m
  have h3 := seedMix2_lt (c := s.1) (s := m % 2) h2.2
  have h4 := seedMix2_lt (c := (seedMix2 s.1 s.2 (m % 2)).2) (s := (m + 1) % 2) h3.1
  split
  · exact ⟨h4.2, h4.1⟩
  · exact h4

/-- C104, what holds: seeding by a sequence makes any two engines equal, whatever happened to them before (unlike `seed(s)`, C60), and the two
members are the 32-bit words generated.  Full statement: `C104_statement`; missing (false): reaching every state of the 64-bit engine. -/
theorem C104_restart_partial (P : PcgParams) (hP : 32 ≤ P.w) (a b : Pcg) (v : List Nat) :
    Pcg.eq (a.seedBy P v) (b.seedBy P v) = true ∧ (a.seedBy P v).seed = (seedGenerate2 v).1 ∧ (a.seedBy P v).state = (seedGenerate2 v).2 ∧
    (a.seedBy P v).seed < 2 ^ 32 ∧ (a.seedBy P v).state < 2 ^ 32 := by
  obtain ⟨h1, h2⟩ := seedGenerate2_lt v
  have hw : 2 ^ 32 ≤ 2 ^ P.w := Nat.pow_le_pow_right (by norm_num) hP
  unfold Pcg.seedBy Pcg.reseedSeq Pcg.eq
  rw [Nat.mod_eq_of_lt (lt_of_lt_of_le h1 hw), Nat.mod_eq_of_lt (lt_of_lt_of_le h2 hw)]
  exact ⟨by simp, rfl, rfl, h1, h2⟩

example : ((⟨5, 6⟩ : Pcg).seedBy pcg2014 [1, 2, 3]) = ⟨2039731893, 260350100⟩ ∧ ((⟨5, 6⟩ : Pcg).seedBy pcg2014_64 [1, 2, 3]) = ⟨2039731893, 260350100⟩ := by
  decide +kernel

/-- C104 is false for the 64-bit engine: only 32 of the 64 bits of each member are ever filled. -/
theorem C104_false : ¬ C104_statement := by
  intro h
  obtain ⟨v, -, hv⟩ := (h pcg2014_64 (Or.inr rfl)).2 ⟨2 ^ 32, 0⟩ (by unfold Pcg.Ok; decide)
  have h1 := hv ⟨0, 0⟩
  have h2 := (C104_restart_partial pcg2014_64 (by decide) ⟨0, 0⟩ ⟨0, 0⟩ v).2.2.2.1
  unfold Pcg.eq at h1
  simp only [Bool.and_eq_true, decide_eq_true_eq] at h1
  omega

/-! ### Sequences that differ in one word give different engines -/

theorem seedT_invol {x : Nat} (h : x < 2 ^ 32) : seedT (seedT x) = x := by
  unfold seedT
  rw [← Nat.shiftRight_eq_div_pow, ← Nat.shiftRight_eq_div_pow, Nat.shiftRight_xor_distrib, ← Nat.shiftRight_add]
  have : x >>> (27 + 27) = 0 := by
    rw [Nat.shiftRight_eq_div_pow]; exact Nat.div_eq_of_lt (lt_of_lt_of_le h (by norm_num))
  rw [this, Nat.xor_zero, Nat.xor_assoc, Nat.xor_self, Nat.xor_zero]

theorem seedT_lt {x : Nat} (h : x < 2 ^ 32) : seedT x < 2 ^ 32 := by
  unfold seedT
  exact Nat.xor_lt_two_pow h (lt_of_le_of_lt (Nat.div_le_self _ _) h)

theorem seedMul_inj {c x y : Nat} (hc : Nat.Coprime (2 ^ 32) c) (hx : x < 2 ^ 32) (hy : y < 2 ^ 32)
    (h : c * seedT x % 2 ^ 32 = c * seedT y % 2 ^ 32) : x = y := by
  have h1 : seedT x ≡ seedT y [MOD 2 ^ 32] := Nat.ModEq.cancel_left_of_coprime hc h
  have h2 : seedT x = seedT y := Nat.ModEq.eq_of_lt_of_lt h1 (seedT_lt hx) (seedT_lt hy)
  rw [← seedT_invol hx, h2, seedT_invol hy]

theorem seedMix1_eq (c o a : Nat) : seedMix1 c o a =
    ((1664525 * seedT c % 2 ^ 32 + a) % 2 ^ 32,
      ((o + 1664525 * seedT c % 2 ^ 32) % 2 ^ 32 + (1664525 * seedT c % 2 ^ 32 + a) % 2 ^ 32) % 2 ^ 32) := by
  unfold seedMix1; simp only; rw [Nat.xor_assoc, Nat.xor_self, Nat.xor_zero]

/-- A first step is injective on the pair. -/
theorem seedMix1_inj {c o c' o' a : Nat} (h1 : c < 2 ^ 32) (h2 : o < 2 ^ 32) (h3 : c' < 2 ^ 32) (h4 : o' < 2 ^ 32)
    (h : seedMix1 c o a = seedMix1 c' o' a) : c = c' ∧ o = o' := by
  rw [seedMix1_eq, seedMix1_eq, Prod.mk.injEq] at h
  obtain ⟨ha, hb⟩ := h
  have hr : 1664525 * seedT c % 2 ^ 32 = 1664525 * seedT c' % 2 ^ 32 := by
    have b1 := Nat.mod_lt (1664525 * seedT c) (show 0 < 2 ^ 32 by norm_num)
    have b2 := Nat.mod_lt (1664525 * seedT c') (show 0 < 2 ^ 32 by norm_num)
    generalize 1664525 * seedT c % 2 ^ 32 = r at *
    generalize 1664525 * seedT c' % 2 ^ 32 = r' at *
    omega
  refine ⟨seedMul_inj (by decide +kernel) h1 h3 hr, ?_⟩
  rw [hr] at hb
  generalize 1664525 * seedT c' % 2 ^ 32 = r at *
  omega

/-- A first step is injective in the word added. -/
theorem seedMix1_word {c o a a' : Nat} (hd : a % 2 ^ 32 ≠ a' % 2 ^ 32) : seedMix1 c o a ≠ seedMix1 c o a' := by
  intro h
  rw [seedMix1_eq, seedMix1_eq, Prod.mk.injEq] at h
  obtain ⟨h, -⟩ := h
  generalize 1664525 * seedT c % 2 ^ 32 = r at *
  omega

theorem xor_cancel {a b c : Nat} (h : a ^^^ c = b ^^^ c) : a = b := by
  have := congrArg (· ^^^ c) h
  simpa [Nat.xor_assoc] using this

/-- A second step is injective on the pair. -/
theorem seedMix2_inj {c o c' o' s : Nat} (h1 : c < 2 ^ 32) (h3 : c' < 2 ^ 32)
    (h : seedMix2 c o s = seedMix2 c' o' s) : c = c' ∧ o = o' := by
  unfold seedMix2 at h
  simp only [Prod.mk.injEq] at h
  obtain ⟨ha, hb⟩ := h
  have hr : 1566083941 * seedT ((c + o + o) % 2 ^ 32) % 2 ^ 32 = 1566083941 * seedT ((c' + o' + o') % 2 ^ 32) % 2 ^ 32 := by
    have b1 := Nat.mod_lt (1566083941 * seedT ((c + o + o) % 2 ^ 32)) (show 0 < 2 ^ 32 by norm_num)
    have b2 := Nat.mod_lt (1566083941 * seedT ((c' + o' + o') % 2 ^ 32)) (show 0 < 2 ^ 32 by norm_num)
    generalize 1566083941 * seedT ((c + o + o) % 2 ^ 32) % 2 ^ 32 = r at *
    generalize 1566083941 * seedT ((c' + o' + o') % 2 ^ 32) % 2 ^ 32 = r' at *
    omega
  have hs := seedMul_inj (by decide +kernel) (Nat.mod_lt _ (by norm_num)) (Nat.mod_lt _ (by norm_num)) hr
  rw [ha, hr] at hb
  have ho : o = o' := xor_cancel (xor_cancel hb)
  refine ⟨?_, ho⟩
  rw [ho] at hs
  omega

theorem seedFirst_inj (ws : List Nat) : ∀ (k : Nat) (s t : Nat × Nat), s.1 < 2 ^ 32 → s.2 < 2 ^ 32 → t.1 < 2 ^ 32 → t.2 < 2 ^ 32 →
    seedFirst k ws s = seedFirst k ws t → s = t := by
  induction ws with
  | nil => intro k s t _ _ _ _ h; exact h
  | cons w ws ih =>
    intro k s t h1 h2 h3 h4 h
    unfold seedFirst at h
    simp only at h
    have b1 := seedMix1_lt s.1 s.2 (k % 2 + w)
    have b2 := seedMix1_lt t.1 t.2 (k % 2 + w)
    have e := ih _ _ _ b1.2 b1.1 b2.2 b2.1 h
    rw [Prod.mk.injEq] at e
    have := seedMix1_inj h1 h2 h3 h4 (Prod.ext e.2 e.1)
    exact Prod.ext this.1 this.2

theorem seedFirst_word (u w : List Nat) (x y : Nat) (hx : x < 2 ^ 32) (hy : y < 2 ^ 32) (hxy : x ≠ y) :
    ∀ (k : Nat) (s : Nat × Nat), seedFirst k (u ++ x :: w) s ≠ seedFirst k (u ++ y :: w) s := by
  induction u with
  | nil =>
    intro k s h
    rw [List.nil_append, List.nil_append] at h
    unfold seedFirst at h
    simp only at h
    have b1 := seedMix1_lt s.1 s.2 (k % 2 + x)
    have b2 := seedMix1_lt s.1 s.2 (k % 2 + y)
    have e := seedFirst_inj w _ _ _ b1.2 b1.1 b2.2 b2.1 h
    rw [Prod.mk.injEq] at e
    exact seedMix1_word (by omega) (Prod.ext e.2 e.1)
  | cons z u ih =>
    intro k s h
    rw [List.cons_append, List.cons_append] at h
    unfold seedFirst at h
    exact ih _ _ h

/-- C104: two sequences of the same length that differ in exactly one word leave any engine in different states (both engines). -/
theorem C104_distinct (P : PcgParams) (hP : 32 ≤ P.w) (e : Pcg) (u w : List Nat) (x y : Nat) (hx : x < 2 ^ 32) (hy : y < 2 ^ 32) (hxy : x ≠ y) :
    Pcg.ne (e.seedBy P (u ++ x :: w)) (e.seedBy P (u ++ y :: w)) = true := by
  have key : seedGenerate2 (u ++ x :: w) ≠ seedGenerate2 (u ++ y :: w) := by
    intro h
    unfold seedGenerate2 at h
    have l : (u ++ x :: w).length = (u ++ y :: w).length := by simp
    rw [if_neg (by simp), if_neg (by simp)] at h
    simp only [l] at h
    have h1 := seedMix1_lt 0x8b8b8b8b 0x8b8b8b8b (u ++ y :: w).length
    generalize seedMix1 0x8b8b8b8b 0x8b8b8b8b (u ++ y :: w).length = i at *
    have hx2 := seedFirst_lt 1 (u ++ x :: w) (i.2, i.1) ⟨h1.2, h1.1⟩
    have hy2 := seedFirst_lt 1 (u ++ y :: w) (i.2, i.1) ⟨h1.2, h1.1⟩
    have hne := seedFirst_word u w x y hx hy hxy 1 (i.2, i.1)
    generalize seedFirst 1 (u ++ x :: w) (i.2, i.1) = s at *
    generalize seedFirst 1 (u ++ y :: w) (i.2, i.1) = t at *
    generalize (u ++ y :: w).length + 1 = m at *
    have hs3 := seedMix2_lt (c := s.1) (s := m % 2) hx2.2
    have ht3 := seedMix2_lt (c := t.1) (s := m % 2) hy2.2
    have e2 : seedMix2 (seedMix2 s.1 s.2 (m % 2)).2 (seedMix2 s.1 s.2 (m % 2)).1 ((m + 1) % 2) =
        seedMix2 (seedMix2 t.1 t.2 (m % 2)).2 (seedMix2 t.1 t.2 (m % 2)).1 ((m + 1) % 2) := by
      by_cases hm : m % 2 = 0
      · rw [if_pos hm, if_pos hm, Prod.mk.injEq] at h; exact Prod.ext h.2 h.1
      · rw [if_neg hm, if_neg hm, Prod.mk.injEq] at h; exact Prod.ext h.1 h.2
    have e1 := seedMix2_inj hs3.2 ht3.2 e2
    have e0 := seedMix2_inj hx2.1 hy2.1 (Prod.ext e1.2 e1.1)
    exact hne (Prod.ext e0.1 e0.2)
  obtain ⟨-, s1, t1, -, -⟩ := C104_restart_partial P hP e e (u ++ x :: w)
  obtain ⟨-, s2, t2, -, -⟩ := C104_restart_partial P hP e e (u ++ y :: w)
  unfold Pcg.ne Pcg.eq
  rw [s1, s2, t1, t2]
  simp only [Bool.not_eq_true', Bool.and_eq_false_iff, decide_eq_false_iff_not]
  by_contra hc
  push Not at hc
  exact key (Prod.ext hc.1 hc.2)

example : Pcg.ne ((⟨5, 6⟩ : Pcg).seedBy pcg2014 ([1] ++ 2 :: [3])) ((⟨5, 6⟩ : Pcg).seedBy pcg2014 ([1] ++ 4 :: [3])) = true ∧
    Pcg.ne ((⟨5, 6⟩ : Pcg).seedBy pcg2014 []) ((⟨5, 6⟩ : Pcg).seedBy pcg2014 [0]) = true := by decide +kernel

/-- C104: `!=` is the negation of `==` for the engines and the adapter, and `==` holds exactly for equal members. -/
theorem C104_ne (E : Engine) (x y : E.σ) (a b : Pcg) :
    (Pcg.ne a b = true ↔ a ≠ b) ∧ (adapterNe E x y = true ↔ adapterEq E x y = false) := by
  constructor
  · unfold Pcg.ne Pcg.eq
    cases a; cases b
    simp only [Bool.not_eq_true', Bool.and_eq_false_iff, decide_eq_false_iff_not, ne_eq, Pcg.mk.injEq]
    tauto
  · unfold adapterNe; simp

example : Pcg.ne ⟨1, 2⟩ ⟨1, 3⟩ = true ∧ Pcg.ne ⟨1, 2⟩ ⟨1, 2⟩ = false := by decide

end Eirin.Props
