import Verif.Props.Mixing

/-! # C128: what different seeds mean for the sequences of the engines -/

namespace Eirin.Props
open Eirin

/-- The value the mixing steps of the next call start from: `m_state * multiplier + m_seed` in the unsigned type. -/
def preMix (P : PcgParams) (e : Pcg) : Nat := (e.state * P.mult + e.seed) % 2 ^ P.w

/-- Advancing the counter moves `preMix` by the multiplier. -/
theorem preMix_step (P : PcgParams) (e : Pcg) (k : Nat) :
    preMix P { e with state := (e.state + k) % 2 ^ P.w } = (preMix P e + k * P.mult) % 2 ^ P.w := by
  unfold preMix
  show ((e.state + k) % 2 ^ P.w * P.mult + e.seed) % 2 ^ P.w = ((e.state * P.mult + e.seed) % 2 ^ P.w + k * P.mult) % 2 ^ P.w
  rw [Nat.mod_add_mod, ← Nat.mod_add_mod, Nat.mod_mul_mod, Nat.mod_add_mod]
  congr 1; ring

/-- One call: the output depends on `preMix` alone. -/
theorem next_preMix (P : PcgParams) (sh : Shift) {a b : Pcg} (h : preMix P a = preMix P b) :
    (a.next P sh >>= fun p => .ok p.1) = (b.next P sh >>= fun p => .ok p.1) := by
  unfold Pcg.next
  unfold preMix at h
  simp only []
  rw [h]
  cases mixFirst P sh ((b.state * P.mult + b.seed) % 2 ^ P.w) with
  | ok v1 =>
    simp only [Res.bind_ok]
    cases mixSecond P sh (xorMix P v1) <;> rfl
  | ub _ => rfl
  | throw _ => rfl

/-- Engines with the same `preMix` produce the same outputs forever. -/
theorem outputs_preMix (P : PcgParams) (sh : Shift) (n : Nat) : ∀ {a b : Pcg}, preMix P a = preMix P b → outputs P sh n a = outputs P sh n b := by
  induction n with
  | zero => intros; rfl
  | succ n ih =>
    intro a b h
    have h1 := next_preMix P sh h
    unfold outputs
    cases ha : a.next P sh with
    | ok p =>
      cases hb : b.next P sh with
      | ok q =>
        rw [ha, hb] at h1
        simp only [Res.bind_ok, Res.ok.injEq] at h1
        obtain ⟨v, a'⟩ := p
        obtain ⟨u, b'⟩ := q
        simp only at h1
        have ea := next_state ha
        have eb := next_state hb
        have hn : preMix P a' = preMix P b' := by rw [ea, eb, preMix_step, preMix_step, h]
        simp only [Res.bind_ok]
        rw [ih hn, h1]
      | ub _ => rw [ha, hb] at h1; cases h1
      | throw _ => rw [ha, hb] at h1; cases h1
    | ub _ =>
      cases hb : b.next P sh with
      | ok q => rw [ha, hb] at h1; cases h1
      | ub _ => rw [ha, hb] at h1; simp only [Res.bind_ub] at h1 ⊢; cases h1; rfl
      | throw _ => rw [ha, hb] at h1; cases h1
    | throw _ =>
      cases hb : b.next P sh with
      | ok q => rw [ha, hb] at h1; cases h1
      | ub _ => rw [ha, hb] at h1; cases h1
      | throw _ => rw [ha, hb] at h1; simp only [Res.bind_throw] at h1 ⊢; cases h1; rfl

/-- C128: full statement: differently seeded engines run through different sequences, whatever part of them is skipped. -/
def C128_statement : Prop := ∀ P, P = pcg2014 ∨ P = pcg2014_64 → ∀ sh : Shift, ∀ s t, s < 2 ^ P.w → t < 2 ^ P.w → s ≠ t → ∀ z,
  ∃ n, outputs P sh n (Pcg.make P t) ≠ outputs P sh n ((Pcg.make P s).discard P z)

/-- C128, what is the case instead: there is only one cycle.  For every treatment of the shifts and any two engines, one produces what the
other produces after some number of calls have been discarded; that number is the same whatever the shifts do, and is unique modulo the
period if the values before mixing are compared. -/
theorem C128_one_cycle (P : PcgParams) (hP : P = pcg2014 ∨ P = pcg2014_64) (a b : Pcg) :
    ∃ z, z < 2 ^ P.w ∧ (∀ sh n, outputs P sh n b = outputs P sh n (a.discard P z)) ∧
      ∀ y, preMix P (a.discard P y) = preMix P b → y % 2 ^ P.w = z := by
  have hw : PcgParams.Wide P := by rcases hP with rfl | rfl <;> [exact Or.inl rfl; exact Or.inr rfl]
  have hpos : 0 < 2 ^ P.w := by positivity
  obtain ⟨-, inj, onto⟩ := (C107_steps_partial P hP (preMix P a)).1
  obtain ⟨z, hz, h⟩ := onto (preMix P b) (Nat.mod_lt _ hpos)
  have hd : ∀ y, preMix P (a.discard P y) = (y * P.mult + preMix P a) % 2 ^ P.w := by
    intro y; rw [discard_eq hw, preMix_step, Nat.add_comm]
  refine ⟨z, hz, fun sh n => outputs_preMix P sh n ?_, fun y hy => ?_⟩
  · rw [hd]; exact h.symm
  · apply inj _ _ (Nat.mod_lt _ hpos) hz
    beta_reduce at h ⊢
    rw [h, ← hy, hd, ← Nat.mod_add_mod, Nat.mod_mul_mod, Nat.mod_add_mod]

/-- C128 is false, for all pairs of seeds. -/
theorem C128_false : ¬ C128_statement := by
  intro h
  obtain ⟨z, -, h1, -⟩ := C128_one_cycle pcg2014 (Or.inl rfl) (Pcg.make pcg2014 0) (Pcg.make pcg2014 1)
  obtain ⟨n, hn⟩ := h pcg2014 (Or.inl rfl) shiftHw 0 1 (by decide) (by decide) (by decide) z
  exact hn (h1 shiftHw n)

/-- C128: a seed larger by the multiplier is the same sequence one call later. -/
theorem C128_neighbour (P : PcgParams) (hP : P = pcg2014 ∨ P = pcg2014_64) (sh : Shift) (s n : Nat) :
    outputs P sh n (Pcg.make P (s + P.mult)) = outputs P sh n ((Pcg.make P s).discard P 1) := by
  have hw : PcgParams.Wide P := by rcases hP with rfl | rfl <;> [exact Or.inl rfl; exact Or.inr rfl]
  apply outputs_preMix
  rw [discard_eq hw, preMix_step]
  unfold preMix Pcg.make
  simp only [one_mul, Nat.mod_add_mod, Nat.add_mod_mod]
  rw [Nat.add_assoc]

/-- C128, the part that holds: different seeds make different engines, and at equal positions the mixing steps start from different
values. -/
theorem C128_distinct_partial (P : PcgParams) (hP : P = pcg2014 ∨ P = pcg2014_64) (s t : Nat) (hs : s < 2 ^ P.w) (ht : t < 2 ^ P.w)
    (hst : s ≠ t) (z : Nat) :
    Pcg.eq (Pcg.make P s) (Pcg.make P t) = false ∧ preMix P ((Pcg.make P s).discard P z) ≠ preMix P ((Pcg.make P t).discard P z) := by
  have hw : PcgParams.Wide P := by rcases hP with rfl | rfl <;> [exact Or.inl rfl; exact Or.inr rfl]
  constructor
  · unfold Pcg.eq Pcg.make
    simp only [Nat.mod_eq_of_lt hs, Nat.mod_eq_of_lt ht, hst, decide_false, Bool.false_and]
  · intro h
    rw [discard_eq hw, discard_eq hw, preMix_step, preMix_step] at h
    have h1 : preMix P (Pcg.make P s) ≡ preMix P (Pcg.make P t) [MOD 2 ^ P.w] := Nat.ModEq.add_right_cancel' _ h
    unfold preMix Pcg.make Nat.ModEq at h1
    simp only [Nat.mod_mod] at h1
    have h2 : s % 2 ^ P.w ≡ t % 2 ^ P.w [MOD 2 ^ P.w] := Nat.ModEq.add_left_cancel' _ h1
    unfold Nat.ModEq at h2
    rw [Nat.mod_mod, Nat.mod_mod, Nat.mod_eq_of_lt hs, Nat.mod_eq_of_lt ht] at h2
    exact hst h2

/-- Two concrete seeds: 0 and the multiplier. -/
example : outputs pcg2014 shiftHw 3 (Pcg.make pcg2014 0xB5297A4D) = outputs pcg2014 shiftHw 3 ((Pcg.make pcg2014 0).discard pcg2014 1) ∧
    (outputs pcg2014 shiftHw 3 (Pcg.make pcg2014 0)).IsOk ∧
    outputs pcg2014 shiftHw 3 (Pcg.make pcg2014 0) ≠ outputs pcg2014 shiftHw 3 (Pcg.make pcg2014 0xB5297A4D) := by
  decide +kernel

end Eirin.Props
