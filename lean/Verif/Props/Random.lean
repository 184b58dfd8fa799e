import Verif.Model.Random
import Verif.Props.Convert

/-! # C59–C64: random engines and distributions -/

namespace Eirin.Props
open Spec

/-- The widths of the unsigned types used (`uint32_t`, `uint64_t`). -/
def PcgParams.Wide (P : PcgParams) : Prop := P.w = 32 ∨ P.w = 64

/-- The members hold values of the unsigned type. -/
def Pcg.Ok (P : PcgParams) (e : Pcg) : Prop := e.seed < 2 ^ P.w ∧ e.state < 2 ^ P.w

/-! ## C59 -/

/-- `z` calls of the engine, discarding the results. -/
def calls (P : PcgParams) (sh : Shift) : Nat → Pcg → Res Pcg
  | 0, e => .ok e
  | z + 1, e => do
    let (_, e') ← e.next P sh
    calls P sh z e'

theorem next_state {P : PcgParams} {sh : Shift} {e e' : Pcg} {v : Nat} (h : e.next P sh = .ok (v, e')) :
    e' = { e with state := (e.state + 1) % 2 ^ P.w } := by
  unfold Pcg.next at h
  simp only [] at h
  cases h1 : mixFirst P sh ((e.state * P.mult + e.seed) % 2 ^ P.w) with
  | ok v1 =>
    rw [h1] at h
    simp only [Res.bind_ok] at h
    cases h2 : mixSecond P sh (xorMix P v1) with
    | ok v2 =>
      rw [h2] at h
      simp only [Res.bind_ok, Res.pure_eq, Res.ok.injEq, Prod.mk.injEq] at h
      exact h.2.symm
    | ub _ => rw [h2] at h; cases h
    | throw _ => rw [h2] at h; cases h
  | ub _ => rw [h1] at h; cases h
  | throw _ => rw [h1] at h; cases h

theorem discard_eq {P : PcgParams} (hP : PcgParams.Wide P) (e : Pcg) (z : Nat) :
    e.discard P z = { e with state := (e.state + z) % 2 ^ P.w } := by
  unfold Pcg.discard
  congr 1
  apply Nat.mod_mod_of_dvd
  apply pow_dvd_pow
  rcases hP with h | h <;> rw [h] <;> norm_num

/-- C59: `discard(z)` leaves the engine in the state it has after `z` calls, for every engine, every `z`, and every treatment of
over-wide shifts. -/
theorem C59_discard (P : PcgParams) (hP : PcgParams.Wide P) (sh : Shift) (e e' : Pcg) (he : Pcg.Ok P e) (z : Nat)
    (h : calls P sh z e = .ok e') : e' = e.discard P z := by
  rw [discard_eq hP]
  induction z generalizing e with
  | zero =>
    simp only [calls, Res.ok.injEq] at h
    rw [← h, Nat.add_zero, Nat.mod_eq_of_lt he.2]
  | succ z ih =>
    unfold calls at h
    cases hn : e.next P sh with
    | ok p =>
      obtain ⟨v, e1⟩ := p
      rw [hn, Res.bind_ok] at h
      have e1' := next_state hn
      have := ih e1 (by rw [e1']; exact ⟨he.1, Nat.mod_lt _ (by positivity)⟩) h
      rw [this, e1']
      congr 1
      simp only []
      rw [Nat.mod_add_mod]; congr 1; omega
    | ub _ => rw [hn] at h; cases h
    | throw _ => rw [hn] at h; cases h

example : calls pcg2014 shiftHw 3 (Pcg.make pcg2014 7) = .ok ((Pcg.make pcg2014 7).discard pcg2014 3) := by decide +kernel

/-- C59: the period of the state sequence is exactly `2^w`. -/
theorem C59_period (P : PcgParams) (hP : PcgParams.Wide P) (e : Pcg) (he : Pcg.Ok P e) (z : Nat) :
    e.discard P z = e ↔ 2 ^ P.w ∣ z := by
  rw [discard_eq hP]
  constructor
  · intro h
    have h2 : (e.state + z) % 2 ^ P.w = e.state := congrArg Pcg.state h
    have h3 : (e.state + z) % 2 ^ P.w = (e.state + 0) % 2 ^ P.w := by rw [h2, Nat.add_zero, Nat.mod_eq_of_lt he.2]
    have h4 := (Nat.sub_mod_eq_zero_of_mod_eq h3)
    rw [Nat.add_zero, Nat.add_sub_cancel_left] at h4
    exact Nat.dvd_of_mod_eq_zero h4
  · rintro ⟨k, rfl⟩
    rw [Nat.add_mul_mod_self_left, Nat.mod_eq_of_lt he.2]

example : Pcg.Ok pcg2014 (Pcg.default pcg2014) ∧ (Pcg.default pcg2014).discard pcg2014 (2 ^ 32) = Pcg.default pcg2014 ∧
    (Pcg.default pcg2014).discard pcg2014 (2 ^ 31) ≠ Pcg.default pcg2014 := by
  unfold Pcg.Ok; decide +kernel

/-! ## C60 -/

/-- The first `n` outputs. -/
def outputs (P : PcgParams) (sh : Shift) : Nat → Pcg → Res (List Nat)
  | 0, _ => .ok []
  | n + 1, e => do
    let (v, e') ← e.next P sh
    let vs ← outputs P sh n e'
    pure (v :: vs)

/-- C60: engines that compare equal behave identically forever. -/
theorem C60_equal (P : PcgParams) (sh : Shift) (a b : Pcg) (h : Pcg.eq a b = true) (n : Nat) :
    outputs P sh n a = outputs P sh n b := by
  unfold Pcg.eq at h
  simp only [Bool.and_eq_true, decide_eq_true_eq] at h
  have : a = b := by
    cases a; cases b; simp only at h; rw [h.1, h.2]
  rw [this]

/-- C60: engines constructed with the same seed are equal; the comparison is an equivalence that holds exactly for equal states. -/
theorem C60_same_seed (P : PcgParams) (s : Nat) (a b : Pcg) :
    Pcg.eq (Pcg.make P s) (Pcg.make P s) = true ∧ (Pcg.eq a b = true ↔ a = b) := by
  constructor
  · simp [Pcg.eq]
  · unfold Pcg.eq
    cases a; cases b
    simp

example : Pcg.eq (Pcg.make pcg2014 1) (Pcg.make pcg2014 2) = false := by decide +kernel

/-- C60 as stated: `seed(s)` makes any engine equal to a fresh one with seed `s`. -/
def C60_statement : Prop :=
  ∀ (e : Pcg) (s : Nat), Pcg.Ok pcg2014 e → Pcg.eq (e.reseed pcg2014 s) (Pcg.make pcg2014 s) = true

/-- C60 is false of the code: `seed` does not reset the state counter. -/
theorem C60_false : ¬ C60_statement := by
  intro h
  have := h ⟨0, 1⟩ 5 (by unfold Pcg.Ok; decide +kernel)
  revert this
  decide +kernel

/-- C60, the reach of `seed(s)`: the engine becomes equal to a fresh one exactly if its counter is at the initial value (for instance
right after construction or a full period).  Full statement: `C60_statement`. -/
theorem C60_seed_partial (P : PcgParams) (e : Pcg) (s : Nat) :
    Pcg.eq (e.reseed P s) (Pcg.make P s) = true ↔ e.state = P.init % 2 ^ P.w := by
  unfold Pcg.eq Pcg.reseed Pcg.make
  simp

example : Pcg.eq ((Pcg.make pcg2014 3).reseed pcg2014 5) (Pcg.make pcg2014 5) = true := by decide +kernel

/-! ## C61 -/

theorem next_value {P : PcgParams} {sh : Shift} {e e' : Pcg} {v : Nat} (h : e.next P sh = .ok (v, e')) :
    ∃ v2, v2 < 2 ^ P.w ∧ v = (v2 &&& 0x7FFFFFFE) ^^^ (v2 / 2 ^ 8) := by
  unfold Pcg.next at h
  simp only [] at h
  cases h1 : mixFirst P sh ((e.state * P.mult + e.seed) % 2 ^ P.w) with
  | ok v1 =>
    rw [h1] at h
    simp only [Res.bind_ok] at h
    cases h2 : mixSecond P sh (xorMix P v1) with
    | ok v2 =>
      rw [h2] at h
      simp only [Res.bind_ok, Res.pure_eq, Res.ok.injEq, Prod.mk.injEq] at h
      refine ⟨v2, ?_, h.1.symm⟩
      unfold mixSecond at h2
      cases h3 : sh P.w (xorMix P v1) (8 ^^^ xorMix P v1) with
      | ok y =>
        rw [h3] at h2
        simp only [Res.bind_ok, Res.pure_eq, Res.ok.injEq] at h2
        rw [← h2]
        exact Nat.mod_lt _ (by positivity)
      | ub _ => rw [h3] at h2; cases h2
      | throw _ => rw [h3] at h2; cases h2
    | ub _ => rw [h2] at h; cases h
    | throw _ => rw [h2] at h; cases h
  | ub _ => rw [h1] at h; cases h
  | throw _ => rw [h1] at h; cases h

/-- C61: every output lies between `min()` and `max()`; it even lies below `2^31` for 32-bit engines and below `2^56` for 64-bit ones. -/
theorem C61_range (P : PcgParams) (hP : PcgParams.Wide P) (sh : Shift) (e e' : Pcg) (v : Nat) (h : e.next P sh = .ok (v, e')) :
    Pcg.min ≤ v ∧ v ≤ Pcg.max P ∧ v < 2 ^ (if P.w = 32 then 31 else 56) := by
  obtain ⟨v2, hv, rfl⟩ := next_value h
  have hand : v2 &&& 0x7FFFFFFE < 2 ^ 31 := lt_of_le_of_lt Nat.and_le_right (by norm_num)
  have hlt : (v2 &&& 0x7FFFFFFE) ^^^ (v2 / 2 ^ 8) < 2 ^ (if P.w = 32 then 31 else 56) := by
    rcases hP with hw | hw
    · rw [hw] at hv
      rw [if_pos hw]
      exact Nat.xor_lt_two_pow hand (by rw [Nat.div_lt_iff_lt_mul (by norm_num)]; omega)
    · rw [hw] at hv
      rw [if_neg (by omega)]
      exact Nat.xor_lt_two_pow (by omega) (by rw [Nat.div_lt_iff_lt_mul (by norm_num)]; omega)
  refine ⟨Nat.zero_le _, ?_, hlt⟩
  unfold Pcg.max
  rcases hP with hw | hw
  · rw [if_pos hw] at hlt; rw [hw]; omega
  · rw [if_neg (by omega)] at hlt; rw [hw]; omega

example : (Pcg.default pcg2014).next pcg2014 shiftHw = .ok (1609811217, ⟨0x89ABCD, 1⟩) := by decide +kernel

/-- C61 as stated: the advertised maximum is attainable. -/
def C61_statement : Prop :=
  ∃ (sh : Shift) (e e' : Pcg), e.next pcg2014 sh = .ok (Pcg.max pcg2014, e') ∨ e.next pcg2014_64 sh = .ok (Pcg.max pcg2014_64, e')

/-- C61 is false of the code: no engine of either type, however shifts are evaluated, ever returns `max()`. -/
theorem C61_false : ¬ C61_statement := by
  rintro ⟨sh, e, e', h | h⟩
  · have := (C61_range pcg2014 (Or.inl rfl) sh e e' _ h).2.2
    revert this
    decide +kernel
  · have := (C61_range pcg2014_64 (Or.inr rfl) sh e e' _ h).2.2
    revert this
    decide +kernel

/-! ## C62 -/

/-- C62 as stated: from every seed, the first call is defined. -/
def C62_statement : Prop :=
  ∀ s, ∃ v e', (Pcg.make pcg2014 s).next pcg2014 shiftStd = .ok (v, e')

theorem mixFirst_std (P : PcgParams) (x : Nat) :
    mixFirst P shiftStd x = if 8 ^^^ x < P.w then .ok ((x / 2 ^ (8 ^^^ x) + P.inc) % 2 ^ P.w) else .ub .shift := by
  unfold mixFirst shiftStd
  split <;> rfl

theorem mixSecond_std (P : PcgParams) (x : Nat) :
    mixSecond P shiftStd x = if 8 ^^^ x < P.w then .ok ((x / 2 ^ (8 ^^^ x) * P.mixMult) % 2 ^ P.w) else .ub .shift := by
  unfold mixSecond shiftStd
  split <;> rfl

theorem xor8_lt {w x : Nat} (hw : w = 32 ∨ w = 64) (h : 8 ^^^ x < w) : x < w := by
  have e : x = 8 ^^^ (8 ^^^ x) := by rw [← Nat.xor_assoc, Nat.xor_self, Nat.zero_xor]
  rw [e]
  rcases hw with rfl | rfl
  · exact Nat.xor_lt_two_pow (n := 5) (by norm_num) h
  · exact Nat.xor_lt_two_pow (n := 6) (by norm_num) h

/-- The second shift is over-wide for every value that survives the first. -/
def noSurvivor (P : PcgParams) : Bool :=
  (List.range P.w).all fun x => decide (P.w ≤ 8 ^^^ x) || decide (P.w ≤ 8 ^^^ xorMix P ((x / 2 ^ (8 ^^^ x) + P.inc) % 2 ^ P.w))

theorem always_ub {P : PcgParams} (hP : PcgParams.Wide P) (hn : noSurvivor P = true) (e : Pcg) :
    e.next P shiftStd = .ub .shift := by
  unfold Pcg.next
  set v0 := (e.state * P.mult + e.seed) % 2 ^ P.w
  simp only []
  rw [mixFirst_std]
  by_cases h : 8 ^^^ v0 < P.w
  · rw [if_pos h, Res.bind_ok, mixSecond_std]
    have hl := xor8_lt hP h
    unfold noSurvivor at hn
    rw [List.all_eq_true] at hn
    have := hn v0 (List.mem_range.2 hl)
    simp only [Bool.or_eq_true, decide_eq_true_eq] at this
    rw [if_neg (by omega), Res.bind_ub]
  · rw [if_neg h, Res.bind_ub]

/-- C62, the opposite of what is claimed: *every* call of `pcg2014` and of `pcg2014_64`, in every state whatsoever, has undefined
behaviour (one of the two shifts by `8 ^ x` is over-wide). -/
theorem C62_always_undefined (e : Pcg) :
    e.next pcg2014 shiftStd = .ub .shift ∧ e.next pcg2014_64 shiftStd = .ub .shift :=
  ⟨always_ub (Or.inl rfl) (by decide +kernel) e, always_ub (Or.inr rfl) (by decide +kernel) e⟩

/-- C62 is false of the code. -/
theorem C62_false : ¬ C62_statement := by
  intro h
  obtain ⟨v, e', h⟩ := h 0
  rw [(C62_always_undefined _).1] at h
  cases h

/-- C62, when a call is defined (any parameters): exactly if both shift counts `8 ^ x` are below the width.  Full statement:
`C62_statement` (for all seeds); for the two shipped parameter sets the condition never holds. -/
theorem C62_defined_partial (P : PcgParams) (e : Pcg) :
    (∃ v e', e.next P shiftStd = .ok (v, e')) ↔
      8 ^^^ ((e.state * P.mult + e.seed) % 2 ^ P.w) < P.w ∧
      8 ^^^ xorMix P ((((e.state * P.mult + e.seed) % 2 ^ P.w) / 2 ^ (8 ^^^ ((e.state * P.mult + e.seed) % 2 ^ P.w)) + P.inc) % 2 ^ P.w)
        < P.w := by
  unfold Pcg.next
  set v0 := (e.state * P.mult + e.seed) % 2 ^ P.w
  simp only []
  rw [mixFirst_std]
  by_cases h : 8 ^^^ v0 < P.w
  · rw [if_pos h, Res.bind_ok, mixSecond_std]
    by_cases h2 : 8 ^^^ xorMix P ((v0 / 2 ^ (8 ^^^ v0) + P.inc) % 2 ^ P.w) < P.w
    · rw [if_pos h2, Res.bind_ok]
      exact ⟨fun _ => ⟨h, h2⟩, fun _ => ⟨_, _, rfl⟩⟩
    · rw [if_neg h2, Res.bind_ub]
      exact ⟨(by rintro ⟨_, _, hc⟩; cases hc), fun hc => absurd hc.2 h2⟩
  · rw [if_neg h, Res.bind_ub]
    exact ⟨(by rintro ⟨_, _, hc⟩; cases hc), fun hc => absurd hc.1 h⟩

example : (Pcg.mk 8 0).next ⟨32, 0, 1, 0, 1, 1⟩ shiftStd = .ub .shift := by decide +kernel
example : (Pcg.mk 0 0).next ⟨32, 0, 1, 0, 1, 1⟩ shiftStd = .ok (0, ⟨0, 1⟩) := by decide +kernel

/-! ## C63 -/

theorem from_same {F : FxTy} (hF : F.Valid) (v : Int) : fromFixedNumValue F F.T F.f (F.T.wrap v) = .ok (F.T.wrap v) := by
  have hr := IntTy.wrap_inRange (t := F.T) v hF.tpos
  have hp : 0 < F.T.promote.bits := by
    have := hF.tp; have := hF.tpos
    show 0 < F.P.bits
    omega
  unfold fromFixedNumValue
  rw [if_neg (lt_irrefl _), Nat.sub_self]
  have e1 : shl F.T 1 0 = .ok 1 := by
    unfold shl
    rw [if_pos hp]
    simp only [pow_zero, mul_one]
    congr 1
    unfold IntTy.promote
    split
    · decide
    · apply IntTy.wrap_of_inRange hF.tpos
      rename_i hb
      unfold IntTy.InRange IntTy.lo IntTy.hi
      have e : (2 : Int) ^ 1 ≤ 2 ^ (F.T.bits - 1) := pow_le_pow_right₀ (by norm_num) (by omega)
      have e' : (2 : Int) ^ 1 ≤ 2 ^ F.T.bits := pow_le_pow_right₀ (by norm_num) (by omega)
      split <;> omega
  rw [e1, Res.bind_ok, mul_one, arith_of_inRange hp, Res.bind_ok, IntTy.wrap_of_inRange hF.tpos hr]
  · rfl
  · have := hF.tp
    unfold IntTy.promote
    split
    · rename_i hb
      obtain ⟨h1, h2⟩ := hr
      have e : (2 : Int) ^ F.T.bits ≤ 2 ^ 31 := pow_le_pow_right₀ (by norm_num) (by omega)
      have e' : (2 : Int) ^ (F.T.bits - 1) ≤ 2 ^ 31 := pow_le_pow_right₀ (by norm_num) (by omega)
      unfold IntTy.lo at h1; unfold IntTy.hi at h2
      have l : (i32).lo = -2 ^ 31 := by decide
      have u : (i32).hi = 2 ^ 31 - 1 := by decide
      unfold IntTy.InRange
      rw [l, u]
      have p0 : (0 : Int) < 2 ^ F.T.bits := by positivity
      have p1 : (0 : Int) < 2 ^ (F.T.bits - 1) := by positivity
      cases hs : F.T.signed <;> simp only [hs, if_true, if_false, Bool.false_eq_true] at h1 h2 <;> omega
    · exact hr

/-- C63: a draw yields the engine's next output reinterpreted as a raw value — the storable number congruent to it modulo two to the
storage width — and advances the engine by exactly one draw, for every engine and fixed-point type. -/
theorem C63_draw (F : FxTy) (hF : F.Valid) (E : Engine) (e e' : E.σ) (v : Int) (h : E.next e = .ok (v, e')) :
    ∃ x, adapterNext F E e = .ok (x, e') ∧ Storable F x ∧ (2 : Int) ^ F.T.bits ∣ x - v := by
  refine ⟨F.T.wrap v, ?_, IntTy.wrap_inRange v hF.tpos, ?_⟩
  · unfold adapterNext
    rw [h, Res.bind_ok]
    simp only []
    rw [from_same hF]; rfl
  · rw [dvd_sub_comm]; exact IntTy.wrap_dvd F.T v

/-- C63: a draw fails exactly as the engine's draw does; seeding, discarding and comparison are the engine's; default-constructed adapters
are equal whenever the engine's comparison is reflexive; the advertised range is the full range of the type. -/
theorem C63_forward (F : FxTy) (E : Engine) (e a b : E.σ) (s : Int) (z : Nat) :
    (∀ u, E.next e = .ub u → adapterNext F E e = .ub u) ∧
    adapterSeed E e s = E.seed e s ∧ adapterDiscard E e z = E.discard e z ∧ adapterEq E a b = E.eq a b ∧
    ((∀ x, E.eq x x = true) → adapterEq E (adapterInit E) (adapterInit E) = true) := by
  refine ⟨?_, rfl, rfl, rfl, fun h => h _⟩
  intro u h
  unfold adapterNext
  rw [h]; rfl

/-- C63 for the PCG engines: default-constructed adapters are equal, and every raw value lies between the advertised limits. -/
theorem C63_pcg (P : PcgParams) (sh : Shift) (F : FxTy) (hF : F.Valid) (e e' : Pcg) (v : Nat) (h : e.next P sh = .ok (v, e')) :
    adapterEq (pcgEngine P sh) (adapterInit (pcgEngine P sh)) (adapterInit (pcgEngine P sh)) = true ∧
    ∃ x, adapterNext F (pcgEngine P sh) e = .ok (x, e') ∧ adapterMin F ≤ x ∧ x ≤ adapterMax F := by
  constructor
  · simp [adapterEq, pcgEngine, Pcg.eq]
  · have h' : (pcgEngine P sh).next e = .ok ((v : Int), e') := by
      simp only [pcgEngine, h, Res.bind_ok, Res.pure_eq]
    obtain ⟨x, hx, hs, _⟩ := C63_draw F hF (pcgEngine P sh) e e' v h'
    refine ⟨x, hx, ?_, ?_⟩
    · have hl : F.T.InRange F.T.lo := ⟨le_refl _, by
        have := IntTy.wrap_inRange (t := F.T) 0 hF.tpos; exact le_trans this.1 this.2⟩
      unfold adapterMin limMin fromInternal
      rw [IntTy.wrap_of_inRange hF.tpos hl]
      exact hs.1
    · have hl : F.T.InRange F.T.hi := ⟨by
        have := IntTy.wrap_inRange (t := F.T) 0 hF.tpos; exact le_trans this.1 this.2, le_refl _⟩
      unfold adapterMax limMax fromInternal
      rw [IntTy.wrap_of_inRange hF.tpos hl]
      exact hs.2

/-- C63 for the PCG engines, spelled out: a default-constructed adapter starts where the engine seeded with the default seed starts, a draw
uses exactly one output of the engine, discarding `z` values and seeding do to the engine what its own operations do, and adapters compare
equal exactly when both words of their engines do. -/
theorem C63_pcg_state (P : PcgParams) (sh : Shift) (F : FxTy) (hF : F.Valid) (e e' d : Pcg) (v s z : Nat) (h : e.next P sh = .ok (v, e')) :
    adapterInit (pcgEngine P sh) = Pcg.make P 0x89ABCD ∧
    (∃ x, adapterNext F (pcgEngine P sh) e = .ok (x, e') ∧ (2 : Int) ^ F.T.bits ∣ x - v) ∧
    adapterSeed (pcgEngine P sh) e s = e.reseed P s ∧ adapterDiscard (pcgEngine P sh) e z = e.discard P z ∧
    (adapterEq (pcgEngine P sh) d e = true ↔ d.seed = e.seed ∧ d.state = e.state) := by
  have h' : (pcgEngine P sh).next e = .ok ((v : Int), e') := by
    simp only [pcgEngine, h, Res.bind_ok, Res.pure_eq]
  obtain ⟨x, hx, _, hd⟩ := C63_draw F hF (pcgEngine P sh) e e' v h'
  refine ⟨rfl, ⟨x, hx, hd⟩, ?_, rfl, ?_⟩
  · simp [adapterSeed, pcgEngine]
  · simp [adapterEq, pcgEngine, Pcg.eq]

example : (Pcg.make pcg2014 7).next pcg2014 shiftHw = .ok (204905775, ⟨7, 1⟩) := by decide +kernel

end Eirin.Props
