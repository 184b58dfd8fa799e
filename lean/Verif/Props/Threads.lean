import Verif.Model.Threads
import Verif.Props.Platform

/-! # C137: the CPU feature query called from several threads -/

namespace Eirin.Props
open Spec

/-- The feature a position stands for. -/
def featureAt : Fin 6 → Feature
  | 0 => .sse2
  | 1 => .sse42
  | 2 => .avx
  | 3 => .avx2
  | 4 => .avx512f
  | 5 => .avx512dq

/-- The two shared objects. -/
inductive SharedLoc where
  | detected | flags
  deriving DecidableEq

/-- The shared object a thread is about to access, and whether it is going to write it. -/
def nextAccess : Pc → Option (SharedLoc × Bool)
  | .idle => none
  | .enter _ => some (.detected, false)
  | .claim _ => some (.detected, true)
  | .load _ _ => some (.flags, false)
  | .store _ _ _ => some (.flags, true)
  | .test _ => some (.flags, false)
  | .answer _ _ => none

/-- A data race: two threads are about to access the same object, at least one of them writing; neither object is atomic. -/
def Race {ι : Type} (c : Threads ι) : Prop :=
  ∃ t u l v w, t ≠ u ∧ nextAccess (c.pc t) = some (l, v) ∧ nextAccess (c.pc u) = some (l, w) ∧ (v || w) = true

/-- C137: under every schedule of any number of threads there is no data race and every answer is what the processor advertises. -/
def C137_statement : Prop :=
  ∀ (ι : Type) [DecidableEq ι] (x86 : Bool) (cpu : Cpu) (sched : List (ι × Fin 6)), ¬ Race (Threads.run x86 cpu sched {}) ∧
    ∀ t q b, (Threads.run x86 cpu sched {}).pc t = .answer q b → b = (x86 && (featureAt q).advertised cpu)

/-- A processor with all six features. -/
def fullCpu : Cpu := fun _ _ => ⟨0xFFFFFFFF#32, 0xFFFFFFFF#32, 0xFFFFFFFF#32, 0xFFFFFFFF#32⟩

/-- Two threads that ask at the same time race on both objects. -/
theorem C137_race : (∃ sched : List (Bool × Fin 6), Race (Threads.run true fullCpu sched {})) := by
  refine ⟨[(false, 0), (true, 0), (false, 0)], false, true, .detected, true, false, by decide, ?_, ?_, rfl⟩ <;> decide +kernel

/-- A thread that asks while another one is detecting is told that nothing is supported: the flag is set before the bits. -/
theorem C137_early : ∃ sched : List (Bool × Fin 6), ∀ q : Fin 6,
    (Threads.run true fullCpu (sched ++ [(true, q), (true, q), (true, q)]) {}).pc true = .answer q false := by
  refine ⟨[(false, 0), (false, 0), (false, 0)], ?_⟩
  decide +kernel

theorem C137_false : ¬ C137_statement := by
  intro h
  obtain ⟨s, hs⟩ := C137_early
  have := (h Bool true fullCpu (s ++ [(true, 0), (true, 0), (true, 0)])).2 true 0 false (hs 0)
  revert this; decide +kernel

/-! ### Words -/

theorem bitsetTest_set (w : BitVec 8) (i j : Fin 6) (v : Bool) : bitsetTest (bitsetSet w i v) j = if j = i then v else bitsetTest w j := by
  have key : ∀ (w : Fin 256) (i j : Fin 6) (v : Bool),
    bitsetTest (bitsetSet (BitVec.ofFin w) i v) j = if j = i then v else bitsetTest (BitVec.ofFin w) j := by decide +kernel
  exact key w.toFin i j v

theorem detectBit_advertised (cpu : Cpu) (i : Fin 6) : detectBit cpu i = (featureAt i).advertised cpu := by
  match i with
  | 0 => exact maskBit_eq _ 26 (by norm_num)
  | 1 => exact maskBit_eq _ 20 (by norm_num)
  | 2 => exact maskBit_eq _ 28 (by norm_num)
  | 3 => exact maskBit_eq _ 5 (by norm_num)
  | 4 => exact maskBit_eq _ 16 (by norm_num)
  | 5 => exact maskBit_eq _ 17 (by norm_num)

/-! ### Invariants -/

variable {ι : Type} [DecidableEq ι]

theorem threads_run_inv (x86 : Bool) (cpu : Cpu) (P : Threads ι → Prop) (hs : ∀ c t ask, P c → P (c.step x86 cpu t ask)) :
    ∀ (sched : List (ι × Fin 6)) (c : Threads ι), P c → P (Threads.run x86 cpu sched c) := by
  intro sched
  induction sched with
  | nil => intro c h; exact h
  | cons a l ih => intro c h; exact ih _ (hs c a.1 a.2 h)

/-- No word claims a feature the processor lacks. -/
def Sound (x86 : Bool) (cpu : Cpu) (w : BitVec 8) : Prop := ∀ j : Fin 6, bitsetTest w j = true → (x86 && detectBit cpu j) = true

/-- What a thread carries with it is sound. -/
def SoundPc (x86 : Bool) (cpu : Cpu) : Pc → Prop
  | .load _ _ => x86 = true
  | .store _ _ w => x86 = true ∧ Sound x86 cpu w
  | .answer q b => b = true → (x86 && detectBit cpu q) = true
  | _ => True

theorem sound_step {x86 : Bool} {cpu : Cpu} {pc : Pc} {s : SharedFlags} (ask : Fin 6) (h : SoundPc x86 cpu pc) (hs : Sound x86 cpu s.flags) :
    SoundPc x86 cpu (pc.step x86 cpu ask s).1 ∧ Sound x86 cpu (pc.step x86 cpu ask s).2.flags := by
  cases pc with
  | idle => exact ⟨trivial, hs⟩
  | enter q =>
    refine ⟨?_, hs⟩
    show SoundPc x86 cpu (if s.detected then .test q else .claim q)
    split <;> trivial
  | claim q =>
    refine ⟨?_, hs⟩
    show SoundPc x86 cpu (if x86 then .load q 0 else .test q)
    split
    · assumption
    · trivial
  | load q i => exact ⟨⟨h, hs⟩, hs⟩
  | store q i w =>
    refine ⟨?_, ?_⟩
    · show SoundPc x86 cpu (if h : i.val + 1 < 6 then .load q ⟨i.val + 1, h⟩ else .test q)
      split
      · exact h.1
      · trivial
    · intro j hj
      change bitsetTest (bitsetSet w i (detectBit cpu i)) j = true at hj
      rw [bitsetTest_set] at hj
      split at hj
      · rename_i e; rw [e, h.1, hj]; rfl
      · exact h.2 j hj
  | test q => exact ⟨fun hb => hs q hb, hs⟩
  | answer q b => exact ⟨trivial, hs⟩

/-- C137 (what holds): whatever the threads do, no feature is reported that the processor does not advertise. -/
theorem C137_sound_partial (x86 : Bool) (cpu : Cpu) (sched : List (ι × Fin 6)) (t : ι) (q : Fin 6)
    (h : (Threads.run x86 cpu sched {}).pc t = .answer q true) : (x86 && (featureAt q).advertised cpu) = true := by
  have inv := threads_run_inv (ι := ι) x86 cpu (fun c => Sound x86 cpu c.sh.flags ∧ ∀ t, SoundPc x86 cpu (c.pc t)) (by
    intro c t ask ⟨h1, h2⟩
    obtain ⟨g1, g2⟩ := sound_step ask (h2 t) h1
    refine ⟨g2, fun u => ?_⟩
    show SoundPc x86 cpu (Function.update c.pc t _ u)
    by_cases e : u = t
    · subst e; rw [Function.update_self]; exact g1
    · rw [Function.update_of_ne e]; exact h2 u) sched {} (by
      refine ⟨?_, fun _ => trivial⟩
      intro j hj
      have : ∀ j : Fin 6, bitsetTest 0#8 j = false := by decide
      rw [show ({} : Threads ι).sh.flags = 0#8 from rfl, this j] at hj; cases hj)
  have := inv.2 t
  rw [h] at this
  rw [← detectBit_advertised]
  exact this rfl

/-- Detection is over: the members are `true` and `w`, and no thread is inside `detect_features` past the test of the flag. -/
def QuietPc (w : BitVec 8) : Pc → Prop
  | .idle => True
  | .enter _ => True
  | .test _ => True
  | .answer q b => b = bitsetTest w q
  | _ => False

def Quiet (w : BitVec 8) (c : Threads ι) : Prop := c.sh = ⟨true, w⟩ ∧ ∀ t, QuietPc w (c.pc t)

theorem quiet_step (x86 : Bool) (cpu : Cpu) (w : BitVec 8) (c : Threads ι) (t : ι) (ask : Fin 6) (h : Quiet w c) : Quiet w (c.step x86 cpu t ask) := by
  obtain ⟨h1, h2⟩ := h
  have key : QuietPc w ((c.pc t).step x86 cpu ask c.sh).1 ∧ ((c.pc t).step x86 cpu ask c.sh).2 = ⟨true, w⟩ := by
    have := h2 t
    revert this
    rw [h1]
    cases c.pc t <;> intro this <;> first | exact this.elim | exact ⟨trivial, rfl⟩ | exact ⟨rfl, rfl⟩
  refine ⟨key.2, fun u => ?_⟩
  show QuietPc w (Function.update c.pc t _ u)
  by_cases e : u = t
  · subst e; rw [Function.update_self]; exact key.1
  · rw [Function.update_of_ne e]; exact h2 u

omit [DecidableEq ι] in
theorem quiet_no_race {w : BitVec 8} {c : Threads ι} (h : Quiet w c) : ¬ Race c := by
  rintro ⟨t, u, l, v, v', -, h1, h2, h3⟩
  have key : ∀ (p : Pc) (l : SharedLoc) (v : Bool), QuietPc w p → nextAccess p = some (l, v) → v = false := by
    intro p l v hp he
    cases p <;> first | exact hp.elim | (cases he; rfl) | cases he
  rw [key _ _ _ (h.2 t) h1, key _ _ _ (h.2 u) h2] at h3
  cases h3

/-- The schedule that loses two features for good: both threads see the flag unset; the second one stores a stale word twice. -/
def losing : List (Bool × Fin 6) :=
  let a := (false, (0 : Fin 6))
  let b := (true, (0 : Fin 6))
  [a, b, a, b, a, b] ++ [a] ++ [b, b, b, b, b, b] ++ [a] ++ [b] ++ List.replicate 12 a ++ List.replicate 7 b

/-- Two simultaneous first queries can lose features permanently: on a processor with all features, from then on every thread is told for ever that
SSE4.2 and AVX are not supported. -/
theorem C137_lost (sched : List (Bool × Fin 6)) (t : Bool) (q : Fin 6) (b : Bool) (hq : q = 1 ∨ q = 2)
    (h : (Threads.run true fullCpu (losing ++ sched) {}).pc t = .answer q b) : b = false := by
  have q0 : Quiet 0x39#8 (Threads.run true fullCpu losing {}) := by
    refine ⟨by decide +kernel, ?_⟩
    intro t
    have : (Threads.run true fullCpu losing {}).pc t = .idle ∨ (Threads.run true fullCpu losing {}).pc t = .answer 0 true := by revert t; decide +kernel
    rcases this with e | e <;> rw [e]
    · trivial
    · show true = _; decide
  have inv := threads_run_inv true fullCpu (Quiet 0x39#8) (quiet_step true fullCpu 0x39#8) sched _ q0
  have e : Threads.run true fullCpu (losing ++ sched) {} = Threads.run true fullCpu sched (Threads.run true fullCpu losing {}) := List.foldl_append ..
  rw [e] at h
  have := inv.2 t
  rw [h] at this
  rw [this]
  rcases hq with rfl | rfl <;> decide

/-! ### One thread first -/

/-- The word after the first `n` calls of `set`. -/
def wordAfter (cpu : Cpu) : Nat → BitVec 8
  | 0 => 0
  | n + 1 => if h : n < 6 then bitsetSet (wordAfter cpu n) (⟨n, h⟩ : Fin 6) (detectBit cpu ⟨n, h⟩) else wordAfter cpu n

/-- The word when detection is over. -/
def wordDone (x86 : Bool) (cpu : Cpu) : BitVec 8 := if x86 then wordAfter cpu 6 else 0

/-- It is the word of the sequential model. -/
theorem wordDone_eq (x86 : Bool) (cpu : Cpu) : wordDone x86 cpu = (detectFeatures x86 cpu {}).flags := by
  cases x86 <;> rfl

theorem wordAfter_test (cpu : Cpu) (q : Fin 6) : ∀ n ≤ 6, bitsetTest (wordAfter cpu n) q = (decide (q.val < n) && detectBit cpu q) := by
  intro n
  induction n with
  | zero =>
    intro _
    have : ∀ j : Fin 6, bitsetTest 0#8 j = false := by decide
    rw [show wordAfter cpu 0 = 0#8 from rfl, this q]
    simp
  | succ n ih =>
    intro hn
    have hn' : n < 6 := hn
    rw [wordAfter, dif_pos hn', bitsetTest_set, ih (by omega)]
    by_cases e : q = ⟨n, hn'⟩
    · rw [if_pos e, ← e]
      have : q.val = n := by rw [e]
      rw [decide_eq_true (by omega), Bool.true_and]
    · rw [if_neg e]
      have : q.val ≠ n := fun h => e (Fin.ext h)
      congr 1
      exact decide_eq_decide.mpr (by omega)

theorem wordDone_test (x86 : Bool) (cpu : Cpu) (q : Fin 6) : bitsetTest (wordDone x86 cpu) q = (x86 && (featureAt q).advertised cpu) := by
  rw [← detectBit_advertised, wordDone]
  cases x86
  · have : ∀ j : Fin 6, bitsetTest 0#8 j = false := by decide
    exact this q
  · have := wordAfter_test cpu q 6 le_rfl
    rw [if_pos rfl, this, decide_eq_true q.isLt]

/-- Where a thread that runs alone can be. -/
def SoloPc (x86 : Bool) (cpu : Cpu) (s : SharedFlags) : Pc → Prop
  | .idle => s = {} ∨ s = ⟨true, wordDone x86 cpu⟩
  | .enter _ => s = {} ∨ s = ⟨true, wordDone x86 cpu⟩
  | .claim _ => s = {}
  | .load _ i => x86 = true ∧ s = ⟨true, wordAfter cpu i⟩
  | .store _ i w => x86 = true ∧ w = wordAfter cpu i ∧ s.detected = true
  | .test _ => s = ⟨true, wordDone x86 cpu⟩
  | .answer q b => s = ⟨true, wordDone x86 cpu⟩ ∧ b = bitsetTest (wordDone x86 cpu) q

theorem solo_step {x86 : Bool} {cpu : Cpu} {pc : Pc} {s : SharedFlags} (ask : Fin 6) (h : SoloPc x86 cpu s pc) :
    SoloPc x86 cpu (pc.step x86 cpu ask s).2 (pc.step x86 cpu ask s).1 := by
  cases pc with
  | idle => exact h
  | enter q =>
    rcases h with h | h <;> subst h
    · rfl
    · rfl
  | claim q =>
    have h : s = {} := h
    subst h
    cases x86
    · rfl
    · exact ⟨rfl, rfl⟩
  | load q i => exact ⟨h.1, by rw [h.2], by rw [show (Pc.step x86 cpu ask s (.load q i)).2 = s from rfl, h.2]⟩
  | store q i w =>
    obtain ⟨h1, h2, h3⟩ := h
    have hw : bitsetSet w i (detectBit cpu i) = wordAfter cpu (i.val + 1) := by rw [wordAfter, dif_pos i.isLt, h2]
    have hs : (Pc.step x86 cpu ask s (.store q i w)).2 = ⟨true, wordAfter cpu (i.val + 1)⟩ := by
      rw [← hw, ← h3]; rfl
    rw [hs]
    show SoloPc x86 cpu _ (if h : i.val + 1 < 6 then .load q ⟨i.val + 1, h⟩ else .test q)
    split
    · exact ⟨h1, rfl⟩
    · have : i.val + 1 = 6 := by have := i.isLt; omega
      show _ = _
      rw [this, wordDone, if_pos h1]
  | test q => exact ⟨h, by rw [show s = _ from h]⟩
  | answer q b => exact Or.inr h.1

/-- C137 (what holds): if one thread runs a query to its answer before any other thread asks, then whatever the threads do afterwards there is no data
race and every answer, that one included, is what the processor advertises. -/
theorem C137_first_alone_partial (x86 : Bool) (cpu : Cpu) (t : ι) (first later : List (ι × Fin 6)) (hf : ∀ a ∈ first, a.1 = t) (q₀ : Fin 6) (b₀ : Bool)
    (hd : (Threads.run x86 cpu first {}).pc t = .answer q₀ b₀) :
    ¬ Race (Threads.run x86 cpu (first ++ later) {}) ∧
      ∀ u q b, (Threads.run x86 cpu (first ++ later) {}).pc u = .answer q b → b = (x86 && (featureAt q).advertised cpu) := by
  have solo : ∀ (l : List (ι × Fin 6)) (c : Threads ι), (∀ a ∈ l, a.1 = t) → SoloPc x86 cpu c.sh (c.pc t) → (∀ u, u ≠ t → c.pc u = .idle) →
      SoloPc x86 cpu (Threads.run x86 cpu l c).sh ((Threads.run x86 cpu l c).pc t) ∧ ∀ u, u ≠ t → (Threads.run x86 cpu l c).pc u = .idle := by
    intro l
    induction l with
    | nil => intro c _ h1 h2; exact ⟨h1, h2⟩
    | cons a l ih =>
      intro c ha h1 h2
      refine ih _ (fun x hx => ha x (List.mem_cons_of_mem _ hx)) ?_ ?_
      · have e : a.1 = t := ha a List.mem_cons_self
        show SoloPc x86 cpu _ (Function.update c.pc a.1 _ t)
        rw [e, Function.update_self]
        have := solo_step a.2 h1
        show SoloPc x86 cpu ((c.pc a.1).step x86 cpu a.2 c.sh).2 _
        rw [e]; exact this
      · intro u hu
        have e : a.1 = t := ha a List.mem_cons_self
        show Function.update c.pc a.1 _ u = _
        rw [e, Function.update_of_ne hu]; exact h2 u hu
  obtain ⟨g1, g2⟩ := solo first {} hf (Or.inl rfl) (fun _ _ => rfl)
  rw [hd] at g1
  have q0 : Quiet (wordDone x86 cpu) (Threads.run x86 cpu first {}) := by
    refine ⟨g1.1, fun u => ?_⟩
    by_cases e : u = t
    · subst e; rw [hd]; exact g1.2
    · rw [g2 u e]; trivial
  have e : Threads.run x86 cpu (first ++ later) {} = Threads.run x86 cpu later (Threads.run x86 cpu first {}) := List.foldl_append ..
  have inv := threads_run_inv x86 cpu (Quiet (wordDone x86 cpu)) (quiet_step x86 cpu _) later _ q0
  rw [e]
  refine ⟨quiet_no_race inv, fun u q b h => ?_⟩
  have := inv.2 u
  rw [h] at this
  rw [← wordDone_test]; exact this

/-- Sixteen steps take the first query to its answer. -/
example : (Threads.run true fullCpu (List.replicate 16 (false, (1 : Fin 6))) {}).pc false = .answer 1 true ∧
    (∀ a ∈ List.replicate 16 (false, (1 : Fin 6)), a.1 = false) ∧
    (Threads.run true fullCpu (List.replicate 16 (false, (1 : Fin 6)) ++ List.replicate 3 (true, (2 : Fin 6))) {}).pc true = .answer 2 true := by
  decide +kernel

/-- The answer after the losing schedule is reached. -/
example : (Threads.run true fullCpu (losing ++ List.replicate 3 (true, (1 : Fin 6))) {}).pc true = .answer 1 false := by decide +kernel

/-- A positive answer in the middle of a race. -/
example : (Threads.run true fullCpu losing {}).pc false = .idle ∧
    (Threads.run true fullCpu (losing ++ List.replicate 3 (false, (0 : Fin 6))) {}).pc false = .answer 0 true := by decide +kernel

end Eirin.Props
