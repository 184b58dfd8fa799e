import Verif.Props.OutEnds
import Verif.Props.Lut

/-! # Property C184: which kinds of undefined behaviour there are

The model tells apart signed overflow, division by zero, a shift by too many bits, a read outside an array, a violated precondition and a use of an
indeterminate value.  Every valid layout, rounding types included; all operands. -/

namespace Eirin.Props
open Spec

/-- The only undefined behaviour, if any, is signed overflow, division by zero, or an endless loop (which C181 excludes). -/
def Safe {α : Type} (m : Res α) : Prop := ∀ u, m = .ub u → u = .overflow ∨ u = .divZero ∨ u = .diverges

/-- The only undefined behaviour, if any, is signed overflow or division by zero. -/
def Plain {α : Type} (m : Res α) : Prop := ∀ u, m = .ub u → u = .overflow ∨ u = .divZero

namespace Safe
variable {α β : Type}

theorem ok (a : α) : Safe (Res.ok a) := fun _ h => (by cases h)
theorem pure (a : α) : Safe (Pure.pure a : Res α) := ok a
theorem throw (e : Exn) : Safe (Res.throw e : Res α) := fun _ h => (by cases h)
theorem ov : Safe (Res.ub .overflow : Res α) := fun _ h => (by cases h; exact Or.inl rfl)
theorem dz : Safe (Res.ub .divZero : Res α) := fun _ h => (by cases h; exact Or.inr (Or.inl rfl))
theorem dv : Safe (Res.ub .diverges : Res α) := fun _ h => (by cases h; exact Or.inr (Or.inr rfl))
theorem seq {a : Res α} {k : α → Res β} (ha : Safe a) (hk : ∀ x, Safe (k x)) : Safe (a >>= k) := by
  cases a with
  | ok x => exact hk x
  | ub u => intro v h; cases h; exact ha _ rfl
  | throw e => exact throw e
theorem ite {c : Prop} [Decidable c] {a b : Res α} (ha : Safe a) (hb : Safe b) : Safe (if c then a else b) := by
  split <;> assumption
theorem ite' {c : Prop} [Decidable c] {a b : Res α} (ha : c → Safe a) (hb : Safe b) : Safe (if c then a else b) := by
  split
  · exact ha ‹_›
  · exact hb
theorem iseq {c : Prop} [Decidable c] {a b : Res α} {k : α → Res β} (ha : Safe a) (hb : Safe b) (hk : ∀ x, Safe (k x)) :
    Safe (if c then a >>= k else b >>= k) := ite (seq ha hk) (seq hb hk)
theorem arith (t : IntTy) (n : Int) : Safe (arith t n) := by
  unfold Eirin.arith; exact ite (ite (ok _) ov) (ok _)
theorem cdiv (t : IntTy) (a b : Int) : Safe (cdiv t a b) := by
  unfold Eirin.cdiv; exact ite dz (ite ov (ok _))
theorem cmod (t : IntTy) (a b : Int) : Safe (cmod t a b) := by
  unfold Eirin.cmod; exact ite dz (ite ov (ok _))
theorem shl {t : IntTy} {a : Int} {k : Nat} (h : k < t.promote.bits) : Safe (shl t a k) := by
  unfold Eirin.shl; rw [if_pos h]; exact ok _
theorem shr {t : IntTy} {a : Int} {k : Nat} (h : k < t.promote.bits) : Safe (shr t a k) := by
  unfold Eirin.shr; rw [if_pos h]; exact ok _
theorem plain {m : Res α} (h : Safe m) (he : m ≠ .ub .diverges) : Plain m := by
  intro u hu
  rcases h u hu with h | h | rfl
  · exact Or.inl h
  · exact Or.inr h
  · exact absurd hu he
end Safe

theorem shift_ok (F : FxTy) (hF : F.Valid) : F.f < F.T.promote.bits ∧ F.f < F.I.promote.bits ∧ F.f < F.P.promote.bits ∧ F.f < 64 ∧ 1 < F.T.promote.bits ∧ F.f < F.C.promote.bits := by
  obtain ⟨⟨b, s⟩, ⟨c, q⟩, f, r⟩ := F
  obtain ⟨h1, h2, h3, -, h5, h6⟩ := hF
  dsimp only at h1 h2 h3 h5 h6
  rcases h1 with rfl | rfl | rfl | rfl <;> rcases h2 with rfl | rfl | rfl | rfl <;> cases s <;> cases q <;> norm_num [FxTy.P, FxTy.C, IntTy.common, IntTy.promote] <;> omega

/-- Decompose a `do` block into safe steps. -/
macro "safe" : tactic => `(tactic| repeat' (first
  | exact Safe.ok _ | exact Safe.pure _ | exact Safe.ov | exact Safe.arith _ _ | exact Safe.cdiv _ _ _
  | exact Safe.cmod _ _ _ | exact Safe.shl (by assumption) | exact Safe.shr (by assumption) | assumption
  | apply Safe.seq | apply Safe.ite | intro _))

namespace Safe
variable (F : FxTy) (hF : F.Valid)
include hF

theorem add (x y : Int) : Safe (add F x y) := by unfold Eirin.add; (obtain ⟨s1, s2, s3, s4, s5, s6⟩ := shift_ok F hF); safe
theorem sub (x y : Int) : Safe (sub F x y) := by unfold Eirin.sub; (obtain ⟨s1, s2, s3, s4, s5, s6⟩ := shift_ok F hF); safe
theorem neg (x : Int) : Safe (neg F x) := by unfold Eirin.neg; (obtain ⟨s1, s2, s3, s4, s5, s6⟩ := shift_ok F hF); safe
theorem mul (x y : Int) : Safe (mul F x y) := by unfold Eirin.mul; (obtain ⟨s1, s2, s3, s4, s5, s6⟩ := shift_ok F hF); safe
theorem div (x y : Int) : Safe (div F x y) := by unfold Eirin.div; (obtain ⟨s1, s2, s3, s4, s5, s6⟩ := shift_ok F hF); safe
theorem rem (x y : Int) : Safe (rem F x y) := by unfold Eirin.rem; (obtain ⟨s1, s2, s3, s4, s5, s6⟩ := shift_ok F hF); safe
theorem addAssign (x y : Int) : Safe (addAssign F x y) := by unfold Eirin.addAssign; (obtain ⟨s1, s2, s3, s4, s5, s6⟩ := shift_ok F hF); safe
theorem subAssign (x y : Int) : Safe (subAssign F x y) := by unfold Eirin.subAssign; (obtain ⟨s1, s2, s3, s4, s5, s6⟩ := shift_ok F hF); safe
theorem mulAssign (x y : Int) : Safe (mulAssign F x y) := by unfold Eirin.mulAssign; (obtain ⟨s1, s2, s3, s4, s5, s6⟩ := shift_ok F hF); safe
theorem divAssign (x y : Int) : Safe (divAssign F x y) := by unfold Eirin.divAssign; (obtain ⟨s1, s2, s3, s4, s5, s6⟩ := shift_ok F hF); safe
theorem remAssign (x y : Int) : Safe (remAssign F x y) := by unfold Eirin.remAssign; (obtain ⟨s1, s2, s3, s4, s5, s6⟩ := shift_ok F hF); safe
theorem addInt (x n : Int) : Safe (addInt F x n) := by unfold Eirin.addInt addIntAssign; (obtain ⟨s1, s2, s3, s4, s5, s6⟩ := shift_ok F hF); safe
theorem subIntA (x n : Int) : Safe (subIntAssign F x n) := by unfold subIntAssign; (obtain ⟨s1, s2, s3, s4, s5, s6⟩ := shift_ok F hF); safe
theorem mulInt (U : IntTy) (x n : Int) : Safe (mulInt F U x n) := by unfold Eirin.mulInt mulIntAssign; (obtain ⟨s1, s2, s3, s4, s5, s6⟩ := shift_ok F hF); safe
theorem intMul (U : IntTy) (n x : Int) : Safe (intMul F U n x) := by unfold Eirin.intMul mulIntAssign; (obtain ⟨s1, s2, s3, s4, s5, s6⟩ := shift_ok F hF); safe
theorem divInt (U : IntTy) (x n : Int) : Safe (divInt F U x n) := by unfold Eirin.divInt divIntAssign; (obtain ⟨s1, s2, s3, s4, s5, s6⟩ := shift_ok F hF); safe
theorem abs (x : Int) : Safe (abs F x) := by unfold Eirin.abs; (obtain ⟨s1, s2, s3, s4, s5, s6⟩ := shift_ok F hF); safe
theorem ceil (x : Int) : Safe (ceil F x) := by unfold Eirin.ceil; dsimp only; (obtain ⟨s1, s2, s3, s4, s5, s6⟩ := shift_ok F hF); safe
theorem floor (x : Int) : Safe (floor F x) := by unfold Eirin.floor; dsimp only; (obtain ⟨s1, s2, s3, s4, s5, s6⟩ := shift_ok F hF); safe
theorem trunc (x : Int) : Safe (trunc F x) := by unfold Eirin.trunc; (obtain ⟨s1, s2, s3, s4, s5, s6⟩ := shift_ok F hF); safe
theorem round (x : Int) : Safe (round F x) := by unfold Eirin.round; (obtain ⟨s1, s2, s3, s4, s5, s6⟩ := shift_ok F hF); safe
theorem fromFixed (g : Nat) (n : Int) (hg : g ≤ 64) : Safe (fromFixedNumValue F i64 g n) := by
  have s4 := (shift_ok F hF).2.2.2.1
  have h0 : 0 < F.f := hF.2.2.2.2.1
  have b : i64.promote.bits = 64 := by decide
  unfold fromFixedNumValue
  refine ite (ite ?_ ?_) ?_
  · exact seq (shl (by rw [b]; omega)) fun _ => seq (cdiv _ _ _) fun _ => seq (shl (by rw [b]; omega)) fun _ => seq (cdiv _ _ _) fun _ =>
      seq (cmod _ _ _) fun _ => seq (arith _ _) fun _ => pure _
  · exact seq (shl (by rw [b]; omega)) fun _ => seq (cdiv _ _ _) fun _ => pure _
  · exact seq (shl (by rw [b]; omega)) fun _ => seq (arith _ _) fun _ => pure _
theorem ofFloat (q : ℚ) : Safe (ofFloat F q) := by unfold Eirin.ofFloat floatToInt; (obtain ⟨s1, s2, s3, s4, s5, s6⟩ := shift_ok F hF); safe
theorem toFloat (x : Int) : Safe (toFloat F x) := by unfold Eirin.toFloat; (obtain ⟨s1, s2, s3, s4, s5, s6⟩ := shift_ok F hF); safe
theorem epsilon : Safe (epsilon F) := fromFixed F hF _ _ (by norm_num)
theorem intPart (x : Int) : Safe (integralPart F x) := by unfold integralPart; dsimp only; (obtain ⟨s1, s2, s3, s4, s5, s6⟩ := shift_ok F hF); safe
theorem fracPart (x : Int) : Safe (fractionalPart F x) := by unfold fractionalPart; (obtain ⟨s1, s2, s3, s4, s5, s6⟩ := shift_ok F hF); safe
theorem cPi : Safe (cPi F) := fromFixed F hF _ _ (by norm_num)

omit hF in
theorem loops : (∀ n q v b, Safe (sqrtLoopA n q v b)) ∧ (∀ n q v b, Safe (sqrtLoopC n q v b)) := by
  constructor
  · intro n
    induction n with
    | zero => intro q v b; exact dv
    | succ n ih => intro q v b; unfold sqrtLoopA; exact ite (ih _ _ _) (ok _)
  · intro n
    induction n with
    | zero => intro q v b; exact dv
    | succ n ih => intro q v b; unfold sqrtLoopC; exact ite (ih _ _ _) (ok _)

omit hF in
theorem loopB : ∀ n q v b, Safe (sqrtLoopB n q v b) := by
  intro n
  induction n with
  | zero => intro q v b; exact dv
  | succ n ih => intro q v b; unfold sqrtLoopB; exact ite (ite (loops.2 _ _ _ _) (ih _ _ _)) (ok _)

theorem sqrtBits (hT : F.T = i32) (x : Int) : Safe (sqrtBits F x) := by
  unfold Eirin.sqrtBits
  have key : ∀ v0 : Int, Safe (do
      let q ← if u64.wrap v0 < 0x40000200 then sqrtLoopA 32 0 (u64.wrap v0) 0x40000000 else sqrtLoopB 32 0 (u64.wrap v0) 0x40000000
      Pure.pure (fromInternal F (F.T.wrap q))) := by
    intro v0
    exact iseq (loops.1 _ _ _ _) (loopB _ _ _ _) fun _ => pure _
  have h1 := (shift_ok F hF).1
  have b : F.T.promote.bits = 32 := by rw [hT]; decide
  exact iseq (shr (by omega)) (shl (by omega)) key

theorem newton (fp eps : Int) : ∀ n x, Safe (sqrtNewton F fp eps n x) := by
  intro n
  induction n with
  | zero => intro x; exact ok _
  | succ n ih =>
    intro x
    unfold sqrtNewton
    exact seq (div F hF _ _) fun q => seq (add F hF _ _) fun s => seq (divInt F hF _ _ _) fun x' => seq (mul F hF _ _) fun sq =>
      seq (sub F hF _ _) fun d => seq (abs F hF _) fun a => ite (ok _) (ih _)

omit hF in
theorem msb (t : IntTy) (v : Int) : Safe (findMsb t v) := by unfold findMsb; safe

theorem sqrt (x : Int) : Safe (sqrt F x) := by
  unfold Eirin.sqrt
  exact ite' (fun h => sqrtBits F hF h x) (ite (ok _) (ite (ok _) (seq (msb _ _) fun e => seq (epsilon F hF) fun eps => newton F hF _ _ _ _)))

theorem coeff (pi k : Int) : Safe (sinCoeff F pi k) := by
  unfold sinCoeff; exact seq (mul F hF _ _) fun p => divInt F hF _ _ _

theorem poly (pi x : Int) : Safe (sinPoly F pi x) := by
  unfold sinPoly
  exact seq (mul F hF _ _) fun _ => seq (coeff F hF _ _) fun _ => seq (coeff F hF _ _) fun _ => seq (coeff F hF _ _) fun _ => seq (coeff F hF _ _) fun _ =>
    seq (mul F hF _ _) fun _ => seq (sub F hF _ _) fun _ => seq (mul F hF _ _) fun _ => seq (mul F hF _ _) fun _ => seq (sub F hF _ _) fun _ =>
    seq (mul F hF _ _) fun _ => seq (mul F hF _ _) fun _ => seq (sub F hF _ _) fun _ => seq (mul F hF _ _) fun _ => seq (mul F hF _ _) fun _ =>
    seq (sub F hF _ _) fun _ => seq (cPi F hF) fun _ => seq (mul F hF _ _) fun _ => seq (mul F hF _ _) fun _ => divInt F hF _ _ _

theorem reduce (x : Int) : Safe (sinReduce F x) := by
  unfold sinReduce
  exact seq (fromFixed F hF _ _ (by norm_num)) fun _ => seq (remAssign F hF _ _) fun _ => seq (fromFixed F hF _ _ (by norm_num)) fun _ => seq (divAssign F hF _ _) fun _ =>
    iseq (addAssign F hF _ _) (pure _) fun _ => ite (seq (subAssign F hF _ _) fun _ => pure _) (pure _)

theorem sin (x : Int) : Safe (sin F x) := by
  unfold Eirin.sin sinWith
  exact seq (cPi F hF) fun _ => seq (reduce F hF _) fun _ => seq (ofFloat F hF _) fun _ => seq (abs F hF _) fun _ =>
    ite (ite (neg F hF _) (pure _)) (iseq (sub F hF _ _) (pure _) fun _ => seq (poly F hF _ _) fun _ => ite (neg F hF _) (pure _))

theorem cos (x : Int) : Safe (cos F x) := by
  unfold Eirin.cos
  exact seq (cPi F hF) fun _ => seq (div F hF _ _) fun _ => seq (mul F hF _ _) fun _ =>
    ite (seq (sub F hF _ _) fun _ => seq (sub F hF _ _) fun _ => sin F hF _) (seq (add F hF _ _) fun _ => sin F hF _)

theorem atan (x : Int) : Safe (atan F x) := by
  unfold Eirin.atan
  exact seq (fromFixed F hF _ _ (by norm_num)) fun _ => seq (intMul F hF _ _ _) fun _ => seq (fromFixed F hF _ _ (by norm_num)) fun _ => seq (fromFixed F hF _ _ (by norm_num)) fun _ =>
    seq (abs F hF _) fun _ => seq (mul F hF _ _) fun _ => seq (mul F hF _ _) fun _ => seq (add F hF _ _) fun _ => seq (mul F hF _ _) fun _ =>
    seq (sub F hF _ _) fun _ => seq (mul F hF _ _) fun _ => seq (mul F hF _ _) fun _ => seq (add F hF _ _) fun _ => ite (neg F hF _) (pure _)

theorem cbrtLoop (fp p : Int) : ∀ n x, Safe (cbrtLoop F fp p n x) := by
  intro n
  induction n with
  | zero =>
    intro x
    unfold Eirin.cbrtLoop
    exact seq (mul F hF _ _) fun _ => seq (mul F hF _ _) fun _ => seq (sub F hF _ _) fun _ => seq (abs F hF _) fun _ => ite (pure _) (pure _)
  | succ n ih =>
    intro x
    unfold Eirin.cbrtLoop
    exact seq (mul F hF _ _) fun _ => seq (mul F hF _ _) fun _ => seq (sub F hF _ _) fun _ => seq (abs F hF _) fun _ => ite
      (seq (mul F hF _ _) fun _ => seq (div F hF _ _) fun _ => seq (mulInt F hF _ _ _) fun _ => seq (add F hF _ _) fun _ => seq (divInt F hF _ _ _) fun _ => ih _) (pure _)

theorem cbrt (x : Int) : Safe (cbrt F x) := by
  unfold Eirin.cbrt
  exact seq (abs F hF _) fun _ => seq (epsilon F hF) fun _ => ite (pure _) (seq (addInt F hF _ _) fun _ => seq (divInt F hF _ _ _) fun _ =>
    seq (mulInt F hF _ _ _) fun _ => cbrtLoop F hF _ _ _ _)

theorem powLoops : (∀ n (e i r : Int), Safe (powNegLoop F n e i r)) ∧ (∀ n (e i r : Int), Safe (powPosLoop F n e i r)) := by
  constructor
  · intro n
    induction n with
    | zero => intro e i r; exact dv
    | succ n ih =>
      intro e i r
      unfold powNegLoop
      exact ite (iseq (divAssign F hF _ _) (pure _) fun _ => seq (mulAssign F hF _ _) fun _ => ih _ _ _) (ok _)
  · intro n
    induction n with
    | zero => intro e i r; exact dv
    | succ n ih =>
      intro e i r
      unfold powPosLoop
      exact ite (iseq (mulAssign F hF _ _) (pure _) fun _ => seq (mulAssign F hF _ _) fun _ => ih _ _ _) (ok _)

theorem powInt (b e : Int) : Safe (powInt F b e) := by
  unfold Eirin.powInt
  exact ite (ite (ok _) (ok _)) (ite ((powLoops F hF).1 _ _ _ _) ((powLoops F hF).2 _ _ _ _))

theorem expE (x : Int) : Safe (expExpand F x) := by
  unfold expExpand
  refine seq (intPart F hF _) fun n => ?_
  exact seq (subIntA F hF _ _) fun _ => seq (fromFixed F hF _ _ (by norm_num)) fun _ => seq (fromFixed F hF _ _ (by norm_num)) fun _ => seq (fromFixed F hF _ _ (by norm_num)) fun _ =>
    seq (fromFixed F hF _ _ (by norm_num)) fun _ => seq (fromFixed F hF _ _ (by norm_num)) fun _ => seq (fromFixed F hF _ _ (by norm_num)) fun _ => seq (fromFixed F hF _ _ (by norm_num)) fun _ =>
    seq (powInt F hF _ _) fun _ => seq (mul F hF _ _) fun _ => seq (add F hF _ _) fun _ => seq (mul F hF _ _) fun _ => seq (add F hF _ _) fun _ =>
    seq (mul F hF _ _) fun _ => seq (add F hF _ _) fun _ => seq (mul F hF _ _) fun _ => seq (add F hF _ _) fun _ => seq (mul F hF _ _) fun _ => seq (add F hF _ _) fun _ =>
    mul F hF _ _

theorem exp (x : Int) : Safe (exp F x) := by
  unfold Eirin.exp
  exact ite (ok _) (ite (seq (neg F hF _) fun _ => seq (expE F hF _) fun _ => div F hF _ _) (expE F hF _))


theorem asin (x : Int) : Safe (asin F x) := by
  unfold Eirin.asin
  exact seq (cPi F hF) fun _ => seq (abs F hF _) fun _ => ite (throw _) (ite (div F hF _ _) (ite (seq (neg F hF _) fun _ => div F hF _ _)
    (seq (mul F hF _ _) fun _ => seq (sub F hF _ _) fun _ => seq (sqrt F hF _) fun _ => seq (div F hF _ _) fun _ => atan F hF _)))

theorem logLoops : (∀ n x y, Safe (log2Up F n x y)) ∧ (∀ n x y, Safe (log2Down F n x y)) ∧ (∀ n z y b, Safe (log2Frac F n z y b)) := by
  obtain ⟨s1, s2, s3, s4, s5, s6⟩ := shift_ok F hF
  refine ⟨?_, ?_, ?_⟩
  · intro n
    induction n with
    | zero => intro x y; exact dv
    | succ n ih => intro x y; unfold log2Up; exact ite (seq (shl s5) fun _ => seq (arith _ _) fun _ => ih _ _) (ok _)
  · intro n
    induction n with
    | zero => intro x y; exact dv
    | succ n ih => intro x y; unfold log2Down; exact ite (seq (arith _ _) fun _ => ih _ _) (ok _)
  · intro n
    induction n with
    | zero => intro z y b; exact ok _
    | succ n ih =>
      intro z y b; unfold log2Frac
      exact seq (arith _ _) fun _ => seq (shr s2) fun _ => ite (seq (arith _ _) fun _ => ih _ _ _) (ih _ _ _)

theorem log2 (h : F.f ≤ 32) (x : Int) : Safe (log2 F x) := by
  unfold Eirin.log2
  obtain ⟨l1, l2, l3⟩ := logLoops F hF
  refine seq (shl (by show F.f - 1 < 32; have : 0 < F.f := hF.2.2.2.2.1; omega)) fun b => ite (throw _) ?_
  exact seq (l1 _ _ _) fun p => seq (l2 _ _ _) fun q => seq (l3 _ _ _ _) fun _ => pure _

theorem log (h : F.f ≤ 32) (x : Int) : Safe (log F x) := by
  unfold Eirin.log
  exact seq (fromFixed F hF _ _ (by norm_num)) fun _ => seq (log2 F hF h _) fun _ => div F hF _ _

theorem powFixed (h : F.f ≤ 32) (x y : Int) : Safe (powFixed F x y) := by
  have k : Safe (powFixedBody F x y) := by
    unfold powFixedBody
    exact ite (ite (ok _) (ok _)) (seq (cdiv _ _ _) fun _ => seq (subIntA F hF _ _) fun _ => seq (powInt F hF _ _) fun _ => seq (log F hF h _) fun _ =>
      seq (mul F hF _ _) fun _ => seq (exp F hF _) fun _ => mul F hF _ _)
  unfold Eirin.powFixed
  cases c : powFixedBody F x y with
  | ok v => exact ok v
  | ub u => rw [c] at k; exact k
  | throw e => exact throw _
end Safe

/-- C184: the operators, with fixed-point or integer operands of any type, and the conversions other than those between fixed-point types. -/
theorem C184_operators (F : FxTy) (hF : F.Valid) (U : IntTy) (x y n : Int) (q : ℚ) :
    (Plain (add F x y) ∧ Plain (sub F x y) ∧ Plain (mul F x y) ∧ Plain (div F x y) ∧ Plain (rem F x y) ∧ Plain (neg F x)) ∧
    (Plain (addAssign F x y) ∧ Plain (subAssign F x y) ∧ Plain (mulAssign F x y) ∧ Plain (divAssign F x y) ∧ Plain (remAssign F x y)) ∧
    (Plain (addIntAssign F x n) ∧ Plain (subIntAssign F x n) ∧ Plain (mulIntAssign F U x n) ∧ Plain (divIntAssign F U x n)) ∧
    (Plain (divide F x y) ∧ Plain (divideInt F U x n)) ∧
    (Plain (ofFloat F q) ∧ Plain (toFloat F x) ∧ Plain (integralPart F x) ∧ Plain (fractionalPart F x) ∧ Plain (epsilon F)) := by
  obtain ⟨⟨e1, e2, e3, e4, e5, e6⟩, ⟨f1, f2, f3, f4, f5⟩, ⟨g1, g2, g3, g4⟩, -, -, ⟨-, c2, c3, c4, c5⟩, -⟩ := C181_operators F F U x y n q
  obtain ⟨-, -, d1, d2⟩ := C181_divide F U x y n .terminate
  obtain ⟨s1, s2, s3, s4, s5, s6⟩ := shift_ok F hF
  refine ⟨⟨(Safe.add F hF _ _).plain e1.2, (Safe.sub F hF _ _).plain e2.2, (Safe.mul F hF _ _).plain e3.2, (Safe.div F hF _ _).plain e4.2,
    (Safe.rem F hF _ _).plain e5.2, (Safe.neg F hF _).plain e6.2⟩, ⟨(Safe.addAssign F hF _ _).plain f1.2, (Safe.subAssign F hF _ _).plain f2.2,
    (Safe.mulAssign F hF _ _).plain f3.2, (Safe.divAssign F hF _ _).plain f4.2, (Safe.remAssign F hF _ _).plain f5.2⟩,
    ⟨(Safe.addInt F hF _ _).plain g1.2, (Safe.subIntA F hF _ _).plain g2.2, (Safe.mulInt F hF _ _ _).plain g3.2, (Safe.divInt F hF _ _ _).plain g4.2⟩,
    ⟨?_, ?_⟩, ⟨(Safe.ofFloat F hF _).plain c2.2, (Safe.toFloat F hF _).plain c3.2, (Safe.intPart F hF _).plain c4.2, (Safe.fracPart F hF _).plain c5.2,
    (Safe.epsilon F hF).plain (Ends.epsilon F).2⟩⟩
  · refine Safe.plain ?_ d1
    unfold divide
    refine .ite (.throw _) (.ite ?_ ?_) <;> safe
  · refine Safe.plain ?_ d2
    unfold divideInt
    refine .ite (.throw _) ?_
    safe

/-- C184: the functions of `math.hpp` that do not use logarithms. -/
theorem C184_functions (F : FxTy) (hF : F.Valid) (x y z e : Int) (he : i64.InRange e ∨ u64.InRange e) :
    (Plain (ceil F x) ∧ Plain (floor F x) ∧ Plain (trunc F x) ∧ Plain (round F x) ∧ Plain (abs F x)) ∧
    (Plain (sqrt F x) ∧ Plain (cbrt F x) ∧ Plain (hypot F x y) ∧ Plain (hypot3 F x y z)) ∧
    (Plain (sin F x) ∧ Plain (cos F x) ∧ Plain (tan F x) ∧ Plain (atan F x) ∧ Plain (asin F x) ∧ Plain (acos F x)) ∧
    (Plain (exp F x) ∧ Plain (powInt F x e)) ∧
    (Plain (fmod F x y) ∧ Plain (modf F x) ∧ Plain (degrees F x) ∧ Plain (radians F x)) := by
  obtain ⟨⟨a1, a2, a3, a4, a5⟩, ⟨b1, b2, b3, b4⟩, ⟨c1, c2, c3, c4⟩, ⟨d1, d2, d3, d4⟩⟩ := C181_functions F hF x y z
  obtain ⟨-, -, -, t1, t2, t3⟩ := C181_trig F x .terminate
  refine ⟨⟨(Safe.ceil F hF _).plain a1.2, (Safe.floor F hF _).plain a2.2, (Safe.trunc F hF _).plain a3.2, (Safe.round F hF _).plain a4.2,
    (Safe.abs F hF _).plain a5.2⟩, ⟨(Safe.sqrt F hF _).plain b1.2, (Safe.cbrt F hF _).plain b2.2, Safe.plain ?_ b3.2, Safe.plain ?_ b4.2⟩,
    ⟨(Safe.sin F hF _).plain c1.2, (Safe.cos F hF _).plain c2.2, Safe.plain ?_ t1, (Safe.atan F hF _).plain c3.2, (Safe.asin F hF _).plain t2, Safe.plain ?_ t3⟩,
    ⟨(Safe.exp F hF _).plain c4.2, (Safe.powInt F hF _ _).plain (C181_powers F x e he).2⟩,
    ⟨Safe.plain ?_ d1.2, Safe.plain ?_ d2.2, Safe.plain ?_ d3.2, Safe.plain ?_ d4.2⟩⟩
  · unfold hypot; exact .seq (.mul F hF _ _) fun _ => .seq (.mul F hF _ _) fun _ => .seq (.add F hF _ _) fun _ => .sqrt F hF _
  · unfold hypot3
    exact .seq (.mul F hF _ _) fun _ => .seq (.mul F hF _ _) fun _ => .seq (.add F hF _ _) fun _ => .seq (.mul F hF _ _) fun _ => .seq (.add F hF _ _) fun _ =>
      .sqrt F hF _
  · unfold tan; exact .seq (.cos F hF _) fun _ => .seq (.abs F hF _) fun _ => .ite (.seq (.sin F hF _) fun _ => .div F hF _ _) (.throw _)
  · unfold acos
    exact .seq (.cPi F hF) fun _ => .seq (.abs F hF _) fun _ => .ite (.throw _) (.ite (.pure _) (.ite (.pure _) (.ite (.div F hF _ _)
      (.seq (.divInt F hF _ _ _) fun _ => .seq (.asin F hF _) fun _ => .sub F hF _ _))))
  · unfold fmod; exact .seq (.div F hF _ _) fun _ => .seq (.floor F hF _) fun _ => .seq (.mul F hF _ _) fun _ => .sub F hF _ _
  · unfold modf; exact .seq (.floor F hF _) fun _ => .seq (.sub F hF _ _) fun _ => .pure _
  · unfold degrees; exact .seq (.cPi F hF) fun _ => .seq (.div F hF _ _) fun _ => .mul F hF _ _
  · unfold radians; exact .seq (.cPi F hF) fun _ => .seq (.div F hF _ _) fun _ => .mul F hF _ _

example : (⟨i8, i16, 7, true⟩ : FxTy).Valid ∧ cbrt fixed32 (-131072) = .ub .divZero ∧ add fixed32 2147483647 1 = .ub .overflow := by
  refine ⟨by decide, by decide +kernel, by decide +kernel⟩

/-- C184: the logarithms and `pow` of two fixed-point numbers.  With at most 32 fraction bits and at least three other bits they are like the rest; `log2`
shifts too far exactly if there are more than 32 fraction bits. -/
theorem C184_logs (F : FxTy) (hF : F.Valid) (x y : Int) (hx : Storable F x) :
    (F.f ≤ 32 → F.f + 3 ≤ F.T.bits → Plain (log2 F x) ∧ Plain (log F x) ∧ Plain (log10 F x) ∧ Plain (powFixed F x y)) ∧
    (log2 F x = .ub .shift ↔ 32 < F.f) := by
  constructor
  · intro h h3
    obtain ⟨l1, l2, l3, l4⟩ := C181_log_loops F hF h3 x y hx
    refine ⟨(Safe.log2 F hF h _).plain l1, (Safe.log F hF h _).plain l2, Safe.plain ?_ l3, (Safe.powFixed F hF h _ _).plain l4⟩
    unfold log10
    exact .seq (.fromFixed F hF _ _ (by norm_num)) fun _ => .seq (.log2 F hF h _) fun _ => .div F hF _ _
  · constructor
    · intro c
      by_contra h
      rcases Safe.log2 F hF (by omega) x _ c with h | h | h <;> cases h
    · intro h
      unfold log2
      have : shl u32 1 (F.f - 1) = .ub .shift := by
        unfold shl
        rw [if_neg (by show ¬ (F.f - 1 < 32); omega)]
      rw [this, Res.bind_ub]

example : Storable (⟨i64, i128, 33, false⟩ : FxTy) 5 ∧ log2 ⟨i64, i128, 33, false⟩ 5 = .ub .shift ∧ log2 fixed64 5 = .ok (-127466348241) := by
  refine ⟨by decide, by decide +kernel, by decide +kernel⟩

/-! ### Text -/

theorem accDigit_safe (W : IntTy) (a : Int) (c : Char) : Safe (accDigit W a c) := by unfold accDigit; safe
theorem mulTen_safe (W : IntTy) (d : Int) : Safe (mulTen W d) := by unfold mulTen; safe
theorem scale_safe {W : IntTy} {f : Nat} (h : f < W.promote.bits) (a b c : Int) : Safe (scaleParts W f a b c) := by unfold scaleParts; safe
theorem store_safe (F : FxTy) (hF : F.Valid) (s : Bool) (v o : Int) : Safe (storeParsed F s v o) := by
  unfold storeParsed
  exact .ite (.ok _) (.ite (.seq (.neg F hF _) fun _ => .pure _) (.pure _))
theorem lim_safe (F : FxTy) : Safe (limGeneric F) := by unfold limGeneric; safe

theorem intStrict_safe (W : IntTy) : ∀ s a, Safe (intStrict W s a) := by
  intro s
  induction s with
  | nil => intro a; exact .ok _
  | cons c cs ih => intro a; unfold intStrict; exact .ite (.ok _) (.ite (.ok _) (.seq (accDigit_safe _ _ _) fun _ => ih _))
theorem intLenient_safe (W : IntTy) : ∀ s a, Safe (intLenient W s a) := by
  intro s
  induction s with
  | nil => intro a; exact .ok _
  | cons c cs ih => intro a; unfold intLenient; exact .ite (.ok _) (.ite (.ok _) (.seq (accDigit_safe _ _ _) fun _ => ih _))
theorem fracStrict_safe (W : IntTy) (l : Int) : ∀ s a b, Safe (fracStrict W l s a b) := by
  intro s
  induction s with
  | nil => intro a b; exact .ok _
  | cons c cs ih =>
    intro a b; unfold fracStrict
    exact .ite (.ok _) (.ite (.ok _) (.seq (accDigit_safe _ _ _) fun _ => .seq (mulTen_safe _ _) fun _ => ih _ _))
theorem fracLenient_safe (W : IntTy) (l : Int) : ∀ s a b, Safe (fracLenient W l s a b) := by
  intro s
  induction s with
  | nil => intro a b; exact .ok _
  | cons c cs ih =>
    intro a b; unfold fracLenient
    exact .ite (.ok _) (.seq (accDigit_safe _ _ _) fun _ => .seq (mulTen_safe _ _) fun _ => ih _ _)

/-- C184: the string parsers and `operator>>`, for every text. -/
theorem C184_text (F : FxTy) (hF : F.Valid) (s : List Char) (old : Int) :
    Plain (parseDetail F s old) ∧ Plain (fixedFromCstring F s old) ∧ Plain (f32FromCstring s old) ∧ Plain (streamIn F s old) := by
  obtain ⟨s1, s2, s3, s4, s5, s6⟩ := shift_ok F hF
  have h32 : fixed32.Valid := by decide
  obtain ⟨e1, -, e2, e3, e4, -⟩ := C181_text F s ' ' old
  refine ⟨Safe.plain ?_ e1.2, Safe.plain ?_ e2.2, Safe.plain ?_ e3.2, Safe.plain ?_ e4.2⟩
  · unfold parseDetail
    dsimp only
    refine .seq (intStrict_safe _ _ _) fun r => ?_
    split
    · exact .pure _
    · split
      · refine .seq (fracStrict_safe _ _ _ _ _) fun r => ?_
        split
        · exact .pure _
        · exact .seq (scale_safe s2 _ _ _) fun _ => store_safe _ hF _ _ _
      · exact .seq (.shl s2) fun _ => store_safe _ hF _ _ _
  · unfold fixedFromCstring
    dsimp only
    refine .seq (intLenient_safe _ _ _) fun r => ?_
    split
    · exact .seq (lim_safe F) fun _ => .seq (fracLenient_safe _ _ _ _ _) fun _ => .seq (scale_safe s2 _ _ _) fun _ => store_safe _ hF _ _ _
    · exact .seq (.shl s2) fun _ => store_safe _ hF _ _ _
  · unfold f32FromCstring
    dsimp only
    refine .seq (intStrict_safe _ _ _) fun r => ?_
    split
    · exact .pure _
    · refine .seq ?_ fun v => ?_
      · split
        · refine .seq (fracStrict_safe _ _ _ _ _) fun r => ?_
          split
          · exact .pure _
          · exact .seq (scale_safe (by decide) _ _ _) fun _ => .pure _
        · exact .seq (.shl (by decide)) fun _ => .pure _
      · split
        · exact .pure _
        · exact .ite (.pure _) (.ite (.seq (.neg _ h32 _) fun _ => .pure _) (.pure _))
  · unfold streamIn
    split
    · exact .ok _
    · dsimp only
      refine .seq (intLenient_safe _ _ _) fun r => ?_
      refine .seq ?_ fun v => .ite (.seq (.neg F hF _) fun _ => .pure _) (.pure _)
      split
      · exact .seq (lim_safe F) fun _ => .seq (fracLenient_safe _ _ _ _ _) fun _ => .seq (scale_safe s1 _ _ _) fun _ => .pure _
      · exact .seq (.shl s1) fun _ => .pure _

theorem ioInt_safe (st : Char) : ∀ s a, st ∈ s → Safe (ioInt st s a) ∧ ∀ b rest, ioInt st s a = .ok (some (b, rest)) → st ∈ rest := by
  intro s
  induction s with
  | nil => intro a h; cases h
  | cons c cs ih =>
    intro a h
    unfold ioInt
    by_cases c1 : c = st
    · rw [if_pos c1]
      exact ⟨.ok _, fun b rest e => by cases e; exact h⟩
    rw [if_neg c1]
    by_cases c2 : c = '.'
    · rw [if_pos c2]
      exact ⟨.ok _, fun b rest e => by cases e; exact h⟩
    rw [if_neg c2]
    split
    · exact ⟨.ok _, fun b rest e => by cases e⟩
    · have hm : st ∈ cs := by
        rcases List.mem_cons.1 h with h | h
        · exact absurd h.symm c1
        · exact h
      refine ⟨.seq (accDigit_safe _ _ _) fun a' => (ih a' hm).1, fun b rest e => ?_⟩
      obtain ⟨a', -, e⟩ := bind_eq_ok.1 e
      exact (ih a' hm).2 b rest e

theorem ioFrac_safe (st : Char) (l : Int) : ∀ s a b, st ∈ s → Safe (ioFrac st l s a b) := by
  intro s
  induction s with
  | nil => intro a b h; cases h
  | cons c cs ih =>
    intro a b h
    unfold ioFrac
    by_cases c1 : c = st
    · rw [if_pos c1]; exact .ok _
    rw [if_neg c1]
    have hm : st ∈ cs := by
      rcases List.mem_cons.1 h with h | h
      · exact absurd h.symm c1
      · exact h
    exact .ite (.ok _) (.ite (.ok _) (.seq (accDigit_safe _ _ _) fun _ => .seq (mulTen_safe _ _) fun _ => ih _ _ hm))

/-- C184: `io::parse` does not read past a buffer in which the terminator occurs. -/
theorem C184_io_parse (buf : List Char) (stop : Char) (h : stop ∈ buf) (old : Int) : Plain (ioParse buf stop old) := by
  refine Safe.plain ?_ (C181_text fixed32 buf stop old).2.2.2.2.2.2
  have h32 : fixed32.Valid := by decide
  cases buf with
  | nil => cases h
  | cons c0 cs =>
    have e : ioHasNext stop (c0 :: cs) = .ok (decide (c0 ≠ stop)) := rfl
    unfold ioParse
    rw [e, Res.bind_ok]
    have hm : stop ∈ (if decide (c0 ≠ stop) = true then takeSign (c0 :: cs) else (false, c0 :: cs)).2 := by
      split
      · rename_i g
        have g : c0 ≠ stop := of_decide_eq_true g
        show stop ∈ (if c0 = '-' then (true, cs) else (false, c0 :: cs)).2
        split
        · rcases List.mem_cons.1 h with h | h
          · exact absurd h.symm g
          · exact h
        · exact h
      · exact h
    generalize (if decide (c0 ≠ stop) = true then takeSign (c0 :: cs) else (false, c0 :: cs)) = p at hm ⊢
    obtain ⟨neg, s⟩ := p
    dsimp only at hm ⊢
    cases r : ioInt stop s 0 with
    | ub u => intro v hv; rw [Res.bind_ub] at hv; cases hv; exact (ioInt_safe stop s 0 hm).1 _ r
    | throw e => exact .throw _
    | ok o =>
      rw [Res.bind_ok]
      cases o with
      | none => exact .pure _
      | some p =>
        obtain ⟨ip, rest⟩ := p
        have hr := (ioInt_safe stop s 0 hm).2 _ _ r
        cases rest with
        | nil => cases hr
        | cons d ds =>
          have e2 : ioHasNext stop (d :: ds) = .ok (decide (d ≠ stop)) := rfl
          dsimp only
          rw [e2, Res.bind_ok]
          refine .seq ?_ fun v => ?_
          · split
            · rename_i g1 g2
              have g : d ≠ stop := of_decide_eq_true g1
              cases g2
              refine .seq (ioFrac_safe _ _ _ _ _ ?_) fun r => ?_
              · rcases List.mem_cons.1 hr with h | h
                · exact absurd h.symm g
                · exact h
              · split
                · exact .pure _
                · exact .seq (scale_safe (by decide) _ _ _) fun _ => .pure _
            · exact .seq (.shl (by decide)) fun _ => .pure _
          · split
            · exact .pure _
            · exact .ite (.seq (.neg _ h32 _) fun _ => .pure _) (.pure _)

example : ';' ∈ "12.5;".toList ∧ ioParse "12.5;".toList ';' 0 = .ok ([';'], 819200) ∧ ioParse "12.5".toList ';' 0 = .ub .bounds := by
  refine ⟨by decide, by decide +kernel, by decide +kernel⟩

end Eirin.Props
