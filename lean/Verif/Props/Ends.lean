import Verif.Model.Math
import Verif.Model.Parse
import Verif.Lemmas.Arith
import Verif.Props.Mixed
import Verif.Lemmas.Mixed

/-! # Property C181: which functions raise exceptions, and which loops end

No assumption on the layout beyond validity, and on the operands at most that they are stored numbers; rounding types included. -/

namespace Eirin.Props
open Spec

/-- The computation comes to an end without an exception: the outcome is a value, or undefined behaviour of an operator, but neither an exception nor an
endless loop. -/
def Ends {α : Type} (m : Res α) : Prop := (∀ e, m ≠ .throw e) ∧ m ≠ .ub .diverges

namespace Ends
variable {α β : Type}

theorem ok (a : α) : Ends (Res.ok a) := ⟨fun _ h => (by cases h), fun h => (by cases h)⟩
theorem pure (a : α) : Ends (Pure.pure a : Res α) := ok a
theorem ub {u : UB} (h : u ≠ .diverges) : Ends (Res.ub u : Res α) := ⟨fun _ h => (by cases h), fun c => (by cases c; exact h rfl)⟩
theorem bind {a : Res α} {k : α → Res β} (ha : Ends a) (hk : ∀ x, a = .ok x → Ends (k x)) : Ends (a >>= k) := by
  cases a with
  | ok x => exact hk x rfl
  | ub u => exact ub fun h => ha.2 (by rw [h])
  | throw e => exact absurd rfl (ha.1 e)
theorem seq {a : Res α} {k : α → Res β} (ha : Ends a) (hk : ∀ x, Ends (k x)) : Ends (a >>= k) := bind ha fun x _ => hk x
theorem ite {c : Prop} [Decidable c] {a b : Res α} (ha : Ends a) (hb : Ends b) : Ends (if c then a else b) := by
  split <;> assumption
theorem iseq {c : Prop} [Decidable c] {a b : Res α} {k : α → Res β} (ha : Ends a) (hb : Ends b) (hk : ∀ x, Ends (k x)) :
    Ends (if c then a >>= k else b >>= k) := ite (seq ha hk) (seq hb hk)
theorem arith (t : IntTy) (n : Int) : Ends (arith t n) := by
  unfold Eirin.arith; exact ite (ite (ok _) (ub (by decide))) (ok _)
theorem cdiv (t : IntTy) (a b : Int) : Ends (cdiv t a b) := by
  unfold Eirin.cdiv; exact ite (ub (by decide)) (ite (ub (by decide)) (ok _))
theorem cmod (t : IntTy) (a b : Int) : Ends (cmod t a b) := by
  unfold Eirin.cmod; exact ite (ub (by decide)) (ite (ub (by decide)) (ok _))
theorem shl (t : IntTy) (a : Int) (k : Nat) : Ends (shl t a k) := by
  unfold Eirin.shl; exact ite (ok _) (ub (by decide))
theorem shr (t : IntTy) (a : Int) (k : Nat) : Ends (shr t a k) := by
  unfold Eirin.shr; exact ite (ok _) (ub (by decide))
end Ends

/-- Decompose a `do` block into steps that end. -/
macro "ends" : tactic => `(tactic| repeat' (first
  | exact Ends.ok _ | exact Ends.pure _ | exact Ends.ub (by decide) | exact Ends.arith _ _ | exact Ends.cdiv _ _ _
  | exact Ends.cmod _ _ _ | exact Ends.shl _ _ _ | exact Ends.shr _ _ _ | assumption
  | apply Ends.seq | apply Ends.ite | intro _))

namespace Ends
variable (F : FxTy)

theorem add (x y : Int) : Ends (add F x y) := by unfold Eirin.add; ends
theorem sub (x y : Int) : Ends (sub F x y) := by unfold Eirin.sub; ends
theorem neg (x : Int) : Ends (neg F x) := by unfold Eirin.neg; ends
theorem mul (x y : Int) : Ends (mul F x y) := by unfold Eirin.mul; ends
theorem div (x y : Int) : Ends (div F x y) := by unfold Eirin.div; ends
theorem rem (x y : Int) : Ends (rem F x y) := by unfold Eirin.rem; ends
theorem addAssign (x y : Int) : Ends (addAssign F x y) := by unfold Eirin.addAssign; ends
theorem subAssign (x y : Int) : Ends (subAssign F x y) := by unfold Eirin.subAssign; ends
theorem mulAssign (x y : Int) : Ends (mulAssign F x y) := by unfold Eirin.mulAssign; ends
theorem divAssign (x y : Int) : Ends (divAssign F x y) := by unfold Eirin.divAssign; ends
theorem remAssign (x y : Int) : Ends (remAssign F x y) := by unfold Eirin.remAssign; ends
theorem addInt (x n : Int) : Ends (addInt F x n) := by unfold Eirin.addInt addIntAssign; ends
theorem subIntA (x n : Int) : Ends (subIntAssign F x n) := by unfold subIntAssign; ends
theorem mulInt (U : IntTy) (x n : Int) : Ends (mulInt F U x n) := by unfold Eirin.mulInt mulIntAssign; ends
theorem intMul (U : IntTy) (n x : Int) : Ends (intMul F U n x) := by unfold Eirin.intMul mulIntAssign; ends
theorem divInt (U : IntTy) (x n : Int) : Ends (divInt F U x n) := by unfold Eirin.divInt divIntAssign; ends
theorem abs (x : Int) : Ends (abs F x) := by unfold Eirin.abs; ends
theorem ceil (x : Int) : Ends (ceil F x) := by unfold Eirin.ceil; dsimp only; ends
theorem floor (x : Int) : Ends (floor F x) := by unfold Eirin.floor; dsimp only; ends
theorem trunc (x : Int) : Ends (trunc F x) := by unfold Eirin.trunc; ends
theorem round (x : Int) : Ends (round F x) := by unfold Eirin.round; ends
theorem fromFixed (S : IntTy) (g : Nat) (n : Int) : Ends (fromFixedNumValue F S g n) := by unfold fromFixedNumValue; ends
theorem ofFloat (q : ℚ) : Ends (ofFloat F q) := by unfold Eirin.ofFloat floatToInt; ends
theorem toFloat (x : Int) : Ends (toFloat F x) := by unfold Eirin.toFloat; ends
theorem epsilon : Ends (epsilon F) := fromFixed F _ _ _
theorem intPart (x : Int) : Ends (integralPart F x) := by unfold integralPart; dsimp only; ends
theorem fracPart (x : Int) : Ends (fractionalPart F x) := by unfold fractionalPart; ends
theorem cPi : Ends (cPi F) := fromFixed F _ _ _

theorem loopC : ∀ n q v j, j < n + 6 → Ends (sqrtLoopC (n + 1) q v (2 ^ j)) := by
  intro n
  induction n with
  | zero =>
    intro q v j h
    have : (2 : Int) ^ j ≤ 2 ^ 5 := pow_le_pow_right₀ (by norm_num) (by omega)
    unfold sqrtLoopC
    rw [if_neg (by norm_num at this ⊢; exact this)]
    exact ok _
  | succ n ih =>
    intro q v j h
    unfold sqrtLoopC
    cases j with
    | zero => exact ok _
    | succ j =>
      rw [show (2 : Int) ^ (j + 1) / 2 = 2 ^ j by rw [pow_succ]; omega]
      exact ite (ih _ _ j (by omega)) (ok _)

theorem loopA : ∀ n q v j, 6 ≤ j → j < n + 7 → Ends (sqrtLoopA (n + 1) q v (2 ^ j)) := by
  intro n
  induction n with
  | zero =>
    intro q v j h h'
    obtain rfl : j = 6 := by omega
    unfold sqrtLoopA
    exact ok _
  | succ n ih =>
    intro q v j h h'
    unfold sqrtLoopA
    by_cases c : j = 6
    · subst c; exact ok _
    obtain ⟨j, rfl⟩ : ∃ i, j = i + 1 := ⟨j - 1, by omega⟩
    rw [show (2 : Int) ^ (j + 1) / 2 = 2 ^ j by rw [pow_succ]; omega]
    exact ite (ih _ _ j (by omega) (by omega)) (ok _)

theorem loopB : ∀ n q v j, j < n + 7 → j < 38 → Ends (sqrtLoopB (n + 1) q v (2 ^ j)) := by
  intro n
  induction n with
  | zero =>
    intro q v j h _
    have : (2 : Int) ^ j ≤ 2 ^ 6 := pow_le_pow_right₀ (by norm_num) (by omega)
    unfold sqrtLoopB
    rw [if_neg (by norm_num at this ⊢; exact this)]
    exact ok _
  | succ n ih =>
    intro q v j h h'
    unfold sqrtLoopB
    cases j with
    | zero => exact ok _
    | succ j =>
      rw [show (2 : Int) ^ (j + 1) / 2 = 2 ^ j by rw [pow_succ]; omega]
      exact ite (ite (loopC 31 _ _ j (by omega)) (ih _ _ j (by omega) (by omega))) (ok _)

theorem sqrtBits (x : Int) : Ends (sqrtBits F x) := by
  unfold Eirin.sqrtBits
  have key : ∀ v0 : Int, Ends (do
      let q ← if u64.wrap v0 < 0x40000200 then sqrtLoopA 32 0 (u64.wrap v0) 0x40000000 else sqrtLoopB 32 0 (u64.wrap v0) 0x40000000
      Pure.pure (fromInternal F (F.T.wrap q))) := by
    intro v0
    dsimp only
    rw [show (0x40000000 : Int) = 2 ^ 30 by norm_num]
    exact iseq (loopA 31 _ _ 30 (by omega) (by omega)) (loopB 31 _ _ 30 (by omega) (by omega)) fun _ => pure _
  exact iseq (shr _ _ _) (shl _ _ _) key

theorem newton (fp eps : Int) : ∀ n x, Ends (sqrtNewton F fp eps n x) := by
  intro n
  induction n with
  | zero => intro x; exact ok _
  | succ n ih =>
    intro x
    unfold sqrtNewton
    exact seq (div F _ _) fun q => seq (add F _ _) fun s => seq (divInt F _ _ _) fun x' => seq (mul F _ _) fun sq =>
      seq (sub F _ _) fun d => seq (abs F _) fun a => ite (ok _) (ih _)

theorem msb (t : IntTy) (v : Int) : Ends (findMsb t v) := by unfold findMsb; ends

theorem sqrt (x : Int) : Ends (sqrt F x) := by
  unfold Eirin.sqrt
  exact ite (sqrtBits F x) (ite (ok _) (ite (ok _) (seq (msb _ _) fun e => seq (epsilon F) fun eps => newton F _ _ _ _)))

theorem coeff (pi k : Int) : Ends (sinCoeff F pi k) := by
  unfold sinCoeff; exact seq (mul F _ _) fun p => divInt F _ _ _

theorem poly (pi x : Int) : Ends (sinPoly F pi x) := by
  unfold sinPoly
  exact seq (mul F _ _) fun _ => seq (coeff F _ _) fun _ => seq (coeff F _ _) fun _ => seq (coeff F _ _) fun _ => seq (coeff F _ _) fun _ =>
    seq (mul F _ _) fun _ => seq (sub F _ _) fun _ => seq (mul F _ _) fun _ => seq (mul F _ _) fun _ => seq (sub F _ _) fun _ =>
    seq (mul F _ _) fun _ => seq (mul F _ _) fun _ => seq (sub F _ _) fun _ => seq (mul F _ _) fun _ => seq (mul F _ _) fun _ =>
    seq (sub F _ _) fun _ => seq (cPi F) fun _ => seq (mul F _ _) fun _ => seq (mul F _ _) fun _ => divInt F _ _ _

theorem reduce (x : Int) : Ends (sinReduce F x) := by
  unfold sinReduce
  exact seq (fromFixed F _ _ _) fun _ => seq (remAssign F _ _) fun _ => seq (fromFixed F _ _ _) fun _ => seq (divAssign F _ _) fun _ =>
    iseq (addAssign F _ _) (pure _) fun _ => ite (seq (subAssign F _ _) fun _ => pure _) (pure _)

theorem sin (x : Int) : Ends (sin F x) := by
  unfold Eirin.sin sinWith
  exact seq (cPi F) fun _ => seq (reduce F _) fun _ => seq (ofFloat F _) fun _ => seq (abs F _) fun _ =>
    ite (ite (neg F _) (pure _)) (iseq (sub F _ _) (pure _) fun _ => seq (poly F _ _) fun _ => ite (neg F _) (pure _))

theorem cos (x : Int) : Ends (cos F x) := by
  unfold Eirin.cos
  exact seq (cPi F) fun _ => seq (div F _ _) fun _ => seq (mul F _ _) fun _ =>
    ite (seq (sub F _ _) fun _ => seq (sub F _ _) fun _ => sin F _) (seq (add F _ _) fun _ => sin F _)

theorem atan (x : Int) : Ends (atan F x) := by
  unfold Eirin.atan
  exact seq (fromFixed F _ _ _) fun _ => seq (intMul F _ _ _) fun _ => seq (fromFixed F _ _ _) fun _ => seq (fromFixed F _ _ _) fun _ =>
    seq (abs F _) fun _ => seq (mul F _ _) fun _ => seq (mul F _ _) fun _ => seq (add F _ _) fun _ => seq (mul F _ _) fun _ =>
    seq (sub F _ _) fun _ => seq (mul F _ _) fun _ => seq (mul F _ _) fun _ => seq (add F _ _) fun _ => ite (neg F _) (pure _)

theorem cbrtLoop (fp p : Int) : ∀ n x, Ends (cbrtLoop F fp p n x) := by
  intro n
  induction n with
  | zero =>
    intro x
    unfold Eirin.cbrtLoop
    exact seq (mul F _ _) fun _ => seq (mul F _ _) fun _ => seq (sub F _ _) fun _ => seq (abs F _) fun _ => ite (pure _) (pure _)
  | succ n ih =>
    intro x
    unfold Eirin.cbrtLoop
    exact seq (mul F _ _) fun _ => seq (mul F _ _) fun _ => seq (sub F _ _) fun _ => seq (abs F _) fun _ => ite
      (seq (mul F _ _) fun _ => seq (div F _ _) fun _ => seq (mulInt F _ _ _) fun _ => seq (add F _ _) fun _ => seq (divInt F _ _ _) fun _ => ih _) (pure _)

theorem cbrt (x : Int) : Ends (cbrt F x) := by
  unfold Eirin.cbrt
  exact seq (abs F _) fun _ => seq (epsilon F) fun _ => ite (pure _) (seq (addInt F _ _) fun _ => seq (divInt F _ _ _) fun _ =>
    seq (mulInt F _ _ _) fun _ => cbrtLoop F _ _ _ _)

theorem half_lt {n : Nat} {e : Int} (h : e.natAbs < 2 ^ (n + 1)) : (e.tdiv 2).natAbs < 2 ^ n := by
  rw [Int.natAbs_tdiv]
  exact Nat.div_lt_of_lt_mul (by rw [pow_succ] at h; simpa [mul_comm] using h)

theorem powNeg : ∀ n (e i r : Int), e.natAbs < 2 ^ n → Ends (powNegLoop F (n + 1) e i r) := by
  intro n
  induction n with
  | zero =>
    intro e i r h
    unfold powNegLoop
    rw [if_neg (by rw [pow_zero] at h; omega)]
    exact ok _
  | succ n ih =>
    intro e i r h
    unfold powNegLoop
    exact ite (iseq (divAssign F _ _) (pure _) fun _ => seq (mulAssign F _ _) fun _ => ih _ _ _ (half_lt h)) (ok _)

theorem powPos : ∀ n (e i r : Int), e.natAbs < 2 ^ n → Ends (powPosLoop F (n + 1) e i r) := by
  intro n
  induction n with
  | zero =>
    intro e i r h
    unfold powPosLoop
    rw [if_neg (by rw [pow_zero] at h; omega)]
    exact ok _
  | succ n ih =>
    intro e i r h
    unfold powPosLoop
    exact ite (iseq (mulAssign F _ _) (pure _) fun _ => seq (mulAssign F _ _) fun _ => ih _ _ _ (half_lt h)) (ok _)

theorem powInt (b : Int) {e : Int} (h : e.natAbs < 2 ^ 65) : Ends (powInt F b e) := by
  unfold Eirin.powInt
  exact ite (ite (ok _) (ok _)) (ite (powNeg F 65 e b _ h) (powPos F 65 e b _ h))

theorem wrap_small (hF : F.Valid) (z : Int) : (F.T.wrap z).natAbs < 2 ^ 65 := by
  have h := IntTy.wrap_inRange z hF.tpos
  have hb : F.T.bits ≤ 64 := by rcases hF.1 with h | h | h | h <;> omega
  have e1 : (2 : Int) ^ F.T.bits ≤ 2 ^ 64 := pow_le_pow_right₀ (by norm_num) hb
  have e2 : (2 : Int) ^ (F.T.bits - 1) ≤ 2 ^ 64 := pow_le_pow_right₀ (by norm_num) (by omega)
  obtain ⟨h1, h2⟩ := h
  unfold IntTy.lo at h1
  unfold IntTy.hi at h2
  split at h1 <;> rename_i c <;> simp only [c] at h2 <;> norm_num at h2 e1 e2 ⊢ <;> omega

theorem intPart_small (hF : F.Valid) {x n : Int} (h : integralPart F x = .ok n) : n.natAbs < 2 ^ 65 := by
  unfold integralPart at h
  dsimp only at h
  have key : ∀ r, (Eirin.shr F.T r F.f >>= fun s => Pure.pure (F.T.wrap s)) = Res.ok n → n.natAbs < 2 ^ 65 := by
    intro r h
    cases c : Eirin.shr F.T r F.f with
    | ok s => rw [c, Res.bind_ok, Res.pure_eq] at h; cases h; exact wrap_small F hF s
    | ub u => rw [c, Res.bind_ub] at h; cases h
    | throw e => rw [c, Res.bind_throw] at h; cases h
  split at h
  · cases c : Eirin.arith F.P (F.T.wrap (cnot F.T x) + oneShl F) with
    | ok s => rw [c, Res.bind_ok, Res.pure_eq, Res.bind_ok] at h; exact key _ h
    | ub u => rw [c, Res.bind_ub] at h; cases h
    | throw e => rw [c, Res.bind_throw] at h; cases h
  · rw [Res.pure_eq, Res.bind_ok] at h; exact key _ h

theorem expE (hF : F.Valid) (x : Int) : Ends (expExpand F x) := by
  unfold expExpand
  refine bind (intPart F _) fun n hn => ?_
  exact seq (subIntA F _ _) fun _ => seq (fromFixed F _ _ _) fun _ => seq (fromFixed F _ _ _) fun _ => seq (fromFixed F _ _ _) fun _ =>
    seq (fromFixed F _ _ _) fun _ => seq (fromFixed F _ _ _) fun _ => seq (fromFixed F _ _ _) fun _ => seq (fromFixed F _ _ _) fun _ =>
    seq (powInt F _ (intPart_small F hF hn)) fun _ => seq (mul F _ _) fun _ => seq (add F _ _) fun _ => seq (mul F _ _) fun _ => seq (add F _ _) fun _ =>
    seq (mul F _ _) fun _ => seq (add F _ _) fun _ => seq (mul F _ _) fun _ => seq (add F _ _) fun _ => seq (mul F _ _) fun _ => seq (add F _ _) fun _ =>
    mul F _ _

theorem exp (hF : F.Valid) (x : Int) : Ends (exp F x) := by
  unfold Eirin.exp
  exact ite (ok _) (ite (seq (neg F _) fun _ => seq (expE F hF _) fun _ => div F _ _) (expE F hF _))


/-- An exception of a sequence whose first part ends comes from the second part. -/
theorem throws {α β : Type} {a : Res α} {k : α → Res β} (ha : Ends a) {e : Exn} : (a >>= k) = .throw e ↔ ∃ x, a = .ok x ∧ k x = .throw e := by
  cases a with
  | ok x => rw [Res.bind_ok]; exact ⟨fun h => ⟨x, rfl, h⟩, fun ⟨y, h, g⟩ => by cases h; exact g⟩
  | ub u => rw [Res.bind_ub]; exact ⟨fun h => (by cases h), fun ⟨y, h, _⟩ => by cases h⟩
  | throw e' => exact absurd rfl (ha.1 e')

/-- An endless loop of a sequence whose first part ends is in the second part. -/
theorem loops {α β : Type} {a : Res α} {k : α → Res β} (ha : Ends a) (hk : ∀ x, a = .ok x → k x ≠ .ub .diverges) : (a >>= k) ≠ .ub .diverges := by
  cases a with
  | ok x => exact hk x rfl
  | ub u => rw [Res.bind_ub]; intro h; cases h; exact ha.2 rfl
  | throw e' => exact absurd rfl (ha.1 e')

end Ends

theorem ofInt_zero' (F : FxTy) : ofInt F 0 = 0 := by
  have w : ∀ t : IntTy, t.wrap 0 = 0 := by intro t; unfold IntTy.wrap; split <;> simp
  unfold ofInt; rw [w, zero_mul, w, w]

/-- C181: the operators, the conversions and the comparisons with a tolerance. -/
theorem C181_operators (F G : FxTy) (U : IntTy) (x y n : Int) (q : ℚ) :
    (Ends (add F x y) ∧ Ends (sub F x y) ∧ Ends (mul F x y) ∧ Ends (div F x y) ∧ Ends (rem F x y) ∧ Ends (neg F x)) ∧
    (Ends (addAssign F x y) ∧ Ends (subAssign F x y) ∧ Ends (mulAssign F x y) ∧ Ends (divAssign F x y) ∧ Ends (remAssign F x y)) ∧
    (Ends (addIntAssign F x n) ∧ Ends (subIntAssign F x n) ∧ Ends (mulIntAssign F U x n) ∧ Ends (divIntAssign F U x n)) ∧
    (Ends (preInc F x) ∧ Ends (postInc F x) ∧ Ends (preDec F x) ∧ Ends (postDec F x)) ∧
    (Ends (intAdd F n x) ∧ Ends (intSub F n x) ∧ Ends (intMul F U n x) ∧ Ends (intDiv F n x) ∧ Ends (intRem F n x)) ∧
    (Ends (convert F G x) ∧ Ends (ofFloat F q) ∧ Ends (toFloat F x) ∧ Ends (integralPart F x) ∧ Ends (fractionalPart F x)) ∧
    (Ends (nearlyEq F x y) ∧ Ends (nearlyNe F x y) ∧ Ends (nearlyGt F x y) ∧ Ends (nearlyLt F x y) ∧ Ends (nearlyGtEq F x y) ∧ Ends (nearlyLtEq F x y)) := by
  have eps := Ends.epsilon F
  have lt' : ∀ x y, Ends (nearlyLt F x y) := fun x y => by unfold nearlyLt; ends
  have gt' : ∀ x y, Ends (nearlyGt F x y) := fun x y => by unfold nearlyGt; ends
  refine ⟨⟨.add F _ _, .sub F _ _, .mul F _ _, .div F _ _, .rem F _ _, .neg F _⟩,
    ⟨.addAssign F _ _, .subAssign F _ _, .mulAssign F _ _, .divAssign F _ _, .remAssign F _ _⟩,
    ⟨.addInt F _ _, .subIntA F _ _, .mulInt F _ _ _, .divInt F _ _ _⟩, ⟨?_, ?_, ?_, ?_⟩,
    ⟨.addInt F _ _, .subAssign F _ _, .intMul F _ _ _, .divAssign F _ _, .remAssign F _ _⟩,
    ⟨.fromFixed F _ _ _, .ofFloat F _, .toFloat F _, .intPart F _, .fracPart F _⟩, ⟨?_, ?_, gt' _ _, lt' _ _, ?_, ?_⟩⟩
  · unfold preInc; ends
  · unfold postInc; ends
  · unfold preDec; ends
  · unfold postDec; ends
  · unfold nearlyEq; ends
  · unfold nearlyNe; ends
  · unfold nearlyGtEq; exact .seq (lt' _ _) fun _ => .pure _
  · unfold nearlyLtEq; exact .seq (gt' _ _) fun _ => .pure _

/-- C181: the functions of `math.hpp` that are declared `noexcept`, except the two forms of `pow`. -/
theorem C181_functions (F : FxTy) (hF : F.Valid) (x y z : Int) :
    (Ends (ceil F x) ∧ Ends (floor F x) ∧ Ends (trunc F x) ∧ Ends (round F x) ∧ Ends (abs F x)) ∧
    (Ends (sqrt F x) ∧ Ends (cbrt F x) ∧ Ends (hypot F x y) ∧ Ends (hypot3 F x y z)) ∧
    (Ends (sin F x) ∧ Ends (cos F x) ∧ Ends (atan F x) ∧ Ends (exp F x)) ∧
    (Ends (fmod F x y) ∧ Ends (modf F x) ∧ Ends (degrees F x) ∧ Ends (radians F x)) := by
  refine ⟨⟨.ceil F _, .floor F _, .trunc F _, .round F _, .abs F _⟩, ⟨.sqrt F _, .cbrt F _, ?_, ?_⟩, ⟨.sin F _, .cos F _, .atan F _, .exp F hF _⟩, ⟨?_, ?_, ?_, ?_⟩⟩
  · unfold hypot; exact .seq (.mul F _ _) fun _ => .seq (.mul F _ _) fun _ => .seq (.add F _ _) fun _ => .sqrt F _
  · unfold hypot3
    exact .seq (.mul F _ _) fun _ => .seq (.mul F _ _) fun _ => .seq (.add F _ _) fun _ => .seq (.mul F _ _) fun _ => .seq (.add F _ _) fun _ => .sqrt F _
  · unfold fmod; exact .seq (.div F _ _) fun _ => .seq (.floor F _) fun _ => .seq (.mul F _ _) fun _ => .sub F _ _
  · unfold modf; exact .seq (.floor F _) fun _ => .seq (.sub F _ _) fun _ => .pure _
  · unfold degrees; exact .seq (.cPi F) fun _ => .seq (.div F _ _) fun _ => .mul F _ _
  · unfold radians; exact .seq (.cPi F) fun _ => .seq (.div F _ _) fun _ => .mul F _ _

/-- C181: integer powers, for every exponent of 64 bits or fewer. -/
theorem C181_powers (F : FxTy) (b e : Int) (he : i64.InRange e ∨ u64.InRange e) : Ends (powInt F b e) := by
  apply Ends.powInt
  rcases he with ⟨h1, h2⟩ | ⟨h1, h2⟩
  · rw [show i64.lo = -9223372036854775808 by decide] at h1
    rw [show i64.hi = 9223372036854775807 by decide] at h2
    omega
  · rw [show u64.lo = 0 by decide] at h1
    rw [show u64.hi = 18446744073709551615 by decide] at h2
    omega

example : Ends (powInt fixed32 65537 (-9223372036854775808)) := C181_powers fixed32 65537 _ (Or.inl ⟨by decide, by decide⟩)

/-- C181: the checked divisions raise `divide_by_zero` for a zero divisor and nothing else. -/
theorem C181_divide (F : FxTy) (U : IntTy) (x y n : Int) (e : Exn) :
    (divide F x y = .throw e ↔ e = .divideByZero ∧ y = 0) ∧ (divideInt F U x n = .throw e ↔ e = .divideByZero ∧ n = 0) ∧
    divide F x y ≠ .ub .diverges ∧ divideInt F U x n ≠ .ub .diverges := by
  unfold divide divideInt
  have k1 : Ends (if F.r then do
      let n ← shl F.I x F.f
      let d ← arith F.I.promote (n * 2)
      let v ← cdiv F.C d y
      let m ← cmod F.C v 2
      let s ← arith F.C (v + m)
      pure (F.T.wrap s)
    else do
      let n ← shl F.I x F.f
      let q ← cdiv F.C n y
      pure (F.T.wrap q) : Res Int) := by ends
  have k2 : Ends (do
      let q ← cdiv (IntTy.common F.T U) ((IntTy.common F.T U).wrap x) ((IntTy.common F.T U).wrap n)
      pure (F.T.wrap q) : Res Int) := by ends
  refine ⟨?_, ?_, ?_, ?_⟩
  · by_cases c : y = 0
    · rw [if_pos c]; exact ⟨fun h => by cases h; exact ⟨rfl, c⟩, fun ⟨h, _⟩ => by rw [h]⟩
    · rw [if_neg c]; exact ⟨fun h => absurd h (k1.1 e), fun h => absurd h.2 c⟩
  · by_cases c : n = 0
    · rw [if_pos c]; exact ⟨fun h => by cases h; exact ⟨rfl, c⟩, fun ⟨h, _⟩ => by rw [h]⟩
    · rw [if_neg c]; exact ⟨fun h => absurd h (k2.1 e), fun h => absurd h.2 c⟩
  · split
    · intro h; cases h
    · exact k1.2
  · split
    · intro h; cases h
    · exact k2.2

/-- C181: `tan` raises `domain_error` exactly when the computed cosine is within one ulp of zero; `asin` and `acos` exactly when the computed absolute value
exceeds one. -/
theorem C181_trig (F : FxTy) (x : Int) (e : Exn) :
    (tan F x = .throw e ↔ e = .domainError ∧ ∃ c a, cos F x = .ok c ∧ abs F c = .ok a ∧ a ≤ 1) ∧
    (asin F x = .throw e ↔ e = .domainError ∧ ∃ pi a, cPi F = .ok pi ∧ abs F x = .ok a ∧ ofInt F 1 < a) ∧
    (acos F x = .throw e ↔ e = .domainError ∧ ∃ pi a, cPi F = .ok pi ∧ abs F x = .ok a ∧ ofInt F 1 < a) ∧
    tan F x ≠ .ub .diverges ∧ asin F x ≠ .ub .diverges ∧ acos F x ≠ .ub .diverges := by
  have asinTail : Ends (do
      let sq ← mul F x x
      let d ← sub F (ofInt F 1) sq
      let s ← sqrt F d
      let q ← div F x s
      atan F q) := .seq (.mul F _ _) fun _ => .seq (.sub F _ _) fun _ => .seq (.sqrt F _) fun _ => .seq (.div F _ _) fun _ => .atan F _
  have asinIn : ∀ pi, Ends (if eq x (ofInt F 1) then div F pi (ofInt F 2)
      else if eq x (ofInt F (-1)) then do
        let np ← neg F pi
        div F np (ofInt F 2)
      else do
        let sq ← mul F x x
        let d ← sub F (ofInt F 1) sq
        let s ← sqrt F d
        let q ← div F x s
        atan F q) := fun pi => .ite (.div F _ _) (.ite (.seq (.neg F _) fun _ => .div F _ _) asinTail)
  have asin_eq : ∀ pi a, cPi F = .ok pi → abs F x = .ok a → gt a (ofInt F 1) = false → Ends (asin F x) := by
    intro pi a h1 h2 h3
    unfold asin
    rw [h1, Res.bind_ok, h2, Res.bind_ok, if_neg (by rw [h3]; decide)]
    exact asinIn pi
  have acosIn : ∀ pi a, cPi F = .ok pi → abs F x = .ok a → gt a (ofInt F 1) = false → Ends (if eq x (ofInt F 1) then pure (ofInt F 0)
      else if eq x (ofInt F (-1)) then pure pi
      else if eq x (ofInt F 0) then div F pi (ofInt F 2)
      else do
        let h ← divInt F i32 pi 2
        let s ← asin F x
        sub F h s) := fun pi a h1 h2 h3 => .ite (.pure _) (.ite (.pure _) (.ite (.div F _ _) (.seq (.divInt F _ _ _) fun _ =>
          .seq (asin_eq pi a h1 h2 h3) fun _ => .sub F _ _)))
  refine ⟨?_, ?_, ?_, ?_, ?_, ?_⟩
  · unfold tan
    rw [Ends.throws (.cos F x)]
    constructor
    · rintro ⟨c, hc, h⟩
      rw [Ends.throws (.abs F c)] at h
      obtain ⟨a, ha, h⟩ := h
      split at h
      · exact absurd h ((Ends.seq (.sin F x) fun s => .div F _ _ : Ends _).1 e)
      · cases h; exact ⟨rfl, c, a, hc, ha, by omega⟩
    · rintro ⟨rfl, c, a, hc, ha, h⟩
      refine ⟨c, hc, ?_⟩
      rw [ha, Res.bind_ok, if_neg (by omega)]
  · unfold asin
    rw [Ends.throws (.cPi F)]
    constructor
    · rintro ⟨pi, hp, h⟩
      rw [Ends.throws (.abs F x)] at h
      obtain ⟨a, ha, h⟩ := h
      split at h
      · rename_i g; cases h; exact ⟨rfl, pi, a, hp, ha, gt_iff.1 g⟩
      · exact absurd h ((asinIn pi).1 e)
    · rintro ⟨rfl, pi, a, hp, ha, h⟩
      refine ⟨pi, hp, ?_⟩
      rw [ha, Res.bind_ok, if_pos (gt_iff.2 h)]
  · unfold acos
    rw [Ends.throws (.cPi F)]
    constructor
    · rintro ⟨pi, hp, h⟩
      rw [Ends.throws (.abs F x)] at h
      obtain ⟨a, ha, h⟩ := h
      split at h
      · rename_i g; cases h; exact ⟨rfl, pi, a, hp, ha, gt_iff.1 g⟩
      · rename_i g; exact absurd h ((acosIn pi a hp ha (by simpa using g)).1 e)
    · rintro ⟨rfl, pi, a, hp, ha, h⟩
      refine ⟨pi, hp, ?_⟩
      rw [ha, Res.bind_ok, if_pos (gt_iff.2 h)]
  · unfold tan
    refine Ends.loops (.cos F x) fun c _ => Ends.loops (.abs F c) fun a _ => ?_
    split
    · exact (Ends.seq (.sin F x) fun s => .div F _ _ : Ends _).2
    · intro h; cases h
  · unfold asin
    refine Ends.loops (.cPi F) fun pi _ => Ends.loops (.abs F x) fun a _ => ?_
    split
    · intro h; cases h
    · exact (asinIn pi).2
  · unfold acos
    refine Ends.loops (.cPi F) fun pi hp => Ends.loops (.abs F x) fun a ha => ?_
    split
    · intro h; cases h
    · rename_i g; exact (acosIn pi a hp ha (by simpa using g)).2

/-! ### Logarithms and real powers -/

theorem log2_rest_quiet (F : FxTy) : (∀ n x y, ∀ e, log2Up F n x y ≠ .throw e) ∧ (∀ n x y, ∀ e, log2Down F n x y ≠ .throw e) := by
  have q : ∀ {α β : Type} {a : Res α} {k : α → Res β}, Ends a → (∀ x, ∀ e, k x ≠ .throw e) → ∀ e, (a >>= k) ≠ .throw e := by
    intro α β a k ha hk e h
    rw [Ends.throws ha] at h
    obtain ⟨x, -, h⟩ := h
    exact hk x e h
  constructor
  · intro n
    induction n with
    | zero => intro x y e h; cases h
    | succ n ih =>
      intro x y e
      unfold log2Up
      split
      · exact q (.shl _ _ _) (fun _ => q (.arith _ _) fun _ => ih _ _) e
      · intro h; cases h
  · intro n
    induction n with
    | zero => intro x y e h; cases h
    | succ n ih =>
      intro x y e
      unfold log2Down
      split
      · exact q (.arith _ _) (fun _ => ih _ _) e
      · intro h; cases h

theorem log2Frac_ends (F : FxTy) : ∀ n z y b, Ends (log2Frac F n z y b) := by
  intro n
  induction n with
  | zero => intro z y b; exact .ok _
  | succ n ih =>
    intro z y b
    unfold log2Frac
    exact .seq (.arith _ _) fun _ => .seq (.shr _ _ _) fun _ => .ite (.seq (.arith _ _) fun _ => ih _ _ _) (ih _ _ _)

/-- C181: `log2` raises `domain_error` exactly for numbers that are not positive (when the output bit of the first pass exists). -/
theorem C181_log2 (F : FxTy) (x : Int) (e : Exn) : log2 F x = .throw e ↔ e = .domainError ∧ F.f ≤ 32 ∧ val F x ≤ 0 := by
  have hv : val F x ≤ 0 ↔ x ≤ 0 := by rw [← val_zero F]; exact val_le
  rw [hv]
  unfold log2
  rw [Ends.throws (.shl _ _ _)]
  have sh : ∀ b, shl u32 1 (F.f - 1) = .ok b → F.f ≤ 32 := by
    intro b h
    by_contra hc
    unfold shl at h
    rw [if_neg (by show ¬ (F.f - 1 < 32); omega)] at h
    cases h
  constructor
  · rintro ⟨b, hb, h⟩
    dsimp only at h
    split at h
    · rename_i g
      cases h
      rw [ofInt_zero'] at g
      exact ⟨rfl, sh b hb, le_iff.1 g⟩
    · exfalso
      cases u : log2Up F (F.T.bits + 1) x 0 with
      | throw e' => exact (log2_rest_quiet F).1 _ _ _ e' u
      | ub v => rw [u, Res.bind_ub] at h; cases h
      | ok p =>
        rw [u, Res.bind_ok] at h
        cases w : log2Down F (F.T.bits + 1) p.1 p.2 with
        | throw e' => exact (log2_rest_quiet F).2 _ _ _ e' w
        | ub v => rw [w, Res.bind_ub] at h; cases h
        | ok s =>
          rw [w, Res.bind_ok] at h
          exact (Ends.seq (log2Frac_ends F _ _ _ _) fun _ => .pure _ : Ends _).1 e h
  · rintro ⟨rfl, hf, hx⟩
    refine ⟨1 * 2 ^ (F.f - 1), ?_, ?_⟩
    · unfold shl
      rw [if_pos (by show F.f - 1 < 32; omega)]
      congr 1
      exact IntTy.wrap_of_inRange (by decide) ⟨by show (0 : Int) ≤ _; positivity, by
        show _ ≤ (2 : Int) ^ 32 - 1
        have : (2 : Int) ^ (F.f - 1) ≤ 2 ^ 31 := pow_le_pow_right₀ (by norm_num) (by omega)
        norm_num at this ⊢; omega⟩
    · dsimp only
      rw [if_pos (by rw [ofInt_zero']; exact le_iff.2 hx)]

/-- C181: the other logarithms and `pow` of two fixed-point numbers raise nothing but what `log2` raises; the latter, being `noexcept`, ends the program. -/
theorem C181_logs (F : FxTy) (hF : F.Valid) (x y : Int) (e : Exn) :
    (log F x = .throw e → log2 F x = .throw e) ∧ (log10 F x = .throw e → log2 F x = .throw e) ∧
    (powFixed F x y = .throw e → e = .terminate ∧ log2 F x = .throw .domainError ∧ val F x < 0) := by
  have k : ∀ {c : Res Int}, Ends c → ∀ e, (do let c ← c; let l ← log2 F x; div F l c) = Res.throw e → log2 F x = .throw e := by
    intro c hc e h
    rw [Ends.throws hc] at h
    obtain ⟨c, -, h⟩ := h
    cases u : log2 F x with
    | ok l => rw [u, Res.bind_ok] at h; exact absurd h ((Ends.div F l c).1 e)
    | ub v => rw [u, Res.bind_ub] at h; cases h
    | throw e' => rw [u, Res.bind_throw] at h; exact h
  have kl : ∀ e, log F x = .throw e → log2 F x = .throw e := fun e h => k (.fromFixed F _ _ _) e h
  refine ⟨kl e, fun h => k (.fromFixed F _ _ _) e h, fun h => ?_⟩
  unfold powFixed at h
  cases u : powFixedBody F x y with
  | ok v => rw [u] at h; cases h
  | ub v => rw [u] at h; cases h
  | throw e' =>
    rw [u] at h
    cases h
    refine ⟨rfl, ?_⟩
    unfold powFixedBody at u
    split at u
    · split at u <;> cases u
    · rename_i hx0
      rw [Ends.throws (.cdiv _ _ _)] at u
      obtain ⟨q, -, u⟩ := u
      dsimp only at u
      rw [Ends.throws (.subIntA F _ _)] at u
      obtain ⟨e1, -, u⟩ := u
      rw [Ends.throws (.powInt F x (Ends.wrap_small F hF q))] at u
      obtain ⟨p, -, u⟩ := u
      cases w : log F x with
      | ok l =>
        rw [w, Res.bind_ok] at u
        exact absurd u ((Ends.seq (.mul F _ _) fun _ => .seq (.exp F hF _) fun _ => .mul F _ _ : Ends _).1 e')
      | ub v => rw [w, Res.bind_ub] at u; cases u
      | throw e2 =>
        have l2 := kl e2 w
        obtain ⟨rfl, -, hv⟩ := (C181_log2 F x e2).1 l2
        refine ⟨l2, lt_of_le_of_ne hv fun h => hx0 ?_⟩
        rw [ofInt_zero']
        exact decide_eq_true (val_inj (F := F) (by rw [h, val_zero]))

/-! ### The loops of the logarithms -/

section
variable {F : FxTy} (hF : F.Valid) (h3 : F.f + 3 ≤ F.T.bits)
include hF h3

theorem shl_facts : oneShl F = 2 ^ F.f ∧ twoShl F = 2 * 2 ^ F.f ∧ 2 * 2 ^ F.f ≤ F.T.hi ∧ F.T.lo ≤ 0 := by
  have hp : (0 : Int) < 2 ^ F.f := by positivity
  have e : (4 : Int) * 2 ^ F.f ≤ F.T.hi + 1 := by
    have k1 : (2 : Int) ^ (F.f + 2) ≤ 2 ^ (F.T.bits - 1) := pow_le_pow_right₀ (by norm_num) (by omega)
    have k2 : (2 : Int) ^ (F.f + 2) ≤ 2 ^ F.T.bits := pow_le_pow_right₀ (by norm_num) (by omega)
    rw [pow_add] at k1 k2
    unfold IntTy.hi
    split <;> omega
  have l : F.T.lo ≤ 0 := by
    unfold IntTy.lo
    split
    · have : (0 : Int) < 2 ^ (F.T.bits - 1) := by positivity
      omega
    · exact le_rfl
  have rg : ∀ z, 0 ≤ z → z ≤ F.T.hi → F.T.InRange z := fun z h0 h1 => ⟨by omega, h1⟩
  refine ⟨?_, ?_, by omega, l⟩
  · unfold oneShl
    exact IntTy.wrap_of_inRange hF.ppos (IntTy.inRange_promote hF.tpos (rg _ hp.le (by omega)))
  · unfold twoShl
    rw [IntTy.wrap_of_inRange hF.tpos (rg 2 (by norm_num) (by omega))]
    exact IntTy.wrap_of_inRange hF.ppos (IntTy.inRange_promote hF.tpos (rg _ (by omega) (by omega)))

theorem up_ends : ∀ n (x y : Int), 0 < x → x ≤ F.T.hi → 2 ^ F.f ≤ x * 2 ^ n →
    log2Up F (n + 1) x y ≠ .ub .diverges ∧ ∀ p, log2Up F (n + 1) x y = .ok p → 0 < p.1 ∧ p.1 ≤ F.T.hi := by
  obtain ⟨e1, -, e3, e4⟩ := shl_facts hF h3
  intro n
  induction n with
  | zero =>
    intro x y h0 h1 h
    unfold log2Up
    rw [e1, if_neg (by rw [pow_zero] at h; omega)]
    exact ⟨fun c => (by cases c), fun p c => by cases c; exact ⟨h0, h1⟩⟩
  | succ n ih =>
    intro x y h0 h1 h
    unfold log2Up
    rw [e1]
    by_cases c : x < 2 ^ F.f
    · rw [if_pos c]
      have es : shl F.T x 1 = .ok (2 * x) := by
        unfold shl
        rw [if_pos (by have := hF.tp; have := hF.flt; show 1 < F.P.bits; omega), pow_one, mul_comm x 2]
        congr 1
        exact IntTy.wrap_of_inRange hF.ppos (IntTy.inRange_promote hF.tpos ⟨by omega, by omega⟩)
      rw [es, Res.bind_ok, IntTy.wrap_of_inRange hF.tpos ⟨by omega, by omega⟩]
      have I := fun y => ih (2 * x) y (by omega) (by omega) (by rw [pow_succ] at h; linarith)
      cases a : arith F.P (y - 2 ^ F.f) with
      | ok v => rw [Res.bind_ok]; exact I _
      | ub u => rw [Res.bind_ub]; exact ⟨fun c => (by cases c; exact (Ends.arith F.P (y - 2 ^ F.f)).2 a), fun p c => by cases c⟩
      | throw e => exact absurd a ((Ends.arith F.P (y - 2 ^ F.f)).1 e)
    · rw [if_neg c]
      exact ⟨fun c => (by cases c), fun p c => by cases c; exact ⟨h0, h1⟩⟩

theorem down_ends : ∀ n (x y : Int), 0 ≤ x → x ≤ F.T.hi → x < 2 * 2 ^ F.f * 2 ^ n → log2Down F (n + 1) x y ≠ .ub .diverges := by
  obtain ⟨-, e2, e3, e4⟩ := shl_facts hF h3
  intro n
  induction n with
  | zero =>
    intro x y h0 h1 h
    unfold log2Down
    rw [e2, if_neg (by rw [pow_zero] at h; omega)]
    exact fun c => by cases c
  | succ n ih =>
    intro x y h0 h1 h
    unfold log2Down
    rw [e2]
    split
    · rw [IntTy.wrap_of_inRange hF.tpos ⟨by omega, by omega⟩]
      refine Ends.loops (.arith _ _) fun v _ => ih _ _ (by omega) (by omega) ?_
      rw [pow_succ] at h
      have : x / 2 * 2 ≤ x := Int.ediv_mul_le _ (by norm_num)
      nlinarith
    · exact fun c => by cases c
end

/-- C181: on every layout with at least three bits besides the fraction the loops of `log2` end, and so do the functions built on it. -/
theorem C181_log_loops (F : FxTy) (hF : F.Valid) (h3 : F.f + 3 ≤ F.T.bits) (x y : Int) (hx : Storable F x) :
    log2 F x ≠ .ub .diverges ∧ log F x ≠ .ub .diverges ∧ log10 F x ≠ .ub .diverges ∧ powFixed F x y ≠ .ub .diverges := by
  have k0 : log2 F x ≠ .ub .diverges := by
    unfold log2
    refine Ends.loops (.shl _ _ _) fun b _ => ?_
    dsimp only
    split
    · exact fun c => by cases c
    · rename_i g
      rw [ofInt_zero', le_iff] at g
      have hp : (0 : Int) < 2 ^ F.f := by positivity
      have hb : (2 : Int) ^ F.f ≤ 2 ^ F.T.bits := pow_le_pow_right₀ (by norm_num) (by omega)
      have hh : F.T.hi < 2 ^ F.T.bits := by
        have : (2 : Int) ^ (F.T.bits - 1) ≤ 2 ^ F.T.bits := pow_le_pow_right₀ (by norm_num) (by omega)
        unfold IntTy.hi
        split <;> omega
      obtain ⟨u1, u2⟩ := up_ends hF h3 F.T.bits x 0 (by omega) hx.2 (by nlinarith)
      cases u : log2Up F (F.T.bits + 1) x 0 with
      | throw e => exact absurd u ((log2_rest_quiet F).1 _ _ _ e)
      | ub v => rw [Res.bind_ub]; intro c; cases c; exact u1 u
      | ok p =>
        rw [Res.bind_ok]
        obtain ⟨p0, p1⟩ := u2 p u
        have d := down_ends hF h3 F.T.bits p.1 p.2 p0.le p1 (by nlinarith)
        cases w : log2Down F (F.T.bits + 1) p.1 p.2 with
        | throw e => exact absurd w ((log2_rest_quiet F).2 _ _ _ e)
        | ub v => rw [Res.bind_ub]; intro c; cases c; exact d w
        | ok s => rw [Res.bind_ok]; exact (Ends.seq (log2Frac_ends F _ _ _ _) fun _ => .pure _ : Ends _).2
  have k : ∀ {c : Res Int}, Ends c → (do let c ← c; let l ← log2 F x; div F l c) ≠ Res.ub .diverges := by
    intro c hc
    refine Ends.loops hc fun c _ => ?_
    cases u : log2 F x with
    | ok l => rw [Res.bind_ok]; exact (Ends.div F l c).2
    | ub v => rw [Res.bind_ub]; intro h; cases h; exact k0 u
    | throw e' => rw [Res.bind_throw]; exact fun h => by cases h
  have kl : log F x ≠ .ub .diverges := k (.fromFixed F _ _ _)
  refine ⟨k0, kl, k (.fromFixed F _ _ _), ?_⟩
  have b : powFixedBody F x y ≠ .ub .diverges := by
    unfold powFixedBody
    split
    · split <;> exact fun h => by cases h
    · refine Ends.loops (.cdiv _ _ _) fun q _ => Ends.loops (.subIntA F _ _) fun _ _ => Ends.loops (.powInt F x (Ends.wrap_small F hF q)) fun p _ => ?_
      cases w : log F x with
      | ok l => rw [Res.bind_ok]; exact (Ends.seq (.mul F _ _) fun _ => .seq (.exp F hF _) fun _ => .mul F _ _ : Ends _).2
      | ub v => rw [Res.bind_ub]; intro h; cases h; exact kl w
      | throw e => rw [Res.bind_throw]; exact fun h => by cases h
  unfold powFixed
  cases u : powFixedBody F x y with
  | ok v => exact fun h => by cases h
  | ub v => intro h; cases h; exact b u
  | throw e => exact fun h => by cases h

example : (⟨i16, i32, 13, true⟩ : FxTy).Valid ∧ log2 ⟨i16, i32, 13, true⟩ (-1) = .throw .domainError ∧ log2 ⟨i8, i16, 7, false⟩ 64 = .ub .diverges ∧
    powFixed fixed32 (-65536) 32768 = .throw .terminate ∧ tan ⟨i16, i32, 1, false⟩ 3 = .throw .domainError := by
  refine ⟨by decide, by decide +kernel, by decide +kernel, by decide +kernel, by decide +kernel⟩

/-! ### Text -/

theorem accDigit_ends (W : IntTy) (a : Int) (c : Char) : Ends (accDigit W a c) := by unfold accDigit; ends
theorem mulTen_ends (W : IntTy) (d : Int) : Ends (mulTen W d) := by unfold mulTen; ends
theorem scale_ends (W : IntTy) (f : Nat) (a b c : Int) : Ends (scaleParts W f a b c) := by unfold scaleParts; ends
theorem store_ends (F : FxTy) (s : Bool) (v o : Int) : Ends (storeParsed F s v o) := by
  unfold storeParsed
  exact .ite (.ok _) (.ite (.seq (.neg F _) fun _ => .pure _) (.pure _))
theorem lim_ends (F : FxTy) : Ends (limGeneric F) := by unfold limGeneric; ends

theorem intStrict_ends (W : IntTy) : ∀ s a, Ends (intStrict W s a) := by
  intro s
  induction s with
  | nil => intro a; exact .ok _
  | cons c cs ih => intro a; unfold intStrict; exact .ite (.ok _) (.ite (.ok _) (.seq (accDigit_ends _ _ _) fun _ => ih _))
theorem intLenient_ends (W : IntTy) : ∀ s a, Ends (intLenient W s a) := by
  intro s
  induction s with
  | nil => intro a; exact .ok _
  | cons c cs ih => intro a; unfold intLenient; exact .ite (.ok _) (.ite (.ok _) (.seq (accDigit_ends _ _ _) fun _ => ih _))
theorem fracStrict_ends (W : IntTy) (l : Int) : ∀ s a b, Ends (fracStrict W l s a b) := by
  intro s
  induction s with
  | nil => intro a b; exact .ok _
  | cons c cs ih =>
    intro a b; unfold fracStrict
    exact .ite (.ok _) (.ite (.ok _) (.seq (accDigit_ends _ _ _) fun _ => .seq (mulTen_ends _ _) fun _ => ih _ _))
theorem fracLenient_ends (W : IntTy) (l : Int) : ∀ s a b, Ends (fracLenient W l s a b) := by
  intro s
  induction s with
  | nil => intro a b; exact .ok _
  | cons c cs ih =>
    intro a b; unfold fracLenient
    exact .ite (.ok _) (.seq (accDigit_ends _ _ _) fun _ => .seq (mulTen_ends _ _) fun _ => ih _ _)
theorem ioInt_ends (st : Char) : ∀ s a, Ends (ioInt st s a) := by
  intro s
  induction s with
  | nil => intro a; exact .ub (by decide)
  | cons c cs ih => intro a; unfold ioInt; exact .ite (.ok _) (.ite (.ok _) (.ite (.ok _) (.seq (accDigit_ends _ _ _) fun _ => ih _)))
theorem ioFrac_ends (st : Char) (l : Int) : ∀ s a b, Ends (ioFrac st l s a b) := by
  intro s
  induction s with
  | nil => intro a b; exact .ub (by decide)
  | cons c cs ih =>
    intro a b; unfold ioFrac
    exact .ite (.ok _) (.ite (.ok _) (.ite (.ok _) (.seq (accDigit_ends _ _ _) fun _ => .seq (mulTen_ends _ _) fun _ => ih _ _)))

/-- C181: the string parsers, `operator>>` and `io::parse`, for every text. -/
theorem C181_text (F : FxTy) (s : List Char) (stop : Char) (old : Int) :
    Ends (parseDetail F s old) ∧ Ends (parseLit F s) ∧ Ends (fixedFromCstring F s old) ∧ Ends (f32FromCstring s old) ∧ Ends (streamIn F s old) ∧
    Ends (ioParse s stop old) := by
  have p : ∀ old, Ends (parseDetail F s old) := by
    intro old
    unfold parseDetail
    dsimp only
    refine .seq (intStrict_ends _ _ _) fun r => ?_
    split
    · exact .pure _
    · split
      · refine .seq (fracStrict_ends _ _ _ _ _) fun r => ?_
        split
        · exact .pure _
        · exact .seq (scale_ends _ _ _ _ _) fun _ => store_ends _ _ _ _
      · exact .seq (.shl _ _ _) fun _ => store_ends _ _ _ _
  refine ⟨p old, ?_, ?_, ?_, ?_, ?_⟩
  · unfold parseLit
    refine .seq (p 0) fun r => ?_
    split
    · exact .pure _
    · exact .ub (by decide)
  · unfold fixedFromCstring
    dsimp only
    refine .seq (intLenient_ends _ _ _) fun r => ?_
    split
    · exact .seq (lim_ends F) fun _ => .seq (fracLenient_ends _ _ _ _ _) fun _ => .seq (scale_ends _ _ _ _ _) fun _ => store_ends _ _ _ _
    · exact .seq (.shl _ _ _) fun _ => store_ends _ _ _ _
  · unfold f32FromCstring
    dsimp only
    refine .seq (intStrict_ends _ _ _) fun r => ?_
    split
    · exact .pure _
    · refine .seq ?_ fun v => ?_
      · split
        · refine .seq (fracStrict_ends _ _ _ _ _) fun r => ?_
          split
          · exact .pure _
          · exact .seq (scale_ends _ _ _ _ _) fun _ => .pure _
        · exact .seq (.shl _ _ _) fun _ => .pure _
      · split
        · exact .pure _
        · exact .ite (.pure _) (.ite (.seq (.neg _ _) fun _ => .pure _) (.pure _))
  · unfold streamIn
    split
    · exact .ok _
    · dsimp only
      refine .seq (intLenient_ends _ _ _) fun r => ?_
      refine .seq ?_ fun v => .ite (.seq (.neg F _) fun _ => .pure _) (.pure _)
      split
      · exact .seq (lim_ends F) fun _ => .seq (fracLenient_ends _ _ _ _ _) fun _ => .seq (scale_ends _ _ _ _ _) fun _ => .pure _
      · exact .seq (.shl _ _ _) fun _ => .pure _
  · have hn : ∀ l, Ends (ioHasNext stop l) := by
      intro l
      cases l with
      | nil => exact .ub (by decide)
      | cons c cs => exact .ok _
    unfold ioParse
    refine .seq (hn _) fun b => ?_
    dsimp only
    refine .seq (ioInt_ends _ _ _) fun r => ?_
    split
    · exact .pure _
    · refine .seq (hn _) fun b => .seq ?_ fun v => ?_
      · split
        · refine .seq (ioFrac_ends _ _ _ _ _) fun r => ?_
          split
          · exact .pure _
          · exact .seq (scale_ends _ _ _ _ _) fun _ => .pure _
        · exact .seq (.shl _ _ _) fun _ => .pure _
      · split
        · exact .pure _
        · exact .ite (.seq (.neg _ _) fun _ => .pure _) (.pure _)

example : fixedFromCstring fixed32 "-1.5x".toList 7 = .ok (true, -98304) ∧ ioParse "12".toList ';' 0 = .ub .bounds := by
  refine ⟨by decide +kernel, by decide +kernel⟩

end Eirin.Props
