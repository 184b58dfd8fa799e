import Verif.Model.Math

/-! # Operations that never throw

`Quiet r`: the outcome `r` is a value or undefined behaviour, never an exception. -/

namespace Eirin

def Quiet {α : Type} (r : Res α) : Prop := ∀ e, r ≠ .throw e

namespace Quiet
variable {α β : Type}

theorem ok (a : α) : Quiet (Res.ok a) := fun _ h => by cases h
theorem pure (a : α) : Quiet (Pure.pure a : Res α) := ok a
theorem ub (u : UB) : Quiet (Res.ub u : Res α) := fun _ h => by cases h
theorem bind {a : Res α} {k : α → Res β} (ha : Quiet a) (hk : ∀ x, Quiet (k x)) : Quiet (a >>= k) := by
  cases a with
  | ok x => exact hk x
  | ub u => exact ub u
  | throw e => exact absurd rfl (ha e)
theorem ite {c : Prop} [Decidable c] {a b : Res α} (ha : Quiet a) (hb : Quiet b) : Quiet (if c then a else b) := by
  split <;> assumption
theorem arith (t : IntTy) (n : Int) : Quiet (arith t n) := by
  unfold Eirin.arith; exact ite (ite (ok _) (ub _)) (ok _)
theorem cdiv (t : IntTy) (a b : Int) : Quiet (cdiv t a b) := by
  unfold Eirin.cdiv; exact ite (ub _) (ite (ub _) (ok _))
theorem cmod (t : IntTy) (a b : Int) : Quiet (cmod t a b) := by
  unfold Eirin.cmod; exact ite (ub _) (ite (ub _) (ok _))
theorem shl (t : IntTy) (a : Int) (k : Nat) : Quiet (shl t a k) := by
  unfold Eirin.shl; exact ite (ok _) (ub _)
theorem shr (t : IntTy) (a : Int) (k : Nat) : Quiet (shr t a k) := by
  unfold Eirin.shr; exact ite (ok _) (ub _)
end Quiet

/-- Decompose a `do` block into quiet steps. -/
macro "quiet" : tactic => `(tactic| repeat' (first
  | exact Quiet.ok _ | exact Quiet.pure _ | exact Quiet.ub _ | exact Quiet.arith _ _ | exact Quiet.cdiv _ _ _
  | exact Quiet.cmod _ _ _ | exact Quiet.shl _ _ _ | exact Quiet.shr _ _ _ | assumption
  | apply Quiet.bind | apply Quiet.ite | intro _))

namespace Quiet
variable (F : FxTy)

theorem add (x y : Int) : Quiet (add F x y) := by unfold Eirin.add; quiet
theorem sub (x y : Int) : Quiet (sub F x y) := by unfold Eirin.sub; quiet
theorem neg (x : Int) : Quiet (neg F x) := by unfold Eirin.neg; quiet
theorem mul (x y : Int) : Quiet (mul F x y) := by unfold Eirin.mul; quiet
theorem div (x y : Int) : Quiet (div F x y) := by unfold Eirin.div; quiet
theorem abs (x : Int) : Quiet (abs F x) := by unfold Eirin.abs; quiet
theorem divInt (U : IntTy) (x n : Int) : Quiet (divInt F U x n) := by unfold Eirin.divInt divIntAssign; quiet
theorem intMul (U : IntTy) (n x : Int) : Quiet (intMul F U n x) := by unfold Eirin.intMul mulIntAssign; quiet
theorem fromFixed (S : IntTy) (g : Nat) (n : Int) : Quiet (fromFixedNumValue F S g n) := by unfold fromFixedNumValue; quiet

theorem sqrtLoopA : ∀ n q v b, Quiet (sqrtLoopA n q v b) := by
  intro n
  induction n with
  | zero => intro q v b; exact ub _
  | succ n ih => intro q v b; unfold Eirin.sqrtLoopA; exact ite (ih _ _ _) (ok _)
theorem sqrtLoopC : ∀ n q v b, Quiet (sqrtLoopC n q v b) := by
  intro n
  induction n with
  | zero => intro q v b; exact ub _
  | succ n ih => intro q v b; unfold Eirin.sqrtLoopC; exact ite (ih _ _ _) (ok _)
theorem sqrtLoopB : ∀ n q v b, Quiet (sqrtLoopB n q v b) := by
  intro n
  induction n with
  | zero => intro q v b; exact ub _
  | succ n ih => intro q v b; unfold Eirin.sqrtLoopB; exact ite (ite (sqrtLoopC _ _ _ _) (ih _ _ _)) (ok _)
theorem sqrtNewton (fp eps : Int) : ∀ n x, Quiet (sqrtNewton F fp eps n x) := by
  intro n
  induction n with
  | zero => intro x; exact ok _
  | succ n ih =>
    intro x
    unfold Eirin.sqrtNewton
    refine bind (div F _ _) fun q => bind (add F _ _) fun s => bind (divInt F _ _ _) fun x' => bind (mul F _ _) fun sq =>
      bind (sub F _ _) fun d => bind (abs F _) fun a => ite (ok _) (ih _)
theorem findMsb (t : IntTy) (v : Int) : Quiet (findMsb t v) := by unfold Eirin.findMsb; quiet
theorem epsilon : Quiet (epsilon F) := by unfold Eirin.epsilon; exact fromFixed F _ _ _
theorem sqrt (x : Int) : Quiet (sqrt F x) := by
  unfold Eirin.sqrt
  refine ite ?_ (ite (ok _) (ite (ok _) (bind (findMsb _ _) fun e => bind (epsilon F) fun eps => sqrtNewton F _ _ _ _)))
  unfold Eirin.sqrtBits
  have key : ∀ v : Int, Quiet (do
      let q ← if u64.wrap v < 0x40000200 then Eirin.sqrtLoopA 32 0 (u64.wrap v) 0x40000000 else Eirin.sqrtLoopB 32 0 (u64.wrap v) 0x40000000
      Pure.pure (fromInternal F (F.T.wrap q))) := by
    intro v
    dsimp only
    exact ite (bind (sqrtLoopA _ _ _ _) fun q => pure _) (bind (sqrtLoopB _ _ _ _) fun q => pure _)
  dsimp only at key ⊢
  exact ite (bind (shr _ _ _) fun v => key v) (bind (shl _ _ _) fun v => key v)

theorem cPi : Quiet (cPi F) := by unfold Eirin.cPi; exact fromFixed F _ _ _

theorem atan (x : Int) : Quiet (atan F x) := by
  unfold Eirin.atan
  refine bind (fromFixed F _ _ _) fun _ => bind (intMul F _ _ _) fun _ => bind (fromFixed F _ _ _) fun _ => bind (fromFixed F _ _ _) fun _ =>
    bind (abs F _) fun _ => bind (mul F _ _) fun _ => bind (mul F _ _) fun _ => bind (add F _ _) fun _ => bind (mul F _ _) fun _ =>
    bind (sub F _ _) fun _ => bind (mul F _ _) fun _ => bind (mul F _ _) fun _ => bind (add F _ _) fun _ => ite (neg F _) (pure _)
end Quiet

end Eirin
