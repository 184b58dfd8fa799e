import Verif.Props.Random

/-! # C64: the distribution adapters -/

namespace Eirin.Props
open Spec

/-- What a standard integer distribution guarantees: constructed from `a ≤ b` it holds the range `[a, b]`, every draw lies in it, and
drawing does not change it. -/
structure Contract {γ : Type} (D : Dist γ) where
  range : D.δ → Int × Int
  make_ok : ∀ a b, a ≤ b → ∃ d, D.make a b = .ok d ∧ range d = (a, b)
  draw_ok : ∀ d g v d' g', D.draw d g = .ok (v, d', g') → (range d).1 ≤ v ∧ v ≤ (range d).2 ∧ range d' = range d

/-- An operation on a distribution adapter. -/
inductive DistOp where
  | setParam (p : Int × Int)
  | draw
  | drawWith (p : Int × Int)
  | reset

/-- The parameter set an operation refers to is valid: bounds of the type, in order. -/
def DistOp.Ok (F : FxTy) : DistOp → Prop
  | .setParam p => Storable F p.1 ∧ Storable F p.2 ∧ p.1 ≤ p.2
  | .draw => True
  | .drawWith p => Storable F p.1 ∧ Storable F p.2 ∧ p.1 ≤ p.2
  | .reset => True

/-- Run a list of operations, collecting the numbers drawn. -/
def runOps (F : FxTy) {γ : Type} (D : Dist γ) : List DistOp → DistAdapter D → γ → Res (List Int × DistAdapter D × γ)
  | [], s, g => .ok ([], s, g)
  | .setParam p :: ops, s, g => do
    let s' ← s.setParam D p
    runOps F D ops s' g
  | .draw :: ops, s, g => do
    let (x, s', g') ← s.draw F D g
    let (xs, r) ← runOps F D ops s' g'
    pure (x :: xs, r)
  | .drawWith p :: ops, s, g => do
    let (x, s', g') ← s.drawWith F D g p
    let (xs, r) ← runOps F D ops s' g'
    pure (x :: xs, r)
  | .reset :: ops, s, g => runOps F D ops (s.reset D) g

/-- The parameters last set. -/
def lastSet : Int × Int → List DistOp → Int × Int
  | p, [] => p
  | _, .setParam q :: ops => lastSet q ops
  | p, _ :: ops => lastSet p ops

/-- For every draw, the parameters in force (last set) at that time. -/
def inForce : Int × Int → List DistOp → List (Int × Int)
  | _, [] => []
  | _, .setParam q :: ops => inForce q ops
  | p, .draw :: ops => p :: inForce p ops
  | p, .drawWith _ :: ops => p :: inForce p ops
  | p, .reset :: ops => inForce p ops

/-- For every draw, the range it should come from: the parameters given with the call, or else those in force. -/
def wanted : Int × Int → List DistOp → List (Int × Int)
  | _, [] => []
  | _, .setParam q :: ops => wanted q ops
  | p, .draw :: ops => p :: wanted p ops
  | p, .drawWith q :: ops => q :: wanted p ops
  | p, .reset :: ops => wanted p ops

/-- C64 as stated: every draw lies in the range it should come from, and `param()` reports the parameters last set. -/
def C64_statement : Prop :=
  ∀ (γ : Type) (D : Dist γ) (_ : Contract D) (_ : D.res = fixed32.T) (p0 : Int × Int) (ops : List DistOp) (s s' : DistAdapter D)
    (g g' : γ) (xs : List Int), (DistOp.setParam p0).Ok fixed32 → (∀ o ∈ ops, o.Ok fixed32) → DistAdapter.make D p0 = .ok s →
    runOps fixed32 D ops s g = .ok (xs, s', g') →
    List.Forall₂ (fun x p => p.1 ≤ x ∧ x ≤ p.2) xs (wanted p0 ops) ∧ s'.param D = lastSet p0 ops

/-- A distribution that always returns its lower bound. -/
def constDist : Dist Unit where
  δ := { d : Int × Int // d.1 ≤ d.2 }
  res := fixed32.T
  make := fun a b => if h : a ≤ b then .ok ⟨(a, b), h⟩ else .ub .precondition
  draw := fun d g => .ok (d.1.1, d, g)

/-- It meets the contract. -/
def constContract : Contract constDist where
  range := fun d => d.1
  make_ok := by
    intro a b h
    exact ⟨⟨(a, b), h⟩, by simp [constDist, h], rfl⟩
  draw_ok := by
    intro d g v d' g' h
    simp only [constDist, Res.ok.injEq, Prod.mk.injEq] at h
    obtain ⟨rfl, rfl, rfl⟩ := h
    exact ⟨le_refl _, d.2, rfl⟩

/-- C64 is false of the code: `operator()(g, p)` ignores `p`. -/
theorem C64_false : ¬ C64_statement := by
  intro h
  have := h Unit constDist constContract rfl (0, 5) [.drawWith (7, 9)] ⟨⟨(0, 5), by decide⟩, 0, 5⟩ ⟨⟨(0, 5), by decide⟩, 0, 5⟩ () ()
    [0] (by unfold DistOp.Ok; decide +kernel)
    (by
      intro o ho
      rw [List.mem_singleton.1 ho]; unfold DistOp.Ok; decide +kernel)
    (by rfl) (by rfl)
  have h1 := this.1
  simp [wanted] at h1

section
variable {F : FxTy} (hF : F.Valid) {γ : Type} {D : Dist γ} (C : Contract D) (hres : ∀ x, F.T.InRange x → D.res.wrap x = x)
include hF hres

/-- The invariant of the adapter: the distribution holds exactly the range reported by `param()`. -/
def Inv (F : FxTy) {γ : Type} {D : Dist γ} (C : Contract D) (s : DistAdapter D) : Prop :=
  C.range s.dist = (s.a, s.b) ∧ Storable F s.a ∧ Storable F s.b ∧ s.a ≤ s.b

omit hF in
theorem make_inv {p : Int × Int} (hp : (DistOp.setParam p).Ok F) :
    ∃ s, DistAdapter.make D p = .ok s ∧ Inv F C s ∧ s.param D = p := by
  obtain ⟨h1, h2, h3⟩ := hp
  obtain ⟨d, e, hr⟩ := C.make_ok p.1 p.2 h3
  refine ⟨⟨d, p.1, p.2⟩, ?_, ⟨hr, h1, h2, h3⟩, rfl⟩
  unfold DistAdapter.make
  rw [hres _ h1, hres _ h2, e]; rfl

omit hF in
theorem setParam_inv (s : DistAdapter D) {p : Int × Int} (hp : (DistOp.setParam p).Ok F) :
    ∃ s', s.setParam D p = .ok s' ∧ Inv F C s' ∧ s'.param D = p := by
  obtain ⟨h1, h2, h3⟩ := hp
  obtain ⟨d, e, hr⟩ := C.make_ok p.1 p.2 h3
  refine ⟨⟨d, p.1, p.2⟩, ?_, ⟨hr, h1, h2, h3⟩, rfl⟩
  unfold DistAdapter.setParam
  rw [hres _ h1, hres _ h2, e]; rfl

omit hres in
theorem drawWith_inv {s s' : DistAdapter D} (hs : Inv F C s) {g g' : γ} {p : Int × Int} {x : Int}
    (h : s.drawWith F D g p = .ok (x, s', g')) : s.a ≤ x ∧ x ≤ s.b ∧ Inv F C s' ∧ s'.param D = s.param D := by
  unfold DistAdapter.drawWith at h
  cases hd : D.draw s.dist g with
  | ok r =>
    obtain ⟨v, d, g1⟩ := r
    rw [hd, Res.bind_ok] at h
    simp only [] at h
    rw [from_same hF, Res.bind_ok] at h
    simp only [Res.pure_eq, Res.ok.injEq, Prod.mk.injEq] at h
    obtain ⟨rfl, rfl, rfl⟩ := h
    obtain ⟨c1, c2, c3⟩ := C.draw_ok _ _ _ _ _ hd
    obtain ⟨i1, i2, i3, i4⟩ := hs
    rw [i1] at c1 c2 c3
    have hv : F.T.InRange v := ⟨le_trans i2.1 c1, le_trans c2 i3.2⟩
    rw [IntTy.wrap_of_inRange hF.tpos hv]
    exact ⟨c1, c2, ⟨c3, i2, i3, i4⟩, rfl⟩
  | ub _ => rw [hd] at h; cases h
  | throw _ => rw [hd] at h; cases h

theorem run_inv : ∀ (ops : List DistOp) (s s' : DistAdapter D) (g g' : γ) (xs : List Int), Inv F C s → (∀ o ∈ ops, o.Ok F) →
    runOps F D ops s g = .ok (xs, s', g') →
    List.Forall₂ (fun x p => p.1 ≤ x ∧ x ≤ p.2) xs (inForce (s.param D) ops) ∧ s'.param D = lastSet (s.param D) ops ∧ Inv F C s' := by
  intro ops
  induction ops with
  | nil =>
    intro s s' g g' xs hi _ h
    simp only [runOps, Res.ok.injEq, Prod.mk.injEq] at h
    obtain ⟨rfl, rfl, rfl⟩ := h
    exact ⟨List.Forall₂.nil, rfl, hi⟩
  | cons o ops ih =>
    intro s s' g g' xs hi hok h
    have hok' : ∀ o ∈ ops, o.Ok F := fun o ho => hok o (by simp [ho])
    have hdraw : ∀ (p : Int × Int), (do
        let (x, s', g') ← s.drawWith F D g p
        let (xs, r) ← runOps F D ops s' g'
        pure (x :: xs, r) : Res (List Int × DistAdapter D × γ)) = .ok (xs, s', g') →
        List.Forall₂ (fun x p => p.1 ≤ x ∧ x ≤ p.2) xs (s.param D :: inForce (s.param D) ops) ∧
          s'.param D = lastSet (s.param D) ops ∧ Inv F C s' := by
      intro p h
      cases hd : s.drawWith F D g p with
      | ok r =>
        obtain ⟨x, s1, g1⟩ := r
        rw [hd, Res.bind_ok] at h
        simp only [] at h
        obtain ⟨c1, c2, c3, c4⟩ := drawWith_inv hF C hi hd
        cases hr : runOps F D ops s1 g1 with
        | ok r =>
          obtain ⟨ys, s2, g2⟩ := r
          rw [hr, Res.bind_ok] at h
          simp only [Res.pure_eq, Res.ok.injEq, Prod.mk.injEq] at h
          obtain ⟨rfl, rfl, rfl⟩ := h
          obtain ⟨a1, a2, a3⟩ := ih s1 s2 g1 g2 ys c3 hok' hr
          rw [c4] at a1 a2
          exact ⟨List.Forall₂.cons ⟨c1, c2⟩ a1, a2, a3⟩
        | ub _ => rw [hr] at h; cases h
        | throw _ => rw [hr] at h; cases h
      | ub _ => rw [hd] at h; cases h
      | throw _ => rw [hd] at h; cases h
    cases o with
    | setParam p =>
      obtain ⟨s1, e1, i1, p1⟩ := setParam_inv C hres s (hok (.setParam p) (by simp))
      simp only [runOps, e1, Res.bind_ok] at h
      have := ih s1 s' g g' xs i1 hok' h
      rw [p1] at this
      exact this
    | draw => exact hdraw (s.a, s.b) h
    | drawWith p => exact hdraw p h
    | reset => exact ih s s' g g' xs hi hok' h

end

/-- C64 with every draw taken from the parameters in force (last set by the constructor or `param(p)`): for every history of operations,
every generator and every underlying distribution honouring its contract, provided the distribution's integer type can hold the raw
bounds.  Full statement: `C64_statement`; missing is that `operator()(g, p)` should use `p`. -/
theorem C64_history_partial (F : FxTy) (hF : F.Valid) {γ : Type} (D : Dist γ) (C : Contract D) (hres : ∀ x, Storable F x → D.res.wrap x = x)
    (p0 : Int × Int) (h0 : (DistOp.setParam p0).Ok F) (ops : List DistOp) (hops : ∀ o ∈ ops, o.Ok F) :
    ∃ s, DistAdapter.make D p0 = .ok s ∧ ∀ (g g' : γ) (s' : DistAdapter D) (xs : List Int), runOps F D ops s g = .ok (xs, s', g') →
      List.Forall₂ (fun x p => p.1 ≤ x ∧ x ≤ p.2) xs (inForce p0 ops) ∧
      s'.param D = lastSet p0 ops ∧ s'.min D = (lastSet p0 ops).1 ∧ s'.max D = (lastSet p0 ops).2 := by
  obtain ⟨s, e, hi, hp⟩ := make_inv C hres h0
  refine ⟨s, e, ?_⟩
  intro g g' s' xs hr
  obtain ⟨a1, a2, a3⟩ := run_inv hF C hres ops s s' g g' xs hi hops hr
  rw [hp] at a1 a2
  refine ⟨a1, a2, ?_, ?_⟩
  · rw [← a2]; rfl
  · rw [← a2]; rfl

example : (∀ x, Storable fixed32 x → constDist.res.wrap x = x) ∧
    ∃ s s', DistAdapter.make constDist (-65536, 65536) = .ok s ∧
      runOps fixed32 constDist [.draw, .setParam (3, 4), .reset, .draw, .drawWith (7, 9)] s () = .ok ([-65536, 3, 3], s', ()) := by
  refine ⟨fun x hx => IntTy.wrap_of_inRange (by decide) hx, ⟨⟨(-65536, 65536), by decide⟩, -65536, 65536⟩,
    ⟨⟨(3, 4), by decide⟩, 3, 4⟩, by rfl, by rfl⟩

/-- C64: the default bounds of `fixed64` do not survive in a distribution over `int`, as in
`fixed_int_distribution_adapter<fixed64, std::uniform_int_distribution<>>`: the range becomes `[0, -1]`. -/
theorem C64_narrowing : i32.wrap (limMin fixed64) = 0 ∧ i32.wrap (limMax fixed64) = -1 := by decide +kernel

/-! ## C91: parameter sets and constructors -/

/-- C91: two parameter sets compare equal exactly when they describe the same interval of numbers; `!=` is the negation. -/
theorem C91_equal (F : FxTy) (p q : Int × Int) :
    (paramEq p q = true ↔ val F p.1 = val F q.1 ∧ val F p.2 = val F q.2) ∧ (paramNe p q = true ↔ ¬ paramEq p q = true) := by
  constructor
  · unfold paramEq
    simp only [Bool.and_eq_true, decide_eq_true_eq]
    exact ⟨fun h => ⟨by rw [h.1], by rw [h.2]⟩, fun h => ⟨val_inj h.1, val_inj h.2⟩⟩
  · unfold paramNe; cases paramEq p q <;> simp

/-- C91: a parameter set can be built exactly from bounds in order, and reports them. -/
theorem C91_param (F : FxTy) (a b : Int) : mkParam a b = (if val F a ≤ val F b then .ok (a, b) else .ub .precondition) := by
  unfold mkParam
  by_cases h : a ≤ b
  · rw [if_pos h, if_pos (val_le.2 h)]
  · rw [if_neg h, if_neg (fun hc => h (val_le.1 hc))]

/-- C91: the constructor from bounds and the constructor from a parameter set build the same adapter, for every underlying distribution:
both work for bounds in order, and out-of-order bounds are never accepted. -/
theorem C91_constructors (F : FxTy) {γ : Type} (D : Dist γ) (C : Contract D) (hres : ∀ x, Storable F x → D.res.wrap x = x) (a b : Int)
    (ha : Storable F a) (hb : Storable F b) :
    (a ≤ b → ∃ s, DistAdapter.makeAB D a b = .ok s ∧ (mkParam a b >>= DistAdapter.make D) = .ok s ∧ s.param D = (a, b) ∧
      C.range s.dist = (a, b)) ∧
    (b < a → ¬ (DistAdapter.makeAB D a b).IsOk ∧ ¬ (mkParam a b >>= DistAdapter.make D).IsOk) := by
  constructor
  · intro h
    obtain ⟨d, e, hr⟩ := C.make_ok a b h
    refine ⟨⟨d, a, b⟩, ?_, ?_, rfl, hr⟩
    · unfold DistAdapter.makeAB mkParam
      rw [hres a ha, hres b hb, e, if_pos h]; rfl
    · unfold mkParam DistAdapter.make
      rw [if_pos h, Res.bind_ok]
      simp only [hres a ha, hres b hb, e]; rfl
  · intro h
    have hn : ¬ a ≤ b := by omega
    constructor
    · unfold DistAdapter.makeAB mkParam
      rw [if_neg hn]
      cases D.make (D.res.wrap a) (D.res.wrap b) <;> simp
    · unfold mkParam
      rw [if_neg hn]; simp

/-- C91: the default-constructed adapter covers the whole type: `min()` and `max()` are the limits and every number lies between them. -/
theorem C91_default (F : FxTy) (hF : F.Valid) {γ : Type} (D : Dist γ) (C : Contract D) (hres : ∀ x, Storable F x → D.res.wrap x = x) :
    ∃ s, DistAdapter.makeDefault F D = .ok s ∧ mkParamDefault F = .ok (s.param D) ∧ C.range s.dist = (s.min D, s.max D) ∧
      Storable F (s.min D) ∧ Storable F (s.max D) ∧ ∀ x, Storable F x → s.min D ≤ x ∧ x ≤ s.max D := by
  have h := IntTy.lo_le_hi F.T hF.tpos
  have e1 : limMin F = F.T.lo := IntTy.wrap_of_inRange hF.tpos ⟨le_rfl, h⟩
  have e2 : limMax F = F.T.hi := IntTy.wrap_of_inRange hF.tpos ⟨h, le_rfl⟩
  have hlo : Storable F (limMin F) := by rw [e1]; exact ⟨le_rfl, h⟩
  have hhi : Storable F (limMax F) := by rw [e2]; exact ⟨h, le_rfl⟩
  have h' : limMin F ≤ limMax F := by rw [e1, e2]; exact h
  obtain ⟨s, e, _, hp, hr⟩ := (C91_constructors F D C hres _ _ hlo hhi).1 h'
  have h1 : s.min D = limMin F := congrArg Prod.fst hp
  have h2 : s.max D = limMax F := congrArg Prod.snd hp
  refine ⟨s, e, ?_, ?_, ?_, ?_, ?_⟩
  · rw [hp]; unfold mkParamDefault mkParam; rw [if_pos h']
  · rw [h1, h2]; exact hr
  · rw [h1]; exact hlo
  · rw [h2]; exact hhi
  · intro x hx; rw [h1, h2, e1, e2]; exact hx

/-- C91: `to_underlying` gives the parameters with which the wrapped distribution was built; reading the parameters of one adapter and
setting them on another makes the two agree. -/
theorem C91_transfer (F : FxTy) {γ : Type} (D : Dist γ) (C : Contract D) (hres : ∀ x, Storable F x → D.res.wrap x = x) (p : Int × Int)
    (hp : (DistOp.setParam p).Ok F) (t : DistAdapter D) :
    ∃ s t', DistAdapter.make D p = .ok s ∧ paramToUnderlying D (s.param D) = .ok (C.range s.dist) ∧
      t.setParam D (s.param D) = .ok t' ∧ t'.param D = s.param D ∧ C.range t'.dist = C.range s.dist ∧ paramEq (t'.param D) (s.param D) = true := by
  obtain ⟨h1, h2, h3⟩ := hp
  obtain ⟨d, e, hr⟩ := C.make_ok p.1 p.2 h3
  refine ⟨⟨d, p.1, p.2⟩, ⟨d, p.1, p.2⟩, ?_, ?_, ?_, rfl, rfl, ?_⟩
  · unfold DistAdapter.make
    rw [hres _ h1, hres _ h2, e]; rfl
  · unfold paramToUnderlying DistAdapter.param mkParam
    rw [hres _ h1, hres _ h2, if_pos h3, hr]
  · unfold DistAdapter.setParam DistAdapter.param
    rw [hres _ h1, hres _ h2, e]; rfl
  · simp [paramEq, DistAdapter.param]

example : (DistOp.setParam (-65536, 3 * 65536)).Ok fixed32 ∧ (∀ x, Storable fixed32 x → constDist.res.wrap x = x) ∧
    (DistAdapter.makeDefault fixed32 constDist).IsOk ∧ ¬ (DistAdapter.makeAB constDist 5 4).IsOk := by
  refine ⟨by unfold DistOp.Ok; decide +kernel, fun x hx => IntTy.wrap_of_inRange (by decide) hx, ?_, ?_⟩
  · decide +kernel
  · decide +kernel

end Eirin.Props
