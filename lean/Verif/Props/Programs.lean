import Verif.Props.Arith

/-! # C131: forward error of arbitrary arithmetic expressions

The earlier properties are about single operators.  Here the program is an arbitrary expression over `+ - * /` and negation. -/

namespace Eirin.Props
open Spec

/-- Spec: an arithmetic expression over stored numbers. -/
inductive Expr where
  | num (x : Int)
  | neg (a : Expr)
  | add (a b : Expr)
  | sub (a b : Expr)
  | mul (a b : Expr)
  | div (a b : Expr)

/-- The expression evaluated with the operators of the library. -/
def Expr.run (F : FxTy) : Expr → Res Int
  | .num x => .ok x
  | .neg a => do let x ← a.run F; Eirin.neg F x
  | .add a b => do let x ← a.run F; let y ← b.run F; Eirin.add F x y
  | .sub a b => do let x ← a.run F; let y ← b.run F; Eirin.sub F x y
  | .mul a b => do let x ← a.run F; let y ← b.run F; Eirin.mul F x y
  | .div a b => do let x ← a.run F; let y ← b.run F; Eirin.div F x y

/-- Spec: the number the expression stands for. -/
def Expr.exact (F : FxTy) : Expr → ℚ
  | .num x => val F x
  | .neg a => -a.exact F
  | .add a b => a.exact F + b.exact F
  | .sub a b => a.exact F - b.exact F
  | .mul a b => a.exact F * b.exact F
  | .div a b => a.exact F / b.exact F

/-- Spec: the forward error bound: sums and differences add no error, a product or a quotient adds one ulp to the propagated errors. -/
def Expr.err (F : FxTy) : Expr → ℚ
  | .num _ => 0
  | .neg a => a.err F
  | .add a b => a.err F + b.err F
  | .sub a b => a.err F + b.err F
  | .mul a b => |a.exact F| * b.err F + |b.exact F| * a.err F + a.err F * b.err F + ulp F
  | .div a b => (a.err F + |a.exact F / b.exact F| * b.err F) / (|b.exact F| - b.err F) + ulp F

/-- Spec: a number with an error bound lies within the range of the type. -/
def Within (F : FxTy) (v e : ℚ) : Prop := val F F.T.lo ≤ v - e ∧ v + e ≤ val F F.T.hi

/-- Spec: the numbers are storable, every subexpression lies within the range, and no divisor can be zero. -/
def Expr.Fits (F : FxTy) : Expr → Prop
  | .num x => Storable F x
  | .neg a => a.Fits F ∧ Within F (-a.exact F) (a.err F)
  | .add a b => a.Fits F ∧ b.Fits F ∧ Within F (a.exact F + b.exact F) (a.err F + b.err F)
  | .sub a b => a.Fits F ∧ b.Fits F ∧ Within F (a.exact F - b.exact F) (a.err F + b.err F)
  | .mul a b => a.Fits F ∧ b.Fits F ∧ Within F ((Expr.mul a b).exact F) ((Expr.mul a b).err F)
  | .div a b => a.Fits F ∧ b.Fits F ∧ b.err F < |b.exact F| ∧ Within F ((Expr.div a b).exact F) ((Expr.div a b).err F)

theorem within_storable {F : FxTy} {z : Int} {v e : ℚ} (h : Within F v e) (hz : |val F z - v| ≤ e) : Storable F z := by
  obtain ⟨h1, h2⟩ := h
  rw [abs_le] at hz
  exact ⟨(val_le (F := F)).1 (by linarith), (val_le (F := F)).1 (by linarith)⟩

/-- A product of approximations. -/
theorem prog_mul {F : FxTy} (hF : F.Valid) (hr : F.r = false) {x y : Int} {A B a b : ℚ} (hx : Storable F x) (hy : Storable F y)
    (ex : |val F x - A| ≤ a) (ey : |val F y - B| ≤ b) (hw : Within F (A * B) (|A| * b + |B| * a + a * b + ulp F)) :
    ∃ z, mul F x y = .ok z ∧ Storable F z ∧ |val F z - A * B| ≤ |A| * b + |B| * a + a * b + ulp F := by
  obtain ⟨z, n, h1, ⟨h2, h3⟩, -, h4⟩ := C02_mul_floor F hF hr x y hx hy
  have hu := ulp_pos F
  have key : |val F n - A * B| ≤ |A| * b + |B| * a + a * b + ulp F := by
    have e : val F x * val F y - A * B = A * (val F y - B) + B * (val F x - A) + (val F x - A) * (val F y - B) := by ring
    have t1 : |A * (val F y - B)| ≤ |A| * b := by rw [abs_mul]; exact mul_le_mul_of_nonneg_left ey (abs_nonneg A)
    have t2 : |B * (val F x - A)| ≤ |B| * a := by rw [abs_mul]; exact mul_le_mul_of_nonneg_left ex (abs_nonneg B)
    have t3 : |(val F x - A) * (val F y - B)| ≤ a * b := by
      rw [abs_mul]; exact mul_le_mul ex ey (abs_nonneg _) (le_trans (abs_nonneg _) ex)
    have t4 : |val F x * val F y - A * B| ≤ |A| * b + |B| * a + a * b := by
      rw [e]
      have s1 := abs_add_le (A * (val F y - B) + B * (val F x - A)) ((val F x - A) * (val F y - B))
      have s2 := abs_add_le (A * (val F y - B)) (B * (val F x - A))
      linarith
    rw [abs_le] at t4 ⊢
    constructor <;> linarith [t4.1, t4.2]
  have hn := within_storable hw key
  rw [h4 hn] at h1
  exact ⟨n, h1, hn, key⟩

/-- A quotient of approximations. -/
theorem prog_div {F : FxTy} (hF : F.Valid) (hr : F.r = false) {x y : Int} {A B a b : ℚ} (hx : Storable F x)
    (ex : |val F x - A| ≤ a) (ey : |val F y - B| ≤ b) (hB : b < |B|) (hw : Within F (A / B) ((a + |A / B| * b) / (|B| - b) + ulp F)) :
    ∃ z, div F x y = .ok z ∧ Storable F z ∧ |val F z - A / B| ≤ (a + |A / B| * b) / (|B| - b) + ulp F := by
  have hu := ulp_pos F
  have hd : 0 < |B| - b := by linarith
  have hyB : |B| - b ≤ |val F y| := by
    have := abs_sub_abs_le_abs_sub B (val F y)
    rw [abs_sub_comm] at this
    linarith
  have vy : val F y ≠ 0 := by
    intro h; rw [h, abs_zero] at hyB; linarith
  have y0 : y ≠ 0 := by rintro rfl; exact vy (val_zero F)
  have hB0 : B ≠ 0 := by rintro rfl; rw [abs_zero] at hB; linarith [abs_nonneg (val F y - 0)]
  obtain ⟨z, n, h1, ⟨h2, h3⟩, -, h4⟩ := (C03_div_trunc F hF hr x y hx).2 y0
  have key : |val F n - A / B| ≤ (a + |A / B| * b) / (|B| - b) + ulp F := by
    have e : val F x / val F y - A / B = ((val F x - A) - A / B * (val F y - B)) / val F y := by field_simp; ring
    have t1 : |(val F x - A) - A / B * (val F y - B)| ≤ a + |A / B| * b := by
      have s1 := abs_sub (val F x - A) (A / B * (val F y - B))
      have s2 : |A / B * (val F y - B)| ≤ |A / B| * b := by rw [abs_mul]; exact mul_le_mul_of_nonneg_left ey (abs_nonneg _)
      linarith
    have t2 : |val F x / val F y - A / B| ≤ (a + |A / B| * b) / (|B| - b) := by
      rw [e, abs_div]
      exact div_le_div₀ (le_trans (abs_nonneg _) t1) t1 hd hyB
    have t3 : |val F n - val F x / val F y| ≤ ulp F := by
      rcases le_or_gt 0 (val F x / val F y) with hq | hq
      · obtain ⟨q1, q2, q3⟩ := h2 hq
        rw [abs_le]; constructor <;> linarith
      · obtain ⟨q1, q2, q3⟩ := h3 hq
        rw [abs_le]; constructor <;> linarith
    have := abs_sub_le (val F n) (val F x / val F y) (A / B)
    linarith
  have hn := within_storable hw key
  rw [h4 hn] at h1
  exact ⟨n, h1, hn, key⟩

/-- C131: whatever the expression and whatever the non-rounding type (also unsigned or narrow): if every subexpression with its error bound lies within the range
and no divisor can be zero, the program computes a number within the error bound of the exact value. -/
theorem C131_forward_error (F : FxTy) (hF : F.Valid) (hr : F.r = false) (p : Expr) (hp : p.Fits F) :
    ∃ z, p.run F = .ok z ∧ Storable F z ∧ |val F z - p.exact F| ≤ p.err F := by
  induction p with
  | num x => exact ⟨x, rfl, hp, by simp [Expr.exact, Expr.err]⟩
  | neg a iha =>
    obtain ⟨x, hx, xS, xe⟩ := iha hp.1
    have key : |val F (-x) - -a.exact F| ≤ a.err F := by
      rw [val_neg, show -val F x - -a.exact F = -(val F x - a.exact F) by ring, abs_neg]; exact xe
    have hz := within_storable hp.2 key
    refine ⟨-x, ?_, hz, key⟩
    rw [Expr.run, hx, Res.bind_ok, neg_nf hF xS, if_neg (fun h => h.2 hz), IntTy.wrap_of_inRange hF.tpos hz]
  | add a b iha ihb =>
    obtain ⟨x, hx, xS, xe⟩ := iha hp.1
    obtain ⟨y, hy, yS, ye⟩ := ihb hp.2.1
    have key : |val F (x + y) - (a.exact F + b.exact F)| ≤ a.err F + b.err F := by
      rw [val_add, show val F x + val F y - (a.exact F + b.exact F) = (val F x - a.exact F) + (val F y - b.exact F) by ring]
      exact le_trans (abs_add_le _ _) (add_le_add xe ye)
    have hz := within_storable hp.2.2 key
    refine ⟨x + y, ?_, hz, key⟩
    rw [Expr.run, hx, Res.bind_ok, hy, Res.bind_ok, add_nf hF xS yS, if_neg (fun h => h.2 hz), IntTy.wrap_of_inRange hF.tpos hz]
  | sub a b iha ihb =>
    obtain ⟨x, hx, xS, xe⟩ := iha hp.1
    obtain ⟨y, hy, yS, ye⟩ := ihb hp.2.1
    have key : |val F (x - y) - (a.exact F - b.exact F)| ≤ a.err F + b.err F := by
      rw [val_sub, show val F x - val F y - (a.exact F - b.exact F) = (val F x - a.exact F) - (val F y - b.exact F) by ring]
      exact le_trans (abs_sub _ _) (add_le_add xe ye)
    have hz := within_storable hp.2.2 key
    refine ⟨x - y, ?_, hz, key⟩
    rw [Expr.run, hx, Res.bind_ok, hy, Res.bind_ok, sub_nf hF xS yS, if_neg (fun h => h.2 hz), IntTy.wrap_of_inRange hF.tpos hz]
  | mul a b iha ihb =>
    obtain ⟨x, hx, xS, xe⟩ := iha hp.1
    obtain ⟨y, hy, yS, ye⟩ := ihb hp.2.1
    obtain ⟨z, ez, zS, ze⟩ := prog_mul hF hr xS yS xe ye hp.2.2
    exact ⟨z, by rw [Expr.run, hx, Res.bind_ok, hy, Res.bind_ok, ez], zS, ze⟩
  | div a b iha ihb =>
    obtain ⟨x, hx, xS, xe⟩ := iha hp.1
    obtain ⟨y, hy, yS, ye⟩ := ihb hp.2.1
    obtain ⟨z, ez, zS, ze⟩ := prog_div hF hr xS xe ye hp.2.2.1 hp.2.2.2
    exact ⟨z, by rw [Expr.run, hx, Res.bind_ok, hy, Res.bind_ok, ez], zS, ze⟩

/-- C131: summing a list from the left is exact as long as every partial sum can be represented. -/
theorem C131_sum (F : FxTy) (hF : F.Valid) (l : List Int) (hl : ∀ x ∈ l, Storable F x) : ∀ (s : Int), Storable F s →
    (∀ k ≤ l.length, Representable F (val F s + ((l.take k).map (val F)).sum)) →
    ∃ z, l.foldlM (fun a x => add F a x) s = .ok z ∧ Storable F z ∧ val F z = val F s + (l.map (val F)).sum := by
  induction l with
  | nil => intro s hs _; exact ⟨s, rfl, hs, by simp⟩
  | cons x l ih =>
    intro s hs hk
    have h1 := hk 1 (by simp)
    simp only [List.take_succ_cons, List.take_zero, List.map_cons, List.map_nil, List.sum_cons, List.sum_nil, add_zero] at h1
    rw [← val_add] at h1
    have hz : F.T.InRange (s + x) := representable_iff.1 h1
    obtain ⟨z, e, zS, ze⟩ := ih (fun y hy => hl y (List.mem_cons_of_mem _ hy)) (s + x) hz (by
      intro k hk'
      have := hk (k + 1) (by simpa using hk')
      simp only [List.take_succ_cons, List.map_cons, List.sum_cons] at this
      rw [val_add, add_assoc]; exact this)
    refine ⟨z, ?_, zS, ?_⟩
    · rw [List.foldlM_cons, add_nf hF hs (hl x List.mem_cons_self), if_neg (fun h => h.2 hz), IntTy.wrap_of_inRange hF.tpos hz]
      exact e
    · rw [ze, val_add, List.map_cons, List.sum_cons]; ring

/-- Horner's rule for the polynomial with the coefficients `cs` (constant term first), as an expression. -/
def hornerExpr (x : Int) : List Int → Expr
  | [] => .num 0
  | c :: cs => .add (.num c) (.mul (.num x) (hornerExpr x cs))

/-- Spec: the value of the polynomial. -/
def polyVal (F : FxTy) (x : Int) : List Int → ℚ
  | [] => 0
  | c :: cs => val F c + val F x * polyVal F x cs

/-- C131: Horner's rule on `[-1, 1]`: the error is at most one ulp per coefficient, whatever the polynomial. -/
theorem C131_horner (F : FxTy) (hF : F.Valid) (hr : F.r = false) (hs : F.T.signed = true) (x : Int) (hx : Storable F x) (h1 : |val F x| ≤ 1) :
    ∀ cs : List Int, (∀ c ∈ cs, Storable F c) → (cs.map fun c => |val F c|).sum + cs.length * ulp F ≤ val F F.T.hi →
    ∃ z, (hornerExpr x cs).run F = .ok z ∧ Storable F z ∧ |val F z - polyVal F x cs| ≤ cs.length * ulp F ∧
      |val F z| ≤ (cs.map fun c => |val F c|).sum + cs.length * ulp F := by
  have hu := ulp_pos F
  have hlo : val F F.T.lo ≤ - val F F.T.hi := by
    rw [← val_neg, val_le]
    unfold IntTy.lo IntTy.hi
    rw [hs]; simp only [if_true]; omega
  have st : ∀ {z : Int}, |val F z| ≤ val F F.T.hi → Storable F z := by
    intro z hz
    rw [abs_le] at hz
    exact ⟨(val_le (F := F)).1 (by linarith), (val_le (F := F)).1 (by linarith)⟩
  intro cs
  induction cs with
  | nil =>
    intro _ h
    have h0 : |val F 0| ≤ val F F.T.hi := by rw [val_zero]; simpa using h
    exact ⟨0, rfl, st h0, by simp [polyVal, val_zero], by simp [val_zero]⟩
  | cons c cs ih =>
    intro hc hsum
    simp only [List.map_cons, List.sum_cons, List.length_cons] at hsum ⊢
    push_cast at hsum ⊢
    have ca := abs_nonneg (val F c)
    obtain ⟨y, ey, yS, y1, y2⟩ := ih (fun d hd => hc d (List.mem_cons_of_mem _ hd)) (by linarith)
    obtain ⟨z, n, e1, ⟨f1, f2⟩, -, e4⟩ := C02_mul_floor F hF hr x y hx yS
    have hxy : |val F x * val F y| ≤ |val F y| := by
      rw [abs_mul]; exact mul_le_of_le_one_left (abs_nonneg _) h1
    have hfl : |val F n - val F x * val F y| ≤ ulp F := by rw [abs_le]; constructor <;> linarith
    have hn : |val F n| ≤ (cs.map fun c => |val F c|).sum + cs.length * ulp F + ulp F := by
      have := abs_sub_abs_le_abs_sub (val F n) (val F x * val F y)
      linarith
    have hnS : Storable F n := st (by linarith)
    rw [e4 hnS] at e1
    have hz : |val F (c + n)| ≤ |val F c| + (cs.map fun c => |val F c|).sum + (cs.length + 1) * ulp F := by
      rw [val_add]
      have := abs_add_le (val F c) (val F n)
      linarith
    have hzS : F.T.InRange (c + n) := st (by linarith)
    refine ⟨c + n, ?_, hzS, ?_, hz⟩
    · rw [hornerExpr, Expr.run, Expr.run, Res.bind_ok, Expr.run, Expr.run, Res.bind_ok, ey, Res.bind_ok, e1, Res.bind_ok,
        add_nf hF (hc c List.mem_cons_self) hnS, if_neg (fun h => h.2 hzS), IntTy.wrap_of_inRange hF.tpos hzS]
    · rw [polyVal, val_add]
      have t : |val F x * (val F y - polyVal F x cs)| ≤ cs.length * ulp F := by
        rw [abs_mul]
        exact le_trans (mul_le_of_le_one_left (abs_nonneg _) h1) y1
      have e : val F c + val F n - (val F c + val F x * polyVal F x cs) =
          (val F n - val F x * val F y) + val F x * (val F y - polyVal F x cs) := by ring
      rw [e]
      have := abs_add_le (val F n - val F x * val F y) (val F x * (val F y - polyVal F x cs))
      linarith

/-- An inner product as an expression. -/
def dotExpr : List (Int × Int) → Expr
  | [] => .num 0
  | p :: l => .add (.mul (.num p.1) (.num p.2)) (dotExpr l)

/-- C131: an inner product errs by at most one ulp per term, on signed types whenever the sum of the sizes of the terms (with their errors) fits. -/
theorem C131_dot (F : FxTy) (hF : F.Valid) (hr : F.r = false) (hs : F.T.signed = true) (l : List (Int × Int))
    (hl : ∀ p ∈ l, Storable F p.1 ∧ Storable F p.2)
    (hsum : (l.map fun p => |val F p.1 * val F p.2|).sum + l.length * ulp F ≤ val F F.T.hi) :
    ∃ z, (dotExpr l).run F = .ok z ∧ Storable F z ∧ |val F z - (l.map fun p => val F p.1 * val F p.2).sum| ≤ l.length * ulp F := by
  have hu := ulp_pos F
  have hlo : val F F.T.lo ≤ - val F F.T.hi := by
    rw [← val_neg, val_le]
    unfold IntTy.lo IntTy.hi
    rw [hs]; simp only [if_true]; omega
  have key : ∀ l : List (Int × Int), (∀ p ∈ l, Storable F p.1 ∧ Storable F p.2) →
      (l.map fun p => |val F p.1 * val F p.2|).sum + l.length * ulp F ≤ val F F.T.hi →
      (dotExpr l).Fits F ∧ (dotExpr l).exact F = (l.map fun p => val F p.1 * val F p.2).sum ∧ (dotExpr l).err F = l.length * ulp F ∧
      |(l.map fun p => val F p.1 * val F p.2).sum| ≤ (l.map fun p => |val F p.1 * val F p.2|).sum := by
    intro l
    induction l with
    | nil =>
      intro _ h
      simp only [List.map_nil, List.sum_nil, List.length_nil, Nat.cast_zero, zero_mul, add_zero] at h
      refine ⟨⟨(val_le (F := F)).1 ?_, (val_le (F := F)).1 ?_⟩, by simp [dotExpr, Expr.exact, val_zero], by simp [dotExpr, Expr.err], by simp⟩ <;>
        rw [val_zero] <;> linarith
    | cons p l ih =>
      intro hp h
      simp only [List.map_cons, List.sum_cons, List.length_cons] at h ⊢
      push_cast at h ⊢
      have pa := abs_nonneg (val F p.1 * val F p.2)
      obtain ⟨i1, i2, i3, i4⟩ := ih (fun q hq => hp q (List.mem_cons_of_mem _ hq)) (by linarith)
      have hs0 : 0 ≤ (l.map fun p => |val F p.1 * val F p.2|).sum := le_trans (abs_nonneg _) i4
      have hn0 : 0 ≤ (l.length : ℚ) * ulp F := by positivity
      have pb := abs_le.1 (le_refl |val F p.1 * val F p.2|)
      have ib := abs_le.1 i4
      have me : (Expr.mul (.num p.1) (.num p.2)).err F = ulp F := by simp [Expr.err]
      refine ⟨⟨⟨(hp p List.mem_cons_self).1, (hp p List.mem_cons_self).2, ?_⟩, i1, ?_⟩, ?_, ?_, ?_⟩
      · rw [me]
        change _ ≤ val F p.1 * val F p.2 - _ ∧ val F p.1 * val F p.2 + _ ≤ _
        constructor <;> linarith
      · rw [me, i2, i3]
        change _ ≤ val F p.1 * val F p.2 + _ - _ ∧ val F p.1 * val F p.2 + _ + _ ≤ _
        constructor <;> linarith
      · rw [dotExpr, Expr.exact, i2]; rfl
      · rw [dotExpr, Expr.err, me, i3]; ring
      · have := abs_add_le (val F p.1 * val F p.2) (l.map fun p => val F p.1 * val F p.2).sum
        linarith
  obtain ⟨k1, k2, k3, -⟩ := key l hl hsum
  obtain ⟨z, h1, h2, h3⟩ := C131_forward_error F hF hr _ k1
  exact ⟨z, h1, h2, by rw [← k2, ← k3]; exact h3⟩

/-- `(1.5 * 2.5 - 3) / 0.75`: the hypotheses hold and the result is exact here. -/
example : let p : Expr := .div (.sub (.mul (.num 98304) (.num 163840)) (.num 196608)) (.num 49152)
    p.Fits fixed32 ∧ p.exact fixed32 = 1 ∧ p.run fixed32 = .ok 65536 := by
  refine ⟨?_, ?_, by decide +kernel⟩
  · norm_num [Expr.Fits, Expr.exact, Expr.err, Within, val, ulp, fixed32, Storable, IntTy.InRange, IntTy.lo, IntTy.hi, i32]
  · norm_num [Expr.exact, val, fixed32]

example : (hornerExpr 32768 [65536, -65536, 3]).run fixed32 = .ok 32768 ∧ polyVal fixed32 32768 [65536, -65536, 3] = 1 / 2 + 3 / 262144 ∧
    [65536, 3, -9].foldlM (fun a x => add fixed32 a x) 1 = .ok 65531 := by
  refine ⟨by decide +kernel, by norm_num [polyVal, val, fixed32], by decide +kernel⟩

end Eirin.Props
