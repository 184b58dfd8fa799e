import Verif.Model.Fixed
import Mathlib.Data.Nat.Digits.Defs

/-!
# Model of `/repo/include/eirin/random.hpp` and `/repo/include/eirin/detail/distribution.hpp`

Values of the unsigned result type of the engine are natural numbers below `2^w` (`w` is 32 or 64, so no integral promotion takes place).
-/

namespace Eirin

/-- The template parameters of `permuted_congruential_engine`; `w` is the width of `UIntType`. `random.hpp:43`. -/
structure PcgParams where
  w : Nat
  init : Nat
  mult : Nat
  inc : Nat
  mixMult : Nat
  xorMult : Nat

/-- `pcg2014`. `random.hpp:253`. -/
def pcg2014 : PcgParams := ⟨32, 0x0, 0xB5297A4D, 0x68E31DA4, 0x1B56C4E9, 0x92D68CA2⟩
/-- `pcg2014_64`. `random.hpp:254`. -/
def pcg2014_64 : PcgParams := ⟨64, 0x0, 0x5851F42D4C957F2D, 0x9E3779B97F4A7C15, 0x94D049BB133111EB, 0xBF58476D1CE4E5B9⟩

/-- The members `m_seed`, `m_state`. `random.hpp:48-49`. -/
structure Pcg where
  seed : Nat
  state : Nat
  deriving DecidableEq, Repr

/-- How `x >> k` is evaluated on `w`-bit operands.  Parameterising over it lets the properties that do not depend on the result of the
shift be stated for every treatment of over-wide shifts. -/
abbrev Shift := Nat → Nat → Nat → Res Nat

/-- The shift of the C++ standard: undefined when the count is not below the width ([expr.shift]/1). -/
def shiftStd : Shift := fun w x k => if k < w then .ok (x / 2 ^ k) else .ub .shift

/-- What x86 and ARM shift instructions do: the count is taken modulo the width. Not C++ semantics; used only to show non-vacuity. -/
def shiftHw : Shift := fun w x k => .ok (x / 2 ^ (k % w))

variable (P : PcgParams) (sh : Shift)

/-- `mix_first`: `x >>= 8 ^ x; x += increment`. `random.hpp:51-56`. -/
def mixFirst (x : Nat) : Res Nat := do
  let y ← sh P.w x (8 ^^^ x)
  pure ((y + P.inc) % 2 ^ P.w)

/-- `_xor`: `x = x * 0x100 ^ x; x *= xor_multiplier`. `random.hpp:58-63`. -/
def xorMix (x : Nat) : Nat := ((x * 256 % 2 ^ P.w ^^^ x) * P.xorMult) % 2 ^ P.w

/-- `mix_second`: `x >>= 8 ^ x; x *= mix_multiplier`. `random.hpp:65-70`. -/
def mixSecond (x : Nat) : Res Nat := do
  let y ← sh P.w x (8 ^^^ x)
  pure ((y * P.mixMult) % 2 ^ P.w)

/-- `generate()` / `operator()()`: the output and the engine afterwards. `random.hpp:72-78, 96-99`. -/
def Pcg.next (e : Pcg) : Res (Nat × Pcg) := do
  let v0 := (e.state * P.mult + e.seed) % 2 ^ P.w
  let v1 ← mixFirst P sh v0
  let v2 ← mixSecond P sh (xorMix P v1)
  pure ((v2 &&& 0x7FFFFFFE) ^^^ (v2 / 2 ^ 8), { e with state := (e.state + 1) % 2 ^ P.w })

/-- `default_seed`. `random.hpp:88`. -/
def Pcg.defaultSeed : Nat := 0x89ABCD
/-- `permuted_congruential_engine(seed)`. `random.hpp:93-94`. -/
def Pcg.make (s : Nat) : Pcg := ⟨s % 2 ^ P.w, P.init % 2 ^ P.w⟩
/-- `permuted_congruential_engine()`. `random.hpp:90-91`. -/
def Pcg.default : Pcg := ⟨Pcg.defaultSeed % 2 ^ P.w, P.init % 2 ^ P.w⟩
/-- `seed(s)`. `random.hpp:101-104`. -/
def Pcg.reseed (e : Pcg) (s : Nat) : Pcg := { e with seed := s % 2 ^ P.w }
/-- `seed(seq)`, given the two numbers the sequence generates. `random.hpp:106-112`. -/
def Pcg.reseedSeq (e : Pcg) (s0 s1 : Nat) : Pcg := { e with seed := s0 % 2 ^ P.w, state := s1 % 2 ^ P.w }
/-- `discard(z)` with `z : unsigned long long`: the sum is formed in 64 bits and converted. `random.hpp:114-117`. -/
def Pcg.discard (e : Pcg) (z : Nat) : Pcg := { e with state := (e.state + z) % 2 ^ 64 % 2 ^ P.w }
/-- `min()`. `random.hpp:119-122`. -/
def Pcg.min : Nat := 0
/-- `max()`. `random.hpp:124-127`. -/
def Pcg.max : Nat := 2 ^ P.w - 1
/-- `operator==`. `random.hpp:129-132`. -/
def Pcg.eq (a b : Pcg) : Bool := decide (a.seed = b.seed) && decide (a.state = b.state)

/-! ### Stream insertion of the engines

The formatting state of a stream, as far as the insertion of unsigned integers depends on it ([facet.num.put.virtuals]): the three
bits of `basefield`, `showbase`, `uppercase`, the adjustment, the width and the fill character.  The locale is the classic one
(no digit grouping). -/

/-- Formatting state of an output stream. -/
structure Ios where
  dec : Bool := true
  hex : Bool := false
  oct : Bool := false
  showbase : Bool := false
  uppercase : Bool := false
  left : Bool := false
  internal : Bool := false
  width : Nat := 0
  fill : Char := ' '
  deriving DecidableEq, Repr

/-- Positional notation, most significant digit first; `"0"` for zero (the C conversions `%u`, `%o`, `%x`). -/
def natText (up : Bool) (b n : Nat) : List Char :=
  if n = 0 then ['0'] else (Nat.digits b n).reverse.map fun d => if d < 10 then Char.ofNat (48 + d) else Char.ofNat ((if up then 55 else 87) + d)

/-- Insertion of an unsigned integer ([facet.num.put.virtuals]/4-13): base 8 or 16 exactly if `basefield` is `oct` or `hex` alone, the
prefix with `showbase`, padding to `width`, and the reset of the width. -/
def insertNat (s : Ios) (n : Nat) : List Char × Ios :=
  let oct := s.oct && !s.dec && !s.hex
  let hex := s.hex && !s.dec && !s.oct
  let digits := natText s.uppercase (if oct then 8 else if hex then 16 else 10) n
  let pre := if s.showbase && hex && decide (n ≠ 0) then ['0', if s.uppercase then 'X' else 'x']
    else if s.showbase && oct && decide (n ≠ 0) then ['0'] else []
  let pad := List.replicate (s.width - (pre.length + digits.length)) s.fill
  let text := if s.left then pre ++ digits ++ pad else if s.internal && hex then pre ++ pad ++ digits else pad ++ pre ++ digits
  (text, { s with width := 0 })

/-- `os << engine` (the friend, more specialised than the free template): `setf(flags | dec | left, basefield)` replaces the `basefield`
bits by themselves with `dec` added (the mask removes `left`); the seed, a space (a character insertion with width 0) and the state follow.
`random.hpp:139-147`; the adapter forwards, `random.hpp:223-228`. -/
def Pcg.insert (s : Ios) (e : Pcg) : List Char × Ios :=
  let s := { s with dec := true }
  let (t1, s) := insertNat s e.seed
  let (t2, s) := insertNat s e.state
  (t1 ++ [' '] ++ t2, s)

/-! ### `fixed_random_engine_adapter` -/

/-- A random engine as the adapter uses it: an abstract state with draw, seed, discard and comparison. -/
structure Engine where
  σ : Type
  /-- `result_type` -/
  res : IntTy
  init : σ
  next : σ → Res (Int × σ)
  seed : σ → Int → σ
  discard : σ → Nat → σ
  eq : σ → σ → Bool

/-- The PCG engines as `Engine`s. -/
def pcgEngine : Engine where
  σ := Pcg
  res := ⟨P.w, false⟩
  init := Pcg.default P
  next := fun e => do
    let (v, e') ← e.next P sh
    pure ((v : Int), e')
  seed := fun e s => e.reseed P s.toNat
  discard := fun e z => e.discard P z
  eq := Pcg.eq

variable (F : FxTy) (E : Engine)

/-- The adapter's only member is the engine; the default constructor copies a default-constructed one. `random.hpp:179-181, 231-240`. -/
def adapterInit : E.σ := E.init
/-- `operator()`. `random.hpp:183-186`. -/
def adapterNext (e : E.σ) : Res (Int × E.σ) := do
  let (v, e') ← E.next e
  let x ← fromFixedNumValue F F.T F.f (F.T.wrap v)
  pure (x, e')
/-- `seed(s)`. `random.hpp:198-201`. -/
def adapterSeed (e : E.σ) (s : Int) : E.σ := E.seed e s
/-- `discard(z)`. `random.hpp:208-211`. -/
def adapterDiscard (e : E.σ) (z : Nat) : E.σ := E.discard e z
/-- `operator==`. `random.hpp:213-216`. -/
def adapterEq (a b : E.σ) : Bool := E.eq a b
/-- `min()`. `random.hpp:188-191`. -/
def adapterMin : Int := limMin F
/-- `max()`. `random.hpp:193-196`. -/
def adapterMax : Int := limMax F

/-! ### Distributions

`fixed_int_distribution_adapter` (`distribution.hpp:33-150`) and `fixed_distribution_adapter` (`distribution.hpp:169-286`) differ only in
where the generator comes from (`g` itself, or the engine inside the random-engine adapter), so one model covers both. -/

/-- A standard integer distribution over generators with states `γ`. -/
structure Dist (γ : Type) where
  δ : Type
  /-- `result_type` (the type of the constructor's parameters) -/
  res : IntTy
  make : Int → Int → Res δ
  draw : δ → γ → Res (Int × δ × γ)

/-- The members `m_dist`, `m_param`. -/
structure DistAdapter {γ : Type} (D : Dist γ) where
  dist : D.δ
  a : Int
  b : Int

variable {γ : Type} (D : Dist γ)

/-- `param_type(a, b)`: `assert(a <= b)`. `distribution.hpp:45-49, 181-185`. -/
def mkParam (a b : Int) : Res (Int × Int) := if a ≤ b then .ok (a, b) else .ub .precondition

/-- The constructor from `param_type`: the raw bounds, of the fixed type's `value_type`, are converted to the parameter type of the
distribution. `distribution.hpp:91-93, 227-229`. -/
def DistAdapter.make (p : Int × Int) : Res (DistAdapter D) := do
  let d ← D.make (D.res.wrap p.1) (D.res.wrap p.2)
  pure ⟨d, p.1, p.2⟩

/-- `operator()(g, param)`: the parameter is not used. `distribution.hpp:101-107, 237-243`. -/
def DistAdapter.drawWith (s : DistAdapter D) (g : γ) (_param : Int × Int) : Res (Int × DistAdapter D × γ) := do
  let (raw, d, g') ← D.draw s.dist g
  let x ← fromFixedNumValue F F.T F.f (F.T.wrap raw)
  pure (x, { s with dist := d }, g')

/-- `operator()(g)`. `distribution.hpp:95-99, 231-235`. -/
def DistAdapter.draw (s : DistAdapter D) (g : γ) : Res (Int × DistAdapter D × γ) := s.drawWith F D g (s.a, s.b)

/-- `param(p)`. `distribution.hpp:114-118, 250-254`. -/
def DistAdapter.setParam (_s : DistAdapter D) (p : Int × Int) : Res (DistAdapter D) := do
  let d ← D.make (D.res.wrap p.1) (D.res.wrap p.2)
  pure ⟨d, p.1, p.2⟩

/-- `param()`, `a()`, `b()`, `min()`, `max()`. `distribution.hpp:109-112, 120-138, 245-248, 256-274`. -/
def DistAdapter.param (s : DistAdapter D) : Int × Int := (s.a, s.b)
def DistAdapter.min (s : DistAdapter D) : Int := s.a
def DistAdapter.max (s : DistAdapter D) : Int := s.b

/-- The constructor from two bounds: the members are initialised in the order of declaration, `m_dist` first, then `m_param` with its
assertion. `distribution.hpp:87-89, 223-225`; order of members `:145-149, 281-285`. -/
def DistAdapter.makeAB (a b : Int) : Res (DistAdapter D) := do
  let d ← D.make (D.res.wrap a) (D.res.wrap b)
  let p ← mkParam a b
  pure ⟨d, p.1, p.2⟩

/-- The default constructor: the bounds default to the limits of the type. `distribution.hpp:87, 223`. -/
def DistAdapter.makeDefault : Res (DistAdapter D) := DistAdapter.makeAB D (limMin F) (limMax F)

/-- `reset()` does nothing. `distribution.hpp:140-143, 276-279`. -/
def DistAdapter.reset (s : DistAdapter D) : DistAdapter D := s

/-- The default `param_type`. `distribution.hpp:45, 181`. -/
def mkParamDefault : Res (Int × Int) := mkParam (limMin F) (limMax F)

/-- `operator==` and `operator!=` of `param_type`. `distribution.hpp:61-69, 197-205`. -/
def paramEq (p q : Int × Int) : Bool := decide (p.1 = q.1) && decide (p.2 = q.2)
def paramNe (p q : Int × Int) : Bool := !paramEq p q

/-- `to_underlying`: the raw bounds as parameters of the wrapped distribution, whose constructor has the precondition `a ≤ b`.
`distribution.hpp:71-74, 207-210`. -/
def paramToUnderlying (p : Int × Int) : Res (Int × Int) := mkParam (D.res.wrap p.1) (D.res.wrap p.2)

end Eirin
