import Verif.Props.SqrtUnsigned
import Verif.Props.SqrtNarrow

/-! # Property C155: `hypot` on unsigned and narrow layouts -/

namespace Eirin.Props
open Spec

/-- The square of a number, cut to the layout and wrapped. -/
theorem hyp_mul {F : FxTy} (hF : F.Valid) (hr : F.r = false) {x : Int} (hx : F.T.InRange x) : mul F x x = .ok (F.T.wrap (x * x / 2 ^ F.f)) := by
  rw [mul_nf hF hr hx hx]

/-- C155: on unsigned and narrow layouts `hypot` takes the root of the sum of the squares reduced to the storage range. -/
theorem C155_closed (F : FxTy) (hF : F.Valid) (hs : ¬ SignedWide F) (hr : F.r = false) (x y z : Int) (hx : Storable F x) (hy : Storable F y)
    (hz : Storable F z) :
    (∃ a b w, IsFloor F (val F x ^ 2) a ∧ IsFloor F (val F y ^ 2) b ∧ IsWrap F (a + b) w ∧ hypot F x y = sqrt F w) ∧
    (∃ a b c w, IsFloor F (val F x ^ 2) a ∧ IsFloor F (val F y ^ 2) b ∧ IsFloor F (val F z ^ 2) c ∧ IsWrap F (a + b + c) w ∧
      hypot3 F x y z = sqrt F w) := by
  have hp : (0 : Int) < 2 ^ F.f := by positivity
  have hq : (0 : ℚ) < 2 ^ F.f := by positivity
  have fl : ∀ n : Int, IsFloor F (val F n ^ 2) (n * n / 2 ^ F.f) := by
    intro n
    have e : val F n ^ 2 = (n * n : Int) / (2 ^ F.f * 2 ^ F.f : ℚ) := by
      unfold val; push_cast; field_simp
    rw [e]
    have h1 := Int.ediv_mul_le (n * n) hp.ne'
    have h2 := Int.lt_ediv_add_one_mul_self (n * n) hp
    generalize n * n = m at *
    have h1' : ((m / 2 ^ F.f : Int) : ℚ) * 2 ^ F.f ≤ m := by exact_mod_cast h1
    have h2' : (m : ℚ) < ((m / 2 ^ F.f : Int) + 1) * 2 ^ F.f := by exact_mod_cast h2
    constructor
    · unfold val
      rw [div_le_div_iff₀ hq (by positivity)]
      nlinarith
    · unfold val ulp
      rw [← add_div, div_lt_div_iff₀ (by positivity) hq]
      nlinarith
  have w2 : ∀ a b : Int, F.T.InRange b → add F (F.T.wrap a) b = .ok (F.T.wrap (F.T.wrap a + b)) := by
    intro a b hb
    rw [add_nf hF (IntTy.wrap_inRange _ hF.tpos) hb, if_neg (fun h => hs h.1)]
  have cg : ∀ n : Int, (2 : Int) ^ F.T.bits ∣ n - F.T.wrap n := fun n => IntTy.wrap_dvd F.T n
  have wr : ∀ n : Int, F.T.InRange (F.T.wrap n) := fun n => IntTy.wrap_inRange n hF.tpos
  constructor
  · refine ⟨_, _, _, fl x, fl y, ⟨wr (F.T.wrap (x * x / 2 ^ F.f) + F.T.wrap (y * y / 2 ^ F.f)), ?_⟩, ?_⟩
    · have := dvd_add (dvd_add (cg (x * x / 2 ^ F.f)) (cg (y * y / 2 ^ F.f))) (cg (F.T.wrap (x * x / 2 ^ F.f) + F.T.wrap (y * y / 2 ^ F.f)))
      ring_nf at this ⊢; exact this
    · unfold hypot
      rw [hyp_mul hF hr hx, Res.bind_ok, hyp_mul hF hr hy, Res.bind_ok, w2 _ _ (wr _), Res.bind_ok]
  · refine ⟨_, _, _, _, fl x, fl y, fl z, ⟨wr (F.T.wrap (F.T.wrap (x * x / 2 ^ F.f) + F.T.wrap (y * y / 2 ^ F.f)) + F.T.wrap (z * z / 2 ^ F.f)), ?_⟩, ?_⟩
    · have := dvd_add (dvd_add (dvd_add (cg (x * x / 2 ^ F.f)) (cg (y * y / 2 ^ F.f)))
        (cg (F.T.wrap (x * x / 2 ^ F.f) + F.T.wrap (y * y / 2 ^ F.f)))) (dvd_add (cg (z * z / 2 ^ F.f))
        (cg (F.T.wrap (F.T.wrap (x * x / 2 ^ F.f) + F.T.wrap (y * y / 2 ^ F.f)) + F.T.wrap (z * z / 2 ^ F.f))))
      ring_nf at this ⊢; exact this
    · unfold hypot3
      rw [hyp_mul hF hr hx, Res.bind_ok, hyp_mul hF hr hy, Res.bind_ok, w2 _ _ (wr _), Res.bind_ok, hyp_mul hF hr hz, Res.bind_ok,
        w2 _ _ (wr _), Res.bind_ok]

theorem floor_pos {F : FxTy} {p : ℚ} {a : Int} (h0 : 0 ≤ p) (ha : IsFloor F p a) : 0 ≤ a := by
  have hq : (0 : ℚ) < 2 ^ F.f := by positivity
  have h1 := lt_of_le_of_lt h0 ha.2
  unfold val ulp at h1
  rw [← add_div] at h1
  have h2 := (div_pos_iff_of_pos_right hq).1 h1
  have : (0 : Int) < a + 1 := by exact_mod_cast h2
  omega

/-- A non-negative number in range is not wrapped. -/
theorem wrap_eq {F : FxTy} (hF : F.Valid) {n w : Int} (h0 : 0 ≤ n) (hw : IsWrap F n w) (hle : val F n ≤ val F F.T.hi) : w = n := by
  rw [val_le] at hle
  have hl : F.T.lo ≤ 0 := by unfold IntTy.lo; split <;> simp
  exact isWrap_unique hF.tpos hw ⟨⟨by omega, hle⟩, ⟨0, by ring⟩⟩

/-- When the sum of the squares is in range, the argument of the root is it up to two (three) ulps. -/
theorem hyp_arg {F : FxTy} (hF : F.Valid) {q p : ℚ} {a b w : Int} (h0 : 0 ≤ p) (h1 : 0 ≤ q) (ha : IsFloor F p a) (hb : IsFloor F q b)
    (hw : IsWrap F (a + b) w) (hle : p + q ≤ val F F.T.hi) : 0 ≤ w ∧ val F w ≤ p + q ∧ p + q < val F w + 2 * ulp F := by
  have a0 := floor_pos h0 ha
  have b0 := floor_pos h1 hb
  rw [wrap_eq hF (by omega) hw (by rw [val_add]; linarith [ha.1, hb.1])]
  refine ⟨by omega, ?_, ?_⟩ <;> rw [val_add] <;> linarith [ha.1, hb.1, ha.2, hb.2]

theorem hyp_arg3 {F : FxTy} (hF : F.Valid) {q p s : ℚ} {a b c w : Int} (h0 : 0 ≤ p) (h1 : 0 ≤ q) (h2 : 0 ≤ s) (ha : IsFloor F p a) (hb : IsFloor F q b)
    (hc : IsFloor F s c) (hw : IsWrap F (a + b + c) w) (hle : p + q + s ≤ val F F.T.hi) :
    0 ≤ w ∧ val F w ≤ p + q + s ∧ p + q + s < val F w + 3 * ulp F := by
  have a0 := floor_pos h0 ha
  have b0 := floor_pos h1 hb
  have c0 := floor_pos h2 hc
  rw [wrap_eq hF (by omega) hw (by rw [val_add, val_add]; linarith [ha.1, hb.1, hc.1])]
  refine ⟨by omega, ?_, ?_⟩ <;> rw [val_add, val_add] <;> linarith [ha.1, hb.1, ha.2, hb.2, hc.1, hc.2]

/-- `h` is the root of `q` up to one ulp, when `q` is known up to `k` ulps: one ulp below and half an ulp above, or with square between `q - 5/65536 - k·ulp`
and `q + ulp`. -/
def HypNear (F : FxTy) (q : ℚ) (k : Nat) (h : Int) : Prop :=
  0 ≤ val F h ∧ q < (val F h + ulp F) ^ 2 + k * ulp F ∧
    (val F h ^ 2 < q + ulp F ∧ q < val F h ^ 2 + 5 / 65536 + k * ulp F ∨ (val F h - ulp F / 2) ^ 2 ≤ q)

/-- C155: on every unsigned layout `hypot` is the root of the sum of the squares. -/
def C155_statement : Prop := ∀ B f : Nat, UB B → 0 < f → f + 3 ≤ B → ∀ x y z, Storable (LU B f) x → Storable (LU B f) y → Storable (LU B f) z →
  (∃ h, hypot (LU B f) x y = .ok h ∧ HypNear (LU B f) (val (LU B f) x ^ 2 + val (LU B f) y ^ 2) 2 h) ∧
  (∃ h, hypot3 (LU B f) x y z = .ok h ∧ HypNear (LU B f) (val (LU B f) x ^ 2 + val (LU B f) y ^ 2 + val (LU B f) z ^ 2) 3 h)

/-- The squares overflow silently: the hypotenuse of (256, 0) in unsigned 16.16 is 0. -/
theorem C155_false : ¬ C155_statement := by
  intro h
  obtain ⟨⟨w, e, hw⟩, -⟩ := h 32 16 (Or.inl rfl) (by norm_num) (by norm_num) (256 * 65536) 0 0 (by decide +kernel) (by decide +kernel) (by decide +kernel)
  have e' : hypot (LU 32 16) (256 * 65536) 0 = .ok 0 := by decide +kernel
  rw [e] at e'; cases e'
  have := hw.2.1
  norm_num [val, ulp] at this

/-- C155, what holds on the unsigned 32- and 64-bit layouts (three integer bits as in C139): when the sum of the squares is storable, `hypot` is its root;
nothing else can go wrong.  For the other arguments `C155_closed` says what is computed. -/
theorem C155_unsigned_partial (B f : Nat) (hB : UB B) (hf0 : 0 < f) (hf1 : f + 3 ≤ B) (x y z : Int) (hx : Storable (LU B f) x)
    (hy : Storable (LU B f) y) (hz : Storable (LU B f) z) :
    (val (LU B f) x ^ 2 + val (LU B f) y ^ 2 ≤ val (LU B f) (LU B f).T.hi →
      ∃ h, hypot (LU B f) x y = .ok h ∧ HypNear (LU B f) (val (LU B f) x ^ 2 + val (LU B f) y ^ 2) 2 h) ∧
    (val (LU B f) x ^ 2 + val (LU B f) y ^ 2 + val (LU B f) z ^ 2 ≤ val (LU B f) (LU B f).T.hi →
      ∃ h, hypot3 (LU B f) x y z = .ok h ∧ HypNear (LU B f) (val (LU B f) x ^ 2 + val (LU B f) y ^ 2 + val (LU B f) z ^ 2) 3 h) := by
  obtain ⟨hv, hs, -⟩ := lu_valid hB hf0 hf1
  obtain ⟨⟨a, b, w, ha, hb, hw, e⟩, ⟨a', b', c', w', ha', hb', hc', hw', e'⟩⟩ := C155_closed (LU B f) hv hs rfl x y z hx hy hz
  have hu : 0 < ulp (LU B f) := by unfold ulp; positivity
  have fin : ∀ (q : ℚ) (k : Nat) (w : Int), Storable (LU B f) w → val (LU B f) w ≤ q → q < val (LU B f) w + k * ulp (LU B f) →
      ∃ h, sqrt (LU B f) w = .ok h ∧ HypNear (LU B f) q k h := by
    intro q k w hw q1 q2
    obtain ⟨r, hr, rs, r1, r2⟩ := C139_sqrt_partial B f hB hf0 hf1 w hw
    refine ⟨r, hr, ?_, by linarith, ?_⟩
    · rw [← val_zero (LU B f), val_le]; exact (lu_in.1 rs).1
    · rcases r2 with ⟨r2, r3⟩ | r2
      · exact Or.inl ⟨by linarith, by linarith⟩
      · exact Or.inr (by linarith)
  constructor
  · intro hle
    obtain ⟨-, q1, q2⟩ := hyp_arg hv (sq_nonneg _) (sq_nonneg _) ha hb hw hle
    rw [e]; exact fin _ 2 w hw.1 q1 (by exact_mod_cast q2)
  · intro hle
    obtain ⟨-, q1, q2⟩ := hyp_arg3 hv (sq_nonneg _) (sq_nonneg _) (sq_nonneg _) ha' hb' hc' hw' hle
    rw [e']; exact fin _ 3 w' hw'.1 q1 (by exact_mod_cast q2)

/-- C155, what holds on the 8- and 16-bit layouts, signed or unsigned: the same with the better bound of their square root. -/
theorem C155_narrow_partial (F : FxTy) (hF : F.Valid) (hn : Narrow F) (hr : F.r = false) (hm : F.f + 3 ≤ F.T.bits) (x y z : Int) (hx : Storable F x)
    (hy : Storable F y) (hz : Storable F z) :
    (val F x ^ 2 + val F y ^ 2 ≤ val F F.T.hi → ∃ h, hypot F x y = .ok h ∧ 0 ≤ val F h ∧
      val F x ^ 2 + val F y ^ 2 < (val F h + ulp F) ^ 2 + 2 * ulp F ∧
      ((val F h - ulp F / 2) ^ 2 ≤ val F x ^ 2 + val F y ^ 2 ∨ val F h = 0)) ∧
    (val F x ^ 2 + val F y ^ 2 + val F z ^ 2 ≤ val F F.T.hi → ∃ h, hypot3 F x y z = .ok h ∧ 0 ≤ val F h ∧
      val F x ^ 2 + val F y ^ 2 + val F z ^ 2 < (val F h + ulp F) ^ 2 + 3 * ulp F ∧
      ((val F h - ulp F / 2) ^ 2 ≤ val F x ^ 2 + val F y ^ 2 + val F z ^ 2 ∨ val F h = 0)) := by
  have hs : ¬ SignedWide F := by
    intro h
    have h1 := h.2
    rcases hn with h2 | h2 <;> omega
  obtain ⟨⟨a, b, w, ha, hb, hw, e⟩, ⟨a', b', c', w', ha', hb', hc', hw', e'⟩⟩ := C155_closed F hF hs hr x y z hx hy hz
  have hu : 0 < ulp F := by unfold ulp; positivity
  have fin : ∀ (q : ℚ) (k : ℚ) (w : Int), Storable F w → 0 ≤ w → val F w ≤ q → q < val F w + k * ulp F →
      ∃ h, sqrt F w = .ok h ∧ 0 ≤ val F h ∧ q < (val F h + ulp F) ^ 2 + k * ulp F ∧ ((val F h - ulp F / 2) ^ 2 ≤ q ∨ val F h = 0) := by
    intro q k w hw w0 q1 q2
    obtain ⟨s1, s2, -⟩ := C146_sqrt_partial F hF hn hr hm w hw
    rcases w0.eq_or_lt with rfl | w0
    · refine ⟨0, s2 (val_zero F), by rw [val_zero], ?_, Or.inr (val_zero F)⟩
      rw [val_zero] at q2 ⊢
      nlinarith
    · obtain ⟨r, hr, -, r0, r1, r2⟩ := s1 (by rw [← val_zero F, val_lt]; exact w0)
      exact ⟨r, hr, r0, by linarith, Or.inl (by linarith)⟩
  constructor
  · intro hle
    obtain ⟨w0, q1, q2⟩ := hyp_arg hF (sq_nonneg _) (sq_nonneg _) ha hb hw hle
    rw [e]; exact fin _ 2 w hw.1 w0 q1 q2
  · intro hle
    obtain ⟨w0, q1, q2⟩ := hyp_arg3 hF (sq_nonneg _) (sq_nonneg _) (sq_nonneg _) ha' hb' hc' hw' hle
    rw [e']; exact fin _ 3 w' hw'.1 w0 q1 q2

/-- C155: on signed narrow layouts a sum of squares that wraps to a negative number gives `-1`. -/
theorem C155_minus_one : hypot ⟨⟨16, true⟩, ⟨32, true⟩, 8, false⟩ (12 * 256) 0 = .ok (-256) ∧
    hypot ⟨⟨16, true⟩, ⟨32, true⟩, 8, false⟩ (6 * 256) (8 * 256) = .ok 2560 := by decide +kernel

example : hypot (LU 32 16) (150 * 65536) (200 * 65536) = .ok (250 * 65536) ∧
    hypot3 (LU 64 32) (2 * 2 ^ 32) (3 * 2 ^ 32) (6 * 2 ^ 32) = .ok (7 * 2 ^ 32) ∧
    (⟨⟨16, true⟩, ⟨32, true⟩, 8, false⟩ : FxTy).Valid := by decide +kernel

end Eirin.Props
