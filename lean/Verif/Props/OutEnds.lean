import Verif.Model.Format
import Verif.Model.Istream
import Verif.Model.Cordic
import Verif.Props.Ends
import Verif.Props.PrintAll

/-! # Property C182: text output, formatting and CORDIC end, raise nothing, and write a bounded number of characters

Every valid layout (unsigned, narrow and rounding ones included), every stored number. -/

namespace Eirin.Props
open Spec

/-- The computation ends without an exception, and a value it returns satisfies `P`. -/
def EndsIn {α : Type} (m : Res α) (P : α → Prop) : Prop := Ends m ∧ ∀ r, m = .ok r → P r

namespace EndsIn
variable {α β : Type} {P : β → Prop} {Q : α → Prop}

theorem ok {a : β} (h : P a) : EndsIn (Res.ok a) P := ⟨.ok _, fun r e => by cases e; exact h⟩
theorem pure {a : β} (h : P a) : EndsIn (Pure.pure a : Res β) P := ok h
theorem bind {a : Res α} {k : α → Res β} (ha : EndsIn a Q) (hk : ∀ x, a = .ok x → Q x → EndsIn (k x) P) : EndsIn (a >>= k) P :=
  ⟨.bind ha.1 fun x e => (hk x e (ha.2 x e)).1, fun r e => by
    obtain ⟨x, e1, e2⟩ := bind_eq_ok.1 e
    exact (hk x e1 (ha.2 x e1)).2 r e2⟩
theorem seq {a : Res α} {k : α → Res β} (ha : Ends a) (hk : ∀ x, a = .ok x → EndsIn (k x) P) : EndsIn (a >>= k) P :=
  bind (Q := fun _ => True) ⟨ha, fun _ _ => trivial⟩ fun x e _ => hk x e
theorem ite {c : Prop} [Decidable c] {a b : Res β} (ha : c → EndsIn a P) (hb : ¬ c → EndsIn b P) : EndsIn (if c then a else b) P := by
  split
  · exact ha ‹_›
  · exact hb ‹_›
end EndsIn

theorem digitAt_ends (up : Bool) (d : Int) : Ends (digitAt up d) := by
  unfold digitAt
  refine .ite (.ub (by decide)) (.ite (.ok _) ?_)
  split
  · exact .ok _
  · exact .ub (by decide)

theorem D_wrap (F : FxTy) (hF : F.Valid) {n : Int} (h0 : 0 ≤ n) (h : F.T.InRange n) : 0 < F.D.bits ∧ F.D.wrap n = n := by
  obtain ⟨⟨b, s⟩, I, f, r⟩ := F
  have hb := hF.1
  dsimp only at hb h
  unfold FxTy.D
  dsimp only
  rcases hb with rfl | rfl | rfl | rfl <;> cases s <;>
    refine ⟨by decide, IntTy.wrap_of_inRange (by decide) ?_⟩ <;>
    · obtain ⟨-, h2⟩ := h
      norm_num [IntTy.hi] at h2
      norm_num [IntTy.InRange, IntTy.common, IntTy.promote, IntTy.lo, IntTy.hi]
      omega

theorem wrap_of_between (t : IntTy) (ht : 0 < t.bits) {a n : Int} (h : t.InRange a) (h0 : 0 ≤ n) (h1 : n ≤ a) : t.wrap n = n :=
  IntTy.wrap_of_inRange ht ⟨le_trans (by unfold IntTy.lo; split; · simp
                                         · exact le_refl _) h0, le_trans h1 h.2⟩

theorem cdiv_eq {t : IntTy} {a b q : Int} (h : cdiv t a b = .ok q) : q = a.tdiv b := by
  unfold cdiv at h
  split at h
  · cases h
  · split at h
    · cases h
    · cases h; rfl

/-- The integer-digit loop: it ends after at most `n` digits for a number below `2 ^ n`, and the buffer is not flushed as long as there is room for `n`
more characters. -/
theorem printInt_fits (F : FxTy) (hF : F.Valid) (up : Bool) (base : Int) (hb : 2 ≤ base) : ∀ n ip buf out, F.T.InRange ip → ip < 2 ^ n →
    buf.length + n < 514 →
    EndsIn (printInt F up base (n + 1) ip buf out) fun r => r.2 = out ∧ r.1.length ≤ buf.length + n ∧ (0 < ip → buf.length < r.1.length) := by
  intro n
  induction n with
  | zero =>
    intro ip buf out _ h _
    unfold printInt
    rw [if_neg (by norm_num at h; omega)]
    exact .ok ⟨rfl, le_refl _, fun h' => by norm_num at h; omega⟩
  | succ n ih =>
    intro ip buf out hr h hl
    unfold printInt
    refine .ite (fun hp => ?_) fun hp => .ok ⟨rfl, Nat.le_add_right _ _, fun h => absurd h hp⟩
    refine .seq (.cmod _ _ _) fun d _ => .seq (digitAt_ends _ _) fun c _ => .seq (.cdiv _ _ _) fun q hq => ?_
    have hq := cdiv_eq hq
    rw [(D_wrap F hF (by omega) hr).2, Int.tdiv_eq_ediv_of_nonneg (by omega)] at hq
    have q0 : 0 ≤ q := by rw [hq]; exact Int.ediv_nonneg (by omega) (by omega)
    have q1 : q * 2 ≤ ip := by
      have := Int.ediv_mul_le ip (b := base) (by omega)
      rw [← hq] at this
      nlinarith
    have hw : F.T.wrap q = q := wrap_of_between _ hF.tpos hr q0 (by omega)
    rw [if_neg (by simp only [List.length_cons]; omega), hw]
    have hr' : F.T.InRange q := by rw [← hw]; exact IntTy.wrap_inRange _ hF.tpos
    obtain ⟨e1, e2⟩ := ih q (c :: buf) out hr' (by rw [pow_succ] at h; omega) (by simp only [List.length_cons]; omega)
    refine ⟨e1, fun r hr => ?_⟩
    obtain ⟨a1, a2, a3⟩ := e2 r hr
    simp only [List.length_cons] at a2 a3
    refine ⟨a1, by omega, fun _ => ?_⟩
    by_cases hq0 : 0 < q
    · have := a3 hq0; omega
    · have : printInt F up base (n + 1) q (c :: buf) out = .ok (c :: buf, out) := by
        unfold printInt; rw [if_neg (by omega)]
      rw [this] at hr
      cases hr
      simp

theorem printFrac_fits (F : FxTy) (up : Bool) (b : Int) : ∀ (n : Nat) (v dv : Int) (out : List Char),
    EndsIn (printFrac F up b n v dv out) fun r => r.length ≤ out.length + n := by
  intro n
  induction n with
  | zero => intro v dv out; exact .ok (le_refl _)
  | succ n ih =>
    intro v dv out
    unfold printFrac
    refine .ite (fun _ => .ok (by omega)) fun _ => ?_
    have tail : ∀ (v1 dv1 : Int), EndsIn (do
        let t ← cdiv F.P v1 dv1
        let d ← cmod F.D (F.D.wrap t) b
        let c ← digitAt up d
        let v' ← cmod F.P v1 dv1
        printFrac F up b n (F.T.wrap v') dv1 (out ++ [c])) fun r => r.length ≤ out.length + (n + 1) := by
      intro v1 dv1
      refine .seq (.cdiv _ _ _) fun _ _ => .seq (.cmod _ _ _) fun _ _ => .seq (digitAt_ends _ _) fun c _ => .seq (.cmod _ _ _) fun _ _ => ?_
      refine ⟨(ih _ _ _).1, fun r hr => ?_⟩
      have := (ih _ _ _).2 r hr
      simp only [List.length_append, List.length_cons, List.length_nil] at this
      omega
    refine .seq (.cmod _ _ _) fun m _ => ?_
    split
    · exact .seq (.seq (.cdiv _ _ _) fun _ => .pure _) fun p _ => tail _ _
    · exact .seq (.seq (.arith _ _) fun _ => .pure _) fun p _ => tail _ _

theorem inRange_pow (F : FxTy) (hF : F.Valid) {n : Int} (h : F.T.InRange n) : n < 2 ^ F.T.bits := by
  obtain ⟨-, h⟩ := h
  have hp := hF.tpos
  have : (2 : Int) ^ (F.T.bits - 1) ≤ 2 ^ F.T.bits := pow_le_pow_right₀ (by norm_num) (by omega)
  have : (0 : Int) < 2 ^ F.T.bits := by positivity
  unfold IntTy.hi at h
  split at h <;> omega

theorem printSign_fits (F : FxTy) (hF : F.Valid) (x : Int) :
    EndsIn (printSign F x) fun r => r.1.length ≤ 1 ∧ F.T.InRange r.2.1 := by
  unfold printSign
  refine .ite (fun _ => ?_) fun _ => .ite (fun _ => ?_) fun _ => ?_
  · exact .seq (.shr _ _ _) fun _ _ => .seq (.arith _ _) fun _ _ => .pure ⟨le_refl _, IntTy.wrap_inRange _ hF.tpos⟩
  · exact .seq (.arith _ _) fun _ _ => .seq (.shr _ _ _) fun _ _ => .pure ⟨le_refl _, IntTy.wrap_inRange _ hF.tpos⟩
  · exact .seq (.shr _ _ _) fun _ _ => .pure ⟨Nat.zero_le _, IntTy.wrap_inRange _ hF.tpos⟩

theorem bits_le (F : FxTy) (hF : F.Valid) : F.T.bits ≤ 64 := by rcases hF.1 with h | h | h | h <;> omega

/-- C182, `copy_as_chars_to` and `operator<<`: for every stored number, base at least two, they end, raise nothing, and write at most a sign, one digit per
bit of the type, a point and one digit per fraction bit. -/
theorem C182_output (F : FxTy) (hF : F.Valid) (x base : Int) (hb : 2 ≤ base) (up hex dec oct : Bool) :
    EndsIn (copyAsChars F x base up) (fun s => s.length ≤ F.T.bits + F.f + 2) ∧
    EndsIn (streamOut F x hex dec oct up) (fun s => s.length ≤ F.T.bits + F.f + 2) := by
  have key : ∀ base, 2 ≤ base → EndsIn (copyAsChars F x base up) (fun s => s.length ≤ F.T.bits + F.f + 2) := by
    intro base hb
    unfold copyAsChars
    refine .seq (.shl _ _ _) fun d0 _ => .bind (printSign_fits F hF x) fun ⟨sgn, ip, v⟩ _ ⟨hs, hi⟩ => ?_
    dsimp only at hs hi ⊢
    refine .seq (.cmod _ _ _) fun v0 _ => ?_
    have fin : ∀ r : List Char × List Char, r.2.length + r.1.length ≤ 1 + F.T.bits →
        EndsIn (if F.T.wrap v0 ≠ 0 then printFrac F up base F.f (F.T.wrap v0) (F.T.wrap d0) (r.2 ++ r.1 ++ ['.']) else Pure.pure (r.2 ++ r.1))
          (fun s => s.length ≤ F.T.bits + F.f + 2) := by
      intro r hr
      refine .ite (fun _ => ?_) fun _ => .pure ?_
      · obtain ⟨e1, e2⟩ := printFrac_fits F up base F.f (F.T.wrap v0) (F.T.wrap d0) (r.2 ++ r.1 ++ ['.'])
        refine ⟨e1, fun s h => ?_⟩
        have := e2 s h
        simp only [List.length_append, List.length_cons, List.length_nil] at this
        omega
      · rw [List.length_append]; omega
    refine .ite (fun _ => ?_) fun _ => ?_
    · have hp := hF.tpos
      exact .bind (Q := fun r => r = ([], sgn ++ ['0'])) (.pure rfl) fun r _ hr => fin r (by subst hr; simp; omega)
    · have hl := bits_le F hF
      refine .bind (printInt_fits F hF up base hb F.T.bits ip [] sgn hi (inRange_pow F hF hi) (by simp; omega)) fun r _ ⟨h1, h2, _⟩ => fin r ?_
      rw [h1]; simp at h2; omega
  refine ⟨key base hb, ?_⟩
  unfold streamOut
  refine key _ ?_
  unfold streamBase
  split
  · decide
  · split
    · decide
    · split <;> decide

/-- C182: the 514-character buffer of `copy_as_chars_to` is never filled: nothing is written before the last digit, at least one and at most one digit per
bit of the type are in it. -/
theorem C182_buffer (F : FxTy) (hF : F.Valid) (up : Bool) (base ip : Int) (hb : 2 ≤ base) (hi : F.T.InRange ip) (out : List Char) :
    EndsIn (printInt F up base (F.T.bits + 1) ip [] out) fun r => r.2 = out ∧ r.1.length ≤ F.T.bits ∧ (0 < ip → r.1 ≠ []) := by
  have hl := bits_le F hF
  obtain ⟨e1, e2⟩ := printInt_fits F hF up base hb F.T.bits ip [] out hi (inRange_pow F hF hi) (by simp; omega)
  refine ⟨e1, fun r hr => ?_⟩
  obtain ⟨a1, a2, a3⟩ := e2 r hr
  exact ⟨a1, by simpa using a2, fun h => by simpa [List.length_pos_iff] using a3 h⟩

example : (⟨i16, i32, 14, true⟩ : FxTy).Valid ∧ copyAsChars ⟨i16, i32, 12, false⟩ (-17408) 10 false = .ok ['-', '4', '.', '2', '5'] ∧
    streamOut ⟨i8, i16, 3, false⟩ (-128) false false false false = .ok ['-', '1', '0', '0', '0', '0'] := by
  refine ⟨by decide, by decide +kernel, by decide +kernel⟩

/-! ### `std::format` -/

theorem unsignedMag_fits (V : IntTy) (hV : 0 < V.bits) (v : Int) : EndsIn (unsignedMag V v) fun r => 0 ≤ r.2 ∧ r.2 < 2 ^ V.bits := by
  have hw : ∀ z, 0 ≤ V.unsigned.wrap z ∧ V.unsigned.wrap z < 2 ^ V.bits := by
    intro z
    have h := IntTy.wrap_inRange (t := V.unsigned) z hV
    unfold IntTy.InRange IntTy.lo IntTy.hi IntTy.unsigned at h
    simp only [Bool.false_eq_true, if_false] at h
    exact ⟨h.1, by have := h.2; unfold IntTy.unsigned; omega⟩
  unfold unsignedMag
  refine .ite (fun _ => .ite (fun _ => ?_) fun _ => .pure (hw _)) fun _ => .pure (hw _)
  exact .seq (.arith _ _) fun _ _ => .seq (.arith _ _) fun _ _ => .pure (hw _)

theorem digitsLoop_fits (up : Bool) (base : Int) (hb : 2 ≤ base) : ∀ n u acc, u < 2 ^ n →
    EndsIn (digitsLoop up base (n + 1) u acc) fun r => r.length ≤ acc.length + n := by
  intro n
  induction n with
  | zero =>
    intro u acc h
    unfold digitsLoop
    rw [if_neg (by norm_num at h; omega)]
    exact .ok (le_refl _)
  | succ n ih =>
    intro u acc h
    unfold digitsLoop
    refine .ite (fun hp => ?_) fun hp => .ok (by omega)
    refine .seq (digitAt_ends _ _) fun c _ => ?_
    have q0 : 0 ≤ u / base := Int.ediv_nonneg (by omega) (by omega)
    have q1 : u / base * 2 ≤ u := by
      have := Int.ediv_mul_le u (b := base) (by omega)
      nlinarith
    obtain ⟨e1, e2⟩ := ih (u / base) (c :: acc) (by rw [pow_succ] at h; omega)
    refine ⟨e1, fun r hr => ?_⟩
    have := e2 r hr
    simp only [List.length_cons] at this
    omega

theorem intToString_fits (V : IntTy) (hV : 0 < V.bits) (v base : Int) (hb : 2 ≤ base) (up : Bool) :
    EndsIn (intToString V v base up) fun s => s.length ≤ V.bits := by
  unfold intToString
  refine .ite (fun _ => .ok (by simp; omega)) fun _ => .bind (unsignedMag_fits V hV v) fun ⟨_, u⟩ _ h => ?_
  obtain ⟨e1, e2⟩ := digitsLoop_fits up base hb V.bits u [] h.2
  exact ⟨e1, fun r hr => by simpa using e2 r hr⟩

theorem sign_len (st : FmtState) (s : List Char) (neg : Bool) : (appendSign st s neg).length ≤ s.length + 1 := by
  unfold appendSign
  split
  · simp
  · split
    · simp
    · split <;> simp

theorem prefix_len (s : List Char) (b : Int) (up : Bool) : (appendAltPrefix s b up).length ≤ s.length + 2 := by
  unfold appendAltPrefix
  split
  · simp
  · split
    · simp
    · split <;> simp

/-- Padding: the text is exactly `width` long, or it is the text itself. -/
theorem aligned_len (st : FmtState) (b : List Char) : (outputAligned st b).length = Max.max b.length st.width.toNat := by
  unfold outputAligned
  by_cases h : st.width ≤ 0 ∨ st.width ≤ (b.length : Int)
  · rw [if_pos h, max_eq_left (by omega)]
  · rw [if_neg h, max_eq_right (by omega)]
    dsimp only
    split
    · simp; omega
    · split
      · simp; omega
      · simp; omega

theorem fracLoop_fits (F : FxTy) (up : Bool) (ep : Int) : ∀ n b used out, 0 ≤ used →
    EndsIn (fracLoop F up ep n b used out) fun r => used ≤ r.2 ∧ r.2 ≤ Max.max used ep ∧ (r.1.length : Int) = out.length + (r.2 - used) ∧ r.2 ≤ used + n := by
  intro n
  induction n with
  | zero =>
    intro b used out h
    exact .ok ⟨le_refl _, le_max_left _ _, by simp, by simp⟩
  | succ n ih =>
    intro b used out h
    unfold fracLoop
    refine .ite (fun hu => .ite (fun _ => .ok ⟨le_refl _, le_max_left _ _, by simp, by push_cast; omega⟩) fun _ => ?_)
      fun _ => .ok ⟨le_refl _, le_max_left _ _, by simp, by push_cast; omega⟩
    refine .seq (.arith _ _) fun _ _ => .seq (.shr _ _ _) fun _ _ => .seq (.arith _ _) fun _ _ => .seq (digitAt_ends _ _) fun c _ => ?_
    obtain ⟨e1, e2⟩ := ih _ (used + 1) (out ++ [c]) (by omega)
    refine ⟨e1, fun r hr => ?_⟩
    obtain ⟨a1, a2, a3, a4⟩ := e2 r hr
    simp only [List.length_append, List.length_cons, List.length_nil] at a3
    push_cast at a3 ⊢
    refine ⟨by omega, ?_, by omega, by omega⟩
    rw [max_eq_right (by omega)] at a2 ⊢
    exact a2

theorem mode_base (c : Char) : 2 ≤ (fmtMode c).2.2 := by
  unfold fmtMode
  repeat' split
  all_goals norm_num

/-- The largest number of characters that can be written without padding: sign, prefix, one digit per bit, and the digits asked for. -/
def fmtBound (F : FxTy) (st : FmtState) : Nat := F.T.bits + 3 + (if st.precision < 0 then 6 else st.precision).toNat

/-- C182, `std::format`: for every layout, specification and number it ends, raises nothing, and the text is at least `width` and at most
`max(width, bits + 3 + precision)` characters long (precision 6 if none is given). -/
theorem C182_format (F : FxTy) (hF : F.Valid) (st : FmtState) (x : Int) :
    EndsIn (formatTo F st x) fun s => st.width ≤ s.length ∧ s.length ≤ Max.max (fmtBound F st) st.width.toNat := by
  have fin : ∀ b : List Char, b.length ≤ Max.max (fmtBound F st) st.width.toNat →
      st.width ≤ (outputAligned st b).length ∧ (outputAligned st b).length ≤ Max.max (fmtBound F st) st.width.toNat := by
    intro b hb
    rw [aligned_len]
    refine ⟨?_, max_le hb (le_max_right _ _)⟩
    have := le_max_right b.length st.width.toNat
    omega
  have hsg : ∀ neg, (appendSign st [] neg).length ≤ 1 := fun neg => by simpa using sign_len st [] neg
  unfold formatTo
  refine .ite (fun _ => ?_) fun _ => ?_
  · unfold formatDebug
    refine .bind (unsignedMag_fits F.T hF.tpos x) fun ⟨neg, u⟩ _ hu => ?_
    dsimp only at hu ⊢
    have hpre : (if st.alt then appendAltPrefix (appendSign st [] neg) 16 false else appendSign st [] neg).length ≤ 3 := by
      have := hsg neg
      have := prefix_len (appendSign st [] neg) 16 false
      split <;> omega
    refine .bind (Q := fun s : List Char => s.length ≤ F.T.bits) (.ite (fun _ => .pure (by have := hF.tpos; simp; omega)) fun _ => ?_)
      fun ds _ hds => .pure (fin _ (le_trans ?_ (le_max_left _ _)))
    · obtain ⟨e1, e2⟩ := digitsLoop_fits false 16 (by norm_num) F.T.bits u [] hu.2
      exact ⟨e1, fun r hr => by simpa using e2 r hr⟩
    · rw [List.length_append]; unfold fmtBound; omega
  · have hb := mode_base st.type
    generalize fmtMode st.type = md at hb ⊢
    obtain ⟨io, up, base⟩ := md
    dsimp only at hb ⊢
    refine .seq (.intPart F _) fun iv _ => .bind (intToString_fits F.T hF.tpos iv base hb up) fun ds _ hds => ?_
    have h1 := hsg (signbit F x)
    have h2 := prefix_len (appendSign st [] (signbit F x)) base up
    generalize hpre : (if (st.alt && io && decide (base ≠ 10)) = true then appendAltPrefix (appendSign st [] (signbit F x)) base up
      else appendSign st [] (signbit F x)) = pre
    have h3 : pre.length ≤ 3 ∧ (io = false → pre.length ≤ 1) := by
      rw [← hpre]
      refine ⟨by split <;> omega, fun h => ?_⟩
      subst h
      simpa using h1
    cases io with
    | true =>
      rw [if_pos rfl]
      refine .pure (fin _ ?_)
      split
      · rename_i c
        simp only [Bool.and_eq_true, decide_eq_true_eq] at c
        refine le_trans ?_ (le_max_right _ _)
        simp only [List.length_append, List.length_replicate]
        omega
      · refine le_trans ?_ (le_max_left _ _)
        rw [List.length_append]; unfold fmtBound; omega
    | false =>
      have h4 := h3.2 rfl
      rw [if_neg (by decide)]
      have rest : ∀ fr, EndsIn (do
          let (body, used) ← (if fr ≠ 0 then fracLoop F up (if st.precision < 0 then 6 else st.precision) F.f fr 0 (pre ++ ds ++ ['.'])
            else Pure.pure (pre ++ ds, 0) : Res (List Char × Int))
          Pure.pure (outputAligned st (if st.type = 'f' ∨ st.type = 'F' then padZeros used (if st.precision < 0 then 6 else st.precision) body else body)))
            fun s => st.width ≤ s.length ∧ s.length ≤ Max.max (fmtBound F st) st.width.toNat := by
        intro fr
        generalize hep : (if st.precision < 0 then (6 : Int) else st.precision) = ep
        have ep0 : 0 ≤ ep := by rw [← hep]; split <;> omega
        refine .bind (Q := fun r => 0 ≤ r.2 ∧ r.2 ≤ ep ∧ (r.1.length : Int) ≤ F.T.bits + 2 + r.2) ?_ fun ⟨body, used⟩ _ ⟨q1, q2, q3⟩ => .pure (fin _ ?_)
        · refine .ite (fun _ => ?_) fun _ => .pure ⟨le_refl _, ep0, ?_⟩
          · obtain ⟨e1, e2⟩ := fracLoop_fits F up ep F.f fr 0 (pre ++ ds ++ ['.']) (le_refl _)
            refine ⟨e1, fun r hr => ?_⟩
            obtain ⟨a1, a2, a3, -⟩ := e2 r hr
            simp only [List.length_append, List.length_cons, List.length_nil] at a3
            push_cast at a3
            rw [max_eq_right ep0] at a2
            exact ⟨a1, a2, by omega⟩
          · rw [List.length_append]; push_cast; omega
        · refine le_trans ?_ (le_max_left _ _)
          unfold fmtBound
          rw [hep]
          dsimp only at q1 q2 q3
          split
          · unfold padZeros
            split
            · split
              · simp only [List.length_append, List.length_replicate, List.length_cons, List.length_nil]; omega
              · simp only [List.length_append, List.length_replicate]; omega
            · omega
          · omega
      refine .seq (.fracPart F _) fun fr _ => ?_
      split
      · exact .seq (.seq (.arith _ _) fun _ => .pure _) fun fr' _ => rest fr'
      · exact .seq (.pure _) fun fr' _ => rest fr'

example : (⟨i32, i64, 31, true⟩ : FxTy).Valid ∧ formatTo fixed32 { width := 9, fill := '*' } (-98304) = .ok "*****-2.5".toList ∧
    formatTo fixed32 { precision := 3, type := 'f' } 65536 = .ok "1.000".toList := by
  refine ⟨by decide, by decide +kernel, by decide +kernel⟩

/-! ### The specification parser -/

theorem parseNum_ends : ∀ s v, Ends (parseNum s v) := by
  intro s
  induction s with
  | nil => intro v; exact .ok _
  | cons c cs ih => intro v; unfold parseNum; exact .ite (.seq (.arith _ _) fun _ => .seq (.arith _ _) fun _ => ih _) (.ok _)

/-- C182, `formatter::parse`: on every text it ends, and the only exception is `std::format_error`. -/
theorem C182_spec (s : List Char) : parseSpec s ≠ .ub .diverges ∧ ∀ e, parseSpec s = .throw e → e = .formatError := by
  have ty : ∀ s st, parseType s st ≠ .ub .diverges ∧ ∀ e, parseType s st = .throw e → e = .formatError := by
    intro s st
    unfold parseType
    split
    · split
      · exact ⟨by simp, by simp⟩
      · split
        · exact ⟨by simp, by simp⟩
        · exact ⟨by simp, fun e h => by cases h; rfl⟩
    · exact ⟨by simp, by simp⟩
  have wd : ∀ s st, Ends (parseWidth s st) := by
    intro s st
    unfold parseWidth
    split
    · exact .ite (.seq (parseNum_ends _ _) fun _ => .pure _) (.pure _)
    · exact .pure _
  have pr : ∀ s st, Ends (parsePrec s st) := by
    intro s st
    unfold parsePrec
    split
    · exact .seq (parseNum_ends _ _) fun _ => .pure _
    · exact .pure _
  have step : ∀ {α β : Type} (a : Res α) (k : α → Res β), Ends a → (∀ x, k x ≠ .ub .diverges ∧ ∀ e, k x = .throw e → e = .formatError) →
      (a >>= k) ≠ .ub .diverges ∧ ∀ e, (a >>= k) = .throw e → e = .formatError := by
    intro α β a k ha hk
    refine ⟨Ends.loops ha fun x _ => (hk x).1, fun e h => ?_⟩
    obtain ⟨x, -, h⟩ := (Ends.throws ha).1 h
    exact (hk x).2 e h
  unfold parseSpec
  dsimp only
  split
  · exact ⟨by simp, by simp⟩
  · split
    · exact ⟨by simp, by simp⟩
    · exact step _ _ (wd _ _) fun _ => step _ _ (pr _ _) fun _ => ty _ _

example : parseSpec ['z', '}'] = .throw .formatError ∧ parseSpec ['<', '5', '}'] = .ok (['}'], { align := some '<', width := 5 }) := by
  constructor <;> decide +kernel

/-! ### Stream extraction with the state of the stream, and CORDIC -/

theorem isdigitC_ends (c : Int) : Ends (isdigitC c) := by unfold isdigitC; ends
theorem accUnit_ends (W : IntTy) (a c : Int) : Ends (accUnit W a c) := by unfold accUnit; ends

/-- A digit seen by `peek` is really there: `get` afterwards takes it away. -/
theorem peek_digit (s : IStr) (h : isdigitC (unitOf s.peek.1) = .ok true) : s.peek.2 = s ∧ s.get.2.rest.length + 1 = s.rest.length := by
  unfold IStr.peek at h ⊢
  unfold IStr.get
  by_cases g : s.good = true
  · rw [if_pos g] at h ⊢
    rw [if_pos g]
    cases hr : s.rest with
    | nil => rw [hr] at h; simp [isdigitC, unitOf] at h
    | cons c cs => exact ⟨rfl, rfl⟩
  · rw [if_neg g] at h; simp [isdigitC, unitOf] at h

theorem peek_rest (s : IStr) : s.peek.2.rest = s.rest := by
  unfold IStr.peek; split
  · cases h : s.rest with
    | nil => simp only
    | cons c cs => exact h
  · rfl

theorem extractInt_ends (W : IntTy) : ∀ n s a, s.rest.length < n → Ends (extractInt W n s a) := by
  intro n
  induction n with
  | zero => intro s a h; omega
  | succ n ih =>
    intro s a h
    unfold extractInt
    dsimp only
    refine .ite (.ok _) (.ite (.ok _) (.bind (isdigitC_ends _) fun d hd => ?_))
    cases d with
    | false => exact .ok _
    | true =>
      rw [if_neg (by decide)]
      refine .seq (accUnit_ends _ _ _) fun _ => ih _ _ ?_
      have hp := peek_digit _ hd
      rw [hp.1]
      have h2 := hp.2
      have e : (s.hasNext.2.peek.2).rest = s.rest := by
        rw [peek_rest]; unfold IStr.hasNext; exact peek_rest s
      rw [e] at h2
      omega

theorem extractFrac_ends (W : IntTy) (l : Int) : ∀ n s a b, s.rest.length < n → Ends (extractFrac W l n s a b) := by
  intro n
  induction n with
  | zero => intro s a b h; omega
  | succ n ih =>
    intro s a b h
    unfold extractFrac
    dsimp only
    refine .ite (.ok _) (.ite (.ok _) (.bind (isdigitC_ends _) fun d hd => ?_))
    cases d with
    | false => exact .ok _
    | true =>
      rw [if_neg (by decide)]
      refine .seq (accUnit_ends _ _ _) fun _ => .seq (mulTen_ends _ _) fun _ => ih _ _ _ ?_
      have hp := peek_digit _ hd
      rw [hp.1]
      have h2 := hp.2
      have e : (s.hasNext.2).rest = s.rest := peek_rest s
      rw [e] at h2
      omega

/-- C182, `operator>>` on a stream in any state, with characters outside ASCII. -/
theorem C182_extract (F : FxTy) (s : IStr) (old : Int) : Ends (extract F s old) := by
  unfold extract
  dsimp only
  refine .ite (.ok _) (.seq (extractInt_ends _ _ _ _ (Nat.lt_succ_self _)) fun r => ?_)
  have fin : ∀ r : Int × IStr, Ends (if decide (unitOf s.hasNext.2.peek.1 = 45) = true then (neg F (fromInternal F r.1) >>= fun n => Pure.pure (n, r.2))
      else Pure.pure (fromInternal F r.1, r.2)) := fun r => .ite (.seq (.neg F _) fun _ => .pure _) (.pure _)
  have mid : ∀ p : Bool × IStr, Ends (if p.1 = true then (do
        let lim ← limGeneric F
        let (dec, dv, s) ← extractFrac F.T lim (p.2.get.2.rest.length + 1) p.2.get.2 0 1
        let v ← scaleParts F.T F.f r.1 dec dv
        Pure.pure (v, s))
      else (do
        let v ← shl F.T r.1 F.f
        Pure.pure (v, p.2) : Res (Int × IStr))) := fun p =>
    .ite (.seq (lim_ends F) fun _ => .seq (extractFrac_ends _ _ _ _ _ _ (Nat.lt_succ_self _)) fun _ => .seq (scale_ends _ _ _ _ _) fun _ => .pure _)
      (.seq (.shl _ _ _) fun _ => .pure _)
  split
  · exact .seq (mid _) fun r => fin r
  · exact .seq (mid (false, _)) fun r => fin r

example : ∃ r, extract fixed32 { rest := [49, 46, 53, 32], fail := true } 7 = .ok (r, { rest := [49, 46, 53, 32], fail := true }) := ⟨0, by decide +kernel⟩

theorem angel_ends (F : FxTy) (i : Nat) : Ends (angel F i) := by
  have h : ∀ s, Ends (cordicAngle F s) := fun s => by
    unfold cordicAngle
    exact .seq (C181_text F _ '0' 0).2.2.1 fun _ => .pure _
  have m : ∀ l, Ends (resMap (cordicAngle F) l) := by
    intro l
    induction l with
    | nil => exact .ok _
    | cons a as ih => unfold resMap; exact .seq (h _) fun _ => .seq ih fun _ => .pure _
  unfold angel
  refine .seq (m _) fun t => ?_
  split
  · exact .ok _
  · exact .ub (by decide)

/-- C182, CORDIC: angle reduction, rotation and the sine and cosine, with any number of iterations, on every layout. -/
theorem C182_cordic (F : FxTy) (count : Nat) (sine : Bool) (x c : Int) : Ends (cordicOptimizeAngel F x c) ∧ Ends (cordic F count sine x) ∧
    Ends (cordicSine F x) := by
  have op : ∀ x c, Ends (cordicOptimizeAngel F x c) := by
    intro x c
    unfold cordicOptimizeAngel
    refine .seq (.cPi F) fun _ => .seq (.intMul F _ _ _) fun _ => .seq (.divInt F _ _ _) fun _ => .seq (.remAssign F _ _) fun _ => ?_
    refine .iseq (.sub F _ _) (.pure _) fun _ => .iseq (.sub F _ _) (.pure _) fun _ => .pure _
  have st : ∀ Q i x y q, Ends (cordicStep F Q i x y q) := by
    intro Q i x y q
    unfold cordicStep
    refine .ite ?_ ?_
    · exact .seq (.shr _ _ _) fun _ => .seq (.arith _ _) fun _ => .seq (.shr _ _ _) fun _ => .seq (.arith _ _) fun _ => .seq (angel_ends F i) fun _ =>
        .seq (.addAssign F _ _) fun _ => .pure _
    · exact .seq (.shr _ _ _) fun _ => .seq (.arith _ _) fun _ => .seq (.shr _ _ _) fun _ => .seq (.arith _ _) fun _ => .seq (angel_ends F i) fun _ =>
        .seq (.subAssign F _ _) fun _ => .pure _
  have lp : ∀ Q n i x y q, Ends (cordicLoop F Q n i x y q) := by
    intro Q n
    induction n with
    | zero => intro i x y q; exact .ok _
    | succ n ih => intro i x y q; unfold cordicLoop; exact .seq (st _ _ _ _ _) fun _ => ih _ _ _ _
  have co : ∀ count sine x, Ends (cordic F count sine x) := by
    intro count sine x
    unfold cordic
    refine .seq (op _ _) fun _ => .seq ?_ fun _ => .seq (lp _ _ _ _ _ _) fun _ => .ite (.seq (.arith _ _) fun _ => .pure _) (.seq (.arith _ _) fun _ => .pure _)
    unfold cordicK
    exact .seq (C181_text F _ '0' 0).2.2.1 fun _ => .pure _
  exact ⟨op x c, co count sine x, co 41 true x⟩

example : cordic fixed32 42 true 65536 = .ub .bounds ∧ cordic fixed32 3 false 65536 = .ok 34821 := by
  refine ⟨by decide +kernel, by decide +kernel⟩

end Eirin.Props
