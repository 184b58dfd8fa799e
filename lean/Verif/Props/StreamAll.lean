import Verif.Props.ParseAll

/-! # Property C119: when `operator>>` inverts `operator<<` -/

namespace Eirin.Props
open Spec

/-- The fraction loop on a digit string, when it does not stop early: it overflows, or the divisor fits. -/
theorem fracLenient_cases {W : IntTy} (h : WS W) (lim : Nat) (t : List Char) : ∀ (ds : List Nat) (a dv : Nat), Decimal ds →
    (∀ p d q, ds = p ++ d :: q → acc a p ≤ lim) → ((dv : Nat) : Int) ≤ W.hi →
    (fracLenient W lim (ds.map (digitOf false) ++ t) a dv = fracLenient W lim t (acc a ds) (dv * 10 ^ ds.length : Nat) ∧
      ((dv * 10 ^ ds.length : Nat) : Int) ≤ W.hi) ∨
    fracLenient W lim (ds.map (digitOf false) ++ t) a dv = .ub .overflow := by
  intro ds
  induction ds with
  | nil => intro a dv _ _ h1; left; simpa using h1
  | cons d ds ih =>
    intro a dv hd hp h1
    have h10 := hd.head
    have ha : a ≤ lim := hp [] d ds rfl
    have e : dv * 10 ^ (ds.length + 1) = dv * 10 * 10 ^ ds.length := by rw [pow_succ]; ring
    rw [List.map_cons, List.cons_append, List.length_cons, e, acc_cons]
    have hu : ∀ x : List Char, fracLenient W lim (digitOf false d :: x) a dv = (do
        let dec' ← accDigit W a (digitOf false d)
        let dv' ← mulTen W dv
        fracLenient W lim x dec' dv') := by
      intro x
      conv_lhs => unfold fracLenient
      rw [if_neg (by rw [isDigit_digitOf h10]; push Not; exact ⟨by exact_mod_cast ha, by simp⟩)]
    rw [hu]
    rcases h.accDigit_or a d h10 with e1 | e1
    · by_cases hn : ((dv * 10 : Nat) : Int) ≤ W.hi
      · rw [e1, h.mulTen_ok hn, Res.bind_ok, Res.bind_ok]
        refine ih _ _ hd.tail ?_ hn
        intro p d' q hq
        have := hp (d :: p) d' q (by rw [hq]; rfl)
        rwa [acc_cons] at this
      · have e2 : mulTen W dv = .ub .overflow := by
          unfold mulTen
          rw [h.com, arith_signed h.sg, if_neg]
          · rfl
          · intro hc; apply hn; have := hc.2; push_cast at this ⊢; exact this
        rw [e1, e2]; exact Or.inr rfl
    · rw [e1]; exact Or.inr rfl

/-- What a successful `scaleParts` returns. -/
theorem scaleParts_val {W : IntTy} (h : WS W) {ip dec dv f : Nat} (hf : f < W.bits) {v : Int} (hip : ((ip * 2 ^ f : Nat) : Int) ≤ W.hi)
    (e : scaleParts W f ip dec dv = .ok v) : v = ip * 2 ^ f + Int.tdiv (W.wrap (dec * 2 ^ f)) dv ∧ W.InRange v := by
  refine ⟨?_, scaleParts_inRange h e⟩
  unfold scaleParts at e
  rw [h.shl_ok hf hip, Res.bind_ok, h.prom] at e
  unfold shl at e
  rw [h.prom, if_pos hf, Res.bind_ok] at e
  unfold cdiv at e
  split at e
  · cases e
  · split at e
    · cases e
    · rw [Res.bind_ok, arith_signed h.sg] at e
      split at e
      · rw [← Res.ok.inj e]; push_cast; rfl
      · cases e

/-- The conditions under which the text of a value is read back: the fraction digits, taken as an integer and scaled, fit the storage type;
so does the decimal divisor; and the precision cut-off comes no earlier than the last digit. -/
def ReadsBack (F : FxTy) (ds : List Nat) : Prop :=
  ((digitsVal 10 ds * 2 ^ F.f : Nat) : Int) ≤ F.T.hi ∧ ((10 ^ ds.length : Nat) : Int) ≤ F.T.hi ∧ digitsVal 10 ds / 10 ≤ (2 ^ F.f - 1) / 10

theorem reads_only {F : FxTy} (h : SW F) {neg : Bool} {is ds : List Nat} (his : Decimal is) (hds : Decimal ds) {x : Nat}
    (hx : x = digitsVal 10 is * 2 ^ F.f + digitsVal 10 ds * 2 ^ F.f / 10 ^ ds.length) (hxhi : (x : Int) ≤ F.T.hi) (old : Int)
    (e : streamIn F (numeral neg is (some ds)) old = .ok (if neg then -(x : Int) else x, [])) : ReadsBack F ds := by
  have hps := ps_of h
  have hT := ws_T h
  have hpos : 0 < 2 ^ F.f := by positivity
  have hfb : F.f < F.T.bits := by have := f_le h; omega
  have hipT : ((digitsVal 10 is * 2 ^ F.f : Nat) : Int) ≤ F.T.hi := le_trans (by rw [hx]; exact_mod_cast Nat.le_add_right _ _) hxhi
  have hip1 : ((acc 0 is : Nat) : Int) ≤ F.T.hi := le_trans (by
    have : digitsVal 10 is ≤ digitsVal 10 is * 2 ^ F.f := Nat.le_mul_of_pos_right _ hpos
    exact_mod_cast this) hipT
  obtain ⟨p, q, epq, hq, hp⟩ := cut_split (cutLim F) ds 0
  have hpd : Decimal p := by rw [epq] at hds; exact hds.left
  have e1 : intLenient F.T (is.map (digitOf false) ++ '.' :: ds.map (digitOf false)) 0 =
      .ok ((digitsVal 10 is : Int), '.' :: ds.map (digitOf false)) := by
    have := hT.intLenient_digits ('.' :: ds.map (digitOf false)) is 0 his hip1
    rw [Nat.cast_zero] at this
    rw [this]
    unfold intLenient
    rw [if_pos rfl]; rfl
  have hone : ((1 : Nat) : Int) ≤ F.T.hi := by have := h.d_le; have := SW.dpos (F := F); push_cast; omega
  unfold streamIn at e
  split at e
  · rename_i h0; unfold numeral at h0; simp at h0
  rw [takeSign_numeral neg his] at e
  simp only [numeral, Bool.false_eq_true, if_false, List.nil_append, e1, Res.bind_ok, hps.limG] at e
  rcases fracLenient_cases hT (cutLim F) (q.map (digitOf false)) p 0 1 hpd hp hone with ⟨e2, hten⟩ | e2
  · rw [← List.map_append, ← epq, Nat.cast_zero, Nat.cast_one, one_mul] at e2
    rw [one_mul] at hten
    have e3 : fracLenient F.T (cutLim F) (q.map (digitOf false)) (acc 0 p) ((10 ^ p.length : Nat) : Int) =
        .ok ((acc 0 p : Int), ((10 ^ p.length : Nat) : Int), q.map (digitOf false)) := by
      cases q with
      | nil => rfl
      | cons d q =>
        rw [List.map_cons]
        unfold fracLenient
        rw [if_pos (Or.inl (by exact_mod_cast hq (by simp)))]
    rw [e2, e3] at e
    simp only [Res.bind_ok] at e
    cases hs : scaleParts F.T F.f (digitsVal 10 is) (acc 0 p) ((10 ^ p.length : Nat) : Int) with
    | ub u => rw [hs] at e; cases e
    | throw u => rw [hs] at e; cases e
    | ok v =>
      obtain ⟨hv, hvr⟩ := scaleParts_val hT hfb hipT hs
      rw [hs] at e
      simp only [Res.bind_ok, Res.pure_eq] at e
      rw [h.from_ok hvr] at e
      have hres : v = x ∧ q.map (digitOf false) = [] := by
        cases neg
        · have := Res.ok.inj e
          simpa using this
        · rw [if_pos rfl] at e
          by_cases hn : F.T.InRange (-v)
          · rw [h.neg_ok hn, Res.bind_ok] at e
            have := Res.ok.inj e
            simpa using this
          · have : Eirin.neg F v = .ub .overflow := by unfold Eirin.neg; rw [h.arith_ub hn]; rfl
            rw [this] at e; cases e
      obtain ⟨hvx, hq0⟩ := hres
      have hq1 : q = [] := List.map_eq_nil_iff.1 hq0
      rw [hq1, List.append_nil] at epq
      subst epq
      set D := 10 ^ ds.length with hDdef
      set k := acc 0 ds * 2 ^ F.f / D with hkdef
      have hD0 : 0 < D := by positivity
      refine ⟨?_, hten, ?_⟩
      · by_contra hc
        push Not at hc
        have hc' : F.T.hi < ((acc 0 ds * 2 ^ F.f : Nat) : Int) := hc
        set w := F.T.wrap ((acc 0 ds : Int) * 2 ^ F.f) with hw
        have hwr := (IntTy.wrap_inRange (t := F.T) ((acc 0 ds : Int) * 2 ^ F.f) h.tpos).2
        rw [← hw] at hwr
        have hk1 : acc 0 ds * 2 ^ F.f < (k + 1) * D := (Nat.div_lt_iff_lt_mul hD0).1 (Nat.lt_succ_self _)
        have hdw : w ≤ (acc 0 ds : Int) * 2 ^ F.f - 2 ^ F.T.bits := by
          obtain ⟨j, hj⟩ := IntTy.wrap_dvd F.T ((acc 0 ds : Int) * 2 ^ F.f)
          rw [← hw] at hj
          push_cast at hc'
          have h1 : 0 < j := by
            by_contra hjn
            have : (2 : Int) ^ F.T.bits * j ≤ 0 := mul_nonpos_of_nonneg_of_nonpos (by positivity) (by omega)
            omega
          have h2 : (2 : Int) ^ F.T.bits * 1 ≤ 2 ^ F.T.bits * j := mul_le_mul_of_nonneg_left (by omega) (by positivity)
          omega
        have hhi : F.T.hi < 2 ^ F.T.bits := by
          rw [h.hi_eq, IntTy.two_pow_pred F.T.bits h.tpos]
          have : (0 : Int) < 2 ^ (F.T.bits - 1) := by positivity
          omega
        have hwk : w < k * (D : Int) := by
          have h3 : ((acc 0 ds * 2 ^ F.f : Nat) : Int) < (((k + 1) * D : Nat) : Int) := by exact_mod_cast hk1
          push_cast at h3
          have h4 : ((k : Int) + 1) * D = k * D + D := by ring
          omega
        have hkt : Int.tdiv w (D : Int) = k := by
          have hkx : x = digitsVal 10 is * 2 ^ F.f + k := by rw [hx, digitsVal_eq_acc ds]
          rw [hvx, hkx] at hv; push_cast at hv; linarith
        obtain ⟨t1, t2⟩ := tdiv_mul_spec w (show (0 : Int) < (D : Int) by exact_mod_cast hD0)
        rw [hkt] at t1 t2
        rcases le_total 0 w with h3 | h3
        · have := t1 h3; omega
        · have hk0 : (k : Int) * D ≤ 0 := (t2 h3).1
          have h5 : 0 ≤ (k : Int) * D := by positivity
          have h6 : k * D = 0 := by
            have : (k : Int) * D = 0 := by omega
            exact_mod_cast this
          have h7 : (k + 1) * D = D := by rw [add_mul, one_mul, h6, zero_add]
          rw [h7] at hk1
          have h8 : ((acc 0 ds * 2 ^ F.f : Nat) : Int) < (D : Int) := by exact_mod_cast hk1
          omega
      · rcases List.eq_nil_or_concat ds with hh | ⟨l, d, hh⟩
        · rw [hh]; simp [digitsVal]
        · rw [List.concat_eq_append] at hh
          have h1 := hp l d [] hh
          have h2 : d < 10 := hds d (by rw [hh]; simp)
          rw [digitsVal_eq_acc, hh, acc_append, acc_cons, acc_nil]
          have : (acc 0 l * 10 + d) / 10 = acc 0 l := by omega
          rw [this]; exact h1
  · rw [← List.map_append, ← epq, Nat.cast_zero, Nat.cast_one] at e2
    rw [e2] at e; cases e

/-- C119: on every signed layout of 32 or 64 bits and for every numeral in range, `operator>>` reads the whole numeral, giving it truncated
to a multiple of one ulp with its sign, if and only if its fraction digits satisfy `ReadsBack`. -/
theorem C119_reads (F : FxTy) (h : SW F) (h8 : 2 ^ F.f + 8 ≤ F.T.hi) (neg : Bool) (is : List Nat) (fs : Option (List Nat)) (his : Decimal is)
    (hfs : Decimal (fracDigits fs)) (hlt : numeralMag is fs < 2 ^ (F.T.bits - 1 - F.f)) (hne : numeral neg is fs ≠ []) (old : Int) :
    ∃ m : Nat, IsFloor F (numeralMag is fs) m ∧
      (streamIn F (numeral neg is fs) old = .ok (if neg then -(m : Int) else m, []) ↔ ReadsBack F (fracDigits fs)) := by
  have hp : (0 : ℚ) < 2 ^ F.f := by positivity
  have hm0 : 0 ≤ numeralMag is fs := by unfold numeralMag; have := fracVal_nonneg (fracDigits fs); positivity
  have hB : ((2 ^ (F.T.bits - 1 - F.f) : Nat) : ℚ) = 2 ^ (F.T.bits - 1 - F.f) := by push_cast; rfl
  have hd : digitsVal 10 is < 2 ^ (F.T.bits - 1 - F.f) := by
    rw [← hB] at hlt; exact (mag_lt_iff (F := F) is hfs _).1 hlt
  refine ⟨⌊numeralMag is fs * 2 ^ F.f⌋₊, ?_, ?_⟩
  · have h1 := Nat.floor_le (a := numeralMag is fs * 2 ^ F.f) (by positivity)
    have h2 := Nat.lt_floor_add_one (numeralMag is fs * 2 ^ F.f)
    unfold IsFloor val ulp
    rw [← add_div, div_le_iff₀ hp, lt_div_iff₀ hp]
    exact ⟨by exact_mod_cast h1, by exact_mod_cast h2⟩
  constructor
  · intro e
    cases fs with
    | none =>
      refine ⟨?_, ?_, ?_⟩ <;> simp only [fracDigits, Option.getD_none, digitsVal_eq_acc, acc_nil, List.length_nil, zero_mul, pow_zero, Nat.zero_div, Nat.zero_le]
      · exact h.zero_in.2
      · have := h.d_le; have := SW.dpos (F := F); push_cast; omega
    | some ds =>
      refine reads_only h his hfs ?_ ?_ old e
      · unfold numeralMag; rw [fracVal_eq]; exact floor_split _ _ _ _
      · have h1 := hi_succ h
        have h2 : numeralMag is (some ds) * 2 ^ F.f < ((2 ^ (F.T.bits - 1 - F.f) * 2 ^ F.f : Nat) : ℚ) := by
          push_cast; exact mul_lt_mul_of_pos_right hlt hp
        have h3 := (Nat.floor_lt (by positivity)).2 h2
        have h4 : ((⌊numeralMag is (some ds) * 2 ^ F.f⌋₊ : Nat) : Int) < ((2 ^ (F.T.bits - 1 - F.f) * 2 ^ F.f : Nat) : Int) := by exact_mod_cast h3
        push_cast at h4
        omega
  · rintro ⟨r1, r2, r3⟩
    have hcl : ((cutLim F * 10 + 9 : Nat) : Int) ≤ F.T.hi := by
      have h1 : cutLim F * 10 + 9 ≤ 2 ^ F.f + 8 := by
        unfold cutLim
        have := Nat.one_le_two_pow (n := F.f)
        omega
      have h2 : ((cutLim F * 10 + 9 : Nat) : Int) ≤ ((2 ^ F.f + 8 : Nat) : Int) := by exact_mod_cast h1
      push_cast at h2 ⊢
      omega
    have e := stream_numeral (ps_of h) (ws_T h) neg his hfs hd r1 r2 r3 hcl [] (by simp) (by rw [List.append_nil]; exact hne) old
    rw [List.append_nil] at e
    exact e

/-- C119: on every signed layout of 32 or 64 bits that can be printed, and for every value other than the minimum, `operator>>` reads
back exactly what `operator<<` wrote, leaving nothing in the stream, if and only if the decimal digits `ds` of its fraction satisfy
`ReadsBack`. -/
theorem C119_exact (F : FxTy) (h : SW F) (hfit : 10 * 2 ^ F.f ≤ F.T.hi) (x : Int) (hx : Storable F x) (hmin : x ≠ F.T.lo)
    (oct up : Bool) (old : Int) :
    ∃ is ds, streamOut F x false true oct up = .ok (numeral (decide (x < 0)) is (if ds = [] then none else some ds)) ∧
      Decimal is ∧ Decimal ds ∧ |val F x| = digitsVal 10 is + fracVal 10 ds ∧
      (streamIn F (numeral (decide (x < 0)) is (if ds = [] then none else some ds)) old = .ok (x, []) ↔ ReadsBack F ds) := by
  obtain ⟨is, fs, hs, his, hfs, hne, hlast, hnone, hmag⟩ := printed_any F h hfit x hx oct up
  have hp : (0 : ℚ) < 2 ^ F.f := by positivity
  have efs : fs = if fracDigits fs = [] then none else some (fracDigits fs) := by
    by_cases h0 : fracDigits fs = []
    · rw [if_pos h0, hnone h0]
    · rw [if_neg h0]
      cases fs with
      | none => exact absurd rfl h0
      | some d => rfl
  have hav := abs_val_raw F x
  have hxhi : |x| ≤ F.T.hi := by
    have := h.lo_hi
    obtain ⟨a, b⟩ := hx
    rw [abs_le]; omega
  refine ⟨is, fracDigits fs, by rw [← efs]; exact hs, his, hfs, by rw [← hmag]; rfl, ?_⟩
  rw [← efs]
  have hlt : numeralMag is fs < 2 ^ (F.T.bits - 1 - F.f) := by
    rw [hmag, hav, div_lt_iff₀ hp]
    have h1 := hi_succ h
    have h2 : |x| < 2 ^ (F.T.bits - 1 - F.f) * 2 ^ F.f := by omega
    exact_mod_cast h2
  have h8 : 2 ^ F.f + 8 ≤ F.T.hi := by have := SW.dpos (F := F); omega
  obtain ⟨m, ⟨m1, m2⟩, hiff⟩ := C119_reads F h h8 (decide (x < 0)) is fs his hfs hlt (by
      unfold numeral
      intro hc
      simp [hne] at hc) old
  have hm : (m : Int) = |x| := by
    rw [hmag, hav] at m1 m2
    unfold val at m1
    unfold ulp val at m2
    rw [div_le_div_iff_of_pos_right hp] at m1
    rw [← add_div, div_lt_div_iff_of_pos_right hp] at m2
    have a' : (m : Int) ≤ |x| := by exact_mod_cast m1
    have b' : |x| < m + 1 := by exact_mod_cast m2
    omega
  rw [← hiff, hm]
  have hsgn : x = if decide (x < 0) = true then -|x| else |x| := by
    by_cases h0 : x < 0
    · rw [if_pos (by simpa using h0), abs_of_neg h0]; omega
    · rw [if_neg (by simpa using h0), abs_of_nonneg (by omega)]
  rw [← hsgn]

example : ReadsBack fixed32 [0, 3, 1, 2, 5] ∧ ¬ ReadsBack fixed32 [3, 4, 3, 7, 5] ∧
    streamIn fixed32 "7.03125".toList 0 = .ok (460800, []) ∧ streamIn fixed32 "7.34375".toList 0 = .ok (438331, []) ∧
    -- with four fractional bits even a sixteenth is lost
    ¬ ReadsBack ⟨i32, i64, 4, false⟩ [0, 6, 2, 5] ∧ streamIn ⟨i32, i64, 4, false⟩ "0.0625".toList 7 = .ok (0, ['2', '5']) := by
  unfold ReadsBack; decide +kernel

end Eirin.Props
