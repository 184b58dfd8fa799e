import Verif.Props.LnUnsigned

/-! # C145: the logarithms on 8- and 16-bit layouts -/

namespace Eirin.Props
open Eirin Spec

/-- The storage types narrower than `int`. -/
abbrev Narrow (F : FxTy) : Prop := F.T.bits = 8 ∨ F.T.bits = 16

/-- Narrow layouts that can hold every number below two. -/
structure NL (F : FxTy) : Prop where
  valid : F.Valid
  narrow : Narrow F
  room : 2 * 2 ^ F.f ≤ F.T.hi + 1

theorem int32_in {n : Int} (h1 : -2147483648 ≤ n) (h2 : n ≤ 2147483647) : (⟨32, true⟩ : IntTy).InRange n := ⟨h1, h2⟩

namespace NL
variable {F : FxTy} (h : NL F)
include h

theorem p : F.T.promote = ⟨32, true⟩ := by
  have := h.narrow
  unfold IntTy.promote
  rw [if_pos (by omega)]

theorem tpos : 0 < F.T.bits := h.valid.tpos

theorem rng {v : Int} (hv : F.T.InRange v) : -32768 ≤ v ∧ v ≤ 65535 := by
  obtain ⟨a, b⟩ := hv
  unfold IntTy.lo IntTy.hi at *
  rcases h.narrow with e | e <;> rw [e] at a b <;> split at a <;> norm_num at a b <;> omega

theorem p15 : 0 < (2 : Int) ^ F.f ∧ (2 : Int) ^ F.f ≤ 32768 := by
  refine ⟨by positivity, ?_⟩
  have := h.narrow
  have := h.valid.2.2.2.2.2
  have : (2 : Int) ^ F.f ≤ 2 ^ 15 := pow_le_pow_right₀ (by norm_num) (by omega)
  norm_num at this; exact this

omit h in
theorem lo0 : F.T.lo ≤ 0 := by unfold IntTy.lo; split <;> [exact neg_nonpos.2 (by positivity); exact le_rfl]

/-- Values between zero and two are storable. -/
theorem low {v : Int} (a : 0 ≤ v) (b : v < 2 * 2 ^ F.f) : F.T.InRange v := ⟨NL.lo0.trans a, by have := h.room; omega⟩

theorem one : oneShl F = 2 ^ F.f := by
  have := h.p15
  show F.T.promote.wrap _ = _
  rw [h.p, IntTy.wrap_of_inRange (by norm_num) (int32_in (by omega) (by omega))]

theorem two : twoShl F = 2 * 2 ^ F.f := by
  have := h.p15
  have h2 : F.T.InRange 2 := by
    have hf := h.valid.2.2.2.2.1
    have : (2 : Int) ^ 1 ≤ 2 ^ F.f := pow_le_pow_right₀ (by norm_num) hf
    exact h.low (by norm_num) (by omega)
  show F.T.promote.wrap (F.T.wrap 2 * 2 ^ F.f) = _
  rw [h.p, IntTy.wrap_of_inRange h.tpos h2, IntTy.wrap_of_inRange (by norm_num) (int32_in (by omega) (by omega))]

theorem ofInt0 : ofInt F 0 = 0 := by
  have h0 : F.T.InRange 0 := h.low le_rfl (by have := h.p15; omega)
  unfold ofInt
  have e : ∀ t : IntTy, t.wrap 0 = 0 := by
    intro t; unfold IntTy.wrap; split <;> simp
  rw [e, zero_mul, e, e]

/-- Arithmetic on storage values is done in `int` and cannot overflow. -/
theorem arith {n : Int} (a : -200000 ≤ n) (b : n ≤ 200000) : Eirin.arith F.P n = .ok n := by
  show Eirin.arith F.T.promote n = _
  rw [h.p]
  unfold Eirin.arith
  rw [if_pos rfl, if_pos (int32_in (by omega) (by omega))]

theorem up {x y : Int} (j : Nat) (hx : 0 < x) : ∀ fuel, j < fuel → x * 2 ^ j < 2 * 2 ^ F.f → 2 ^ F.f ≤ x * 2 ^ j →
    log2Up F fuel x (F.T.wrap y) = .ok (x * 2 ^ j, F.T.wrap (y - j * 2 ^ F.f)) := by
  have hp := h.p15
  induction j generalizing x y with
  | zero =>
    intro fuel hf a b
    obtain ⟨m, rfl⟩ : ∃ m, fuel = m + 1 := ⟨fuel - 1, by omega⟩
    rw [log2Up, h.one, if_neg (by simpa using b)]
    simp
  | succ j ih =>
    intro fuel hf a b
    obtain ⟨m, rfl⟩ : ∃ m, fuel = m + 1 := ⟨fuel - 1, by omega⟩
    have hlt : x < 2 ^ F.f := LG.lt_of_pow (F := F) hx a
    have hx2 : F.T.InRange (x * 2) := h.low (by omega) (by omega)
    have hs : shl F.T x 1 = .ok (x * 2) := by
      unfold shl
      rw [h.p, if_pos (by norm_num), pow_one, IntTy.wrap_of_inRange (by norm_num) (int32_in (by omega) (by omega))]
    obtain ⟨r1, r2⟩ := h.rng (IntTy.wrap_inRange y h.tpos)
    rw [log2Up, h.one, if_pos hlt, hs, Res.bind_ok, h.arith (by omega) (by omega), Res.bind_ok, IntTy.wrap_of_inRange h.tpos hx2]
    have e1 : x * 2 ^ (j + 1) = x * 2 * 2 ^ j := by rw [pow_succ]; ring
    have e2 : y - ((j + 1 : Nat) : Int) * 2 ^ F.f = y - 2 ^ F.f - j * 2 ^ F.f := by push_cast; ring
    rw [e1, e2, sub_eq_add_neg _ ((2 : Int) ^ F.f), wrap_add_left, ← sub_eq_add_neg]
    rw [e1] at a b
    exact ih (by omega) m (by omega) a b

theorem up_ge {x y : Int} {fuel : Nat} (hx : 2 ^ F.f ≤ x) (hf : 0 < fuel) : log2Up F fuel x y = .ok (x, y) := by
  obtain ⟨m, rfl⟩ : ∃ m, fuel = m + 1 := ⟨fuel - 1, by omega⟩
  rw [log2Up, h.one, if_neg (by omega)]

theorem down {x y : Int} (j : Nat) (hx0 : 0 ≤ x) (hx1 : F.T.InRange x) : ∀ fuel, j < fuel → 2 ^ F.f ≤ x / 2 ^ j → x / 2 ^ j < 2 * 2 ^ F.f →
    log2Down F fuel x (F.T.wrap y) = .ok (x / 2 ^ j, F.T.wrap (y + j * 2 ^ F.f)) := by
  have hp := h.p15
  induction j generalizing x y with
  | zero =>
    intro fuel hf a b
    obtain ⟨m, rfl⟩ : ∃ m, fuel = m + 1 := ⟨fuel - 1, by omega⟩
    simp only [pow_zero, Int.ediv_one] at a b
    rw [log2Down, h.two, if_neg (by omega)]
    simp
  | succ j ih =>
    intro fuel hf a b
    obtain ⟨m, rfl⟩ : ∃ m, fuel = m + 1 := ⟨fuel - 1, by omega⟩
    have e1 : x / 2 ^ (j + 1) = x / 2 / 2 ^ j := by rw [pow_succ, mul_comm, Int.ediv_ediv_of_nonneg (by norm_num)]
    have hge : x ≥ 2 * 2 ^ F.f := by
      rw [e1] at a
      have : x / 2 / 2 ^ j ≤ x / 2 := Int.ediv_le_self _ (by omega)
      omega
    have hx2 : F.T.InRange (x / 2) := ⟨NL.lo0.trans (by omega), by have := hx1.2; omega⟩
    obtain ⟨r1, r2⟩ := h.rng (IntTy.wrap_inRange y h.tpos)
    rw [log2Down, h.two, if_pos hge, h.one, h.arith (by omega) (by omega), Res.bind_ok, IntTy.wrap_of_inRange h.tpos hx2, wrap_add_left]
    have e2 : y + ((j + 1 : Nat) : Int) * 2 ^ F.f = y + 2 ^ F.f + j * 2 ^ F.f := by push_cast; ring
    rw [e1, e2]
    rw [e1] at a b
    exact ih (by omega) hx2 m (by omega) a b

/-- The squares of the third loop fit the intermediate type. -/
theorem sq_in {v : Int} (a : 0 ≤ v) (b : v < 4 * 2 ^ F.f * 2 ^ F.f) : F.I.promote.InRange v ∧ F.f < F.I.promote.bits ∧ 0 < F.I.promote.bits := by
  obtain ⟨hv1, hv2, hv3, hv4, hv5, hv6⟩ := h.valid
  have hn := h.narrow
  have hroom := h.room
  have e4 : (4 : Int) * 2 ^ F.f * 2 ^ F.f = 2 ^ (2 + F.f + F.f) := by rw [pow_add, pow_add]; norm_num
  rw [e4] at b
  have hb : 2 * F.T.bits ≤ F.I.bits := by omega
  have hgo : ∀ m : Nat, 2 + F.f + F.f ≤ m → v ≤ 2 ^ m - 1 := by
    intro m hm
    have : (2 : Int) ^ (2 + F.f + F.f) ≤ 2 ^ m := pow_le_pow_right₀ (by norm_num) hm
    omega
  have hs : F.T.signed = true → F.f + 2 ≤ F.T.bits := by
    intro hs
    unfold IntTy.hi at hroom
    rw [if_pos hs] at hroom
    by_contra hc
    have : F.T.bits - 1 ≤ F.f := by omega
    have : (2 : Int) ^ (F.T.bits - 1) ≤ 2 ^ F.f := pow_le_pow_right₀ (by norm_num) this
    have : (0 : Int) < 2 ^ F.f := by positivity
    omega
  by_cases h32 : F.I.bits < 32
  · have e : F.I.promote = ⟨32, true⟩ := by unfold IntTy.promote; rw [if_pos h32]
    rw [e]
    refine ⟨⟨?_, ?_⟩, by show F.f < 32; omega, by norm_num⟩
    · exact le_trans (by decide) a
    · exact hgo 31 (by omega)
  · have e : F.I.promote = F.I := by unfold IntTy.promote; rw [if_neg h32]
    rw [e]
    refine ⟨⟨?_, ?_⟩, by omega, by omega⟩
    · exact le_trans (by unfold IntTy.lo; split <;> [exact neg_nonpos.2 (by positivity); exact le_rfl]) a
    · unfold IntTy.hi
      by_cases hc : F.I.signed = true
      · rw [if_pos hc]; exact hgo _ (by have := hs (by rw [← hv4]; exact hc); omega)
      · rw [if_neg hc]; exact hgo _ (by omega)

theorem q_in {v : Int} (a : 0 ≤ v) (b : v < 4 * 2 ^ F.f) : F.I.InRange v ∧ 0 < F.I.bits := by
  obtain ⟨hv1, hv2, hv3, hv4, hv5, hv6⟩ := h.valid
  have hn := h.narrow
  have e4 : (4 : Int) * 2 ^ F.f = 2 ^ (2 + F.f) := by rw [pow_add]; norm_num
  rw [e4] at b
  have hgo : ∀ m : Nat, 2 + F.f ≤ m → v ≤ 2 ^ m - 1 := by
    intro m hm
    have : (2 : Int) ^ (2 + F.f) ≤ 2 ^ m := pow_le_pow_right₀ (by norm_num) hm
    omega
  refine ⟨⟨le_trans (by unfold IntTy.lo; split <;> [exact neg_nonpos.2 (by positivity); exact le_rfl]) a, ?_⟩, by omega⟩
  unfold IntTy.hi
  split <;> exact hgo _ (by omega)

theorem frac (n : Nat) (hn : n ≤ F.f) {z y b : Int} (a1 : 2 ^ F.f ≤ z) (a2 : z < 2 * 2 ^ F.f) (hbb : b = 2 ^ n / 2) :
    log2Frac F n z (F.T.wrap y) b = .ok (F.T.wrap (y + fracOut F.f n z)) := by
  have hp := h.p15
  induction n generalizing z y b with
  | zero => rw [log2Frac, fracOut]; simp
  | succ n ih =>
    have hb' : b = 2 ^ n := by rw [hbb, pow_succ]; omega
    have hb1 : (2 : Int) ^ n ≤ 2 ^ F.f := pow_le_pow_right₀ (by norm_num) (by omega)
    have hb0 : (0 : Int) < 2 ^ n := by positivity
    obtain ⟨n1, n2⟩ := next_mant a1 a2
    obtain ⟨hsq, s1, s2⟩ := h.sq_in (v := z * z) (by nlinarith) (by nlinarith)
    obtain ⟨hq, q0⟩ := h.q_in (v := z * z / 2 ^ F.f) (by omega) (by omega)
    have hsh : shr F.I (z * z) F.f = .ok (z * z / 2 ^ F.f) := by
      unfold shr; rw [if_pos s1]
    obtain ⟨r1, r2⟩ := h.rng (IntTy.wrap_inRange y h.tpos)
    rw [log2Frac, arith_of_inRange s2 hsq, Res.bind_ok, hsh, Res.bind_ok]
    simp only [IntTy.wrap_of_inRange q0 hq, h.two]
    rw [fracOut]
    by_cases hc : 2 * 2 ^ F.f ≤ z * z / 2 ^ F.f
    · rw [if_pos hc, if_pos hc, hb', h.arith (by omega) (by omega), Res.bind_ok, wrap_add_left]
      rw [ih (by omega) (by omega) (by omega) rfl, add_assoc]
    · rw [if_neg hc, if_neg hc]
      rw [ih (by omega) n1 (by omega) (by rw [hb'])]

/-- What `log2` computes: the exact result of the algorithm, reduced to the storage type. -/
theorem log2_raw {x : Int} (hx0 : 0 < x) (hx1 : F.T.InRange x) :
    ∃ m k, Norm F.f x m k ∧ -F.f ≤ k ∧ (2 : Int) ^ (k + F.f).toNat ≤ x ∧ x < 2 * 2 ^ (k + F.f).toNat ∧
      log2 F x = .ok (F.T.wrap (k * 2 ^ F.f + fracOut F.f F.f m)) := by
  have hp := h.p15
  have hf0 := h.valid.2.2.2.2.1
  have hf1 := h.valid.2.2.2.2.2
  have hnar := h.narrow
  obtain ⟨m, k, hn, hk, e1, e2⟩ := norm_exists F.f hx0
  refine ⟨m, k, hn, hk, e1, e2, ?_⟩
  have hpf : (2 : Int) ^ F.f = 2 * 2 ^ (F.f - 1) := by rw [← pow_succ']; congr 1; omega
  have hp1 : (0 : Int) < 2 ^ (F.f - 1) := by positivity
  have hsl : shl u32 1 (F.f - 1) = .ok (2 ^ (F.f - 1)) := by
    unfold shl
    rw [if_pos (by show F.f - 1 < 32; omega), one_mul]
    rw [show u32.promote = u32 by rfl, IntTy.wrap_of_inRange (t := u32) (by decide)
      ⟨by rw [show u32.lo = 0 by rfl]; omega, by rw [show u32.hi = 2 ^ 32 - 1 by rfl]; omega⟩]
  have hbT : F.T.InRange (2 ^ (F.f - 1)) := h.low (by omega) (by omega)
  have hw0 : (0 : Int) = F.T.wrap 0 := (IntTy.wrap_of_inRange h.tpos (h.low le_rfl (by omega))).symm
  have hk2 : k + F.f ≤ F.T.bits := by
    by_contra hc
    have h1 : (2 : Int) ^ F.T.bits ≤ 2 ^ (k + F.f).toNat := pow_le_pow_right₀ (by norm_num) (by omega)
    have h2 := hx1.2
    unfold IntTy.hi at h2
    have h3 : (2 : Int) ^ (F.T.bits - 1) ≤ 2 ^ F.T.bits := pow_le_pow_right₀ (by norm_num) (by omega)
    split at h2 <;> omega
  unfold log2
  rw [hsl, Res.bind_ok]
  simp only [IntTy.wrap_of_inRange h.tpos hbT]
  rw [if_neg (by rw [h.ofInt0, le_iff]; omega)]
  have hfr : log2Frac F F.f m (F.T.wrap (k * 2 ^ F.f)) (2 ^ (F.f - 1)) = .ok (F.T.wrap (k * 2 ^ F.f + fracOut F.f F.f m)) :=
    h.frac F.f le_rfl hn.lo hn.hi (by rw [hpf]; omega)
  have hfin : fromInternal F (F.T.wrap (k * 2 ^ F.f + fracOut F.f F.f m)) = F.T.wrap (k * 2 ^ F.f + fracOut F.f F.f m) := by
    unfold fromInternal; rw [IntTy.wrap_wrap]
  have hlo := hn.lo; have hhi := hn.hi
  by_cases hneg : k < 0
  · obtain ⟨j, hj⟩ : ∃ j : Nat, k = -j := ⟨(-k).toNat, by omega⟩
    have em : m = x * 2 ^ j := by rw [hn.neg hneg]; congr 2; omega
    have := h.up (y := 0) j hx0 (F.T.bits + 1) (by omega) (by rw [← em]; exact hhi) (by rw [← em]; exact hlo)
    rw [← hw0, zero_sub, ← neg_mul, ← hj, ← em] at this
    rw [this, Res.bind_ok]
    have := h.down (x := m) (y := k * 2 ^ F.f) 0 (by omega) (h.low (by omega) hhi) (F.T.bits + 1) (by omega) (by simpa using hlo) (by simpa using hhi)
    simp only [pow_zero, Int.ediv_one, Nat.cast_zero, zero_mul, add_zero] at this
    simp only
    rw [this, Res.bind_ok]
    simp only
    rw [hfr, Res.bind_ok, hfin]
    rfl
  · obtain ⟨j, hj⟩ : ∃ j : Nat, k = j := ⟨k.toNat, by omega⟩
    have em : m = x / 2 ^ j := by rw [hn.pos (by omega)]; congr 2; omega
    have hxge : 2 ^ F.f ≤ x := le_trans hlo (by rw [em]; exact Int.ediv_le_self _ hx0.le)
    rw [h.up_ge hxge (by omega), Res.bind_ok]
    have := h.down (x := x) (y := 0) j hx0.le hx1 (F.T.bits + 1) (by omega) (by rw [← em]; exact hlo) (by rw [← em]; exact hhi)
    rw [← hw0, zero_add, ← hj, ← em] at this
    simp only
    rw [this, Res.bind_ok]
    simp only
    rw [hfr, Res.bind_ok, hfin]
    rfl

end NL

/-- The ends of the range are multiples of one. -/
theorem NL.ends {F : FxTy} (h : NL F) : ∃ a b : Int, F.T.lo = a * 2 ^ F.f ∧ F.T.hi + 1 = b * 2 ^ F.f := by
  obtain ⟨_, _, _, _, _, hf⟩ := h.valid
  have e1 : (2 : Int) ^ F.T.bits = 2 ^ (F.T.bits - F.f) * 2 ^ F.f := by rw [← pow_add]; congr 1; omega
  have e2 : (2 : Int) ^ (F.T.bits - 1) = 2 ^ (F.T.bits - 1 - F.f) * 2 ^ F.f := by rw [← pow_add]; congr 1; omega
  unfold IntTy.lo IntTy.hi
  split
  · exact ⟨-2 ^ (F.T.bits - 1 - F.f), 2 ^ (F.T.bits - 1 - F.f), by rw [e2]; ring, by rw [← e2]; ring⟩
  · exact ⟨0, 2 ^ (F.T.bits - F.f), by ring, by rw [← e1]; ring⟩

theorem nl_of {F : FxTy} (hF : F.Valid) (hn : Narrow F) (h2 : 2 ≤ val F F.T.hi + ulp F) : NL F := by
  refine ⟨hF, hn, ?_⟩
  unfold val ulp at h2
  rw [← add_div, le_div_iff₀ (by positivity)] at h2
  exact_mod_cast h2

/-- C145 as stated: the base-2 logarithm is right to four units on every 8- and 16-bit layout. -/
def C145_statement : Prop := ∀ F : FxTy, F.Valid → Narrow F → ∀ x, Storable F x →
  (val F x ≤ 0 → log2 F x = .throw .domainError) ∧ (0 < val F x → ∃ r, log2 F x = .ok r ∧ Storable F r ∧ LogNear F x r)

/-- The logarithm of `2 ^ -9` comes out as `+7` in 16 bits with 12 of them for the fraction. -/
theorem C145_false : ¬ C145_statement := by
  intro h
  obtain ⟨r, hr, -, h2, -⟩ := (h ⟨i16, i32, 12, false⟩ (by decide) (by decide) 8 (by decide)).2 (by norm_num [val])
  have e : log2 ⟨i16, i32, 12, false⟩ 8 = .ok (7 * 2 ^ 12) := by decide +kernel
  rw [hr] at e; cases e
  have : Real.logb 2 ((val ⟨i16, i32, 12, false⟩ 8 : ℚ) : ℝ) < 0 := by
    apply Real.logb_neg (by norm_num) <;> norm_num [val]
  norm_num [val] at h2 this
  linarith

/-- C145: on the 8- and 16-bit layouts, signed or unsigned, rounding or not, that hold the numbers below two, `log2` is never undefined.  It is the logarithm to
four units if the integral part of the logarithm is representable; otherwise it is too large by a positive multiple of the span of the type. -/
theorem C145_log2_partial (F : FxTy) (hF : F.Valid) (hnar : Narrow F) (hroom : 2 ≤ val F F.T.hi + ulp F) (x : Int) (hx : Storable F x) :
    (val F x ≤ 0 → log2 F x = .throw .domainError) ∧
    (∀ k : Int, (2 : ℚ) ^ k ≤ val F x → val F x < (2 : ℚ) ^ (k + 1) → ∃ r n : Int, log2 F x = .ok r ∧ Storable F r ∧
      LogNear F x (r - n * 2 ^ F.T.bits) ∧ (Representable F k → n = 0) ∧ (¬ Representable F k → 1 ≤ n)) := by
  have h := nl_of hF hnar hroom
  constructor
  · intro h0
    rw [← val_zero F, val_le] at h0
    have hsl : shl u32 1 (F.f - 1) = .ok (u32.wrap (1 * 2 ^ (F.f - 1))) := by
      unfold shl; rw [if_pos (by show F.f - 1 < 32; have := hF.2.2.2.2.2; omega)]; rfl
    unfold log2
    rw [hsl, Res.bind_ok]
    simp only
    rw [if_pos (by rw [h.ofInt0, le_iff]; exact h0)]
  intro k h1 h2
  have hpos : 0 < val F x := lt_of_lt_of_le (by positivity) h1
  have h0 : 0 < x := by rw [← val_zero F, val_lt] at hpos; exact hpos
  obtain ⟨m, k', hn, hk, e1, e2, hl⟩ := h.log2_raw h0 hx
  have hkk : k' = k := by
    have ev : ∀ n : Int, -F.f ≤ n → ((2 : Int) ^ (n + F.f).toNat : Int) = (2 : ℚ) ^ n * 2 ^ F.f := by
      intro n hn
      push_cast
      rw [← zpow_natCast, Int.toNat_of_nonneg (by omega), zpow_add₀ (by norm_num), zpow_natCast]
    have hp : (0 : ℚ) < 2 ^ F.f := by positivity
    have a1 : (2 : ℚ) ^ k' ≤ val F x := by
      unfold val; rw [le_div_iff₀ hp, ← ev k' hk]; exact_mod_cast e1
    have a2 : val F x < (2 : ℚ) ^ (k' + 1) := by
      unfold val; rw [div_lt_iff₀ hp, zpow_add₀ (by norm_num), zpow_one]
      have : (x : ℚ) < ((2 * 2 ^ (k' + F.f).toNat : Int) : ℚ) := by exact_mod_cast e2
      have e := ev k' hk
      push_cast at this e
      nlinarith
    have b1 : k < k' + 1 := (zpow_lt_zpow_iff_right₀ (by norm_num : (1 : ℚ) < 2)).1 (lt_of_le_of_lt h1 a2)
    have b2 : k' < k + 1 := (zpow_lt_zpow_iff_right₀ (by norm_num : (1 : ℚ) < 2)).1 (lt_of_le_of_lt a1 h2)
    omega
  subst hkk
  have hp := h.p15
  obtain ⟨lo', hi', elo, ehi⟩ := h.ends
  have a := fracOut_nonneg F.f F.f m; have b := fracOut_lt F.f F.f m
  have hup : k' * 2 ^ F.f ≤ F.T.hi := by
    by_cases hk0 : 0 ≤ k'
    · have e3 : (2 : Int) ^ (k' + F.f).toNat = 2 ^ k'.toNat * 2 ^ F.f := by rw [← pow_add]; congr 1; omega
      have e4 : k' ≤ 2 ^ k'.toNat := by
        have : (k'.toNat : Int) < 2 ^ k'.toNat := by exact_mod_cast Nat.lt_two_pow_self
        omega
      have := mul_le_mul_of_nonneg_right e4 hp.1.le
      have := hx.2
      omega
    · have : k' * 2 ^ F.f ≤ 0 := mul_nonpos_of_nonpos_of_nonneg (by omega) hp.1.le
      have := h.room
      omega
  have hup' : k' + 1 ≤ hi' := by
    have : k' * 2 ^ F.f < hi' * 2 ^ F.f := by omega
    have := lt_of_mul_lt_mul_right this hp.1.le
    omega
  have hup2 : (k' + 1) * 2 ^ F.f ≤ F.T.hi + 1 := by rw [ehi]; exact mul_le_mul_of_nonneg_right hup' hp.1.le
  rw [add_mul, one_mul] at hup2
  set Y := k' * 2 ^ F.f + fracOut F.f F.f m with hY
  have hrep : Representable F k' ↔ F.T.lo ≤ k' * 2 ^ F.f := by
    constructor
    · rintro ⟨z, hz, ez⟩
      have : z = k' * 2 ^ F.f := val_inj (F := F) (by rw [ez, val_int])
      rw [← this]; exact hz.1
    · intro hle
      exact ⟨k' * 2 ^ F.f, ⟨hle, hup⟩, val_int F k'⟩
  obtain ⟨n, en⟩ := IntTy.wrap_dvd F.T Y
  have er : F.T.wrap Y - -n * 2 ^ F.T.bits = Y := by linarith
  have hS := IntTy.wrap_inRange Y h.tpos
  refine ⟨_, -n, hl, hS, ?_, ?_, ?_⟩
  · rw [er]; exact log_near hn h0
  · intro hr
    have hr' := hrep.1 hr
    have hYr : F.T.InRange Y := ⟨by omega, by omega⟩
    rw [IntTy.wrap_of_inRange h.tpos hYr] at en
    have hb : ((2 ^ F.T.bits : Nat) : Int) ≠ 0 := by positivity
    rw [sub_self] at en
    have := (mul_eq_zero.1 en.symm).resolve_left hb
    omega
  · intro hr
    have hr' : k' * 2 ^ F.f < F.T.lo := by
      by_contra hc; push Not at hc; exact hr (hrep.2 hc)
    have hk1 : k' + 1 ≤ lo' := by
      rw [elo] at hr'
      have := lt_of_mul_lt_mul_right hr' hp.1.le
      omega
    have hk2 : (k' + 1) * 2 ^ F.f ≤ F.T.lo := by rw [elo]; exact mul_le_mul_of_nonneg_right hk1 hp.1.le
    rw [add_mul, one_mul] at hk2
    have hY2 : Y < F.T.wrap Y := lt_of_lt_of_le (by omega) hS.1
    have hneg : -n * 2 ^ F.T.bits > 0 := by omega
    have : 0 < -n := pos_of_mul_pos_left hneg (by positivity)
    omega
example : log2 ⟨u8, u16, 4, true⟩ (5 * 2 ^ 4) = .ok 36 ∧ log2 ⟨i16, i64, 12, false⟩ 8 = .ok (-9 * 2 ^ 12 + 1 * 2 ^ 16) ∧
    log2 ⟨i16, i32, 12, false⟩ (2 ^ 6) = .ok (-6 * 2 ^ 12) ∧ (2 : ℚ) ≤ val ⟨i16, i64, 12, false⟩ i16.hi + ulp ⟨i16, i64, 12, false⟩ := by
  refine ⟨by decide +kernel, by decide +kernel, by decide +kernel, ?_⟩
  unfold val ulp; norm_num [IntTy.hi]

/-- C145: the natural and decimal logarithms inherit this where the integral part of the base-2 logarithm is representable. -/
theorem C145_log_partial (F : FxTy) (hF : F.Valid) (hnar : Narrow F) (hr : F.r = false) (h8 : 8 ≤ F.f) (h4 : Representable F 4) (x : Int) (hx : Storable F x)
    (k : Int) (h1 : (2 : ℚ) ^ k ≤ val F x) (h2 : val F x < (2 : ℚ) ^ (k + 1)) (hk : Representable F k) : LogsNear F x := by
  have hroom : 2 ≤ val F F.T.hi + ulp F := by
    obtain ⟨z, hz, ez⟩ := h4
    have := (val_le (F := F)).2 hz.2
    have := ulp_pos F
    rw [ez] at *
    linarith
  obtain ⟨r, n, e, s, hn, h0, -⟩ := (C145_log2_partial F hF hnar hroom x hx).2 k h1 h2
  rw [h0 hk, zero_mul, sub_zero] at hn
  have lk : LK F := ⟨hF, hr, h8, by have := hF.2.2.2.2.2; omega, h4⟩
  unfold LogsNear
  simp only [rv_eq, uR_eq]
  exact lk.log_all e s hn
example : log ⟨i16, i32, 8, false⟩ (100 * 2 ^ 8) = .ok 1179 ∧ (⟨i16, i32, 8, false⟩ : FxTy).Valid := by decide +kernel

theorem up_never {F : FxTy} (hF : F.Valid) (hnar : Narrow F) (hs : F.T.signed = true) (hf : F.f + 1 = F.T.bits) :
    ∀ (passes : Nat) (x y : Int), Storable F x → Storable F y → log2Up F passes x y = .ub .diverges := by
  have hp32 : F.T.promote = ⟨32, true⟩ := by unfold IntTy.promote; rw [if_pos (by omega)]
  have p1 : (2 : Int) ^ F.f ≤ 32768 := by
    have : (2 : Int) ^ F.f ≤ 2 ^ 15 := pow_le_pow_right₀ (by norm_num) (by omega)
    norm_num at this; exact this
  have p0 : (0 : Int) < 2 ^ F.f := by positivity
  have one : oneShl F = 2 ^ F.f := by
    show F.T.promote.wrap _ = _
    rw [hp32, IntTy.wrap_of_inRange (by norm_num) (int32_in (by omega) (by omega))]
  have hi : F.T.hi = 2 ^ F.f - 1 := by unfold IntTy.hi; rw [if_pos hs, show F.T.bits - 1 = F.f by omega]
  have lo : F.T.lo = -2 ^ F.f := by unfold IntTy.lo; rw [if_pos hs, show F.T.bits - 1 = F.f by omega]
  intro passes
  induction passes with
  | zero => intros; rfl
  | succ n ih =>
    intro x y hx hy
    have x1 := hx.2
    have y1 := hy.1
    have y2 := hy.2
    have sh : shl F.T x 1 = .ok ((⟨32, true⟩ : IntTy).wrap (x * 2 ^ 1)) := by
      unfold shl; rw [hp32, if_pos (by norm_num)]
    have ar : arith F.P (y - 2 ^ F.f) = .ok (y - 2 ^ F.f) := by
      show Eirin.arith F.T.promote _ = _
      rw [hp32]
      unfold Eirin.arith
      rw [if_pos rfl, if_pos (int32_in (by omega) (by omega))]
    rw [log2Up, one, if_pos (by omega), sh, Res.bind_ok, ar, Res.bind_ok]
    exact ih _ _ (IntTy.wrap_inRange _ hF.tpos) (IntTy.wrap_inRange _ hF.tpos)

/-- C145: on the signed layouts without integer bits the first loop is never left, after whatever number of passes, so no logarithm of a positive number is returned. -/
theorem C145_diverges (F : FxTy) (hF : F.Valid) (hnar : Narrow F) (hroom : val F F.T.hi + ulp F < 2) (x : Int) (hx : Storable F x) (h0 : 0 < val F x) :
    log2 F x = .ub .diverges ∧ ∀ passes, log2Up F passes x 0 = .ub .diverges := by
  have hroom' : F.T.hi + 1 < 2 * 2 ^ F.f := by
    unfold val ulp at hroom
    rw [← add_div, div_lt_iff₀ (by positivity)] at hroom
    exact_mod_cast hroom
  have hfb := hF.2.2.2.2.2
  have hf0 := hF.2.2.2.2.1
  have p0 : (0 : Int) < 2 ^ F.f := by positivity
  obtain ⟨hs, hf⟩ : F.T.signed = true ∧ F.f + 1 = F.T.bits := by
    unfold IntTy.hi at hroom'
    split at hroom'
    · rename_i hs
      refine ⟨hs, ?_⟩
      by_contra hc
      have : (2 : Int) ^ (F.f + 1) ≤ 2 ^ (F.T.bits - 1) := pow_le_pow_right₀ (by norm_num) (by omega)
      rw [pow_succ] at this
      omega
    · have : (2 : Int) ^ (F.f + 1) ≤ 2 ^ F.T.bits := pow_le_pow_right₀ (by norm_num) (by omega)
      rw [pow_succ] at this
      omega
  have h00 : Storable F 0 := by
    refine ⟨NL.lo0, ?_⟩
    have := hx.2
    rw [← val_zero F, val_lt] at h0
    omega
  have never := up_never hF hnar hs hf
  refine ⟨?_, fun n => never n x 0 hx h00⟩
  have e : ∀ t : IntTy, t.wrap 0 = 0 := by
    intro t; unfold IntTy.wrap; split <;> simp
  have hz : ofInt F 0 = 0 := by unfold ofInt; rw [e, zero_mul, e, e]
  have hsl : shl u32 1 (F.f - 1) = .ok (u32.wrap (1 * 2 ^ (F.f - 1))) := by
    unfold shl; rw [if_pos (by show F.f - 1 < 32; omega)]; rfl
  rw [← val_zero F, val_lt] at h0
  unfold log2
  rw [hsl, Res.bind_ok]
  simp only
  rw [if_neg (by rw [hz, le_iff]; omega), never _ x 0 hx h00]
  rfl
example : (⟨i8, i16, 7, false⟩ : FxTy).Valid ∧ val ⟨i8, i16, 7, false⟩ i8.hi + ulp ⟨i8, i16, 7, false⟩ < 2 ∧ Storable ⟨i8, i16, 7, false⟩ 100 := by
  refine ⟨by decide, ?_, by decide⟩
  unfold val ulp; norm_num [IntTy.hi]

end Eirin.Props
