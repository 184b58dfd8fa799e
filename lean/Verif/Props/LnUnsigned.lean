import Verif.Props.LogDiv
import Verif.Props.ExpUnsigned

/-! # C144: the natural and the decimal logarithm on unsigned layouts -/

namespace Eirin.Props
open Eirin Spec

theorem lu_lk {B f : Nat} (hB : UB B) (h8 : 8 ≤ f) (h32 : f ≤ 32) (h3 : f + 3 ≤ B) : LK (LU B f) := by
  refine ⟨(lu_valid hB (by omega) h3).1, rfl, h8, h32, 4 * 2 ^ f, lu_in.2 ⟨by positivity, ?_⟩, ?_⟩
  · have : (2 : Int) ^ (f + 3) ≤ 2 ^ B := pow_le_pow_right₀ (by norm_num) h3
    rw [pow_add] at this
    have : (0 : Int) < 2 ^ f := by positivity
    omega
  · have := val_int (LU B f) 4
    norm_num at this ⊢
    exact this

/-- Both logarithms of `x` are within the error known from signed layouts (C114). -/
def LogsNear (F : FxTy) (x : Int) : Prop :=
  (∃ r, log F x = .ok r ∧ Storable F r ∧ |((val F r : ℚ) : ℝ) - Real.log (val F x : ℚ)| ≤ (4 + 0.7 * |Real.log (val F x : ℚ)|) * (ulp F : ℚ)) ∧
  (∃ r, log10 F x = .ok r ∧ Storable F r ∧ |((val F r : ℚ) : ℝ) - Real.logb 10 (val F x : ℚ)| ≤ (2.3 + 0.31 * |Real.logb 10 (val F x : ℚ)|) * (ulp F : ℚ))

/-- C144 as stated: on every unsigned layout with 8 to 32 fraction bits the logarithms of a positive number are returned to a few units, or an exception
reports that the type cannot hold them. -/
def C144_statement : Prop := ∀ B f : Nat, UB B → 8 ≤ f → f ≤ 32 → f + 3 ≤ B → ∀ x, Storable (LU B f) x → 0 < val (LU B f) x →
  LogsNear (LU B f) x ∨ ((∃ e, log (LU B f) x = .throw e) ∧ ∃ e, log10 (LU B f) x = .throw e)

/-- The natural logarithm of one half comes out as about 45425.6. -/
theorem C144_false : ¬ C144_statement := by
  intro h
  have e : log (LU 32 16) 32768 = .ok 2977013598 := by decide +kernel
  rcases h 32 16 (Or.inl rfl) (by norm_num) (by norm_num) (by norm_num) 32768 (by decide +kernel) (by norm_num [val]) with ⟨⟨r, h1, -, h2⟩, -⟩ | ⟨⟨x, hx⟩, -⟩
  · rw [h1] at e; cases e
    have hv : ((val (LU 32 16) 32768 : ℚ) : ℝ) = 2⁻¹ := by norm_num [val]
    rw [hv, Real.log_inv, abs_neg] at h2
    have l2 := RealConst.log_two_gt
    have l3 := RealConst.log_two_lt
    rw [abs_of_pos (by linarith : 0 < Real.log 2)] at h2
    have := (abs_le.1 h2).2
    norm_num [val, ulp] at this l2 l3
    linarith
  · rw [hx] at e; cases e

/-- C144 (zero): a domain error. -/
theorem C144_zero_partial (B f : Nat) (hB : UB B) (h8 : 8 ≤ f) (h32 : f ≤ 32) (h3 : f + 3 ≤ B) :
    log (LU B f) 0 = .throw .domainError ∧ log10 (LU B f) 0 = .throw .domainError := by
  have h := lu_lk hB h8 h32 h3
  obtain ⟨c, ec, -⟩ := coeff60 h.valid h.r (by show f < 60; omega) h.four (L := 0x171547652B82FE00) (by norm_num) (by norm_num)
  obtain ⟨d, ed, -⟩ := coeff60 h.valid h.r (by show f < 60; omega) h.four (L := 0x35269E12F346E200) (by norm_num) (by norm_num)
  unfold log log10
  rw [ec, ed, Res.bind_ok, Res.bind_ok, C140_zero_partial B f hB (by omega) (by omega) h32]
  exact ⟨rfl, rfl⟩
example : log (LU 64 20) 0 = .throw .domainError ∧ UB 64 ∧ 20 + 3 ≤ 64 := by decide +kernel

/-- C144 (arguments of at least one): the accuracy of the signed layouts, with the whole unsigned range as arguments. -/
theorem C144_large_partial (B f : Nat) (hB : UB B) (h8 : 8 ≤ f) (h32 : f ≤ 32) (h3 : f + 3 ≤ B) (x : Int) (hx : Storable (LU B f) x)
    (hx1 : 1 ≤ val (LU B f) x) : LogsNear (LU B f) x := by
  obtain ⟨L, e, s, n⟩ := C140_large_partial B f hB (by omega) (by omega) h32 x hx hx1
  unfold LogsNear
  simp only [rv_eq, uR_eq]
  exact (lu_lk hB h8 h32 h3).log_all e s n
example : log (LU 32 16) (60000 * 2 ^ 16) = .ok 721036 ∧ log10 (LU 32 16) (60000 * 2 ^ 16) = .ok 313141 ∧ Storable (LU 32 16) (60000 * 2 ^ 16) ∧
    1 ≤ val (LU 32 16) (60000 * 2 ^ 16) := by
  refine ⟨by decide +kernel, by decide +kernel, by decide +kernel, by norm_num [val]⟩

/-- C144 (arguments between zero and one): no exception and no undefined behaviour; the results are off by `n` times the logarithm of two times the
span of the type, with `n = 1` unless the layout has few integer bits. -/
theorem C144_small_partial (B f : Nat) (hB : UB B) (h8 : 8 ≤ f) (h32 : f ≤ 32) (h3 : f + 3 ≤ B) (x : Int) (hx : Storable (LU B f) x)
    (hx0 : 0 < val (LU B f) x) (hx1 : val (LU B f) x < 1) :
    ∃ n : Nat, 1 ≤ n ∧ (f * 2 ^ f ≤ 2 ^ B → n = 1) ∧
      (∃ r, log (LU B f) x = .ok r ∧ Storable (LU B f) r ∧
        |((val (LU B f) r : ℚ) : ℝ) - (Real.log (val (LU B f) x : ℚ) + n * 2 ^ (B - f) * Real.log 2)| ≤
          (4 + 0.7 * |Real.log (val (LU B f) x : ℚ) + n * 2 ^ (B - f) * Real.log 2|) * (ulp (LU B f) : ℚ)) ∧
      (∃ r, log10 (LU B f) x = .ok r ∧ Storable (LU B f) r ∧
        |((val (LU B f) r : ℚ) : ℝ) - (Real.logb 10 (val (LU B f) x : ℚ) + n * 2 ^ (B - f) * Real.logb 10 2)| ≤
          (2.3 + 0.31 * |Real.logb 10 (val (LU B f) x : ℚ) + n * 2 ^ (B - f) * Real.logb 10 2|) * (ulp (LU B f) : ℚ)) := by
  obtain ⟨L, n, e, s, hn0, hn1, a, b⟩ := C140_small_partial B f hB (by omega) (by omega) h32 x hx hx0 hx1
  obtain ⟨k, rfl⟩ : ∃ k : Nat, n = k := ⟨n.toNat, by omega⟩
  refine ⟨k, by omega, fun h => by exact_mod_cast hn1 (by exact_mod_cast h), ?_⟩
  simp only [rv_eq, uR_eq] at a b ⊢
  have hsh : rv (LU B f) (L - k * 2 ^ B) = rv (LU B f) L - k * 2 ^ (B - f) := by
    rw [rv_u, rv_u]
    show (((L - k * 2 ^ B : Int)) : ℝ) * (1 / 2 ^ f) = L * (1 / 2 ^ f) - k * 2 ^ (B - f)
    push_cast
    rw [show (2 : ℝ) ^ B = 2 ^ (B - f) * 2 ^ f by rw [← pow_add]; congr 1; omega]
    field_simp
  rw [hsh] at a b
  have p2 : Real.log 2 ≠ 0 := by have := RealConst.log_two_gt; intro h; rw [h] at this; norm_num at this
  have e1 : Real.log (rv (LU B f) x) + k * 2 ^ (B - f) * Real.log 2 = (Real.logb 2 (rv (LU B f) x) + k * 2 ^ (B - f)) * Real.log 2 := by
    unfold Real.logb; field_simp
  have e2 : Real.logb 10 (rv (LU B f) x) + k * 2 ^ (B - f) * Real.logb 10 2 = (Real.logb 2 (rv (LU B f) x) + k * 2 ^ (B - f)) * Real.logb 10 2 := by
    unfold Real.logb; field_simp
  rw [e1, e2]
  exact (lu_lk hB h8 h32 h3).log_of e s (by linarith) (by linarith)
example : log (LU 32 16) 32768 = .ok 2977013598 ∧ 16 * 2 ^ 16 ≤ 2 ^ 32 ∧ 0 < val (LU 32 16) 32768 ∧ val (LU 32 16) 32768 < 1 := by
  refine ⟨by decide +kernel, by norm_num, by norm_num [val], by norm_num [val]⟩

/-- The base-2 logarithm of a number of at least one, without reduction. -/
theorem log2_u_large {B f : Nat} (hB : UB B) (h0 : 0 < f) (h1 : f + 2 ≤ B) (hf : f ≤ 32) {x : Int} (hx0 : 2 ^ f ≤ x) (hx1 : x < 2 ^ B) :
    ∃ m k, Norm f x m k ∧ 0 ≤ k ∧ (2 : Int) ^ (k + f).toNat ≤ x ∧ x < 2 * 2 ^ (k + f).toNat ∧
      log2 (LU B f) x = .ok (k * 2 ^ f + fracOut f f m) ∧ Storable (LU B f) (k * 2 ^ f + fracOut f f m) := by
  have hp : (0 : Int) < 2 ^ f := by positivity
  obtain ⟨m, k, hn, hk, e1, e2, hl⟩ := log2_u hB h0 h1 hf (by omega) hx1
  have hk0 : 0 ≤ k := by
    by_contra hc
    have : (2 : Int) * 2 ^ (k + f).toNat ≤ 2 ^ f := by
      rw [← pow_succ']
      exact pow_le_pow_right₀ (by norm_num) (by omega)
    omega
  have hk2 : k + f < B := by
    by_contra hc
    have : (2 : Int) ^ B ≤ 2 ^ (k + f).toNat := pow_le_pow_right₀ (by norm_num) (by omega)
    omega
  have a := fracOut_nonneg f f m; have b := fracOut_lt f f m
  have hup : (k + 1) * 2 ^ f ≤ 2 ^ B := by
    have hs : (2 : Int) ^ B = 2 ^ (B - f) * 2 ^ f := by rw [← pow_add]; congr 1; omega
    have hlt : ((B - f : Nat) : Int) < 2 ^ (B - f) := by exact_mod_cast Nat.lt_two_pow_self
    rw [hs]
    exact mul_le_mul_of_nonneg_right (by omega) hp.le
  have hr : (LU B f).T.InRange (k * 2 ^ f + fracOut f f m) := lu_in.2 ⟨by positivity, by rw [add_mul] at hup; omega⟩
  rw [IntTy.wrap_of_inRange (lu_base hB h0 h1).1.tpos hr] at hl
  exact ⟨m, k, hn, hk0, e1, e2, hl, hr⟩

/-- C144: from one on, all three logarithms are defined and preserve order. -/
theorem C144_monotone (B f : Nat) (hB : UB B) (h8 : 8 ≤ f) (h32 : f ≤ 32) (h3 : f + 3 ≤ B) (x y : Int) (hx : Storable (LU B f) x) (hy : Storable (LU B f) y)
    (h1 : 1 ≤ val (LU B f) x) (hxy : val (LU B f) x ≤ val (LU B f) y) :
    ∃ a b a' b' a'' b'', log2 (LU B f) x = .ok a ∧ log2 (LU B f) y = .ok b ∧ log (LU B f) x = .ok a' ∧ log (LU B f) y = .ok b' ∧
      log10 (LU B f) x = .ok a'' ∧ log10 (LU B f) y = .ok b'' ∧
      val (LU B f) a ≤ val (LU B f) b ∧ val (LU B f) a' ≤ val (LU B f) b' ∧ val (LU B f) a'' ≤ val (LU B f) b'' := by
  have h := lu_lk hB h8 h32 h3
  have hp : (0 : Int) < 2 ^ f := by positivity
  have x1 : 2 ^ f ≤ x := by
    have := val_int (LU B f) 1
    rw [one_mul] at this
    have h1' : val (LU B f) (2 ^ f) ≤ val (LU B f) x := by
      calc _ = ((1 : Int) : ℚ) := this
        _ ≤ _ := by exact_mod_cast h1
    exact val_le.1 h1'
  have xy : x ≤ y := val_le.1 hxy
  obtain ⟨m, k, hn, k0, e1, e2, l1, s1⟩ := log2_u_large hB (by omega) (by omega) h32 x1 (lu_in.1 hx).2
  obtain ⟨m', k', hn', k0', e1', e2', l2, s2⟩ := log2_u_large hB (by omega) (by omega) h32 (x1.trans xy) (lu_in.1 hy).2
  have hle : k * 2 ^ f + fracOut f f m ≤ k' * 2 ^ f + fracOut f f m' := by
    have hkk : k ≤ k' := by
      by_contra hc
      have : (2 : Int) ^ ((k' + f).toNat + 1) ≤ 2 ^ (k + f).toNat := pow_le_pow_right₀ (by norm_num) (by omega)
      rw [pow_succ] at this; omega
    rcases lt_or_eq_of_le hkk with hlt | heq
    · have := fracOut_lt f f m
      have := fracOut_nonneg f f m'
      have : (k + 1) * 2 ^ f ≤ k' * 2 ^ f := mul_le_mul_of_nonneg_right (by omega) hp.le
      linarith
    · subst heq
      have hm : m ≤ m' := by
        rw [hn.pos k0, hn'.pos k0]; exact Int.ediv_le_ediv (by positivity) xy
      have := fracOut_mono f f (le_trans hp.le hn.lo) hm
      linarith
  generalize k * 2 ^ f + fracOut f f m = a at *
  generalize k' * 2 ^ f + fracOut f f m' = b at *
  have i1 := log2e_near
  have i2 := log2ten_near
  obtain ⟨c, ec, sc, c1, -⟩ := h.const (L := 0x171547652B82FE00) (by norm_num) (by norm_num) (by rw [abs_le] at i1; norm_num at i1 ⊢; linarith) i1
  obtain ⟨d, ed, sd, d1, -⟩ := h.const (L := 0x35269E12F346E200) (by norm_num) (by norm_num) (by rw [abs_le] at i2; norm_num at i2 ⊢; linarith) i2
  have c0 : 0 < c := lt_of_lt_of_le hp c1
  have d0 : 0 < d := lt_of_lt_of_le hp d1
  have ab := mul_le_mul_of_nonneg_right hle hp.le
  refine ⟨a, b, _, _, _, _, l1, l2, ?_, ?_, ?_, ?_, val_le.2 hle, val_le.2 (tdiv_mono c0 ab), val_le.2 (tdiv_mono d0 ab)⟩
  · unfold log; rw [ec, Res.bind_ok, l1, Res.bind_ok]; exact (log_div_ok h.valid rfl s1 c1).1
  · unfold log; rw [ec, Res.bind_ok, l2, Res.bind_ok]; exact (log_div_ok h.valid rfl s2 c1).1
  · unfold log10; rw [ed, Res.bind_ok, l1, Res.bind_ok]; exact (log_div_ok h.valid rfl s1 d1).1
  · unfold log10; rw [ed, Res.bind_ok, l2, Res.bind_ok]; exact (log_div_ok h.valid rfl s2 d1).1
example : log2 (LU 64 32) (2 ^ 63) = .ok (31 * 2 ^ 32) ∧ log2 (LU 64 32) (2 ^ 64 - 1) = .ok 137438953471 ∧ Storable (LU 64 32) (2 ^ 64 - 1) := by decide +kernel

end Eirin.Props
