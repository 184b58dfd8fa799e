import Verif.Lemmas.Signed
import Verif.Lemmas.Mixed
import Verif.Model.Perf

/-! # Property C79: `perf::measure_esp` reports the largest and smallest error over the sampled points. -/

namespace Eirin.Props
open Spec

/-- `x` is one of the sample points `start, start + step, …` not beyond `stop`. -/
def Sampled (start stop step x : Int) : Prop := ∃ k : Nat, x = start + k * step ∧ x ≤ stop

/-- The two functions evaluate at `x` to numbers whose difference has the (storable) magnitude `e`. -/
def ErrorAt (F : FxTy) (func stdFunc : Int → Res Int) (x e : Int) : Prop :=
  ∃ u w, func x = .ok u ∧ stdFunc x = .ok w ∧ Storable F (w - u) ∧ Storable F e ∧ val F e = |val F w - val F u|

/-- The report is right: every sampled error lies between the two extremes, and the extremes are attained at the reported inputs. -/
structure Reports (F : FxTy) (func stdFunc : Int → Res Int) (start stop step : Int) (r : EspRet) : Prop where
  max_ge : ∀ x e, Sampled start stop step x → ErrorAt F func stdFunc x e → val F e ≤ val F r.maxEsp
  max_at : Sampled start stop step r.maxInput ∧ ErrorAt F func stdFunc r.maxInput r.maxEsp
  min_le : ∀ x e, Sampled start stop step x → ErrorAt F func stdFunc x e → val F r.minEsp ≤ val F e
  min_at : Sampled start stop step r.minInput ∧ ErrorAt F func stdFunc r.minInput r.minEsp

/-- C79, the full statement (false, see `C79_false`): whenever there is a sample point, the points stay in range and the errors are
defined, the report is right. -/
def C79_statement : Prop := ∀ (func stdFunc init : Int → Res Int) (start stop step : Int),
  init 0 = .ok (ofInt fixed32 0) → init 0xFF = .ok (ofInt fixed32 0xFF) → Storable fixed32 start → start ≤ stop → 0 < step →
  Storable fixed32 (stop + step) → (∀ x, Sampled start stop step x → ∃ e, ErrorAt fixed32 func stdFunc x e) →
  ∃ fuel r, measureEsp fixed32 func stdFunc init fuel start stop step = .ok r ∧ Reports fixed32 func stdFunc start stop step r

variable {F : FxTy} {func stdFunc : Int → Res Int}

theorem errorAt_raw (h : SW F) {x e : Int} (he : ErrorAt F func stdFunc x e) (s : EspRet) :
    espStep F func stdFunc x s = .ok
      (let s := if s.maxEsp < e then { s with maxEsp := e, maxInput := x } else s
       if e < s.minEsp then { s with minEsp := e, minInput := x } else s) := by
  obtain ⟨u, w, hu, hw, h1, h2, h3⟩ := he
  have e1 : e = |w - u| := by
    have : |val F w - val F u| = val F |w - u| := by
      rw [← val_sub]; unfold val
      have hq : (0 : ℚ) < 2 ^ F.f := by positivity
      rw [abs_div, abs_of_pos hq]; push_cast; rfl
    rw [this] at h3; exact val_inj h3
  have hlo : F.T.lo < w - u := by
    have := h.lo_hi; have := h1.1
    rcases eq_or_lt_of_le this with hh | hh
    · exfalso
      have h4 := h2.2
      rw [e1, ← hh] at h4
      have := h.zero_in.2
      rw [abs_of_nonpos (by omega)] at h4; omega
    · exact hh
  unfold espStep
  rw [hu, Res.bind_ok, hw]
  simp only [Res.bind_ok]
  rw [h.sub_ok h1]
  simp only [Res.bind_ok]
  rw [h.abs_ok h1 hlo]
  simp only [Res.bind_ok, gt_iff, lt_iff, Res.pure_eq, ← e1]

theorem errorAt_unique {x a b : Int} (ha : ErrorAt F func stdFunc x a) (hb : ErrorAt F func stdFunc x b) : a = b := by
  obtain ⟨u, w, hu, hw, _, _, h1⟩ := ha
  obtain ⟨u', w', hu', hw', _, _, h2⟩ := hb
  rw [hu] at hu'; rw [hw] at hw'
  simp only [Res.ok.injEq] at hu' hw'
  subst hu'; subst hw'
  exact val_inj (h1.trans h2.symm)

theorem sampled_succ {start stop step x : Int} (h : Sampled (start + step) stop step x) : Sampled start stop step x := by
  obtain ⟨k, h1, h2⟩ := h
  exact ⟨k + 1, by rw [h1]; push_cast; ring, h2⟩

theorem sampled_cases {start stop step x : Int} (h : Sampled start stop step x) : x = start ∨ Sampled (start + step) stop step x := by
  obtain ⟨k, h1, h2⟩ := h
  cases k with
  | zero => left; rw [h1]; simp
  | succ k => right; exact ⟨k, by rw [h1]; push_cast; ring, h2⟩

/-- What the loop does to the running extremes. -/
theorem espLoop_spec (h : SW F) {stop step : Int} (hstep : 0 < step) (hstop : Storable F (stop + step)) (n : Nat) :
    ∀ (x : Int) (s : EspRet), Storable F x → stop - x < n * step →
      (∀ y, Sampled x stop step y → ∃ e, ErrorAt F func stdFunc y e) →
      ∃ r, (∀ fuel, n ≤ fuel → espLoop F func stdFunc stop step (fuel + 1) x s = .ok r) ∧
        (∀ y e, Sampled x stop step y → ErrorAt F func stdFunc y e → e ≤ r.maxEsp ∧ r.minEsp ≤ e) ∧
        s.maxEsp ≤ r.maxEsp ∧ r.minEsp ≤ s.minEsp ∧
        ((r.maxEsp = s.maxEsp ∧ r.maxInput = s.maxInput) ∨
          (s.maxEsp < r.maxEsp ∧ Sampled x stop step r.maxInput ∧ ErrorAt F func stdFunc r.maxInput r.maxEsp)) ∧
        ((r.minEsp = s.minEsp ∧ r.minInput = s.minInput) ∨
          (r.minEsp < s.minEsp ∧ Sampled x stop step r.minInput ∧ ErrorAt F func stdFunc r.minInput r.minEsp)) := by
  induction n with
  | zero =>
    intro x s _ hn _
    have hx : stop < x := by simp at hn; omega
    refine ⟨s, fun fuel _ => ?_, fun y e hy => ?_, le_refl _, le_refl _, Or.inl ⟨rfl, rfl⟩, Or.inl ⟨rfl, rfl⟩⟩
    · unfold espLoop; rw [if_neg (by rw [le_iff]; omega)]
    · exfalso
      obtain ⟨k, h1, h2⟩ := hy
      have : 0 ≤ (k : Int) * step := by positivity
      omega
  | succ n ih =>
    intro x s hx hn he
    by_cases hle : x ≤ stop
    · have hself : Sampled x stop step x := ⟨0, by simp, hle⟩
      obtain ⟨e, hxe⟩ := he x hself
      have hs1 : Storable F (x + step) := ⟨by have := hx.1; omega, by have := hstop.2; omega⟩
      have hadd : addAssign F x step = .ok (x + step) := h.add_ok hs1
      obtain ⟨r, hr, hall, hmx, hmn, hA, hB⟩ := ih (x + step)
        (let s := if s.maxEsp < e then { s with maxEsp := e, maxInput := x } else s
         if e < s.minEsp then { s with minEsp := e, minInput := x } else s) hs1 (by push_cast at hn; linarith)
        (fun y hy => he y (sampled_succ hy))
      refine ⟨r, fun fuel hf => ?_, ?_⟩
      · obtain ⟨m, rfl⟩ : ∃ m, fuel = m + 1 := ⟨fuel - 1, by omega⟩
        unfold espLoop
        rw [if_pos (by rw [le_iff]; exact hle), errorAt_raw h hxe]
        simp only [Res.bind_ok]
        rw [hadd]
        simp only [Res.bind_ok]
        exact hr m (by omega)
      · have hm1 : e ≤ r.maxEsp ∧ s.maxEsp ≤ r.maxEsp ∧ r.minEsp ≤ e ∧ r.minEsp ≤ s.minEsp := by
          revert hmx hmn
          by_cases c1 : s.maxEsp < e <;> by_cases c2 : e < s.minEsp <;> simp only [c1, c2, if_true, if_false] <;> intro a b <;>
            refine ⟨?_, ?_, ?_, ?_⟩ <;> omega
        refine ⟨fun y d hy hd => ?_, hm1.2.1, hm1.2.2.2, ?_, ?_⟩
        · rcases sampled_cases hy with rfl | hy
          · rw [errorAt_unique hd hxe]; exact ⟨hm1.1, hm1.2.2.1⟩
          · exact hall y d hy hd
        · revert hA
          by_cases c1 : s.maxEsp < e <;> by_cases c2 : e < s.minEsp <;> simp only [c1, c2, if_true, if_false] <;> rintro (⟨a, b⟩ | ⟨a, b, c⟩)
          · right; rw [a, b]; exact ⟨c1, hself, hxe⟩
          · right; exact ⟨by omega, sampled_succ b, c⟩
          · right; rw [a, b]; exact ⟨c1, hself, hxe⟩
          · right; exact ⟨by omega, sampled_succ b, c⟩
          · left; exact ⟨a, b⟩
          · right; exact ⟨a, sampled_succ b, c⟩
          · left; exact ⟨a, b⟩
          · right; exact ⟨a, sampled_succ b, c⟩
        · revert hB
          by_cases c1 : s.maxEsp < e <;> by_cases c2 : e < s.minEsp <;> simp only [c1, c2, if_true, if_false] <;> rintro (⟨a, b⟩ | ⟨a, b, c⟩)
          · right; rw [a, b]; exact ⟨c2, hself, hxe⟩
          · right; exact ⟨by omega, sampled_succ b, c⟩
          · left; exact ⟨a, b⟩
          · right; exact ⟨a, sampled_succ b, c⟩
          · right; rw [a, b]; exact ⟨c2, hself, hxe⟩
          · right; exact ⟨by omega, sampled_succ b, c⟩
          · left; exact ⟨a, b⟩
          · right; exact ⟨a, sampled_succ b, c⟩
    · refine ⟨s, fun fuel _ => ?_, fun y e hy => ?_, le_refl _, le_refl _, Or.inl ⟨rfl, rfl⟩, Or.inl ⟨rfl, rfl⟩⟩
      · unfold espLoop; rw [if_neg (by rw [le_iff]; omega)]
      · exfalso
        obtain ⟨k, h1, h2⟩ := hy
        have : 0 ≤ (k : Int) * step := by positivity
        omega

/-- C79, the part that holds: for every type with signed 32/64-bit storage and every pair of functions whose errors are defined at the
sampled points, the search ends; the reported maximum is the largest error (the initial zero if all errors are zero) and the reported
minimum is the smallest error, *provided* it is below the initial value 255. -/
theorem C79_extremes_partial (F : FxTy) (hF : F.Valid) (hs : SignedWide F) (h1 : Storable F (2 ^ F.f)) (func stdFunc init : Int → Res Int)
    (start stop step m0 n0 : Int) (hm0 : init 0 = .ok m0) (hn0 : init 0xFF = .ok n0) (vm : val F m0 = 0) (vn : val F n0 = 255)
    (hstart : Storable F start) (hstep : 0 < step) (hstop : Storable F (stop + step))
    (he : ∀ x, Sampled start stop step x → ∃ e, ErrorAt F func stdFunc x e) :
    ∃ r N, (∀ fuel, N ≤ fuel → measureEsp F func stdFunc init fuel start stop step = .ok r) ∧
      (∀ x e, Sampled start stop step x → ErrorAt F func stdFunc x e → val F r.minEsp ≤ val F e ∧ val F e ≤ val F r.maxEsp) ∧
      ((Sampled start stop step r.maxInput ∧ ErrorAt F func stdFunc r.maxInput r.maxEsp ∧ 0 < val F r.maxEsp) ∨
        (val F r.maxEsp = 0 ∧ val F r.maxInput = 0)) ∧
      ((Sampled start stop step r.minInput ∧ ErrorAt F func stdFunc r.minInput r.minEsp ∧ val F r.minEsp < 255) ∨
        (val F r.minEsp = 255 ∧ val F r.minInput = 0)) := by
  have h : SW F := ⟨hF, hs, h1⟩
  obtain ⟨n, hn⟩ : ∃ n : Nat, stop - start < n * step :=
    ⟨(stop - start).toNat + 1, by push_cast; nlinarith [Int.self_le_toNat (stop - start), Int.natCast_nonneg (stop - start).toNat]⟩
  obtain ⟨r, hr, hall, _, _, hA, hB⟩ := espLoop_spec h hstep hstop n start ⟨m0, n0, m0, m0⟩ hstart hn he
  refine ⟨r, n + 1, fun fuel hf => ?_, fun x e hx hxe => ?_, ?_, ?_⟩
  · obtain ⟨k, rfl⟩ : ∃ k, fuel = k + 1 := ⟨fuel - 1, by omega⟩
    unfold measureEsp
    rw [hm0, Res.bind_ok, hn0]
    simp only [Res.bind_ok]
    exact hr k (by omega)
  · rw [val_le, val_le]; exact ⟨(hall x e hx hxe).2, (hall x e hx hxe).1⟩
  · rcases hA with ⟨a, b⟩ | ⟨a, b, c⟩
    · right; rw [a, b]; exact ⟨vm, vm⟩
    · left; refine ⟨b, c, ?_⟩; rw [← vm, val_lt]; exact a
  · rcases hB with ⟨a, b⟩ | ⟨a, b, c⟩
    · right; rw [a, b]; exact ⟨vn, vm⟩
    · left; refine ⟨b, c, ?_⟩; rw [← vn, val_lt]; exact a

/-- C79 is false: the minimum search starts at 255, so a smallest error of 300 is reported as 255. -/
theorem C79_false : ¬ C79_statement := by
  intro hst
  obtain ⟨fuel, r, h1, h2⟩ := hst (fun _ => .ok 0) (fun _ => .ok (300 * 2 ^ 16)) (fun n => .ok (ofInt fixed32 n)) 0 0 1 rfl rfl
    (by decide +kernel) (le_refl _) (by norm_num) (by decide +kernel)
    (fun x _ => ⟨300 * 2 ^ 16, 0, 300 * 2 ^ 16, rfl, rfl, by decide +kernel, by decide +kernel, by unfold val; norm_num [fixed32]⟩)
  obtain ⟨_, u, w, hu, hw, _, _, h3⟩ := h2.min_at
  simp only [Res.ok.injEq] at hu hw
  subst hu; subst hw
  have hmin : val fixed32 r.minEsp ≤ 255 := by
    have hc : ∀ fuel, 2 ≤ fuel → measureEsp fixed32 (fun _ => .ok 0) (fun _ => .ok (300 * 2 ^ 16)) (fun n => .ok (ofInt fixed32 n)) fuel 0 0 1
        = .ok ⟨300 * 2 ^ 16, 255 * 2 ^ 16, 0, 0⟩ := by
      intro fuel hf
      obtain ⟨k, rfl⟩ : ∃ k, fuel = k + 1 + 1 := ⟨fuel - 2, by omega⟩
      rfl
    have : r = ⟨300 * 2 ^ 16, 255 * 2 ^ 16, 0, 0⟩ := by
      match fuel, h1 with
      | 0, h1 => exact absurd h1 (by intro hh; have : (Res.ub .diverges : Res EspRet) = .ok r := hh; cases this)
      | 1, h1 => exact absurd h1 (by intro hh; have : (Res.ub .diverges : Res EspRet) = .ok r := hh; cases this)
      | k + 2, h1 => rw [hc _ (by omega)] at h1; exact (Res.ok.inj h1).symm
    rw [this]; unfold val; norm_num [fixed32]
  rw [h3] at hmin
  unfold val at hmin; norm_num [fixed32] at hmin

/-- C79: a zero step never ends while the first point is in the range, whatever bound is put on the number of iterations. -/
theorem C79_zero_step_diverges (fuel : Nat) :
    measureEsp fixed32 .ok .ok (fun n => .ok (ofInt fixed32 n)) fuel 0 0 0 = .ub .diverges := by
  have key : ∀ fuel s, s.maxEsp = 0 → espLoop fixed32 .ok .ok 0 0 fuel 0 s = .ub .diverges := by
    intro fuel
    induction fuel with
    | zero => intro s _; rfl
    | succ n ih =>
      intro s hs
      unfold espLoop
      rw [if_pos (by decide +kernel),
        errorAt_raw sw32 (x := 0) (e := 0) ⟨0, 0, rfl, rfl, by decide +kernel, by decide +kernel, by simp [val_zero]⟩]
      simp only [Res.bind_ok]
      rw [show addAssign fixed32 0 0 = .ok 0 by decide +kernel]
      simp only [Res.bind_ok]
      apply ih
      rw [hs]; simp only [lt_irrefl, if_false]; split <;> simp [hs]
  exact key fuel _ (by decide +kernel)

/-- C79: when `stop + step` leaves the range, the loop variable overflows. -/
theorem C79_overflow : ∃ fuel, measureEsp fixed32 .ok .ok (fun n => .ok (ofInt fixed32 n)) fuel (2 ^ 31 - 2) (2 ^ 31 - 1) 1 = .ub .overflow :=
  ⟨5, by decide +kernel⟩

example : fixed32.Valid ∧ SignedWide fixed32 ∧ Storable fixed32 (2 ^ fixed32.f) ∧ Storable fixed32 (3 + 2) ∧
    measureEsp fixed32 (fun x => .ok (x / 2)) .ok (fun n => .ok (ofInt fixed32 n)) 4 0 3 2 = .ok ⟨1, 0, 2, 0⟩ := by decide +kernel

end Eirin.Props
