import Verif.Props.Undo
import Verif.Props.Sums

/-! # Property C222: elapsed time across a wrap of the clock -/

namespace Eirin.Props
open Spec

/-- `start = now; for(d : ticks) now += d; return now - start;`. -/
def elapsed (F : FxTy) (ticks : List Int) (start : Int) : Res Int := do
  let now ← sumFrom F start ticks
  sub F now start

/-- C222 (as one would expect it): the elapsed time is the sum of the ticks, whenever this sum is storable. -/
def C222_statement : Prop :=
  ∀ F : FxTy, F.Valid → ∀ (ticks : List Int) (start : Int), (∀ d ∈ ticks, Storable F d) → Storable F start → Storable F ticks.sum →
    elapsed F ticks start = .ok ticks.sum

/-- On `fixed32` the clock overflows. -/
theorem C222_false : ¬ C222_statement := by
  intro h
  have := h fixed32 (by decide) [65536] 2147450880 (by decide) (by decide) (by decide)
  rw [show elapsed fixed32 [65536] 2147450880 = .ub .overflow by decide +kernel] at this
  cases this

theorem clock_wrap {F : FxTy} (hF : F.Valid) (ticks : List Int) (h : ∀ d ∈ ticks, Storable F d) (s now : Int) (hs : Storable F s)
    (e : sumFrom F s ticks = .ok now) : IsWrap F (s + ticks.sum) now ∧ (SignedWide F → now = s + ticks.sum) := by
  induction ticks generalizing s with
  | nil => cases e; exact ⟨⟨by simpa using hs, by simp⟩, fun _ => by simp⟩
  | cons d l ih =>
    have sd := h d (by simp)
    unfold sumFrom at e
    cases hu : addAssign F s d with
    | ub u => rw [hu] at e; cases e
    | throw t => rw [hu] at e; cases e
    | ok s' =>
      rw [hu] at e
      have uu : update F s (true, d) = .ok s' := hu
      obtain ⟨⟨w1, w2⟩, w3⟩ := update_wrap hF hs sd uu
      obtain ⟨⟨i1, i2⟩, i3⟩ := ih (fun x hx => h x (by simp [hx])) s' w1 e
      have hraw : signedRaw (true, d) = d := rfl
      rw [hraw] at w2 w3
      rw [List.sum_cons]
      refine ⟨⟨i1, ?_⟩, fun hw => by rw [i3 hw, w3 hw]; ring⟩
      have := Int.dvd_add w2 i2
      rwa [show s + d - s' + (s' + l.sum - now) = s + (d + l.sum) - now by ring] at this

/-- C222 on every layout, rounding or not: if the clock ran without overflow, or wrapped around any number of times, the elapsed time is exactly the sum
of the ticks, whenever this sum is storable. -/
theorem C222_elapsed_partial (F : FxTy) (hF : F.Valid) (ticks : List Int) (start now : Int) (h : ∀ d ∈ ticks, Storable F d) (hs : Storable F start)
    (hsum : Storable F ticks.sum) (e : sumFrom F start ticks = .ok now) : elapsed F ticks start = .ok ticks.sum := by
  obtain ⟨⟨w1, w2⟩, w3⟩ := clock_wrap hF ticks h start now hs e
  unfold elapsed
  rw [e, Res.bind_ok, sub_nf hF w1 hs, if_neg]
  · have a : IsWrap F (now - start) ticks.sum := ⟨hsum, by
      have := (Int.dvd_neg (a := (2 : Int) ^ F.T.bits)).2 w2
      rwa [show -(start + ticks.sum - now) = now - start - ticks.sum by ring] at this⟩
    rw [isWrap_unique hF.tpos (isWrap_wrap hF (now - start)) a]
  · rintro ⟨hw, hn⟩
    refine hn ?_
    rw [w3 hw, show start + ticks.sum - start = ticks.sum by ring]
    exact hsum

/-- C222: on unsigned and on narrow storage the clock never overflows, so that the property holds without restriction. -/
theorem C222_wrapping_partial (F : FxTy) (hF : F.Valid) (hw : ¬ SignedWide F) (ticks : List Int) (start : Int) (h : ∀ d ∈ ticks, Storable F d)
    (hs : Storable F start) (hsum : Storable F ticks.sum) : elapsed F ticks start = .ok ticks.sum := by
  have key : ∀ (l : List Int), (∀ d ∈ l, Storable F d) → ∀ s, Storable F s → ∃ now, sumFrom F s l = .ok now := by
    intro l
    induction l with
    | nil => exact fun _ s _ => ⟨s, rfl⟩
    | cons d l ih =>
      intro hl s hs
      have e := update_nf (u := (true, d)) hF hs (hl d (by simp))
      rw [if_neg fun c => hw c.1] at e
      have e' : addAssign F s d = .ok (F.T.wrap (s + signedRaw (true, d))) := e
      obtain ⟨now, hn⟩ := ih (fun x hx => hl x (by simp [hx])) _ (isWrap_wrap hF (s + signedRaw (true, d))).1
      refine ⟨now, ?_⟩
      unfold sumFrom
      rw [e']
      exact hn
  obtain ⟨now, e⟩ := key ticks h start hs
  exact C222_elapsed_partial F hF ticks start now h hs hsum e

/-- The clock of an unsigned type wraps around from 65535.5 to 0.5. -/
example : sumFrom ⟨u32, u64, 16, false⟩ 4294934528 [32768, 32768] = .ok 32768 ∧
    elapsed ⟨u32, u64, 16, false⟩ [32768, 32768] 4294934528 = .ok 65536 := by decide +kernel

end Eirin.Props
