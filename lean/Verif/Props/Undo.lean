import Verif.Props.Arith

/-! # Property C202: running totals do not drift -/

namespace Eirin.Props
open Spec

/-- One update `s += x` (first component true) or `s -= x`. -/
def update (F : FxTy) (s : Int) (u : Bool × Int) : Res Int := if u.1 then addAssign F s u.2 else subAssign F s u.2

/-- A sequence of updates. -/
def updates (F : FxTy) : Int → List (Bool × Int) → Res Int
  | s, [] => .ok s
  | s, u :: t => (update F s u).bind fun s' => updates F s' t

/-- The contribution of an update to the exact total. -/
def signedVal (F : FxTy) (u : Bool × Int) : ℚ := if u.1 then val F u.2 else -val F u.2

/-- The raw contribution. -/
def signedRaw (u : Bool × Int) : Int := if u.1 then u.2 else -u.2

/-- The opposite update. -/
def opposite (u : Bool × Int) : Bool × Int := (!u.1, u.2)

theorem update_nf {F : FxTy} (hF : F.Valid) {s : Int} {u : Bool × Int} (hs : Storable F s) (hu : Storable F u.2) :
    update F s u = if SignedWide F ∧ ¬ Storable F (s + signedRaw u) then .ub .overflow else .ok (F.T.wrap (s + signedRaw u)) := by
  obtain ⟨b, x⟩ := u
  cases b
  · show sub F s x = _
    rw [sub_nf hF hs hu]
    rfl
  · show add F s x = _
    rw [add_nf hF hs hu]
    rfl

theorem update_wrap {F : FxTy} (hF : F.Valid) {s z : Int} {u : Bool × Int} (hs : Storable F s) (hu : Storable F u.2) (h : update F s u = .ok z) :
    IsWrap F (s + signedRaw u) z ∧ (SignedWide F → z = s + signedRaw u) := by
  rw [update_nf hF hs hu] at h
  split at h
  · cases h
  · rename_i hc
    cases h
    have hw := isWrap_wrap hF (s + signedRaw u)
    refine ⟨hw, fun sw => ?_⟩
    have hS : Storable F (s + signedRaw u) := by
      by_contra hn; exact hc ⟨sw, hn⟩
    have h' : IsWrap F (s + signedRaw u) (s + signedRaw u) := ⟨hS, ⟨0, by simp⟩⟩
    exact isWrap_unique hF.tpos hw h'

theorem signedRaw_opposite (u : Bool × Int) : signedRaw (opposite u) = -signedRaw u := by
  obtain ⟨b, x⟩ := u
  cases b <;> simp [signedRaw, opposite]

theorem update_undo {F : FxTy} (hF : F.Valid) {s z : Int} {u : Bool × Int} (hs : Storable F s) (hu : Storable F u.2) (h : update F s u = .ok z) :
    update F z (opposite u) = .ok s := by
  obtain ⟨hw, he⟩ := update_wrap hF hs hu h
  have ho : Storable F (opposite u).2 := hu
  rw [update_nf hF hw.1 ho, signedRaw_opposite]
  have hw' : IsWrap F (z + -signedRaw u) s := by
    refine ⟨hs, ?_⟩
    have := hw.2
    rw [← Int.dvd_neg] at this
    convert this using 1
    ring
  rw [if_neg, isWrap_unique hF.tpos (isWrap_wrap hF _) hw']
  rintro ⟨sw, hn⟩
  rw [he sw, add_neg_cancel_right] at hn
  exact hn hs

theorem updates_append (F : FxTy) (l m : List (Bool × Int)) (s : Int) : updates F s (l ++ m) = (updates F s l).bind fun z => updates F z m := by
  induction l generalizing s with
  | nil => rfl
  | cons u t ih =>
    show (update F s u).bind (fun s' => updates F s' (t ++ m)) = ((update F s u).bind fun s' => updates F s' t).bind _
    cases h : update F s u with
    | ok z => exact ih z
    | ub k => rfl
    | throw e => rfl

/-- C202: on every layout, a running total that is updated any number of times is congruent to the exact total, and equal to it
whenever the exact total is representable. -/
theorem C202_total (F : FxTy) (hF : F.Valid) (l : List (Bool × Int)) (hl : ∀ u ∈ l, Storable F u.2) (s z : Int) (hs : Storable F s)
    (h : updates F s l = .ok z) :
    Storable F z ∧ IsWrap F (s + (l.map signedRaw).sum) z ∧
    (Representable F (val F s + (l.map (signedVal F)).sum) → val F z = val F s + (l.map (signedVal F)).sum) := by
  have key : ∀ (l : List (Bool × Int)), (∀ u ∈ l, Storable F u.2) → ∀ s z, Storable F s → updates F s l = .ok z → IsWrap F (s + (l.map signedRaw).sum) z := by
    intro l
    induction l with
    | nil => intro _ s z hs h; cases h; exact ⟨hs, ⟨0, by simp⟩⟩
    | cons u t ih =>
      intro hl s z hs h
      have hu := hl u (by simp)
      unfold updates at h
      cases e : update F s u with
      | ub k => rw [e] at h; cases h
      | throw k => rw [e] at h; cases h
      | ok w =>
        rw [e] at h
        obtain ⟨hw, -⟩ := update_wrap hF hs hu e
        obtain ⟨h1, h2⟩ := ih (fun v hv => hl v (by simp [hv])) w z hw.1 h
        refine ⟨h1, ?_⟩
        obtain ⟨c, hc⟩ := hw.2
        obtain ⟨d, hd⟩ := h2
        exact ⟨c + d, by rw [List.map_cons, List.sum_cons, mul_add, ← hc, ← hd]; ring⟩
  have hw := key l hl s z hs h
  have ev : val F s + (l.map (signedVal F)).sum = val F (s + (l.map signedRaw).sum) := by
    rw [val_add]
    congr 1
    clear hl h hw
    induction l with
    | nil => simp [val]
    | cons u t ih =>
      rw [List.map_cons, List.sum_cons, List.map_cons, List.sum_cons, val_add, ih]
      congr 1
      obtain ⟨b, x⟩ := u
      cases b <;> simp [signedVal, signedRaw, val_neg]
  refine ⟨hw.1, hw, fun hr => ?_⟩
  rw [ev] at hr ⊢
  rw [representable_iff] at hr
  have h' : IsWrap F (s + (l.map signedRaw).sum) (s + (l.map signedRaw).sum) := ⟨hr, ⟨0, by simp⟩⟩
  rw [isWrap_unique hF.tpos hw h']

/-- C202: undoing all updates in reverse order is defined and returns exactly to the start, on every layout. -/
theorem C202_undo (F : FxTy) (hF : F.Valid) (l : List (Bool × Int)) (hl : ∀ u ∈ l, Storable F u.2) (s z : Int) (hs : Storable F s)
    (h : updates F s l = .ok z) : updates F z (l.reverse.map opposite) = .ok s := by
  induction l generalizing s with
  | nil => cases h; rfl
  | cons u t ih =>
    have hu := hl u (by simp)
    unfold updates at h
    cases e : update F s u with
    | ub k => rw [e] at h; cases h
    | throw k => rw [e] at h; cases h
    | ok w =>
      rw [e] at h
      obtain ⟨hw, -⟩ := update_wrap hF hs hu e
      have := ih (fun v hv => hl v (by simp [hv])) w hw.1 h
      rw [List.reverse_cons, List.map_append, updates_append, this]
      show (update F w (opposite u)).bind (fun s' => Res.ok s') = _
      rw [update_undo hF hs hu e]
      rfl

/-- C202: on unsigned and narrow storage every sequence of updates is defined. -/
theorem C202_defined (F : FxTy) (hF : F.Valid) (hw : ¬ SignedWide F) (l : List (Bool × Int)) (hl : ∀ u ∈ l, Storable F u.2) (s : Int) (hs : Storable F s) :
    ∃ z, updates F s l = .ok z := by
  induction l generalizing s with
  | nil => exact ⟨s, rfl⟩
  | cons u t ih =>
    have e := update_nf hF hs (hl u (by simp))
    rw [if_neg fun h => hw h.1] at e
    obtain ⟨z, ez⟩ := ih (fun v hv => hl v (by simp [hv])) _ (isWrap_wrap hF (s + signedRaw u)).1
    refine ⟨z, ?_⟩
    unfold updates
    rw [e]
    exact ez

/-- C202: on signed storage of at least 32 bits it is defined exactly if no intermediate total leaves the range. -/
theorem C202_wide (F : FxTy) (hF : F.Valid) (hw : SignedWide F) (l : List (Bool × Int)) (hl : ∀ u ∈ l, Storable F u.2) (s : Int) (hs : Storable F s) :
    (∃ z, updates F s l = .ok z) ↔ ∀ m, m <+: l → Representable F (val F s + (m.map (signedVal F)).sum) := by
  have ev : ∀ u : Bool × Int, signedVal F u = val F (signedRaw u) := by
    rintro ⟨b, x⟩
    cases b <;> simp [signedVal, signedRaw, val_neg]
  induction l generalizing s with
  | nil =>
    refine ⟨fun _ m hm => ?_, fun _ => ⟨s, rfl⟩⟩
    rw [List.prefix_nil] at hm
    subst hm
    rw [List.map_nil, List.sum_nil, add_zero, representable_iff]
    exact hs
  | cons u t ih =>
    have e := update_nf hF hs (hl u (by simp))
    have hsp : ∀ m, val F s + ((u :: m).map (signedVal F)).sum = val F (s + signedRaw u) + (m.map (signedVal F)).sum := by
      intro m; rw [List.map_cons, List.sum_cons, val_add, ev]; ring
    by_cases hS : Storable F (s + signedRaw u)
    · rw [if_neg fun h => h.2 hS, IntTy.wrap_of_inRange hF.tpos hS] at e
      have := ih (fun v hv => hl v (by simp [hv])) (s + signedRaw u) hS
      unfold updates
      rw [e]
      refine this.trans ⟨fun h m hm => ?_, fun h m hm => ?_⟩
      · rcases List.prefix_cons_iff.1 hm with rfl | ⟨m', rfl, hm'⟩
        · rw [List.map_nil, List.sum_nil, add_zero, representable_iff]
          exact hs
        · rw [hsp]; exact h m' hm'
      · rw [← hsp]; exact h (u :: m) (List.prefix_cons_inj u |>.2 hm)
    · rw [if_pos ⟨hw, hS⟩] at e
      unfold updates
      rw [e]
      constructor
      · rintro ⟨z, h⟩; cases h
      · intro h
        have := h [u] ⟨t, rfl⟩
        rw [hsp, List.map_nil, List.sum_nil, add_zero, representable_iff] at this
        exact absurd this hS

example : updates fixed32 7 [(true, 100), (false, 3), (true, -2)] = .ok 102 ∧
    updates fixed32 102 ([(true, 100), (false, 3), (true, -2)].reverse.map opposite) = .ok 7 ∧
    updates ⟨u8, u16, 4, false⟩ 250 [(true, 10), (false, 20)] = .ok 240 := by decide +kernel

end Eirin.Props
