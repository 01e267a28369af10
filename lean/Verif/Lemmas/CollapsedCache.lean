import Verif.Lemmas.CollapsedLarge

/-!
# Caches of vertical directions on collapsed surfaces
-/

set_option linter.unusedSectionVars false

namespace Verif.Collapsed

open Verif Spec Vertical

variable {T : Type} [CommRing T] [LinearOrder T] [IsStrictOrderedRing T]
variable {K : Type*} [Field K] [LinearOrder K] [IsStrictOrderedRing K]
variable {A : Option (Approx T K)} {C : Collapsed T}

/-- What is in the caches, where nothing is known about `parallel` and `orientation`. -/
structure Caches (C : Collapsed T) (V : Vertical T) : Prop where
  exact : Exact C V
  ccw : ∀ z < C.tri.size, ∀ x, V.ccw z = some x → x = Vec.ccwExact C.vertical (C.vec z)
  large : ∀ z < C.tri.size, ∀ x, V.large (z / 2) = some x → (x = true ↔ IsLarge C.seen C.vertical z)

theorem caches_make {V : Vertical T} (h : Vertical.make C.vertical = .ok V) : Caches C V := by
  unfold Vertical.make at h
  split_ifs at h
  injection h with h
  subst h
  exact ⟨⟨rfl, fun _ _ _ hx => (by cases hx)⟩, fun _ _ _ hx => (by cases hx), fun _ _ _ hx => (by cases hx)⟩

theorem perpendicular_caches (h : C.Good) {e : HE} (he : e < C.tri.size) {V : Vertical T} (hV : Caches C V) :
    (projectPerpendicularAt C.seen e V).1 = Vec.cross (C.vec e) C.vertical ∧ Caches C (projectPerpendicularAt C.seen e V).2 := by
  unfold projectPerpendicularAt
  simp only [bind, StateT.bind, get, getThe, MonadStateOf.get, StateT.get, pure]
  cases hc : V.perpendicular e with
  | some x => exact ⟨hV.exact.perpendicular e he x hc, hV⟩
  | none =>
    refine ⟨by rw [← hV.exact.vertical]; exact projectPerpendicular_eq _ _, ⟨hV.exact.vertical, ?_⟩, hV.ccw, hV.large⟩
    intro w hw x hx
    rcases oddSet_cases hx with ⟨rfl, h2⟩ | ⟨rfl, h2⟩ | ⟨h1, h2, h3⟩
    · injection h2 with h2
      rw [h2, projectPerpendicular_eq, hV.exact.vertical, h.cross_neg he]
      rfl
    · injection h2 with h2
      rw [h2, projectPerpendicular_eq, hV.exact.vertical]
      rfl
    · exact hV.exact.perpendicular w hw x h3

theorem parallel_caches {e : HE} {V : Vertical T} (hV : Caches C V) : Caches C (projectAt C.seen e V).2 := by
  unfold projectAt
  simp only [bind, StateT.bind, get, getThe, MonadStateOf.get, StateT.get, pure]
  cases hc : V.parallel e with
  | some x => exact hV
  | none => exact ⟨⟨hV.exact.vertical, hV.exact.perpendicular⟩, hV.ccw, hV.large⟩

theorem orientation_caches {e : HE} {V : Vertical T} (hV : Caches C V) : Caches C (orientationAt C.seen A e V).2 := by
  unfold orientationAt
  simp only [bind, StateT.bind, get, getThe, MonadStateOf.get, StateT.get, pure]
  cases hc : V.orientation e with
  | some x => exact hV
  | none => exact ⟨⟨hV.exact.vertical, hV.exact.perpendicular⟩, hV.ccw, hV.large⟩

theorem ccw_of_neg {u w w' : Vec T} (h : Vec.cross w' u = -Vec.cross w u) : Vec.ccwExact u w' = (Vec.ccwExact u w).opposite := by
  have hc : Vec.cross u w' = -Vec.cross u w := by rw [Vec.cross_comm w' u, Vec.cross_comm w u, h]
  rcases lt_trichotomy (Vec.cross u w) 0 with h | h | h
  · rw [Vec.ccwExact_clockwise.2 h, Vec.ccwExact_ccw.2 (by rw [hc]; linarith)]; rfl
  · rw [Vec.ccwExact_collinear.2 h, Vec.ccwExact_collinear.2 (by rw [hc]; linarith)]; rfl
  · rw [Vec.ccwExact_ccw.2 h, Vec.ccwExact_clockwise.2 (by rw [hc]; linarith)]; rfl

theorem ccw_caches (h : C.Good) {e : HE} (he : e < C.tri.size) {V : Vertical T} (hV : Caches C V) :
    (ccwAt C.seen A e V).1 = Vec.ccwExact C.vertical (C.vec e) ∧ Caches C (ccwAt C.seen A e V).2 := by
  unfold ccwAt
  simp only [bind, StateT.bind, get, getThe, MonadStateOf.get, StateT.get, pure]
  cases hc : V.ccw e with
  | some x => exact ⟨hV.ccw e he x hc, hV⟩
  | none =>
    refine ⟨by rw [← hV.exact.vertical]; exact Vec.ccw_eq A _ _, ⟨hV.exact.vertical, hV.exact.perpendicular⟩, ?_, hV.large⟩
    intro w hw x hx
    rcases oddSet_cases hx with ⟨rfl, h2⟩ | ⟨rfl, h2⟩ | ⟨h1, h2, h3⟩
    · injection h2 with h2
      rw [h2, Vec.ccw_eq, hV.exact.vertical, ccw_of_neg (h.cross_neg he)]
      rfl
    · injection h2 with h2
      rw [h2, Vec.ccw_eq, hV.exact.vertical]
      rfl
    · exact hV.ccw w hw x h3

/-- A query returns something that satisfies `P` and keeps the caches right. -/
def Keeps {α : Type} (C : Collapsed T) (m : StateM (Vertical T) α) (P : α → Prop) : Prop :=
  ∀ V, Caches C V → P (m V).1 ∧ Caches C (m V).2

theorem Keeps.bind {α β : Type} {m : StateM (Vertical T) α} {P : α → Prop} {k : α → StateM (Vertical T) β} {Q : β → Prop} (h : Keeps C m P)
    (hk : ∀ a, P a → Keeps C (k a) Q) : Keeps C (m >>= k) Q := fun V hV => hk _ (h V hV).1 _ (h V hV).2

theorem Keeps.pure {α : Type} {a : α} {P : α → Prop} (h : P a) : Keeps C (Pure.pure a) P := fun _ hV => ⟨h, hV⟩

theorem length_caches (h : C.Good) {e : HE} (he : e < C.tri.size) :
    Keeps C (lengthAt C.seen e) (· = horizontalLength C.seen C.vertical e) := by
  refine Keeps.bind (P := (· = Vec.cross (C.vec e) C.vertical)) (fun V hV => perpendicular_caches h he hV) ?_
  rintro _ rfl
  refine Keeps.pure ?_
  unfold horizontalLength
  split_ifs with h1
  · exact (abs_of_pos h1).symm
  · exact (abs_of_nonpos (not_lt.1 h1)).symm

theorem large_caches (h : C.Good) {e : HE} (he : e < C.tri.size) :
    Keeps C (largeAt C.seen e) (fun x => x = true ↔ IsLarge C.seen C.vertical e) := by
  have hn := h.neg_lt he
  have l1 := h.next_lt he
  have l2 := h.previous_lt he
  have l3 := h.next_lt hn
  have l4 := h.previous_lt hn
  intro V hV
  unfold largeAt
  change (fun x => x = true ↔ IsLarge C.seen C.vertical e) ((match V.large (e / 2) with
    | some x => (Pure.pure x : StateM (Vertical T) Bool)
    | none => _) V).1 ∧ Caches C ((match V.large (e / 2) with
    | some x => (Pure.pure x : StateM (Vertical T) Bool)
    | none => _) V).2
  cases hc : V.large (e / 2) with
  | some x => exact ⟨hV.large e he x hc, hV⟩
  | none =>
    simp only
    refine Keeps.bind (Q := fun x => x = true ↔ IsLarge C.seen C.vertical e) (length_caches h he) ?_ V hV
    rintro _ rfl
    refine Keeps.bind (P := fun x => x = true ↔ IsLarge C.seen C.vertical e) ?_ ?_
    · rw [h.isLarge_iff he]
      refine Keeps.bind (length_caches h l1) ?_
      rintro _ rfl
      change Keeps C (if (!decide (horizontalLength C.seen C.vertical e ≥ horizontalLength C.seen C.vertical (C.tri.nextInFace e))) = true then _
        else _) _
      by_cases h1 : horizontalLength C.seen C.vertical e ≥ horizontalLength C.seen C.vertical (C.tri.nextInFace e)
      swap
      · rw [if_pos (by simp [h1])]
        exact Keeps.pure ⟨fun hx => (by cases hx), fun hx => absurd hx.1 h1⟩
      rw [if_neg (by simp [h1])]
      refine Keeps.bind (length_caches h l2) ?_
      rintro _ rfl
      change Keeps C (if (!decide (horizontalLength C.seen C.vertical e ≥ horizontalLength C.seen C.vertical (C.tri.previousInFace e))) = true then _
        else _) _
      by_cases h2 : horizontalLength C.seen C.vertical e ≥ horizontalLength C.seen C.vertical (C.tri.previousInFace e)
      swap
      · rw [if_pos (by simp [h2])]
        exact Keeps.pure ⟨fun hx => (by cases hx), fun hx => absurd hx.2.1 h2⟩
      rw [if_neg (by simp [h2])]
      refine Keeps.bind (length_caches h l3) ?_
      rintro _ rfl
      change Keeps C (if (!decide (horizontalLength C.seen C.vertical e ≥ horizontalLength C.seen C.vertical (C.tri.nextInFace (neg e)))) = true then _
        else _) _
      by_cases h3 : horizontalLength C.seen C.vertical e ≥ horizontalLength C.seen C.vertical (C.tri.nextInFace (neg e))
      swap
      · rw [if_pos (by simp [h3])]
        exact Keeps.pure ⟨fun hx => (by cases hx), fun hx => absurd hx.2.2.1 h3⟩
      rw [if_neg (by simp [h3])]
      refine Keeps.bind (length_caches h l4) ?_
      rintro _ rfl
      refine Keeps.pure ?_
      rw [decide_eq_true_iff]
      exact ⟨fun hx => ⟨h1, h2, h3, hx⟩, fun hx => hx.2.2.2⟩
    · intro x hx
      refine Keeps.bind (P := fun _ => True) (fun V hV => ⟨trivial, ?_⟩) fun _ _ => Keeps.pure hx
      refine ⟨⟨hV.exact.vertical, hV.exact.perpendicular⟩, hV.ccw, fun z hz y hy => ?_⟩
      by_cases hze : z / 2 = e / 2
      · have : y = x := by
          change Function.update V.large (e / 2) (some x) (z / 2) = some y at hy
          rw [hze] at hy
          simpa using hy.symm
        rw [this, hx]
        have : z = e ∨ z = neg e := by
          have := neg_def e
          split_ifs at this <;> omega
        rcases this with rfl | rfl
        · rfl
        · exact (h.isLarge_neg he).symm
      · refine hV.large z hz y ?_
        change Function.update V.large (e / 2) (some x) (z / 2) = some y at hy
        rwa [Function.update_of_ne hze] at hy

end Verif.Collapsed
