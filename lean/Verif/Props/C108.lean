import Verif.Lemmas.FlowComponent
import Verif.Lemmas.FlowExamples

/-!
# C108: holonomy of flow components
-/

namespace Verif.C108

open Verif Vec Vertical Spec FlowTriangulation FlowComponent Examples

variable {T : Type} [CommRing T] [LinearOrder T] [IsStrictOrderedRing T]

/-- The holonomy of a component consists of the translations that map the connections at the bottom that are not vertical, in the order
in which they show up in `bottom()`, to their counterparts at the top. -/
theorem holonomy_correct (dbg : Bool) {vec : HE → Vec T} {v : Vec T} {bottom top : List Connection}
    (h : Perimeter vec v bottom top) (hm : ∀ c ∈ bottom, c.kind = .bottom → ∃ d ∈ top, d.key = neg c.key ∧ d.kind = .top)
    {cs : List Connection} (hcs : ∀ c ∈ cs, c ∈ bottom) :
    ∃ hs, holonomy dbg vec cs (bottom ++ top) = .ok hs ∧
      List.Forall₂ (Translates vec (bottom ++ top)) (cs.filter fun c => c.kind = .bottom) hs :=
  holonomy_spec dbg h hm hcs

/-- A trajectory that closes up in positive time crosses some of the connections at the bottom, possibly several times. The distance it
travels, multiplied with the length of the vertical, is at least `heightRelative()`. -/
theorem height_bound (dbg : Bool) {vec : HE → Vec T} {v : Vec T} {bottom top cs : List Connection} {hs : List (Vec T)}
    (hh : holonomy dbg vec cs (bottom ++ top) = .ok hs) (hne : hs ≠ []) :
    ∃ y, heightRelative dbg vec v cs (bottom ++ top) = .ok y ∧ (∃ h ∈ hs, y = dot v h) ∧
      ∀ l : List (Vec T), l ≠ [] → (∀ h ∈ l, h ∈ hs) → 0 < dot v l.sum → y ≤ dot v l.sum := by
  obtain ⟨x, hx, h1, h2⟩ := maximum_spec (l := hs.map fun h => project v (-h)) (by simpa using hne)
  have hneg : ∀ h : Vec T, project v (-h) = -dot v h := by
    intro h
    unfold project
    simp only [dot, neg_x, neg_y]
    ring
  refine ⟨-x, ?_, ?_, fun l hl hls hp => ?_⟩
  · unfold heightRelative
    rw [hh]
    dsimp only
    rw [h1]
  · obtain ⟨h, hh, rfl⟩ := List.mem_map.1 hx
    exact ⟨h, hh, by rw [hneg, neg_neg]⟩
  · have hge : ∀ h ∈ l, -x ≤ dot v h := by
      intro h hh
      have := h2 _ (List.mem_map_of_mem (hls h hh))
      rw [hneg] at this
      linarith
    rcases le_or_gt (-x) 0 with hx0 | hx0
    · exact hx0.trans hp.le
    · obtain ⟨h, l, rfl⟩ := List.exists_cons_of_ne_nil hl
      have h3 := hge h (by simp)
      have h4 : 0 ≤ (l.map fun w => dot v w).sum := by
        refine List.sum_nonneg fun z hz => ?_
        obtain ⟨w, hw, rfl⟩ := List.mem_map.1 hz
        exact hx0.le.trans (hge w (by simp [hw]))
      rw [dot_sum, List.map_cons, List.sum_cons]
      linarith

/-- The torus: following the vertical flow from the bottom of its polygon leads to the top. -/
example : Perimeter flatTorus.vec ⟨1, 3⟩ torusBottom torusTop ∧
    (∀ c ∈ torusBottom, c.kind = .bottom → ∃ d ∈ torusTop, d.key = neg c.key ∧ d.kind = .top) ∧
    holonomy true flatTorus.vec torusBottom (torusBottom ++ torusTop) = .ok [⟨1, 1⟩, ⟨0, 1⟩] ∧
    heightRelative true flatTorus.vec ⟨1, 3⟩ torusBottom (torusBottom ++ torusTop) = .ok 3 :=
  ⟨torus_perimeter, by decide +kernel⟩

end Verif.C108
