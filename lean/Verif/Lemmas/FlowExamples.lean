import Verif.Lemmas.FlatExamples
import Verif.Spec.FlowTriangulation
import Mathlib.Data.List.Sublists

/-!
# Concrete perimeters
-/

namespace Verif.Examples

open Verif Vec Spec FlowTriangulation

/-- The conditions of `MonotonePolygon` in a form that can be evaluated. -/
theorem monotonePolygon {v : Vec ℤ} {bottom top : List (Vec ℤ)}
    (h : v ≠ 0 ∧ 3 ≤ bottom.length + top.length ∧ bottom.sum = top.sum ∧ (∀ w ∈ bottom ++ top, 0 ≤ cross w v) ∧
      (∀ w ∈ bottom.head?, 0 < cross w v) ∧ (∀ w ∈ top.getLast?, 0 < cross w v) ∧ (corners bottom top).Nodup ∧
      (∀ s ∈ List.sublistsLen 3 (corners bottom top), cross (s.getD 1 0 - s.getD 0 0) v = 0 →
        cross (s.getD 2 0 - s.getD 1 0) v = 0 → 0 < dot (s.getD 1 0 - s.getD 0 0) (s.getD 2 0 - s.getD 1 0)) ∧
      (∀ s ∈ sides 0 top, 0 < cross (s.2 - s.1) v → ∀ q ∈ (walk 0 bottom).dropLast,
        0 ≤ cross (q - s.1) v → 0 ≤ cross (s.2 - q) v → cross (s.2 - s.1) (q - s.1) < 0) ∧
      (∀ s ∈ sides 0 bottom, 0 < cross (s.2 - s.1) v → ∀ q ∈ (walk 0 top).dropLast,
        0 ≤ cross (q - s.1) v → 0 ≤ cross (s.2 - q) v → 0 < cross (s.2 - s.1) (q - s.1))) : MonotonePolygon v bottom top := by
  obtain ⟨h1, h2, h3, h4, h5, h6, h7, h8, h9, h10⟩ := h
  refine ⟨h1, h2, h3, h4, h5, h6, h7, fun p q r hs => ?_, h9, h10⟩
  exact h8 [p, q, r] (List.mem_sublistsLen.2 ⟨hs, rfl⟩)

/-- The torus, in a direction that is not the direction of an edge, has a single component. -/
def torusBottom : List Connection := [⟨3, .bottom⟩, ⟨4, .bottom⟩]
def torusTop : List Connection := [⟨2, .top⟩, ⟨5, .top⟩]

/-- The connections of two cylinders of different widths that are glued at their vertical boundaries. -/
def cylindersVec : HE → Vec ℤ
  | 0 => ⟨1, 0⟩ | 1 => ⟨-1, 0⟩ | 2 => ⟨0, 1⟩ | 3 => ⟨0, -1⟩ | 4 => ⟨2, 0⟩ | 5 => ⟨-2, 0⟩ | 6 => ⟨0, 1⟩ | 7 => ⟨0, -1⟩ | _ => 0

def cylinderBottom : List Connection := [⟨0, .bottom⟩, ⟨2, .parallel⟩]
def cylinderTop : List Connection := [⟨1, .top⟩, ⟨7, .antiparallel⟩]

theorem cylindersVec_odd (c : HE) : cylindersVec (neg c) = -cylindersVec c := by
  by_cases h : c < 8
  · revert c; decide
  · have h1 : ∀ c, ¬ c < 8 → cylindersVec c = 0 := by
      intro c hc
      unfold cylindersVec
      split <;> first | rfl | omega
    rw [h1 c h, h1]
    · rfl
    · rw [neg_def]; split <;> omega

theorem flatTorus_odd (c : HE) : flatTorus.vec (neg c) = -flatTorus.vec c := FlatTri.listed_neg _ c

theorem torus_perimeter : Perimeter flatTorus.vec ⟨1, 3⟩ torusBottom torusTop :=
  ⟨flatTorus_odd, by decide, by decide, by decide, monotonePolygon (by decide +kernel)⟩

theorem cylinder_perimeter : Perimeter cylindersVec ⟨0, 1⟩ cylinderBottom cylinderTop :=
  ⟨cylindersVec_odd, by decide, by decide, by decide, monotonePolygon (by decide +kernel)⟩

end Verif.Examples
