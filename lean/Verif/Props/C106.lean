import Verif.Lemmas.FlowResult
import Verif.Lemmas.FlowExamples

/-!
# C106: flow components can be triangulated
-/

namespace Verif.C106

open Verif Vec Spec FlowTriangulation Examples

variable {T : Type} [CommRing T] [LinearOrder T] [IsStrictOrderedRing T]
variable {K : Type*} [Field K] [LinearOrder K] [IsStrictOrderedRing K]

/-- When the perimeter of a flow component bounds a polygon, then the triangulation of the component can be constructed, with and
without assertions, and it is a triangulation of that polygon. -/
theorem triangulation_correct (A : Option (Approx T K)) (dbg : Bool) {vec : HE → Vec T} {v : Vec T} {bottom top : List Connection}
    (h : Perimeter vec v bottom top) : ∃ R, make A dbg vec v (bottom ++ top) = .ok R ∧ R.triangulation.tri.Reachable dbg ∧
      Triangulates vec ((bottom ++ top).map Connection.key) R := by
  obtain ⟨R, N, h1, h2, h3, -⟩ := make_spec A dbg h.odd h.nodup h.kindBottom h.kindTop (by
    have := h.polygon
    rw [List.map_map, ← List.map_reverse, List.map_map]
    exact this)
  exact ⟨R, h1, h2, h3⟩

/-- The only component of a torus; it is made of two triangles and has no boundary. -/
example : Perimeter flatTorus.vec ⟨1, 3⟩ torusBottom torusTop ∧
    (make (none : Option (Approx ℤ ℚ)) true flatTorus.vec ⟨1, 3⟩ (torusBottom ++ torusTop)).map
      (fun R => (R.triangulation.tri.facesList, R.triangulation.tri.halfEdges.map R.triangulation.vec)) =
      .ok (some [(4, 3, 0), (5, 2, 1)], [⟨0, -1⟩, ⟨0, 1⟩, ⟨1, 1⟩, ⟨-1, -1⟩, ⟨1, 2⟩, ⟨-1, -2⟩]) :=
  ⟨torus_perimeter, by decide +kernel⟩

/-- A cylinder whose vertical sides are not glued to each other. -/
example : Perimeter cylindersVec ⟨0, 1⟩ cylinderBottom cylinderTop ∧
    (make (none : Option (Approx ℤ ℚ)) true cylindersVec ⟨0, 1⟩ (cylinderBottom ++ cylinderTop)).map
      (fun R => (R.triangulation.tri.halfEdges.filter R.triangulation.tri.boundary)) = .ok [3, 5] :=
  ⟨cylinder_perimeter, by decide +kernel⟩

end Verif.C106
